import Verif.Varint.Model
import Mathlib.Tactic.Ring
import Mathlib.Tactic.Linarith

namespace Verif.Varint

/-- Little endian base-128 digits with continuation bits, on natural numbers (proof device). -/
def enc (n : Nat) : List UInt8 :=
  if h : n ≥ 128 then UInt8.ofNat (n % 128 + 128) :: enc (n / 128) else [UInt8.ofNat n]
termination_by n

theorem enc_length_pos (n : Nat) : 1 ≤ (enc n).length := by
  rw [enc]; split <;> simp

theorem enc_length_le (k : Nat) : ∀ n, n < 128 ^ (k + 1) → (enc n).length ≤ k + 1 := by
  induction k with
  | zero => intro n h; rw [enc]; simp at h; simp [Nat.not_le.mpr h]
  | succ k ih =>
    intro n h
    rw [enc]
    split
    · have := ih (n / 128) (by rw [Nat.div_lt_iff_lt_mul (by norm_num)]; rw [pow_succ] at h; exact h)
      simp; omega
    · simp

theorem ofNat_and_or (n : Nat) : (n % 256) ||| 128 = n % 128 + 128 := by
  have h1 : n % 256 = (n % 256) / 128 * 128 + n % 128 := by omega
  have h2 : (n % 256) / 128 < 2 := by omega
  have hm : n % 128 < 2 ^ 7 := by omega
  rcases (show (n % 256) / 128 = 0 ∨ (n % 256) / 128 = 1 by omega) with h | h
  · rw [h1, h]
    have := Nat.two_pow_add_eq_or_of_lt hm 1
    simp at this
    rw [Nat.or_comm]
    simp
    omega
  · rw [h1, h]
    have := Nat.two_pow_add_eq_or_of_lt hm 1
    simp at this
    simp only [one_mul]
    rw [this, Nat.or_comm, ← Nat.or_assoc]
    simp
    omega

theorem toUInt8_or (v : UInt64) : v.toUInt8 ||| 0x80 = UInt8.ofNat (v.toNat % 128 + 128) := by
  apply UInt8.toNat_inj.mp
  rw [UInt8.toNat_or, UInt64.toNat_toUInt8]
  have : (0x80 : UInt8).toNat = 128 := rfl
  rw [this]
  rw [show (2:Nat)^8 = 256 from rfl, ofNat_and_or, UInt8.toNat_ofNat_of_lt']
  simp [UInt8.size]; omega

theorem go_eq (size : Nat) (v : UInt64) (out : List UInt8) (hs : out.length < size) :
    write.go size v out =
      if out.length + (enc v.toNat).length ≤ size then .ok (out ++ enc v.toNat) else .error .assert := by
  induction hn : v.toNat using Nat.strong_induction_on generalizing v out with
  | _ n ih =>
    rw [write.go, enc]
    by_cases h : v ≥ 0x80
    · have h' : n ≥ 128 := by
        have := (UInt64.le_iff_toNat_le (a := 0x80) (b := v)).mp h
        rw [hn] at this; exact this
      simp only [h, h', dite_true]
      have hsh : (v >>> 7).toNat = n / 128 := by
        rw [UInt64.toNat_shiftRight, hn, Nat.shiftRight_eq_div_pow]; rfl
      rw [toUInt8_or, hn]
      by_cases hlen : (out ++ [UInt8.ofNat (n % 128 + 128)]).length ≥ size
      · simp only [hlen, if_true]
        have := enc_length_pos (n / 128)
        rw [if_neg]
        simp at hlen ⊢; omega
      · simp only [hlen, if_false]
        rw [ih (n / 128) (by omega) (v >>> 7) _ (by simpa using hlen) hsh]
        simp only [List.length_append, List.length_cons, List.length_nil, List.append_assoc, List.cons_append,
          List.nil_append]
        congr 1
        simp only [eq_iff_iff]; omega
    · have h' : ¬ n ≥ 128 := by
        intro hc; apply h
        apply (UInt64.le_iff_toNat_le).mpr
        rw [hn]; exact hc
      simp only [h, h', dite_false, List.length_singleton]
      rw [if_pos (by omega)]
      congr 3
      apply UInt8.toNat_inj.mp
      rw [UInt64.toNat_toUInt8, hn]
      rw [UInt8.toNat_ofNat_of_lt' (by simp [UInt8.size]; omega)]
      omega

theorem write_eq (v : UInt64) (out : List UInt8) (size : Nat) :
    write v out size =
      if out.length + (enc v.toNat).length ≤ size then .ok (out ++ enc v.toNat) else .error .assert := by
  unfold write
  split
  · exact go_eq _ _ _ ‹_›
  · have := enc_length_pos v.toNat
    rw [if_neg (by omega)]

theorem digit_or {k r d : Nat} (hr : r < 2 ^ k) : r ||| (d <<< k) = r + d * 2 ^ k := by
  rw [Nat.or_comm, ← Nat.shiftLeft_add_eq_or_of_lt hr, Nat.shiftLeft_eq]; omega

theorem byte_and (b : UInt8) : (b &&& 0x7f).toNat = b.toNat % 128 := by
  rw [UInt8.toNat_and]
  exact Nat.and_two_pow_sub_one_eq_mod b.toNat 7

/-- One accumulation step of the reader, on naturals. -/
theorem acc_toNat (r : UInt64) (b : UInt8) (idx : Nat) (hidx : idx < 10) (hr : r.toNat < 2 ^ (7 * idx))
    (hv : r.toNat + b.toNat % 128 * 2 ^ (7 * idx) < 2 ^ 64) :
    (r ||| ((b &&& 0x7f).toUInt64 <<< (UInt64.ofNat (7 * idx)))).toNat =
      r.toNat + b.toNat % 128 * 2 ^ (7 * idx) := by
  rw [UInt64.toNat_or, UInt64.toNat_shiftLeft]
  have h1 : (UInt64.ofNat (7 * idx)).toNat % 64 = 7 * idx := by
    rw [UInt64.toNat_ofNat_of_lt' (by simp [UInt64.size]; omega)]; omega
  have h2 : ((b &&& 0x7f).toUInt64).toNat = b.toNat % 128 := by
    rw [UInt8.toNat_toUInt64, byte_and]
  rw [h1, h2]
  have h3 : (b.toNat % 128) <<< (7 * idx) % 2 ^ 64 = (b.toNat % 128) <<< (7 * idx) := by
    apply Nat.mod_eq_of_lt
    rw [Nat.shiftLeft_eq]; omega
  rw [h3, digit_or hr]

theorem readGo_enc : ∀ (fuel idx : Nat) (r : UInt64) (n : Nat) (s : List UInt8),
    idx + fuel = 10 → (enc n).length ≤ fuel → r.toNat < 2 ^ (7 * idx) → r.toNat + n * 2 ^ (7 * idx) < 2 ^ 64 →
    readGo fuel idx r (enc n ++ s) = .ok (UInt64.ofNat (r.toNat + n * 2 ^ (7 * idx)), s) := by
  intro fuel
  induction fuel with
  | zero => intro idx r n s _ h; have := enc_length_pos n; omega
  | succ fuel ih =>
    intro idx r n s hf hl hr hv
    rw [enc] at hl ⊢
    by_cases h : n ≥ 128
    · simp only [h, dite_true, List.length_cons] at hl
      simp only [h, dite_true, List.cons_append, readGo]
      set b := UInt8.ofNat (n % 128 + 128) with hb
      have hbn : b.toNat = n % 128 + 128 := by
        rw [hb, UInt8.toNat_ofNat_of_lt' (by simp [UInt8.size]; omega)]
      have hb128 : ¬ b < 0x80 := by
        rw [UInt8.lt_iff_toNat_lt, hbn]
        have : (0x80 : UInt8).toNat = 128 := rfl
        omega
      have hmod : b.toNat % 128 = n % 128 := by omega
      simp only [hb128, if_false]
      have hsplit : n = n / 128 * 128 + n % 128 := by omega
      have hpow : (2:Nat) ^ (7 * (idx + 1)) = 128 * 2 ^ (7 * idx) := by
        rw [show 7 * (idx + 1) = 7 + 7 * idx by ring, pow_add]; norm_num
      have hle : r.toNat + b.toNat % 128 * 2 ^ (7 * idx) + n / 128 * 2 ^ (7 * (idx + 1)) =
          r.toNat + n * 2 ^ (7 * idx) := by
        rw [hmod, hpow]
        conv_rhs => rw [hsplit]
        ring
      have hacc := acc_toNat r b idx (by omega) hr (by rw [← hle] at hv; omega)
      have hlt : r.toNat + b.toNat % 128 * 2 ^ (7 * idx) < 2 ^ (7 * (idx + 1)) := by
        rw [hpow]
        have : b.toNat % 128 ≤ 127 := by omega
        have := Nat.mul_le_mul_right (2 ^ (7 * idx)) this
        omega
      rw [ih (idx + 1) _ (n / 128) s (by omega) (by omega) (by rw [hacc]; exact hlt) (by rw [hacc, hle]; exact hv)]
      rw [hacc, hle]
    · simp only [h, dite_false, List.cons_append, List.nil_append, readGo]
      set b := UInt8.ofNat n with hb
      have hbn : b.toNat = n := by
        rw [hb, UInt8.toNat_ofNat_of_lt' (by simp [UInt8.size]; omega)]
      have hb128 : b < 0x80 := by
        rw [UInt8.lt_iff_toNat_lt, hbn]
        have : (0x80 : UInt8).toNat = 128 := rfl
        omega
      simp only [hb128, if_true]
      have hmod : b.toNat % 128 = n := by omega
      have hacc := acc_toNat r b idx (by omega) hr (by rw [hmod]; exact hv)
      rw [hmod] at hacc
      congr 2
      apply UInt64.toNat_inj.mp
      rw [hacc, UInt64.toNat_ofNat_of_lt']
      exact hv

/-- A proper prefix of an encoding is not accepted. -/
theorem readGo_prefix : ∀ (fuel idx : Nat) (r : UInt64) (n : Nat) (p q : List UInt8),
    enc n = p ++ q → q ≠ [] → readGo fuel idx r p = .error .format := by
  intro fuel
  induction fuel with
  | zero => intros; rfl
  | succ fuel ih =>
    intro idx r n p q he hq
    cases p with
    | nil => rfl
    | cons b p =>
      rw [enc] at he
      split at he
      · rename_i h
        simp only [List.cons_append, List.cons.injEq] at he
        obtain ⟨hb, he⟩ := he
        have hb128 : ¬ b < 0x80 := by
          rw [UInt8.lt_iff_toNat_lt, ← hb, UInt8.toNat_ofNat_of_lt' (by simp [UInt8.size]; omega)]
          have : (0x80 : UInt8).toNat = 128 := rfl
          omega
        simp only [readGo, hb128, if_false]
        exact ih _ _ (n / 128) p q he hq
      · simp only [List.cons_append, List.cons.injEq] at he
        have := he.2
        simp at this
        exact absurd this.2 hq

/-- What the reader consumes: at most `fuel` bytes, a maximal run of continuation bytes and one final byte. -/
theorem readGo_consumed : ∀ (fuel idx : Nat) (r : UInt64) (buf : List UInt8) (v : UInt64) (rest : List UInt8),
    readGo fuel idx r buf = .ok (v, rest) →
    ∃ (cont : List UInt8) (last : UInt8), buf = cont ++ last :: rest ∧ (∀ b ∈ cont, 0x80 ≤ b) ∧ last < 0x80 ∧
      cont.length + 1 ≤ fuel := by
  intro fuel
  induction fuel with
  | zero => intro idx r buf v rest h; simp [readGo] at h
  | succ fuel ih =>
    intro idx r buf v rest h
    cases buf with
    | nil => simp [readGo] at h
    | cons b buf =>
      simp only [readGo] at h
      split at h
      · rename_i hb
        simp only [Except.ok.injEq, Prod.mk.injEq] at h
        exact ⟨[], b, by simp [h.2], by simp, hb, by simp⟩
      · rename_i hb
        obtain ⟨cont, last, h1, h2, h3, h4⟩ := ih _ _ _ _ _ h
        refine ⟨b :: cont, last, by simp [h1], ?_, h3, by simp; omega⟩
        intro x hx
        rcases List.mem_cons.mp hx with rfl | hx
        · exact UInt8.not_lt.mp hb
        · exact h2 x hx

end Verif.Varint
