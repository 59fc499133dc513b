import Verif.StringId.Model
import Mathlib.Tactic.Linarith
import Mathlib.Tactic.Ring

/-! # C03: string identifiers are lossless and collision free -/

namespace Verif.StringId

open Verif.Encode (ascii)

/-! ## Specification -/

/-- The characters that can be written with 5 and with 6 bits. -/
def Is5 (c : UInt8) : Prop := c ∈ ascii "abcdefghijklmnopqrstuvwxyz-256"
def Is6 (c : UInt8) : Prop := c ∈ ascii "abcdefghijklmnopqrstuvwxyz-0123456789ABCDEFGHIJKLMNOPQRSTUVWXYZ"

def Enc5 (s : List UInt8) : Prop := s ≠ [] ∧ s.length ≤ 12 ∧ ∀ c ∈ s, Is5 c
def Enc6 (s : List UInt8) : Prop := s ≠ [] ∧ s.length ≤ 10 ∧ ∀ c ∈ s, Is6 c

/-! ## Tables -/

theorem look_spec (bit : Bit) (c : UInt8) :
    (look bit.map c = 0 ∧ ¬ (match bit with | .b5 => Is5 c | .b6 => Is6 c)) ∨
    (0 < look bit.map c ∧ look bit.map c < 2 ^ bit.width ∧ bit.chars[look bit.map c]? = some c ∧
      (match bit with | .b5 => Is5 c | .b6 => Is6 c)) := by
  have key : ∀ bit : Bit, bit.map.length = 256 ∧ bit.map.zipIdx.all (fun p =>
      if p.1 = 0 then decide (UInt8.ofNat p.2 ∉ (match bit with
        | .b5 => ascii "abcdefghijklmnopqrstuvwxyz-256"
        | .b6 => ascii "abcdefghijklmnopqrstuvwxyz-0123456789ABCDEFGHIJKLMNOPQRSTUVWXYZ"))
      else decide (p.1 < 2 ^ bit.width) && bit.chars[p.1]? == some (UInt8.ofNat p.2) &&
        decide (UInt8.ofNat p.2 ∈ (match bit with
        | .b5 => ascii "abcdefghijklmnopqrstuvwxyz-256"
        | .b6 => ascii "abcdefghijklmnopqrstuvwxyz-0123456789ABCDEFGHIJKLMNOPQRSTUVWXYZ"))) = true := by
    intro bit; cases bit <;> decide +kernel
  obtain ⟨hlen, hall⟩ := key bit
  have hc : c.toNat < bit.map.length := by have := c.toNat_lt; omega
  rw [List.all_eq_true] at hall
  have h := hall (bit.map[c.toNat], c.toNat) (by rw [List.mem_zipIdx_iff_getElem?]; simp [hc])
  have hl : look bit.map c = bit.map[c.toNat] := by simp [look, hc]
  rw [hl]
  simp only [UInt8.ofNat_toNat] at h
  by_cases hz : bit.map[c.toNat] = 0
  · left
    rw [if_pos hz] at h
    refine ⟨hz, ?_⟩
    have h := of_decide_eq_true h
    cases bit <;> exact h
  · right
    rw [if_neg hz] at h
    simp only [Bool.and_eq_true, beq_iff_eq] at h
    refine ⟨by omega, of_decide_eq_true h.1.1, h.1.2, ?_⟩
    have h := of_decide_eq_true h.2
    cases bit <;> exact h

/-! ## Numeric value -/

/-- Characters as digits, least significant first. -/
def value (bit : Bit) : List UInt8 → Nat
  | [] => 0
  | c :: rest => look bit.map c + 2 ^ bit.width * value bit rest

theorem value_lt (bit : Bit) (s : List UInt8) : value bit s < 2 ^ (bit.width * s.length) := by
  induction s with
  | nil => simp [value]
  | cons c s ih =>
    have hl : look bit.map c < 2 ^ bit.width := by
      rcases look_spec bit c with h | h
      · rw [h.1]; positivity
      · exact h.2.1
    simp only [value, List.length_cons, Nat.mul_add, Nat.mul_one, Nat.pow_add]
    calc look bit.map c + 2 ^ bit.width * value bit s < 2 ^ bit.width + 2 ^ bit.width * value bit s := by omega
      _ = 2 ^ bit.width * (value bit s + 1) := by ring
      _ ≤ 2 ^ bit.width * 2 ^ (bit.width * s.length) := Nat.mul_le_mul_left _ ih
      _ = _ := by ring

theorem or_mul' {k x y : Nat} (h : y < 2 ^ k) : x * 2 ^ k ||| y = x * 2 ^ k + y := by
  rw [← Nat.shiftLeft_eq, ← Nat.shiftLeft_add_eq_or_of_lt h]

theorem num_lt (bit : Bit) : bit.num.toNat < 2 := by cases bit <;> decide

theorem pack_toNat (bit : Bit) (s : List UInt8) : ∀ i, 4 + bit.width * (i + s.length) ≤ 64 →
    (pack bit i s).toNat = bit.num.toNat + value bit s * 2 ^ (4 + bit.width * i) := by
  induction s with
  | nil => intro i _; simp [pack, value]
  | cons c s ih =>
    intro i hi
    have hl : look bit.map c < 2 ^ bit.width := by
      rcases look_spec bit c with h | h
      · rw [h.1]; positivity
      · exact h.2.1
    have hw : bit.width * (i + (c :: s).length) = bit.width * i + bit.width + bit.width * s.length := by
      simp only [List.length_cons]; ring
    have hwpos : 0 < bit.width := by cases bit <;> decide
    have hw6 : bit.width ≤ 6 := by cases bit <;> decide
    have hpow : 2 ^ bit.width ≤ 2 ^ 6 := Nat.pow_le_pow_right (by decide) hw6
    have hn := num_lt bit
    simp only [pack, value]
    rw [UInt64.toNat_or, UInt64.toNat_shiftLeft, ih (i + 1) (by rw [hw] at hi; simp only [Nat.mul_add, Nat.mul_one]; omega)]
    rw [UInt64.toNat_ofNat', UInt64.toNat_ofNat', Nat.mod_eq_of_lt (a := look bit.map c) (by omega),
      Nat.mod_eq_of_lt (a := 4 + bit.width * i) (by omega), Nat.mod_eq_of_lt (a := 4 + bit.width * i) (by omega),
      Nat.shiftLeft_eq]
    have hb : look bit.map c * 2 ^ (4 + bit.width * i) < 2 ^ (4 + bit.width * (i + 1)) := by
      calc _ < 2 ^ bit.width * 2 ^ (4 + bit.width * i) := Nat.mul_lt_mul_of_pos_right hl (by positivity)
        _ = _ := by rw [← Nat.pow_add]; congr 1; ring
    have h64 : look bit.map c * 2 ^ (4 + bit.width * i) < 2 ^ 64 := by
      refine Nat.lt_of_lt_of_le hb (Nat.pow_le_pow_right (by decide) ?_)
      rw [hw] at hi; simp only [Nat.mul_add, Nat.mul_one]; omega
    rw [Nat.mod_eq_of_lt h64]
    -- (num + A) ||| v * 2^k  with A a multiple of 2^(k+width)
    have h2k : 2 ≤ 2 ^ (4 + bit.width * i) := by
      calc 2 = 2 ^ 1 := rfl
        _ ≤ _ := Nat.pow_le_pow_right (by decide) (by omega)
    have h2k' : 2 ≤ 2 ^ (4 + bit.width * (i + 1)) := by
      calc 2 = 2 ^ 1 := rfl
        _ ≤ _ := Nat.pow_le_pow_right (by decide) (by omega)
    have hlow : look bit.map c * 2 ^ (4 + bit.width * i) + bit.num.toNat < 2 ^ (4 + bit.width * (i + 1)) := by
      have h1 : look bit.map c * 2 ^ (4 + bit.width * i) + 2 ^ (4 + bit.width * i) ≤
          2 ^ (4 + bit.width * (i + 1)) := by
        calc _ = (look bit.map c + 1) * 2 ^ (4 + bit.width * i) := by ring
          _ ≤ 2 ^ bit.width * 2 ^ (4 + bit.width * i) := Nat.mul_le_mul_right _ hl
          _ = _ := by rw [← Nat.pow_add]; congr 1; ring
      omega
    rw [Nat.add_comm, ← or_mul' (k := 4 + bit.width * (i + 1)) (by omega : bit.num.toNat < _), Nat.or_assoc,
      Nat.or_comm bit.num.toNat, or_mul' (x := look bit.map c) (by omega : bit.num.toNat < _), or_mul' hlow]
    have : 2 ^ (4 + bit.width * (i + 1)) = 2 ^ bit.width * 2 ^ (4 + bit.width * i) := by
      rw [← Nat.pow_add]; congr 1; ring
    rw [this]; ring

/-! ## Decoding -/

theorem mask_toNat (bit : Bit) (x : UInt64) : (x &&& bit.mask).toNat = x.toNat % 2 ^ bit.width := by
  rw [UInt64.toNat_and]
  cases bit
  · exact Nat.and_two_pow_sub_one_eq_mod _ 5
  · exact Nat.and_two_pow_sub_one_eq_mod _ 6

theorem shift_toNat (bit : Bit) (x : UInt64) :
    (x >>> UInt64.ofNat bit.width).toNat = x.toNat / 2 ^ bit.width := by
  rw [UInt64.toNat_shiftRight, Nat.shiftRight_eq_div_pow]
  cases bit <;> rfl

def Good (bit : Bit) (s : List UInt8) : Prop := ∀ c ∈ s, look bit.map c ≠ 0

theorem value_pos (bit : Bit) (s : List UInt8) (h : Good bit s) (hs : s ≠ []) : 0 < value bit s := by
  cases s with
  | nil => exact absurd rfl hs
  | cons c s => have := h c (by simp); simp only [value]; omega

theorem eq_zero_iff (x : UInt64) : x = 0 ↔ x.toNat = 0 := by
  rw [← UInt64.toNat_inj]; rfl

theorem unpack_value (bit : Bit) : ∀ (s : List UInt8) (n : Nat) (x : UInt64), s ≠ [] → s.length ≤ n → Good bit s →
    x.toNat = value bit s → unpack bit n x = .ok s := by
  intro s
  induction s with
  | nil => intro n x h; exact absurd rfl h
  | cons c s ih =>
    intro n x _ hn hg hx
    have hc0 := hg c (by simp)
    rcases look_spec bit c with h | ⟨_, hl, hchar, _⟩
    · exact absurd h.1 hc0
    have hmod : x.toNat % 2 ^ bit.width = look bit.map c := by
      rw [hx, value, Nat.add_mul_mod_self_left, Nat.mod_eq_of_lt hl]
    have hdiv : (x >>> UInt64.ofNat bit.width).toNat = value bit s := by
      rw [shift_toNat, hx, value, Nat.add_mul_div_left _ _ (by positivity), Nat.div_eq_of_lt hl]; omega
    have hchr : charAt bit x = .ok c := by
      unfold charAt; rw [mask_toNat, hmod, hchar]
    match n, hn with
    | 1, hn =>
      have : s = [] := by simp at hn; exact hn
      subst this
      have hz : x >>> UInt64.ofNat bit.width = 0 := by rw [eq_zero_iff, hdiv]; rfl
      simp [unpack, hchr, hz, bind, Except.bind, pure, Except.pure]
    | n + 2, hn =>
      simp only [unpack, hchr, bind, Except.bind, pure, Except.pure]
      by_cases hs : s = []
      · subst hs
        have hz : x >>> UInt64.ofNat bit.width = 0 := by rw [eq_zero_iff, hdiv]; rfl
        rw [if_pos hz]
      · have hg' : Good bit s := fun y hy => hg y (by simp [hy])
        have hnz : ¬ (x >>> UInt64.ofNat bit.width = 0) := by
          rw [eq_zero_iff, hdiv]; have := value_pos bit s hg' hs; omega
        rw [if_neg hnz, ih (n + 1) _ hs (by simp at hn; omega) hg' hdiv]

/-! ## Encoding results -/

theorem bitFromZN_cases (bit : Bit) (s : List UInt8) (hs : s ≠ []) :
    (bitFromZN bit s = .ok 0 ∧ ¬ (s.length ≤ bit.max ∧ Good bit s)) ∨
    (∃ id, bitFromZN bit s = .ok id ∧ id ≠ 0 ∧ s.length ≤ bit.max ∧ Good bit s ∧
      id.toNat = bit.num.toNat + value bit s * 16) := by
  have hl : ¬ s.length = 0 := by simpa using hs
  unfold bitFromZN
  rw [if_neg hl]
  by_cases hm : s.length > bit.max
  · rw [if_pos hm]; left; exact ⟨rfl, fun h => by omega⟩
  · rw [if_neg hm]
    by_cases ha : s.any (fun c => look bit.map c == 0) = true
    · rw [if_pos ha]; left
      refine ⟨rfl, fun h => ?_⟩
      rw [List.any_eq_true] at ha
      obtain ⟨c, hc, hz⟩ := ha
      exact h.2 c hc (by simpa using hz)
    · rw [if_neg ha]; right
      have hg : Good bit s := by
        intro c hc hz
        exact ha (List.any_eq_true.mpr ⟨c, hc, by simpa using hz⟩)
      have hp := pack_toNat bit s 0 (by cases bit <;> simp [Bit.max, Bit.width] at * <;> omega)
      refine ⟨_, rfl, ?_, by omega, hg, by simpa using hp⟩
      rw [Ne, eq_zero_iff, hp]
      have := value_pos bit s hg hs
      simp; omega

theorem good5 (s : List UInt8) : Good .b5 s ↔ ∀ c ∈ s, Is5 c := by
  constructor
  · intro h c hc
    rcases look_spec .b5 c with h' | h'
    · exact absurd h'.1 (h c hc)
    · exact h'.2.2.2
  · intro h c hc
    rcases look_spec .b5 c with h' | h'
    · exact absurd (h c hc) h'.2
    · omega

theorem good6 (s : List UInt8) : Good .b6 s ↔ ∀ c ∈ s, Is6 c := by
  constructor
  · intro h c hc
    rcases look_spec .b6 c with h' | h'
    · exact absurd h'.1 (h c hc)
    · exact h'.2.2.2
  · intro h c hc
    rcases look_spec .b6 c with h' | h'
    · exact absurd (h c hc) h'.2
    · omega

/-- What the encoder computes before the sequence is added. -/
theorem fromZN_none (s : List UInt8) (hs : s ≠ []) :
    (fromZN s none = .error .format ∧ ¬ Enc5 s ∧ ¬ Enc6 s) ∨
    (∃ (bit : Bit) (id : UInt64), fromZN s none = .ok id ∧ (bit = .b5 → Enc5 s) ∧ (bit = .b6 → Enc6 s ∧ ¬ Enc5 s) ∧
      s.length ≤ bit.max ∧ Good bit s ∧ id.toNat = bit.num.toNat + value bit s * 16) := by
  unfold fromZN
  rcases bitFromZN_cases .b5 s hs with ⟨h, hn⟩ | ⟨id, h, h0, hm, hg, hid⟩
  · have hn5 : ¬ Enc5 s := fun h' => hn ⟨h'.2.1, (good5 s).mpr h'.2.2⟩
    rcases bitFromZN_cases .b6 s hs with ⟨h', hn'⟩ | ⟨id, h', h0, hm, hg, hid⟩
    · left
      refine ⟨by simp [h, h', bind, Except.bind], hn5, fun h'' => hn' ⟨h''.2.1, (good6 s).mpr h''.2.2⟩⟩
    · right
      exact ⟨.b6, id, by simp [h, h', h0, bind, Except.bind, pure, Except.pure], by simp,
        fun _ => ⟨⟨hs, hm, (good6 s).mp hg⟩, hn5⟩, hm, hg, hid⟩
  · right
    exact ⟨.b5, id, by simp [h, h0, bind, Except.bind, pure, Except.pure],
      fun _ => ⟨hs, hm, (good5 s).mp hg⟩, by simp, hm, hg, hid⟩

theorem fromZN_some (s : List UInt8) (q : Nat) : fromZN s (some q) = (fromZN s none).bind (fun result =>
    if q < 6 then .ok (result ||| UInt64.ofNat ((q + 1) <<< 1))
    else
      if ¬ s.length < (if result &&& 1 ≠ 0 then 10 else 12) then .error .assert
      else if ¬ q ≤ 37 then .error .assert
      else .ok (((result >>> 1) <<< 6) ||| (UInt64.ofNat ((q - 6) <<< 4) ||| 0xE ||| (result &&& 1)))) := by
  unfold fromZN
  simp only [bind, Except.bind, pure, Except.pure]
  split <;> rename_i h1
  · rfl
  · split <;> rfl

theorem and1 (x : UInt64) : (x &&& 1).toNat = x.toNat % 2 := by
  rw [UInt64.toNat_and]; exact Nat.and_two_pow_sub_one_eq_mod _ 1

theorem bit_of_id (bit : Bit) (id : UInt64) (m : Nat) (h : id.toNat = bit.num.toNat + m * 2) :
    (if id &&& 1 = 0 then Bit.b5 else Bit.b6) = bit := by
  have h1 := and1 id
  cases bit
  · rw [if_pos]; rw [eq_zero_iff, h1, h]; simp [Bit.num]
  · rw [if_neg]; rw [eq_zero_iff, h1, h]; simp [Bit.num]

theorem andE_nat (x : Nat) : x &&& 0xE = x % 16 - x % 2 := by
  have h0 : x &&& 0xE = (x % 16) &&& 0xE := by
    rw [show x % 16 = x &&& 15 from (Nat.and_two_pow_sub_one_eq_mod x 4).symm, Nat.and_assoc]
    rfl
  have h1 : ∀ i : Fin 16, i.1 &&& 0xE = i.1 - i.1 % 2 := by decide
  have := h1 ⟨x % 16, Nat.mod_lt _ (by decide)⟩
  simp only at this
  rw [h0, this]; omega

theorem andE (x : UInt64) : (x &&& 0xE).toNat = x.toNat % 16 - x.toNat % 2 := by
  rw [UInt64.toNat_and]; exact andE_nat _

theorem andE_eq (x : UInt64) : x &&& 0xE = 0xE ↔ x.toNat % 16 - x.toNat % 2 = 14 := by
  rw [← UInt64.toNat_inj, andE]; rfl

/-- Numeric shape of every id the encoder returns. -/
theorem fromZN_shape (s : List UInt8) (sq : Option Nat) (id : UInt64) (h : fromZN s sq = .ok id) :
    ∃ bit : Bit, s ≠ [] ∧ s.length ≤ bit.max ∧ Good bit s ∧ (bit = .b5 → Enc5 s) ∧ (bit = .b6 → Enc6 s ∧ ¬ Enc5 s) ∧
      match sq with
      | none => id.toNat = bit.num.toNat + value bit s * 16
      | some q => if q < 6 then id.toNat = bit.num.toNat + (q + 1) * 2 + value bit s * 16
        else q ≤ 37 ∧ id.toNat = bit.num.toNat + 14 + (q - 6) * 16 + value bit s * 512 := by
  have hs : s ≠ [] := by
    rintro rfl
    cases sq <;> simp [fromZN, bitFromZN, bind, Except.bind] at h
  rcases fromZN_none s hs with ⟨he, _⟩ | ⟨bit, id0, he, h5, h6, hm, hg, hid⟩
  · cases sq with
    | none => rw [he] at h; simp at h
    | some q => rw [fromZN_some, he] at h; simp [Except.bind] at h
  · refine ⟨bit, hs, hm, hg, h5, h6, ?_⟩
    have hn := num_lt bit
    cases sq with
    | none => rw [he] at h; simp only [Except.ok.injEq] at h; subst h; exact hid
    | some q =>
      rw [fromZN_some, he] at h
      simp only [Except.bind] at h
      show (if q < 6 then _ else _)
      have hb1 : (id0 &&& 1).toNat = bit.num.toNat := by rw [and1, hid]; omega
      by_cases hq : q < 6
      · rw [if_pos hq] at h ⊢
        simp only [Except.ok.injEq] at h
        subst h
        rw [UInt64.toNat_or, hid, UInt64.toNat_ofNat', Nat.shiftLeft_eq, Nat.mod_eq_of_lt (by omega),
          Nat.add_comm, show (16 : Nat) = 2 ^ 4 from rfl, ← or_mul' (k := 4) (by omega), Nat.or_assoc,
          Nat.or_comm bit.num.toNat, or_mul' (k := 1) (by omega), or_mul' (k := 4) (by omega)]
        ring
      · rw [if_neg hq] at h ⊢
        by_cases hlen : s.length < (if id0 &&& 1 ≠ 0 then 10 else 12)
        · rw [if_neg (by simpa using hlen)] at h
          by_cases hq2 : q ≤ 37
          · rw [if_neg (by simpa using hq2)] at h
            simp only [Except.ok.injEq] at h
            subst h
            refine ⟨hq2, ?_⟩
            have hbound : value bit s * 512 < 2 ^ 64 := by
              have hv := value_lt bit s
              have hwl : bit.width * s.length ≤ 55 := by
                cases bit
                · have : id0 &&& 1 = 0 := by rw [eq_zero_iff, hb1]; rfl
                  simp only [this, ne_eq, not_true, if_false] at hlen
                  simp only [Bit.width]; omega
                · have : ¬ id0 &&& 1 = 0 := by rw [eq_zero_iff, hb1]; decide
                  simp only [this, ne_eq, not_false_eq_true, if_true] at hlen
                  simp only [Bit.width]; omega
              have : 2 ^ (bit.width * s.length) ≤ 2 ^ 55 := Nat.pow_le_pow_right (by decide) hwl
              omega
            have hshift : ((id0 >>> 1) <<< 6).toNat = value bit s * 512 := by
              rw [UInt64.toNat_shiftLeft, UInt64.toNat_shiftRight, Nat.shiftLeft_eq, Nat.shiftRight_eq_div_pow, hid]
              rw [show (1 : UInt64).toNat % 64 = 1 from rfl, show (6 : UInt64).toNat % 64 = 6 from rfl]
              omega
            have hlow : (UInt64.ofNat ((q - 6) <<< 4) ||| 0xE ||| (id0 &&& 1)).toNat =
                bit.num.toNat + 14 + (q - 6) * 16 := by
              rw [UInt64.toNat_or, UInt64.toNat_or, hb1, UInt64.toNat_ofNat', Nat.shiftLeft_eq,
                Nat.mod_eq_of_lt (by omega), Nat.or_assoc]
              have : (0xE : UInt64).toNat ||| bit.num.toNat = 14 + bit.num.toNat := by cases bit <;> rfl
              rw [this, or_mul' (k := 4) (by omega)]; ring
            rw [UInt64.toNat_or, hshift, hlow, show (512 : Nat) = 2 ^ 9 from rfl, or_mul' (k := 9) (by omega)]
            ring
          · rw [if_pos (by simpa using hq2)] at h; simp at h
        · rw [if_pos (by simpa using hlen)] at h; simp at h

/-! ## Theorems -/

/-- Every string that is encoded, with or without a sequence number, decodes to the same string. -/
theorem c03_roundtrip (s : List UInt8) (sq : Option Nat) (id : UInt64) (h : fromZN s sq = .ok id) :
    toZN id = .ok s := by
  obtain ⟨bit, hs, hm, hg, _, _, hid⟩ := fromZN_shape s sq id h
  have hn := num_lt bit
  have hv := value_pos bit s hg hs
  have hlt := value_lt bit s
  unfold toZN
  have key : ∃ m, id.toNat = bit.num.toNat + m * 2 ∧ 0 < m ∧
      (if id &&& 0xE = 0xE then id >>> 9 else id >>> 4).toNat = value bit s := by
    have h9 : (id >>> 9).toNat = id.toNat / 512 := by
      rw [UInt64.toNat_shiftRight, Nat.shiftRight_eq_div_pow]; rfl
    have h4 : (id >>> 4).toNat = id.toNat / 16 := by
      rw [UInt64.toNat_shiftRight, Nat.shiftRight_eq_div_pow]; rfl
    cases sq with
    | none =>
      simp only at hid
      refine ⟨value bit s * 8, by omega, by omega, ?_⟩
      rw [if_neg (by rw [andE_eq]; omega), h4]; omega
    | some q =>
      simp only at hid
      by_cases hq : q < 6
      · rw [if_pos hq] at hid
        refine ⟨q + 1 + value bit s * 8, by omega, by omega, ?_⟩
        rw [if_neg (by rw [andE_eq]; omega), h4]; omega
      · rw [if_neg hq] at hid
        refine ⟨7 + (q - 6) * 8 + value bit s * 256, by omega, by omega, ?_⟩
        rw [if_pos (by rw [andE_eq]; omega), h9]; omega
  obtain ⟨m, hm2, hmp, hbody⟩ := key
  rw [if_neg (by rw [eq_zero_iff]; omega)]
  simp only
  rw [bit_of_id bit id m hm2]
  exact unpack_value bit s bit.max _ hs hm hg hbody

/-- The sequence number can be read back; without one, reading it is an (assertion) error. -/
theorem c03_seq_roundtrip (s : List UInt8) (q : Nat) (id : UInt64) (h : fromZN s (some q) = .ok id) :
    seq id = .ok q := by
  obtain ⟨bit, hs, hm, hg, _, _, hid⟩ := fromZN_shape s (some q) id h
  have hn := num_lt bit
  unfold seq
  simp only at hid
  rw [andE_nat]
  by_cases hq : q < 6
  · rw [if_pos hq] at hid
    simp only
    rw [if_pos (by omega), if_neg (by omega), Nat.shiftRight_eq_div_pow]
    congr 1; omega
  · rw [if_neg hq] at hid
    simp only
    rw [if_neg (by omega)]
    have h1f0 : id.toNat % 2 ^ 32 &&& 0x1F0 = id.toNat % 512 / 16 * 16 := by
      have e1 : id.toNat % 2 ^ 32 &&& 0x1F0 = (id.toNat % 512) &&& 0x1F0 := by
        rw [show id.toNat % 512 = (id.toNat % 2 ^ 32) % 512 by omega,
          show (id.toNat % 2 ^ 32) % 512 = (id.toNat % 2 ^ 32) &&& 511 from
            (Nat.and_two_pow_sub_one_eq_mod _ 9).symm, Nat.and_assoc]
        rfl
      have e2 : ∀ i : Fin 512, i.1 &&& 0x1F0 = i.1 / 16 * 16 := by decide +kernel
      rw [e1]; exact e2 ⟨id.toNat % 512, Nat.mod_lt _ (by decide)⟩
    rw [h1f0, Nat.shiftRight_eq_div_pow]
    congr 1; omega

/-- Two different strings never share an id, whatever their sequence numbers; and two sequence numbers of the
same string give two ids. -/
theorem c03_injective (s t : List UInt8) (sq tq : Option Nat) (id : UInt64) (hs : fromZN s sq = .ok id)
    (ht : fromZN t tq = .ok id) : s = t ∧ sq = tq := by
  have hst : s = t := by
    have h1 := c03_roundtrip s sq id hs
    rw [c03_roundtrip t tq id ht] at h1
    exact (Except.ok.inj h1).symm
  refine ⟨hst, ?_⟩
  have hnone : ∀ u, fromZN u none = .ok id → seq id = .error .assert := by
    intro u hu
    obtain ⟨bit, _, _, _, _, _, hid⟩ := fromZN_shape u none id hu
    have hn := num_lt bit
    simp only at hid
    unfold seq
    rw [andE_nat]
    simp only
    rw [if_pos (by omega), if_pos (by omega)]
  cases sq with
  | none =>
    cases tq with
    | none => rfl
    | some q => have := hnone s hs; rw [c03_seq_roundtrip t q id ht] at this; simp at this
  | some p =>
    cases tq with
    | none => have := hnone t ht; rw [c03_seq_roundtrip s p id hs] at this; simp at this
    | some q =>
      have := c03_seq_roundtrip s p id hs
      rw [c03_seq_roundtrip t q id ht] at this
      rw [Except.ok.inj this]

/-- Exactly the strings over one of the two alphabets, within its size limit, are encoded; every other
non-empty string is rejected with a format error. The tag (bit 0) tells which alphabet is used. -/
theorem c03_accepted (s : List UInt8) (hs : s ≠ []) :
    (∃ id, fromZN s none = .ok id ∧ ((Enc5 s ∧ id.toNat % 2 = 0) ∨ (Enc6 s ∧ ¬ Enc5 s ∧ id.toNat % 2 = 1))) ∨
      (fromZN s none = .error .format ∧ ¬ Enc5 s ∧ ¬ Enc6 s) := by
  rcases fromZN_none s hs with h | ⟨bit, id, he, h5, h6, hm, hg, hid⟩
  · exact Or.inr h
  · left
    refine ⟨id, he, ?_⟩
    cases bit
    · left; exact ⟨h5 rfl, by rw [hid]; simp [Bit.num]; omega⟩
    · right; exact ⟨(h6 rfl).1, (h6 rfl).2, by rw [hid]; simp [Bit.num]; omega⟩

/-- A sequence number fits in every id for values below 6; values up to 37 fit unless the string already uses
all the characters of its encoding. -/
theorem c03_seq_accepted (s : List UInt8) (q : Nat) (h : Enc5 s ∨ Enc6 s) :
    (∃ id, fromZN s (some q) = .ok id) ↔
      (q < 6 ∨ (q ≤ 37 ∧ ((Enc5 s ∧ s.length < 12) ∨ (¬ Enc5 s ∧ s.length < 10)))) := by
  have hs : s ≠ [] := by rcases h with h | h <;> exact h.1
  rcases fromZN_none s hs with ⟨_, h5, h6⟩ | ⟨bit, id0, he, h5, h6, hm, hg, hid⟩
  · rcases h with h | h
    · exact absurd h h5
    · exact absurd h h6
  · rw [fromZN_some, he]
    simp only [Except.bind]
    by_cases hq : q < 6
    · simp [hq]
    · rw [if_neg hq]
      have hb1 : (id0 &&& 1).toNat = bit.num.toNat := by rw [and1, hid]; have := num_lt bit; omega
      have hlen : (s.length < if id0 &&& 1 ≠ 0 then 10 else 12) ↔
          ((Enc5 s ∧ s.length < 12) ∨ (¬ Enc5 s ∧ s.length < 10)) := by
        cases bit
        · have hz : id0 &&& 1 = 0 := by rw [eq_zero_iff, hb1]; rfl
          have := h5 rfl
          simp [hz, this]
        · have hz : ¬ id0 &&& 1 = 0 := by rw [eq_zero_iff, hb1]; decide
          have := (h6 rfl).2
          simp [hz, this]
      rw [← hlen]
      by_cases hl : s.length < (if id0 &&& 1 ≠ 0 then 10 else 12)
      · rw [if_neg (by simpa using hl)]
        by_cases hq2 : q ≤ 37
        · rw [if_neg (by simpa using hq2)]
          simp only [Except.ok.injEq, exists_eq', true_iff]; exact Or.inr ⟨hq2, hl⟩
        · rw [if_pos (by simpa using hq2)]
          simp only [reduceCtorEq, exists_const, false_iff, not_or, not_and]
          exact ⟨hq, fun h => absurd h hq2⟩
      · rw [if_pos (by simpa using hl)]
        simp only [reduceCtorEq, exists_const, false_iff, not_or, not_and]
        exact ⟨hq, fun _ => hl⟩

-- the value given in stringId.h:12, a 5-bit one with a high sequence, and a rejected one
example : fromZN (ascii "mytest0123") none = .ok 0x7de75c51315464d1 := by decide +kernel
example : toZN 0x7de75c51315464d1 = .ok (ascii "mytest0123") := by decide +kernel
example : ∃ id, fromZN (ascii "restore") (some 20) = .ok id ∧ seq id = .ok 20 := ⟨_, rfl, by decide +kernel⟩
example : fromZN (ascii "too_long!") none = .error .format := by decide +kernel

end Verif.StringId
