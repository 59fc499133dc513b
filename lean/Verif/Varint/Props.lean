import Verif.Varint.Lemmas
import Verif.Varint.ZigZagLemmas

/-! # C01: variable-length integer encoding is lossless -/

namespace Verif.Varint

/-! ## Specification -/

/-- The documented wire format: little endian base 128, seven bits per byte. -/
def leb128 : List UInt8 → Nat
  | [] => 0
  | b :: bs => b.toNat % 128 + 128 * leb128 bs

/-- A byte string is one complete varint: continuation bit set on every byte but the last. -/
def Framed (bs : List UInt8) : Prop :=
  ∃ (cont : List UInt8) (last : UInt8), bs = cont ++ [last] ∧ (∀ b ∈ cont, 0x80 ≤ b) ∧ last < 0x80

theorem leb128_enc (n : Nat) : leb128 (enc n) = n := by
  induction n using Nat.strong_induction_on with
  | _ n ih =>
    rw [enc]
    split
    · simp only [leb128]
      rw [ih (n / 128) (by omega), UInt8.toNat_ofNat_of_lt' (by simp [UInt8.size]; omega)]
      omega
    · simp only [leb128]
      rw [UInt8.toNat_ofNat_of_lt' (by simp [UInt8.size]; omega)]
      omega

theorem framed_enc (n : Nat) : Framed (enc n) := by
  induction n using Nat.strong_induction_on with
  | _ n ih =>
    rw [enc]
    have h128 : (0x80 : UInt8).toNat = 128 := rfl
    split
    · obtain ⟨cont, last, h1, h2, h3⟩ := ih (n / 128) (by omega)
      refine ⟨_ :: cont, last, by rw [h1]; rfl, ?_, h3⟩
      intro b hb
      rcases List.mem_cons.mp hb with rfl | hb
      · rw [UInt8.le_iff_toNat_le, UInt8.toNat_ofNat_of_lt' (by simp [UInt8.size]; omega), h128]; omega
      · exact h2 b hb
    · refine ⟨[], UInt8.ofNat n, rfl, by simp, ?_⟩
      rw [UInt8.lt_iff_toNat_lt, UInt8.toNat_ofNat_of_lt' (by simp [UInt8.size]; omega), h128]; omega

/-! ## Theorems -/

/-- Writing any value in a buffer with room for ten more bytes appends at most ten bytes, which are one framed
varint in the documented format, and reading them back, whatever follows, gives the value and stops exactly
after them. -/
theorem c01_write_read (v : UInt64) (out : List UInt8) (size : Nat) (hroom : out.length + 10 ≤ size) :
    ∃ bs, write v out size = .ok (out ++ bs) ∧ 1 ≤ bs.length ∧ bs.length ≤ 10 ∧ Framed bs ∧ leb128 bs = v.toNat ∧
      ∀ suffix, read (bs ++ suffix) = .ok (v, suffix) := by
  have hlen : (enc v.toNat).length ≤ 10 := enc_length_le 9 _ (by have := v.toNat_lt; norm_num; omega)
  refine ⟨enc v.toNat, ?_, enc_length_pos _, hlen, framed_enc _, leb128_enc _, ?_⟩
  · rw [write_eq, if_pos (by omega)]
  · intro suffix
    have := readGo_enc 10 0 0 v.toNat suffix rfl hlen (by simp) (by have := v.toNat_lt; simpa using this)
    simpa [read, bufferSizeMax] using this

example : ∃ (v : UInt64) (out : List UInt8), out.length + 10 ≤ 12 ∧ v.toNat = 2 ^ 64 - 1 :=
  ⟨0xffffffffffffffff, [7, 7], by decide, by decide⟩

/-- The writer never goes past the end of the buffer: it either fits or raises an assertion error, and it never
changes bytes already written. -/
theorem c01_write_in_bounds (v : UInt64) (out : List UInt8) (size : Nat) :
    (∃ bs, write v out size = .ok (out ++ bs) ∧ (out ++ bs).length ≤ size) ∨ write v out size = .error .assert := by
  rw [write_eq]
  split
  · left; exact ⟨_, rfl, by simpa using ‹_›⟩
  · right; rfl

/-- Any proper prefix of an encoding is rejected with a format error (end of data is always detected). -/
theorem c01_truncated (v : UInt64) (bs p q : List UInt8) (size : Nat) (hw : write v [] size = .ok bs)
    (hp : bs = p ++ q) (hq : q ≠ []) : read p = .error .format := by
  rw [write_eq] at hw
  split at hw
  · simp only [List.nil_append, Except.ok.injEq] at hw
    exact readGo_prefix 10 0 0 v.toNat p q (by rw [hw, hp]) hq
  · cases hw

example : ∃ (v : UInt64) (bs p q : List UInt8), write v [] 10 = .ok bs ∧ bs = p ++ q ∧ q ≠ [] ∧ p ≠ [] :=
  ⟨300, [0xac, 0x02], [0xac], [0x02], by rw [write_eq]; decide +kernel, rfl, by decide, by decide⟩

/-- Whatever the data, a successful read consumed one framed varint of at most ten bytes and left the rest
untouched; every other outcome is a format error. In particular the reader never looks past the data. -/
theorem c01_read_total (buf : List UInt8) :
    (∃ v used rest, read buf = .ok (v, rest) ∧ buf = used ++ rest ∧ Framed used ∧ used.length ≤ 10) ∨
      read buf = .error .format := by
  cases h : read buf with
  | ok p =>
    obtain ⟨v, rest⟩ := p
    obtain ⟨cont, last, h1, h2, h3, h4⟩ := readGo_consumed _ _ _ _ _ _ h
    left
    refine ⟨v, cont ++ [last], rest, rfl, by simp [h1], ⟨cont, last, rfl, h2, h3⟩, ?_⟩
    simp [bufferSizeMax] at h4 ⊢; omega
  | error e =>
    right
    suffices ∀ fuel idx r (b : List UInt8) e, readGo fuel idx r b = .error e → e = .format by
      rw [this _ _ _ _ _ h]
    intro fuel
    induction fuel with
    | zero => intro _ _ _ _ h; simp [readGo] at h; exact h.symm
    | succ fuel ih =>
      intro idx r b e h
      cases b with
      | nil => simp [readGo] at h; exact h.symm
      | cons b bs =>
        simp only [readGo] at h
        split at h
        · cases h
        · exact ih _ _ _ _ h

/-- Different values have different encodings. -/
theorem c01_injective (v w : UInt64) (bs : List UInt8) (hv : write v [] 10 = .ok bs) (hw : write w [] 10 = .ok bs) :
    v = w := by
  obtain ⟨a, ha, _, _, _, ha', _⟩ := c01_write_read v [] 10 (by simp)
  obtain ⟨b, hb, _, _, _, hb', _⟩ := c01_write_read w [] 10 (by simp)
  rw [hv] at ha; rw [hw] at hb
  simp only [List.nil_append, Except.ok.injEq] at ha hb
  subst ha; subst hb
  exact UInt64.toNat_inj.mp (ha' ▸ hb')

/-- Zig-zag order as documented in convert.h:72-75: 0, -1, 1, -2, 2, ... map to 0, 1, 2, 3, 4, ... -/
theorem c01_zigzag64_documented (v : Int64) : ((toZigZag64 v).toNat : Int) =
    if 0 ≤ v.toInt then 2 * v.toInt else -2 * v.toInt - 1 := by
  rw [toZigZag64_toNat]; split <;> push_cast <;> omega

/-- Zig-zag decoding inverts encoding on all 64-bit integers. -/
theorem c01_zigzag64_roundtrip (v : Int64) : fromZigZag64 (toZigZag64 v) = v := by
  apply Int64.toInt_inj.mp
  rw [fromZigZag64_toInt, toZigZag64_toNat]
  split <;> split <;> omega

/-- Zig-zag encoding inverts decoding: every unsigned word is the code of exactly one signed value. -/
theorem c01_zigzag64_surjective (v : UInt64) : toZigZag64 (fromZigZag64 v) = v := by
  apply UInt64.toNat_inj.mp
  rw [toZigZag64_toNat, fromZigZag64_toInt]
  split <;> split at * <;> omega

/-- 32-bit versions. -/
theorem c01_zigzag32_documented (v : Int32) : ((toZigZag32 v).toNat : Int) =
    if 0 ≤ v.toInt then 2 * v.toInt else -2 * v.toInt - 1 := by
  rw [toZigZag32_toNat]; split <;> push_cast <;> omega

theorem c01_zigzag32_roundtrip (v : Int32) : fromZigZag32 (toZigZag32 v) = v := by
  apply Int32.toInt_inj.mp
  rw [fromZigZag32_toInt, toZigZag32_toNat]
  split <;> split <;> omega

/-- A signed value written as zig-zag varint is read back exactly (the coding used for `i64`, time and LSN
deltas). -/
theorem c01_signed_roundtrip (v : Int64) (suffix : List UInt8) :
    ∃ bs, write (toZigZag64 v) [] 10 = .ok bs ∧
      (read (bs ++ suffix)).map (fun p => (fromZigZag64 p.1, p.2)) = .ok (v, suffix) := by
  obtain ⟨bs, h1, _, _, _, _, h2⟩ := c01_write_read (toZigZag64 v) [] 10 (by simp)
  refine ⟨bs, by simpa using h1, ?_⟩
  rw [h2]; simp [Except.map, c01_zigzag64_roundtrip]

end Verif.Varint
