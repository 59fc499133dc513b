import Verif.Encode.Model
import Mathlib.Data.List.Basic
import Mathlib.Tactic.Linarith

/-! # C02: base64 and hex encodings are lossless, the decoder accepts exactly the encoded language -/

namespace Verif.Encode

/-! ## Specification (RFC 4648), by arithmetic on the bit string seen as a number -/

/-- Base64 digits of a byte string: each group of three bytes is a 24-bit number written in base 64; an
incomplete group is padded with zero bits. -/
def digits64 : List UInt8 → List Nat
  | [] => []
  | [a] => let n := a.toNat * 16; [n / 64, n % 64]
  | [a, b] => let n := (a.toNat * 256 + b.toNat) * 4; [n / 4096, n / 64 % 64, n % 64]
  | a :: b :: c :: rest =>
    let n := (a.toNat * 256 + b.toNat) * 256 + c.toNat
    [n / 262144, n / 4096 % 64, n / 64 % 64, n % 64] ++ digits64 rest

/-- Number of pad characters needed after `n` bytes. -/
def padCount (n : Nat) : Nat := (3 - n % 3) % 3

/-- RFC 4648 alphabets, in digit order, and hex digits. -/
def alphabet64 : List Char := "ABCDEFGHIJKLMNOPQRSTUVWXYZabcdefghijklmnopqrstuvwxyz0123456789+/".toList
def alphabet64Url : List Char := "ABCDEFGHIJKLMNOPQRSTUVWXYZabcdefghijklmnopqrstuvwxyz0123456789-_".toList
def alphabetHex : List Char := "0123456789abcdef".toList

def chr (c : Char) : UInt8 := UInt8.ofNat c.toNat

def Is64 (c : UInt8) : Prop := c ∈ alphabet64.map chr
instance (c : UInt8) : Decidable (Is64 c) := inferInstanceAs (Decidable (c ∈ _))

/-- Hex digits, lower or upper case. -/
def IsHex (c : UInt8) : Prop := c ∈ ("0123456789abcdefABCDEF".toList).map chr
instance (c : UInt8) : Decidable (IsHex c) := inferInstanceAs (Decidable (c ∈ _))

/-- The accepted base64 language: alphabet characters followed by at most two `=`, length divisible by 4. -/
def Valid64 (s : List UInt8) : Prop :=
  s.length % 4 = 0 ∧ ∃ body p, s = body ++ p ∧ (p = [] ∨ p = [chr '='] ∨ p = [chr '=', chr '=']) ∧ ∀ c ∈ body, Is64 c

def ValidHex (s : List UInt8) : Prop := s.length % 2 = 0 ∧ ∀ c ∈ s, IsHex c

/-! ## Table facts (whole tables, lifted) -/

theorem look64 (i : Nat) (h : i < 64) : (alphabet64[i]?).map chr = some (look encodeBase64Lookup i) := by
  have : ∀ i : Fin 64, (alphabet64[i.1]?).map chr = some (look encodeBase64Lookup i.1) := by decide +kernel
  exact this ⟨i, h⟩

theorem look64Url (i : Nat) (h : i < 64) : (alphabet64Url[i]?).map chr = some (look encodeBase64LookupUrl i) := by
  have : ∀ i : Fin 64, (alphabet64Url[i.1]?).map chr = some (look encodeBase64LookupUrl i.1) := by decide +kernel
  exact this ⟨i, h⟩

theorem digit_look (sgn : Bool) (i : Nat) (h : i < 64) :
    digit sgn decodeBase64Lookup (look encodeBase64Lookup i) = .ok i ∧ look encodeBase64Lookup i ≠ pad ∧
      Is64 (look encodeBase64Lookup i) ∧ look encodeBase64Lookup i < 0x80 := by
  have h1 : ∀ i : Fin 64, ∀ sgn,
      (digit sgn decodeBase64Lookup (look encodeBase64Lookup i.1)).toOption = some i.1 ∧
      look encodeBase64Lookup i.1 ≠ pad ∧ Is64 (look encodeBase64Lookup i.1) ∧
      look encodeBase64Lookup i.1 < 0x80 := by decide +kernel
  obtain ⟨ha, hb⟩ := h1 ⟨i, h⟩ sgn
  refine ⟨?_, hb⟩
  generalize digit sgn decodeBase64Lookup (look encodeBase64Lookup i) = x at *
  cases x <;> simp_all [Except.toOption]

theorem is64_iff (c : UInt8) : Is64 c ↔ c ∈ encodeBase64Lookup := by
  have : alphabet64.map chr = encodeBase64Lookup := by decide +kernel
  unfold Is64; rw [this]

theorem isHex_iff (c : UInt8) : IsHex c ↔
    c ∈ [48, 49, 50, 51, 52, 53, 54, 55, 56, 57, 97, 98, 99, 100, 101, 102, 65, 66, 67, 68, 69, 70] := by
  have : ("0123456789abcdefABCDEF".toList).map chr =
    [48, 49, 50, 51, 52, 53, 54, 55, 56, 57, 97, 98, 99, 100, 101, 102, 65, 66, 67, 68, 69, 70] := by decide +kernel
  unfold IsHex; rw [this]

/-- A statement about every entry of a 256 entry table, checked entry by entry. -/
theorem forall_table (tbl : List Int) (f : Nat → Int → Bool) (hlen : tbl.length = 256)
    (h : tbl.zipIdx.all (fun p => f p.2 p.1) = true) (c : UInt8) : ∃ v, tbl[c.toNat]? = some v ∧ f c.toNat v = true := by
  have hc : c.toNat < tbl.length := by have := c.toNat_lt; omega
  refine ⟨tbl[c.toNat], by simp [hc], ?_⟩
  rw [List.all_eq_true] at h
  exact h (tbl[c.toNat], c.toNat) (by rw [List.mem_zipIdx_iff_getElem?]; simp [hc])

/-- The decode table: alphabet characters have a digit below 64, all others are -1. -/
theorem table64 (c : UInt8) : ∃ v, decodeBase64Lookup[c.toNat]? = some v ∧
    ((Is64 c ∧ 0 ≤ v ∧ v < 64 ∧ look encodeBase64Lookup v.toNat = c) ∨ (¬ Is64 c ∧ v = -1)) := by
  obtain ⟨v, hv, h⟩ := forall_table decodeBase64Lookup (fun n v =>
    if v = -1 then decide (UInt8.ofNat n ∉ encodeBase64Lookup) else
      decide (0 ≤ v) && decide (v < 64) && encodeBase64Lookup[v.toNat]? == some (UInt8.ofNat n))
    (by decide +kernel) (by decide +kernel) c
  refine ⟨v, hv, ?_⟩
  rw [is64_iff]
  by_cases hm : v = -1
  · right; rw [if_pos hm] at h; simpa [hm] using h
  · left
    rw [if_neg hm] at h
    simp only [Bool.and_eq_true, decide_eq_true_eq, beq_iff_eq, UInt8.ofNat_toNat] at h
    exact ⟨List.mem_of_getElem? h.2, h.1.1, h.1.2, by simp [look, h.2]⟩

theorem tableHex (c : UInt8) : ∃ v, decodeHexLookup[c.toNat]? = some v ∧
    ((IsHex c ∧ 0 ≤ v ∧ v < 16) ∨ (¬ IsHex c ∧ v = -1)) := by
  obtain ⟨v, hv, h⟩ := forall_table decodeHexLookup (fun n v => if v = -1 then decide (UInt8.ofNat n ∉
      [48, 49, 50, 51, 52, 53, 54, 55, 56, 57, 97, 98, 99, 100, 101, 102, 65, 66, 67, 68, 69, 70]) else
      decide (0 ≤ v) && decide (v < 16) && decide (UInt8.ofNat n ∈
      [48, 49, 50, 51, 52, 53, 54, 55, 56, 57, 97, 98, 99, 100, 101, 102, 65, 66, 67, 68, 69, 70]))
    (by decide +kernel) (by decide +kernel) c
  refine ⟨v, hv, ?_⟩
  rw [isHex_iff]
  by_cases hm : v = -1
  · right; rw [if_pos hm, UInt8.ofNat_toNat, decide_eq_true_eq] at h; exact ⟨h, hm⟩
  · left
    rw [if_neg hm] at h
    simp only [Bool.and_eq_true, decide_eq_true_eq, UInt8.ofNat_toNat] at h
    exact ⟨h.2, h.1.1, h.1.2⟩

theorem pad_not64 : ¬ Is64 pad := by decide +kernel
theorem pad_eq : pad = chr '=' := by decide

/-! ## Index arithmetic -/

theorem and3 (a : Nat) : a &&& 0x03 = a % 4 := Nat.and_two_pow_sub_one_eq_mod a 2
theorem and15 (a : Nat) : a &&& 0x0f = a % 16 := Nat.and_two_pow_sub_one_eq_mod a 4
theorem and63 (a : Nat) : a &&& 0x3f = a % 64 := Nat.and_two_pow_sub_one_eq_mod a 6
theorem andf0 (a : Nat) (h : a < 256) : (a &&& 0xf0) >>> 4 = a / 16 := by
  have : ∀ i : Fin 256, (i.1 &&& 0xf0) >>> 4 = i.1 / 16 := by decide +kernel
  exact this ⟨a, h⟩
theorem andc0 (a : Nat) (h : a < 256) : (a &&& 0xc0) >>> 6 = a / 64 := by
  have : ∀ i : Fin 256, (i.1 &&& 0xc0) >>> 6 = i.1 / 64 := by decide +kernel
  exact this ⟨a, h⟩
theorem or_mul {k x y : Nat} (h : y < 2 ^ k) : (x <<< k) ||| y = x * 2 ^ k + y := by
  rw [← Nat.shiftLeft_add_eq_or_of_lt h, Nat.shiftLeft_eq]

theorem idx0 (a : UInt8) : a.toNat >>> 2 = a.toNat / 4 := by rw [Nat.shiftRight_eq_div_pow]
theorem idx1 (a b : UInt8) :
    ((a.toNat &&& 0x03) <<< 4) ||| ((b.toNat &&& 0xf0) >>> 4) = a.toNat % 4 * 16 + b.toNat / 16 := by
  have := b.toNat_lt
  rw [andf0 _ (by omega), and3, or_mul (by omega)]; rfl
theorem idx2 (b c : UInt8) :
    ((b.toNat &&& 0x0f) <<< 2) ||| ((c.toNat &&& 0xc0) >>> 6) = b.toNat % 16 * 4 + c.toNat / 64 := by
  have := c.toNat_lt
  rw [andc0 _ (by omega), and15, or_mul (by omega)]; rfl

/-! ## Encoder -/

theorem digits64_lt (bs : List UInt8) : ∀ d ∈ digits64 bs, d < 64 := by
  induction bs using digits64.induct with
  | case1 => simp [digits64]
  | case2 a => have := a.toNat_lt; simp [digits64]; omega
  | case3 a b => have := a.toNat_lt; have := b.toNat_lt; simp [digits64]; omega
  | case4 a b c rest ih =>
    have := a.toNat_lt; have := b.toNat_lt; have := c.toNat_lt
    intro d hd
    simp only [digits64, List.cons_append, List.nil_append, List.mem_cons] at hd
    rcases hd with rfl | rfl | rfl | rfl | hd
    · omega
    · omega
    · omega
    · omega
    · exact ih d hd

/-- The encoder writes the RFC 4648 digits followed by the right amount of padding. -/
theorem encode64_eq (tbl : List UInt8) (padded : Bool) (bs : List UInt8) :
    encode64 tbl padded bs =
      (digits64 bs).map (look tbl) ++ (if padded then List.replicate (padCount bs.length) pad else []) := by
  induction bs using digits64.induct with
  | case1 => simp [digits64, encode64, padCount]
  | case2 a =>
    have := a.toNat_lt
    simp only [digits64, encode64, idx0, and3, Nat.shiftLeft_eq, padCount]
    rw [show a.toNat * 16 / 64 = a.toNat / 4 by omega, show a.toNat * 16 % 64 = a.toNat % 4 * 2 ^ 4 by omega]
    simp [List.replicate]
  | case3 a b =>
    have := a.toNat_lt; have := b.toNat_lt
    simp only [digits64, encode64, idx0, idx1, and15, Nat.shiftLeft_eq (b.toNat % 16), padCount]
    rw [show (a.toNat * 256 + b.toNat) * 4 / 4096 = a.toNat / 4 by omega,
      show (a.toNat * 256 + b.toNat) * 4 / 64 % 64 = a.toNat % 4 * 16 + b.toNat / 16 by omega,
      show (a.toNat * 256 + b.toNat) * 4 % 64 = b.toNat % 16 * 2 ^ 2 by omega]
    simp
  | case4 a b c rest ih =>
    have := a.toNat_lt; have := b.toNat_lt; have := c.toNat_lt
    have hp : padCount (a :: b :: c :: rest).length = padCount rest.length := by
      simp only [padCount, List.length_cons]; omega
    rw [hp]
    simp only [digits64, encode64, idx0, idx1, idx2, and63, ih]
    rw [show ((a.toNat * 256 + b.toNat) * 256 + c.toNat) / 262144 = a.toNat / 4 by omega,
      show ((a.toNat * 256 + b.toNat) * 256 + c.toNat) / 4096 % 64 = a.toNat % 4 * 16 + b.toNat / 16 by omega,
      show ((a.toNat * 256 + b.toNat) * 256 + c.toNat) / 64 % 64 = b.toNat % 16 * 4 + c.toNat / 64 by omega,
      show ((a.toNat * 256 + b.toNat) * 256 + c.toNat) % 64 = c.toNat % 64 by omega]
    simp

theorem digits64_length (bs : List UInt8) : (digits64 bs).length = sizeBase64Url bs.length := by
  induction bs using digits64.induct with
  | case1 => rfl
  | case2 a => simp [digits64, sizeBase64Url]
  | case3 a b => simp [digits64, sizeBase64Url]
  | case4 a b c rest ih =>
    simp only [digits64, List.length_append, List.length_cons, List.length_nil, ih, sizeBase64Url]
    split <;> split <;> omega

/-! ## Theorems: base64 -/

/-- base64 output is the RFC 4648 encoding: digits of the alphabet, then `=` padding. -/
theorem c02_base64_format (bs : List UInt8) :
    encodeBase64 bs = (digits64 bs).map (fun d => (((alphabet64[d]?).map chr).getD 0)) ++
      List.replicate (padCount bs.length) (chr '=') := by
  rw [encodeBase64, encode64_eq, if_pos rfl, ← pad_eq]
  congr 1
  apply List.map_congr_left
  intro d hd
  rw [look64 d (digits64_lt bs d hd)]; rfl

/-- base64url output is the RFC 4648 URL safe encoding without padding. -/
theorem c02_base64url_format (bs : List UInt8) :
    encodeBase64Url bs = (digits64 bs).map (fun d => (((alphabet64Url[d]?).map chr).getD 0)) := by
  rw [encodeBase64Url, encode64_eq]
  simp only [Bool.false_eq_true, if_false, List.append_nil]
  apply List.map_congr_left
  intro d hd
  rw [look64Url d (digits64_lt bs d hd)]; rfl

/-- The announced sizes are the actual sizes. -/
theorem c02_base64_size (bs : List UInt8) : (encodeBase64 bs).length = sizeBase64 bs.length := by
  rw [encodeBase64, encode64_eq]
  simp only [if_true, List.length_append, List.length_map, List.length_replicate, digits64_length, sizeBase64Url,
    sizeBase64, padCount]
  split <;> omega

theorem c02_base64url_size (bs : List UInt8) : (encodeBase64Url bs).length = sizeBase64Url bs.length := by
  rw [encodeBase64Url, encode64_eq]
  simp [digits64_length]

/-- Decoding loop on digits that come from the encoder. -/
theorem decodeLoop_encode (sgn : Bool) (bs : List UInt8) :
    decodeBase64Loop sgn (encode64 encodeBase64Lookup true bs) = .ok bs := by
  induction bs using digits64.induct with
  | case1 => rfl
  | case2 a =>
    have ha := a.toNat_lt
    simp only [encode64, idx0, and3, Nat.shiftLeft_eq, if_true, List.cons_append, List.nil_append, decodeBase64Loop]
    rw [(digit_look sgn (a.toNat / 4) (by omega)).1, (digit_look sgn (a.toNat % 4 * 2 ^ 4) (by omega)).1]
    simp only [bind, Except.bind, pure, Except.pure, ne_eq, not_true, if_false, List.append_nil]
    rw [Nat.shiftRight_eq_div_pow, ← Nat.shiftLeft_eq (a.toNat / 4), or_mul (by omega)]
    congr 2
    apply UInt8.toNat_inj.mp
    rw [UInt8.toNat_ofNat_of_lt' (by simp [UInt8.size]; omega)]
    omega
  | case3 a b =>
    have ha := a.toNat_lt; have hb := b.toNat_lt
    simp only [encode64, idx0, idx1, and15, Nat.shiftLeft_eq (b.toNat % 16), if_true, List.cons_append, List.nil_append,
      decodeBase64Loop]
    have h2 := digit_look sgn (b.toNat % 16 * 2 ^ 2) (by omega)
    rw [(digit_look sgn (a.toNat / 4) (by omega)).1,
      (digit_look sgn (a.toNat % 4 * 16 + b.toNat / 16) (by omega)).1, h2.1]
    simp only [bind, Except.bind, pure, Except.pure, ne_eq, not_true, if_false, List.append_nil, h2.2.1,
      not_false_eq_true, if_true, List.cons_append, List.nil_append]
    rw [Nat.shiftRight_eq_div_pow, Nat.shiftRight_eq_div_pow, or_mul (x := a.toNat / 4) (by omega),
      or_mul (x := a.toNat % 4 * 16 + b.toNat / 16) (by omega)]
    congr 2
    · apply UInt8.toNat_inj.mp
      rw [UInt8.toNat_ofNat_of_lt' (by simp [UInt8.size]; omega)]
      omega
    · congr 1
      apply UInt8.toNat_inj.mp
      rw [UInt8.toNat_ofNat']
      omega
  | case4 a b c rest ih =>
    have ha := a.toNat_lt; have hb := b.toNat_lt; have hc := c.toNat_lt
    simp only [encode64, idx0, idx1, idx2, and63, List.cons_append, List.nil_append, decodeBase64Loop]
    have h2 := digit_look sgn (b.toNat % 16 * 4 + c.toNat / 64) (by omega)
    have h3 := digit_look sgn (c.toNat % 64) (by omega)
    rw [(digit_look sgn (a.toNat / 4) (by omega)).1,
      (digit_look sgn (a.toNat % 4 * 16 + b.toNat / 16) (by omega)).1, h2.1, h3.1, ih]
    simp only [bind, Except.bind, pure, Except.pure, ne_eq, h2.2.1, h3.2.1,
      not_false_eq_true, if_true, List.cons_append, List.nil_append]
    have hand : ((b.toNat % 16 * 4 + c.toNat / 64) <<< 6) &&& 0xc0 = (c.toNat / 64) <<< 6 := by
      have : ∀ x : Fin 64, (x.1 <<< 6) &&& 0xc0 = (x.1 % 4) <<< 6 := by decide +kernel
      have := this ⟨b.toNat % 16 * 4 + c.toNat / 64, by omega⟩
      simp only at this
      rw [this]; congr 1; omega
    rw [hand, or_mul (x := c.toNat / 64) (by omega), Nat.shiftRight_eq_div_pow, Nat.shiftRight_eq_div_pow,
      or_mul (x := a.toNat / 4) (by omega), or_mul (x := a.toNat % 4 * 16 + b.toNat / 16) (by omega)]
    congr 2
    · apply UInt8.toNat_inj.mp
      rw [UInt8.toNat_ofNat_of_lt' (by simp [UInt8.size]; omega)]
      omega
    · congr 1
      · apply UInt8.toNat_inj.mp
        rw [UInt8.toNat_ofNat']
        omega
      · congr 1
        apply UInt8.toNat_inj.mp
        rw [UInt8.toNat_ofNat_of_lt' (by simp [UInt8.size]; omega)]
        omega

/-! ### Accepted language -/

def TailOk (s : List UInt8) : Prop :=
  ∃ body p, s = body ++ p ∧ (p = [] ∨ p = [pad] ∨ p = [pad, pad]) ∧ ∀ c ∈ body, Is64 c

theorem tailOk_cons3 (c d e : UInt8) (r : List UInt8) :
    TailOk (c :: d :: e :: r) ↔ Is64 c ∧ TailOk (d :: e :: r) := by
  constructor
  · rintro ⟨body, p, h, hp, hb⟩
    cases body with
    | nil => rcases hp with rfl | rfl | rfl <;> simp at h
    | cons x body =>
      simp only [List.cons_append, List.cons.injEq] at h
      obtain ⟨rfl, h⟩ := h
      exact ⟨hb c (by simp), body, p, h, hp, fun y hy => hb y (by simp [hy])⟩
  · rintro ⟨hc, body, p, h, hp, hb⟩
    refine ⟨c :: body, p, by simp [h], hp, ?_⟩
    intro y hy
    rcases List.mem_cons.mp hy with rfl | hy
    · exact hc
    · exact hb y hy

theorem tailOk_nil : TailOk [] := ⟨[], [], rfl, Or.inl rfl, by simp⟩

theorem tailOk_one (c : UInt8) : TailOk [c] ↔ Is64 c ∨ c = pad := by
  constructor
  · rintro ⟨body, p, h, hp, hb⟩
    rcases hp with rfl | rfl | rfl
    · left; apply hb; rw [List.append_nil] at h; rw [← h]; simp
    · cases body with
      | nil => simp at h; exact Or.inr h
      | cons x b => simp at h
    · cases body <;> simp at h
  · rintro (h | rfl)
    · exact ⟨[c], [], rfl, Or.inl rfl, by simpa using h⟩
    · exact ⟨[], [pad], rfl, Or.inr (Or.inl rfl), by simp⟩

theorem tailOk_two (c d : UInt8) :
    TailOk [c, d] ↔ (Is64 c ∧ Is64 d) ∨ (Is64 c ∧ d = pad) ∨ (c = pad ∧ d = pad) := by
  constructor
  · rintro ⟨body, p, h, hp, hb⟩
    rcases hp with rfl | rfl | rfl
    · rw [List.append_nil] at h; subst h
      exact Or.inl ⟨hb c (by simp), hb d (by simp)⟩
    · cases body with
      | nil => simp at h
      | cons x b =>
        cases b with
        | nil =>
          simp only [List.cons_append, List.nil_append, List.cons.injEq, and_true] at h
          obtain ⟨rfl, rfl⟩ := h
          exact Or.inr (Or.inl ⟨hb c (by simp), rfl⟩)
        | cons y b => simp at h
    · cases body with
      | nil => simp at h; exact Or.inr (Or.inr h)
      | cons x b => cases b <;> simp at h
  · rintro (⟨h1, h2⟩ | ⟨h1, rfl⟩ | ⟨rfl, rfl⟩)
    · exact ⟨[c, d], [], rfl, Or.inl rfl, by simp [h1, h2]⟩
    · exact ⟨[c], [pad], rfl, Or.inr (Or.inl rfl), by simpa using h1⟩
    · exact ⟨[], [pad, pad], rfl, Or.inr (Or.inr rfl), by simp⟩

theorem tableAt64 (sgn : Bool) (c : UInt8) (hc : sgn = true → c < 0x80) :
    ∃ v, tableAt sgn decodeBase64Lookup c = .ok v ∧
      ((Is64 c ∧ 0 ≤ v ∧ v < 64 ∧ look encodeBase64Lookup v.toNat = c) ∨ (¬ Is64 c ∧ v = -1)) := by
  obtain ⟨v, hv, h⟩ := table64 c
  refine ⟨v, ?_, h⟩
  unfold tableAt
  have : (sgn && decide (c ≥ 0x80)) = false := by
    cases sgn with
    | false => rfl
    | true => simp; exact hc rfl
  rw [this, hv]; rfl

theorem step64 (sgn : Bool) (n : Nat) (last : UInt8) (idx : Nat) (c : UInt8) (rest : List UInt8)
    (hc : sgn = true → c < 0x80) (hp : c ≠ pad) :
    validateBase64Loop sgn n last idx (c :: rest) =
      if Is64 c then validateBase64Loop sgn n last (idx + 1) rest else .error .format := by
  simp only [validateBase64Loop, hp, if_false]
  obtain ⟨v, hv, h⟩ := tableAt64 sgn c hc
  rw [hv]
  rcases h with ⟨h1, h2, h3, _⟩ | ⟨h1, h2⟩
  · simp only [bind, Except.bind, h1, if_true]
    rw [if_neg (by omega)]
  · simp [bind, Except.bind, h1, h2]

theorem validateLoop_iff (sgn : Bool) : ∀ (s : List UInt8) (n idx : Nat) (last : UInt8),
    (∀ c ∈ s, sgn = true → c < 0x80) → idx + s.length = n → (s ≠ [] → s.getLast? = some last) → 2 ≤ n →
    (validateBase64Loop sgn n last idx s = .ok () ∧ TailOk s) ∨
      (validateBase64Loop sgn n last idx s = .error .format ∧ ¬ TailOk s) := by
  intro s
  induction s with
  | nil => intro n idx last _ _ _ _; left; exact ⟨rfl, tailOk_nil⟩
  | cons c rest ih =>
    intro n idx last hc hn hl h2
    have hcc := hc c (by simp)
    have hrest : rest ≠ [] → rest.getLast? = some last := by
      intro h; rw [← hl (by simp)]; rw [List.getLast?_cons_of_ne_nil h]
    have ih' := ih n (idx + 1) last (fun x hx => hc x (by simp [hx])) (by simp at hn; omega) hrest h2
    by_cases hp : c = pad
    · subst hp
      simp only [validateBase64Loop, if_true]
      match rest, hn, hl, hrest, ih' with
      | [], hn, hl, _, _ =>
        simp at hl hn
        subst hl
        rw [if_neg (by omega), if_neg (by omega)]
        left; exact ⟨rfl, (tailOk_one _).mpr (Or.inr rfl)⟩
      | [d], hn, hl, hrest, ih' =>
        simp at hl hn
        subst hl
        rw [if_neg (by omega)]
        by_cases hd : d = pad
        · subst hd
          rw [if_neg (by simp)]
          simp only [validateBase64Loop, if_true]
          rw [if_neg (by omega), if_neg (by simp)]
          left; exact ⟨rfl, (tailOk_two _ _).mpr (Or.inr (Or.inr ⟨rfl, rfl⟩))⟩
        · rw [if_pos ⟨by omega, hd⟩]
          right; refine ⟨rfl, ?_⟩
          rw [tailOk_two]
          rintro (⟨h, _⟩ | ⟨h, _⟩ | ⟨_, h⟩)
          · exact pad_not64 h
          · exact pad_not64 h
          · exact hd h
      | d :: e :: r, hn, _, _, _ =>
        simp at hn
        rw [if_pos (by omega)]
        right; refine ⟨rfl, ?_⟩
        rw [tailOk_cons3]
        rintro ⟨h, _⟩; exact pad_not64 h
    · rw [step64 sgn n last idx c rest hcc hp]
      by_cases h64 : Is64 c
      · rw [if_pos h64]
        have key : TailOk (c :: rest) ↔ TailOk rest := by
          match rest with
          | [] => exact ⟨fun _ => tailOk_nil, fun _ => (tailOk_one _).mpr (Or.inl h64)⟩
          | [d] =>
            rw [tailOk_two, tailOk_one]
            constructor
            · rintro (⟨_, h⟩ | ⟨_, h⟩ | ⟨h, _⟩)
              · exact Or.inl h
              · exact Or.inr h
              · exact absurd h hp
            · rintro (h | h)
              · exact Or.inl ⟨h64, h⟩
              · exact Or.inr (Or.inl ⟨h64, h⟩)
          | d :: e :: r => rw [tailOk_cons3]; exact ⟨fun h => h.2, fun h => ⟨h64, h⟩⟩
        rw [key]; exact ih'
      · rw [if_neg h64]
        right; refine ⟨rfl, ?_⟩
        match rest with
        | [] => rw [tailOk_one]; rintro (h | h); exacts [h64 h, hp h]
        | [d] => rw [tailOk_two]; rintro (⟨h, _⟩ | ⟨h, _⟩ | ⟨h, _⟩); exacts [h64 h, h64 h, hp h]
        | d :: e :: r => rw [tailOk_cons3]; rintro ⟨h, _⟩; exact h64 h

theorem validate_iff (sgn : Bool) (s : List UInt8) (hc : ∀ c ∈ s, sgn = true → c < 0x80) :
    (validateBase64 sgn s = .ok () ∧ Valid64 s) ∨ (validateBase64 sgn s = .error .format ∧ ¬ Valid64 s) := by
  unfold validateBase64 Valid64
  rw [← pad_eq]
  by_cases h4 : s.length % 4 = 0
  · simp only [h4, ne_eq, not_true, if_false, true_and]
    match s with
    | [] => left; exact ⟨rfl, tailOk_nil⟩
    | c :: rest =>
      have hl : (c :: rest).getLast? = some ((c :: rest).getLastD 0) := by
        simp [List.getLast?_eq_some_getLast, List.getLastD]
      exact validateLoop_iff sgn (c :: rest) _ 0 _ hc (by simp) (fun _ => hl) (by simp at h4 ⊢; omega)
  · right; simp [h4]

theorem digit64 (sgn : Bool) (c : UInt8) (hc : sgn = true → c < 0x80) (h : Is64 c) :
    ∃ d, digit sgn decodeBase64Lookup c = .ok d := by
  obtain ⟨v, hv, h' | h'⟩ := tableAt64 sgn c hc
  · refine ⟨v.toNat, ?_⟩
    simp only [digit, hv, bind, Except.bind]
    rw [if_neg (by omega)]
  · exact absurd h h'.1

theorem decodeLoop_ok (sgn : Bool) : ∀ (k : Nat) (s : List UInt8), s.length = 4 * k →
    (∀ c ∈ s, sgn = true → c < 0x80) → TailOk s →
    ∃ out, decodeBase64Loop sgn s = .ok out ∧
      out.length = 3 * k - (if s.getLast? = some pad then (if s[s.length - 2]? = some pad then 2 else 1) else 0) := by
  intro k
  induction k with
  | zero => intro s hs _ _; simp at hs; subst hs; exact ⟨[], rfl, rfl⟩
  | succ k ih =>
    intro s hs hc ht
    match s, hs with
    | c0 :: c1 :: c2 :: c3 :: rest, hs =>
      simp only [List.length_cons] at hs
      rw [tailOk_cons3, tailOk_cons3] at ht
      obtain ⟨h0, h1, ht⟩ := ht
      obtain ⟨d0, e0⟩ := digit64 sgn c0 (hc c0 (by simp)) h0
      obtain ⟨d1, e1⟩ := digit64 sgn c1 (hc c1 (by simp)) h1
      by_cases hr : rest = []
      · subst hr
        have hk : k = 0 := by simp at hs; omega
        subst hk
        rw [tailOk_two] at ht
        rcases ht with ⟨h2, h3⟩ | ⟨h2, rfl⟩ | ⟨rfl, rfl⟩
        · obtain ⟨d2, e2⟩ := digit64 sgn c2 (hc c2 (by simp)) h2
          obtain ⟨d3, e3⟩ := digit64 sgn c3 (hc c3 (by simp)) h3
          have n2 : c2 ≠ pad := fun h => pad_not64 (h ▸ h2)
          have n3 : c3 ≠ pad := fun h => pad_not64 (h ▸ h3)
          simp [decodeBase64Loop, e0, e1, e2, e3, n2, n3, bind, Except.bind, pure, Except.pure]
        · obtain ⟨d2, e2⟩ := digit64 sgn c2 (hc c2 (by simp)) h2
          have n2 : c2 ≠ pad := fun h => pad_not64 (h ▸ h2)
          simp [decodeBase64Loop, e0, e1, e2, n2, bind, Except.bind, pure, Except.pure]
        · simp [decodeBase64Loop, e0, e1, bind, Except.bind, pure, Except.pure]
      · match rest, hr with
        | d :: r, _ =>
          rw [tailOk_cons3] at ht
          obtain ⟨h2, ht⟩ := ht
          have ht' : Is64 c3 ∧ TailOk (d :: r) := by
            match r, ht with
            | [], ht => simp at hs; omega
            | e :: r, ht => exact (tailOk_cons3 _ _ _ _).mp ht
          obtain ⟨h3, ht⟩ := ht'
          obtain ⟨d2, e2⟩ := digit64 sgn c2 (hc c2 (by simp)) h2
          obtain ⟨d3, e3⟩ := digit64 sgn c3 (hc c3 (by simp)) h3
          have n2 : c2 ≠ pad := fun h => pad_not64 (h ▸ h2)
          have n3 : c3 ≠ pad := fun h => pad_not64 (h ▸ h3)
          obtain ⟨out, ho, hlen⟩ := ih (d :: r) (by simp at hs ⊢; omega)
            (fun c h => hc c (by simp at h ⊢; tauto)) ht
          have hk : 1 ≤ k := by simp at hs; omega
          have hge : 2 ≤ (d :: r).length := by simp at hs ⊢; omega
          refine ⟨_, by simp only [decodeBase64Loop, e0, e1, e2, e3, n2, n3, ho, bind, Except.bind, pure,
            Except.pure, ne_eq, not_false_eq_true, if_true]; rfl, ?_⟩
          have hlast : (c0 :: c1 :: c2 :: c3 :: d :: r).getLast? = (d :: r).getLast? := by
            simp [List.getLast?_cons_cons]
          have hidx : (c0 :: c1 :: c2 :: c3 :: d :: r)[(c0 :: c1 :: c2 :: c3 :: d :: r).length - 2]? =
              (d :: r)[(d :: r).length - 2]? := by
            have : (c0 :: c1 :: c2 :: c3 :: d :: r).length - 2 = (d :: r).length - 2 + 4 := by
              simp only [List.length_cons] at hge ⊢; omega
            rw [this]; rfl
          rw [hlast, hidx]
          simp only [List.cons_append, List.nil_append, List.length_cons, hlen]
          split
          · split <;> omega
          · omega

/-- Decoding inverts encoding, for every byte string and whether `char` is signed or not. -/
theorem c02_base64_roundtrip (sgn : Bool) (bs : List UInt8) : decodeBase64 sgn (encodeBase64 bs) = .ok bs := by
  have hall : ∀ c ∈ encodeBase64 bs, sgn = true → c < 0x80 := by
    intro c hc _
    rw [encodeBase64, encode64_eq] at hc
    simp only [if_true, List.mem_append, List.mem_map, List.mem_replicate] at hc
    rcases hc with ⟨d, hd, rfl⟩ | ⟨_, rfl⟩
    · exact (digit_look sgn d (digits64_lt bs d hd)).2.2.2
    · decide
  have hv : Valid64 (encodeBase64 bs) := by
    refine ⟨by rw [c02_base64_size]; simp [sizeBase64], ?_⟩
    refine ⟨(digits64 bs).map (look encodeBase64Lookup), List.replicate (padCount bs.length) pad, ?_, ?_, ?_⟩
    · rw [encodeBase64, encode64_eq]; simp
    · rw [← pad_eq]
      rcases (show padCount bs.length = 0 ∨ padCount bs.length = 1 ∨ padCount bs.length = 2 by
        unfold padCount; omega) with h | h | h <;> rw [h] <;> simp [List.replicate]
    · intro c hc
      simp only [List.mem_map] at hc
      obtain ⟨d, hd, rfl⟩ := hc
      exact (digit_look sgn d (digits64_lt bs d hd)).2.2.1
  rcases validate_iff sgn _ hall with ⟨h, _⟩ | ⟨_, h⟩
  · simp only [decodeBase64, h, bind, Except.bind]
    exact decodeLoop_encode sgn bs
  · exact absurd hv h

/-- Every source string is either in the base64 language, and then decoding succeeds and returns as many bytes
as the size function announced, or it is rejected by both with a format error and nothing is decoded.

Partial: on platforms with signed `char` the source must be ASCII, see `c02_base64_signed_char_ub`. -/
theorem c02_base64_decode_total_partial (sgn : Bool) (s : List UInt8) (hc : sgn = true → ∀ c ∈ s, c < 0x80) :
    (Valid64 s ∧ ∃ out, decodeBase64 sgn s = .ok out ∧ decodeSizeBase64 sgn s = .ok out.length) ∨
      (¬ Valid64 s ∧ decodeBase64 sgn s = .error .format ∧ decodeSizeBase64 sgn s = .error .format) := by
  have hc' : ∀ c ∈ s, sgn = true → c < 0x80 := fun c h hs => hc hs c h
  rcases validate_iff sgn s hc' with ⟨h, hv⟩ | ⟨h, hv⟩
  · left
    refine ⟨hv, ?_⟩
    have ht : TailOk s := by obtain ⟨_, ht⟩ := hv; rw [← pad_eq] at ht; exact ht
    obtain ⟨out, ho, hlen⟩ := decodeLoop_ok sgn (s.length / 4) s (by have := hv.1; omega) hc' ht
    refine ⟨out, by simp only [decodeBase64, h, bind, Except.bind]; exact ho, ?_⟩
    simp only [decodeSizeBase64, h, bind, Except.bind, pure, Except.pure]
    rw [hlen]
    have h4 := hv.1
    match s, h4 with
    | [], _ => rfl
    | c :: r, h4 =>
      have hl : (c :: r).getLast? = some ((c :: r).getLastD 0) := by
        simp [List.getLast?_eq_some_getLast, List.getLastD]
      rw [hl]
      by_cases hp : (c :: r).getLastD 0 = pad
      · simp only [hp, and_true, if_true]
        rw [if_pos (by simp)]
        split <;> congr 1 <;> omega
      · rw [if_neg (fun hh => hp hh.2), if_neg (by rw [Option.some.injEq]; exact hp)]
        congr 1; omega
  · right
    simp [decodeBase64, decodeSizeBase64, h, hv, bind, Except.bind]

example : ∃ s, Valid64 s ∧ s.length = 8 ∧ ∃ c ∈ s, c = chr '=' :=
  ⟨ascii "AAECAw==", by
    refine ⟨by decide, ascii "AAECAw", ascii "==", by decide, by decide, by decide +kernel⟩, by decide, by decide⟩

/-- Divergence: with a signed `char`, a byte of 0x80 or more in the source indexes the decode table with a
negative number instead of being rejected as an invalid character. -/
theorem c02_base64_signed_char_ub : decodeBase64 true [0xe9, 0x41, 0x41, 0x41] = .error .ub := by decide +kernel

/-- base64url is injective (there is no decoder in the code base). -/
theorem c02_base64url_injective (a b : List UInt8) (h : encodeBase64Url a = encodeBase64Url b) : a = b := by
  rw [encodeBase64Url, encodeBase64Url, encode64_eq, encode64_eq] at h
  simp only [Bool.false_eq_true, if_false, List.append_nil] at h
  have hinj : ∀ i : Fin 64, ∀ j : Fin 64, look encodeBase64LookupUrl i = look encodeBase64LookupUrl j → i = j := by
    decide +kernel
  have hdig : digits64 a = digits64 b := by
    have ha := digits64_lt a
    have hb := digits64_lt b
    generalize digits64 a = x at *
    generalize digits64 b = y at *
    induction x generalizing y with
    | nil => cases y <;> simp_all
    | cons d x ih =>
      cases y with
      | nil => simp at h
      | cons e y =>
        simp only [List.map_cons, List.cons.injEq] at h
        have := hinj ⟨d, ha d (by simp)⟩ ⟨e, hb e (by simp)⟩ h.1
        simp at this
        rw [this, ih (fun d h => ha d (by simp [h])) y (fun d h => hb d (by simp [h])) h.2]
  have hlen : padCount a.length = padCount b.length := by
    have h1 := congrArg List.length hdig
    rw [digits64_length, digits64_length] at h1
    unfold sizeBase64Url at h1
    unfold padCount
    have e1 : a.length % 3 = b.length % 3 := by split at h1 <;> split at h1 <;> omega
    rw [e1]
  have : encodeBase64 a = encodeBase64 b := by
    rw [encodeBase64, encodeBase64, encode64_eq, encode64_eq, hdig, hlen]
  have h1 := c02_base64_roundtrip true a
  rw [this, c02_base64_roundtrip] at h1
  exact (Except.ok.inj h1).symm

/-! ## Theorems: hex -/

/-- The lower case hex digit of a number below 16. -/
def hexDigit (n : Nat) : UInt8 := chr ((alphabetHex[n]?).getD 'x')

theorem lookHex (i : Nat) (h : i < 512) :
    look encodeHexLookup i = hexDigit (if i % 2 = 0 then i / 2 / 16 else i / 2 % 16) := by
  have hall : encodeHexLookup.zipIdx.all (fun p => p.1 ==
      look [48, 49, 50, 51, 52, 53, 54, 55, 56, 57, 97, 98, 99, 100, 101, 102]
        (if p.2 % 2 = 0 then p.2 / 2 / 16 else p.2 / 2 % 16)) = true := by decide +kernel
  have hd : ∀ n : Fin 16, look [48, 49, 50, 51, 52, 53, 54, 55, 56, 57, 97, 98, 99, 100, 101, 102] n = hexDigit n := by
    decide +kernel
  have hlen : encodeHexLookup.length = 512 := by decide +kernel
  have hi : i < encodeHexLookup.length := by omega
  rw [List.all_eq_true] at hall
  have := hall (encodeHexLookup[i], i) (by rw [List.mem_zipIdx_iff_getElem?]; simp [hi])
  rw [beq_iff_eq] at this
  simp only at this
  have hl : look encodeHexLookup i = encodeHexLookup[i] := by simp [look, hi]
  rw [hl, this]
  have hlt : (if i % 2 = 0 then i / 2 / 16 else i / 2 % 16) < 16 := by split <;> omega
  exact hd ⟨(if i % 2 = 0 then i / 2 / 16 else i / 2 % 16), hlt⟩

theorem lookHex0 (b : UInt8) : look encodeHexLookup (b.toNat * 2) = hexDigit (b.toNat / 16) := by
  have := b.toNat_lt
  rw [lookHex _ (by omega), if_pos (by omega)]; congr 2; omega

theorem lookHex1 (b : UInt8) : look encodeHexLookup (b.toNat * 2 + 1) = hexDigit (b.toNat % 16) := by
  have := b.toNat_lt
  rw [lookHex _ (by omega), if_neg (by omega)]; congr 2; omega

/-- Hex output: two lower case digits per byte, most significant first. -/
theorem c02_hex_format (bs : List UInt8) :
    encodeHex bs = bs.flatMap (fun b => [chr ((alphabetHex[b.toNat / 16]?).getD 'x'),
      chr ((alphabetHex[b.toNat % 16]?).getD 'x')]) := by
  unfold encodeHex
  apply List.flatMap_congr
  intro b _
  rw [lookHex0, lookHex1]; rfl

theorem c02_hex_size (bs : List UInt8) : (encodeHex bs).length = sizeHex bs.length := by
  induction bs with
  | nil => rfl
  | cons b bs ih =>
    simp only [encodeHex, List.flatMap_cons, List.length_append, List.length_cons, List.length_nil, sizeHex] at *
    omega

theorem hexDigit_table (sgn : Bool) (n : Nat) (h : n < 16) :
    tableAt sgn decodeHexLookup (hexDigit n) = .ok (Int.ofNat n) := by
  have : ∀ sgn, ∀ n : Fin 16, (tableAt sgn decodeHexLookup (hexDigit n)).toOption = some (Int.ofNat n) := by
    decide +kernel
  have := this sgn ⟨n, h⟩
  simp only at this
  cases hx : tableAt sgn decodeHexLookup (hexDigit n) with
  | error e => rw [hx] at this; simp [Except.toOption] at this
  | ok v => rw [hx] at this; simp only [Except.toOption, Option.some.injEq] at this; rw [this]

theorem hexPair (sgn : Bool) (b : UInt8) :
    ∃ d0 d1, tableAt sgn decodeHexLookup (look encodeHexLookup (b.toNat * 2)) = .ok (Int.ofNat d0) ∧
      tableAt sgn decodeHexLookup (look encodeHexLookup (b.toNat * 2 + 1)) = .ok (Int.ofNat d1) ∧
      UInt8.ofNat ((d0 <<< 4) ||| d1) = b := by
  have hb := b.toNat_lt
  refine ⟨b.toNat / 16, b.toNat % 16, ?_, ?_, ?_⟩
  · rw [lookHex0, hexDigit_table _ _ (by omega)]
  · rw [lookHex1, hexDigit_table _ _ (by omega)]
  · rw [or_mul (by omega)]
    apply UInt8.toNat_inj.mp
    rw [UInt8.toNat_ofNat']
    omega

/-- Decoding inverts encoding for hex. -/
theorem c02_hex_roundtrip (sgn : Bool) (bs : List UInt8) : decodeHex sgn (encodeHex bs) = .ok bs := by
  have hval : validateHexLoop sgn (encodeHex bs) = .ok () := by
    induction bs with
    | nil => rfl
    | cons b bs ih =>
      obtain ⟨d0, d1, h0, h1, _⟩ := hexPair sgn b
      simp only [encodeHex, List.flatMap_cons, List.cons_append, List.nil_append, validateHexLoop, h0, h1, bind,
        Except.bind]
      rw [if_neg (by simp), if_neg (by simp)]
      exact ih
  have hloop : decodeHexLoop sgn (encodeHex bs) = .ok bs := by
    clear hval
    induction bs with
    | nil => rfl
    | cons b bs ih =>
      obtain ⟨d0, d1, h0, h1, h2⟩ := hexPair sgn b
      simp only [encodeHex] at ih
      simp only [encodeHex, List.flatMap_cons, List.cons_append, List.nil_append, decodeHexLoop, digit, h0, h1, bind,
        Except.bind, ih, pure, Except.pure]
      rw [if_neg (by simp), if_neg (by simp)]
      simp only [Int.ofNat_eq_natCast, Int.toNat_natCast, h2]
  unfold decodeHex validateHex
  rw [c02_hex_size, hval]
  simp [sizeHex, bind, Except.bind, hloop]

theorem tableAtHex (sgn : Bool) (c : UInt8) (hc : sgn = true → c < 0x80) :
    ∃ v, tableAt sgn decodeHexLookup c = .ok v ∧ ((IsHex c ∧ 0 ≤ v ∧ v < 16) ∨ (¬ IsHex c ∧ v = -1)) := by
  obtain ⟨v, hv, h⟩ := tableHex c
  refine ⟨v, ?_, h⟩
  unfold tableAt
  have : (sgn && decide (c ≥ 0x80)) = false := by
    cases sgn with
    | false => rfl
    | true => simp; exact hc rfl
  rw [this, hv]; rfl

theorem validateHexLoop_iff (sgn : Bool) (s : List UInt8) (hc : ∀ c ∈ s, sgn = true → c < 0x80) :
    (validateHexLoop sgn s = .ok () ∧ ∀ c ∈ s, IsHex c) ∨
      (validateHexLoop sgn s = .error .format ∧ ¬ ∀ c ∈ s, IsHex c) := by
  induction s with
  | nil => left; exact ⟨rfl, by simp⟩
  | cons c s ih =>
    obtain ⟨v, hv, h⟩ := tableAtHex sgn c (hc c (by simp))
    simp only [validateHexLoop, hv, bind, Except.bind]
    rcases h with ⟨h1, h2, h3⟩ | ⟨h1, h2⟩
    · rw [if_neg (by omega)]
      rcases ih (fun c h => hc c (by simp [h])) with ⟨h4, h5⟩ | ⟨h4, h5⟩
      · left; exact ⟨h4, by simpa [h1] using h5⟩
      · right; refine ⟨h4, fun hh => h5 (fun x hx => hh x (by simp [hx]))⟩
    · rw [if_pos h2]; right; exact ⟨rfl, fun hh => h1 (hh c (by simp))⟩

theorem decodeHexLoop_ok (sgn : Bool) : ∀ (k : Nat) (s : List UInt8), s.length = 2 * k →
    (∀ c ∈ s, sgn = true → c < 0x80) → (∀ c ∈ s, IsHex c) → ∃ out, decodeHexLoop sgn s = .ok out ∧ out.length = k := by
  intro k
  induction k with
  | zero => intro s hs _ _; simp at hs; subst hs; exact ⟨[], rfl, rfl⟩
  | succ k ih =>
    intro s hs hc hh
    match s, hs with
    | c0 :: c1 :: rest, hs =>
      obtain ⟨out, ho, hl⟩ := ih rest (by simp at hs; omega) (fun c h => hc c (by simp [h]))
        (fun c h => hh c (by simp [h]))
      obtain ⟨v0, e0, h0 | h0⟩ := tableAtHex sgn c0 (hc c0 (by simp))
      · obtain ⟨v1, e1, h1 | h1⟩ := tableAtHex sgn c1 (hc c1 (by simp))
        · simp only [decodeHexLoop, digit, e0, e1, ho, bind, Except.bind, pure, Except.pure]
          rw [if_neg (by omega), if_neg (by omega)]
          exact ⟨_, rfl, by simp [hl]⟩
        · exact absurd (hh c1 (by simp)) h1.1
      · exact absurd (hh c0 (by simp)) h0.1

/-- Every source string is either an even number of hex digits, and then decoding succeeds with the announced
size, or it is rejected with a format error. Partial for the same reason as base64. -/
theorem c02_hex_decode_total_partial (sgn : Bool) (s : List UInt8) (hc : sgn = true → ∀ c ∈ s, c < 0x80) :
    (ValidHex s ∧ ∃ out, decodeHex sgn s = .ok out ∧ decodeSizeHex sgn s = .ok out.length) ∨
      (¬ ValidHex s ∧ decodeHex sgn s = .error .format ∧ decodeSizeHex sgn s = .error .format) := by
  have hc' : ∀ c ∈ s, sgn = true → c < 0x80 := fun c h hs => hc hs c h
  unfold decodeHex decodeSizeHex validateHex ValidHex
  by_cases h2 : s.length % 2 = 0
  · rcases validateHexLoop_iff sgn s hc' with ⟨h, hv⟩ | ⟨h, hv⟩
    · left
      obtain ⟨out, ho, hl⟩ := decodeHexLoop_ok sgn (s.length / 2) s (by omega) hc' hv
      refine ⟨⟨h2, hv⟩, out, ?_, ?_⟩ <;> simp [h2, h, ho, hl, bind, Except.bind, pure, Except.pure]
    · right
      refine ⟨fun hh => hv hh.2, ?_, ?_⟩ <;> simp [h2, h, bind, Except.bind]
  · right
    refine ⟨fun hh => h2 hh.1, ?_, ?_⟩ <;> simp [h2, bind, Except.bind]

example : ∃ s, ValidHex s ∧ s = ascii "0aFf" := ⟨_, ⟨by decide, by decide +kernel⟩, rfl⟩

/-- Divergence: same table index problem for hex. -/
theorem c02_hex_signed_char_ub : decodeHex true [0xc3, 0xa9] = .error .ub := by decide +kernel

/-! ## Decoded values -/

/-- Lower case of an upper case hex digit. -/
def lower (c : UInt8) : UInt8 := if 65 ≤ c ∧ c ≤ 70 then c + 32 else c

theorem tableHexVal (c : UInt8) (h : IsHex c) : ∃ n, n < 16 ∧ decodeHexLookup[c.toNat]? = some (Int.ofNat n) ∧
    hexDigit n = lower c := by
  have hall : ∀ c ∈ ([48, 49, 50, 51, 52, 53, 54, 55, 56, 57, 97, 98, 99, 100, 101, 102, 65, 66, 67, 68, 69, 70] :
      List UInt8), ∃ n : Fin 16, decodeHexLookup[c.toNat]? = some (Int.ofNat n) ∧ hexDigit n = lower c := by
    decide +kernel
  obtain ⟨n, h1, h2⟩ := hall c ((isHex_iff c).mp h)
  exact ⟨n, n.2, h1, h2⟩

theorem decodeHexLoop_val (sgn : Bool) : ∀ (k : Nat) (s out : List UInt8), s.length = 2 * k →
    (∀ c ∈ s, IsHex c) → decodeHexLoop sgn s = .ok out → encodeHex out = s.map lower := by
  intro k
  induction k with
  | zero =>
    intro s out hs _ h
    simp at hs; subst hs
    simp only [decodeHexLoop, Except.ok.injEq] at h
    subst h; rfl
  | succ k ih =>
    intro s out hs hh h
    match s, hs with
    | c0 :: c1 :: rest, hs =>
      obtain ⟨n0, hn0, t0, l0⟩ := tableHexVal c0 (hh c0 (by simp))
      obtain ⟨n1, hn1, t1, l1⟩ := tableHexVal c1 (hh c1 (by simp))
      simp only [decodeHexLoop, digit, tableAt, t0, t1, bind, Except.bind, pure, Except.pure] at h
      by_cases g0 : (sgn && decide (c0 ≥ 128)) = true
      · simp [g0] at h
      by_cases g1 : (sgn && decide (c1 ≥ 128)) = true
      · simp only [g0, g1, if_false, if_true, Bool.false_eq_true] at h
        rw [if_neg (by simp)] at h
        simp at h
      simp only [g0, g1, if_false, Bool.false_eq_true] at h
      rw [if_neg (by simp), if_neg (by simp)] at h
      simp only at h
      cases hr : decodeHexLoop sgn rest with
      | error e => rw [hr] at h; simp at h
      | ok o =>
        rw [hr] at h
        simp only [Except.ok.injEq] at h
        have ho := ih rest o (by simp at hs; omega) (fun c hc => hh c (by simp [hc])) hr
        subst h
        simp only [encodeHex, lookHex0, lookHex1] at ho
        simp only [encodeHex, List.flatMap_cons, ho, lookHex0, lookHex1, List.map_cons, ← l0, ← l1]
        have hv : ((Int.ofNat n0).toNat <<< 4 ||| (Int.ofNat n1).toNat) = n0 * 16 + n1 := by
          rw [or_mul (by simpa using hn1)]; simp
        rw [hv, UInt8.toNat_ofNat_of_lt' (by simp [UInt8.size]; omega),
          show (n0 * 16 + n1) / 16 = n0 by omega, show (n0 * 16 + n1) % 16 = n1 by omega]
        rfl

/-- Whatever is decoded from hex is the value of the digits: encoding it again gives the source in lower case. -/
theorem c02_hex_decode_value (sgn : Bool) (s out : List UInt8) (h : decodeHex sgn s = .ok out) :
    encodeHex out = s.map lower := by
  unfold decodeHex validateHex at h
  by_cases h2 : s.length % 2 = 0
  · simp only [h2, ne_eq, not_true, if_false, bind, Except.bind] at h
    cases hv : validateHexLoop sgn s with
    | error e => rw [hv] at h; simp at h
    | ok u =>
      rw [hv] at h
      have hh : ∀ c ∈ s, IsHex c := by
        clear h h2
        induction s with
        | nil => simp
        | cons c s ih =>
          simp only [validateHexLoop, bind, Except.bind, tableAt] at hv
          obtain ⟨v, tv, hx⟩ := tableHex c
          rw [tv] at hv
          by_cases g : (sgn && decide (c ≥ 128)) = true
          · simp [g] at hv
          · simp only [g, if_false, Bool.false_eq_true] at hv
            by_cases hm : v = -1
            · simp [hm] at hv
            · rw [if_neg hm] at hv
              have := ih hv
              rcases hx with hx | hx
              · intro x hx'
                rcases List.mem_cons.mp hx' with rfl | hx'
                · exact hx.1
                · exact this x hx'
              · exact absurd hx.2 hm
      exact decodeHexLoop_val sgn (s.length / 2) s out (by omega) hh h
  · simp [h2, bind, Except.bind] at h

example : decodeHex true (ascii "0aFf") = .ok [0x0a, 0xff] := by decide +kernel

/-- The value of a base64 digit found in the table is its position in the alphabet. -/
theorem digit64_val (sgn : Bool) (c : UInt8) (d : Nat) (h : digit sgn decodeBase64Lookup c = .ok d) :
    d < 64 ∧ look encodeBase64Lookup d = c := by
  simp only [digit, tableAt, bind, Except.bind] at h
  obtain ⟨v, tv, hx⟩ := table64 c
  rw [tv] at h
  by_cases g : (sgn && decide (c ≥ 128)) = true
  · simp [g] at h
  · simp only [g, if_false, Bool.false_eq_true] at h
    split at h
    · simp at h
    · rcases hx with hx | hx
      · simp only [Except.ok.injEq] at h
        subst h
        exact ⟨by omega, hx.2.2.2⟩
      · omega

theorem decodeLoop_val (sgn : Bool) : ∀ (k : Nat) (s out : List UInt8), s.length = 4 * k → (∀ c ∈ s, c ≠ pad) →
    decodeBase64Loop sgn s = .ok out → encode64 encodeBase64Lookup true out = s := by
  intro k
  induction k with
  | zero =>
    intro s out hs _ h
    simp at hs; subst hs
    simp only [decodeBase64Loop, Except.ok.injEq] at h
    subst h; rfl
  | succ k ih =>
    intro s out hs hp h
    match s, hs with
    | c0 :: c1 :: c2 :: c3 :: rest, hs =>
      have n2 := hp c2 (by simp)
      have n3 := hp c3 (by simp)
      simp only [decodeBase64Loop, bind, Except.bind, pure, Except.pure, n2, n3, ne_eq, not_false_eq_true,
        if_true] at h
      cases e0 : digit sgn decodeBase64Lookup c0 with
      | error e => rw [e0] at h; simp at h
      | ok d0 =>
      cases e1 : digit sgn decodeBase64Lookup c1 with
      | error e => rw [e0, e1] at h; simp at h
      | ok d1 =>
      cases e2 : digit sgn decodeBase64Lookup c2 with
      | error e => rw [e0, e1, e2] at h; simp at h
      | ok d2 =>
      cases e3 : digit sgn decodeBase64Lookup c3 with
      | error e => rw [e0, e1, e2, e3] at h; simp at h
      | ok d3 =>
      cases er : decodeBase64Loop sgn rest with
      | error e => rw [e0, e1, e2, e3, er] at h; simp at h
      | ok o =>
        rw [e0, e1, e2, e3, er] at h
        simp only [Except.ok.injEq, List.cons_append, List.nil_append] at h
        have ho := ih rest o (by simp at hs; omega) (fun c hc => hp c (by simp [hc])) er
        obtain ⟨l0, v0⟩ := digit64_val sgn c0 d0 e0
        obtain ⟨l1, v1⟩ := digit64_val sgn c1 d1 e1
        obtain ⟨l2, v2⟩ := digit64_val sgn c2 d2 e2
        obtain ⟨l3, v3⟩ := digit64_val sgn c3 d3 e3
        have hand : (d2 <<< 6) &&& 0xc0 = (d2 % 4) <<< 6 := by
          have : ∀ x : Fin 64, (x.1 <<< 6) &&& 0xc0 = (x.1 % 4) <<< 6 := by decide +kernel
          exact this ⟨d2, l2⟩
        have hs1 : d1 >>> 4 = d1 / 16 := Nat.shiftRight_eq_div_pow d1 4
        have hs2 : d2 >>> 2 = d2 / 4 := Nat.shiftRight_eq_div_pow d2 2
        rw [hand, hs1, hs2, or_mul (x := d0) (by omega), or_mul (x := d1) (by omega), or_mul (x := d2 % 4) (by omega)]
          at h
        subst h
        simp only [encode64, idx0, idx1, idx2, and63, ho]
        simp only [UInt8.toNat_ofNat', List.cons_append, List.nil_append]
        rw [show (d0 * 2 ^ 2 + d1 / 16) % 2 ^ 8 / 4 = d0 by omega,
          show (d0 * 2 ^ 2 + d1 / 16) % 2 ^ 8 % 4 * 16 + (d1 * 2 ^ 4 + d2 / 4) % 2 ^ 8 / 16 = d1 by omega,
          show (d1 * 2 ^ 4 + d2 / 4) % 2 ^ 8 % 16 * 4 + (d2 % 4 * 2 ^ 6 + d3) % 2 ^ 8 / 64 = d2 by omega,
          show (d2 % 4 * 2 ^ 6 + d3) % 2 ^ 8 % 64 = d3 by omega, v0, v1, v2, v3]

/-- A source without padding that decodes is the encoding of the result, so decoding is injective on it.

(With padding the bits of the last digit that do not belong to any byte are ignored by the decoder, so several
sources decode to the same bytes: `c02_base64_noncanonical`.) -/
theorem c02_base64_decode_value (sgn : Bool) (s out : List UInt8) (hp : ∀ c ∈ s, c ≠ chr '=')
    (h : decodeBase64 sgn s = .ok out) : encodeBase64 out = s := by
  rw [← pad_eq] at hp
  unfold decodeBase64 validateBase64 at h
  by_cases h4 : s.length % 4 = 0
  · simp only [h4, ne_eq, not_true, if_false, bind, Except.bind] at h
    cases hv : validateBase64Loop sgn s.length (s.getLastD 0) 0 s with
    | error e => rw [hv] at h; simp at h
    | ok u =>
      rw [hv] at h
      exact decodeLoop_val sgn (s.length / 4) s out (by omega) hp h
  · simp [h4, bind, Except.bind] at h

example : ∃ s out, (∀ c ∈ s, c ≠ chr '=') ∧ decodeBase64 true s = .ok out ∧ out.length = 3 :=
  ⟨ascii "Zm9v", [102, 111, 111], by decide +kernel, by decide +kernel, rfl⟩

theorem c02_base64_noncanonical :
    decodeBase64 true (ascii "QQ==") = .ok [65] ∧ decodeBase64 true (ascii "QR==") = .ok [65] := by decide +kernel

end Verif.Encode
