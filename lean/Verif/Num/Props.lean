import Verif.Num.Model
import Mathlib.Tactic.Ring
import Mathlib.Tactic.Linarith
import Mathlib.Data.List.Basic

/-! # C51: numbers survive the trip through text, and text that is not a number in range is rejected -/

namespace Verif.Num

/-! ## Specification: positional notation -/

/-- Value of a list of digits, most significant first. -/
def valueOf (base : Nat) : List Nat → Nat
  | [] => 0
  | d :: ds => d * base ^ ds.length + valueOf base ds

/-- `s` is a non-empty string of digits of base `base` and denotes `v`. -/
def Numeral (base : Nat) (s : List UInt8) (v : Nat) : Prop :=
  s ≠ [] ∧ ∃ ds : List Nat, s.map (digitOf base) = ds.map some ∧ v = valueOf base ds

/-! ## Lemmas -/

theorem valueOf_append (base : Nat) (a b : List Nat) :
    valueOf base (a ++ b) = valueOf base a * base ^ b.length + valueOf base b := by
  induction a with
  | nil => simp [valueOf]
  | cons d a ih => simp only [List.cons_append, valueOf, ih, List.length_append, Nat.pow_add]; ring

theorem digitOf_digitChar (base : Nat) (hb : base ≤ 36) (up : Bool) (d : Nat) (hd : d < base) :
    digitOf base (digitChar up d) = some d := by
  have h : ∀ up, ∀ d : Fin 36, digitVal (digitChar up d) = some d.1 := by decide +kernel
  have := h up ⟨d, by omega⟩
  simp only at this
  rw [digitOf, this]
  simp [hd]

theorem numeral_fmt (base : Nat) (h2 : 2 ≤ base) (hb : base ≤ 36) (up : Bool) (n : Nat) :
    Numeral base (fmt base up n) n := by
  induction n using Nat.strongRecOn with
  | ind n ih =>
    rw [fmt]
    split
    · rename_i h
      have hn : n < base := by omega
      exact ⟨by simp, [n], by simp [digitOf_digitChar base hb up n hn], by simp [valueOf]⟩
    · rename_i h
      simp only [not_or, Nat.not_lt] at h
      obtain ⟨hne, ds, hds, hv⟩ := ih (n / base) (Nat.div_lt_self (by omega) (by omega))
      refine ⟨by simp, ds ++ [n % base], ?_, ?_⟩
      · simp [hds, digitOf_digitChar base hb up (n % base) (Nat.mod_lt _ (by omega))]
      · rw [valueOf_append, ← hv]; simp only [valueOf, List.length_cons, List.length_nil]
        have := Nat.div_add_mod n base
        rw [Nat.zero_add, Nat.pow_one, Nat.pow_zero, Nat.mul_comm]; omega

theorem digitOf_zero (base : Nat) (h : 1 ≤ base) : digitOf base 0x30 = some 0 := by
  have : digitVal 0x30 = some 0 := by decide
  rw [digitOf, this]; simp; omega

theorem numeral_fmtPad (width base : Nat) (h2 : 2 ≤ base) (hb : base ≤ 36) (up : Bool) (n : Nat) :
    Numeral base (fmtPad width base up n) n := by
  obtain ⟨hne, ds, hds, hv⟩ := numeral_fmt base h2 hb up n
  unfold fmtPad
  generalize width - (fmt base up n).length = k
  refine ⟨by simp [hne], List.replicate k 0 ++ ds, ?_, ?_⟩
  · simp [hds, digitOf_zero base (by omega)]
  · rw [valueOf_append, ← hv]
    have : valueOf base (List.replicate k 0) = 0 := by
      induction k with
      | zero => rfl
      | succ k ih => simp [List.replicate_succ, valueOf, ih]
    rw [this]; omega

theorem digit_head {base : Nat} {c : UInt8} {d : Nat} (h : digitOf base c = some d) :
    isSpace c = false ∧ c ≠ 0x2d ∧ c ≠ 0x2b := by
  have key : ∀ i : Fin 256, (digitVal (UInt8.ofNat i)).isSome = true → isSpace (UInt8.ofNat i) = false ∧
      UInt8.ofNat i ≠ 0x2d ∧ UInt8.ofNat i ≠ 0x2b := by decide +kernel
  have hs : (digitVal c).isSome = true := by
    unfold digitOf at h
    cases hc : digitVal c with
    | none => rw [hc] at h; simp at h
    | some x => rfl
  have := key ⟨c.toNat, c.toNat_lt⟩
  simp only [UInt8.ofNat_toNat] at this
  exact this hs

theorem parseDigits_numeral (base : Nat) : ∀ (s : List UInt8) (ds : List Nat) (acc : Nat),
    s.map (digitOf base) = ds.map some → parseDigits base acc s = (acc * base ^ ds.length + valueOf base ds, []) := by
  intro s
  induction s with
  | nil =>
    intro ds acc h
    have : ds = [] := by simpa using h.symm
    subst this; simp [parseDigits, valueOf]
  | cons c s ih =>
    intro ds acc h
    cases ds with
    | nil => simp at h
    | cons d ds =>
      simp only [List.map_cons, List.cons.injEq] at h
      simp only [parseDigits, h.1]
      rw [ih ds _ h.2]
      simp only [valueOf, List.length_cons, Nat.pow_succ]
      congr 1; ring

theorem skipPrefix_numeral (base : Nat) (s : List UInt8) (ds : List Nat)
    (h : s.map (digitOf base) = ds.map some) : skipPrefix base s = s := by
  unfold skipPrefix
  split
  · rename_i z x d rest
    split
    · rename_i hc
      obtain ⟨rfl, _, hx, _⟩ := hc
      have h16 : digitOf 16 0x78 = none ∧ digitOf 16 0x58 = none := by decide
      cases ds with
      | nil => simp at h
      | cons a ds =>
        cases ds with
        | nil => simp at h
        | cons b ds =>
          simp only [List.map_cons, List.cons.injEq] at h
          rcases hx with rfl | rfl
          · rw [h16.1] at h; simp at h
          · rw [h16.2] at h; simp at h
    · rfl
  · rfl

theorem strto_numeral (base : Nat) (s : List UInt8) (v : Nat) (h : Numeral base s v) :
    strto base s = some (false, v, []) ∧ s.head?.any isSpace = false ∧ s.head? ≠ some 0x2d := by
  obtain ⟨hne, ds, hds, hv⟩ := h
  cases s with
  | nil => exact absurd rfl hne
  | cons c s =>
    cases ds with
    | nil => simp at hds
    | cons d ds =>
      have hd : digitOf base c = some d := by simp only [List.map_cons, List.cons.injEq] at hds; exact hds.1
      obtain ⟨h1, h2, h3⟩ := digit_head hd
      refine ⟨?_, by simpa using h1, by simpa using h2⟩
      unfold strto
      have hdrop : List.dropWhile isSpace (c :: s) = c :: s := by simp [List.dropWhile, h1]
      have hsk := skipPrefix_numeral base (c :: s) (d :: ds) hds
      have hp := parseDigits_numeral base (c :: s) (d :: ds) 0 hds
      rw [hdrop]
      have hm : splitSign (c :: s) = (false, c :: s) := by simp [splitSign, h2, h3]
      rw [hm]
      simp [hsk, hd, hp, hv]

/-! ## Theorems -/

/-- A string of digits is converted to the number it denotes when it fits, and rejected otherwise (never
wrapped). -/
theorem c51_numeral (base : Nat) (s : List UInt8) (v : Nat) (h : Numeral base s v) :
    toUInt64Base base s = (if v < 2 ^ 64 then .ok v else .error .format) ∧
    toUIntBase base s = (if v < 2 ^ 32 then .ok v else .error .format) ∧
    toInt64Base base s = (if v < 2 ^ 63 then .ok (v : Int) else .error .format) := by
  obtain ⟨hs, hsp, hm⟩ := strto_numeral base s v h
  have hne := h.1
  refine ⟨?_, ?_, ?_⟩
  · unfold toUInt64Base uint64Internal
    rw [hs]
    by_cases hv : v < 2 ^ 64
    · rw [if_pos hv]
      simp only
      rw [if_neg (by omega), if_neg (by simp [hne, hsp])]
      simp [bind, Except.bind, pure, Except.pure, hm]
    · rw [if_neg hv]
      simp only
      rw [if_pos (by omega)]; rfl
  · unfold toUIntBase uint64Internal
    rw [hs]
    by_cases hv : v < 2 ^ 64
    · simp only
      rw [if_neg (by omega), if_neg (by simp [hne, hsp])]
      simp only [bind, Except.bind, pure, Except.pure, hm, false_or, Bool.false_eq_true, if_false]
      by_cases hv2 : v < 2 ^ 32
      · rw [if_neg (by omega), if_pos hv2]
      · rw [if_pos (by omega), if_neg hv2]
    · rw [if_neg (by omega)]
      simp only
      rw [if_pos (by omega)]; rfl
  · unfold toInt64Base
    rw [hs]
    by_cases hv : v < 2 ^ 63
    · rw [if_pos hv]
      simp only
      rw [if_neg (by simp; omega), if_neg (by simp [hne, hsp])]
      simp
    · rw [if_neg hv]
      simp only
      rw [if_pos (by simp; omega)]

example : Numeral 16 [0x46, 0x66, 0x30] 0xFF0 := ⟨by simp, [15, 15, 0], by decide, by decide⟩

/-- Every unsigned 64-bit number is read back from its decimal text, and from its hexadecimal text in either
case with or without zero padding. -/
theorem c51_uint_roundtrip (n : Nat) (h : n < 2 ^ 64) (up : Bool) (width : Nat) :
    toUInt64Base 10 (uintToZ n) = .ok n ∧ toUInt64Base 16 (fmtPad width 16 up n) = .ok n ∧
      toUInt64Base 16 (fmt 16 up n) = .ok n := by
  refine ⟨?_, ?_, ?_⟩
  · rw [uintToZ, (c51_numeral 10 _ n (numeral_fmt 10 (by decide) (by decide) false n)).1, if_pos h]
  · rw [(c51_numeral 16 _ n (numeral_fmtPad width 16 (by decide) (by decide) up n)).1, if_pos h]
  · rw [(c51_numeral 16 _ n (numeral_fmt 16 (by decide) (by decide) up n)).1, if_pos h]

/-- Every signed 64-bit number is read back from its decimal text. -/
theorem c51_int_roundtrip (n : Int) (h1 : - 2 ^ 63 ≤ n) (h2 : n < 2 ^ 63) : toInt64Base 10 (intToZ n) = .ok n := by
  unfold intToZ
  have hnum := numeral_fmt 10 (by decide) (by decide) false n.natAbs
  by_cases hn : n < 0
  · rw [if_pos hn]
    obtain ⟨hs, _, _⟩ := strto_numeral 10 _ _ hnum
    obtain ⟨hne, ds, hds, hv⟩ := hnum
    have hstr : strto 10 (0x2d :: fmt 10 false n.natAbs) = some (true, n.natAbs, []) := by
      unfold strto
      have hdrop : List.dropWhile isSpace ((0x2d : UInt8) :: fmt 10 false n.natAbs) =
          0x2d :: fmt 10 false n.natAbs := by
        rw [List.dropWhile_cons_of_neg]; decide
      rw [hdrop]
      have hm : splitSign ((0x2d : UInt8) :: fmt 10 false n.natAbs) = (true, fmt 10 false n.natAbs) := rfl
      rw [hm]
      simp only
      rw [skipPrefix_numeral 10 _ ds hds]
      have hp := parseDigits_numeral 10 _ ds 0 hds
      cases hf : fmt 10 false n.natAbs with
      | nil => exact absurd hf hne
      | cons c s =>
        rw [hf] at hds hp
        cases ds with
        | nil => simp at hds
        | cons d ds =>
          simp only [List.map_cons, List.cons.injEq] at hds
          simp [hds.1, hp, hv]
    unfold toInt64Base
    rw [hstr]
    simp only
    rw [if_neg (by simp; omega), if_neg (by simp; decide)]
    simp only [if_true]
    congr 1; omega
  · rw [if_neg hn, (c51_numeral 10 _ _ hnum).2.2, if_pos (by omega)]
    congr 1; omega

/-- Whatever text is accepted is an optional `+`, for base 16 an optional `0x`, and digits that denote exactly the
result, which fits the type: no white space, no sign change, no trailing characters, no wrap around. -/
theorem c51_uint_sound (base : Nat) (s : List UInt8) (v : Nat) (h : toUInt64Base base s = .ok v) :
    v < 2 ^ 64 ∧ ∃ sign pre ds, s = sign ++ pre ++ ds ∧ (sign = [] ∨ sign = [0x2b]) ∧
      (pre = [] ∨ (base = 16 ∧ (pre = [0x30, 0x78] ∨ pre = [0x30, 0x58]))) ∧ Numeral base ds v := by
  unfold toUInt64Base uint64Internal at h
  cases hs : strto base s with
  | none => rw [hs] at h; simp [bind, Except.bind] at h
  | some x =>
    obtain ⟨neg, w, rest⟩ := x
    rw [hs] at h
    simp only [bind, Except.bind, pure, Except.pure] at h
    by_cases hw : w ≥ 2 ^ 64
    · rw [if_pos hw] at h; simp at h
    rw [if_neg hw] at h
    by_cases hc : s = [] ∨ (s.head?.any isSpace) = true ∨ rest ≠ []
    · rw [if_pos hc] at h; simp at h
    rw [if_neg hc] at h
    simp only at h
    push Not at hc
    obtain ⟨hne, hsp, hrest⟩ := hc
    by_cases hm : s.head? = some 0x2d
    · rw [if_pos hm] at h; simp at h
    rw [if_neg hm] at h
    have pd : ∀ (t : List UInt8) (acc w : Nat), parseDigits base acc t = (w, []) →
        ∃ ds : List Nat, t.map (digitOf base) = ds.map some ∧ w = acc * base ^ ds.length + valueOf base ds := by
      intro t
      induction t with
      | nil =>
        intro acc w hp
        simp only [parseDigits, Prod.mk.injEq, and_true] at hp
        exact ⟨[], rfl, by simp [valueOf, hp]⟩
      | cons c t ih =>
        intro acc w hp
        simp only [parseDigits] at hp
        cases hd : digitOf base c with
        | none => rw [hd] at hp; simp at hp
        | some d =>
          rw [hd] at hp
          obtain ⟨ds, h1, h2⟩ := ih _ _ hp
          refine ⟨d :: ds, by simp [hd, h1], ?_⟩
          rw [h2]; simp only [valueOf, List.length_cons, Nat.pow_succ]; ring
    unfold strto at hs
    have hdrop : List.dropWhile isSpace s = s := by
      cases s with
      | nil => rfl
      | cons c t => apply List.dropWhile_cons_of_neg; simpa using hsp
    rw [hdrop] at hs
    -- sign
    have hsign : ∃ sign t, s = sign ++ t ∧ (sign = [] ∨ sign = [0x2b]) ∧
        splitSign s = (false, t) := by
      cases s with
      | nil => exact absurd rfl hne
      | cons c t =>
        by_cases h1 : c = 0x2b
        · subst h1; exact ⟨[0x2b], t, rfl, Or.inr rfl, rfl⟩
        · refine ⟨[], c :: t, rfl, Or.inl rfl, ?_⟩
          have h2 : c ≠ 0x2d := by simpa using hm
          simp [splitSign, h1, h2]
    obtain ⟨sign, t, rfl, hsg, hmatch⟩ := hsign
    rw [hmatch] at hs
    have hpre : ∃ pre u, t = pre ++ u ∧ (pre = [] ∨ (base = 16 ∧ (pre = [0x30, 0x78] ∨ pre = [0x30, 0x58]))) ∧
        skipPrefix base t = u := by
      unfold skipPrefix
      split
      · rename_i z x d r
        split
        · rename_i hh
          obtain ⟨hb, rfl, hx, _⟩ := hh
          refine ⟨[0x30, x], d :: r, rfl, Or.inr ⟨hb, ?_⟩, rfl⟩
          rcases hx with rfl | rfl
          · exact Or.inl rfl
          · exact Or.inr rfl
        · exact ⟨[], _, rfl, Or.inl rfl, rfl⟩
      · exact ⟨[], t, rfl, Or.inl rfl, rfl⟩
    obtain ⟨pre, u, rfl, hpr, hsk⟩ := hpre
    simp only [hsk] at hs
    cases u with
    | nil => simp at hs
    | cons c r =>
      simp only at hs
      split at hs
      · cases hpd : parseDigits base 0 (c :: r) with
        | mk w' r' =>
          rw [hpd] at hs
          simp only [Option.some.injEq, Prod.mk.injEq] at hs
          obtain ⟨rfl, rfl, rfl⟩ := hs
          subst hrest
          obtain ⟨ds, h1, h2⟩ := pd _ _ _ hpd
          simp only [Bool.false_eq_true, if_false, Except.ok.injEq] at h
          subst h
          exact ⟨by omega, sign, pre, c :: r, by simp, hsg, hpr, by simp, ds, h1, by simpa using h2⟩
      · simp at hs

/-- The 32-bit conversion never returns more than the type holds. -/
theorem c51_uint32_bound (base : Nat) (s : List UInt8) (v : Nat) (h : toUIntBase base s = .ok v) : v < 2 ^ 32 := by
  unfold toUIntBase at h
  cases hi : uint64Internal base s with
  | error e => rw [hi] at h; simp [bind, Except.bind] at h
  | ok w =>
    rw [hi] at h
    simp only [bind, Except.bind, pure, Except.pure] at h
    split at h
    · simp at h
    · rename_i hc
      simp only [Except.ok.injEq] at h
      subst h
      push Not at hc
      omega

end Verif.Num
