import Verif.Basic

/-! # Strings and sorted string lists

A `String` of the program (src/common/type/string.c) is a list of bytes without a zero byte. `strCmp`
(src/common/type/string.c:339-354) is `strcmp`: bytes are compared as unsigned, a proper prefix is smaller. This is
the order `<` of lists. -/

namespace Verif

abbrev Str := List UInt8

namespace Str

theorem lt_irrefl (a : Str) : ¬ a < a := List.lt_irrefl a

theorem lt_trans {a b c : Str} (h : a < b) (h' : b < c) : a < c := List.lt_trans h h'

theorem lt_asymm {a b : Str} (h : a < b) : ¬ b < a := fun h' => lt_irrefl a (lt_trans h h')

theorem trichotomy (a b : Str) : a < b ∨ a = b ∨ b < a := by
  by_cases h : a < b
  · exact .inl h
  · by_cases h' : b < a
    · exact .inr (.inr h')
    · exact .inr (.inl (List.le_antisymm (List.not_lt.1 h') (List.not_lt.1 h)))

theorem le_iff (a b : Str) : a ≤ b ↔ ¬ b < a := List.not_lt.symm

theorem le_iff_lt_or_eq (a b : Str) : a ≤ b ↔ a < b ∨ a = b := by
  rw [le_iff]
  constructor
  · intro h
    rcases trichotomy a b with h' | h' | h'
    · exact .inl h'
    · exact .inr h'
    · exact absurd h' h
  · rintro (h | rfl)
    · exact lt_asymm h
    · exact lt_irrefl a

theorem le_refl (a : Str) : a ≤ a := (le_iff_lt_or_eq a a).2 (.inr rfl)

theorem le_of_lt {a b : Str} (h : a < b) : a ≤ b := (le_iff_lt_or_eq a b).2 (.inl h)

theorem le_trans {a b c : Str} (h : a ≤ b) (h' : b ≤ c) : a ≤ c := by
  rw [le_iff_lt_or_eq] at *
  rcases h with h | rfl
  · rcases h' with h' | rfl
    · exact .inl (lt_trans h h')
    · exact .inl h
  · exact h'

theorem lt_of_le_of_lt {a b c : Str} (h : a ≤ b) (h' : b < c) : a < c := by
  rcases (le_iff_lt_or_eq a b).1 h with h | rfl
  · exact lt_trans h h'
  · exact h'

theorem lt_of_lt_of_le {a b c : Str} (h : a < b) (h' : b ≤ c) : a < c := by
  rcases (le_iff_lt_or_eq b c).1 h' with h' | rfl
  · exact lt_trans h h'
  · exact h

theorem le_antisymm {a b : Str} (h : a ≤ b) (h' : b ≤ a) : a = b := by
  rw [le_iff] at *
  rcases trichotomy a b with h1 | h1 | h1
  · exact absurd h1 h'
  · exact h1
  · exact absurd h1 h

theorem le_total (a b : Str) : a ≤ b ∨ b ≤ a := by
  rcases trichotomy a b with h | rfl | h
  · exact .inl (le_of_lt h)
  · exact .inl (le_refl a)
  · exact .inr (le_of_lt h)

theorem not_le {a b : Str} : ¬ a ≤ b ↔ b < a := by rw [le_iff, Decidable.not_not]

theorem not_lt {a b : Str} : ¬ a < b ↔ b ≤ a := (le_iff b a).symm

/-- Truncation keeps the order. -/
theorem take_le_take {a b : Str} (n : Nat) (h : a ≤ b) : a.take n ≤ b.take n := by
  rw [le_iff] at *
  intro h'
  apply h
  clear h
  induction n generalizing a b with
  | zero => simp at h'
  | succ n ih =>
    cases b with
    | nil =>
      cases a with
      | nil => simp at h'
      | cons x xs => exact List.Lex.nil
    | cons y ys =>
      cases a with
      | nil => simp at h'
      | cons x xs =>
        simp only [List.take_succ_cons] at h'
        rw [List.cons_lt_cons_iff] at h' ⊢
        rcases h' with h' | ⟨h', h''⟩
        · exact .inl h'
        · exact .inr ⟨h', ih h''⟩

end Str

/-- Insert into an ascending list behind equal elements. -/
def insertAsc (x : Str) : List Str → List Str
  | [] => [x]
  | y :: ys => if x < y then x :: y :: ys else y :: insertAsc x ys

/-- `strLstSort(list, sortOrderAsc)` (src/common/type/stringList.h, list.c:355-390). The C code uses `qsort`; with
`strcmp` as the comparator the result is the same for every correct sort since equal elements are identical. -/
def sortAsc : List Str → List Str
  | [] => []
  | x :: xs => insertAsc x (sortAsc xs)

/-- `strLstSort(list, sortOrderDesc)`. -/
def sortDesc (l : List Str) : List Str := (sortAsc l).reverse

/-- Ascending without duplicates. -/
abbrev StrictAsc (l : List Str) : Prop := l.Pairwise (· < ·)

theorem mem_insertAsc {x y : Str} {l : List Str} : y ∈ insertAsc x l ↔ y = x ∨ y ∈ l := by
  induction l with
  | nil => simp [insertAsc]
  | cons z zs ih =>
    unfold insertAsc
    split
    · simp
    · simp only [List.mem_cons, ih]
      constructor
      · rintro (h | h | h) <;> simp [h]
      · rintro (h | h | h) <;> simp [h]

theorem mem_sortAsc {y : Str} {l : List Str} : y ∈ sortAsc l ↔ y ∈ l := by
  induction l with
  | nil => simp [sortAsc]
  | cons z zs ih => simp [sortAsc, mem_insertAsc, ih]

theorem mem_sortDesc {y : Str} {l : List Str} : y ∈ sortDesc l ↔ y ∈ l := by
  simp [sortDesc, mem_sortAsc]

theorem insertAsc_pairwise {x : Str} {l : List Str} (h : l.Pairwise (· ≤ ·)) : (insertAsc x l).Pairwise (· ≤ ·) := by
  induction l with
  | nil => simp [insertAsc]
  | cons y ys ih =>
    unfold insertAsc
    have h' := List.pairwise_cons.1 h
    split
    · rename_i hlt
      refine List.pairwise_cons.2 ⟨?_, h⟩
      intro z hz
      rcases List.mem_cons.1 hz with rfl | hz
      · exact Str.le_of_lt hlt
      · exact Str.le_trans (Str.le_of_lt hlt) (h'.1 z hz)
    · rename_i hlt
      refine List.pairwise_cons.2 ⟨?_, ih h'.2⟩
      intro z hz
      rcases mem_insertAsc.1 hz with rfl | hz
      · exact Str.not_lt.1 hlt
      · exact h'.1 z hz

theorem sortAsc_pairwise (l : List Str) : (sortAsc l).Pairwise (· ≤ ·) := by
  induction l with
  | nil => simp [sortAsc]
  | cons x xs ih => exact insertAsc_pairwise ih

theorem insertAsc_perm (x : Str) (l : List Str) : (insertAsc x l).Perm (x :: l) := by
  induction l with
  | nil => exact List.Perm.refl _
  | cons y ys ih =>
    unfold insertAsc
    split
    · exact List.Perm.refl _
    · exact (List.Perm.cons y ih).trans (List.Perm.swap x y ys)

theorem sortAsc_perm (l : List Str) : (sortAsc l).Perm l := by
  induction l with
  | nil => exact List.Perm.refl _
  | cons x xs ih => exact (insertAsc_perm x _).trans (List.Perm.cons x ih)

theorem sortAsc_strictAsc {l : List Str} (h : l.Nodup) : StrictAsc (sortAsc l) := by
  have h1 := sortAsc_pairwise l
  have h2 : (sortAsc l).Nodup := (sortAsc_perm l).nodup_iff.2 h
  refine List.Pairwise.imp₂ (R := (· ≤ ·)) (S := (· ≠ ·)) ?_ h1 h2
  intro a b hle hne
  rcases (Str.le_iff_lt_or_eq a b).1 hle with h | h
  · exact h
  · exact absurd h hne

theorem sortAsc_eq_self {l : List Str} (h : StrictAsc l) : sortAsc l = l := by
  induction l with
  | nil => rfl
  | cons x xs ih =>
    have h' := List.pairwise_cons.1 h
    rw [sortAsc, ih h'.2]
    cases xs with
    | nil => rfl
    | cons y ys => rw [insertAsc, if_pos (h'.1 y (by simp))]

theorem StrictAsc.nodup {l : List Str} (h : StrictAsc l) : l.Nodup :=
  List.Pairwise.imp (fun hlt heq => by subst heq; exact Str.lt_irrefl _ hlt) h

end Verif
