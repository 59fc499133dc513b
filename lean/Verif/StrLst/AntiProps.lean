import Verif.StrLst.AntiModel

/-! # C26: the anti-merge of sorted lists is set difference -/

namespace Verif.StrLst

/-! ## Lemmas -/

theorem antiSkip_sublist (x : Str) : ∀ anti : List Str, (antiSkip x anti).2.Sublist anti
  | [] => .refl _
  | a :: anti => by
    unfold antiSkip
    split
    · exact .refl _
    · split
      · exact List.sublist_cons_self _ _
      · exact (antiSkip_sublist x anti).cons _

theorem antiSkip_found (x : Str) : ∀ anti : List Str, (antiSkip x anti).1 = false → x ∈ anti
  | [], h => by cases h
  | a :: anti, h => by
    unfold antiSkip at h
    split at h
    · cases h
    · split at h
      · rename_i hx; rw [hx]; exact .head _
      · exact .tail _ (antiSkip_found x anti h)

theorem antiSkip_asc (x : Str) : ∀ anti : List Str, anti.Pairwise (· ≤ ·) →
    ((antiSkip x anti).1 = true ↔ x ∉ anti) ∧ ∀ y, x < y → (y ∈ (antiSkip x anti).2 ↔ y ∈ anti)
  | [], _ => by simp [antiSkip]
  | a :: anti, h => by
    rw [List.pairwise_cons] at h
    unfold antiSkip
    split
    · rename_i hlt
      refine ⟨?_, fun y _ => Iff.rfl⟩
      simp only [true_iff, List.mem_cons, not_or]
      refine ⟨fun he => Str.lt_irrefl a (he ▸ hlt), fun hm => ?_⟩
      exact (Str.le_iff _ _).1 (h.1 x hm) hlt
    · split
      · rename_i hx
        subst hx
        refine ⟨by simp, fun y hy => ?_⟩
        simp only [List.mem_cons]
        exact ⟨.inr, fun h => h.resolve_left fun he => Str.lt_irrefl x (he ▸ hy)⟩
      · rename_i hlt hne
        obtain ⟨h1, h2⟩ := antiSkip_asc x anti h.2
        have hax : a < x := by
          rcases Str.trichotomy x a with h | h | h
          · exact absurd h hlt
          · exact absurd h hne
          · exact h
        refine ⟨by rw [h1]; simp [hne], fun y hy => ?_⟩
        rw [h2 y hy]
        simp only [List.mem_cons]
        exact ⟨.inr, fun h => h.resolve_left fun he => Str.lt_irrefl x (Str.lt_trans (he ▸ hy) hax)⟩

/-! ## Theorems -/

/-- Without repeated elements in the first list: exactly the elements of the first that are not in the second, in order. The second
may have repeated elements. -/
theorem c26_difference (this anti : List Str) (hthis : this.Pairwise (· < ·)) (hanti : anti.Pairwise (· ≤ ·)) :
    mergeAnti this anti = this.filter (fun x => !anti.contains x) := by
  induction this generalizing anti with
  | nil => rfl
  | cons x this ih =>
    rw [List.pairwise_cons] at hthis
    obtain ⟨h1, h2⟩ := antiSkip_asc x anti hanti
    have hrest : mergeAnti this (antiSkip x anti).2 = this.filter (fun x => !anti.contains x) := by
      rw [ih _ hthis.2 (hanti.sublist (antiSkip_sublist x anti))]
      apply List.filter_congr
      intro y hy
      have := h2 y (hthis.1 y hy)
      rw [Bool.eq_iff_iff]
      simp [this]
    rw [mergeAnti, List.filter_cons]
    by_cases hx : x ∈ anti
    · have : (antiSkip x anti).1 = false := by
        cases h : (antiSkip x anti).1 with
        | false => rfl
        | true => exact absurd hx (h1.1 h)
      rw [this, hrest]
      simp [hx]
    · rw [h1.2 hx, hrest]
      simp [hx]

example : ([[1], [1, 2], [3]] : List Str).Pairwise (· < ·) ∧ ([[1, 2], [1, 2], [2]] : List Str).Pairwise (· ≤ ·) ∧
    mergeAnti [[1], [1, 2], [3]] [[1, 2], [1, 2], [2]] = [[1], [3]] := by
  refine ⟨by decide, by decide, by decide⟩

/-- For any lists, sorted or not: the result is made of elements of the first list in their order, and what is not in it is in the
second list. -/
theorem c26_any (this anti : List Str) : (mergeAnti this anti).Sublist this ∧ ∀ x ∈ this, x ∉ mergeAnti this anti → x ∈ anti := by
  induction this generalizing anti with
  | nil => exact ⟨.slnil, fun x hx => by cases hx⟩
  | cons x this ih =>
    obtain ⟨h1, h2⟩ := ih (antiSkip x anti).2
    rw [mergeAnti]
    split
    · refine ⟨h1.cons_cons x, fun y hy hn => ?_⟩
      rw [List.mem_cons, not_or] at hn
      exact (antiSkip_sublist x anti).subset (h2 y (List.mem_of_ne_of_mem hn.1 hy) hn.2)
    · rename_i hf
      refine ⟨h1.cons x, fun y hy hn => ?_⟩
      rcases List.mem_cons.1 hy with rfl | hy
      · exact antiSkip_found y anti (by simpa using hf)
      · exact (antiSkip_sublist x anti).subset (h2 y hy hn)

/-- An element that is repeated in the first list is not removed as often as it occurs there. -/
theorem c26_repeated : ∃ (this anti : List Str), this.Pairwise (· ≤ ·) ∧ anti.Pairwise (· ≤ ·) ∧ ∃ x ∈ anti, x ∈ mergeAnti this anti :=
  ⟨[[1], [1]], [[1]], by decide, by decide, [1], by decide, by decide⟩

/-! ## The two merges of the same lists -/

theorem antiSkip_cons_lt {x a : Str} {anti : List Str} (h : x < a) : antiSkip x (a :: anti) = (true, a :: anti) := by
  rw [antiSkip, if_pos h]

theorem antiSkip_cons_eq {x : Str} {anti : List Str} : antiSkip x (x :: anti) = (false, anti) := by
  rw [antiSkip, if_neg (Str.lt_irrefl x), if_pos rfl]

theorem antiSkip_cons_gt {x a : Str} {anti : List Str} (h : a < x) : antiSkip x (a :: anti) = antiSkip x anti := by
  rw [antiSkip, if_neg (Str.lt_asymm h), if_neg (fun he => Str.lt_irrefl a (by rw [he] at h; exact h))]

theorem mergeAnti_nil : ∀ this : List Str, mergeAnti this [] = this
  | [] => rfl
  | x :: this => by rw [mergeAnti, antiSkip, if_pos rfl, mergeAnti_nil this]

theorem mergeAnti_lt {x a : Str} {this anti : List Str} (h : x < a) :
    mergeAnti (x :: this) (a :: anti) = x :: mergeAnti this (a :: anti) := by
  rw [mergeAnti, antiSkip_cons_lt h, if_pos rfl]

theorem mergeAnti_eq {x : Str} {this anti : List Str} : mergeAnti (x :: this) (x :: anti) = mergeAnti this anti := by
  rw [mergeAnti, antiSkip_cons_eq]
  rfl

theorem mergeAnti_gt {x a : Str} {this anti : List Str} (h : a < x) :
    mergeAnti (x :: this) (a :: anti) = mergeAnti (x :: this) anti := by
  rw [mergeAnti, antiSkip_cons_gt h, ← mergeAnti]

/-- The merges in both directions take the same way through the lists, so what is matched is the same, for any lists. -/
theorem merge_both : ∀ (n : Nat) (a b : List Str), a.length + b.length ≤ n → ∃ m : List Str,
    a.Perm (mergeAnti a b ++ m) ∧ b.Perm (mergeAnti b a ++ m)
  | _, [], b, _ => ⟨[], by simp [mergeAnti], by rw [mergeAnti_nil]; simp⟩
  | _, x :: a, [], _ => ⟨[], by rw [mergeAnti_nil]; simp, by simp [mergeAnti]⟩
  | 0, x :: a, y :: b, h => by simp at h
  | n + 1, x :: a, y :: b, h => by
    simp only [List.length_cons] at h
    rcases Str.trichotomy x y with hlt | rfl | hlt
    · obtain ⟨m, h1, h2⟩ := merge_both n a (y :: b) (by simp; omega)
      rw [mergeAnti_lt hlt, mergeAnti_gt hlt]
      exact ⟨m, h1.cons x, h2⟩
    · obtain ⟨m, h1, h2⟩ := merge_both n a b (by omega)
      rw [mergeAnti_eq, mergeAnti_eq]
      exact ⟨x :: m, (h1.cons x).trans List.perm_middle.symm, (h2.cons x).trans List.perm_middle.symm⟩
    · obtain ⟨m, h1, h2⟩ := merge_both n (x :: a) b (by simp; omega)
      rw [mergeAnti_lt hlt, mergeAnti_gt hlt]
      exact ⟨m, h1, h2.cons y⟩

/-- For lists without repeated elements, sorted or not: an element of both lists is in the result of one merge iff it is in the
result of the merge with the lists exchanged. -/
theorem c26_symmetric (a b : List Str) (ha : a.Nodup) (hb : b.Nodup) (x : Str) (hxa : x ∈ a) (hxb : x ∈ b) :
    x ∈ mergeAnti a b ↔ x ∈ mergeAnti b a := by
  obtain ⟨m, h1, h2⟩ := merge_both _ a b (Nat.le_refl _)
  have ha' := h1.nodup_iff.1 ha
  have hb' := h2.nodup_iff.1 hb
  rw [List.nodup_append] at ha' hb'
  have hxa' := h1.mem_iff.1 hxa
  have hxb' := h2.mem_iff.1 hxb
  rw [List.mem_append] at hxa' hxb'
  constructor
  · intro h
    exact hxb'.resolve_right fun hm => ha'.2.2 x h x hm rfl
  · intro h
    exact hxa'.resolve_right fun hm => hb'.2.2 x h x hm rfl

example : ([[2], [1]] : List Str).Nodup ∧ ([1] : Str) ∈ ([[2], [1]] : List Str) ∧ ([1] : Str) ∈ mergeAnti [[2], [1]] [[1]] ∧
    ([1] : Str) ∈ mergeAnti [[1]] [[2], [1]] := by
  refine ⟨by decide, by decide, by decide, by decide⟩

end Verif.StrLst
