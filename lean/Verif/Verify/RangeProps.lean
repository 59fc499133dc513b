import Verif.Verify.Model
import Verif.Wal.Props
import Mathlib.Data.List.Chain

/-!
# C63: the ranges of WAL that verify reports

Specification vocabulary and lemmas about one directory.
-/

namespace Verif.Verify

open Verif.Wal

/-! ## Specification -/

/-- The name of a WAL segment that is not the last one of the address space. -/
def IsSeg (size : Nat) (s : Str) : Prop :=
  ∃ tli segno, tli < 2 ^ 32 ∧ InSpace (segno + 1) size ∧ s = xlogFileName tli segno size

/-- The segment `b` comes right after the segment `a` on the same timeline. -/
def Follows (size : Nat) (a b : Str) : Prop :=
  ∃ tli segno, tli < 2 ^ 32 ∧ InSpace (segno + 1) size ∧ a = xlogFileName tli segno size ∧ b = xlogFileName tli (segno + 1) size

/-- `rs` are the maximal runs of `u`: `u` is divided into parts that are not empty, in each part every segment follows the one
before, the first segment of a part does not follow the last one of the part before, and each range is the first and the last
segment of its part. -/
def Runs (size : Nat) (u : List Str) (rs : List (Str × Str)) : Prop :=
  ∃ parts : List (List Str), parts.flatten = u ∧
    (∀ p ∈ parts, p ≠ [] ∧ p.IsChain (Follows size)) ∧
    parts.IsChain (fun p q => ∀ a b, p.getLast? = some a → q.head? = some b → ¬ Follows size a b) ∧
    rs.map (fun r => (some r.1, some r.2)) = parts.map (fun p => (p.head?, p.getLast?))

/-- The files whose segment has no other file. -/
def uniq (files : List Str) : List Str := files.filter (fun f => (files.map seg).count (seg f) = 1)

/-! ## Segments -/

theorem follows_iff {size : Nat} (hz : SegSize size) {a b : Str} (ha : IsSeg size a) :
    (∃ n, next a size = .ok n ∧ (n = b ↔ Follows size a b)) := by
  obtain ⟨tli, segno, ht, hs, rfl⟩ := ha
  refine ⟨_, c04_next tli segno size ht hz hs, ?_⟩
  constructor
  · rintro rfl
    exact ⟨tli, segno, ht, hs, rfl, rfl⟩
  · rintro ⟨t2, s2, ht2, hs2, h1, rfl⟩
    have hs' : ∀ k, InSpace (k + 1) size → InSpace k size := by
      intro k hk
      unfold InSpace at *
      have : (k + 1) * size ≤ (k + 1 + 1) * size := Nat.mul_le_mul_right _ (by omega)
      omega
    have := (c04_name_injective tli t2 segno s2 size ht ht2 hz (hs' _ hs) (hs' _ hs2)) h1
    obtain ⟨rfl, rfl⟩ := this
    rfl

theorem follows_timeline {size : Nat} {a b : Str} (h : Follows size a b) : a.take 8 = b.take 8 := by
  obtain ⟨tli, segno, _, _, rfl, rfl⟩ := h
  rw [xlogFileName, xlogFileName, take8, take8]

/-! ## Lists -/

theorem setLast_append {α : Type} (f : α → α) (l : List α) (x : α) : setLast f (l ++ [x]) = l ++ [f x] := by
  induction l with
  | nil => rfl
  | cons y l ih =>
    cases l with
    | nil => rfl
    | cons z l => simp only [List.cons_append, setLast] at ih ⊢; rw [ih]

/-- The ranges with one more segment. -/
def addSeg (size : Nat) (ranges : List WalRange) (s : Str) : List WalRange :=
  match ranges.getLast? with
  | some last =>
    if next last.stop size = .ok s then setLast (fun r => { r with stop := s }) ranges
    else ranges ++ [{ start := s, stop := s, invalid := [] }]
  | none => ranges ++ [{ start := s, stop := s, invalid := [] }]

theorem addSeg_last (size : Nat) (ranges : List WalRange) (s : Str) :
    ((addSeg size ranges s).getLast?.map (·.stop)) = some s := by
  unfold addSeg
  split
  · rename_i last h
    split
    · obtain ⟨l, rfl⟩ := List.getLast?_eq_some_iff.1 h
      rw [setLast_append]; simp
    · simp
  · simp

theorem seg_le {f g : Str} (h : f ≤ g) : seg f ≤ seg g := Str.take_le_take 24 h

/-- Removing the leading files of a segment from a sorted list leaves the files of greater segments. -/
theorem dropWhile_eq_filter (s : Str) : ∀ (l : List Str), (l.map seg).Pairwise (· ≤ ·) → (∀ g ∈ l, s ≤ seg g) →
    l.dropWhile (fun g => seg g = s) = l.filter (fun g => decide (s < seg g)) := by
  intro l
  induction l with
  | nil => intros; rfl
  | cons g l ih =>
    intro hs hge
    simp only [List.map_cons, List.pairwise_cons] at hs
    rw [List.dropWhile_cons]
    by_cases h : seg g = s
    · rw [if_pos (by simpa using h), ih hs.2 (fun x hx => hge x (by simp [hx])), List.filter_cons, if_neg]
      simp only [decide_eq_true_eq]
      rw [h]; exact Str.lt_irrefl s
    · rw [if_neg (by simpa using h)]
      have hlt : s < seg g := by
        rcases (Str.le_iff_lt_or_eq _ _).1 (hge g (by simp)) with h' | h'
        · exact h'
        · exact absurd h'.symm h
      symm
      rw [List.filter_eq_self]
      intro x hx
      simp only [decide_eq_true_eq]
      rcases List.mem_cons.1 hx with rfl | hx
      · exact hlt
      · exact Str.lt_of_lt_of_le hlt (hs.1 _ (List.mem_map_of_mem hx))

theorem count_filter_gt (s t : Str) (l : List Str) (h : s < t) :
    ((l.filter (fun g => decide (s < seg g))).map seg).count t = (l.map seg).count t := by
  induction l with
  | nil => rfl
  | cons g l ih =>
    rw [List.filter_cons]
    split
    · simp only [List.map_cons, List.count_cons, ih]
    · rename_i hg
      simp only [List.map_cons, List.count_cons, ih]
      have : seg g ≠ t := by rintro rfl; simp [h] at hg
      simp [this]

theorem count_zero_of_lt (s : Str) (l : List Str) (h : ∀ g ∈ l, s < seg g) : (l.map seg).count s = 0 := by
  rw [List.count_eq_zero]
  intro hm
  obtain ⟨g, hg, rfl⟩ := List.mem_map.1 hm
  exact Str.lt_irrefl _ (h g hg)

/-- What the loop does to the files of one directory. -/
theorem rangeLoop_eq {size : Nat} (hz : SegSize size) (t : Str) : ∀ (fuel : Nat) (files : List Str) (cur : Bool) (ranges : List WalRange),
    files.length ≤ fuel → (files.map seg).Pairwise (· ≤ ·) → (∀ f ∈ files, IsSeg size (seg f) ∧ (seg f).take 8 = t) →
    (∀ last, ranges.getLast? = some last → IsSeg size last.stop ∧ (cur = false → last.stop.take 8 ≠ t)) →
    ∃ dups, rangeLoop size fuel files cur ranges = .ok (((uniq files).map seg).foldl (addSeg size) ranges, uniq files, dups) ∧
      dups.Nodup ∧ ∀ s, s ∈ dups ↔ 2 ≤ (files.map seg).count s := by
  intro fuel
  induction fuel with
  | zero =>
    intro files cur ranges hl _ _ _
    cases files with
    | nil => exact ⟨[], rfl, by simp, by simp⟩
    | cons _ _ => simp at hl
  | succ fuel ih =>
    intro files cur ranges hl hs hseg hr
    cases files with
    | nil => exact ⟨[], rfl, by simp, by simp⟩
    | cons f rest =>
      simp only [List.map_cons, List.pairwise_cons] at hs
      have hge : ∀ g ∈ rest, seg f ≤ seg g := fun g hg => hs.1 _ (List.mem_map_of_mem hg)
      rw [rangeLoop]
      by_cases hd : (rest.head?.map seg) = some (seg f)
      · rw [if_pos hd, dropWhile_eq_filter (seg f) rest hs.2 hge]
        set keep := rest.filter (fun g => decide (seg f < seg g)) with hkeep
        have hsub : keep.Sublist rest := List.filter_sublist
        have hgt : ∀ g ∈ keep, seg f < seg g := by
          intro g hg; simpa using (List.mem_filter.1 hg).2
        obtain ⟨dups, e, hnd, hm⟩ := ih keep cur ranges
          (by have := hsub.length_le; simp only [List.length_cons] at hl; omega)
          (hs.2.sublist (hsub.map seg)) (fun g hg => hseg g (by simp [hsub.mem hg])) hr
        have hc2 : 1 ≤ (rest.map seg).count (seg f) := by
          cases rest with
          | nil => simp at hd
          | cons g r =>
            simp only [List.head?_cons, Option.map_some, Option.some.injEq] at hd
            simp [hd]
        have hu : uniq (f :: rest) = uniq keep := by
          have h1 : ∀ g ∈ keep, (((f :: rest).map seg).count (seg g) = 1) = ((keep.map seg).count (seg g) = 1) := by
            intro g hg
            rw [hkeep, count_filter_gt _ _ _ (hgt g hg), List.map_cons, List.count_cons, if_neg, Nat.add_zero]
            simp only [beq_iff_eq]
            intro h
            exact Str.lt_irrefl _ (h ▸ hgt g hg)
          unfold uniq
          rw [List.filter_cons, if_neg (by simp only [List.map_cons, List.count_cons_self, decide_eq_true_eq]; omega)]
          have h2 : keep.filter (fun g => decide ((keep.map seg).count (seg g) = 1)) =
              keep.filter (fun g => decide (((f :: rest).map seg).count (seg g) = 1)) := by
            apply List.filter_congr
            intro g hg
            simp only [h1 g hg]
          rw [h2, hkeep, List.filter_filter]
          apply List.filter_congr
          intro g hg
          by_cases hlt : seg f < seg g
          · simp [hlt]
          · have heq : seg g = seg f := by
              rcases (Str.le_iff_lt_or_eq _ _).1 (hge g hg) with h' | h'
              · exact absurd h' hlt
              · exact h'.symm
            rw [heq]
            simp only [Str.lt_irrefl, decide_false, Bool.and_false, decide_eq_false_iff_not, List.map_cons,
              List.count_cons_self]
            omega
        refine ⟨seg f :: dups, ?_, ?_, ?_⟩
        · rw [e, hu]; rfl
        · refine List.nodup_cons.2 ⟨?_, hnd⟩
          rw [hm, count_zero_of_lt _ _ hgt]; omega
        · intro s
          rw [List.mem_cons, hm]
          simp only [List.map_cons, List.count_cons]
          by_cases hsf : s = seg f
          · subst hsf; simp only [true_or, true_iff, beq_self_eq_true, if_true]; omega
          · rw [if_neg (by simpa using Ne.symm hsf)]
            simp only [hsf, false_or, Nat.add_zero]
            by_cases hlt : seg f < s
            · rw [hkeep, count_filter_gt _ _ _ hlt]
            · have z1 : (keep.map seg).count s = 0 := by
                rw [List.count_eq_zero]
                intro hm
                obtain ⟨g, hg, rfl⟩ := List.mem_map.1 hm
                exact hlt (hgt g hg)
              have z2 : (rest.map seg).count s = 0 := by
                rw [List.count_eq_zero]
                intro hm
                obtain ⟨g, hg, rfl⟩ := List.mem_map.1 hm
                rcases (Str.le_iff_lt_or_eq _ _).1 (hge g hg) with h' | h'
                · exact hlt h'
                · exact hsf h'.symm
              omega
      · rw [if_neg hd]
        have hgt : ∀ g ∈ rest, seg f < seg g := by
          cases rest with
          | nil => simp
          | cons g0 r =>
            simp only [List.head?_cons, Option.map_some, Option.some.injEq] at hd
            have h0 : seg f < seg g0 := by
              rcases (Str.le_iff_lt_or_eq _ _).1 (hge g0 (by simp)) with h' | h'
              · exact h'
              · exact absurd h'.symm hd
            intro g hg
            rcases List.mem_cons.1 hg with rfl | hg
            · exact h0
            · have := hs.2
              simp only [List.map_cons, List.pairwise_cons] at this
              exact Str.lt_of_lt_of_le h0 (this.1 _ (List.mem_map_of_mem hg))
        have hu : uniq (f :: rest) = f :: uniq rest := by
          unfold uniq
          rw [List.filter_cons, if_pos]
          · congr 1
            apply List.filter_congr
            intro g hg
            have : seg f ≠ seg g := by intro h; exact Str.lt_irrefl _ (h ▸ hgt g hg)
            simp [List.count_cons, this]
          · simp [count_zero_of_lt _ _ hgt]
        have hstep : ∃ isNext : Bool,
            followsLast size cur ranges (seg f) = .ok isNext ∧
            (if isNext then setLast (fun r => { r with stop := seg f }) ranges
              else ranges ++ [{ start := seg f, stop := seg f, invalid := [] }]) = addSeg size ranges (seg f) := by
          cases hlast : ranges.getLast? with
          | none => exact ⟨false, by cases cur <;> simp [followsLast, hlast], by simp [addSeg, hlast]⟩
          | some last =>
            obtain ⟨hl1, hl2⟩ := hr last hlast
            obtain ⟨n, hn, hiff⟩ := follows_iff hz (b := seg f) hl1
            cases cur with
            | true =>
              refine ⟨decide (n = seg f), ?_, ?_⟩
              · simp only [followsLast, hlast, hn]; rfl
              · simp [addSeg, hlast, hn]
            | false =>
              refine ⟨false, by simp [followsLast], ?_⟩
              have : n ≠ seg f := by
                intro h
                exact hl2 rfl ((follows_timeline (hiff.1 h)).trans (hseg f (by simp)).2)
              simp [addSeg, hlast, hn, this]
        obtain ⟨isNext, he, hadd⟩ := hstep
        obtain ⟨dups, e, hnd, hm⟩ := ih rest true (addSeg size ranges (seg f))
          (by simp only [List.length_cons] at hl; omega) hs.2 (fun g hg => hseg g (by simp [hg]))
          (by
            intro last hlast
            have := addSeg_last size ranges (seg f)
            rw [hlast] at this
            simp only [Option.map_some, Option.some.injEq] at this
            rw [this]
            exact ⟨(hseg f (by simp)).1, by simp⟩)
        refine ⟨dups, ?_, hnd, ?_⟩
        · rw [he]
          show (do let (r, fs, dups) ← rangeLoop size fuel rest true _; pure (r, f :: fs, dups) : Res _) = _
          rw [hadd, e, hu]; rfl
        · intro s
          rw [hm]
          simp only [List.map_cons, List.count_cons]
          by_cases hsf : seg f = s
          · subst hsf; simp [count_zero_of_lt _ _ hgt]
          · simp [hsf]

/-- What `createRange` does to the files of one directory. -/
theorem createRange_eq {size : Nat} (hz : SegSize size) (t : Str) (files : List Str) (ranges : List WalRange)
    (hne : files ≠ []) (hs : (files.map seg).Pairwise (· ≤ ·)) (hseg : ∀ f ∈ files, IsSeg size (seg f) ∧ (seg f).take 8 = t)
    (hr : ∀ last, ranges.getLast? = some last → IsSeg size last.stop) :
    ∃ dups, createRange size ranges files = .ok (((uniq files).map seg).foldl (addSeg size) ranges, uniq files, dups) ∧
      dups.Nodup ∧ ∀ s, s ∈ dups ↔ 2 ≤ (files.map seg).count s := by
  rw [createRange]
  refine rangeLoop_eq hz t _ files _ ranges (Nat.le_refl _) hs hseg ?_
  intro last hlast
  refine ⟨hr last hlast, ?_⟩
  cases files with
  | nil => exact absurd rfl hne
  | cons f rest => simp [sameTimeline, hlast, (hseg f (by simp)).2]

/-! ## Runs -/

/-- A range with one more segment: spec side. -/
theorem runs_addSeg {size : Nat} (hz : SegSize size) {u : List Str} {ranges : List WalRange} {s : Str}
    (h : Runs size u (ranges.map fun r => (r.start, r.stop))) (hu : ∀ x ∈ u, IsSeg size x) :
    Runs size (u ++ [s]) ((addSeg size ranges s).map fun r => (r.start, r.stop)) := by
  obtain ⟨parts, hf, hp, hg, hm⟩ := h
  rw [List.map_map] at hm
  rcases List.eq_nil_or_concat ranges with rfl | ⟨rs, r, rfl⟩
  · have : parts = [] := by simpa using hm.symm
    subst this
    simp only [List.flatten_nil] at hf
    subst hf
    exact ⟨[[s]], by simp, by simp, by simp, by simp [addSeg]⟩
  · rcases List.eq_nil_or_concat parts with rfl | ⟨ps, p, rfl⟩
    · simp at hm
    · simp only [List.concat_eq_append] at *
      simp only [List.map_append, List.map_cons, List.map_nil, Function.comp_apply] at hm
      obtain ⟨hm1, hm2⟩ := List.append_inj' hm rfl
      simp only [List.cons.injEq, Prod.mk.injEq, and_true] at hm2
      obtain ⟨hh, hl⟩ := hm2
      have hpr := hp p (by simp)
      have hstop : r.stop ∈ u := by
        rw [← hf]
        simp only [List.flatten_append, List.mem_append]
        right
        simpa using List.mem_of_getLast? hl.symm
      obtain ⟨n, hn, hiff⟩ := follows_iff hz (b := s) (hu _ hstop)
      by_cases hfol : Follows size r.stop s
      · have hn' : n = s := hiff.2 hfol
        subst hn'
        have ha : addSeg size (rs ++ [r]) n = rs ++ [{ r with stop := n }] := by
          unfold addSeg
          simp only [List.getLast?_append, List.getLast?_singleton, Option.some_or]
          rw [if_pos hn, setLast_append]
        refine ⟨ps ++ [p ++ [n]], ?_, ?_, ?_, ?_⟩
        · rw [← hf]; simp
        · intro q hq
          simp only [List.mem_append, List.mem_singleton] at hq
          rcases hq with hq | rfl
          · exact hp q (by simp [hq])
          · refine ⟨by simp, ?_⟩
            rw [List.isChain_append]
            refine ⟨hpr.2, by simp, ?_⟩
            intro x hx y hy
            simp only [List.head?_cons, Option.mem_def, Option.some.injEq] at hy hx
            subst hy
            rw [← hl] at hx
            cases hx
            exact hfol
        · rw [List.isChain_append] at hg ⊢
          refine ⟨hg.1, by simp, ?_⟩
          intro x hx y hy
          simp only [List.head?_cons, Option.mem_def, Option.some.injEq] at hy
          subst hy
          intro a b hxa hb
          refine hg.2.2 x hx p (by simp) a b hxa ?_
          cases p with
          | nil => exact absurd rfl hpr.1
          | cons c p => simpa using hb
        · rw [ha]
          simp only [List.map_append, List.map_map, List.map_cons, List.map_nil, List.getLast?_append, List.getLast?_singleton,
            Option.some_or]
          congr 1
          cases p with
          | nil => exact absurd rfl hpr.1
          | cons c p => simpa using hh
      · have ha : addSeg size (rs ++ [r]) s = rs ++ [r] ++ [{ start := s, stop := s, invalid := [] }] := by
          unfold addSeg
          simp only [List.getLast?_append, List.getLast?_singleton, Option.some_or]
          rw [if_neg]
          rw [hn]
          intro h
          cases h
          exact hfol (hiff.1 rfl)
        refine ⟨ps ++ [p] ++ [[s]], ?_, ?_, ?_, ?_⟩
        · rw [← hf]; simp
        · intro q hq
          simp only [List.mem_append, List.mem_singleton] at hq
          rcases hq with hq | rfl
          · exact hp q (by simpa using hq)
          · simp
        · rw [List.isChain_append]
          refine ⟨hg, by simp, ?_⟩
          intro x hx y hy
          simp only [List.head?_cons, Option.mem_def, Option.some.injEq, List.getLast?_append, List.getLast?_singleton,
            Option.some_or] at hy hx
          subst hy hx
          intro a b hxa hb
          rw [← hl] at hxa
          cases hxa
          simp only [List.head?_cons, Option.some.injEq] at hb
          subst hb
          exact hfol
        · rw [ha]
          simp only [List.map_append, List.map_map, List.map_cons, List.map_nil, List.head?_cons, List.getLast?_singleton]
          congr 1


theorem runs_fold {size : Nat} (hz : SegSize size) (v : List Str) : ∀ {u : List Str} {ranges : List WalRange},
    Runs size u (ranges.map fun r => (r.start, r.stop)) → (∀ x ∈ u ++ v, IsSeg size x) →
    Runs size (u ++ v) ((v.foldl (addSeg size) ranges).map fun r => (r.start, r.stop)) := by
  induction v with
  | nil => intro u ranges h _; simpa using h
  | cons s v ih =>
    intro u ranges h hu
    have := ih (runs_addSeg hz (s := s) h (fun x hx => hu x (by simp [hx]))) (by simpa using hu)
    simpa using this

theorem runs_nil (size : Nat) : Runs size [] [] := ⟨[], by simp⟩

end Verif.Verify
