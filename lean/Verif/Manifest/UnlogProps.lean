import Verif.Manifest.UnlogModel
import Mathlib.Data.List.Forall2

/-! # Unlogged relations are left out of the backup (C39) -/

namespace Verif.Manifest

open Verif

/-! ## Specification -/

/-- Not empty and only digits. -/
def Number (s : Str) : Prop := s ≠ [] ∧ ∀ c ∈ s, 48 ≤ c ∧ c ≤ 57

/-- A string of the form of a tablespace identifier. -/
def TsLike (ts s : Str) : Prop := List.Forall₂ (fun p c => p = 46 ∨ p = c) ts s

/-- A directory with relations. -/
def DbDir (ts dir : Str) : Prop :=
  dir = globalZ ∨ (∃ n, Number n ∧ dir = baseZ ++ n) ∨
  ∃ n t m, Number n ∧ TsLike ts t ∧ Number m ∧ dir = tblspcZ ++ n ++ 47 :: t ++ 47 :: m

/-- The file `f` is part of the relation `id` in `dir`: a main, free space or visibility fork, and one of its segments. -/
def RelOf (ts f dir id : Str) : Prop :=
  DbDir ts dir ∧ Number id ∧ ∃ fork seg, (fork = [] ∨ fork = fsmZ ∨ fork = vmZ) ∧ (seg = [] ∨ ∃ n, Number n ∧ seg = 46 :: n) ∧
    f = dir ++ 47 :: (id ++ fork ++ seg)

/-- The name of the initialization fork. -/
def initFork (dir id : Str) : Str := dir ++ 47 :: (id ++ initZ)

/-! ## Matching -/

theorem isDig_iff (c : UInt8) : isDig c = true ↔ 48 ≤ c ∧ c ≤ 57 := by
  unfold isDig
  simp

theorem digits_iff (s : Str) : digits s = true ↔ Number s := by
  unfold digits Number
  cases s with
  | nil => simp
  | cons c s => simp [isDig_iff]

theorem tw_digits {a b : Str} (h : ∀ c ∈ a, isDig c = true) (hb : ∀ c r, b = c :: r → isDig c = false) :
    (a ++ b).takeWhile isDig = a ∧ (a ++ b).dropWhile isDig = b := by
  induction a with
  | nil =>
    cases b with
    | nil => exact ⟨rfl, rfl⟩
    | cons c r =>
      have := hb c r rfl
      simp [this]
  | cons x a ih =>
    have hx := h x (by simp)
    obtain ⟨h1, h2⟩ := ih fun c hc => h c (List.mem_cons_of_mem _ hc)
    simp [hx, h1, h2]

theorem tw_mem {p : UInt8 → Bool} {s : Str} {c : UInt8} (h : c ∈ s.takeWhile p) : p c = true := by
  induction s with
  | nil => cases h
  | cons x s ih =>
    rw [List.takeWhile_cons] at h
    split at h
    · rename_i hx
      rcases List.mem_cons.1 h with rfl | h
      · exact hx
      · exact ih h
    · cases h

theorem dw_head {p : UInt8 → Bool} {s r : Str} {c : UInt8} (h : s.dropWhile p = c :: r) : p c = false := by
  induction s with
  | nil => cases h
  | cons x s ih =>
    rw [List.dropWhile_cons] at h
    split at h
    · exact ih h
    · rename_i hx
      cases h
      simpa using hx

theorem matchTs_iff : ∀ (ts s : Str), matchTs ts s = true ↔ TsLike ts s
  | [], [] => by simp [matchTs, TsLike]
  | [], c :: s => by simp [matchTs, TsLike]
  | p :: ts, [] => by simp [matchTs, TsLike]
  | p :: ts, c :: s => by
    have := matchTs_iff ts s
    unfold TsLike at this
    simp [matchTs, TsLike, this]

theorem number_dig {s : Str} (h : Number s) : ∀ c ∈ s, isDig c = true := fun c hc => (isDig_iff c).2 (h.2 c hc)

theorem tsLike_length {ts s : Str} (h : TsLike ts s) : s.length = ts.length := by
  induction h with
  | nil => rfl
  | cons _ _ ih => simp [ih]

theorem dbPath_iff (ts s : Str) : dbPath ts s = true ↔ DbDir ts s := by
  unfold dbPath DbDir
  simp only [Bool.or_eq_true, Bool.and_eq_true, beq_iff_eq, List.isPrefixOf_iff_prefix, digits_iff, matchTs_iff, Bool.not_eq_true',
    List.isEmpty_eq_false_iff, or_assoc]
  refine or_congr Iff.rfl (or_congr ?_ ?_)
  · constructor
    · rintro ⟨⟨r, rfl⟩, h⟩
      exact ⟨r, by simpa using h, rfl⟩
    · rintro ⟨n, h, rfl⟩
      exact ⟨⟨n, rfl⟩, by simpa using h⟩
  · constructor
    · rintro ⟨⟨r, rfl⟩, h1, ⟨⟨h2, h3⟩, h4⟩, h5⟩
      simp only [List.drop_left] at h1 h2 h3 h4 h5
      have hr := List.takeWhile_append_dropWhile (p := isDig) (l := r)
      have hn : Number (r.takeWhile isDig) := ⟨h1, fun c hc => (isDig_iff c).1 (tw_mem hc)⟩
      generalize r.takeWhile isDig = n at *
      generalize r.dropWhile isDig = q at *
      refine ⟨n, (q.drop 1).take ts.length, q.drop (ts.length + 2), hn, h3, h5, ?_⟩
      have e1 : q = 47 :: q.drop 1 := by
        cases q with
        | nil => cases h2
        | cons c q =>
          simp only [List.take_succ_cons, List.take_zero, List.cons.injEq, and_true] at h2
          rw [h2]
          rfl
      have e2 : q.drop 1 = (q.drop 1).take ts.length ++ q.drop (ts.length + 1) := by
        have := List.take_append_drop ts.length (q.drop 1)
        rw [List.drop_drop, Nat.add_comm 1] at this
        exact this.symm
      have e3 : q.drop (ts.length + 1) = 47 :: q.drop (ts.length + 2) := by
        have : q.drop (ts.length + 2) = (q.drop (ts.length + 1)).drop 1 := by rw [List.drop_drop]
        rw [this]
        generalize q.drop (ts.length + 1) = z at h4
        cases z with
        | nil => cases h4
        | cons c z =>
          simp only [List.take_succ_cons, List.take_zero, List.cons.injEq, and_true] at h4
          rw [h4]
          rfl
      rw [← hr]
      conv => lhs; rw [e1, e2, e3]
      simp
    · rintro ⟨n, t, m, hn, ht, hm, rfl⟩
      have hl := tsLike_length ht
      have hd : (tblspcZ ++ n ++ 47 :: t ++ 47 :: m).drop tblspcZ.length = n ++ (47 :: t ++ 47 :: m) := by simp
      obtain ⟨w1, w2⟩ := tw_digits (b := 47 :: t ++ 47 :: m) (number_dig hn) (by
        intro c r h
        cases h
        decide)
      refine ⟨⟨n ++ (47 :: t ++ 47 :: m), by simp⟩, ?_⟩
      rw [hd, w1, w2]
      have d1 : (47 :: t ++ 47 :: m).drop 1 = t ++ 47 :: m := rfl
      have d2 : (47 :: t ++ 47 :: m).drop (ts.length + 1) = 47 :: m := by
        rw [← hl]
        simp
      have d3 : (47 :: t ++ 47 :: m).drop (ts.length + 2) = m := by
        rw [← hl, show t.length + 2 = (t.length + 1) + 1 from rfl, ← List.drop_drop]
        rw [hl, d2]
        rfl
      rw [d1, d2, d3]
      refine ⟨hn.1, ⟨⟨rfl, ?_⟩, rfl⟩, hm⟩
      rw [← hl, List.take_left]
      exact ht

theorem segment_iff (s : Str) : segment s = true ↔ s = [] ∨ ∃ n, Number n ∧ s = 46 :: n := by
  cases s with
  | nil => simp [segment]
  | cons c s =>
    simp only [segment, Bool.and_eq_true, beq_iff_eq, digits_iff]
    constructor
    · rintro ⟨rfl, h⟩
      exact .inr ⟨s, h, rfl⟩
    · rintro (h | ⟨n, h, e⟩)
      · cases h
      · cases e
        exact ⟨rfl, h⟩

/-- Forks and segments as in the specification. -/
def Tail (s : Str) : Prop := ∃ fork seg, (fork = [] ∨ fork = fsmZ ∨ fork = vmZ) ∧ (seg = [] ∨ ∃ n, Number n ∧ seg = 46 :: n) ∧
  s = fork ++ seg

theorem dropFork_iff (s : Str) : segment (dropFork s) = true ↔ Tail s := by
  unfold dropFork Tail
  constructor
  · intro h
    by_cases h1 : fsmZ.isPrefixOf s = true
    · rw [if_pos h1] at h
      obtain ⟨r, rfl⟩ := List.isPrefixOf_iff_prefix.1 h1
      exact ⟨fsmZ, r, .inr (.inl rfl), (segment_iff _).1 h, rfl⟩
    · rw [if_neg h1] at h
      by_cases h2 : vmZ.isPrefixOf s = true
      · rw [if_pos h2] at h
        obtain ⟨r, rfl⟩ := List.isPrefixOf_iff_prefix.1 h2
        exact ⟨vmZ, r, .inr (.inr rfl), (segment_iff _).1 h, rfl⟩
      · rw [if_neg h2] at h
        exact ⟨[], s, .inl rfl, (segment_iff _).1 h, rfl⟩
  · rintro ⟨fork, seg, hf, hs, rfl⟩
    have h0 := (segment_iff seg).2 hs
    rcases hf with rfl | rfl | rfl
    · have h1 : ¬ fsmZ.isPrefixOf ([] ++ seg) = true := by
        rcases hs with rfl | ⟨n, _, rfl⟩
        · decide
        · simp [fsmZ]
      have h2 : ¬ vmZ.isPrefixOf ([] ++ seg) = true := by
        rcases hs with rfl | ⟨n, _, rfl⟩
        · decide
        · simp [vmZ]
      rw [if_neg h1, if_neg h2]
      exact h0
    · rw [if_pos (List.isPrefixOf_iff_prefix.2 ⟨seg, rfl⟩)]
      exact h0
    · rw [if_neg (by simp [fsmZ, vmZ]), if_pos (List.isPrefixOf_iff_prefix.2 ⟨seg, rfl⟩)]
      exact h0

theorem tail_head {s r : Str} {c : UInt8} (h : Tail s) (e : s = c :: r) : isDig c = false := by
  obtain ⟨fork, seg, hf, hs, rfl⟩ := h
  rcases hf with rfl | rfl | rfl
  · rcases hs with rfl | ⟨n, _, rfl⟩
    · cases e
    · cases e
      decide
  · cases e
    decide
  · cases e
    decide

theorem tail_slash {s : Str} (h : Tail s) : 47 ∉ s := by
  obtain ⟨fork, seg, hf, hs, rfl⟩ := h
  rw [List.mem_append, not_or]
  constructor
  · rcases hf with rfl | rfl | rfl <;> decide
  · rcases hs with rfl | ⟨n, hn, rfl⟩
    · simp
    · simp only [List.mem_cons, not_or]
      refine ⟨by decide, fun hc => ?_⟩
      exact absurd (hn.2 47 hc).1 (by decide)

theorem number_slash {s : Str} (h : Number s) : 47 ∉ s := fun hc => absurd (h.2 47 hc).1 (by decide)

theorem base_split {d b : Str} (hb : 47 ∉ b) : baseName (d ++ 47 :: b) = b ∧ dirName (d ++ 47 :: b) = d ++ [47] := by
  have e : (d ++ 47 :: b).reverse = b.reverse ++ 47 :: d.reverse := by simp
  have hr : 47 ∉ b.reverse := by simpa using hb
  have hall : ∀ x ∈ b.reverse, decide (x ≠ 47) = true := by
    intro x hx
    simp only [ne_eq, decide_eq_true_eq]
    rintro rfl
    exact hr hx
  constructor
  · unfold baseName
    rw [e, List.takeWhile_append_of_pos hall]
    simp
  · unfold dirName
    rw [e, List.dropWhile_append_of_pos hall]
    simp

theorem split_base (f : Str) (h : dirName f ≠ []) : f = (dirName f).dropLast ++ 47 :: baseName f := by
  have e : dirName f ++ baseName f = f := by
    unfold dirName baseName
    rw [← List.reverse_append, List.takeWhile_append_dropWhile, List.reverse_reverse]
  have hl : dirName f = (dirName f).dropLast ++ [47] := by
    unfold dirName at h ⊢
    cases hd : f.reverse.dropWhile (· ≠ 47) with
    | nil =>
      rw [hd] at h
      exact absurd rfl h
    | cons c r =>
      have := dw_head hd
      simp only [ne_eq, decide_not, Bool.not_eq_eq_eq_not, Bool.not_false, decide_eq_true_eq] at this
      rw [this]
      simp
  conv => lhs; rw [← e, hl]
  simp

theorem relOf_iff {ts f dir id : Str} : RelOf ts f dir id ↔ DbDir ts dir ∧ Number id ∧ ∃ t, Tail t ∧ f = dir ++ 47 :: (id ++ t) := by
  constructor
  · rintro ⟨h1, h2, fork, seg, h3, h4, rfl⟩
    exact ⟨h1, h2, fork ++ seg, ⟨fork, seg, h3, h4, rfl⟩, by simp⟩
  · rintro ⟨h1, h2, t, ⟨fork, seg, h3, h4, rfl⟩, rfl⟩
    exact ⟨h1, h2, fork, seg, h3, h4, by simp⟩

theorem relOf_parts {ts f dir id : Str} (h : RelOf ts f dir id) :
    isRelation ts f = true ∧ dirName f = dir ++ [47] ∧ (baseName f).takeWhile isDig = id := by
  obtain ⟨h1, h2, t, h3, rfl⟩ := relOf_iff.1 h
  have hns : 47 ∉ id ++ t := by
    rw [List.mem_append, not_or]
    exact ⟨number_slash h2, tail_slash h3⟩
  obtain ⟨e1, e2⟩ := base_split (d := dir) hns
  obtain ⟨w1, w2⟩ := tw_digits (b := t) (number_dig h2) (fun c r e => tail_head h3 e)
  unfold isRelation relName
  rw [e1, e2, w1, w2]
  refine ⟨?_, rfl, rfl⟩
  simp only [Bool.and_eq_true, Bool.not_eq_true', List.isEmpty_eq_false_iff]
  refine ⟨⟨by simp, ?_⟩, h2.1, (dropFork_iff t).2 h3⟩
  rw [List.dropLast_concat]
  exact (dbPath_iff ts dir).2 h1

theorem relation_relOf {ts f : Str} (h : isRelation ts f = true) :
    RelOf ts f (dirName f).dropLast ((baseName f).takeWhile isDig) := by
  unfold isRelation relName at h
  simp only [Bool.and_eq_true, Bool.not_eq_true', List.isEmpty_eq_false_iff] at h
  obtain ⟨⟨h1, h2⟩, h3, h4⟩ := h
  refine relOf_iff.2 ⟨(dbPath_iff _ _).1 h2, ⟨h3, fun c hc => (isDig_iff c).1 (tw_mem hc)⟩, (baseName f).dropWhile isDig,
    (dropFork_iff _).1 h4, ?_⟩
  rw [List.takeWhile_append_dropWhile]
  exact split_base f h1

theorem isRelation_iff (ts f : Str) : isRelation ts f = true ↔ ∃ dir id, RelOf ts f dir id :=
  ⟨fun h => ⟨_, _, relation_relOf h⟩, fun ⟨_, _, h⟩ => (relOf_parts h).1⟩

theorem relOf_unique {ts f dir id dir' id' : Str} (h : RelOf ts f dir id) (h' : RelOf ts f dir' id') : dir = dir' ∧ id = id' := by
  obtain ⟨_, e1, e2⟩ := relOf_parts h
  obtain ⟨_, e3, e4⟩ := relOf_parts h'
  rw [e1] at e3
  exact ⟨by simpa using e3, e2.symm.trans e4⟩

theorem init_not (ts dir : Str) {id : Str} (h : Number id) : isRelation ts (initFork dir id) = false := by
  have hns : 47 ∉ id ++ initZ := by
    rw [List.mem_append, not_or]
    exact ⟨number_slash h, by decide⟩
  obtain ⟨e1, e2⟩ := base_split (d := dir) hns
  obtain ⟨w1, w2⟩ := tw_digits (b := initZ) (number_dig h) (by
    intro c r e
    cases e
    decide)
  unfold initFork isRelation relName
  rw [e1, w2]
  simp [show segment (dropFork initZ) = false by decide]

/-! ## The loop -/

/-- The relation of `f` has an initialization fork. -/
def unl (files : List Str) (f : Str) : Bool := decide (dirName f ++ (baseName f).takeWhile isDig ++ initZ ∈ files)

def keepIt (ts : Str) (files : List Str) (f : Str) : Bool := !(isRelation ts f && unl files f)

/-- The files that may be removed are not looked for. -/
def SameRel (ts : Str) (files now : List Str) : Prop := ∀ n, isRelation ts n = false → (n ∈ now ↔ n ∈ files)

theorem unl_same {ts : Str} {files now : List Str} (h : SameRel ts files now) {f : Str} (hf : isRelation ts f = true) :
    unl now f = unl files f := by
  have hr := relation_relOf hf
  have e := (relOf_parts hr).2.1
  have hn : dirName f ++ (baseName f).takeWhile isDig ++ initZ = initFork (dirName f).dropLast ((baseName f).takeWhile isDig) := by
    unfold initFork
    conv => lhs; rw [e]
    simp
  unfold unl
  rw [hn]
  exact decide_eq_decide.2 (h _ (init_not ts _ hr.2.1))

/-- The state after the relation `g`, if any. -/
def Prev (files : List Str) (g : Option Str) (last : Str) (u : Bool) : Prop :=
  match g with
  | none => last = []
  | some g => last = (baseName g).takeWhile isDig ∧ u = unl files g

/-- Each relation right after another one with the same identifier has the same answer. -/
def Agree (ts : Str) (files : List Str) : Option Str → List Str → Prop
  | _, [] => True
  | g, f :: rest =>
    if isRelation ts f then
      (∀ g', g = some g' → (baseName g').takeWhile isDig = (baseName f).takeWhile isDig → unl files g' = unl files f) ∧
        Agree ts files (some f) rest
    else Agree ts files g rest

theorem same_drop {ts : Str} {files done rest : List Str} {f : Str} (hf : isRelation ts f = true)
    (h : SameRel ts files (done ++ f :: rest)) : SameRel ts files (done ++ rest) := by
  intro n hn
  rw [← h n hn]
  simp only [List.mem_append, List.mem_cons]
  constructor
  · rintro (h | h)
    · exact .inl h
    · exact .inr (.inr h)
  · rintro (h | rfl | h)
    · exact .inl h
    · rw [hf] at hn
      cases hn
    · exact .inr h

theorem same_move {ts : Str} {files done rest : List Str} {f : Str}
    (h : SameRel ts files (done ++ f :: rest)) : SameRel ts files (done ++ [f] ++ rest) := by
  rwa [List.append_assoc, List.singleton_append]

theorem loop_keep {ts : Str} {files : List Str} : ∀ (rest : List Str) (g : Option Str) (last : Str) (u : Bool) (done : List Str),
    SameRel ts files (done ++ rest) → Prev files g last u → Agree ts files g rest →
    (∀ f ∈ rest, isRelation ts f = true → ((baseName f).takeWhile isDig).length ≤ 20) →
    unlogLoop ts last u done rest = .ok (done ++ rest.filter (keepIt ts files))
  | [], g, last, u, done, _, _, _, _ => by simp [unlogLoop]
  | f :: rest, g, last, u, done, hs, hp, ha, hl => by
    unfold unlogLoop
    unfold Agree at ha
    have hl' : ∀ f ∈ rest, isRelation ts f = true → ((baseName f).takeWhile isDig).length ≤ 20 :=
      fun x hx => hl x (List.mem_cons_of_mem _ hx)
    by_cases hf : isRelation ts f = true
    · rw [if_pos hf] at ha ⊢
      have hlen := hl f (by simp) hf
      have hnum := (relation_relOf hf).2.1
      simp only []
      rw [if_neg (by omega)]
      have hu : (if last = (baseName f).takeWhile isDig then u
          else decide (dirName f ++ (baseName f).takeWhile isDig ++ initZ ∈ done ++ f :: rest)) = unl files f := by
        by_cases he : last = (baseName f).takeWhile isDig
        · rw [if_pos he]
          cases g with
          | none => exact absurd (he.symm.trans hp) hnum.1
          | some g' =>
            rw [hp.2]
            exact ha.1 g' rfl (hp.1.symm.trans he)
        · rw [if_neg he]
          exact unl_same hs hf
      rw [hu]
      by_cases hc : unl files f = true
      · rw [if_pos hc, loop_keep rest (some f) _ _ done (same_drop hf hs) ⟨rfl, rfl⟩ ha.2 hl', List.filter_cons_of_neg]
        simp [keepIt, hf, hc]
      · rw [if_neg hc, loop_keep rest (some f) _ _ _ (same_move hs) ⟨rfl, rfl⟩ ha.2 hl', List.filter_cons_of_pos]
        · simp
        · simp [keepIt, hc]
    · rw [if_neg hf] at ha ⊢
      rw [loop_keep rest g last u _ (same_move hs) hp ha hl', List.filter_cons_of_pos]
      · simp
      · simp [keepIt, hf]

/-- What is left is in the same order, and only relations are removed. -/
theorem loop_sub {ts : Str} : ∀ (rest : List Str) (last : Str) (u : Bool) (done r : List Str),
    unlogLoop ts last u done rest = .ok r → ∃ k, r = done ++ k ∧ k.Sublist rest ∧ ∀ f ∈ rest, isRelation ts f = false → f ∈ k
  | [], last, u, done, r, h => by
    cases h
    exact ⟨[], by simp, List.Sublist.refl _, by simp⟩
  | f :: rest, last, u, done, r, h => by
    unfold unlogLoop at h
    by_cases hf : isRelation ts f = true
    · rw [if_pos hf] at h
      simp only [] at h
      split at h
      · cases h
      · generalize (if last = (baseName f).takeWhile isDig then u
          else decide (dirName f ++ (baseName f).takeWhile isDig ++ initZ ∈ done ++ f :: rest)) = v at h
        split at h
        · obtain ⟨k, e1, e2, e3⟩ := loop_sub rest _ _ _ r h
          refine ⟨k, e1, e2.cons _, ?_⟩
          intro x hx hr
          rcases List.mem_cons.1 hx with rfl | hx
          · rw [hf] at hr
            cases hr
          · exact e3 x hx hr
        · obtain ⟨k, e1, e2, e3⟩ := loop_sub rest _ _ _ r h
          refine ⟨f :: k, by rw [e1]; simp, e2.cons_cons _, ?_⟩
          intro x hx hr
          rcases List.mem_cons.1 hx with rfl | hx
          · simp
          · exact List.mem_cons_of_mem _ (e3 x hx hr)
    · rw [if_neg hf] at h
      obtain ⟨k, e1, e2, e3⟩ := loop_sub rest _ _ _ r h
      refine ⟨f :: k, by rw [e1]; simp, e2.cons_cons _, ?_⟩
      intro x hx hr
      rcases List.mem_cons.1 hx with rfl | hx
      · simp
      · exact List.mem_cons_of_mem _ (e3 x hx hr)

/-- If the right files are left then each relation has the same answer as the one before with the same identifier. -/
theorem loop_agree {ts : Str} {files : List Str} : ∀ (rest : List Str) (g : Option Str) (last : Str) (u : Bool) (done : List Str),
    SameRel ts files (done ++ rest) → Prev files g last u → (done ++ rest).Nodup →
    unlogLoop ts last u done rest = .ok (done ++ rest.filter (keepIt ts files)) → Agree ts files g rest
  | [], g, last, u, done, _, _, _, _ => by simp [Agree]
  | f :: rest, g, last, u, done, hs, hp, hn, h => by
    unfold unlogLoop at h
    unfold Agree
    have hfr : f ∉ rest ∧ f ∉ done := by
      have := List.nodup_append.1 hn
      refine ⟨(List.nodup_cons.1 this.2.1).1, fun hd => ?_⟩
      exact this.2.2 f hd f (by simp) rfl
    have hn1 : (done ++ rest).Nodup := hn.sublist (List.Sublist.append_left (List.sublist_cons_self f rest) done)
    have hn2 : (done ++ [f] ++ rest).Nodup := by simpa using hn
    by_cases hf : isRelation ts f = true
    · rw [if_pos hf] at h ⊢
      have hnum := (relation_relOf hf).2.1
      simp only [] at h
      split at h
      · cases h
      · generalize hu : (if last = (baseName f).takeWhile isDig then u
          else decide (dirName f ++ (baseName f).takeWhile isDig ++ initZ ∈ done ++ f :: rest)) = v at h
        have hv : v = unl files f := by
          cases hv : v with
          | true =>
            rw [hv, if_pos rfl] at h
            obtain ⟨k, e1, e2, _⟩ := loop_sub _ _ _ _ _ h
            cases hc : unl files f with
            | true => rfl
            | false =>
              rw [List.filter_cons_of_pos (by simp [keepIt, hc])] at e1
              have e1 := List.append_cancel_left e1
              have : f ∈ k := by rw [← e1]; simp
              exact absurd (e2.subset this) hfr.1
          | false =>
            rw [hv, if_neg (by simp)] at h
            obtain ⟨k, e1, e2, _⟩ := loop_sub _ _ _ _ _ h
            cases hc : unl files f with
            | false => rfl
            | true =>
              rw [List.filter_cons_of_neg (by simp [keepIt, hc, hf]), List.append_assoc] at e1
              have e1 := List.append_cancel_left e1
              have : f ∈ rest.filter (keepIt ts files) := by rw [e1]; simp
              exact absurd (List.mem_filter.1 this).1 hfr.1
        refine ⟨?_, ?_⟩
        · intro g' hg hid
          subst hg
          rw [← hv, ← hu, if_pos (hp.1.trans hid), hp.2]
        · rw [hv] at h
          cases hc : unl files f with
          | true =>
            rw [hc, if_pos rfl, List.filter_cons_of_neg (by simp [keepIt, hc, hf])] at h
            exact loop_agree rest (some f) _ _ _ (same_drop hf hs) ⟨rfl, hc.symm⟩ hn1 h
          | false =>
            rw [hc, if_neg (by simp), List.filter_cons_of_pos (by simp [keepIt, hc])] at h
            refine loop_agree rest (some f) _ _ _ (same_move hs) ⟨rfl, hc.symm⟩ hn2 ?_
            rw [h]
            simp
    · rw [if_neg hf] at h ⊢
      rw [List.filter_cons_of_pos (by simp [keepIt, hf])] at h
      refine loop_agree rest g last u _ (same_move hs) hp hn2 ?_
      rw [h]
      simp

/-- Two relations with no other one between them, the first one perhaps before the list. -/
theorem agree_iff {ts : Str} {files : List Str} : ∀ (rest : List Str) (g : Option Str), Agree ts files g rest ↔
    (∀ g' m f b, g = some g' → rest = m ++ f :: b → (∀ x ∈ m, isRelation ts x = false) → isRelation ts f = true →
      (baseName g').takeWhile isDig = (baseName f).takeWhile isDig → unl files g' = unl files f) ∧
    (∀ a g' m f b, rest = a ++ g' :: m ++ f :: b → (∀ x ∈ m, isRelation ts x = false) → isRelation ts g' = true →
      isRelation ts f = true → (baseName g').takeWhile isDig = (baseName f).takeWhile isDig → unl files g' = unl files f)
  | [], g => by
    refine ⟨fun _ => ⟨?_, ?_⟩, fun _ => trivial⟩
    · intro g' m f b _ h
      simp at h
    · intro a g' m f b h
      simp at h
  | x :: rest, g => by
    unfold Agree
    by_cases hx : isRelation ts x = true
    · rw [if_pos hx, agree_iff rest (some x)]
      constructor
      · rintro ⟨h1, h2, h3⟩
        refine ⟨?_, ?_⟩
        · intro g' m f b hg e hm hf hid
          cases m with
          | nil =>
            cases e
            exact h1 g' hg hid
          | cons y m =>
            cases e
            have := hm x (by simp)
            rw [hx] at this
            cases this
        · intro a g' m f b e hm hg hf hid
          cases a with
          | nil =>
            cases e
            exact h2 x m f b rfl rfl hm hf hid
          | cons y a =>
            cases e
            exact h3 a g' m f b rfl hm hg hf hid
      · rintro ⟨h1, h2⟩
        refine ⟨fun g' hg hid => h1 g' [] x rest hg rfl (by simp) hx hid, ?_, ?_⟩
        · intro g' m f b hg e hm hf hid
          cases hg
          exact h2 [] x m f b (by rw [e]; rfl) hm hx hf hid
        · intro a g' m f b e hm hg hf hid
          exact h2 (x :: a) g' m f b (by rw [e]; rfl) hm hg hf hid
    · rw [if_neg hx, agree_iff rest g]
      have hx' : isRelation ts x = false := by simpa using hx
      constructor
      · rintro ⟨h1, h2⟩
        refine ⟨?_, ?_⟩
        · intro g' m f b hg e hm hf hid
          cases m with
          | nil =>
            cases e
            exact absurd hf hx
          | cons y m =>
            cases e
            exact h1 g' m f b hg rfl (fun z hz => hm z (List.mem_cons_of_mem _ hz)) hf hid
        · intro a g' m f b e hm hg hf hid
          cases a with
          | nil =>
            cases e
            exact absurd hg hx
          | cons y a =>
            cases e
            exact h2 a g' m f b rfl hm hg hf hid
      · rintro ⟨h1, h2⟩
        refine ⟨?_, ?_⟩
        · intro g' m f b hg e hm hf hid
          refine h1 g' (x :: m) f b hg (by rw [e]; rfl) ?_ hf hid
          intro z hz
          rcases List.mem_cons.1 hz with rfl | hz
          · exact hx'
          · exact hm z hz
        · intro a g' m f b e hm hg hf hid
          exact h2 (x :: a) g' m f b (by rw [e]; rfl) hm hg hf hid

theorem sublist_filter {p : Str → Bool} : ∀ {r l : List Str}, l.Nodup → r.Sublist l → (∀ f, f ∈ r ↔ f ∈ l ∧ p f = true) → r = l.filter p
  | r, [], _, hs, _ => by
    cases List.sublist_nil.1 hs
    rfl
  | r, x :: l, hn, hs, h => by
    obtain ⟨h1, h2⟩ := List.nodup_cons.1 hn
    cases hs with
    | cons _ hs =>
      have hp : ¬ p x = true := fun hp => h1 (hs.subset ((h x).2 ⟨by simp, hp⟩))
      rw [List.filter_cons_of_neg hp]
      refine sublist_filter h2 hs fun f => ?_
      rw [h f]
      constructor
      · rintro ⟨hf, hpf⟩
        rcases List.mem_cons.1 hf with rfl | hf
        · exact absurd hpf hp
        · exact ⟨hf, hpf⟩
      · rintro ⟨hf, hpf⟩
        exact ⟨List.mem_cons_of_mem _ hf, hpf⟩
    | cons_cons _ hs =>
      rename_i r
      have hp : p x = true := ((h x).1 (by simp)).2
      have hxr : x ∉ r := fun hx => h1 (hs.subset hx)
      rw [List.filter_cons_of_pos hp, ← sublist_filter h2 hs]
      intro f
      have := h f
      simp only [List.mem_cons] at this
      constructor
      · intro hf
        obtain ⟨h3, h4⟩ := this.1 (.inr hf)
        rcases h3 with rfl | h3
        · exact absurd hf hxr
        · exact ⟨h3, h4⟩
      · rintro ⟨hf, hpf⟩
        rcases this.2 ⟨.inr hf, hpf⟩ with rfl | h3
        · exact absurd hf h1
        · exact h3

theorem unl_init {ts f dir id : Str} {files : List Str} (h : RelOf ts f dir id) : unl files f = true ↔ initFork dir id ∈ files := by
  obtain ⟨_, e1, e2⟩ := relOf_parts h
  unfold unl initFork
  rw [e1, e2]
  simp

theorem keepIt_iff (ts : Str) (files : List Str) (f : Str) :
    keepIt ts files f = true ↔ ¬ ∃ dir id, RelOf ts f dir id ∧ initFork dir id ∈ files := by
  unfold keepIt
  rw [Bool.not_eq_true', ← Bool.not_eq_true, Bool.and_eq_true]
  refine not_congr ?_
  constructor
  · rintro ⟨h1, h2⟩
    exact ⟨_, _, relation_relOf h1, (unl_init (relation_relOf h1)).1 h2⟩
  · rintro ⟨dir, id, h1, h2⟩
    exact ⟨(relOf_parts h1).1, (unl_init h1).2 h2⟩

/-! ## The property -/

/-- What is left is right: in the same order, and without the relations that have an initialization fork in the same directory. -/
def Right (ts : Str) (files r : List Str) : Prop :=
  r.Sublist files ∧ ∀ f, f ∈ r ↔ f ∈ files ∧ ¬ ∃ dir id, RelOf ts f dir id ∧ initFork dir id ∈ files

/-- The identifiers are not longer than what there is room for. -/
def Short (ts : Str) (files : List Str) : Prop := ∀ f ∈ files, ∀ dir id, RelOf ts f dir id → id.length ≤ 20

theorem agree_spec {ts : Str} {files : List Str} : Agree ts files none files ↔
    ∀ a g m f b dir dir' id, files = a ++ g :: m ++ f :: b → (∀ x ∈ m, ∀ d i, ¬ RelOf ts x d i) → RelOf ts g dir id → RelOf ts f dir' id →
      (initFork dir id ∈ files ↔ initFork dir' id ∈ files) := by
  rw [agree_iff]
  constructor
  · rintro ⟨_, h⟩ a g m f b dir dir' id e hm hg hf
    have := h a g m f b e (fun x hx => by
      cases hr : isRelation ts x with
      | false => rfl
      | true => exact absurd (relation_relOf hr) (hm x hx _ _)) (relOf_parts hg).1 (relOf_parts hf).1
      ((relOf_parts hg).2.2.trans (relOf_parts hf).2.2.symm)
    rw [← unl_init hg, ← unl_init hf, this]
  · intro h
    refine ⟨fun g' m f b hg => (by cases hg), ?_⟩
    intro a g m f b e hm hg hf hid
    have rg := relation_relOf hg
    have rf := relation_relOf hf
    rw [hid] at rg
    have := h a g m f b _ _ _ e (fun x hx d i hr => by
      have := (relOf_parts hr).1
      rw [hm x hx] at this
      cases this) rg rf
    rw [← unl_init rg, ← unl_init rf] at this
    exact Bool.eq_iff_iff.2 this

theorem short_len {ts : Str} {files : List Str} (h : Short ts files) :
    ∀ f ∈ files, isRelation ts f = true → ((baseName f).takeWhile isDig).length ≤ 20 :=
  fun f hf hr => h f hf _ _ (relation_relOf hr)

/-- The right files are left exactly if no relation comes right after another one with the same identifier, in another directory, that is
not unlogged as well or is unlogged as well. -/
theorem c39_exact {ts : Str} {files : List Str} (hn : files.Nodup) (hl : Short ts files) :
    (∃ r, unlogRemove ts files = .ok r ∧ Right ts files r) ↔
    ∀ a g m f b dir dir' id, files = a ++ g :: m ++ f :: b → (∀ x ∈ m, ∀ d i, ¬ RelOf ts x d i) → RelOf ts g dir id → RelOf ts f dir' id →
      (initFork dir id ∈ files ↔ initFork dir' id ∈ files) := by
  rw [← agree_spec]
  have hs : SameRel ts files ([] ++ files) := fun n _ => Iff.rfl
  constructor
  · rintro ⟨r, h, h1, h2⟩
    have hr : r = files.filter (keepIt ts files) := sublist_filter hn h1 fun f => by rw [h2 f, keepIt_iff]
    rw [hr] at h
    exact loop_agree files none [] false [] hs rfl hn h
  · intro ha
    refine ⟨_, loop_keep files none [] false [] hs rfl ha (short_len hl), ?_, ?_⟩
    · exact List.filter_sublist
    · intro f
      rw [List.nil_append, List.mem_filter, keepIt_iff]

/-- The relations that have an initialization fork in the same directory are left out, and nothing else, when no relation comes right after
one with the same identifier in another directory. What is missing is this case: see `c39_logged` and `c39_unlogged`. -/
theorem c39_partial {ts : Str} {files : List Str} (hl : Short ts files)
    (hadj : ∀ a g m f b dir dir' id, files = a ++ g :: m ++ f :: b → (∀ x ∈ m, ∀ d i, ¬ RelOf ts x d i) → RelOf ts g dir id →
      RelOf ts f dir' id → dir = dir') :
    ∃ r, unlogRemove ts files = .ok r ∧ Right ts files r := by
  have ha : Agree ts files none files := agree_spec.2 fun a g m f b dir dir' id e hm hg hf => by
    rw [hadj a g m f b dir dir' id e hm hg hf]
  have hs : SameRel ts files ([] ++ files) := fun n _ => Iff.rfl
  refine ⟨_, loop_keep files none [] false [] hs rfl ha (short_len hl), List.filter_sublist, ?_⟩
  intro f
  rw [List.nil_append, List.mem_filter, keepIt_iff]

theorem loop_why {ts : Str} {files : List Str} : ∀ (rest : List Str) (last : Str) (u : Bool) (done r : List Str),
    (∀ n, n ∈ done ++ rest → n ∈ files) → (u = true → ∃ dir, initFork dir last ∈ files) →
    unlogLoop ts last u done rest = .ok r →
    ∀ f ∈ done ++ rest, f ∉ r → ∃ dir dir' id, RelOf ts f dir id ∧ initFork dir' id ∈ files
  | [], last, u, done, r, _, _, h => by
    cases h
    intro f hf hr
    rw [List.append_nil] at hf
    exact absurd hf hr
  | f :: rest, last, u, done, r, hsub, hu, h => by
    unfold unlogLoop at h
    have hsub1 : ∀ n, n ∈ done ++ rest → n ∈ files := fun n hn => hsub n (by
      rcases List.mem_append.1 hn with h | h
      · exact List.mem_append_left _ h
      · exact List.mem_append_right _ (List.mem_cons_of_mem _ h))
    have hsub2 : ∀ n, n ∈ done ++ [f] ++ rest → n ∈ files := by simpa using hsub
    by_cases hf : isRelation ts f = true
    · rw [if_pos hf] at h
      simp only [] at h
      split at h
      · cases h
      · have hv : ∀ v, v = (if last = (baseName f).takeWhile isDig then u
            else decide (dirName f ++ (baseName f).takeWhile isDig ++ initZ ∈ done ++ f :: rest)) →
            v = true → ∃ dir, initFork dir ((baseName f).takeWhile isDig) ∈ files := by
          intro v e hv
          rw [e] at hv
          split at hv
          · rename_i he
            rw [← he]
            exact hu hv
          · have hm := of_decide_eq_true hv
            have rf := relation_relOf hf
            refine ⟨(dirName f).dropLast, ?_⟩
            have e1 := (relOf_parts rf).2.1
            unfold initFork
            rw [e1] at hm
            have := hsub _ hm
            simpa using this
        generalize (if last = (baseName f).takeWhile isDig then u
          else decide (dirName f ++ (baseName f).takeWhile isDig ++ initZ ∈ done ++ f :: rest)) = v at h hv
        have hv := hv v rfl
        split at h
        · rename_i hvt
          intro x hx hr
          rcases List.mem_append.1 hx with hx | hx
          · exact loop_why rest _ _ _ r hsub1 hv h x (List.mem_append_left _ hx) hr
          · rcases List.mem_cons.1 hx with rfl | hx
            · obtain ⟨dir, hd⟩ := hv hvt
              exact ⟨_, dir, _, relation_relOf hf, hd⟩
            · exact loop_why rest _ _ _ r hsub1 hv h x (List.mem_append_right _ hx) hr
        · intro x hx hr
          exact loop_why rest _ _ _ r hsub2 hv h x (by simpa using hx) hr
    · rw [if_neg hf] at h
      intro x hx hr
      exact loop_why rest _ _ _ r hsub2 hu h x (by simpa using hx) hr

/-- Only a relation can be removed, and only if some directory has an initialization fork with its identifier. The order is kept. -/
theorem c39_only {ts : Str} {files r : List Str} (h : unlogRemove ts files = .ok r) :
    r.Sublist files ∧ ∀ f ∈ files, f ∉ r → ∃ dir dir' id, RelOf ts f dir id ∧ initFork dir' id ∈ files := by
  constructor
  · obtain ⟨k, e, hk, _⟩ := loop_sub _ _ _ _ _ h
    rw [e]
    exact hk
  · intro f hf hr
    exact loop_why files [] false [] r (fun n h => h) (by intro h; cases h) h f hf hr

/-- Initialization forks are kept. -/
theorem c39_init {ts : Str} {files r : List Str} (h : unlogRemove ts files = .ok r) {dir id : Str} (hi : Number id)
    (hm : initFork dir id ∈ files) : initFork dir id ∈ r := by
  obtain ⟨k, e, _, hk⟩ := loop_sub _ _ _ _ _ h
  rw [e]
  exact hk _ hm (init_not ts dir hi)

/-- A relation with an identifier of more than 20 digits overruns the buffer. -/
theorem c39_buffer {ts : Str} {files : List Str} {f dir id : Str} (hf : f ∈ files) (hr : RelOf ts f dir id) (hl : 20 < id.length) :
    unlogRemove ts files = .error .ub := by
  have : ∀ (rest : List Str) (last : Str) (u : Bool) (done : List Str), f ∈ rest → unlogLoop ts last u done rest = .error .ub := by
    intro rest
    induction rest with
    | nil =>
      intro _ _ _ h
      cases h
    | cons x rest ih =>
      intro last u done hx
      obtain ⟨h1, _, h3⟩ := relOf_parts hr
      unfold unlogLoop
      by_cases hfx : f = x
      · subst hfx
        rw [if_pos h1]
        simp only []
        rw [h3, if_pos hl]
      · have hx : f ∈ rest := by
          rcases List.mem_cons.1 hx with h | h
          · exact absurd h hfx
          · exact h
        split
        · simp only []
          split
          · rfl
          · generalize (if last = (baseName x).takeWhile isDig then u
              else decide (dirName x ++ (baseName x).takeWhile isDig ++ initZ ∈ done ++ x :: rest)) = v
            cases v with
            | true => exact ih _ _ _ hx
            | false => exact ih _ _ _ hx
        · exact ih _ _ _ hx
  exact this files [] false [] hf

/-! ## What is not right -/

/-- `pg_data/base/1` and `pg_data/base/2` -/
def dirA : Str := baseZ ++ [49]
def dirB : Str := baseZ ++ [50]

/-- `16384` -/
def idX : Str := [49, 54, 51, 56, 52]

theorem number_idX : Number idX := ⟨by decide, by decide⟩
theorem dbDir_A (ts : Str) : DbDir ts dirA := .inr (.inl ⟨[49], ⟨by decide, by decide⟩, rfl⟩)
theorem dbDir_B (ts : Str) : DbDir ts dirB := .inr (.inl ⟨[50], ⟨by decide, by decide⟩, rfl⟩)
theorem relOf_main {ts dir id : Str} (hd : DbDir ts dir) (hi : Number id) : RelOf ts (dir ++ 47 :: id) dir id :=
  ⟨hd, hi, [], [], .inl rfl, .inl rfl, by simp⟩

/-- A logged relation is left out of the backup: `base/2/16384` has no initialization fork but it comes after `base/1/16384`, which has. -/
theorem c39_logged : ∃ ts files r f dir id, files.Pairwise (· < ·) ∧ unlogRemove ts files = .ok r ∧ f ∈ files ∧ RelOf ts f dir id ∧
    initFork dir id ∉ files ∧ f ∉ r :=
  ⟨[], [dirA ++ 47 :: idX, initFork dirA idX, dirB ++ 47 :: idX], [initFork dirA idX], dirB ++ 47 :: idX, dirB, idX, by decide,
    by decide +kernel, by decide, relOf_main (dbDir_B _) number_idX, by decide, by decide⟩

/-- An unlogged relation is kept: `base/2/16384` has an initialization fork but it comes after `base/1/16384`, which has none. -/
theorem c39_unlogged : ∃ ts files r f dir id, files.Pairwise (· < ·) ∧ unlogRemove ts files = .ok r ∧ f ∈ r ∧ RelOf ts f dir id ∧
    initFork dir id ∈ files :=
  ⟨[], [dirA ++ 47 :: idX, dirB ++ 47 :: idX, initFork dirB idX], [dirA ++ 47 :: idX, dirB ++ 47 :: idX, initFork dirB idX],
    dirB ++ 47 :: idX, dirB, idX, by decide, by decide +kernel, by decide, relOf_main (dbDir_B _) number_idX, by decide⟩

/-! ## Examples -/

/-- `pg_data/PG_VERSION` -/
def exVersion : Str := pgdataZ ++ [47, 80, 71, 95, 86, 69, 82, 83, 73, 79, 78]

/-- `base/1` has the unlogged relation 16384 and the relation 163840, `base/2` the relation 16384, after another one, 1. -/
def exFiles : List Str :=
  [exVersion, dirA ++ 47 :: idX, dirA ++ 47 :: (idX ++ 46 :: [49]), dirA ++ 47 :: (idX ++ [48]), dirA ++ 47 :: (idX ++ fsmZ),
    initFork dirA idX, dirB ++ [47, 49], dirB ++ 47 :: idX]

theorem exRel {f dir id : Str} (hf : f ∈ exFiles) (h : RelOf [] f dir id) :
    (f = dirA ++ 47 :: idX ∧ dir = dirA ∧ id = idX) ∨ (f = dirA ++ 47 :: (idX ++ 46 :: [49]) ∧ dir = dirA ∧ id = idX) ∨
    (f = dirA ++ 47 :: (idX ++ [48]) ∧ dir = dirA ∧ id = idX ++ [48]) ∨ (f = dirA ++ 47 :: (idX ++ fsmZ) ∧ dir = dirA ∧ id = idX) ∨
    (f = dirB ++ [47, 49] ∧ dir = dirB ∧ id = [49]) ∨ (f = dirB ++ 47 :: idX ∧ dir = dirB ∧ id = idX) := by
  obtain ⟨h1, h2, h3⟩ := relOf_parts h
  have h4 : dir = (dirName f).dropLast := by rw [h2]; simp
  subst h4
  subst h3
  clear h2 h
  simp only [exFiles, List.mem_cons, List.not_mem_nil, or_false] at hf
  rcases hf with rfl | rfl | rfl | rfl | rfl | rfl | rfl | rfl
  · exact absurd h1 (by decide +kernel)
  · exact .inl ⟨rfl, by decide +kernel, by decide +kernel⟩
  · exact .inr (.inl ⟨rfl, by decide +kernel, by decide +kernel⟩)
  · exact .inr (.inr (.inl ⟨rfl, by decide +kernel, by decide +kernel⟩))
  · exact .inr (.inr (.inr (.inl ⟨rfl, by decide +kernel, by decide +kernel⟩)))
  · exact absurd h1 (by decide +kernel)
  · exact .inr (.inr (.inr (.inr (.inl ⟨rfl, by decide +kernel, by decide +kernel⟩))))
  · exact .inr (.inr (.inr (.inr (.inr ⟨rfl, by decide +kernel, by decide +kernel⟩))))

theorem exShort : Short [] exFiles := by
  intro f hf dir id h
  rcases exRel hf h with ⟨_, _, rfl⟩ | ⟨_, _, rfl⟩ | ⟨_, _, rfl⟩ | ⟨_, _, rfl⟩ | ⟨_, _, rfl⟩ | ⟨_, _, rfl⟩ <;> decide

/-- What is left: the relation 163840, the initialization fork and the relations of the other database. -/
example : unlogRemove [] exFiles =
    .ok [exVersion, dirA ++ 47 :: (idX ++ [48]), initFork dirA idX, dirB ++ [47, 49], dirB ++ 47 :: idX] := by decide +kernel

/-- The hypotheses hold for two files in one directory. -/
example : ∃ r, unlogRemove [] [dirA ++ 47 :: idX, initFork dirA idX] = .ok r ∧
    Right [] [dirA ++ 47 :: idX, initFork dirA idX] r := by
  refine c39_partial ?_ ?_
  · intro f hf dir id h
    simp only [List.mem_cons, List.not_mem_nil, or_false] at hf
    rcases hf with rfl | rfl
    · rw [← (relOf_unique (relOf_main (dbDir_A _) number_idX) h).2]
      decide
    · exact absurd (relOf_parts h).1 (by decide +kernel)
  · intro a g m f b dir dir' id e _ hg hf
    cases a with
    | nil =>
      cases m with
      | nil =>
        cases e
        exact absurd (relOf_parts hf).1 (by decide +kernel)
      | cons x m =>
        have := congrArg List.length e
        simp at this
    | cons x a =>
      have := congrArg List.length e
      simp at this
      omega

/-- The hypotheses of the exact condition hold for the files above. -/
example := c39_exact (ts := []) (files := exFiles) (by decide) exShort

example : ∀ r, unlogRemove [] exFiles = .ok r → initFork dirA idX ∈ r := fun _ h => c39_init h number_idX (by decide)

/-- The relation 16384 of `base/1` is a segment, too: each segment is a part of the relation. -/
example : RelOf [] (dirA ++ 47 :: (idX ++ 46 :: [49])) dirA idX :=
  ⟨dbDir_A _, number_idX, [], 46 :: [49], .inl rfl, .inr ⟨[49], ⟨by decide, by decide⟩, rfl⟩, rfl⟩

/-- 21 digits. -/
example : unlogRemove [] [dirA ++ 47 :: List.replicate 21 49] = .error .ub :=
  c39_buffer (id := List.replicate 21 49) (List.mem_singleton.2 rfl) (relOf_main (dbDir_A _) ⟨by decide, by decide⟩) (by decide)

end Verif.Manifest
