import Verif.Archive.FindModel

/-! # C50: finding a WAL segment reports it iff it is archived, once -/

namespace Verif.Archive

/-! ## Specification -/

/-- `name` is the archived file of a segment: name of the segment, checksum, optional compression extension. -/
def FileOf (seg name : Str) : Prop :=
  ∃ sha ext : Str, name = seg ++ [0x2d] ++ sha ++ ext ∧ sha.length = 40 ∧ (∀ c ∈ sha, hashChar c = true) ∧
    (ext = [] ∨ ext ∈ compressExts)

/-- A directory with nothing but archived segments (no temporary file for example). -/
def Clean (listing : Str → List Str) : Prop :=
  ∀ p, ∀ name ∈ listing p, ∃ seg, Wal.isSegment seg = true ∧ FileOf seg name

/-! ## Lemmas -/

theorem isSegment_iff {s : Str} : Wal.isSegment s = true ↔
    ((s.take 24).length = 24 ∧ ∀ c ∈ s.take 24, Wal.rangeChar c = true) ∧ (s.drop 24 = [] ∨ s.drop 24 = partialExt) := by
  unfold Wal.isSegment partialExt
  simp only [Bool.and_eq_true, beq_iff_eq, List.all_eq_true, Bool.or_eq_true]

theorem matchRest_iff {s : Str} : matchRest s = true ↔
    ∃ sha ext : Str, s = [0x2d] ++ sha ++ ext ∧ sha.length = 40 ∧ (∀ c ∈ sha, hashChar c = true) ∧ (ext = [] ∨ ext ∈ compressExts) := by
  unfold matchRest
  simp only [Bool.and_eq_true, beq_iff_eq, List.all_eq_true, Bool.or_eq_true, List.contains_iff_mem]
  constructor
  · rintro ⟨⟨⟨h1, h2⟩, h3⟩, h4⟩
    refine ⟨(s.drop 1).take 40, s.drop 41, ?_, h2, h3, h4⟩
    cases s with
    | nil => simp at h1
    | cons c s =>
      simp at h1
      subst h1
      simp only [List.drop_succ_cons, List.drop_zero, List.cons_append, List.nil_append, List.take_append_drop]
  · rintro ⟨sha, ext, rfl, h2, h3, h4⟩
    have h5 : ([0x2d] ++ sha ++ ext).drop 1 = sha ++ ext := by simp
    have h6 : ([0x2d] ++ sha ++ ext).drop 41 = ext := by
      rw [show (41 : Nat) = 40 + 1 from rfl, List.append_assoc]
      simp only [List.cons_append, List.nil_append, List.drop_succ_cons]
      rw [← h2, List.drop_left]
    rw [h5, h6, ← h2, List.take_left, h2]
    exact ⟨⟨⟨by simp, rfl⟩, h3⟩, h4⟩

/-- The expression matches the archived files of a segment. -/
theorem matchFile_of {seg name : Str} (hs : Wal.isSegment seg = true) (h : FileOf seg name) : matchFile seg name = true := by
  obtain ⟨⟨hlen, -⟩, htail⟩ := isSegment_iff.1 hs
  obtain ⟨sha, ext, rfl, h2, h3, h4⟩ := h
  have hrest : matchRest ([0x2d] ++ sha ++ ext) = true := matchRest_iff.2 ⟨sha, ext, rfl, h2, h3, h4⟩
  have hsplit := List.take_append_drop 24 seg
  unfold matchFile isPartial
  rcases htail with ht | ht
  · rw [ht, List.append_nil] at hsplit
    have h24 : seg.length = 24 := by rw [← hsplit]; exact hlen
    rw [ht, List.append_assoc, List.append_assoc]
    have : ([] : Str) == partialExt ↔ False := by simp [partialExt]
    rw [if_neg (by rw [this]; simp)]
    rw [show (24 : Nat) = seg.length from h24.symm, List.take_left, List.drop_left, List.take_length, ← List.append_assoc, hrest]
    simp
  · rw [ht] at hsplit
    rw [ht, if_pos (by simp)]
    generalize seg.take 24 = s at *
    subst hsplit
    have e1 : (s ++ partialExt ++ [0x2d] ++ sha ++ ext).take 24 = s := by
      rw [List.append_assoc, List.append_assoc, List.append_assoc, ← hlen, List.take_left]
    have e2 : (s ++ partialExt ++ [0x2d] ++ sha ++ ext).drop 24 = partialExt ++ ([0x2d] ++ sha ++ ext) := by
      rw [List.append_assoc, List.append_assoc, List.append_assoc, ← hlen, List.drop_left]
      simp
    have e3 : (s ++ partialExt ++ [0x2d] ++ sha ++ ext).drop 25 = partialExt.drop 1 ++ ([0x2d] ++ sha ++ ext) := by
      rw [show 25 = 24 + 1 from rfl, ← List.drop_drop, e2]
      rfl
    have e4 : (s ++ partialExt ++ [0x2d] ++ sha ++ ext).drop 32 = ([0x2d] ++ sha ++ ext) := by
      rw [show 32 = 24 + 8 from rfl, ← List.drop_drop, e2]
      rfl
    rw [e1, e2, e3, e4, hrest]
    simp [partialExt]

/-- For a segment that is not partial it matches nothing else. -/
theorem fileOf_of_match {seg name : Str} (hs : Wal.isSegment seg = true) (hp : isPartial seg = false) (h : matchFile seg name = true) :
    FileOf seg name := by
  obtain ⟨⟨hlen, -⟩, htail⟩ := isSegment_iff.1 hs
  unfold matchFile at h
  rw [hp] at h
  simp only [Bool.and_eq_true, beq_iff_eq] at h
  obtain ⟨h1, h2⟩ := h
  simp only [Bool.false_eq_true, if_false] at h2
  obtain ⟨sha, ext, e, k⟩ := matchRest_iff.1 h2
  refine ⟨sha, ext, ?_, k⟩
  rcases htail with ht | ht
  · have hsplit := List.take_append_drop 24 seg
    rw [ht, List.append_nil] at hsplit
    rw [List.append_assoc, List.append_assoc, ← List.append_assoc [0x2d], ← e, ← hsplit, ← h1, List.take_append_drop]
  · unfold isPartial at hp
    rw [ht] at hp
    simp at hp

/-- A file is of one segment only. -/
theorem match_unique {s t name : Str} (hs : Wal.isSegment s = true) (ht : Wal.isSegment t = true) (hf : FileOf s name)
    (h : matchFile t name = true) : s = t := by
  obtain ⟨⟨slen, -⟩, stail⟩ := isSegment_iff.1 hs
  obtain ⟨⟨tlen, -⟩, ttail⟩ := isSegment_iff.1 ht
  have h0 := matchFile_of hs hf
  have ssplit := List.take_append_drop 24 s
  have tsplit := List.take_append_drop 24 t
  have hpre : s.take 24 = t.take 24 := by
    unfold matchFile at h0 h
    simp only [Bool.and_eq_true, beq_iff_eq] at h0 h
    rw [← h0.1, ← h.1]
  rcases ttail with tt | tt
  · -- The one looked for is not partial
    have hp : isPartial t = false := by unfold isPartial; rw [tt]; rfl
    obtain ⟨sha, ext, e, -⟩ := fileOf_of_match ht hp h
    rcases stail with ss | ss
    · rw [← ssplit, ← tsplit, hpre, ss, tt]
    · exfalso
      obtain ⟨sha', ext', e', -⟩ := hf
      rw [tt, List.append_nil] at tsplit
      rw [ss] at ssplit
      rw [e', ← ssplit, hpre, tsplit, List.append_assoc, List.append_assoc, List.append_assoc, List.append_assoc, List.append_assoc,
        List.append_cancel_left_eq] at e
      simp [partialExt] at e
  · rcases stail with ss | ss
    · exfalso
      obtain ⟨sha, ext, rfl, k1, k2, -⟩ := hf
      rw [ss, List.append_nil] at ssplit
      have s24 : s.length = 24 := by rw [← ssplit]; exact slen
      unfold matchFile isPartial at h
      rw [tt, if_pos (by simp)] at h
      simp only [Bool.and_eq_true, beq_iff_eq] at h
      obtain ⟨-, ⟨-, h3⟩, -⟩ := h
      rw [List.append_assoc, List.append_assoc, show (25 : Nat) = s.length + 1 by omega, ← List.drop_drop, List.drop_left] at h3
      simp only [List.cons_append, List.nil_append, List.drop_succ_cons, List.drop_zero] at h3
      rw [List.take_append_of_le_length (by omega)] at h3
      have : (0x70 : UInt8) ∈ sha.take 7 := by rw [h3]; simp [partialExt]
      have := k2 _ (List.mem_of_mem_take this)
      revert this
      decide
    · rw [← ssplit, ← tsplit, hpre, ss, tt]

theorem append_lt_append_left (a b c : Str) (h : b < c) : a ++ b < a ++ c := by
  induction a with
  | nil => exact h
  | cons x a ih => exact List.cons_lt_cons_iff.2 (.inr ⟨rfl, ih⟩)

/-- Files are in the order of their segments. -/
theorem file_lt {s t x y : Str} (hs : Wal.isSegment s = true) (ht : Wal.isSegment t = true) (hx : FileOf s x) (hy : FileOf t y)
    (h : s < t) : x < y := by
  obtain ⟨⟨slen, -⟩, stail⟩ := isSegment_iff.1 hs
  obtain ⟨⟨tlen, -⟩, ttail⟩ := isSegment_iff.1 ht
  have ssplit := List.take_append_drop 24 s
  have tsplit := List.take_append_drop 24 t
  have hxt : x.take 24 = s.take 24 := by
    have := matchFile_of hs hx
    unfold matchFile at this
    simp only [Bool.and_eq_true, beq_iff_eq] at this
    exact this.1
  have hyt : y.take 24 = t.take 24 := by
    have := matchFile_of ht hy
    unfold matchFile at this
    simp only [Bool.and_eq_true, beq_iff_eq] at this
    exact this.1
  by_cases hpre : s.take 24 = t.take 24
  · -- The first is not partial, the second is
    have hst : s.drop 24 = [] ∧ t.drop 24 = partialExt := by
      rcases stail with ss | ss <;> rcases ttail with tt | tt
      · exfalso
        rw [← ssplit, ← tsplit, hpre, ss, tt] at h
        exact Str.lt_irrefl _ h
      · exact ⟨ss, tt⟩
      · exfalso
        rw [← ssplit, ← tsplit, hpre, ss, tt, List.append_nil] at h
        have h2 := append_lt_append_left (t.take 24) [] partialExt (by decide)
        rw [List.append_nil] at h2
        exact Str.lt_asymm h h2
      · exfalso
        rw [← ssplit, ← tsplit, hpre, ss, tt] at h
        exact Str.lt_irrefl _ h
    obtain ⟨sha, ext, rfl, -⟩ := hx
    obtain ⟨sha', ext', rfl, -⟩ := hy
    rw [hst.1, List.append_nil] at ssplit
    rw [hst.2] at tsplit
    rw [← ssplit, hpre, ← tsplit]
    simp only [List.append_assoc]
    have : ((List.take 24 t ++ partialExt).take 24) = t.take 24 := by rw [tsplit]
    rw [this]
    apply append_lt_append_left
    rw [partialExt]
    exact List.cons_lt_cons_iff.2 (.inl (by decide))
  · rcases Str.trichotomy (s.take 24) (t.take 24) with h1 | h1 | h1
    · rcases Str.le_total y x with h2 | h2
      · exfalso
        have := Str.take_le_take 24 h2
        rw [hxt, hyt] at this
        exact Str.lt_irrefl _ (Str.lt_of_le_of_lt this h1)
      · rcases (Str.le_iff_lt_or_eq x y).1 h2 with h3 | rfl
        · exact h3
        · rw [hxt] at hyt
          exact absurd hyt hpre
    · exact absurd h1 hpre
    · exfalso
      have := Str.take_le_take 24 (Str.le_of_lt h)
      exact Str.lt_irrefl _ (Str.lt_of_le_of_lt this h1)

/-! ### One lookup with a list of its own -/

theorem filter_sortAsc (p : Str → Bool) (l : List Str) : sortAsc (l.filter p) = (sortAsc l).filter p := by
  have hins : ∀ (x : Str) (l : List Str), l.Pairwise (· ≤ ·) →
      (insertAsc x l).filter p = if p x then insertAsc x (l.filter p) else l.filter p := by
    intro x l hl
    induction l with
    | nil => simp [insertAsc, List.filter_cons]
    | cons y ys ih =>
      have hl' := List.pairwise_cons.1 hl
      rw [insertAsc]
      by_cases hlt : x < y
      · rw [if_pos hlt]
        by_cases hx : p x
        · rw [List.filter_cons, if_pos hx, if_pos hx]
          symm
          cases hf : (y :: ys).filter p with
          | nil => rfl
          | cons z zs =>
            rw [insertAsc, if_pos]
            have : z ∈ (y :: ys).filter p := by rw [hf]; exact .head _
            rcases List.mem_cons.1 (List.mem_filter.1 this).1 with rfl | hz
            · exact hlt
            · exact Str.lt_of_lt_of_le hlt (hl'.1 z hz)
        · rw [List.filter_cons, if_neg hx, if_neg hx]
      · rw [if_neg hlt, List.filter_cons, ih hl'.2]
        by_cases hy : p y
        · rw [if_pos hy, List.filter_cons, if_pos hy]
          by_cases hx : p x
          · rw [if_pos hx, if_pos hx, insertAsc, if_neg hlt]
          · rw [if_neg hx, if_neg hx]
        · rw [if_neg hy, List.filter_cons, if_neg hy]
  induction l with
  | nil => rfl
  | cons x xs ih =>
    rw [sortAsc, hins x _ (sortAsc_pairwise xs), List.filter_cons]
    split
    · rw [sortAsc, ih]
    · exact ih

/-- What a lookup in a fresh listing gives. -/
def fresh (list : List Str) (seg : Str) : Res (Option Str) :=
  match (sortAsc list).filter (matchFile seg) with
  | [] => .ok none
  | [x] => .ok (some x)
  | _ => .error .archiveDuplicate

/-- All the outcomes of `fresh`, in terms of the files. -/
theorem fresh_spec (list : List Str) (seg : Str) (hnd : list.Nodup) :
    (fresh list seg = .ok none ∧ ∀ x ∈ list, matchFile seg x = false) ∨
    (∃ x, fresh list seg = .ok (some x) ∧ x ∈ list ∧ matchFile seg x = true ∧ ∀ y ∈ list, matchFile seg y = true → y = x) ∨
    (fresh list seg = .error .archiveDuplicate ∧ ∃ x ∈ list, ∃ y ∈ list, x ≠ y ∧ matchFile seg x = true ∧ matchFile seg y = true) := by
  unfold fresh
  have hmem : ∀ x, x ∈ (sortAsc list).filter (matchFile seg) ↔ x ∈ list ∧ matchFile seg x = true := by
    intro x
    rw [List.mem_filter, mem_sortAsc]
  have hnd' : ((sortAsc list).filter (matchFile seg)).Nodup := ((sortAsc_perm list).nodup_iff.2 hnd).filter _
  split
  · rename_i h
    rw [h] at hmem
    refine .inl ⟨rfl, fun x hx => ?_⟩
    cases hm : matchFile seg x with
    | false => rfl
    | true => exact absurd ((hmem x).2 ⟨hx, hm⟩) (by simp)
  · rename_i x h
    rw [h] at hmem
    refine .inr (.inl ⟨x, rfl, ((hmem x).1 (.head _)).1, ((hmem x).1 (.head _)).2, fun y hy hm => ?_⟩)
    have := (hmem y).2 ⟨hy, hm⟩
    simpa using this
  · rename_i h1 h2
    cases hl : (sortAsc list).filter (matchFile seg) with
    | nil => exact absurd hl h1
    | cons x l =>
      cases l with
      | nil => exact absurd hl (h2 x)
      | cons y l =>
        rw [hl] at hmem hnd'
        refine .inr (.inr ⟨rfl, x, ((hmem x).1 (.head _)).1, y, ((hmem y).1 (.tail _ (.head _))).1, ?_,
          ((hmem x).1 (.head _)).2, ((hmem y).1 (.tail _ (.head _))).2⟩)
        have := (List.nodup_cons.1 hnd').1
        intro e
        exact this (by rw [e]; exact .head _)

theorem loop_single (timeout : Nat) (pre : Option Str) (seg : Str) (listing : Str → List Str) (later : List (Str → List Str)) :
    (⟨true, timeout, pre, none⟩ : Find).loop seg (listing :: later) =
      match fresh (listing (seg.take 16)) seg with
      | .error e => (⟨true, timeout, some (seg.take 16), none⟩, .error e)
      | .ok (some x) => (⟨true, timeout, some (seg.take 16), none⟩, .ok (some x))
      | .ok none => (⟨true, timeout, some (seg.take 16), none⟩ : Find).loop seg later := by
  rw [Find.loop]
  unfold Find.load Find.look fresh Find.clear
  simp only [true_or, if_true, Option.getD_some]
  rw [filter_sortAsc]
  cases (sortAsc (listing (seg.take 16))).filter (matchFile seg) with
  | nil => simp
  | cons x l =>
    cases l with
    | nil => simp
    | cons y l => simp

theorem findOne_cons (timeout : Nat) (seg : Str) (listings : List (Str → List Str)) (pre : Option Str) :
    ((⟨true, timeout, pre, none⟩ : Find).find seg listings).2 =
      match (listings.map fun l => fresh (l (seg.take 16)) seg).find? (fun r => match r with | .ok none => false | _ => true) with
      | none => if timeout ≠ 0 then .error .archiveTimeout else .ok none
      | some r => r := by
  induction listings generalizing pre with
  | nil => simp [Find.find, Find.loop]
  | cons l ls ih =>
    have ih' := ih (some (seg.take 16))
    unfold Find.find at ih' ⊢
    rw [loop_single, List.map_cons, List.find?_cons]
    cases hf : fresh (l (seg.take 16)) seg with
    | error e => simp
    | ok o =>
      cases o with
      | some x => simp
      | none => simpa using ih'

/-! ## Theorems -/

/-- A lookup that waits: before a pass in which there is a file, none had one. -/
theorem c50_find (timeout : Nat) (seg : Str) (before : List (Str → List Str)) (now : Str → List Str) (later : List (Str → List Str))
    (hnd : (now (seg.take 16)).Nodup) (hbefore : ∀ l ∈ before, ∀ x ∈ l (seg.take 16), matchFile seg x = false) :
    (∀ x, x ∈ now (seg.take 16) → matchFile seg x = true → (∀ y ∈ now (seg.take 16), matchFile seg y = true → y = x) →
      findOne timeout seg (before ++ now :: later) = .ok (some x)) ∧
    (∀ x y, x ∈ now (seg.take 16) → y ∈ now (seg.take 16) → x ≠ y → matchFile seg x = true → matchFile seg y = true →
      findOne timeout seg (before ++ now :: later) = .error .archiveDuplicate) := by
  have hb : ∀ l ∈ before, fresh (l (seg.take 16)) seg = .ok none := by
    intro l hl
    have : (sortAsc (l (seg.take 16))).filter (matchFile seg) = [] := by
      rw [List.filter_eq_nil_iff]
      intro x hx
      rw [hbefore l hl x (mem_sortAsc.1 hx)]
      simp
    unfold fresh
    rw [this]
  have hskip : ∀ b : List (Str → List Str), (∀ l ∈ b, fresh (l (seg.take 16)) seg = .ok none) →
      ((b ++ now :: later).map fun l => fresh (l (seg.take 16)) seg).find? (fun r => match r with | .ok none => false | _ => true) =
      ((now :: later).map fun l => fresh (l (seg.take 16)) seg).find? (fun r => match r with | .ok none => false | _ => true) := by
    intro b
    induction b with
    | nil => intro _; rfl
    | cons l b ih =>
      intro h
      rw [List.cons_append, List.map_cons, List.find?_cons, h l (.head _)]
      exact ih fun x hx => h x (.tail _ hx)
  constructor
  · intro x hx hm huniq
    have hf : fresh (now (seg.take 16)) seg = .ok (some x) := by
      rcases fresh_spec _ seg hnd with ⟨-, h⟩ | ⟨y, h, hy, hym, -⟩ | ⟨-, y, hy, z, hz, hne, hym, hzm⟩
      · rw [h x hx] at hm; cases hm
      · rw [h, huniq y hy hym]
      · exact absurd ((huniq y hy hym).trans (huniq z hz hzm).symm) hne
    unfold findOne Find.new
    rw [findOne_cons, hskip before hb, List.map_cons, List.find?_cons, hf]
  · intro x y hx hy hne hxm hym
    have hf : fresh (now (seg.take 16)) seg = .error .archiveDuplicate := by
      rcases fresh_spec _ seg hnd with ⟨-, h⟩ | ⟨z, -, -, -, huniq⟩ | ⟨h, -⟩
      · rw [h x hx] at hxm; cases hxm
      · exact absurd ((huniq x hx hxm).trans (huniq y hy hym).symm) hne
      · exact h
    unfold findOne Find.new
    rw [findOne_cons, hskip before hb, List.map_cons, List.find?_cons, hf]

/-- When the segment is in no pass: an error if it is required (there is a timeout), nothing otherwise. -/
theorem c50_missing (timeout : Nat) (seg : Str) (listings : List (Str → List Str))
    (h : ∀ l ∈ listings, ∀ x ∈ l (seg.take 16), matchFile seg x = false) :
    findOne timeout seg listings = if timeout ≠ 0 then .error .archiveTimeout else .ok none := by
  unfold findOne Find.new
  rw [findOne_cons]
  have : (listings.map fun l => fresh (l (seg.take 16)) seg).find? (fun r => match r with | .ok none => false | _ => true) = none := by
    rw [List.find?_eq_none]
    intro r hr
    obtain ⟨l, hl, rfl⟩ := List.mem_map.1 hr
    have : (sortAsc (l (seg.take 16))).filter (matchFile seg) = [] := by
      rw [List.filter_eq_nil_iff]
      intro x hx
      rw [h l hl x (mem_sortAsc.1 hx)]
      simp
    unfold fresh
    rw [this]
    simp
  rw [this]

/-- The files that count are those of the segment: its name, a checksum and an optional compression extension. -/
theorem c50_match (seg name : Str) (hs : Wal.isSegment seg = true) (hp : isPartial seg = false) :
    matchFile seg name = true ↔ FileOf seg name :=
  ⟨fileOf_of_match hs hp, matchFile_of hs⟩

/-- Files of partial segments are found too, though the expression is less strict for them (`c50_partial_point`). -/
theorem c50_match_partial (seg name : Str) (hs : Wal.isSegment seg = true) (h : FileOf seg name) : matchFile seg name = true :=
  matchFile_of hs h

/-- What is found for a segment is not the archived file of another segment. -/
theorem c50_match_other (s t name : Str) (hs : Wal.isSegment s = true) (ht : Wal.isSegment t = true) (hf : FileOf s name)
    (h : matchFile t name = true) : s = t := match_unique hs ht hf h

/-! ### Lookups with the same list -/

section Split

variable {α : Type} (lt eq gt : α → Bool)

/-- In a list of elements before, at and after some point, dropping those that are not at the point leaves nothing or the
elements at and after it. -/
theorem dropWhile_not (l : List α) (hcase : ∀ x ∈ l, (lt x = true ∧ eq x = false ∧ gt x = false) ∨
      (lt x = false ∧ eq x = true ∧ gt x = false) ∨ (lt x = false ∧ eq x = false ∧ gt x = true))
    (hord : l.Pairwise fun x y => (gt x = true → gt y = true) ∧ (eq x = true → lt y = false)) :
    (l.dropWhile fun x => !eq x) = (if l.any eq then l.filter (fun x => !lt x) else []) := by
  induction l with
  | nil => rfl
  | cons x l ih =>
    have hord' := List.pairwise_cons.1 hord
    have ih' := ih (fun y hy => hcase y (.tail _ hy)) hord'.2
    rw [List.dropWhile_cons, List.any_cons]
    rcases hcase x (.head _) with ⟨h1, h2, h3⟩ | ⟨h1, h2, h3⟩ | ⟨h1, h2, h3⟩
    · rw [h2, if_pos (by rfl), ih', List.filter_cons, h1]
      simp
    · rw [h2, if_neg (by simp), Bool.true_or, if_pos rfl]
      symm
      rw [List.filter_eq_self]
      intro y hy
      rcases List.mem_cons.1 hy with rfl | hy
      · simp [h1]
      · rw [(hord'.1 y hy).2 h2]; rfl
    · have hnone : l.any eq = false := by
        rw [List.any_eq_false]
        intro y hy
        have := (hord'.1 y hy).1 h3
        rcases hcase y (.tail _ hy) with ⟨-, -, k⟩ | ⟨-, -, k⟩ | ⟨-, k, -⟩
        · rw [this] at k; cases k
        · rw [this] at k; cases k
        · rw [k]; simp
      rw [h2, if_pos (by rfl), ih', hnone]
      simp

theorem takeWhile_eq (l : List α) (hcase : ∀ x ∈ l, (lt x = true ∧ eq x = false ∧ gt x = false) ∨
      (lt x = false ∧ eq x = true ∧ gt x = false) ∨ (lt x = false ∧ eq x = false ∧ gt x = true))
    (hord : l.Pairwise fun x y => (gt x = true → gt y = true) ∧ (eq x = true → lt y = false)) :
    ((l.filter (fun x => !lt x)).takeWhile eq) = l.filter eq ∧ ((l.filter (fun x => !lt x)).dropWhile eq) = l.filter gt := by
  induction l with
  | nil => exact ⟨rfl, rfl⟩
  | cons x l ih =>
    have hord' := List.pairwise_cons.1 hord
    obtain ⟨ih1, ih2⟩ := ih (fun y hy => hcase y (.tail _ hy)) hord'.2
    rcases hcase x (.head _) with ⟨h1, h2, h3⟩ | ⟨h1, h2, h3⟩ | ⟨h1, h2, h3⟩
    · simp only [List.filter_cons, h1, h2, h3]
      simpa using ⟨ih1, ih2⟩
    · simp only [List.filter_cons, h1, h2, h3]
      simpa [List.takeWhile_cons, List.dropWhile_cons, h2] using ⟨ih1, ih2⟩
    · have hgt : ∀ y ∈ l, lt y = false ∧ eq y = false ∧ gt y = true := by
        intro y hy
        have := (hord'.1 y hy).1 h3
        rcases hcase y (.tail _ hy) with ⟨-, -, k⟩ | ⟨-, -, k⟩ | k
        · rw [this] at k; cases k
        · rw [this] at k; cases k
        · exact k
      have f1 : l.filter (fun x => !lt x) = l := List.filter_eq_self.2 fun y hy => by rw [(hgt y hy).1]; rfl
      have f2 : l.filter eq = [] := List.filter_eq_nil_iff.2 fun y hy => by rw [(hgt y hy).2.1]; simp
      have f3 : l.filter gt = l := List.filter_eq_self.2 fun y hy => (hgt y hy).2.2
      simp only [List.filter_cons, h1, h2, h3, f1, f2, f3]
      simp [List.takeWhile_cons, List.dropWhile_cons, h2]

end Split

/-- The files of later segments. -/
def laterThan (seg name : Str) : Bool := !matchFile seg name && decide (seg ++ [0x2d] < name)

theorem laterThan_iff {s t name : Str} (hs : Wal.isSegment s = true) (ht : Wal.isSegment t = true) (hf : FileOf t name) :
    laterThan s name = true ↔ s < t := by
  unfold laterThan
  simp only [Bool.and_eq_true, Bool.not_eq_true', decide_eq_true_eq]
  -- A file of the segment looked for
  have hfile : FileOf s (s ++ [0x2d] ++ List.replicate 40 0x30 ++ []) := by
    refine ⟨List.replicate 40 0x30, [], rfl, by simp, ?_, .inl rfl⟩
    intro c hc
    rw [List.eq_of_mem_replicate hc]
    rfl
  constructor
  · rintro ⟨h1, h2⟩
    rcases Str.trichotomy s t with h3 | h3 | h3
    · exact h3
    · subst h3
      rw [matchFile_of hs hf] at h1
      cases h1
    · exfalso
      -- The file is before all files of `s`, so before what they begin with
      obtain ⟨⟨slen, -⟩, stail⟩ := isSegment_iff.1 hs
      obtain ⟨⟨tlen, -⟩, ttail⟩ := isSegment_iff.1 ht
      have ssplit := List.take_append_drop 24 s
      have tsplit := List.take_append_drop 24 t
      have hnt : name.take 24 = t.take 24 := by
        have := matchFile_of ht hf
        unfold matchFile at this
        simp only [Bool.and_eq_true, beq_iff_eq] at this
        exact this.1
      have hst : (s ++ [0x2d]).take 24 = s.take 24 := by
        rw [List.take_append_of_le_length]
        have := List.length_take_le 24 s
        rw [← ssplit, List.length_append]
        omega
      by_cases hpre : t.take 24 = s.take 24
      · have hts : t.drop 24 = [] ∧ s.drop 24 = partialExt := by
          rcases stail with ss | ss <;> rcases ttail with tt | tt
          · exfalso
            rw [← ssplit, ← tsplit, hpre, ss, tt] at h3
            exact Str.lt_irrefl _ h3
          · exfalso
            rw [← ssplit, ← tsplit, hpre, ss, tt, List.append_nil] at h3
            have h4 := append_lt_append_left (s.take 24) [] partialExt (by decide)
            rw [List.append_nil] at h4
            exact Str.lt_asymm h3 h4
          · exact ⟨tt, ss⟩
          · exfalso
            rw [← ssplit, ← tsplit, hpre, ss, tt] at h3
            exact Str.lt_irrefl _ h3
        obtain ⟨sha, ext, rfl, -⟩ := hf
        rw [hts.1, List.append_nil] at tsplit
        rw [hts.2] at ssplit
        have h4 : t ++ [0x2d] ++ sha ++ ext < s ++ [0x2d] := by
          rw [← tsplit, hpre, ← ssplit]
          simp only [List.append_assoc]
          have : ((List.take 24 s ++ partialExt).take 24) = s.take 24 := by rw [ssplit]
          rw [this]
          apply append_lt_append_left
          rw [partialExt]
          exact List.cons_lt_cons_iff.2 (.inl (by decide))
        exact Str.lt_asymm h2 h4
      · have h4 := Str.take_le_take 24 (Str.le_of_lt h2)
        have h5 := Str.take_le_take 24 (Str.le_of_lt h3)
        rw [hst, hnt] at h4
        exact hpre (Str.le_antisymm h5 h4)
  · intro h
    refine ⟨?_, ?_⟩
    · cases hm : matchFile s name with
      | false => rfl
      | true =>
        have := match_unique ht hs hf hm
        subst this
        exact absurd h (Str.lt_irrefl _)
    · have h1 := file_lt hs ht hfile hf h
      refine Str.lt_of_le_of_lt ?_ h1
      rw [List.append_nil]
      rcases Str.le_total (s ++ [0x2d]) (s ++ [0x2d] ++ List.replicate 40 0x30) with h2 | h2
      · exact h2
      · have : s ++ [0x2d] < s ++ [0x2d] ++ List.replicate 40 0x30 := by
          have := append_lt_append_left (s ++ [0x2d]) [] (List.replicate 40 0x30) (by decide)
          rwa [List.append_nil] at this
        exact Str.le_of_lt this

/-- A lookup in a list that is what remains of a directory with only archived segments. -/
theorem look_clean {listing : Str → List Str} (hclean : Clean listing) {p t : Str} (ht : Wal.isSegment t = true) (q : Str → Bool)
    (hq : ∀ x ∈ listing p, matchFile t x = true ∨ laterThan t x = true → q x = true) (timeout : Nat) (pre : Option Str) :
    (⟨false, timeout, pre, some ((sortAsc (listing p)).filter q)⟩ : Find).look t =
      match fresh (listing p) t with
      | .error e => (⟨false, timeout, pre, none⟩, .error e)
      | .ok none => (⟨false, timeout, pre, none⟩, .ok none)
      | .ok (some x) => (⟨false, timeout, pre, if (sortAsc (listing p)).filter (laterThan t) = [] then none
          else some ((sortAsc (listing p)).filter (laterThan t))⟩, .ok (some x)) := by
  have hcase : ∀ x ∈ listing p, ((!matchFile t x && !laterThan t x) = true ∧ matchFile t x = false ∧ laterThan t x = false) ∨
      ((!matchFile t x && !laterThan t x) = false ∧ matchFile t x = true ∧ laterThan t x = false) ∨
      ((!matchFile t x && !laterThan t x) = false ∧ matchFile t x = false ∧ laterThan t x = true) := by
    intro x _
    unfold laterThan
    cases matchFile t x <;> simp
    by_cases h : t ++ [0x2d] < x
    · exact .inr h
    · exact .inl (Str.not_lt.1 h)
  have hordA : (sortAsc (listing p)).Pairwise fun x y => (laterThan t x = true → laterThan t y = true) ∧
      (matchFile t x = true → (!matchFile t y && !laterThan t y) = false) := by
    refine List.Pairwise.imp_of_mem ?_ (sortAsc_pairwise (listing p))
    intro x y hx hy hle
    obtain ⟨a, ha, hxa⟩ := hclean p x (mem_sortAsc.1 hx)
    obtain ⟨b, hb, hyb⟩ := hclean p y (mem_sortAsc.1 hy)
    have hab : a ≤ b := by
      rw [Str.le_iff]
      intro h
      exact Str.lt_irrefl _ (Str.lt_of_le_of_lt hle (file_lt hb ha hyb hxa h))
    constructor
    · intro h
      rw [laterThan_iff ht ha hxa] at h
      rw [laterThan_iff ht hb hyb]
      exact Str.lt_of_lt_of_le h hab
    · intro h
      have := match_unique ha ht hxa h
      subst this
      rcases (Str.le_iff_lt_or_eq a b).1 hab with h1 | rfl
      · rw [(laterThan_iff ha hb hyb).2 h1]; simp
      · rw [matchFile_of ha hyb]; simp
  have hcaseL : ∀ x ∈ (sortAsc (listing p)).filter q, _ := fun x hx => hcase x (mem_sortAsc.1 (List.mem_filter.1 hx).1)
  have hordL := hordA.filter q
  have h1 := dropWhile_not (fun x => !matchFile t x && !laterThan t x) (matchFile t) (laterThan t) _ hcaseL hordL
  obtain ⟨h2, h3⟩ := takeWhile_eq (fun x => !matchFile t x && !laterThan t x) (matchFile t) (laterThan t) _ hcaseL hordL
  have e1 : ((sortAsc (listing p)).filter q).filter (matchFile t) = (sortAsc (listing p)).filter (matchFile t) := by
    rw [List.filter_filter]
    apply List.filter_congr
    intro x hx
    cases hm : matchFile t x with
    | false => rfl
    | true => rw [hq x (mem_sortAsc.1 hx) (.inl hm)]; rfl
  have e2 : ((sortAsc (listing p)).filter q).filter (laterThan t) = (sortAsc (listing p)).filter (laterThan t) := by
    rw [List.filter_filter]
    apply List.filter_congr
    intro x hx
    cases hm : laterThan t x with
    | false => rfl
    | true => rw [hq x (mem_sortAsc.1 hx) (.inr hm)]; rfl
  unfold Find.look Find.clear fresh
  simp only [Option.getD_some, Bool.false_eq_true, if_false, false_or]
  rw [h1]
  cases hany : ((sortAsc (listing p)).filter q).any (matchFile t) with
  | false =>
    have hnil : (sortAsc (listing p)).filter (matchFile t) = [] := by
      rw [← e1, List.filter_eq_nil_iff]
      intro x hx
      have := (List.any_eq_false.1 hany) x hx
      simpa using this
    rw [hnil]
    simp
  | true =>
    simp only [if_true]
    rw [h2, h3, e1, e2]
    cases hm : (sortAsc (listing p)).filter (matchFile t) with
    | nil =>
      exfalso
      rw [← e1, List.filter_eq_nil_iff] at hm
      rw [List.any_eq_true] at hany
      obtain ⟨x, hx, hxm⟩ := hany
      exact hm x hx hxm
    | cons x l =>
      cases l with
      | nil => simp
      | cons y l => simp

/-- What is kept between lookups: nothing or the files of later segments of a directory. -/
def Kept (listing : Str → List Str) (f : Find) (last : Str) : Prop :=
  f.list = none ∨ ∃ p, f.pre = some p ∧ f.list = some ((sortAsc (listing p)).filter (laterThan last))

/-- The list kept is none, or what follows a segment before the one to be found. -/
def Ready (listing : Str → List Str) (f : Find) (t : Str) : Prop :=
  f.list = none ∨ ∃ last, Wal.isSegment last = true ∧ last < t ∧
    ∃ p, f.pre = some p ∧ f.list = some ((sortAsc (listing p)).filter (laterThan last))

theorem step_clean {listing : Str → List Str} (hclean : Clean listing) {t : Str} (ht : Wal.isSegment t = true) (f : Find)
    (hs : f.single = false) (hk : Ready listing f t) :
    (f.load listing t).look t =
      match fresh (listing (t.take 16)) t with
      | .error e => (⟨false, f.timeout, some (t.take 16), none⟩, .error e)
      | .ok none => (⟨false, f.timeout, some (t.take 16), none⟩, .ok none)
      | .ok (some x) => (⟨false, f.timeout, some (t.take 16), if (sortAsc (listing (t.take 16))).filter (laterThan t) = [] then none
          else some ((sortAsc (listing (t.take 16))).filter (laterThan t))⟩, .ok (some x)) := by
  have hq : ∃ q : Str → Bool, (∀ x ∈ listing (t.take 16), matchFile t x = true ∨ laterThan t x = true → q x = true) ∧
      f.load listing t = ⟨false, f.timeout, some (t.take 16), some ((sortAsc (listing (t.take 16))).filter q)⟩ := by
    unfold Find.load
    split
    · refine ⟨fun _ => true, fun _ _ _ => rfl, ?_⟩
      rw [hs, List.filter_eq_self.mpr fun _ _ => rfl]
      rfl
    · rename_i h
      rw [not_or, Decidable.not_not] at h
      obtain ⟨h1, h2⟩ := h
      rcases hk with hk | ⟨last, hlast, hlt, p, hp, hk⟩
      · exact absurd hk h1
      · refine ⟨laterThan last, ?_, ?_⟩
        · intro x hx h
          obtain ⟨a, ha, hxa⟩ := hclean _ x hx
          rw [laterThan_iff hlast ha hxa]
          rcases h with h | h
          · rw [match_unique ha ht hxa h]
            exact hlt
          · rw [laterThan_iff ht ha hxa] at h
            exact Str.lt_trans hlt h
        · rw [hp] at h2
          cases h2
          obtain ⟨a, b, c, d⟩ := f
          simp only at hs hp hk ⊢
          rw [hs, hp, hk]
  obtain ⟨q, hq1, hq2⟩ := hq
  rw [hq2]
  exact look_clean hclean ht q hq1 f.timeout _

theorem loop_clean {listing : Str → List Str} (hclean : Clean listing) {t : Str} (ht : Wal.isSegment t = true) (n : Nat)
    (f : Find) (hs : f.single = false) (hk : Ready listing f t) :
    (f.loop t (List.replicate (n + 1) listing)).2 = fresh (listing (t.take 16)) t ∧
      (f.loop t (List.replicate (n + 1) listing)).1.single = false ∧
      (f.loop t (List.replicate (n + 1) listing)).1.timeout = f.timeout ∧
      Kept listing (f.loop t (List.replicate (n + 1) listing)).1 t := by
  induction n generalizing f with
  | zero =>
    rw [List.replicate_succ, Find.loop, step_clean hclean ht f hs hk]
    cases fresh (listing (t.take 16)) t with
    | error e => exact ⟨rfl, rfl, rfl, .inl rfl⟩
    | ok o =>
      cases o with
      | none => exact ⟨rfl, rfl, rfl, .inl rfl⟩
      | some x =>
        refine ⟨rfl, rfl, rfl, ?_⟩
        simp only []
        split
        · exact .inl rfl
        · exact .inr ⟨_, rfl, rfl⟩
  | succ n ih =>
    have ih' := ih ⟨false, f.timeout, some (t.take 16), none⟩ rfl (.inl rfl)
    rw [List.replicate_succ, Find.loop, step_clean hclean ht f hs hk]
    cases hf : fresh (listing (t.take 16)) t with
    | error e => exact ⟨rfl, rfl, rfl, .inl rfl⟩
    | ok o =>
      cases o with
      | none =>
        simp only []
        rw [hf] at ih'
        exact ih'
      | some x =>
        refine ⟨rfl, rfl, rfl, ?_⟩
        simp only []
        split
        · exact .inl rfl
        · exact .inr ⟨_, rfl, rfl⟩

theorem findOne_const (timeout : Nat) (seg : Str) (listing : Str → List Str) (n : Nat) :
    findOne timeout seg (List.replicate (n + 1) listing) =
      match fresh (listing (seg.take 16)) seg with
      | .ok none => if timeout ≠ 0 then .error .archiveTimeout else .ok none
      | r => r := by
  unfold findOne Find.new
  rw [findOne_cons, List.map_replicate]
  cases hf : fresh (listing (seg.take 16)) seg with
  | error e => simp [List.replicate_succ, List.find?_cons]
  | ok o =>
    cases o with
    | none =>
      split
      · rfl
      · rename_i h
        have h1 := List.find?_some h
        have h2 := List.eq_of_mem_replicate (List.mem_of_find?_eq_some h)
        rw [h2] at h1
        cases h1
    | some x => simp [List.replicate_succ, List.find?_cons]

theorem findAll_clean {listing : Str → List Str} (hclean : Clean listing) : ∀ (lookups : List (Str × Nat)) (f : Find),
    f.single = false → (∀ l ∈ lookups.head?, Ready listing f l.1) → (∀ l ∈ lookups, Wal.isSegment l.1 = true) →
    (lookups.map Prod.fst).Pairwise (· < ·) →
    f.findAll (lookups.map fun l => (l.1, List.replicate (l.2 + 1) listing)) =
      lookups.map fun l => findOne f.timeout l.1 (List.replicate (l.2 + 1) listing)
  | [], _, _, _, _, _ => rfl
  | (t, n) :: lookups, f, hs, hk, hseg, hord => by
    have ht := hseg _ (.head _)
    rw [List.map_cons, List.pairwise_cons] at hord
    obtain ⟨h1, h2, h3, h4⟩ := loop_clean hclean ht n f hs (hk _ rfl)
    rw [List.map_cons, List.map_cons, Find.findAll]
    have hfind : (f.find t (List.replicate (n + 1) listing)).1 = (f.loop t (List.replicate (n + 1) listing)).1 ∧
        (f.find t (List.replicate (n + 1) listing)).2 = findOne f.timeout t (List.replicate (n + 1) listing) := by
      rw [findOne_const, ← h1]
      unfold Find.find
      generalize f.loop t (List.replicate (n + 1) listing) = r
      obtain ⟨f', o⟩ := r
      cases o with
      | error e => exact ⟨rfl, rfl⟩
      | ok o =>
        cases o with
        | none => exact ⟨rfl, rfl⟩
        | some x => exact ⟨rfl, rfl⟩
    simp only []
    rw [hfind.1, hfind.2, ← h3]
    congr 1
    refine findAll_clean hclean lookups _ h2 ?_ (fun l hl => hseg l (.tail _ hl)) hord.2
    intro l hl
    rcases h4 with h4 | ⟨p, hp, h4⟩
    · exact .inl h4
    · exact .inr ⟨t, ht, hord.1 _ (List.mem_map_of_mem (List.mem_of_mem_head? hl)), p, hp, h4⟩

/-- Lookups of segments in ascending order, as after a backup, which share the list, give what a lookup with a list of its own
gives, in any directories that only have archived segments and for any number of passes. -/
theorem c50_cached (listing : Str → List Str) (timeout : Nat) (lookups : List (Str × Nat)) (hclean : Clean listing)
    (hseg : ∀ l ∈ lookups, Wal.isSegment l.1 = true) (hord : (lookups.map Prod.fst).Pairwise (· < ·)) :
    (Find.new false timeout).findAll (lookups.map fun l => (l.1, List.replicate (l.2 + 1) listing)) =
      lookups.map fun l => findOne timeout l.1 (List.replicate (l.2 + 1) listing) :=
  findAll_clean hclean lookups (Find.new false timeout) rfl (fun _ _ => .inl rfl) hseg hord

/-- When a pass does not find the segment, whatever list was kept, the list is got again in the next pass: what is archived in the
meantime is found. -/
theorem c50_retry_fresh (f : Find) (seg : Str) (listing : Str → List Str) (h : ((f.load listing seg).look seg).2 = .ok none) :
    ((f.load listing seg).look seg).1.list = none := by
  generalize f.load listing seg = g at h ⊢
  obtain ⟨single, timeout, pre, list⟩ := g
  unfold Find.look Find.clear at h ⊢
  cases single with
  | true =>
    simp only [if_true, true_or] at h ⊢
    by_cases hlen : (list.getD []).length > 1
    · rw [if_pos hlen]
    · rw [if_neg hlen]
  | false =>
    simp only [Bool.false_eq_true, if_false, false_or] at h ⊢
    by_cases hlen : (((list.getD []).dropWhile fun x => !matchFile seg x).takeWhile (matchFile seg)).length > 1
    · rw [if_pos hlen]
    · rw [if_neg hlen] at h ⊢
      simp only [Except.ok.injEq, List.head?_eq_none_iff] at h
      have hd : (list.getD []).dropWhile (fun x => !matchFile seg x) = [] := by
        cases hl : (list.getD []).dropWhile (fun x => !matchFile seg x) with
        | nil => rfl
        | cons x l =>
          have hx : matchFile seg x = true := by
            have h1 := List.head?_dropWhile_not (fun x => !matchFile seg x) (list.getD [])
            rw [hl] at h1
            simpa using h1
          rw [hl, List.takeWhile_cons, if_pos hx] at h
          cases h
      rw [hd]
      rfl

/-! ### Witnesses -/

/-- 24 times the same character, then one that differs. -/
def segA : Str := List.replicate 23 0x30 ++ [0x31]
def segB : Str := List.replicate 23 0x30 ++ [0x32]

/-- The archived file with a checksum of one character. -/
def fileSha (seg : Str) (c : UInt8) (ext : Str) : Str := seg ++ [0x2d] ++ List.replicate 40 c ++ ext

/-- Lookups which share the list, as in `c50_cached`. -/
example : ∃ (listing : Str → List Str) (lookups : List (Str × Nat)), Clean listing ∧ (∀ l ∈ lookups, Wal.isSegment l.1 = true) ∧
    (lookups.map Prod.fst).Pairwise (· < ·) ∧
    lookups.map (fun l => findOne 5 l.1 (List.replicate (l.2 + 1) listing)) =
      [.ok (some (fileSha segA 0x61 [])), .ok (some (fileSha segB 0x62 [0x2e, 0x67, 0x7a]))] := by
  refine ⟨fun p => if p = segA.take 16 then [fileSha segB 0x62 [0x2e, 0x67, 0x7a], fileSha segA 0x61 []] else [],
    [(segA, 0), (segB, 2)], ?_, by decide, by decide, by rfl⟩
  intro p x hx
  dsimp only at hx
  split at hx
  · rcases List.mem_cons.1 hx with rfl | hx
    · exact ⟨segB, by decide, List.replicate 40 0x62, [0x2e, 0x67, 0x7a], rfl, by decide, by decide, .inr (by decide)⟩
    · rcases List.mem_cons.1 hx with rfl | hx
      · exact ⟨segA, by decide, List.replicate 40 0x61, [], rfl, by decide, by decide, .inl rfl⟩
      · cases hx
  · cases hx

/-- A lookup that waits for the second pass, and one that finds two files, as in `c50_find`. -/
example : findOne 5 segA [fun _ => [fileSha segB 0x61 []], fun _ => [fileSha segB 0x61 [], fileSha segA 0x61 []]] =
      .ok (some (fileSha segA 0x61 [])) ∧
    findOne 5 segA [fun _ => [], fun _ => [fileSha segA 0x62 [], fileSha segA 0x61 []]] = .error .archiveDuplicate := ⟨by rfl, by rfl⟩

/-- A lookup without a timeout after which there is another pass, as in `c50_retry_fresh`. -/
example : (((Find.new false 0).load (fun _ => [fileSha segB 0x61 []]) segA).look segA).2 = .ok none := by rfl

/-- The point of `.partial` is not escaped in the expression, so a file that is not of the partial segment is taken for it. -/
theorem c50_partial_point : ∃ seg name : Str, Wal.isSegment seg = true ∧ isPartial seg = true ∧ matchFile seg name = true ∧
    ¬ FileOf seg name := by
  refine ⟨segA ++ partialExt, segA ++ [0x78] ++ partialExt.drop 1 ++ [0x2d] ++ List.replicate 40 0x61, by decide, by decide,
    by decide, ?_⟩
  rintro ⟨sha, ext, h, -⟩
  have h := congrArg (fun l : Str => l[24]?) h
  simp [segA, partialExt] at h

/-- Unlike in a lookup with a list of its own, with a shared list a file that is not an archived segment, such as the temporary file
of a copy in progress, hides a duplicate when it sorts between the two. -/
theorem c50_shared_hides_duplicate : ∃ (listing : Str → List Str) (seg x y : Str), Wal.isSegment seg = true ∧ x ≠ y ∧
    x ∈ listing (seg.take 16) ∧ y ∈ listing (seg.take 16) ∧ FileOf seg x ∧ FileOf seg y ∧
    (Find.new false 5).findAll [(seg, [listing])] = [.ok (some x)] ∧
    findOne 5 seg [listing] = .error .archiveDuplicate :=
  ⟨fun _ => [fileSha segA 0x61 [], fileSha segA 0x62 [0x2e, 0x74, 0x6d, 0x70], fileSha segA 0x63 []], segA, fileSha segA 0x61 [],
    fileSha segA 0x63 [], by decide, by decide, by decide, by decide,
    ⟨List.replicate 40 0x61, [], rfl, by decide, by decide, .inl rfl⟩,
    ⟨List.replicate 40 0x63, [], rfl, by decide, by decide, .inl rfl⟩, by rfl, by rfl⟩

/-- With a shared list a segment looked up after a later one is not found on the first pass (without a timeout, not at all). -/
theorem c50_descending_missed : ∃ (listing : Str → List Str) (s t : Str), Wal.isSegment s = true ∧ Wal.isSegment t = true ∧
    Clean listing ∧ t < s ∧ findOne 0 t [listing] = .ok (some (fileSha t 0x61 [])) ∧
    (Find.new false 0).findAll [(s, [listing]), (t, [listing])] = [.ok (some (fileSha s 0x61 [])), .ok none] := by
  have hclean : Clean fun _ => [fileSha (List.replicate 23 0x30 ++ [0x33]) 0x61 [], fileSha segA 0x61 [], fileSha segB 0x61 []] := by
    intro p x hx
    rcases List.mem_cons.1 hx with rfl | hx
    · exact ⟨List.replicate 23 0x30 ++ [0x33], by decide, List.replicate 40 0x61, [], rfl, by decide, by decide, .inl rfl⟩
    · rcases List.mem_cons.1 hx with rfl | hx
      · exact ⟨segA, by decide, List.replicate 40 0x61, [], rfl, by decide, by decide, .inl rfl⟩
      · rcases List.mem_cons.1 hx with rfl | hx
        · exact ⟨segB, by decide, List.replicate 40 0x61, [], rfl, by decide, by decide, .inl rfl⟩
        · cases hx
  exact ⟨_, segB, segA, by decide, by decide, hclean, by decide, by rfl, by rfl⟩

end Verif.Archive
