import Verif.Verify.RangeProps

/-!
# C63: the archive part of the verify command
-/

namespace Verif.Verify

open Verif.Wal

/-! ## Specification -/

/-- A file is in the range that is verified. -/
def inRange (range : Option (Option (Str × Str))) (f : Str) : Bool :=
  match range with
  | none => true
  | some none => false
  | some (some (start, stop)) => decide (start ≤ f.take 24) && decide (f.take 24 ≤ stop)

/-- The files of a directory that are verified. -/
def dirFiles (repo : Repo) (id path : Str) : List Str := (repo.files id path).filter (inRange repo.range)

/-- The files of an archive id that are verified. -/
def listed (repo : Repo) (id : Str) : List Str := (repo.paths id).flatMap (dirFiles repo id)

/-- The archive of `id` is a directory as pgBackRest writes it: directories and files are listed in order, a file is in the
directory with the first 16 bytes of its name and starts with the name of a segment, and all segments have the same size. -/
structure WalWF (repo : Repo) (id : Str) (size : Nat) : Prop where
  segSize : SegSize size
  paths : StrictAsc (repo.paths id)
  files : ∀ p ∈ repo.paths id, StrictAsc (repo.files id p)
  name : ∀ p ∈ repo.paths id, ∀ f ∈ repo.files id p, f.take 16 = p ∧ IsSeg size (f.take 24) ∧ slash ∉ f
  header : ∀ p ∈ repo.paths id, ∀ f ∈ repo.files id p, repo.walSize id p f = .ok size

/-! ## Filter -/

theorem dropWhile_lt (a : Str) : ∀ (l : List Str), (l.map seg).Pairwise (· ≤ ·) →
    l.dropWhile (fun f => decide (seg f < a)) = l.filter (fun f => decide (a ≤ seg f)) := by
  intro l
  induction l with
  | nil => intro _; rfl
  | cons f l ih =>
    intro hs
    simp only [List.map_cons, List.pairwise_cons] at hs
    rw [List.dropWhile_cons, List.filter_cons]
    by_cases h : seg f < a
    · rw [if_pos (by simpa using h), if_neg (by simpa using Str.not_le.2 h), ih hs.2]
    · rw [if_neg (by simpa using h), if_pos (by simpa using Str.not_lt.1 h)]
      congr 1
      symm
      rw [List.filter_eq_self]
      intro g hg
      simpa using Str.le_trans (Str.not_lt.1 h) (hs.1 _ (List.mem_map_of_mem hg))

theorem dropWhile_gt (a : Str) : ∀ (l : List Str), (l.map seg).Pairwise (fun x y => y ≤ x) →
    l.dropWhile (fun f => decide (a < seg f)) = l.filter (fun f => decide (seg f ≤ a)) := by
  intro l
  induction l with
  | nil => intro _; rfl
  | cons f l ih =>
    intro hs
    simp only [List.map_cons, List.pairwise_cons] at hs
    rw [List.dropWhile_cons, List.filter_cons]
    by_cases h : a < seg f
    · rw [if_pos (by simpa using h), if_neg (by simpa using Str.not_le.2 h), ih hs.2]
    · rw [if_neg (by simpa using h), if_pos (by simpa using Str.not_lt.1 h)]
      congr 1
      symm
      rw [List.filter_eq_self]
      intro g hg
      simpa using Str.le_trans (hs.1 _ (List.mem_map_of_mem hg)) (Str.not_lt.1 h)

theorem filterFiles_eq (range : Option (Option (Str × Str))) (l : List Str) (h : (l.map seg).Pairwise (· ≤ ·)) :
    filterFiles range l = l.filter (inRange range) := by
  cases range with
  | none =>
    have : inRange none = fun _ => true := by funext f; rfl
    simp [filterFiles, this]
  | some r =>
    cases r with
    | none =>
      have : inRange (some none) = fun _ => false := by funext f; rfl
      simp [filterFiles, this]
    | some p =>
      obtain ⟨a, b⟩ := p
      simp only [filterFiles]
      rw [dropWhile_lt a l h, dropWhile_gt]
      · rw [← List.filter_reverse, List.reverse_reverse, List.filter_filter]
        apply List.filter_congr
        intro f _
        simp only [inRange, seg]
        exact Bool.and_comm _ _
      · rw [List.map_reverse, List.pairwise_reverse]
        exact h.sublist (List.filter_sublist.map seg)

theorem sorted_segs {l : List Str} (h : StrictAsc l) : (l.map seg).Pairwise (· ≤ ·) := by
  rw [List.pairwise_map]
  exact h.imp fun hlt => seg_le (Str.le_of_lt hlt)

/-! ## One directory -/

/-- A result without what the outcome of the jobs is. -/
def strip (r : ArchRes) : ArchRes :=
  { r with valid := 0, ranges := r.ranges.map fun x => { x with invalid := [] } }

def newRes (id : Str) : ArchRes := ⟨id, 0, 0, 0, []⟩

/-- The result with the files of one more directory. -/
def advance (size : Nat) (r : ArchRes) (files : List Str) : ArchRes :=
  if files = [] then r
  else { r with size := size, total := r.total + files.length, ranges := ((uniq files).map seg).foldl (addSeg size) r.ranges }

theorem addSeg_strip (size : Nat) (ranges : List WalRange) (s : Str) :
    (addSeg size ranges s).map (fun x => { x with invalid := [] }) =
      addSeg size (ranges.map fun x => { x with invalid := [] }) s := by
  rcases List.eq_nil_or_concat ranges with rfl | ⟨rs, r, rfl⟩
  · simp [addSeg]
  · simp only [List.concat_eq_append, List.map_append, List.map_cons, List.map_nil]
    unfold addSeg
    simp only [List.getLast?_append, List.getLast?_singleton, Option.some_or]
    split
    · rw [setLast_append, setLast_append]; simp
    · simp

theorem fold_strip (size : Nat) (v : List Str) : ∀ (ranges : List WalRange),
    (v.foldl (addSeg size) ranges).map (fun x => { x with invalid := [] }) =
      v.foldl (addSeg size) (ranges.map fun x => { x with invalid := [] }) := by
  induction v with
  | nil => intro _; rfl
  | cons s v ih => intro ranges; rw [List.foldl_cons, ih, addSeg_strip, List.foldl_cons]

theorem advance_strip (size : Nat) (r : ArchRes) (files : List Str) :
    strip (advance size r files) = advance size (strip r) files := by
  unfold advance
  split
  · rfl
  · simp [strip, fold_strip]

theorem advance_id (size : Nat) (r : ArchRes) (files : List Str) : (advance size r files).id = r.id := by
  unfold advance; split <;> rfl

/-- The result after some directories. -/
def after (repo : Repo) (size : Nat) (id : Str) (ps : List Str) : ArchRes :=
  ps.foldl (fun r p => advance size r (dirFiles repo id p)) (newRes id)

theorem after_append (repo : Repo) (size : Nat) (id : Str) (ps : List Str) (p : Str) :
    after repo size id (ps ++ [p]) = advance size (after repo size id ps) (dirFiles repo id p) := by
  simp [after, List.foldl_append]

theorem foldl_stops (size : Nat) (v : List Str) : ∀ (ranges : List WalRange) (P : Str → Prop),
    (∀ x ∈ ranges, P x.stop) → (∀ s ∈ v, P s) → ∀ x ∈ v.foldl (addSeg size) ranges, P x.stop := by
  induction v with
  | nil => intro ranges P h _; exact h
  | cons s v ih =>
    intro ranges P h hv
    refine ih _ P ?_ (fun t ht => hv t (by simp [ht]))
    intro x hx
    rcases List.eq_nil_or_concat ranges with rfl | ⟨rs, r, rfl⟩
    · simp only [addSeg, List.getLast?_nil, List.nil_append, List.mem_singleton] at hx
      subst hx; exact hv s (by simp)
    · simp only [List.concat_eq_append] at *
      unfold addSeg at hx
      simp only [List.getLast?_append, List.getLast?_singleton, Option.some_or] at hx
      split at hx
      · rw [setLast_append] at hx
        simp only [List.mem_append, List.mem_singleton] at hx
        rcases hx with hx | rfl
        · exact h x (by simp [hx])
        · exact hv s (by simp)
      · simp only [List.mem_append, List.mem_singleton] at hx
        rcases hx with hx | rfl
        · exact h x (by simpa using hx)
        · exact hv s (by simp)

theorem uniq_sublist (l : List Str) : (uniq l).Sublist l := List.filter_sublist

/-- The segments of all files that have no other file, directory by directory. -/
def segsOf (repo : Repo) (id : Str) (ps : List Str) : List Str :=
  ps.flatMap fun p => (uniq (dirFiles repo id p)).map seg

theorem after_ranges (repo : Repo) (size : Nat) (id : Str) (ps : List Str) :
    (after repo size id ps).ranges = (segsOf repo id ps).foldl (addSeg size) [] := by
  induction ps using List.reverseRecOn with
  | nil => rfl
  | append_singleton ps p ih =>
    rw [after_append]
    unfold advance segsOf
    split
    · rename_i h
      rw [ih]; simp [segsOf, h, uniq]
    · simp only [ih, segsOf, List.flatMap_append, List.flatMap_cons, List.flatMap_nil, List.append_nil, List.foldl_append]

theorem after_id (repo : Repo) (size : Nat) (id : Str) (ps : List Str) : (after repo size id ps).id = id := by
  induction ps using List.reverseRecOn with
  | nil => rfl
  | append_singleton ps p ih => rw [after_append, advance_id, ih]

theorem after_size (repo : Repo) (size : Nat) (id : Str) (ps : List Str) :
    (after repo size id ps).size = 0 ∨ (after repo size id ps).size = size := by
  induction ps using List.reverseRecOn with
  | nil => exact .inl rfl
  | append_singleton ps p ih =>
    rw [after_append]
    unfold advance
    split
    · exact ih
    · exact .inr rfl

theorem after_total (repo : Repo) (size : Nat) (id : Str) (ps : List Str) :
    (after repo size id ps).total = (ps.flatMap (dirFiles repo id)).length := by
  induction ps using List.reverseRecOn with
  | nil => rfl
  | append_singleton ps p ih =>
    rw [after_append]
    unfold advance
    split
    · rename_i h; simp [ih, h]
    · simp [ih]

theorem strip_strip_size (r : ArchRes) : (strip r).size = r.size := rfl

section

variable {repo : Repo} {id : Str} {size : Nat}

theorem dirFiles_eq (wf : WalWF repo id size) {p : Str} (hp : p ∈ repo.paths id) :
    filterFiles repo.range (repo.files id p) = dirFiles repo id p :=
  filterFiles_eq _ _ (sorted_segs (wf.files p hp))

theorem dirFiles_sorted (wf : WalWF repo id size) {p : Str} (hp : p ∈ repo.paths id) : StrictAsc (dirFiles repo id p) :=
  (wf.files p hp).sublist List.filter_sublist

theorem dirFiles_name (wf : WalWF repo id size) {p f : Str} (hp : p ∈ repo.paths id) (hf : f ∈ dirFiles repo id p) :
    f.take 16 = p ∧ IsSeg size (seg f) ∧ slash ∉ f := wf.name p hp f (List.mem_filter.1 hf).1

theorem segsOf_isSeg (wf : WalWF repo id size) {ps : List Str} (hps : ∀ p ∈ ps, p ∈ repo.paths id) :
    ∀ s ∈ segsOf repo id ps, IsSeg size s := by
  intro s hs
  obtain ⟨p, hp, hs⟩ := List.mem_flatMap.1 hs
  obtain ⟨f, hf, rfl⟩ := List.mem_map.1 hs
  exact (dirFiles_name wf (hps p hp) ((uniq_sublist _).mem hf)).2.1

theorem strip_stops {r : ArchRes} {X : ArchRes} (h : strip r = X) : r.ranges.map (·.stop) = X.ranges.map (·.stop) := by
  subst h; simp [strip, List.map_map, Function.comp_def]

theorem strip_id (r : ArchRes) : (strip r).id = r.id := rfl

/-- What reading a directory does. -/
theorem readPath_eq (wf : WalWF repo id size) {before ps : List Str} {p : Str} (hp : repo.paths id = before ++ p :: ps)
    {r : ArchRes} (hr : strip r = after repo size id before) (errs : List Cause) :
    ∃ dups : List Str, readPath repo p r errs = .ok (uniq (dirFiles repo id p), advance size r (dirFiles repo id p), errs ++ dups.map (.dup id)) ∧
      dups.Nodup ∧ ∀ s, s ∈ dups ↔ 2 ≤ ((dirFiles repo id p).map seg).count s := by
  have hpm : p ∈ repo.paths id := by rw [hp]; simp
  have hid : r.id = id := by rw [← strip_id, hr, after_id]
  rw [readPath, hid, dirFiles_eq wf hpm]
  cases hd : dirFiles repo id p with
  | nil => exact ⟨[], by simp [uniq, advance], by simp, by simp⟩
  | cons f rest =>
    have hsz : walSizeOf repo p r f = .ok size := by
      unfold walSizeOf; rw [hid]
      have hf : f ∈ repo.files id p := by
        have : f ∈ dirFiles repo id p := by rw [hd]; simp
        exact (List.mem_filter.1 this).1
      split
      · exact wf.header p hpm f hf
      · rename_i h0
        have hs : r.size = size := by
          rcases after_size repo size id before with h | h
          · rw [← hr, strip_strip_size] at h; exact absurd h h0
          · rw [← hr, strip_strip_size] at h; exact h
        rw [hs]
    obtain ⟨dups, e, hnd, hm⟩ := createRange_eq wf.segSize (p.take 8) (f :: rest) r.ranges (by simp)
      (by rw [← hd]; exact sorted_segs (dirFiles_sorted wf hpm))
      (by
        intro g hg
        rw [← hd] at hg
        have := dirFiles_name wf hpm hg
        refine ⟨this.2.1, ?_⟩
        rw [← this.1, seg, List.take_take, List.take_take]; rfl)
      (by
        intro last hlast
        have h1 : last.stop ∈ (after repo size id before).ranges.map (·.stop) := by
          rw [← strip_stops hr]
          exact List.mem_map_of_mem (List.mem_of_getLast? hlast)
        obtain ⟨x, hx, hxs⟩ := List.mem_map.1 h1
        rw [← hxs]
        rw [after_ranges] at hx
        exact foldl_stops size _ [] (IsSeg size) (by simp)
          (segsOf_isSeg wf (fun q hq => by rw [hp]; simp [hq])) x hx)
    refine ⟨dups, ?_, hnd, hm⟩
    dsimp only
    rw [hsz]
    show (createRange size r.ranges (f :: rest) >>= fun x => (pure (x.2.1, (⟨id, r.total + (f :: rest).length, r.valid, size, x.1⟩ : ArchRes), errs ++ x.2.2.map (Cause.dup id)) : Res _)) = _
    rw [e]
    simp [advance, hid]

/-- The jobs for some directories. -/
def dirJobs (repo : Repo) (size : Nat) (id : Str) (p : Str) : List Job :=
  (uniq (dirFiles repo id p)).map fun f => walJob id p f size

/-- Segments with several files in some directories. -/
def DupIn (repo : Repo) (id : Str) (ps : List Str) (s : Str) : Prop :=
  ∃ p ∈ ps, 2 ≤ ((dirFiles repo id p).map seg).count s

/-- The state of the loop over the directories of an archive id. `J` are the jobs that were handed out for it. -/
inductive PInv (repo : Repo) (size : Nat) (id : Str) : (paths files : List Str) → ArchRes → List Cause → List Job → Prop
  | between {before paths r errs} (hp : repo.paths id = before ++ paths) (hr : strip r = after repo size id before)
      (he : ∀ s, .dup id s ∈ errs ↔ DupIn repo id before s) :
      PInv repo size id paths [] r errs (before.flatMap (dirJobs repo size id))
  | within {before p ps done files r errs} (hp : repo.paths id = before ++ p :: ps)
      (hr : strip r = after repo size id (before ++ [p])) (hne : files ≠ []) (hu : uniq (dirFiles repo id p) = done ++ files)
      (he : ∀ s, .dup id s ∈ errs ↔ DupIn repo id (before ++ [p]) s) :
      PInv repo size id (p :: ps) files r errs
        (before.flatMap (dirJobs repo size id) ++ done.map fun f => walJob id p f size)

theorem baseName_append (a f : Str) (hf : slash ∉ f) : baseName (a ++ [slash] ++ f) = f := by
  unfold baseName
  rw [List.reverse_append, List.reverse_append, List.takeWhile_append_of_pos]
  · simp
  · intro x hx
    simp only [List.mem_reverse] at hx
    simp only [ne_eq, decide_not, Bool.not_eq_eq_eq_not, Bool.not_true, decide_eq_false_iff_not]
    rintro rfl
    exact hf hx

/-- The segment that a job for a WAL file is about. -/
def jobSeg (j : Job) : Str := seg (baseName j.check.path)

theorem jobSeg_walJob (id p f : Str) (size : Nat) (hf : slash ∉ f) : jobSeg (walJob id p f size) = seg f := by
  unfold jobSeg walJob Job.check
  dsimp only
  rw [baseName_append _ _ hf]

theorem seg_lt_of_dir {p q f g : Str} (hf : f.take 16 = p) (hg : g.take 16 = q) (h : p < q) : seg f < seg g := by
  by_contra hn
  have h1 := Str.take_le_take 16 (Str.not_lt.1 hn)
  rw [seg, seg, List.take_take, List.take_take] at h1
  simp only [show min 16 24 = 16 from rfl] at h1
  rw [hf, hg] at h1
  exact Str.not_lt.2 h1 h

theorem mem_dirJobs (wf : WalWF repo id size) {p : Str} (hp : p ∈ repo.paths id) {j : Job}
    (hj : j ∈ dirJobs repo size id p) :
    ∃ f ∈ uniq (dirFiles repo id p), j = walJob id p f size ∧ jobSeg j = seg f := by
  obtain ⟨f, hf, rfl⟩ := List.mem_map.1 hj
  exact ⟨f, hf, rfl, jobSeg_walJob _ _ _ _ (dirFiles_name wf hp ((uniq_sublist _).mem hf)).2.2⟩

theorem lt_of_dir (wf : WalWF repo id size) {before ps : List Str} {p f : Str} {j : Job} (hp : repo.paths id = before ++ p :: ps)
    (hf : f ∈ uniq (dirFiles repo id p)) (hj : j ∈ before.flatMap (dirJobs repo size id)) : jobSeg j < seg f := by
  obtain ⟨q, hq, hj⟩ := List.mem_flatMap.1 hj
  have hqm : q ∈ repo.paths id := by rw [hp]; simp [hq]
  obtain ⟨g, hg, -, e⟩ := mem_dirJobs wf hqm hj
  rw [e]
  have hs := wf.paths
  rw [hp, StrictAsc, List.pairwise_append] at hs
  exact seg_lt_of_dir (dirFiles_name wf hqm ((uniq_sublist _).mem hg)).1
    (dirFiles_name wf (by rw [hp]; simp) ((uniq_sublist _).mem hf)).1 (hs.2.2 q hq p (by simp))

/-- The names of the segments are in order. -/
theorem uniq_strict {l : List Str} (h : StrictAsc l) : StrictAsc ((uniq l).map seg) := by
  have h1 : ((uniq l).map seg).Pairwise (· ≤ ·) := (sorted_segs h).sublist ((uniq_sublist l).map seg)
  have h2 : ((uniq l).map seg).Nodup := by
    rw [List.nodup_iff_count]
    intro s
    by_cases hs : s ∈ (uniq l).map seg
    · obtain ⟨f, hf, rfl⟩ := List.mem_map.1 hs
      have h3 : (l.map seg).count (seg f) = 1 := by simpa [uniq] using (List.mem_filter.1 hf).2
      have := (((uniq_sublist l).map seg)).count_le (seg f)
      omega
    · rw [List.count_eq_zero_of_not_mem hs]; omega
  refine (List.Pairwise.and h1 h2).imp ?_
  rintro a b ⟨hle, hne⟩
  rcases (Str.le_iff_lt_or_eq _ _).1 hle with h | h
  · exact h
  · exact absurd h hne

theorem segsOf_strict (wf : WalWF repo id size) {ps : List Str} (hps : ps.Sublist (repo.paths id)) :
    StrictAsc (segsOf repo id ps) := by
  unfold StrictAsc segsOf
  rw [List.pairwise_flatMap]
  refine ⟨fun p hp => uniq_strict (dirFiles_sorted wf (hps.mem hp)), ?_⟩
  refine (wf.paths.sublist hps).imp_of_mem ?_
  intro p q hp hq hpq x hx y hy
  obtain ⟨f, hf, rfl⟩ := List.mem_map.1 hx
  obtain ⟨g, hg, rfl⟩ := List.mem_map.1 hy
  exact seg_lt_of_dir (dirFiles_name wf (hps.mem hp) ((uniq_sublist _).mem hf)).1
    (dirFiles_name wf (hps.mem hq) ((uniq_sublist _).mem hg)).1 hpq

theorem jobSeg_mem (wf : WalWF repo id size) {ps : List Str} (hps : ∀ p ∈ ps, p ∈ repo.paths id) {j : Job}
    (hj : j ∈ ps.flatMap (dirJobs repo size id)) : jobSeg j ∈ segsOf repo id ps := by
  obtain ⟨q, hq, hj⟩ := List.mem_flatMap.1 hj
  obtain ⟨g, hg, -, e⟩ := mem_dirJobs wf (hps q hq) hj
  rw [e]
  exact List.mem_flatMap.2 ⟨q, hq, List.mem_map_of_mem hg⟩

/-- What the ranges are at any time: the runs of some segments in order, with the segments of the jobs among them. -/
theorem PInv.runs (wf : WalWF repo id size) {paths files r errs J} (h : PInv repo size id paths files r errs J) :
    ∃ u, StrictAsc u ∧ Runs size u (r.ranges.map fun x => (x.start, x.stop)) ∧ ∀ j ∈ J, jobSeg j ∈ u := by
  have key : ∀ (ps : List Str), ps.Sublist (repo.paths id) → strip r = after repo size id ps →
      StrictAsc (segsOf repo id ps) ∧ Runs size (segsOf repo id ps) (r.ranges.map fun x => (x.start, x.stop)) := by
    intro ps hps hr
    refine ⟨segsOf_strict wf hps, ?_⟩
    have h1 : r.ranges.map (fun x => (x.start, x.stop)) = (after repo size id ps).ranges.map fun x => (x.start, x.stop) := by
      rw [← hr]; simp [strip, List.map_map, Function.comp_def]
    rw [h1, after_ranges]
    have := runs_fold wf.segSize (segsOf repo id ps) (u := []) (ranges := []) (runs_nil size)
      (by simpa using segsOf_isSeg wf (fun p hp => hps.mem hp))
    simpa using this
  cases h with
  | between hp hr he =>
    rename_i before
    have hsub : before.Sublist (repo.paths id) := by rw [hp]; exact List.sublist_append_left _ _
    obtain ⟨h1, h2⟩ := key _ hsub hr
    exact ⟨_, h1, h2, fun j hj => jobSeg_mem wf (fun p hp => hsub.mem hp) hj⟩
  | within hp hr hne hu he =>
    rename_i before p ps done
    have hsub : (before ++ [p]).Sublist (repo.paths id) := by
      rw [hp, show before ++ p :: ps = (before ++ [p]) ++ ps by simp]; exact List.sublist_append_left _ _
    obtain ⟨h1, h2⟩ := key _ hsub hr
    refine ⟨_, h1, h2, fun j hj => jobSeg_mem wf (fun p hp => hsub.mem hp) ?_⟩
    rw [List.flatMap_append]
    rcases List.mem_append.1 hj with hj | hj
    · exact List.mem_append_left _ hj
    · refine List.mem_append_right _ ?_
      simp only [List.flatMap_cons, List.flatMap_nil, List.append_nil, dirJobs, hu, List.map_append]
      exact List.mem_append_left _ hj

theorem PInv.id_eq {paths files r errs J} (h : PInv repo size id paths files r errs J) : r.id = id := by
  cases h with
  | between hp hr he => rw [← strip_id, hr, after_id]
  | within hp hr hne hu he => rw [← strip_id, hr, after_id]

theorem size_of_within {before : List Str} {p : Str} {r : ArchRes} (hr : strip r = after repo size id (before ++ [p]))
    (hne : dirFiles repo id p ≠ []) : r.size = size := by
  rw [after_append] at hr
  have := congrArg ArchRes.size hr
  unfold advance at this
  rw [if_neg hne, strip_strip_size] at this
  exact this

theorem pathsLoop_inv (wf : WalWF repo id size) : ∀ (paths files : List Str) (r : ArchRes) (errs : List Cause) (J : List Job),
    PInv repo size id paths files r errs J →
    ∃ (job : Option Job) (st : ArchSt) (dups : List Str), pathsLoop repo paths files r errs = .ok (job, st) ∧ st.errs = errs ++ dups.map (.dup id) ∧
      PInv repo size id st.walPaths st.walFiles st.res st.errs (J ++ job.toList) ∧
      (job = none → st.walPaths = []) ∧
      (∃ v : List Str, st.res.ranges = (v.map seg).foldl (addSeg size) r.ranges ∧ (∀ f ∈ v, ∀ j ∈ J, jobSeg j < seg f) ∧
        st.res.valid = r.valid) := by
  intro paths
  induction paths with
  | nil =>
    intro files r errs J h
    cases h with
    | between hp hr he =>
      refine ⟨none, ⟨[], [], r, errs⟩, [], rfl, by simp, ?_, fun _ => rfl, [], rfl, by simp, rfl⟩
      simp only [Option.toList_none, List.append_nil]
      exact .between hp hr he
  | cons p ps ih =>
    intro files r errs J h
    cases h with
    | within hp hr hne hu he =>
      rename_i before done
      cases files with
      | nil => exact absurd rfl hne
      | cons f fs =>
        have hsz : r.size = size := size_of_within hr (by
          intro h0; rw [h0] at hu; simp [uniq] at hu)
        have hid : r.id = id := by rw [← strip_id, hr, after_id]
        refine ⟨some (walJob id p f size), ⟨if fs.isEmpty then ps else p :: ps, fs, r, errs⟩, [], ?_, by simp, ?_, by simp,
          [], rfl, by simp, rfl⟩
        · rw [pathsLoop]
          simp only [nextFiles, List.isEmpty_cons, Bool.false_eq_true, if_false, hsz]
          rw [← hid]; simp only [← hsz]; rfl
        · cases fs with
          | nil =>
            simp only [List.isEmpty_nil, if_true, Option.toList_some]
            have : before.flatMap (dirJobs repo size id) ++ List.map (fun f => walJob id p f size) done ++ [walJob id p f size] =
                (before ++ [p]).flatMap (dirJobs repo size id) := by
              simp [dirJobs, hu]
            rw [this]
            exact .between (by rw [hp]; simp) hr he
          | cons g gs =>
            simp only [List.isEmpty_cons, Bool.false_eq_true, if_false, Option.toList_some]
            have := PInv.within (repo := repo) (size := size) (id := id) (before := before) (p := p) (ps := ps)
              (done := done ++ [f]) (files := g :: gs) (r := r) (errs := errs) hp hr (by simp) (by simp [hu]) he
            simpa using this
    | between hp hr he =>
      rename_i before
      obtain ⟨dups, e, hnd, hm⟩ := readPath_eq wf hp hr errs
      have hid : r.id = id := by rw [← strip_id, hr, after_id]
      have hadv : strip (advance size r (dirFiles repo id p)) = after repo size id (before ++ [p]) := by
        rw [advance_strip, hr, after_append]
      have he' : ∀ s, .dup id s ∈ errs ++ dups.map (Cause.dup id) ↔ DupIn repo id (before ++ [p]) s := by
        intro s
        simp only [List.mem_append, he, List.mem_map, Cause.dup.injEq, true_and, exists_eq_right, hm, DupIn, List.mem_singleton]
        constructor
        · rintro (⟨q, hq, h⟩ | h)
          · exact ⟨q, .inl hq, h⟩
          · exact ⟨p, .inr rfl, h⟩
        · rintro ⟨q, hq | rfl, h⟩
          · exact .inl ⟨q, hq, h⟩
          · exact .inr h
      have hlt : ∀ f ∈ uniq (dirFiles repo id p), ∀ j ∈ before.flatMap (dirJobs repo size id), jobSeg j < seg f :=
        fun f hf j hj => lt_of_dir wf hp hf hj
      have hranges : (advance size r (dirFiles repo id p)).ranges =
          ((uniq (dirFiles repo id p)).map seg).foldl (addSeg size) r.ranges := by
        unfold advance
        split
        · rename_i h0; simp [h0, uniq]
        · rfl
      have hvalid : (advance size r (dirFiles repo id p)).valid = r.valid := by
        unfold advance; split <;> rfl
      cases hu : uniq (dirFiles repo id p) with
      | nil =>
        have hJ : before.flatMap (dirJobs repo size id) = (before ++ [p]).flatMap (dirJobs repo size id) := by
          simp [dirJobs, hu]
        have hpi := PInv.between (repo := repo) (size := size) (id := id) (before := before ++ [p]) (paths := ps)
          (r := advance size r (dirFiles repo id p)) (errs := errs ++ dups.map (Cause.dup id)) (by rw [hp]; simp) hadv he'
        rw [← hJ] at hpi
        obtain ⟨job, st, dups2, e2, h1, h2, h3, v, hv1, hv2, hv3⟩ := ih _ _ _ _ hpi
        refine ⟨job, st, dups ++ dups2, ?_, by rw [h1]; simp, h2, h3, v, ?_, hv2, by rw [hv3, hvalid]⟩
        · rw [pathsLoop]
          simp only [nextFiles, List.isEmpty_nil, if_true]
          rw [e, hu]
          exact e2
        · rw [hv1, hranges, hu]; rfl
      | cons f fs =>
        have hne : dirFiles repo id p ≠ [] := by intro h0; rw [h0] at hu; simp [uniq] at hu
        have hsz : (advance size r (dirFiles repo id p)).size = size := size_of_within hadv hne
        refine ⟨some (walJob id p f size), ⟨if fs.isEmpty then ps else p :: ps, fs, advance size r (dirFiles repo id p), errs ++ dups.map (Cause.dup id)⟩, dups, ?_, rfl, ?_,
          by simp, uniq (dirFiles repo id p), hranges, hlt, hvalid⟩
        · rw [pathsLoop]
          simp only [nextFiles, List.isEmpty_nil, if_true]
          rw [e, hu]
          show (.ok (some (walJob (advance size r (dirFiles repo id p)).id p f (advance size r (dirFiles repo id p)).size), _) : Res _) = _
          rw [hsz, advance_id, hid]
        · cases fs with
          | nil =>
            simp only [List.isEmpty_nil, if_true, Option.toList_some]
            have : before.flatMap (dirJobs repo size id) ++ [walJob id p f size] =
                (before ++ [p]).flatMap (dirJobs repo size id) := by
              simp [dirJobs, hu]
            rw [this]
            exact .between (by rw [hp]; simp) hadv he'
          | cons g gs =>
            simp only [List.isEmpty_cons, Bool.false_eq_true, if_false, Option.toList_some]
            exact PInv.within (repo := repo) (size := size) (id := id) (before := before) (p := p) (ps := ps)
              (done := [f]) (files := g :: gs) hp hadv (by simp) (by simp [hu]) he'

end

end Verif.Verify
