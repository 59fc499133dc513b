import Verif.Verify.SysProps

/-!
# C63, C64, C65: the verify command

The theorems hold for any outcome of the checks, any number of processes and any order in which jobs are requested and completed:
an order is a list of events.
-/

namespace Verif.Verify

open Verif.Wal

/-! ## Specification -/

/-- The files whose segment has one file in the archive. -/
def uniqFiles (repo : Repo) (id : Str) : List Str :=
  (listed repo id).filter fun f => ((listed repo id).map (·.take 24)).count (f.take 24) = 1

/-- What is checked for a WAL file: the whole file, after decryption and decompression, has the checksum that is part of the name and
the size of a segment. -/
def walCheck (id f : Str) (size : Nat) : Check :=
  { path := id ++ [slash] ++ f.take 16 ++ [slash] ++ f, part := none, filter := true, sum := (f.drop 25).take 40, size := size }

/-- Nothing is left to do. -/
def Complete (s : Sys) : Prop := s.jd.archiveIds = [] ∧ s.jd.backups = [] ∧ s.flight = []

/-- The manifest that is used for a backup: the main copy, or the other one if the main copy cannot be used, unless the backup is in
progress; and only if it belongs to the history of the stanza. -/
def Usable (repo : Repo) (label : Str) (m : VManifest) : Prop :=
  m.pg ∈ repo.history ∧
    (repo.manifest label = .ok m ∨
      (∀ m', repo.manifest label ≠ .ok m') ∧ ¬ (repo.current = some label ∧ repo.manifest label = .missing) ∧
        repo.copy label = .ok m)

/-- There is no manifest to use, but there is something there: the manifest is not simply missing. -/
def BadManifest (repo : Repo) (label : Str) : Prop :=
  (∀ m, ¬ Usable repo label m) ∧
    ¬ (repo.manifest label = .missing ∧ (repo.current = some label ∨ repo.copy label = .missing))

/-- Files that a backup takes from a backup that is verified as well are in the manifest of that backup, with the same checksum at the
same place. -/
def RefsMatch (repo : Repo) (bs : List Str) : Prop :=
  ∀ l ∈ bs, ∀ m, Usable repo l m → ∀ f ∈ m.files, ¬ NoContent m f → ∀ ref ∈ bs, f.ref = some ref → ∀ m', Usable repo ref m' →
    ∃ f' ∈ m'.files, f'.ref = none ∧ ¬ NoContent m' f' ∧ fileCheck ref m'.ext f' = fileCheck ref m.ext f

/-! ## Lemmas -/

variable {repo : Repo} {out : Check → Outcome} {sz : Str → Nat} {ids bs : List Str} {inHistory : Bool}

theorem walJob_eq {id p f : Str} {size : Nat} (h : f.take 16 = p) : walJob id p f size = .wal id (walCheck id f size) := by
  unfold walJob walCheck; rw [h]

theorem count_listed {id : Str} {size : Nat} (wf : WalWF repo id size) {p s : Str} (hp : p ∈ repo.paths id)
    (hs : s.take 16 = p) : ((listed repo id).map seg).count s = ((dirFiles repo id p).map seg).count s := by
  have hother : ∀ q ∈ repo.paths id, q ≠ p → ((dirFiles repo id q).map seg).count s = 0 := by
    intro q hq hne
    rw [List.count_eq_zero]
    intro hm
    obtain ⟨f, hf, e⟩ := List.mem_map.1 hm
    have h1 := (dirFiles_name wf hq hf).1
    apply hne
    rw [← h1, ← hs, ← e, seg, List.take_take]; rfl
  have hnd : (repo.paths id).Nodup := wf.paths.imp (fun h => by rintro rfl; exact Str.lt_irrefl _ h)
  unfold listed
  obtain ⟨a, b, hab⟩ := List.append_of_mem hp
  rw [hab] at hnd
  have hna : ∀ q ∈ a ++ b, q ≠ p := by
    rintro q hq rfl
    rw [List.nodup_append, List.nodup_cons] at hnd
    rcases List.mem_append.1 hq with h | h
    · exact hnd.2.2 q h q (by simp) rfl
    · exact hnd.2.1.1 h
  have hzero : ∀ (l : List Str), (∀ q ∈ l, q ∈ a ++ b) → ((l.flatMap (dirFiles repo id)).map seg).count s = 0 := by
    intro l hl
    rw [List.count_eq_zero]
    intro hm
    obtain ⟨f, hf, e⟩ := List.mem_map.1 hm
    obtain ⟨q, hq, hf⟩ := List.mem_flatMap.1 hf
    have := hother q (by rw [hab]; have := hl q hq; simp only [List.mem_append] at this; rcases this with h | h <;> simp [h])
      (hna q (hl q hq))
    rw [List.count_eq_zero] at this
    exact this (List.mem_map.2 ⟨f, hf, e⟩)
  rw [hab, List.flatMap_append, List.flatMap_cons, List.map_append, List.map_append, List.count_append, List.count_append,
    hzero a (by intro q hq; simp [hq]), hzero b (by intro q hq; simp [hq])]
  omega

theorem uniqFiles_eq {id : Str} {size : Nat} (wf : WalWF repo id size) :
    uniqFiles repo id = (repo.paths id).flatMap fun p => uniq (dirFiles repo id p) := by
  unfold uniqFiles
  conv_lhs => arg 2; unfold listed
  rw [List.filter_flatMap]
  apply List.flatMap_congr
  intro p hp
  unfold uniq
  apply List.filter_congr
  intro f hf
  have h1 := (dirFiles_name wf hp hf).1
  have := count_listed wf hp (s := seg f) (by rw [seg, List.take_take]; exact h1)
  show decide (((listed repo id).map seg).count (seg f) = 1) = _
  rw [this]

theorem allJobs_eq {id : Str} (wf : WalWF repo id (sz id)) :
    allJobs repo sz id = (uniqFiles repo id).map fun f => .wal id (walCheck id f (sz id)) := by
  rw [uniqFiles_eq wf, allJobs, List.map_flatMap]
  apply List.flatMap_congr
  intro p hp
  unfold dirJobs
  apply List.map_congr_left
  intro f hf
  exact walJob_eq (dirFiles_name wf hp ((uniq_sublist _).mem hf)).1

theorem segsOf_eq {id : Str} {size : Nat} (wf : WalWF repo id size) :
    segsOf repo id (repo.paths id) = (uniqFiles repo id).map (·.take 24) := by
  rw [uniqFiles_eq wf, segsOf, List.map_flatMap]
  rfl

theorem dupIn_iff {id : Str} {size : Nat} (wf : WalWF repo id size) (s : Str) :
    DupIn repo id (repo.paths id) s ↔ 2 ≤ ((listed repo id).map (·.take 24)).count s := by
  have hseg : (listed repo id).map (·.take 24) = (listed repo id).map seg := rfl
  rw [hseg]
  constructor
  · rintro ⟨p, hp, h⟩
    have : s ∈ (dirFiles repo id p).map seg := List.count_pos_iff.1 (by omega)
    obtain ⟨f, hf, rfl⟩ := List.mem_map.1 this
    rw [count_listed wf hp (by rw [seg, List.take_take]; exact (dirFiles_name wf hp hf).1)]
    exact h
  · intro h
    have : s ∈ (listed repo id).map seg := List.count_pos_iff.1 (by omega)
    obtain ⟨f, hf, rfl⟩ := List.mem_map.1 this
    obtain ⟨p, hp, hf⟩ := List.mem_flatMap.1 hf
    refine ⟨p, hp, ?_⟩
    rw [← count_listed wf hp (by rw [seg, List.take_take]; exact (dirFiles_name wf hp hf).1)]
    exact h

theorem AInv.finished {jd : JobData} {H : List Job} (h : AInv repo sz ids jd H) (hd : jd.archiveIds = []) :
    H = ids.flatMap (allJobs repo sz) ∧ jd.archRes.map strip = ids.map (final repo sz) ∧
      ∀ i s, .dup i s ∈ jd.errs ↔ i ∈ ids ∧ DupIn repo i (repo.paths i) s := by
  cases h with
  | idle D hi hf hr he =>
    rw [hd, List.append_nil] at hi
    subst hi
    exact ⟨rfl, hr, he⟩
  | busy D id rest J r hi ha hr hP hne he => rw [hd] at ha; simp at ha

theorem BInv.finished {H : List Job} {done : List (Job × Outcome)} {flight : List Job} {jd : JobData}
    (h : BInv repo bs H done flight jd) (hd : jd.backups = []) :
    List.Forall₂ (Fin repo bs H done flight) bs jd.backRes ∧ (∀ j ∈ H, ∀ l, j.label = some l → l ∈ bs) ∧ ErrB repo bs jd.errs := by
  cases h with
  | idle D hi hr hHD he =>
    rw [hd, List.append_nil] at hi
    subst hi
    exact ⟨hr, hHD, he⟩
  | busy D label rest m pf A res hi hb hm hu hf hne hr hA hg hHD he => rw [hd] at hb; simp at hb

/-- All jobs that were handed out are done. -/
theorem done_perm {s : Sys} (h : SInv repo out sz ids bs inHistory s) (hc : s.flight = []) :
    s.done.Perm (s.handed.map fun j => (j, out j.check)) := by
  have h1 := h.perm
  rw [hc, List.nil_append] at h1
  have h2 : s.done = (s.done.map (·.1)).map fun j => (j, out j.check) := by
    rw [List.map_map]
    conv_lhs => rw [← List.map_id s.done]
    apply List.map_congr_left
    intro d hd
    show d = (d.1, out d.1.check)
    rw [← h.outc d hd]
  rw [h2]
  exact (h1.map _).symm

theorem mem_done {s : Sys} (h : SInv repo out sz ids bs inHistory s) (hc : s.flight = []) {j : Job} {o : Outcome} :
    (j, o) ∈ s.done ↔ j ∈ s.handed ∧ o = out j.check := by
  rw [(done_perm h hc).mem_iff, List.mem_map]
  constructor
  · rintro ⟨j', h1, h2⟩; cases h2; exact ⟨h1, rfl⟩
  · rintro ⟨h1, rfl⟩; exact ⟨j, h1, rfl⟩

theorem manifestOf_iff (label : Str) (m : VManifest) :
    (∃ st err, manifestOf repo label = (some m, st, err)) ↔ Usable repo label m := by
  unfold manifestOf manifestFile Usable
  cases hm : repo.manifest label with
  | ok m0 =>
    by_cases hh : m0.pg ∈ repo.history
    · simp [hh]
      rintro rfl; exact hh
    · simp [hh]
      rintro h rfl; exact hh h
  | missing =>
    by_cases hcur : repo.current = some label
    · simp [hcur]
    · cases hc : repo.copy label with
      | ok m0 =>
        by_cases hh : m0.pg ∈ repo.history
        · simp [hh, hcur]
          rintro rfl; exact hh
        · simp [hh, hcur]
          rintro h rfl; exact hh h
      | missing => simp [hcur]
      | error => simp [hcur]
  | error =>
    cases hc : repo.copy label with
    | ok m0 =>
      by_cases hh : m0.pg ∈ repo.history
      · simp [hh]
        rintro rfl; exact hh
      · simp [hh]
        rintro h rfl; exact hh h
    | missing => simp
    | error => simp

theorem manifestOf_err (label : Str) : (manifestOf repo label).2.2 = true ↔ BadManifest repo label := by
  have hus := manifestOf_iff (repo := repo) label
  unfold BadManifest
  have h1 : (∀ m, ¬ Usable repo label m) ↔ (manifestOf repo label).1 = none := by
    constructor
    · intro h
      cases hm : (manifestOf repo label).1 with
      | none => rfl
      | some m => exact absurd ((hus m).1 ⟨(manifestOf repo label).2.1, (manifestOf repo label).2.2, by rw [← hm]⟩) (h m)
    · intro h m hu
      obtain ⟨st, err, e⟩ := (hus m).2 hu
      rw [e] at h; simp at h
  rw [h1]
  unfold manifestOf manifestFile
  cases hm : repo.manifest label with
  | ok m0 => by_cases hh : m0.pg ∈ repo.history <;> simp [hh]
  | missing =>
    by_cases hcur : repo.current = some label
    · simp [hcur]
    · cases hc : repo.copy label with
      | ok m0 => by_cases hh : m0.pg ∈ repo.history <;> simp [hh, hcur]
      | missing => simp [hcur]
      | error => simp [hcur]
  | error =>
    cases hc : repo.copy label with
    | ok m0 => by_cases hh : m0.pg ∈ repo.history <;> simp [hh]
    | missing => simp
    | error => simp

theorem ite_err {c : Prop} [Decidable c] {a mo : Option VManifest} {st st' : Status}
    (h : (if c then (none, .invalid, true) else (a, st', false)) = (mo, st, true)) : st = .invalid := by
  split at h
  · simp only [Prod.mk.injEq] at h; exact h.2.1.symm
  · simp at h

theorem manifestFile_err {main copy : Load VManifest} {cur : Bool} {hist : List Pg} {mo : Option VManifest} {st : Status}
    (h : manifestFile main copy cur hist = (mo, st, true)) : st = .invalid := ite_err h

/-! ## C63: WAL -/

/-- **C63.** Verify does not fail because of what the archive contains, and when there is no job to hand out then it has gone through all
archive ids and backups. -/
theorem c63_no_failure (hset : Setting repo sz ids bs) (es : List Event) :
    ∃ s, run repo out (start ids bs inHistory) es = .ok s ∧
      ∃ job jd, callback repo s.jd = .ok (job, jd) ∧ (job = none → jd.archiveIds = [] ∧ jd.backups = []) := by
  obtain ⟨s, e, h⟩ := run_inv hset es (start_inv (out := out) (inHistory := inHistory) hset)
  obtain ⟨job, jd, e1, -, h2⟩ := ask_inv hset h
  exact ⟨s, e, job, jd, e1, h2⟩

theorem inv_of_run (hset : Setting repo sz ids bs) {es : List Event} {s : Sys}
    (h : run repo out (start ids bs inHistory) es = .ok s) : SInv repo out sz ids bs inHistory s := by
  obtain ⟨s', e, h'⟩ := run_inv hset es (start_inv (out := out) (inHistory := inHistory) hset)
  rw [h] at e
  cases e
  exact h'

/-- **C63.** For each archive id there is one result. It has the number of files, and its ranges are the maximal runs of the segments that
have one file. -/
theorem c63_ranges (hset : Setting repo sz ids bs) {es : List Event} {s : Sys}
    (h : run repo out (start ids bs inHistory) es = .ok s) (hc : Complete s) :
    s.jd.archRes.map (·.id) = ids ∧ ∀ r ∈ s.jd.archRes, r.total = (listed repo r.id).length ∧
      Runs (sz r.id) ((uniqFiles repo r.id).map (·.take 24)) (r.ranges.map fun x => (x.start, x.stop)) := by
  have hi := inv_of_run hset h
  obtain ⟨-, h2, -⟩ := hi.arch.finished hc.1
  have hfid : ∀ i, (final repo sz i).id = i := fun i => after_id _ _ _ _
  refine ⟨?_, ?_⟩
  · have : s.jd.archRes.map (·.id) = (s.jd.archRes.map strip).map (·.id) := by
      simp [List.map_map, Function.comp_def, strip_id]
    rw [this, h2, List.map_map]
    simp [Function.comp_def, hfid]
  · intro r hr
    have : strip r ∈ ids.map (final repo sz) := by rw [← h2]; exact List.mem_map_of_mem hr
    obtain ⟨i, hi', e⟩ := List.mem_map.1 this
    have hid : r.id = i := by rw [← strip_id, ← e, hfid]
    subst hid
    refine ⟨?_, ?_⟩
    · have : (strip r).total = r.total := rfl
      rw [← this, ← e, final, after_total]; rfl
    · have h1 : r.ranges.map (fun x => (x.start, x.stop)) = (final repo sz r.id).ranges.map fun x => (x.start, x.stop) := by
        rw [e]; simp [strip, List.map_map, Function.comp_def]
      have wf := hset.wal _ hi'
      rw [h1, final, after_ranges, ← segsOf_eq wf]
      have := runs_fold wf.segSize (segsOf repo r.id (repo.paths r.id)) (u := []) (ranges := []) (runs_nil _)
        (by simpa using segsOf_isSeg wf (fun p hp => hp))
      simpa using this

/-- **C63.** The jobs for WAL are one for each file whose segment has no other file, with the checksum of the name and the size of the
segments. -/
theorem c63_jobs (hset : Setting repo sz ids bs) {es : List Event} {s : Sys}
    (h : run repo out (start ids bs inHistory) es = .ok s) (hc : Complete s) :
    s.handed.filter Job.isWal = ids.flatMap fun id => (uniqFiles repo id).map fun f => .wal id (walCheck id f (sz id)) := by
  have hi := inv_of_run hset h
  rw [(hi.arch.finished hc.1).1]
  apply List.flatMap_congr
  intro id hid
  exact allJobs_eq (hset.wal id hid)

theorem filterMap_wal {β : Type} (id : Str) (g : Check → Option β) (ids : List Str) (hnd : ids.Nodup) (hid : id ∈ ids)
    (F : Str → List Check) :
    ((ids.flatMap fun i => (F i).map (Job.wal i)).filterMap fun j =>
      match j with
      | .wal i c => if i = id then g c else none
      | .bak _ _ => none) = (F id).filterMap g := by
  induction ids with
  | nil => simp at hid
  | cons i ids ih =>
    rw [List.flatMap_cons, List.filterMap_append, List.filterMap_map]
    simp only [List.nodup_cons] at hnd
    by_cases he : i = id
    · subst he
      have : ((ids.flatMap fun i => (F i).map (Job.wal i)).filterMap fun j =>
          match j with
          | .wal i' c => if i' = i then g c else none
          | .bak _ _ => none) = [] := by
        rw [List.filterMap_eq_nil_iff]
        intro j hj
        obtain ⟨k, hk, hj⟩ := List.mem_flatMap.1 hj
        obtain ⟨c, _, rfl⟩ := List.mem_map.1 hj
        have : k ≠ i := by rintro rfl; exact hnd.1 hk
        simp [this]
      rw [this, List.append_nil]
      congr 1
      funext c
      simp
    · rw [ih hnd.2 (by simpa [Ne.symm he] using hid)]
      have : List.filterMap ((fun j => match j with
          | .wal i' c => if i' = id then g c else none
          | .bak _ _ => none) ∘ Job.wal i) (F i) = [] := by
        rw [List.filterMap_eq_nil_iff]
        intro c _
        simp [he]
      rw [this, List.nil_append]

/-- **C63.** What is reported for the files: the number of valid ones, and for each range the files with a segment in the range that are
not valid, with the reason. -/
theorem c63_results (hset : Setting repo sz ids bs) {es : List Event} {s : Sys}
    (h : run repo out (start ids bs inHistory) es = .ok s) (hc : Complete s) :
    ∀ r ∈ s.jd.archRes,
      r.valid = (uniqFiles repo r.id).countP (fun f => out (walCheck r.id f (sz r.id)) = .ok) ∧
      ∀ x ∈ r.ranges, x.invalid.Perm
        (((uniqFiles repo r.id).filter fun f =>
            decide (x.start ≤ f.take 24) && decide (f.take 24 ≤ x.stop) && decide (out (walCheck r.id f (sz r.id)) ≠ .ok)).map
          fun f => ((walCheck r.id f (sz r.id)).path, out (walCheck r.id f (sz r.id)))) := by
  intro r hr
  have hi := inv_of_run hset h
  have hg := hi.good r hr
  have hid : r.id ∈ ids := by
    rw [← (c63_ranges hset h hc).1]; exact List.mem_map_of_mem hr
  have wf := hset.wal _ hid
  have hjobs : s.handed.filter Job.isWal = ids.flatMap fun i => ((uniqFiles repo i).map fun f => walCheck i f (sz i)).map (Job.wal i) := by
    rw [c63_jobs hset h hc]
    apply List.flatMap_congr
    intro i _
    simp [List.map_map, Function.comp_def]
  -- a function of the jobs for WAL of the archive id
  have key : ∀ {β : Type} (g : Check → Outcome → Option β),
      (s.done.filterMap fun d => match d.1 with
        | .wal i c => if i = r.id then g c d.2 else none
        | .bak _ _ => none).Perm
      ((uniqFiles repo r.id).filterMap fun f => g (walCheck r.id f (sz r.id)) (out (walCheck r.id f (sz r.id)))) := by
    intro β g
    refine ((done_perm hi hc.2.2).filterMap _).trans ?_
    rw [List.filterMap_map]
    have h1 : List.filterMap ((fun d : Job × Outcome => match d.1 with
        | .wal i c => if i = r.id then g c d.2 else none
        | .bak _ _ => none) ∘ fun j => (j, out j.check)) s.handed =
        (s.handed.filter Job.isWal).filterMap fun j => match j with
          | .wal i c => if i = r.id then g c (out c) else none
          | .bak _ _ => none := by
      rw [List.filterMap_filter]
      apply List.filterMap_congr
      intro j _
      cases j <;> simp [Job.isWal, Job.check]
    rw [h1, hjobs]
    have := filterMap_wal r.id (fun c => g c (out c)) ids hset.nodup hid (fun i => (uniqFiles repo i).map fun f => walCheck i f (sz i))
    rw [this, List.filterMap_map]
    rfl
  refine ⟨?_, ?_⟩
  · rw [hg.1]
    have hp := (key (fun c o => if o = .ok then some () else none)).length_eq
    have h1 : ∀ (l : List (Job × Outcome)), validOf l r.id = (l.filterMap fun d => match d.1 with
        | .wal i c => if i = r.id then (if d.2 = .ok then some () else none) else none
        | .bak _ _ => none).length := by
      intro l
      induction l with
      | nil => rfl
      | cons d l ih =>
        unfold validOf at *
        rw [List.countP_cons, List.filterMap_cons, ih]
        cases hj : d.1 with
        | bak _ _ => simp
        | wal i c =>
          by_cases h1 : i = r.id <;> by_cases h2 : d.2 = .ok <;> simp [h1, h2]
    rw [h1, hp]
    generalize uniqFiles repo r.id = l
    induction l with
    | nil => rfl
    | cons f l ih =>
      rw [List.filterMap_cons, List.countP_cons]
      by_cases h2 : out (walCheck r.id f (sz r.id)) = .ok
      · simp [h2, ih]
      · simp [h2, ih]
  · intro x hx
    rw [hg.2 x hx]
    have hp := key (fun c o => if o ≠ .ok then some (seg (baseName c.path), c.path, o) else none)
    have h1 : badOf s.done r.id = (s.done.filterMap fun d => match d.1 with
        | .wal i c => if i = r.id then (if d.2 ≠ .ok then some (seg (baseName c.path), c.path, d.2) else none) else none
        | .bak _ _ => none) := by
      unfold badOf
      apply List.filterMap_congr
      intro d _
      cases d.1 with
      | bak _ _ => rfl
      | wal i c =>
        by_cases h1 : i = r.id <;> by_cases h2 : d.2 = .ok <;> simp [h1, h2]
    unfold invalidIn
    rw [h1]
    refine ((hp.filter _).map _).trans (List.Perm.of_eq ?_)
    have hbase : ∀ f ∈ uniqFiles repo r.id, baseName (walCheck r.id f (sz r.id)).path = f := by
      intro f hf
      rw [uniqFiles_eq wf] at hf
      obtain ⟨p, hp, hf⟩ := List.mem_flatMap.1 hf
      exact baseName_append _ _ (dirFiles_name wf hp ((uniq_sublist _).mem hf)).2.2
    generalize hl : uniqFiles repo r.id = l at hbase
    clear hl hp h1
    induction l with
    | nil => rfl
    | cons f l ih =>
      have ih := ih (fun g hg => hbase g (by simp [hg]))
      have hb := hbase f (by simp)
      rw [List.filterMap_cons, List.filter_cons]
      by_cases h2 : out (walCheck r.id f (sz r.id)) = .ok
      · simp only [h2, ne_eq, not_true_eq_false, if_false, decide_false, Bool.and_false, Bool.false_eq_true]
        exact ih
      · simp only [h2, ne_eq, not_false_eq_true, if_true, decide_true, Bool.and_true]
        rw [List.filter_cons, hb]
        dsimp only
        by_cases h3 : (decide (x.start ≤ seg f) && decide (seg f ≤ x.stop)) = true
        · have h4 : (decide (x.start ≤ f.take 24) && decide (f.take 24 ≤ x.stop)) = true := h3
          rw [if_pos h3, if_pos h4, List.map_cons, List.map_cons]
          congr 1
        · have h4 : ¬ (decide (x.start ≤ f.take 24) && decide (f.take 24 ≤ x.stop)) = true := h3
          rw [if_neg h3, if_neg h4]
          exact ih

/-! ## C64: errors -/

/-- **C64.** What is counted as an error at the end. -/
theorem c64_causes (hset : Setting repo sz ids bs) {es : List Event} {s : Sys}
    (h : run repo out (start ids bs inHistory) es = .ok s) (hc : Complete s) (c : Cause) :
    c ∈ s.jd.errs ↔
      match c with
      | .dup id t => id ∈ ids ∧ 2 ≤ ((listed repo id).map (·.take 24)).count t
      | .history => inHistory = false
      | .manifest l => l ∈ bs ∧ BadManifest repo l
      | .empty l => l ∈ bs ∧ ∃ m, Usable repo l m ∧ m.files = []
      | .file j o => j ∈ s.handed ∧ o = out j.check ∧ o ≠ .ok ∧ ¬ (j.isWal = true ∧ o = .missing) := by
  have hi := inv_of_run hset h
  cases c with
  | dup id t =>
    rw [(hi.arch.finished hc.1).2.2]
    constructor
    · rintro ⟨h1, h2⟩; exact ⟨h1, (dupIn_iff (hset.wal id h1) t).1 h2⟩
    · rintro ⟨h1, h2⟩; exact ⟨h1, (dupIn_iff (hset.wal id h1) t).2 h2⟩
  | history => exact hi.history
  | manifest l => rw [(hi.back.finished hc.2.1).2.2.1, manifestOf_err]
  | empty l =>
    rw [(hi.back.finished hc.2.1).2.2.2]
    constructor
    · rintro ⟨h1, m, st, err, h2, h3⟩; exact ⟨h1, m, (manifestOf_iff l m).1 ⟨st, err, h2⟩, h3⟩
    · rintro ⟨h1, m, h2, h3⟩
      obtain ⟨st, err, e⟩ := (manifestOf_iff l m).2 h2
      exact ⟨h1, m, st, err, e, h3⟩
  | file j o =>
    rw [hi.file, mem_done hi hc.2.2]
    have : countsAsError j o = true ↔ ¬ (j.isWal = true ∧ o = .missing) := by
      cases j <;> cases o <;> simp [countsAsError, Job.isWal]
    rw [this]
    constructor
    · rintro ⟨⟨h1, h2⟩, h3, h4⟩; exact ⟨h1, h2, h3, h4⟩
    · rintro ⟨h1, h2, h3, h4⟩; exact ⟨⟨h1, h2⟩, h3, h4⟩

/-- **C64.** Each file of a backup with a manifest is checked at the place it is stored, unless it has no content or it is taken from
another backup that is verified. -/
theorem c64_checked (hset : Setting repo sz ids bs) {es : List Event} {s : Sys}
    (h : run repo out (start ids bs inHistory) es = .ok s) (hc : Complete s) {l : Str} (hl : l ∈ bs) {m : VManifest}
    (hm : Usable repo l m) {f : VFile} (hf : f ∈ m.files) (hcont : ¬ NoContent m f) (hown : ∀ ref, f.ref = some ref → ref ∉ bs) :
    .bak l (fileCheck (home l f) m.ext f) ∈ s.handed := by
  have hi := inv_of_run hset h
  obtain ⟨h1, -, -⟩ := hi.back.finished hc.2.1
  obtain ⟨b, -, hb⟩ := forall2_mem_left h1 hl
  obtain ⟨st, err, e⟩ := (manifestOf_iff l m).2 hm
  unfold Fin at hb
  simp only [e] at hb
  rw [if_neg (List.ne_nil_of_mem hf)] at hb
  rcases hb.settled f hf with h | h | ⟨ref, h2, h3⟩
  · exact absurd h hcont
  · exact h
  · exact absurd h3 (hown ref h2)

/-- **C64.** A file taken from another backup is checked as well, for that backup. -/
theorem c64_every_file (hset : Setting repo sz ids bs) (hrefs : RefsMatch repo bs) {es : List Event} {s : Sys}
    (h : run repo out (start ids bs inHistory) es = .ok s) (hc : Complete s) {l : Str} (hl : l ∈ bs) {m : VManifest}
    (hm : Usable repo l m) {f : VFile} (hf : f ∈ m.files) (hcont : ¬ NoContent m f)
    (hhome : ∀ ref ∈ bs, f.ref = some ref → ∃ m', Usable repo ref m') :
    ∃ j ∈ s.handed, j.isWal = false ∧ j.check = fileCheck (home l f) m.ext f := by
  by_cases href : ∃ ref, f.ref = some ref ∧ ref ∈ bs
  · obtain ⟨ref, h1, h2⟩ := href
    obtain ⟨m', hm'⟩ := hhome ref h2 h1
    obtain ⟨f', hf', hr', hc', e⟩ := hrefs l hl m hm f hf hcont ref h2 h1 m' hm'
    refine ⟨_, c64_checked hset h hc h2 hm' hf' hc' (by rw [hr']; simp), rfl, ?_⟩
    show fileCheck (home ref f') m'.ext f' = fileCheck (home l f) m.ext f
    have e1 : home ref f' = ref := by simp [home, hr']
    have e2 : home l f = ref := by simp [home, h1]
    rw [e1, e2, e]
  · exact ⟨_, c64_checked hset h hc hl hm hf hcont (fun ref h1 h2 => href ⟨ref, h1, h2⟩), rfl, rfl⟩

/-- **C64.** If no error is counted, then every segment in the archive has one file, which is valid (or went missing), every backup has a
manifest with files (or none at all), and every file of every backup is valid where it is stored. -/
theorem c64_no_errors (hset : Setting repo sz ids bs) (hrefs : RefsMatch repo bs) {es : List Event} {s : Sys}
    (h : run repo out (start ids bs inHistory) es = .ok s) (hc : Complete s) (hz : s.jd.errs.length = 0) :
    inHistory = true ∧
    (∀ id ∈ ids, ∀ f ∈ listed repo id, f ∈ uniqFiles repo id ∧
      (out (walCheck id f (sz id)) = .ok ∨ out (walCheck id f (sz id)) = .missing)) ∧
    ∀ l ∈ bs, ¬ BadManifest repo l ∧ ∀ m, Usable repo l m → m.files ≠ [] ∧
      ∀ f ∈ m.files, ¬ NoContent m f → (∀ ref ∈ bs, f.ref = some ref → ∃ m', Usable repo ref m') →
        out (fileCheck (home l f) m.ext f) = .ok := by
  have hnil : s.jd.errs = [] := List.length_eq_zero_iff.1 hz
  have hcause := c64_causes hset h hc
  have hno : ∀ c, c ∉ s.jd.errs := by rw [hnil]; simp
  refine ⟨?_, ?_, ?_⟩
  · have := mt (hcause .history).2 (hno _)
    simpa using this
  · intro id hid f hf
    have hu : f ∈ uniqFiles repo id := by
      refine List.mem_filter.2 ⟨hf, ?_⟩
      have h1 := mt (hcause (.dup id (f.take 24))).2 (hno _)
      have h2 : 0 < ((listed repo id).map (·.take 24)).count (f.take 24) :=
        List.count_pos_iff.2 (List.mem_map.2 ⟨f, hf, rfl⟩)
      have h3 : ¬ 2 ≤ ((listed repo id).map (·.take 24)).count (f.take 24) := fun h => h1 ⟨hid, h⟩
      rw [decide_eq_true_eq]
      omega
    refine ⟨hu, ?_⟩
    have hj : Job.wal id (walCheck id f (sz id)) ∈ s.handed := by
      have : Job.wal id (walCheck id f (sz id)) ∈ s.handed.filter Job.isWal := by
        rw [c63_jobs hset h hc]
        exact List.mem_flatMap.2 ⟨id, hid, List.mem_map.2 ⟨f, hu, rfl⟩⟩
      exact (List.mem_filter.1 this).1
    have h1 := mt (hcause (.file (.wal id (walCheck id f (sz id))) (out (walCheck id f (sz id))))).2 (hno _)
    by_contra hcon
    rw [not_or] at hcon
    exact h1 ⟨hj, rfl, hcon.1, fun h => hcon.2 h.2⟩
  · intro l hl
    refine ⟨fun hb => mt (hcause (.manifest l)).2 (hno _) ⟨hl, hb⟩, ?_⟩
    intro m hm
    refine ⟨fun he => mt (hcause (.empty l)).2 (hno _) ⟨hl, m, hm, he⟩, ?_⟩
    intro f hf hcont hhome
    obtain ⟨j, hj, hw, e⟩ := c64_every_file hset hrefs h hc hl hm hf hcont hhome
    have h1 := mt (hcause (.file j (out j.check))).2 (hno _)
    by_contra hcon
    rw [← e] at hcon
    exact h1 ⟨hj, rfl, hcon, by simp [hw]⟩

/-- **C64.** `verifyFile` reports a file as valid exactly if it exists and its content, after the filters, has the checksum and the
size. -/
theorem c64_file (sha1 : Str → Str) (content : Option (Res Str)) (c : Check) :
    verifyFile sha1 content c = .ok ↔ ∃ b, content = some (.ok b) ∧ sha1 b = c.sum ∧ b.length = c.size := by
  unfold verifyFile
  match content with
  | none => simp
  | some (.error _) => simp
  | some (.ok b) =>
    simp only [Option.some.injEq, Except.ok.injEq, exists_eq_left']
    split
    · rename_i h; simp; intro h'; exact absurd h'.symm h
    · rename_i h
      rw [not_not] at h
      split
      · rename_i h2; simp; intro _ h'; exact h2 h'.symm
      · rename_i h2; rw [not_not] at h2; simp [h, h2]

/-- The bytes `stored` are in the repository where the manifest says the file of the backup is. -/
def StoredAt (get : Str → Option Str) (label ext : Str) (f : VFile) (stored : Str) : Prop :=
  (f.bundleId = 0 ∧ f.blockIncr = false ∧ get (label ++ [47] ++ f.name ++ ext) = some stored) ∨
  (f.bundleId = 0 ∧ f.blockIncr = true ∧ get (label ++ [47] ++ f.name ++ [46, 112, 103, 98, 105]) = some stored) ∨
  (f.bundleId ≠ 0 ∧ ∃ before after, before.length = f.bundleOffset ∧ stored.length = f.sizeRepo ∧
    get (label ++ [47] ++ [98, 117, 110, 100, 108, 101, 47] ++ Num.uintToZ f.bundleId) = some (before ++ stored ++ after))

/-- **C64.** The check of a file of a backup against the manifest: with a checksum of the file in the repository, the stored bytes
have this checksum and the size in the repository; without, what they decrypt and decompress to has the checksum and the size of
the file. -/
theorem c64_stored {get : Str → Option Str} {label ext : Str} {f : VFile} {stored : Str}
    (sha1 : Str → Str) (inv : Str → Res Str) (h : StoredAt get label ext f stored) :
    verifyFile sha1 (readContent get inv (fileCheck label ext f)) (fileCheck label ext f) = .ok ↔
      (∀ sum, f.repoSum = some sum → sha1 stored = sum ∧ stored.length = f.sizeRepo) ∧
      (f.repoSum = none → ∃ b, inv stored = .ok b ∧ sha1 b = f.sum ∧ b.length = f.size) := by
  have hr : readContent get inv (fileCheck label ext f) = some (if f.repoSum.isNone then inv stored else .ok stored) := by
    rcases h with ⟨h0, hb, hg⟩ | ⟨h0, hb, hg⟩ | ⟨h0, before, after, ho, hs, hg⟩
    · have hp : (fileCheck label ext f).path = label ++ [47] ++ f.name ++ ext := by
        simp [fileCheck, repoPath, h0, hb, slash]
      simp only [readContent, hp, hg, Option.map_some]
      simp [fileCheck, h0]
    · have hp : (fileCheck label ext f).path = label ++ [47] ++ f.name ++ [46, 112, 103, 98, 105] := by
        simp [fileCheck, repoPath, h0, hb, slash, blockExt]
      simp only [readContent, hp, hg, Option.map_some]
      simp [fileCheck, h0]
    · have hp : (fileCheck label ext f).path =
          label ++ [47] ++ [98, 117, 110, 100, 108, 101, 47] ++ Num.uintToZ f.bundleId := by
        simp [fileCheck, repoPath, h0, slash, bundlePath]
      simp only [readContent, hp, hg, Option.map_some]
      simp [fileCheck, h0, ← ho, ← hs]
  rw [c64_file, hr]
  cases hf : f.repoSum with
  | none => simp [fileCheck, hf]
  | some sum => simp [fileCheck, hf]

/-! ## C65: backups -/

/-- **C65 (partial).** The result of each backup. It is complete for the files that the backup does not take from another backup that is
verified: all of them that are not valid are in the list of the backup. Everything in the list is a file of some verified backup that is not
valid. What is missing: files taken from a backup that is verified before (`c65_reference_last_file`,
`c65_reference_bundle`). -/
theorem c65_backup_partial (hset : Setting repo sz ids bs) {es : List Event} {s : Sys}
    (h : run repo out (start ids bs inHistory) es = .ok s) (hc : Complete s) :
    s.jd.backRes.map (·.label) = bs ∧ ∀ b ∈ s.jd.backRes,
      (∀ m, Usable repo b.label m → m.files ≠ [] →
        b.totalManifest = m.files.length ∧ b.totalVerify = m.files.length ∧ b.totalValid + b.invalid.length = m.files.length ∧
        (b.status = .valid ∧ b.invalid = [] ∨ b.status = .invalid ∧ b.invalid ≠ []) ∧
        ∀ f ∈ m.files, ¬ NoContent m f → (∀ ref, f.ref = some ref → ref ∉ bs) →
          out (fileCheck (home b.label f) m.ext f) ≠ .ok →
          ((fileCheck (home b.label f) m.ext f).path, out (fileCheck (home b.label f) m.ext f)) ∈ b.invalid) ∧
      (∀ i ∈ b.invalid, ∃ l ∈ bs, ∃ m, Usable repo l m ∧ ∃ f ∈ m.files, i.1 = (fileCheck (home l f) m.ext f).path ∧
        i.2 = out (fileCheck (home l f) m.ext f) ∧ i.2 ≠ .ok) ∧
      (∀ m, Usable repo b.label m → m.files = [] → b.status = .invalid) ∧
      (BadManifest repo b.label → b.status = .invalid) ∧
      ((∀ m, ¬ Usable repo b.label m) → ¬ BadManifest repo b.label →
        b.status = if repo.current = some b.label then .inProgress else .missingManifest) := by
  have hi := inv_of_run hset h
  obtain ⟨h1, hHl, -⟩ := hi.back.finished hc.2.1
  refine ⟨forall2_labels h1, ?_⟩
  intro b hb
  obtain ⟨l, hl, hfin⟩ := forall2_mem_right h1 hb
  have hbl := hfin.label_eq
  subst hbl
  have hsound : ∀ i ∈ b.invalid, ∃ l c, (Job.bak l c, i.2) ∈ s.done ∧ i.2 ≠ .ok ∧ i.1 = c.path := by
    unfold Fin at hfin
    split at hfin
    · rw [hfin.1]; simp
    · split at hfin
      · rw [hfin.1]; simp
      · exact hfin.sound
  refine ⟨?_, ?_, ?_, ?_, ?_⟩
  · intro m hm hne
    obtain ⟨st, err, e⟩ := (manifestOf_iff _ m).2 hm
    unfold Fin at hfin
    simp only [e] at hfin
    rw [if_neg hne] at hfin
    refine ⟨hfin.manifest, hfin.total, ?_, ?_, ?_⟩
    · have := hfin.count
      rw [hc.2.2] at this
      simpa [inflight] using this
    · have := hfin.status
      by_cases hinv : b.invalid = []
      · rw [if_pos hinv] at this; exact .inl ⟨this, hinv⟩
      · rw [if_neg hinv] at this; exact .inr ⟨this, hinv⟩
    · intro f hf hcont hown hbad
      refine hfin.own _ _ ?_ hbad
      rw [mem_done hi hc.2.2]
      exact ⟨c64_checked hset h hc hl hm hf hcont hown, rfl⟩
  · intro i hi'
    obtain ⟨l, c, hd, hne, hp⟩ := hsound i hi'
    rw [mem_done hi hc.2.2] at hd
    obtain ⟨m, st, err, f, e, hf, -, hcheck⟩ := hi.from' _ hd.1 l c rfl
    refine ⟨l, hHl _ hd.1 l rfl, m, (manifestOf_iff l m).1 ⟨st, err, e⟩, f, hf, ?_, ?_, hne⟩
    · rw [hp, hcheck]
    · rw [hd.2, ← hcheck]; rfl
  · intro m hm he
    obtain ⟨st, err, e⟩ := (manifestOf_iff _ m).2 hm
    unfold Fin at hfin
    simp only [e] at hfin
    rw [if_pos he] at hfin
    rw [hfin.1]
  · intro hbad
    have h2 := (manifestOf_err b.label).2 hbad
    unfold Fin at hfin
    split at hfin
    · rename_i st err heq
      rw [heq] at h2
      dsimp only at h2
      rw [hfin.1]
      show st = .invalid
      rw [h2] at heq
      exact manifestFile_err heq
    · rename_i m st err heq
      exact absurd ((manifestOf_iff _ m).1 ⟨st, err, heq⟩) (hbad.1 m)
  · intro hnu hnb
    have hmis : repo.manifest b.label = .missing ∧ (repo.current = some b.label ∨ repo.copy b.label = .missing) := by
      by_contra hcon
      exact hnb ⟨hnu, hcon⟩
    unfold Fin at hfin
    split at hfin
    · rename_i st err heq
      rw [hfin.1]
      show st = _
      unfold manifestOf manifestFile at heq
      rw [hmis.1] at heq
      by_cases hcur : repo.current = some b.label
      · simp [hcur] at heq
        rw [if_pos hcur]; exact heq.1.symm
      · rcases hmis.2 with h | h
        · exact absurd h hcur
        · simp [hcur, h] at heq
          rw [if_neg hcur]; exact heq.1.symm
    · rename_i m st err heq
      exact absurd ((manifestOf_iff _ m).1 ⟨st, err, heq⟩) (hnu m)

end Verif.Verify
