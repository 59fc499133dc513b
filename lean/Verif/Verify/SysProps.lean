import Verif.Verify.BackProps

/-!
# C63, C64, C65: what holds after any sequence of events
-/

namespace Verif.Verify

open Verif.Wal

def Job.isWal : Job → Bool
  | .wal _ _ => true
  | .bak _ _ => false

/-- The archive ids and backups the command works on, and the size of the segments of each archive id. -/
structure Setting (repo : Repo) (sz : Str → Nat) (ids bs : List Str) : Prop where
  nodup : ids.Nodup
  backups : bs.Nodup
  wal : ∀ id ∈ ids, WalWF repo id (sz id)

structure SInv (repo : Repo) (out : Check → Outcome) (sz : Str → Nat) (ids bs : List Str) (inHistory : Bool) (s : Sys) : Prop where
  arch : AInv repo sz ids s.jd (s.handed.filter Job.isWal)
  back : BInv repo bs s.handed s.done s.flight s.jd
  perm : s.handed.Perm (s.flight ++ s.done.map (·.1))
  outc : ∀ d ∈ s.done, d.2 = out d.1.check
  good : ∀ r ∈ s.jd.archRes, Good s.done r
  from' : ∀ j ∈ s.handed, FromFile repo j
  phase : s.jd.backupProcessing = true → s.jd.archiveIds = []
  file : ∀ j o, .file j o ∈ s.jd.errs ↔ (j, o) ∈ s.done ∧ o ≠ .ok ∧ countsAsError j o = true
  history : .history ∈ s.jd.errs ↔ inHistory = false

variable {repo : Repo} {out : Check → Outcome} {sz : Str → Nat} {ids bs : List Str} {inHistory : Bool}

theorem start_inv (h : Setting repo sz ids bs) : SInv repo out sz ids bs inHistory (start ids bs inHistory) where
  arch := by
    have := AInv.idle (repo := repo) (sz := sz) (ids := ids) (jd := (start ids bs inHistory).jd) [] rfl rfl rfl (by
      intro i s; cases inHistory <;> simp [start])
    simpa [start] using this
  back := .idle [] rfl .nil (by simp [start]) (by cases inHistory <;> simp [ErrB, start])
  perm := by simp [start]
  outc := by simp [start]
  good := by simp [start]
  from' := by simp [start]
  phase := by simp [start]
  file := by cases inHistory <;> simp [start]
  history := by cases inHistory <;> simp [start]

/-! ## Asking for a job -/

theorem AInv.congr {jd jd' : JobData} {H : List Job} (h : AInv repo sz ids jd H) (h1 : jd'.archiveIds = jd.archiveIds)
    (h2 : jd'.walPaths = jd.walPaths) (h3 : jd'.walFiles = jd.walFiles) (h4 : jd'.archRes.map strip = jd.archRes.map strip)
    (h5 : ∀ i s, .dup i s ∈ jd'.errs ↔ .dup i s ∈ jd.errs) : AInv repo sz ids jd' H := by
  cases h with
  | idle D hi hf hr he =>
    exact .idle D (by rw [h1]; exact hi) (by rw [h3]; exact hf) (by rw [h4]; exact hr) (fun i s => (h5 i s).trans (he i s))
  | busy D id rest J r hi ha hr hP hne he =>
    refine .busy D id rest J r hi (by rw [h1]; exact ha) (by rw [h4]; exact hr) ?_ (by rw [h2]; exact hne)
      (fun i hi s => (h5 i s).trans (he i hi s))
    rw [h2, h3]
    exact hP.congr rfl (fun s => h5 id s)

theorem BInv.congr {H H' : List Job} {done : List (Job × Outcome)} {flight flight' : List Job} {jd jd' : JobData}
    (h : BInv repo bs H done flight jd) (hs : SameBackup jd jd')
    (he1 : ∀ l, .manifest l ∈ jd'.errs ↔ .manifest l ∈ jd.errs) (he2 : ∀ l, .empty l ∈ jd'.errs ↔ .empty l ∈ jd.errs)
    (hH : ∀ x ∈ H, x ∈ H') (hnew : ∀ x ∈ H', x ∈ H ∨ x.label = none) (hf : ∀ l, inflight flight' l = inflight flight l) :
    BInv repo bs H' done flight' jd' := by
  obtain ⟨s1, s2, s3, s4, s5⟩ := hs
  have hfin : ∀ {D : List Str} {A : List BackRes}, List.Forall₂ (Fin repo D H done flight) D A →
      List.Forall₂ (Fin repo D H' done flight') D A := by
    intro D A hA
    refine forall2_imp hA fun a _ b hb => hb.mono (fun _ h => h) hH ?_ (hf a)
    intro x hx
    rcases hnew x hx with h | h
    · exact .inl h
    · right; rw [h]; simp
  have herr : ∀ {D : List Str}, ErrB repo D jd.errs → ErrB repo D jd'.errs := fun h =>
    ⟨fun l => (he1 l).trans (h.1 l), fun l => (he2 l).trans (h.2 l)⟩
  cases h with
  | idle D hi hr hHD he =>
    refine .idle D (by rw [s1]; exact hi) (by rw [s4]; exact hfin hr) ?_ (herr he)
    intro j hj l hl
    rcases hnew j hj with h | h
    · exact hHD j h l hl
    · rw [h] at hl; simp at hl
  | busy D label rest m pf A res hi hb hm hu hf' hne hr hA hg hHD he =>
    refine .busy D label rest m pf A res hi (by rw [s1]; exact hb) (by rw [s2]; exact hm) hu (by rw [s3]; exact hf')
      (by rw [s3]; exact hne) (by rw [s4]; exact hr) (hfin hA) (hg.mono (fun _ h => h) hH (hf label)) ?_ (herr he)
    intro j hj l hl
    rcases hnew j hj with h | h
    · exact hHD j h l hl
    · rw [h] at hl; simp at hl

theorem mem_append_dups {errs dups : List Cause} (h : ∀ c ∈ dups, ∃ i s, c = .dup i s) {c : Cause} (hc : ∀ i s, c ≠ .dup i s) :
    c ∈ errs ++ dups ↔ c ∈ errs := by
  simp only [List.mem_append]
  constructor
  · rintro (h' | h')
    · exact h'
    · obtain ⟨i, s, e⟩ := h c h'
      exact absurd e (hc i s)
  · exact .inl

theorem mem_append_back {errs new : List Cause} (h : ∀ c ∈ new, ∃ l, c = .manifest l ∨ c = .empty l) {c : Cause}
    (hc : ∀ l, c ≠ .manifest l ∧ c ≠ .empty l) : c ∈ errs ++ new ↔ c ∈ errs := by
  simp only [List.mem_append]
  constructor
  · rintro (h' | h')
    · exact h'
    · obtain ⟨l, e⟩ := h c h'
      rcases e with e | e
      · exact absurd e (hc l).1
      · exact absurd e (hc l).2
  · exact .inl

/-- The part of an event in which the callback is called for the archive. -/
theorem archive_step (hset : Setting repo sz ids bs) {s : Sys} (h : SInv repo out sz ids bs inHistory s)
    (hp : s.jd.backupProcessing = false) :
    ∃ job jd', archive repo s.jd = .ok (job, jd') ∧ (∀ j ∈ job, ∃ i c, j = Job.wal i c) ∧ (job = none → jd'.archiveIds = []) ∧
      SInv repo out sz ids bs inHistory { s with
        jd := { jd' with backupProcessing := jd'.archiveIds.isEmpty }, flight := s.flight ++ job.toList, handed := s.handed ++ job.toList } := by
  obtain ⟨job, jd', dups, e, h1, h2, h3, ⟨h4, h5⟩, h6, h7⟩ := idsLoop_inv hset.wal hset.nodup s.jd.archiveIds s.jd _ h.arch
  have hfw : (s.handed ++ job.toList).filter Job.isWal = s.handed.filter Job.isWal ++ job.toList := by
    rw [List.filter_append]
    congr 1
    cases job with
    | none => rfl
    | some j =>
      obtain ⟨i, c, rfl⟩ := h6 j rfl
      rfl
  have hlab : ∀ j ∈ job.toList, j.label = none := by
    intro j hj
    obtain ⟨i, c, rfl⟩ := h6 j (by simpa using hj)
    rfl
  refine ⟨job, jd', e, h6, h2, ?_⟩
  constructor
  · rw [hfw]
    exact h1.congr rfl rfl rfl rfl (fun _ _ => Iff.rfl)
  · have hb := h.back.congr (jd' := jd') (H' := s.handed ++ job.toList) (flight' := s.flight ++ job.toList) h3
      (fun l => by rw [h4]; exact mem_append_dups h5 (by simp))
      (fun l => by rw [h4]; exact mem_append_dups h5 (by simp))
      (fun x hx => List.mem_append_left _ hx)
      (fun x hx => (List.mem_append.1 hx).imp id (hlab x))
      (fun l => inflight_append _ _ _ (fun j hj => by rw [hlab j (by simpa using hj)]; simp))
    cases hb with
    | idle D hi hr hHD he => exact .idle D hi hr hHD he
    | busy D label rest m pf A res hi hb hm hu hf hne hr hA hg hHD he =>
      exact .busy D label rest m pf A res hi hb hm hu hf hne hr hA hg hHD he
  · show (s.handed ++ job.toList).Perm ((s.flight ++ job.toList) ++ s.done.map (·.1))
    refine (h.perm.append_right _).trans ?_
    rw [List.append_assoc, List.append_assoc]
    exact List.Perm.append_left _ List.perm_append_comm
  · exact h.outc
  · refine h7 s.done ?_ h.good
    intro d hd i c hc
    refine List.mem_filter.2 ⟨h.perm.mem_iff.2 (List.mem_append_right _ (List.mem_map_of_mem hd)), ?_⟩
    rw [hc]; rfl
  · intro j hj
    rcases List.mem_append.1 hj with hj | hj
    · exact h.from' j hj
    · obtain ⟨i, c, rfl⟩ := h6 j (by simpa using hj)
      intro l c' hl; cases hl
  · intro hb
    simpa using hb
  · intro j o
    show Cause.file j o ∈ jd'.errs ↔ _
    rw [h4, mem_append_dups h5 (by simp)]
    exact h.file j o
  · show Cause.history ∈ jd'.errs ↔ _
    rw [h4, mem_append_dups h5 (by simp)]
    exact h.history

/-- The part of an event in which the callback is called for the backups. -/
theorem backup_step (hset : Setting repo sz ids bs) {s : Sys} (h : SInv repo out sz ids bs inHistory s) :
    let x := backup repo s.jd
    SInv repo out sz ids bs inHistory { s with jd := x.2, flight := s.flight ++ x.1.toList, handed := s.handed ++ x.1.toList } ∧
      (x.1 = none → x.2.backups = []) ∧ x.2.archiveIds = s.jd.archiveIds := by
  intro x
  obtain ⟨h1, h2, ⟨s1, s2, s3, s4, s5⟩, ⟨new, h4, h5⟩, h6⟩ := backupsLoop_inv hset.backups (fun j hj => h.perm.mem_iff.2 (List.mem_append_left _ hj))
    (fun d hd => h.perm.mem_iff.2 (List.mem_append_right _ (List.mem_map_of_mem hd))) s.jd.backups s.jd h.back
  have hfw : (s.handed ++ x.1.toList).filter Job.isWal = s.handed.filter Job.isWal := by
    rw [List.filter_append, List.append_right_eq_self, List.filter_eq_nil_iff]
    intro j hj
    obtain ⟨⟨l, c, rfl⟩, -⟩ := h6 j (by simpa using hj : j ∈ x.1)
    simp [Job.isWal]
  refine ⟨?_, h2, s1⟩
  constructor
  · rw [hfw]
    refine h.arch.congr s1 s2 s3 (congrArg _ s4) ?_
    intro i t
    show Cause.dup i t ∈ (backupsLoop repo s.jd.backups s.jd).2.errs ↔ _
    rw [h4, mem_append_back h5 (by simp)]
  · exact h1
  · show (s.handed ++ x.1.toList).Perm ((s.flight ++ x.1.toList) ++ s.done.map (·.1))
    refine (h.perm.append_right _).trans ?_
    rw [List.append_assoc, List.append_assoc]
    exact List.Perm.append_left _ List.perm_append_comm
  · exact h.outc
  · show ∀ r ∈ (backupsLoop repo s.jd.backups s.jd).2.archRes, _
    rw [s4]
    exact h.good
  · intro j hj
    rcases List.mem_append.1 hj with hj | hj
    · exact h.from' j hj
    · exact (h6 j (by simpa using hj : j ∈ x.1)).2
  · intro hb
    show (backupsLoop repo s.jd.backups s.jd).2.archiveIds = []
    rw [s1]
    refine h.phase ?_
    rw [← s5]; exact hb
  · intro j o
    show Cause.file j o ∈ (backupsLoop repo s.jd.backups s.jd).2.errs ↔ _
    rw [h4, mem_append_back h5 (by simp)]
    exact h.file j o
  · show Cause.history ∈ (backupsLoop repo s.jd.backups s.jd).2.errs ↔ _
    rw [h4, mem_append_back h5 (by simp)]
    exact h.history

/-- Asking for a job: no error, and if there is no job then nothing is left. -/
theorem ask_inv (hset : Setting repo sz ids bs) {s : Sys} (h : SInv repo out sz ids bs inHistory s) :
    ∃ job jd', callback repo s.jd = .ok (job, jd') ∧
      SInv repo out sz ids bs inHistory { s with jd := jd', flight := s.flight ++ job.toList, handed := s.handed ++ job.toList } ∧
      (job = none → jd'.archiveIds = [] ∧ jd'.backups = []) := by
  have hnil : ∀ {s : Sys} {jd : JobData}, ({ s with jd := jd, flight := s.flight ++ (none : Option Job).toList, handed := s.handed ++ (none : Option Job).toList } : Sys) = { s with jd := jd } := by
    intro s jd; simp
  cases hp : s.jd.backupProcessing with
  | true =>
    obtain ⟨h1, h2, h3⟩ := backup_step hset h
    refine ⟨(backup repo s.jd).1, (backup repo s.jd).2, ?_, h1, fun hn => ⟨h3.trans (h.phase hp), h2 hn⟩⟩
    unfold callback
    simp only [hp, if_true, bind, Except.bind, pure, Except.pure]
    rw [if_pos ⟨trivial, trivial⟩]
  | false =>
    obtain ⟨job, jd', e, hw, hnone, hs⟩ := archive_step hset h hp
    cases job with
    | some j =>
      refine ⟨some j, { jd' with backupProcessing := jd'.archiveIds.isEmpty }, ?_, hs, by simp⟩
      unfold callback
      simp only [hp, Bool.false_eq_true, if_false, e]
      simp only [bind, Except.bind, pure, Except.pure]
      rw [if_neg (by simp)]
    | none =>
      have ha := hnone rfl
      rw [hnil] at hs
      obtain ⟨h1, h2, h3⟩ := backup_step hset hs
      refine ⟨(backup repo { jd' with backupProcessing := jd'.archiveIds.isEmpty }).1,
        (backup repo { jd' with backupProcessing := jd'.archiveIds.isEmpty }).2, ?_, h1, fun hn => ⟨h3.trans ha, h2 hn⟩⟩
      unfold callback
      simp only [hp, Bool.false_eq_true, if_false, e]
      simp only [bind, Except.bind, pure, Except.pure]
      rw [if_pos ⟨by rw [ha]; rfl, trivial⟩]

/-! ## Completing a job -/

theorem map_setFirst {α β : Type} (g : α → β) (p : α → Bool) (f : α → α) (h : ∀ x, g (f x) = g x) : ∀ (l : List α),
    (setFirst p f l).map g = l.map g := by
  intro l
  induction l with
  | nil => rfl
  | cons x l ih =>
    rw [setFirst]
    split
    · simp [h]
    · simp [ih]

theorem addInvalid_strip (name : Str) (o : Outcome) (s : Str) (l : List WalRange) :
    (addInvalid name o s l).map (fun x => { x with invalid := [] }) = l.map (fun x => { x with invalid := [] }) := by
  induction l with
  | nil => rfl
  | cons x l ih =>
    rw [addInvalid]
    split
    · simp
    · simp [ih]

theorem AInv.runs (hset : Setting repo sz ids bs) {jd : JobData} {H : List Job} (h : AInv repo sz ids jd H) {r : ArchRes}
    (hr : r ∈ jd.archRes) : ∃ u, StrictAsc u ∧ Runs (sz r.id) u (r.ranges.map fun x => (x.start, x.stop)) ∧
      ∀ c, Job.wal r.id c ∈ H → jobSeg (.wal r.id c) ∈ u := by
  have hfin : ∀ {i : Str} {errs : List Cause}, i ∈ ids → strip r = final repo sz i →
      (∀ s, .dup i s ∈ errs ↔ DupIn repo i (repo.paths i) s) → r.id = i ∧
      ∃ u, StrictAsc u ∧ Runs (sz i) u (r.ranges.map fun x => (x.start, x.stop)) ∧
        ∀ j ∈ allJobs repo sz i, jobSeg j ∈ u := by
    intro i errs hi hs he
    refine ⟨by rw [← strip_id, hs]; exact after_id _ _ _ _, ?_⟩
    exact (PInv.between (repo := repo) (size := sz i) (id := i) (before := repo.paths i) (paths := []) (by simp) hs he).runs
      (hset.wal i hi)
  cases h with
  | idle D hi hf hres he =>
    have : strip r ∈ D.map (final repo sz) := by rw [← hres]; exact List.mem_map_of_mem hr
    obtain ⟨i, hiD, e⟩ := List.mem_map.1 this
    obtain ⟨rfl, u, h1, h2, h3⟩ := hfin (errs := jd.errs) (by rw [hi]; simp [hiD]) e.symm (fun s => by rw [he]; simp [hiD])
    refine ⟨u, h1, h2, ?_⟩
    intro c hc
    obtain ⟨i', hi', hj⟩ := List.mem_flatMap.1 hc
    have := allJobs_id hj
    subst this
    exact h3 _ hj
  | busy D id rest J r0 hi ha hres hP hne he =>
    have hnot : id ∉ D := by
      intro hm
      have hnd := hset.nodup
      rw [hi] at hnd
      exact (List.nodup_append.1 hnd).2.2 id hm id (by simp) rfl
    have : strip r ∈ D.map (final repo sz) ++ [strip r0] := by rw [← hres]; exact List.mem_map_of_mem hr
    rcases List.mem_append.1 this with this | this
    · obtain ⟨i, hiD, e⟩ := List.mem_map.1 this
      have hii : i ≠ id := by rintro rfl; exact hnot hiD
      obtain ⟨rfl, u, h1, h2, h3⟩ := hfin (errs := jd.errs) (by rw [hi]; simp [hiD]) e.symm (fun s => by rw [he _ hii]; simp [hiD])
      refine ⟨u, h1, h2, ?_⟩
      intro c hc
      rcases List.mem_append.1 hc with hc | hc
      · obtain ⟨i', hi', hj⟩ := List.mem_flatMap.1 hc
        have := allJobs_id hj
        subst this
        exact h3 _ hj
      · exact absurd (hP.job_id hc) hii
    · have hs := List.mem_singleton.1 this
      have hP' := hP.congr (r' := r) (errs' := jd.errs) hs (fun _ => Iff.rfl)
      have hid := hP'.id_eq
      subst hid
      obtain ⟨u, h1, h2, h3⟩ := hP'.runs (hset.wal _ (by rw [hi]; simp))
      refine ⟨u, h1, h2, ?_⟩
      intro c hc
      rcases List.mem_append.1 hc with hc | hc
      · obtain ⟨i', hi', hj⟩ := List.mem_flatMap.1 hc
        have := allJobs_id hj
        subst this
        exact absurd hi' hnot
      · exact h3 _ hc

theorem AInv.ids_nodup (hset : Setting repo sz ids bs) {jd : JobData} {H : List Job} (h : AInv repo sz ids jd H) :
    (jd.archRes.map (·.id)).Nodup := by
  have hfid : ∀ i, (final repo sz i).id = i := fun i => after_id _ _ _ _
  have hmap : ∀ (l : List ArchRes), l.map (·.id) = (l.map strip).map (·.id) := by
    intro l; simp [List.map_map, Function.comp_def, strip_id]
  cases h with
  | idle D hi hf hres he =>
    rw [hmap, hres, List.map_map]
    have hnd := hset.nodup
    rw [hi] at hnd
    simpa [Function.comp_def, hfid] using (List.nodup_append.1 hnd).1
  | busy D id rest J r0 hi ha hres hP hne he =>
    rw [hmap, hres, List.map_append, List.map_map]
    have hnd := hset.nodup
    rw [hi, show D ++ id :: rest = (D ++ [id]) ++ rest by simp] at hnd
    simpa [Function.comp_def, hfid, strip_id, hP.id_eq] using (List.nodup_append.1 hnd).1

/-- Changing the first element with a key changes all elements with the key, if keys are different. -/
theorem setFirst_eq_map {α : Type} (key : α → Str) (k : Str) (f : α → α) : ∀ (l : List α), (l.map key).Nodup →
    setFirst (fun x => decide (key x = k)) f l = l.map fun x => if key x = k then f x else x := by
  intro l
  induction l with
  | nil => intro _; rfl
  | cons x l ih =>
    intro h
    simp only [List.map_cons, List.nodup_cons] at h
    rw [setFirst, List.map_cons]
    by_cases hx : key x = k
    · rw [if_pos (by simpa using hx), if_pos hx]
      congr 1
      conv_lhs => rw [← List.map_id l]
      apply List.map_congr_left
      intro y hy
      rw [if_neg]
      · rfl
      · intro hy'
        apply h.1
        rw [hx, ← hy']
        exact List.mem_map_of_mem hy
    · rw [if_neg (by simpa using hx), if_neg hx, ih h.2]

/-- What the results say about the jobs, with one more job done. -/
theorem good_done (hset : Setting repo sz ids bs) {jd : JobData} {H : List Job} (h : AInv repo sz ids jd H)
    {done : List (Job × Outcome)} (hg : ∀ r ∈ jd.archRes, Good done r) (id : Str) (c : Check) (o : Outcome)
    (hj : Job.wal id c ∈ H) :
    ∀ r ∈ (complete jd (.wal id c) o).archRes, Good (done ++ [(.wal id c, o)]) r := by
  intro r hr
  unfold complete at hr
  dsimp only at hr
  rw [setFirst_eq_map (fun x : ArchRes => x.id) id _ _ (h.ids_nodup hset)] at hr
  obtain ⟨r0, hr0, e⟩ := List.mem_map.1 hr
  have hg0 := hg r0 hr0
  by_cases hid : r0.id = id
  · rw [if_pos hid] at e
    subst hid
    by_cases ho : o = .ok
    · rw [if_pos ho] at e
      subst e ho
      refine ⟨?_, ?_⟩
      · show r0.valid + 1 = validOf _ r0.id
        rw [hg0.1]
        simp [validOf]
      · intro x hx
        show x.invalid = invalidIn _ r0.id _ _
        rw [hg0.2 x hx]
        simp [invalidIn, badOf]
    · rw [if_neg ho] at e
      subst e
      refine ⟨?_, ?_⟩
      · show r0.valid = validOf _ r0.id
        rw [hg0.1]
        simp [validOf, ho]
      · intro x hx
        dsimp only at hx
        obtain ⟨u, hu, hruns, hmem⟩ := h.runs hset hr0
        rw [addInvalid_eq c.path o (seg (baseName c.path)) u _ hu hruns (hmem c hj)] at hx
        obtain ⟨x0, hx0, e⟩ := List.mem_map.1 hx
        show x.invalid = invalidIn _ r0.id _ _
        have hbad : badOf (done ++ [(Job.wal r0.id c, o)]) r0.id = badOf done r0.id ++ [(seg (baseName c.path), c.path, o)] := by
          simp [badOf, ho]
        have hx0i := hg0.2 x0 hx0
        by_cases hin : x0.start ≤ seg (baseName c.path) ∧ seg (baseName c.path) ≤ x0.stop
        · rw [if_pos hin] at e
          subst e
          show x0.invalid ++ [(c.path, o)] = invalidIn _ r0.id x0.start x0.stop
          rw [hx0i]
          simp [invalidIn, hbad, hin.1, hin.2]
        · rw [if_neg hin] at e
          subst e
          rw [hx0i]
          simp only [invalidIn, hbad, List.filter_append, List.map_append]
          have : (decide (x0.start ≤ seg (baseName c.path)) && decide (seg (baseName c.path) ≤ x0.stop)) = false := by
            simpa using hin
          simp [this]
  · rw [if_neg hid] at e
    subst e
    have hid' : id ≠ r0.id := fun h => hid h.symm
    refine ⟨?_, ?_⟩
    · rw [hg0.1]
      simp [validOf, hid']
    · intro x hx
      rw [hg0.2 x hx]
      simp [invalidIn, badOf, hid']

theorem good_done_bak {archRes : List ArchRes} {done : List (Job × Outcome)} (hg : ∀ r ∈ archRes, Good done r) (l : Str) (c : Check)
    (o : Outcome) : ∀ r ∈ archRes, Good (done ++ [(.bak l c, o)]) r := by
  intro r hr
  refine ⟨?_, ?_⟩
  · rw [(hg r hr).1]; simp [validOf]
  · intro x hx
    rw [(hg r hr).2 x hx]; simp [invalidIn, badOf]

/-! ### Backups -/

/-- What a job that is done changes in the result of its backup. -/
def finishRes (c : Check) (o : Outcome) (r : BackRes) : BackRes :=
  let r := if o = .ok then { r with totalValid := r.totalValid + 1 }
    else { r with status := .invalid, invalid := r.invalid ++ [(c.path, o)] }
  if r.totalVerify = r.totalManifest then { r with complete := true } else r

theorem bgood_finish {D : List Str} {H : List Job} {done : List (Job × Outcome)} {flight flight' : List Job} {label : Str}
    {m : VManifest} {pf : List VFile} {b : BackRes} (h : BGood D H done flight label m pf b) (c : Check) (o : Outcome)
    (hfl : inflight flight' label + 1 = inflight flight label) :
    BGood D H (done ++ [(.bak label c, o)]) flight' label m pf (finishRes c o b) := by
  unfold finishRes
  by_cases ho : o = .ok
  · subst ho
    simp only [if_true]
    have base : BGood D H (done ++ [(Job.bak label c, .ok)]) flight' label m pf { b with totalValid := b.totalValid + 1 } := by
      refine { h with
        count := by have := h.count; simp only at *; omega
        own := fun c' o' hd ho' => ?_
        sound := fun i hi => ?_ }
      · simp only [List.mem_append, List.mem_singleton, Prod.mk.injEq] at hd
        rcases hd with hd | ⟨-, hd⟩
        · exact h.own c' o' hd ho'
        · exact absurd hd ho'
      · obtain ⟨l, c', h1, h2⟩ := h.sound i hi
        exact ⟨l, c', List.mem_append_left _ h1, h2⟩
    split
    · rename_i ht
      exact { base with complete := fun _ => by have h1 := h.total; have h2 := h.manifest; omega }
    · exact base
  · simp only [if_neg ho]
    have base : BGood D H (done ++ [(Job.bak label c, o)]) flight' label m pf
        { b with status := .invalid, invalid := b.invalid ++ [(c.path, o)] } := by
      refine { h with
        count := by have := h.count; simp only [List.length_append, List.length_singleton] at *; omega
        own := fun c' o' hd ho' => ?_
        sound := fun i hi => ?_
        status := by simp }
      · simp only [List.mem_append, List.mem_singleton, Prod.mk.injEq] at hd
        rcases hd with hd | ⟨hd, rfl⟩
        · exact List.mem_append_left _ (h.own c' o' hd ho')
        · cases hd; simp
      · rcases List.mem_append.1 hi with hi | hi
        · obtain ⟨l, c', h1, h2⟩ := h.sound i hi
          exact ⟨l, c', List.mem_append_left _ h1, h2⟩
        · rw [List.mem_singleton.1 hi]
          exact ⟨label, c, by simp, ho, rfl⟩
    split
    · rename_i ht
      exact { base with complete := fun _ => by have h1 := h.total; have h2 := h.manifest; omega }
    · exact base

theorem BGood.other {D : List Str} {H : List Job} {done : List (Job × Outcome)} {flight flight' : List Job} {label : Str}
    {m : VManifest} {pf : List VFile} {b : BackRes} (h : BGood D H done flight label m pf b) (j : Job) (o : Outcome)
    (hj : j.label ≠ some label) (hfl : inflight flight' label = inflight flight label) :
    BGood D H (done ++ [(j, o)]) flight' label m pf b := by
  refine { h with
    count := by rw [hfl]; exact h.count
    own := fun c' o' hd ho' => ?_
    sound := fun i hi => ?_ }
  · simp only [List.mem_append, List.mem_singleton, Prod.mk.injEq] at hd
    rcases hd with hd | ⟨hd, -⟩
    · exact h.own c' o' hd ho'
    · rw [← hd] at hj; exact absurd rfl hj
  · obtain ⟨l, c', h1, h2⟩ := h.sound i hi
    exact ⟨l, c', List.mem_append_left _ h1, h2⟩

theorem Fin.other {D : List Str} {H : List Job} {done : List (Job × Outcome)} {flight flight' : List Job} {label : Str}
    {b : BackRes} (h : Fin repo D H done flight label b) (j : Job) (o : Outcome)
    (hj : j.label ≠ some label) (hfl : inflight flight' label = inflight flight label) :
    Fin repo D H (done ++ [(j, o)]) flight' label b := by
  unfold Fin at *
  split
  · rename_i heq
    simp only [heq] at h
    exact h
  · rename_i heq
    simp only [heq] at h
    split
    · rename_i he
      rw [if_pos he] at h
      exact h
    · rename_i he
      rw [if_neg he] at h
      exact h.other j o hj hfl

theorem Fin.finish {D : List Str} {H : List Job} {done : List (Job × Outcome)} {flight flight' : List Job} {label : Str}
    {b : BackRes} (h : Fin repo D H done flight label b) (c : Check) (o : Outcome) (hj : Job.bak label c ∈ H)
    (hfl : inflight flight' label + 1 = inflight flight label) :
    Fin repo D H (done ++ [(.bak label c, o)]) flight' label (finishRes c o b) := by
  unfold Fin at *
  split
  · rename_i heq
    simp only [heq] at h
    exact absurd rfl (h.2 _ hj)
  · rename_i heq
    simp only [heq] at h
    split
    · rename_i he
      rw [if_pos he] at h
      exact absurd rfl (h.2 _ hj)
    · rename_i he
      rw [if_neg he] at h
      exact bgood_finish h c o hfl

theorem forall2_map_right {α β γ : Type} {R : α → γ → Prop} (f : β → γ) {l : List α} {l' : List β}
    (h : List.Forall₂ (fun a b => R a (f b)) l l') : List.Forall₂ R l (l'.map f) := by
  induction h with
  | nil => exact .nil
  | cons h1 _ ih => exact .cons h1 ih

theorem forall2_labels {D : List Str} {H : List Job} {done : List (Job × Outcome)} {flight : List Job} {L : List Str} {A : List BackRes}
    (h : List.Forall₂ (Fin repo D H done flight) L A) : A.map (·.label) = L := by
  induction h with
  | nil => rfl
  | cons h1 _ ih => rw [List.map_cons, ih, h1.label_eq]

theorem cons_eraseIdx_perm {α : Type} : ∀ (l : List α) (i : Nat) (h : i < l.length), (l[i] :: l.eraseIdx i).Perm l := by
  intro l
  induction l with
  | nil => intro i h; simp at h
  | cons x l ih =>
    intro i h
    cases i with
    | zero => simp
    | succ i =>
      simp only [List.getElem_cons_succ, List.eraseIdx_cons_succ]
      exact (List.Perm.swap _ _ _).trans ((ih i (by simpa using h)).cons x)

theorem inflight_erase {flight : List Job} {i : Nat} {j : Job} (h : flight[i]? = some j) (l : Str) :
    inflight flight l = inflight (flight.eraseIdx i) l + if j.label = some l then 1 else 0 := by
  unfold inflight
  have hp : flight.Perm (j :: flight.eraseIdx i) := by
    obtain ⟨hi, e⟩ := List.getElem?_eq_some_iff.1 h
    rw [← e]
    exact (cons_eraseIdx_perm _ _ hi).symm
  rw [hp.countP_eq, List.countP_cons]
  simp

/-- The state of the backup part, with one more job done. -/
theorem back_done (hset : Setting repo sz ids bs) {H : List Job} {done : List (Job × Outcome)} {flight : List Job} {jd : JobData}
    (h : BInv repo bs H done flight jd) {i : Nat} {j : Job} (hi : flight[i]? = some j) (hj : j ∈ H) (o : Outcome) :
    BInv repo bs H (done ++ [(j, o)]) (flight.eraseIdx i) (complete jd j o) := by
  have herr : ∀ {D : List Str}, ErrB repo D jd.errs → ErrB repo D (complete jd j o).errs := by
    intro D he
    have : (complete jd j o).errs = if o ≠ .ok ∧ countsAsError j o then jd.errs ++ [.file j o] else jd.errs := by
      unfold complete; cases j <;> rfl
    rw [this]
    split
    · refine ⟨fun l => ?_, fun l => ?_⟩
      · rw [← he.1]; simp
      · rw [← he.2]; simp
    · exact he
  have hnot : ∀ {D : List Str} {label : Str} {rest : List Str}, bs = D ++ label :: rest → label ∉ D := by
    intro D label rest hi hm
    have hnd := hset.backups
    rw [hi] at hnd
    exact (List.nodup_append.1 hnd).2.2 label hm label (by simp) rfl
  cases j with
  | wal id c =>
    have hfl : ∀ l, inflight (flight.eraseIdx i) l = inflight flight l := by
      intro l
      have := inflight_erase hi l
      simp only [Job.label, reduceCtorEq, if_false] at this
      omega
    cases h with
    | idle D hi' hr hHD he =>
      exact .idle D hi' (forall2_imp hr fun a _ b hb => hb.other _ o (by simp [Job.label]) (hfl a)) hHD (herr he)
    | busy D label rest m pf A res hi' hb hm hu hf hne hr hA hg hHD he =>
      exact .busy D label rest m pf A res hi' hb hm hu hf hne hr
        (forall2_imp hA fun a _ b hb => hb.other _ o (by simp [Job.label]) (hfl a)) (hg.other _ o (by simp [Job.label]) (hfl label))
        hHD (herr he)
  | bak l c =>
    have hfl : ∀ a, a ≠ l → inflight (flight.eraseIdx i) a = inflight flight a := by
      intro a ha
      have := inflight_erase hi a
      rw [if_neg (by simpa [Job.label] using ha.symm)] at this
      omega
    have hfl' : inflight (flight.eraseIdx i) l + 1 = inflight flight l := by
      have := inflight_erase hi l
      simp only [Job.label, if_true] at this
      omega
    have hmap : ∀ {D : List Str} {A : List BackRes}, List.Forall₂ (Fin repo D H done flight) D A →
        List.Forall₂ (Fin repo D H (done ++ [(.bak l c, o)]) (flight.eraseIdx i)) D
          (A.map fun x => if x.label = l then finishRes c o x else x) := by
      intro D A hA
      refine forall2_map_right _ (forall2_imp hA ?_)
      intro a _ b hb
      have hbl := hb.label_eq
      by_cases hal : a = l
      · subst hal
        rw [if_pos hbl]
        exact hb.finish c o hj hfl'
      · rw [if_neg (by rw [hbl]; exact hal)]
        exact hb.other _ o (by simpa [Job.label] using fun h => hal h.symm) (hfl a hal)
    have hcomp : (complete jd (.bak l c) o).backRes = setFirst (fun r => decide (r.label = l)) (finishRes c o) jd.backRes := rfl
    cases h with
    | idle D hi' hr hHD he =>
      refine .idle D hi' ?_ hHD (herr he)
      rw [hcomp, setFirst_eq_map (fun x : BackRes => x.label)]
      · exact hmap hr
      · rw [forall2_labels hr]
        have hnd := hset.backups
        rw [hi'] at hnd
        exact (List.nodup_append.1 hnd).1
    | busy D label rest m pf A res hi' hb hm hu hf hne hr hA hg hHD he =>
      have hbr : (complete jd (.bak l c) o).backRes =
          (A.map fun x => if x.label = l then finishRes c o x else x) ++ [if res.label = l then finishRes c o res else res] := by
        rw [hcomp, setFirst_eq_map (fun x : BackRes => x.label), hr]
        · simp
        · rw [hr, List.map_append, forall2_labels hA]
          have hnd := hset.backups
          rw [hi', show D ++ label :: rest = (D ++ [label]) ++ rest by simp] at hnd
          simpa [hg.label_eq] using (List.nodup_append.1 hnd).1
      refine .busy D label rest m pf _ _ hi' hb hm hu hf hne hbr (hmap hA) ?_ hHD (herr he)
      have hbl := hg.label_eq
      by_cases hal : label = l
      · subst hal
        rw [if_pos hbl]
        exact bgood_finish hg c o hfl'
      · rw [if_neg (by rw [hbl]; exact hal)]
        exact hg.other _ o (by simpa [Job.label] using fun h => hal h.symm) (hfl label hal)

theorem finish_inv (hset : Setting repo sz ids bs) {s : Sys} (h : SInv repo out sz ids bs inHistory s) {i : Nat} {j : Job}
    (hi : s.flight[i]? = some j) :
    SInv repo out sz ids bs inHistory { s with
        jd := complete s.jd j (out j.check)
        flight := s.flight.eraseIdx i
        done := s.done ++ [(j, out j.check)] } := by
  have hjf : j ∈ s.flight := List.mem_of_getElem? hi
  have hjH : j ∈ s.handed := h.perm.mem_iff.2 (List.mem_append_left _ hjf)
  have herrs : (complete s.jd j (out j.check)).errs =
      if out j.check ≠ .ok ∧ countsAsError j (out j.check) then s.jd.errs ++ [.file j (out j.check)] else s.jd.errs := by
    unfold complete; cases j <;> rfl
  have hmem : ∀ c : Cause, (∀ j o, c ≠ .file j o) → (c ∈ (complete s.jd j (out j.check)).errs ↔ c ∈ s.jd.errs) := by
    intro c hc
    rw [herrs]
    split
    · simp [hc]
    · rfl
  constructor
  · refine h.arch.congr ?_ ?_ ?_ ?_ (fun i s => hmem _ (by simp))
    · unfold complete; cases j <;> rfl
    · unfold complete; cases j <;> rfl
    · unfold complete; cases j <;> rfl
    · cases j with
      | bak l c => rfl
      | wal id c =>
        unfold complete
        dsimp only
        apply map_setFirst
        intro r
        split
        · rfl
        · simp [strip, addInvalid_strip]
  · exact back_done hset h.back hi hjH _
  · show s.handed.Perm (s.flight.eraseIdx i ++ (s.done ++ [(j, out j.check)]).map (·.1))
    refine h.perm.trans ?_
    obtain ⟨hlt, e⟩ := List.getElem?_eq_some_iff.1 hi
    have hp : (j :: s.flight.eraseIdx i).Perm s.flight := by
      rw [← e]; exact cons_eraseIdx_perm _ _ hlt
    refine (hp.symm.append_right _).trans ?_
    simp only [List.map_append, List.map_cons, List.map_nil, List.cons_append, ← List.append_assoc]
    exact (List.perm_append_singleton j _).symm
  · intro d hd
    rcases List.mem_append.1 hd with hd | hd
    · exact h.outc d hd
    · rw [List.mem_singleton.1 hd]
  · cases hj : j with
    | wal id c =>
      subst hj
      exact good_done hset h.arch h.good id c _ (List.mem_filter.2 ⟨hjH, rfl⟩)
    | bak l c => exact good_done_bak h.good l c _
  · exact h.from'
  · intro hb
    have : (complete s.jd j (out j.check)).archiveIds = s.jd.archiveIds := by unfold complete; cases j <;> rfl
    show (complete s.jd j (out j.check)).archiveIds = []
    rw [this]
    refine h.phase ?_
    have : (complete s.jd j (out j.check)).backupProcessing = s.jd.backupProcessing := by unfold complete; cases j <;> rfl
    rw [← this]; exact hb
  · intro j' o'
    show Cause.file j' o' ∈ (complete s.jd j (out j.check)).errs ↔ _
    rw [herrs]
    split
    · rename_i hc
      simp only [List.mem_append, List.mem_singleton, Cause.file.injEq, Prod.mk.injEq, h.file]
      constructor
      · rintro (⟨h1, h2⟩ | ⟨rfl, rfl⟩)
        · exact ⟨.inl h1, h2⟩
        · exact ⟨.inr ⟨rfl, rfl⟩, hc⟩
      · rintro ⟨h1 | h1, h2⟩
        · exact .inl ⟨h1, h2⟩
        · exact .inr h1
    · rename_i hc
      rw [h.file]
      simp only [List.mem_append, List.mem_singleton, Prod.mk.injEq]
      constructor
      · rintro ⟨h1, h2⟩; exact ⟨.inl h1, h2⟩
      · rintro ⟨h1 | ⟨rfl, rfl⟩, h2⟩
        · exact ⟨h1, h2⟩
        · exact absurd h2 hc
  · show Cause.history ∈ (complete s.jd j (out j.check)).errs ↔ _
    rw [hmem _ (by simp)]
    exact h.history

theorem run_inv (hset : Setting repo sz ids bs) (es : List Event) : ∀ {s : Sys}, SInv repo out sz ids bs inHistory s →
    ∃ s', run repo out s es = .ok s' ∧ SInv repo out sz ids bs inHistory s' := by
  induction es with
  | nil => intro s h; exact ⟨s, rfl, h⟩
  | cons e es ih =>
    intro s h
    have hstep : ∃ s1, step repo out s e = .ok s1 ∧ SInv repo out sz ids bs inHistory s1 := by
      cases e with
      | ask =>
        obtain ⟨job, jd', e1, h1, -⟩ := ask_inv hset h
        refine ⟨_, ?_, h1⟩
        rw [step, e1]; rfl
      | finish i =>
        cases hi : s.flight[i]? with
        | none => exact ⟨s, by rw [step, hi], h⟩
        | some j => exact ⟨_, by rw [step, hi], finish_inv hset h hi⟩
    obtain ⟨s1, e1, h1⟩ := hstep
    obtain ⟨s2, e2, h2⟩ := ih h1
    refine ⟨s2, ?_, h2⟩
    rw [run, e1]
    exact e2

end Verif.Verify
