import Verif.Restore.CrashProps

/-! # C44: a partially restored cluster cannot be started -/

namespace Verif.Restore.Crash

open Verif Verif.Fs
open Verif.Manifest (pgdataZ pgTblspcZ)
open Verif.Restore.Clean (controlZ globalNameZ manifestFileZ autoConfZ recSignalZ stbSignalZ recConfZ)

/-! ## Programs -/

theorem run_append {st st' : St} {a b : List Node} (h : Run st (a ++ b) st') : Run st a st' ∨ ∃ s, Done st a s ∧ Run s b st' := by
  induction a generalizing st with
  | nil => exact .inr ⟨st, .nil st, h⟩
  | cons n a ih =>
    rw [List.cons_append] at h
    cases h with
    | stop => exact .inl (.stop _ _)
    | here hn hs => exact .inl (.here hn hs)
    | next hn hf hr =>
      rcases ih hr with h1 | ⟨s, h1, h2⟩
      · exact .inl (.next hn hf h1)
      · exact .inr ⟨s, .next hn hf h1, h2⟩

theorem done_append {st st' : St} {a b : List Node} (h : Done st (a ++ b) st') : ∃ s, Done st a s ∧ Done s b st' := by
  induction a generalizing st with
  | nil => exact ⟨st, .nil st, h⟩
  | cons n a ih =>
    rw [List.cons_append] at h
    cases h with
    | next hn hf hr =>
      obtain ⟨s, h1, h2⟩ := ih hr
      exact ⟨s, .next hn hf h1, h2⟩

theorem done_run {st st' : St} {a : List Node} (h : Done st a st') : Run st a st' := by
  induction h with
  | nil => exact .stop _ _
  | next hn hf _ ih => exact .next hn hf ih

/-- The file or directory may be removed by the clean phase. -/
def Removable (c : Cfg) (p : Path) : Prop := ∃ t ∈ c.targets, ∃ r, r ≠ [] ∧ p = r ++ t

/-- A part that leaves all files closed and synced, does not make `pg_control` and removes only what may be removed. -/
structure Tame (c : Cfg) (n : Node) : Prop where
  ok : ∀ st tr, B st → n st tr → ∀ s, full st tr = some s → B s
  quiet : ∀ st tr, n st tr → ∀ e ∈ tr, c.control ∉ makes e.2
  dirs : ∀ st tr, n st tr → ∀ e ∈ tr, ∀ p, e.2 = .rmdir p → Removable c p

section
variable {c : Cfg}

theorem tame_done {ns : List Node} (ht : ∀ n ∈ ns, Tame c n) {st st' : St} (h : Done st ns st') (hb : B st) : B st' := by
  induction h with
  | nil => exact hb
  | next hn hf _ ih => exact ih (fun m hm => ht m (List.mem_cons_of_mem _ hm)) ((ht _ (List.mem_cons_self ..)).ok _ _ hb hn _ hf)

theorem tame_gone {ns : List Node} (ht : ∀ n ∈ ns, Tame c n) {st st' : St} (h : Run st ns st') (hg : Gone st c.control) : Gone st' c.control := by
  induction h with
  | stop => exact hg
  | here hn hs => exact stops_gone hg ((ht _ (List.mem_cons_self ..)).quiet _ _ hn) hs
  | next hn hf _ ih =>
    exact ih (fun m hm => ht m (List.mem_cons_of_mem _ hm)) (stops_gone hg ((ht _ (List.mem_cons_self ..)).quiet _ _ hn) (full_stops hf))

theorem tame_fixed {ns : List Node} (ht : ∀ n ∈ ns, Tame c n) {st st' : St} {p : Path} (hp : ¬ Removable c p) (h : Run st ns st') (hg : Fixed st p) :
    Fixed st' p := by
  induction h with
  | stop => exact hg
  | here hn hs => exact stops_fixed hg (fun e he hx => hp ((ht _ (List.mem_cons_self ..)).dirs _ _ hn e he p hx)) hs
  | next hn hf _ ih =>
    exact ih (fun m hm => ht m (List.mem_cons_of_mem _ hm))
      (stops_fixed hg (fun e he hx => hp ((ht _ (List.mem_cons_self ..)).dirs _ _ hn e he p hx)) (full_stops hf))

end

/-! ## What is kept -/

/-- A file stays as it is. -/
structure Kept (p : Path) (st st' : St) : Prop where
  cur : st'.fs.cur p = st.fs.cur p
  inode : ∀ i, st.fs.cur p = .file i → st'.fs.inode i = st.fs.inode i
  hist : st.fs.hist p = [st.fs.cur p] → st'.fs.hist p = [st.fs.cur p]

theorem Kept.refl (p : Path) (st : St) : Kept p st st := ⟨rfl, fun _ _ => rfl, id⟩

theorem Kept.trans {p : Path} {a b c : St} (h : Kept p a b) (g : Kept p b c) : Kept p a c where
  cur := g.cur.trans h.cur
  inode := fun i hi => (g.inode i (h.cur.trans hi)).trans (h.inode i hi)
  hist := fun hh => by
    have := g.hist (by rw [h.cur]; exact h.hist hh)
    rw [h.cur] at this
    exact this

section
variable {owner : Path → Nat} {st st' : St} {w : Nat → List Op} {tr : List Ev} {p : Path}

theorem stops_kept (hs : Stops st tr st') (hi : Inter w tr) (h : J owner st w) (hp : w (owner p) = []) : Kept p st st' := by
  induction hs generalizing w with
  | stop => exact Kept.refl _ _
  | @part st st' k d tr n ha =>
    have hw : ∃ ops, w k = .sys (.write d) :: ops := by
      cases hi with
      | step hw _ => exact ⟨_, hw⟩
    obtain ⟨ops, hw⟩ := hw
    have hk : owner p ≠ k := by
      rintro rfl
      rw [hp] at hw
      cases hw
    obtain ⟨i, pos, hf, ⟨e1, e2, e3⟩, hx, hfd⟩ := act_eff ha
    refine ⟨by rw [e1], ?_, by rw [e2]; exact id⟩
    intro j hj
    rw [hx, upd_other]
    rintro rfl
    obtain ⟨q, _, h1, h2, _⟩ := h.opened k j pos hf
    have := h.inj p q j hj h1
    subst this
    exact hk h2
  | @step st st1 st' k op tr ha _ ih =>
    have hw : ∃ ops, w k = op :: ops ∧ Inter (upd w k ops) tr := by
      cases hi with
      | step hw hi => exact ⟨_, hw, hi⟩
    obtain ⟨ops, hw, hi'⟩ := hw
    have hk : owner p ≠ k := by
      rintro rfl
      rw [hp] at hw
      cases hw
    obtain ⟨h1, h2⟩ := h.other hw ha hk
    have hnt : p ∉ touches op := fun hx => hk (h.own k op (hw ▸ List.mem_cons_self ..) p hx)
    have h3 := (act_frame ha hnt).2
    refine Kept.trans (b := st1) ⟨h1, h2, ?_⟩ (ih hi' (h.step hw ha) (by rw [upd_other _ _ hk]; exact hp))
    intro hh
    rcases h3 with h3 | h3
    · rw [h3, hh]
    · exact h3

/-- The main process leaves a file alone that it does not touch. -/
theorem main_kept {ops : List Op} (hb : B st) (hok : Ok none ops) (ht : ∀ op ∈ ops, p ∉ touches op)
    (hs : Stops st (ops.map fun op => (0, op)) st') : Kept p st st' := by
  refine stops_kept (owner := fun q => if q = p then 1 else 0) hs (inter_one ops 0) (hb.begin ?_ ?_) ?_
  · intro k
    by_cases hk : k = 0
    · subst hk
      rw [upd_same]
      exact hok
    · rw [upd_other _ _ hk]
      trivial
  · intro k op hop q hq
    by_cases hk : k = 0
    · subst hk
      rw [upd_same] at hop
      rw [if_neg]
      rintro rfl
      exact ht op hop hq
    · rw [upd_other _ _ hk] at hop
      cases hop
  · rw [if_pos rfl, upd_other _ _ (by decide)]

end

theorem main_eq (ops : List Sys) : main ops = (ops.map Op.sys).map fun op => (0, op) := by
  unfold main
  rw [List.map_map]
  rfl

/-! ## Writing of a file by the main process -/

theorem ok_map {ops : List Sys} (h : ∀ s ∈ ops, (∃ p, s = .mkdir p) ∨ (∃ p, s = .syncDir p) ∨ (∃ a b, s = .rename a b) ∨ (∃ p, s = .unlink p) ∨
    ∃ p t, s = .symlink p t) : Ok none (ops.map Op.sys) := by
  induction ops with
  | nil => trivial
  | cons s ops ih =>
    have ih' := ih fun x hx => h x (List.mem_cons_of_mem _ hx)
    rw [List.map_cons]
    rcases h s (List.mem_cons_self ..) with ⟨p, rfl⟩ | ⟨p, rfl⟩ | ⟨a, b, rfl⟩ | ⟨p, rfl⟩ | ⟨p, t, rfl⟩ <;> exact ih'

theorem ok_writeOps {w : Writer} (hs : w.syncFile = true) (fs : Fs) (bufs : List Str) : Ok none ((writeOps w fs bufs).map Op.sys) := by
  unfold writeOps
  rw [hs, if_pos rfl]
  rw [List.map_append]
  refine ok_append (ok_map ?_) ?_
  · intro s hm
    split at hm
    · obtain ⟨p, rfl, _⟩ := mkdirs_mem hm
      exact .inl ⟨p, rfl⟩
    · cases hm
  · rw [List.map_append, List.map_append]
    show Ok (some true) (List.map Op.sys (bufs.map .write) ++ List.map Op.sys _)
    refine ok_body (body := List.map Op.sys (bufs.map .write)) ?_ true _ ?_
    · intro op hop
      simp only [List.map_map, List.mem_map, Function.comp_apply] at hop
      obtain ⟨b, _, rfl⟩ := hop
      trivial
    · intro d
      have hrest : Ok none (List.map Op.sys ((if w.atomic then [Sys.rename w.tmp w.name] else []) ++ if w.syncPath then [Sys.syncDir w.dir] else [])) := by
        refine ok_map ?_
        intro s hm
        rcases List.mem_append.1 hm with hm | hm
        · split at hm
          · exact .inr (.inr (.inl ⟨_, _, List.mem_singleton.1 hm⟩))
          · cases hm
        · split at hm
          · exact .inr (.inl ⟨_, List.mem_singleton.1 hm⟩)
          · cases hm
      cases d <;> exact hrest

/-- The paths that the writing of a file uses. -/
theorem writeOps_touches {w : Writer} {fs : Fs} {bufs : List Str} {op : Op} (h : op ∈ (writeOps w fs bufs).map Op.sys) :
    (∀ p ∈ touches op, (w.createPath = true ∧ p <:+ w.dir) ∨ p = w.tmp ∨ (w.atomic = true ∧ p = w.name)) ∧ ∀ p, op ≠ .rmdir p := by
  obtain ⟨s, hs, rfl⟩ := List.mem_map.1 h
  refine ⟨?_, by simp⟩
  unfold writeOps at hs
  simp only [List.mem_append, List.mem_singleton] at hs
  rcases hs with hs | rfl | hs | hs | rfl | hs | hs
  · split at hs
    · rename_i hc
      obtain ⟨p, rfl, hp⟩ := mkdirs_mem hs
      intro q hq
      simp only [touches, List.mem_singleton] at hq
      subst hq
      exact .inl ⟨hc, hp⟩
    · cases hs
  · intro q hq
    simp only [touches, List.mem_singleton] at hq
    exact .inr (.inl hq)
  · obtain ⟨b, _, rfl⟩ := List.mem_map.1 hs
    simp [touches]
  · split at hs
    · rw [List.mem_singleton.1 hs]
      simp [touches]
    · cases hs
  · simp [touches]
  · split at hs
    · rename_i ha
      rw [List.mem_singleton.1 hs]
      intro q hq
      simp only [touches, List.mem_cons, List.not_mem_nil, or_false] at hq
      rcases hq with rfl | rfl
      · exact .inr (.inl rfl)
      · exact .inr (.inr ⟨ha, rfl⟩)
    · cases hs
  · split at hs
    · rw [List.mem_singleton.1 hs]
      simp [touches]
    · cases hs

theorem makes_touches {op : Op} {p : Path} (h : p ∈ makes op) : p ∈ touches op := by
  cases op with
  | rmdir q => simp [makes] at h
  | trunc n => simp [makes] at h
  | sys s =>
    cases s with
    | rename a b =>
      simp only [makes, List.mem_singleton] at h
      simp [touches, h]
    | _ => first | exact h | simp [makes] at h

/-! ## The parts of a restore -/

/-- What the configuration must look like: no path or link of the manifest and no other file is at the place of `pg_control` or its temporary
file, no two files are at the same place, and only the recovery files of PostgreSQL are written at the end. -/
structure Good (c : Cfg) : Prop where
  pg : c.pg ∈ c.targets
  targets : ∀ t ∈ c.targets, ¬ c.control <:+ t
  paths : ∀ p ∈ c.paths, p.place ≠ c.control ∧ ∀ l, p.link = some l → l.1 ≠ c.control
  links : ∀ l ∈ c.links, l.1 ≠ c.control
  files : ∀ n ∈ c.files, n ≠ controlMZ → c.place n ≠ c.control ∧ c.place n ≠ c.tmp
  apart : Apart c
  recovery : ∀ n ∈ c.recovery, n ∈ [recConfZ, autoConfZ, stbSignalZ, recSignalZ]

section
variable {c : Cfg}

theorem tmp_ne_control (c : Cfg) : c.tmp ≠ c.control := by
  unfold Cfg.tmp Cfg.control
  intro h
  have := (List.cons.inj h).1
  revert this
  decide

theorem filePath_ne (g : Good c) {n : Str} (hn : n ∈ c.files) : c.filePath n ≠ c.control := by
  unfold Cfg.filePath
  split
  · exact tmp_ne_control c
  · rename_i h
    exact (g.files n hn h).1

/-- The main process does these operations. -/
theorem tame_main {n : Node} (h : ∀ st tr, n st tr → ∃ ops : List Op, tr = ops.map (fun op => (0, op)) ∧ Ok none ops ∧
    (∀ op ∈ ops, c.control ∉ makes op) ∧ ∀ op ∈ ops, ∀ p, op = .rmdir p → Removable c p) : Tame c n where
  ok := fun st tr hb hn s hf => by
    obtain ⟨ops, rfl, h1, _⟩ := h st tr hn
    exact hb.one h1 hf
  quiet := fun st tr hn e he => by
    obtain ⟨ops, rfl, _, h2, _⟩ := h st tr hn
    obtain ⟨op, hop, rfl⟩ := List.mem_map.1 he
    exact h2 op hop
  dirs := fun st tr hn e he p hp => by
    obtain ⟨ops, rfl, _, _, h3⟩ := h st tr hn
    obtain ⟨op, hop, rfl⟩ := List.mem_map.1 he
    exact h3 op hop p hp

theorem tame_sys {n : Node} (h : ∀ st tr, n st tr → ∃ ops : List Sys, tr = main ops ∧ Ok none (ops.map Op.sys) ∧
    ∀ op ∈ ops, c.control ∉ makes (.sys op)) : Tame c n := by
  refine tame_main fun st tr hn => ?_
  obtain ⟨ops, h1, h2, h3⟩ := h st tr hn
  refine ⟨ops.map Op.sys, by rw [h1, main_eq], h2, ?_, ?_⟩
  · intro op hop
    obtain ⟨s, hs, rfl⟩ := List.mem_map.1 hop
    exact h3 s hs
  · intro op hop p hp
    obtain ⟨s, hs, rfl⟩ := List.mem_map.1 hop
    cases hp

theorem tame_removeControl (c : Cfg) : Tame c (removeControl c) := by
  refine tame_sys fun st tr hn => ?_
  unfold removeControl at hn
  split at hn
  · exact ⟨_, hn, trivial, by simp [makes]⟩
  · exact ⟨[], hn, trivial, by simp⟩

theorem ok_clean {ops : List Op} (h : ∀ op ∈ ops, CleanOp c op) : Ok none ops := by
  induction ops with
  | nil => trivial
  | cons op ops ih =>
    have ih' := ih fun x hx => h x (List.mem_cons_of_mem _ hx)
    have ho := h op (List.mem_cons_self ..)
    cases op with
    | rmdir p => exact ih'
    | trunc n => exact absurd ho id
    | sys s =>
      cases s with
      | unlink p => exact ih'
      | mkdir p => exact ih'
      | _ => exact absurd ho id

theorem tame_cleanTargets (g : Good c) : Tame c (cleanTargets c) := by
  refine tame_main fun st tr hn => ?_
  obtain ⟨ops, h1, h2⟩ := hn
  refine ⟨ops, h2, ok_clean h1, ?_, ?_⟩
  · intro op hop
    have ho := h1 op hop
    cases op with
    | rmdir p => simp [makes]
    | trunc n => exact absurd ho id
    | sys s =>
      cases s with
      | unlink p => simp [makes]
      | mkdir p =>
        obtain ⟨t, ht, hp⟩ := ho
        simp only [makes, List.mem_singleton]
        rintro rfl
        exact g.targets t ht hp
      | _ => exact absurd ho id
  · intro op hop p hp
    subst hp
    exact h1 _ hop

theorem tame_buildPath (g : Good c) {p : PathAt} (hp : p ∈ c.paths) : Tame c (buildPath p) := by
  refine tame_sys fun st tr hn => ?_
  unfold buildPath at hn
  split at hn
  · exact ⟨[], hn, trivial, by simp⟩
  · split at hn
    · rename_i l dest hl
      split at hn
      · refine ⟨_, hn, trivial, ?_⟩
        simp only [List.mem_singleton, forall_eq, makes]
        exact fun h => (g.paths p hp).2 _ hl h.symm
      · exact ⟨[], hn, trivial, by simp⟩
    · split at hn
      · refine ⟨_, hn, trivial, ?_⟩
        simp only [List.mem_singleton, forall_eq, makes]
        exact fun h => (g.paths p hp).1 h.symm
      · exact ⟨[], hn, trivial, by simp⟩

theorem tame_buildLink (g : Good c) {l : Path × Str} (hl : l ∈ c.links) : Tame c (buildLink l) := by
  refine tame_sys fun st tr hn => ?_
  unfold buildLink at hn
  split at hn
  · refine ⟨_, hn, trivial, ?_⟩
    simp only [List.mem_singleton, forall_eq, makes]
    exact fun h => g.links l hl h.symm
  · exact ⟨[], hn, trivial, by simp⟩

theorem tame_writer {w : Writer} (hs : w.syncFile = true) (h1 : ∀ p, p <:+ w.dir → w.createPath = true → p ≠ c.control) (h2 : w.tmp ≠ c.control)
    (h3 : w.atomic = true → w.name ≠ c.control) {n : Node} (hn : ∀ st tr, n st tr → ∃ bufs, tr = main (writeOps w st.fs bufs)) : Tame c n := by
  refine tame_sys fun st tr h => ?_
  obtain ⟨bufs, ht⟩ := hn st tr h
  refine ⟨_, ht, ok_writeOps hs _ _, ?_⟩
  intro s hsm hm
  rcases (writeOps_touches (List.mem_map_of_mem hsm)).1 _ (makes_touches hm) with ⟨h4, h5⟩ | h4 | ⟨h4, h5⟩
  · exact h1 _ h5 h4 rfl
  · exact h2 h4.symm
  · exact h3 h4 h5.symm

theorem tame_saveManifest (g : Good c) : Tame c (saveManifest c) := by
  refine tame_writer (w := manifestWriter c) rfl ?_ ?_ ?_ fun st tr h => h
  · rintro p hp _ rfl
    exact g.targets _ g.pg hp
  · unfold Cfg.control
    intro h
    have := (List.cons.inj h).1
    exact absurd this (show manifestFileZ ++ tempExt ≠ controlZ by decide)
  · intro _ h
    unfold Cfg.control at h
    have := (List.cons.inj h).1
    exact absurd this (show manifestFileZ ≠ controlZ by decide)

/-- The names of recovery files. -/
theorem recovery_ne (g : Good c) {n : Str} (hn : n ∈ c.recovery) : n ≠ controlZ ∧ n ≠ controlZ ++ tempExt := by
  have h := g.recovery n hn
  simp only [List.mem_cons, List.not_mem_nil, or_false] at h
  rcases h with rfl | rfl | rfl | rfl <;> decide

theorem tame_writeRecovery (g : Good c) {n : Str} (hn : n ∈ c.recovery) : Tame c (writeRecovery c n) := by
  refine tame_writer (w := recoveryWriter c n) rfl ?_ ?_ ?_ fun st tr h => h
  · intro p _ h
    cases h
  · unfold Cfg.control
    intro h
    exact (recovery_ne g hn).1 (List.cons.inj h).1
  · intro h
    cases h

theorem tame_restoreFiles (g : Good c) : Tame c (restoreFiles c) where
  ok := fun st tr hb hn s hf => by
    obtain ⟨jobs, ha, hi⟩ := hn
    exact (jobs_done hb ha g.apart hi hf).1
  quiet := fun st tr hn e he hm => by
    obtain ⟨jobs, ha, hi⟩ := hn
    obtain ⟨job, hj, hop⟩ := List.mem_flatMap.1 (inter_mem hi e he)
    obtain ⟨f, hf, _, ht⟩ := job_mem hop
    exact filePath_ne g (ha.only _ job hj f hf) (ht _ (makes_touches hm)).symm
  dirs := fun st tr hn e he p hp => by
    obtain ⟨jobs, ha, hi⟩ := hn
    obtain ⟨job, hj, hop⟩ := List.mem_flatMap.1 (inter_mem hi e he)
    obtain ⟨f, hf, hfo, ht⟩ := job_mem hop
    rw [hp] at hfo
    exact absurd hfo id

theorem tame_removeManifest (c : Cfg) : Tame c (removeManifest c) := by
  refine tame_sys fun st tr hn => ?_
  unfold removeManifest at hn
  split at hn
  · exact ⟨[], hn, trivial, by simp⟩
  · exact ⟨_, hn, trivial, by simp [makes]⟩

theorem tame_syncPaths (c : Cfg) : Tame c (syncPaths c) := by
  refine tame_sys fun st tr hn => ⟨_, hn, ok_map ?_, ?_⟩
  · intro s hs
    obtain ⟨p, _, rfl⟩ := List.mem_map.1 hs
    exact .inr (.inl ⟨p, rfl⟩)
  · intro s hs
    obtain ⟨p, _, rfl⟩ := List.mem_map.1 hs
    simp [makes]

theorem tame_before (g : Good c) : ∀ n ∈ before c, Tame c n := by
  intro n hn
  unfold before at hn
  simp only [List.mem_append, List.mem_singleton, List.mem_map] at hn
  rcases hn with ((rfl | ⟨p, hp, rfl⟩) | ⟨l, hl, rfl⟩) | rfl
  · exact tame_cleanTargets g
  · exact tame_buildPath g hp
  · exact tame_buildLink g hl
  · exact tame_saveManifest g

theorem tame_after (g : Good c) : ∀ n ∈ after c, Tame c n := by
  intro n hn
  unfold after at hn
  simp only [List.mem_append, List.mem_map, List.mem_cons, List.not_mem_nil, or_false] at hn
  rcases hn with ⟨m, hm, rfl⟩ | rfl | rfl
  · exact tame_writeRecovery g hm
  · exact tame_removeManifest c
  · exact tame_syncPaths c

/-! ## After the jobs -/

/-- The place of a file that is written or removed in the data directory after the jobs. -/
def Late (c : Cfg) (p : Path) : Prop := p = manifestFileZ :: c.pg ∨ ∃ n ∈ c.recovery, p = n :: c.pg

/-- A part leaves a file alone. -/
def Leaves (p : Path) (n : Node) : Prop := ∀ st tr, n st tr → ∃ ops : List Sys, tr = main ops ∧ Ok none (ops.map Op.sys) ∧ ∀ op ∈ ops, p ∉ touches (.sys op)

theorem Leaves.kept {p : Path} {n : Node} (h : Leaves p n) {st st' : St} {tr : List Ev} (hb : B st) (hn : n st tr) (hs : Stops st tr st') : Kept p st st' := by
  obtain ⟨ops, rfl, h1, h2⟩ := h st tr hn
  rw [main_eq] at hs
  refine main_kept hb h1 ?_ hs
  intro op hop
  obtain ⟨s, hs, rfl⟩ := List.mem_map.1 hop
  exact h2 s hs

theorem leaves_done {ns : List Node} {p : Path} (ht : ∀ n ∈ ns, Tame c n) (hl : ∀ n ∈ ns, Leaves p n) {st st' : St} (hb : B st) (h : Done st ns st') :
    Kept p st st' := by
  induction h with
  | nil => exact Kept.refl _ _
  | next hn hf _ ih =>
    have h1 := (hl _ (List.mem_cons_self ..)).kept hb hn (full_stops hf)
    exact h1.trans (ih (fun m hm => ht m (List.mem_cons_of_mem _ hm)) (fun m hm => hl m (List.mem_cons_of_mem _ hm))
      ((ht _ (List.mem_cons_self ..)).ok _ _ hb hn _ hf))

theorem leaves_syncPaths (c : Cfg) (p : Path) : Leaves p (syncPaths c) := by
  intro st tr hn
  refine ⟨_, hn, ok_map ?_, ?_⟩
  · intro s hs
    obtain ⟨q, _, rfl⟩ := List.mem_map.1 hs
    exact .inr (.inl ⟨q, rfl⟩)
  · intro s hs
    obtain ⟨q, _, rfl⟩ := List.mem_map.1 hs
    simp [touches]

theorem leaves_after {p : Path} (hp : ¬ Late c p) : ∀ n ∈ after c, Leaves p n := by
  intro n hn
  unfold after at hn
  simp only [List.mem_append, List.mem_map, List.mem_cons, List.not_mem_nil, or_false] at hn
  rcases hn with ⟨m, hm, rfl⟩ | rfl | rfl
  · rintro st tr ⟨bufs, ht⟩
    refine ⟨_, ht, ok_writeOps rfl _ _, ?_⟩
    intro s hsm hx
    rcases (writeOps_touches (List.mem_map_of_mem hsm)).1 _ hx with ⟨h4, _⟩ | h4 | ⟨h4, _⟩
    · cases h4
    · exact hp (.inr ⟨m, hm, h4⟩)
    · cases h4
  · intro st tr hn
    unfold removeManifest at hn
    split at hn
    · exact ⟨[], hn, trivial, by simp⟩
    · refine ⟨_, hn, trivial, ?_⟩
      simp only [List.mem_singleton, forall_eq, touches]
      exact fun h => hp (.inl h)
  · exact leaves_syncPaths c p

/-- The directories are synced. -/
theorem sync_all {ds : List Path} {st st' : St} (h : full st (main (ds.map .syncDir)) = some st') :
    st'.fs.cur = st.fs.cur ∧ (∀ d ∈ ds, st.fs.cur d = .dir) ∧
    ∀ q, q ≠ [] → (q.tail ∈ ds → st'.fs.hist q = [st.fs.cur q]) ∧ (st.fs.hist q = [st.fs.cur q] → st'.fs.hist q = [st.fs.cur q]) := by
  induction ds generalizing st with
  | nil =>
    cases h
    exact ⟨rfl, by simp, fun q _ => ⟨by simp, id⟩⟩
  | cons d ds ih =>
    simp only [main, List.map_cons, full, Option.bind_eq_some_iff] at h
    obtain ⟨s1, h1, h2⟩ := h
    obtain ⟨e1, e2, _, _, _, e3⟩ := act_eff h1
    obtain ⟨i1, i2, i3⟩ := ih h2
    refine ⟨i1.trans e2, ?_, ?_⟩
    · intro x hx
      rcases List.mem_cons.1 hx with rfl | hx
      · exact e1
      · rw [← e2]
        exact i2 x hx
    · intro q hq
      obtain ⟨i4, i5⟩ := i3 q hq
      rw [e2] at i4 i5
      have hh : st.fs.hist q = [st.fs.cur q] → s1.fs.hist q = [st.fs.cur q] := by
        intro hh
        rw [e3]
        dsimp only
        split
        · rfl
        · exact hh
      refine ⟨?_, fun h => i5 (hh h)⟩
      intro hm
      rcases List.mem_cons.1 hm with hd | hm
      · refine i5 ?_
        rw [e3]
        dsimp only
        rw [if_pos ⟨hq, hd⟩]
      · exact i4 hm

end

/-! ## The end -/

section
variable {c : Cfg} {st st' s : St} {tr : List Ev} {p : Path}

/-- What is written to the temporary file of `pg_control`. -/
theorem control_touches {fs : Fs} {b : Bool} {bufs : List Str} {op : Sys} (h : op ∈ if b then writeOps (controlWriter c) fs bufs else []) :
    ∀ q ∈ touches (.sys op), q = c.tmp := by
  split at h
  · intro q hq
    rcases (writeOps_touches (List.mem_map_of_mem h)).1 q hq with ⟨h4, _⟩ | h4 | ⟨h4, _⟩
    · cases h4
    · exact h4
    · cases h4
  · cases h

theorem ok_control {fs : Fs} {b : Bool} {bufs : List Str} : Ok none ((if b then writeOps (controlWriter c) fs bufs else []).map Op.sys) := by
  split
  · exact ok_writeOps rfl _ _
  · trivial

theorem leaves_renameControl (h1 : p ≠ c.tmp) (h2 : p ≠ c.control) : Leaves p (renameControl c) := by
  intro st tr hn
  unfold renameControl at hn
  split at hn
  · obtain ⟨bufs, _, ht⟩ := hn
    refine ⟨_, ht, ?_, ?_⟩
    · rw [List.map_append]
      exact ok_append ok_control trivial
    · intro op hop hx
      rcases List.mem_append.1 hop with hop | hop
      · exact h1 (control_touches hop p hx)
      · rw [List.mem_singleton.1 hop] at hx
        simp only [touches, List.mem_cons, List.not_mem_nil, or_false] at hx
        exact hx.elim h1 h2
  · exact ⟨[], hn, trivial, by simp⟩

theorem leaves_syncGlobal (c : Cfg) (p : Path) : Leaves p (syncGlobal c) := fun _ _ hn => ⟨_, hn, trivial, by simp [touches]⟩

theorem renameControl_ok (hb : B st) (hn : renameControl c st tr) (hf : full st tr = some s) : B s := by
  have h : ∃ ops : List Sys, tr = main ops ∧ Ok none (ops.map Op.sys) := by
    unfold renameControl at hn
    split at hn
    · obtain ⟨bufs, _, ht⟩ := hn
      refine ⟨_, ht, ?_⟩
      rw [List.map_append]
      exact ok_append ok_control trivial
    · exact ⟨[], hn, trivial⟩
  obtain ⟨ops, rfl, h⟩ := h
  rw [main_eq] at hf
  exact hb.one h hf

theorem glob_ne_tmp (c : Cfg) : c.glob ≠ c.tmp := by
  intro h
  have := congrArg List.length h
  unfold Cfg.tmp at this
  simp at this

theorem glob_ne_control (c : Cfg) : c.glob ≠ c.control := by
  intro h
  have := congrArg List.length h
  unfold Cfg.control at this
  simp at this

/-- The last parts leave all other files alone. -/
theorem end_kept (hb : B s) (h1 : p ≠ c.tmp) (h2 : p ≠ c.control) (hr : Run s [renameControl c, syncGlobal c] st') : Kept p s st' := by
  cases hr with
  | stop => exact Kept.refl _ _
  | here hn hs => exact (leaves_renameControl h1 h2).kept hb hn hs
  | next hn hf hr =>
    refine ((leaves_renameControl h1 h2).kept hb hn (full_stops hf)).trans ?_
    have hb' := renameControl_ok hb hn hf
    cases hr with
    | stop => exact Kept.refl _ _
    | here hn hs => exact (leaves_syncGlobal c p).kept hb' hn hs
    | next hn hf hr =>
      cases hr
      exact (leaves_syncGlobal c p).kept hb' hn (full_stops hf)

/-- `pg_control` appears when its temporary file is renamed. -/
theorem rename_gone (hb : B s) (hg : Gone s c.control) (hn : renameControl c s tr) (hs : Stops s tr st') : Gone st' c.control ∨ s.fs.cur c.glob = .dir := by
  unfold renameControl at hn
  split at hn
  · obtain ⟨bufs, _, ht⟩ := hn
    subst ht
    rw [main, List.map_append] at hs
    have hquiet : ∀ e ∈ (if c.online then writeOps (controlWriter c) s.fs bufs else []).map (fun x => ((0 : Nat), Op.sys x)), c.control ∉ makes e.2 := by
      intro e he hm
      obtain ⟨op, hop, rfl⟩ := List.mem_map.1 he
      exact tmp_ne_control c (control_touches hop _ (makes_touches hm)).symm
    rcases stops_append hs with hs | ⟨s2, hf, hs⟩
    · exact .inl (stops_gone hg hquiet hs)
    · have hg2 := stops_gone hg hquiet (full_stops hf)
      cases hs with
      | stop => exact .inl hg2
      | step ha _ =>
        refine .inr ?_
        have he := act_eff ha
        have hglob : s2.fs.cur c.glob = .dir := by
          have := he.1
          unfold Cfg.tmp at this
          simpa [parentDir] using this
        have hk : Kept c.glob s s2 := by
          have hf' : full s (main (if c.online then writeOps (controlWriter c) s.fs bufs else [])) = some s2 := hf
          rw [main_eq] at hf'
          refine main_kept hb ok_control ?_ (full_stops hf')
          intro op hop hx
          obtain ⟨o, ho, rfl⟩ := List.mem_map.1 hop
          exact glob_ne_tmp c (control_touches ho _ hx)
        rw [← hk.cur]
        exact hglob
  · subst hn
    cases hs
    exact .inl hg

theorem end_gone (hb : B s) (hg : Gone s c.control) (hr : Run s [renameControl c, syncGlobal c] st') : Gone st' c.control ∨ s.fs.cur c.glob = .dir := by
  cases hr with
  | stop => exact .inl hg
  | here hn hs => exact rename_gone hb hg hn hs
  | next hn hf hr =>
    rcases rename_gone hb hg hn (full_stops hf) with h | h
    · refine .inl (tame_gone (c := c) (ns := [syncGlobal c]) ?_ hr h)
      intro m hm
      rw [List.mem_singleton.1 hm]
      exact tame_sys fun st tr hn => ⟨_, hn, trivial, by simp [makes]⟩
    · exact .inr h

theorem leaves_dirs {n : Node} (h : Leaves p n) (hn : n st tr) (q : Path) : ∀ e ∈ tr, e.2 ≠ .rmdir q := by
  obtain ⟨ops, rfl, _, _⟩ := h st tr hn
  intro e he
  obtain ⟨s, _, rfl⟩ := List.mem_map.1 he
  simp

theorem end_fixed (hf : Fixed s p) (hr : Run s [renameControl c, syncGlobal c] st') : Fixed st' p := by
  have h1 := leaves_renameControl (glob_ne_tmp c) (glob_ne_control c)
  have h2 := leaves_syncGlobal c c.glob
  cases hr with
  | stop => exact hf
  | here hn hs => exact stops_fixed hf (leaves_dirs h1 hn p) hs
  | next hn hff hr =>
    have hf1 := stops_fixed hf (leaves_dirs h1 hn p) (full_stops hff)
    cases hr with
    | stop => exact hf1
    | here hn hs => exact stops_fixed hf1 (leaves_dirs h2 hn p) hs
    | next hn hff hr =>
      cases hr
      exact stops_fixed hf1 (leaves_dirs h2 hn p) (full_stops hff)

/-! ## The state in which all is restored -/

/-- All that is needed has been done. -/
structure Restored (c : Cfg) (s : St) : Prop where
  content : ∀ n ∈ c.files, ¬ Late c (c.filePath n) → contentAt s.fs (c.filePath n) = some ⟨c.data n, true⟩
  dirs : ∀ d ∈ synced c, s.fs.cur d = .dir
  sure : ∀ q, q ≠ [] → q.tail ∈ synced c → s.fs.hist q = [s.fs.cur q]

theorem contentAt_file {fs : Fs} {i : Inode} (h : contentAt fs p = some i) : ∃ k, fs.cur p = .file k ∧ fs.inode k = i := by
  unfold contentAt at h
  split at h
  · rename_i k hk
    exact ⟨k, hk, Option.some.inj h⟩
  · cases h

theorem Kept.content {s s' : St} (h : Kept p s s') {i : Inode} (hc : contentAt s.fs p = some i) : contentAt s'.fs p = some i := by
  obtain ⟨k, h1, h2⟩ := contentAt_file hc
  unfold contentAt
  rw [h.cur, h1]
  simp only [h.inode k h1, h2]

theorem restored (g : Good c) (hb : B st) (hr : Done st (before c ++ [restoreFiles c] ++ after c) s) : Restored c s := by
  obtain ⟨s2, hr, h3⟩ := done_append hr
  obtain ⟨s1, h1, h2⟩ := done_append hr
  have hb1 := tame_done (tame_before g) h1 hb
  cases h2 with
  | next hn hf hnil =>
    cases hnil
    obtain ⟨jobs, ha, hi⟩ := hn
    obtain ⟨hb2, hc⟩ := jobs_done hb1 ha g.apart hi hf
    have hsync : ∃ s3, full s3 (main ((synced c).map .syncDir)) = some s := by
      unfold after at h3
      rw [show c.recovery.map (writeRecovery c) ++ [removeManifest c, syncPaths c] =
        (c.recovery.map (writeRecovery c) ++ [removeManifest c]) ++ [syncPaths c] by simp] at h3
      obtain ⟨s3, _, h4⟩ := done_append h3
      cases h4 with
      | next hn hf hnil =>
        cases hnil
        exact ⟨s3, by rw [← hn]; exact hf⟩
    obtain ⟨s3, hf3⟩ := hsync
    obtain ⟨e1, e2, e3⟩ := sync_all hf3
    refine ⟨?_, ?_, ?_⟩
    · intro n hn hl
      exact (leaves_done (tame_after g) (leaves_after hl) hb2 h3).content (hc n hn)
    · intro d hd
      rw [e1]
      exact e2 d hd
    · intro q hq hd
      rw [e1]
      exact (e3 q hq).1 hd

/-- The directory of a path of the manifest other than `pg_tblspc` and `global`, or of a link to a file. -/
def Listed (c : Cfg) (d : Path) : Prop := d ∈ c.fileDirs ∨ ∃ p ∈ c.paths, p.place = d ∧ p.name ≠ pgTblspcZ ∧ p.name ≠ globalMZ

theorem listed_synced {d : Path} (h : Listed c d) : d ∈ synced c := by
  unfold synced
  rcases h with h | ⟨q, h1, h2, h3⟩
  · exact List.mem_append_left _ h
  · exact List.mem_append_right _ (List.mem_map.2 ⟨q, List.mem_filter.2 ⟨h1, by simpa using h3⟩, h2⟩)

/-- The directories above a file were there before the restore and are not below a target, or they are paths of the manifest, as the directories
they are in. -/
def Anchored (c : Cfg) (st0 : St) (p : Path) : Prop :=
  p ≠ [] ∧ ∀ a, a <:+ p.tail → (Fixed st0 a ∧ ¬ Removable c a) ∨ (a ≠ [] ∧ Listed c a.tail ∧ (Listed c a ∨ a = c.glob))

theorem up_dirs (p : Path) : up (fun _ => .dir) p = true := by
  induction p with
  | nil => rfl
  | cons x p ih => simp [up, ih]

/-- Files whose directories are kept. -/
theorem disk_file {fs : Fs} {d : Str} (hup : ∀ a, a <:+ p.tail → fs.cur a = .dir ∧ fs.hist a = [.dir]) (hc : contentAt fs p = some ⟨d, true⟩)
    (hh : fs.hist p = [fs.cur p]) : Stable fs p (.file d) := by
  rintro disk ⟨e, r, he, hr, hd⟩
  obtain ⟨k, h1, h2⟩ := contentAt_file hc
  have hep : e p = .file k := by
    have := he p
    rw [hh, h1] at this
    exact List.mem_singleton.1 this
  have hu : up e p = true := by
    have : up e p = up (fun _ => .dir) p := by
      refine up_congr fun a ha _ => ?_
      have := he a
      rw [(hup a ha).2] at this
      exact List.mem_singleton.1 this
    rw [this]
    exact up_dirs p
  rw [hd]
  unfold look
  rw [if_pos hu, hep]
  simp only [hr k (by rw [h2]), h2]

theorem view_file {fs : Fs} {d : Str} {b : Bool} (hup : ∀ a, a <:+ p.tail → fs.cur a = .dir) (hc : contentAt fs p = some ⟨d, b⟩) :
    view fs p = .file d := by
  obtain ⟨k, h1, h2⟩ := contentAt_file hc
  have hu : up fs.cur p = true := by
    have : up fs.cur p = up (fun _ => .dir) p := up_congr fun a ha _ => hup a ha
    rw [this]
    exact up_dirs p
  unfold view look
  rw [if_pos hu, h1]
  simp only [h2]

theorem gone_disk {fs : Fs} {disk : Path → Found} (h : fs.hist p = [.missing]) (hd : Crash fs disk) : disk p = .missing := by
  obtain ⟨e, r, he, _, hd⟩ := hd
  have := he p
  rw [h] at this
  rw [hd]
  unfold look
  rw [List.mem_singleton.1 this]
  split <;> rfl

theorem gone_view {fs : Fs} (h : fs.cur p = .missing) : view fs p = .missing := by
  unfold view look
  rw [h]
  split <;> rfl

/-- The removal of `pg_control`. -/
theorem removeControl_stops (hc : isFile (st.fs.cur c.control) = true ∨ Gone st c.control) (hn : removeControl c st tr) (hs : Stops st tr st') :
    Gone st' c.control ∨ ((∀ p, p ≠ c.control → st'.fs.cur p = st.fs.cur p ∧ st'.fs.hist p = st.fs.hist p) ∧ st'.fs.inode = st.fs.inode) := by
  unfold removeControl at hn
  split at hn
  · subst hn
    cases hs with
    | stop => exact .inr ⟨fun _ _ => ⟨rfl, rfl⟩, rfl⟩
    | step ha hs =>
      obtain ⟨_, _, _, e1, e2, _, e3, _⟩ := act_eff ha
      cases hs with
      | stop =>
        refine .inr ⟨fun p hp => ?_, e3⟩
        rw [e1, e2, upd_other _ _ hp, upd_other _ _ hp]
        exact ⟨rfl, rfl⟩
      | step ha2 hs =>
        cases hs
        obtain ⟨_, f1, _, _, _, f2⟩ := act_eff ha2
        refine .inl ⟨by rw [f1, e1, upd_same], ?_⟩
        rw [f2]
        dsimp only
        rw [if_pos ⟨by simp [Cfg.control], by simp [Cfg.control]⟩, e1, upd_same]
  · rename_i hf
    subst hn
    cases hs
    exact .inl (hc.resolve_left hf)

theorem removeControl_full (hc : isFile (st.fs.cur c.control) = true ∨ Gone st c.control) (hn : removeControl c st tr) (hs : full st tr = some st') :
    Gone st' c.control := by
  unfold removeControl at hn
  split at hn
  · subst hn
    simp only [main, List.map_cons, List.map_nil, full, Option.bind_eq_some_iff] at hs
    obtain ⟨s1, ha, s2, ha2, hx⟩ := hs
    cases hx
    obtain ⟨_, _, _, e1, e2, _, e3, _⟩ := act_eff ha
    obtain ⟨_, f1, _, _, _, f2⟩ := act_eff ha2
    refine ⟨by rw [f1, e1, upd_same], ?_⟩
    rw [f2]
    dsimp only
    rw [if_pos ⟨by simp [Cfg.control], by simp [Cfg.control]⟩, e1, upd_same]
  · rename_i hf
    subst hn
    cases hs
    exact hc.resolve_left hf

/-- What a stopped restore leaves. -/
theorem stopped (g : Good c) (hb : B st) (hc : isFile (st.fs.cur c.control) = true ∨ Gone st c.control) (hr : Run st (restore c) st') :
    Gone st' c.control ∨ ((∀ p, p ≠ c.control → st'.fs.cur p = st.fs.cur p ∧ st'.fs.hist p = st.fs.hist p) ∧ st'.fs.inode = st.fs.inode) ∨
    ∃ s, Restored c s ∧ B s ∧ s.fs.cur c.glob = .dir ∧ (∀ p, ¬ Removable c p → Fixed st p → Fixed s p) ∧ Run s [renameControl c, syncGlobal c] st' := by
  unfold restore at hr
  have ht : ∀ n ∈ before c ++ [restoreFiles c] ++ after c, Tame c n := by
    intro n hn
    rcases List.mem_append.1 hn with hn | hn
    · rcases List.mem_append.1 hn with hn | hn
      · exact tame_before g n hn
      · rw [List.mem_singleton.1 hn]
        exact tame_restoreFiles g
    · exact tame_after g n hn
  rw [show [removeControl c] ++ before c ++ [restoreFiles c] ++ after c ++ [renameControl c, syncGlobal c] =
    [removeControl c] ++ ((before c ++ [restoreFiles c] ++ after c) ++ [renameControl c, syncGlobal c]) by simp] at hr
  cases hr with
  | stop => exact .inr (.inl ⟨fun _ _ => ⟨rfl, rfl⟩, rfl⟩)
  | here hn hs => exact (removeControl_stops hc hn hs).imp_right .inl
  | @next _ s1 _ _ _ _ hn hf hr =>
    have hg1 := removeControl_full hc hn hf
    have hb1 := (tame_removeControl c).ok _ _ hb hn _ hf
    have hr' : Run s1 ((before c ++ [restoreFiles c] ++ after c) ++ [renameControl c, syncGlobal c]) st' := hr
    rcases run_append hr' with hr | ⟨s, hd, hr⟩
    · exact .inl (tame_gone ht hr hg1)
    · have hbs := tame_done ht hd hb1
      have hgs := tame_gone ht (done_run hd) hg1
      rcases end_gone hbs hgs hr with h | h
      · exact .inl h
      · refine .inr (.inr ⟨s, restored g hb1 hd, hbs, h, ?_, hr⟩)
        intro p hp hx
        refine tame_fixed ht hp (done_run hd) (stops_fixed hx ?_ (full_stops hf))
        intro e he hx
        exact hp ((tame_removeControl c).dirs _ _ hn e he p hx)

/-- The directories of a file. -/
theorem anchored_up {st0 : St} (ha : Anchored c st0 p) (hr : Restored c s) (hg : s.fs.cur c.glob = .dir)
    (hf : ∀ p, ¬ Removable c p → Fixed st0 p → Fixed s p) : ∀ a, a <:+ p.tail → Fixed s a := by
  intro a hap
  rcases ha.2 a hap with ⟨h1, h2⟩ | ⟨h1, h2, h3⟩
  · exact hf a h2 h1
  · have hd : s.fs.cur a = .dir := by
      rcases h3 with h3 | h3
      · exact hr.dirs a (listed_synced h3)
      · rw [h3]
        exact hg
    exact ⟨hd, by rw [hr.sure a h1 (listed_synced h2), hd]⟩

end

/-! ## C44 -/

section
variable {c : Cfg} {st0 st' : St}

theorem shown (g : Good c) (hb : B st0) (hc : isFile (st0.fs.cur c.control) = true ∨ Gone st0 c.control) (hr : Run st0 (restore c) st')
    (hgone : ¬ Gone st' c.control) :
    ((∀ p, p ≠ c.control → st'.fs.cur p = st0.fs.cur p ∧ st'.fs.hist p = st0.fs.hist p) ∧ st'.fs.inode = st0.fs.inode) ∨
    ∀ n ∈ c.files, n ≠ controlMZ → Anchored c st0 (c.place n) → ¬ Late c (c.place n) →
      view st'.fs (c.place n) = .file (c.data n) ∧ (Listed c (c.place n).tail → Stable st'.fs (c.place n) (.file (c.data n))) := by
  rcases stopped g hb hc hr with h | h | ⟨s, h1, h2, h3, h4, h5⟩
  · exact absurd h hgone
  · exact .inl h
  · refine .inr fun n hn hne ha hl => ?_
    have hpl : c.filePath n = c.place n := by
      unfold Cfg.filePath
      rw [if_neg hne]
    obtain ⟨g1, g2⟩ := g.files n hn hne
    have hk := end_kept h2 g2 g1 h5
    have hcon := h1.content n hn (by rw [hpl]; exact hl)
    rw [hpl] at hcon
    have hcon' := hk.content hcon
    have hup : ∀ a, a <:+ (c.place n).tail → Fixed st' a := by
      intro a haa
      exact end_fixed (anchored_up ha h1 h3 h4 a haa) h5
    refine ⟨view_file (fun a haa => (hup a haa).1) hcon', ?_⟩
    intro hs
    refine disk_file hup hcon' ?_
    rw [hk.hist (h1.sure _ ha.1 (listed_synced hs)), hk.cur]

/-- Whenever `pg_control` is found after a crash, either the restore has changed nothing else, or every file of the backup is there. After the
crash every file outside of `global` is found. -/
theorem c44_control (c : Cfg) (st0 st' : St) (disk : Path → Found) (g : Good c) (hb : B st0)
    (hc : isFile (st0.fs.cur c.control) = true ∨ Gone st0 c.control) (hr : Run st0 (restore c) st') (hd : Crash st'.fs disk)
    (hp : disk c.control ≠ .missing) :
    ((∀ p, p ≠ c.control → st'.fs.cur p = st0.fs.cur p ∧ st'.fs.hist p = st0.fs.hist p) ∧ st'.fs.inode = st0.fs.inode) ∨
    ∀ n ∈ c.files, n ≠ controlMZ → Anchored c st0 (c.place n) → ¬ Late c (c.place n) →
      view st'.fs (c.place n) = .file (c.data n) ∧ (Listed c (c.place n).tail → disk (c.place n) = .file (c.data n)) := by
  rcases shown g hb hc hr (fun h => hp (gone_disk h.2 hd)) with h | h
  · exact .inl h
  · refine .inr fun n hn hne ha hl => ?_
    obtain ⟨h1, h2⟩ := h n hn hne ha hl
    exact ⟨h1, fun hs => h2 hs disk hd⟩

/-- Whenever a process sees `pg_control`, either the restore has changed nothing, or every file of the backup is there. -/
theorem c44_view (c : Cfg) (st0 st' : St) (g : Good c) (hb : B st0) (hc : isFile (st0.fs.cur c.control) = true ∨ Gone st0 c.control)
    (hr : Run st0 (restore c) st') (hp : view st'.fs c.control ≠ .missing) :
    ((∀ p, p ≠ c.control → st'.fs.cur p = st0.fs.cur p ∧ st'.fs.hist p = st0.fs.hist p) ∧ st'.fs.inode = st0.fs.inode) ∨
    ∀ n ∈ c.files, n ≠ controlMZ → Anchored c st0 (c.place n) → ¬ Late c (c.place n) → view st'.fs (c.place n) = .file (c.data n) := by
  rcases shown g hb hc hr (fun h => hp (gone_view h.1)) with h | h
  · exact .inl h
  · exact .inr fun n hn hne ha hl => (h n hn hne ha hl).1

/-- Once the clean phase has started and until the temporary file of `pg_control` is renamed, there is no `pg_control`, also after a crash. -/
theorem c44_absent (c : Cfg) (st0 s1 st' : St) (g : Good c) (hc : isFile (st0.fs.cur c.control) = true ∨ Gone st0 c.control)
    (h1 : Done st0 [removeControl c] s1) (hr : Run s1 (before c ++ [restoreFiles c] ++ after c) st') : Stable st'.fs c.control .missing := by
  have ht : ∀ n ∈ before c ++ [restoreFiles c] ++ after c, Tame c n := by
    intro n hn
    rcases List.mem_append.1 hn with hn | hn
    · rcases List.mem_append.1 hn with hn | hn
      · exact tame_before g n hn
      · rw [List.mem_singleton.1 hn]
        exact tame_restoreFiles g
    · exact tame_after g n hn
  cases h1 with
  | next hn hf hnil =>
    cases hnil
    exact fun disk hd => gone_disk (tame_gone ht hr (removeControl_full hc hn hf)).2 hd

theorem writeBufs_flatten (bufs : List Str) (d : Str) : writeBufs d.length d (bufs.map fun b => (none, b)) = d ++ bufs.flatten := by
  induction bufs generalizing d with
  | nil => simp [writeBufs]
  | cons b bufs ih =>
    simp only [List.map_cons, writeBufs, Option.getD_none, List.flatten_cons]
    have : splice d d.length b = d ++ b := by
      unfold splice
      simp
    rw [this, ← List.append_assoc, ← ih (d ++ b), List.length_append]

theorem bufs_ops (bufs : List Str) : (bufs.map fun b => ((none : Option Nat), b)).flatMap bufOps = (bufs.map Sys.write).map Op.sys := by
  induction bufs with
  | nil => rfl
  | cons b bufs ih =>
    simp only [List.map_cons, List.flatMap_cons, ih]
    rfl

/-- The content of `pg_control` when it is renamed. -/
theorem control_done {s s2 : St} {tr : List Ev} {x : Str} (hb : B s) (hx : contentAt s.fs c.tmp = some ⟨x, true⟩) (hn : renameControl c s tr)
    (hf : full s tr = some s2) : contentAt s2.fs c.control = some ⟨if c.online then c.invalid x else x, true⟩ := by
  obtain ⟨k, hk, _⟩ := contentAt_file hx
  unfold renameControl at hn
  rw [hk, if_pos (show isFile (.file k) = true from rfl)] at hn
  obtain ⟨bufs, hbuf, ht⟩ := hn
  rw [hx] at hbuf
  simp only [Option.map_some, Option.some.injEq] at hbuf
  subst ht
  rw [main, List.map_append] at hf
  obtain ⟨s3, h3, h4⟩ := full_append hf
  have hb3 : B s3 := by
    have h3' : full s (main (if c.online then writeOps (controlWriter c) s.fs bufs else [])) = some s3 := h3
    rw [main_eq] at h3'
    exact hb.one ok_control h3'
  have hcon : contentAt s3.fs c.tmp = some ⟨if c.online then c.invalid x else x, true⟩ := by
    cases hon : c.online with
    | false =>
      simp only [hon, Bool.false_eq_true, if_false, List.map_nil, full] at h3
      cases h3
      exact hx
    | true =>
      simp only [hon, if_true] at h3 ⊢
      have hops : (writeOps (controlWriter c) s.fs bufs).map Op.sys = writeFile c.tmp true ((bufs.map fun b => (none, b)).flatMap bufOps) := by
        rw [bufs_ops]
        unfold writeOps writeFile controlWriter Cfg.tmp Writer.tmp
        simp
      have h3' : full s (main (writeOps (controlWriter c) s.fs bufs)) = some s3 := h3
      rw [main_eq, hops] at h3'
      have hbody := body_bufs (bufs.map fun b => ((none : Option Nat), b))
      have hj : J (fun _ => 0) s (upd (fun _ => []) 0 (writeFile c.tmp true ((bufs.map fun b => ((none : Option Nat), b)).flatMap bufOps))) := by
        refine hb.begin ?_ ?_
        · intro k
          by_cases hk : k = 0
          · subst hk
            rw [upd_same]
            exact ok_writeFile hbody
          · rw [upd_other _ _ hk]
            trivial
        · intro k op hop q _
          by_cases hk : k = 0
          · exact hk.symm
          · rw [upd_other _ _ hk] at hop
            cases hop
      have hi := inter_content (p := c.tmp) (inter_one _ 0) hj (by
        intro k op hop
        by_cases hk : k = 0
        · subst hk
          rw [upd_same] at hop
          exact (writeFile_mem hbody hop).1
        · rw [upd_other _ _ hk] at hop
          cases hop) h3'
      rw [upd_same] at hi
      obtain ⟨c', e1, e2⟩ := makes_bufs (p := c.tmp) (tr := true) (bufs := bufs.map fun b => ((none : Option Nat), b)) (contentAt s.fs c.tmp) []
      have ho : opn s 0 c.tmp = none := by
        unfold opn
        rw [hb.closed]
        rfl
      rw [List.append_nil] at e1
      rw [ho, e1] at hi
      simp only [ev] at hi
      subst hi
      simp only [base, if_true] at e2
      have hwb := writeBufs_flatten bufs []
      simp only [List.length_nil, List.nil_append] at hwb
      rw [hwb, ← hbuf] at e2
      obtain ⟨i, h5, h6⟩ := Option.map_eq_some_iff.1 e2
      rw [h5]
      obtain ⟨k3, _, h7⟩ := contentAt_file h5
      have := hb3.sync k3
      rw [h7] at this
      cases i with
      | mk d y =>
        simp only at this h6
        rw [this, h6]
  simp only [List.map_cons, List.map_nil, full, Option.bind_eq_some_iff] at h4
  obtain ⟨s4, ha, hx⟩ := h4
  cases hx
  obtain ⟨_, _, _, _, _, e1, _, _, ⟨e2, _⟩ | ⟨_, e2, _⟩⟩ := act_eff ha
  · exact absurd e2 (tmp_ne_control c)
  · obtain ⟨k3, h5, h6⟩ := contentAt_file hcon
    unfold contentAt
    rw [e2, upd_same, h5]
    simp only [e1, h6]

/-- When the restore is done, all files and `pg_control` are there to stay. -/
theorem c44_complete (c : Cfg) (st0 st' : St) (g : Good c) (hb : B st0) (hr : Done st0 (restore c) st') :
    (∀ n ∈ c.files, n ≠ controlMZ → Anchored c st0 (c.place n) → ¬ Late c (c.place n) → (Listed c (c.place n).tail ∨ (c.place n).tail = c.glob) →
      Stable st'.fs (c.place n) (.file (c.data n))) ∧
    (controlMZ ∈ c.files → Anchored c st0 c.control →
      Stable st'.fs c.control (.file (if c.online then c.invalid (c.data controlMZ) else c.data controlMZ))) := by
  unfold restore at hr
  rw [show [removeControl c] ++ before c ++ [restoreFiles c] ++ after c ++ [renameControl c, syncGlobal c] =
    [removeControl c] ++ ((before c ++ [restoreFiles c] ++ after c) ++ [renameControl c, syncGlobal c]) by simp] at hr
  have ht : ∀ n ∈ before c ++ [restoreFiles c] ++ after c, Tame c n := by
    intro n hn
    rcases List.mem_append.1 hn with hn | hn
    · rcases List.mem_append.1 hn with hn | hn
      · exact tame_before g n hn
      · rw [List.mem_singleton.1 hn]
        exact tame_restoreFiles g
    · exact tame_after g n hn
  obtain ⟨s1, hr1, hr⟩ := done_append hr
  obtain ⟨s, hd, hr⟩ := done_append hr
  cases hr1 with
  | next hn1 hf1 hnil =>
  cases hnil
  have hb1 := (tame_removeControl c).ok _ _ hb hn1 _ hf1
  have hbs := tame_done ht hd hb1
  have hres := restored g hb1 hd
  have hrun := done_run hr
  have hfix : ∀ p, ¬ Removable c p → Fixed st0 p → Fixed s p := by
    intro p hp hx
    refine tame_fixed ht hp (done_run hd) (stops_fixed hx ?_ (full_stops hf1))
    intro e he hx
    exact hp ((tame_removeControl c).dirs _ _ hn1 e he p hx)
  cases hr with
  | @next _ s2 _ _ _ tr2 hn2 hf2 hr =>
  cases hr with
  | @next _ s3 _ _ _ tr3 hn3 hf3 hnil =>
  cases hnil
  have hn3' : tr3 = main ([c.glob].map .syncDir) := hn3
  rw [hn3'] at hf3
  obtain ⟨e1, e2, e3⟩ := sync_all hf3
  have hgs : s.fs.cur c.glob = .dir := by
    have := (leaves_renameControl (glob_ne_tmp c) (glob_ne_control c)).kept hbs hn2 (full_stops hf2)
    rw [← this.cur]
    exact e2 _ (List.mem_singleton.2 rfl)
  have hup : ∀ p, Anchored c st0 p → ∀ a, a <:+ p.tail → Fixed st' a := fun p ha a haa => end_fixed (anchored_up ha hres hgs hfix a haa) hrun
  refine ⟨?_, ?_⟩
  · intro n hn hne ha hl hdir
    have hpl : c.filePath n = c.place n := by
      unfold Cfg.filePath
      rw [if_neg hne]
    obtain ⟨g1, g2⟩ := g.files n hn hne
    have hk := end_kept hbs g2 g1 hrun
    have hcon := hres.content n hn (by rw [hpl]; exact hl)
    rw [hpl] at hcon
    refine disk_file (hup _ ha) (hk.content hcon) ?_
    rcases hdir with hdir | hdir
    · rw [hk.hist (hres.sure _ ha.1 (listed_synced hdir)), hk.cur]
    · rw [(e3 _ ha.1).1 (by rw [hdir]; exact List.mem_singleton.2 rfl), e1]
  · intro hcf ha
    have htmp : c.filePath controlMZ = c.tmp := by
      unfold Cfg.filePath
      rw [if_pos rfl]
    have hcon := hres.content _ hcf (by
      rw [htmp]
      rintro (h | ⟨n, hn, h⟩)
      · unfold Cfg.tmp at h
        exact absurd (List.cons.inj h).1 (by decide)
      · unfold Cfg.tmp at h
        exact (recovery_ne g hn).2 (List.cons.inj h).1.symm)
    rw [htmp] at hcon
    have hc2 := control_done hbs hcon hn2 hf2
    have hk := (leaves_syncGlobal c c.control).kept (renameControl_ok hbs hn2 hf2) hn3 (full_stops (by rw [hn3']; exact hf3))
    refine disk_file (hup _ ha) (hk.content hc2) ?_
    rw [(e3 _ ha.1).1 (List.mem_singleton.2 (by simp [Cfg.control])), e1]

end

end Verif.Restore.Crash
