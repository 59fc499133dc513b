import Verif.Fs.Seq

/-!
# What programs leave alone
-/

namespace Verif.Fs

/-- The last byte of the last name. -/
def lastByte (p : Path) : Option UInt8 := (p.head?.getD []).getLast?

theorem lastByte_tmp {w : Writer} (h : w.atomic = true) : lastByte w.tmp = some 112 := by
  unfold lastByte Writer.tmp
  rw [if_pos h]
  simp [tempExt]

/-- The steps the theorems here are about: writes with all safeguards, syncs of directories, links and removal of files. No file has the name
of a temporary file. -/
def Plain : Step → Prop
  | .put w _ => Safe w ∧ lastByte w.name ≠ some 112
  | .sys (.syncDir _) => True
  | .sys (.symlink q _) => lastByte q ≠ some 112
  | .remove q => lastByte q ≠ some 112
  | _ => False

/-- The temporary files of all writers are no other files. -/
def AllPrivate (fs : Fs) (steps : List Step) : Prop := ∀ w bufs, .put w bufs ∈ steps → Private fs w

/-- The step is not about this path. -/
def Away (p : Path) : Step → Prop
  | .put w _ => p ≠ w.name ∧ p ≠ w.tmp
  | .sys (.syncDir _) => True
  | .sys (.symlink q _) => p ≠ q
  | .remove q => p ≠ q
  | _ => False

/-- The step does not make this directory. -/
def NoMake (p : Path) : Step → Prop
  | .put w _ => ¬p <:+ w.dir
  | _ => True

/-! ## Single system calls -/

theorem sync_hist {fs fs' : Fs} {d : Path} (h : WF fs) (he : exec fs (.syncDir d) = some fs') :
    (∀ p, ∀ e ∈ fs'.hist p, e ∈ fs.hist p) ∧ fs'.cur = fs.cur ∧ fs'.inode = fs.inode ∧ ∀ c, fs'.hist (c :: d) = [fs.cur (c :: d)] := by
  simp only [exec] at he
  split at he
  · cases he
    refine ⟨?_, rfl, rfl, ?_⟩
    · intro p e hp
      dsimp only at hp
      split at hp
      · rw [List.mem_singleton.1 hp]; exact h.cur p
      · exact hp
    · intro c
      dsimp only
      rw [if_pos ⟨by simp, by simp⟩]
  · cases he

/-- A system call that changes one entry that is no directory to one that is no directory. -/
def Turns (fs fs' : Fs) (q : Path) : Prop := ∃ e, fs' = setEnt fs q e ∧ fs.cur q ≠ .dir ∧ e ≠ .dir ∧ ∀ i, e ≠ .file i

theorem unlink_turns {fs fs' : Fs} {q : Path} (he : exec fs (.unlink q) = some fs') : Turns fs fs' q := by
  simp only [exec] at he
  split at he
  · rename_i hc
    cases he
    exact ⟨_, rfl, hc.2.1, by simp, by simp⟩
  · cases he

theorem symlink_turns {fs fs' : Fs} {q : Path} {t : Str} (he : exec fs (.symlink q t) = some fs') : Turns fs fs' q := by
  simp only [exec] at he
  split at he
  · rename_i hc
    cases he
    exact ⟨_, rfl, by rw [hc.2]; simp, by simp, by simp⟩
  · cases he

theorem sync_stable {fs fs' : Fs} {d p : Path} {v : Found} (h : WF fs) (hs : Stable fs p v) (he : exec fs (.syncDir d) = some fs') :
    Stable fs' p v := by
  obtain ⟨h1, -, h3, -⟩ := sync_hist h he
  rintro disk ⟨e, r, he, hr, hd⟩
  exact hs disk ⟨e, r, fun q => h1 q _ (he q), fun i hi => by rw [← h3]; exact hr i (by rw [h3]; exact hi), hd⟩

theorem turns_stable {fs fs' : Fs} {q p : Path} {v : Found} (h : WF fs) (hs : Stable fs p v) (hp : p ≠ q) (ht : Turns fs fs' q) :
    Stable fs' p v := by
  obtain ⟨x, rfl, hq, hx, -⟩ := ht
  rintro disk ⟨e', r, he', hr, hd⟩
  rw [hd]
  let e : Path → Ent := fun a => if a = q then (if e' q ∈ fs.hist q then e' q else fs.cur q) else e' a
  have hee : ∀ a, a ≠ q → e a = e' a := fun a ha => by simp only [e, if_neg ha]
  have hc : Crash fs (look e r) := by
    refine ⟨e, r, ?_, hr, fun _ => rfl⟩
    intro a
    by_cases ha : a = q
    · subst ha
      simp only [e, if_true]
      split
      · assumption
      · exact h.cur _
    · rw [hee a ha]
      have := he' a
      simp only [setEnt] at this
      rwa [upd_other _ _ ha] at this
  rw [← hs _ hc]
  by_cases hab : ∀ a, a <:+ p.tail → p ≠ [] → e' a = e a
  · unfold look
    rw [up_congr hab, hee p hp]
  · have : ∃ a, a <:+ p.tail ∧ p ≠ [] ∧ e' a ≠ e a := by
      refine Classical.byContradiction fun hx => hab fun a ha hp' => Classical.byContradiction fun hne => hx ⟨a, ha, hp', hne⟩
    obtain ⟨a, ha, hp', hne⟩ := this
    have haq : a = q := Classical.byContradiction fun hx => hne (hee a hx).symm
    subst haq
    have hno := h.nothing ha hp' hq
    have : e' p = .missing := by
      have := he' p
      simp only [setEnt] at this
      rw [upd_other _ _ hp, hno] at this
      exact List.mem_singleton.1 this
    unfold look
    rw [hee p hp, this]
    dsimp only
    rw [ite_self, ite_self]

theorem turns_private {fs fs' : Fs} {q : Path} {w : Writer} (h : Private fs w) (hq : w.tmp ≠ q) (ht : Turns fs fs' q) : Private fs' w := by
  obtain ⟨x, rfl, -, -, hx⟩ := ht
  intro i hi p hp hm
  simp only [setEnt] at hi hm
  rw [upd_other _ _ hq] at hi
  by_cases hpq : p = q
  · subst hpq
    rw [upd_same] at hm
    rcases List.mem_cons.1 hm with hm | hm
    · exact hx i hm.symm
    · exact h i hi p hp hm
  · rw [upd_other _ _ hpq] at hm
    exact h i hi p hp hm

theorem sync_private {fs fs' : Fs} {d : Path} {w : Writer} (h0 : WF fs) (h : Private fs w) (he : exec fs (.syncDir d) = some fs') :
    Private fs' w := by
  obtain ⟨h1, h2, -, -⟩ := sync_hist h0 he
  intro i hi p hp hm
  rw [h2] at hi
  exact h i hi p hp (h1 p _ hm)

/-! ## Steps -/

/-- Every state of a step that is no write: the state before or the state after. -/
theorem step_reach {fs fs' : Fs} {s : Step} (hs : ∀ w bufs, s ≠ .put w bufs) (hp : Plain s) (h : Reach fs (stepOps fs s) fs') :
    fs' = fs ∨ done fs (stepOps fs s) = some fs' := by
  have one : ∀ op, (∀ d, op ≠ .write d) → Reach fs [op] fs' → fs' = fs ∨ done fs [op] = some fs' := by
    intro op ho hr
    rcases reach_one ho hr with h1 | h1
    · exact Or.inl h1
    · exact Or.inr (by simp only [done, h1, Option.bind_some])
  cases s with
  | put w bufs => exact absurd rfl (hs w bufs)
  | sys op =>
    simp only [stepOps] at h ⊢
    cases op with
    | syncDir d => exact one _ (by simp) h
    | symlink q t => exact one _ (by simp) h
    | _ => exact absurd hp id
  | remove q =>
    simp only [stepOps] at h ⊢
    by_cases hq : fs.cur q = .missing
    · rw [if_pos hq] at h ⊢
      cases h
      exact Or.inl rfl
    · rw [if_neg hq] at h ⊢
      exact one _ (by simp) h

theorem step_stable {fs fs' : Fs} {s : Step} {p : Path} {v : Found} (h0 : WF fs) (hp : Plain s) (hpr : AllPrivate fs [s]) (ha : Away p s)
    (hn : NoMake p s ∨ v = .dir) (hs : Stable fs p v) (hr : Reach fs (stepOps fs s) fs') : Stable fs' p v := by
  cases s with
  | put w bufs =>
    intro disk hc
    obtain ⟨hsafe, -⟩ := hp
    have hu : Unshared fs w p := (hpr w bufs (by simp)).unshared ha.2
    refine c46_others fs fs' w bufs p v disk h0 hsafe.1 hsafe.2.1 hsafe.2.2.1 ha.1 ha.2 hu ?_ hs hr hc
    rintro ⟨h1, h2⟩
    rcases hn with hn | hn
    · exact hn h2
    · subst hn
      rw [hs.dir_cur h0] at h1
      cases h1
  | sys op =>
    rcases step_reach (by simp) hp hr with rfl | hd
    · exact hs
    · cases op with
      | syncDir d => exact sync_stable h0 hs (done_one hd)
      | symlink q t => exact turns_stable h0 hs ha (symlink_turns (done_one hd))
      | _ => exact absurd hp id
  | remove q =>
    rcases step_reach (by simp) hp hr with rfl | hd
    · exact hs
    · simp only [stepOps] at hd
      by_cases hq : fs.cur q = .missing
      · rw [if_pos hq] at hd; cases hd; exact hs
      · rw [if_neg hq] at hd; exact turns_stable h0 hs ha (unlink_turns (done_one hd))

theorem step_private {fs fs' : Fs} {s : Step} {w : Writer} (h0 : WF fs) (hp : Plain s) (hw : w.atomic = true) (h : Private fs w)
    (hd : done fs (stepOps fs s) = some fs') : Private fs' w := by
  have hlast := lastByte_tmp hw
  cases s with
  | put w' bufs => exact Private.put h0 hp.1 h (fun hx => hp.2 (hx ▸ hlast)) hd
  | sys op =>
    cases op with
    | syncDir d => exact sync_private h0 h (done_one hd)
    | symlink q t => exact turns_private h (fun hx => hp (by rw [← hx]; exact hlast)) (symlink_turns (done_one hd))
    | _ => exact absurd hp id
  | remove q =>
    simp only [stepOps] at hd
    by_cases hq : fs.cur q = .missing
    · rw [if_pos hq] at hd; cases hd; exact h
    · rw [if_neg hq] at hd; exact turns_private h (fun hx => hp (by rw [← hx]; exact hlast)) (unlink_turns (done_one hd))

theorem AllPrivate.tail {fs fs' : Fs} {s : Step} {steps : List Step} (h0 : WF fs) (hpl : ∀ s' ∈ s :: steps, Plain s')
    (h : AllPrivate fs (s :: steps)) (hd : done fs (stepOps fs s) = some fs') : AllPrivate fs' steps := by
  intro w bufs hw
  have hsafe := (hpl _ (List.mem_cons_of_mem _ hw)).1
  exact step_private h0 (hpl s List.mem_cons_self) hsafe.1 (h w bufs (List.mem_cons_of_mem _ hw)) hd

/-! ## Programs -/

theorem finish_wf {fs fs' : Fs} {steps : List Step} (h : WF fs) (hf : finish fs steps = some fs') : WF fs' := by
  induction steps generalizing fs with
  | nil => cases hf; exact h
  | cons s steps ih =>
    simp only [finish] at hf
    cases hd : done fs (stepOps fs s) with
    | none => rw [hd] at hf; cases hf
    | some f1 => rw [hd] at hf; exact ih (wf_done h hd) hf

theorem run_append {fs fs' : Fs} {a b : List Step} (h : Run fs (a ++ b) fs') :
    Run fs a fs' ∨ ∃ f1, finish fs a = some f1 ∧ Run f1 b fs' := by
  induction a generalizing fs with
  | nil => exact Or.inr ⟨fs, rfl, h⟩
  | cons s a ih =>
    cases h with
    | stop => exact Or.inl (.stop _ _)
    | here _ hr => exact Or.inl (.here _ hr)
    | next hd hr =>
      rcases ih hr with h1 | ⟨f1, h1, h2⟩
      · exact Or.inl (.next hd h1)
      · exact Or.inr ⟨f1, by simp only [finish, hd]; exact h1, h2⟩

theorem finish_append {fs : Fs} {a b : List Step} : finish fs (a ++ b) = (finish fs a).bind fun f1 => finish f1 b := by
  induction a generalizing fs with
  | nil => rfl
  | cons s a ih =>
    simp only [finish, List.cons_append]
    cases done fs (stepOps fs s) with
    | none => rfl
    | some f1 => exact ih

theorem finish_run {fs fs' : Fs} {steps : List Step} (h : finish fs steps = some fs') : Run fs steps fs' := by
  induction steps generalizing fs with
  | nil => cases h; exact .stop _ _
  | cons s steps ih =>
    simp only [finish] at h
    cases hd : done fs (stepOps fs s) with
    | none => rw [hd] at h; cases h
    | some f1 => rw [hd] at h; exact .next hd (ih h)

/-- A program leaves alone what it is not about. -/
theorem run_stable {fs fs' : Fs} {steps : List Step} {p : Path} {v : Found} (h0 : WF fs) (hpl : ∀ s ∈ steps, Plain s)
    (hpr : AllPrivate fs steps) (ha : ∀ s ∈ steps, Away p s) (hn : (∀ s ∈ steps, NoMake p s) ∨ v = .dir) (hs : Stable fs p v)
    (hr : Run fs steps fs') : Stable fs' p v := by
  induction hr with
  | stop => exact hs
  | here steps hr =>
    refine step_stable h0 (hpl _ List.mem_cons_self) (fun w bufs hw => hpr w bufs ?_) (ha _ List.mem_cons_self)
      (hn.imp_left fun h => h _ List.mem_cons_self) hs hr
    rw [List.mem_singleton] at hw
    rw [hw]
    exact List.mem_cons_self
  | next hd hr ih =>
    refine ih (wf_done h0 hd) (fun s hs => hpl s (List.mem_cons_of_mem _ hs)) (hpr.tail h0 hpl hd)
      (fun s hs => ha s (List.mem_cons_of_mem _ hs)) (hn.imp_left fun h s hs => h s (List.mem_cons_of_mem _ hs)) ?_
    refine step_stable h0 (hpl _ List.mem_cons_self) (fun w bufs hw => hpr w bufs ?_) (ha _ List.mem_cons_self)
      (hn.imp_left fun h => h _ List.mem_cons_self) hs (done_reach hd)
    rw [List.mem_singleton] at hw
    rw [hw]
    exact List.mem_cons_self

theorem finish_private {fs fs' : Fs} {steps rest : List Step} (h0 : WF fs) (hpl : ∀ s ∈ steps ++ rest, Plain s)
    (hpr : AllPrivate fs (steps ++ rest)) (hf : finish fs steps = some fs') : AllPrivate fs' rest := by
  induction steps generalizing fs with
  | nil => cases hf; exact hpr
  | cons s steps ih =>
    simp only [finish] at hf
    cases hd : done fs (stepOps fs s) with
    | none => rw [hd] at hf; cases hf
    | some f1 =>
      rw [hd] at hf
      exact ih (wf_done h0 hd) (fun s hs => hpl s (List.mem_cons_of_mem _ hs)) (AllPrivate.tail h0 hpl hpr hd) hf

/-! ## Files in directories that are not durable yet -/

/-- The entry can only be a file with this content. The directories above may be lost. -/
def Inside (fs : Fs) (p : Path) (x : Str) : Prop := ∀ e ∈ fs.hist p, ∃ i, e = .file i ∧ fs.inode i = ⟨x, true⟩

theorem inside_step {fs fs' : Fs} {s : Step} {p : Path} {x : Str} (h0 : WF fs) (hp : Plain s) (hpr : AllPrivate fs [s]) (ha : Away p s)
    (h : Inside fs p x) (hd : done fs (stepOps fs s) = some fs') : Inside fs' p x := by
  have turns : ∀ q, p ≠ q → Turns fs fs' q → Inside fs' p x := by
    rintro q hpq ⟨y, rfl, -, -, -⟩ e he
    simp only [setEnt] at he
    rw [upd_other _ _ hpq] at he
    exact h e he
  cases s with
  | put w bufs =>
    obtain ⟨hsafe, -⟩ := hp
    obtain ⟨h4, -⟩ := (write_inv (fs := fs') (bufs := bufs) h0 hsafe.1 hsafe.2.1 hsafe.2.2.1).2 hd
    have hu := unshared_target h0 ((hpr w bufs (by simp)).unshared ha.2)
    intro e he
    rcases h4.inv.hist p ha.2 e he with h1 | ⟨-, h1, -⟩ | ⟨h1, -⟩
    · obtain ⟨i, rfl, hi⟩ := h e h1
      refine ⟨i, rfl, ?_⟩
      rw [h4.inv.inode i (fun hx => hu (hx ▸ h1))]
      exact hi
    · obtain ⟨i, hi, -⟩ := h _ (h0.cur p)
      rw [h1] at hi
      cases hi
    · exact absurd h1 ha.1
  | sys op =>
    cases op with
    | syncDir d =>
      obtain ⟨h1, -, h3, -⟩ := sync_hist h0 (done_one hd)
      intro e he
      obtain ⟨i, hi, hx⟩ := h e (h1 p e he)
      exact ⟨i, hi, by rw [h3]; exact hx⟩
    | symlink q t => exact turns q ha (symlink_turns (done_one hd))
    | _ => exact absurd hp id
  | remove q =>
    simp only [stepOps] at hd
    by_cases hq : fs.cur q = .missing
    · rw [if_pos hq] at hd; cases hd; exact h
    · rw [if_neg hq] at hd; exact turns q ha (unlink_turns (done_one hd))

theorem curDir_step {fs fs' : Fs} {s : Step} {p : Path} (h0 : WF fs) (hp : Plain s) (ha : Away p s) (h : fs.cur p = .dir)
    (hd : done fs (stepOps fs s) = some fs') : fs'.cur p = .dir := by
  have turns : ∀ q, p ≠ q → Turns fs fs' q → fs'.cur p = .dir := by
    rintro q hpq ⟨y, rfl, -, -, -⟩
    simp only [setEnt]
    rw [upd_other _ _ hpq]
    exact h
  cases s with
  | put w bufs =>
    obtain ⟨hsafe, -⟩ := hp
    obtain ⟨h4, -⟩ := (write_inv (fs := fs') (bufs := bufs) h0 hsafe.1 hsafe.2.1 hsafe.2.2.1).2 hd
    rcases h4.inv.cur p ha.2 with h1 | ⟨h1, -⟩ | ⟨h1, -⟩
    · rw [h1]; exact h
    · exact h1
    · exact absurd h1 ha.1
  | sys op =>
    cases op with
    | syncDir d =>
      obtain ⟨-, h2, -, -⟩ := sync_hist h0 (done_one hd)
      rw [h2]; exact h
    | symlink q t => exact turns q ha (symlink_turns (done_one hd))
    | _ => exact absurd hp id
  | remove q =>
    simp only [stepOps] at hd
    by_cases hq : fs.cur q = .missing
    · rw [if_pos hq] at hd; cases hd; exact h
    · rw [if_neg hq] at hd; exact turns q ha (unlink_turns (done_one hd))

theorem finish_inside {fs fs' : Fs} {steps : List Step} {p : Path} {x : Str} (h0 : WF fs) (hpl : ∀ s ∈ steps, Plain s)
    (hpr : AllPrivate fs steps) (ha : ∀ s ∈ steps, Away p s) (h : Inside fs p x) (hf : finish fs steps = some fs') : Inside fs' p x := by
  induction steps generalizing fs with
  | nil => cases hf; exact h
  | cons s steps ih =>
    simp only [finish] at hf
    cases hd : done fs (stepOps fs s) with
    | none => rw [hd] at hf; cases hf
    | some f1 =>
      rw [hd] at hf
      refine ih (wf_done h0 hd) (fun s hs => hpl s (List.mem_cons_of_mem _ hs)) (hpr.tail h0 hpl hd)
        (fun s hs => ha s (List.mem_cons_of_mem _ hs)) ?_ hf
      refine inside_step h0 (hpl _ List.mem_cons_self) (fun w bufs hw => hpr w bufs ?_) (ha _ List.mem_cons_self) h hd
      rw [List.mem_singleton] at hw
      rw [hw]
      exact List.mem_cons_self

theorem finish_curDir {fs fs' : Fs} {steps : List Step} {p : Path} (h0 : WF fs) (hpl : ∀ s ∈ steps, Plain s)
    (ha : ∀ s ∈ steps, Away p s) (h : fs.cur p = .dir) (hf : finish fs steps = some fs') : fs'.cur p = .dir := by
  induction steps generalizing fs with
  | nil => cases hf; exact h
  | cons s steps ih =>
    simp only [finish] at hf
    cases hd : done fs (stepOps fs s) with
    | none => rw [hd] at hf; cases hf
    | some f1 =>
      rw [hd] at hf
      exact ih (wf_done h0 hd) (fun s hs => hpl s (List.mem_cons_of_mem _ hs)) (fun s hs => ha s (List.mem_cons_of_mem _ hs))
        (curDir_step h0 (hpl _ List.mem_cons_self) (ha _ List.mem_cons_self) h hd) hf

/-- A file that was written with all safeguards is inside its directory. -/
theorem put_inside {fs fs' : Fs} {w : Writer} {bufs : List Str} (h0 : WF fs) (hs : Safe w)
    (hd : done fs (writeOps w fs bufs) = some fs') : Inside fs' w.name bufs.flatten ∧ fs'.cur w.dir = .dir := by
  obtain ⟨h4, h5⟩ := (write_inv (fs := fs') (bufs := bufs) h0 hs.1 hs.2.1 hs.2.2.1).2 hd
  refine ⟨?_, h4.dir⟩
  intro e he
  rw [h5 hs.2.2.2] at he
  exact ⟨_, List.mem_singleton.1 he, h4.data⟩

/-- A file in a directory whose entry is durable, in a durable directory. -/
theorem inside_stable {fs : Fs} {d : Path} {c f : Str} {x : Str} (hd : Stable fs d .dir) (hc : ∀ e ∈ fs.hist (c :: d), e = .dir)
    (hi : Inside fs (f :: c :: d) x) : Stable fs (f :: c :: d) (.file x) := by
  rintro disk ⟨e, r, he, hr, hdisk⟩
  have h1 := hd disk ⟨e, r, he, hr, hdisk⟩
  rw [hdisk] at h1 ⊢
  obtain ⟨hu, hed⟩ := look_dir h1
  obtain ⟨i, h2, h3⟩ := hi _ (he _)
  have h4 := hc _ (he _)
  unfold look
  rw [if_pos (by simp only [up]; rw [hu, hed, h4]; rfl), h2]
  dsimp only
  rw [hr i (by rw [h3]), h3]

theorem inside_dir_stable {fs : Fs} {d : Path} {c : Str} (hd : Stable fs d .dir) (hc : ∀ e ∈ fs.hist (c :: d), e = .dir) :
    Stable fs (c :: d) .dir := by
  rintro disk ⟨e, r, he, hr, hdisk⟩
  have h1 := hd disk ⟨e, r, he, hr, hdisk⟩
  rw [hdisk] at h1 ⊢
  obtain ⟨hu, hed⟩ := look_dir h1
  have h4 := hc _ (he _)
  unfold look
  rw [if_pos (by simp only [up]; rw [hu, hed]; rfl), h4]

end Verif.Fs
