import Verif.Fs.Frame

/-!
# Writes without a temporary file
-/

namespace Verif.Fs

/-- A writer with `noAtomic` and `noSyncPath`. -/
def Direct (w : Writer) : Prop := w.atomic = false ∧ w.truncate = true ∧ w.syncFile = true ∧ w.syncPath = false

theorem Direct.tmp {w : Writer} (h : Direct w) : w.tmp = w.name := by
  unfold Writer.tmp Writer.name
  rw [h.1]
  rfl

theorem direct_phase {f0 fs : Fs} {w : Writer} {bufs : List Str} (hw : Direct w) (h : done f0 (writeOps w f0 bufs) = some fs) :
    Phase3 f0 w bufs.flatten fs := by
  unfold writeOps at h
  rw [hw.1, hw.2.1, hw.2.2.1, hw.2.2.2] at h
  simp only [if_true, Bool.false_eq_true, if_false, List.append_nil] at h
  simp only [done_append] at h
  cases h1 : done f0 (if w.createPath = true then mkdirs f0 w.dir else []) with
  | none => rw [h1] at h; cases h
  | some f1 =>
  rw [h1, Option.bind_some] at h
  have p1 := phase1_mkdirs (done_reach h1)
  cases h2 : done f1 [.openWrite w.tmp true] with
  | none => rw [h2] at h; cases h
  | some f2 =>
  rw [h2, Option.bind_some] at h
  have p2 := phase2_open p1 (done_one h2)
  cases h3 : done f2 (bufs.map .write) with
  | none => rw [h3] at h; cases h
  | some f3 =>
  rw [h3, Option.bind_some] at h
  have p3 := phase2_writes p2 h3
  rw [List.nil_append] at p3
  cases h4 : done f3 [.fsync] with
  | none => rw [h4] at h; cases h
  | some f4 =>
  rw [h4, Option.bind_some] at h
  have p4 := phase3_fsync p3 (done_one h4)
  exact phase3_close p4 (done_one h)

/-- The file is there now, with this content, which was synced. -/
def Here (fs : Fs) (p : Path) (x : Str) : Prop := ∃ i, fs.cur p = .file i ∧ fs.inode i = ⟨x, true⟩

theorem direct_here {f0 fs : Fs} {w : Writer} {bufs : List Str} (hw : Direct w) (h : done f0 (writeOps w f0 bufs) = some fs) :
    Here fs w.name bufs.flatten ∧ fs.cur w.dir = .dir := by
  have p := direct_phase hw h
  refine ⟨⟨_, ?_, p.data⟩, p.dir⟩
  rw [← hw.tmp]
  exact p.tmp

theorem direct_keeps {f0 fs : Fs} {w : Writer} {bufs : List Str} {p : Path} {x : Str} (h0 : WF f0) (hw : Direct w) (hpr : Private f0 w)
    (hp : p ≠ w.name) (hh : Here f0 p x) (h : done f0 (writeOps w f0 bufs) = some fs) : Here fs p x := by
  have p3 := direct_phase hw h
  rw [← hw.tmp] at hp
  obtain ⟨i, hi, hx⟩ := hh
  have hu := unshared_target h0 (hpr.unshared hp)
  refine ⟨i, ?_, ?_⟩
  · rcases p3.pre.cur p hp with h1 | ⟨-, h1, -⟩
    · rw [h1]; exact hi
    · rw [hi] at h1; cases h1
  · rw [p3.pre.inode i (fun hx => hu (by rw [← hx, ← hi]; exact h0.cur p))]
    exact hx

theorem direct_dir {f0 fs : Fs} {w : Writer} {bufs : List Str} {p : Path} (hw : Direct w) (hp : f0.cur p = .dir)
    (h : done f0 (writeOps w f0 bufs) = some fs) : fs.cur p = .dir := by
  have p3 := direct_phase hw h
  by_cases hpt : p = w.tmp
  · exact absurd (hpt ▸ hp) p3.notDir
  · rcases p3.pre.cur p hpt with h1 | ⟨h1, -⟩
    · rw [h1]; exact hp
    · exact h1

theorem direct_private {f0 fs : Fs} {w w' : Writer} {bufs : List Str} (h0 : WF f0) (hw : Direct w) (hpr : Private f0 w)
    (h : Private f0 w') (hn : w'.tmp ≠ w.name) (hd : done f0 (writeOps w f0 bufs) = some fs) : Private fs w' := by
  have p3 := direct_phase hw hd
  rw [← hw.tmp] at hn
  intro i hi p hp hm
  rcases p3.pre.cur w'.tmp hn with hc | ⟨hc, -⟩
  · rw [hi] at hc
    have hit : i ≠ target f0 w := by
      intro hx
      refine unshared_target h0 (hpr.unshared hn) ?_
      rw [← hx, hc]
      exact h0.cur _
    by_cases hpt : p = w.tmp
    · subst hpt
      rcases p3.pre.tmpHist _ hm with h1 | h1 | h1
      · exact h i hc.symm _ hp h1
      · exact hit (Ent.file.inj h1)
      · cases h1
    · rcases p3.pre.hist p hpt _ hm with h1 | ⟨h1, -⟩
      · exact h i hc.symm p hp h1
      · cases h1
  · rw [hi] at hc; cases hc

theorem Stable.dir_above {fs : Fs} {p a : Path} (h0 : WF fs) (h : Stable fs p .dir) (ha : a <:+ p) : fs.cur a = .dir := by
  have hd := look_dir (h _ (crash_view h0))
  by_cases hp : a = p
  · rw [hp]; exact hd.2
  · cases p with
    | nil => exact absurd (List.eq_nil_of_suffix_nil ha) hp
    | cons c d =>
      rw [List.suffix_cons_iff] at ha
      rcases ha with ha | ha
      · exact absurd ha hp
      · exact up_suffix hd.1 ha (by simp)

/-- A directory stays durable when nothing was added to what may be found above it. -/
theorem Stable.dir_mono {fs fs' : Fs} {p : Path} (h0 : WF fs) (h : Stable fs p .dir)
    (hm : ∀ a, a <:+ p → ∀ e ∈ fs'.hist a, e ∈ fs.hist a) : Stable fs' p .dir := by
  rintro disk ⟨e', r, he', hr, hd⟩
  rw [hd]
  classical
  let e : Path → Ent := fun a => if a <:+ p then e' a else fs.cur a
  have hc : Crash fs (look e fun i => (fs.inode i).data) := by
    refine ⟨e, _, ?_, fun _ _ => rfl, fun _ => rfl⟩
    intro a
    by_cases ha : a <:+ p
    · simp only [e, if_pos ha]
      exact hm a ha _ (he' a)
    · simp only [e, if_neg ha]
      exact h0.cur a
  obtain ⟨h1, h2⟩ := look_dir (h _ hc)
  have hep : e p = e' p := by simp only [e, if_pos (List.suffix_refl p)]
  have hup : up e' p = up e p := up_congr fun a ha hp => by
    have : a <:+ p := ha.trans (List.tail_suffix p)
    simp only [e, if_pos this]
  unfold look
  rw [hup, h1, ← hep, h2]
  rfl

theorem direct_stable {f0 fs : Fs} {w : Writer} {bufs : List Str} {p : Path} (h0 : WF f0) (hw : Direct w) (h : Stable f0 p .dir)
    (hd : done f0 (writeOps w f0 bufs) = some fs) : Stable fs p .dir := by
  have p3 := direct_phase hw hd
  refine h.dir_mono h0 ?_
  intro a ha e he
  have hc := h.dir_above h0 ha
  by_cases hat : a = w.tmp
  · exact absurd (hat ▸ hc) p3.notDir
  · rcases p3.pre.hist a hat e he with h1 | ⟨-, h1, -⟩
    · exact h1
    · rw [hc] at h1; cases h1

/-! ## Syncs of directories -/

theorem syncs_hist {fs fs' : Fs} {ds : List Path} (h0 : WF fs) (hf : finish fs (ds.map fun d => .sys (.syncDir d)) = some fs') :
    (∀ p, ∀ e ∈ fs'.hist p, e ∈ fs.hist p) ∧ fs'.cur = fs.cur ∧ fs'.inode = fs.inode ∧
      ∀ d ∈ ds, ∀ c, ∀ e ∈ fs'.hist (c :: d), e = fs.cur (c :: d) := by
  induction ds generalizing fs with
  | nil => cases hf; exact ⟨fun _ _ h => h, rfl, rfl, fun _ h => by cases h⟩
  | cons d ds ih =>
    simp only [finish, List.map_cons] at hf
    cases hd : done fs (stepOps fs (.sys (.syncDir d))) with
    | none => rw [hd] at hf; cases hf
    | some f1 =>
      rw [hd, Option.bind_some] at hf
      obtain ⟨a1, a2, a3, a4⟩ := sync_hist h0 (done_one hd)
      obtain ⟨b1, b2, b3, b4⟩ := ih (wf_done h0 hd) hf
      refine ⟨fun p e he => a1 p e (b1 p e he), b2.trans a2, b3.trans a3, ?_⟩
      intro d' hd' c e he
      rcases List.mem_cons.1 hd' with rfl | hd'
      · have := b1 _ e he
        rw [a4] at this
        exact List.mem_singleton.1 this
      · rw [b4 d' hd' c e he, a2]

/-- The entry can only be a directory. The directories above may be lost. -/
def InsideDir (fs : Fs) (p : Path) : Prop := ∀ e ∈ fs.hist p, e = .dir

theorem insideDir_step {fs fs' : Fs} {s : Step} {p : Path} (h0 : WF fs) (hp : Plain s) (ha : Away p s)
    (h : InsideDir fs p) (hd : done fs (stepOps fs s) = some fs') : InsideDir fs' p := by
  have turns : ∀ q, p ≠ q → Turns fs fs' q → InsideDir fs' p := by
    rintro q hpq ⟨y, rfl, -, -, -⟩ e he
    simp only [setEnt] at he
    rw [upd_other _ _ hpq] at he
    exact h e he
  cases s with
  | put w bufs =>
    obtain ⟨hsafe, -⟩ := hp
    obtain ⟨h4, -⟩ := (write_inv (fs := fs') (bufs := bufs) h0 hsafe.1 hsafe.2.1 hsafe.2.2.1).2 hd
    intro e he
    rcases h4.inv.hist p ha.2 e he with h1 | ⟨h1, -, -⟩ | ⟨h1, -⟩
    · exact h e h1
    · exact h1
    · exact absurd h1 ha.1
  | sys op =>
    cases op with
    | syncDir d =>
      obtain ⟨h1, -, -, -⟩ := sync_hist h0 (done_one hd)
      exact fun e he => h e (h1 p e he)
    | symlink q t => exact turns q ha (symlink_turns (done_one hd))
    | _ => exact absurd hp id
  | remove q =>
    simp only [stepOps] at hd
    by_cases hq : fs.cur q = .missing
    · rw [if_pos hq] at hd; cases hd; exact h
    · rw [if_neg hq] at hd; exact turns q ha (unlink_turns (done_one hd))

theorem finish_insideDir {fs fs' : Fs} {steps : List Step} {p : Path} (h0 : WF fs) (hpl : ∀ s ∈ steps, Plain s)
    (ha : ∀ s ∈ steps, Away p s) (h : InsideDir fs p) (hf : finish fs steps = some fs') : InsideDir fs' p := by
  induction steps generalizing fs with
  | nil => cases hf; exact h
  | cons s steps ih =>
    simp only [finish] at hf
    cases hd : done fs (stepOps fs s) with
    | none => rw [hd] at hf; cases hf
    | some f1 =>
      rw [hd] at hf
      exact ih (wf_done h0 hd) (fun s hs => hpl s (List.mem_cons_of_mem _ hs)) (fun s hs => ha s (List.mem_cons_of_mem _ hs))
        (insideDir_step h0 (hpl _ List.mem_cons_self) (ha _ List.mem_cons_self) h hd) hf

/-- A write with all safeguards syncs the directory, with everything in it. -/
theorem put_syncs {fs fs' : Fs} {w : Writer} {bufs : List Str} (h0 : WF fs) (hs : Safe w)
    (hd : done fs (writeOps w fs bufs) = some fs') (c : Str) : fs'.hist (c :: w.dir) = [fs'.cur (c :: w.dir)] := by
  obtain ⟨ops, hops⟩ : ∃ ops, writeOps w fs bufs = ops ++ [.syncDir w.dir] := by
    unfold writeOps
    rw [hs.2.2.2]
    simp only [if_true, ← List.append_assoc]
    exact ⟨_, rfl⟩
  rw [hops, done_append] at hd
  cases h1 : done fs ops with
  | none => rw [h1] at hd; cases hd
  | some f1 =>
    rw [h1, Option.bind_some] at hd
    obtain ⟨-, h2, -, h4⟩ := sync_hist (wf_done h0 h1) (done_one hd)
    rw [h4, h2]

/-- A file below durable directories. -/
theorem chain_stable {fs : Fs} {B q : Path} {f x : Str} (hB : Stable fs B .dir) (hd : ∀ r, r ≠ [] → r <:+ q → InsideDir fs (r ++ B))
    (hq : q ≠ []) (hi : Inside fs (f :: (q ++ B)) x) : Stable fs (f :: (q ++ B)) (.file x) := by
  have dirs : ∀ r, r <:+ q → Stable fs (r ++ B) .dir := by
    intro r
    induction r with
    | nil => exact fun _ => hB
    | cons c r ih =>
      intro hr
      exact inside_dir_stable (ih ((List.suffix_cons c r).trans hr)) (hd (c :: r) (by simp) hr)
  cases q with
  | nil => exact absurd rfl hq
  | cons c q =>
    exact inside_stable (dirs q (List.suffix_cons c q)) (hd (c :: q) (by simp) (List.suffix_refl _)) hi

end Verif.Fs
