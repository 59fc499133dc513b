import Verif.Fs.Model

/-!
# C46 Atomic writes
-/

namespace Verif.Fs

/-! ## Facts about the model -/

theorem upd_same {α β : Type} [DecidableEq α] (f : α → β) (a : α) (b : β) : upd f a b a = b := by simp [upd]

theorem upd_other {α β : Type} [DecidableEq α] (f : α → β) {a x : α} (b : β) (h : x ≠ a) : upd f a b x = f x := by simp [upd, h]

/-- What holds of every file system that is reached from an empty one. -/
structure WF (fs : Fs) : Prop where
  cur : ∀ p, fs.cur p ∈ fs.hist p
  lt : ∀ p i, Ent.file i ∈ fs.hist p → i < fs.next
  below : ∀ c d, fs.cur d ≠ .dir → fs.hist (c :: d) = [.missing]
  root : fs.hist [] = [.dir]
  rootCur : fs.cur [] = .dir

theorem WF.fdLt {fs : Fs} (h : WF fs) {p : Path} {i : Nat} (hp : fs.cur p = .file i) : i < fs.next := h.lt p i (hp ▸ h.cur p)

/-- An empty file system. -/
def empty : Fs :=
  { cur := fun p => if p = [] then .dir else .missing, hist := fun p => if p = [] then [.dir] else [.missing],
    inode := fun _ => ⟨[], true⟩, next := 0, fd := none }

theorem wf_empty : WF empty := by
  constructor
  · intro p; unfold empty; dsimp only; split <;> simp
  · intro p i h; unfold empty at h; dsimp only at h; split at h <;> simp at h
  · intro c d _; rfl
  · rfl
  · rfl

theorem parentDir_cons {fs : Fs} {p : Path} (h : parentDir fs p = true) : ∃ c d, p = c :: d ∧ fs.cur d = .dir := by
  cases p with
  | nil => cases h
  | cons c d => exact ⟨c, d, rfl, by simpa [parentDir] using h⟩

theorem wf_setEnt {fs : Fs} (h : WF fs) {p : Path} {e : Ent} (hp : parentDir fs p = true) (hd : fs.cur p ≠ .dir ∨ e = .dir)
    (hlt : ∀ i, e = .file i → i < fs.next) : WF (setEnt fs p e) := by
  obtain ⟨c, d, rfl, hcd⟩ := parentDir_cons hp
  constructor
  · intro q
    unfold setEnt; dsimp only
    by_cases hq : q = c :: d
    · subst hq; rw [upd_same, upd_same]; exact List.mem_cons_self
    · rw [upd_other _ _ hq, upd_other _ _ hq]; exact h.cur q
  · intro q i hi
    unfold setEnt at hi ⊢; dsimp only at hi ⊢
    by_cases hq : q = c :: d
    · subst hq
      rw [upd_same] at hi
      rcases List.mem_cons.1 hi with hi | hi
      · exact hlt i hi.symm
      · exact h.lt _ i hi
    · rw [upd_other _ _ hq] at hi; exact h.lt q i hi
  · intro c' d' hne
    unfold setEnt at hne ⊢; dsimp only at hne ⊢
    by_cases hd' : d' = c :: d
    · subst hd'
      rw [upd_same] at hne
      have hn : c' :: c :: d ≠ c :: d := by intro hx; have := congrArg List.length hx; simp at this
      rw [upd_other _ _ hn]
      rcases hd with hd | hd
      · exact h.below _ _ hd
      · exact absurd hd hne
    · rw [upd_other _ _ hd'] at hne
      by_cases hq : c' :: d' = c :: d
      · cases hq; exact absurd hcd hne
      · rw [upd_other _ _ hq]; exact h.below _ _ hne
  · unfold setEnt; dsimp only; rw [upd_other _ _ (by simp)]; exact h.root
  · unfold setEnt; dsimp only; rw [upd_other _ _ (by simp)]; exact h.rootCur

/-- Every system call leaves a file system well formed, so all that are reached are. -/
theorem wf_exec {fs fs' : Fs} (h : WF fs) (op : Sys) (he : exec fs op = some fs') : WF fs' := by
  have hsame : ∀ (ino : Nat → Inode) (fd : Option (Nat × Nat)), WF { fs with inode := ino, fd := fd } :=
    fun ino fd => ⟨h.cur, h.lt, h.below, h.root, h.rootCur⟩
  cases op with
  | mkdir p =>
    simp only [exec] at he
    split at he
    · rename_i hc
      cases he
      exact wf_setEnt h hc.1 (Or.inr rfl) (by intro i hi; cases hi)
    · cases he
  | openWrite p trunc =>
    simp only [exec] at he
    split at he
    · rename_i hp
      split at he
      · cases he; exact hsame _ _
      · rename_i hm
        cases he
        have h2 := wf_setEnt (e := .file fs.next) (fs := { fs with next := fs.next + 1 })
          ⟨h.cur, fun p i hi => Nat.lt_succ_of_lt (h.lt p i hi), h.below, h.root, h.rootCur⟩ (p := p) hp
          (Or.inl (by dsimp only; rw [hm]; simp)) (by intro i hi; cases hi; exact Nat.lt_succ_self _)
        exact ⟨h2.cur, h2.lt, h2.below, h2.root, h2.rootCur⟩
      · cases he
    · cases he
  | write d =>
    simp only [exec] at he
    split at he
    · cases he; exact hsame _ _
    · cases he
  | seek pos =>
    simp only [exec] at he
    split at he
    · cases he; exact hsame _ _
    · cases he
  | fsync =>
    simp only [exec] at he
    split at he
    · cases he; exact hsame _ _
    · cases he
  | close =>
    simp only [exec] at he
    split at he
    · cases he; exact hsame _ _
    · cases he
  | rename a b =>
    simp only [exec] at he
    split at he
    · rename_i hc
      obtain ⟨ha, hb, hbd, had, ham⟩ := hc
      cases he
      by_cases hab : a = b
      · rw [if_pos hab]; exact h
      · rw [if_neg hab]
        have h1 := wf_setEnt (e := .missing) h ha (Or.inl had) (by intro i hi; cases hi)
        refine wf_setEnt h1 ?_ (Or.inl ?_) ?_
        · obtain ⟨c, d, rfl, hcd⟩ := parentDir_cons hb
          have : d ≠ a := fun hx => had (hx ▸ hcd)
          simp only [parentDir, setEnt]
          rw [upd_other _ _ this, hcd]
          rfl
        · simp only [setEnt]
          rw [upd_other _ _ (Ne.symm hab)]
          exact hbd
        · intro i hi
          exact h.fdLt hi
    · cases he
  | unlink p =>
    simp only [exec] at he
    split at he
    · rename_i hc
      cases he
      exact wf_setEnt h hc.1 (Or.inl hc.2.1) (by intro i hi; cases hi)
    · cases he
  | symlink p target =>
    simp only [exec] at he
    split at he
    · rename_i hc
      cases he
      exact wf_setEnt h hc.1 (Or.inl (by rw [hc.2]; simp)) (by intro i hi; cases hi)
    · cases he
  | syncDir p =>
    simp only [exec] at he
    split at he
    · rename_i hc
      cases he
      constructor
      · intro q; dsimp only; split
        · exact List.mem_singleton.2 rfl
        · exact h.cur q
      · intro q i hi
        dsimp only at hi
        split at hi
        · exact h.fdLt (List.mem_singleton.1 hi).symm
        · exact h.lt q i hi
      · intro c d hd
        dsimp only at hd ⊢
        rw [if_neg (by rintro ⟨-, hx⟩; exact hd (by rw [List.tail_cons] at hx; rw [hx]; exact hc))]
        exact h.below c d hd
      · dsimp only; rw [if_neg (by simp)]; exact h.root
      · exact h.rootCur
    · cases he

theorem wf_done {fs fs' : Fs} {ops : List Sys} (h : WF fs) (hd : done fs ops = some fs') : WF fs' := by
  induction ops generalizing fs with
  | nil => cases hd; exact h
  | cons op ops ih =>
    simp only [done] at hd
    cases he : exec fs op with
    | none => rw [he] at hd; cases hd
    | some fs1 => rw [he] at hd; exact ih (wf_exec h op he) hd

theorem wf_reach {fs fs' : Fs} {ops : List Sys} (h : WF fs) (hr : Reach fs ops fs') : WF fs' := by
  induction hr with
  | stop => exact h
  | part ops k he => exact wf_exec h _ he
  | step he _ ih => exact ih (wf_exec h _ he)

theorem reach_append {fs fs' : Fs} {a b : List Sys} (h : Reach fs (a ++ b) fs') :
    Reach fs a fs' ∨ ∃ fs1, done fs a = some fs1 ∧ Reach fs1 b fs' := by
  induction a generalizing fs with
  | nil => exact Or.inr ⟨fs, rfl, h⟩
  | cons op a ih =>
    cases h with
    | stop => exact Or.inl (.stop _ _)
    | part _ k he => exact Or.inl (.part _ k he)
    | step he hr =>
      rcases ih hr with h1 | ⟨fs1, h1, h2⟩
      · exact Or.inl (.step he h1)
      · exact Or.inr ⟨fs1, by simp only [done, he]; exact h1, h2⟩

theorem done_append {fs : Fs} {a b : List Sys} : done fs (a ++ b) = (done fs a).bind fun fs1 => done fs1 b := by
  induction a generalizing fs with
  | nil => rfl
  | cons op a ih =>
    simp only [done, List.cons_append]
    cases exec fs op with
    | none => rfl
    | some fs1 => exact ih

theorem done_reach {fs fs' : Fs} {ops : List Sys} (h : done fs ops = some fs') : Reach fs ops fs' := by
  induction ops generalizing fs with
  | nil => cases h; exact .stop _ _
  | cons op ops ih =>
    simp only [done] at h
    cases he : exec fs op with
    | none => rw [he] at h; cases h
    | some fs1 => rw [he] at h; exact .step he (ih h)

/-- What is left as it is by every system call of a sequence, or a part of a write, is left as it is. -/
theorem reach_inv {I : Fs → Prop} {fs fs' : Fs} {ops : List Sys} (h : I fs)
    (hop : ∀ op ∈ ops, ∀ a b, I a → exec a op = some b → I b)
    (hpart : ∀ d, .write d ∈ ops → ∀ k a b, I a → exec a (.write (d.take k)) = some b → I b) (hr : Reach fs ops fs') : I fs' := by
  induction hr with
  | stop => exact h
  | part ops k he => exact hpart _ List.mem_cons_self k _ _ h he
  | step he _ ih =>
    exact ih (hop _ List.mem_cons_self _ _ h he) (fun op ho => hop op (List.mem_cons_of_mem _ ho))
      (fun d hd => hpart d (List.mem_cons_of_mem _ hd))

/-! ## Specification -/

/-- Every crash leaves this at the path. -/
def Stable (fs : Fs) (p : Path) (v : Found) : Prop := ∀ disk, Crash fs disk → disk p = v

/-- No file that may be found at the path is open for writing under the temporary name. -/
def Unshared (fs : Fs) (w : Writer) (p : Path) : Prop := ∀ i, Ent.file i ∈ fs.hist p → fs.cur w.tmp ≠ .file i

/-! ## Directories above -/

theorem up_suffix {e : Path → Ent} {p a : Path} (h : up e p = true) (ha : a <:+ p.tail) (hp : p ≠ []) : e a = .dir := by
  induction p with
  | nil => exact absurd rfl hp
  | cons c d ih =>
    simp only [up, Bool.and_eq_true, beq_iff_eq] at h
    rw [List.tail_cons] at ha
    by_cases had : a = d
    · rw [had]; exact h.2
    · cases d with
      | nil => exact absurd (List.suffix_nil.1 ha) had
      | cons c' d' =>
        rcases List.suffix_cons_iff.1 ha with ha | ha
        · exact absurd ha had
        · exact ih h.1 ha (by simp)

theorem up_congr {e e' : Path → Ent} {p : Path} (h : ∀ a, a <:+ p.tail → p ≠ [] → e a = e' a) : up e p = up e' p := by
  induction p with
  | nil => rfl
  | cons c d ih =>
    simp only [up]
    rw [h d (List.suffix_refl _) (by simp), ih]
    intro a ha hd
    refine h a ?_ (by simp)
    rw [List.tail_cons]
    exact ha.trans (List.tail_suffix d)

/-- Nothing is below what is not a directory. -/
theorem WF.nothing {fs : Fs} (h : WF fs) {p a : Path} (ha : a <:+ p.tail) (hp : p ≠ []) (hd : fs.cur a ≠ .dir) : fs.hist p = [.missing] := by
  induction p with
  | nil => exact absurd rfl hp
  | cons c d ih =>
    rw [List.tail_cons] at ha
    by_cases had : a = d
    · exact h.below c d (had ▸ hd)
    · cases d with
      | nil => exact absurd (List.suffix_nil.1 ha) had
      | cons c' d' =>
        rcases List.suffix_cons_iff.1 ha with ha | ha
        · exact absurd ha had
        · have := ih ha (by simp)
          refine h.below c _ ?_
          intro hx
          have hm := h.cur (c' :: d')
          rw [this, hx] at hm
          simp at hm

/-! ## The states while writing -/

/-- The file that is written. -/
def target (fs : Fs) (w : Writer) : Nat :=
  match fs.cur w.tmp with
  | .file i => i
  | _ => fs.next

theorem unshared_target {fs : Fs} (h : WF fs) {w : Writer} {p : Path} (hu : Unshared fs w p) : Ent.file (target fs w) ∉ fs.hist p := by
  intro hm
  have h1 := hu _ hm
  have h2 := h.lt p _ hm
  unfold target at h1 h2
  cases hc : fs.cur w.tmp with
  | file i => rw [hc] at h1; exact h1 rfl
  | missing => rw [hc] at h2; exact Nat.lt_irrefl _ h2
  | dir => rw [hc] at h2; exact Nat.lt_irrefl _ h2
  | link t => rw [hc] at h2; exact Nat.lt_irrefl _ h2

/-- A state while writing, with the state it was started from. -/
structure Inv0 (f0 : Fs) (w : Writer) (new : Str) (fs : Fs) : Prop where
  hist : ∀ p, p ≠ w.tmp → ∀ e ∈ fs.hist p, e ∈ f0.hist p ∨ (e = .dir ∧ f0.cur p = .missing ∧ p <:+ w.dir) ∨
    (p = w.name ∧ f0.cur p ≠ .dir ∧ e = .file (target f0 w) ∧ fs.inode (target f0 w) = ⟨new, true⟩)
  cur : ∀ p, p ≠ w.tmp → fs.cur p = f0.cur p ∨ (fs.cur p = .dir ∧ f0.cur p = .missing ∧ p <:+ w.dir) ∨
    (p = w.name ∧ f0.cur p ≠ .dir ∧ fs.cur p = .file (target f0 w) ∧ fs.inode (target f0 w) = ⟨new, true⟩)
  inode : ∀ i, i ≠ target f0 w → fs.inode i = f0.inode i
  tmpDir : f0.cur w.tmp = .dir → (∀ e ∈ fs.hist w.tmp, e ∈ f0.hist w.tmp) ∧ fs.cur w.tmp = .dir

/-- A state while writing, with what the entry of the temporary file may be. -/
structure Inv (f0 : Fs) (w : Writer) (new : Str) (fs : Fs) : Prop where
  hist : ∀ p, p ≠ w.tmp → ∀ e ∈ fs.hist p, e ∈ f0.hist p ∨ (e = .dir ∧ f0.cur p = .missing ∧ p <:+ w.dir) ∨
    (p = w.name ∧ f0.cur p ≠ .dir ∧ e = .file (target f0 w) ∧ fs.inode (target f0 w) = ⟨new, true⟩)
  cur : ∀ p, p ≠ w.tmp → fs.cur p = f0.cur p ∨ (fs.cur p = .dir ∧ f0.cur p = .missing ∧ p <:+ w.dir) ∨
    (p = w.name ∧ f0.cur p ≠ .dir ∧ fs.cur p = .file (target f0 w) ∧ fs.inode (target f0 w) = ⟨new, true⟩)
  inode : ∀ i, i ≠ target f0 w → fs.inode i = f0.inode i
  tmpDir : f0.cur w.tmp = .dir → (∀ e ∈ fs.hist w.tmp, e ∈ f0.hist w.tmp) ∧ fs.cur w.tmp = .dir
  tmpHist : ∀ e ∈ fs.hist w.tmp, e ∈ f0.hist w.tmp ∨ e = .file (target f0 w) ∨ e = .missing

theorem Inv.base {f0 fs : Fs} {w : Writer} {new : Str} (h : Inv f0 w new fs) : Inv0 f0 w new fs := ⟨h.hist, h.cur, h.inode, h.tmpDir⟩

theorem suffix_ne_cons {p d : Path} (h : p <:+ d) (c : Str) : p ≠ c :: d := by
  intro hx
  have := h.length_le
  rw [hx] at this
  simp at this
  omega

/-- What a crash leaves while writing. -/
theorem Inv0.crash {f0 fs : Fs} {w : Writer} {new : Str} (h0 : WF f0) (h : Inv0 f0 w new fs) {p : Path} {v : Found} (hp : p ≠ w.tmp)
    (hu : Unshared f0 w p) (hd : ¬(f0.cur p = .missing ∧ p <:+ w.dir)) (hs : Stable f0 p v) {disk : Path → Found} (hc : Crash fs disk) :
    disk p = v ∨ (p = w.name ∧ disk p = .file new) := by
  obtain ⟨e', r', he', hr', hdisk⟩ := hc
  let e : Path → Ent := fun q => if e' q ∈ f0.hist q then e' q else f0.cur q
  let r : Nat → Str := fun i => if i = target f0 w then (f0.inode i).data else r' i
  have hcr : Crash f0 (look e r) := by
    refine ⟨e, r, ?_, ?_, fun _ => rfl⟩
    · intro q
      by_cases hq : e' q ∈ f0.hist q
      · simp only [e, if_pos hq]; exact hq
      · simp only [e, if_neg hq]; exact h0.cur q
    · intro i hi
      by_cases ht : i = target f0 w
      · simp only [r, if_pos ht]
      · simp only [r, if_neg ht]
        rw [hr' i (by rw [h.inode i ht]; exact hi), h.inode i ht]
  have hv : look e r p = v := hs _ hcr
  rw [hdisk p]
  -- the directories above
  by_cases hab : ∀ a, a <:+ p.tail → p ≠ [] → e' a = e a
  · have hup : up e' p = up e p := up_congr hab
    by_cases hin : e' p ∈ f0.hist p
    · left
      rw [← hv]
      unfold look
      rw [hup]
      have hep : e p = e' p := by simp only [e, if_pos hin]
      rw [hep]
      cases hx : e' p with
      | file i =>
        have : r i = r' i := by
          have : i ≠ target f0 w := by
            rintro rfl
            exact unshared_target h0 hu (hx ▸ hin)
          simp only [r, if_neg this]
        dsimp only
        rw [this]
      | missing => rfl
      | dir => rfl
      | link t => rfl
    · rcases h.hist p hp _ (he' p) with h1 | ⟨-, h2, h3⟩ | ⟨h1, h2, h3, h4⟩
      · exact absurd h1 hin
      · exact absurd ⟨h2, h3⟩ hd
      · by_cases hu' : up e' p = true
        · right
          refine ⟨h1, ?_⟩
          unfold look
          rw [if_pos hu', h3]
          dsimp only
          rw [hr' _ (by rw [h4])]
          rw [h4]
        · left
          rw [← hv]
          unfold look
          rw [if_neg hu', if_neg (by rw [← hup]; exact hu')]
  · -- nothing was below
    have : ∃ a, a <:+ p.tail ∧ p ≠ [] ∧ e' a ≠ e a := by
      refine Classical.byContradiction fun hx => hab fun a ha hp' => Classical.byContradiction fun hne => hx ⟨a, ha, hp', hne⟩
    obtain ⟨a, ha, hp', hne⟩ := this
    have hnd : f0.cur a ≠ .dir ∧ e a = f0.cur a := by
      have hni : e' a ∉ f0.hist a := by
        intro hx
        exact hne (by simp only [e, if_pos hx])
      refine ⟨?_, by simp only [e, if_neg hni]⟩
      by_cases hat : a = w.tmp
      · -- the temporary file
        intro hx
        subst hat
        exact hni ((h.tmpDir hx).1 _ (he' _))
      · rcases h.hist a hat _ (he' a) with h1 | ⟨-, h2, -⟩ | ⟨h1, h2, -⟩
        · exact absurd h1 hni
        · rw [h2]; simp
        · exact h2
    have hno := h0.nothing ha hp' hnd.1
    have hep : e p = .missing := by
      have : e p ∈ f0.hist p := by
        by_cases hq : e' p ∈ f0.hist p
        · simp only [e, if_pos hq]; exact hq
        · simp only [e, if_neg hq]; exact h0.cur p
      rw [hno] at this
      exact List.mem_singleton.1 this
    have hvm : v = .missing := by
      rw [← hv]; unfold look; rw [hep]; split <;> rfl
    rcases h.hist p hp _ (he' p) with h1 | ⟨-, h2, h3⟩ | ⟨h1, h2, h3, h4⟩
    · left
      rw [hno] at h1
      rw [hvm]
      unfold look
      rw [List.mem_singleton.1 h1]
      split <;> rfl
    · exact absurd ⟨h2, h3⟩ hd
    · by_cases hu' : up e' p = true
      · right
        refine ⟨h1, ?_⟩
        unfold look
        rw [if_pos hu', h3]
        dsimp only
        rw [hr' _ (by rw [h4])]
        rw [h4]
      · left
        rw [hvm]
        unfold look
        rw [if_neg hu']

/-! ## The phases of a write -/

/-- A state before the file is renamed. -/
structure Pre (f0 : Fs) (w : Writer) (fs : Fs) : Prop where
  hist : ∀ p, p ≠ w.tmp → ∀ e ∈ fs.hist p, e ∈ f0.hist p ∨ (e = .dir ∧ f0.cur p = .missing ∧ p <:+ w.dir)
  cur : ∀ p, p ≠ w.tmp → fs.cur p = f0.cur p ∨ (fs.cur p = .dir ∧ f0.cur p = .missing ∧ p <:+ w.dir)
  inode : ∀ i, i ≠ target f0 w → fs.inode i = f0.inode i
  tmpDir : f0.cur w.tmp = .dir → (∀ e ∈ fs.hist w.tmp, e ∈ f0.hist w.tmp) ∧ fs.cur w.tmp = .dir
  tmpHist : ∀ e ∈ fs.hist w.tmp, e ∈ f0.hist w.tmp ∨ e = .file (target f0 w) ∨ e = .missing

theorem Pre.inv {f0 fs : Fs} {w : Writer} (h : Pre f0 w fs) (new : Str) : Inv f0 w new fs := by
  refine ⟨?_, ?_, h.inode, h.tmpDir, h.tmpHist⟩
  · intro p hp e he
    rcases h.hist p hp e he with h1 | h1
    · exact Or.inl h1
    · exact Or.inr (Or.inl h1)
  · intro p hp
    rcases h.cur p hp with h1 | h1
    · exact Or.inl h1
    · exact Or.inr (Or.inl h1)

/-- Before a file is open. -/
structure Phase1 (f0 : Fs) (w : Writer) (fs : Fs) : Prop where
  pre : Pre f0 w fs
  tmp : fs.cur w.tmp = f0.cur w.tmp
  next : fs.next = f0.next
  same : ∀ i, fs.inode i = f0.inode i

/-- While data is written. -/
structure Phase2 (f0 : Fs) (w : Writer) (written : Str) (fs : Fs) : Prop where
  notDir : f0.cur w.tmp ≠ .dir
  pre : Pre f0 w fs
  tmp : fs.cur w.tmp = .file (target f0 w)
  dir : fs.cur w.dir = .dir
  fd : fs.fd = some (target f0 w, written.length)
  data : (fs.inode (target f0 w)).data = written

/-- After the file was synced. -/
structure Phase3 (f0 : Fs) (w : Writer) (new : Str) (fs : Fs) : Prop where
  notDir : f0.cur w.tmp ≠ .dir
  pre : Pre f0 w fs
  tmp : fs.cur w.tmp = .file (target f0 w)
  dir : fs.cur w.dir = .dir
  data : fs.inode (target f0 w) = ⟨new, true⟩

/-- After the file was renamed. -/
structure Phase4 (f0 : Fs) (w : Writer) (new : Str) (fs : Fs) : Prop where
  notDir : f0.cur w.tmp ≠ .dir
  inv : Inv f0 w new fs
  tmp : fs.cur w.tmp = .missing
  name : fs.cur w.name = .file (target f0 w)
  dir : fs.cur w.dir = .dir
  data : fs.inode (target f0 w) = ⟨new, true⟩

theorem tmp_ne_name {w : Writer} (h : w.atomic = true) : w.tmp ≠ w.name := by
  unfold Writer.tmp Writer.name
  rw [if_pos h]
  intro hx
  have := congrArg List.length (List.cons.inj hx).1
  simp [tempExt] at this

theorem suffix_ne_tmp {w : Writer} {p : Path} (h : p <:+ w.dir) : p ≠ w.tmp := suffix_ne_cons h _

theorem suffix_ne_name {w : Writer} {p : Path} (h : p <:+ w.dir) : p ≠ w.name := suffix_ne_cons h _

theorem phase1_init (f0 : Fs) (w : Writer) : Phase1 f0 w f0 :=
  ⟨⟨fun _ _ _ he => Or.inl he, fun _ _ => Or.inl rfl, fun _ _ => rfl, fun h => ⟨fun _ he => he, h⟩, fun _ he => Or.inl he⟩, rfl, rfl, fun _ => rfl⟩

theorem mkdirs_mem {fs : Fs} {d : Path} {op : Sys} (h : op ∈ mkdirs fs d) : ∃ p, op = .mkdir p ∧ p <:+ d := by
  induction d with
  | nil => cases h
  | cons c d ih =>
    simp only [mkdirs] at h
    split at h
    · rcases List.mem_append.1 h with h | h
      · obtain ⟨p, h1, h2⟩ := ih h
        exact ⟨p, h1, h2.trans (List.suffix_cons _ _)⟩
      · exact ⟨_, List.mem_singleton.1 h, List.suffix_refl _⟩
    · cases h

/-- Making a directory above. -/
theorem phase1_mkdir {f0 fs fs' : Fs} {w : Writer} (h : Phase1 f0 w fs) {p : Path} (hp : p <:+ w.dir)
    (he : exec fs (.mkdir p) = some fs') : Phase1 f0 w fs' := by
  simp only [exec] at he
  split at he
  · rename_i hc
    cases he
    have hpt := suffix_ne_tmp hp
    have h0 : f0.cur p = .missing := by
      rcases h.pre.cur p hpt with h1 | ⟨h1, -⟩
      · rw [← h1]; exact hc.2
      · rw [hc.2] at h1; cases h1
    refine ⟨⟨?_, ?_, h.pre.inode, ?_, ?_⟩, ?_, h.next, h.same⟩
    · intro q hq e hqe
      simp only [setEnt] at hqe ⊢
      by_cases hqp : q = p
      · subst hqp
        rw [upd_same] at hqe
        rcases List.mem_cons.1 hqe with rfl | hqe
        · exact Or.inr ⟨rfl, h0, hp⟩
        · exact h.pre.hist q hq e hqe
      · rw [upd_other _ _ hqp] at hqe
        exact h.pre.hist q hq e hqe
    · intro q hq
      simp only [setEnt]
      by_cases hqp : q = p
      · subst hqp
        rw [upd_same]
        exact Or.inr ⟨rfl, h0, hp⟩
      · rw [upd_other _ _ hqp]
        exact h.pre.cur q hq
    · intro hx
      simp only [setEnt]
      rw [upd_other _ _ (Ne.symm hpt), upd_other _ _ (Ne.symm hpt)]
      exact h.pre.tmpDir hx
    · simp only [setEnt]
      rw [upd_other _ _ (Ne.symm hpt)]
      exact h.pre.tmpHist
    · simp only [setEnt]; rw [upd_other _ _ (Ne.symm hpt)]; exact h.tmp
  · cases he

/-- Opening the temporary file. -/
theorem phase2_open {f0 fs fs' : Fs} {w : Writer} (h : Phase1 f0 w fs)
    (he : exec fs (.openWrite w.tmp true) = some fs') : Phase2 f0 w [] fs' := by
  simp only [exec] at he
  split at he
  · rename_i hp
    have hdir : fs.cur w.dir = .dir := by
      obtain ⟨c, d, h1, h2⟩ := parentDir_cons hp
      unfold Writer.tmp at h1
      rw [(List.cons.inj h1).2]
      exact h2
    split at he
    · rename_i i hi
      simp only [if_true] at he
      cases he
      have ht : target f0 w = i := by unfold target; rw [← h.tmp, hi]
      refine ⟨by rw [← h.tmp, hi]; simp, ⟨h.pre.hist, h.pre.cur, ?_, h.pre.tmpDir, h.pre.tmpHist⟩, ?_, hdir, ?_, ?_⟩
      · intro j hj
        dsimp only
        rw [upd_other _ _ (ht ▸ hj)]
        exact h.same j
      · dsimp only; rw [hi, ht]
      · dsimp only; rw [ht]; rfl
      · dsimp only; rw [ht, upd_same]
    · rename_i hm
      cases he
      have ht : target f0 w = fs.next := by unfold target; rw [← h.tmp, hm, h.next]
      refine ⟨by rw [← h.tmp, hm]; simp, ⟨?_, ?_, ?_, ?_, ?_⟩, ?_, ?_, ?_, ?_⟩
      · intro p hp' e hpe
        simp only [setEnt] at hpe
        rw [upd_other _ _ hp'] at hpe
        exact h.pre.hist p hp' e hpe
      · intro p hp'
        simp only [setEnt]
        rw [upd_other _ _ hp']
        exact h.pre.cur p hp'
      · intro j hj
        dsimp only
        rw [upd_other _ _ (ht ▸ hj)]
        exact h.same j
      · intro hx
        rw [← h.tmp, hm] at hx
        cases hx
      · intro e he
        simp only [setEnt] at he
        rw [upd_same] at he
        rcases List.mem_cons.1 he with he | he
        · exact Or.inr (Or.inl (by rw [he, ht]))
        · exact h.pre.tmpHist e he
      · simp only [setEnt]; rw [upd_same, ht]
      · simp only [setEnt]; rw [upd_other _ _ (suffix_ne_tmp (List.suffix_refl _))]; exact hdir
      · dsimp only; rw [ht]; rfl
      · dsimp only; rw [ht, upd_same]
    · cases he
  · cases he

/-- Writing a buffer. -/
theorem phase2_write {f0 fs fs' : Fs} {w : Writer} {written d : Str} (h : Phase2 f0 w written fs)
    (he : exec fs (.write d) = some fs') : Phase2 f0 w (written ++ d) fs' := by
  simp only [exec, h.fd] at he
  cases he
  refine ⟨h.notDir, ⟨h.pre.hist, h.pre.cur, ?_, h.pre.tmpDir, h.pre.tmpHist⟩, h.tmp, h.dir, ?_, ?_⟩
  · intro j hj
    dsimp only
    rw [upd_other _ _ hj]
    exact h.pre.inode j hj
  · simp
  · dsimp only
    rw [upd_same, h.data]
    unfold splice
    simp

theorem phase2_writes {f0 fs fs' : Fs} {w : Writer} {written : Str} {bufs : List Str} (h : Phase2 f0 w written fs)
    (he : done fs (bufs.map .write) = some fs') : Phase2 f0 w (written ++ bufs.flatten) fs' := by
  induction bufs generalizing fs written with
  | nil => cases he; simpa using h
  | cons d bufs ih =>
    simp only [List.map_cons, done] at he
    cases hx : exec fs (.write d) with
    | none => rw [hx] at he; cases he
    | some fs1 =>
      rw [hx] at he
      have := ih (phase2_write h hx) he
      rwa [List.append_assoc] at this

theorem phase2_reach {f0 fs fs' : Fs} {w : Writer} {written : Str} {bufs : List Str} (h : Phase2 f0 w written fs)
    (he : Reach fs (bufs.map .write) fs') : ∃ written', Phase2 f0 w written' fs' := by
  refine reach_inv (I := fun fs => ∃ written', Phase2 f0 w written' fs) ⟨_, h⟩ ?_ ?_ he
  · rintro op hop a b ⟨x, hx⟩ hab
    obtain ⟨d, -, rfl⟩ := List.mem_map.1 hop
    exact ⟨_, phase2_write hx hab⟩
  · rintro d - k a b ⟨x, hx⟩ hab
    exact ⟨_, phase2_write hx hab⟩

theorem phase3_fsync {f0 fs fs' : Fs} {w : Writer} {written : Str} (h : Phase2 f0 w written fs)
    (he : exec fs .fsync = some fs') : Phase3 f0 w written fs' := by
  simp only [exec, h.fd] at he
  cases he
  refine ⟨h.notDir, ⟨h.pre.hist, h.pre.cur, ?_, h.pre.tmpDir, h.pre.tmpHist⟩, h.tmp, h.dir, ?_⟩
  · intro j hj
    dsimp only
    rw [upd_other _ _ hj]
    exact h.pre.inode j hj
  · dsimp only
    rw [upd_same, h.data]

theorem phase3_close {f0 fs fs' : Fs} {w : Writer} {new : Str} (h : Phase3 f0 w new fs)
    (he : exec fs .close = some fs') : Phase3 f0 w new fs' := by
  simp only [exec] at he
  split at he
  · cases he
    exact ⟨h.notDir, ⟨h.pre.hist, h.pre.cur, h.pre.inode, h.pre.tmpDir, h.pre.tmpHist⟩, h.tmp, h.dir, h.data⟩
  · cases he

theorem phase4_rename {f0 fs fs' : Fs} {w : Writer} {new : Str} (ha : w.atomic = true) (h : Phase3 f0 w new fs)
    (he : exec fs (.rename w.tmp w.name) = some fs') : Phase4 f0 w new fs' := by
  have htn := tmp_ne_name ha
  simp only [exec] at he
  split at he
  · rename_i hc
    cases he
    have hnd : f0.cur w.name ≠ .dir := by
      rcases h.pre.cur w.name (Ne.symm htn) with h1 | ⟨h1, -⟩
      · rw [← h1]; exact hc.2.2.1
      · exact absurd h1 hc.2.2.1
    refine ⟨h.notDir, ⟨?_, ?_, h.pre.inode, ?_, ?_⟩, by simp only [setEnt]; rw [upd_other _ _ htn, upd_same], ?_, ?_, h.data⟩
    · intro p hp e hpe
      simp only [setEnt] at hpe ⊢
      by_cases hpn : p = w.name
      · subst hpn
        rw [upd_same] at hpe
        rcases List.mem_cons.1 hpe with rfl | hpe
        · exact Or.inr (Or.inr ⟨rfl, hnd, h.tmp, h.data⟩)
        · rw [upd_other _ _ hp] at hpe
          exact (h.pre.inv new).hist _ hp e hpe
      · rw [upd_other _ _ hpn, upd_other _ _ hp] at hpe
        exact (h.pre.inv new).hist p hp e hpe
    · intro p hp
      simp only [setEnt]
      by_cases hpn : p = w.name
      · subst hpn
        rw [upd_same]
        exact Or.inr (Or.inr ⟨rfl, hnd, h.tmp, h.data⟩)
      · rw [upd_other _ _ hpn, upd_other _ _ hp]
        exact (h.pre.inv new).cur p hp
    · intro hx
      exact absurd hx h.notDir
    · intro e he
      simp only [setEnt] at he
      rw [upd_other _ _ htn, upd_same] at he
      rcases List.mem_cons.1 he with he | he
      · exact Or.inr (Or.inr he)
      · exact h.pre.tmpHist e he
    · simp only [setEnt]; rw [upd_same]; exact h.tmp
    · simp only [setEnt]
      rw [upd_other _ _ (suffix_ne_name (List.suffix_refl _)), upd_other _ _ (suffix_ne_tmp (List.suffix_refl _))]
      exact h.dir
  · cases he

theorem phase4_sync {f0 fs fs' : Fs} {w : Writer} {new : Str} (h0 : WF f0) (h : Phase4 f0 w new fs)
    (he : exec fs (.syncDir w.dir) = some fs') : Phase4 f0 w new fs' ∧ fs'.hist w.name = [.file (target f0 w)] := by
  simp only [exec] at he
  split at he
  · cases he
    refine ⟨⟨h.notDir, ⟨?_, h.inv.cur, h.inv.inode, ?_, ?_⟩, h.tmp, h.name, h.dir, h.data⟩, ?_⟩
    · intro p hp e hpe
      dsimp only at hpe ⊢
      split at hpe
      · rw [List.mem_singleton.1 hpe]
        rcases h.inv.cur p hp with h1 | h1 | h1
        · rw [h1]; exact Or.inl (h0.cur p)
        · exact Or.inr (Or.inl h1)
        · exact Or.inr (Or.inr h1)
      · exact h.inv.hist p hp e hpe
    · intro hx
      exact absurd hx h.notDir
    · intro e he
      dsimp only at he
      split at he
      · rw [List.mem_singleton.1 he, h.tmp]
        exact Or.inr (Or.inr rfl)
      · exact h.inv.tmpHist e he
    · dsimp only
      rw [if_pos ⟨by simp [Writer.name], by simp [Writer.name]⟩, h.name]
  · cases he

theorem phase1_mkdirs {f0 fs' : Fs} {w : Writer} {b : Bool} (h : Reach f0 (if b then mkdirs f0 w.dir else []) fs') : Phase1 f0 w fs' := by
  refine reach_inv (I := Phase1 f0 w) (phase1_init f0 w) ?_ ?_ h
  · intro op hop a c ha hac
    cases b with
    | false => simp at hop
    | true =>
      obtain ⟨p, rfl, hp⟩ := mkdirs_mem (by simpa using hop)
      exact phase1_mkdir ha hp hac
  · intro d hd
    cases b with
    | false => simp at hd
    | true =>
      obtain ⟨p, h1, -⟩ := mkdirs_mem (by simpa using hd)
      cases h1

theorem reach_one {fs fs' : Fs} {op : Sys} (hop : ∀ d, op ≠ .write d) (h : Reach fs [op] fs') : fs' = fs ∨ exec fs op = some fs' := by
  cases h with
  | stop => exact Or.inl rfl
  | part _ k he => exact absurd rfl (hop _)
  | step he hr =>
    cases hr
    exact Or.inr he

theorem done_one {fs fs' : Fs} {op : Sys} (h : done fs [op] = some fs') : exec fs op = some fs' := by
  simp only [done] at h
  cases he : exec fs op with
  | none => rw [he] at h; cases h
  | some x => rw [he] at h; simpa using h

/-- Every state while writing, and the state at the end. -/
theorem write_inv {f0 fs : Fs} {w : Writer} {bufs : List Str} (h0 : WF f0) (ha : w.atomic = true) (ht : w.truncate = true)
    (hs : w.syncFile = true) :
    (Reach f0 (writeOps w f0 bufs) fs → Inv f0 w bufs.flatten fs) ∧
    (done f0 (writeOps w f0 bufs) = some fs →
      Phase4 f0 w bufs.flatten fs ∧ (w.syncPath = true → fs.hist w.name = [.file (target f0 w)])) := by
  have hlast : ∀ f5 fs, Phase4 f0 w bufs.flatten f5 → Reach f5 (if w.syncPath then [.syncDir w.dir] else []) fs → Phase4 f0 w bufs.flatten fs := by
    intro f5 fs h5 hr
    split at hr
    · rcases reach_one (by intro d; simp) hr with rfl | he
      · exact h5
      · exact (phase4_sync h0 h5 he).1
    · cases hr; exact h5
  unfold writeOps
  rw [ht, hs, ha]
  simp only [if_true]
  constructor
  · intro h
    rcases reach_append h with h | ⟨f1, h1, h⟩
    · exact (phase1_mkdirs h).pre.inv _
    have p1 := phase1_mkdirs (done_reach h1)
    rcases reach_append h with h | ⟨f2, h2, h⟩
    · rcases reach_one (by intro d; simp) h with rfl | he
      · exact p1.pre.inv _
      · exact (phase2_open p1 he).pre.inv _
    have p2 := phase2_open p1 (done_one h2)
    rcases reach_append h with h | ⟨f3, h3, h⟩
    · obtain ⟨x, hx⟩ := phase2_reach p2 h
      exact hx.pre.inv _
    have p3 := phase2_writes p2 h3
    rw [List.nil_append] at p3
    rcases reach_append h with h | ⟨f4, h4, h⟩
    · rcases reach_one (by intro d; simp) h with rfl | he
      · exact p3.pre.inv _
      · exact (phase3_fsync p3 he).pre.inv _
    have p4 := phase3_fsync p3 (done_one h4)
    rcases reach_append h with h | ⟨f5, h5, h⟩
    · rcases reach_one (by intro d; simp) h with rfl | he
      · exact p4.pre.inv _
      · exact (phase3_close p4 he).pre.inv _
    have p5 := phase3_close p4 (done_one h5)
    rcases reach_append h with h | ⟨f6, h6, h⟩
    · rcases reach_one (by intro d; simp) h with rfl | he
      · exact p5.pre.inv _
      · exact (phase4_rename ha p5 he).inv
    have p6 := phase4_rename ha p5 (done_one h6)
    exact (hlast _ _ p6 h).inv
  · intro h
    simp only [done_append] at h
    cases h1 : done f0 (if w.createPath = true then mkdirs f0 w.dir else []) with
    | none => rw [h1] at h; cases h
    | some f1 =>
    rw [h1, Option.bind_some] at h
    have p1 := phase1_mkdirs (done_reach h1)
    cases h2 : done f1 [.openWrite w.tmp true] with
    | none => rw [h2] at h; cases h
    | some f2 =>
    rw [h2, Option.bind_some] at h
    have p2 := phase2_open p1 (done_one h2)
    cases h3 : done f2 (bufs.map .write) with
    | none => rw [h3] at h; cases h
    | some f3 =>
    rw [h3, Option.bind_some] at h
    have p3 := phase2_writes p2 h3
    rw [List.nil_append] at p3
    cases h4 : done f3 [.fsync] with
    | none => rw [h4] at h; cases h
    | some f4 =>
    rw [h4, Option.bind_some] at h
    have p4 := phase3_fsync p3 (done_one h4)
    cases h5 : done f4 [.close] with
    | none => rw [h5] at h; cases h
    | some f5 =>
    rw [h5, Option.bind_some] at h
    have p5 := phase3_close p4 (done_one h5)
    cases h6 : done f5 [.rename w.tmp w.name] with
    | none => rw [h6] at h; cases h
    | some f6 =>
    rw [h6, Option.bind_some] at h
    have p6 := phase4_rename ha p5 (done_one h6)
    refine ⟨hlast _ _ p6 (done_reach h), ?_⟩
    intro hsp
    rw [if_pos hsp] at h
    exact (phase4_sync h0 p6 (done_one h)).2

/-! ## Theorems -/

/-- C46: after a crash in any state of an atomic write the old content is found, or all of the new content. -/
theorem c46_atomic (f0 fs : Fs) (w : Writer) (bufs : List Str) (old : Found) (disk : Path → Found) (h0 : WF f0) (ha : w.atomic = true)
    (ht : w.truncate = true) (hs : w.syncFile = true) (hu : Unshared f0 w w.name) (hold : Stable f0 w.name old)
    (hr : Reach f0 (writeOps w f0 bufs) fs) (hc : Crash fs disk) : disk w.name = old ∨ disk w.name = .file bufs.flatten := by
  have hi := (write_inv (fs := fs) (bufs := bufs) h0 ha ht hs).1 hr
  rcases hi.base.crash h0 (Ne.symm (tmp_ne_name ha)) hu (fun h => suffix_ne_name h.2 rfl) hold hc with h | h
  · exact Or.inl h
  · exact Or.inr h.2

/-- C46: all other files and directories are left as they are, except that missing directories of the path may be there. -/
theorem c46_others (f0 fs : Fs) (w : Writer) (bufs : List Str) (p : Path) (v : Found) (disk : Path → Found) (h0 : WF f0)
    (ha : w.atomic = true) (ht : w.truncate = true) (hs : w.syncFile = true) (hpn : p ≠ w.name) (hpt : p ≠ w.tmp) (hu : Unshared f0 w p)
    (hd : ¬(f0.cur p = .missing ∧ p <:+ w.dir)) (hv : Stable f0 p v) (hr : Reach f0 (writeOps w f0 bufs) fs) (hc : Crash fs disk) :
    disk p = v := by
  have hi := (write_inv (fs := fs) (bufs := bufs) h0 ha ht hs).1 hr
  rcases hi.base.crash h0 hpt hu hd hv hc with h | h
  · exact h
  · exact absurd h.1 hpn

/-- A crash in which nothing is lost. -/
theorem crash_view {fs : Fs} (h : WF fs) : Crash fs (view fs) :=
  ⟨fs.cur, fun i => (fs.inode i).data, h.cur, fun _ _ => rfl, fun _ => rfl⟩

theorem look_dir {e : Path → Ent} {r : Nat → Str} {p : Path} (h : look e r p = .dir) : up e p = true ∧ e p = .dir := by
  unfold look at h
  split at h
  · rename_i hup
    refine ⟨hup, ?_⟩
    cases he : e p with
    | dir => rfl
    | missing => rw [he] at h; cases h
    | file i => rw [he] at h; cases h
    | link t => rw [he] at h; cases h
  · cases h

/-- C46: when the write is done, the directory was there and paths are synced, the new content is found after any crash. -/
theorem c46_durable (f0 fs : Fs) (w : Writer) (bufs : List Str) (h0 : WF f0) (ha : w.atomic = true) (ht : w.truncate = true)
    (hs : w.syncFile = true) (hp : w.syncPath = true) (hdir : Stable f0 w.dir .dir) (hr : done f0 (writeOps w f0 bufs) = some fs) :
    Stable fs w.name (.file bufs.flatten) := by
  obtain ⟨h4, h5⟩ := (write_inv (fs := fs) (bufs := bufs) h0 ha ht hs).2 hr
  intro disk hc
  have hd : disk w.dir = .dir := by
    have hcd : f0.cur w.dir = .dir := (look_dir (hdir _ (crash_view h0))).2
    refine (h4.inv.base.crash h0 (suffix_ne_tmp (List.suffix_refl _)) ?_ ?_ hdir hc).resolve_right ?_
    · intro i hi
      exfalso
      -- a file cannot be found where every crash leaves a directory
      have hx := hdir (look (fun q => if q = w.dir then .file i else f0.cur q) (fun i => (f0.inode i).data))
        ⟨_, _, fun q => by
          by_cases hq : q = w.dir
          · subst hq; simpa using hi
          · simpa [hq] using h0.cur q, fun _ _ => rfl, fun _ => rfl⟩
      have := (look_dir hx).2
      simp at this
    · rw [hcd]; rintro ⟨h1, -⟩; cases h1
    · rintro ⟨h1, -⟩; exact suffix_ne_name (List.suffix_refl _) h1
  obtain ⟨e, r, he, hr', hdisk⟩ := hc
  rw [hdisk] at hd ⊢
  obtain ⟨hu, hed⟩ := look_dir hd
  have hn : e w.name = .file (target f0 w) := by
    have := he w.name
    rw [h5 hp] at this
    exact List.mem_singleton.1 this
  unfold look
  rw [if_pos (by simp only [Writer.name, up]; rw [hu, hed]; rfl), hn]
  dsimp only
  rw [hr' _ (by rw [h4.data]), h4.data]

/-- C46: other processes see the old content or all of the new content. -/
theorem c46_view (f0 fs : Fs) (w : Writer) (bufs : List Str) (h0 : WF f0) (ha : w.atomic = true) (ht : w.truncate = true)
    (hs : w.syncFile = true) (hu : Unshared f0 w w.name) (hr : Reach f0 (writeOps w f0 bufs) fs) :
    view fs w.name = view f0 w.name ∨ view fs w.name = .file bufs.flatten := by
  have hi := (write_inv (fs := fs) (bufs := bufs) h0 ha ht hs).1 hr
  -- the same on file systems on which everything is synced
  let g0 : Fs := { f0 with hist := fun p => [f0.cur p], inode := fun i => ⟨(f0.inode i).data, true⟩ }
  let g : Fs := { fs with
    hist := fun p => [fs.cur p], inode := fun i => if i = target f0 w then fs.inode i else ⟨(fs.inode i).data, true⟩ }
  have w0 : WF g0 := by
    refine ⟨fun p => List.mem_singleton.2 rfl, ?_, ?_, ?_, h0.rootCur⟩
    · intro p i hp
      exact h0.fdLt (List.mem_singleton.1 hp).symm
    · intro c d hd
      have := h0.cur (c :: d)
      rw [h0.below c d hd] at this
      simp only [g0]
      rw [List.mem_singleton.1 this]
    · simp only [g0]; rw [h0.rootCur]
  have ig : Inv0 g0 w bufs.flatten g := by
    refine ⟨?_, ?_, ?_, ?_⟩
    · intro p hp e he
      have he : e = fs.cur p := List.mem_singleton.1 he
      subst he
      rcases hi.cur p hp with h1 | h1 | ⟨h1, h2, h3, h4⟩
      · exact Or.inl (List.mem_singleton.2 h1)
      · exact Or.inr (Or.inl h1)
      · exact Or.inr (Or.inr ⟨h1, h2, h3, (if_pos rfl).trans h4⟩)
    · intro p hp
      rcases hi.cur p hp with h1 | h1 | ⟨h1, h2, h3, h4⟩
      · exact Or.inl h1
      · exact Or.inr (Or.inl h1)
      · exact Or.inr (Or.inr ⟨h1, h2, h3, (if_pos rfl).trans h4⟩)
    · intro i hne
      have hne' : i ≠ target f0 w := hne
      simp only [g, g0]
      rw [if_neg hne', hi.inode i hne']
    · intro hx
      have hx' : f0.cur w.tmp = .dir := hx
      have h2 := (hi.tmpDir hx').2
      refine ⟨?_, h2⟩
      intro e he
      simp only [g, g0] at he ⊢
      rw [h2] at he
      rw [hx']
      exact he
  have st : Stable g0 w.name (view f0 w.name) := by
    rintro disk ⟨e, r, h1, h2, h3⟩
    rw [h3]
    unfold view
    have he : e = f0.cur := funext fun p => List.mem_singleton.1 (h1 p)
    have hr : r = fun i => (f0.inode i).data := funext fun i => h2 i rfl
    rw [he, hr]
  have hu' : Unshared g0 w w.name := by
    intro i hi'
    have : Ent.file i = f0.cur w.name := List.mem_singleton.1 hi'
    exact hu i (this ▸ h0.cur w.name)
  have cr : Crash g (view fs) := by
    refine ⟨fs.cur, fun i => (fs.inode i).data, fun p => List.mem_singleton.2 rfl, ?_, fun _ => rfl⟩
    intro i _
    simp only [g]
    split <;> rfl
  rcases ig.crash w0 (Ne.symm (tmp_ne_name ha)) hu' (fun h => suffix_ne_name h.2 rfl) st cr with h | h
  · exact Or.inl h
  · exact Or.inr h.2

/-! ## What is not promised -/

theorem exec_hist {fs fs' : Fs} {op : Sys} {p : Path} {e : Ent} (hop : op ≠ .syncDir p.tail) (h : e ∈ fs.hist p) (he : exec fs op = some fs') :
    e ∈ fs'.hist p := by
  have hset : ∀ (fs : Fs) (q : Path) (x : Ent), e ∈ fs.hist p → e ∈ (setEnt fs q x).hist p := by
    intro fs q x h
    simp only [setEnt]
    by_cases hq : p = q
    · subst hq; rw [upd_same]; exact List.mem_cons_of_mem _ h
    · rw [upd_other _ _ hq]; exact h
  cases op <;> simp only [exec] at he
  case mkdir q => split at he <;> cases he; exact hset _ _ _ h
  case openWrite q trunc =>
    split at he
    · split at he <;> cases he
      · exact h
      · exact hset _ _ _ h
    · cases he
  case write d => split at he <;> cases he; exact h
  case seek d => split at he <;> cases he; exact h
  case fsync => split at he <;> cases he; exact h
  case close => split at he <;> cases he; exact h
  case rename a b =>
    split at he
    · cases he
      split
      · exact h
      · exact hset _ _ _ (hset _ _ _ h)
    · cases he
  case unlink q => split at he <;> cases he; exact hset _ _ _ h
  case symlink q t => split at he <;> cases he; exact hset _ _ _ h
  case syncDir q =>
    split at he
    · cases he
      dsimp only
      rw [if_neg (by rintro ⟨-, h2⟩; exact hop (by rw [h2]))]
      exact h
    · cases he

theorem done_hist {fs fs' : Fs} {ops : List Sys} {p : Path} {e : Ent} (hop : .syncDir p.tail ∉ ops) (h : e ∈ fs.hist p)
    (he : done fs ops = some fs') : e ∈ fs'.hist p := by
  induction ops generalizing fs with
  | nil => cases he; exact h
  | cons op ops ih =>
    simp only [done] at he
    cases hx : exec fs op with
    | none => rw [hx] at he; cases he
    | some fs1 =>
      rw [hx] at he
      exact ih (fun hm => hop (List.mem_cons_of_mem _ hm)) (exec_hist (fun hx => hop (hx ▸ List.mem_cons_self)) h hx) he

/-- C46: when the directory of the file was missing and was made by the write, the file may be missing after a crash although the write was
done and everything was synced: the directory that has the new directory is not synced. -/
theorem c46_new_directory (f0 fs : Fs) (w : Writer) (bufs : List Str) (h0 : WF f0) (hm : f0.cur w.dir = .missing)
    (hr : done f0 (writeOps w f0 bufs) = some fs) : ∃ disk, Crash fs disk ∧ disk w.name = .missing := by
  have hw := wf_done h0 hr
  have hne : w.dir ≠ [] := by
    intro hx
    rw [hx, h0.rootCur] at hm
    cases hm
  have hh : Ent.missing ∈ fs.hist w.dir := by
    refine done_hist ?_ (hm ▸ h0.cur w.dir) hr
    unfold writeOps
    simp only [List.mem_append]
    rintro (h | h | h | h | h | h | h)
    · split at h
      · obtain ⟨p, h1, -⟩ := mkdirs_mem h
        cases h1
      · cases h
    · simp at h
    · simp at h
    · split at h <;> simp at h
    · simp at h
    · split at h <;> simp at h
    · split at h
      · have := List.mem_singleton.1 h
        injection this with this
        have := congrArg List.length this
        have hp : 0 < w.dir.length := List.length_pos_iff.2 hne
        rw [List.length_tail] at this
        omega
      · cases h
  refine ⟨look (fun q => if q = w.dir then .missing else fs.cur q) (fun i => (fs.inode i).data), ⟨_, _, ?_, fun _ _ => rfl, fun _ => rfl⟩, ?_⟩
  · intro q
    by_cases hq : q = w.dir
    · subst hq; simpa using hh
    · simpa [hq] using hw.cur q
  · unfold look
    rw [if_neg]
    simp [Writer.name, up]

/-- A writer with all safeguards. -/
def aWriter (dir : Path) : Writer := ⟨dir, [97], true, true, true, true, true⟩

/-- The directory `d` was made and synced. -/
def aFs : Fs := ((done empty [.mkdir [[100]], .syncDir []]).getD empty)

example : done empty [.mkdir [[100]], .syncDir []] = some aFs := rfl

theorem aFs_wf : WF aFs := wf_done (ops := [.mkdir [[100]], .syncDir []]) wf_empty rfl

/-- An example of the hypotheses of the theorems above: a file is written to a directory that is there. -/
example : (done aFs (writeOps (aWriter [[100]]) aFs [[1], [2, 3]])).isSome = true ∧ Stable aFs (aWriter [[100]]).dir .dir ∧
    Stable aFs (aWriter [[100]]).name .missing ∧ Unshared aFs (aWriter [[100]]) (aWriter [[100]]).name := by
  refine ⟨rfl, ?_, ?_, ?_⟩
  · rintro disk ⟨e, r, h1, h2, h3⟩
    rw [h3]
    have e1 : e [[100]] = .dir := List.mem_singleton.1 (h1 [[100]])
    have e2 : e [] = .dir := List.mem_singleton.1 (h1 [])
    simp [aWriter, look, up, e1, e2]
  · rintro disk ⟨e, r, h1, h2, h3⟩
    rw [h3]
    have e3 : e [[97], [100]] = .missing := List.mem_singleton.1 (h1 [[97], [100]])
    simp [aWriter, Writer.name, look, e3]
  · intro i h
    have := List.mem_singleton.1 h
    cases this

/-- The same when the directory is missing. -/
example : (done empty (writeOps (aWriter [[100]]) empty [[1], [2, 3]])).isSome = true ∧ empty.cur (aWriter [[100]]).dir = .missing := ⟨rfl, rfl⟩

/-- Without `syncFile` a part of the content may be found after a crash. -/
example : ∃ fs disk, done aFs (writeOps { aWriter [[100]] with syncFile := false } aFs [[1], [2, 3]]) = some fs ∧ Crash fs disk ∧
    disk (aWriter [[100]]).name = .file [1] := by
  refine ⟨_, look _ (fun i => if i = 0 then [1] else []), rfl, ⟨_, _, fun p => (wf_done aFs_wf
    (ops := writeOps { aWriter [[100]] with syncFile := false } aFs [[1], [2, 3]]) rfl).cur p, ?_, fun _ => rfl⟩, rfl⟩
  intro i hi
  cases i with
  | zero => cases hi
  | succ n => rfl

end Verif.Fs
