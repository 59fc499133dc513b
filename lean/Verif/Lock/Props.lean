import Verif.Lock.Model

/-!
# C27 Mutual exclusion by lock files
-/

namespace Verif.Lock

/-! ## Specification -/

/-- The process goes on as the owner of the lock: `lockAcquire` returned true, or will do so at its next action. -/
def Owns : Pc → Prop
  | .locked _ => True
  | .held _ => True
  | .shared => True
  | _ => False

instance (c : Pc) : Decidable (Owns c) := by
  cases c <;> unfold Owns <;> infer_instance

/-- The property: no two processes own the lock at one time. -/
def Exclusive (st : St) : Prop := ∀ p q, Owns (st.pc p) → Owns (st.pc q) → p = q

/-- A process is between opening the file in `lockAcquire` and locking it. -/
def Opened : Pc → Prop
  | .opened _ => True
  | _ => False

/-- An action that removes the file is calm when no process is between opening and locking the file, and the process that removes
it has the `flock` of the inode at the path. Other actions are always calm. -/
def CalmAct (st : St) : Act → Prop
  | .unlink p =>
    match st.pc p with
    | .held _ => ∀ q, ¬ Opened (st.pc q)
    | _ => True
  | .rUnlink p => (∀ q, ¬ Opened (st.pc q)) ∧ ∀ i, st.file = some i → st.holder i = some p
  | _ => True

/-- Every action of the run is calm. -/
def Calm (exec : Nat → Nat) : St → List Act → Prop
  | _, [] => True
  | st, a :: rest => CalmAct st a ∧ ∀ st', step exec st a = some st' → Calm exec st' rest

/-! ## Negation: the property fails -/

/-- Every process has its own exec id. -/
def own : Nat → Nat := fun p => p

/-- Process 1 holds the lock; process 2 opens the file; process 1 releases; process 2 locks the removed inode; process 3 creates
the file again and locks it. -/
def raceRun : List Act :=
  [.openFile 1, .flock 1, .write 1, .openFile 2, .unlink 1, .close 1, .flock 2, .write 2, .openFile 3, .flock 3, .write 3]

/-- C27, negation: a run in which two processes with different exec ids own the lock. No process crashes. -/
theorem c27_race : ∃ st, run own init raceRun = some st ∧ ¬ Exclusive st ∧ st.pc 2 = .held 0 ∧ st.pc 3 = .held 1 := by
  refine ⟨(run own init raceRun).get (by decide), by simp, ?_, by decide, by decide⟩
  intro h
  exact absurd (h 2 3 (by decide) (by decide)) (by decide)

/-- Process 1 holds the lock; process 2 is `stop --force`; process 3 creates the file again and locks it. -/
def stopRun : List Act :=
  [.openFile 1, .flock 1, .write 1, .rOpen 2, .rFlock 2, .rUnlink 2, .rClose 2, .openFile 3, .flock 3, .write 3]

/-- C27, negation: `stop --force` removes a lock file that is held, so that another process gets the lock while the first still
owns it. -/
theorem c27_stop_force : ∃ st, run own init stopRun = some st ∧ ¬ Exclusive st := by
  refine ⟨(run own init stopRun).get (by decide), by simp, ?_⟩
  intro h
  exact absurd (h 1 3 (by decide) (by decide)) (by decide)

/-- Processes 1 and 2 are one command, process 3 is another. -/
def family : Nat → Nat := fun p => if p = 2 then 1 else p

/-- Process 2 shares the lock of process 1, which crashes; process 3 locks the file. -/
def orphanRun : List Act :=
  [.openFile 1, .flock 1, .write 1, .openFile 2, .flock 2, .compare 2, .crash 1, .openFile 3, .flock 3, .write 3]

/-- C27, negation across commands: a process that shares the lock by exec id outlives the process that has it. -/
theorem c27_orphan : ∃ st, run family init orphanRun = some st ∧
    st.pc 2 = .shared ∧ st.pc 3 = .held 0 ∧ family 2 ≠ family 3 := by
  exact ⟨(run family init orphanRun).get (by decide), by simp, by decide, by decide, by decide⟩

/-- Process 1 crashes; process 3 locks the file; before it writes, process 2 reads the exec id of process 1. -/
def staleRun : List Act :=
  [.openFile 1, .flock 1, .write 1, .crash 1, .openFile 3, .flock 3, .openFile 2, .flock 2, .compare 2, .write 3]

/-- C27, negation across commands: the exec id a crashed process left behind gives the lock to a process of its command while
another command holds it. -/
theorem c27_stale : ∃ st, run family init staleRun = some st ∧
    st.pc 2 = .shared ∧ st.pc 3 = .held 0 ∧ family 2 ≠ family 3 := by
  exact ⟨(run family init staleRun).get (by decide), by simp, by decide, by decide, by decide⟩

/-! ## What holds in every run -/

/-- The inodes a process may hold the `flock` of. -/
def fdOf : Pc → Option Nat
  | .opened i => some i
  | .busy i => some i
  | .locked i => some i
  | .held i => some i
  | .removed i => some i
  | .rOpened i => some i
  | .rRead i => some i
  | .rRemoved i => some i
  | _ => none

/-- The process has the `flock`. -/
def flockOf : Pc → Option Nat
  | .locked i => some i
  | .held i => some i
  | .removed i => some i
  | _ => none

/-- Points at which a holder can be. -/
def mayHold : Pc → Option Nat
  | .locked i => some i
  | .held i => some i
  | .removed i => some i
  | .rRead i => some i
  | .rRemoved i => some i
  | _ => none

theorem upd_same {α : Type} (f : Nat → α) (k : Nat) (v : α) : upd f k v k = v := by simp [upd]

theorem upd_ne {α : Type} (f : Nat → α) {k n : Nat} (v : α) (h : n ≠ k) : upd f k v n = f n := by simp [upd, h]

/-- The invariant of all runs. -/
structure Inv (st : St) : Prop where
  locks : ∀ p i, flockOf (st.pc p) = some i → st.holder i = some p
  holders : ∀ p i, st.holder i = some p → mayHold (st.pc p) = some i

theorem Inv.start : Inv init := ⟨by intro p i h; simp [init, flockOf] at h, by intro p i h; simp [init] at h⟩

/-- Moving a process that neither has nor gets a `flock` keeps the invariant. -/
theorem Inv.move {st : St} (hi : Inv st) {p : Nat} {c : Pc} (file : Option Nat) (fresh : Nat) (content : Nat → Option Nat)
    (h1 : mayHold (st.pc p) = none) (h2 : flockOf c = none) :
    Inv { st with
      file := file
      fresh := fresh
      content := content
      pc := upd st.pc p c } := by
  refine ⟨?_, ?_⟩
  · intro q i h
    by_cases hq : q = p
    · subst hq; simp [upd, h2] at h
    · simp only [upd, if_neg hq] at h
      exact hi.locks q i h
  · intro q i h
    by_cases hq : q = p
    · subst hq
      have := hi.holders q i h
      rw [h1] at this; exact absurd this (by simp)
    · simp only [upd, if_neg hq]
      exact hi.holders q i h

/-- Moving a process while it keeps the same inode. -/
theorem Inv.keep {st : St} (hi : Inv st) {p i : Nat} {c : Pc} (file : Option Nat) (fresh : Nat) (content : Nat → Option Nat)
    (h1 : mayHold (st.pc p) = some i) (h2 : mayHold c = some i) (h3 : flockOf c = none ∨ flockOf (st.pc p) = flockOf c) :
    Inv { st with
      file := file
      fresh := fresh
      content := content
      pc := upd st.pc p c } := by
  refine ⟨?_, ?_⟩
  · intro q j h
    by_cases hq : q = p
    · subst hq
      simp only [upd_same] at h
      rcases h3 with h3 | h3
      · rw [h3] at h; exact absurd h (by simp)
      · rw [← h3] at h
        exact hi.locks q j h
    · simp only [upd, if_neg hq] at h
      exact hi.locks q j h
  · intro q j h
    by_cases hq : q = p
    · subst hq
      simp only [upd_same]
      rw [h2, ← h1]
      exact hi.holders q j h
    · simp only [upd, if_neg hq]
      exact hi.holders q j h

/-- A process gets the `flock` of a free inode. -/
theorem Inv.get {st : St} (hi : Inv st) {p i : Nat} {c : Pc} (h0 : st.holder i = none) (h1 : mayHold (st.pc p) = none)
    (h2 : mayHold c = some i) (h3 : ∀ j, flockOf c = some j → j = i) :
    Inv { st with
      holder := upd st.holder i (some p)
      pc := upd st.pc p c } := by
  refine ⟨?_, ?_⟩
  · intro q j h
    by_cases hq : q = p
    · subst hq
      simp only [upd_same] at h
      have := h3 j h
      subst this
      simp [upd]
    · simp only [upd, if_neg hq] at h
      have := hi.locks q j h
      by_cases hj : j = i
      · subst hj; rw [h0] at this; exact absurd this (by simp)
      · simp only [upd, if_neg hj]; exact this
  · intro q j h
    by_cases hj : j = i
    · subst hj
      simp only [upd_same] at h
      have : p = q := by simpa using h
      subst this
      simp only [upd_same]; exact h2
    · simp only [upd, if_neg hj] at h
      have := hi.holders q j h
      by_cases hq : q = p
      · subst hq; rw [h1] at this; exact absurd this (by simp)
      · simp only [upd, if_neg hq]; exact this

/-- A process closes its descriptor. -/
theorem Inv.leave {st : St} (hi : Inv st) {p i : Nat} (h1 : mayHold (st.pc p) = some i) :
    Inv { st with
      holder := drop st p i
      pc := upd st.pc p .idle } := by
  refine ⟨?_, ?_⟩
  · intro q j h
    by_cases hq : q = p
    · subst hq; simp [upd, flockOf] at h
    · simp only [upd, if_neg hq] at h
      have := hi.locks q j h
      simp only [drop]
      split
      · rename_i hh
        by_cases hj : j = i
        · subst hj; rw [hh] at this; exact absurd (Option.some.inj this).symm hq
        · simp only [upd, if_neg hj]; exact this
      · exact this
  · intro q j h
    simp only [drop] at h
    have hold : st.holder j = some q ∧ ¬ (j = i ∧ q = p) := by
      split at h
      · rename_i hh
        by_cases hj : j = i
        · subst hj; simp [upd] at h
        · simp only [upd, if_neg hj] at h
          exact ⟨h, fun hc => hj hc.1⟩
      · rename_i hh
        refine ⟨h, ?_⟩
        rintro ⟨rfl, rfl⟩
        exact hh h
    have := hi.holders q j hold.1
    by_cases hq : q = p
    · subst hq
      rw [h1] at this
      exact absurd ⟨(Option.some.inj this).symm, rfl⟩ hold.2
    · simp only [upd, if_neg hq]; exact this

theorem Inv.crash {st : St} (hi : Inv st) (p : Nat) :
    Inv { st with
      holder := fun i => if st.holder i = some p then none else st.holder i
      pc := upd st.pc p .dead } := by
  refine ⟨?_, ?_⟩
  · intro q j h
    by_cases hq : q = p
    · subst hq; simp [upd, flockOf] at h
    · simp only [upd, if_neg hq] at h
      have := hi.locks q j h
      simp only [this]
      rw [if_neg (fun hc => hq (Option.some.inj hc))]
  · intro q j h
    simp only at h
    split at h
    · exact absurd h (by simp)
    · rename_i hh
      have := hi.holders q j h
      by_cases hq : q = p
      · subst hq; exact absurd h hh
      · simp only [upd, if_neg hq]; exact this

/-- Every action keeps the invariant. -/
theorem Inv.step {exec : Nat → Nat} {st st' : St} {a : Act} (hi : Inv st) (h : step exec st a = some st') : Inv st' := by
  cases a with
  | openFile p =>
    simp only [Lock.step, stepOpen] at h
    split at h
    · rename_i hp
      split at h <;> cases h <;> exact hi.move _ _ _ (by rw [hp]; rfl) rfl
    · exact absurd h (by simp)
  | flock p =>
    simp only [Lock.step, stepFlock] at h
    split at h
    · rename_i i hp
      split at h
      · rename_i hh
        cases h
        exact hi.get hh (by rw [hp]; rfl) rfl (by intro j hj; simpa [flockOf] using hj.symm)
      · cases h; exact hi.move _ _ _ (by rw [hp]; rfl) rfl
    · exact absurd h (by simp)
  | compare p =>
    simp only [Lock.step, stepCompare] at h
    split at h
    · rename_i i hp
      split at h <;> cases h <;> exact hi.move _ _ _ (by rw [hp]; rfl) rfl
    · exact absurd h (by simp)
  | write p =>
    simp only [Lock.step, stepWrite] at h
    split at h
    · rename_i i hp
      cases h
      exact hi.keep _ _ _ (by rw [hp]; rfl) rfl (Or.inr (by rw [hp]; rfl))
    · rename_i i hp
      cases h
      exact ⟨hi.locks, hi.holders⟩
    · exact absurd h (by simp)
  | unlink p =>
    simp only [Lock.step, stepUnlink] at h
    split at h
    · rename_i i hp
      cases h
      exact hi.keep _ _ _ (by rw [hp]; rfl) rfl (Or.inr (by rw [hp]; rfl))
    · rename_i hp
      cases h
      exact hi.move _ _ _ (by rw [hp]; rfl) rfl
    · exact absurd h (by simp)
  | close p =>
    simp only [Lock.step, stepClose] at h
    split at h
    · rename_i i hp
      cases h
      exact hi.leave (by rw [hp]; rfl)
    · exact absurd h (by simp)
  | rOpen p =>
    simp only [Lock.step, stepROpen] at h
    split at h
    · rename_i hp
      split at h <;> cases h
      · exact hi.move _ _ _ (by rw [hp]; rfl) rfl
      · exact hi
    · exact absurd h (by simp)
  | rFlock p =>
    simp only [Lock.step, stepRFlock] at h
    split at h
    · rename_i i hp
      split at h
      · rename_i hh
        cases h
        exact hi.get hh (by rw [hp]; rfl) rfl (by intro j hj; simp [flockOf] at hj)
      · cases h; exact hi.move _ _ _ (by rw [hp]; rfl) rfl
    · exact absurd h (by simp)
  | rUnlink p =>
    simp only [Lock.step, stepRUnlink] at h
    split at h
    · rename_i i hp
      cases h
      exact hi.keep _ _ _ (by rw [hp]; rfl) rfl (Or.inl rfl)
    · exact absurd h (by simp)
  | rClose p =>
    simp only [Lock.step, stepRClose] at h
    split at h
    · rename_i i hp
      cases h
      exact hi.leave (by rw [hp]; rfl)
    · rename_i i hp
      cases h
      exact hi.leave (by rw [hp]; rfl)
    · exact absurd h (by simp)
  | crash p =>
    simp only [Lock.step, stepCrash] at h
    cases h
    exact hi.crash p

theorem Inv.run {exec : Nat → Nat} {acts : List Act} : ∀ {st st' : St}, Inv st → run exec st acts = some st' → Inv st' := by
  induction acts with
  | nil => intro st st' hi h; cases h; exact hi
  | cons a rest ih =>
    intro st st' hi h
    simp only [Lock.run] at h
    split at h
    · exact absurd h (by simp)
    · rename_i st1 h1
      exact ih (hi.step h1) h

/-- C27, in part: in every run, whatever the processes do, the owners of the lock through one inode are one process. Two owners, if
there are any, are owners of different inodes, or by exec id. -/
theorem c27_inode_partial {exec : Nat → Nat} {acts : List Act} {st : St} (h : run exec init acts = some st) {p q i : Nat}
    (hp : flockOf (st.pc p) = some i) (hq : flockOf (st.pc q) = some i) : p = q := by
  have hi := Inv.run Inv.start h
  have h1 := hi.locks p i hp
  have h2 := hi.locks q i hq
  rw [h1] at h2
  exact Option.some.inj h2

example : ∃ st, run own init raceRun = some st ∧ flockOf (st.pc 2) = some 0 ∧ flockOf (st.pc 3) = some 1 :=
  ⟨(run own init raceRun).get (by decide), by simp, by decide, by decide⟩

/-- C27: the lock can be had again. After any run, crashes included, when all other processes are done or dead, a process that
wants the lock gets it. -/
theorem c27_available {exec : Nat → Nat} {acts : List Act} {st : St} (h : run exec init acts = some st) {p : Nat}
    (hp : st.pc p = .idle) (hq : ∀ q, q ≠ p → st.pc q = .idle ∨ st.pc q = .dead) :
    ∃ st' i, run exec st [.openFile p, .flock p, .write p] = some st' ∧ st'.pc p = .held i ∧ st'.file = some i ∧
      st'.holder i = some p ∧ st'.content i = some (exec p) := by
  have hi := Inv.run Inv.start h
  have hfree : ∀ i, st.holder i = none := by
    intro i
    cases hh : st.holder i with
    | none => rfl
    | some q =>
      have := hi.holders q i hh
      by_cases hqp : q = p
      · subst hqp; rw [hp] at this; simp [mayHold] at this
      · rcases hq q hqp with h1 | h1 <;> rw [h1] at this <;> simp [mayHold] at this
  have hl : ∀ st1 i, st1.pc p = .opened i → st1.holder i = none → st1.file = some i →
      ∃ st' i, run exec st1 [.flock p, .write p] = some st' ∧ st'.pc p = .held i ∧ st'.file = some i ∧
        st'.holder i = some p ∧ st'.content i = some (exec p) := by
    intro st1 i h1 h2 h3
    refine ⟨{ st1 with
      holder := upd st1.holder i (some p)
      content := upd st1.content i (some (exec p))
      pc := upd (upd st1.pc p (.locked i)) p (.held i) }, i, ?_, ?_, h3, ?_, ?_⟩
    · simp only [Lock.run, Lock.step, stepFlock, h1, h2, stepWrite, upd_same]
    all_goals simp only [upd_same]
  cases hf : st.file with
  | none =>
    have := hl { st with
      file := some st.fresh
      fresh := st.fresh + 1
      pc := upd st.pc p (.opened st.fresh) } st.fresh (by simp only [upd_same]) (hfree _) rfl
    simpa only [Lock.run, Lock.step, stepOpen, hp, hf] using this
  | some i =>
    have := hl { st with pc := upd st.pc p (.opened i) } i (by simp only [upd_same]) (hfree _) hf
    simpa only [Lock.run, Lock.step, stepOpen, hp, hf] using this

/-- A process crashed with the lock; the file is there with its exec id. -/
example : ∃ st, run own init [.openFile 1, .flock 1, .write 1, .crash 1] = some st ∧ st.pc 1 = .dead ∧ st.file = some 0 ∧
    ∀ q, q ≠ 1 → st.pc q = .idle := by
  refine ⟨(run own init [.openFile 1, .flock 1, .write 1, .crash 1]).get (by decide), by simp, by decide, by decide, ?_⟩
  intro q hq
  simp [Lock.run, Lock.step, stepOpen, stepFlock, stepWrite, stepCrash, init, upd, hq]

/-! ## Calm runs -/

/-- The process waits for the `flock` or has it, and has not removed the file. -/
def atPath : Pc → Option Nat
  | .opened i => some i
  | .locked i => some i
  | .held i => some i
  | _ => none

/-- The process removed the file in `lockRelease`. -/
def goneOf : Pc → Option Nat
  | .removed i => some i
  | _ => none

/-- The invariant of calm runs. -/
structure CInv (st : St) : Prop where
  bound : ∀ i, st.file = some i → i < st.fresh
  fd : ∀ p i, fdOf (st.pc p) = some i → i < st.fresh
  cont : ∀ i e, st.content i = some e → i < st.fresh
  path : ∀ p i, atPath (st.pc p) = some i → st.file = some i
  gone : ∀ p i, goneOf (st.pc p) = some i → st.file ≠ some i

theorem CInv.start : CInv init := by
  constructor <;> simp [init, fdOf, atPath, goneOf]

/-- Moving a process without touching the file. -/
theorem CInv.move {st : St} (hc : CInv st) {p : Nat} {c : Pc} (holder content : Nat → Option Nat)
    (h1 : ∀ i, fdOf c = some i → i < st.fresh) (h2 : ∀ i, atPath c = some i → st.file = some i)
    (h3 : ∀ i, goneOf c = some i → st.file ≠ some i) (h4 : ∀ i e, content i = some e → i < st.fresh) :
    CInv { st with
      holder := holder
      content := content
      pc := upd st.pc p c } := by
  refine ⟨hc.bound, ?_, h4, ?_, ?_⟩
  all_goals
    intro q i h
    by_cases hq : q = p
    · subst hq
      simp only [upd_same] at h
      first | exact h1 i h | exact h2 i h | exact h3 i h
    · simp only [upd, if_neg hq] at h
      first | exact hc.fd q i h | exact hc.path q i h | exact hc.gone q i h

/-- Removing the file when nobody else is at the path. -/
theorem CInv.remove {st : St} (hc : CInv st) {p : Nat} {c : Pc} (h1 : ∀ i, fdOf c = some i → i < st.fresh)
    (h2 : atPath c = none) (h3 : ∀ q, q ≠ p → atPath (st.pc q) = none) :
    CInv { st with
      file := none
      pc := upd st.pc p c } := by
  refine ⟨by intro i h; exact absurd h (by simp), ?_, hc.cont, ?_, by intro q i _; simp⟩
  · intro q i h
    by_cases hq : q = p
    · subst hq
      simp only [upd_same] at h
      exact h1 i h
    · simp only [upd, if_neg hq] at h
      exact hc.fd q i h
  · intro q i h
    by_cases hq : q = p
    · subst hq
      simp only [upd_same, h2] at h
      exact absurd h (by simp)
    · simp only [upd, if_neg hq, h3 q hq] at h
      exact absurd h (by simp)

theorem atPath_cases {c : Pc} {i : Nat} (h : atPath c = some i) : Opened c ∨ flockOf c = some i := by
  cases c <;> simp_all [atPath, Opened, flockOf]

/-- Every calm action keeps the invariant. -/
theorem CInv.step {exec : Nat → Nat} {st st' : St} {a : Act} (hi : Inv st) (hc : CInv st) (hcalm : CalmAct st a)
    (h : step exec st a = some st') : CInv st' := by
  cases a with
  | openFile p =>
    simp only [Lock.step, stepOpen] at h
    split at h
    · rename_i hp
      split at h
      · rename_i i hf
        cases h
        refine hc.move _ _ ?_ ?_ ?_ hc.cont
        · intro j hj; cases hj; exact hc.bound _ hf
        · intro j hj; cases hj; exact hf
        · intro j hj; cases hj
      · rename_i hf
        cases h
        refine ⟨?_, ?_, ?_, ?_, ?_⟩
        · intro i h; cases h; exact Nat.lt_succ_self _
        · intro q i h
          by_cases hq : q = p
          · subst hq
            simp only [upd_same] at h
            cases h; exact Nat.lt_succ_self _
          · simp only [upd, if_neg hq] at h
            exact Nat.lt_succ_of_lt (hc.fd q i h)
        · intro i e h; exact Nat.lt_succ_of_lt (hc.cont i e h)
        · intro q i h
          by_cases hq : q = p
          · subst hq
            simp only [upd_same] at h
            cases h; rfl
          · simp only [upd, if_neg hq] at h
            have := hc.path q i h
            rw [hf] at this; exact absurd this (by simp)
        · intro q i h
          by_cases hq : q = p
          · subst hq
            simp only [upd_same] at h
            cases h
          · simp only [upd, if_neg hq] at h
            have : i < st.fresh := hc.fd q i (by revert h; cases st.pc q <;> simp [goneOf, fdOf])
            intro he
            have : st.fresh = i := Option.some.inj he
            omega
    · exact absurd h (by simp)
  | flock p =>
    simp only [Lock.step, stepFlock] at h
    split at h
    · rename_i i hp
      have hfd := hc.fd p i (by rw [hp]; rfl)
      have hpa := hc.path p i (by rw [hp]; rfl)
      split at h <;> cases h <;> refine hc.move _ _ ?_ ?_ ?_ hc.cont <;> intro j hj <;> cases hj <;> first | exact hfd | exact hpa
    · exact absurd h (by simp)
  | compare p =>
    simp only [Lock.step, stepCompare] at h
    split at h
    · rename_i i hp
      split at h <;> cases h <;> refine hc.move _ _ ?_ ?_ ?_ hc.cont <;> intro j hj <;> cases hj
    · exact absurd h (by simp)
  | write p =>
    simp only [Lock.step, stepWrite] at h
    split at h
    · rename_i i hp
      have hfd := hc.fd p i (by rw [hp]; rfl)
      have hpa := hc.path p i (by rw [hp]; rfl)
      cases h
      refine hc.move _ _ ?_ ?_ ?_ ?_
      · intro j hj; cases hj; exact hfd
      · intro j hj; cases hj; exact hpa
      · intro j hj; cases hj
      · intro j e hj
        by_cases hji : j = i
        · subst hji; exact hfd
        · simp only [upd, if_neg hji] at hj; exact hc.cont j e hj
    · rename_i i hp
      have hfd := hc.fd p i (by rw [hp]; rfl)
      cases h
      refine ⟨hc.bound, hc.fd, ?_, hc.path, hc.gone⟩
      intro j e hj
      by_cases hji : j = i
      · subst hji; exact hfd
      · simp only [upd, if_neg hji] at hj; exact hc.cont j e hj
    · exact absurd h (by simp)
  | unlink p =>
    simp only [Lock.step, stepUnlink] at h
    split at h
    · rename_i i hp
      have hfd := hc.fd p i (by rw [hp]; rfl)
      have hpa := hc.path p i (by rw [hp]; rfl)
      simp only [CalmAct, hp] at hcalm
      cases h
      refine hc.remove ?_ rfl ?_
      · intro j hj; cases hj; exact hfd
      · intro q hq
        cases hqq : atPath (st.pc q) with
        | none => rfl
        | some j =>
          exfalso
          have hj := hc.path q j hqq
          rw [hpa] at hj; cases hj
          rcases atPath_cases hqq with h1 | h1
          · exact hcalm q h1
          · have h2 := hi.locks q _ h1
            have h3 := hi.locks p i (by rw [hp]; rfl)
            rw [h3] at h2
            exact hq (Option.some.inj h2).symm
    · rename_i hp
      cases h
      refine hc.move _ _ ?_ ?_ ?_ hc.cont <;> intro j hj <;> cases hj
    · exact absurd h (by simp)
  | close p =>
    simp only [Lock.step, stepClose] at h
    split at h
    · cases h
      refine hc.move _ _ ?_ ?_ ?_ hc.cont <;> intro j hj <;> cases hj
    · exact absurd h (by simp)
  | rOpen p =>
    simp only [Lock.step, stepROpen] at h
    split at h
    · split at h
      · rename_i i hf
        cases h
        refine hc.move _ _ ?_ ?_ ?_ hc.cont <;> intro j hj <;> cases hj
        exact hc.bound _ hf
      · cases h; exact hc
    · exact absurd h (by simp)
  | rFlock p =>
    simp only [Lock.step, stepRFlock] at h
    split at h
    · rename_i i hp
      have hfd := hc.fd p i (by rw [hp]; rfl)
      split at h <;> cases h <;> refine hc.move _ _ ?_ ?_ ?_ hc.cont <;> intro j hj <;> cases hj <;> exact hfd
    · exact absurd h (by simp)
  | rUnlink p =>
    simp only [Lock.step, stepRUnlink] at h
    split at h
    · rename_i i hp
      have hfd := hc.fd p i (by rw [hp]; rfl)
      simp only [CalmAct] at hcalm
      cases h
      refine hc.remove ?_ rfl ?_
      · intro j hj; cases hj; exact hfd
      · intro q hq
        cases hqq : atPath (st.pc q) with
        | none => rfl
        | some j =>
          exfalso
          have hj := hc.path q j hqq
          rcases atPath_cases hqq with h1 | h1
          · exact hcalm.1 q h1
          · have h2 := hi.locks q _ h1
            have h3 := hcalm.2 j hj
            rw [h3] at h2
            exact hq (Option.some.inj h2).symm
    · exact absurd h (by simp)
  | rClose p =>
    simp only [Lock.step, stepRClose] at h
    split at h
    · cases h
      refine hc.move _ _ ?_ ?_ ?_ hc.cont <;> intro j hj <;> cases hj
    · cases h
      refine hc.move _ _ ?_ ?_ ?_ hc.cont <;> intro j hj <;> cases hj
    · exact absurd h (by simp)
  | crash p =>
    simp only [Lock.step, stepCrash] at h
    cases h
    refine hc.move _ _ ?_ ?_ ?_ hc.cont <;> intro j hj <;> cases hj

theorem CInv.run {exec : Nat → Nat} {acts : List Act} : ∀ {st st' : St}, Inv st → CInv st → Calm exec st acts →
    run exec st acts = some st' → CInv st' := by
  induction acts with
  | nil => intro st st' _ hc _ h; cases h; exact hc
  | cons a rest ih =>
    intro st st' hi hc hcalm h
    simp only [Lock.run] at h
    split at h
    · exact absurd h (by simp)
    · rename_i st1 h1
      exact ih (hi.step h1) (hc.step hi hcalm.1 h1) (hcalm.2 _ h1) h

/-- With an exec id of its own, what a process wrote is in the inode it has the `flock` of, or in one it can not reach any more, or
the process is dead; and it shares no lock. -/
structure XInv (exec : Nat → Nat) (st : St) : Prop where
  wrote : ∀ p i, st.content i = some (exec p) →
    st.pc p = .dead ∨ flockOf (st.pc p) = some i ∨ (st.file ≠ some i ∧ fdOf (st.pc p) ≠ some i)
  alone : ∀ p, st.pc p ≠ .shared

theorem XInv.start (exec : Nat → Nat) : XInv exec init := by
  constructor <;> simp [init]

/-- Moving a process to a point that keeps its descriptor, or closes one without a `flock`. -/
theorem XInv.move {exec : Nat → Nat} {st : St} (hx : XInv exec st) {p : Nat} {c : Pc} (fresh : Nat) (holder : Nat → Option Nat)
    (file : Option Nat) (hfile : file = st.file ∨ file = none)
    (h1 : ∀ i, flockOf (st.pc p) = some i → flockOf c = some i ∨ c = .dead ∨ (file ≠ some i ∧ fdOf c ≠ some i))
    (h2 : st.pc p ≠ .dead) (h3 : ∀ i, fdOf c = some i → fdOf (st.pc p) = some i) (h4 : c ≠ .shared) :
    XInv exec { st with
      file := file
      fresh := fresh
      holder := holder
      pc := upd st.pc p c } := by
  have hne : ∀ i, st.file ≠ some i → file ≠ some i := by
    intro i hi
    rcases hfile with h | h <;> subst h
    · exact hi
    · simp
  refine ⟨?_, ?_⟩
  · intro q i h
    by_cases hq : q = p
    · subst hq
      simp only [upd_same]
      rcases hx.wrote q i h with ha | ha | ha
      · exact absurd ha h2
      · rcases h1 i ha with hb | hb | hb
        · exact Or.inr (Or.inl hb)
        · exact Or.inl hb
        · exact Or.inr (Or.inr hb)
      · exact Or.inr (Or.inr ⟨hne i ha.1, fun hf => ha.2 (h3 i hf)⟩)
    · simp only [upd, if_neg hq]
      rcases hx.wrote q i h with ha | ha | ha
      · exact Or.inl ha
      · exact Or.inr (Or.inl ha)
      · exact Or.inr (Or.inr ⟨hne i ha.1, ha.2⟩)
  · intro q
    by_cases hq : q = p
    · subst hq; simp only [upd_same]; exact h4
    · simp only [upd, if_neg hq]; exact hx.alone q

/-- Opening the file. -/
theorem XInv.opens {exec : Nat → Nat} {st : St} (hx : XInv exec st) {p f : Nat} {c : Pc} (fresh : Nat)
    (hp : st.pc p = .idle) (hfd : fdOf c = some f) (hc : c ≠ .shared)
    (hf : st.file = some f ∨ (∀ e, st.content f ≠ some e)) :
    XInv exec { st with
      file := some f
      fresh := fresh
      pc := upd st.pc p c } := by
  have hne : ∀ i e, st.content i = some e → st.file ≠ some i → i ≠ f := by
    intro i e h1 h2 h3
    subst h3
    rcases hf with h | h
    · exact h2 h
    · exact h e h1
  refine ⟨?_, ?_⟩
  · intro q i h
    have hw := hx.wrote q i h
    by_cases hq : q = p
    · subst hq
      rw [hp] at hw
      simp only [upd_same]
      rcases hw with ha | ha | ha
      · cases ha
      · cases ha
      · have := hne i _ h ha.1
        refine Or.inr (Or.inr ⟨fun hc => this (Option.some.inj hc).symm, ?_⟩)
        rw [hfd]
        exact fun hc => this (Option.some.inj hc).symm
    · simp only [upd, if_neg hq]
      rcases hw with ha | ha | ha
      · exact Or.inl ha
      · exact Or.inr (Or.inl ha)
      · have := hne i _ h ha.1
        exact Or.inr (Or.inr ⟨fun hc => this (Option.some.inj hc).symm, ha.2⟩)
  · intro q
    by_cases hq : q = p
    · subst hq; simp only [upd_same]; exact hc
    · simp only [upd, if_neg hq]; exact hx.alone q

/-- Writing the lock data. -/
theorem XInv.writes {exec : Nat → Nat} {st : St} (hinj : ∀ p q, exec p = exec q → p = q) (hx : XInv exec st) {p i : Nat} (pc : Nat → Pc)
    (h1 : flockOf (st.pc p) = some i) (h2 : pc p = .held i) (h3 : ∀ q, q ≠ p → pc q = st.pc q) :
    XInv exec { st with
      content := upd st.content i (some (exec p))
      pc := pc } := by
  refine ⟨?_, ?_⟩
  · intro q j h
    by_cases hj : j = i
    · subst hj
      simp only [upd_same] at h
      have := hinj p q (Option.some.inj h)
      subst this
      exact Or.inr (Or.inl (by simp only [h2]; rfl))
    · simp only [upd, if_neg hj] at h
      have hw := hx.wrote q j h
      by_cases hq : q = p
      · subst hq
        rcases hw with ha | ha | ha
        · rw [ha] at h1; cases h1
        · rw [h1] at ha; exact absurd (Option.some.inj ha).symm hj
        · refine Or.inr (Or.inr ⟨ha.1, ?_⟩)
          simp only [h2]
          exact fun hc => hj (Option.some.inj hc).symm
      · simp only [h3 q hq]; exact hw
  · intro q
    by_cases hq : q = p
    · subst hq; simp only [h2]; simp
    · simp only [h3 q hq]; exact hx.alone q

theorem XInv.step {exec : Nat → Nat} {st st' : St} {a : Act} (hinj : ∀ p q, exec p = exec q → p = q) (hc : CInv st)
    (hx : XInv exec st) (h : step exec st a = some st') : XInv exec st' := by
  cases a with
  | openFile p =>
    simp only [Lock.step, stepOpen] at h
    split at h
    · rename_i hp
      split at h
      · rename_i i hf
        cases h
        have := hx.opens (c := .opened i) st.fresh hp rfl (by simp) (Or.inl hf)
        rw [← hf] at this
        exact this
      · rename_i hf
        cases h
        refine hx.opens (c := .opened st.fresh) _ hp rfl (by simp) (Or.inr ?_)
        intro e he
        exact absurd (hc.cont _ e he) (Nat.lt_irrefl _)
    · exact absurd h (by simp)
  | flock p =>
    simp only [Lock.step, stepFlock] at h
    split at h
    · rename_i i hp
      split at h <;> cases h <;>
        exact hx.move _ _ _ (Or.inl rfl) (by rw [hp]; intro j hj; cases hj) (by rw [hp]; simp) (by rw [hp]; intro j hj; exact hj)
          (by simp)
    · exact absurd h (by simp)
  | compare p =>
    simp only [Lock.step, stepCompare] at h
    split at h
    · rename_i i hp
      split at h
      · rename_i he
        exfalso
        have := hx.wrote p i he
        rw [hp] at this
        rcases this with ha | ha | ha
        · cases ha
        · cases ha
        · exact ha.2 rfl
      · cases h
        exact hx.move _ _ _ (Or.inl rfl) (by rw [hp]; intro j hj; cases hj) (by rw [hp]; simp) (by intro j hj; cases hj) (by simp)
    · exact absurd h (by simp)
  | write p =>
    simp only [Lock.step, stepWrite] at h
    split at h
    · rename_i i hp
      cases h
      exact hx.writes hinj _ (by rw [hp]; rfl) (upd_same _ _ _) (fun q hq => upd_ne _ _ hq)
    · rename_i i hp
      cases h
      exact hx.writes hinj _ (by rw [hp]; rfl) hp (fun q hq => rfl)
    · exact absurd h (by simp)
  | unlink p =>
    simp only [Lock.step, stepUnlink] at h
    split at h
    · rename_i i hp
      cases h
      exact hx.move _ _ _ (Or.inr rfl) (by rw [hp]; intro j hj; exact Or.inl hj) (by rw [hp]; simp) (by rw [hp]; intro j hj; exact hj)
        (by simp)
    · rename_i hp
      exact absurd hp (hx.alone p)
    · exact absurd h (by simp)
  | close p =>
    simp only [Lock.step, stepClose] at h
    split at h
    · rename_i i hp
      cases h
      refine hx.move _ _ _ (Or.inl rfl) ?_ (by rw [hp]; simp) (by intro j hj; cases hj) (by simp)
      intro j hj
      rw [hp] at hj
      refine Or.inr (Or.inr ⟨?_, by simp [fdOf]⟩)
      exact hc.gone p j (by rw [hp]; exact hj)
    · exact absurd h (by simp)
  | rOpen p =>
    simp only [Lock.step, stepROpen] at h
    split at h
    · rename_i hp
      split at h
      · rename_i i hf
        cases h
        have := hx.opens (c := .rOpened i) st.fresh hp rfl (by simp) (Or.inl hf)
        rw [← hf] at this
        exact this
      · cases h; exact hx
    · exact absurd h (by simp)
  | rFlock p =>
    simp only [Lock.step, stepRFlock] at h
    split at h
    · rename_i i hp
      split at h <;> cases h <;>
        exact hx.move _ _ _ (Or.inl rfl) (by rw [hp]; intro j hj; cases hj) (by rw [hp]; simp) (by rw [hp]; intro j hj; exact hj)
          (by simp)
    · exact absurd h (by simp)
  | rUnlink p =>
    simp only [Lock.step, stepRUnlink] at h
    split at h
    · rename_i i hp
      cases h
      exact hx.move _ _ _ (Or.inr rfl) (by rw [hp]; intro j hj; cases hj) (by rw [hp]; simp) (by rw [hp]; intro j hj; exact hj)
        (by simp)
    · exact absurd h (by simp)
  | rClose p =>
    simp only [Lock.step, stepRClose] at h
    split at h
    · rename_i i hp
      cases h
      exact hx.move _ _ _ (Or.inl rfl) (by rw [hp]; intro j hj; cases hj) (by rw [hp]; simp) (by intro j hj; cases hj) (by simp)
    · rename_i i hp
      cases h
      exact hx.move _ _ _ (Or.inl rfl) (by rw [hp]; intro j hj; cases hj) (by rw [hp]; simp) (by intro j hj; cases hj) (by simp)
    · exact absurd h (by simp)
  | crash p =>
    simp only [Lock.step, stepCrash] at h
    cases h
    refine ⟨?_, ?_⟩
    · intro q i h
      by_cases hq : q = p
      · subst hq; exact Or.inl (by simp only [upd_same])
      · simp only [upd, if_neg hq]; exact hx.wrote q i h
    · intro q
      by_cases hq : q = p
      · subst hq; simp only [upd_same]; simp
      · simp only [upd, if_neg hq]; exact hx.alone q

theorem XInv.run {exec : Nat → Nat} (hinj : ∀ p q, exec p = exec q → p = q) {acts : List Act} : ∀ {st st' : St}, Inv st →
    CInv st → XInv exec st → Calm exec st acts → run exec st acts = some st' → XInv exec st' := by
  induction acts with
  | nil => intro st st' _ _ hx _ h; cases h; exact hx
  | cons a rest ih =>
    intro st st' hi hc hx hcalm h
    simp only [Lock.run] at h
    split at h
    · exact absurd h (by simp)
    · rename_i st1 h1
      exact ih (hi.step h1) (hc.step hi hcalm.1 h1) (hx.step hinj hc h1) (hcalm.2 _ h1) h

/-- C27, in part: in a calm run, at most one process has the lock through a descriptor, whatever the exec ids are. Missing: runs
with a removal that is not calm (`c27_race`, `c27_stop_force`). -/
theorem c27_descriptor_partial {exec : Nat → Nat} {acts : List Act} {st : St} (h : run exec init acts = some st)
    (hcalm : Calm exec init acts) {p q i j : Nat} (hp : st.pc p = .locked i ∨ st.pc p = .held i)
    (hq : st.pc q = .locked j ∨ st.pc q = .held j) : p = q ∧ i = j := by
  have hi := Inv.run Inv.start h
  have hc := CInv.run Inv.start CInv.start hcalm h
  have h1 : atPath (st.pc p) = some i ∧ flockOf (st.pc p) = some i := by rcases hp with hp | hp <;> rw [hp] <;> exact ⟨rfl, rfl⟩
  have h2 : atPath (st.pc q) = some j ∧ flockOf (st.pc q) = some j := by rcases hq with hq | hq <;> rw [hq] <;> exact ⟨rfl, rfl⟩
  have h3 := hc.path p i h1.1
  have h4 := hc.path q j h2.1
  rw [h3] at h4; cases h4
  exact ⟨c27_inode_partial h h1.2 h2.2, rfl⟩

/-- C27, in part: in a calm run of processes that have each their own exec id, no two processes own the lock at one time, crashes
and readers included. Missing: runs with a removal that is not calm (`c27_race`, `c27_stop_force`) and sharing by exec id
(`c27_orphan`, `c27_stale`). -/
theorem c27_exclusive_partial {exec : Nat → Nat} (hinj : ∀ p q, exec p = exec q → p = q) {acts : List Act} {st : St}
    (h : run exec init acts = some st) (hcalm : Calm exec init acts) : Exclusive st := by
  have hx := XInv.run hinj Inv.start CInv.start (XInv.start exec) hcalm h
  have key : ∀ r, Owns (st.pc r) → ∃ i, st.pc r = .locked i ∨ st.pc r = .held i := by
    intro r hr
    have := hx.alone r
    revert hr this
    cases st.pc r <;> simp [Owns]
  intro p q hp hq
  obtain ⟨i, hi⟩ := key p hp
  obtain ⟨j, hj⟩ := key q hq
  exact (c27_descriptor_partial h hcalm hi hj).1

/-- Process 1 gets the lock and releases it; process 2 fails meanwhile and gets it later, and crashes; process 4 reads the stale file;
process 3 gets the lock. -/
def calmRun : List Act :=
  [.openFile 1, .flock 1, .write 1, .openFile 2, .flock 2, .compare 2, .unlink 1, .close 1, .openFile 2, .flock 2, .write 2,
    .crash 2, .rOpen 4, .rFlock 4, .rClose 4, .openFile 3, .flock 3, .write 3]

example : (∀ p q, own p = own q → p = q) ∧ (∃ st, run own init calmRun = some st ∧ st.pc 3 = .held 1) ∧
    Calm own init calmRun := by
  refine ⟨fun p q h => h, ⟨(run own init calmRun).get (by decide), by simp, by decide⟩, ?_⟩
  simp only [calmRun, Calm, CalmAct, step, stepOpen, stepFlock, stepCompare, stepWrite, stepUnlink, stepClose, stepROpen,
    stepRFlock, stepRClose, stepCrash]
  simp [init, upd, drop, own, Opened]
  intro q
  by_cases h1 : q = 1
  · subst h1; simp
  · by_cases h2 : q = 2
    · subst h2; simp
    · simp [h1, h2]

end Verif.Lock
