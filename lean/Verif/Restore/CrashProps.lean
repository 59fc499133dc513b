import Verif.Restore.CrashModel
import Verif.Fs.Props

/-! # C44: a partially restored cluster cannot be started -/

namespace Verif.Restore.Crash

open Verif Verif.Fs
open Verif.Manifest (pgdataZ pgTblspcZ)
open Verif.Restore.Clean (controlZ globalNameZ manifestFileZ autoConfZ recSignalZ stbSignalZ recConfZ)

/-! ## What a system call does -/

/-- Nothing of the directories changes. -/
def SameE (st st' : St) : Prop := st'.fs.cur = st.fs.cur ∧ st'.fs.hist = st.fs.hist ∧ st'.fs.next = st.fs.next

/-- One entry changes. -/
def SetE (st st' : St) (p : Path) (e : Ent) : Prop :=
  st'.fs.cur = upd st.fs.cur p e ∧ st'.fs.hist = upd st.fs.hist p (e :: st.fs.hist p) ∧ st'.fs.next = st.fs.next ∧
  st'.fs.inode = st.fs.inode ∧ st'.fds = st.fds

def Eff (st st' : St) (k : Nat) : Op → Prop
  | .sys (.mkdir p) => st.fs.cur p = .missing ∧ parentDir st.fs p = true ∧ SetE st st' p .dir
  | .sys (.openWrite p tr) => parentDir st.fs p = true ∧
      ((∃ i, st.fs.cur p = .file i ∧ SameE st st' ∧ st'.fs.inode = (if tr then upd st.fs.inode i ⟨[], false⟩ else st.fs.inode) ∧
        st'.fds = upd st.fds k (some (i, 0))) ∨
      (st.fs.cur p = .missing ∧ st'.fs.cur = upd st.fs.cur p (.file st.fs.next) ∧
        st'.fs.hist = upd st.fs.hist p (.file st.fs.next :: st.fs.hist p) ∧ st'.fs.next = st.fs.next + 1 ∧
        st'.fs.inode = upd st.fs.inode st.fs.next ⟨[], false⟩ ∧ st'.fds = upd st.fds k (some (st.fs.next, 0))))
  | .sys (.write d) => ∃ i pos, st.fds k = some (i, pos) ∧ SameE st st' ∧
      st'.fs.inode = upd st.fs.inode i ⟨splice (st.fs.inode i).data pos d, false⟩ ∧ st'.fds = upd st.fds k (some (i, pos + d.length))
  | .sys (.seek n) => ∃ i pos, st.fds k = some (i, pos) ∧ SameE st st' ∧ st'.fs.inode = st.fs.inode ∧ st'.fds = upd st.fds k (some (i, n))
  | .sys .fsync => ∃ i pos, st.fds k = some (i, pos) ∧ SameE st st' ∧
      st'.fs.inode = upd st.fs.inode i ⟨(st.fs.inode i).data, true⟩ ∧ st'.fds = st.fds
  | .sys .close => ∃ i pos, st.fds k = some (i, pos) ∧ SameE st st' ∧ st'.fs.inode = st.fs.inode ∧ st'.fds = upd st.fds k none
  | .sys (.rename a b) => parentDir st.fs a = true ∧ parentDir st.fs b = true ∧ st.fs.cur b ≠ .dir ∧ st.fs.cur a ≠ .dir ∧ st.fs.cur a ≠ .missing ∧
      st'.fs.inode = st.fs.inode ∧ st'.fs.next = st.fs.next ∧ st'.fds = st.fds ∧
      ((a = b ∧ st'.fs.cur = st.fs.cur ∧ st'.fs.hist = st.fs.hist) ∨ (a ≠ b ∧ st'.fs.cur = upd (upd st.fs.cur a .missing) b (st.fs.cur a) ∧
        st'.fs.hist = upd (upd st.fs.hist a (.missing :: st.fs.hist a)) b (st.fs.cur a :: st.fs.hist b)))
  | .sys (.unlink p) => parentDir st.fs p = true ∧ st.fs.cur p ≠ .dir ∧ st.fs.cur p ≠ .missing ∧ SetE st st' p .missing
  | .sys (.symlink p t) => parentDir st.fs p = true ∧ st.fs.cur p = .missing ∧ SetE st st' p (.link t)
  | .sys (.syncDir p) => st.fs.cur p = .dir ∧ st'.fs.cur = st.fs.cur ∧ st'.fs.next = st.fs.next ∧ st'.fs.inode = st.fs.inode ∧ st'.fds = st.fds ∧
      st'.fs.hist = fun q => if q ≠ [] ∧ q.tail = p then [st.fs.cur q] else st.fs.hist q
  | .trunc n => ∃ i pos, st.fds k = some (i, pos) ∧ SameE st st' ∧
      st'.fs.inode = upd st.fs.inode i ⟨resize n (st.fs.inode i).data, false⟩ ∧ st'.fds = st.fds
  | .rmdir p => parentDir st.fs p = true ∧ st.fs.cur p = .dir ∧ SetE st st' p .missing

theorem upd_id {α β : Type} [DecidableEq α] (f : α → β) (a : α) : upd f a (f a) = f := by
  funext x
  by_cases h : x = a
  · subst h
    rw [upd_same]
  · rw [upd_other _ _ h]

theorem act_eff {st st' : St} {k : Nat} {op : Op} (h : act st k op = some st') : Eff st st' k op := by
  cases op with
  | rmdir p =>
    simp only [act] at h
    split at h
    · rename_i hc
      cases h
      exact ⟨hc.1, hc.2, rfl, rfl, rfl, rfl, rfl⟩
    · cases h
  | trunc n =>
    simp only [act] at h
    split at h
    · cases h
    · rename_i i pos he
      cases h
      exact ⟨i, pos, he, ⟨rfl, rfl, rfl⟩, rfl, rfl⟩
  | sys s =>
    simp only [act, Option.map_eq_some_iff] at h
    obtain ⟨f, hf, rfl⟩ := h
    cases s with
    | mkdir p =>
      simp only [exec] at hf
      split at hf
      · rename_i hc
        cases hf
        exact ⟨hc.2, hc.1, rfl, rfl, rfl, rfl, upd_id _ _⟩
      · cases hf
    | openWrite p tr =>
      simp only [exec] at hf
      split at hf
      · rename_i hp
        refine ⟨hp, ?_⟩
        split at hf
        · rename_i i hi
          cases hf
          exact .inl ⟨i, hi, ⟨rfl, rfl, rfl⟩, rfl, rfl⟩
        · rename_i hi
          cases hf
          exact .inr ⟨hi, rfl, rfl, rfl, rfl, rfl⟩
        · cases hf
      · cases hf
    | write d =>
      simp only [exec] at hf
      split at hf
      · rename_i i pos he
        cases hf
        exact ⟨i, pos, he, ⟨rfl, rfl, rfl⟩, rfl, rfl⟩
      · cases hf
    | seek n =>
      simp only [exec] at hf
      split at hf
      · rename_i i pos he
        cases hf
        exact ⟨i, pos, he, ⟨rfl, rfl, rfl⟩, rfl, rfl⟩
      · cases hf
    | fsync =>
      simp only [exec] at hf
      split at hf
      · rename_i i pos he
        cases hf
        refine ⟨i, pos, he, ⟨rfl, rfl, rfl⟩, rfl, ?_⟩
        dsimp only
        exact upd_id _ _
      · cases hf
    | close =>
      simp only [exec] at hf
      split at hf
      · rename_i e he
        cases hf
        exact ⟨e.1, e.2, he, ⟨rfl, rfl, rfl⟩, rfl, rfl⟩
      · cases hf
    | rename a b =>
      simp only [exec] at hf
      split at hf
      · rename_i hc
        obtain ⟨h1, h2, h3, h4, h5⟩ := hc
        refine ⟨h1, h2, h3, h4, h5, ?_⟩
        split at hf
        · rename_i hab
          cases hf
          exact ⟨rfl, rfl, upd_id _ _, .inl ⟨hab, rfl, rfl⟩⟩
        · rename_i hab
          cases hf
          refine ⟨rfl, rfl, upd_id _ _, .inr ⟨hab, rfl, ?_⟩⟩
          simp only [setEnt]
          rw [upd_other _ _ (Ne.symm hab)]
      · cases hf
    | unlink p =>
      simp only [exec] at hf
      split at hf
      · rename_i hc
        cases hf
        exact ⟨hc.1, hc.2.1, hc.2.2, rfl, rfl, rfl, rfl, upd_id _ _⟩
      · cases hf
    | symlink p t =>
      simp only [exec] at hf
      split at hf
      · rename_i hc
        cases hf
        exact ⟨hc.1, hc.2, rfl, rfl, rfl, rfl, upd_id _ _⟩
      · cases hf
    | syncDir p =>
      simp only [exec] at hf
      split at hf
      · rename_i hc
        cases hf
        exact ⟨hc, rfl, rfl, rfl, upd_id _ _, rfl⟩
      · cases hf

/-- The entries that an operation can make. -/
def makes : Op → List Path
  | .sys (.mkdir p) => [p]
  | .sys (.openWrite p _) => [p]
  | .sys (.rename _ b) => [b]
  | .sys (.symlink p _) => [p]
  | _ => []

/-- The entries that an operation uses. -/
def touches : Op → List Path
  | .sys (.mkdir p) => [p]
  | .sys (.openWrite p _) => [p]
  | .sys (.rename a b) => [a, b]
  | .sys (.symlink p _) => [p]
  | .sys (.unlink p) => [p]
  | .rmdir p => [p]
  | _ => []

theorem act_frame {st st' : St} {k : Nat} {op : Op} {p : Path} (h : act st k op = some st') (hp : p ∉ touches op) :
    st'.fs.cur p = st.fs.cur p ∧ (st'.fs.hist p = st.fs.hist p ∨ st'.fs.hist p = [st.fs.cur p]) := by
  have he := act_eff h
  cases op with
  | rmdir q =>
    obtain ⟨_, _, h1, h2, _⟩ := he
    simp only [touches, List.mem_singleton] at hp
    rw [h1, h2, upd_other _ _ hp, upd_other _ _ hp]
    exact ⟨rfl, .inl rfl⟩
  | trunc n =>
    obtain ⟨_, _, _, ⟨h1, h2, _⟩, _⟩ := he
    rw [h1, h2]
    exact ⟨rfl, .inl rfl⟩
  | sys s =>
    cases s with
    | mkdir q =>
      obtain ⟨_, _, h1, h2, _⟩ := he
      simp only [touches, List.mem_singleton] at hp
      rw [h1, h2, upd_other _ _ hp, upd_other _ _ hp]
      exact ⟨rfl, .inl rfl⟩
    | openWrite q tr =>
      simp only [touches, List.mem_singleton] at hp
      rcases he with ⟨_, ⟨i, _, ⟨h1, h2, _⟩, _⟩ | ⟨_, h1, h2, _⟩⟩
      · rw [h1, h2]
        exact ⟨rfl, .inl rfl⟩
      · rw [h1, h2, upd_other _ _ hp, upd_other _ _ hp]
        exact ⟨rfl, .inl rfl⟩
    | write d =>
      obtain ⟨_, _, _, ⟨h1, h2, _⟩, _⟩ := he
      rw [h1, h2]
      exact ⟨rfl, .inl rfl⟩
    | seek n =>
      obtain ⟨_, _, _, ⟨h1, h2, _⟩, _⟩ := he
      rw [h1, h2]
      exact ⟨rfl, .inl rfl⟩
    | fsync =>
      obtain ⟨_, _, _, ⟨h1, h2, _⟩, _⟩ := he
      rw [h1, h2]
      exact ⟨rfl, .inl rfl⟩
    | close =>
      obtain ⟨_, _, _, ⟨h1, h2, _⟩, _⟩ := he
      rw [h1, h2]
      exact ⟨rfl, .inl rfl⟩
    | rename a b =>
      simp only [touches, List.mem_cons, List.not_mem_nil, or_false, not_or] at hp
      obtain ⟨_, _, _, _, _, _, _, _, ⟨_, h1, h2⟩ | ⟨_, h1, h2⟩⟩ := he
      · rw [h1, h2]
        exact ⟨rfl, .inl rfl⟩
      · rw [h1, h2, upd_other _ _ hp.2, upd_other _ _ hp.1, upd_other _ _ hp.2, upd_other _ _ hp.1]
        exact ⟨rfl, .inl rfl⟩
    | unlink q =>
      obtain ⟨_, _, _, h1, h2, _⟩ := he
      simp only [touches, List.mem_singleton] at hp
      rw [h1, h2, upd_other _ _ hp, upd_other _ _ hp]
      exact ⟨rfl, .inl rfl⟩
    | symlink q t =>
      obtain ⟨_, _, h1, h2, _⟩ := he
      simp only [touches, List.mem_singleton] at hp
      rw [h1, h2, upd_other _ _ hp, upd_other _ _ hp]
      exact ⟨rfl, .inl rfl⟩
    | syncDir d =>
      obtain ⟨_, h1, _, _, _, h2⟩ := he
      rw [h1, h2]
      refine ⟨rfl, ?_⟩
      dsimp only
      split
      · exact .inr rfl
      · exact .inl rfl

/-- There is nothing, and nothing after a crash. -/
def Gone (st : St) (p : Path) : Prop := st.fs.cur p = .missing ∧ st.fs.hist p = [.missing]

/-- There is a directory, and after a crash too. -/
def Fixed (st : St) (p : Path) : Prop := st.fs.cur p = .dir ∧ st.fs.hist p = [.dir]

theorem act_gone {st st' : St} {k : Nat} {op : Op} {p : Path} (h : act st k op = some st') (hp : p ∉ makes op) (hg : Gone st p) : Gone st' p := by
  by_cases ht : p ∈ touches op
  · exfalso
    have he := act_eff h
    cases op with
    | rmdir q =>
      simp only [touches, List.mem_singleton] at ht
      subst ht
      have := hg.1.symm.trans he.2.1
      cases this
    | trunc n => simp [touches] at ht
    | sys s =>
      cases s with
      | unlink q =>
        simp only [touches, List.mem_singleton] at ht
        subst ht
        exact he.2.2.1 hg.1
      | rename a b =>
        simp only [touches, List.mem_cons, List.not_mem_nil, or_false] at ht
        simp only [makes, List.mem_singleton] at hp
        rcases ht with rfl | rfl
        · exact he.2.2.2.2.1 hg.1
        · exact hp rfl
      | _ => first | exact hp ht | simp [touches] at ht
  · obtain ⟨h1, h2 | h2⟩ := act_frame h ht
    · exact ⟨h1.trans hg.1, h2.trans hg.2⟩
    · exact ⟨h1.trans hg.1, by rw [h2, hg.1]⟩

theorem act_fixed {st st' : St} {k : Nat} {op : Op} {p : Path} (h : act st k op = some st') (hp : op ≠ .rmdir p) (hg : Fixed st p) : Fixed st' p := by
  by_cases ht : p ∈ touches op
  · exfalso
    have he := act_eff h
    have hd := hg.1
    cases op with
    | rmdir q =>
      simp only [touches, List.mem_singleton] at ht
      subst ht
      exact hp rfl
    | trunc n => simp [touches] at ht
    | sys s =>
      cases s with
      | unlink q =>
        simp only [touches, List.mem_singleton] at ht
        subst ht
        exact he.2.1 hd
      | rename a b =>
        simp only [touches, List.mem_cons, List.not_mem_nil, or_false] at ht
        rcases ht with rfl | rfl
        · exact he.2.2.2.1 hd
        · exact he.2.2.1 hd
      | mkdir q =>
        simp only [touches, List.mem_singleton] at ht
        subst ht
        have := hd.symm.trans he.1
        cases this
      | symlink q t =>
        simp only [touches, List.mem_singleton] at ht
        subst ht
        have := hd.symm.trans he.2.1
        cases this
      | openWrite q t =>
        simp only [touches, List.mem_singleton] at ht
        subst ht
        rcases he.2 with ⟨i, hi, _⟩ | ⟨hi, _⟩
        · have := hd.symm.trans hi
          cases this
        · have := hd.symm.trans hi
          cases this
      | _ => simp [touches] at ht
  · obtain ⟨h1, h2 | h2⟩ := act_frame h ht
    · exact ⟨h1.trans hg.1, h2.trans hg.2⟩
    · exact ⟨h1.trans hg.1, by rw [h2, hg.1]⟩

theorem stops_inv {I : St → Prop} {st st' : St} {tr : List Ev} (h : I st)
    (hstep : ∀ s s' k op, I s → (k, op) ∈ tr → act s k op = some s' → I s')
    (hpart : ∀ s s' k d n, I s → (k, Op.sys (.write d)) ∈ tr → act s k (.sys (.write (d.take n))) = some s' → I s') (hs : Stops st tr st') : I st' := by
  induction hs with
  | stop => exact h
  | part tr n ha => exact hpart _ _ _ _ n h (List.mem_cons_self ..) ha
  | step ha _ ih =>
    exact ih (hstep _ _ _ _ h (List.mem_cons_self ..) ha) (fun s s' k op hi hm => hstep s s' k op hi (List.mem_cons_of_mem _ hm))
      (fun s s' k d n hi hm => hpart s s' k d n hi (List.mem_cons_of_mem _ hm))

theorem full_stops {st st' : St} {tr : List Ev} (h : full st tr = some st') : Stops st tr st' := by
  induction tr generalizing st with
  | nil =>
    cases h
    exact .stop _ _
  | cons e tr ih =>
    obtain ⟨k, op⟩ := e
    simp only [full, Option.bind_eq_some_iff] at h
    obtain ⟨st1, h1, h2⟩ := h
    exact .step h1 (ih h2)

theorem stops_gone {st st' : St} {tr : List Ev} {p : Path} (h : Gone st p) (hp : ∀ e ∈ tr, p ∉ makes e.2) (hs : Stops st tr st') : Gone st' p :=
  stops_inv (I := fun s => Gone s p) h (fun _ _ _ _ hi hm ha => act_gone ha (hp _ hm) hi)
    (fun _ _ _ _ _ hi _ ha => act_gone ha (by simp [makes]) hi) hs

theorem stops_fixed {st st' : St} {tr : List Ev} {p : Path} (h : Fixed st p) (hp : ∀ e ∈ tr, e.2 ≠ .rmdir p) (hs : Stops st tr st') : Fixed st' p :=
  stops_inv (I := fun s => Fixed s p) h (fun _ _ _ _ hi hm ha => act_fixed ha (hp _ hm) hi)
    (fun _ _ _ _ _ hi _ ha => act_fixed ha (by simp) hi) hs

theorem full_append {st st' : St} {a b : List Ev} (h : full st (a ++ b) = some st') : ∃ s, full st a = some s ∧ full s b = some st' := by
  induction a generalizing st with
  | nil => exact ⟨st, rfl, h⟩
  | cons e a ih =>
    obtain ⟨k, op⟩ := e
    simp only [List.cons_append, full, Option.bind_eq_some_iff] at h
    obtain ⟨s1, h1, h2⟩ := h
    obtain ⟨s, h3, h4⟩ := ih h2
    exact ⟨s, by simp only [full, h1, Option.bind_some, h3], h4⟩

theorem stops_append {st st' : St} {a b : List Ev} (h : Stops st (a ++ b) st') : Stops st a st' ∨ ∃ s, full st a = some s ∧ Stops s b st' := by
  induction a generalizing st with
  | nil => exact .inr ⟨st, rfl, h⟩
  | cons e a ih =>
    rw [List.cons_append] at h
    cases h with
    | stop => exact .inl (.stop _ _)
    | part _ n ha => exact .inl (.part _ n ha)
    | step ha hs =>
      rcases ih hs with h1 | ⟨s, h1, h2⟩
      · exact .inl (.step ha h1)
      · exact .inr ⟨s, by simp only [full, ha, Option.bind_some, h1], h2⟩

/-! ## Several processes -/

/-- A sequence of one process in which each file that is opened is synced and then closed. -/
def Ok : Option Bool → List Op → Prop
  | none, [] => True
  | none, .sys (.openWrite _ _) :: r => Ok (some true) r
  | none, .sys (.mkdir _) :: r => Ok none r
  | none, .sys (.rename _ _) :: r => Ok none r
  | none, .sys (.unlink _) :: r => Ok none r
  | none, .sys (.symlink _ _) :: r => Ok none r
  | none, .sys (.syncDir _) :: r => Ok none r
  | none, .rmdir _ :: r => Ok none r
  | some _, .sys (.write _) :: r => Ok (some true) r
  | some d, .sys (.seek _) :: r => Ok (some d) r
  | some _, .trunc _ :: r => Ok (some true) r
  | some _, .sys .fsync :: r => Ok (some false) r
  | some false, .sys .close :: r => Ok none r
  | _, _ => False

/-- Each process has only its own files open. -/
structure J (owner : Path → Nat) (st : St) (w : Nat → List Op) : Prop where
  lt : ∀ p i, st.fs.cur p = .file i → i < st.fs.next
  inj : ∀ p q i, st.fs.cur p = .file i → st.fs.cur q = .file i → p = q
  closed : ∀ k, st.fds k = none → Ok none (w k)
  opened : ∀ k i pos, st.fds k = some (i, pos) → ∃ q d, st.fs.cur q = .file i ∧ owner q = k ∧ Ok (some d) (w k) ∧ (d = false → (st.fs.inode i).synced = true)
  sync : ∀ i, (st.fs.inode i).synced = false → ∃ k pos, st.fds k = some (i, pos)
  own : ∀ k, ∀ op ∈ w k, ∀ q ∈ touches op, owner q = k

section
variable {owner : Path → Nat} {st st' : St} {w : Nat → List Op} {k : Nat} {op : Op} {ops : List Op}

theorem J.own_step (h : J owner st w) (hw : w k = op :: ops) : ∀ j, ∀ o ∈ upd w k ops j, ∀ q ∈ touches o, owner q = j := by
  intro j o ho q hq
  by_cases hj : j = k
  · subst hj
    rw [upd_same] at ho
    exact h.own j o (hw ▸ List.mem_cons_of_mem _ ho) q hq
  · rw [upd_other _ _ hj] at ho
    exact h.own j o ho q hq

/-- The file that a process has open changes. -/
theorem J.write_step (h : J owner st w) (hw : w k = op :: ops) {i pos pos' : Nat} (hf : st.fds k = some (i, pos)) (hE : SameE st st') {x : Inode}
    (hi : st'.fs.inode = upd st.fs.inode i x) (hfd : st'.fds = upd st.fds k (some (i, pos'))) (hok : ∀ d, Ok (some d) (op :: ops) → ∃ d', Ok (some d') ops ∧
      (d' = false → x.synced = true ∨ (d = false ∧ x = st.fs.inode i))) : J owner st' (upd w k ops) := by
  obtain ⟨e1, e2, e3⟩ := hE
  refine ⟨?_, ?_, ?_, ?_, ?_, h.own_step hw⟩
  · intro p j hp
    rw [e1] at hp
    rw [e3]
    exact h.lt p j hp
  · intro p q j hp hq
    rw [e1] at hp hq
    exact h.inj p q j hp hq
  · intro j hj
    rw [hfd] at hj
    by_cases hjk : j = k
    · subst hjk
      rw [upd_same] at hj
      cases hj
    · rw [upd_other _ _ hjk] at hj ⊢
      exact h.closed j hj
  · intro j i' p' hj
    rw [hfd] at hj
    by_cases hjk : j = k
    · subst hjk
      rw [upd_same] at hj
      cases hj
      obtain ⟨q, d, h1, h2, h3, h4⟩ := h.opened j i pos hf
      rw [hw] at h3
      obtain ⟨d', h5, h6⟩ := hok d h3
      refine ⟨q, d', by rw [e1]; exact h1, h2, by rw [upd_same]; exact h5, ?_⟩
      intro hd
      rw [hi, upd_same]
      rcases h6 hd with h7 | ⟨h7, h8⟩
      · exact h7
      · rw [h8]
        exact h4 h7
    · rw [upd_other _ _ hjk] at hj ⊢
      obtain ⟨q, d, h1, h2, h3, h4⟩ := h.opened j i' p' hj
      refine ⟨q, d, by rw [e1]; exact h1, h2, h3, ?_⟩
      intro hd
      rw [hi]
      by_cases hii : i' = i
      · subst hii
        exfalso
        obtain ⟨q', d', g1, g2, _⟩ := h.opened k i' pos hf
        have := h.inj q q' i' h1 g1
        subst this
        exact hjk (h2.symm.trans g2)
      · rw [upd_other _ _ hii]
        exact h4 hd
  · intro j hj
    rw [hi] at hj
    rw [hfd]
    by_cases hji : j = i
    · subst hji
      exact ⟨k, pos', upd_same _ _ _⟩
    · rw [upd_other _ _ hji] at hj
      obtain ⟨l, pl, hl⟩ := h.sync j hj
      by_cases hlk : l = k
      · subst hlk
        rw [hf] at hl
        cases hl
        exact absurd rfl hji
      · exact ⟨l, pl, by rw [upd_other _ _ hlk]; exact hl⟩

/-- Entries change. -/
theorem J.entry_step (h : J owner st w) (hw : w k = op :: ops) (hk : st.fds k = none) (hfd : st'.fds = st.fds) (hi : st'.fs.inode = st.fs.inode)
    (hn : st'.fs.next = st.fs.next) (hok : Ok none (op :: ops) → Ok none ops) (ht : ∀ p, p ∉ touches op → st'.fs.cur p = st.fs.cur p)
    (hlt : ∀ p i, st'.fs.cur p = .file i → ∃ q, st.fs.cur q = .file i)
    (hinj : ∀ p q i, st'.fs.cur p = .file i → st'.fs.cur q = .file i → p = q) : J owner st' (upd w k ops) := by
  refine ⟨?_, hinj, ?_, ?_, ?_, h.own_step hw⟩
  · intro p i hp
    obtain ⟨q, hq⟩ := hlt p i hp
    rw [hn]
    exact h.lt q i hq
  · intro j hj
    rw [hfd] at hj
    by_cases hjk : j = k
    · subst hjk
      rw [upd_same]
      exact hok (hw ▸ h.closed j hj)
    · rw [upd_other _ _ hjk]
      exact h.closed j hj
  · intro j i pos hj
    rw [hfd] at hj
    have hjk : j ≠ k := by
      rintro rfl
      rw [hk] at hj
      cases hj
    obtain ⟨q, d, h1, h2, h3, h4⟩ := h.opened j i pos hj
    refine ⟨q, d, ?_, h2, by rw [upd_other _ _ hjk]; exact h3, by rw [hi]; exact h4⟩
    rw [ht q ?_]
    · exact h1
    · intro hq
      exact hjk (h2.symm.trans (h.own k op (hw ▸ List.mem_cons_self ..) q hq))
  · intro i hs
    rw [hi] at hs
    rw [hfd]
    exact h.sync i hs

theorem J.set_step (h : J owner st w) (hw : w k = op :: ops) (hk : st.fds k = none) {p : Path} {e : Ent} (hs : SetE st st' p e) (he : ∀ i, e ≠ .file i)
    (hp : p ∈ touches op) (hok : Ok none (op :: ops) → Ok none ops) : J owner st' (upd w k ops) := by
  obtain ⟨h1, h2, h3, h4, h5⟩ := hs
  have hc : ∀ q i, st'.fs.cur q = .file i → st.fs.cur q = .file i := by
    intro q i hq
    rw [h1] at hq
    by_cases hqp : q = p
    · subst hqp
      rw [upd_same] at hq
      exact absurd hq (he i)
    · rw [upd_other _ _ hqp] at hq
      exact hq
  refine h.entry_step hw hk h5 h4 h3 hok ?_ (fun q i hq => ⟨q, hc q i hq⟩) (fun q q' i hq hq' => h.inj q q' i (hc q i hq) (hc q' i hq'))
  intro q hq
  rw [h1, upd_other]
  rintro rfl
  exact hq hp

theorem J.step (h : J owner st w) (hw : w k = op :: ops) (ha : act st k op = some st') : J owner st' (upd w k ops) := by
  have he := act_eff ha
  have hno : ∀ i pos, st.fds k = some (i, pos) → ∃ d, Ok (some d) (op :: ops) := by
    intro i pos hf
    obtain ⟨q, d, _, _, h3, _⟩ := h.opened k i pos hf
    exact ⟨d, hw ▸ h3⟩
  -- a process that is not at a file operation has no file open
  have hclosed : (∀ d, ¬ Ok (some d) (op :: ops)) → st.fds k = none := by
    intro hn
    cases hf : st.fds k with
    | none => rfl
    | some e =>
      obtain ⟨d, hd⟩ := hno e.1 e.2 hf
      exact absurd hd (hn d)
  cases op with
  | rmdir p =>
    have hk := hclosed (fun d => by cases d <;> exact id)
    exact h.set_step hw hk he.2.2 (by simp) (by simp [touches]) id
  | trunc n =>
    obtain ⟨i, pos, hf, hE, hi, hfd⟩ := he
    refine h.write_step hw hf hE hi (pos' := pos) (by rw [hfd, ← hf, upd_id]) ?_
    intro d hd
    exact ⟨true, by cases d <;> exact hd, by simp⟩
  | sys s =>
    cases s with
    | mkdir p =>
      have hk := hclosed (fun d => by cases d <;> exact id)
      exact h.set_step hw hk he.2.2 (by simp) (by simp [touches]) id
    | symlink p t =>
      have hk := hclosed (fun d => by cases d <;> exact id)
      exact h.set_step hw hk he.2.2 (by simp) (by simp [touches]) id
    | unlink p =>
      have hk := hclosed (fun d => by cases d <;> exact id)
      exact h.set_step hw hk he.2.2.2 (by simp) (by simp [touches]) id
    | syncDir p =>
      have hk := hclosed (fun d => by cases d <;> exact id)
      obtain ⟨_, h1, h2, h3, h4, _⟩ := he
      exact h.entry_step hw hk h4 h3 h2 id (fun q _ => by rw [h1]) (fun q i hq => ⟨q, by rw [← h1]; exact hq⟩)
        (fun q q' i => by rw [h1]; exact h.inj q q' i)
    | rename a b =>
      have hk := hclosed (fun d => by cases d <;> exact id)
      obtain ⟨_, _, _, _, _, h3, h2, h4, h5⟩ := he
      rcases h5 with ⟨_, h1, _⟩ | ⟨hab, h1, _⟩
      · exact h.entry_step hw hk h4 h3 h2 id (fun q _ => by rw [h1]) (fun q i hq => ⟨q, by rw [← h1]; exact hq⟩)
          (fun q q' i => by rw [h1]; exact h.inj q q' i)
      · have hcur : ∀ q i, st'.fs.cur q = .file i → (q = b ∧ st.fs.cur a = .file i) ∨ (q ≠ b ∧ q ≠ a ∧ st.fs.cur q = .file i) := by
          intro q i hq
          rw [h1] at hq
          by_cases hqb : q = b
          · subst hqb
            rw [upd_same] at hq
            exact .inl ⟨rfl, hq⟩
          · rw [upd_other _ _ hqb] at hq
            by_cases hqa : q = a
            · subst hqa
              rw [upd_same] at hq
              cases hq
            · rw [upd_other _ _ hqa] at hq
              exact .inr ⟨hqb, hqa, hq⟩
        refine h.entry_step hw hk h4 h3 h2 id ?_ ?_ ?_
        · intro q hq
          simp only [touches, List.mem_cons, List.not_mem_nil, or_false, not_or] at hq
          rw [h1, upd_other _ _ hq.2, upd_other _ _ hq.1]
        · intro q i hq
          rcases hcur q i hq with ⟨_, g⟩ | ⟨_, _, g⟩
          · exact ⟨a, g⟩
          · exact ⟨q, g⟩
        · intro q q' i hq hq'
          rcases hcur q i hq with ⟨g1, g2⟩ | ⟨g1, g2, g3⟩
          · rcases hcur q' i hq' with ⟨g4, g5⟩ | ⟨g4, g5, g6⟩
            · exact g1.trans g4.symm
            · exact absurd (h.inj _ _ i g6 g2) g5
          · rcases hcur q' i hq' with ⟨g4, g5⟩ | ⟨g4, g5, g6⟩
            · exact absurd (h.inj _ _ i g3 g5) g2
            · exact h.inj _ _ i g3 g6
    | write d =>
      obtain ⟨i, pos, hf, hE, hi, hfd⟩ := he
      refine h.write_step hw hf hE hi hfd ?_
      intro d hd
      exact ⟨true, by cases d <;> exact hd, by simp⟩
    | seek n =>
      obtain ⟨i, pos, hf, hE, hi, hfd⟩ := he
      refine h.write_step hw hf hE (x := st.fs.inode i) (by rw [upd_id]; exact hi) hfd ?_
      intro d hd
      exact ⟨d, by cases d <;> exact hd, fun hx => .inr ⟨hx, rfl⟩⟩
    | fsync =>
      obtain ⟨i, pos, hf, hE, hi, hfd⟩ := he
      refine h.write_step hw hf hE hi (pos' := pos) (by rw [hfd, ← hf, upd_id]) ?_
      intro d hd
      exact ⟨false, by cases d <;> exact hd, fun _ => .inl rfl⟩
    | close =>
      obtain ⟨i, pos, hf, ⟨e1, e2, e3⟩, hi, hfd⟩ := he
      obtain ⟨q0, d0, g1, g2, g3, g4⟩ := h.opened k i pos hf
      rw [hw] at g3
      have hd0 : d0 = false ∧ Ok none ops := by
        cases d0 with
        | true => exact absurd g3 id
        | false => exact ⟨rfl, g3⟩
      refine ⟨?_, ?_, ?_, ?_, ?_, h.own_step hw⟩
      · intro p j hp
        rw [e1] at hp
        rw [e3]
        exact h.lt p j hp
      · intro p q j hp hq
        rw [e1] at hp hq
        exact h.inj p q j hp hq
      · intro j hj
        rw [hfd] at hj
        by_cases hjk : j = k
        · subst hjk
          rw [upd_same]
          exact hd0.2
        · rw [upd_other _ _ hjk] at hj ⊢
          exact h.closed j hj
      · intro j i' p' hj
        rw [hfd] at hj
        have hjk : j ≠ k := by
          rintro rfl
          rw [upd_same] at hj
          cases hj
        rw [upd_other _ _ hjk] at hj ⊢
        rw [e1, hi]
        exact h.opened j i' p' hj
      · intro j hj
        rw [hi] at hj
        rw [hfd]
        obtain ⟨l, pl, hl⟩ := h.sync j hj
        by_cases hlk : l = k
        · subst hlk
          rw [hf] at hl
          cases hl
          rw [g4 hd0.1] at hj
          cases hj
        · exact ⟨l, pl, by rw [upd_other _ _ hlk]; exact hl⟩
    | openWrite p tr =>
      have hk := hclosed (fun d => by cases d <;> exact id)
      have hok : Ok (some true) ops := by
        have := h.closed k hk
        rw [hw] at this
        exact this
      have hown : owner p = k := h.own k _ (hw ▸ List.mem_cons_self ..) p (by simp [touches])
      have hother : ∀ j i' p', j ≠ k → st.fds j = some (i', p') → ∃ q d, st.fs.cur q = .file i' ∧ q ≠ p ∧ owner q = j ∧ Ok (some d) (w j) ∧
          (d = false → (st.fs.inode i').synced = true) := by
        intro j i' p' hjk hj
        obtain ⟨q, d, h1, h2, h3, h4⟩ := h.opened j i' p' hj
        refine ⟨q, d, h1, ?_, h2, h3, h4⟩
        rintro rfl
        exact hjk (h2.symm.trans hown)
      rcases he with ⟨_, ⟨i, hpi, ⟨e1, e2, e3⟩, hi, hfd⟩ | ⟨hpm, e1, e2, e3, hi, hfd⟩⟩
      · refine ⟨?_, ?_, ?_, ?_, ?_, h.own_step hw⟩
        · intro q j hq
          rw [e1] at hq
          rw [e3]
          exact h.lt q j hq
        · intro q q' j hq hq'
          rw [e1] at hq hq'
          exact h.inj q q' j hq hq'
        · intro j hj
          rw [hfd] at hj
          by_cases hjk : j = k
          · subst hjk
            rw [upd_same] at hj
            cases hj
          · rw [upd_other _ _ hjk] at hj ⊢
            exact h.closed j hj
        · intro j i' p' hj
          rw [hfd] at hj
          by_cases hjk : j = k
          · subst hjk
            rw [upd_same] at hj ⊢
            cases hj
            exact ⟨p, true, by rw [e1]; exact hpi, hown, hok, by simp⟩
          · rw [upd_other _ _ hjk] at hj ⊢
            obtain ⟨q, d, h1, hqp, h2, h3, h4⟩ := hother j i' p' hjk hj
            refine ⟨q, d, by rw [e1]; exact h1, h2, h3, ?_⟩
            intro hd
            rw [hi]
            have : i' ≠ i := by
              rintro rfl
              exact hqp (h.inj q p i' h1 hpi)
            cases tr with
            | false => exact h4 hd
            | true =>
              rw [if_pos rfl, upd_other _ _ this]
              exact h4 hd
        · intro j hj
          rw [hi] at hj
          rw [hfd]
          by_cases hji : j = i
          · subst hji
            exact ⟨k, 0, upd_same _ _ _⟩
          · have hj' : (st.fs.inode j).synced = false := by
              cases tr with
              | false => exact hj
              | true =>
                rw [if_pos rfl, upd_other _ _ hji] at hj
                exact hj
            obtain ⟨l, pl, hl⟩ := h.sync j hj'
            have hlk : l ≠ k := by
              rintro rfl
              rw [hk] at hl
              cases hl
            exact ⟨l, pl, by rw [upd_other _ _ hlk]; exact hl⟩
      · have hcur : ∀ q i, st'.fs.cur q = .file i → (q = p ∧ i = st.fs.next) ∨ (q ≠ p ∧ st.fs.cur q = .file i) := by
          intro q i hq
          rw [e1] at hq
          by_cases hqp : q = p
          · subst hqp
            rw [upd_same] at hq
            cases hq
            exact .inl ⟨rfl, rfl⟩
          · rw [upd_other _ _ hqp] at hq
            exact .inr ⟨hqp, hq⟩
        refine ⟨?_, ?_, ?_, ?_, ?_, h.own_step hw⟩
        · intro q j hq
          rw [e3]
          rcases hcur q j hq with ⟨_, rfl⟩ | ⟨_, g⟩
          · exact Nat.lt_succ_self _
          · exact Nat.lt_succ_of_lt (h.lt q j g)
        · intro q q' j hq hq'
          rcases hcur q j hq with ⟨g1, g2⟩ | ⟨g1, g2⟩
          · rcases hcur q' j hq' with ⟨g3, g4⟩ | ⟨g3, g4⟩
            · exact g1.trans g3.symm
            · have := h.lt q' j g4
              omega
          · rcases hcur q' j hq' with ⟨g3, g4⟩ | ⟨g3, g4⟩
            · have := h.lt q j g2
              omega
            · exact h.inj q q' j g2 g4
        · intro j hj
          rw [hfd] at hj
          by_cases hjk : j = k
          · subst hjk
            rw [upd_same] at hj
            cases hj
          · rw [upd_other _ _ hjk] at hj ⊢
            exact h.closed j hj
        · intro j i' p' hj
          rw [hfd] at hj
          by_cases hjk : j = k
          · subst hjk
            rw [upd_same] at hj ⊢
            cases hj
            exact ⟨p, true, by rw [e1, upd_same], hown, hok, by simp⟩
          · rw [upd_other _ _ hjk] at hj ⊢
            obtain ⟨q, d, h1, hqp, h2, h3, h4⟩ := hother j i' p' hjk hj
            refine ⟨q, d, by rw [e1, upd_other _ _ hqp]; exact h1, h2, h3, ?_⟩
            intro hd
            have := h.lt q i' h1
            rw [hi, upd_other _ _ (by omega)]
            exact h4 hd
        · intro j hj
          rw [hi] at hj
          rw [hfd]
          by_cases hji : j = st.fs.next
          · subst hji
            exact ⟨k, 0, upd_same _ _ _⟩
          · rw [upd_other _ _ hji] at hj
            obtain ⟨l, pl, hl⟩ := h.sync j hj
            have hlk : l ≠ k := by
              rintro rfl
              rw [hk] at hl
              cases hl
            exact ⟨l, pl, by rw [upd_other _ _ hlk]; exact hl⟩

end

/-- Between the parts of the program: no file is open and all that was written is synced. No file has two names. -/
structure B (st : St) : Prop where
  lt : ∀ p i, st.fs.cur p = .file i → i < st.fs.next
  inj : ∀ p q i, st.fs.cur p = .file i → st.fs.cur q = .file i → p = q
  closed : ∀ k, st.fds k = none
  sync : ∀ i, (st.fs.inode i).synced = true

theorem B.begin {st : St} (h : B st) {owner : Path → Nat} {w : Nat → List Op} (hok : ∀ k, Ok none (w k))
    (hown : ∀ k, ∀ op ∈ w k, ∀ q ∈ touches op, owner q = k) : J owner st w where
  lt := h.lt
  inj := h.inj
  closed := fun k _ => hok k
  opened := fun k i pos hk => by rw [h.closed k] at hk; cases hk
  sync := fun i hi => by rw [h.sync i] at hi; cases hi
  own := hown

theorem J.done {owner : Path → Nat} {st : St} {w : Nat → List Op} (h : J owner st w) (hw : ∀ k, w k = []) : B st := by
  have hc : ∀ k, st.fds k = none := by
    intro k
    cases hf : st.fds k with
    | none => rfl
    | some e =>
      obtain ⟨q, d, _, _, h3, _⟩ := h.opened k e.1 e.2 hf
      rw [hw k] at h3
      cases d <;> exact absurd h3 id
  refine ⟨h.lt, h.inj, hc, ?_⟩
  intro i
  cases hs : (st.fs.inode i).synced with
  | true => rfl
  | false =>
    obtain ⟨k, pos, hk⟩ := h.sync i hs
    rw [hc k] at hk
    cases hk

theorem J.inter {owner : Path → Nat} {st st' : St} {w : Nat → List Op} {tr : List Ev} (hi : Inter w tr) (h : J owner st w) (hf : full st tr = some st') :
    B st' := by
  induction hi generalizing st with
  | nil hw =>
    cases hf
    exact h.done hw
  | step hw _ ih =>
    simp only [full, Option.bind_eq_some_iff] at hf
    obtain ⟨s1, h1, h2⟩ := hf
    exact ih (h.step hw h1) h2

/-- Only one process works. -/
theorem inter_one (ops : List Op) (k : Nat) : Inter (upd (fun _ => []) k ops) (ops.map fun op => (k, op)) := by
  induction ops with
  | nil =>
    refine .nil fun j => ?_
    by_cases hj : j = k
    · subst hj
      rw [upd_same]
    · rw [upd_other _ _ hj]
  | cons op ops ih =>
    refine .step (k := k) (ops := ops) (upd_same _ _ _) ?_
    have : upd (upd (fun _ => []) k (op :: ops)) k ops = upd (fun _ => ([] : List Op)) k ops := by
      funext j
      by_cases hj : j = k
      · subst hj
        rw [upd_same, upd_same]
      · rw [upd_other _ _ hj, upd_other _ _ hj, upd_other _ _ hj]
    rw [this]
    exact ih

theorem B.one {st st' : St} (h : B st) {ops : List Op} (hok : Ok none ops) (hf : full st (ops.map fun op => (0, op)) = some st') : B st' := by
  refine J.inter (owner := fun _ => 0) (inter_one ops 0) (h.begin ?_ ?_) hf
  · intro k
    by_cases hk : k = 0
    · subst hk
      rw [upd_same]
      exact hok
    · rw [upd_other _ _ hk]
      trivial
  · intro k op hop q _
    by_cases hk : k = 0
    · exact hk.symm
    · rw [upd_other _ _ hk] at hop
      cases hop

/-! ## The content of one file -/

/-- The content of the file at a place after a sequence of one process, which may have it open (with a position) or another file. -/
def ev (p : Path) : Option Inode → Option (Bool × Nat) → List Op → Option Inode
  | c, _, [] => c
  | c, _, .sys (.openWrite q tr) :: r =>
    if q = p then ev p (some (match c with
      | some i => if tr then ⟨[], false⟩ else i
      | none => ⟨[], false⟩)) (some (true, 0)) r
    else ev p c (some (false, 0)) r
  | c, o, .sys (.write d) :: r =>
    match o with
    | some (true, pos) => ev p (c.map fun i => ⟨splice i.data pos d, false⟩) (some (true, pos + d.length)) r
    | some (false, pos) => ev p c (some (false, pos + d.length)) r
    | none => ev p c none r
  | c, o, .sys (.seek n) :: r => ev p c (o.map fun e => (e.1, n)) r
  | c, o, .trunc n :: r =>
    match o with
    | some (true, _) => ev p (c.map fun i => ⟨resize n i.data, false⟩) o r
    | _ => ev p c o r
  | c, o, .sys .fsync :: r =>
    match o with
    | some (true, _) => ev p (c.map fun i => ⟨i.data, true⟩) o r
    | _ => ev p c o r
  | c, _, .sys .close :: r => ev p c none r
  | c, o, _ :: r => ev p c o r

/-- Whether a process has the file at a place open. -/
def opn (st : St) (k : Nat) (p : Path) : Option (Bool × Nat) := (st.fds k).map fun e => (decide (st.fs.cur p = .file e.1), e.2)

/-- Operations on open files. -/
def FileOp : Op → Prop
  | .sys (.openWrite _ _) => True
  | .sys (.write _) => True
  | .sys (.seek _) => True
  | .sys .fsync => True
  | .sys .close => True
  | .trunc _ => True
  | _ => False

theorem contentAt_same {st st' : St} {p : Path} (h1 : st'.fs.cur p = st.fs.cur p) (h2 : ∀ i, st.fs.cur p = .file i → st'.fs.inode i = st.fs.inode i) :
    contentAt st'.fs p = contentAt st.fs p := by
  unfold contentAt
  rw [h1]
  cases hc : st.fs.cur p with
  | file i => simp only [h2 i hc]
  | missing => rfl
  | dir => rfl
  | link t => rfl

section
variable {owner : Path → Nat} {st st' : St} {w : Nat → List Op} {k : Nat} {op : Op} {ops : List Op} {p : Path}

/-- A process leaves a file alone that it does not touch. -/
theorem J.frame (h : J owner st w) (hw : w k = op :: ops) (ha : act st k op = some st') (hp : p ∉ touches op)
    (hk : ∀ i pos, st.fds k = some (i, pos) → st.fs.cur p ≠ .file i) :
    st'.fs.cur p = st.fs.cur p ∧ ∀ i, st.fs.cur p = .file i → st'.fs.inode i = st.fs.inode i := by
  refine ⟨(act_frame ha hp).1, ?_⟩
  intro i hi
  have he := act_eff ha
  have hwr : ∀ j pos x, st.fds k = some (j, pos) → st'.fs.inode = upd st.fs.inode j x → st'.fs.inode i = st.fs.inode i := by
    intro j pos x hf hx
    rw [hx, upd_other]
    rintro rfl
    exact hk _ _ hf hi
  cases op with
  | rmdir q => rw [he.2.2.2.2.2.1]
  | trunc n =>
    obtain ⟨j, pos, hf, _, hx, _⟩ := he
    exact hwr j pos _ hf hx
  | sys s =>
    cases s with
    | mkdir q => rw [he.2.2.2.2.2.1]
    | symlink q t => rw [he.2.2.2.2.2.1]
    | unlink q => rw [he.2.2.2.2.2.2.1]
    | syncDir q => rw [he.2.2.2.1]
    | rename a b => rw [he.2.2.2.2.2.1]
    | write d =>
      obtain ⟨j, pos, hf, _, hx, _⟩ := he
      exact hwr j pos _ hf hx
    | seek d =>
      obtain ⟨j, pos, hf, _, hx, _⟩ := he
      rw [hx]
    | fsync =>
      obtain ⟨j, pos, hf, _, hx, _⟩ := he
      exact hwr j pos _ hf hx
    | close =>
      obtain ⟨j, pos, hf, _, hx, _⟩ := he
      rw [hx]
    | openWrite q tr =>
      simp only [touches, List.mem_singleton] at hp
      rcases he with ⟨_, ⟨j, hj, _, hx, _⟩ | ⟨_, _, _, _, hx, _⟩⟩
      · have : i ≠ j := by
          rintro rfl
          exact hp (h.inj p q i hi hj)
        rw [hx]
        cases tr with
        | false => rfl
        | true => rw [if_pos rfl, upd_other _ _ this]
      · have := h.lt p i hi
        rw [hx, upd_other _ _ (by omega)]

/-- Another process. -/
theorem J.other (h : J owner st w) (hw : w k = op :: ops) (ha : act st k op = some st') (hp : owner p ≠ k) :
    st'.fs.cur p = st.fs.cur p ∧ ∀ i, st.fs.cur p = .file i → st'.fs.inode i = st.fs.inode i := by
  refine h.frame hw ha ?_ ?_
  · intro hx
    exact hp (h.own k op (hw ▸ List.mem_cons_self ..) p hx)
  · intro i pos hf hi
    obtain ⟨q, d, h1, h2, _⟩ := h.opened k i pos hf
    have := h.inj p q i hi h1
    subst this
    exact hp h2

theorem act_fds (ha : act st k op = some st') {j : Nat} (hj : j ≠ k) : st'.fds j = st.fds j := by
  have he := act_eff ha
  cases op with
  | rmdir q => rw [he.2.2.2.2.2.2]
  | trunc n =>
    obtain ⟨_, _, _, _, _, hx⟩ := he
    rw [hx]
  | sys s =>
    cases s with
    | mkdir q => rw [he.2.2.2.2.2.2]
    | symlink q t => rw [he.2.2.2.2.2.2]
    | unlink q => rw [he.2.2.2.2.2.2.2]
    | syncDir q => rw [he.2.2.2.2.1]
    | rename a b => rw [he.2.2.2.2.2.2.2.1]
    | write d =>
      obtain ⟨_, _, _, _, _, hx⟩ := he
      rw [hx, upd_other _ _ hj]
    | seek d =>
      obtain ⟨_, _, _, _, _, hx⟩ := he
      rw [hx, upd_other _ _ hj]
    | fsync =>
      obtain ⟨_, _, _, _, _, hx⟩ := he
      rw [hx]
    | close =>
      obtain ⟨_, _, _, _, _, hx⟩ := he
      rw [hx, upd_other _ _ hj]
    | openWrite q tr =>
      rcases he with ⟨_, ⟨_, _, _, _, hx⟩ | ⟨_, _, _, _, _, hx⟩⟩
      · rw [hx, upd_other _ _ hj]
      · rw [hx, upd_other _ _ hj]

/-- The process that has the file. -/
theorem J.mine (h : J owner st w) (hw : w k = op :: ops) (hop : FileOp op) (ha : act st k op = some st') :
    ev p (contentAt st'.fs p) (opn st' k p) ops = ev p (contentAt st.fs p) (opn st k p) (op :: ops) := by
  have he := act_eff ha
  -- the file that is open changes
  have hwr : ∀ i pos pos' x, st.fds k = some (i, pos) → SameE st st' → st'.fs.inode = upd st.fs.inode i x → st'.fds k = some (i, pos') →
      opn st k p = some (decide (st.fs.cur p = .file i), pos) ∧ opn st' k p = some (decide (st.fs.cur p = .file i), pos') ∧
      contentAt st'.fs p = if st.fs.cur p = .file i then (contentAt st.fs p).map (fun _ => x) else contentAt st.fs p := by
    intro i pos pos' x hf hE hx hf'
    refine ⟨by unfold opn; rw [hf]; rfl, by unfold opn; rw [hf', hE.1]; rfl, ?_⟩
    unfold contentAt
    rw [hE.1]
    cases hc : st.fs.cur p with
    | file j =>
      by_cases hji : j = i
      · subst hji
        simp [hx, upd_same]
      · simp [hx, upd_other _ _ hji, hji]
    | missing => simp
    | dir => simp
    | link t => simp
  have hcont : ∀ i, st.fs.cur p = .file i → contentAt st.fs p = some (st.fs.inode i) := by
    intro i hi
    unfold contentAt
    rw [hi]
  cases op with
  | rmdir q => exact absurd hop id
  | trunc n =>
    obtain ⟨i, pos, hf, hE, hx, hfd⟩ := he
    obtain ⟨h1, h2, h3⟩ := hwr i pos pos _ hf hE hx (by rw [hfd]; exact hf)
    rw [h1, h2, h3]
    by_cases hc : st.fs.cur p = .file i
    · rw [if_pos hc, hcont i hc]
      simp [hc, ev]
    · simp [hc, ev]
  | sys s =>
    cases s with
    | mkdir q => exact absurd hop id
    | symlink q t => exact absurd hop id
    | unlink q => exact absurd hop id
    | syncDir q => exact absurd hop id
    | rename a b => exact absurd hop id
    | write d =>
      obtain ⟨i, pos, hf, hE, hx, hfd⟩ := he
      obtain ⟨h1, h2, h3⟩ := hwr i pos (pos + d.length) _ hf hE hx (by rw [hfd, upd_same])
      rw [h1, h2, h3]
      by_cases hc : st.fs.cur p = .file i
      · rw [if_pos hc, hcont i hc]
        simp [hc, ev]
      · simp [hc, ev]
    | seek n =>
      obtain ⟨i, pos, hf, hE, hx, hfd⟩ := he
      obtain ⟨h1, h2, h3⟩ := hwr i pos n (st.fs.inode i) hf hE (by rw [upd_id]; exact hx) (by rw [hfd, upd_same])
      rw [h1, h2, h3]
      by_cases hc : st.fs.cur p = .file i
      · rw [if_pos hc, hcont i hc]
        simp [hc, ev]
      · simp [hc, ev]
    | fsync =>
      obtain ⟨i, pos, hf, hE, hx, hfd⟩ := he
      obtain ⟨h1, h2, h3⟩ := hwr i pos pos _ hf hE hx (by rw [hfd]; exact hf)
      rw [h1, h2, h3]
      by_cases hc : st.fs.cur p = .file i
      · rw [if_pos hc, hcont i hc]
        simp [hc, ev]
      · simp [hc, ev]
    | close =>
      obtain ⟨i, pos, hf, ⟨e1, _⟩, hx, hfd⟩ := he
      have h1 : contentAt st'.fs p = contentAt st.fs p := contentAt_same (by rw [e1]) (by intro i _; rw [hx])
      have h2 : opn st' k p = none := by
        unfold opn
        rw [hfd, upd_same]
        rfl
      rw [h1, h2]
      simp [ev]
    | openWrite q tr =>
      rcases he with ⟨_, ⟨i, hi, ⟨e1, _⟩, hx, hfd⟩ | ⟨hm, e1, _, _, hx, hfd⟩⟩
      · have h2 : opn st' k p = some (decide (st.fs.cur p = .file i), 0) := by
          unfold opn
          rw [hfd, upd_same, e1]
          rfl
        rw [h2]
        by_cases hq : q = p
        · subst hq
          rw [hcont i hi]
          have h1 : contentAt st'.fs q = some (if tr then ⟨[], false⟩ else st.fs.inode i) := by
            unfold contentAt
            rw [e1, hi]
            simp only [hx]
            cases tr with
            | true => rw [if_pos rfl, if_pos rfl, upd_same]
            | false => rfl
          rw [h1, hi]
          simp only [ev, if_true, decide_true]
        · have hne : st.fs.cur p ≠ .file i := fun hc => hq (h.inj q p i hi hc)
          have h1 : contentAt st'.fs p = contentAt st.fs p := by
            refine contentAt_same (by rw [e1]) ?_
            intro j hj
            rw [hx]
            cases tr with
            | false => rfl
            | true =>
              rw [if_pos rfl, upd_other]
              rintro rfl
              exact hne hj
          rw [h1]
          simp only [ev, if_neg hq, decide_eq_false hne]
      · by_cases hq : q = p
        · subst hq
          have h1 : contentAt st'.fs q = some ⟨[], false⟩ := by
            unfold contentAt
            rw [e1, upd_same]
            simp only [hx, upd_same]
          have h2 : opn st' k q = some (true, 0) := by
            unfold opn
            rw [hfd, upd_same, e1, upd_same]
            simp
          have h3 : contentAt st.fs q = none := by
            unfold contentAt
            rw [hm]
          rw [h1, h2, h3]
          simp only [ev, if_true]
        · have hne : st.fs.cur p ≠ .file st.fs.next := by
            intro hc
            have := h.lt p _ hc
            omega
          have h1 : contentAt st'.fs p = contentAt st.fs p := by
            refine contentAt_same (by rw [e1, upd_other _ _ (Ne.symm hq)]) ?_
            intro j hj
            rw [hx, upd_other]
            rintro rfl
            exact hne hj
          have h2 : opn st' k p = some (false, 0) := by
            unfold opn
            rw [hfd, upd_same, e1, upd_other _ _ (Ne.symm hq)]
            simp [hne]
          rw [h1, h2]
          simp only [ev, if_neg hq]

end

/-- When all processes are done, a file has what its process made of it. -/
theorem inter_content {owner : Path → Nat} {st st' : St} {w : Nat → List Op} {tr : List Ev} {p : Path} (hi : Inter w tr) (h : J owner st w)
    (hop : ∀ k, ∀ op ∈ w k, FileOp op) (hf : full st tr = some st') :
    contentAt st'.fs p = ev p (contentAt st.fs p) (opn st (owner p) p) (w (owner p)) := by
  induction hi generalizing st with
  | nil hw =>
    cases hf
    rw [hw]
    simp [ev]
  | @step w k op ops tr hw hi ih =>
    simp only [full, Option.bind_eq_some_iff] at hf
    obtain ⟨s1, h1, h2⟩ := hf
    have hop' : ∀ j, ∀ o ∈ upd w k ops j, FileOp o := by
      intro j o ho
      by_cases hj : j = k
      · subst hj
        rw [upd_same] at ho
        exact hop j o (hw ▸ List.mem_cons_of_mem _ ho)
      · rw [upd_other _ _ hj] at ho
        exact hop j o ho
    rw [ih (h.step hw h1) hop' h2]
    by_cases hk : owner p = k
    · rw [hk, upd_same, hw]
      exact h.mine hw (hop k op (hw ▸ List.mem_cons_self ..)) h1
    · rw [upd_other _ _ hk]
      obtain ⟨g1, g2⟩ := h.other hw h1 hk
      rw [contentAt_same g1 g2]
      have : opn s1 (owner p) p = opn st (owner p) p := by
        unfold opn
        rw [act_fds h1 hk, g1]
      rw [this]

/-! ## What the jobs make of a file -/

/-- A sequence does nothing to a file. -/
def Skip (p : Path) (ops : List Op) : Prop := ∀ c r, ev p c none (ops ++ r) = ev p c none r

/-- A sequence changes the content of a file. -/
def Makes (p : Path) (ops : List Op) (g : Option Str → Option Str) : Prop :=
  ∀ c r, ∃ c', ev p c none (ops ++ r) = ev p c' none r ∧ c'.map Inode.data = g (c.map Inode.data)

theorem skip_nil (p : Path) : Skip p [] := fun _ _ => rfl

theorem Skip.append {p : Path} {a b : List Op} (ha : Skip p a) (hb : Skip p b) : Skip p (a ++ b) := by
  intro c r
  rw [List.append_assoc, ha, hb]

theorem skip_flatMap {α : Type} {p : Path} {f : α → List Op} {l : List α} (h : ∀ x ∈ l, Skip p (f x)) : Skip p (l.flatMap f) := by
  induction l with
  | nil => exact skip_nil p
  | cons x l ih =>
    rw [List.flatMap_cons]
    exact (h x (List.mem_cons_self ..)).append (ih fun y hy => h y (List.mem_cons_of_mem _ hy))

theorem Skip.makes {p : Path} {a : List Op} (h : Skip p a) : Makes p a id := fun c r => ⟨c, h c r, rfl⟩

theorem Makes.append {p : Path} {a b : List Op} {g g' : Option Str → Option Str} (ha : Makes p a g) (hb : Makes p b g') :
    Makes p (a ++ b) (fun x => g' (g x)) := by
  intro c r
  obtain ⟨c1, h1, h2⟩ := ha c (b ++ r)
  obtain ⟨c2, h3, h4⟩ := hb c1 r
  exact ⟨c2, by rw [List.append_assoc, h1, h3], by rw [h4, h2]⟩

/-- What is done with an open file. -/
def Body : Op → Prop
  | .sys (.write _) => True
  | .sys (.seek _) => True
  | .trunc _ => True
  | _ => False

theorem ev_body {p : Path} {body : List Op} (hb : ∀ op ∈ body, Body op) (c : Option Inode) (pos : Nat) (r : List Op) :
    ∃ pos', ev p c (some (false, pos)) (body ++ r) = ev p c (some (false, pos')) r := by
  induction body generalizing pos with
  | nil => exact ⟨pos, rfl⟩
  | cons op body ih =>
    have ih' := ih fun o ho => hb o (List.mem_cons_of_mem _ ho)
    have hop := hb op (List.mem_cons_self ..)
    rw [List.cons_append]
    cases op with
    | rmdir q => exact absurd hop id
    | trunc n =>
      simp only [ev]
      exact ih' pos
    | sys s =>
      cases s with
      | write d =>
        simp only [ev]
        exact ih' _
      | seek n =>
        simp only [ev, Option.map_some]
        exact ih' _
      | _ => exact absurd hop id

theorem skip_writeFile {p q : Path} {tr : Bool} {body : List Op} (hq : q ≠ p) (hb : ∀ op ∈ body, Body op) : Skip p (writeFile q tr body) := by
  intro c r
  unfold writeFile
  rw [List.cons_append, List.cons_append]
  simp only [ev, if_neg hq]
  rw [List.append_assoc]
  obtain ⟨pos', h⟩ := ev_body (p := p) hb c 0 ([.sys .fsync, .sys .close] ++ r)
  rw [h]
  simp [ev]

theorem ev_bufs {p : Path} (bufs : List (Option Nat × Str)) (d : Str) (y : Bool) (pos : Nat) (r : List Op) :
    ∃ y' pos', ev p (some ⟨d, y⟩) (some (true, pos)) (bufs.flatMap bufOps ++ r) = ev p (some ⟨writeBufs pos d bufs, y'⟩) (some (true, pos')) r := by
  induction bufs generalizing d y pos with
  | nil => exact ⟨y, pos, rfl⟩
  | cons b bufs ih =>
    obtain ⟨s, b⟩ := b
    rw [List.flatMap_cons, List.append_assoc]
    cases s with
    | none =>
      simp only [bufOps, Option.map_none, Option.toList_none, List.nil_append, List.cons_append, ev, Option.map_some, writeBufs, Option.getD_none]
      exact ih _ _ _
    | some n =>
      simp only [bufOps, Option.map_some, Option.toList_some, List.nil_append, List.cons_append, ev, writeBufs, Option.getD_some]
      exact ih _ _ _

/-- What is in a file after it was opened. -/
def base (tr : Bool) (was : Option Str) : Str := if tr then [] else was.getD []

theorem ev_open {p : Path} {tr : Bool} (c : Option Inode) (r : List Op) :
    ∃ y, ev p c none (.sys (.openWrite p tr) :: r) = ev p (some ⟨base tr (c.map Inode.data), y⟩) (some (true, 0)) r := by
  cases c with
  | none => exact ⟨false, by cases tr <;> simp [ev, base]⟩
  | some i =>
    cases tr with
    | true => exact ⟨false, by simp [ev, base]⟩
    | false => exact ⟨i.synced, by simp [ev, base]⟩

theorem makes_trunc {p : Path} {tr : Bool} {n : Nat} : Makes p (writeFile p tr [.trunc n]) fun was => some (resize n (base tr was)) := by
  intro c r
  refine ⟨some ⟨resize n (base tr (c.map Inode.data)), true⟩, ?_, rfl⟩
  unfold writeFile
  rw [List.cons_append, List.cons_append]
  obtain ⟨y, hy⟩ := ev_open (p := p) (tr := tr) c ([.trunc n] ++ [.sys .fsync, .sys .close] ++ r)
  rw [hy]
  simp [ev]

theorem makes_bufs {p : Path} {tr : Bool} {bufs : List (Option Nat × Str)} :
    Makes p (writeFile p tr (bufs.flatMap bufOps)) fun was => some (writeBufs 0 (base tr was) bufs) := by
  intro c r
  refine ⟨some ⟨writeBufs 0 (base tr (c.map Inode.data)) bufs, true⟩, ?_, rfl⟩
  unfold writeFile
  rw [List.cons_append, List.cons_append]
  obtain ⟨y, hy⟩ := ev_open (p := p) (tr := tr) c (bufs.flatMap bufOps ++ [.sys .fsync, .sys .close] ++ r)
  rw [hy, List.append_assoc]
  obtain ⟨y', pos', h⟩ := ev_bufs (p := p) bufs (base tr (c.map Inode.data)) y 0 ([.sys .fsync, .sys .close] ++ r)
  rw [h]
  simp [ev]

theorem body_bufs (bufs : List (Option Nat × Str)) : ∀ op ∈ bufs.flatMap bufOps, Body op := by
  intro op hop
  obtain ⟨⟨s, b⟩, _, hb⟩ := List.mem_flatMap.1 hop
  cases s with
  | none =>
    simp only [bufOps, Option.map_none, Option.toList_none, List.nil_append, List.mem_singleton] at hb
    subst hb
    trivial
  | some n =>
    simp only [bufOps, Option.map_some, Option.toList_some, List.cons_append, List.nil_append, List.mem_cons, List.not_mem_nil, or_false] at hb
    rcases hb with rfl | rfl <;> trivial

section
variable {c : Cfg} {p : Path} {f : JFile}

theorem skip_check (h : c.filePath f.name ≠ p) : Skip p (checkOps c f) := by
  unfold checkOps
  refine Skip.append ?_ ?_
  · unfold cutOps
    cases f.cut with
    | none => exact skip_nil p
    | some n => exact skip_writeFile h (by simp [Body])
  · cases f.what with
    | zero n => exact skip_writeFile h (by simp [Body])
    | preserve => exact skip_nil p
    | copy _ _ => exact skip_nil p

theorem skip_copy (h : c.filePath f.name ≠ p) : Skip p (copyOps c f) := by
  unfold copyOps
  cases f.what with
  | zero n => exact skip_nil p
  | preserve => exact skip_nil p
  | copy keep bufs => exact skip_writeFile h (body_bufs bufs)

theorem makes_cut (h : c.filePath f.name = p) : Makes p (cutOps c f) (fun was => cutTo was f) := by
  unfold cutTo cutOps
  rw [h]
  cases f.cut with
  | none => exact (skip_nil p).makes
  | some n =>
    have := makes_trunc (p := p) (tr := false) (n := n)
    simpa [base] using this

theorem makes_check (h : c.filePath f.name = p) : Makes p (checkOps c f) (fun was => match f.what with
    | .zero n => some (List.replicate n 0)
    | _ => cutTo was f) := by
  unfold checkOps
  cases f.what with
  | zero n =>
    simp only []
    rw [h]
    have h1 := (makes_cut h).append (makes_trunc (p := p) (tr := true) (n := n))
    simpa [base, resize] using h1
  | preserve =>
    have h1 := (makes_cut h).append (skip_nil p).makes
    simpa using h1
  | copy _ _ =>
    have h1 := (makes_cut h).append (skip_nil p).makes
    simpa using h1

theorem makes_copy (h : c.filePath f.name = p) : Makes p (copyOps c f) (fun was => match f.what with
    | .copy keep bufs => some (writeBufs 0 (if keep then was.getD [] else []) bufs)
    | _ => was) := by
  unfold copyOps
  rw [h]
  cases f.what with
  | zero n => exact (skip_nil p).makes
  | preserve => exact (skip_nil p).makes
  | copy keep bufs =>
    have h1 := makes_bufs (p := p) (tr := !keep) (bufs := bufs)
    cases keep <;> simpa [base] using h1

/-- The job of a file. -/
theorem makes_job {job : List JFile} (hn : (job.map JFile.name).Nodup) (hinj : ∀ g ∈ job, c.filePath g.name = c.filePath f.name → g.name = f.name)
    (hf : f ∈ job) : Makes (c.filePath f.name) (jobOps c job) (fun was => result was f) := by
  obtain ⟨a, b, rfl⟩ := List.append_of_mem hf
  have hne : ∀ g, g ∈ a ∨ g ∈ b → c.filePath g.name ≠ c.filePath f.name := by
    intro g hg he
    have hg' := hinj g (by rcases hg with h | h <;> simp [h]) he
    rw [List.map_append, List.map_cons] at hn
    rcases hg with h | h
    · exact (List.nodup_append.1 hn).2.2 _ (List.mem_map_of_mem h) _ (List.mem_cons_self ..) hg'
    · exact (List.nodup_cons.1 (List.nodup_append.1 hn).2.1).1 (hg' ▸ List.mem_map_of_mem h)
  unfold jobOps
  rw [List.flatMap_append, List.flatMap_append, List.flatMap_cons, List.flatMap_cons]
  have s1 := skip_flatMap (f := checkOps c) (l := a) (fun g hg => skip_check (hne g (.inl hg)))
  have s2 := skip_flatMap (f := checkOps c) (l := b) (fun g hg => skip_check (hne g (.inr hg)))
  have s3 := skip_flatMap (f := copyOps c) (l := a) (fun g hg => skip_copy (hne g (.inl hg)))
  have s4 := skip_flatMap (f := copyOps c) (l := b) (fun g hg => skip_copy (hne g (.inr hg)))
  have hm := (s1.makes.append ((makes_check (c := c) (f := f) rfl).append s2.makes)).append (s3.makes.append ((makes_copy (c := c) (f := f) rfl).append s4.makes))
  intro c0 r
  obtain ⟨c', h1, h2⟩ := hm c0 r
  refine ⟨c', h1, h2.trans ?_⟩
  unfold result
  cases f.what <;> rfl

/-- All jobs of the process that has the file. -/
theorem makes_jobs {jobs : List (List JFile)} (hn : (jobs.flatten.map JFile.name).Nodup)
    (hinj : ∀ g ∈ jobs.flatten, c.filePath g.name = c.filePath f.name → g.name = f.name) (hf : f ∈ jobs.flatten) :
    Makes (c.filePath f.name) (jobs.flatMap (jobOps c)) (fun was => result was f) := by
  obtain ⟨job, hj, hfj⟩ := List.mem_flatten.1 hf
  obtain ⟨a, b, rfl⟩ := List.append_of_mem hj
  rw [List.flatten_append, List.flatten_cons] at hn hinj
  rw [List.map_append, List.map_append] at hn
  have hj' : (job.map JFile.name).Nodup := (List.nodup_append.1 (List.nodup_append.1 hn).2.1).1
  have hskip : ∀ l : List (List JFile), (∀ g ∈ l.flatten, c.filePath g.name ≠ c.filePath f.name) → Skip (c.filePath f.name) (l.flatMap (jobOps c)) := by
    intro l hl
    refine skip_flatMap fun job hjob => ?_
    have hg : ∀ g ∈ job, c.filePath g.name ≠ c.filePath f.name := fun g hg => hl g (List.mem_flatten.2 ⟨job, hjob, hg⟩)
    exact (skip_flatMap fun g h => skip_check (hg g h)).append (skip_flatMap fun g h => skip_copy (hg g h))
  have ha : ∀ g ∈ a.flatten, c.filePath g.name ≠ c.filePath f.name := by
    intro g hg he
    have hg' := hinj g (List.mem_append_left _ hg) he
    exact (List.nodup_append.1 hn).2.2 _ (List.mem_map_of_mem hg) _ (List.mem_append_left _ (List.mem_map_of_mem hfj)) hg'
  have hb : ∀ g ∈ b.flatten, c.filePath g.name ≠ c.filePath f.name := by
    intro g hg he
    have hg' := hinj g (List.mem_append_right _ (List.mem_append_right _ hg)) he
    exact (List.nodup_append.1 (List.nodup_append.1 hn).2.1).2.2 _ (List.mem_map_of_mem hfj) _ (List.mem_map_of_mem hg) hg'.symm
  rw [List.flatMap_append, List.flatMap_cons]
  exact (hskip a ha).makes.append ((makes_job hj' (fun g hg => hinj g (List.mem_append_right _ (List.mem_append_left _ hg))) hfj).append (hskip b hb).makes)

end

theorem ok_append {a b : List Op} {o : Option Bool} (ha : Ok o a) (hb : Ok none b) : Ok o (a ++ b) := by
  induction a generalizing o with
  | nil =>
    cases o with
    | none => exact hb
    | some d => cases d <;> exact absurd ha id
  | cons op a ih =>
    rw [List.cons_append]
    cases op with
    | rmdir q =>
      cases o with
      | none => exact ih ha
      | some d => cases d <;> exact absurd ha id
    | trunc n =>
      cases o with
      | none => exact absurd ha id
      | some d => cases d <;> exact ih ha
    | sys s =>
      cases s with
      | mkdir q =>
        cases o with
        | none => exact ih ha
        | some d => cases d <;> exact absurd ha id
      | openWrite q tr =>
        cases o with
        | none => exact ih (o := some true) ha
        | some d => cases d <;> exact absurd ha id
      | rename q q' =>
        cases o with
        | none => exact ih ha
        | some d => cases d <;> exact absurd ha id
      | unlink q =>
        cases o with
        | none => exact ih ha
        | some d => cases d <;> exact absurd ha id
      | symlink q tt =>
        cases o with
        | none => exact ih ha
        | some d => cases d <;> exact absurd ha id
      | syncDir q =>
        cases o with
        | none => exact ih ha
        | some d => cases d <;> exact absurd ha id
      | write d' =>
        cases o with
        | none => exact absurd ha id
        | some d => cases d <;> exact ih (o := some true) ha
      | seek n =>
        cases o with
        | none => exact absurd ha id
        | some d => cases d <;> exact ih ha
      | fsync =>
        cases o with
        | none => exact absurd ha id
        | some d => cases d <;> exact ih (o := some false) ha
      | close =>
        cases o with
        | none => exact absurd ha id
        | some d =>
          cases d with
          | true => exact absurd ha id
          | false => exact ih (o := none) ha

theorem ok_flatMap {α : Type} {f : α → List Op} {l : List α} (h : ∀ x ∈ l, Ok none (f x)) : Ok none (l.flatMap f) := by
  induction l with
  | nil => trivial
  | cons x l ih =>
    rw [List.flatMap_cons]
    exact ok_append (h x (List.mem_cons_self ..)) (ih fun y hy => h y (List.mem_cons_of_mem _ hy))

theorem ok_body {body : List Op} (hb : ∀ op ∈ body, Body op) (d : Bool) (r : List Op) (hr : ∀ d, Ok (some d) r) : Ok (some d) (body ++ r) := by
  induction body generalizing d with
  | nil => exact hr d
  | cons op body ih =>
    have ih' := ih fun o ho => hb o (List.mem_cons_of_mem _ ho)
    have hop := hb op (List.mem_cons_self ..)
    rw [List.cons_append]
    cases op with
    | rmdir q => exact absurd hop id
    | trunc n => cases d <;> exact ih' true
    | sys s =>
      cases s with
      | write d' => cases d <;> exact ih' true
      | seek n => cases d <;> exact ih' _
      | _ => exact absurd hop id

theorem ok_writeFile {q : Path} {tr : Bool} {body : List Op} (hb : ∀ op ∈ body, Body op) : Ok none (writeFile q tr body) := by
  unfold writeFile
  exact ok_body hb true [.sys .fsync, .sys .close] (fun d => by cases d <;> trivial)

theorem ok_job (c : Cfg) (job : List JFile) : Ok none (jobOps c job) := by
  unfold jobOps
  refine ok_append (ok_flatMap fun f _ => ?_) (ok_flatMap fun f _ => ?_)
  · unfold checkOps
    refine ok_append ?_ ?_
    · unfold cutOps
      cases f.cut with
      | none => trivial
      | some n => exact ok_writeFile (by simp [Body])
    · cases f.what with
      | zero n => exact ok_writeFile (by simp [Body])
      | preserve => trivial
      | copy _ _ => trivial
  · unfold copyOps
    cases f.what with
    | zero n => trivial
    | preserve => trivial
    | copy keep bufs => exact ok_writeFile (body_bufs bufs)

/-- A file is opened or used. -/
theorem writeFile_mem {q : Path} {tr : Bool} {body : List Op} (hb : ∀ op ∈ body, Body op) {op : Op} (h : op ∈ writeFile q tr body) :
    FileOp op ∧ ∀ x ∈ touches op, x = q := by
  unfold writeFile at h
  simp only [List.cons_append, List.mem_cons, List.mem_append, List.not_mem_nil, or_false] at h
  rcases h with rfl | h | rfl | rfl
  · exact ⟨trivial, by simp [touches]⟩
  · have := hb op h
    cases op with
    | rmdir q => exact absurd this id
    | trunc n => exact ⟨trivial, by simp [touches]⟩
    | sys s =>
      cases s with
      | write d' => exact ⟨trivial, by simp [touches]⟩
      | seek n => exact ⟨trivial, by simp [touches]⟩
      | _ => exact absurd this id
  · exact ⟨trivial, by simp [touches]⟩
  · exact ⟨trivial, by simp [touches]⟩

theorem job_mem {c : Cfg} {job : List JFile} {op : Op} (h : op ∈ jobOps c job) : ∃ f ∈ job, FileOp op ∧ ∀ x ∈ touches op, x = c.filePath f.name := by
  unfold jobOps at h
  rcases List.mem_append.1 h with h | h
  · obtain ⟨f, hf, h⟩ := List.mem_flatMap.1 h
    refine ⟨f, hf, ?_⟩
    unfold checkOps at h
    rcases List.mem_append.1 h with h | h
    · unfold cutOps at h
      cases hc : f.cut with
      | none => rw [hc] at h; cases h
      | some n =>
        rw [hc] at h
        exact writeFile_mem (by simp [Body]) h
    · cases hc : f.what with
      | zero n =>
        rw [hc] at h
        exact writeFile_mem (by simp [Body]) h
      | preserve => rw [hc] at h; cases h
      | copy _ _ => rw [hc] at h; cases h
  · obtain ⟨f, hf, h⟩ := List.mem_flatMap.1 h
    refine ⟨f, hf, ?_⟩
    unfold copyOps at h
    cases hc : f.what with
    | zero n => rw [hc] at h; cases h
    | preserve => rw [hc] at h; cases h
    | copy keep bufs =>
      rw [hc] at h
      exact writeFile_mem (body_bufs bufs) h

theorem inter_mem {w : Nat → List Op} {tr : List Ev} (h : Inter w tr) : ∀ e ∈ tr, e.2 ∈ w e.1 := by
  induction h with
  | nil => simp
  | @step w k op ops tr hw _ ih =>
    intro e he
    rcases List.mem_cons.1 he with rfl | he
    · dsimp only
      rw [hw]
      exact List.mem_cons_self ..
    · have := ih e he
      by_cases hk : e.1 = k
      · rw [hk, upd_same] at this
        rw [hk, hw]
        exact List.mem_cons_of_mem _ this
      · rw [upd_other _ _ hk] at this
        exact this

open Classical in
/-- The process that has a file. -/
noncomputable def ownerOf (c : Cfg) (jobs : Nat → List (List JFile)) (p : Path) : Nat :=
  if h : ∃ k, ∃ f ∈ (jobs k).flatten, c.filePath f.name = p then h.choose else 0

/-- The files have different places. -/
def Apart (c : Cfg) : Prop := ∀ m ∈ c.files, ∀ n ∈ c.files, c.filePath m = c.filePath n → m = n

section
variable {c : Cfg} {st st' : St} {jobs : Nat → List (List JFile)} {tr : List Ev}

theorem owner_eq (ha : Assigned c st jobs) (hd : Apart c) {k : Nat} {f : JFile} (hf : f ∈ (jobs k).flatten) : ownerOf c jobs (c.filePath f.name) = k := by
  have hex : ∃ k, ∃ g ∈ (jobs k).flatten, c.filePath g.name = c.filePath f.name := ⟨k, f, hf, rfl⟩
  unfold ownerOf
  rw [dif_pos hex]
  obtain ⟨g, hg, he⟩ := hex.choose_spec
  have hin : ∀ j (g : JFile), g ∈ (jobs j).flatten → g.name ∈ c.files := by
    intro j g hg
    obtain ⟨job, hj, hg⟩ := List.mem_flatten.1 hg
    exact ha.only j job hj g hg
  exact ha.one _ _ g hg f hf (hd _ (hin _ _ hg) _ (hin _ _ hf) he)

theorem jobs_begin (hb : B st) (ha : Assigned c st jobs) (hd : Apart c) : J (ownerOf c jobs) st (fun k => (jobs k).flatMap (jobOps c)) := by
  refine hb.begin (fun k => ok_flatMap fun job _ => ok_job c job) ?_
  intro k op hop q hq
  obtain ⟨job, hj, hop⟩ := List.mem_flatMap.1 hop
  obtain ⟨f, hf, _, ht⟩ := job_mem hop
  rw [ht q hq]
  exact owner_eq ha hd (List.mem_flatten.2 ⟨job, hj, hf⟩)

/-- After the jobs each file has its content. -/
theorem jobs_done (hb : B st) (ha : Assigned c st jobs) (hd : Apart c) (hi : Inter (fun k => (jobs k).flatMap (jobOps c)) tr)
    (hf : full st tr = some st') : B st' ∧ ∀ n ∈ c.files, contentAt st'.fs (c.filePath n) = some ⟨c.data n, true⟩ := by
  have hj := jobs_begin hb ha hd
  have hb' : B st' := J.inter hi hj hf
  refine ⟨hb', ?_⟩
  intro n hn
  obtain ⟨k, job, hjob, f, hfj, rfl⟩ := ha.all n hn
  have hfk : f ∈ (jobs k).flatten := List.mem_flatten.2 ⟨job, hjob, hfj⟩
  have hc := inter_content (p := c.filePath f.name) hi hj (by
    intro k op hop
    obtain ⟨job, _, hop⟩ := List.mem_flatMap.1 hop
    obtain ⟨_, _, h, _⟩ := job_mem hop
    exact h) hf
  rw [owner_eq ha hd hfk] at hc
  have hin : ∀ g ∈ (jobs k).flatten, g.name ∈ c.files := by
    intro g hg
    obtain ⟨job, hj, hg⟩ := List.mem_flatten.1 hg
    exact ha.only k job hj g hg
  have hm := makes_jobs (ha.once k) (fun g hg he => hd _ (hin g hg) _ (hin f hfk) he) hfk
  obtain ⟨c', h1, h2⟩ := hm (contentAt st.fs (c.filePath f.name)) []
  have ho : opn st k (c.filePath f.name) = none := by
    unfold opn
    rw [hb.closed k]
    rfl
  rw [List.append_nil] at h1
  rw [ho, h1] at hc
  simp only [ev] at hc
  dsimp only at h2
  rw [ha.right k f hfk] at h2
  rw [← hc] at h2
  unfold contentAt at h2 ⊢
  cases he : st'.fs.cur (c.filePath f.name) with
  | file i =>
    rw [he] at h2
    simp only [Option.map_some, Option.some.injEq] at h2
    simp only [Option.some.injEq]
    have := hb'.sync i
    cases hx : st'.fs.inode i with
    | mk d s =>
      rw [hx] at h2 this
      simp only at h2 this
      rw [h2, this]
  | missing => rw [he] at h2; cases h2
  | dir => rw [he] at h2; cases h2
  | link t => rw [he] at h2; cases h2

end

end Verif.Restore.Crash
