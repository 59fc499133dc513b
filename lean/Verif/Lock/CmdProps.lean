import Verif.Lock.CmdModel
import Verif.Restore.SelectProps

/-!
# C28 Commands with several locks
-/

namespace Verif.Lock

open Verif.Num (uintToZ)

/-! ## Specification -/

/-- The process has the lock on a file. -/
def Has (o : Own) (name : Str) : Prop := ∃ b, (name, b) ∈ o.locks

/-- A process without locks. -/
def nothing : Own :=
  { locks := []
    held := false }

/-- The property: success only with all locks, and no lock without success. -/
def AllOrNothing (names : List Str) (r : Res Bool × Own) : Prop :=
  (r.1 = .ok true → ∀ n ∈ names, Has r.2 n) ∧ (r.1 ≠ .ok true → ∀ n ∈ names, ¬ Has r.2 n)

/-! ## Negation: the property fails -/

/-- Two lock files. -/
def nameA : Str := [97]
def nameB : Str := [98]

/-- C28, negation: archive-push with two repositories asks for two locks; the first is busy and the second free. It reports success
without the first lock. -/
theorem c28_ignored : ∃ env : Str → File, env nameA = .busy ∧
    (cmdLockAcquire env true [nameA, nameB] nothing).1 = .ok true ∧
    ¬ Has (cmdLockAcquire env true [nameA, nameB] nothing).2 nameA := by
  refine ⟨fun n => if n = nameA then .busy else .free, by decide, by decide, ?_⟩
  rintro ⟨b, hb⟩
  cases b <;> revert hb <;> decide

/-- C28, negation: the first is free and the second busy. It reports failure with the first lock held. The next attempt of the same
process (archive-push and archive-get repeat it while they wait) is an assertion error, and `cmdLockRelease` does not release. -/
theorem c28_left : ∃ env : Str → File,
    let o := (cmdLockAcquire env true [nameA, nameB] nothing).2
    (cmdLockAcquire env true [nameA, nameB] nothing).1 = .ok false ∧ Has o nameA ∧
      (cmdLockAcquire env true [nameA, nameB] o).1 = .error .assert ∧
      cmdLockRelease true o = (.ok true, o) := by
  refine ⟨fun n => if n = nameA then .free else .busy, by decide, ⟨false, by decide⟩, by decide, by decide⟩

/-- C28, negation: without `returnOnNoLock` the same is an error, and the first lock stays in the list; `exitSafe` does not
release it (command/exit.c 172), so that its file is left behind. -/
theorem c28_error_left : ∃ env : Str → File,
    let o := (cmdLockAcquire env false [nameA, nameB] nothing).2
    (cmdLockAcquire env false [nameA, nameB] nothing).1 = .error .lockAcquire ∧ Has o nameA ∧
      cmdLockRelease true o = (.ok true, o) := by
  refine ⟨fun n => if n = nameA then .free else .busy, by decide, ⟨false, by decide⟩, by decide⟩

/-! ## Lemmas -/

theorem any_iff (o : Own) (name : Str) : o.locks.any (fun l => l.1 == name) = true ↔ Has o name := by
  simp only [List.any_eq_true, beq_iff_eq, Has]
  constructor
  · rintro ⟨⟨n, b⟩, hm, rfl⟩; exact ⟨b, hm⟩
  · rintro ⟨b, hm⟩; exact ⟨(name, b), hm, rfl⟩

/-- The lock a file gives. -/
def gain (env : Str → File) (name : Str) : List (Str × Bool) :=
  match env name with
  | .free => [(name, false)]
  | .family => [(name, true)]
  | _ => []

theorem has_append {o : Own} {l : List (Str × Bool)} {n : Str} :
    Has { o with locks := o.locks ++ l } n ↔ Has o n ∨ ∃ b, (n, b) ∈ l := by
  simp only [Has, List.mem_append]
  constructor
  · rintro ⟨b, h | h⟩
    · exact Or.inl ⟨b, h⟩
    · exact Or.inr ⟨b, h⟩
  · rintro (⟨b, h⟩ | ⟨b, h⟩)
    · exact ⟨b, Or.inl h⟩
    · exact ⟨b, Or.inr h⟩

theorem gain_mem {env : Str → File} {name n : Str} {b : Bool} (h : (n, b) ∈ gain env name) :
    n = name ∧ (env name = .free ∧ b = false ∨ env name = .family ∧ b = true) := by
  unfold gain at h
  cases he : env name <;> rw [he] at h <;> simp at h
  · exact ⟨h.1, Or.inl ⟨rfl, h.2⟩⟩
  · exact ⟨h.1, Or.inr ⟨rfl, h.2⟩⟩

/-- What one `lockAcquire` that returns does. -/
theorem lockAcquire_ok {env : Str → File} {ret : Bool} {o o' : Own} {name : Str} {r : Bool}
    (h : lockAcquire env ret o name = (.ok r, o')) :
    ¬ Has o name ∧ o' = { o with locks := o.locks ++ gain env name } ∧ (r = true ↔ env name = .free ∨ env name = .family) ∧
      (r = false → ret = true ∧ env name = .busy) := by
  unfold lockAcquire at h
  by_cases hany : o.locks.any (fun l => l.1 == name) = true
  · rw [if_pos hany] at h
    cases h
  · rw [if_neg hany] at h
    rw [any_iff] at hany
    refine ⟨hany, ?_⟩
    unfold gain
    cases he : env name <;> simp only [he] at h ⊢
    · cases h; simp
    · cases h; simp
    · cases ret <;> simp at h
      obtain ⟨rfl, rfl⟩ := h
      simp
    · cases h

theorem acquireLoop_ok {env : Str → File} {ret : Bool} {names : List Str} : ∀ {r0 r : Bool} {o o' : Own},
    acquireLoop env ret names r0 o = (.ok r, o') →
    o' = { o with locks := o.locks ++ names.flatMap (gain env) } ∧
      (∀ n ∈ names, env n ≠ .denied) ∧
      (ret = false → ∀ n ∈ names, env n ≠ .busy) ∧
      (names = [] → r = r0) ∧
      (∀ n, names.getLast? = some n → (r = true ↔ env n ≠ .busy)) := by
  induction names with
  | nil =>
    intro r0 r o o' h
    simp only [acquireLoop] at h
    cases h
    simp
  | cons name rest ih =>
    intro r0 r o o' h
    simp only [acquireLoop] at h
    split at h
    · cases h
    · rename_i r1 o1 h1
      obtain ⟨-, ho1, hr1, hb1⟩ := lockAcquire_ok h1
      obtain ⟨ho, hd, hret, hnil, hlast⟩ := ih h
      have hnd : env name ≠ .denied := by
        intro he
        cases r1 with
        | true => rcases hr1.1 rfl with hh | hh <;> rw [he] at hh <;> cases hh
        | false => have := (hb1 rfl).2; rw [he] at this; cases this
      have hbr : r1 = true ↔ env name ≠ .busy := by
        rw [hr1]
        constructor
        · rintro (he | he) <;> rw [he] <;> simp
        · intro hb
          cases he : env name with
          | free => exact Or.inl rfl
          | family => exact Or.inr rfl
          | busy => exact absurd he hb
          | denied => exact absurd he hnd
      refine ⟨?_, ?_, ?_, by simp, ?_⟩
      · rw [ho, ho1]
        simp only [List.flatMap_cons, List.append_assoc]
      · intro n hn
        rcases List.mem_cons.1 hn with rfl | hn
        · exact hnd
        · exact hd n hn
      · intro hr n hn
        rcases List.mem_cons.1 hn with rfl | hn
        · intro hb
          cases r1 with
          | true => exact (hbr.1 rfl) hb
          | false => have := (hb1 rfl).1; rw [hr] at this; cases this
        · exact hret hr n hn
      · intro n hn
        cases rest with
        | nil =>
          simp only [List.getLast?_singleton, Option.some.injEq] at hn
          subst hn
          rw [hnil rfl]
          exact hbr
        | cons m ms =>
          rw [List.getLast?_cons_cons] at hn
          exact hlast n hn

theorem has_flatMap {env : Str → File} {names : List Str} {n : Str} :
    (∃ b, (n, b) ∈ names.flatMap (gain env)) ↔ n ∈ names ∧ (env n = .free ∨ env n = .family) := by
  constructor
  · rintro ⟨b, h⟩
    obtain ⟨m, hm, hb⟩ := List.mem_flatMap.1 h
    obtain ⟨rfl, h1⟩ := gain_mem hb
    refine ⟨hm, ?_⟩
    rcases h1 with h1 | h1
    · exact Or.inl h1.1
    · exact Or.inr h1.1
  · rintro ⟨hm, h1⟩
    rcases h1 with h1 | h1
    · exact ⟨false, List.mem_flatMap.2 ⟨n, hm, by simp [gain, h1]⟩⟩
    · exact ⟨true, List.mem_flatMap.2 ⟨n, hm, by simp [gain, h1]⟩⟩

/-! ## What holds -/

/-- C28: what the code does whenever it returns. The locks the process has are those that were not busy; the result is that of the
last file alone; `held` is the result. -/
theorem c28_exact {env : Str → File} {ret : Bool} {names : List Str} {r : Bool} {o' : Own}
    (h : cmdLockAcquire env ret names nothing = (.ok r, o')) :
    (∀ n, Has o' n ↔ n ∈ names ∧ env n ≠ .busy) ∧ (∀ n, names.getLast? = some n → (r = true ↔ env n ≠ .busy)) ∧ o'.held = r := by
  unfold cmdLockAcquire at h
  rw [if_neg (by simp [nothing])] at h
  split at h
  · cases h
  · rename_i r1 o1 h1
    obtain ⟨ho, hd, -, -, hlast⟩ := acquireLoop_ok h1
    cases h
    refine ⟨?_, hlast, rfl⟩
    intro n
    have : Has { o1 with held := r } n ↔ ∃ b, (n, b) ∈ names.flatMap (gain env) := by
      rw [ho]; simp [Has, nothing]
    rw [this, has_flatMap]
    constructor
    · rintro ⟨h1, h2⟩
      refine ⟨h1, ?_⟩
      rcases h2 with h2 | h2 <;> rw [h2] <;> simp
    · rintro ⟨h1, h2⟩
      refine ⟨h1, ?_⟩
      have := hd n h1
      cases he : env n with
      | free => exact Or.inl rfl
      | family => exact Or.inr rfl
      | busy => exact absurd he h2
      | denied => exact absurd he this

example : ∃ env : Str → File, ∃ o', cmdLockAcquire env true [nameA, nameB] nothing = (.ok true, o') :=
  ⟨fun n => if n = nameA then .busy else .free, ⟨[(nameB, false)], true⟩, by decide⟩

/-- C28, in part: without `returnOnNoLock` (all commands but archive-push and archive-get in asynchronous mode) a command goes on
only with all its locks. Missing: with `returnOnNoLock` (`c28_ignored`), and that an error leaves no lock (`c28_error_left`). -/
theorem c28_all_partial {env : Str → File} {names : List Str} {r : Bool} {o' : Own} (hne : names ≠ [])
    (h : cmdLockAcquire env false names nothing = (.ok r, o')) : r = true ∧ o'.held = true ∧ ∀ n ∈ names, Has o' n := by
  obtain ⟨h1, h2, h3⟩ := c28_exact h
  have hb : ∀ n ∈ names, env n ≠ .busy := by
    unfold cmdLockAcquire at h
    rw [if_neg (by simp [nothing])] at h
    split at h
    · cases h
    · rename_i r1 o1 h1
      exact (acquireLoop_ok h1).2.2.1 rfl
  have hr : r = true := by
    cases hl : names.getLast? with
    | none => exact absurd (List.getLast?_eq_none_iff.1 hl) hne
    | some n => exact (h2 n hl).2 (hb n (List.mem_of_getLast? hl))
  exact ⟨hr, by rw [h3, hr], fun n hn => (h1 n).2 ⟨hn, hb n hn⟩⟩

example : ∃ env : Str → File, ∃ o', cmdLockAcquire env false [nameA, nameB] nothing = (.ok true, o') :=
  ⟨fun n => if n = nameA then .family else .free, ⟨[(nameA, true), (nameB, false)], true⟩, by decide⟩

/-- C28, in part: a command with one lock file (one repository, or the `repo` option) has the full property, for both values of
`returnOnNoLock`. Missing: several lock files (`c28_ignored`, `c28_left`). -/
theorem c28_single_partial (env : Str → File) (ret : Bool) (name : Str) :
    AllOrNothing [name] (cmdLockAcquire env ret [name] nothing) := by
  have hno : ¬ Has nothing name := by rintro ⟨b, hb⟩; simp [nothing] at hb
  refine ⟨?_, ?_⟩
  · intro h n hn
    have hr : cmdLockAcquire env ret [name] nothing = (.ok true, (cmdLockAcquire env ret [name] nothing).2) := by rw [← h]
    obtain ⟨h1, h2, -⟩ := c28_exact hr
    have hn : n = name := by simpa using hn
    subst hn
    exact (h1 n).2 ⟨by simp, (h2 n rfl).1 rfl⟩
  · intro h n hn
    have hn : n = name := by simpa using hn
    subst hn
    revert h
    have hany : ¬ (nothing.locks.any (fun l => l.1 == n) = true) := by rw [any_iff]; exact hno
    simp only [cmdLockAcquire, acquireLoop, lockAcquire, if_neg hany]
    rw [if_neg (by simp [nothing])]
    cases he : env n <;> cases ret <;> simp
    all_goals exact hno

/-- C28: after a success, `cmdLockRelease` leaves no lock. -/
theorem c28_release {env : Str → File} {ret ret' : Bool} {names : List Str} {o' : Own} (hne : names ≠ [])
    (h : cmdLockAcquire env ret names nothing = (.ok true, o')) : cmdLockRelease ret' o' = (.ok true, nothing) := by
  obtain ⟨h1, h2, h3⟩ := c28_exact h
  have hl : o'.locks ≠ [] := by
    intro hl
    cases hlast : names.getLast? with
    | none => exact hne (List.getLast?_eq_none_iff.1 hlast)
    | some n =>
      obtain ⟨b, hb⟩ := (h1 n).2 ⟨List.mem_of_getLast? hlast, (h2 n hlast).1 rfl⟩
      rw [hl] at hb; simp at hb
  simp [cmdLockRelease, lockRelease, h3, hl, nothing]

/-! ## The names -/

theorem cut_last {c : UInt8} {a b r s : Str} (hr : c ∉ r) (hs : c ∉ s) (h : a ++ c :: r = b ++ c :: s) : a = b ∧ r = s := by
  rcases List.append_eq_append_iff.1 h with ⟨x, h1, h2⟩ | ⟨x, h1, h2⟩
  · cases x with
    | nil => simp at h1 h2; exact ⟨h1.symm, h2⟩
    | cons y x =>
      simp only [List.cons_append, List.cons.injEq] at h2
      exact absurd (by rw [h2.2]; simp) hr
  · cases x with
    | nil => simp at h1 h2; exact ⟨h1, h2.symm⟩
    | cons y x =>
      simp only [List.cons_append, List.cons.injEq] at h2
      exact absurd (by rw [h2.2]; simp) hs

theorem dash_key (k : Nat) : (45 : UInt8) ∉ uintToZ k ++ lockExt := by
  rw [List.mem_append]
  rintro (h | h)
  · have := (Restore.digits_fmt k).2 45 h
    revert this; decide
  · revert h; decide

theorem dash_type (t : LockType) : (45 : UInt8) ∉ t.name := by cases t <;> decide

theorem type_inj {t t' : LockType} (h : t.name = t'.name) : t = t' := by
  revert h; cases t <;> cases t' <;> decide

/-- C28: lock files of different stanzas, types or repositories are different files. -/
theorem c28_name_inj {s s' : Str} {t t' : LockType} {k k' : Nat} (hk : k < 2 ^ 32) (hk' : k' < 2 ^ 32)
    (h : fileName s t k = fileName s' t' k') : s = s' ∧ t = t' ∧ k = k' := by
  unfold fileName at h
  have h1 := fun (t : LockType) (k : Nat) (s : Str) =>
    show s ++ 45 :: (t.name ++ 45 :: (uintToZ k ++ lockExt)) = (s ++ 45 :: t.name) ++ 45 :: (uintToZ k ++ lockExt) by simp
  rw [h1, h1] at h
  obtain ⟨h2, h3⟩ := cut_last (dash_key k) (dash_key k') h
  obtain ⟨h4, h5⟩ := cut_last (dash_type t) (dash_type t') h2
  refine ⟨h4, type_inj h5, ?_⟩
  have h6 : uintToZ k = uintToZ k' := List.append_cancel_right h3
  exact Restore.uintToZ_inj hk hk' h6

example : fileName [97, 45, 98] .archive 1 = [97, 45, 98, 45, 97, 114, 99, 104, 105, 118, 101, 45, 49, 46, 108, 111, 99, 107] := by
  decide +kernel

/-- C28: the locks of one command are different files, so that it does not trip over its own locks. -/
theorem c28_list_nodup {s : Str} {t : Option LockType} {keys : List Nat} {repo : Option Nat} (hn : keys.Nodup)
    (hk : ∀ k ∈ keys, k < 2 ^ 32) : (lockList s t keys repo).Nodup := by
  have hch : ∃ ch : List Nat, ch.Nodup ∧ (∀ k ∈ ch, k < 2 ^ 32) ∧
      lockList s t keys repo = (lockTypes t).flatMap fun t => ch.map fun k => fileName s t k := by
    cases repo with
    | none => exact ⟨keys, hn, hk, rfl⟩
    | some i =>
      have hsub : ((keys.drop i).take 1).Sublist keys := (List.take_sublist _ _).trans (List.drop_sublist _ _)
      exact ⟨(keys.drop i).take 1, hn.sublist hsub, fun k hm => hk k (hsub.subset hm), rfl⟩
  obtain ⟨ch, hcn, hck, he⟩ := hch
  rw [he]
  have htn : (lockTypes t).Nodup := by cases t with
    | none => decide
    | some t => simp [lockTypes]
  generalize lockTypes t = ts at htn
  induction ts with
  | nil => simp
  | cons x xs ih =>
    rw [List.flatMap_cons, List.nodup_append]
    have hx := List.nodup_cons.1 htn
    refine ⟨?_, ih hx.2, ?_⟩
    · rw [List.nodup_iff_pairwise_ne, List.pairwise_map]
      refine List.Pairwise.imp_of_mem ?_ (List.nodup_iff_pairwise_ne.1 hcn)
      intro a b ha hb hab hc
      exact hab (c28_name_inj (hck a ha) (hck b hb) hc).2.2
    · intro a ha b hb hab
      obtain ⟨k, hk1, rfl⟩ := List.mem_map.1 ha
      obtain ⟨y, hy, hb⟩ := List.mem_flatMap.1 hb
      obtain ⟨k2, hk2, rfl⟩ := List.mem_map.1 hb
      have := (c28_name_inj (hck k hk1) (hck k2 hk2) hab).2.1
      subst this
      exact hx.1 hy

example : lockList [97] none [1, 3] none = [fileName [97] .archive 1, fileName [97] .archive 3, fileName [97] .backup 1,
    fileName [97] .backup 3, fileName [97] .restore 1, fileName [97] .restore 3] := by rfl

/-- C28: a command of type `all` (stanza-delete and the like) asks for every lock any other command on the stanza asks for. -/
theorem c28_covers {s : Str} {t : Option LockType} {keys : List Nat} {repo : Option Nat} {n : Str}
    (h : n ∈ lockList s t keys repo) : n ∈ lockList s none keys none := by
  have : ∃ t' k, k ∈ keys ∧ n = fileName s t' k := by
    unfold lockList at h
    obtain ⟨t', -, hm⟩ := List.mem_flatMap.1 h
    obtain ⟨k, hk, rfl⟩ := List.mem_map.1 hm
    refine ⟨t', k, ?_, rfl⟩
    cases repo with
    | none => exact hk
    | some i => exact List.mem_of_mem_drop (List.mem_of_mem_take hk)
  obtain ⟨t', k, hk, rfl⟩ := this
  refine List.mem_flatMap.2 ⟨t', by cases t' <;> decide, List.mem_map.2 ⟨k, hk, rfl⟩⟩

end Verif.Lock
