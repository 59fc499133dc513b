import Verif.Control.Model
import Verif.Lock.CmdProps

/-!
# C56 Stop and start, C57 Forced stop
-/

namespace Verif.Control

open Verif.Lock (lockExt fileName LockType)

/-! ## C56 -/

theorem stopFileName_inj {s t : Str} (h : stopFileName (some s) = stopFileName (some t)) : s = t :=
  List.append_cancel_right h

theorem test_error {d : Dir} {stanza : Option Str} :
    lockStopTest d stanza = .error .stop ↔ stopFileName stanza ∈ d.files ∨ stopFileName none ∈ d.files := by
  cases stanza with
  | none =>
    simp only [lockStopTest]
    split <;> simp_all
  | some s =>
    simp only [lockStopTest]
    split
    · simp_all
    · split <;> simp_all

theorem test_ok {d : Dir} {stanza : Option Str} :
    lockStopTest d stanza = .ok () ↔ ¬ (stopFileName stanza ∈ d.files ∨ stopFileName none ∈ d.files) := by
  rw [← test_error]
  cases h : lockStopTest d stanza with
  | ok u => simp
  | error e =>
    have : e = .stop := by
      revert h
      cases stanza <;> simp only [lockStopTest] <;> (repeat' split) <;> simp_all
    subst this; simp

theorem stop_files (d : Dir) (stanza : Option Str) (force : Bool) (f : Str) :
    f ∈ (cmdStop d stanza force).1.files ↔ f ∈ d.files ∨ f = stopFileName stanza := by
  unfold cmdStop
  split
  · rename_i h
    constructor
    · exact Or.inl
    · rintro (h1 | h1)
      · exact h1
      · subst h1; exact h
  · cases force <;> simp

theorem start_files (d : Dir) (stanza : Option Str) (f : Str) :
    f ∈ (cmdStart d stanza).files ↔ f ∈ d.files ∧ f ≠ stopFileName stanza := by
  unfold cmdStart
  split
  · simp
  · rename_i h
    constructor
    · intro h1; exact ⟨h1, fun he => h (he ▸ h1)⟩
    · exact fun h1 => h1.1

/-- C56: after `stop` for a stanza, commands on the stanza refuse to run, with or without `--force` and whatever was stopped before. -/
theorem c56_stanza (d : Dir) (s : Str) (force : Bool) : lockStopTest (cmdStop d (some s) force).1 (some s) = .error .stop := by
  rw [test_error]
  exact Or.inl ((stop_files _ _ _ _).2 (Or.inr rfl))

/-- C56: after `stop` for all stanzas, every command refuses to run. -/
theorem c56_all (d : Dir) (force : Bool) (stanza : Option Str) : lockStopTest (cmdStop d none force).1 stanza = .error .stop := by
  rw [test_error]
  exact Or.inr ((stop_files _ _ _ _).2 (Or.inr rfl))

/-- C56: `stop` for a stanza that is not called "all" changes nothing for other stanzas, and nothing for commands without a
stanza. -/
theorem c56_others (d : Dir) {s : Str} (hs : s ≠ allName) (force : Bool) {t : Option Str} (ht : t ≠ some s) :
    lockStopTest (cmdStop d (some s) force).1 t = lockStopTest d t := by
  have h0 : stopFileName none ≠ stopFileName (some s) := by
    intro h
    exact hs (List.append_cancel_right h).symm
  have h1 : stopFileName t ≠ stopFileName (some s) := by
    cases t with
    | none => exact h0
    | some t => intro h; exact ht (by rw [stopFileName_inj h])
  cases h : lockStopTest d t with
  | ok u =>
    rw [test_ok] at h
    rw [test_ok, stop_files, stop_files]
    rintro ((h2 | h2) | (h2 | h2))
    · exact h (Or.inl h2)
    · exact h1 h2
    · exact h (Or.inr h2)
    · exact h0 h2
  | error e =>
    have he : e = .stop := by
      revert h
      cases t <;> simp only [lockStopTest] <;> (repeat' split) <;> simp_all
    subst he
    rw [test_error] at h
    rw [test_error, stop_files, stop_files]
    rcases h with h | h
    · exact Or.inl (Or.inl h)
    · exact Or.inr (Or.inl h)

example : ([97] : Str) ≠ allName ∧ (some [98] : Option Str) ≠ some [97] := by decide

/-- C56: after `start` for a stanza, commands on it run unless all stanzas are stopped. -/
theorem c56_start (d : Dir) (s : Str) :
    lockStopTest (cmdStart d (some s)) (some s) = .ok () ↔ s = allName ∨ lockStopTest d none = .ok () := by
  rw [test_ok, test_ok, start_files, start_files]
  constructor
  · intro h
    by_cases hs : s = allName
    · exact Or.inl hs
    · refine Or.inr ?_
      intro hc
      have hc : stopFileName none ∈ d.files := by rcases hc with hc | hc <;> exact hc
      exact h (Or.inr ⟨hc, fun he => hs (List.append_cancel_right he).symm⟩)
  · rintro (h | h) hc
    · subst h
      rcases hc with hc | hc
      · exact hc.2 rfl
      · exact hc.2 rfl
    · rcases hc with hc | hc
      · exact hc.2 rfl
      · exact h (Or.inl hc.1)

/-- C56: `start` undoes `stop` for any later check, when the stop file was not there before. -/
theorem c56_undo (d : Dir) (stanza : Option Str) (h : stopFileName stanza ∉ d.files) (force : Bool) (t : Option Str) :
    lockStopTest (cmdStart (cmdStop d stanza force).1 stanza) t = lockStopTest d t := by
  have hf : ∀ f, f ∈ (cmdStart (cmdStop d stanza force).1 stanza).files ↔ f ∈ d.files := by
    intro f
    rw [start_files, stop_files]
    constructor
    · rintro ⟨h1 | h1, h2⟩
      · exact h1
      · exact absurd h1 h2
    · intro h1
      exact ⟨Or.inl h1, fun he => h (he ▸ h1)⟩
  cases t <;> simp only [lockStopTest, hf]

example : stopFileName (some [97]) ∉ (⟨[stopFileName none], []⟩ : Dir).files := by decide

/-- C56, negation: `stop` for a stanza called "all" stops every stanza. -/
theorem c56_all_clash (force : Bool) (t : Option Str) :
    lockStopTest (cmdStop ⟨[], []⟩ (some allName) force).1 t = .error .stop := by
  rw [test_error]
  exact Or.inr ((stop_files _ _ _ _).2 (Or.inr rfl))

/-! ## C57 -/

/-- A lock file of the stanza (of any stanza for `none`), as `cmdLockFileName` names it. -/
def LockOf (stanza : Option Str) (name : Str) : Prop :=
  ∃ s t k, (stanza = none ∨ stanza = some s) ∧ name = fileName s t k

theorem selected_of {stanza : Option Str} {name : Str} (h : LockOf stanza name) : selected stanza name = true := by
  obtain ⟨s, t, k, hs, rfl⟩ := h
  have h1 : endsWith (fileName s t k) lockExt = true := by
    have : fileName s t k = (s ++ 45 :: (t.name ++ 45 :: Num.uintToZ k)) ++ lockExt := by simp [fileName]
    rw [this]
    generalize s ++ 45 :: (t.name ++ 45 :: Num.uintToZ k) = a
    simp [endsWith]
  simp only [selected, h1, Bool.true_and]
  rcases hs with rfl | rfl
  · rfl
  · simp only [beginsWith, fileName]
    have : s ++ 45 :: (t.name ++ 45 :: (Num.uintToZ k ++ lockExt)) = (s ++ [45]) ++ (t.name ++ 45 :: (Num.uintToZ k ++ lockExt)) := by
      simp
    rw [this, List.take_left]
    simp

theorem force_spec (stanza : Option Str) (locks : List (Str × ReadResult)) : ∀ pids : List Nat,
    (∀ p, p ∈ (forceLoop stanza locks pids).1 ↔
      p ∉ pids ∧ ∃ name, (name, ReadResult.valid p) ∈ locks ∧ selected stanza name = true) ∧
    (forceLoop stanza locks pids).1.Nodup ∧
    (forceLoop stanza locks pids).2 = locks.filter (fun l => !selected stanza l.1) := by
  induction locks with
  | nil => intro pids; simp [forceLoop]
  | cons x rest ih =>
    obtain ⟨name, r⟩ := x
    intro pids
    simp only [forceLoop]
    by_cases hs : selected stanza name = true
    · rw [if_pos hs]
      cases r with
      | other =>
        obtain ⟨h1, h2, h3⟩ := ih pids
        refine ⟨?_, h2, by simp [h3, hs]⟩
        intro p
        rw [h1 p]
        simp
      | valid pid =>
        dsimp only
        by_cases hp : pid ∈ pids
        · rw [if_pos hp]
          obtain ⟨h1, h2, h3⟩ := ih pids
          refine ⟨?_, h2, by simp [h3, hs]⟩
          intro p
          rw [h1 p]
          constructor
          · rintro ⟨ha, n, hb, hc⟩
            exact ⟨ha, n, List.mem_cons_of_mem _ hb, hc⟩
          · rintro ⟨ha, n, hb, hc⟩
            refine ⟨ha, n, ?_, hc⟩
            rcases List.mem_cons.1 hb with hb | hb
            · injection hb with hb1 hb2
              injection hb2 with hb2
              subst hb2; exact absurd hp ha
            · exact hb
        · rw [if_neg hp]
          obtain ⟨h1, h2, h3⟩ := ih (pids ++ [pid])
          refine ⟨?_, ?_, by simp [h3, hs]⟩
          · intro p
            dsimp only
            rw [List.mem_cons, h1 p]
            constructor
            · rintro (rfl | ⟨ha, n, hb, hc⟩)
              · exact ⟨hp, name, by simp, hs⟩
              · exact ⟨fun h => ha (List.mem_append_left _ h), n, List.mem_cons_of_mem _ hb, hc⟩
            · rintro ⟨ha, n, hb, hc⟩
              by_cases he : p = pid
              · exact Or.inl he
              · refine Or.inr ⟨?_, n, ?_, hc⟩
                · simp [ha, he]
                · rcases List.mem_cons.1 hb with hb | hb
                  · injection hb with hb1 hb2
                    injection hb2 with hb2
                    exact absurd hb2 he
                  · exact hb
          · rw [List.nodup_cons]
            refine ⟨?_, h2⟩
            rw [h1 pid]
            simp
    · rw [if_neg hs]
      obtain ⟨h1, h2, h3⟩ := ih pids
      refine ⟨?_, h2, by simp [h3, hs]⟩
      intro p
      dsimp only
      rw [h1 p]
      constructor
      · rintro ⟨ha, n, hb, hc⟩
        exact ⟨ha, n, List.mem_cons_of_mem _ hb, hc⟩
      · rintro ⟨ha, n, hb, hc⟩
        refine ⟨ha, n, ?_, hc⟩
        rcases List.mem_cons.1 hb with hb | hb
        · injection hb with hb1 hb2
          subst hb1; exact absurd hc hs
        · exact hb

/-- The locks of the stanza that were read as valid. -/
def Running (d : Dir) (stanza : Option Str) (p : Nat) : Prop :=
  ∃ name, LockOf stanza name ∧ (name, ReadResult.valid p) ∈ d.locks

/-- C57: a first `stop --force` sends a signal to each process that runs on the stanza, and no process gets two. Their lock files
are removed. -/
theorem c57_signals (d : Dir) (stanza : Option Str) (h : stopFileName stanza ∉ d.files) :
    (∀ p, Running d stanza p → p ∈ (cmdStop d stanza true).2) ∧ (cmdStop d stanza true).2.Nodup ∧
      (∀ l ∈ (cmdStop d stanza true).1.locks, ¬ LockOf stanza l.1) := by
  obtain ⟨h1, h2, h3⟩ := force_spec stanza d.locks []
  have he : cmdStop d stanza true = (⟨d.files ++ [stopFileName stanza], (forceLoop stanza d.locks []).2⟩,
      (forceLoop stanza d.locks []).1) := by
    simp [cmdStop, h]
  rw [he]
  refine ⟨?_, h2, ?_⟩
  · rintro p ⟨name, hn, hm⟩
    exact (h1 p).2 ⟨by simp, name, hm, selected_of hn⟩
  · intro l hl
    dsimp only at hl
    rw [h3] at hl
    intro hc
    have := (List.mem_filter.1 hl).2
    rw [selected_of hc] at this
    cases this

/-- Process 7 holds two locks of stanza "a", process 8 one of stanza "b". -/
def twoStanzas : Dir :=
  { files := []
    locks := [(fileName [97] .archive 1, .valid 7), (fileName [97] .backup 1, .valid 7), (fileName [98] .backup 1, .valid 8)] }

example : (cmdStop twoStanzas (some [97]) true).2 = [7] ∧ Running twoStanzas (some [97]) 7 := by
  refine ⟨by decide +kernel, fileName [97] .archive 1, ⟨[97], .archive, 1, Or.inr rfl, rfl⟩, by simp [twoStanzas]⟩

theorem cut_first {c : UInt8} {a b r s : Str} (ha : c ∉ a) (hb : c ∉ b) (h : a ++ c :: r = b ++ c :: s) : a = b := by
  rcases List.append_eq_append_iff.1 h with ⟨x, h1, h2⟩ | ⟨x, h1, h2⟩
  · cases x with
    | nil => simp at h1; exact h1.symm
    | cons y x =>
      simp only [List.cons_append, List.cons.injEq] at h2
      exact absurd (by rw [h1, h2.1]; simp) hb
  · cases x with
    | nil => simp at h1; exact h1
    | cons y x =>
      simp only [List.cons_append, List.cons.injEq] at h2
      exact absurd (by rw [h1, h2.1]; simp) ha

/-- C57, in part: when no name of a stanza has a dash, only processes that run on the stanza are sent a signal. Missing: names with
dashes (`c57_other_stanza`, `c57_shorter_stanza`). -/
theorem c57_only_partial (d : Dir) (s : Str) (hs : (45 : UInt8) ∉ s)
    (hl : ∀ l ∈ d.locks, ∃ s' t k, l.1 = fileName s' t k ∧ (45 : UInt8) ∉ s') {p : Nat}
    (hp : p ∈ (cmdStop d (some s) true).2) : Running d (some s) p := by
  obtain ⟨h1, -, -⟩ := force_spec (some s) d.locks []
  unfold cmdStop at hp
  split at hp
  · cases hp
  · simp only [if_true] at hp
    obtain ⟨-, name, hm, hsel⟩ := (h1 p).1 hp
    obtain ⟨s', t, k, hn, hd⟩ := hl _ hm
    dsimp only at hn
    subst hn
    have hb : beginsWith (fileName s' t k) (s ++ [45]) = true := by
      unfold selected at hsel
      exact (Bool.and_eq_true_iff.1 hsel).2
    simp only [beginsWith, beq_iff_eq] at hb
    have : fileName s' t k = s ++ 45 :: (fileName s' t k).drop (s ++ [45]).length := by
      conv => lhs; rw [← List.take_append_drop (s ++ [45]).length (fileName s' t k), hb]
      simp
    have he : s' = s := cut_first hd hs (by rw [← this]; rfl)
    subst he
    exact ⟨_, ⟨s', t, k, Or.inr rfl, rfl⟩, hm⟩

example : (45 : UInt8) ∉ ([97] : Str) ∧ (∀ l ∈ twoStanzas.locks, ∃ s' t k, l.1 = fileName s' t k ∧ (45 : UInt8) ∉ s') ∧
    7 ∈ (cmdStop twoStanzas (some [97]) true).2 := by
  refine ⟨by decide, ?_, by decide +kernel⟩
  intro l hl
  simp only [twoStanzas, List.mem_cons, List.not_mem_nil, or_false] at hl
  rcases hl with rfl | rfl | rfl
  · exact ⟨[97], .archive, 1, rfl, by decide⟩
  · exact ⟨[97], .backup, 1, rfl, by decide⟩
  · exact ⟨[98], .backup, 1, rfl, by decide⟩

/-- C57, negation: `stop --force` for stanza "a" ends a process of stanza "a-b". -/
theorem c57_other_stanza : ∃ d : Dir, ∃ p, p ∈ (cmdStop d (some [97]) true).2 ∧
    d.locks = [(fileName [97, 45, 98] .backup 1, .valid p)] :=
  ⟨⟨[], [(fileName [97, 45, 98] .backup 1, .valid 8)]⟩, 8, by decide +kernel, rfl⟩

/-- C57, negation: `stop --force` for stanza "a-backup" ends a process of stanza "a". -/
theorem c57_shorter_stanza : ∃ d : Dir, ∃ p, p ∈ (cmdStop d (some ([97, 45] ++ LockType.backup.name)) true).2 ∧
    d.locks = [(fileName [97] .backup 1, .valid p)] :=
  ⟨⟨[], [(fileName [97] .backup 1, .valid 8)]⟩, 8, by decide +kernel, rfl⟩

/-- C57, negation: when the stanza is stopped already, `stop --force` sends no signal at all. -/
theorem c57_already (d : Dir) (stanza : Option Str) (force : Bool) :
    (cmdStop (cmdStop d stanza force).1 stanza true).2 = [] := by
  have : stopFileName stanza ∈ (cmdStop d stanza force).1.files := (stop_files _ _ _ _).2 (Or.inr rfl)
  unfold cmdStop at this ⊢
  rw [if_pos this]

end Verif.Control
