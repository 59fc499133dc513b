import Verif.Restore.CrashMain

/-! # C44: examples, and what a crash can show before `global` is synced -/

namespace Verif.Restore.Crash

open Verif Verif.Fs
open Verif.Manifest (pgdataZ pgTblspcZ)
open Verif.Restore.Clean (controlZ globalNameZ manifestFileZ autoConfZ recSignalZ stbSignalZ recConfZ)

/-- The data directory `/p`. -/
def xPg : Path := [[112]]
def xGlob : Path := [globalNameZ, [112]]
def xDir : Path := [[98], [112]]

/-- `pg_data/b/y` and `pg_data/global/x` -/
def xY : Str := pgdataZ ++ [47, 98, 47, 121]
def xX : Str := globalMZ ++ [47, 120]

def xCfg : Cfg where
  pg := xPg
  glob := xGlob
  targets := [xPg]
  paths := [⟨pgdataZ, xPg, none⟩, ⟨globalMZ, xGlob, none⟩, ⟨pgdataZ ++ [47, 98], xDir, none⟩]
  links := []
  fileDirs := []
  files := [controlMZ, xX, xY]
  place := fun n => if n = xX then [120] :: xGlob else if n = xY then [121] :: xDir else []
  recovery := [recSignalZ]
  online := true
  data := fun n => if n = xX then [1, 2, 3] else if n = xY then [0, 0, 7] else [5, 5]
  invalid := fun x => 0 :: x

theorem good_xCfg : Good xCfg where
  pg := by decide
  targets := by decide
  paths := by
    intro p hp
    simp only [xCfg, List.mem_cons, List.not_mem_nil, or_false] at hp
    rcases hp with rfl | rfl | rfl <;> refine ⟨by decide, fun l hl => by cases hl⟩
  links := by decide
  files := by decide
  apart := by
    unfold Apart
    decide
  recovery := by decide

/-- All of these, or nothing. -/
def go (st : St) (tr : List Ev) : St := (full st tr).getD st

theorem full_go {st : St} {tr : List Ev} (h : (full st tr).isSome = true) : full st tr = some (go st tr) := by
  unfold go
  cases hf : full st tr with
  | none => rw [hf] at h; cases h
  | some s => rfl

def xEmpty : St := ⟨empty, fun _ => none⟩

/-- An earlier cluster with `pg_control`, an old `x` and a file `/p/z` that is not in the backup. -/
def xWas : List Op :=
  [.sys (.mkdir xPg), .sys (.syncDir []), .sys (.mkdir xGlob)] ++ writeFile (controlZ :: xGlob) true [.sys (.write [9])] ++
  writeFile ([122] :: xPg) true [.sys (.write [9])] ++ [.sys (.syncDir xPg), .sys (.syncDir xGlob)]

def xSt0 : St := go xEmpty (xWas.map fun op => (0, op))

theorem b_xEmpty : B xEmpty where
  lt := by
    intro p i h
    cases p with
    | nil => cases h
    | cons a p => cases h
  inj := by
    intro p q i h
    cases p with
    | nil => cases h
    | cons a p => cases h
  closed := fun _ => rfl
  sync := fun _ => rfl

theorem b_xSt0 : B xSt0 :=
  b_xEmpty.one (ops := xWas) (by simp [xWas, writeFile, Ok]) (full_go (by decide +kernel))

theorem control_xSt0 : isFile (xSt0.fs.cur xCfg.control) = true := by decide +kernel

/-! ## A restore -/

def xTr1 : List Ev := main [.unlink (controlZ :: xGlob), .syncDir xGlob]
def xTr2 : List Ev := [Op.sys (.unlink ([122] :: xPg))].map fun op => (0, op)
def xS1 : St := go xSt0 xTr1
def xS2 : St := go xS1 xTr2
def xTr3 : List Ev := main [.mkdir xDir]
def xS3 : St := go xS2 xTr3
def xTr4 : List Ev := main (writeOps (manifestWriter xCfg) xS3.fs [[1]])
def xS4 : St := go xS3 xTr4

/-- Process 1 has a job with two files, process 2 a job with one. -/
def xJobs : Nat → List (List JFile)
  | 1 => [[⟨controlMZ, none, .copy false [(none, [5]), (none, [5])]⟩, ⟨xX, none, .copy false [(none, [1, 2, 3])]⟩]]
  | 2 => [[⟨xY, none, .copy true [(some 2, [7])]⟩]]
  | _ => []

/-- The operations of the processes alternate. -/
def xTr5 : List Ev :=
  [(1, .sys (.openWrite xCfg.tmp true)), (2, .sys (.openWrite ([121] :: xDir) false)), (1, .sys (.write [5])), (2, .sys (.seek 2)),
    (1, .sys (.write [5])), (1, .sys .fsync), (2, .sys (.write [7])), (1, .sys .close), (1, .sys (.openWrite ([120] :: xGlob) true)),
    (2, .sys .fsync), (2, .sys .close), (1, .sys (.write [1, 2, 3])), (1, .sys .fsync), (1, .sys .close)]

def xS5 : St := go xS4 xTr5
def xTr6 : List Ev := main (writeOps (recoveryWriter xCfg recSignalZ) xS5.fs [])
def xS6 : St := go xS5 xTr6
def xTr7 : List Ev := main [.unlink (manifestWriter xCfg).name]
def xS7 : St := go xS6 xTr7
def xTr8 : List Ev := main ((synced xCfg).map .syncDir)
def xS8 : St := go xS7 xTr8
def xTr9 : List Ev := main (writeOps (controlWriter xCfg) xS8.fs [[0, 5, 5]] ++ [.rename xCfg.tmp xCfg.control])
def xS9 : St := go xS8 xTr9
def xTr10 : List Ev := main [.syncDir xGlob]
def xS10 : St := go xS9 xTr10

theorem assigned_x : Assigned xCfg xS4 xJobs where
  main := rfl
  all := by
    intro n hn
    simp only [xCfg, List.mem_cons, List.not_mem_nil, or_false] at hn
    rcases hn with rfl | rfl | rfl
    · exact ⟨1, _, List.mem_singleton.2 rfl, _, List.mem_cons_self .., rfl⟩
    · exact ⟨1, _, List.mem_singleton.2 rfl, _, List.mem_cons_of_mem _ (List.mem_cons_self ..), rfl⟩
    · exact ⟨2, _, List.mem_singleton.2 rfl, _, List.mem_cons_self .., rfl⟩
  only := by
    intro k
    match k with
    | 0 => simp [xJobs]
    | 1 => decide
    | 2 => decide
    | k + 3 => simp [xJobs]
  once := by
    intro k
    match k with
    | 0 => decide
    | 1 => decide
    | 2 => decide
    | k + 3 => simp [xJobs]
  one := by
    intro k l
    match k, l with
    | 0, l => simp [xJobs]
    | k + 3, l => simp [xJobs]
    | 1, 0 => simp [xJobs]
    | 2, 0 => simp [xJobs]
    | 1, 1 => intros; rfl
    | 2, 2 => intros; rfl
    | 1, 2 => decide
    | 2, 1 => decide
    | 1, l + 3 => simp [xJobs]
    | 2, l + 3 => simp [xJobs]
  right := by
    intro k
    match k with
    | 0 => simp [xJobs]
    | 1 => decide +kernel
    | 2 => decide +kernel
    | k + 3 => simp [xJobs]

/-- Take the next operation of a process. -/
theorem inter_take {w : Nat → List Op} {k : Nat} {op : Op} {tr : List Ev} (h : w k = op :: (w k).tail) (hi : Inter (upd w k (w k).tail) tr) : Inter w ((k, op) :: tr) :=
  .step h hi

theorem inter_x : Inter (fun k => (xJobs k).flatMap (jobOps xCfg)) xTr5 := by
  unfold xTr5
  iterate 14 refine inter_take (by decide) ?_
  refine .nil fun k => ?_
  match k with
  | 0 => decide
  | 1 => decide
  | 2 => decide
  | k + 3 => rfl

theorem done_x8 : Done xSt0 ([removeControl xCfg] ++ before xCfg ++ [restoreFiles xCfg] ++ after xCfg) xS8 := by
  refine .next (st1 := xS1) (tr := xTr1) ?_ (full_go (by decide +kernel)) ?_
  · show xTr1 = _
    decide +kernel
  refine .next (st1 := xS2) (tr := xTr2) ⟨_, ?_, rfl⟩ (full_go (by decide +kernel)) ?_
  · simp only [List.mem_singleton, forall_eq]
    exact ⟨xPg, by decide, [[122]], by decide, rfl⟩
  refine .next (st1 := xS2) (tr := []) ?_ rfl ?_
  · show [] = _
    decide +kernel
  refine .next (st1 := xS2) (tr := []) ?_ rfl ?_
  · show [] = _
    decide +kernel
  refine .next (st1 := xS3) (tr := xTr3) ?_ (full_go (by decide +kernel)) ?_
  · show xTr3 = _
    decide +kernel
  refine .next (st1 := xS4) (tr := xTr4) ⟨_, rfl⟩ (full_go (by decide +kernel)) ?_
  refine .next (st1 := xS5) (tr := xTr5) ⟨xJobs, assigned_x, inter_x⟩ (full_go (by decide +kernel)) ?_
  refine .next (st1 := xS6) (tr := xTr6) ⟨_, rfl⟩ (full_go (by decide +kernel)) ?_
  refine .next (st1 := xS7) (tr := xTr7) ?_ (full_go (by decide +kernel)) ?_
  · show xTr7 = _
    decide +kernel
  refine .next (st1 := xS8) (tr := xTr8) rfl (full_go (by decide +kernel)) ?_
  exact .nil _

theorem rename_x : renameControl xCfg xS8 xTr9 := by
  unfold renameControl
  rw [if_pos (by decide +kernel)]
  exact ⟨[[0, 5, 5]], by decide +kernel, rfl⟩

theorem done_join {st s st' : St} {a b : List Node} (ha : Done st a s) (hb : Done s b st') : Done st (a ++ b) st' := by
  induction ha with
  | nil => exact hb
  | next hn hf _ ih => exact .next hn hf (ih hb)

theorem run_join {st s st' : St} {a b : List Node} (ha : Done st a s) (hb : Run s b st') : Run st (a ++ b) st' := by
  induction ha with
  | nil => exact hb
  | next hn hf _ ih => exact .next hn hf (ih hb)

theorem done_x : Done xSt0 (restore xCfg) xS10 := by
  refine done_join done_x8 ?_
  refine .next (st1 := xS9) (tr := xTr9) rename_x (full_go (by decide +kernel)) ?_
  refine .next (st1 := xS10) (tr := xTr10) rfl (full_go (by decide +kernel)) (.nil _)

/-- A stop before `global` is synced. -/
theorem run_x : Run xSt0 (restore xCfg) xS9 := by
  refine run_join done_x8 ?_
  exact .next (st1 := xS9) (tr := xTr9) rename_x (full_go (by decide +kernel)) (.stop _ _)

theorem suffix_two {α : Type} {a : List α} {x y : α} (h : a <:+ [x, y]) : a = [x, y] ∨ a = [y] ∨ a = [] := by
  obtain ⟨b, hb⟩ := h
  match b with
  | [] => exact .inl hb
  | [_] => exact .inr (.inl (List.cons.inj hb).2)
  | [_, _] => exact .inr (.inr (List.cons.inj (List.cons.inj hb).2).2)
  | _ :: _ :: _ :: _ => simp at hb

theorem removable_x {p : Path} (h : p.length ≤ 1) : ¬ Removable xCfg p := by
  rintro ⟨t, ht, r, hr, rfl⟩
  have : t = xPg := List.mem_singleton.1 ht
  subst this
  cases r with
  | nil => exact hr rfl
  | cons a r => simp [xPg] at h

theorem listed_x {d : Path} (h : d = xPg ∨ d = xDir) : Listed xCfg d := by
  rcases h with rfl | rfl
  · exact .inr ⟨⟨pgdataZ, xPg, none⟩, by decide, rfl, by decide, by decide⟩
  · exact .inr ⟨⟨pgdataZ ++ [47, 98], xDir, none⟩, by decide, rfl, by decide, by decide⟩

theorem anchored_dir {x y : Str} (h : [x] ++ xPg = xGlob ∨ [x] ++ xPg = xDir) : Anchored xCfg xSt0 [y, x, [112]] := by
  refine ⟨by simp, ?_⟩
  intro a ha
  rcases suffix_two ha with rfl | rfl | rfl
  · refine .inr ⟨by simp, show Listed xCfg xPg from listed_x (.inl rfl), ?_⟩
    rcases h with h | h
    · exact .inr h
    · refine .inl ?_
      rw [show ([x, [112]] : Path) = xDir from h]
      exact listed_x (.inr rfl)
  · exact .inl ⟨by unfold Fixed; decide +kernel, removable_x (by simp)⟩
  · exact .inl ⟨by unfold Fixed; decide +kernel, removable_x (by simp)⟩

theorem late_x {p : Path} (h : p.length = 3) : ¬ Late xCfg p := by
  rintro (rfl | ⟨n, _, rfl⟩)
  · simp [xCfg, xPg] at h
  · simp [xCfg, xPg] at h

example : Stable xS10.fs ([121] :: xDir) (.file [0, 0, 7]) :=
  (c44_complete xCfg xSt0 xS10 good_xCfg b_xSt0 done_x).1 xY (by decide) (by decide) (anchored_dir (.inr rfl)) (late_x rfl) (.inl (listed_x (.inr rfl)))

example : Stable xS10.fs ([120] :: xGlob) (.file [1, 2, 3]) :=
  (c44_complete xCfg xSt0 xS10 good_xCfg b_xSt0 done_x).1 xX (by decide) (by decide) (anchored_dir (.inl rfl)) (late_x rfl) (.inr rfl)

example : Stable xS10.fs (controlZ :: xGlob) (.file [0, 5, 5]) :=
  (c44_complete xCfg xSt0 xS10 good_xCfg b_xSt0 done_x).2 (by decide) (anchored_dir (.inl rfl))

example : view xS9.fs ([121] :: xDir) = .file [0, 0, 7] := by
  rcases c44_view xCfg xSt0 xS9 good_xCfg b_xSt0 (.inl control_xSt0) run_x (by decide +kernel) with ⟨h, _⟩ | h
  · have := (h xDir (by decide)).1
    revert this
    decide +kernel
  · exact h xY (by decide) (by decide) (anchored_dir (.inr rfl)) (late_x rfl)

example : Stable xS8.fs xCfg.control .missing := by
  have h := done_x8
  rw [List.append_assoc, List.append_assoc] at h
  obtain ⟨s, h1, h2⟩ := done_append h
  exact c44_absent xCfg xSt0 s xS8 good_xCfg (.inl control_xSt0) h1 (done_run (by rw [List.append_assoc]; exact h2))

/-! ## A crash before `global` is synced -/

theorem act_cur {st st' : St} {k : Nat} {op : Op} (h : act st k op = some st') (hc : ∀ q, st.fs.cur q ∈ st.fs.hist q) : ∀ q, st'.fs.cur q ∈ st'.fs.hist q := by
  have hset : ∀ {p e}, SetE st st' p e → ∀ q, st'.fs.cur q ∈ st'.fs.hist q := by
    intro p e hs q
    rw [hs.1, hs.2.1]
    by_cases hq : q = p
    · subst hq
      rw [upd_same, upd_same]
      exact List.mem_cons_self ..
    · rw [upd_other _ _ hq, upd_other _ _ hq]
      exact hc q
  have hsame : SameE st st' → ∀ q, st'.fs.cur q ∈ st'.fs.hist q := by
    intro hs q
    rw [hs.1, hs.2.1]
    exact hc q
  have he := act_eff h
  cases op with
  | rmdir q => exact hset he.2.2
  | trunc n =>
    obtain ⟨_, _, _, hE, _⟩ := he
    exact hsame hE
  | sys s =>
    cases s with
    | mkdir q => exact hset he.2.2
    | symlink q t => exact hset he.2.2
    | unlink q => exact hset he.2.2.2
    | syncDir p =>
      obtain ⟨_, h1, _, _, _, h2⟩ := he
      intro q
      rw [h1, h2]
      dsimp only
      split
      · exact List.mem_singleton.2 rfl
      · exact hc q
    | rename a b =>
      obtain ⟨_, _, _, _, _, _, _, _, ⟨_, h1, h2⟩ | ⟨_, h1, h2⟩⟩ := he
      · exact hsame ⟨h1, h2, by assumption⟩
      · intro q
        rw [h1, h2]
        by_cases hq : q = b
        · subst hq
          rw [upd_same, upd_same]
          exact List.mem_cons_self ..
        · rw [upd_other _ _ hq, upd_other _ _ hq]
          by_cases hqa : q = a
          · subst hqa
            rw [upd_same, upd_same]
            exact List.mem_cons_self ..
          · rw [upd_other _ _ hqa, upd_other _ _ hqa]
            exact hc q
    | openWrite p t =>
      rcases he with ⟨_, ⟨_, _, hE, _⟩ | ⟨_, h1, h2, _⟩⟩
      · exact hsame hE
      · intro q
        rw [h1, h2]
        by_cases hq : q = p
        · subst hq
          rw [upd_same, upd_same]
          exact List.mem_cons_self ..
        · rw [upd_other _ _ hq, upd_other _ _ hq]
          exact hc q
    | write d =>
      obtain ⟨_, _, _, hE, _⟩ := he
      exact hsame hE
    | seek d =>
      obtain ⟨_, _, _, hE, _⟩ := he
      exact hsame hE
    | fsync =>
      obtain ⟨_, _, _, hE, _⟩ := he
      exact hsame hE
    | close =>
      obtain ⟨_, _, _, hE, _⟩ := he
      exact hsame hE

theorem full_cur {st st' : St} {tr : List Ev} (h : full st tr = some st') (hc : ∀ q, st.fs.cur q ∈ st.fs.hist q) : ∀ q, st'.fs.cur q ∈ st'.fs.hist q := by
  induction tr generalizing st with
  | nil =>
    cases h
    exact hc
  | cons e tr ih =>
    obtain ⟨k, op⟩ := e
    simp only [full, Option.bind_eq_some_iff] at h
    obtain ⟨s1, h1, h2⟩ := h
    exact ih h2 (act_cur h1 hc)

theorem done_cur {st st' : St} {ns : List Node} (h : Done st ns st') (hc : ∀ q, st.fs.cur q ∈ st.fs.hist q) : ∀ q, st'.fs.cur q ∈ st'.fs.hist q := by
  induction h with
  | nil => exact hc
  | next _ hf _ ih => exact ih (full_cur hf hc)

theorem cur_xS9 : ∀ q, xS9.fs.cur q ∈ xS9.fs.hist q := by
  have h0 : ∀ q, xSt0.fs.cur q ∈ xSt0.fs.hist q := by
    refine full_cur (st := xEmpty) (tr := xWas.map fun op => (0, op)) (full_go (by decide +kernel)) ?_
    intro q
    cases q <;> exact List.mem_singleton.2 rfl
  exact full_cur (st := xS8) (tr := xTr9) (full_go (by decide +kernel)) (done_cur done_x8 h0)

example : view xS9.fs ([121] :: xDir) = .file [0, 0, 7] := by
  rcases c44_control xCfg xSt0 xS9 (view xS9.fs) good_xCfg b_xSt0 (.inl control_xSt0) run_x ⟨_, _, cur_xS9, fun _ _ => rfl, fun _ => rfl⟩
    (by decide +kernel) with ⟨h, _⟩ | h
  · have := (h xDir (by decide)).1
    revert this
    decide +kernel
  · exact (h xY (by decide) (by decide) (anchored_dir (.inr rfl)) (late_x rfl)).2 (listed_x (.inr rfl))

/-- `global` is synced only after `pg_control` was renamed (restore.c 215-217, 254-259). When the host crashes between the two, `pg_control` can be
found while another new file of `global` is lost: that every file of the backup is there when `pg_control` is found after a crash holds only for
the other directories. -/
theorem c44_global_divergence : ∃ (c : Cfg) (st0 st' : St) (disk : Path → Found) (n : Str), Good c ∧ B st0 ∧ isFile (st0.fs.cur c.control) = true ∧
    Run st0 (restore c) st' ∧ Crash st'.fs disk ∧ disk c.control = .file (c.invalid (c.data controlMZ)) ∧
    n ∈ c.files ∧ n ≠ controlMZ ∧ Anchored c st0 (c.place n) ∧ ¬ Late c (c.place n) ∧ disk (c.place n) = .missing := by
  refine ⟨xCfg, xSt0, xS9, look (upd xS9.fs.cur ([120] :: xGlob) .missing) (fun i => (xS9.fs.inode i).data), xX, good_xCfg, b_xSt0, control_xSt0, run_x,
    ⟨_, _, ?_, fun _ _ => rfl, fun _ => rfl⟩, by decide +kernel, by decide, by decide, anchored_dir (.inl rfl), late_x rfl, by decide +kernel⟩
  intro q
  by_cases hq : q = [120] :: xGlob
  · subst hq
    rw [upd_same]
    decide +kernel
  · rw [upd_other _ _ hq]
    exact cur_xS9 q

end Verif.Restore.Crash
