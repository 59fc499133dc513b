import Verif.Verify.Props

/-!
# C63, C64, C65: examples and divergences
-/

namespace Verif.Verify

open Verif.Wal

/-! ## An archive with a gap, a duplicate and a file that is not valid -/

def exSize : Nat := 16 * 1024 * 1024

/-- Segments of timeline 1. -/
def exSeg (n : Nat) : Str := xlogFileName 1 n exSize

/-- A file for a segment, with a checksum of one repeated byte. -/
def exFile (n : Nat) (b : UInt8) : Str := exSeg n ++ [45] ++ List.replicate 40 b

def exId : Str := [57, 45, 49]

def exPg : Pg := ⟨1, 77, 90000⟩

def exVFile (name : UInt8) (ref : Option Str) : VFile := ⟨[name], 3, ref, 0, 0, 3, false, [1], none⟩

/-- `F`, a full backup of files `a` and `b`, and `I`, an incremental backup with the same file `b` and a new file `c`. -/
def exRepo : Repo where
  paths id := if id = exId then [(exSeg 1).take 16] else []
  files _ _ := [exFile 1 97, exFile 2 97, exFile 4 97, exFile 4 98, exFile 5 97]
  walSize _ _ _ := .ok exSize
  range := none
  manifest l :=
    if l = [70] then .ok ⟨[exVFile 97 none, exVFile 98 none], false, [], exPg⟩
    else if l = [73] then .ok ⟨[exVFile 98 (some [70]), exVFile 99 none], false, [], exPg⟩
    else .missing
  copy _ := .missing
  history := [exPg]
  current := none

/-- One file of the archive and one file of the full backup are not valid. -/
def exOut (c : Check) : Outcome :=
  if c = walCheck exId (exFile 2 97) exSize then .checksum else if c.path = [70, 47, 98] then .size else .ok

theorem exIsSeg (n : Nat) (h : n ≤ 10) : IsSeg exSize ((exFile n 97).take 24) ∧ IsSeg exSize ((exFile n 98).take 24) := by
  have hl : (exSeg n).length = 24 := xlog_length _ _ _
  have : ∀ b, (exFile n b).take 24 = exSeg n := by
    intro b
    unfold exFile
    rw [List.append_assoc, List.take_left' hl]
  rw [this, this]
  have h' : IsSeg exSize (exSeg n) := ⟨1, n, by decide, by unfold InSpace exSize; omega, rfl⟩
  exact ⟨h', h'⟩

theorem exSetting : Setting exRepo (fun _ => exSize) [exId] [[70], [73]] where
  nodup := by decide
  backups := by decide
  wal := by
    intro id hid
    rw [List.mem_singleton] at hid
    subst hid
    have hp : ∀ p ∈ exRepo.paths exId, p = (exSeg 1).take 16 := by
      intro p hp
      simpa [exRepo] using hp
    refine ⟨⟨by decide, ⟨256, by decide⟩⟩, ?_, ?_, ?_, ?_⟩
    · simp [exRepo, StrictAsc]
    · intro p _
      show StrictAsc [exFile 1 97, exFile 2 97, exFile 4 97, exFile 4 98, exFile 5 97]
      unfold StrictAsc
      decide +kernel
    · intro p hp' f hf
      rw [hp p hp']
      simp only [exRepo, List.mem_cons, List.not_mem_nil, or_false] at hf
      rcases hf with rfl | rfl | rfl | rfl | rfl
      · exact ⟨by decide +kernel, (exIsSeg 1 (by decide)).1, by decide +kernel⟩
      · exact ⟨by decide +kernel, (exIsSeg 2 (by decide)).1, by decide +kernel⟩
      · exact ⟨by decide +kernel, (exIsSeg 4 (by decide)).1, by decide +kernel⟩
      · exact ⟨by decide +kernel, (exIsSeg 4 (by decide)).2, by decide +kernel⟩
      · exact ⟨by decide +kernel, (exIsSeg 5 (by decide)).1, by decide +kernel⟩
    · intro _ _ _ _; rfl

/-- The parts of the state that can be compared. -/
def view (s : Sys) : List Str × List Str × List Job × List Cause × List ArchRes × List BackRes :=
  (s.jd.archiveIds, s.jd.backups, s.flight, s.jd.errs, s.jd.archRes, s.jd.backRes)

def holds (x : Res Sys) (p : List Str × List Str × List Job × List Cause × List ArchRes × List BackRes → Bool) : Bool :=
  match x with
  | .ok s => p (view s)
  | .error _ => false

theorem of_holds {x : Res Sys} {p} (h : holds x p = true) : ∃ s, x = .ok s ∧ p (view s) = true := by
  cases x with
  | ok s => exact ⟨s, rfl, h⟩
  | error _ => simp [holds] at h

/-- Two processes. -/
def exEvents : List Event :=
  [.ask, .ask, .finish 1, .ask, .finish 0, .ask, .finish 0, .ask, .finish 0, .finish 0, .ask, .ask, .finish 0, .finish 0, .ask]

/-- The ranges are 1-2 and 5, the duplicate 4 is reported, and the file that is not valid is in its range (C63). -/
example : ∃ s, run exRepo exOut (start [exId] [[70], [73]] true) exEvents = .ok s ∧ Complete s ∧
    s.jd.archRes = [⟨exId, 5, 2, exSize, [⟨exSeg 1, exSeg 2, [((walCheck exId (exFile 2 97) exSize).path, .checksum)]⟩, ⟨exSeg 5, exSeg 5, []⟩]⟩] ∧
    (.dup exId (exSeg 4)) ∈ s.jd.errs ∧
    s.jd.backRes =
      [⟨[70], .invalid, true, 2, 2, 1, [([70, 47, 98], .size)]⟩, ⟨[73], .invalid, true, 2, 2, 1, [([70, 47, 98], .size)]⟩] := by
  obtain ⟨s, e, h⟩ := of_holds (p := fun v => decide ((v.1 = [] ∧ v.2.1 = [] ∧ v.2.2.1 = []) ∧
    v.2.2.2.2.1 = [⟨exId, 5, 2, exSize, [⟨exSeg 1, exSeg 2, [((walCheck exId (exFile 2 97) exSize).path, .checksum)]⟩, ⟨exSeg 5, exSeg 5, []⟩]⟩] ∧
    Cause.dup exId (exSeg 4) ∈ v.2.2.2.1 ∧
    v.2.2.2.2.2 =
      [⟨[70], .invalid, true, 2, 2, 1, [([70, 47, 98], .size)]⟩, ⟨[73], .invalid, true, 2, 2, 1, [([70, 47, 98], .size)]⟩]))
    (x := run exRepo exOut (start [exId] [[70], [73]] true) exEvents) (by decide +kernel)
  rw [decide_eq_true_eq] at h
  exact ⟨s, e, h⟩

/-- The file `b` is one file for both backups. -/
example : RefsMatch exRepo [[70], [73]] := by
  intro l hl m hm f hf hc ref href hr m' hm'
  simp only [List.mem_cons, List.not_mem_nil, or_false] at hl href
  have e1 : ∀ m, Usable exRepo [70] m → m = ⟨[exVFile 97 none, exVFile 98 none], false, [], exPg⟩ := by
    rintro m ⟨-, h | h⟩
    · simpa [exRepo] using h.symm
    · exact absurd rfl (h.1 _)
  have e2 : ∀ m, Usable exRepo [73] m → m = ⟨[exVFile 98 (some [70]), exVFile 99 none], false, [], exPg⟩ := by
    rintro m ⟨-, h | h⟩
    · simpa [exRepo] using h.symm
    · exact absurd rfl (h.1 _)
  rcases hl with rfl | rfl
  · rw [e1 m hm] at hf
    simp only [List.mem_cons, List.not_mem_nil, or_false] at hf
    rcases hf with rfl | rfl <;> simp [exVFile] at hr
  · rw [e2 m hm] at hf hc ⊢
    simp only [List.mem_cons, List.not_mem_nil, or_false] at hf
    rcases hf with rfl | rfl
    · simp only [exVFile, Option.some.injEq] at hr
      subst hr
      rw [e1 m' hm']
      exact ⟨exVFile 98 none, by simp, rfl, by simp [NoContent], by decide⟩
    · simp [exVFile] at hr

/-- A file is valid, has another content or another size, or does not exist (C64). -/
example : let c : Check := ⟨[], none, true, [9], 2⟩
    let sha1 : Str → Str := fun b => b.take 1
    verifyFile sha1 (some (.ok [9, 1])) c = .ok ∧ verifyFile sha1 (some (.ok [8, 1])) c = .checksum ∧
      verifyFile sha1 (some (.ok [9, 1, 1])) c = .size ∧ verifyFile sha1 none c = .missing := by
  decide

/-- A file in a bundle: bytes 1 and 2 of `bundle/7` of the backup `F` (C64). -/
example : let f : VFile := ⟨[120], 5, none, 7, 1, 2, false, [0], some [9]⟩
    let get : Str → Option Str := fun p => if p = [70, 47, 98, 117, 110, 100, 108, 101, 47, 55] then some [8, 9, 1, 8] else none
    let sha1 : Str → Str := fun b => b.take 1
    StoredAt get [70] [] f [9, 1] ∧
      verifyFile sha1 (readContent get .ok (fileCheck [70] [] f)) (fileCheck [70] [] f) = .ok ∧
      verifyFile sha1 (readContent get .ok (fileCheck [70] [] { f with bundleOffset := 0 }))
        (fileCheck [70] [] { f with bundleOffset := 0 }) = .checksum := by
  refine ⟨Or.inr (Or.inr ⟨by decide, [8], [8], rfl, rfl, by decide +kernel⟩), by decide +kernel, by decide +kernel⟩

/-! ## Divergences -/

/-- An archive without ids, so that only backups are verified. -/
def dRepo (full incr : VManifest) : Repo where
  paths _ := []
  files _ _ := []
  walSize _ _ _ := .ok exSize
  range := none
  manifest l := if l = [70] then .ok full else if l = [73] then .ok incr else .missing
  copy _ := .missing
  history := [exPg]
  current := none

/-- **C65, divergence.** The files of a backup are considered verified (`fileVerifyComplete`) when the last one is *handed out* and the result of
any job of the backup is processed. So if the file that is not valid is the last one of the full backup, a backup that takes this file from the full
backup is reported as valid, with one process as well: the callback is called for the next job before the result of the job before is processed. -/
theorem c65_reference_last_file :
    ∃ s, run (dRepo ⟨[exVFile 97 none, exVFile 98 none], false, [], exPg⟩ ⟨[exVFile 98 (some [70])], false, [], exPg⟩)
        exOut (start [] [[70], [73]] true) [.ask, .ask, .finish 0, .ask, .finish 0, .ask] = .ok s ∧ Complete s ∧
      exOut (fileCheck [70] [] (exVFile 98 (some [70]))) ≠ .ok ∧
      s.jd.backRes =
        [⟨[70], .invalid, true, 2, 2, 1, [([70, 47, 98], .size)]⟩, ⟨[73], .valid, false, 1, 1, 1, []⟩] := by
  obtain ⟨s, e, h⟩ := of_holds (p := fun v => decide ((v.1 = [] ∧ v.2.1 = [] ∧ v.2.2.1 = []) ∧
    v.2.2.2.2.2 =
      [⟨[70], .invalid, true, 2, 2, 1, [([70, 47, 98], .size)]⟩, ⟨[73], .valid, false, 1, 1, 1, []⟩])) 
    (x := run (dRepo ⟨[exVFile 97 none, exVFile 98 none], false, [], exPg⟩ ⟨[exVFile 98 (some [70])], false, [], exPg⟩) exOut (start [] [[70], [73]] true) [.ask, .ask, .finish 0, .ask, .finish 0, .ask]) (by decide +kernel)
  rw [decide_eq_true_eq] at h
  exact ⟨s, e, h.1, by decide +kernel, h.2⟩

/-- A file in bundle 1. -/
def dBundled (ref : Option Str) : VFile := ⟨[98], 3, ref, 1, 0, 3, false, [1], none⟩

/-- Bundle 1 of the full backup is not valid. -/
def dOut (c : Check) : Outcome := if c.path = [70, 47, 98, 117, 110, 100, 108, 101, 47, 49] then .checksum else .ok

/-- **C65, divergence.** The result for a file of a backup that was verified before is looked up by the name of the file, but a file
in a bundle is listed under the name of the bundle. So a backup that takes a file that is not valid from a bundle of a backup before is
reported as valid, in any order of the jobs: here all results of the full backup are processed before the next backup. -/
theorem c65_reference_bundle :
    ∃ s, run (dRepo ⟨[dBundled none], true, [], exPg⟩ ⟨[dBundled (some [70])], true, [], exPg⟩)
        dOut (start [] [[70], [73]] true) [.ask, .finish 0, .ask] = .ok s ∧ Complete s ∧
      dOut (fileCheck [70] [] (dBundled (some [70]))) ≠ .ok ∧
      s.jd.backRes =
        [⟨[70], .invalid, true, 1, 1, 0, [([70, 47, 98, 117, 110, 100, 108, 101, 47, 49], .checksum)]⟩, ⟨[73], .valid, false, 1, 1, 1, []⟩] := by
  obtain ⟨s, e, h⟩ := of_holds (p := fun v => decide ((v.1 = [] ∧ v.2.1 = [] ∧ v.2.2.1 = []) ∧
    v.2.2.2.2.2 =
      [⟨[70], .invalid, true, 1, 1, 0, [([70, 47, 98, 117, 110, 100, 108, 101, 47, 49], .checksum)]⟩, ⟨[73], .valid, false, 1, 1, 1, []⟩])) 
    (x := run (dRepo ⟨[dBundled none], true, [], exPg⟩ ⟨[dBundled (some [70])], true, [], exPg⟩) dOut (start [] [[70], [73]] true) [.ask, .finish 0, .ask]) (by decide +kernel)
  rw [decide_eq_true_eq] at h
  exact ⟨s, e, h.1, by decide +kernel, h.2⟩

/-- The same file in a block incremental. -/
def dBlock (ref : Option Str) : VFile := ⟨[98], 3, ref, 0, 0, 3, true, [1], none⟩

/-- `F/b.pgbi` is not valid. -/
def dOutBlock (c : Check) : Outcome := if c.path = [70, 47, 98, 46, 112, 103, 98, 105] then .checksum else .ok

/-- **C65, divergence.** The same for a block incremental file, which has the extension `.pgbi` in the repository and is looked up without. -/
theorem c65_reference_block :
    ∃ s, run (dRepo ⟨[dBlock none], false, [], exPg⟩ ⟨[dBlock (some [70])], false, [], exPg⟩)
        dOutBlock (start [] [[70], [73]] true) [.ask, .finish 0, .ask] = .ok s ∧ Complete s ∧
      dOutBlock (fileCheck [70] [] (dBlock (some [70]))) ≠ .ok ∧
      s.jd.backRes.map (fun b => (b.label, b.status)) = [([70], .invalid), ([73], .valid)] := by
  obtain ⟨s, e, h⟩ := of_holds (p := fun v => decide ((v.1 = [] ∧ v.2.1 = [] ∧ v.2.2.1 = []) ∧
    v.2.2.2.2.2.map (fun b => (b.label, b.status)) =
      [([70], .invalid), ([73], .valid)])) 
    (x := run (dRepo ⟨[dBlock none], false, [], exPg⟩ ⟨[dBlock (some [70])], false, [], exPg⟩) dOutBlock (start [] [[70], [73]] true) [.ask, .finish 0, .ask]) (by decide +kernel)
  rw [decide_eq_true_eq] at h
  exact ⟨s, e, h.1, by decide +kernel, h.2⟩

/-- **C64, divergence.** A backup whose manifests are both missing is not an error: nothing is counted, and the command reports that all is well. -/
theorem c64_missing_manifest_no_error :
    ∃ s, run (dRepo ⟨[], false, [], exPg⟩ ⟨[], false, [], exPg⟩) exOut (start [] [[71]] true) [.ask] = .ok s ∧ Complete s ∧
      s.jd.errs = [] ∧ s.jd.backRes.map (fun b => (b.label, b.status)) = [([71], .missingManifest)] := by
  obtain ⟨s, e, h⟩ := of_holds (p := fun v => decide ((v.1 = [] ∧ v.2.1 = [] ∧ v.2.2.1 = []) ∧ v.2.2.2.1 = [] ∧
    v.2.2.2.2.2.map (fun b => (b.label, b.status)) = [([71], .missingManifest)])) 
    (x := run (dRepo ⟨[], false, [], exPg⟩ ⟨[], false, [], exPg⟩) exOut (start [] [[71]] true) [.ask]) (by decide +kernel)
  rw [decide_eq_true_eq] at h
  exact ⟨s, e, h⟩

end Verif.Verify
