import Verif.Incr.Model

/-! # C13: incremental manifests -/

namespace Verif.Incr

/-! ## Specification -/

/-- `f` describes the same stored data as `g`: where it is, what it is and how it is encoded. -/
structure SameStored (f g : File) : Prop where
  name : f.name = g.name
  size : f.size = g.size
  sizeRepo : f.sizeRepo = g.sizeRepo
  checksum : f.checksum = g.checksum
  checksumRepo : f.checksumRepo = g.checksumRepo
  bundleId : f.bundleId = g.bundleId
  bundleOffset : f.bundleOffset = g.bundleOffset
  blockIncrSize : f.blockIncrSize = g.blockIncrSize
  blockIncrChecksumSize : f.blockIncrChecksumSize = g.blockIncrChecksumSize
  blockIncrMapSize : f.blockIncrMapSize = g.blockIncrMapSize

/-- Backup `label` in `repo` stored `f` itself. -/
def HeldBy (repo : List Manifest) (label : Str) (f : File) : Prop :=
  ∃ m ∈ repo, m.label = label ∧ ∃ g ∈ m.files, g.reference = none ∧ SameStored f g

/-- Every reference of `m` names a backup of its reference list that stored the file itself. -/
def RefsSound (repo : List Manifest) (m : Manifest) : Prop :=
  m.label ∈ m.referenceList ∧
    ∀ f ∈ m.files, ∀ r, f.reference = some r → r ∈ m.referenceList ∧ HeldBy repo r f

/-- Job results that `backupFile` can give (C48): a file is only found unchanged in a delta check. -/
def ResultOk (m : Manifest) (result : Str → CopyResult) : Prop :=
  ∀ f ∈ m.files, f.copy = true → (∃ c, result f.name = .copied c) ∨ result f.name = .skip ∨
    (result f.name = .noop ∧ f.delta = true)

/-! ## Lemmas -/

theorem find_some {m : Manifest} {n : Str} {f : File} (h : m.find n = some f) : f ∈ m.files ∧ f.name = n := by
  unfold Manifest.find at h
  exact ⟨List.mem_of_find?_eq_some h, by simpa using List.find?_some h⟩

theorem incrFile_name (delta : Bool) (l : Str) (p f : File) : (incrFile delta l p f).name = f.name := by
  unfold incrFile
  simp only []
  split <;> rfl

theorem incrFile_copy (delta : Bool) (l : Str) (p f : File) (hc : f.copy = true) :
    (incrFile delta l p f).copy = false ↔
      f.size = p.size ∧ (f.size = 0 ∨ (delta = false ∧ f.timestamp = p.timestamp)) := by
  have : (incrFile delta l p f).copy =
      (if (delta && (f.size == p.size) && f.size != 0) = false ∧ (f.size == p.size) = true ∧ f.timestamp = p.timestamp
        then false else if f.size = 0 ∧ p.size = 0 then false else f.copy) := by
    unfold incrFile
    simp only []
    split <;> rfl
  rw [this, hc]
  by_cases hs : f.size = p.size <;> by_cases h0 : f.size = 0 <;> by_cases ht : f.timestamp = p.timestamp <;>
    cases delta <;> simp_all
  all_goals omega

theorem incrFile_delta (delta : Bool) (l : Str) (p f : File) :
    (incrFile delta l p f).delta = true ↔ delta = true ∧ f.size = p.size ∧ f.size ≠ 0 := by
  have : (incrFile delta l p f).delta = (delta && (f.size == p.size) && f.size != 0) := by
    unfold incrFile
    simp only []
    split <;> rfl
  rw [this]
  simp [and_assoc]

theorem incrFile_ref_of_size (delta : Bool) (l : Str) (p f : File) (hs : f.size = p.size) (hn : f.name = p.name) :
    (incrFile delta l p f).reference = some (p.reference.getD l) ∧ SameStored (incrFile delta l p f) p := by
  have he : (incrFile delta l p f) = { incrFile delta l p f with
      size := p.size, sizeRepo := p.sizeRepo, checksum := p.checksum, checksumRepo := p.checksumRepo,
      reference := some (p.reference.getD l), checksumPage := p.checksumPage,
      bundleId := p.bundleId, bundleOffset := p.bundleOffset, blockIncrSize := p.blockIncrSize,
      blockIncrChecksumSize := p.blockIncrChecksumSize, blockIncrMapSize := p.blockIncrMapSize } := by
    unfold incrFile
    simp [hs]
  have hname := incrFile_name delta l p f
  refine ⟨by rw [he], ?_⟩
  constructor
  · rw [hname, hn]
  all_goals rw [he]

theorem incrFile_ref (delta : Bool) (l : Str) (p f : File) (r : Str) (h : (incrFile delta l p f).reference = some r) :
    f.reference = some r ∨ r = p.reference.getD l := by
  unfold incrFile at h
  simp only [] at h
  split at h
  · right
    simp only [Option.some.injEq] at h
    exact h.symm
  · exact .inl h

theorem HeldBy.same {repo : List Manifest} {label : Str} {f g : File} (h : HeldBy repo label g) (hs : SameStored f g) :
    HeldBy repo label f := by
  obtain ⟨m, hm, hl, k, hk, hr, h⟩ := h
  exact ⟨m, hm, hl, k, hk, hr, ⟨hs.1.trans h.1, hs.2.trans h.2, hs.3.trans h.3, hs.4.trans h.4, hs.5.trans h.5,
    hs.6.trans h.6, hs.7.trans h.7, hs.8.trans h.8, hs.9.trans h.9, hs.10.trans h.10⟩⟩

theorem HeldBy.weaken {repo : List Manifest} {label : Str} {f : File} (m : Manifest) (h : HeldBy repo label f) :
    HeldBy (m :: repo) label f := by
  obtain ⟨m', hm, h⟩ := h
  exact ⟨m', .tail _ hm, h⟩

/-! ## Decisions -/

/-- **C13** A file that was to be copied is left uncopied exactly when the prior backup has the file with equal size, and
it is empty or delta is not enabled and the modification time is equal. -/
theorem c13_uncopied (m prior : Manifest) (archiveStart : Option Str) (f : File) (hc : f.copy = true) :
    (incrStep (deltaEnable m prior archiveStart) prior f).copy = false ↔
      ∃ p, prior.find f.name = some p ∧ f.size = p.size ∧
        (f.size = 0 ∨ ((buildIncr m prior archiveStart).delta = false ∧ f.timestamp = p.timestamp)) := by
  unfold incrStep
  rw [hc]
  simp only [if_true]
  cases h : prior.find f.name with
  | none => simp [hc]
  | some p => simp [incrFile_copy _ _ _ _ hc, buildIncr]

/-- **C13** Delta is enabled when requested, when a timestamp is in the future, on a timeline switch, when the online option
changes, when a file is older than in the prior backup, or when a file has another size at the same timestamp; and only
then. -/
theorem c13_delta (m prior : Manifest) (archiveStart : Option Str) (option : Bool) (copyStart : Int) :
    (buildIncr (buildValidate m option copyStart) prior archiveStart).delta = true ↔
      option = true ∨ (∃ f ∈ m.files, copyStart < f.timestamp) ∨
      (∃ a b, archiveStart = some a ∧ prior.archiveStop = some b ∧ a.take 8 ≠ b.take 8) ∨
      m.online ≠ prior.online ∨
      ∃ f ∈ m.files, ∃ p, prior.find f.name = some p ∧
        (f.timestamp < p.timestamp ∨ (f.sizeOriginal ≠ p.sizeOriginal ∧ f.timestamp = p.timestamp)) := by
  have ha : ∀ f, deltaAnomaly prior f = true ↔ ∃ p, prior.find f.name = some p ∧
      (f.timestamp < p.timestamp ∨ (f.sizeOriginal ≠ p.sizeOriginal ∧ f.timestamp = p.timestamp)) := by
    intro f
    unfold deltaAnomaly
    cases prior.find f.name <;> simp
  simp only [buildIncr, deltaEnable, buildValidate, Bool.or_eq_true, List.any_eq_true, decide_eq_true_eq, ha,
    bne_iff_ne, ne_eq, eq_comm (a := prior.online)]
  cases archiveStart <;> cases prior.archiveStop <;> simp [or_assoc]

/-- **C13** A file is only checked for a match with the prior backup (delta) when it has the size of the prior file, and
then it is also a candidate for copy. -/
theorem c13_delta_file (delta : Bool) (prior : Manifest) (f : File) (hc : f.copy = true) (hd : f.delta = false)
    (h : (incrStep delta prior f).delta = true) :
    (incrStep delta prior f).copy = true ∧ delta = true ∧
      ∃ p, prior.find f.name = some p ∧ f.size = p.size ∧ f.size ≠ 0 := by
  unfold incrStep at h ⊢
  rw [hc] at h ⊢
  simp only [if_true] at h ⊢
  cases hp : prior.find f.name with
  | none => rw [hp] at h; simp [hd] at h
  | some p =>
    rw [hp] at h
    simp only [] at h ⊢
    obtain ⟨h1, h2, h3⟩ := (incrFile_delta _ _ _ _).1 h
    refine ⟨?_, h1, p, rfl, h2, h3⟩
    cases hcc : (incrFile delta prior.label p f).copy with
    | true => rfl
    | false =>
      obtain ⟨-, h4⟩ := (incrFile_copy _ _ _ _ hc).1 hcc
      rcases h4 with h4 | h4
      · exact absurd h4 h3
      · rw [h1] at h4; simp at h4

/-! ## References -/

/-- **C13** The references of a completed differential or incremental backup name backups that themselves hold the data,
with the location, size and checksum recorded in the new manifest, and that are in its reference list. The files of the
new backup start without a reference and without delta (`manifestNewBuild`). -/
theorem c13_references (repo : List Manifest) (m prior : Manifest) (archiveStart : Option Str) (label : Str)
    (result : Str → CopyResult) (hprior : prior ∈ repo) (hsound : RefsSound repo prior)
    (hnew : ∀ f ∈ m.files, f.reference = none ∧ f.delta = false)
    (hres : ResultOk (labelSet (buildIncr m prior archiveStart) label) result) :
    let final := complete (labelSet (buildIncr m prior archiveStart) label) result
    RefsSound (final :: repo) final ∧ ∀ f ∈ final.files, ∀ r, f.reference = some r → HeldBy repo r f := by
  have key : ∀ f ∈ (complete (labelSet (buildIncr m prior archiveStart) label) result).files, ∀ r,
      f.reference = some r → r ∈ prior.referenceList ∧ HeldBy repo r f := by
    intro f hf r hr
    unfold complete at hf
    simp only [List.mem_filterMap] at hf
    obtain ⟨g, hg, hfg⟩ := hf
    have hres := hres g hg
    have hg' : g ∈ m.files.map (incrStep (deltaEnable m prior archiveStart) prior) := hg
    obtain ⟨e, he, heg⟩ := List.mem_map.1 hg'
    obtain ⟨her, hed⟩ := hnew e he
    generalize deltaEnable m prior archiveStart = delta at heg
    -- The file is as the manifest had it before the jobs
    have hfe : f = g ∧ (g.copy = false ∨ g.delta = true) := by
      unfold jobResult at hfg
      cases hgc : g.copy with
      | false =>
        rw [if_pos hgc] at hfg
        simp only [Option.some.injEq] at hfg
        exact ⟨hfg.symm, .inl rfl⟩
      | true =>
        rw [if_neg (by rw [hgc]; simp)] at hfg
        rcases hres hgc with ⟨c, h⟩ | h | ⟨h, hd⟩
        · rw [h] at hfg
          simp only [Option.some.injEq] at hfg
          rw [← hfg] at hr
          simp at hr
        · rw [h] at hfg; simp at hfg
        · rw [h] at hfg
          simp only [Option.some.injEq] at hfg
          exact ⟨hfg.symm, .inr hd⟩
    obtain ⟨rfl, hcd⟩ := hfe
    unfold incrStep at heg
    cases hec : e.copy with
    | false =>
      rw [hec] at heg
      simp only [Bool.false_eq_true, if_false] at heg
      rw [← heg, her] at hr
      simp at hr
    | true =>
      rw [hec] at heg
      simp only [if_true] at heg
      cases hp : prior.find e.name with
      | none =>
        rw [hp] at heg
        simp only [] at heg
        rw [← heg, her] at hr
        simp at hr
      | some p =>
        rw [hp] at heg
        simp only [] at heg
        obtain ⟨hpm, hpn⟩ := find_some hp
        have hsize : e.size = p.size := by
          rcases hcd with h | h
          · rw [← heg] at h
            exact ((incrFile_copy _ _ _ _ hec).1 h).1
          · rw [← heg] at h
            exact ((incrFile_delta _ _ _ _).1 h).2.1
        obtain ⟨h1, h2⟩ := incrFile_ref_of_size delta prior.label p e hsize hpn.symm
        rw [heg] at h1 h2
        rw [hr, Option.some.injEq] at h1
        cases hpr : p.reference with
        | none =>
          rw [hpr] at h1
          simp only [Option.getD_none] at h1
          subst h1
          exact ⟨hsound.1, prior, hprior, rfl, p, hpm, hpr, h2⟩
        | some q =>
          rw [hpr] at h1
          simp only [Option.getD_some] at h1
          subst h1
          obtain ⟨h3, h4⟩ := hsound.2 p hpm r hpr
          exact ⟨h3, h4.same h2⟩
  refine ⟨⟨?_, ?_⟩, fun f hf r hr => (key f hf r hr).2⟩
  · simp [complete, labelSet, buildIncr]
  · intro f hf r hr
    obtain ⟨h1, h2⟩ := key f hf r hr
    exact ⟨by simp [complete, labelSet, buildIncr, h1], h2.weaken _⟩

/-- **C13** The label of the prior backup and the whole reference list are recorded, the new label comes last. -/
theorem c13_prior (m prior : Manifest) (archiveStart : Option Str) (label : Str) (result : Str → CopyResult) :
    let final := complete (labelSet (buildIncr m prior archiveStart) label) result
    final.label = label ∧ final.labelPrior = some prior.label ∧ final.referenceList = prior.referenceList ++ [label] :=
  ⟨rfl, rfl, rfl⟩

/-! ## Changes are seen -/

/-- A write to a file (time in microseconds). -/
structure Write where
  time : Nat
  content : List UInt8

/-- Microseconds in a second. -/
def usec : Nat := 1000000

/-- The last write not after time `t`. -/
def lastWrite (h : List Write) (t : Nat) : Option Write := (h.filter fun w => decide (w.time ≤ t)).getLast?

/-- The content of the file at time `t`. -/
def contentAt (h : List Write) (t : Nat) : List UInt8 := ((lastWrite h t).map Write.content).getD []

/-- The modification time in seconds of the file at time `t`. -/
def mtimeAt (h : List Write) (t : Nat) : Nat := ((lastWrite h t).map fun w => w.time / usec).getD 0

/-- A backup of the file: when the file was found, when the manifest was complete, and when the file was read; whether
delta is enabled, and whether no more is read than the size found (`pgFileCopyExactSize`). -/
structure Gen where
  scan : Nat
  start : Nat
  read : Nat
  delta : Bool
  exactSize : Bool

/-- Order of events in an online backup: the file is read after the second in which the manifest was complete
(`backupTime` waits). -/
def Gen.Ok (g : Gen) : Prop := g.scan ≤ g.start ∧ (g.start / usec + 1) * usec ≤ g.read

/-- The file as found by `manifestNewBuild`. -/
def scanned (h : List Write) (g : Gen) (f : File) : File :=
  { f with copy := true, delta := false, size := (contentAt h g.scan).length, sizeOriginal := (contentAt h g.scan).length,
           timestamp := mtimeAt h g.scan }

/-- What is read from the file. -/
def readData (h : List Write) (g : Gen) : List UInt8 :=
  if g.exactSize then (contentAt h g.read).take (contentAt h g.scan).length else contentAt h g.read

/-- The manifest entry and the data it stands for after a backup. Checksums are taken to identify data. -/
def backupStep (h : List Write) (label : Str) (st : File × List UInt8) (g : Gen) : File × List UInt8 :=
  let f := incrFile g.delta label st.1 (scanned h g st.1)
  if f.copy = false then (f, st.2)
  else if f.delta = true ∧ readData h g = st.2 then (f, st.2)
  else ({ f with size := (readData h g).length, reference := none }, readData h g)

/-- The data is what was read up to some point of time, since when each change gives the file a later time. -/
def Fresh (h : List Write) (now : Nat) (st : File × List UInt8) : Prop :=
  st.1.size = st.2.length ∧ ∃ t k, t ≤ now ∧ st.2 = (contentAt h t).take k ∧
    ∀ w ∈ h, t < w.time → st.1.timestamp < (w.time / usec : Nat)

theorem lastWrite_eq {h : List Write} {s t : Nat} (hst : s ≤ t) (hn : ∀ w ∈ h, s < w.time → t < w.time) :
    lastWrite h t = lastWrite h s := by
  unfold lastWrite
  congr 1
  apply List.filter_congr
  intro w hw
  have := hn w hw
  simp only [decide_eq_decide]
  omega

theorem mtimeAt_of_after {h : List Write} (hs : h.Pairwise fun a b => a.time ≤ b.time) {s t : Nat} {w : Write}
    (hw : w ∈ h) (h1 : s < w.time) (h2 : w.time ≤ t) : ∃ w' ∈ h, s < w'.time ∧ mtimeAt h t = w'.time / usec := by
  have hm : w ∈ h.filter fun w => decide (w.time ≤ t) := List.mem_filter.2 ⟨hw, by simpa using h2⟩
  have hp : (h.filter fun w => decide (w.time ≤ t)).Pairwise fun a b => a.time ≤ b.time := hs.filter _
  unfold mtimeAt lastWrite
  generalize hl : h.filter (fun w => decide (w.time ≤ t)) = l at *
  obtain ⟨init, x, rfl⟩ : ∃ init x, l = init ++ [x] := by
    rcases List.eq_nil_or_concat l with h | ⟨i, x, h⟩
    · rw [h] at hm; simp at hm
    · exact ⟨i, x, by simpa using h⟩
  have hx : x ∈ h := (List.mem_filter.1 (hl ▸ List.mem_append.2 (.inr (List.mem_singleton.2 rfl)) :
    x ∈ h.filter fun w => decide (w.time ≤ t))).1
  refine ⟨x, hx, ?_, by simp⟩
  rcases List.mem_append.1 hm with hm | hm
  · have := (List.pairwise_append.1 hp).2.2 w hm x (by simp)
    omega
  · simp only [List.mem_singleton] at hm
    subst hm
    exact h1

theorem mtimeAt_le (h : List Write) (t : Nat) : mtimeAt h t ≤ t / usec := by
  unfold mtimeAt
  cases hl : lastWrite h t with
  | none => simp
  | some w =>
    have := List.mem_of_getLast? hl
    rw [List.mem_filter, decide_eq_true_eq] at this
    exact Nat.div_le_div_right this.2

theorem fresh_read {h : List Write} {g : Gen} (hg : g.Ok) (w : Write)
    (hw : g.read < w.time) : (mtimeAt h g.scan : Int) < (w.time / usec : Nat) := by
  have hm : mtimeAt h g.scan ≤ g.start / usec :=
    Nat.le_trans (mtimeAt_le h g.scan) (Nat.div_le_div_right hg.1)
  have h1 : (g.start / usec + 1) * usec ≤ w.time := by have := hg.2; omega
  have h2 : g.start / usec + 1 ≤ w.time / usec := (Nat.le_div_iff_mul_le (by decide)).2 h1
  omega

theorem readData_take (h : List Write) (g : Gen) : ∃ k, readData h g = (contentAt h g.read).take k := by
  unfold readData
  split
  · exact ⟨_, rfl⟩
  · exact ⟨(contentAt h g.read).length, by rw [List.take_length]⟩

theorem incrFile_timestamp (delta : Bool) (l : Str) (p f : File) : (incrFile delta l p f).timestamp = f.timestamp := by
  unfold incrFile
  simp only []
  split <;> rfl

/-- **C13** A change is never missed: in every backup after any number of backups, the data that the manifest stands for is
the content of the file when it was found (if the file is not copied), or what was read from it. Modification times are
set by a monotone clock and the backups are online. -/
theorem c13_change (h : List Write) (hs : h.Pairwise fun a b => a.time ≤ b.time) (label : Str)
    (st : File × List UInt8) (g : Gen) (hg : g.Ok) (hst : Fresh h g.scan st) :
    Fresh h g.read (backupStep h label st g) ∧
      ((backupStep h label st g).2 = contentAt h g.scan ∨ (backupStep h label st g).2 = readData h g) := by
  obtain ⟨hsz, t, k, ht, hd, hw⟩ := hst
  have hts : (incrFile g.delta label st.1 (scanned h g st.1)).timestamp = mtimeAt h g.scan :=
    incrFile_timestamp _ _ _ _
  have hgr : g.scan ≤ g.read := by
    have h1 := hg.2
    have h2 : g.start < (g.start / usec + 1) * usec := by
      have := Nat.lt_div_mul_add (a := g.start) (b := usec) (by decide)
      rw [Nat.add_mul, Nat.one_mul]
      exact this
    have := hg.1
    omega
  unfold backupStep
  simp only []
  split
  · -- Not copied
    rename_i hc
    obtain ⟨h1, h2⟩ := (incrFile_copy _ _ _ _ rfl).1 hc
    have hf := incrFile_ref_of_size g.delta label st.1 (scanned h g st.1) h1 rfl
    have hlen : (contentAt h g.scan).length = st.2.length := by
      have : (scanned h g st.1).size = (contentAt h g.scan).length := rfl
      omega
    have hsize : (incrFile g.delta label st.1 (scanned h g st.1)).size = st.2.length := by rw [hf.2.2, hsz]
    rcases h2 with h0 | ⟨-, hteq⟩
    · have h0' : (contentAt h g.scan).length = 0 := h0
      have e1 : contentAt h g.scan = [] := List.length_eq_zero_iff.1 h0'
      have e2 : st.2 = [] := List.length_eq_zero_iff.1 (by omega)
      refine ⟨⟨hsize, g.read, 0, Nat.le_refl _, by rw [e2]; rfl, ?_⟩, .inl (by rw [e1, e2])⟩
      intro w _ hwt
      rw [hts]
      exact fresh_read hg w hwt
    · have hteq' : (mtimeAt h g.scan : Int) = st.1.timestamp := hteq
      have hno : ∀ w ∈ h, t < w.time → g.scan < w.time := by
        intro w hwh hwt
        rcases Nat.lt_or_ge g.scan w.time with h | h
        · exact h
        · obtain ⟨w', hw', h3, h4⟩ := mtimeAt_of_after hs hwh hwt h
          have := hw w' hw' h3
          omega
      have hc : contentAt h g.scan = contentAt h t := by
        unfold contentAt
        rw [lastWrite_eq ht hno]
      have hcd : st.2 = contentAt h g.scan := by
        rw [hc, hd]
        apply List.take_of_length_le
        have := congrArg List.length hd
        rw [List.length_take] at this
        rw [hc] at hlen
        omega
      refine ⟨⟨hsize, t, k, by omega, hd, ?_⟩, .inl hcd⟩
      intro w hwh hwt
      rw [hts, hteq']
      exact hw w hwh hwt
  · split
    · -- Unchanged in the delta check
      rename_i hd'
      obtain ⟨hdel, heq⟩ := hd'
      obtain ⟨-, h1, -⟩ := (incrFile_delta _ _ _ _).1 hdel
      have hf := incrFile_ref_of_size g.delta label st.1 (scanned h g st.1) h1 rfl
      obtain ⟨j, hj⟩ := readData_take h g
      refine ⟨⟨by rw [hf.2.2, hsz], g.read, j, Nat.le_refl _, by rw [← heq, hj], ?_⟩, .inr heq.symm⟩
      intro w _ hwt
      rw [hts]
      exact fresh_read hg w hwt
    · -- Copied
      obtain ⟨j, hj⟩ := readData_take h g
      refine ⟨⟨rfl, g.read, j, Nat.le_refl _, hj, ?_⟩, .inr rfl⟩
      intro w _ hwt
      show (incrFile g.delta label st.1 (scanned h g st.1)).timestamp < _
      rw [hts]
      exact fresh_read hg w hwt

/-- The entry and data after a full backup. -/
def fullStep (h : List Write) (f : File) (g : Gen) : File × List UInt8 :=
  ({ scanned h g f with size := (readData h g).length, reference := none }, readData h g)

/-- **C13** The state after a full backup is one that later backups can be based on. -/
theorem c13_full (h : List Write) (f : File) (g : Gen) (hg : g.Ok) : Fresh h g.read (fullStep h f g) := by
  obtain ⟨j, hj⟩ := readData_take h g
  exact ⟨rfl, g.read, j, Nat.le_refl _, hj, fun w _ hwt => fresh_read hg w hwt⟩

/-- All backups of a file: the state after each. -/
def backupRun (h : List Write) (label : Str) (st : File × List UInt8) : List Gen → File × List UInt8
  | [] => st
  | g :: gs => backupRun h label (backupStep h label st g) gs

/-- **C13** Any number of backups after a full backup, one after the other. -/
theorem c13_generations (h : List Write) (hs : h.Pairwise fun a b => a.time ≤ b.time) (label : Str)
    (gs : List Gen) (hg : ∀ g ∈ gs, g.Ok)
    (full : Gen) (hfull : full.Ok) (hp : (full :: gs).Pairwise fun a b => a.read ≤ b.scan) (f : File) (last : Gen)
    (hl : gs.getLast? = some last) :
    (backupRun h label (fullStep h f full) gs).2 = contentAt h last.scan ∨
      (backupRun h label (fullStep h f full) gs).2 = readData h last := by
  have hst : ∀ g ∈ gs, Fresh h g.scan (fullStep h f full) := by
    intro g hgm
    obtain ⟨a, t, k, ht, b, c⟩ := c13_full h f full hfull
    exact ⟨a, t, k, Nat.le_trans ht ((List.pairwise_cons.1 hp).1 g hgm), b, c⟩
  replace hp : gs.Pairwise fun a b => a.read ≤ b.scan := hp.tail
  generalize fullStep h f full = st at hst ⊢
  clear hfull full
  induction gs generalizing st with
  | nil => simp at hl
  | cons g gs ih =>
    obtain ⟨hf, hd⟩ := c13_change h hs label st g (hg g (.head _)) (hst g (.head _))
    simp only [backupRun]
    cases gs with
    | nil =>
      simp only [List.getLast?_singleton, Option.some.injEq] at hl
      subst hl
      exact hd
    | cons g' gs' =>
      refine ih (fun x hx => hg x (.tail _ hx)) (by simpa using hl) hp.tail _ ?_
      intro x hx
      obtain ⟨a, t, k, ht, b, c⟩ := hf
      exact ⟨a, t, k, Nat.le_trans ht ((List.pairwise_cons.1 hp).1 x hx), b, c⟩

/-! ## Limits and examples -/

/-- A file entry. -/
def exFile : File :=
  { name := [1], copy := true, delta := false, size := 0, sizeOriginal := 0, sizeRepo := 0, timestamp := 0, checksum := [],
    checksumRepo := none, reference := none, checksumPage := [], bundleId := 0, bundleOffset := 0, blockIncrSize := 0,
    blockIncrChecksumSize := 0, blockIncrMapSize := 0 }

/-- **C13** The wait for the end of the second is needed: without it (the wait is only done in online backups) a change of
the file in the second in which it was read is not seen by the next backup, which then stands for the old data. -/
theorem c13_same_second :
    ∃ (h : List Write) (g1 g2 : Gen), h.Pairwise (fun a b => a.time ≤ b.time) ∧ g1.scan ≤ g1.start ∧ g1.start ≤ g1.read ∧
      g1.read ≤ g2.scan ∧ g2.Ok ∧
      (backupStep h [9] (fullStep h exFile g1) g2).2 ≠ contentAt h g2.scan ∧
      (backupStep h [9] (fullStep h exFile g1) g2).2 ≠ readData h g2 :=
  ⟨[⟨5000000, [1]⟩, ⟨5000004, [2]⟩], ⟨5000001, 5000002, 5000003, false, true⟩, ⟨7000000, 7000000, 8000000, false, true⟩,
    by decide, by decide, by decide, by decide, by unfold Gen.Ok; decide, by decide, by decide⟩

/-- The hypotheses of `c13_generations`: a change in the second in which the manifest was built, another one later. -/
example :
    let h : List Write := [⟨5000000, [1]⟩, ⟨5000004, [2]⟩, ⟨9000000, [3]⟩]
    let full : Gen := ⟨5000001, 5000002, 6000003, false, true⟩
    let gs : List Gen := [⟨7000000, 7000000, 8000000, false, true⟩, ⟨9000001, 9000002, 10000000, true, false⟩]
    full.Ok ∧ (∀ g ∈ gs, g.Ok) ∧ h.Pairwise (fun a b => a.time ≤ b.time) ∧
      (full :: gs).Pairwise (fun a b => a.read ≤ b.scan) ∧
      (backupRun h [9] (fullStep h exFile full) gs).2 = [3] ∧ (backupStep h [9] (fullStep h exFile full) gs[0]).2 = [2] ∧
      (backupStep h [9] (fullStep h exFile full) gs[0]).1.copy = false := by
  simp only [Gen.Ok]
  decide

/-- The hypotheses of `c13_references`: an unchanged file that the prior backup references, a changed file and a new file. -/
def exFull : Manifest :=
  { label := [1], labelPrior := none, referenceList := [[1]], online := true, delta := false, archiveStop := none,
    files := [{ exFile with name := [1], size := 5, timestamp := 7 }, { exFile with name := [2], size := 5, timestamp := 7 }] }
def exPrior : Manifest :=
  { label := [2], labelPrior := some [1], referenceList := [[1], [2]], online := true, delta := false, archiveStop := none,
    files := [{ exFile with name := [1], size := 5, timestamp := 7, reference := some [1], copy := false },
      { exFile with name := [2], size := 5, timestamp := 8 }] }
def exNew : Manifest :=
  { label := [], labelPrior := none, referenceList := [], online := true, delta := false, archiveStop := none,
    files := [{ exFile with name := [1], size := 5, timestamp := 7 }, { exFile with name := [2], size := 5, timestamp := 9 },
      { exFile with name := [3], size := 5, timestamp := 9 }] }

example : RefsSound [exPrior, exFull] exPrior := by
  refine ⟨by decide, ?_⟩
  intro f hf r hr
  simp only [exPrior, List.mem_cons, List.not_mem_nil, or_false] at hf
  rcases hf with rfl | rfl
  · simp only [Option.some.injEq] at hr
    subst hr
    exact ⟨by decide, exFull, by simp, rfl, _, .head _, rfl, ⟨rfl, rfl, rfl, rfl, rfl, rfl, rfl, rfl, rfl, rfl⟩⟩
  · simp [exFile] at hr

example : (∀ f ∈ exNew.files, f.reference = none ∧ f.delta = false) ∧
    ((buildIncr exNew exPrior none).files.map fun f => (f.copy, f.reference)) =
      [(false, some [1]), (true, some [2]), (true, none)] := by decide

example : ResultOk (labelSet (buildIncr exNew exPrior none) [3]) fun _ => .copied ⟨5, 5, [], none, [], 0, 0, 0⟩ :=
  fun _ _ _ => .inl ⟨_, rfl⟩

/-- A timestamp before that of the prior backup enables delta. -/
example : (buildIncr { exNew with files := [{ exFile with name := [1], size := 5, timestamp := 6 }] } exPrior none).delta =
    true := by decide

end Verif.Incr
