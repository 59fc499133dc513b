import Verif.Manifest.SaveText
import Verif.Manifest.PackProps
import Verif.Info.PgProps

/-! # A manifest is loaded as it was saved (C37) -/

namespace Verif.Manifest

open Verif Verif.Json
open Verif.Info (Entry backrestZ cipherZ)
open Verif.Info.Pg (saveSection lastOf)

/-! ## Specification -/

/-- What is saved of a file and loaded: the marks that are used only while a backup runs are not, and a file without data has the checksum
of no data. -/
def kept (f : File) : File :=
  { f with
    copy := false, delta := false, resume := false
    checksumSha1 := if f.size = 0 then
        some [0xda, 0x39, 0xa3, 0xee, 0x5e, 0x6b, 0x4b, 0x0d, 0x32, 0x55, 0xbf, 0xef, 0x95, 0x60, 0x18, 0x90, 0xaf, 0xd8, 0x07, 0x09]
      else f.checksumSha1 }

/-- Pages and ranges of pages, as in `[1, [5, 7]]`. -/
def pageErrors (l : List (Nat × Option Nat)) : Val :=
  .arr (l.map fun x =>
    match x.2 with
    | none => .num x.1
    | some y => .arr [.num x.1, .num y])

/-- A file that can be saved. -/
structure Savable (f : File) : Prop where
  valid : Valid f
  /-- A list of page errors is the text of pages and ranges of pages. -/
  list : ∀ s, f.checksumPageErrorList = some s → ∃ l, (∀ x ∈ l, x.1 < 2 ^ 64 ∧ ∀ y, x.2 = some y → y < 2 ^ 64) ∧
    jsonFromVar (pageErrors l) = .ok s
  /-- Nothing is known about the pages when they were not checked. -/
  page : f.checksumPage = false → f.checksumPageError = false ∧ f.checksumPageErrorList = none

/-- Owner and mode are not the ones that stand for defaults while a manifest is loaded. -/
structure Plainly (f : File) : Prop where
  user : f.user ≠ some [64]
  group : f.group ≠ some [64]
  mode : f.mode ≠ 0xffffffff

/-- A name that can be the key of a line. An equals sign is left out here (see `Info.Writable`). -/
def Name (s : Str) : Prop := s ≠ [] ∧ 0 ∉ s ∧ 10 ∉ s ∧ 61 ∉ s

/-- A string of C. -/
def NoZero (o : Option Str) : Prop := ∀ s, o = some s → 0 ∉ s

/-- A manifest that can be saved. -/
structure Complete (m : Man) : Prop where
  label : 0 ∉ m.label
  references : m.references ≠ [] ∧ ∀ r ∈ m.references, 0 ∉ r ∧ 44 ∉ r
  targets : ∀ t ∈ m.targets, Name t.name ∧ 0 ∉ t.path ∧ NoZero t.file ∧ NoZero t.tablespaceName ∧
    (t.tablespaceId ≠ 0 ↔ t.tablespaceName.isSome)
  dbs : ∀ d ∈ m.dbs, Name d.name
  files : ∀ f ∈ m.files, Savable f ∧ Name f.name ∧ NoZero f.user ∧ NoZero f.group ∧ ∀ r, f.reference = some r → r ∈ m.references
  links : ∀ l ∈ m.links, Name l.name ∧ 0 ∉ l.destination ∧ NoZero l.user ∧ NoZero l.group
  paths : ∀ p ∈ m.paths, Name p.name ∧ NoZero p.user ∧ NoZero p.group
  basePath : ∃ p ∈ m.paths, p.name = [112, 103, 95, 100, 97, 116, 97]
  baseTarget : ∃ t ∈ m.targets, t.name = [112, 103, 95, 100, 97, 116, 97]
  few : 2 * m.files.length + 4 * m.links.length + 4 * m.paths.length < 2 ^ 32 ∧ m.references.length < 2 ^ 32

/-- The lines of the file. -/
def valuesOf (m : Man) : Res (List Entry) := do
  let d ← defaults m
  callback none none (sections m d)

/-- In the order of the names. -/
def ByName {α : Type} (name : α → Str) (l : List α) : Prop := l.Pairwise fun a b => ¬ name b < name a

/-! ## Files -/

/-- The fields of a file as trees. -/
def fileVals (d : Defaults) (f : File) (v : Val) : List (Bool × Str × Val) := [
  (f.blockIncrSize != 0, blockKey, .num (f.blockIncrSize / factor).toNat),
  (f.blockIncrSize != 0 && f.blockIncrChecksumSize != UInt64.ofNat blockSumMin, blockSumKey, .num f.blockIncrChecksumSize.toNat),
  (f.blockIncrSize != 0 && f.blockIncrMapSize != 0, blockMapKey, .num f.blockIncrMapSize.toNat),
  (f.bundleId != 0, bundleKey, .num f.bundleId.toNat),
  (f.bundleId != 0 && f.bundleOffset != 0, offsetKey, .num f.bundleOffset.toNat),
  (f.size != 0 && f.checksumSha1.isSome, sumKey, .str (Encode.encodeHex (f.checksumSha1.getD []))),
  (f.checksumPage, pageKey, .bool !f.checksumPageError),
  (f.checksumPage && f.checksumPageErrorList.isSome, pageErrorKey, v),
  (ownerDiffers f.group d.group, groupKey, ownerVar f.group),
  (f.mode != d.fileMode, modeKey, .str (modeStr f.mode)),
  (f.checksumRepoSha1.isSome, sumRepoKey, .str (Encode.encodeHex (f.checksumRepoSha1.getD []))),
  (f.reference.isSome, referenceKey, .str (f.reference.getD [])),
  (f.sizeRepo != f.size, sizeRepoKey, .num f.sizeRepo.toNat),
  (true, sizeKey, .num f.size.toNat),
  (f.sizeOriginal != f.size, sizeOriginalKey, .num f.sizeOriginal.toNat),
  (true, timestampKey, .num f.timestamp.toUInt64.toNat),
  (ownerDiffers f.user d.user, userKey, ownerVar f.user)]

/-- The keys of a file. -/
def fileKeys : List Str := [blockKey, blockSumKey, blockMapKey, bundleKey, offsetKey, sumKey, pageKey, pageErrorKey, groupKey, modeKey,
  sumRepoKey, referenceKey, sizeRepoKey, sizeKey, sizeOriginalKey, timestampKey, userKey]

theorem fileKeys_ordered : Ordered fileKeys := by decide

theorem fit_num (n : UInt64) : Json.Fit (.num n.toNat) := by
  have := n.toNat_lt
  exact ⟨by omega, by omega⟩

theorem field_num (c : Bool) (k : Str) (n : UInt64) : Field (c, k, numOut n) (c, k, .num n.toNat) :=
  ⟨rfl, rfl, fun _ => ⟨rfl, fit_num n⟩⟩

theorem field_val (c : Bool) (k : Str) (v : Val) (h : Json.Fit v) : Field (c, k, .val v) (c, k, v) := ⟨rfl, rfl, fun _ => ⟨rfl, h⟩⟩

/-- The tree of the page errors. -/
def IsList (f : File) (v : Val) : Prop := ∀ s, f.checksumPageErrorList = some s → s = text v ∧ Json.Fit v

theorem fileFields_mean (d : Defaults) (f : File) {v : Val} (hv : IsList f v) : List.Forall₂ Field (fileFields d f) (fileVals d f v) := by
  refine .cons (field_num ..) (.cons (field_num ..) (.cons (field_num ..) (.cons (field_num ..) (.cons (field_num ..)
    (.cons (field_val _ _ _ trivial) (.cons (field_val _ _ _ trivial) (.cons ⟨rfl, rfl, fun h => ?_⟩ (.cons (field_val _ _ _ (fit_owner _))
    (.cons (field_val _ _ _ trivial) (.cons (field_val _ _ _ trivial) (.cons (field_val _ _ _ trivial) (.cons (field_num ..)
    (.cons (field_num ..) (.cons (field_num ..) (.cons (field_num ..) (.cons (field_val _ _ _ (fit_owner _)) .nil))))))))))))))))
  simp only [Bool.and_eq_true] at h
  obtain ⟨s, hs⟩ := Option.isSome_iff_exists.1 h.2
  obtain ⟨h1, h2⟩ := hv s hs
  exact ⟨by rw [hs]; exact h1, h2⟩

theorem here_false (f : Bool) (x : Str × Val) (l : List (Bool × Str × Val)) : here f ((false, x) :: l) = here f l := rfl

theorem rdBlock_here (f : File) (g : Bool) (l : List (Bool × Str × Val)) (h : Ordered (blockKey :: blockSumKey :: blockMapKey :: keysOf l))
    (hv : Valid f) :
    rdBlock (here g ((f.blockIncrSize != 0, blockKey, .num (f.blockIncrSize / factor).toNat) ::
      (f.blockIncrSize != 0 && f.blockIncrChecksumSize != UInt64.ofNat blockSumMin, blockSumKey, .num f.blockIncrChecksumSize.toNat) ::
      (f.blockIncrSize != 0 && f.blockIncrMapSize != 0, blockMapKey, .num f.blockIncrMapSize.toNat) :: l)) =
      .ok ((f.blockIncrSize, f.blockIncrChecksumSize, f.blockIncrMapSize), here (g || (f.blockIncrSize != 0) ||
        (f.blockIncrSize != 0 && f.blockIncrChecksumSize != UInt64.ofNat blockSumMin) || (f.blockIncrSize != 0 && f.blockIncrMapSize != 0)) l) := by
  simp only [rdBlock, bind, Except.bind]
  rw [expect_here g h]
  by_cases hz : f.blockIncrSize = 0
  · obtain ⟨h1, h2⟩ := hv.block hz
    rw [show (f.blockIncrSize != 0) = false by simp [hz]]
    simp only [Bool.false_and, Bool.or_false, Bool.false_eq_true, if_false, here_false]
    rw [hz, h1, h2]
  · rw [show (f.blockIncrSize != 0) = true by simp [hz]]
    simp only [Bool.true_and, if_true]
    rw [takes_num _ _]
    simp only [Bool.or_true, Bool.true_or]
    have h2 := ordered_tail h
    have e := optKey_here (c := f.blockIncrChecksumSize != UInt64.ofNat blockSumMin) (v := .num f.blockIncrChecksumSize.toNat)
      (l := (f.blockIncrMapSize != 0, blockMapKey, .num f.blockIncrMapSize.toNat) :: l) true h2 (UInt64.ofNat blockSumMin)
      (fun _ => takes_num _)
    rw [here] at e
    rw [e]
    simp only []
    rw [optKey_here _ (ordered_tail h2) 0 (fun _ => takes_num _)]
    simp only [Bool.true_or]
    congr 3
    · have h3 := hv.factor
      rw [← UInt64.toNat_inj, UInt64.toNat_mul, UInt64.toNat_div, show factor.toNat = 8192 by decide]
      have := f.blockIncrSize.toNat_lt
      rw [Nat.mod_eq_of_lt (by omega)]
      omega
    · congr 1
      · by_cases hc : f.blockIncrChecksumSize = UInt64.ofNat blockSumMin <;> simp [hc]
      · by_cases hc : f.blockIncrMapSize = 0 <;> simp [hc]

theorem rdBundle_here (f : File) (g : Bool) (l : List (Bool × Str × Val)) (h : Ordered (bundleKey :: offsetKey :: keysOf l)) (hv : Valid f) :
    rdBundle (here g ((f.bundleId != 0, bundleKey, .num f.bundleId.toNat) ::
      (f.bundleId != 0 && f.bundleOffset != 0, offsetKey, .num f.bundleOffset.toNat) :: l)) =
      .ok ((f.bundleId, f.bundleOffset), here (g || (f.bundleId != 0) || (f.bundleId != 0 && f.bundleOffset != 0)) l) := by
  simp only [rdBundle, bind, Except.bind]
  rw [expect_here g h]
  by_cases hz : f.bundleId = 0
  · have h1 := hv.bundle hz
    rw [show (f.bundleId != 0) = false by simp [hz]]
    simp only [Bool.false_and, Bool.or_false, Bool.false_eq_true, if_false, here_false]
    rw [hz, h1]
  · rw [show (f.bundleId != 0) = true by simp [hz]]
    simp only [Bool.true_and, if_true]
    rw [takes_num _ _]
    simp only [Bool.or_true, Bool.true_or]
    have h2 := ordered_tail h
    have e := optKey_here (c := f.bundleOffset != 0) (v := .num f.bundleOffset.toNat) (l := l) true h2 0 (fun _ => takes_num _)
    rw [here] at e
    rw [e]
    simp only [Bool.true_or]
    congr 2
    by_cases hc : f.bundleOffset = 0 <;> simp [hc]

theorem rdPage_here (f : File) (v : Val) (g : Bool) (l : List (Bool × Str × Val)) (h : Ordered (pageKey :: pageErrorKey :: keysOf l))
    (hv : IsList f v) (hp : f.checksumPage = false → f.checksumPageError = false ∧ f.checksumPageErrorList = none) :
    rdPage (here g ((f.checksumPage, pageKey, .bool !f.checksumPageError) ::
      (f.checksumPage && f.checksumPageErrorList.isSome, pageErrorKey, v) :: l)) =
      .ok ((f.checksumPage, f.checksumPageError, f.checksumPageErrorList),
        here (g || f.checksumPage || (f.checksumPage && f.checksumPageErrorList.isSome)) l) := by
  simp only [rdPage, bind, Except.bind]
  rw [expect_here g h]
  cases hc : f.checksumPage with
  | false =>
    obtain ⟨h1, h2⟩ := hp hc
    simp only [Bool.false_and, Bool.or_false, Bool.false_eq_true, if_false, here_false]
    rw [h1, h2]
  | true =>
    simp only [Bool.true_and, if_true]
    rw [takes_bool _ _]
    simp only [Bool.or_true, Bool.true_or]
    have h2 := ordered_tail h
    have e := optKey_here (rd := rdJson) (x := some (text v)) (c := f.checksumPageErrorList.isSome) (v := v) (l := l) true h2 none
      (fun hs => by
        obtain ⟨s, hs⟩ := Option.isSome_iff_exists.1 hs
        exact takes_json (hv s hs).2)
    rw [here] at e
    rw [e]
    simp only [Bool.not_not, Bool.true_or]
    congr 3
    congr 1
    cases hl : f.checksumPageErrorList with
    | none => rfl
    | some s => simp only [Option.isSome_some, if_true]; rw [(hv s hl).1]

/-- A file with the defaults of `env` in place of those of `d`. -/
def placed (d : Defaults) (env : Env) (f : File) : File :=
  { kept f with
    group := if ownerDiffers f.group d.group then f.group else env.groupDefault
    mode := if f.mode != d.fileMode then f.mode else env.modeDefault
    user := if ownerDiffers f.user d.user then f.user else env.userDefault }

theorem isSome_sum (o : Option (List UInt8)) : (if o.isSome = true then some (o.getD []) else none) = o := by
  cases o <;> rfl

theorem loadFile_eq (sgn : Bool) (env : Env) (d : Defaults) {f : File} (hs : Savable f) (ht : 0 ≤ f.timestamp.toInt) {v : Val}
    (hv : IsList f v) :
    loadFile sgn env ⟨fileSec, f.name, text (.obj (optFields (fileVals d f v)))⟩ = .ok (placed d env f) := by
  have o1 := fileKeys_ordered
  unfold loadFile
  simp only [bind, Except.bind]
  rw [begin_here]
  simp only [fileVals]
  rw [rdBlock_here f _ _ ?o hs.valid]
  case o => exact o1
  have o4 := ordered_tail (ordered_tail (ordered_tail o1))
  simp only []
  rw [rdBundle_here f _ _ ?o hs.valid]
  case o => exact o4
  have o6 := ordered_tail (ordered_tail o4)
  simp only []
  rw [optKey_here _ ?o none (fun _ => takes_sum sgn _)]
  case o => exact o6
  have o7 := ordered_tail o6
  simp only []
  rw [rdPage_here f v _ _ ?o hv hs.page]
  case o => exact o7
  have o9 := ordered_tail (ordered_tail o7)
  simp only []
  rw [optKey_here _ ?o _ (fun _ => takes_owner _)]
  case o => exact o9
  have o10 := ordered_tail o9
  simp only []
  rw [optKey_here _ ?o _ (fun _ => takes_mode _)]
  case o => exact o10
  have o11 := ordered_tail o10
  simp only []
  rw [optKey_here _ ?o _ (fun _ => takes_sum sgn _)]
  case o => exact o11
  have o12 := ordered_tail o11
  simp only []
  rw [optKey_here _ ?o _ (fun _ => takes_str _)]
  case o => exact o12
  have o13 := ordered_tail o12
  simp only []
  rw [optKey_here _ ?o _ (fun _ => takes_some (takes_num _))]
  case o => exact o13
  have o14 := ordered_tail o13
  simp only []
  rw [needKey_here _ ?o (takes_num _)]
  case o => exact o14
  have o15 := ordered_tail o14
  simp only []
  rw [optKey_here _ ?o _ (fun _ => takes_num _)]
  case o => exact o15
  have o16 := ordered_tail o15
  simp only []
  rw [needKey_here _ ?o (takes_time ht)]
  case o => exact o16
  have o17 := ordered_tail o16
  simp only []
  rw [optKey_here _ ?o _ (fun _ => takes_owner _)]
  case o => exact o17
  simp only []
  unfold placed kept
  simp only [isSome_sum]
  congr 2
  · by_cases h0 : f.size = 0
    · rw [if_pos h0, if_pos h0]; rfl
    · rw [if_neg h0, if_neg h0]
      have : (f.size != 0) = true := by simp [h0]
      rw [this, Bool.true_and, isSome_sum]
  · by_cases h0 : f.sizeOriginal = f.size <;> simp [h0]
  · by_cases h0 : f.sizeRepo = f.size <;> simp [h0]

theorem loadFile_negative (sgn : Bool) (env : Env) (d : Defaults) {f : File} (hs : Savable f) (ht : f.timestamp.toInt < 0) {v : Val}
    (hv : IsList f v) :
    loadFile sgn env ⟨fileSec, f.name, text (.obj (optFields (fileVals d f v)))⟩ = .error .jsonFormat := by
  have o1 := fileKeys_ordered
  unfold loadFile
  simp only [bind, Except.bind]
  rw [begin_here]
  simp only [fileVals]
  rw [rdBlock_here f _ _ ?o hs.valid]
  case o => exact o1
  have o4 := ordered_tail (ordered_tail (ordered_tail o1))
  simp only []
  rw [rdBundle_here f _ _ ?o hs.valid]
  case o => exact o4
  have o6 := ordered_tail (ordered_tail o4)
  simp only []
  rw [optKey_here _ ?o none (fun _ => takes_sum sgn _)]
  case o => exact o6
  have o7 := ordered_tail o6
  simp only []
  rw [rdPage_here f v _ _ ?o hv hs.page]
  case o => exact o7
  have o9 := ordered_tail (ordered_tail o7)
  simp only []
  rw [optKey_here _ ?o _ (fun _ => takes_owner _)]
  case o => exact o9
  have o10 := ordered_tail o9
  simp only []
  rw [optKey_here _ ?o _ (fun _ => takes_mode _)]
  case o => exact o10
  have o11 := ordered_tail o10
  simp only []
  rw [optKey_here _ ?o _ (fun _ => takes_sum sgn _)]
  case o => exact o11
  have o12 := ordered_tail o11
  simp only []
  rw [optKey_here _ ?o _ (fun _ => takes_str _)]
  case o => exact o12
  have o13 := ordered_tail o12
  simp only []
  rw [optKey_here _ ?o _ (fun _ => takes_some (takes_num _))]
  case o => exact o13
  have o14 := ordered_tail o13
  simp only []
  rw [needKey_here _ ?o (takes_num _)]
  case o => exact o14
  have o15 := ordered_tail o14
  simp only []
  rw [optKey_here _ ?o _ (fun _ => takes_num _)]
  case o => exact o15
  have o16 := ordered_tail o15
  simp only []
  unfold needKey
  simp only [bind, Except.bind]
  rw [expect_here _ ?o]
  case o => exact o16
  simp only [if_true]
  rw [fails_time ht]

/-! ## Other objects -/

/-- The fields as trees. -/
def targetVals (t : Target) : List (Bool × Str × Val) := [
  (t.file.isSome, fileKey, .str (t.file.getD [])),
  (true, pathKey, .str t.path),
  (t.tablespaceId != 0, tablespaceIdKey, .str (Num.uintToZ t.tablespaceId.toNat)),
  (t.tablespaceName.isSome, tablespaceNameKey, .str (t.tablespaceName.getD [])),
  (true, typeKey, .str (if t.link then linkZ else pathZ))]

def dbVals (d : Db) : List (Bool × Str × Val) := [
  (true, dbIdKey, .num d.id.toNat),
  (true, dbLastKey, .num d.lastSystemId.toNat)]

def linkVals (d : Defaults) (l : Link) : List (Bool × Str × Val) := [
  (true, destinationKey, .str l.destination),
  (ownerDiffers l.group d.group, groupKey, ownerVar l.group),
  (ownerDiffers l.user d.user, userKey, ownerVar l.user)]

def pathVals (d : Defaults) (p : Path) : List (Bool × Str × Val) := [
  (ownerDiffers p.group d.group, groupKey, ownerVar p.group),
  (p.mode != d.pathMode, modeKey, .str (modeStr p.mode)),
  (ownerDiffers p.user d.user, userKey, ownerVar p.user)]

theorem fit_uint (n : UInt32) : Json.Fit (.num n.toNat) := by
  have := n.toNat_lt
  exact ⟨by omega, by omega⟩

theorem targetFields_mean (t : Target) : List.Forall₂ Field (targetFields t) (targetVals t) :=
  .cons (field_val _ _ _ trivial) (.cons (field_val _ _ _ trivial) (.cons (field_val _ _ _ trivial) (.cons (field_val _ _ _ trivial)
    (.cons (field_val _ _ _ trivial) .nil))))

theorem dbFields_mean (d : Db) : List.Forall₂ Field (dbFields d) (dbVals d) :=
  .cons (field_val _ _ _ (fit_uint _)) (.cons (field_val _ _ _ (fit_uint _)) .nil)

theorem linkFields_mean (d : Defaults) (l : Link) : List.Forall₂ Field (linkFields d l) (linkVals d l) :=
  .cons (field_val _ _ _ trivial) (.cons (field_val _ _ _ (fit_owner _)) (.cons (field_val _ _ _ (fit_owner _)) .nil))

theorem pathFields_mean (d : Defaults) (p : Path) : List.Forall₂ Field (pathFields d p) (pathVals d p) :=
  .cons (field_val _ _ _ (fit_owner _)) (.cons (field_val _ _ _ trivial) (.cons (field_val _ _ _ (fit_owner _)) .nil))

def targetKeys : List Str := [fileKey, pathKey, tablespaceIdKey, tablespaceNameKey, typeKey]
def dbKeys : List Str := [dbIdKey, dbLastKey]
def linkKeys : List Str := [destinationKey, groupKey, userKey]
def pathKeys : List Str := [groupKey, modeKey, userKey]

theorem targetKeys_ordered : Ordered targetKeys := by decide
theorem dbKeys_ordered : Ordered dbKeys := by decide
theorem linkKeys_ordered : Ordered linkKeys := by decide
theorem pathKeys_ordered : Ordered pathKeys := by decide

theorem rdTablespace_here (t : Target) (g : Bool) (l : List (Bool × Str × Val)) (h : Ordered (tablespaceIdKey :: tablespaceNameKey :: keysOf l))
    (ht : t.tablespaceId ≠ 0 ↔ t.tablespaceName.isSome) :
    rdTablespace (here g ((t.tablespaceId != 0, tablespaceIdKey, .str (Num.uintToZ t.tablespaceId.toNat)) ::
      (t.tablespaceName.isSome, tablespaceNameKey, .str (t.tablespaceName.getD [])) :: l)) =
      .ok ((t.tablespaceId, t.tablespaceName), here (g || (t.tablespaceId != 0)) l) := by
  simp only [rdTablespace, bind, Except.bind]
  rw [expect_here g h]
  by_cases hz : t.tablespaceId = 0
  · have hn : t.tablespaceName = none := by
      cases h : t.tablespaceName with
      | none => rfl
      | some s => exact absurd hz (ht.2 (by rw [h]; rfl))
    rw [show (t.tablespaceId != 0) = false by simp [hz], hz, hn]
    simp only [Bool.false_eq_true, if_false, Bool.or_false, Option.isSome_none, here_false]
  · obtain ⟨s, hs⟩ := Option.isSome_iff_exists.1 (ht.1 hz)
    rw [show (t.tablespaceId != 0) = true by simp [hz], hs]
    simp only [if_true, Option.isSome_some, Option.getD_some, Bool.or_true]
    rw [takes_rdStr _ _]
    have hn := Num.numeral_fmt 10 (by decide) (by decide) false t.tablespaceId.toNat
    simp only [Num.uintToZ]
    rw [numeral_zstr hn, (Num.c51_numeral 10 _ _ hn).2.1, if_pos t.tablespaceId.toNat_lt]
    have e := require_here (v := .str s) true (ordered_tail h)
    rw [here] at e
    simp only []
    rw [e]
    simp only []
    rw [takes_str _ _]
    simp [here]

theorem loadTarget_eq {t : Target} (ht : t.tablespaceId ≠ 0 ↔ t.tablespaceName.isSome) :
    loadTarget ⟨backupTargetSec, t.name, text (.obj (optFields (targetVals t)))⟩ = .ok t := by
  have o1 := targetKeys_ordered
  unfold loadTarget
  simp only [bind, Except.bind]
  rw [begin_here]
  simp only [targetVals]
  rw [optKey_here _ ?o _ (fun _ => takes_str _)]
  case o => exact o1
  have o2 := ordered_tail o1
  simp only []
  rw [require_here _ ?o]
  case o => exact o2
  simp only []
  rw [takes_rdStr _ _]
  have o3 := ordered_tail o2
  simp only []
  have e := rdTablespace_here t true [(true, typeKey, .str (if t.link then linkZ else pathZ))] (by exact o3) ht
  rw [here] at e
  rw [e]
  simp only []
  have o5 := ordered_tail (ordered_tail o3)
  rw [require_here _ ?o]
  case o => exact o5
  simp only []
  rw [takes_rdStr _ _]
  simp only []
  obtain ⟨name, link, path, file, id, tname⟩ := t
  rw [if_pos (by cases link <;> simp)]
  simp only [isSome_sum]
  cases link <;> rfl

theorem loadDb_eq (d : Db) : loadDb ⟨dbSec, d.name, text (.obj (optFields (dbVals d)))⟩ = .ok d := by
  have o1 := dbKeys_ordered
  unfold loadDb
  simp only [bind, Except.bind]
  rw [begin_here]
  simp only [dbVals]
  rw [require_here _ ?o]
  case o => exact o1
  simp only []
  rw [takes_uint _ _]
  simp only []
  have e := require_here (k := dbLastKey) (v := .num d.lastSystemId.toNat) (l := []) true (by exact ordered_tail o1)
  rw [here] at e
  rw [e]
  simp only []
  rw [takes_uint _ _]

/-- What is found of an owner. -/
def found (o d : Option Str) : Option (Option Str) := if ownerDiffers o d then some o else none

theorem loadLink_eq (d : Defaults) (l : Link) : loadLink ⟨linkSec, l.name, text (.obj (optFields (linkVals d l)))⟩ =
    .ok ⟨l.name, l.destination, found l.group d.group, found l.user d.user⟩ := by
  have o1 := linkKeys_ordered
  unfold loadLink
  simp only [bind, Except.bind]
  rw [begin_here]
  simp only [linkVals]
  rw [require_here _ ?o]
  case o => exact o1
  simp only []
  rw [takes_rdStr _ _]
  simp only []
  have o2 := ordered_tail o1
  have e := optKey_here (c := ownerDiffers l.group d.group) (v := ownerVar l.group)
    (l := [(ownerDiffers l.user d.user, userKey, ownerVar l.user)]) true (by exact o2) none (fun _ => takes_some (takes_owner _))
  rw [here] at e
  rw [e]
  simp only []
  rw [optKey_here _ ?o _ (fun _ => takes_some (takes_owner _))]
  case o => exact ordered_tail o2
  rfl

theorem loadPath_eq (d : Defaults) (p : Path) : loadPath ⟨pathSec, p.name, text (.obj (optFields (pathVals d p)))⟩ =
    .ok ⟨p.name, found p.group d.group, if p.mode != d.pathMode then some p.mode else none, found p.user d.user⟩ := by
  have o1 := pathKeys_ordered
  unfold loadPath
  simp only [bind, Except.bind]
  rw [begin_here]
  simp only [pathVals]
  rw [optKey_here _ ?o _ (fun _ => takes_some (takes_owner _))]
  case o => exact o1
  simp only []
  have o2 := ordered_tail o1
  rw [optKey_here _ ?o _ (fun _ => takes_some (takes_mode _))]
  case o => exact o2
  simp only []
  rw [optKey_here _ ?o _ (fun _ => takes_some (takes_owner _))]
  case o => exact ordered_tail o2
  rfl

theorem ownerDiffers_iff (a b : Option Str) : ownerDiffers a b = true ↔ a ≠ b := by
  cases a <;> cases b <;> simp [ownerDiffers]

end Verif.Manifest
