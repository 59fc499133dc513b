import Verif.Manifest.SaveFold

/-! # A manifest is loaded as it was saved: theorems (C37) -/

namespace Verif.Manifest

open Verif Verif.Json
open Verif.Info (Entry backrestZ cipherZ Writable Hex)
open Verif.Info.Pg (mapM_ok)

/-! ## All lines can be read -/

theorem hex_clean (b : List UInt8) : 0 ∉ Encode.encodeHex b := by
  have h : ∀ n < 512, Encode.look Encode.encodeHexLookup n ≠ 0 := by decide +kernel
  intro hc
  obtain ⟨c, _, hc⟩ := List.mem_flatMap.1 hc
  have := c.toNat_lt
  simp only [List.mem_cons, List.not_mem_nil, or_false] at hc
  rcases hc with hc | hc
  · exact h _ (by omega) hc.symm
  · exact h _ (by omega) hc.symm

theorem mode_clean (m : UInt32) : 0 ∉ modeStr m := by
  obtain ⟨_, ds, hd, _⟩ := Num.numeral_fmtPad 4 8 (by decide) (by decide) false m.toNat
  intro hc
  have h : Num.digitOf 8 0 ∈ (modeStr m).map (Num.digitOf 8) := List.mem_map_of_mem hc
  rw [modeStr, hd] at h
  obtain ⟨d, _, hd⟩ := List.mem_map.1 h
  exact digit_ne_zero hd.symm rfl

theorem uint_clean (n : Nat) : 0 ∉ Num.uintToZ n := fmt_clean n

theorem fine_fileVals (d : Defaults) {f : File} {v : Val} (hv : Fine v) (hu : NoZero f.user) (hg : NoZero f.group)
    (hr : ∀ r, f.reference = some r → 0 ∉ r) : ∀ x ∈ fileVals d f v, x.1 = true → Fine x.2.2 := by
  have n : ∀ n : UInt64, Fine (.num n.toNat) := fun n => fine_num n.toNat_lt
  intro x hx hc
  simp only [fileVals, List.mem_cons, List.not_mem_nil, or_false] at hx
  rcases hx with rfl | rfl | rfl | rfl | rfl | rfl | rfl | rfl | rfl | rfl | rfl | rfl | rfl | rfl | rfl | rfl | rfl
  · exact n _
  · exact n _
  · exact n _
  · exact n _
  · exact n _
  · exact fine_str (hex_clean _)
  · exact fine_bool _
  · exact hv
  · exact fine_owner hg
  · exact fine_str (mode_clean _)
  · exact fine_str (hex_clean _)
  · obtain ⟨r, h⟩ := Option.isSome_iff_exists.1 (show f.reference.isSome = true from hc)
    show Fine (.str (f.reference.getD []))
    rw [h]
    exact fine_str (hr r h)
  · exact n _
  · exact n _
  · exact n _
  · exact n _
  · exact fine_owner hu

theorem fine_opt {o : Option Str} (h : NoZero o) : Fine (.str (o.getD [])) := by
  cases o with
  | none => exact fine_str (by simp)
  | some s => exact fine_str (h s rfl)

theorem fine_targetVals {t : Target} (hp : 0 ∉ t.path) (hf : NoZero t.file) (hn : NoZero t.tablespaceName) :
    ∀ x ∈ targetVals t, x.1 = true → Fine x.2.2 := by
  intro x hx _
  simp only [targetVals, List.mem_cons, List.not_mem_nil, or_false] at hx
  rcases hx with rfl | rfl | rfl | rfl | rfl
  · exact fine_opt hf
  · exact fine_str hp
  · exact fine_str (uint_clean _)
  · exact fine_opt hn
  · refine fine_str ?_
    cases t.link <;> decide

theorem fine_dbVals (t : Db) : ∀ x ∈ dbVals t, x.1 = true → Fine x.2.2 := by
  intro x hx _
  simp only [dbVals, List.mem_cons, List.not_mem_nil, or_false] at hx
  rcases hx with rfl | rfl
  · exact fine_num (Nat.lt_trans t.id.toNat_lt (by decide))
  · exact fine_num (Nat.lt_trans t.lastSystemId.toNat_lt (by decide))

theorem fine_linkVals (d : Defaults) {t : Link} (hd : 0 ∉ t.destination) (hu : NoZero t.user) (hg : NoZero t.group) :
    ∀ x ∈ linkVals d t, x.1 = true → Fine x.2.2 := by
  intro x hx _
  simp only [linkVals, List.mem_cons, List.not_mem_nil, or_false] at hx
  rcases hx with rfl | rfl | rfl
  · exact fine_str hd
  · exact fine_owner hg
  · exact fine_owner hu

theorem fine_pathVals (d : Defaults) {t : Path} (hu : NoZero t.user) (hg : NoZero t.group) :
    ∀ x ∈ pathVals d t, x.1 = true → Fine x.2.2 := by
  intro x hx _
  simp only [pathVals, List.mem_cons, List.not_mem_nil, or_false] at hx
  rcases hx with rfl | rfl | rfl
  · exact fine_owner hg
  · exact fine_str (mode_clean _)
  · exact fine_owner hu

theorem keys_plain {l : List Str} (h : ∀ k ∈ l, k ∈ fileKeys ++ targetKeys ++ dbKeys ++ linkKeys ++ pathKeys) : ∀ k ∈ l, PlainKey k :=
  fun k hk => plainKeys k (h k hk)

theorem owner_not_arr (o : Option Str) (l : List Val) : ownerVar o ≠ .arr l := by cases o <;> simp [ownerVar]

/-- Every line can be read. -/
theorem all_writable {m : Man} (hm : Complete m) {d : Defaults} (hd : defaults m = .ok d) {g : File → Val}
    (hg : ∀ f, Savable f → IsList f (g f) ∧ Fine (g f)) {buffer : Nat} (hb : 60 < buffer)
    (hl : ∀ e ∈ allValues m d g, e.line.length < buffer) : ∀ e ∈ allValues m d g, Writable buffer e := by
  obtain ⟨p, hp, hpu, hpg⟩ : ∃ p ∈ m.paths, p.user = d.user ∧ p.group = d.group := by
    unfold defaults at hd
    split at hd
    · cases hd
    · rename_i p hp
      cases hd
      exact ⟨p, List.mem_of_find?_eq_some hp, rfl, rfl⟩
  have hu : NoZero d.user := hpu ▸ (hm.paths p hp).2.1
  have hgr : NoZero d.group := hpg ▸ (hm.paths p hp).2.2
  have secs : ∀ s ∈ [backupSec, backupTargetSec, dbSec, fileSec, fileDefaultSec, linkSec, linkDefaultSec, pathSec, pathDefaultSec],
      (s ≠ [] ∧ 10 ∉ s ∧ s.length + 2 < 60) ∧ s ≠ backrestZ ∧ s ≠ cipherZ := by decide
  have sec : ∀ s ∈ [backupSec, backupTargetSec, dbSec, fileSec, fileDefaultSec, linkSec, linkDefaultSec, pathSec, pathDefaultSec],
      s ≠ [] ∧ 10 ∉ s ∧ s.length + 2 < buffer := fun s hs => by
    obtain ⟨⟨h1, h2, h3⟩, _⟩ := secs s hs
    exact ⟨h1, h2, by omega⟩
  have names : ∀ s ∈ [labelKey, referencesKey, groupKey, modeKey, userKey], s ≠ [] ∧ 0 ∉ s ∧ 10 ∉ s ∧ 61 ∉ s := by decide
  intro e he
  have hb := hl e he
  obtain ⟨x, hx, he⟩ := List.mem_flatMap.1 he
  simp only [groups, List.mem_cons, List.not_mem_nil, or_false] at hx
  have str : ∀ {s : Str} (l : List Val), Val.str s ≠ .arr l := by simp
  rcases hx with rfl | rfl | rfl | rfl | rfl | rfl | rfl | rfl | rfl
  · simp only [List.mem_cons, List.not_mem_nil, or_false] at he
    rcases he with rfl | rfl
    · exact valEntry_writable (fine_str hm.label) str (names _ (by simp)) (sec _ (by simp)) (secs _ (by simp)).2 hb
    · exact valEntry_writable (fine_str (join_clean fun r hr => (hm.references.2 r hr).1)) str (names _ (by simp)) (sec _ (by simp))
        (secs _ (by simp)).2 hb
  · obtain ⟨t, ht, rfl⟩ := List.mem_map.1 he
    obtain ⟨h1, h2, h3, h4, _⟩ := hm.targets t ht
    exact objEntry_writable (show Ordered targetKeys from targetKeys_ordered) (keys_plain (l := targetKeys) (by decide)) (fine_targetVals h2 h3 h4)
      (opt_fit (targetFields_mean t) targetKeys_ordered) h1 (sec _ (by simp)) (secs _ (by simp)).2 hb
  · obtain ⟨t, ht, rfl⟩ := List.mem_map.1 he
    exact objEntry_writable (show Ordered dbKeys from dbKeys_ordered) (keys_plain (l := dbKeys) (by decide)) (fine_dbVals t)
      (opt_fit (dbFields_mean t) dbKeys_ordered) (hm.dbs t ht) (sec _ (by simp)) (secs _ (by simp)).2 hb
  · obtain ⟨t, ht, rfl⟩ := List.mem_map.1 he
    obtain ⟨h1, h2, h3, h4, h5⟩ := hm.files t ((sortBy_perm _ _).mem_iff.1 ht)
    obtain ⟨g1, g2⟩ := hg t h1
    exact objEntry_writable (show Ordered fileKeys from fileKeys_ordered) (keys_plain (l := fileKeys) (by decide))
      (fine_fileVals d g2 h3 h4 fun r hr => (hm.references.2 r (h5 r hr)).1)
      (opt_fit (fileFields_mean d t g1) fileKeys_ordered) h2 (sec _ (by simp)) (secs _ (by simp)).2 hb
  · simp only [List.mem_cons, List.not_mem_nil, or_false] at he
    rcases he with rfl | rfl | rfl
    · exact valEntry_writable (fine_owner hgr) (owner_not_arr _) (names _ (by simp)) (sec _ (by simp)) (secs _ (by simp)).2 hb
    · exact valEntry_writable (fine_str (mode_clean _)) str (names _ (by simp)) (sec _ (by simp)) (secs _ (by simp)).2 hb
    · exact valEntry_writable (fine_owner hu) (owner_not_arr _) (names _ (by simp)) (sec _ (by simp)) (secs _ (by simp)).2 hb
  · obtain ⟨t, ht, rfl⟩ := List.mem_map.1 he
    obtain ⟨h1, h2, h3, h4⟩ := hm.links t ht
    exact objEntry_writable (show Ordered linkKeys from linkKeys_ordered) (keys_plain (l := linkKeys) (by decide)) (fine_linkVals d h2 h3 h4)
      (opt_fit (linkFields_mean d t) linkKeys_ordered) h1 (sec _ (by simp)) (secs _ (by simp)).2 hb
  · simp only at he
    split at he
    · cases he
    · simp only [List.mem_cons, List.not_mem_nil, or_false] at he
      rcases he with rfl | rfl
      · exact valEntry_writable (fine_owner hgr) (owner_not_arr _) (names _ (by simp)) (sec _ (by simp)) (secs _ (by simp)).2 hb
      · exact valEntry_writable (fine_owner hu) (owner_not_arr _) (names _ (by simp)) (sec _ (by simp)) (secs _ (by simp)).2 hb
  · obtain ⟨t, ht, rfl⟩ := List.mem_map.1 he
    obtain ⟨h1, h2, h3⟩ := hm.paths t ht
    exact objEntry_writable (show Ordered pathKeys from pathKeys_ordered) (keys_plain (l := pathKeys) (by decide)) (fine_pathVals d h2 h3)
      (opt_fit (pathFields_mean d t) pathKeys_ordered) h1 (sec _ (by simp)) (secs _ (by simp)).2 hb
  · simp only [List.mem_cons, List.not_mem_nil, or_false] at he
    rcases he with rfl | rfl | rfl
    · exact valEntry_writable (fine_owner hgr) (owner_not_arr _) (names _ (by simp)) (sec _ (by simp)) (secs _ (by simp)).2 hb
    · exact valEntry_writable (fine_str (mode_clean _)) str (names _ (by simp)) (sec _ (by simp)) (secs _ (by simp)).2 hb
    · exact valEntry_writable (fine_owner hu) (owner_not_arr _) (names _ (by simp)) (sec _ (by simp)) (secs _ (by simp)).2 hb

/-- Saving gives a file from which the same values are read. -/
theorem save_values {H : Str → Str} (hH : Hex H) {m : Man} (hm : Complete m) {d : Defaults} (hd : defaults m = .ok d) {g : File → Val}
    (hg : ∀ f, Savable f → IsList f (g f) ∧ Fine (g f)) {buffer : Nat} (hb : 60 < buffer)
    (hl : ∀ e ∈ allValues m d g, e.line.length < buffer) {pass : Option Str} (hp : ∀ p, pass = some p → 0 ∉ p ∧ 2 * p.length + 14 < buffer) :
    ∃ f r, save H m pass = .ok f ∧ Info.load buffer H f = .ok r ∧ r.pass = pass ∧ r.out = allValues m d g := by
  have hw := all_writable hm hd hg hb hl
  have hg' : ∀ f ∈ sortBy (·.name) m.files, IsList f (g f) := fun f hf => (hg f (hm.files f ((sortBy_perm _ _).mem_iff.1 hf)).1).1
  obtain ⟨c1, c2, _, c4⟩ := calls m d g
  unfold save
  simp only [bind, Except.bind, hd, call_eq m d hg', c1]
  cases pass with
  | none =>
    simp only [c2]
    obtain ⟨f, r, h1, h2, _, h4, h5⟩ := Info.c40_roundtrip hH hb [] (allValues m d g) none (by simp) hw (by simp)
    exact ⟨f, r, h1, h2, h4, by simpa using h5⟩
  | some p =>
    have hs : allValues m d g = (((groups m d g).filter fun x => Info.Pg.saveSection (some backrestZ) x.1 (some cipherZ)).flatMap Prod.snd) ++
        (((groups m d g).filter fun x => Info.Pg.saveSection (some cipherZ) x.1 none).flatMap Prod.snd) := by
      rw [← List.flatMap_append, c4]; rfl
    rw [hs] at hw
    obtain ⟨f, r, h1, h2, _, h4, h5⟩ := Info.c40_roundtrip hH hb []
      (((groups m d g).filter fun x => Info.Pg.saveSection (some cipherZ) x.1 none).flatMap Prod.snd)
      (some (((groups m d g).filter fun x => Info.Pg.saveSection (some backrestZ) x.1 (some cipherZ)).flatMap Prod.snd, p)) (by simp)
      (fun e he => hw e (List.mem_append_right _ he)) (by
        intro x y h
        cases h
        exact ⟨fun e he => hw e (List.mem_append_left _ he), hp p rfl⟩)
    exact ⟨f, r, h1, h2, h4, by rw [h5, hs]; rfl⟩

/-! ## Loading all lines -/

/-- The state before the first line. -/
def start (base : Int64) : Ld :=
  { store := {
      env := {
        owners := [], references := [], userDefault := some placeholderZ, groupDefault := some placeholderZ, modeDefault := 0xffffffff
        base := base }
      files := [] } }

/-- The state before the files. -/
def startFiles (m : Man) (base : Int64) : Ld :=
  { store := {
      env := {
        owners := [], references := m.references, userDefault := some placeholderZ, groupDefault := some placeholderZ
        modeDefault := 0xffffffff, base := base }
      files := [] }
    label := some m.label, referencesFound := true, targets := m.targets, dbs := m.dbs }

theorem fold_start (sgn : Bool) {m : Man} (hm : Complete m) (d : Defaults) (g : File → Val) (base : Int64) :
    (allValues m d g).foldlM (loadEntry sgn) (start base) =
      (((sortBy (·.name) m.files).map fun f => objEntry fileSec f.name (fileVals d f (g f))) ++
        ((groups m d g).drop 4).flatMap Prod.snd).foldlM (loadEntry sgn) (startFiles m base) := by
  have e : allValues m d g =
      [valEntry backupSec labelKey (.str m.label), valEntry backupSec referencesKey (.str (joinComma m.references))] ++
      ((m.targets.map fun t => objEntry backupTargetSec t.name (targetVals t)) ++
      ((m.dbs.map fun t => objEntry dbSec t.name (dbVals t)) ++
      (((sortBy (·.name) m.files).map fun f => objEntry fileSec f.name (fileVals d f (g f))) ++
        ((groups m d g).drop 4).flatMap Prod.snd))) := rfl
  rw [e, fold_append]
  simp only [List.foldlM_cons, List.foldlM_nil, bind, Except.bind, entry_label, entry_references]
  rw [split_join hm.references.1 fun r hr => (hm.references.2 r hr).2]
  simp only [pure, Except.pure]
  rw [fold_append, fold_targets sgn m.targets _ fun t ht => (hm.targets t ht).2.2.2.2]
  simp only [Except.bind]
  rw [fold_append, fold_dbs]
  rfl

/-- After the files. -/
theorem fold_rest (sgn : Bool) (m : Man) (d : Defaults) (g : File → Val) (st : Ld) (h1 : st.links = []) (h2 : st.paths = []) :
    ∃ st', (((groups m d g).drop 4).flatMap Prod.snd).foldlM (loadEntry sgn) st = .ok st' ∧
      st'.store = addOwners (foundOwners d (·.user) (·.group) m.links ++ foundOwners d (·.user) (·.group) m.paths)
        { st.store with env := { st.store.env with groupDefault := d.group, modeDefault := d.fileMode, userDefault := d.user } } ∧
      st'.label = st.label ∧ st'.referencesFound = st.referencesFound ∧ st'.targets = st.targets ∧ st'.dbs = st.dbs ∧
      st'.links = m.links.map (linkLd d) ∧ st'.paths = m.paths.map (pathLd d) ∧
      (m.links ≠ [] → st'.linkGroup = some (ownerVar d.group) ∧ st'.linkUser = some (ownerVar d.user)) ∧
      st'.pathGroup = some (ownerVar d.group) ∧ st'.pathUser = some (ownerVar d.user) ∧ st'.pathMode = d.pathMode := by
  have e : ((groups m d g).drop 4).flatMap Prod.snd =
      [valEntry fileDefaultSec groupKey (ownerVar d.group), valEntry fileDefaultSec modeKey (.str (modeStr d.fileMode)),
        valEntry fileDefaultSec userKey (ownerVar d.user)] ++
      ((m.links.map fun t => objEntry linkSec t.name (linkVals d t)) ++
      ((if m.links = [] then [] else [valEntry linkDefaultSec groupKey (ownerVar d.group),
        valEntry linkDefaultSec userKey (ownerVar d.user)]) ++
      ((m.paths.map fun t => objEntry pathSec t.name (pathVals d t)) ++
      [valEntry pathDefaultSec groupKey (ownerVar d.group), valEntry pathDefaultSec modeKey (.str (modeStr d.pathMode)),
        valEntry pathDefaultSec userKey (ownerVar d.user)]))) := rfl
  rw [e, fold_append, fold_fileDefaults]
  simp only [Except.bind]
  rw [fold_append, fold_links]
  simp only [Except.bind]
  rw [fold_append]
  by_cases hl : m.links = []
  · rw [if_pos hl]
    simp only [List.foldlM_nil, pure, Except.pure, Except.bind]
    rw [fold_append, fold_paths]
    simp only [Except.bind]
    rw [fold_pathDefaults]
    refine ⟨_, rfl, ?_, rfl, rfl, rfl, rfl, ?_, ?_, fun h => absurd hl h, rfl, rfl, rfl⟩
    · rw [addOwners_append]
    · simp [h1]
    · simp [h2]
  · rw [if_neg hl, fold_linkDefaults]
    simp only [Except.bind]
    rw [fold_append, fold_paths]
    simp only [Except.bind]
    rw [fold_pathDefaults]
    refine ⟨_, rfl, ?_, rfl, rfl, rfl, rfl, ?_, ?_, fun _ => ⟨rfl, rfl⟩, rfl, rfl, rfl⟩
    · rw [addOwners_append]
    · simp [h1]
    · simp [h2]

theorem useDefault_found (o d : Option Str) : useDefault (some (ownerVar d)) (found o d) = .ok o := by
  unfold found
  by_cases h : ownerDiffers o d = true
  · rw [if_pos h]; rfl
  · rw [if_neg h]
    have : o = d := by
      rw [ownerDiffers_iff] at h
      exact Classical.not_not.1 h
    rw [this]
    exact ownerGet_var d

theorem links_back {st : Ld} {d : Defaults} {l : List Link} (h : l ≠ [] → st.linkGroup = some (ownerVar d.group) ∧
    st.linkUser = some (ownerVar d.user)) : (l.map (linkLd d)).mapM (linkDefault st) = .ok l := by
  have e : ∀ t ∈ l, linkDefault st (linkLd d t) = .ok t := by
    intro t ht
    obtain ⟨h1, h2⟩ := h (by rintro rfl; cases ht)
    unfold linkDefault linkLd
    simp only [bind, Except.bind, h1, h2, useDefault_found]
  rw [List.mapM_map]
  have := mapM_ok (f := fun t => linkDefault st (linkLd d t)) (g := id) e
  rw [List.map_id] at this
  exact this

theorem paths_back {st : Ld} {d : Defaults} {l : List Path} (h1 : st.pathGroup = some (ownerVar d.group))
    (h2 : st.pathUser = some (ownerVar d.user)) (h3 : st.pathMode = d.pathMode) :
    (l.map (pathLd d)).mapM (pathDefault st) = .ok l := by
  have e : ∀ t ∈ l, pathDefault st (pathLd d t) = .ok t := by
    intro t _
    unfold pathDefault pathLd
    simp only [bind, Except.bind, h1, h2, h3, useDefault_found]
    by_cases h : t.mode = d.pathMode
    · simp [← h]
    · simp [h]
  rw [List.mapM_map]
  have := mapM_ok (f := fun t => pathDefault st (pathLd d t)) (g := id) e
  rw [List.map_id] at this
  exact this

theorem addOwners_spec : ∀ (l : List (Option Str)) (st : Store), (addOwners l st).files = st.files ∧
    (∃ o, (addOwners l st).env = { st.env with owners := o } ∧ st.env.owners <+: o ∧ o.length ≤ st.env.owners.length + l.length)
  | [], st => ⟨rfl, st.env.owners, rfl, List.prefix_refl _, by simp⟩
  | x :: l, st => by
    obtain ⟨h1, o, h2, h3, h4⟩ := addOwners_spec l (addOwner x st)
    refine ⟨h1, o, h2, (ownerCache_prefix x _).trans h3, ?_⟩
    have := ownerCache_length x st.env.owners
    have e : (addOwner x st).env.owners = ownerCache x st.env.owners := rfl
    rw [e] at h4
    simp only [List.length_cons]
    omega

/-- What is loaded of a file when the data directory is `p`. An owner `@` and a mode with all bits set stand for the defaults. -/
def resolved (p : Path) (f : File) : File :=
  { kept f with
    user := if f.user = some [64] then p.user else f.user
    group := if f.group = some [64] then p.group else f.group
    mode := if f.mode = 0xffffffff then p.mode &&& 0o640 else f.mode }

theorem redefault_placed (o d : Option Str) :
    redefault (some placeholderZ) d (if ownerDiffers o d then o else some placeholderZ) = if o = some [64] then d else o := by
  unfold redefault
  by_cases h : ownerDiffers o d = true
  · rw [if_pos h]
    by_cases h2 : o = some [64]
    · rw [if_pos h2, if_pos ⟨by rw [h2]; rfl, h2⟩]
    · rw [if_neg h2, if_neg fun h => h2 h.2]
  · rw [if_neg h, if_pos ⟨rfl, rfl⟩]
    rw [ownerDiffers_iff] at h
    rw [Classical.not_not.1 h]
    split <;> rfl

theorem follow_placed {p : Path} {d : Defaults} (hd : d = ⟨p.user, p.group, p.mode &&& 0o640, p.mode⟩) {e e0 e' : Env} (f : File)
    (h1 : e.userDefault = some placeholderZ) (h2 : e.groupDefault = some placeholderZ) (h3 : e.modeDefault = 0xffffffff)
    (h1' : e0.userDefault = some placeholderZ) (h2' : e0.groupDefault = some placeholderZ) (h3' : e0.modeDefault = 0xffffffff)
    (h4 : e'.userDefault = d.user) (h5 : e'.groupDefault = d.group) (h6 : e'.modeDefault = d.fileMode) :
    follow e e' (placed d e0 f) = resolved p f := by
  unfold follow placed
  simp only [h1, h2, h3, h1', h2', h3', h4, h5, h6, redefault_placed]
  subst hd
  unfold resolved
  simp only []
  congr 1
  by_cases h : f.mode = p.mode &&& 0o640
  · rw [h]; simp
  · simp [h]

/-- Everything but the files. -/
structure SameOther (m : Man) (pass : Option Str) (r : Loaded) : Prop where
  label : r.label = some m.label
  references : r.store.env.references = m.references
  targets : r.targets.Perm m.targets ∧ ByName (·.name) r.targets
  dbs : r.dbs.Perm m.dbs ∧ ByName (·.name) r.dbs
  links : r.links.Perm m.links ∧ ByName (·.name) r.links
  paths : r.paths.Perm m.paths ∧ ByName (·.name) r.paths
  pass : r.pass = pass

/-- The files of `r` are those of `m` in the order of the names, each as `k` gives it. -/
def FilesAs (k : File → File) (m : Man) (r : Loaded) : Prop :=
  ∃ fs : List File, fs.Perm m.files ∧ ByName (·.name) fs ∧ r.store.files.length = fs.length ∧
    ∀ i f, fs[i]? = some f → file r.store i = .ok (k f)

theorem found_length {α : Type} (d : Defaults) (user group : α → Option Str) (l : List α) :
    (foundOwners d user group l).length = 2 * l.length := by
  unfold foundOwners
  induction l with
  | nil => rfl
  | cons x l ih => rw [List.flatMap_cons, List.length_append, ih]; simp; omega

theorem pair_length {α : Type} (f g : α → Option Str) (l : List α) : (l.flatMap fun x => [f x, g x]).length = 2 * l.length := by
  induction l with
  | nil => rfl
  | cons x l ih => rw [List.flatMap_cons, List.length_append, ih]; simp; omega

theorem load_values {H : Str → Str} {m : Man} (hm : Complete m) {p : Path} (hp : m.paths.find? (·.name == pgdataZ) = some p) {d : Defaults}
    (hd : d = ⟨p.user, p.group, p.mode &&& 0o640, p.mode⟩) {g : File → Val} (hg : ∀ f, Savable f → IsList f (g f) ∧ Fine (g f))
    {buffer : Nat} {t : Str} {i : Info.Loaded} (hi : Info.load buffer H t = .ok i) (ho : i.out = allValues m d g)
    (ht : ∀ f ∈ m.files, 0 ≤ f.timestamp.toInt) (sgn : Bool) (base : Int64) (hb : -2 ^ 62 ≤ base.toInt ∧ base.toInt < 2 ^ 62) :
    ∃ r, load buffer H sgn base t = .ok r ∧ SameOther m i.pass r ∧ FilesAs (resolved p) m r := by
  have hmem : ∀ f ∈ sortBy (·.name) m.files, f ∈ m.files := fun f hf => (sortBy_perm _ _).mem_iff.1 hf
  have hinv : Inv (startFiles m base).store (plainEmpty (startFiles m base).store.env) := empty_inv _ hb
  obtain ⟨s, pl, f1, f2, f3, f4, f5, f6, f7, f8, f9⟩ := fold_files sgn d g (sortBy (·.name) m.files) (startFiles m base) _ rfl hinv
    (fun f hf => by
      obtain ⟨h1, _, _, _, h5⟩ := hm.files f (hmem f hf)
      exact ⟨h1, (hg f h1).1, ht f (hmem f hf), h5⟩)
  obtain ⟨st, r1, r2, r3, r4, r5, r6, r7, r8, r9, r10, r11, r12⟩ := fold_rest sgn m d g { startFiles m base with store := s } rfl rfl
  have hfold : i.out.foldlM (loadEntry sgn) (start base) = .ok st := by
    rw [ho, fold_start sgn hm, fold_append, f1]
    exact r1
  obtain ⟨q, hq1, hq2⟩ := hm.baseTarget
  have hany : (sortBy (·.name) st.targets).any (·.name == pgdataZ) = true := by
    rw [List.any_eq_true]
    refine ⟨q, (sortBy_perm _ _).mem_iff.2 ?_, by rw [hq2]; rfl⟩
    rw [r5]; exact hq1
  have hlink := links_back (st := st) (d := d) (l := m.links) r9
  have hpath := paths_back (st := st) (d := d) (l := m.paths) r10 r11 r12
  rw [← r7] at hlink
  rw [← r8] at hpath
  have hlabel : addLabel st = .ok st.store := by
    unfold addLabel addReference
    rw [r4]
    rfl
  let owners := (m.links.flatMap fun l => [l.group, l.user]) ++ (m.paths.flatMap fun p => [p.group, p.user])
  have hload : load buffer H sgn base t = .ok {
      store := { addOwners owners st.store with files := sortBy (·.name) (addOwners owners st.store).files }
      label := st.label, targets := sortBy (·.name) st.targets, dbs := sortBy (·.name) st.dbs, links := sortBy (·.name) m.links
      paths := sortBy (·.name) m.paths, pass := i.pass } := by
    unfold load
    simp only [bind, Except.bind, hi]
    have hfold' := hfold
    unfold start at hfold'
    rw [hfold']
    simp only [hlabel, hlink, hpath]
    rw [if_pos hany]
  obtain ⟨o, s1, s2, s3, s4⟩ : ∃ o, (addOwners owners st.store).files = s.files ∧ (addOwners owners st.store).env =
      { s.env with groupDefault := d.group, modeDefault := d.fileMode, userDefault := d.user, owners := o } ∧
      s.env.owners <+: o ∧ o.length ≤ s.env.owners.length + (4 * m.links.length + 4 * m.paths.length) := by
    rw [r2, ← addOwners_append]
    obtain ⟨a, o, b, c, e⟩ := addOwners_spec
      ((foundOwners d (·.user) (·.group) m.links ++ foundOwners d (·.user) (·.group) m.paths) ++ owners)
      { s with env := { s.env with groupDefault := d.group, modeDefault := d.fileMode, userDefault := d.user } }
    refine ⟨o, a, b, c, Nat.le_trans e ?_⟩
    rw [List.length_append, List.length_append, found_length, found_length]
    show s.env.owners.length + (_ + ((m.links.flatMap fun l => [l.group, l.user]) ++ (m.paths.flatMap fun p => [p.group, p.user])).length) ≤ _
    rw [List.length_append, pair_length, pair_length]
    omega
  refine ⟨_, hload, ?_, ?_⟩
  · refine ⟨r3, ?_, ?_, ?_, ⟨sortBy_perm _ _, sortBy_sorted _ _⟩, ⟨sortBy_perm _ _, sortBy_sorted _ _⟩, rfl⟩
    · show (addOwners owners st.store).env.references = _
      rw [s2]
      exact f8
    · show (sortBy _ st.targets).Perm _ ∧ _
      rw [r5]
      exact ⟨sortBy_perm _ _, sortBy_sorted _ _⟩
    · show (sortBy _ st.dbs).Perm _ ∧ _
      rw [r6]
      exact ⟨sortBy_perm _ _, sortBy_sorted _ _⟩
  · have hn : s.files.map (·.name) = (sortBy (·.name) m.files).map (·.name) := f9
    have hs : sortBy (·.name) s.files = s.files := sortBy_self _ _ (byName_map hn.symm (sortBy_sorted _ _))
    refine ⟨sortBy (·.name) m.files, sortBy_perm _ _, sortBy_sorted _ _, ?_, ?_⟩
    · show (sortBy _ (addOwners owners st.store).files).length = _
      rw [s1, hs]
      have := congrArg List.length hn
      simpa using this
    · intro k f hf
      have hpl : pl.files = (sortBy (·.name) m.files).map (placed d (startFiles m base).store.env) := by simpa [plainEmpty] using f3
      obtain ⟨hk, hfe⟩ := List.getElem?_eq_some_iff.1 hf
      have hk1 : k < pl.files.length := by rw [hpl]; simpa using hk
      have hk2 : k < s.files.length := by rw [f2.files.length_eq]; exact hk1
      have hst := f2.files.get hk2 hk1
      have hfl : pl.files.get ⟨k, hk1⟩ = placed d (startFiles m base).store.env f := by
        simp [hpl, hfe]
      rw [hfl] at hst
      have hlen := (sortBy_perm (fun f : File => f.name) m.files).length_eq
      have hfit : Fit { s.env with groupDefault := d.group, modeDefault := d.fileMode, userDefault := d.user, owners := o } := by
        refine ⟨?_, ?_, f2.base⟩
        · show o.length < 2 ^ 32
          have h0 : (startFiles m base).store.env.owners.length = 0 := rfl
          have := hm.few.1
          omega
        · show s.env.references.length < 2 ^ 32
          rw [f8]
          exact hm.few.2
      have hu := hst { s.env with groupDefault := d.group, modeDefault := d.fileMode, userDefault := d.user, owners := o } ⟨s3, List.prefix_refl _, rfl⟩ hfit
      rw [follow_placed hd f f4 f5 f6 rfl rfl rfl rfl rfl rfl] at hu
      unfold file
      show (match (sortBy _ (addOwners owners st.store).files)[k]? with
        | none => _
        | some q => unpack (addOwners owners st.store).env q) = _
      rw [s1, hs, s2, List.getElem?_eq_getElem hk2]
      exact hu

/-! ## Theorems -/

/-- The lines, whatever trees are chosen for the page errors. -/
theorem values_all {m : Man} (hm : Complete m) {p : Path} (hp : m.paths.find? (·.name == pgdataZ) = some p) {g : File → Val}
    (hg : ∀ f, Savable f → IsList f (g f) ∧ Fine (g f)) :
    defaults m = .ok ⟨p.user, p.group, p.mode &&& 0o640, p.mode⟩ ∧
      valuesOf m = .ok (allValues m ⟨p.user, p.group, p.mode &&& 0o640, p.mode⟩ g) := by
  have hd : defaults m = .ok ⟨p.user, p.group, p.mode &&& 0o640, p.mode⟩ := by
    unfold defaults
    rw [hp]
  refine ⟨hd, ?_⟩
  unfold valuesOf
  simp only [bind, Except.bind, hd]
  rw [call_eq m _ fun f hf => (hg f (hm.files f ((sortBy_perm _ _).mem_iff.1 hf)).1).1, (calls m _ g).2.2.1]
  rfl

theorem base_path {m : Man} (hm : Complete m) : ∃ p, m.paths.find? (·.name == pgdataZ) = some p := by
  obtain ⟨p, h1, h2⟩ := hm.basePath
  cases h : m.paths.find? (·.name == pgdataZ) with
  | some p => exact ⟨p, rfl⟩
  | none => exact absurd (List.find?_eq_none.1 h p h1) (by rw [h2]; decide)

/-- Whatever owners and modes there are: what stands for a default is loaded as the owner and the mode of the data directory. -/
theorem c37_defaults {H : Str → Str} (hH : Hex H) {buffer : Nat} (hb : 60 < buffer) {m : Man} (hm : Complete m)
    (ht : ∀ f ∈ m.files, 0 ≤ f.timestamp.toInt) (hl : ∀ l, valuesOf m = .ok l → ∀ e ∈ l, e.line.length < buffer) {pass : Option Str}
    (hp : ∀ p, pass = some p → 0 ∉ p ∧ 2 * p.length + 14 < buffer) (sgn : Bool) (base : Int64)
    (hbase : -2 ^ 62 ≤ base.toInt ∧ base.toInt < 2 ^ 62) :
    ∃ t r p, m.paths.find? (·.name == [112, 103, 95, 100, 97, 116, 97]) = some p ∧ save H m pass = .ok t ∧
      load buffer H sgn base t = .ok r ∧ SameOther m pass r ∧
      FilesAs (fun f => { kept f with
        user := if f.user = some [64] then p.user else f.user
        group := if f.group = some [64] then p.group else f.group
        mode := if f.mode = 0xffffffff then p.mode &&& 0o640 else f.mode }) m r := by
  obtain ⟨g, hg⟩ := exists_lists
  obtain ⟨p, hf⟩ := base_path hm
  obtain ⟨h1, h2⟩ := values_all hm hf hg
  obtain ⟨t, i, h3, h4, h5, h6⟩ := save_values hH hm h1 hg hb (hl _ h2) hp
  obtain ⟨r, h7, h8, h9⟩ := load_values hm hf rfl hg h4 h6 ht sgn base hbase
  exact ⟨t, r, p, hf, h3, h7, h5 ▸ h8, h9⟩

/-- A manifest that is saved is loaded as it was. -/
theorem c37_roundtrip {H : Str → Str} (hH : Hex H) {buffer : Nat} (hb : 60 < buffer) {m : Man} (hm : Complete m)
    (ht : ∀ f ∈ m.files, 0 ≤ f.timestamp.toInt ∧ Plainly f) (hl : ∀ l, valuesOf m = .ok l → ∀ e ∈ l, e.line.length < buffer)
    {pass : Option Str} (hp : ∀ p, pass = some p → 0 ∉ p ∧ 2 * p.length + 14 < buffer) (sgn : Bool) (base : Int64)
    (hbase : -2 ^ 62 ≤ base.toInt ∧ base.toInt < 2 ^ 62) :
    ∃ t r, save H m pass = .ok t ∧ load buffer H sgn base t = .ok r ∧ SameOther m pass r ∧ FilesAs kept m r := by
  obtain ⟨t, r, p, _, h1, h2, h3, fs, h4, h5, h6, h7⟩ := c37_defaults hH hb hm (fun f hf => (ht f hf).1) hl hp sgn base hbase
  refine ⟨t, r, h1, h2, h3, fs, h4, h5, h6, ?_⟩
  intro i f hf
  have hpl := (ht f (h4.mem_iff.1 (List.mem_of_getElem? hf))).2
  rw [h7 i f hf]
  simp only []
  rw [if_neg hpl.user, if_neg hpl.group, if_neg hpl.mode]
  rfl

/-- A manifest in which a file has a time before 1970 is saved but cannot be loaded. -/
theorem c37_negative {H : Str → Str} (hH : Hex H) {buffer : Nat} (hb : 60 < buffer) {m : Man} (hm : Complete m)
    (ht : ∃ f ∈ m.files, f.timestamp.toInt < 0) (hl : ∀ l, valuesOf m = .ok l → ∀ e ∈ l, e.line.length < buffer)
    {pass : Option Str} (hp : ∀ p, pass = some p → 0 ∉ p ∧ 2 * p.length + 14 < buffer) (sgn : Bool) (base : Int64)
    (hbase : -2 ^ 62 ≤ base.toInt ∧ base.toInt < 2 ^ 62) :
    ∃ t, save H m pass = .ok t ∧ load buffer H sgn base t = .error .jsonFormat := by
  obtain ⟨g, hg⟩ := exists_lists
  obtain ⟨p, hf⟩ := base_path hm
  obtain ⟨h1, h2⟩ := values_all hm hf hg
  obtain ⟨t, i, h3, h4, h5, h6⟩ := save_values hH hm h1 hg hb (hl _ h2) hp
  refine ⟨t, h3, ?_⟩
  have hmem : ∀ f ∈ sortBy (·.name) m.files, f ∈ m.files := fun f hf => (sortBy_perm _ _).mem_iff.1 hf
  have hinv : Inv (startFiles m base).store (plainEmpty (startFiles m base).store.env) := empty_inv _ hbase
  have hneg := fold_negative sgn ⟨p.user, p.group, p.mode &&& 0o640, p.mode⟩ g (sortBy (·.name) m.files) (startFiles m base) _ rfl hinv
    (fun f hf => by
      obtain ⟨h1, _, _, _, h5⟩ := hm.files f (hmem f hf)
      exact ⟨h1, (hg f h1).1, h5⟩)
    (by
      obtain ⟨f, hf, hn⟩ := ht
      exact ⟨f, (sortBy_perm _ _).mem_iff.2 hf, hn⟩)
  have hfold : i.out.foldlM (loadEntry sgn) (start base) = .error .jsonFormat := by
    rw [h6, fold_start sgn hm, fold_append, hneg]
    rfl
  unfold load
  simp only [bind, Except.bind, h4]
  unfold start at hfold
  rw [hfold]

/-! ## Examples -/

/-- A file with all that is saved. -/
def full0 : File :=
  { name := [97, 47, 98], checksumPage := true, checksumPageError := true
    mode := 0o600, checksumSha1 := some (List.replicate 20 7), checksumRepoSha1 := some (List.replicate 20 255)
    checksumPageErrorList := some [91, 49, 44, 91, 53, 44, 55, 93, 93], user := some [117], group := none, reference := some [50]
    bundleId := 3, bundleOffset := 18446744073709551615, blockIncrSize := 16384, blockIncrChecksumSize := 8
    blockIncrMapSize := 99, size := 1000000, sizeOriginal := 4096, sizeRepo := 5, timestamp := 1700000000 }

/-- An empty file with the owners of the data directory. -/
def empty0 : File :=
  { name := [97], user := some [112], group := some [112], mode := 0o600
    checksumSha1 := some zeroSum, timestamp := 5 }

/-- A manifest with something in every section. -/
def man0 : Man :=
  { label := [51], references := [[50], [51]]
    targets := [{ name := pgdataZ, link := false, path := [47, 112] },
      { name := [116], link := true, path := [47, 116], file := some [102], tablespaceId := 7, tablespaceName := some [110] }]
    dbs := [⟨[100], 12, 12000⟩]
    files := [full0, empty0]
    links := [{ name := [108], destination := [47, 116], user := some [112], group := none }]
    paths := [{ name := pgdataZ, mode := 0o700, user := some [112], group := some [112] }, { name := [113], mode := 0o750 }] }

instance (s : Str) : Decidable (Name s) := inferInstanceAs (Decidable (_ ∧ _))

theorem noZero_of {o : Option Str} (h : o.all (fun s => decide (0 ∉ s)) = true) : NoZero o := by
  rintro s rfl
  simpa using h

theorem full0_savable : Savable full0 where
  valid := ⟨by intro s h; rw [← Option.some.inj (show some _ = some s from h)]; decide,
    by intro s h; rw [← Option.some.inj (show some _ = some s from h)]; decide, by decide, by decide, by decide, by decide⟩
  list := by
    intro s h
    rw [← Option.some.inj (show some _ = some s from h)]
    exact ⟨[(1, none), (5, some 7)], by decide, by decide +kernel⟩
  page := by decide

theorem empty0_savable : Savable empty0 where
  valid := ⟨by intro s h; rw [← Option.some.inj (show some _ = some s from h)]; decide,
    by intro s h; exact absurd h (by simp [empty0]), by decide, by decide, by decide, by decide⟩
  list := by intro s h; exact absurd h (by simp [empty0])
  page := by decide

theorem man0_complete : Complete man0 where
  label := by decide
  references := by decide
  targets := by
    intro t ht
    simp only [man0, List.mem_cons, List.not_mem_nil, or_false] at ht
    rcases ht with rfl | rfl
    · exact ⟨by decide, by decide, noZero_of (by decide), noZero_of (by decide), by decide⟩
    · exact ⟨by decide, by decide, noZero_of (by decide), noZero_of (by decide), by decide⟩
  dbs := by
    intro t ht
    simp only [man0, List.mem_cons, List.not_mem_nil, or_false] at ht
    subst ht
    decide
  files := by
    intro t ht
    simp only [man0, List.mem_cons, List.not_mem_nil, or_false] at ht
    rcases ht with rfl | rfl
    · refine ⟨full0_savable, by decide, noZero_of (by decide), noZero_of (by decide), ?_⟩
      intro r h
      rw [← Option.some.inj (show some _ = some r from h)]
      decide
    · refine ⟨empty0_savable, by decide, noZero_of (by decide), noZero_of (by decide), ?_⟩
      intro r h
      exact absurd h (by simp [empty0])
  links := by
    intro t ht
    simp only [man0, List.mem_cons, List.not_mem_nil, or_false] at ht
    subst ht
    exact ⟨by decide, by decide, noZero_of (by decide), noZero_of (by decide)⟩
  paths := by
    intro t ht
    simp only [man0, List.mem_cons, List.not_mem_nil, or_false] at ht
    rcases ht with rfl | rfl
    · exact ⟨by decide, noZero_of (by decide), noZero_of (by decide)⟩
    · exact ⟨by decide, noZero_of (by decide), noZero_of (by decide)⟩
  basePath := ⟨_, List.mem_cons_self, rfl⟩
  baseTarget := ⟨_, List.mem_cons_self, rfl⟩
  few := by decide

theorem man0_plainly : ∀ f ∈ man0.files, 0 ≤ f.timestamp.toInt ∧ Plainly f := by
  intro t ht
  simp only [man0, List.mem_cons, List.not_mem_nil, or_false] at ht
  rcases ht with rfl | rfl
  · exact ⟨by decide, by decide, by decide, by decide⟩
  · exact ⟨by decide, by decide, by decide, by decide⟩

theorem man0_lines : ∀ l, valuesOf man0 = .ok l → ∀ e ∈ l, e.line.length < 65536 := by
  intro l hl
  have h : (match valuesOf man0 with
    | .ok l => decide (∀ e ∈ l, e.line.length < 65536)
    | .error _ => false) = true := by decide +kernel
  rw [hl] at h
  simpa using h

/-- The hypotheses of `c37_roundtrip` hold for `man0`. -/
example {H : Str → Str} (hH : Hex H) : ∃ t r, save H man0 (some [120]) = .ok t ∧ load 65536 H true (-1) t = .ok r ∧
    SameOther man0 (some [120]) r ∧ FilesAs kept man0 r :=
  c37_roundtrip hH (by decide) man0_complete man0_plainly man0_lines (by rintro p h; cases h; decide) true (-1) (by decide)

/-- The first line of a file: `a={"group":…`. -/
example : (valuesOf man0).map (fun l => l.filter (·.sec = fileSec)) = .ok [
    ⟨fileSec, [97], [123, 34, 115, 105, 122, 101, 34, 58, 48, 44, 34, 116, 105, 109, 101, 115, 116, 97, 109, 112, 34, 58, 53, 125]⟩,
    ⟨fileSec, [97, 47, 98], text (.obj (optFields (fileVals ⟨some [112], some [112], 0o600, 0o700⟩ full0
      (pageErrors [(1, none), (5, some 7)]))))⟩] := by decide +kernel

/-- The same manifest with a file from before 1970 and with a file of the user `@`. -/
def man1 : Man := { man0 with files := [{ empty0 with timestamp := -86400 }] }
def man2 : Man := { man0 with files := [{ empty0 with user := some [64] }] }

theorem man1_complete : Complete man1 :=
  { man0_complete with
    files := by
      intro t ht
      simp only [man1, List.mem_cons, List.not_mem_nil, or_false] at ht
      subst ht
      have e := empty0_savable
      exact ⟨⟨⟨e.valid.sum, e.valid.sumRepo, e.valid.factor, e.valid.block, e.valid.bundle, by decide⟩, e.list, e.page⟩, by decide,
        noZero_of (by decide), noZero_of (by decide), fun r h => absurd h (by simp [empty0])⟩
    few := by decide }

theorem man2_complete : Complete man2 :=
  { man0_complete with
    files := by
      intro t ht
      simp only [man2, List.mem_cons, List.not_mem_nil, or_false] at ht
      subst ht
      have e := empty0_savable
      exact ⟨⟨⟨e.valid.sum, e.valid.sumRepo, e.valid.factor, e.valid.block, e.valid.bundle, e.valid.time⟩, e.list, e.page⟩, by decide,
        noZero_of (by decide), noZero_of (by decide), fun r h => absurd h (by simp [empty0])⟩
    few := by decide }

theorem man1_lines : ∀ l, valuesOf man1 = .ok l → ∀ e ∈ l, e.line.length < 65536 := by
  intro l hl
  have h : (match valuesOf man1 with
    | .ok l => decide (∀ e ∈ l, e.line.length < 65536)
    | .error _ => false) = true := by decide +kernel
  rw [hl] at h
  simpa using h

theorem man2_lines : ∀ l, valuesOf man2 = .ok l → ∀ e ∈ l, e.line.length < 65536 := by
  intro l hl
  have h : (match valuesOf man2 with
    | .ok l => decide (∀ e ∈ l, e.line.length < 65536)
    | .error _ => false) = true := by decide +kernel
  rw [hl] at h
  simpa using h

example {H : Str → Str} (hH : Hex H) : ∃ t, save H man1 none = .ok t ∧ load 65536 H true (-1) t = .error .jsonFormat :=
  c37_negative hH (by decide) man1_complete ⟨_, List.mem_cons_self, by decide⟩ man1_lines (by simp) true (-1) (by decide)

/-- C37 does not hold for a user `@`: the file is loaded with the user of the data directory. -/
theorem c37_at {H : Str → Str} (hH : Hex H) : ∃ t r, save H man2 none = .ok t ∧ load 65536 H true (-1) t = .ok r ∧
    man2.files.map (·.user) = [some [64]] ∧ (file r.store 0).map (·.user) = .ok (some [112]) := by
  obtain ⟨t, r, p, h0, h1, h2, _, fs, h4, _, h6, h7⟩ := c37_defaults hH (by decide) man2_complete (by
    intro f hf
    simp only [man2, List.mem_cons, List.not_mem_nil, or_false] at hf
    subst hf
    decide) man2_lines (pass := none) (by simp) true (-1) (by decide)
  refine ⟨t, r, h1, h2, rfl, ?_⟩
  have hfs : fs = man2.files := List.perm_singleton.1 h4
  rw [h7 0 { empty0 with user := some [64] } (by rw [hfs]; rfl)]
  have hp : p = { name := pgdataZ, mode := 0o700, user := some [112], group := some [112] } := (Option.some.inj h0).symm
  rw [hp]
  rfl

end Verif.Manifest
