import Verif.Manifest.SaveLines

/-! # Loading the lines of a manifest (C37) -/

namespace Verif.Manifest

open Verif Verif.Json
open Verif.Info (Entry backrestZ cipherZ)
open Verif.Info.Pg (mapM_ok)

/-! ## Sorting -/

theorem insertBy_perm {α : Type} (name : α → Str) (x : α) : ∀ l, (insertBy name x l).Perm (x :: l)
  | [] => .refl _
  | y :: l => by
    unfold insertBy
    split
    · exact ((insertBy_perm name x l).cons y).trans (.swap x y l)
    · exact .refl _

theorem sortBy_perm {α : Type} (name : α → Str) : ∀ l, (sortBy name l).Perm l
  | [] => .refl _
  | x :: l => (insertBy_perm name x (sortBy name l)).trans ((sortBy_perm name l).cons x)

theorem insertBy_sorted {α : Type} (name : α → Str) (x : α) : ∀ l, ByName name l → ByName name (insertBy name x l)
  | [], _ => by simp [insertBy, ByName]
  | y :: l, h => by
    obtain ⟨h1, h2⟩ := List.pairwise_cons.1 h
    unfold insertBy
    split
    · rename_i hyx
      refine List.pairwise_cons.2 ⟨?_, insertBy_sorted name x l h2⟩
      intro z hz
      rcases List.mem_cons.1 ((insertBy_perm name x l).mem_iff.1 hz) with rfl | hz
      · exact fun h => Str.lt_irrefl _ (Str.lt_trans h hyx)
      · exact h1 z hz
    · rename_i hyx
      refine List.pairwise_cons.2 ⟨?_, h⟩
      intro z hz
      rcases List.mem_cons.1 hz with rfl | hz
      · exact hyx
      · intro hzx
        rcases Str.trichotomy (name y) (name z) with h3 | h3 | h3
        · exact hyx (Str.lt_trans h3 hzx)
        · exact hyx (h3 ▸ hzx)
        · exact h1 z hz h3

theorem sortBy_sorted {α : Type} (name : α → Str) : ∀ l, ByName name (sortBy name l)
  | [] => List.Pairwise.nil
  | x :: l => insertBy_sorted name x _ (sortBy_sorted name l)

theorem sortBy_self {α : Type} (name : α → Str) : ∀ l, ByName name l → sortBy name l = l
  | [], _ => rfl
  | x :: l, h => by
    obtain ⟨h1, h2⟩ := List.pairwise_cons.1 h
    show insertBy name x (sortBy name l) = _
    rw [sortBy_self name l h2]
    cases l with
    | nil => rfl
    | cons y l => unfold insertBy; rw [if_neg (h1 y (by simp))]

theorem byName_map {α β : Type} {f : α → Str} {g : β → Str} {l : List α} {m : List β} (h : l.map f = m.map g) (hl : ByName f l) :
    ByName g m := by
  have : (l.map f).Pairwise fun a b => ¬ b < a := List.pairwise_map.2 hl
  rw [h] at this
  exact List.pairwise_map.1 this

/-! ## References -/

theorem split_none {s : Str} (h : 44 ∉ s) : Wal.split 44 s = [s] := by
  induction s with
  | nil => rfl
  | cons c s ih =>
    simp only [List.mem_cons, not_or] at h
    unfold Wal.split
    rw [if_neg (fun e => h.1 e.symm), ih h.2]

theorem split_cons {s t : Str} (h : 44 ∉ s) : Wal.split 44 (s ++ 44 :: t) = s :: Wal.split 44 t := by
  induction s with
  | nil => rw [List.nil_append, Wal.split]; simp
  | cons c s ih =>
    simp only [List.mem_cons, not_or] at h
    rw [List.cons_append, Wal.split, if_neg (fun e => h.1 e.symm), ih h.2]

theorem split_join : ∀ {l : List Str}, l ≠ [] → (∀ r ∈ l, 44 ∉ r) → Wal.split 44 (joinComma l) = l
  | [], h, _ => absurd rfl h
  | [s], _, h => split_none (h s (by simp))
  | s :: t :: l, _, h => by
    rw [joinComma, split_cons (h s (by simp)), split_join (by simp) fun r hr => h r (List.mem_cons_of_mem _ hr)]
    simp

theorem join_clean : ∀ {l : List Str}, (∀ r ∈ l, 0 ∉ r) → 0 ∉ joinComma l
  | [], _ => by simp [joinComma]
  | [s], h => h s (by simp)
  | s :: t :: l, h => by
    rw [joinComma]
    · simp only [List.mem_append, List.mem_cons, not_or]
      exact ⟨h s (by simp), by decide, join_clean fun r hr => h r (List.mem_cons_of_mem _ hr)⟩
    · simp

/-! ## Values -/

theorem new_var {v : Val} (h : Json.Fit v) : ∃ st, jsonReadVar (readNew (text v)) = .ok (v, st) := by
  have h2 := readVar_text v (2 * (text v).length + 2) (readNew []) [] h (ready_new _) stop_nil (by omega)
  simp only [sep, readNew, List.nil_append, List.append_nil] at h2
  exact ⟨_, by simpa only [jsonReadVar, readNew] using h2⟩

theorem new_str (s : Str) : ∃ st, readStr (readNew (text (.str s))) = .ok (some s, st) := by
  have h1 := readStr_text (ready_new []) s []
  exact ⟨after (readNew []) true [], by simpa [readNew, sep, text] using h1⟩

theorem new_rdStr (s : Str) : ∃ st, rdStr (readNew (text (.str s))) = .ok (s, st) := by
  obtain ⟨st, h⟩ := new_str s
  exact ⟨st, by simp only [rdStr, bind, Except.bind]; rw [h]⟩

theorem new_mode (m : UInt32) : ∃ st, rdMode (readNew (text (.str (modeStr m)))) = .ok (m, st) := by
  obtain ⟨st, h⟩ := new_rdStr (modeStr m)
  have h2 := takes_mode m []
  obtain ⟨st2, h3⟩ : ∃ st2, rdStr (val' (readNew []) [] (.str (modeStr m)) []) = .ok (modeStr m, st2) := ⟨_, takes_rdStr _ _⟩
  simp only [rdMode, bind, Except.bind] at h2 ⊢
  rw [h]
  rw [h3] at h2
  simp only [] at h2 ⊢
  cases hn : Num.toUIntBase 8 (Info.zstr (modeStr m)) with
  | error e => rw [hn] at h2; cases h2
  | ok n =>
    rw [hn] at h2
    simp only [] at h2 ⊢
    exact ⟨st, by rw [(Prod.mk.inj (Except.ok.inj h2)).1]⟩

theorem default_var (o : Option Str) : ownerDefaultGet (ownerVar o) = .ok (ownerVar o) := by cases o <;> rfl

/-! ## Sections -/

theorem fold_append {α β : Type} (f : β → α → Res β) (b : β) (l m : List α) :
    (l ++ m).foldlM f b = (l.foldlM f b).bind fun b => m.foldlM f b := by
  rw [List.foldlM_append]; rfl

theorem fold_targets (sgn : Bool) : ∀ (l : List Target) (st : Ld),
    (∀ t ∈ l, (t.tablespaceId ≠ 0 ↔ t.tablespaceName.isSome)) →
    (l.map fun t => objEntry backupTargetSec t.name (targetVals t)).foldlM (loadEntry sgn) st =
      .ok { st with targets := st.targets ++ l }
  | [], st, _ => by simp [pure, Except.pure]
  | t :: l, st, h => by
    have : loadEntry sgn st (objEntry backupTargetSec t.name (targetVals t)) = .ok { st with targets := st.targets ++ [t] } := by
      unfold loadEntry
      show (do let t ← loadTarget (objEntry backupTargetSec t.name (targetVals t)); Except.ok { st with targets := st.targets ++ [t] }) = _
      rw [objEntry, loadTarget_eq (h t (by simp))]
      rfl
    rw [List.map_cons, List.foldlM_cons, this]
    show List.foldlM _ _ _ = _
    rw [fold_targets sgn l _ fun t ht => h t (List.mem_cons_of_mem _ ht)]
    simp

theorem fold_dbs (sgn : Bool) : ∀ (l : List Db) (st : Ld),
    (l.map fun t => objEntry dbSec t.name (dbVals t)).foldlM (loadEntry sgn) st = .ok { st with dbs := st.dbs ++ l }
  | [], st => by simp [pure, Except.pure]
  | t :: l, st => by
    have : loadEntry sgn st (objEntry dbSec t.name (dbVals t)) = .ok { st with dbs := st.dbs ++ [t] } := by
      unfold loadEntry
      show (do let t ← loadDb (objEntry dbSec t.name (dbVals t)); Except.ok { st with dbs := st.dbs ++ [t] }) = _
      rw [objEntry, loadDb_eq]
      rfl
    rw [List.map_cons, List.foldlM_cons, this]
    show List.foldlM _ _ _ = _
    rw [fold_dbs sgn l]
    simp

/-- What is loaded of a link. -/
def linkLd (d : Defaults) (l : Link) : LinkLd := ⟨l.name, l.destination, found l.group d.group, found l.user d.user⟩

/-- What is loaded of a path. -/
def pathLd (d : Defaults) (p : Path) : PathLd :=
  ⟨p.name, found p.group d.group, if p.mode != d.pathMode then some p.mode else none, found p.user d.user⟩

theorem addOwners_append (l m : List (Option Str)) (st : Store) : addOwners (l ++ m) st = addOwners m (addOwners l st) := by
  simp [addOwners, List.foldl_append]

/-- The owners that are found. -/
def foundOwners {α : Type} (d : Defaults) (user group : α → Option Str) (l : List α) : List (Option Str) :=
  l.flatMap fun x => [(found (group x) d.group).getD none, (found (user x) d.user).getD none]

theorem fold_links (sgn : Bool) (d : Defaults) : ∀ (l : List Link) (st : Ld),
    (l.map fun t => objEntry linkSec t.name (linkVals d t)).foldlM (loadEntry sgn) st =
      .ok { st with links := st.links ++ l.map (linkLd d), store := addOwners (foundOwners d (·.user) (·.group) l) st.store }
  | [], st => by simp [pure, Except.pure, addOwners, foundOwners]
  | t :: l, st => by
    have : loadEntry sgn st (objEntry linkSec t.name (linkVals d t)) = .ok { st with
        links := st.links ++ [linkLd d t]
        store := addOwners [(found t.group d.group).getD none, (found t.user d.user).getD none] st.store } := by
      unfold loadEntry
      show (do
        let p ← loadLink (objEntry linkSec t.name (linkVals d t))
        Except.ok { st with
          links := st.links ++ [p], store := addOwner (p.user.getD none) (addOwner (p.group.getD none) st.store) }) = _
      rw [objEntry, loadLink_eq]
      rfl
    rw [List.map_cons, List.foldlM_cons, this]
    show List.foldlM _ _ _ = _
    rw [fold_links sgn d l]
    simp [foundOwners, addOwners]

theorem fold_paths (sgn : Bool) (d : Defaults) : ∀ (l : List Path) (st : Ld),
    (l.map fun t => objEntry pathSec t.name (pathVals d t)).foldlM (loadEntry sgn) st =
      .ok { st with paths := st.paths ++ l.map (pathLd d), store := addOwners (foundOwners d (·.user) (·.group) l) st.store }
  | [], st => by simp [pure, Except.pure, addOwners, foundOwners]
  | t :: l, st => by
    have : loadEntry sgn st (objEntry pathSec t.name (pathVals d t)) = .ok { st with
        paths := st.paths ++ [pathLd d t]
        store := addOwners [(found t.group d.group).getD none, (found t.user d.user).getD none] st.store } := by
      unfold loadEntry
      show (do
        let p ← loadPath (objEntry pathSec t.name (pathVals d t))
        Except.ok { st with
          paths := st.paths ++ [p], store := addOwner (p.user.getD none) (addOwner (p.group.getD none) st.store) }) = _
      rw [objEntry, loadPath_eq]
      rfl
    rw [List.map_cons, List.foldlM_cons, this]
    show List.foldlM _ _ _ = _
    rw [fold_paths sgn d l]
    simp [foundOwners, addOwners]

/-! ## Values of their own -/

theorem entry_label (sgn : Bool) (st : Ld) (s : Str) :
    loadEntry sgn st (valEntry backupSec labelKey (.str s)) = .ok { st with label := some s } := by
  obtain ⟨r, h⟩ := new_str s
  unfold loadEntry
  show (do let (s, _) ← readStr (readNew (text (.str s))); Except.ok { st with label := s }) = _
  rw [h]
  rfl

theorem entry_references (sgn : Bool) (st : Ld) (s : Str) :
    loadEntry sgn st (valEntry backupSec referencesKey (.str s)) =
      .ok { st with store := { st.store with env := { st.store.env with references := Wal.split 44 s } }, referencesFound := true } := by
  obtain ⟨r, h⟩ := new_rdStr s
  unfold loadEntry
  show (do
    let (s, _) ← rdStr (readNew (text (.str s)))
    Except.ok { st with store := { st.store with env := { st.store.env with references := Wal.split 44 s } }, referencesFound := true }) = _
  rw [h]
  rfl

theorem fold_fileDefaults (sgn : Bool) (d : Defaults) (st : Ld) :
    [valEntry fileDefaultSec groupKey (ownerVar d.group), valEntry fileDefaultSec modeKey (.str (modeStr d.fileMode)),
      valEntry fileDefaultSec userKey (ownerVar d.user)].foldlM (loadEntry sgn) st =
      .ok { st with store := { st.store with
        env := { st.store.env with groupDefault := d.group, modeDefault := d.fileMode, userDefault := d.user } } } := by
  obtain ⟨r1, h1⟩ := new_var (fit_owner d.group)
  obtain ⟨r2, h2⟩ := new_mode d.fileMode
  obtain ⟨r3, h3⟩ := new_var (fit_owner d.user)
  have e1 : ∀ st, loadEntry sgn st (valEntry fileDefaultSec groupKey (ownerVar d.group)) =
      .ok { st with store := { st.store with env := { st.store.env with groupDefault := d.group } } } := by
    intro st
    unfold loadEntry
    show (do
      let (v, _) ← jsonReadVar (readNew (text (ownerVar d.group)))
      let o ← ownerGet v
      Except.ok { st with store := { st.store with env := { st.store.env with groupDefault := o } } }) = _
    rw [h1]
    show (do
      let o ← ownerGet (ownerVar d.group)
      Except.ok { st with store := { st.store with env := { st.store.env with groupDefault := o } } }) = _
    rw [ownerGet_var]
    rfl
  have e2 : ∀ st, loadEntry sgn st (valEntry fileDefaultSec modeKey (.str (modeStr d.fileMode))) =
      .ok { st with store := { st.store with env := { st.store.env with modeDefault := d.fileMode } } } := by
    intro st
    unfold loadEntry
    show (do
      let (m, _) ← rdMode (readNew (text (.str (modeStr d.fileMode))))
      Except.ok { st with store := { st.store with env := { st.store.env with modeDefault := m } } }) = _
    rw [h2]
    rfl
  have e3 : ∀ st, loadEntry sgn st (valEntry fileDefaultSec userKey (ownerVar d.user)) =
      .ok { st with store := { st.store with env := { st.store.env with userDefault := d.user } } } := by
    intro st
    unfold loadEntry
    show (do
      let (v, _) ← jsonReadVar (readNew (text (ownerVar d.user)))
      let o ← ownerGet v
      Except.ok { st with store := { st.store with env := { st.store.env with userDefault := o } } }) = _
    rw [h3]
    show (do
      let o ← ownerGet (ownerVar d.user)
      Except.ok { st with store := { st.store with env := { st.store.env with userDefault := o } } }) = _
    rw [ownerGet_var]
    rfl
  simp only [List.foldlM_cons, List.foldlM_nil, bind, Except.bind, e1, e2, e3]
  rfl

theorem fold_linkDefaults (sgn : Bool) (d : Defaults) (st : Ld) :
    [valEntry linkDefaultSec groupKey (ownerVar d.group), valEntry linkDefaultSec userKey (ownerVar d.user)].foldlM (loadEntry sgn) st =
      .ok { st with linkGroup := some (ownerVar d.group), linkUser := some (ownerVar d.user) } := by
  obtain ⟨r1, h1⟩ := new_var (fit_owner d.group)
  obtain ⟨r3, h3⟩ := new_var (fit_owner d.user)
  have e1 : ∀ st, loadEntry sgn st (valEntry linkDefaultSec groupKey (ownerVar d.group)) =
      .ok { st with linkGroup := some (ownerVar d.group) } := by
    intro st
    unfold loadEntry
    show (do
      let (v, _) ← jsonReadVar (readNew (text (ownerVar d.group)))
      let o ← ownerDefaultGet v
      Except.ok { st with linkGroup := some o }) = _
    rw [h1]
    show (do
      let o ← ownerDefaultGet (ownerVar d.group)
      Except.ok { st with linkGroup := some o }) = _
    rw [default_var]
    rfl
  have e3 : ∀ st, loadEntry sgn st (valEntry linkDefaultSec userKey (ownerVar d.user)) =
      .ok { st with linkUser := some (ownerVar d.user) } := by
    intro st
    unfold loadEntry
    show (do
      let (v, _) ← jsonReadVar (readNew (text (ownerVar d.user)))
      let o ← ownerDefaultGet v
      Except.ok { st with linkUser := some o }) = _
    rw [h3]
    show (do
      let o ← ownerDefaultGet (ownerVar d.user)
      Except.ok { st with linkUser := some o }) = _
    rw [default_var]
    rfl
  simp only [List.foldlM_cons, List.foldlM_nil, bind, Except.bind, e1, e3]
  rfl

theorem fold_pathDefaults (sgn : Bool) (d : Defaults) (st : Ld) :
    [valEntry pathDefaultSec groupKey (ownerVar d.group), valEntry pathDefaultSec modeKey (.str (modeStr d.pathMode)),
      valEntry pathDefaultSec userKey (ownerVar d.user)].foldlM (loadEntry sgn) st =
      .ok { st with pathGroup := some (ownerVar d.group), pathMode := d.pathMode, pathUser := some (ownerVar d.user) } := by
  obtain ⟨r1, h1⟩ := new_var (fit_owner d.group)
  obtain ⟨r2, h2⟩ := new_mode d.pathMode
  obtain ⟨r3, h3⟩ := new_var (fit_owner d.user)
  have e1 : ∀ st, loadEntry sgn st (valEntry pathDefaultSec groupKey (ownerVar d.group)) =
      .ok { st with pathGroup := some (ownerVar d.group) } := by
    intro st
    unfold loadEntry
    show (do
      let (v, _) ← jsonReadVar (readNew (text (ownerVar d.group)))
      let o ← ownerDefaultGet v
      Except.ok { st with pathGroup := some o }) = _
    rw [h1]
    show (do
      let o ← ownerDefaultGet (ownerVar d.group)
      Except.ok { st with pathGroup := some o }) = _
    rw [default_var]
    rfl
  have e2 : ∀ st, loadEntry sgn st (valEntry pathDefaultSec modeKey (.str (modeStr d.pathMode))) =
      .ok { st with pathMode := d.pathMode } := by
    intro st
    unfold loadEntry
    show (do
      let (m, _) ← rdMode (readNew (text (.str (modeStr d.pathMode))))
      Except.ok { st with pathMode := m }) = _
    rw [h2]
    rfl
  have e3 : ∀ st, loadEntry sgn st (valEntry pathDefaultSec userKey (ownerVar d.user)) =
      .ok { st with pathUser := some (ownerVar d.user) } := by
    intro st
    unfold loadEntry
    show (do
      let (v, _) ← jsonReadVar (readNew (text (ownerVar d.user)))
      let o ← ownerDefaultGet v
      Except.ok { st with pathUser := some o }) = _
    rw [h3]
    show (do
      let o ← ownerDefaultGet (ownerVar d.user)
      Except.ok { st with pathUser := some o }) = _
    rw [default_var]
    rfl
  simp only [List.foldlM_cons, List.foldlM_nil, bind, Except.bind, e1, e2, e3]
  rfl

/-! ## Files -/

theorem placed_env (d : Defaults) {e e' : Env} (f : File) (hu : e'.userDefault = e.userDefault) (hg : e'.groupDefault = e.groupDefault)
    (hm : e'.modeDefault = e.modeDefault) : placed d e' f = placed d e f := by
  unfold placed
  rw [hu, hg, hm]

theorem kept_valid {f : File} (h : Valid f) (d : Defaults) (e : Env) : Valid (placed d e f) where
  sum := by
    intro s hs
    have hs' : (if f.size = 0 then some zeroSum else f.checksumSha1) = some s := hs
    split at hs'
    · rw [← Option.some.inj hs']; rfl
    · exact h.sum s hs'
  sumRepo := h.sumRepo
  factor := h.factor
  block := h.block
  bundle := h.bundle
  time := h.time

theorem fileAdd_names {st st' : Store} {f : File} (h : fileAdd st f = .ok st') :
    st'.files.map (·.name) = st.files.map (·.name) ++ [f.name] ∧ st'.env.references = st.env.references := by
  unfold fileAdd pack at h
  simp only [bind, Except.bind] at h
  split at h
  · cases h
  · rename_i x hx
    split at hx
    · cases hx
    · cases hx
      cases h
      simp

theorem time_ne {t : Int64} (h : 0 ≤ t.toInt) : t ≠ -1 := by
  rintro rfl
  exact absurd h (by decide)

/-- A file is added. -/
theorem entry_file (sgn : Bool) (d : Defaults) {f : File} (hs : Savable f) (ht : 0 ≤ f.timestamp.toInt) {v : Val} (hv : IsList f v)
    (st : Ld) (hf : st.referencesFound = true) :
    loadEntry sgn st (objEntry fileSec f.name (fileVals d f v)) =
      (fileAdd st.store (placed d st.store.env f)).bind fun s => .ok { st with store := s } := by
  unfold loadEntry
  show (do
    let f ← loadFile sgn st.store.env (objEntry fileSec f.name (fileVals d f v))
    let store ← addReference st.referencesFound f.reference st.store
    let store ← fileAdd store f
    Except.ok { st with store := store }) = _
  rw [objEntry, loadFile_eq sgn st.store.env d hs ht hv, hf]
  rfl

/-- All files are added. -/
theorem fold_files (sgn : Bool) (d : Defaults) (g : File → Val) : ∀ (l : List File) (st : Ld) (pl : Plain), st.referencesFound = true →
    Inv st.store pl →
    (∀ f ∈ l, Savable f ∧ IsList f (g f) ∧ 0 ≤ f.timestamp.toInt ∧ ∀ r, f.reference = some r → r ∈ pl.references) →
    ∃ s pl', (l.map fun f => objEntry fileSec f.name (fileVals d f (g f))).foldlM (loadEntry sgn) st = .ok { st with store := s } ∧
      Inv s pl' ∧ pl'.files = pl.files ++ l.map (placed d st.store.env) ∧
      s.env.userDefault = st.store.env.userDefault ∧ s.env.groupDefault = st.store.env.groupDefault ∧
      s.env.modeDefault = st.store.env.modeDefault ∧ s.env.owners.length ≤ st.store.env.owners.length + 2 * l.length ∧
      s.env.references = st.store.env.references ∧ s.files.map (·.name) = st.store.files.map (·.name) ++ l.map (·.name)
  | [], st, pl, _, hi, _ => ⟨st.store, pl, rfl, hi, by simp, rfl, rfl, rfl, by simp, rfl, by simp⟩
  | f :: l, st, pl, hf, hi, h => by
    obtain ⟨h1, h2, h3, h4⟩ := h f (by simp)
    obtain ⟨s, k1, k2, k3, k4, k5, k6, k7⟩ := step_inv st.store pl (.add (placed d st.store.env f)) hi
      ⟨kept_valid h1.valid _ _, h4, fun _ => time_ne h3⟩
    have k1' : fileAdd st.store (placed d st.store.env f) = .ok s := k1
    have hn := fileAdd_names k1'
    obtain ⟨s', pl', j1, j2, j3, j4, j5, j6, j7, j8, j9⟩ := fold_files sgn d g l { st with store := s } _ hf k2
      fun x hx => h x (List.mem_cons_of_mem _ hx)
    refine ⟨s', pl', ?_, j2, ?_, by rw [j4]; exact k3, by rw [j5]; exact k4, by rw [j6]; exact k5, ?_, ?_, ?_⟩
    · rw [List.map_cons, List.foldlM_cons, entry_file sgn d h1 h3 h2 st hf, k1']
      exact j1
    · rw [j3]
      show (pl.files ++ [placed d st.store.env f]) ++ _ = _
      rw [List.map_congr_left fun x _ => placed_env d x k3 k4 k5]
      simp
    · simp only [List.length_cons]
      have : s'.env.owners.length ≤ s.env.owners.length + 2 * l.length := j7
      omega
    · rw [j8]; exact hn.2
    · rw [j9]
      show s.files.map (·.name) ++ _ = _
      rw [hn.1]
      simp [placed, kept]

/-- A time before 1970 is not read. -/
theorem fold_negative (sgn : Bool) (d : Defaults) (g : File → Val) : ∀ (l : List File) (st : Ld) (pl : Plain), st.referencesFound = true →
    Inv st.store pl → (∀ f ∈ l, Savable f ∧ IsList f (g f) ∧ ∀ r, f.reference = some r → r ∈ pl.references) →
    (∃ f ∈ l, f.timestamp.toInt < 0) →
    (l.map fun f => objEntry fileSec f.name (fileVals d f (g f))).foldlM (loadEntry sgn) st = .error .jsonFormat
  | [], _, _, _, _, _, he => by obtain ⟨f, hf, _⟩ := he; cases hf
  | f :: l, st, pl, hf, hi, h, he => by
    obtain ⟨h1, h2, h4⟩ := h f (by simp)
    rw [List.map_cons, List.foldlM_cons]
    by_cases ht : f.timestamp.toInt < 0
    · have : loadEntry sgn st (objEntry fileSec f.name (fileVals d f (g f))) = .error .jsonFormat := by
        unfold loadEntry
        show (do
          let f ← loadFile sgn st.store.env (objEntry fileSec f.name (fileVals d f (g f)))
          let store ← addReference st.referencesFound f.reference st.store
          let store ← fileAdd store f
          Except.ok { st with store := store }) = _
        rw [objEntry, loadFile_negative sgn st.store.env d h1 ht h2]
        rfl
      rw [this]
      rfl
    · obtain ⟨s, k1, k2, k3, k4, k5, k6, k7⟩ := step_inv st.store pl (.add (placed d st.store.env f)) hi
        ⟨kept_valid h1.valid _ _, h4, fun _ => time_ne (show 0 ≤ f.timestamp.toInt by omega)⟩
      have k1' : fileAdd st.store (placed d st.store.env f) = .ok s := k1
      rw [entry_file sgn d h1 (by omega) h2 st hf, k1']
      refine fold_negative sgn d g l { st with store := s } _ hf k2 (fun x hx => h x (List.mem_cons_of_mem _ hx)) ?_
      obtain ⟨x, hx, hx2⟩ := he
      rcases List.mem_cons.1 hx with rfl | hx
      · exact absurd hx2 ht
      · exact ⟨x, hx, hx2⟩

end Verif.Manifest
