import Verif.Manifest.SaveProps

/-! # The lines of a manifest (C37) -/

namespace Verif.Manifest

open Verif Verif.Json
open Verif.Info (Entry backrestZ cipherZ Writable)
open Verif.Info.Pg (saveSection lastOf mapM_ok)

/-! ## Page errors -/

/-- A tree that can be written to a line. -/
structure Fine (v : Val) : Prop where
  fit : Json.Fit v
  good : Good v
  clean : Clean v

theorem fine_num {n : Nat} (h : n < 2 ^ 64) : Fine (.num n) := ⟨⟨by omega, by omega⟩, good_num ⟨by omega, by omega⟩, trivial⟩

theorem fine_bool (b : Bool) : Fine (.bool b) := ⟨trivial, good_bool b, trivial⟩

theorem fine_str {s : Str} (h : 0 ∉ s) : Fine (.str s) := ⟨trivial, good_str s, h⟩

theorem fine_owner {o : Option Str} (h : NoZero o) : Fine (ownerVar o) := by
  cases o with
  | none => exact fine_bool false
  | some s => exact fine_str (h s rfl)

theorem fine_items : ∀ {l : List Val}, (∀ v ∈ l, Fine v) → Fine (.arr l)
  | [], _ => ⟨trivial, good_arr (by simp), trivial⟩
  | v :: l, h => by
    have h1 := h v (by simp)
    have h2 := fine_items (l := l) fun x hx => h x (List.mem_cons_of_mem _ hx)
    exact ⟨⟨h1.fit, h2.fit⟩, good_arr fun x hx => (h x hx).good, ⟨h1.clean, h2.clean⟩⟩

theorem fine_pageErrors {l : List (Nat × Option Nat)} (h : ∀ x ∈ l, x.1 < 2 ^ 64 ∧ ∀ y, x.2 = some y → y < 2 ^ 64) :
    Fine (pageErrors l) := by
  refine fine_items fun v hv => ?_
  obtain ⟨x, hx, rfl⟩ := List.mem_map.1 hv
  obtain ⟨h1, h2⟩ := h x hx
  obtain ⟨a, b⟩ := x
  cases b with
  | none => exact fine_num h1
  | some y =>
    refine fine_items fun v hv => ?_
    simp only [List.mem_cons, List.not_mem_nil, or_false] at hv
    rcases hv with rfl | rfl
    · exact fine_num h1
    · exact fine_num (h2 y rfl)

/-- A tree for the page errors of each file. -/
theorem exists_lists : ∃ g : File → Val, ∀ f, Savable f → IsList f (g f) ∧ Fine (g f) := by
  have : ∀ f, ∃ v, Savable f → IsList f v ∧ Fine v := by
    intro f
    by_cases hs : Savable f
    · cases hl : f.checksumPageErrorList with
      | none => exact ⟨.bool false, fun _ => ⟨fun s h => (by rw [hl] at h; exact absurd h (by simp)), fine_bool false⟩⟩
      | some s =>
        obtain ⟨l, h1, h2⟩ := hs.list s hl
        have hf := fine_pageErrors h1
        refine ⟨pageErrors l, fun _ => ⟨fun t h => ?_, hf⟩⟩
        rw [fromVar_fit hf.fit] at h2
        rw [hl] at h
        exact ⟨(Option.some.inj h).symm.trans (Except.ok.inj h2).symm, hf.fit⟩
    · exact ⟨.null, fun h => absurd h hs⟩
  exact ⟨fun f => Classical.choose (this f), fun f => Classical.choose_spec (this f)⟩

/-! ## The values of the sections -/

/-- An object. -/
def objEntry (sec name : Str) (l : List (Bool × Str × Val)) : Entry := ⟨sec, name, text (.obj (optFields l))⟩

/-- A value. -/
def valEntry (sec name : Str) (v : Val) : Entry := ⟨sec, name, text v⟩

theorem objectEntry_eq {l : List (Bool × Str × Out)} {m : List (Bool × Str × Val)} (h : List.Forall₂ Field l m) (ho : Ordered (keysOf m))
    (sec name : Str) : objectEntry sec name l = .ok (objEntry sec name m) := by
  simp only [objectEntry, bind, Except.bind]
  rw [writeObject_opt h ho]
  rfl

theorem valueEntry_eq {v : Val} (h : Json.Fit v) (sec name : Str) : valueEntry sec name v = .ok (valEntry sec name v) := by
  simp only [valueEntry, bind, Except.bind]
  rw [fromVar_fit h]
  rfl

/-- The values of all sections. -/
def groups (m : Man) (d : Defaults) (g : File → Val) : List (Str × List Entry) := [
  (backupSec, [valEntry backupSec labelKey (.str m.label), valEntry backupSec referencesKey (.str (joinComma m.references))]),
  (backupTargetSec, m.targets.map fun t => objEntry backupTargetSec t.name (targetVals t)),
  (dbSec, m.dbs.map fun t => objEntry dbSec t.name (dbVals t)),
  (fileSec, (sortBy (·.name) m.files).map fun f => objEntry fileSec f.name (fileVals d f (g f))),
  (fileDefaultSec, [valEntry fileDefaultSec groupKey (ownerVar d.group), valEntry fileDefaultSec modeKey (.str (modeStr d.fileMode)),
    valEntry fileDefaultSec userKey (ownerVar d.user)]),
  (linkSec, m.links.map fun t => objEntry linkSec t.name (linkVals d t)),
  (linkDefaultSec, if m.links = [] then [] else [valEntry linkDefaultSec groupKey (ownerVar d.group),
    valEntry linkDefaultSec userKey (ownerVar d.user)]),
  (pathSec, m.paths.map fun t => objEntry pathSec t.name (pathVals d t)),
  (pathDefaultSec, [valEntry pathDefaultSec groupKey (ownerVar d.group), valEntry pathDefaultSec modeKey (.str (modeStr d.pathMode)),
    valEntry pathDefaultSec userKey (ownerVar d.user)])]

theorem sections_eq (m : Man) (d : Defaults) {g : File → Val} (hg : ∀ f ∈ sortBy (·.name) m.files, IsList f (g f)) :
    sections m d = (groups m d g).map fun x => (x.1, .ok x.2) := by
  have s1 : ∀ (s : Str), Json.Fit (.str s) := fun _ => trivial
  unfold sections groups
  simp only [List.map_cons, List.map_nil, valueEntry_eq (s1 _), valueEntry_eq (fit_owner _), bind, Except.bind]
  rw [mapM_ok (g := fun t => objEntry backupTargetSec t.name (targetVals t)) fun t _ =>
      objectEntry_eq (targetFields_mean t) targetKeys_ordered _ _,
    mapM_ok (g := fun t => objEntry dbSec t.name (dbVals t)) fun t _ => objectEntry_eq (dbFields_mean t) dbKeys_ordered _ _,
    mapM_ok (g := fun f => objEntry fileSec f.name (fileVals d f (g f))) fun f hf =>
      objectEntry_eq (fileFields_mean d f (hg f hf)) fileKeys_ordered _ _,
    mapM_ok (g := fun t => objEntry linkSec t.name (linkVals d t)) fun t _ => objectEntry_eq (linkFields_mean d t) linkKeys_ordered _ _,
    mapM_ok (g := fun t => objEntry pathSec t.name (pathVals d t)) fun t _ => objectEntry_eq (pathFields_mean d t) pathKeys_ordered _ _]
  by_cases h : m.links = [] <;> simp [h]

theorem saveSection_last {last : Option Str} {a b : Str} (hab : a < b) {next : Option Str} (h : saveSection last a next = true) :
    saveSection (some a) b next = saveSection last b next := by
  unfold saveSection at h ⊢
  cases last with
  | none => simp [hab]
  | some l =>
    simp only [Bool.and_eq_true, decide_eq_true_eq] at h
    simp [hab, Str.lt_trans h.1 hab]

/-- A call of the callback saves the sections after the last one and before the next one. -/
theorem callback_eq (next : Option Str) : ∀ (l : List (Str × List Entry)) (last : Option Str), (l.map Prod.fst).Pairwise (· < ·) →
    (∀ x ∈ l, ∀ e ∈ x.2, e.sec = x.1) →
    callback last next (l.map fun x => (x.1, .ok x.2)) = .ok ((l.filter fun x => saveSection last x.1 next).flatMap Prod.snd)
  | [], _, _, _ => rfl
  | (sec, a) :: l, last, hp, hs => by
    simp only [List.map_cons, List.pairwise_cons] at hp
    have ih := fun last => callback_eq next l last hp.2 fun x hx => hs x (List.mem_cons_of_mem _ hx)
    rw [List.map_cons, callback]
    cases hc : saveSection last sec next with
    | false =>
      rw [if_neg (by simp), ih last, List.filter_cons, if_neg (by simp [hc])]
    | true =>
      simp only [if_true, bind, Except.bind]
      rw [ih, List.filter_cons, if_pos (by simp [hc]), List.flatMap_cons]
      show Except.ok (a ++ _) = Except.ok (a ++ _)
      congr 3
      apply List.filter_congr
      intro x hx
      unfold lastOf
      cases ha : a.getLast? with
      | none => rfl
      | some e =>
        have : e.sec = sec := hs (sec, a) (by simp) e (List.mem_of_mem_getLast? ha)
        simp only [this]
        exact saveSection_last (hp.1 x.1 (List.mem_map_of_mem hx)) hc

theorem groups_sec (m : Man) (d : Defaults) (g : File → Val) : ∀ x ∈ groups m d g, ∀ e ∈ x.2, e.sec = x.1 := by
  intro x hx e he
  have o : ∀ {α : Type} (l : List α) (sec : Str) (n : α → Str) (v : α → List (Bool × Str × Val)) (e : Entry),
      e ∈ l.map (fun t => objEntry sec (n t) (v t)) → e.sec = sec := by
    intro α l sec n v e h
    obtain ⟨t, _, rfl⟩ := List.mem_map.1 h
    rfl
  simp only [groups, List.mem_cons, List.not_mem_nil, or_false] at hx
  rcases hx with rfl | rfl | rfl | rfl | rfl | rfl | rfl | rfl | rfl
  · simp only [List.mem_cons, List.not_mem_nil, or_false] at he
    rcases he with rfl | rfl <;> rfl
  · exact o _ _ _ _ e he
  · exact o _ _ _ _ e he
  · exact o _ _ _ _ e he
  · simp only [List.mem_cons, List.not_mem_nil, or_false] at he
    rcases he with rfl | rfl | rfl <;> rfl
  · exact o _ _ _ _ e he
  · simp only at he
    split at he
    · cases he
    · simp only [List.mem_cons, List.not_mem_nil, or_false] at he
      rcases he with rfl | rfl <;> rfl
  · exact o _ _ _ _ e he
  · simp only [List.mem_cons, List.not_mem_nil, or_false] at he
    rcases he with rfl | rfl | rfl <;> rfl

theorem groups_asc (m : Man) (d : Defaults) (g : File → Val) : ((groups m d g).map Prod.fst).Pairwise (· < ·) := by
  show List.Pairwise (· < ·) [backupSec, backupTargetSec, dbSec, fileSec, fileDefaultSec, linkSec, linkDefaultSec, pathSec, pathDefaultSec]
  decide

/-- All values. -/
def allValues (m : Man) (d : Defaults) (g : File → Val) : List Entry := (groups m d g).flatMap Prod.snd

theorem call_eq (m : Man) (d : Defaults) {g : File → Val} (hg : ∀ f ∈ sortBy (·.name) m.files, IsList f (g f)) (last next : Option Str) :
    callback last next (sections m d) = .ok (((groups m d g).filter fun x => saveSection last x.1 next).flatMap Prod.snd) := by
  rw [sections_eq m d hg, callback_eq next _ last (groups_asc m d g) (groups_sec m d g)]

/-- The section `backrest` comes first, the section `cipher` comes after four sections. -/
theorem calls (m : Man) (d : Defaults) (g : File → Val) :
    ((groups m d g).filter fun x => saveSection none x.1 (some backrestZ)) = [] ∧
    ((groups m d g).filter fun x => saveSection (some backrestZ) x.1 none) = groups m d g ∧
    ((groups m d g).filter fun x => saveSection none x.1 none) = groups m d g ∧
    ((groups m d g).filter fun x => saveSection (some backrestZ) x.1 (some cipherZ)) ++
      ((groups m d g).filter fun x => saveSection (some cipherZ) x.1 none) = groups m d g := by
  have b : ∀ s ∈ [backupSec, backupTargetSec, dbSec, fileSec, fileDefaultSec, linkSec, linkDefaultSec, pathSec, pathDefaultSec],
      saveSection none s (some backrestZ) = false ∧ saveSection (some backrestZ) s none = true ∧ saveSection none s none = true := by decide
  have hk : ∀ x ∈ groups m d g, x.1 ∈ [backupSec, backupTargetSec, dbSec, fileSec, fileDefaultSec, linkSec, linkDefaultSec, pathSec,
      pathDefaultSec] := fun x hx => by
    have : x.1 ∈ (groups m d g).map Prod.fst := List.mem_map_of_mem hx
    exact this
  refine ⟨?_, ?_, ?_, ?_⟩
  · rw [List.filter_eq_nil_iff]
    intro x hx
    simp [(b _ (hk x hx)).1]
  · rw [List.filter_eq_self]
    intro x hx
    exact (b _ (hk x hx)).2.1
  · rw [List.filter_eq_self]
    intro x hx
    exact (b _ (hk x hx)).2.2
  · unfold groups
    simp only [List.filter_cons, List.filter_nil,
      show saveSection (some backrestZ) backupSec (some cipherZ) = true by decide,
      show saveSection (some backrestZ) backupTargetSec (some cipherZ) = true by decide,
      show saveSection (some backrestZ) dbSec (some cipherZ) = false by decide,
      show saveSection (some backrestZ) fileSec (some cipherZ) = false by decide,
      show saveSection (some backrestZ) fileDefaultSec (some cipherZ) = false by decide,
      show saveSection (some backrestZ) linkSec (some cipherZ) = false by decide,
      show saveSection (some backrestZ) linkDefaultSec (some cipherZ) = false by decide,
      show saveSection (some backrestZ) pathSec (some cipherZ) = false by decide,
      show saveSection (some backrestZ) pathDefaultSec (some cipherZ) = false by decide,
      show saveSection (some cipherZ) backupSec none = false by decide,
      show saveSection (some cipherZ) backupTargetSec none = false by decide,
      show saveSection (some cipherZ) dbSec none = true by decide,
      show saveSection (some cipherZ) fileSec none = true by decide,
      show saveSection (some cipherZ) fileDefaultSec none = true by decide,
      show saveSection (some cipherZ) linkSec none = true by decide,
      show saveSection (some cipherZ) linkDefaultSec none = true by decide,
      show saveSection (some cipherZ) pathSec none = true by decide,
      show saveSection (some cipherZ) pathDefaultSec none = true by decide,
      Bool.false_eq_true, if_true, if_false, List.cons_append, List.nil_append]

/-! ## Lines that can be read -/

theorem plainKeys : ∀ k ∈ fileKeys ++ targetKeys ++ dbKeys ++ linkKeys ++ pathKeys, PlainKey k := by decide

theorem clean_opt : ∀ {l : List (Bool × Str × Val)}, (∀ k ∈ keysOf l, PlainKey k) → (∀ x ∈ l, x.1 = true → Fine x.2.2) →
    CleanFields (optFields l)
  | [], _, _ => trivial
  | (c, k, v) :: l, hk, h => by
    have ih := clean_opt (l := l) (fun x hx => hk x (List.mem_cons_of_mem _ hx)) fun x hx => h x (List.mem_cons_of_mem _ hx)
    cases c with
    | false => exact ih
    | true => exact ⟨fun hz => absurd ((hk k (by simp [keysOf])).2 0 hz) (by decide), (h (true, k, v) (by simp) rfl).clean, ih⟩

theorem objEntry_writable {buffer : Nat} {sec name : Str} {l : List (Bool × Str × Val)} (ho : Ordered (keysOf l))
    (hk : ∀ k ∈ keysOf l, PlainKey k) (h : ∀ x ∈ l, x.1 = true → Fine x.2.2) (hf : FitFields (optFields l)) (hn : Name name)
    (hs : sec ≠ [] ∧ 10 ∉ sec ∧ sec.length + 2 < buffer) (hs2 : sec ≠ backrestZ ∧ sec ≠ cipherZ)
    (hb : (objEntry sec name l).line.length < buffer) : Writable buffer (objEntry sec name l) where
  sec := hs
  other := hs2
  key := ⟨hn.1, hn.2.2.1, hn.2.1⟩
  fits := hb
  zero := text_clean _ (clean_opt hk h)
  val := by
    refine ⟨.obj (optFields l), ?_, by simp, fromVar_fit ⟨hf, opt_asc ho.1⟩, .inl hn.2.2.2⟩
    refine good_obj ?_ ?_ ?_
    · exact (opt_asc ho.1).imp fun h e => by subst e; exact Str.lt_irrefl _ h
    · intro x hx
      exact hk _ (opt_key hx)
    · intro x hx
      exact (h _ (opt_mem hx) rfl).good

theorem valEntry_writable {buffer : Nat} {sec name : Str} {v : Val} (h : Fine v) (ha : ∀ l, v ≠ .arr l) (hn : Name name)
    (hs : sec ≠ [] ∧ 10 ∉ sec ∧ sec.length + 2 < buffer) (hs2 : sec ≠ backrestZ ∧ sec ≠ cipherZ)
    (hb : (valEntry sec name v).line.length < buffer) : Writable buffer (valEntry sec name v) where
  sec := hs
  other := hs2
  key := ⟨hn.1, hn.2.2.1, hn.2.1⟩
  fits := hb
  zero := text_clean _ h.clean
  val := ⟨v, h.good, ha, fromVar_fit h.fit, .inl hn.2.2.2⟩

end Verif.Manifest
