import Verif.Restore.RemapModel
import Verif.Manifest.LinkProps

/-! # C49: every entry of the maps is used for what it names, or the restore fails -/

namespace Verif.Restore.Remap

open Verif Verif.Manifest

/-! ## Specification -/

/-- The option has this entry. -/
def Entry (map : Option (List (Str × Str))) (k p : Str) : Prop := ∃ l, map = some l ∧ (k, p) ∈ l

/-- No key is twice in an option. -/
def Distinct (map : Option (List (Str × Str))) : Prop := ∀ l, map = some l → (l.map (·.1)).Nodup

/-- What a manifest is like: the data directory is the only target that is not a link; tablespaces are in `pg_tblspc` and their links in
`pg_data/pg_tblspc`; each other link in `pg_data` has a target of the same name. Names are there only once. -/
structure Wf (m : M) : Prop where
  names : (m.targets.map (·.name)).Nodup
  base : ∃ t ∈ m.targets, t.name = pgdataZ
  data : ∀ t ∈ m.targets, t.name = pgdataZ → t.link = false ∧ t.file = none ∧ t.tablespaceId = 0
  path : ∃ p ∈ m.paths, p.name = pgdataZ
  only : ∀ t ∈ m.targets, t.link = false → t.name = pgdataZ
  ts : ∀ t ∈ m.targets, t.tablespaceId ≠ 0 → t.file = none ∧ t.tablespaceName.isSome = true ∧ (∃ l ∈ m.links, l.name = inData t.name) ∧
    inData t.name ∉ m.files ∧ (∀ p ∈ m.paths, p.name ≠ inData t.name) ∧ (∀ s ∈ m.targets, s.name ≠ inData t.name) ∧ ∀ k, t.name ≠ inData k
  link : ∀ t ∈ m.targets, t.link = true → t.tablespaceId = 0 → (∃ k, t.name = inData k) ∧ ∃ l ∈ m.links, l.name = t.name
  target : ∀ l ∈ m.links, (∃ t ∈ m.targets, t.link = true ∧ t.tablespaceId = 0 ∧ t.name = l.name) ∨
    ∃ t ∈ m.targets, t.tablespaceId ≠ 0 ∧ l.name = inData t.name
  files : ∀ p ∈ m.paths, p.name ∉ m.files

/-- Where a tablespace goes: the path from the entry with its name or its id, else below the path for all tablespaces, else where it was. -/
def Goes (o : Opt) (t : Target) (was p : Str) : Prop :=
  (∃ n, t.tablespaceName = some n ∧ Entry o.tsMap n p) ∨ Entry o.tsMap (Num.uintToZ t.tablespaceId.toNat) p ∨
  ((∀ n, t.tablespaceName = some n → ¬ ∃ q, Entry o.tsMap n q) ∧ (¬ ∃ q, Entry o.tsMap (Num.uintToZ t.tablespaceId.toNat) q) ∧
    ((∃ all n, o.tsAll = some all ∧ t.tablespaceName = some n ∧ p = all ++ 47 :: n) ∨ (o.tsAll = none ∧ p = was)))

/-- A destination for a directory is the path. For a file it is a path, a slash and the name. -/
def Dest (isFile : Prop) (destination path : Str) (file : Option Str) : Prop :=
  (¬ isFile ∧ path = destination ∧ file = none) ∨
  (isFile ∧ ∃ f, file = some f ∧ 47 ∉ f ∧ ((path = [47] ∧ destination = 47 :: f) ∨ (path ≠ [] ∧ destination = path ++ 47 :: f)))

/-- The targets after the restore has applied the options. -/
inductive WantT (o : Opt) (m : M) : Target → Prop where
  | data {t} : t ∈ m.targets → t.name = pgdataZ → WantT o m { t with path := o.pgPath }
  | ts {t p} : t ∈ m.targets → t.tablespaceId ≠ 0 → Goes o t t.path p → WantT o m { t with path := p }
  | mapped {t k d p f} : t ∈ m.targets → t.link = true → t.tablespaceId = 0 → t.name = inData k → Entry o.linkMap k d →
      Dest (t.file ≠ none) d p f → WantT o m { t with path := p, file := f }
  | kept {t k} : t ∈ m.targets → t.link = true → t.tablespaceId = 0 → t.name = inData k → (¬ ∃ d, Entry o.linkMap k d) → o.linkAll = true →
      WantT o m t
  | created {k d p f} : Entry o.linkMap k d → (∀ t ∈ m.targets, t.name ≠ inData k) → Dest (inData k ∈ m.files) d p f →
      WantT o m ⟨inData k, true, p, f, 0, none⟩

/-- The links after the restore has applied the options. -/
inductive WantL (o : Opt) (m : M) : Link → Prop where
  | ts {l t p} : l ∈ m.links → t ∈ m.targets → t.tablespaceId ≠ 0 → l.name = inData t.name → Goes o t l.destination p →
      WantL o m { l with destination := p }
  | mapped {l t k d} : l ∈ m.links → t ∈ m.targets → l.name = t.name → t.name = inData k → Entry o.linkMap k d →
      WantL o m { l with destination := d }
  | kept {l t k} : l ∈ m.links → t ∈ m.targets → t.name = inData k → l.name = t.name → (¬ ∃ d, Entry o.linkMap k d) → o.linkAll = true →
      WantL o m l
  | created {k d b} : Entry o.linkMap k d → (∀ t ∈ m.targets, t.name ≠ inData k) → m.paths.find? (·.name == pgdataZ) = some b →
      WantL o m ⟨inData k, d, b.user, b.group⟩

/-- The tablespace map can be used. -/
structure TsValid (o : Opt) (m : M) : Prop where
  agree : ∀ t ∈ m.targets, t.tablespaceId ≠ 0 → ∀ n p q, t.tablespaceName = some n → Entry o.tsMap n p →
    Entry o.tsMap (Num.uintToZ t.tablespaceId.toNat) q → p = q
  used : ∀ k p, Entry o.tsMap k p → ∃ t ∈ m.targets, t.tablespaceId ≠ 0 ∧ (t.tablespaceName = some k ∨ k = Num.uintToZ t.tablespaceId.toNat)

/-- The link map can be used. -/
def LinkValid (o : Opt) (m : M) : Prop :=
  ∀ k d, Entry o.linkMap k d →
    ((∃ t ∈ m.targets, t.name = inData k) ∨ inData k ∈ m.files ∨ ∃ p ∈ m.paths, p.name = inData k) ∧
    ((∃ t ∈ m.targets, t.name = inData k ∧ t.file ≠ none) ∨ ((∀ t ∈ m.targets, t.name ≠ inData k) ∧ inData k ∈ m.files) → 47 ∈ d)

/-! ## Maps -/

theorem inData_inj {a b : Str} : inData a = inData b ↔ a = b := by
  unfold inData
  constructor
  · intro h
    exact (List.cons.inj (List.append_cancel_left h)).2
  · rintro rfl
    rfl

theorem inData_ne (k : Str) : inData k ≠ pgdataZ := by
  intro h
  have := congrArg List.length h
  simp [inData] at this

theorem kvGet_iff {l : List (Str × Str)} (h : (l.map (·.1)).Nodup) (k p : Str) : kvGet l k = some p ↔ (k, p) ∈ l := by
  induction l with
  | nil => simp [kvGet]
  | cons e l ih =>
    rw [List.map_cons, List.nodup_cons] at h
    have ih := ih h.2
    unfold kvGet at ih ⊢
    by_cases hk : e.1 = k
    · rw [List.find?_cons_of_pos (by simp [hk])]
      simp only [Option.map_some, Option.some.injEq]
      constructor
      · rintro rfl
        rw [← hk]
        exact .head _
      · intro hm
        rcases List.mem_cons.1 hm with he | hm
        · rw [← he]
        · exact absurd (List.mem_map.2 ⟨_, hm, rfl⟩) (hk ▸ h.1)
    · rw [List.find?_cons_of_neg (by simpa using hk), ih]
      constructor
      · exact .tail _
      · intro hm
        rcases List.mem_cons.1 hm with he | hm
        · exact absurd (by rw [← he]) hk
        · exact hm

theorem kvGet_none {l : List (Str × Str)} (h : (l.map (·.1)).Nodup) (k : Str) : kvGet l k = none ↔ ¬ ∃ p, (k, p) ∈ l := by
  constructor
  · rintro hn ⟨p, hp⟩
    rw [(kvGet_iff h k p).2 hp] at hn
    cases hn
  · intro hn
    cases hg : kvGet l k with
    | none => rfl
    | some p => exact absurd ⟨p, (kvGet_iff h k p).1 hg⟩ hn

theorem kvGet_mem {l : List (Str × Str)} {k : Str} (h : k ∈ l.map (·.1)) : ∃ p, kvGet l k = some p := by
  unfold kvGet
  cases hf : l.find? (·.1 == k) with
  | some e => exact ⟨_, rfl⟩
  | none =>
    obtain ⟨e, he, rfl⟩ := List.mem_map.1 h
    have := List.find?_eq_none.1 hf e he
    simp at this

/-! ## Well-formed manifests stay so -/

theorem Wf.map {m : M} (h : Wf m) (F : Target → Target) (G : Link → Link)
    (hF : ∀ t ∈ m.targets, (F t).name = t.name ∧ (F t).link = t.link ∧ (F t).tablespaceId = t.tablespaceId ∧
      (F t).tablespaceName = t.tablespaceName ∧ ((t.link = false ∨ t.tablespaceId ≠ 0) → t.file = none → (F t).file = none))
    (hG : ∀ l, (G l).name = l.name) : Wf { m with targets := m.targets.map F, links := m.links.map G } where
  names := by
    have : (m.targets.map F).map (·.name) = m.targets.map (·.name) := by
      rw [List.map_map]
      exact List.map_congr_left fun t ht => (hF t ht).1
    rw [this]
    exact h.names
  base := by
    obtain ⟨t, ht, hn⟩ := h.base
    exact ⟨F t, List.mem_map.2 ⟨t, ht, rfl⟩, (hF t ht).1.trans hn⟩
  data := by
    intro t ht hn
    obtain ⟨s, hs, rfl⟩ := List.mem_map.1 ht
    obtain ⟨h1, h2, h3, _, h5⟩ := hF s hs
    obtain ⟨h6, h7, h8⟩ := h.data s hs (h1.symm.trans hn)
    exact ⟨h2.trans h6, h5 (.inl h6) h7, h3.trans h8⟩
  path := h.path
  only := by
    intro t ht hn
    obtain ⟨s, hs, rfl⟩ := List.mem_map.1 ht
    obtain ⟨h1, h2, _⟩ := hF s hs
    exact h1.trans (h.only s hs (h2.symm.trans hn))
  ts := by
    intro t ht hn
    obtain ⟨s, hs, rfl⟩ := List.mem_map.1 ht
    obtain ⟨h1, h2, h3, h4, h5⟩ := hF s hs
    rw [h3] at hn
    obtain ⟨g1, g2, ⟨l, hl, g3⟩, g4, g5, g6, g7⟩ := h.ts s hs hn
    refine ⟨h5 (.inr hn) g1, by rw [h4]; exact g2, ⟨G l, List.mem_map.2 ⟨l, hl, rfl⟩, by rw [hG, h1, g3]⟩, by rw [h1]; exact g4,
      by rw [h1]; exact g5, ?_, by rw [h1]; exact g7⟩
    intro r hr
    obtain ⟨q, hq, rfl⟩ := List.mem_map.1 hr
    rw [(hF q hq).1, h1]
    exact g6 q hq
  link := by
    intro t ht h0 hn
    obtain ⟨s, hs, rfl⟩ := List.mem_map.1 ht
    obtain ⟨h1, h2, h3, h4, h5⟩ := hF s hs
    rw [h2] at h0
    rw [h3] at hn
    obtain ⟨⟨k, hk⟩, l, hl, hl2⟩ := h.link s hs h0 hn
    exact ⟨⟨k, h1.trans hk⟩, G l, List.mem_map.2 ⟨l, hl, rfl⟩, by rw [hG, h1, hl2]⟩
  target := by
    intro l hl
    obtain ⟨l', hl', rfl⟩ := List.mem_map.1 hl
    rw [hG]
    rcases h.target l' hl' with ⟨t, ht, h1, h2, h3⟩ | ⟨t, ht, h2, h3⟩
    · exact .inl ⟨F t, List.mem_map.2 ⟨t, ht, rfl⟩, (hF t ht).2.1.trans h1, (hF t ht).2.2.1.trans h2, (hF t ht).1.trans h3⟩
    · exact .inr ⟨F t, List.mem_map.2 ⟨t, ht, rfl⟩, by rw [(hF t ht).2.2.1]; exact h2, by rw [(hF t ht).1]; exact h3⟩
  files := h.files

theorem find_name {ts : List Target} (h : (ts.map (·.name)).Nodup) {t : Target} (ht : t ∈ ts) : ts.find? (·.name == t.name) = some t := by
  induction ts with
  | nil => cases ht
  | cons s ts ih =>
    rw [List.map_cons, List.nodup_cons] at h
    by_cases hs : s.name = t.name
    · rw [List.find?_cons_of_pos (by simp [hs])]
      rcases List.mem_cons.1 ht with rfl | ht
      · rfl
      · exact absurd (List.mem_map.2 ⟨t, ht, rfl⟩) (hs ▸ h.1)
    · rw [List.find?_cons_of_neg (by simpa using hs)]
      rcases List.mem_cons.1 ht with rfl | ht
      · exact absurd rfl hs
      · exact ih h.2 ht

theorem same_name {ts : List Target} (h : (ts.map (·.name)).Nodup) {s t : Target} (hs : s ∈ ts) (ht : t ∈ ts) (hn : s.name = t.name) : s = t := by
  have h1 := find_name h hs
  have h2 := find_name h ht
  rw [hn, h2] at h1
  exact (Option.some.inj h1).symm

/-! ## The data directory -/

theorem mapBase_eq {o : Opt} {m : M} (h : Wf m) :
    mapBase o m = .ok { m with targets := m.targets.map fun t => if t.name = pgdataZ then { t with path := o.pgPath } else t } := by
  obtain ⟨t, ht, hn⟩ := h.base
  unfold mapBase
  have hf := find_name h.names ht
  rw [hn] at hf
  rw [hf]
  simp only []
  have hfile := (h.data t ht hn).2.1
  split
  · unfold targetUpdate
    rw [if_pos (by simp only [List.any_eq_true, beq_iff_eq]; exact ⟨t, ht, rfl⟩)]
    congr 2
    refine List.map_congr_left fun s hs => ?_
    rw [hn]
    split
    · rename_i h1
      rw [← (h.data s hs h1).2.1]
    · rfl
  · rename_i hp
    simp only [ne_eq, Decidable.not_not] at hp
    congr 1
    have : m.targets = m.targets.map fun t => if t.name = pgdataZ then { t with path := o.pgPath } else t := by
      conv => lhs; rw [← List.map_id m.targets]
      refine List.map_congr_left fun s hs => ?_
      split
      · rename_i h1
        have := same_name h.names hs ht (h1.trans hn.symm)
        subst this
        rw [← hp]
        rfl
      · rfl
    rw [← this]

/-! ## Tablespaces -/

/-- What the loop does for a tablespace, if anything. -/
def tsAct (o : Opt) (s : Target) : Option Str := if s.tablespaceId ≠ 0 then (tsPath o s).toOption.join else none

def upT (o : Opt) (ts : List Target) (t : Target) : Target :=
  match ts.find? fun s => s.name == t.name && (tsAct o s).isSome with
  | none => t
  | some s => { t with path := (tsAct o s).getD [], file := none }

def upL (o : Opt) (ts : List Target) (l : Link) : Link :=
  match ts.find? fun s => inData s.name == l.name && (tsAct o s).isSome with
  | none => l
  | some s => { l with destination := (tsAct o s).getD [] }

theorem tsLoop_eq {o : Opt} : ∀ {ts : List Target} {m m' : M}, (ts.map (·.name)).Nodup → tsLoop o m ts = .ok m' →
    m' = { m with targets := m.targets.map (upT o ts), links := m.links.map (upL o ts) } ∧
      ∀ s ∈ ts, s.tablespaceId ≠ 0 → ∃ r, tsPath o s = .ok r
  | [], m, m', _, h => by
    cases h
    refine ⟨?_, by simp⟩
    have h1 : m.targets.map (upT o []) = m.targets := by
      conv => rhs; rw [← List.map_id m.targets]
      rfl
    have h2 : m.links.map (upL o []) = m.links := by
      conv => rhs; rw [← List.map_id m.links]
      rfl
    rw [h1, h2]
  | s :: ts, m, m', hn, h => by
    rw [List.map_cons, List.nodup_cons] at hn
    rw [tsLoop] at h
    split at h
    · cases h
    · rename_i m1 h1
      obtain ⟨h2, h3⟩ := tsLoop_eq hn.2 h
      have hskip : tsAct o s = none → m1 = m → m' = { m with targets := m.targets.map (upT o (s :: ts)), links := m.links.map (upL o (s :: ts)) } := by
        intro ha hm
        subst hm
        rw [h2]
        congr 1
        · refine List.map_congr_left fun t _ => ?_
          unfold upT
          rw [List.find?_cons_of_neg (by simp [ha])]
        · refine List.map_congr_left fun t _ => ?_
          unfold upL
          rw [List.find?_cons_of_neg (by simp [ha])]
      unfold tsOne at h1
      split at h1
      · rename_i hid
        split at h1
        · cases h1
        · rename_i hp
          cases h1
          refine ⟨hskip (by simp [tsAct, hid, hp, Except.toOption]) rfl, ?_⟩
          intro x hx hx2
          rcases List.mem_cons.1 hx with rfl | hx
          · exact ⟨_, hp⟩
          · exact h3 x hx hx2
        · rename_i p hp
          have ha : tsAct o s = some p := by simp [tsAct, hid, hp, Except.toOption]
          split at h1
          · cases h1
          · rename_i m0 h4
            unfold targetUpdate at h4
            split at h4
            · cases h4
              unfold linkUpdate at h1
              dsimp only at h1
              split at h1
              · cases h1
                refine ⟨?_, ?_⟩
                · rw [h2]
                  dsimp only
                  rw [List.map_map, List.map_map]
                  congr 1
                  · refine List.map_congr_left fun t _ => ?_
                    by_cases hst : s.name = t.name
                    · have h5 : ts.find? (fun r => r.name == t.name && (tsAct o r).isSome) = none := by
                        rw [List.find?_eq_none]
                        intro r hr hc
                        simp only [Bool.and_eq_true, beq_iff_eq] at hc
                        exact hn.1 (List.mem_map.2 ⟨r, hr, hc.1.trans hst.symm⟩)
                      show upT o ts (if t.name = s.name then { t with path := p, file := none } else t) = upT o (s :: ts) t
                      rw [if_pos hst.symm]
                      unfold upT
                      dsimp only
                      rw [h5, List.find?_cons_of_pos (by simp [hst, ha])]
                      simp [ha]
                    · show upT o ts (if t.name = s.name then { t with path := p, file := none } else t) = upT o (s :: ts) t
                      rw [if_neg fun h => hst h.symm]
                      unfold upT
                      rw [List.find?_cons_of_neg (by simp [hst])]
                  · refine List.map_congr_left fun t _ => ?_
                    by_cases hst : inData s.name = t.name
                    · have h5 : ts.find? (fun r => inData r.name == t.name && (tsAct o r).isSome) = none := by
                        rw [List.find?_eq_none]
                        intro r hr hc
                        simp only [Bool.and_eq_true, beq_iff_eq] at hc
                        exact hn.1 (List.mem_map.2 ⟨r, hr, inData_inj.1 (hc.1.trans hst.symm)⟩)
                      show upL o ts (if t.name = inData s.name then { t with destination := p } else t) = upL o (s :: ts) t
                      rw [if_pos hst.symm]
                      unfold upL
                      dsimp only
                      rw [h5, List.find?_cons_of_pos (by simp [hst, ha])]
                      simp [ha]
                    · show upL o ts (if t.name = inData s.name then { t with destination := p } else t) = upL o (s :: ts) t
                      rw [if_neg fun h => hst h.symm]
                      unfold upL
                      rw [List.find?_cons_of_neg (by simp [hst])]
                · intro x hx hx2
                  rcases List.mem_cons.1 hx with rfl | hx
                  · exact ⟨_, hp⟩
                  · exact h3 x hx hx2
              · cases h1
            · cases h4
      · rename_i hid
        cases h1
        refine ⟨hskip (by simp [tsAct, hid]) rfl, ?_⟩
        intro x hx hx2
        rcases List.mem_cons.1 hx with rfl | hx
        · exact absurd hx2 hid
        · exact h3 x hx hx2

theorem tsLoop_ok {o : Opt} : ∀ {ts : List Target} {m : M},
    (∀ s ∈ ts, s.tablespaceId ≠ 0 → (∃ t ∈ m.targets, t.name = s.name) ∧ ∃ l ∈ m.links, l.name = inData s.name) →
    (∃ m', tsLoop o m ts = .ok m') ∨ ∃ s ∈ ts, s.tablespaceId ≠ 0 ∧ ∃ e, tsPath o s = .error e ∧ tsLoop o m ts = .error e
  | [], m, _ => .inl ⟨m, rfl⟩
  | s :: ts, m, h => by
    rw [tsLoop]
    unfold tsOne
    by_cases hid : s.tablespaceId ≠ 0
    · rw [if_pos hid]
      cases hp : tsPath o s with
      | error e =>
        refine .inr ⟨s, .head _, hid, e, hp, ?_⟩
        rfl
      | ok r =>
        cases r with
        | none =>
          simp only []
          rcases tsLoop_ok (ts := ts) (m := m) (fun x hx => h x (.tail _ hx)) with h1 | ⟨x, hx, hx2⟩
          · exact .inl h1
          · exact .inr ⟨x, .tail _ hx, hx2⟩
        | some p =>
          obtain ⟨⟨t, ht, htn⟩, l, hl, hln⟩ := h s (.head _) hid
          simp only []
          unfold targetUpdate
          rw [if_pos (by simp only [List.any_eq_true, beq_iff_eq]; exact ⟨t, ht, htn⟩)]
          simp only []
          unfold linkUpdate
          rw [if_pos (by simp only [List.any_eq_true, beq_iff_eq]; exact ⟨l, hl, hln⟩)]
          simp only []
          have := tsLoop_ok (o := o) (ts := ts) (m := ⟨m.targets.map (fun t => if t.name = s.name then { t with path := p, file := none } else t),
            m.links.map (fun l => if l.name = inData s.name then { l with destination := p } else l), m.paths, m.files⟩) (by
              intro x hx hx2
              obtain ⟨⟨a, ha, han⟩, b, hb, hbn⟩ := h x (.tail _ hx) hx2
              refine ⟨⟨_, List.mem_map.2 ⟨a, ha, rfl⟩, ?_⟩, _, List.mem_map.2 ⟨b, hb, rfl⟩, ?_⟩
              · split <;> exact han
              · split <;> exact hbn)
          rcases this with h1 | ⟨x, hx, hx2⟩
          · exact .inl h1
          · exact .inr ⟨x, .tail _ hx, hx2⟩
    · rw [if_neg hid]
      simp only []
      rcases tsLoop_ok (ts := ts) (m := m) (fun x hx => h x (.tail _ hx)) with h1 | ⟨x, hx, hx2⟩
      · exact .inl h1
      · exact .inr ⟨x, .tail _ hx, hx2⟩

/-- What the entries say. -/
theorem tsPath_spec {o : Opt} (ho : Distinct o.tsMap) {t : Target} (hn : t.tablespaceName.isSome = true) :
    (tsPath o t = .error .tablespaceMap ∧ ∃ n, t.tablespaceName = some n ∧ ∃ p q, Entry o.tsMap n p ∧
      Entry o.tsMap (Num.uintToZ t.tablespaceId.toNat) q ∧ p ≠ q) ∨
    ((∀ n, t.tablespaceName = some n → ∀ p q, Entry o.tsMap n p → Entry o.tsMap (Num.uintToZ t.tablespaceId.toNat) q → p = q) ∧
      ∃ r, tsPath o t = .ok r ∧ ∀ was p, Goes o t was p ↔ p = r.getD was) := by
  obtain ⟨n, hn⟩ := Option.isSome_iff_exists.1 hn
  have key : ∀ k p, Entry o.tsMap k p ↔ (o.tsMap.bind fun l => kvGet l k) = some p := by
    intro k p
    cases hm : o.tsMap with
    | none => simp [Entry]
    | some l =>
      simp only [Option.bind_some]
      rw [kvGet_iff (ho l hm)]
      simp [Entry]
  have hentry : tsEntry o t = match (o.tsMap.bind fun l => kvGet l n), (o.tsMap.bind fun l => kvGet l (Num.uintToZ t.tablespaceId.toNat)) with
      | some p, some q => if p ≠ q then .error .tablespaceMap else .ok (some p)
      | some p, none => .ok (some p)
      | none, q => .ok q := by
    unfold tsEntry byName byId
    rw [hn]
    cases o.tsMap <;> rfl
  unfold Goes
  simp only [key, hn, Option.some.injEq, exists_eq_left', forall_eq']
  unfold tsPath
  rw [hentry, hn]
  generalize (o.tsMap.bind fun l => kvGet l n) = a
  generalize (o.tsMap.bind fun l => kvGet l (Num.uintToZ t.tablespaceId.toNat)) = b
  cases a with
  | some p =>
    cases b with
    | some q =>
      by_cases hpq : p = q
      · subst hpq
        right
        simp [eq_comm]
      · left
        simp [hpq]
    | none =>
      right
      simp [eq_comm]
  | none =>
    cases b with
    | some q =>
      right
      simp [eq_comm]
    | none =>
      right
      cases o.tsAll with
      | none => simp
      | some all => simp

/-! ## Destinations -/

/-- A path with a slash is what is before the last slash and a name. -/
theorem split_last {d : Str} (h : 47 ∈ d) : ∃ a f, d = a ++ 47 :: f ∧ 47 ∉ f := by
  induction d with
  | nil => cases h
  | cons c d ih =>
    by_cases hd : 47 ∈ d
    · obtain ⟨a, f, h1, h2⟩ := ih hd
      exact ⟨c :: a, f, by rw [h1]; rfl, h2⟩
    · rcases List.mem_cons.1 h with rfl | h
      · exact ⟨[], d, rfl, hd⟩
      · exact absurd h hd

theorem takeWhile_all {f : Str} (h : 47 ∉ f) (rest : Str) : (f ++ 47 :: rest).takeWhile (· ≠ 47) = f ∧
    (f ++ 47 :: rest).dropWhile (· ≠ 47) = 47 :: rest := by
  have hall : ∀ x ∈ f, decide (x ≠ 47) = true := by
    intro x hx
    simp only [ne_eq, decide_not, Bool.not_eq_eq_eq_not, Bool.not_true, decide_eq_false_iff_not]
    rintro rfl
    exact h hx
  constructor
  · rw [List.takeWhile_append_of_pos hall]
    simp
  · rw [List.dropWhile_append_of_pos hall]
    simp

theorem strBase_eq {a f : Str} (h : 47 ∉ f) : strBase (a ++ 47 :: f) = f := by
  unfold strBase
  rw [List.reverse_append, List.reverse_cons, List.append_assoc]
  rw [show [(47 : UInt8)] ++ a.reverse = 47 :: a.reverse from rfl, (takeWhile_all (by simpa using h) _).1, List.reverse_reverse]

theorem strPath_eq {a f : Str} (h : 47 ∉ f) : strPath (a ++ 47 :: f) = if a = [] then [47] else a := by
  unfold strPath
  rw [List.reverse_append, List.reverse_cons, List.append_assoc]
  rw [show [(47 : UInt8)] ++ a.reverse = 47 :: a.reverse from rfl, (takeWhile_all (by simpa using h) _).2]
  simp only [List.reverse_cons, List.reverse_reverse]
  cases a with
  | nil => rfl
  | cons c a =>
    rw [if_neg (by simp), if_neg (by simp), List.dropLast_concat]

theorem strPath_nil (d : Str) : strPath d = [] ↔ 47 ∉ d := by
  constructor
  · intro h hm
    obtain ⟨a, f, rfl, hf⟩ := split_last hm
    rw [strPath_eq hf] at h
    split at h
    · cases h
    · rename_i h1
      exact h1 h
  · intro h
    have hall : ∀ x ∈ d.reverse, decide (x ≠ 47) = true := by
      intro x hx
      simp only [ne_eq, decide_not, Bool.not_eq_eq_eq_not, Bool.not_true, decide_eq_false_iff_not]
      rintro rfl
      exact h (List.mem_reverse.1 hx)
    unfold strPath
    have h1 := List.dropWhile_append_of_pos (l₂ := []) hall
    rw [List.append_nil] at h1
    rw [h1]
    rfl

theorem splitFile_spec {t : Target} :
    (splitFile t = .error .linkMap ∧ t.file ≠ none ∧ 47 ∉ t.path) ∨
    ((t.file ≠ none → 47 ∈ t.path) ∧ ∃ p f, splitFile t = .ok { t with path := p, file := f } ∧
      ∀ a b, Dest (t.file ≠ none) t.path a b ↔ a = p ∧ b = f) := by
  unfold splitFile
  cases hf : t.file with
  | none =>
    right
    refine ⟨by simp, t.path, none, ?_, ?_⟩
    · simp only []
      rw [← hf]
    · intro a b
      simp [Dest]
  | some x =>
    simp only []
    split
    · rename_i hp
      exact .inl ⟨rfl, by simp, (strPath_nil _).1 hp⟩
    · rename_i hp
      right
      have hm : 47 ∈ t.path := by
        apply Classical.byContradiction
        intro hc
        exact hp ((strPath_nil _).2 hc)
      refine ⟨fun _ => hm, _, _, rfl, ?_⟩
      obtain ⟨a0, f0, h1, h2⟩ := split_last hm
      intro a b
      unfold Dest
      rw [h1, strPath_eq h2, strBase_eq h2]
      simp only [ne_eq, reduceCtorEq, not_false_eq_true, not_true_eq_false, false_and, true_and, false_or]
      constructor
      · rintro ⟨f, rfl, hf2, ⟨rfl, h3⟩ | ⟨h3, h4⟩⟩
        · have h5 := strBase_eq (a := []) hf2
          have h6 := strPath_eq (a := []) hf2
          rw [List.nil_append, ← h3] at h5 h6
          rw [strBase_eq h2] at h5
          rw [strPath_eq h2] at h6
          rw [h6, h5]
          simp
        · have h5 := strBase_eq (a := a) hf2
          have h6 := strPath_eq (a := a) hf2
          rw [← h4] at h5 h6
          rw [strBase_eq h2] at h5
          rw [strPath_eq h2] at h6
          rw [h6, h5, if_neg h3]
          simp
      · rintro ⟨rfl, rfl⟩
        refine ⟨f0, rfl, h2, ?_⟩
        split
        · rename_i h3
          left
          rw [h3]
          simp
        · rename_i h3
          right
          exact ⟨h3, rfl⟩

/-! ## Links of the map -/

/-- The targets that are made for an entry. -/
def MadeT (m : M) (k d : Str) (t' : Target) : Prop :=
  (∃ t ∈ m.targets, t.name = inData k ∧ ∃ p f, Dest (t.file ≠ none) d p f ∧ t' = { t with path := p, file := f }) ∨
  ((∀ t ∈ m.targets, t.name ≠ inData k) ∧ ∃ p f, Dest (inData k ∈ m.files) d p f ∧ t' = ⟨inData k, true, p, f, 0, none⟩)

/-- The links that are made for an entry. -/
def MadeL (m : M) (k d : Str) (l' : Link) : Prop :=
  ((∃ t ∈ m.targets, t.name = inData k) ∧ ∃ l ∈ m.links, l.name = inData k ∧ l' = { l with destination := d }) ∨
  ((∀ t ∈ m.targets, t.name ≠ inData k) ∧ ∃ b, m.paths.find? (·.name == pgdataZ) = some b ∧ l' = ⟨inData k, d, b.user, b.group⟩)

/-- An entry that can be used. -/
def OneValid (m : M) (k d : Str) : Prop :=
  ((∃ t ∈ m.targets, t.name = inData k) ∨ inData k ∈ m.files ∨ ∃ p ∈ m.paths, p.name = inData k) ∧
  ((∃ t ∈ m.targets, t.name = inData k ∧ t.file ≠ none) ∨ ((∀ t ∈ m.targets, t.name ≠ inData k) ∧ inData k ∈ m.files) → 47 ∈ d)

structure LinkStep (m m' : M) (k d : Str) : Prop where
  wf : Wf m'
  paths : m'.paths = m.paths
  files : m'.files = m.files
  targets : ∀ t', t' ∈ m'.targets ↔ (t' ∈ m.targets ∧ t'.name ≠ inData k) ∨ MadeT m k d t'
  links : ∀ l', l' ∈ m'.links ↔ (l' ∈ m.links ∧ l'.name ≠ inData k) ∨ MadeL m k d l'

theorem linkExisting_spec {m : M} (h : Wf m) {k d : Str} {t : Target} (ht : t ∈ m.targets) (hn : t.name = inData k) :
    (linkExisting m t d = .error .linkMap ∧ ¬ OneValid m k d) ∨
    (OneValid m k d ∧ ∃ m', linkExisting m t d = .ok m' ∧ LinkStep m m' k d) := by
  have hlink : t.link = true := by
    cases hl : t.link with
    | true => rfl
    | false => exact absurd (hn.symm.trans (h.only t ht hl)) (inData_ne k)
  have hid : t.tablespaceId = 0 := by
    apply Classical.byContradiction
    intro hc
    exact (h.ts t ht hc).2.2.2.2.2.2 k hn
  obtain ⟨_, l, hl, hln⟩ := h.link t ht hlink hid
  have huniq : ∀ s ∈ m.targets, s.name = inData k → s = t := fun s hs hsn => same_name h.names hs ht (hsn.trans hn.symm)
  have h1 : linkUpdate m t.name d =
      .ok { m with links := m.links.map fun l => if l.name = t.name then { l with destination := d } else l } := by
    unfold linkUpdate
    rw [if_pos (by simp only [List.any_eq_true, beq_iff_eq]; exact ⟨l, hl, hln⟩)]
  unfold linkExisting
  rw [if_neg (by simp [hlink]), if_neg (by simp [hid]), h1]
  simp only []
  rcases splitFile_spec (t := { t with path := d }) with ⟨h2, h3, h4⟩ | ⟨h3, p, f, h2, h4⟩
  · left
    rw [h2]
    refine ⟨rfl, fun hv => h4 (hv.2 (.inl ⟨t, ht, hn, h3⟩))⟩
  · right
    rw [h2]
    refine ⟨⟨.inl ⟨t, ht, hn⟩, ?_⟩, ?_⟩
    · rintro (⟨s, hs, hs2, hs3⟩ | ⟨hs, _⟩)
      · have := huniq s hs hs2
        subst this
        exact h3 hs3
      · exact absurd hn (hs t ht)
    simp only []
    unfold targetUpdate
    rw [if_pos (by simp only [List.any_eq_true, beq_iff_eq]; exact ⟨t, ht, rfl⟩)]
    refine ⟨_, rfl, ?_, rfl, rfl, ?_, ?_⟩
    · refine Wf.map h (fun s => if s.name = t.name then { s with path := p, file := f } else s)
        (fun l => if l.name = t.name then { l with destination := d } else l) ?_ ?_
      · intro s hs
        split
        · rename_i hst
          have := huniq s hs (hst.trans hn)
          subst this
          exact ⟨rfl, rfl, rfl, rfl, by simp [hlink, hid]⟩
        · exact ⟨rfl, rfl, rfl, rfl, fun _ h => h⟩
      · intro l
        split <;> rfl
    · intro t'
      simp only [List.mem_map]
      constructor
      · rintro ⟨s, hs, rfl⟩
        split
        · rename_i hst
          have := huniq s hs (hst.trans hn)
          subst this
          exact .inr (.inl ⟨s, hs, hn, p, f, (h4 p f).2 ⟨rfl, rfl⟩, rfl⟩)
        · rename_i hst
          exact .inl ⟨hs, hn ▸ hst⟩
      · rintro (⟨hs, hsn⟩ | ⟨s, hs, hsn, p', f', hd, rfl⟩ | ⟨hs, _⟩)
        · exact ⟨t', hs, by rw [if_neg (hn ▸ hsn)]⟩
        · have := huniq s hs hsn
          subst this
          obtain ⟨rfl, rfl⟩ := (h4 p' f').1 hd
          exact ⟨s, hs, by rw [if_pos rfl]⟩
        · exact absurd hn (hs t ht)
    · intro l'
      simp only [List.mem_map]
      constructor
      · rintro ⟨s, hs, rfl⟩
        split
        · rename_i hst
          exact .inr (.inl ⟨⟨t, ht, hn⟩, s, hs, hst.trans hn, rfl⟩)
        · rename_i hst
          exact .inl ⟨hs, hn ▸ hst⟩
      · rintro (⟨hs, hsn⟩ | ⟨_, s, hs, hsn, rfl⟩ | ⟨hs, _⟩)
        · exact ⟨l', hs, by rw [if_neg (hn ▸ hsn)]⟩
        · exact ⟨s, hs, by rw [if_pos (hsn.trans hn.symm)]⟩
        · exact absurd hn (hs t ht)

theorem linkCreate_spec {m : M} (h : Wf m) {k d : Str} (hno : ∀ t ∈ m.targets, t.name ≠ inData k) :
    (linkCreate m (inData k) d = .error .linkMap ∧ ¬ OneValid m k d) ∨
    (OneValid m k d ∧ ∃ m', linkCreate m (inData k) d = .ok m' ∧ LinkStep m m' k d) := by
  unfold linkCreate
  rw [if_neg (by
    rintro ⟨h1, h2⟩
    simp only [List.any_eq_true, beq_iff_eq] at h1
    obtain ⟨p, hp, hpn⟩ := h1
    exact h.files p hp (hpn ▸ h2))]
  split
  · rename_i hne
    left
    refine ⟨rfl, ?_⟩
    rintro ⟨⟨t, ht, htn⟩ | hf | ⟨p, hp, hpn⟩, _⟩
    · exact hno t ht htn
    · exact hne.1 hf
    · have := List.all_eq_true.1 hne.2 p hp
      simp [hpn] at this
  · rename_i hne
    have hex : inData k ∈ m.files ∨ ∃ p ∈ m.paths, p.name = inData k := by
      by_cases hf : inData k ∈ m.files
      · exact .inl hf
      · right
        apply Classical.byContradiction
        intro hc
        refine hne ⟨hf, ?_⟩
        rw [List.all_eq_true]
        intro p hp
        simp only [bne_iff_ne, ne_eq]
        exact fun hpn => hc ⟨p, hp, hpn⟩
    have hbase : ∃ b, m.paths.find? (·.name == pgdataZ) = some b := by
      obtain ⟨p, hp, hpn⟩ := h.path
      cases hfind : m.paths.find? (·.name == pgdataZ) with
      | some b => exact ⟨b, rfl⟩
      | none =>
        have := List.find?_eq_none.1 hfind p hp
        simp [hpn] at this
    obtain ⟨b, hb⟩ := hbase
    rw [hb]
    simp only []
    have hiff : (if inData k ∈ m.files then some dotZ else none) ≠ none ↔ inData k ∈ m.files := by
      split <;> simp_all
    have hnol : ∀ l ∈ m.links, l.name ≠ inData k := by
      intro l hl hln
      rcases h.target l hl with ⟨t, ht, _, _, h3⟩ | ⟨t, ht, h2, h3⟩
      · exact hno t ht (h3.trans hln)
      · obtain ⟨_, _, _, g4, g5, _⟩ := h.ts t ht h2
        rw [← h3, hln] at g4 g5
        rcases hex with hx | ⟨p, hp, hpn⟩
        · exact g4 hx
        · exact g5 p hp hpn
    rcases splitFile_spec (t := ⟨inData k, true, d, if inData k ∈ m.files then some dotZ else none, 0, none⟩) with
      ⟨h2, h3, h4⟩ | ⟨h3, p, f, h2, h4⟩
    · left
      rw [h2]
      exact ⟨rfl, fun hv => h4 (hv.2 (.inr ⟨hno, hiff.1 h3⟩))⟩
    · right
      simp only [] at h3 h4
      have h4' : ∀ a b, Dest (inData k ∈ m.files) d a b ↔ a = p ∧ b = f := by
        intro a b
        rw [← h4 a b]
        unfold Dest
        rw [hiff]
      rw [h2]
      refine ⟨⟨.inr hex, ?_⟩, _, rfl, ?_, rfl, rfl, ?_, ?_⟩
      · rintro (⟨s, hs, hs2, _⟩ | ⟨_, hs⟩)
        · exact absurd hs2 (hno s hs)
        · exact h3 (hiff.2 hs)
      · simp only [targetAdd, linkAdd]
        refine ⟨?_, ?_, ?_, h.path, ?_, ?_, ?_, ?_, h.files⟩
        · rw [List.map_append, List.nodup_append]
          refine ⟨h.names, by simp, ?_⟩
          intro a ha b hb he
          obtain ⟨t, ht, rfl⟩ := List.mem_map.1 ha
          simp only [List.map_cons, List.map_nil, List.mem_singleton] at hb
          exact hno t ht (he.trans hb)
        · obtain ⟨t, ht, hn⟩ := h.base
          exact ⟨t, List.mem_append_left _ ht, hn⟩
        · intro t ht hn
          rcases List.mem_append.1 ht with ht | ht
          · exact h.data t ht hn
          · rw [List.mem_singleton] at ht
            subst ht
            exact absurd hn (inData_ne k)
        · intro t ht hn
          rcases List.mem_append.1 ht with ht | ht
          · exact h.only t ht hn
          · rw [List.mem_singleton] at ht
            subst ht
            cases hn
        · intro t ht hn
          rcases List.mem_append.1 ht with ht | ht
          · obtain ⟨g1, g2, ⟨l, hl, g3⟩, g4, g5, g6, g7⟩ := h.ts t ht hn
            refine ⟨g1, g2, ⟨l, List.mem_append_left _ hl, g3⟩, g4, g5, ?_, g7⟩
            intro s hs
            rcases List.mem_append.1 hs with hs | hs
            · exact g6 s hs
            · rw [List.mem_singleton] at hs
              subst hs
              dsimp only
              intro he
              rw [← he] at g4 g5
              rcases hex with hx | ⟨q, hq, hqn⟩
              · exact g4 hx
              · exact g5 q hq hqn
          · rw [List.mem_singleton] at ht
            subst ht
            exact absurd rfl hn
        · intro t ht h0 hn
          rcases List.mem_append.1 ht with ht | ht
          · obtain ⟨h5, l, hl, h6⟩ := h.link t ht h0 hn
            exact ⟨h5, l, List.mem_append_left _ hl, h6⟩
          · rw [List.mem_singleton] at ht
            subst ht
            exact ⟨⟨k, rfl⟩, _, List.mem_append_right _ (.head _), rfl⟩
        · intro l hl
          rcases List.mem_append.1 hl with hl | hl
          · rcases h.target l hl with ⟨t, ht, h5⟩ | ⟨t, ht, h5⟩
            · exact .inl ⟨t, List.mem_append_left _ ht, h5⟩
            · exact .inr ⟨t, List.mem_append_left _ ht, h5⟩
          · rw [List.mem_singleton] at hl
            subst hl
            exact .inl ⟨_, List.mem_append_right _ (.head _), rfl, rfl, rfl⟩
      · intro t'
        simp only [targetAdd, linkAdd, List.mem_append, List.mem_singleton]
        constructor
        · rintro (ht | rfl)
          · exact .inl ⟨ht, hno t' ht⟩
          · exact .inr (.inr ⟨hno, p, f, (h4' p f).2 ⟨rfl, rfl⟩, rfl⟩)
        · rintro (⟨ht, _⟩ | ⟨t, ht, htn, _⟩ | ⟨_, p', f', hd, rfl⟩)
          · exact .inl ht
          · exact absurd htn (hno t ht)
          · obtain ⟨rfl, rfl⟩ := (h4' p' f').1 hd
            exact .inr rfl
      · intro l'
        simp only [targetAdd, linkAdd, List.mem_append, List.mem_singleton]
        constructor
        · rintro (hl | rfl)
          · exact .inl ⟨hl, hnol l' hl⟩
          · exact .inr (.inr ⟨hno, b, hb, rfl⟩)
        · rintro (⟨hl, _⟩ | ⟨⟨t, ht, htn⟩, _⟩ | ⟨_, b', hb', rfl⟩)
          · exact .inl hl
          · exact absurd htn (hno t ht)
          · rw [hb] at hb'
            cases hb'
            exact .inr rfl

theorem linkOne_spec {m : M} (h : Wf m) (k d : Str) :
    (linkOne m k d = .error .linkMap ∧ ¬ OneValid m k d) ∨ (OneValid m k d ∧ ∃ m', linkOne m k d = .ok m' ∧ LinkStep m m' k d) := by
  unfold linkOne
  cases hf : m.targets.find? (·.name == inData k) with
  | some t =>
    have h1 := List.find?_some hf
    simp only [beq_iff_eq] at h1
    exact linkExisting_spec h (List.mem_of_find?_eq_some hf) h1
  | none =>
    refine linkCreate_spec h ?_
    intro t ht hn
    have := List.find?_eq_none.1 hf t ht
    simp [hn] at this

theorem MadeT.name {m : M} {k d : Str} {t' : Target} (h : MadeT m k d t') : t'.name = inData k := by
  rcases h with ⟨t, _, hn, _, _, _, rfl⟩ | ⟨_, _, _, _, rfl⟩
  · exact hn
  · rfl

theorem MadeL.name {m : M} {k d : Str} {l' : Link} (h : MadeL m k d l') : l'.name = inData k := by
  rcases h with ⟨_, l, _, hn, rfl⟩ | ⟨_, _, _, rfl⟩
  · exact hn
  · rfl

section
variable {m m1 : M} {k d k2 : Str} (h : LinkStep m m1 k d) (hk : k2 ≠ k)
include h hk

theorem LinkStep.sameT (t : Target) (hn : t.name = inData k2) : t ∈ m1.targets ↔ t ∈ m.targets := by
  rw [h.targets]
  constructor
  · rintro (h1 | h1)
    · exact h1.1
    · exact absurd (inData_inj.1 (hn.symm.trans h1.name)) hk
  · intro h1
    exact .inl ⟨h1, fun he => hk (inData_inj.1 (hn.symm.trans he))⟩

theorem LinkStep.sameL (l : Link) (hn : l.name = inData k2) : l ∈ m1.links ↔ l ∈ m.links := by
  rw [h.links]
  constructor
  · rintro (h1 | h1)
    · exact h1.1
    · exact absurd (inData_inj.1 (hn.symm.trans h1.name)) hk
  · intro h1
    exact .inl ⟨h1, fun he => hk (inData_inj.1 (hn.symm.trans he))⟩

theorem LinkStep.no : (∀ t ∈ m1.targets, t.name ≠ inData k2) ↔ ∀ t ∈ m.targets, t.name ≠ inData k2 := by
  constructor
  · intro h1 t ht hn
    exact h1 t ((h.sameT hk t hn).2 ht) hn
  · intro h1 t ht hn
    exact h1 t ((h.sameT hk t hn).1 ht) hn

theorem LinkStep.ex (P : Target → Prop) : (∃ t ∈ m1.targets, t.name = inData k2 ∧ P t) ↔ ∃ t ∈ m.targets, t.name = inData k2 ∧ P t := by
  constructor
  · rintro ⟨t, ht, hn, hp⟩
    exact ⟨t, (h.sameT hk t hn).1 ht, hn, hp⟩
  · rintro ⟨t, ht, hn, hp⟩
    exact ⟨t, (h.sameT hk t hn).2 ht, hn, hp⟩

theorem LinkStep.ex' : (∃ t ∈ m1.targets, t.name = inData k2) ↔ ∃ t ∈ m.targets, t.name = inData k2 := by
  have := h.ex hk (fun _ => True)
  simpa using this

theorem LinkStep.exL (P : Link → Prop) : (∃ t ∈ m1.links, t.name = inData k2 ∧ P t) ↔ ∃ t ∈ m.links, t.name = inData k2 ∧ P t := by
  constructor
  · rintro ⟨t, ht, hn, hp⟩
    exact ⟨t, (h.sameL hk t hn).1 ht, hn, hp⟩
  · rintro ⟨t, ht, hn, hp⟩
    exact ⟨t, (h.sameL hk t hn).2 ht, hn, hp⟩

theorem LinkStep.madeT (d2 : Str) (t' : Target) : MadeT m1 k2 d2 t' ↔ MadeT m k2 d2 t' := by
  unfold MadeT
  rw [h.no hk, h.ex hk, h.files]

theorem LinkStep.madeL (d2 : Str) (l' : Link) : MadeL m1 k2 d2 l' ↔ MadeL m k2 d2 l' := by
  unfold MadeL
  rw [h.no hk, h.ex' hk, h.exL hk, h.paths]

theorem LinkStep.valid (d2 : Str) : OneValid m1 k2 d2 ↔ OneValid m k2 d2 := by
  unfold OneValid
  rw [h.no hk, h.ex hk, h.ex' hk, h.files, h.paths]

end

theorem linkLoop_spec {map : List (Str × Str)} : ∀ {ks : List Str} {m : M}, Wf m → ks.Nodup →
    (linkLoop map m ks = .error .linkMap ∧ ∃ k ∈ ks, ¬ OneValid m k ((kvGet map k).getD [])) ∨
    ((∀ k ∈ ks, OneValid m k ((kvGet map k).getD [])) ∧ ∃ m', linkLoop map m ks = .ok m' ∧ Wf m' ∧ m'.paths = m.paths ∧ m'.files = m.files ∧
      (∀ t', t' ∈ m'.targets ↔ (t' ∈ m.targets ∧ ∀ k ∈ ks, t'.name ≠ inData k) ∨ ∃ k ∈ ks, MadeT m k ((kvGet map k).getD []) t') ∧
      ∀ l', l' ∈ m'.links ↔ (l' ∈ m.links ∧ ∀ k ∈ ks, l'.name ≠ inData k) ∨ ∃ k ∈ ks, MadeL m k ((kvGet map k).getD []) l')
  | [], m, h, _ => .inr ⟨by simp, m, rfl, h, rfl, rfl, by simp, by simp⟩
  | k :: ks, m, h, hnd => by
    rw [List.nodup_cons] at hnd
    have hne : ∀ x ∈ ks, x ≠ k := fun x hx he => hnd.1 (he ▸ hx)
    rw [linkLoop]
    rcases linkOne_spec h k ((kvGet map k).getD []) with ⟨h1, h2⟩ | ⟨h2, m1, h1, hs⟩
    · rw [h1]
      exact .inl ⟨rfl, k, .head _, h2⟩
    · rw [h1]
      simp only []
      rcases linkLoop_spec (map := map) hs.wf hnd.2 with ⟨h3, x, hx, h4⟩ | ⟨h4, m', h3, h5, h6, h7, h8, h9⟩
      · refine .inl ⟨h3, x, .tail _ hx, ?_⟩
        rwa [hs.valid (hne x hx)] at h4
      · refine .inr ⟨?_, m', h3, h5, h6.trans hs.paths, h7.trans hs.files, ?_, ?_⟩
        · intro x hx
          rcases List.mem_cons.1 hx with rfl | hx
          · exact h2
          · rw [← hs.valid (hne x hx)]
            exact h4 x hx
        · intro t'
          rw [h8, hs.targets]
          constructor
          · rintro (⟨⟨ht, hn⟩ | hm, hks⟩ | ⟨x, hx, hm⟩)
            · refine .inl ⟨ht, ?_⟩
              intro x hx
              rcases List.mem_cons.1 hx with rfl | hx
              · exact hn
              · exact hks x hx
            · exact .inr ⟨k, .head _, hm⟩
            · exact .inr ⟨x, .tail _ hx, (hs.madeT (hne x hx) _ _).1 hm⟩
          · rintro (⟨ht, hks⟩ | ⟨x, hx, hm⟩)
            · exact .inl ⟨.inl ⟨ht, hks k (.head _)⟩, fun x hx => hks x (.tail _ hx)⟩
            · rcases List.mem_cons.1 hx with rfl | hx
              · refine .inl ⟨.inr hm, fun y hy he => hne y hy ?_⟩
                exact (inData_inj.1 (hm.name.symm.trans he)).symm
              · exact .inr ⟨x, hx, (hs.madeT (hne x hx) _ _).2 hm⟩
        · intro t'
          rw [h9, hs.links]
          constructor
          · rintro (⟨⟨ht, hn⟩ | hm, hks⟩ | ⟨x, hx, hm⟩)
            · refine .inl ⟨ht, ?_⟩
              intro x hx
              rcases List.mem_cons.1 hx with rfl | hx
              · exact hn
              · exact hks x hx
            · exact .inr ⟨k, .head _, hm⟩
            · exact .inr ⟨x, .tail _ hx, (hs.madeL (hne x hx) _ _).1 hm⟩
          · rintro (⟨ht, hks⟩ | ⟨x, hx, hm⟩)
            · exact .inl ⟨.inl ⟨ht, hks k (.head _)⟩, fun x hx => hks x (.tail _ hx)⟩
            · rcases List.mem_cons.1 hx with rfl | hx
              · refine .inl ⟨.inr hm, fun y hy he => hne y hy ?_⟩
                exact (inData_inj.1 (hm.name.symm.trans he)).symm
              · exact .inr ⟨x, hx, (hs.madeL (hne x hx) _ _).2 hm⟩

/-! ## Links that are not mapped -/

/-- The target is removed. -/
def gone (o : Opt) (t : Target) : Bool :=
  t.link && t.tablespaceId == 0 && (o.linkMap.bind fun map => kvGet map (t.name.drop (pgdataZ.length + 1))).isNone

theorem removeLoop_eq {o : Opt} : ∀ {ts : List Target} {m : M}, (ts.map (·.name)).Nodup →
    (∀ t ∈ ts, gone o t = true → t.name.length ≥ pgdataZ.length + 1 ∧ (∃ s ∈ m.targets, s.name = t.name) ∧ ∃ l ∈ m.links, l.name = t.name) →
    (∀ t ∈ ts, t.link = true → t.tablespaceId = 0 → t.name.length ≥ pgdataZ.length + 1) →
    removeLoop o m ts = .ok { m with
      targets := m.targets.filter fun t => !ts.any fun s => s.name == t.name && gone o s
      links := m.links.filter fun l => !ts.any fun s => s.name == l.name && gone o s }
  | [], m, _, _, _ => by
    simp [removeLoop]
  | s :: ts, m, hn, h, hl => by
    rw [List.map_cons, List.nodup_cons] at hn
    rw [removeLoop]
    by_cases hg : gone o s = true
    · obtain ⟨h1, ⟨t, ht, htn⟩, l, hl1, hln⟩ := h s (.head _) hg
      have hone : removeOne o m s = .ok { m with targets := m.targets.filter (·.name ≠ s.name), links := m.links.filter (·.name ≠ s.name) } := by
        have hg2 := hg
        simp only [gone, Bool.and_eq_true, beq_iff_eq, Option.isNone_iff_eq_none] at hg2
        unfold removeOne
        rw [if_pos hg2.1, if_neg (by omega), if_pos hg2.2]
        unfold linkRemove
        rw [if_pos (by simp only [List.any_eq_true, beq_iff_eq]; exact ⟨l, hl1, hln⟩)]
        simp only []
        unfold targetRemove
        rw [if_pos (by simp only [List.any_eq_true, beq_iff_eq]; exact ⟨t, ht, htn⟩)]
      rw [hone]
      simp only []
      rw [removeLoop_eq hn.2 ?_ (fun t ht => hl t (.tail _ ht))]
      · congr 2
        · simp only [List.filter_filter]
          refine List.filter_congr fun x _ => ?_
          simp only [List.any_cons, hg, Bool.and_true, Bool.not_or]
          rw [Bool.and_comm]
          congr 1
          by_cases hx : s.name = x.name
          · simp [hx]
          · simp [hx, show ¬ x.name = s.name from fun he => hx he.symm]
        · simp only [List.filter_filter]
          refine List.filter_congr fun x _ => ?_
          simp only [List.any_cons, hg, Bool.and_true, Bool.not_or]
          rw [Bool.and_comm]
          congr 1
          by_cases hx : s.name = x.name
          · simp [hx]
          · simp [hx, show ¬ x.name = s.name from fun he => hx he.symm]
      · intro x hx hgx
        obtain ⟨g1, ⟨a, ha, han⟩, b, hb, hbn⟩ := h x (.tail _ hx) hgx
        have hxs : x.name ≠ s.name := fun he => hn.1 (List.mem_map.2 ⟨x, hx, he⟩)
        refine ⟨g1, ⟨a, ?_, han⟩, b, ?_, hbn⟩
        · simp [List.mem_filter, ha, han, hxs]
        · simp [List.mem_filter, hb, hbn, hxs]
    · have hone : removeOne o m s = .ok m := by
        unfold removeOne
        split
        · rename_i hc
          rw [if_neg (by have := hl s (.head _) hc.1 hc.2; omega)]
          rw [if_neg]
          intro hnone
          apply hg
          simp [gone, hc, hnone]
        · rfl
      rw [hone]
      simp only []
      rw [removeLoop_eq hn.2 (fun x hx => h x (.tail _ hx)) (fun t ht => hl t (.tail _ ht))]
      congr 2
      · refine List.filter_congr fun x _ => ?_
        simp [hg]
      · refine List.filter_congr fun x _ => ?_
        simp [hg]

/-! ## All steps -/

theorem key_of (o : Option (List (Str × Str))) (ho : Distinct o) (k p : Str) : Entry o k p ↔ (o.bind fun l => kvGet l k) = some p := by
  cases hm : o with
  | none => simp [Entry]
  | some l =>
    simp only [Option.bind_some]
    rw [kvGet_iff (ho l hm)]
    simp [Entry]

theorem used_iff {l : List (Str × Str)} {t : Target} {k : Str} (hk : ∃ p, kvGet l k = some p) :
    k ∈ used l t ↔ t.tablespaceName = some k ∨ k = Num.uintToZ t.tablespaceId.toNat := by
  obtain ⟨p, hp⟩ := hk
  unfold used byName byId
  rw [List.mem_append]
  constructor
  · rintro (h | h)
    · split at h
      · cases h
      · left
        simpa using h
    · split at h
      · cases h
      · right
        simpa using h
  · rintro (h | rfl)
    · left
      rw [h]
      simp [hp]
    · right
      simp [hp]

theorem tsCheck_iff {o : Opt} (m : M) (hused : ∀ k p, Entry o.tsMap k p →
    ∃ t ∈ m.targets, t.tablespaceId ≠ 0 ∧ (t.tablespaceName = some k ∨ k = Num.uintToZ t.tablespaceId.toNat)) :
    tsCheck o m.targets = .ok () := by
  unfold tsCheck
  cases hm : o.tsMap with
  | none => rfl
  | some l =>
    simp only []
    rw [if_pos]
    rw [List.all_eq_true]
    intro e he
    obtain ⟨t, ht, hid, hk⟩ := hused e.1 e.2 ⟨l, hm, he⟩
    simp only [decide_eq_true_eq, List.mem_flatMap, List.mem_filter]
    exact ⟨t, ⟨ht, by simpa using hid⟩, (used_iff (kvGet_mem (List.mem_map.2 ⟨e, he, rfl⟩))).2 hk⟩

theorem tsCheck_error {o : Opt} (ts : List Target) : tsCheck o ts = .ok () ∨ (tsCheck o ts = .error .tablespaceMap ∧
    ∃ k p, Entry o.tsMap k p ∧ ¬ ∃ t ∈ ts, t.tablespaceId ≠ 0 ∧ (t.tablespaceName = some k ∨ k = Num.uintToZ t.tablespaceId.toNat)) := by
  unfold tsCheck
  cases hm : o.tsMap with
  | none => exact .inl rfl
  | some l =>
    simp only []
    split
    · exact .inl rfl
    · rename_i hc
      right
      refine ⟨rfl, ?_⟩
      simp only [List.all_eq_true, decide_eq_true_eq, Classical.not_forall] at hc
      obtain ⟨e, he, hc⟩ := hc
      refine ⟨e.1, e.2, ⟨l, rfl, he⟩, ?_⟩
      rintro ⟨t, ht, hid, hk⟩
      apply hc
      simp only [List.mem_flatMap, List.mem_filter]
      exact ⟨t, ⟨ht, by simpa using hid⟩, (used_iff (kvGet_mem (List.mem_map.2 ⟨e, he, rfl⟩))).2 hk⟩

/-- The target after the first two steps. -/
structure Early (o : Opt) (m m' : M) : Prop where
  wf : Wf m'
  paths : m'.paths = m.paths
  files : m'.files = m.files
  targets : ∃ F : Target → Target, m'.targets = m.targets.map F ∧ ∀ t ∈ m.targets,
    (F t).name = t.name ∧ (F t).link = t.link ∧ (F t).tablespaceId = t.tablespaceId ∧ (t.name = pgdataZ → F t = { t with path := o.pgPath }) ∧
    (t.tablespaceId ≠ 0 → ∃ p, F t = { t with path := p } ∧ ∀ q, Goes o t t.path q ↔ q = p) ∧
    (t.link = true → t.tablespaceId = 0 → F t = t)
  links : ∃ G : Link → Link, m'.links = m.links.map G ∧ ∀ l ∈ m.links, (G l).name = l.name ∧
    (∀ t ∈ m.targets, t.tablespaceId ≠ 0 → l.name = inData t.name →
      ∃ p, G l = { l with destination := p } ∧ ∀ q, Goes o t l.destination q ↔ q = p) ∧
    ((∀ t ∈ m.targets, t.tablespaceId ≠ 0 → l.name ≠ inData t.name) → G l = l)

theorem target_path_eq {t : Target} {p q : Str} : ({ t with path := p } : Target) = { t with path := q } ↔ p = q := by
  constructor
  · intro h
    exact congrArg Target.path h
  · rintro rfl
    rfl

theorem link_dest_eq {t : Link} {p q : Str} : ({ t with destination := p } : Link) = { t with destination := q } ↔ p = q := by
  constructor
  · intro h
    exact congrArg Link.destination h
  · rintro rfl
    rfl

/-- The base of a target for the tablespace step. -/
def toBase (o : Opt) (t : Target) : Target := if t.name = pgdataZ then { t with path := o.pgPath } else t

theorem toBase_ts {m : M} (h : Wf m) (o : Opt) {t : Target} (ht : t ∈ m.targets) (hid : t.tablespaceId ≠ 0) : toBase o t = t := by
  unfold toBase
  rw [if_neg]
  intro hn
  exact hid (h.data t ht hn).2.2

theorem toBase_link {m : M} (h : Wf m) (o : Opt) {t : Target} (ht : t ∈ m.targets) (hl : t.link = true) : toBase o t = t := by
  unfold toBase
  rw [if_neg]
  intro hn
  rw [(h.data t ht hn).1] at hl
  cases hl

theorem toBase_name (o : Opt) (t : Target) : (toBase o t).name = t.name := by
  unfold toBase
  split <;> rfl

theorem toBase_id (o : Opt) (t : Target) : (toBase o t).tablespaceId = t.tablespaceId := by
  unfold toBase
  split <;> rfl

theorem wf_base {o : Opt} {m : M} (h : Wf m) : Wf { m with targets := m.targets.map (toBase o) } := by
  have := h.map (toBase o) id (by
    intro t ht
    unfold toBase
    split
    · exact ⟨rfl, rfl, rfl, rfl, fun _ h => h⟩
    · exact ⟨rfl, rfl, rfl, rfl, fun _ h => h⟩) (fun _ => rfl)
  rw [List.map_id] at this
  exact this

theorem tsAct_some {o : Opt} {s : Target} (h : (tsAct o s).isSome = true) : s.tablespaceId ≠ 0 := by
  unfold tsAct at h
  split at h
  · assumption
  · cases h

theorem upT_eq {o : Opt} {ts : List Target} (h : (ts.map (·.name)).Nodup) {t : Target} (ht : t ∈ ts) :
    upT o ts t = match tsAct o t with | none => t | some p => { t with path := p, file := none } := by
  unfold upT
  cases ha : tsAct o t with
  | none =>
    rw [List.find?_eq_none.2]
    intro s hs hc
    simp only [Bool.and_eq_true, beq_iff_eq] at hc
    have := same_name h hs ht hc.1
    subst this
    rw [ha] at hc
    simp at hc
  | some p =>
    cases hf : ts.find? fun s => s.name == t.name && (tsAct o s).isSome with
    | none =>
      have := List.find?_eq_none.1 hf t ht
      simp [ha] at this
    | some s =>
      have h1 := List.find?_some hf
      simp only [Bool.and_eq_true, beq_iff_eq] at h1
      have := same_name h (List.mem_of_find?_eq_some hf) ht h1.1
      subst this
      simp [ha]

theorem upL_eq {o : Opt} {ts : List Target} (h : (ts.map (·.name)).Nodup) {t : Target} (ht : t ∈ ts) {l : Link} (hl : l.name = inData t.name) :
    upL o ts l = match tsAct o t with | none => l | some p => { l with destination := p } := by
  unfold upL
  cases ha : tsAct o t with
  | none =>
    rw [List.find?_eq_none.2]
    intro s hs hc
    simp only [Bool.and_eq_true, beq_iff_eq] at hc
    have := same_name h hs ht (inData_inj.1 (hc.1.trans hl))
    subst this
    rw [ha] at hc
    simp at hc
  | some p =>
    cases hf : ts.find? fun s => inData s.name == l.name && (tsAct o s).isSome with
    | none =>
      have := List.find?_eq_none.1 hf t ht
      simp [ha, hl] at this
    | some s =>
      have h1 := List.find?_some hf
      simp only [Bool.and_eq_true, beq_iff_eq] at h1
      have := same_name h (List.mem_of_find?_eq_some hf) ht (inData_inj.1 (h1.1.trans hl))
      subst this
      simp [ha]

theorem upT_name {o : Opt} {ts : List Target} (t : Target) : (upT o ts t).name = t.name := by
  unfold upT
  split <;> rfl

theorem upL_name {o : Opt} {ts : List Target} (t : Link) : (upL o ts t).name = t.name := by
  unfold upL
  split <;> rfl

/-- The result of the first two steps when all tablespaces can be mapped. -/
theorem early_of {o : Opt} (ho : Distinct o.tsMap) {m : M} (h : Wf m)
    (hr : ∀ s ∈ m.targets, s.tablespaceId ≠ 0 → ∃ r, tsPath o s = .ok r) :
    Early o m ⟨(m.targets.map (toBase o)).map (upT o (m.targets.map (toBase o))), m.links.map (upL o (m.targets.map (toBase o))), m.paths, m.files⟩ := by
  have hb := wf_base (o := o) h
  have hnames : ((m.targets.map (toBase o)).map (·.name)).Nodup := hb.names
  have hgoes : ∀ t ∈ m.targets, t.tablespaceId ≠ 0 → ∀ was p, Goes o t was p ↔ p = (tsAct o t).getD was := by
    intro t ht hid was p
    obtain ⟨r, hr⟩ := hr t ht hid
    rcases tsPath_spec ho (h.ts t ht hid).2.1 with ⟨h1, _⟩ | ⟨_, r', h1, h2⟩
    · rw [hr] at h1
      cases h1
    · rw [h2 was p]
      unfold tsAct
      rw [if_pos hid, h1]
      rfl
  have hfile : ∀ t ∈ m.targets.map (toBase o), (upT o (m.targets.map (toBase o)) t).name = t.name ∧
      (upT o (m.targets.map (toBase o)) t).link = t.link ∧ (upT o (m.targets.map (toBase o)) t).tablespaceId = t.tablespaceId ∧
      (upT o (m.targets.map (toBase o)) t).tablespaceName = t.tablespaceName ∧
      ((t.link = false ∨ t.tablespaceId ≠ 0) → t.file = none → (upT o (m.targets.map (toBase o)) t).file = none) := by
    intro t _
    unfold upT
    split
    · exact ⟨rfl, rfl, rfl, rfl, fun _ h => h⟩
    · exact ⟨rfl, rfl, rfl, rfl, fun _ _ => rfl⟩
  refine ⟨hb.map _ _ hfile (fun l => upL_name l), rfl, rfl, ⟨fun t => upT o (m.targets.map (toBase o)) (toBase o t), by rw [List.map_map]; rfl, ?_⟩,
    ⟨upL o (m.targets.map (toBase o)), rfl, ?_⟩⟩
  · intro t ht
    have hm : toBase o t ∈ m.targets.map (toBase o) := List.mem_map.2 ⟨t, ht, rfl⟩
    obtain ⟨h1, h2, h3, _⟩ := hfile _ hm
    refine ⟨h1.trans (toBase_name o t), ?_, h3.trans (toBase_id o t), ?_, ?_, ?_⟩
    · rw [h2]
      unfold toBase
      split <;> rfl
    · intro hn
      dsimp only
      rw [upT_eq hnames hm]
      have : tsAct o (toBase o t) = none := by
        unfold tsAct
        rw [if_neg]
        rw [toBase_id]
        simpa using (h.data t ht hn).2.2
      rw [this]
      simp only []
      unfold toBase
      rw [if_pos hn]
    · intro hid
      dsimp only
      rw [toBase_ts h o ht hid] at hm ⊢
      rw [upT_eq hnames hm]
      refine ⟨(tsAct o t).getD t.path, ?_, hgoes t ht hid t.path⟩
      cases tsAct o t with
      | none => rfl
      | some q =>
        simp only [Option.getD_some]
        rw [← (h.ts t ht hid).1]
    · intro hl hid
      dsimp only
      rw [toBase_link h o ht hl] at hm ⊢
      rw [upT_eq hnames hm]
      have : tsAct o t = none := by
        unfold tsAct
        rw [if_neg (by simpa using hid)]
      rw [this]
  · intro l hl
    refine ⟨upL_name l, ?_, ?_⟩
    · intro t ht hid hln
      have hm : t ∈ m.targets.map (toBase o) := List.mem_map.2 ⟨t, ht, toBase_ts h o ht hid⟩
      rw [upL_eq hnames hm hln]
      refine ⟨(tsAct o t).getD l.destination, ?_, hgoes t ht hid l.destination⟩
      cases tsAct o t <;> rfl
    · intro hno
      unfold upL
      rw [List.find?_eq_none.2]
      intro s hs hc
      simp only [Bool.and_eq_true, beq_iff_eq] at hc
      obtain ⟨t, ht, rfl⟩ := List.mem_map.1 hs
      rw [toBase_name] at hc
      have := tsAct_some hc.2
      rw [toBase_id] at this
      exact hno t ht this hc.1.symm

theorem mapTs_spec {o : Opt} (ho : Distinct o.tsMap) {m : M} (h : Wf m) :
    (mapTs o { m with targets := m.targets.map (toBase o) } = .error .tablespaceMap ∧ ¬ TsValid o m) ∨
    (TsValid o m ∧ ∃ m', mapTs o { m with targets := m.targets.map (toBase o) } = .ok m' ∧ Early o m m') := by
  have hb := wf_base (o := o) h
  have hts : ∀ P : Target → Prop, (∃ t ∈ m.targets.map (toBase o), t.tablespaceId ≠ 0 ∧ P t) ↔ ∃ t ∈ m.targets, t.tablespaceId ≠ 0 ∧ P t := by
    intro P
    constructor
    · rintro ⟨t, ht, hid, hp⟩
      obtain ⟨s, hs, rfl⟩ := List.mem_map.1 ht
      rw [toBase_id] at hid
      rw [toBase_ts h o hs hid] at hp
      exact ⟨s, hs, hid, hp⟩
    · rintro ⟨t, ht, hid, hp⟩
      exact ⟨t, List.mem_map.2 ⟨t, ht, toBase_ts h o ht hid⟩, hid, hp⟩
  unfold mapTs
  by_cases hnone : o.tsMap = none ∧ o.tsAll = none
  · rw [if_pos hnone]
    right
    have hent : ∀ k p, ¬ Entry o.tsMap k p := by
      rintro k p ⟨l, hl, _⟩
      rw [hnone.1] at hl
      cases hl
    refine ⟨⟨fun t _ _ n p q _ h1 _ => absurd h1 (hent n p), fun k p h1 => absurd h1 (hent k p)⟩, _, rfl, ?_⟩
    have hpath : ∀ s ∈ m.targets, s.tablespaceId ≠ 0 → tsPath o s = .ok none := by
      intro s _ _
      simp [tsPath, tsEntry, hnone.1, hnone.2]
    have hact : ∀ s, tsAct o s = none := by
      intro s
      unfold tsAct
      split
      · simp [tsPath, tsEntry, hnone.1, hnone.2, Except.toOption]
      · rfl
    have he := early_of ho h (fun s hs hid => ⟨_, hpath s hs hid⟩)
    have h1 : (m.targets.map (toBase o)).map (upT o (m.targets.map (toBase o))) = m.targets.map (toBase o) := by
      conv => rhs; rw [← List.map_id (m.targets.map (toBase o))]
      refine List.map_congr_left fun t ht => ?_
      rw [upT_eq (show ((m.targets.map (toBase o)).map (·.name)).Nodup from hb.names) ht, hact]
      rfl
    have h2 : m.links.map (upL o (m.targets.map (toBase o))) = m.links := by
      conv => rhs; rw [← List.map_id m.links]
      refine List.map_congr_left fun l _ => ?_
      unfold upL
      rw [List.find?_eq_none.2]
      · rfl
      · intro s _ hc
        simp [hact] at hc
    rw [h1, h2] at he
    exact he
  · rw [if_neg hnone]
    simp only []
    rcases tsLoop_ok (o := o) (ts := m.targets.map (toBase o)) (m := { m with targets := m.targets.map (toBase o) }) (fun s hs hid =>
        ⟨⟨s, hs, rfl⟩, (hb.ts s hs hid).2.2.1⟩) with ⟨m', h1⟩ | ⟨s, hs, hid, e, h1, h2⟩
    · rw [h1]
      obtain ⟨h2, h3⟩ := tsLoop_eq hb.names h1
      have hr : ∀ s ∈ m.targets, s.tablespaceId ≠ 0 → ∃ r, tsPath o s = .ok r := by
        intro s hs hid
        exact h3 s (List.mem_map.2 ⟨s, hs, toBase_ts h o hs hid⟩) hid
      simp only []
      rcases tsCheck_error (o := o) (m.targets.map (toBase o)) with h4 | ⟨h4, k, p, h5, h6⟩
      · right
        rw [h4]
        refine ⟨⟨?_, ?_⟩, m', rfl, ?_⟩
        · intro t ht hid n p q hn hp hq
          rcases tsPath_spec ho (h.ts t ht hid).2.1 with ⟨h5, _⟩ | ⟨h5, _⟩
          · obtain ⟨r, h6⟩ := hr t ht hid
            rw [h6] at h5
            cases h5
          · exact h5 n hn p q hp hq
        · intro k p hk
          rcases tsCheck_error (o := o) (m.targets.map (toBase o)) with _ | ⟨h5, _⟩
          · apply Classical.byContradiction
            intro hc
            -- the check found every key
            obtain ⟨l, hl, hkl⟩ := hk
            unfold tsCheck at h4
            rw [hl] at h4
            simp only [] at h4
            split at h4
            · rename_i h5
              rw [List.all_eq_true] at h5
              have := h5 (k, p) hkl
              simp only [decide_eq_true_eq, List.mem_flatMap, List.mem_filter] at this
              obtain ⟨t, ⟨ht, hid⟩, hu⟩ := this
              refine hc ((hts _).1 ⟨t, ht, by simpa using hid, (used_iff (kvGet_mem (List.mem_map.2 ⟨_, hkl, rfl⟩))).1 hu⟩)
            · cases h4
          · rw [h4] at h5
            cases h5
        · rw [h2]
          exact early_of ho h hr
      · left
        rw [h4]
        refine ⟨rfl, fun hv => h6 ?_⟩
        obtain ⟨t, ht, hid, hk⟩ := hv.used k p h5
        exact (hts _).2 ⟨t, ht, hid, hk⟩
    · left
      rw [h2]
      obtain ⟨t, ht, rfl⟩ := List.mem_map.1 hs
      rw [toBase_id] at hid
      rw [toBase_ts h o ht hid] at h1
      rcases tsPath_spec ho (h.ts t ht hid).2.1 with ⟨h3, n, hn, p, q, h4, h5, h6⟩ | ⟨_, r, h3, _⟩
      · rw [h3] at h1
        cases h1
        exact ⟨rfl, fun hv => h6 (hv.agree t ht hid n p q hn h4 h5)⟩
      · rw [h3] at h1
        cases h1

/-! ## The theorems -/

theorem inData_target {m : M} (h : Wf m) {t : Target} (ht : t ∈ m.targets) {k : Str} (hn : t.name = inData k) :
    t.link = true ∧ t.tablespaceId = 0 := by
  constructor
  · cases hl : t.link with
    | true => rfl
    | false => exact absurd (hn.symm.trans (h.only t ht hl)) (inData_ne k)
  · apply Classical.byContradiction
    intro hc
    exact (h.ts t ht hc).2.2.2.2.2.2 k hn

section
variable {o : Opt} {m m2 : M} (h : Wf m) (he : Early o m m2)
include h he

theorem early_target {t : Target} {k : Str} (hn : t.name = inData k) : t ∈ m2.targets ↔ t ∈ m.targets := by
  obtain ⟨F, hF, hFs⟩ := he.targets
  rw [hF, List.mem_map]
  constructor
  · rintro ⟨s, hs, rfl⟩
    obtain ⟨h1, _, _, _, _, h2⟩ := hFs s hs
    obtain ⟨h3, h4⟩ := inData_target h hs (h1.symm.trans hn)
    rw [h2 h3 h4]
    exact hs
  · intro ht
    obtain ⟨h3, h4⟩ := inData_target h ht hn
    exact ⟨t, ht, (hFs t ht).2.2.2.2.2 h3 h4⟩

theorem early_link {l : Link} {t : Target} (ht : t ∈ m.targets) (hn : l.name = t.name) (hk : ∃ k, t.name = inData k) :
    l ∈ m2.links ↔ l ∈ m.links := by
  obtain ⟨G, hG, hGs⟩ := he.links
  obtain ⟨k, hk⟩ := hk
  have hno : ∀ s ∈ m.targets, s.tablespaceId ≠ 0 → t.name ≠ inData s.name := fun s hs hid => (h.ts s hs hid).2.2.2.2.2.1 t ht
  rw [hG, List.mem_map]
  constructor
  · rintro ⟨x, hx, rfl⟩
    obtain ⟨h1, _, h2⟩ := hGs x hx
    rw [h2 (fun s hs hid => by rw [← h1, hn]; exact hno s hs hid)]
    exact hx
  · intro hl
    exact ⟨l, hl, (hGs l hl).2.2 (fun s hs hid => by rw [hn]; exact hno s hs hid)⟩

theorem early_no (k : Str) : (∀ t ∈ m2.targets, t.name ≠ inData k) ↔ ∀ t ∈ m.targets, t.name ≠ inData k := by
  constructor
  · intro h1 t ht hn
    exact h1 t ((early_target h he hn).2 ht) hn
  · intro h1 t ht hn
    exact h1 t ((early_target h he hn).1 ht) hn

theorem early_ex (k : Str) (P : Target → Prop) : (∃ t ∈ m2.targets, t.name = inData k ∧ P t) ↔ ∃ t ∈ m.targets, t.name = inData k ∧ P t := by
  constructor
  · rintro ⟨t, ht, hn, hp⟩
    exact ⟨t, (early_target h he hn).1 ht, hn, hp⟩
  · rintro ⟨t, ht, hn, hp⟩
    exact ⟨t, (early_target h he hn).2 ht, hn, hp⟩

theorem early_valid (k d : Str) : OneValid m2 k d ↔ OneValid m k d := by
  unfold OneValid
  have := early_ex h he k (fun _ => True)
  simp only [and_true] at this
  rw [early_no h he, early_ex h he, this, he.files, he.paths]

theorem early_madeT (k d : Str) (t' : Target) : MadeT m2 k d t' ↔ MadeT m k d t' := by
  unfold MadeT
  rw [early_no h he, early_ex h he, he.files]

theorem early_madeL (k d : Str) (l' : Link) : MadeL m2 k d l' ↔ MadeL m k d l' := by
  unfold MadeL
  have h1 := early_ex h he k (fun _ => True)
  simp only [and_true] at h1
  rw [early_no h he, h1, he.paths]
  refine or_congr ?_ Iff.rfl
  constructor
  · rintro ⟨⟨t, ht, htn⟩, l, hl, hln, hd⟩
    exact ⟨⟨t, ht, htn⟩, l, (early_link h he ht (hln.trans htn.symm) ⟨k, htn⟩).1 hl, hln, hd⟩
  · rintro ⟨⟨t, ht, htn⟩, l, hl, hln, hd⟩
    exact ⟨⟨t, ht, htn⟩, l, (early_link h he ht (hln.trans htn.symm) ⟨k, htn⟩).2 hl, hln, hd⟩

end

/-- What is after the link map. -/
structure Late (o : Opt) (m m' : M) : Prop where
  wf : Wf m'
  paths : m'.paths = m.paths
  files : m'.files = m.files
  targets : ∀ t', t' ∈ m'.targets ↔ (t' ∈ m.targets ∧ ∀ k d, Entry o.linkMap k d → t'.name ≠ inData k) ∨ ∃ k d, Entry o.linkMap k d ∧ MadeT m k d t'
  links : ∀ l', l' ∈ m'.links ↔ (l' ∈ m.links ∧ ∀ k d, Entry o.linkMap k d → l'.name ≠ inData k) ∨ ∃ k d, Entry o.linkMap k d ∧ MadeL m k d l'

theorem mapLinks_spec {o : Opt} (ho : Distinct o.linkMap) {m : M} (h : Wf m) :
    (mapLinks o m = .error .linkMap ∧ ∃ k d, Entry o.linkMap k d ∧ ¬ OneValid m k d) ∨
    ((∀ k d, Entry o.linkMap k d → OneValid m k d) ∧ ∃ m', mapLinks o m = .ok m' ∧ Late o m m') := by
  unfold mapLinks
  cases hm : o.linkMap with
  | none =>
    right
    have hent : ∀ k p, ¬ Entry o.linkMap k p := by
      rintro k p ⟨l, hl, _⟩
      rw [hm] at hl
      cases hl
    simp only []
    rw [← hm]
    refine ⟨fun k d hk => absurd hk (hent k d), m, rfl, h, rfl, rfl, ?_, ?_⟩
    · intro t'
      constructor
      · intro ht
        exact .inl ⟨ht, fun k d hk => absurd hk (hent k d)⟩
      · rintro (ht | ⟨k, d, hk, _⟩)
        · exact ht.1
        · exact absurd hk (hent k d)
    · intro t'
      constructor
      · intro ht
        exact .inl ⟨ht, fun k d hk => absurd hk (hent k d)⟩
      · rintro (ht | ⟨k, d, hk, _⟩)
        · exact ht.1
        · exact absurd hk (hent k d)
  | some map =>
    simp only []
    have hd := ho map hm
    have hks : (sortAsc (map.map (·.1))).Nodup := (sortAsc_perm _).nodup_iff.2 hd
    have hkv : ∀ k d, Entry o.linkMap k d ↔ k ∈ sortAsc (map.map (·.1)) ∧ (kvGet map k).getD [] = d := by
      intro k d
      rw [mem_sortAsc]
      constructor
      · rintro ⟨l, hl, hk⟩
        rw [hm] at hl
        cases hl
        exact ⟨List.mem_map.2 ⟨_, hk, rfl⟩, by rw [(kvGet_iff hd k d).2 hk]; rfl⟩
      · rintro ⟨hk, rfl⟩
        obtain ⟨p, hp⟩ := kvGet_mem hk
        rw [hp]
        exact ⟨map, hm, (kvGet_iff hd k p).1 hp⟩
    have hex : ∀ P : Str → Str → Prop, (∃ k d, Entry o.linkMap k d ∧ P k d) ↔ ∃ k ∈ sortAsc (map.map (·.1)), P k ((kvGet map k).getD []) := by
      intro P
      constructor
      · rintro ⟨k, d, hk, hp⟩
        obtain ⟨h1, rfl⟩ := (hkv k d).1 hk
        exact ⟨k, h1, hp⟩
      · rintro ⟨k, hk, hp⟩
        exact ⟨k, _, (hkv k _).2 ⟨hk, rfl⟩, hp⟩
    have hall : ∀ P : Str → Str → Prop, (∀ k d, Entry o.linkMap k d → P k d) ↔ ∀ k ∈ sortAsc (map.map (·.1)), P k ((kvGet map k).getD []) := by
      intro P
      constructor
      · intro hp k hk
        exact hp k _ ((hkv k _).2 ⟨hk, rfl⟩)
      · intro hp k d hk
        obtain ⟨h1, rfl⟩ := (hkv k d).1 hk
        exact hp k h1
    rw [← hm]
    rcases linkLoop_spec (map := map) h hks with ⟨h1, h2⟩ | ⟨h2, m', h1, h3, h4, h5, h6, h7⟩
    · exact .inl ⟨h1, (hex fun k d => ¬ OneValid m k d).2 h2⟩
    · refine .inr ⟨(hall (OneValid m)).2 h2, m', h1, h3, h4, h5, ?_, ?_⟩
      · intro t'
        rw [h6, hex fun k d => MadeT m k d t', hall fun k _ => t'.name ≠ inData k]
      · intro t'
        rw [h7, hex fun k d => MadeL m k d t', hall fun k _ => t'.name ≠ inData k]

theorem drop_inData (k : Str) : (inData k).drop (pgdataZ.length + 1) = k := by
  unfold inData
  rw [← List.drop_drop, List.drop_left]
  rfl

theorem gone_iff {o : Opt} (ho : Distinct o.linkMap) {t : Target} {k : Str} (hn : t.name = inData k) (hl : t.link = true) (hid : t.tablespaceId = 0) :
    gone o t = true ↔ ¬ ∃ d, Entry o.linkMap k d := by
  unfold gone
  rw [hn, drop_inData, hl, hid]
  simp only [beq_self_eq_true, Bool.and_self, Bool.true_and, Option.isNone_iff_eq_none]
  simp only [key_of _ ho]
  cases (o.linkMap.bind fun l => kvGet l k) with
  | none => simp
  | some d => simp

theorem removeLinks_spec {o : Opt} {m : M} (h : Wf m) : ∃ m', removeLinks o m = .ok m' ∧ m'.paths = m.paths ∧ m'.files = m.files ∧
    (∀ t, t ∈ m'.targets ↔ t ∈ m.targets ∧ (o.linkAll = true ∨ gone o t = false)) ∧
    (∀ l, l ∈ m'.links ↔ l ∈ m.links ∧ (o.linkAll = true ∨ ∀ t ∈ m.targets, t.name = l.name → gone o t = false)) := by
  unfold removeLinks
  by_cases hall : o.linkAll = true
  · rw [if_pos hall]
    exact ⟨m, rfl, rfl, rfl, by simp [hall], by simp [hall]⟩
  · rw [if_neg hall]
    have hlen : ∀ t ∈ m.targets, t.link = true → t.tablespaceId = 0 → t.name.length ≥ pgdataZ.length + 1 := by
      intro t ht hl hid
      obtain ⟨⟨k, hk⟩, _⟩ := h.link t ht hl hid
      rw [hk, inData]
      simp
    rw [removeLoop_eq h.names ?_ hlen]
    · refine ⟨_, rfl, rfl, rfl, ?_, ?_⟩
      · intro t
        simp only [List.mem_filter]
        refine and_congr_right fun ht => ?_
        simp only [Bool.not_eq_true', List.any_eq_false, Bool.and_eq_true, beq_iff_eq]
        constructor
        · intro hx
          right
          cases hg : gone o t with
          | false => rfl
          | true => exact absurd ⟨rfl, hg⟩ (hx t ht)
        · rintro (hx | hx)
          · exact absurd hx hall
          · rintro s hs ⟨h1, h2⟩
            have := same_name h.names hs ht h1
            subst this
            rw [hx] at h2
            cases h2
      · intro l
        simp only [List.mem_filter]
        refine and_congr_right fun hl => ?_
        simp only [Bool.not_eq_true', List.any_eq_false, Bool.and_eq_true, beq_iff_eq]
        constructor
        · intro hx
          right
          intro t ht hn
          cases hg : gone o t with
          | false => rfl
          | true => exact absurd ⟨hn, hg⟩ (hx t ht)
        · rintro (hx | hx)
          · exact absurd hx hall
          · rintro s hs ⟨h1, h2⟩
            rw [hx s hs h1] at h2
            cases h2
    · intro t ht hg
      simp only [gone, Bool.and_eq_true, beq_iff_eq] at hg
      exact ⟨hlen t ht hg.1.1 hg.1.2, ⟨t, ht, rfl⟩, (h.link t ht hg.1.1 hg.1.2).2⟩

/-- The whole of it. -/
theorem restoreMap_spec {o : Opt} (ho : Distinct o.tsMap) (hl : Distinct o.linkMap) {m : M} (h : Wf m) :
    (restoreMap o m = .error .tablespaceMap ∧ ¬ TsValid o m) ∨ (restoreMap o m = .error .linkMap ∧ TsValid o m ∧ ¬ LinkValid o m) ∨
    (TsValid o m ∧ LinkValid o m ∧ ∃ m2 m3 m4, restoreMap o m = .ok m4 ∧ Early o m m2 ∧ Late o m2 m3 ∧ removeLinks o m3 = .ok m4) := by
  unfold restoreMap
  rw [mapBase_eq h]
  simp only []
  rw [show (m.targets.map fun t => if t.name = pgdataZ then { t with path := o.pgPath } else t) = m.targets.map (toBase o) from rfl]
  rcases mapTs_spec ho h with ⟨h1, h2⟩ | ⟨h2, m2, h1, he⟩
  · rw [h1]
    exact .inl ⟨rfl, h2⟩
  · rw [h1]
    simp only []
    right
    rcases mapLinks_spec hl he.wf with ⟨h3, k, d, h4, h5⟩ | ⟨h4, m3, h3, hla⟩
    · rw [h3]
      left
      refine ⟨rfl, h2, fun hv => h5 ?_⟩
      rw [early_valid h he]
      exact hv k d h4
    · rw [h3]
      simp only []
      right
      obtain ⟨m4, h5, _⟩ := removeLinks_spec (o := o) hla.wf
      refine ⟨h2, ?_, m2, m3, m4, h5, he, hla, h5⟩
      intro k d hk
      have := h4 k d hk
      rw [early_valid h he] at this
      exact this

/-- The restore goes on exactly when all entries can be used: each one has something that it names, and entries for the name and the id of a
tablespace are the same. -/
theorem c49_ok {o : Opt} (ho : Distinct o.tsMap) (hl : Distinct o.linkMap) {m : M} (h : Wf m) :
    (∃ m', restoreMap o m = .ok m') ↔ TsValid o m ∧ LinkValid o m := by
  rcases restoreMap_spec ho hl h with ⟨h1, h2⟩ | ⟨h1, _, h2⟩ | ⟨h1, h2, _, _, m4, h3, _⟩
  · constructor
    · rintro ⟨m', hm⟩
      rw [h1] at hm
      cases hm
    · intro hv
      exact absurd hv.1 h2
  · constructor
    · rintro ⟨m', hm⟩
      rw [h1] at hm
      cases hm
    · intro hv
      exact absurd hv.2 h2
  · exact ⟨fun _ => ⟨h1, h2⟩, fun _ => ⟨m4, h3⟩⟩

/-- Otherwise the error says which of the maps is wrong. -/
theorem c49_error {o : Opt} (ho : Distinct o.tsMap) (hl : Distinct o.linkMap) {m : M} (h : Wf m) (e : Err) (he : restoreMap o m = .error e) :
    (e = .tablespaceMap ∧ ¬ TsValid o m) ∨ (e = .linkMap ∧ ¬ LinkValid o m) := by
  rcases restoreMap_spec ho hl h with ⟨h1, h2⟩ | ⟨h1, _, h2⟩ | ⟨_, _, _, _, m4, h3, _⟩
  · rw [h1] at he
    cases he
    exact .inl ⟨rfl, h2⟩
  · rw [h1] at he
    cases he
    exact .inr ⟨rfl, h2⟩
  · rw [h3] at he
    cases he

/-- The targets are those that the options ask for. Paths and files are not changed. -/
theorem c49_targets {o : Opt} (ho : Distinct o.tsMap) (hl : Distinct o.linkMap) {m m' : M} (h : Wf m) (hr : restoreMap o m = .ok m') :
    (∀ t, t ∈ m'.targets ↔ WantT o m t) ∧ m'.paths = m.paths ∧ m'.files = m.files := by
  rcases restoreMap_spec ho hl h with ⟨h1, _⟩ | ⟨h1, _⟩ | ⟨_, _, m2, m3, m4, h3, he, hla, hrem⟩
  · rw [h1] at hr
    cases hr
  · rw [h1] at hr
    cases hr
  rw [h3] at hr
  cases hr
  obtain ⟨m4', h4, h5, h6, h7, _⟩ := removeLinks_spec (o := o) hla.wf
  rw [hrem] at h4
  cases h4
  refine ⟨?_, h5.trans (hla.paths.trans he.paths), h6.trans (hla.files.trans he.files)⟩
  intro t'
  rw [h7, hla.targets]
  obtain ⟨F, hF, hFs⟩ := he.targets
  constructor
  · rintro ⟨⟨ht, hno⟩ | ⟨k, d, hk, hm⟩, hg⟩
    · rw [hF] at ht
      obtain ⟨t, htm, rfl⟩ := List.mem_map.1 ht
      clear ht
      have ht := htm
      obtain ⟨f1, f2, f3, f4, f5, f6⟩ := hFs t ht
      by_cases hid : t.tablespaceId = 0
      · cases hlk : t.link with
        | false =>
          have hn := h.only t ht hlk
          rw [f4 hn]
          exact .data ht hn
        | true =>
          obtain ⟨⟨k, hk⟩, _⟩ := h.link t ht hlk hid
          rw [f6 hlk hid] at hg hno ⊢
          have hnk : ¬ ∃ d, Entry o.linkMap k d := by
            rintro ⟨d, hd⟩
            exact hno k d hd hk
          rcases hg with hg | hg
          · exact .kept ht hlk hid hk hnk hg
          · rw [(gone_iff hl hk hlk hid).2 hnk] at hg
            cases hg
      · obtain ⟨p, f7, f8⟩ := f5 hid
        rw [f7]
        exact .ts ht hid ((f8 p).2 rfl)
    · rw [early_madeT h he] at hm
      rcases hm with ⟨t, ht, hn, p, f, hd, rfl⟩ | ⟨hn, p, f, hd, rfl⟩
      · obtain ⟨h8, h9⟩ := inData_target h ht hn
        exact .mapped ht h8 h9 hn hk hd
      · exact .created hk hn hd
  · intro hw
    cases hw with
    | @data t ht hn =>
      obtain ⟨f1, f2, f3, f4, f5, f6⟩ := hFs t ht
      rw [← f4 hn]
      refine ⟨.inl ⟨by rw [hF]; exact List.mem_map.2 ⟨t, ht, rfl⟩, ?_⟩, .inr ?_⟩
      · intro k d _ he
        rw [f1, hn] at he
        exact inData_ne k he.symm
      · unfold gone
        rw [f2, (h.data t ht hn).1]
        rfl
    | @ts t p ht hid hgo =>
      obtain ⟨f1, f2, f3, f4, f5, f6⟩ := hFs t ht
      obtain ⟨q, f7, f8⟩ := f5 hid
      have := (f8 p).1 hgo
      subst this
      rw [← f7]
      refine ⟨.inl ⟨by rw [hF]; exact List.mem_map.2 ⟨t, ht, rfl⟩, ?_⟩, .inr ?_⟩
      · intro k d _ he
        rw [f1] at he
        exact (h.ts t ht hid).2.2.2.2.2.2 k he
      · unfold gone
        rw [f3]
        simp [hid]
    | @mapped t k d p f ht hlk hid hn hk hd =>
      refine ⟨.inr ⟨k, d, hk, (early_madeT h he _ _ _).2 (.inl ⟨t, ht, hn, p, f, hd, rfl⟩)⟩, .inr ?_⟩
      cases hg : gone o { t with path := p, file := f } with
      | false => rfl
      | true => exact absurd ⟨d, hk⟩ ((gone_iff (k := k) hl (by exact hn) hlk hid).1 hg)
    | @kept t k ht hlk hid hn hnk hall =>
      obtain ⟨f1, f2, f3, f4, f5, f6⟩ := hFs _ ht
      refine ⟨.inl ⟨by rw [hF]; exact List.mem_map.2 ⟨_, ht, f6 hlk hid⟩, ?_⟩, .inl hall⟩
      intro x d hx he
      rw [hn] at he
      have := inData_inj.1 he
      subst this
      exact hnk ⟨d, hx⟩
    | @created k d p f hk hn hd =>
      refine ⟨.inr ⟨k, d, hk, (early_madeT h he _ _ _).2 (.inr ⟨hn, p, f, hd, rfl⟩)⟩, .inr ?_⟩
      cases hg : gone o ⟨inData k, true, p, f, 0, none⟩ with
      | false => rfl
      | true => exact absurd ⟨d, hk⟩ ((gone_iff (k := k) hl rfl rfl rfl).1 hg)

/-- The links are those that the options ask for. -/
theorem c49_links {o : Opt} (ho : Distinct o.tsMap) (hl : Distinct o.linkMap) {m m' : M} (h : Wf m) (hr : restoreMap o m = .ok m') :
    ∀ l, l ∈ m'.links ↔ WantL o m l := by
  rcases restoreMap_spec ho hl h with ⟨h1, _⟩ | ⟨h1, _⟩ | ⟨_, hval, m2, m3, m4, h3, he, hla, hrem⟩
  · rw [h1] at hr
    cases hr
  · rw [h1] at hr
    cases hr
  rw [h3] at hr
  cases hr
  obtain ⟨m4', h4, h5, h6, _, h7⟩ := removeLinks_spec (o := o) hla.wf
  rw [hrem] at h4
  cases h4
  obtain ⟨G, hG, hGs⟩ := he.links
  obtain ⟨F, hF, hFs⟩ := he.targets
  -- no entry of the map names the link of a tablespace
  have hts : ∀ t ∈ m.targets, t.tablespaceId ≠ 0 → ∀ k d, Entry o.linkMap k d → inData t.name ≠ inData k := by
    intro t ht hid k d hk heq
    obtain ⟨_, _, _, g4, g5, g6, _⟩ := h.ts t ht hid
    rw [heq] at g4 g5 g6
    rcases (hval k d hk).1 with ⟨s, hs, hsn⟩ | hf | ⟨p, hp, hpn⟩
    · exact g6 s hs hsn
    · exact g4 hf
    · exact g5 p hp hpn
  -- a target with the name of the link of a tablespace is none that was removed
  have hts2 : ∀ t ∈ m.targets, t.tablespaceId ≠ 0 → ∀ s ∈ m3.targets, s.name ≠ inData t.name := by
    intro t ht hid s hs hsn
    rcases (hla.targets s).1 hs with ⟨hs, _⟩ | ⟨k, d, hk, hm⟩
    · rw [hF] at hs
      obtain ⟨r, hr, rfl⟩ := List.mem_map.1 hs
      rw [(hFs r hr).1] at hsn
      exact (h.ts t ht hid).2.2.2.2.2.1 r hr hsn
    · exact hts t ht hid k d hk (hsn.symm.trans hm.name)
  -- the target of the name is removed or not
  have hgone : ∀ {t : Target} {k : Str}, t ∈ m.targets → t.name = inData k → (¬ ∃ d, Entry o.linkMap k d) → t ∈ m3.targets := by
    intro t k ht hn hnk
    rw [hla.targets]
    refine .inl ⟨(early_target h he hn).2 ht, ?_⟩
    intro x d hx heq
    rw [hn] at heq
    have := inData_inj.1 heq
    subst this
    exact hnk ⟨d, hx⟩
  intro l'
  rw [h7, hla.links]
  constructor
  · rintro ⟨⟨hl', hno⟩ | ⟨k, d, hk, hm⟩, hg⟩
    · rw [hG] at hl'
      obtain ⟨l, hlm, rfl⟩ := List.mem_map.1 hl'
      obtain ⟨g1, g2, g3⟩ := hGs l hlm
      rcases h.target l hlm with ⟨t, ht, t1, t2, t3⟩ | ⟨t, ht, t2, t3⟩
      · obtain ⟨⟨k, hk⟩, _⟩ := h.link t ht t1 t2
        have hnot : ∀ s ∈ m.targets, s.tablespaceId ≠ 0 → l.name ≠ inData s.name := by
          intro s hs hid
          rw [← t3]
          exact (h.ts s hs hid).2.2.2.2.2.1 t ht
        rw [g3 hnot] at hno hg ⊢
        have hnk : ¬ ∃ d, Entry o.linkMap k d := by
          rintro ⟨d, hd⟩
          exact hno k d hd (t3.symm.trans hk)
        rcases hg with hg | hg
        · exact .kept hlm ht hk t3.symm hnk hg
        · have := hg t (hgone ht hk hnk) t3
          rw [(gone_iff hl hk t1 t2).2 hnk] at this
          cases this
      · obtain ⟨p, g4, g5⟩ := g2 t ht t2 t3
        rw [g4]
        exact .ts hlm ht t2 t3 ((g5 p).2 rfl)
    · rw [early_madeL h he] at hm
      rcases hm with ⟨⟨t, ht, htn⟩, l, hlm, hln, rfl⟩ | ⟨hn, b, hb, rfl⟩
      · exact .mapped hlm ht (hln.trans htn.symm) htn hk
      · exact .created hk hn hb
  · intro hw
    cases hw with
    | @ts l t p hlm ht hid hln hgo =>
      obtain ⟨g1, g2, g3⟩ := hGs l hlm
      obtain ⟨q, g4, g5⟩ := g2 t ht hid hln
      have := (g5 p).1 hgo
      subst this
      rw [← g4]
      refine ⟨.inl ⟨by rw [hG]; exact List.mem_map.2 ⟨l, hlm, rfl⟩, ?_⟩, .inr ?_⟩
      · intro k d hk
        rw [g1, hln]
        exact hts t ht hid k d hk
      · intro s hs hsn
        rw [g1, hln] at hsn
        exact absurd hsn (hts2 t ht hid s hs)
    | @mapped l t k d hlm ht hln htn hk =>
      refine ⟨.inr ⟨k, d, hk, (early_madeL h he _ _ _).2 (.inl ⟨⟨t, ht, htn⟩, l, hlm, hln.trans htn, rfl⟩)⟩, .inr ?_⟩
      intro s hs hsn
      dsimp only at hsn
      have hsk : s.name = inData k := hsn.trans (hln.trans htn)
      obtain ⟨s1, s2⟩ := inData_target hla.wf hs hsk
      cases hg : gone o s with
      | false => rfl
      | true => exact absurd ⟨d, hk⟩ ((gone_iff hl hsk s1 s2).1 hg)
    | @kept _ t k hlm ht htn hln hnk hall =>
      refine ⟨.inl ⟨(early_link h he ht hln ⟨k, htn⟩).2 hlm, ?_⟩, .inl hall⟩
      intro x d hx heq
      rw [hln, htn] at heq
      have := inData_inj.1 heq
      subst this
      exact hnk ⟨d, hx⟩
    | @created k d b hk hn hb =>
      refine ⟨.inr ⟨k, d, hk, (early_madeL h he _ _ _).2 (.inr ⟨hn, b, hb, rfl⟩)⟩, .inr ?_⟩
      intro s hs hsn
      dsimp only at hsn
      obtain ⟨s1, s2⟩ := inData_target hla.wf hs hsn
      cases hg : gone o s with
      | false => rfl
      | true => exact absurd ⟨d, hk⟩ ((gone_iff hl hsn s1 s2).1 hg)

/-- The manifest is as well formed as before, except that a link map can make links. -/
theorem c49_names {o : Opt} (ho : Distinct o.tsMap) (hl : Distinct o.linkMap) {m m' : M} (h : Wf m) (hr : restoreMap o m = .ok m') :
    ∀ s ∈ m'.targets, ∀ t ∈ m'.targets, s.name = t.name → s = t := by
  rcases restoreMap_spec ho hl h with ⟨h1, _⟩ | ⟨h1, _⟩ | ⟨_, hval, m2, m3, m4, h3, he, hla, hrem⟩
  · rw [h1] at hr
    cases hr
  · rw [h1] at hr
    cases hr
  rw [h3] at hr
  cases hr
  obtain ⟨m4', h4, h5, h6, h7, _⟩ := removeLinks_spec (o := o) hla.wf
  rw [hrem] at h4
  cases h4
  intro s hs t ht hn
  exact same_name hla.wf.names ((h7 s).1 hs).1 ((h7 t).1 ht).1 hn

/-- With the check of links that comes next (C38), no entry of the tablespace map is used for two tablespaces. -/
theorem c49_one {o : Opt} (ho : Distinct o.tsMap) (hl : Distinct o.linkMap) {m m' : M} (h : Wf m) (hr : restoreMap o m = .ok m')
    (hpg : [47] <+: o.pgPath) (hts : ∀ t ∈ m.targets, t.tablespaceId ≠ 0 → t.link = true) (hc : linkCheck m'.targets = .ok ())
    {k p : Str} (hk : Entry o.tsMap k p) (hp : [47] <+: p) {s t : Target} (hs : s ∈ m.targets) (ht : t ∈ m.targets) (hsid : s.tablespaceId ≠ 0)
    (htid : t.tablespaceId ≠ 0) (hsk : s.tablespaceName = some k ∨ k = Num.uintToZ s.tablespaceId.toNat)
    (htk : t.tablespaceName = some k ∨ k = Num.uintToZ t.tablespaceId.toNat) : s = t := by
  have hT := (c49_targets ho hl h hr).1
  have hgo : ∀ x : Target, (x.tablespaceName = some k ∨ k = Num.uintToZ x.tablespaceId.toNat) → Goes o x x.path p := by
    rintro x (hx | hx)
    · exact .inl ⟨k, hx, hk⟩
    · exact .inr (.inl (hx ▸ hk))
  have hs' := (hT _).2 (.ts hs hsid (hgo s hsk))
  have ht' := (hT _).2 (.ts ht htid (hgo t htk))
  apply Classical.byContradiction
  intro hne
  have hnn : s.name ≠ t.name := fun he => hne (same_name h.names hs ht he)
  obtain ⟨bt, hbt, hbn⟩ := h.base
  have hb' := (hT _).2 (.data hbt hbn)
  have habs : ∀ (x : Target) (q : Str), [47] <+: q → targetPath m'.targets { x with path := q } = .ok q := by
    intro x q hq
    unfold targetPath
    rw [if_pos ((begins_iff _ _).2 hq)]
  have hbase : Base m'.targets o.pgPath := by
    refine ⟨{ bt with path := o.pgPath }, ?_, habs bt _ hpg⟩
    unfold targetFind
    cases hf : m'.targets.find? (·.name == pgdataZ) with
    | none =>
      have := List.find?_eq_none.1 hf _ hb'
      simp [hbn] at this
    | some y =>
      have h1 := List.find?_some hf
      simp only [beq_iff_eq] at h1
      have := c49_names ho hl h hr y (List.mem_of_find?_eq_some hf) _ hb' (by rw [h1]; exact hbn.symm)
      rw [this]
  have key : ∀ x y : Target, x.tablespaceId ≠ 0 → y.tablespaceId ≠ 0 → x ∈ m.targets → y ∈ m.targets →
      ∀ a d c, m'.targets = a ++ { x with path := p } :: d ++ { y with path := p } :: c → False := by
    intro x y hx hy hxm hym a d c e
    exact c38_file_directory (q := p) (p := p) (g := none) (f := none) hbase hc e
      ⟨hts x hxm hx, habs x p hp, (h.ts x hxm hx).1⟩ ⟨hts y hym hy, habs y p hp, (h.ts y hym hy).1⟩ (.inl rfl) rfl
  obtain ⟨a, b, e⟩ := List.append_of_mem hs'
  rw [e] at ht'
  rcases List.mem_append.1 ht' with ht2 | ht2
  · obtain ⟨a1, a2, e2⟩ := List.append_of_mem ht2
    refine key t s htid hsid ht hs a1 a2 b ?_
    rw [e, e2]
  · rcases List.mem_cons.1 ht2 with ht2 | ht2
    · exact hnn (congrArg Target.name ht2).symm
    · obtain ⟨a1, a2, e2⟩ := List.append_of_mem ht2
      refine key s t hsid htid hs ht a a1 a2 ?_
      rw [e, e2]
      simp

/-- A target that is a tablespace is not changed by the link map, whatever its name is. -/
theorem c49_tablespace (m : M) (k d : Str) (t : Target) (h : m.targets.find? (·.name == inData k) = some t) (hid : t.tablespaceId ≠ 0) :
    ∃ e, linkOne m k d = .error e := by
  unfold linkOne
  rw [h]
  simp only [linkExisting]
  by_cases hl : t.link = false
  · rw [if_pos hl]
    exact ⟨_, rfl⟩
  · rw [if_neg hl, if_pos hid]
    exact ⟨_, rfl⟩

example : linkOne { targets := [⟨inData [120], true, [47], none, 7, some [97]⟩], links := [⟨inData [120], [47], none, none⟩], paths := [], files := [] } [120] [47, 97]
    = .error .linkMap := by decide +kernel

/-! ## Examples -/

theorem inData_of_take {n : Str} (h : n.take (pgdataZ.length + 1) = inData []) : ∃ k, n = inData k :=
  ⟨n.drop (pgdataZ.length + 1), by
    conv_lhs => rw [← List.take_append_drop (pgdataZ.length + 1) n, h]
    unfold inData
    simp⟩

theorem not_inData_of_take {n : Str} (h : n.take (pgdataZ.length + 1) ≠ inData []) (k : Str) : n ≠ inData k := by
  rintro rfl
  apply h
  unfold inData
  rw [show pgdataZ ++ 47 :: k = (pgdataZ ++ [47]) ++ k by simp, show pgdataZ.length + 1 = (pgdataZ ++ [47]).length by simp, List.take_left]

/-- A manifest with a linked WAL directory, a linked configuration file, another linked directory and the tablespaces `a` (100), `b` (200) and `c`
(300). -/
def exM : M where
  targets := [⟨[112, 103, 95, 100, 97, 116, 97], false, [47, 112, 103], none, 0, none⟩,
    ⟨[112, 103, 95, 100, 97, 116, 97, 47, 111, 108, 100], true, [47, 111, 108, 100], none, 0, none⟩,
    ⟨[112, 103, 95, 100, 97, 116, 97, 47, 112, 103, 95, 119, 97, 108], true, [47, 119, 97, 108], none, 0, none⟩,
    ⟨[112, 103, 95, 100, 97, 116, 97, 47, 120, 46, 99, 111, 110, 102], true, [47, 99, 111, 110, 102], some [120, 46, 99, 111, 110, 102], 0, none⟩,
    ⟨[112, 103, 95, 116, 98, 108, 115, 112, 99, 47, 49, 48, 48], true, [47, 116, 115, 47, 97], none, 100, some [97]⟩,
    ⟨[112, 103, 95, 116, 98, 108, 115, 112, 99, 47, 50, 48, 48], true, [47, 116, 115, 47, 98], none, 200, some [98]⟩,
    ⟨[112, 103, 95, 116, 98, 108, 115, 112, 99, 47, 51, 48, 48], true, [47, 116, 115, 47, 99], none, 300, some [99]⟩]
  links := [⟨[112, 103, 95, 100, 97, 116, 97, 47, 111, 108, 100], [47, 111, 108, 100], none, none⟩,
    ⟨[112, 103, 95, 100, 97, 116, 97, 47, 112, 103, 95, 116, 98, 108, 115, 112, 99, 47, 49, 48, 48], [47, 116, 115, 47, 97], none, none⟩,
    ⟨[112, 103, 95, 100, 97, 116, 97, 47, 112, 103, 95, 116, 98, 108, 115, 112, 99, 47, 50, 48, 48], [47, 116, 115, 47, 98], none, none⟩,
    ⟨[112, 103, 95, 100, 97, 116, 97, 47, 112, 103, 95, 116, 98, 108, 115, 112, 99, 47, 51, 48, 48], [47, 116, 115, 47, 99], none, none⟩,
    ⟨[112, 103, 95, 100, 97, 116, 97, 47, 112, 103, 95, 119, 97, 108], [47, 119, 97, 108], none, none⟩,
    ⟨[112, 103, 95, 100, 97, 116, 97, 47, 120, 46, 99, 111, 110, 102], [47, 99, 111, 110, 102, 47, 120, 46, 99, 111, 110, 102], none, none⟩]
  paths := [⟨[112, 103, 95, 100, 97, 116, 97], 448, some [117], none⟩, ⟨[112, 103, 95, 100, 97, 116, 97, 47, 98, 97, 115, 101], 448, some [117], none⟩, ⟨[112, 103, 95, 100, 97, 116, 97, 47, 111, 108, 100], 448, some [117], none⟩, ⟨[112, 103, 95, 100, 97, 116, 97, 47, 112, 103, 95, 116, 98, 108, 115, 112, 99], 448, some [117], none⟩, ⟨[112, 103, 95, 100, 97, 116, 97, 47, 112, 103, 95, 119, 97, 108], 448, some [117], none⟩, ⟨[112, 103, 95, 116, 98, 108, 115, 112, 99], 448, some [117], none⟩, ⟨[112, 103, 95, 116, 98, 108, 115, 112, 99, 47, 49, 48, 48], 448, some [117], none⟩]
  files := [[112, 103, 95, 100, 97, 116, 97, 47, 80, 71, 95, 86, 69, 82, 83, 73, 79, 78], [112, 103, 95, 100, 97, 116, 97, 47, 98, 97, 115, 101, 47, 49], [112, 103, 95, 100, 97, 116, 97, 47, 120, 46, 99, 111, 110, 102]]

theorem exM_wf : Wf exM where
  names := by decide +kernel
  base := by decide +kernel
  data := by decide +kernel
  path := by decide +kernel
  only := by decide +kernel
  ts := by
    intro t ht hid
    have h1 : ∀ t ∈ exM.targets, t.tablespaceId ≠ 0 → t.file = none ∧ t.tablespaceName.isSome = true ∧ (∃ l ∈ exM.links, l.name = inData t.name) ∧
      inData t.name ∉ exM.files ∧ (∀ p ∈ exM.paths, p.name ≠ inData t.name) ∧ (∀ s ∈ exM.targets, s.name ≠ inData t.name) ∧
      t.name.take (pgdataZ.length + 1) ≠ inData [] := by decide +kernel
    obtain ⟨a, b, c, d, e, f, g⟩ := h1 t ht hid
    exact ⟨a, b, c, d, e, f, not_inData_of_take g⟩
  link := by
    intro t ht hl hid
    have h1 : ∀ t ∈ exM.targets, t.link = true → t.tablespaceId = 0 →
      t.name.take (pgdataZ.length + 1) = inData [] ∧ ∃ l ∈ exM.links, l.name = t.name := by decide +kernel
    obtain ⟨a, b⟩ := h1 t ht hl hid
    exact ⟨inData_of_take a, b⟩
  target := by decide +kernel
  files := by decide +kernel

/-- `a` is mapped by name, `200` by id, the rest to `/all`. The WAL directory and the configuration file are mapped, and so are the path `base` and
the file `PG_VERSION` that were no links. -/
def exO : Opt := ⟨[47, 110, 101, 119], some [([97], [47, 110, 97]), ([50, 48, 48], [47, 110, 98])], some [47, 97, 108, 108], some [([120, 46, 99, 111, 110, 102], [47, 110, 99, 47, 121, 46, 99, 111, 110, 102]), ([112, 103, 95, 119, 97, 108], [47, 110, 119]), ([98, 97, 115, 101], [47, 110, 98, 97, 115, 101]), ([80, 71, 95, 86, 69, 82, 83, 73, 79, 78], [47, 118])], false⟩

theorem exO_ts : Distinct exO.tsMap := by
  intro l hl
  cases hl
  decide +kernel

theorem exO_link : Distinct exO.linkMap := by
  intro l hl
  cases hl
  decide +kernel

/-- What comes out. -/
def exR : M where
  targets := [⟨[112, 103, 95, 100, 97, 116, 97], false, [47, 110, 101, 119], none, 0, none⟩,
    ⟨[112, 103, 95, 100, 97, 116, 97, 47, 112, 103, 95, 119, 97, 108], true, [47, 110, 119], none, 0, none⟩,
    ⟨[112, 103, 95, 100, 97, 116, 97, 47, 120, 46, 99, 111, 110, 102], true, [47, 110, 99], some [121, 46, 99, 111, 110, 102], 0, none⟩,
    ⟨[112, 103, 95, 116, 98, 108, 115, 112, 99, 47, 49, 48, 48], true, [47, 110, 97], none, 100, some [97]⟩,
    ⟨[112, 103, 95, 116, 98, 108, 115, 112, 99, 47, 50, 48, 48], true, [47, 110, 98], none, 200, some [98]⟩,
    ⟨[112, 103, 95, 116, 98, 108, 115, 112, 99, 47, 51, 48, 48], true, [47, 97, 108, 108, 47, 99], none, 300, some [99]⟩,
    ⟨[112, 103, 95, 100, 97, 116, 97, 47, 80, 71, 95, 86, 69, 82, 83, 73, 79, 78], true, [47], some [118], 0, none⟩,
    ⟨[112, 103, 95, 100, 97, 116, 97, 47, 98, 97, 115, 101], true, [47, 110, 98, 97, 115, 101], none, 0, none⟩]
  links := [⟨[112, 103, 95, 100, 97, 116, 97, 47, 112, 103, 95, 116, 98, 108, 115, 112, 99, 47, 49, 48, 48], [47, 110, 97], none, none⟩,
    ⟨[112, 103, 95, 100, 97, 116, 97, 47, 112, 103, 95, 116, 98, 108, 115, 112, 99, 47, 50, 48, 48], [47, 110, 98], none, none⟩,
    ⟨[112, 103, 95, 100, 97, 116, 97, 47, 112, 103, 95, 116, 98, 108, 115, 112, 99, 47, 51, 48, 48], [47, 97, 108, 108, 47, 99], none, none⟩,
    ⟨[112, 103, 95, 100, 97, 116, 97, 47, 112, 103, 95, 119, 97, 108], [47, 110, 119], none, none⟩,
    ⟨[112, 103, 95, 100, 97, 116, 97, 47, 120, 46, 99, 111, 110, 102], [47, 110, 99, 47, 121, 46, 99, 111, 110, 102], none, none⟩,
    ⟨[112, 103, 95, 100, 97, 116, 97, 47, 80, 71, 95, 86, 69, 82, 83, 73, 79, 78], [47, 118], some [117], none⟩,
    ⟨[112, 103, 95, 100, 97, 116, 97, 47, 98, 97, 115, 101], [47, 110, 98, 97, 115, 101], some [117], none⟩]
  paths := exM.paths
  files := exM.files

theorem exM_ok : restoreMap exO exM = .ok exR := by decide +kernel

example : TsValid exO exM ∧ LinkValid exO exM := (c49_ok exO_ts exO_link exM_wf).1 ⟨exR, exM_ok⟩

/-- The tablespace that is in no entry goes below the path for all. -/
example : WantT exO exM ⟨[112, 103, 95, 116, 98, 108, 115, 112, 99, 47, 51, 48, 48], true, [47, 97, 108, 108, 47, 99], none, 300, some [99]⟩ := ((c49_targets exO_ts exO_link exM_wf exM_ok).1 _).1 (by decide +kernel)

/-- The link that is not mapped is gone. -/
example (t : Target) (h : t.name = inData [111, 108, 100]) : ¬ WantT exO exM t := by
  intro hw
  have := ((c49_targets exO_ts exO_link exM_wf exM_ok).1 t).2 hw
  exact absurd h ((by decide +kernel : ∀ t ∈ exR.targets, t.name ≠ inData [111, 108, 100]) t this)

/-- The file is a link now. -/
example : WantL exO exM ⟨[112, 103, 95, 100, 97, 116, 97, 47, 80, 71, 95, 86, 69, 82, 83, 73, 79, 78], [47, 118], some [117], none⟩ := ((c49_links exO_ts exO_link exM_wf exM_ok) _).1 (by decide +kernel)

/-- All links are kept where they were. -/
example : (restoreMap { exO with linkAll := true, linkMap := none } exM).toOption.map (·.links.length) = some 6 := by decide +kernel

example : ∀ s ∈ exR.targets, ∀ t ∈ exR.targets, s.name = t.name → s = t := c49_names exO_ts exO_link exM_wf exM_ok

/-- Two entries for a tablespace must agree. -/
example : restoreMap { exO with tsMap := some [([97], [47, 110, 97]), ([49, 48, 48], [47, 110, 98])] } exM = .error .tablespaceMap := by decide +kernel

example : restoreMap { exO with tsMap := some [([97], [47, 110, 97]), ([49, 48, 48], [47, 110, 97])] } exM ≠ .error .tablespaceMap := by decide +kernel

/-- An entry for no tablespace. -/
example : restoreMap { exO with tsMap := some [([97], [47, 110, 97]), ([122, 122], [47, 110, 98])] } exM = .error .tablespaceMap := by decide +kernel

/-- An entry for the link of a tablespace, and one for nothing. -/
example : restoreMap { exO with linkMap := some [([112, 103, 95, 116, 98, 108, 115, 112, 99, 47, 49, 48, 48], [47, 110])] } exM = .error .linkMap ∧ restoreMap { exO with linkMap := some [([122, 122], [47, 110])] } exM = .error .linkMap := by
  decide +kernel

/-- A destination without path for a file. -/
example : restoreMap { exO with linkMap := some [([120, 46, 99, 111, 110, 102], [121, 46, 99, 111, 110, 102])] } exM = .error .linkMap := by decide +kernel

example : ¬ TsValid { exO with tsMap := some [([97], [47, 110, 97]), ([122, 122], [47, 110, 98])] } exM := by
  have hd : Distinct (some [([97], [47, 110, 97]), ([122, 122], [47, 110, 98])] : Option (List (Str × Str))) := by
    intro l hl
    cases hl
    decide +kernel
  rcases c49_error (o := { exO with tsMap := some [([97], [47, 110, 97]), ([122, 122], [47, 110, 98])] }) hd exO_link exM_wf .tablespaceMap (by decide +kernel) with h | h
  · exact h.2
  · cases h.1

/-- The check of links accepts the result. -/
theorem exR_check : linkCheck exR.targets = .ok () := by decide +kernel

example {t : Target} (ht : t ∈ exM.targets) (hid : t.tablespaceId ≠ 0) (h : t.tablespaceName = some [97] ∨ [97] = Num.uintToZ t.tablespaceId.toNat) :
    t = ⟨[112, 103, 95, 116, 98, 108, 115, 112, 99, 47, 49, 48, 48], true, [47, 116, 115, 47, 97], none, 100, some [97]⟩ :=
  c49_one exO_ts exO_link exM_wf exM_ok (by decide) (by decide +kernel) exR_check (k := [97]) (p := [47, 110, 97])
    ⟨_, rfl, by decide⟩ (by decide) ht (by decide +kernel) hid (by decide) h (.inl rfl)

/-- A tablespace is named as the id of another is. Without the check of links both go to the path of the one entry. -/
def exTwo : M where
  targets := [⟨[112, 103, 95, 100, 97, 116, 97], false, [47, 112, 103], none, 0, none⟩,
    ⟨[112, 103, 95, 116, 98, 108, 115, 112, 99, 47, 49, 48, 48], true, [47, 116, 115, 47, 97], none, 100, some [50, 48, 48]⟩,
    ⟨[112, 103, 95, 116, 98, 108, 115, 112, 99, 47, 50, 48, 48], true, [47, 116, 115, 47, 98], none, 200, some [98]⟩]
  links := [⟨[112, 103, 95, 100, 97, 116, 97, 47, 112, 103, 95, 116, 98, 108, 115, 112, 99, 47, 49, 48, 48], [47, 116, 115, 47, 97], none, none⟩,
    ⟨[112, 103, 95, 100, 97, 116, 97, 47, 112, 103, 95, 116, 98, 108, 115, 112, 99, 47, 50, 48, 48], [47, 116, 115, 47, 98], none, none⟩]
  paths := exM.paths
  files := exM.files

def exTwoO : Opt := ⟨[47, 110, 101, 119], some [([50, 48, 48], [47, 110])], none, none, false⟩

theorem c49_two : (restoreMap exTwoO exTwo).toOption.map (fun m => m.targets.map (·.path)) = some [[47, 110, 101, 119], [47, 110], [47, 110]] ∧
    (restoreMap exTwoO exTwo).toOption.map (fun m => linkCheck m.targets) = some (.error .linkDestination) := by decide +kernel

/-- A destination that ends with a slash gives a file without name. -/
example : (restoreMap { exO with linkMap := some [([120, 46, 99, 111, 110, 102], [47, 110, 99, 47])] } exM).toOption.bind (fun m => m.targets.find? (·.name == inData [120, 46, 99, 111, 110, 102])) =
    some ⟨[112, 103, 95, 100, 97, 116, 97, 47, 120, 46, 99, 111, 110, 102], true, [47, 110, 99], some [], 0, none⟩ := by decide +kernel

end Verif.Restore.Remap
