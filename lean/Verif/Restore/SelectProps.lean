import Verif.Restore.SelectModel
import Verif.StrLst.AntiProps
import Verif.Wal.Props

/-! # Selective restore (C22)

The specification is in terms of the manifest and of paths only: a database is *found* when the backup holds its `PG_VERSION`
file in the default tablespace or in some tablespace, or when it is a system database named by the manifest. -/

namespace Verif.Restore

open Num Wal StrLst

/-! ## Specification -/

/-- A decimal number. -/
def Digits (d : Str) : Prop := d ≠ [] ∧ ∀ c ∈ d, 0x30 ≤ c ∧ c ≤ 0x39

/-- `f` is the `PG_VERSION` file of database `d`. -/
def VersionOf (tsId d f : Str) : Prop :=
  Digits d ∧ (f = basePath ++ d ++ versionFile ∨
    ∃ n, Digits n ∧ f = tblspcPath ++ n ++ [0x2f] ++ tsId ++ [0x2f] ++ d ++ versionFile)

/-- The backup holds a directory of database `d`. -/
def HasDir (m : Mf) (d : Str) : Prop := ∃ f ∈ m.files, VersionOf m.tsId d f

/-- `d` is the id of a system database listed in the manifest. -/
def ListedSystem (m : Mf) (d : Str) : Prop :=
  ∃ db ∈ m.dbs, (isSystemName db.name = true ∨ db.id < 16384) ∧ d = uintToZ db.id

/-- The database is in the backup. -/
def Found (m : Mf) (d : Str) : Prop := HasDir m d ∨ ListedSystem m d

/-- The database is a system database. -/
def System (m : Mf) (d : Str) : Prop := ListedSystem m d ∨ (HasDir m d ∧ ∃ v, Numeral 10 d v ∧ v < 16384)

/-- What the user means by `x`: the id of a database found, or else the name of one. -/
def Means (m : Mf) (x d : Str) : Prop :=
  (Found m x ∧ d = x) ∨ (¬ Found m x ∧ ∃ db ∈ m.dbs, db.name = x ∧ d = uintToZ db.id ∧ Found m d)

/-- The user named the database in the list. -/
def Named (m : Mf) (l : List Str) (d : Str) : Prop := ∃ x ∈ l, Means m x d

/-- `f` is in a directory of database `d`. -/
def InDb (m : Mf) (d f : Str) : Prop :=
  (basePath ++ d ++ [0x2f]) <+: f ∨
    ∃ t ∈ m.targets, t.tablespaceId ≠ 0 ∧ (t.name ++ [0x2f] ++ m.tsId ++ [0x2f] ++ d ++ [0x2f]) <+: f

/-- What is assumed of the manifest: databases have different ids and names, no database is named as the id of another, and
nothing else in the directory of a database has a name beginning with `PG_VERSION`. -/
structure WF (m : Mf) : Prop where
  ids : (m.dbs.map (·.id)).Nodup
  width : ∀ db ∈ m.dbs, db.id < 2 ^ 32
  names : (m.dbs.map (·.name)).Nodup
  notId : ∀ db ∈ m.dbs, ¬ Found m db.name
  clean : ∀ f ∈ m.files, ∀ d g, VersionOf m.tsId d g → g <+: f → ∃ e, VersionOf m.tsId e f

/-- Tablespaces are linked by their id, src/info/manifest.h:39. -/
def WFTargets (m : Mf) : Prop := ∀ t ∈ m.targets, t.tablespaceId ≠ 0 → ∃ n, Digits n ∧ t.name = tblspcPath ++ n

/-- The databases zeroed. -/
def ToZero (m : Mf) (inc exc : List Str) (d : Str) : Prop :=
  (inc = [] ∧ Named m exc d) ∨
  (inc ≠ [] ∧ Found m d ∧ ¬ Named m inc d ∧ (System m d → Named m exc d))

/-! ## Lemmas: paths -/

theorem isDigit_iff (c : UInt8) : isDigit c = true ↔ 0x30 ≤ c ∧ c ≤ 0x39 := by
  unfold isDigit
  simp

theorem lit_some {p s r : Str} : lit p s = some r ↔ s = p ++ r := by
  unfold lit
  constructor
  · intro h
    split at h
    · rename_i hp
      cases h
      obtain ⟨t, ht⟩ := List.isPrefixOf_iff_prefix.1 hp
      rw [← ht]
      simp
    · cases h
  · rintro rfl
    rw [if_pos (List.isPrefixOf_iff_prefix.2 ⟨r, rfl⟩)]
    simp

theorem digits_some {s r : Str} : digits s = some r ↔ ∃ d, Digits d ∧ s = d ++ r ∧ ∀ c, r.head? = some c → isDigit c = false := by
  unfold digits
  constructor
  · intro h
    split at h
    · cases h
    · rename_i hne
      cases h
      refine ⟨s.takeWhile isDigit, ⟨hne, fun c hc => (isDigit_iff c).1 ?_⟩, List.takeWhile_append_dropWhile.symm, ?_⟩
      · exact List.all_eq_true.1 (List.all_takeWhile (p := isDigit) (l := s)) c hc
      · intro c hc
        cases hd : s.dropWhile isDigit with
        | nil => rw [hd] at hc; cases hc
        | cons a l =>
          rw [hd] at hc
          cases hc
          have := List.head?_dropWhile_not isDigit s
          rw [hd] at this
          simpa using this
  · rintro ⟨d, ⟨hne, hd⟩, rfl, hr⟩
    have hall : ∀ c ∈ d, isDigit c = true := fun c hc => (isDigit_iff c).2 (hd c hc)
    have hnil : r.takeWhile isDigit = [] ∧ r.dropWhile isDigit = r := by
      cases r with
      | nil => simp
      | cons c r => simp [hr c rfl]
    rw [List.takeWhile_append_of_pos hall, List.dropWhile_append_of_pos hall, hnil.1, hnil.2]
    simp [hne]

theorem split_append (d : UInt8) (a b : Str) : split d (a ++ d :: b) = split d a ++ split d b := by
  induction a with
  | nil => simp [split]
  | cons c a ih =>
    rw [List.cons_append, split, split]
    split
    · rw [ih]; rfl
    · rw [ih]
      cases hs : split d a with
      | nil =>
        exfalso
        cases a with
        | nil => simp [split] at hs
        | cons x a =>
          rw [split] at hs
          split at hs
          · cases hs
          · cases hs' : split d a <;> rw [hs'] at hs <;> cases hs
      | cons x xs => rfl

theorem Digits.noslash {d : Str} (h : Digits d) : (0x2f : UInt8) ∉ d := fun hm => by
  have := (h.2 _ hm).1
  revert this
  decide

theorem versionOf_parent {tsId d f : Str} (h : VersionOf tsId d f) : parentBase f = d := by
  obtain ⟨hd, h | ⟨n, hn, h⟩⟩ := h
  all_goals
    have hv : versionFile = 0x2f :: versionFile.tail := rfl
    unfold parentBase
    rw [h, hv]
  · rw [split_append, show basePath ++ d = basePath.dropLast ++ 0x2f :: d from rfl, split_append, split_none _ d hd.noslash]
    simp [split_none 0x2f versionFile.tail (by decide)]
  · rw [split_append, List.append_assoc, List.append_assoc, List.singleton_append, ← List.append_assoc, split_append,
      split_none _ d hd.noslash]
    simp [split_none 0x2f versionFile.tail (by decide)]

theorem match_iff (tsId f : Str) : (baseMatch f || tblspcMatch tsId f) = true ↔ ∃ d g, VersionOf tsId d g ∧ g <+: f := by
  have hslash : ∀ (x : Str) (r : Str) (c : UInt8), (0x2f :: x ++ r).head? = some c → isDigit c = false := by
    intro x r c h
    cases h
    decide
  rw [Bool.or_eq_true]
  unfold baseMatch tblspcMatch
  simp only [Option.isSome_iff_exists, Option.bind_eq_some_iff, lit_some, digits_some]
  constructor
  · rintro (⟨r, s, ⟨t, rfl, d, hd, rfl, _⟩, rfl⟩ | ⟨r, s, ⟨t, ⟨u, ⟨w, rfl, n, hn, rfl, _⟩, rfl⟩, d, hd, rfl, _⟩, rfl⟩)
    · exact ⟨d, basePath ++ d ++ versionFile, ⟨hd, .inl rfl⟩, r, by simp⟩
    · exact ⟨d, _, ⟨hd, .inr ⟨n, hn, rfl⟩⟩, r, by simp⟩
  · rintro ⟨d, g, ⟨hd, rfl | ⟨n, hn, rfl⟩⟩, r, rfl⟩
    · refine .inl ⟨r, versionFile ++ r, ⟨d ++ versionFile ++ r, by simp, d, hd, by simp, ?_⟩, rfl⟩
      exact hslash versionFile.tail r
    · refine .inr ⟨r, versionFile ++ r, ⟨d ++ versionFile ++ r, ⟨0x2f :: tsId ++ [0x2f] ++ (d ++ versionFile ++ r),
        ⟨n ++ (0x2f :: tsId ++ [0x2f] ++ (d ++ versionFile ++ r)), by simp, n, hn, rfl, ?_⟩, rfl⟩, d, hd, by simp, ?_⟩, rfl⟩
      · intro c h
        cases h
        decide
      · exact hslash versionFile.tail r

theorem Digits.numeral {d : Str} (h : Digits d) : ∃ v, Numeral 10 d v := by
  refine ⟨_, h.1, d.map (fun c => c.toNat - 0x30), ?_, rfl⟩
  rw [List.map_map]
  apply List.map_congr_left
  intro c hc
  obtain ⟨h1, h2⟩ := h.2 c hc
  have h2' : c.toNat ≤ 0x39 := UInt8.le_iff_toNat_le.1 h2
  simp only [digitOf, digitVal, h1, h2, and_self, if_true, Function.comp]
  rw [if_pos (by omega)]

/-! ## Lemmas: the databases found -/

theorem mem_addIfMissing (l : List Str) (x d : Str) : d ∈ addIfMissing l x ↔ d ∈ l ∨ d = x := by
  unfold addIfMissing
  split
  · rename_i h
    simp at h
    constructor
    · exact .inl
    · rintro (h' | rfl) <;> assumption
  · simp

theorem nodup_addIfMissing {l : List Str} (x : Str) (h : l.Nodup) : (addIfMissing l x).Nodup := by
  unfold addIfMissing
  split
  · exact h
  · rename_i hx
    simp at hx
    rw [List.nodup_append]
    refine ⟨h, by simp, ?_⟩
    rintro a ha b hb rfl
    simp at hb
    exact hx (hb ▸ ha)

theorem scan_ok (tsId : Str) (fs : List Str) (sys all sys' all' : List Str)
    (hclean : ∀ f ∈ fs, ∀ d g, VersionOf tsId d g → g <+: f → ∃ e, VersionOf tsId e f)
    (h : scan tsId fs sys all = .ok (sys', all')) :
    (∀ d, d ∈ all' ↔ d ∈ all ∨ ∃ f ∈ fs, VersionOf tsId d f) ∧
    (∀ d, d ∈ sys' ↔ d ∈ sys ∨ (∃ f ∈ fs, VersionOf tsId d f) ∧ ∃ v, Numeral 10 d v ∧ v < 16384) ∧
    (all.Nodup → all'.Nodup) ∧ (sys.Nodup → sys'.Nodup) := by
  induction fs generalizing sys all with
  | nil =>
    cases h
    simp
  | cons f fs ih =>
    have hclean' : ∀ f ∈ fs, ∀ d g, VersionOf tsId d g → g <+: f → ∃ e, VersionOf tsId e f :=
      fun f hf => hclean f (List.mem_cons_of_mem _ hf)
    rw [scan] at h
    by_cases hm : (baseMatch f || tblspcMatch tsId f) = true
    · rw [if_pos hm] at h
      obtain ⟨d0, g, hg, hpre⟩ := (match_iff tsId f).1 hm
      obtain ⟨e, he⟩ := hclean f List.mem_cons_self d0 g hg hpre
      have hu : ∀ d, VersionOf tsId d f → d = e := fun d hd => by rw [← versionOf_parent hd, versionOf_parent he]
      rw [versionOf_parent he] at h
      obtain ⟨v, hv⟩ := he.1.numeral
      rw [(c51_numeral 10 e v hv).2.1] at h
      by_cases hlt : v < 2 ^ 32
      · rw [if_pos hlt] at h
        obtain ⟨h1, h2, h3, h4⟩ := ih _ _ hclean' h
        refine ⟨fun d => ?_, fun d => ?_, fun hn => h3 (nodup_addIfMissing e hn), fun hn => h4 ?_⟩
        · rw [h1, mem_addIfMissing]
          constructor
          · rintro ((h | rfl) | ⟨f', hf', h⟩)
            · exact .inl h
            · exact .inr ⟨f, List.mem_cons_self, he⟩
            · exact .inr ⟨f', List.mem_cons_of_mem _ hf', h⟩
          · rintro (h | ⟨f', hf', h⟩)
            · exact .inl (.inl h)
            · rcases List.mem_cons.1 hf' with rfl | hf'
              · exact .inl (.inr (hu d h))
              · exact .inr ⟨f', hf', h⟩
        · rw [h2]
          have hsys : d ∈ (if isSystemId v then addIfMissing sys e else sys) ↔ d ∈ sys ∨ (d = e ∧ v < 16384) := by
            unfold isSystemId
            by_cases hs : v < 16384
            · simp [hs, mem_addIfMissing]
            · simp [hs]
          rw [hsys]
          constructor
          · rintro ((h | ⟨rfl, hs⟩) | ⟨⟨f', hf', h⟩, hv'⟩)
            · exact .inl h
            · exact .inr ⟨⟨f, List.mem_cons_self, he⟩, v, hv, hs⟩
            · exact .inr ⟨⟨f', List.mem_cons_of_mem _ hf', h⟩, hv'⟩
          · rintro (h | ⟨⟨f', hf', h⟩, w, hw, hlt'⟩)
            · exact .inl (.inl h)
            · rcases List.mem_cons.1 hf' with rfl | hf'
              · cases hu d h
                have h64 := (c51_numeral 10 e v hv).2.1
                rw [(c51_numeral 10 e w hw).2.1, if_pos hlt, if_pos (by omega)] at h64
                cases h64
                exact .inl (.inr ⟨rfl, hlt'⟩)
              · exact .inr ⟨⟨f', hf', h⟩, w, hw, hlt'⟩
        · split
          · exact nodup_addIfMissing e hn
          · exact hn
      · rw [if_neg hlt] at h
        cases h
    · rw [if_neg hm] at h
      obtain ⟨h1, h2, h3, h4⟩ := ih _ _ hclean' h
      have hno : ∀ d, ¬ VersionOf tsId d f := fun d hd => hm ((match_iff tsId f).2 ⟨d, f, hd, List.prefix_refl f⟩)
      refine ⟨fun d => ?_, fun d => ?_, h3, h4⟩
      · rw [h1]
        simp [hno]
      · rw [h2]
        simp [hno]

theorem scan_total (tsId : Str) (fs : List Str) (sys all : List Str)
    (hclean : ∀ f ∈ fs, ∀ d g, VersionOf tsId d g → g <+: f → ∃ e, VersionOf tsId e f)
    (hw : ∀ f ∈ fs, ∀ d v, VersionOf tsId d f → Numeral 10 d v → v < 2 ^ 32) : ∃ r, scan tsId fs sys all = .ok r := by
  induction fs generalizing sys all with
  | nil => exact ⟨_, rfl⟩
  | cons f fs ih =>
    have ih' := fun s a => ih s a (fun f hf => hclean f (List.mem_cons_of_mem _ hf)) (fun f hf => hw f (List.mem_cons_of_mem _ hf))
    rw [scan]
    by_cases hm : (baseMatch f || tblspcMatch tsId f) = true
    · rw [if_pos hm]
      obtain ⟨d0, g, hg, hpre⟩ := (match_iff tsId f).1 hm
      obtain ⟨e, he⟩ := hclean f List.mem_cons_self d0 g hg hpre
      rw [versionOf_parent he]
      obtain ⟨v, hv⟩ := he.1.numeral
      rw [(c51_numeral 10 e v hv).2.1, if_pos (hw f List.mem_cons_self e v he hv)]
      exact ih' _ _
    · rw [if_neg hm]
      exact ih' _ _

/-! ## Lemmas: the choice -/

theorem resolve_some {dbs : List Db} {all : List Str} {x d : Str} :
    resolve dbs all x = some d ↔ d ∈ all ∧
      (d = x ∨ (x ∉ all ∧ ∃ db, dbs.find? (fun db => db.name == x) = some db ∧ d = uintToZ db.id)) := by
  unfold resolve
  by_cases hx : x ∈ all
  · simp only [List.contains_iff_mem, hx, if_true, not_true, false_and, or_false, Option.some.injEq]
    constructor
    · rintro rfl; exact ⟨hx, rfl⟩
    · rintro ⟨_, rfl⟩; rfl
  · simp only [List.contains_iff_mem, hx, if_false, not_false_eq_true, true_and]
    cases hf : dbs.find? (fun db => db.name == x) with
    | none =>
      simp only [reduceCtorEq, false_and, exists_false, or_false, false_iff, not_and]
      rintro h rfl
      exact hx h
    | some db =>
      simp only [Option.some.injEq]
      constructor
      · intro h
        split at h
        · rename_i hc
          cases h
          exact ⟨hc, .inr ⟨db, rfl, rfl⟩⟩
        · cases h
      · rintro ⟨h, rfl | ⟨_, rfl, rfl⟩⟩
        · exact absurd h hx
        · rw [if_pos h]

theorem excludeIds_ok {dbs : List Db} {all exc ids : List Str} (h : excludeIds dbs all exc = .ok ids) :
    (∀ x ∈ exc, ∃ d, resolve dbs all x = some d) ∧ ∀ d, d ∈ ids ↔ ∃ x ∈ exc, resolve dbs all x = some d := by
  induction exc generalizing ids with
  | nil =>
    cases h
    simp
  | cons x xs ih =>
    rw [excludeIds] at h
    split at h
    · cases h
    · rename_i d hd
      split at h
      · cases h
      · rename_i ds hds
        cases h
        obtain ⟨h1, h2⟩ := ih hds
        constructor
        · intro y hy
          rcases List.mem_cons.1 hy with rfl | hy
          · exact ⟨d, hd⟩
          · exact h1 y hy
        · intro e
          rw [List.mem_cons, h2]
          simp only [List.mem_cons, exists_eq_or_imp, hd, Option.some.injEq]
          constructor
          · rintro (rfl | h); exacts [.inl rfl, .inr h]
          · rintro (rfl | h); exacts [.inl rfl, .inr h]

theorem excludeIds_total {dbs : List Db} {all exc : List Str} (h : ∀ x ∈ exc, ∃ d, resolve dbs all x = some d) :
    ∃ ids, excludeIds dbs all exc = .ok ids := by
  induction exc with
  | nil => exact ⟨[], rfl⟩
  | cons x xs ih =>
    obtain ⟨d, hd⟩ := h x List.mem_cons_self
    obtain ⟨ids, hi⟩ := ih (fun y hy => h y (List.mem_cons_of_mem _ hy))
    exact ⟨d :: ids, by rw [excludeIds, hd]; dsimp only; rw [hi]⟩

theorem resolve_mono {dbs : List Db} {cur all : List Str} {x d : Str} (hsub : ∀ y ∈ cur, y ∈ all)
    (hn : ∀ db ∈ dbs, db.name ∉ all) (h : resolve dbs cur x = some d) : resolve dbs all x = some d := by
  rw [resolve_some] at h ⊢
  obtain ⟨hd, h⟩ := h
  refine ⟨hsub d hd, ?_⟩
  rcases h with rfl | ⟨_, db, hf, rfl⟩
  · exact .inl rfl
  · refine .inr ⟨fun hx => ?_, db, hf, rfl⟩
    have hname := List.find?_some hf
    simp at hname
    exact hn db (List.mem_of_find?_eq_some hf) (hname ▸ hx)

theorem resolve_anti {dbs : List Db} {cur all : List Str} {x d : Str} (hsub : ∀ y ∈ cur, y ∈ all)
    (h : resolve dbs all x = some d) (hd : d ∈ cur) : resolve dbs cur x = some d := by
  rw [resolve_some] at h ⊢
  refine ⟨hd, ?_⟩
  rcases h.2 with rfl | ⟨hx, db, hf, rfl⟩
  · exact .inl rfl
  · exact .inr ⟨fun h => hx (hsub _ h), db, hf, rfl⟩

theorem includeLoop_ok {dbs : List Db} {sys exc all : List Str} (hn : ∀ db ∈ dbs, db.name ∉ all) (inc cur rest : List Str)
    (hsub : ∀ y ∈ cur, y ∈ all) (hnd : cur.Nodup) (h : includeLoop dbs sys exc cur inc = .ok rest) :
    (∀ x ∈ inc, ∃ d, resolve dbs all x = some d ∧ d ∉ sys ∧ d ∉ exc) ∧
    inc.Pairwise (fun x y => resolve dbs all x ≠ resolve dbs all y) ∧ (∀ x ∈ inc, ∀ d, resolve dbs all x = some d → d ∈ cur) ∧
    rest.Sublist cur ∧ ∀ d, d ∈ rest ↔ d ∈ cur ∧ ¬ ∃ x ∈ inc, resolve dbs all x = some d := by
  induction inc generalizing cur with
  | nil =>
    cases h
    simp
  | cons x xs ih =>
    rw [includeLoop] at h
    split at h
    · cases h
    · rename_i d hd
      by_cases h1 : sys.contains d = true
      · rw [if_pos h1] at h; cases h
      · rw [if_neg h1] at h
        by_cases h2 : exc.contains d = true
        · rw [if_pos h2] at h; cases h
        · rw [if_neg h2] at h
          have hall := resolve_mono hsub hn hd
          have hcur := (resolve_some.1 hd).1
          obtain ⟨i1, i2, i3, i4, i5⟩ := ih (cur.erase d) (fun y hy => hsub y (List.mem_of_mem_erase hy)) (hnd.erase d) h
          simp at h1 h2
          refine ⟨?_, ?_, ?_, i4.trans List.erase_sublist, fun e => ?_⟩
          · intro y hy
            rcases List.mem_cons.1 hy with rfl | hy
            · exact ⟨d, hall, h1, h2⟩
            · exact i1 y hy
          · rw [List.pairwise_cons]
            refine ⟨fun y hy heq => ?_, i2⟩
            have := i3 y hy d (heq ▸ hall)
            rw [hnd.mem_erase_iff] at this
            exact this.1 rfl
          · intro y hy e he
            rcases List.mem_cons.1 hy with rfl | hy
            · rw [hall] at he; cases he; exact hcur
            · exact List.mem_of_mem_erase (i3 y hy e he)
          · rw [i5, hnd.mem_erase_iff]
            simp only [List.mem_cons, exists_eq_or_imp, hall, Option.some.injEq, not_or]
            constructor
            · rintro ⟨⟨h1, h2⟩, h3⟩; exact ⟨h2, fun h => h1 h.symm, h3⟩
            · rintro ⟨h2, h1, h3⟩; exact ⟨⟨fun h => h1 h.symm, h2⟩, h3⟩

theorem includeLoop_total {dbs : List Db} {sys exc all : List Str} (inc cur : List Str) (hsub : ∀ y ∈ cur, y ∈ all)
    (hnd : cur.Nodup) (h : ∀ x ∈ inc, ∃ d, resolve dbs all x = some d ∧ d ∈ cur ∧ d ∉ sys ∧ d ∉ exc)
    (hp : inc.Pairwise (fun x y => resolve dbs all x ≠ resolve dbs all y)) :
    ∃ rest, includeLoop dbs sys exc cur inc = .ok rest := by
  induction inc generalizing cur with
  | nil => exact ⟨cur, rfl⟩
  | cons x xs ih =>
    rw [List.pairwise_cons] at hp
    obtain ⟨d, hd, hcur, h1, h2⟩ := h x List.mem_cons_self
    obtain ⟨rest, hr⟩ := ih (cur.erase d) (fun y hy => hsub y (List.mem_of_mem_erase hy)) (hnd.erase d) (fun y hy => by
      obtain ⟨e, he, hc, h3, h4⟩ := h y (List.mem_cons_of_mem _ hy)
      refine ⟨e, he, (hnd.mem_erase_iff).2 ⟨fun heq => hp.1 y hy ?_, hc⟩, h3, h4⟩
      rw [hd, he, heq]) hp.2
    refine ⟨rest, ?_⟩
    rw [includeLoop, resolve_anti hsub hd hcur]
    dsimp only
    rw [if_neg (by simpa using h1), if_neg (by simpa using h2), hr]

theorem systemIds_mem (m : Mf) (d : Str) : d ∈ systemIds m.dbs ↔ ListedSystem m d := by
  unfold systemIds ListedSystem isSystemId
  simp only [List.mem_map, List.mem_filter, Bool.or_eq_true, decide_eq_true_eq]
  constructor
  · rintro ⟨db, ⟨h1, h2⟩, rfl⟩; exact ⟨db, h1, h2, rfl⟩
  · rintro ⟨db, h1, h2, rfl⟩; exact ⟨db, ⟨h1, h2⟩, rfl⟩

theorem uintToZ_inj {a b : Nat} (ha : a < 2 ^ 32) (hb : b < 2 ^ 32) (h : uintToZ a = uintToZ b) : a = b := by
  have h1 := (c51_numeral 10 _ _ (numeral_fmt 10 (by omega) (by omega) false a)).2.1
  have h2 := (c51_numeral 10 _ _ (numeral_fmt 10 (by omega) (by omega) false b)).2.1
  unfold uintToZ at h
  rw [h, h2, if_pos ha, if_pos hb] at h1
  cases h1
  rfl

theorem systemIds_nodup (m : Mf) (h : WF m) : (systemIds m.dbs).Nodup := by
  unfold systemIds
  have h1 : (m.dbs.map (fun db => uintToZ db.id)).Nodup := by
    have hi := h.ids
    have hw := h.width
    revert hi hw
    generalize m.dbs = l
    intro hi hw
    induction l with
    | nil => simp
    | cons a l ih =>
      rw [List.map_cons, List.nodup_cons] at hi ⊢
      refine ⟨fun hm => hi.1 ?_, ih hi.2 (fun db hdb => hw db (List.mem_cons_of_mem _ hdb))⟩
      obtain ⟨b, hb, heq⟩ := List.mem_map.1 hm
      exact List.mem_map.2 ⟨b, hb, uintToZ_inj (hw b (List.mem_cons_of_mem _ hb)) (hw a List.mem_cons_self) heq⟩
  exact List.Nodup.sublist (List.Sublist.map _ List.filter_sublist) h1

/-- What the scan of the manifest gives. -/
theorem scan_found (m : Mf) (h : WF m) {sys all : List Str}
    (hs : scan m.tsId m.files (systemIds m.dbs) (systemIds m.dbs) = .ok (sys, all)) :
    (∀ d, d ∈ all ↔ Found m d) ∧ (∀ d, d ∈ sys ↔ System m d) ∧ all.Nodup ∧ sys.Nodup := by
  obtain ⟨h1, h2, h3, h4⟩ := scan_ok _ _ _ _ _ _ h.clean hs
  refine ⟨fun d => ?_, fun d => ?_, h3 (systemIds_nodup m h), h4 (systemIds_nodup m h)⟩
  · rw [h1, systemIds_mem]
    unfold Found HasDir
    exact or_comm
  · rw [h2, systemIds_mem]
    rfl

theorem resolve_means (m : Mf) (h : WF m) {all : List Str} (ha : ∀ d, d ∈ all ↔ Found m d) (x d : Str) :
    resolve m.dbs all x = some d ↔ Means m x d := by
  rw [resolve_some, ha, ha]
  unfold Means
  constructor
  · rintro ⟨hd, rfl | ⟨hx, db, hf, rfl⟩⟩
    · exact .inl ⟨hd, rfl⟩
    · have := List.find?_some hf
      simp at this
      exact .inr ⟨hx, db, List.mem_of_find?_eq_some hf, this, rfl, hd⟩
  · rintro (⟨hd, rfl⟩ | ⟨hx, db, hmem, hname, rfl, hd⟩)
    · exact ⟨hd, .inl rfl⟩
    · refine ⟨hd, .inr ⟨hx, db, ?_, rfl⟩⟩
      have hnd := h.names
      clear hd hx ha h
      generalize m.dbs = l at hnd hmem
      induction l with
      | nil => cases hmem
      | cons a l ih =>
        rw [List.map_cons, List.nodup_cons] at hnd
        rw [List.find?_cons]
        rcases List.mem_cons.1 hmem with rfl | hmem'
        · simp [hname]
        · have : (a.name == x) = false := by
            rw [beq_eq_false_iff_ne]
            rintro rfl
            exact hnd.1 (List.mem_map.2 ⟨db, hmem', hname⟩)
          rw [this]
          exact ih hnd.2 hmem'

theorem sys_sub (m : Mf) (d : Str) (h : System m d) : Found m d := by
  rcases h with h | ⟨h, _⟩
  · exact .inr h
  · exact .inl h

/-- The databases zeroed are those asked for; the request is consistent. -/
theorem c22_databases (m : Mf) (h : WF m) (inc exc ids : List Str) (hreq : inc ≠ [] ∨ exc ≠ [])
    (hok : selective m inc exc = .ok ids) :
    (∀ d, d ∈ ids ↔ ToZero m inc exc d) ∧
    (∀ x ∈ inc ++ exc, ∃ d, Means m x d) ∧
    (∀ d, Named m inc d → ¬ System m d ∧ ¬ Named m exc d) ∧
    inc.Pairwise (fun x y => ∀ d, Means m x d → ¬ Means m y d) ∧
    ∃ d, Found m d := by
  unfold selective at hok
  rw [if_neg (by rintro ⟨h1, h2⟩; exact hreq.elim (fun h => h h1) (fun h => h h2))] at hok
  split at hok
  · cases hok
  · rename_i sys all hs
    obtain ⟨hall, hsys, hnd, hnds⟩ := scan_found m h hs
    have hall' : ∀ d, d ∈ sortAsc all ↔ Found m d := fun d => by rw [mem_sortAsc, hall]
    have hnames : ∀ db ∈ m.dbs, db.name ∉ sortAsc all := fun db hdb hm => h.notId db hdb ((hall' _).1 hm)
    have hstrict := sortAsc_strictAsc hnd
    unfold choose at hok
    dsimp only at hok
    by_cases he : sortAsc all = []
    · rw [if_pos he] at hok; cases hok
    · rw [if_neg he] at hok
      split at hok
      · cases hok
      · rename_i excIds hexc
        obtain ⟨e1, e2⟩ := excludeIds_ok hexc
        have hex : ∀ d, d ∈ excIds ↔ Named m exc d := fun d => by
          rw [e2]
          unfold Named
          simp only [resolve_means m h hall']
        split at hok
        · cases hok
        · rename_i rest hinc
          obtain ⟨i1, i2, i3, i4, i5⟩ := includeLoop_ok hnames inc (sortAsc all) rest (fun _ hy => hy) hstrict.nodup hinc
          simp only [resolve_means m h hall'] at i5 e1
          have hmem : ∀ d, d ∈ ids ↔ ToZero m inc exc d := by
            intro d
            unfold ToZero
            by_cases hi : inc = []
            · rw [if_pos hi] at hok
              cases hok
              rw [hex]
              simp [hi]
            · rw [if_neg hi] at hok
              cases hok
              have hs1 : (sortAsc sys).Pairwise (· < ·) := sortAsc_strictAsc hnds
              have hm1 := c26_difference (sortAsc sys) (sortAsc excIds) hs1 (sortAsc_pairwise _)
              have hr1 : rest.Pairwise (· < ·) := List.Pairwise.sublist i4 hstrict
              rw [hm1, c26_difference rest _ hr1
                (List.Pairwise.imp Str.le_of_lt (List.Pairwise.sublist List.filter_sublist hs1))]
              simp only [List.mem_filter, Bool.not_eq_true', List.contains_eq_mem, decide_eq_false_iff_not, mem_sortAsc, hsys, hex,
                i5, hall, not_and, Classical.not_not, hi, false_and, false_or, ne_eq, not_false_eq_true, true_and, and_assoc]
              rfl
          refine ⟨hmem, ?_, ?_, ?_, ?_⟩
          · intro x hx
            rcases List.mem_append.1 hx with hx | hx
            · obtain ⟨d, hd, _⟩ := i1 x hx
              exact ⟨d, (resolve_means m h hall' x d).1 hd⟩
            · exact e1 x hx
          · rintro d ⟨x, hx, hd⟩
            obtain ⟨d', hd', h1, h2⟩ := i1 x hx
            rw [(resolve_means m h hall' x d).2 hd] at hd'
            cases hd'
            exact ⟨fun hsd => h1 ((hsys d).2 hsd), fun hed => h2 ((hex d).2 hed)⟩
          · refine i2.imp (fun {x y} hxy d hx hy => hxy ?_)
            rw [(resolve_means m h hall' x d).2 hx, (resolve_means m h hall' y d).2 hy]
          · cases hl : sortAsc all with
            | nil => exact absurd hl he
            | cons d l => exact ⟨d, (hall' d).1 (hl ▸ List.mem_cons_self)⟩

/-- A consistent request succeeds. -/
theorem c22_success (m : Mf) (h : WF m) (inc exc : List Str) (hfound : ∃ d, Found m d)
    (hw : ∀ d v, HasDir m d → Numeral 10 d v → v < 2 ^ 32)
    (hall : ∀ x ∈ inc ++ exc, ∃ d, Means m x d) (hinc : ∀ d, Named m inc d → ¬ System m d ∧ ¬ Named m exc d)
    (hp : inc.Pairwise (fun x y => ∀ d, Means m x d → ¬ Means m y d)) : ∃ ids, selective m inc exc = .ok ids := by
  unfold selective
  by_cases hreq : inc = [] ∧ exc = []
  · rw [if_pos hreq]; exact ⟨_, rfl⟩
  · rw [if_neg hreq]
    obtain ⟨⟨sys, all⟩, hs⟩ := scan_total m.tsId m.files (systemIds m.dbs) (systemIds m.dbs) h.clean
      (fun f hf d v hv hn => hw d v ⟨f, hf, hv⟩ hn)
    rw [hs]
    dsimp only
    obtain ⟨ha, hsys, hnd, hnds⟩ := scan_found m h hs
    have hall' : ∀ d, d ∈ sortAsc all ↔ Found m d := fun d => by rw [mem_sortAsc, ha]
    have hr := resolve_means m h hall'
    unfold choose
    dsimp only
    rw [if_neg (fun he => by
      obtain ⟨d, hd⟩ := hfound
      have := (hall' d).2 hd
      rw [he] at this
      cases this)]
    obtain ⟨excIds, hexc⟩ := excludeIds_total (dbs := m.dbs) (all := sortAsc all) (exc := exc) (fun x hx => by
      obtain ⟨d, hd⟩ := hall x (List.mem_append_right _ hx)
      exact ⟨d, (hr x d).2 hd⟩)
    obtain ⟨_, e2⟩ := excludeIds_ok hexc
    obtain ⟨rest, hrest⟩ := includeLoop_total (dbs := m.dbs) (sys := sys) (exc := excIds) (all := sortAsc all) inc (sortAsc all)
      (fun _ hy => hy) (sortAsc_strictAsc hnd).nodup (fun x hx => by
        obtain ⟨d, hd⟩ := hall x (List.mem_append_left _ hx)
        have hd' := (hr x d).2 hd
        obtain ⟨h1, h2⟩ := hinc d ⟨x, hx, hd⟩
        refine ⟨d, hd', (resolve_some.1 hd').1, fun hm => h1 ((hsys d).1 hm), fun hm => h2 ?_⟩
        obtain ⟨y, hy, hyd⟩ := (e2 d).1 hm
        exact ⟨y, hy, (hr y d).1 hyd⟩)
      (by
        refine List.Pairwise.imp_of_mem (fun {x y} hx hy hxy heq => ?_) hp
        obtain ⟨d, hd⟩ := hall x (List.mem_append_left _ hx)
        have hd' := (hr x d).2 hd
        exact hxy d hd ((hr y d).1 (heq ▸ hd')))
    rw [hexc]
    dsimp only
    rw [hrest]
    dsimp only
    split
    · exact ⟨_, rfl⟩
    · exact ⟨_, rfl⟩

theorem zeroed_iff (m : Mf) (ids : List Str) (f : Str) :
    zeroed m ids f = true ↔ (∃ d ∈ ids, InDb m d f) ∧ ¬ versionFile <:+ f := by
  unfold zeroed prefixes InDb
  simp only [Bool.and_eq_true, Bool.not_eq_true', List.any_eq_true, List.mem_cons, List.mem_map, List.mem_filter, decide_eq_true_eq,
    exists_eq_or_imp, List.isPrefixOf_iff_prefix]
  rw [← Bool.not_eq_true, List.isSuffixOf_iff_suffix]
  apply and_congr_left
  intro _
  apply exists_congr
  intro d
  apply and_congr_right
  intro _
  apply or_congr_right
  constructor
  · rintro ⟨_, ⟨t, ⟨h1, h2⟩, rfl⟩, h⟩; exact ⟨t, h1, h2, h⟩
  · rintro ⟨t, h1, h2, h⟩; exact ⟨_, ⟨t, ⟨h1, h2⟩, rfl⟩, h⟩

/-- A file is zeroed exactly when it is in a directory of a database to zero and is not `PG_VERSION`. -/
theorem c22_zeroed (m : Mf) (h : WF m) (inc exc ids : List Str) (hreq : inc ≠ [] ∨ exc ≠ [])
    (hok : selective m inc exc = .ok ids) (f : Str) :
    zeroed m ids f = true ↔ (∃ d, ToZero m inc exc d ∧ InDb m d f) ∧ ¬ versionFile <:+ f := by
  rw [zeroed_iff]
  obtain ⟨h1, _⟩ := c22_databases m h inc exc ids hreq hok
  simp only [h1]

/-- Without options nothing is zeroed. -/
theorem c22_no_request (m : Mf) (f : Str) : selective m [] [] = .ok [] ∧ zeroed m [] f = false := ⟨rfl, rfl⟩

theorem slash_cut {a b r s : Str} (ha : (0x2f : UInt8) ∉ a) (hb : (0x2f : UInt8) ∉ b) (h : a ++ 0x2f :: r = b ++ 0x2f :: s) :
    a = b ∧ r = s := by
  induction a generalizing b with
  | nil =>
    cases b with
    | nil => simp at h; exact ⟨rfl, h⟩
    | cons y b =>
      injection h with h1 h2
      subst h1
      exact absurd List.mem_cons_self hb
  | cons x a ih =>
    cases b with
    | nil =>
      injection h with h1 h2
      subst h1
      exact absurd List.mem_cons_self ha
    | cons y b =>
      injection h with h1 h2
      subst h1
      obtain ⟨h3, h4⟩ := ih (fun hm => ha (List.mem_cons_of_mem _ hm)) (fun hm => hb (List.mem_cons_of_mem _ hm)) h2
      exact ⟨by rw [h3], h4⟩

theorem digits_fmt (n : Nat) : Digits (uintToZ n) := by
  obtain ⟨hne, ds, hds, _⟩ := numeral_fmt 10 (by omega) (by omega) false n
  refine ⟨hne, fun c hc => ?_⟩
  have : digitOf 10 c ∈ (uintToZ n).map (digitOf 10) := List.mem_map.2 ⟨c, hc, rfl⟩
  unfold uintToZ at this
  rw [hds] at this
  obtain ⟨v, _, hv⟩ := List.mem_map.1 this
  unfold digitOf digitVal at hv
  by_cases h1 : 0x30 ≤ c ∧ c ≤ 0x39
  · exact h1
  · rw [if_neg h1] at hv
    by_cases h2 : 0x61 ≤ c ∧ c ≤ 0x7a
    · rw [if_pos h2] at hv
      dsimp only at hv
      rw [if_neg (by omega)] at hv
      cases hv
    · rw [if_neg h2] at hv
      by_cases h3 : 0x41 ≤ c ∧ c ≤ 0x5a
      · rw [if_pos h3] at hv
        dsimp only at hv
        rw [if_neg (by omega)] at hv
        cases hv
      · rw [if_neg h3] at hv
        cases hv

theorem found_digits (m : Mf) (d : Str) (h : Found m d) : Digits d := by
  rcases h with ⟨f, _, hv⟩ | ⟨db, _, _, rfl⟩
  · exact hv.1
  · exact digits_fmt db.id

/-- A file is in the directory of at most one database. -/
theorem c22_one_database (m : Mf) (ht : WFTargets m) (d e f : Str) (hd : Digits d) (he : Digits e) (h1 : InDb m d f)
    (h2 : InDb m e f) : d = e := by
  have hbt : ∀ (x y : Str), basePath ++ x ≠ tblspcPath ++ y := by
    intro x y h
    have := congrArg (List.take 5) h
    revert this
    simp [basePath, tblspcPath]
  rcases h1 with ⟨r, rfl⟩ | ⟨t, ht1, hne1, r, rfl⟩
  · rcases h2 with ⟨s, hs⟩ | ⟨t, ht1, hne1, s, hs⟩
    · simp only [List.append_assoc, List.append_cancel_left_eq, List.singleton_append] at hs
      exact ((slash_cut he.noslash hd.noslash hs).1).symm
    · obtain ⟨n, _, hn⟩ := ht t ht1 hne1
      rw [hn] at hs
      simp only [List.append_assoc] at hs
      exact absurd hs.symm (hbt _ _)
  · obtain ⟨n, hn, hname⟩ := ht t ht1 hne1
    rw [hname] at h2
    rcases h2 with ⟨s, hs⟩ | ⟨t', ht2, hne2, s, hs⟩
    · simp only [List.append_assoc] at hs
      exact absurd hs (hbt _ _)
    · obtain ⟨n', hn', hname'⟩ := ht t' ht2 hne2
      rw [hname'] at hs
      simp only [List.append_assoc, List.append_cancel_left_eq, List.singleton_append] at hs
      obtain ⟨_, h3⟩ := slash_cut hn'.noslash hn.noslash hs
      have h3 := List.append_cancel_left h3
      injection h3 with _ h3
      exact ((slash_cut he.noslash hd.noslash h3).1).symm

/-- No file of an included database, and no file of a system database not excluded, is zeroed; nor is any file outside of the
directories of databases. -/
theorem c22_kept (m : Mf) (h : WF m) (ht : WFTargets m) (inc exc ids : List Str)
    (hok : selective m inc exc = .ok ids) (f : Str) :
    (∀ d, Named m inc d → InDb m d f → zeroed m ids f = false) ∧
    (∀ d, System m d → ¬ Named m exc d → InDb m d f → zeroed m ids f = false) ∧
    ((∀ d, Found m d → ¬ InDb m d f) → zeroed m ids f = false) := by
  by_cases hreq : inc ≠ [] ∨ exc ≠ []
  · have hfound : ∀ d x, Means m x d → Found m d := by
      rintro d x (⟨h, rfl⟩ | ⟨_, db, _, _, _, h⟩)
      · exact h
      · exact h
    have hz : ∀ d, ToZero m inc exc d → Found m d := by
      rintro d (⟨_, x, _, hx⟩ | ⟨_, hd, _⟩)
      · exact hfound d x hx
      · exact hd
    obtain ⟨hids, _, hcons, _⟩ := c22_databases m h inc exc ids hreq hok
    have hiff := c22_zeroed m h inc exc ids hreq hok f
    refine ⟨?_, ?_, ?_⟩
    · rintro d ⟨x, hx, hd⟩ hin
      rw [← Bool.not_eq_true, hiff]
      rintro ⟨⟨e, he, hine⟩, _⟩
      have heq := c22_one_database m ht d e f (found_digits m d (hfound d x hd)) (found_digits m e (hz e he)) hin hine
      subst heq
      rcases he with ⟨h0, _⟩ | ⟨_, _, hn, _⟩
      · subst h0; cases hx
      · exact hn ⟨x, hx, hd⟩
    · intro d hs hne hin
      rw [← Bool.not_eq_true, hiff]
      rintro ⟨⟨e, he, hine⟩, _⟩
      have heq := c22_one_database m ht d e f (found_digits m d (sys_sub m d hs)) (found_digits m e (hz e he)) hin hine
      subst heq
      rcases he with ⟨_, h1⟩ | ⟨_, _, _, h1⟩
      · exact hne h1
      · exact hne (h1 hs)
    · intro hno
      rw [← Bool.not_eq_true, hiff]
      rintro ⟨⟨e, he, hine⟩, _⟩
      exact hno e (hz e he) hine
  · have h1 : inc = [] := Classical.byContradiction (fun h => hreq (.inl h))
    have h2 : exc = [] := Classical.byContradiction (fun h => hreq (.inr h))
    subst h1 h2
    cases hok
    exact ⟨fun _ _ _ => rfl, fun _ _ _ _ => rfl, fun _ => rfl⟩

/-! ## A concrete case: databases `template1` (1), `app` (16384) and `old` (16385, also in tablespace 20000); `app` is included. -/

def exFiles : List Str := [
  [0x70, 0x67, 0x5f, 0x64, 0x61, 0x74, 0x61, 0x2f, 0x50, 0x47, 0x5f, 0x56, 0x45, 0x52, 0x53, 0x49, 0x4f, 0x4e],
  [0x70, 0x67, 0x5f, 0x64, 0x61, 0x74, 0x61, 0x2f, 0x62, 0x61, 0x73, 0x65, 0x2f, 0x31, 0x2f, 0x50, 0x47, 0x5f, 0x56, 0x45, 0x52, 0x53, 0x49, 0x4f, 0x4e],
  [0x70, 0x67, 0x5f, 0x64, 0x61, 0x74, 0x61, 0x2f, 0x62, 0x61, 0x73, 0x65, 0x2f, 0x31, 0x36, 0x33, 0x38, 0x34, 0x2f, 0x50, 0x47, 0x5f, 0x56, 0x45, 0x52, 0x53, 0x49, 0x4f, 0x4e],
  [0x70, 0x67, 0x5f, 0x64, 0x61, 0x74, 0x61, 0x2f, 0x62, 0x61, 0x73, 0x65, 0x2f, 0x31, 0x36, 0x33, 0x38, 0x34, 0x2f, 0x32, 0x36, 0x31, 0x39],
  [0x70, 0x67, 0x5f, 0x64, 0x61, 0x74, 0x61, 0x2f, 0x62, 0x61, 0x73, 0x65, 0x2f, 0x31, 0x36, 0x33, 0x38, 0x35, 0x2f, 0x50, 0x47, 0x5f, 0x56, 0x45, 0x52, 0x53, 0x49, 0x4f, 0x4e],
  [0x70, 0x67, 0x5f, 0x74, 0x62, 0x6c, 0x73, 0x70, 0x63, 0x2f, 0x32, 0x30, 0x30, 0x30, 0x30, 0x2f, 0x50, 0x47, 0x5f, 0x31, 0x37, 0x2f, 0x31, 0x36, 0x33, 0x38, 0x35, 0x2f, 0x50, 0x47, 0x5f, 0x56, 0x45, 0x52, 0x53, 0x49, 0x4f, 0x4e],
  [0x70, 0x67, 0x5f, 0x74, 0x62, 0x6c, 0x73, 0x70, 0x63, 0x2f, 0x32, 0x30, 0x30, 0x30, 0x30, 0x2f, 0x50, 0x47, 0x5f, 0x31, 0x37, 0x2f, 0x31, 0x36, 0x33, 0x38, 0x35, 0x2f, 0x32, 0x36, 0x31, 0x39]]

def exMf : Mf where
  dbs := [⟨[0x74, 0x65, 0x6d, 0x70, 0x6c, 0x61, 0x74, 0x65, 0x31], 1⟩, ⟨[0x61, 0x70, 0x70], 16384⟩, ⟨[0x6f, 0x6c, 0x64], 16385⟩]
  files := exFiles
  targets := [⟨[0x70, 0x67, 0x5f, 0x64, 0x61, 0x74, 0x61], 0⟩, ⟨[0x70, 0x67, 0x5f, 0x74, 0x62, 0x6c, 0x73, 0x70, 0x63, 0x2f, 0x32, 0x30, 0x30, 0x30, 0x30], 20000⟩]
  tsId := [0x50, 0x47, 0x5f, 0x31, 0x37]

theorem exMf_wf : WF exMf := by
  refine ⟨by decide, by decide, by decide, ?_, ?_⟩
  · intro db hdb hf
    have hd := (found_digits _ _ hf).2
    revert db
    simp only [exMf, List.mem_cons, List.not_mem_nil, or_false]
    rintro db (rfl | rfl | rfl) _ hd <;> revert hd <;> decide
  · intro f hf d g hg hp
    have hm := (match_iff exMf.tsId f).2 ⟨d, g, hg, hp⟩
    revert f
    simp only [exMf, exFiles, List.mem_cons, List.not_mem_nil, or_false]
    rintro f (rfl | rfl | rfl | rfl | rfl | rfl | rfl) _ hm
    · exact absurd hm (by decide)
    · exact ⟨[0x31], by unfold Digits; decide, .inl rfl⟩
    · exact ⟨[0x31, 0x36, 0x33, 0x38, 0x34], by unfold Digits; decide, .inl rfl⟩
    · exact absurd hm (by decide)
    · exact ⟨[0x31, 0x36, 0x33, 0x38, 0x35], by unfold Digits; decide, .inl rfl⟩
    · exact ⟨[0x31, 0x36, 0x33, 0x38, 0x35], by unfold Digits; decide, .inr ⟨[0x32, 0x30, 0x30, 0x30, 0x30], by unfold Digits; decide, rfl⟩⟩
    · exact absurd hm (by decide)

theorem exMf_targets : WFTargets exMf := by
  intro t ht hne
  simp only [exMf, List.mem_cons, List.not_mem_nil, or_false] at ht
  rcases ht with rfl | rfl
  · exact absurd rfl hne
  · exact ⟨[0x32, 0x30, 0x30, 0x30, 0x30], by unfold Digits; decide, rfl⟩

/-- The conditions of `c22_databases`, `c22_zeroed` and `c22_kept` hold; the other user database is zeroed in both places. -/
example : WF exMf ∧ WFTargets exMf ∧ selective exMf [[0x61, 0x70, 0x70]] [] = .ok [[0x31, 0x36, 0x33, 0x38, 0x35]] ∧
    exMf.files.map (zeroed exMf [[0x31, 0x36, 0x33, 0x38, 0x35]]) = [false, false, false, false, false, false, true] :=
  ⟨exMf_wf, exMf_targets, by decide +kernel, by decide +kernel⟩

/-- Excluding only: nothing else is zeroed. -/
example : selective exMf [] [[0x61, 0x70, 0x70]] = .ok [[0x31, 0x36, 0x33, 0x38, 0x34]] ∧
    exMf.files.map (zeroed exMf [[0x31, 0x36, 0x33, 0x38, 0x34]]) = [false, false, false, true, false, false, false] := by decide +kernel

/-- Errors: unknown database, system database included, same database included and excluded. -/
example : selective exMf [[0x6e, 0x6f, 0x70, 0x65]] [] = .error .dbMissing ∧ selective exMf [[0x31]] [] = .error .dbInvalid ∧
    selective exMf [[0x61, 0x70, 0x70]] [[0x31, 0x36, 0x33, 0x38, 0x34]] = .error .dbInvalid := by decide +kernel

/-- The conditions of `c22_success` hold. -/
example : ∃ ids, selective exMf [[0x61, 0x70, 0x70]] [] = .ok ids := by
  obtain ⟨_, h2, h3, h4, h5⟩ := c22_databases exMf exMf_wf [[0x61, 0x70, 0x70]] [] [[0x31, 0x36, 0x33, 0x38, 0x35]]
    (.inl (by decide)) (by decide +kernel)
  refine c22_success exMf exMf_wf _ _ h5 ?_ h2 h3 h4
  rintro d v ⟨f, hf, hv⟩ hn
  have hd := versionOf_parent hv
  have h1 := (c51_numeral 10 d v hn).2.1
  by_cases hlt : v < 2 ^ 32
  · exact hlt
  · rw [if_neg hlt, ← hd] at h1
    have hm := (match_iff exMf.tsId f).2 ⟨d, f, hv, List.prefix_refl f⟩
    clear hv hd hn hlt
    exfalso
    revert f
    simp only [exMf, exFiles, List.mem_cons, List.not_mem_nil, or_false]
    rintro f (rfl | rfl | rfl | rfl | rfl | rfl | rfl) <;> decide +kernel

end Verif.Restore
