import Verif.Manifest.BuildModel
import Verif.Manifest.UnlogProps

/-! # What a new manifest contains (C61) -/

namespace Verif.Manifest.Build

open Verif

/-! ## Specification

An entry of the data directory is given by the list of the names that lead to it, from the data directory on and through links. -/

/-- What is found at the end of a list of names. A link is found as a link, with the entries of its destination, and as what it leads to. -/
inductive Kind
  | file (size : Nat) (linked : Bool)
  | special
  | path (linked : Bool)
  | link (dest : Str) (twice : Bool) (target : Dest) (entries : DTree)

/-- The entries below a directory. -/
inductive Has : DTree → List Str → Kind → Prop
  | file {n s rest} : Has (.file n s rest) [n] (.file s false)
  | special {n rest} : Has (.special n rest) [n] .special
  | path {n ch rest} : Has (.path n ch rest) [n] (.path false)
  | inPath {n ch rest r k} : Has ch r k → Has (.path n ch rest) (n :: r) k
  | link {n dest tw d ch rest} : Has (.link n dest tw d ch rest) [n] (.link dest tw d ch)
  | linkFile {n dest tw s ch rest} : Has (.link n dest tw (.file s) ch rest) [n] (.file s true)
  | linkSpecial {n dest tw ch rest} : Has (.link n dest tw .special ch rest) [n] .special
  | linkPath {n dest tw ch rest} : Has (.link n dest tw .path ch rest) [n] (.path true)
  | inLink {n dest tw ch rest r k} : Has ch r k → Has (.link n dest tw .path ch rest) (n :: r) k
  | afterFile {n s rest r k} : Has rest r k → Has (.file n s rest) r k
  | afterSpecial {n rest r k} : Has rest r k → Has (.special n rest) r k
  | afterPath {n ch rest r k} : Has rest r k → Has (.path n ch rest) r k
  | afterLink {n dest tw d ch rest r k} : Has rest r k → Has (.link n dest tw d ch rest) r k

/-- The names of a tree are not empty and without a slash. -/
def Names (t : DTree) : Prop := ∀ p k, Has t p k → ∀ n ∈ p, n ≠ [] ∧ 47 ∉ n

/-- The names between slashes. -/
def slashed : List Str → Str
  | [] => []
  | n :: r => 47 :: n ++ slashed r

/-- The name of a directory in the manifest: `pg_data/…`, and `pg_tblspc/…` from the destination of a tablespace on. -/
def dname (p : List Str) : Str :=
  match p with
  | d :: o :: r => if d = pgTblspcZ then pgTblspcZ ++ slashed (o :: r) else pgdataZ ++ slashed p
  | _ => pgdataZ ++ slashed p

/-- The name of the entry `n` of the directory `d`. -/
def ename (d : List Str) (n : Str) : Str := dname d ++ 47 :: n

/-- The entry is looked at: it is not left out because of its name or of the directories it is in. An exclusion of the user is relative to
the data directory. It is for the entry itself, and with a slash at its end for what is below. It is of no use below a tablespace. -/
structure Reached (c : Cfg) (p : List Str) : Prop where
  temp : ∀ n ∈ p, ¬ tmpZ <+: n
  single : ∀ q, q <+: p → (∀ o x r, q ≠ pgTblspcZ :: o :: x :: r) → ∀ e ∈ c.exclude, 47 :: e ≠ slashed q
  content : ∀ q n, q ++ [n] <+: p → q ≠ [] → (∀ o r, q ≠ pgTblspcZ :: o :: r) → ∀ e ∈ c.exclude, 47 :: e ≠ slashed q ++ [47]
  reset : ∀ d n r, p = d :: n :: r → d ∉ resetDirs
  status : c.online = true → ∀ n r, p ≠ c.wal :: archiveStatusZ :: n :: r
  tablespace : ∀ o x r, p = pgTblspcZ :: o :: x :: r → x = c.ts

/-- The files of the data directory itself that are left out. -/
def RootFile (c : Cfg) (n : Str) : Prop :=
  n ∈ rootFiles ∨ (120000 ≤ c.version ∧ (n = recoverySignalZ ∨ n = standbySignalZ)) ∨
  (c.version < 120000 ∧ (n = recoveryConfZ ∨ n = recoveryDoneZ)) ∨
  (130000 ≤ c.version ∧ (n = backupManifestZ ∨ n = backupManifestTmpZ))

/-- `pg_internal.init`, and what starts with it and has a dot before a digit. -/
def InitFile (n : Str) : Prop := n = initFileZ ∨ ∃ a x b, 48 ≤ x ∧ x ≤ 57 ∧ n = initFileZ ++ a ++ 46 :: x :: b

/-- A temporary relation: `t`, the backend, `_` and the name of a relation. -/
def TempRelation (n : Str) : Prop := ∃ b id t, Number b ∧ Number id ∧ Tail t ∧ n = 116 :: b ++ 95 :: id ++ t

/-- The file `n` of the directory `d` is not left out. -/
structure FileOk (c : Cfg) (d : List Str) (n : Str) : Prop where
  root : d = [] → ¬ RootFile c n
  wal : c.online = true → d ≠ [c.wal]
  rel : DbDir c.ts (dname d) → ¬ InitFile n ∧ ¬ TempRelation n

/-- The pages of the file are to be checked. -/
def PageFile (c : Cfg) (d : List Str) (n : Str) : Prop :=
  c.checksumPage = true ∧ DbDir c.ts (dname d) ∧ n ≠ filenodeMapZ ∧ n ≠ pgVersionZ ∧ ¬ (d = [globalDirZ] ∧ n = pgControlZ)

/-- The name of the tablespace with identifier `id`: from the database, and without one from the link. -/
def TsName (c : Cfg) (id : Nat) (n name : Str) : Prop :=
  match c.tablespaces with
  | none => name = [116, 115] ++ n
  | some l => ∃ a b, l = a ++ (id, name) :: b ∧ ∀ x ∈ b, x.1 ≠ id

/-- What is in the manifest for what is found at `p`. -/
def Adds (c : Cfg) (p : List Str) : Kind → Entry → Prop
  | .file s _, e => ∃ d n copy page, p = d ++ [n] ∧ FileOk c d n ∧ (copy = true ↔ ¬ (s = 0 ∧ c.bundle = true)) ∧
      (page = true ↔ PageFile c d n) ∧ e = .file (ename d n) s copy page
  | .special, _ => False
  | .path _, e => e = .path (dname p)
  | .link dest _ _ _, e => ∃ d n, p = d ++ [n] ∧
      ((d = [pgTblspcZ] ∧ (e = .path pgTblspcZ ∨ e = .link (ename d n) dest ∨
          ∃ id name, Num.toUIntBase 10 n = .ok id ∧ TsName c id n name ∧ e = .target (dname p) id name)) ∨
       (d ≠ [pgTblspcZ] ∧ (∀ o, d ≠ [pgTblspcZ, o]) ∧ (e = .link (ename d n) dest ∨ e = .target (ename d n) 0 [])))

/-! ## Names -/

/-- Not empty and without a slash. -/
def Nm (n : Str) : Prop := n ≠ [] ∧ 47 ∉ n

theorem slashed_append (a b : List Str) : slashed (a ++ b) = slashed a ++ slashed b := by
  induction a with
  | nil => rfl
  | cons x a ih => simp [slashed, ih]

theorem first_inj {a b x y : Str} (ha : 47 ∉ a) (hb : 47 ∉ b) (h : a ++ x = b ++ y) (hx : x = [] ∨ ∃ x', x = 47 :: x')
    (hy : y = [] ∨ ∃ y', y = 47 :: y') : a = b ∧ x = y := by
  induction a generalizing b with
  | nil =>
    cases b with
    | nil => exact ⟨rfl, h⟩
    | cons c b =>
      rcases hx with rfl | ⟨x', rfl⟩
      · simp at h
      · simp only [List.nil_append, List.cons_append, List.cons.injEq] at h
        exact absurd (h.1 ▸ List.mem_cons_self) hb
  | cons c a ih =>
    cases b with
    | nil =>
      rcases hy with rfl | ⟨y', rfl⟩
      · simp at h
      · simp only [List.nil_append, List.cons_append, List.cons.injEq] at h
        exact absurd (h.1 ▸ List.mem_cons_self) ha
    | cons d b =>
      simp only [List.cons_append, List.cons.injEq] at h
      obtain ⟨h1, h2⟩ := ih (fun hh => ha (List.mem_cons_of_mem _ hh)) (fun hh => hb (List.mem_cons_of_mem _ hh)) h.2
      exact ⟨by rw [h.1, h1], h2⟩

theorem slashed_head (a : List Str) : slashed a = [] ∨ ∃ x, slashed a = 47 :: x := by
  cases a with
  | nil => exact .inl rfl
  | cons n r => exact .inr ⟨n ++ slashed r, rfl⟩

theorem slashed_inj : ∀ {a b : List Str}, (∀ n ∈ a, Nm n) → (∀ n ∈ b, Nm n) → slashed a = slashed b → a = b
  | [], [], _, _, _ => rfl
  | [], _ :: _, _, _, h => by simp [slashed] at h
  | _ :: _, [], _, _, h => by simp [slashed] at h
  | x :: a, y :: b, ha, hb, h => by
    simp only [slashed, List.cons_append, List.cons.injEq, true_and] at h
    obtain ⟨h1, h2⟩ := first_inj (ha x (by simp)).2 (hb y (by simp)).2 h (slashed_head a) (slashed_head b)
    rw [h1, slashed_inj (fun n hn => ha n (by simp [hn])) (fun n hn => hb n (by simp [hn])) h2]

theorem dname_ts (o : Str) (r : List Str) : dname (pgTblspcZ :: o :: r) = pgTblspcZ ++ slashed (o :: r) := by simp [dname]

theorem dname_data {p : List Str} (h : ∀ o r, p ≠ pgTblspcZ :: o :: r) : dname p = pgdataZ ++ slashed p := by
  unfold dname
  split
  · next d o r =>
    by_cases hd : d = pgTblspcZ
    · exact absurd (by rw [hd]) (h o r)
    · rw [if_neg hd]
  · rfl

theorem data_noslash : (47 : UInt8) ∉ pgdataZ := by decide
theorem tblspc_noslash : (47 : UInt8) ∉ pgTblspcZ := by decide
theorem data_ne_tblspc : pgdataZ ≠ pgTblspcZ := by decide

theorem ts_cases (p : List Str) : (∃ o r, p = pgTblspcZ :: o :: r) ∨ ∀ o r, p ≠ pgTblspcZ :: o :: r := by
  match p with
  | [] => exact .inr fun _ _ h => by cases h
  | [_] => exact .inr fun _ _ h => by cases h
  | d :: o :: r =>
    by_cases hd : d = pgTblspcZ
    · exact .inl ⟨o, r, by rw [hd]⟩
    · exact .inr fun _ _ h => hd (by injection h)

theorem dname_inj {p q : List Str} (hp : ∀ n ∈ p, Nm n) (hq : ∀ n ∈ q, Nm n) (h : dname p = dname q) : p = q := by
  rcases ts_cases p with ⟨o, r, rfl⟩ | hp' <;> rcases ts_cases q with ⟨o', r', rfl⟩ | hq'
  · rw [dname_ts, dname_ts] at h
    have := slashed_inj (fun n hn => hp n (List.mem_cons_of_mem _ hn)) (fun n hn => hq n (List.mem_cons_of_mem _ hn))
      (List.append_cancel_left h)
    rw [this]
  · rw [dname_ts, dname_data hq'] at h
    exact absurd (first_inj tblspc_noslash data_noslash h (slashed_head _) (slashed_head _)).1.symm data_ne_tblspc
  · rw [dname_ts, dname_data hp'] at h
    exact absurd (first_inj data_noslash tblspc_noslash h (slashed_head _) (slashed_head _)).1 data_ne_tblspc
  · rw [dname_data hp', dname_data hq'] at h
    exact slashed_inj hp hq (List.append_cancel_left h)

/-- The name of a directory is the name of its entry in the directory above, except for the destination of a tablespace. -/
theorem dname_snoc {d : List Str} {n : Str} (h : d ≠ [pgTblspcZ]) : dname (d ++ [n]) = ename d n := by
  unfold ename
  match d with
  | [] => simp [dname, slashed]
  | [a] =>
    have ha : a ≠ pgTblspcZ := fun hh => h (by rw [hh])
    simp [dname, slashed, ha]
  | a :: b :: r =>
    simp only [List.cons_append, dname]
    by_cases ha : a = pgTblspcZ
    · simp [ha, slashed, slashed_append]
    · simp [ha, slashed, slashed_append]

theorem dname_nil : dname [] = pgdataZ := by simp [dname, slashed]
theorem dname_one (n : Str) : dname [n] = inData n := by simp [dname, slashed, inData]

theorem dname_eq_data {p : List Str} (hp : ∀ n ∈ p, Nm n) : dname p = pgdataZ ↔ p = [] := by
  constructor
  · intro h
    exact dname_inj hp (by simp) (h.trans dname_nil.symm)
  · rintro rfl
    exact dname_nil

theorem dname_eq_one {p : List Str} {n : Str} (hp : ∀ n ∈ p, Nm n) (hn : Nm n) : dname p = inData n ↔ p = [n] := by
  constructor
  · intro h
    exact dname_inj hp (by simpa using hn) (h.trans (dname_one n).symm)
  · rintro rfl
    exact dname_one n

theorem ename_inj {d d' : List Str} {n n' : Str} (hn : 47 ∉ n) (hn' : 47 ∉ n') (h : ename d n = ename d' n') :
    dname d = dname d' ∧ n = n' := by
  unfold ename at h
  have h1 := congrArg baseName h
  have h2 := congrArg dirName h
  rw [(base_split hn).1, (base_split hn').1] at h1
  rw [(base_split hn).2, (base_split hn').2] at h2
  exact ⟨List.append_cancel_right h2, h1⟩

theorem nm_tblspc : Nm pgTblspcZ := ⟨by decide, by decide⟩

/-! ## Conditions of the model -/

theorem prefix_iff (a b : Str) : a.isPrefixOf b = true ↔ a <+: b := List.isPrefixOf_iff_prefix

theorem last_name {d : List Str} {n : Str} (hn : Nm n) : (ename d n).getLast? ≠ some 47 := by
  unfold ename
  rw [List.getLast?_append, show (47 :: n).getLast? = n.getLast? by
    obtain ⟨h, _⟩ := hn
    cases n with
    | nil => exact absurd rfl h
    | cons a l => simp [List.getLast?_cons_cons]]
  intro h
  obtain ⟨h1, h2⟩ := hn
  cases hl : n.getLast? with
  | none => exact h1 (List.getLast?_eq_none_iff.1 hl)
  | some x =>
    rw [hl] at h
    simp at h
    exact h2 (h ▸ List.mem_of_getLast? hl)

theorem ts_snoc {d : List Str} {n : Str} : (∀ o x r, d ++ [n] ≠ pgTblspcZ :: o :: x :: r) ↔ ∀ o r, d ≠ pgTblspcZ :: o :: r := by
  constructor
  · rintro h o r rfl
    cases r with
    | nil => exact h o n [] rfl
    | cons x r => exact h o x (r ++ [n]) rfl
  · intro h o x r hh
    match d, hh with
    | [], hh => simp at hh
    | [_], hh => simp at hh
    | a :: b :: d, hh =>
      simp only [List.cons_append, List.cons.injEq] at hh
      exact h b d (by rw [hh.1])

theorem ename_excl {d : List Str} {n e x : Str} : pgdataZ ++ 47 :: e = ename d n ++ x ↔
    (∀ o x r, d ++ [n] ≠ pgTblspcZ :: o :: x :: r) ∧ 47 :: e = slashed (d ++ [n]) ++ x := by
  rw [ts_snoc]
  unfold ename
  rcases ts_cases d with ⟨o, r, rfl⟩ | h
  · rw [dname_ts]
    constructor
    · intro hh
      simp only [List.append_assoc] at hh
      exact absurd (first_inj data_noslash tblspc_noslash hh (.inr ⟨_, rfl⟩) (.inr ⟨_, rfl⟩)).1 data_ne_tblspc
    · intro hh
      exact absurd rfl (hh.1 o r)
  · rw [dname_data h, slashed_append]
    simp [slashed, h]

theorem skipAny_iff {c : Cfg} {d : List Str} {n : Str} (hn : Nm n) :
    skipAny c (dname d) n = true ↔
      tmpZ <+: n ∨ ∃ e ∈ c.exclude, (∀ o x r, d ++ [n] ≠ pgTblspcZ :: o :: x :: r) ∧ 47 :: e = slashed (d ++ [n]) := by
  have hex : ∀ e, inData e = dname d ++ 47 :: n ↔ (∀ o x r, d ++ [n] ≠ pgTblspcZ :: o :: x :: r) ∧ 47 :: e = slashed (d ++ [n]) := fun e => by
    have := ename_excl (d := d) (n := n) (e := e) (x := [])
    simpa [inData, ename] using this
  unfold skipAny excludeSingle
  rw [Bool.or_eq_true, prefix_iff]
  simp only [List.contains_iff_mem, List.mem_filter, List.mem_map, bne_iff_ne]
  constructor
  · rintro (h | ⟨⟨e, he, hee⟩, _⟩)
    · exact .inl h
    · exact .inr ⟨e, he, (hex e).1 hee⟩
  · rintro (h | ⟨e, he, hee⟩)
    · exact .inl h
    · exact .inr ⟨⟨e, he, (hex e).2 hee⟩, last_name hn⟩

/-- The contents of the directory are looked at. -/
structure Enter (c : Cfg) (p : List Str) : Prop where
  content : p ≠ [] → (∀ o r, p ≠ pgTblspcZ :: o :: r) → ∀ e ∈ c.exclude, 47 :: e ≠ slashed p ++ [47]
  reset : ∀ d, p = [d] → d ∉ resetDirs
  status : c.online = true → p ≠ [c.wal, archiveStatusZ]

/-- The name in the directory is looked at. -/
structure Take (c : Cfg) (d : List Str) (n : Str) : Prop where
  temp : ¬ tmpZ <+: n
  single : (∀ o x r, d ++ [n] ≠ pgTblspcZ :: o :: x :: r) → ∀ e ∈ c.exclude, 47 :: e ≠ slashed (d ++ [n])
  tablespace : ∀ o, d = [pgTblspcZ, o] → n = c.ts

theorem snoc_inj {α : Type} {a b : List α} {x y : α} (h : a ++ [x] = b ++ [y]) : a = b ∧ x = y := by
  have := List.append_inj' h rfl
  exact ⟨this.1, by simpa using this.2⟩

theorem reached_snoc {c : Cfg} {d : List Str} {n : Str} : Reached c (d ++ [n]) ↔ Reached c d ∧ Enter c d ∧ Take c d n := by
  constructor
  · intro h
    refine ⟨⟨fun m hm => h.temp m (by simp [hm]), fun q hx => h.single q (hx.trans (List.prefix_append _ _)),
      fun q x hx => h.content q x (hx.trans (List.prefix_append _ _)), fun a x r hx => h.reset a x (r ++ [n]) (by simp [hx]),
      fun ho x r hx => h.status ho x (r ++ [n]) (by simp [hx]), fun o x r hx => h.tablespace o x (r ++ [n]) (by simp [hx])⟩,
      ⟨h.content d n (List.prefix_refl _), fun a ha => h.reset a n [] (by simp [ha]),
        fun ho hx => h.status ho n [] (by simp [hx])⟩,
      ⟨h.temp n (by simp), h.single (d ++ [n]) (List.prefix_refl _), fun o ho => h.tablespace o n [] (by simp [ho])⟩⟩
  · rintro ⟨h, he, ht⟩
    refine ⟨?_, ?_, ?_, ?_, ?_, ?_⟩
    · intro m hm
      rcases List.mem_append.1 hm with hm | hm
      · exact h.temp m hm
      · rw [List.mem_singleton.1 hm]; exact ht.temp
    · intro q hx
      rcases List.prefix_concat_iff.1 hx with rfl | hx
      · exact ht.single
      · exact h.single q hx
    · intro q x hx
      rcases List.prefix_concat_iff.1 hx with hx | hx
      · obtain ⟨rfl, rfl⟩ := snoc_inj hx
        exact he.content
      · exact h.content q x hx
    · intro a x r hx
      cases d with
      | nil => simp at hx
      | cons b d =>
        simp only [List.cons_append, List.cons.injEq] at hx
        obtain ⟨rfl, hx⟩ := hx
        cases d with
        | nil => exact he.reset b rfl
        | cons y d => exact h.reset b y d rfl
    · intro ho x r hx
      match d, hx with
      | [], hx => simp at hx
      | [_], hx => simp at hx
      | [a, b], hx =>
        simp only [List.cons_append, List.cons.injEq] at hx
        exact he.status ho (by rw [hx.1, hx.2.1])
      | a :: b :: y :: d, hx =>
        simp only [List.cons_append, List.cons.injEq] at hx
        exact h.status ho y d (by rw [hx.1, hx.2.1])
    · intro o x r hx
      match d, hx with
      | [], hx => simp at hx
      | [_], hx => simp at hx
      | [a, b], hx =>
        simp only [List.cons_append, List.cons.injEq, List.nil_append] at hx
        rw [← hx.2.2.1]
        exact ht.tablespace b (by rw [hx.1])
      | a :: b :: y :: d, hx =>
        simp only [List.cons_append, List.cons.injEq] at hx
        rw [← hx.2.2.1]
        exact h.tablespace b y d (by rw [hx.1])

theorem reached_nil (c : Cfg) : Reached c [] :=
  ⟨by simp, by
    intro q hq
    rw [List.prefix_nil.1 hq]
    simp [slashed], by simp, by simp, by simp, by simp⟩

theorem enter_nil (c : Cfg) : Enter c [] := ⟨fun h => absurd rfl h, by simp, by simp⟩

theorem skipContent_iff {c : Cfg} {d : List Str} {n : Str} (hd : ∀ n ∈ d, Nm n) (hw : Nm c.wal) (hdt : d ≠ [pgTblspcZ]) :
    skipContent c (dname d) n = true ↔ ¬ Enter c (d ++ [n]) := by
  have hts : (∀ o x r, d ++ [n] ≠ pgTblspcZ :: o :: x :: r) ↔ ∀ o r, d ++ [n] ≠ pgTblspcZ :: o :: r := by
    constructor
    · intro h o r hh
      cases r with
      | nil => exact hdt (snoc_inj (show d ++ [n] = [pgTblspcZ] ++ [o] from hh)).1
      | cons x r => exact h o x r hh
    · exact fun h o x r => h o (x :: r)
  have h1 : (excludeContent c).contains (dname d ++ 47 :: n) = true ↔
      ∃ e ∈ c.exclude, (∀ o r, d ++ [n] ≠ pgTblspcZ :: o :: r) ∧ 47 :: e = slashed (d ++ [n]) ++ [47] := by
    rw [← hts]
    simp only [← ename_excl]
    unfold excludeContent
    simp only [List.contains_iff_mem, List.mem_map, List.mem_filter, beq_iff_eq]
    constructor
    · rintro ⟨x, ⟨⟨e, he, rfl⟩, hl⟩, hx⟩
      refine ⟨e, he, ?_⟩
      have := List.dropLast_append_getLast? 47 hl
      unfold ename
      rw [← hx]
      exact this.symm
    · rintro ⟨e, he, hee⟩
      exact ⟨inData e, ⟨⟨e, he, rfl⟩, by unfold inData; rw [hee]; simp⟩, by unfold inData; rw [hee, List.dropLast_concat]; rfl⟩
  unfold skipContent
  simp only [Bool.or_eq_true, Bool.and_eq_true, beq_iff_eq, h1, dname_eq_data hd, dname_eq_one hd hw, List.contains_iff_mem]
  constructor
  · rintro ((⟨e, hm, h2, h3⟩ | ⟨rfl, h⟩) | ⟨⟨ho, rfl⟩, rfl⟩) he
    · exact he.content (by simp) h2 e hm h3
    · exact he.reset n rfl h
    · exact he.status ho rfl
  · intro h
    by_cases hc : ∃ e ∈ c.exclude, (∀ o r, d ++ [n] ≠ pgTblspcZ :: o :: r) ∧ 47 :: e = slashed (d ++ [n]) ++ [47]
    · exact .inl (.inl hc)
    by_cases hr : d = [] ∧ n ∈ resetDirs
    · exact .inl (.inr hr)
    by_cases hs : (c.online = true ∧ d = [c.wal]) ∧ n = archiveStatusZ
    · exact .inr hs
    refine absurd ⟨?_, ?_, ?_⟩ h
    · intro _ h2 e hm h3
      exact hc ⟨e, hm, h2, h3⟩
    · intro a ha hm
      have := snoc_inj (show d ++ [n] = [] ++ [a] from ha)
      exact hr ⟨this.1, this.2 ▸ hm⟩
    · intro ho hx
      have := snoc_inj (show d ++ [n] = [c.wal] ++ [archiveStatusZ] from hx)
      exact hs ⟨⟨ho, this.1⟩, this.2⟩

theorem dotDigit_iff : ∀ s : Str, dotDigit s = true ↔ ∃ a x b, 48 ≤ x ∧ x ≤ 57 ∧ s = a ++ 46 :: x :: b
  | [] => by simp [dotDigit]
  | [y] => by
    simp only [dotDigit, Bool.false_eq_true, false_iff]
    rintro ⟨a, x, b, _, _, h⟩
    have := congrArg List.length h
    simp at this
    omega
  | y :: z :: r => by
    rw [dotDigit, Bool.or_eq_true, Bool.and_eq_true, beq_iff_eq, isDig_iff, dotDigit_iff (z :: r)]
    constructor
    · rintro (⟨rfl, h1, h2⟩ | ⟨a, x, b, h1, h2, h⟩)
      · exact ⟨[], z, r, h1, h2, rfl⟩
      · exact ⟨y :: a, x, b, h1, h2, by rw [h]; rfl⟩
    · rintro ⟨a, x, b, h1, h2, h⟩
      cases a with
      | nil =>
        simp only [List.nil_append, List.cons.injEq] at h
        obtain ⟨rfl, rfl, rfl⟩ := h
        exact .inl ⟨rfl, h1, h2⟩
      | cons w a =>
        simp only [List.cons_append, List.cons.injEq] at h
        exact .inr ⟨a, x, b, h1, h2, h.2⟩

theorem internalInit_iff (n : Str) : internalInit n = true ↔ InitFile n := by
  unfold internalInit InitFile
  rw [Bool.and_eq_true, Bool.or_eq_true, prefix_iff, beq_iff_eq, dotDigit_iff]
  constructor
  · rintro ⟨⟨t, rfl⟩, h | ⟨a, x, b, h1, h2, h⟩⟩
    · left
      simp at h
      rw [h]; simp
    · right
      rw [List.drop_left] at h
      exact ⟨a, x, b, h1, h2, by rw [h]; simp⟩
  · rintro (rfl | ⟨a, x, b, h1, h2, rfl⟩)
    · exact ⟨List.prefix_refl _, .inl rfl⟩
    · refine ⟨⟨a ++ 46 :: x :: b, by simp⟩, .inr ⟨a, x, b, h1, h2, ?_⟩⟩
      rw [List.append_assoc, List.drop_left]

theorem relName_iff (s : Str) : relName s = true ↔ ∃ id t, Number id ∧ Tail t ∧ s = id ++ t := by
  unfold relName
  rw [Bool.and_eq_true, dropFork_iff]
  constructor
  · rintro ⟨h1, h2⟩
    refine ⟨s.takeWhile isDig, s.dropWhile isDig, ⟨by simpa using h1, ?_⟩, h2, (List.takeWhile_append_dropWhile).symm⟩
    intro c hc
    exact (isDig_iff c).1 (tw_mem hc)
  · rintro ⟨id, t, hid, ht, rfl⟩
    obtain ⟨h1, h2⟩ := tw_digits (number_dig hid) (fun c r e => tail_head ht e)
    rw [h1, h2]
    exact ⟨by simpa using hid.1, ht⟩

theorem tempRel_iff (n : Str) : tempRel n = true ↔ TempRelation n := by
  unfold TempRelation
  constructor
  · intro h
    unfold tempRel at h
    split at h
    · next s =>
      rw [Bool.and_eq_true] at h
      obtain ⟨h1, h2⟩ := h
      split at h2
      · next q hq =>
        obtain ⟨id, t, hid, ht, rfl⟩ := (relName_iff q).1 h2
        refine ⟨s.takeWhile isDig, id, t, ⟨by simpa using h1, fun c hc => (isDig_iff c).1 (tw_mem hc)⟩, hid, ht, ?_⟩
        have := List.takeWhile_append_dropWhile (p := isDig) (l := s)
        rw [hq] at this
        simp only [List.cons_append, List.append_assoc, List.cons.injEq, true_and]
        exact this.symm
      · cases h2
    · cases h
  · rintro ⟨b, id, t, hb, hid, ht, rfl⟩
    obtain ⟨h1, h2⟩ := tw_digits (b := 95 :: (id ++ t)) (number_dig hb) (fun c r e => by
      injection e with e _
      rw [← e]; decide)
    have e : (116 : UInt8) :: b ++ 95 :: id ++ t = 116 :: (b ++ 95 :: (id ++ t)) := by simp
    rw [e]
    simp only [tempRel, h1, h2]
    rw [Bool.and_eq_true, relName_iff]
    exact ⟨by simpa using hb.1, id, t, hid, ht, rfl⟩

theorem skipRoot_iff (c : Cfg) (n : Str) : skipRoot c n = true ↔ RootFile c n := by
  unfold skipRoot RootFile
  simp only [Bool.or_eq_true, Bool.and_eq_true, beq_iff_eq, decide_eq_true_eq, List.contains_iff_mem]
  constructor
  · rintro (((⟨h, hv⟩ | ⟨h, hv⟩) | ⟨h, hv⟩) | h)
    · exact .inr (.inl ⟨hv, h⟩)
    · exact .inr (.inr (.inl ⟨hv, h⟩))
    · exact .inr (.inr (.inr ⟨hv, h⟩))
    · exact .inl h
  · rintro (h | ⟨hv, h⟩ | ⟨hv, h⟩ | ⟨hv, h⟩)
    · exact .inr h
    · exact .inl (.inl (.inl ⟨h, hv⟩))
    · exact .inl (.inl (.inr ⟨h, hv⟩))
    · exact .inl (.inr ⟨h, hv⟩)

theorem skipFile_iff {c : Cfg} {d : List Str} {n : Str} (hd : ∀ n ∈ d, Nm n) (hw : Nm c.wal) :
    skipFile c (dname d) (dbPath c.ts (dname d)) n = true ↔ ¬ FileOk c d n := by
  unfold skipFile
  simp only [Bool.or_eq_true, Bool.and_eq_true, beq_iff_eq, dname_eq_data hd, dname_eq_one hd hw, skipRoot_iff, tempRel_iff,
    internalInit_iff, dbPath_iff]
  constructor
  · rintro (((⟨h1, h2⟩ | ⟨h1, h2⟩) | ⟨h1, h2⟩) | ⟨h1, h2⟩) hf
    · exact (hf.rel h1).1 h2
    · exact hf.root h1 h2
    · exact hf.wal h1 h2
    · exact (hf.rel h1).2 h2
  · intro h
    by_cases h1 : DbDir c.ts (dname d) ∧ InitFile n
    · exact .inl (.inl (.inl h1))
    by_cases h2 : d = [] ∧ RootFile c n
    · exact .inl (.inl (.inr h2))
    by_cases h3 : c.online = true ∧ d = [c.wal]
    · exact .inl (.inr h3)
    by_cases h4 : DbDir c.ts (dname d) ∧ TempRelation n
    · exact .inr h4
    exact absurd ⟨fun a b => h2 ⟨a, b⟩, fun a b => h3 ⟨a, b⟩, fun a => ⟨fun b => h1 ⟨a, b⟩, fun b => h4 ⟨a, b⟩⟩⟩ h

theorem endsWith_iff {d : List Str} {n m : Str} (hn : 47 ∉ n) (hm : 47 ∉ m) : endsWith (dname d ++ 47 :: n) (47 :: m) = true ↔ n = m := by
  unfold endsWith
  rw [List.isSuffixOf_iff_suffix]
  constructor
  · rintro ⟨x, hx⟩
    have h1 := congrArg baseName hx
    rw [(base_split hn).1, (base_split hm).1] at h1
    exact h1.symm
  · rintro rfl
    exact List.suffix_append _ _

theorem fileEntry_iff {c : Cfg} {d : List Str} {n : Str} {s : Nat} {e : Entry} (hd : ∀ n ∈ d, Nm n) (hn : Nm n) :
    e = fileEntry c (dname d) (dbPath c.ts (dname d)) n s ↔
      ∃ copy page, (copy = true ↔ ¬ (s = 0 ∧ c.bundle = true)) ∧ (page = true ↔ PageFile c d n) ∧ e = .file (ename d n) s copy page := by
  have hcopy : (!(s == 0 && c.bundle)) = true ↔ ¬ (s = 0 ∧ c.bundle = true) := by
    by_cases h0 : s = 0 <;> simp [h0]
  have hctl : (dname d ++ 47 :: n) = inData (globalDirZ ++ 47 :: pgControlZ) ↔ d = [globalDirZ] ∧ n = pgControlZ := by
    rw [show inData (globalDirZ ++ 47 :: pgControlZ) = ename [globalDirZ] pgControlZ from rfl]
    constructor
    · intro h
      obtain ⟨h1, h2⟩ := ename_inj (d := d) hn.2 (by decide) h
      exact ⟨dname_inj hd (by simp; exact ⟨by decide, by decide⟩) h1, h2⟩
    · rintro ⟨rfl, rfl⟩
      rfl
  have hpage : (dbPath c.ts (dname d) && c.checksumPage && !endsWith (dname d ++ 47 :: n) (47 :: filenodeMapZ) &&
      !endsWith (dname d ++ 47 :: n) (47 :: pgVersionZ) && !((dname d ++ 47 :: n) == inData (globalDirZ ++ 47 :: pgControlZ))) = true ↔
      PageFile c d n := by
    unfold PageFile
    simp only [Bool.and_eq_true, Bool.not_eq_true', ← Bool.not_eq_true, endsWith_iff hn.2 (show (47 : UInt8) ∉ filenodeMapZ by decide),
      endsWith_iff hn.2 (show (47 : UInt8) ∉ pgVersionZ by decide), beq_iff_eq, hctl, dbPath_iff]
    constructor
    · rintro ⟨⟨⟨⟨h1, h2⟩, h3⟩, h4⟩, h5⟩
      exact ⟨h2, h1, h3, h4, h5⟩
    · rintro ⟨h2, h1, h3, h4, h5⟩
      exact ⟨⟨⟨⟨h1, h2⟩, h3⟩, h4⟩, h5⟩
  constructor
  · rintro rfl
    exact ⟨_, _, hcopy, hpage, rfl⟩
  · rintro ⟨copy, page, h1, h2, rfl⟩
    have e1 : copy = !(s == 0 && c.bundle) := Bool.eq_iff_iff.2 (h1.trans hcopy.symm)
    have e2 := Bool.eq_iff_iff.2 (h2.trans hpage.symm)
    unfold fileEntry
    rw [e1, e2]
    rfl

/-! ## The main induction -/

/-- What the manifest has for what is below the directory `d`. -/
def Spec (c : Cfg) (t : DTree) (d : List Str) (e : Entry) : Prop := ∃ r k, Has t r k ∧ Reached c (d ++ r) ∧ Adds c (d ++ r) k e

/-- What the manifest has for what is found at `p`. -/
def At (c : Cfg) (p : List Str) (k : Kind) (e : Entry) : Prop := Reached c p ∧ Adds c p k e

theorem has_ne_nil {t : DTree} {r : List Str} {k : Kind} (h : Has t r k) : r ≠ [] := by
  induction h <;> simp_all

theorem spec_nil {c : Cfg} {d : List Str} {e : Entry} : ¬ Spec c .nil d e := by
  rintro ⟨r, k, h, _⟩
  cases h

theorem spec_file {c : Cfg} {d : List Str} {e : Entry} {n : Str} {s : Nat} {rest : DTree} :
    Spec c (.file n s rest) d e ↔ At c (d ++ [n]) (.file s false) e ∨ Spec c rest d e := by
  constructor
  · rintro ⟨r, k, h, h1, h2⟩
    cases h with
    | file => exact .inl ⟨h1, h2⟩
    | afterFile h => exact .inr ⟨r, k, h, h1, h2⟩
  · rintro (⟨h1, h2⟩ | ⟨r, k, h, h1, h2⟩)
    · exact ⟨_, _, .file, h1, h2⟩
    · exact ⟨_, _, .afterFile h, h1, h2⟩

theorem spec_special {c : Cfg} {d : List Str} {e : Entry} {n : Str} {rest : DTree} :
    Spec c (.special n rest) d e ↔ Spec c rest d e := by
  constructor
  · rintro ⟨r, k, h, h1, h2⟩
    cases h with
    | special => exact h2.elim
    | afterSpecial h => exact ⟨r, k, h, h1, h2⟩
  · rintro ⟨r, k, h, h1, h2⟩
    exact ⟨_, _, .afterSpecial h, h1, h2⟩

theorem cons_snoc (d : List Str) (n : Str) (r : List Str) : d ++ n :: r = d ++ [n] ++ r := by simp

theorem spec_path {c : Cfg} {d : List Str} {e : Entry} {n : Str} {ch rest : DTree} :
    Spec c (.path n ch rest) d e ↔ (At c (d ++ [n]) (.path false) e ∨ Spec c ch (d ++ [n]) e) ∨ Spec c rest d e := by
  constructor
  · rintro ⟨r, k, h, h1, h2⟩
    cases h with
    | path => exact .inl (.inl ⟨h1, h2⟩)
    | inPath h =>
      rw [cons_snoc] at h1 h2
      exact .inl (.inr ⟨_, _, h, h1, h2⟩)
    | afterPath h => exact .inr ⟨r, k, h, h1, h2⟩
  · rintro ((⟨h1, h2⟩ | ⟨r, k, h, h1, h2⟩) | ⟨r, k, h, h1, h2⟩)
    · exact ⟨_, _, .path, h1, h2⟩
    · exact ⟨_, _, .inPath h, by rw [cons_snoc]; exact h1, by rw [cons_snoc]; exact h2⟩
    · exact ⟨_, _, .afterPath h, h1, h2⟩

/-- What the manifest has for what a link leads to. -/
def Behind (c : Cfg) (p : List Str) (g : Dest) (ch : DTree) (e : Entry) : Prop :=
  match g with
  | .missing => False
  | .special => False
  | .file s => At c p (.file s true) e
  | .path => At c p (.path true) e ∨ Spec c ch p e

theorem spec_link {c : Cfg} {d : List Str} {e : Entry} {n dest : Str} {tw : Bool} {g : Dest} {ch rest : DTree} :
    Spec c (.link n dest tw g ch rest) d e ↔ (At c (d ++ [n]) (.link dest tw g ch) e ∨ Behind c (d ++ [n]) g ch e) ∨ Spec c rest d e := by
  constructor
  · rintro ⟨r, k, h, h1, h2⟩
    cases h with
    | link => exact .inl (.inl ⟨h1, h2⟩)
    | linkFile => exact .inl (.inr ⟨h1, h2⟩)
    | linkSpecial => exact h2.elim
    | linkPath => exact .inl (.inr (.inl ⟨h1, h2⟩))
    | inLink h =>
      rw [cons_snoc] at h1 h2
      exact .inl (.inr (.inr ⟨_, _, h, h1, h2⟩))
    | afterLink h => exact .inr ⟨r, k, h, h1, h2⟩
  · rintro ((⟨h1, h2⟩ | hb) | ⟨r, k, h, h1, h2⟩)
    · exact ⟨_, _, .link, h1, h2⟩
    · cases g with
      | missing => exact hb.elim
      | special => exact hb.elim
      | file s => exact ⟨_, _, .linkFile, hb.1, hb.2⟩
      | path =>
        rcases hb with ⟨h1, h2⟩ | ⟨r, k, h, h1, h2⟩
        · exact ⟨_, _, .linkPath, h1, h2⟩
        · exact ⟨_, _, .inLink h, by rw [cons_snoc]; exact h1, by rw [cons_snoc]; exact h2⟩
    · exact ⟨_, _, .afterLink h, h1, h2⟩

theorem reached_above {c : Cfg} : ∀ (r p : List Str), r ≠ [] → Reached c (p ++ r) → Reached c p ∧ Enter c p
  | [], _, h, _ => absurd rfl h
  | [x], p, _, h => ⟨(reached_snoc.1 h).1, (reached_snoc.1 h).2.1⟩
  | x :: y :: r, p, _, h => by
    rw [cons_snoc] at h
    have := (reached_above (y :: r) (p ++ [x]) (by simp) h).1
    exact ⟨(reached_snoc.1 this).1, (reached_snoc.1 this).2.1⟩

theorem spec_above {c : Cfg} {t : DTree} {d : List Str} {e : Entry} (h : Spec c t d e) : Reached c d ∧ Enter c d := by
  obtain ⟨r, k, h, h1, _⟩ := h
  exact reached_above r d (has_ne_nil h) h1

/-- The names of a tree. -/
def TNames : DTree → Prop
  | .nil => True
  | .file n _ rest => Nm n ∧ TNames rest
  | .special n rest => Nm n ∧ TNames rest
  | .path n ch rest => Nm n ∧ TNames ch ∧ TNames rest
  | .link n _ _ g ch rest => Nm n ∧ (g = .path → TNames ch) ∧ TNames rest

theorem tnames_of : ∀ {t : DTree}, Names t → TNames t
  | .nil, _ => trivial
  | .file n s rest, h => ⟨h _ _ .file n (by simp), tnames_of fun p k hp => h p k (.afterFile hp)⟩
  | .special n rest, h => ⟨h _ _ .special n (by simp), tnames_of fun p k hp => h p k (.afterSpecial hp)⟩
  | .path n ch rest, h => ⟨h _ _ .path n (by simp), tnames_of fun p k hp m hm => h (n :: p) k (.inPath hp) m (List.mem_cons_of_mem _ hm),
      tnames_of fun p k hp => h p k (.afterPath hp)⟩
  | .link n dest tw g ch rest, h => ⟨h _ _ .link n (by simp),
      fun hg => tnames_of fun p k hp m hm => h (n :: p) k (by subst hg; exact .inLink hp) m (List.mem_cons_of_mem _ hm),
      tnames_of fun p k hp => h p k (.afterLink hp)⟩

/-- One entry is looked at in the destination of a tablespace, all are anywhere else. -/
def Only (c : Cfg) (d : List Str) (only : Option Str) : Prop :=
  (only = none ∧ ∀ o, d ≠ [pgTblspcZ, o]) ∨ (only = some c.ts ∧ ∃ o, d = [pgTblspcZ, o])

theorem dname_eq_tblspc {d : List Str} (hd : ∀ n ∈ d, Nm n) : dname d = tblspcDirZ ↔ d = [pgTblspcZ] :=
  dname_eq_one hd nm_tblspc

/-- What is not looked at. -/
theorem skip_iff {c : Cfg} {d : List Str} {n : Str} {only : Option Str} (hn : Nm n) (ho : Only c d only) (hr : Reached c d)
    (he : Enter c d) : (only.any (· != n) || skipAny c (dname d) n) = true ↔ ¬ Reached c (d ++ [n]) := by
  rw [Bool.or_eq_true, skipAny_iff hn, reached_snoc]
  have hany : only.any (· != n) = true ↔ ¬ ∀ o, d = [pgTblspcZ, o] → n = c.ts := by
    rcases ho with ⟨rfl, h⟩ | ⟨rfl, o, rfl⟩
    · simp [h]
    · have : ((c.ts != n) = true) ↔ ¬ n = c.ts := by rw [bne_iff_ne]; exact ⟨fun h hh => h hh.symm, fun h hh => h hh.symm⟩
      simp only [Option.any_some, this]
      simp
  rw [hany]
  constructor
  · rintro (h | h | ⟨e, hm, h2, h3⟩) ⟨_, _, ht⟩
    · exact h ht.tablespace
    · exact ht.temp h
    · exact ht.single h2 e hm h3
  · intro h
    by_cases h1 : ∀ o, d = [pgTblspcZ, o] → n = c.ts
    · right
      by_cases h2 : tmpZ <+: n
      · exact .inl h2
      · right
        exact Classical.byContradiction fun h3 => h ⟨hr, he, ⟨h2, fun a e hm hh => h3 ⟨e, hm, a, hh⟩, h1⟩⟩
    · exact .inl h1

theorem file_mem {c : Cfg} {d : List Str} {n : Str} {s : Nat} {only : Option Str} {out out' : List Entry} (hw : Nm c.wal)
    (hd : ∀ n ∈ d, Nm n) (hn : Nm n) (ho : Only c d only) (hr : Reached c d) (he : Enter c d) (hx : only.any (· != n) = false)
    (h : addFile c (dname d) (dbPath c.ts (dname d)) n s out = .ok out') (lk : Bool) (e : Entry) :
    e ∈ out' ↔ e ∈ out ∨ At c (d ++ [n]) (.file s lk) e := by
  have hs := skip_iff hn ho hr he
  rw [hx, Bool.false_or] at hs
  unfold addFile at h
  by_cases h1 : skipAny c (dname d) n = true
  · rw [if_pos h1] at h
    injection h with h
    subst h
    have := hs.1 h1
    simp [At, this]
  rw [if_neg h1] at h
  have hreach : Reached c (d ++ [n]) := Classical.byContradiction fun hh => h1 (hs.2 hh)
  by_cases h2 : (dname d == tblspcDirZ) = true
  · rw [if_pos h2] at h
    cases h
  rw [if_neg h2] at h
  have hadds : ∀ e, At c (d ++ [n]) (.file s lk) e ↔ FileOk c d n ∧ e = fileEntry c (dname d) (dbPath c.ts (dname d)) n s := by
    intro e
    rw [fileEntry_iff hd hn]
    constructor
    · rintro ⟨_, d', n', copy, page, hp, hf, hrest⟩
      obtain ⟨rfl, rfl⟩ := snoc_inj hp
      exact ⟨hf, copy, page, hrest⟩
    · rintro ⟨hf, copy, page, hrest⟩
      exact ⟨hreach, d, n, copy, page, rfl, hf, hrest⟩
  rw [hadds]
  by_cases h3 : skipFile c (dname d) (dbPath c.ts (dname d)) n = true
  · rw [if_pos h3] at h
    injection h with h
    subst h
    have := (skipFile_iff hd hw).1 h3
    simp [this]
  · rw [if_neg h3] at h
    injection h with h
    subst h
    have hf : FileOk c d n := Classical.byContradiction fun hh => h3 ((skipFile_iff hd hw).2 hh)
    simp [hf]

theorem db_tblspc {ts n : Str} (hn : 47 ∉ n) : dbPath ts (dname [pgTblspcZ, n]) = dbPath ts (dname [pgTblspcZ]) := by
  have h1 : dbPath ts (dname [pgTblspcZ, n]) = false := by
    rw [← Bool.not_eq_true, dbPath_iff]
    rw [show dname [pgTblspcZ, n] = pgTblspcZ ++ 47 :: n by simp [dname, slashed]]
    rintro (h | ⟨m, _, h⟩ | ⟨m, t, q, _, _, _, h⟩)
    · exact absurd (first_inj tblspc_noslash data_noslash h (.inr ⟨_, rfl⟩) (.inr ⟨_, rfl⟩)).1 (by decide)
    · unfold baseZ at h
      rw [List.append_assoc] at h
      exact absurd (first_inj tblspc_noslash data_noslash h (.inr ⟨_, rfl⟩) (.inr ⟨_, rfl⟩)).1 (by decide)
    · unfold tblspcZ at h
      simp only [List.append_assoc, List.cons_append, List.nil_append, List.append_cancel_left_eq, List.cons.injEq, true_and] at h
      exact hn (by rw [h]; simp)
  have h2 : dbPath ts (dname [pgTblspcZ]) = false := by
    rw [← Bool.not_eq_true, dbPath_iff, dname_one]
    rintro (h | ⟨m, _, h⟩ | ⟨m, t, q, _, _, _, h⟩)
    · exact absurd h (by decide)
    · have := congrArg (List.take 12) h
      unfold baseZ at this
      rw [List.append_assoc, show List.take 12 (pgdataZ ++ ([47, 98, 97, 115, 101, 47] ++ m)) = pgdataZ ++ [47, 98, 97, 115, 101] from rfl] at this
      exact absurd this (by decide)
    · unfold tblspcZ at h
      rw [List.append_assoc, List.append_assoc] at h
      exact absurd (first_inj tblspc_noslash data_noslash h.symm (.inr ⟨_, rfl⟩) (.inr ⟨_, rfl⟩)).1 (by decide)
  rw [h1, h2]

theorem tsName_iff {c : Cfg} {id : Nat} {n name : Str} : tablespaceName c id n = .ok name ↔ TsName c id n name := by
  unfold tablespaceName TsName
  cases c.tablespaces with
  | none =>
    constructor
    · intro h; injection h with h; exact h.symm
    · intro h; rw [h]; rfl
  | some l =>
    simp only []
    constructor
    · intro h
      cases hf : (l.filter fun t => t.1 == id).getLast? with
      | none => rw [hf] at h; cases h
      | some t =>
        rw [hf] at h
        injection h with h
        clear c
        induction l with
        | nil => simp at hf
        | cons x l ih =>
          by_cases hl : (l.filter fun t => t.1 == id) = []
          · rw [List.filter_cons] at hf
            by_cases hx : (x.1 == id) = true
            · rw [if_pos hx, hl] at hf
              injection hf with hf
              subst hf
              refine ⟨[], l, ?_, ?_⟩
              · have := beq_iff_eq.1 hx
                rw [← h, ← this]; rfl
              · intro y hy hyi
                have hm : y ∈ l.filter fun t => t.1 == id := List.mem_filter.2 ⟨hy, beq_iff_eq.2 hyi⟩
                rw [hl] at hm
                cases hm
            · rw [if_neg hx, hl] at hf
              simp at hf
          · have hf' : (l.filter fun t => t.1 == id).getLast? = some t := by
              rw [List.filter_cons] at hf
              by_cases hx : (x.1 == id) = true
              · rw [if_pos hx] at hf
                rw [List.getLast?_cons] at hf
                rw [← hf]
                cases hq : (l.filter fun t => t.1 == id).getLast? with
                | none => exact absurd (List.getLast?_eq_none_iff.1 hq) hl
                | some y => rfl
              · rw [if_neg hx] at hf
                exact hf
            obtain ⟨a, b, rfl, hb⟩ := ih hf'
            exact ⟨x :: a, b, rfl, hb⟩
    · rintro ⟨a, b, rfl, hb⟩
      have : (b.filter fun t => t.1 == id) = [] := List.filter_eq_nil_iff.2 fun x hx => by simpa using hb x hx
      simp [List.filter_append, List.filter_cons, this]

theorem tablespace_mem {c : Cfg} {out out1 : List Entry} {n dest : Str} {g : Dest} {ch : DTree}
    (h : tablespace c out n dest (if g = .path then lookup c.ts ch else .missing) = .ok out1) :
    g = .path ∧ ∀ e, e ∈ out1 ↔ e ∈ out ∨ e = .path (pgTblspcZ ++ 47 :: n) ∨ e = .path pgTblspcZ ∨ e = .link (tblspcDirZ ++ 47 :: n) dest ∨
      ∃ id name, Num.toUIntBase 10 n = .ok id ∧ TsName c id n name ∧ e = .target (pgTblspcZ ++ 47 :: n) id name := by
  generalize hD : (if g = .path then lookup c.ts ch else .missing) = D at h
  unfold tablespace at h
  cases hid : Num.toUIntBase 10 n with
  | error x => rw [hid] at h; cases h
  | ok id =>
    rw [hid] at h
    dsimp only at h
    cases hn : tablespaceName c id n with
    | error x => rw [hn] at h; cases h
    | ok name =>
      rw [hn] at h
      dsimp only at h
      split at h
      · cases h
      · cases hc : c.check (tablespaceEntries out n dest id name) with
        | error x => rw [hc] at h; cases h
        | ok u =>
          rw [hc] at h
          dsimp only at h
          split at h
          · cases h
          · next hg =>
            injection h with h
            refine ⟨Classical.byContradiction fun hh => hg (by rw [← hD, if_neg hh]), fun e => ?_⟩
            have hname : ∀ i m, (Num.toUIntBase 10 n = .ok i ∧ TsName c i n m ∧ e = .target (pgTblspcZ ++ 47 :: n) i m) ↔
                (i = id ∧ m = name ∧ e = .target (pgTblspcZ ++ 47 :: n) i m) := by
              intro i m
              rw [hid, ← tsName_iff]
              constructor
              · rintro ⟨h1, h2, h3⟩
                injection h1 with h1
                subst h1
                rw [hn] at h2
                injection h2 with h2
                exact ⟨rfl, h2.symm, h3⟩
              · rintro ⟨rfl, rfl, h3⟩
                exact ⟨rfl, hn, h3⟩
            simp only [hid] at hname
            simp only [hname]
            rw [← h]
            unfold tablespaceEntries
            constructor
            · intro he
              rcases List.mem_append.1 he with he | he
              · split at he
                · exact .inl he
                · rcases List.mem_append.1 he with he | he
                  · exact .inl he
                  · exact .inr (.inr (.inl (List.mem_singleton.1 he)))
              · simp only [List.mem_cons, List.not_mem_nil, or_false] at he
                rcases he with he | he | he
                · exact .inr (.inl he)
                · exact .inr (.inr (.inr (.inr ⟨id, name, rfl, rfl, he⟩)))
                · exact .inr (.inr (.inr (.inl he)))
            · rintro (he | he | he | he | ⟨i, m, rfl, rfl, he⟩)
              · apply List.mem_append_left
                split
                · exact he
                · exact List.mem_append_left _ he
              · simp [he]
              · apply List.mem_append_left
                split
                · next hm => rw [he]; exact hm
                · simp [he]
              · simp [he]
              · simp [he]

theorem plain_mem {c : Cfg} {parent : Str} {out out1 : List Entry} {n dest : Str} {g : Dest} (h : plainLink c parent out n dest g = .ok out1) :
    g ≠ .missing ∧ out1 = out ++ [.target (parent ++ 47 :: n) 0 [], .link (parent ++ 47 :: n) dest] := by
  unfold plainLink at h
  dsimp only at h
  split at h
  · cases h
  · split at h
    · cases h
    · next hg => exact ⟨hg, by injection h with h; exact h.symm⟩

theorem at_link {c : Cfg} {d : List Str} {n dest : Str} {tw : Bool} {g : Dest} {ch : DTree} {e : Entry} (hr : Reached c (d ++ [n])) :
    At c (d ++ [n]) (.link dest tw g ch) e ↔
      ((d = [pgTblspcZ] ∧ (e = .path pgTblspcZ ∨ e = .link (ename d n) dest ∨
          ∃ id name, Num.toUIntBase 10 n = .ok id ∧ TsName c id n name ∧ e = .target (dname (d ++ [n])) id name)) ∨
       (d ≠ [pgTblspcZ] ∧ (∀ o, d ≠ [pgTblspcZ, o]) ∧ (e = .link (ename d n) dest ∨ e = .target (ename d n) 0 []))) := by
  constructor
  · rintro ⟨_, d', n', hp, h⟩
    obtain ⟨rfl, rfl⟩ := snoc_inj hp
    exact h
  · intro h
    exact ⟨hr, d, n, rfl, h⟩

theorem build_mem {c : Cfg} (hw : Nm c.wal) (hwt : c.wal ≠ pgTblspcZ) : ∀ (t : DTree) (d : List Str) (only : Option Str) (out out' : List Entry), TNames t →
    (∀ n ∈ d, Nm n) → Only c d only → Reached c d → Enter c d →
    build c t (dname d) (dbPath c.ts (dname d)) only out = .ok out' → ∀ e, e ∈ out' ↔ e ∈ out ∨ Spec c t d e
  | .nil, d, only, out, out', _, _, _, _, _, h, e => by
    injection h with h
    subst h
    simp [spec_nil]
  | .file n s rest, d, only, out, out', ht, hd, ho, hr, he, h, e => by
    rw [build] at h
    have hs := skip_iff ht.1 ho hr he
    rw [spec_file]
    by_cases hx : only.any (· != n) = true
    · rw [if_pos hx] at h
      have := hs.1 (by rw [hx]; rfl)
      rw [build_mem hw hwt rest d only out out' ht.2 hd ho hr he h e]
      simp [At, this]
    · rw [if_neg hx] at h
      cases ha : addFile c (dname d) (dbPath c.ts (dname d)) n s out with
      | error x => rw [ha] at h; cases h
      | ok out1 =>
        rw [ha] at h
        rw [build_mem hw hwt rest d only out1 out' ht.2 hd ho hr he h e, file_mem hw hd ht.1 ho hr he (by simpa using hx) ha false e, or_assoc]
  | .special n rest, d, only, out, out', ht, hd, ho, hr, he, h, e => by
    rw [build] at h
    rw [spec_special]
    exact build_mem hw hwt rest d only out out' ht.2 hd ho hr he h e
  | .path n ch rest, d, only, out, out', ht, hd, ho, hr, he, h, e => by
    rw [build] at h
    have hs := skip_iff ht.1 ho hr he
    rw [spec_path]
    by_cases hx : (only.any (· != n) || skipAny c (dname d) n) = true
    · rw [if_pos hx] at h
      have hnr := hs.1 hx
      rw [build_mem hw hwt rest d only out out' ht.2.2 hd ho hr he h e]
      have : ¬ Spec c ch (d ++ [n]) e := fun hh => hnr (spec_above hh).1
      simp [At, hnr, this]
    rw [if_neg hx] at h
    have hreach : Reached c (d ++ [n]) := Classical.byContradiction fun hh => hx (hs.2 hh)
    by_cases h2 : (dname d == tblspcDirZ) = true
    · rw [if_pos h2] at h
      cases h
    rw [if_neg h2] at h
    have hdt : d ≠ [pgTblspcZ] := fun hh => h2 (by rw [beq_iff_eq]; exact (dname_eq_tblspc hd).2 hh)
    have hsn : dname (d ++ [n]) = dname d ++ 47 :: n := dname_snoc hdt
    have hat : ∀ lk e, At c (d ++ [n]) (.path lk) e ↔ e = .path (dname d ++ 47 :: n) := fun lk e => by
      simp [At, hreach, Adds, hsn]
    by_cases h3 : skipContent c (dname d) n = true
    · rw [if_pos h3] at h
      have hne := (skipContent_iff hd hw hdt).1 h3
      have : ¬ Spec c ch (d ++ [n]) e := fun hh => hne (spec_above hh).2
      rw [build_mem hw hwt rest d only _ out' ht.2.2 hd ho hr he h e, hat]
      simp [this, or_assoc]
    · rw [if_neg h3] at h
      have hent : Enter c (d ++ [n]) := Classical.byContradiction fun hh => h3 ((skipContent_iff hd hw hdt).2 hh)
      cases hb : build c ch (dname d ++ 47 :: n) (dbPath c.ts (dname d ++ 47 :: n)) none (out ++ [.path (dname d ++ 47 :: n)]) with
      | error x => rw [hb] at h; cases h
      | ok out1 =>
        rw [hb] at h
        rw [← hsn] at hb
        have hon : Only c (d ++ [n]) none := .inl ⟨rfl, fun o hh => hdt (snoc_inj (show d ++ [n] = [pgTblspcZ] ++ [o] from hh)).1⟩
        rw [build_mem hw hwt rest d only out1 out' ht.2.2 hd ho hr he h e,
          build_mem hw hwt ch (d ++ [n]) none _ out1 ht.2.1 (by
            intro m hm
            rcases List.mem_append.1 hm with hm | hm
            · exact hd m hm
            · rw [List.mem_singleton.1 hm]; exact ht.1) hon hreach hent hb e, hat, hsn]
        simp [or_assoc]
  | .link n dest tw g ch rest, d, only, out, out', ht, hd, ho, hr, he, h, e => by
    rw [build] at h
    have hs := skip_iff ht.1 ho hr he
    rw [spec_link]
    have hrest := fun o1 (h1 : build c rest (dname d) (dbPath c.ts (dname d)) only o1 = .ok out') =>
      build_mem hw hwt rest d only o1 out' ht.2.2 hd ho hr he h1 e
    by_cases hx : (only.any (· != n) || skipAny c (dname d) n) = true
    · rw [if_pos hx] at h
      have hnr := hs.1 hx
      rw [hrest _ h]
      have hns : ¬ Spec c ch (d ++ [n]) e := fun hh => hnr (spec_above hh).1
      have hnb : ¬ Behind c (d ++ [n]) g ch e := by
        cases g <;> simp [Behind, At, hnr, hns]
      simp [At, hnr, hnb]
    rw [if_neg hx] at h
    have hreach : Reached c (d ++ [n]) := Classical.byContradiction fun hh => hx (hs.2 hh)
    have hnames : ∀ m ∈ d ++ [n], Nm m := by
      intro m hm
      rcases List.mem_append.1 hm with hm | hm
      · exact hd m hm
      · rw [List.mem_singleton.1 hm]; exact ht.1
    by_cases htw : (only.isNone && tw) = true
    · rw [if_pos htw] at h
      cases h
    rw [if_neg htw] at h
    by_cases h2 : (only.isNone && dname d == tblspcDirZ) = true
    · rw [if_pos h2] at h
      simp only [Bool.and_eq_true, beq_iff_eq] at h2
      have hdt := (dname_eq_tblspc hd).1 h2.2
      subst hdt
      cases hts : tablespace c out n dest (if g = .path then lookup c.ts ch else .missing) with
      | error x => rw [hts] at h; cases h
      | ok out1 =>
        rw [hts] at h
        obtain ⟨hg, hout1⟩ := tablespace_mem hts
        subst hg
        simp only [] at h
        cases hb : build c ch (pgTblspcZ ++ 47 :: n) (dbPath c.ts (dname [pgTblspcZ])) (some c.ts) out1 with
        | error x => rw [hb] at h; cases h
        | ok out2 =>
          rw [hb] at h
          rw [← db_tblspc ht.1.2, show pgTblspcZ ++ 47 :: n = dname ([pgTblspcZ] ++ [n]) by simp [dname, slashed]] at hb
          have hent : Enter c ([pgTblspcZ] ++ [n]) := ⟨fun _ hh => absurd rfl (hh n []), by simp, fun _ hh => hwt (List.cons.inj hh).1.symm⟩
          rw [hrest _ h, build_mem hw hwt ch ([pgTblspcZ] ++ [n]) (some c.ts) out1 out2 (ht.2.1 rfl) hnames (.inr ⟨rfl, n, rfl⟩) hreach hent hb e,
            hout1, at_link hreach]
          have hp : At c ([pgTblspcZ] ++ [n]) (.path true) e ↔ e = .path (pgTblspcZ ++ 47 :: n) := by
            rw [show pgTblspcZ ++ 47 :: n = dname ([pgTblspcZ] ++ [n]) by simp [dname, slashed]]
            exact ⟨fun hh => hh.2, fun hh => ⟨hreach, hh⟩⟩
          simp only [Behind, hp, show ename [pgTblspcZ] n = tblspcDirZ ++ 47 :: n by rw [ename, dname_one]; rfl,
            show dname ([pgTblspcZ] ++ [n]) = pgTblspcZ ++ 47 :: n by simp [dname, slashed], true_and, ne_eq, not_true_eq_false, false_and,
            or_false]
          constructor
          · rintro (((h | h | h) | h) | h)
            · exact .inl h
            · exact .inr (.inl (.inr (.inl h)))
            · exact .inr (.inl (.inl h))
            · exact .inr (.inl (.inr (.inr h)))
            · exact .inr (.inr h)
          · rintro (h | (h | h | h) | h)
            · exact .inl (.inl (.inl h))
            · exact .inl (.inl (.inr (.inr h)))
            · exact .inl (.inl (.inr (.inl h)))
            · exact .inl (.inr h)
            · exact .inr h
    · rw [if_neg h2] at h
      have hdt : d ≠ [pgTblspcZ] := by
        rintro rfl
        rcases ho with ⟨rfl, _⟩ | ⟨_, o, hh⟩
        · exact h2 (by rw [Bool.and_eq_true, beq_iff_eq]; exact ⟨rfl, dname_one _⟩)
        · simp at hh
      have hlink : ∀ out1, (if only.isNone then plainLink c (dname d) out n dest g else .ok out) = Except.ok out1 →
          (e ∈ out1 ↔ e ∈ out ∨ At c (d ++ [n]) (.link dest tw g ch) e) := by
        intro out1 h1
        rw [at_link hreach]
        rcases ho with ⟨rfl, ho⟩ | ⟨rfl, o, rfl⟩
        · obtain ⟨_, rfl⟩ := plain_mem h1
          simp only [List.mem_append, List.mem_cons, List.not_mem_nil, or_false, hdt, false_and, false_or, ne_eq, not_false_eq_true, true_and,
            ho, implies_true, ename]
          constructor
          · rintro (h | h | h)
            · exact .inl h
            · exact .inr (.inr h)
            · exact .inr (.inl h)
          · rintro (h | h | h)
            · exact .inl h
            · exact .inr (.inr h)
            · exact .inr (.inl h)
        · injection h1 with h1
          subst h1
          constructor
          · exact .inl
          · rintro (h | ⟨h, _⟩ | ⟨_, h, _⟩)
            · exact h
            · simp at h
            · exact absurd rfl (h o)
      cases h1 : (if only.isNone then plainLink c (dname d) out n dest g else .ok out) with
      | error x => rw [h1] at h; cases h
      | ok out1 =>
        rw [h1] at h
        have hlink := hlink out1 h1
        have hsn : dname (d ++ [n]) = dname d ++ 47 :: n := dname_snoc hdt
        have hat : ∀ lk e, At c (d ++ [n]) (.path lk) e ↔ e = .path (dname d ++ 47 :: n) := fun lk e => by
          simp [At, hreach, Adds, hsn]
        cases g with
        | missing =>
          rw [hrest _ h, hlink]
          simp [Behind, or_assoc]
        | special =>
          rw [hrest _ h, hlink]
          simp [Behind, or_assoc]
        | file s =>
          dsimp only at h
          cases ha : addFile c (dname d) (dbPath c.ts (dname d)) n s out1 with
          | error x => rw [ha] at h; cases h
          | ok out2 =>
            rw [ha] at h
            have hx' : only.any (· != n) = false := by
              rw [Bool.not_eq_true, Bool.or_eq_false_iff] at hx
              exact hx.1
            rw [hrest _ h, file_mem hw hd ht.1 ho hr he hx' ha true e, hlink]
            simp only [Behind, or_assoc]
        | path =>
          dsimp only at h
          by_cases h3 : skipContent c (dname d) n = true
          · rw [if_pos h3] at h
            have hne := (skipContent_iff hd hw hdt).1 h3
            have : ¬ Spec c ch (d ++ [n]) e := fun hh => hne (spec_above hh).2
            rw [hrest _ h, List.mem_append, hlink]
            simp only [Behind, hat, this, or_false, List.mem_singleton, or_assoc]
          · rw [if_neg h3] at h
            have hent : Enter c (d ++ [n]) := Classical.byContradiction fun hh => h3 ((skipContent_iff hd hw hdt).2 hh)
            cases hb : build c ch (dname d ++ 47 :: n) (dbPath c.ts (dname d ++ 47 :: n)) none (out1 ++ [.path (dname d ++ 47 :: n)]) with
            | error x => rw [hb] at h; cases h
            | ok out2 =>
              rw [hb] at h
              rw [← hsn] at hb
              have hon : Only c (d ++ [n]) none := .inl ⟨rfl, fun o hh => hdt (snoc_inj (show d ++ [n] = [pgTblspcZ] ++ [o] from hh)).1⟩
              rw [hrest _ h, build_mem hw hwt ch (d ++ [n]) none _ out2 (ht.2.1 rfl) hnames hon hreach hent hb e, List.mem_append, hlink, hsn]
              simp only [Behind, hat, List.mem_singleton, or_assoc]

end Verif.Manifest.Build
