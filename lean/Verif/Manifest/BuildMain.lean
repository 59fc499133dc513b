import Verif.Manifest.BuildProps

/-! # What a new manifest contains: the theorems (C61) -/

namespace Verif.Manifest.Build

open Verif

/-! ## Specification of success -/

/-- What the entry with a name in a directory leads to. -/
inductive LeadsTo (name : Str) : DTree → Dest → Prop
  | none : LeadsTo name .nil .missing
  | file {s rest} : LeadsTo name (.file name s rest) (.file s)
  | special {rest} : LeadsTo name (.special name rest) .special
  | path {ch rest} : LeadsTo name (.path name ch rest) .path
  | link {dest tw g ch rest} : LeadsTo name (.link name dest tw g ch rest) g
  | afterFile {n s rest g} : n ≠ name → LeadsTo name rest g → LeadsTo name (.file n s rest) g
  | afterSpecial {n rest g} : n ≠ name → LeadsTo name rest g → LeadsTo name (.special n rest) g
  | afterPath {n ch rest g} : n ≠ name → LeadsTo name rest g → LeadsTo name (.path n ch rest) g
  | afterLink {n dest tw d ch rest g} : n ≠ name → LeadsTo name rest g → LeadsTo name (.link n dest tw d ch rest) g

/-- What is found at `p` is no reason to fail. In `pg_tblspc` are only links. The name of such a link is a number, and there is a name for
the tablespace. It leads to a directory in which the directory of the version is found. Other links lead to something, and not to a link. -/
def Fine (c : Cfg) (p : List Str) : Kind → Prop
  | .file _ linked => linked = false → ∀ x, p ≠ [pgTblspcZ, x]
  | .path linked => linked = false → ∀ x, p ≠ [pgTblspcZ, x]
  | .special => True
  | .link _ tw g ch =>
      (∀ o, p = [pgTblspcZ, o] → tw = false ∧ g = .path ∧ ∃ id name, Num.toUIntBase 10 o = .ok id ∧ TsName c id o name ∧
        (LeadsTo c.ts ch .path ∨ id = 0 ∧ ¬ LeadsTo c.ts ch .missing)) ∧
      ((∀ o, p ≠ [pgTblspcZ, o]) → (∀ o x, p ≠ [pgTblspcZ, o, x]) → tw = false ∧ g ≠ .missing)

/-! ## Proof of success -/

theorem leads_lookup (name : Str) : ∀ (t : DTree) (g : Dest), LeadsTo name t g → lookup name t = g := by
  intro t g h
  induction h with
  | none => rfl
  | file => simp [lookup]
  | special => simp [lookup]
  | path => simp [lookup]
  | link => simp [lookup]
  | afterFile hn _ ih => simp [lookup, hn, ih]
  | afterSpecial hn _ ih => simp [lookup, hn, ih]
  | afterPath hn _ ih => simp [lookup, hn, ih]
  | afterLink hn _ ih => simp [lookup, hn, ih]

theorem lookup_leads (name : Str) : ∀ t : DTree, LeadsTo name t (lookup name t)
  | .nil => .none
  | .file n s rest => by
    by_cases h : n = name
    · subst h; simp [lookup]; exact .file
    · simp [lookup, h]; exact .afterFile h (lookup_leads name rest)
  | .special n rest => by
    by_cases h : n = name
    · subst h; simp [lookup]; exact .special
    · simp [lookup, h]; exact .afterSpecial h (lookup_leads name rest)
  | .path n ch rest => by
    by_cases h : n = name
    · subst h; simp [lookup]; exact .path
    · simp [lookup, h]; exact .afterPath h (lookup_leads name rest)
  | .link n dest tw g ch rest => by
    by_cases h : n = name
    · subst h; simp [lookup]; exact .link
    · simp [lookup, h]; exact .afterLink h (lookup_leads name rest)

theorem lookup_iff {name : Str} {t : DTree} {g : Dest} : lookup name t = g ↔ LeadsTo name t g :=
  ⟨fun h => h ▸ lookup_leads name t, leads_lookup name t g⟩

/-- Nothing below `d` is a reason to fail. -/
def FineAll (c : Cfg) (t : DTree) (d : List Str) : Prop := ∀ r k, Has t r k → Reached c (d ++ r) → Fine c (d ++ r) k

/-- What is at `p` is no reason to fail. -/
def FineOne (c : Cfg) (p : List Str) (k : Kind) : Prop := Reached c p → Fine c p k

theorem fine_file {c : Cfg} {d : List Str} {n : Str} {s : Nat} {rest : DTree} :
    FineAll c (.file n s rest) d ↔ FineOne c (d ++ [n]) (.file s false) ∧ FineAll c rest d := by
  constructor
  · exact fun h => ⟨h _ _ .file, fun r k hr => h r k (.afterFile hr)⟩
  · rintro ⟨h1, h2⟩ r k h
    cases h with
    | file => exact h1
    | afterFile h => exact h2 r k h

theorem fine_special {c : Cfg} {d : List Str} {n : Str} {rest : DTree} : FineAll c (.special n rest) d ↔ FineAll c rest d := by
  constructor
  · exact fun h r k hr => h r k (.afterSpecial hr)
  · intro h2 r k h
    cases h with
    | special => exact fun _ => trivial
    | afterSpecial h => exact h2 r k h

theorem fine_path {c : Cfg} {d : List Str} {n : Str} {ch rest : DTree} :
    FineAll c (.path n ch rest) d ↔ FineOne c (d ++ [n]) (.path false) ∧ FineAll c ch (d ++ [n]) ∧ FineAll c rest d := by
  constructor
  · exact fun h => ⟨h _ _ .path, fun r k hr => by rw [← cons_snoc]; exact h _ k (.inPath hr), fun r k hr => h r k (.afterPath hr)⟩
  · rintro ⟨h1, h2, h3⟩ r k h
    cases h with
    | path => exact h1
    | inPath h => rw [cons_snoc]; exact h2 _ k h
    | afterPath h => exact h3 r k h

theorem fine_link {c : Cfg} {d : List Str} {n dest : Str} {tw : Bool} {g : Dest} {ch rest : DTree} :
    FineAll c (.link n dest tw g ch rest) d ↔
      FineOne c (d ++ [n]) (.link dest tw g ch) ∧ (g = .path → FineAll c ch (d ++ [n])) ∧ FineAll c rest d := by
  constructor
  · exact fun h => ⟨h _ _ .link, fun hg r k hr => by subst hg; rw [← cons_snoc]; exact h _ k (.inLink hr), fun r k hr => h r k (.afterLink hr)⟩
  · rintro ⟨h1, h2, h3⟩ r k h
    cases h with
    | link => exact h1
    | linkFile => exact fun _ hh => by cases hh
    | linkSpecial => exact fun _ => trivial
    | linkPath => exact fun _ hh => by cases hh
    | inLink h => rw [cons_snoc]; exact h2 rfl _ k h
    | afterLink h => exact h3 r k h

theorem fine_above {c : Cfg} {t : DTree} {d : List Str} (h : ¬ (Reached c d ∧ Enter c d)) : FineAll c t d :=
  fun r _ hr hh => absurd (reached_above r d (has_ne_nil hr) hh) h

theorem one_above {c : Cfg} {p : List Str} {k : Kind} (h : ¬ Reached c p) : FineOne c p k := fun hh => absurd hh h

theorem addFile_ok {c : Cfg} {d : List Str} {n : Str} {s : Nat} {only : Option Str} {out : List Entry}
    (hd : ∀ n ∈ d, Nm n) (hn : Nm n) (ho : Only c d only) (hr : Reached c d) (he : Enter c d) (hx : only.any (· != n) = false) :
    (∃ out', addFile c (dname d) (dbPath c.ts (dname d)) n s out = .ok out') ↔ (Reached c (d ++ [n]) → d ≠ [pgTblspcZ]) := by
  have hs := skip_iff hn ho hr he
  rw [hx, Bool.false_or] at hs
  unfold addFile
  by_cases h1 : skipAny c (dname d) n = true
  · rw [if_pos h1]
    exact ⟨fun _ hh => absurd hh (hs.1 h1), fun _ => ⟨_, rfl⟩⟩
  rw [if_neg h1]
  have hreach : Reached c (d ++ [n]) := Classical.byContradiction fun hh => h1 (hs.2 hh)
  by_cases h2 : (dname d == tblspcDirZ) = true
  · rw [if_pos h2]
    rw [beq_iff_eq, dname_eq_tblspc hd] at h2
    constructor
    · rintro ⟨_, h⟩; cases h
    · intro h; exact absurd h2 (h hreach)
  · rw [if_neg h2]
    rw [beq_iff_eq, dname_eq_tblspc hd] at h2
    constructor
    · exact fun _ _ => h2
    · intro _
      split <;> exact ⟨_, rfl⟩

theorem tablespace_ok {c : Cfg} {out : List Entry} {n dest : Str} {D : Dest} (hc : ∀ l, c.check l = .ok ()) :
    (∃ out1, tablespace c out n dest D = .ok out1) ↔
      ∃ id name, Num.toUIntBase 10 n = .ok id ∧ TsName c id n name ∧ (D = .path ∨ id = 0 ∧ D ≠ .missing) := by
  unfold tablespace
  cases hid : Num.toUIntBase 10 n with
  | error x => exact ⟨fun ⟨_, h⟩ => (by cases h), fun ⟨_, _, h, _⟩ => (by cases h)⟩
  | ok id =>
    dsimp only
    cases hn : tablespaceName c id n with
    | error x =>
      refine ⟨fun ⟨_, h⟩ => (by cases h), ?_⟩
      rintro ⟨i, m, h, hm, _⟩
      injection h with h
      subst h
      rw [tsName_iff.2 hm] at hn
      cases hn
    | ok name =>
      dsimp only
      rw [hc]
      dsimp only
      constructor
      · rintro ⟨o1, h⟩
        refine ⟨id, name, rfl, tsName_iff.1 hn, ?_⟩
        split at h
        · cases h
        · next hh =>
          split at h
          · cases h
          · next hm =>
            by_cases hp : D = .path
            · exact .inl hp
            · exact .inr ⟨Classical.byContradiction fun hz => hh ⟨hm, hp, hz⟩, hm⟩
      · rintro ⟨i, m, h, hm, hD⟩
        injection h with h
        subst h
        rw [if_neg (by
          rintro ⟨h1, h2, h3⟩
          rcases hD with hD | ⟨hD, _⟩
          · exact h2 hD
          · exact h3 hD), if_neg (by
          rcases hD with hD | ⟨_, hD⟩
          · rw [hD]; decide
          · exact hD)]
        exact ⟨_, rfl⟩

theorem plain_ok {c : Cfg} {parent : Str} {out : List Entry} {n dest : Str} {g : Dest} (hc : ∀ l, c.check l = .ok ()) :
    (∃ out1, plainLink c parent out n dest g = .ok out1) ↔ g ≠ .missing := by
  unfold plainLink
  dsimp only
  rw [hc]
  dsimp only
  by_cases hg : g = .missing
  · rw [if_pos hg]
    exact ⟨fun ⟨_, h⟩ => (by cases h), fun h => absurd hg h⟩
  · rw [if_neg hg]
    exact ⟨fun _ => hg, fun _ => ⟨_, rfl⟩⟩

theorem one_pair {d : List Str} {n x : Str} (h : d ++ [n] = [pgTblspcZ, x]) : d = [pgTblspcZ] ∧ n = x :=
  snoc_inj (show d ++ [n] = [pgTblspcZ] ++ [x] from h)

theorem not_ok {α : Type} {e : Err} : ¬ ∃ a : α, (Except.error e : Res α) = .ok a := fun ⟨_, h⟩ => by cases h

theorem build_ok {c : Cfg} (hw : Nm c.wal) (hwt : c.wal ≠ pgTblspcZ) (hc : ∀ l, c.check l = .ok ()) : ∀ (t : DTree) (d : List Str)
    (only : Option Str) (out : List Entry), TNames t → (∀ n ∈ d, Nm n) → Only c d only → Reached c d → Enter c d →
    ((∃ out', build c t (dname d) (dbPath c.ts (dname d)) only out = .ok out') ↔ FineAll c t d)
  | .nil, d, only, out, _, _, _, _, _ => ⟨fun _ r k h => (by cases h), fun _ => ⟨_, rfl⟩⟩
  | .file n s rest, d, only, out, ht, hd, ho, hr, he => by
    rw [build, fine_file]
    have hs := skip_iff ht.1 ho hr he
    by_cases hx : only.any (· != n) = true
    · rw [if_pos hx, build_ok hw hwt hc rest d only out ht.2 hd ho hr he]
      exact ⟨fun h => ⟨one_above (hs.1 (by rw [hx]; rfl)), h⟩, fun h => h.2⟩
    · rw [if_neg hx]
      have hf := addFile_ok (s := s) (out := out) hd ht.1 ho hr he (by simpa using hx)
      cases ha : addFile c (dname d) (dbPath c.ts (dname d)) n s out with
      | error x =>
        rw [ha] at hf
        refine ⟨fun h => absurd h not_ok, fun h => absurd (hf.2 fun hre hdt => ?_) not_ok⟩
        exact h.1 hre rfl n (by rw [hdt]; rfl)
      | ok out1 =>
        rw [ha] at hf
        dsimp only
        rw [build_ok hw hwt hc rest d only out1 ht.2 hd ho hr he]
        refine ⟨fun h => ⟨fun hre _ x hh => hf.1 ⟨_, rfl⟩ hre (one_pair hh).1, h⟩, fun h => h.2⟩
  | .special n rest, d, only, out, ht, hd, ho, hr, he => by
    rw [build, fine_special]
    exact build_ok hw hwt hc rest d only out ht.2 hd ho hr he
  | .path n ch rest, d, only, out, ht, hd, ho, hr, he => by
    rw [build, fine_path]
    have hs := skip_iff ht.1 ho hr he
    by_cases hx : (only.any (· != n) || skipAny c (dname d) n) = true
    · rw [if_pos hx, build_ok hw hwt hc rest d only out ht.2.2 hd ho hr he]
      have hnr := hs.1 hx
      exact ⟨fun h => ⟨one_above hnr, fine_above fun hh => hnr hh.1, h⟩, fun h => h.2.2⟩
    rw [if_neg hx]
    have hreach : Reached c (d ++ [n]) := Classical.byContradiction fun hh => hx (hs.2 hh)
    by_cases h2 : (dname d == tblspcDirZ) = true
    · rw [if_pos h2]
      rw [beq_iff_eq, dname_eq_tblspc hd] at h2
      exact ⟨fun h => absurd h not_ok, fun h => absurd (by rw [h2]; rfl) (h.1 hreach rfl n)⟩
    rw [if_neg h2]
    have hdt : d ≠ [pgTblspcZ] := fun hh => h2 (by rw [beq_iff_eq]; exact (dname_eq_tblspc hd).2 hh)
    have hsn : dname (d ++ [n]) = dname d ++ 47 :: n := dname_snoc hdt
    have hone : FineOne c (d ++ [n]) (.path false) := fun _ _ x hh => hdt (one_pair hh).1
    by_cases h3 : skipContent c (dname d) n = true
    · rw [if_pos h3, build_ok hw hwt hc rest d only _ ht.2.2 hd ho hr he]
      have hne := (skipContent_iff hd hw hdt).1 h3
      exact ⟨fun h => ⟨hone, fine_above fun hh => hne hh.2, h⟩, fun h => h.2.2⟩
    · rw [if_neg h3]
      have hent : Enter c (d ++ [n]) := Classical.byContradiction fun hh => h3 ((skipContent_iff hd hw hdt).2 hh)
      have hon : Only c (d ++ [n]) none := .inl ⟨rfl, fun o hh => hdt (one_pair hh).1⟩
      have hch := build_ok hw hwt hc ch (d ++ [n]) none (out ++ [.path (dname d ++ 47 :: n)]) ht.2.1 (by
            intro m hm
            rcases List.mem_append.1 hm with hm | hm
            · exact hd m hm
            · rw [List.mem_singleton.1 hm]; exact ht.1) hon hreach hent
      rw [hsn] at hch
      cases hb : build c ch (dname d ++ 47 :: n) (dbPath c.ts (dname d ++ 47 :: n)) none (out ++ [.path (dname d ++ 47 :: n)]) with
      | error x =>
        rw [hb] at hch
        exact ⟨fun h => absurd h not_ok, fun h => absurd (hch.2 h.2.1) not_ok⟩
      | ok out1 =>
        rw [hb] at hch
        dsimp only
        rw [build_ok hw hwt hc rest d only out1 ht.2.2 hd ho hr he]
        exact ⟨fun h => ⟨hone, hch.1 ⟨_, rfl⟩, h⟩, fun h => h.2.2⟩
  | .link n dest tw g ch rest, d, only, out, ht, hd, ho, hr, he => by
    rw [build, fine_link]
    have hs := skip_iff ht.1 ho hr he
    have hrest := fun o1 => build_ok hw hwt hc rest d only o1 ht.2.2 hd ho hr he
    by_cases hx : (only.any (· != n) || skipAny c (dname d) n) = true
    · rw [if_pos hx, hrest]
      have hnr := hs.1 hx
      exact ⟨fun h => ⟨one_above hnr, fun _ => fine_above fun hh => hnr hh.1, h⟩, fun h => h.2.2⟩
    rw [if_neg hx]
    have hreach : Reached c (d ++ [n]) := Classical.byContradiction fun hh => hx (hs.2 hh)
    have hnames : ∀ m ∈ d ++ [n], Nm m := by
      intro m hm
      rcases List.mem_append.1 hm with hm | hm
      · exact hd m hm
      · rw [List.mem_singleton.1 hm]; exact ht.1
    have hthree : only = none → ∀ o x, d ++ [n] ≠ [pgTblspcZ, o, x] := by
      intro hh o x hp
      rcases ho with ⟨_, ho⟩ | ⟨ho, _⟩
      · exact ho o (snoc_inj (show d ++ [n] = [pgTblspcZ, o] ++ [x] from hp)).1
      · rw [hh] at ho; cases ho
    by_cases htw : (only.isNone && tw) = true
    · rw [if_pos htw]
      simp only [Bool.and_eq_true, Option.isNone_iff_eq_none] at htw
      refine ⟨fun h => absurd h not_ok, fun h => ?_⟩
      have hf := h.1 hreach
      by_cases hdt : d = [pgTblspcZ]
      · have := (hf.1 n (by rw [hdt]; rfl)).1
        rw [htw.2] at this
        cases this
      · have := (hf.2 (fun o hh => hdt (one_pair hh).1) (hthree htw.1)).1
        rw [htw.2] at this
        cases this
    rw [if_neg htw]
    by_cases h2 : (only.isNone && dname d == tblspcDirZ) = true
    · rw [if_pos h2]
      simp only [Bool.and_eq_true, beq_iff_eq] at h2
      have hdt := (dname_eq_tblspc hd).1 h2.2
      subst hdt
      have hto := tablespace_ok (out := out) (n := n) (dest := dest) (D := if g = .path then lookup c.ts ch else .missing) hc
      have htwf : tw = false := by
        cases tw with
        | false => rfl
        | true => exact absurd (by rw [h2.1]; rfl) htw
      cases hts : tablespace c out n dest (if g = .path then lookup c.ts ch else .missing) with
      | error x =>
        rw [hts] at hto
        refine ⟨fun h => absurd h not_ok, fun h => absurd (hto.2 ?_) not_ok⟩
        obtain ⟨_, hg, id, name, h1, h2, h3⟩ := (h.1 hreach).1 n rfl
        rw [if_pos hg]
        rw [← lookup_iff, ← lookup_iff] at h3
        exact ⟨id, name, h1, h2, h3⟩
      | ok out1 =>
        rw [hts] at hto
        obtain ⟨hg, _⟩ := tablespace_mem hts
        subst hg
        have hent : Enter c ([pgTblspcZ] ++ [n]) := ⟨fun _ hh => absurd rfl (hh n []), by simp, fun _ hh => hwt (List.cons.inj hh).1.symm⟩
        have hch := build_ok hw hwt hc ch ([pgTblspcZ] ++ [n]) (some c.ts) out1 (ht.2.1 rfl) hnames (.inr ⟨rfl, n, rfl⟩) hreach hent
        rw [show dbPath c.ts (dname ([pgTblspcZ] ++ [n])) = dbPath c.ts (dname [pgTblspcZ]) from db_tblspc ht.1.2,
          show dname ([pgTblspcZ] ++ [n]) = pgTblspcZ ++ 47 :: n by simp [dname, slashed]] at hch
        have hone : FineOne c ([pgTblspcZ] ++ [n]) (.link dest tw .path ch) := by
          intro _
          refine ⟨fun o hh => ?_, fun hh => absurd rfl (hh n)⟩
          obtain ⟨_, rfl⟩ := one_pair hh
          obtain ⟨id, name, h1, h2, h3⟩ := hto.1 ⟨_, rfl⟩
          rw [if_pos rfl, ne_eq, lookup_iff, lookup_iff] at h3
          exact ⟨htwf, rfl, id, name, h1, h2, h3⟩
        dsimp only
        cases hb : build c ch (pgTblspcZ ++ 47 :: n) (dbPath c.ts (dname [pgTblspcZ])) (some c.ts) out1 with
        | error x =>
          rw [hb] at hch
          exact ⟨fun h => absurd h not_ok, fun h => absurd (hch.2 (h.2.1 rfl)) not_ok⟩
        | ok out2 =>
          rw [hb] at hch
          dsimp only
          rw [hrest]
          exact ⟨fun h => ⟨hone, fun _ => hch.1 ⟨_, rfl⟩, h⟩, fun h => h.2.2⟩
    · rw [if_neg h2]
      have hdt : d ≠ [pgTblspcZ] := by
        rintro rfl
        rcases ho with ⟨rfl, _⟩ | ⟨_, o, hh⟩
        · exact h2 (by rw [Bool.and_eq_true, beq_iff_eq]; exact ⟨rfl, dname_one _⟩)
        · simp at hh
      have hlink : (∃ out1, (if only.isNone then plainLink c (dname d) out n dest g else .ok out) = Except.ok out1) ↔
          FineOne c (d ++ [n]) (.link dest tw g ch) := by
        rcases ho with ⟨rfl, ho⟩ | ⟨rfl, o, rfl⟩
        · rw [if_pos (show (none : Option Str).isNone = true from rfl), plain_ok hc]
          constructor
          · intro hg _
            refine ⟨fun o hh => absurd (one_pair hh).1 hdt, fun _ _ => ⟨?_, hg⟩⟩
            cases tw with
            | false => rfl
            | true => exact absurd rfl htw
          · intro h
            exact ((h hreach).2 (fun o hh => hdt (one_pair hh).1) (hthree rfl)).2
        · refine ⟨fun _ _ => ⟨fun o' hh => absurd (one_pair hh).1 hdt, fun _ hh => absurd rfl (hh o n)⟩, fun _ => ⟨_, rfl⟩⟩
      cases h1 : (if only.isNone then plainLink c (dname d) out n dest g else .ok out) with
      | error x =>
        rw [h1] at hlink
        exact ⟨fun h => absurd h not_ok, fun h => absurd (hlink.2 h.1) not_ok⟩
      | ok out1 =>
        rw [h1] at hlink
        have hone := hlink.1 ⟨_, rfl⟩
        have hsn : dname (d ++ [n]) = dname d ++ 47 :: n := dname_snoc hdt
        cases g with
        | missing =>
          dsimp only
          rw [hrest]
          exact ⟨fun h => ⟨hone, (fun hh => by cases hh), h⟩, fun h => h.2.2⟩
        | special =>
          dsimp only
          rw [hrest]
          exact ⟨fun h => ⟨hone, (fun hh => by cases hh), h⟩, fun h => h.2.2⟩
        | file s =>
          dsimp only
          have hx' : only.any (· != n) = false := by
            rw [Bool.not_eq_true, Bool.or_eq_false_iff] at hx
            exact hx.1
          obtain ⟨out2, ha⟩ := (addFile_ok (s := s) (out := out1) hd ht.1 ho hr he hx').2 fun _ => hdt
          rw [ha]
          dsimp only
          rw [hrest]
          exact ⟨fun h => ⟨hone, (fun hh => by cases hh), h⟩, fun h => h.2.2⟩
        | path =>
          dsimp only
          by_cases h3 : skipContent c (dname d) n = true
          · rw [if_pos h3, hrest]
            have hne := (skipContent_iff hd hw hdt).1 h3
            exact ⟨fun h => ⟨hone, fun _ => fine_above fun hh => hne hh.2, h⟩, fun h => h.2.2⟩
          · rw [if_neg h3]
            have hent : Enter c (d ++ [n]) := Classical.byContradiction fun hh => h3 ((skipContent_iff hd hw hdt).2 hh)
            have hon : Only c (d ++ [n]) none := .inl ⟨rfl, fun o hh => hdt (one_pair hh).1⟩
            have hch := build_ok hw hwt hc ch (d ++ [n]) none (out1 ++ [.path (dname d ++ 47 :: n)]) (ht.2.1 rfl) hnames hon hreach hent
            rw [hsn] at hch
            cases hb : build c ch (dname d ++ 47 :: n) (dbPath c.ts (dname d ++ 47 :: n)) none (out1 ++ [.path (dname d ++ 47 :: n)]) with
            | error x =>
              rw [hb] at hch
              exact ⟨fun h => absurd h not_ok, fun h => absurd (hch.2 (h.2.1 rfl)) not_ok⟩
            | ok out2 =>
              rw [hb] at hch
              dsimp only
              rw [hrest]
              exact ⟨fun h => ⟨hone, fun _ => hch.1 ⟨_, rfl⟩, h⟩, fun h => h.2.2⟩

/-! ## The theorems -/

/-- The directory of the WAL has one of its names (`pgWalPath`, src/postgres/interface.c 713-721): `pg_wal` or `pg_xlog`. -/
def WalDir (c : Cfg) : Prop := c.wal = [112, 103, 95, 119, 97, 108] ∨ c.wal = [112, 103, 95, 120, 108, 111, 103]

theorem walDir_nm {c : Cfg} (h : WalDir c) : Nm c.wal ∧ c.wal ≠ pgTblspcZ := by
  rcases h with h | h <;> rw [h] <;> exact ⟨⟨by decide, by decide⟩, by decide⟩

theorem db_data (ts : Str) : dbPath ts (dname []) = false := by
  rw [← Bool.not_eq_true, dbPath_iff, dname_nil]
  rintro (h | ⟨m, _, h⟩ | ⟨m, t, q, _, _, _, h⟩)
  · exact absurd h (by decide)
  · have := congrArg List.length h
    simp [baseZ] at this
  · exact absurd (by rw [h]; simp) data_noslash

/-- **C61.** The manifest has exactly the data directory and what is added for the entries that are looked at. -/
theorem c61_entries {c : Cfg} {t : DTree} {out : List Entry} (hw : WalDir c) (ht : Names t) (h : newBuild c t = .ok out) (e : Entry) :
    e ∈ out ↔ e = .path pgdataZ ∨ e = .target pgdataZ 0 [] ∨ ∃ p k, Has t p k ∧ Reached c p ∧ Adds c p k e := by
  unfold newBuild at h
  have h' : build c t (dname []) (dbPath c.ts (dname [])) none [.path pgdataZ, .target pgdataZ 0 []] = .ok out := by
    rw [db_data, dname_nil]
    exact h
  rw [build_mem (walDir_nm hw).1 (walDir_nm hw).2 t [] none _ out (tnames_of ht) (by simp) (.inl ⟨rfl, by simp⟩) (reached_nil c) (enter_nil c) h' e]
  simp only [List.mem_cons, List.not_mem_nil, or_false, or_assoc]
  rfl

/-- **C61.** A manifest is built unless an entry that is looked at is a reason to fail, or a link is rejected. -/
theorem c61_success {c : Cfg} {t : DTree} (hw : WalDir c) (ht : Names t) (hc : ∀ l, c.check l = .ok ()) :
    (∃ out, newBuild c t = .ok out) ↔ ∀ p k, Has t p k → Reached c p → Fine c p k := by
  have := build_ok (walDir_nm hw).1 (walDir_nm hw).2 hc t [] none [.path pgdataZ, .target pgdataZ 0 []] (tnames_of ht) (by simp)
    (.inl ⟨rfl, by simp⟩) (reached_nil c) (enter_nil c)
  rw [db_data, dname_nil] at this
  exact this

/-- **C61.** Files of the manifest with the same name are the same file. -/
theorem c61_names {t : DTree} (ht : Names t) {p p' d d' : List Str} {n n' : Str} {k k' : Kind} (h : Has t p k) (h' : Has t p' k')
    (hp : p = d ++ [n]) (hp' : p' = d' ++ [n']) (he : ename d n = ename d' n') : p = p' := by
  have h1 : ∀ m ∈ d ++ [n], Nm m := fun m hm => ht p k h m (hp ▸ hm)
  have h2 : ∀ m ∈ d' ++ [n'], Nm m := fun m hm => ht p' k' h' m (hp' ▸ hm)
  obtain ⟨e1, rfl⟩ := ename_inj (h1 n (by simp)).2 (h2 n' (by simp)).2 he
  rw [hp, hp', dname_inj (fun m hm => h1 m (by simp [hm])) (fun m hm => h2 m (by simp [hm])) e1]

end Verif.Manifest.Build
