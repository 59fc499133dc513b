import Verif.Restore.CleanModel

/-! # Cleaning leaves what the manifest lists (C45) -/

namespace Verif.Restore.Clean

open Verif Manifest

/-! ## Specification -/

/-- The manifest has this kind of entry with this name. -/
def Listed (m : Listing) (name : Str) : Kind → Prop
  | .file _ => name ∈ m.files ∧ m.links.lookup name = none
  | .link d => m.links.lookup name = some d
  | .path => name ∈ m.paths ∧ m.links.lookup name = none
  | .special => False

/-- An entry with the names `r` below a directory with the name `name` in the manifest may stay: it is listed and so are the directories
above it, or it is one of the ignored files in the data directory itself. -/
def Allowed (m : Listing) (ignore : List Str) : Str → Bool → List Str → Kind → Prop
  | _, _, [], _ => True
  | name, base, [n], k => (base = true ∧ n ∈ ignore ∧ ∃ d, k = .file d) ∨ Listed m (name ++ 47 :: n) k
  | name, _, n :: r, k => Listed m (name ++ 47 :: n) .path ∧ Allowed m ignore (name ++ 47 :: n) false r k

/-- No name is used twice in a directory. -/
def Wf : Tree → Prop
  | .nil => True
  | .file n _ rest => find rest [n] = none ∧ Wf rest
  | .link n _ rest => find rest [n] = none ∧ Wf rest
  | .special n rest => find rest [n] = none ∧ Wf rest
  | .path n ch rest => find rest [n] = none ∧ Wf ch ∧ Wf rest

/-- The target is a directory that is there. -/
def IsDir (root : Tree) (t : Tgt) : Prop := t.file = none ∧ find root t.path = some .path

/-- The name of `pg_control`, in the directory to which `global` leads. -/
def IsControl (root : Tree) (pg q : List Str) : Prop := controlExists root pg = true ∧ q = globalDir root pg ++ [controlZ]

/-- All targets whose directories are there allow the entry: outside of these directories nothing is required. -/
def AllowedBy (m : Listing) (ignore : List Str) (root : Tree) (ts : List Tgt) (q : List Str) (k : Kind) : Prop :=
  ∀ t ∈ ts, IsDir root t → ∀ r, q = t.path ++ r → Allowed m ignore t.name t.base r k

/-! ## Trees -/

theorem find_nil (t : Tree) : find t [] = some .path := by cases t <;> rfl

theorem fresh_none {n : Str} (r : List Str) : ∀ {t : Tree}, find t [n] = none → find t (n :: r) = none
  | .nil, _ => rfl
  | .file x d rest, h => by
    simp only [find] at h ⊢
    by_cases hx : x = n
    · simp [hx] at h
    · rw [if_neg hx] at h ⊢
      exact fresh_none r h
  | .link x d rest, h => by
    simp only [find] at h ⊢
    by_cases hx : x = n
    · simp [hx] at h
    · rw [if_neg hx] at h ⊢
      exact fresh_none r h
  | .special x rest, h => by
    simp only [find] at h ⊢
    by_cases hx : x = n
    · simp [hx] at h
    · rw [if_neg hx] at h ⊢
      exact fresh_none r h
  | .path x ch rest, h => by
    simp only [find] at h ⊢
    by_cases hx : x = n
    · simp [hx, find_nil] at h
    · rw [if_neg hx] at h ⊢
      exact fresh_none r h

/-- Without the entry above there is nothing below. -/
theorem below_none : ∀ {t : Tree} {p : List Str} {r : List Str}, find t p = none → find t (p ++ r) = none
  | t, [], _, h => by simp [find_nil] at h
  | .nil, _ :: _, _, _ => rfl
  | .file x d rest, c :: p, r, h => by
    simp only [List.cons_append, find] at h ⊢
    by_cases hx : x = c
    · rw [if_pos hx] at h ⊢
      split at h
      · cases h
      · rename_i hp
        simp [hp]
    · rw [if_neg hx] at h ⊢
      exact below_none (p := c :: p) h
  | .link x d rest, c :: p, r, h => by
    simp only [List.cons_append, find] at h ⊢
    by_cases hx : x = c
    · rw [if_pos hx] at h ⊢
      split at h
      · cases h
      · rename_i hp
        simp [hp]
    · rw [if_neg hx] at h ⊢
      exact below_none (p := c :: p) h
  | .special x rest, c :: p, r, h => by
    simp only [List.cons_append, find] at h ⊢
    by_cases hx : x = c
    · rw [if_pos hx] at h ⊢
      split at h
      · cases h
      · rename_i hp
        simp [hp]
    · rw [if_neg hx] at h ⊢
      exact below_none (p := c :: p) h
  | .path x ch rest, c :: p, r, h => by
    simp only [List.cons_append, find] at h ⊢
    by_cases hx : x = c
    · rw [if_pos hx] at h ⊢
      exact below_none h
    · rw [if_neg hx] at h ⊢
      exact below_none (p := c :: p) h

/-- Above an entry there is a directory. -/
theorem above_path : ∀ {t : Tree} {p : List Str} {n : Str} {r : List Str} {k : Kind}, find t (p ++ n :: r) = some k → find t p = some .path
  | t, [], _, _, _, _ => find_nil t
  | .nil, _ :: _, _, _, _, h => by cases h
  | .file x d rest, c :: p, n, r, k, h => by
    simp only [List.cons_append, find] at h ⊢
    by_cases hx : x = c
    · simp [hx] at h
    · rw [if_neg hx] at h ⊢
      exact above_path (p := c :: p) h
  | .link x d rest, c :: p, n, r, k, h => by
    simp only [List.cons_append, find] at h ⊢
    by_cases hx : x = c
    · simp [hx] at h
    · rw [if_neg hx] at h ⊢
      exact above_path (p := c :: p) h
  | .special x rest, c :: p, n, r, k, h => by
    simp only [List.cons_append, find] at h ⊢
    by_cases hx : x = c
    · simp [hx] at h
    · rw [if_neg hx] at h ⊢
      exact above_path (p := c :: p) h
  | .path x ch rest, c :: p, n, r, k, h => by
    simp only [List.cons_append, find] at h ⊢
    by_cases hx : x = c
    · rw [if_pos hx] at h ⊢
      exact above_path h
    · rw [if_neg hx] at h ⊢
      exact above_path (p := c :: p) h

theorem sub_find {ch : Tree} (r : List Str) : ∀ (t : Tree) (p : List Str), sub t p = some ch → find t (p ++ r) = find ch r
  | t, [], h => by
    have : t = ch := by cases t <;> simpa [sub] using h
    rw [this]
    rfl
  | .nil, _ :: _, h => by simp [sub] at h
  | .file x d rest, c :: p, h => by
    simp only [sub, List.cons_append, find] at h ⊢
    by_cases hx : x = c
    · simp [hx] at h
    · rw [if_neg hx] at h ⊢
      exact sub_find r rest (c :: p) h
  | .link x d rest, c :: p, h => by
    simp only [sub, List.cons_append, find] at h ⊢
    by_cases hx : x = c
    · simp [hx] at h
    · rw [if_neg hx] at h ⊢
      exact sub_find r rest (c :: p) h
  | .special x rest, c :: p, h => by
    simp only [sub, List.cons_append, find] at h ⊢
    by_cases hx : x = c
    · simp [hx] at h
    · rw [if_neg hx] at h ⊢
      exact sub_find r rest (c :: p) h
  | .path x ch' rest, c :: p, h => by
    simp only [sub, List.cons_append, find] at h ⊢
    by_cases hx : x = c
    · rw [if_pos hx] at h ⊢
      exact sub_find r ch' p h
    · rw [if_neg hx] at h ⊢
      exact sub_find r rest (c :: p) h

theorem sub_iff : ∀ (t : Tree) (p : List Str), (sub t p).isSome = true ↔ find t p = some .path
  | t, [] => by cases t <;> simp [sub, find]
  | .nil, _ :: _ => by simp [sub, find]
  | .file x d rest, c :: p => by
    simp only [sub, find]
    by_cases hx : x = c
    · rw [if_pos hx, if_pos hx]
      split <;> simp
    · rw [if_neg hx, if_neg hx]
      exact sub_iff rest (c :: p)
  | .link x d rest, c :: p => by
    simp only [sub, find]
    by_cases hx : x = c
    · rw [if_pos hx, if_pos hx]
      split <;> simp
    · rw [if_neg hx, if_neg hx]
      exact sub_iff rest (c :: p)
  | .special x rest, c :: p => by
    simp only [sub, find]
    by_cases hx : x = c
    · rw [if_pos hx, if_pos hx]
      split <;> simp
    · rw [if_neg hx, if_neg hx]
      exact sub_iff rest (c :: p)
  | .path x ch rest, c :: p => by
    simp only [sub, find]
    by_cases hx : x = c
    · rw [if_pos hx, if_pos hx]
      exact sub_iff ch p
    · rw [if_neg hx, if_neg hx]
      exact sub_iff rest (c :: p)

theorem sub_wf {ch : Tree} : ∀ (t : Tree) (p : List Str), Wf t → sub t p = some ch → Wf ch
  | t, [], hw, h => by
    have : t = ch := by cases t <;> simpa [sub] using h
    rwa [← this]
  | .nil, _ :: _, _, h => by simp [sub] at h
  | .file x d rest, c :: p, hw, h => by
    simp only [sub] at h
    by_cases hx : x = c
    · simp [hx] at h
    · rw [if_neg hx] at h
      exact sub_wf rest (c :: p) hw.2 h
  | .link x d rest, c :: p, hw, h => by
    simp only [sub] at h
    by_cases hx : x = c
    · simp [hx] at h
    · rw [if_neg hx] at h
      exact sub_wf rest (c :: p) hw.2 h
  | .special x rest, c :: p, hw, h => by
    simp only [sub] at h
    by_cases hx : x = c
    · simp [hx] at h
    · rw [if_neg hx] at h
      exact sub_wf rest (c :: p) hw.2 h
  | .path x ch' rest, c :: p, hw, h => by
    simp only [sub] at h
    by_cases hx : x = c
    · rw [if_pos hx] at h
      exact sub_wf ch' p hw.2.1 h
    · rw [if_neg hx] at h
      exact sub_wf rest (c :: p) hw.2.2 h

/-- What is found after the entries of a directory are replaced. -/
theorem putAt_find {new ch : Tree} : ∀ (t : Tree) (p q : List Str), sub t p = some ch →
    find (putAt new t p) q = if p <+: q then find new (q.drop p.length) else find t q
  | t, [], q, _ => by
    have : putAt new t [] = new := by cases t <;> rfl
    rw [this]
    simp
  | .nil, _ :: _, _, h => by simp [sub] at h
  | .file x d rest, c :: p, q, h => by
    simp only [sub] at h
    by_cases hx : x = c
    · simp [hx] at h
    · rw [if_neg hx] at h
      simp only [putAt, if_neg hx]
      have ih := putAt_find (new := new) rest (c :: p) q h
      cases q with
      | nil => simp [find]
      | cons b q =>
        by_cases hb : x = b
        · have hn : ¬ c :: p <+: b :: q := by
            rw [List.cons_prefix_cons]
            rintro ⟨rfl, _⟩
            exact hx hb
          rw [if_neg hn]
          simp only [find, if_pos hb]
        · simp only [find, if_neg hb]
          exact ih
  | .link x d rest, c :: p, q, h => by
    simp only [sub] at h
    by_cases hx : x = c
    · simp [hx] at h
    · rw [if_neg hx] at h
      simp only [putAt, if_neg hx]
      have ih := putAt_find (new := new) rest (c :: p) q h
      cases q with
      | nil => simp [find]
      | cons b q =>
        by_cases hb : x = b
        · have hn : ¬ c :: p <+: b :: q := by
            rw [List.cons_prefix_cons]
            rintro ⟨rfl, _⟩
            exact hx hb
          rw [if_neg hn]
          simp only [find, if_pos hb]
        · simp only [find, if_neg hb]
          exact ih
  | .special x rest, c :: p, q, h => by
    simp only [sub] at h
    by_cases hx : x = c
    · simp [hx] at h
    · rw [if_neg hx] at h
      simp only [putAt, if_neg hx]
      have ih := putAt_find (new := new) rest (c :: p) q h
      cases q with
      | nil => simp [find]
      | cons b q =>
        by_cases hb : x = b
        · have hn : ¬ c :: p <+: b :: q := by
            rw [List.cons_prefix_cons]
            rintro ⟨rfl, _⟩
            exact hx hb
          rw [if_neg hn]
          simp only [find, if_pos hb]
        · simp only [find, if_neg hb]
          exact ih
  | .path x ch' rest, c :: p, q, h => by
    simp only [sub] at h
    by_cases hx : x = c
    · rw [if_pos hx] at h
      simp only [putAt, if_pos hx]
      have ih := fun q => putAt_find (new := new) ch' p q h
      cases q with
      | nil => simp [find]
      | cons b q =>
        by_cases hb : x = b
        · simp only [find, if_pos hb]
          rw [ih q]
          simp [List.cons_prefix_cons, ← hx, ← hb]
        · have hn : ¬ c :: p <+: b :: q := by
            rw [List.cons_prefix_cons]
            rintro ⟨rfl, _⟩
            exact hb hx
          rw [if_neg hn]
          simp only [find, if_neg hb]
    · rw [if_neg hx] at h
      simp only [putAt, if_neg hx]
      have ih := putAt_find (new := new) rest (c :: p) q h
      cases q with
      | nil => simp [find]
      | cons b q =>
        by_cases hb : x = b
        · have hn : ¬ c :: p <+: b :: q := by
            rw [List.cons_prefix_cons]
            rintro ⟨rfl, _⟩
            exact hx hb
          rw [if_neg hn]
          simp only [find, if_pos hb]
        · simp only [find, if_neg hb]
          exact ih

/-- The names in the directory above do not change. -/
theorem putAt_top {new : Tree} {n c : Str} {p : List Str} : ∀ {t : Tree}, find t [n] = none → find (putAt new t (c :: p)) [n] = none
  | .nil, h => h
  | .file x d rest, h => by
    simp only [find] at h
    by_cases hn : x = n
    · simp [hn] at h
    · rw [if_neg hn] at h
      unfold putAt
      split
      · simpa [find, hn] using h
      · simpa [find, hn] using putAt_top h
  | .link x d rest, h => by
    simp only [find] at h
    by_cases hn : x = n
    · simp [hn] at h
    · rw [if_neg hn] at h
      unfold putAt
      split
      · simpa [find, hn] using h
      · simpa [find, hn] using putAt_top h
  | .special x rest, h => by
    simp only [find] at h
    by_cases hn : x = n
    · simp [hn] at h
    · rw [if_neg hn] at h
      unfold putAt
      split
      · simpa [find, hn] using h
      · simpa [find, hn] using putAt_top h
  | .path x ch rest, h => by
    simp only [find] at h
    by_cases hn : x = n
    · simp [hn, find_nil] at h
    · rw [if_neg hn] at h
      unfold putAt
      split
      · simpa [find, hn] using h
      · simpa [find, hn] using putAt_top h

theorem putAt_wf {new : Tree} (hnew : Wf new) : ∀ (t : Tree) (p : List Str), Wf t → Wf (putAt new t p)
  | t, [], _ => by
    have : putAt new t [] = new := by cases t <;> rfl
    rwa [this]
  | .nil, _ :: _, _ => trivial
  | .file x d rest, c :: p, hw => by
    unfold putAt
    split
    · exact hw
    · exact ⟨putAt_top hw.1, putAt_wf hnew rest (c :: p) hw.2⟩
  | .link x d rest, c :: p, hw => by
    unfold putAt
    split
    · exact hw
    · exact ⟨putAt_top hw.1, putAt_wf hnew rest (c :: p) hw.2⟩
  | .special x rest, c :: p, hw => by
    unfold putAt
    split
    · exact hw
    · exact ⟨putAt_top hw.1, putAt_wf hnew rest (c :: p) hw.2⟩
  | .path x ch rest, c :: p, hw => by
    unfold putAt
    split
    · exact ⟨hw.1, putAt_wf hnew ch p hw.2.1, hw.2.2⟩
    · exact ⟨putAt_top hw.1, hw.2.1, putAt_wf hnew rest (c :: p) hw.2.2⟩

/-- What is found after an entry is unlinked. -/
theorem unlink_find {name : Str} : ∀ {t : Tree}, Wf t → Wf (unlink name t) ∧
    ∀ q, find (unlink name t) q = if q.head? = some name ∧ find t [name] ≠ some .path then none else find t q
  | .nil, _ => ⟨trivial, fun q => by
      cases q with
      | nil => simp [unlink, find]
      | cons c q => simp [unlink, find]⟩
  | .file x d rest, hw => by
    obtain ⟨w, f⟩ := unlink_find (name := name) hw.2
    unfold unlink
    by_cases hx : x = name
    · subst hx
      rw [if_pos rfl]
      refine ⟨hw.2, fun q => ?_⟩
      cases q with
      | nil => simp [find_nil]
      | cons c q =>
        by_cases hc : x = c
        · subst hc
          simp [find, fresh_none q hw.1]
        · simp [find, hc, Ne.symm hc]
    · rw [if_neg hx]
      refine ⟨⟨?_, w⟩, fun q => ?_⟩
      · rw [f, hw.1]
        simp
      · cases q with
        | nil => simp [find]
        | cons c q =>
          by_cases hc : x = c
          · subst hc
            simp [find, hx]
          · simp only [find, if_neg hc, if_neg hx]
            exact f (c :: q)
  | .link x d rest, hw => by
    obtain ⟨w, f⟩ := unlink_find (name := name) hw.2
    unfold unlink
    by_cases hx : x = name
    · subst hx
      rw [if_pos rfl]
      refine ⟨hw.2, fun q => ?_⟩
      cases q with
      | nil => simp [find_nil]
      | cons c q =>
        by_cases hc : x = c
        · subst hc
          simp [find, fresh_none q hw.1]
        · simp [find, hc, Ne.symm hc]
    · rw [if_neg hx]
      refine ⟨⟨?_, w⟩, fun q => ?_⟩
      · rw [f, hw.1]
        simp
      · cases q with
        | nil => simp [find]
        | cons c q =>
          by_cases hc : x = c
          · subst hc
            simp [find, hx]
          · simp only [find, if_neg hc, if_neg hx]
            exact f (c :: q)
  | .special x rest, hw => by
    obtain ⟨w, f⟩ := unlink_find (name := name) hw.2
    unfold unlink
    by_cases hx : x = name
    · subst hx
      rw [if_pos rfl]
      refine ⟨hw.2, fun q => ?_⟩
      cases q with
      | nil => simp [find_nil]
      | cons c q =>
        by_cases hc : x = c
        · subst hc
          simp [find, fresh_none q hw.1]
        · simp [find, hc, Ne.symm hc]
    · rw [if_neg hx]
      refine ⟨⟨?_, w⟩, fun q => ?_⟩
      · rw [f, hw.1]
        simp
      · cases q with
        | nil => simp [find]
        | cons c q =>
          by_cases hc : x = c
          · subst hc
            simp [find, hx]
          · simp only [find, if_neg hc, if_neg hx]
            exact f (c :: q)
  | .path x ch rest, hw => by
    obtain ⟨w, f⟩ := unlink_find (name := name) hw.2.2
    unfold unlink
    refine ⟨⟨?_, hw.2.1, w⟩, fun q => ?_⟩
    · rw [f, hw.1]
      simp
    · cases q with
      | nil => simp [find]
      | cons c q =>
        by_cases hc : x = c
        · subst hc
          by_cases hx : x = name
          · subst hx
            simp [find, find_nil]
          · simp [find, hx]
        · simp only [find, if_neg hc]
          rw [f (c :: q)]
          by_cases hx : x = name
          · subst hx
            simp [Ne.symm hc]
          · simp only [if_neg hx]

/-- What is found after a directory is created with its parents. -/
def MkOk (p : List Str) (t t' : Tree) : Prop := Wf t → Wf t' ∧
  ∀ q, find t' q = if (find t q).isSome then find t q else if q <+: p then some .path else none

theorem mkNew_find : ∀ p : List Str, Wf (mkNew p) ∧ ∀ q, find (mkNew p) q = if q <+: p then some .path else none
  | [] => ⟨trivial, fun q => by cases q <;> simp [mkNew, find]⟩
  | c :: p => by
    obtain ⟨w, f⟩ := mkNew_find p
    refine ⟨⟨rfl, w, trivial⟩, fun q => ?_⟩
    cases q with
    | nil => simp [mkNew, find]
    | cons b q =>
      by_cases hb : c = b
      · subst hb
        simp only [mkNew, find, if_pos, f q, List.cons_prefix_cons, true_and]
      · simp [mkNew, find, hb, List.cons_prefix_cons, Ne.symm hb]

theorem mkPath_find (p : List Str) (t t' : Tree) (h : mkPath p t = some t') : MkOk p t t' := by
  induction p, t using mkPath.induct generalizing t' with
  | case1 t =>
    have : t = t' := by cases t <;> simpa [mkPath] using h
    subst this
    intro hw
    refine ⟨hw, fun q => ?_⟩
    cases hq : find t q with
    | some k => simp
    | none =>
      have : q ≠ [] := by
        rintro rfl
        simp [find_nil] at hq
      simp [this]
  | case2 c r =>
    simp only [mkPath, Option.some.injEq] at h
    subst h
    intro _
    refine ⟨(mkNew_find (c :: r)).1, fun q => ?_⟩
    rw [(mkNew_find (c :: r)).2]
    cases q <;> simp [find]
  | case3 c r d rest =>
    simp [mkPath] at h
  | case4 c r n d rest hn ih =>
    simp only [mkPath, if_neg hn, Option.map_eq_some_iff] at h
    obtain ⟨t, h1, rfl⟩ := h
    intro hw
    obtain ⟨w, f⟩ := ih t h1 hw.2
    refine ⟨⟨?_, w⟩, fun q => ?_⟩
    · rw [f, hw.1]
      simp [List.cons_prefix_cons, hn]
    · cases q with
      | nil => simp [find]
      | cons b q =>
        by_cases hb : n = b
        · subst hb
          cases q <;> simp [find, List.cons_prefix_cons, hn]
        · simp only [find, if_neg hb]
          exact f (b :: q)
  | case5 c r d rest =>
    simp [mkPath] at h
  | case6 c r n d rest hn ih =>
    simp only [mkPath, if_neg hn, Option.map_eq_some_iff] at h
    obtain ⟨t, h1, rfl⟩ := h
    intro hw
    obtain ⟨w, f⟩ := ih t h1 hw.2
    refine ⟨⟨?_, w⟩, fun q => ?_⟩
    · rw [f, hw.1]
      simp [List.cons_prefix_cons, hn]
    · cases q with
      | nil => simp [find]
      | cons b q =>
        by_cases hb : n = b
        · subst hb
          cases q <;> simp [find, List.cons_prefix_cons, hn]
        · simp only [find, if_neg hb]
          exact f (b :: q)
  | case7 c r rest =>
    simp [mkPath] at h
  | case8 c r n rest hn ih =>
    simp only [mkPath, if_neg hn, Option.map_eq_some_iff] at h
    obtain ⟨t, h1, rfl⟩ := h
    intro hw
    obtain ⟨w, f⟩ := ih t h1 hw.2
    refine ⟨⟨?_, w⟩, fun q => ?_⟩
    · rw [f, hw.1]
      simp [List.cons_prefix_cons, hn]
    · cases q with
      | nil => simp [find]
      | cons b q =>
        by_cases hb : n = b
        · subst hb
          cases q <;> simp [find, List.cons_prefix_cons, hn]
        · simp only [find, if_neg hb]
          exact f (b :: q)
  | case9 r c ch rest ih =>
    simp only [mkPath, if_pos, Option.map_eq_some_iff] at h
    obtain ⟨t, h1, rfl⟩ := h
    intro hw
    obtain ⟨w, f⟩ := ih t h1 hw.2.1
    refine ⟨⟨hw.1, w, hw.2.2⟩, fun q => ?_⟩
    cases q with
    | nil => simp [find]
    | cons b q =>
      by_cases hb : c = b
      · subst hb
        simp only [find, if_pos, List.cons_prefix_cons, true_and]
        exact f q
      · simp only [find, if_neg hb, List.cons_prefix_cons, Ne.symm hb, false_and, if_false]
        cases find rest (b :: q) <;> simp
  | case10 c r n ch rest hn ih =>
    simp only [mkPath, if_neg hn, Option.map_eq_some_iff] at h
    obtain ⟨t, h1, rfl⟩ := h
    intro hw
    obtain ⟨w, f⟩ := ih t h1 hw.2.2
    refine ⟨⟨?_, hw.2.1, w⟩, fun q => ?_⟩
    · rw [f, hw.1]
      simp [List.cons_prefix_cons, hn]
    · cases q with
      | nil => simp [find]
      | cons b q =>
        by_cases hb : n = b
        · subst hb
          simp only [find, if_pos, List.cons_prefix_cons, hn, false_and, if_false]
          cases find ch q <;> simp
        · simp only [find, if_neg hb]
          exact f (b :: q)

/-! ## Cleaning -/

theorem map_ok {α β : Type} (f : α → β) {x : Res α} {y : β} (h : x.map f = .ok y) : ∃ a, x = .ok a ∧ f a = y := by
  cases x with
  | error e => cases h
  | ok a =>
    cases h
    exact ⟨a, rfl, rfl⟩

theorem file_cond {m : Listing} {s : Str} : (m.files.contains s && (m.links.lookup s).isNone) = true ↔ Listed m s (.file []) := by
  simp [Listed]

theorem path_cond {m : Listing} {s : Str} : (m.paths.contains s && (m.links.lookup s).isNone) = true ↔ Listed m s .path := by
  simp [Listed]

theorem allowed_one {m : Listing} {ignore : List Str} {name : Str} {base : Bool} {n : Str} {k : Kind} :
    Allowed m ignore name base [n] k ↔ (base = true ∧ n ∈ ignore ∧ ∃ d, k = .file d) ∨ Listed m (name ++ 47 :: n) k := Iff.rfl

theorem allowed_more {m : Listing} {ignore : List Str} {name : Str} {base : Bool} {n c : Str} {r : List Str} {k : Kind} :
    Allowed m ignore name base (n :: c :: r) k ↔
      Listed m (name ++ 47 :: n) .path ∧ Allowed m ignore (name ++ 47 :: n) false (c :: r) k := Iff.rfl

/-- The rest of a directory with one more entry at the start, which is kept. -/
theorem clean_find (m : Listing) (ignore : List Str) : ∀ (t : Tree) (name : Str) (base : Bool), Wf t →
    ∃ t', cleanRec m ignore true name base t = .ok t' ∧ Wf t' ∧
      ∀ r k, find t' r = some k ↔ find t r = some k ∧ Allowed m ignore name base r k
  | .nil, name, base, _ => ⟨.nil, rfl, trivial, fun r k => by
      cases r with
      | nil => simp [find, Allowed]
      | cons c r => simp [find]⟩
  | .file n d rest, name, base, hw => by
    obtain ⟨t', e, w, f⟩ := clean_find m ignore rest name base hw.2
    have hfresh : find t' [n] = none := by
      cases h : find t' [n] with
      | none => rfl
      | some k =>
        have := ((f [n] k).1 h).1
        rw [hw.1] at this
        cases this
    have hkeep : ∀ (hl : Allowed m ignore name base [n] (.file d)),
        Wf (.file n d t') ∧ ∀ r k, find (.file n d t') r = some k ↔ find (.file n d rest) r = some k ∧ Allowed m ignore name base r k := by
      intro hl
      refine ⟨⟨hfresh, w⟩, fun r k => ?_⟩
      cases r with
      | nil => simp [find, Allowed]
      | cons c r =>
        by_cases hc : n = c
        · subst hc
          cases r with
          | nil =>
            simp only [find, if_pos]
            constructor
            · intro h
              cases h
              exact ⟨rfl, hl⟩
            · exact fun h => h.1
          | cons b r => simp [find]
        · simp only [find, if_neg hc]
          exact f (c :: r) k
    have hdrop : ∀ (hl : ¬ Allowed m ignore name base [n] (.file d)),
        ∀ r k, find t' r = some k ↔ find (.file n d rest) r = some k ∧ Allowed m ignore name base r k := by
      intro hl r k
      cases r with
      | nil => simp [find_nil, Allowed]
      | cons c r =>
        by_cases hc : n = c
        · subst hc
          rw [fresh_none r hfresh]
          cases r with
          | nil =>
            simp only [find, if_pos]
            constructor
            · intro h
              cases h
            · rintro ⟨h, h'⟩
              cases h
              exact absurd h' hl
          | cons b r => simp [find]
        · simp only [find, if_neg hc]
          exact f (c :: r) k
    unfold cleanRec
    rw [e]
    by_cases h1 : (base && ignore.contains n) = true
    · rw [if_pos h1]
      simp only [Bool.and_eq_true, List.contains_iff_mem] at h1
      obtain ⟨a, b⟩ := hkeep (.inl ⟨h1.1, h1.2, d, rfl⟩)
      exact ⟨_, rfl, a, b⟩
    · rw [if_neg h1, if_neg (by simp)]
      simp only [Bool.and_eq_true, List.contains_iff_mem] at h1
      by_cases h2 : (m.files.contains (name ++ 47 :: n) && (m.links.lookup (name ++ 47 :: n)).isNone) = true
      · rw [if_pos h2]
        obtain ⟨a, b⟩ := hkeep (.inr (file_cond.1 h2))
        exact ⟨_, rfl, a, b⟩
      · rw [if_neg h2]
        refine ⟨t', rfl, w, hdrop ?_⟩
        rw [allowed_one]
        rintro (⟨g1, g2, _⟩ | g)
        · exact h1 ⟨g1, g2⟩
        · exact h2 (file_cond.2 g)
  | .link n d rest, name, base, hw => by
    obtain ⟨t', e, w, f⟩ := clean_find m ignore rest name base hw.2
    have hfresh : find t' [n] = none := by
      cases h : find t' [n] with
      | none => rfl
      | some k =>
        have := ((f [n] k).1 h).1
        rw [hw.1] at this
        cases this
    unfold cleanRec
    rw [e, if_neg (by simp)]
    by_cases h2 : m.links.lookup (name ++ 47 :: n) = some d
    · rw [if_pos h2]
      refine ⟨_, rfl, ⟨hfresh, w⟩, fun r k => ?_⟩
      cases r with
      | nil => simp [find, Allowed]
      | cons c r =>
        by_cases hc : n = c
        · subst hc
          cases r with
          | nil =>
            simp only [find, if_pos]
            constructor
            · intro h
              cases h
              exact ⟨rfl, .inr h2⟩
            · exact fun h => h.1
          | cons b r => simp [find]
        · simp only [find, if_neg hc]
          exact f (c :: r) k
    · rw [if_neg h2]
      refine ⟨t', rfl, w, fun r k => ?_⟩
      cases r with
      | nil => simp [find_nil, Allowed]
      | cons c r =>
        by_cases hc : n = c
        · subst hc
          rw [fresh_none r hfresh]
          cases r with
          | nil =>
            simp only [find, if_pos]
            constructor
            · intro h
              cases h
            · rintro ⟨h, h'⟩
              cases h
              rcases h' with ⟨_, _, _, h'⟩ | h'
              · cases h'
              · exact absurd h' h2
          | cons b r => simp [find]
        · simp only [find, if_neg hc]
          exact f (c :: r) k
  | .special n rest, name, base, hw => by
    obtain ⟨t', e, w, f⟩ := clean_find m ignore rest name base hw.2
    have hfresh : find t' [n] = none := by
      cases h : find t' [n] with
      | none => rfl
      | some k =>
        have := ((f [n] k).1 h).1
        rw [hw.1] at this
        cases this
    unfold cleanRec
    rw [e, if_neg (by simp)]
    refine ⟨t', rfl, w, fun r k => ?_⟩
    cases r with
    | nil => simp [find_nil, Allowed]
    | cons c r =>
      by_cases hc : n = c
      · subst hc
        rw [fresh_none r hfresh]
        cases r with
        | nil =>
          simp only [find, if_pos]
          constructor
          · intro h
            cases h
          · rintro ⟨h, h'⟩
            cases h
            rcases h' with ⟨_, _, _, h'⟩ | h'
            · cases h'
            · exact absurd h' (by simp [Listed])
        | cons b r => simp [find]
      · simp only [find, if_neg hc]
        exact f (c :: r) k
  | .path n ch rest, name, base, hw => by
    obtain ⟨t', e, w, f⟩ := clean_find m ignore rest name base hw.2.2
    have hfresh : find t' [n] = none := by
      cases h : find t' [n] with
      | none => rfl
      | some k =>
        have := ((f [n] k).1 h).1
        rw [hw.1] at this
        cases this
    obtain ⟨ch', e2, w2, f2⟩ := clean_find m ignore ch (name ++ 47 :: n) false hw.2.1
    unfold cleanRec
    rw [e, e2, if_neg (by simp)]
    by_cases h2 : (m.paths.contains (name ++ 47 :: n) && (m.links.lookup (name ++ 47 :: n)).isNone) = true
    · rw [if_pos h2]
      refine ⟨_, rfl, ⟨hfresh, w2, w⟩, fun r k => ?_⟩
      cases r with
      | nil => simp [find, Allowed]
      | cons c r =>
        by_cases hc : n = c
        · subst hc
          simp only [find, if_pos]
          rw [f2 r k]
          cases r with
          | nil =>
            simp only [find_nil]
            constructor
            · rintro ⟨h, _⟩
              cases h
              exact ⟨rfl, .inr (path_cond.1 h2)⟩
            · rintro ⟨h, _⟩
              exact ⟨h, trivial⟩
          | cons b r =>
            rw [allowed_more]
            constructor
            · rintro ⟨h, h'⟩
              exact ⟨h, path_cond.1 h2, h'⟩
            · rintro ⟨h, _, h'⟩
              exact ⟨h, h'⟩
        · simp only [find, if_neg hc]
          exact f (c :: r) k
    · rw [if_neg h2]
      refine ⟨t', rfl, w, fun r k => ?_⟩
      cases r with
      | nil => simp [find_nil, Allowed]
      | cons c r =>
        by_cases hc : n = c
        · subst hc
          rw [fresh_none r hfresh]
          constructor
          · intro h
            cases h
          · rintro ⟨h, h'⟩
            cases r with
            | nil =>
              simp only [find, if_pos, find_nil] at h
              cases h
              rcases h' with ⟨_, _, _, h'⟩ | h'
              · cases h'
              · exact absurd (path_cond.2 h') h2
            | cons b r => exact absurd (path_cond.2 (allowed_more.1 h').1) h2
        · simp only [find, if_neg hc]
          exact f (c :: r) k

/-- Without delta a directory with anything but ignored files is an error. -/
theorem check_ok {m : Listing} {ignore : List Str} {name : Str} {base : Bool} : ∀ {t t' : Tree},
    cleanRec m ignore false name base t = .ok t' → ∀ n r k, find t (n :: r) = some k → base = true ∧ n ∈ ignore ∧ r = [] ∧ ∃ d, k = .file d
  | .nil, _, _, n, r, k, h => by cases h
  | .file x d rest, t', e, n, r, k, h => by
    unfold cleanRec at e
    by_cases h1 : (base && ignore.contains x) = true
    · rw [if_pos h1] at e
      obtain ⟨t'', e1, _⟩ := map_ok _ e
      simp only [Bool.and_eq_true, List.contains_iff_mem] at h1
      simp only [find] at h
      by_cases hx : x = n
      · subst hx
        rw [if_pos rfl] at h
        split at h
        · rename_i hr
          cases h
          exact ⟨h1.1, h1.2, hr, d, rfl⟩
        · cases h
      · rw [if_neg hx] at h
        exact check_ok e1 n r k h
    · rw [if_neg h1] at e
      simp at e
  | .link x d rest, t', e, n, r, k, h => by simp [cleanRec] at e
  | .special x rest, t', e, n, r, k, h => by simp [cleanRec] at e
  | .path x ch rest, t', e, n, r, k, h => by simp [cleanRec] at e

theorem check_error {m : Listing} {ignore : List Str} {name : Str} {base : Bool} : ∀ {t : Tree} {e : Err},
    cleanRec m ignore false name base t = .error e → e = .pathNotEmpty
  | .nil, _, h => by cases h
  | .file x d rest, e, h => by
    unfold cleanRec at h
    split at h
    · cases hr : cleanRec m ignore false name base rest with
      | ok t =>
        rw [hr] at h
        cases h
      | error e' =>
        rw [hr] at h
        cases h
        exact check_error hr
    · simp at h
      exact h.symm
  | .link x d rest, e, h => by
    simp [cleanRec] at h
    exact h.symm
  | .special x rest, e, h => by
    simp [cleanRec] at h
    exact h.symm
  | .path x ch rest, e, h => by
    simp [cleanRec] at h
    exact h.symm

/-! ## Steps -/

theorem step2_find {o : Opts} {m : Listing} {root root' : Tree} {t : Tgt} {b : Bool} (hw : Wf root) (h : step2 o m root t b = .ok root') :
    Wf root' ∧
    (b = true → t.file = none → ∀ q k, find root' q = some k ↔
      find root q = some k ∧ ∀ r, q = t.path ++ r → Allowed m (ignoreOf o) t.name t.base r k) ∧
    (b = true → t.file ≠ none → root' = root) ∧
    (b = false → ∀ q, find root' q = if (find root q).isSome then find root q else if q <+: t.path then some .path else none) := by
  unfold step2 at h
  cases b with
  | true =>
    simp only [if_true] at h
    cases hf : t.file with
    | some f =>
      rw [hf] at h
      cases h
      exact ⟨hw, by simp, by simp, by simp⟩
    | none =>
      rw [hf] at h
      simp only at h
      split at h
      · cases h
      · cases hs : sub root t.path with
        | none =>
          rw [hs] at h
          cases h
        | some ch =>
          rw [hs] at h
          obtain ⟨new, h1, rfl⟩ := map_ok _ h
          obtain ⟨new', e, w, f⟩ := clean_find m (ignoreOf o) ch t.name t.base (sub_wf _ _ hw hs)
          rw [e] at h1
          cases h1
          refine ⟨putAt_wf w _ _ hw, fun _ _ q k => ?_, by simp, by simp⟩
          rw [putAt_find _ _ _ hs]
          by_cases hq : t.path <+: q
          · obtain ⟨r, rfl⟩ := hq
            rw [if_pos (List.prefix_append _ _), List.drop_left, f, sub_find r _ _ hs]
            constructor
            · rintro ⟨a, b⟩
              refine ⟨a, fun r' hr => ?_⟩
              rw [← List.append_cancel_left hr]
              exact b
            · rintro ⟨a, b⟩
              exact ⟨a, b r rfl⟩
          · rw [if_neg hq]
            constructor
            · intro a
              refine ⟨a, fun r hr => ?_⟩
              rw [hr] at hq
              exact absurd (List.prefix_append _ _) hq
            · exact fun a => a.1
  | false =>
    simp only [Bool.false_eq_true, if_false] at h
    have key : ∀ {e1 e2 : Err} {c : Bool}, (if c = true then (.error e1 : Res Tree) else
        match mkPath t.path root with
        | none => .error e2
        | some r => .ok r) = .ok root' → mkPath t.path root = some root' := by
      intro e1 e2 c hh
      split at hh
      · cases hh
      · split at hh
        · cases hh
        · rename_i r hr
          cases hh
          exact hr
    have hmk : mkPath t.path root = some root' := by
      split at h
      · exact key h
      · exact key h
    obtain ⟨w, f⟩ := mkPath_find _ _ _ hmk hw
    exact ⟨w, by simp, by simp, fun _ => f⟩

theorem step1_ok {o : Opts} {m : Listing} {access : List Str → Bool} {root : Tree} {t : Tgt} {b : Bool} (h : step1 o m access root t = .ok b) :
    (b = true ∧ find root t.path = some .path ∨ b = false ∧ find root t.path = none) ∧
    (o.delta = false → t.file = none → ∀ n r k, find root (t.path ++ n :: r) = some k →
      t.base = true ∧ n ∈ ignoreOf o ∧ r = [] ∧ ∃ d, k = .file d) := by
  unfold step1 at h
  cases hs : sub root t.path with
  | none =>
    rw [hs] at h
    simp only at h
    split at h
    · cases h
    · rename_i hn
      cases h
      have hnone : find root t.path = none := by
        cases hf : find root t.path with
        | none => rfl
        | some k => simp [hf] at hn
      refine ⟨.inr ⟨rfl, hnone⟩, fun _ _ n r k hk => ?_⟩
      rw [below_none hnone] at hk
      cases hk
  | some ch =>
    rw [hs] at h
    have hp : find root t.path = some .path := (sub_iff _ _).1 (by rw [hs]; rfl)
    simp only at h
    split at h
    · cases h
    · split at h
      · rename_i hd
        cases h
        exact ⟨.inl ⟨rfl, hp⟩, fun hd' => by simp [hd] at hd'⟩
      · cases hf : t.file with
        | none =>
          rw [hf] at h
          obtain ⟨t', h1, h2⟩ := map_ok _ h
          refine ⟨.inl ⟨h2.symm, hp⟩, fun _ _ n r k hk => ?_⟩
          rw [sub_find _ _ _ hs] at hk
          exact check_ok h1 n r k hk
        | some f =>
          rw [hf] at h
          simp only at h
          split at h
          · cases h
          · cases h
            exact ⟨.inl ⟨rfl, hp⟩, by simp⟩

theorem step1All_ok {o : Opts} {m : Listing} {access : List Str → Bool} {root : Tree} : ∀ {ts : List Tgt} {l : List (Tgt × Bool)},
    step1All o m access root ts = .ok l → l.map Prod.fst = ts ∧ ∀ p ∈ l, step1 o m access root p.1 = .ok p.2
  | [], l, h => by
    cases h
    simp
  | t :: ts, l, h => by
    unfold step1All at h
    cases h1 : step1 o m access root t with
    | error e =>
      rw [h1] at h
      cases h
    | ok b =>
      rw [h1] at h
      obtain ⟨l', h2, rfl⟩ := map_ok _ h
      obtain ⟨a, c⟩ := step1All_ok h2
      refine ⟨by simp [a], ?_⟩
      intro p hp
      rcases List.mem_cons.1 hp with rfl | hp
      · exact h1
      · exact c p hp

theorem control_find {root : Tree} {pg : List Str} (hw : Wf root) : Wf (removeControl root pg) ∧
    ∀ q k, find (removeControl root pg) q = some k ↔ find root q = some k ∧ ¬ IsControl root pg q := by
  unfold removeControl IsControl
  by_cases hc : controlExists root pg = true
  · rw [if_pos hc]
    have hdir : ∃ k, find root (globalDir root pg ++ [controlZ]) = some k ∧ k ≠ .path := by
      unfold controlExists at hc
      split at hc
      · exact ⟨_, by assumption, by simp⟩
      · exact ⟨_, by assumption, by simp⟩
      · cases hc
    obtain ⟨k0, hk0, hnp⟩ := hdir
    cases hs : sub root (globalDir root pg) with
    | none =>
      have : find root (globalDir root pg) ≠ some .path := by
        intro h
        have := (sub_iff _ _).2 h
        rw [hs] at this
        cases this
      exact absurd (above_path hk0) this
    | some ch =>
      simp only
      obtain ⟨w, f⟩ := unlink_find (name := controlZ) (sub_wf _ _ hw hs)
      refine ⟨putAt_wf w _ _ hw, fun q k => ?_⟩
      rw [putAt_find _ _ _ hs]
      by_cases hq : globalDir root pg <+: q
      · obtain ⟨r, rfl⟩ := hq
        rw [sub_find _ _ _ hs] at hk0
        have hcond : find ch [controlZ] ≠ some .path := by
          rw [hk0]
          simpa using hnp
        rw [if_pos (List.prefix_append _ _), List.drop_left, f, sub_find r _ _ hs]
        cases r with
        | nil => simp [hc, find_nil]
        | cons c r =>
          by_cases hcc : c = controlZ
          · subst hcc
            simp only [List.head?_cons, hcond, ne_eq, not_false_eq_true, and_self, if_true, hc, List.append_cancel_left_eq,
              List.cons.injEq, true_and, reduceCtorEq, false_iff, not_and, Decidable.not_not]
            intro h
            cases r with
            | nil => rfl
            | cons x r =>
              have : find ch [controlZ] = some .path := above_path (p := [controlZ]) h
              exact absurd this hcond
          · simp [hcc, hc]
      · rw [if_neg hq]
        constructor
        · intro h
          refine ⟨h, ?_⟩
          rintro ⟨_, rfl⟩
          exact hq (List.prefix_append _ _)
        · exact fun h => h.1
  · rw [if_neg hc]
    exact ⟨hw, fun q k => by simp [hc]⟩

/-! ## Step 2 -/

theorem step2All_kept {o : Opts} {m : Listing} {q : List Str} {k : Kind} : ∀ {l : List (Tgt × Bool)} {root : Tree}, Wf root →
    find root q = some k →
    (∀ p ∈ l, p.2 = true → p.1.file = none → ∀ r, q = p.1.path ++ r → Allowed m (ignoreOf o) p.1.name p.1.base r k) →
    find (step2All o m root l).1 q = some k
  | [], root, _, h, _ => h
  | (t, b) :: l, root, hw, h, ha => by
    unfold step2All
    cases h2 : step2 o m root t b with
    | error e => exact h
    | ok root' =>
      obtain ⟨w, f1, f2, f3⟩ := step2_find hw h2
      refine step2All_kept w ?_ fun p hp => ha p (List.mem_cons_of_mem _ hp)
      cases b with
      | true =>
        by_cases hf : t.file = none
        · exact (f1 rfl hf q k).2 ⟨h, ha (t, true) (List.mem_cons_self ..) rfl hf⟩
        · rw [f2 rfl hf]
          exact h
      | false =>
        rw [f3 rfl, h]
        simp

theorem step2All_new {o : Opts} {m : Listing} {q : List Str} {k : Kind} : ∀ {l : List (Tgt × Bool)} {root : Tree}, Wf root →
    find (step2All o m root l).1 q = some k →
    find root q = some k ∨ k = .path ∧ ∃ p ∈ l, p.2 = false ∧ q <+: p.1.path
  | [], root, _, h => .inl h
  | (t, b) :: l, root, hw, h => by
    unfold step2All at h
    cases h2 : step2 o m root t b with
    | error e =>
      rw [h2] at h
      exact .inl h
    | ok root' =>
      rw [h2] at h
      obtain ⟨w, f1, f2, f3⟩ := step2_find hw h2
      rcases step2All_new w h with h | ⟨h, p, hp, hb, hq⟩
      · cases b with
        | true =>
          by_cases hf : t.file = none
          · exact .inl ((f1 rfl hf q k).1 h).1
          · rw [f2 rfl hf] at h
            exact .inl h
        | false =>
          rw [f3 rfl] at h
          split at h
          · exact .inl h
          · split at h
            · cases h
              exact .inr ⟨rfl, (t, false), List.mem_cons_self .., rfl, by assumption⟩
            · cases h
      · exact .inr ⟨h, p, List.mem_cons_of_mem _ hp, hb, hq⟩

theorem step2All_listed {o : Opts} {m : Listing} {r : List Str} {k : Kind} {t : Tgt} (hf : t.file = none) :
    ∀ {l : List (Tgt × Bool)} {root : Tree}, Wf root → (t, true) ∈ l →
    (step2All o m root l).2 = none → find (step2All o m root l).1 (t.path ++ r) = some k →
    Allowed m (ignoreOf o) t.name t.base r k ∨ k = .path ∧ ∃ p ∈ l, p.2 = false ∧ t.path ++ r <+: p.1.path
  | (t', b) :: l, root, hw, hm, hn, h => by
    unfold step2All at h hn
    cases h2 : step2 o m root t' b with
    | error e =>
      rw [h2] at hn
      cases hn
    | ok root' =>
      rw [h2] at h hn
      simp only at h hn
      obtain ⟨w, f1, f2, f3⟩ := step2_find hw h2
      rcases List.mem_cons.1 hm with heq | hm
      · cases heq
        rcases step2All_new w h with h | ⟨h, p, hp, hb, hq⟩
        · exact .inl (((f1 rfl hf _ k).1 h).2 r rfl)
        · exact .inr ⟨h, p, List.mem_cons_of_mem _ hp, hb, hq⟩
      · rcases step2All_listed hf w hm hn h with h | ⟨h, p, hp, hb, hq⟩
        · exact .inl h
        · exact .inr ⟨h, p, List.mem_cons_of_mem _ hp, hb, hq⟩

/-- What step 1 finds about each target. -/
theorem step1_flag {o : Opts} {m : Listing} {access : List Str → Bool} {root : Tree} {ts : List Tgt} {l : List (Tgt × Bool)}
    (h : step1All o m access root ts = .ok l) {p : Tgt × Bool} (hp : p ∈ l) :
    p.1 ∈ ts ∧ (p.2 = true ∧ find root p.1.path = some .path ∨ p.2 = false ∧ find root p.1.path = none) := by
  obtain ⟨h1, h2⟩ := step1All_ok h
  exact ⟨h1 ▸ List.mem_map_of_mem hp, (step1_ok (h2 p hp)).1⟩

theorem step1_mem {o : Opts} {m : Listing} {access : List Str → Bool} {root : Tree} {ts : List Tgt} {l : List (Tgt × Bool)}
    (h : step1All o m access root ts = .ok l) {t : Tgt} (ht : t ∈ ts) : ∃ b, (t, b) ∈ l := by
  obtain ⟨h1, h2⟩ := step1All_ok h
  rw [← h1] at ht
  obtain ⟨p, hp, rfl⟩ := List.mem_map.1 ht
  exact ⟨p.2, hp⟩

/-! ## The claims -/

/-- Whatever happens, an entry stays as it is when each target whose directory contains it allows it: it has to be listed in the manifest, or to be
one of the ignored files. This includes all that is outside of the targets. Only `pg_control` is always removed. -/
theorem c45_kept {o : Opts} {m : Listing} {access : List Str → Bool} {pg : List Str} {ts : List Tgt} {root : Tree} {q : List Str} {k : Kind}
    (hw : Wf root) (hk : find root q = some k) (hc : ¬ IsControl root pg q)
    (ha : AllowedBy (skipFiles o m) (ignoreOf o) root ts q k) : find (cleanBuild o m access pg ts root).1 q = some k := by
  unfold cleanBuild
  cases h1 : step1All o m access root ts with
  | error e => exact hk
  | ok l =>
    obtain ⟨w, f⟩ := control_find (pg := pg) hw
    refine step2All_kept w ((f q k).2 ⟨hk, hc⟩) fun p hp hb hf r hr => ?_
    obtain ⟨h2, h3⟩ := step1_flag h1 hp
    rcases h3 with ⟨_, h3⟩ | ⟨h3, _⟩
    · exact ha p.1 h2 ⟨hf, h3⟩ r hr
    · rw [hb] at h3
      cases h3

/-- Nothing outside of the directories of the targets is removed or changed. -/
theorem c45_outside {o : Opts} {m : Listing} {access : List Str → Bool} {pg : List Str} {ts : List Tgt} {root : Tree} {q : List Str} {k : Kind}
    (hw : Wf root) (hk : find root q = some k) (hc : ¬ IsControl root pg q)
    (ho : ∀ t ∈ ts, IsDir root t → ¬ t.path <+: q) : find (cleanBuild o m access pg ts root).1 q = some k :=
  c45_kept hw hk hc fun t ht hd r hr => absurd (hr ▸ List.prefix_append _ _) (ho t ht hd)

/-- The only new entries are the directories of targets that were missing, with the directories above them. -/
theorem c45_new {o : Opts} {m : Listing} {access : List Str → Bool} {pg : List Str} {ts : List Tgt} {root : Tree} {q : List Str} {k : Kind}
    (hw : Wf root) (hk : find (cleanBuild o m access pg ts root).1 q = some k) :
    find root q = some k ∨ k = .path ∧ ∃ t ∈ ts, find root t.path = none ∧ q <+: t.path := by
  unfold cleanBuild at hk
  cases h1 : step1All o m access root ts with
  | error e =>
    rw [h1] at hk
    exact .inl hk
  | ok l =>
    rw [h1] at hk
    obtain ⟨w, f⟩ := control_find (pg := pg) hw
    rcases step2All_new w hk with h | ⟨h, p, hp, hb, hq⟩
    · exact .inl ((f q k).1 h).1
    · obtain ⟨h2, h3⟩ := step1_flag h1 hp
      rcases h3 with ⟨h3, _⟩ | ⟨_, h3⟩
      · rw [hb] at h3
        cases h3
      · exact .inr ⟨h, p.1, h2, h3, hq⟩

/-- When the phase ends without an error, each directory of a target contains only what the manifest lists with the listed kind, and the ignored
files. The directories of targets that were missing may be in it too. -/
theorem c45_listed {o : Opts} {m : Listing} {access : List Str → Bool} {pg : List Str} {ts : List Tgt} {root root' : Tree} {t : Tgt}
    {r : List Str} {k : Kind} (hw : Wf root) (h : cleanBuild o m access pg ts root = (root', none)) (ht : t ∈ ts) (hd : IsDir root t)
    (hk : find root' (t.path ++ r) = some k) :
    Allowed (skipFiles o m) (ignoreOf o) t.name t.base r k ∨ k = .path ∧ ∃ t' ∈ ts, find root t'.path = none ∧ t.path ++ r <+: t'.path := by
  unfold cleanBuild at h
  cases h1 : step1All o m access root ts with
  | error e =>
    rw [h1] at h
    cases h
  | ok l =>
    rw [h1] at h
    simp only at h
    obtain ⟨w, f⟩ := control_find (pg := pg) hw
    obtain ⟨b, hb⟩ := step1_mem h1 ht
    have : b = true := by
      rcases (step1_flag h1 hb).2 with ⟨h3, _⟩ | ⟨_, h3⟩
      · exact h3
      · rw [hd.2] at h3
        cases h3
    subst this
    rcases step2All_listed (o := o) (m := skipFiles o m) hd.1 w hb (by rw [h]) (by rw [h]; exact hk) with h | ⟨h, p, hp, hb, hq⟩
    · exact .inl h
    · obtain ⟨h2, h3⟩ := step1_flag h1 hp
      rcases h3 with ⟨h3, _⟩ | ⟨_, h3⟩
      · rw [hb] at h3
        cases h3
      · exact .inr ⟨h, p.1, h2, h3, hq⟩

/-- No other target is above or below the directory of this one. -/
def Apart (t : Tgt) (ts : List Tgt) : Prop :=
  ∀ t' ∈ ts, t'.file = none → t' ≠ t → ¬ t'.path <+: t.path ∧ ¬ t.path <+: t'.path

/-- A directory apart from those of other targets has exactly those of its entries that are listed, or ignored, and are not `pg_control`. -/
theorem c45_exact {o : Opts} {m : Listing} {access : List Str → Bool} {pg : List Str} {ts : List Tgt} {root root' : Tree} {t : Tgt}
    {r : List Str} {k : Kind} (hw : Wf root) (h : cleanBuild o m access pg ts root = (root', none)) (ht : t ∈ ts) (hd : IsDir root t)
    (hs : Apart t ts) (hm : ∀ t' ∈ ts, find root t'.path = none → ¬ t.path <+: t'.path) :
    find root' (t.path ++ r) = some k ↔
      find root (t.path ++ r) = some k ∧ ¬ IsControl root pg (t.path ++ r) ∧ Allowed (skipFiles o m) (ignoreOf o) t.name t.base r k := by
  have hnm : ¬ (k = .path ∧ ∃ t' ∈ ts, find root t'.path = none ∧ t.path ++ r <+: t'.path) := by
    rintro ⟨_, t', h1, h2, h3⟩
    exact hm t' h1 h2 ((List.prefix_append _ _).trans h3)
  constructor
  · intro hk
    refine ⟨?_, ?_, (c45_listed hw h ht hd hk).resolve_right hnm⟩
    · rcases c45_new (o := o) (m := m) (access := access) (pg := pg) (ts := ts) hw (by rw [h]; exact hk) with h' | ⟨h1, t', h2, h3, h4⟩
      · exact h'
      · exact absurd ⟨h1, t', h2, h3, h4⟩ hnm
    · intro hc
      unfold cleanBuild at h
      cases h1 : step1All o m access root ts with
      | error e =>
        rw [h1] at h
        cases h
      | ok l =>
        rw [h1] at h
        simp only at h
        obtain ⟨w, f⟩ := control_find (pg := pg) hw
        rcases step2All_new (o := o) (m := skipFiles o m) (l := l) w (by rw [h]; exact hk) with h' | ⟨h5, p, hp, hb, hq⟩
        · exact ((f _ k).1 h').2 hc
        · obtain ⟨h2, h3⟩ := step1_flag h1 hp
          rcases h3 with ⟨h3, _⟩ | ⟨_, h3⟩
          · rw [hb] at h3
            cases h3
          · exact hnm ⟨h5, p.1, h2, h3, hq⟩
  · rintro ⟨h1, h2, h3⟩
    have : find (cleanBuild o m access pg ts root).1 (t.path ++ r) = some k := by
      refine c45_kept hw h1 h2 fun t' ht' hd' r' hr' => ?_
      by_cases heq : t' = t
      · subst heq
        rw [← List.append_cancel_left hr']
        exact h3
      · obtain ⟨a, b⟩ := hs t' ht' hd'.1 heq
        have hp : t'.path <+: t.path ++ r := hr' ▸ List.prefix_append _ _
        rcases List.prefix_or_prefix_of_prefix hp (List.prefix_append _ _) with h | h
        · exact absurd h a
        · exact absurd h b
    rw [h] at this
    exact this

theorem control_pg {root : Tree} {pg : List Str} (h : controlExists root pg = true) : ∃ k, find root (pg ++ [globalNameZ]) = some k := by
  cases hg : find root (pg ++ [globalNameZ]) with
  | some k => exact ⟨k, rfl⟩
  | none =>
    unfold controlExists globalDir at h
    rw [hg] at h
    simp only [below_none hg] at h
    cases h

/-- Without delta nothing that was there is removed or changed. -/
theorem c45_no_delta {o : Opts} {m : Listing} {access : List Str → Bool} {pg : List Str} {ts : List Tgt} {root : Tree} {q : List Str} {k : Kind}
    (hw : Wf root) (hdelta : o.delta = false) (hpg : ∃ t ∈ ts, t.path = pg ∧ t.file = none) (hk : find root q = some k) :
    find (cleanBuild o m access pg ts root).1 q = some k := by
  cases h1 : step1All o m access root ts with
  | error e =>
    unfold cleanBuild
    rw [h1]
    exact hk
  | ok l =>
    have hone : ∀ t ∈ ts, t.file = none → ∀ n r k, find root (t.path ++ n :: r) = some k →
        t.base = true ∧ n ∈ ignoreOf o ∧ r = [] ∧ ∃ d, k = .file d := by
      intro t ht hf
      obtain ⟨b, hb⟩ := step1_mem h1 ht
      exact (step1_ok ((step1All_ok h1).2 _ hb)).2 hdelta hf
    refine c45_kept hw hk ?_ ?_
    · rintro ⟨hc, _⟩
      obtain ⟨t, ht, rfl, hf⟩ := hpg
      obtain ⟨k', hk'⟩ := control_pg hc
      obtain ⟨_, h2, _⟩ := hone t ht hf _ _ _ hk'
      revert h2
      unfold ignoreOf
      split
      · split <;> decide
      · decide
    · intro t ht hd r hr
      cases r with
      | nil => trivial
      | cons n r =>
        rw [hr] at hk
        obtain ⟨a, b, rfl, d⟩ := hone t ht hd.1 n r k hk
        exact .inl ⟨a, b, d⟩

theorem step1All_error {o : Opts} {m : Listing} {access : List Str → Bool} {root : Tree} {e : Err} : ∀ {ts : List Tgt} {t : Tgt}, t ∈ ts →
    step1 o m access root t = .error e → ∃ e', step1All o m access root ts = .error e'
  | t :: ts, t', h, he => by
    unfold step1All
    cases h1 : step1 o m access root t with
    | error e' => exact ⟨e', rfl⟩
    | ok b =>
      rcases List.mem_cons.1 h with rfl | h
      · rw [h1] at he
        cases he
      · obtain ⟨e', h2⟩ := step1All_error h he
        exact ⟨e', by rw [h2]; rfl⟩

/-- Without delta, a directory of a target with anything but ignored files is an error, and nothing is changed. -/
theorem c45_not_empty {o : Opts} {m : Listing} {access : List Str → Bool} {pg : List Str} {ts : List Tgt} {root : Tree} {t : Tgt}
    {n : Str} {r : List Str} {k : Kind} (hdelta : o.delta = false) (ht : t ∈ ts) (hf : t.file = none)
    (hk : find root (t.path ++ n :: r) = some k) (hn : ¬ (t.base = true ∧ n ∈ ignoreOf o ∧ r = [] ∧ ∃ d, k = .file d)) :
    (∃ e, cleanBuild o m access pg ts root = (root, some e)) ∧ (access t.path = true → step1 o m access root t = .error .pathNotEmpty) := by
  have h1 : ∃ e, step1 o m access root t = .error e := by
    cases h : step1 o m access root t with
    | error e => exact ⟨e, rfl⟩
    | ok b => exact absurd ((step1_ok h).2 hdelta hf n r k hk) hn
  obtain ⟨e, h1⟩ := h1
  obtain ⟨e', h2⟩ := step1All_error ht h1
  refine ⟨⟨e', by unfold cleanBuild; rw [h2]⟩, fun ha => ?_⟩
  unfold step1 at h1 ⊢
  have hs := (sub_iff _ _).2 (above_path hk)
  cases hc : sub root t.path with
  | none =>
    rw [hc] at hs
    cases hs
  | some ch =>
    rw [hc] at h1
    simp only [ha, hdelta, hf, Bool.not_true, Bool.false_eq_true, if_false] at h1 ⊢
    cases hcl : cleanRec m (ignoreOf o) false t.name t.base ch with
    | ok t' =>
      rw [hcl] at h1
      cases h1
    | error e'' =>
      rw [check_error hcl]
      rfl

/-- Without delta, a file that is the destination of a link to a file is an error when it is there, and nothing is changed. -/
theorem c45_file_exists {o : Opts} {m : Listing} {access : List Str → Bool} {pg : List Str} {ts : List Tgt} {root : Tree} {t : Tgt}
    {f d : Str} (hdelta : o.delta = false) (ht : t ∈ ts) (hf : t.file = some f) (hk : find root (t.path ++ [f]) = some (.file d)) :
    (∃ e, cleanBuild o m access pg ts root = (root, some e)) ∧ (access t.path = true → step1 o m access root t = .error .fileExists) := by
  have hs := (sub_iff _ _).2 (above_path hk)
  cases hc : sub root t.path with
  | none =>
    rw [hc] at hs
    cases hs
  | some ch =>
    rw [sub_find _ _ _ hc] at hk
    have h1 : step1 o m access root t = .error (if access t.path then .fileExists else .pathOpen) := by
      unfold step1
      rw [hc]
      cases ha : access t.path <;> simp [hdelta, hf, hk]
    obtain ⟨e', h2⟩ := step1All_error ht h1
    exact ⟨⟨e', by unfold cleanBuild; rw [h2]⟩, fun ha => by rw [h1, ha]; rfl⟩

/-- A target that is not a directory, or is one that cannot be used, is an error and nothing is changed. -/
theorem c45_access {o : Opts} {m : Listing} {access : List Str → Bool} {pg : List Str} {ts : List Tgt} {root : Tree} {t : Tgt} {k : Kind}
    (ht : t ∈ ts) (hk : find root t.path = some k) (hn : k ≠ .path ∨ access t.path = false) :
    ∃ e, cleanBuild o m access pg ts root = (root, some e) := by
  have h1 : step1 o m access root t = .error .pathOpen := by
    unfold step1
    cases hc : sub root t.path with
    | none => simp [hk]
    | some ch =>
      have := (sub_iff _ _).1 (show (sub root t.path).isSome = true by rw [hc]; rfl)
      rw [hk] at this
      cases this
      rcases hn with hn | hn
      · exact absurd rfl hn
      · simp [hn]
  obtain ⟨e', h2⟩ := step1All_error ht h1
  exact ⟨e', by unfold cleanBuild; rw [h2]⟩

/-- The files that are ignored are `backup.manifest` and, when recovery settings are preserved, the files that have them. -/
theorem c45_ignored {o : Opts} {n : Str} : n ∈ ignoreOf o ↔ n = manifestFileZ ∨ o.preserve = true ∧
    (o.guc = true ∧ (n = autoConfZ ∨ n = recSignalZ ∨ n = stbSignalZ) ∨ o.guc = false ∧ n = recConfZ) := by
  unfold ignoreOf
  cases o.preserve <;> cases o.guc <;> simp

/-- The files that may stay are those of the manifest, but `tablespace_map` never and `postgresql.auto.conf` not when it is preserved. -/
theorem c45_skipped {o : Opts} {m : Listing} {f : Str} : f ∈ (skipFiles o m).files ↔ f ∈ m.files ∧ f ≠ pgdataZ ++ 47 :: tsMapZ ∧
    ¬ (o.guc = true ∧ o.preserve = true ∧ f = pgdataZ ++ 47 :: autoConfZ) := by
  unfold skipFiles
  simp only [List.mem_filter, Bool.and_eq_true, Bool.not_eq_true', beq_eq_false_iff_ne, ne_eq]
  cases o.guc <;> cases o.preserve <;> simp

/-! ## Examples -/

/-- Data directory `/d/pg` with `global/pg_control`, a listed file `a`, a file `b` that is not listed, `backup.manifest`, a link `l` with another
destination, and a file where the manifest lists the directory `s`; another directory `/e` with a file. -/
def exTree : Tree :=
  .path [100] (.path [112, 103] (.path globalNameZ (.file controlZ [1] (.file [97] [2] .nil)) (.file [97] [3] (.file [98] [4]
    (.file manifestFileZ [5] (.link [108] [47, 120] (.file [115] [6] .nil)))))) .nil) (.path [101] (.file [102] [7] .nil) .nil)

def exListing : Listing :=
  { files := [pgdataZ ++ 47 :: [97], pgdataZ ++ 47 :: globalNameZ ++ 47 :: [97], pgdataZ ++ 47 :: globalNameZ ++ 47 :: controlZ]
    links := [(pgdataZ ++ 47 :: [108], [47, 121])]
    paths := [pgdataZ, pgdataZ ++ 47 :: globalNameZ, pgdataZ ++ 47 :: [115], pgdataZ ++ 47 :: [108]] }

def exPg : Tgt := ⟨pgdataZ, pgdataZ, [[100], [112, 103]], none⟩

/-- A link to a directory that is missing. -/
def exLink : Tgt := ⟨pgdataZ ++ 47 :: [108], pgdataZ ++ 47 :: [108], [[101], [110], [111]], none⟩

def exOpts : Opts := ⟨true, false, true⟩

example : Wf exTree := by simp [exTree, Wf, find, globalNameZ, controlZ, manifestFileZ]

example : cleanBuild exOpts exListing (fun _ => true) exPg.path [exPg, exLink] exTree =
    (.path [100] (.path [112, 103] (.path globalNameZ (.file [97] [2] .nil) (.file [97] [3] (.file manifestFileZ [5] .nil))) .nil)
      (.path [101] (.file [102] [7] (.path [110] (.path [111] .nil .nil) .nil)) .nil), none) := by decide +kernel

example : IsDir exTree exPg ∧ Apart exPg [exPg, exLink] ∧ find exTree exLink.path = none ∧ ¬ exPg.path <+: exLink.path := by
  refine ⟨⟨rfl, by decide⟩, ?_, by decide, by decide⟩
  intro t ht _ hne
  rcases List.mem_cons.1 ht with rfl | ht
  · exact absurd rfl hne
  · rcases List.mem_cons.1 ht with rfl | ht
    · decide
    · cases ht

/-- The same tree without delta, and with the file as the destination of a link. -/
example : cleanBuild ⟨false, false, true⟩ exListing (fun _ => true) exPg.path [exPg, exLink] exTree = (exTree, some .pathNotEmpty) := by
  decide +kernel

example : cleanBuild ⟨false, false, true⟩ exListing (fun _ => true) [[101], [120]]
    [⟨pgdataZ, pgdataZ, [[101], [120]], none⟩, ⟨pgdataZ ++ 47 :: [108], pgdataZ ++ 47 :: [108], [[101]], some [102]⟩] exTree =
    (exTree, some .fileExists) := by decide +kernel

/-- Preserved recovery files stay: `postgresql.auto.conf` is not restored, and is not removed either. -/
example : Allowed (skipFiles ⟨true, true, true⟩ exListing) (ignoreOf ⟨true, true, true⟩) exPg.name exPg.base [autoConfZ] (.file [9]) :=
  .inl ⟨rfl, by decide, _, rfl⟩

/-- What the manifest lists is only kept where no other target contains it. Here the destination of a link is the directory that contains the data
directory: cleaning it removes the data directory with all its files, and the phase ends without an error. -/
theorem c45_overlap : ∃ (o : Opts) (m : Listing) (ts : List Tgt) (t : Tgt) (root root' : Tree), Wf root ∧ t ∈ ts ∧ IsDir root t ∧
    find root (t.path ++ [[97]]) = some (.file [3]) ∧ Allowed (skipFiles o m) (ignoreOf o) t.name t.base [[97]] (.file [3]) ∧
    cleanBuild o m (fun _ => true) t.path ts root = (root', none) ∧ find root' t.path = none :=
  ⟨exOpts, exListing, [exPg, { exLink with path := [[100]] }], exPg, exTree,
    .path [100] .nil (.path [101] (.file [102] [7] .nil) .nil),
    by simp [exTree, Wf, find, globalNameZ, controlZ, manifestFileZ], by simp, ⟨rfl, by decide⟩, by decide, .inr ⟨by decide, by decide⟩,
    by decide +kernel, by decide⟩

end Verif.Restore.Clean
