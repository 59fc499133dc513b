import Verif.Backup.ResumeModel

/-!
# C34 Resuming a backup
-/

namespace Verif.Backup.Resume

/-! ## What a directory has -/

/-- The kinds of entries. -/
inductive Ty where
  | file | link | special | path
  deriving DecidableEq, Repr

/-- An entry of a directory or of a directory in it: the names of the directories above, its own name from the top, and its kind. -/
structure Entry where
  above : List Str
  name : Str
  ty : Ty
  deriving DecidableEq, Repr

/-- All entries of a directory and the directories in it. -/
def entries : Option Str → List Str → Tree → List Entry
  | _, _, .nil => []
  | parent, above, .file name rest => ⟨above, entryName parent name, .file⟩ :: entries parent above rest
  | parent, above, .link name rest => ⟨above, entryName parent name, .link⟩ :: entries parent above rest
  | parent, above, .special name rest => ⟨above, entryName parent name, .special⟩ :: entries parent above rest
  | parent, above, .path name children rest =>
    ⟨above, entryName parent name, .path⟩ ::
      (entries (some (entryName parent name)) (above ++ [entryName parent name]) children ++ entries parent above rest)

theorem entries_above (t : Tree) : ∀ (parent : Option Str) (above : List Str), ∀ e ∈ entries parent above t, ∃ l, e.above = above ++ l := by
  induction t with
  | nil => intro parent above e he; cases he
  | file name rest ih | link name rest ih | special name rest ih =>
    intro parent above e he
    rcases List.mem_cons.1 he with rfl | he
    · exact ⟨[], by simp⟩
    · exact ih parent above e he
  | path name children rest ih1 ih2 =>
    intro parent above e he
    rcases List.mem_cons.1 he with rfl | he
    · exact ⟨[], by simp⟩
    · rcases List.mem_append.1 he with he | he
      · obtain ⟨l, hl⟩ := ih1 _ _ e he
        exact ⟨_, by rw [hl, List.append_assoc]⟩
      · exact ih2 parent above e he

/-! ## What is kept -/

/-- A file of the repository can be reused: it has the compression of this backup or is block incremental, and the file it is for is in
both manifests with the same size, which is not zero, with a checksum and, unless its content is verified, with the same time. -/
def Reusable (m mr : Manifest) (compress : Compress) (delta : Bool) (name : Str) : Prop :=
  (fromName name = compress ∨ (lookup name).2 = true) ∧
  ∃ f g, m.files (lookup name).1 = some f ∧ mr.files (lookup name).1 = some g ∧ g.checksum ≠ none ∧ f.size = g.size ∧ f.size ≠ 0 ∧
    (delta = true ∨ f.timestamp = g.timestamp)

/-- What is kept: the copy of the manifest, directories of the new manifest and files that can be reused, in directories of the new
manifest. -/
def Kept (m mr : Manifest) (compress : Compress) (delta : Bool) (e : Entry) : Prop :=
  (e.above ++ [e.name]).head? = some manifestCopy ∨
  ((∀ a ∈ e.above, a ∈ m.paths) ∧ ((e.ty = .path ∧ e.name ∈ m.paths) ∨ (e.ty = .file ∧ Reusable m mr compress delta e.name)))

/-- The entry of the new manifest when the file is resumed. -/
def merged (m mr : Manifest) (delta : Bool) (k : Str) : Option File :=
  match m.files k, mr.files k with
  | some f, some g => some (merge delta f g)
  | o, _ => o

/-- The manifest after some files were resumed. -/
structure After (m mr : Manifest) (delta : Bool) (names : List Str) (m' : Manifest) : Prop where
  paths : m'.paths = m.paths
  files : ∀ k, m'.files k = if k ∈ names then merged m mr delta k else m.files k

theorem After.size {m mr m' : Manifest} {delta : Bool} {names : List Str} (h : After m mr delta names m') (k : Str) :
    (m'.files k).map (fun f => (f.size, f.timestamp)) = (m.files k).map (fun f => (f.size, f.timestamp)) := by
  rw [h.files k]
  split
  · unfold merged
    cases m.files k with
    | none => rfl
    | some f =>
      cases mr.files k with
      | none => rfl
      | some g => rfl
  · rfl

theorem resumeFile_some {m mr m' : Manifest} {compress : Compress} {delta : Bool} {names : List Str} (h : After m mr delta names m')
    {name : Str} {m2 : Manifest} (hr : resumeFile m' mr compress delta name = some m2) :
    Reusable m mr compress delta name ∧ After m mr delta (names ++ [(lookup name).1]) m2 := by
  unfold resumeFile at hr
  dsimp only at hr
  split at hr
  · cases hr
  · rename_i hc
    split at hr
    · cases hr
    · rename_i f' hf'
      split at hr
      · cases hr
      · rename_i g hg
        split at hr
        · cases hr
        · rename_i h1
          split at hr
          · cases hr
          · rename_i h2
            split at hr
            · cases hr
            · rename_i h3
              split at hr
              · cases hr
              · rename_i h4
                have hsz := h.size (lookup name).1
                rw [hf'] at hsz
                cases hf : m.files (lookup name).1 with
                | none => rw [hf] at hsz; cases hsz
                | some f =>
                  rw [hf] at hsz
                  have hsz' := Option.some.inj hsz
                  obtain ⟨e1, e2⟩ := Prod.mk.inj hsz'
                  refine ⟨⟨?_, f, g, hf, hg, h1, ?_, ?_, ?_⟩, ?_⟩
                  · by_cases hb : (lookup name).2 = true
                    · exact Or.inr hb
                    · left
                      refine Classical.byContradiction fun hne => hc ⟨hne, by simpa using hb⟩
                  · rw [← e1]; exact Classical.not_not.1 h2
                  · rw [← e1]; exact h4
                  · cases hd : delta with
                    | true => exact Or.inl rfl
                    | false =>
                      right
                      rw [← e2]
                      exact Classical.byContradiction fun hne => h3 ⟨hd, hne⟩
                  · cases hr
                    refine ⟨h.paths, ?_⟩
                    intro k
                    dsimp only
                    by_cases hk : k = (lookup name).1
                    · subst hk
                      rw [if_pos rfl, if_pos (by simp)]
                      unfold merged
                      rw [hf, hg]
                      have hff := h.files (lookup name).1
                      rw [hf'] at hff
                      split at hff
                      · unfold merged at hff
                        rw [hf, hg] at hff
                        cases hff
                        rfl
                      · rw [hf] at hff
                        cases hff
                        rfl
                    · rw [if_neg hk, h.files k]
                      have : k ∈ names ++ [(lookup name).1] ↔ k ∈ names := by simp [hk]
                      simp only [this]

theorem resumeFile_none {m mr m' : Manifest} {compress : Compress} {delta : Bool} {names : List Str} (h : After m mr delta names m')
    {name : Str} (hr : resumeFile m' mr compress delta name = none) : ¬Reusable m mr compress delta name := by
  rintro ⟨h1, f, g, h2, h3, h4, h5, h6, h7⟩
  have hsz := h.size (lookup name).1
  rw [h2] at hsz
  unfold resumeFile at hr
  dsimp only at hr
  cases hf' : m'.files (lookup name).1 with
  | none => rw [hf'] at hsz; cases hsz
  | some f' =>
    rw [hf'] at hsz
    obtain ⟨e1, e2⟩ := Prod.mk.inj (Option.some.inj hsz)
    rw [hf', h3] at hr
    dsimp only at hr
    rw [if_neg, if_neg h4, if_neg (by rw [e1, h5]; simp), if_neg, if_neg (by rw [e1]; exact h6)] at hr
    · cases hr
    · rintro ⟨h8, h9⟩
      rcases h7 with h7 | h7
      · rw [h7] at h8; cases h8
      · exact h9 (by rw [e2, h7])
    · rintro ⟨h8, h9⟩
      rcases h1 with h1 | h1
      · exact h8 h1
      · rw [h1] at h9; cases h9

open Classical in
/-- The manifest names of the files that are reused. -/
noncomputable def reused (m mr : Manifest) (compress : Compress) (delta : Bool) (es : List Entry) : List Str :=
  (es.filter fun e => decide ((e.above ++ [e.name]).head? ≠ some manifestCopy ∧ e.ty = .file ∧ Kept m mr compress delta e)).map
    fun e => (lookup e.name).1

open Classical in
/-- The entries that are kept. -/
noncomputable def keptOf (m mr : Manifest) (compress : Compress) (delta : Bool) (es : List Entry) : List Entry :=
  es.filter fun e => decide (Kept m mr compress delta e)

theorem keptOf_append (m mr : Manifest) (compress : Compress) (delta : Bool) (a b : List Entry) :
    keptOf m mr compress delta (a ++ b) = keptOf m mr compress delta a ++ keptOf m mr compress delta b := by
  unfold keptOf; exact List.filter_append ..

theorem reused_append (m mr : Manifest) (compress : Compress) (delta : Bool) (a b : List Entry) :
    reused m mr compress delta (a ++ b) = reused m mr compress delta a ++ reused m mr compress delta b := by
  unfold reused; rw [List.filter_append, List.map_append]

theorem keptOf_nil {m mr : Manifest} {compress : Compress} {delta : Bool} {es : List Entry}
    (h : ∀ e ∈ es, ¬Kept m mr compress delta e) : keptOf m mr compress delta es = [] := by
  unfold keptOf
  rw [List.filter_eq_nil_iff]
  intro e he
  simpa using h e he

theorem reused_nil {m mr : Manifest} {compress : Compress} {delta : Bool} {es : List Entry}
    (h : ∀ e ∈ es, e.ty = .file → (e.above ++ [e.name]).head? ≠ some manifestCopy → ¬Kept m mr compress delta e) : reused m mr compress delta es = [] := by
  unfold reused
  rw [List.map_eq_nil_iff, List.filter_eq_nil_iff]
  intro e he
  simp only [decide_eq_true_eq]
  rintro ⟨h1, h2, h3⟩
  exact h e he h2 h1 h3

theorem keptOf_all {m mr : Manifest} {compress : Compress} {delta : Bool} {es : List Entry}
    (h : ∀ e ∈ es, Kept m mr compress delta e) : keptOf m mr compress delta es = es := by
  unfold keptOf
  rw [List.filter_eq_self]
  intro e he
  simpa using h e he

/-- The places the scan can be in: at the top, or in a directory of the manifest below the top. -/
def Place (m : Manifest) (parent : Option Str) (above : List Str) : Prop :=
  (parent = none ∧ above = []) ∨
  (parent ≠ none ∧ above ≠ [] ∧ above.head? ≠ some manifestCopy ∧ ∀ a ∈ above, a ∈ m.paths)

theorem place_head {m : Manifest} {parent : Option Str} {above : List Str} (h : Place m parent above) (name : Str) :
    (above ++ [entryName parent name]).head? = some manifestCopy ↔ parent = none ∧ name = manifestCopy := by
  rcases h with ⟨h1, h2⟩ | ⟨h1, h2, h3, -⟩
  · subst h1 h2
    simp [entryName]
  · cases above with
    | nil => exact absurd rfl h2
    | cons a above =>
      constructor
      · intro h; exact absurd h h3
      · intro h; exact absurd h.1 h1

theorem place_above {m : Manifest} {parent : Option Str} {above : List Str} (h : Place m parent above) : ∀ a ∈ above, a ∈ m.paths := by
  rcases h with ⟨h1, h2⟩ | ⟨-, -, -, h4⟩
  · subst h2; intro a ha; cases ha
  · exact h4

/-- An entry of the current directory is kept. -/
theorem kept_here {m mr : Manifest} {compress : Compress} {delta : Bool} {parent : Option Str} {above : List Str} (h : Place m parent above)
    (name : Str) (ty : Ty) (hn : ¬(parent = none ∧ name = manifestCopy)) :
    Kept m mr compress delta ⟨above, entryName parent name, ty⟩ ↔
      (ty = .path ∧ entryName parent name ∈ m.paths) ∨ (ty = .file ∧ Reusable m mr compress delta (entryName parent name)) := by
  unfold Kept
  dsimp only
  rw [place_head h]
  constructor
  · rintro (h1 | ⟨-, h1⟩)
    · exact absurd h1 hn
    · exact h1
  · intro h1
    exact Or.inr ⟨place_above h, h1⟩

theorem keptOf_cons_pos {m mr : Manifest} {compress : Compress} {delta : Bool} {e : Entry} {es : List Entry}
    (h : Kept m mr compress delta e) : keptOf m mr compress delta (e :: es) = e :: keptOf m mr compress delta es := by
  unfold keptOf; rw [List.filter_cons_of_pos (by simpa using h)]

theorem keptOf_cons_neg {m mr : Manifest} {compress : Compress} {delta : Bool} {e : Entry} {es : List Entry}
    (h : ¬Kept m mr compress delta e) : keptOf m mr compress delta (e :: es) = keptOf m mr compress delta es := by
  unfold keptOf; rw [List.filter_cons_of_neg (by simpa using h)]

theorem reused_cons_neg {m mr : Manifest} {compress : Compress} {delta : Bool} {e : Entry} {es : List Entry}
    (h : ¬((e.above ++ [e.name]).head? ≠ some manifestCopy ∧ e.ty = .file ∧ Kept m mr compress delta e)) :
    reused m mr compress delta (e :: es) = reused m mr compress delta es := by
  unfold reused; rw [List.filter_cons_of_neg (by simpa using h)]

theorem reused_cons_pos {m mr : Manifest} {compress : Compress} {delta : Bool} {e : Entry} {es : List Entry}
    (h : (e.above ++ [e.name]).head? ≠ some manifestCopy ∧ e.ty = .file ∧ Kept m mr compress delta e) :
    reused m mr compress delta (e :: es) = (lookup e.name).1 :: reused m mr compress delta es := by
  unfold reused; rw [List.filter_cons_of_pos (by simpa using h)]; rfl

theorem clean_spec (m mr : Manifest) (compress : Compress) (delta : Bool) (t : Tree) : ∀ (parent : Option Str) (above : List Str)
    (names : List Str) (m' : Manifest), Place m parent above → After m mr delta names m' →
    entries parent above (clean mr compress delta parent m' t).1 = keptOf m mr compress delta (entries parent above t) ∧
    After m mr delta (names ++ reused m mr compress delta (entries parent above t)) (clean mr compress delta parent m' t).2 := by
  induction t with
  | nil =>
    intro parent above names m' _ ha
    simp [clean, entries, keptOf, reused]
    exact ha
  | file name rest ih =>
    intro parent above names m' hp ha
    simp only [clean, entries]
    by_cases hc : parent = none ∧ name = manifestCopy
    · rw [if_pos hc]
      have hk : Kept m mr compress delta ⟨above, entryName parent name, .file⟩ := Or.inl ((place_head hp name).2 hc)
      obtain ⟨h1, h2⟩ := ih parent above names m' hp ha
      rw [keptOf_cons_pos hk, reused_cons_neg (fun h => h.1 ((place_head hp name).2 hc))]
      exact ⟨by simp only [entries]; rw [h1], h2⟩
    · rw [if_neg hc]
      cases hr : resumeFile m' mr compress delta (entryName parent name) with
      | some m2 =>
        dsimp only
        obtain ⟨h1, h2⟩ := resumeFile_some ha hr
        have hk := (kept_here (mr := mr) (compress := compress) (delta := delta) hp name .file hc).2 (Or.inr ⟨rfl, h1⟩)
        obtain ⟨h3, h4⟩ := ih parent above _ m2 hp h2
        rw [keptOf_cons_pos hk, reused_cons_pos ⟨fun h => hc ((place_head hp name).1 h), rfl, hk⟩]
        refine ⟨by simp only [entries]; rw [h3], ?_⟩
        rw [List.append_assoc] at h4
        exact h4
      | none =>
        dsimp only
        have h1 := resumeFile_none ha hr
        have hk : ¬Kept m mr compress delta ⟨above, entryName parent name, .file⟩ := by
          rw [kept_here hp name .file hc]
          rintro (h | h)
          · cases h.1
          · exact h1 h.2
        rw [keptOf_cons_neg hk, reused_cons_neg (fun h => hk h.2.2)]
        exact ih parent above names m' hp ha
  | link name rest ih =>
    intro parent above names m' hp ha
    simp only [clean, entries]
    obtain ⟨h1, h2⟩ := ih parent above names m' hp ha
    by_cases hc : parent = none ∧ name = manifestCopy
    · rw [if_pos hc]
      have hk : Kept m mr compress delta ⟨above, entryName parent name, .link⟩ := Or.inl ((place_head hp name).2 hc)
      rw [keptOf_cons_pos hk, reused_cons_neg (fun h => by cases h.2.1)]
      exact ⟨by simp only [entries]; rw [h1], h2⟩
    · rw [if_neg hc]
      have hk : ¬Kept m mr compress delta ⟨above, entryName parent name, .link⟩ := by
        rw [kept_here hp name .link hc]
        rintro (h | h) <;> cases h.1
      rw [keptOf_cons_neg hk, reused_cons_neg (fun h => hk h.2.2)]
      exact ⟨h1, h2⟩
  | special name rest ih =>
    intro parent above names m' hp ha
    simp only [clean, entries]
    obtain ⟨h1, h2⟩ := ih parent above names m' hp ha
    by_cases hc : parent = none ∧ name = manifestCopy
    · rw [if_pos hc]
      have hk : Kept m mr compress delta ⟨above, entryName parent name, .special⟩ := Or.inl ((place_head hp name).2 hc)
      rw [keptOf_cons_pos hk, reused_cons_neg (fun h => by cases h.2.1)]
      exact ⟨by simp only [entries]; rw [h1], h2⟩
    · rw [if_neg hc]
      have hk : ¬Kept m mr compress delta ⟨above, entryName parent name, .special⟩ := by
        rw [kept_here hp name .special hc]
        rintro (h | h) <;> cases h.1
      rw [keptOf_cons_neg hk, reused_cons_neg (fun h => hk h.2.2)]
      exact ⟨h1, h2⟩
  | path name children rest ih1 ih2 =>
    intro parent above names m' hp ha
    simp only [clean, entries]
    by_cases hc : parent = none ∧ name = manifestCopy
    · rw [if_pos hc]
      have hk : Kept m mr compress delta ⟨above, entryName parent name, .path⟩ := Or.inl ((place_head hp name).2 hc)
      obtain ⟨h1, h2⟩ := ih2 parent above names m' hp ha
      have hab : above = [] := by
        rcases hp with h | h
        · exact h.2
        · exact absurd hc.1 h.1
      have hall : ∀ e ∈ entries (some (entryName parent name)) (above ++ [entryName parent name]) children,
          (e.above ++ [e.name]).head? = some manifestCopy := by
        intro e he
        obtain ⟨l, hl⟩ := entries_above children _ _ e he
        rw [hl, hab, hc.1, hc.2]
        rfl
      rw [keptOf_cons_pos hk, keptOf_append, keptOf_all (fun e he => Or.inl (hall e he)),
        reused_cons_neg (fun h => by cases h.2.1), reused_append, reused_nil (fun e he _ hne => absurd (hall e he) hne), List.nil_append]
      exact ⟨by simp only [entries]; rw [h1], h2⟩
    · rw [if_neg hc, ha.paths]
      have hh := kept_here (mr := mr) (compress := compress) (delta := delta) hp name .path hc
      by_cases hm : m.paths.contains (entryName parent name) = true
      · rw [if_pos hm]
        have hm' : entryName parent name ∈ m.paths := by simpa using hm
        have hk := hh.2 (Or.inl ⟨rfl, hm'⟩)
        have hp' : Place m (some (entryName parent name)) (above ++ [entryName parent name]) := by
          refine Or.inr ⟨by simp, by simp, fun h => hc ((place_head hp name).1 h), ?_⟩
          intro a h
          rcases List.mem_append.1 h with h | h
          · exact place_above hp a h
          · rw [List.mem_singleton.1 h]; exact hm'
        obtain ⟨h1, h2⟩ := ih1 _ _ names m' hp' ha
        obtain ⟨h3, h4⟩ := ih2 parent above _ _ hp h2
        rw [keptOf_cons_pos hk, keptOf_append, reused_cons_neg (fun h => by cases h.2.1), reused_append]
        refine ⟨by simp only [entries]; rw [h1, h3], ?_⟩
        rw [← List.append_assoc]
        exact h4
      · rw [if_neg hm]
        have hm' : entryName parent name ∉ m.paths := by simpa using hm
        have hk : ¬Kept m mr compress delta ⟨above, entryName parent name, .path⟩ := by
          rw [hh]
          rintro (h | h)
          · exact hm' h.2
          · cases h.1
        have hnone : ∀ e ∈ entries (some (entryName parent name)) (above ++ [entryName parent name]) children,
            ¬Kept m mr compress delta e := by
          intro e he
          obtain ⟨l, hl⟩ := entries_above children _ _ e he
          rintro (h | ⟨h, -⟩)
          · rw [hl, List.append_assoc, List.append_assoc] at h
            cases hab : above with
            | nil =>
              rw [hab] at h
              exact hc ((place_head hp name).1 (by rw [hab]; exact h))
            | cons a b =>
              rw [hab] at h
              exact hc ((place_head hp name).1 (by rw [hab]; exact h))
          · exact hm' (h _ (by rw [hl]; simp))
        rw [keptOf_cons_neg hk, keptOf_append, keptOf_nil hnone, List.nil_append, reused_cons_neg (fun h => hk h.2.2), reused_append,
          reused_nil (fun e he _ _ => hnone e he), List.nil_append]
        exact ih2 parent above names m' hp ha

open Classical in
/-- C34: for any directory left by an earlier backup, exactly the copy of the manifest, the directories of the new manifest and the files
that can be reused are left in it. -/
theorem c34_kept (m mr : Manifest) (compress : Compress) (delta : Bool) (t : Tree) :
    entries none [] (clean mr compress delta none m t).1 =
      (entries none [] t).filter fun e => decide (Kept m mr compress delta e) :=
  (clean_spec m mr compress delta t none [] [] m (Or.inl ⟨rfl, rfl⟩) ⟨rfl, fun k => by simp⟩).1

/-- C34: a file of the new manifest is marked as resumed, with the data of the earlier manifest, exactly when a file for it was kept; all
other files are left as they were and so will be copied. -/
theorem c34_manifest (m mr : Manifest) (compress : Compress) (delta : Bool) (t : Tree) (k : Str) :
    let m' := (clean mr compress delta none m t).2
    m'.paths = m.paths ∧
    ((∃ e ∈ entries none [] t, (e.above ++ [e.name]).head? ≠ some manifestCopy ∧ e.ty = .file ∧ Kept m mr compress delta e ∧
        (lookup e.name).1 = k) →
      ∃ f g, m.files k = some f ∧ mr.files k = some g ∧ m'.files k =
        some { f with checksum := g.checksum, data := g.data, resume := true, delta := delta }) ∧
    ((¬∃ e ∈ entries none [] t, (e.above ++ [e.name]).head? ≠ some manifestCopy ∧ e.ty = .file ∧ Kept m mr compress delta e ∧
        (lookup e.name).1 = k) →
      m'.files k = m.files k) := by
  intro m'
  have h : After m mr delta ([] ++ reused m mr compress delta (entries none [] t)) m' :=
    (clean_spec m mr compress delta t none [] [] m (Or.inl ⟨rfl, rfl⟩) ⟨rfl, fun k => by simp⟩).2
  rw [List.nil_append] at h
  have hmem : k ∈ reused m mr compress delta (entries none [] t) ↔
      ∃ e ∈ entries none [] t, (e.above ++ [e.name]).head? ≠ some manifestCopy ∧ e.ty = .file ∧ Kept m mr compress delta e ∧
        (lookup e.name).1 = k := by
    unfold reused
    simp only [List.mem_map, List.mem_filter, decide_eq_true_eq]
    constructor
    · rintro ⟨e, ⟨h1, h2, h3, h4⟩, h5⟩
      exact ⟨e, h1, h2, h3, h4, h5⟩
    · rintro ⟨e, h1, h2, h3, h4, h5⟩
      exact ⟨e, ⟨h1, h2, h3, h4⟩, h5⟩
  refine ⟨h.paths, ?_, ?_⟩
  · intro he
    have hf := h.files k
    rw [if_pos (hmem.2 he)] at hf
    obtain ⟨e, -, hne, hty, hk, rfl⟩ := he
    rcases hk with hk | ⟨-, hk | ⟨-, hk⟩⟩
    · exact absurd hk hne
    · rw [hk.1] at hty; cases hty
    · obtain ⟨-, f, g, h2, h3, -⟩ := hk
      refine ⟨f, g, h2, h3, ?_⟩
      rw [hf]
      unfold merged
      rw [h2, h3]
      rfl
  · intro he
    have hf := h.files k
    rw [if_neg (fun hk => he (hmem.1 hk))] at hf
    exact hf

/-! ## Names -/

theorem endsWith_append {s e : Str} (h : endsWith s e = true) : s = cut s e ++ e := by
  unfold endsWith at h
  obtain ⟨h1, h2⟩ := Bool.and_eq_true_iff.1 h
  unfold cut
  have := List.take_append_drop (s.length - e.length) s
  rw [eq_of_beq h2] at this
  exact this.symm

theorem fromName_ends (name : Str) (h : fromName name ≠ .none) : endsWith name (ext (fromName name)) = true := by
  unfold fromName at h ⊢
  cases hf : [Compress.bz2, .gz, .lz4, .zst, .xz].find? (fun t => endsWith name (ext t)) with
  | none => rw [hf] at h; exact absurd rfl h
  | some t =>
    have := List.find?_some hf
    exact this

/-- C34: a file of the repository is named after the file it is for, with the extension for block incremental and the extension for
compression. -/
theorem c34_lookup (name : Str) :
    name = (lookup name).1 ++ (if (lookup name).2 then blockExt else []) ++ ext (fromName name) := by
  have h1 : name = (if fromName name ≠ .none then cut name (ext (fromName name)) else name) ++ ext (fromName name) := by
    by_cases h : fromName name = .none
    · rw [if_neg (by simp [h]), h]; simp [ext]
    · rw [if_pos h]; exact endsWith_append (fromName_ends name h)
  have h2 : ∀ n : Str, n = (if endsWith n blockExt then (cut n blockExt, true) else (n, false)).1 ++
      (if (if endsWith n blockExt then (cut n blockExt, true) else (n, false)).2 then blockExt else []) := by
    intro n
    by_cases h : endsWith n blockExt = true
    · rw [if_pos h]; exact endsWith_append h
    · rw [if_neg h]; simp
  unfold lookup
  dsimp only
  rw [← h2]
  exact h1

theorem endsWith_self (n e : Str) : endsWith (n ++ e) e = true := by
  unfold endsWith
  simp

/-- An extension ends with another only when it is the same. -/
theorem endsWith_ext (n : Str) (t u : Compress) (ht : t ≠ .none) (hu : u ≠ .none) : endsWith (n ++ ext t) (ext u) = true ↔ t = u := by
  constructor
  · intro h
    have h1 := endsWith_append h
    have h2 := congrArg List.reverse h1
    rw [List.reverse_append, List.reverse_append] at h2
    cases t <;> cases u <;> first | rfl | exact absurd rfl ht | exact absurd rfl hu | (simp [ext] at h2)
  · rintro rfl; exact endsWith_self n _

/-- C34: the compression is found from the extension. -/
theorem c34_compress (n : Str) (t : Compress) (ht : t ≠ .none) : fromName (n ++ ext t) = t := by
  have h : ∀ u, u ≠ .none → (endsWith (n ++ ext t) (ext u) = true ↔ t = u) := fun u hu => endsWith_ext n t u ht hu
  have h1 : ∀ u, u ≠ .none → endsWith (n ++ ext t) (ext u) = decide (t = u) := by
    intro u hu
    by_cases hx : t = u
    · rw [(h u hu).2 hx]; simp [hx]
    · rw [Bool.eq_false_iff.2 (fun hy => hx ((h u hu).1 hy))]; simp [hx]
  unfold fromName
  simp only [List.find?_cons, List.find?_nil]
  rw [h1 .bz2 (by decide), h1 .gz (by decide), h1 .lz4 (by decide), h1 .zst (by decide), h1 .xz (by decide)]
  cases t <;> first | rfl | exact absurd rfl ht

theorem cut_self (n e : Str) : cut (n ++ e) e = n := by
  unfold cut
  simp

theorem fromName_block (n : Str) : fromName (n ++ blockExt) = .none := by
  have h : ∀ u, u ≠ .none → endsWith (n ++ blockExt) (ext u) = false := by
    intro u hu
    rw [Bool.eq_false_iff]
    intro h
    have h2 := congrArg List.reverse (endsWith_append h)
    rw [List.reverse_append, List.reverse_append] at h2
    cases u <;> first | exact absurd rfl hu | (simp [ext, blockExt] at h2)
  unfold fromName
  simp only [List.find?_cons, List.find?_nil]
  rw [h .bz2 (by decide), h .gz (by decide), h .lz4 (by decide), h .zst (by decide), h .xz (by decide)]

/-- C34: a block incremental file of the repository is for the file it is named after. -/
theorem c34_lookup_block (n : Str) (t : Compress) : lookup (n ++ blockExt ++ ext t) = (n, true) := by
  by_cases ht : t = .none
  · subst ht
    unfold lookup
    simp only [ext, List.append_nil]
    rw [fromName_block]
    simp only [ne_eq, not_true_eq_false, if_false]
    rw [endsWith_self, cut_self]
    rfl
  · unfold lookup
    dsimp only
    rw [c34_compress _ t ht, if_pos ht, cut_self, endsWith_self, cut_self]
    rfl

/-- C34: any other compressed file of the repository is for the file it is named after. -/
theorem c34_lookup_file (n : Str) (t : Compress) (ht : t ≠ .none) (hn : ∀ p, n ≠ p ++ blockExt) : lookup (n ++ ext t) = (n, false) := by
  unfold lookup
  dsimp only
  rw [c34_compress _ t ht, if_pos ht, cut_self, if_neg]
  intro h
  exact hn _ (endsWith_append h)

/-- C34: the file that is kept for a file of the manifest is its file of the repository with the compression of this backup, or a block
incremental file. -/
theorem c34_name (m mr : Manifest) (compress : Compress) (delta : Bool) (name : Str) (h : Reusable m mr compress delta name) :
    name = (lookup name).1 ++ ext compress ∨ ∃ t, name = (lookup name).1 ++ blockExt ++ ext t := by
  have hn := c34_lookup name
  cases hb : (lookup name).2 with
  | true =>
    rw [hb] at hn
    exact Or.inr ⟨_, hn⟩
  | false =>
    rw [hb] at hn
    rcases h.1 with h1 | h1
    · left
      rw [h1] at hn
      simpa using hn
    · rw [hb] at h1; cases h1

/-! ## Finding a backup to resume -/

/-- C34: only the last backup is resumed, only when it was not completed and its copy of the manifest can be read, and only with the same
version, type, prior backup and compression; a full backup with the option to resume is required. -/
theorem c34_find (o : Opt) (version : Str) (prior : Option Str) (dirs left : List Dir) (d : Dir)
    (h : find o version prior dirs = (some d, left)) :
    dirs.head? = some d ∧ left = dirs ∧ d.manifest = false ∧ d.copy = true ∧ o.resume = true ∧ o.kind = .full ∧
      d.loaded = some ⟨version, .full, prior, o.compress⟩ := by
  cases dirs with
  | nil => cases h
  | cons x rest =>
    simp only [find] at h
    split at h
    · cases h
    · rename_i hm
      split at h
      · rename_i hu
        cases h
        unfold usable at hu
        cases hl : d.loaded with
        | none => rw [hl] at hu; simp at hu
        | some r =>
          rw [hl] at hu
          simp only [Bool.and_eq_true, decide_eq_true_eq] at hu
          obtain ⟨⟨⟨h1, h2⟩, h3, -⟩, ⟨⟨h4, h5⟩, h6⟩, h7⟩ := hu
          refine ⟨rfl, rfl, by simpa using hm, h2, h3, h1, ?_⟩
          rw [h1] at h5
          rw [← h4, ← h5, ← h6, ← h7]
      · cases h

/-- C34: a backup that meets these conditions is resumed. -/
theorem c34_found (o : Opt) (version : Str) (prior : Option Str) (d : Dir) (rest : List Dir) (h1 : d.manifest = false) (h2 : d.copy = true)
    (h3 : o.resume = true) (h4 : o.kind = .full) (h5 : d.loaded = some ⟨version, .full, prior, o.compress⟩) :
    find o version prior (d :: rest) = (some d, d :: rest) := by
  simp [find, usable, h1, h2, h3, h4, h5]

/-- C34: a completed backup is never removed when looking for a backup to resume, and no backup but the last is removed. -/
theorem c34_remove (o : Opt) (version : Str) (prior : Option Str) (dirs : List Dir) :
    (find o version prior dirs).2 = dirs ∨
      ((find o version prior dirs).1 = none ∧ ∃ d, dirs = d :: (find o version prior dirs).2 ∧ d.manifest = false) := by
  cases dirs with
  | nil => exact Or.inl rfl
  | cons x rest =>
    simp only [find]
    split
    · exact Or.inl rfl
    · rename_i hm
      split
      · exact Or.inl rfl
      · exact Or.inr ⟨rfl, x, rfl, by simpa using hm⟩

/-- C34: after looking for a backup, the last backup is completed or will be resumed. -/
theorem c34_last (o : Opt) (version : Str) (prior : Option Str) (d : Dir) (rest : List Dir)
    (h : d ∈ (find o version prior (d :: rest)).2) (hn : d ∉ rest) :
    d.manifest = true ∨ (find o version prior (d :: rest)).1 = some d := by
  simp only [find] at h ⊢
  by_cases hm : d.manifest = true
  · exact Or.inl hm
  · right
    rw [if_neg hm] at h ⊢
    by_cases hu : usable o version prior d = true
    · rw [if_pos hu]
    · rw [if_neg hu] at h
      exact absurd h hn

/-! ## Examples -/

/-- A file of the new manifest. -/
def aFile : File := ⟨10, 5, none, 0, false, false⟩

/-- A manifest with the directory `d` and the files `d/a` and `d/b`. -/
def aManifest (f : File) : Manifest := { paths := [[100]], files := fun k => if k = [100, 47, 97] ∨ k = [100, 47, 98] then some f else none }

/-- `d/a.gz` and `d/b.pgbi` are kept; `d/a` (not compressed), `d/c.gz` and the directory `e` are removed. -/
example : (clean (aManifest { aFile with checksum := some [1], data := 7 }) .gz false none (aManifest aFile)
      (.file manifestCopy (.path [100] (.file [97] (.file [97, 46, 103, 122] (.file [98, 46, 112, 103, 98, 105]
        (.file [99, 46, 103, 122] (.link [97] .nil))))) (.path [101] (.file [97, 46, 103, 122] .nil) .nil)))).1 =
    .file manifestCopy (.path [100] (.file [97, 46, 103, 122] (.file [98, 46, 112, 103, 98, 105] .nil)) .nil) := by decide

example : ((clean (aManifest { aFile with checksum := some [1], data := 7 }) .gz false none (aManifest aFile)
      (.path [100] (.file [97, 46, 103, 122] .nil) .nil)).2.files [100, 47, 97]) = some ⟨10, 5, some [1], 7, true, false⟩ := by decide

/-- A file of the data directory may have the extension for block incremental in its name: `d/a.pgbi.gz` is the file of the repository for
`d/a.pgbi`. When `d/a.pgbi` was removed in the meantime its file of the repository is kept because it is taken for `d/a`. -/
example : (clean (aManifest { aFile with checksum := some [1], data := 7 }) .gz false none (aManifest aFile)
      (.path [100] (.file [97, 46, 112, 103, 98, 105, 46, 103, 122] .nil) .nil)).1 =
    .path [100] (.file [97, 46, 112, 103, 98, 105, 46, 103, 122] .nil) .nil := by decide

example : lookup [97, 46, 112, 103, 98, 105, 46, 108, 122, 52] = ([97], true) := by decide

example : find ⟨true, .full, .gz⟩ [1] none [⟨[2], false, true, some ⟨[1], .full, none, .gz⟩⟩, ⟨[1], true, true, none⟩] =
    (some ⟨[2], false, true, some ⟨[1], .full, none, .gz⟩⟩,
      [⟨[2], false, true, some ⟨[1], .full, none, .gz⟩⟩, ⟨[1], true, true, none⟩]) := by decide

end Verif.Backup.Resume
