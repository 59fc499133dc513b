import Verif.Manifest.LinkModel
import Verif.Manifest.SaveFold

/-! # Links do not overlap (C38) -/

namespace Verif.Manifest

open Verif

/-! ## Specification -/

/-- The path with these names. -/
def render (l : List Str) : Str := l.flatMap (47 :: ·)

/-- `p` is the path with the names `l`. -/
def Names (p : Str) (l : List Str) : Prop := p = render l ∧ ∀ c ∈ l, c ≠ [] ∧ 47 ∉ c

/-- A link whose destination is (or is in) the directory `p`. `f` is the file if it is a link to a file. -/
def LinkTo (ts : List Target) (t : Target) (p : Str) (f : Option Str) : Prop :=
  t.link = true ∧ targetPath ts t = .ok p ∧ t.file = f

/-! ## Prefixes -/

theorem begins_iff (a b : Str) : a.isPrefixOf b = true ↔ a <+: b := List.isPrefixOf_iff_prefix

theorem prefix_between {p q r : Str} (h : p <+: r) (h1 : ¬ q < p) (h2 : ¬ r < q) : p <+: q := by
  induction p generalizing q r with
  | nil => exact List.nil_prefix
  | cons c p ih =>
    cases r with
    | nil => exact absurd h (by simp)
    | cons d r =>
      obtain ⟨rfl, h'⟩ := List.cons_prefix_cons.1 h
      cases q with
      | nil => exact absurd List.Lex.nil h1
      | cons e q =>
        rw [List.cons_lt_cons_iff, not_or] at h1 h2
        have he : e = c := by
          rcases h1 with ⟨h1, _⟩
          rcases h2 with ⟨h2, _⟩
          exact UInt8.le_antisymm (UInt8.not_lt.1 h2) (UInt8.not_lt.1 h1)
        subst he
        exact List.cons_prefix_cons.2 ⟨rfl, ih h' (fun h => h1.2 ⟨rfl, h⟩) fun h => h2.2 ⟨rfl, h⟩⟩

theorem prefix_le {p q : Str} (h : p <+: q) : ¬ q < p := by
  induction p generalizing q with
  | nil => simp
  | cons c p ih =>
    cases q with
    | nil => exact absurd h (by simp)
    | cons d q =>
      obtain ⟨rfl, h1⟩ := List.cons_prefix_cons.1 h
      rw [List.cons_lt_cons_iff]
      rintro (h' | ⟨_, h'⟩)
      · exact absurd h' (by exact UInt8.lt_irrefl _)
      · exact ih h1 h'

/-- One name after the other. -/
theorem name_prefix {a b x y : Str} (ha : 47 ∉ a) (hb : 47 ∉ b) (h : a ++ 47 :: x <+: b ++ 47 :: y) : a = b ∧ x <+: y := by
  induction a generalizing b with
  | nil =>
    cases b with
    | nil => exact ⟨rfl, (List.cons_prefix_cons.1 h).2⟩
    | cons c b => exact absurd (List.cons_prefix_cons.1 h).1 (by rintro rfl; simp at hb)
  | cons c a ih =>
    cases b with
    | nil => exact absurd (List.cons_prefix_cons.1 h).1 (by rintro rfl; simp at ha)
    | cons d b =>
      obtain ⟨rfl, h1⟩ := List.cons_prefix_cons.1 h
      simp only [List.mem_cons, not_or] at ha hb
      obtain ⟨rfl, h2⟩ := ih ha.2 hb.2 h1
      exact ⟨rfl, h2⟩

theorem render_cons (c : Str) (l : List Str) : render (c :: l) = 47 :: (c ++ render l) := by simp [render]

/-- A slash or nothing comes first. -/
theorem render_slash : ∀ l : List Str, ∃ x, render l ++ [47] = 47 :: x
  | [] => ⟨[], rfl⟩
  | c :: l => ⟨c ++ render l ++ [47], by rw [render_cons]; simp⟩

theorem render_prefix : ∀ {a b : List Str}, (∀ c ∈ a, 47 ∉ c) → (∀ c ∈ b, c ≠ [] ∧ 47 ∉ c) →
    (render a ++ [47] <+: render b ++ [47] ↔ a <+: b)
  | [], b, _, _ => by
    obtain ⟨x, hx⟩ := render_slash b
    rw [hx]
    simp [render]
  | c :: a, [], _, _ => by
    obtain ⟨x, hx⟩ := render_slash a
    refine ⟨fun h => ?_, fun h => absurd h (by simp)⟩
    have := h.length_le
    rw [render_cons] at this
    simp [render] at this
  | c :: a, d :: b, ha, hb => by
    have hc := ha c (by simp)
    have hd := hb d (by simp)
    have ih := render_prefix (a := a) (b := b) (fun x hx => ha x (List.mem_cons_of_mem _ hx)) fun x hx => hb x (List.mem_cons_of_mem _ hx)
    obtain ⟨x, hx⟩ := render_slash a
    obtain ⟨y, hy⟩ := render_slash b
    rw [render_cons, render_cons, List.cons_append, List.cons_append, List.cons_prefix_cons, List.append_assoc, List.append_assoc, hx, hy,
      List.cons_prefix_cons]
    rw [hx, hy, List.cons_prefix_cons] at ih
    constructor
    · rintro ⟨_, h⟩
      obtain ⟨h1, h2⟩ := name_prefix hc hd.2 h
      exact ⟨h1, ih.1 ⟨rfl, h2⟩⟩
    · rintro ⟨rfl, h⟩
      refine ⟨rfl, ?_⟩
      obtain ⟨z, hz⟩ := (ih.2 h).2
      exact ⟨z, by rw [← hz]; simp⟩

theorem names_prefix {p q : Str} {a b : List Str} (ha : Names p a) (hb : Names q b) : p ++ [47] <+: q ++ [47] ↔ a <+: b := by
  rw [ha.1, hb.1]
  exact render_prefix (fun c hc => (ha.2 c hc).2) hb.2

/-! ## The sorted list -/

theorem insert_split {x : LinkItem} : ∀ {l : List LinkItem}, l.Pairwise (fun a b => a.path < b.path) → (∀ y ∈ l, y.path ≠ x.path) →
    ∃ lo hi, l = lo ++ hi ∧ insertBy (·.path) x l = lo ++ x :: hi ∧ (∀ y ∈ lo, y.path < x.path) ∧ (∀ y ∈ hi, x.path < y.path)
  | [], _, _ => ⟨[], [], rfl, rfl, by simp, by simp⟩
  | y :: l, hp, hn => by
    obtain ⟨h1, h2⟩ := List.pairwise_cons.1 hp
    unfold insertBy
    by_cases h : y.path < x.path
    · obtain ⟨lo, hi, e1, e2, e3, e4⟩ := insert_split h2 fun z hz => hn z (List.mem_cons_of_mem _ hz)
      refine ⟨y :: lo, hi, by rw [e1]; rfl, by rw [if_pos h, e2]; rfl, ?_, e4⟩
      intro z hz
      rcases List.mem_cons.1 hz with rfl | hz
      · exact h
      · exact e3 z hz
    · refine ⟨[], y :: l, rfl, by rw [if_neg h]; rfl, by simp, ?_⟩
      have hxy : x.path < y.path := by
        rcases Str.trichotomy y.path x.path with h' | h' | h'
        · exact absurd h' h
        · exact absurd h' (hn y (by simp))
        · exact h'
      intro z hz
      rcases List.mem_cons.1 hz with rfl | hz
      · exact hxy
      · exact Str.lt_trans hxy (h1 z hz)

theorem findIdx_split {x : LinkItem} {lo hi : List LinkItem} (h : ∀ y ∈ lo, y.path < x.path) :
    (lo ++ x :: hi).findIdx (·.path == x.path) = lo.length := by
  induction lo with
  | nil => simp [List.findIdx_cons]
  | cons y lo ih =>
    have hy : (y.path == x.path) = false := by
      rw [beq_eq_false_iff_ne]
      intro e
      exact Str.lt_irrefl x.path (e ▸ h y (by simp))
    rw [List.cons_append, List.findIdx_cons, hy, ih fun z hz => h z (List.mem_cons_of_mem _ hz)]
    rfl

/-- What a link must satisfy with the ones before it, `P`. -/
def Fits (P : List LinkItem) (x : LinkItem) : Prop :=
  (∀ y, P.find? (·.path == x.path) = some y → x.file.isSome ∧ y.file.isSome ∧ x.file ≠ y.file) ∧
  (x.file = none → ∀ z ∈ P, z.file = none → ¬ z.path <+: x.path ∧ ¬ x.path <+: z.path)

/-- The list after the links `P`. -/
structure LinkInv (P l : List LinkItem) : Prop where
  sorted : l.Pairwise (fun a b => a.path < b.path)
  find : ∀ p, l.find? (·.path == p) = P.find? (·.path == p)
  sub : ∀ y ∈ l, y ∈ P
  dirs : ∀ y ∈ P, y.file = none → y ∈ l
  apart : ∀ y ∈ P, ∀ z ∈ P, y.file = none → z.file = none → y.path <+: z.path → y = z

theorem prior_iff {P l : List LinkItem} (hi : LinkInv P l) {lo hi' : List LinkItem} (he : l = lo ++ hi') {x : LinkItem}
    (h1 : ∀ y ∈ lo, y.path < x.path) (h2 : ∀ y ∈ hi', x.path < y.path) :
    checkPrior (lo ++ x :: hi') lo.length x = true ↔ ∀ z ∈ P, z.file = none → ¬ z.path <+: x.path := by
  unfold checkPrior
  rw [List.take_left' rfl]
  have hpos : ∀ z ∈ P, z.file = none → z.path <+: x.path → z ∈ lo := by
    intro z hz hf hp
    have := hi.dirs z hz hf
    rw [he] at this
    rcases List.mem_append.1 this with h | h
    · exact h
    · exact absurd (h2 z h) (prefix_le hp)
  cases hc : lo.reverse.find? (·.file.isNone) with
  | none =>
    simp only [true_iff]
    intro z hz hf hp
    have := List.find?_eq_none.1 hc z (List.mem_reverse.2 (hpos z hz hf hp))
    simp [hf] at this
  | some y =>
    simp only [Bool.not_eq_true']
    obtain ⟨hyf, as, bs, hab, hno⟩ := List.find?_eq_some_iff_append.1 hc
    have hyl : y ∈ lo := List.mem_reverse.1 (List.mem_of_find?_eq_some hc)
    have hyP : y ∈ P := hi.sub y (by rw [he]; exact List.mem_append_left _ hyl)
    have hyn : y.file = none := by simpa using hyf
    constructor
    · intro hb z hz hf hp
      have hzl := hpos z hz hf hp
      have hnot : ¬ y.path < z.path := by
        have hrev : lo.reverse.Pairwise (fun a b => b.path < a.path) := by
          rw [List.pairwise_reverse]
          have := hi.sorted
          rw [he] at this
          exact (List.pairwise_append.1 this).1
        rw [hab] at hrev
        have hzr : z ∈ as ++ y :: bs := by rw [← hab]; exact List.mem_reverse.2 hzl
        rcases List.mem_append.1 hzr with h | h
        · have := hno z h
          simp [hf] at this
        · rcases List.mem_cons.1 h with rfl | h
          · exact Str.lt_irrefl _
          · exact Str.lt_asymm ((List.pairwise_cons.1 (List.pairwise_append.1 hrev).2.1).1 z h)
      have hzy : z.path <+: y.path := prefix_between hp hnot (Str.lt_asymm (h1 y hyl))
      have : z = y := hi.apart z hz y hyP hf hyn hzy
      subst this
      rw [(begins_iff _ _).2 hp] at hb
      cases hb
    · intro h
      cases hb : y.path.isPrefixOf x.path with
      | false => rfl
      | true => exact absurd ((begins_iff _ _).1 hb) (h y hyP hyn)

theorem next_iff {P l : List LinkItem} (hi : LinkInv P l) {lo hi' : List LinkItem} (he : l = lo ++ hi') {x : LinkItem}
    (h1 : ∀ y ∈ lo, y.path < x.path) (h2 : ∀ y ∈ hi', x.path < y.path) :
    checkNext (lo ++ x :: hi') lo.length x = true ↔ ∀ z ∈ P, z.file = none → ¬ x.path <+: z.path := by
  unfold checkNext
  have hd : (lo ++ x :: hi').drop (lo.length + 1) = hi' := by simp
  rw [hd]
  have hpos : ∀ z ∈ P, z.file = none → x.path <+: z.path → z ∈ hi' := by
    intro z hz hf hp
    have := hi.dirs z hz hf
    rw [he] at this
    rcases List.mem_append.1 this with h | h
    · exact absurd (h1 z h) (prefix_le hp)
    · exact h
  cases hc : hi'.find? (·.file.isNone) with
  | none =>
    simp only [true_iff]
    intro z hz hf hp
    have := List.find?_eq_none.1 hc z (hpos z hz hf hp)
    simp [hf] at this
  | some y =>
    simp only [Bool.not_eq_true']
    obtain ⟨hyf, as, bs, hab, hno⟩ := List.find?_eq_some_iff_append.1 hc
    have hyl : y ∈ hi' := List.mem_of_find?_eq_some hc
    have hyP : y ∈ P := hi.sub y (by rw [he]; exact List.mem_append_right _ hyl)
    have hyn : y.file = none := by simpa using hyf
    constructor
    · intro hb z hz hf hp
      have hzl := hpos z hz hf hp
      have hnot : ¬ z.path < y.path := by
        have hs : hi'.Pairwise (fun a b => a.path < b.path) := by
          have := hi.sorted
          rw [he] at this
          exact (List.pairwise_append.1 this).2.1
        rw [hab] at hs hzl
        rcases List.mem_append.1 hzl with h | h
        · have := hno z h
          simp [hf] at this
        · rcases List.mem_cons.1 h with rfl | h
          · exact Str.lt_irrefl _
          · exact Str.lt_asymm ((List.pairwise_cons.1 (List.pairwise_append.1 hs).2.1).1 z h)
      have hxy : x.path <+: y.path := prefix_between hp (Str.lt_asymm (h2 y hyl)) hnot
      rw [(begins_iff _ _).2 hxy] at hb
      cases hb
    · intro h
      cases hb : x.path.isPrefixOf y.path with
      | false => rfl
      | true => exact absurd ((begins_iff _ _).1 hb) (h y hyP hyn)

theorem find_append (P : List LinkItem) (x : LinkItem) (p : Str) :
    (P ++ [x]).find? (·.path == p) = (P.find? (·.path == p)).or (if x.path == p then some x else none) := by
  rw [List.find?_append, List.find?_singleton]

theorem insert_inv {P l : List LinkItem} (hi : LinkInv P l) {x : LinkItem} (hn : P.find? (·.path == x.path) = none)
    (hf : Fits P x) : LinkInv (P ++ [x]) (insertBy (·.path) x l) := by
  have hne : ∀ y ∈ l, y.path ≠ x.path := by
    intro y hy e
    have := List.find?_eq_none.1 hn y (hi.sub y hy)
    simp [e] at this
  obtain ⟨lo, hi', e1, e2, e3, e4⟩ := insert_split hi.sorted hne
  have hs := hi.sorted
  rw [e1] at hs
  obtain ⟨s1, s2, s3⟩ := List.pairwise_append.1 hs
  rw [e2]
  refine ⟨?_, ?_, ?_, ?_, ?_⟩
  · refine List.pairwise_append.2 ⟨s1, List.pairwise_cons.2 ⟨e4, s2⟩, ?_⟩
    intro a ha b hb
    rcases List.mem_cons.1 hb with rfl | hb
    · exact e3 a ha
    · exact s3 a ha b hb
  · intro p
    rw [find_append, ← hi.find, e1, List.find?_append, List.find?_append, List.find?_cons]
    by_cases hp : x.path = p
    · subst hp
      have n1 : lo.find? (·.path == x.path) = none := List.find?_eq_none.2 fun y hy => by
        have := hne y (by rw [e1]; exact List.mem_append_left _ hy)
        simpa using this
      have n2 : hi'.find? (·.path == x.path) = none := List.find?_eq_none.2 fun y hy => by
        have := hne y (by rw [e1]; exact List.mem_append_right _ hy)
        simpa using this
      rw [n1, n2]
      simp
    · have : (x.path == p) = false := by simpa using hp
      simp [this]
  · intro y hy
    rcases List.mem_append.1 hy with h | h
    · exact List.mem_append_left _ (hi.sub y (by rw [e1]; exact List.mem_append_left _ h))
    · rcases List.mem_cons.1 h with rfl | h
      · simp
      · exact List.mem_append_left _ (hi.sub y (by rw [e1]; exact List.mem_append_right _ h))
  · intro y hy hfy
    rcases List.mem_append.1 hy with h | h
    · have := hi.dirs y h hfy
      rw [e1] at this
      rcases List.mem_append.1 this with h | h
      · exact List.mem_append_left _ h
      · exact List.mem_append_right _ (List.mem_cons_of_mem _ h)
    · simp only [List.mem_singleton] at h
      subst h
      simp
  · intro y hy z hz hfy hfz hp
    rcases List.mem_append.1 hy with h | h <;> rcases List.mem_append.1 hz with h' | h'
    · exact hi.apart y h z h' hfy hfz hp
    · simp only [List.mem_singleton] at h'
      subst h'
      exact absurd hp (hf.2 hfz y h hfy).1
    · simp only [List.mem_singleton] at h
      subst h
      exact absurd hp (hf.2 hfy z h' hfz).2
    · simp only [List.mem_singleton] at h h'
      rw [h, h']

theorem found_inv {P l : List LinkItem} (hi : LinkInv P l) {x y : LinkItem} (hy : P.find? (·.path == x.path) = some y)
    (hx : x.file ≠ none) : LinkInv (P ++ [x]) l := by
  refine ⟨hi.sorted, ?_, fun z hz => List.mem_append_left _ (hi.sub z hz), ?_, ?_⟩
  · intro p
    rw [find_append, hi.find]
    by_cases hp : x.path = p
    · subst hp
      rw [hy]
      rfl
    · have : (x.path == p) = false := by simpa using hp
      simp [this]
  · intro z hz hf
    rcases List.mem_append.1 hz with h | h
    · exact hi.dirs z h hf
    · simp only [List.mem_singleton] at h
      subst h
      exact absurd hf hx
  · intro z hz w hw hfz hfw hp
    rcases List.mem_append.1 hz with h | h <;> rcases List.mem_append.1 hw with h' | h'
    · exact hi.apart z h w h' hfz hfw hp
    · simp only [List.mem_singleton] at h'
      subst h'
      exact absurd hfw hx
    · simp only [List.mem_singleton] at h
      subst h
      exact absurd hfz hx
    · simp only [List.mem_singleton] at h h'
      rw [h, h']

open Classical in
/-- What one check does. -/
theorem item_step {P l : List LinkItem} (hi : LinkInv P l) (base : Str) (x : LinkItem) :
    if ¬ base <+: x.path ∧ Fits P x then ∃ l', checkItem base l x = .ok l' ∧ LinkInv (P ++ [x]) l'
    else checkItem base l x = .error .linkDestination := by
  unfold checkItem
  by_cases hb : base <+: x.path
  · rw [if_neg fun h => h.1 hb, if_pos ((begins_iff _ _).2 hb)]
  · have hb' : ¬ base.isPrefixOf x.path = true := fun h => hb ((begins_iff _ _).1 h)
    simp only [hb, not_false_eq_true, true_and, if_neg hb']
    rw [hi.find]
    cases hc : P.find? (·.path == x.path) with
    | some y =>
      have hyP : y ∈ P := List.mem_of_find?_eq_some hc
      have hyp : y.path = x.path := by simpa using List.find?_some hc
      simp only []
      by_cases h1 : x.file.isSome = true ∧ y.file.isSome = true
      · rw [if_pos h1]
        have hxn : x.file ≠ none := by
          intro e
          rw [e] at h1
          simp at h1
        by_cases h2 : x.file = y.file
        · rw [if_pos h2, if_neg]
          intro h
          exact (h.1 y hc).2.2 h2
        · rw [if_neg h2, if_pos]
          · exact ⟨l, rfl, found_inv hi hc hxn⟩
          · refine ⟨fun z hz => ?_, fun h => absurd h hxn⟩
            rw [hc] at hz
            cases hz
            exact ⟨h1.1, h1.2, h2⟩
      · rw [if_neg h1, if_neg]
        intro h
        exact h1 ⟨(h.1 y hc).1, (h.1 y hc).2.1⟩
    | none =>
      have hne : ∀ y ∈ l, y.path ≠ x.path := by
        intro y hy e
        have := List.find?_eq_none.1 hc y (hi.sub y hy)
        simp [e] at this
      obtain ⟨lo, hi', e1, e2, e3, e4⟩ := insert_split hi.sorted hne
      simp only [e2, findIdx_split e3]
      have hp := prior_iff hi e1 e3 e4
      have hn := next_iff hi e1 e3 e4
      have hF : Fits P x ↔ (x.file = none → ∀ z ∈ P, z.file = none → ¬ z.path <+: x.path ∧ ¬ x.path <+: z.path) := by
        unfold Fits
        rw [hc]
        simp
      by_cases hxf : x.file = none
      · rw [if_pos hxf]
        by_cases h1 : checkPrior (lo ++ x :: hi') lo.length x = true
        · rw [if_pos h1]
          by_cases h2 : checkNext (lo ++ x :: hi') lo.length x = true
          · have hfit : Fits P x := hF.2 fun _ z hz hf => ⟨hp.1 h1 z hz hf, hn.1 h2 z hz hf⟩
            rw [if_pos h2, if_pos hfit]
            exact ⟨_, rfl, e2 ▸ insert_inv hi hc hfit⟩
          · rw [if_neg h2, if_neg]
            intro h
            exact h2 (hn.2 fun z hz hf => (hF.1 h hxf z hz hf).2)
        · rw [if_neg h1, if_neg]
          intro h
          exact h1 (hp.2 fun z hz hf => (hF.1 h hxf z hz hf).1)
      · have hfit : Fits P x := hF.2 fun h => absurd h hxf
        rw [if_neg hxf, if_pos hfit]
        exact ⟨_, rfl, e2 ▸ insert_inv hi hc hfit⟩

/-! ## All links -/

/-- The path of the data directory. -/
def Base (ts : List Target) (b : Str) : Prop := ∃ t, targetFind ts pgdataZ = .ok t ∧ targetPath ts t = .ok b

def itemOf (ts : List Target) (t : Target) : Option LinkItem :=
  if t.link then
    match targetPath ts t with
    | .ok p => some ⟨p ++ [47], t.file⟩
    | .error _ => none
  else none

theorem itemOf_link {ts : List Target} {t : Target} {p : Str} (h : t.link = true) (hp : targetPath ts t = .ok p) :
    itemOf ts t = some ⟨p ++ [47], t.file⟩ := by
  unfold itemOf
  rw [if_pos h, hp]

theorem mem_items {ts a : List Target} {y : LinkItem} (h : y ∈ a.filterMap (itemOf ts)) :
    ∃ s ∈ a, ∃ q, LinkTo ts s q y.file ∧ y.path = q ++ [47] := by
  obtain ⟨s, hs, he⟩ := List.mem_filterMap.1 h
  unfold itemOf at he
  split at he
  · rename_i hl
    split at he
    · rename_i q hq
      cases he
      exact ⟨s, hs, q, ⟨hl, hq, rfl⟩, rfl⟩
    · cases he
  · cases he

theorem checkOne_link {ts : List Target} {b : Str} (hb : Base ts b) {t : Target} {p : Str} (h : t.link = true)
    (hp : targetPath ts t = .ok p) (l : List LinkItem) : checkOne ts l t = checkItem (b ++ [47]) l ⟨p ++ [47], t.file⟩ := by
  obtain ⟨bt, h1, h2⟩ := hb
  unfold checkOne
  rw [if_pos h, hp, h1]
  simp only [bind, Except.bind]
  rw [h2]

/-- A link that is accepted after the targets `a`. -/
def Good (ts : List Target) (b : Str) (a : List Target) (t : Target) : Prop :=
  t.link = true → ∃ p, targetPath ts t = .ok p ∧ ¬ b ++ [47] <+: p ++ [47] ∧ Fits (a.filterMap (itemOf ts)) ⟨p ++ [47], t.file⟩

theorem fold_iff {ts : List Target} {b : Str} (hb : Base ts b) : ∀ (suf pre : List Target) (l : List LinkItem),
    LinkInv (pre.filterMap (itemOf ts)) l →
    ((∃ l', suf.foldlM (checkOne ts) l = .ok l') ↔ ∀ a t c, suf = a ++ t :: c → Good ts b (pre ++ a) t)
  | [], pre, l, _ => by
    refine ⟨fun _ a t c h => ?_, fun _ => ⟨l, rfl⟩⟩
    cases a <;> cases h
  | t :: suf, pre, l, hi => by
    have hsplit : (∀ a u c, t :: suf = a ++ u :: c → Good ts b (pre ++ a) u) ↔
        Good ts b pre t ∧ ∀ a u c, suf = a ++ u :: c → Good ts b ((pre ++ [t]) ++ a) u := by
      constructor
      · intro h
        refine ⟨?_, fun a u c e => ?_⟩
        · have := h [] t suf rfl
          rwa [List.append_nil] at this
        · have := h (t :: a) u c (by rw [e]; rfl)
          rwa [List.append_assoc, List.singleton_append]
      · rintro ⟨h1, h2⟩ a u c e
        cases a with
        | nil =>
          cases e
          rwa [List.append_nil]
        | cons v a =>
          cases e
          have := h2 a u c rfl
          rwa [List.append_assoc, List.singleton_append] at this
    rw [hsplit, List.foldlM_cons]
    by_cases hl : t.link = true
    · cases hp : targetPath ts t with
      | error e =>
        have : checkOne ts l t = .error e := by
          unfold checkOne
          rw [if_pos hl, hp]
          rfl
        rw [this]
        constructor
        · rintro ⟨l', h⟩
          cases h
        · rintro ⟨h, _⟩
          obtain ⟨p, h', _⟩ := h hl
          rw [hp] at h'
          cases h'
      | ok p =>
        rw [checkOne_link hb hl hp]
        have hst := item_step hi (b ++ [47]) ⟨p ++ [47], t.file⟩
        have hfm : (pre ++ [t]).filterMap (itemOf ts) = pre.filterMap (itemOf ts) ++ [⟨p ++ [47], t.file⟩] := by
          rw [List.filterMap_append]
          simp [itemOf_link hl hp]
        have hG : Good ts b pre t ↔ ¬ b ++ [47] <+: p ++ [47] ∧ Fits (pre.filterMap (itemOf ts)) ⟨p ++ [47], t.file⟩ := by
          constructor
          · intro h
            obtain ⟨q, h1, h2⟩ := h hl
            rw [hp] at h1
            cases h1
            exact h2
          · intro h _
            exact ⟨p, hp, h⟩
        rw [hG]
        split at hst
        · rename_i hc
          obtain ⟨l', e1, e2⟩ := hst
          rw [e1]
          rw [← hfm] at e2
          have := fold_iff hb suf (pre ++ [t]) l' e2
          simp only [bind, Except.bind]
          rw [this]
          simp [hc]
        · rename_i hc
          rw [hst]
          constructor
          · rintro ⟨l', h⟩
            cases h
          · rintro ⟨h, _⟩
            exact absurd h hc
    · have h1 : checkOne ts l t = .ok l := by
        unfold checkOne
        rw [if_neg hl]
      have hfm : (pre ++ [t]).filterMap (itemOf ts) = pre.filterMap (itemOf ts) := by
        rw [List.filterMap_append]
        simp [itemOf, hl]
      rw [h1]
      have := fold_iff hb suf (pre ++ [t]) l (by rw [hfm]; exact hi)
      simp only [bind, Except.bind]
      rw [this]
      refine ⟨fun h => ⟨fun h' => absurd h' hl, h⟩, fun h => h.2⟩

theorem inv_nil : LinkInv [] [] := ⟨by simp, by simp, by simp, by simp, by simp⟩

theorem check_iff {ts : List Target} {b : Str} (hb : Base ts b) :
    linkCheck ts = .ok () ↔ ∀ a t c, ts = a ++ t :: c → Good ts b a t := by
  have := fold_iff hb ts [] [] inv_nil
  simp only [List.nil_append] at this
  rw [← this]
  unfold linkCheck
  cases ts.foldlM (checkOne ts) [] with
  | ok l => simp [bind, Except.bind]
  | error e => simp [bind, Except.bind]

/-- Nothing but a bad destination makes the check fail when each destination is found. -/
theorem fold_error {ts : List Target} {b : Str} (hb : Base ts b) (hr : ∀ t ∈ ts, t.link = true → ∃ p, targetPath ts t = .ok p) :
    ∀ (suf pre : List Target) (l : List LinkItem), (∀ t ∈ suf, t ∈ ts) → LinkInv (pre.filterMap (itemOf ts)) l →
    ∀ e, suf.foldlM (checkOne ts) l = .error e → e = .linkDestination
  | [], _, _, _, _, e, h => by cases h
  | t :: suf, pre, l, hs, hi, e, h => by
    rw [List.foldlM_cons] at h
    by_cases hl : t.link = true
    · obtain ⟨p, hp⟩ := hr t (hs t (by simp)) hl
      rw [checkOne_link hb hl hp] at h
      have hst := item_step hi (b ++ [47]) ⟨p ++ [47], t.file⟩
      split at hst
      · obtain ⟨l', e1, e2⟩ := hst
        rw [e1] at h
        have hfm : (pre ++ [t]).filterMap (itemOf ts) = pre.filterMap (itemOf ts) ++ [⟨p ++ [47], t.file⟩] := by
          rw [List.filterMap_append]
          simp [itemOf_link hl hp]
        rw [← hfm] at e2
        exact fold_error hb hr suf (pre ++ [t]) l' (fun u hu => hs u (List.mem_cons_of_mem _ hu)) e2 e h
      · rw [hst] at h
        cases h
        rfl
    · have h1 : checkOne ts l t = .ok l := by
        unfold checkOne
        rw [if_neg hl]
      rw [h1] at h
      have hfm : (pre ++ [t]).filterMap (itemOf ts) = pre.filterMap (itemOf ts) := by
        rw [List.filterMap_append]
        simp [itemOf, hl]
      exact fold_error hb hr suf (pre ++ [t]) l (fun u hu => hs u (List.mem_cons_of_mem _ hu)) (by rw [hfm]; exact hi) e h

/-! ## The property -/

/-- The check succeeds or fails with a link destination error when each destination is found. -/
theorem c38_error {ts : List Target} {b : Str} (hb : Base ts b) (hr : ∀ t ∈ ts, t.link = true → ∃ p, targetPath ts t = .ok p) :
    linkCheck ts = .ok () ∨ linkCheck ts = .error .linkDestination := by
  unfold linkCheck
  cases h : ts.foldlM (checkOne ts) [] with
  | ok l => exact .inl rfl
  | error e =>
    rw [fold_error hb hr ts [] [] (fun _ h => h) inv_nil e h]
    exact .inr rfl

/-- No link goes into the data directory, or to it. -/
theorem c38_data {ts : List Target} {b : Str} {B : List Str} (hb : Base ts b) (hB : Names b B) (h : linkCheck ts = .ok ())
    {t : Target} (ht : t ∈ ts) {p : Str} {f : Option Str} (hl : LinkTo ts t p f) {A : List Str} (hA : Names p A) : ¬ B <+: A := by
  obtain ⟨a, c, e⟩ := List.append_of_mem ht
  obtain ⟨q, h1, h2, _⟩ := (check_iff hb).1 h a t c e hl.1
  rw [hl.2.1] at h1
  cases h1
  rwa [names_prefix hB hA] at h2

/-- What is known of a link `s` and a later one `t`. -/
theorem pair_good {ts : List Target} {b : Str} (hb : Base ts b) (h : linkCheck ts = .ok ()) {a d c : List Target} {s t : Target}
    (e : ts = a ++ s :: d ++ t :: c) {q p : Str} {g f : Option Str} (hs : LinkTo ts s q g) (ht : LinkTo ts t p f) :
    (f = none → g = none → ¬ q ++ [47] <+: p ++ [47] ∧ ¬ p ++ [47] <+: q ++ [47]) ∧
    (q = p → f ≠ none ∧ g ≠ none) ∧
    (q = p → (∀ r ∈ a, r.link = true → targetPath ts r ≠ .ok p) → f ≠ g) := by
  obtain ⟨p', h1, _, h2⟩ := (check_iff hb).1 h (a ++ s :: d) t c e ht.1
  rw [ht.2.1] at h1
  cases h1
  obtain ⟨fit1, fit2⟩ := h2
  have hsm : (⟨q ++ [47], g⟩ : LinkItem) ∈ (a ++ s :: d).filterMap (itemOf ts) :=
    List.mem_filterMap.2 ⟨s, by simp, by rw [itemOf_link hs.1 hs.2.1, hs.2.2]⟩
  simp only [ht.2.2] at fit1 fit2
  refine ⟨fun hf hg => fit2 hf _ hsm hg, ?_, ?_⟩
  · rintro rfl
    -- the first link to this directory is the one in the list
    cases hc : ((a ++ s :: d).filterMap (itemOf ts)).find? (·.path == q ++ [47]) with
    | none =>
      have := List.find?_eq_none.1 hc _ hsm
      simp at this
    | some y =>
      obtain ⟨k1, k2, k3⟩ := fit1 y hc
      have hfn : f ≠ none := by
        intro e
        rw [e] at k1
        cases k1
      refine ⟨hfn, ?_⟩
      intro hgn
      subst hgn
      -- a directory before another link to the same directory
      have hym := List.mem_of_find?_eq_some hc
      have hyp : y.path = q ++ [47] := by simpa using List.find?_some hc
      -- either `y` is `s` or it is before it
      rw [List.filterMap_append] at hc
      have hcons : (s :: d).filterMap (itemOf ts) = ⟨q ++ [47], none⟩ :: d.filterMap (itemOf ts) := by
        rw [List.filterMap_cons, itemOf_link hs.1 hs.2.1, hs.2.2]
      rw [hcons, List.find?_append, List.find?_cons] at hc
      simp only [beq_self_eq_true] at hc
      cases hc' : (a.filterMap (itemOf ts)).find? (·.path == q ++ [47]) with
      | none =>
        rw [hc'] at hc
        simp only [Option.none_or, Option.some.injEq] at hc
        rw [← hc] at k2
        cases k2
      | some z =>
        obtain ⟨q', j1, _, j2⟩ := (check_iff hb).1 h a s (d ++ t :: c) (by rw [e]; simp) hs.1
        rw [hs.2.1] at j1
        cases j1
        have := (j2.1 z hc').1
        simp only [hs.2.2] at this
        cases this
  · rintro rfl hfirst hfg
    have hn : (a.filterMap (itemOf ts)).find? (·.path == q ++ [47]) = none := by
      refine List.find?_eq_none.2 fun y hy => ?_
      obtain ⟨r, hr, q', ⟨r1, r2, _⟩, r3⟩ := mem_items hy
      intro he
      rw [r3] at he
      have : q' = q := by simpa using he
      subst this
      exact hfirst r hr r1 r2
    have hc : ((a ++ s :: d).filterMap (itemOf ts)).find? (·.path == q ++ [47]) = some ⟨q ++ [47], g⟩ := by
      have hcons : (s :: d).filterMap (itemOf ts) = ⟨q ++ [47], g⟩ :: d.filterMap (itemOf ts) := by
        rw [List.filterMap_cons, itemOf_link hs.1 hs.2.1, hs.2.2]
      rw [List.filterMap_append, List.find?_append, hn, hcons, List.find?_cons]
      simp
    exact (fit1 _ hc).2.2 hfg

/-- No linked directory is in another one, or the same. -/
theorem c38_directories {ts : List Target} {b : Str} (hb : Base ts b) (h : linkCheck ts = .ok ()) {a d c : List Target} {s t : Target}
    (e : ts = a ++ s :: d ++ t :: c) {q p : Str} (hs : LinkTo ts s q none) (ht : LinkTo ts t p none) {A B : List Str} (hA : Names q A)
    (hB : Names p B) : ¬ A <+: B ∧ ¬ B <+: A := by
  have := (pair_good hb h e hs ht).1 rfl rfl
  rwa [names_prefix hA hB, names_prefix hB hA] at this

/-- A linked file is not directly in a linked directory, whatever the order. -/
theorem c38_file_directory {ts : List Target} {b : Str} (hb : Base ts b) (h : linkCheck ts = .ok ()) {a d c : List Target} {s t : Target}
    (e : ts = a ++ s :: d ++ t :: c) {q p : Str} {g f : Option Str} (hs : LinkTo ts s q g) (ht : LinkTo ts t p f)
    (hone : g = none ∨ f = none) : q ≠ p := by
  intro hqp
  obtain ⟨h1, h2⟩ := (pair_good hb h e hs ht).2.1 hqp
  rcases hone with r | r
  · exact h2 r
  · exact h1 r

/-- Two links to files are not to the same one, when the first of them is the first link to its directory. What is missing is a link to
the same file as one that is not the first link to its directory: see `c38_same_file`. -/
theorem c38_files_partial {ts : List Target} {b : Str} (hb : Base ts b) (h : linkCheck ts = .ok ()) {a d c : List Target} {s t : Target}
    (e : ts = a ++ s :: d ++ t :: c) {q p f g : Str} (hs : LinkTo ts s q (some g)) (ht : LinkTo ts t p (some f))
    (hfirst : ∀ r ∈ a, r.link = true → targetPath ts r ≠ .ok p) : ¬ (q = p ∧ g = f) := by
  rintro ⟨hqp, hgf⟩
  exact (pair_good hb h e hs ht).2.2 hqp hfirst (by rw [hgf])

/-- Links that do not overlap are accepted. -/
theorem c38_accepts {ts : List Target} {b : Str} {B : List Str} (hb : Base ts b) (hB : Names b B)
    (hr : ∀ t ∈ ts, t.link = true → ∃ p A, targetPath ts t = .ok p ∧ Names p A ∧ ¬ B <+: A)
    (hd : ∀ a s d t c, ts = a ++ s :: d ++ t :: c → ∀ q p X Y, LinkTo ts s q none → LinkTo ts t p none → Names q X → Names p Y →
      ¬ X <+: Y ∧ ¬ Y <+: X)
    (hm : ∀ a s d t c, ts = a ++ s :: d ++ t :: c → ∀ p g f, LinkTo ts s p g → LinkTo ts t p f → g ≠ none ∧ f ≠ none ∧ g ≠ f) :
    linkCheck ts = .ok () := by
  rw [check_iff hb]
  intro a t c e hl
  obtain ⟨p, A, h1, h2, h3⟩ := hr t (by rw [e]; simp) hl
  refine ⟨p, h1, by rwa [names_prefix hB h2], ?_, ?_⟩
  · intro y hy
    obtain ⟨s, hs, q, hlk, hyp⟩ := mem_items (List.mem_of_find?_eq_some hy)
    have hyp' : y.path = p ++ [47] := by simpa using List.find?_some hy
    have hqp : q = p := by
      rw [hyp] at hyp'
      simpa using hyp'
    subst hqp
    obtain ⟨a1, a2, ha⟩ := List.append_of_mem hs
    obtain ⟨k1, k2, k3⟩ := hm a1 s a2 t c (by rw [e, ha]) q y.file t.file hlk ⟨hl, h1, rfl⟩
    exact ⟨Option.isSome_iff_ne_none.2 k2, Option.isSome_iff_ne_none.2 k1, Ne.symm k3⟩
  · intro hf y hy hyf
    obtain ⟨s, hs, q, hlk, hyp⟩ := mem_items hy
    rw [hyf] at hlk
    obtain ⟨a1, a2, ha⟩ := List.append_of_mem hs
    obtain ⟨q', X, j1, j2, _⟩ := hr s (by rw [e]; exact List.mem_append_left _ hs) hlk.1
    rw [hlk.2.1] at j1
    cases j1
    rw [hyp]
    have := hd a1 s a2 t c (by rw [e, ha]) q p X A hlk ⟨hl, h1, hf⟩ j2 h2
    rwa [names_prefix j2 h2, names_prefix h2 j2]

/-! ## Relative destinations -/

theorem split_names : ∀ (s : Str), ∀ c ∈ Wal.split 47 s, 47 ∉ c
  | [], c, h => by
    simp only [Wal.split, List.mem_singleton] at h
    subst h
    simp
  | x :: s, c, h => by
    have ih := split_names s
    unfold Wal.split at h
    split at h
    · rcases List.mem_cons.1 h with rfl | h
      · simp
      · exact ih c h
    · rename_i hx
      split at h
      · simp only [List.mem_singleton] at h
        subst h
        simpa using Ne.symm hx
      · rename_i y ys hy
        rcases List.mem_cons.1 h with rfl | h
        · have := ih y (by rw [hy]; simp)
          simp only [List.mem_cons, not_or]
          exact ⟨Ne.symm hx, this⟩
        · exact ih c (by rw [hy]; exact List.mem_cons_of_mem _ h)

theorem split_no : ∀ (c : Str), 47 ∉ c → Wal.split 47 c = [c]
  | [], _ => rfl
  | x :: c, h => by
    simp only [List.mem_cons, not_or] at h
    unfold Wal.split
    rw [if_neg (Ne.symm h.1), split_no c h.2]

theorem split_slash : ∀ (c s : Str), 47 ∉ c → Wal.split 47 (c ++ 47 :: s) = c :: Wal.split 47 s
  | [], s, _ => by
    show (if (47 : UInt8) = 47 then [] :: Wal.split 47 s else _) = _
    rw [if_pos rfl]
  | x :: c, s, h => by
    simp only [List.mem_cons, not_or] at h
    rw [List.cons_append]
    rw [Wal.split, if_neg (Ne.symm h.1), split_slash c s h.2]

theorem split_render : ∀ {l : List Str}, (∀ c ∈ l, 47 ∉ c) → Wal.split 47 (render l) = [] :: l
  | [], _ => rfl
  | c :: l, h => by
    have hc := h c (by simp)
    have ih := split_render fun x hx => h x (List.mem_cons_of_mem _ hx)
    rw [render_cons]
    show (if (47 : UInt8) = 47 then [] :: Wal.split 47 (c ++ render l) else _) = _
    rw [if_pos rfl]
    congr 1
    cases l with
    | nil =>
      show Wal.split 47 (c ++ []) = [c]
      rw [List.append_nil]
      exact split_no c hc
    | cons d l =>
      rw [render_cons] at ih ⊢
      rw [split_slash c _ hc]
      have : Wal.split 47 (47 :: (d ++ render l)) = [] :: Wal.split 47 (d ++ render l) := by
        show (if (47 : UInt8) = 47 then _ else _) = _
        rw [if_pos rfl]
      rw [this] at ih
      rw [(List.cons.inj ih).2]

/-- A name other than the dots. -/
def Normal (c : Str) : Prop := c ≠ [] ∧ 47 ∉ c ∧ c ≠ dotDotZ ∧ c ≠ dotZ

/-- Follows the names of a relative path from the directory with the names `l`, where there is nothing above the root. -/
def goFrom (l : List Str) : List Str → Option (List Str)
  | [] => some l
  | c :: rest =>
    if c = [] ∨ c = dotZ then goFrom l rest
    else if c = dotDotZ then (if l = [] then none else goFrom l.dropLast rest)
    else goFrom (l ++ [c]) rest

theorem absParts_follow : ∀ (parts : List Str) (l r : List Str), (∀ c ∈ l, Normal c) → (∀ c ∈ parts, 47 ∉ c) →
    absParts ([] :: l) parts = .ok r → ∃ l', r = [] :: l' ∧ goFrom l parts = some l' ∧ ∀ c ∈ l', Normal c
  | [], l, r, hl, _, h => ⟨l, by cases h; rfl, rfl, hl⟩
  | p :: rest, l, r, hl, hp, h => by
    have hrest : ∀ c ∈ rest, 47 ∉ c := fun c hc => hp c (List.mem_cons_of_mem _ hc)
    unfold absParts at h
    unfold goFrom
    by_cases h1 : p = []
    · rw [if_pos h1] at h
      rw [if_pos (.inl h1)]
      split at h
      · rename_i hn
        subst hn
        exact ⟨l, by cases h; rfl, rfl, hl⟩
      · cases h
    · rw [if_neg h1] at h
      by_cases h2 : p = dotDotZ
      · rw [if_pos h2] at h
        have h3 : ¬ (p = [] ∨ p = dotZ) := by
          rw [h2]
          decide
        rw [if_neg h3, if_pos h2]
        split at h
        · cases h
        · rename_i b hb
          split at h
          · cases h
          · rename_i hbn
            cases l with
            | nil =>
              simp only [List.getLast?_singleton, Option.some.injEq] at hb
              exact absurd hb.symm hbn
            | cons c l =>
              rw [List.dropLast_cons_of_ne_nil (by simp)] at h
              rw [if_neg (by simp)]
              exact absParts_follow rest _ r (fun x hx => hl x ((List.dropLast_sublist _).subset hx)) hrest h
      · rw [if_neg h2] at h
        by_cases h3 : p = dotZ
        · rw [if_pos h3] at h
          rw [if_pos (.inr h3)]
          exact absParts_follow rest l r hl hrest h
        · rw [if_neg h3, List.cons_append] at h
          rw [if_neg (by rintro (h | h); exacts [h1 h, h3 h]), if_neg h2]
          refine absParts_follow rest (l ++ [p]) r ?_ hrest h
          intro c hc
          rcases List.mem_append.1 hc with hc | hc
          · exact hl c hc
          · simp only [List.mem_singleton] at hc
            subst hc
            exact ⟨h1, hp c (by simp), h2, h3⟩

theorem join_render : ∀ {l : List Str}, l ≠ [] → joinSlash ([] :: l) = render l
  | [], h => absurd rfl h
  | [c], _ => by simp [joinSlash, render]
  | c :: d :: l, _ => by
    have ih := join_render (l := d :: l) (by simp)
    rw [render_cons, ← ih]
    simp [joinSlash]

/-- The directory part of a name. -/
theorem strPath_dir {pre last : Str} (hl : 47 ∉ last) (hp : pre = [] ∨ ∃ d, d ≠ [] ∧ pre = d ++ [47]) :
    (if strPath (pre ++ last) = [] then [] else strPath (pre ++ last) ++ [47]) = pre := by
  have hdw : ∀ (a b : Str), 47 ∉ a → (a ++ b).dropWhile (· ≠ 47) = b.dropWhile (· ≠ 47) := by
    intro a b ha
    rw [List.dropWhile_append_of_pos]
    intro x hx
    simp only [ne_eq, decide_eq_true_eq]
    rintro rfl
    exact ha hx
  have hrev : 47 ∉ last.reverse := by simpa using hl
  rcases hp with rfl | ⟨d, hd, rfl⟩
  · have : strPath ([] ++ last) = [] := by
      unfold strPath
      have := hdw last.reverse [] hrev
      simp only [List.append_nil] at this
      simp only [List.nil_append, this]
      rfl
    rw [this, if_pos rfl]
  · have : strPath (d ++ [47] ++ last) = d := by
      unfold strPath
      rw [List.reverse_append, hdw _ _ hrev, List.reverse_append]
      have : (([47] : Str).reverse ++ d.reverse).dropWhile (· ≠ 47) = 47 :: d.reverse := by simp
      rw [this]
      have hlen : 0 < d.length := List.length_pos_iff.2 hd
      simp only [List.reverse_cons, List.reverse_reverse]
      rw [if_neg (by simp; exact hd), List.dropLast_concat]
    rw [this, if_neg hd]

/-- A relative destination is followed from the directory the link is in, `pre`. It gives a path without dots, or the root. -/
theorem c38_relative {ts : List Target} {b t : Target} {B : List Str} {pre last p : Str} (hb : targetFind ts pgdataZ = .ok b)
    (hB : b.path = render B) (hBn : B ≠ []) (hBp : ∀ c ∈ B, Normal c) (hrel : ¬ [47] <+: t.path)
    (hn : t.name = pgdataZ ++ 47 :: (pre ++ last)) (hl : 47 ∉ last) (hpre : pre = [] ∨ ∃ d, d ≠ [] ∧ pre = d ++ [47])
    (hname : ¬ [47] <+: pre) (h : targetPath ts t = .ok p) :
    ∃ A, goFrom B (Wal.split 47 (pre ++ t.path)) = some A ∧ p = (if A = [] then [47] else render A) ∧ ∀ c ∈ A, Normal c := by
  unfold targetPath at h
  rw [if_neg fun h => hrel ((begins_iff _ _).1 h)] at h
  unfold relPath at h
  have hpg : pathPg t.name = some (pre ++ last) := by
    unfold pathPg
    rw [hn, if_pos]
    · simp [pgdataZ]
    · rw [begins_iff]
      exact ⟨pre ++ last, by simp⟩
  rw [hpg, hb] at h
  simp only [bind, Except.bind] at h
  rw [strPath_dir hl hpre] at h
  generalize hr : pre ++ t.path = r at h ⊢
  have hrr : ¬ [47] <+: r := by
    rw [← hr]
    intro hc
    cases pre with
    | nil => exact hrel hc
    | cons x s =>
      rw [List.cons_append, List.cons_prefix_cons] at hc
      refine hname ?_
      rw [hc.1]
      exact ⟨s, rfl⟩
  unfold pathAbsolute at h
  have hbase : [47].isPrefixOf b.path = true := by
    rw [begins_iff, hB]
    cases B with
    | nil => exact absurd rfl hBn
    | cons c B => rw [render_cons]; exact ⟨_, rfl⟩
  rw [if_neg fun h => hrr ((begins_iff _ _).1 h), hbase, hB, split_render fun c hc => (hBp c hc).2.1] at h
  simp only [Bool.not_true, Bool.false_eq_true, if_false] at h
  cases ha : absParts ([] :: B) (Wal.split 47 r) with
  | error e =>
    rw [ha] at h
    cases h
  | ok l =>
    rw [ha] at h
    obtain ⟨A, e1, e2, e3⟩ := absParts_follow _ _ _ hBp (split_names r) ha
    refine ⟨A, e2, ?_, e3⟩
    subst e1
    have hj : (if ([] :: A).length = 1 then [47] else joinSlash ([] :: A)) = if A = [] then [47] else render A := by
      cases A with
      | nil => rfl
      | cons c A => rw [if_neg (by simp), if_neg (by simp), join_render (by simp)]
    change absCheck (if ([] :: A).length = 1 then [47] else joinSlash ([] :: A)) = .ok p at h
    rw [hj] at h
    unfold absCheck at h
    by_cases hc : (contains [47, 46, 46] (if A = [] then [47] else render A) || contains [47, 47] (if A = [] then [47] else render A)) = true
    · rw [if_pos hc] at h
      cases h
    · rw [if_neg hc] at h
      exact (Except.ok.inj h).symm

/-! ## What is not found -/

/-- A target of the data directory and links. -/
def dataT (path : Str) : Target := ⟨pgdataZ, false, path, none, 0, none⟩
def linkT (name path : Str) (file : Option Str) : Target := ⟨pgdataZ ++ 47 :: name, true, path, file, 0, none⟩

/-- A linked directory that contains the data directory is accepted: the link goes to `/a` and the data is in `/a/b`. -/
theorem c38_contains : ∃ ts, linkCheck ts = .ok () ∧ Base ts (render [[97], [98]]) ∧
    ∃ t ∈ ts, LinkTo ts t (render [[97]]) none :=
  ⟨[dataT [47, 97, 47, 98], linkT [120] [47, 97] none], by decide +kernel, ⟨_, rfl, rfl⟩, _, List.mem_cons_of_mem _ (List.mem_singleton.2 rfl),
    rfl, rfl, rfl⟩

/-- Two links to the same file are accepted after another one to the same directory: the links go to `/c/x`, `/c/y` and `/c/y`. -/
theorem c38_same_file : ∃ ts a s d t c, linkCheck ts = .ok () ∧ ts = a ++ s :: d ++ t :: c ∧
    LinkTo ts s (render [[99]]) (some [121]) ∧ LinkTo ts t (render [[99]]) (some [121]) :=
  ⟨_, [dataT [47, 97], linkT [112] [47, 99] (some [120])], linkT [113] [47, 99] (some [121]), [], linkT [114] [47, 99] (some [121]), [],
    by decide +kernel, rfl, ⟨rfl, rfl, rfl⟩, ⟨rfl, rfl, rfl⟩⟩

/-- An absolute destination is taken as it is: `/x/../a/b` is accepted when the data is in `/a`. -/
theorem c38_dots : ∃ ts B l A, linkCheck ts = .ok () ∧ Base ts (render B) ∧ (∃ t ∈ ts, LinkTo ts t (render l) none) ∧
    goFrom [] l = some A ∧ B <+: A :=
  ⟨[dataT [47, 97], linkT [112] [47, 120, 47, 46, 46, 47, 97, 47, 98] none], [[97]], [[120], [46, 46], [97], [98]], [[97], [98]],
    by decide +kernel, ⟨_, rfl, rfl⟩, ⟨_, List.mem_cons_of_mem _ (List.mem_singleton.2 rfl), rfl, rfl, rfl⟩, by decide, by decide⟩

/-- A linked file under a linked directory, but not directly in it, is accepted: the links go to `/c` and to the file `/c/d/x`. -/
theorem c38_file_below : ∃ ts a s d t c, linkCheck ts = .ok () ∧ ts = a ++ s :: d ++ t :: c ∧
    LinkTo ts s (render [[99]]) none ∧ LinkTo ts t (render [[99], [100]]) (some [120]) :=
  ⟨_, [dataT [47, 97]], linkT [112] [47, 99] none, [], linkT [113] [47, 99, 47, 100] (some [120]), [],
    by decide +kernel, rfl, ⟨rfl, rfl, rfl⟩, ⟨rfl, rfl, rfl⟩⟩

/-! ## Examples -/

/-- Data in `/a/b`, a directory in `/c`, another in `/c.d` (after `/c` and before `/c/` in the order of bytes), relative links to
`/a/e` and to the files `/f/x` and `/f/y`. -/
def exTargets : List Target :=
  [dataT [47, 97, 47, 98], linkT [112] [47, 99] none, linkT [113] [47, 99, 46, 100] none, linkT [114] [46, 46, 47, 101] none,
    linkT [115] [47, 102] (some [120]), linkT [116] [47, 102] (some [121])]

instance (p : Str) (l : List Str) : Decidable (Names p l) := inferInstanceAs (Decidable (_ ∧ _))

example : linkCheck exTargets = .ok () := by decide +kernel

example : ¬ ([[97], [98]] : List Str) <+: [[97], [101]] :=
  c38_data (ts := exTargets) (b := [47, 97, 47, 98]) (B := [[97], [98]]) ⟨_, rfl, rfl⟩ (by decide) (by decide +kernel) (t := linkT [114] [46, 46, 47, 101] none) (by decide)
    (p := [47, 97, 47, 101]) ⟨rfl, by decide +kernel, rfl⟩ (A := [[97], [101]]) (by decide)

example : ¬ ([[99]] : List Str) <+: [[99, 46, 100]] ∧ ¬ ([[99, 46, 100]] : List Str) <+: [[99]] :=
  c38_directories (ts := exTargets) ⟨_, rfl, rfl⟩ (by decide +kernel) (a := [dataT [47, 97, 47, 98]]) (d := []) rfl (q := [47, 99])
    (p := [47, 99, 46, 100]) ⟨rfl, rfl, rfl⟩ ⟨rfl, rfl, rfl⟩ (A := [[99]]) (B := [[99, 46, 100]]) (by decide) (by decide)

example : ([47, 99] : Str) ≠ [47, 102] :=
  c38_file_directory (ts := exTargets) ⟨_, rfl, rfl⟩ (by decide +kernel) (a := [dataT [47, 97, 47, 98]])
    (d := [linkT [113] [47, 99, 46, 100] none, linkT [114] [46, 46, 47, 101] none]) rfl ⟨rfl, rfl, rfl⟩ ⟨rfl, rfl, rfl⟩ (.inl rfl)

example : ¬ (([47, 102] : Str) = [47, 102] ∧ ([120] : Str) = [121]) :=
  c38_files_partial (ts := exTargets) ⟨_, rfl, rfl⟩ (by decide +kernel)
    (a := [dataT [47, 97, 47, 98], linkT [112] [47, 99] none, linkT [113] [47, 99, 46, 100] none, linkT [114] [46, 46, 47, 101] none])
    (d := []) rfl ⟨rfl, rfl, rfl⟩ ⟨rfl, rfl, rfl⟩ (by decide +kernel)

/-- Two directories, one in the other, in an order where they are not neighbours among the links. -/
example : linkCheck [dataT [47, 97], linkT [112] [47, 99, 47, 100] none, linkT [113] [47, 99, 46] none, linkT [114] [47, 99] none] =
    .error .linkDestination := by decide +kernel

example : linkCheck exTargets = .ok () ∨ linkCheck exTargets = .error .linkDestination :=
  c38_error (b := [47, 97, 47, 98]) ⟨_, rfl, rfl⟩ (by
    intro t ht hl
    simp only [exTargets, List.mem_cons, List.not_mem_nil, or_false] at ht
    rcases ht with rfl | rfl | rfl | rfl | rfl | rfl
    · cases hl
    · exact ⟨_, rfl⟩
    · exact ⟨_, rfl⟩
    · exact ⟨[47, 97, 47, 101], by decide +kernel⟩
    · exact ⟨_, rfl⟩
    · exact ⟨_, rfl⟩)

/-- One link to a directory beside the data. -/
example : linkCheck [dataT [47, 97], linkT [112] [47, 99] none] = .ok () := by
  refine c38_accepts (b := [47, 97]) (B := [[97]]) ⟨_, rfl, rfl⟩ (by decide) ?_ ?_ ?_
  · intro t ht hl
    simp only [List.mem_cons, List.not_mem_nil, or_false] at ht
    rcases ht with rfl | rfl
    · cases hl
    · exact ⟨[47, 99], [[99]], rfl, by decide, by decide⟩
  · intro a s d t c h q p X Y hs ht
    have h1 : s = dataT [47, 97] := by
      cases a with
      | nil => exact (List.cons.inj h).1.symm
      | cons x a =>
        have := congrArg List.length h
        simp at this
        omega
    rw [h1] at hs
    cases hs.1
  · intro a s d t c h p g f hs ht
    have h1 : s = dataT [47, 97] := by
      cases a with
      | nil => exact (List.cons.inj h).1.symm
      | cons x a =>
        have := congrArg List.length h
        simp at this
        omega
    rw [h1] at hs
    cases hs.1

/-- A link in a directory: `base/r` with the destination `../../e`. -/
example : ∃ A, goFrom [[97], [98]] (Wal.split 47 [100, 47, 46, 46, 47, 46, 46, 47, 101]) = some A ∧
    ([47, 97, 47, 101] : Str) = (if A = [] then [47] else render A) ∧ ∀ c ∈ A, Normal c :=
  c38_relative (ts := exTargets) (t := linkT [100, 47, 114] [46, 46, 47, 46, 46, 47, 101] none) (pre := [100, 47]) (last := [114]) rfl rfl
    (by decide)
    (by intro c hc; simp only [List.mem_cons, List.not_mem_nil, or_false] at hc; rcases hc with rfl | rfl <;> exact ⟨by decide, by decide, by decide, by decide⟩)
    (by decide) rfl (by decide) (.inr ⟨[100], by decide, rfl⟩) (by decide) (by decide +kernel)

end Verif.Manifest
