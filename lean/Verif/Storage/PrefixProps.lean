import Verif.Storage.PrefixSpec
import Verif.Storage.ItrProps

/-!
# C73: the prefix that object stores take from an expression

Properties of regExpPrefix (src/common/regExp.c) and of its use.
-/

namespace Verif.Storage

open Spec (Ere Match3 Found)

/-! ## What the prefix is -/

theorem takeWhile_stop {w k : List Char} {c : Char} (h : ∀ x ∈ w, stops x = false) (hc : stops c = true) :
    (w ++ c :: k).takeWhile (fun c => !stops c) = w := by
  induction w with
  | nil => simp [List.takeWhile, hc]
  | cons x w ih =>
    have := h x (by simp)
    simp [List.takeWhile, this]
    exact ih fun y hy => h y (by simp [hy])

theorem takeWhile_all {w : List Char} (h : ∀ x ∈ w, stops x = false) : w.takeWhile (fun c => !stops c) = w := by
  induction w with
  | nil => rfl
  | cons x w ih =>
    have := h x (by simp)
    simp [List.takeWhile, this]
    exact ih fun y hy => h y (by simp [hy])

theorem special_stops {c : Char} (h : Spec.special c = false) : c ≠ '^' := by
  rintro rfl
  simp [Spec.special] at h

/-- A run is how the text begins; it is followed by a character that stops, or it is all of the text. -/
theorem run_render : ∀ {r : Ere}, r.Ok → r.isAlt = false → (∀ x ∈ r.run.1, stops x = false) ∧
    (r.run.2 = true → r.render = r.run.1) ∧ (r.run.2 = false → ∃ c k, stops c = true ∧ r.render = r.run.1 ++ c :: k)
  | .empty, _, _ => by simp [Ere.run, Ere.render]
  | .bol, _, _ => by simp [Ere.run, Ere.render, stops]
  | .eol, _, _ => by simp [Ere.run, Ere.render, stops]
  | .any, _, _ => by simp [Ere.run, Ere.render, stops]
  | .chr c, _, _ => by
    cases h : stops c <;> simp [Ere.run, Ere.render, h]
  | .esc c, _, _ => by simp [Ere.run, Ere.render, stops]
  | .set t f, _, _ => by simp [Ere.run, Ere.render, stops]
  | .group r, _, _ => by simp [Ere.run, Ere.render, stops]
  | .alt a b, _, h => by simp [Ere.isAlt] at h
  | .seq a b, hok, _ => by
    obtain ⟨h1, h2, h3, h4⟩ := hok
    obtain ⟨a1, a2, a3⟩ := run_render h1 h3
    obtain ⟨b1, b2, b3⟩ := run_render h2 h4
    cases h : a.run.2 with
    | true =>
      simp only [Ere.run, h, if_true, Ere.render, a2 h]
      refine ⟨?_, fun hb => by rw [b2 hb], fun hb => ?_⟩
      · intro x hx
        rcases List.mem_append.mp hx with hx | hx
        · exact a1 x hx
        · exact b1 x hx
      · obtain ⟨c, k, hc, hk⟩ := b3 hb
        exact ⟨c, k, hc, by rw [hk, List.append_assoc]⟩
    | false =>
      simp only [Ere.run, h, Ere.render]
      obtain ⟨c, k, hc, hk⟩ := a3 h
      exact ⟨a1, by simp, fun _ => ⟨c, k ++ b.render, hc, by rw [hk]; simp⟩⟩
  | .rep a t min max, hok, _ => by
    obtain ⟨h1, h2, h3⟩ := hok
    have h4 : a.isAlt = false := by cases a <;> simp_all [Ere.atom, Ere.isAlt]
    obtain ⟨a1, a2, a3⟩ := run_render h1 h4
    refine ⟨a1, by simp [Ere.run], fun _ => ?_⟩
    have ht : ∃ c k, stops c = true ∧ t = c :: k := by
      rcases h3 with ⟨h, _⟩ | ⟨h, _⟩ | ⟨h, _⟩ | ⟨u, h⟩ <;> exact ⟨_, _, by rfl, h⟩
    obtain ⟨c, k, hc, rfl⟩ := ht
    simp only [Ere.run, Ere.render]
    cases h : a.run.2 with
    | true => exact ⟨c, k, hc, by rw [a2 h]⟩
    | false =>
      obtain ⟨c', k', hc', hk'⟩ := a3 h
      exact ⟨c', k' ++ c :: k, hc', by rw [hk']; simp⟩

theorem prefix_run {r : Ere} (hok : r.Ok) (ha : r.isAlt = false) {p : List Char}
    (h : regExpPrefix ('^' :: r.render) = some p) : p = r.run.1 := by
  obtain ⟨h1, h2, h3⟩ := run_render hok ha
  have ht : r.render.takeWhile (fun c => !stops c) = r.run.1 := by
    cases hr : r.run.2 with
    | true => rw [h2 hr]; exact takeWhile_all h1
    | false =>
      obtain ⟨c, k, hc, hk⟩ := h3 hr
      rw [hk]
      exact takeWhile_stop h1 hc
  unfold regExpPrefix at h
  simp only [beq_self_eq_true, if_true] at h
  split at h
  · simp at h
  · rename_i x xs hx
    split at h
    · simp at h
    · simp only [Option.some.injEq] at h
      rw [← h, ← hx, ht]

/-! ## What is matched begins with it -/

theorem run_match {r : Ere} {p m q : Name} (h : Match3 r p m q) (hok : r.Ok) (hs : r.Safe) :
    r.run.1 <+: m ∧ (r.run.2 = true → m = r.run.1) := by
  induction h with
  | empty => simp [Ere.run]
  | bol => simp [Ere.run]
  | eol => simp [Ere.run]
  | any => simp [Ere.run]
  | @chr _ _ c => cases h : stops c <;> simp [Ere.run, h]
  | esc => simp [Ere.run]
  | set _ => simp [Ere.run]
  | group _ _ => simp [Ere.run]
  | @seq p m n q a b h h2 ih ih2 =>
    obtain ⟨h1, h3⟩ := ih hok.1 hs.1
    cases ha : a.run.2 with
    | true =>
      obtain ⟨h4, h5⟩ := ih2 hok.2.1 (hs.2 ha)
      simp only [Ere.run, ha, if_true]
      rw [h3 ha]
      refine ⟨(List.prefix_append_right_inj _).mpr h4, fun hb => by rw [h5 hb]⟩
    | false =>
      simp only [Ere.run, ha]
      exact ⟨h1.trans (List.prefix_append _ _), by simp⟩
  | altL _ _ => exact hs.elim
  | altR _ _ => exact hs.elim
  | @repDone p q a t max =>
    have : a.run.1 = [] := by
      have h1 := hok.2.1
      cases a <;> simp [Ere.atom] at h1 <;> simp [Ere.run]
      rename_i c
      rcases hs with hs | hs
      · simp [hs]
      · omega
    simp [Ere.run, this]
  | @repMore p m n q a t min max h hm h2 ih ih2 =>
    have hsafe : a.Safe := by
      have h1 := hok.2.1
      cases a <;> simp [Ere.atom] at h1 <;> trivial
    obtain ⟨h1, _⟩ := ih hok.1 hsafe
    simp only [Ere.run]
    exact ⟨h1.trans (List.prefix_append _ _), by simp⟩

/-- An expression that begins with `^` and has no alternative at the top: everything that it matches begins with the prefix, unless
the last character of the prefix may be left out. -/
theorem c73_prefix (r : Ere) (hok : r.Ok) (hs : r.Safe) (p : List Char)
    (h : regExpPrefix (Ere.seq .bol r).render = some p) (s : Name) (hf : Found (.seq .bol r) s) : p <+: s := by
  have ha : r.isAlt = false := by
    cases r <;> simp [Ere.isAlt]
    exact hs.elim
  rw [prefix_run hok ha h]
  obtain ⟨pre, m, q, rfl, hm⟩ := hf
  cases hm with
  | seq h1 h2 =>
    cases h1
    simpa using (run_match h2 hok hs).1.trans (List.prefix_append _ _)

theorem anchor_after (k : List Char) : ∀ (w : List Char) (c : Char), anchor c (w ++ '|' :: '^' :: k) = true
  | [], _ => by simp [anchor]
  | x :: w, c => by simp [anchor, anchor_after k w x]

/-- When all alternatives begin with `^` no prefix is used. -/
theorem c73_alternatives (a b : Ere) :
    regExpPrefix (Ere.alt (.seq .bol a) (.seq .bol b)).render = none := by
  have he : (Ere.alt (.seq .bol a) (.seq .bol b)).render = '^' :: (a.render ++ '|' :: '^' :: b.render) := by simp [Ere.render]
  rw [he]
  unfold regExpPrefix
  simp only [beq_self_eq_true, if_true]
  split
  · rfl
  · rename_i x xs hx
    have hp : (x :: xs) <+: a.render := by
      have h1 : (x :: xs) <+: a.render ++ '|' :: '^' :: b.render := hx ▸ List.takeWhile_prefix _
      rcases List.prefix_or_prefix_of_prefix h1 (List.prefix_append a.render _) with h2 | h2
      · exact h2
      · obtain ⟨t, ht⟩ := h2
        cases t with
        | nil => simp at ht; rw [ht]; exact List.prefix_refl _
        | cons y t =>
          exfalso
          rw [← ht] at h1
          have h3 := (List.prefix_append_right_inj _).mp h1
          have h4 : y = '|' := by
            obtain ⟨u, hu⟩ := h3
            simp at hu
            exact hu.1
          have h5 : y ∈ (a.render ++ '|' :: '^' :: b.render).takeWhile (fun c => !stops c) := by
            rw [hx, ← ht]; simp
          have h6 := List.all_eq_true.mp (List.all_takeWhile (p := fun c => !stops c)) y h5
          rw [h4] at h6
          simp [stops] at h6
    obtain ⟨t, ht⟩ := hp
    have hd : (a.render ++ '|' :: '^' :: b.render).drop (x :: xs).length = t ++ '|' :: '^' :: b.render := by
      rw [← ht, List.append_assoc, List.drop_left]
    rw [hd, anchor_after]
    rfl

/-- An expression that does not begin with `^` has no prefix. -/
theorem c73_no_anchor (e : List Char) (h : ∀ k, e ≠ '^' :: k) : regExpPrefix e = none := by
  cases e with
  | nil => rfl
  | cons c k =>
    have : c ≠ '^' := by
      rintro rfl
      exact h k rfl
    simp [regExpPrefix, this]

/-! ## Listing with it -/

theorem toSlash_simple : ∀ {k : Name}, '/' ∉ k → toSlash k = none
  | [], _ => rfl
  | c :: cs, h => by
    simp only [List.mem_cons, not_or] at h
    simp [toSlash, toSlash_simple h.2, Ne.symm h.1]

theorem toSlash_path : ∀ {n : Name} (r : Name), '/' ∉ n → toSlash (n ++ '/' :: r) = some (n ++ ['/'])
  | [], _, _ => rfl
  | c :: cs, r, h => by
    simp only [List.mem_cons, not_or] at h
    simp [toSlash, toSlash_path r h.2, Ne.symm h.1]

theorem slash_cases : ∀ k : Name, '/' ∉ k ∨ ∃ n r, k = n ++ '/' :: r ∧ '/' ∉ n
  | [] => .inl (by simp)
  | c :: cs => by
    by_cases hc : c = '/'
    · exact .inr ⟨[], cs, by simp [hc], by simp⟩
    · rcases slash_cases cs with h | ⟨n, r, h1, h2⟩
      · exact .inl (by simp [h, Ne.symm hc])
      · exact .inr ⟨c :: n, r, by simp [h1], by simp [h2, Ne.symm hc]⟩

theorem isPrefixOf_append (b p k : Name) : (b ++ p).isPrefixOf (b ++ k) = p.isPrefixOf k := by
  induction b with
  | nil => rfl
  | cons c b ih => simp [List.isPrefixOf, ih]

theorem isPrefixOf_path {p n r : Name} (h : '/' ∉ p) : p.isPrefixOf (n ++ '/' :: r) = p.isPrefixOf n := by
  induction p generalizing n with
  | nil => simp [List.isPrefixOf]
  | cons c p ih =>
    simp only [List.mem_cons, not_or] at h
    cases n with
    | nil => simp [List.isPrefixOf, Ne.symm h.1]
    | cons d n => simp [List.isPrefixOf, ih h.2]

/-- What one key gives. -/
theorem entry_key {base p key : Name} (hp : '/' ∉ p) :
    (answer (base ++ p) key).map (entryOf base) = ((answer base key).map (entryOf base)).filter (fun x => p.isPrefixOf x.name) := by
  by_cases hb : base.isPrefixOf key = true
  · obtain ⟨k, rfl⟩ := List.isPrefixOf_iff_prefix.mp hb
    have h1 := isPrefixOf_append base p k
    rcases slash_cases k with hk | ⟨n, r, rfl, hn⟩
    · have ha : (answer base (base ++ k)).map (entryOf base) = some ⟨k, false, ()⟩ := by
        simp [answer, entryOf, toSlash_simple hk]
      rw [ha]
      cases hpk : p.isPrefixOf k with
      | false => simp [answer, h1, hpk, Option.filter]
      | true =>
        obtain ⟨k', rfl⟩ := List.isPrefixOf_iff_prefix.mp hpk
        have hk' : '/' ∉ k' := fun hh => hk (by simp [hh])
        have : (base ++ (p ++ k')).drop (base ++ p).length = k' := by rw [← List.append_assoc, List.drop_left]
        simp [answer, h1, hpk, this, toSlash_simple hk', entryOf, Option.filter]
    · have ha : (answer base (base ++ (n ++ '/' :: r))).map (entryOf base) = some ⟨n, true, ()⟩ := by
        simp [answer, entryOf, toSlash_path r hn]
      rw [ha]
      rw [isPrefixOf_path hp] at h1
      cases hpk : p.isPrefixOf n with
      | false => simp [answer, h1, hpk, Option.filter]
      | true =>
        obtain ⟨k', rfl⟩ := List.isPrefixOf_iff_prefix.mp hpk
        have hk' : '/' ∉ k' := fun hh => hn (by simp [hh])
        have : (base ++ (p ++ k' ++ '/' :: r)).drop (base ++ p).length = k' ++ '/' :: r := by
          have h2 : base ++ (p ++ k' ++ '/' :: r) = (base ++ p) ++ (k' ++ '/' :: r) := by simp
          rw [h2, List.drop_left]
        simp only [answer, h1, hpk, if_true, this, toSlash_path r hk', Option.map_some, entryOf]
        have h3 : (base ++ p ++ (k' ++ ['/'])).drop base.length = p ++ k' ++ ['/'] := by
          have h2 : base ++ p ++ (k' ++ ['/']) = base ++ (p ++ k' ++ ['/']) := by simp
          rw [h2, List.drop_left]
        rw [h3]
        have h4 : (base ++ p ++ (k' ++ ['/'])).length - base.length - 1 = (p ++ k').length := by simp
        rw [h4, List.take_left]
        simp [hpk, Option.filter]
  · have h1 : answer base key = none := by simp [answer, hb]
    have h2 : answer (base ++ p) key = none := by
      have : ¬ (base ++ p).isPrefixOf key = true := by
        intro hh
        exact hb (List.isPrefixOf_iff_prefix.mpr ((List.prefix_append base p).trans (List.isPrefixOf_iff_prefix.mp hh)))
      simp [answer, this]
    simp [h1, h2]

/-- What a path of an object store contains: each key below it that has no further slash, as a file, and the part up to the first slash
of the others, as a path. -/
theorem c73_names (keys : List Name) (base : Name) (x : Entry Unit) :
    x ∈ objList keys base none ↔
      '/' ∉ x.name ∧ ((x.isPath = false ∧ base ++ x.name ∈ keys) ∨ (x.isPath = true ∧ ∃ r, base ++ (x.name ++ '/' :: r) ∈ keys)) := by
  unfold objList queryPrefix
  simp only [Option.bind_none, List.mem_map, List.mem_filterMap]
  constructor
  · rintro ⟨a, ⟨key, hk, ha⟩, rfl⟩
    have hb : base.isPrefixOf key = true := by
      cases h : base.isPrefixOf key with
      | true => rfl
      | false => simp [answer, h] at ha
    obtain ⟨k, rfl⟩ := List.isPrefixOf_iff_prefix.mp hb
    rcases slash_cases k with hs | ⟨n, r, rfl, hn⟩
    · simp [answer, toSlash_simple hs] at ha
      subst ha
      simpa [entryOf, hs] using hk
    · simp [answer, toSlash_path r hn] at ha
      subst ha
      simp only [entryOf, if_true]
      have h1 : (base ++ (n ++ ['/'])).drop base.length = n ++ ['/'] := List.drop_left
      have h2 : (base ++ (n ++ ['/'])).length - base.length - 1 = n.length := by simp
      rw [h1, h2, List.take_left]
      exact ⟨hn, .inr ⟨trivial, r, hk⟩⟩
  · obtain ⟨n, b, u⟩ := x
    rintro ⟨hn, ⟨rfl, hk⟩ | ⟨rfl, r, hk⟩⟩
    · exact ⟨(base ++ n, false), ⟨_, hk, by simp [answer, toSlash_simple hn]⟩, by simp [entryOf]⟩
    · exact ⟨(base ++ (n ++ ['/']), true), ⟨_, hk, by simp [answer, toSlash_path r hn]⟩, by simp [entryOf]⟩

theorem queryPrefix_eq (base : Name) (e : Option Name) : queryPrefix base e = base ++ ((e.bind regExpPrefix).getD []) := by
  unfold queryPrefix
  cases h : e.bind regExpPrefix with
  | none => simp
  | some p => cases base <;> simp

/-- A listing with an expression is the listing without it, less the names that do not begin with the prefix. -/
theorem c73_list (keys : List Name) (base : Name) (e : Option Name) (hp : '/' ∉ (e.bind regExpPrefix).getD []) :
    objList keys base e =
      (objList keys base none).filter (fun x => ((e.bind regExpPrefix).getD []).isPrefixOf x.name) := by
  unfold objList
  rw [queryPrefix_eq, queryPrefix_eq]
  generalize (e.bind regExpPrefix).getD [] = p at hp
  simp only [Option.bind_none, Option.getD_none, List.append_nil]
  rw [List.map_filterMap, List.map_filterMap, List.filter_filterMap]
  congr 1
  funext key
  exact entry_key hp

/-- Nothing that matches is lost: what is left by the expression of the listing with the prefix is what is left of the whole
listing, for expressions whose prefix is meant. -/
theorem c73_nothing_lost (keys : List Name) (base : Name) (r : Ere) (hok : r.Ok) (hs : r.Safe)
    (hp : '/' ∉ (regExpPrefix (Ere.seq .bol r).render).getD []) (m : Name → Bool)
    (hm : ∀ s, m s = true ↔ Found (.seq .bol r) s) :
    (objList keys base (some (Ere.seq .bol r).render)).filter (fun x => m x.name) =
      (objList keys base none).filter (fun x => m x.name) := by
  rw [c73_list keys base (some (Ere.seq .bol r).render) hp, List.filter_filter]
  congr 1
  funext x
  cases h : m x.name with
  | false => simp
  | true =>
    simp only [Option.bind_some, Bool.true_and]
    cases hr : regExpPrefix (Ere.seq .bol r).render with
    | none => simp
    | some p =>
      have := c73_prefix r hok hs p hr x.name ((hm _).mp h)
      simpa using List.isPrefixOf_iff_prefix.mpr this

/-! ## The expressions that are used -/

/-- Characters one after another. -/
def lit : List Char → Ere
  | [] => .empty
  | c :: cs => .seq (.chr c) (lit cs)

theorem lit_ok : ∀ {w : List Char}, (∀ c ∈ w, Spec.special c = false) → (lit w).Ok
  | [], _ => trivial
  | c :: cs, h => ⟨h c (by simp), lit_ok fun d hd => h d (by simp [hd]), rfl, by cases cs <;> rfl⟩

theorem lit_safe : ∀ w : List Char, (lit w).Safe
  | [] => trivial
  | _ :: cs => ⟨trivial, fun _ => lit_safe cs⟩

theorem lit_run : ∀ {w : List Char}, (∀ c ∈ w, stops c = false) → (lit w).run = (w, true)
  | [], _ => rfl
  | c :: cs, h => by
    have := lit_run (w := cs) fun d hd => h d (by simp [hd])
    simp [lit, Ere.run, h c (by simp), this]

theorem lit_alt (w : List Char) : (lit w).isAlt = false := by cases w <;> rfl

/-- The part of the expression of archive-get after the segment (archive/get/get.c 162): `-[0-f]{40}(...){0,1}$`. The group is the one
of `COMPRESS_TYPE_REGEXP` (common/compress/helper.h 37), shortened to the first alternatives. -/
def segmentTail : Ere :=
  .seq (.chr '-') (.seq (.rep (.set "0-f".toList (fun c => '0' ≤ c && c ≤ 'f')) "{40}".toList 40 (some 40))
    (.seq (.rep (.group (.alt (.seq (.esc '.') (lit "gz".toList)) (.seq (.esc '.') (lit "lz4".toList)))) "{0,1}".toList 0 (some 1)) .eol))

example : (Ere.seq .bol (.seq (lit "0001".toList) segmentTail)).render = "^0001-[0-f]{40}(\\.gz|\\.lz4){0,1}$".toList := by decide +kernel

/-- The expressions with a segment are listed with the segment as prefix and lose nothing. -/
theorem c73_segment (w : List Char) (hw : ∀ c ∈ w, Spec.special c = false ∧ stops c = false) :
    (Ere.seq (lit w) segmentTail).Ok ∧ (Ere.seq (lit w) segmentTail).Safe ∧ (Ere.seq (lit w) segmentTail).run.1 = w := by
  refine ⟨⟨lit_ok fun c hc => (hw c hc).1, ?_, lit_alt w, rfl⟩, ⟨lit_safe w, fun _ => ?_⟩, ?_⟩
  · simp [segmentTail, Ere.Ok, Ere.isAlt, Ere.atom, lit, Spec.special]
  · simp [segmentTail, Ere.Safe, Ere.run]
  · simp [Ere.run, lit_run fun c hc => (hw c hc).2, segmentTail, stops]

example : regExpPrefix "^0001-[0-f]{40}(\\.gz|\\.lz4){0,1}$".toList = some "0001".toList := by decide +kernel
example : regExpPrefix "^2[0-9]{3}$".toList = some "2".toList := by decide +kernel
example : regExpPrefix "^[0-F]{16}$".toList = none := by decide +kernel
example : regExpPrefix "^ABC|^DEF".toList = none := by decide +kernel
example : regExpPrefix "^ABC[^DEF]".toList = some "ABC".toList := by decide +kernel

/-! ## When something is lost -/

/-- A character that may be left out is in the prefix: `^ab*` matches `a`, which the store does not list. -/
theorem c73_left_out :
    (Ere.seq .bol (.seq (.chr 'a') (.rep (.chr 'b') ['*'] 0 none))).render = "^ab*".toList ∧
    (Ere.seq (.chr 'a') (.rep (.chr 'b') ['*'] 0 none)).Ok ∧
    Found (.seq .bol (.seq (.chr 'a') (.rep (.chr 'b') ['*'] 0 none))) ['a'] ∧
    regExpPrefix "^ab*".toList = some "ab".toList ∧
    objList [['a']] [] none = [⟨['a'], false, ()⟩] ∧ objList [['a']] [] (some "^ab*".toList) = [] := by
  refine ⟨by decide +kernel, ?_, ⟨[], ['a'], [], rfl, ?_⟩, by decide +kernel, by decide +kernel, by decide +kernel⟩
  · simp [Ere.Ok, Ere.isAlt, Ere.atom, Spec.special]
  · exact .seq (m := []) .bol (.seq (m := ['a']) (n := []) .chr .repDone)

/-- An alternative without `^` is not looked for: `^ab|cd` matches `cd`. -/
theorem c73_alternative_lost :
    (Ere.alt (.seq .bol (lit "ab".toList)) (lit "cd".toList)).render = "^ab|cd".toList ∧
    Found (.alt (.seq .bol (lit "ab".toList)) (lit "cd".toList)) "cd".toList ∧
    regExpPrefix "^ab|cd".toList = some "ab".toList ∧
    objList ["cd".toList] [] none = [⟨"cd".toList, false, ()⟩] ∧ objList ["cd".toList] [] (some "^ab|cd".toList) = [] := by
  refine ⟨by decide +kernel, ⟨[], ['c', 'd'], [], rfl, ?_⟩, by decide +kernel, by decide +kernel, by decide +kernel⟩
  exact .altR (.seq (m := ['c']) (n := ['d']) .chr (.seq (m := ['d']) (n := []) .chr .empty))

/-- A slash in the prefix makes a listing that is not recursive return what is further down. -/
theorem c73_slash :
    objList ["a/b/c".toList] [] none = [⟨"a".toList, true, ()⟩] ∧
      objList ["a/b/c".toList] [] (some "^a/b".toList) = [⟨"a/b".toList, true, ()⟩] := by
  decide +kernel

/-- The driver of an object store for an iterator. -/
def objParam (keys : List Name) (e : Option Name) (m : Name → Bool) : Param Unit where
  list
    | none => some (objList keys [] e)
    | some p => some (objList keys (p ++ ['/']) e)
  recurse := true
  sort := .asc
  regExp := some m

/-- All the names an iterator gives. -/
def allNames (P : Param Unit) : Option (List String) :=
  match itrNew P false false with
  | .ok (some i) => (drain P 50 i.stack).map (·.map (String.ofList ·.name))
  | _ => none

/-- With recursion the prefix is used for every path, although the expression is about the names below the root: with `^ab` the file
`ab/cd` is found without the prefix, but with it the path `ab` is asked for names that begin with `ab` again. -/
theorem c73_recurse :
    Found (.seq .bol (lit "ab".toList)) "ab/cd".toList ∧ regExpPrefix "^ab".toList = some "ab".toList ∧
    allNames (objParam ["ab/cd".toList] none ("ab".toList.isPrefixOf ·)) = some ["ab", "ab/cd"] ∧
    allNames (objParam ["ab/cd".toList] (some "^ab".toList) ("ab".toList.isPrefixOf ·)) = some ["ab"] := by
  refine ⟨⟨[], ['a', 'b'], ['/', 'c', 'd'], rfl, ?_⟩, by decide +kernel, by decide +kernel, by decide +kernel⟩
  exact .seq (m := []) .bol (.seq (m := ['a']) (n := ['b']) .chr (.seq (m := ['b']) (n := []) .chr .empty))

end Verif.Storage
