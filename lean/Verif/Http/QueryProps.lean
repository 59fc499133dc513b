import Verif.Http.QueryModel
import Verif.Http.UriChars

/-!
# C78: what is encoded is decoded, and a query is parsed as it was rendered
# C79: what is redacted is not shown
-/

namespace Verif.Http.Query

open Spec

/-! ## Digits -/

theorem digit_lt {c : UInt8} {d : Nat} (h : Num.digitOf 16 c = some d) : d < 16 := by
  unfold Num.digitOf at h
  cases hv : Num.digitVal c with
  | none => rw [hv] at h; simp at h
  | some x =>
    rw [hv] at h
    simp only [Option.ite_none_right_eq_some, Option.some.injEq] at h
    omega

theorem numeral_two {a b : UInt8} {v : Nat} (h : Num.Numeral 16 [a, b] v) : ∃ x y, Num.digitOf 16 a = some x ∧ Num.digitOf 16 b = some y ∧ x < 16 ∧ y < 16 ∧ v = 16 * x + y := by
  obtain ⟨_, ds, hds, hv⟩ := h
  match ds, hds with
  | [], hds => simp at hds
  | [_], hds => simp at hds
  | _ :: _ :: _ :: _, hds => simp at hds
  | [x, y], hds =>
    simp only [List.map_cons, List.map_nil, List.cons.injEq, and_true] at hds
    refine ⟨x, y, hds.1, hds.2, digit_lt hds.1, digit_lt hds.2, ?_⟩
    simp only [Num.valueOf, List.length_cons, List.length_nil] at hv
    omega

/-! ## Encoding -/

theorem encode_canon (p : Bool) (s : Str) : Canon p (encode p s) s := by
  induction s with
  | nil => exact .nil
  | cons c s ih =>
    unfold encode
    by_cases h : verbatim p c = true
    · rw [if_pos h]
      exact .plain ((verbatim_iff p c).mp h) ih
    · rw [if_neg h]
      exact .esc (fun h' => h ((verbatim_iff p c).mpr h')) (hex_digits c).1 (hex_digits c).2.1 (hex_numeral c) ih

theorem canon_unique {p : Bool} {e s : Str} (h : Canon p e s) : e = encode p s := by
  induction h with
  | nil => rfl
  | plain hc _ ih =>
    rename_i c e s _
    unfold encode
    rw [if_pos ((verbatim_iff p c).mpr hc), ← ih]
    rfl
  | esc hc ha hb hn _ ih =>
    rename_i c a b e s _
    unfold encode
    rw [if_neg (fun h => hc ((verbatim_iff p c).mp h)), ← ih]
    obtain ⟨x, y, h1, h2, h3, h4, h5⟩ := numeral_two hn
    obtain ⟨x', y', g1, g2, g3, g4, g5⟩ := numeral_two (hex_numeral c)
    have e1 : x = x' := by omega
    have e2 : y = y' := by omega
    subst e1 e2
    rw [upper_unique a _ ha (hex_digits c).1 (h1.trans g1.symm), upper_unique b _ hb (hex_digits c).2.1 (h2.trans g2.symm)]
    rfl

theorem canon_enc {p : Bool} {e s : Str} (h : Canon p e s) : Enc e s := by
  induction h with
  | nil => exact .nil
  | plain hc _ ih => exact .plain (safe_ne p _ hc).1 ih
  | esc _ _ _ hn _ ih =>
    rename_i c _ _ _ _ _
    have := Enc.esc hn ih
    simpa using this

/-- C78: what `httpUriEncode` gives is the one normal form of a string (RFC 3986): all that is not an unreserved character, or in paths a slash, is encoded, with digits in upper case. -/
theorem c78_encode (p : Bool) (e s : Str) : encode p s = e ↔ Canon p e s :=
  ⟨fun h => h ▸ encode_canon p s, fun h => (canon_unique h).symm⟩

theorem numeral_ok {a b : UInt8} {v : Nat} (h : Num.Numeral 16 [a, b] v) : Num.toUIntBase 16 [a, b] = .ok v := by
  obtain ⟨x, y, _, _, h3, h4, h5⟩ := numeral_two h
  rw [(Num.c51_numeral 16 _ v h).2.1, if_pos (by omega)]

/-- C78: any encoding of a string is decoded to the string. -/
theorem c78_decode (e s : Str) (h : Enc e s) : decode e = .ok s := by
  induction h with
  | nil => rfl
  | plain hc _ ih => unfold decode; rw [if_neg hc, ih]
  | esc hn _ ih => unfold decode; rw [if_pos rfl]; simp only [numeral_ok hn, ih]

theorem c78_roundtrip (p : Bool) (s : Str) : decode (encode p s) = .ok s := c78_decode _ _ (canon_enc (encode_canon p s))

/-- C78: a string that ends inside of an encoded character is an error. -/
theorem c78_decode_cut (e s : Str) (h : Enc e s) : decode (e ++ [37]) = .error .format ∧ ∀ a, decode (e ++ [37, a]) = .error .format := by
  induction h with
  | nil => exact ⟨rfl, fun _ => rfl⟩
  | plain hc _ ih =>
    refine ⟨?_, fun a => ?_⟩
    · rw [List.cons_append]; unfold decode; rw [if_neg hc, ih.1]
    · rw [List.cons_append]; unfold decode; rw [if_neg hc, ih.2 a]
  | esc hn _ ih =>
    refine ⟨?_, fun a => ?_⟩
    · simp only [List.cons_append]; unfold decode; rw [if_pos rfl]; simp only [numeral_ok hn, ih.1]
    · simp only [List.cons_append]; unfold decode; rw [if_pos rfl]; simp only [numeral_ok hn, ih.2 a]

theorem canon_chars {p : Bool} {e s : Str} (h : Canon p e s) : ∀ c ∈ e, c ≠ 38 ∧ c ≠ 61 ∧ c ≠ 63 := by
  induction h with
  | nil => simp
  | plain hc _ ih =>
    intro x hx
    rcases List.mem_cons.mp hx with rfl | hx
    · exact (safe_ne p _ hc).2
    · exact ih x hx
  | esc _ ha hb _ _ ih =>
    intro x hx
    rcases List.mem_cons.mp hx with rfl | hx
    · decide
    · rcases List.mem_cons.mp hx with rfl | hx
      · exact (upper_ne _ ha).2
      · rcases List.mem_cons.mp hx with rfl | hx
        · exact (upper_ne _ hb).2
        · exact ih x hx

theorem encode_chars (p : Bool) (s : Str) : 38 ∉ encode p s ∧ 61 ∉ encode p s ∧ 63 ∉ encode p s :=
  ⟨fun h => (canon_chars (encode_canon p s) _ h).1 rfl, fun h => (canon_chars (encode_canon p s) _ h).2.1 rfl, fun h => (canon_chars (encode_canon p s) _ h).2.2 rfl⟩

/-! ## Keys -/

theorem le_total : ∀ a b : Str, le a b = false → le b a = true := by
  intro a
  induction a with
  | nil => intro b h; simp [le] at h
  | cons x s ih =>
    intro b h
    cases b with
    | nil => rfl
    | cons y t =>
      simp only [le, Bool.or_eq_false_iff, decide_eq_false_iff_not, Bool.and_eq_false_iff, beq_eq_false_iff_ne, Bool.or_eq_true, decide_eq_true_eq, Bool.and_eq_true, beq_iff_eq] at h ⊢
      obtain ⟨h1, h2⟩ := h
      by_cases hxy : x = y
      · subst hxy
        exact .inr ⟨rfl, ih t (h2.resolve_left (by simp))⟩
      · left
        rcases UInt8.lt_or_lt_of_ne hxy with h | h
        · exact absurd h h1
        · exact h

theorem le_trans : ∀ a b c : Str, le a b = true → le b c = true → le a c = true := by
  intro a
  induction a with
  | nil => intros; rfl
  | cons x s ih =>
    intro b c h1 h2
    cases b with
    | nil => simp [le] at h1
    | cons y t =>
      cases c with
      | nil => simp [le] at h2
      | cons z u =>
        simp only [le, Bool.or_eq_true, decide_eq_true_eq, Bool.and_eq_true, beq_iff_eq] at h1 h2 ⊢
        rcases h1 with h1 | ⟨rfl, h1⟩
        · rcases h2 with h2 | ⟨rfl, _⟩
          · exact .inl (UInt8.lt_trans h1 h2)
          · exact .inl h1
        · rcases h2 with h2 | ⟨rfl, h2⟩
          · exact .inl h2
          · exact .inr ⟨rfl, ih t u h1 h2⟩

theorem insert_perm (k : Str) : ∀ l : List Str, (insert k l).Perm (k :: l) := by
  intro l
  induction l with
  | nil => exact .refl _
  | cons x l ih =>
    unfold insert
    split
    · exact .refl _
    · exact (ih.cons x).trans (.swap _ _ _)

theorem sort_perm (l : List Str) : (sort l).Perm l := by
  induction l with
  | nil => exact .refl _
  | cons k l ih => exact (insert_perm k _).trans (ih.cons k)

theorem insert_sorted (k : Str) : ∀ l : List Str, l.Pairwise (le · · = true) → (insert k l).Pairwise (le · · = true) := by
  intro l
  induction l with
  | nil => intro _; simp [insert]
  | cons x l ih =>
    intro h
    obtain ⟨h1, h2⟩ := List.pairwise_cons.mp h
    unfold insert
    by_cases hk : le k x = true
    · rw [if_pos hk]
      refine List.pairwise_cons.mpr ⟨?_, h⟩
      intro y hy
      rcases List.mem_cons.mp hy with rfl | hy
      · exact hk
      · exact le_trans _ _ _ hk (h1 y hy)
    · rw [if_neg hk]
      refine List.pairwise_cons.mpr ⟨?_, ih h2⟩
      intro y hy
      rcases List.mem_cons.mp ((insert_perm k l).mem_iff.mp hy) with rfl | hy
      · exact le_total _ _ (by simpa using hk)
      · exact h1 y hy

theorem sort_sorted (l : List Str) : (sort l).Pairwise (le · · = true) := by
  induction l with
  | nil => exact .nil
  | cons k l ih => exact insert_sorted k _ ih

/-! ## Pairs -/

theorem get_put (kv : List (Str × Str)) (k v k' : Str) : get (put kv k v) k' = if k' = k then some v else get kv k' := by
  induction kv with
  | nil =>
    by_cases h : k' = k
    · subst h; simp [put, get]
    · simp [put, get, h, Ne.symm h]
  | cons x kv ih =>
    obtain ⟨a, b⟩ := x
    unfold put
    by_cases ha : a = k
    · subst ha
      rw [if_pos rfl]
      by_cases h : k' = a
      · subst h; simp [get]
      · simp [get, h, Ne.symm h]
    · rw [if_neg ha]
      by_cases h : a = k'
      · subst h; simp [get, ha]
      · have e1 : get ((a, b) :: put kv k v) k' = get (put kv k v) k' := by simp [get, h]
        have e2 : get ((a, b) :: kv) k' = get kv k' := by simp [get, h]
        rw [e1, e2, ih]

theorem get_none (kv : List (Str × Str)) (k : Str) : get kv k = none ↔ k ∉ kv.map (·.1) := by
  unfold get
  rw [Option.map_eq_none_iff, List.find?_eq_none]
  simp only [beq_iff_eq, List.mem_map, not_exists, not_and]

theorem put_new (kv : List (Str × Str)) (k v : Str) (h : k ∉ kv.map (·.1)) : put kv k v = kv ++ [(k, v)] := by
  induction kv with
  | nil => rfl
  | cons x kv ih =>
    obtain ⟨a, b⟩ := x
    simp only [List.map_cons, List.mem_cons, not_or] at h
    unfold put
    rw [if_neg (Ne.symm h.1), ih h.2]
    rfl

/-- C78: a key is added if it is not there, and is an error if it is. -/
theorem c78_add (q : Query) (k v : Str) :
    ((get q.kv k).isSome = true → add q k v = .error .assert) ∧
    (get q.kv k = none → ∃ q', add q k v = .ok q' ∧ q'.redact = q.redact ∧ ∀ k', get q'.kv k' = if k' = k then some v else get q.kv k') := by
  unfold add
  refine ⟨fun h => ?_, fun h => ?_⟩
  · cases hg : get q.kv k with
    | none => rw [hg] at h; simp at h
    | some x => rfl
  · rw [h]
    exact ⟨_, rfl, rfl, fun k' => get_put q.kv k v k'⟩

theorem c78_put (q : Query) (k v k' : Str) : get (queryPut q k v).kv k' = if k' = k then some v else get q.kv k' := get_put q.kv k v k'

/-- C78: queries are merged if they have no key in common, and if they have one it is an error. -/
theorem c78_merge (q r : Query) (hn : (r.kv.map (·.1)).Nodup) :
    ((∀ k, get q.kv k = none ∨ get r.kv k = none) → ∃ q', merge q r = .ok q' ∧ q'.redact = q.redact ∧ ∀ k, get q'.kv k = (get q.kv k).or (get r.kv k)) ∧
    (∀ k, get q.kv k ≠ none → get r.kv k ≠ none → merge q r = .error .assert) := by
  unfold merge
  obtain ⟨l, rr⟩ := r
  simp only at hn ⊢
  induction l generalizing q with
  | nil => exact ⟨fun _ => ⟨q, rfl, rfl, by simp [get]⟩, fun k _ h => absurd rfl h⟩
  | cons x l ih =>
    obtain ⟨a, b⟩ := x
    obtain ⟨ha, hn⟩ := List.nodup_cons.mp hn
    have hal : get l a = none := (get_none _ _).mpr ha
    have hself : get ((a, b) :: l) a = some b := by simp [get]
    have hother : ∀ k, k ≠ a → get ((a, b) :: l) k = get l k := by intro k hk; simp [get, Ne.symm hk]
    cases hq : get q.kv a with
    | some v =>
      have hadd : add q a b = .error .assert := by unfold add; rw [hq]
      refine ⟨fun h => ?_, fun k _ _ => ?_⟩
      · rcases h a with h | h
        · rw [hq] at h; cases h
        · rw [hself] at h; cases h
      · unfold addAll; rw [hadd]
    | none =>
      have hadd : add q a b = .ok { q with kv := put q.kv a b } := by unfold add; rw [hq]
      obtain ⟨i1, i2⟩ := ih { q with kv := put q.kv a b } hn
      unfold addAll
      rw [hadd]
      simp only [get_put] at i1 i2 ⊢
      refine ⟨fun h => ?_, fun k h1 h2 => ?_⟩
      · obtain ⟨q', h1, h2, h3⟩ := i1 (by
          intro k
          by_cases hk : k = a
          · subst hk; exact .inr hal
          · rw [if_neg hk, ← hother k hk]; exact h k)
        refine ⟨q', h1, h2, ?_⟩
        intro k
        rw [h3]
        by_cases hk : k = a
        · subst hk; simp [hq, hself]
        · rw [if_neg hk, hother k hk]
      · have hk : k ≠ a := by intro h; subst h; exact h1 hq
        exact i2 k (by rw [if_neg hk]; exact h1) (by rw [← hother k hk]; exact h2)

/-! ## Rendering and parsing -/

theorem split_one {c : UInt8} : ∀ {s : Str}, c ∉ s → split c s = [s] := by
  intro s
  induction s with
  | nil => intro _; rfl
  | cons x s ih =>
    intro h
    simp only [List.mem_cons, not_or] at h
    unfold split
    rw [if_neg (Ne.symm h.1), ih h.2]

theorem split_cons {c : UInt8} {t : Str} : ∀ {s : Str}, c ∉ s → split c (s ++ c :: t) = s :: split c t := by
  intro s
  induction s with
  | nil => intro _; simp [split]
  | cons x s ih =>
    intro h
    simp only [List.mem_cons, not_or] at h
    rw [List.cons_append]
    conv => lhs; unfold split
    rw [if_neg (Ne.symm h.1), ih h.2]

/-- A pair of a query. -/
def item (q : Query) (k : Str) : Str := encode false k ++ [61] ++ encode false ((get q.kv k).getD [])

theorem item_no (q : Query) (k : Str) : 38 ∉ item q k := by
  have h1 := (encode_chars false k).1
  have h2 := (encode_chars false ((get q.kv k).getD [])).1
  simp [item, h1, h2]

theorem item_split (q : Query) (k : Str) : split 61 (item q k) = [encode false k, encode false ((get q.kv k).getD [])] := by
  have h1 := (encode_chars false k).2.1
  have h2 := (encode_chars false ((get q.kv k).getD [])).2.1
  have e : item q k = encode false k ++ 61 :: encode false ((get q.kv k).getD []) := by simp [item]
  rw [e, split_cons h1, split_one h2]

theorem renderLoop_split (q : Query) : ∀ (ks : List Str) (out : Str), out ≠ [] → split 38 (renderLoop false q ks out) = split 38 out ++ ks.map (item q) := by
  have hsplit : ∀ (s t : Str), 38 ∉ t → split 38 (s ++ 38 :: t) = split 38 s ++ [t] := by
    intro s t ht
    induction s with
    | nil => simp [split, split_one ht]
    | cons x s ih =>
      rw [List.cons_append]
      by_cases hx : x = 38
      · subst hx; simp [split, ih]
      · have hne : split 38 s ≠ [] := by
          cases s with
          | nil => simp [split]
          | cons y s => unfold split; split <;> [simp; (split <;> simp)]
        obtain ⟨a, l, hl⟩ := List.exists_cons_of_ne_nil hne
        have e1 : split 38 (x :: s) = (x :: a) :: l := by conv => lhs; unfold split
                                                          rw [if_neg hx, hl]
        have e2 : split 38 (x :: (s ++ 38 :: t)) = (x :: a) :: (l ++ [t]) := by
          conv => lhs; unfold split
          rw [if_neg hx, ih, hl]
          rfl
        rw [e1, e2]
        rfl
  intro ks
  induction ks with
  | nil => intro out _; simp [renderLoop]
  | cons k ks ih =>
    intro out hout
    have hl : out.length ≠ 0 := by simpa using hout
    have e : out ++ [38] ++ encode false k ++ [61] ++ encode false ((get q.kv k).getD []) = out ++ 38 :: item q k := by simp [item]
    have := ih (out ++ 38 :: item q k) (by simp)
    simp only [renderLoop, Bool.false_and, Bool.false_eq_true, if_false, if_pos hl, ne_eq]
    rw [e, this, hsplit _ _ (item_no q k)]
    simp

theorem render_split (q : Query) (k : Str) (ks : List Str) : split 38 (renderLoop false q (k :: ks) []) = (k :: ks).map (item q) := by
  have e : renderLoop false q (k :: ks) [] = renderLoop false q ks (item q k) := by simp [renderLoop, item]
  rw [e, renderLoop_split q ks (item q k) (by simp [item]), split_one (item_no q k)]
  rfl

theorem parsePairs_items (q : Query) : ∀ (ks : List Str) (r : Query), ks.Nodup → (∀ k ∈ ks, k ∉ r.kv.map (·.1)) →
    parsePairs r (ks.map (item q)) = .ok { r with kv := r.kv ++ ks.map fun k => (k, (get q.kv k).getD []) } := by
  intro ks
  induction ks with
  | nil => intro r _ _; simp [parsePairs]
  | cons k ks ih =>
    intro r hn hr
    obtain ⟨hk, hn⟩ := List.nodup_cons.mp hn
    have hk' := hr k (by simp)
    have ha : add r k ((get q.kv k).getD []) = .ok { r with kv := r.kv ++ [(k, (get q.kv k).getD [])] } := by
      unfold add
      rw [(get_none r.kv k).mpr hk']
      simp only [put_new _ _ _ hk']
    have := ih { r with kv := r.kv ++ [(k, (get q.kv k).getD [])] } hn (by
      intro x hx
      simp only [List.map_append, List.map_cons, List.map_nil, List.mem_append, List.mem_singleton, not_or]
      exact ⟨hr x (by simp [hx]), fun h => hk (h ▸ hx)⟩)
    simp only [List.map_cons, parsePairs, item_split, c78_roundtrip, ha]
    rw [this]
    simp

theorem renderLoop_head (q : Query) : ∀ (ks : List Str) (out : Str), 63 ∉ out → 63 ∉ renderLoop false q ks out := by
  intro ks
  induction ks with
  | nil => intro out h; exact h
  | cons k ks ih =>
    intro out h
    simp only [renderLoop, Bool.false_and, Bool.false_eq_true, if_false]
    apply ih
    have h1 := (encode_chars false k).2.2
    have h2 := (encode_chars false ((get q.kv k).getD [])).2.2
    split <;> simp [h, h1, h2]

/-- C78: a query that has keys is rendered so that it is parsed to the same keys and values, whatever bytes they have, with or without a question mark in front, and the keys are in
order. -/
theorem c78_query (q : Query) (hn : (q.kv.map (·.1)).Nodup) (h0 : q.kv ≠ []) : ∃ s q', render false q = some s ∧ parse s = .ok q' ∧ parse (63 :: s) = .ok q' ∧
    (∀ k, get q'.kv k = get q.kv k) ∧ (q'.kv.map (·.1)).Perm (q.kv.map (·.1)) ∧ (q'.kv.map (·.1)).Pairwise (le · · = true) := by
  have hperm : (keys q).Perm (q.kv.map (·.1)) := sort_perm _
  have hne : keys q ≠ [] := by
    intro h
    rw [h] at hperm
    have := hperm.symm.eq_nil
    simp at this
    exact h0 this
  obtain ⟨k, ks, hk⟩ := List.exists_cons_of_ne_nil hne
  have hnd : (keys q).Nodup := hperm.nodup_iff.mpr hn
  have hmap : ∀ l : List Str, (l.map fun k => (k, (get q.kv k).getD [])).map (·.1) = l := by intro l; simp [Function.comp_def]
  have hp : parsePairs ⟨[], []⟩ (split 38 (renderLoop false q (keys q) [])) = .ok ⟨(keys q).map fun k => (k, (get q.kv k).getD []), []⟩ := by
    rw [hk, render_split, ← hk, parsePairs_items q (keys q) ⟨[], []⟩ hnd (by simp)]
    simp
  have h63 : (renderLoop false q (keys q) []).head? ≠ some 63 := by
    intro h
    exact renderLoop_head q (keys q) [] (by simp) (List.mem_of_mem_head? (by rw [h]; rfl))
  refine ⟨renderLoop false q (keys q) [], ⟨(keys q).map fun k => (k, (get q.kv k).getD []), []⟩, by simp [render, hne], ?_, ?_, ?_, ?_, ?_⟩
  · unfold parse; rw [if_neg h63]; exact hp
  · exact hp
  · intro x
    have hget : ∀ l : List Str, get (l.map fun k => (k, (get q.kv k).getD [])) x = if x ∈ l then some ((get q.kv x).getD []) else none := by
      intro l
      induction l with
      | nil => simp [get]
      | cons a l ih =>
        by_cases ha : a = x
        · subst ha; simp [get]
        · have e : get ((a :: l).map fun k => (k, (get q.kv k).getD [])) x = get (l.map fun k => (k, (get q.kv k).getD [])) x := by simp [get, ha]
          rw [e, ih]
          simp [Ne.symm ha]
    rw [hget]
    by_cases hx : x ∈ keys q
    · rw [if_pos hx]
      cases hg : get q.kv x with
      | none => exact absurd (hperm.mem_iff.mp hx) ((get_none _ _).mp hg)
      | some v => rfl
    · rw [if_neg hx]
      exact ((get_none _ _).mpr fun h => hx (hperm.mem_iff.mpr h)).symm
  · rw [hmap]; exact hperm
  · rw [hmap]; exact sort_sorted _

/-- A query as others write it. -/
def wire : List (Str × Str) → Str
  | [] => []
  | [(k, v)] => k ++ [61] ++ v
  | (k, v) :: l => k ++ [61] ++ v ++ [38] ++ wire l

/-- C78: a query that others wrote is parsed to its keys and values, in order, however these were encoded. -/
theorem c78_parse (l : List (Str × Str)) (d : List (Str × Str)) (h0 : l ≠ []) (hl : ∀ x ∈ l, (38 ∉ x.1 ∧ 61 ∉ x.1 ∧ 63 ∉ x.1) ∧ 38 ∉ x.2 ∧ 61 ∉ x.2)
    (hd : List.Forall₂ (fun x y => Enc x.1 y.1 ∧ Enc x.2 y.2) l d) (hn : (d.map (·.1)).Nodup) : parse (wire l) = .ok ⟨d, []⟩ ∧ parse (63 :: wire l) = .ok ⟨d, []⟩ := by
  have hsplit : ∀ l : List (Str × Str), l ≠ [] → (∀ x ∈ l, 38 ∉ x.1 ∧ 38 ∉ x.2) → split 38 (wire l) = l.map fun x => x.1 ++ 61 :: x.2 := by
    intro l
    induction l with
    | nil => intro h; exact absurd rfl h
    | cons x l ih =>
      intro _ h
      obtain ⟨k, v⟩ := x
      obtain ⟨hk, hv⟩ := h (k, v) (by simp)
      have hno : (38 : UInt8) ∉ k ++ 61 :: v := by simp at hk hv ⊢; exact ⟨hk, hv⟩
      cases l with
      | nil =>
        have e : wire [(k, v)] = k ++ 61 :: v := by simp [wire]
        rw [e, split_one hno]
        rfl
      | cons y l =>
        have e : wire ((k, v) :: y :: l) = (k ++ 61 :: v) ++ 38 :: wire (y :: l) := by simp [wire]
        rw [e, split_cons hno, ih (by simp) (fun x hx => h x (by simp [hx]))]
        rfl
  have hpairs : ∀ (l d : List (Str × Str)) (r : Query), (∀ x ∈ l, 61 ∉ x.1 ∧ 61 ∉ x.2) → List.Forall₂ (fun x y => Enc x.1 y.1 ∧ Enc x.2 y.2) l d →
      ((r.kv ++ d).map (·.1)).Nodup → parsePairs r (l.map fun x => x.1 ++ 61 :: x.2) = .ok { r with kv := r.kv ++ d } := by
    intro l d r hl hd
    induction hd generalizing r with
    | nil => intro _; simp [parsePairs]
    | cons hxy _ ih =>
      rename_i x y l d _
      intro hn
      obtain ⟨h1, h2⟩ := hl x (by simp)
      have hnew : y.1 ∉ r.kv.map (·.1) := by
        intro hm
        rw [List.map_append, List.nodup_append] at hn
        exact hn.2.2 _ hm y.1 (by simp) rfl
      have ha : add r y.1 y.2 = .ok { r with kv := r.kv ++ [y] } := by
        unfold add
        rw [(get_none r.kv y.1).mpr hnew]
        simp only [put_new _ _ _ hnew]
      have := ih { r with kv := r.kv ++ [y] } (fun x hx => hl x (by simp [hx])) (by simpa using hn)
      simp only [List.map_cons, parsePairs, split_cons h1, split_one h2, c78_decode _ _ hxy.1, c78_decode _ _ hxy.2, ha]
      rw [this]
      simp
  have hok : parsePairs ⟨[], []⟩ (split 38 (wire l)) = .ok ⟨d, []⟩ := by
    rw [hsplit l h0 (fun x hx => ⟨(hl x hx).1.1, (hl x hx).2.1⟩), hpairs l d ⟨[], []⟩ (fun x hx => ⟨(hl x hx).1.2.1, (hl x hx).2.2⟩) hd (by simpa using hn)]
    simp
  refine ⟨?_, hok⟩
  unfold parse
  rw [if_neg, hok]
  intro h
  match l, h0, hl, h with
  | (k, v) :: l, _, hl, h =>
    have h63 := (hl (k, v) (by simp)).1.2.2
    cases k with
    | nil => cases l <;> simp [wire] at h
    | cons c k =>
      simp only [List.mem_cons, not_or] at h63
      cases l <;> simp [wire] at h <;> exact h63.1 h.symm

/-- C78: what has no equals sign, or has two, is an error. -/
theorem c78_parse_format (q : Query) (p : Str) (ps : List Str) (h : p.count 61 ≠ 1) : parsePairs q (p :: ps) = .error .format := by
  have hlen : ∀ p : Str, (split 61 p).length = p.count 61 + 1 := by
    intro p
    induction p with
    | nil => rfl
    | cons x s ih =>
      unfold split
      by_cases hx : x = 61
      · subst hx; simp [ih]
      · rw [if_neg hx, List.count_cons_of_ne hx]
        cases hs : split 61 s with
        | nil => rw [hs] at ih; simp at ih
        | cons a l => rw [hs] at ih; simpa using ih
  have := hlen p
  unfold parsePairs
  split
  · rename_i k v hs
    rw [hs] at this
    simp at this
    omega
  · rfl

/-- C78: queries that are built with `httpQueryAdd` and `httpQueryPut` have no key twice. -/
theorem c78_nodup (q : Query) (k v : Str) (h : (q.kv.map (·.1)).Nodup) : ((queryPut q k v).kv.map (·.1)).Nodup ∧ ∀ q', add q k v = .ok q' → (q'.kv.map (·.1)).Nodup := by
  have hput : ((put q.kv k v).map (·.1)).Nodup := by
    by_cases hk : k ∈ q.kv.map (·.1)
    · have : ∀ kv : List (Str × Str), k ∈ kv.map (·.1) → (put kv k v).map (·.1) = kv.map (·.1) := by
        intro kv
        induction kv with
        | nil => simp
        | cons x kv ih =>
          obtain ⟨a, b⟩ := x
          intro hm
          unfold put
          by_cases ha : a = k
          · rw [if_pos ha]; rfl
          · rw [if_neg ha]
            simp only [List.map_cons, List.mem_cons] at hm ⊢
            rw [ih (hm.resolve_left (Ne.symm ha))]
      rw [this _ hk]
      exact h
    · rw [put_new _ _ _ hk, List.map_append]
      exact List.nodup_append.mpr ⟨h, by simp, by intro a ha b hb; simp only [List.map_cons, List.map_nil, List.mem_singleton] at hb; subst hb; exact fun e => hk (e ▸ ha)⟩
  refine ⟨hput, ?_⟩
  intro q' hq
  unfold add at hq
  split at hq
  · cases hq
  · cases hq; exact hput

/-! ## What is shown -/

/-- Two sets of pairs differ only in what is redacted. -/
structure Alike (q r : Query) : Prop where
  redact : q.redact = r.redact
  keys : q.kv.map (·.1) = r.kv.map (·.1)
  shown : ∀ k, k ∉ q.redact → get q.kv k = get r.kv k

theorem alike_redacted {q r : Query} (h : Alike q r) (k : Str) : redacted q k = redacted r k := by simp [redacted, h.redact]

theorem alike_shown {q r : Query} (h : Alike q r) {k : Str} (hk : redacted q k = false) : get q.kv k = get r.kv k :=
  h.shown k (by simpa [redacted] using hk)

theorem alike_keys {q r : Query} (h : Alike q r) : Query.keys q = Query.keys r := by simp [Query.keys, h.keys]

theorem renderLoop_alike {q r : Query} (h : Alike q r) : ∀ (ks : List Str) (out : Str), renderLoop true q ks out = renderLoop true r ks out := by
  intro ks
  induction ks with
  | nil => intro out; rfl
  | cons k ks ih =>
    intro out
    unfold renderLoop
    simp only [Bool.true_and, ← alike_redacted h k]
    cases hk : redacted q k with
    | true => exact ih _
    | false => rw [alike_shown h hk]; exact ih _

theorem logLoop_alike {q r : Query} (h : Alike q r) : ∀ (ks : List Str) (f : Bool), logLoop q f ks = logLoop r f ks := by
  intro ks
  induction ks with
  | nil => intro f; rfl
  | cons k ks ih =>
    intro f
    unfold logLoop
    rw [← alike_redacted h k, ih]
    cases hk : redacted q k with
    | true => rfl
    | false => rw [alike_shown h hk]

theorem render_alike {q r : Query} (h : Alike q r) : render true q = render true r := by
  unfold render
  rw [alike_keys h, renderLoop_alike h]

/-- C79: what is written to the log of a query or of headers does not depend on the values that are redacted. -/
theorem c79_log (q r : Query) (h : Alike q r) : toLog q = toLog r := by
  unfold toLog
  rw [h.keys, logLoop_alike h]

/-- C79: what an error shows of a request does not depend on the values that are redacted, neither of the query nor of the headers. -/
theorem c79_error (code : Nat) (reason verb path : Str) (q r : Option Query) (hq : q.isSome = r.isSome) (hqr : ∀ a b, q = some a → r = some b → Alike a b)
    (h1 h2 : Query) (hh : Alike h1 h2) (response : Query) (content : Str) :
    errorText code reason verb path q h1 response content = errorText code reason verb path r h2 response content := by
  have hmap : ((keys h1).map fun k => [10] ++ k ++ [58, 32] ++ (if redacted h1 k then hidden else (get h1.kv k).getD [])) =
      ((keys h2).map fun k => [10] ++ k ++ [58, 32] ++ (if redacted h2 k then hidden else (get h2.kv k).getD [])) := by
    rw [alike_keys hh]
    apply List.map_congr_left
    intro k _
    rw [← alike_redacted hh k]
    cases hk : redacted h1 k with
    | true => rfl
    | false => rw [alike_shown hh hk]
  unfold errorText
  rw [hmap, alike_keys hh]
  cases q with
  | none =>
    cases r with
    | none => rfl
    | some b => simp at hq
  | some a =>
    cases r with
    | none => simp at hq
    | some b => simp only [errorQuery, render_alike (hqr a b rfl rfl)]

theorem mem_keys {q : Query} {k v : Str} (h : get q.kv k = some v) : k ∈ q.kv.map (·.1) := by
  apply Classical.byContradiction
  intro hn
  rw [(get_none _ _).mpr hn] at h
  cases h

theorem logLoop_has (q : Query) {k : Str} : ∀ (ks : List Str) (f : Bool), k ∈ ks →
    (k ++ (if redacted q k then [58, 32] ++ hidden else [58, 32, 39] ++ (get q.kv k).getD [] ++ [39])) <:+: logLoop q f ks := by
  intro ks
  induction ks with
  | nil => intro f h; simp at h
  | cons a ks ih =>
    intro f h
    unfold logLoop
    rcases List.mem_cons.mp h with rfl | h
    · exact ⟨if f then [] else [44, 32], logLoop q false ks, by simp [List.append_assoc]⟩
    · exact (ih false h).trans (List.suffix_append _ _).isInfix

/-- C79: what is not redacted is in the log, and of what is redacted there is the key. -/
theorem c79_log_shown (q : Query) (k v : Str) (h : get q.kv k = some v) :
    (if k ∈ q.redact then k ++ txt ": <redacted>" else k ++ txt ": '" ++ v ++ txt "'") <:+: toLog q := by
  have := logLoop_has q (q.kv.map (·.1)) true (mem_keys h)
  have e1 : txt ": <redacted>" = [58, 32] ++ hidden := by decide +kernel
  have e2 : txt ": '" = [58, 32, 39] := by decide +kernel
  have e3 : txt "'" = [39] := by decide +kernel
  rw [h] at this
  rw [e1, e2, e3]
  unfold toLog
  refine List.IsInfix.trans ?_ ((this.trans (List.suffix_append [123] _).isInfix).trans (List.prefix_append _ [125]).isInfix)
  by_cases hk : k ∈ q.redact <;> simp [redacted, hk]

/-- C79: an error shows the headers of the request that are not redacted, and the headers and the content of the response. -/
theorem c79_error_shown (code : Nat) (reason verb path : Str) (q : Option Query) (hq : ∀ a, q = some a → a.kv ≠ []) (header response : Query) (content : Str) :
    ∃ s, errorText code reason verb path q header response content = .ok s ∧ content <:+ s ∧
      (∀ k v, get header.kv k = some v → (txt "\n" ++ k ++ txt ": " ++ (if k ∈ header.redact then txt "<redacted>" else v)) <:+: s) ∧
      (∀ k v, get response.kv k = some v → (txt "\n" ++ k ++ txt ": " ++ v) <:+: s) ∧
      (∀ a, q = some a → ∃ t, render true a = some t ∧ (verb ++ txt " " ++ path ++ txt "?" ++ t) <:+: s) ∧
      (q = none → (verb ++ txt " " ++ path) <:+: s) := by
  have e1 : txt "<redacted>" = hidden := by decide +kernel
  have e2 : txt "\n" = [10] := by decide +kernel
  have e3 : txt ": " = [58, 32] := by decide +kernel
  have e4 : txt " " = [32] := by decide +kernel
  have e5 : txt "?" = [63] := by decide +kernel
  have hflat : ∀ (f : Str → Str) (ks : List Str) (k : Str), k ∈ ks → f k <:+: (ks.map f).flatten := by
    intro f ks k hk
    obtain ⟨l1, l2, rfl⟩ := List.append_of_mem hk
    exact ⟨(l1.map f).flatten, (l2.map f).flatten, by simp⟩
  have hin : ∀ {a l m r : Str}, a <:+: m → a <:+: l ++ m ++ r := fun h => (h.trans (List.suffix_append _ _).isInfix).trans (List.prefix_append _ _).isInfix
  have hline : ∀ A v s p t H R C : Str, v ++ s ++ p ++ t <:+: A ++ v ++ s ++ p ++ t ++ H ++ R ++ C := fun A v s p t H R C => ⟨A, H ++ R ++ C, by simp [List.append_assoc]⟩
  have hkeys : ∀ {q : Query} {k v : Str}, get q.kv k = some v → k ∈ keys q := fun h => (sort_perm _).mem_iff.mpr (mem_keys h)
  have hnil : ∀ {q : Query} {k v : Str}, get q.kv k = some v → keys q ≠ [] := by
    intro q k v h h0
    have := hkeys h
    rw [h0] at this
    simp at this
  rw [e1, e2, e3, e4, e5]
  have hqs : ∃ t : Str, errorQuery q = .ok t ∧ (∀ a, q = some a → ∃ u, render true a = some u ∧ t = [63] ++ u) := by
    cases q with
    | none => exact ⟨[], rfl, by simp⟩
    | some a =>
      have hne : keys a ≠ [] := by
        intro h
        have hp : (keys a).Perm (a.kv.map (·.1)) := sort_perm _
        rw [h] at hp
        have := hp.symm.eq_nil
        simp at this
        exact hq a rfl this
      refine ⟨[63] ++ renderLoop true a (keys a) [], by simp [errorQuery, render, hne], ?_⟩
      intro b hb
      cases hb
      exact ⟨_, by simp [render, hne], rfl⟩
  obtain ⟨t, ht, hta⟩ := hqs
  unfold errorText
  rw [ht]
  refine ⟨_, rfl, ?_, ?_, ?_, ?_, ?_⟩
  · by_cases hc : content = []
    · subst hc; exact List.nil_suffix
    · rw [if_pos hc, ← List.append_assoc]
      exact List.suffix_append _ _
  · intro k v h
    rw [if_pos (hnil h), List.append_assoc _ _ (if content ≠ [] then _ else _)]
    apply hin
    refine List.IsInfix.trans ?_ (List.suffix_append _ _).isInfix
    have := hflat (fun k => [10] ++ k ++ [58, 32] ++ (if redacted header k then hidden else (get header.kv k).getD [])) (keys header) k (hkeys h)
    simp only [h] at this
    refine List.IsInfix.trans ?_ this
    by_cases hk : k ∈ header.redact <;> simp [redacted, hk]
  · intro k v h
    rw [if_pos (hnil h)]
    apply hin
    refine List.IsInfix.trans ?_ (List.suffix_append _ _).isInfix
    have := hflat (fun k => [10] ++ k ++ [58, 32] ++ (get response.kv k).getD []) (keys response) k (hkeys h)
    simp only [h] at this
    exact this
  · intro a ha
    obtain ⟨u, hu, rfl⟩ := hta a ha
    refine ⟨u, hu, ?_⟩
    rw [List.append_assoc (verb ++ [32] ++ path)]
    exact hline _ verb [32] path ([63] ++ u) _ _ _
  · intro _
    exact (List.prefix_append _ t).isInfix.trans (hline _ verb [32] path t _ _ _)

theorem renderLoop_pre (b : Bool) (q : Query) : ∀ (ks : List Str) (out : Str), out <+: renderLoop b q ks out := by
  intro ks
  induction ks with
  | nil => intro out; exact List.prefix_refl _
  | cons k ks ih =>
    intro out
    unfold renderLoop
    refine List.IsPrefix.trans ?_ (ih _)
    split
    · exact ⟨[38] ++ encode false k ++ [61] ++ (if b && redacted q k then hidden else encode false ((get q.kv k).getD [])), by simp⟩
    · exact ⟨encode false k ++ [61] ++ (if b && redacted q k then hidden else encode false ((get q.kv k).getD [])), by simp⟩

theorem renderLoop_has (b : Bool) (q : Query) {k : Str} : ∀ (ks : List Str) (out : Str), k ∈ ks →
    ∃ x y, renderLoop b q ks out = x ++ (encode false k ++ [61] ++ (if b && redacted q k then hidden else encode false ((get q.kv k).getD []))) ++ y := by
  intro ks
  induction ks with
  | nil => intro out h; simp at h
  | cons a ks ih =>
    intro out h
    unfold renderLoop
    rcases List.mem_cons.mp h with rfl | h
    · obtain ⟨y, hy⟩ := renderLoop_pre b q ks ((if out.length ≠ 0 then out ++ [38] else out) ++ encode false k ++ [61] ++ (if b && redacted q k then hidden else encode false ((get q.kv k).getD [])))
      exact ⟨if out.length ≠ 0 then out ++ [38] else out, y, by rw [← hy]; simp⟩
    · exact ih _ h

/-- C79: a copy has the same keys and values, and redacts what it was told to redact, or what the query redacts. -/
theorem c79_dup (q : Query) (l : List Str) (k : Str) : get (dup q (some l)).kv k = get q.kv k ∧ get (dup q none).kv k = get q.kv k ∧
    (redacted (dup q (some l)) k = true ↔ k ∈ l) ∧ (redacted (dup q none) k = true ↔ k ∈ q.redact) := by
  simp [dup, redacted]

/-- C79: a value that is not redacted is shown, and of one that is redacted it is shown that it is there. -/
theorem c79_shown (q : Query) (k v : Str) (h : get q.kv k = some v) : ∃ s x y, render true q = some s ∧
    s = x ++ (encode false k ++ [61] ++ (if k ∈ q.redact then txt "<redacted>" else encode false v)) ++ y := by
  have hk : k ∈ keys q := (sort_perm _).mem_iff.mpr (mem_keys h)
  have hne : keys q ≠ [] := by intro h0; rw [h0] at hk; simp at hk
  obtain ⟨x, y, hxy⟩ := renderLoop_has true q (keys q) [] hk
  refine ⟨renderLoop true q (keys q) [], x, y, by simp [render, hne], ?_⟩
  rw [hxy, h]
  have : txt "<redacted>" = hidden := by decide +kernel
  simp [redacted, this]

/-! ## Examples -/

example : encode false (txt "a/b c~é") = txt "a%2Fb%20c~%C3%A9" := by decide +kernel
example : encode true (txt "/a b") = txt "/a%20b" := by decide +kernel
example : decode (txt "a%2fb%2Fc") = .ok (txt "a/b/c") := by decide +kernel

example : parse (txt "?sv=2020&sig=a%2bb%3d") = .ok ⟨[(txt "sv", txt "2020"), (txt "sig", txt "a+b=")], []⟩ := by decide +kernel
example : wire [(txt "sv", txt "2020"), (txt "sig", txt "a%2bb%3d")] = txt "sv=2020&sig=a%2bb%3d" := by decide +kernel

def exampleQuery : Query := ⟨[(txt "prefix", txt "a&b=c?"), (txt "list-type", txt "2"), (txt "sig", txt "secret")], [txt "sig"]⟩

example : (exampleQuery.kv.map (·.1)).Nodup ∧ exampleQuery.kv ≠ [] := by decide +kernel
example : render false exampleQuery = some (txt "list-type=2&prefix=a%26b%3Dc%3F&sig=secret") := by decide +kernel
example : render true exampleQuery = some (txt "list-type=2&prefix=a%26b%3Dc%3F&sig=<redacted>") := by decide +kernel
example : toLog exampleQuery = txt "{prefix: 'a&b=c?', list-type: '2', sig: <redacted>}" := by decide +kernel
example : Alike exampleQuery ⟨[(txt "prefix", txt "a&b=c?"), (txt "list-type", txt "2"), (txt "sig", txt "other")], [txt "sig"]⟩ := by
  refine ⟨rfl, rfl, ?_⟩
  intro k hk
  have : txt "sig" ≠ k := by intro h; exact hk (by rw [← h]; exact List.mem_singleton.mpr rfl)
  have h : (txt "sig" == k) = false := by simpa using this
  simp only [exampleQuery, get, List.find?, h]
example : errorText 403 (txt "Forbidden") (txt "GET") (txt "/p") (some exampleQuery) ⟨[(txt "host", txt "h"), (txt "authorization", txt "key")], [txt "authorization"]⟩
    ⟨[(txt "date", txt "d")], []⟩ (txt "no") =
    .ok (txt "HTTP request failed with 403 (Forbidden):\n*** Path/Query ***:\nGET /p?list-type=2&prefix=a%26b%3Dc%3F&sig=<redacted>\n*** Request Headers ***:\nauthorization: <redacted>\nhost: h\n*** Response Headers ***:\ndate: d\n*** Response Content ***:\nno") := by
  decide +kernel

/-- C78: what is not two digits is decoded, if it is a number with a sign or with white space in front. -/
theorem c78_decode_sign : decode (txt "%+5") = .ok [5] := by decide +kernel

/-- C78: keys are sorted before they are encoded, so that the query is not in the order of the encoded keys, in which S3 and others compute its signature. -/
theorem c78_order_not_encoded : render false ⟨[(txt "z", txt "1"), (txt "{", txt "2")], []⟩ = some (txt "z=1&%7B=2") := by decide +kernel

/-- C79: an error of a request of which the query has no keys uses a null pointer. -/
theorem c79_empty_query : errorText 404 [] (txt "GET") (txt "/p") (some ⟨[], []⟩) ⟨[], []⟩ ⟨[], []⟩ [] = .error .ub := by decide +kernel

/-- C79: what is merged into a query is redacted as the query says, not as what is merged says. -/
theorem c79_merge_shows : (merge ⟨[(txt "a", txt "1")], []⟩ ⟨[(txt "sig", txt "secret")], [txt "sig"]⟩).toOption.map (render true) = some (some (txt "a=1&sig=secret")) := by decide +kernel

end Verif.Http.Query
