import Verif.Http.MultiModel
import Verif.Http.MultiSpec
import Verif.Http.RespMain

/-!
# Lemmas for C76
-/

namespace Verif.Http

open Spec

/-! ## Finding a boundary -/

theorem find_none {b : Str} (hb : b ≠ []) : ∀ s : Str, find b s = none ↔ ¬Occurs b s := by
  intro s
  induction s with
  | nil =>
    refine ⟨fun _ => ?_, fun _ => rfl⟩
    rintro ⟨x, y, h⟩
    have hl := congrArg List.length h
    simp only [List.length_nil, List.length_append] at hl
    exact hb (List.length_eq_zero_iff.mp (by omega))
  | cons c t ih =>
    unfold find
    by_cases hp : b <+: c :: t
    · rw [if_pos hp]
      obtain ⟨y, hy⟩ := hp
      simp only [reduceCtorEq, false_iff, not_not]
      exact ⟨[], y, by simpa using hy.symm⟩
    · rw [if_neg hp, Option.map_eq_none_iff, ih, not_iff_not]
      constructor
      · rintro ⟨x, y, h⟩
        exact ⟨c :: x, y, by simp [h]⟩
      · rintro ⟨x, y, h⟩
        cases x with
        | nil => exact absurd ⟨y, by simpa using h.symm⟩ hp
        | cons d x =>
          simp only [List.cons_append, List.cons.injEq] at h
          exact ⟨x, y, h.2⟩

theorem find_at {b t : Str} (hb : b ≠ []) (ht : b <+: t) : ∀ x : Str, (∀ i < x.length, ¬b <+: (x ++ t).drop i) → find b (x ++ t) = some x.length := by
  intro x
  induction x with
  | nil =>
    intro _
    cases t with
    | nil => exact absurd (List.prefix_nil.mp ht) hb
    | cons c t => simp [find, ht]
  | cons c x ih =>
    intro h
    have h0 := h 0 (by simp)
    simp only [List.drop_zero, List.cons_append] at h0
    rw [List.cons_append, find, if_neg h0, ih (fun i hi => by simpa using h (i + 1) (by simpa using hi))]
    rfl

/-- A delimiter is not found over the end of a part. -/
theorem delim_not {b p t : Str} (hb : 13 ∉ b) (hp : ¬Occurs (delim b) p) : ∀ i < p.length, ¬delim b <+: (p ++ (delim b ++ t)).drop i := by
  intro i hi hpre
  have hi' : i ≤ p.length := by omega
  rw [List.drop_append_of_le_length hi'] at hpre
  obtain ⟨z, hz⟩ := hpre
  rcases List.append_eq_append_iff.mp hz with ⟨w, hw1, hw2⟩ | ⟨w, hw1, hw2⟩
  · refine hp ⟨p.take i, w, ?_⟩
    rw [List.append_assoc, ← hw1, List.take_append_drop]
  · cases w with
    | nil =>
      simp only [List.append_nil] at hw1
      exact hp ⟨p.take i, [], by rw [List.append_nil, hw1, List.take_append_drop]⟩
    | cons c w =>
      have hc : c = 13 := by
        have := congrArg List.head? hw2
        simpa [delim] using this.symm
      subst hc
      have hne : p.drop i ≠ [] := by simp; omega
      obtain ⟨d, q, hd⟩ := List.exists_cons_of_ne_nil hne
      rw [hd] at hw1
      simp only [delim, List.cons_append, List.nil_append, List.cons.injEq] at hw1
      have h13 : (13 : UInt8) ∈ (10 : UInt8) :: 45 :: 45 :: b := by rw [hw1.2]; simp
      simp [hb] at h13

theorem delim_find {b p t : Str} (hb : 13 ∉ b) (hp : ¬Occurs (delim b) p) : find (delim b) (p ++ (delim b ++ t)) = some p.length :=
  find_at (by simp [delim]) ⟨t, rfl⟩ p (delim_not hb hp)

/-- What comes before the first delimiter: lines, none of which has the boundary. -/
theorem first_find {b pre t : Str} (hb : 13 ∉ b) (hpre : pre = [] ∨ ∃ q, pre = q ++ crlf) (ho : ¬Occurs ([45, 45] ++ b) pre) :
    find ([45, 45] ++ b ++ [13, 10]) (pre ++ ([45, 45] ++ b ++ [13, 10] ++ t)) = some pre.length := by
  refine find_at (by simp) ⟨t, rfl⟩ pre ?_
  intro i hi hp
  have hi' : i ≤ pre.length := by omega
  rw [List.drop_append_of_le_length hi'] at hp
  obtain ⟨z, hz⟩ := hp
  rcases List.append_eq_append_iff.mp hz with ⟨w, hw1, hw2⟩ | ⟨w, hw1, hw2⟩
  · refine ho ⟨pre.take i, [13, 10] ++ w, ?_⟩
    have : pre.take i ++ ([45, 45] ++ b) ++ ([13, 10] ++ w) = pre.take i ++ (([45, 45] ++ b ++ [13, 10]) ++ w) := by simp
    rw [this, ← hw1, List.take_append_drop]
  · rcases hpre with rfl | ⟨q, rfl⟩
    · simp at hi
    · by_cases hq : i ≤ q.length
      · rw [List.drop_append_of_le_length hq] at hw1
        have h13 : [45, 45] ++ b ++ [13, 10] = q.drop i ++ 13 :: (10 :: w) := by rw [hw1]; simp [crlf]
        have e1 : ([45, 45] ++ b ++ [13, 10]).takeWhile (· ≠ 13) = [45, 45] ++ b := by
          have : [45, 45] ++ b ++ [13, 10] = ([45, 45] ++ b) ++ 13 :: [10] := by simp
          rw [this, List.takeWhile_append_of_pos (by intro c hc; simp only [List.mem_append, List.mem_cons, List.not_mem_nil, or_false, ne_eq, decide_eq_true_eq] at hc ⊢; rcases hc with (rfl | rfl) | hc; decide; decide; rintro rfl; exact hb hc)]
          simp
        have hqi : 13 ∉ q.drop i := by
          intro hm
          obtain ⟨u, v, huv⟩ := List.append_of_mem hm
          rw [huv] at h13
          have hlen := congrArg List.length h13
          have : ([45, 45] ++ b ++ [13, 10]).count 13 = 1 := by simp [List.count_eq_zero_of_not_mem hb]
          rw [h13] at this
          simp [List.count_append, List.count_cons] at this
          omega
        have e2 : ([45, 45] ++ b ++ [13, 10]).takeWhile (· ≠ 13) = q.drop i := by
          rw [h13, List.takeWhile_append_of_pos (by intro c hc; simp only [ne_eq, decide_eq_true_eq]; rintro rfl; exact hqi hc)]
          simp
        refine ho ⟨q.take i, crlf, ?_⟩
        rw [← e1, e2, List.take_append_drop]
      · simp only [List.length_append, crlf, List.length_cons, List.length_nil] at hi
        have hq' : i = q.length + 1 := by omega
        subst hq'
        have e0 : (q ++ crlf).drop (q.length + 1) = [10] := by rw [← List.drop_drop, List.drop_left]; rfl
        rw [e0] at hw1
        simp at hw1

/-! ## Boundaries of requests -/

def boundaryFull : Str := boundaryInit ++ boundaryExtra

theorem occurs_mono {a b s : Str} (h : a <+: b) (ho : Occurs b s) : Occurs a s := by
  obtain ⟨z, rfl⟩ := h
  obtain ⟨x, y, rfl⟩ := ho
  exact ⟨x, z ++ y, by simp⟩

theorem boundary_step : ∀ j < 15, boundaryFull.take (8 + 4 * j) ++ (boundaryExtra.drop ((boundaryFull.take (8 + 4 * j)).length - boundaryInit.length)).take 4 =
    boundaryFull.take (8 + 4 * (j + 1)) := by decide +kernel

theorem boundary_length : ∀ j < 16, (boundaryFull.take (8 + 4 * j)).length = 8 + 4 * j ∧ 13 ∉ boundaryFull.take (8 + 4 * j) ∧
    boundaryFull.take (8 + 4 * j) ≠ [] ∧ (boundaryFull.take (8 + 4 * j)).head? ≠ some 34 := by decide +kernel

theorem boundaryFor_spec (content : Str) : ∀ (k j : Nat), j < 16 → 16 ≤ k + j →
    (∃ j', j ≤ j' ∧ j' < 16 ∧ boundaryFor k (boundaryFull.take (8 + 4 * j)) content = .ok (boundaryFull.take (8 + 4 * j')) ∧
      ¬Occurs (boundaryFull.take (8 + 4 * j')) content) ∨
    (boundaryFor k (boundaryFull.take (8 + 4 * j)) content = .error .assert ∧ Occurs boundaryFull content) := by
  intro k
  induction k with
  | zero => intro j h1 h2; omega
  | succ k ih =>
    intro j hj hk
    obtain ⟨hl, _, hne, _⟩ := boundary_length j hj
    unfold boundaryFor
    cases hf : find (boundaryFull.take (8 + 4 * j)) content with
    | none => exact .inl ⟨j, by omega, hj, rfl, (find_none hne _).mp hf⟩
    | some i =>
      have hlen : boundaryInit.length + boundaryExtra.length = 68 := by decide +kernel
      simp only [hlen]
      by_cases h68 : (boundaryFull.take (8 + 4 * j)).length = 68
      · rw [if_pos h68]
        refine .inr ⟨rfl, ?_⟩
        have hj' : j = 15 := by omega
        subst hj'
        have e : boundaryFull.take (8 + 4 * 15) = boundaryFull := by decide +kernel
        rw [e] at hf
        apply Classical.byContradiction
        intro ho
        rw [(find_none (by decide +kernel) _).mpr ho] at hf
        simp at hf
      · rw [if_neg h68, boundary_step j (by omega)]
        rcases ih (j + 1) (by omega) (by omega) with ⟨j', h1, h2⟩ | h
        · exact .inl ⟨j', by omega, h2⟩
        · exact .inr h

/-- The boundary is as long as it has to be, and in none of the parts. -/
def ReqInv (m : ReqMulti) : Prop := ∃ j < 16, m.boundary = boundaryFull.take (8 + 4 * j) ∧ ∀ c ∈ m.contents, ¬Occurs m.boundary c

theorem take_prefix {s : Str} {i j : Nat} (h : i ≤ j) : s.take i <+: s.take j := by
  rw [List.prefix_take_iff]
  exact ⟨List.take_prefix _ _, by simp; omega⟩

theorem reqAdd_spec {m : ReqMulti} (h : ReqInv m) (c : Str) :
    (∃ m', reqAdd m c = .ok m' ∧ ReqInv m' ∧ m'.contents = m.contents ++ [c]) ∨ (reqAdd m c = .error .assert ∧ Occurs boundaryFull c) := by
  obtain ⟨j, hj, hb, ho⟩ := h
  rcases boundaryFor_spec c 16 j hj (by omega) with ⟨j', h1, h2, h3, h4⟩ | ⟨h1, h2⟩
  · refine .inl ⟨⟨_, m.contents ++ [c]⟩, by unfold reqAdd; rw [hb, h3]; rfl, ⟨j', h2, rfl, ?_⟩, rfl⟩
    intro x hx
    rcases List.mem_append.mp hx with hx | hx
    · intro hox
      refine ho x hx (occurs_mono ?_ hox)
      rw [hb]
      exact take_prefix (by omega)
    · rw [List.mem_singleton.mp hx]
      exact h4
  · exact .inr ⟨by unfold reqAdd; rw [hb, h1]; rfl, h2⟩

theorem reqAddAll_spec (cs : List Str) : ∀ {m : ReqMulti}, ReqInv m →
    (∃ m', reqAddAll m cs = .ok m' ∧ ReqInv m' ∧ m'.contents = m.contents ++ cs) ∨ (reqAddAll m cs = .error .assert ∧ ∃ c ∈ cs, Occurs boundaryFull c) := by
  induction cs with
  | nil => intro m h; exact .inl ⟨m, rfl, h, by simp⟩
  | cons c cs ih =>
    intro m h
    rcases reqAdd_spec h c with ⟨m1, h1, h2, h3⟩ | ⟨h1, h2⟩
    · rcases ih h2 with ⟨m2, g1, g2, g3⟩ | ⟨g1, x, hx, g2⟩
      · refine .inl ⟨m2, ?_, g2, by rw [g3, h3]; simp⟩
        unfold reqAddAll
        rw [h1]
        simpa [bind, Except.bind] using g1
      · refine .inr ⟨?_, x, by simp [hx], g2⟩
        unfold reqAddAll
        rw [h1]
        simpa [bind, Except.bind] using g1
    · refine .inr ⟨?_, c, by simp, h2⟩
      unfold reqAddAll
      rw [h1]
      rfl

theorem reqInv_new : ReqInv reqNew := ⟨0, by omega, by decide +kernel, by simp [reqNew]⟩

theorem reqParts_body (b : Str) : ∀ cs : List Str, cs ≠ [] → [13, 10] ++ reqParts (delim b) cs = body b [45, 45, 13, 10] cs := by
  intro cs
  induction cs with
  | nil => simp
  | cons c cs ih =>
    intro _
    cases cs with
    | nil => simp [reqParts, body]
    | cons d cs =>
      have := ih (by simp)
      rw [body, ← this]
      simp [reqParts]

/-! ## Reading parts -/

theorem multiPart_step {b p t : Str} (hb : 13 ∉ b) (hp : ¬Occurs (delim b) p) :
    multiPart ⟨delim b, [45, 45] ++ b ++ [13, 10] ++ p ++ (delim b ++ t)⟩ = (⟨delim b, [45, 45] ++ b ++ t⟩, some p) := by
  have e : ([45, 45] ++ b ++ [13, 10] ++ p ++ (delim b ++ t)).drop (delim b).length = p ++ (delim b ++ t) := by
    have : [45, 45] ++ b ++ [13, 10] ++ p ++ (delim b ++ t) = ([45, 45] ++ b ++ [13, 10]) ++ (p ++ (delim b ++ t)) := by simp
    rw [this, List.drop_left']
    simp [delim]
  unfold multiPart
  simp only [e, delim_find hb hp]
  have e2 : (p ++ (delim b ++ t)).drop (p.length + 2) = [45, 45] ++ b ++ t := by
    rw [← List.drop_drop, List.drop_left]
    simp [delim]
  rw [e2, List.take_left]

theorem multiPart_end {b t : Str} (ht : ¬Occurs (delim b) t) :
    (multiPart ⟨delim b, [45, 45] ++ b ++ t⟩).2 = none := by
  have e : ([45, 45] ++ b ++ t).drop (delim b).length = t.drop 2 := by
    have hl : (delim b).length = ([45, 45] ++ b).length + 2 := by simp [delim]
    rw [hl, ← List.drop_drop, List.drop_left]
  unfold multiPart
  have hn : find (delim b) (t.drop 2) = none := by
    rw [find_none (by simp [delim])]
    rintro ⟨x, y, h⟩
    exact ht ⟨t.take 2 ++ x, y, by
      have e' : t = t.take 2 ++ t.drop 2 := (List.take_append_drop 2 t).symm
      rw [h] at e'
      simpa using e'⟩
  simp only [e, hn]

theorem multiRaw_spec {b t : Str} (hb : 13 ∉ b) (ht : ¬Occurs (delim b) t) : ∀ (ps : List Str) (k : Nat), ps.length < k → (∀ p ∈ ps, ¬Occurs (delim b) p) →
    multiRaw k ⟨delim b, [45, 45] ++ b ++ body b t ps⟩ = ps := by
  intro ps
  induction ps with
  | nil =>
    intro k hk _
    cases k with
    | zero => simp at hk
    | succ k =>
      have := multiPart_end ht
      unfold multiRaw body
      cases hm : multiPart ⟨delim b, [45, 45] ++ b ++ t⟩ with
      | mk m o => rw [hm] at this; simp only at this; subst this; rfl
  | cons p ps ih =>
    intro k hk hps
    cases k with
    | zero => simp at hk
    | succ k =>
      have := multiPart_step (t := body b t ps) hb (hps p (by simp))
      have e : [45, 45] ++ b ++ body b t (p :: ps) = [45, 45] ++ b ++ [13, 10] ++ p ++ (delim b ++ body b t ps) := by simp [body]
      unfold multiRaw
      rw [e, this]
      simp only
      rw [ih k (by simpa using hk) (fun q hq => hps q (by simp [hq]))]

/-- The boundary in the type, with or without quotes. -/
theorem boundaryOf_plain {b : Str} (h : b.head? ≠ some 34) : boundaryOf (some (typeMulti ++ b)) = .ok b := by
  unfold boundaryOf
  simp only [List.prefix_append, if_true, List.drop_left]
  rw [if_neg h]

theorem boundaryOf_quoted (b : Str) : boundaryOf (some (typeMulti ++ ([34] ++ b ++ [34]))) = .ok b := by
  unfold boundaryOf
  simp only [List.prefix_append, if_true, List.drop_left]
  rw [if_pos (by simp), if_neg (by simp)]
  simp

theorem multiNew_spec {b pre t : Str} {ps : List Str} {ty : Option Str} (hty : boundaryOf ty = .ok b) (hb : 13 ∉ b) (hpre : pre = [] ∨ ∃ q, pre = q ++ crlf)
    (ho : ¬Occurs ([45, 45] ++ b) pre) (hps : ps ≠ []) : multiNew (multi b pre ps t) ty = .ok ⟨delim b, [45, 45] ++ b ++ body b t ps⟩ := by
  obtain ⟨p, ps, rfl⟩ := List.exists_cons_of_ne_nil hps
  have e : multi b pre (p :: ps) t = pre ++ ([45, 45] ++ b ++ [13, 10] ++ (p ++ (delim b ++ body b t ps))) := by simp [multi, body]
  unfold multiNew
  rw [hty]
  simp only [bind, Except.bind]
  rw [e, first_find hb hpre ho]
  simp only [List.drop_left, pure, Except.pure, delim]
  simp [body, delim]

/-! ## The head of a part -/

theorem line_any {l w : Str} {cap : Nat} (e a : Bool) (hl : 10 ∉ l) (hcap : l.length + 1 ≤ cap) :
    Conn.line ⟨l ++ [10] ++ w, e, cap⟩ a = .ok (⟨w, e, cap⟩, l) := by
  have e1 : l ++ [10] ++ w = l ++ 10 :: w := by simp
  have hall : ∀ c ∈ l, (decide (c ≠ 10)) = true := by intro c hc; simp only [ne_eq, decide_eq_true_eq]; rintro rfl; exact hl hc
  have etw : (l ++ 10 :: w).takeWhile (· ≠ 10) = l := by
    rw [List.takeWhile_append_of_pos hall]
    simp
  unfold Conn.line
  rw [if_pos]
  · simp only [e1, etw]
    rw [← List.drop_drop, List.drop_left]
    rfl
  · simp only [e1]
    rw [List.take_append, List.mem_append]
    right
    obtain ⟨n, hn⟩ : ∃ n, cap - l.length = n + 1 := ⟨cap - l.length - 1, by omega⟩
    rw [hn]
    simp

structure PartInv (r0 : Resp) (fs : List Field) (r : Resp) : Prop where
  code : r.code = r0.code
  reason : r.reason = r0.reason
  chunked : r.chunked = false
  header : ∀ k, get r.header k = joined ((valuesOf fs k).map (stored k))

theorem part_step {cap : Nat} {r0 r : Resp} {fs : List Field} {f : Field} (hr : PartInv r0 fs r) (h : f.Valid cap)
    (hte : f.key ≠ te) (hcl : f.key = cl → ∃ n, Num.Numeral 10 f.value n ∧ n < 2 ^ 64) :
    ∃ r', headerParse r (Field.core f) = .ok r' ∧ PartInv r0 (fs ++ [f]) r' := by
  obtain ⟨p1, p2, p3⟩ := field_parse h
  have h0 : 0 ∉ f.value := fun h' => (h.value.2 _ h').2 rfl
  have ne3 : cl ≠ conn := by decide +kernel
  have hdr : ∀ k, get (headerAdd r.header f.key (stored f.key f.value)) k = joined ((valuesOf (fs ++ [f]) k).map (stored k)) := by
    intro k
    have hz : 0 ∉ stored f.key f.value := by
      unfold stored
      split
      · exact zero_not_lower h0
      · exact h0
    rw [get_headerAdd _ _ _ _ hz, valuesOf_concat, hr.header]
    by_cases hk : f.key = k
    · subst hk
      simp only [if_true, List.map_append, List.map_cons, List.map_nil]
      rw [joined_concat]
      cases joined ((valuesOf fs f.key).map (stored f.key)) <;> rfl
    · rw [if_neg (fun h => hk h.symm), if_neg hk, hr.header]
  unfold headerParse
  rw [p1]
  simp only [p2, p3]
  rw [kte, kcl, kconn, vclose, if_neg hte]
  by_cases k2 : f.key = cl
  · obtain ⟨n, hnum, hlt⟩ := hcl k2
    rw [if_pos k2, cstr_all h0, (Num.c51_numeral 10 _ n hnum).1, if_pos hlt]
    refine ⟨_, rfl, hr.code, hr.reason, hr.chunked, ?_⟩
    intro k
    rw [← hdr k]
    have hs : stored f.key f.value = f.value := by
      unfold stored
      rw [if_neg]
      rintro (h | h)
      · exact hte h
      · exact ne3 (k2.symm.trans h)
    rw [hs]
  · rw [if_neg k2]
    by_cases k3 : f.key = conn
    · rw [if_pos k3]
      refine ⟨_, rfl, hr.code, hr.reason, hr.chunked, ?_⟩
      intro k; rw [← hdr k]; simp [stored, k3, lower_eq]
    · rw [if_neg k3]
      refine ⟨_, rfl, hr.code, hr.reason, hr.chunked, ?_⟩
      intro k; rw [← hdr k]; simp [stored, hte, k3]

def FieldsOk (cap : Nat) (gs : List Field) : Prop :=
  ∀ f ∈ gs, f.Valid cap ∧ f.key ≠ te ∧ (f.key = cl → ∃ n, Num.Numeral 10 f.value n ∧ n < 2 ^ 64)

/-- Fields up to the blank line, or up to the end. -/
theorem partHead_spec {cap : Nat} {r0 : Resp} {blank : Bool} {w : Str} (hcap : 2 ≤ cap) (gs : List Field) : ∀ (k : Nat) (fs : List Field) (r : Resp), gs.length < k →
    PartInv r0 fs r → FieldsOk cap gs → ∃ r' e, headerRead true k r ⟨(gs.map Field.wire).flatten ++ (if blank then crlf ++ w else []), false, cap⟩ =
      some (.ok (r', ⟨if blank then w else [], e, cap⟩)) ∧ PartInv r0 (fs ++ gs) r' ∧ (blank = true → e = false) := by
  induction gs with
  | nil =>
    intro k fs r hk hr _
    cases k with
    | zero => simp at hk
    | succ k =>
      cases blank with
      | true =>
        have he := line_any (l := [13]) (w := w) (cap := cap) false true (by decide) (by simpa using hcap)
        have ht : trim [13] = [] := by decide
        refine ⟨r, false, ?_, by simpa using hr, fun _ => rfl⟩
        have e1 : ([].map Field.wire).flatten ++ (if true then crlf ++ w else []) = [13] ++ [10] ++ w := by simp [crlf]
        rw [e1]
        simp only [headerRead, he, ht, if_true]
        rw [if_neg (by simp [hr.chunked])]
      | false =>
        refine ⟨r, true, ?_, by simpa using hr, by simp⟩
        have ht : trim [] = [] := by decide
        have he : Conn.line ⟨[], false, cap⟩ true = .ok (⟨[], true, cap⟩, []) := by
          unfold Conn.line
          rw [if_neg (by simp), if_neg (by simp; omega)]
        have e1 : ([].map Field.wire).flatten ++ (if false = true then crlf ++ w else []) = [] := by simp
        rw [e1]
        simp only [headerRead, he, ht, if_true]
        rw [if_neg (by simp [hr.chunked])]
        simp
  | cons f gs ih =>
    intro k fs r hk hr hfs
    cases k with
    | zero => simp at hk
    | succ k =>
      obtain ⟨hf, h1, h2⟩ := hfs f (by simp)
      obtain ⟨e1, e2, e3⟩ := field_line hf
      obtain ⟨r', hp, hr'⟩ := part_step hr hf h1 h2
      have hne : Field.core f ≠ [] := by simp [Field.core]
      obtain ⟨r'', e, g1, g2, g3⟩ := ih k (fs ++ [f]) r' (by simpa using hk) hr' (fun g hg => hfs g (by simp [hg]))
      refine ⟨r'', e, ?_, by simpa using g2, g3⟩
      have he := line_any (w := (gs.map Field.wire).flatten ++ (if blank then crlf ++ w else [])) false true e2 e3
      rw [← e1] at he
      have e4 : ((f :: gs).map Field.wire).flatten ++ (if blank then crlf ++ w else []) = f.wire ++ ((gs.map Field.wire).flatten ++ (if blank then crlf ++ w else [])) := by simp
      rw [e4]
      simp only [headerRead, he, field_trim hf, if_neg hne, hp]
      exact g1

theorem statusParse_any {l : Str} {x : Resp} (r : Resp) (h : statusParse Resp.new l = .ok x) :
    ∃ y, statusParse r l = .ok y ∧ y.code = x.code ∧ y.reason = x.reason ∧ y.chunked = r.chunked ∧ y.header = r.header := by
  unfold statusParse at h ⊢
  split at h
  · cases h
  · rename_i h1
    rw [if_neg h1]
    simp only at h ⊢
    split at h
    · cases h
    · rename_i h2
      rw [if_neg h2]
      split at h
      · cases h
      · rename_i h3
        rw [if_neg h3]
        split at h
        · cases h
        · rename_i h4
          rw [if_neg h4]
          cases hc : Num.toUIntBase 10 ((l.dropLast.drop 9).take 3) with
          | error e => rw [hc] at h; cases h
          | ok n =>
            rw [hc] at h
            simp only [bind, Except.bind, pure, Except.pure, Except.ok.injEq] at h ⊢
            refine ⟨_, rfl, ?_, ?_, rfl, rfl⟩ <;> rw [← h]

/-- The response of a part, as a message on its own. -/
def Part.msg (p : Part) : Msg := ⟨p.old, p.code, p.reason, [], if p.old then .toClose [] else .none⟩

theorem part_msg {cap : Nat} {p : Part} (h : p.Valid cap) : (Part.msg p).Valid cap := by
  refine ⟨h.room, h.code, h.reason, h.status, by simp [Part.msg], ?_⟩
  unfold Framed Part.msg
  cases ho : p.old <;> simp [Msg.values, Msg.closes]

theorem partRead_spec {cap fuel : Nat} {p : Part} (h : p.Valid cap) (hf : p.wire.length < fuel) : ∃ r, partRead fuel cap p.wire = some (.ok (r, p.data)) ∧
    Num.Numeral 10 p.code r.code ∧ r.reason = p.reason ∧ ∀ k, get r.header k = p.field k := by
  have hlenF : ∀ gs : List Field, gs.length ≤ (gs.map Field.wire).flatten.length := by
    intro gs
    induction gs with
    | nil => simp
    | cons f gs ih => simp only [List.map_cons, List.flatten_cons, List.length_append, List.length_cons, Field.wire, crlf]; omega
  have l1 := hlenF p.fields
  have l2 := hlenF p.inner
  have hl : p.wire.length = (p.fields.map Field.wire).flatten.length + 2 + p.statusLine.length + (p.inner.map Field.wire).flatten.length +
      (if p.blank then crlf ++ p.data else []).length := by
    simp only [Part.wire, List.length_append, crlf, List.length_cons, List.length_nil]
  have f1 : FieldsOk cap p.fields := fun f hf => ⟨h.fields f (by simp [Part.all, hf]), h.plain f (by simp [Part.all, hf]), h.length f (by simp [Part.all, hf])⟩
  have f2 : FieldsOk cap p.inner := fun f hf => ⟨h.fields f (by simp [Part.all, hf]), h.plain f (by simp [Part.all, hf]), h.length f (by simp [Part.all, hf])⟩
  obtain ⟨r1, e1, g1, i1, he1⟩ := partHead_spec (r0 := Resp.new) (blank := true)
    (w := p.statusLine ++ ((p.inner.map Field.wire).flatten ++ (if p.blank then crlf ++ p.data else []))) h.room p.fields fuel [] Resp.new (by omega)
    ⟨rfl, rfl, rfl, fun k => rfl⟩ f1
  have he1 := he1 rfl
  subst he1
  obtain ⟨s1, s2, s3⟩ := status_line (part_msg h)
  obtain ⟨n, hn, hs⟩ := status_parse (part_msg h)
  obtain ⟨r2, hs2, c2, re2, ch2, hd2⟩ := statusParse_any r1 hs
  have hline := line_any (w := (p.inner.map Field.wire).flatten ++ (if p.blank then crlf ++ p.data else [])) false false s2 s3
  rw [← s1] at hline
  have hline' : Conn.line ⟨p.statusLine ++ ((p.inner.map Field.wire).flatten ++ (if p.blank then crlf ++ p.data else [])), false, cap⟩ false = _ := hline
  have hsr : statusRead r1 ⟨p.statusLine ++ ((p.inner.map Field.wire).flatten ++ (if p.blank then crlf ++ p.data else [])), false, cap⟩ =
      .ok (r2, ⟨(p.inner.map Field.wire).flatten ++ (if p.blank then crlf ++ p.data else []), false, cap⟩) := by
    unfold statusRead
    rw [hline']
    simp only [bind, Except.bind]
    rw [hs2]
    rfl
  obtain ⟨r3, e3, g3, i3, _⟩ := partHead_spec (r0 := r2) (blank := p.blank) (w := p.data) h.room p.inner fuel p.fields r2 (by omega)
    ⟨rfl, rfl, by rw [ch2, i1.chunked], fun k => by rw [hd2]; simpa using i1.header k⟩ f2
  refine ⟨r3, ?_, ?_, ?_, ?_⟩
  · have ew : p.wire = (p.fields.map Field.wire).flatten ++ (if true then crlf ++
        (p.statusLine ++ ((p.inner.map Field.wire).flatten ++ (if p.blank then crlf ++ p.data else []))) else []) := by simp [Part.wire]
    have hct : get r1.header kContentType = some typeHttp := by
      rw [i1.header]
      have ev : valuesOf ([] ++ p.fields) kContentType = [appHttp] := h.http
      rw [ev]
      decide +kernel
    have hdata : (if p.blank then p.data else []) = p.data := by
      cases hb : p.blank with
      | true => rfl
      | false => simp [h.data hb]
    unfold partRead
    rw [ew, g1]
    simp only [if_true, hct, ne_eq, not_true_eq_false, if_false, hsr, g3, i3.chunked, hdata]
    rfl
  · rw [i3.code, c2]; exact hn
  · rw [i3.reason, re2]; rfl
  · intro k
    rw [i3.header]
    rfl

end Verif.Http
