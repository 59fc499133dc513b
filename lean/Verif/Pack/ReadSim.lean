import Verif.Pack.ReadLemmas

/-! # Each reading function finds what is in the document -/

namespace Verif.Pack

open Varint (enc)

def RelS (r : R) (st : List Cur) (sfx : Str) : Prop :=
  match st with
  | [] => r.stack = [] ∧ r.rest = sfx
  | c :: cs => Rel r c cs sfx

/-- The reader just after the tag of the field `v`, which is followed by `fs`. -/
structure At (r : R) (c : Cur) (cs : List Cur) (sfx : Str) (v : Val) : Prop where
  cap : CapOk r.io
  stack : r.stack = frameOf c :: cs.map frameOf
  id : r.nextId = 0
  value : r.nextValue = v.raw
  size : r.nextSize = v.size
  rest : r.rest = payload v ++ (encD c.last c.fields ++ 0 :: tailBytes sfx cs)
  unseen : c.seen = false
  ok : CurOk c
  vok : ValOk v
  oks : ∀ c' ∈ cs, CurOk c' ∧ c'.seen = false

theorem finish_found {r : R} {c : Cur} {cs : List Cur} {sfx : Str} (h : Rel r c cs sfx) (hs : c.seen = true) {t : Nat} {v : Val}
    {fs : Doc} (hf : c.fields = (t, v) :: fs) :
    (∀ ty, v.ty ≠ ty → finish t (some ty) r = .error .format) ∧
    ∃ r', finish t (some v.ty) r = .ok r' ∧ At r' { c with last := t, seen := false, fields := fs } cs sfx v := by
  obtain ⟨hc, hst, ht, hok, hoks⟩ := h
  rcases top_seen ht hs with ⟨h0, _⟩ | ⟨i', v', fs', h1, h2, h3, h4, h5, h6⟩
  · rw [hf] at h0; cases h0
  · rw [hf] at h1
    simp only [List.cons.injEq, Prod.mk.injEq] at h1
    obtain ⟨⟨rfl, rfl⟩, rfl⟩ := h1
    have hd := hok.1
    rw [hf] at hd
    unfold DocOk at hd
    obtain ⟨a1, a2, a3, a4⟩ := hd
    have hn : ¬ t < r.nextId := by omega
    constructor
    · intro ty hty
      have hx : some v.ty ≠ some ty := by simpa using hty
      simp only [finish, hn, h3, if_false, hx, if_true, ne_eq, not_false_eq_true]
    · simp only [finish, hn, h3, if_false, ne_eq, not_true, setLast, hst]
      exact ⟨_, rfl, ⟨hc, by simp [frameOf, h2], rfl, h4, h5, h6, rfl, ⟨a4, a2⟩, a3, hoks⟩⟩

theorem specGet_cases {ty : Ty} {id : Nat} {c : Cur} {res : Res (Option Val × Cur)} (h : specGet ty id c = some res) :
    (∃ e, specSeek c id = some (.error e) ∧ res = .error e) ∨
    ∃ t c1, specSeek c id = some (.ok (t, c1)) ∧
      ((∃ v fs, c1.fields = (t, v) :: fs ∧ v.ty = ty ∧ res = .ok (some v, { c1 with last := t, seen := false, fields := fs })) ∨
       (∃ v fs, c1.fields = (t, v) :: fs ∧ v.ty ≠ ty ∧ res = .error .format) ∨
       (c1.fields.head?.map (·.1) ≠ some t ∧ res = .ok (none, { c1 with last := t }))) := by
  unfold specGet at h
  split at h
  · simp at h
  · rename_i e he
    simp only [Option.some.injEq] at h
    exact Or.inl ⟨e, he, h.symm⟩
  · rename_i t c1 hc
    refine Or.inr ⟨t, c1, hc, ?_⟩
    split at h
    · rename_i i v fs hf
      split at h
      · rename_i hi
        subst hi
        split at h
        · simp only [Option.some.injEq] at h
          exact Or.inl ⟨v, fs, hf, ‹_›, h.symm⟩
        · simp only [Option.some.injEq] at h
          exact Or.inr (Or.inl ⟨v, fs, hf, ‹_›, h.symm⟩)
      · simp only [Option.some.injEq] at h
        exact Or.inr (Or.inr ⟨by rw [hf]; simpa using ‹_›, h.symm⟩)
    · rename_i hf
      simp only [Option.some.injEq] at h
      exact Or.inr (Or.inr ⟨by rw [hf]; simp, h.symm⟩)

/-- A field that is not there. -/
theorem missing_rel {r : R} {c : Cur} {cs : List Cur} {sfx : Str} (h : Rel r c cs sfx) (hs : c.seen = true) {t : Nat}
    (ht : t < idLimit) (hle : t ≤ r.nextId) (hf : c.fields.head?.map (·.1) ≠ some t) :
    t < r.nextId ∧ Rel (setLast r t) { c with last := t } cs sfx := by
  obtain ⟨hc, hst, htop, hok, hoks⟩ := h
  have hlt : t < r.nextId := by
    rcases top_seen htop hs with ⟨_, h2, _⟩ | ⟨i, v, fs, h1, h2, _⟩
    · rw [h2]; have : idLimit < uintMax := by decide
      omega
    · rw [h1] at hf
      simp at hf
      omega
  have hset : setLast r t = { r with stack := frameOf { c with last := t } :: cs.map frameOf } := by
    simp only [setLast, hst]; rfl
  rw [hset]
  refine ⟨hlt, ⟨hc, rfl, ?_, ⟨?_, ht⟩, hoks⟩⟩
  · unfold Top at htop ⊢
    simp only [hs, if_true] at htop ⊢
    exact htop
  · simp only
    rcases top_seen htop hs with ⟨h1, _⟩ | ⟨i, v, fs, h1, h2, _⟩
    · rw [h1]; unfold DocOk; trivial
    · have hd := hok.1
      rw [h1] at hd ⊢
      unfold DocOk at hd ⊢
      exact ⟨by omega, hd.2⟩

theorem finish_none {t : Nat} {r : R} : finish t none r = .ok r := by
  unfold finish; split <;> rfl

/-- After the search the field is found again at once. -/
theorem seek_again {c c1 : Cur} {id t : Nat} (h : specSeek c id = some (.ok (t, c1))) (h0 : 0 < t) (hlt : c1.last < t) :
    specSeek c1 t = some (.ok (t, c1)) := by
  unfold specSeek at h
  simp only at h
  generalize hT : (if id = 0 then c.last + 1 else id) = T at h
  split at h
  · simp at h
  split at h
  · simp at h
  split at h
  · rename_i h1 h2 h3
    simp only [Option.some.injEq, Except.ok.injEq, Prod.mk.injEq] at h
    obtain ⟨rfl, hc⟩ := h
    have e1 : (c.fields.dropWhile (·.1 < T)).takeWhile (·.1 < T) = [] := by
      cases hd : c.fields.dropWhile (·.1 < T) with
      | nil => rfl
      | cons a l =>
        have := List.head_dropWhile_not (fun f : Nat × Val => decide (f.1 < T)) (l := c.fields) (by rw [hd]; simp)
        simp only [hd, List.head_cons] at this
        simp [this]
    have e2 : (c.fields.dropWhile (·.1 < T)).dropWhile (·.1 < T) = c.fields.dropWhile (·.1 < T) := by
      cases hd : c.fields.dropWhile (·.1 < T) with
      | nil => rfl
      | cons a l =>
        have := List.head_dropWhile_not (fun f : Nat × Val => decide (f.1 < T)) (l := c.fields) (by rw [hd]; simp)
        simp only [hd, List.head_cons] at this
        simp [this]
    unfold specSeek
    have hf : c1.fields = c.fields.dropWhile (·.1 < T) := by rw [← hc]
    have hs : c1.seen = true := by rw [← hc]
    simp only
    rw [if_neg (show ¬ T = 0 by omega), if_neg (by omega), if_neg h2, hf, e1, e2]
    simp only [List.all_nil, if_true, lastId, List.getLast?_nil, Option.map_none, Option.getD_none]
    rw [← hf, ← hs]
  · simp at h

theorem readNull_sim {r : R} {c : Cur} {cs : List Cur} {sfx : Str} (h : Rel r c cs sfx) {id : Nat} :
    (∀ e, specSeek c id = some (.error e) → readNull r id = .error e) ∧
    (∀ t c1, specSeek c id = some (.ok (t, c1)) →
      (c1.fields.head?.map (·.1) = some t → ∃ r', readNull r id = .ok (false, t, r') ∧ Rel r' c1 cs sfx) ∧
      (c1.fields.head?.map (·.1) ≠ some t → ∃ r', readNull r id = .ok (true, t, r') ∧ Rel r' { c1 with last := t } cs sfx)) := by
  constructor
  · intro e he
    unfold readNull
    rw [readTag_err h none he]
    rfl
  · intro t c1 hc
    obtain ⟨r', q1, q2, q3, q4, q5, q6, _, q7⟩ := readTag_ok h none hc
    rw [finish_none] at q7
    constructor
    · intro hf
      refine ⟨r', ?_, q1⟩
      unfold readNull
      rw [q7]
      simp only [Except.map, bind, Except.bind]
      rw [if_neg]
      · rfl
      · rcases top_seen q1.top q2 with ⟨h1, _⟩ | ⟨i, v, fs, h1, h2, _⟩
        · rw [h1] at hf; simp at hf
        · rw [h1] at hf; simp at hf; omega
    · intro hf
      obtain ⟨h1, h2⟩ := missing_rel q1 q2 q6 q4 hf
      refine ⟨setLast r' t, ?_, h2⟩
      unfold readNull
      rw [q7]
      simp only [Except.map, bind, Except.bind]
      rw [if_pos h1]
      rfl

theorem readTag_get {r : R} {c : Cur} {cs : List Cur} {sfx : Str} (h : Rel r c cs sfx) {id t : Nat} {c1 : Cur}
    (hs : specSeek c id = some (.ok (t, c1))) {v : Val} {fs : Doc} (hf : c1.fields = (t, v) :: fs) :
    (∀ ty, v.ty ≠ ty → readTag r id (some ty) = .error .format) ∧
    ∃ r', readTag r id (some v.ty) = .ok (t, r') ∧ At r' { c1 with last := t, seen := false, fields := fs } cs sfx v := by
  constructor
  · intro ty hty
    obtain ⟨r', q1, q2, q3, q4, q5, q6, _, q7⟩ := readTag_ok h (some ty) hs
    rw [q7, (finish_found q1 q2 hf).1 ty hty]
    rfl
  · obtain ⟨r', q1, q2, q3, q4, q5, q6, _, q7⟩ := readTag_ok h (some v.ty) hs
    obtain ⟨r2, p1, p2⟩ := (finish_found q1 q2 hf).2
    refine ⟨r2, ?_, p2⟩
    rw [q7, p1]
    rfl

theorem readField_sim {α : Type} {r : R} {c : Cur} {cs : List Cur} {sfx : Str} (h : Rel r c cs sfx) {id : Nat} {ty : Ty}
    (get : R → Res (α × R)) {res : Res (Option Val × Cur)} (hg : specGet ty id c = some res) :
    (∀ e, res = .error e → readField r id ty get = .error e) ∧
    (∀ c', res = .ok (none, c') → ∃ r', readField r id ty get = .ok (none, r') ∧ Rel r' c' cs sfx) ∧
    (∀ v c', res = .ok (some v, c') → v.ty = ty ∧ ∃ r', At r' c' cs sfx v ∧
      readField r id ty get = (get r').map fun a => (some a.1, a.2)) := by
  rcases specGet_cases hg with ⟨e, he, rfl⟩ | ⟨t, c1, hc, h2⟩
  · refine ⟨?_, by simp, by simp⟩
    intro e' hee
    simp only [Except.error.injEq] at hee
    subst hee
    unfold readField
    rw [(readNull_sim h).1 e he]
    rfl
  · have hseek := (readNull_sim h (id := id)).2 t c1 hc
    obtain ⟨rx, q1, q2, q3, q4, q5, q6, q7⟩ := readTag_ok h none hc
    rcases h2 with ⟨v, fs, hf, hty, rfl⟩ | ⟨v, fs, hf, hty, rfl⟩ | ⟨hf, rfl⟩
    · refine ⟨by simp, by simp, ?_⟩
      intro v' c' hvc
      simp only [Except.ok.injEq, Prod.mk.injEq, Option.some.injEq] at hvc
      obtain ⟨rfl, rfl⟩ := hvc
      refine ⟨hty, ?_⟩
      obtain ⟨r1, e1, e2⟩ := hseek.1 (by rw [hf]; rfl)
      have hag := seek_again hc q5 q3
      obtain ⟨r2, e3, e4⟩ := (readTag_get e2 hag hf).2
      refine ⟨r2, e4, ?_⟩
      unfold readField
      rw [e1]
      simp only [bind, Except.bind, Bool.false_eq_true, if_false]
      rw [← hty, e3]
      simp only
      cases get r2 <;> rfl
    · refine ⟨?_, by simp, by simp⟩
      intro e' hee
      simp only [Except.error.injEq] at hee
      subst hee
      obtain ⟨r1, e1, e2⟩ := hseek.1 (by rw [hf]; rfl)
      have hag := seek_again hc q5 q3
      have := (readTag_get e2 hag hf).1 ty hty
      unfold readField
      rw [e1]
      simp only [bind, Except.bind, Bool.false_eq_true, if_false]
      rw [this]
    · refine ⟨by simp, ?_, by simp⟩
      intro c' hcc
      simp only [Except.ok.injEq, Prod.mk.injEq, true_and] at hcc
      subst hcc
      obtain ⟨r1, e1, e2⟩ := hseek.2 hf
      refine ⟨r1, ?_, e2⟩
      unfold readField
      rw [e1]
      simp only [bind, Except.bind, if_true]
      rfl

/-- After the tag of a value without bytes. -/
theorem at_rel_nil {r : R} {c : Cur} {cs : List Cur} {sfx : Str} {v : Val} (h : At r c cs sfx v) (hp : payload v = []) :
    Rel r c cs sfx := by
  refine ⟨h.cap, h.stack, ?_, h.ok, h.oks⟩
  simp only [Top, h.unseen, Bool.false_eq_true, if_false]
  refine ⟨h.id, ?_⟩
  rw [h.rest, hp]; rfl

/-- The bytes of a value are taken. -/
theorem at_take {r : R} {c : Cur} {cs : List Cur} {sfx : Str} {s : Scalar} (h : At r c cs sfx (.leaf s)) :
    ∃ r', takeLoop r.nextSize r r.nextSize = .ok (s.data, r') ∧ Rel r' c cs sfx := by
  have hz := h.size
  simp only [Val.size] at hz
  have hr := h.rest
  simp only [payload] at hr
  rw [takeLoop_eq _ _ r h.cap (Nat.le_refl _) (by rw [hz, hr]; simp)]
  have hd : r.rest.take r.nextSize = s.data := by rw [hz, hr]; simp
  rw [hd]
  refine ⟨_, rfl, ⟨h.cap, h.stack, ?_, h.ok, h.oks⟩⟩
  simp only [Top, h.unseen, Bool.false_eq_true, if_false]
  refine ⟨h.id, ?_⟩
  rw [hz, hr]; simp

theorem at_bytes {r : R} {c : Cur} {cs : List Cur} {sfx : Str} {s : Str} {k : Scalar} (h : At r c cs sfx (.leaf k))
    (hk : k = .str s ∨ k = .bin s) : ∃ r', getBytes r = .ok (s, r') ∧ Rel r' c cs sfx := by
  have hv := h.value
  by_cases hs : s = []
  · subst hs
    have : r.nextValue = 0 := by rw [hv]; rcases hk with rfl | rfl <;> rfl
    refine ⟨r, by unfold getBytes; rw [if_neg (by simpa using this)], at_rel_nil h ?_⟩
    rcases hk with rfl | rfl <;> rfl
  · have : r.nextValue = 1 := by rw [hv]; rcases hk with rfl | rfl <;> simp [Val.raw, Scalar.raw, hs]
    obtain ⟨r', h1, h2⟩ := at_take h
    refine ⟨r', ?_, h2⟩
    unfold getBytes
    rw [if_pos (by omega), h1]
    rcases hk with rfl | rfl <;> rfl

/-- What is claimed of a call. -/
def Sim (r : R) (op : ROp) (st : List Cur) (sfx : Str) : Prop :=
  ∀ res, specRead st op = some res →
    (∀ e, res = .error e → read r op = .error e) ∧
    (∀ o st', res = .ok (o, st') → ∃ r', read r op = .ok (o, r') ∧ RelS r' st' sfx)

/-- Calls that read a value. -/
theorem field_sim {α : Type} {r : R} {c : Cur} {cs : List Cur} {sfx : Str} (h : Rel r c cs sfx) {id : Nat} {ty : Ty}
    (get : R → Res (α × R)) (dflt : Out) (mk : Option α → Out) (hmk : mk none = dflt)
    (hget : ∀ r' c' v, v.ty = ty → At r' c' cs sfx v → ∃ a r2, get r' = .ok (a, r2) ∧ Rel r2 c' cs sfx ∧ mk (some a) = outOf dflt (some v))
    {res : Res (Out × List Cur)} (hs : specField ty id dflt (c :: cs) = some res) :
    (∀ e, res = .error e → (readField r id ty get).map (fun a => (mk a.1, a.2)) = .error e) ∧
    (∀ o st', res = .ok (o, st') → ∃ r', (readField r id ty get).map (fun a => (mk a.1, a.2)) = .ok (o, r') ∧ RelS r' st' sfx) := by
  unfold specField at hs
  simp only at hs
  split at hs
  · simp at hs
  · rename_i e he
    simp only [Option.some.injEq] at hs
    subst hs
    refine ⟨?_, by simp⟩
    intro e' hee
    simp only [Except.error.injEq] at hee
    subst hee
    rw [(readField_sim h get he).1 e rfl]
    rfl
  · rename_i v c' hv
    simp only [Option.some.injEq] at hs
    subst hs
    refine ⟨by simp, ?_⟩
    intro o st' ho
    simp only [Except.ok.injEq, Prod.mk.injEq] at ho
    obtain ⟨rfl, rfl⟩ := ho
    obtain ⟨_, f2, f3⟩ := readField_sim h get hv
    cases v with
    | none =>
      obtain ⟨r', e1, e2⟩ := f2 c' rfl
      refine ⟨r', ?_, e2⟩
      rw [e1]
      simp only [Except.map, hmk, outOf]
    | some v =>
      obtain ⟨hty, r', e1, e2⟩ := f3 v c' rfl
      obtain ⟨a, r2, g1, g2, g3⟩ := hget r' c' v hty e1
      refine ⟨r2, ?_, g2⟩
      rw [e2, g1]
      simp only [Except.map, g3]

theorem scalar_get {r : R} {c : Cur} {cs : List Cur} {sfx : Str} {v : Val} (h : At r c cs sfx v) (hp : payload v = []) {α : Type} (f : R → α) :
    ∃ a r2, (Except.ok (f r, r) : Res (α × R)) = .ok (a, r2) ∧ Rel r2 c cs sfx ∧ a = f r := ⟨f r, r, rfl, at_rel_nil h hp, rfl⟩

theorem map_getD {α : Type} (x : Res (Option α × R)) (d : α) (f : α → Out) :
    ((do let (v, r) ← x; pure (v.getD d, r)) : Res (α × R)).map (fun a => (f a.1, a.2)) = x.map fun a => (f (a.1.getD d), a.2) := by
  cases x <;> rfl

theorem sim_bool {r : R} {c : Cur} {cs : List Cur} {sfx : Str} (h : Rel r c cs sfx) (id : Nat) (d : Bool) :
    Sim r (.bool id d) (c :: cs) sfx := by
  intro res hs
  simp only [read, readBool]
  rw [show (fun x : Bool × R => match x with | (v, r) => (Out.bool v, r)) = fun a => (Out.bool a.1, a.2) from rfl, map_getD]
  refine field_sim h _ (.bool d) (fun a => .bool (a.getD d)) rfl ?_ hs
  intro r' c' v hty ha
  cases v with
  | arr => cases hty
  | obj => cases hty
  | leaf s =>
    cases s <;> simp only [Val.ty, Scalar.ty, reduceCtorEq] at hty
    rename_i b
    refine ⟨_, _, rfl, at_rel_nil ha rfl, ?_⟩
    have := ha.value
    cases b <;> simp_all [Val.raw, Scalar.raw, outOf]

theorem sim_i32 {r : R} {c : Cur} {cs : List Cur} {sfx : Str} (h : Rel r c cs sfx) (id : Nat) (d : Int32) :
    Sim r (.i32 id d) (c :: cs) sfx := by
  intro res hs
  simp only [read, readI32]
  rw [show (fun x : Int32 × R => match x with | (v, r) => (Out.int v.toInt, r)) = fun a => (Out.int a.1.toInt, a.2) from rfl,
    map_getD _ d fun v => .int v.toInt]
  refine field_sim h _ (.int d.toInt) (fun a => .int (a.getD d).toInt) rfl ?_ hs
  intro r' c' v hty ha
  cases v with
  | arr => cases hty
  | obj => cases hty
  | leaf s =>
    cases s <;> simp only [Val.ty, Scalar.ty, reduceCtorEq] at hty
    refine ⟨_, _, rfl, at_rel_nil ha rfl, ?_⟩
    simp [ha.value, Val.raw, Scalar.raw, outOf, Varint.c01_zigzag32_roundtrip]

theorem sim_i64 {r : R} {c : Cur} {cs : List Cur} {sfx : Str} (h : Rel r c cs sfx) (id : Nat) (d : Int64) :
    Sim r (.i64 id d) (c :: cs) sfx := by
  intro res hs
  simp only [read, readI64]
  rw [show (fun x : Int64 × R => match x with | (v, r) => (Out.int v.toInt, r)) = fun a => (Out.int a.1.toInt, a.2) from rfl,
    map_getD _ d fun v => .int v.toInt]
  refine field_sim h _ (.int d.toInt) (fun a => .int (a.getD d).toInt) rfl ?_ hs
  intro r' c' v hty ha
  cases v with
  | arr => cases hty
  | obj => cases hty
  | leaf s =>
    cases s <;> simp only [Val.ty, Scalar.ty, reduceCtorEq] at hty
    refine ⟨_, _, rfl, at_rel_nil ha rfl, ?_⟩
    simp [ha.value, Val.raw, Scalar.raw, outOf, Varint.c01_zigzag64_roundtrip]

theorem sim_time {r : R} {c : Cur} {cs : List Cur} {sfx : Str} (h : Rel r c cs sfx) (id : Nat) (d : Int64) :
    Sim r (.time id d) (c :: cs) sfx := by
  intro res hs
  simp only [read, readTime]
  rw [show (fun x : Int64 × R => match x with | (v, r) => (Out.int v.toInt, r)) = fun a => (Out.int a.1.toInt, a.2) from rfl,
    map_getD _ d fun v => .int v.toInt]
  refine field_sim h _ (.int d.toInt) (fun a => .int (a.getD d).toInt) rfl ?_ hs
  intro r' c' v hty ha
  cases v with
  | arr => cases hty
  | obj => cases hty
  | leaf s =>
    cases s <;> simp only [Val.ty, Scalar.ty, reduceCtorEq] at hty
    refine ⟨_, _, rfl, at_rel_nil ha rfl, ?_⟩
    simp [ha.value, Val.raw, Scalar.raw, outOf, Varint.c01_zigzag64_roundtrip]

theorem sim_mode {r : R} {c : Cur} {cs : List Cur} {sfx : Str} (h : Rel r c cs sfx) (id : Nat) (d : UInt32) :
    Sim r (.mode id d) (c :: cs) sfx := by
  intro res hs
  simp only [read, readMode]
  rw [show (fun x : UInt32 × R => match x with | (v, r) => (Out.nat v.toNat, r)) = fun a => (Out.nat a.1.toNat, a.2) from rfl,
    map_getD _ d fun v => .nat v.toNat]
  refine field_sim h _ (.nat d.toNat) (fun a => .nat (a.getD d).toNat) rfl ?_ hs
  intro r' c' v hty ha
  cases v with
  | arr => cases hty
  | obj => cases hty
  | leaf s =>
    cases s <;> simp only [Val.ty, Scalar.ty, reduceCtorEq] at hty
    refine ⟨_, _, rfl, at_rel_nil ha rfl, ?_⟩
    simp [ha.value, Val.raw, Scalar.raw, outOf]

theorem sim_u32 {r : R} {c : Cur} {cs : List Cur} {sfx : Str} (h : Rel r c cs sfx) (id : Nat) (d : UInt32) :
    Sim r (.u32 id d) (c :: cs) sfx := by
  intro res hs
  simp only [read, readU32]
  rw [show (fun x : UInt32 × R => match x with | (v, r) => (Out.nat v.toNat, r)) = fun a => (Out.nat a.1.toNat, a.2) from rfl,
    map_getD _ d fun v => .nat v.toNat]
  refine field_sim h _ (.nat d.toNat) (fun a => .nat (a.getD d).toNat) rfl ?_ hs
  intro r' c' v hty ha
  cases v with
  | arr => cases hty
  | obj => cases hty
  | leaf s =>
    cases s <;> simp only [Val.ty, Scalar.ty, reduceCtorEq] at hty
    refine ⟨_, _, rfl, at_rel_nil ha rfl, ?_⟩
    simp [ha.value, Val.raw, Scalar.raw, outOf]

theorem sim_u64 {r : R} {c : Cur} {cs : List Cur} {sfx : Str} (h : Rel r c cs sfx) (id : Nat) (d : UInt64) :
    Sim r (.u64 id d) (c :: cs) sfx := by
  intro res hs
  simp only [read, readU64Fld]
  rw [show (fun x : UInt64 × R => match x with | (v, r) => (Out.nat v.toNat, r)) = fun a => (Out.nat a.1.toNat, a.2) from rfl,
    map_getD _ d fun v => .nat v.toNat]
  refine field_sim h _ (.nat d.toNat) (fun a => .nat (a.getD d).toNat) rfl ?_ hs
  intro r' c' v hty ha
  cases v with
  | arr => cases hty
  | obj => cases hty
  | leaf s =>
    cases s <;> simp only [Val.ty, Scalar.ty, reduceCtorEq] at hty
    refine ⟨_, _, rfl, at_rel_nil ha rfl, ?_⟩
    simp [ha.value, Val.raw, Scalar.raw, outOf]

theorem sim_strId {r : R} {c : Cur} {cs : List Cur} {sfx : Str} (h : Rel r c cs sfx) (id : Nat) (d : UInt64) :
    Sim r (.strId id d) (c :: cs) sfx := by
  intro res hs
  simp only [read, readStrId]
  rw [show (fun x : UInt64 × R => match x with | (v, r) => (Out.nat v.toNat, r)) = fun a => (Out.nat a.1.toNat, a.2) from rfl,
    map_getD _ d fun v => .nat v.toNat]
  refine field_sim h _ (.nat d.toNat) (fun a => .nat (a.getD d).toNat) rfl ?_ hs
  intro r' c' v hty ha
  cases v with
  | arr => cases hty
  | obj => cases hty
  | leaf s =>
    cases s <;> simp only [Val.ty, Scalar.ty, reduceCtorEq] at hty
    refine ⟨_, _, rfl, at_rel_nil ha rfl, ?_⟩
    simp [ha.value, Val.raw, Scalar.raw, outOf]

theorem sim_bin {r : R} {c : Cur} {cs : List Cur} {sfx : Str} (h : Rel r c cs sfx) (id : Nat) : Sim r (.bin id) (c :: cs) sfx := by
  intro res hs
  refine field_sim h getBytes (.bytes none) (fun a => .bytes a) rfl ?_ hs
  intro r' c' v hty ha
  cases v with
  | arr => cases hty
  | obj => cases hty
  | leaf s =>
    cases s <;> simp only [Val.ty, Scalar.ty, reduceCtorEq] at hty
    rename_i b
    obtain ⟨r2, h1, h2⟩ := at_bytes ha (Or.inr rfl)
    exact ⟨b, r2, h1, h2, rfl⟩

theorem sim_pack {r : R} {c : Cur} {cs : List Cur} {sfx : Str} (h : Rel r c cs sfx) (id : Nat) : Sim r (.pack id) (c :: cs) sfx := by
  intro res hs
  refine field_sim h _ (.bytes none) (fun a => .bytes a) rfl ?_ hs
  intro r' c' v hty ha
  cases v with
  | arr => cases hty
  | obj => cases hty
  | leaf s =>
    cases s <;> simp only [Val.ty, Scalar.ty, reduceCtorEq] at hty
    rename_i b
    obtain ⟨r2, h1, h2⟩ := at_take ha
    exact ⟨b, r2, h1, h2, rfl⟩

theorem sim_str {r : R} {c : Cur} {cs : List Cur} {sfx : Str} (h : Rel r c cs sfx) (id : Nat) (d : Option Str) :
    Sim r (.str id d) (c :: cs) sfx := by
  intro res hs
  have e : read r (.str id d) = (readField r id .str getBytes).map fun a => (.bytes (a.1.or d), a.2) := by
    simp only [read, readStr]
    cases readField r id .str getBytes <;> rfl
  rw [e]
  refine field_sim h getBytes (.bytes d) (fun a => .bytes (a.or d)) rfl ?_ hs
  intro r' c' v hty ha
  cases v with
  | arr => cases hty
  | obj => cases hty
  | leaf s =>
    cases s <;> simp only [Val.ty, Scalar.ty, reduceCtorEq] at hty
    rename_i b
    obtain ⟨r2, h1, h2⟩ := at_bytes ha (Or.inl rfl)
    exact ⟨b, r2, h1, h2, rfl⟩

theorem sim_null {r : R} {c : Cur} {cs : List Cur} {sfx : Str} (h : Rel r c cs sfx) (id : Nat) : Sim r (.null id) (c :: cs) sfx := by
  intro res hs
  simp only [specRead] at hs
  split at hs
  · simp at hs
  · rename_i e he
    simp only [Option.some.injEq] at hs
    subst hs
    refine ⟨?_, by simp⟩
    intro e' hee
    simp only [Except.error.injEq] at hee
    subst hee
    simp only [read]
    rw [(readNull_sim h).1 e he]
    rfl
  · rename_i t c1 hc
    have := (readNull_sim h (id := id)).2 t c1 hc
    split at hs
    · rename_i hf
      simp only [Option.some.injEq] at hs
      subst hs
      refine ⟨by simp, ?_⟩
      intro o st' ho
      simp only [Except.ok.injEq, Prod.mk.injEq] at ho
      obtain ⟨rfl, rfl⟩ := ho
      obtain ⟨r', e1, e2⟩ := this.1 hf
      exact ⟨r', by simp only [read]; rw [e1]; rfl, e2⟩
    · rename_i hf
      simp only [Option.some.injEq] at hs
      subst hs
      refine ⟨by simp, ?_⟩
      intro o st' ho
      simp only [Except.ok.injEq, Prod.mk.injEq] at ho
      obtain ⟨rfl, rfl⟩ := ho
      obtain ⟨r', e1, e2⟩ := this.2 hf
      exact ⟨r', by simp only [read]; rw [e1]; rfl, e2⟩

theorem sim_next {r : R} {c : Cur} {cs : List Cur} {sfx : Str} (h : Rel r c cs sfx) : Sim r .next (c :: cs) sfx := by
  intro res hs
  simp only [specRead] at hs
  split at hs
  · simp at hs
  · rename_i hn
    simp only [Option.some.injEq] at hs
    subst hs
    refine ⟨by simp, ?_⟩
    intro o st' ho
    simp only [Except.ok.injEq, Prod.mk.injEq] at ho
    obtain ⟨rfl, rfl⟩ := ho
    have hs' : c.seen = false := by simpa using hn
    have ht := h.top
    simp only [Top, hs', Bool.false_eq_true, if_false] at ht
    obtain ⟨r', e1, e2, _⟩ := ensure_rel h
    unfold ensureTag at e1
    rw [if_pos ht.1] at e1
    refine ⟨r', ?_, e2⟩
    simp only [read, readNext, ht.1, ne_eq, not_true, if_false]
    have hfs : c.fields = [] ∨ ∃ i v fs, c.fields = (i, v) :: fs := by
      cases c.fields with
      | nil => exact Or.inl rfl
      | cons f fs => exact Or.inr ⟨f.1, f.2, fs, rfl⟩
    rcases hfs with hf | ⟨i, v, fs, hf⟩
    · rw [hf] at ht
      simp only [encD, List.nil_append] at ht
      rw [readTagNext_zero r _ h.cap ht.2] at e1 ⊢
      simp only [Except.map, Except.ok.injEq] at e1
      simp only [bind, Except.bind, pure, Except.pure, Except.map, e1, hf, Bool.false_eq_true, if_false, List.head?_nil, Option.map_none]
    · have hd := h.ok.1
      rw [hf] at hd ht
      unfold DocOk at hd
      have hlim : idLimit = 2 ^ 32 - 2 := rfl
      have htt := ht.2
      rw [encD, List.append_assoc, List.append_assoc, List.append_assoc] at htt
      have hnx := readTagNext_hdr r v.ty (i - c.last - 1) v.raw v.size _ _ _ h.cap h.stack (by omega) (fits_raw v) (size_lt v hd.2.2.1) htt
      rw [hnx] at e1 ⊢
      simp only [Except.map, Except.ok.injEq] at e1
      simp only [bind, Except.bind, pure, Except.pure, Except.map, e1, hf, if_true, List.head?_cons, Option.map_some]
      rcases top_seen e2.top rfl with ⟨h4, _⟩ | ⟨i', v', fs', h4, h5, h6, _⟩
      · simp [hf] at h4
      · simp only [hf, List.cons.injEq, Prod.mk.injEq] at h4
        obtain ⟨⟨rfl, rfl⟩, rfl⟩ := h4
        rw [h5, h6]
        rfl

theorem sim_consume {r : R} {c : Cur} {cs : List Cur} {sfx : Str} (h : Rel r c cs sfx) : Sim r .consume (c :: cs) sfx := by
  intro res hs
  obtain ⟨kind, last, seen, fields⟩ := c
  cases fields with
  | nil => simp [specRead] at hs
  | cons f fs =>
    obtain ⟨i, v⟩ := f
    simp only [specRead] at hs
    split at hs
    · rename_i hc
      obtain ⟨rfl, hl⟩ := hc
      simp only [Option.some.injEq] at hs
      subst hs
      refine ⟨by simp, ?_⟩
      intro o st' ho
      simp only [Except.ok.injEq, Prod.mk.injEq] at ho
      obtain ⟨rfl, rfl⟩ := ho
      cases v with
      | arr => simp [Val.isLeaf] at hl
      | obj => simp [Val.isLeaf] at hl
      | leaf s =>
        have hd := h.ok.1
        simp only at hd
        unfold DocOk at hd
        have hseek : specSeek ⟨kind, last, seen, (last + 1, .leaf s) :: fs⟩ 0 =
            some (.ok (last + 1, ⟨kind, last, true, (last + 1, .leaf s) :: fs⟩)) := by
          unfold specSeek
          simp only [if_true]
          rw [if_neg (by omega), if_neg (by omega)]
          simp [lastId]
        obtain ⟨r', q1, q2, q3, q4, q5, q6, _, q7⟩ := readTag_ok h none hseek
        rw [finish_none] at q7
        have hty : r'.nextTy = some s.ty := by
          rcases top_seen q1.top q2 with ⟨h4, _⟩ | ⟨i', v', fs', h4, h5, h6, _⟩
          · simp at h4
          · simp only [List.cons.injEq, Prod.mk.injEq] at h4
            obtain ⟨⟨rfl, rfl⟩, rfl⟩ := h4
            exact h6
        have hag := seek_again hseek q5 q3
        obtain ⟨r2, e3, e4⟩ := (readTag_get q1 hag rfl).2
        obtain ⟨r3, f1, f2⟩ := at_take e4
        refine ⟨{ r3 with nextSize := 0 }, ?_, ?_⟩
        · simp only [read, readConsume, q7, Except.map, bind, Except.bind, hty]
          simp only [Val.ty] at e3
          rw [e3]
          simp only [consumeBuffer, f1, bind, Except.bind, pure, Except.pure]
        · refine ⟨f2.cap, f2.stack, ?_, f2.ok, f2.oks⟩
          have := f2.top
          unfold Top at this ⊢
          exact this
    · simp at hs

theorem sim_begin {r : R} {c : Cur} {cs : List Cur} {sfx : Str} (h : Rel r c cs sfx) (kind : Ty) (id : Nat)
    {res : Res (Option Val × Cur)} (hg : specGet kind id c = some res) :
    (∀ e, res = .error e → readBegin r kind id = .error e) ∧
    (∀ v c' fs, res = .ok (some v, c') → payload v = encD 0 fs ++ [0] → DocOk 0 fs →
      ∃ r', readBegin r kind id = .ok r' ∧ Rel r' ⟨kind, 0, false, fs⟩ (c' :: cs) sfx) := by
  rcases specGet_cases hg with ⟨e, he, rfl⟩ | ⟨t, c1, hc, h2⟩
  · refine ⟨?_, by simp⟩
    intro e' hee
    simp only [Except.error.injEq] at hee
    subst hee
    unfold readBegin
    rw [readTag_err h (some kind) he]
    rfl
  · rcases h2 with ⟨v, fs, hf, hty, rfl⟩ | ⟨v, fs, hf, hty, rfl⟩ | ⟨hf, rfl⟩
    · refine ⟨by simp, ?_⟩
      intro v' c' fs' hvc hp hd
      simp only [Except.ok.injEq, Prod.mk.injEq, Option.some.injEq] at hvc
      obtain ⟨rfl, rfl⟩ := hvc
      obtain ⟨r2, e3, e4⟩ := (readTag_get h hc hf).2
      rw [hty] at e3
      unfold readBegin
      rw [e3]
      refine ⟨_, rfl, ⟨e4.cap, ?_, ?_, ⟨hd, (by decide : 0 < idLimit)⟩, ?_⟩⟩
      · simp only [e4.stack, List.map_cons]
        rfl
      · simp only [Top, Bool.false_eq_true, if_false]
        refine ⟨e4.id, ?_⟩
        rw [e4.rest, hp]
        simp [tailBytes]
      · intro c' hc'
        rcases List.mem_cons.mp hc' with rfl | hc'
        · exact ⟨e4.ok, rfl⟩
        · exact e4.oks c' hc'
    · refine ⟨?_, by simp⟩
      intro e' hee
      simp only [Except.error.injEq] at hee
      subst hee
      unfold readBegin
      rw [(readTag_get h hc hf).1 kind hty]
      rfl
    · exact ⟨by simp, by simp⟩

theorem specGet_vok {ty : Ty} {id : Nat} {r : R} {c c' : Cur} {cs : List Cur} {sfx : Str} {v : Val} (h : Rel r c cs sfx)
    (hg : specGet ty id c = some (.ok (some v, c'))) : ValOk v := by
  obtain ⟨_, r', e1, _⟩ := (readField_sim h (fun r => .ok ((), r)) hg).2.2 v c' rfl
  exact e1.vok

theorem sim_arrayBegin {r : R} {c : Cur} {cs : List Cur} {sfx : Str} (h : Rel r c cs sfx) (id : Nat) :
    Sim r (.arrayBegin id) (c :: cs) sfx := by
  intro res hs
  simp only [specRead] at hs
  split at hs
  · rename_i fs c' hg
    simp only [Option.some.injEq] at hs
    subst hs
    refine ⟨by simp, ?_⟩
    intro o st' ho
    simp only [Except.ok.injEq, Prod.mk.injEq] at ho
    obtain ⟨rfl, rfl⟩ := ho
    have hv := specGet_vok h hg
    simp only [ValOk] at hv
    obtain ⟨r', e1, e2⟩ := (sim_begin h .array id hg).2 _ _ fs rfl (by rw [payload]) hv
    exact ⟨r', by simp only [read]; rw [e1]; rfl, e2⟩
  · rename_i e hg
    simp only [Option.some.injEq] at hs
    subst hs
    refine ⟨?_, by simp⟩
    intro e' hee
    simp only [Except.error.injEq] at hee
    subst hee
    simp only [read]
    rw [(sim_begin h .array id hg).1 e rfl]
    rfl
  · simp at hs

theorem sim_objBegin {r : R} {c : Cur} {cs : List Cur} {sfx : Str} (h : Rel r c cs sfx) (id : Nat) :
    Sim r (.objBegin id) (c :: cs) sfx := by
  intro res hs
  simp only [specRead] at hs
  split at hs
  · rename_i fs c' hg
    simp only [Option.some.injEq] at hs
    subst hs
    refine ⟨by simp, ?_⟩
    intro o st' ho
    simp only [Except.ok.injEq, Prod.mk.injEq] at ho
    obtain ⟨rfl, rfl⟩ := ho
    have hv := specGet_vok h hg
    simp only [ValOk] at hv
    obtain ⟨r', e1, e2⟩ := (sim_begin h .obj id hg).2 _ _ fs rfl (by rw [payload]) hv
    exact ⟨r', by simp only [read]; rw [e1]; rfl, e2⟩
  · rename_i e hg
    simp only [Option.some.injEq] at hs
    subst hs
    refine ⟨?_, by simp⟩
    intro e' hee
    simp only [Except.error.injEq] at hee
    subst hee
    simp only [read]
    rw [(sim_begin h .obj id hg).1 e rfl]
    rfl
  · simp at hs

/-- The end of a container. -/
theorem endOf_rel {r : R} {c d : Cur} {cs : List Cur} {sfx : Str} (h : Rel r c (d :: cs) sfx) (hall : c.fields.all (·.2.isLeaf) = true) :
    ∃ r', readEndOf r c.kind = .ok r' ∧ Rel r' d cs sfx := by
  obtain ⟨r1, e1, e2, e3, e4⟩ := readTag_end h hall
  unfold readEndOf
  rw [h.stack]
  simp only [List.map_cons]
  rw [if_neg (by simp [frameOf]), e1]
  refine ⟨_, rfl, ⟨e3, ?_, ?_, (h.oks d (by simp)).1, fun c' hc' => h.oks c' (by simp [hc'])⟩⟩
  · simp only [e4, List.map_cons]
  · simp only [Top, (h.oks d (by simp)).2, Bool.false_eq_true, if_false]
    exact ⟨trivial, e2⟩

theorem sim_close {r : R} {c : Cur} {cs : List Cur} {sfx : Str} (h : Rel r c cs sfx) (kind : Ty) {res : Res (Out × List Cur)}
    (hs : specRead.specClose kind (c :: cs) = some res) :
    (∀ e, res = .error e → readEndOf r kind = .error e) ∧
    (∀ o st', res = .ok (o, st') → o = .none ∧ ∃ r', readEndOf r kind = .ok r' ∧ RelS r' st' sfx) := by
  cases cs with
  | nil =>
    simp only [specRead.specClose, Option.some.injEq] at hs
    subst hs
    refine ⟨?_, by simp⟩
    intro e' hee
    simp only [Except.error.injEq] at hee
    subst hee
    unfold readEndOf
    rw [h.stack]
    rfl
  | cons d cs =>
    simp only [specRead.specClose] at hs
    split at hs
    · rename_i hk
      simp only [Option.some.injEq] at hs
      subst hs
      refine ⟨?_, by simp⟩
      intro e' hee
      simp only [Except.error.injEq] at hee
      subst hee
      unfold readEndOf
      rw [h.stack]
      simp only [List.map_cons]
      rw [if_pos (by simpa [frameOf] using hk)]
    · rename_i hk
      split at hs
      · rename_i hall
        simp only [Option.some.injEq] at hs
        subst hs
        refine ⟨by simp, ?_⟩
        intro o st' ho
        simp only [Except.ok.injEq, Prod.mk.injEq] at ho
        obtain ⟨rfl, rfl⟩ := ho
        have hk' : c.kind = kind := by simpa using hk
        subst hk'
        obtain ⟨r', e1, e2⟩ := endOf_rel h hall
        exact ⟨rfl, r', e1, e2⟩
      · simp at hs

theorem sim_arrayEnd {r : R} {c : Cur} {cs : List Cur} {sfx : Str} (h : Rel r c cs sfx) : Sim r .arrayEnd (c :: cs) sfx := by
  intro res hs
  obtain ⟨h1, h2⟩ := sim_close h .array hs
  constructor
  · intro e he; simp only [read]; rw [h1 e he]; rfl
  · intro o st' ho
    obtain ⟨rfl, r', e1, e2⟩ := h2 o st' ho
    exact ⟨r', by simp only [read]; rw [e1]; rfl, e2⟩

theorem sim_objEnd {r : R} {c : Cur} {cs : List Cur} {sfx : Str} (h : Rel r c cs sfx) : Sim r .objEnd (c :: cs) sfx := by
  intro res hs
  obtain ⟨h1, h2⟩ := sim_close h .obj hs
  constructor
  · intro e he; simp only [read]; rw [h1 e he]; rfl
  · intro o st' ho
    obtain ⟨rfl, r', e1, e2⟩ := h2 o st' ho
    exact ⟨r', by simp only [read]; rw [e1]; rfl, e2⟩

theorem sim_end {r : R} {c : Cur} {cs : List Cur} {sfx : Str} (h : Rel r c cs sfx) : Sim r .end (c :: cs) sfx := by
  intro res hs
  cases cs with
  | nil =>
    simp only [specRead] at hs
    split at hs
    · rename_i hall
      simp only [Option.some.injEq] at hs
      subst hs
      refine ⟨by simp, ?_⟩
      intro o st' ho
      simp only [Except.ok.injEq, Prod.mk.injEq] at ho
      obtain ⟨rfl, rfl⟩ := ho
      obtain ⟨r1, e1, e2, e3, e4⟩ := readTag_end h hall
      refine ⟨{ r1 with stack := [] }, ?_, ⟨rfl, e2⟩⟩
      simp only [read, readEnd]
      rw [h.stack]
      simp only [List.map_nil]
      rw [e1]
      rfl
    · simp at hs
  | cons d cs =>
    simp only [specRead, Option.some.injEq] at hs
    subst hs
    refine ⟨?_, by simp⟩
    intro e' hee
    simp only [Except.error.injEq] at hee
    subst hee
    simp only [read, readEnd]
    rw [h.stack]
    rfl

theorem strLstLoop_sim (cs : List Cur) (sfx : Str) :
    ∀ (fs : Doc) (b fuel : Nat) (r : R) (ss : List Str), Rel r ⟨.array, b, false, fs⟩ cs sfx → consecutive (b + 1) fs = true →
      strsOf fs = some ss → fs.length < fuel → b + fs.length + 1 < idLimit →
      ∃ r' b', strLstLoop fuel r = .ok (ss.map some, r') ∧ Rel r' ⟨.array, b', true, []⟩ cs sfx := by
  intro fs
  induction fs with
  | nil =>
    intro b fuel r ss h hc hss hfu hlim
    cases fuel with
    | zero => simp at hfu
    | succ fuel =>
      simp only [strsOf, Option.some.injEq] at hss
      subst hss
      have hseek : specSeek ⟨.array, b, false, []⟩ 0 = some (.ok (b + 1, ⟨.array, b, true, []⟩)) := by
        unfold specSeek
        simp only [if_true]
        rw [if_neg (by omega), if_neg (by simp at hlim; omega)]
        simp [lastId]
      obtain ⟨r', e1, e2⟩ := ((readNull_sim h).2 _ _ hseek).2 (by simp)
      refine ⟨r', b + 1, ?_, e2⟩
      unfold strLstLoop
      rw [e1]
      rfl
  | cons f fs ih =>
    intro b fuel r ss h hc hss hfu hlim
    obtain ⟨i, v⟩ := f
    cases fuel with
    | zero => simp at hfu
    | succ fuel =>
      simp only [consecutive, Bool.and_eq_true, beq_iff_eq] at hc
      obtain ⟨rfl, hc⟩ := hc
      cases v with
      | arr => simp [strsOf] at hss
      | obj => simp [strsOf] at hss
      | leaf s =>
        cases s <;> simp only [strsOf, reduceCtorEq, Option.map_eq_some_iff] at hss
        rename_i s
        obtain ⟨ss', hss', rfl⟩ := hss
        simp only [List.length_cons] at hlim hfu
        have hseek : specSeek ⟨.array, b, false, (b + 1, .leaf (.str s)) :: fs⟩ 0 =
            some (.ok (b + 1, ⟨.array, b, true, (b + 1, .leaf (.str s)) :: fs⟩)) := by
          unfold specSeek
          simp only [if_true]
          rw [if_neg (by omega), if_neg (by omega)]
          simp [lastId]
        obtain ⟨r1, e1, e2⟩ := ((readNull_sim h).2 _ _ hseek).1 (by simp)
        have hstr : specRead (⟨.array, b, true, (b + 1, .leaf (.str s)) :: fs⟩ :: cs) (.str 0 none) =
            some (.ok (.bytes (some s), ⟨.array, b + 1, false, fs⟩ :: cs)) := by
          simp only [specRead, specField, specGet, specSeek, if_true]
          rw [if_neg (by omega), if_neg (by omega)]
          simp [Val.ty, Scalar.ty, outOf]
        obtain ⟨r2, e3, e4⟩ := ((sim_str e2 0 none) _ hstr).2 _ _ rfl
        obtain ⟨r3, b3, e5, e6⟩ := ih (b + 1) fuel r2 ss' e4 hc hss' (by omega) (by omega)
        refine ⟨r3, b3, ?_, e6⟩
        unfold strLstLoop
        rw [e1]
        simp only [bind, Except.bind, Bool.false_eq_true, if_false]
        simp only [read] at e3
        cases hx : readStr r1 0 none with
        | error e => rw [hx] at e3; simp [Except.map] at e3
        | ok p =>
          rw [hx] at e3
          simp only [Except.map, Except.ok.injEq, Prod.mk.injEq, Out.bytes.injEq] at e3
          obtain ⟨e3a, e3b⟩ := e3
          simp only [e3a, e3b, e5, pure, Except.pure, List.map_cons]

theorem consecutive_len : ∀ (fs : Doc) (b : Nat), DocOk b fs → consecutive (b + 1) fs = true → fs ≠ [] → b + fs.length < idLimit := by
  intro fs
  induction fs with
  | nil => simp
  | cons f fs ih =>
    intro b h hc _
    obtain ⟨i, v⟩ := f
    simp only [consecutive, Bool.and_eq_true, beq_iff_eq] at hc
    obtain ⟨rfl, hc⟩ := hc
    unfold DocOk at h
    by_cases hfs : fs = []
    · subst hfs; simp only [List.length_cons, List.length_nil]; omega
    · have := ih (b + 1) h.2.2.2 hc hfs
      simp only [List.length_cons]; omega

theorem sim_strLst {r : R} {c : Cur} {cs : List Cur} {sfx : Str} (h : Rel r c cs sfx) (id : Nat) : Sim r (.strLst id) (c :: cs) sfx := by
  intro res hs
  simp only [specRead] at hs
  split at hs
  · rename_i fs c' hg
    split at hs
    · rename_i hc
      rw [Option.map_eq_some_iff] at hs
      obtain ⟨ss, hss, rfl⟩ := hs
      refine ⟨by simp, ?_⟩
      intro o st' ho
      simp only [Except.ok.injEq, Prod.mk.injEq] at ho
      obtain ⟨rfl, rfl⟩ := ho
      have hv := specGet_vok h hg
      simp only [ValOk] at hv
      rcases specGet_cases hg with ⟨e, he, hx⟩ | ⟨t, c1, hsk, h2⟩
      · cases hx
      · rcases h2 with ⟨v, fs', hf, hty, hx⟩ | ⟨v, fs', hf, hty, hx⟩ | ⟨hf, hx⟩
        · simp only [Except.ok.injEq, Prod.mk.injEq, Option.some.injEq] at hx
          obtain ⟨rfl, rfl⟩ := hx
          obtain ⟨r1, e1, e2⟩ := ((readNull_sim h).2 _ _ hsk).1 (by rw [hf]; rfl)
          obtain ⟨rx, q1, q2, q3, q4, q5, q6, _, q7⟩ := readTag_ok h none hsk
          have hag := seek_again hsk q5 q3
          have hg2 : specGet .array t c1 = some (.ok (some (.arr fs), { c1 with last := t, seen := false, fields := fs' })) := by
            simp [specGet, hag, hf, Val.ty]
          obtain ⟨r2, e3, e4⟩ := (sim_begin e2 .array t hg2).2 _ _ fs rfl (by rw [payload]) hv
          have hl : fs.length < r2.rest.length + 1 := by
            have h1 := encD_len _ _ hv
            have ht := e4.top
            simp only [Top, Bool.false_eq_true, if_false] at ht
            rw [ht.2]
            simp only [List.length_append, List.length_cons]
            omega
          obtain ⟨r3, b', e5, e6⟩ := strLstLoop_sim _ sfx fs 0 (r2.rest.length + 1) r2 ss e4 hc.1 hss hl (by omega)
          obtain ⟨r4, e7, e8⟩ := endOf_rel e6 (by simp)
          refine ⟨r4, ?_, e8⟩
          simp only at e7
          simp only [read, readStrLst, e1, bind, Except.bind, Bool.false_eq_true, if_false, e3, e5, e7, pure, Except.pure, Except.map]
        · cases hx
        · cases hx
    · simp at hs
  · rename_i c' hg
    simp only [Option.some.injEq] at hs
    subst hs
    refine ⟨by simp, ?_⟩
    intro o st' ho
    simp only [Except.ok.injEq, Prod.mk.injEq] at ho
    obtain ⟨rfl, rfl⟩ := ho
    rcases specGet_cases hg with ⟨e, he, hx⟩ | ⟨t, c1, hsk, h2⟩
    · cases hx
    · rcases h2 with ⟨v, fs', hf, hty, hx⟩ | ⟨v, fs', hf, hty, hx⟩ | ⟨hf, hx⟩
      · cases hx
      · cases hx
      · simp only [Except.ok.injEq, Prod.mk.injEq, true_and] at hx
        subst hx
        obtain ⟨r1, e1, e2⟩ := ((readNull_sim h).2 _ _ hsk).2 hf
        exact ⟨r1, by simp [read, readStrLst, e1, bind, Except.bind, pure, Except.pure, Except.map], e2⟩
  · rename_i e hg
    simp only [Option.some.injEq] at hs
    subst hs
    refine ⟨?_, by simp⟩
    intro e' hee
    simp only [Except.error.injEq] at hee
    subst hee
    rcases specGet_cases hg with ⟨e', he, hx⟩ | ⟨t, c1, hsk, h2⟩
    · simp only [Except.error.injEq] at hx
      subst hx
      simp [read, readStrLst, (readNull_sim h).1 _ he, bind, Except.bind, Except.map]
    · rcases h2 with ⟨v, fs', hf, hty, hx⟩ | ⟨v, fs', hf, hty, hx⟩ | ⟨hf, hx⟩
      · cases hx
      · simp only [Except.error.injEq] at hx
        subst hx
        obtain ⟨r1, e1, e2⟩ := ((readNull_sim h).2 _ _ hsk).1 (by rw [hf]; rfl)
        obtain ⟨rx, q1, q2, q3, q4, q5, q6, _, q7⟩ := readTag_ok h none hsk
        have hag := seek_again hsk q5 q3
        have hg2 : specGet .array t c1 = some (.error .format) := by
          simp [specGet, hag, hf, hty]
        have e3 := (sim_begin e2 .array t hg2).1 _ rfl
        simp [read, readStrLst, e1, bind, Except.bind, e3, Except.map]
      · cases hx
  · simp at hs

/-- Every call finds what the document has. -/
theorem read_sim {r : R} {st : List Cur} {sfx : Str} (h : RelS r st sfx) (op : ROp) : Sim r op st sfx := by
  cases st with
  | nil =>
    intro res hs
    cases op <;> simp [specRead, specField, specRead.specClose] at hs
  | cons c cs =>
    have h' : Rel r c cs sfx := h
    cases op with
    | null => exact sim_null h' _
    | next => exact sim_next h'
    | consume => exact sim_consume h'
    | bool => exact sim_bool h' _ _
    | i32 => exact sim_i32 h' _ _
    | i64 => exact sim_i64 h' _ _
    | time => exact sim_time h' _ _
    | mode => exact sim_mode h' _ _
    | u32 => exact sim_u32 h' _ _
    | u64 => exact sim_u64 h' _ _
    | strId => exact sim_strId h' _ _
    | bin => exact sim_bin h' _
    | pack => exact sim_pack h' _
    | str => exact sim_str h' _ _
    | strLst => exact sim_strLst h' _
    | arrayBegin => exact sim_arrayBegin h' _
    | objBegin => exact sim_objBegin h' _
    | arrayEnd => exact sim_arrayEnd h'
    | objEnd => exact sim_objEnd h'
    | «end» => exact sim_end h'

theorem reads_sim (sfx : Str) : ∀ (ops : List ROp) (r : R) (st : List Cur) (res : Res (List Out × List Cur)), RelS r st sfx →
    specReads st ops = some res →
    (∀ e, res = .error e → reads r ops = .error e) ∧
    (∀ os st', res = .ok (os, st') → ∃ r', reads r ops = .ok (os, r') ∧ RelS r' st' sfx) := by
  intro ops
  induction ops with
  | nil =>
    intro r st res h hs
    simp only [specReads, Option.some.injEq] at hs
    subst hs
    refine ⟨by simp, ?_⟩
    intro os st' ho
    simp only [Except.ok.injEq, Prod.mk.injEq] at ho
    obtain ⟨rfl, rfl⟩ := ho
    exact ⟨r, rfl, h⟩
  | cons op ops ih =>
    intro r st res h hs
    simp only [specReads] at hs
    split at hs
    · simp at hs
    · rename_i e he
      simp only [Option.some.injEq] at hs
      subst hs
      refine ⟨?_, by simp⟩
      intro e' hee
      simp only [Except.error.injEq] at hee
      subst hee
      simp only [reads, (read_sim h op _ he).1 e rfl, bind, Except.bind]
    · rename_i o st1 ho
      obtain ⟨r1, e1, e2⟩ := (read_sim h op _ ho).2 _ _ rfl
      split at hs
      · simp at hs
      · rename_i e he
        simp only [Option.some.injEq] at hs
        subst hs
        refine ⟨?_, by simp⟩
        intro e' hee
        simp only [Except.error.injEq] at hee
        subst hee
        simp only [reads, e1, (ih r1 st1 _ e2 he).1 e rfl, bind, Except.bind]
      · rename_i os st2 hos
        simp only [Option.some.injEq] at hs
        subst hs
        refine ⟨by simp, ?_⟩
        intro os' st' hoo
        simp only [Except.ok.injEq, Prod.mk.injEq] at hoo
        obtain ⟨rfl, rfl⟩ := hoo
        obtain ⟨r2, e3, e4⟩ := (ih r1 st1 _ e2 hos).2 _ _ rfl
        exact ⟨r2, by simp only [reads, e1, e3, bind, Except.bind, pure, Except.pure], e4⟩

end Verif.Pack
