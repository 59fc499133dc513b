import Verif.Http.RespProps

/-!
# C75: a response is read as it was sent

The status and the fields, then the places of the body from the first to the last, for reads of any sizes.
-/

namespace Verif.Http

open Spec

/-! ## Status and fields of a message -/

theorem status_parse {cap : Nat} {m : Msg} (h : m.Valid cap) : ∃ n, Num.Numeral 10 m.code n ∧
    statusParse Resp.new ([72, 84, 84, 80, 47, 49, 46, if m.old then 48 else 49] ++ [32] ++ m.code ++ [32] ++ m.reason ++ [13]) =
      .ok { Resp.new with close := m.old, code := n, reason := m.reason } := by
  obtain ⟨⟨n, hn⟩, hlen⟩ := h.code
  refine ⟨n, hn, ?_⟩
  have hd := digit_ne hn
  have h32 : 32 ∉ m.code := fun h => (digit_not (hd _ h)).1 rfl
  have h0 : 0 ∉ m.code := fun h => (digit_not (hd _ h)).2.2.2.2.2 rfl
  obtain ⟨a, b, c, hc⟩ : ∃ a b c, m.code = [a, b, c] := by
    match hm : m.code, hlen with
    | [a, b, c], _ => exact ⟨a, b, c, rfl⟩
  have hn3 : n < 1000 := by
    obtain ⟨_, ds, hds, hv⟩ := hn
    have hl : ds.length = 3 := by
      have := congrArg List.length hds
      simpa [hlen] using this.symm
    match ds, hl with
    | [x, y, z], _ =>
      have hb : ∀ d ∈ [x, y, z], d < 10 := by
        intro d hdm
        have : some d ∈ m.code.map (Num.digitOf 10) := by rw [hds]; exact List.mem_map.mpr ⟨d, hdm, rfl⟩
        obtain ⟨c, _, hc⟩ := List.mem_map.mp this
        unfold Num.digitOf at hc
        cases hv : Num.digitVal c with
        | none => rw [hv] at hc; simp at hc
        | some x =>
          rw [hv] at hc
          simp only [Option.ite_none_right_eq_some, Option.some.injEq] at hc
          omega
      have h1 := hb x (by simp)
      have h2 := hb y (by simp)
      have h3 := hb z (by simp)
      simp only [Num.valueOf, List.length_cons, List.length_nil] at hv
      omega
  have hchr : strChr ((m.code ++ [32]) ++ m.reason) 32 = some 3 := by
    have := strChr_first (l := m.code) (t := m.reason) (x := 32) (by decide) h32 h0
    rw [hlen] at this
    simpa using this
  have hu : Num.toUIntBase 10 m.code = .ok n := by
    rw [(Num.c51_numeral 10 _ n hn).2.1, if_pos (by omega)]
  rw [hc] at hchr hu ⊢
  have e1 : ∀ v : UInt8, ([72, 84, 84, 80, 47, 49, 46, v] ++ [32] ++ [a, b, c] ++ [32] ++ m.reason ++ [13]).getLast? = some 13 := by intro v; rw [List.getLast?_concat]
  have e2 : ∀ v : UInt8, ([72, 84, 84, 80, 47, 49, 46, v] ++ [32] ++ [a, b, c] ++ [32] ++ m.reason ++ [13]).dropLast =
      [72, 84, 84, 80, 47, 49, 46, v] ++ [32] ++ [a, b, c] ++ [32] ++ m.reason := by intro v; rw [List.dropLast_concat]
  unfold statusParse
  rw [e1, e2, if_neg (by simp)]
  have e3 : ∀ v : UInt8, ([72, 84, 84, 80, 47, 49, 46, v] ++ [32] ++ [a, b, c] ++ [32] ++ m.reason).drop 9 = [a, b, c] ++ [32] ++ m.reason := by intro v; rfl
  simp only [e3, hchr]
  rw [if_neg (by simp)]
  have e4 : ([a, b, c] ++ [32] ++ m.reason).take 3 = [a, b, c] := rfl
  have e5 : ([a, b, c] ++ [32] ++ m.reason).drop 4 = m.reason := rfl
  rw [e4, e5, hu]
  cases m.old <;> simp [http10, http11, bind, Except.bind, pure, Except.pure, Resp.new]

/-- What is said before the body. -/
structure Head (m : Msg) (r : Resp) : Prop where
  code : Num.Numeral 10 m.code r.code
  reason : r.reason = m.reason
  fields : ∀ k, get r.header k = m.field k

/-- The length that the fields say. -/
def bodyLen (m : Msg) : Nat := match m.body with
  | .length d => d.length
  | _ => 0

theorem values_mem {m : Msg} {f : Field} (hf : f ∈ m.fields) : f.value ∈ m.values f.key :=
  List.mem_map.mpr ⟨f, by simp [hf], rfl⟩

theorem framed_te {cap : Nat} {m : Msg} (h : Framed cap m) : ∀ f ∈ m.fields, f.key = te → f.value.map lc = Spec.chunked := by
  intro f hf hk
  have hv := values_mem hf
  rw [hk] at hv
  unfold Framed at h
  split at h
  · rw [h.1] at hv; simp at hv
  · rw [h.1] at hv; simp at hv
  · exact h.2.1 _ hv
  · rw [h.1] at hv; simp at hv

theorem framed_cl {cap : Nat} {m : Msg} (h : Framed cap m) : ∀ f ∈ m.fields, f.key = cl → Num.Numeral 10 f.value (bodyLen m) ∧ bodyLen m < 2 ^ 64 := by
  intro f hf hk
  have hv := values_mem hf
  rw [hk] at hv
  unfold Framed at h
  split at h
  · rw [h.2.1] at hv; simp at hv
  · rename_i d hb
    simp only [bodyLen, hb]
    exact ⟨h.2.2.1 _ hv, h.2.2.2⟩
  · rw [h.2.2.1] at hv; simp at hv
  · rw [h.2.1] at hv; simp at hv

theorem framed_one {cap : Nat} {m : Msg} (h : Framed cap m) : m.values te = [] ∨ m.values cl = [] := by
  unfold Framed at h
  split at h
  · exact .inl h.1
  · exact .inl h.1
  · exact .inr h.2.2.1
  · exact .inl h.1

/-- After the fields. -/
structure AfterHead (m : Msg) (r : Resp) : Prop extends Head m r where
  chunked : r.chunked = true ↔ m.values te ≠ []
  size : r.size = if m.values cl = [] then 0 else bodyLen m
  remaining : r.remaining = r.size
  close : r.close = true ↔ m.closes
  eof : r.eof = false

theorem status_line {cap : Nat} {m : Msg} (h : m.Valid cap) :
    m.statusLine = ([72, 84, 84, 80, 47, 49, 46, if m.old then 48 else 49] ++ [32] ++ m.code ++ [32] ++ m.reason ++ [13]) ++ [10] ∧
    10 ∉ [72, 84, 84, 80, 47, 49, 46, if m.old then 48 else 49] ++ [32] ++ m.code ++ [32] ++ m.reason ++ [13] ∧
    ([72, 84, 84, 80, 47, 49, 46, if m.old then 48 else 49] ++ [32] ++ m.code ++ [32] ++ m.reason ++ [13]).length + 1 ≤ cap := by
  have e : m.statusLine = ([72, 84, 84, 80, 47, 49, 46, if m.old then 48 else 49] ++ [32] ++ m.code ++ [32] ++ m.reason ++ [13]) ++ [10] := by simp [Msg.statusLine, crlf]
  obtain ⟨⟨n, hn⟩, _⟩ := h.code
  refine ⟨e, ?_, ?_⟩
  · have h1 : 10 ∉ m.code := fun h => (digit_not (digit_ne hn _ h)).2.2.2.1 rfl
    have h2 : 10 ∉ m.reason := fun h' => h.reason _ h' rfl
    cases m.old <;> simp [h1, h2]
  · have := h.status
    rw [e, List.length_append] at this
    simpa using this

/-- Up to the body. -/
theorem head_read {cap fuel : Nat} {full : Bool} {tail w q : Str} {m : Msg} (h : m.Valid cap) (hk : q.length < fuel) (hq : On full tail (m.head ++ w) q) (head : Bool) :
    (full = false ∧ respNew fuel head ⟨q, false, cap⟩ = some (.error .fileRead)) ∨ ∃ r q', AfterHead m r ∧ On full tail w q' ∧
      respNew fuel head ⟨q, false, cap⟩ =
        (let e := (r.chunked || decide (0 < r.size) || r.close) && !head
         some (.ok ⟨{ r with hasContent := e, eof := !e }, ⟨q', false, cap⟩, if e then .held else done r⟩)) := by
  obtain ⟨e1, e2, e3⟩ := status_line h
  have hq' : On full tail (([72, 84, 84, 80, 47, 49, 46, if m.old then 48 else 49] ++ [32] ++ m.code ++ [32] ++ m.reason ++ [13]) ++ [10] ++
      ((m.fields.map Field.wire).flatten ++ crlf ++ w)) q := by
    rw [← e1]
    simpa [Msg.head] using hq
  rcases line_on false e2 e3 hq' with ⟨hf, hl⟩ | ⟨q1, hl, hq1, hlt⟩
  · refine .inl ⟨hf, ?_⟩
    simp only [respNew, statusRead, hl, bind, Except.bind]
  · obtain ⟨n, hn, hs⟩ := status_parse h
    have hst : statusRead Resp.new ⟨q, false, cap⟩ = .ok ({ Resp.new with close := m.old, code := n, reason := m.reason }, ⟨q1, false, cap⟩) := by
      simp only [statusRead, hl, bind, Except.bind, hs, pure, Except.pure]
    have hinit : HdrInv { Resp.new with close := m.old, code := n, reason := m.reason } (bodyLen m) [] { Resp.new with close := m.old, code := n, reason := m.reason } := by
      refine ⟨rfl, rfl, ?_, ?_, ?_, rfl, ?_, ?_, rfl⟩ <;> simp [Resp.new, valuesOf, get, joined]
    have := headerRead_spec (w := w) h.room m.fields fuel [] _ q1 (by omega) hinit
      (fun f hf => ⟨h.fields f hf, framed_te h.framed f hf, framed_cl h.framed f hf⟩) (framed_one h.framed) hq1
    rcases this with ⟨hf, he⟩ | ⟨r, q', he, hr, hq'⟩
    · refine .inl ⟨hf, ?_⟩
      simp only [respNew, hst, he]
    · refine .inr ⟨r, q', ?_, hq', ?_⟩
      · refine ⟨⟨?_, hr.reason, hr.header⟩, hr.chunked, hr.size, hr.remaining, ?_, hr.eof⟩
        · rw [hr.code]; exact hn
        · rw [hr.close]; rfl
      · simp only [respNew, hst, he]
        simp only [done]

/-! ## Reading -/

/-- Where a response is that has the data `b` left. -/
inductive OpenAt (cap : Nat) (full : Bool) (tail : Str) (close : Prop) (o : Open) : Str → Prop
  | live {w b q} : BodyAt cap o.resp w b → o.conn = ⟨q, false, cap⟩ → On full tail w q → o.sess = .held → (o.resp.close = true ↔ close) → OpenAt cap full tail close o b
  | toEnd {b} : full = true → tail = [] → o.resp.close = true → o.resp.chunked = false → o.resp.size = 0 → o.resp.eof = false → o.conn = ⟨b, false, cap⟩ →
      o.sess = .held → close → OpenAt cap full tail close o b
  | ended : full = true → o.resp.eof = true → o.conn.rest = tail → (close → o.sess = .freed) → (¬close → o.sess = .returned) → OpenAt cap full tail close o []

theorem done_sess {r : Resp} {close : Prop} (h : r.close = true ↔ close) : (close → done r = .freed) ∧ (¬close → done r = .returned) := by
  unfold done
  constructor
  · intro hc; rw [if_pos (h.mpr hc)]
  · intro hc; rw [if_neg (fun h' => hc (h.mp h'))]

theorem respRead_spec {cap n : Nat} {full : Bool} {tail : Str} {close : Prop} {o : Open} {b : Str} (hcap : 2 ≤ cap) (hn : 0 < n) (h : OpenAt cap full tail close o b) :
    (full = false ∧ respRead o n = .error .fileRead) ∨ ∃ o', respRead o n = .ok (o', b.take n) ∧ OpenAt cap full tail close o' (b.drop n) ∧
      (b.length < n → o'.resp.eof = true) ∧ o'.resp.header = o.resp.header := by
  cases h with
  | @live w b q hb hc hq hs hcl =>
    have h0 : o.resp.eof = false := by cases hb <;> assumption
    have h1 : ¬(o.resp.close = true ∧ o.resp.chunked = false ∧ o.resp.size = 0) := by
      rintro ⟨_, h1, h2⟩
      cases hb with
      | len _ _ h3 => omega
      | mid h3 => rw [h1] at h3; cases h3
      | next h3 => rw [h1] at h3; cases h3
    have := readLoop_spec hcap (q.length + 1) n o.resp w b q (by omega) hn hb hq
    unfold respRead
    rw [if_neg (by simp [h0]), if_neg h1, hc]
    rcases this with ⟨hf, he⟩ | ⟨r', q', out, he, hsame, hres⟩
    · exact .inl ⟨hf, by simp only [he, bind, Except.bind]⟩
    · refine .inr ⟨⟨r', ⟨q', false, cap⟩, if r'.eof then done r' else o.sess⟩, ?_, ?_, ?_, ?_⟩
      · have : out = b.take n := by
          rcases hres with ⟨w', b', _, rfl, hl, _⟩ | ⟨_, _, rfl, hl, _⟩
          · rw [← hl]; simp
          · rw [List.take_of_length_le hl]
        simp only [he, bind, Except.bind, pure, Except.pure, this]
      · have hcl' : r'.close = true ↔ close := by rw [hsame]; exact hcl
        rcases hres with ⟨w', b', hb', rfl, hl, hq'⟩ | ⟨hf, he', rfl, hl, rfl⟩
        · have h0' : r'.eof = false := by cases hb' <;> assumption
          rw [← hl, List.drop_left]
          exact .live hb' rfl hq' (by simp [h0', hs]) hcl'
        · rw [List.drop_of_length_le hl]
          have := done_sess hcl'
          exact .ended hf he' rfl (fun h => by simp only [he', if_true]; exact this.1 h) (fun h => by simp only [he', if_true]; exact this.2 h)
      · intro hlt
        rcases hres with ⟨w', b', _, rfl, hl, _⟩ | ⟨_, he', _⟩
        · simp at hlt; omega
        · exact he'
      · show r'.header = _
        rw [hsame]
  | toEnd hf ht h1 h2 h3 h4 hc hs hcl =>
    unfold respRead
    rw [if_neg (by simp [h4]), if_pos ⟨h1, h2, h3⟩, hc]
    refine .inr ⟨_, rfl, ?_, ?_, rfl⟩
    · by_cases hlt : b.length < n
      · have hz : b.drop n = [] := List.drop_of_length_le (by omega)
        rw [hz]
        refine .ended hf (by simp [Conn.read, hlt]) ?_ ?_ ?_
        · simp [Conn.read, hz, ht]
        · intro _; simp [Conn.read, hlt, done, h1]
        · intro h; exact absurd hcl h
      · refine .toEnd hf ht h1 h2 h3 ?_ ?_ ?_ hcl
        · simp [Conn.read, hlt]
        · simp [Conn.read, hlt]
        · simp [Conn.read, hlt, hs]
    · intro hlt
      simp [Conn.read, hlt]
  | ended hf h1 h2 h3 h4 =>
    refine .inr ⟨o, ?_, ?_, fun _ => h1, rfl⟩
    · simp [respRead, h1, pure, Except.pure]
    · simpa using OpenAt.ended hf h1 h2 h3 h4

theorem openAt_eof {cap : Nat} {full : Bool} {tail : Str} {close : Prop} {o : Open} {b : Str} (h : OpenAt cap full tail close o b) :
    (o.resp.eof = true → full = true ∧ b = [] ∧ o.conn.rest = tail ∧ (close → o.sess = .freed) ∧ (¬close → o.sess = .returned)) ∧
    (o.resp.eof = false → o.sess = .held) := by
  cases h with
  | live hb _ _ hs =>
    have h0 : o.resp.eof = false := by cases hb <;> assumption
    exact ⟨fun h => (by rw [h0] at h; cases h), fun _ => hs⟩
  | toEnd _ _ _ _ _ h0 _ hs => exact ⟨fun h => (by rw [h0] at h; cases h), fun _ => hs⟩
  | ended h1 h2 h3 h4 h5 => exact ⟨fun _ => ⟨h1, rfl, h3, h4, h5⟩, fun h => by rw [h2] at h; cases h⟩

theorem eof_stays {o o' : Open} {n : Nat} {out : Str} (h : o.resp.eof = true) (he : respRead o n = .ok (o', out)) : o'.resp.eof = true := by
  simp only [respRead, h, if_true, pure, Except.pure, Except.ok.injEq, Prod.mk.injEq] at he
  rw [← he.1]
  exact h

theorem respReads_spec {cap : Nat} {full : Bool} {tail : Str} {close : Prop} (hcap : 2 ≤ cap) (ns : List Nat) : ∀ (o : Open) (b : Str), (∀ n ∈ ns, 0 < n) →
    OpenAt cap full tail close o b → (full = false ∧ respReads o ns = .error .fileRead) ∨ ∃ o', respReads o ns = .ok (o', slices b ns) ∧
      OpenAt cap full tail close o' (b.drop ns.sum) ∧ (b.length < ns.sum ∨ o.resp.eof = true → o'.resp.eof = true) := by
  induction ns with
  | nil => intro o b _ h; exact .inr ⟨o, rfl, by simpa using h, by simp⟩
  | cons n ns ih =>
    intro o b hns h
    rcases respRead_spec hcap (hns n (by simp)) h with ⟨hf, he⟩ | ⟨o1, he, h1, heof, _⟩
    · exact .inl ⟨hf, by simp only [respReads, he, bind, Except.bind]⟩
    · rcases ih o1 _ (fun x hx => hns x (by simp [hx])) h1 with ⟨hf, he'⟩ | ⟨o2, he', h2, heof2⟩
      · exact .inl ⟨hf, by simp only [respReads, he, he', bind, Except.bind]⟩
      · refine .inr ⟨o2, by simp only [respReads, he, he', bind, Except.bind, pure, Except.pure, slices], by simpa [List.drop_drop] using h2, ?_⟩
        intro hx
        rcases hx with hx | hx
        · by_cases hlt : b.length < n
          · exact heof2 (.inr (heof hlt))
          · refine heof2 (.inl ?_)
            simp only [List.sum_cons] at hx
            simp only [List.length_drop]
            omega
        · exact heof2 (.inr (eof_stays hx he))

theorem content_spec {cap size : Nat} {tail : Str} {close : Prop} (hcap : 2 ≤ cap) (hsize : 0 < size) : ∀ (k : Nat) (o : Open) (b got : Str), b.length < k →
    OpenAt cap true tail close o b → o.resp.eof = false → ∃ o', content size k got.length o got = some (.ok (o', got ++ b)) ∧ o'.resp.eof = true ∧ OpenAt cap true tail close o' [] := by
  intro k
  induction k with
  | zero => intro o b got h; omega
  | succ k ih =>
    intro o b got hk h heof
    rcases respRead_spec hcap hsize h with ⟨hf, _⟩ | ⟨o1, he, h1, hend, _⟩
    · cases hf
    · have e : got.length + size - got.length = size := by omega
      by_cases hx : o1.resp.eof = true
      · have hb : b.drop size = [] := by
          exact ((openAt_eof h1).1 hx).2.1
        refine ⟨o1, ?_, hx, hb ▸ h1⟩
        have hb' : b.take size = b := by
          have := List.take_append_drop size b
          rwa [hb, List.append_nil] at this
        simp only [content, e, he, hx, if_true, hb']
      · have hge : size ≤ b.length := by
          by_cases hlt : b.length < size
          · exact absurd (hend hlt) hx
          · omega
        obtain ⟨o2, h2, h3, h4⟩ := ih o1 (b.drop size) (got ++ b.take size) (by simp; omega) h1 (by simpa using hx)
        refine ⟨o2, ?_, h3, h4⟩
        have hl : (got ++ b.take size).length = got.length + size := by simp; omega
        rw [hl] at h2
        simp only [content, e, he]
        rw [if_neg hx, h2, List.append_assoc, List.take_append_drop]

/-! ## The theorems -/

/-- Where a response is after the head of a message. -/
theorem open_spec {cap fuel : Nat} {full : Bool} {tail q : Str} {m : Msg} (h : m.Valid cap) (hk : q.length < fuel) (hq : On full tail m.wire q)
    (hend : m.closes → tail = []) (hcut : full = false → ∀ d, m.body ≠ .toClose d) :
    (full = false ∧ respNew fuel false ⟨q, false, cap⟩ = some (.error .fileRead)) ∨ ∃ o, respNew fuel false ⟨q, false, cap⟩ = some (.ok o) ∧ Head m o.resp ∧
      OpenAt cap full tail m.closes o m.body.data := by
  rcases head_read h hk hq false with hf | ⟨r, q', ha, hq', he⟩
  · exact .inl hf
  · refine .inr ⟨_, he, ⟨ha.code, ha.reason, ha.fields⟩, ?_⟩
    have hfr := h.framed
    have hch := ha.chunked
    have hsz := ha.size
    have hcl := ha.close
    -- nothing to read
    have hnone : ∀ (e : Bool), e = false → m.body.wire = [] → m.body.data = [] → OpenAt cap full tail m.closes
        ⟨{ r with hasContent := e, eof := !e }, ⟨q', false, cap⟩, if e then .held else done r⟩ m.body.data := by
      intro e he hw hd
      subst he
      rw [hw] at hq'
      obtain ⟨hf, hqt⟩ := on_nil hq'
      rw [hd]
      have := done_sess hcl
      exact .ended hf rfl hqt this.1 this.2
    unfold Framed at hfr
    split at hfr
    · rename_i hb
      obtain ⟨f1, f2, f3⟩ := hfr
      have c1 : r.chunked = false := by rw [Bool.eq_false_iff]; intro h; exact hch.mp h f1
      have c2 : r.close = false := by rw [Bool.eq_false_iff]; intro h; exact f3 (hcl.mp h)
      have c3 : r.size = 0 := by rw [hsz, if_pos f2]
      exact hnone _ (by simp [c1, c2, c3]) (by rw [hb]; rfl) (by rw [hb]; rfl)
    · rename_i d hb
      obtain ⟨f1, f2, f3, f4⟩ := hfr
      have c1 : r.chunked = false := by rw [Bool.eq_false_iff]; intro h; exact hch.mp h f1
      have c3 : r.size = d.length := by rw [hsz, if_neg f2, bodyLen, hb]
      have hwb : m.body.wire = d := by rw [hb]; rfl
      have hdb : m.body.data = d := by rw [hb]; rfl
      by_cases hd : d = []
      · subst hd
        by_cases hc : r.close = true
        · have hcl' := hcl.mp hc
          have ht := hend hcl'
          rw [hwb] at hq'
          obtain ⟨hf, hqt⟩ := on_nil hq'
          rw [hdb]
          have e1 : ((r.chunked || decide (0 < r.size) || r.close) && !false) = true := by simp [hc]
          simp only [e1]
          exact .toEnd hf ht hc c1 c3 rfl (by rw [hqt, ht]) rfl hcl'
        · exact hnone _ (by simp [c1, c3, hc]) hwb hdb
      · have hpos : 0 < r.size := by rw [c3]; exact List.length_pos_iff.mpr hd
        have e1 : ((r.chunked || decide (0 < r.size) || r.close) && !false) = true := by simp [hpos]
        simp only [e1]
        rw [hwb] at hq'
        rw [hdb]
        exact .live (.len c1 rfl hpos hd (by show r.remaining = _; rw [ha.remaining, c3])) rfl hq' rfl hcl
    · rename_i cs last ts hb
      obtain ⟨f1, f2, f3, f4, f5, f6⟩ := hfr
      have c1 : r.chunked = true := hch.mpr f1
      have c3 : r.size = 0 := by rw [hsz, if_pos f3]
      have e1 : ((r.chunked || decide (0 < r.size) || r.close) && !false) = true := by simp [c1]
      simp only [e1]
      have hwb : m.body.wire = chunksWire cs last ts := by rw [hb]; rfl
      have hdb : m.body.data = dataOf cs := by rw [hb]; rfl
      rw [hwb] at hq'
      rw [hdb]
      exact .live (.next c1 rfl (by show r.remaining = 0; rw [ha.remaining, c3]) f4 f5 f6) rfl hq' rfl hcl
    · rename_i d hb
      obtain ⟨f1, f2, f3⟩ := hfr
      have hf : full = true := by
        cases full with
        | true => rfl
        | false => exact absurd hb (hcut rfl d)
      have c1 : r.chunked = false := by rw [Bool.eq_false_iff]; intro h; exact hch.mp h f1
      have c3 : r.size = 0 := by rw [hsz, if_pos f2]
      have ht := hend f3
      have e1 : ((r.chunked || decide (0 < r.size) || r.close) && !false) = true := by simp [hcl.mpr f3]
      simp only [e1]
      have hwb : m.body.wire = d := by rw [hb]; rfl
      have hdb : m.body.data = d := by rw [hb]; rfl
      rw [hwb] at hq'
      rw [hdb]
      subst hf
      simp only [On, if_true, ht, List.append_nil] at hq'
      exact .toEnd rfl ht (hcl.mpr f3) c1 c3 rfl (by rw [hq']) rfl f3

/-- C75: a response that a server sends, however it divides the body, is read as it was sent: the status, the fields, and with buffers of any sizes the
data, each buffer filled as far as there is data. When the response says that all was read then it was, what is left on the connection is what the server sends after
the response, and the session is given back, or closed if the server closes it. -/
theorem c75_response {cap fuel : Nat} {m : Msg} {tail : Str} (h : m.Valid cap) (hend : m.closes → tail = []) (hk : (m.wire ++ tail).length < fuel) :
    ∃ o, respNew fuel false ⟨m.wire ++ tail, false, cap⟩ = some (.ok o) ∧ Head m o.resp ∧ ∀ ns : List Nat, (∀ n ∈ ns, 0 < n) →
      ∃ o', respReads o ns = .ok (o', slices m.body.data ns) ∧ (m.body.data.length < ns.sum → o'.resp.eof = true) ∧
        (o'.resp.eof = false → o'.sess = .held) ∧
        (o'.resp.eof = true → m.body.data.length ≤ ns.sum ∧ o'.conn.rest = tail ∧ (m.closes → o'.sess = .freed) ∧ (¬m.closes → o'.sess = .returned)) := by
  rcases open_spec (full := true) h hk (by simp [On]) hend (by simp) with ⟨hf, _⟩ | ⟨o, he, hh, ho⟩
  · cases hf
  · refine ⟨o, he, hh, fun ns hns => ?_⟩
    rcases respReads_spec h.room ns o _ hns ho with ⟨hf, _⟩ | ⟨o', he', ho', hx⟩
    · cases hf
    · obtain ⟨g1, g2⟩ := openAt_eof ho'
      refine ⟨o', he', fun h => hx (.inl h), g2, fun h => ?_⟩
      obtain ⟨_, hb, g3, g4, g5⟩ := g1 h
      exact ⟨List.drop_eq_nil_iff.mp hb, g3, g4, g5⟩

/-- C75: the content that is read at once is the data. -/
theorem c75_content {cap fuel size : Nat} {m : Msg} {tail : Str} (h : m.Valid cap) (hend : m.closes → tail = []) (hk : (m.wire ++ tail).length < fuel) (hsize : 0 < size) :
    ∃ o, respNew fuel false ⟨m.wire ++ tail, false, cap⟩ = some (.ok o) ∧ (o.resp.eof = true ∧ m.body.data = [] ∨
      ∃ o', content size fuel 0 o [] = some (.ok (o', m.body.data)) ∧ o'.resp.eof = true ∧ o'.conn.rest = tail) := by
  rcases open_spec (full := true) h hk (by simp [On]) hend (by simp) with ⟨hf, _⟩ | ⟨o, he, _, ho⟩
  · cases hf
  · refine ⟨o, he, ?_⟩
    by_cases hx : o.resp.eof = true
    · exact .inl ⟨hx, ((openAt_eof ho).1 hx).2.1⟩
    · have hdl : m.body.data.length ≤ m.body.wire.length := by
        cases m.body with
        | none => simp [Body.data]
        | length d => simp [Body.data, Body.wire]
        | toClose d => simp [Body.data, Body.wire]
        | chunks cs last ts =>
          simp only [Body.data, Body.wire, List.length_append]
          have : ((cs.map Chunk.data).flatten).length ≤ ((cs.map Chunk.wire).flatten).length := by
            induction cs with
            | nil => simp
            | cons c cs ih =>
              simp only [List.map_cons, List.flatten_cons, List.length_append]
              have : c.data.length ≤ c.wire.length := by simp [Chunk.wire]; omega
              omega
          omega
      obtain ⟨o', h1, h2, h3⟩ := content_spec h.room hsize fuel o _ [] (by simp [Msg.wire] at hk; omega) ho (by simpa using hx)
      refine .inr ⟨o', by simpa using h1, h2, ((openAt_eof h3).1 h2).2.2.1⟩

/-- C75: if the connection ends before all of the response was sent then the response is never said to be complete, unless it is one that is ended by
the end of the connection. What is read before the error is what was sent. -/
theorem c75_truncated {cap fuel : Nat} {m : Msg} {p : Str} (h : m.Valid cap) (hb : ∀ d, m.body ≠ .toClose d) (hp : Cut p m.wire) (hk : p.length < fuel) :
    respNew fuel false ⟨p, false, cap⟩ = some (.error .fileRead) ∨ ∃ o, respNew fuel false ⟨p, false, cap⟩ = some (.ok o) ∧ Head m o.resp ∧
      ∀ ns : List Nat, (∀ n ∈ ns, 0 < n) → respReads o ns = .error .fileRead ∨
        ∃ o', respReads o ns = .ok (o', slices m.body.data ns) ∧ o'.resp.eof = false ∧ ns.sum ≤ m.body.data.length := by
  rcases open_spec (full := false) (tail := []) h hk (by simpa [On] using hp) (fun _ => rfl) (fun _ => hb) with ⟨_, he⟩ | ⟨o, he, hh, ho⟩
  · exact .inl he
  · refine .inr ⟨o, he, hh, fun ns hns => ?_⟩
    rcases respReads_spec h.room ns o _ hns ho with ⟨_, he'⟩ | ⟨o', he', ho', hx⟩
    · exact .inl he'
    · have hf : o'.resp.eof = false := by
        rw [Bool.eq_false_iff]
        intro h
        have := ((openAt_eof ho').1 h).1
        cases this
      refine .inr ⟨o', he', hf, ?_⟩
      by_cases hlt : m.body.data.length < ns.sum
      · rw [hx (.inl hlt)] at hf; cases hf
      · omega

/-- C75: the response to HEAD has no body, whatever the fields say. -/
theorem c75_head {cap fuel : Nat} {m : Msg} {tail : Str} (h : m.Valid cap) (hk : (m.head ++ tail).length < fuel) :
    ∃ o, respNew fuel true ⟨m.head ++ tail, false, cap⟩ = some (.ok o) ∧ Head m o.resp ∧ o.resp.eof = true ∧ o.conn.rest = tail ∧
      (m.closes → o.sess = .freed) ∧ (¬m.closes → o.sess = .returned) := by
  rcases head_read (full := true) (w := []) (tail := tail) h hk (by simp [On]) true with ⟨hf, _⟩ | ⟨r, q', ha, hq', he⟩
  · cases hf
  · obtain ⟨_, hqt⟩ := on_nil hq'
    have := done_sess ha.close
    exact ⟨_, he, ⟨ha.code, ha.reason, ha.fields⟩, by simp, hqt, by simpa using this.1, by simpa using this.2⟩

end Verif.Http
