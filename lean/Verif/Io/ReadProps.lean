import Verif.Io.ReadOps

/-!
# Reading through filters: properties (C68)

However a reader is read (bytes, small pieces, lines, numbers), through whatever buffer sizes, and however the driver gives out its
content, the caller gets the bytes that the filters make of the content of the driver, whole, once and in order.

`Steps` says what reading from a string is.
-/

namespace Verif.Io

variable {σ δ : Type} {S : Ops σ → Spec σ} {dr : Drv δ} {D : DSpec δ} {X Y : Str}

/-- The functions of a reader, with the room in the buffer given. -/
inductive Rop where
  | read (n : Nat)
  | small (n : Nat)
  | line (allowEof : Bool)
  | varint
  | flush (errorOnBytes : Bool)

/-- What they return. -/
inductive Rres where
  | data (d : Str)
  | line (l : Res Str)
  | num (v : Res UInt64)
  | count (n : Res Nat)
  deriving DecidableEq

/-- Call a function. -/
def doOp (dr : Drv δ) (p : Nat) (r : Reader σ δ) : Rop → Option (Except RFail (Reader σ δ × Rres))
  | .read n => (ioRead dr p r ⟨[], n⟩).map (·.map fun a => (a.1, .data a.2.data))
  | .small n => (ioReadSmall dr p r ⟨[], n⟩).map (·.map fun a => (a.1, .data a.2.data))
  | .line e => (ioReadLine dr p r e).map (·.map fun a => (a.1, .line a.2))
  | .varint => (ioReadVarInt dr p r).map (·.map fun a => (a.1, .num a.2))
  | .flush e => (ioReadFlush dr p r e).map (·.map fun a => (a.1, .count a.2))

/-- Call some functions, and then read all the rest with `ioReadBuf`: the results, each with what `ioReadEof` says after it, and the rest. -/
def runReads (dr : Drv δ) (p : Nat) : List Rop → Reader σ δ → Option (Except RFail (Reader σ δ × List (Rres × Bool) × Str))
  | [], r => (ioReadBuf dr p r).map (·.map fun a => (a.1, [], a.2))
  | op :: ops, r =>
    match doOp dr p r op with
    | none => none
    | some (.error e) => some (.error e)
    | some (.ok (r', res)) => (runReads dr p ops r').map (·.map fun a => (a.1, (res, r'.eof) :: a.2.1, a.2.2))

/-- What a call is on a string `T` with `T'` left after it. `size` is the size of the internal buffer, `q` says that a small read is
always complete, `e` and `e'` are what `ioReadEof` says before and after.

A line is found if it is not longer than the buffer, with its end. At the end of the data the last line may have no end; it is then returned and
*not* taken. -/
def Step (size : Nat) (q : Prop) (e : Bool) (T : Str) (e' : Bool) (T' : Str) : Rop → Rres → Prop
  | .read n, .data d => d = T.take n ∧ T' = T.drop n ∧ (T.length < n → e' = true)
  | .small n, .data d => ∃ m, m ≤ n ∧ d = T.take m ∧ T' = T.drop m ∧ (e' = false ∨ q → m = n)
  | .line a, .line l =>
    if 10 ∈ T.take size then l = .ok (T.takeWhile (· ≠ 10)) ∧ T' = T.drop ((T.takeWhile (· ≠ 10)).length + 1)
    else T' = T ∧ l = if a = true ∧ T.length < size then .ok T else .error .fileRead
  | .varint, .num v =>
    match Varint.read T with
    | .ok (x, rest) => v = .ok x ∧ T' = rest
    | .error _ => T' = T.drop 10 ∧ v = .error (if T.length < 10 then .fileRead else .format)
  | .flush a, .count n =>
    (T' = [] ∧ n = if a = true ∧ T ≠ [] then .error .fileRead else .ok T.length) ∨ (e = true ∧ T' = T ∧ n = .ok 0)
  | _, _ => False

/-- Several calls. -/
def Steps (size : Nat) (q : Prop) : Bool → List Rop → Str → List (Rres × Bool) → Str → Prop
  | _, [], T, [], T' => T = T'
  | e, op :: ops, T, (res, e') :: rs, T' => ∃ T1, Step size q e T e' T1 op res ∧ Steps size q e' ops T1 rs T'
  | _, _, _, _, _ => False

/-- A call from an invariant state: `V` is what the filters gave out meanwhile. Whatever they give out later, `V'`, it is a step. -/
def OpOk (S : Ops σ → Spec σ) (dr : Drv δ) (D : DSpec δ) (X Y : Str) (r : Reader σ δ) (op : Rop) (r' : Reader σ δ) (res : Rres) : Prop :=
  ∃ V, RInv S dr D X (Y ++ V) r' ∧ Keeps r r' ∧ (r.eof = true → V = [] ∧ r'.eof = true) ∧
    ∀ V', (r'.eof = true → V' = []) → Step r.size (Quiet S r) r.eof (pending r ++ V ++ V') r'.eof (pending r' ++ V') op res

theorem Ends.map {α β : Type} {f : Nat → Option (Except RFail α)} {P : α → Prop} {Q : β → Prop} {g : α → β} (h : Ends S D f P) (hg : ∀ a, P a → Q (g a)) :
    Ends S D (fun p => (f p).map (·.map g)) Q := by
  obtain ⟨res, N, h1, h2, h3⟩ := h
  refine ⟨res.map g, N, fun p hp => by simp [h1 p hp], ?_, ?_⟩
  · intro e he
    cases res with
    | error e' => simp only [Except.map, Except.error.injEq] at he; exact h2 e (by rw [he])
    | ok a => simp [Except.map] at he
  · intro b hb
    cases res with
    | error e' => simp [Except.map] at hb
    | ok a =>
      simp only [Except.map, Except.ok.injEq] at hb
      subst hb
      exact hg a (h3 a rfl)

theorem opOk_read (hD : DContract dr D) {r : Reader σ δ} (hr : RInv S dr D X Y r) (n : Nat) :
    Ends S D (fun p => doOp dr p r (.read n)) fun a => OpOk S dr D X Y r (.read n) a.1 a.2 := by
  refine (ioRead_spec hD hr ⟨[], n⟩ (Nat.zero_le _)).map ?_
  rintro ⟨r', b'⟩ ⟨V, piece, m, hb, hlen, hfull, _⟩
  simp only [List.nil_append] at hb hlen hfull
  subst hb
  refine ⟨V, m.inv, m.keeps, m.eof, fun V' hV' => ?_⟩
  have hT : pending r ++ V ++ V' = piece ++ (pending r' ++ V') := by rw [m.flow, List.append_assoc]
  simp only [Step]
  rw [hT]
  rcases hfull with h | ⟨h, hp⟩
  · have hl : piece.length = n := by omega
    refine ⟨by rw [← hl]; simp, by rw [← hl]; simp, fun hlt => ?_⟩
    simp only [List.length_append] at hlt
    omega
  · rw [hV' h, hp]
    simp only [List.append_nil]
    refine ⟨(List.take_of_length_le hlen).symm, (List.drop_eq_nil_of_le hlen).symm, fun _ => h⟩

theorem opOk_small (hD : DContract dr D) {r : Reader σ δ} (hr : RInv S dr D X Y r) (n : Nat) :
    Ends S D (fun p => doOp dr p r (.small n)) fun a => OpOk S dr D X Y r (.small n) a.1 a.2 := by
  have : Ends S D (fun p => ioReadSmall dr p r ⟨[], n⟩) fun a => ∃ V piece, Moved S dr D X Y r a.1 V piece ∧ a.2 = ⟨piece, n⟩ ∧ piece.length ≤ n ∧
      (n ≤ piece.length ∨ (a.1.eof = true ∧ (Quiet S r → pending a.1 = []))) := by
    obtain ⟨res, N, h1, h2, h3⟩ := smallLoop_spec hD _ Y r ⟨[], n⟩ rfl hr (Nat.zero_le _)
    exact ⟨res, N, fun p hp => h1 p p hp hp, h2, by simpa using h3⟩
  refine this.map ?_
  rintro ⟨r', b'⟩ ⟨V, piece, m, hb, hlen, hfull⟩
  simp only at hb
  subst hb
  refine ⟨V, m.inv, m.keeps, m.eof, fun V' hV' => ?_⟩
  have hT : pending r ++ V ++ V' = piece ++ (pending r' ++ V') := by rw [m.flow, List.append_assoc]
  simp only [Step]
  rw [hT]
  rcases hfull with h | ⟨h, hp⟩
  · exact ⟨piece.length, hlen, by simp, by simp, fun _ => by omega⟩
  · simp only at h hp
    by_cases hq : Quiet S r
    · rw [hV' h, hp hq]
      simp only [List.append_nil]
      exact ⟨n, le_rfl, (List.take_of_length_le hlen).symm, (List.drop_eq_nil_of_le hlen).symm, fun _ => rfl⟩
    · refine ⟨piece.length, hlen, by simp, by simp, ?_⟩
      rintro (h' | h')
      · rw [h] at h'; cases h'
      · exact absurd h' hq

theorem takeWhile_line (l t : Str) (h : (10 : UInt8) ∉ l) : (l ++ [10] ++ t).takeWhile (· ≠ 10) = l := by
  induction l with
  | nil => simp
  | cons x l ih =>
    simp only [List.mem_cons, not_or] at h
    have : x ≠ 10 := fun hx => h.1 hx.symm
    simp only [List.cons_append, ne_eq, this, not_false_eq_true, decide_true, List.takeWhile_cons_of_pos]
    rw [ih h.2]

theorem opOk_line (hD : DContract dr D) {r : Reader σ δ} (hr : RInv S dr D X Y r) (e : Bool) :
    Ends S D (fun p => doOp dr p r (.line e)) fun a => OpOk S dr D X Y r (.line e) a.1 a.2 := by
  have : Ends S D (fun p => ioReadLine dr p r e) fun a => LineOut S dr D X Y e r a := by
    obtain ⟨res, N, h1, h2, h3⟩ := lineLoop_spec hD e _ Y r rfl hr
    exact ⟨res, N, fun p hp => h1 p p hp hp, h2, h3⟩
  refine this.map ?_
  rintro ⟨r', l⟩ ⟨V, piece, m, hout⟩
  refine ⟨V, m.inv, m.keeps, m.eof, fun V' hV' => ?_⟩
  have hT : pending r ++ V ++ V' = piece ++ (pending r' ++ V') := by rw [m.flow, List.append_assoc]
  simp only [Step]
  rw [hT]
  rcases hout with ⟨l', h1, rfl, h3, h4⟩ | ⟨rfl, h2, h3⟩
  · simp only at h1
    subst h1
    have hin : (10 : UInt8) ∈ (l' ++ [10] ++ (pending r' ++ V')).take r.size := by
      rw [List.take_append, List.take_of_length_le h4]
      simp
    rw [if_pos hin, takeWhile_line _ _ h3]
    refine ⟨rfl, ?_⟩
    have : l'.length + 1 = (l' ++ [10]).length := by simp
    rw [this, List.drop_left]
  · simp only at h2 h3
    rcases h3 with ⟨h3, h4⟩ | ⟨h3, h4, h5⟩
    · have hin : (10 : UInt8) ∉ ([] ++ (pending r' ++ V')).take r.size := by
        rw [List.nil_append, ← h4, List.take_left]
        exact h2
      rw [if_neg hin]
      refine ⟨by simp, ?_⟩
      rw [h3, if_neg]
      simp only [List.nil_append, List.length_append]
      omega
    · rw [hV' h3]
      simp only [List.nil_append, List.append_nil]
      have hin : (10 : UInt8) ∉ (pending r').take r.size := fun h => h2 (List.mem_of_mem_take h)
      rw [if_neg hin]
      refine ⟨trivial, ?_⟩
      rw [h5]
      cases e
      · simp
      · simp [h4]

theorem readGo_unterminated (k : Nat) : ∀ (idx : Nat) (result : UInt64) (l t : List UInt8), (∀ x ∈ l, ¬x < 0x80) → (l.length = k ∨ (l.length < k ∧ t = [])) →
    Varint.readGo k idx result (l ++ t) = .error .format := by
  induction k with
  | zero => intro idx result l t _ _; rfl
  | succ k ih =>
    intro idx result l t hl hk
    cases l with
    | nil =>
      rcases hk with h | ⟨_, rfl⟩
      · simp at h
      · rfl
    | cons x l =>
      simp only [List.cons_append, Varint.readGo, if_neg (hl x (by simp))]
      apply ih
      · exact fun y hy => hl y (by simp [hy])
      · simp only [List.length_cons] at hk
        rcases hk with h | ⟨h, h'⟩
        · left; omega
        · right; exact ⟨by omega, h'⟩

theorem opOk_varint (hD : DContract dr D) {r : Reader σ δ} (hr : RInv S dr D X Y r) :
    Ends S D (fun p => doOp dr p r .varint) fun a => OpOk S dr D X Y r .varint a.1 a.2 := by
  refine (varLoop_spec hD Varint.bufferSizeMax 0 0 Y r hr).map ?_
  rintro ⟨r', v⟩ ⟨V, piece, m, hout⟩
  refine ⟨V, m.inv, m.keeps, m.eof, fun V' hV' => ?_⟩
  have hT : pending r ++ V ++ V' = piece ++ (pending r' ++ V') := by rw [m.flow, List.append_assoc]
  simp only [Step]
  rw [hT]
  rcases hout with ⟨x, h1, h2⟩ | ⟨h1, h2, h3⟩ | ⟨h1, h2, h3, h4, h5⟩
  · simp only at h1
    have : Varint.read (piece ++ (pending r' ++ V')) = .ok (x, pending r' ++ V') := h2 _
    rw [this]
    exact ⟨h1, rfl⟩
  · simp only at h1
    have : Varint.read (piece ++ (pending r' ++ V')) = .error .format := readGo_unterminated _ _ _ _ _ h3 (Or.inl h2)
    rw [this]
    simp only [Varint.bufferSizeMax] at h2
    refine ⟨by rw [← h2, List.drop_left], ?_⟩
    rw [h1, if_neg]
    simp only [List.length_append]
    omega
  · simp only at h1 h4 h5
    rw [hV' h4, h5]
    have : Varint.read (piece ++ ([] ++ [])) = .error .format := readGo_unterminated _ _ _ _ _ h3 (Or.inr ⟨h2, rfl⟩)
    rw [this]
    simp only [Varint.bufferSizeMax] at h2
    simp only [List.append_nil]
    refine ⟨(List.drop_eq_nil_of_le (by omega)).symm, ?_⟩
    rw [h1, if_pos h2]

theorem opOk_flush (hD : DContract dr D) {r : Reader σ δ} (hr : RInv S dr D X Y r) (e : Bool) :
    Ends S D (fun p => doOp dr p r (.flush e)) fun a => OpOk S dr D X Y r (.flush e) a.1 a.2 := by
  by_cases he : r.eof = true
  · refine ⟨.ok (r, .count (.ok 0)), 0, fun p _ => by simp [doOp, ioReadFlush, he, Except.map], by simp, ?_⟩
    intro a ha
    simp only [Except.ok.injEq] at ha
    subst ha
    refine ⟨[], by simpa using hr, ⟨rfl, rfl⟩, fun h => ⟨rfl, h⟩, fun V' hV' => Or.inr ⟨he, by simp, rfl⟩⟩
  · obtain ⟨res, N, h1, h2, h3⟩ := flushLoop_spec hD _ Y r 0 rfl hr
    cases res with
    | error e' =>
      refine ⟨.error e', N, fun p hp => ?_, by simpa using h2, by simp⟩
      simp only [doOp, ioReadFlush, if_neg he, h1 p p hp hp]
      rfl
    | ok a =>
      obtain ⟨r', n⟩ := a
      obtain ⟨V, piece, m, h4, h5, h6⟩ := h3 (r', n) rfl
      simp only [Nat.zero_add] at h4 h5 h6
      refine ⟨.ok (r', .count (if n ≠ 0 ∧ e = true then .error .fileRead else .ok n)), N, fun p hp => ?_, by simp, ?_⟩
      · simp only [doOp, ioReadFlush, if_neg he, h1 p p hp hp]
        rfl
      · intro a ha
        simp only [Except.ok.injEq] at ha
        subst ha
        refine ⟨V, m.inv, m.keeps, m.eof, fun V' hV' => ?_⟩
        have hT : pending r ++ V ++ V' = piece := by rw [m.flow, h5, hV' h4]; simp
        simp only [Step]
        left
        rw [hT, h5, hV' h4, h6]
        refine ⟨rfl, ?_⟩
        cases piece with
        | nil => simp
        | cons x l => cases e <;> simp

theorem opOk (hD : DContract dr D) {r : Reader σ δ} (hr : RInv S dr D X Y r) (op : Rop) :
    Ends S D (fun p => doOp dr p r op) fun a => OpOk S dr D X Y r op a.1 a.2 := by
  cases op with
  | read n => exact opOk_read hD hr n
  | small n => exact opOk_small hD hr n
  | line e => exact opOk_line hD hr e
  | varint => exact opOk_varint hD hr
  | flush e => exact opOk_flush hD hr e

theorem runReads_spec (hD : DContract dr D) (ops : List Rop) : ∀ (Y : Str) (r : Reader σ δ), RInv S dr D X Y r →
    Ends S D (fun p => runReads dr p ops r) fun a => ∃ V, RInv S dr D X (Y ++ V) a.1 ∧ Keeps r a.1 ∧ (r.eof = true → V = []) ∧ a.1.eof = true ∧
      Steps r.size (Quiet S r) r.eof ops (pending r ++ V) a.2.1 a.2.2 := by
  induction ops with
  | nil =>
    intro Y r hr
    have : Ends S D (fun p => ioReadBuf dr p r) fun a => ∃ V piece, Moved S dr D X Y r a.1 V piece ∧ a.1.eof = true ∧ pending a.1 = [] ∧ a.2 = piece := by
      obtain ⟨res, N, h1, h2, h3⟩ := bufLoop_spec hD _ Y r ⟨[], 0⟩ rfl hr le_rfl
      exact ⟨res, N, fun p hp => h1 p p hp hp, h2, h3⟩
    refine this.map ?_
    rintro ⟨r', rest⟩ ⟨V, piece, m, h1, h2, h3⟩
    refine ⟨V, m.inv, m.keeps, fun h => (m.eof h).1, h1, ?_⟩
    simp only [Steps]
    rw [m.flow, h2, List.append_nil]
    exact h3.symm
  | cons op ops ih =>
    intro Y r hr
    obtain ⟨res, N, h1, h2, h3⟩ := opOk hD hr op
    cases res with
    | error e =>
      refine ⟨.error e, N, fun p hp => ?_, by simpa using h2, by simp⟩
      simp only [runReads, h1 p hp]
    | ok a =>
      obtain ⟨r', x⟩ := a
      obtain ⟨V, i1, i2, i3, i4⟩ := h3 (r', x) rfl
      obtain ⟨res, N', k1, k2, k3⟩ := ih _ r' i1
      have := Ends.map (g := fun a => (a.1, (x, r'.eof) :: a.2.1, a.2.2)) ⟨res, N', k1, k2, k3⟩ (Q := fun a => ∃ V, RInv S dr D X (Y ++ V) a.1 ∧ Keeps r a.1 ∧
        (r.eof = true → V = []) ∧ a.1.eof = true ∧ Steps r.size (Quiet S r) r.eof (op :: ops) (pending r ++ V) a.2.1 a.2.2) (by
          rintro ⟨r'', rs, rest⟩ ⟨V', j1, j2, j3, j4, j5⟩
          refine ⟨V ++ V', by simpa using j1, i2.trans j2, ?_, j4, ?_⟩
          · intro he
            obtain ⟨e1, e2⟩ := i3 he
            simp [e1, j3 e2]
          · refine ⟨pending r' ++ V', by rw [← List.append_assoc]; exact i4 V' j3, ?_⟩
            have hq : Quiet S r' = Quiet S r := by
              unfold Quiet
              rw [i2.2]
            rw [← i2.1, ← hq]
            exact j5)
      obtain ⟨res', N'', l1, l2, l3⟩ := this
      refine ⟨res', max N N'', fun p hp => ?_, l2, l3⟩
      simp only [runReads, h1 p (by omega)]
      exact l1 p (by omega)

theorem rInv_open {size : Nat} {buffer : Ops σ × σ} {filters : List (Ops σ × σ)} (hsize : 0 < size) (hbuf : buffer.1.out = true)
    (hF : ∀ f ∈ buffer :: filters, Fresh S f) {d : δ} (hX : D.Has d X) : RInv S dr D X [] (readOpen size buffer filters d) := by
  refine ⟨hsize, Nat.zero_le _, le_rfl, ⟨[], some [], X, gInv_start hsize hbuf hF, rfl, hX, by simp [readOpen], ?_⟩, by simp [readOpen]⟩
  intro b hb
  refine ⟨by simp, fun _ => ?_⟩
  simp only [readOpen] at hb
  exact hb

/-- C68: whatever calls are made of a reader, if all the rest is read at the end then there is one string `T`, which is what the filters made
of the whole content `X` of the driver (C66), such that each call did on `T` what it should: `ioRead` returned as much as there is room
for, `ioReadLineParam` the next line, `ioReadVarIntU64` the next number, and so on, and what was read at the end is the rest of `T`. The calls end, and fail
only with an error of a filter or of the driver, or as `Step` says. -/
theorem c68_stream {size : Nat} {buffer : Ops σ × σ} {filters : List (Ops σ × σ)} (hsize : 0 < size) (hbuf : buffer.1.out = true)
    (hF : ∀ f ∈ buffer :: filters, Fresh S f) (hD : DContract dr D) {d : δ} (hX : D.Has d X) (ops : List Rop) :
    Ends S D (fun p => runReads dr p ops (readOpen size buffer filters d)) fun a => ∃ T, Chain S a.1.group.filters X T ∧
      a.1.group.filters.map (·.1) = (if lastOut filters then filters else filters ++ [buffer]).map (·.1) ∧
      Steps size (Quiet S (readOpen size buffer filters d)) false ops T a.2.1 a.2.2 := by
  obtain ⟨res, N, h1, h2, h3⟩ := runReads_spec hD ops [] _ (rInv_open hsize hbuf hF hX)
  refine ⟨res, N, h1, h2, fun a ha => ?_⟩
  obtain ⟨V, j1, j2, _, j4, j5⟩ := h3 a ha
  refine ⟨V, (rInv_eof hD j1 j4).1, ?_, j5⟩
  unfold Group.filters
  rw [List.map_map]
  exact j2.2.trans (open_ops size buffer filters)

/-! ### Copies -/

theorem copyLoop_spec (hD : DContract dr D) (limit : Option Nat) (m : (Nat × List (Nat × Nat)) × Nat) : ∀ (Y E Z : Str) (r : Reader σ δ) (w : Writer σ) (copied : Nat),
    meas S D r = m → RInv S dr D X Y r → WInv S E Z w → (∀ l, limit = some l → copied ≤ l) →
    ∃ res N, (∀ p k, N ≤ p → N ≤ k → copyLoop dr p limit k r w copied = some res) ∧ (∀ e, res = .error e → RThrown S D e) ∧
      ∀ a, res = .ok a → ∃ (V piece v : Str) (chunks : List Str), Moved S dr D X Y r a.1 V piece ∧
        (a.1.eof = true ∧ pending a.1 = [] ∨ ∃ l, limit = some l ∧ copied + piece.length = l) ∧ (∀ l, limit = some l → copied + piece.length ≤ l) ∧
        WInv S (E ++ piece) (Z ++ v) a.2 ∧ a.2.output.cap = w.output.cap ∧
        a.2.group.slots.map (·.ops) = w.group.slots.map (·.ops) ∧ a.2.log = w.log ++ chunks.map Dop.write ∧
        chunks.flatten ++ a.2.output.data = w.output.data ++ v := by
  induction m using qlt_wf.induction with
  | _ m ih =>
    intro Y E Z r w copied hm hr hw hcl
    obtain ⟨res, N, h1, h2, h3⟩ := ioRead_spec hD hr ⟨[], copyRoom r.size limit copied⟩ (Nat.zero_le _)
    cases res with
    | error e =>
      refine ⟨.error e, N + 1, ?_, by simpa using h2, by simp⟩
      intro p k hp hk
      obtain ⟨k, rfl⟩ : ∃ j, k = j + 1 := ⟨k - 1, by omega⟩
      simp only [copyLoop, h1 p (by omega)]
    | ok a =>
      obtain ⟨r', b'⟩ := a
      obtain ⟨V, piece, m1, hb, hlen, hfull, hlt, hpd⟩ := h3 (r', b') rfl
      simp only [List.nil_append, List.length_nil, Nat.sub_zero] at hb hlen hfull hlt hpd
      subst hb
      obtain ⟨wres, N', w1, w2, w3⟩ := ioWrite_spec (d := piece) hw
      cases wres with
      | error e =>
        refine ⟨.error (.group e), max N N' + 1, ?_, ?_, by simp⟩
        · intro p k hp hk
          obtain ⟨k, rfl⟩ : ∃ j, k = j + 1 := ⟨k - 1, by omega⟩
          simp only [copyLoop, h1 p (by omega), w1 p (by omega)]
        · intro e' he'
          simp only [Except.error.injEq] at he'
          subst he'
          exact w2 e rfl
      | ok w' =>
        obtain ⟨v, ch, u1, u2, u3, u4, u5, _, _⟩ := w3 w' rfl
        have hle : ∀ l, limit = some l → copied + piece.length ≤ l := by
          intro l hl
          have := hcl l hl
          simp only [copyRoom, hl] at hlen
          split at hlen <;> omega
        have hpl : copyLast r.size limit copied = false → copyRoom r.size limit copied = r.size ∧ pending r' = [] := by
          intro h
          have : copyRoom r.size limit copied = r.size := by
            unfold copyLast at h
            unfold copyRoom
            cases limit with
            | none => rfl
            | some l =>
              simp only [decide_eq_false_iff_not] at h
              simp [h]
          refine ⟨this, hpd ?_⟩
          have := hr.len
          have := pending_length r
          omega
        by_cases hend : (copyLast r.size limit copied || r'.eof) = true
        · refine ⟨.ok (r', w'), max N N' + 1, ?_, by simp, ?_⟩
          · intro p k hp hk
            obtain ⟨k, rfl⟩ : ∃ j, k = j + 1 := ⟨k - 1, by omega⟩
            simp only [copyLoop, h1 p (by omega), w1 p (by omega), if_pos hend]
          · intro a ha
            simp only [Except.ok.injEq] at ha
            subst ha
            refine ⟨V, piece, v, ch, m1, ?_, hle, u1, u2, u3, u4, u5⟩
            cases hcl' : copyLast r.size limit copied with
            | false =>
              rw [hcl'] at hend
              exact Or.inl ⟨by simpa using hend, (hpl hcl').2⟩
            | true =>
              unfold copyLast at hcl'
              cases limit with
              | none => simp at hcl'
              | some l =>
                simp only [decide_eq_true_eq] at hcl'
                rcases hfull with h | h
                · right
                  refine ⟨l, rfl, ?_⟩
                  have := hcl l rfl
                  have := hle l rfl
                  simp only [copyRoom, if_pos hcl'] at h
                  omega
                · exact Or.inl h
        · have hend' := hend
          simp only [Bool.or_eq_true, not_or, Bool.not_eq_true] at hend'
          obtain ⟨res, N'', k1, k2, k3⟩ := ih _ (hm ▸ (hlt (by rw [(hpl hend'.1).1]; exact hr.size)).resolve_left (by simp [hend'.2])) (Y ++ V) (E ++ piece) (Z ++ v) r' w'
            (copied + piece.length) rfl m1.inv u1 hle
          refine ⟨res, max N (max N' N'') + 1, ?_, k2, ?_⟩
          · intro p k hp hk
            obtain ⟨k, rfl⟩ : ∃ j, k = j + 1 := ⟨k - 1, by omega⟩
            simp only [copyLoop, h1 p (by omega), w1 p (by omega), if_neg hend]
            exact k1 p k (by omega) (by omega)
          · intro a ha
            obtain ⟨V', piece', v', ch', j1, j2, j3, j4, j5, j6, j7, j8⟩ := k3 a ha
            refine ⟨V ++ V', piece ++ piece', v ++ v', ch ++ ch', m1.trans j1, ?_, ?_, by simpa using j4, j5.trans u2, j6.trans u3, by rw [j7, u4]; simp, ?_⟩
            · simpa [Nat.add_assoc] using j2
            · simpa [Nat.add_assoc] using j3
            · rw [List.flatten_append, List.append_assoc, j8, ← List.append_assoc, u5, List.append_assoc]

/-- `ioCopy` of a reader to a writer, then close the writer and read all the rest of the reader. -/
def copyClose (dr : Drv δ) (p : Nat) (r : Reader σ δ) (w : Writer σ) (limit : Option Nat) :
    Option (Except RFail ((Reader σ δ × Str) × Writer σ)) :=
  match ioCopy dr p r w limit with
  | none => none
  | some (.error e) => some (.error e)
  | some (.ok (r', w')) =>
    match ioWriteClose p w' with
    | none => none
    | some (.error e) => some (.error (.group e))
    | some (.ok w'') => (ioReadBuf dr p r').map (·.map fun a => (a, w''))

/-- The bytes within a limit. -/
def upTo : Option Nat → Str → Str
  | some l, T => T.take l
  | none, T => T

/-- The bytes beyond a limit. -/
def beyond : Option Nat → Str → Str
  | some l, T => T.drop l
  | none, _ => []

/-- C68: `ioCopy` writes what the filters of the reader made of the content `X` of the source, or the first `l` bytes of it if there is a limit, and the destination gets, in
order and whole, what the filters of the writer made of that (C67). What follows the limit can still be read. -/
theorem c68_copy {size wsize : Nat} {buffer : Ops σ × σ} {rf wf : List (Ops σ × σ)} (hsize : 0 < size) (hwsize : 0 < wsize) (hbuf : buffer.1.out = true)
    (hF : ∀ f ∈ buffer :: rf, Fresh S f) (hF' : ∀ f ∈ buffer :: wf, Fresh S f) (hD : DContract dr D) {d : δ} (hX : D.Has d X) (limit : Option Nat) :
    Ends S D (fun p => copyClose dr p (readOpen size buffer rf d) (writeOpen wsize buffer wf) limit) fun a =>
      ∃ (T Z : Str) (chunks : List Str), Chain S a.1.1.group.filters X T ∧
        Chain S a.2.group.filters (upTo limit T) Z ∧ a.1.2 = beyond limit T ∧
        a.2.log = chunks.map Dop.write ∧ chunks.flatten = Z := by
  obtain ⟨res, N, h1, h2, h3⟩ := copyLoop_spec hD limit _ [] [] [] _ _ 0 rfl (rInv_open (dr := dr) hsize hbuf hF hX) (wInv_open hwsize hbuf hF') (fun _ _ => Nat.zero_le _)
  cases res with
  | error e =>
    refine ⟨.error e, N, fun p hp => ?_, by simpa using h2, by simp⟩
    simp only [copyClose, ioCopy, h1 p p hp hp]
  | ok a =>
    obtain ⟨r', w'⟩ := a
    obtain ⟨V, piece, v, ch, j1, j2, j3, j4, j5, j6, j7, j8⟩ := h3 (r', w') rfl
    obtain ⟨wres, N', w1, w2, w3⟩ := ioWriteClose_spec j4
    cases wres with
    | error e =>
      refine ⟨.error (.group e), max N N', fun p hp => ?_, ?_, by simp⟩
      · simp only [copyClose, ioCopy, h1 p p (by omega) (by omega), w1 p (by omega)]
      · intro e' he'
        simp only [Except.error.injEq] at he'
        subst he'
        exact w2 e rfl
    | ok w'' =>
      obtain ⟨v', ch', c1, _, c3, c4, _, _⟩ := w3 w'' rfl
      have hrest : Ends S D (fun p => ioReadBuf dr p r') fun a => ∃ V' rest, Moved S dr D X ([] ++ V) r' a.1 V' rest ∧ a.1.eof = true ∧ pending a.1 = [] ∧ a.2 = rest := by
        obtain ⟨res, N, h1, h2, h3⟩ := bufLoop_spec hD _ _ r' ⟨[], 0⟩ rfl j1.inv le_rfl
        exact ⟨res, N, fun p hp => h1 p p hp hp, h2, h3⟩
      obtain ⟨res, N'', k1, k2, k3⟩ := hrest.map (g := fun a => (a, w'')) (Q := fun a => ∃ (T Z : Str) (chunks : List Str), Chain S a.1.1.group.filters X T ∧
        Chain S a.2.group.filters (upTo limit T) Z ∧ a.1.2 = beyond limit T ∧
        a.2.log = chunks.map Dop.write ∧ chunks.flatten = Z) (by
          rintro ⟨r'', rest⟩ ⟨V', rest', m2, q1, q2, rfl⟩
          have hT : V ++ V' = piece ++ rest := by
            have := (j1.trans m2).flow
            rw [q2] at this
            simpa [pending, readOpen] using this
          have hch := (rInv_eof hD m2.inv q1).1
          simp only [List.nil_append] at c1 c4 j8 hch
          simp only [List.nil_append, Nat.zero_add] at j2 j3
          refine ⟨piece ++ rest, v ++ v', ch ++ ch', hT ▸ hch, ?_, ?_, by rw [c3, j7]; simp [writeOpen], ?_⟩
          · -- the input of the writer
            have hp : upTo limit (piece ++ rest) = piece := by
              have hre : r'.eof = true → pending r' = [] → rest = [] := by
                intro he hp
                have := m2.flow
                rw [hp, (m2.eof he).1] at this
                simp only [List.append_nil, List.nil_eq, List.append_eq_nil_iff] at this
                exact this.1
              cases limit with
              | none =>
                rcases j2 with ⟨h, h'⟩ | ⟨l, h, _⟩
                · simp [upTo, hre h h']
                · cases h
              | some l =>
                have hl := j3 l rfl
                simp only [upTo]
                rcases j2 with ⟨h, h'⟩ | ⟨l', h, h'⟩
                · rw [hre h h', List.append_nil, List.take_of_length_le hl]
                · simp only [Option.some.injEq] at h
                  subst h
                  rw [← h', List.take_left]
            rw [hp]
            exact c1
          · have hre : r'.eof = true → pending r' = [] → rest = [] := by
              intro he hp
              have := m2.flow
              rw [hp, (m2.eof he).1] at this
              simp only [List.append_nil, List.nil_eq, List.append_eq_nil_iff] at this
              exact this.1
            cases limit with
            | none =>
              rcases j2 with ⟨h, h'⟩ | ⟨l, h, _⟩
              · exact hre h h'
              · cases h
            | some l =>
              have hl := j3 l rfl
              simp only [beyond]
              rcases j2 with ⟨h, h'⟩ | ⟨l', h, h'⟩
              · rw [hre h h', List.append_nil, List.drop_eq_nil_of_le hl]
              · simp only [Option.some.injEq] at h
                subst h
                rw [← h', List.drop_left]
          · rw [List.flatten_append, c4, ← List.append_assoc, j8]
            simp [writeOpen])
      refine ⟨res, max N (max N' N''), fun p hp => ?_, k2, k3⟩
      simp only [copyClose, ioCopy, h1 p p (by omega) (by omega), w1 p (by omega)]
      exact k1 p (by omega)

/-! ### Small reads are complete if there is no filter with output -/

theorem quiet_of_slots (hend : ∀ (o : Ops σ) (s : σ) (x y : Str), (S o).Flush s x y → same o s = false) : ∀ (l : List (Slot σ)) (E Y : Str), (∀ s ∈ l, Contract s.ops (S s.ops)) →
    (∀ s ∈ l.dropLast, s.ops.out = false) → Inv S E none l Y → l.any Slot.inputSame = false := by
  intro l
  induction l with
  | nil => intro E Y _ _ h; exact h.elim
  | cons s rest ih =>
    intro E Y hC ho hI
    cases rest with
    | nil =>
      obtain ⟨_, hk, _⟩ := hI
      simp only [List.any_cons, List.any_nil, Bool.or_false]
      unfold KOut at hk
      by_cases hf : s.flushing = true
      · rw [if_pos hf] at hk
        by_cases hfi : fin s.ops s.st = true
        · rw [if_pos hfi] at hk
          exact hk.2.1
        · rw [if_neg hfi] at hk
          exact hend _ _ _ _ hk.2
      · rw [if_neg hf] at hk
        by_cases hs : s.inputSame = true
        · rw [if_pos hs] at hk
          obtain ⟨b, hb, _⟩ := hk
          cases hb
        · simpa using hs
    | cons t rest =>
      have hos : s.ops.out = false := ho s (by simp)
      rw [inv_in_iff hos (by simp)] at hI
      have := ih E Y (fun u hu => hC u (by simp [hu])) (fun u hu => ho u (by simp only [List.dropLast_cons_cons, List.mem_cons]; exact Or.inr hu)) hI.2
      rw [List.any_cons, this, Bool.or_false]
      exact same_false_of_in (hC s (by simp)) hos _

/-- C68: small reads are complete (the premise of `c68_stream`) if only the last filter of the group has output, for instance if no filter has, and it does not ask for the same input at
the end. -/
theorem c68_quiet {size : Nat} {buffer : Ops σ × σ} {filters : List (Ops σ × σ)} {d : δ}
    (hend : ∀ (o : Ops σ) (s : σ) (x y : Str), (S o).Flush s x y → same o s = false)
    (ho : ∀ f ∈ (if lastOut filters then filters else filters ++ [buffer]).dropLast, f.1.out = false) : Quiet S (readOpen size buffer filters d) := by
  intro E Y g hg hops
  rw [hg.same]
  have hk : (setOut ⟨[], 1⟩ g.slots).map Slot.key = g.slots.map Slot.key := setOut_map _ (fun s b => rfl) _ g.slots
  rw [← any_same_of_key hk]
  have hso : (setOut ⟨[], 1⟩ g.slots).map (·.ops) = g.slots.map (·.ops) := setOut_map (·.ops) (fun s b => rfl) ⟨[], 1⟩ g.slots
  refine quiet_of_slots hend _ E Y (contract_of_ops hg.con hso) ?_ (hg.inv ⟨[], 1⟩)
  intro s hs
  have h1 : s.ops ∈ ((setOut ⟨[], 1⟩ g.slots).map (·.ops)).dropLast := by
    rw [← List.map_dropLast]
    exact List.mem_map_of_mem (f := fun s : Slot σ => s.ops) hs
  rw [hso, hops] at h1
  have h2 := open_ops size buffer filters
  simp only [readOpen] at h1
  rw [h2, ← List.map_dropLast, List.mem_map] at h1
  obtain ⟨f, hf, he⟩ := h1
  rw [← he]
  exact ho f hf

end Verif.Io
