import Verif.Pack.ReadLemmas

/-! # What the writing functions write -/

namespace Verif.Pack

open Varint (enc)

/-- Everything that was written. -/
def W.out (w : W) : Str := w.sent ++ w.buf

/-- `w'` has the bytes `bs` more and the stack `st`. -/
structure Ext (w w' : W) (bs : Str) (st : List Frame) : Prop where
  io : w'.io = w.io
  out : w'.out = w.out ++ bs
  stack : w'.stack = st
  mem : w.io = none → w'.sent = w.sent

theorem ext_buffer (w : W) (bs : Str) : Ext w (writeBuffer w bs) bs w.stack := by
  obtain ⟨io, sent, buf, stack⟩ := w
  unfold writeBuffer
  cases io with
  | none => exact ⟨rfl, by simp [W.out], rfl, fun _ => rfl⟩
  | some cap =>
    simp only
    split
    · exact ⟨rfl, by simp [W.out], rfl, by simp⟩
    · by_cases hb : buf = []
      · simp only [hb, ne_eq, not_true, if_false]
        split
        · exact ⟨rfl, by simp [W.out], rfl, by simp⟩
        · exact ⟨rfl, by simp [W.out], rfl, by simp⟩
      · simp only [hb, ne_eq, not_false_eq_true, if_true]
        split
        · exact ⟨rfl, by simp [W.out], rfl, by simp⟩
        · exact ⟨rfl, by simp [W.out], rfl, by simp⟩

theorem Ext.trans {w w1 w2 : W} {a b : Str} {s t : List Frame} (h : Ext w w1 a s) (g : Ext w1 w2 b t) : Ext w w2 (a ++ b) t :=
  ⟨g.io.trans h.io, by rw [g.out, h.out, List.append_assoc], g.stack, fun hn => (g.mem (h.io.trans hn)).trans (h.mem hn)⟩

theorem Ext.setStack {w w1 : W} {a : Str} {s : List Frame} (h : Ext w w1 a s) (t : List Frame) : Ext w { w1 with stack := t } a t :=
  ⟨h.io, h.out, rfl, h.mem⟩

theorem ext_u64 (w : W) (v : Nat) (h : v < 2 ^ 64) : ∃ w', writeU64 w v = .ok w' ∧ Ext w w' (enc v) w.stack := by
  refine ⟨writeBuffer w (enc v), ?_, ext_buffer _ _⟩
  unfold writeU64
  rw [Varint.write_eq, toNat_ofNat64 h, if_pos (by simpa [Varint.bufferSizeMax] using enc_len h)]
  rfl

theorem ext_if (c : Bool) (w : W) (v : Nat) (h : v < 2 ^ 64) : ∃ w', writeIf c w v = .ok w' ∧ Ext w w' (if c then enc v else []) w.stack := by
  cases c with
  | false => exact ⟨w, rfl, rfl, by simp, rfl, fun _ => rfl⟩
  | true => exact ext_u64 w v h

theorem ext_tag (w : W) (ty : Ty) (id value : Nat) (top : Frame) (tl : List Frame) (i : Nat) (hst : w.stack = top :: tl)
    (hi : i = if id = 0 then top.idLast + top.nullTotal + 1 else id) (h1 : top.idLast < i) (h2 : i < idLimit) (hf : Fits ty value) :
    ∃ w', writeTag w ty id value = .ok w' ∧
      Ext w w' (hdr ty (i - top.idLast - 1) value) ({ top with idLast := i, nullTotal := 0 } :: tl) := by
  have hlim : idLimit = 2 ^ 32 - 2 := rfl
  unfold writeTag
  rw [hst]
  simp only
  rw [if_neg (by
    intro ⟨g1, g2⟩
    rw [if_neg g1] at hi
    omega)]
  have hi' : (if id = 0 then (top.idLast + top.nullTotal + 1) % 2 ^ 32 else id) = i := by
    split
    · rename_i h0
      rw [if_pos h0] at hi
      rw [← hi, Nat.mod_eq_of_lt (by omega)]
    · rename_i h0
      rw [if_neg h0] at hi
      exact hi.symm
  rw [hi']
  have hd : (i + 2 ^ 32 - top.idLast + 2 ^ 32 - 1) % 2 ^ 32 = i - top.idLast - 1 := by omega
  rw [hd]
  have hdl : i - top.idLast - 1 < 2 ^ 32 := by omega
  have hcode : ty.code - 0xF < 2 ^ 64 := by
    have : ty.code ≤ 18 := by cases ty <;> decide
    omega
  have key : ∀ tag d v, tagBits ty (i - top.idLast - 1) value = .ok (tag, d, v) → d < 2 ^ 64 → v < 2 ^ 64 →
      ∃ w', (do
        let (tag, delta, value) ← tagBits ty (i - top.idLast - 1) value
        let w := writeBuffer w [UInt8.ofNat tag]
        let w ← writeIf (ty.code ≥ 0xF) w (ty.code - 0xF)
        let w ← writeIf (delta > 0) w delta
        let w ← writeIf (value > 0) w value
        pure { w with stack := { top with idLast := i, nullTotal := 0 } :: tl } : Res W) = .ok w' ∧
      Ext w w' (hdr ty (i - top.idLast - 1) value) ({ top with idLast := i, nullTotal := 0 } :: tl) := by
    intro tag d v hb hd hv
    obtain ⟨w1, a1, b1⟩ := ext_if (ty.code ≥ 0xF) (writeBuffer w [UInt8.ofNat tag]) (ty.code - 0xF) hcode
    obtain ⟨w2, a2, b2⟩ := ext_if (d > 0) w1 d hd
    obtain ⟨w3, a3, b3⟩ := ext_if (v > 0) w2 v hv
    simp only [hb, bind, Except.bind, a1, a2, a3, pure, Except.pure]
    refine ⟨_, rfl, ?_⟩
    have := ((((ext_buffer w [UInt8.ofNat tag]).trans b1).trans b2).trans b3).setStack ({ top with idLast := i, nullTotal := 0 } :: tl)
    unfold hdr
    rw [hb]
    simpa using this
  rcases tagBits_cases ty (i - top.idLast - 1) value hf with ⟨_, _, hb⟩ | ⟨_, _, hb⟩ | ⟨_, _, _, hb⟩ | ⟨_, _, _, hb⟩
  · exact key _ _ _ hb (by omega) (by omega)
  · exact key _ _ _ hb (by omega) hf.1
  · exact key _ _ _ hb (by omega) (by omega)
  · exact key _ _ _ hb (by omega) (by omega)

/-! ## The relation -/

theorem lastId_append (b : Nat) (fs : Doc) (i : Nat) (v : Val) : lastId b (fs ++ [(i, v)]) = i := by simp [lastId]

theorem lastId_cons (b : Nat) (i : Nat) (v : Val) (fs : Doc) : lastId b ((i, v) :: fs) = lastId i fs := by
  unfold lastId
  cases fs with
  | nil => simp
  | cons f fs => simp [List.getLast?_cons_cons, List.getLast?_cons]

theorem encD_append : ∀ (fs : Doc) (b i : Nat) (v : Val), encD b (fs ++ [(i, v)]) = encD b fs ++
    (hdr v.ty (i - lastId b fs - 1) v.raw ++ ((if sized v.ty v.raw then enc v.size else []) ++ payload v)) := by
  intro fs
  induction fs with
  | nil => intro b i v; simp [encD, lastId]
  | cons f fs ih =>
    intro b i v
    obtain ⟨j, u⟩ := f
    rw [List.cons_append, encD, encD, ih, lastId_cons]
    simp

theorem docOk_append : ∀ (fs : Doc) (b i : Nat) (v : Val), DocOk b fs → lastId b fs < i → i < idLimit → ValOk v →
    DocOk b (fs ++ [(i, v)]) := by
  intro fs
  induction fs with
  | nil => intro b i v _ h1 h2 h3; exact ⟨by simpa [lastId] using h1, h2, h3, by unfold DocOk; trivial⟩
  | cons f fs ih =>
    intro b i v h h1 h2 h3
    obtain ⟨j, u⟩ := f
    unfold DocOk at h
    rw [lastId_cons] at h1
    rw [List.cons_append]
    unfold DocOk
    exact ⟨h.1, h.2.1, h.2.2.1, ih j i v h.2.2.2 h1 h2 h3⟩

def openFrame (o : Open) : Frame := ⟨o.kind, o.last, o.nulls⟩

/-- What was written for the containers that are open. -/
def openBytes : List Open → Str
  | [] => []
  | [o] => encD 0 o.fields
  | c :: o :: os => openBytes (o :: os) ++ (hdr c.kind (c.id - lastId 0 o.fields - 1) 0 ++ encD 0 c.fields)

/-- The containers around `c`. -/
def Below (c : Open) : List Open → Prop
  | [] => True
  | o :: os => (c.kind = .array ∨ c.kind = .obj) ∧ o.last = c.id ∧ lastId 0 o.fields < c.id ∧ c.id < idLimit ∧ DocOk 0 o.fields ∧
      o.nulls = 0 ∧ Below o os

def TopOk (o : Open) : Prop := o.last = lastId 0 o.fields ∧ o.last + o.nulls < idLimit ∧ DocOk 0 o.fields

structure WRel (w : W) (o : Open) (os : List Open) : Prop where
  stack : w.stack = openFrame o :: os.map openFrame
  out : w.out = openBytes (o :: os)
  mem : w.io = none → w.sent = []
  top : TopOk o
  below : Below o os

theorem openBytes_append (o : Open) (os : List Open) (bs : Str) (o' : Open) (hk : o'.kind = o.kind) (hi : o'.id = o.id)
    (hf : encD 0 o'.fields = encD 0 o.fields ++ bs) : openBytes (o' :: os) = openBytes (o :: os) ++ bs := by
  cases os with
  | nil => simp [openBytes, hf]
  | cons p os => simp [openBytes, hf, hk, hi]

theorem below_congr {o o' : Open} {os : List Open} (h : Below o os) (hk : o'.kind = o.kind) (hi : o'.id = o.id) : Below o' os := by
  cases os with
  | nil => trivial
  | cons p os => simp only [Below, hk, hi] at h ⊢; exact h

/-- A field was written. -/
theorem put_rel {w w' : W} {o : Open} {os : List Open} (h : WRel w o os) {i : Nat} {v : Val} (h1 : o.last < i) (h2 : i < idLimit)
    (hv : ValOk v)
    (he : Ext w w' (hdr v.ty (i - o.last - 1) v.raw ++ ((if sized v.ty v.raw then enc v.size else []) ++ payload v))
      (openFrame { o with last := i, nulls := 0 } :: os.map openFrame)) :
    WRel w' { o with last := i, nulls := 0, fields := o.fields ++ [(i, v)] } os := by
  obtain ⟨hst, hout, hmem, ⟨t1, t2, t3⟩, hb⟩ := h
  refine ⟨he.stack, ?_, ?_, ⟨?_, by simpa using h2, ?_⟩, below_congr hb rfl rfl⟩
  · rw [he.out, hout]
    refine (openBytes_append o os _ { o with last := i, nulls := 0, fields := o.fields ++ [(i, v)] } rfl rfl ?_).symm
    simp only
    rw [encD_append, ← t1]
  · intro hn
    rw [he.io] at hn
    rw [he.mem hn, hmem hn]
  · simp [lastId_append]
  · exact docOk_append _ _ _ _ t3 (by omega) h2 hv

/-- What is claimed of a writing call. -/
def WSim (w : W) (r : Res W) (res : Option (List Open)) : Prop :=
  ∀ st, res = some st → ∃ w' o os, r = .ok w' ∧ st = o :: os ∧ WRel w' o os ∧ w'.io = w.io

theorem wsim_null {w : W} {o : Open} {os : List Open} (h : WRel w o os) : WSim w (writeNull w) (specNull (o :: os)) := by
  intro st hs
  have hlim : idLimit = 2 ^ 32 - 2 := rfl
  simp only [specNull] at hs
  split at hs
  · rename_i hl
    simp only [Option.some.injEq] at hs
    subst hs
    unfold writeNull
    rw [h.stack]
    refine ⟨_, _, _, rfl, rfl, ⟨?_, ?_, h.mem, ⟨h.top.1, by simp only; omega, h.top.2.2⟩, below_congr h.below rfl rfl⟩, rfl⟩
    · simp only [openFrame]
      rw [Nat.mod_eq_of_lt (by omega)]
    · have : openBytes ({ o with nulls := o.nulls + 1 } :: os) = openBytes (o :: os) := by
        simpa using openBytes_append o os [] { o with nulls := o.nulls + 1 } rfl rfl (by simp)
      rw [this]
      exact h.out
  · simp at hs

theorem specPut_some {id : Nat} {v : Val} {o : Open} {os st : List Open} (h : specPut id v (o :: os) = some st) :
    ∃ i, (i = if id = 0 then o.last + o.nulls + 1 else id) ∧ (o.last < i ∧ i < idLimit) ∧
      st = { o with last := i, nulls := 0, fields := o.fields ++ [(i, v)] } :: os := by
  simp only [specPut] at h
  generalize (if id = 0 then o.last + o.nulls + 1 else id) = i at h
  split at h
  · simp only [Option.some.injEq] at h
    exact ⟨i, rfl, ‹_›, h.symm⟩
  · simp at h

theorem specBegin_some {kind : Ty} {id : Nat} {o : Open} {os st : List Open} (h : specBegin kind id (o :: os) = some st) :
    ∃ i, (i = if id = 0 then o.last + o.nulls + 1 else id) ∧ (o.last < i ∧ i < idLimit) ∧
      st = ⟨kind, i, 0, 0, []⟩ :: { o with last := i, nulls := 0 } :: os := by
  simp only [specBegin] at h
  generalize (if id = 0 then o.last + o.nulls + 1 else id) = i at h
  split at h
  · simp only [Option.some.injEq] at h
    exact ⟨i, rfl, ‹_›, h.symm⟩
  · simp at h

/-- A value without bytes. -/
theorem wsim_tag {w : W} {o : Open} {os : List Open} (h : WRel w o os) (id : Nat) (s : Scalar) (hd : s.data = [])
    (hz : sized s.ty s.raw = false) : WSim w (writeTag w s.ty id s.raw) (specPut id (.leaf s) (o :: os)) := by
  intro st hs
  obtain ⟨i, hi, hl, rfl⟩ := specPut_some hs
  · obtain ⟨w', a, b⟩ := ext_tag w s.ty id s.raw (openFrame o) (os.map openFrame) i h.stack hi hl.1 hl.2 (fits_raw (.leaf s))
    refine ⟨w', _, _, a, rfl, put_rel h hl.1 hl.2 (by simp [ValOk, hd]) ?_, b.io⟩
    simpa [Val.ty, Val.raw, hz, payload, hd, openFrame] using b

theorem wsim_default {w : W} {o : Open} {os : List Open} (h : WRel w o os) (id : Nat) (dw : Bool) (p : Prop) [Decidable p] (v : Val)
    (k : W → Res W) (hk : WSim w (k w) (specPut id v (o :: os))) :
    WSim w (writeDefault w dw (decide p) k) (specDefault id dw (decide p) v (o :: os)) := by
  unfold writeDefault specDefault
  by_cases hp : p
  · cases dw
    · simpa [hp] using wsim_null h
    · simpa [hp] using hk
  · simpa [hp] using hk

theorem wsim_scalar {w : W} {o : Open} {os : List Open} (h : WRel w o os) (id : Nat) (dw : Bool) (p : Prop) [Decidable p] (s : Scalar)
    (hd : s.data = []) (hz : sized s.ty s.raw = false) :
    WSim w (writeDefault w dw (decide p) fun w => writeTag w s.ty id s.raw) (specDefault id dw (decide p) (.leaf s) (o :: os)) :=
  wsim_default h id dw p (.leaf s) (fun w => writeTag w s.ty id s.raw) (wsim_tag h id s hd hz)

theorem wsim_bytes {w : W} {o : Open} {os : List Open} (h : WRel w o os) (id : Nat) (s : Scalar) (bs : Str)
    (hs : s = .str bs ∨ s = .bin bs) (hl : bs.length < 2 ^ 64) : WSim w (writeBytes w s.ty id bs) (specPut id (.leaf s) (o :: os)) := by
  intro st hst
  obtain ⟨i, hi, hlt, rfl⟩ := specPut_some hst
  · have hraw : s.raw = if bs = [] then 0 else 1 := by rcases hs with rfl | rfl <;> rfl
    have hdata : s.data = bs := by rcases hs with rfl | rfl <;> rfl
    obtain ⟨w1, a, b⟩ := ext_tag w s.ty id s.raw (openFrame o) (os.map openFrame) i h.stack hi hlt.1 hlt.2 (fits_raw (.leaf s))
    rw [hraw] at a
    unfold writeBytes
    simp only [a, bind, Except.bind]
    by_cases hb : bs = []
    · rw [if_pos hb]
      refine ⟨w1, _, _, rfl, rfl, put_rel h hlt.1 hlt.2 (by simpa [ValOk, hdata] using hl) ?_, b.io⟩
      have hz : sized s.ty s.raw = false := by
        rw [hraw, if_pos hb]; rcases hs with rfl | rfl <;> rfl
      simpa [Val.ty, Val.raw, hz, payload, hdata, hb, openFrame] using b
    · rw [if_neg hb]
      obtain ⟨w2, a2, b2⟩ := ext_u64 w1 bs.length hl
      simp only [a2, pure, Except.pure]
      refine ⟨_, _, _, rfl, rfl, put_rel h hlt.1 hlt.2 (by simpa [ValOk, hdata] using hl) ?_, ?_⟩
      · have hz : sized s.ty s.raw = true := by
          rw [hraw, if_neg hb]; rcases hs with rfl | rfl <;> rfl
        have e := (b.trans b2).trans (ext_buffer w2 bs)
        have hst2 : w2.stack = openFrame { o with last := _, nulls := 0 } :: os.map openFrame := b2.stack.trans b.stack
        rw [hst2] at e
        simpa [Val.ty, Val.raw, Val.size, hz, payload, hdata, openFrame] using e
      · rw [(ext_buffer w2 bs).io, b2.io, b.io]

theorem wsim_pack {w : W} {o : Open} {os : List Open} (h : WRel w o os) (id : Nat) (bs : Str) (hl : bs.length < 2 ^ 64) :
    WSim w (writePack w id (some bs)) (specPut id (.leaf (.pack bs)) (o :: os)) := by
  intro st hst
  obtain ⟨i, hi, hlt, rfl⟩ := specPut_some hst
  · obtain ⟨w1, a, b⟩ := ext_tag w .pack id 0 (openFrame o) (os.map openFrame) i h.stack hi hlt.1 hlt.2 (fits_raw (.leaf (.pack bs)))
    obtain ⟨w2, a2, b2⟩ := ext_u64 w1 bs.length hl
    have hw : writePack w id (some bs) = .ok (writeBuffer w2 bs) := by
      simp [writePack, writeDefault, a, a2, bind, Except.bind, pure, Except.pure]
    refine ⟨_, _, _, hw, rfl, put_rel h hlt.1 hlt.2 (by simpa [ValOk, Scalar.data] using hl) ?_, ?_⟩
    · have e := (b.trans b2).trans (ext_buffer w2 bs)
      have hst2 : w2.stack = openFrame { o with last := _, nulls := 0 } :: os.map openFrame := b2.stack.trans b.stack
      rw [hst2] at e
      simpa [Val.ty, Val.raw, Val.size, sized, Ty.size, Ty.single, payload, Scalar.ty, Scalar.raw, Scalar.data, openFrame] using e
    · rw [(ext_buffer w2 bs).io, b2.io, b.io]

theorem fits_kind {kind : Ty} : Fits kind 0 := ⟨by decide, fun _ => by decide, fun _ _ => rfl⟩

theorem wsim_begin {w : W} {o : Open} {os : List Open} (h : WRel w o os) (kind : Ty) (hk : kind = .array ∨ kind = .obj) (id : Nat) :
    WSim w (writeBegin w kind id) (specBegin kind id (o :: os)) := by
  intro st hs
  obtain ⟨i, hi, hl, rfl⟩ := specBegin_some hs
  · obtain ⟨w', a, b⟩ := ext_tag w kind id 0 (openFrame o) (os.map openFrame) i h.stack hi hl.1 hl.2 fits_kind
    unfold writeBegin
    simp only [a, bind, Except.bind, pure, Except.pure]
    refine ⟨_, _, _, rfl, rfl, ⟨?_, ?_, ?_, ⟨rfl, by simp [idLimit], by unfold DocOk; trivial⟩, ?_⟩, b.io⟩
    · rw [b.stack]; rfl
    · show w'.out = _
      rw [b.out, h.out]
      simp only [openBytes, encD, List.append_nil]
      have := openBytes_append o os [] { o with last := i, nulls := 0 } rfl rfl (by simp)
      rw [this, List.append_nil, ← h.top.1]
      rfl
    · intro hn
      show w'.sent = []
      have hn' : w.io = none := by rw [← b.io]; exact hn
      rw [b.mem hn', h.mem hn']
    · refine ⟨hk, rfl, ?_, hl.2, h.top.2.2, rfl, below_congr h.below rfl rfl⟩
      simp only
      rw [← h.top.1]
      exact hl.1

theorem enc_zero : enc 0 = [0] := by rw [enc]; rfl

theorem wsim_end {w : W} {o : Open} {os : List Open} (h : WRel w o os) (kind : Ty) : WSim w (writeEndOf w kind) (specEnd kind (o :: os)) := by
  intro st hs
  cases os with
  | nil => simp [specEnd] at hs
  | cons p os =>
    simp only [specEnd] at hs
    split at hs
    · rename_i hk
      simp only [Option.some.injEq] at hs
      subst hs
      obtain ⟨w1, a, b⟩ := ext_u64 w 0 (by decide)
      rw [enc_zero] at b
      have hw : writeEndOf w kind = .ok { w1 with stack := openFrame p :: os.map openFrame } := by
        unfold writeEndOf
        rw [h.stack]
        simp only [List.map_cons]
        rw [if_neg (by simp [openFrame, hk]), a]
        rfl
      obtain ⟨b1, b2, b3, b4, b5, b6, b7⟩ := h.below
      refine ⟨_, _, _, hw, rfl, ⟨rfl, ?_, ?_, ⟨?_, ?_, ?_⟩, ?_⟩, b.io⟩
      · show w1.out = _
        rw [b.out, h.out]
        simp only [openBytes]
        symm
        rw [openBytes_append p os (hdr o.kind (o.id - lastId 0 p.fields - 1) 0 ++ (encD 0 o.fields ++ [0]))
          { p with fields := p.fields ++ [(o.id, mkVal kind o.fields)] } rfl rfl ?_]
        · simp
        · simp only
          rw [encD_append]
          subst hk
          rcases b1 with hk | hk <;> simp [mkVal, hk, Val.ty, Val.raw, sized, Ty.size, payload]
      · intro hn
        show w1.sent = []
        have hn' : w.io = none := by rw [← b.io]; exact hn
        rw [b.mem hn', h.mem hn']
      · simp [lastId_append, b2]
      · simp only; omega
      · refine docOk_append _ _ _ _ b5 b3 b4 ?_
        subst hk
        unfold mkVal
        split
        · simpa [ValOk] using h.top.2.2
        · simpa [ValOk] using h.top.2.2
      · exact below_congr b7 rfl rfl
    · simp at hs

/-- The strings of a list. -/
theorem strLst_rel : ∀ (ss : List (Option Str)) (w : W) (o : Open) (os : List Open), WRel w o os →
    (∀ s ∈ ss, ∀ t, s = some t → t.length < 2 ^ 64) → o.last + o.nulls + ss.length + 1 < idLimit →
    ∃ w' o', ss.foldlM (fun w s => writeStr w 0 s false none) w = .ok w' ∧ WRel w' o' os ∧ w'.io = w.io ∧
      o'.kind = o.kind ∧ o'.id = o.id ∧ o'.fields = o.fields ++ strFields (o.last + o.nulls + 1) ss := by
  intro ss
  induction ss with
  | nil => intro w o os h _ _; exact ⟨w, o, rfl, h, rfl, rfl, rfl, by simp [strFields]⟩
  | cons s ss ih =>
    intro w o os h hl hb
    simp only [List.length_cons] at hb
    cases s with
    | none =>
      obtain ⟨w1, o1, os1, a1, a2, a3, a4⟩ := wsim_null h _ (by simp only [specNull]; rw [if_pos (by omega)])
      simp only [List.cons.injEq] at a2
      obtain ⟨rfl, rfl⟩ := a2
      obtain ⟨w2, o2, c1, c2, c3, c4, c5, c6⟩ := ih w1 _ _ a3 (fun s hs => hl s (by simp [hs])) (by simp only; omega)
      refine ⟨w2, o2, ?_, c2, c3.trans a4, c4, c5, ?_⟩
      · simp only [List.foldlM_cons, writeStr, writeDefault]
        simp [a1, bind, Except.bind]
        simpa [writeStr, writeDefault] using c1
      · simp only [c6, strFields]
        congr 2
    | some t =>
      have h0 := wsim_bytes h 0 (.str t) t (Or.inl rfl) (hl _ (by simp) t rfl)
      obtain ⟨w1, o1, os1, a1, a2, a3, a4⟩ := h0 _ (by simp only [specPut, if_true]; rw [if_pos (by omega)])
      simp only [List.cons.injEq] at a2
      obtain ⟨rfl, rfl⟩ := a2
      obtain ⟨w2, o2, c1, c2, c3, c4, c5, c6⟩ := ih w1 _ _ a3 (fun s hs => hl s (by simp [hs])) (by simp only; omega)
      refine ⟨w2, o2, ?_, c2, c3.trans a4, c4, c5, ?_⟩
      · simp only [List.foldlM_cons, writeStr, writeDefault]
        simp only [Scalar.ty] at a1
        simp [a1, bind, Except.bind]
        simpa [writeStr, writeDefault] using c1
      · simp only [c6, strFields]
        simp

theorem wsim_strLst {w : W} {o : Open} {os : List Open} (h : WRel w o os) (id : Nat) (ss : List (Option Str))
    (hc : ss.length + 1 < idLimit) (hl : ∀ s ∈ ss, ∀ t, s = some t → t.length < 2 ^ 64) :
    WSim w (writeStrLst w id (some ss)) (specPut id (.arr (strFields 1 ss)) (o :: os)) := by
  intro st hst
  obtain ⟨i, hi, hlt, rfl⟩ := specPut_some hst
  · obtain ⟨w1, o1, os1, a1, a2, a3, a4⟩ := wsim_begin h .array (Or.inl rfl) id _ (by simp only [specBegin]; rw [← hi, if_pos hlt])
    simp only [List.cons.injEq] at a2
    obtain ⟨rfl, rfl⟩ := a2
    obtain ⟨w2, o2, c1, c2, c3, c4, c5, c6⟩ := strLst_rel ss w1 _ _ a3 hl (by simp only; omega)
    obtain ⟨w3, o3, os3, e1, e2, e3, e4⟩ := wsim_end c2 .array _ (by simp only [specEnd]; rw [if_pos c4])
    simp only [List.cons.injEq] at e2
    obtain ⟨rfl, rfl⟩ := e2
    refine ⟨w3, _, _, ?_, ?_, e3, by rw [e4, c3, a4]⟩
    · simp [writeStrLst, writeDefault, a1, bind, Except.bind, c1, e1]
    · simp [c5, c6, mkVal]

/-- Every call writes what it should. -/
theorem write_sim {w : W} {o : Open} {os : List Open} (h : WRel w o os) (op : WOp) : WSim w (write w op) (specWrite (o :: os) op) := by
  cases op with
  | null => exact wsim_null h
  | bool id v dw dv =>
    exact wsim_scalar h id dw _ (.bool v) rfl (by cases v <;> rfl)
  | i32 id v dw dv => exact wsim_scalar h id dw _ (.i32 v) rfl (by simp [sized, Scalar.ty, Ty.size])
  | i64 id v dw dv => exact wsim_scalar h id dw _ (.i64 v) rfl (by simp [sized, Scalar.ty, Ty.size])
  | time id v dw dv => exact wsim_scalar h id dw _ (.time v) rfl (by simp [sized, Scalar.ty, Ty.size])
  | mode id v dw dv => exact wsim_scalar h id dw _ (.mode v) rfl (by simp [sized, Scalar.ty, Ty.size])
  | u32 id v dw dv => exact wsim_scalar h id dw _ (.u32 v) rfl (by simp [sized, Scalar.ty, Ty.size])
  | u64 id v dw dv => exact wsim_scalar h id dw _ (.u64 v) rfl (by simp [sized, Scalar.ty, Ty.size])
  | strId id v dw dv => exact wsim_scalar h id dw _ (.strId v) rfl (by simp [sized, Scalar.ty, Ty.size])
  | bin id v =>
    cases v with
    | none => simpa [write, specWrite, writeBin, writeDefault] using wsim_null h
    | some s =>
      simp only [specWrite]
      split
      · simpa [write, writeBin, writeDefault, Scalar.ty] using wsim_bytes h id (.bin s) s (Or.inr rfl) ‹_›
      · intro st hst; simp at hst
  | pack id v =>
    cases v with
    | none => simpa [write, specWrite, writePack, writeDefault] using wsim_null h
    | some s =>
      simp only [specWrite]
      split
      · exact wsim_pack h id s ‹_›
      · intro st hst; simp at hst
  | str id v dw dv =>
    cases v with
    | none =>
      simp only [specWrite]
      split
      · rename_i hc
        obtain ⟨rfl, rfl⟩ := hc
        simpa [write, writeStr, writeDefault] using wsim_null h
      · intro st hst; simp at hst
    | some s =>
      simp only [specWrite]
      split
      · have e : (dv = some s) = (some s = dv) := by simp [eq_comm]
        have := wsim_default h id dw (some s = dv) (.leaf (.str s)) (fun w => writeBytes w .str id s)
          (wsim_bytes h id (.str s) s (Or.inl rfl) ‹_›)
        simpa [write, writeStr, eq_comm] using this
      · intro st hst; simp at hst
  | strLst id v =>
    cases v with
    | none => simpa [write, specWrite, writeStrLst, writeDefault] using wsim_null h
    | some ss =>
      simp only [specWrite]
      split
      · rename_i hc; exact wsim_strLst h id ss hc.1 hc.2
      · intro st hst; simp at hst
  | arrayBegin id => exact wsim_begin h .array (Or.inl rfl) id
  | arrayEnd => exact wsim_end h .array
  | objBegin id => exact wsim_begin h .obj (Or.inr rfl) id
  | objEnd => exact wsim_end h .obj

theorem writes_sim : ∀ (ops : List WOp) (w : W) (o : Open) (os st : List Open), WRel w o os → ops.foldlM specWrite (o :: os) = some st →
    ∃ w' o' os', ops.foldlM write w = .ok w' ∧ st = o' :: os' ∧ WRel w' o' os' ∧ w'.io = w.io := by
  intro ops
  induction ops with
  | nil =>
    intro w o os st h hs
    simp only [List.foldlM_nil, pure, Option.some.injEq] at hs
    subst hs
    exact ⟨w, o, os, rfl, rfl, h, rfl⟩
  | cons op ops ih =>
    intro w o os st h hs
    rw [List.foldlM_cons, Option.bind_eq_bind, Option.bind_eq_some_iff] at hs
    obtain ⟨st1, h1, h2⟩ := hs
    obtain ⟨w1, o1, os1, a1, rfl, a3, a4⟩ := write_sim h op st1 h1
    obtain ⟨w2, o2, os2, b1, b2, b3, b4⟩ := ih w1 o1 os1 st a3 h2
    refine ⟨w2, o2, os2, ?_, b2, b3, b4.trans a4⟩
    rw [List.foldlM_cons, a1]
    exact b1

/-- The bytes of a pack. -/
theorem writeAll_eq (io : Option Nat) (ops : List WOp) (doc : Doc) (h : docOf ops = some doc) :
    writeAll io ops = .ok (encD 0 doc ++ [0]) ∧ DocOk 0 doc := by
  unfold docOf at h
  split at h
  · rename_i o ho
    simp only [Option.some.injEq] at h
    subst h
    have h0 : WRel (writeNew io) ⟨.obj, 0, 0, 0, []⟩ [] :=
      ⟨rfl, by simp [W.out, writeNew, openBytes, encD], fun _ => rfl, ⟨rfl, by simp [idLimit], by unfold DocOk; trivial⟩, trivial⟩
    obtain ⟨w1, o1, os1, a1, a2, a3, a4⟩ := writes_sim ops _ _ _ _ h0 ho
    simp only [List.cons.injEq] at a2
    obtain ⟨rfl, rfl⟩ := a2
    refine ⟨?_, a3.top.2.2⟩
    obtain ⟨w2, b1, b2⟩ := ext_u64 w1 0 (by decide)
    rw [enc_zero] at b2
    have hout : w2.sent ++ w2.buf = encD 0 o.fields ++ [0] := by
      have := b2.out
      rw [a3.out] at this
      exact this
    unfold writeAll writeEnd
    simp only [a1, b1, bind, Except.bind, pure, Except.pure]
    have hio : w2.io = io := by rw [b2.io, a4]; rfl
    cases hi : io with
    | none =>
      rw [hi] at hio
      have : w2.sent = [] := by
        have hn : w1.io = none := by rw [← b2.io]; exact hio
        rw [b2.mem hn, a3.mem hn]
      rw [this] at hout
      simp [hio, ← hout]
    | some cap =>
      rw [hi] at hio
      simp [hio, hout]
  · simp at h

end Verif.Pack
