import Verif.Pack.TagLemmas

/-! # Reading the bytes of a document -/

namespace Verif.Pack

open Varint (enc)

/-- The number written with the tag. -/
def Scalar.raw : Scalar → Nat
  | .bool v => if v then 1 else 0
  | .i32 v => (Varint.toZigZag32 v).toNat
  | .i64 v | .time v => (Varint.toZigZag64 v).toNat
  | .mode v | .u32 v => v.toNat
  | .u64 v | .strId v => v.toNat
  | .str v | .bin v => if v = [] then 0 else 1
  | .pack _ => 0

/-- The bytes written after the tag. -/
def Scalar.data : Scalar → Str
  | .str v | .bin v | .pack v => v
  | _ => []

def Val.raw : Val → Nat
  | .leaf s => s.raw | _ => 0

def Val.size : Val → Nat
  | .leaf s => s.data.length | _ => 0

mutual
/-- What follows the tag. -/
def payload : Val → Str
  | .leaf s => s.data
  | .arr fs => encD 0 fs ++ [0]
  | .obj fs => encD 0 fs ++ [0]
/-- The bytes of fields after the number `b`. -/
def encD : Nat → List (Nat × Val) → Str
  | _, [] => []
  | b, (i, v) :: fs => hdr v.ty (i - b - 1) v.raw ++ ((if sized v.ty v.raw then enc v.size else []) ++ (payload v ++ encD i fs))
end

mutual
def ValOk : Val → Prop
  | .leaf s => s.data.length < 2 ^ 64
  | .arr fs => DocOk 0 fs
  | .obj fs => DocOk 0 fs
def DocOk : Nat → List (Nat × Val) → Prop
  | _, [] => True
  | b, (i, v) :: fs => b < i ∧ i < idLimit ∧ ValOk v ∧ DocOk i fs
end

theorem fits_raw (v : Val) : Fits v.ty v.raw := by
  cases v with
  | arr => simp [Fits, Val.raw]
  | obj => simp [Fits, Val.raw]
  | leaf s =>
    cases s with
    | bool b => cases b <;> exact ⟨by decide, by decide, by decide⟩
    | i32 x =>
      refine ⟨?_, by simp [Val.ty, Scalar.ty, Ty.multi], by simp [Val.ty, Scalar.ty, Ty.multi]⟩
      have := (Varint.toZigZag32 x).toNat_lt
      simp only [Val.raw, Scalar.raw]; omega
    | mode x =>
      refine ⟨?_, by simp [Val.ty, Scalar.ty, Ty.multi], by simp [Val.ty, Scalar.ty, Ty.multi]⟩
      have := x.toNat_lt
      simp only [Val.raw, Scalar.raw]; omega
    | u32 x =>
      refine ⟨?_, by simp [Val.ty, Scalar.ty, Ty.multi], by simp [Val.ty, Scalar.ty, Ty.multi]⟩
      have := x.toNat_lt
      simp only [Val.raw, Scalar.raw]; omega
    | i64 x => exact ⟨(Varint.toZigZag64 x).toNat_lt, by simp [Val.ty, Scalar.ty, Ty.multi], by simp [Val.ty, Scalar.ty, Ty.multi]⟩
    | time x => exact ⟨(Varint.toZigZag64 x).toNat_lt, by simp [Val.ty, Scalar.ty, Ty.multi], by simp [Val.ty, Scalar.ty, Ty.multi]⟩
    | u64 x => exact ⟨x.toNat_lt, by simp [Val.ty, Scalar.ty, Ty.multi], by simp [Val.ty, Scalar.ty, Ty.multi]⟩
    | strId x => exact ⟨x.toNat_lt, by simp [Val.ty, Scalar.ty, Ty.multi], by simp [Val.ty, Scalar.ty, Ty.multi]⟩
    | str x => by_cases h : x = [] <;> simp [Fits, Val.ty, Val.raw, Scalar.ty, Scalar.raw, Ty.single, h]
    | bin x => by_cases h : x = [] <;> simp [Fits, Val.ty, Val.raw, Scalar.ty, Scalar.raw, Ty.single, h]
    | pack x => simp [Fits, Val.ty, Val.raw, Scalar.ty, Scalar.raw]

theorem sized_size (v : Val) : (if sized v.ty v.raw then v.size else 0) = v.size := by
  cases v with
  | arr => simp [Val.size]
  | obj => simp [Val.size]
  | leaf s =>
    cases s with
    | str x => by_cases h : x = [] <;> simp [sized, Val.ty, Val.raw, Val.size, Scalar.ty, Scalar.raw, Scalar.data, Ty.size, h]
    | bin x => by_cases h : x = [] <;> simp [sized, Val.ty, Val.raw, Val.size, Scalar.ty, Scalar.raw, Scalar.data, Ty.size, h]
    | pack x => simp [sized, Val.ty, Val.raw, Val.size, Scalar.ty, Scalar.raw, Scalar.data, Ty.size, Ty.single]
    | _ => simp [Val.size, Scalar.data]

theorem size_lt (v : Val) (h : ValOk v) : v.size < 2 ^ 64 := by
  cases v <;> simp [Val.size, ValOk] at *
  exact h

/-! ## Taking bytes -/

theorem takeLoop_eq : ∀ (fuel n : Nat) (r : R), CapOk r.io → n ≤ fuel → n ≤ r.rest.length →
    takeLoop fuel r n = .ok (r.rest.take n, { r with rest := r.rest.drop n }) := by
  intro fuel
  induction fuel with
  | zero => intro n r _ h _; have : n = 0 := by omega
            subst this; simp [takeLoop]
  | succ fuel ih =>
    intro n r hc hf hn
    cases n with
    | zero => simp [takeLoop]
    | succ n =>
      unfold takeLoop
      have : ∃ k, readBuffer r (n + 1) = .ok k ∧ 1 ≤ k ∧ k ≤ n + 1 := by
        unfold readBuffer
        cases hio : r.io with
        | none => exact ⟨min (n + 1) r.rest.length, by simp only; rw [if_neg (by omega)], by omega, by omega⟩
        | some cap =>
          have := hc cap hio
          refine ⟨min (min (n + 1) cap) r.rest.length, ?_, by omega, by omega⟩
          simp only
          rw [if_neg (by omega)]
      obtain ⟨k, hk, h1, h2⟩ := this
      rw [hk]
      simp only [bind, Except.bind]
      rw [ih _ { r with rest := r.rest.drop k } hc (by omega) (by simp; omega)]
      simp only [pure, Except.pure, List.drop_drop]
      congr 2
      · have : n + 1 = k + (n + 1 - k) := by omega
        conv_rhs => rw [this, List.take_add]
      · congr 2; omega

/-! ## The relation -/

def tailBytes (sfx : Str) : List Cur → Str
  | [] => sfx
  | c :: cs => encD c.last c.fields ++ 0 :: tailBytes sfx cs

def Top (r : R) (c : Cur) (tail : Str) : Prop :=
  if c.seen then
    match c.fields with
    | [] => r.nextId = uintMax ∧ r.rest = tail
    | (i, v) :: fs => r.nextId = i ∧ r.nextTy = some v.ty ∧ r.nextValue = v.raw ∧ r.nextSize = v.size ∧
        r.rest = payload v ++ (encD i fs ++ 0 :: tail)
  else r.nextId = 0 ∧ r.rest = encD c.last c.fields ++ 0 :: tail

def frameOf (c : Cur) : Frame := ⟨c.kind, c.last, 0⟩

def CurOk (c : Cur) : Prop := DocOk c.last c.fields ∧ c.last < idLimit

structure Rel (r : R) (c : Cur) (cs : List Cur) (sfx : Str) : Prop where
  cap : CapOk r.io
  stack : r.stack = frameOf c :: cs.map frameOf
  top : Top r c (tailBytes sfx cs)
  ok : CurOk c
  oks : ∀ c' ∈ cs, CurOk c' ∧ c'.seen = false

theorem ensure_rel {r : R} {c : Cur} {cs : List Cur} {sfx : Str} (h : Rel r c cs sfx) :
    ∃ r', ensureTag r = .ok r' ∧ Rel r' { c with seen := true } cs sfx ∧ r'.rest.length ≤ r.rest.length := by
  obtain ⟨hc, hst, ht, hok, hoks⟩ := h
  cases hs : c.seen with
  | true =>
    have hn : r.nextId ≠ 0 := by
      unfold Top at ht
      rw [hs] at ht
      simp only [if_true] at ht
      cases hf : c.fields with
      | nil => rw [hf] at ht; simp only at ht; rw [ht.1]; decide
      | cons f fs =>
        obtain ⟨i, v⟩ := f
        rw [hf] at ht; simp only at ht
        have := hok.1
        rw [hf] at this
        unfold DocOk at this
        rw [ht.1]; omega
    refine ⟨r, by unfold ensureTag; rw [if_neg hn], ⟨hc, hst, ?_, hok, hoks⟩, by omega⟩
    unfold Top at ht ⊢
    rw [hs] at ht
    exact ht
  | false =>
    unfold Top at ht
    rw [hs] at ht
    simp only [Bool.false_eq_true, if_false] at ht
    obtain ⟨hn, hr⟩ := ht
    unfold ensureTag
    rw [if_pos hn]
    have hfs : c.fields = [] ∨ ∃ i v fs, c.fields = (i, v) :: fs := by
      cases c.fields with
      | nil => exact Or.inl rfl
      | cons f fs => exact Or.inr ⟨f.1, f.2, fs, rfl⟩
    rcases hfs with hf | ⟨i, v, fs, hf⟩
    · rw [hf] at hr
      simp only [encD, List.nil_append] at hr
      rw [readTagNext_zero r _ hc hr]
      refine ⟨_, rfl, ⟨hc, hst, ?_, hok, hoks⟩, by simp [hr]⟩
      simp [Top, hf]
    · have hd := hok.1
      rw [hf] at hd hr
      unfold DocOk at hd
      obtain ⟨h1, h2, h3, h4⟩ := hd
      have hlim : idLimit = 2 ^ 32 - 2 := rfl
      rw [encD, List.append_assoc, List.append_assoc, List.append_assoc] at hr
      rw [readTagNext_hdr r v.ty (i - c.last - 1) v.raw v.size _ _ _ hc hst (by omega) (fits_raw v) (size_lt v h3) hr]
      refine ⟨_, rfl, ⟨hc, hst, ?_, hok, hoks⟩, ?_⟩
      · simp only [Top, hf, if_true, afterTag, sized_size, and_true, frameOf]
        rw [Nat.mod_eq_of_lt (by omega)]
        omega
      · rw [hr]; simp [afterTag]; omega

theorem top_seen {r : R} {c : Cur} {tail : Str} (h : Top r c tail) (hs : c.seen = true) :
    (c.fields = [] ∧ r.nextId = uintMax ∧ r.rest = tail) ∨
    ∃ i v fs, c.fields = (i, v) :: fs ∧ r.nextId = i ∧ r.nextTy = some v.ty ∧ r.nextValue = v.raw ∧ r.nextSize = v.size ∧
        r.rest = payload v ++ (encD i fs ++ 0 :: tail) := by
  unfold Top at h
  rw [hs] at h
  simp only [if_true] at h
  cases hf : c.fields with
  | nil => rw [hf] at h; exact Or.inl ⟨rfl, h⟩
  | cons f fs => rw [hf] at h; exact Or.inr ⟨f.1, f.2, fs, rfl, h⟩

/-- The end of the loop. -/
def finish (t : Nat) (want : Option Ty) (r : R) : Res R :=
  if t < r.nextId then .ok r
  else match want with
    | none => .ok r
    | some ty => if r.nextTy ≠ some ty then .error .format else .ok { setLast r r.nextId with nextId := 0 }

theorem docOk_mono {b : Nat} {fs : Doc} {i : Nat} {v : Val} (h : DocOk b ((i, v) :: fs)) : DocOk i fs := by
  unfold DocOk at h; exact h.2.2.2

/-- The next field, a value, is passed. -/
theorem pass_rel {r : R} {c : Cur} {cs : List Cur} {sfx : Str} {i : Nat} {s : Scalar} {fs : Doc} (h : Rel r c cs sfx)
    (hs : c.seen = true) (hf : c.fields = (i, .leaf s) :: fs) :
    ∃ r', consumeBuffer r = .ok r' ∧ r'.nextId = i ∧
      Rel { setLast r' r'.nextId with nextId := 0 } { c with last := i, seen := false, fields := fs } cs sfx ∧
      r'.rest.length ≤ r.rest.length := by
  obtain ⟨hc, hst, ht, hok, hoks⟩ := h
  rcases top_seen ht hs with ⟨h0, _⟩ | ⟨i', v, fs', h1, h2, h3, h4, h5, h6⟩
  · rw [hf] at h0; cases h0
  · rw [hf] at h1
    simp only [List.cons.injEq, Prod.mk.injEq] at h1
    obtain ⟨⟨rfl, rfl⟩, rfl⟩ := h1
    have hd := hok.1
    rw [hf] at hd
    unfold DocOk at hd
    obtain ⟨a1, a2, a3, a4⟩ := hd
    have hlen : r.nextSize ≤ r.rest.length := by rw [h5, h6]; simp [Val.size, payload]
    unfold consumeBuffer
    rw [takeLoop_eq _ _ r hc (Nat.le_refl _) hlen]
    refine ⟨_, rfl, h2, ⟨by simp only [setLast, hst]; exact hc, ?_, ?_, ⟨a4, a2⟩, hoks⟩, by simp⟩
    · simp only [setLast, hst]
      simp [frameOf, h2]
    · simp only [setLast, hst]
      simp only [Top, Bool.false_eq_true, if_false, h6, h5]
      refine ⟨trivial, ?_⟩
      simp [Val.size, payload]

theorem tagLoop_rel (t : Nat) (ht : t ≤ idLimit) (want : Option Ty) (cs : List Cur) (sfx : Str) :
    ∀ (fs : Doc) (c : Cur) (r : R) (fuel : Nat), c.fields = fs → Rel r c cs sfx → c.last < t →
      (fs.takeWhile (·.1 < t)).all (·.2.isLeaf) = true → (fs.takeWhile (·.1 < t)).length < fuel →
      ∃ r' c', Rel r' c' cs sfx ∧ c' = { c with last := lastId c.last (fs.takeWhile (·.1 < t)), seen := true, fields := fs.dropWhile (·.1 < t) } ∧
        c'.last < t ∧ t ≤ r'.nextId ∧ r'.rest.length ≤ r.rest.length ∧
        tagLoop t want fuel r = finish t want r' := by
  intro fs
  induction fs with
  | nil =>
    intro c r fuel hf h hl _ hfu
    cases fuel with
    | zero => simp at hfu
    | succ fuel =>
      obtain ⟨r', h1, h2, h3⟩ := ensure_rel h
      refine ⟨r', { c with seen := true }, h2, by simp [lastId, hf], hl, ?_, h3, ?_⟩
      · rcases top_seen h2.top rfl with ⟨_, h4, _⟩ | ⟨i, v, fs, h4, _⟩
        · rw [h4]; have : idLimit ≤ uintMax := by decide
          omega
        · simp [hf] at h4
      · have hn : t < r'.nextId := by
          rcases top_seen h2.top rfl with ⟨_, h4, _⟩ | ⟨i, v, fs, h4, _⟩
          · rw [h4]; have : idLimit < uintMax := by decide
            omega
          · simp [hf] at h4
        unfold tagLoop finish
        rw [h1]
        simp only [bind, Except.bind, hn, if_true]
        rfl
  | cons f fs ih =>
    intro c r fuel hf h hl hall hfu
    obtain ⟨i, v⟩ := f
    cases fuel with
    | zero => simp at hfu
    | succ fuel =>
      obtain ⟨r', h1, h2, h3⟩ := ensure_rel h
      rcases top_seen h2.top rfl with ⟨h4, _⟩ | ⟨i', v', fs', h4, h5, h6, h7, h8, h9⟩
      · simp [hf] at h4
      · simp only [hf, List.cons.injEq, Prod.mk.injEq] at h4
        obtain ⟨⟨rfl, rfl⟩, rfl⟩ := h4
        by_cases hi : i < t
        · have htw : ((i, v) :: fs).takeWhile (·.1 < t) = (i, v) :: fs.takeWhile (·.1 < t) := by simp [hi]
          have hdw : ((i, v) :: fs).dropWhile (·.1 < t) = fs.dropWhile (·.1 < t) := by simp [hi]
          rw [htw] at hall hfu ⊢
          rw [hdw]
          simp only [List.all_cons, Bool.and_eq_true] at hall
          cases v with
          | arr => simp [Val.isLeaf] at hall
          | obj => simp [Val.isLeaf] at hall
          | leaf s =>
            obtain ⟨r2, p1, p2, p3, p4⟩ := pass_rel h2 rfl hf
            obtain ⟨r3, c3, q1, q2, q3, q4, q5, q6⟩ := ih { c with last := i, seen := false, fields := fs } _ fuel rfl p3 hi hall.2
              (by simpa using hfu)
            refine ⟨r3, c3, q1, ?_, q3, q4, ?_, ?_⟩
            · rw [q2]
              congr 1
              simp only [lastId]
              cases hg : fs.takeWhile (·.1 < t) with
              | nil => simp
              | cons a b => simp [List.getLast?_cons]
            · have e : ({ setLast r2 r2.nextId with nextId := 0 } : R).rest = r2.rest := by
                simp only [setLast]; split <;> rfl
              rw [e] at q5
              omega
            · rw [← q6]
              rw [tagLoop]
              rw [h1]
              simp only [bind, Except.bind]
              rw [if_neg (by omega), if_neg (by omega), p1]
        · have htw : ((i, v) :: fs).takeWhile (·.1 < t) = [] := by simp [hi]
          have hdw : ((i, v) :: fs).dropWhile (·.1 < t) = (i, v) :: fs := by simp [hi]
          rw [htw, hdw]
          refine ⟨r', { c with seen := true }, h2, by simp [lastId, hf], hl, by omega, h3, ?_⟩
          unfold tagLoop finish
          rw [h1]
          simp only [bind, Except.bind]
          by_cases hlt : t < r'.nextId
          · rw [if_pos hlt, if_pos hlt]; rfl
          · rw [if_neg hlt, if_neg hlt, if_pos (by omega)]
            cases want <;> rfl

/-- Each field has at least a byte. -/
theorem hdr_len (v : Val) (d : Nat) (hd : d < 2 ^ 32) : 1 ≤ (hdr v.ty d v.raw).length := by
  obtain ⟨_, _, h, _⟩ := hdr_parts v.ty d v.raw hd (fits_raw v)
  rw [h]; simp

theorem encD_len : ∀ (fs : Doc) (b : Nat), DocOk b fs → fs.length ≤ (encD b fs).length := by
  intro fs
  induction fs with
  | nil => simp
  | cons f fs ih =>
    intro b h
    obtain ⟨i, v⟩ := f
    unfold DocOk at h
    obtain ⟨h1, h2, h3, h4⟩ := h
    have := ih i h4
    have hlim : idLimit = 2 ^ 32 - 2 := rfl
    have := hdr_len v (i - b - 1) (by omega)
    simp only [encD, List.length_append, List.length_cons]
    omega

theorem rel_len {r : R} {c : Cur} {cs : List Cur} {sfx : Str} (h : Rel r c cs sfx) : c.fields.length ≤ r.rest.length + 1 := by
  have hd := h.ok.1
  have ht := h.top
  cases hs : c.seen with
  | false =>
    simp only [Top, hs, Bool.false_eq_true, if_false] at ht
    have := encD_len _ _ hd
    rw [ht.2]; simp; omega
  | true =>
    rcases top_seen ht hs with ⟨h0, _⟩ | ⟨i, v, fs, h1, _, _, _, _, h2⟩
    · rw [h0]; simp
    · rw [h1] at hd ⊢
      have := encD_len _ _ (docOk_mono hd)
      rw [h2]; simp; omega

theorem takeWhile_len {α : Type} (p : α → Bool) (l : List α) : (l.takeWhile p).length ≤ l.length :=
  (List.takeWhile_sublist p).length_le

/-- The search for a field. -/
theorem readTag_ok {r : R} {c : Cur} {cs : List Cur} {sfx : Str} (h : Rel r c cs sfx) {id t : Nat} {c' : Cur} (want : Option Ty)
    (hs : specSeek c id = some (.ok (t, c'))) :
    ∃ r', Rel r' c' cs sfx ∧ c'.seen = true ∧ c'.last < t ∧ t ≤ r'.nextId ∧ 0 < t ∧ t < idLimit ∧ r'.rest.length ≤ r.rest.length ∧
      readTag r id want = (finish t want r').map (t, ·) := by
  unfold specSeek at hs
  simp only at hs
  generalize hT : (if id = 0 then c.last + 1 else id) = T at hs
  split at hs
  · simp at hs
  split at hs
  · simp at hs
  split at hs
  · rename_i h1 h2 h3
    simp only [Option.some.injEq, Except.ok.injEq, Prod.mk.injEq] at hs
    obtain ⟨rfl, hc'⟩ := hs
    have hlen := rel_len h
    have := takeWhile_len (fun f : Nat × Val => decide (f.1 < T)) c.fields
    obtain ⟨r', c2, q1, q2, q3, q4, q5, q6⟩ := tagLoop_rel T (by omega) want cs sfx c.fields c r (r.rest.length + 2) rfl h (by omega) h3
      (by omega)
    have hcc : c2 = c' := by rw [q2, ← hc']
    subst hcc
    refine ⟨r', q1, by rw [q2], q3, q4, by omega, by omega, q5, ?_⟩
    unfold readTag
    rw [h.stack]
    have hl : (frameOf c).idLast = c.last := rfl
    simp only
    by_cases hid : id = 0
    · rw [if_pos hid] at hT
      have hok := h.ok.2
      have hlim : idLimit = 2 ^ 32 - 2 := rfl
      simp only [hid, if_true]
      rw [hl, Nat.mod_eq_of_lt (by omega), hT, q6]
      cases finish T want r' <;> rfl
    · rw [if_neg hid] at hT ⊢
      subst hT
      rw [if_neg (by omega), q6]
      cases finish id want r' <;> rfl
  · simp at hs

theorem readTag_err {r : R} {c : Cur} {cs : List Cur} {sfx : Str} (h : Rel r c cs sfx) {id : Nat} {e : Err} (want : Option Ty)
    (hs : specSeek c id = some (.error e)) : readTag r id want = .error e := by
  unfold specSeek at hs
  simp only at hs
  generalize hT : (if id = 0 then c.last + 1 else id) = T at hs
  split at hs
  · rename_i h1
    simp only [Option.some.injEq, Except.error.injEq] at hs
    subst hs
    have hid : id ≠ 0 := by
      intro h0; rw [if_pos h0] at hT; omega
    rw [if_neg hid] at hT
    unfold readTag
    rw [h.stack]
    have hl : (frameOf c).idLast = c.last := rfl
    simp only
    rw [if_neg hid, if_pos (by omega)]
  split at hs
  · simp at hs
  split at hs <;> simp at hs

/-- The end of a container or of the pack: what is left is passed. -/
theorem readTag_end {r : R} {c : Cur} {cs : List Cur} {sfx : Str} (h : Rel r c cs sfx) (hall : c.fields.all (·.2.isLeaf) = true) :
    ∃ r', readTag r (uintMax - 1) none = .ok (uintMax - 1, r') ∧ r'.rest = tailBytes sfx cs ∧ CapOk r'.io ∧
      r'.stack.tail = cs.map frameOf := by
  have hlim : idLimit = 2 ^ 32 - 2 := rfl
  have hmax : uintMax - 1 = idLimit := by decide
  have hlt : ∀ (fs : Doc) (b : Nat), DocOk b fs → fs.takeWhile (·.1 < idLimit) = fs ∧ fs.dropWhile (·.1 < idLimit) = [] := by
    intro fs
    induction fs with
    | nil => simp
    | cons f fs ih =>
      intro b hd
      obtain ⟨i, v⟩ := f
      unfold DocOk at hd
      obtain ⟨_, h2, _, h4⟩ := hd
      obtain ⟨a, b⟩ := ih i h4
      simp only [List.takeWhile_cons, List.dropWhile_cons, h2, decide_true, if_true, a, b]
      exact ⟨trivial, trivial⟩
  obtain ⟨e1, e2⟩ := hlt c.fields c.last h.ok.1
  have hlen := rel_len h
  obtain ⟨r', c2, q1, q2, q3, q4, q5, q6⟩ := tagLoop_rel idLimit (Nat.le_refl _) none cs sfx c.fields c r (r.rest.length + 2) rfl h h.ok.2
    (by rw [e1]; exact hall) (by rw [e1]; omega)
  rw [e1, e2] at q2
  refine ⟨r', ?_, ?_, q1.cap, by rw [q1.stack]; rfl⟩
  · unfold readTag
    rw [h.stack, hmax]
    have hl : (frameOf c).idLast = c.last := rfl
    simp only
    have := h.ok.2
    rw [if_neg (by omega), if_neg (by omega), q6]
    unfold finish
    split <;> rfl
  · rcases top_seen q1.top (by rw [q2]) with ⟨_, _, h3⟩ | ⟨i, v, fs, h3, _⟩
    · exact h3
    · rw [q2] at h3; simp at h3

end Verif.Pack
