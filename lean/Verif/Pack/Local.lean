import Verif.Pack.ReadLemmas

/-! # More bytes after those that were read change nothing -/

namespace Verif.Pack

def app (x : Str) (r : R) : R := { r with rest := r.rest ++ x }

def Loc {α : Type} (f : R → Res (α × R)) : Prop :=
  ∀ x r a r', CapOk r.io → f r = .ok (a, r') → r'.io = r.io ∧ f (app x r) = .ok (a, app x r')

theorem loc_pure {α : Type} (f : R → α) (g : R → R) (hf : ∀ x r, f (app x r) = f r) (hg : ∀ x r, g (app x r) = app x (g r))
    (hio : ∀ r, (g r).io = r.io) : Loc fun r => .ok (f r, g r) := by
  intro x r a r' _ h
  simp only [Except.ok.injEq, Prod.mk.injEq] at h
  obtain ⟨rfl, rfl⟩ := h
  exact ⟨hio r, by simp only [hf, hg]⟩

theorem loc_bind {α β : Type} {f : R → Res (α × R)} {g : α → R → Res (β × R)} (hf : Loc f) (hg : ∀ a, Loc (g a)) :
    Loc fun r => (f r).bind fun p => g p.1 p.2 := by
  intro x r b r' hc h
  beta_reduce at h ⊢
  cases h1 : f r with
  | error e => rw [h1] at h; cases h
  | ok p =>
    obtain ⟨a, r1⟩ := p
    rw [h1] at h
    obtain ⟨i1, e1⟩ := hf x r a r1 hc h1
    obtain ⟨i2, e2⟩ := hg a x r1 b r' (by rw [i1]; exact hc) h
    refine ⟨i2.trans i1, ?_⟩
    simp only [e1, Except.bind, e2]

theorem loc_map {α β : Type} {f : R → Res (α × R)} (hf : Loc f) (k : α → R → β) (hk : ∀ a x r, k a (app x r) = k a r) :
    Loc fun r => (f r).map fun p => (k p.1 p.2, p.2) := by
  have := loc_bind hf (g := fun a r => .ok (k a r, r)) fun a => loc_pure (k a) id (hk a) (fun _ _ => rfl) fun _ => rfl
  intro x r b r' hc h
  have e : ∀ r, (f r).map (fun p => (k p.1 p.2, p.2)) = (f r).bind fun p => .ok (k p.1 p.2, p.2) := by intro r; cases f r <;> rfl
  simp only [e] at h ⊢
  exact this x r b r' hc h

theorem loc_ite {α : Type} {f g : R → Res (α × R)} (p : R → Prop) [DecidablePred p] (hp : ∀ x r, p (app x r) ↔ p r) (hf : Loc f) (hg : Loc g) :
    Loc fun r => if p r then f r else g r := by
  intro x r a r' hc h
  by_cases hpr : p r
  · simp only [hpr, if_true] at h
    simp only [hp, hpr, if_true]
    exact hf x r a r' hc h
  · simp only [hpr, if_false] at h
    simp only [hp, hpr, if_false]
    exact hg x r a r' hc h

theorem loc_err {α : Type} (e : Err) : Loc (α := α) fun _ => .error e := by
  intro x r a r' _ h; cases h

theorem readBuffer_app (x : Str) (r : R) (n k : Nat) (hc : CapOk r.io) (h : readBuffer r n = .ok k) : ∃ k', readBuffer (app x r) n = .ok k' := by
  unfold readBuffer at h ⊢
  cases hio : r.io with
  | none =>
    simp only [hio] at h
    split at h
    · cases h
    · refine ⟨min n (r.rest ++ x).length, ?_⟩
      simp only [app, hio]
      rw [if_neg (by simp only [List.length_append]; omega)]
  | some cap =>
    simp only [hio] at h
    split at h
    · cases h
    · refine ⟨min (min n cap) (r.rest ++ x).length, ?_⟩
      simp only [app, hio]
      rw [if_neg (by simp only [List.length_append]; omega)]

theorem takeLoop_ok : ∀ (fuel n : Nat) (r r' : R) (a : Str), takeLoop fuel r n = .ok (a, r') → n ≤ r.rest.length := by
  intro fuel
  induction fuel with
  | zero =>
    intro n r r' a h
    cases n with
    | zero => omega
    | succ n => simp [takeLoop] at h
  | succ fuel ih =>
    intro n r r' a h
    cases n with
    | zero => omega
    | succ n =>
      unfold takeLoop at h
      cases h1 : readBuffer r (n + 1) with
      | error e => rw [h1] at h; simp [bind, Except.bind] at h
      | ok k =>
        rw [h1] at h
        simp only [bind, Except.bind] at h
        cases h2 : takeLoop fuel { r with rest := r.rest.drop k } (n + 1 - k) with
        | error e => rw [h2] at h; simp at h
        | ok p =>
          have := ih _ _ p.2 p.1 h2
          simp only [List.length_drop] at this
          have hk : k ≤ r.rest.length := by
            unfold readBuffer at h1
            cases hio : r.io <;> simp only [hio] at h1 <;> split at h1 <;> simp at h1 <;> omega
          omega

theorem loc_take (n : R → Nat) (hn : ∀ x r, n (app x r) = n r) : Loc fun r => takeLoop (n r) r (n r) := by
  intro x r a r' hc h
  beta_reduce at h ⊢
  have hl := takeLoop_ok _ _ _ _ _ h
  rw [takeLoop_eq _ _ _ hc (Nat.le_refl _) hl] at h
  simp only [Except.ok.injEq, Prod.mk.injEq] at h
  obtain ⟨rfl, rfl⟩ := h
  refine ⟨rfl, ?_⟩
  simp only [hn]
  rw [takeLoop_eq _ _ (app x r) hc (Nat.le_refl _) (by simp only [app, List.length_append]; omega)]
  simp only [app, List.take_append_of_le_length hl, List.drop_append_of_le_length hl]

theorem varint_app : ∀ (fuel idx : Nat) (v w : UInt64) (p rest x : List UInt8), Varint.readGo fuel idx v p = .ok (w, rest) →
    Varint.readGo fuel idx v (p ++ x) = .ok (w, rest ++ x) := by
  intro fuel
  induction fuel with
  | zero => intro idx v w p rest x h; simp [Varint.readGo] at h
  | succ fuel ih =>
    intro idx v w p rest x h
    cases p with
    | nil => simp [Varint.readGo] at h
    | cons b p =>
      rw [Varint.readGo] at h
      rw [List.cons_append, Varint.readGo]
      split at h
      · rename_i hb
        rw [if_pos hb]
        simp only [Except.ok.injEq, Prod.mk.injEq] at h
        rw [h.1, h.2]
      · rename_i hb
        rw [if_neg hb]
        exact ih _ _ _ _ _ _ h

theorem loc_u64 : Loc readU64 := by
  intro x r a r' _ h
  unfold readU64 at h
  split at h
  · rename_i v rest hv
    simp only [Except.ok.injEq, Prod.mk.injEq] at h
    obtain ⟨rfl, rfl⟩ := h
    refine ⟨rfl, ?_⟩
    unfold readU64
    simp only [app, Varint.read, varint_app _ _ _ _ _ _ x hv]
  · cases h

theorem loc_id : Loc fun r => Except.ok ((), r) := loc_pure (fun _ => ()) id (fun _ _ => rfl) (fun _ _ => rfl) fun _ => rfl

theorem loc_delta (low shift : Nat) (more : Bool) : Loc fun r => readDelta r low shift more := by
  unfold readDelta
  cases more with
  | false => exact loc_pure (fun _ => low) id (fun _ _ => rfl) (fun _ _ => rfl) fun _ => rfl
  | true =>
    simp only [if_true]
    exact loc_bind loc_u64 (g := fun v r => .ok (low ||| ((v % 2 ^ 32) <<< shift % 2 ^ 32), r)) fun v =>
      loc_pure (fun _ => low ||| ((v % 2 ^ 32) <<< shift % 2 ^ 32)) id (fun _ _ => rfl) (fun _ _ => rfl) fun _ => rfl

theorem loc_const {α : Type} (a : α) : Loc fun r => Except.ok (a, r) := loc_pure (fun _ => a) id (fun _ _ => rfl) (fun _ _ => rfl) fun _ => rfl

theorem loc_code (tag : Nat) : Loc (readCode tag) := by
  unfold readCode
  by_cases h : tag >>> 4 = 0xF
  · simp only [h, if_true]
    exact loc_bind loc_u64 (g := fun v r => .ok ((v % 2 ^ 32 + 0xF) % 2 ^ 32, r)) fun v => loc_const _
  · simp only [h, if_false]
    exact loc_const _

theorem loc_value (tag : Nat) (ty : Ty) : Loc fun r => (readValue tag ty r).map fun p => ((p.1, p.2.1), p.2.2) := by
  have e : (fun r => (readValue tag ty r).map fun p => ((p.1, p.2.1), p.2.2)) = fun r =>
      if ty.multi then
        if tag &&& 0x8 ≠ 0 then (readDelta r (tag &&& 0x3) 2 (tag &&& 0x4 ≠ 0)).bind fun p => (readU64 p.2).bind fun q => .ok ((p.1, q.1), q.2)
        else (readDelta r (tag &&& 0x1) 1 (tag &&& 0x2 ≠ 0)).bind fun p => .ok ((p.1, (tag >>> 2) &&& 0x3), p.2)
      else if ty.single then (readDelta r (tag &&& 0x3) 2 (tag &&& 0x4 ≠ 0)).bind fun p => .ok ((p.1, (tag >>> 3) &&& 0x1), p.2)
      else (readDelta r (tag &&& 0x7) 3 (tag &&& 0x8 ≠ 0)).bind fun p => .ok ((p.1, 0), p.2) := by
    funext r
    unfold readValue
    split
    · split
      · cases readDelta r (tag &&& 0x3) 2 (tag &&& 0x4 ≠ 0) with
        | error e => rfl
        | ok p =>
          simp only [bind, Except.bind]
          cases readU64 p.2 <;> rfl
      · cases readDelta r (tag &&& 0x1) 1 (tag &&& 0x2 ≠ 0) <;> rfl
    · split
      · cases readDelta r (tag &&& 0x3) 2 (tag &&& 0x4 ≠ 0) <;> rfl
      · cases readDelta r (tag &&& 0x7) 3 (tag &&& 0x8 ≠ 0) <;> rfl
  rw [e]
  refine loc_ite _ (fun _ _ => Iff.rfl) (loc_ite _ (fun _ _ => Iff.rfl) ?_ ?_) (loc_ite _ (fun _ _ => Iff.rfl) ?_ ?_)
  · exact loc_bind (loc_delta _ _ _) (g := fun d r => (readU64 r).bind fun q => .ok ((d, q.1), q.2)) fun d =>
      loc_bind loc_u64 (g := fun v r => .ok ((d, v), r)) fun v => loc_const _
  · exact loc_bind (loc_delta _ _ _) (g := fun d r => .ok ((d, _), r)) fun d => loc_const _
  · exact loc_bind (loc_delta _ _ _) (g := fun d r => .ok ((d, _), r)) fun d => loc_const _
  · exact loc_bind (loc_delta _ _ _) (g := fun d r => .ok ((d, _), r)) fun d => loc_const _

theorem loc_size (ty : Ty) (value : Nat) : Loc (readSize ty value) := by
  unfold readSize
  exact loc_ite (fun _ => _) (fun _ _ => Iff.rfl) loc_u64 (loc_const _)

/-- What follows the byte of the tag. -/
def tagRest (tag : Nat) (r : R) : Res (Bool × R) :=
  if tag = 0 then .ok (false, { r with nextId := uintMax })
  else
    match r.stack with
    | [] => .error .ub
    | top :: _ => (readCode tag r).bind fun c =>
      match Ty.ofCode c.1 with
      | none => .error .format
      | some ty => ((readValue tag ty c.2).map fun p => ((p.1, p.2.1), p.2.2)).bind fun v => (readSize ty v.1.2 v.2).bind fun z =>
        .ok (true, { z.2 with nextId := (v.1.1 + (top.idLast + 1)) % 2 ^ 32, nextTy := some ty, nextValue := v.1.2, nextSize := z.1 })

theorem readTagNext_eq (r : R) : readTagNext r = (readBuffer r 1).bind fun _ =>
    match r.rest with
    | [] => .error .ub
    | b :: rest => (tagRest b.toNat { r with rest := rest }).map fun p => (p.2, p.1) := by
  unfold readTagNext
  cases readBuffer r 1 with
  | error e => rfl
  | ok k =>
    simp only [bind, Except.bind]
    cases r.rest with
    | nil => rfl
    | cons b rest =>
      simp only [tagRest]
      split
      · rfl
      · cases r.stack with
        | nil => rfl
        | cons top tl =>
          simp only
          generalize readCode b.toNat _ = rc
          cases rc with
          | error e => rfl
          | ok c =>
            simp only [Except.bind]
            cases Ty.ofCode c.1 with
            | none => rfl
            | some ty =>
              simp only
              cases readValue b.toNat ty c.2 with
              | error e => rfl
              | ok v =>
                simp only [Except.map, Except.bind]
                cases readSize ty v.2.1 v.2.2 <;> rfl

theorem loc_tagRest (tag : Nat) : Loc (tagRest tag) := by
  intro x r a r' hc h
  unfold tagRest at h ⊢
  split at h
  · rename_i h0
    rw [if_pos h0]
    simp only [Except.ok.injEq, Prod.mk.injEq] at h
    obtain ⟨rfl, rfl⟩ := h
    exact ⟨rfl, rfl⟩
  · rename_i h0
    rw [if_neg h0]
    have hs : (app x r).stack = r.stack := rfl
    rw [hs]
    cases hst : r.stack with
    | nil => rw [hst] at h; cases h
    | cons top tl =>
      rw [hst] at h
      simp only at h ⊢
      refine loc_bind (loc_code tag) (g := fun c r => match Ty.ofCode c with
        | none => .error .format
        | some ty => ((readValue tag ty r).map fun p => ((p.1, p.2.1), p.2.2)).bind fun v => (readSize ty v.1.2 v.2).bind fun z =>
          .ok (true, { z.2 with nextId := (v.1.1 + (top.idLast + 1)) % 2 ^ 32, nextTy := some ty, nextValue := v.1.2, nextSize := z.1 }))
        ?_ x r a r' hc h
      intro c
      cases Ty.ofCode c with
      | none => exact loc_err _
      | some ty =>
        simp only
        refine loc_bind (loc_value tag ty) (g := fun v r => (readSize ty v.2 r).bind fun z =>
          .ok (true, { z.2 with nextId := (v.1 + (top.idLast + 1)) % 2 ^ 32, nextTy := some ty, nextValue := v.2, nextSize := z.1 })) ?_
        intro v
        refine loc_bind (loc_size ty v.2) (g := fun z r =>
          .ok (true, { r with nextId := (v.1 + (top.idLast + 1)) % 2 ^ 32, nextTy := some ty, nextValue := v.2, nextSize := z })) ?_
        intro z
        exact loc_pure (fun _ => true) _ (fun _ _ => rfl) (fun _ _ => rfl) fun _ => rfl

theorem loc_tagNext : Loc fun r => (readTagNext r).map fun p => (p.2, p.1) := by
  intro x r a r' hc h
  simp only [readTagNext_eq] at h ⊢
  cases h1 : readBuffer r 1 with
  | error e => rw [h1] at h; cases h
  | ok k =>
    rw [h1] at h
    obtain ⟨k', hk⟩ := readBuffer_app x r 1 k hc h1
    rw [hk]
    simp only [Except.bind] at h ⊢
    cases hr : r.rest with
    | nil => rw [hr] at h; cases h
    | cons b rest =>
      rw [hr] at h
      have hr' : (app x r).rest = b :: (rest ++ x) := by simp [app, hr]
      rw [hr']
      simp only at h ⊢
      cases h2 : tagRest b.toNat { r with rest := rest } with
      | error e => rw [h2] at h; cases h
      | ok p =>
        rw [h2] at h
        simp only [Except.map, Except.ok.injEq, Prod.mk.injEq] at h
        obtain ⟨rfl, rfl⟩ := h
        obtain ⟨i, e⟩ := loc_tagRest b.toNat x { r with rest := rest } p.1 p.2 hc h2
        have e' : ({ app x r with rest := rest ++ x } : R) = app x { r with rest := rest } := rfl
        rw [e', e]
        exact ⟨i, rfl⟩

theorem loc_ensure : Loc fun r => (ensureTag r).map fun r => ((), r) := by
  have e : (fun r => (ensureTag r).map fun r => ((), r)) = fun r =>
      if r.nextId = 0 then ((readTagNext r).map fun p => (p.2, p.1)).map fun p => ((), p.2) else .ok ((), r) := by
    funext r
    unfold ensureTag
    split
    · cases readTagNext r <;> rfl
    · rfl
  rw [e]
  exact loc_ite (fun r => r.nextId = 0) (fun _ _ => Iff.rfl) (loc_map loc_tagNext (fun _ _ => ()) fun _ _ _ => rfl) loc_id

theorem loc_consumeBuffer : Loc fun r => (consumeBuffer r).map fun r => ((), r) := by
  have e : (fun r => (consumeBuffer r).map fun r => ((), r)) = fun r =>
      (takeLoop r.nextSize r r.nextSize).bind fun p => .ok ((), { p.2 with nextSize := 0 }) := by
    funext r
    unfold consumeBuffer
    cases takeLoop r.nextSize r r.nextSize <;> rfl
  rw [e]
  exact loc_bind (loc_take (·.nextSize) fun _ _ => rfl) (g := fun _ r => .ok ((), { r with nextSize := 0 })) fun _ =>
    loc_pure (fun _ => ()) _ (fun _ _ => rfl) (fun _ _ => rfl) fun _ => rfl

theorem loc_use {f : R → Res R} (hf : Loc fun r => (f r).map fun r => ((), r)) {r r' : R} (x : Str) (hc : CapOk r.io) (h : f r = .ok r') :
    r'.io = r.io ∧ f (app x r) = .ok (app x r') := by
  obtain ⟨i, e⟩ := hf x r () r' hc (by simp only [h, Except.map])
  refine ⟨i, ?_⟩
  cases hx : f (app x r) with
  | error e' => simp [hx, Except.map] at e
  | ok y => simp only [hx, Except.map, Except.ok.injEq, Prod.mk.injEq, true_and] at e; rw [e]

theorem setLast_app (x : Str) (r : R) (i : Nat) : setLast (app x r) i = app x (setLast r i) := by
  unfold setLast
  have : (app x r).stack = r.stack := rfl
  rw [this]
  cases r.stack <;> rfl

theorem setLast_io (r : R) (i : Nat) : (setLast r i).io = r.io := by unfold setLast; split <;> rfl

theorem loc_tagLoop (id : Nat) (want : Option Ty) (x : Str) : ∀ (f g : Nat) (r r' : R), CapOk r.io → tagLoop id want f r = .ok r' → f ≤ g →
    r'.io = r.io ∧ tagLoop id want g (app x r) = .ok (app x r') := by
  intro f
  induction f with
  | zero => intro g r r' _ h; simp [tagLoop] at h
  | succ f ih =>
    intro g r r' hc h hg
    cases g with
    | zero => omega
    | succ g =>
      unfold tagLoop at h ⊢
      cases h1 : ensureTag r with
      | error e => rw [h1] at h; simp [bind, Except.bind] at h
      | ok r1 =>
        obtain ⟨i1, e1⟩ := loc_use loc_ensure x hc h1
        rw [h1] at h
        rw [e1]
        simp only [bind, Except.bind] at h ⊢
        have hn : (app x r1).nextId = r1.nextId := rfl
        have hty : (app x r1).nextTy = r1.nextTy := rfl
        simp only [hn, hty]
        split at h
        · rename_i hlt
          rw [if_pos hlt]
          simp only [pure, Except.pure, Except.ok.injEq] at h
          subst h
          exact ⟨i1, rfl⟩
        · rename_i hlt
          rw [if_neg hlt]
          split at h
          · rename_i he
            rw [if_pos he]
            cases want with
            | none =>
              simp only [pure, Except.pure, Except.ok.injEq] at h
              subst h
              exact ⟨i1, rfl⟩
            | some ty =>
              simp only at h ⊢
              split at h
              · cases h
              · rename_i ht
                rw [if_neg ht]
                simp only [pure, Except.pure, Except.ok.injEq] at h
                subst h
                rw [setLast_app]
                exact ⟨(setLast_io _ _).trans i1, rfl⟩
          · rename_i he
            rw [if_neg he]
            cases h2 : consumeBuffer r1 with
            | error e => rw [h2] at h; simp at h
            | ok r2 =>
              obtain ⟨i2, e2⟩ := loc_use loc_consumeBuffer x (by rw [i1]; exact hc) h2
              rw [h2] at h
              rw [e2]
              simp only at h ⊢
              have hio : ({ setLast r2 r2.nextId with nextId := 0 } : R).io = r.io := (setLast_io _ _).trans (i2.trans i1)
              obtain ⟨i3, e3⟩ := ih g _ _ (by rw [hio]; exact hc) h (by omega)
              refine ⟨i3.trans hio, ?_⟩
              rw [← e3]
              congr 1
              show ({ setLast (app x r2) r2.nextId with nextId := 0 } : R) = _
              rw [setLast_app]
              rfl

theorem loc_tag (id : Nat) (want : Option Ty) : Loc fun r => readTag r id want := by
  intro x r a r' hc h
  unfold readTag at h ⊢
  beta_reduce at h ⊢
  have hs : (app x r).stack = r.stack := rfl
  have hl : r.rest.length + 2 ≤ (app x r).rest.length + 2 := by simp [app]
  rw [hs]
  cases hst : r.stack with
  | nil => rw [hst] at h; cases h
  | cons top tl =>
    rw [hst] at h
    simp only at h ⊢
    split at h
    · rename_i h0
      rw [if_pos h0]
      cases h1 : tagLoop ((top.idLast + 1) % 2 ^ 32) want (r.rest.length + 2) r with
      | error e => rw [h1] at h; simp [bind, Except.bind] at h
      | ok r1 =>
        obtain ⟨i1, e1⟩ := loc_tagLoop _ _ x _ _ _ _ hc h1 hl
        rw [h1] at h
        rw [e1]
        simp only [bind, Except.bind, pure, Except.pure, Except.ok.injEq, Prod.mk.injEq] at h ⊢
        obtain ⟨rfl, rfl⟩ := h
        exact ⟨i1, rfl, rfl⟩
    · rename_i h0
      rw [if_neg h0]
      split at h
      · cases h
      · rename_i h2
        rw [if_neg h2]
        cases h1 : tagLoop id want (r.rest.length + 2) r with
        | error e => rw [h1] at h; simp [bind, Except.bind] at h
        | ok r1 =>
          obtain ⟨i1, e1⟩ := loc_tagLoop _ _ x _ _ _ _ hc h1 hl
          rw [h1] at h
          rw [e1]
          simp only [bind, Except.bind, pure, Except.pure, Except.ok.injEq, Prod.mk.injEq] at h ⊢
          obtain ⟨rfl, rfl⟩ := h
          exact ⟨i1, rfl, rfl⟩

theorem loc_null (id : Nat) : Loc fun r => (readNull r id).map fun p => ((p.1, p.2.1), p.2.2) := by
  have e : (fun r => (readNull r id).map fun p => ((p.1, p.2.1), p.2.2)) = fun r =>
      (readTag r id none).bind fun p => if p.1 < p.2.nextId then .ok ((true, p.1), setLast p.2 p.1) else .ok ((false, p.1), p.2) := by
    funext r
    unfold readNull
    cases readTag r id none with
    | error e => rfl
    | ok p =>
      simp only [bind, Except.bind]
      split <;> rfl
  rw [e]
  refine loc_bind (loc_tag id none) (g := fun i r => if i < r.nextId then .ok ((true, i), setLast r i) else .ok ((false, i), r)) ?_
  intro i
  exact loc_ite (fun r => i < r.nextId) (fun _ _ => Iff.rfl)
    (loc_pure (fun _ => (true, i)) (fun r => setLast r i) (fun _ _ => rfl) (fun x r => setLast_app x r i) fun r => setLast_io r i) (loc_const _)

theorem loc_field {α : Type} (id : Nat) (ty : Ty) (get : R → Res (α × R)) (hg : Loc get) : Loc fun r => readField r id ty get := by
  have e : (fun r => readField r id ty get) = fun r =>
      ((readNull r id).map fun p => ((p.1, p.2.1), p.2.2)).bind fun p =>
        if p.1.1 = true then .ok (none, p.2) else (readTag p.2 p.1.2 (some ty)).bind fun q => (get q.2).bind fun a => .ok (some a.1, a.2) := by
    funext r
    unfold readField
    cases readNull r id with
    | error e => rfl
    | ok p =>
      simp only [bind, Except.bind, Except.map]
      split
      · rfl
      · cases readTag p.2.2 p.2.1 (some ty) with
        | error e => rfl
        | ok q =>
          simp only
          cases get q.2 <;> rfl
  rw [e]
  refine loc_bind (loc_null id) (g := fun p r => if p.1 = true then .ok (none, r) else (readTag r p.2 (some ty)).bind fun q => (get q.2).bind fun a =>
    .ok (some a.1, a.2)) ?_
  intro p
  refine loc_ite (fun _ => p.1 = true) (fun _ _ => Iff.rfl) (loc_const _) ?_
  refine loc_bind (loc_tag p.2 (some ty)) (g := fun _ r => (get r).bind fun a => .ok (some a.1, a.2)) ?_
  intro _
  exact loc_bind hg (g := fun a r => .ok (some a, r)) fun a => loc_const _

theorem loc_bytes : Loc getBytes :=
  loc_ite (fun r => r.nextValue ≠ 0) (fun _ _ => Iff.rfl) (loc_take (·.nextSize) fun _ _ => rfl) (loc_const _)

theorem loc_get {α : Type} (f : R → α) (hf : ∀ x r, f (app x r) = f r) : Loc fun r => .ok (f r, r) := loc_pure f id hf (fun _ _ => rfl) fun _ => rfl

/-- A value with a default. -/
theorem loc_dflt {α β γ : Type} (id : Nat) (ty : Ty) (get : R → Res (α × R)) (hg : Loc get) (k : Option α → β) (out : β → γ) :
    Loc fun r => ((do let (v, r) ← readField r id ty get; pure (k v, r) : Res (β × R))).map fun a => (out a.1, a.2) := by
  have e : (fun r => ((do let (v, r) ← readField r id ty get; pure (k v, r) : Res (β × R))).map fun a => (out a.1, a.2)) =
      fun r => (readField r id ty get).map fun p => (out (k p.1), p.2) := by
    funext r
    cases readField r id ty get <;> rfl
  rw [e]
  exact loc_map (loc_field id ty get hg) (fun a _ => out (k a)) fun _ _ _ => rfl

theorem loc_begin (kind : Ty) (id : Nat) : Loc fun r => (readBegin r kind id).map fun r => ((), r) := by
  have e : (fun r => (readBegin r kind id).map fun r => ((), r)) = fun r =>
      (readTag r id (some kind)).bind fun p => .ok ((), { p.2 with stack := ⟨kind, 0, 0⟩ :: p.2.stack }) := by
    funext r
    unfold readBegin
    cases readTag r id (some kind) <;> rfl
  rw [e]
  exact loc_bind (loc_tag id (some kind)) (g := fun _ r => .ok ((), { r with stack := ⟨kind, 0, 0⟩ :: r.stack })) fun _ =>
    loc_pure (fun _ => ()) _ (fun _ _ => rfl) (fun _ _ => rfl) fun _ => rfl

theorem loc_endOf (kind : Ty) : Loc fun r => (readEndOf r kind).map fun r => ((), r) := by
  intro x r a r' hc h
  have hs : (app x r).stack = r.stack := rfl
  simp only [readEndOf] at h ⊢
  rw [hs]
  cases hst : r.stack with
  | nil => rw [hst] at h; cases h
  | cons top tl =>
    rw [hst] at h
    cases tl with
    | nil => cases h
    | cons t2 tl =>
      simp only at h ⊢
      split at h
      · cases h
      · rename_i hk
        rw [if_neg hk]
        have := loc_bind (loc_tag (uintMax - 1) none) (g := fun _ r => .ok ((), { r with stack := r.stack.tail, nextId := 0 })) fun _ =>
          loc_pure (fun _ => ()) (fun r : R => { r with stack := r.stack.tail, nextId := 0 }) (fun _ _ => rfl) (fun _ _ => rfl) fun _ => rfl
        have e : ∀ r, (do let (_, r) ← readTag r (uintMax - 1) none; pure { r with stack := r.stack.tail, nextId := 0 } : Res R).map (fun r => ((), r)) =
            (readTag r (uintMax - 1) none).bind fun p => .ok ((), { p.2 with stack := p.2.stack.tail, nextId := 0 }) := by
          intro r; cases readTag r (uintMax - 1) none <;> rfl
        rw [e] at h ⊢
        exact this x r a r' hc h

theorem loc_end : Loc fun r => (readEnd r).map fun r => ((), r) := by
  intro x r a r' hc h
  have hs : (app x r).stack = r.stack := rfl
  simp only [readEnd] at h ⊢
  rw [hs]
  cases hst : r.stack with
  | nil => rw [hst] at h; cases h
  | cons top tl =>
    rw [hst] at h
    cases tl with
    | cons t2 tl => cases h
    | nil =>
      simp only at h ⊢
      have := loc_bind (loc_tag (uintMax - 1) none) (g := fun _ r => .ok ((), { r with stack := [] })) fun _ =>
        loc_pure (fun _ => ()) (fun r : R => { r with stack := [] }) (fun _ _ => rfl) (fun _ _ => rfl) fun _ => rfl
      have e : ∀ r, (do let (_, r) ← readTag r (uintMax - 1) none; pure { r with stack := [] } : Res R).map (fun r => ((), r)) =
          (readTag r (uintMax - 1) none).bind fun p => .ok ((), { p.2 with stack := [] }) := by
        intro r; cases readTag r (uintMax - 1) none <;> rfl
      rw [e] at h ⊢
      exact this x r a r' hc h

theorem loc_next : Loc fun r => read r .next := by
  have e : (fun r => read r .next) = fun r => if r.nextId ≠ 0 then .error .assert else
      (((readTagNext r).map fun p => (p.2, p.1)).map fun p => (.next (if p.1 then p.2.nextTy.map (p.2.nextId, ·) else Option.none), p.2)) := by
    funext r
    simp only [read, readNext]
    split
    · rfl
    · cases readTagNext r <;> rfl
  rw [e]
  exact loc_ite (fun r => r.nextId ≠ 0) (fun _ _ => Iff.rfl) (loc_err _)
    (loc_map loc_tagNext (fun ok r => Out.next (if ok then r.nextTy.map (r.nextId, ·) else Option.none)) fun _ _ _ => rfl)

theorem loc_consume : Loc fun r => (readConsume r).map fun r => ((), r) := by
  intro x r a r' hc h
  simp only [readConsume] at h ⊢
  cases h1 : readTag r 0 none with
  | error e => rw [h1] at h; cases h
  | ok p =>
    obtain ⟨i1, e1⟩ := loc_tag 0 none x r p.1 p.2 hc h1
    simp only at e1
    rw [h1] at h
    rw [e1]
    simp only [bind, Except.bind] at h ⊢
    have hty : (app x p.2).nextTy = p.2.nextTy := rfl
    rw [hty]
    cases hn : p.2.nextTy with
    | none => rw [hn] at h; cases h
    | some ty =>
      rw [hn] at h
      simp only at h ⊢
      cases h2 : readTag p.2 p.1 (some ty) with
      | error e => rw [h2] at h; cases h
      | ok q =>
        obtain ⟨i2, e2⟩ := loc_tag p.1 (some ty) x p.2 q.1 q.2 (by rw [i1]; exact hc) h2
        simp only at e2
        rw [h2] at h
        rw [e2]
        simp only at h ⊢
        obtain ⟨i3, e3⟩ := loc_consumeBuffer x q.2 a r' (by rw [i2, i1]; exact hc) h
        exact ⟨i3.trans (i2.trans i1), e3⟩

theorem loc_str (id : Nat) (d : Option Str) : Loc fun r => readStr r id d := by
  have := loc_dflt id .str getBytes loc_bytes (fun v => v.or d) _root_.id
  have e : ∀ r, ((do let (v, r) ← readField r id .str getBytes; pure (v.or d, r) : Res (Option Str × R))).map (fun a => (_root_.id a.1, a.2)) =
      readStr r id d := by
    intro r
    unfold readStr
    cases readField r id .str getBytes <;> rfl
  simpa only [e] using this

theorem loc_strLstLoop (x : Str) : ∀ (f g : Nat) (r r' : R) (ss : List (Option Str)), CapOk r.io → strLstLoop f r = .ok (ss, r') → f ≤ g →
    r'.io = r.io ∧ strLstLoop g (app x r) = .ok (ss, app x r') := by
  intro f
  induction f with
  | zero => intro g r r' ss _ h; simp [strLstLoop] at h
  | succ f ih =>
    intro g r r' ss hc h hg
    cases g with
    | zero => omega
    | succ g =>
      unfold strLstLoop at h ⊢
      cases h1 : readNull r 0 with
      | error e => rw [h1] at h; simp [bind, Except.bind] at h
      | ok p =>
        obtain ⟨i1, e1⟩ := loc_null 0 x r (p.1, p.2.1) p.2.2 hc (by beta_reduce; rw [h1]; rfl)
        beta_reduce at e1
        rw [h1] at h
        cases hx : readNull (app x r) 0 with
        | error e => rw [hx] at e1; cases e1
        | ok q =>
          rw [hx] at e1
          obtain ⟨q1, q2, q3⟩ := q
          simp only [Except.map, Except.ok.injEq, Prod.mk.injEq] at e1
          obtain ⟨⟨rfl, rfl⟩, rfl⟩ := e1
          simp only [bind, Except.bind] at h ⊢
          split at h
          · rename_i hp
            rw [if_pos hp]
            simp only [pure, Except.pure, Except.ok.injEq, Prod.mk.injEq] at h ⊢
            obtain ⟨rfl, rfl⟩ := h
            exact ⟨i1, rfl, rfl⟩
          · rename_i hp
            rw [if_neg hp]
            cases h2 : readStr p.2.2 0 none with
            | error e => rw [h2] at h; simp at h
            | ok s =>
              obtain ⟨i2, e2⟩ := loc_str 0 none x p.2.2 s.1 s.2 (by rw [i1]; exact hc) h2
              simp only at e2
              rw [h2] at h
              rw [e2]
              simp only at h ⊢
              cases h3 : strLstLoop f s.2 with
              | error e => rw [h3] at h; simp at h
              | ok t =>
                obtain ⟨i3, e3⟩ := ih g s.2 t.2 t.1 (by rw [i2, i1]; exact hc) h3 (by omega)
                rw [h3] at h
                rw [e3]
                simp only [pure, Except.pure, Except.ok.injEq, Prod.mk.injEq] at h ⊢
                obtain ⟨rfl, rfl⟩ := h
                exact ⟨i3.trans (i2.trans i1), rfl, rfl⟩

theorem loc_strLst (id : Nat) : Loc fun r => readStrLst r id := by
  intro x r a r' hc h
  simp only [readStrLst] at h ⊢
  cases h1 : readNull r id with
  | error e => rw [h1] at h; simp [bind, Except.bind] at h
  | ok p =>
    obtain ⟨i1, e1⟩ := loc_null id x r (p.1, p.2.1) p.2.2 hc (by beta_reduce; rw [h1]; rfl)
    beta_reduce at e1
    rw [h1] at h
    cases hx : readNull (app x r) id with
    | error e => rw [hx] at e1; cases e1
    | ok q =>
      rw [hx] at e1
      obtain ⟨q1, q2, q3⟩ := q
      simp only [Except.map, Except.ok.injEq, Prod.mk.injEq] at e1
      obtain ⟨⟨rfl, rfl⟩, rfl⟩ := e1
      simp only [bind, Except.bind] at h ⊢
      split at h
      · rename_i hp
        rw [if_pos hp]
        simp only [pure, Except.pure, Except.ok.injEq, Prod.mk.injEq] at h ⊢
        obtain ⟨rfl, rfl⟩ := h
        exact ⟨i1, rfl, rfl⟩
      · rename_i hp
        rw [if_neg hp]
        cases h2 : readBegin p.2.2 .array p.2.1 with
        | error e => rw [h2] at h; simp at h
        | ok r2 =>
          obtain ⟨i2, e2⟩ := loc_use (loc_begin .array p.2.1) x (by rw [i1]; exact hc) h2
          rw [h2] at h
          rw [e2]
          simp only at h ⊢
          cases h3 : strLstLoop (r2.rest.length + 1) r2 with
          | error e => rw [h3] at h; simp at h
          | ok t =>
            obtain ⟨i3, e3⟩ := loc_strLstLoop x _ ((app x r2).rest.length + 1) r2 t.2 t.1 (by rw [i2, i1]; exact hc) h3 (by simp [app])
            rw [h3] at h
            rw [e3]
            simp only at h ⊢
            cases h4 : readEndOf t.2 .array with
            | error e => rw [h4] at h; simp at h
            | ok r4 =>
              obtain ⟨i4, e4⟩ := loc_use (loc_endOf .array) x (by rw [i3, i2, i1]; exact hc) h4
              rw [h4] at h
              rw [e4]
              simp only [pure, Except.pure, Except.ok.injEq, Prod.mk.injEq] at h ⊢
              obtain ⟨rfl, rfl⟩ := h
              exact ⟨i4.trans (i3.trans (i2.trans i1)), rfl, rfl⟩

theorem loc_out {f : R → Res R} (hf : Loc fun r => (f r).map fun r => ((), r)) : Loc fun r => (f r).map fun r => (Out.none, r) := by
  have := loc_map hf (fun _ _ => Out.none) fun _ _ _ => rfl
  have e : ∀ r, ((f r).map fun r => ((), r)).map (fun p => (Out.none, p.2)) = (f r).map fun r => (Out.none, r) := by
    intro r; cases f r <;> rfl
  simpa only [e] using this

theorem loc_read (op : ROp) : Loc fun r => read r op := by
  cases op with
  | null id =>
    have := loc_map (loc_null id) (fun a _ => Out.bool a.1) fun _ _ _ => rfl
    have e : ∀ r, ((readNull r id).map fun p => ((p.1, p.2.1), p.2.2)).map (fun p => (Out.bool p.1.1, p.2)) = read r (.null id) := by
      intro r; simp only [read]; cases readNull r id <;> rfl
    simpa only [e] using this
  | next => exact loc_next
  | consume => exact loc_out loc_consume
  | bool id d => exact loc_dflt id .bool _ (loc_get (fun r => decide (r.nextValue ≠ 0)) fun _ _ => rfl) (·.getD d) Out.bool
  | i32 id d => exact loc_dflt id .i32 _ (loc_get (fun r => Varint.fromZigZag32 (UInt32.ofNat r.nextValue)) fun _ _ => rfl) (·.getD d) fun v => Out.int v.toInt
  | i64 id d => exact loc_dflt id .i64 _ (loc_get (fun r => Varint.fromZigZag64 (UInt64.ofNat r.nextValue)) fun _ _ => rfl) (·.getD d) fun v => Out.int v.toInt
  | time id d => exact loc_dflt id .time _ (loc_get (fun r => Varint.fromZigZag64 (UInt64.ofNat r.nextValue)) fun _ _ => rfl) (·.getD d) fun v => Out.int v.toInt
  | mode id d => exact loc_dflt id .mode _ (loc_get (fun r => UInt32.ofNat r.nextValue) fun _ _ => rfl) (·.getD d) fun v => Out.nat v.toNat
  | u32 id d => exact loc_dflt id .u32 _ (loc_get (fun r => UInt32.ofNat r.nextValue) fun _ _ => rfl) (·.getD d) fun v => Out.nat v.toNat
  | u64 id d => exact loc_dflt id .u64 _ (loc_get (fun r => UInt64.ofNat r.nextValue) fun _ _ => rfl) (·.getD d) fun v => Out.nat v.toNat
  | strId id d => exact loc_dflt id .strId _ (loc_get (fun r => UInt64.ofNat r.nextValue) fun _ _ => rfl) (·.getD d) fun v => Out.nat v.toNat
  | bin id => exact loc_map (loc_field id .bin _ loc_bytes) (fun a _ => Out.bytes a) fun _ _ _ => rfl
  | pack id => exact loc_map (loc_field id .pack _ (loc_take (·.nextSize) fun _ _ => rfl)) (fun a _ => Out.bytes a) fun _ _ _ => rfl
  | str id d => exact loc_map (loc_str id d) (fun a _ => Out.bytes a) fun _ _ _ => rfl
  | strLst id => exact loc_map (loc_strLst id) (fun a _ => Out.list a) fun _ _ _ => rfl
  | arrayBegin id => exact loc_out (loc_begin .array id)
  | arrayEnd => exact loc_out (loc_endOf .array)
  | objBegin id => exact loc_out (loc_begin .obj id)
  | objEnd => exact loc_out (loc_endOf .obj)
  | «end» => exact loc_out loc_end

theorem loc_reads (ops : List ROp) : Loc fun r => reads r ops := by
  induction ops with
  | nil => exact loc_const _
  | cons op ops ih =>
    have := loc_bind (loc_read op) (g := fun o r => (reads r ops).map fun p => (o :: p.1, p.2)) fun o =>
      loc_map ih (fun os _ => o :: os) fun _ _ _ => rfl
    have e : ∀ r, ((read r op).bind fun p => (reads p.2 ops).map fun q => (p.1 :: q.1, q.2)) = reads r (op :: ops) := by
      intro r
      simp only [reads]
      cases read r op with
      | error e => rfl
      | ok p =>
        simp only [bind, Except.bind]
        cases reads p.2 ops <;> rfl
    simpa only [e] using this

end Verif.Pack
