import Verif.Io.ReadModel
import Verif.Io.WriteProps

/-!
# Reading through filters: the invariant

`DSpec` and `DContract` say what is assumed of a driver.
-/

namespace Verif.Io

variable {σ δ : Type} {S : Ops σ → Spec σ}

/-! ### A group that is done stays so -/

/-- A filter without its buffer. -/
def Slot.key (s : Slot σ) : Ops σ × σ × Bool := (s.ops, s.st, s.flushing)

theorem nullOut_key (s : Slot σ) : (nullOut s).key = s.key := by
  unfold nullOut
  split
  · split <;> rfl
  · rfl

theorem pass_done (l : List (Slot σ)) : ∀ inp : Option Str, (∀ s ∈ l, s.done = true) →
    ∃ l', pass inp l = .ok (l', false, false) ∧ l'.map Slot.key = l.map Slot.key ∧
      ∀ b, outBuf l = some b → (outBuf l').getD { b with data := [] } = b := by
  induction l with
  | nil => intro inp _; exact ⟨[], rfl, rfl, by simp [outBuf]⟩
  | cons s rest ih =>
    intro inp hd
    obtain ⟨l', h1, h2, h3⟩ := ih (inputAfter (nullOut s) inp) fun t ht => hd t (by simp [ht])
    refine ⟨nullOut s :: l', ?_, ?_, ?_⟩
    · simp only [pass, hd s (by simp), if_true, h1, Bool.and_false, clearIf, Bool.false_eq_true, if_false]
    · simp [nullOut_key, h2]
    · intro b hb
      cases rest with
      | nil =>
        simp only [List.map_nil, List.map_eq_nil_iff] at h2
        subst h2
        simp only [outBuf] at hb ⊢
        unfold nullOut
        rw [hb]
        simp only
        split
        · rename_i hc
          simp only [Option.getD_none]
          cases b
          simp_all
        · rw [hb]; rfl
      | cons t rest =>
        have hne : l' ≠ [] := by
          rintro rfl
          simp at h2
        rw [outBuf_cons hne]
        exact h3 b (by simpa [outBuf] using hb)

theorem any_same_of_key {l l' : List (Slot σ)} (h : l'.map Slot.key = l.map Slot.key) : l'.any Slot.inputSame = l.any Slot.inputSame := by
  have : ∀ l : List (Slot σ), l.any Slot.inputSame = (l.map Slot.key).any fun k => same k.1 k.2.1 := by
    intro l
    rw [List.any_map]
    rfl
  rw [this, this, h]

theorem all_done_of_key {l l' : List (Slot σ)} (h : l'.map Slot.key = l.map Slot.key) : l'.all Slot.done = l.all Slot.done := by
  have : ∀ l : List (Slot σ), l.all Slot.done = (l.map Slot.key).all fun k => k.2.2 && fin k.1 k.2.1 := by
    intro l
    rw [List.all_map]
    rfl
  rw [this, this, h]

theorem process_done {E Y : Str} {cur inp : Option Str} {g : Group σ} (hg : GInv S E cur Y g) (hd : g.done = true) (b : Buf) (n : Nat) :
    ∃ g', process (n + 1) g inp b = some (.ok (g', b)) ∧ g'.done = true := by
  have hdone := hg.done
  rw [hd] at hdone
  have hdone' := hdone
  simp only [Bool.true_eq, Bool.and_eq_true, Bool.not_eq_true', List.all_eq_true] at hdone
  have hk : (setOut b g.slots).map Slot.key = g.slots.map Slot.key := setOut_map _ (fun s b => rfl) b g.slots
  have hall : ∀ s ∈ setOut b g.slots, s.done = true := by
    have := all_done_of_key hk
    rw [List.all_eq_true.2 hdone.2] at this
    exact List.all_eq_true.1 this
  obtain ⟨l', h1, h2, h3⟩ := pass_done _ inp hall
  have hsame : g.inputSame = false := by rw [hg.same]; exact hdone.1
  have h4 := h3 b (outBuf_setOut hg.ne)
  have hk' := h2.trans hk
  refine ⟨⟨l', l'.any Slot.inputSame, !l'.any Slot.inputSame && l'.all Slot.done⟩, ?_, ?_⟩
  · simp only [process, loop, hsame, Bool.false_eq_true, false_and, if_false, passFrom, h1, Bool.or_false, Bool.and_false, h4]
  · simp only [any_same_of_key hk', all_done_of_key hk']
    exact hdone'.symm

/-! ### The driver -/

/-- What a driver promises: `Has d x` says that the bytes not read yet are `x`, `left` bounds the number of reads to the end, `Thr`
are the errors that it may throw. -/
structure DSpec (δ : Type) where
  Has : δ → Str → Prop
  left : δ → Nat
  Thr : Err → Prop

/-- A driver keeps its promises. A read may return fewer bytes than there is room for, and none. -/
structure DContract (dr : Drv δ) (D : DSpec δ) : Prop where
  read : ∀ {d x room block d' w}, D.Has d x → dr.eof d = false → 0 < room → dr.read d room block = .ok (d', w) →
    w.length ≤ room ∧ D.left d' < D.left d ∧ ∃ x', x = w ++ x' ∧ D.Has d' x'
  eof : ∀ {d x}, D.Has d x → dr.eof d = true → x = []
  err : ∀ {d x room block e}, D.Has d x → dr.eof d = false → 0 < room → dr.read d room block = .error e → D.Thr e

/-- An error that a filter or the driver may throw. -/
def RThrown (S : Ops σ → Spec σ) (D : DSpec δ) : RFail → Prop
  | .group e => Thrown S e
  | .driver e => D.Thr e

/-- The invariant of a reader: the content of the driver is `X` and all output of the filters so far is `Y`. -/
structure RInv (S : Ops σ → Spec σ) (dr : Drv δ) (D : DSpec δ) (X Y : Str) (r : Reader σ δ) : Prop where
  size : 0 < r.size
  len : r.output.length ≤ r.size
  pos : r.pos ≤ r.output.length
  inv : ∃ E cur R, GInv S E cur Y r.group ∧ X = E ++ R ∧ D.Has r.drv R ∧ (r.input = none → cur = none ∧ dr.eof r.drv = true) ∧
    (∀ b, r.input = some b → cur ≠ none ∧ (r.group.inputSame = true → cur = some b))
  eof : r.eof = true → r.group.done = true ∧ dr.eof r.drv = true

/-- What was put into the internal buffer and not read from it. -/
def pending (r : Reader σ δ) : Str := r.output.drop r.pos

/-- How far a reader is from the end. -/
def rank (S : Ops σ → Spec σ) (D : DSpec δ) (r : Reader σ δ) : Nat × List (Nat × Nat) :=
  (match r.input with
    | none => 0
    | some _ => D.left r.drv + 1, mus S r.input r.group.slots)

/-- The order of ranks. -/
def RLt (a b : Nat × List (Nat × Nat)) : Prop := a.1 < b.1 ∨ a.1 = b.1 ∧ LLt a.2 b.2

theorem rlt_wf : WellFounded RLt := by
  refine ⟨fun a => ?_⟩
  obtain ⟨n, l⟩ := a
  induction n using Nat.strong_induction_on generalizing l with
  | _ n ihn =>
    induction l using llt_wf.induction with
    | _ l ihl =>
      refine ⟨_, fun y hy => ?_⟩
      obtain ⟨m, l'⟩ := y
      rcases hy with h | ⟨h1, h2⟩
      · exact ihn m h l'
      · simp only at h1
        subst h1
        exact ihl l' h2

theorem LLt.trans : ∀ {a b c : List (Nat × Nat)}, LLt a b → LLt b c → LLt a c
  | x :: a, y :: b, z :: c, h1, h2 => by
    have hlen : ∀ {a b : List (Nat × Nat)}, LLt a b → a.length = b.length := by
      intro a
      induction a with
      | nil => intro b h; cases b <;> exact h.elim
      | cons x a ih =>
        intro b h
        cases b with
        | nil => exact h.elim
        | cons y b =>
          rcases h with ⟨_, h⟩ | ⟨_, h⟩
          · simp [h]
          · simp [ih h]
    rcases h1 with ⟨h1, l1⟩ | ⟨rfl, h1⟩
    · rcases h2 with ⟨h2, l2⟩ | ⟨rfl, h2⟩
      · refine Or.inl ⟨?_, l1.trans l2⟩
        unfold PLt at *
        omega
      · exact Or.inl ⟨h1, l1.trans (hlen h2)⟩
    · rcases h2 with ⟨h2, l2⟩ | ⟨rfl, h2⟩
      · exact Or.inl ⟨h2, (hlen h1).trans l2⟩
      · exact Or.inr ⟨rfl, LLt.trans h1 h2⟩
  | [], [], _, h, _ => h.elim
  | [], _ :: _, _, h, _ => h.elim
  | _ :: _, [], _, h, _ => h.elim
  | _ :: _, _ :: _, [], _, h => h.elim

theorem RLt.trans {a b c : Nat × List (Nat × Nat)} (h1 : RLt a b) (h2 : RLt b c) : RLt a c := by
  unfold RLt at *
  rcases h1 with h1 | ⟨e1, h1⟩ <;> rcases h2 with h2 | ⟨e2, h2⟩
  · left; omega
  · left; omega
  · left; omega
  · right; exact ⟨e1.trans e2, h1.trans h2⟩

/-- When a reader says that it is at the end then all content went through the filters. -/
theorem rInv_eof {dr : Drv δ} {D : DSpec δ} (hD : DContract dr D) {X Y : Str} {r : Reader σ δ} (h : RInv S dr D X Y r) (he : r.eof = true) :
    Chain S r.group.filters X Y ∧ r.input = none := by
  obtain ⟨E, cur, R, h1, h2, h3, h4, h5⟩ := h.inv
  obtain ⟨hd, hde⟩ := h.eof he
  obtain ⟨hc, hcur⟩ := chain_done h1 hd
  have := hD.eof h3 hde
  subst this
  rw [List.append_nil] at h2
  subst h2
  refine ⟨hc, ?_⟩
  cases hi : r.input with
  | none => rfl
  | some b => exact absurd hcur (h5 b hi).1

/-- Nothing is asked for again at the end of the input: true if there is no filter with output but the last. -/
def Quiet (S : Ops σ → Spec σ) (r : Reader σ δ) : Prop :=
  ∀ E Y g, GInv S E none Y g → g.slots.map (·.ops) = r.group.slots.map (·.ops) → g.inputSame = false

/-- What stays the same. -/
def Keeps (r r' : Reader σ δ) : Prop := r'.size = r.size ∧ r'.group.slots.map (·.ops) = r.group.slots.map (·.ops)

theorem Keeps.trans {r r' r'' : Reader σ δ} (h : Keeps r r') (h' : Keeps r' r'') : Keeps r r'' := ⟨h'.1.trans h.1, h'.2.trans h.2⟩

theorem Keeps.quiet {r r' : Reader σ δ} (h : Keeps r r') (hq : Quiet S r) : Quiet S r' := by
  intro E Y g hg ho
  exact hq E Y g hg (ho.trans h.2)

/-- What `readInternal` does. -/
structure Got (S : Ops σ → Spec σ) (dr : Drv δ) (D : DSpec δ) (X Y : Str) (block : Bool) (start : Nat) (r : Reader σ δ) (b : Buf) (r' : Reader σ δ) (b' : Buf) (w : Str) : Prop where
  buf : b' = ⟨b.data ++ w, b.cap⟩
  len : (b.data ++ w).length ≤ b.cap
  inv : RInv S dr D X (Y ++ w) r'
  keeps : Keeps r r'
  out : r'.output = r.output ∧ r'.pos = r.pos
  eof : r.eof = true → w = [] ∧ r' = r
  full : block = true → b.cap ≤ b'.data.length ∨ r'.eof = true
  any : block = false → start < b'.data.length ∨ b.cap ≤ b'.data.length ∨ r'.eof = true
  lt : r.eof = false → b.data.length < b.cap → r'.eof = true ∨ RLt (rank S D r') (rank S D r)
  quiet : block = false → Quiet S r → r.eof = false → r'.eof = true → b'.data.length ≤ start
  stay : b.cap ≤ b.data.length → r' = r

/-- The end of the calls, and what they may throw. -/
def Ends {α : Type} (S : Ops σ → Spec σ) (D : DSpec δ) (f : Nat → Option (Except RFail α)) (P : α → Prop) : Prop :=
  ∃ res N, (∀ p, N ≤ p → f p = some res) ∧ (∀ e, res = .error e → RThrown S D e) ∧ ∀ a, res = .ok a → P a

theorem readInternal_spec {dr : Drv δ} {D : DSpec δ} (hD : DContract dr D) (block : Bool) (start : Nat) (X : Str) (m : Nat × List (Nat × Nat)) :
    ∀ (Y : Str) (r : Reader σ δ) (b : Buf), rank S D r = m → RInv S dr D X Y r → b.data.length ≤ b.cap →
      (r.group.done = true → r.input = none → b.data.length ≤ start) →
      ∃ res N, (∀ p k, N ≤ p → N ≤ k → readInternal dr p block start k r b = some res) ∧ (∀ e, res = .error e → RThrown S D e) ∧
        ∀ r' b', res = .ok (r', b') → ∃ w, Got S dr D X Y block start r b r' b' w := by
  induction m using rlt_wf.induction with
  | _ m ih =>
    intro Y r b hm hr hb hfirst
    by_cases h0 : r.eof = true ∨ b.room = 0
    · refine ⟨.ok (r, b), 1, ?_, by simp, ?_⟩
      · intro p k _ hk
        obtain ⟨k, rfl⟩ : ∃ j, k = j + 1 := ⟨k - 1, by omega⟩
        simp only [readInternal, if_pos h0]
      · intro r' b' h
        simp only [Except.ok.injEq, Prod.mk.injEq] at h
        obtain ⟨rfl, rfl⟩ := h
        rw [room_zero] at h0
        refine ⟨[], by simp, by simpa using hb, by simpa using hr, ⟨rfl, rfl⟩, ⟨rfl, rfl⟩, fun _ => ⟨rfl, rfl⟩, fun _ => h0.symm,
          fun _ => Or.inr h0.symm, ?_, ?_, ?_⟩
        · intro h1 h2
          rcases h0 with h | h
          · exact Or.inl h
          · omega
        · intro _ _ h1 h2
          rw [h1] at h2
          cases h2
        · exact fun _ => rfl
    · have h0' := h0
      rw [not_or, room_zero, not_le, Bool.not_eq_true] at h0'
      obtain ⟨he, hroom⟩ := h0'
      -- the loop goes on
      have next : ∀ (r1 : Reader σ δ) (b1 : Buf) (w1 : Str) (N1 : Nat),
          (∀ p k, N1 ≤ p → readInternal dr p block start (k + 1) r b = readInternal dr p block start k r1 b1) →
          RInv S dr D X (Y ++ w1) r1 → Keeps r r1 → (r1.output = r.output ∧ r1.pos = r.pos) → b1 = ⟨b.data ++ w1, b.cap⟩ →
          (b.data ++ w1).length ≤ b.cap → (r1.eof = true ∨ RLt (rank S D r1) m) →
          (r1.eof = true → block = false → Quiet S r → b1.data.length ≤ start) → r1.eof = (dr.eof r1.drv && r1.group.done) →
          ∃ res N, (∀ p k, N ≤ p → N ≤ k → readInternal dr p block start k r b = some res) ∧ (∀ e, res = .error e → RThrown S D e) ∧
            ∀ r' b', res = .ok (r', b') → ∃ w, Got S dr D X Y block start r b r' b' w := by
        intro r1 b1 w1 N1 hstep hi hk ho hb1 hl1 hlt hq hse
        subst hb1
        by_cases he1 : r1.eof = true
        · refine ⟨.ok (r1, ⟨b.data ++ w1, b.cap⟩), N1 + 2, ?_, by simp, ?_⟩
          · intro p k hp hk
            obtain ⟨k, rfl⟩ : ∃ j, k = j + 2 := ⟨k - 2, by omega⟩
            rw [hstep p (k + 1) (by omega)]
            simp only [readInternal, if_pos (Or.inl he1 : r1.eof = true ∨ (⟨b.data ++ w1, b.cap⟩ : Buf).room = 0)]
          · intro r' b' h
            simp only [Except.ok.injEq, Prod.mk.injEq] at h
            obtain ⟨rfl, rfl⟩ := h
            exact ⟨w1, rfl, hl1, hi, hk, ho, fun h => (by rw [he] at h; cases h), fun _ => Or.inr he1, fun _ => Or.inr (Or.inr he1),
              fun _ _ => Or.inl he1, fun h1 h2 _ _ => hq he1 h1 h2, fun h => absurd hroom (by omega)⟩
        · have hlt := hlt.resolve_left he1
          obtain ⟨res, N, k1, k2, k3⟩ := ih _ hlt (Y ++ w1) r1 ⟨b.data ++ w1, b.cap⟩ rfl hi hl1 (by
            intro hd hi0
            obtain ⟨_, _, _, _, _, _, hn, _⟩ := hi.inv
            rw [hse, hd, (hn hi0).2] at he1
            exact absurd rfl he1)
          refine ⟨res, max N N1 + 1, ?_, k2, ?_⟩
          · intro p k hp hk
            obtain ⟨k, rfl⟩ : ∃ j, k = j + 1 := ⟨k - 1, by omega⟩
            rw [hstep p k (by omega)]
            exact k1 p k (by omega) (by omega)
          · intro r' b' h
            obtain ⟨w, g⟩ := k3 r' b' h
            rw [Bool.not_eq_true] at he1
            refine ⟨w1 ++ w, by simpa using g.buf, by simpa using g.len, by simpa using g.inv, hk.trans g.keeps, ⟨g.out.1.trans ho.1, g.out.2.trans ho.2⟩,
              fun h => (by rw [he] at h; cases h), g.full, g.any, ?_, ?_, fun h => absurd hroom (by omega)⟩
            · intro _ _
              rw [hm]
              by_cases hf : (b.data ++ w1).length < b.cap
              · rcases g.lt he1 hf with h | h
                · exact Or.inl h
                · exact Or.inr (h.trans hlt)
              · -- the buffer is full, nothing more happened
                have hz : (⟨b.data ++ w1, b.cap⟩ : Buf).room = 0 := by rw [room_zero]; simpa using hf
                have := k1 N (N + 1) le_rfl (by omega)
                simp only [readInternal, if_pos (Or.inr hz : r1.eof = true ∨ (⟨b.data ++ w1, b.cap⟩ : Buf).room = 0), Option.some.injEq] at this
                rw [h] at this
                simp only [Except.ok.injEq, Prod.mk.injEq] at this
                rw [← this.1]
                exact Or.inr hlt
            · intro h1 h2 _ h4
              exact g.quiet h1 (hk.quiet h2) he1 h4
      -- the loop ends
      have stop : ∀ (r1 : Reader σ δ) (b1 : Buf) (w1 : Str) (N1 : Nat),
          (∀ p k, N1 ≤ p → readInternal dr p block start (k + 1) r b = some (.ok (r1, b1))) →
          RInv S dr D X (Y ++ w1) r1 → Keeps r r1 → (r1.output = r.output ∧ r1.pos = r.pos) → b1 = ⟨b.data ++ w1, b.cap⟩ →
          (b.data ++ w1).length ≤ b.cap → RLt (rank S D r1) m → block = false → start < b1.data.length → r1.eof = false →
          ∃ res N, (∀ p k, N ≤ p → N ≤ k → readInternal dr p block start k r b = some res) ∧ (∀ e, res = .error e → RThrown S D e) ∧
            ∀ r' b', res = .ok (r', b') → ∃ w, Got S dr D X Y block start r b r' b' w := by
        intro r1 b1 w1 N1 hstep hi hk ho hb1 hl1 hlt hbl hst he1
        subst hb1
        refine ⟨.ok (r1, ⟨b.data ++ w1, b.cap⟩), N1 + 1, ?_, by simp, ?_⟩
        · intro p k hp hk
          obtain ⟨k, rfl⟩ : ∃ j, k = j + 1 := ⟨k - 1, by omega⟩
          exact hstep p k (by omega)
        · intro r' b' h
          simp only [Except.ok.injEq, Prod.mk.injEq] at h
          obtain ⟨rfl, rfl⟩ := h
          exact ⟨w1, rfl, hl1, hi, hk, ho, fun h => (by rw [he] at h; cases h), fun h => (by rw [hbl] at h; cases h), fun _ => Or.inl hst,
            fun _ _ => Or.inr (hm ▸ hlt), fun _ _ _ h => (by rw [he1] at h; cases h), fun h => absurd hroom (by omega)⟩
      -- an error
      have fail : ∀ (e : RFail) (N1 : Nat), (∀ p k, N1 ≤ p → readInternal dr p block start (k + 1) r b = some (.error e)) → RThrown S D e →
          ∃ res N, (∀ p k, N ≤ p → N ≤ k → readInternal dr p block start k r b = some res) ∧ (∀ e, res = .error e → RThrown S D e) ∧
            ∀ r' b', res = .ok (r', b') → ∃ w, Got S dr D X Y block start r b r' b' w := by
        intro e N1 hstep ht
        refine ⟨.error e, N1 + 1, ?_, ?_, by simp⟩
        · intro p k hp hk
          obtain ⟨k, rfl⟩ : ∃ j, k = j + 1 := ⟨k - 1, by omega⟩
          exact hstep p k (by omega)
        · intro e' he'
          simp only [Except.error.injEq] at he'
          exact he' ▸ ht
      obtain ⟨E, cur, R, hg, hX, hH, hn, hs⟩ := hr.inv
      by_cases hsame : r.group.inputSame = true
      · -- the same input
        have hcur : r.input = cur := by
          cases hi : r.input with
          | none => exact (hn hi).1.symm
          | some c => exact ((hs c hi).2 hsame).symm
        obtain ⟨pr, ⟨n, hn1⟩, h1, h2⟩ := process_spec hg hroom (Or.inl ⟨hsame, hcur⟩)
        cases pr with
        | error e =>
          refine fail (.group e) n ?_ (h1 e rfl)
          intro p k hp
          simp only [readInternal, if_neg h0, hsame, if_true, hn1 p hp]
        | ok gb =>
          obtain ⟨g, b1⟩ := gb
          obtain ⟨w, hb1, hlen, hg', hfull, hlt, hops⟩ := h2 g b1 rfl
          rw [if_pos hsame] at hg'
          have hndone : r.group.done ≠ true := by
            intro h
            have := hg.done
            rw [h, ← hg.same, hsame] at this
            simp at this
          refine next (setEof dr { r with group := g }) b1 w n ?_ ?_ ⟨rfl, hops⟩ ⟨rfl, rfl⟩ hb1 hlen ?_ ?_ rfl
          · intro p k hp
            simp only [readInternal, if_neg h0, hsame, if_true, hn1 p hp]
          · refine ⟨hr.size, hr.len, hr.pos, ⟨E, r.input, R, hg', hX, hH, ?_, ?_⟩, ?_⟩
            · intro hi
              exact ⟨hi, (hn hi).2⟩
            · intro c hi
              refine ⟨by simp only [setEof] at hi; rw [hi]; simp, fun _ => hi⟩
            · intro h
              simp only [setEof, Bool.and_eq_true] at h
              exact ⟨h.2, h.1⟩
          · right
            rw [← hm]
            exact Or.inr ⟨rfl, (hlt (Or.inr hsame)).resolve_left hndone⟩
          · intro h1 _ hq
            simp only [setEof, Bool.and_eq_true] at h1
            have hni := (chain_done hg' h1.2).2
            have := hq E Y r.group (by rw [hcur] at hni; rw [← hni]; exact hg) rfl
            rw [hsame] at this
            cases this
      · -- new input
        rw [Bool.not_eq_true] at hsame
        -- what to do with the input
        have go : ∀ (inp : Option Str) (d : δ) (R' : Str), fetch dr r b.room block = .ok (inp, d) → X = E ++ inp.getD [] ++ R' → D.Has d R' →
            (inp = none → dr.eof d = true) → (inp ≠ none → cur ≠ none) →
            (inp = none ∧ r.input = none ∨ RLt (rank S D { r with input := inp, drv := d }) m) →
            ((∃ c, inp = some c ∧ D.left d < D.left r.drv ∧ r.input ≠ none) ∨ (inp = none)) →
            ∃ res N, (∀ p k, N ≤ p → N ≤ k → readInternal dr p block start k r b = some res) ∧ (∀ e, res = .error e → RThrown S D e) ∧
              ∀ r' b', res = .ok (r', b') → ∃ w, Got S dr D X Y block start r b r' b' w := by
          intro inp d R' hf hX' hH' hne hnc hrk hcase
          by_cases hemp : inp = some []
          · subst hemp
            have hrk : RLt (rank S D { r with input := some [], drv := d }) m := hrk.resolve_left (by simp)
            have hX'' : X = E ++ R' := by simpa using hX'
            have hinv : ∀ e : Bool, (e = true → r.group.done = true ∧ dr.eof d = true) →
                RInv S dr D X (Y ++ []) { r with input := some [], drv := d, eof := e } := by
              intro e he
              refine ⟨hr.size, hr.len, hr.pos, ⟨E, cur, R', by simpa using hg, hX'', hH', by simp, ?_⟩, he⟩
              intro c _
              exact ⟨hnc (by simp), fun h => by simp only at h; rw [hsame] at h; cases h⟩
            by_cases hbr : block = false ∧ start < b.data.length
            · refine stop { r with input := some [], drv := d } b [] 0 ?_ ?_ ⟨rfl, rfl⟩ ⟨rfl, rfl⟩ (by simp) (by simpa using hb) hrk hbr.1 hbr.2 he
              · intro p k _
                simp only [readInternal, if_neg h0, hsame, Bool.false_eq_true, if_false, hf, if_true, if_pos hbr]
              · exact hinv r.eof (fun h => by rw [he] at h; cases h)
            · refine next (setEof dr { r with input := some [], drv := d }) b [] 0 ?_ ?_ ⟨rfl, rfl⟩ ⟨rfl, rfl⟩ (by simp) (by simpa using hb) (Or.inr hrk) ?_ rfl
              · intro p k _
                simp only [readInternal, if_neg h0, hsame, Bool.false_eq_true, if_false, hf, if_true, if_neg hbr]
              · exact hinv _ (fun h => by
                  simp only [Bool.and_eq_true] at h
                  exact ⟨h.2, h.1⟩)
              · intro _ h1 _
                rw [not_and] at hbr
                have := hbr h1
                omega
          · obtain ⟨pr, ⟨n, hn1⟩, h1, h2⟩ := process_spec hg hroom (inp := inp) (Or.inr ⟨hsame, hemp, by
              by_cases h : inp = none
              · exact Or.inl h
              · exact Or.inr (hnc h)⟩)
            cases pr with
            | error e =>
              refine fail (.group e) n ?_ (h1 e rfl)
              intro p k hp
              simp only [readInternal, if_neg h0, hsame, Bool.false_eq_true, if_false, hf, if_neg hemp, hn1 p hp]
            | ok gb =>
              obtain ⟨g, b1⟩ := gb
              obtain ⟨w, hb1, hlen, hg', hfull, hlt, hops⟩ := h2 g b1 rfl
              rw [hsame] at hg'
              simp only [Bool.false_eq_true, if_false] at hg'
              have hinv : ∀ e : Bool, (e = true → g.done = true ∧ dr.eof d = true) →
                  RInv S dr D X (Y ++ w) { r with group := g, input := inp, drv := d, eof := e } := by
                intro e he
                refine ⟨hr.size, hr.len, hr.pos, ⟨E ++ inp.getD [], inp, R', hg', hX', hH', fun h => ⟨h, hne h⟩, ?_⟩, he⟩
                intro c hc
                simp only at hc
                exact ⟨by rw [hc]; simp, fun _ => hc⟩
              -- the rank goes down or the group was done
              have hdec : r.group.done = true ∧ inp = none ∨ RLt (rank S D { r with group := g, input := inp, drv := d }) m := by
                rcases hcase with ⟨c, hc, hl, hrn⟩ | hc
                · right
                  rw [← hm]
                  left
                  simp only [rank, hc]
                  cases hri : r.input with
                  | none => exact absurd hri hrn
                  | some _ => simp only; omega
                · subst hc
                  cases hri : r.input with
                  | none =>
                    rcases hlt (Or.inl rfl) with h | h
                    · exact Or.inl ⟨h, rfl⟩
                    · right
                      rw [← hm]
                      right
                      simp only [rank, hri]
                      exact ⟨trivial, h⟩
                  | some c =>
                    right
                    rw [← hm]
                    left
                    simp only [rank, hri]
                    omega
              -- a group that is done adds nothing
              have hdn : r.group.done = true → g.done = true ∧ w = [] := by
                intro hd
                obtain ⟨g'', k1, k2⟩ := process_done hg hd (inp := inp) b n
                have := hn1 (n + 1) (by omega)
                rw [k1] at this
                simp only [Option.some.injEq, Except.ok.injEq, Prod.mk.injEq] at this
                obtain ⟨rfl, rfl⟩ := this
                refine ⟨k2, ?_⟩
                have := congrArg Buf.data hb1
                simpa using this
              by_cases hbr : block = false ∧ start < b1.data.length
              · by_cases hdd : r.group.done = true
                · obtain ⟨_, rfl⟩ := hdn hdd
                  rw [hb1] at hbr
                  simp only [List.append_nil] at hbr
                  have := hfirst hdd (by
                    cases hi : r.input with
                    | none => rfl
                    | some c => exact absurd (chain_done hg hdd).2 (hs c hi).1)
                  omega
                · refine stop { r with group := g, input := inp, drv := d } b1 w n ?_ (hinv r.eof (fun h => by rw [he] at h; cases h)) ⟨rfl, hops⟩ ⟨rfl, rfl⟩ hb1 hlen ?_ hbr.1 hbr.2 he
                  · intro p k hp
                    simp only [readInternal, if_neg h0, hsame, Bool.false_eq_true, if_false, hf, if_neg hemp, hn1 p hp, if_pos hbr]
                  · exact hdec.resolve_left fun h => hdd h.1
              · refine next (setEof dr { r with group := g, input := inp, drv := d }) b1 w n ?_ ?_ ⟨rfl, hops⟩ ⟨rfl, rfl⟩ hb1 hlen ?_ ?_ rfl
                · intro p k hp
                  simp only [readInternal, if_neg h0, hsame, Bool.false_eq_true, if_false, hf, if_neg hemp, hn1 p hp, if_neg hbr]
                · exact hinv _ (fun h => by
                    simp only [Bool.and_eq_true] at h
                    exact ⟨h.2, h.1⟩)
                · rcases hdec with ⟨h1, h2⟩ | h
                  · left
                    simp only [setEof, Bool.and_eq_true]
                    exact ⟨hne h2, (hdn h1).1⟩
                  · exact Or.inr h
                · intro _ h1 _
                  rw [not_and] at hbr
                  have := hbr h1
                  omega
        cases hi : r.input with
        | none =>
          refine go none r.drv R (by simp [fetch, hi]) (by simpa using hX) hH (fun _ => (hn hi).2) (by simp) (Or.inl ⟨rfl, hi⟩) (Or.inr rfl)
        | some c =>
          by_cases hde : dr.eof r.drv = true
          · refine go none r.drv R (by simp [fetch, hi, hde]) (by simpa using hX) hH (fun _ => hde) (by simp) (Or.inr ?_) (Or.inr rfl)
            rw [← hm]
            left
            simp [rank, hi]
          · rw [Bool.not_eq_true] at hde
            have hrp : 0 < (if dr.block = true ∧ b.room < r.size then b.room else r.size) := by
              split
              · unfold Buf.room; omega
              · exact hr.size
            cases hrd : dr.read r.drv (if dr.block = true ∧ b.room < r.size then b.room else r.size) block with
            | error e =>
              refine fail (.driver e) 0 ?_ (hD.err hH hde hrp hrd)
              intro p k _
              simp only [readInternal, if_neg h0, hsame, Bool.false_eq_true, if_false, fetch, hi, hde, hrd]
            | ok dw =>
              obtain ⟨d, w⟩ := dw
              obtain ⟨k1, k2, x', k3, k4⟩ := hD.read hH hde hrp hrd
              refine go (some w) d x' ?_ ?_ k4 (by simp) (fun _ => (hs c hi).1) (Or.inr ?_) (Or.inl ⟨w, rfl, k2, by simp [hi]⟩)
              · simp [fetch, hi, hde, hrd]
              · simp [hX, k3]
              · rw [← hm]
                left
                simp only [rank, hi]
                omega

end Verif.Io
