import Verif.Io.GroupPass
import Mathlib.Order.WellFounded

/-!
# Filter groups: the loop over passes
-/

namespace Verif.Io

variable {σ : Type} {S : Ops σ → Spec σ}

theorem plt_wf : WellFounded PLt :=
  Subrelation.wf (r := Prod.Lex (· < ·) (· < ·))
    (fun {a b} h => by
      rcases h with h | ⟨h1, h2⟩
      · exact Prod.Lex.left (a₁ := a.1) (a₂ := b.1) a.2 b.2 h
      · obtain ⟨a1, a2⟩ := a
        obtain ⟨b1, b2⟩ := b
        simp only at h1 h2
        subst h1
        exact Prod.Lex.right a1 h2)
    (WellFounded.prod_lex Nat.lt_wfRel.wf Nat.lt_wfRel.wf)

theorem llt_len {l l' : List (Nat × Nat)} (h : LLt l l') : l.length = l'.length := by
  induction l generalizing l' with
  | nil => exact h.elim
  | cons a l ih =>
    cases l' with
    | nil => exact h.elim
    | cons b l' =>
      rcases h with ⟨_, h⟩ | ⟨_, h⟩
      · simp [h]
      · simp [ih h]

theorem llt_acc (n : Nat) : ∀ l : List (Nat × Nat), l.length = n → Acc LLt l := by
  induction n with
  | zero =>
    intro l hl
    rw [List.length_eq_zero_iff] at hl
    subst hl
    refine ⟨_, fun l' h => ?_⟩
    cases l' <;> exact h.elim
  | succ n ih =>
    have key : ∀ b, Acc PLt b → ∀ l, Acc LLt l → l.length = n → Acc LLt (b :: l) := by
      intro b hb
      induction hb with
      | intro b _ ihb =>
        intro l hl
        induction hl with
        | intro l _ ihl =>
          intro hlen
          refine ⟨_, fun l' h => ?_⟩
          cases l' with
          | nil => exact h.elim
          | cons a l' =>
            rcases h with ⟨h1, h2⟩ | ⟨h1, h2⟩
            · exact ihb a h1 l' (ih l' (h2.trans hlen)) (h2.trans hlen)
            · subst h1
              exact ihl l' h2 ((llt_len h2).trans hlen)
    intro l hl
    cases l with
    | nil => simp at hl
    | cons b l =>
      simp only [List.length_cons, Nat.add_right_cancel_iff] at hl
      exact key b (plt_wf.apply b) l (ih l hl) hl

theorem llt_wf : WellFounded LLt := ⟨fun l => llt_acc l.length l rfl⟩

theorem plt_trans {a b c : Nat × Nat} (h1 : PLt a b) (h2 : PLt b c) : PLt a c := by
  unfold PLt at *
  omega

theorem llt_trans {a b c : List (Nat × Nat)} (h1 : LLt a b) (h2 : LLt b c) : LLt a c := by
  induction a generalizing b c with
  | nil => exact h1.elim
  | cons x a ih =>
    cases b with
    | nil => exact h1.elim
    | cons y b =>
      cases c with
      | nil => exact h2.elim
      | cons z c =>
        rcases h1 with ⟨p, q⟩ | ⟨p, q⟩
        · rcases h2 with ⟨p', q'⟩ | ⟨p', q'⟩
          · exact Or.inl ⟨plt_trans p p', q.trans q'⟩
          · subst p'
            exact Or.inl ⟨p, q.trans (llt_len q')⟩
        · subst p
          rcases h2 with ⟨p', q'⟩ | ⟨p', q'⟩
          · exact Or.inl ⟨p', (llt_len q).trans q'⟩
          · exact Or.inr ⟨p', ih q q'⟩

theorem adds_trans {l l1 l2 : List (Slot σ)} {w1 w2 : Str} (h1 : Adds l l1 w1) (h2 : Adds l1 l2 w2) : Adds l l2 (w1 ++ w2) := by
  unfold Adds at *
  cases h : outBuf l with
  | none =>
    rw [h] at h1
    obtain ⟨e1, rfl⟩ := h1
    rw [e1] at h2
    obtain ⟨e2, rfl⟩ := h2
    exact ⟨e2, rfl⟩
  | some b =>
    rw [h] at h1
    rcases h1 with ⟨e1, e2⟩ | ⟨e1, e2, rfl⟩
    · rw [e1] at h2
      rcases h2 with ⟨e3, e4⟩ | ⟨e3, e4, rfl⟩
      · left
        simp only [List.append_assoc] at e3 e4
        exact ⟨e3, e4⟩
      · right
        simp only [List.append_eq_nil_iff] at e4
        exact ⟨e3, e4.1, by simp [e4.2]⟩
    · rw [e1] at h2
      obtain ⟨e3, rfl⟩ := h2
      exact Or.inr ⟨e3, e2, rfl⟩

theorem contract_of_ops {l l' : List (Slot σ)} (hC : ∀ s ∈ l, Contract s.ops (S s.ops)) (ho : l'.map (·.ops) = l.map (·.ops)) :
    ∀ s ∈ l', Contract s.ops (S s.ops) := by
  intro s hs
  have : s.ops ∈ l'.map (·.ops) := List.mem_map_of_mem hs
  rw [ho, List.mem_map] at this
  obtain ⟨t, ht, he⟩ := this
  rw [← he]
  exact hC t ht

theorem lastSame_none {l : List (Slot σ)} (h : lastSame l = none) : NoSame l := by
  induction l with
  | nil => intro s hs; simp at hs
  | cons s rest ih =>
    unfold lastSame at h
    cases hl : lastSame rest with
    | some k => rw [hl] at h; simp at h
    | none =>
      rw [hl] at h
      simp only [ite_eq_right_iff, reduceCtorEq, imp_false, Bool.not_eq_true] at h
      intro t ht
      simp only [List.mem_cons] at ht
      rcases ht with rfl | ht
      · exact h
      · exact ih hl t ht

theorem lastSame_of_noSame {l : List (Slot σ)} (h : NoSame l) : lastSame l = none := by
  induction l with
  | nil => rfl
  | cons s rest ih =>
    have := h s (by simp)
    simp [lastSame, ih fun t ht => h t (by simp [ht]), this]

/-- What a pass from the last filter that needs the same input does. -/
def BusyPost (S : Ops σ → Spec σ) (E : Str) (inp : Option Str) (k : Nat) (l : List (Slot σ)) (Y : Str) : Prop :=
  (∀ e, passFrom k inp l = .error e → Thrown S e) ∧
  ∀ l' c f, passFrom k inp l = .ok (l', c, f) → ∃ w, Inv S E inp l' (Y ++ w) ∧ Adds l l' w ∧
    l'.map (·.ops) = l.map (·.ops) ∧ LLt (mus S inp l') (mus S inp l) ∧
    (c = true → headSame l = true ∧ headSame l' = false) ∧ (c = false → headSame l' = headSame l ∨ inp = none)

theorem ne_of_ops {l l' : List (Slot σ)} (h : l ≠ []) (ho : l'.map (·.ops) = l.map (·.ops)) : l' ≠ [] := by
  intro h'
  have := len_of_ops ho
  rw [h'] at this
  exact h (List.length_eq_zero_iff.1 this.symm)

/-- The filter that needs the same input is the first. -/
theorem pass_busy {s : Slot σ} {rest : List (Slot σ)} (hC : ∀ t ∈ s :: rest, Contract t.ops (S t.ops)) {E Y : Str}
    {inp : Option Str} (hI : Inv S E inp (s :: rest) Y) (hs : s.inputSame = true) (hns : NoSame rest) (hroom : Room (s :: rest)) :
    BusyPost S E inp 0 (s :: rest) Y := by
  have hCs := hC s (by simp)
  have ho : s.ops.out = true := by
    by_contra h
    rw [Bool.not_eq_true] at h
    simp [Slot.inputSame, same_false_of_in hCs h] at hs
  have hkd : ∀ {y}, KOut (S s.ops) s E inp y → inp ≠ some [] ∧ s.done = false := by
    intro y hk
    unfold KOut at hk
    by_cases hf : s.flushing = true
    · rw [if_pos hf] at hk
      refine ⟨by rw [hk.1]; simp, ?_⟩
      by_contra hd
      rw [Bool.not_eq_false] at hd
      simp only [Slot.done, Bool.and_eq_true] at hd
      rw [if_pos hd.2, hs] at hk
      exact absurd hk.2.1 (by simp)
    · rw [if_neg hf, if_pos hs] at hk
      obtain ⟨b, hb, hne, _⟩ := hk
      refine ⟨by rw [hb]; simpa using hne, by simp [Slot.done, hf]⟩
  unfold BusyPost
  simp only [passFrom, pass, ho, if_true]
  by_cases hrest : rest = []
  · subst hrest
    obtain ⟨_, hk, hnone⟩ := hI
    obtain ⟨hne, hd⟩ := hkd hk
    simp only [hd, Bool.false_eq_true, if_false]
    obtain ⟨b, hb⟩ : ∃ b, s.output = some b := by
      cases hb : s.output with
      | none => rw [hnone hb] at hd; cases hd
      | some b => exact ⟨b, rfl⟩
    have hr := hroom b (by simpa [outBuf] using hb)
    obtain ⟨e1, e2⟩ := out_call hCs ho hk hne hd hb hr
    cases hp : processInOut s inp with
    | error e =>
      simp only [Except.error.injEq, forall_eq', reduceCtorEq, false_implies, implies_true, and_true]
      exact e1 e hp
    | ok s1 =>
      obtain ⟨a1, w, a2, a3, a4, a5, a6⟩ := e2 s1 hp
      rw [if_pos hs] at a4
      simp only
      by_cases hst : stops s1 = true
      · rw [if_pos hst]
        refine ⟨by simp, ?_⟩
        intro l' c f hp
        simp only [Except.ok.injEq, Prod.mk.injEq] at hp
        obtain ⟨rfl, rfl, rfl⟩ := hp
        refine ⟨w, ⟨by rw [a1]; exact ho, a4, by simp [a2]⟩, ?_, by simp [a1], Or.inl ⟨a6 (Or.inl hs), rfl⟩, ?_, ?_⟩
        · unfold Adds
          simp only [outBuf, hb, a2]
          exact Or.inl ⟨trivial, a3⟩
        · intro h
          simp [headSame, a1, ho, hs] at h ⊢
          exact h
        · intro h
          simp [headSame, a1, ho, hs] at h ⊢
          exact Or.inl h
      · rw [if_neg hst]
        have hpn : ∀ i : Option Str, pass i ([] : List (Slot σ)) = .ok ([], false, false) := fun i => rfl
        rw [hpn]
        simp only
        refine ⟨by simp, ?_⟩
        intro l' c f hp
        simp only [Except.ok.injEq, Prod.mk.injEq] at hp
        obtain ⟨rfl, rfl, rfl⟩ := hp
        refine ⟨w, ⟨by simpa [a1] using ho, ?_, ?_⟩, ?_, by simp [a1], Or.inl ⟨by simpa using a6 (Or.inl hs), rfl⟩, ?_, ?_⟩
        · simpa using kOut_congr (s' := clearIf (nullOut s1) false) (by simp) (by simp) (by simp) a4
        · intro hn
          simp only [clearIf_done, nullOut_done]
          by_contra hdn
          simp [clearIf, nullOut, a2, hdn] at hn
        · unfold Adds
          simp only [outBuf, hb, clearIf, Bool.false_eq_true, if_false]
          by_cases he : s1.done = true ∧ b.data ++ w = []
          · right
            refine ⟨?_, (List.append_eq_nil_iff.1 he.2).1, (List.append_eq_nil_iff.1 he.2).2⟩
            unfold nullOut
            simp only [a2]
            rw [if_pos he]
          · left
            refine ⟨?_, a3⟩
            unfold nullOut
            simp only [a2]
            rw [if_neg he, a2]
        · intro h
          simp [headSame, a1, ho, hs] at h ⊢
          exact h
        · intro h
          simp [headSame, a1, ho, hs] at h ⊢
          exact Or.inl h
  · have hroomr := room_cons hrest hroom
    have hhs := headSame_of_noSame hns
    rw [inv_out_iff ho hrest] at hI
    obtain ⟨E', hk, hbuf, hIr⟩ := hI
    obtain ⟨hne, hd⟩ := hkd hk
    rw [hhs] at hk hbuf
    simp only [Bool.false_eq_true, if_false] at hk
    simp only [hd, Bool.false_eq_true, if_false]
    obtain ⟨b, hb⟩ : ∃ b, s.output = some b := by
      cases hb : s.output with
      | none =>
        simp only [BufOk, hb] at hbuf
        rw [hbuf] at hd; cases hd
      | some b => exact ⟨b, rfl⟩
    simp only [BufOk, hb, hd, Bool.false_eq_true, if_false, false_implies, true_and, forall_const] at hbuf
    have hheld : held s = some b.data := by simp [held, hb]
    rw [hheld] at hk hIr
    obtain ⟨e1, e2⟩ := out_call hCs ho hk hne hd hb hbuf.2.2
    cases hp : processInOut s inp with
    | error e =>
      simp only [Except.error.injEq, forall_eq', reduceCtorEq, false_implies, implies_true, and_true]
      exact e1 e hp
    | ok s1 =>
      obtain ⟨a1, w, a2, a3, a4, a5, a6⟩ := e2 s1 hp
      rw [if_pos hs] at a4
      simp only [Option.getD_some] at a4
      rw [List.append_assoc] at a4
      have ho1 : s1.ops.out = true := by rw [a1]; exact ho
      obtain ⟨t1, t2⟩ := after_out hrest ho1 a4 a2 a3 hbuf.2.1 hIr hns hroomr
        (fun inp' h1 h2 => pass_fresh rest (fun t ht => hC t (by simp [ht])) E' inp' Y h2 hns hroomr h1)
      simp only
      by_cases hst : stops s1 = true
      · rw [if_pos hst]
        refine ⟨by simp, ?_⟩
        intro l' c f hp
        simp only [Except.ok.injEq, Prod.mk.injEq] at hp
        obtain ⟨rfl, rfl, rfl⟩ := hp
        refine ⟨[], by simpa using t1 hst, adds_cons hrest hrest (adds_refl fun b hb => Nat.le_of_lt (hroomr b hb)), by simp [a1],
          Or.inl ⟨a6 (Or.inl hs), by simp⟩, ?_, ?_⟩
        · intro h
          simp [headSame, a1, ho, hs] at h ⊢
          exact h
        · intro h
          simp [headSame, a1, ho, hs] at h ⊢
          exact Or.inl h
      · rw [if_neg hst]
        obtain ⟨g1, g2⟩ := t2 (by simpa using hst)
        cases hq : pass (inputAfter (nullOut s1) inp) rest with
        | error e =>
          simp only [Except.error.injEq, forall_eq', reduceCtorEq, false_implies, implies_true, and_true]
          exact g1 e hq
        | ok r =>
          obtain ⟨l', c, f⟩ := r
          obtain ⟨w', i1, i2, i3, i4⟩ := g2 l' c f hq
          simp only
          refine ⟨by simp, ?_⟩
          intro l'' c' f' hq
          simp only [Except.ok.injEq, Prod.mk.injEq] at hq
          obtain ⟨rfl, rfl, rfl⟩ := hq
          refine ⟨w', i1, adds_cons hrest (ne_of_ops hrest i3) i2, by simp [a1, i3],
            Or.inl ⟨by simpa using a6 (Or.inl hs), by simpa using len_of_ops i3⟩, ?_, ?_⟩
          · intro h
            simp [headSame, a1, ho, hs] at h ⊢
            exact h
          · intro h
            simp [headSame, a1, ho, hs] at h ⊢
            exact Or.inl h

theorem passFrom_busy (l : List (Slot σ)) (hC : ∀ s ∈ l, Contract s.ops (S s.ops)) : ∀ (k : Nat) (E : Str) (inp : Option Str) (Y : Str),
    lastSame l = some k → Inv S E inp l Y → Room l → BusyPost S E inp k l Y := by
  induction l with
  | nil => intro k E inp Y h; simp [lastSame] at h
  | cons s rest ih =>
    intro k E inp Y hk hI hroom
    unfold lastSame at hk
    cases hl : lastSame rest with
    | none =>
      rw [hl] at hk
      by_cases hs : s.inputSame = true
      · simp only [hs, if_true, Option.some.injEq] at hk
        subst hk
        exact pass_busy hC hI hs (lastSame_none hl) hroom
      · simp [hs] at hk
    | some j =>
      rw [hl] at hk
      simp only [Option.some.injEq] at hk
      subst hk
      have hrest : rest ≠ [] := by
        rintro rfl
        simp [lastSame] at hl
      have hroomr := room_cons hrest hroom
      have ih := ih (fun t ht => hC t (by simp [ht]))
      unfold BusyPost
      simp only [passFrom]
      by_cases ho : s.ops.out = true
      · rw [inv_out_iff ho hrest] at hI
        obtain ⟨E', hk, hbuf, hIr⟩ := hI
        have hin : inputAfter s inp = held s := by simp [inputAfter, ho, held]
        rw [hin]
        obtain ⟨g1, g2⟩ := ih j E' (held s) Y hl hIr hroomr
        cases hp : passFrom j (held s) rest with
        | error e =>
          simp only [Except.error.injEq, forall_eq', reduceCtorEq, false_implies, implies_true, and_true]
          exact g1 e hp
        | ok r =>
          obtain ⟨l', c, f⟩ := r
          obtain ⟨w, i1, i2, i3, i4, i5, i6⟩ := g2 l' c f hp
          simp only
          refine ⟨by simp, ?_⟩
          intro l'' c' f' hq
          simp only [Except.ok.injEq, Prod.mk.injEq, ho, Bool.true_and, Bool.not_true, Bool.false_and] at hq
          obtain ⟨rfl, rfl, rfl⟩ := hq
          have hl' := inv_ne i1
          have hm : LLt (mus S (if (clearIf s c).ops.out = true then held (clearIf s c) else inp) l')
              (mus S (if s.ops.out = true then held s else inp) rest) := by
            rw [if_pos (by simpa using ho), if_pos ho]
            cases hc : c
            · exact i4
            · rw [mus_cur (contract_of_ops (fun t ht => hC t (by simp [ht])) i3) _ (held s) (i5 hc).2]
              exact i4
          refine ⟨w, ?_, adds_cons hrest hl' i2, by simp [i3], Or.inr ⟨by simp, hm⟩, by simp, ?_⟩
          · rw [inv_out_iff (by simpa using ho) hl']
            cases hb : s.output with
            | none =>
              have he : clearIf s c = s := by
                unfold clearIf
                split
                · cases s
                  simp only at hb
                  simp [hb]
                · rfl
              rw [he]
              have hh : held s = none := by simp [held, hb]
              rw [hh] at hk i1 ⊢
              refine ⟨E', by simpa using hk, ?_, i1⟩
              simp only [BufOk, hb] at hbuf ⊢
              exact hbuf
            | some b =>
              have hh : held s = some b.data := by simp [held, hb]
              rw [hh] at hk i1 i6
              simp only [BufOk, hb] at hbuf
              cases hc : c
              · have hc' : headSame l' = headSame rest := by
                  rcases i6 hc with h | h
                  · exact h
                  · simp at h
                have he : clearIf s false = s := rfl
                rw [he, hc', hh]
                refine ⟨E', hk, ?_, i1⟩
                simp only [BufOk, hb]
                exact hbuf
              · obtain ⟨j1, j2⟩ := i5 hc
                have ho' : (clearIf s true).output = some ⟨[], b.cap⟩ := by simp [clearIf, hb]
                refine ⟨E', ?_, ?_, ?_⟩
                · rw [j1] at hk
                  rw [j2, held, ho']
                  simpa using kOut_congr (s' := clearIf s true) (by simp) (by simp) (by simp) hk
                · simp only [BufOk, ho', j2]
                  refine ⟨by simp, hbuf.2.1, by simp, fun _ => ?_⟩
                  split
                  · trivial
                  · exact hbuf.2.1
                · rw [held, ho']
                  exact inv_cur (c := some b.data) j2 (Or.inr (by simp)) i1
          · intro _
            left
            simp [headSame, ho]
      · rw [Bool.not_eq_true] at ho
        rw [inv_in_iff ho hrest] at hI
        obtain ⟨hk, hIr⟩ := hI
        have hin : inputAfter s inp = inp := by simp [inputAfter, ho]
        rw [hin]
        obtain ⟨g1, g2⟩ := ih j E inp Y hl hIr hroomr
        cases hp : passFrom j inp rest with
        | error e =>
          simp only [Except.error.injEq, forall_eq', reduceCtorEq, false_implies, implies_true, and_true]
          exact g1 e hp
        | ok r =>
          obtain ⟨l', c, f⟩ := r
          obtain ⟨w, i1, i2, i3, i4, i5, i6⟩ := g2 l' c f hp
          simp only
          refine ⟨by simp, ?_⟩
          intro l'' c' f' hq
          simp only [Except.ok.injEq, Prod.mk.injEq, ho, Bool.false_and, Bool.not_false, Bool.true_and] at hq
          obtain ⟨rfl, rfl, rfl⟩ := hq
          have hl' := inv_ne i1
          have he : clearIf s false = s := rfl
          rw [he]
          refine ⟨w, ?_, adds_cons hrest hl' i2, by simp [i3], Or.inr ⟨rfl, by simpa [ho] using i4⟩, ?_, ?_⟩
          · rw [inv_in_iff ho hl']
            exact ⟨hk, i1⟩
          · simpa [headSame, ho] using i5
          · simpa [headSame, ho] using i6

theorem room_of_not_full {l : List (Slot σ)} (h : outFull l = false) : Room l := by
  intro b hb
  simpa [outFull, hb, Buf.full] using h

/-- What the loop does when it starts with the same input. -/
def LoopPost (S : Ops σ → Spec σ) (E : Str) (inp : Option Str) (l : List (Slot σ)) (Y : Str) (r : Except Fail (List (Slot σ))) : Prop :=
  (∀ e, r = .error e → Thrown S e) ∧
  ∀ l', r = .ok l' → ∃ w, Inv S E inp l' (Y ++ w) ∧ Adds l l' w ∧ l'.map (·.ops) = l.map (·.ops) ∧
    (NoSame l' ∨ outFull l' = true) ∧ (NoSame l ∨ LLt (mus S inp l') (mus S inp l))

theorem loop_busy (S : Ops σ → Spec σ) (E : Str) (inp : Option Str) (m : List (Nat × Nat)) : ∀ (l : List (Slot σ)) (Y : Str),
    mus S inp l = m → (∀ s ∈ l, Contract s.ops (S s.ops)) → Inv S E inp l Y → Room l →
    ∃ r, (∃ n, ∀ k, n ≤ k → loop inp k true l = some r) ∧ LoopPost S E inp l Y r := by
  induction m using llt_wf.induction with
  | _ m ih =>
    intro l Y hm hC hI hroom
    cases hls : lastSame l with
    | none =>
      refine ⟨.ok l, ⟨1, ?_⟩, by simp, ?_⟩
      · intro k hk
        obtain ⟨k, rfl⟩ : ∃ j, k = j + 1 := ⟨k - 1, by omega⟩
        simp [loop, hls]
      · intro l' h
        simp only [Except.ok.injEq] at h
        subst h
        exact ⟨[], by simpa using hI, adds_refl fun b hb => Nat.le_of_lt (hroom b hb), rfl, Or.inl (lastSame_none hls),
          Or.inl (lastSame_none hls)⟩
    | some j =>
      obtain ⟨g1, g2⟩ := passFrom_busy l hC j E inp Y hls hI hroom
      cases hp : passFrom j inp l with
      | error e =>
        refine ⟨.error e, ⟨1, ?_⟩, ?_, by simp⟩
        · intro k hk
          obtain ⟨k, rfl⟩ : ∃ j, k = j + 1 := ⟨k - 1, by omega⟩
          simp [loop, hls, hp]
        · intro e' he
          simp only [Except.error.injEq] at he
          subst he
          exact g1 _ hp
      | ok r =>
        obtain ⟨l1, c, f⟩ := r
        obtain ⟨w, i1, i2, i3, i4, _, _⟩ := g2 l1 c f hp
        by_cases hfull : outFull l1 = true
        · refine ⟨.ok l1, ⟨1, ?_⟩, by simp, ?_⟩
          · intro k hk
            obtain ⟨k, rfl⟩ : ∃ j, k = j + 1 := ⟨k - 1, by omega⟩
            simp [loop, hls, hp, hfull]
          · intro l' h
            simp only [Except.ok.injEq] at h
            subst h
            exact ⟨w, i1, i2, i3, Or.inr hfull, Or.inr i4⟩
        · rw [Bool.not_eq_true] at hfull
          obtain ⟨r, ⟨n, hn⟩, h1, h2⟩ := ih (mus S inp l1) (hm ▸ i4) l1 (Y ++ w) rfl (contract_of_ops hC i3) i1 (room_of_not_full hfull)
          refine ⟨r, ⟨n + 1, ?_⟩, h1, ?_⟩
          · intro k hk
            obtain ⟨k, rfl⟩ : ∃ j, k = j + 1 := ⟨k - 1, by omega⟩
            simp [loop, hls, hp, hfull]
            exact hn k (by omega)
          · intro l' h
            obtain ⟨w', j1, j2, j3, j4, j5⟩ := h2 l' h
            refine ⟨w ++ w', by rw [← List.append_assoc]; exact j1, adds_trans i2 j2, j3.trans i3, j4, Or.inr ?_⟩
            rcases j5 with h5 | h5
            · -- nothing was to be done in the last turn
              have hl1 := lastSame_of_noSame h5
              have := hn (n + 1) (by omega)
              simp only [loop, hl1, and_self, if_true, Option.some.injEq] at this
              rw [h, Except.ok.injEq] at this
              rw [← this]
              exact i4
            · exact llt_trans h5 i4

/-- What the loop does when it starts with new input or the end of the input. -/
theorem loop_fresh (S : Ops σ → Spec σ) {E Y : Str} {inp : Option Str} {l : List (Slot σ)}
    (hC : ∀ s ∈ l, Contract s.ops (S s.ops)) (hI : Inv S E inp l Y) (hroom : Room l) (hns : NoSame l) (hne : inp ≠ some []) :
    ∃ r, (∃ n, ∀ k, n ≤ k → loop inp k false l = some r) ∧
      (∀ e, r = .error e → Thrown S e) ∧
      ∀ l', r = .ok l' → ∃ w, Inv S (E ++ inp.getD []) inp l' (Y ++ w) ∧ Adds l l' w ∧ l'.map (·.ops) = l.map (·.ops) ∧
        (NoSame l' ∨ outFull l' = true) ∧ (inp = none → (∀ s ∈ l, s.done = true) ∨ LLt (mus S inp l') (mus S inp l)) := by
  obtain ⟨g1, g2⟩ := pass_fresh l hC E inp Y hI hns hroom hne
  cases hp : pass inp l with
  | error e =>
    refine ⟨.error e, ⟨1, ?_⟩, ?_, by simp⟩
    · intro k hk
      obtain ⟨k, rfl⟩ : ∃ j, k = j + 1 := ⟨k - 1, by omega⟩
      simp [loop, passFrom, hp]
    · intro e' he
      simp only [Except.error.injEq] at he
      subst he
      exact g1 _ hp
  | ok r =>
    obtain ⟨l1, c, f⟩ := r
    obtain ⟨w, i1, i2, i3, _, i5, i6⟩ := g2 l1 c f hp
    by_cases hcont : (!outFull l1 && f) = true
    · simp only [Bool.and_eq_true, Bool.not_eq_true'] at hcont
      obtain ⟨r, ⟨n, hn⟩, h1, h2⟩ := loop_busy S _ inp _ l1 (Y ++ w) rfl (contract_of_ops hC i3) i1 (room_of_not_full hcont.1)
      refine ⟨r, ⟨n + 1, ?_⟩, h1, ?_⟩
      · intro k hk
        obtain ⟨k, rfl⟩ : ∃ j, k = j + 1 := ⟨k - 1, by omega⟩
        simp [loop, passFrom, hp, hcont.1, hcont.2]
        exact hn k (by omega)
      · intro l' h
        obtain ⟨w', j1, j2, j3, j4, j5⟩ := h2 l' h
        refine ⟨w ++ w', by rw [← List.append_assoc]; exact j1, adds_trans i2 j2, j3.trans i3, j4, fun hnone => ?_⟩
        rcases i6 hnone with h6 | h6
        · exact Or.inl h6
        · right
          rcases j5 with h5 | h5
          · have hl1 := lastSame_of_noSame h5
            have := hn (n + 1) (by omega)
            simp only [loop, hl1, and_self, if_true, Option.some.injEq] at this
            rw [h, Except.ok.injEq] at this
            rw [← this]
            exact h6
          · exact llt_trans h5 h6
    · refine ⟨.ok l1, ⟨1, ?_⟩, by simp, ?_⟩
      · intro k hk
        obtain ⟨k, rfl⟩ : ∃ j, k = j + 1 := ⟨k - 1, by omega⟩
        have hc : (outFull l1 = false → f = false) := by
          intro h
          simpa [h] using hcont
        simp [loop, passFrom, hp]
        intro h1 h2
        rw [hc h1] at h2
        cases h2
      · intro l' h
        simp only [Except.ok.injEq] at h
        subst h
        refine ⟨w, i1, i2, i3, ?_, i6⟩
        by_cases hfull : outFull l1 = true
        · exact Or.inr hfull
        · left
          apply i5
          simpa [hfull] using hcont

theorem outBuf_setOut {b : Buf} {l : List (Slot σ)} (h : l ≠ []) : outBuf (setOut b l) = some b := by
  induction l with
  | nil => exact absurd rfl h
  | cons s rest ih =>
    cases rest with
    | nil => rfl
    | cons t rest =>
      simp only [setOut]
      rw [outBuf_cons]
      · exact ih (by simp)
      · cases rest <;> simp [setOut]

theorem setOut_ne {b : Buf} {l : List (Slot σ)} (h : l ≠ []) : setOut b l ≠ [] := by
  cases l with
  | nil => exact absurd rfl h
  | cons s rest => cases rest <;> simp [setOut]

theorem setOut_map {α : Type} (f : Slot σ → α) (hf : ∀ s b, f { s with output := b } = f s) (b : Buf) (l : List (Slot σ)) :
    (setOut b l).map f = l.map f := by
  induction l with
  | nil => rfl
  | cons s rest ih =>
    cases rest with
    | nil => simp [setOut, hf]
    | cons t rest => simpa [setOut] using ih

theorem headSame_setOut (b : Buf) (l : List (Slot σ)) : headSame (setOut b l) = headSame l := by
  induction l with
  | nil => rfl
  | cons s rest ih =>
    cases rest with
    | nil => rfl
    | cons t rest =>
      simp only [setOut, headSame] at ih ⊢
      rw [ih]

theorem inv_setOut (b : Buf) (l : List (Slot σ)) : ∀ (E : Str) (cur : Option Str) (Y : Str), Inv S E cur l Y →
    Inv S E cur (setOut b l) Y := by
  induction l with
  | nil => intro E cur Y h; exact h
  | cons s rest ih =>
    intro E cur Y h
    cases rest with
    | nil =>
      obtain ⟨h1, h2, h3⟩ := h
      exact ⟨h1, kOut_congr rfl rfl rfl h2, by simp⟩
    | cons t rest =>
      have hne : setOut b (t :: rest) ≠ [] := setOut_ne (by simp)
      simp only [setOut]
      by_cases ho : s.ops.out = true
      · rw [inv_out_iff ho (by simp)] at h
        rw [inv_out_iff ho hne, headSame_setOut]
        obtain ⟨E', h1, h2, h3⟩ := h
        exact ⟨E', h1, h2, ih _ _ _ h3⟩
      · rw [Bool.not_eq_true] at ho
        rw [inv_in_iff ho (by simp)] at h
        rw [inv_in_iff ho hne]
        exact ⟨h.1, ih _ _ _ h.2⟩

theorem mus_setOut (b : Buf) (l : List (Slot σ)) (c : Option Str) : mus S c (setOut b l) = mus S c l := by
  induction l generalizing c with
  | nil => rfl
  | cons s rest ih =>
    cases rest with
    | nil => rfl
    | cons t rest =>
      simp only [setOut, mus] at ih ⊢
      rw [ih]

theorem noSame_setOut {b : Buf} {l : List (Slot σ)} : NoSame (setOut b l) ↔ NoSame l := by
  have : ∀ l : List (Slot σ), NoSame l ↔ ∀ x ∈ l.map Slot.inputSame, x = false := by
    intro l
    simp [NoSame]
  rw [this, this, setOut_map _ fun s b => rfl]

theorem noSame_iff {l : List (Slot σ)} : NoSame l ↔ l.any Slot.inputSame = false := by
  simp [NoSame]

/-- The state of a group: `E` is all the input, `cur` the last input or `none` after its end, `Y` is all the output. -/
structure GInv (S : Ops σ → Spec σ) (E : Str) (cur : Option Str) (Y : Str) (g : Group σ) : Prop where
  con : ∀ s ∈ g.slots, Contract s.ops (S s.ops)
  ne : g.slots ≠ []
  inv : ∀ b, Inv S E cur (setOut b g.slots) Y
  same : g.inputSame = g.slots.any Slot.inputSame
  done : g.done = (!g.slots.any Slot.inputSame && g.slots.all Slot.done)

/-- What a call of `process` does to the buffer of the caller. -/
theorem process_ok {g : Group σ} {inp : Option Str} {b b' : Buf} {g' : Group σ} {n : Nat}
    (h : process n g inp b = some (.ok (g', b'))) :
    ∃ l, loop inp n g.inputSame (setOut b g.slots) = some (.ok l) ∧ g' = ⟨l, l.any Slot.inputSame, !l.any Slot.inputSame && l.all Slot.done⟩ ∧
      b' = (outBuf l).getD { b with data := [] } := by
  unfold process at h
  split at h
  · simp at h
  · simp at h
  · rename_i l hl
    simp only [Option.some.injEq, Except.ok.injEq, Prod.mk.injEq] at h
    exact ⟨l, hl, h.1.symm, h.2.symm⟩

theorem adds_buf {b : Buf} {l l' : List (Slot σ)} {w : Str} (hne : l ≠ []) (hb : b.data.length < b.cap) (h : Adds (setOut b l) l' w) :
    (outBuf l').getD { b with data := [] } = ⟨b.data ++ w, b.cap⟩ ∧ (b.data ++ w).length ≤ b.cap ∧
      outFull l' = ((outBuf l').getD { b with data := [] }).full := by
  unfold Adds at h
  rw [outBuf_setOut hne] at h
  rcases h with ⟨h1, h2⟩ | ⟨h1, h2, rfl⟩
  · simp [h1, outFull]
    simpa using h2
  · simp [h1, h2, outFull, Buf.full]
    omega

/-- A call of `ioFilterGroupProcess`. -/
theorem process_spec {E Y : Str} {cur inp : Option Str} {g : Group σ} {b : Buf} (hg : GInv S E cur Y g) (hb : b.data.length < b.cap)
    (hin : (g.inputSame = true ∧ inp = cur) ∨ (g.inputSame = false ∧ inp ≠ some [] ∧ (inp = none ∨ cur ≠ none))) :
    ∃ r, (∃ n, ∀ k, n ≤ k → process k g inp b = some r) ∧ (∀ e, r = .error e → Thrown S e) ∧
      ∀ g' b', r = .ok (g', b') → ∃ w, b' = ⟨b.data ++ w, b.cap⟩ ∧ (b.data ++ w).length ≤ b.cap ∧
        GInv S (if g.inputSame then E else E ++ inp.getD []) inp (Y ++ w) g' ∧ (g'.inputSame = true → b'.full = true) ∧
        (inp = none ∨ g.inputSame = true → g.done = true ∨ LLt (mus S inp g'.slots) (mus S inp g.slots)) ∧
        g'.slots.map (·.ops) = g.slots.map (·.ops) := by
  have hC : ∀ s ∈ setOut b g.slots, Contract s.ops (S s.ops) :=
    contract_of_ops hg.con (setOut_map (·.ops) (fun s b => rfl) b g.slots)
  have hroom : Room (setOut b g.slots) := by
    intro b' h
    rw [outBuf_setOut hg.ne] at h
    simp only [Option.some.injEq] at h
    rw [← h]; exact hb
  have hmu : mus S inp (setOut b g.slots) = mus S inp g.slots := mus_setOut b g.slots inp
  have hops : (setOut b g.slots).map (·.ops) = g.slots.map (·.ops) := setOut_map _ (fun s b => rfl) b g.slots
  have hfin : ∀ (E' : Str) (l : List (Slot σ)) (w : Str), Inv S E' inp l (Y ++ w) → Adds (setOut b g.slots) l w →
      l.map (·.ops) = (setOut b g.slots).map (·.ops) → (NoSame l ∨ outFull l = true) →
      (outBuf l).getD { b with data := [] } = ⟨b.data ++ w, b.cap⟩ ∧ (b.data ++ w).length ≤ b.cap ∧
      GInv S E' inp (Y ++ w) ⟨l, l.any Slot.inputSame, !l.any Slot.inputSame && l.all Slot.done⟩ ∧
      (l.any Slot.inputSame = true → ((outBuf l).getD { b with data := [] }).full = true) := by
    intro E' l w h1 h2 h3 h4
    obtain ⟨a1, a2, a3⟩ := adds_buf hg.ne hb h2
    refine ⟨a1, a2, ⟨contract_of_ops hC h3, inv_ne h1, fun b => inv_setOut b l _ _ _ h1, rfl, rfl⟩, fun h => ?_⟩
    rcases h4 with h4 | h4
    · rw [noSame_iff] at h4
      rw [h4] at h
      cases h
    · rw [← a3]; exact h4
  rcases hin with ⟨hs, rfl⟩ | ⟨hs, hne, hc⟩
  · obtain ⟨r, ⟨n, hn⟩, h1, h2⟩ := loop_busy S E inp _ (setOut b g.slots) Y rfl hC (hg.inv b) hroom
    cases r with
    | error e =>
      refine ⟨.error e, ⟨n, fun k hk => ?_⟩, fun e' he => ?_, by simp⟩
      · simp [process, hs, hn k hk]
      · simp only [Except.error.injEq] at he
        subst he
        exact h1 _ rfl
    | ok l =>
      obtain ⟨w, j1, j2, j3, j4, j5⟩ := h2 l rfl
      refine ⟨_, ⟨n, fun k hk => by simp only [process, hs, hn k hk]; rfl⟩, by simp, ?_⟩
      intro g' b' h
      simp only [Except.ok.injEq, Prod.mk.injEq] at h
      obtain ⟨rfl, rfl⟩ := h
      obtain ⟨k1, k2, k3, k4⟩ := hfin E l w j1 j2 j3 j4
      refine ⟨w, k1, k2, by rw [if_pos hs]; exact k3, k4, fun _ => Or.inr ?_, j3.trans hops⟩
      rcases j5 with h5 | h5
      · rw [noSame_setOut, noSame_iff, ← hg.same, hs] at h5
        cases h5
      · rw [hmu] at h5
        exact h5
  · have hns : NoSame (setOut b g.slots) := by
      rw [noSame_setOut, noSame_iff, ← hg.same, hs]
    have hI : Inv S E inp (setOut b g.slots) Y := inv_cur (headSame_of_noSame hns) hc (hg.inv b)
    obtain ⟨r, ⟨n, hn⟩, h1, h2⟩ := loop_fresh S hC hI hroom hns hne
    cases r with
    | error e =>
      refine ⟨.error e, ⟨n, fun k hk => ?_⟩, fun e' he => ?_, by simp⟩
      · simp [process, hs, hn k hk]
      · simp only [Except.error.injEq] at he
        subst he
        exact h1 _ rfl
    | ok l =>
      obtain ⟨w, j1, j2, j3, j4, j5⟩ := h2 l rfl
      refine ⟨_, ⟨n, fun k hk => by simp only [process, hs, hn k hk]; rfl⟩, by simp, ?_⟩
      intro g' b' h
      simp only [Except.ok.injEq, Prod.mk.injEq] at h
      obtain ⟨rfl, rfl⟩ := h
      obtain ⟨k1, k2, k3, k4⟩ := hfin _ l w j1 j2 j3 j4
      refine ⟨w, k1, k2, by simpa [hs] using k3, k4, fun hn => ?_, j3.trans hops⟩
      rcases j5 (hn.resolve_right (by simp [hs])) with h5 | h5
      · left
        rw [hg.done]
        have e1 : g.slots.any Slot.inputSame = false := by rw [← hg.same]; exact hs
        have e2 : g.slots.map Slot.done = (setOut b g.slots).map Slot.done := (setOut_map _ (fun s b => rfl) b g.slots).symm
        have e3 : ∀ l : List (Slot σ), l.all Slot.done = (l.map Slot.done).all id := by
          intro l
          simp [List.all_map]
        rw [e1, e3, e2, ← e3]
        simpa [List.all_eq_true] using h5
      · right
        rw [hmu] at h5
        exact h5

end Verif.Io
