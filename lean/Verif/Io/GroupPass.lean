import Verif.Io.GroupInv

/-!
# Filter groups: a pass over the filters
-/

namespace Verif.Io

variable {σ : Type} {S : Ops σ → Spec σ}

theorem kOut_congr {P : Spec σ} {s s' : Slot σ} {x y : Str} {c : Option Str} (h1 : s'.ops = s.ops) (h2 : s'.st = s.st)
    (h3 : s'.flushing = s.flushing) (h : KOut P s x c y) : KOut P s' x c y := by
  obtain ⟨o, st, f, b⟩ := s
  obtain ⟨o', st', f', b'⟩ := s'
  subst h1 h2 h3
  exact h

theorem done_congr {s s' : Slot σ} (h1 : s'.ops = s.ops) (h2 : s'.st = s.st) (h3 : s'.flushing = s.flushing) :
    s'.done = s.done := by
  simp [Slot.done, h1, h2, h3]

theorem mu_congr {c : Option Str} {s s' : Slot σ} (h1 : s'.ops = s.ops) (h2 : s'.st = s.st) (h3 : s'.flushing = s.flushing) :
    mu S c s' = mu S c s := by
  obtain ⟨o, st, f, b⟩ := s
  obtain ⟨o', st', f', b'⟩ := s'
  subst h1 h2 h3
  rfl

theorem out_call {s : Slot σ} {E y : Str} {inp : Option Str} {b : Buf} (hC : Contract s.ops (S s.ops)) (ho : s.ops.out = true)
    (hk : KOut (S s.ops) s E inp y) (hne : inp ≠ some []) (hd : s.done = false) (hb : s.output = some b)
    (hr : b.data.length < b.cap) :
    (∀ e, processInOut s inp = .error e → Thrown S e) ∧
    ∀ s1, processInOut s inp = .ok s1 → s1.ops = s.ops ∧ ∃ w, s1.output = some ⟨b.data ++ w, b.cap⟩ ∧
      (b.data ++ w).length ≤ b.cap ∧ KOut (S s1.ops) s1 (if s.inputSame then E else E ++ inp.getD []) inp (y ++ w) ∧
      (s1.inputSame = true → b.data ++ w ≠ []) ∧
      (s.inputSame = true ∨ inp = none → PLt (mu S inp s1) (mu S inp s)) := by
  have hroom : 0 < b.room := by unfold Buf.room; omega
  have hnil : ∀ w : Str, 0 < b.data.length + w.length → b.data ++ w ≠ [] := by
    intro w h h'
    have := congrArg List.length h'
    simp at this
    simp [this] at h
  have hcap : ∀ w : Str, w.length ≤ b.room → (b.data ++ w).length ≤ b.cap := by
    intro w h
    unfold Buf.room at h
    rw [List.length_append]
    omega
  unfold processInOut
  rw [hb]
  cases inp with
  | none =>
    simp only [Option.getD_none, List.append_nil, ite_self]
    unfold callInOut
    by_cases hfin : fin s.ops s.st = true
    · -- done as soon as it is flushing
      have hnf : s.flushing = false := by
        by_contra h
        simp [Slot.done, hfin] at hd
        exact h (by simp [hd])
      unfold KOut at hk
      rw [hnf] at hk
      simp only [Bool.false_eq_true, if_false] at hk
      have hsame : s.inputSame = false := by
        cases hs : s.inputSame
        · rfl
        · rw [hs] at hk
          simp at hk
      rw [hsame] at hk
      simp only [Bool.false_eq_true, if_false] at hk
      obtain ⟨f1, f2⟩ := hC.final (Or.inl hk) hfin
      have hd1 : ({ s with flushing := true, output := some b } : Slot σ).done = true := by simp [Slot.done, hfin]
      rw [if_pos hd1, if_neg (by simp [Slot.inputSame, f1])]
      refine ⟨by simp, ?_⟩
      intro s1 h1
      rw [Except.ok.injEq] at h1
      subst h1
      refine ⟨rfl, [], by simp [hb], by simp; omega, ?_, ?_, ?_⟩
      · simp [KOut, hfin, Slot.inputSame, f1, f2]
      · intro h
        simp [Slot.inputSame, f1] at h
      · intro _
        left
        simp only [mu, hd1, hd, hnf]
        simp
    · rw [Bool.not_eq_true] at hfin
      have hd1 : ({ s with flushing := true, output := some b } : Slot σ).done = false := by simp [Slot.done, hfin]
      rw [hd1]
      simp only [Bool.false_eq_true, if_false]
      -- the state before
      have hpre : (S s.ops).Ready s.st E y ∨ (S s.ops).Flush s.st E y := by
        unfold KOut at hk
        by_cases hf : s.flushing = true
        · simp only [hf, if_true, hfin, Bool.false_eq_true, if_false] at hk
          exact Or.inr hk.2
        · rw [if_neg hf] at hk
          by_cases hs : s.inputSame = true
          · simp [hs] at hk
          · rw [if_neg hs] at hk
            exact Or.inl hk
      cases hcall : s.ops.inOut s.st none b.data.length b.room with
      | error e =>
        simp only [Except.error.injEq, forall_eq', reduceCtorEq, false_implies, implies_true, and_true]
        exact ⟨e, s.ops, rfl, hC.flushErr ho hpre hfin hroom hcall⟩
      | ok r =>
        obtain ⟨st, w⟩ := r
        obtain ⟨c1, c2, c3, c4⟩ := hC.flush ho hpre hfin hroom hcall
        simp only
        rw [if_neg (by intro ⟨h1, h2⟩; exact hnil w (c3 h1) h2)]
        refine ⟨by simp, ?_⟩
        intro s1 h1
        rw [Except.ok.injEq] at h1
        subst h1
        refine ⟨rfl, w, rfl, hcap w c1, ?_, ?_, ?_⟩
        · simp only [KOut, if_true, true_and]
          split
          · rename_i hf
            exact hC.final (Or.inr c2) hf
          · exact c2
        · intro h
          exact hnil w (c3 h)
        · intro _
          by_cases hf1 : fin s.ops st = true
          · left
            simp only [mu, Slot.done, hf1, hfin]
            simp only [Bool.and_self, if_true, Bool.and_false, Bool.false_eq_true, if_false]
            split <;> simp
          · rw [Bool.not_eq_true] at hf1
            by_cases hf : s.flushing = true
            · right
              have hfl : (S s.ops).Flush s.st E y := by
                unfold KOut at hk
                simp only [hf, if_true, hfin, Bool.false_eq_true, if_false] at hk
                exact hk.2
              simp [mu, Slot.done, hf1, hfin, hf, c4 hfl hf1]
            · left
              simp [mu, Slot.done, hf1, hfin, hf]
  | some c =>
    have hc : c ≠ [] := fun h => hne (by rw [h])
    have hnf : s.flushing = false := by
      cases hf : s.flushing
      · rfl
      · simp [KOut, hf] at hk
    simp only [Option.getD_some]
    rw [if_neg (by simp [hc, hnf])]
    unfold callInOut
    rw [hd]
    simp only [Bool.false_eq_true, if_false]
    unfold KOut at hk
    rw [hnf] at hk
    simp only [Bool.false_eq_true, if_false] at hk
    cases hcall : s.ops.inOut s.st (some c) b.data.length b.room with
    | error e =>
      simp only [Except.error.injEq, forall_eq', reduceCtorEq, false_implies, implies_true, and_true]
      by_cases hs : s.inputSame = true
      · rw [if_pos hs] at hk
        obtain ⟨c', e', _, hk⟩ := hk
        rw [Option.some.injEq] at e'
        subst e'
        exact ⟨e, s.ops, rfl, hC.againErr ho hk hroom hcall⟩
      · rw [if_neg hs] at hk
        exact ⟨e, s.ops, rfl, hC.newErr ho hk hc hroom hcall⟩
    | ok r =>
      obtain ⟨st, w⟩ := r
      simp only
      by_cases hs : s.inputSame = true
      · rw [if_pos hs] at hk
        obtain ⟨c', e, _, hk⟩ := hk
        rw [Option.some.injEq] at e
        subst e
        obtain ⟨c1, c2, c3⟩ := hC.again ho hk hroom hcall
        rw [if_neg (by intro ⟨h1, h2⟩; exact hnil w (c2 h1).1 h2)]
        refine ⟨by simp, ?_⟩
        intro s1 h1
        rw [Except.ok.injEq] at h1
        subst h1
        refine ⟨rfl, w, rfl, hcap w c1, ?_, ?_, ?_⟩
        · rw [if_pos hs]
          simp only [KOut, hnf, Bool.false_eq_true, if_false]
          split
          · rename_i h
            exact ⟨c, rfl, hc, (c2 h).2.1⟩
          · rename_i h
            exact c3 (by simpa [Slot.inputSame] using h)
        · intro h
          exact hnil w (c2 h).1
        · intro _
          right
          have : mu S (some c) s = (2, (S s.ops).todo s.st c + 1) := by simp [mu, hd, hnf, hs]
          rw [this]
          simp only [mu, Slot.done, hnf, Bool.false_and, Bool.false_eq_true, if_false, true_and, Option.getD_some]
          split
          · rename_i h
            have := (c2 h).2.2
            omega
          · omega
      · rw [if_neg hs] at hk
        obtain ⟨c1, c2, c3⟩ := hC.new ho hk hc hroom hcall
        rw [if_neg (by intro ⟨h1, h2⟩; exact hnil w (c2 h1).1 h2)]
        refine ⟨by simp, ?_⟩
        intro s1 h1
        rw [Except.ok.injEq] at h1
        subst h1
        refine ⟨rfl, w, rfl, hcap w c1, ?_, ?_, ?_⟩
        · rw [if_neg hs]
          simp only [KOut, hnf, Bool.false_eq_true, if_false]
          split
          · rename_i h
            exact ⟨c, rfl, hc, (c2 h).2⟩
          · rename_i h
            exact c3 (by simpa [Slot.inputSame] using h)
        · intro h
          exact hnil w (c2 h).1
        · intro h
          simp [hs] at h

@[simp] theorem nullOut_ops (s : Slot σ) : (nullOut s).ops = s.ops := by unfold nullOut; split <;> [split; skip] <;> rfl
@[simp] theorem nullOut_st (s : Slot σ) : (nullOut s).st = s.st := by unfold nullOut; split <;> [split; skip] <;> rfl
@[simp] theorem nullOut_flushing (s : Slot σ) : (nullOut s).flushing = s.flushing := by
  unfold nullOut; split <;> [split; skip] <;> rfl
@[simp] theorem clearIf_ops (s : Slot σ) (c : Bool) : (clearIf s c).ops = s.ops := by unfold clearIf; split <;> rfl
@[simp] theorem clearIf_st (s : Slot σ) (c : Bool) : (clearIf s c).st = s.st := by unfold clearIf; split <;> rfl
@[simp] theorem clearIf_flushing (s : Slot σ) (c : Bool) : (clearIf s c).flushing = s.flushing := by unfold clearIf; split <;> rfl
@[simp] theorem nullOut_done (s : Slot σ) : (nullOut s).done = s.done := done_congr (by simp) (by simp) (by simp)
@[simp] theorem clearIf_done (s : Slot σ) (c : Bool) : (clearIf s c).done = s.done := done_congr (by simp) (by simp) (by simp)
@[simp] theorem nullOut_same (s : Slot σ) : (nullOut s).inputSame = s.inputSame := by simp [Slot.inputSame]
@[simp] theorem clearIf_same (s : Slot σ) (c : Bool) : (clearIf s c).inputSame = s.inputSame := by simp [Slot.inputSame]
@[simp] theorem nullOut_mu (i : Option Str) (s : Slot σ) : mu S i (nullOut s) = mu S i s := mu_congr (by simp) (by simp) (by simp)
@[simp] theorem clearIf_mu (i : Option Str) (s : Slot σ) (c : Bool) : mu S i (clearIf s c) = mu S i s := mu_congr (by simp) (by simp) (by simp)

theorem outBuf_cons {s : Slot σ} {l : List (Slot σ)} (h : l ≠ []) : outBuf (s :: l) = outBuf l := by
  cases l with
  | nil => exact absurd rfl h
  | cons t l => rfl

theorem inv_ne {E Y : Str} {c : Option Str} {l : List (Slot σ)} (h : Inv S E c l Y) : l ≠ [] := by
  rintro rfl
  exact h

theorem inv_out_iff {s : Slot σ} {l : List (Slot σ)} {E Y : Str} {c : Option Str} (ho : s.ops.out = true) (h : l ≠ []) :
    Inv S E c (s :: l) Y ↔ ∃ E', KOut (S s.ops) s E c (E' ++ if headSame l then [] else (held s).getD []) ∧
      BufOk s (headSame l) ∧ Inv S E' (held s) l Y := by
  cases l with
  | nil => exact absurd rfl h
  | cons t l => simp only [Inv, if_pos ho]

theorem inv_in_iff {s : Slot σ} {l : List (Slot σ)} {E Y : Str} {c : Option Str} (ho : s.ops.out = false) (h : l ≠ []) :
    Inv S E c (s :: l) Y ↔ KIn (S s.ops) s E c ∧ Inv S E c l Y := by
  cases l with
  | nil => exact absurd rfl h
  | cons t l => simp [Inv, ho]

theorem adds_cons {s s' : Slot σ} {l l' : List (Slot σ)} {w : Str} (h : l ≠ []) (h' : l' ≠ []) (ha : Adds l l' w) :
    Adds (s :: l) (s' :: l') w := by
  unfold Adds at ha ⊢
  rw [outBuf_cons h, outBuf_cons h']
  exact ha

theorem adds_refl {l : List (Slot σ)} (h : ∀ b, outBuf l = some b → b.data.length ≤ b.cap) : Adds l l [] := by
  unfold Adds
  split
  · rename_i e
    exact ⟨e, rfl⟩
  · rename_i b e
    left
    simpa [e] using h b e

/-- What a pass over filters that all accept new input does. -/
def FreshPost (S : Ops σ → Spec σ) (E : Str) (inp : Option Str) (l : List (Slot σ)) (Y : Str) : Prop :=
  (∀ e, pass inp l = .error e → Thrown S e) ∧
  ∀ l' c f, pass inp l = .ok (l', c, f) → ∃ w, Inv S (E ++ inp.getD []) inp l' (Y ++ w) ∧ Adds l l' w ∧
    l'.map (·.ops) = l.map (·.ops) ∧ (inp ≠ none → c = !headSame l') ∧ (f = false → NoSame l') ∧
    (inp = none → (∀ s ∈ l, s.done = true) ∨ LLt (mus S inp l') (mus S inp l))

/-- What follows after a filter with output was called, if it is not the last. -/
theorem after_out {s1 : Slot σ} {l : List (Slot σ)} {E1 E' Y d d0 : Str} {inp : Option Str} {cap : Nat}
    (hl : l ≠ []) (ho : s1.ops.out = true) (hk : KOut (S s1.ops) s1 E1 inp (E' ++ d)) (hout : s1.output = some ⟨d, cap⟩)
    (hlen : d.length ≤ cap) (hcap : 0 < cap) (hrest : Inv S E' (some d0) l Y) (hns : NoSame l) (hroom : Room l)
    (hfresh : ∀ inp', inp' ≠ some [] → Inv S E' inp' l Y → FreshPost S E' inp' l Y) :
    (stops s1 = true → Inv S E1 inp (s1 :: l) Y) ∧
    (stops s1 = false →
      (∀ e, pass (inputAfter (nullOut s1) inp) l = .error e → Thrown S e) ∧
      ∀ l' c f, pass (inputAfter (nullOut s1) inp) l = .ok (l', c, f) → ∃ w, Inv S E1 inp (clearIf (nullOut s1) c :: l') (Y ++ w) ∧
        Adds l l' w ∧ l'.map (·.ops) = l.map (·.ops) ∧ (f = false → NoSame l')) := by
  have hhs := headSame_of_noSame hns
  constructor
  · intro hst
    rw [inv_out_iff ho hl]
    simp only [stops, hout, Buf.full, Bool.and_eq_true, Bool.not_eq_true', decide_eq_false_iff_not] at hst
    refine ⟨E', ?_, ?_, ?_⟩
    · rw [hhs]
      simpa [held, hout] using hk
    · simp only [BufOk, hout, hhs]
      refine ⟨hlen, hcap, by simp, fun _ => ?_⟩
      rw [hst.2]
      simp only [Bool.false_eq_true, if_false]
      omega
    · exact inv_cur hhs (Or.inr (by simp)) hrest
  · intro hst
    simp only [stops, hout, Buf.full] at hst
    have hin : inputAfter (nullOut s1) inp = held (nullOut s1) := by
      simp [inputAfter, ho, held]
    by_cases hnull : s1.done = true ∧ d = []
    · -- the output is nulled
      have hn : (nullOut s1).output = none := by
        unfold nullOut
        simp only [hout]
        rw [if_pos hnull]
      have hin' : inputAfter (nullOut s1) inp = none := by rw [hin, held, hn]; rfl
      rw [hin']
      have hI : Inv S E' none l Y := inv_cur hhs (Or.inl rfl) hrest
      obtain ⟨h1, h2⟩ := hfresh none (by simp) hI
      refine ⟨h1, ?_⟩
      intro l' c f hp
      obtain ⟨w, i1, i2, i3, _, i5, _⟩ := h2 l' c f hp
      refine ⟨w, ?_, i2, i3, i5⟩
      have hl' := inv_ne i1
      rw [inv_out_iff (by simpa using ho) hl']
      have hcn : (clearIf (nullOut s1) c).output = none := by
        unfold clearIf; split <;> simp [hn]
      refine ⟨E', ?_, ?_, ?_⟩
      · have : (E' ++ if headSame l' then [] else (held (clearIf (nullOut s1) c)).getD []) = E' ++ d := by
          simp [held, hcn, hnull.2]
        rw [this]
        simpa using kOut_congr (by simp) (by simp) (by simp) hk
      · simp only [BufOk, hcn]
        simpa using hnull.1
      · rw [held, hcn]
        simpa using i1
    · have hn : nullOut s1 = s1 := by
        unfold nullOut
        simp only [hout]
        rw [if_neg hnull]
      have hdne : d ≠ [] := by
        rintro rfl
        cases hdn : s1.done
        · rw [hdn] at hst
          simp at hst
          omega
        · exact hnull ⟨hdn, rfl⟩
      have hin' : inputAfter (nullOut s1) inp = some d := by rw [hin, hn, held, hout]; rfl
      rw [hin', hn]
      have hI : Inv S E' (some d) l Y := inv_cur hhs (Or.inr (by simp)) hrest
      obtain ⟨h1, h2⟩ := hfresh (some d) (by simpa using hdne) hI
      refine ⟨h1, ?_⟩
      intro l' c f hp
      obtain ⟨w, i1, i2, i3, i4, i5, _⟩ := h2 l' c f hp
      refine ⟨w, ?_, i2, i3, i5⟩
      have hl' := inv_ne i1
      have hc := i4 (by simp)
      rw [inv_out_iff (by simpa using ho) hl']
      cases hcc : c
      · -- still needed
        rw [hcc] at hc
        have hh : headSame l' = true := by simpa using hc.symm
        have he : clearIf s1 false = s1 := rfl
        rw [he]
        refine ⟨E' ++ d, ?_, ?_, ?_⟩
        · rw [hh]
          simpa using hk
        · simp only [BufOk, hout, hh]
          exact ⟨hlen, hcap, fun _ => hdne, by simp⟩
        · rw [held, hout]
          simpa using i1
      · rw [hcc] at hc
        have hh : headSame l' = false := by simpa using hc.symm
        have ho' : (clearIf s1 true).output = some ⟨[], cap⟩ := by simp [clearIf, hout]
        refine ⟨E' ++ d, ?_, ?_, ?_⟩
        · rw [hh, held, ho']
          simpa using kOut_congr (s' := clearIf s1 true) (by simp) (by simp) (by simp) hk
        · simp only [BufOk, ho', hh]
          refine ⟨by simp, hcap, by simp, fun _ => ?_⟩
          split
          · trivial
          · exact hcap
        · rw [held, ho']
          exact inv_cur (c := some d) hh (Or.inr (by simp)) (by simpa using i1)

theorem room_cons {s : Slot σ} {l : List (Slot σ)} (h : l ≠ []) (hr : Room (s :: l)) : Room l := by
  unfold Room at hr ⊢
  rw [outBuf_cons h] at hr
  exact hr

theorem len_of_ops {l l' : List (Slot σ)} (h : l'.map (·.ops) = l.map (·.ops)) : l'.length = l.length := by
  simpa using congrArg List.length h

/-- A pass in which all filters accept new input. -/
theorem pass_fresh (l : List (Slot σ)) (hC : ∀ s ∈ l, Contract s.ops (S s.ops)) : ∀ (E : Str) (inp : Option Str) (Y : Str),
    Inv S E inp l Y → NoSame l → Room l → inp ≠ some [] → FreshPost S E inp l Y := by
  induction l with
  | nil => intro E inp Y h; exact h.elim
  | cons s rest ih =>
    intro E inp Y hI hns hroom hne
    have hCs := hC s (by simp)
    have hsame : s.inputSame = false := hns s (by simp)
    have hnsr : NoSame rest := fun t ht => hns t (by simp [ht])
    have ih := ih fun t ht => hC t (by simp [ht])
    by_cases hrest : rest = []
    · -- the last filter
      subst hrest
      obtain ⟨ho, hk, hnone⟩ := hI
      unfold FreshPost
      simp only [pass, ho, if_true]
      by_cases hd : s.done = true
      · have hinp : inp = none := by
          have : s.flushing = true := by
            simp only [Slot.done, Bool.and_eq_true] at hd
            exact hd.1
          unfold KOut at hk
          rw [if_pos this] at hk
          exact hk.1
        subst hinp
        rw [if_pos hd]
        refine ⟨by simp, ?_⟩
        intro l' c f hp
        simp only [Except.ok.injEq, Prod.mk.injEq] at hp
        obtain ⟨rfl, rfl, rfl⟩ := hp
        refine ⟨[], ?_, ?_, by simp, by simp, ?_, fun _ => Or.inl (by simpa using hd)⟩
        · simp only [Option.getD_none, List.append_nil, Inv, Bool.and_false, clearIf_ops, nullOut_ops, clearIf_done, nullOut_done]
          exact ⟨ho, kOut_congr (by simp) (by simp) (by simp) hk, fun _ => hd⟩
        · unfold Adds
          simp only [outBuf]
          cases hb : s.output with
          | none => simp [clearIf, nullOut, hb]
          | some b =>
            by_cases he : b.data = []
            · right
              simp [clearIf, nullOut, hb, hd, he]
            · left
              have := hroom b (by simpa [outBuf] using hb)
              simp [clearIf, nullOut, hb, he]
              omega
        · intro _ t ht
          simp only [List.mem_singleton] at ht
          subst ht
          simpa using hsame
      · rw [Bool.not_eq_true] at hd
        simp only [hd, Bool.false_eq_true, if_false]
        obtain ⟨b, hb⟩ : ∃ b, s.output = some b := by
          cases hb : s.output with
          | none => rw [hnone hb] at hd; cases hd
          | some b => exact ⟨b, rfl⟩
        have hr := hroom b (by simpa [outBuf] using hb)
        obtain ⟨e1, e2⟩ := out_call hCs ho hk hne hd hb hr
        cases hp : processInOut s inp with
        | error e =>
          simp only [Except.error.injEq, forall_eq', reduceCtorEq, false_implies, implies_true, and_true]
          exact e1 e hp
        | ok s1 =>
          obtain ⟨a1, w, a2, a3, a4, a5, a6⟩ := e2 s1 hp
          rw [hsame] at a4
          simp only [Bool.false_eq_true, if_false] at a4
          simp only
          by_cases hst : stops s1 = true
          · rw [if_pos hst]
            refine ⟨by simp, ?_⟩
            intro l' c f hp
            simp only [Except.ok.injEq, Prod.mk.injEq] at hp
            obtain ⟨rfl, rfl, rfl⟩ := hp
            refine ⟨w, ⟨by rw [a1]; exact ho, a4, by simp [a2]⟩, ?_, by simp [a1], ?_, ?_, ?_⟩
            · unfold Adds
              simp only [outBuf, hb, a2]
              exact Or.inl ⟨trivial, a3⟩
            · intro _
              simp [headSame, a1, ho]
            · intro hf t ht
              simp only [List.mem_singleton] at ht
              subst ht
              exact hf
            · intro hn
              right
              exact Or.inl ⟨a6 (Or.inr hn), rfl⟩
          · rw [if_neg hst]
            refine ⟨by simp, ?_⟩
            intro l' c f hp
            simp only [Except.ok.injEq, Prod.mk.injEq] at hp
            obtain ⟨rfl, rfl, rfl⟩ := hp
            refine ⟨w, ⟨by simpa [a1] using ho, ?_, ?_⟩, ?_, by simp [a1], ?_, ?_, ?_⟩
            · simpa using kOut_congr (s' := clearIf (nullOut s1) false) (by simp) (by simp) (by simp) a4
            · intro hn
              simp only [clearIf_done, nullOut_done]
              by_contra hdn
              simp [clearIf, nullOut, a2, hdn] at hn
            · unfold Adds
              simp only [outBuf, hb, clearIf, Bool.false_eq_true, if_false]
              by_cases he : s1.done = true ∧ b.data ++ w = []
              · right
                refine ⟨?_, (List.append_eq_nil_iff.1 he.2).1, (List.append_eq_nil_iff.1 he.2).2⟩
                unfold nullOut
                simp only [a2]
                rw [if_pos he]
              · left
                refine ⟨?_, a3⟩
                unfold nullOut
                simp only [a2]
                rw [if_neg he, a2]
            · intro _
              simp [headSame, a1, ho]
            · intro hf t ht
              simp only [List.mem_singleton] at ht
              subst ht
              simpa using hf
            · intro hn
              right
              exact Or.inl ⟨by simpa using a6 (Or.inr hn), rfl⟩
    · have hroomr := room_cons hrest hroom
      have hhs := headSame_of_noSame hnsr
      by_cases ho : s.ops.out = true
      · rw [inv_out_iff ho hrest] at hI
        obtain ⟨E', hk, hbuf, hIr⟩ := hI
        rw [hhs] at hk hbuf
        simp only [Bool.false_eq_true, if_false] at hk
        unfold FreshPost
        simp only [pass, ho, if_true]
        by_cases hd : s.done = true
        · have hinp : inp = none := by
            have : s.flushing = true := by
              simp only [Slot.done, Bool.and_eq_true] at hd
              exact hd.1
            unfold KOut at hk
            rw [if_pos this] at hk
            exact hk.1
          subst hinp
          rw [if_pos hd]
          -- the output is nulled now or was before
          have hheld : (held s).getD [] = [] := by
            unfold BufOk at hbuf
            cases hb : s.output with
            | none => simp [held, hb]
            | some b =>
              rw [hb] at hbuf
              simp only [hd, if_true] at hbuf
              simp [held, hb, hbuf.2.2.2]
          have hn : (nullOut s).output = none := by
            unfold nullOut
            cases hb : s.output with
            | none => exact hb
            | some b =>
              have : b.data = [] := by simpa [held, hb] using hheld
              simp only
              rw [if_pos ⟨hd, this⟩]
          have hin : inputAfter (nullOut s) none = none := by simp [inputAfter, hn]
          rw [hin]
          have hIr' : Inv S E' none rest Y := inv_cur hhs (Or.inl rfl) hIr
          obtain ⟨g1, g2⟩ := ih E' none Y hIr' hnsr hroomr (by simp)
          cases hp : pass none rest with
          | error e =>
            simp only [Except.error.injEq, forall_eq', reduceCtorEq, false_implies, implies_true, and_true]
            exact g1 e hp
          | ok r =>
            obtain ⟨l', c, f⟩ := r
            obtain ⟨w, i1, i2, i3, _, i5, i6⟩ := g2 l' c f hp
            simp only
            refine ⟨by simp, ?_⟩
            intro l'' c' f' hq
            simp only [Except.ok.injEq, Prod.mk.injEq] at hq
            obtain ⟨rfl, rfl, rfl⟩ := hq
            have hl' := inv_ne i1
            have hcn : (clearIf (nullOut s) (true && c)).output = none := by
              unfold clearIf; split <;> simp [hn]
            refine ⟨w, ?_, adds_cons hrest hl' i2, by simp [i3], by simp, ?_, ?_⟩
            · rw [inv_out_iff (by simpa using ho) hl']
              refine ⟨E', ?_, ?_, ?_⟩
              · have : (E' ++ if headSame l' then [] else (held (clearIf (nullOut s) (true && c))).getD []) =
                    E' ++ (held s).getD [] := by
                  have h0 : held (clearIf (nullOut s) (true && c)) = none := by rw [held, hcn]; rfl
                  rw [h0, hheld]
                  simp
                rw [this]
                simpa using kOut_congr (s' := clearIf (nullOut s) (true && c)) (by simp) (by simp) (by simp) hk
              · simp only [BufOk, hcn]
                simpa using hd
              · rw [held, hcn]
                simpa using i1
            · intro hf t ht
              simp only [List.mem_cons] at ht
              rcases ht with rfl | ht
              · simpa using hsame
              · exact i5 hf t ht
            · intro _
              rcases i6 rfl with h | h
              · left
                simpa [hd] using h
              · right
                exact Or.inr ⟨by simp, by
                  rw [if_pos (by simpa using ho), if_pos ho, held, hcn, mus_cur (fun t ht => hC t (by simp [ht])) (held s) none hhs]
                  exact h⟩
        · rw [Bool.not_eq_true] at hd
          simp only [hd, Bool.false_eq_true, if_false]
          obtain ⟨b, hb⟩ : ∃ b, s.output = some b := by
            cases hb : s.output with
            | none =>
              simp only [BufOk, hb] at hbuf
              rw [hbuf] at hd; cases hd
            | some b => exact ⟨b, rfl⟩
          simp only [BufOk, hb, hd, Bool.false_eq_true, if_false, false_implies, true_and, forall_const] at hbuf
          have hheld : held s = some b.data := by simp [held, hb]
          rw [hheld] at hk hIr
          obtain ⟨e1, e2⟩ := out_call hCs ho hk hne hd hb hbuf.2.2
          cases hp : processInOut s inp with
          | error e =>
            simp only [Except.error.injEq, forall_eq', reduceCtorEq, false_implies, implies_true, and_true]
            exact e1 e hp
          | ok s1 =>
            obtain ⟨a1, w, a2, a3, a4, a5, a6⟩ := e2 s1 hp
            rw [hsame] at a4
            simp only [Bool.false_eq_true, if_false, Option.getD_some] at a4
            rw [List.append_assoc] at a4
            have ho1 : s1.ops.out = true := by rw [a1]; exact ho
            obtain ⟨t1, t2⟩ := after_out hrest ho1 a4 a2 a3 hbuf.2.1 hIr hnsr hroomr
              (fun inp' h1 h2 => ih E' inp' Y h2 hnsr hroomr h1)
            simp only
            by_cases hst : stops s1 = true
            · rw [if_pos hst]
              refine ⟨by simp, ?_⟩
              intro l' c f hp
              simp only [Except.ok.injEq, Prod.mk.injEq] at hp
              obtain ⟨rfl, rfl, rfl⟩ := hp
              refine ⟨[], by simpa using t1 hst, adds_cons hrest hrest (adds_refl fun b hb => Nat.le_of_lt (hroomr b hb)), by simp [a1], ?_, ?_, ?_⟩
              · intro _
                simp [headSame, a1, ho]
              · intro hf t ht
                simp only [List.mem_cons] at ht
                rcases ht with rfl | ht
                · exact hf
                · exact hnsr t ht
              · intro hn
                right
                exact Or.inl ⟨a6 (Or.inr hn), by simp⟩
            · rw [if_neg hst]
              obtain ⟨g1, g2⟩ := t2 (by simpa using hst)
              cases hq : pass (inputAfter (nullOut s1) inp) rest with
              | error e =>
                simp only [Except.error.injEq, forall_eq', reduceCtorEq, false_implies, implies_true, and_true]
                exact g1 e hq
              | ok r =>
                obtain ⟨l', c, f⟩ := r
                obtain ⟨w', i1, i2, i3, i4⟩ := g2 l' c f hq
                simp only
                refine ⟨by simp, ?_⟩
                intro l'' c' f' hq
                simp only [Except.ok.injEq, Prod.mk.injEq] at hq
                obtain ⟨rfl, rfl, rfl⟩ := hq
                have hl' : l' ≠ [] := by
                  intro h
                  have := len_of_ops i3
                  rw [h] at this
                  exact hrest (List.length_eq_zero_iff.1 this.symm)
                refine ⟨w', i1, adds_cons hrest hl' i2, by simp [a1, i3], ?_, ?_, ?_⟩
                · intro _
                  simp [headSame, a1, ho]
                · intro hf t ht
                  simp only [Bool.or_eq_false_iff] at hf
                  simp only [List.mem_cons] at ht
                  rcases ht with rfl | ht
                  · simpa using hf.1
                  · exact i4 hf.2 t ht
                · intro hn
                  right
                  exact Or.inl ⟨by simpa using a6 (Or.inr hn), by simpa using len_of_ops i3⟩
      · rw [Bool.not_eq_true] at ho
        rw [inv_in_iff ho hrest] at hI
        obtain ⟨⟨k1, k2, k3⟩, hIr⟩ := hI
        unfold FreshPost
        simp only [pass, ho, Bool.false_eq_true, if_false]
        have hfin := fin_true_of_in hCs ho s.st
        by_cases hd : s.done = true
        · have hinp : inp = none := k1 (by simp only [Slot.done, Bool.and_eq_true] at hd; exact hd.1)
          subst hinp
          rw [if_pos hd]
          have hn : nullOut s = s := by simp [nullOut, k2]
          rw [hn]
          have hin : inputAfter s none = none := by simp [inputAfter, ho]
          rw [hin]
          obtain ⟨g1, g2⟩ := ih E none Y hIr hnsr hroomr (by simp)
          cases hp : pass none rest with
          | error e =>
            simp only [Except.error.injEq, forall_eq', reduceCtorEq, false_implies, implies_true, and_true]
            exact g1 e hp
          | ok r =>
            obtain ⟨l', c, f⟩ := r
            obtain ⟨w, i1, i2, i3, _, i5, i6⟩ := g2 l' c f hp
            simp only
            refine ⟨by simp, ?_⟩
            intro l'' c' f' hq
            simp only [Except.ok.injEq, Prod.mk.injEq] at hq
            obtain ⟨rfl, rfl, rfl⟩ := hq
            have hl' := inv_ne i1
            have he : clearIf s (false && c) = s := by simp [clearIf]
            rw [he]
            refine ⟨w, ?_, adds_cons hrest hl' i2, by simp [i3], by simp, ?_, ?_⟩
            · rw [inv_in_iff ho hl']
              exact ⟨⟨fun _ => rfl, k2, by simpa using k3⟩, i1⟩
            · intro hf t ht
              simp only [List.mem_cons] at ht
              rcases ht with rfl | ht
              · exact hsame
              · exact i5 hf t ht
            · intro _
              rcases i6 rfl with h | h
              · left
                simpa [hd] using h
              · right
                exact Or.inr ⟨rfl, by simpa [ho] using h⟩
        · rw [Bool.not_eq_true] at hd
          simp only [hd, Bool.false_eq_true, if_false]
          have hnf : s.flushing = false := by
            simpa [Slot.done, hfin] using hd
          -- the state after the call
          have hpin : (∀ e, processIn s inp = .error e → Thrown S e) ∧ ∀ s1, processIn s inp = .ok s1 →
              s1.ops = s.ops ∧ KIn (S s1.ops) s1 (E ++ inp.getD []) inp ∧ (inp = none → PLt (mu S inp s1) (mu S inp s)) := by
            cases inp with
            | none =>
              simp only [processIn]
              refine ⟨by simp, ?_⟩
              intro s1 h1
              rw [Except.ok.injEq] at h1
              subst h1
              refine ⟨rfl, ⟨by simp, k2, by simpa using k3⟩, fun _ => ?_⟩
              left
              simp [mu, Slot.done, hfin, hnf]
            | some c =>
              have hc : c ≠ [] := fun h => hne (by rw [h])
              simp only [processIn]
              rw [if_neg (by simp [hc, hnf])]
              cases hcall : s.ops.inFn s.st c with
              | error e =>
                simp only [Except.error.injEq, forall_eq', reduceCtorEq, false_implies, implies_true, and_true]
                exact ⟨e, s.ops, rfl, hCs.innErr ho k3 hc hcall⟩
              | ok st =>
                simp only
                refine ⟨by simp, ?_⟩
                intro s1 h1
                rw [Except.ok.injEq] at h1
                subst h1
                refine ⟨rfl, ⟨by simp [hnf], k2, ?_⟩, by simp⟩
                exact hCs.inn ho k3 hc hcall
          cases hp : processIn s inp with
          | error e =>
            simp only [Except.error.injEq, forall_eq', reduceCtorEq, false_implies, implies_true, and_true]
            exact hpin.1 e hp
          | ok s1 =>
            obtain ⟨a1, a2, a3⟩ := hpin.2 s1 hp
            simp only
            obtain ⟨g1, g2⟩ := ih E inp Y hIr hnsr hroomr hne
            cases hq : pass inp rest with
            | error e =>
              simp only [Except.error.injEq, forall_eq', reduceCtorEq, false_implies, implies_true, and_true]
              exact g1 e hq
            | ok r =>
              obtain ⟨l', c, f⟩ := r
              obtain ⟨w, i1, i2, i3, i4, i5, i6⟩ := g2 l' c f hq
              simp only
              refine ⟨by simp, ?_⟩
              intro l'' c' f' hq
              simp only [Except.ok.injEq, Prod.mk.injEq] at hq
              obtain ⟨rfl, rfl, rfl⟩ := hq
              have hl' := inv_ne i1
              have ho1 : s1.ops.out = false := by rw [a1]; exact ho
              refine ⟨w, ?_, adds_cons hrest hl' i2, by simp [a1, i3], ?_, ?_, ?_⟩
              · rw [inv_in_iff ho1 hl']
                exact ⟨a2, i1⟩
              · intro h
                rw [headSame, ho1]
                exact i4 h
              · intro hf t ht
                simp only [List.mem_cons] at ht
                rcases ht with rfl | ht
                · simp only [Slot.inputSame, a1]
                  exact same_false_of_in hCs ho _
                · exact i5 hf t ht
              · intro hn
                right
                exact Or.inl ⟨a3 hn, by simpa using len_of_ops i3⟩

end Verif.Io
