import Verif.Io.GroupLoop

/-!
# Filter groups: properties (C66)

Each filter of a group is given exactly the bytes that the filter before it gave out, whole, once and in order, through buffers of
any size and whatever the filters do to the data, and the group asks for input again, and says that it is done, exactly when it should.

`Spec` and `Contract` (`Verif/Io/GroupInv.lean`) say what is assumed of a filter.
-/

namespace Verif.Io

variable {σ : Type}

/-- Filters in a row: each was given, up to the end, what the one before it gave out. A filter without output passes on its input. -/
def Chain (S : Ops σ → Spec σ) : List (Ops σ × σ) → Str → Str → Prop
  | [], x, y => x = y
  | (o, s) :: rest, x, y => if o.out then ∃ m, (S o).Final s x m ∧ Chain S rest m y else (S o).Final s x [] ∧ Chain S rest x y

/-- The filters with their states. -/
def Group.filters (g : Group σ) : List (Ops σ × σ) := g.slots.map fun s => (s.ops, s.st)

/-- A filter that keeps its promises, at the start. -/
def Fresh (S : Ops σ → Spec σ) (f : Ops σ × σ) : Prop := Contract f.1 (S f.1) ∧ (S f.1).Ready f.2 [] [] ∧ same f.1 f.2 = false

/-- What a caller may do with a group. `Reach g E cur Y` says that `g` was reached, that all input was `E`, that the last call was
made with `cur` (`some []` before the first call), and that all output was `Y`. Input is given again as long as the group asks for
that, otherwise new input is given that is not empty, and nothing is given after the end of the input. Any output buffer with room
may be used. -/
inductive Reach (S : Ops σ → Spec σ) (size : Nat) (buffer : Ops σ × σ) (filters : List (Ops σ × σ)) :
    Group σ → Str → Option Str → Str → Prop
  | start : Reach S size buffer filters («open» size buffer filters) [] (some []) []
  | new {g g' : Group σ} {E c d Y : Str} {b b' : Buf} {n : Nat} : Reach S size buffer filters g E (some c) Y → g.inputSame = false → d ≠ [] →
      b.data.length < b.cap → process n g (some d) b = some (.ok (g', b')) →
      Reach S size buffer filters g' (E ++ d) (some d) (Y ++ b'.data.drop b.data.length)
  | again {g g' : Group σ} {E Y : Str} {cur : Option Str} {b b' : Buf} {n : Nat} : Reach S size buffer filters g E cur Y →
      g.inputSame = true → b.data.length < b.cap → process n g cur b = some (.ok (g', b')) →
      Reach S size buffer filters g' E cur (Y ++ b'.data.drop b.data.length)
  | flush {g g' : Group σ} {E Y : Str} {cur : Option Str} {b b' : Buf} {n : Nat} : Reach S size buffer filters g E cur Y →
      g.inputSame = false → b.data.length < b.cap → process n g none b = some (.ok (g', b')) →
      Reach S size buffer filters g' E none (Y ++ b'.data.drop b.data.length)

variable {S : Ops σ → Spec σ}

theorem loop_mono {inp : Option Str} {n : Nat} : ∀ {flag : Bool} {l : List (Slot σ)} {r : Except Fail (List (Slot σ))},
    loop inp n flag l = some r → ∀ k, n ≤ k → loop inp k flag l = some r := by
  induction n with
  | zero => intro flag l r h; simp [loop] at h
  | succ n ih =>
    intro flag l r h k hk
    obtain ⟨k, rfl⟩ : ∃ j, k = j + 1 := ⟨k - 1, by omega⟩
    unfold loop at h ⊢
    split
    · rename_i hc
      rw [if_pos hc] at h
      exact h
    · rename_i hc
      rw [if_neg hc] at h
      split
      · rename_i he
        rw [he] at h
        exact h
      · rename_i l' c f he
        rw [he] at h
        simp only at h ⊢
        split
        · rename_i hd
          rw [if_pos hd] at h
          exact ih h k (by omega)
        · rename_i hd
          rw [if_neg hd] at h
          exact h

theorem process_mono {g : Group σ} {inp : Option Str} {b : Buf} {n : Nat} {r : Except Fail (Group σ × Buf)}
    (h : process n g inp b = some r) (k : Nat) (hk : n ≤ k) : process k g inp b = some r := by
  unfold process at h ⊢
  cases hl : loop inp n g.inputSame (setOut b g.slots) with
  | none => rw [hl] at h; simp at h
  | some r' =>
    rw [hl] at h
    rw [loop_mono hl k hk]
    exact h

theorem process_det {g : Group σ} {inp : Option Str} {b : Buf} {n m : Nat} {r r' : Except Fail (Group σ × Buf)}
    (h : process n g inp b = some r) (h' : ∀ k, m ≤ k → process k g inp b = some r') : r = r' := by
  have h1 := process_mono h (max n m) (by omega)
  rw [h' (max n m) (by omega), Option.some.injEq] at h1
  exact h1.symm

/-! ### The start -/

theorem withBuffers_ne {size : Nat} {l : List (Ops σ × σ)} (h : l ≠ []) : withBuffers size l ≠ [] := by
  match l, h with
  | [(o, s)], _ => simp [withBuffers]
  | (o, s) :: x :: rest, _ => simp [withBuffers]

theorem withBuffers_map (size : Nat) (l : List (Ops σ × σ)) : (withBuffers size l).map (fun s => (s.ops, s.st)) = l := by
  induction l with
  | nil => rfl
  | cons f rest ih =>
    obtain ⟨o, s⟩ := f
    cases rest with
    | nil => rfl
    | cons x rest => simpa [withBuffers] using ih

theorem withBuffers_flushing (size : Nat) (l : List (Ops σ × σ)) : ∀ s ∈ withBuffers size l, s.flushing = false := by
  induction l with
  | nil => intro s hs; simp [withBuffers] at hs
  | cons f rest ih =>
    obtain ⟨o, s⟩ := f
    intro t ht
    cases rest with
    | nil => simp [withBuffers] at ht; simp [ht]
    | cons x rest =>
      simp only [withBuffers, List.mem_cons] at ht
      rcases ht with rfl | ht
      · rfl
      · exact ih t ht

theorem mem_withBuffers {size : Nat} {l : List (Ops σ × σ)} {s : Slot σ} (h : s ∈ withBuffers size l) : (s.ops, s.st) ∈ l := by
  rw [← withBuffers_map size l]
  exact List.mem_map_of_mem (f := fun s => (s.ops, s.st)) h

theorem inv_start {size : Nat} (hsize : 0 < size) (l : List (Ops σ × σ)) (hne : l ≠ []) (hF : ∀ f ∈ l, Fresh S f)
    (hlast : lastOut l = true) (b : Buf) : ∀ cur : Option Str, Inv S [] cur (setOut b (withBuffers size l)) [] := by
  induction l with
  | nil => exact absurd rfl hne
  | cons f rest ih =>
    obtain ⟨o, s⟩ := f
    obtain ⟨hC, hR, hS⟩ := hF (o, s) (by simp)
    intro cur
    cases rest with
    | nil =>
      simp only [withBuffers, setOut, Inv]
      simp only [lastOut] at hlast
      refine ⟨hlast, ?_, by simp⟩
      simpa [KOut, Slot.inputSame, hS] using hR
    | cons x rest =>
      have ih := ih (by simp) (fun f hf => hF f (by simp [hf])) (by simpa [lastOut] using hlast)
      have hns : NoSame (setOut b (withBuffers size (x :: rest))) := by
        rw [noSame_setOut]
        intro t ht
        exact (hF (t.ops, t.st) (by simp only [List.mem_cons]; right; simpa using mem_withBuffers ht)).2.2
      have hh := headSame_of_noSame hns
      have hn1 : setOut b (withBuffers size (x :: rest)) ≠ [] := setOut_ne (withBuffers_ne (by simp))
      have he : setOut b (withBuffers size ((o, s) :: x :: rest)) =
          ⟨o, s, false, if o.out then some ⟨[], size⟩ else none⟩ :: setOut b (withBuffers size (x :: rest)) := by
        have := withBuffers_ne (size := size) (l := x :: rest) (by simp)
        simp only [withBuffers]
        cases hw : withBuffers size (x :: rest) with
        | nil => exact absurd hw this
        | cons t r => rfl
      rw [he]
      by_cases ho : o.out = true
      · rw [if_pos ho, inv_out_iff ho hn1, hh]
        refine ⟨[], ?_, ?_, ?_⟩
        · simpa [KOut, Slot.inputSame, hS, held] using hR
        · simpa [BufOk, Slot.done] using hsize
        · exact ih _
      · rw [Bool.not_eq_true] at ho
        rw [inv_in_iff ho hn1]
        exact ⟨⟨by simp, by simp [ho], hR⟩, ih _⟩

theorem lastOut_append (l : List (Ops σ × σ)) (f : Ops σ × σ) : lastOut (l ++ [f]) = f.1.out := by
  induction l with
  | nil => rfl
  | cons g rest ih =>
    cases rest with
    | nil => rfl
    | cons x rest => simpa [lastOut] using ih

theorem lastOut_ne {l : List (Ops σ × σ)} (h : lastOut l = true) : l ≠ [] := by
  rintro rfl
  simp [lastOut] at h

/-- The filters of an open group: a buffer is added if the last filter has no output. -/
def opened (buffer : Ops σ × σ) (filters : List (Ops σ × σ)) : List (Ops σ × σ) :=
  if lastOut filters then filters else filters ++ [buffer]

theorem gInv_start {size : Nat} {buffer : Ops σ × σ} {filters : List (Ops σ × σ)} (hsize : 0 < size) (hbuf : buffer.1.out = true)
    (hF : ∀ f ∈ buffer :: filters, Fresh S f) : GInv S [] (some []) [] («open» size buffer filters) := by
  have hF' : ∀ f ∈ opened buffer filters, Fresh S f := by
    intro f hf
    unfold opened at hf
    split at hf
    · exact hF f (by simp [hf])
    · simp only [List.mem_append, List.mem_singleton] at hf
      apply hF
      simp only [List.mem_cons]
      tauto
  have hlast : lastOut (opened buffer filters) = true := by
    unfold opened
    split
    · assumption
    · rw [lastOut_append]; exact hbuf
  have hne := lastOut_ne hlast
  have hany : (withBuffers size (opened buffer filters)).any Slot.inputSame = false := by
    rw [← noSame_iff]
    intro t ht
    exact (hF' _ (mem_withBuffers ht)).2.2
  refine ⟨?_, withBuffers_ne hne, fun b => inv_start hsize _ hne hF' hlast b _, ?_, ?_⟩
  · intro s hs
    exact (hF' _ (mem_withBuffers hs)).1
  · exact hany.symm
  · change false = (!(withBuffers size (opened buffer filters)).any Slot.inputSame && (withBuffers size (opened buffer filters)).all Slot.done)
    rw [hany]
    have := withBuffers_flushing size (opened buffer filters)
    cases hw : withBuffers size (opened buffer filters) with
    | nil => exact absurd hw (withBuffers_ne hne)
    | cons s rest =>
      have hs := this s (by simp [hw])
      simp [Slot.done, hs]

theorem gInv_ops {E Y : Str} {cur : Option Str} {g : Group σ} (hg : GInv S E cur Y g) {inp : Option Str} {b b' : Buf} {g' : Group σ} {n : Nat}
    (hb : b.data.length < b.cap)
    (hin : (g.inputSame = true ∧ inp = cur) ∨ (g.inputSame = false ∧ inp ≠ some [] ∧ (inp = none ∨ cur ≠ none)))
    (h : process n g inp b = some (.ok (g', b'))) :
    ∃ w, b' = ⟨b.data ++ w, b.cap⟩ ∧ (b.data ++ w).length ≤ b.cap ∧
        GInv S (if g.inputSame then E else E ++ inp.getD []) inp (Y ++ w) g' ∧ (g'.inputSame = true → b'.full = true) ∧
        (inp = none ∨ g.inputSame = true → g.done = true ∨ LLt (mus S inp g'.slots) (mus S inp g.slots)) ∧
        g'.slots.map (·.ops) = g.slots.map (·.ops) := by
  obtain ⟨r, ⟨m, hm⟩, _, h2⟩ := process_spec hg hb hin
  exact h2 g' b' (process_det h hm).symm

theorem reach_inv {size : Nat} {buffer : Ops σ × σ} {filters : List (Ops σ × σ)} (hsize : 0 < size) (hbuf : buffer.1.out = true)
    (hF : ∀ f ∈ buffer :: filters, Fresh S f) {g : Group σ} {E Y : Str} {cur : Option Str} (h : Reach S size buffer filters g E cur Y) :
    GInv S E cur Y g ∧ g.slots.map (·.ops) = (opened buffer filters).map (·.1) := by
  induction h with
  | start =>
    refine ⟨gInv_start hsize hbuf hF, ?_⟩
    have := congrArg (List.map Prod.fst) (withBuffers_map size (opened buffer filters))
    rw [List.map_map] at this
    exact this
  | new _ hs hd hb hp ih =>
    obtain ⟨w, rfl, _, h3, _, _, h6⟩ := gInv_ops ih.1 hb (Or.inr ⟨hs, by simpa using hd, Or.inr (by simp)⟩) hp
    refine ⟨?_, h6.trans ih.2⟩
    simpa [hs] using h3
  | again _ hs hb hp ih =>
    obtain ⟨w, rfl, _, h3, _, _, h6⟩ := gInv_ops ih.1 hb (Or.inl ⟨hs, rfl⟩) hp
    refine ⟨?_, h6.trans ih.2⟩
    simpa [hs] using h3
  | flush _ hs hb hp ih =>
    obtain ⟨w, rfl, _, h3, _, _, h6⟩ := gInv_ops ih.1 hb (Or.inr ⟨hs, by simp, Or.inl rfl⟩) hp
    refine ⟨?_, h6.trans ih.2⟩
    simpa [hs] using h3

/-! ### The end -/

theorem chain_of_inv (l : List (Slot σ)) (hC : ∀ s ∈ l, Contract s.ops (S s.ops)) : ∀ (E : Str) (cur : Option Str) (Y : Str), Inv S E cur l Y → NoSame l →
    (∀ s ∈ l, s.done = true) → Chain S (l.map fun s => (s.ops, s.st)) E Y ∧ cur = none := by
  induction l with
  | nil => intro E cur Y h; exact h.elim
  | cons s rest ih =>
    intro E cur Y hI hns hd
    have ih := ih fun t ht => hC t (by simp [ht])
    have hds := hd s (by simp)
    simp only [Slot.done, Bool.and_eq_true] at hds
    have hko : ∀ {x y}, KOut (S s.ops) s x cur y → cur = none ∧ (S s.ops).Final s.st x y := by
      intro x y hk
      unfold KOut at hk
      rw [if_pos hds.1, if_pos hds.2] at hk
      exact ⟨hk.1, hk.2.2⟩
    cases rest with
    | nil =>
      obtain ⟨ho, hk, _⟩ := hI
      obtain ⟨h1, h2⟩ := hko hk
      refine ⟨?_, h1⟩
      simp only [List.map_cons, List.map_nil, Chain, ho, if_true]
      exact ⟨Y, h2, rfl⟩
    | cons t rest =>
      have hnsr : NoSame (t :: rest) := fun t ht => hns t (by simp [ht])
      have hdr : ∀ u ∈ t :: rest, u.done = true := fun u hu => hd u (by simp [hu])
      have hh := headSame_of_noSame hnsr
      by_cases ho : s.ops.out = true
      · rw [inv_out_iff ho (by simp), hh] at hI
        obtain ⟨E', hk, hb, hr⟩ := hI
        have he : (held s).getD [] = [] := by
          unfold BufOk at hb
          cases hout : s.output with
          | none => simp [held, hout]
          | some b =>
            rw [hout] at hb
            simp only [hd s (by simp), if_true, forall_const] at hb
            simp [held, hout, hb.2.2.2]
        rw [he] at hk
        simp only [ite_self, List.append_nil] at hk
        obtain ⟨h1, h2⟩ := hko hk
        refine ⟨?_, h1⟩
        rw [List.map_cons, Chain, if_pos ho]
        exact ⟨E', h2, (ih _ _ _ hr hnsr hdr).1⟩
      · rw [Bool.not_eq_true] at ho
        rw [inv_in_iff ho (by simp)] at hI
        obtain ⟨⟨h1, _, h3⟩, hr⟩ := hI
        refine ⟨?_, h1 hds.1⟩
        rw [List.map_cons, Chain, if_neg (by simp [ho])]
        exact ⟨((hC s (by simp)).final (Or.inl h3) hds.2).2, (ih _ _ _ hr hnsr hdr).1⟩

/-- C66: when a group is done then the end of the input was given, and each filter was given exactly the bytes that the filter before
it gave out, whole, once and in order: the first filter all the input of the group, and what the last filter gave out is what the
buffers of the caller got. Each filter is in the state that it has after exactly its input and its end. -/
theorem c66_chain {size : Nat} {buffer : Ops σ × σ} {filters : List (Ops σ × σ)} (hsize : 0 < size) (hbuf : buffer.1.out = true)
    (hF : ∀ f ∈ buffer :: filters, Fresh S f) {g : Group σ} {E Y : Str} {cur : Option Str} (h : Reach S size buffer filters g E cur Y)
    (hd : g.done = true) :
    cur = none ∧ Chain S g.filters E Y ∧ g.filters.map (·.1) = (if lastOut filters then filters else filters ++ [buffer]).map (·.1) := by
  obtain ⟨hg, ho⟩ := reach_inv hsize hbuf hF h
  have hdone := hg.done
  rw [hd] at hdone
  simp only [Bool.true_eq, Bool.and_eq_true, Bool.not_eq_true', List.all_eq_true] at hdone
  have hb : ∀ b : Buf, (setOut b g.slots).map (fun s => (s.ops, s.st)) = g.filters := fun b => setOut_map _ (fun s b => rfl) b g.slots
  have hdd : ∀ s ∈ setOut ⟨[], 1⟩ g.slots, s.done = true := by
    have : (setOut ⟨[], 1⟩ g.slots).map Slot.done = g.slots.map Slot.done := setOut_map _ (fun s b => rfl) _ g.slots
    intro s hs
    have hm : s.done ∈ g.slots.map Slot.done := this ▸ List.mem_map_of_mem hs
    rw [List.mem_map] at hm
    obtain ⟨t, ht, he⟩ := hm
    rw [← he]
    exact hdone.2 t ht
  obtain ⟨h1, h2⟩ := chain_of_inv _ (contract_of_ops hg.con (setOut_map (·.ops) (fun s b => rfl) ⟨[], 1⟩ g.slots)) E cur Y (hg.inv ⟨[], 1⟩)
    (noSame_setOut.2 (noSame_iff.2 hdone.1)) hdd
  rw [hb] at h1
  refine ⟨h2, h1, ?_⟩
  unfold Group.filters
  rw [List.map_map]
  exact ho

/-- C66: a call of `ioFilterGroupProcess` ends, fails only with an error that a filter may throw (none of the checks in the code fails and no
buffer is missing), adds to what is in the output buffer and does not overrun it, and asks for the same input only if the output
buffer is full. -/
theorem c66_call {size : Nat} {buffer : Ops σ × σ} {filters : List (Ops σ × σ)} (hsize : 0 < size) (hbuf : buffer.1.out = true)
    (hF : ∀ f ∈ buffer :: filters, Fresh S f) {g : Group σ} {E Y : Str} {cur inp : Option Str} {b : Buf}
    (h : Reach S size buffer filters g E cur Y) (hb : b.data.length < b.cap)
    (hin : if g.inputSame then inp = cur else inp = none ∨ (cur ≠ none ∧ inp ≠ some [])) :
    ∃ r, (∃ n, ∀ k, n ≤ k → process k g inp b = some r) ∧ (∀ e, r = .error e → Thrown S e) ∧
      ∀ g' b', r = .ok (g', b') → b'.cap = b.cap ∧ b.data <+: b'.data ∧ b'.data.length ≤ b.cap ∧
        (g'.inputSame = true → b'.data.length = b.cap) := by
  obtain ⟨hg, _⟩ := reach_inv hsize hbuf hF h
  have hin' : (g.inputSame = true ∧ inp = cur) ∨ (g.inputSame = false ∧ inp ≠ some [] ∧ (inp = none ∨ cur ≠ none)) := by
    cases hs : g.inputSame
    · right
      rw [hs] at hin
      simp only [Bool.false_eq_true, if_false] at hin
      rcases hin with rfl | ⟨h1, h2⟩
      · exact ⟨rfl, by simp, Or.inl rfl⟩
      · exact ⟨rfl, h2, Or.inr h1⟩
    · left
      rw [hs] at hin
      exact ⟨rfl, by simpa using hin⟩
  obtain ⟨r, h1, h2, h3⟩ := process_spec hg hb hin'
  refine ⟨r, h1, h2, fun g' b' hr => ?_⟩
  obtain ⟨w, rfl, k2, _, k4, _⟩ := h3 g' b' hr
  refine ⟨rfl, ⟨w, rfl⟩, k2, fun hs => ?_⟩
  have := k4 hs
  simp only [Buf.full, decide_eq_true_eq] at this
  exact Nat.le_antisymm k2 this

/-- A further call after the end of the input, of a group that is not done. -/
def FlushStep (g' g : Group σ) : Prop :=
  g.done = false ∧ ∃ n b b', b.data.length < b.cap ∧ process n g none b = some (.ok (g', b'))

theorem flush_acc (m : List (Nat × Nat)) : ∀ (E Y : Str) (cur : Option Str) (g : Group σ), mus S none g.slots = m → GInv S E cur Y g →
    (g.inputSame = true → cur = none) → Acc FlushStep g := by
  induction m using llt_wf.induction with
  | _ m ih =>
    intro E Y cur g hm hg hc
    refine ⟨_, fun g' hst => ?_⟩
    obtain ⟨hd, n, b, b', hb, hp⟩ := hst
    have hin : (g.inputSame = true ∧ none = cur) ∨ (g.inputSame = false ∧ (none : Option Str) ≠ some [] ∧ ((none : Option Str) = none ∨ cur ≠ none)) := by
      cases hs : g.inputSame
      · right; simp
      · left; exact ⟨rfl, (hc hs).symm⟩
    obtain ⟨w, _, _, h3, _, h5, _⟩ := gInv_ops hg hb hin hp
    rcases h5 (Or.inl rfl) with h | h
    · rw [hd] at h; cases h
    · exact ih _ (hm ▸ h) _ _ none g' rfl h3 (fun _ => rfl)

/-- C66: there is no end to the calls after the end of the input only if a group is done: calling it again and again with any output
buffers that have room makes it done. -/
theorem c66_flush_ends {size : Nat} {buffer : Ops σ × σ} {filters : List (Ops σ × σ)} (hsize : 0 < size) (hbuf : buffer.1.out = true)
    (hF : ∀ f ∈ buffer :: filters, Fresh S f) {g : Group σ} {E Y : Str} {cur : Option Str} (h : Reach S size buffer filters g E cur Y)
    (hc : g.inputSame = true → cur = none) : Acc FlushStep g :=
  flush_acc _ E Y cur g rfl (reach_inv hsize hbuf hF h).1 hc

/-- A further call with the same input, of a group that asks for it. -/
def AgainStep (inp : Option Str) (g' g : Group σ) : Prop :=
  g.inputSame = true ∧ ∃ n b b', b.data.length < b.cap ∧ process n g inp b = some (.ok (g', b'))

theorem again_acc (inp : Option Str) (m : List (Nat × Nat)) : ∀ (E Y : Str) (g : Group σ), mus S inp g.slots = m → GInv S E inp Y g →
    Acc (AgainStep inp) g := by
  induction m using llt_wf.induction with
  | _ m ih =>
    intro E Y g hm hg
    refine ⟨_, fun g' hst => ?_⟩
    obtain ⟨hs, n, b, b', hb, hp⟩ := hst
    obtain ⟨w, _, _, h3, _, h5, _⟩ := gInv_ops hg hb (Or.inl ⟨hs, rfl⟩) hp
    rcases h5 (Or.inr hs) with h | h
    · have := hg.done
      rw [h, ← hg.same, hs] at this
      simp at this
    · exact ih _ (hm ▸ h) _ _ g' rfl h3

/-- C66: a group does not ask for the same input forever, whatever output buffers with room it is given. -/
theorem c66_again_ends {size : Nat} {buffer : Ops σ × σ} {filters : List (Ops σ × σ)} (hsize : 0 < size) (hbuf : buffer.1.out = true)
    (hF : ∀ f ∈ buffer :: filters, Fresh S f) {g : Group σ} {E Y : Str} {cur : Option Str} (h : Reach S size buffer filters g E cur Y) :
    Acc (AgainStep cur) g :=
  again_acc cur _ E Y g rfl (reach_inv hsize hbuf hF h).1

end Verif.Io
