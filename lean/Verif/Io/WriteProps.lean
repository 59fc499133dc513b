import Verif.Io.WriteModel
import Verif.Io.GroupFilters

/-!
# Writing through filters: properties (C67)
-/

namespace Verif.Io

variable {σ : Type} {S : Ops σ → Spec σ}

/-- The state between calls: as `GInv`, the group accepts new input and the output buffer has room. -/
structure WInv (S : Ops σ → Spec σ) (E : Str) (Y : Str) (w : Writer σ) : Prop where
  inv : ∃ c, GInv S E (some c) Y w.group
  same : w.group.inputSame = false
  room : w.output.data.length < w.output.cap

theorem room_zero {b : Buf} : b.room = 0 ↔ b.cap ≤ b.data.length := by
  unfold Buf.room
  omega

theorem writeLoop_spec (d : Str) (m : List (Nat × Nat)) : ∀ (E E' Y : Str) (cur : Option Str) (w : Writer σ), mus S (some d) w.group.slots = m →
    GInv S E cur Y w.group → w.output.data.length < w.output.cap →
    ((w.group.inputSame = true ∧ cur = some d ∧ E' = E) ∨ (w.group.inputSame = false ∧ d ≠ [] ∧ cur ≠ none ∧ E' = E ++ d)) →
    ∃ r N, (∀ p k, N ≤ p → N ≤ k → writeLoop p k w d = some r) ∧ (∀ e, r = .error e → Thrown S e) ∧
      ∀ w', r = .ok w' → ∃ (v : Str) (chunks : List Str), WInv S E' (Y ++ v) w' ∧ w'.output.cap = w.output.cap ∧
        w'.group.slots.map (·.ops) = w.group.slots.map (·.ops) ∧ w'.log = w.log ++ chunks.map Dop.write ∧
        chunks.flatten ++ w'.output.data = w.output.data ++ v ∧ (∀ c ∈ chunks, c.length = w.output.cap) ∧
        w'.position = w.position + chunks.flatten.length := by
  have step : ∀ (E E' Y : Str) (cur : Option Str) (w : Writer σ),
      GInv S E cur Y w.group → w.output.data.length < w.output.cap →
      ((w.group.inputSame = true ∧ cur = some d ∧ E' = E) ∨ (w.group.inputSame = false ∧ d ≠ [] ∧ cur ≠ none ∧ E' = E ++ d)) →
      (∀ (v : Str) (w1 : Writer σ), GInv S E' (some d) (Y ++ v) w1.group → w1.group.inputSame = true →
        (w.group.inputSame = true → LLt (mus S (some d) w1.group.slots) (mus S (some d) w.group.slots)) → w1.output.data.length < w1.output.cap →
        ∃ r N, (∀ p k, N ≤ p → N ≤ k → writeLoop p k w1 d = some r) ∧ (∀ e, r = .error e → Thrown S e) ∧
          ∀ w', r = .ok w' → ∃ (v' : Str) (chunks : List Str), WInv S E' (Y ++ v ++ v') w' ∧ w'.output.cap = w1.output.cap ∧
            w'.group.slots.map (·.ops) = w1.group.slots.map (·.ops) ∧ w'.log = w1.log ++ chunks.map Dop.write ∧
            chunks.flatten ++ w'.output.data = w1.output.data ++ v' ∧ (∀ c ∈ chunks, c.length = w1.output.cap) ∧
            w'.position = w1.position + chunks.flatten.length) →
      ∃ r N, (∀ p k, N ≤ p → N ≤ k → writeLoop p k w d = some r) ∧ (∀ e, r = .error e → Thrown S e) ∧
        ∀ w', r = .ok w' → ∃ (v : Str) (chunks : List Str), WInv S E' (Y ++ v) w' ∧ w'.output.cap = w.output.cap ∧
          w'.group.slots.map (·.ops) = w.group.slots.map (·.ops) ∧ w'.log = w.log ++ chunks.map Dop.write ∧
          chunks.flatten ++ w'.output.data = w.output.data ++ v ∧ (∀ c ∈ chunks, c.length = w.output.cap) ∧
          w'.position = w.position + chunks.flatten.length := by
    intro E E' Y cur w hg hb hin hrec
    have hin' : (w.group.inputSame = true ∧ some d = cur) ∨ (w.group.inputSame = false ∧ some d ≠ some [] ∧ (some d = none ∨ cur ≠ none)) := by
      rcases hin with ⟨h1, h2, _⟩ | ⟨h1, h2, h3, _⟩
      · exact Or.inl ⟨h1, h2.symm⟩
      · exact Or.inr ⟨h1, by simpa using h2, Or.inr h3⟩
    have hE : (if w.group.inputSame then E else E ++ (some d).getD []) = E' := by
      rcases hin with ⟨h1, _, h3⟩ | ⟨h1, _, _, h4⟩
      · rw [if_pos h1, h3]
      · rw [if_neg (by simp [h1]), h4]; rfl
    obtain ⟨r, ⟨n, hn⟩, h1, h2⟩ := process_spec hg hb hin'
    cases r with
    | error e =>
      refine ⟨.error e, n + 1, ?_, ?_, by simp⟩
      · intro p k hp hk
        obtain ⟨k, rfl⟩ : ∃ j, k = j + 1 := ⟨k - 1, by omega⟩
        simp only [writeLoop, hn p (by omega)]
      · intro e' he
        simp only [Except.error.injEq] at he
        subst he
        exact h1 _ rfl
    | ok gb =>
      obtain ⟨g, b⟩ := gb
      obtain ⟨v, hbv, hlen, hg', hfull, hlt, hops⟩ := h2 g b rfl
      rw [hE] at hg'
      subst hbv
      -- the state after this turn
      have hw1 : ∃ w1 : Writer σ, ∃ chunks : List Str, w1 = (if (⟨w.output.data ++ v, w.output.cap⟩ : Buf).room = 0 then
            ⟨g, { (⟨w.output.data ++ v, w.output.cap⟩ : Buf) with data := [] }, w.position + (w.output.data ++ v).length, w.log ++ [.write (w.output.data ++ v)]⟩
          else { w with group := g, output := ⟨w.output.data ++ v, w.output.cap⟩ }) ∧ w1.group = g ∧
          w1.output.data.length < w1.output.cap ∧ w1.output.cap = w.output.cap ∧ w1.log = w.log ++ chunks.map Dop.write ∧
          chunks.flatten ++ w1.output.data = w.output.data ++ v ∧ (∀ c ∈ chunks, c.length = w.output.cap) ∧
          w1.position = w.position + chunks.flatten.length := by
        by_cases hz : (⟨w.output.data ++ v, w.output.cap⟩ : Buf).room = 0
        · rw [if_pos hz]
          rw [room_zero] at hz
          simp only at hz
          refine ⟨_, [w.output.data ++ v], rfl, rfl, by simp; omega, rfl, rfl, by simp, ?_, by simp⟩
          intro c hc
          simp only [List.mem_singleton] at hc
          subst hc
          omega
        · rw [if_neg hz]
          rw [room_zero] at hz
          simp only at hz
          exact ⟨_, [], rfl, rfl, by simp only; omega, rfl, by simp, by simp, by simp, by simp⟩
      obtain ⟨w1, ch, e1, e2, e3, e4, e5, e6, e7, e8⟩ := hw1
      by_cases hs : g.inputSame = true
      · obtain ⟨r, N, k1, k2, k3⟩ := hrec v w1 (by rw [e2]; exact hg') (by rw [e2]; exact hs)
          (by
            intro hws
            rw [e2]
            rcases hlt (Or.inr hws) with h | h
            · have := hg.done
              rw [h, ← hg.same, hws] at this
              simp at this
            · exact h) e3
        refine ⟨r, max n N + 1, ?_, k2, ?_⟩
        · intro p k hp hk
          obtain ⟨k, rfl⟩ : ∃ j, k = j + 1 := ⟨k - 1, by omega⟩
          simp only [writeLoop, hn p (by omega), hs, if_true]
          rw [← e1]
          exact k1 p k (by omega) (by omega)
        · intro w' hr
          obtain ⟨v', ch', j1, j2, j3, j4, j5, j6, j7⟩ := k3 w' hr
          refine ⟨v ++ v', ch ++ ch', by rw [← List.append_assoc]; exact j1, j2.trans e4, by rw [j3, e2]; exact hops, by rw [j4, e5]; simp, ?_, ?_, ?_⟩
          · rw [List.flatten_append, List.append_assoc, j5, ← List.append_assoc, e6, List.append_assoc]
          · intro c hc
            simp only [List.mem_append] at hc
            rcases hc with hc | hc
            · exact e7 c hc
            · rw [← e4]; exact j6 c hc
          · rw [j7, e8]; simp [Nat.add_assoc]
      · rw [Bool.not_eq_true] at hs
        refine ⟨.ok w1, n + 1, ?_, by simp, ?_⟩
        · intro p k hp hk
          obtain ⟨k, rfl⟩ : ∃ j, k = j + 1 := ⟨k - 1, by omega⟩
          simp only [writeLoop, hn p (by omega), hs, Bool.false_eq_true, if_false]
          rw [e1]
        · intro w' hr
          simp only [Except.ok.injEq] at hr
          subst hr
          exact ⟨v, ch, ⟨⟨d, by rw [e2]; exact hg'⟩, by rw [e2]; exact hs, e3⟩, e4, by rw [e2]; exact hops, e5, e6, e7, e8⟩
  induction m using llt_wf.induction with
  | _ m ih =>
    intro E E' Y cur w hm hg hb hin
    refine step E E' Y cur w hg hb hin ?_
    intro v w1 hg1 hs1 hlt hb1
    by_cases hws : w.group.inputSame = true
    · exact ih _ (hm ▸ hlt hws) E' E' (Y ++ v) (some d) w1 rfl hg1 hb1 (Or.inl ⟨hs1, rfl, rfl⟩)
    · -- the first turn: the measure starts here
      have key : ∀ m', ∀ (Y : Str) (w : Writer σ), mus S (some d) w.group.slots = m' → GInv S E' (some d) Y w.group →
          w.group.inputSame = true → w.output.data.length < w.output.cap →
          ∃ r N, (∀ p k, N ≤ p → N ≤ k → writeLoop p k w d = some r) ∧ (∀ e, r = .error e → Thrown S e) ∧
            ∀ w', r = .ok w' → ∃ (v : Str) (chunks : List Str), WInv S E' (Y ++ v) w' ∧ w'.output.cap = w.output.cap ∧
              w'.group.slots.map (·.ops) = w.group.slots.map (·.ops) ∧ w'.log = w.log ++ chunks.map Dop.write ∧
              chunks.flatten ++ w'.output.data = w.output.data ++ v ∧ (∀ c ∈ chunks, c.length = w.output.cap) ∧
              w'.position = w.position + chunks.flatten.length := by
        intro m'
        induction m' using llt_wf.induction with
        | _ m' ih' =>
          intro Y w hm' hg' hs' hb'
          refine step E' E' Y (some d) w hg' hb' (Or.inl ⟨hs', rfl, rfl⟩) ?_
          intro v w1 hg1 hs1 hlt hb1
          exact ih' _ (hm' ▸ hlt hs') (Y ++ v) w1 rfl hg1 hs1 hb1
      exact key _ (Y ++ v) w1 rfl hg1 hs1 hb1

/-- What `ioWrite` does. -/
theorem ioWrite_spec {E Y d : Str} {w : Writer σ} (hw : WInv S E Y w) :
    ∃ r N, (∀ p, N ≤ p → ioWrite p w d = some r) ∧ (∀ e, r = .error e → Thrown S e) ∧
      ∀ w', r = .ok w' → ∃ (v : Str) (chunks : List Str), WInv S (E ++ d) (Y ++ v) w' ∧ w'.output.cap = w.output.cap ∧
        w'.group.slots.map (·.ops) = w.group.slots.map (·.ops) ∧ w'.log = w.log ++ chunks.map Dop.write ∧
        chunks.flatten ++ w'.output.data = w.output.data ++ v ∧ (∀ c ∈ chunks, c.length = w.output.cap) ∧
        w'.position = w.position + chunks.flatten.length := by
  by_cases hd : d = []
  · subst hd
    refine ⟨.ok w, 0, by simp [ioWrite], by simp, ?_⟩
    intro w' h
    simp only [Except.ok.injEq] at h
    subst h
    exact ⟨[], [], by simpa using hw, rfl, rfl, by simp, by simp, by simp, by simp⟩
  · obtain ⟨c, hg⟩ := hw.inv
    obtain ⟨r, N, h1, h2, h3⟩ := writeLoop_spec d _ E (E ++ d) Y (some c) w rfl hg hw.room (Or.inr ⟨hw.same, hd, by simp, rfl⟩)
    refine ⟨r, N, fun p hp => ?_, h2, h3⟩
    simp only [ioWrite, if_neg hd]
    exact h1 p p hp hp

theorem chain_done {E Y : Str} {cur : Option Str} {g : Group σ} (hg : GInv S E cur Y g) (hd : g.done = true) :
    Chain S g.filters E Y ∧ cur = none := by
  have hdone := hg.done
  rw [hd] at hdone
  simp only [Bool.true_eq, Bool.and_eq_true, Bool.not_eq_true', List.all_eq_true] at hdone
  have hb : (setOut ⟨[], 1⟩ g.slots).map (fun s => (s.ops, s.st)) = g.filters := setOut_map _ (fun s b => rfl) _ g.slots
  have hdd : ∀ s ∈ setOut ⟨[], 1⟩ g.slots, s.done = true := by
    have : (setOut ⟨[], 1⟩ g.slots).map Slot.done = g.slots.map Slot.done := setOut_map _ (fun s b => rfl) _ g.slots
    intro s hs
    have hm : s.done ∈ g.slots.map Slot.done := this ▸ List.mem_map_of_mem hs
    rw [List.mem_map] at hm
    obtain ⟨t, ht, he⟩ := hm
    rw [← he]
    exact hdone.2 t ht
  have := (chain_of_inv _ (contract_of_ops hg.con (setOut_map (·.ops) (fun s b => rfl) ⟨[], 1⟩ g.slots)) E cur Y (hg.inv ⟨[], 1⟩)
    (noSame_setOut.2 (noSame_iff.2 hdone.1)) hdd)
  rw [hb] at this
  exact this

theorem closeLoop_spec (m : List (Nat × Nat)) : ∀ (E Y : Str) (cur : Option Str) (w : Writer σ), mus S none w.group.slots = m →
    GInv S E cur Y w.group → w.output.data.length < w.output.cap → (w.group.inputSame = true → cur = none) →
    (w.group.done = true → False) →
    ∃ r N, (∀ p k, N ≤ p → N ≤ k → closeLoop p k w = some r) ∧ (∀ e, r = .error e → Thrown S e) ∧
      ∀ w', r = .ok w' → ∃ (v : Str) (chunks : List Str), Chain S w'.group.filters E (Y ++ v) ∧
        w'.group.slots.map (·.ops) = w.group.slots.map (·.ops) ∧ w'.log = w.log ++ chunks.map Dop.write ∧
        chunks.flatten = w.output.data ++ v ∧ (∀ c ∈ chunks, c ≠ [] ∧ c.length ≤ w.output.cap) ∧
        (∀ c ∈ chunks.dropLast, c.length = w.output.cap) := by
  induction m using llt_wf.induction with
  | _ m ih =>
    intro E Y cur w hm hg hb hc hnd
    have hin' : (w.group.inputSame = true ∧ none = cur) ∨ (w.group.inputSame = false ∧ (none : Option Str) ≠ some [] ∧ ((none : Option Str) = none ∨ cur ≠ none)) := by
      cases hs : w.group.inputSame
      · right; simp
      · left; exact ⟨rfl, (hc hs).symm⟩
    obtain ⟨r, ⟨n, hn⟩, h1, h2⟩ := process_spec hg hb hin'
    cases r with
    | error e =>
      refine ⟨.error e, n + 1, ?_, ?_, by simp⟩
      · intro p k hp hk
        obtain ⟨k, rfl⟩ : ∃ j, k = j + 1 := ⟨k - 1, by omega⟩
        simp only [closeLoop, hn p (by omega)]
      · intro e' he
        simp only [Except.error.injEq] at he
        subst he
        exact h1 _ rfl
    | ok gb =>
      obtain ⟨g, b⟩ := gb
      obtain ⟨v, hbv, hlen, hg', hfull, hlt, hops⟩ := h2 g b rfl
      have hE : (if w.group.inputSame then E else E ++ (none : Option Str).getD []) = E := by simp
      rw [hE] at hg'
      subst hbv
      have hlt := (hlt (Or.inl rfl)).resolve_left fun h => hnd h
      by_cases hd : g.done = true
      · -- the last turn
        by_cases he : w.output.data ++ v = []
        · refine ⟨.ok { w with group := g, output := ⟨w.output.data ++ v, w.output.cap⟩ }, n + 1, ?_, by simp, ?_⟩
          · intro p k hp hk
            obtain ⟨k, rfl⟩ : ∃ j, k = j + 1 := ⟨k - 1, by omega⟩
            have : ¬((⟨w.output.data ++ v, w.output.cap⟩ : Buf).room = 0 ∨ (g.done = true ∧ w.output.data ++ v ≠ [])) := by
              rw [room_zero]
              simp only [he, ne_eq, not_true_eq_false, and_false, or_false, List.length_nil]
              omega
            simp only [closeLoop, hn p (by omega)]
            rw [if_neg this]
            simp [hd]
          · intro w' hr
            simp only [Except.ok.injEq] at hr
            subst hr
            exact ⟨v, [], (chain_done hg' hd).1, hops, by simp, by simpa using he.symm, by simp, by simp⟩
        · refine ⟨.ok { w with group := g, output := ⟨[], w.output.cap⟩, log := w.log ++ [.write (w.output.data ++ v)] }, n + 1, ?_, by simp, ?_⟩
          · intro p k hp hk
            obtain ⟨k, rfl⟩ : ∃ j, k = j + 1 := ⟨k - 1, by omega⟩
            simp only [closeLoop, hn p (by omega)]
            rw [if_pos (Or.inr ⟨hd, he⟩)]
            simp [hd]
          · intro w' hr
            simp only [Except.ok.injEq] at hr
            subst hr
            refine ⟨v, [w.output.data ++ v], (chain_done hg' hd).1, hops, by simp, by simp, ?_, by simp⟩
            intro c hc
            simp only [List.mem_singleton] at hc
            subst hc
            exact ⟨he, hlen⟩
      · have hnd' : g.done = true → False := hd
        rw [Bool.not_eq_true] at hd
        by_cases hz : (⟨w.output.data ++ v, w.output.cap⟩ : Buf).room = 0
        · have hz' := room_zero.1 hz
          simp only at hz'
          obtain ⟨r, N, k1, k2, k3⟩ := ih _ (hm ▸ hlt) E (Y ++ v) none
            { w with group := g, output := ⟨[], w.output.cap⟩, log := w.log ++ [.write (w.output.data ++ v)] } rfl hg' (by simp; omega) (fun _ => rfl) hnd'
          refine ⟨r, max n N + 1, ?_, k2, ?_⟩
          · intro p k hp hk
            obtain ⟨k, rfl⟩ : ∃ j, k = j + 1 := ⟨k - 1, by omega⟩
            simp only [closeLoop, hn p (by omega), hd, Bool.not_false, if_true]
            rw [if_pos (Or.inl hz)]
            exact k1 p k (by omega) (by omega)
          · intro w' hr
            obtain ⟨v', ch, j1, j2, j3, j4, j5, j6⟩ := k3 w' hr
            refine ⟨v ++ v', (w.output.data ++ v) :: ch, by rw [← List.append_assoc]; exact j1, j2.trans hops, by rw [j3]; simp, ?_, ?_, ?_⟩
            · rw [List.flatten_cons, j4]
              simp
            · intro c hc
              simp only [List.mem_cons] at hc
              rcases hc with rfl | hc
              · refine ⟨?_, hlen⟩
                intro h
                rw [h, List.length_nil] at hz'
                omega
              · exact j5 c hc
            · intro c hc
              cases ch with
              | nil => simp at hc
              | cons a ch =>
                simp only [List.dropLast_cons₂, List.mem_cons] at hc
                rcases hc with rfl | hc
                · omega
                · exact j6 c hc
        · have hz' := hz
          rw [room_zero] at hz'
          simp only at hz'
          have hnot : ¬((⟨w.output.data ++ v, w.output.cap⟩ : Buf).room = 0 ∨ (g.done = true ∧ w.output.data ++ v ≠ [])) := by
            simp [hz, hd]
          obtain ⟨r, N, k1, k2, k3⟩ := ih _ (hm ▸ hlt) E (Y ++ v) none
            { w with group := g, output := ⟨w.output.data ++ v, w.output.cap⟩ } rfl hg' (by simp only; omega) (fun _ => rfl) hnd'
          refine ⟨r, max n N + 1, ?_, k2, ?_⟩
          · intro p k hp hk
            obtain ⟨k, rfl⟩ : ∃ j, k = j + 1 := ⟨k - 1, by omega⟩
            simp only [closeLoop, hn p (by omega)]
            rw [if_neg hnot]
            simp only [hd, Bool.not_false, if_true]
            exact k1 p k (by omega) (by omega)
          · intro w' hr
            obtain ⟨v', ch, j1, j2, j3, j4, j5, j6⟩ := k3 w' hr
            exact ⟨v ++ v', ch, by rw [← List.append_assoc]; exact j1, j2.trans hops, j3, by rw [j4]; simp, j5, j6⟩

theorem wInv_open {size : Nat} {buffer : Ops σ × σ} {filters : List (Ops σ × σ)} (hsize : 0 < size) (hbuf : buffer.1.out = true)
    (hF : ∀ f ∈ buffer :: filters, Fresh S f) : WInv S [] [] (writeOpen size buffer filters) :=
  ⟨⟨[], gInv_start hsize hbuf hF⟩, rfl, by simpa [writeOpen] using hsize⟩

theorem open_ops (size : Nat) (buffer : Ops σ × σ) (filters : List (Ops σ × σ)) :
    («open» size buffer filters).slots.map (·.ops) = (if lastOut filters then filters else filters ++ [buffer]).map (·.1) := by
  have := congrArg (List.map Prod.fst) (withBuffers_map size (opened buffer filters))
  rw [List.map_map] at this
  exact this

/-- What `ioWriteClose` does. -/
theorem ioWriteClose_spec {E Y : Str} {w : Writer σ} (hw : WInv S E Y w) :
    ∃ r N, (∀ p, N ≤ p → ioWriteClose p w = some r) ∧ (∀ e, r = .error e → Thrown S e) ∧
      ∀ w', r = .ok w' → ∃ (v : Str) (chunks : List Str), Chain S w'.group.filters E (Y ++ v) ∧
        w'.group.slots.map (·.ops) = w.group.slots.map (·.ops) ∧ w'.log = w.log ++ chunks.map Dop.write ∧
        chunks.flatten = w.output.data ++ v ∧ (∀ c ∈ chunks, c ≠ [] ∧ c.length ≤ w.output.cap) ∧
        (∀ c ∈ chunks.dropLast, c.length = w.output.cap) := by
  obtain ⟨c, hg⟩ := hw.inv
  obtain ⟨r, N, h1, h2, h3⟩ := closeLoop_spec _ E Y (some c) w rfl hg hw.room (by simp [hw.same]) (fun h => by simpa using (chain_done hg h).2)
  exact ⟨r, N, fun p hp => h1 p p hp hp, h2, h3⟩

theorem writeAll_spec (ds : List Str) : ∀ {E Y : Str} {w : Writer σ}, WInv S E Y w →
    ∃ r N, (∀ p, N ≤ p → writeAll p ds w = some r) ∧ (∀ e, r = .error e → Thrown S e) ∧
      ∀ w', r = .ok w' → ∃ (v : Str) (chunks : List Str), WInv S (E ++ ds.flatten) (Y ++ v) w' ∧ w'.output.cap = w.output.cap ∧
        w'.group.slots.map (·.ops) = w.group.slots.map (·.ops) ∧ w'.log = w.log ++ chunks.map Dop.write ∧
        chunks.flatten ++ w'.output.data = w.output.data ++ v ∧ (∀ c ∈ chunks, c.length = w.output.cap) := by
  induction ds with
  | nil =>
    intro E Y w hw
    refine ⟨.ok w, 0, by simp [writeAll], by simp, ?_⟩
    intro w' h
    simp only [Except.ok.injEq] at h
    subst h
    exact ⟨[], [], by simpa using hw, rfl, rfl, by simp, by simp, by simp⟩
  | cons d ds ih =>
    intro E Y w hw
    obtain ⟨r, N, h1, h2, h3⟩ := ioWrite_spec (d := d) hw
    cases r with
    | error e =>
      exact ⟨.error e, N, fun p hp => by simp [writeAll, h1 p hp], h2, by simp⟩
    | ok w1 =>
      obtain ⟨v, ch, i1, i2, i3, i4, i5, i6, _⟩ := h3 w1 rfl
      obtain ⟨r, N', k1, k2, k3⟩ := ih i1
      refine ⟨r, max N N', fun p hp => ?_, k2, ?_⟩
      · simp only [writeAll, h1 p (by omega)]
        exact k1 p (by omega)
      · intro w' hr
        obtain ⟨v', ch', j1, j2, j3, j4, j5, j6⟩ := k3 w' hr
        refine ⟨v ++ v', ch ++ ch', by simpa [List.append_assoc] using j1, j2.trans i2, j3.trans i3, by rw [j4, i4]; simp, ?_, ?_⟩
        · rw [List.flatten_append, List.append_assoc, j5, ← List.append_assoc, i5, List.append_assoc]
        · intro c hc
          simp only [List.mem_append] at hc
          rcases hc with hc | hc
          · exact i6 c hc
          · rw [← i2]; exact j6 c hc

/-- Open, write and close. -/
def writeRun (fuel : Nat) (ds : List Str) (w : Writer σ) : Option (Except Fail (Writer σ)) :=
  match writeAll fuel ds w with
  | some (.ok w') => ioWriteClose fuel w'
  | r => r

/-- C67: writing any buffers of any sizes through any filters and closing ends, fails only with an error that a filter may throw,
and otherwise the driver was given exactly what the last filter gave out, where each filter was given exactly what the one before it gave out and the
first all that was written. No write to the driver is empty or larger than a buffer, and all but the last are of a full buffer. -/
theorem c67_stream {size : Nat} {buffer : Ops σ × σ} {filters : List (Ops σ × σ)} (hsize : 0 < size) (hbuf : buffer.1.out = true)
    (hF : ∀ f ∈ buffer :: filters, Fresh S f) (ds : List Str) :
    ∃ r N, (∀ p, N ≤ p → writeRun p ds (writeOpen size buffer filters) = some r) ∧ (∀ e, r = .error e → Thrown S e) ∧
      ∀ w, r = .ok w → ∃ chunks : List Str, w.log = chunks.map Dop.write ∧ Chain S w.group.filters ds.flatten chunks.flatten ∧
        w.group.filters.map (·.1) = (if lastOut filters then filters else filters ++ [buffer]).map (·.1) ∧
        (∀ c ∈ chunks, c ≠ [] ∧ c.length ≤ size) ∧ (∀ c ∈ chunks.dropLast, c.length = size) := by
  obtain ⟨r, N, h1, h2, h3⟩ := writeAll_spec ds (wInv_open hsize hbuf hF)
  cases r with
  | error e => exact ⟨.error e, N, fun p hp => by simp [writeRun, h1 p hp], h2, by simp⟩
  | ok w1 =>
    obtain ⟨v, ch, i1, i2, i3, i4, i5, i6⟩ := h3 w1 rfl
    obtain ⟨r, N', k1, k2, k3⟩ := ioWriteClose_spec i1
    refine ⟨r, max N N', fun p hp => ?_, k2, ?_⟩
    · simp only [writeRun, h1 p (by omega)]
      exact k1 p (by omega)
    · intro w hr
      obtain ⟨v', ch', j1, j2, j3, j4, j5, j6⟩ := k3 w hr
      have hcap : w1.output.cap = size := i2
      refine ⟨ch ++ ch', by rw [j3, i4]; simp [writeOpen], ?_, ?_, ?_, ?_⟩
      · rw [List.flatten_append, j4, ← List.append_assoc, i5]
        simpa [writeOpen] using j1
      · rw [← open_ops size buffer filters, Group.filters, List.map_map]
        exact j2.trans i3
      · intro c hc
        simp only [List.mem_append] at hc
        rcases hc with hc | hc
        · have := i6 c hc
          simp only [writeOpen] at this
          refine ⟨?_, by omega⟩
          rintro rfl
          simp at this
          omega
        · have := j5 c hc
          rw [hcap] at this
          exact this
      · intro c hc
        cases ch' with
        | nil =>
          rw [List.append_nil] at hc
          exact i6 c ((List.dropLast_subset ch) hc)
        | cons a l =>
          rw [List.dropLast_append_of_ne_nil (by simp), List.mem_append] at hc
          rcases hc with hc | hc
          · exact i6 c hc
          · have := j6 c hc
            rw [hcap] at this
            exact this

end Verif.Io
