import Verif.Io.ReadInv

/-!
# Reading through filters: what each function does
-/

namespace Verif.Io

variable {σ δ : Type} {S : Ops σ → Spec σ} {dr : Drv δ} {D : DSpec δ} {X Y : Str}

/-- From `r` to `r'` the filters gave out `V` and the caller took `piece`. -/
structure Moved (S : Ops σ → Spec σ) (dr : Drv δ) (D : DSpec δ) (X Y : Str) (r r' : Reader σ δ) (V piece : Str) : Prop where
  inv : RInv S dr D X (Y ++ V) r'
  keeps : Keeps r r'
  eof : r.eof = true → V = [] ∧ r'.eof = true
  flow : pending r ++ V = piece ++ pending r'

theorem Moved.trans {r r' r'' : Reader σ δ} {V V' p p' : Str} (h : Moved S dr D X Y r r' V p) (h' : Moved S dr D X (Y ++ V) r' r'' V' p') :
    Moved S dr D X Y r r'' (V ++ V') (p ++ p') := by
  refine ⟨by simpa using h'.inv, h.keeps.trans h'.keeps, ?_, ?_⟩
  · intro he
    obtain ⟨h1, h2⟩ := h.eof he
    obtain ⟨h3, h4⟩ := h'.eof h2
    exact ⟨by simp [h1, h3], h4⟩
  · rw [← List.append_assoc, h.flow, List.append_assoc, h'.flow, List.append_assoc]

/-- The order for the loops: the rank, then what is in the internal buffer. -/
def QLt (a b : (Nat × List (Nat × Nat)) × Nat) : Prop := RLt a.1 b.1 ∨ a.1 = b.1 ∧ a.2 < b.2

theorem qlt_wf : WellFounded QLt := by
  refine ⟨fun a => ?_⟩
  obtain ⟨n, l⟩ := a
  induction n using rlt_wf.induction generalizing l with
  | _ n ihn =>
    induction l using Nat.strong_induction_on with
    | _ l ihl =>
      refine ⟨_, fun y hy => ?_⟩
      obtain ⟨m, l'⟩ := y
      rcases hy with h | ⟨h1, h2⟩
      · exact ihn m h l'
      · simp only at h1
        subst h1
        exact ihl l' h2

def meas (S : Ops σ → Spec σ) (D : DSpec δ) (r : Reader σ δ) : (Nat × List (Nat × Nat)) × Nat := (rank S D r, (pending r).length)

theorem pending_length (r : Reader σ δ) : (pending r).length = r.output.length - r.pos := by simp [pending]

theorem copyOut_spec {r : Reader σ δ} (hr : RInv S dr D X Y r) (b : Buf) (hb : b.data.length ≤ b.cap) :
    ∃ piece, Moved S dr D X Y r (copyOut r b).1 [] piece ∧ (copyOut r b).2 = ⟨b.data ++ piece, b.cap⟩ ∧ (b.data ++ piece).length ≤ b.cap ∧
      rank S D (copyOut r b).1 = rank S D r ∧ (copyOut r b).1.eof = r.eof ∧ (copyOut r b).1.size = r.size ∧ (copyOut r b).1.output = r.output ∧
      (b.cap ≤ (b.data ++ piece).length ∨ pending (copyOut r b).1 = []) ∧ (piece = [] → (copyOut r b).1 = r) := by
  have hp := hr.pos
  refine ⟨(r.output.drop r.pos).take (min (r.output.length - r.pos) b.room), ⟨?_, ⟨rfl, rfl⟩, fun h => ⟨rfl, h⟩, ?_⟩, rfl, ?_, rfl, rfl, rfl, rfl, ?_, ?_⟩
  · refine ⟨hr.size, hr.len, ?_, by simpa [copyOut] using hr.inv, hr.eof⟩
    simp only [copyOut]
    omega
  · simp only [pending, copyOut, List.append_nil]
    rw [← List.drop_drop, List.take_append_drop]
  · simp only [List.length_append, List.length_take, List.length_drop, Buf.room]
    omega
  · simp only [List.length_append, List.length_take, List.length_drop, Buf.room, pending, copyOut, List.drop_eq_nil_iff]
    omega
  · intro h
    have := congrArg List.length h
    simp only [List.length_take, List.length_drop, List.length_nil] at this
    have h0 : min (r.output.length - r.pos) b.room = 0 := by omega
    simp [copyOut, h0]

theorem got_moved {block : Bool} {start : Nat} {r r' : Reader σ δ} {b b' : Buf} {w : Str} (hp : pending r = [])
    (g : Got S dr D X Y block start r b r' b' w) : Moved S dr D X Y r r' w w ∧ pending r' = [] := by
  have hp' : pending r' = [] := by
    unfold pending at hp ⊢
    rw [g.out.1, g.out.2, hp]
  refine ⟨⟨g.inv, g.keeps, fun h => ?_, by simp [hp, hp']⟩, hp'⟩
  obtain ⟨h1, h2⟩ := g.eof h
  exact ⟨h1, h2 ▸ h⟩

/-- What `ioRead` does. -/
theorem ioRead_spec (hD : DContract dr D) {r : Reader σ δ} (hr : RInv S dr D X Y r) (b : Buf) (hb : b.data.length ≤ b.cap) :
    Ends S D (fun p => ioRead dr p r b) fun a => ∃ V piece, Moved S dr D X Y r a.1 V piece ∧ a.2 = ⟨b.data ++ piece, b.cap⟩ ∧
      (b.data ++ piece).length ≤ b.cap ∧ (b.cap ≤ (b.data ++ piece).length ∨ (a.1.eof = true ∧ pending a.1 = [])) ∧
      (b.data.length < b.cap → a.1.eof = true ∨ QLt (meas S D a.1) (meas S D r)) ∧
      ((pending r).length ≤ b.cap - b.data.length → pending a.1 = []) := by
  obtain ⟨p1, m1, c1, c2, c3, c4, c5, c5', c6, c7⟩ := copyOut_spec hr b hb
  obtain ⟨res, N, h1, h2, h3⟩ := readInternal_spec hD true (copyOut r b).2.data.length X _ (Y ++ []) (copyOut r b).1 (copyOut r b).2 rfl m1.inv
    (by rw [c1]; exact c2) (fun _ _ => le_rfl)
  refine ⟨res, N, fun p hp => h1 p p hp hp, h2, ?_⟩
  intro a ha
  obtain ⟨r', b'⟩ := a
  obtain ⟨w, g⟩ := h3 r' b' ha
  have hbuf := g.buf
  have hlen := g.len
  rw [c1] at hbuf hlen
  simp only at hbuf hlen
  by_cases hf : b.cap ≤ (b.data ++ p1).length
  · -- full from the internal buffer
    have hw : w = [] := by
      have : (b.data ++ p1).length + w.length ≤ b.cap := by rw [← List.length_append]; exact hlen
      exact List.length_eq_zero_iff.1 (by omega)
    have hrr : r' = (copyOut r b).1 := g.stay (by rw [c1]; exact hf)
    subst hw hrr
    have hfl := congrArg List.length m1.flow
    refine ⟨[], p1, m1, by simpa using hbuf, c2, Or.inl hf, fun hlt => Or.inr (Or.inr ⟨c3, ?_⟩), ?_⟩
    rotate_left
    · intro hle
      simp only [List.append_nil, List.length_append] at hfl hf
      show pending (copyOut r b).1 = []
      exact List.length_eq_zero_iff.1 (by omega)
    have : 0 < p1.length := by
      simp only [List.length_append] at hf
      omega
    simp only [List.append_nil, List.length_append] at hfl
    simp only [meas]
    omega
  · have hp := c6.resolve_left hf
    obtain ⟨m2, hp'⟩ := got_moved hp g
    have m := m1.trans m2
    refine ⟨[] ++ w, p1 ++ w, m, by simpa using hbuf, by simpa using hlen, ?_, ?_, fun _ => hp'⟩
    · rcases g.full rfl with h | h
      · left
        rw [hbuf, c1] at h
        simpa using h
      · exact Or.inr ⟨h, hp'⟩
    · intro hlt
      by_cases he : r.eof = true
      · exact Or.inl (m.eof he).2
      · rcases g.lt (by rw [c4]; simpa using he) (by rw [c1]; simpa using hf) with h | h
        · exact Or.inl h
        · right; left
          rw [c3] at h
          exact h

/-- What `readOutput` does. -/
theorem readOutput_spec (hD : DContract dr D) {r : Reader σ δ} (hr : RInv S dr D X Y r) (d : Str) (hd : d = pending r) (hlt : d.length < r.size) :
    Ends S D (fun p => readOutput dr p r d) fun r' => ∃ V, Moved S dr D X Y r r' V [] ∧ r'.pos = 0 ∧ r'.output = d ++ V ∧
      (V ≠ [] ∨ r'.eof = true) ∧ (r.eof = false → r'.eof = true ∨ RLt (rank S D r') (rank S D r)) ∧
      (Quiet S r → r'.eof = true → V = []) := by
  have hr0 : RInv S dr D X Y { r with output := [], pos := 0 } := ⟨hr.size, Nat.zero_le _, le_rfl, hr.inv, hr.eof⟩
  obtain ⟨res, N, h1, h2, h3⟩ := readInternal_spec hD false d.length X _ Y { r with output := [], pos := 0 } ⟨d, r.size⟩ rfl hr0 (Nat.le_of_lt hlt)
    (fun _ _ => le_rfl)
  cases res with
  | error e =>
    refine ⟨.error e, N, ?_, by simpa using h2, by simp⟩
    intro p hp
    simp only [readOutput, h1 p p hp hp]
  | ok a =>
    obtain ⟨r', b'⟩ := a
    obtain ⟨w, g⟩ := h3 r' b' rfl
    have hbuf := g.buf
    have hlen := g.len
    have hk := g.keeps
    have hi := g.inv
    refine ⟨.ok { r' with output := b'.data, pos := 0 }, N, ?_, by simp, ?_⟩
    · intro p hp
      simp only [readOutput, h1 p p hp hp]
    · intro a ha
      simp only [Except.ok.injEq] at ha
      subst ha
      refine ⟨w, ⟨⟨hi.size, ?_, Nat.zero_le _, hi.inv, hi.eof⟩, hk, ?_, ?_⟩, rfl, by rw [hbuf], ?_, ?_, ?_⟩
      · rw [hbuf]
        simp only
        rw [hk.1]
        exact hlen
      · intro he
        obtain ⟨k1, k2⟩ := g.eof he
        exact ⟨k1, by simp only; rw [k2]; exact he⟩
      · simp only [pending, List.drop_zero, List.nil_append, hbuf]
        rw [hd, pending]
      · rcases g.any rfl with h | h | h
        · left
          rw [hbuf] at h
          simp only [List.length_append] at h
          intro h0
          subst h0
          simp at h
        · left
          rw [hbuf] at h
          simp only [List.length_append] at h
          intro h0
          subst h0
          simp only [List.length_nil] at h
          omega
        · exact Or.inr h
      · intro he
        exact g.lt he hlt
      · intro hq he
        by_cases he0 : r.eof = true
        · exact (g.eof he0).1
        · have := g.quiet rfl hq (by simpa using he0) he
          rw [hbuf] at this
          simp only [List.length_append] at this
          exact List.length_eq_zero_iff.1 (by omega)

theorem smallLoop_spec (hD : DContract dr D) (m : Nat × List (Nat × Nat)) : ∀ (Y : Str) (r : Reader σ δ) (b : Buf), rank S D r = m → RInv S dr D X Y r →
    b.data.length ≤ b.cap →
    ∃ res N, (∀ p k, N ≤ p → N ≤ k → smallLoop dr p k r b = some res) ∧ (∀ e, res = .error e → RThrown S D e) ∧
      ∀ a, res = .ok a → ∃ V piece, Moved S dr D X Y r a.1 V piece ∧ a.2 = ⟨b.data ++ piece, b.cap⟩ ∧ (b.data ++ piece).length ≤ b.cap ∧
        (b.cap ≤ (b.data ++ piece).length ∨ (a.1.eof = true ∧ (Quiet S r → pending a.1 = []))) := by
  induction m using rlt_wf.induction with
  | _ m ih =>
    intro Y r b hm hr hb
    obtain ⟨p1, m1, c1, c2, c3, c4, c5, c5', c6, c7⟩ := copyOut_spec hr b hb
    by_cases hf : (copyOut r b).2.full = true
    · refine ⟨.ok (copyOut r b), 1, ?_, by simp, ?_⟩
      · intro p k _ hk
        obtain ⟨k, rfl⟩ : ∃ j, k = j + 1 := ⟨k - 1, by omega⟩
        simp only [smallLoop, hf, if_true]
      · intro a ha
        simp only [Except.ok.injEq] at ha
        subst ha
        refine ⟨[], p1, m1, c1, c2, Or.inl ?_⟩
        rw [c1] at hf
        simpa [Buf.full] using hf
    · have hnf : ¬b.cap ≤ (b.data ++ p1).length := by
        rw [c1] at hf
        simpa [Buf.full] using hf
      have hp := c6.resolve_left hnf
      by_cases hbig : r.size ≤ (copyOut r b).2.room
      · obtain ⟨res, N, h1, h2, h3⟩ := readInternal_spec hD true (copyOut r b).2.data.length X _ (Y ++ []) (copyOut r b).1 (copyOut r b).2 rfl m1.inv
          (by rw [c1]; exact c2) (fun _ _ => le_rfl)
        cases res with
        | error e =>
          refine ⟨.error e, N + 1, ?_, by simpa using h2, by simp⟩
          intro p k hp hk
          obtain ⟨k, rfl⟩ : ∃ j, k = j + 1 := ⟨k - 1, by omega⟩
          simp only [smallLoop, if_neg hf, if_pos hbig, h1 p p (by omega) (by omega)]
        | ok a =>
          obtain ⟨r', b'⟩ := a
          obtain ⟨w, g⟩ := h3 r' b' rfl
          have hbuf := g.buf
          have hlen := g.len
          rw [c1] at hbuf hlen
          simp only at hbuf hlen
          have hend : (b'.full || r'.eof) = true := by
            rcases g.full rfl with h | h
            · rw [c1] at h
              simp only at h
              have : b'.full = true := by
                rw [hbuf] at h ⊢
                simpa [Buf.full] using h
              simp [this]
            · simp [h]
          refine ⟨.ok (r', b'), N + 1, ?_, by simp, ?_⟩
          · intro p k hp hk
            obtain ⟨k, rfl⟩ : ∃ j, k = j + 1 := ⟨k - 1, by omega⟩
            simp only [smallLoop, if_neg hf, if_pos hbig, h1 p p (by omega) (by omega), hend, if_true]
          · intro a ha
            simp only [Except.ok.injEq] at ha
            subst ha
            obtain ⟨m2, hp'⟩ := got_moved hp g
            refine ⟨[] ++ w, p1 ++ w, m1.trans m2, by simpa using hbuf, by simpa using hlen, ?_⟩
            rcases g.full rfl with h | h
            · left
              rw [hbuf, c1] at h
              simpa using h
            · exact Or.inr ⟨h, fun _ => hp'⟩
      · obtain ⟨res, N, h1, h2, h3⟩ := readOutput_spec hD m1.inv [] hp.symm (by simpa using m1.inv.size)
        cases res with
        | error e =>
          refine ⟨.error e, N + 1, ?_, by simpa using h2, by simp⟩
          intro p k hp hk
          obtain ⟨k, rfl⟩ : ∃ j, k = j + 1 := ⟨k - 1, by omega⟩
          simp only [smallLoop, if_neg hf, if_neg hbig, h1 p (by omega)]
        | ok r' =>
          obtain ⟨V, m2, o1, o2, o3, o4, o5⟩ := h3 r' rfl
          have mm := m1.trans m2
          by_cases he : r'.eof = true
          · refine ⟨.ok (r', (copyOut r b).2), N + 1, ?_, by simp, ?_⟩
            · intro p k hp hk
              obtain ⟨k, rfl⟩ : ∃ j, k = j + 1 := ⟨k - 1, by omega⟩
              simp only [smallLoop, if_neg hf, if_neg hbig, h1 p (by omega), he, if_true]
            · intro a ha
              simp only [Except.ok.injEq] at ha
              subst ha
              refine ⟨[] ++ V, p1 ++ [], mm, by simpa using c1, by simpa using c2, Or.inr ⟨he, fun hq => ?_⟩⟩
              have := o5 (m1.keeps.quiet hq) he
              simp [pending, o1, o2, this]
          · have he0 : (copyOut r b).1.eof = false := by
              by_contra h
              exact he (m2.eof (by simpa using h)).2
            have hlt := (o4 he0).resolve_left he
            rw [c3, hm] at hlt
            obtain ⟨res, N', k1, k2, k3⟩ := ih _ hlt (Y ++ ([] ++ V)) r' (copyOut r b).2 rfl mm.inv (by rw [c1]; exact c2)
            refine ⟨res, max N N' + 1, ?_, k2, ?_⟩
            · intro p k hp hk
              obtain ⟨k, rfl⟩ : ∃ j, k = j + 1 := ⟨k - 1, by omega⟩
              simp only [smallLoop, if_neg hf, if_neg hbig, h1 p (by omega), if_neg he]
              exact k1 p k (by omega) (by omega)
            · intro a ha
              obtain ⟨V', piece, j1, j2, j3, j4⟩ := k3 a ha
              rw [c1] at j2 j3 j4
              refine ⟨[] ++ V ++ V', p1 ++ [] ++ piece, mm.trans j1, by simpa using j2, by simpa using j3, ?_⟩
              rcases j4 with h | ⟨h, h'⟩
              · left; simpa using h
              · exact Or.inr ⟨h, fun hq => h' (mm.keeps.quiet hq)⟩

/-- The outcome of `ioReadLineParam`. -/
def LineOut (S : Ops σ → Spec σ) (dr : Drv δ) (D : DSpec δ) (X Y : Str) (allowEof : Bool) (r : Reader σ δ) (a : Reader σ δ × Res Str) : Prop :=
  ∃ V piece, Moved S dr D X Y r a.1 V piece ∧
    ((∃ l, a.2 = .ok l ∧ piece = l ++ [10] ∧ 10 ∉ l ∧ piece.length ≤ r.size) ∨
      (piece = [] ∧ 10 ∉ pending a.1 ∧ ((a.2 = .error .fileRead ∧ (pending a.1).length = r.size) ∨
        (a.1.eof = true ∧ (pending a.1).length < r.size ∧ a.2 = if allowEof then .ok (pending a.1) else .error .fileRead))))

theorem line_now (allowEof : Bool) {r : Reader σ δ} (hr : RInv S dr D X Y r)
    (hnow : (10 : UInt8) ∈ r.output.drop r.pos ∨ r.size ≤ (r.output.drop r.pos).length ∨ r.eof = true) :
    ∃ res N, (∀ p k, N ≤ p → N ≤ k → lineLoop dr p allowEof k r = some res) ∧ (∀ e, res = .error e → RThrown S D e) ∧
      ∀ a, res = .ok a → LineOut S dr D X Y allowEof r a := by
  have hpl := pending_length r
  have hp := hr.pos
  have hl := hr.len
  by_cases hin : (10 : UInt8) ∈ r.output.drop r.pos
  · -- a line in the buffer
    have hsplit : r.output.drop r.pos = (r.output.drop r.pos).takeWhile (· ≠ 10) ++ [10] ++
        (r.output.drop r.pos).drop (((r.output.drop r.pos).takeWhile (· ≠ 10)).length + 1) := by
      generalize r.output.drop r.pos = l at hin
      induction l with
      | nil => simp at hin
      | cons x l ihl =>
        by_cases hx : x = 10
        · simp [hx]
        · have : 10 ∈ l := by
            rcases List.mem_cons.1 hin with h | h
            · exact absurd h.symm hx
            · exact h
          have := ihl this
          simp only [ne_eq, hx, not_false_eq_true, decide_true, List.takeWhile_cons_of_pos, List.length_cons, List.cons_append, List.drop_succ_cons]
          rw [← this]
    have hlen : ((r.output.drop r.pos).takeWhile (· ≠ 10)).length + 1 ≤ (r.output.drop r.pos).length := by
      have := congrArg List.length hsplit
      simp only [List.length_append, List.length_singleton] at this
      omega
    have hlen' := hlen
    rw [List.length_drop] at hlen'
    refine ⟨.ok ({ r with pos := r.pos + ((r.output.drop r.pos).takeWhile (· ≠ 10)).length + 1 }, .ok ((r.output.drop r.pos).takeWhile (· ≠ 10))), 1, ?_, by simp, ?_⟩
    · intro p k _ hk
      obtain ⟨k, rfl⟩ : ∃ j, k = j + 1 := ⟨k - 1, by omega⟩
      simp only [lineLoop, if_pos hin]
    · intro a ha
      simp only [Except.ok.injEq] at ha
      subst ha
      refine ⟨[], (r.output.drop r.pos).takeWhile (· ≠ 10) ++ [10], ⟨⟨hr.size, hr.len, ?_, by simpa using hr.inv, hr.eof⟩, ⟨rfl, rfl⟩, fun h => ⟨rfl, h⟩, ?_⟩,
        Or.inl ⟨_, rfl, rfl, ?_, ?_⟩⟩
      · simp only
        omega
      · simp only [pending, List.append_nil]
        conv => lhs; rw [hsplit]
        rw [List.drop_drop, Nat.add_assoc]
      · intro h
        have := List.all_takeWhile (p := fun x : UInt8 => decide (x ≠ 10)) (l := r.output.drop r.pos)
        rw [List.all_eq_true] at this
        simpa using this _ h
      · simp only [List.length_append, List.length_singleton]
        omega
  · have hr1 : Moved S dr D X Y r { r with output := r.output.drop r.pos, pos := 0 } [] [] := by
      refine ⟨⟨hr.size, ?_, Nat.zero_le _, by simpa using hr.inv, hr.eof⟩, ⟨rfl, rfl⟩, fun h => ⟨rfl, h⟩, by simp [pending]⟩
      simp only [List.length_drop]
      omega
    have hp1 : pending ({ r with output := r.output.drop r.pos, pos := 0 } : Reader σ δ) = r.output.drop r.pos := by simp [pending]
    by_cases hfull : r.size ≤ (r.output.drop r.pos).length
    · refine ⟨.ok ({ r with output := r.output.drop r.pos, pos := 0 }, .error .fileRead), 1, ?_, by simp, ?_⟩
      · intro p k _ hk
        obtain ⟨k, rfl⟩ : ∃ j, k = j + 1 := ⟨k - 1, by omega⟩
        simp only [lineLoop, if_neg hin, if_pos hfull]
      · intro a ha
        simp only [Except.ok.injEq] at ha
        subst ha
        refine ⟨[], [], hr1, Or.inr ⟨rfl, by rw [hp1]; exact hin, Or.inl ⟨rfl, ?_⟩⟩⟩
        rw [hp1]
        simp only [List.length_drop] at hfull ⊢
        omega
    · by_cases he : r.eof = true
      · refine ⟨.ok ({ r with output := r.output.drop r.pos, pos := 0 }, if allowEof then .ok (r.output.drop r.pos) else .error .fileRead), 1, ?_, by simp, ?_⟩
        · intro p k _ hk
          obtain ⟨k, rfl⟩ : ∃ j, k = j + 1 := ⟨k - 1, by omega⟩
          simp only [lineLoop, if_neg hin, if_neg hfull, if_pos he]
        · intro a ha
          simp only [Except.ok.injEq] at ha
          subst ha
          refine ⟨[], [], hr1, Or.inr ⟨rfl, by rw [hp1]; exact hin, Or.inr ⟨he, by rw [hp1]; omega, by rw [hp1]⟩⟩⟩
      · exact absurd hnow (by simp only [not_or]; exact ⟨hin, hfull, he⟩)

/-- What `ioReadLineParam` does. -/
theorem lineLoop_spec (hD : DContract dr D) (allowEof : Bool) (m : Nat × List (Nat × Nat)) : ∀ (Y : Str) (r : Reader σ δ), rank S D r = m → RInv S dr D X Y r →
    ∃ res N, (∀ p k, N ≤ p → N ≤ k → lineLoop dr p allowEof k r = some res) ∧ (∀ e, res = .error e → RThrown S D e) ∧
      ∀ a, res = .ok a → LineOut S dr D X Y allowEof r a := by
  induction m using rlt_wf.induction with
  | _ m ih =>
    intro Y r hm hr
    by_cases hnow : (10 : UInt8) ∈ r.output.drop r.pos ∨ r.size ≤ (r.output.drop r.pos).length ∨ r.eof = true
    · exact line_now allowEof hr hnow
    · rw [not_or, not_or] at hnow
      obtain ⟨hin, hfull, he⟩ := hnow
      obtain ⟨res, N, h1, h2, h3⟩ := readOutput_spec hD hr (r.output.drop r.pos) rfl (by omega)
      cases res with
      | error e =>
        refine ⟨.error e, N + 1, ?_, by simpa using h2, by simp⟩
        intro p k hp hk
        obtain ⟨k, rfl⟩ : ∃ j, k = j + 1 := ⟨k - 1, by omega⟩
        simp only [lineLoop, if_neg hin, if_neg hfull, if_neg he, h1 p (by omega)]
      | ok r' =>
        obtain ⟨V, m2, o1, o2, o3, o4, o5⟩ := h3 r' rfl
        have key : ∃ res N, (∀ p k, N ≤ p → N ≤ k → lineLoop dr p allowEof k r' = some res) ∧ (∀ e, res = .error e → RThrown S D e) ∧
            ∀ a, res = .ok a → LineOut S dr D X (Y ++ V) allowEof r' a := by
          by_cases he' : r'.eof = true
          · exact line_now allowEof m2.inv (Or.inr (Or.inr he'))
          · have hlt := (o4 (by simpa using he)).resolve_left he'
            exact ih _ (hm ▸ hlt) _ r' rfl m2.inv
        obtain ⟨res, N', k1, k2, k3⟩ := key
        refine ⟨res, max N N' + 1, ?_, k2, ?_⟩
        · intro p k hp hk
          obtain ⟨k, rfl⟩ : ∃ j, k = j + 1 := ⟨k - 1, by omega⟩
          simp only [lineLoop, if_neg hin, if_neg hfull, if_neg he, h1 p (by omega)]
          exact k1 p k (by omega) (by omega)
        · intro a ha
          obtain ⟨V', piece, j1, j2⟩ := k3 a ha
          rw [m2.keeps.1] at j2
          exact ⟨V ++ V', [] ++ piece, m2.trans j1, by simpa using j2⟩

/-- The outcome of `ioReadVarIntU64` with `k` turns left. -/
def VarOut (S : Ops σ → Spec σ) (dr : Drv δ) (D : DSpec δ) (X Y : Str) (k idx : Nat) (result : UInt64) (r : Reader σ δ) (a : Reader σ δ × Res UInt64) : Prop :=
  ∃ V piece, Moved S dr D X Y r a.1 V piece ∧
    ((∃ v, a.2 = .ok v ∧ ∀ tail, Varint.readGo k idx result (piece ++ tail) = .ok (v, tail)) ∨
      (a.2 = .error .format ∧ piece.length = k ∧ ∀ x ∈ piece, ¬x < 0x80) ∨
      (a.2 = .error .fileRead ∧ piece.length < k ∧ (∀ x ∈ piece, ¬x < 0x80) ∧ a.1.eof = true ∧ pending a.1 = []))

theorem more_spec (hD : DContract dr D) {r : Reader σ δ} (hr : RInv S dr D X Y r) :
    Ends S D (fun p => more dr p r) fun r' => ∃ V, Moved S dr D X Y r r' V [] ∧ (pending r' = [] → r'.eof = true) := by
  have hpl := pending_length r
  by_cases h0 : r.output.length - r.pos = 0
  · have hp : pending r = [] := List.length_eq_zero_iff.1 (by omega)
    obtain ⟨res, N, h1, h2, h3⟩ := readOutput_spec hD hr [] hp.symm hr.size
    refine ⟨res, N, fun p hp => ?_, h2, ?_⟩
    · simp only [more, if_pos h0]
      exact h1 p hp
    · intro r' hr'
      obtain ⟨V, m, o1, o2, o3, _⟩ := h3 r' hr'
      refine ⟨V, m, fun h => o3.resolve_left fun hV => hV ?_⟩
      simpa [pending, o1, o2] using h
  · refine ⟨.ok r, 0, fun p _ => by simp only [more, if_neg h0], by simp, ?_⟩
    intro r' hr'
    simp only [Except.ok.injEq] at hr'
    subst hr'
    refine ⟨[], ⟨by simpa using hr, ⟨rfl, rfl⟩, fun h => ⟨rfl, h⟩, by simp⟩, fun h => ?_⟩
    rw [h] at hpl
    simp only [List.length_nil] at hpl
    omega

theorem varLoop_spec (hD : DContract dr D) (k : Nat) : ∀ (idx : Nat) (result : UInt64) (Y : Str) (r : Reader σ δ), RInv S dr D X Y r →
    Ends S D (fun p => varLoop dr p k idx result r) fun a => VarOut S dr D X Y k idx result r a := by
  induction k with
  | zero =>
    intro idx result Y r hr
    refine ⟨.ok (r, .error .format), 0, fun p _ => rfl, by simp, ?_⟩
    intro a ha
    simp only [Except.ok.injEq] at ha
    subst ha
    exact ⟨[], [], ⟨by simpa using hr, ⟨rfl, rfl⟩, fun h => ⟨rfl, h⟩, by simp⟩, Or.inr (Or.inl ⟨rfl, rfl, by simp⟩)⟩
  | succ k ih =>
    intro idx result Y r hr
    obtain ⟨res, N, h1, h2, h3⟩ := more_spec hD hr
    cases res with
    | error e =>
      refine ⟨.error e, N, fun p hp => ?_, by simpa using h2, by simp⟩
      simp only [varLoop, h1 p hp]
    | ok r' =>
      obtain ⟨V, m, hpe⟩ := h3 r' rfl
      cases hrest : r'.output.drop r'.pos with
      | nil =>
        refine ⟨.ok (r', .error .fileRead), N, fun p hp => ?_, by simp, ?_⟩
        · simp only [varLoop, h1 p hp, hrest]
        · intro a ha
          simp only [Except.ok.injEq] at ha
          subst ha
          exact ⟨V, [], m, Or.inr (Or.inr ⟨rfl, by simp, by simp, hpe hrest, hrest⟩)⟩
      | cons byte rest =>
        have hlt : r'.pos < r'.output.length := by
          have := congrArg List.length hrest
          simp only [List.length_drop, List.length_cons] at this
          omega
        have m1 : Moved S dr D X (Y ++ V) r' { r' with pos := r'.pos + 1 } [] [byte] := by
          refine ⟨⟨m.inv.size, m.inv.len, ?_, by simpa using m.inv.inv, m.inv.eof⟩, ⟨rfl, rfl⟩, fun h => ⟨rfl, h⟩, ?_⟩
          · simp only
            omega
          · simp only [pending, List.append_nil, ← List.drop_drop, hrest, List.drop_succ_cons, List.drop_zero, List.singleton_append]
        have mm := m.trans m1
        by_cases hb : byte < 0x80
        · refine ⟨.ok ({ r' with pos := r'.pos + 1 }, .ok (result ||| ((byte &&& 0x7f).toUInt64 <<< (UInt64.ofNat (7 * idx))))), N, fun p hp => ?_, by simp, ?_⟩
          · simp only [varLoop, h1 p hp, hrest, if_pos hb]
          · intro a ha
            simp only [Except.ok.injEq] at ha
            subst ha
            refine ⟨_, _, mm, Or.inl ⟨_, rfl, fun tail => ?_⟩⟩
            simp only [List.nil_append, List.singleton_append, Varint.readGo, if_pos hb]
        · obtain ⟨res, N', k1, k2, k3⟩ := ih (idx + 1) (result ||| ((byte &&& 0x7f).toUInt64 <<< (UInt64.ofNat (7 * idx)))) _ _ mm.inv
          refine ⟨res, max N N', fun p hp => ?_, k2, ?_⟩
          · simp only [varLoop, h1 p (by omega), hrest, if_neg hb]
            exact k1 p (by omega)
          · intro a ha
            obtain ⟨V', piece, j1, j2⟩ := k3 a ha
            refine ⟨_, _, mm.trans j1, ?_⟩
            rcases j2 with ⟨v, e1, e2⟩ | ⟨e1, e2, e3⟩ | ⟨e1, e2, e3, e4⟩
            · refine Or.inl ⟨v, e1, fun tail => ?_⟩
              simp only [List.nil_append, List.singleton_append, List.cons_append, Varint.readGo, if_neg hb]
              exact e2 tail
            · refine Or.inr (Or.inl ⟨e1, by simp [e2], ?_⟩)
              intro x hx
              simp only [List.nil_append, List.singleton_append, List.mem_cons] at hx
              rcases hx with rfl | hx
              · exact hb
              · exact e3 x hx
            · refine Or.inr (Or.inr ⟨e1, by simp; omega, ?_, e4⟩)
              intro x hx
              simp only [List.nil_append, List.singleton_append, List.mem_cons] at hx
              rcases hx with rfl | hx
              · exact hb
              · exact e3 x hx

theorem flushLoop_spec (hD : DContract dr D) (m : (Nat × List (Nat × Nat)) × Nat) : ∀ (Y : Str) (r : Reader σ δ) (n : Nat), meas S D r = m → RInv S dr D X Y r →
    ∃ res N, (∀ p k, N ≤ p → N ≤ k → flushLoop dr p k r n = some res) ∧ (∀ e, res = .error e → RThrown S D e) ∧
      ∀ a, res = .ok a → ∃ V piece, Moved S dr D X Y r a.1 V piece ∧ a.1.eof = true ∧ pending a.1 = [] ∧ a.2 = n + piece.length := by
  induction m using qlt_wf.induction with
  | _ m ih =>
    intro Y r n hm hr
    obtain ⟨res, N, h1, h2, h3⟩ := ioRead_spec hD hr ⟨[], r.size⟩ (Nat.zero_le _)
    cases res with
    | error e =>
      refine ⟨.error e, N + 1, ?_, by simpa using h2, by simp⟩
      intro p k hp hk
      obtain ⟨k, rfl⟩ : ∃ j, k = j + 1 := ⟨k - 1, by omega⟩
      simp only [flushLoop, h1 p (by omega)]
    | ok a =>
      obtain ⟨r', b'⟩ := a
      obtain ⟨V, piece, m1, hb, hlen, _, hlt, hpd⟩ := h3 (r', b') rfl
      simp only [List.nil_append] at hb hlen
      have hpd := hpd (by
        have := hr.len
        have := pending_length r
        simp only [List.length_nil]
        omega)
      subst hb
      by_cases he : r'.eof = true
      · refine ⟨.ok (r', n + piece.length), N + 1, ?_, by simp, ?_⟩
        · intro p k hp hk
          obtain ⟨k, rfl⟩ : ∃ j, k = j + 1 := ⟨k - 1, by omega⟩
          simp only [flushLoop, h1 p (by omega), if_pos he]
        · intro a ha
          simp only [Except.ok.injEq] at ha
          subst ha
          exact ⟨V, piece, m1, he, hpd, rfl⟩
      · obtain ⟨res, N', k1, k2, k3⟩ := ih _ (hm ▸ (hlt hr.size).resolve_left he) (Y ++ V) r' (n + piece.length) rfl m1.inv
        refine ⟨res, max N N' + 1, ?_, k2, ?_⟩
        · intro p k hp hk
          obtain ⟨k, rfl⟩ : ∃ j, k = j + 1 := ⟨k - 1, by omega⟩
          simp only [flushLoop, h1 p (by omega), if_neg he]
          exact k1 p k (by omega) (by omega)
        · intro a ha
          obtain ⟨V', piece', j1, j2, j3, j4⟩ := k3 a ha
          exact ⟨V ++ V', piece ++ piece', m1.trans j1, j2, j3, by rw [j4]; simp [Nat.add_assoc]⟩

theorem bufLoop_spec (hD : DContract dr D) (m : (Nat × List (Nat × Nat)) × Nat) : ∀ (Y : Str) (r : Reader σ δ) (b : Buf), meas S D r = m → RInv S dr D X Y r →
    b.data.length ≤ b.cap →
    ∃ res N, (∀ p k, N ≤ p → N ≤ k → bufLoop dr p k r b = some res) ∧ (∀ e, res = .error e → RThrown S D e) ∧
      ∀ a, res = .ok a → ∃ V piece, Moved S dr D X Y r a.1 V piece ∧ a.1.eof = true ∧ pending a.1 = [] ∧ a.2 = b.data ++ piece := by
  induction m using qlt_wf.induction with
  | _ m ih =>
    intro Y r b hm hr hbl
    have hsz := hr.size
    obtain ⟨res, N, h1, h2, h3⟩ := ioRead_spec hD hr { b with cap := b.cap + r.size } (by simp only; omega)
    cases res with
    | error e =>
      refine ⟨.error e, N + 1, ?_, by simpa using h2, by simp⟩
      intro p k hp hk
      obtain ⟨k, rfl⟩ : ∃ j, k = j + 1 := ⟨k - 1, by omega⟩
      simp only [bufLoop, h1 p (by omega)]
    | ok a =>
      obtain ⟨r', b'⟩ := a
      obtain ⟨V, piece, m1, hb, hlen, _, hlt, hpd⟩ := h3 (r', b') rfl
      simp only at hb hlen
      have hpd := hpd (by
        have := hr.len
        have := pending_length r
        simp only
        omega)
      subst hb
      by_cases he : r'.eof = true
      · refine ⟨.ok (r', b.data ++ piece), N + 1, ?_, by simp, ?_⟩
        · intro p k hp hk
          obtain ⟨k, rfl⟩ : ∃ j, k = j + 1 := ⟨k - 1, by omega⟩
          simp only [bufLoop, h1 p (by omega), if_pos he]
        · intro a ha
          simp only [Except.ok.injEq] at ha
          subst ha
          exact ⟨V, piece, m1, he, hpd, rfl⟩
      · obtain ⟨res, N', k1, k2, k3⟩ := ih _ (hm ▸ (hlt (by simp only; omega)).resolve_left he) (Y ++ V) r' ⟨b.data ++ piece, b.cap + r.size⟩ rfl m1.inv hlen
        refine ⟨res, max N N' + 1, ?_, k2, ?_⟩
        · intro p k hp hk
          obtain ⟨k, rfl⟩ : ∃ j, k = j + 1 := ⟨k - 1, by omega⟩
          simp only [bufLoop, h1 p (by omega), if_neg he]
          exact k1 p k (by omega) (by omega)
        · intro a ha
          obtain ⟨V', piece', j1, j2, j3, j4⟩ := k3 a ha
          exact ⟨V ++ V', piece ++ piece', m1.trans j1, j2, j3, by rw [j4]; simp⟩

end Verif.Io
