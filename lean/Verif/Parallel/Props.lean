import Verif.Parallel.Model

/-!
# C29 The parallel executor
-/

namespace Verif.Parallel

variable {σ α : Type}

/-! ## Specification -/

/-- The jobs the callback handed out, numbered in order: number, client, job. -/
def number : Nat → List (Nat × Option α) → List (Nat × Nat × α)
  | _, [] => []
  | k, (i, some job) :: rest => (k, i, job) :: number (k + 1) rest
  | k, (_, none) :: rest => number k rest

/-- What identifies a job. -/
def key (r : Rec α) : Nat × Nat × α := (r.id, r.client, r.job)

/-! ## Lemmas -/

theorem number_append (k : Nat) (l m : List (Nat × Option α)) :
    number k (l ++ m) = number k l ++ number (k + (number k l).length) m := by
  induction l generalizing k with
  | nil => simp [number]
  | cons x l ih =>
    obtain ⟨i, o⟩ := x
    cases o with
    | none => simp only [List.cons_append, number]; exact ih k
    | some j =>
      simp only [List.cons_append, number, ih (k + 1), List.length_cons]
      rw [show k + 1 + (number (k + 1) l).length = k + ((number (k + 1) l).length + 1) by omega]

theorem number_ids (k : Nat) (l : List (Nat × Option α)) : (number k l).map (·.1) = List.range' k (number k l).length := by
  induction l generalizing k with
  | nil => simp [number]
  | cons x l ih =>
    obtain ⟨i, o⟩ := x
    cases o with
    | none => simp only [number]; exact ih k
    | some j => simp only [number, List.map_cons, ih (k + 1), List.length_cons, List.range'_succ]

theorem number_snd (k : Nat) (l : List (Nat × Option α)) :
    (number k l).map (·.2) = l.filterMap (fun c => c.2.map (fun j => (c.1, j))) := by
  induction l generalizing k with
  | nil => simp [number]
  | cons x l ih =>
    obtain ⟨i, o⟩ := x
    cases o with
    | none => simp [number, ih k]
    | some j => simp [number, ih (k + 1)]

theorem upd_same {β : Type} (f : Nat → β) (k : Nat) (v : β) : upd f k v k = v := by simp [upd]

theorem upd_ne {β : Type} (f : Nat → β) {k n : Nat} (v : β) (h : n ≠ k) : upd f k v n = f n := by simp [upd, h]

theorem markDone_key (id : Nat) (jobs : List (Rec α)) : (markDone id jobs).map key = jobs.map key := by
  unfold markDone
  rw [List.map_map]
  congr 1
  funext r
  simp only [Function.comp, key]
  split <;> rfl

theorem markDone_mem {id : Nat} {jobs : List (Rec α)} {r : Rec α} (h : r ∈ markDone id jobs) :
    (r.id = id ∧ r.done = true ∧ ∃ r' ∈ jobs, key r' = key r) ∨ (r.id ≠ id ∧ r ∈ jobs) := by
  obtain ⟨r', hm, rfl⟩ := List.mem_map.1 h
  by_cases hi : r'.id = id
  · rw [if_pos hi]; exact Or.inl ⟨hi, rfl, r', hm, rfl⟩
  · rw [if_neg hi]; exact Or.inr ⟨hi, hm⟩

/-- The invariant between any two passes of the loops. -/
structure Inv (st : St σ α) : Prop where
  perm : ((st.delivered ++ st.jobs).map key).Perm (number 0 st.calls)
  count : st.nextId = (number 0 st.calls).length
  run : ∀ i id, st.slots i = .running id → ∃ r ∈ st.jobs, r.id = id ∧ r.client = i ∧ r.done = false
  open' : ∀ r ∈ st.jobs, r.done = false → st.slots r.client = .running r.id
  del : ∀ r ∈ st.delivered, r.done = true
  freed : ∀ i, st.slots i = .freed ↔ (i, none) ∈ st.calls
  bound : ∀ r ∈ st.jobs, r.client < st.total
  final : st.calls.Pairwise (fun c d => c.2 = none → d.1 ≠ c.1)

theorem Inv.start (total : Nat) (cb : σ) : Inv (start total cb : St σ α) := by
  constructor <;> simp [Parallel.start, number]

/-- The numbers of jobs are different. -/
theorem Inv.ids {st : St σ α} (h : Inv st) : ((st.delivered ++ st.jobs).map (·.id)).Nodup := by
  have h1 : ((st.delivered ++ st.jobs).map (·.id)) = ((st.delivered ++ st.jobs).map key).map (·.1) := by
    rw [List.map_map]; rfl
  rw [h1]
  refine (h.perm.map (·.1)).nodup_iff.2 ?_
  rw [number_ids]
  exact List.nodup_range'

theorem Inv.job_unique {st : St σ α} (h : Inv st) {r r' : Rec α} (h1 : r ∈ st.jobs) (h2 : r' ∈ st.jobs) (he : r.id = r'.id) :
    r = r' := by
  have hn : (st.jobs.map (·.id)).Nodup := by
    have := h.ids
    rw [List.map_append, List.nodup_append] at this
    exact this.2.1
  clear h
  generalize st.jobs = l at *
  induction l with
  | nil => cases h1
  | cons x l ih =>
    rw [List.map_cons, List.nodup_cons] at hn
    rcases List.mem_cons.1 h1 with ha | ha <;> rcases List.mem_cons.1 h2 with hb | hb
    · rw [ha, hb]
    · subst ha; exact absurd (List.mem_map.2 ⟨r', hb, he.symm⟩) hn.1
    · subst hb; exact absurd (List.mem_map.2 ⟨r, ha, he⟩) hn.1
    · exact ih ha hb hn.2

theorem Inv.finish {st : St σ α} (h : Inv st) (ready : Nat → Bool) (i : Nat) : Inv (finishStep ready st i) := by
  unfold finishStep
  split
  · rename_i id hs
    split
    · obtain ⟨r0, hr0, hid0, hc0, hd0⟩ := h.run i id hs
      refine ⟨?_, h.count, ?_, ?_, h.del, ?_, ?_, h.final⟩
      · simp only [List.map_append, markDone_key]
        rw [← List.map_append]; exact h.perm
      · intro j id' hj
        dsimp only at hj ⊢
        by_cases hji : j = i
        · subst hji; rw [upd_same] at hj; cases hj
        · rw [upd_ne _ _ hji] at hj
          obtain ⟨r, hr, hid, hc, hd⟩ := h.run j id' hj
          refine ⟨r, ?_, hid, hc, hd⟩
          refine List.mem_map.2 ⟨r, hr, ?_⟩
          rw [if_neg]
          intro he
          have := h.job_unique hr hr0 (by rw [he, hid0])
          subst this
          exact hji (by rw [← hc, ← hc0])
      · intro r hr hd
        dsimp only at hr ⊢
        rcases markDone_mem hr with ⟨_, hd', _⟩ | ⟨hne, hm⟩
        · rw [hd] at hd'; cases hd'
        · have hsl := h.open' r hm hd
          rw [upd_ne]
          · exact hsl
          · intro hci
            rw [hci, hs] at hsl
            injection hsl with hsl
            exact hne hsl.symm
      · intro j
        dsimp only
        by_cases hji : j = i
        · subst hji
          rw [upd_same]
          constructor
          · intro hc; cases hc
          · intro hc; rw [← h.freed, hs] at hc; cases hc
        · rw [upd_ne _ _ hji]; exact h.freed j
      · intro r hr
        dsimp only at hr ⊢
        rcases markDone_mem hr with ⟨_, _, r', hm, hk⟩ | ⟨_, hm⟩
        · have := h.bound r' hm
          have hc : r'.client = r.client := by simp only [key, Prod.mk.injEq] at hk; exact hk.2.1
          omega
        · exact h.bound r hm
    · exact h
  · exact h

theorem Inv.assign {st : St σ α} (h : Inv st) (next : σ → Nat → Option α × σ) {i : Nat} (hi : i < st.total) :
    Inv (assignStep next st i) := by
  unfold assignStep
  split
  · rename_i hs
    have hfin : ∀ o : Option α, (st.calls ++ [(i, o)]).Pairwise (fun c d => c.2 = none → d.1 ≠ c.1) := by
      intro o
      rw [List.pairwise_append]
      refine ⟨h.final, List.pairwise_singleton _ _, ?_⟩
      rintro ⟨j, o'⟩ hc d hd ho
      have : d = (i, o) := List.mem_singleton.1 hd
      subst this
      dsimp only at ho ⊢
      subst ho
      intro he
      subst he
      rw [← h.freed, hs] at hc; cases hc
    split
    · rename_i job cb hn
      refine ⟨?_, ?_, ?_, ?_, h.del, ?_, ?_, hfin _⟩
      · dsimp only
        rw [number_append, ← List.append_assoc, List.map_append]
        refine h.perm.append ?_
        simp [number, key, h.count]
      · dsimp only
        rw [number_append, h.count]; simp [number]
      · intro j id hj
        dsimp only at hj ⊢
        by_cases hji : j = i
        · subst hji
          rw [upd_same] at hj
          injection hj with hj
          exact ⟨_, List.mem_append_right _ (List.mem_singleton.2 rfl), hj, rfl, rfl⟩
        · rw [upd_ne _ _ hji] at hj
          obtain ⟨r, hr, hid⟩ := h.run j id hj
          exact ⟨r, List.mem_append_left _ hr, hid⟩
      · intro r hr hd
        dsimp only at hr ⊢
        rcases List.mem_append.1 hr with hr | hr
        · have hsl := h.open' r hr hd
          rw [upd_ne]
          · exact hsl
          · intro hc; rw [hc, hs] at hsl; cases hsl
        · have : r = _ := List.mem_singleton.1 hr
          subst this
          rw [upd_same]
      · intro j
        dsimp only
        by_cases hji : j = i
        · subst hji
          rw [upd_same]
          constructor
          · intro hc; cases hc
          · intro hc
            rcases List.mem_append.1 hc with hc | hc
            · rw [← h.freed, hs] at hc; cases hc
            · simp at hc
        · rw [upd_ne _ _ hji, h.freed j]; simp
      · intro r hr
        dsimp only at hr ⊢
        rcases List.mem_append.1 hr with hr | hr
        · exact h.bound r hr
        · have : r = _ := List.mem_singleton.1 hr
          subst this
          exact hi
    · rename_i cb hn
      refine ⟨?_, ?_, ?_, ?_, h.del, ?_, h.bound, hfin _⟩
      · dsimp only
        rw [number_append]; simpa [number] using h.perm
      · dsimp only
        rw [number_append, h.count]; simp [number]
      · intro j id hj
        dsimp only at hj ⊢
        by_cases hji : j = i
        · subst hji; rw [upd_same] at hj; cases hj
        · rw [upd_ne _ _ hji] at hj
          exact h.run j id hj
      · intro r hr hd
        dsimp only at hr ⊢
        have hsl := h.open' r hr hd
        rw [upd_ne]
        · exact hsl
        · intro hc; rw [hc, hs] at hsl; cases hsl
      · intro j
        dsimp only
        by_cases hji : j = i
        · subst hji
          rw [upd_same]; simp
        · rw [upd_ne _ _ hji, h.freed j]; simp [hji]
  · exact h

theorem finish_total (ready : Nat → Bool) (st : St σ α) (i : Nat) : (finishStep ready st i).total = st.total := by
  unfold finishStep; split <;> (try split) <;> rfl

theorem assign_total (next : σ → Nat → Option α × σ) (st : St σ α) (i : Nat) : (assignStep next st i).total = st.total := by
  unfold assignStep; split <;> (try split) <;> rfl

theorem Inv.finishAll {ready : Nat → Bool} (l : List Nat) : ∀ {st : St σ α}, Inv st →
    Inv (l.foldl (finishStep ready) st) ∧ (l.foldl (finishStep ready) st).total = st.total := by
  induction l with
  | nil => intro st h; exact ⟨h, rfl⟩
  | cons x l ih =>
    intro st h
    obtain ⟨h1, h2⟩ := ih (h.finish ready x)
    exact ⟨h1, by rw [List.foldl_cons, h2, finish_total]⟩

theorem Inv.assignAll {next : σ → Nat → Option α × σ} (l : List Nat) : ∀ {st : St σ α}, Inv st → (∀ i ∈ l, i < st.total) →
    Inv (l.foldl (assignStep next) st) ∧ (l.foldl (assignStep next) st).total = st.total := by
  induction l with
  | nil => intro st h _; exact ⟨h, rfl⟩
  | cons x l ih =>
    intro st h hl
    obtain ⟨h1, h2⟩ := ih (h.assign next (hl x (by simp))) (by
      intro i hi; rw [assign_total]; exact hl i (List.mem_cons_of_mem _ hi))
    exact ⟨h1, by rw [List.foldl_cons, h2, assign_total]⟩

theorem Inv.process {next : σ → Nat → Option α × σ} {ready : Nat → Bool} {st : St σ α} (h : Inv st) :
    Inv (process next ready st).1 ∧ (process next ready st).1.total = st.total := by
  unfold Parallel.process
  dsimp only
  obtain ⟨h1, h2⟩ := Inv.finishAll (ready := ready) (List.range st.total) h
  obtain ⟨h3, h4⟩ := Inv.assignAll (next := next) (List.range ((List.range st.total).foldl (finishStep ready) st).total) h1
    (fun i hi => List.mem_range.1 hi)
  exact ⟨h3, by rw [h4, h2]⟩

theorem takeDone_some {l rest : List (Rec α)} {r : Rec α} (h : takeDone l = some (r, rest)) :
    r.done = true ∧ l.Perm (r :: rest) := by
  induction l generalizing rest with
  | nil => cases h
  | cons x l ih =>
    simp only [takeDone] at h
    split at h
    · rename_i hd; cases h; exact ⟨hd, List.Perm.refl _⟩
    · split at h
      · rename_i y rest' hy
        cases h
        obtain ⟨h1, h2⟩ := ih hy
        exact ⟨h1, (h2.cons x).trans (List.Perm.swap _ _ _)⟩
      · cases h

theorem takeDone_none {l : List (Rec α)} : takeDone l = none ↔ ∀ r ∈ l, r.done = false := by
  induction l with
  | nil => simp [takeDone]
  | cons x l ih =>
    simp only [takeDone]
    cases hx : x.done with
    | true => simp [hx]
    | false =>
      cases ht : takeDone l with
      | none =>
        simp only [List.forall_mem_cons, hx, true_and, Bool.false_eq_true, if_false, true_iff]
        exact ih.1 ht
      | some p =>
        obtain ⟨y, rest⟩ := p
        simp only [Bool.false_eq_true, if_false, List.forall_mem_cons, hx, true_and]
        constructor
        · intro h; cases h
        · intro h; rw [ih.2 h] at ht; cases ht

theorem Inv.result {st : St σ α} (h : Inv st) : Inv (result st).2 ∧ (result st).2.total = st.total := by
  unfold Parallel.result
  split
  · rename_i r rest ht
    obtain ⟨hd, hp⟩ := takeDone_some ht
    have hmem : ∀ x, x ∈ rest → x ∈ st.jobs := fun x hx => hp.mem_iff.2 (List.mem_cons_of_mem _ hx)
    refine ⟨⟨?_, h.count, ?_, ?_, ?_, h.freed, ?_, h.final⟩, rfl⟩
    · dsimp only
      refine List.Perm.trans (List.Perm.map key ?_) h.perm
      rw [List.append_assoc]
      exact List.Perm.append_left _ hp.symm
    · intro i id hi
      obtain ⟨x, hx, hid, hc, hdx⟩ := h.run i id hi
      rcases List.mem_cons.1 (hp.mem_iff.1 hx) with rfl | hx
      · rw [hd] at hdx; cases hdx
      · exact ⟨x, hx, hid, hc, hdx⟩
    · intro x hx hdx
      exact h.open' x (hmem x hx) hdx
    · intro x hx
      rcases List.mem_append.1 hx with hx | hx
      · exact h.del x hx
      · have : x = r := List.mem_singleton.1 hx
        subst this; exact hd
    · intro x hx; exact h.bound x (hmem x hx)
  · exact ⟨h, rfl⟩

theorem Inv.runs {next : σ → Nat → Option α × σ} (ops : List Op) : ∀ {st : St σ α}, Inv st →
    Inv (Parallel.run next st ops) ∧ (Parallel.run next st ops).total = st.total := by
  induction ops with
  | nil => intro st h; exact ⟨h, rfl⟩
  | cons o ops ih =>
    intro st h
    cases o with
    | process ready =>
      obtain ⟨h1, h2⟩ := h.process (next := next) (ready := ready)
      obtain ⟨h3, h4⟩ := ih h1
      exact ⟨h3, by simp only [Parallel.run]; rw [h4, h2]⟩
    | result =>
      obtain ⟨h1, h2⟩ := h.result
      obtain ⟨h3, h4⟩ := ih h1
      exact ⟨h3, by simp only [Parallel.run]; rw [h4, h2]⟩

/-! ## C29 -/

/-- C29: for every callback, every number of clients and every sequence of calls with any clients ready: the jobs that were delivered
together with the jobs that are outstanding are the jobs the callback handed out, each once and with the client that asked for it.
No two of them are one job, and a delivered job was done. -/
theorem c29_once (next : σ → Nat → Option α × σ) (total : Nat) (cb : σ) (ops : List Op) :
    let st := run next (start total cb) ops
    ((st.delivered ++ st.jobs).map (fun r => (r.client, r.job))).Perm
        (st.calls.filterMap (fun c => c.2.map (fun j => (c.1, j)))) ∧
      ((st.delivered ++ st.jobs).map (·.id)).Nodup ∧ ∀ r ∈ st.delivered, r.done = true := by
  intro st
  have h : Inv st := (Inv.runs ops (Inv.start total cb)).1
  refine ⟨?_, h.ids, h.del⟩
  have h1 : (st.delivered ++ st.jobs).map (fun r => (r.client, r.job)) = ((st.delivered ++ st.jobs).map key).map (·.2) := by
    rw [List.map_map]; rfl
  rw [h1, ← number_snd 0]
  exact h.perm.map _

/-- C29: a client works on one job at a time, and each job that is not done is the one its client works on. -/
theorem c29_single (next : σ → Nat → Option α × σ) (total : Nat) (cb : σ) (ops : List Op) :
    let st := run next (start total cb) ops
    ∀ r ∈ st.jobs, ∀ r' ∈ st.jobs, r.done = false → r'.done = false → r.client = r'.client → r = r' := by
  intro st r hr r' hr' hd hd' hc
  have h : Inv st := (Inv.runs ops (Inv.start total cb)).1
  have h1 := h.open' r hr hd
  have h2 := h.open' r' hr' hd'
  rw [hc, h2] at h1
  injection h1 with h1
  exact h.job_unique hr hr' h1.symm

/-- C29: a client for which the callback had no job is not asked again. -/
theorem c29_final (next : σ → Nat → Option α × σ) (total : Nat) (cb : σ) (ops : List Op) (a b : List (Nat × Option α)) (i : Nat)
    (h : (run next (start total cb) ops).calls = a ++ (i, none) :: b) : ∀ c ∈ b, c.1 ≠ i := by
  have hi := ((Inv.runs (next := next) ops (Inv.start total cb)).1).final
  rw [h, List.pairwise_append, List.pairwise_cons] at hi
  intro c hc
  exact hi.2.1.1 c hc rfl

/-- The callback called for some clients one after the other. -/
def replay (next : σ → Nat → Option α × σ) : σ → List Nat → List (Nat × Option α) × σ
  | s, [] => ([], s)
  | s, i :: rest =>
    let (o, s') := next s i
    let (os, s'') := replay next s' rest
    ((i, o) :: os, s'')

theorem replay_append (next : σ → Nat → Option α × σ) (a b : List Nat) : ∀ s,
    replay next s (a ++ b) =
      ((replay next s a).1 ++ (replay next (replay next s a).2 b).1, (replay next (replay next s a).2 b).2) := by
  induction a with
  | nil => intro s; rfl
  | cons x a ih => intro s; simp only [List.cons_append, replay, ih]

/-- The history is what the callback answers when called for these clients in this order. -/
def Replays (next : σ → Nat → Option α × σ) (cb : σ) (st : St σ α) : Prop :=
  replay next cb (st.calls.map (·.1)) = (st.calls, st.cb)

theorem Replays.finishAll {next : σ → Nat → Option α × σ} {cb : σ} {ready : Nat → Bool} (l : List Nat) : ∀ {st : St σ α},
    Replays next cb st → Replays next cb (l.foldl (finishStep ready) st) := by
  induction l with
  | nil => exact fun h => h
  | cons x l ih =>
    intro st h
    refine ih ?_
    unfold finishStep
    split
    · split <;> exact h
    · exact h

theorem Replays.assignAll {next : σ → Nat → Option α × σ} {cb : σ} (l : List Nat) : ∀ {st : St σ α},
    Replays next cb st → Replays next cb (l.foldl (assignStep next) st) := by
  induction l with
  | nil => exact fun h => h
  | cons x l ih =>
    intro st h
    refine ih ?_
    unfold assignStep
    unfold Replays at h
    split
    · split
      · rename_i job cb' hn
        simp only [Replays, List.map_append, List.map_cons, List.map_nil, replay_append, h, replay, hn]
      · rename_i cb' hn
        simp only [Replays, List.map_append, List.map_cons, List.map_nil, replay_append, h, replay, hn]
    · exact h

/-- C29: the callback is called one client after the other, and the answers are those jobs that are run. -/
theorem c29_replay (next : σ → Nat → Option α × σ) (total : Nat) (cb : σ) (ops : List Op) :
    Replays next cb (run next (start total cb) ops) := by
  have : ∀ (ops : List Op) (st : St σ α), Replays next cb st → Replays next cb (run next st ops) := by
    intro ops
    induction ops with
    | nil => exact fun _ h => h
    | cons o ops ih =>
      intro st h
      cases o with
      | process ready =>
        exact ih _ (Replays.assignAll _ (Replays.finishAll _ h))
      | result =>
        refine ih _ ?_
        unfold result
        split <;> exact h
  exact this ops _ rfl

/-! ## Done -/

theorem assign_idle (next : σ → Nat → Option α × σ) (st : St σ α) (i j : Nat) :
    ((assignStep next st i).slots j = .idle → st.slots j = .idle ∧ j ≠ i) := by
  unfold assignStep
  split
  · split
    · dsimp only
      by_cases hj : j = i
      · subst hj; rw [upd_same]; intro h; cases h
      · rw [upd_ne _ _ hj]; exact fun h => ⟨h, hj⟩
    · dsimp only
      by_cases hj : j = i
      · subst hj; rw [upd_same]; intro h; cases h
      · rw [upd_ne _ _ hj]; exact fun h => ⟨h, hj⟩
  · rename_i hs
    exact fun h => ⟨h, fun he => hs (he ▸ h)⟩

theorem assignAll_idle (next : σ → Nat → Option α × σ) (l : List Nat) : ∀ (st : St σ α) (j : Nat),
    (l.foldl (assignStep next) st).slots j = .idle → j ∉ l := by
  induction l with
  | nil => intro st j _; simp
  | cons x l ih =>
    intro st j h
    rw [List.foldl_cons] at h
    have h1 := ih _ _ h
    have h2 : ∀ (l : List Nat) (st : St σ α), (l.foldl (assignStep next) st).slots j = .idle → st.slots j = .idle := by
      intro l
      induction l with
      | nil => exact fun _ h => h
      | cons y l ih => intro st h; exact (assign_idle next st y j (ih _ h)).1
    have h3 := assign_idle next st x j (h2 _ _ h)
    simp [h1, h3.2]

theorem process_busy (next : σ → Nat → Option α × σ) (ready : Nat → Bool) {st : St σ α} (h : Inv st) {i : Nat}
    (hi : i < st.total) : (process next ready st).1.slots i ≠ .idle := by
  intro hc
  unfold process at hc
  have := assignAll_idle next _ _ _ hc
  rw [(Inv.finishAll (ready := ready) (List.range st.total) h).2] at this
  exact this (List.mem_range.2 hi)

theorem result_slots (st : St σ α) : (result st).2.slots = st.slots := by
  unfold result; split <;> rfl

theorem runs_busy {next : σ → Nat → Option α × σ} (ops : List Op) : ∀ {st : St σ α}, Inv st →
    ((∀ i, i < st.total → st.slots i ≠ .idle) ∨ ∃ ready, Op.process ready ∈ ops) →
    ∀ i, i < st.total → (run next st ops).slots i ≠ .idle := by
  induction ops with
  | nil =>
    intro st _ h
    rcases h with h | ⟨r, hr⟩
    · exact h
    · cases hr
  | cons o ops ih =>
    intro st h hor i hi
    cases o with
    | process ready =>
      obtain ⟨h1, h2⟩ := h.process (next := next) (ready := ready)
      refine ih h1 (Or.inl ?_) i (by rw [h2]; exact hi)
      intro j hj
      exact process_busy next ready h (by rw [← h2]; exact hj)
    | result =>
      obtain ⟨h1, h2⟩ := h.result
      refine ih h1 ?_ i (by rw [h2]; exact hi)
      rcases hor with h3 | ⟨r, hr⟩
      · left
        intro j hj
        rw [result_slots]; rw [h2] at hj; exact h3 j hj
      · right
        refine ⟨r, ?_⟩
        rcases List.mem_cons.1 hr with hr | hr
        · cases hr
        · exact hr

/-- C29: once it processed anything, the executor is done exactly when no job is outstanding and the callback had no more jobs for
each client; all jobs that were handed out are delivered. -/
theorem c29_done (next : σ → Nat → Option α × σ) (total : Nat) (cb : σ) (ops : List Op)
    (hp : ∃ ready, Op.process ready ∈ ops) :
    let st := run next (start total cb) ops
    done st = true →
      (∀ i, i < total → (i, none) ∈ st.calls) ∧
      (st.delivered.map (fun r => (r.client, r.job))).Perm (st.calls.filterMap (fun c => c.2.map (fun j => (c.1, j)))) := by
  intro st hd
  have h : Inv st := (Inv.runs ops (Inv.start total cb)).1
  have hj : st.jobs = [] := List.isEmpty_iff.1 hd
  refine ⟨?_, ?_⟩
  · intro i hi
    have hb : st.slots i ≠ .idle := runs_busy ops (Inv.start total cb) (Or.inr hp) i hi
    rw [← h.freed]
    cases hs : st.slots i with
    | idle => exact absurd hs hb
    | freed => rfl
    | running id =>
      obtain ⟨r, hr, -⟩ := h.run i id hs
      rw [hj] at hr; cases hr
  · have := (c29_once next total cb ops).1
    rw [show (run next (start total cb) ops).jobs = [] from hj, List.append_nil] at this
    exact this

/-! ## Results -/

/-- The number of jobs that wait for delivery. -/
def waiting (st : St σ α) : Nat := st.jobs.countP (·.done)

theorem markDone_none {id : Nat} {l : List (Rec α)} (h : ∀ r ∈ l, r.id ≠ id) : markDone id l = l := by
  unfold markDone
  conv => rhs; rw [← List.map_id l]
  apply List.map_congr_left
  intro r hr
  rw [if_neg (h r hr)]; rfl

theorem markDone_count {id : Nat} {l : List (Rec α)} (hn : (l.map (·.id)).Nodup) {r : Rec α} (hr : r ∈ l) (hid : r.id = id)
    (hd : r.done = false) : (markDone id l).countP (·.done) = l.countP (·.done) + 1 := by
  induction l with
  | nil => cases hr
  | cons x l ih =>
    rw [List.map_cons, List.nodup_cons] at hn
    have hc : markDone id (x :: l) = (if x.id = id then { x with done := true } else x) :: markDone id l := rfl
    rw [hc]
    rcases List.mem_cons.1 hr with rfl | hr
    · rw [if_pos hid, markDone_none]
      · simp [hd]
      · intro y hy he
        exact hn.1 (List.mem_map.2 ⟨y, hy, by rw [he, hid]⟩)
    · rw [if_neg, List.countP_cons, List.countP_cons, ih hn.2 hr]
      · omega
      · intro he
        exact hn.1 (List.mem_map.2 ⟨r, hr, by rw [he, hid]⟩)

theorem Inv.jobIds {st : St σ α} (h : Inv st) : (st.jobs.map (·.id)).Nodup := by
  have := h.ids
  rw [List.map_append, List.nodup_append] at this
  exact this.2.1

theorem finish_waiting {st : St σ α} (h : Inv st) (ready : Nat → Bool) (i : Nat) :
    waiting (finishStep ready st i) = waiting st + if hasData ready st i then 1 else 0 := by
  unfold finishStep hasData
  cases hs : st.slots i with
  | running id =>
    dsimp only
    cases hr : ready i with
    | false => simp
    | true =>
      obtain ⟨r, hm, hid, -, hd⟩ := h.run i id hs
      simp only [if_true, waiting]
      exact markDone_count h.jobIds hm hid hd
  | idle => simp
  | freed => simp

theorem finish_hasData (ready : Nat → Bool) (st : St σ α) {i j : Nat} (h : j ≠ i) :
    hasData ready (finishStep ready st i) j = hasData ready st j := by
  unfold finishStep
  split
  · split
    · simp only [hasData, upd_ne _ _ h]
    · rfl
  · rfl

theorem finishAll_waiting (ready : Nat → Bool) (l : List Nat) : ∀ {st : St σ α}, Inv st → l.Nodup →
    waiting (l.foldl (finishStep ready) st) = waiting st + (l.filter (hasData ready st)).length := by
  induction l with
  | nil => intro st _ _; simp
  | cons x l ih =>
    intro st h hn
    rw [List.nodup_cons] at hn
    rw [List.foldl_cons, ih (h.finish ready x) hn.2, finish_waiting h]
    have : l.filter (hasData ready (finishStep ready st x)) = l.filter (hasData ready st) := by
      apply List.filter_congr
      intro y hy
      exact finish_hasData ready st (fun he => hn.1 (he ▸ hy))
    rw [this, List.filter_cons]
    split <;> simp; omega

theorem assignAll_waiting (next : σ → Nat → Option α × σ) (l : List Nat) : ∀ (st : St σ α),
    waiting (l.foldl (assignStep next) st) = waiting st := by
  induction l with
  | nil => intro st; rfl
  | cons x l ih =>
    intro st
    rw [List.foldl_cons, ih]
    unfold assignStep waiting
    split
    · split <;> simp
    · rfl

theorem process_waiting (next : σ → Nat → Option α × σ) (ready : Nat → Bool) {st : St σ α} (h : Inv st) :
    waiting (process next ready st).1 = waiting st + (process next ready st).2 := by
  unfold process
  dsimp only
  rw [assignAll_waiting, finishAll_waiting ready _ h List.nodup_range]

theorem takeDone_iff {l : List (Rec α)} (h : l.countP (·.done) ≠ 0) : ∃ r rest, takeDone l = some (r, rest) := by
  cases ht : takeDone l with
  | some p => exact ⟨p.1, p.2, rfl⟩
  | none =>
    refine absurd ?_ h
    rw [List.countP_eq_zero]
    intro r hr
    rw [takeDone_none.1 ht r hr]; simp

/-- Call `protocolParallelResult` a number of times, as the users do with the number `protocolParallelProcess` returned
(e.g. src/command/backup/backup.c). -/
def drain : Nat → St σ α → List (Option (Rec α)) × St σ α
  | 0, st => ([], st)
  | n + 1, st =>
    let (r, st') := result st
    let (rs, st'') := drain n st'
    (r :: rs, st'')

theorem result_waiting {st : St σ α} (h : waiting st ≠ 0) : ∃ r, (result st).1 = some r ∧
    waiting (result st).2 + 1 = waiting st ∧ (result st).2.jobs.length + 1 = st.jobs.length ∧ (result st).2.cb = st.cb := by
  obtain ⟨r, rest, ht⟩ := takeDone_iff h
  obtain ⟨hd, hp⟩ := takeDone_some ht
  have : result st = (some r, { st with
      jobs := rest
      delivered := st.delivered ++ [r] }) := by
    unfold result
    rw [ht]
  rw [this]
  refine ⟨r, rfl, ?_, ?_, rfl⟩
  · simp only [waiting]
    rw [hp.countP_eq]
    simp [hd]
  · dsimp only
    rw [hp.length_eq]; rfl

theorem drain_spec (n : Nat) : ∀ {st : St σ α}, Inv st → waiting st = n →
    (∀ o ∈ (drain n st).1, o ≠ none) ∧ (drain n st).1.length = n ∧ waiting (drain n st).2 = 0 ∧
      (drain n st).2.jobs.length + n = st.jobs.length ∧ (drain n st).2.cb = st.cb ∧
      ∃ ops, (∀ o ∈ ops, o = Op.result) ∧ ∀ next : σ → Nat → Option α × σ, (drain n st).2 = run next st ops := by
  induction n with
  | zero => intro st _ hw; exact ⟨by simp [drain], rfl, hw, rfl, rfl, [], by simp, fun _ => rfl⟩
  | succ n ih =>
    intro st h hw
    obtain ⟨r, h1, h2, h3, h4⟩ := result_waiting (st := st) (by omega)
    obtain ⟨i1, i2, i3, i4, i5, ops, i6, i7⟩ := ih (h.result).1 (by omega)
    simp only [drain]
    refine ⟨?_, by simp [i2], i3, by omega, by rw [i5, h4], .result :: ops, ?_, ?_⟩
    · intro o ho
      rcases List.mem_cons.1 ho with rfl | ho
      · rw [h1]; simp
      · exact i1 o ho
    · intro o ho
      rcases List.mem_cons.1 ho with rfl | ho
      · rfl
      · exact i6 o ho
    · intro next
      rw [i7 next]; rfl

/-- C29: after `protocolParallelProcess` returned a number, that many calls of `protocolParallelResult` return a job each, and no job
that is done is left. -/
theorem c29_results (next : σ → Nat → Option α × σ) (total : Nat) (cb : σ) (ops : List Op) (ready : Nat → Bool)
    (hw : waiting (run next (start total cb) ops) = 0) :
    let p := process next ready (run next (start total cb) ops)
    let d := drain p.2 p.1
    d.1.length = p.2 ∧ (∀ o ∈ d.1, o ≠ none) ∧ waiting d.2 = 0 := by
  intro p d
  have h := (Inv.runs (next := next) ops (Inv.start total cb)).1
  have h1 := process_waiting next ready h
  rw [hw, Nat.zero_add] at h1
  obtain ⟨a, b, c, -⟩ := drain_spec _ (h.process (next := next) (ready := ready)).1 h1
  exact ⟨b, a, c⟩

/-! ## The loop of the users ends -/

/-- The loop of the users (e.g. src/command/backup/backup.c): process, fetch the results, until done. `sched` says which clients are
ready in a state. -/
def loop (next : σ → Nat → Option α × σ) (sched : St σ α → Nat → Bool) : Nat → St σ α → Option (St σ α)
  | 0, _ => none
  | fuel + 1, st =>
    let p := process next (sched st) st
    let d := drain p.2 p.1
    if done d.2 then some d.2 else loop next sched fuel d.2

theorem finish_len (ready : Nat → Bool) (st : St σ α) (i : Nat) :
    (finishStep ready st i).jobs.length = st.jobs.length ∧ (finishStep ready st i).cb = st.cb := by
  unfold finishStep; split <;> (try split) <;> simp [markDone]

theorem finishAll_len (ready : Nat → Bool) (l : List Nat) : ∀ (st : St σ α),
    (l.foldl (finishStep ready) st).jobs.length = st.jobs.length ∧ (l.foldl (finishStep ready) st).cb = st.cb := by
  induction l with
  | nil => intro st; exact ⟨rfl, rfl⟩
  | cons x l ih =>
    intro st
    rw [List.foldl_cons]
    obtain ⟨h1, h2⟩ := ih (finishStep ready st x)
    obtain ⟨h3, h4⟩ := finish_len ready st x
    exact ⟨by rw [h1, h3], by rw [h2, h4]⟩

theorem assignAll_len (next : σ → Nat → Option α × σ) (μ : σ → Nat)
    (hμ : ∀ s i, μ (next s i).2 + (if (next s i).1.isSome then 1 else 0) ≤ μ s) (l : List Nat) : ∀ (st : St σ α),
    (l.foldl (assignStep next) st).jobs.length + μ (l.foldl (assignStep next) st).cb ≤ st.jobs.length + μ st.cb := by
  induction l with
  | nil => intro st; exact Nat.le_refl _
  | cons x l ih =>
    intro st
    rw [List.foldl_cons]
    refine Nat.le_trans (ih _) ?_
    unfold assignStep
    split
    · have := hμ st.cb x
      split
      · rename_i job cb hn
        rw [hn] at this
        simp at this ⊢
        omega
      · rename_i cb hn
        rw [hn] at this
        simp at this ⊢
        omega
    · exact Nat.le_refl _

theorem process_len (next : σ → Nat → Option α × σ) (μ : σ → Nat)
    (hμ : ∀ s i, μ (next s i).2 + (if (next s i).1.isSome then 1 else 0) ≤ μ s) (ready : Nat → Bool) (st : St σ α) :
    (process next ready st).1.jobs.length + μ (process next ready st).1.cb ≤ st.jobs.length + μ st.cb := by
  unfold process
  dsimp only
  refine Nat.le_trans (assignAll_len next μ hμ _ _) ?_
  obtain ⟨h1, h2⟩ := finishAll_len ready (List.range st.total) st
  rw [h1, h2]; exact Nat.le_refl _

theorem run_append (next : σ → Nat → Option α × σ) (a b : List Op) : ∀ st : St σ α, run next st (a ++ b) = run next (run next st a) b := by
  induction a with
  | nil => intro st; rfl
  | cons o a ih =>
    intro st
    cases o <;> simp only [List.cons_append, run, ih]

/-- A state of the loop between two passes. -/
structure Mid (next : σ → Nat → Option α × σ) (total : Nat) (cb : σ) (st : St σ α) : Prop where
  reach : ∃ ops, st = run next (start total cb) ops
  drained : waiting st = 0

theorem loop_ends (next : σ → Nat → Option α × σ) (μ : σ → Nat)
    (hμ : ∀ s i, μ (next s i).2 + (if (next s i).1.isSome then 1 else 0) ≤ μ s) (total : Nat) (cb : σ)
    (sched : St σ α → Nat → Bool)
    (hs : ∀ st : St σ α, (∃ i id, i < st.total ∧ st.slots i = .running id) → ∃ i, i < st.total ∧ hasData (sched st) st i = true)
    (fuel : Nat) : ∀ st : St σ α, Mid next total cb st → st.jobs.length + μ st.cb + (if st.jobs = [] then 1 else 0) ≤ fuel →
    ∃ st', loop next sched fuel st = some st' ∧
      ∃ ops, (∃ ready, Op.process ready ∈ ops) ∧ st' = run next (start total cb) ops ∧ done st' = true := by
  induction fuel with
  | zero =>
    intro st hm hf
    exfalso
    split at hf
    · omega
    · rename_i hj
      exact hj (List.length_eq_zero_iff.1 (by omega))
  | succ fuel ih =>
    intro st hm hf
    obtain ⟨ops0, h0⟩ := hm.reach
    have hi : Inv st := by rw [h0]; exact (Inv.runs ops0 (Inv.start total cb)).1
    have hw := process_waiting next (sched st) hi
    rw [hm.drained, Nat.zero_add] at hw
    have hl := process_len next μ hμ (sched st) st
    obtain ⟨d1, d2, d3, d4, d5, ops1, d6, d7⟩ := drain_spec _ (hi.process (next := next) (ready := sched st)).1 hw
    have hreach : (drain (process next (sched st) st).2 (process next (sched st) st).1).2 =
        run next (start total cb) (ops0 ++ .process (sched st) :: ops1) := by
      rw [d7 next, run_append, ← h0]; rfl
    simp only [loop]
    by_cases hdone : done (drain (process next (sched st) st).2 (process next (sched st) st).1).2 = true
    · rw [if_pos hdone]
      exact ⟨_, rfl, _, ⟨sched st, List.mem_append_right _ (List.mem_cons_self ..)⟩, hreach, hdone⟩
    · rw [if_neg hdone]
      refine ih _ ⟨⟨_, hreach⟩, d3⟩ ?_
      have hne : (drain (process next (sched st) st).2 (process next (sched st) st).1).2.jobs ≠ [] := by
        intro hc; exact hdone (by simp [done, hc])
      rw [if_neg hne, d5]
      by_cases hj : st.jobs = []
      · rw [if_pos hj] at hf
        omega
      · rw [if_neg hj] at hf
        have hpos : 0 < (process next (sched st) st).2 := by
          obtain ⟨r, hr⟩ := List.exists_mem_of_ne_nil _ hj
          have hrd : r.done = false := by
            have := List.countP_eq_zero.1 hm.drained r hr
            simpa using this
          obtain ⟨i, hit, hid⟩ := hs st ⟨r.client, r.id, hi.bound r hr, hi.open' r hr hrd⟩
          exact List.length_pos_iff.2 (List.ne_nil_of_mem (List.mem_filter.2 ⟨List.mem_range.2 hit, hid⟩))
        omega

/-- C29: the loop of the users ends, with all jobs delivered once each and the callback out of jobs for each client, when the
callback has finitely many jobs (`μ` bounds what is left) and whenever some client runs a job, one that runs a job becomes ready. -/
theorem c29_terminates (next : σ → Nat → Option α × σ) (μ : σ → Nat)
    (hμ : ∀ s i, μ (next s i).2 + (if (next s i).1.isSome then 1 else 0) ≤ μ s) (total : Nat) (cb : σ)
    (sched : St σ α → Nat → Bool)
    (hs : ∀ st : St σ α, (∃ i id, i < st.total ∧ st.slots i = .running id) → ∃ i, i < st.total ∧ hasData (sched st) st i = true) :
    ∃ st, loop next sched (μ cb + 1) (start total cb) = some st ∧ (∀ i, i < total → (i, none) ∈ st.calls) ∧
      Replays next cb st ∧
      (st.delivered.map (fun r => (r.client, r.job))).Perm (st.calls.filterMap (fun c => c.2.map (fun j => (c.1, j)))) ∧
      (st.delivered.map (·.id)).Nodup := by
  obtain ⟨st, h1, ops, h2, h3, h4⟩ := loop_ends next μ hμ total cb sched hs (μ cb + 1) (start total cb)
    ⟨⟨[], rfl⟩, by simp [waiting, start]⟩ (by simp [start])
  subst h3
  obtain ⟨h5, h6⟩ := c29_done next total cb ops h2 h4
  refine ⟨_, h1, h5, c29_replay next total cb ops, h6, ?_⟩
  have := (c29_once next total cb ops).2.1
  rw [List.map_append, List.nodup_append] at this
  exact this.1

/-- A callback with a queue of jobs. -/
def queue (s : List Nat) (_ : Nat) : Option Nat × List Nat :=
  match s with
  | [] => (none, [])
  | x :: rest => (some x, rest)

/-- The client with the highest index of those that run is ready. -/
def lastReady (st : St (List Nat) Nat) (i : Nat) : Bool :=
  (List.range st.total).all fun j => j ≤ i || (match st.slots j with | .running _ => false | _ => true)

example : (∀ s i, List.length (queue s i).2 + (if (queue s i).1.isSome then 1 else 0) ≤ List.length s) ∧
    ((loop queue lastReady 4 (start 2 [10, 20, 30])).map fun st => st.delivered.map fun r => (r.client, r.job)) =
      some [(1, 20), (1, 30), (0, 10)] := by
  refine ⟨?_, by decide⟩
  intro s i
  cases s <;> simp [queue]

example : ∀ st : St (List Nat) Nat, (∃ i id, i < st.total ∧ st.slots i = .running id) →
    ∃ i, i < st.total ∧ hasData (fun _ => true) st i = true := by
  rintro st ⟨i, id, hi, hs⟩
  exact ⟨i, hi, by simp [hasData, hs]⟩

end Verif.Parallel
