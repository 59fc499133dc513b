import Verif.Protocol.ServerSpec

/-!
# The list of sessions behaves as the sessions of the specification
-/

namespace Verif.Protocol

variable {α D W : Type}

/-- The list holds exactly the sessions. -/
structure SRelS (sv : Server D W) (st : Spec.Srv D W) : Prop where
  world : sv.world = st.world
  nodup : (sv.list.map (·.1)).Nodup
  mem : ∀ k d, (k, d) ∈ sv.list ↔ st.sess k = some d

theorem findSession_split {id : Nat} : ∀ {l1 l2 : List (Nat × D)} {d : D}, (∀ x ∈ l1, x.1 ≠ id) →
    findSession (l1 ++ (id, d) :: l2) id = l1.length
  | [], l2, d, _ => by simp [findSession]
  | x :: l1, l2, d, h => by
    have hx := h x (by simp)
    simp only [List.cons_append, findSession]
    rw [findSession_split (fun y hy => h y (by simp [hy]))]
    simp [hx]

theorem findSession_absent {id : Nat} : ∀ {l : List (Nat × D)}, (∀ x ∈ l, x.1 ≠ id) → findSession l id = l.length
  | [], _ => rfl
  | x :: l, h => by
    have hx := h x (by simp)
    simp only [findSession]
    rw [findSession_absent (fun y hy => h y (by simp [hy]))]
    simp [hx]

/-- Where a session is in the list. -/
theorem SRelS.split {sv : Server D W} {st : Spec.Srv D W} (h : SRelS sv st) {id : Nat} {d : D} (hs : st.sess id = some d) :
    ∃ l1 l2, sv.list = l1 ++ (id, d) :: l2 ∧ (∀ x ∈ l1, x.1 ≠ id) ∧ (∀ x ∈ l2, x.1 ≠ id) := by
  obtain ⟨l1, l2, hl⟩ := List.append_of_mem ((h.mem id d).mpr hs)
  have hn := h.nodup
  rw [hl, List.map_append, List.map_cons] at hn
  obtain ⟨_, hn2, hn3⟩ := List.nodup_append.mp hn
  refine ⟨l1, l2, hl, fun x hx hxe => ?_, fun x hx hxe => ?_⟩
  · exact hn3 x.1 (List.mem_map_of_mem hx) id (by simp) hxe
  · rw [List.nodup_cons] at hn2
    exact hn2.1 (List.mem_map.mpr ⟨x, hx, hxe⟩)

theorem SRelS.absent {sv : Server D W} {st : Spec.Srv D W} (h : SRelS sv st) {id : Nat} (hs : st.sess id = none) :
    ∀ x ∈ sv.list, x.1 ≠ id := by
  intro x hx hxe
  have := (h.mem x.1 x.2).mp hx
  rw [hxe, hs] at this
  exact absurd this (by simp)

/-- The data of a session changes. -/
theorem SRelS.set {sv : Server D W} {st : Spec.Srv D W} (h : SRelS sv st) {id : Nat} {d : D} (hs : st.sess id = some d)
    (d' : Option D) (w : W) :
    SRelS ⟨setData sv.list (findSession sv.list id) d', w⟩ ({ st with world := w }.put id (some (d'.getD d))) := by
  obtain ⟨l1, l2, hl, h1, h2⟩ := h.split hs
  have hf : findSession sv.list id = l1.length := by rw [hl]; exact findSession_split h1
  have hset : setData sv.list (findSession sv.list id) d' = l1 ++ (id, d'.getD d) :: l2 := by
    rw [hf, hl]
    unfold setData
    cases d' with
    | none => simp
    | some d' => simp
  have hn := h.nodup
  rw [hl] at hn
  refine ⟨rfl, by simp only [hset]; simpa using hn, fun k e => ?_⟩
  simp only [hset, Spec.Srv.put]
  by_cases hk : k = id
  · subst hk
    rw [if_pos rfl]
    simp only [List.mem_append, List.mem_cons, Prod.mk.injEq, true_and, Option.some.injEq]
    constructor
    · rintro (hm | hm | hm)
      · exact absurd rfl (h1 _ hm)
      · exact hm.symm
      · exact absurd rfl (h2 _ hm)
    · intro he; exact .inr (.inl he.symm)
  · rw [if_neg hk, ← h.mem k e, hl]
    simp [hk]

/-- A session is removed. -/
theorem SRelS.remove {sv : Server D W} {st : Spec.Srv D W} (h : SRelS sv st) {id : Nat} {d : D} (hs : st.sess id = some d) (w : W) :
    ∃ l, removeIdx sv.list (findSession sv.list id) = some l ∧ SRelS ⟨l, w⟩ ({ st with world := w }.put id none) := by
  obtain ⟨l1, l2, hl, h1, h2⟩ := h.split hs
  have hf : findSession sv.list id = l1.length := by rw [hl]; exact findSession_split h1
  have hn := h.nodup
  rw [hl] at hn
  refine ⟨l1 ++ l2, ?_, rfl, ?_, fun k e => ?_⟩
  · rw [hf, hl]
    unfold removeIdx
    rw [if_pos (by simp)]
    simp [List.eraseIdx_append_of_length_le]
  · simp only [List.map_append]
    refine hn.sublist ?_
    rw [List.map_append, List.map_cons]
    exact List.Sublist.append_left (List.sublist_cons_self _ _) _
  · simp only [Spec.Srv.put]
    by_cases hk : k = id
    · subst hk
      rw [if_pos rfl]
      simp only [List.mem_append, reduceCtorEq, iff_false, not_or]
      exact ⟨fun hm => h1 _ hm rfl, fun hm => h2 _ hm rfl⟩
    · rw [if_neg hk, ← h.mem k e, hl]
      simp [hk]

/-- A session is added. -/
theorem SRelS.add {sv : Server D W} {st : Spec.Srv D W} (h : SRelS sv st) {id : Nat} (hs : st.sess id = none) (d : D) (w : W) :
    SRelS ⟨sv.list ++ [(id, d)], w⟩ ({ st with world := w }.put id (some d)) := by
  have ha := h.absent hs
  refine ⟨rfl, ?_, fun k e => ?_⟩
  · simp only [List.map_append, List.map_cons, List.map_nil]
    refine List.nodup_append.mpr ⟨h.nodup, by simp, ?_⟩
    intro a ha' b hb hab
    simp only [List.mem_singleton] at hb
    obtain ⟨x, hx, rfl⟩ := List.mem_map.mp ha'
    exact ha x hx (hab.trans hb)
  · simp only [Spec.Srv.put, List.mem_append, List.mem_singleton, Prod.mk.injEq]
    by_cases hk : k = id
    · subst hk
      rw [if_pos rfl]
      simp only [true_and, Option.some.injEq]
      constructor
      · rintro (hm | hm)
        · exact absurd rfl (ha _ hm)
        · exact hm.symm
      · intro he; exact .inr he.symm
    · rw [if_neg hk, ← h.mem k e]
      simp [hk]

/-- Only the rest of the process changes. -/
theorem SRelS.world' {sv : Server D W} {st : Spec.Srv D W} (h : SRelS sv st) (w : W) :
    SRelS ⟨sv.list, w⟩ { st with world := w } := ⟨rfl, h.nodup, h.mem⟩

theorem put_same {st : Spec.Srv D W} {id : Nat} {d : Option D} (h : st.sess id = d) : st.put id d = st := by
  have : (fun k => if k = id then d else st.sess k) = st.sess := by
    funext k
    by_cases hk : k = id
    · simp [hk, h]
    · simp [hk]
  unfold Spec.Srv.put
  rw [this]

/-- How a try of the server and one of the specification end alike. -/
def TryRel : Attempt α D W → Spec.Try α D W → Prop
  | .reply sv close data, .done st close' data' => SRelS sv st ∧ close = close' ∧ data = data'
  | .fail sv e, .failed st e' => SRelS sv st ∧ e = e'
  | _, _ => False

theorem attemptFound_sim {h : Handler α D W} (hok : Spec.HandlerOk h) {sv : Server D W} {st : Spec.Srv D W} {q : Req α}
    (hr : SRelS sv st) (hfair : Spec.Fair st q) {idx : Nat} {d : Option D} {t : Spec.Try α D W}
    (hidx : ∀ x, d = some x → q.isOpen = true ∧ st.sess q.sessionId = some x ∧ idx = findSession sv.list q.sessionId)
    (hnone : d = none → st.sess q.sessionId = none)
    (hcls : q.type = .cls → d ≠ none)
    (ht : Spec.tryIn h st q d = some t) : TryRel (attemptFound h sv q idx d) t := by
  unfold Spec.tryIn at ht
  unfold attemptFound
  have hw := hr.world
  cases hty : q.type with
  | opn => simp [hty] at ht
  | cnc =>
    simp only [hty, Option.some.injEq] at ht
    subst ht
    simp only
    unfold attemptCancel
    cases d with
    | none =>
      refine ⟨?_, rfl, rfl⟩
      rw [put_same (hnone rfl)]
      exact hr
    | some x =>
      obtain ⟨_, hs, rfl⟩ := hidx x rfl
      obtain ⟨l, h1, h2⟩ := hr.remove hs sv.world
      simp only [finishClose, h1]
      refine ⟨?_, rfl, rfl⟩
      rw [hw] at h2
      rw [hw]
      exact h2
  | cls =>
    simp only [hty] at ht ⊢
    cases d with
    | none => exact absurd rfl (hcls hty)
    | some x =>
      obtain ⟨_, hs, rfl⟩ := hidx x rfl
      unfold attemptClose
      cases hc : h.cls with
      | none =>
        simp only [hc, Option.some.injEq] at ht ⊢
        subst ht
        obtain ⟨l, h1, h2⟩ := hr.remove hs sv.world
        simp only [finishClose, h1]
        refine ⟨?_, rfl, rfl⟩
        rw [hw] at h2 ⊢
        exact h2
      | some f =>
        simp only [hc, ← hw] at ht ⊢
        rcases hres : f sv.world q.param (some x) with ⟨w, d', (e | out)⟩
        · simp only [hres, Option.some.injEq] at ht ⊢
          subst ht
          exact ⟨hr.set hs d' w, rfl⟩
        · simp only [hres, Option.some.injEq] at ht ⊢
          subst ht
          obtain ⟨l, h1, h2⟩ := hr.remove hs w
          simp only [finishClose, h1]
          exact ⟨h2, rfl, rfl⟩
  | prc =>
    simp only [hty] at ht ⊢
    unfold attemptProcess
    cases hp : h.prcSession with
    | some f =>
      simp only [hp, ← hw] at ht ⊢
      cases d with
      | none =>
        rcases hres : f sv.world q.param none with ⟨w, d', (e | ⟨out, cl⟩)⟩
        · simp only [hres, Option.some.injEq, Option.map_none] at ht ⊢
          subst ht
          refine ⟨?_, rfl⟩
          rw [put_same (st := { st with world := w }) (hnone rfl)]
          simp only [Option.bind_none]
          have : setData sv.list idx none = sv.list := by
            unfold setData
            split
            · rename_i h1; exact absurd h1 (by simp)
            · rfl
          rw [this]
          exact hr.world' w
        · cases cl with
          | false =>
            simp only [hres, Option.some.injEq, Option.map_none] at ht ⊢
            subst ht
            refine ⟨?_, rfl, rfl⟩
            rw [put_same (st := { st with world := w }) (hnone rfl)]
            simp only [Option.bind_none]
            have : setData sv.list idx none = sv.list := by
              unfold setData
              split
              · rename_i h1; exact absurd h1 (by simp)
              · rfl
            rw [this]
            exact hr.world' w
          | true =>
            have := hok f hp sv.world q.param out
            rw [hres] at this
            exact absurd rfl this
      | some x =>
        obtain ⟨_, hs, rfl⟩ := hidx x rfl
        rcases hres : f sv.world q.param (some x) with ⟨w, d', (e | ⟨out, cl⟩)⟩
        · simp only [hres, Option.some.injEq, Option.map_some] at ht ⊢
          subst ht
          exact ⟨hr.set hs d' w, rfl⟩
        · cases cl with
          | false =>
            simp only [hres, Option.some.injEq, Option.map_some] at ht ⊢
            subst ht
            exact ⟨hr.set hs d' w, rfl, rfl⟩
          | true =>
            simp only [hres, Option.some.injEq] at ht ⊢
            subst ht
            obtain ⟨l, h1, h2⟩ := hr.remove hs w
            simp only [h1]
            exact ⟨h2, rfl, rfl⟩
    | none =>
      simp only [hp] at ht ⊢
      cases hpp : h.prc with
      | none => simp [hpp] at ht
      | some f =>
        simp only [hpp, ← hw] at ht ⊢
        rcases hres : f sv.world q.param with ⟨w, (e | out)⟩
        · simp only [hres, Option.some.injEq] at ht ⊢
          subst ht
          exact ⟨hr.world' w, rfl⟩
        · simp only [hres, Option.some.injEq] at ht ⊢
          subst ht
          exact ⟨hr.world' w, rfl, rfl⟩

theorem attempt_sim {h : Handler α D W} (hok : Spec.HandlerOk h) {sv : Server D W} {st : Spec.Srv D W} {q : Req α}
    (hr : SRelS sv st) (hfair : Spec.Fair st q) {t : Spec.Try α D W} (ht : Spec.tryOnce h st q = some t) :
    TryRel (attempt h sv q) t := by
  have hw := hr.world
  unfold Spec.tryOnce at ht
  by_cases hty : q.type = .opn
  · rw [if_pos hty] at ht
    have hno := hfair.1 (hfair.2.2 hty)
    unfold attempt
    rw [hty]
    simp only
    unfold attemptOpen
    cases ho : h.opn with
    | none => simp [ho] at ht
    | some f =>
      simp only [ho, ← hw] at ht ⊢
      rcases hres : f sv.world q.param with ⟨w, (e | ⟨data, d⟩)⟩
      · simp only [hres, Option.some.injEq] at ht ⊢
        subst ht
        exact ⟨hr.world' w, rfl⟩
      · cases d with
        | none =>
          simp only [hres, Option.some.injEq] at ht ⊢
          subst ht
          refine ⟨?_, rfl, rfl⟩
          rw [put_same (st := { st with world := w }) hno]
          exact hr.world' w
        | some d =>
          simp only [hres, Option.some.injEq] at ht ⊢
          subst ht
          exact ⟨hr.add hno d w, rfl, rfl⟩
  · rw [if_neg hty] at ht
    have hat : attempt h sv q = attemptSession h sv q := by
      unfold attempt
      cases h1 : q.type <;> simp_all
    rw [hat]
    unfold attemptSession
    cases hop : q.isOpen with
    | false =>
      simp only [hop, Bool.false_and] at ht
      rw [if_neg (by simp)]
      rw [if_neg (by simp), if_neg (by simp)] at ht
      refine attemptFound_sim hok hr hfair (fun x hx => absurd hx (by simp)) (fun _ => hfair.1 hop) (fun hc => ?_) ht
      rw [hfair.2.1 hc] at hop
      exact absurd hop (by simp)
    | true =>
      simp only [hop, Bool.true_and] at ht
      rw [if_pos rfl]
      rw [if_pos trivial] at ht
      cases hs : st.sess q.sessionId with
      | some d =>
        obtain ⟨l1, l2, hl, h1, h2⟩ := hr.split hs
        have hf : findSession sv.list q.sessionId = l1.length := by rw [hl]; exact findSession_split h1
        have hg : sv.list[findSession sv.list q.sessionId]? = some (q.sessionId, d) := by rw [hf, hl]; simp
        rw [hg]
        simp only [hs] at ht ⊢
        rw [if_neg (by simp)] at ht
        exact attemptFound_sim hok hr hfair (fun x hx => by simp only [Option.some.injEq] at hx; subst hx; exact ⟨hop, hs, rfl⟩)
          (fun h => absurd h (by simp)) (fun _ => by simp) ht
      | none =>
        have hg : sv.list[findSession sv.list q.sessionId]? = none := by
          rw [findSession_absent (hr.absent hs)]
          simp
        rw [hg]
        simp only [hs] at ht ⊢
        by_cases hc : q.type = .cnc
        · rw [if_pos hc]
          rw [if_neg (by simp [hc])] at ht
          exact attemptFound_sim hok hr hfair (fun x hx => absurd hx (by simp)) (fun _ => hs)
            (fun h => absurd (hc.symm.trans h) (by simp)) ht
        · rw [if_neg hc]
          rw [if_pos (by simp [hc])] at ht
          simp only [Option.some.injEq] at ht
          subst ht
          exact ⟨hr, rfl⟩

/-- A try changes nothing but the session of the request. -/
theorem tryOnce_frame {h : Handler α D W} (hok : Spec.HandlerOk h) {st : Spec.Srv D W} {q : Req α} {t : Spec.Try α D W}
    (hfair : Spec.Fair st q) (ht : Spec.tryOnce h st q = some t) :
    match t with
    | .done st' close _ => (∀ k, k ≠ q.sessionId → st'.sess k = st.sess k) ∧ (close = true → st'.sess q.sessionId = none) ∧
        (close = false → q.type ≠ .opn → ((st'.sess q.sessionId).isSome = (st.sess q.sessionId).isSome)) ∧
        (close = false → q.type = .opn → (st'.sess q.sessionId).isSome = true) ∧ (q.type = .cls ∨ q.type = .cnc → close = true)
    | .failed st' _ => (∀ k, k ≠ q.sessionId → st'.sess k = st.sess k) ∧
        (st'.sess q.sessionId).isSome = (st.sess q.sessionId).isSome := by
  obtain ⟨f1, f2, f3⟩ := hfair
  unfold Spec.tryOnce at ht
  split at ht
  · rename_i hty
    have hno := f1 (f3 hty)
    split at ht
    · exact absurd ht (by simp)
    · split at ht
      · simp only [Option.some.injEq] at ht
        subst ht
        exact ⟨fun _ _ => rfl, rfl⟩
      · simp only [Option.some.injEq] at ht
        subst ht
        rename_i d _
        refine ⟨fun k hk => by simp [Spec.Srv.put, hk], ?_, fun _ h => absurd hty h, ?_, ?_⟩
        · cases d <;> simp [Spec.Srv.put]
        · cases d <;> simp [Spec.Srv.put]
        · intro h; simp [hty] at h
  · rename_i hty
    split at ht
    · simp only [Option.some.injEq] at ht
      subst ht
      exact ⟨fun _ _ => rfl, rfl⟩
    · have hd : ∀ d, (if q.isOpen = true then st.sess q.sessionId else none) = d → st.sess q.sessionId = d := by
        intro d hd
        cases hop : q.isOpen with
        | true => rw [hop, if_pos rfl] at hd; exact hd
        | false => rw [hop, if_neg (by simp)] at hd; rw [f1 hop]; exact hd
      generalize hdd : (if q.isOpen = true then st.sess q.sessionId else none) = d at ht
      have hs := hd d hdd
      unfold Spec.tryIn at ht
      split at ht
      · exact absurd ht (by simp)
      · rename_i hprc
        split at ht
        · split at ht <;> simp only [Option.some.injEq] at ht <;> subst ht
          · exact ⟨fun k hk => by simp [Spec.Srv.put, hk], by simp [Spec.Srv.put, hs]⟩
          · exact ⟨fun k hk => by simp [Spec.Srv.put, hk], by simp, fun _ _ => by simp [Spec.Srv.put, hs],
              fun _ h => absurd h hty, fun h => by simp [hprc] at h⟩
          · exact ⟨fun k hk => by simp [Spec.Srv.put, hk], by simp [Spec.Srv.put], by simp, by simp, fun _ => rfl⟩
        · split at ht <;> simp only [Option.some.injEq] at ht <;> subst ht
          · exact ⟨fun _ _ => rfl, rfl⟩
          · exact ⟨fun _ _ => rfl, by simp, fun _ _ => rfl, fun _ h => absurd h hty, fun h => by simp [hprc] at h⟩
        · exact absurd ht (by simp)
      · split at ht
        · simp only [Option.some.injEq] at ht
          subst ht
          exact ⟨fun k hk => by simp [Spec.Srv.put, hk], by simp [Spec.Srv.put], by simp, by simp, fun _ => rfl⟩
        · split at ht <;> simp only [Option.some.injEq] at ht <;> subst ht
          · exact ⟨fun k hk => by simp [Spec.Srv.put, hk], by simp [Spec.Srv.put, hs]⟩
          · exact ⟨fun k hk => by simp [Spec.Srv.put, hk], by simp [Spec.Srv.put], by simp, by simp, fun _ => rfl⟩
      · simp only [Option.some.injEq] at ht
        subst ht
        exact ⟨fun k hk => by simp [Spec.Srv.put, hk], by simp [Spec.Srv.put], by simp, by simp, fun _ => rfl⟩

/-- A request that failed is still one that a client may make. -/
theorem fair_failed {h : Handler α D W} (hok : Spec.HandlerOk h) {st st' : Spec.Srv D W} {q : Req α} {e : SErr}
    (hfair : Spec.Fair st q) (ht : Spec.tryOnce h st q = some (.failed st' e)) : Spec.Fair st' q := by
  have hf := tryOnce_frame hok hfair ht
  simp only at hf
  refine ⟨fun ho => ?_, hfair.2.1, hfair.2.2⟩
  have := hf.2
  rw [hfair.1 ho] at this
  simpa using this

/-- How the answers of the server and of the specification agree. -/
def OutRel : SOut (Server D W) α → SOut (Spec.Srv D W) α → Prop
  | .reply sv close msg, .reply st close' msg' => SRelS sv st ∧ close = close' ∧ msg = msg'
  | .exit sv, .exit st => SRelS sv st
  | .fatal e, .fatal e' => e = e'
  | _, _ => False

/-- The errors so far. -/
def errsRel : Option (SErr × List SErr) → List SErr → Prop
  | none, l => l = []
  | some (a, b), l => l = a :: b

theorem retryLoop_sim {h : Handler α D W} (hok : Spec.HandlerOk h) {q : Req α} :
    ∀ {n : Nat} {sv : Server D W} {st : Spec.Srv D W} {errs : Option (SErr × List SErr)} {l : List SErr}
      {o : SOut (Spec.Srv D W) α}, SRelS sv st → Spec.Fair st q → errsRel errs l → Spec.tries h q n st l = some o →
      OutRel (retryLoop h q n sv errs) o := by
  intro n
  induction n with
  | zero =>
    intro sv st errs l o hr hfair he ht
    unfold Spec.tries at ht
    unfold retryLoop
    cases hto : Spec.tryOnce h st q with
    | none => simp [hto] at ht
    | some t =>
      have hsim := attempt_sim hok hr hfair hto
      cases t with
      | done st' close data =>
        simp only [hto, Option.some.injEq] at ht
        subst ht
        cases hat : attempt h sv q with
        | reply sv' c d =>
          rw [hat] at hsim
          obtain ⟨h1, rfl, rfl⟩ := hsim
          exact ⟨h1, rfl, rfl⟩
        | fail sv' e => rw [hat] at hsim; exact hsim.elim
        | ub => rw [hat] at hsim; exact hsim.elim
      | failed st' e =>
        simp only [hto] at ht
        cases hat : attempt h sv q with
        | reply sv' c d => rw [hat] at hsim; exact hsim.elim
        | ub => rw [hat] at hsim; exact hsim.elim
        | fail sv' e' =>
          rw [hat] at hsim
          obtain ⟨h1, rfl⟩ := hsim
          simp only
          split at ht
          · rename_i hfa
            simp only [Option.some.injEq] at ht
            subst ht
            rw [if_pos hfa]
            rfl
          · rename_i hfa
            rw [if_neg hfa]
            cases errs with
            | none =>
              simp only [errsRel] at he
              subst he
              simp only [List.nil_append, Option.some.injEq] at ht
              subst ht
              exact ⟨h1, rfl, rfl⟩
            | some ab =>
              obtain ⟨a, b⟩ := ab
              simp only [errsRel] at he
              subst he
              simp only [List.cons_append, Option.some.injEq] at ht
              subst ht
              exact ⟨h1, rfl, rfl⟩
  | succ n ih =>
    intro sv st errs l o hr hfair he ht
    unfold Spec.tries at ht
    unfold retryLoop
    cases hto : Spec.tryOnce h st q with
    | none => simp [hto] at ht
    | some t =>
      have hsim := attempt_sim hok hr hfair hto
      cases t with
      | done st' close data =>
        simp only [hto, Option.some.injEq] at ht
        subst ht
        cases hat : attempt h sv q with
        | reply sv' c d =>
          rw [hat] at hsim
          obtain ⟨h1, rfl, rfl⟩ := hsim
          exact ⟨h1, rfl, rfl⟩
        | fail sv' e => rw [hat] at hsim; exact hsim.elim
        | ub => rw [hat] at hsim; exact hsim.elim
      | failed st' e =>
        simp only [hto] at ht
        cases hat : attempt h sv q with
        | reply sv' c d => rw [hat] at hsim; exact hsim.elim
        | ub => rw [hat] at hsim; exact hsim.elim
        | fail sv' e' =>
          rw [hat] at hsim
          obtain ⟨h1, rfl⟩ := hsim
          simp only
          split at ht
          · rename_i hfa
            simp only [Option.some.injEq] at ht
            subst ht
            rw [if_pos hfa]
            rfl
          · rename_i hfa
            rw [if_neg hfa]
            refine ih h1 (fair_failed hok hfair hto) ?_ ht
            cases errs with
            | none => simp only [errsRel] at he; subst he; rfl
            | some ab => obtain ⟨a, b⟩ := ab; simp only [errsRel] at he; subst he; rfl

theorem serve_sim {handlers : List (Handler α D W)} (hok : ∀ h ∈ handlers, Spec.HandlerOk h) {retries : Nat} {q : Req α}
    {sv : Server D W} {st : Spec.Srv D W} {o : SOut (Spec.Srv D W) α} (hr : SRelS sv st) (hfair : Spec.Fair st q)
    (ht : Spec.serve handlers retries st q = some o) : OutRel (serve handlers retries sv q) o := by
  unfold Spec.serve at ht
  unfold serve
  have hfe : (fun h : Handler α D W => q.command == h.command) = (fun h => h.command == q.command) := by
    funext h; exact Bool.beq_comm
  rw [hfe]
  cases hf : handlers.find? (fun h => h.command == q.command) with
  | some h =>
    simp only [hf] at ht ⊢
    exact retryLoop_sim (hok h (List.mem_of_find?_eq_some hf)) hr hfair rfl ht
  | none =>
    simp only [hf] at ht ⊢
    split at ht
    · rename_i hc
      simp only [Option.some.injEq] at ht
      subst ht
      rw [if_pos hc]
      exact hr
    · rename_i hc
      rw [if_neg hc]
      split at ht
      · rename_i hc2
        simp only [Option.some.injEq] at ht
        subst ht
        rw [if_pos hc2]
        exact ⟨hr, rfl, rfl⟩
      · rename_i hc2
        simp only [Option.some.injEq] at ht
        subst ht
        rw [if_neg hc2]
        rfl

end Verif.Protocol
