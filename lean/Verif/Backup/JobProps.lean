import Verif.Backup.JobModel
import Verif.Parallel.Props

/-!
# C30 Jobs of a backup
-/

namespace Verif.Backup

/-! ## The order of a queue -/

/-- The keys a queue is sorted by, most significant first. -/
def lexCmp (c : Conf) : File → File → Ordering :=
  compareLex (compareOn (bundled c)) <|
  compareLex (fun f g => compareOn (fun f => if bundled c f then 0 else f.size) g f) <|
  compareLex (compareOn fun f => bundled c f && f.reference.isNone) <|
  compareLex (compareOn fun f => if bundled c f then f.reference.getD [] else []) <|
  compareLex (compareOn fun f => if bundled c f && f.reference.isSome then f.bundleId else 0) <|
  compareLex (compareOn fun f => if bundled c f && f.reference.isSome then f.bundleOffset else 0) <|
  compareLex (compareOn fun f => if bundled c f then f.timestamp else 0) <|
  compareOn fun f => f.name

theorem cmp_nat (a b : Nat) (x : Ordering) :
    (if a < b then Ordering.lt else if a > b then .gt else x) = (compare a b).then x := by
  rw [Nat.compare_eq_ite_lt]
  split
  · rfl
  · split <;> rfl

theorem cmp_int (a b : Int) (x : Ordering) :
    (if a < b then Ordering.lt else if a > b then .gt else x) = (compare a b).then x := by
  rw [Int.compare_eq_ite_lt]
  split
  · rfl
  · split <;> rfl

theorem cmp_nat_desc (a b : Nat) (x : Ordering) :
    (if a < b then Ordering.gt else if a > b then .lt else x) = (compare b a).then x := by
  rw [Nat.compare_eq_ite_lt]
  split
  · rename_i h
    rw [if_neg (by omega)]; rfl
  · split <;> rfl

theorem queueCmp_eq (c : Conf) (f g : File) : queueCmp c f g = lexCmp c f g := by
  unfold queueCmp lexCmp
  simp only [compareLex, compareOn]
  cases hf : bundled c f <;> cases hg : bundled c g
  · simp [cmp_nat_desc]
  · simp; rfl
  · simp; rfl
  · cases hr : f.reference with
    | none =>
      cases hs : g.reference with
      | none => simp [cmp_int]
      | some s => simp; rfl
    | some r =>
      cases hs : g.reference with
      | none => simp; rfl
      | some s =>
        cases hc : compare r s <;> simp [cmp_int, cmp_nat, hc]

/-- C30: the comparator is a total order of files with different names, as `qsort` needs it. -/
theorem c30_order (c : Conf) : Std.TransCmp (queueCmp c) ∧ ∀ f g, queueCmp c f g = .eq → f.name = g.name := by
  have he : queueCmp c = lexCmp c := by funext f g; exact queueCmp_eq c f g
  rw [he]
  refine ⟨?_, ?_⟩
  · unfold lexCmp
    infer_instance
  · intro f g h
    simp only [lexCmp, compareLex, compareOn, Ordering.then_eq_eq] at h
    exact Std.LawfulEqOrd.eq_of_compare h.2.2.2.2.2.2.2

example : queueCmp ⟨false, true, 100, 10⟩ ⟨[1], true, 20, 20, none, 0, 0, 5⟩ ⟨[2], true, 3, 3, none, 0, 0, 1⟩ = .lt := by decide

/-! ## Queues -/

theorem setAt_zero {α : Type} (x : α) (l : List α) (f : α → α) : setAt (x :: l) 0 f = f x :: l := by
  simp only [setAt, List.mapIdx_cons, if_true]
  congr 1
  have : ∀ (l : List α) , l.mapIdx (fun i y => if i + 1 = 0 then f y else y) = l := by
    intro l
    apply List.ext_getElem
    · simp
    · intro i h1 h2; simp
  exact this l

theorem setAt_succ {α : Type} (x : α) (l : List α) (i : Nat) (f : α → α) : setAt (x :: l) (i + 1) f = x :: setAt l i f := by
  simp only [setAt, List.mapIdx_cons]
  congr 1
  apply List.ext_getElem
  · simp
  · intro j h1 h2; simp

theorem setAt_length {α : Type} (l : List α) (i : Nat) (f : α → α) : (setAt l i f).length = l.length := by simp [setAt]

theorem setAt_getElem {α : Type} (l : List α) (i j : Nat) (f : α → α) :
    (setAt l i f)[j]? = if j = i then l[j]?.map f else l[j]? := by
  simp only [setAt, List.getElem?_mapIdx]
  split
  · rename_i h; subst h; simp
  · cases l[j]? <;> simp [*]

/-- Replacing a queue by what is left after some files were taken. -/
theorem setAt_flatten {α : Type} {qs : List (List α)} {i : Nat} {f : List α → List α} {t : List α} {q : List α}
    (hq : qs[i]? = some q) (h : (t ++ f q).Perm q) : (t ++ (setAt qs i f).flatten).Perm qs.flatten := by
  induction qs generalizing i with
  | nil => cases hq
  | cons x qs ih =>
    cases i with
    | zero =>
      cases hq
      rw [setAt_zero, List.flatten_cons, List.flatten_cons, ← List.append_assoc]
      exact h.append_right _
    | succ i =>
      rw [setAt_succ, List.flatten_cons, List.flatten_cons, ← List.append_assoc]
      have h1 := ih hq
      refine List.Perm.trans ?_ (List.Perm.append_left x h1)
      rw [← List.append_assoc]
      exact List.Perm.append_right _ List.perm_append_comm

/-! ## One job -/

/-- The sizes of some files. -/
def total (fs : List File) : Nat := (fs.map (·.sizeOriginal)).sum

theorem fill_spec (c : Conf) (q : List File) : ∀ size, (fill c size q).1 ++ (fill c size q).2 = q ∧
    ((fill c size q).1 ≠ [] → size + total (fill c size q).1.dropLast < c.bundleSize) ∧
    ((fill c size q).2 = [] ∨ c.bundleSize ≤ size + total (fill c size q).1) := by
  induction q with
  | nil => intro size; simp [fill]
  | cons f rest ih =>
    intro size
    simp only [fill]
    split
    · rename_i h
      simp [total]; omega
    · rename_i h
      obtain ⟨h1, h2, h3⟩ := ih (size + f.sizeOriginal)
      refine ⟨by simp [h1], ?_, ?_⟩
      · intro _
        dsimp only
        cases hfs : (fill c (size + f.sizeOriginal) rest).1 with
        | nil => simp [total]; omega
        | cons y ys =>
          rw [hfs] at h2
          have := h2 (by simp)
          rw [List.dropLast_cons_of_ne_nil (by simp)]
          simp only [total, List.map_cons, List.sum_cons] at this ⊢
          omega
      · dsimp only
        rcases h3 with h3 | h3
        · exact Or.inl h3
        · right
          simp only [total, List.map_cons, List.sum_cons] at h3 ⊢
          omega

/-- What a job looks like: one file that is not bundled, or a bundle that reaches the bundle size with its last file at most. -/
def Shape (c : Conf) (job : Job) : Prop :=
  (job.bundleId = none ∧ ∃ f, job.files = [f] ∧ bundled c f = false) ∨
  (c.bundle = true ∧ (∃ id, job.bundleId = some id) ∧ ∃ f fs, job.files = f :: fs ∧ bundled c f = true ∧
    (fs ≠ [] → total job.files.dropLast < c.bundleSize))

theorem takeJob_spec {c : Conf} {id : Nat} {q rest : List File} {job : Job} (h : takeJob c id q = some (job, rest)) :
    job.files ++ rest = q ∧ Shape c job ∧ (∀ i, job.bundleId = some i → i = id) ∧
      (job.bundleId ≠ none → rest = [] ∨ c.bundleSize ≤ total job.files) := by
  cases q with
  | nil => cases h
  | cons f q =>
    simp only [takeJob] at h
    split at h
    · rename_i hb
      cases h
      obtain ⟨h1, h2, h3⟩ := fill_spec c q f.sizeOriginal
      refine ⟨by simp [h1], Or.inr ⟨?_, ⟨id, rfl⟩, f, _, rfl, hb, ?_⟩, ?_, ?_⟩
      · unfold bundled at hb
        exact (Bool.and_eq_true_iff.1 hb).1
      · intro hne
        have := h2 hne
        dsimp only
        rw [List.dropLast_cons_of_ne_nil hne]
        simpa only [total, List.map_cons, List.sum_cons] using this
      · intro i hi; exact (Option.some.inj hi).symm
      · intro _
        rcases h3 with h3 | h3
        · exact Or.inl h3
        · right
          simpa only [total, List.map_cons, List.sum_cons] using h3
    · rename_i hb
      cases h
      refine ⟨rfl, Or.inl ⟨rfl, f, rfl, by simpa using hb⟩, ?_, ?_⟩
      · intro i hi; cases hi
      · intro h; exact absurd rfl h

theorem takeJob_none {c : Conf} {id : Nat} {q : List File} (h : takeJob c id q = none) : q = [] := by
  cases q with
  | nil => rfl
  | cons f q =>
    simp only [takeJob] at h
    split at h <;> cases h

/-! ## The scan of the queues -/

/-- The steps the scan needs from its start `s` to the queue `q`. -/
def offs (client : Nat) (s q t : Int) : Int :=
  if client % 2 = 1 then (if q ≤ s then s - q else s + t - q) else (if s ≤ q then q - s else q + t - s)

theorem queueNext_offs {client : Nat} {s q : Int} {t : Nat} (hs : 0 ≤ s ∧ s < t) (hq : 0 ≤ q ∧ q < t) :
    (0 ≤ queueNext client q t ∧ queueNext client q t < t) ∧
    (offs client s q t + 1 < t → offs client s (queueNext client q t) t = offs client s q t + 1 ∧ queueNext client q t ≠ s) ∧
    (offs client s q t + 1 = t → queueNext client q t = s) ∧ 0 ≤ offs client s q t ∧ offs client s q t < t := by
  unfold offs queueNext
  by_cases hc : client % 2 = 1
  · simp only [hc, if_true]
    split <;> split <;> (try split) <;> omega
  · simp only [hc, if_false]
    split <;> split <;> (try split) <;> omega

/-- What happens when a job is taken from the queue `i`. -/
def Taken (c : Conf) (d : JobData) (i : Nat) (job : Job) (d' : JobData) : Prop :=
  ∃ q rest, d.queues[i]? = some q ∧ takeJob c d.bundleId q = some (job, rest) ∧
    d' = { bundleId := if job.bundleId.isSome then d.bundleId + 1 else d.bundleId
           queues := setAt d.queues i (fun _ => rest) }

theorem getQueue_cast (qs : List (List File)) (i : Nat) : getQueue qs (i : Int) = qs.getD i [] := by
  unfold getQueue
  rw [if_neg (by omega)]
  rfl

theorem jobLoop_some {c : Conf} {d : JobData} {client offset t : Nat} {e : Int} (ht : t + offset = d.queues.length) : ∀ (fuel : Nat) (q : Int)
    {job : Job} {d' : JobData}, 0 ≤ q ∧ q < t → jobLoop c d client offset t e fuel q = (some job, d') →
    ∃ i : Nat, (i < t ∧ (c.standby = true ∧ client = 0 → (i : Int) = q)) ∧ Taken c d (i + offset) job d' := by
  intro fuel
  induction fuel with
  | zero => intro q job d' _ h; cases h
  | succ fuel ih =>
    intro q job d' hq h
    simp only [jobLoop] at h
    split at h
    · rename_i job1 rest ht1
      obtain ⟨h1, h2⟩ := Prod.mk.inj h
      cases h1
      refine ⟨q.toNat, ⟨by omega, fun _ => by omega⟩, ?_⟩
      have e1 : q + offset = ((q.toNat + offset : Nat) : Int) := by omega
      rw [e1, getQueue_cast] at ht1
      rw [e1] at h2
      have hlt : q.toNat + offset < d.queues.length := by omega
      refine ⟨d.queues[q.toNat + offset], rest, List.getElem?_eq_getElem hlt, ?_, ?_⟩
      · rw [List.getD_eq_getElem?_getD, List.getElem?_eq_getElem hlt] at ht1
        exact ht1
      · rw [← h2, Int.toNat_natCast]
    · by_cases hc : (!c.standby || decide (client > 0)) = true
      · rw [if_pos hc] at h
        split at h
        · obtain ⟨i, h1, h2⟩ := ih _ (queueNext_offs (client := client) hq hq).1 h
          refine ⟨i, ⟨h1.1, ?_⟩, h2⟩
          intro h3
          rw [h3.1, h3.2] at hc
          cases hc
        · cases h
      · rw [if_neg hc] at h
        split at h
        · exact ih _ hq h
        · cases h

theorem jobLoop_none {c : Conf} {d d' : JobData} {client offset t : Nat} {s : Int} (hs : 0 ≤ s ∧ s < t)
    (hc : (!c.standby || decide (client > 0)) = true) : ∀ (fuel : Nat) (q : Int),
    0 ≤ q ∧ q < t → (t : Int) ≤ fuel + offs client s q t → jobLoop c d client offset t s fuel q = (none, d') →
    d' = d ∧ ∀ i : Nat, i < t → offs client s q t ≤ offs client s i t → getQueue d.queues (i + offset) = [] := by
  intro fuel
  induction fuel with
  | zero =>
    intro q hq hf h
    have := queueNext_offs (client := client) hs hq
    omega
  | succ fuel ih =>
    intro q hq hf h
    simp only [jobLoop] at h
    split at h
    · cases h
    · rename_i hnone
      have hempty := takeJob_none hnone
      rw [if_pos hc] at h
      obtain ⟨h1, h2, h3, h4, h5⟩ := queueNext_offs (client := client) hs hq
      have hsame : ∀ i : Nat, i < t → offs client s i t = offs client s q t → getQueue d.queues (i + offset) = [] := by
        intro i hi he
        have : (i : Int) = q := by
          unfold offs at he
          split at he <;> split at he <;> split at he <;> omega
        rw [this]; exact hempty
      split at h
      · rename_i hne
        have hlt : offs client s q t + 1 < t := by
          rcases Int.lt_or_eq_of_le (show offs client s q t + 1 ≤ t by omega) with h6 | h6
          · exact h6
          · exact absurd (h3 h6) hne
        obtain ⟨h6, h7⟩ := ih _ h1 (by rw [(h2 hlt).1]; push_cast at hf; omega) h
        refine ⟨h6, ?_⟩
        intro i hi ho
        by_cases he : offs client s i t = offs client s q t
        · exact hsame i hi he
        · exact h7 i hi (by rw [(h2 hlt).1]; omega)
      · rename_i hne
        refine ⟨(Prod.mk.inj h).2.symm, ?_⟩
        intro i hi ho
        refine hsame i hi ?_
        have h6 := (queueNext_offs (client := client) hs (q := (i : Int)) (t := t) ⟨by omega, by omega⟩).2.2.2.2
        rcases Int.lt_or_eq_of_le (show offs client s q t + 1 ≤ t by omega) with h7 | h7
        · exact absurd (h2 h7).2 (by simpa using hne)
        · omega

/-- The queues a client takes files from: with a backup from standby the first client works for the primary on the first queue and the
other clients work on the other queues. -/
def Visible (c : Conf) (client i : Nat) : Prop := c.standby = true → (client = 0 ↔ i = 0)

/-- The queues `processQueue` makes: at least one, and one more with a backup from standby. -/
def Enough (c : Conf) (d : JobData) : Prop := (if c.standby then 2 else 1) ≤ d.queues.length

theorem jobCallback_spec {c : Conf} {d : JobData} (hd : Enough c d) (client : Nat) :
    (∃ job d' i, jobCallback c d client = (some job, d') ∧ Visible c client i ∧ Taken c d i job d') ∨
    (jobCallback c d client = (none, d) ∧ ∀ i q, d.queues[i]? = some q → Visible c client i → q = []) := by
  unfold Enough at hd
  cases hr : jobCallback c d client with
  | mk o d' =>
    unfold jobCallback at hr
    by_cases hs : c.standby = true
    · rw [hs] at hd
      by_cases hcl : client = 0
      · subst hcl
        simp only [hs, Bool.true_and, BEq.rfl, if_true, gt_iff_lt, Nat.lt_irrefl, decide_false, Bool.false_eq_true, if_false, Nat.sub_zero] at hr hd
        cases o with
        | some job =>
          left
          obtain ⟨i, h1, h2⟩ := jobLoop_some (offset := 0) (by omega) _ _ (by omega) hr
          refine ⟨job, d', _, rfl, ?_, h2⟩
          intro _
          have := h1.2 ⟨hs, rfl⟩
          omega
        | none =>
          right
          cases hn : d.queues.length with
          | zero => omega
          | succ n =>
            rw [hn] at hr
            simp only [jobLoop] at hr
            split at hr
            · cases hr
            · rename_i hnone
              have hempty := takeJob_none hnone
              simp only [hs, Bool.not_true, Bool.false_or, gt_iff_lt, Nat.lt_irrefl, decide_false, Bool.false_eq_true, if_false, ne_eq, not_true] at hr
              refine ⟨by rw [(Prod.mk.inj hr).2], ?_⟩
              intro i q hq hv
              have hi := (hv hs).1 rfl
              subst hi
              simpa [getQueue, hq] using hempty
      · have hpos : client > 0 := Nat.pos_of_ne_zero hcl
        have hbeq : (client == 0) = false := by simpa using hcl
        simp only [hs, Bool.true_and, hbeq, Bool.false_eq_true, if_false, hpos, decide_true, if_true] at hr hd
        have hm : client % (d.queues.length - 1) < d.queues.length - 1 := Nat.mod_lt _ (by omega)
        have hrange : (0 : Int) ≤ ((client % (d.queues.length - 1) : Nat) : Int) ∧
            ((client % (d.queues.length - 1) : Nat) : Int) < ((d.queues.length - 1 : Nat) : Int) := ⟨by omega, by omega⟩
        cases o with
        | some job =>
          left
          obtain ⟨i, h1, h2⟩ := jobLoop_some (offset := 1) (by omega) _ _ hrange hr
          refine ⟨job, d', _, rfl, ?_, h2⟩
          intro _; omega
        | none =>
          right
          have := queueNext_offs (client := client) hrange hrange
          obtain ⟨h1, h2⟩ := jobLoop_none hrange (by simp [hpos]) _ _ hrange (by omega) hr
          refine ⟨by rw [h1], ?_⟩
          intro i q hq hv
          have hi : i < d.queues.length := (List.getElem?_eq_some_iff.1 hq).1
          have hi0 : i ≠ 0 := fun h => hcl ((hv hs).2 h)
          have hrange' : (0 : Int) ≤ ((i - 1 : Nat) : Int) ∧ ((i - 1 : Nat) : Int) < ((d.queues.length - 1 : Nat) : Int) :=
            ⟨by omega, by omega⟩
          have h3 := (queueNext_offs (client := client) hrange hrange').2.2.2.1
          have hz : offs client ((client % (d.queues.length - 1) : Nat) : Int) ((client % (d.queues.length - 1) : Nat) : Int)
              ((d.queues.length - 1 : Nat) : Int) = 0 := by unfold offs; simp
          have h4 := h2 (i - 1) (by omega) (by rw [hz]; exact h3)
          have e1 : ((i - 1 : Nat) : Int) + ((1 : Nat) : Int) = ((i : Nat) : Int) := by omega
          rw [e1, getQueue_cast] at h4
          simpa [hq] using h4
    · have hs' : c.standby = false := by simpa using hs
      simp only [hs', Bool.false_and, Bool.false_eq_true, if_false, Nat.sub_zero] at hr hd
      have hm : client % d.queues.length < d.queues.length := Nat.mod_lt _ (by omega)
      have hrange : (0 : Int) ≤ ((client % d.queues.length : Nat) : Int) ∧
          ((client % d.queues.length : Nat) : Int) < (d.queues.length : Int) := ⟨by omega, by omega⟩
      cases o with
      | some job =>
        left
        obtain ⟨i, h1, h2⟩ := jobLoop_some (offset := 0) (by omega) _ _ hrange hr
        refine ⟨job, d', _, rfl, ?_, h2⟩
        intro h; exact absurd h hs
      | none =>
        right
        have := queueNext_offs (client := client) hrange hrange
        obtain ⟨h1, h2⟩ := jobLoop_none hrange (by simp [hs']) _ _ hrange (by omega) hr
        refine ⟨by rw [h1], ?_⟩
        intro i q hq hv
        have hi : i < d.queues.length := (List.getElem?_eq_some_iff.1 hq).1
        have hrange' : (0 : Int) ≤ (i : Int) ∧ (i : Int) < (d.queues.length : Int) := ⟨by omega, by omega⟩
        have h3 := (queueNext_offs (client := client) hrange hrange').2.2.2.1
        have hz : offs client ((client % d.queues.length : Nat) : Int) ((client % d.queues.length : Nat) : Int)
            (d.queues.length : Int) = 0 := by unfold offs; simp
        have h4 := h2 i hi (by rw [hz]; exact h3)
        have e1 : (i : Int) + ((0 : Nat) : Int) = ((i : Nat) : Int) := by omega
        rw [e1, getQueue_cast] at h4
        simpa [hq] using h4

/-! ## Many calls -/

theorem Taken.suffix {c : Conf} {d d' : JobData} {i : Nat} {job : Job} (h : Taken c d i job d') (j : Nat) (q' : List File)
    (hq' : d'.queues[j]? = some q') : ∃ q t, d.queues[j]? = some q ∧ q = t ++ q' := by
  obtain ⟨q, rest, h1, h2, rfl⟩ := h
  dsimp only at hq'
  rw [setAt_getElem] at hq'
  split at hq'
  · rename_i he
    subst he
    rw [h1] at hq'
    cases hq'
    exact ⟨q, job.files, h1, (takeJob_spec h2).1.symm⟩
  · exact ⟨q', [], hq', rfl⟩

theorem Taken.enough {c : Conf} {d d' : JobData} {i : Nat} {job : Job} (h : Taken c d i job d') (he : Enough c d) : Enough c d' := by
  obtain ⟨q, rest, h1, h2, rfl⟩ := h
  unfold Enough at *
  dsimp only
  rw [setAt_length]; exact he

/-- The jobs among the answers of some calls. -/
def jobs (calls : List (Nat × Option Job)) : List Job := calls.filterMap (·.2)

theorem calls_enough {c : Conf} (clients : List Nat) : ∀ {d : JobData}, Enough c d →
    Enough c (Parallel.replay (jobCallback c) d clients).2 := by
  induction clients with
  | nil => exact fun h => h
  | cons x clients ih =>
    intro d hd
    simp only [Parallel.replay]
    rcases jobCallback_spec hd x with ⟨job, d', i, h1, h2, h3⟩ | ⟨h1, h2⟩
    · rw [h1]; exact ih (h3.enough hd)
    · rw [h1]; exact ih hd

/-- C30: whatever clients ask for jobs and in which order, the files of the jobs and the files left in the queues are the files that
were queued, each exactly once. -/
theorem c30_cover {c : Conf} (clients : List Nat) : ∀ {d : JobData}, Enough c d →
    let r := Parallel.replay (jobCallback c) d clients
    ((jobs r.1).flatMap (·.files) ++ r.2.queues.flatten).Perm d.queues.flatten := by
  induction clients with
  | nil => intro d hd; exact List.Perm.refl _
  | cons x clients ih =>
    intro d hd
    simp only [Parallel.replay]
    rcases jobCallback_spec hd x with ⟨job, d', i, h1, h2, h3⟩ | ⟨h1, h2⟩
    · rw [h1]
      have h4 := ih (h3.enough hd)
      obtain ⟨q, rest, h5, h6, rfl⟩ := h3
      have h7 := setAt_flatten (qs := d.queues) (f := fun _ => rest) (t := job.files) h5
        (List.Perm.of_eq (takeJob_spec h6).1)
      refine List.Perm.trans ?_ h7
      simp only [jobs, List.filterMap_cons, List.flatMap_cons, List.append_assoc] at h4 ⊢
      exact List.Perm.append_left _ h4
    · rw [h1]
      exact ih hd

/-- C30: every job is a single file that is not bundled, or a bundle whose files apart from the last are smaller in total than the
bundle size. -/
theorem c30_shape {c : Conf} (clients : List Nat) : ∀ {d : JobData}, Enough c d →
    ∀ job ∈ jobs (Parallel.replay (jobCallback c) d clients).1, Shape c job := by
  induction clients with
  | nil => intro d hd job hj; cases hj
  | cons x clients ih =>
    intro d hd
    simp only [Parallel.replay]
    rcases jobCallback_spec hd x with ⟨job, d', i, h1, h2, h3⟩ | ⟨h1, h2⟩
    · rw [h1]
      intro j hj
      simp only [jobs, List.filterMap_cons, List.mem_cons] at hj
      rcases hj with rfl | hj
      · obtain ⟨q, rest, h5, h6, -⟩ := h3
        exact (takeJob_spec h6).2.1
      · exact ih (h3.enough hd) j hj
    · rw [h1]
      exact ih hd

/-- C30: bundle ids count up from the first, so that none is used twice. -/
theorem c30_ids {c : Conf} (clients : List Nat) : ∀ {d : JobData}, Enough c d →
    let r := Parallel.replay (jobCallback c) d clients
    (jobs r.1).filterMap (·.bundleId) = List.range' d.bundleId (r.2.bundleId - d.bundleId) ∧ d.bundleId ≤ r.2.bundleId ∧
      ((jobs r.1).filterMap (·.bundleId)).Nodup := by
  have key : ∀ {d : JobData}, Enough c d →
      let r := Parallel.replay (jobCallback c) d clients
      (jobs r.1).filterMap (·.bundleId) = List.range' d.bundleId (r.2.bundleId - d.bundleId) ∧ d.bundleId ≤ r.2.bundleId := by
    induction clients with
    | nil => intro d hd; simp [Parallel.replay, jobs]
    | cons x clients ih =>
      intro d hd
      simp only [Parallel.replay]
      rcases jobCallback_spec hd x with ⟨job, d', i, h1, h2, h3⟩ | ⟨h1, h2⟩
      · rw [h1]
        obtain ⟨h4, h5⟩ := ih (h3.enough hd)
        obtain ⟨q, rest, h6, h7, h8⟩ := h3
        have h9 := (takeJob_spec h7).2.2.1
        dsimp only at h4 h5 ⊢
        have hb : d'.bundleId = if job.bundleId.isSome then d.bundleId + 1 else d.bundleId := by rw [h8]
        cases hj : job.bundleId with
        | none =>
          rw [hj] at hb
          simp only [Option.isSome_none, Bool.false_eq_true, if_false] at hb
          rw [hb] at h4 h5
          simp only [jobs, List.filterMap_cons, hj] at h4 ⊢
          exact ⟨h4, h5⟩
        | some id =>
          rw [hj] at hb
          simp only [Option.isSome_some, if_true] at hb
          rw [hb] at h4 h5
          have hid := h9 id hj
          subst hid
          simp only [jobs, List.filterMap_cons, hj] at h4 ⊢
          rw [h4]
          refine ⟨?_, by omega⟩
          generalize (Parallel.replay (jobCallback c) d' clients).2.bundleId = m at *
          obtain ⟨k, hk⟩ : ∃ k, m - d.bundleId = k + 1 := ⟨m - d.bundleId - 1, by omega⟩
          rw [hk, List.range'_succ]
          congr 2
          omega
      · rw [h1]
        exact ih hd
  intro d hd r
  obtain ⟨h1, h2⟩ := key hd
  refine ⟨h1, h2, ?_⟩
  rw [h1]
  exact List.nodup_range'

theorem sorted_suffix {c : Conf} {t q : List File} (h : (t ++ q).Pairwise (fun f g => (queueCmp c f g).isLE = true)) :
    q.Pairwise (fun f g => (queueCmp c f g).isLE = true) := (List.pairwise_append.1 h).2.1

theorem Taken.files {c : Conf} {d d' : JobData} {i : Nat} {job : Job} (h : Taken c d i job d') :
    ∃ q rest, d.queues[i]? = some q ∧ q = job.files ++ rest := by
  obtain ⟨q, rest, h1, h2, -⟩ := h
  exact ⟨q, rest, h1, (takeJob_spec h2).1.symm⟩

/-- C30: when the queues are sorted with the comparator, a bundle has only files that are small enough to be bundled. -/
theorem c30_limit {c : Conf} (clients : List Nat) : ∀ {d : JobData}, Enough c d →
    (∀ q ∈ d.queues, q.Pairwise (fun f g => (queueCmp c f g).isLE = true)) →
    ∀ job ∈ jobs (Parallel.replay (jobCallback c) d clients).1, ∀ id, job.bundleId = some id →
      ∀ f ∈ job.files, f.size ≤ c.bundleLimit := by
  induction clients with
  | nil => intro d hd _ job hj; cases hj
  | cons x clients ih =>
    intro d hd hs
    simp only [Parallel.replay]
    rcases jobCallback_spec hd x with ⟨job, d', i, h1, h2, h3⟩ | ⟨h1, h2⟩
    · rw [h1]
      intro j hj
      simp only [jobs, List.filterMap_cons, List.mem_cons] at hj
      rcases hj with rfl | hj
      · intro id hid f hf
        obtain ⟨q, rest, h4, h5⟩ := h3.files
        have h6 := hs q (List.mem_of_getElem? h4)
        obtain ⟨_, _, _, h7, -⟩ := h3
        rcases (takeJob_spec h7).2.1 with ⟨h8, -⟩ | ⟨-, -, g, fs, h8, h9, -⟩
        · rw [h8] at hid; cases hid
        · have hb : bundled c f = true := by
            rw [h8] at hf
            rcases List.mem_cons.1 hf with rfl | hf
            · exact h9
            · rw [h5, h8, List.cons_append, List.pairwise_cons] at h6
              have h10 := h6.1 f (List.mem_append_left _ hf)
              by_cases hb : bundled c f = true
              · exact hb
              · unfold queueCmp at h10
                rw [if_pos (by rw [h9]; exact fun h => hb h.symm), if_pos h9] at h10
                cases h10
          unfold bundled at hb
          exact of_decide_eq_true (Bool.and_eq_true_iff.1 hb).2
      · refine ih (h3.enough hd) ?_ j hj
        intro q' hq'
        obtain ⟨k, hk⟩ := List.getElem?_of_mem hq'
        obtain ⟨q, t, h4, h5⟩ := h3.suffix k q' hk
        have := hs q (List.mem_of_getElem? h4)
        rw [h5] at this
        exact sorted_suffix this
    · rw [h1]
      exact ih hd hs

/-- C30: a client gets only files from the queues it works on, so with a backup from standby the files of the first queue are only
copied by the client of the primary, and this client copies no other files. -/
theorem c30_visible {c : Conf} (clients : List Nat) : ∀ {d : JobData}, Enough c d →
    ∀ client job, (client, some job) ∈ (Parallel.replay (jobCallback c) d clients).1 →
      ∃ i q, d.queues[i]? = some q ∧ (c.standby = true → (client = 0 ↔ i = 0)) ∧ ∀ f ∈ job.files, f ∈ q := by
  induction clients with
  | nil => intro d hd client job hj; cases hj
  | cons x clients ih =>
    intro d hd client
    simp only [Parallel.replay]
    rcases jobCallback_spec hd x with ⟨job, d', i, h1, h2, h3⟩ | ⟨h1, h2⟩
    · rw [h1]
      intro j hj
      rcases List.mem_cons.1 hj with he | hj
      · cases he
        obtain ⟨q, rest, h4, h5⟩ := h3.files
        exact ⟨i, q, h4, h2, fun f hf => by rw [h5]; exact List.mem_append_left _ hf⟩
      · obtain ⟨k, q', h4, h5, h6⟩ := ih (h3.enough hd) client j hj
        obtain ⟨q, t, h7, h8⟩ := h3.suffix k q' h4
        exact ⟨k, q, h7, h5, fun f hf => by rw [h8]; exact List.mem_append_right _ (h6 f hf)⟩
    · rw [h1]
      intro j hj
      rcases List.mem_cons.1 hj with he | hj
      · cases he
      · exact ih hd client j hj

/-- C30: a client is told that there are no more jobs only when all queues it works on are empty, and nothing changes then. -/
theorem c30_none {c : Conf} {d d' : JobData} (hd : Enough c d) (client : Nat) (h : jobCallback c d client = (none, d')) :
    d' = d ∧ ∀ i q, d.queues[i]? = some q → (c.standby = true → (client = 0 ↔ i = 0)) → q = [] := by
  rcases jobCallback_spec hd client with ⟨job, d1, i, h1, -⟩ | ⟨h1, h2⟩
  · rw [h1] at h; cases h
  · rw [h1] at h
    exact ⟨(Prod.mk.inj h).2.symm, h2⟩

/-! ## The queues -/

theorem mem_setAt_flatten {α : Type} (qs : List (List α)) (i : Nat) (x : α) (h : i < qs.length) :
    (setAt qs i (· ++ [x])).flatten.Perm (x :: qs.flatten) := by
  have h1 := setAt_flatten (qs := setAt qs i (· ++ [x])) (i := i) (f := fun _ => qs[i]) (t := [x]) (q := qs[i] ++ [x])
    (by rw [setAt_getElem, if_pos rfl, List.getElem?_eq_getElem h]; rfl) List.perm_append_comm
  have h2 : setAt (setAt qs i (· ++ [x])) i (fun _ => qs[i]) = qs := by
    apply List.ext_getElem?
    intro j
    rw [setAt_getElem]
    split
    · rename_i he; subst he
      rw [setAt_getElem, if_pos rfl, List.getElem?_eq_getElem h]; rfl
    · rename_i he
      rw [setAt_getElem, if_neg he]
  rw [h2] at h1
  exact h1.symm

theorem findTarget_lt {targets : List Str} {name : Str} {i : Nat} (h : findTarget targets name = some i) :
    ∃ t, targets[i]? = some t ∧ beginsWith name t = true := by
  obtain ⟨hi, h2, h3⟩ := List.findIdx?_eq_some_iff_getElem.1 h
  exact ⟨targets[i], List.getElem?_eq_getElem hi, h2⟩

/-- Which queue a file belongs to: with a backup from standby the first queue is for files of the primary. -/
def Home (c : Conf) (primary : Str → Bool) (targets : List Str) (f : File) (i : Nat) : Prop :=
  if c.standby then
    (primary f.name = true ∧ i = 0) ∨
    (primary f.name = false ∧ ∃ k t, i = k + 1 ∧ targets[k]? = some t ∧ beginsWith f.name t = true)
  else ∃ t, targets[i]? = some t ∧ beginsWith f.name t = true

theorem queueFile_spec {c : Conf} {primary : Str → Bool} {targets : List Str} {qs qs' : List (List File)} {f : File}
    (hl : qs.length = targets.length + if c.standby then 1 else 0)
    (h : queueFile c primary targets qs f = .ok qs') :
    (f.copy = false ∧ qs' = qs) ∨ (f.copy = true ∧ ∃ i, i < qs.length ∧ Home c primary targets f i ∧ qs' = setAt qs i (· ++ [f])) := by
  unfold queueFile at h
  split at h
  · rename_i hc
    cases h
    exact Or.inl ⟨by simpa using hc, rfl⟩
  · rename_i hc
    right
    refine ⟨by simpa using hc, ?_⟩
    split at h
    · rename_i hp
      obtain ⟨h1, h2⟩ := Bool.and_eq_true_iff.1 hp
      cases h
      refine ⟨0, by rw [hl, h1]; simp, ?_, rfl⟩
      unfold Home
      rw [if_pos h1]
      exact Or.inl ⟨h2, rfl⟩
    · rename_i hp
      split at h
      · cases h
      · rename_i i hi
        cases h
        obtain ⟨t, h1, h2⟩ := findTarget_lt hi
        have h3 := (List.getElem?_eq_some_iff.1 h1).1
        refine ⟨_, by rw [hl]; omega, ?_, rfl⟩
        unfold Home
        by_cases hs : c.standby = true
        · rw [if_pos hs, if_pos hs]
          right
          refine ⟨?_, i, t, rfl, h1, h2⟩
          rw [hs, Bool.true_and] at hp
          simpa using hp
        · rw [if_neg hs, if_neg hs]
          exact ⟨t, h1, h2⟩

theorem queueFiles_spec {c : Conf} {primary : Str → Bool} {targets : List Str} (files : List File) : ∀ {qs qs' : List (List File)},
    qs.length = targets.length + (if c.standby then 1 else 0) →
    queueFiles c primary targets qs files = .ok qs' →
    qs'.length = qs.length ∧ qs'.flatten.Perm (files.filter (·.copy) ++ qs.flatten) ∧
      ∀ i q, qs'[i]? = some q → ∀ f ∈ q, Home c primary targets f i ∨ ∃ q0, qs[i]? = some q0 ∧ f ∈ q0 := by
  induction files with
  | nil =>
    intro qs qs' _ h
    cases h
    exact ⟨rfl, List.Perm.refl _, fun i q hq f hf => Or.inr ⟨q, hq, hf⟩⟩
  | cons g files ih =>
    intro qs qs' hl h
    simp only [queueFiles] at h
    split at h
    · cases h
    · rename_i qs1 hg
      rcases queueFile_spec hl hg with ⟨h1, rfl⟩ | ⟨h1, k, h2, h3, rfl⟩
      · rw [List.filter_cons_of_neg (by simp [h1])]
        exact ih hl h
      · obtain ⟨h4, h5, h6⟩ := ih (by rw [setAt_length]; exact hl) h
        rw [setAt_length] at h4
        refine ⟨h4, ?_, ?_⟩
        · rw [List.filter_cons_of_pos h1]
          refine h5.trans ?_
          refine (List.Perm.append_left _ (mem_setAt_flatten qs k g h2)).trans ?_
          exact List.perm_middle
        · intro i q hq f hf
          rcases h6 i q hq f hf with h7 | ⟨q0, h7, h8⟩
          · exact Or.inl h7
          · rw [setAt_getElem] at h7
            split at h7
            · rename_i he
              subst he
              rw [List.getElem?_eq_getElem h2] at h7
              cases h7
              rcases List.mem_append.1 h8 with h8 | h8
              · exact Or.inr ⟨_, List.getElem?_eq_getElem h2, h8⟩
              · rw [List.mem_singleton.1 h8]; exact Or.inl h3
            · exact Or.inr ⟨q0, h7, h8⟩

theorem flatten_map_perm {α : Type} {sort : List α → List α} (hsort : ∀ l, (sort l).Perm l) (qs : List (List α)) :
    (qs.map sort).flatten.Perm qs.flatten := by
  induction qs with
  | nil => exact List.Perm.refl _
  | cons q qs ih => exact (hsort q).append ih

theorem flatten_replicate {α : Type} (n : Nat) : (List.replicate n ([] : List α)).flatten = [] := by simp

/-- C30: the queues have exactly the files that are to be copied, each in a queue it belongs to, and something is copied. -/
theorem c30_queue {c : Conf} {online : Bool} {primary : Str → Bool} {targets : List Str} {sort : List File → List File}
    (hsort : ∀ l, (sort l).Perm l) {files : List File} {qs : List (List File)}
    (h : processQueue c online primary targets sort files = .ok qs) :
    qs.length = targets.length + (if c.standby then 1 else 0) ∧ qs.flatten.Perm (files.filter (·.copy)) ∧ qs.flatten ≠ [] ∧
      (∀ i q, qs[i]? = some q → ∀ f ∈ q, Home c primary targets f i) ∧
      (online = true → ∃ f ∈ qs.flatten, f.name = pgControl) ∧
      ((∀ l, (sort l).Pairwise (fun f g => (queueCmp c f g).isLE = true)) →
        ∀ q ∈ qs, q.Pairwise (fun f g => (queueCmp c f g).isLE = true)) := by
  unfold processQueue at h
  split at h
  · cases h
  · rename_i qs0 hq
    split at h
    · cases h
    · rename_i hctl
      split at h
      · cases h
      · rename_i hany
        cases h
        obtain ⟨h1, h2, h3⟩ := queueFiles_spec files (by simp) hq
        rw [List.length_replicate] at h1
        rw [flatten_replicate, List.append_nil] at h2
        have hperm := (flatten_map_perm hsort qs0).trans h2
        refine ⟨by rw [List.length_map]; exact h1, hperm, ?_, ?_, ?_, ?_⟩
        · intro he
          rw [he] at hperm
          have hnil := hperm.symm.eq_nil
          apply hany
          rw [List.filter_eq_nil_iff] at hnil
          simp only [Bool.not_eq_true, Bool.not_eq_eq_eq_not, Bool.not_true, List.any_eq_false] at hnil ⊢
          exact hnil
        · intro i q hq1 f hf
          rw [List.getElem?_map] at hq1
          cases hq0 : qs0[i]? with
          | none => rw [hq0] at hq1; cases hq1
          | some q0 =>
            rw [hq0] at hq1
            cases hq1
            rcases h3 i q0 hq0 f ((hsort q0).mem_iff.1 hf) with h4 | ⟨q1, h4, h5⟩
            · exact h4
            · rw [(List.mem_replicate.1 (List.mem_of_getElem? h4)).2] at h5
              cases h5
        · intro ho
          rw [ho, Bool.true_and] at hctl
          have h4 : (files.any fun f => f.copy && f.name == pgControl) = true := by simpa using hctl
          obtain ⟨f, h5, h6⟩ := List.any_eq_true.1 h4
          obtain ⟨h7, h8⟩ := Bool.and_eq_true_iff.1 h6
          exact ⟨f, hperm.mem_iff.2 (List.mem_filter.2 ⟨h5, h7⟩), by simpa using h8⟩
        · intro h4 q hq1
          obtain ⟨q0, -, rfl⟩ := List.mem_map.1 hq1
          exact h4 q0

/-! ## A whole backup -/

theorem jobLoop_none_same {c : Conf} {d d' : JobData} {client offset t : Nat} {e : Int} : ∀ (fuel : Nat) (q : Int),
    jobLoop c d client offset t e fuel q = (none, d') → d' = d := by
  intro fuel
  induction fuel with
  | zero => intro q h; exact (Prod.mk.inj h).2.symm
  | succ fuel ih =>
    intro q h
    simp only [jobLoop] at h
    split at h
    · cases h
    · split at h
      · split at h
        · exact ih _ h
        · exact (Prod.mk.inj h).2.symm
      · split at h
        · exact ih _ h
        · exact (Prod.mk.inj h).2.symm

theorem jobCallback_weak (c : Conf) (d : JobData) (client : Nat) :
    (∃ job d' i, jobCallback c d client = (some job, d') ∧ Taken c d i job d') ∨ jobCallback c d client = (none, d) := by
  cases hr : jobCallback c d client with
  | mk o d' =>
    cases o with
    | none =>
      right
      unfold jobCallback at hr
      rw [jobLoop_none_same _ _ hr]
    | some job =>
      left
      unfold jobCallback at hr
      refine ⟨job, d', ?_⟩
      have hoff : (if c.standby && decide (client > 0) then 1 else 0 : Nat) = 0 ∨
          (if c.standby && decide (client > 0) then 1 else 0 : Nat) = 1 := by split <;> simp
      generalize (if c.standby && decide (client > 0) then 1 else 0 : Nat) = offset at hr hoff
      dsimp only at hr
      by_cases ht : d.queues.length - offset = 0
      · rw [ht] at hr
        cases hr
      · have hm : client % (d.queues.length - offset) < d.queues.length - offset := Nat.mod_lt _ (by omega)
        have hrange : (0 : Int) ≤ (if (c.standby && client == 0) = true then (0 : Int) else ((client % (d.queues.length - offset) : Nat) : Int)) ∧
          (if (c.standby && client == 0) = true then (0 : Int) else ((client % (d.queues.length - offset) : Nat) : Int)) <
            ((d.queues.length - offset : Nat) : Int) := by split <;> omega
        obtain ⟨i, -, h2⟩ := jobLoop_some (offset := offset) (by omega) _ _ hrange hr
        exact ⟨_, rfl, h2⟩

theorem jobs_filterMap (calls : List (Nat × Option Job)) :
    (calls.filterMap (fun c => c.2.map (fun j => (c.1, j)))).map (·.2) = jobs calls := by
  unfold jobs
  induction calls with
  | nil => rfl
  | cons x calls ih =>
    obtain ⟨i, o⟩ := x
    cases o with
    | none => simpa [List.filterMap_cons] using ih
    | some j => simpa [List.filterMap_cons] using ih

theorem shape_files {c : Conf} {job : Job} (h : Shape c job) : 0 < job.files.length := by
  rcases h with ⟨-, f, h1, -⟩ | ⟨-, -, f, fs, h1, -⟩ <;> simp [h1]

theorem calls_suffix {c : Conf} (clients : List Nat) : ∀ {d : JobData} (i : Nat) (q' : List File),
    (Parallel.replay (jobCallback c) d clients).2.queues[i]? = some q' → ∃ q t, d.queues[i]? = some q ∧ q = t ++ q' := by
  induction clients with
  | nil => intro d i q' h; exact ⟨q', [], h, rfl⟩
  | cons x clients ih =>
    intro d i q' h
    simp only [Parallel.replay] at h
    obtain ⟨q, t, h1, h2⟩ := ih i q' h
    rcases jobCallback_weak c d x with ⟨job, d', k, h3, h4⟩ | h3
    · rw [h3] at h1
      obtain ⟨q0, t0, h5, h6⟩ := h4.suffix i q h1
      exact ⟨q0, t0 ++ t, h5, by rw [h6, h2, List.append_assoc]⟩
    · rw [h3] at h1
      exact ⟨q, t, h1, h2⟩

/-- C30: when a client was told that there are no more jobs, the queues it works on stay empty. -/
theorem c30_final {c : Conf} (clients : List Nat) : ∀ {d : JobData}, Enough c d → ∀ client,
    (client, none) ∈ (Parallel.replay (jobCallback c) d clients).1 →
    ∀ i q, (Parallel.replay (jobCallback c) d clients).2.queues[i]? = some q → (c.standby = true → (client = 0 ↔ i = 0)) → q = [] := by
  induction clients with
  | nil => intro d hd client h; cases h
  | cons x clients ih =>
    intro d hd client
    simp only [Parallel.replay]
    rcases jobCallback_spec hd x with ⟨job, d', k, h1, h2, h3⟩ | ⟨h1, h2⟩
    · rw [h1]
      intro h i q hq hv
      rcases List.mem_cons.1 h with he | h
      · cases he
      · exact ih (h3.enough hd) client h i q hq hv
    · rw [h1]
      intro h i q hq hv
      rcases List.mem_cons.1 h with he | h
      · cases he
        obtain ⟨q0, t, h3, h4⟩ := calls_suffix clients i q hq
        rw [h2 i q0 h3 hv] at h4
        exact (List.append_eq_nil_iff.1 h4.symm).2
      · exact ih hd client h i q hq hv

/-- C30: a backup of any files with any clients, where some running client always becomes ready, ends, and its jobs have each file to
copy exactly once. Each bundle has its own id, and a file that must come from the primary is copied by the first client and no other
file is. -/
theorem c30_backup {c : Conf} {online : Bool} {primary : Str → Bool} {targets : List Str} {sort : List File → List File}
    (hsort : ∀ l, (sort l).Perm l) {files : List File} {qs : List (List File)}
    (h : processQueue c online primary targets sort files = .ok qs) (ht : targets ≠ []) (clients : Nat)
    (hc : (if c.standby then 2 else 1) ≤ clients) (sched : Parallel.St JobData Job → Nat → Bool)
    (hs : ∀ st : Parallel.St JobData Job, (∃ i id, i < st.total ∧ st.slots i = .running id) →
      ∃ i, i < st.total ∧ Parallel.hasData (sched st) st i = true) :
    ∃ fuel st, Parallel.loop (jobCallback c) sched fuel (Parallel.start clients ⟨1, qs⟩) = some st ∧
      (st.delivered.flatMap (·.job.files)).Perm (files.filter (·.copy)) ∧
      (st.delivered.filterMap (·.job.bundleId)).Nodup ∧
      (c.standby = true → ∀ r ∈ st.delivered, ∀ f ∈ r.job.files, primary f.name = true ↔ r.client = 0) := by
  obtain ⟨hlen, hperm, -, hhome, -, -⟩ := c30_queue hsort h
  have htl : 0 < targets.length := List.length_pos_iff.2 ht
  have he : Enough c ⟨1, qs⟩ := by
    unfold Enough
    rw [hlen]
    split <;> omega
  let μ : JobData → Nat := fun d => d.queues.flatten.length
  have hμ : ∀ (s : JobData) (i : Nat), μ (jobCallback c s i).2 + (if (jobCallback c s i).1.isSome then 1 else 0) ≤ μ s := by
    intro s i
    rcases jobCallback_weak c s i with ⟨job, d', k, h1, h2⟩ | h1
    · rw [h1]
      obtain ⟨q, rest, h3, h4, rfl⟩ := h2
      have h5 := (setAt_flatten (qs := s.queues) (f := fun _ => rest) (t := job.files) h3
        (List.Perm.of_eq (takeJob_spec h4).1)).length_eq
      have h6 := shape_files (takeJob_spec h4).2.1
      rw [List.length_append] at h5
      simp only [Option.isSome_some, if_true, μ]
      omega
    · rw [h1]; simp
  obtain ⟨st, h1, h2, h3, h4, h5⟩ := Parallel.c29_terminates (jobCallback c) μ hμ clients ⟨1, qs⟩ sched hs
  refine ⟨_, st, h1, ?_, ?_, ?_⟩
  all_goals
    have hr1 : (Parallel.replay (jobCallback c) ⟨1, qs⟩ (st.calls.map (·.1))).1 = st.calls := by rw [h3]
    have hr2 : (Parallel.replay (jobCallback c) ⟨1, qs⟩ (st.calls.map (·.1))).2 = st.cb := by rw [h3]
    have hjobs : (st.delivered.map (·.job)).Perm (jobs st.calls) := by
      have := h4.map (·.2)
      rw [List.map_map, jobs_filterMap] at this
      exact this
  · have hcover := c30_cover (st.calls.map (·.1)) he
    dsimp only at hcover
    rw [hr1, hr2] at hcover
    have hempty : st.cb.queues.flatten = [] := by
      rw [List.flatten_eq_nil_iff]
      intro q hq
      obtain ⟨i, hi⟩ := List.getElem?_of_mem hq
      have key : ∀ client, client < clients → (c.standby = true → (client = 0 ↔ i = 0)) → q = [] := by
        intro client hcl hv
        refine c30_final (st.calls.map (·.1)) he client ?_ i q ?_ hv
        · rw [hr1]; exact h2 client hcl
        · rw [hr2]; exact hi
      by_cases hst : c.standby = true
      · rw [if_pos hst] at hc
        by_cases hi0 : i = 0
        · exact key 0 (by omega) (fun _ => by simp [hi0])
        · exact key 1 (by omega) (fun _ => by simp [hi0])
      · rw [if_neg hst] at hc
        exact key 0 (by omega) (fun h => absurd h hst)
    rw [hempty, List.append_nil] at hcover
    have h6 : st.delivered.flatMap (·.job.files) = (st.delivered.map (·.job)).flatMap (·.files) := by
      rw [List.flatMap_map]
    rw [h6]
    exact ((hjobs.flatMap_right _).trans hcover).trans hperm
  · have hids := (c30_ids (st.calls.map (·.1)) he).2.2
    rw [hr1] at hids
    have h6 : st.delivered.filterMap (·.job.bundleId) = (st.delivered.map (·.job)).filterMap (·.bundleId) := by
      rw [List.filterMap_map]; rfl
    rw [h6]
    exact ((hjobs.filterMap _).nodup_iff).2 hids
  · intro hst r hr f hf
    have h6 : (r.client, r.job) ∈ st.delivered.map (fun r => (r.client, r.job)) := List.mem_map.2 ⟨r, hr, rfl⟩
    have h7 := h4.mem_iff.1 h6
    obtain ⟨⟨cl, o⟩, h8, h9⟩ := List.mem_filterMap.1 h7
    cases o with
    | none => cases h9
    | some j =>
      have h9' := Option.some.inj h9
      obtain ⟨e1, e2⟩ := Prod.mk.inj h9'
      dsimp only at e1 e2
      subst e1 e2
      rw [← hr1] at h8
      obtain ⟨i, q, h10, h11, h12⟩ := c30_visible (st.calls.map (·.1)) he _ _ h8
      have h13 := hhome i q h10 f (h12 f hf)
      rw [h11 hst]
      unfold Home at h13
      rw [if_pos hst] at h13
      rcases h13 with ⟨a, b⟩ | ⟨a, k, t, b, -⟩
      · simp [a, b]
      · simp [a, b]

/-- A small file. -/
def small (n : UInt8) (size : Nat) : File := ⟨[n], true, size, size, none, 0, 0, 0⟩

/-- Two bundles and one file that is too large, in one queue. -/
example : Parallel.replay (jobCallback ⟨false, true, 10, 5⟩) ⟨1, [[small 1 20, small 2 4, small 3 5, small 4 3, small 5 1]]⟩ [0, 1, 0, 1] =
    ([(0, some ⟨none, [small 1 20]⟩), (1, some ⟨some 1, [small 2 4, small 3 5, small 4 3]⟩), (0, some ⟨some 2, [small 5 1]⟩), (1, none)],
      ⟨3, [[]]⟩) := by decide

example : Enough ⟨false, true, 10, 5⟩ ⟨1, [[small 1 20, small 2 4]]⟩ := by unfold Enough; decide

example : ∀ q ∈ [[small 1 20, small 2 4, small 3 5]], q.Pairwise (fun f g => (queueCmp ⟨false, true, 10, 5⟩ f g).isLE = true) := by decide

/-- A backup from standby: the first client has the file of the primary, the other client the rest. -/
example : processQueue ⟨true, false, 0, 0⟩ false (fun n => n == [1, 1]) [[1]] id [⟨[1, 1], true, 1, 1, none, 0, 0, 0⟩, ⟨[1, 2], true, 1, 1, none, 0, 0, 0⟩, ⟨[1, 3], false, 1, 1, none, 0, 0, 0⟩] =
    .ok [[⟨[1, 1], true, 1, 1, none, 0, 0, 0⟩], [⟨[1, 2], true, 1, 1, none, 0, 0, 0⟩]] := by decide

end Verif.Backup
