import Verif.Restore.JobModel
import Verif.Backup.JobProps

/-!
# C31 Jobs of a restore
-/

namespace Verif.Restore.Job

open Verif.Backup (setAt setAt_flatten setAt_getElem setAt_length mem_setAt_flatten offs flatten_map_perm flatten_replicate cmp_nat
  cmp_nat_desc)

/-! ## The order of a queue -/

/-- The keys a queue is sorted by, most significant first. -/
def lexCmp : File → File → Ordering :=
  compareLex (compareOn fun f => decide (f.size = 0)) <|
  compareLex (compareOn fun f => f.bundleId) <|
  compareLex (fun f g => compareOn (fun f => if f.bundleId = 0 then f.size else 0) g f) <|
  compareLex (fun f g => compareOn (fun f => if f.bundleId = 0 then f.name else []) g f) <|
  compareLex (compareOn fun f => decide (f.bundleId ≠ 0) && f.reference.isNone) <|
  compareLex (compareOn fun f => if f.bundleId = 0 then [] else f.reference.getD []) <|
  compareOn fun f => if f.bundleId = 0 then 0 else f.bundleOffset

theorem queueCmp_eq (f g : File) (h : lexCmp f g ≠ .eq) : queueCmp f g = lexCmp f g := by
  unfold queueCmp
  unfold lexCmp at h ⊢
  simp only [compareLex, compareOn] at h ⊢
  have hz : ∀ x, (if f.size = 0 ∧ g.size ≠ 0 then Ordering.gt else if f.size ≠ 0 ∧ g.size = 0 then .lt else x) =
      (compare (decide (f.size = 0)) (decide (g.size = 0))).then x := by
    intro x
    by_cases h1 : f.size = 0 <;> by_cases h2 : g.size = 0 <;> simp [h1, h2] <;> rfl
  rw [hz, cmp_nat]
  generalize compare (decide (f.size = 0)) (decide (g.size = 0)) = o1 at h ⊢
  cases o1 <;> simp only [Ordering.then] at h ⊢
  cases hb : compare f.bundleId g.bundleId <;> simp only [hb, Ordering.then] at h ⊢
  have hbe : f.bundleId = g.bundleId := Std.LawfulEqOrd.eq_of_compare hb
  by_cases h0 : f.bundleId = 0
  · have h0' : g.bundleId = 0 := by omega
    simp only [h0, h0', if_true] at h ⊢
    rw [cmp_nat_desc]
    cases compare g.size f.size <;> simp only [Ordering.then]
    cases compare g.name f.name <;> simp
  · have h0' : g.bundleId ≠ 0 := by omega
    simp only [h0, h0', if_false, ne_eq, not_false_eq_true, decide_true, Bool.true_and] at h ⊢
    have hrest : compare f.bundleOffset g.bundleOffset ≠ .eq →
        (if f.bundleOffset < g.bundleOffset then Ordering.lt else .gt) = compare f.bundleOffset g.bundleOffset := by
      intro hne
      rw [Nat.compare_eq_ite_lt] at hne ⊢
      split
      · rfl
      · rename_i hn
        rw [if_neg hn] at hne
        split
        · rfl
        · rename_i hn2
          rw [if_neg hn2] at hne
          exact absurd rfl hne
    cases hr : f.reference with
    | none =>
      cases hs : g.reference with
      | none =>
        simp only [hr, hs] at h ⊢
        simp at h ⊢
        exact hrest (by simpa using h)
      | some s => simp; rfl
    | some r =>
      cases hs : g.reference with
      | none => simp; rfl
      | some s =>
        simp only [hr, hs] at h ⊢
        have hsw : (compare s r).swap = compare r s := Std.OrientedCmp.eq_swap.symm
        rw [hsw]
        cases hc : compare r s
        · simp [hc]
        · simp [hc] at h ⊢
          exact hrest (by simpa using h)
        · simp [hc]

/-- C31: the comparator is a total order for files with different names that are at different offsets of bundles, as `qsort` needs it. -/
theorem c31_order : ∃ cmp : File → File → Ordering, Std.TransCmp cmp ∧ (∀ f g, cmp f g ≠ .eq → queueCmp f g = cmp f g) ∧
    ∀ f g, cmp f g = .eq → (f.bundleId = 0 ∧ g.bundleId = 0 ∧ f.name = g.name) ∨
      (f.bundleId ≠ 0 ∧ f.bundleId = g.bundleId ∧ f.reference = g.reference ∧ f.bundleOffset = g.bundleOffset) := by
  refine ⟨lexCmp, ?_, queueCmp_eq, ?_⟩
  · unfold lexCmp
    infer_instance
  · intro f g h
    simp only [lexCmp, compareLex, compareOn, Ordering.then_eq_eq] at h
    obtain ⟨-, h1, -, h2, h3, h4, h5⟩ := h
    have hb : f.bundleId = g.bundleId := Std.LawfulEqOrd.eq_of_compare h1
    by_cases h0 : f.bundleId = 0
    · have h0' : g.bundleId = 0 := by omega
      simp only [h0, h0', if_true] at h2
      exact Or.inl ⟨h0, h0', (Std.LawfulEqOrd.eq_of_compare h2).symm⟩
    · have h0' : g.bundleId ≠ 0 := by omega
      simp only [h0, h0', if_false, ne_eq, not_false_eq_true, decide_true, Bool.true_and] at h3 h4 h5
      have e3 := Std.LawfulEqOrd.eq_of_compare h3
      have e4 := Std.LawfulEqOrd.eq_of_compare h4
      refine Or.inr ⟨h0, hb, ?_, Std.LawfulEqOrd.eq_of_compare h5⟩
      cases hr : f.reference <;> cases hs : g.reference <;> simp_all

example : queueCmp ⟨[1], 5, 5, none, 2, 10, 0⟩ ⟨[2], 7, 7, none, 2, 0, 0⟩ = .gt := by decide

/-! ## One job -/

theorem fill_spec (b : Nat) (r : Option Str) (q : List File) : (fill b r q).1 ++ (fill b r q).2 = q ∧
    (∀ f ∈ (fill b r q).1, f.bundleId = b ∧ f.reference = r) ∧
    (∀ f, (fill b r q).2.head? = some f → f.bundleId ≠ b ∨ f.reference ≠ r) := by
  induction q with
  | nil => simp [fill]
  | cons f rest ih =>
    simp only [fill]
    split
    · rename_i h
      refine ⟨rfl, fun f hf => (by cases hf), ?_⟩
      intro g hg
      cases hg
      rcases h with h | h
      · exact Or.inl (fun he => h he.symm)
      · exact Or.inr (fun he => h he.symm)
    · rename_i h
      obtain ⟨h1, h2, h3⟩ := ih
      refine ⟨by simp [h1], ?_, h3⟩
      intro g hg
      rcases List.mem_cons.1 hg with rfl | hg
      · by_cases e1 : b = g.bundleId
        · by_cases e2 : r = g.reference
          · exact ⟨e1.symm, e2.symm⟩
          · exact absurd (Or.inr e2) h
        · exact absurd (Or.inl e1) h
      · exact h2 g hg

/-- The repository file that has a file of the manifest: its bundle, or a file of its own, in the backup that copied it. -/
def Stored (label : Str) (f : File) : RepoPath :=
  let backup := match f.reference with
    | some r => r
    | none => label
  match f.bundleId with
  | 0 => .file backup f.name (f.blockIncrMapSize != 0)
  | n + 1 => .bundle backup (n + 1)

/-- The files of a job. -/
def names (job : Job) : List File := job.files.map (·.1)

theorem stored_eq (label : Str) (f : File) :
    repoPath (f.reference.getD label) f.name f.bundleId (decide (f.blockIncrMapSize ≠ 0)) = Stored label f := by
  unfold repoPath Stored
  cases hr : f.reference <;> cases hb : f.bundleId <;> simp <;>
    (cases hm : f.blockIncrMapSize <;> rfl)

theorem takeJob_spec {label : Str} {q rest : List File} {job : Job} (h : takeJob label q = some (job, rest)) :
    names job ++ rest = q ∧ names job ≠ [] ∧ (∀ f ∈ names job, job.path = Stored label f) ∧
      (∀ f ∈ names job, f.bundleId = 0 → names job = [f]) ∧
      (∀ f ∈ names job, ∀ g ∈ names job, f.bundleId = g.bundleId ∧ f.reference = g.reference) ∧
      job.files = (names job).map (fun f => (f, part f)) := by
  cases q with
  | nil => cases h
  | cons f q =>
    simp only [takeJob] at h
    have hn : ∀ l : List File, (l.map fun g => (g, part g)).map (·.1) = l := by
      intro l
      rw [List.map_map]
      exact List.map_id l
    have e1 : names ⟨Stored label f, (f :: (if f.bundleId ≠ 0 then fill f.bundleId f.reference q else ([], q)).1).map fun g => (g, part g)⟩ =
        f :: (if f.bundleId ≠ 0 then fill f.bundleId f.reference q else ([], q)).1 := by
      unfold names
      exact hn _
    rw [stored_eq] at h
    have h' := Option.some.inj h
    obtain ⟨h1, h2⟩ := Prod.mk.inj h'
    subst h1
    rw [e1, ← h2]
    by_cases h0 : f.bundleId = 0
    · rw [if_neg (by simp [h0])]
      refine ⟨rfl, by simp, ?_, ?_, ?_, rfl⟩
      · intro g hg; rw [List.mem_singleton.1 hg]
      · intro g hg _; rw [List.mem_singleton.1 hg]
      · intro g hg g' hg'
        rw [List.mem_singleton.1 hg, List.mem_singleton.1 hg']
        exact ⟨rfl, rfl⟩
    · rw [if_pos h0]
      obtain ⟨h3, h4, h5⟩ := fill_spec f.bundleId f.reference q
      have h6 : ∀ g ∈ f :: (fill f.bundleId f.reference q).1, g.bundleId = f.bundleId ∧ g.reference = f.reference := by
        intro g hg
        rcases List.mem_cons.1 hg with rfl | hg
        · exact ⟨rfl, rfl⟩
        · exact h4 g hg
      refine ⟨by simp [h3], by simp, ?_, ?_, ?_, rfl⟩
      · intro g hg
        obtain ⟨h7, h8⟩ := h6 g hg
        unfold Stored
        rw [h7, h8]
        cases hb : f.bundleId with
        | zero => exact absurd hb h0
        | succ n => rfl
      · intro g hg hg0
        rw [(h6 g hg).1] at hg0
        exact absurd hg0 h0
      · intro g hg g' hg'
        rw [(h6 g hg).1, (h6 g' hg').1, (h6 g hg).2, (h6 g' hg').2]
        exact ⟨rfl, rfl⟩

theorem takeJob_none {label : Str} {q : List File} (h : takeJob label q = none) : q = [] := by
  cases q with
  | nil => rfl
  | cons f q => simp only [takeJob] at h; cases h

/-! ## The scan of the queues -/

/-- What happens when a job is taken from the queue `i`. -/
def Taken (label : Str) (qs : List (List File)) (i : Nat) (job : Job) (qs' : List (List File)) : Prop :=
  ∃ q rest, qs[i]? = some q ∧ takeJob label q = some (job, rest) ∧ qs' = setAt qs i (fun _ => rest)

theorem jobLoop_spec {label : Str} {qs : List (List File)} {client : Nat} {s : Int} (hs : 0 ≤ s ∧ s < qs.length) :
    ∀ (fuel : Nat) (q : Int) {o : Option Job} {qs' : List (List File)}, 0 ≤ q ∧ q < qs.length →
    (qs.length : Int) ≤ fuel + offs client s q qs.length → jobLoop label qs client s fuel q = (o, qs') →
    (∃ job i, o = some job ∧ Taken label qs i job qs') ∨
    (o = none ∧ qs' = qs ∧ ∀ i : Nat, i < qs.length → offs client s q qs.length ≤ offs client s i qs.length → qs.getD i [] = []) := by
  intro fuel
  induction fuel with
  | zero =>
    intro q o qs' hq hf h
    have := Verif.Backup.queueNext_offs (client := client) hs hq
    omega
  | succ fuel ih =>
    intro q o qs' hq hf h
    simp only [jobLoop] at h
    rw [if_neg (by omega)] at h
    split at h
    · rename_i job rest hj
      left
      obtain ⟨h1, h2⟩ := Prod.mk.inj h
      have hlt : q.toNat < qs.length := by omega
      refine ⟨job, q.toNat, h1.symm, qs[q.toNat], rest, List.getElem?_eq_getElem hlt, ?_, ?_⟩
      · rw [List.getD_eq_getElem?_getD, List.getElem?_eq_getElem hlt] at hj
        exact hj
      · rw [← h2]
        unfold setAt
        congr 1
        funext j x
        by_cases he : (j : Int) = q
        · rw [if_pos he, if_pos (by omega)]
        · rw [if_neg he, if_neg (by omega)]
    · rename_i hnone
      have hempty := takeJob_none hnone
      have hqn : queueNext client q qs.length = Verif.Backup.queueNext client q qs.length := rfl
      rw [hqn] at h
      obtain ⟨h1, h2, h3, h4, h5⟩ := Verif.Backup.queueNext_offs (client := client) hs hq
      have hsame : ∀ i : Nat, i < qs.length → offs client s i qs.length = offs client s q qs.length → qs.getD i [] = [] := by
        intro i hi he
        have : (i : Int) = q := by
          unfold offs at he
          split at he <;> split at he <;> split at he <;> omega
        rw [← this, Int.toNat_natCast] at hempty
        exact hempty
      split at h
      · rename_i hne
        have hlt : offs client s q qs.length + 1 < qs.length := by
          rcases Int.lt_or_eq_of_le (show offs client s q qs.length + 1 ≤ qs.length by omega) with h6 | h6
          · exact h6
          · exact absurd (h3 h6) hne
        rcases ih _ h1 (by rw [(h2 hlt).1]; push_cast at hf; omega) h with h6 | ⟨h6, h7, h8⟩
        · exact Or.inl h6
        · right
          refine ⟨h6, h7, ?_⟩
          intro i hi ho
          by_cases he : offs client s i qs.length = offs client s q qs.length
          · exact hsame i hi he
          · exact h8 i hi (by rw [(h2 hlt).1]; omega)
      · rename_i hne
        right
        refine ⟨(Prod.mk.inj h).1.symm, (Prod.mk.inj h).2.symm, ?_⟩
        intro i hi ho
        refine hsame i hi ?_
        have h6 := (Verif.Backup.queueNext_offs (client := client) hs (q := (i : Int)) (t := qs.length) ⟨by omega, by omega⟩).2.2.2.2
        rcases Int.lt_or_eq_of_le (show offs client s q qs.length + 1 ≤ qs.length by omega) with h7 | h7
        · exact absurd (h2 h7).2 (by simpa using hne)
        · omega

theorem jobCallback_spec (label : Str) (qs : List (List File)) (client : Nat) :
    (∃ job qs' i, jobCallback label qs client = (some job, qs') ∧ Taken label qs i job qs') ∨
    (jobCallback label qs client = (none, qs) ∧ qs.flatten = []) := by
  cases hr : jobCallback label qs client with
  | mk o qs' =>
    unfold jobCallback at hr
    dsimp only at hr
    by_cases hl : qs.length = 0
    · have : qs = [] := List.length_eq_zero_iff.1 hl
      subst this
      cases hr
      exact Or.inr ⟨rfl, rfl⟩
    · have hm : client % qs.length < qs.length := Nat.mod_lt _ (by omega)
      have hrange : (0 : Int) ≤ ((client % qs.length : Nat) : Int) ∧ ((client % qs.length : Nat) : Int) < (qs.length : Int) :=
        ⟨by omega, by omega⟩
      have hz : offs client ((client % qs.length : Nat) : Int) ((client % qs.length : Nat) : Int) (qs.length : Int) = 0 := by
        unfold offs; simp
      rcases jobLoop_spec hrange _ _ hrange (by rw [hz]; omega) hr with ⟨job, i, h1, h2⟩ | ⟨h1, h2, h3⟩
      · exact Or.inl ⟨job, qs', i, by rw [h1], h2⟩
      · right
        refine ⟨by rw [h1, h2], ?_⟩
        rw [List.flatten_eq_nil_iff]
        intro q hq
        obtain ⟨i, hi⟩ := List.getElem?_of_mem hq
        have hlt : i < qs.length := (List.getElem?_eq_some_iff.1 hi).1
        have h4 := (Verif.Backup.queueNext_offs (client := client) hrange (q := (i : Int)) ⟨by omega, by omega⟩).2.2.2.1
        have h5 := h3 i hlt (by rw [hz]; exact h4)
        simpa [hi] using h5

/-! ## Many calls -/

/-- The jobs among the answers of some calls. -/
def jobs (calls : List (Nat × Option Job)) : List Job := calls.filterMap (·.2)

theorem Taken.perm {label : Str} {qs qs' : List (List File)} {i : Nat} {job : Job} (h : Taken label qs i job qs') :
    (names job ++ qs'.flatten).Perm qs.flatten := by
  obtain ⟨q, rest, h1, h2, rfl⟩ := h
  exact setAt_flatten h1 (List.Perm.of_eq (takeJob_spec h2).1)

/-- C31: whatever clients ask for jobs and in which order, the files of the jobs and the files left in the queues are the files that
were queued, each exactly once. -/
theorem c31_cover (label : Str) (clients : List Nat) : ∀ (qs : List (List File)),
    let r := Parallel.replay (jobCallback label) qs clients
    ((jobs r.1).flatMap names ++ r.2.flatten).Perm qs.flatten := by
  induction clients with
  | nil => intro qs; exact List.Perm.refl _
  | cons x clients ih =>
    intro qs
    simp only [Parallel.replay]
    rcases jobCallback_spec label qs x with ⟨job, qs', i, h1, h2⟩ | ⟨h1, h2⟩
    · rw [h1]
      have h4 := ih qs'
      refine List.Perm.trans ?_ h2.perm
      simp only [jobs, List.filterMap_cons, List.flatMap_cons, List.append_assoc] at h4 ⊢
      exact List.Perm.append_left _ h4
    · rw [h1]
      exact ih qs

/-- C31: a job reads one file of the repository, and each of its files is stored there; a file that is not in a bundle has its own job.
A file is read from its own offset with its own size, or its block map is read. -/
theorem c31_path (label : Str) (clients : List Nat) : ∀ (qs : List (List File)),
    ∀ job ∈ jobs (Parallel.replay (jobCallback label) qs clients).1, job.files ≠ [] ∧
      ∀ f p, (f, p) ∈ job.files → job.path = Stored label f ∧ (f.bundleId = 0 → names job = [f]) ∧
        p = (if f.blockIncrMapSize = 0 then if f.bundleId = 0 then none else some (f.bundleOffset, f.sizeRepo)
          else some (f.bundleOffset + f.sizeRepo - f.blockIncrMapSize, f.blockIncrMapSize)) := by
  induction clients with
  | nil => intro qs job hj; cases hj
  | cons x clients ih =>
    intro qs
    simp only [Parallel.replay]
    rcases jobCallback_spec label qs x with ⟨job, qs', i, h1, h2⟩ | ⟨h1, h2⟩
    · rw [h1]
      intro j hj
      simp only [jobs, List.filterMap_cons, List.mem_cons] at hj
      rcases hj with rfl | hj
      · obtain ⟨q, rest, h5, h6, -⟩ := h2
        obtain ⟨-, h7, h8, h9, -, h10⟩ := takeJob_spec h6
        refine ⟨fun h => h7 (by unfold names; rw [h]; rfl), ?_⟩
        intro f p hf
        have hf' : f ∈ names j := List.mem_map.2 ⟨(f, p), hf, rfl⟩
        refine ⟨h8 f hf', h9 f hf', ?_⟩
        rw [h10] at hf
        obtain ⟨g, -, he⟩ := List.mem_map.1 hf
        obtain ⟨e1, e2⟩ := Prod.mk.inj he
        subst e1
        rw [← e2]
        unfold part
        by_cases hm : g.blockIncrMapSize = 0
        · by_cases hb : g.bundleId = 0 <;> simp [hm, hb]
        · simp [hm]
      · exact ih qs' j hj
    · rw [h1]
      exact ih qs

/-- C31: all files of a job are in the same bundle of the same backup. -/
theorem c31_same (label : Str) (clients : List Nat) : ∀ (qs : List (List File)),
    ∀ job ∈ jobs (Parallel.replay (jobCallback label) qs clients).1, ∀ f ∈ names job, ∀ g ∈ names job,
      f.bundleId = g.bundleId ∧ f.reference = g.reference := by
  induction clients with
  | nil => intro qs job hj; cases hj
  | cons x clients ih =>
    intro qs
    simp only [Parallel.replay]
    rcases jobCallback_spec label qs x with ⟨job, qs', i, h1, h2⟩ | ⟨h1, h2⟩
    · rw [h1]
      intro j hj
      simp only [jobs, List.filterMap_cons, List.mem_cons] at hj
      rcases hj with rfl | hj
      · obtain ⟨q, rest, h5, h6, -⟩ := h2
        exact (takeJob_spec h6).2.2.2.2.1
      · exact ih qs' j hj
    · rw [h1]
      exact ih qs

theorem Taken.suffix {label : Str} {qs qs' : List (List File)} {i : Nat} {job : Job} (h : Taken label qs i job qs')
    (q' : List File) (hq' : q' ∈ qs') : ∃ q t, q ∈ qs ∧ q = t ++ q' := by
  obtain ⟨q, rest, h1, h2, rfl⟩ := h
  obtain ⟨j, hj⟩ := List.getElem?_of_mem hq'
  rw [setAt_getElem] at hj
  split at hj
  · rename_i he
    subst he
    rw [h1] at hj
    cases hj
    exact ⟨q, names job, List.mem_of_getElem? h1, (takeJob_spec h2).1.symm⟩
  · exact ⟨q', [], List.mem_of_getElem? hj, rfl⟩

/-- The comparator says increasing offsets for two files with content in the same bundle. -/
theorem queueCmp_offset {f g : File} (hf : f.size ≠ 0) (hg : g.size ≠ 0) (hb : f.bundleId = g.bundleId) (hb0 : f.bundleId ≠ 0)
    (hr : f.reference = g.reference) (h : queueCmp f g ≠ .gt) : f.bundleOffset < g.bundleOffset := by
  unfold queueCmp at h
  rw [if_neg (by simp [hg, hf]), if_neg (by simp [hg]), if_neg (by omega), if_neg (by omega), if_neg hb0, hr] at h
  by_cases hl : f.bundleOffset < g.bundleOffset
  · exact hl
  · exfalso
    apply h
    cases hs : g.reference with
    | none => simp [hl]
    | some s => simp [hl]

/-- C31: when the queues are sorted with the comparator, a job reads the files of a bundle that have content in the order of their
offsets. -/
theorem c31_offsets (label : Str) (clients : List Nat) : ∀ (qs : List (List File)),
    (∀ q ∈ qs, q.Pairwise (fun f g => queueCmp f g ≠ .gt)) →
    ∀ job ∈ jobs (Parallel.replay (jobCallback label) qs clients).1,
      (names job).Pairwise (fun f g => f.size ≠ 0 → g.size ≠ 0 → f.bundleOffset < g.bundleOffset) := by
  induction clients with
  | nil => intro qs _ job hj; cases hj
  | cons x clients ih =>
    intro qs hs
    simp only [Parallel.replay]
    rcases jobCallback_spec label qs x with ⟨job, qs', i, h1, h2⟩ | ⟨h1, h2⟩
    · rw [h1]
      intro j hj
      simp only [jobs, List.filterMap_cons, List.mem_cons] at hj
      rcases hj with rfl | hj
      · obtain ⟨q, rest, h5, h6, -⟩ := h2
        obtain ⟨h7, -, -, h9, h10, -⟩ := takeJob_spec h6
        have h8 := hs q (List.mem_of_getElem? h5)
        rw [← h7, List.pairwise_append] at h8
        by_cases hz : ∃ a ∈ names j, a.bundleId = 0
        · obtain ⟨a, ha, ha0⟩ := hz
          rw [h9 a ha ha0]
          exact List.pairwise_singleton _ _
        · refine (List.Pairwise.and_mem.1 h8.1).imp ?_
          intro f g hfg hf hg
          obtain ⟨e1, e2⟩ := h10 f hfg.1 g hfg.2.1
          exact queueCmp_offset hf hg e1 (fun h0 => hz ⟨f, hfg.1, h0⟩) e2 hfg.2.2
      · refine ih qs' ?_ j hj
        intro q' hq'
        obtain ⟨q, t, h4, h5⟩ := h2.suffix q' hq'
        have := hs q h4
        rw [h5] at this
        exact (List.pairwise_append.1 this).2.1
    · rw [h1]
      exact ih qs hs

/-- C31: a client is told that there are no more jobs only when all queues are empty, and nothing changes then. -/
theorem c31_none (label : Str) (qs qs' : List (List File)) (client : Nat) (h : jobCallback label qs client = (none, qs')) :
    qs' = qs ∧ qs.flatten = [] := by
  rcases jobCallback_spec label qs client with ⟨job, d1, i, h1, -⟩ | ⟨h1, h2⟩
  · rw [h1] at h; cases h
  · rw [h1] at h
    exact ⟨(Prod.mk.inj h).2.symm, h2⟩

/-! ## The queues -/

theorem queueFiles_spec {targets : List Str} (files : List File) : ∀ {qs qs' : List (List File)}, qs.length = targets.length →
    queueFiles targets qs files = .ok qs' →
    qs'.length = qs.length ∧ qs'.flatten.Perm (files ++ qs.flatten) ∧
      ∀ (i : Nat) (q : List File), qs'[i]? = some q → ∀ f ∈ q, (∃ t, targets[i]? = some t ∧ f.name.take t.length = t) ∨ ∃ q0, qs[i]? = some q0 ∧ f ∈ q0 := by
  induction files with
  | nil =>
    intro qs qs' _ h
    cases h
    exact ⟨rfl, List.Perm.refl _, fun i q hq f hf => Or.inr ⟨q, hq, hf⟩⟩
  | cons g files ih =>
    intro qs qs' hl h
    simp only [queueFiles] at h
    split at h
    · cases h
    · rename_i k hk
      obtain ⟨hk1, hk2, -⟩ := List.findIdx?_eq_some_iff_getElem.1 hk
      have hadd : addAt qs k g = setAt qs k (· ++ [g]) := rfl
      rw [hadd] at h
      obtain ⟨h4, h5, h6⟩ := ih (by rw [setAt_length]; exact hl) h
      rw [setAt_length] at h4
      have hkq : k < qs.length := by omega
      refine ⟨h4, ?_, ?_⟩
      · refine h5.trans ?_
        refine (List.Perm.append_left _ (mem_setAt_flatten qs k g hkq)).trans ?_
        exact List.perm_middle
      · intro i q hq f hf
        rcases h6 i q hq f hf with h7 | ⟨q0, h7, h8⟩
        · exact Or.inl h7
        · rw [setAt_getElem] at h7
          split at h7
          · rename_i he
            subst he
            rw [List.getElem?_eq_getElem hkq] at h7
            cases h7
            rcases List.mem_append.1 h8 with h8 | h8
            · exact Or.inr ⟨_, List.getElem?_eq_getElem hkq, h8⟩
            · rw [List.mem_singleton.1 h8]
              refine Or.inl ⟨targets[i], List.getElem?_eq_getElem hk1, ?_⟩
              unfold beginsWith at hk2
              simpa using hk2
          · exact Or.inr ⟨q0, h7, h8⟩

/-- C31: the queues have exactly the files of the manifest, the size is the sum of their sizes, and each queue has the files of one
target. -/
theorem c31_queue {targets : List (Str × Nat)} {sort : List File → List File} (hsort : ∀ l, (sort l).Perm l) {files : List File}
    {qs : List (List File)} {size : Nat} (h : processQueue targets sort files = .ok (qs, size)) :
    qs.flatten.Perm files ∧ size = (qs.flatten.map (·.size)).sum ∧
      (∀ (i : Nat) (q : List File), qs[i]? = some q → ∃ t, (t = [112, 103, 95, 100, 97, 116, 97] ∨ ∃ id, id ≠ 0 ∧ (t, id) ∈ targets) ∧
        ∀ f ∈ q, ∃ rest, f.name = t ++ 47 :: rest) ∧
      ((∀ l, (sort l).Pairwise (fun f g => queueCmp f g ≠ .gt)) → ∀ q ∈ qs, q.Pairwise (fun f g => queueCmp f g ≠ .gt)) := by
  unfold processQueue at h
  split at h
  · cases h
  · rename_i qs0 hq
    obtain ⟨he1, he2⟩ := Prod.mk.inj (Except.ok.inj h)
    subst he1 he2
    obtain ⟨h1, h2, h3⟩ := queueFiles_spec files (by simp) hq
    rw [flatten_replicate, List.append_nil] at h2
    have hperm := (flatten_map_perm hsort qs0).trans h2
    refine ⟨hperm, (hperm.map _).sum_nat.symm, ?_, ?_⟩
    · intro i q hq1
      rw [List.getElem?_map] at hq1
      cases hq0 : qs0[i]? with
      | none => rw [hq0] at hq1; cases hq1
      | some q0 =>
        rw [hq0] at hq1
        cases hq1
        have hi := (List.getElem?_eq_some_iff.1 hq0).1
        rw [h1, List.length_replicate] at hi
        have ht : ∃ t, (targetList targets)[i]? = some (t ++ [47]) ∧
            (t = [112, 103, 95, 100, 97, 116, 97] ∨ ∃ id, id ≠ 0 ∧ (t, id) ∈ targets) := by
          have hmem : (targetList targets)[i] ∈ targetList targets := List.getElem_mem hi
          rw [List.getElem?_eq_getElem hi]
          generalize (targetList targets)[i] = x at hmem
          unfold targetList at hmem
          rcases List.mem_cons.1 hmem with rfl | hmem
          · exact ⟨[112, 103, 95, 100, 97, 116, 97], rfl, Or.inl rfl⟩
          · obtain ⟨⟨n, id⟩, hm, rfl⟩ := List.mem_map.1 hmem
            obtain ⟨hm1, hm2⟩ := List.mem_filter.1 hm
            exact ⟨n, rfl, Or.inr ⟨id, by simpa using hm2, hm1⟩⟩
        obtain ⟨t, ht1, ht2⟩ := ht
        refine ⟨t, ht2, ?_⟩
        intro f hf
        rcases h3 i q0 hq0 f ((hsort q0).mem_iff.1 hf) with ⟨t', h4, h5⟩ | ⟨q1, h4, h5⟩
        · rw [ht1] at h4
          cases h4
          refine ⟨f.name.drop (t ++ [47]).length, ?_⟩
          have := List.take_append_drop (t ++ [47]).length f.name
          rw [h5] at this
          rw [← this]
          simp
        · rw [(List.mem_replicate.1 (List.mem_of_getElem? h4)).2] at h5
          cases h5
    · intro h4 q hq1
      obtain ⟨q0, -, rfl⟩ := List.mem_map.1 hq1
      exact h4 q0

/-! ## A whole restore -/

theorem jobs_filterMap (calls : List (Nat × Option Job)) :
    (calls.filterMap (fun c => c.2.map (fun j => (c.1, j)))).map (·.2) = jobs calls := by
  unfold jobs
  induction calls with
  | nil => rfl
  | cons x calls ih =>
    obtain ⟨i, o⟩ := x
    cases o with
    | none => simpa [List.filterMap_cons] using ih
    | some j => simpa [List.filterMap_cons] using ih

theorem final_empty (label : Str) (clients : List Nat) : ∀ (qs : List (List File)) client,
    (client, none) ∈ (Parallel.replay (jobCallback label) qs clients).1 →
    (Parallel.replay (jobCallback label) qs clients).2.flatten = [] := by
  induction clients with
  | nil => intro qs client h; cases h
  | cons x clients ih =>
    intro qs client
    simp only [Parallel.replay]
    rcases jobCallback_spec label qs x with ⟨job, qs', i, h1, h2⟩ | ⟨h1, h2⟩
    · rw [h1]
      intro h
      rcases List.mem_cons.1 h with he | h
      · cases he
      · exact ih qs' client h
    · rw [h1]
      intro _
      have h3 := c31_cover label clients qs
      dsimp only at h3
      rw [h2] at h3
      exact (List.append_eq_nil_iff.1 h3.eq_nil).2

/-- C31: a restore of any manifest with any clients, where some running client always becomes ready, ends, and its jobs have each file
of the manifest exactly once. -/
theorem c31_restore {targets : List (Str × Nat)} {sort : List File → List File} (hsort : ∀ l, (sort l).Perm l) {files : List File}
    {qs : List (List File)} {size : Nat} (h : processQueue targets sort files = .ok (qs, size)) (label : Str) (clients : Nat)
    (hc : 0 < clients) (sched : Parallel.St (List (List File)) Job → Nat → Bool)
    (hs : ∀ st : Parallel.St (List (List File)) Job, (∃ i id, i < st.total ∧ st.slots i = .running id) →
      ∃ i, i < st.total ∧ Parallel.hasData (sched st) st i = true) :
    ∃ fuel st, Parallel.loop (jobCallback label) sched fuel (Parallel.start clients qs) = some st ∧
      (st.delivered.flatMap (fun r => names r.job)).Perm files := by
  obtain ⟨hperm, -⟩ := c31_queue hsort h
  let μ : List (List File) → Nat := fun qs => qs.flatten.length
  have hμ : ∀ s (i : Nat), μ (jobCallback label s i).2 + (if (jobCallback label s i).1.isSome then 1 else 0) ≤ μ s := by
    intro s i
    rcases jobCallback_spec label s i with ⟨job, d', k, h1, h2⟩ | ⟨h1, -⟩
    · rw [h1]
      have h5 := h2.perm.length_eq
      obtain ⟨q, rest, h3, h4, -⟩ := h2
      have h6 := List.length_pos_iff.2 (takeJob_spec h4).2.1
      rw [List.length_append] at h5
      simp only [Option.isSome_some, if_true, μ]
      omega
    · rw [h1]; simp
  obtain ⟨st, h1, h2, h3, h4, h5⟩ := Parallel.c29_terminates (jobCallback label) μ hμ clients qs sched hs
  refine ⟨_, st, h1, ?_⟩
  have hr1 : (Parallel.replay (jobCallback label) qs (st.calls.map (·.1))).1 = st.calls := by rw [h3]
  have hr2 : (Parallel.replay (jobCallback label) qs (st.calls.map (·.1))).2 = st.cb := by rw [h3]
  have hjobs : (st.delivered.map (·.job)).Perm (jobs st.calls) := by
    have := h4.map (·.2)
    rw [List.map_map, jobs_filterMap] at this
    exact this
  have hcover := c31_cover label (st.calls.map (·.1)) qs
  dsimp only at hcover
  have hempty := final_empty label (st.calls.map (·.1)) qs 0 (by rw [hr1]; exact h2 0 hc)
  rw [hr2] at hempty
  rw [hr1, hr2, hempty, List.append_nil] at hcover
  have h6 : st.delivered.flatMap (fun r => names r.job) = (st.delivered.map (·.job)).flatMap names := by
    rw [List.flatMap_map]
  rw [h6]
  exact ((hjobs.flatMap_right _).trans hcover).trans hperm

/-- A bundle of an earlier backup, a bundle of this backup with the same id, and a file of its own. -/
example : Parallel.replay (jobCallback [9]) [[⟨[3], 7, 6, none, 0, 0, 0⟩, ⟨[1], 5, 5, some [8], 2, 0, 0⟩, ⟨[2], 5, 5, some [8], 2, 5, 0⟩,
      ⟨[4], 5, 5, none, 2, 0, 0⟩]] [0, 1, 2, 3] =
    ([(0, some ⟨.file [9] [3] false, [(⟨[3], 7, 6, none, 0, 0, 0⟩, none)]⟩),
      (1, some ⟨.bundle [8] 2, [(⟨[1], 5, 5, some [8], 2, 0, 0⟩, some (0, 5)), (⟨[2], 5, 5, some [8], 2, 5, 0⟩, some (5, 5))]⟩),
      (2, some ⟨.bundle [9] 2, [(⟨[4], 5, 5, none, 2, 0, 0⟩, some (0, 5))]⟩), (3, none)], [[]]) := by decide

example : [(⟨[3], 7, 6, none, 0, 0, 0⟩ : File), ⟨[1], 5, 5, some [8], 2, 0, 0⟩, ⟨[2], 5, 5, some [8], 2, 5, 0⟩,
    ⟨[4], 5, 5, none, 2, 0, 0⟩].Pairwise (fun f g => queueCmp f g ≠ .gt) := by decide

/-- `pg_data/a` and `pg_tblspc/1/b`. -/
example : processQueue [([112, 103, 95, 116, 98, 108, 115, 112, 99, 47, 49], 1)] id
      [⟨[112, 103, 95, 100, 97, 116, 97, 47, 97], 3, 3, none, 0, 0, 0⟩,
        ⟨[112, 103, 95, 116, 98, 108, 115, 112, 99, 47, 49, 47, 98], 4, 4, none, 0, 0, 0⟩] =
    .ok ([[⟨[112, 103, 95, 100, 97, 116, 97, 47, 97], 3, 3, none, 0, 0, 0⟩],
      [⟨[112, 103, 95, 116, 98, 108, 115, 112, 99, 47, 49, 47, 98], 4, 4, none, 0, 0, 0⟩]], 7) := by decide

end Verif.Restore.Job
