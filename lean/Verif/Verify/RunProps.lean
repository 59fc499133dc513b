import Verif.Verify.ArchProps

/-!
# C63: what holds whenever a job is requested or completed (archive part)
-/

namespace Verif.Verify

open Verif.Wal

/-! ## Results of the jobs -/

/-- The jobs of an archive id that are done and were not valid: segment, name and outcome. -/
def badOf (done : List (Job × Outcome)) (id : Str) : List (Str × Str × Outcome) :=
  done.filterMap fun d =>
    match d.1 with
    | .wal i c => if i = id ∧ d.2 ≠ .ok then some (seg (baseName c.path), c.path, d.2) else none
    | .bak _ _ => none

/-- Those with a segment of a range. -/
def invalidIn (done : List (Job × Outcome)) (id start stop : Str) : List (Str × Outcome) :=
  ((badOf done id).filter fun b => decide (start ≤ b.1) && decide (b.1 ≤ stop)).map (·.2)

/-- The number of jobs of an archive id that are done and were valid. -/
def validOf (done : List (Job × Outcome)) (id : Str) : Nat :=
  done.countP fun d =>
    match d.1 with
    | .wal i _ => decide (i = id) && decide (d.2 = .ok)
    | .bak _ _ => false

/-- A result counts what is done. -/
def Good (done : List (Job × Outcome)) (r : ArchRes) : Prop :=
  r.valid = validOf done r.id ∧ ∀ x ∈ r.ranges, x.invalid = invalidIn done r.id x.start x.stop

theorem good_fold (size : Nat) (B : List (Str × Str × Outcome)) (v : List Str) : ∀ (ranges : List WalRange),
    (∀ b ∈ B, ∃ last, ranges.getLast? = some last ∧ b.1 ≤ last.stop) → (∀ s ∈ v, ∀ b ∈ B, b.1 < s) →
    (∀ x ∈ ranges, x.invalid = (B.filter fun b => decide (x.start ≤ b.1) && decide (b.1 ≤ x.stop)).map (·.2)) →
    ∀ x ∈ v.foldl (addSeg size) ranges,
      x.invalid = (B.filter fun b => decide (x.start ≤ b.1) && decide (b.1 ≤ x.stop)).map (·.2) := by
  induction v with
  | nil => intro _ _ _ h; exact h
  | cons s v ih =>
    intro ranges hl hv hg
    rw [List.foldl_cons]
    have hs : ∀ b ∈ B, b.1 < s := hv s (by simp)
    refine ih _ ?_ (fun t ht => hv t (by simp [ht])) ?_
    · intro b hb
      rcases List.eq_nil_or_concat ranges with rfl | ⟨rs, r, rfl⟩
      · exact ⟨_, by simp [addSeg]; rfl, Str.le_of_lt (hs b hb)⟩
      · simp only [List.concat_eq_append]
        unfold addSeg
        simp only [List.getLast?_append, List.getLast?_singleton, Option.some_or]
        split
        · rw [setLast_append]
          exact ⟨{ r with stop := s }, by simp, Str.le_of_lt (hs b hb)⟩
        · exact ⟨⟨s, s, []⟩, by simp, Str.le_of_lt (hs b hb)⟩
    · have hnew : ([] : List (Str × Outcome)) = (B.filter fun b => decide (s ≤ b.1) && decide (b.1 ≤ s)).map (·.2) := by
        symm
        rw [List.map_eq_nil_iff, List.filter_eq_nil_iff]
        intro b hb
        have := Str.not_le.2 (hs b hb)
        simp [this]
      intro x hx
      rcases List.eq_nil_or_concat ranges with rfl | ⟨rs, r, rfl⟩
      · simp only [addSeg, List.getLast?_nil, List.nil_append, List.mem_singleton] at hx
        subst hx; exact hnew
      · simp only [List.concat_eq_append] at *
        unfold addSeg at hx
        simp only [List.getLast?_append, List.getLast?_singleton, Option.some_or] at hx
        split at hx
        · rw [setLast_append] at hx
          simp only [List.mem_append, List.mem_singleton] at hx
          rcases hx with hx | rfl
          · exact hg x (by simp [hx])
          · show r.invalid = _
            rw [hg r (by simp)]
            congr 1
            apply List.filter_congr
            intro b hb
            obtain ⟨last, h1, h2⟩ := hl b hb
            simp only [List.getLast?_append, List.getLast?_singleton, Option.some_or, Option.some.injEq] at h1
            subst h1
            have h3 := Str.le_of_lt (hs b hb)
            simp [h2, h3]
        · simp only [List.mem_append, List.mem_singleton] at hx
          rcases hx with hx | rfl
          · exact hg x (by simpa using hx)
          · exact hnew

/-- The last range ends with the last segment. -/
theorem runs_last {size : Nat} {u : List Str} {ranges : List WalRange} (hu : StrictAsc u)
    (h : Runs size u (ranges.map fun x => (x.start, x.stop))) {s : Str} (hs : s ∈ u) :
    ∃ last, ranges.getLast? = some last ∧ s ≤ last.stop := by
  obtain ⟨parts, hf, hp, -, hm⟩ := h
  rw [List.map_map] at hm
  rcases List.eq_nil_or_concat ranges with rfl | ⟨rs, r, rfl⟩
  · have : parts = [] := by simpa using hm.symm
    subst this; simp at hf; subst hf; simp at hs
  · simp only [List.concat_eq_append] at *
    refine ⟨r, by simp, ?_⟩
    rcases List.eq_nil_or_concat parts with rfl | ⟨ps, p, rfl⟩
    · simp at hm
    · simp only [List.concat_eq_append, List.map_append, List.map_cons, List.map_nil] at hm hf
      have := (List.append_inj' hm (by simp)).2
      simp only [Function.comp_apply, List.cons.injEq, Prod.mk.injEq, and_true] at this
      obtain ⟨q, hq⟩ := List.getLast?_eq_some_iff.1 this.2.symm
      rw [← hf, List.flatten_append, hq] at hs hu
      simp only [List.flatten_cons, List.flatten_nil, List.append_nil, ← List.append_assoc] at hs hu
      rcases List.mem_append.1 hs with hs | hs
      · exact Str.le_of_lt ((List.pairwise_append.1 hu).2.2 s hs _ (by simp))
      · rw [List.mem_singleton.1 hs]; exact Str.le_refl _

/-- The invalid file is added to the range its segment belongs to. -/
theorem addInvalid_eq {size : Nat} (name : Str) (o : Outcome) (s : Str) : ∀ (u : List Str) (ranges : List WalRange),
    StrictAsc u → Runs size u (ranges.map fun x => (x.start, x.stop)) → s ∈ u →
    addInvalid name o s ranges =
      ranges.map fun x => if x.start ≤ s ∧ s ≤ x.stop then { x with invalid := x.invalid ++ [(name, o)] } else x := by
  intro u ranges hu ⟨parts, hf, hp, hg, hm⟩ hs
  clear hg
  induction ranges generalizing u parts with
  | nil =>
    have : parts = [] := by simpa using hm.symm
    subst this; simp at hf; subst hf; simp at hs
  | cons r rs ih =>
    cases parts with
    | nil => simp at hm
    | cons p ps =>
      simp only [List.map_cons, List.cons.injEq, Prod.mk.injEq] at hm
      obtain ⟨⟨h1, h2⟩, hm⟩ := hm
      rw [List.flatten_cons] at hf
      have hu' := hu
      rw [← hf, StrictAsc, List.pairwise_append] at hu'
      obtain ⟨hup, hups, hlt⟩ := hu'
      have hstop : r.stop ∈ p := List.mem_of_getLast? h2.symm
      have hstart : r.start ∈ p := List.mem_of_mem_head? (by rw [← h1]; rfl)
      rw [← hf] at hs
      rw [addInvalid, List.map_cons]
      by_cases hsp : s ∈ p
      · have ha : r.start ≤ s := by
          obtain ⟨t, ht⟩ := List.head?_eq_some_iff.1 h1.symm
          rw [ht] at hsp hup
          rcases List.mem_cons.1 hsp with h | h
          · rw [h]; exact Str.le_refl _
          · exact Str.le_of_lt ((List.pairwise_cons.1 hup).1 s h)
        have hb : s ≤ r.stop := by
          obtain ⟨q, hq⟩ := List.getLast?_eq_some_iff.1 h2.symm
          rw [hq] at hsp hup
          rcases List.mem_append.1 hsp with h | h
          · exact Str.le_of_lt ((List.pairwise_append.1 hup).2.2 s h _ (by simp))
          · rw [List.mem_singleton.1 h]; exact Str.le_refl _
        rw [if_pos (Str.not_lt.2 hb), if_pos ⟨ha, hb⟩]
        congr 1
        symm
        -- the other ranges are after it
        have : ∀ x ∈ rs, s < x.start := by
          intro x hx
          have hmem : ((some x.start, some x.stop) : Option Str × Option Str) ∈ ps.map (fun p => (p.head?, p.getLast?)) := by
            rw [← hm, List.map_map]
            exact List.mem_map.2 ⟨x, hx, rfl⟩
          obtain ⟨q, hq, e⟩ := List.mem_map.1 hmem
          have : x.start ∈ q := List.mem_of_mem_head? (by have := (Prod.ext_iff.1 e).1; dsimp only at this; rw [this]; rfl)
          exact hlt s hsp _ (List.mem_flatten_of_mem hq this)
        conv_rhs => rw [← List.map_id rs]
        apply List.map_congr_left
        intro x hx
        rw [if_neg (fun h => Str.not_le.2 (this x hx) h.1)]
        rfl
      · have hs' : s ∈ ps.flatten := (List.mem_append.1 hs).resolve_left hsp
        have hlt' : r.stop < s := hlt _ hstop _ hs'
        rw [if_neg (by simpa using hlt'), if_neg (fun h => Str.not_le.2 hlt' h.2)]
        congr 1
        exact ih ps.flatten hups ps rfl (fun q hq => hp q (by simp [hq])) (by simpa [List.map_map] using hm) hs'

/-! ## The archive ids -/

section

variable (repo : Repo) (sz : Str → Nat) (ids : List Str)

/-- The jobs of an archive id. -/
def allJobs (id : Str) : List Job := (repo.paths id).flatMap (dirJobs repo (sz id) id)

/-- The result of an archive id, without outcomes. -/
def final (id : Str) : ArchRes := after repo (sz id) id (repo.paths id)

/-- State of the archive part. `H` are the jobs for WAL that were handed out. -/
inductive AInv : JobData → List Job → Prop
  | idle {jd : JobData} (D : List Str) (hi : ids = D ++ jd.archiveIds) (hf : jd.walFiles = [])
      (hr : jd.archRes.map strip = D.map (final repo sz))
      (he : ∀ i s, .dup i s ∈ jd.errs ↔ i ∈ D ∧ DupIn repo i (repo.paths i) s) : AInv jd (D.flatMap (allJobs repo sz))
  | busy {jd : JobData} (D : List Str) (id : Str) (rest : List Str) (J : List Job) (r : ArchRes) (hi : ids = D ++ id :: rest)
      (ha : jd.archiveIds = id :: rest)
      (hr : jd.archRes.map strip = D.map (final repo sz) ++ [strip r])
      (hP : PInv repo (sz id) id jd.walPaths jd.walFiles r jd.errs J) (hne : jd.walPaths ≠ [])
      (he : ∀ i, i ≠ id → ∀ s, .dup i s ∈ jd.errs ↔ i ∈ D ∧ DupIn repo i (repo.paths i) s) :
      AInv jd (D.flatMap (allJobs repo sz) ++ J)

variable {repo sz ids}

theorem PInv.congr {size : Nat} {id : Str} {paths files r r' errs errs' J} (h : PInv repo size id paths files r errs J)
    (hr : strip r' = strip r) (he : ∀ s, .dup id s ∈ errs' ↔ .dup id s ∈ errs) :
    PInv repo size id paths files r' errs' J := by
  cases h with
  | between hp hr' he' => exact .between hp (hr.trans hr') (fun s => (he s).trans (he' s))
  | within hp hr' hne hu he' => exact .within hp (hr.trans hr') hne hu (fun s => (he s).trans (he' s))

theorem PInv.finished {size : Nat} {id : Str} {files r errs J} (h : PInv repo size id [] files r errs J) :
    files = [] ∧ strip r = after repo size id (repo.paths id) ∧ J = (repo.paths id).flatMap (dirJobs repo size id) ∧
      ∀ s, .dup id s ∈ errs ↔ DupIn repo id (repo.paths id) s := by
  cases h with
  | between hp hr he =>
    rw [List.append_nil] at hp
    rw [hp]
    exact ⟨rfl, hr, rfl, he⟩

theorem strip_map_append {l A : List ArchRes} {x : ArchRes} (h : l.map strip = A ++ [x]) :
    ∃ A' r, l = A' ++ [r] ∧ A'.map strip = A ∧ strip r = x := by
  rcases List.eq_nil_or_concat l with rfl | ⟨A', r, rfl⟩
  · simp at h
  · simp only [List.concat_eq_append, List.map_append, List.map_cons, List.map_nil] at h
    have h1 := List.append_inj' h (by simp)
    exact ⟨A', r, by simp, h1.1, by simpa using h1.2⟩

/-- Parts of the state that the archive part does not change. -/
def SameBackup (jd jd' : JobData) : Prop :=
  jd'.backups = jd.backups ∧ jd'.manifest = jd.manifest ∧ jd'.todo = jd.todo ∧ jd'.backRes = jd.backRes ∧
    jd'.backupProcessing = jd.backupProcessing

theorem SameBackup.trans {a b c : JobData} (h : SameBackup a b) (h' : SameBackup b c) : SameBackup a c :=
  ⟨h'.1.trans h.1, h'.2.1.trans h.2.1, h'.2.2.1.trans h.2.2.1, h'.2.2.2.1.trans h.2.2.2.1, h'.2.2.2.2.trans h.2.2.2.2⟩

/-- All jobs for WAL that are done were handed out. -/
def Sub (done : List (Job × Outcome)) (H : List Job) : Prop := ∀ d ∈ done, ∀ i c, d.1 = .wal i c → d.1 ∈ H

theorem walJob_id {id i p f : Str} {size : Nat} {c : Check} (h : walJob id p f size = .wal i c) : i = id := by
  unfold walJob at h; cases h; rfl

theorem allJobs_id {id i : Str} {c : Check} (h : Job.wal i c ∈ allJobs repo sz id) : i = id := by
  obtain ⟨p, _, h⟩ := List.mem_flatMap.1 h
  obtain ⟨f, _, h⟩ := List.mem_map.1 h
  exact walJob_id h

theorem PInv.job_id {size : Nat} {id i : Str} {c : Check} {paths files r errs J} (h : PInv repo size id paths files r errs J)
    (hj : Job.wal i c ∈ J) : i = id := by
  cases h with
  | between hp hr he =>
    obtain ⟨p, _, h⟩ := List.mem_flatMap.1 hj
    obtain ⟨f, _, h⟩ := List.mem_map.1 h
    exact walJob_id h
  | within hp hr hne hu he =>
    rcases List.mem_append.1 hj with hj | hj
    · obtain ⟨p, _, h⟩ := List.mem_flatMap.1 hj
      obtain ⟨f, _, h⟩ := List.mem_map.1 h
      exact walJob_id h
    · obtain ⟨f, _, h⟩ := List.mem_map.1 hj
      exact walJob_id h

theorem PInv.wal {size : Nat} {id : Str} {j : Job} {paths files r errs J} (h : PInv repo size id paths files r errs J)
    (hj : j ∈ J) : ∃ c, j = .wal id c := by
  cases h with
  | between hp hr he =>
    obtain ⟨p, _, h⟩ := List.mem_flatMap.1 hj
    obtain ⟨f, _, h⟩ := List.mem_map.1 h
    exact ⟨_, h.symm⟩
  | within hp hr hne hu he =>
    rcases List.mem_append.1 hj with hj | hj
    · obtain ⟨p, _, h⟩ := List.mem_flatMap.1 hj
      obtain ⟨f, _, h⟩ := List.mem_map.1 h
      exact ⟨_, h.symm⟩
    · obtain ⟨f, _, h⟩ := List.mem_map.1 hj
      exact ⟨_, h.symm⟩

/-- One pass over the directories keeps what the results say about the jobs. -/
theorem good_pass {size : Nat} {id : Str} (wf : WalWF repo id size) {paths files r errs J} {v : List Str} {r' : ArchRes}
    (h : PInv repo size id paths files r errs J) (hv : r'.ranges = (v.map seg).foldl (addSeg size) r.ranges)
    (hlt : ∀ f ∈ v, ∀ j ∈ J, jobSeg j < seg f) (hval : r'.valid = r.valid) (hid : r'.id = id) {done : List (Job × Outcome)}
    (hsub : ∀ d ∈ done, ∀ c, d.1 = .wal id c → d.1 ∈ J) (hg : Good done r) : Good done r' := by
  have hid0 := h.id_eq
  refine ⟨by rw [hval, hg.1, hid, hid0], ?_⟩
  obtain ⟨u, hu, hruns, hmem⟩ := h.runs wf
  have hB : ∀ b ∈ badOf done id, ∃ j ∈ J, b.1 = jobSeg j := by
    intro b hb
    obtain ⟨d, hd, e⟩ := List.mem_filterMap.1 hb
    cases hj : d.1 with
    | bak l c => simp [hj] at e
    | wal i c =>
      simp only [hj] at e
      split at e
      · rename_i h0
        obtain ⟨rfl, -⟩ := h0
        simp only [Option.some.injEq] at e
        refine ⟨d.1, hsub d hd c hj, ?_⟩
        rw [← e, hj]; rfl
      · simp at e
  rw [hv, hid]
  refine good_fold size (badOf done id) (v.map seg) r.ranges ?_ ?_ ?_
  · intro b hb
    obtain ⟨j, hj, e⟩ := hB b hb
    rw [e]
    exact runs_last hu hruns (hmem j hj)
  · intro s hs b hb
    obtain ⟨f, hf, rfl⟩ := List.mem_map.1 hs
    obtain ⟨j, hj, e⟩ := hB b hb
    rw [e]
    exact hlt f hf j hj
  · have := hg.2
    rw [hid0] at this
    exact this

theorem validOf_new {done : List (Job × Outcome)} {id : Str} (h : ∀ d ∈ done, ∀ c, d.1 ≠ .wal id c) :
    validOf done id = 0 := by
  unfold validOf
  rw [List.countP_eq_zero]
  intro d hd
  cases hj : d.1 with
  | bak l c => simp
  | wal i c =>
    have : i ≠ id := by rintro rfl; exact h d hd c hj
    simp [this]

theorem idsLoop_inv (hwf : ∀ id ∈ ids, WalWF repo id (sz id)) (hnd : ids.Nodup) : ∀ (l : List Str) (jd : JobData) (H : List Job),
    AInv repo sz ids { jd with archiveIds := l } H →
    ∃ (job : Option Job) (jd' : JobData) (dups : List Cause), idsLoop repo l jd = .ok (job, jd') ∧
      AInv repo sz ids jd' (H ++ job.toList) ∧ (job = none → jd'.archiveIds = []) ∧ SameBackup jd jd' ∧
      (jd'.errs = jd.errs ++ dups ∧ ∀ c ∈ dups, ∃ i s, c = .dup i s) ∧ (∀ j ∈ job, ∃ i c, j = .wal i c) ∧
      (∀ done, Sub done H → (∀ r ∈ jd.archRes, Good done r) → ∀ r ∈ jd'.archRes, Good done r) := by
  intro l
  induction l with
  | nil =>
    intro jd H h
    refine ⟨none, { jd with archiveIds := [] }, [], rfl, by simpa using h, fun _ => rfl, ⟨rfl, rfl, rfl, rfl, rfl⟩, by simp,
      by simp, fun _ _ h => h⟩
  | cons id rest ih =>
    intro jd H h
    -- both kinds of state give the state of the loop over the directories
    have key : ∃ (D : List Str) (J : List Job) (A : List ArchRes) (r : ArchRes) (paths : List Str), ids = D ++ id :: rest ∧
        H = D.flatMap (allJobs repo sz) ++ J ∧ A.map strip = D.map (final repo sz) ∧
        (if (jd.archRes.getLast?.map (·.id)) ≠ some id then jd.archRes ++ [⟨id, 0, 0, 0, []⟩] else jd.archRes) = A ++ [r] ∧
        (if (jd.archRes.getLast?.map (·.id)) ≠ some id then repo.paths id else jd.walPaths) = paths ∧
        PInv repo (sz id) id paths jd.walFiles r jd.errs J ∧
        (∀ i, i ≠ id → ∀ s, .dup i s ∈ jd.errs ↔ i ∈ D ∧ DupIn repo i (repo.paths i) s) ∧
        (∀ done, Sub done H → (∀ r ∈ jd.archRes, Good done r) → ∀ x ∈ A ++ [r], Good done x) := by
      generalize hjd : ({ jd with archiveIds := id :: rest } : JobData) = jd0 at h
      cases h with
      | idle D hi hf hr he =>
        subst hjd
        dsimp only at hi hf hr he
        have hnew : (jd.archRes.getLast?.map (·.id)) ≠ some id := by
          intro hc
          obtain ⟨x, hx, hxid⟩ := Option.map_eq_some_iff.1 hc
          have : strip x ∈ D.map (final repo sz) := by
            rw [← hr]; exact List.mem_map_of_mem (List.mem_of_getLast? hx)
          obtain ⟨i, hi', e⟩ := List.mem_map.1 this
          have : i = id := by
            rw [← hxid, ← strip_id, ← e]; exact (after_id _ _ _ _).symm
          subst this
          rw [hi] at hnd
          exact (List.nodup_append.1 hnd).2.2 i hi' i (by simp) rfl
        have hnotin : id ∉ D := by
          intro h'
          rw [hi] at hnd
          exact (List.nodup_append.1 hnd).2.2 id h' id (by simp) rfl
        refine ⟨D, [], jd.archRes, newRes id, repo.paths id, hi, by simp, hr, by rw [if_pos hnew]; rfl, by rw [if_pos hnew], ?_,
          fun i _ s => he i s, ?_⟩
        · rw [hf]
          have := PInv.between (repo := repo) (size := sz id) (id := id) (before := []) (paths := repo.paths id)
            (r := newRes id) (errs := jd.errs) (by simp) rfl (by
              intro s
              rw [he]
              simp [hnotin, DupIn])
          simpa using this
        · intro done hsub hg x hx
          rcases List.mem_append.1 hx with hx | hx
          · exact hg x hx
          · rw [List.mem_singleton.1 hx]
            refine ⟨?_, by simp [newRes]⟩
            symm
            apply validOf_new
            intro d hd c hc
            have := hsub d hd _ _ hc
            rw [hc] at this
            obtain ⟨i, hi', hj⟩ := List.mem_flatMap.1 this
            have hh := allJobs_id hj
            rw [← hh] at hi'
            exact hnotin hi'
      | busy D id' rest' J r hi ha hr hP hne he =>
        subst hjd
        dsimp only at ha hr hP hne he
        simp only [List.cons.injEq] at ha
        obtain ⟨rfl, rfl⟩ := ha
        obtain ⟨A, x, hA, hAs, hx⟩ := strip_map_append hr
        have hold : ¬ (jd.archRes.getLast?.map (·.id)) ≠ some id := by
          rw [hA]
          simp only [List.getLast?_append, List.getLast?_singleton, Option.some_or, Option.map_some, ne_eq, not_not,
            Option.some.injEq]
          rw [← strip_id, hx, strip_id, hP.id_eq]
        refine ⟨D, J, A, x, jd.walPaths, hi, rfl, hAs, by rw [if_neg hold, hA], by rw [if_neg hold],
          hP.congr hx (fun _ => Iff.rfl), he, ?_⟩
        intro done _ hg y hy
        rw [← hA] at hy
        exact hg y hy
    obtain ⟨D, J, A, r, paths, hi, rfl, hA, hres, hpaths, hP, he, hgood⟩ := key
    have hidm : id ∈ ids := by rw [hi]; simp
    have wf := hwf id hidm
    -- a state with the archive id finished
    have finish : ∀ (jd' : JobData) (r' : ArchRes) (J' : List Job),
        PInv repo (sz id) id [] jd'.walFiles r' jd'.errs J' → jd'.archRes = A ++ [r'] → jd'.archiveIds = rest →
        (∀ i, i ≠ id → ∀ s, .dup i s ∈ jd'.errs ↔ .dup i s ∈ jd.errs) →
        AInv repo sz ids jd' (D.flatMap (allJobs repo sz) ++ J') := by
      intro jd' r' J' hP' hr' ha' he'
      obtain ⟨h1, h2, h3, h4⟩ := hP'.finished
      have : D.flatMap (allJobs repo sz) ++ J' = (D ++ [id]).flatMap (allJobs repo sz) := by
        simp [h3, allJobs]
      rw [this]
      refine .idle (D ++ [id]) (by rw [hi, ha']; simp) h1 (by rw [hr']; simp [hA, h2, final]) ?_
      intro i s
      by_cases hid : i = id
      · subst hid; simp [h4]
      · rw [he' i hid, he i hid]; simp [hid]
    rw [idsLoop]
    simp only [hres, hpaths]
    by_cases hpe : paths = []
    · subst hpe
      simp only [List.isEmpty_nil, if_true]
      obtain ⟨job, jd', dups, e, h1, h2, h3, h4, h5, h6⟩ := ih { jd with archRes := A ++ [r], walPaths := [] } (D.flatMap (allJobs repo sz) ++ J) (by
        exact finish _ r J hP rfl rfl (fun _ _ _ => Iff.rfl))
      exact ⟨job, jd', dups, e, h1, h2, h3, h4, h5, fun done hsub hg => h6 done hsub (hgood done hsub hg)⟩
    · obtain ⟨job, st, dups, e, h1, h2, h3, v, hv, hlt, hval⟩ := pathsLoop_inv wf _ _ _ _ _ hP
      have hpe' : paths.isEmpty = false := by simpa using hpe
      simp only [hpe', Bool.false_eq_true, if_false, List.getLast?_append, List.getLast?_singleton, Option.some_or, setLast_append,
        e]
      have herr : ∀ i, i ≠ id → ∀ s, .dup i s ∈ st.errs ↔ .dup i s ∈ jd.errs := by
        intro i hne s
        rw [h1]
        simp only [List.mem_append, List.mem_map, Cause.dup.injEq]
        constructor
        · rintro (h | ⟨x, _, rfl, _⟩)
          · exact h
          · exact absurd rfl hne
        · exact .inl
      have hdups : ∀ c ∈ dups.map (Cause.dup id), ∃ i s, c = .dup i s := by
        intro c hc
        obtain ⟨s, _, rfl⟩ := List.mem_map.1 hc
        exact ⟨id, s, rfl⟩
      have hgood' : ∀ done, Sub done (D.flatMap (allJobs repo sz) ++ J) → (∀ r ∈ jd.archRes, Good done r) →
          ∀ x ∈ A ++ [st.res], Good done x := by
        intro done hsub hg x hx
        rcases List.mem_append.1 hx with hx | hx
        · exact hgood done hsub hg x (by simp [hx])
        · rw [List.mem_singleton.1 hx]
          refine good_pass wf hP hv hlt hval h2.id_eq ?_ (hgood done hsub hg r (by simp))
          intro d hd c hc
          rcases List.mem_append.1 (hsub d hd _ _ hc) with h | h
          · rw [hc] at h
            obtain ⟨i, hi', hj⟩ := List.mem_flatMap.1 h
            rw [← allJobs_id hj] at hi'
            rw [hi] at hnd
            exact absurd rfl ((List.nodup_append.1 hnd).2.2 id hi' id (by simp))
          · exact h
      cases job with
      | none =>
        have hwp := h3 rfl
        simp only [Option.toList_none, List.append_nil] at h2
        rw [hwp] at h2
        obtain ⟨job, jd', dups', e', k1, k2, k3, k4, k5, k6⟩ := ih
          { jd with walPaths := st.walPaths, walFiles := st.walFiles, archRes := A ++ [st.res], errs := st.errs }
          (D.flatMap (allJobs repo sz) ++ J) (by
            exact finish _ st.res J h2 rfl rfl herr)
        refine ⟨job, jd', dups.map (.dup id) ++ dups', e', k1, k2, k3, ⟨by rw [k4.1, h1]; simp, ?_⟩, k5,
          fun done hsub hg => k6 done hsub (hgood' done hsub hg)⟩
        intro c hc
        rcases List.mem_append.1 hc with hc | hc
        · exact hdups c hc
        · exact k4.2 c hc
      | some j =>
        refine ⟨some j, { jd with walPaths := st.walPaths, walFiles := st.walFiles, archRes := A ++ [st.res], errs := st.errs, archiveIds := (if st.walPaths.isEmpty then rest else id :: rest) }, dups.map (.dup id), rfl, ?_, by simp,
          ⟨rfl, rfl, rfl, rfl, rfl⟩, ⟨h1, hdups⟩, ?_, hgood'⟩
        · rw [Option.toList_some, List.append_assoc]
          rw [Option.toList_some] at h2
          by_cases hwp : st.walPaths = []
          · rw [hwp] at h2
            exact finish _ st.res _ h2 rfl (by simp [hwp]) herr
          · refine .busy D id rest _ st.res hi (by simp [hwp]) (by simp [hA]) h2 hwp ?_
            intro i hne s
            rw [herr i hne, he i hne]
        · intro j' hj'
          simp only [Option.mem_def, Option.some.injEq] at hj'
          subst hj'
          obtain ⟨c, hc⟩ := h2.wal (j := j) (by simp)
          exact ⟨id, c, hc⟩

end

end Verif.Verify
