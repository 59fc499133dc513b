import Verif.Restore.FileModel
import Verif.Storage.MultiProps
import Verif.Block.IncrProps
import Mathlib.Data.List.Nodup

/-! # What a restore leaves of a file (C47) -/

namespace Verif.Restore.File

open Verif

/-! ## Specification -/

/-- What is there may stay: it starts with what is expected or, with force, has the expected size and time. -/
def Keeps (env : Env) (d : Disk) (f : RFile) : Prop :=
  env.delta = true ∧ f.zero = false ∧ ∃ c t, d f.name = some (c, t) ∧
    if env.force then c.length = f.size ∧ t = f.time ∧ t < env.begin
    else f.size ≤ c.length ∧ (f.size = 0 ∨ env.sha (c.take f.size) = f.checksum)

open Classical in
/-- What is reported of a file. -/
noncomputable def expected (env : Env) (d : Disk) (f : RFile) : Result :=
  if Keeps env d f then .preserve else if f.size = 0 ∨ f.zero = true then .zero else .copy

/-- The entry of the manifest is of a file with these bytes, whose checksum no other bytes have. -/
structure EntryOf (env : Env) (f : RFile) (data : Str) : Prop where
  size : f.size = data.length
  zero : f.zero = false
  checksum : f.checksum = env.sha data
  collision : ∀ c, env.sha c = env.sha data → c = data

/-- The bytes that block incremental can start from: none or those that are there, as far as they are wanted. -/
def Base (d : Disk) (f : RFile) (b : Str) : Prop := b = [] ∨ ∃ c t, d f.name = some (c, t) ∧ b = c.take f.size

/-- The repository has a file: its bytes come out of the filters or of the blocks. -/
def Holds (env : Env) (d : Disk) (f : RFile) (data : Str) : Prop :=
  ∃ repo, env.repo = some repo ∧ (∀ l, f.limit = some l → f.offset + l ≤ repo.length) ∧
    if f.mapSize = 0 then env.decode (Storage.part repo f.offset f.limit) = .ok data
    else f.limit ≠ none ∧ ∀ b, Base d f b → env.block f (Storage.part repo f.offset f.limit) b = .ok data

/-- The parts of the repository file are in order. -/
def Before (a b : RFile) : Prop := ∃ la lb, a.limit = some la ∧ b.limit = some lb ∧ a.offset + la ≤ b.offset

/-! ## One file -/

/-- The first loop for one file. -/
def one (env : Env) (d : Disk) (f : RFile) : Disk × Result × Bool := create f (check env d f)

theorem set_self (d : Disk) (n c : Str) (t : Int) : (d.set n c t) n = some (c, t) := by simp [Disk.set]

theorem set_ne (d : Disk) {n m : Str} (c : Str) (t : Int) (h : m ≠ n) : (d.set n c t) m = d m := by simp [Disk.set, h]

theorem check_frame (env : Env) (d : Disk) (f : RFile) {m : Str} (h : m ≠ f.name) : (check env d f).1 m = d m := by
  unfold check
  split
  · split
    · rfl
    · split
      · split <;> rfl
      · unfold checkSum
        split
        · dsimp only
          split <;> exact set_ne _ _ _ h
        · rfl
  · rfl

theorem one_frame (env : Env) (d : Disk) (f : RFile) {m : Str} (h : m ≠ f.name) : (one env d f).1 m = d m := by
  unfold one create
  split
  · rw [← check_frame env d f h]
    exact set_ne _ _ _ h
  · exact check_frame env d f h

theorem check_local (env : Env) {d d' : Disk} (f : RFile) (h : d f.name = d' f.name) :
    (check env d f).1 f.name = (check env d' f).1 f.name ∧ (check env d f).2 = (check env d' f).2 := by
  unfold check
  rw [← h]
  split
  · split
    · rename_i h1
      exact ⟨h, rfl⟩
    · split
      · split
        · exact ⟨h, rfl⟩
        · exact ⟨h, rfl⟩
      · unfold checkSum
        split
        · dsimp only
          split <;> simp [set_self]
        · exact ⟨h, rfl⟩
  · exact ⟨h, rfl⟩

theorem one_local (env : Env) {d d' : Disk} (f : RFile) (h : d f.name = d' f.name) :
    (one env d f).1 f.name = (one env d' f).1 f.name ∧ (one env d f).2 = (one env d' f).2 := by
  obtain ⟨h1, h2⟩ := check_local env f h
  unfold one create
  rw [h2]
  split
  · simp [set_self]
  · exact ⟨h1, h2⟩

/-- What the first loop leaves of a file, for each result. -/
theorem one_cases (env : Env) (d : Disk) (f : RFile) :
    (Keeps env d f ∧ (one env d f).2.1 = .preserve ∧ ∃ c t, d f.name = some (c, t) ∧
      (one env d f).1 f.name = (if env.force then some (c, t) else some (c.take f.size, f.time))) ∨
    (¬ Keeps env d f ∧ (f.size = 0 ∨ f.zero = true) ∧ (one env d f).2.1 = .zero ∧
      (one env d f).1 f.name = some (List.replicate f.size 0, f.time)) ∨
    (¬ Keeps env d f ∧ f.size ≠ 0 ∧ f.zero = false ∧ (one env d f).2.1 = .copy ∧
      ((one env d f).2.2 = true → ∃ c t t', d f.name = some (c, t) ∧ (one env d f).1 f.name = some (c.take f.size, t'))) := by
  have hz : (check env d f).2.1 = .copy → ¬ Keeps env d f →
      ((check env d f).2.2 = true → ∃ c t t', d f.name = some (c, t) ∧ (check env d f).1 f.name = some (c.take f.size, t')) →
      (¬ Keeps env d f ∧ (f.size = 0 ∨ f.zero = true) ∧ (one env d f).2.1 = .zero ∧
        (one env d f).1 f.name = some (List.replicate f.size 0, f.time)) ∨
      (¬ Keeps env d f ∧ f.size ≠ 0 ∧ f.zero = false ∧ (one env d f).2.1 = .copy ∧
        ((one env d f).2.2 = true → ∃ c t t', d f.name = some (c, t) ∧ (one env d f).1 f.name = some (c.take f.size, t'))) := by
    intro h1 h2 h3
    by_cases h : f.size = 0 ∨ f.zero = true
    · left
      unfold one create
      rw [if_pos ⟨h1, h⟩]
      refine ⟨h2, h, rfl, ?_⟩
      dsimp only
      rw [set_self]
      rcases h with h | h
      · rw [h]; simp
      · rw [h]; simp
    · right
      have hf : f.zero = false := by
        cases hz : f.zero
        · rfl
        · exact absurd (.inr hz) h
      unfold one create
      rw [if_neg (fun hh => h hh.2)]
      exact ⟨h2, fun hh => h (.inl hh), hf, h1, h3⟩
  have hp : ∀ p, check env d f = p → p.2.1 = .preserve → one env d f = p := by
    intro p hp1 hp2
    unfold one create
    rw [hp1, if_neg (by rw [hp2]; simp)]
  by_cases h1 : env.delta = true ∧ f.zero = false
  · cases h2 : d f.name with
    | none =>
      right
      have hc : check env d f = (d, .copy, false) := by
        unfold check
        rw [if_pos h1, h2]
      rw [hc] at hz
      refine (hz rfl ?_ (by simp)).imp id ?_
      · rintro ⟨_, _, c, t, h3, _⟩
        rw [h2] at h3
        cases h3
      · rw [h2]
        exact id
    | some p =>
      obtain ⟨c, t⟩ := p
      cases h3 : env.force with
      | true =>
        have hk : Keeps env d f ↔ c.length = f.size ∧ t = f.time ∧ t < env.begin := by
          unfold Keeps
          rw [h3]
          constructor
          · rintro ⟨_, _, c', t', h4, h5⟩
            rw [h2] at h4
            cases h4
            exact h5
          · intro h4
            exact ⟨h1.1, h1.2, c, t, h2, h4⟩
        by_cases h4 : c.length = f.size ∧ t = f.time ∧ t < env.begin
        · left
          have hc : check env d f = (d, .preserve, false) := by
            unfold check
            rw [if_pos h1, h2]
            simp only [h3, if_true]
            rw [if_pos h4]
          rw [hp _ hc rfl]
          exact ⟨hk.2 h4, rfl, c, t, rfl, by simp [h2]⟩
        · right
          have hc : check env d f = (d, .copy, false) := by
            unfold check
            rw [if_pos h1, h2]
            simp only [h3, if_true]
            rw [if_neg h4]
          rw [hc] at hz
          have := hz rfl (fun h => h4 (hk.1 h)) (by simp)
          rw [h2] at this
          exact this
      | false =>
        have hk : Keeps env d f ↔ f.size ≤ c.length ∧ (f.size = 0 ∨ env.sha (c.take f.size) = f.checksum) := by
          unfold Keeps
          rw [h3]
          constructor
          · rintro ⟨_, _, c', t', h4, h5⟩
            rw [h2] at h4
            cases h4
            exact h5
          · intro h4
            exact ⟨h1.1, h1.2, c, t, h2, h4⟩
        have hs : check env d f = checkSum env f d c t := by
          unfold check
          rw [if_pos h1, h2]
          simp only [h3, Bool.false_eq_true, if_false]
        have ht : (truncated env f c t).1 = c.take f.size := by
          unfold truncated
          split
          · rfl
          · rw [List.take_of_length_le (by omega)]
        by_cases h4 : f.size ≤ c.length ∨ (f.mapSize ≠ 0 ∧ c.length ≠ 0)
        · by_cases h5 : f.size = 0 ∨ ((c.take f.size).length = f.size ∧ f.checksum = env.sha (c.take f.size))
          · left
            have hc : check env d f = (d.set f.name (c.take f.size) f.time, .preserve, false) := by
              rw [hs]
              unfold checkSum
              rw [if_pos h4]
              dsimp only
              rw [ht, if_pos h5]
            rw [hp _ hc rfl]
            refine ⟨hk.2 ?_, rfl, c, t, rfl, by simp [set_self]⟩
            rw [List.length_take] at h5
            refine ⟨by omega, h5.imp id fun h => h.2.symm⟩
          · right
            have hc : check env d f = (d.set f.name (c.take f.size) (truncated env f c t).2, .copy, decide (f.mapSize ≠ 0)) := by
              rw [hs]
              unfold checkSum
              rw [if_pos h4]
              dsimp only
              rw [ht, if_neg h5]
            rw [hc] at hz
            have := hz rfl (fun h => h5 (by
              obtain ⟨h6, h7⟩ := hk.1 h
              rw [List.length_take]
              exact h7.imp id fun h8 => ⟨by omega, h8.symm⟩)) (fun _ => ⟨c, t, _, h2, set_self _ _ _ _⟩)
            rw [h2] at this
            exact this
        · right
          have hc : check env d f = (d, .copy, false) := by
            rw [hs]
            unfold checkSum
            rw [if_neg h4]
          rw [hc] at hz
          have := hz rfl (fun h => h4 (.inl (hk.1 h).1)) (by simp)
          rw [h2] at this
          exact this
  · right
    have hc : check env d f = (d, .copy, false) := by
      unfold check
      rw [if_neg h1]
    rw [hc] at hz
    exact hz rfl (fun h => h1 ⟨h.1, h.2.1⟩) (by simp)

theorem one_result (env : Env) (d : Disk) (f : RFile) : (one env d f).2.1 = expected env d f := by
  unfold expected
  rcases one_cases env d f with ⟨h1, h2, _⟩ | ⟨h1, h2, h3, _⟩ | ⟨h1, h2, h3, h4, _⟩
  · rw [if_pos h1, h2]
  · rw [if_neg h1, if_pos h2, h3]
  · rw [if_neg h1, if_neg (by simp [h2, h3]), h4]

/-! ## The first loop -/

theorem checkAll_frame (env : Env) : ∀ (fs : List RFile) (d : Disk) {m : Str}, (∀ f ∈ fs, f.name ≠ m) → (checkAll env d fs).1 m = d m
  | [], _, _, _ => rfl
  | f :: fs, d, m, h => by
    rw [checkAll]
    dsimp only
    rw [checkAll_frame env fs _ (fun x hx => h x (.tail _ hx))]
    exact one_frame env d f (fun hm => h f (.head _) hm.symm)

theorem checkAll_files (env : Env) : ∀ (fs : List RFile) (d : Disk), (checkAll env d fs).2.map Plan.file = fs
  | [], _ => rfl
  | f :: fs, d => by
    rw [checkAll]
    dsimp only
    rw [List.map_cons, checkAll_files env fs]

theorem checkAll_plan (env : Env) : ∀ (fs : List RFile) (d d0 : Disk), (fs.map RFile.name).Nodup →
    (∀ f ∈ fs, d f.name = d0 f.name) → ∀ p ∈ (checkAll env d fs).2,
    (p.result, p.sums) = (one env d0 p.file).2 ∧ (checkAll env d fs).1 p.file.name = (one env d0 p.file).1 p.file.name
  | [], _, _, _, _, p, hp => by cases hp
  | f :: fs, d, d0, hn, hd, p, hp => by
    rw [List.map_cons, List.nodup_cons] at hn
    have hne : ∀ x ∈ fs, x.name ≠ f.name := fun x hx h => hn.1 (h ▸ List.mem_map.2 ⟨x, hx, rfl⟩)
    obtain ⟨h1, h2⟩ := one_local env f (hd f (.head _))
    rw [checkAll] at hp ⊢
    dsimp only at hp ⊢
    rcases List.mem_cons.1 hp with rfl | hp
    · refine ⟨h2, ?_⟩
      dsimp only
      rw [checkAll_frame env fs _ (fun x hx h => hne x hx h)]
      exact h1
    · exact checkAll_plan env fs _ d0 hn.2 (fun x hx => by
        rw [← hd x (.tail _ hx)]
        exact one_frame env d f (hne x hx)) p hp

theorem checkAll_results (env : Env) (fs : List RFile) (d : Disk) (hn : (fs.map RFile.name).Nodup) :
    (checkAll env d fs).2.map Plan.result = fs.map (expected env d) := by
  have h := checkAll_plan env fs d d hn (fun _ _ => rfl)
  conv => rhs; rw [← checkAll_files env fs d]
  rw [List.map_map]
  refine List.map_congr_left fun p hp => ?_
  have := congrArg Prod.fst (h p hp).1
  dsimp only at this
  rw [this]
  exact one_result env d p.file

/-! ## The second loop -/

theorem content_checked {env : Env} {d : Disk} {s : Str} {p : Plan} {c s' : Str} (h : content env d s p = .ok (c, s')) :
    p.file.checksum = env.sha c := by
  have hv : ∀ x y, verified env p.file x = .ok y → y = x ∧ p.file.checksum = env.sha x := by
    intro x y h
    unfold verified at h
    split at h
    · cases h
      exact ⟨rfl, by assumption⟩
    · cases h
  unfold content at h
  split at h
  · split at h
    · cases h
    · split at h
      · cases h
      · split at h
        · cases h
        · rename_i h1
          cases h
          obtain ⟨rfl, h2⟩ := hv _ _ h1
          exact h2
  · split at h
    · cases h
    · split at h
      · cases h
      · rename_i h1
        cases h
        obtain ⟨rfl, h2⟩ := hv _ _ h1
        exact h2

theorem copyAll_frame {env : Env} : ∀ {ps : List Plan} {d d' : Disk} {s m : Str}, copyAll env d s ps = .ok d' →
    (∀ p ∈ ps, p.result = .copy → p.file.name ≠ m) → d' m = d m
  | [], d, d', s, m, h, _ => by
    cases h
    rfl
  | p :: ps, d, d', s, m, h, hm => by
    rw [copyAll] at h
    split at h
    · rename_i hc
      split at h
      · cases h
      · rw [copyAll_frame h (fun x hx => hm x (.tail _ hx))]
        exact set_ne _ _ _ (fun h => hm p (.head _) hc h.symm)
    · exact copyAll_frame h (fun x hx => hm x (.tail _ hx))

theorem copyAll_copied {env : Env} : ∀ {ps : List Plan} {d d' : Disk} {s : Str}, copyAll env d s ps = .ok d' →
    (ps.map fun p => p.file.name).Nodup → ∀ p ∈ ps, p.result = .copy →
    ∃ c, d' p.file.name = some (c, p.file.time) ∧ p.file.checksum = env.sha c
  | [], d, d', s, h, _, p, hp, _ => by cases hp
  | q :: ps, d, d', s, h, hn, p, hp, hr => by
    rw [List.map_cons, List.nodup_cons] at hn
    rw [copyAll] at h
    split at h
    · rename_i hc
      split at h
      · cases h
      · rename_i c s' hcon
        rcases List.mem_cons.1 hp with rfl | hp
        · refine ⟨c, ?_, content_checked hcon⟩
          rw [copyAll_frame h (fun x hx _ hne => hn.1 (List.mem_map.2 ⟨x, hx, hne⟩))]
          exact set_self _ _ _ _
        · exact copyAll_copied h hn.2 p hp hr
    · rename_i hc
      rcases List.mem_cons.1 hp with rfl | hp
      · exact absurd hr hc
      · exact copyAll_copied h hn.2 p hp hr

/-! ## Both -/

theorem restore_parts {env : Env} {d d' : Disk} {fs : List RFile} {rs : List Result} (h : restoreFile env d fs = .ok (d', rs)) :
    ∃ s, copyAll env (checkAll env d fs).1 s (checkAll env d fs).2 = .ok d' ∧ rs = (checkAll env d fs).2.map Plan.result := by
  unfold restoreFile at h
  split at h
  · cases h
  · split at h
    · cases h
    · rename_i h1
      cases h
      exact ⟨_, h1, rfl⟩

theorem plan_of {env : Env} {d : Disk} {fs : List RFile} {f : RFile} (hf : f ∈ fs) : ∃ p ∈ (checkAll env d fs).2, p.file = f := by
  rw [← checkAll_files env fs d] at hf
  obtain ⟨p, hp, rfl⟩ := List.mem_map.1 hf
  exact ⟨p, hp, rfl⟩

theorem plan_names (env : Env) (d : Disk) (fs : List RFile) :
    ((checkAll env d fs).2.map fun p => p.file.name) = fs.map RFile.name := by
  conv => rhs; rw [← checkAll_files env fs d]
  rw [List.map_map]
  rfl

/-- A file that is not copied is as the first loop left it. -/
theorem not_copied {env : Env} {d d' : Disk} {fs : List RFile} {rs : List Result} (hn : (fs.map RFile.name).Nodup)
    (h : restoreFile env d fs = .ok (d', rs)) {f : RFile} (hf : f ∈ fs) (hr : (one env d f).2.1 ≠ .copy) :
    d' f.name = (one env d f).1 f.name := by
  obtain ⟨s, h1, _⟩ := restore_parts h
  obtain ⟨p, hp, rfl⟩ := plan_of (env := env) (d := d) hf
  have hpl := checkAll_plan env fs d d hn (fun _ _ => rfl)
  rw [copyAll_frame h1, (hpl p hp).2]
  intro q hq hqc hname
  have : q.file = p.file := by
    have hnod := hn
    rw [← plan_names env d fs] at hnod
    exact congrArg Plan.file (List.inj_on_of_nodup_map hnod hq hp hname)
  have h2 := congrArg Prod.fst (hpl q hq).1
  dsimp only at h2
  rw [this] at h2
  exact hr (h2 ▸ hqc)

/-! ## Theorems -/

/-- What is reported of each file. -/
theorem c47_results {env : Env} {d d' : Disk} {fs : List RFile} {rs : List Result} (hn : (fs.map RFile.name).Nodup)
    (h : restoreFile env d fs = .ok (d', rs)) : rs = fs.map (expected env d) := by
  obtain ⟨s, _, h2⟩ := restore_parts h
  rw [h2, checkAll_results env fs d hn]

/-- Without force a file is preserved only if its first bytes are of the size and checksum of the manifest. These bytes are all that is left of it
and it gets the time of the manifest. -/
theorem c47_preserve {env : Env} {d d' : Disk} {fs : List RFile} {rs : List Result} (hn : (fs.map RFile.name).Nodup)
    (h : restoreFile env d fs = .ok (d', rs)) {f : RFile} (hf : f ∈ fs) (hforce : env.force = false)
    (hr : expected env d f = .preserve) :
    env.delta = true ∧ ∃ c t, d f.name = some (c, t) ∧ d' f.name = some (c.take f.size, f.time) ∧ (c.take f.size).length = f.size ∧
      (f.size = 0 ∨ env.sha (c.take f.size) = f.checksum) := by
  rw [← one_result] at hr
  rcases one_cases env d f with ⟨h1, h2, c, t, h3, h4⟩ | ⟨_, _, h3, _⟩ | ⟨_, _, _, h4, _⟩
  · obtain ⟨hd, _, c', t', h5, h6⟩ := h1
    rw [hforce] at h6
    rw [h3] at h5
    cases h5
    simp only [Bool.false_eq_true, if_false] at h6
    refine ⟨hd, c, t, h3, ?_, by rw [List.length_take]; omega, h6.2⟩
    rw [not_copied hn h hf (by rw [hr]; simp), h4, hforce]
    simp
  · rw [hr] at h3
    cases h3
  · rw [hr] at h4
    cases h4

/-- With force a file is preserved only if it has the size and time of the manifest and is older than the backup. It is left as it is. -/
theorem c47_preserve_force {env : Env} {d d' : Disk} {fs : List RFile} {rs : List Result} (hn : (fs.map RFile.name).Nodup)
    (h : restoreFile env d fs = .ok (d', rs)) {f : RFile} (hf : f ∈ fs) (hforce : env.force = true)
    (hr : expected env d f = .preserve) :
    env.delta = true ∧ ∃ c, d f.name = some (c, f.time) ∧ d' f.name = some (c, f.time) ∧ c.length = f.size ∧ f.time < env.begin := by
  rw [← one_result] at hr
  rcases one_cases env d f with ⟨h1, h2, c, t, h3, h4⟩ | ⟨_, _, h3, _⟩ | ⟨_, _, _, h4, _⟩
  · obtain ⟨hd, _, c', t', h5, h6⟩ := h1
    rw [hforce] at h6
    rw [h3] at h5
    cases h5
    simp only [if_true] at h6
    obtain ⟨h6, rfl, h7⟩ := h6
    refine ⟨hd, c, h3, ?_, h6, h7⟩
    rw [not_copied hn h hf (by rw [hr]; simp), h4, hforce]
    simp
  · rw [hr] at h3
    cases h3
  · rw [hr] at h4
    cases h4

/-- A file that is reported as zero is empty or, when it is not selected, has its size in zeros. -/
theorem c47_zero {env : Env} {d d' : Disk} {fs : List RFile} {rs : List Result} (hn : (fs.map RFile.name).Nodup)
    (h : restoreFile env d fs = .ok (d', rs)) {f : RFile} (hf : f ∈ fs) (hr : expected env d f = .zero) :
    (f.size = 0 ∨ f.zero = true) ∧ d' f.name = some (List.replicate f.size 0, f.time) := by
  rw [← one_result] at hr
  rcases one_cases env d f with ⟨h1, h2, _⟩ | ⟨_, h2, h3, h4⟩ | ⟨_, _, _, h4, _⟩
  · rw [hr] at h2
    cases h2
  · refine ⟨h2, ?_⟩
    rw [not_copied hn h hf (by rw [hr]; simp), h4]
  · rw [hr] at h4
    cases h4

/-- A file that is copied has the checksum of the manifest, whatever the repository, the filters and the blocks deliver. -/
theorem c47_copy {env : Env} {d d' : Disk} {fs : List RFile} {rs : List Result} (hn : (fs.map RFile.name).Nodup)
    (h : restoreFile env d fs = .ok (d', rs)) {f : RFile} (hf : f ∈ fs) (hr : expected env d f = .copy) :
    ∃ c, d' f.name = some (c, f.time) ∧ env.sha c = f.checksum := by
  obtain ⟨s, h1, _⟩ := restore_parts h
  obtain ⟨p, hp, rfl⟩ := plan_of (env := env) (d := d) hf
  have hpl := checkAll_plan env fs d d hn (fun _ _ => rfl)
  have h2 := congrArg Prod.fst (hpl p hp).1
  dsimp only at h2
  rw [one_result, hr] at h2
  obtain ⟨c, h3, h4⟩ := copyAll_copied h1 (by rw [plan_names]; exact hn) p hp h2
  exact ⟨c, h3, h4.symm⟩

/-- Without force each file of the backup has its bytes and time after a restore that does not fail, whatever was there before and whatever is in
the repository. With force this is so for each one that is not preserved. -/
theorem c47_content {env : Env} {d d' : Disk} {fs : List RFile} {rs : List Result} (hn : (fs.map RFile.name).Nodup)
    (h : restoreFile env d fs = .ok (d', rs)) {f : RFile} (hf : f ∈ fs) {data : Str} (he : EntryOf env f data)
    (hforce : env.force = true → expected env d f ≠ .preserve) : d' f.name = some (data, f.time) := by
  cases hr : expected env d f with
  | preserve =>
    have hforce : env.force = false := by
      cases hx : env.force
      · rfl
      · exact absurd hr (hforce hx)
    obtain ⟨_, c, t, h1, h2, h3, h4⟩ := c47_preserve hn h hf hforce hr
    rw [h2]
    rcases h4 with h4 | h4
    · have : data = [] := List.length_eq_zero_iff.1 (he.size ▸ h4)
      rw [h4, this]
      simp
    · rw [he.collision _ (h4.trans he.checksum)]
  | zero =>
    obtain ⟨h1, h2⟩ := c47_zero hn h hf hr
    rw [h2]
    rcases h1 with h1 | h1
    · have : data = [] := List.length_eq_zero_iff.1 (he.size ▸ h1)
      rw [h1, this]
      simp
    · rw [he.zero] at h1
      cases h1
  | copy =>
    obtain ⟨c, h1, h2⟩ := c47_copy hn h hf hr
    rw [h1, he.collision _ (h2.trans he.checksum)]

/-- Nothing else is touched. -/
theorem c47_frame {env : Env} {d d' : Disk} {fs : List RFile} {rs : List Result} (h : restoreFile env d fs = .ok (d', rs)) {m : Str}
    (hm : ∀ f ∈ fs, f.name ≠ m) : d' m = d m := by
  obtain ⟨s, h1, _⟩ := restore_parts h
  rw [copyAll_frame h1, checkAll_frame env fs d hm]
  intro p hp _ h2
  exact hm p.file (by rw [← checkAll_files env fs d]; exact List.mem_map.2 ⟨p, hp, rfl⟩) h2

/-! ## A restore does not fail without reason -/

/-- What the second loop needs of a file. -/
def Ready (env : Env) (d : Disk) (repo : Str) (p : Plan) : Prop :=
  (∀ l, p.file.limit = some l → p.file.offset + l ≤ repo.length) ∧ ∃ data, p.file.checksum = env.sha data ∧
    if p.file.mapSize = 0 then env.decode (Storage.part repo p.file.offset p.file.limit) = .ok data
    else p.file.limit ≠ none ∧ env.block p.file (Storage.part repo p.file.offset p.file.limit)
      (if p.sums then ((d p.file.name).map Prod.fst).getD [] else []) = .ok data

theorem part_length {repo : Str} {o l : Nat} (h : o + l ≤ repo.length) : (Storage.part repo o (some l)).length = l := by
  simp only [Storage.part, List.length_take, List.length_drop]
  omega

theorem content_ready {env : Env} {d : Disk} {repo rest : Str} {p : Plan} (h : Ready env d repo p)
    (hl : p.file.limit = none → rest = []) :
    ∃ c, content env d (Storage.part repo p.file.offset p.file.limit ++ rest) p = .ok (c, rest) := by
  obtain ⟨h1, data, h2, h3⟩ := h
  refine ⟨data, ?_⟩
  unfold content
  by_cases hm : p.file.mapSize = 0
  · rw [if_pos hm] at h3
    rw [if_neg (by simp [hm])]
    cases hlim : p.file.limit with
    | none =>
      rw [hl hlim]
      rw [hlim] at h3
      simp only [List.append_nil]
      rw [show Storage.part (Storage.part repo p.file.offset none) 0 none = Storage.part repo p.file.offset none from rfl, h3]
      simp [verified, h2]
    | some l =>
      have hlen := part_length (h1 l hlim)
      rw [hlim] at h3
      have : Storage.part (Storage.part repo p.file.offset (some l) ++ rest) 0 (some l) = Storage.part repo p.file.offset (some l) := by
        show List.take l (List.drop 0 _) = _
        rw [List.drop_zero, List.take_append_of_le_length (by omega), List.take_of_length_le (by omega)]
      rw [this, h3]
      simp only [verified, h2, if_true, Option.getD_some]
      rw [List.drop_append_of_le_length (by omega), List.drop_of_length_le (by omega), List.nil_append]
  · rw [if_neg hm] at h3
    rw [if_pos hm]
    cases hlim : p.file.limit with
    | none => exact absurd hlim h3.1
    | some l =>
      have hlen := part_length (h1 l hlim)
      rw [hlim] at h3
      simp only []
      rw [List.take_append_of_le_length (by omega), List.take_of_length_le (by omega), h3.2]
      simp only [verified, h2, if_true]
      rw [List.drop_append_of_le_length (by omega), List.drop_of_length_le (by omega), List.nil_append]

theorem copyAll_ready {env : Env} {repo : Str} : ∀ {ps : List Plan} {d : Disk}, (ps.map fun p => p.file.name).Nodup →
    (∀ p ∈ ps, p.result = .copy → Ready env d repo p) → (toCopy ps).Pairwise Before →
    ∃ d', copyAll env d ((toCopy ps).flatMap fun f => Storage.part repo f.offset f.limit) ps = .ok d'
  | [], d, _, _, _ => ⟨d, rfl⟩
  | p :: ps, d, hn, hr, ho => by
    rw [List.map_cons, List.nodup_cons] at hn
    by_cases hc : p.result = .copy
    · have ht : toCopy (p :: ps) = p.file :: toCopy ps := by simp [toCopy, hc]
      rw [ht, List.pairwise_cons] at ho
      rw [ht, List.flatMap_cons, copyAll, if_pos hc]
      obtain ⟨c, h1⟩ := content_ready (rest := (toCopy ps).flatMap fun f => Storage.part repo f.offset f.limit) (hr p (.head _) hc)
        (fun hl => by
          cases hx : toCopy ps with
          | nil => rfl
          | cons a as =>
            obtain ⟨la, _, h2, _⟩ := ho.1 a (by rw [hx]; exact .head _)
            rw [hl] at h2
            cases h2)
      rw [h1]
      refine copyAll_ready hn.2 (fun q hq hqc => ?_) ho.2
      have hne : q.file.name ≠ p.file.name := fun h => hn.1 (List.mem_map.2 ⟨q, hq, h⟩)
      have := hr q (.tail _ hq) hqc
      unfold Ready at this ⊢
      rw [set_ne _ _ _ hne]
      exact this
    · have ht : toCopy (p :: ps) = toCopy ps := by simp [toCopy, hc]
      rw [ht] at ho
      rw [ht, copyAll, if_neg hc]
      exact copyAll_ready hn.2 (fun q hq => hr q (.tail _ hq)) ho

theorem ordered_adds : ∀ {fs : List RFile}, fs.Pairwise Before → Storage.Ordered (adds fs)
  | [], _ => trivial
  | [_], _ => trivial
  | a :: b :: fs, h => by
    rw [List.pairwise_cons] at h
    exact ⟨fun _ => h.1 b (.head _), ordered_adds (fs := b :: fs) h.2⟩

/-- When the repository has what is to be copied, in the order of the files, the restore succeeds. -/
theorem c47_complete {env : Env} {d : Disk} {fs : List RFile} (hq : 0 < env.queueMax) (hn : (fs.map RFile.name).Nodup)
    (ho : fs.Pairwise Before)
    (hh : ∀ f ∈ fs, expected env d f = .copy → ∃ data, Holds env d f data ∧ f.checksum = env.sha data) :
    ∃ d', restoreFile env d fs = .ok (d', fs.map (expected env d)) := by
  have hpl := checkAll_plan env fs d d hn (fun _ _ => rfl)
  have hres : ∀ p ∈ (checkAll env d fs).2, p.file ∈ fs ∧ p.result = expected env d p.file := by
    intro p hp
    have h2 := congrArg Prod.fst (hpl p hp).1
    dsimp only at h2
    rw [one_result] at h2
    exact ⟨(show _ ∈ _ ↔ _ from by rw [checkAll_files env fs d]).1 (List.mem_map.2 ⟨p, hp, rfl⟩ : p.file ∈ (checkAll env d fs).2.map Plan.file), h2⟩
  have hord : (toCopy (checkAll env d fs).2).Pairwise Before := by
    refine List.Pairwise.sublist ?_ ho
    conv => rhs; rw [← checkAll_files env fs d]
    exact List.Sublist.map _ List.filter_sublist
  have hcopy : ∀ f ∈ toCopy (checkAll env d fs).2, ∃ p ∈ (checkAll env d fs).2, p.file = f ∧ p.result = .copy := by
    intro f hf
    unfold toCopy at hf
    obtain ⟨p, hp, rfl⟩ := List.mem_map.1 hf
    rw [List.mem_filter] at hp
    exact ⟨p, hp.1, rfl, by simpa using hp.2⟩
  have hready : ∀ p ∈ (checkAll env d fs).2, p.result = .copy →
      (env.repo).isSome = true ∧ Ready env (checkAll env d fs).1 (env.repo.getD []) p := by
    intro p hp hc
    obtain ⟨h1, h2⟩ := hres p hp
    rw [hc] at h2
    obtain ⟨data, ⟨repo, h3, h4, h5⟩, h6⟩ := hh p.file h1 h2.symm
    rw [h3]
    refine ⟨rfl, h4, data, h6, ?_⟩
    show if p.file.mapSize = 0 then env.decode (Storage.part repo _ _) = .ok data else _
    split
    · rename_i hm
      rw [if_pos hm] at h5
      exact h5
    · rename_i hm
      rw [if_neg hm] at h5
      refine ⟨h5.1, h5.2 _ ?_⟩
      split
      · rename_i hs
        rw [(hpl p hp).2]
        have h7 := congrArg Prod.snd (hpl p hp).1
        dsimp only at h7
        rcases one_cases env d p.file with ⟨_, h8, _⟩ | ⟨_, _, h8, _⟩ | ⟨_, _, _, _, h8⟩
        · rw [one_result, ← h2] at h8
          cases h8
        · rw [one_result, ← h2] at h8
          cases h8
        · obtain ⟨c, t, t', h9, h10⟩ := h8 (h7 ▸ hs)
          rw [h10]
          exact .inr ⟨c, t, h9, rfl⟩
      · exact .inl rfl
  obtain ⟨d', hd⟩ := copyAll_ready (env := env) (repo := env.repo.getD []) (ps := (checkAll env d fs).2) (d := (checkAll env d fs).1)
    (by rw [plan_names]; exact hn) (fun p hp hc => (hready p hp hc).2) hord
  obtain ⟨st, _, hst, _⟩ := Storage.c60_accepts (files := fun _ => env.repo) (readOver := env.readOver)
    (as := adds (toCopy (checkAll env d fs).2)) hq (by
      intro a ha
      obtain ⟨f, hf, rfl⟩ := List.mem_map.1 ha
      obtain ⟨p, hp, rfl, hc⟩ := hcopy f hf
      exact (hready p hp hc).1) (ordered_adds hord) []
  refine ⟨d', ?_⟩
  unfold restoreFile stream
  rw [hst]
  simp only []
  rw [hd, checkAll_results env fs d hn]

/-- The restore stops when parts of the repository file overlap or are not in order, before any file is copied. -/
theorem c47_order {env : Env} {d : Disk} {fs : List RFile} (hq : 0 < env.queueMax)
    (ho : ¬ Storage.Ordered (adds (toCopy (checkAll env d fs).2))) : ∃ e, restoreFile env d fs = .error e := by
  obtain ⟨e, he, _⟩ := (Storage.c60_rejects (files := fun _ => env.repo) (readOver := env.readOver) hq).1 ho
  refine ⟨e, ?_⟩
  unfold restoreFile stream
  rw [he]

/-! ## Block incremental -/

/-- The reconstruction of the model of block incremental (`Verif.Block`), from the bytes of the map. -/
def blockApply (fmt : Block.Format) (repo : Block.Repo) (map base : Str) : Res Str :=
  match fmt.codec.unpackMap map with
  | none => .error .crypto
  | some bytes =>
    match Block.mapRead fmt.blockSize fmt.checksumSize bytes with
    | .error e => .error e
    | .ok items => Block.applyReads fmt repo (Block.deltaNew fmt.blockSize (Block.blockChecksums fmt base) items) base

theorem backups_fit {D : Type} {fmt : Block.Format} {sha : Str → D} {repo : Block.Repo} {e : Block.Entry D} {data : Str} (hf : fmt.Ok)
    (hpm : ∀ r d, d ≠ [] → fmt.codec.packMap r d ≠ []) (h : Block.Backups fmt sha repo e data) :
    e.mapSize ≤ e.sizeRepo ∧ e.bundleOffset + e.sizeRepo ≤ (repo e.reference e.bundleId).length := by
  have key : ∀ (p : Block.Param) (prior : Option (List Block.Item)) (content : Str), Block.InRepo repo p (Block.blockIncr fmt p prior content).out →
      (Block.blockIncr fmt p prior content).mapSize ≤ (Block.blockIncr fmt p prior content).out.length ∧
      p.bundleOffset + (Block.blockIncr fmt p prior content).out.length ≤ (repo p.reference p.bundleId).length := by
    rintro p prior content ⟨pre, post, h1, h2⟩
    obtain ⟨st, hst⟩ : ∃ st, Block.blockIncr fmt p prior content = Block.finish fmt p prior st := ⟨_, rfl⟩
    obtain ⟨t, t1, -, t3⟩ := Block.finish_out fmt p prior st
    rw [← hst] at t1 t3
    rw [h1]
    constructor
    · by_cases hz : (Block.blockIncr fmt p prior content).mapSize = 0
      · omega
      · rw [(t3 hz).2, t1, List.length_append]
        omega
    · simp only [List.length_append]
      omega
  cases h with
  | full p _ _ stored => exact key p none data stored
  | incr p _ _ _ map _ _ _ _ _ stored _ => exact key p (some map) data stored

/-- A file that was stored by any sequence of block incremental backups is there for the restore. -/
theorem c47_block {env : Env} {d : Disk} {f : RFile} {data : Str} {fmt : Block.Format} {sha : Str → Str} {repo : Block.Repo}
    {e : Block.Entry Str} (hf : fmt.Ok) (hpm : ∀ r d, d ≠ [] → fmt.codec.packMap r d ≠ []) (h : Block.Backups fmt sha repo e data)
    (hsha : env.sha = sha) (hrepo : env.repo = some (repo e.reference e.bundleId))
    (hblock : env.block f = blockApply fmt repo)
    (hfile : f.size = e.size ∧ f.checksum = e.checksum ∧ f.mapSize = e.mapSize ∧ f.limit = some e.mapSize ∧
      f.offset = e.bundleOffset + e.sizeRepo - e.mapSize)
    (hcol : ∀ c t, d f.name = some (c, t) → Block.NoCollision fmt (c.take f.size) data) :
    Holds env d f data ∧ f.checksum = env.sha data := by
  obtain ⟨h1, h2, h3, h4, h5⟩ := hfile
  obtain ⟨⟨map, g1, g2⟩, g3, g4, g5, g6⟩ := h.good hf hpm
  obtain ⟨k1, k2⟩ := backups_fit hf hpm h
  refine ⟨⟨_, hrepo, ?_, ?_⟩, by rw [h2, g4, hsha]⟩
  · intro l hl
    rw [h4] at hl
    cases hl
    omega
  · rw [if_neg (by rw [h3]; exact g6)]
    refine ⟨by rw [h4]; simp, fun b hb => ?_⟩
    rw [hblock]
    have hc : b.length ≤ data.length ∧ Block.NoCollision fmt b data := by
      rcases hb with rfl | ⟨c, t, hc, rfl⟩
      · refine ⟨by simp, ?_⟩
        intro i x y hx
        simp [Block.fileBlocks, Block.blockTotal, Block.blocks] at hx
      · refine ⟨?_, hcol c t hc⟩
        rw [List.length_take, h1, g3]
        omega
    unfold Block.loadMap Block.slice at g1
    unfold blockApply
    rw [h4, h5]
    show (match fmt.codec.unpackMap (List.take _ (List.drop _ _)) with | none => _ | some bytes => _) = _
    split at g1
    · cases g1
    · rename_i bytes hb'
      rw [hb']
      simp only []
      rw [g1]
      exact Block.restore_map hf.blockSize g2 b hc.1 hc.2

/-! ## Examples -/

/-- The checksum of the examples are the bytes themselves, files are stored with a leading byte. -/
def exEnv (delta force : Bool) (repo : Str) : Env where
  sha := id
  decode := fun s => match s with | [] => .error .format | _ :: s => .ok s
  block := fun _ map base => .ok (base.take 1 ++ map.drop 1)
  delta := delta
  force := force
  begin := 100
  now := 500
  queueMax := 1
  readOver := 2
  repo := some repo

/-- One that is kept after it is truncated, one that is copied, an empty one, one that is not selected and one that is block incremental. -/
def exFiles : List RFile :=
  [⟨[97], [1, 2], 2, 50, false, 0, some 3, 0⟩,
   ⟨[98], [3, 4], 2, 50, false, 3, some 3, 0⟩,
   ⟨[99], [], 0, 50, false, 6, some 0, 0⟩,
   ⟨[100], [7, 7], 2, 50, true, 6, some 0, 0⟩,
   ⟨[101], [5, 6, 6], 3, 50, false, 8, some 3, 3⟩]

def exDisk : Disk := fun n =>
  if n = [97] then some ([1, 2, 3], 60) else if n = [98] then some ([3, 5], 50) else if n = [101] then some ([5, 6], 50) else
  if n = [102] then some ([9], 1) else none

def exRepo : Str := [0, 1, 2, 0, 3, 4, 9, 9, 0, 6, 6]

def view (r : Res (Disk × List Result)) : Res (List (Option (Str × Int)) × List Result) :=
  match r with
  | .error e => .error e
  | .ok (d, rs) => .ok ([[97], [98], [99], [100], [101], [102]].map d, rs)

example : view (restoreFile (exEnv true false exRepo) exDisk exFiles) =
    .ok ([some ([1, 2], 50), some ([3, 4], 50), some ([], 50), some ([0, 0], 50), some ([5, 6, 6], 50), some ([9], 1)],
      [.preserve, .copy, .zero, .zero, .copy]) := by decide +kernel

/-- With force the second one is kept although its bytes are not the ones of the backup. -/
example : view (restoreFile (exEnv true true exRepo) exDisk (exFiles.take 2)) =
    .ok ([some ([1, 2], 50), some ([3, 5], 50), none, none, some ([5, 6], 50), some ([9], 1)], [.copy, .preserve]) := by decide +kernel

/-- Bytes that are not those of the manifest are an error. -/
example : view (restoreFile (exEnv false false [0, 1, 2, 0, 3, 5, 9, 9, 0, 6, 6]) exDisk exFiles) = .error .checksum := by decide +kernel

example : (exFiles.map RFile.name).Nodup ∧ exFiles.Pairwise Before := by
  refine ⟨by decide, ?_⟩
  simp [exFiles, Before]

example : EntryOf (exEnv true false exRepo) ⟨[98], [3, 4], 2, 50, false, 3, some 3, 0⟩ [3, 4] := ⟨rfl, rfl, rfl, fun _ h => h⟩

example : Holds (exEnv true false exRepo) exDisk ⟨[98], [3, 4], 2, 50, false, 3, some 3, 0⟩ [3, 4] :=
  ⟨exRepo, rfl, by decide, rfl⟩

end Verif.Restore.File
