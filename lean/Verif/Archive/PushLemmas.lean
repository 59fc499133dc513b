import Verif.Archive.PushModel
import Verif.Archive.FindProps

/-! # Lemmas about pushing a file -/

namespace Verif.Archive

/-! ## The check -/

/-- The repository has another file for the segment. -/
def mismatch (file sha : Str) (r : Repo × Env) : Prop :=
  ∃ found, findIn r.1 r.2 file = .ok (some found) ∧ (found.drop (file.length + 1)).take 40 ≠ sha

def need (file : Str) (r : Repo × Env) : Bool :=
  match findIn r.1 r.2 file with
  | .ok none => true
  | _ => false

def findOk (file : Str) (r : Repo × Env) : Bool :=
  match findIn r.1 r.2 file with
  | .ok _ => true
  | .error _ => false

theorem checkLoop_mismatch (m : Bool) (file sha : Str) : ∀ (repos : List (Repo × Env)) (idx : Nat) (c : Check),
    (∃ r ∈ repos, mismatch file sha r) → checkLoop m file sha idx repos c = .error .archiveDuplicate
  | [], _, _, h => by obtain ⟨_, h, _⟩ := h; cases h
  | (repo, env) :: repos, idx, c, h => by
    have hrest : ¬ mismatch file sha (repo, env) → ∃ r ∈ repos, mismatch file sha r := by
      intro hn
      obtain ⟨r, hr, hm⟩ := h
      rcases List.mem_cons.1 hr with rfl | hr
      · exact absurd hm hn
      · exact ⟨r, hr, hm⟩
    rw [checkLoop]
    split
    · rename_i e he
      exact checkLoop_mismatch m file sha repos _ _ (hrest fun ⟨_, hf, _⟩ => by simp only at hf; rw [he] at hf; cases hf)
    · rename_i found he
      split
      · rename_i heq
        refine checkLoop_mismatch m file sha repos _ _ (hrest fun ⟨f, hf, hne⟩ => ?_)
        simp only at hf
        rw [he] at hf
        cases hf
        exact hne heq
      · rfl
    · rename_i he
      exact checkLoop_mismatch m file sha repos _ _ (hrest fun ⟨_, hf, _⟩ => by simp only at hf; rw [he] at hf; cases hf)

theorem checkLoop_ok (m : Bool) (file sha : Str) : ∀ (repos : List (Repo × Env)) (idx : Nat) (c : Check),
    (∀ r ∈ repos, ¬ mismatch file sha r) → ∃ c', checkLoop m file sha idx repos c = .ok c' ∧
      c'.copy = c.copy ++ repos.map (need file) ∧ c'.copyAny = (c.copyAny || repos.any (need file)) ∧
      (c'.errors = [] ↔ c.errors = [] ∧ ∀ r ∈ repos, findOk file r = true) ∧
      (∀ i, i ∈ c'.warn ↔ i ∈ c.warn ∨ m = true ∧ ∃ j r, i = idx + j ∧ repos[j]? = some r ∧ findOk file r = true ∧ need file r = false)
  | [], idx, c, _ => ⟨c, rfl, by simp, by simp, by simp, by simp⟩
  | (repo, env) :: repos, idx, c, h => by
    have hr : ∀ r ∈ repos, ¬ mismatch file sha r := fun r hr => h r (.tail _ hr)
    have h0 := h (repo, env) (.head _)
    have hshift : ∀ i, (∃ j r, i = idx + 1 + j ∧ repos[j]? = some r ∧ findOk file r = true ∧ need file r = false) →
        ∃ j r, i = idx + j ∧ ((repo, env) :: repos)[j]? = some r ∧ findOk file r = true ∧ need file r = false := by
      rintro i ⟨j, r, hi, h1, h2⟩
      exact ⟨j + 1, r, by omega, by simpa using h1, h2⟩
    have hback : ∀ i, (∃ j r, i = idx + j ∧ ((repo, env) :: repos)[j]? = some r ∧ findOk file r = true ∧ need file r = false) →
        (i = idx ∧ findOk file (repo, env) = true ∧ need file (repo, env) = false) ∨
        ∃ j r, i = idx + 1 + j ∧ repos[j]? = some r ∧ findOk file r = true ∧ need file r = false := by
      rintro i ⟨j, r, hi, h1, h2⟩
      cases j with
      | zero => simp at h1; subst h1; exact .inl ⟨hi, h2⟩
      | succ j => exact .inr ⟨j, r, by omega, by simpa using h1, h2⟩
    rw [checkLoop]
    split
    · rename_i e he
      have hneed : need file (repo, env) = false := by unfold need; simp only; rw [he]
      have hfo : findOk file (repo, env) = false := by unfold findOk; simp only; rw [he]
      obtain ⟨c', h1, h2, h3, h4, h5⟩ := checkLoop_ok m file sha repos (idx + 1) _ hr
      refine ⟨c', h1, by simp [h2, hneed], by simp [h3, hneed], ?_, ?_⟩
      · rw [h4]; simp [hfo]
      · intro i
        rw [h5]
        constructor
        · rintro (h | ⟨hm, h⟩)
          · exact .inl h
          · exact .inr ⟨hm, hshift i h⟩
        · rintro (h | ⟨hm, h⟩)
          · exact .inl h
          · rcases hback i h with ⟨_, h, _⟩ | h
            · rw [hfo] at h; cases h
            · exact .inr ⟨hm, h⟩
    · rename_i found he
      have hneed : need file (repo, env) = false := by unfold need; simp only; rw [he]
      have hfo : findOk file (repo, env) = true := by unfold findOk; simp only; rw [he]
      have heq : (found.drop (file.length + 1)).take 40 = sha := Decidable.not_not.1 fun hne => h0 ⟨found, he, hne⟩
      rw [if_pos heq]
      obtain ⟨c', h1, h2, h3, h4, h5⟩ := checkLoop_ok m file sha repos (idx + 1) _ hr
      refine ⟨c', h1, by simp [h2, hneed], by simp [h3, hneed], ?_, ?_⟩
      · rw [h4]; simp [hfo]
      · intro i
        rw [h5]
        constructor
        · rintro (h | ⟨hm, h⟩)
          · dsimp only at h
            split at h
            · rename_i hm
              rcases List.mem_append.1 h with h | h
              · exact .inl h
              · exact .inr ⟨hm, 0, (repo, env), by simpa using h, rfl, hfo, hneed⟩
            · exact .inl h
          · exact .inr ⟨hm, hshift i h⟩
        · rintro (h | ⟨hm, h⟩)
          · left
            dsimp only
            split
            · exact List.mem_append_left _ h
            · exact h
          · rcases hback i h with ⟨hi, _, _⟩ | h
            · left
              dsimp only
              rw [if_pos hm, hi]
              simp
            · exact .inr ⟨hm, h⟩
    · rename_i he
      have hneed : need file (repo, env) = true := by unfold need; simp only; rw [he]
      have hfo : findOk file (repo, env) = true := by unfold findOk; simp only; rw [he]
      obtain ⟨c', h1, h2, h3, h4, h5⟩ := checkLoop_ok m file sha repos (idx + 1) _ hr
      refine ⟨c', h1, by simp [h2, hneed], by simp [h3, hneed], ?_, ?_⟩
      · rw [h4]; simp [hfo]
      · intro i
        rw [h5]
        constructor
        · rintro (h | ⟨hm, h⟩)
          · exact .inl h
          · exact .inr ⟨hm, hshift i h⟩
        · rintro (h | ⟨hm, h⟩)
          · exact .inl h
          · rcases hback i h with ⟨_, _, h⟩ | h
            · rw [hneed] at h; cases h
            · exact .inr ⟨hm, h⟩

/-! ## The copy -/

/-- One operation on one destination. -/
def ioOne (fails : Env → Option Err) (chunk : Bytes) (p : Dest × Env) : Dest :=
  if p.1.copy then
    match fails p.2 with
    | some _ => ⟨false, p.1.data⟩
    | none => ⟨true, p.1.data ++ chunk⟩
  else p.1

theorem ioOne_copy {fails : Env → Option Err} {chunk : Bytes} {p : Dest × Env} (h : (ioOne fails chunk p).copy = true) :
    p.1.copy = true ∧ fails p.2 = none := by
  unfold ioOne at h
  split at h
  · rename_i hc
    cases hf : fails p.2 with
    | some e => rw [hf] at h; cases h
    | none => exact ⟨hc, rfl⟩
  · rename_i hc; exact absurd h hc

theorem ioLoop_fst (fails : Env → Option Err) (chunk : Bytes) : ∀ (ds : List (Dest × Env)) (idx : Nat) (errors : List (Nat × Err)),
    (ioLoop fails chunk idx ds errors).1 = ds.map (ioOne fails chunk)
  | [], _, _ => rfl
  | (d, env) :: ds, idx, errors => by
    rw [ioLoop, List.map_cons]
    unfold ioOne
    simp only
    split
    · cases fails env with
      | some e => simp only [ioLoop_fst fails chunk ds]; rfl
      | none => simp only [ioLoop_fst fails chunk ds]; rfl
    · simp only [ioLoop_fst fails chunk ds]; rfl

theorem ioLoop_snd (fails : Env → Option Err) (chunk : Bytes) : ∀ (ds : List (Dest × Env)) (idx : Nat) (errors : List (Nat × Err)),
    (ioLoop fails chunk idx ds errors).2 = [] ↔ errors = [] ∧ ∀ p ∈ ds, p.1.copy = true → fails p.2 = none
  | [], _, _ => by simp [ioLoop]
  | (d, env) :: ds, idx, errors => by
    rw [ioLoop]
    split
    · rename_i hc
      cases hf : fails env with
      | some e => simp only [ioLoop_snd fails chunk ds]; simp [hc, hf]
      | none => simp only [ioLoop_snd fails chunk ds]; simp [hf]
    · rename_i hc
      simp only [ioLoop_snd fails chunk ds]
      simp [hc]

/-- All buffers on one destination. -/
def writeOne (env : Env) : Nat → List Bytes → Dest → Dest
  | _, [], d => d
  | n, chunk :: chunks, d => writeOne env (n + 1) chunks (ioOne (fun env => env.write n) chunk (d, env))

/-- No error for the destination in the buffers. -/
def writeClean (env : Env) : Nat → List Bytes → Prop
  | _, [] => True
  | n, _ :: chunks => env.write n = none ∧ writeClean env (n + 1) chunks

theorem writeClean_iff (env : Env) : ∀ (chunks : List Bytes) (n : Nat),
    writeClean env n chunks ↔ ∀ i, i < chunks.length → env.write (n + i) = none
  | [], n => by simp [writeClean]
  | c :: chunks, n => by
    rw [writeClean, writeClean_iff env chunks]
    constructor
    · rintro ⟨h0, h⟩ i hi
      cases i with
      | zero => exact h0
      | succ i => have := h i (by simpa using hi); rwa [show n + 1 + i = n + (i + 1) by omega] at this
    · intro h
      refine ⟨h 0 (by simp), fun i hi => ?_⟩
      rw [show n + 1 + i = n + (i + 1) by omega]
      exact h (i + 1) (by simpa using hi)

theorem writeOne_eq (env : Env) : ∀ (chunks : List Bytes) (n : Nat) (d : Dest), d.copy = true → writeClean env n chunks →
    writeOne env n chunks d = ⟨true, d.data ++ chunks.flatten⟩
  | [], n, ⟨c, data⟩, h, _ => by simp only at h; subst h; simp [writeOne]
  | c :: chunks, n, d, h, hw => by
    rw [writeOne, ioOne, if_pos h]
    simp only [hw.1]
    rw [writeOne_eq env chunks (n + 1) ⟨true, d.data ++ c⟩ rfl hw.2]
    simp

theorem writeOne_not_copy (env : Env) : ∀ (chunks : List Bytes) (n : Nat) (d : Dest), d.copy = false →
    (writeOne env n chunks d).copy = false
  | [], n, d, h => h
  | c :: chunks, n, d, h => by
    rw [writeOne]
    refine writeOne_not_copy env chunks _ _ ?_
    unfold ioOne
    simp [h]

theorem writeOne_copy (env : Env) : ∀ (chunks : List Bytes) (n : Nat) (d : Dest), (writeOne env n chunks d).copy = true →
    d.copy = true ∧ writeClean env n chunks
  | [], n, d, h => ⟨h, trivial⟩
  | c :: chunks, n, d, h => by
    rw [writeOne] at h
    obtain ⟨h1, h2⟩ := writeOne_copy env chunks (n + 1) _ h
    exact ⟨(ioOne_copy h1).1, (ioOne_copy h1).2, h2⟩

/-- Write on each destination. -/
theorem writeLoop_fst (envs : List Env) : ∀ (chunks : List Bytes) (n : Nat) (ds : List Dest) (errors : List (Nat × Err)),
    ds.length = envs.length →
    (writeLoop envs n chunks ds errors).1 = (ds.zip envs).map fun p => writeOne p.2 n chunks p.1
  | [], n, ds, errors, h => by
    simp only [writeLoop, writeOne]
    exact (List.map_fst_zip (by omega)).symm
  | c :: chunks, n, ds, errors, h => by
    simp only [writeLoop]
    rw [writeLoop_fst envs chunks (n + 1) _ _ (by rw [ioLoop_fst]; simp; omega), ioLoop_fst]
    apply List.ext_getElem
    · simp
    · intro i h1 h2
      simp [writeOne]

theorem writeLoop_snd (envs : List Env) : ∀ (chunks : List Bytes) (n : Nat) (ds : List Dest) (errors : List (Nat × Err)),
    ds.length = envs.length →
    ((writeLoop envs n chunks ds errors).2 = [] ↔
      errors = [] ∧ ∀ p ∈ ds.zip envs, p.1.copy = true → writeClean p.2 n chunks)
  | [], n, ds, errors, h => by simp [writeLoop, writeClean]
  | c :: chunks, n, ds, errors, h => by
    simp only [writeLoop]
    rw [writeLoop_snd envs chunks (n + 1) _ _ (by rw [ioLoop_fst]; simp; omega), ioLoop_snd, ioLoop_fst, and_assoc]
    refine and_congr_right fun _ => ?_
    constructor
    · rintro ⟨h1, h2⟩ p hp hc
      refine ⟨h1 p hp hc, ?_⟩
      obtain ⟨i, hi, rfl⟩ := List.mem_iff_getElem.1 hp
      have hi' : i < ds.length ∧ i < envs.length := by simpa [Nat.lt_min] using hi
      rw [List.getElem_zip]
      refine h2 (ioOne (fun env => env.write n) c (ds[i], envs[i]), envs[i]) ?_ ?_
      · rw [List.mem_iff_getElem]
        exact ⟨i, by simp; omega, by simp⟩
      · have := h1 _ hp hc
        simp only [List.getElem_zip] at hc this
        unfold ioOne
        simp [hc, this]
    · intro h1
      refine ⟨fun p hp hc => (h1 p hp hc).1, fun p hp hc => ?_⟩
      obtain ⟨i, hi, rfl⟩ := List.mem_iff_getElem.1 hp
      have hi' : i < ds.length ∧ i < envs.length := by simp [Nat.lt_min] at hi; omega
      have hmem : (ds[i], envs[i]) ∈ ds.zip envs := by
        rw [List.mem_iff_getElem]
        exact ⟨i, by simp; omega, by simp⟩
      simp only [List.getElem_zip, List.getElem_map] at hc ⊢
      have hcopy : ds[i].copy = true := by
        exact (ioOne_copy hc).1
      exact (h1 _ hmem hcopy).2

/-- Nothing fails for a destination. -/
def ioClean (n : Nat) (env : Env) : Prop := env.opn = none ∧ (∀ i, i < n → env.write i = none) ∧ env.close = none

instance (n : Nat) (env : Env) : Decidable (ioClean n env) :=
  inferInstanceAs (Decidable (env.opn = none ∧ (∀ i, i < n → env.write i = none) ∧ env.close = none))

/-- The three operations on one destination. -/
def destOne (chunks : List Bytes) (copy : Bool) (env : Env) : Dest :=
  ioOne (·.close) [] (writeOne env 0 chunks (ioOne (·.opn) [] (⟨copy, []⟩, env)), env)

theorem destOne_copy (chunks : List Bytes) (copy : Bool) (env : Env) :
    (destOne chunks copy env).copy = (copy && decide (ioClean chunks.length env)) ∧
      ((destOne chunks copy env).copy = true → (destOne chunks copy env).data = chunks.flatten) := by
  unfold destOne
  cases copy with
  | false =>
    have h0 : ioOne (·.opn) [] ((⟨false, []⟩ : Dest), env) = ⟨false, []⟩ := rfl
    rw [h0]
    have h1 := writeOne_not_copy env chunks 0 ⟨false, []⟩ rfl
    unfold ioOne
    simp [h1]
  | true =>
    by_cases hc : ioClean chunks.length env
    · obtain ⟨ho, hw, hcl⟩ := hc
      have h0 : ioOne (·.opn) [] ((⟨true, []⟩ : Dest), env) = ⟨true, []⟩ := by
        unfold ioOne; simp [ho]
      have hw' : writeClean env 0 chunks := (writeClean_iff env chunks 0).2 (by simpa using hw)
      rw [h0, writeOne_eq env chunks 0 ⟨true, []⟩ rfl hw']
      unfold ioOne
      simp [hcl, ho, ioClean]
      exact hw
    · have : (ioOne (·.close) [] (writeOne env 0 chunks (ioOne (·.opn) [] (⟨true, []⟩, env)), env)).copy = false := by
        cases hr : (ioOne (·.close) [] (writeOne env 0 chunks (ioOne (·.opn) [] (⟨true, []⟩, env)), env)).copy with
        | false => rfl
        | true =>
          exfalso
          apply hc
          obtain ⟨hcopy, hcl⟩ := ioOne_copy hr
          obtain ⟨h1, h2⟩ := writeOne_copy env chunks 0 _ hcopy
          exact ⟨(ioOne_copy h1).2, by simpa using (writeClean_iff env chunks 0).1 h2, hcl⟩
      rw [this]
      simp [hc]

theorem publish_eq (name : Str) : ∀ l : List (Repo × Dest), publish name l =
    l.map fun p => if p.2.copy then { p.1 with files := putFile name (p.1.enc p.2.data) p.1.files } else p.1
  | [] => rfl
  | (r, d) :: l => by rw [publish, List.map_cons, publish_eq name l]

/-- A repository after a push that needs to copy. -/
def after (name : Str) (chunks : List Bytes) (copy : Repo × Env → Bool) (r : Repo × Env) : Repo :=
  if copy r = true ∧ ioClean chunks.length r.2 then { r.1 with files := putFile name (r.1.enc chunks.flatten) r.1.files } else r.1

theorem copyPhase_eq (src : Source) (name : Str) (repos : List (Repo × Env)) (copy : Repo × Env → Bool) (chunks : List Bytes)
    (c : Check) (hchunks : src.chunks = .ok chunks) (hcopy : c.copy = repos.map copy) (hany : c.copyAny = true) :
    (copyPhase src name repos c).1 = repos.map (after name chunks copy) ∧
    (((copyPhase src name repos c).2 = .ok c.warn ∧ c.errors = [] ∧ ∀ r ∈ repos, copy r = true → ioClean chunks.length r.2) ∨
      ((copyPhase src name repos c).2 = .error .command ∧
        ¬ (c.errors = [] ∧ ∀ r ∈ repos, copy r = true → ioClean chunks.length r.2))) := by
  unfold copyPhase
  rw [if_pos hany, hchunks]
  simp only
  have hds : (c.copy.map fun copy => (⟨copy, []⟩ : Dest)).zip (repos.map Prod.snd) = repos.map fun r => ((⟨copy r, []⟩ : Dest), r.2) := by
    rw [hcopy, List.map_map, List.zip_map']
    rfl
  have h1 : (ioLoop (·.opn) [] 0 ((c.copy.map fun copy => (⟨copy, []⟩ : Dest)).zip (repos.map Prod.snd)) c.errors).1 =
      repos.map fun r => ioOne (·.opn) [] (⟨copy r, []⟩, r.2) := by
    rw [hds, ioLoop_fst, List.map_map]; rfl
  have h1e : (ioLoop (·.opn) [] 0 ((c.copy.map fun copy => (⟨copy, []⟩ : Dest)).zip (repos.map Prod.snd)) c.errors).2 = [] ↔
      c.errors = [] ∧ ∀ r ∈ repos, copy r = true → r.2.opn = none := by
    rw [hds, ioLoop_snd]
    simp only [List.mem_map, forall_exists_index, and_imp, forall_apply_eq_imp_iff₂]
  generalize ioLoop (·.opn) [] 0 ((c.copy.map fun copy => (⟨copy, []⟩ : Dest)).zip (repos.map Prod.snd)) c.errors = a at h1 h1e
  obtain ⟨d1, e1⟩ := a
  simp only at h1 h1e ⊢
  subst h1
  have hz1 : (repos.map fun r => ioOne (·.opn) [] (⟨copy r, []⟩, r.2)).zip (repos.map Prod.snd) =
      repos.map fun r => (ioOne (·.opn) [] (⟨copy r, []⟩, r.2), r.2) := by
    rw [List.zip_map']
  have h2 := writeLoop_fst (repos.map Prod.snd) chunks 0 (repos.map fun r => ioOne (·.opn) [] (⟨copy r, []⟩, r.2)) e1 (by simp)
  have h2e := writeLoop_snd (repos.map Prod.snd) chunks 0 (repos.map fun r => ioOne (·.opn) [] (⟨copy r, []⟩, r.2)) e1 (by simp)
  rw [hz1, List.map_map] at h2
  rw [hz1] at h2e
  generalize writeLoop (repos.map Prod.snd) 0 chunks (repos.map fun r => ioOne (·.opn) [] (⟨copy r, []⟩, r.2)) e1 = b at h2 h2e
  obtain ⟨d2, e2⟩ := b
  simp only at h2 h2e ⊢
  subst h2
  have hz2 : (repos.map ((fun p => writeOne p.2 0 chunks p.1) ∘ fun r => (ioOne (·.opn) [] (⟨copy r, []⟩, r.2), r.2))).zip
      (repos.map Prod.snd) = repos.map fun r => (writeOne r.2 0 chunks (ioOne (·.opn) [] (⟨copy r, []⟩, r.2)), r.2) := by
    rw [List.zip_map']; rfl
  rw [hz2]
  have h3 := ioLoop_fst (·.close) [] (repos.map fun r => (writeOne r.2 0 chunks (ioOne (·.opn) [] (⟨copy r, []⟩, r.2)), r.2)) 0 e2
  have h3e := ioLoop_snd (·.close) [] (repos.map fun r => (writeOne r.2 0 chunks (ioOne (·.opn) [] (⟨copy r, []⟩, r.2)), r.2)) 0 e2
  generalize ioLoop (·.close) [] 0 (repos.map fun r => (writeOne r.2 0 chunks (ioOne (·.opn) [] (⟨copy r, []⟩, r.2)), r.2)) e2 =
    d at h3 h3e
  obtain ⟨d3, e3⟩ := d
  simp only at h3 h3e ⊢
  rw [List.map_map] at h3
  subst h3
  constructor
  · rw [List.zip_map', publish_eq, List.map_map]
    apply List.map_congr_left
    intro r _
    have hd := destOne_copy chunks (copy r) r.2
    unfold destOne at hd
    unfold after
    simp only [Function.comp]
    by_cases hc : copy r = true ∧ ioClean chunks.length r.2
    · rw [if_pos hc]
      have : (copy r && decide (ioClean chunks.length r.2)) = true := by simp [hc]
      rw [this] at hd
      rw [if_pos hd.1, hd.2 hd.1]
    · rw [if_neg hc]
      have : (copy r && decide (ioClean chunks.length r.2)) = false := by
        cases h : copy r with
        | false => rfl
        | true => simpa [h] using hc
      rw [this] at hd
      rw [hd.1]
      rfl
  · have hiff : e3 = [] ↔ c.errors = [] ∧ ∀ r ∈ repos, copy r = true → ioClean chunks.length r.2 := by
      rw [h3e, h2e, h1e]
      simp only [List.mem_map, forall_exists_index, and_imp, forall_apply_eq_imp_iff₂, writeClean_iff, Nat.zero_add]
      constructor
      · rintro ⟨⟨⟨he, ho⟩, hw⟩, hcl⟩
        refine ⟨he, fun r hr hc => ?_⟩
        have h0 := ho r hr hc
        have hone : ioOne (·.opn) [] ((⟨copy r, []⟩ : Dest), r.2) = ⟨true, []⟩ := by
          unfold ioOne; simp [hc, h0]
        have hw' := hw r hr (by rw [hone])
        refine ⟨h0, hw', hcl r hr ?_⟩
        rw [hone, writeOne_eq r.2 chunks 0 ⟨true, []⟩ rfl ((writeClean_iff _ _ 0).2 (by simpa using hw'))]
      · rintro ⟨he, h⟩
        have hcopyOf : ∀ r, (ioOne (·.opn) [] ((⟨copy r, []⟩ : Dest), r.2)).copy = true → copy r = true := by
          intro r hc
          exact (ioOne_copy hc).1
        refine ⟨⟨⟨he, fun r hr hc => (h r hr hc).1⟩, fun r hr hc => (h r hr (hcopyOf r hc)).2.1⟩, fun r hr hc => ?_⟩
        exact (h r hr (hcopyOf r (writeOne_copy r.2 chunks 0 _ hc).1)).2.2
    by_cases he : e3 = []
    · left
      exact ⟨by rw [if_neg (fun h => h he)], hiff.1 he⟩
    · right
      exact ⟨by rw [if_pos he], fun h => he (hiff.2 h)⟩

end Verif.Archive
