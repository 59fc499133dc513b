import Verif.Backup.FileModel
import Verif.Storage.MultiProps
import Verif.Restore.FileProps

/-! # What the backup reports of a file is what the repository has (C48) -/

namespace Verif.Backup.File

open Verif

/-! ## Specification -/

/-- The bytes of a file that belong to the backup: when it can grow only those up to the size in the manifest. -/
def Part (f : BFile) (whole b : Str) : Prop := (f.exact = true ∧ b = whole.take f.sizeOriginal) ∨ (f.exact = false ∧ b = whole)

/-- The file had these bytes when it was copied. -/
def AtCopy (env : Env) (f : BFile) (b : Str) : Prop :=
  (f.control = true ∧ env.control = .ok b) ∨ (f.control = false ∧ ∃ x, env.pg2 f.name = some x ∧ Part f x b)

/-- The file had these bytes when it was checked. -/
def AtCheck (env : Env) (f : BFile) (b : Str) : Prop := ∃ x, env.pg1 f.name = some x ∧ Part f x b

/-- The bytes have the size and the checksum of the manifest. -/
def Matches (env : Env) (f : BFile) (b : Str) : Prop := b.length = f.size ∧ env.sha b = f.checksum

/-- The size and checksum that are reported are those of these bytes. -/
def Reports (env : Env) (r : Report) (b : Str) : Prop := r.copySize = b.length ∧ r.copyChecksum = some (env.sha b)

/-- The bytes are at this place of the repository file. -/
def At (repo : Option Str) (offset : Nat) (out : Str) : Prop :=
  ∃ pre post, repo = some (pre ++ out ++ post) ∧ pre.length = offset

/-- The prior map of the file as it is in the repository. -/
def PriorMap (env : Env) (f : BFile) (map : Option Str) : Prop :=
  match f.prior, map with
  | none, none => True
  | some m, some s => ∃ file, env.maps m.file = some file ∧ s = (file.drop m.offset).take m.size ∧ s.length = m.size
  | _, _ => False

/-- What is true of each report. `repo` is the repository file after the backup. -/
def Honest (env : Env) (repo : Option Str) (f : BFile) (r : Report) : Prop :=
  match r.result with
  | .noOp => f.hasReference = true ∧ ∃ b, (AtCheck env f b ∨ AtCopy env f b) ∧ Matches env f b ∧ Reports env r b
  | .checksum => f.resume = true ∧ r.copySize = f.size ∧ r.copyChecksum = some f.checksum ∧
      (f.delta = true → ∃ b, AtCheck env f b ∧ Matches env f b)
  | .skip => f.ignoreMissing = true ∧ ((f.delta = true ∧ env.pg1 f.name = none) ∨ (f.control = false ∧ env.pg2 f.name = none))
  | .truncate => env.bundleId ≠ 0 ∧ AtCopy env f [] ∧ Reports env r []
  | .copy => ∃ b out, AtCopy env f b ∧ Reports env r b ∧ At repo r.bundleOffset out ∧ r.repoSize = out.length ∧
      (r.repoChecksum = if f.block = true ∨ env.filters = true then some (env.sha out) else none) ∧
      if f.block then ∃ map, PriorMap env f map ∧ env.block f r.bundleOffset map b = .ok (out, r.mapSize)
      else r.mapSize = 0 ∧ out = if env.filters then env.encode f b else b

/-! ## The first loop -/

theorem part_limited (f : BFile) (x : Str) : Part f x (limited f x) := by
  unfold Part limited
  cases f.exact <;> simp

/-- What is known after the first loop. -/
def Checked (env : Env) (f : BFile) (r : Report) : Prop :=
  match r.result with
  | .noOp => f.hasReference = true ∧ ∃ b, AtCheck env f b ∧ Matches env f b ∧ Reports env r b
  | .checksum => f.resume = true ∧ r.copySize = f.size ∧ r.copyChecksum = some f.checksum ∧
      (f.delta = true → ∃ b, AtCheck env f b ∧ Matches env f b)
  | .skip => f.ignoreMissing = true ∧ f.delta = true ∧ env.pg1 f.name = none
  | .truncate => False
  | .copy => True

theorem checkPg_spec {env : Env} {f : BFile} {r : Report} {equal : Bool} (h : checkPg env f = .ok (r, equal)) :
    Checked env f r ∧ r.result ≠ .checksum ∧ (equal = true → ∃ b, AtCheck env f b ∧ Matches env f b) := by
  unfold checkPg at h
  split at h
  · rename_i hd
    split at h
    · rename_i h1
      split at h
      · rename_i h2
        cases h
        exact ⟨⟨h2, hd, h1⟩, by simp, by simp⟩
      · cases h
    · rename_i x h1
      split at h
      · rename_i h2
        have hb : AtCheck env f (limited f x) ∧ Matches env f (limited f x) :=
          ⟨⟨x, h1, part_limited f x⟩, h2.1.symm, h2.2.symm⟩
        split at h
        · rename_i h3
          cases h
          exact ⟨⟨h3, _, hb.1, hb.2, h2.1, congrArg some h2.2⟩, by simp, fun _ => ⟨_, hb⟩⟩
        · cases h
          exact ⟨trivial, by simp [Report.new], fun _ => ⟨_, hb⟩⟩
      · cases h
        exact ⟨trivial, by simp [Report.new], by simp⟩
  · cases h
    exact ⟨trivial, by simp [Report.new], by simp⟩

theorem check_spec {env : Env} {repo repo' : Option Str} {f : BFile} {r : Report} (h : check env repo f = .ok (r, repo')) :
    Checked env f r ∧ (r.result = .checksum → ∃ b, repo = some b ∧ b.length = f.repoSize ∧ env.sha b = f.repoChecksum.getD f.checksum) ∧
    (r.result ≠ .skip → repo' = repo) := by
  unfold check at h
  split at h
  · cases h
  · rename_i r0 equal h0
    obtain ⟨h1, h2, h3⟩ := checkPg_spec h0
    unfold checkRepo at h
    split at h
    · rename_i hr
      split at h
      · rename_i h4
        cases h
        exact ⟨h1, fun h => absurd h h2, fun h => absurd h4 h⟩
      · rename_i h4
        split at h
        · rename_i h5
          split at h
          · cases h
          · rename_i b
            split at h
            · rename_i h6
              cases h
              refine ⟨⟨hr, rfl, rfl, fun hd => ?_⟩, fun _ => ⟨b, rfl, h6.1.symm, h6.2.symm⟩, fun _ => rfl⟩
              rcases h5 with h5 | h5
              · rw [hd] at h5
                cases h5
              · exact h3 h5
            · cases h
              exact ⟨h1, fun h => absurd h h2, fun _ => rfl⟩
        · cases h
          exact ⟨h1, fun h => absurd h h2, fun _ => rfl⟩
    · cases h
      exact ⟨h1, fun h => absurd h h2, fun _ => rfl⟩

theorem checkAll_spec {env : Env} : ∀ {fs : List BFile} {repo repo' : Option Str} {ps : List (BFile × Report)},
    checkAll env repo fs = .ok (ps, repo') → ps.map Prod.fst = fs ∧ ∀ p ∈ ps, Checked env p.1 p.2
  | [], repo, repo', ps, h => by
    cases h
    exact ⟨rfl, by simp⟩
  | f :: fs, repo, repo', ps, h => by
    rw [checkAll] at h
    split at h
    · cases h
    · rename_i r repo1 h1
      split at h
      · cases h
      · rename_i ps1 repo2 h2
        cases h
        obtain ⟨h3, h4⟩ := checkAll_spec h2
        refine ⟨by rw [List.map_cons, h3], fun p hp => ?_⟩
        rcases List.mem_cons.1 hp with rfl | hp
        · exact (check_spec h1).1
        · exact h4 p hp

/-! ## The second loop -/

/-- The bytes that are in the repository where the prior map is. -/
def partOf (env : Env) (m : Prior) : Str := Storage.part ((env.maps m.file).getD []) m.offset (some m.size)

theorem partOf_length (env : Env) (m : Prior) : (partOf env m).length ≤ m.size := by
  simp only [partOf, Storage.part, List.length_take]
  omega

/-- What was read for the maps. -/
theorem copyAll_maps {env : Env} : ∀ {ps : List (BFile × Report)} {out out' : Option Str} {s : Str} {rs : List Report},
    copyAll env out s ps = .ok (out', rs) → ((ps.filterMap mapOf).map Prior.size).sum ≤ s.length
  | [], out, out', s, rs, _ => by simp
  | (f, r) :: ps, out, out', s, rs, h => by
    rw [copyAll] at h
    split at h
    · rename_i hc
      unfold copyOne at h
      cases hs : source env f with
      | error e =>
        rw [hs] at h
        cases h
      | ok src =>
        cases hm : readMap s (mapOf (f, r)) with
        | error e =>
          rw [hs, hm] at h
          cases h
        | ok q =>
          obtain ⟨map, s'⟩ := q
          have hrec : ((ps.filterMap mapOf).map Prior.size).sum ≤ s'.length := by
            rw [hs, hm] at h
            simp only [] at h
            cases src with
            | none =>
              simp only [] at h
              split at h
              · cases h
              · rename_i h1
                exact copyAll_maps h1
            | some b =>
              simp only [] at h
              cases hst : stored env f (out.getD []).length map b with
              | error e =>
                rw [hst] at h
                cases h
              | ok q =>
                rw [hst] at h
                simp only [] at h
                split at h
                · cases h
                · rename_i h1
                  exact copyAll_maps h1
          cases hmo : mapOf (f, r) with
          | none =>
            rw [hmo] at hm
            cases hm
            rw [List.filterMap_cons_none hmo]
            exact hrec
          | some m =>
            rw [hmo, readMap] at hm
            split at hm
            · cases hm
            · rename_i hl
              cases hm
              rw [List.filterMap_cons_some hmo, List.map_cons, List.sum_cons]
              rw [List.length_drop] at hrec
              rw [List.length_take] at hl
              omega
    · rename_i hc
      split at h
      · cases h
      · rename_i h1
        rw [List.filterMap_cons_none (by simp [mapOf, hc])]
        exact copyAll_maps h1

theorem flat_length (env : Env) : ∀ (ms : List Prior), (ms.map Prior.size).sum ≤ (ms.flatMap (partOf env)).length →
    ∀ m ∈ ms, (partOf env m).length = m.size
  | [], _, m, hm => by cases hm
  | a :: ms, h, m, hm => by
    rw [List.map_cons, List.sum_cons, List.flatMap_cons, List.length_append] at h
    have h1 := partOf_length env a
    have h2 : ∀ ms : List Prior, (ms.flatMap (partOf env)).length ≤ (ms.map Prior.size).sum := by
      intro ms
      induction ms with
      | nil => simp
      | cons b bs ih =>
        rw [List.map_cons, List.sum_cons, List.flatMap_cons, List.length_append]
        have := partOf_length env b
        omega
    have h3 := h2 ms
    rcases List.mem_cons.1 hm with rfl | hm
    · omega
    · exact flat_length env ms (by omega) m hm

/-- What the second loop does with a file. -/
def Step (env : Env) (out' : Option Str) (p : BFile × Report) (r : Report) : Prop :=
  if p.2.result = .copy then
    ∃ src, source env p.1 = .ok src ∧
      match src with
      | none => r = { p.2 with result := .skip }
      | some b => ∃ o out n, stored env p.1 o ((mapOf p).map (partOf env)) b = .ok (out, n) ∧ r = (report env p.1 p.2 o b out n).1 ∧
          ((report env p.1 p.2 o b out n).2 = none ∨ At out' o out)
  else r = p.2

theorem report_written (env : Env) (f : BFile) (r : Report) (o : Nat) (b out : Str) (n : Nat) :
    (report env f r o b out n).2 = none ∨ (report env f r o b out n).2 = some out := by
  unfold report
  split
  · exact .inl rfl
  · split
    · exact .inl rfl
    · exact .inr rfl

theorem copyAll_spec {env : Env} : ∀ {ps : List (BFile × Report)} {out out' : Option Str} {rs : List Report},
    (∀ m ∈ ps.filterMap mapOf, (partOf env m).length = m.size) →
    copyAll env out ((ps.filterMap mapOf).flatMap (partOf env)) ps = .ok (out', rs) →
    (∃ more, out' = (match out with | none => out' | some x => some (x ++ more)) ∧ (out'.getD []) = out.getD [] ++ more) ∧
    rs.length = ps.length ∧ ∀ q ∈ ps.zip rs, Step env out' q.1 q.2
  | [], out, out', rs, _, h => by
    cases h
    exact ⟨⟨[], by cases out <;> simp, by simp⟩, rfl, by simp⟩
  | (f, r) :: ps, out, out', rs, hfull, h => by
    rw [copyAll] at h
    split at h
    · rename_i hc
      -- the map that is read
      have hmap : ∃ s', readMap (((f, r) :: ps).filterMap mapOf |>.flatMap (partOf env)) (mapOf (f, r)) =
            .ok ((mapOf (f, r)).map (partOf env), (ps.filterMap mapOf).flatMap (partOf env)) ∧ s' = (ps.filterMap mapOf) ∧
          ∀ m ∈ ps.filterMap mapOf, (partOf env m).length = m.size := by
        refine ⟨_, ?_, rfl, ?_⟩
        · cases hmo : mapOf (f, r) with
          | none => rw [List.filterMap_cons_none hmo]; rfl
          | some m =>
            rw [List.filterMap_cons_some hmo, List.flatMap_cons]
            have hl := hfull m (by rw [List.filterMap_cons_some hmo]; exact .head _)
            rw [readMap, List.take_append_of_le_length (by omega), List.take_of_length_le (by omega), if_neg (by simp [hl]),
              List.drop_append_of_le_length (by omega), List.drop_of_length_le (by omega), List.nil_append]
            rfl
        · intro m hm
          refine hfull m ?_
          cases hmo : mapOf (f, r) with
          | none => rw [List.filterMap_cons_none hmo]; exact hm
          | some m' => rw [List.filterMap_cons_some hmo]; exact .tail _ hm
      obtain ⟨_, hmap, _, hfull'⟩ := hmap
      unfold copyOne at h
      rw [hmap] at h
      cases hs : source env f with
      | error e =>
        rw [hs] at h
        cases h
      | ok src =>
        rw [hs] at h
        simp only [] at h
        cases src with
        | none =>
          simp only [] at h
          split at h
          · cases h
          · rename_i o1 rs1 h1
            cases h
            obtain ⟨h2, h3, h4⟩ := copyAll_spec hfull' h1
            refine ⟨h2, by simp [h3], fun q hq => ?_⟩
            rw [List.zip_cons_cons] at hq
            rcases List.mem_cons.1 hq with rfl | hq
            · unfold Step
              rw [if_pos hc]
              exact ⟨none, hs, rfl⟩
            · exact h4 q hq
        | some b =>
          simp only [] at h
          cases hst : stored env f (out.getD []).length ((mapOf (f, r)).map (partOf env)) b with
          | error e =>
            rw [hst] at h
            cases h
          | ok q =>
            obtain ⟨w, n⟩ := q
            rw [hst] at h
            simp only [] at h
            split at h
            · cases h
            · rename_i o1 rs1 h1
              cases h
              obtain ⟨⟨more, h2, h2'⟩, h3, h4⟩ := copyAll_spec hfull' h1
              have hstep : ∀ q ∈ ((f, r) :: ps).zip ((report env f r (out.getD []).length b w n).1 :: rs1), q ∈ ps.zip rs1 ∨
                  q = ((f, r), (report env f r (out.getD []).length b w n).1) := by
                intro q hq
                rw [List.zip_cons_cons] at hq
                rcases List.mem_cons.1 hq with rfl | hq
                · exact .inr rfl
                · exact .inl hq
              rcases report_written env f r (out.getD []).length b w n with hw | hw
              · rw [hw] at h2 h2'
                refine ⟨⟨more, h2, h2'⟩, by simp [h3], fun q hq => ?_⟩
                rcases hstep q hq with hq | rfl
                · exact h4 q hq
                · unfold Step
                  rw [if_pos hc]
                  exact ⟨some b, hs, _, w, n, hst, rfl, .inl hw⟩
              · rw [hw] at h2 h2'
                simp only [Option.getD_some] at h2 h2'
                refine ⟨⟨w ++ more, ?_, by rw [h2', List.append_assoc]⟩, by simp [h3], fun q hq => ?_⟩
                · cases out with
                  | none => rfl
                  | some x => simpa using h2
                · rcases hstep q hq with hq | rfl
                  · exact h4 q hq
                  · unfold Step
                    rw [if_pos hc]
                    exact ⟨some b, hs, _, w, n, hst, rfl, .inr ⟨out.getD [], more, h2, rfl⟩⟩
    · rename_i hc
      have hno : mapOf (f, r) = none := by simp [mapOf, hc]
      rw [List.filterMap_cons_none hno] at h hfull
      split at h
      · cases h
      · rename_i h1
        cases h
        obtain ⟨h2, h3, h4⟩ := copyAll_spec hfull h1
        refine ⟨h2, by simp [h3], fun q hq => ?_⟩
        rw [List.zip_cons_cons] at hq
        rcases List.mem_cons.1 hq with rfl | hq
        · unfold Step
          rw [if_neg hc]
        · exact h4 q hq

theorem source_spec {env : Env} {f : BFile} {src : Option Str} (h : source env f = .ok src) :
    match src with
    | none => f.ignoreMissing = true ∧ f.control = false ∧ env.pg2 f.name = none
    | some b => AtCopy env f b := by
  unfold source at h
  split at h
  · rename_i hc
    split at h
    · cases h
    · rename_i b hb
      cases h
      exact .inl ⟨hc, hb⟩
  · rename_i hc
    split at h
    · rename_i h1
      split at h
      · rename_i h2
        cases h
        exact ⟨h2, by simpa using hc, h1⟩
      · cases h
    · rename_i x h1
      cases h
      exact .inr ⟨by simpa using hc, x, h1, part_limited f x⟩

/-- The parts of `backupFile`. -/
theorem backup_parts {env : Env} {fs : List BFile} {repo : Option Str} {rs : List Report} (h : backupFile env fs = .ok (repo, rs)) :
    ∃ ps repo1 out, checkAll env env.repo fs = .ok (ps, repo1) ∧ repo = out.or repo1 ∧
      (∀ m ∈ ps.filterMap mapOf, (env.maps m.file).isSome = true ∧ (partOf env m).length = m.size) ∧
      copyAll env none ((ps.filterMap mapOf).flatMap (partOf env)) ps = .ok (out, rs) ∧
      rs.length = ps.length ∧ ∀ q ∈ ps.zip rs, Step env out q.1 q.2 := by
  unfold backupFile at h
  split at h
  · cases h
  · rename_i ps repo1 h1
    cases hm : mapStream env ps with
    | error e =>
      rw [hm] at h
      cases h
    | ok maps =>
      rw [hm] at h
      simp only [] at h
      unfold mapStream at hm
      split at hm
      · cases hm
      · split at hm
        · cases hm
        · rename_i hany
          cases hm
          split at h
          · cases h
          · rename_i out rs1 h2
            cases h
            have hfull := flat_length env (ps.filterMap mapOf) (copyAll_maps h2)
            obtain ⟨_, h3, h4⟩ := copyAll_spec hfull h2
            refine ⟨ps, repo1, out, h1, rfl, fun m hm => ⟨?_, hfull m hm⟩, h2, h3, h4⟩
            simp only [List.any_eq_true, not_exists, not_and] at hany
            have := hany m hm
            simpa [Option.isSome_iff_ne_none] using this

/-! ## Theorems -/

/-- There is a report for each file. -/
theorem c48_length {env : Env} {fs : List BFile} {repo : Option Str} {rs : List Report} (h : backupFile env fs = .ok (repo, rs)) :
    rs.length = fs.length := by
  obtain ⟨ps, repo1, out, h1, _, _, _, h3, _⟩ := backup_parts h
  rw [h3, ← (checkAll_spec h1).1, List.length_map]

/-- Each report is true, whatever the files have when they are checked and when they are copied. -/
theorem c48_report {env : Env} {fs : List BFile} {repo : Option Str} {rs : List Report} (h : backupFile env fs = .ok (repo, rs)) :
    ∀ q ∈ fs.zip rs, Honest env repo q.1 q.2 := by
  obtain ⟨ps, repo1, out, h1, hrepo, hmaps, _, h3, h4⟩ := backup_parts h
  obtain ⟨h5, h6⟩ := checkAll_spec h1
  intro q hq
  obtain ⟨i, hi, hqi⟩ := List.getElem_of_mem hq
  rw [List.getElem_zip] at hqi
  rw [List.length_zip] at hi
  subst h5
  rw [List.length_map] at hi
  have hp : (ps[i], rs[i]) ∈ ps.zip rs := by
    rw [List.mem_iff_getElem]
    exact ⟨i, by rw [List.length_zip]; omega, by rw [List.getElem_zip]⟩
  have hck := h6 ps[i] (List.getElem_mem _)
  have hst := h4 _ hp
  rw [List.getElem_map] at hqi
  generalize hpi : ps[i] = p at *
  generalize rs[i] = r at *
  obtain ⟨f, r0⟩ := p
  cases hqi
  have hpm : (f, r0) ∈ ps := by rw [← hpi]; exact List.getElem_mem _
  clear hpi hp hi
  simp only [] at hck hst ⊢
  unfold Step at hst
  simp only [] at hst
  split at hst
  · rename_i hc
    obtain ⟨src, hs, hst⟩ := hst
    have hsrc := source_spec hs
    cases src with
    | none =>
      simp only [] at hst hsrc
      subst hst
      exact ⟨hsrc.1, .inr hsrc.2⟩
    | some b =>
      simp only [] at hst hsrc
      obtain ⟨o, w, n, hsto, hr, hw⟩ := hst
      unfold report at hr hw
      split at hr
      · rename_i hcond
        rw [if_pos hcond] at hw
        subst hr
        obtain ⟨_, hb1, rfl⟩ := hcond
        exact ⟨hb1, hsrc, rfl, rfl⟩
      · rename_i hcond
        rw [if_neg hcond] at hw
        split at hr
        · rename_i hcond2
          subst hr
          exact ⟨hcond2.2.1, b, .inr hsrc, ⟨hcond2.2.2.1, hcond2.2.2.2.symm⟩, rfl, congrArg some hcond2.2.2.2⟩
        · rename_i hcond2
          rw [if_neg hcond2] at hw
          subst hr
          rcases hw with hw | hw
          · cases hw
          · unfold Honest
            simp only [hc]
            obtain ⟨pre, post, ho, hpre⟩ := hw
            refine ⟨b, w, hsrc, ⟨rfl, rfl⟩, ⟨pre, post, ?_, hpre⟩, rfl, rfl, ?_⟩
            · rw [hrepo, ho]
              rfl
            · unfold stored at hsto
              cases hb : f.block with
              | false =>
                rw [hb] at hsto
                simp only [Bool.false_eq_true, if_false] at hsto
                cases hsto
                exact ⟨rfl, rfl⟩
              | true =>
                rw [hb] at hsto
                simp only [if_true] at hsto
                have hmo : mapOf (f, r0) = f.prior := by simp [mapOf, hc, hb]
                rw [hmo] at hsto
                simp only [if_true]
                refine ⟨_, ?_, hsto⟩
                unfold PriorMap
                cases hpr : f.prior with
                | none => trivial
                | some m =>
                  obtain ⟨hm1, hm2⟩ := hmaps m (List.mem_filterMap.2 ⟨_, hpm, by rw [hmo, hpr]⟩)
                  simp only [Option.map_some]
                  cases hfile : env.maps m.file with
                  | none =>
                    rw [hfile] at hm1
                    cases hm1
                  | some file =>
                    refine ⟨file, rfl, ?_, hm2⟩
                    simp [partOf, Storage.part, hfile]
  · rename_i hc
    subst hst
    unfold Checked at hck
    unfold Honest
    cases hres : r.result with
    | noOp =>
      rw [hres] at hck
      obtain ⟨h7, b, h8, h9⟩ := hck
      exact ⟨h7, b, .inl h8, h9⟩
    | checksum =>
      rw [hres] at hck
      exact hck
    | skip =>
      rw [hres] at hck
      exact ⟨hck.1, .inl hck.2⟩
    | truncate =>
      rw [hres] at hck
      exact hck.elim
    | copy => exact absurd hres hc

/-- A resumed file (which is always the only one of the repository file) that is not copied again is there with the size and checksum of the
manifest, and it stays. -/
theorem c48_resumed {env : Env} {f : BFile} {repo : Option Str} {r : Report} (h : backupFile env [f] = .ok (repo, [r]))
    (hr : r.result = .checksum) :
    repo = env.repo ∧ ∃ b, repo = some b ∧ b.length = f.repoSize ∧ env.sha b = f.repoChecksum.getD f.checksum := by
  obtain ⟨ps, repo1, out, h1, hrepo, _, h2, h3, h4⟩ := backup_parts h
  rw [checkAll] at h1
  split at h1
  · cases h1
  · rename_i r0 repo0 h0
    rw [checkAll] at h1
    cases h1
    obtain ⟨hck, hc1, hc2⟩ := check_spec h0
    have hst := h4 ((f, r0), r) (by simp)
    unfold Step at hst
    dsimp only at hst
    by_cases hc : r0.result = .copy
    · rw [if_pos hc] at hst
      obtain ⟨src, _, hst⟩ := hst
      cases src with
      | none =>
        subst hst
        cases hr
      | some b =>
        obtain ⟨o, w, n, _, rfl, _⟩ := hst
        exfalso
        unfold report at hr
        split at hr
        · cases hr
        · split at hr
          · cases hr
          · rw [show r0.result = .checksum from hr] at hc
            cases hc
    · rw [if_neg hc] at hst
      subst hst
      have hout : out = none := by
        rw [copyAll, if_neg hc] at h2
        simp only [copyAll] at h2
        cases h2
        rfl
      rw [hrepo, hout, hc2 (by rw [show r.result = Result.checksum from hr]; simp)]
      exact ⟨rfl, hc1 hr⟩

/-! ## The repository file -/

/-- The files that were copied follow each other from `o` to `e`. -/
def Packed : Nat → List Report → Nat → Prop
  | o, [], e => o = e
  | o, r :: rs, e => if r.result = .copy then r.bundleOffset = o ∧ Packed (o + r.repoSize) rs e else Packed o rs e

theorem copyAll_packed {env : Env} : ∀ {ps : List (BFile × Report)} {out out' : Option Str} {s : Str} {rs : List Report},
    copyAll env out s ps = .ok (out', rs) → Packed (out.getD []).length rs (out'.getD []).length ∧
      (out'.isSome = true ↔ out.isSome = true ∨ ∃ r ∈ rs, r.result = .copy)
  | [], out, out', s, rs, h => by
    cases h
    exact ⟨rfl, by simp⟩
  | (f, r) :: ps, out, out', s, rs, h => by
    rw [copyAll] at h
    split at h
    · rename_i hc
      unfold copyOne at h
      cases hs : source env f with
      | error e =>
        rw [hs] at h
        cases h
      | ok src =>
        cases hm : readMap s (mapOf (f, r)) with
        | error e =>
          rw [hs, hm] at h
          cases h
        | ok q =>
          obtain ⟨map, s'⟩ := q
          rw [hs, hm] at h
          simp only [] at h
          cases src with
          | none =>
            simp only [] at h
            split at h
            · cases h
            · rename_i h1
              cases h
              obtain ⟨h2, h3⟩ := copyAll_packed h1
              refine ⟨?_, by rw [h3]; simp⟩
              rw [Packed, if_neg (by simp)]
              exact h2
          | some b =>
            simp only [] at h
            cases hst : stored env f (out.getD []).length map b with
            | error e =>
              rw [hst] at h
              cases h
            | ok q =>
              obtain ⟨w, n⟩ := q
              rw [hst] at h
              simp only [] at h
              split at h
              · cases h
              · rename_i h1
                cases h
                obtain ⟨h2, h3⟩ := copyAll_packed h1
                unfold report at h2 h3 ⊢
                split
                · rename_i hcond
                  rw [if_pos hcond] at h2 h3
                  refine ⟨?_, by rw [h3]; simp⟩
                  rw [Packed, if_neg (by simp)]
                  exact h2
                · rename_i hcond
                  rw [if_neg hcond] at h2 h3
                  split
                  · rename_i hcond2
                    rw [if_pos hcond2] at h2 h3
                    refine ⟨?_, by rw [h3]; simp⟩
                    rw [Packed, if_neg (by simp)]
                    exact h2
                  · rename_i hcond2
                    rw [if_neg hcond2] at h2 h3
                    refine ⟨?_, by rw [h3]; simp [hc]⟩
                    rw [Packed, if_pos hc]
                    refine ⟨rfl, ?_⟩
                    simpa using h2
    · rename_i hc
      split at h
      · cases h
      · rename_i h1
        cases h
        obtain ⟨h2, h3⟩ := copyAll_packed h1
        refine ⟨?_, by rw [h3]; simp [hc]⟩
        rw [Packed, if_neg hc]
        exact h2

theorem checkAll_repo {env : Env} : ∀ {fs : List BFile} {repo repo' : Option Str} {ps : List (BFile × Report)},
    checkAll env repo fs = .ok (ps, repo') → repo' = repo ∨ (repo' = none ∧ ∃ p ∈ ps, p.1.resume = true ∧ p.2.result = .skip)
  | [], repo, repo', ps, h => by
    cases h
    exact .inl rfl
  | f :: fs, repo, repo', ps, h => by
    rw [checkAll] at h
    split at h
    · cases h
    · rename_i r repo1 h1
      split at h
      · cases h
      · rename_i ps1 repo2 h2
        cases h
        have h5 : repo1 = repo ∨ (repo1 = none ∧ f.resume = true ∧ r.result = .skip) := by
          unfold check checkRepo at h1
          split at h1
          · cases h1
          · split at h1
            · rename_i hr
              split at h1
              · rename_i hs
                cases h1
                exact .inr ⟨rfl, hr, hs⟩
              · split at h1
                · split at h1
                  · cases h1
                  · split at h1 <;> (cases h1; exact .inl rfl)
                · cases h1
                  exact .inl rfl
            · cases h1
              exact .inl rfl
        rcases checkAll_repo h2 with h3 | ⟨h3, p, hp, h4⟩
        · rcases h5 with h5 | ⟨h5, h6⟩
          · exact .inl (h3.trans h5)
          · exact .inr ⟨h3.trans h5, _, .head _, h6⟩
        · exact .inr ⟨h3, p, .tail _ hp, h4⟩

/-- The repository file has the files that were copied, one after the other and nothing else. When no file was copied it is not touched, except
that what was there for a file that is gone may be removed when resuming. -/
theorem c48_bundle {env : Env} {fs : List BFile} {repo : Option Str} {rs : List Report} (h : backupFile env fs = .ok (repo, rs)) :
    ((∃ r ∈ rs, r.result = .copy) → ∃ whole, repo = some whole ∧ Packed 0 rs whole.length) ∧
    ((∀ r ∈ rs, r.result ≠ .copy) → repo = env.repo ∨ (repo = none ∧ ∃ f ∈ fs, f.resume = true ∧ env.pg1 f.name = none)) := by
  obtain ⟨ps, repo1, out, h1, hrepo, _, h2, _⟩ := backup_parts h
  obtain ⟨h3, h4⟩ := copyAll_packed h2
  simp only [Option.isSome_none, Bool.false_eq_true, false_or, Option.getD_none, List.length_nil] at h3 h4
  obtain ⟨h5, h6⟩ := checkAll_spec h1
  constructor
  · intro hc
    have := h4.2 hc
    cases out with
    | none => cases this
    | some whole => exact ⟨whole, by rw [hrepo]; rfl, h3⟩
  · intro hc
    have hout : out = none := by
      cases out with
      | none => rfl
      | some whole =>
        obtain ⟨r, hr, hr2⟩ := h4.1 rfl
        exact absurd hr2 (hc r hr)
    rw [hrepo, hout]
    show repo1 = _ ∨ (repo1 = none ∧ _)
    rcases checkAll_repo h1 with h7 | ⟨h7, p, hp, h8, h9⟩
    · exact .inl h7
    · refine .inr ⟨h7, p.1, h5 ▸ List.mem_map.2 ⟨p, hp, rfl⟩, h8, ?_⟩
      have := h6 p hp
      unfold Checked at this
      rw [h9] at this
      exact this.2.2

/-! ## What is stored can be restored -/

/-- A file that was copied can be restored from the place that is reported, when the filters of restore undo those of backup. -/
theorem c48_restorable {env : Env} {fs : List BFile} {repo : Option Str} {rs : List Report} (h : backupFile env fs = .ok (repo, rs))
    {f : BFile} {r : Report} (hq : (f, r) ∈ fs.zip rs) (hr : r.result = .copy) (hb : f.block = false) (re : Restore.File.Env)
    (hre : re.repo = repo ∧ re.sha = env.sha ∧ ∀ b, re.decode (if env.filters then env.encode f b else b) = .ok b)
    (d : Restore.File.Disk) (g : Restore.File.RFile)
    (hg : g.size = r.copySize ∧ some g.checksum = r.copyChecksum ∧ g.mapSize = 0 ∧ g.offset = r.bundleOffset ∧
      (g.limit = some r.repoSize ∨ (g.limit = none ∧ fs = [f]))) :
    ∃ b, AtCopy env f b ∧ g.size = b.length ∧ g.checksum = re.sha b ∧ Restore.File.Holds re d g b := by
  have hh := c48_report h _ hq
  have hbun := c48_bundle h
  unfold Honest at hh
  simp only [hr] at hh
  obtain ⟨b, out, h1, ⟨h2, h3⟩, ⟨pre, post, h4, h5⟩, h6, _, h7⟩ := hh
  rw [hb] at h7
  simp only [Bool.false_eq_true, if_false] at h7
  obtain ⟨g1, g2, g3, g4, g5⟩ := hg
  rw [h3] at g2
  obtain ⟨re1, re2, re3⟩ := hre
  refine ⟨b, h1, by rw [g1, h2], by rw [re2]; exact Option.some.inj g2, _, by rw [re1, h4], ?_, ?_⟩
  · intro l hl
    rcases g5 with g5 | ⟨g5, _⟩
    · rw [g5] at hl
      cases hl
      rw [g4, ← h5, h6]
      simp only [List.length_append]
      omega
    · rw [g5] at hl
      cases hl
  · rw [if_pos g3]
    have hpart : Storage.part (pre ++ out ++ post) g.offset g.limit = out := by
      rcases g5 with g5 | ⟨g5, g6⟩
      · rw [g5, g4, ← h5, h6]
        simp [Storage.part]
      · rw [g5, g4]
        show List.drop _ _ = out
        subst g6
        have hlen := c48_length h
        cases rs with
        | nil => cases hlen
        | cons r1 rs1 =>
          cases rs1 with
          | cons _ _ => cases hlen
          | nil =>
            have hrr : r = r1 := by
              have hx := hq
              simp at hx
              exact hx
            subst hrr
            obtain ⟨whole, hw, hp⟩ := hbun.1 ⟨r, .head _, hr⟩
            rw [h4] at hw
            cases hw
            rw [Packed, if_pos hr] at hp
            obtain ⟨hp1, hp2⟩ := hp
            rw [Packed] at hp2
            simp only [List.length_append] at hp2
            have e1 : pre = [] := List.length_eq_zero_iff.1 (by omega)
            have e2 : post = [] := List.length_eq_zero_iff.1 (by omega)
            rw [hp1, e1, e2]
            simp
    rw [hpart, h7.2]
    exact re3 b

/-- The block incremental filter of the model of block incremental (`Verif.Block`), with the prior map as it is stored. -/
def blockFilter (fmt : Block.Format) (superSize reference bundleId offset : Nat) (map : Option Str) (b : Str) : Res (Str × Nat) :=
  match map with
  | none =>
    .ok ((Block.blockIncr fmt ⟨superSize, reference, bundleId, offset⟩ none b).out,
      (Block.blockIncr fmt ⟨superSize, reference, bundleId, offset⟩ none b).mapSize)
  | some bytes =>
    match fmt.codec.unpackMap bytes with
    | none => .error .crypto
    | some bytes =>
      match Block.mapRead fmt.blockSize fmt.checksumSize bytes with
      | .error e => .error e
      | .ok items =>
        .ok ((Block.blockIncr fmt ⟨superSize, reference, bundleId, offset⟩ (some items) b).out,
          (Block.blockIncr fmt ⟨superSize, reference, bundleId, offset⟩ (some items) b).mapSize)

/-- What the manifest has on a file with a prior map: where the map is, and size and checksum of what was stored then. -/
def PriorEntry (env : Env) (fmt : Block.Format) (R : Block.Repo) (reference : Nat) (f : BFile) (content0 : Str) : Prop :=
  ∃ m e, f.prior = some m ∧ Block.Backups fmt env.sha R e content0 ∧ e.reference < reference ∧ f.hasReference = true ∧
    f.size = content0.length ∧ f.checksum = env.sha content0 ∧ env.maps m.file = some (R e.reference e.bundleId) ∧
    m.offset = e.bundleOffset + e.sizeRepo - e.mapSize ∧ m.size = e.mapSize

/-- A file that was copied with block incremental is one more backup in the sense of `Verif.Block` (so c15_restore and c47_block apply to it),
unless it was empty. In particular there is a map. -/
theorem c48_block {env : Env} {fs : List BFile} {repo : Option Str} {rs : List Report} (h : backupFile env fs = .ok (repo, rs))
    {f : BFile} {r : Report} (hq : (f, r) ∈ fs.zip rs) (hr : r.result = .copy) (hb : f.block = true) {fmt : Block.Format}
    {superSize reference : Nat} (hfilter : env.block f = blockFilter fmt superSize reference env.bundleId) (hf : fmt.Ok)
    (hpm : ∀ r d, d ≠ [] → fmt.codec.packMap r d ≠ []) (hbuf : 0 < env.bufferSize) {R : Block.Repo}
    (hR : some (R reference env.bundleId) = repo)
    (hfits : ∀ b out, AtCopy env f b → out.length = r.repoSize → Block.Fits fmt ⟨superSize, reference, env.bundleId, r.bundleOffset⟩ b out)
    (hprior : f.prior = none ∨ ∃ content0, PriorEntry env fmt R reference f content0 ∧
      ∀ b, AtCopy env f b → Block.NoCollision fmt content0 b) :
    ∃ b, AtCopy env f b ∧ Reports env r b ∧ r.mapSize ≠ 0 ∧ Block.Backups fmt env.sha R
      ⟨reference, env.bundleId, r.bundleOffset, r.repoSize, r.mapSize, r.copySize, env.sha b⟩ b := by
  have hh := c48_report h _ hq
  -- the state of the second loop for this file
  obtain ⟨ps, repo1, out, h1, hrepo, hmaps, _, h3, h4⟩ := backup_parts h
  have hnoop : ∃ r0 b o w n map, AtCopy env f b ∧ env.block f o map b = .ok (w, n) ∧ r = (report env f r0 o b w n).1 ∧
      PriorMap env f map ∧ At repo o w := by
    obtain ⟨h5, h6⟩ := checkAll_spec h1
    obtain ⟨i, hi, hqi⟩ := List.getElem_of_mem hq
    rw [List.getElem_zip] at hqi
    rw [List.length_zip] at hi
    subst h5
    rw [List.length_map] at hi
    have hp : (ps[i], rs[i]) ∈ ps.zip rs := by
      rw [List.mem_iff_getElem]
      exact ⟨i, by rw [List.length_zip]; omega, by rw [List.getElem_zip]⟩
    have hst := h4 _ hp
    rw [List.getElem_map] at hqi
    have hpm : ps[i] ∈ ps := List.getElem_mem _
    generalize ps[i] = p at *
    generalize rs[i] = r1 at *
    obtain ⟨f1, r0⟩ := p
    obtain ⟨hf1, hr1⟩ := Prod.mk.inj hqi
    dsimp only at hf1
    subst hr1
    have hf2 : f = f1 := hf1.symm
    subst hf2
    unfold Step at hst
    dsimp only at hst
    split at hst
    · rename_i hc
      obtain ⟨src, hs, hst⟩ := hst
      have hsrc := source_spec hs
      cases src with
      | none =>
        dsimp only at hst
        subst hst
        cases hr
      | some b =>
        dsimp only at hst hsrc
        obtain ⟨o, w, n, hsto, hrep, hw⟩ := hst
        have hmo : mapOf (f, r0) = f.prior := by simp [mapOf, hc, hb]
        rw [hmo] at hsto
        unfold stored at hsto
        rw [hb] at hsto
        simp only [if_true] at hsto
        refine ⟨r0, b, o, w, n, _, hsrc, hsto, hrep, ?_, ?_⟩
        · unfold PriorMap
          cases hpr : f.prior with
          | none => trivial
          | some m =>
            obtain ⟨hm1, hm2⟩ := hmaps m (List.mem_filterMap.2 ⟨_, hpm, by rw [hmo, hpr]⟩)
            simp only [Option.map_some]
            cases hfile : env.maps m.file with
            | none =>
              rw [hfile] at hm1
              cases hm1
            | some file =>
              refine ⟨file, rfl, ?_, hm2⟩
              simp [partOf, Storage.part, hfile]
        · rcases hw with hw | ⟨pre, post, ho, hpre⟩
          · exfalso
            subst hrep
            unfold report at hw hr
            split at hw
            · rename_i hcond
              rw [if_pos hcond] at hr
              cases hr
            · rename_i hcond
              rw [if_neg hcond] at hr
              split at hw
              · rename_i hcond2
                rw [if_pos hcond2] at hr
                cases hr
              · cases hw
          · refine ⟨pre, post, ?_, hpre⟩
            rw [hrepo, ho]
            rfl
    · rename_i hc
      subst hst
      exact absurd hr hc
  obtain ⟨r0, b, o, w, n, map, hsrc, hblk, hrep, hpmap, pre, post, hat, hpre⟩ := hnoop
  refine ⟨b, hsrc, ?_⟩
  -- it is not one of the results without a copy
  have hrc : ¬ (eofFirst env f w = true ∧ f.hasReference = true ∧ b.length = f.size ∧ f.checksum = env.sha b) ∧
      r.bundleOffset = o ∧ r.repoSize = w.length ∧ r.mapSize = n ∧ Reports env r b := by
    rw [hrep] at hr
    unfold report at hr
    split at hr
    · cases hr
    · rename_i hcond
      split at hr
      · cases hr
      · rename_i hcond2
        have hrep2 := hrep
        unfold report at hrep2
        rw [if_neg hcond, if_neg hcond2] at hrep2
        subst hrep2
        exact ⟨hcond2, rfl, rfl, rfl, rfl, rfl⟩
  obtain ⟨hneq, rfl, hrs, rfl, hreps⟩ := hrc
  refine ⟨hreps, ?_⟩
  have hin : Block.InRepo R ⟨superSize, reference, env.bundleId, r.bundleOffset⟩ w := by
    refine ⟨pre, post, ?_, hpre⟩
    rw [hat] at hR
    exact Option.some.inj hR
  rw [hfilter] at hblk
  rcases hprior with hnone | ⟨content0, ⟨m, e, p1, p2, p3, p4, p5, p6, p7, p8, p9⟩, hcol⟩
  · cases map with
    | some _ => simp [PriorMap, hnone] at hpmap
    | none =>
      unfold blockFilter at hblk
      simp only [Except.ok.injEq, Prod.mk.injEq] at hblk
      obtain ⟨hw, hn⟩ := hblk
      have hfit := hfits b w hsrc hrs.symm
      refine ⟨by rw [← hn]; exact Block.full_mapSize hf hfit.notEmpty hpm, ?_⟩
      have := Block.Backups.full (sha := env.sha) (repo := R) ⟨superSize, reference, env.bundleId, r.bundleOffset⟩ b
        (hfits b _ hsrc (by rw [hw, hrs])) (by rw [hw]; exact hin)
      unfold Block.entryOf at this
      rw [hw, hn, ← hrs, ← hreps.1] at this
      exact this
  · cases map with
    | none => simp [PriorMap, p1] at hpmap
    | some s =>
      simp only [PriorMap, p1] at hpmap
      obtain ⟨file, q1, q2, _⟩ := hpmap
      rw [p7] at q1
      cases q1
      obtain ⟨⟨items, l1, l2⟩, -⟩ := p2.good hf hpm
      have hload := l1
      unfold Block.loadMap Block.slice at l1
      rw [← p8, ← p9, ← q2] at l1
      unfold blockFilter at hblk
      simp only [] at hblk
      cases hun : fmt.codec.unpackMap s with
      | none =>
        rw [hun] at l1
        cases l1
      | some bytes =>
        rw [hun] at l1 hblk
        simp only [] at l1 hblk
        rw [l1] at hblk
        simp only [Except.ok.injEq, Prod.mk.injEq] at hblk
        obtain ⟨hw, hn⟩ := hblk
        have hms : (Block.blockIncr fmt ⟨superSize, reference, env.bundleId, r.bundleOffset⟩ (some items) b).mapSize ≠ 0 := by
          intro hz
          have heq := Block.unchanged_of_mapSize fmt env.sha R e content0 b items _ hf hpm p2 hload (hcol b hsrc) hz
          have hout := ((Block.c15_unchanged fmt env.sha R e content0 b items
            ⟨superSize, reference, env.bundleId, r.bundleOffset⟩ hf hpm p2 hload (hcol b hsrc)).2 heq).1
          rw [hw] at hout
          refine hneq ⟨?_, p4, by rw [heq, p5], by rw [heq, p6]⟩
          unfold eofFirst
          rw [hout]
          simp [hbuf]
        refine ⟨by rw [← hn]; exact hms, ?_⟩
        have := Block.Backups.incr (sha := env.sha) (repo := R) ⟨superSize, reference, env.bundleId, r.bundleOffset⟩ e content0 b items p2
          hload p3 (hcol b hsrc) (hfits b _ hsrc (by rw [hw, hrs])) (by rw [hw]; exact hin) hms
        unfold Block.entryOf at this
        rw [hw, hn, ← hrs, ← hreps.1] at this
        exact this

/-! ## An empty map -/

/-- When a file with a prior map has become empty and is not bundled a map without blocks is stored, which no later backup can read: the next one
that finds the file at least as large as a block stops with an error. -/
theorem c48_empty_map (fmt : Block.Format) (p p' : Block.Param) (items : List Block.Item) (hi : items ≠ []) (hf : fmt.Ok)
    (hpm : ∀ r d, d ≠ [] → fmt.codec.packMap r d ≠ []) (b : Str) :
    (Block.blockIncr fmt p (some items) []).mapSize ≠ 0 ∧
    (Block.blockIncr fmt p (some items) []).mapSize = (Block.blockIncr fmt p (some items) []).out.length ∧
    blockFilter fmt p'.superBlockSize p'.reference p'.bundleId p'.bundleOffset (some (Block.blockIncr fmt p (some items) []).out) b =
      .error .fileRead := by
  have hb : Block.blockIncr fmt p (some items) [] =
      ⟨fmt.codec.packMap p.reference [0], (fmt.codec.packMap p.reference [0]).length, []⟩ := by
    have hl : 0 < items.length := List.length_pos_iff.2 hi
    simp [Block.blockIncr, Block.blocks, Block.flush, Block.State.new, Block.finish, hl]
    have hw : Block.mapWrite fmt.blockSize [] = [0] := by
      have h0 : Block.vint 0 = [0] := by decide +kernel
      simp [Block.mapWrite, Block.groupKey, Block.writeRefs, h0]
    rw [hw]
    exact ⟨rfl, rfl⟩
  rw [hb]
  refine ⟨?_, rfl, ?_⟩
  · intro h
    exact hpm p.reference [0] (by simp) (List.length_eq_zero_iff.1 h)
  · unfold blockFilter
    simp only []
    rw [hf.codec.unpackMap]
    simp only []
    rfl

/-! ## No copy without reason and no failure without reason -/

theorem step_of {env : Env} {fs : List BFile} {repo : Option Str} {rs : List Report} (h : backupFile env fs = .ok (repo, rs))
    {f : BFile} {r : Report} (hq : (f, r) ∈ fs.zip rs) :
    ∃ r0 repo0 repo1 out, check env repo0 f = .ok (r0, repo1) ∧ Step env out (f, r0) r := by
  obtain ⟨ps, repo1, out, h1, _, _, _, h3, h4⟩ := backup_parts h
  have hall : ∀ {fs : List BFile} {repo repo' : Option Str} {ps : List (BFile × Report)}, checkAll env repo fs = .ok (ps, repo') →
      ∀ p ∈ ps, ∃ r1 r2, check env r1 p.1 = .ok (p.2, r2) := by
    intro fs
    induction fs with
    | nil =>
      intro repo repo' ps h p hp
      cases h
      cases hp
    | cons f fs ih =>
      intro repo repo' ps h p hp
      rw [checkAll] at h
      split at h
      · cases h
      · rename_i h1
        split at h
        · cases h
        · rename_i h2
          cases h
          rcases List.mem_cons.1 hp with rfl | hp
          · exact ⟨_, _, h1⟩
          · exact ih h2 p hp
  have h5 := (checkAll_spec h1).1
  obtain ⟨i, hi, hqi⟩ := List.getElem_of_mem hq
  rw [List.getElem_zip] at hqi
  rw [List.length_zip] at hi
  subst h5
  rw [List.length_map] at hi
  have hp : (ps[i], rs[i]) ∈ ps.zip rs := by
    rw [List.mem_iff_getElem]
    exact ⟨i, by rw [List.length_zip]; omega, by rw [List.getElem_zip]⟩
  have hst := h4 _ hp
  rw [List.getElem_map] at hqi
  obtain ⟨r1, r2, h6⟩ := hall h1 ps[i] (List.getElem_mem _)
  generalize ps[i] = p at *
  generalize rs[i] = r' at *
  obtain ⟨f1, r0⟩ := p
  obtain ⟨hf1, hr1⟩ := Prod.mk.inj hqi
  have hf2 : f = f1 := hf1.symm
  subst hr1
  subst hf2
  exact ⟨r0, r1, r2, out, h6, hst⟩

theorem limited_part {f : BFile} {x b : Str} (h : Part f x b) : limited f x = b := by
  unfold limited
  rcases h with ⟨h1, h2⟩ | ⟨h1, h2⟩
  · rw [if_pos h1, h2]
  · rw [if_neg (by simp [h1]), h2]

/-- A file that is in a prior backup and is found to be the same is not copied. -/
theorem c48_unchanged {env : Env} {fs : List BFile} {repo : Option Str} {rs : List Report} (h : backupFile env fs = .ok (repo, rs))
    {f : BFile} {r : Report} (hq : (f, r) ∈ fs.zip rs) (hd : f.delta = true) (href : f.hasReference = true) (hres : f.resume = false)
    {b : Str} (hb : AtCheck env f b) (hm : Matches env f b) : r.result = .noOp := by
  obtain ⟨r0, repo0, repo1, out, h1, h2⟩ := step_of h hq
  obtain ⟨x, hx, hpart⟩ := hb
  have hr0 : r0.result = .noOp := by
    unfold check checkPg at h1
    rw [if_pos hd, hx] at h1
    simp only [] at h1
    rw [limited_part hpart, if_pos ⟨hm.1.symm, hm.2.symm⟩, if_pos href] at h1
    simp only [checkRepo, hres, Bool.false_eq_true, if_false] at h1
    cases h1
    rfl
  unfold Step at h2
  dsimp only at h2
  rw [if_neg (by rw [hr0]; simp)] at h2
  rw [h2, hr0]

/-- Without a check before the copy, a small file that is the same as in the prior backup is not stored again either. -/
theorem c48_unchanged_small {env : Env} {fs : List BFile} {repo : Option Str} {rs : List Report} (h : backupFile env fs = .ok (repo, rs))
    {f : BFile} {r : Report} (hq : (f, r) ∈ fs.zip rs) (href : f.hasReference = true) (hblk : f.block = false) {b : Str} (hb : AtCopy env f b)
    (hm : Matches env f b) (hs : (if env.filters then env.encode f b else b).length < env.bufferSize)
    (hne : b ≠ [] ∨ env.bundleId = 0) : r.result ≠ .copy := by
  obtain ⟨r0, repo0, repo1, out, h1, h2⟩ := step_of h hq
  unfold Step at h2
  dsimp only at h2
  split at h2
  · obtain ⟨src, h3, h4⟩ := h2
    have hsrc : src = some b := by
      unfold source at h3
      rcases hb with ⟨hc, hb⟩ | ⟨hc, x, hx, hpart⟩
      · rw [if_pos hc, hb] at h3
        cases h3
        rfl
      · rw [if_neg (by simp [hc]), hx] at h3
        simp only [] at h3
        cases h3
        rw [limited_part hpart]
    subst hsrc
    dsimp only at h4
    obtain ⟨o, w, n, h5, h6, _⟩ := h4
    unfold stored at h5
    rw [if_neg (by simp [hblk])] at h5
    obtain ⟨hw, hn⟩ := Prod.mk.inj (Except.ok.inj h5)
    unfold report at h6
    rw [if_neg (by
      rintro ⟨_, h7, h8⟩
      rcases hne with hne | hne
      · exact hne h8
      · exact h7 hne), if_pos ⟨by unfold eofFirst; rw [← hw]; simp [hs], href, hm.1, hm.2.symm⟩] at h6
    rw [h6]
    simp
  · rename_i h3
    rw [h2]
    exact h3

/-- A resumed file that is valid is not copied again. -/
theorem c48_resume_kept {env : Env} {f : BFile} {repo : Option Str} {r : Report} (h : backupFile env [f] = .ok (repo, [r]))
    (hres : f.resume = true) {x : Str} (hrepo : env.repo = some x) (hx : x.length = f.repoSize ∧ env.sha x = f.repoChecksum.getD f.checksum)
    (hd : f.delta = false ∨ ∃ b, AtCheck env f b ∧ Matches env f b) : r.result = .checksum := by
  obtain ⟨ps, repo1, out, h1, _, _, h2, h3, h4⟩ := backup_parts h
  rw [checkAll] at h1
  split at h1
  · cases h1
  · rename_i r0 repo0 h0
    rw [checkAll] at h1
    cases h1
    have hr0 : r0.result = .checksum := by
      unfold check at h0
      split at h0
      · cases h0
      · rename_i r1 equal h5
        have hrepo2 : ∀ s, r1.result ≠ .skip → (f.delta = false ∨ equal = true) → checkRepo env env.repo f r1 equal = .ok (r0, s) →
            r0.result = .checksum := by
          intro s h6 h7 h8
          unfold checkRepo at h8
          rw [if_pos hres, if_neg h6, if_pos h7, hrepo] at h8
          simp only [] at h8
          rw [if_pos ⟨hx.1.symm, hx.2.symm⟩] at h8
          cases h8
          rfl
        rcases hd with hd | ⟨b, ⟨y, hy, hpart⟩, hm⟩
        · refine hrepo2 _ ?_ (.inl hd) h0
          unfold checkPg at h5
          rw [if_neg (by simp [hd])] at h5
          cases h5
          simp [Report.new]
        · have h6 : r1.result ≠ .skip ∧ (f.delta = false ∨ equal = true) := by
            unfold checkPg at h5
            split at h5
            · rw [hy] at h5
              simp only [] at h5
              rw [limited_part hpart, if_pos ⟨hm.1.symm, hm.2.symm⟩] at h5
              split at h5 <;> (cases h5; simp [Report.new])
            · rename_i h6
              cases h5
              exact ⟨by simp [Report.new], .inl (by simpa using h6)⟩
          exact hrepo2 _ h6.1 h6.2 h0
    have hst := h4 ((f, r0), r) (by simp)
    unfold Step at hst
    dsimp only at hst
    rw [if_neg (by rw [hr0]; simp)] at hst
    rw [hst, hr0]

/-- What has to be there for a file: files that must exist, and the prior map at its place. -/
structure Available (env : Env) (f : BFile) : Prop where
  check : f.delta = true → f.ignoreMissing = false → (env.pg1 f.name).isSome = true
  copy : f.control = false → f.ignoreMissing = false → (env.pg2 f.name).isSome = true
  control : f.control = true → ∃ b, env.control = .ok b
  map : ∀ m, f.block = true → f.prior = some m → ∃ file, env.maps m.file = some file ∧ m.offset + m.size ≤ file.length
  block : f.block = true → ∀ o map b, PriorMap env f map → ∃ x, env.block f o map b = .ok x

theorem checkAll_ok {env : Env} : ∀ {fs : List BFile} (repo : Option Str), (∀ f ∈ fs, Available env f ∧ f.resume = false) →
    ∃ ps, checkAll env repo fs = .ok (ps, repo)
  | [], repo, _ => ⟨[], rfl⟩
  | f :: fs, repo, h => by
    have h1 : ∃ r, check env repo f = .ok (r, repo) := by
      obtain ⟨ha, hr⟩ := h f (.head _)
      have h2 : ∃ q, checkPg env f = .ok q := by
        unfold checkPg
        split
        · rename_i hd
          cases hx : env.pg1 f.name with
          | none =>
            cases hi : f.ignoreMissing with
            | true => exact ⟨_, rfl⟩
            | false =>
              have := ha.check hd hi
              rw [hx] at this
              cases this
          | some b =>
            simp only []
            split
            · split <;> exact ⟨_, rfl⟩
            · exact ⟨_, rfl⟩
        · exact ⟨_, rfl⟩
      obtain ⟨⟨r, e⟩, h2⟩ := h2
      exact ⟨r, by simp [check, h2, checkRepo, hr]⟩
    obtain ⟨r, h1⟩ := h1
    obtain ⟨ps, h2⟩ := checkAll_ok (fs := fs) repo (fun x hx => h x (.tail _ hx))
    exact ⟨(f, r) :: ps, by rw [checkAll, h1]; simp only []; rw [h2]⟩

theorem copyAll_ok {env : Env} : ∀ {ps : List (BFile × Report)} (out : Option Str), (∀ p ∈ ps, Available env p.1) →
    (∀ m ∈ ps.filterMap mapOf, (partOf env m).length = m.size) →
    ∃ x, copyAll env out ((ps.filterMap mapOf).flatMap (partOf env)) ps = .ok x
  | [], out, _, _ => ⟨_, rfl⟩
  | (f, r) :: ps, out, ha, hfull => by
    have hfull' : ∀ m ∈ ps.filterMap mapOf, (partOf env m).length = m.size := by
      intro m hm
      refine hfull m ?_
      cases hmo : mapOf (f, r) with
      | none => rw [List.filterMap_cons_none hmo]; exact hm
      | some m' => rw [List.filterMap_cons_some hmo]; exact .tail _ hm
    have ih := fun out => copyAll_ok (ps := ps) out (fun p hp => ha p (.tail _ hp)) hfull'
    have hav := ha (f, r) (.head _)
    simp only [] at hav
    rw [copyAll]
    split
    · rename_i hc
      have hmap : readMap (((f, r) :: ps).filterMap mapOf |>.flatMap (partOf env)) (mapOf (f, r)) =
            .ok ((mapOf (f, r)).map (partOf env), (ps.filterMap mapOf).flatMap (partOf env)) := by
        cases hmo : mapOf (f, r) with
        | none => rw [List.filterMap_cons_none hmo]; rfl
        | some m =>
          rw [List.filterMap_cons_some hmo, List.flatMap_cons]
          have hl := hfull m (by rw [List.filterMap_cons_some hmo]; exact .head _)
          rw [readMap, List.take_append_of_le_length (by omega), List.take_of_length_le (by omega), if_neg (by simp [hl]),
            List.drop_append_of_le_length (by omega), List.drop_of_length_le (by omega), List.nil_append]
          rfl
      have hsrc : ∃ src, source env f = .ok src := by
        unfold source
        split
        · rename_i h1
          obtain ⟨b, hb⟩ := hav.control h1
          rw [hb]
          exact ⟨_, rfl⟩
        · rename_i h1
          cases hx : env.pg2 f.name with
          | some b => exact ⟨_, rfl⟩
          | none =>
            cases hi : f.ignoreMissing with
            | true => exact ⟨_, rfl⟩
            | false =>
              have := hav.copy (by simpa using h1) hi
              rw [hx] at this
              cases this
      obtain ⟨src, hsrc⟩ := hsrc
      unfold copyOne
      rw [hsrc, hmap]
      cases src with
      | none =>
        simp only []
        obtain ⟨⟨o, rs⟩, h1⟩ := ih out
        rw [h1]
        exact ⟨_, rfl⟩
      | some b =>
        have hst : ∃ x, stored env f (out.getD []).length ((mapOf (f, r)).map (partOf env)) b = .ok x := by
          unfold stored
          split
          · rename_i hb
            have hmo : mapOf (f, r) = f.prior := by simp [mapOf, hc, hb]
            refine hav.block hb _ _ _ ?_
            rw [hmo]
            cases hpr : f.prior with
            | none => simp [PriorMap, hpr]
            | some m =>
              obtain ⟨file, hm1, hm2⟩ := hav.map m hb hpr
              simp only [PriorMap, hpr, Option.map_some]
              refine ⟨file, hm1, by simp [partOf, Storage.part, hm1], ?_⟩
              exact hfull m (by rw [List.filterMap_cons_some (hmo.trans hpr)]; exact .head _)
          · exact ⟨_, rfl⟩
        obtain ⟨⟨w, n⟩, hst⟩ := hst
        simp only []
        rw [hst]
        simp only []
        generalize report env f r (out.getD []).length b w n = q
        obtain ⟨q1, q2⟩ := q
        cases q2 with
        | none =>
          obtain ⟨⟨o, rs⟩, h1⟩ := ih out
          simp only []
          rw [h1]
          exact ⟨_, rfl⟩
        | some w =>
          obtain ⟨⟨o, rs⟩, h1⟩ := ih (some (out.getD [] ++ w))
          simp only []
          rw [h1]
          exact ⟨_, rfl⟩
    · rename_i hc
      have hno : mapOf (f, r) = none := by simp [mapOf, hc]
      rw [List.filterMap_cons_none hno]
      obtain ⟨⟨o, rs⟩, h1⟩ := ih out
      rw [h1]
      exact ⟨_, rfl⟩

/-- Maps may be read one after the other when those of the same file do not overlap and are in order. -/
def MapBefore (a b : Prior) : Prop := a.file = b.file → a.offset + a.size ≤ b.offset

theorem ordered_adds {l : List Prior} (h : l.Pairwise MapBefore) : Storage.Ordered (l.map fun m => ⟨m.file, m.offset, some m.size⟩) := by
  induction l with
  | nil => trivial
  | cons a l ih =>
    rw [List.pairwise_cons] at h
    cases l with
    | nil => trivial
    | cons b l => exact ⟨fun he => ⟨a.size, b.size, rfl, rfl, h.1 b (.head _) he⟩, ih h.2⟩

/-- The prior map a file may need. -/
def priorOf (f : BFile) : Option Prior := if f.block then f.prior else none

/-- The backup of files that are not resumed succeeds when all that has to be there is there. -/
theorem c48_complete {env : Env} {fs : List BFile} (hq : 0 < env.queueMax) (h : ∀ f ∈ fs, Available env f ∧ f.resume = false)
    (ho : (fs.filterMap priorOf).Pairwise MapBefore) : ∃ x, backupFile env fs = .ok x := by
  obtain ⟨ps, h1⟩ := checkAll_ok env.repo h
  have h2 := (checkAll_spec h1).1
  have hp : ∀ p ∈ ps, Available env p.1 := by
    intro p hp
    exact (h p.1 (by rw [← h2]; exact List.mem_map.2 ⟨p, hp, rfl⟩)).1
  have hm : ∀ m ∈ ps.filterMap mapOf, ∃ file, env.maps m.file = some file ∧ m.offset + m.size ≤ file.length := by
    intro m hm
    obtain ⟨p, hp1, hp2⟩ := List.mem_filterMap.1 hm
    unfold mapOf at hp2
    split at hp2
    · rename_i hc
      exact (hp p hp1).map m hc.2 hp2
    · cases hp2
  have hfull : ∀ m ∈ ps.filterMap mapOf, (partOf env m).length = m.size := by
    intro m hmm
    obtain ⟨file, f1, f2⟩ := hm m hmm
    simp only [partOf, f1, Option.getD_some]
    exact Restore.File.part_length f2
  have hsub : (ps.filterMap mapOf).Sublist (fs.filterMap priorOf) := by
    rw [← h2]
    clear h1 h2 hp hm hfull
    induction ps with
    | nil => exact .slnil
    | cons p ps ih =>
      rw [List.map_cons]
      by_cases hc : p.2.result = .copy
      · have he : mapOf p = priorOf p.1 := by simp [mapOf, hc, priorOf]
        cases hx : mapOf p with
        | none =>
          rw [List.filterMap_cons_none hx, List.filterMap_cons_none (he.symm.trans hx)]
          exact ih
        | some m =>
          rw [List.filterMap_cons_some hx, List.filterMap_cons_some (he.symm.trans hx)]
          exact ih.cons_cons m
      · rw [List.filterMap_cons_none (by simp [mapOf, hc])]
        refine ih.trans ?_
        cases hx : priorOf p.1 with
        | none => rw [List.filterMap_cons_none hx]
        | some m => rw [List.filterMap_cons_some hx]; exact List.sublist_cons_self _ _
  obtain ⟨st, _, hst, _⟩ := Storage.c60_accepts (files := env.maps) (readOver := env.readOver) (as := adds ps) hq (by
      intro a ha
      obtain ⟨m, hmm, rfl⟩ := List.mem_map.1 ha
      obtain ⟨file, f1, _⟩ := hm m hmm
      simp [f1]) (ordered_adds (ho.sublist hsub)) []
  obtain ⟨⟨o, rs⟩, h3⟩ := copyAll_ok (ps := ps) none hp hfull
  unfold backupFile mapStream
  rw [h1]
  simp only []
  rw [hst]
  simp only []
  rw [if_neg (by
    simp only [List.any_eq_true, not_exists, not_and]
    intro m hmm
    obtain ⟨file, f1, _⟩ := hm m hmm
    simp [f1])]
  simp only []
  rw [show ((ps.filterMap mapOf).flatMap fun m => Storage.part ((env.maps m.file).getD []) m.offset (some m.size)) =
    (ps.filterMap mapOf).flatMap (partOf env) from rfl, h3]
  exact ⟨_, rfl⟩

/-! ## Examples -/

instance : Inhabited Report := ⟨.new⟩

/-- A file of the examples: small, in no prior backup. -/
def exFile (name : Str) : BFile := ⟨name, false, false, false, 0, 0, false, [], false, none, none, 0, false, false⟩

instance : Inhabited BFile := ⟨exFile []⟩

/-- The file with a prior map, as in the example of `Verif.Block`. -/
def exBlock : BFile :=
  { exFile [2] with
    size := 5, checksum := Block.exampleContent0, block := true, hasReference := true
    prior := some ⟨[9], Block.exampleEntry0.bundleOffset + Block.exampleEntry0.sizeRepo - Block.exampleEntry0.mapSize, Block.exampleEntry0.mapSize⟩ }

/-- A bundle with a small file, the one with the prior map and another small file that was longer before. File 4 is missing, file 5 is empty now,
file 6 is found unchanged by the check and file 7 by the copy. -/
def exFiles : List BFile :=
  [exFile [1], exBlock, { exFile [3] with exact := true, sizeOriginal := 1 }, { exFile [4] with ignoreMissing := true }, exFile [5],
   { exFile [6] with delta := true, size := 2, checksum := [60, 61], hasReference := true },
   { exFile [7] with size := 1, checksum := [70], hasReference := true }]

def exEnv : Env :=
  { sha := id
    pg1 := fun n => if n = [6] then some [60, 61] else none
    pg2 := fun n =>
      if n = [1] then some [100, 101] else if n = [2] then some Block.exampleContent1 else if n = [3] then some [102, 103]
      else if n = [5] then some [] else if n = [6] then some [0] else if n = [7] then some [70] else none
    control := .error .fileMissing
    filters := false
    encode := fun _ b => b
    block := fun _ => blockFilter Block.exampleFormat 4 1 3
    bundleId := 3
    bufferSize := 16
    known := fun _ => false
    maps := fun n => if n = [9] then some (Block.exampleRepo 0 0) else none
    queueMax := 1
    readOver := 0
    repo := none }

def exRun : Option Str × List Report := match backupFile exEnv exFiles with | .ok x => x | .error _ => (none, [])

theorem exRun_ok : backupFile exEnv exFiles = .ok (exRun.1, exRun.2) := by
  have h : (backupFile exEnv exFiles).toOption = some (exRun.1, exRun.2) := by decide +kernel
  generalize backupFile exEnv exFiles = x at *
  cases x with
  | error e => cases h
  | ok x => exact congrArg Except.ok (Option.some.inj h)

/-- Results and places in the bundle. -/
example : exRun.2.map (·.result) = [.copy, .copy, .copy, .skip, .truncate, .noOp, .noOp] ∧
    (exRun.2.map fun r => (r.copySize, r.bundleOffset)) = [(2, 0), (6, 2), (1, 2 + exRun.2[1]!.repoSize), (0, 0), (0, 0), (2, 0), (1, 0)] ∧
    exRun.1 = some (Block.exampleRepo 1 3) := by
  decide +kernel

example : ∀ q ∈ exFiles.zip exRun.2, Honest exEnv exRun.1 q.1 q.2 := c48_report exRun_ok

/-- The block incremental file can be restored. -/
example : ∃ b, AtCopy exEnv exBlock b ∧ Reports exEnv exRun.2[1]! b ∧ exRun.2[1]!.mapSize ≠ 0 ∧ Block.Backups Block.exampleFormat id
    Block.exampleRepo ⟨1, 3, exRun.2[1]!.bundleOffset, exRun.2[1]!.repoSize, exRun.2[1]!.mapSize, exRun.2[1]!.copySize, b⟩ b := by
  have huniq : ∀ b, AtCopy exEnv exBlock b → b = Block.exampleContent1 := by
    rintro b (⟨h, _⟩ | ⟨_, x, h1, h2⟩)
    · cases h
    · have : some Block.exampleContent1 = some x := h1
      cases this
      rcases h2 with ⟨h, _⟩ | ⟨_, h⟩
      · cases h
      · exact h
  refine c48_block (superSize := 4) (reference := 1) exRun_ok (by decide +kernel) (by decide +kernel) rfl rfl Block.exampleFormat_ok
    (fun _ _ h => h) (by decide) (by decide +kernel) ?_ (.inr ⟨Block.exampleContent0, ?_, ?_⟩)
  · intro b out hb hl
    rw [huniq b hb]
    refine ⟨by decide, by decide, by decide, by decide, by decide, by decide, ?_⟩
    rw [hl]
    decide +kernel
  · refine ⟨_, Block.exampleEntry0, rfl, ?_, by decide, rfl, rfl, rfl, rfl, rfl, rfl⟩
    refine .full Block.exampleParam0 Block.exampleContent0 ?_ ?_
    · exact ⟨by decide, by decide, by decide, by decide, by decide, by decide, by decide +kernel⟩
    · exact ⟨[], [], by decide +kernel, rfl⟩
  · intro b hb
    rw [huniq b hb]
    refine Block.example_collision _ _ ?_ (by decide)
    intro i hi x y hx hy hh
    have h1 : Block.fileBlocks 2 Block.exampleContent0 = [[1, 2], [3, 4], [5]] := by decide
    have h2 : Block.fileBlocks 2 Block.exampleContent1 = [[1, 2], [9, 9], [5, 6]] := by decide
    rw [h1] at hx
    rw [h2] at hy
    rcases i with _ | _ | _ | i
    · simp at hx hy
      rw [← hx, ← hy]
    · simp at hx hy
      subst hx
      subst hy
      revert hh
      decide
    · simp at hx hy
      subst hx
      subst hy
      revert hh
      decide
    · omega

/-- The small file can be restored from the bundle. -/
example (re : Restore.File.Env) (h : re.repo = exRun.1 ∧ re.sha = id ∧ ∀ b, re.decode b = .ok b) (d : Restore.File.Disk)
    (g : Restore.File.RFile) (hg : g = ⟨[3], [102], 1, 0, false, exRun.2[2]!.bundleOffset, some 1, 0⟩) :
    Restore.File.Holds re d g [102] := by
  have h0 : (exFiles[2]!, exRun.2[2]!) ∈ exFiles.zip exRun.2 := by decide +kernel
  obtain ⟨b, hb1, hb2, hb3, hb4⟩ := c48_restorable exRun_ok h0 (by decide +kernel) (by decide +kernel) re
    ⟨h.1, h.2.1, fun b => by simpa [exEnv] using h.2.2 b⟩ d g (by subst hg; refine ⟨?_, ?_, rfl, rfl, .inl ?_⟩ <;> decide +kernel)
  rw [h.2.1, hg] at hb3
  have hb5 : b = [102] := hb3.symm
  rw [hb5] at hb4
  exact hb4

/-- All that is needed is there. -/
example : ∃ x, backupFile exEnv exFiles = .ok x := by
  refine c48_complete (by decide) ?_ (by
    show List.Pairwise MapBefore [_]
    exact List.pairwise_singleton _ _)
  intro f hf
  have hnb : ∀ {f : BFile}, f.block = false → f.control = false → (f.delta = true → f.ignoreMissing = false → (exEnv.pg1 f.name).isSome = true) →
      (f.ignoreMissing = false → (exEnv.pg2 f.name).isSome = true) → Available exEnv f := by
    intro f h1 h2 h3 h4
    exact ⟨h3, fun _ => h4, by simp [h2], by simp [h1], by simp [h1]⟩
  simp only [exFiles, List.mem_cons, List.not_mem_nil, or_false] at hf
  rcases hf with rfl | rfl | rfl | rfl | rfl | rfl | rfl
  · exact ⟨hnb rfl rfl (by decide) (by decide), rfl⟩
  · refine ⟨⟨by decide, by decide, (fun h => by cases h), ?_, ?_⟩, rfl⟩
    · intro m _ hm
      have : m = exBlock.prior.getD ⟨[], 0, 0⟩ := by rw [hm]; rfl
      subst this
      exact ⟨Block.exampleRepo 0 0, rfl, by decide +kernel⟩
    · intro _ o map b hm
      cases map with
      | none => exact ⟨_, rfl⟩
      | some s =>
        obtain ⟨file, h1, h2, _⟩ := hm
        have : some (Block.exampleRepo 0 0) = some file := h1
        cases this
        have h3 : Block.mapRead 2 2 s = .ok Block.exampleMap0 := by
          rw [h2]
          exact Block.ok_of_toOption (by decide +kernel)
        have h4 : blockFilter Block.exampleFormat 4 1 3 o (some s) b = match Block.mapRead 2 2 s with
            | .error e => .error e
            | .ok items => .ok ((Block.blockIncr Block.exampleFormat ⟨4, 1, 3, o⟩ (some items) b).out,
                (Block.blockIncr Block.exampleFormat ⟨4, 1, 3, o⟩ (some items) b).mapSize) := rfl
        show ∃ x, blockFilter Block.exampleFormat 4 1 3 o (some s) b = .ok x
        rw [h4, h3]
        exact ⟨_, rfl⟩
  · exact ⟨hnb rfl rfl (by decide) (by decide), rfl⟩
  · exact ⟨hnb rfl rfl (by decide) (by decide), rfl⟩
  · exact ⟨hnb rfl rfl (by decide) (by decide), rfl⟩
  · exact ⟨hnb rfl rfl (by decide) (by decide), rfl⟩
  · exact ⟨hnb rfl rfl (by decide) (by decide), rfl⟩

/-- A file that was copied by the backup that is resumed. -/
def exResume : BFile := { exFile [1] with resume := true, delta := true, size := 2, checksum := [1, 2], repoSize := 2 }

example : backupFile { exEnv with bundleId := 0, repo := some [1, 2], pg1 := fun _ => some [1, 2] } [exResume] =
    .ok (some [1, 2], [⟨.checksum, false, 2, some [1, 2], none, 0, 0, 0⟩]) :=
  Block.ok_of_toOption (by decide +kernel)

/-- It is copied again when what is in the repository is not valid, and removed when the file is missing. -/
example : backupFile { exEnv with bundleId := 0, repo := some [1, 3], pg1 := fun _ => some [1, 2] } [exResume] =
      .ok (some [100, 101], [⟨.copy, true, 2, some [100, 101], none, 0, 2, 0⟩]) ∧
    backupFile { exEnv with bundleId := 0, repo := some [1, 2] } [{ exResume with ignoreMissing := true }] =
      .ok (none, [⟨.skip, false, 0, none, none, 0, 0, 0⟩]) :=
  ⟨Block.ok_of_toOption (by decide +kernel), Block.ok_of_toOption (by decide +kernel)⟩

/-- The empty map that cannot be read. -/
example : blockFilter Block.exampleFormat 4 2 0 0 (some (Block.blockIncr Block.exampleFormat ⟨4, 1, 0, 0⟩ (some Block.exampleMap0) []).out)
    [1, 2, 3] = .error .fileRead :=
  (c48_empty_map Block.exampleFormat ⟨4, 1, 0, 0⟩ ⟨4, 2, 0, 0⟩ Block.exampleMap0 (by decide) Block.exampleFormat_ok (fun _ _ h => h) [1, 2, 3]).2.2

end Verif.Backup.File
