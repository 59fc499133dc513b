import Verif.Expire.Archive

/-! # C11 and C53: removal of backup directories and of the backup history -/

namespace Verif.Expire

open Verif.Label

/-! ## C11 -/

/-- The backup is listed in the backup information. -/
def Listed (l : List Backup) (x : Str) : Prop := ∃ b ∈ l, b.label = x

/-- The backup in the directory can be resumed or is in progress. -/
def Dir.partial (d : Dir) : Prop := d.manifest = false ∧ d.manifestCopy = true

/-- The directory is the newest, is partial, and it is not the case that a backup of its full backup was expired on
request and the backup it is based on is not listed anymore. -/
def Protected (l : List Backup) (adhoc : Option Str) (disk : List Dir) (d : Dir) : Prop :=
  disk.head? = some d ∧ d.partial ∧
  ¬ ∃ a, adhoc = some a ∧ a.take 16 <+: d.label ∧ ∀ p, d.copyPrior = some p → ¬ Listed l p

theorem labelExists_iff (l : List Backup) (x : Str) : labelExists l x = true ↔ Listed l x := by
  unfold labelExists Listed
  rw [List.any_eq_true]
  simp

/-- Exactly the directories on disk that are not listed and not protected are removed, and nothing with dry-run. -/
theorem c11_removed (l : List Backup) (adhoc : Option Str) (dryRun : Bool) (disk : List Dir)
    (hdisk : (disk.map Dir.label).Nodup) (x : Str) :
    x ∈ removeExpiredBackup l adhoc dryRun disk ↔
      dryRun = false ∧ ∃ d ∈ disk, d.label = x ∧ ¬ Listed l x ∧ ¬ Protected l adhoc disk d := by
  unfold removeExpiredBackup
  cases dryRun with
  | true => simp
  | false =>
    simp only [Bool.false_eq_true, if_false, true_and]
    cases disk with
    | nil => simp
    | cons d rest =>
      rw [List.map_cons, List.nodup_cons] at hdisk
      have hne : ∀ c ∈ rest, c ≠ d := by
        rintro c hc rfl
        exact hdisk.1 (List.mem_map_of_mem hc)
      have hrest : ∀ c ∈ rest, ¬ Protected l adhoc (d :: rest) c := by
        rintro c hc ⟨hh, -⟩
        simp only [List.head?_cons, Option.some.injEq] at hh
        exact hne c hc hh.symm
      -- the index of the first directory that may be removed
      obtain ⟨k, hk, hk0, hk1⟩ : ∃ k, firstRemovable l adhoc (d :: rest) = k ∧
          (k = 0 → ¬ Protected l adhoc (d :: rest) d) ∧ (k ≠ 0 → k = 1 ∧ Protected l adhoc (d :: rest) d) := by
        have hprior : priorExists l d.copyPrior = true ↔ ∃ p, d.copyPrior = some p ∧ Listed l p := by
          cases d.copyPrior with
          | none => simp [priorExists]
          | some p => simp [priorExists, labelExists_iff]
        refine ⟨_, rfl, ?_⟩
        simp only [firstRemovable]
        by_cases hp : d.partial
        · rw [if_pos (by simp [hp.1, hp.2])]
          cases adhoc with
          | none => exact ⟨by simp, fun _ => ⟨rfl, rfl, hp, by simp⟩⟩
          | some a =>
            simp only
            by_cases hpre : a.take 16 <+: d.label
            · rw [if_pos hpre]
              by_cases hpl : priorExists l d.copyPrior = true
              · rw [if_pos hpl]
                refine ⟨by simp, fun _ => ⟨rfl, rfl, hp, ?_⟩⟩
                rintro ⟨a', -, -, hnl⟩
                obtain ⟨p, hp1, hp2⟩ := hprior.1 hpl
                exact hnl p hp1 hp2
              · rw [if_neg hpl]
                refine ⟨fun _ => ?_, by simp⟩
                rintro ⟨-, -, hnot⟩
                exact hnot ⟨a, rfl, hpre, fun p hp1 hp2 => hpl (hprior.2 ⟨p, hp1, hp2⟩)⟩
            · rw [if_neg hpre]
              refine ⟨by simp, fun _ => ⟨rfl, rfl, hp, ?_⟩⟩
              rintro ⟨a', ha', hpre', -⟩
              simp only [Option.some.injEq] at ha'
              exact hpre (ha' ▸ hpre')
        · rw [if_neg]
          · exact ⟨fun _ h => hp h.2.1, by simp⟩
          · intro h
            simp only [Bool.and_eq_true, Bool.not_eq_true'] at h
            exact hp h
      rw [hk]
      rw [List.mem_map]
      have hl : ∀ c : Dir, (!labelExists l c.label) = true ↔ ¬ Listed l c.label := by
        intro c
        rw [Bool.not_eq_true', ← Bool.not_eq_true, labelExists_iff]
      rcases Nat.eq_zero_or_pos k with rfl | hpos
      · have hd := hk0 rfl
        simp only [List.drop_zero]
        constructor
        · rintro ⟨c, hc, rfl⟩
          obtain ⟨hc1, hc2⟩ := List.mem_filter.1 hc
          refine ⟨c, hc1, rfl, (hl c).1 hc2, ?_⟩
          rcases List.mem_cons.1 hc1 with rfl | hc1
          · exact hd
          · exact hrest c hc1
        · rintro ⟨c, hc, rfl, hnl, -⟩
          exact ⟨c, List.mem_filter.2 ⟨hc, (hl c).2 hnl⟩, rfl⟩
      · obtain ⟨rfl, hd⟩ := hk1 (by omega)
        simp only [List.drop_one, List.tail_cons]
        constructor
        · rintro ⟨c, hc, rfl⟩
          obtain ⟨hc1, hc2⟩ := List.mem_filter.1 hc
          exact ⟨c, by simp [hc1], rfl, (hl c).1 hc2, hrest c hc1⟩
        · rintro ⟨c, hc, rfl, hnl, hpr⟩
          rcases List.mem_cons.1 hc with rfl | hc
          · exact absurd hd hpr
          · exact ⟨c, List.mem_filter.2 ⟨hc, (hl c).2 hnl⟩, rfl⟩

-- the newest directory is a backup in progress based on the listed backup, an older one was expired
example : removeExpiredBackup [sF2] none false [⟨sD2.label, false, true, some sF2.label⟩, ⟨sF2.label, true, true, none⟩,
    ⟨sD1.label, false, false, none⟩, ⟨sF1.label, false, false, none⟩] = [sD1.label, sF1.label] := by decide
example : removeExpiredBackup [sF2] (some sD1.label) false [⟨sI1.label, false, true, some sD1.label⟩] = [sI1.label] := by
  decide

/-! ## C53 -/

/-- Nothing of the retained period is removed. What is removed is before the period. -/
theorem c53_period (l : List Backup) (minLabel : Str) (first repo : List (Str × Str)) (year label : Str)
    (hyear : year = label.take 4) (hmin : minLabel ≤ label) (hm : (year, label) ∈ repo) :
    (year, label) ∈ removeExpiredHistory l minLabel first repo := by
  unfold removeExpiredHistory
  refine List.mem_filter.2 ⟨hm, ?_⟩
  have h1 : ¬ year < minLabel.take 4 := by
    rw [Str.not_lt, hyear]
    exact Str.take_le_take 4 hmin
  have h2 : ¬ label < minLabel := Str.not_lt.2 hmin
  simp [h1, h2]

/-- For the default repository: a manifest before the period of a backup that is not listed is removed. -/
theorem c53_expired (l : List Backup) (minLabel : Str) (repo : List (Str × Str)) (year label : Str)
    (hyear : year = label.take 4) (hmin : label < minLabel) (hl : ¬ Listed l label) :
    (year, label) ∉ removeExpiredHistory l minLabel repo repo := by
  unfold removeExpiredHistory
  intro hm
  obtain ⟨hm, hk⟩ := List.mem_filter.1 hm
  have hle : year ≤ minLabel.take 4 := by
    rw [hyear]; exact Str.take_le_take 4 (Str.le_of_lt hmin)
  have hlf : labelExists l label = false := by
    rw [← Bool.not_eq_true, labelExists_iff]; exact hl
  simp only at hk
  by_cases hlt : year < minLabel.take 4
  · rw [if_pos hlt] at hk
    have : (repo.any fun e => decide (e.1 = year)) = true := List.any_eq_true.2 ⟨_, hm, by simp⟩
    rw [this] at hk
    simp at hk
  · have heq : year = minLabel.take 4 := by
      rcases (Str.le_iff_lt_or_eq _ _).1 hle with h | h
      · exact absurd h hlt
      · exact h
    rw [if_neg hlt, if_pos heq] at hk
    simp [hm, hlf, hmin] at hk

/-- When the manifest of a full backup is removed then so are those of the backups based on it that are not listed. -/
theorem c53_dependents (l : List Backup) (minLabel : Str) (repo : List (Str × Str)) (f x : Str)
    (hf : isFull f = true) (hmin : isFull minLabel = true) (hx : x.take 16 = f)
    (hgone : (f.take 4, f) ∉ removeExpiredHistory l minLabel repo repo) (hm : (f.take 4, f) ∈ repo)
    (hl : ¬ Listed l x) : (x.take 4, x) ∉ removeExpiredHistory l minLabel repo repo := by
  have hlt : f < minLabel := by
    rw [← Str.not_le]
    intro hle
    exact hgone (c53_period l minLabel repo repo _ f rfl hle hm)
  refine c53_expired l minLabel repo _ x rfl ?_ hl
  rw [← Str.not_le]
  intro hle
  have := Str.take_le_take 16 hle
  rw [hx] at this
  have h16 : minLabel.take 16 = minLabel := by
    apply List.take_of_length_le
    simp only [isFull, Bool.and_eq_true, beq_iff_eq] at hmin
    omega
  rw [h16] at this
  exact absurd hlt (Str.not_lt.2 this)

/-- A manifest of a listed backup in the year in which the period starts is kept. The full statement would be that the
manifests of all listed backups are kept (as the documentation of repo-retention-history says), see
`c53_listed_removed`. -/
theorem c53_listed_partial (l : List Backup) (minLabel : Str) (first repo : List (Str × Str)) (year label : Str)
    (hl : Listed l label) (hyear : minLabel.take 4 ≤ year) (hm : (year, label) ∈ repo) :
    (year, label) ∈ removeExpiredHistory l minLabel first repo := by
  unfold removeExpiredHistory
  refine List.mem_filter.2 ⟨hm, ?_⟩
  have h1 : ¬ year < minLabel.take 4 := Str.not_lt.2 hyear
  simp [h1, (labelExists_iff l label).2 hl]

/-- The label of a full backup in the year given by its last two digits. -/
def yearFull (a b : UInt8) : Str :=
  [0x32, 0x30, a, b, 0x30, 0x31, 0x30, 0x31, 0x2D, 0x30, 0x30, 0x30, 0x30, 0x30, 0x30, 0x46]

example : isFull (yearFull 0x32 0x35) = true := by decide

/-- The manifest of a listed backup is removed when its year is before the year in which the period starts. -/
theorem c53_listed_removed :
    ∃ l minLabel repo x, WF l ∧ isFull minLabel = true ∧ Listed l x ∧ (x.take 4, x) ∈ repo ∧
      (x.take 4, x) ∉ removeExpiredHistory l minLabel repo repo := by
  refine ⟨[sampleOnline (yearFull 0x32 0x35) 1 0x31 0x32], yearFull 0x32 0x36,
    [((yearFull 0x32 0x35).take 4, yearFull 0x32 0x35)], yearFull 0x32 0x35, wf_full _ ?_ (by decide), by decide,
    ⟨_, List.mem_singleton_self _, rfl⟩, by decide, by decide⟩
  simp only [StrictAsc, List.map_cons, List.map_nil, List.pairwise_cons]
  decide

/-- In a repository other than the default one an expired manifest remains when the default repository has no history
of that year. -/
theorem c53_other_repo_not_expired :
    ∃ minLabel first repo x, isFull minLabel = true ∧ x < minLabel ∧ (x.take 4, x) ∈ repo ∧
      (x.take 4, x) ∈ removeExpiredHistory [] minLabel first repo :=
  ⟨yearFull 0x32 0x36, [], [((yearFull 0x32 0x35).take 4, yearFull 0x32 0x35)], yearFull 0x32 0x35, by decide,
    by decide, by decide, by decide⟩

end Verif.Expire
