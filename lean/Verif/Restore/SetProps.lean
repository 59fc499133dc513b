import Verif.Restore.SetModel

/-! # Selection of the backup set (C23) -/

namespace Verif.Restore

open Wal

/-! ## Specification -/

/-- Recovery from the backup can stop at the target. -/
def Usable (target : Target') (b : SetBackup) : Prop :=
  match target with
  | .time t => b.stop < t
  | .lsn l => ∃ s v, b.lsnStop = some s ∧ lsnFromStr s = .ok v ∧ v ≤ l
  | .other => False

/-- `b` is the newest usable backup of the repository. A backup that does not tell its stop position ends the search. -/
def Newest (target : Target') (r : SetRepo) (b : SetBackup) : Prop :=
  ∃ older newer, r.backups = older ++ b :: newer ∧ Usable target b ∧ (∀ n ∈ newer, ¬ Usable target n) ∧
    ∀ l, target = .lsn l → ∀ n ∈ newer, n.lsnStop ≠ none

/-- The stop positions in the repository are valid. -/
def LsnValid (r : SetRepo) : Prop := ∀ b ∈ r.backups, ∀ s, b.lsnStop = some s → ∃ v, lsnFromStr s = .ok v

/-! ## Lemmas -/

theorem searchRepo_spec (target : Target') (ht : target ≠ .other) (r : SetRepo) (h : LsnValid r) :
    (∃ b, Newest target r b ∧ searchRepo target r.backups.reverse = .ok (some b.label)) ∨
    ((∀ b, ¬ Newest target r b) ∧ searchRepo target r.backups.reverse = .ok none) := by
  suffices hs : ∀ (rest newer : List SetBackup), r.backups = rest.reverse ++ newer → (∀ n ∈ newer, ¬ Usable target n) →
      (∀ l, target = .lsn l → ∀ n ∈ newer, n.lsnStop ≠ none) →
      (∃ b, Newest target r b ∧ searchRepo target rest = .ok (some b.label)) ∨
      ((∀ b, ¬ Newest target r b) ∧ searchRepo target rest = .ok none) by
    exact hs r.backups.reverse [] (by simp) (fun n hn => by cases hn) (fun l _ n hn => by cases hn)
  intro rest
  induction rest with
  | nil =>
    intro newer hb hn _
    refine .inr ⟨?_, rfl⟩
    rintro b ⟨o, n, hbs, hu, _⟩
    refine hn b ?_ hu
    rw [List.reverse_nil, List.nil_append] at hb
    rw [← hb, hbs]
    simp
  | cons b rest ih =>
    intro newer hb hn hl
    rw [List.reverse_cons, List.append_assoc, List.singleton_append] at hb
    have hstep : ¬ Usable target b → (∀ l, target = .lsn l → b.lsnStop ≠ none) →
        (∃ b, Newest target r b ∧ searchRepo target rest = .ok (some b.label)) ∨
        ((∀ b, ¬ Newest target r b) ∧ searchRepo target rest = .ok none) := by
      intro h1 h2
      refine ih (b :: newer) hb ?_ ?_
      · intro n hm
        rcases List.mem_cons.1 hm with rfl | hm
        · exact h1
        · exact hn n hm
      · intro l htl n hm
        rcases List.mem_cons.1 hm with rfl | hm
        · exact h2 l htl
        · exact hl l htl n hm
    have hfound : Usable target b → Newest target r b := fun hu => ⟨_, _, hb, hu, hn, hl⟩
    cases target with
    | other => exact absurd rfl ht
    | time t =>
      rw [searchRepo]
      by_cases hlt : b.stop < t
      · rw [if_pos hlt]
        exact .inl ⟨b, hfound hlt, rfl⟩
      · rw [if_neg hlt]
        exact hstep hlt (fun l hl => by cases hl)
    | lsn l =>
      rw [searchRepo]
      cases hs : b.lsnStop with
      | none =>
        refine .inr ⟨?_, rfl⟩
        rintro c ⟨o, n, hbs, hu, hnu, hnl⟩
        rw [hb] at hbs
        -- `c` is not among the newer ones, is not `b`, and cannot be older since `b` ends the search.
        rcases List.append_eq_append_iff.1 hbs with ⟨as, ho, hc⟩ | ⟨bs, ho, hc⟩
        · cases as with
          | nil =>
            simp at hc
            obtain ⟨rfl, _⟩ := hc
            obtain ⟨s, v, hs', _⟩ := hu
            rw [hs] at hs'
            cases hs'
          | cons a as =>
            injection hc with h1 h2
            exact hn c (h2 ▸ List.mem_append_right _ List.mem_cons_self) hu
        · cases bs with
          | nil =>
            simp at hc
            obtain ⟨rfl, _⟩ := hc
            obtain ⟨s, v, hs', _⟩ := hu
            rw [hs] at hs'
            cases hs'
          | cons a bs =>
            injection hc with h1 h2
            exact hnl l rfl b (h2 ▸ List.mem_append_right _ List.mem_cons_self) hs
      | some s =>
        dsimp only
        have hmem : b ∈ r.backups := by rw [hb]; simp
        obtain ⟨v, hv⟩ := h b hmem s hs
        rw [hv]
        dsimp only
        by_cases hle : v ≤ l
        · rw [if_pos hle]
          exact .inl ⟨b, hfound ⟨s, v, hs, hv, hle⟩, rfl⟩
        · rw [if_neg hle]
          refine hstep ?_ (fun _ _ => by rw [hs]; exact Option.some_ne_none s)
          rintro ⟨s', v', hs', hv', hle'⟩
          rw [hs] at hs'
          cases hs'
          rw [hv] at hv'
          cases hv'
          exact hle hle'

/-- What the whole search gives, from what each repository gives. -/
theorem backupSet_first (target : Target') (set : Option Str) (repos : List (Nat × Option SetRepo)) (i : Nat) (label : Str) :
    backupSet target set repos = .ok (i, label) ↔
      ∃ before info after, repos = before ++ (i, info) :: after ∧ selectIn target set info = .ok (some label) ∧
        ∀ p ∈ before, selectIn target set p.2 = .ok none := by
  induction repos with
  | nil => simp [backupSet]
  | cons p repos ih =>
    obtain ⟨j, info⟩ := p
    rw [backupSet]
    cases hs : selectIn target set info with
    | error e =>
      refine ⟨(fun h => by cases h), ?_⟩
      rintro ⟨before, info', after, heq, h1, h2⟩
      cases before with
      | nil =>
        injection heq with h3 h4
        cases h3
        rw [hs] at h1
        cases h1
      | cons q before =>
        injection heq with h3 h4
        have := h2 q List.mem_cons_self
        rw [← h3, hs] at this
        cases this
    | ok o =>
      cases o with
      | some l =>
        constructor
        · intro h
          cases h
          exact ⟨[], info, repos, rfl, hs, fun p hp => by cases hp⟩
        · rintro ⟨before, info', after, heq, h1, h2⟩
          cases before with
          | nil =>
            injection heq with h3 h4
            cases h3
            rw [hs] at h1
            cases h1
            rfl
          | cons q before =>
            injection heq with h3 h4
            have := h2 q List.mem_cons_self
            rw [← h3, hs] at this
            cases this
      | none =>
        dsimp only
        rw [ih]
        constructor
        · rintro ⟨before, info', after, rfl, h1, h2⟩
          refine ⟨(j, info) :: before, info', after, rfl, h1, fun p hp => ?_⟩
          rcases List.mem_cons.1 hp with rfl | hp
          · exact hs
          · exact h2 p hp
        · rintro ⟨before, info', after, heq, h1, h2⟩
          cases before with
          | nil =>
            injection heq with h3 h4
            cases h3
            rw [hs] at h1
            cases h1
          | cons q before =>
            injection heq with h3 h4
            exact ⟨before, info', after, h4, h1, fun p hp => h2 p (List.mem_cons_of_mem _ hp)⟩

theorem backupSet_none (target : Target') (set : Option Str) (repos : List (Nat × Option SetRepo))
    (h : ∀ p ∈ repos, selectIn target set p.2 = .ok none) : backupSet target set repos = .error .backupSetInvalid := by
  induction repos with
  | nil => rfl
  | cons p repos ih =>
    obtain ⟨j, info⟩ := p
    have h1 := h (j, info) List.mem_cons_self
    dsimp only at h1
    rw [backupSet, h1]
    exact ih (fun p hp => h p (List.mem_cons_of_mem _ hp))

theorem selectIn_target (target : Target') (ht : target ≠ .other) (r : SetRepo) :
    selectIn target none (some r) = searchRepo target r.backups.reverse := by
  unfold selectIn
  dsimp only
  cases hr : r.backups.reverse with
  | nil => rfl
  | cons b bs =>
    dsimp only
    cases target with
    | other => exact absurd rfl ht
    | time t => rfl
    | lsn l => rfl

theorem newest_unique (target : Target') (r : SetRepo) (b c : SetBackup) (hb : Newest target r b) (hc : Newest target r c) : b = c := by
  obtain ⟨o, n, h1, u1, n1, _⟩ := hb
  obtain ⟨o', n', h2, u2, n2, _⟩ := hc
  rw [h1] at h2
  rcases List.append_eq_append_iff.1 h2 with ⟨as, ho, heq⟩ | ⟨as, ho, heq⟩
  · cases as with
    | nil =>
      injection heq
    | cons a as =>
      injection heq with h3 h4
      exact absurd u2 (n1 c (h4 ▸ List.mem_append_right _ List.mem_cons_self))
  · cases as with
    | nil =>
      injection heq with h3
      exact h3.symm
    | cons a as =>
      injection heq with h3 h4
      exact absurd u1 (n2 b (h4 ▸ List.mem_append_right _ List.mem_cons_self))

/-! ## Theorems -/

/-- With a time or lsn target, the backup chosen is the newest usable one of the first repository that has one. -/
theorem c23_target (target : Target') (ht : target ≠ .other) (repos : List (Nat × Option SetRepo))
    (hv : ∀ p ∈ repos, ∀ r, p.2 = some r → LsnValid r) (i : Nat) (label : Str) :
    backupSet target none repos = .ok (i, label) ↔
      ∃ before r after b, repos = before ++ (i, some r) :: after ∧ Newest target r b ∧ b.label = label ∧
        ∀ p ∈ before, ∀ r', p.2 = some r' → ∀ b', ¬ Newest target r' b' := by
  have hnone : ∀ p ∈ repos, (selectIn target none p.2 = .ok none ↔ ∀ r', p.2 = some r' → ∀ b', ¬ Newest target r' b') := by
    intro p hp
    cases hi : p.2 with
    | none => simp [selectIn]
    | some r =>
      rw [selectIn_target target ht]
      rcases searchRepo_spec target ht r (hv p hp r hi) with ⟨b, hb, hs⟩ | ⟨hb, hs⟩
      · rw [hs]
        constructor
        · intro h; cases h
        · intro h; exact absurd hb (h r rfl b)
      · rw [hs]
        simp only [Option.some.injEq, forall_eq', true_iff]
        exact hb
  rw [backupSet_first]
  constructor
  · rintro ⟨before, info, after, heq, h1, h2⟩
    have hmem : (i, info) ∈ repos := by rw [heq]; simp
    cases info with
    | none => simp [selectIn] at h1
    | some r =>
      rw [selectIn_target target ht] at h1
      rcases searchRepo_spec target ht r (hv _ hmem r rfl) with ⟨b, hb, hs⟩ | ⟨hb, hs⟩
      · rw [hs] at h1
        cases h1
        refine ⟨before, r, after, b, heq, hb, rfl, fun p hp => (hnone p ?_).1 (h2 p hp)⟩
        rw [heq]
        exact List.mem_append_left _ hp
      · rw [hs] at h1
        cases h1
  · rintro ⟨before, r, after, b, heq, hb, hlabel, h2⟩
    have hmem : (i, some r) ∈ repos := by rw [heq]; simp
    refine ⟨before, some r, after, heq, ?_, fun p hp => (hnone p ?_).2 (h2 p hp)⟩
    · rw [selectIn_target target ht]
      rcases searchRepo_spec target ht r (hv _ hmem r rfl) with ⟨c, hc, hs⟩ | ⟨hc, _⟩
      · rw [hs, newest_unique target r c b hc hb, hlabel]
      · exact absurd hb (hc b)
    · rw [heq]
      exact List.mem_append_left _ hp

/-- Without a usable backup the restore fails. -/
theorem c23_target_none (target : Target') (ht : target ≠ .other) (repos : List (Nat × Option SetRepo))
    (hv : ∀ p ∈ repos, ∀ r, p.2 = some r → LsnValid r) (hno : ∀ p ∈ repos, ∀ r, p.2 = some r → ∀ b, ¬ Newest target r b) :
    backupSet target none repos = .error .backupSetInvalid := by
  refine backupSet_none target none repos (fun p hp => ?_)
  cases hi : p.2 with
  | none => rfl
  | some r =>
    rw [selectIn_target target ht]
    rcases searchRepo_spec target ht r (hv p hp r hi) with ⟨b, hb, _⟩ | ⟨_, hs⟩
    · exact absurd hb (hno p hp r hi b)
    · exact hs

/-- With a time target any usable backup gives a newest usable backup, so it is found. -/
theorem c23_time_found (t : Int) (repos : List (Nat × Option SetRepo))
    (hv : ∀ p ∈ repos, ∀ r, p.2 = some r → LsnValid r) (i : Nat) (r : SetRepo) (b : SetBackup)
    (hr : (i, some r) ∈ repos) (hb : b ∈ r.backups) (hu : b.stop < t) :
    ∃ j r' c, (j, some r') ∈ repos ∧ c ∈ r'.backups ∧ c.stop < t ∧ backupSet (.time t) none repos = .ok (j, c.label) := by
  have hex : ∃ p ∈ repos, ∃ r, p.2 = some r ∧ ∃ b, Newest (.time t) r b := by
    refine ⟨_, hr, r, rfl, ?_⟩
    rcases searchRepo_spec (.time t) (by simp) r (hv _ hr r rfl) with ⟨c, hc, _⟩ | ⟨hc, _⟩
    · exact ⟨c, hc⟩
    · exfalso
      obtain ⟨o, n, heq⟩ := List.append_of_mem hb
      -- take the last usable backup
      have hlast : ∀ (k : Nat) (older newer : List SetBackup) (c : SetBackup), newer.length ≤ k → r.backups = older ++ c :: newer →
          c.stop < t → ∃ d, Newest (.time t) r d := by
        intro k
        induction k with
        | zero =>
          intro older newer c hl heq hc
          have : newer = [] := List.eq_nil_of_length_eq_zero (by omega)
          subst this
          exact ⟨c, older, [], heq, hc, (fun n hn => by cases hn), (fun l hl => by cases hl)⟩
        | succ k ih =>
          intro older newer c hl heq hc
          by_cases hall : ∀ n ∈ newer, ¬ n.stop < t
          · exact ⟨c, older, newer, heq, hc, hall, fun l hl => by cases hl⟩
          · have : ∃ n ∈ newer, n.stop < t := Classical.byContradiction (fun h => hall (fun n hn hlt => h ⟨n, hn, hlt⟩))
            obtain ⟨d, hd, hdt⟩ := this
            obtain ⟨a, b', hab⟩ := List.append_of_mem hd
            refine ih (older ++ c :: a) b' d ?_ ?_ hdt
            · rw [hab] at hl
              simp at hl
              omega
            · rw [heq, hab]
              simp
      obtain ⟨d, hd⟩ := hlast n.length o n b (Nat.le_refl _) heq hu
      exact hc d hd
  cases hres : backupSet (.time t) none repos with
  | ok p =>
    obtain ⟨j, label⟩ := p
    obtain ⟨before, r', after, c, heq, hnew, rfl, _⟩ := (c23_target (.time t) (by simp) repos hv j label).1 hres
    obtain ⟨o, n, hbs, huc, _⟩ := hnew
    exact ⟨j, r', c, by rw [heq]; simp, by rw [hbs]; simp, huc, rfl⟩
  | error e =>
    exfalso
    -- the first repository with a usable backup is chosen
    have hfirst : ∀ l : List (Nat × Option SetRepo), (∀ p ∈ l, ∀ r, p.2 = some r → LsnValid r) →
        (∃ p ∈ l, ∃ r, p.2 = some r ∧ ∃ b, Newest (.time t) r b) → ∃ x, backupSet (.time t) none l = .ok x := by
      intro l
      induction l with
      | nil => rintro _ ⟨p, hp, _⟩; cases hp
      | cons q l ih =>
        intro hv hex
        obtain ⟨j, info⟩ := q
        rw [backupSet]
        cases info with
        | none =>
          refine ih (fun p hp => hv p (List.mem_cons_of_mem _ hp)) ?_
          obtain ⟨p, hp, r, hpr, hb⟩ := hex
          rcases List.mem_cons.1 hp with rfl | hp
          · cases hpr
          · exact ⟨p, hp, r, hpr, hb⟩
        | some r =>
          rw [selectIn_target _ (by simp)]
          rcases searchRepo_spec (.time t) (by simp) r (hv _ List.mem_cons_self r rfl) with ⟨c, hc, hs⟩ | ⟨hc, hs⟩
          · rw [hs]
            exact ⟨_, rfl⟩
          · rw [hs]
            refine ih (fun p hp => hv p (List.mem_cons_of_mem _ hp)) ?_
            obtain ⟨p, hp, r', hpr, b, hb⟩ := hex
            rcases List.mem_cons.1 hp with rfl | hp
            · cases hpr
              exact absurd hb (hc b)
            · exact ⟨p, hp, r', hpr, b, hb⟩
    obtain ⟨x, hx⟩ := hfirst repos hv hex
    rw [hres] at hx
    cases hx

/-- Without a target the newest backup of the first repository with backups is chosen, unless it is from a prior cluster. -/
theorem c23_latest (repos : List (Nat × Option SetRepo)) (i : Nat) (label : Str) :
    backupSet .other none repos = .ok (i, label) ↔
      ∃ before r after b, repos = before ++ (i, some r) :: after ∧ r.backups.getLast? = some b ∧ b.label = label ∧ r.pgId ≤ b.pgId ∧
        ∀ p ∈ before, ∀ r', p.2 = some r' → r'.backups = [] := by
  have hnone : ∀ info : Option SetRepo, selectIn .other none info = .ok none ↔ ∀ r, info = some r → r.backups = [] := by
    intro info
    unfold selectIn
    cases info with
    | none => simp
    | some r =>
      dsimp only
      cases hr : r.backups.reverse with
      | nil => simpa using hr
      | cons b bs =>
        simp only [Option.some.injEq, forall_eq']
        have : r.backups ≠ [] := fun h => by rw [h] at hr; cases hr
        simp only [this, iff_false]
        split <;> simp
  rw [backupSet_first]
  constructor
  · rintro ⟨before, info, after, heq, h1, h2⟩
    cases info with
    | none => simp [selectIn] at h1
    | some r =>
      unfold selectIn at h1
      dsimp only at h1
      cases hr : r.backups.reverse with
      | nil => rw [hr] at h1; cases h1
      | cons b bs =>
        rw [hr] at h1
        dsimp only at h1
        split at h1
        · cases h1
        · rename_i hlt
          cases h1
          refine ⟨before, r, after, b, heq, ?_, rfl, by omega, fun p hp => (hnone p.2).1 (h2 p hp)⟩
          rw [List.getLast?_eq_head?_reverse, hr]
          rfl
  · rintro ⟨before, r, after, b, heq, hl, rfl, hle, h2⟩
    refine ⟨before, some r, after, heq, ?_, fun p hp => (hnone p.2).2 (h2 p hp)⟩
    unfold selectIn
    dsimp only
    rw [List.getLast?_eq_head?_reverse] at hl
    cases hr : r.backups.reverse with
    | nil => rw [hr] at hl; cases hl
    | cons c bs =>
      rw [hr] at hl
      cases hl
      dsimp only
      rw [if_neg (by omega)]

/-- A requested set is used from the first repository that lists it, and only if some repository does. -/
theorem c23_set (target : Target') (s : Str) (repos : List (Nat × Option SetRepo)) (i : Nat) (label : Str) :
    backupSet target (some s) repos = .ok (i, label) ↔
      label = s ∧ ∃ before r after, repos = before ++ (i, some r) :: after ∧ (∃ b ∈ r.backups, b.label = s) ∧
        ∀ p ∈ before, ∀ r', p.2 = some r' → ∀ b ∈ r'.backups, b.label ≠ s := by
  have hsel : ∀ r : SetRepo, selectIn target (some s) (some r) =
      if r.backups.any (fun b => b.label == s) then .ok (some s) else .ok none := by
    intro r
    unfold selectIn
    dsimp only
    cases hr : r.backups.reverse with
    | nil =>
      have : r.backups = [] := by simpa using hr
      rw [this]
      rfl
    | cons b bs => rfl
  have hnone : ∀ info : Option SetRepo, selectIn target (some s) info = .ok none ↔
      ∀ r, info = some r → ∀ b ∈ r.backups, b.label ≠ s := by
    intro info
    cases info with
    | none => simp [selectIn]
    | some r =>
      rw [hsel]
      by_cases h : r.backups.any (fun b => b.label == s) = true
      · rw [if_pos h]
        simp only [List.any_eq_true, beq_iff_eq] at h
        obtain ⟨b, hb, hbl⟩ := h
        constructor
        · intro h; cases h
        · intro h; exact absurd hbl (h r rfl b hb)
      · rw [if_neg h]
        simp only [List.any_eq_true, beq_iff_eq, not_exists, not_and] at h
        simp only [Option.some.injEq, forall_eq', true_iff]
        exact h
  rw [backupSet_first]
  constructor
  · rintro ⟨before, info, after, heq, h1, h2⟩
    cases info with
    | none => simp [selectIn] at h1
    | some r =>
      rw [hsel] at h1
      by_cases h : r.backups.any (fun b => b.label == s) = true
      · rw [if_pos h] at h1
        cases h1
        simp only [List.any_eq_true, beq_iff_eq] at h
        exact ⟨rfl, before, r, after, heq, h, fun p hp => (hnone p.2).1 (h2 p hp)⟩
      · rw [if_neg h] at h1
        cases h1
  · rintro ⟨rfl, before, r, after, heq, h, h2⟩
    refine ⟨before, some r, after, heq, ?_, fun p hp => (hnone p.2).2 (h2 p hp)⟩
    rw [hsel, if_pos (by simpa using h)]

/-- A set no repository lists is an error. -/
theorem c23_set_unlisted (target : Target') (s : Str) (repos : List (Nat × Option SetRepo))
    (h : ∀ p ∈ repos, ∀ r, p.2 = some r → ∀ b ∈ r.backups, b.label ≠ s) :
    backupSet target (some s) repos = .error .backupSetInvalid := by
  refine backupSet_none _ _ _ (fun p hp => ?_)
  unfold selectIn
  cases hi : p.2 with
  | none => rfl
  | some r =>
    dsimp only
    cases hr : r.backups.reverse with
    | nil => rfl
    | cons b bs =>
      dsimp only
      rw [if_neg]
      simp only [List.any_eq_true, beq_iff_eq, not_exists, not_and]
      exact h p hp r hi

/-! ## Concrete cases: an unreadable repository, one with too new backups only, one with two usable backups -/

def exOld : SetBackup := ⟨[0x31], 100, some [0x30, 0x2f, 0x31], 1⟩
def exMid : SetBackup := ⟨[0x32], 200, some [0x30, 0x2f, 0x32], 1⟩
def exNew : SetBackup := ⟨[0x33], 300, some [0x30, 0x2f, 0x33], 1⟩
def exRepos : List (Nat × Option SetRepo) := [(0, none), (1, some ⟨[exNew], 1⟩), (2, some ⟨[exOld, exMid, exNew], 1⟩)]

theorem exRepos_valid : ∀ p ∈ exRepos, ∀ r, p.2 = some r → LsnValid r := by
  have hb : ∀ b, b = exOld ∨ b = exMid ∨ b = exNew → ∀ s, b.lsnStop = some s → ∃ v, lsnFromStr s = .ok v := by
    rintro b (rfl | rfl | rfl) s hs <;> cases hs
    · exact ⟨1, by decide +kernel⟩
    · exact ⟨2, by decide +kernel⟩
    · exact ⟨3, by decide +kernel⟩
  intro p hp r hr b hbm
  simp only [exRepos, List.mem_cons, List.not_mem_nil, or_false] at hp
  rcases hp with rfl | rfl | rfl
  · cases hr
  · cases hr
    simp only [List.mem_cons, List.not_mem_nil, or_false] at hbm
    exact hb b (.inr (.inr hbm))
  · cases hr
    simp only [List.mem_cons, List.not_mem_nil, or_false] at hbm
    exact hb b hbm

/-- Strictly before the stop time of `exNew`; at the stop position of `exMid`. -/
example : (∀ p ∈ exRepos, ∀ r, p.2 = some r → LsnValid r) ∧ backupSet (.time 300) none exRepos = .ok (2, [0x32]) ∧
    backupSet (.time 301) none exRepos = .ok (1, [0x33]) ∧ backupSet (.lsn 2) none exRepos = .ok (2, [0x32]) ∧
    backupSet (.time 100) none exRepos = .error .backupSetInvalid ∧ backupSet .other none exRepos = .ok (1, [0x33]) ∧
    backupSet (.time 100) (some [0x31]) exRepos = .ok (2, [0x31]) ∧
    backupSet .other (some [0x39]) exRepos = .error .backupSetInvalid :=
  ⟨exRepos_valid, by decide +kernel⟩

/-- A backup from a prior version of PostgreSQL is not selected by default. -/
example : backupSet .other none [(0, some ⟨[exNew], 2⟩)] = .error .backupSetInvalid := by decide +kernel

end Verif.Restore
