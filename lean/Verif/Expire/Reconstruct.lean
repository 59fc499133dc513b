import Verif.Expire.Command

/-! # C52: reconstruction of the backup list from the repository -/

namespace Verif.Expire

open Verif.Label

/-! ## Model -/

/-- A directory of the repository: its name and the backup described by its manifest, when there is one (without
`.copy`). -/
abbrev RepoDir := Str × Option Backup

/-- `lstAdd` and `lstSort` at the end of `infoBackupDataAdd`, src/info/infoBackup.c:509-513. -/
def insertBackup (b : Backup) : List Backup → List Backup
  | [] => [b]
  | c :: rest => if b.label < c.label then b :: c :: rest else c :: insertBackup b rest

/-- The manifest of a label exists, src/info/infoBackup.c:821-823. -/
def manifestExists (disk : List RepoDir) (x : Str) : Bool := disk.any fun d => decide (d.1 = x) && d.2.isSome

/-- Lines 815-841 of `infoBackupLoadFileReconstruct`: remove the backups without a manifest and what is based on them. -/
def removeMissing (disk : List RepoDir) (l : List Backup) : List Backup :=
  (sortAsc (l.map Backup.label)).foldl
    (fun s x => if !manifestExists disk x && labelExists s x then expireBackup s x else s) l

/-- `infoBackupSetExists`, src/info/infoBackup.c:766-785. -/
def setExists (l : List Backup) (full : Str) : Bool := l.any fun b => decide (full <+: b.label)

/-- Line 880: the backup is based on nothing or on a listed backup. -/
def priorOk (l : List Backup) : Option Str → Bool
  | none => true
  | some p => labelExists l p

/-- Lines 860-891: add the backup if it has a manifest and matches. `known` tells if the database of the manifest is in
the history. -/
def addManifest (known : Backup → Bool) (l : List Backup) : Option Backup → List Backup
  | none => l
  | some m => if known m && priorOk l m.prior then insertBackup m l else l

/-- Lines 847-893: add the backups that are in the repository but not in the list. -/
def addFound (known : Backup → Bool) (current : List Str) (disk : List RepoDir) (l : List Backup) : List Backup :=
  disk.foldl (fun s d =>
    if decide (d.1 ∉ current) && (decide (d.1.length = 16) || setExists s (d.1.take 16)) then addManifest known s d.2
    else s) l

/-- `infoBackupLoadFileReconstruct`, src/info/infoBackup.c:787-898, after the file has been loaded. `disk` is in label
order (line 806). -/
def reconstruct (known : Backup → Bool) (disk : List RepoDir) (l : List Backup) : List Backup :=
  let l1 := removeMissing disk l
  addFound known (sortAsc (l1.map Backup.label)) disk l1

/-! ## Specification -/

/-- The backup is in the repository with its manifest, its database is known (or it was listed), and the same holds for
all that it is based on. -/
inductive Usable (known : Backup → Bool) (disk : List RepoDir) (l : List Backup) : Backup → Prop
  | full {b : Backup} : (b.label, some b) ∈ disk → (b ∈ l ∨ known b = true) → b.prior = none → Usable known disk l b
  | dependent {a b : Backup} : (b.label, some b) ∈ disk → (b ∈ l ∨ known b = true) → b.prior = some a.label →
      Usable known disk l a → Usable known disk l b

/-- The repository and the list describe some of the backups `u` that were made: each manifest is that of the backup
the directory is named for, and the name starts with the name of the full backup. -/
structure Repo (u : List Backup) (disk : List RepoDir) (l : List Backup) : Prop where
  wf : WF u
  list : WF l
  listed : ∀ b ∈ l, b ∈ u
  sorted : StrictAsc (disk.map Prod.fst)
  manifest : ∀ d ∈ disk, ∀ m, d.2 = some m → m ∈ u ∧ m.label = d.1
  family : ∀ b ∈ u, ∀ p, b.prior = some p → p.take 16 = b.label.take 16

/-! ## Lemmas -/

theorem mem_insertBackup (b c : Backup) (l : List Backup) : c ∈ insertBackup b l ↔ c = b ∨ c ∈ l := by
  induction l with
  | nil => simp [insertBackup]
  | cons d l ih =>
    unfold insertBackup
    split
    · simp
    · rw [List.mem_cons, ih, List.mem_cons]
      constructor
      · rintro (h | h | h) <;> simp [h]
      · rintro (h | h | h) <;> simp [h]

theorem insertBackup_sorted {b : Backup} {l : List Backup} (h : StrictAsc (l.map Backup.label))
    (hn : ∀ c ∈ l, c.label ≠ b.label) : StrictAsc ((insertBackup b l).map Backup.label) := by
  induction l with
  | nil => simp [insertBackup, StrictAsc]
  | cons d l ih =>
    rw [List.map_cons, StrictAsc, List.pairwise_cons] at h
    unfold insertBackup
    split
    · rename_i hlt
      rw [List.map_cons, List.map_cons, StrictAsc, List.pairwise_cons]
      refine ⟨?_, List.pairwise_cons.2 h⟩
      intro x hx
      rcases List.mem_cons.1 hx with rfl | hx
      · exact hlt
      · exact Str.lt_trans hlt (h.1 x hx)
    · rename_i hge
      rw [List.map_cons, StrictAsc, List.pairwise_cons]
      refine ⟨?_, ih h.2 (fun c hc => hn c (by simp [hc]))⟩
      intro x hx
      obtain ⟨c, hc, rfl⟩ := List.mem_map.1 hx
      rcases (mem_insertBackup b c l).1 hc with rfl | hc
      · rcases Str.trichotomy d.label c.label with h1 | h1 | h1
        · exact h1
        · exact absurd h1 (hn d (by simp))
        · exact absurd h1 hge
      · exact h.1 _ (List.mem_map_of_mem hc)

theorem sublist_of_subset {l u : List Backup} (hl : StrictAsc (l.map Backup.label)) (hu : StrictAsc (u.map Backup.label))
    (hs : ∀ b ∈ l, b ∈ u) : l.Sublist u := by
  have : l = u.filter (fun b => decide (b ∈ l)) := by
    refine eq_of_mem hl (sorted_sublist List.filter_sublist hu) ?_
    intro b
    rw [List.mem_filter, decide_eq_true_eq]
    exact ⟨fun h => ⟨hs b h, h⟩, fun h => h.2⟩
  rw [this]
  exact List.filter_sublist

/-- Expiring a label that is not listed changes nothing. -/
theorem WF.expireBackup_unlisted {l : List Backup} (h : WF l) {x : Str} (hx : ¬ Listed l x) :
    Expire.expireBackup l x = l := by
  refine eq_of_mem (h.expireBackup x).sorted h.sorted ?_
  intro b
  rw [h.mem_expireBackup]
  refine ⟨fun hb => hb.1, fun hb => ⟨hb, fun ha => hx ?_⟩⟩
  exact h.anc_mem ha ⟨b, hb, rfl⟩

theorem removeMissing_eq {l : List Backup} (h : WF l) (disk : List RepoDir) :
    removeMissing disk l =
      ((l.map Backup.label).filter (fun x => !manifestExists disk x)).foldl expireBackup l := by
  unfold removeMissing
  rw [sortAsc_eq_self h.sorted]
  generalize l.map Backup.label = xs
  induction xs generalizing l with
  | nil => rfl
  | cons x xs ih =>
    rw [List.foldl_cons, List.filter_cons]
    by_cases hm : manifestExists disk x = true
    · simp only [hm, Bool.not_true, Bool.false_and, Bool.false_eq_true, if_false]
      exact ih h
    · rw [Bool.not_eq_true] at hm
      simp only [hm, Bool.not_false, Bool.true_and, if_true]
      by_cases hl : labelExists l x = true
      · rw [if_pos hl, List.foldl_cons]
        exact ih (h.expireBackup x)
      · rw [if_neg hl, List.foldl_cons, h.expireBackup_unlisted (fun hh => hl ((labelExists_iff l x).2 hh))]
        exact ih h

theorem Repo.manifestExists {u : List Backup} {disk : List RepoDir} {l : List Backup} (h : Repo u disk l) {b : Backup}
    (hb : b ∈ u) : manifestExists disk b.label = true ↔ (b.label, some b) ∈ disk := by
  unfold Expire.manifestExists
  rw [List.any_eq_true]
  constructor
  · rintro ⟨⟨d, m⟩, hd, he⟩
    rw [Bool.and_eq_true, decide_eq_true_eq] at he
    obtain ⟨e, hs⟩ := he
    simp only at e hs
    cases m with
    | none => simp at hs
    | some m =>
      obtain ⟨hm, hl⟩ := h.manifest _ hd m rfl
      simp only at hl
      have := h.wf.unique hm hb (by rw [hl, e])
      subst this
      rw [hl]; exact hd
  · intro hd
    exact ⟨_, hd, by simp⟩

theorem Usable.mem {known : Backup → Bool} {disk : List RepoDir} {l : List Backup} {b : Backup}
    (h : Usable known disk l b) : (b.label, some b) ∈ disk := by
  cases h <;> assumption

theorem Repo.mem_removeMissing {u : List Backup} {disk : List RepoDir} {l : List Backup} (h : Repo u disk l)
    (known : Backup → Bool) (b : Backup) :
    b ∈ removeMissing disk l ↔ b ∈ l ∧ Usable known disk l b := by
  rw [removeMissing_eq h.list]
  obtain ⟨-, -, hm⟩ := h.list.expireAll ((l.map Backup.label).filter (fun x => !Expire.manifestExists disk x))
  rw [hm]
  constructor
  · rintro ⟨hb, hr⟩
    refine ⟨hb, ?_⟩
    -- every listed ancestor has a manifest
    have hall : ∀ a ∈ l, Anc l a.label b.label → (a.label, some a) ∈ disk := by
      intro a ha hab
      rw [← h.manifestExists (h.listed a ha)]
      cases hx : Expire.manifestExists disk a.label with
      | true => rfl
      | false => exact absurd hab (hr a.label (List.mem_filter.2 ⟨List.mem_map_of_mem ha, by simp [hx]⟩))
    clear hr
    -- induction along the chain, by the length of the list below the label
    have key : ∀ n : Nat, ∀ c ∈ l, (l.filter fun d => decide (d.label < c.label)).length ≤ n →
        (∀ a ∈ l, Anc l a.label c.label → (a.label, some a) ∈ disk) → Usable known disk l c := by
      intro n
      induction n with
      | zero =>
        intro c hc hlen hall
        cases hp : c.prior with
        | none => exact .full (hall c hc .self) (.inl hc) hp
        | some p =>
          obtain ⟨a, ha, e, hlt, -⟩ := h.list.prior c hc p hp
          have : a ∈ l.filter fun d => decide (d.label < c.label) :=
            List.mem_filter.2 ⟨ha, by simpa [e] using hlt⟩
          have := List.length_pos_of_mem this
          omega
      | succ n ih =>
        intro c hc hlen hall
        cases hp : c.prior with
        | none => exact .full (hall c hc .self) (.inl hc) hp
        | some p =>
          obtain ⟨a, ha, e, hlt, -⟩ := h.list.prior c hc p hp
          refine .dependent (a := a) (hall c hc .self) (.inl hc) (by rw [hp, e]) (ih a ha ?_ ?_)
          · have hsub : (l.filter fun d => decide (d.label < a.label)).Sublist
                ((l.filter fun d => decide (d.label < c.label)).filter fun d => decide (d ≠ a)) := by
              rw [List.filter_filter]
              have : (l.filter fun d => decide (d.label < a.label)) =
                  (l.filter fun d => decide (d ≠ a) && decide (d.label < c.label)).filter
                    (fun d => decide (d.label < a.label)) := by
                rw [List.filter_filter]
                apply List.filter_congr
                intro d _
                by_cases hd : d.label < a.label
                · have h1 : d ≠ a := by rintro rfl; exact Str.lt_irrefl _ hd
                  have h2 : d.label < c.label := Str.lt_trans hd (e ▸ hlt)
                  simp [hd, h1, h2]
                · simp [hd]
              rw [this]
              exact List.filter_sublist
            have ham : a ∈ l.filter fun d => decide (d.label < c.label) :=
              List.mem_filter.2 ⟨ha, by simpa [e] using hlt⟩
            have hlt' : ((l.filter fun d => decide (d.label < c.label)).filter fun d => decide (d ≠ a)).length <
                (l.filter fun d => decide (d.label < c.label)).length := by
              refine Nat.lt_of_le_of_ne (List.length_filter_le _ _) ?_
              intro e
              have := List.length_filter_eq_length_iff.1 e a ham
              simp at this
            have := hsub.length_le
            omega
          · intro x hx hxa
            exact hall x hx (.step hc hp (e ▸ hxa))
    exact key _ b hb (Nat.le_refl _) hall
  · rintro ⟨hb, hu⟩
    refine ⟨hb, ?_⟩
    intro r hr ha
    obtain ⟨hr1, hr2⟩ := List.mem_filter.1 hr
    have hex : Expire.manifestExists disk r = true := by
      clear hr hr1 hr2
      induction hu with
      | @full b hd _ hp =>
        rcases h.list.anc_cases hb ha with e | ⟨p, hp', -⟩
        · rw [e, h.manifestExists (h.listed b hb)]; exact hd
        · rw [hp] at hp'; simp at hp'
      | @dependent a b hd _ hp hua ih =>
        rcases h.list.anc_cases hb ha with e | ⟨p, hp', ha'⟩
        · rw [e, h.manifestExists (h.listed b hb)]; exact hd
        · rw [hp] at hp'
          simp only [Option.some.injEq] at hp'
          subst hp'
          obtain ⟨a', ha1, e, -⟩ := h.list.prior b hb a.label hp
          have haU : a ∈ u := (h.manifest _ hua.mem a rfl).1
          have := h.wf.unique (h.listed a' ha1) haU e
          subst this
          exact ih ha1 ha'
    simp [hex] at hr2

theorem labelExists_of_mem {l : List Backup} {b : Backup} (h : b ∈ l) : labelExists l b.label = true :=
  (labelExists_iff l b.label).2 ⟨b, h, rfl⟩

/-- The loop over the directories: what has been added after a part of them. -/
theorem Repo.addFound {u : List Backup} {disk : List RepoDir} {l : List Backup} (h : Repo u disk l)
    (known : Backup → Bool) (done todo : List RepoDir) (e : disk = done ++ todo) (s : List Backup)
    (hs : StrictAsc (s.map Backup.label)) (hsu : ∀ b ∈ s, b ∈ u)
    (hm : ∀ b ∈ u, b ∈ s ↔ Usable known disk l b ∧ (b ∈ removeMissing disk l ∨ ∃ d ∈ done, d.1 = b.label)) :
    let r := Expire.addFound known (sortAsc ((removeMissing disk l).map Backup.label)) todo s
    StrictAsc (r.map Backup.label) ∧ (∀ b ∈ r, b ∈ u) ∧ ∀ b ∈ u, b ∈ r ↔ Usable known disk l b := by
  induction todo generalizing done s with
  | nil =>
    refine ⟨hs, hsu, ?_⟩
    intro b hb
    refine (hm b hb).trans ⟨fun h => h.1, fun hu => ⟨hu, .inr ⟨(b.label, some b), ?_, rfl⟩⟩⟩
    have := hu.mem
    rw [e] at this
    simpa using this
  | cons d todo ih =>
    have hd : d ∈ disk := by rw [e]; simp
    have hstep : ∀ s', StrictAsc (s'.map Backup.label) → (∀ b ∈ s', b ∈ u) →
        (∀ b ∈ u, b ∈ s' ↔ Usable known disk l b ∧
          (b ∈ removeMissing disk l ∨ (∃ c ∈ done, c.1 = b.label) ∨ d.1 = b.label)) →
        let r := Expire.addFound known (sortAsc ((removeMissing disk l).map Backup.label)) todo s'
        StrictAsc (r.map Backup.label) ∧ (∀ b ∈ r, b ∈ u) ∧ ∀ b ∈ u, b ∈ r ↔ Usable known disk l b := by
      intro s' hs' hsu' hm'
      refine ih (done ++ [d]) (by rw [e]; simp) s' hs' hsu' ?_
      intro b hb
      rw [hm' b hb]
      constructor
      · rintro ⟨h1, h2 | ⟨c, hc, h2⟩ | h2⟩
        · exact ⟨h1, .inl h2⟩
        · exact ⟨h1, .inr ⟨c, by simp [hc], h2⟩⟩
        · exact ⟨h1, .inr ⟨d, by simp, h2⟩⟩
      · rintro ⟨h1, h2 | ⟨c, hc, h2⟩⟩
        · exact ⟨h1, .inl h2⟩
        · rcases List.mem_append.1 hc with hc | hc
          · exact ⟨h1, .inr (.inl ⟨c, hc, h2⟩)⟩
          · simp only [List.mem_singleton] at hc
            subst hc
            exact ⟨h1, .inr (.inr h2)⟩
    -- when nothing is added
    have hskip : (∀ b ∈ u, d.1 = b.label → Usable known disk l b → b ∈ s) →
        let r := Expire.addFound known (sortAsc ((removeMissing disk l).map Backup.label)) todo s
        StrictAsc (r.map Backup.label) ∧ (∀ b ∈ r, b ∈ u) ∧ ∀ b ∈ u, b ∈ r ↔ Usable known disk l b := by
      intro hno
      refine hstep s hs hsu ?_
      intro b hb
      constructor
      · intro hbs
        obtain ⟨h1, h2⟩ := (hm b hb).1 hbs
        exact ⟨h1, h2.elim .inl (fun h => .inr (.inl h))⟩
      · rintro ⟨h1, h2 | h2 | h2⟩
        · exact (hm b hb).2 ⟨h1, .inl h2⟩
        · exact (hm b hb).2 ⟨h1, .inr h2⟩
        · exact hno b hb h2 h1
    -- directories have different names
    have hdir : ∀ b, (d.1, some b) ∈ disk → d.2 = some b := by
      intro b hb
      have hnd : (disk.map Prod.fst).Nodup := h.sorted.nodup
      have hp := List.Pairwise.of_map (S := (· ≠ ·)) (R := fun a b : RepoDir => a = b ∨ a.1 ≠ b.1) Prod.fst
        (fun a b hne => .inr hne) hnd
      have : d = (d.1, some b) := by
        have key : ∀ (xs : List RepoDir), (xs.map Prod.fst).Nodup → ∀ x ∈ xs, ∀ y ∈ xs, x.1 = y.1 → x = y := by
          intro xs
          induction xs with
          | nil => simp
          | cons z xs ih =>
            intro hn x hx y hy hxy
            rw [List.map_cons, List.nodup_cons] at hn
            rcases List.mem_cons.1 hx with rfl | hx' <;> rcases List.mem_cons.1 hy with rfl | hy'
            · rfl
            · exact absurd (hxy ▸ List.mem_map_of_mem hy') hn.1
            · exact absurd (hxy ▸ List.mem_map_of_mem hx') hn.1
            · exact ih hn.2 x hx' y hy' hxy
        exact key disk hnd d hd _ hb rfl
      rw [this]
    have hmr := fun b => h.mem_removeMissing known b
    show let r := Expire.addFound known (sortAsc ((removeMissing disk l).map Backup.label)) (d :: todo) s
      StrictAsc (r.map Backup.label) ∧ (∀ b ∈ r, b ∈ u) ∧ ∀ b ∈ u, b ∈ r ↔ Usable known disk l b
    unfold Expire.addFound
    rw [List.foldl_cons]
    by_cases hcur : d.1 ∈ sortAsc ((removeMissing disk l).map Backup.label)
    · rw [if_neg (by simp [hcur])]
      refine hskip ?_
      intro b hb hl hu
      rw [mem_sortAsc, List.mem_map] at hcur
      obtain ⟨c, hc, hcl⟩ := hcur
      have hcu := h.listed c ((hmr c).1 hc).1
      have := h.wf.unique hcu hb (hcl.trans hl)
      subst this
      exact (hm c hb).2 ⟨hu, .inl hc⟩
    · have hnotl : ∀ b ∈ u, d.1 = b.label → b ∉ removeMissing disk l := by
        intro b hb hl hbm
        exact hcur (mem_sortAsc.2 (hl ▸ List.mem_map_of_mem hbm))
      cases hman : d.2 with
      | none =>
        have : ∀ b ∈ u, d.1 = b.label → Usable known disk l b → b ∈ s := by
          intro b hb hl hu
          have hx := hu.mem
          rw [← hl] at hx
          have := hdir b hx
          rw [hman] at this
          simp at this
        split
        · exact hskip this
        · exact hskip this
      | some m =>
        obtain ⟨hmu, hml⟩ := h.manifest d hd m hman
        -- what it is based on has been processed
        have hprior : ∀ a, m.prior = some a.label → Usable known disk l a → a ∈ s := by
          intro a hp hua
          have hau := (h.manifest _ hua.mem a rfl).1
          refine (hm a hau).2 ⟨hua, .inr ⟨(a.label, some a), ?_, rfl⟩⟩
          obtain ⟨a', ha', e', hlt, -⟩ := h.wf.prior m hmu _ hp
          have hmem := hua.mem
          rw [e] at hmem
          rcases List.mem_append.1 hmem with hx | hx
          · exact hx
          · exfalso
            have hso := h.sorted
            rw [e, List.map_append, StrictAsc, List.pairwise_append] at hso
            rcases List.mem_cons.1 hx with hx | hx
            · have : a.label = d.1 := congrArg Prod.fst hx
              rw [this, ← hml] at hlt
              exact Str.lt_irrefl _ hlt
            · have := (List.pairwise_cons.1 hso.2.1).1 a.label (List.mem_map_of_mem (f := Prod.fst) hx)
              rw [← hml] at this
              exact Str.lt_asymm this hlt
        have huse : Usable known disk l m ↔ known m = true ∧
            (m.prior = none ∨ ∃ a ∈ s, m.prior = some a.label) := by
          constructor
          · intro hu
            have hk : m ∈ l ∨ known m = true := by cases hu <;> assumption
            have hk' : known m = true := by
              rcases hk with hk | hk
              · exact absurd ((hmr m).2 ⟨hk, hu⟩) (hnotl m hmu hml.symm)
              · exact hk
            refine ⟨hk', ?_⟩
            cases hu with
            | full _ _ hp => exact .inl hp
            | @dependent a _ _ _ hp hua => exact .inr ⟨a, hprior a hp hua, hp⟩
          · rintro ⟨hk, hp | ⟨a, ha, hp⟩⟩
            · exact .full (by rw [hml, ← hman]; exact hd) (.inr hk) hp
            · exact .dependent (by rw [hml, ← hman]; exact hd) (.inr hk) hp ((hm a (hsu a ha)).1 ha).1
        have honly : ∀ b ∈ u, d.1 = b.label → b = m := fun b hb hl => h.wf.unique hb hmu (by rw [hml, hl])
        by_cases hmm : m ∈ s
        · exact absurd hmm (by
            intro hms
            obtain ⟨hu, hx | ⟨c, hc, hcl⟩⟩ := (hm m hmu).1 hms
            · exact hnotl m hmu hml.symm hx
            · have hso := h.sorted
              rw [e, List.map_append, StrictAsc, List.pairwise_append] at hso
              have := hso.2.2 c.1 (List.mem_map_of_mem hc) d.1 (by simp)
              rw [hcl, hml] at this
              exact Str.lt_irrefl _ this)
        · have hcond : (known m && priorOk s m.prior) = true ↔
              Usable known disk l m := by
            rw [huse, Bool.and_eq_true]
            cases hp : m.prior with
            | none => simp [priorOk]
            | some p =>
              simp only [priorOk, labelExists_iff, Option.some.injEq, reduceCtorEq, false_or]
              constructor
              · rintro ⟨h1, a, ha, hal⟩; exact ⟨h1, a, ha, hal.symm⟩
              · rintro ⟨h1, a, ha, hal⟩; exact ⟨h1, a, ha, hal.symm⟩
          by_cases hu : Usable known disk l m
          · -- the check for the set passes
            have hset : (decide (d.1.length = 16) || setExists s (d.1.take 16)) = true := by
              rw [Bool.or_eq_true]
              rcases (huse.1 hu).2 with hp | ⟨a, ha, hp⟩
              · left
                have hf := (h.wf.full m hmu).2 hp
                rw [hml] at hf
                simp only [isFull, Bool.and_eq_true, beq_iff_eq] at hf
                simpa using hf.1.1
              · right
                unfold setExists
                rw [List.any_eq_true]
                refine ⟨a, ha, ?_⟩
                have hfam := h.family m hmu _ hp
                rw [hml] at hfam
                rw [← hfam]
                simpa using List.take_prefix 16 a.label
            rw [if_pos (by rw [hset]; simp [hcur]), addManifest, if_pos (hcond.2 hu)]
            refine hstep _ (insertBackup_sorted hs ?_) ?_ ?_
            · intro c hc hcl
              have := h.wf.unique (hsu c hc) hmu hcl
              exact hmm (this ▸ hc)
            · intro c hc
              rcases (mem_insertBackup m c s).1 hc with rfl | hc
              · exact hmu
              · exact hsu c hc
            · intro b hb
              rw [mem_insertBackup]
              constructor
              · rintro (rfl | hbs)
                · exact ⟨hu, .inr (.inr hml.symm)⟩
                · obtain ⟨h1, h2⟩ := (hm b hb).1 hbs
                  exact ⟨h1, h2.elim .inl (fun h => .inr (.inl h))⟩
              · rintro ⟨h1, h2 | h2 | h2⟩
                · exact .inr ((hm b hb).2 ⟨h1, .inl h2⟩)
                · exact .inr ((hm b hb).2 ⟨h1, .inr h2⟩)
                · exact .inl (honly b hb h2)
          · have hno : ∀ b ∈ u, d.1 = b.label → Usable known disk l b → b ∈ s := by
              intro b hb hl hub
              exact absurd (honly b hb hl ▸ hub) hu
            split
            · rw [addManifest, if_neg (fun hc => hu (hcond.1 hc))]
              exact hskip hno
            · exact hskip hno

/-! ## Theorem -/

/-- The reconstructed list is well formed and closed under dependencies, and it consists of exactly the usable
backups: those that are in the repository with a manifest, are of a known database (or were listed), and are based on
backups for which the same holds. -/
theorem c52_reconstruct (u : List Backup) (disk : List RepoDir) (l : List Backup) (h : Repo u disk l)
    (known : Backup → Bool) :
    WF (reconstruct known disk l) ∧ Closed (reconstruct known disk l) ∧ (reconstruct known disk l).Sublist u ∧
    ∀ b ∈ u, b ∈ reconstruct known disk l ↔ Usable known disk l b := by
  have hw : WF (removeMissing disk l) := by
    rw [removeMissing_eq h.list]
    exact (h.list.expireAll _).1
  obtain ⟨h1, h2, h3⟩ := h.addFound known [] disk rfl (removeMissing disk l) hw.sorted
    (fun b hb => h.listed b ((h.mem_removeMissing known b).1 hb).1) (by
      intro b _
      constructor
      · intro hb
        exact ⟨((h.mem_removeMissing known b).1 hb).2, .inl hb⟩
      · rintro ⟨-, hb | ⟨d, hd, -⟩⟩
        · exact hb
        · simp at hd)
  have hsub : (reconstruct known disk l).Sublist u := sublist_of_subset h1 h.wf.sorted h2
  have hwf : WF (reconstruct known disk l) := by
    refine h.wf.sublist hsub ?_
    intro b hb p hp
    have hu := (h3 b (h2 b hb)).1 hb
    cases hu with
    | full _ _ hn => rw [hp] at hn; simp at hn
    | @dependent a _ _ _ hp' hua =>
      rw [hp] at hp'
      simp only [Option.some.injEq] at hp'
      exact ⟨a, (h3 a (h.manifest _ hua.mem a rfl).1).2 hua, hp'.symm⟩
  exact ⟨hwf, hwf.closed, hsub, h3⟩

-- the first full backup has lost its manifest, the second set was never listed, the last is of an unknown database
example : reconstruct (fun b => decide (b.label ≠ sF3.label)) [(sF1.label, none), (sD1.label, some sD1),
    (sI1.label, some sI1), (sF2.label, some sF2), (sD2.label, some sD2), (sF3.label, some sF3)] [sF1, sD1, sI1] =
    [sF2, sD2] := by decide

theorem sample_repo : Repo sampleList [(sF1.label, none), (sD1.label, some sD1), (sI1.label, some sI1),
    (sF2.label, some sF2), (sD2.label, some sD2), (sF3.label, some sF3)] [sF1, sD1, sI1] where
  wf := sample_wf
  list := sample_wf.sublist (by
      show [sF1, sD1, sI1].Sublist ([sF1, sD1, sI1] ++ [sF2, sD2, sF3])
      exact List.sublist_append_left _ _) (by
    intro b hb p hp
    simp only [List.mem_cons, List.not_mem_nil, or_false] at hb
    rcases hb with rfl | rfl | rfl
    · simp [sF1, sampleBackup] at hp
    · simp only [sD1, sampleBackup, Option.some.injEq] at hp
      exact ⟨sF1, by simp, hp⟩
    · simp only [sI1, sampleBackup, Option.some.injEq] at hp
      exact ⟨sD1, by simp, hp⟩)
  listed := by decide
  sorted := by simp only [StrictAsc, List.map_cons, List.map_nil, List.pairwise_cons]; decide
  manifest := by
    intro d hd m hm
    simp only [List.mem_cons, List.not_mem_nil, or_false] at hd
    rcases hd with rfl | rfl | rfl | rfl | rfl | rfl <;> simp only [reduceCtorEq, Option.some.injEq] at hm <;>
      subst hm <;> exact ⟨by decide, rfl⟩
  family := by
    intro b hb p hp
    simp only [sampleList, List.mem_cons, List.not_mem_nil, or_false] at hb
    rcases hb with rfl | rfl | rfl | rfl | rfl | rfl <;>
      simp only [sF1, sD1, sI1, sF2, sD2, sF3, sampleBackup, reduceCtorEq, Option.some.injEq] at hp <;>
      subst hp <;> decide

end Verif.Expire
