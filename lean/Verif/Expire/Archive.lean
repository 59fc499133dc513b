import Verif.Expire.Retention

/-! # C10: expiration of archived WAL -/

namespace Verif.Expire

open Verif.Label

/-! ## Specification -/

/-- Backups that count for archive retention of a type: a full backup counts for all types, a differential backup for
`diff` and `incr`. -/
def counts : Kind → Str → Bool
  | .full, x => isFull x
  | .diff, x => isFull x || isDiff x
  | .incr, x => isFull x || isDiff x || isIncr x

/-- The backups that count, oldest first. -/
def counting (kind : Kind) (l : List Backup) : List Backup := l.filter (fun b => counts kind b.label)

/-- The newest `n` backups that count. -/
def newest (kind : Kind) (n : Nat) (l : List Backup) : List Backup :=
  (counting kind l).drop ((counting kind l).length - n)

/-- `sel` is the backup that archive retention of a database is based on: the oldest backup of the database among the
newest `n` that count, or when there is none, the newest backup of the database that counts. -/
def Selected (kind : Kind) (n : Nat) (l : List Backup) (pgId : Nat) (sel : Backup) : Prop :=
  sel ∈ counting kind l ∧ sel.pgId = pgId ∧
  ((sel ∈ newest kind n l ∧ ∀ c ∈ newest kind n l, c.pgId = pgId → sel.label ≤ c.label) ∨
   ((∀ c ∈ newest kind n l, c.pgId ≠ pgId) ∧ ∀ c ∈ counting kind l, c.pgId = pgId → c.label ≤ sel.label))

/-- WAL segment `w` is needed: it is not before the start `start` of the selected backup, it is between start and stop
of an older backup of the database, or it is not before the segment requested with archive-expire-before. -/
def Needed (l : List Backup) (pgId : Nat) (sel : Backup) (start : Str) (before : Option Str) (w : Str) : Prop :=
  start ≤ w ∨
  (∃ b ∈ l, b.pgId = pgId ∧ b.label < sel.label ∧ ∃ s, b.archiveStart = some s ∧ s ≤ w ∧
    ∀ e, b.archiveStop = some e → w ≤ e) ∨
  (∃ x, before = some x ∧ x ≤ w)

/-- Backups of a database start in the order of their labels. -/
def StartOrder (l : List Backup) : Prop :=
  ∀ a ∈ l, ∀ b ∈ l, a.pgId = b.pgId → a.label ≤ b.label → ∀ s t, a.archiveStart = some s → b.archiveStart = some t →
    s ≤ t

/-! ## Lemmas -/

theorem matchRegExp_counts (kind : Kind) (x : Str) :
    (match kind with
      | .full => matchRegExp true false false
      | .diff => matchRegExp true true false
      | .incr => matchRegExp true true true) x = counts kind x := by
  cases kind <;> simp [matchRegExp, counts]

theorem WF.counting_sorted {l : List Backup} (h : WF l) (kind : Kind) :
    StrictAsc ((counting kind l).map Backup.label) := sorted_sublist List.filter_sublist h.sorted

theorem retentionList_eq {l : List Backup} (h : WF l) (kind : Kind) :
    retentionList kind l = ((counting kind l).map Backup.label).reverse := by
  have : retentionList kind l = sortDesc (labelList (counts kind) l) := by
    unfold retentionList
    congr 2
    funext x
    exact matchRegExp_counts kind x
  rw [this]
  unfold sortDesc
  rw [labelList_eq]
  exact congrArg List.reverse (sortAsc_eq_self (h.counting_sorted kind))

theorem WF.filter_label {l : List Backup} (h : WF l) {b : Backup} (hb : b ∈ l) :
    (l.filter fun c => decide (c.label = b.label)) = [b] := by
  refine eq_of_mem (sorted_sublist List.filter_sublist h.sorted) (by simp [StrictAsc]) ?_
  intro c
  simp only [List.mem_filter, decide_eq_true_eq, List.mem_singleton]
  constructor
  · rintro ⟨hc, e⟩; exact h.unique hc hb e
  · rintro rfl; exact ⟨hb, rfl⟩

/-- The loop over the backups of a list for each label of a sublist. -/
theorem WF.flatMap_label {l : List Backup} (h : WF l) (pgId : Nat) (xs : List Backup) (hx : ∀ b ∈ xs, b ∈ l) :
    ((xs.map Backup.label).flatMap fun x =>
      (l.filter fun b => decide (b.label = x) && decide (b.pgId = pgId)).map Backup.label) =
    (xs.filter fun b => decide (b.pgId = pgId)).map Backup.label := by
  induction xs with
  | nil => rfl
  | cons b xs ih =>
    rw [List.map_cons, List.flatMap_cons, ih (fun c hc => hx c (by simp [hc]))]
    have hf : (l.filter fun c => decide (c.label = b.label) && decide (c.pgId = pgId)) =
        [b].filter (fun c => decide (c.pgId = pgId)) := by
      rw [← h.filter_label (hx b (by simp)), List.filter_filter]
      congr 1
      funext c
      exact Bool.and_comm _ _
    rw [hf, List.filter_cons, List.filter_cons]
    by_cases hp : b.pgId = pgId
    · simp [hp]
    · simp [hp]

theorem WF.flatMap_select {l : List Backup} (h : WF l) (xs ys : List Backup) (hx : ∀ b ∈ xs, b ∈ l)
    (hy : ∀ b ∈ ys, b ∈ l) (hs : StrictAsc (ys.map Backup.label)) :
    ((xs.map Backup.label).flatMap fun x => (ys.map Backup.label).filter fun y => decide (x = y)) =
    (xs.filter fun b => decide (b ∈ ys)).map Backup.label := by
  induction xs with
  | nil => rfl
  | cons b xs ih =>
    rw [List.map_cons, List.flatMap_cons, ih (fun c hc => hx c (by simp [hc]))]
    rw [List.filter_cons]
    have hf : ((ys.map Backup.label).filter fun y => decide (b.label = y)) =
        (ys.filter fun c => decide (c = b)).map Backup.label := by
      rw [List.filter_map]
      congr 1
      apply List.filter_congr
      intro c hc
      simp only [Function.comp]
      by_cases e : c = b
      · simp [e]
      · have : ¬ b.label = c.label := fun e' => e (h.unique (hy c hc) (hx b (by simp)) e'.symm)
        simp [e, this]
    rw [hf]
    by_cases hb : b ∈ ys
    · have : (ys.filter fun c => decide (c = b)) = [b] := by
        refine eq_of_mem (sorted_sublist List.filter_sublist hs) (by simp [StrictAsc]) ?_
        intro c
        simp only [List.mem_filter, decide_eq_true_eq, List.mem_singleton]
        exact ⟨fun h => h.2, fun e => ⟨e ▸ hb, e⟩⟩
      rw [this]
      simp [hb]
    · have : (ys.filter fun c => decide (c = b)) = [] := by
        rw [List.filter_eq_nil_iff]
        intro c hc
        simp only [decide_eq_true_eq]
        rintro rfl
        exact hb hc
      rw [this]
      simp [hb]

theorem WF.selected_unique {l : List Backup} (h : WF l) {kind : Kind} {n pgId : Nat} {a b : Backup}
    (ha : Selected kind n l pgId a) (hb : Selected kind n l pgId b) : a = b := by
  obtain ⟨a1, a2, a3⟩ := ha
  obtain ⟨b1, b2, b3⟩ := hb
  have al := (List.mem_filter.1 a1).1
  have bl := (List.mem_filter.1 b1).1
  rcases a3 with ⟨a3, a4⟩ | ⟨a3, a4⟩
  · rcases b3 with ⟨b3, b4⟩ | ⟨b3, b4⟩
    · exact h.unique al bl (Str.le_antisymm (a4 b b3 b2) (b4 a a3 a2))
    · exact absurd a2 (b3 a a3)
  · rcases b3 with ⟨b3, b4⟩ | ⟨b3, b4⟩
    · exact absurd b2 (a3 b b3)
    · exact h.unique al bl (Str.le_antisymm (b4 a a1 a2) (a4 b b1 b2))

/-- The plan when retention is met, in terms of the selected backup. -/
def planOf (l : List Backup) (before : Option Str) (pgId : Nat) (sel : Backup) : Plan :=
  match sel.archiveStart with
  | none => .keep
  | some start =>
    .expire (rangeList sel (l.filter fun b => decide (b.pgId = pgId)) ++ (match before with
      | some w => if w < start then [⟨w, some start⟩] else []
      | none => [])) (some start) (some (start.take 8))

/-- Retention is met (or the request with archive-expire-before overrides it). -/
def Met (kind : Kind) (n : Nat) (l : List Backup) (before : Option Str) : Prop :=
  0 < n ∧ (before.isSome ∨ (counting kind l ≠ [] ∧ n ≤ (counting kind l).length))

theorem WF.archivePlan_selected {l : List Backup} (h : WF l) (kind : Kind) (n : Nat) (before : Option Str)
    (pgId cur : Nat) (hm : Met kind n l before) (sel : Backup) (hsel : Selected kind n l pgId sel) :
    archivePlan l kind n before pgId cur = .ok (planOf l before pgId sel) := by
  obtain ⟨hn, hmet⟩ := hm
  have hcl : ∀ b ∈ counting kind l, b ∈ l := fun b hb => (List.mem_filter.1 hb).1
  unfold archivePlan
  rw [if_neg (by omega)]
  simp only [retentionList_eq h kind]
  rw [if_pos (by simpa using hmet)]
  rw [List.reverse_reverse, h.flatMap_label pgId _ hcl]
  have hrev : (((counting kind l).map Backup.label).reverse.take
      (min n ((counting kind l).map Backup.label).reverse.length)).reverse = (newest kind n l).map Backup.label := by
    rw [List.take_reverse, List.reverse_reverse]
    unfold newest
    rw [List.map_drop]
    congr 1
    simp only [List.length_reverse, List.length_map]
    omega
  obtain ⟨loc, hloc⟩ : ∃ loc, (counting kind l).filter (fun b => decide (b.pgId = pgId)) = loc := ⟨_, rfl⟩
  have hlm : ∀ b, b ∈ loc ↔ b ∈ counting kind l ∧ b.pgId = pgId := by
    intro b; rw [← hloc, List.mem_filter, decide_eq_true_eq]
  have hls : StrictAsc (loc.map Backup.label) := by
    rw [← hloc]
    exact sorted_sublist (List.filter_sublist.trans List.filter_sublist) h.sorted
  have hns : StrictAsc ((newest kind n l).map Backup.label) :=
    sorted_sublist ((List.drop_sublist _ _).trans List.filter_sublist) h.sorted
  have hnl : ∀ b ∈ newest kind n l, b ∈ counting kind l := fun b hb => List.mem_of_mem_drop hb
  rw [hloc, hrev, h.flatMap_select _ loc (fun b hb => hcl b (hnl b hb)) (fun b hb => hcl b ((hlm b).1 hb).1) hls]
  have hselloc : sel ∈ loc := (hlm sel).2 ⟨hsel.1, hsel.2.1⟩
  obtain ⟨front, last, hlast⟩ : ∃ front last, loc = front ++ [last] := by
    cases hl : loc.getLast? with
    | none => rw [List.getLast?_eq_none_iff] at hl; rw [hl] at hselloc; simp at hselloc
    | some z =>
      obtain ⟨ys, hys⟩ := List.getLast?_eq_some_iff.1 hl
      exact ⟨ys, z, hys⟩
  have hgl : (loc.map Backup.label).getLast? = some last.label := by
    rw [hlast]; simp
  rw [hgl]
  simp only
  -- the label that is chosen is that of the selected backup
  have hchoice : (((newest kind n l).filter fun b => decide (b ∈ loc)).map Backup.label).headD last.label =
      sel.label := by
    obtain ⟨both, hboth⟩ : ∃ both, (newest kind n l).filter (fun b => decide (b ∈ loc)) = both := ⟨_, rfl⟩
    have hbm : ∀ b, b ∈ both ↔ b ∈ newest kind n l ∧ b.pgId = pgId := by
      intro b
      rw [← hboth, List.mem_filter, decide_eq_true_eq, hlm]
      exact ⟨fun ⟨h1, h2⟩ => ⟨h1, h2.2⟩, fun ⟨h1, h2⟩ => ⟨h1, hnl b h1, h2⟩⟩
    rw [hboth]
    cases hc : both with
    | nil =>
      simp only [List.map_nil, List.headD_nil]
      congr 1
      refine h.selected_unique (kind := kind) (n := n) (pgId := pgId) ?_ hsel
      have hll := (hlm last).1 (by rw [hlast]; simp)
      refine ⟨hll.1, hll.2, .inr ⟨?_, ?_⟩⟩
      · intro c hcn hcp
        have := (hbm c).2 ⟨hcn, hcp⟩
        rw [hc] at this
        simp at this
      · intro c hcc hcp
        have hcl' := (hlm c).2 ⟨hcc, hcp⟩
        rw [hlast] at hcl' hls
        rcases List.mem_append.1 hcl' with hx | hx
        · rw [List.map_append, StrictAsc, List.pairwise_append] at hls
          exact Str.le_of_lt (hls.2.2 _ (List.mem_map_of_mem hx) last.label (by simp))
        · simp only [List.mem_singleton] at hx
          rw [hx]; exact Str.le_refl _
    | cons f rest =>
      simp only [List.map_cons, List.headD_cons]
      congr 1
      refine h.selected_unique (kind := kind) (n := n) (pgId := pgId) ?_ hsel
      have hf := (hbm f).1 (by rw [hc]; simp)
      refine ⟨hnl f hf.1, hf.2, .inl ⟨hf.1, ?_⟩⟩
      intro c hcn hcp
      have hcb := (hbm c).2 ⟨hcn, hcp⟩
      have hbs : StrictAsc (both.map Backup.label) := by
        rw [← hboth]
        exact sorted_sublist ((List.filter_sublist.trans (List.drop_sublist _ _)).trans List.filter_sublist) h.sorted
      rw [hc] at hcb hbs
      rcases List.mem_cons.1 hcb with rfl | hcb
      · exact Str.le_refl _
      · rw [List.map_cons, StrictAsc, List.pairwise_cons] at hbs
        exact Str.le_of_lt (hbs.1 _ (List.mem_map_of_mem hcb))
  rw [hchoice, h.filter_label (hcl sel hsel.1)]
  simp only [List.getLast?_singleton, planOf]
  cases sel.archiveStart <;> rfl

theorem WF.archivePlan_none {l : List Backup} (h : WF l) (kind : Kind) (n : Nat) (before : Option Str)
    (pgId cur : Nat) (hm : Met kind n l before) (hnone : ∀ b ∈ counting kind l, b.pgId ≠ pgId) :
    archivePlan l kind n before pgId cur = .ok (if cur ≠ pgId then .removeAll else match before with
      | some w => .expire [⟨w, none⟩] none none
      | none => .keep) := by
  obtain ⟨hn, hmet⟩ := hm
  have hcl : ∀ b ∈ counting kind l, b ∈ l := fun b hb => (List.mem_filter.1 hb).1
  unfold archivePlan
  rw [if_neg (by omega)]
  simp only [retentionList_eq h kind]
  rw [if_pos (by simpa using hmet)]
  rw [List.reverse_reverse, h.flatMap_label pgId _ hcl]
  have : (counting kind l).filter (fun b => decide (b.pgId = pgId)) = [] := by
    rw [List.filter_eq_nil_iff]
    intro b hb
    simpa using hnone b hb
  rw [this]
  simp only [List.map_nil, List.getLast?_nil]
  cases before with
  | none => by_cases hc : cur = pgId <;> simp [hc]
  | some w => by_cases hc : cur = pgId <;> simp [hc]

theorem exists_selected (kind : Kind) (n : Nat) (l : List Backup) (h : WF l) (pgId : Nat)
    (hex : ∃ b ∈ counting kind l, b.pgId = pgId) : ∃ sel, Selected kind n l pgId sel := by
  have hnl : ∀ b ∈ newest kind n l, b ∈ counting kind l := fun b hb => List.mem_of_mem_drop hb
  by_cases hb : ∃ b ∈ newest kind n l, b.pgId = pgId
  · cases hf : (newest kind n l).filter (fun b => decide (b.pgId = pgId)) with
    | nil =>
      obtain ⟨b, hb, hp⟩ := hb
      rw [List.filter_eq_nil_iff] at hf
      simpa [hp] using hf b hb
    | cons f rest =>
      have hm : ∀ c, c ∈ newest kind n l ∧ c.pgId = pgId ↔ c = f ∨ c ∈ rest := by
        intro c
        rw [← List.mem_cons, ← hf, List.mem_filter, decide_eq_true_eq]
      have hs : StrictAsc ((f :: rest).map Backup.label) := by
        rw [← hf]
        exact sorted_sublist ((List.filter_sublist.trans (List.drop_sublist _ _)).trans List.filter_sublist) h.sorted
      rw [List.map_cons, StrictAsc, List.pairwise_cons] at hs
      have hff := (hm f).2 (.inl rfl)
      refine ⟨f, hnl f hff.1, hff.2, .inl ⟨hff.1, ?_⟩⟩
      intro c hc hp
      rcases (hm c).1 ⟨hc, hp⟩ with rfl | hc
      · exact Str.le_refl _
      · exact Str.le_of_lt (hs.1 _ (List.mem_map_of_mem hc))
  · cases hf : ((counting kind l).filter (fun b => decide (b.pgId = pgId))).reverse with
    | nil =>
      obtain ⟨b, hb, hp⟩ := hex
      rw [List.reverse_eq_nil_iff, List.filter_eq_nil_iff] at hf
      simpa [hp] using hf b hb
    | cons f rest =>
      have hm : ∀ c, c ∈ counting kind l ∧ c.pgId = pgId ↔ c = f ∨ c ∈ rest := by
        intro c
        rw [← List.mem_cons, ← hf, List.mem_reverse, List.mem_filter, decide_eq_true_eq]
      have hs : StrictAsc (((f :: rest).reverse).map Backup.label) := by
        rw [← hf, List.reverse_reverse]
        exact sorted_sublist (List.filter_sublist.trans List.filter_sublist) h.sorted
      rw [List.reverse_cons, List.map_append, StrictAsc, List.pairwise_append] at hs
      have hff := (hm f).2 (.inl rfl)
      refine ⟨f, hff.1, hff.2, .inr ⟨fun c hc hp => hb ⟨c, hc, hp⟩, ?_⟩⟩
      intro c hc hp
      rcases (hm c).1 ⟨hc, hp⟩ with rfl | hc
      · exact Str.le_refl _
      · exact Str.le_of_lt (hs.2.2 _ (List.mem_map_of_mem (List.mem_reverse.2 hc)) f.label (by simp))

/-- A range contains a segment. -/
def Range.has (r : Range) (w : Str) : Prop := r.start ≤ w ∧ ∀ e, r.stop = some e → w ≤ e

theorem inRange_of_has {r : Range} {w : Str} (h : r.has w) (n : Nat) : inRange n (w.take n) r = true := by
  unfold inRange
  rw [Bool.and_eq_true]
  refine ⟨by simpa using Str.take_le_take n h.1, ?_⟩
  cases hs : r.stop with
  | none => rfl
  | some e => simpa using Str.take_le_take n (h.2 e hs)

/-- A file is removed exactly when no range contains its segment, provided that all ranges are at or below the limit
or one range is open. -/
theorem walRemoved_iff (ranges : List Range) (max : Option Str) (name : Str) (hw : walFile name = true)
    (hmax : ∀ m, max = some m → ∃ r ∈ ranges, r.start = m ∧ r.stop = none) :
    walRemoved ranges max (name.take 16) name = true ↔ ∀ r ∈ ranges, ¬ r.has (name.take 24) := by
  have htt : (name.take 24).take 16 = name.take 16 := by rw [List.take_take]; rfl
  unfold walRemoved
  by_cases hany : ranges.any (inRange 16 (name.take 16)) = true
  · rw [hany]
    simp only [Bool.not_true, Bool.false_eq_true, if_false]
    have hper : ∀ r : Range, ((decide (r.start ≤ name.take 24) && (match r.stop with
        | none => true
        | some e => decide (name.take 24 ≤ e))) = true) ↔ r.has (name.take 24) := by
      intro r
      unfold Range.has
      rw [Bool.and_eq_true, decide_eq_true_eq]
      cases r.stop with
      | none => simp
      | some e => simp
    have hin : ((walFile name && !ranges.any fun r => decide (r.start ≤ name.take 24) && (match r.stop with
        | none => true
        | some e => decide (name.take 24 ≤ e))) = true) ↔ ∀ r ∈ ranges, ¬ r.has (name.take 24) := by
      rw [hw, Bool.true_and, Bool.not_eq_true', List.any_eq_false]
      constructor
      · intro hall r hr hh
        exact hall r hr ((hper r).2 hh)
      · intro hall r hr hh
        exact hall r hr ((hper r).1 hh)
    cases max with
    | none => exact hin
    | some m =>
      simp only [decide_eq_true_eq]
      by_cases hgt : name.take 16 ≤ m.take 16
      · rw [if_pos hgt]; exact hin
      · rw [if_neg hgt]
        refine ⟨fun h => by simp at h, ?_⟩
        intro hall
        obtain ⟨r, hr, h1, h2⟩ := hmax m rfl
        refine absurd ?_ (hall r hr)
        refine ⟨?_, by rw [h2]; intro e he; simp at he⟩
        rw [h1]
        rcases Str.le_total m (name.take 24) with hle | hle
        · exact hle
        · have := Str.take_le_take 16 hle
          rw [htt] at this
          exact absurd this hgt
  · rw [Bool.not_eq_true] at hany
    rw [hany]
    simp only [Bool.not_false, if_true, true_iff]
    intro r hr hh
    have := inRange_of_has hh 16
    rw [htt] at this
    rw [List.any_eq_false] at hany
    exact hany r hr this

theorem mem_rangeList (sel : Backup) (l : List Backup) (r : Range) :
    r ∈ rangeList sel l ↔ ∃ b ∈ l, ∃ s, b.archiveStart = some s ∧ b.label ≤ sel.label ∧
      r = ⟨s, if b.label = sel.label then none else b.archiveStop⟩ := by
  induction l with
  | nil => simp [rangeList]
  | cons b l ih =>
    unfold rangeList
    cases hs : b.archiveStart with
    | none =>
      simp only
      rw [ih]
      constructor
      · rintro ⟨c, hc, h1⟩; exact ⟨c, by simp [hc], h1⟩
      · rintro ⟨c, hc, s, h1, h2⟩
        rcases List.mem_cons.1 hc with rfl | hc
        · rw [hs] at h1; simp at h1
        · exact ⟨c, hc, s, h1, h2⟩
    | some s =>
      simp only
      by_cases hle : b.label ≤ sel.label
      · rw [if_pos hle, List.mem_cons, ih]
        constructor
        · rintro (rfl | ⟨c, hc, h1⟩)
          · exact ⟨b, by simp, s, hs, hle, rfl⟩
          · exact ⟨c, by simp [hc], h1⟩
        · rintro ⟨c, hc, s', h1, h2, h3⟩
          rcases List.mem_cons.1 hc with rfl | hc
          · rw [hs] at h1
            simp only [Option.some.injEq] at h1
            left; rw [h3, h1]
          · right; exact ⟨c, hc, s', h1, h2, h3⟩
      · rw [if_neg hle, ih]
        constructor
        · rintro ⟨c, hc, h1⟩; exact ⟨c, by simp [hc], h1⟩
        · rintro ⟨c, hc, s', h1, h2, h3⟩
          rcases List.mem_cons.1 hc with rfl | hc
          · exact absurd h2 hle
          · exact ⟨c, hc, s', h1, h2, h3⟩

/-! ## Theorems -/

/-- With retention met and a selected backup with archive, exactly the segments that are not needed are removed. -/
theorem c10_exact (l : List Backup) (h : WF l) (kind : Kind) (n : Nat) (before : Option Str) (pgId cur : Nat)
    (hm : Met kind n l before) (sel : Backup) (hsel : Selected kind n l pgId sel) (start : Str)
    (hstart : sel.archiveStart = some start) :
    ∃ p, archivePlan l kind n before pgId cur = .ok p ∧
      ∀ name, walFile name = true →
        (planRemoves p (name.take 16) name = true ↔ ¬ Needed l pgId sel start before (name.take 24)) := by
  refine ⟨_, h.archivePlan_selected kind n before pgId cur hm sel hsel, ?_⟩
  have hsl : sel ∈ l := (List.mem_filter.1 hsel.1).1
  intro name hw
  unfold planOf
  rw [hstart]
  simp only [planRemoves]
  have hself : (⟨start, none⟩ : Range) ∈ rangeList sel (l.filter fun b => decide (b.pgId = pgId)) := by
    rw [mem_rangeList]
    exact ⟨sel, List.mem_filter.2 ⟨hsl, by simpa using hsel.2.1⟩, start, hstart, Str.le_refl _, by simp⟩
  rw [walRemoved_iff _ _ _ hw (by
    intro m hm
    simp only [Option.some.injEq] at hm
    exact ⟨⟨start, none⟩, List.mem_append_left _ hself, hm, rfl⟩)]
  generalize name.take 24 = w
  constructor
  · rintro hall (hle | ⟨b, hb, hp, hlt, s, hs, hsw, hwe⟩ | ⟨x, rfl, hx⟩)
    · refine hall ⟨start, none⟩ (List.mem_append_left _ hself) ⟨hle, by simp⟩
    · refine hall ⟨s, b.archiveStop⟩ (List.mem_append_left _ ?_) ⟨hsw, hwe⟩
      rw [mem_rangeList]
      refine ⟨b, List.mem_filter.2 ⟨hb, by simpa using hp⟩, s, hs, Str.le_of_lt hlt, ?_⟩
      rw [if_neg]
      intro e; rw [e] at hlt; exact Str.lt_irrefl _ hlt
    · rcases Str.le_total start w with hle | hle
      · exact hall ⟨start, none⟩ (List.mem_append_left _ hself) ⟨hle, by simp⟩
      · by_cases hxs : x < start
        · refine hall ⟨x, some start⟩ (List.mem_append_right _ (by simp [hxs])) ⟨hx, ?_⟩
          intro e he
          simp only [Option.some.injEq] at he
          rw [← he]; exact hle
        · exact hall ⟨start, none⟩ (List.mem_append_left _ hself) ⟨Str.le_trans (Str.not_lt.1 hxs) hx, by simp⟩
  · intro hnn r hr hh
    rcases List.mem_append.1 hr with hr | hr
    · obtain ⟨b, hb, s, hs, hle, rfl⟩ := (mem_rangeList _ _ _).1 hr
      obtain ⟨hbl, hbp⟩ := List.mem_filter.1 hb
      by_cases e : b.label = sel.label
      · have := h.unique hbl hsl e
        subst this
        rw [hstart] at hs
        simp only [Option.some.injEq] at hs
        exact hnn (.inl (hs ▸ hh.1))
      · rw [if_neg e] at hh
        refine hnn (.inr (.inl ⟨b, hbl, by simpa using hbp, ?_, s, hs, hh.1, hh.2⟩))
        rcases (Str.le_iff_lt_or_eq _ _).1 hle with hlt | e'
        · exact hlt
        · exact absurd e' e
    · cases before with
      | none => simp at hr
      | some x =>
        by_cases hxs : x < start
        · simp only [hxs, if_true, List.mem_singleton] at hr
          rw [hr] at hh
          exact hnn (.inr (.inr ⟨x, rfl, hh.1⟩))
        · simp [hxs] at hr

/-- Nothing is removed when archive retention is not set, when there are not enough backups, or when the selected
backup has no archive. -/
theorem c10_not_met (l : List Backup) (h : WF l) (kind : Kind) (n : Nat) (before : Option Str) (pgId cur : Nat) :
    (¬ Met kind n l before → archivePlan l kind n before pgId cur = .ok .keep) ∧
    (∀ sel, Met kind n l before → Selected kind n l pgId sel → sel.archiveStart = none →
      archivePlan l kind n before pgId cur = .ok .keep) := by
  constructor
  · intro hn
    unfold archivePlan
    rcases Nat.eq_zero_or_pos n with rfl | hpos
    · rfl
    · rw [if_neg (by omega)]
      simp only [retentionList_eq h kind]
      rw [if_neg]
      intro hc
      exact hn ⟨hpos, by simpa using hc⟩
  · intro sel hm hs ha
    rw [h.archivePlan_selected kind n before pgId cur hm sel hs]
    unfold planOf
    rw [ha]

/-- When no backup of the database counts: the archive of a former database is removed, of the archive of the current
database only segments before the requested one are removed. -/
theorem c10_no_backup (l : List Backup) (h : WF l) (kind : Kind) (n : Nat) (before : Option Str) (pgId cur : Nat)
    (hm : Met kind n l before) (hnone : ∀ b ∈ counting kind l, b.pgId ≠ pgId) :
    (cur ≠ pgId → archivePlan l kind n before pgId cur = .ok .removeAll) ∧
    (cur = pgId → ∃ p, archivePlan l kind n before pgId cur = .ok p ∧ ∀ name, walFile name = true →
      (planRemoves p (name.take 16) name = true ↔ ∃ x, before = some x ∧ name.take 24 < x)) := by
  have e := h.archivePlan_none kind n before pgId cur hm hnone
  constructor
  · intro hc
    rw [e, if_pos hc]
  · intro hc
    refine ⟨_, e, ?_⟩
    intro name hw
    rw [if_neg (fun hh => hh hc)]
    cases before with
    | none => simp [planRemoves]
    | some x =>
      simp only [planRemoves]
      rw [walRemoved_iff _ _ _ hw (by simp)]
      simp only [List.mem_singleton, forall_eq, Option.some.injEq, exists_eq_left']
      rw [← Str.not_le]
      unfold Range.has
      simp

/-- The segments from start to stop of every backup in the list are kept, so that it can be made consistent. The
hypothesis on the order of the starts is used for backups newer than the selected one. -/
theorem c10_consistent (l : List Backup) (h : WF l) (ho : StartOrder l) (kind : Kind) (n : Nat) (before : Option Str)
    (pgId cur : Nat) (p : Plan) (hp : archivePlan l kind n before pgId cur = .ok p) (b : Backup) (hb : b ∈ l)
    (hbp : b.pgId = pgId) (s e : Str) (hs : b.archiveStart = some s) (he : b.archiveStop = some e) (name : Str)
    (hw : walFile name = true) (h1 : s ≤ name.take 24) (h2 : name.take 24 ≤ e) :
    planRemoves p (name.take 16) name = false := by
  by_cases hm : Met kind n l before
  · -- the full backup that it is based on counts
    obtain ⟨f, hf, hff, hfa⟩ := h.root hb
    have hfp := h.anc_pgId hfa hb rfl hf rfl
    have hfc : f ∈ counting kind l := by
      refine List.mem_filter.2 ⟨hf, ?_⟩
      cases kind <;> simp [counts, hff]
    obtain ⟨sel, hsel⟩ := exists_selected kind n l h pgId ⟨f, hfc, by rw [← hbp]; exact hfp⟩
    cases hst : sel.archiveStart with
    | none =>
      rw [(c10_not_met l h kind n before pgId cur).2 sel hm hsel hst] at hp
      simp only [Except.ok.injEq] at hp
      subst hp; rfl
    | some start =>
      obtain ⟨p', hp', hex⟩ := c10_exact l h kind n before pgId cur hm sel hsel start hst
      rw [hp] at hp'
      simp only [Except.ok.injEq] at hp'
      subst hp'
      rw [← Bool.not_eq_true, hex name hw, Classical.not_not]
      rcases Str.le_total sel.label b.label with hle | hle
      · left
        exact Str.le_trans (ho sel (List.mem_filter.1 hsel.1).1 b hb (by rw [hsel.2.1, hbp]) hle start s hst hs) h1
      · rcases (Str.le_iff_lt_or_eq _ _).1 hle with hlt | heq
        · right; left
          refine ⟨b, hb, hbp, hlt, s, hs, h1, ?_⟩
          intro e' he'
          rw [he] at he'
          simp only [Option.some.injEq] at he'
          rw [← he']; exact h2
        · left
          have := h.unique hb (List.mem_filter.1 hsel.1).1 heq
          subst this
          rw [hst] at hs
          simp only [Option.some.injEq] at hs
          rw [hs]; exact h1
  · rw [(c10_not_met l h kind n before pgId cur).1 hm] at hp
    simp only [Except.ok.injEq] at hp
    subst hp; rfl

/-- All segments from the start of a backup among the newest `n` that count are kept, so that the database can be
recovered from it to any later point. -/
theorem c10_pitr (l : List Backup) (h : WF l) (ho : StartOrder l) (kind : Kind) (n : Nat) (before : Option Str)
    (pgId cur : Nat) (p : Plan) (hp : archivePlan l kind n before pgId cur = .ok p) (b : Backup)
    (hb : b ∈ newest kind n l) (hbp : b.pgId = pgId) (s : Str) (hs : b.archiveStart = some s) (name : Str)
    (hw : walFile name = true) (h1 : s ≤ name.take 24) : planRemoves p (name.take 16) name = false := by
  have hbc : b ∈ counting kind l := List.mem_of_mem_drop hb
  by_cases hm : Met kind n l before
  · obtain ⟨sel, hsel⟩ := exists_selected kind n l h pgId ⟨b, hbc, hbp⟩
    cases hst : sel.archiveStart with
    | none =>
      rw [(c10_not_met l h kind n before pgId cur).2 sel hm hsel hst] at hp
      simp only [Except.ok.injEq] at hp
      subst hp; rfl
    | some start =>
      obtain ⟨p', hp', hex⟩ := c10_exact l h kind n before pgId cur hm sel hsel start hst
      rw [hp] at hp'
      simp only [Except.ok.injEq] at hp'
      subst hp'
      rw [← Bool.not_eq_true, hex name hw, Classical.not_not]
      left
      have hle : sel.label ≤ b.label := by
        rcases hsel.2.2 with ⟨-, hx⟩ | ⟨hx, -⟩
        · exact hx b hb hbp
        · exact absurd hbp (hx b hb)
      exact Str.le_trans (ho sel (List.mem_filter.1 hsel.1).1 b (List.mem_filter.1 hbc).1
        (by rw [hsel.2.1, hbp]) hle start s hst hs) h1
  · rw [(c10_not_met l h kind n before pgId cur).1 hm] at hp
    simp only [Except.ok.injEq] at hp
    subst hp; rfl

/-- The newest backup of the database that counts can always be recovered to any later point, also when it is not
among the newest `n` (because newer backups are of another database). -/
theorem c10_newest (l : List Backup) (h : WF l) (ho : StartOrder l) (kind : Kind) (n : Nat) (before : Option Str)
    (pgId cur : Nat) (p : Plan) (hp : archivePlan l kind n before pgId cur = .ok p) (b : Backup)
    (hb : b ∈ counting kind l) (hbp : b.pgId = pgId) (hnew : ∀ c ∈ counting kind l, c.pgId = pgId → c.label ≤ b.label)
    (s : Str) (hs : b.archiveStart = some s) (name : Str)
    (hw : walFile name = true) (h1 : s ≤ name.take 24) : planRemoves p (name.take 16) name = false := by
  by_cases hm : Met kind n l before
  · obtain ⟨sel, hsel⟩ := exists_selected kind n l h pgId ⟨b, hb, hbp⟩
    cases hst : sel.archiveStart with
    | none =>
      rw [(c10_not_met l h kind n before pgId cur).2 sel hm hsel hst] at hp
      simp only [Except.ok.injEq] at hp
      subst hp; rfl
    | some start =>
      obtain ⟨p', hp', hex⟩ := c10_exact l h kind n before pgId cur hm sel hsel start hst
      rw [hp] at hp'
      simp only [Except.ok.injEq] at hp'
      subst hp'
      rw [← Bool.not_eq_true, hex name hw, Classical.not_not]
      left
      exact Str.le_trans (ho sel (List.mem_filter.1 hsel.1).1 b (List.mem_filter.1 hb).1
        (by rw [hsel.2.1, hbp]) (hnew sel hsel.1 hsel.2.1) start s hst hs) h1
  · rw [(c10_not_met l h kind n before pgId cur).1 hm] at hp
    simp only [Except.ok.injEq] at hp
    subst hp; rfl

/-- With archive-expire-before, only segments before the requested one are removed (other than the archive of a former
database without backups). -/
theorem c10_before (l : List Backup) (h : WF l) (kind : Kind) (n : Nat) (x : Str) (pgId cur : Nat) (p : Plan)
    (hp : archivePlan l kind n (some x) pgId cur = .ok p) (name : Str) (hw : walFile name = true)
    (hr : planRemoves p (name.take 16) name = true) : name.take 24 < x ∨
      (cur ≠ pgId ∧ ∀ b ∈ counting kind l, b.pgId ≠ pgId) := by
  by_cases hm : Met kind n l (some x)
  · by_cases hex : ∃ b ∈ counting kind l, b.pgId = pgId
    · obtain ⟨sel, hsel⟩ := exists_selected kind n l h pgId hex
      cases hst : sel.archiveStart with
      | none =>
        rw [(c10_not_met l h kind n (some x) pgId cur).2 sel hm hsel hst] at hp
        simp only [Except.ok.injEq] at hp
        subst hp; simp [planRemoves] at hr
      | some start =>
        obtain ⟨p', hp', hex⟩ := c10_exact l h kind n (some x) pgId cur hm sel hsel start hst
        rw [hp] at hp'
        simp only [Except.ok.injEq] at hp'
        subst hp'
        left
        rw [← Str.not_le]
        intro hle
        exact (hex name hw).1 hr (.inr (.inr ⟨x, rfl, hle⟩))
    · have hnone : ∀ b ∈ counting kind l, b.pgId ≠ pgId := fun b hb hp => hex ⟨b, hb, hp⟩
      by_cases hc : cur = pgId
      · obtain ⟨p', hp', hx⟩ := (c10_no_backup l h kind n (some x) pgId cur hm hnone).2 hc
        rw [hp] at hp'
        simp only [Except.ok.injEq] at hp'
        subst hp'
        obtain ⟨y, hy, hlt⟩ := (hx name hw).1 hr
        simp only [Option.some.injEq] at hy
        left; rw [hy]; exact hlt
      · exact .inr ⟨hc, hnone⟩
  · rw [(c10_not_met l h kind n (some x) pgId cur).1 hm] at hp
    simp only [Except.ok.injEq] at hp
    subst hp; simp [planRemoves] at hr

/-- A timeline history file is removed exactly when it is of a timeline before that of the start of the selected
backup. -/
theorem c10_history (l : List Backup) (h : WF l) (kind : Kind) (n : Nat) (before : Option Str) (pgId cur : Nat)
    (hm : Met kind n l before) (sel : Backup) (hsel : Selected kind n l pgId sel) (start : Str)
    (hstart : sel.archiveStart = some start) :
    ∃ ranges max tl, archivePlan l kind n before pgId cur = .ok (.expire ranges max tl) ∧
      ∀ name, historyRemoved tl name = true ↔ name.take 8 < start.take 8 := by
  rw [h.archivePlan_selected kind n before pgId cur hm sel hsel]
  unfold planOf
  rw [hstart]
  exact ⟨_, _, _, rfl, by simp [historyRemoved]⟩

/-! ### Examples -/

/-- The segment with last digit `d` on the first timeline, and a file in the repository for it. -/
def sampleWal (d : UInt8) : Str :=
  [0x30, 0x30, 0x30, 0x30, 0x30, 0x30, 0x30, 0x31, 0x30, 0x30, 0x30, 0x30, 0x30, 0x30, 0x30, 0x30, 0x30, 0x30, 0x30,
    0x30, 0x30, 0x30, 0x30, d]

def sampleFile (d : UInt8) : Str := sampleWal d ++ [0x2D, 0x61]

def sampleOnline (label : Str) (pgId : Nat) (start stop : UInt8) : Backup :=
  ⟨label, none, [], 0, pgId, some (sampleWal start), some (sampleWal stop)⟩

/-- A list of full backups in label order is well formed. -/
theorem wf_full (l : List Backup) (hs : StrictAsc (l.map Backup.label))
    (h : ∀ b ∈ l, isFull b.label = true ∧ b.prior = none ∧ b.refs = []) : WF l where
  sorted := hs
  prior := fun b hb p hp => by rw [(h b hb).2.1] at hp; simp at hp
  full := fun b hb => by simp [(h b hb).1, (h b hb).2.1]
  diff := fun b hb _ p hp => by rw [(h b hb).2.1] at hp; simp at hp
  refs := fun b hb r hr => by rw [(h b hb).2.2] at hr; simp at hr

def wB1 := sampleOnline (sampleFull 0x31) 1 0x31 0x32
def wB2 := sampleOnline (sampleFull 0x32) 1 0x34 0x35
def wB3 := sampleOnline (sampleFull 0x33) 1 0x37 0x38
def walList : List Backup := [wB1, wB2, wB3]

theorem walList_wf : WF walList :=
  wf_full _ (by simp only [walList, StrictAsc, List.map_cons, List.map_nil, List.pairwise_cons]; decide) (by decide)

theorem walList_order : StartOrder walList := by
  intro a ha b hb
  simp only [walList, List.mem_cons, List.not_mem_nil, or_false] at ha hb
  rcases ha with rfl | rfl | rfl <;> rcases hb with rfl | rfl | rfl <;> intro _ hle s t hs ht <;>
    simp only [wB1, wB2, wB3, sampleOnline, Option.some.injEq] at hs ht <;> subst hs ht <;> revert hle <;> decide

example : Met .full 2 walList none ∧ Selected .full 2 walList 1 wB2 := by
  refine ⟨⟨by decide, .inr ⟨by decide, by decide⟩⟩, by decide, rfl, .inl ⟨by decide, ?_⟩⟩
  decide

-- segments 1 and 2 are kept for the first backup, 3 and 0 are removed, 4 and later are kept
example : ∃ p, archivePlan walList .full 2 none 1 1 = .ok p ∧
    [0x30, 0x31, 0x32, 0x33, 0x34, 0x35, 0x36].map (fun d => planRemoves p ((sampleFile d).take 16) (sampleFile d)) =
      [true, false, false, true, false, false, false] ∧ walFile (sampleFile 0x31) = true :=
  ⟨_, rfl, by decide, by decide⟩

-- archive-expire-before at segment 3
example : ∃ p, archivePlan walList .full 2 (some (sampleWal 0x33)) 1 1 = .ok p ∧
    [0x30, 0x31, 0x32, 0x33, 0x34, 0x35, 0x36].map (fun d => planRemoves p ((sampleFile d).take 16) (sampleFile d)) =
      [true, false, false, false, false, false, false] :=
  ⟨_, rfl, by decide⟩

-- no backup of the database
example : archivePlan walList .full 2 none 2 1 = .ok .removeAll ∧ archivePlan walList .full 2 none 2 2 = .ok .keep ∧
    archivePlan walList .full 4 none 1 1 = .ok .keep := ⟨rfl, rfl, rfl⟩

/-- The order of the starts is needed: with a newer backup that starts at an earlier segment (here segments 1 to 2 of a
backup that is newer than one that starts at segment 4), the segments that the newer backup needs are removed even
though it is one of the two backups whose archive is to be retained. -/
theorem c10_order_needed :
    ∃ l p, WF l ∧ archivePlan l .full 2 none 1 1 = .ok p ∧ ∃ b ∈ newest .full 2 l, ∃ s e, b.pgId = 1 ∧
      b.archiveStart = some s ∧ b.archiveStop = some e ∧ ∃ name, walFile name = true ∧ s ≤ name.take 24 ∧
        name.take 24 ≤ e ∧ planRemoves p (name.take 16) name = true := by
  refine ⟨[sampleOnline (sampleFull 0x31) 1 0x34 0x35, sampleOnline (sampleFull 0x32) 1 0x31 0x32], _,
    wf_full _ ?_ (by decide), rfl, sampleOnline (sampleFull 0x32) 1 0x31 0x32, by decide, _, _, rfl, rfl, rfl,
    sampleFile 0x31, by decide, by decide, by decide, by decide⟩
  simp only [StrictAsc, List.map_cons, List.map_nil, List.pairwise_cons]
  decide

end Verif.Expire
