import Verif.Expire.Model

/-! # Specification vocabulary and lemmas about the backup list -/

namespace Verif.Expire

open Verif.Label

/-! ## Specification -/

/-- `Anc l r x`: the backup `r` is `x` or a backup that `x` is directly or indirectly based on. -/
inductive Anc (l : List Backup) (r : Str) : Str → Prop
  | self : Anc l r r
  | step {b : Backup} {p : Str} : b ∈ l → b.prior = some p → Anc l r p → Anc l r b.label

/-- `Based l r x`: the backup `x` is directly or indirectly based on another backup `r`. -/
def Based (l : List Backup) (r x : Str) : Prop := ∃ b ∈ l, b.label = x ∧ ∃ p, b.prior = some p ∧ Anc l r p

/-- A list of backups as the program builds it: ordered by label without duplicates; a backup is based on a listed
backup of the same database with a smaller label; exactly the full backups are based on nothing; a differential backup
is based on a full backup; the backups referenced by a backup are among those it is based on. -/
structure WF (l : List Backup) : Prop where
  sorted : StrictAsc (l.map Backup.label)
  prior : ∀ b ∈ l, ∀ p, b.prior = some p → ∃ a ∈ l, a.label = p ∧ p < b.label ∧ a.pgId = b.pgId
  full : ∀ b ∈ l, isFull b.label = true ↔ b.prior = none
  diff : ∀ b ∈ l, isDiff b.label = true → ∀ p, b.prior = some p → isFull p = true
  refs : ∀ b ∈ l, ∀ r ∈ b.refs, Based l r b.label

/-! ## Lemmas -/

theorem WF.unique {l : List Backup} (h : WF l) {a b : Backup} (ha : a ∈ l) (hb : b ∈ l) (e : a.label = b.label) :
    a = b := by
  have hs := h.sorted
  clear h
  induction l with
  | nil => simp at ha
  | cons c l ih =>
    rw [List.map_cons, StrictAsc, List.pairwise_cons] at hs
    rcases List.mem_cons.1 ha with rfl | ha'
    · rcases List.mem_cons.1 hb with rfl | hb'
      · rfl
      · exact absurd (e ▸ hs.1 _ (List.mem_map_of_mem hb')) (Str.lt_irrefl _)
    · rcases List.mem_cons.1 hb with rfl | hb'
      · exact absurd (e ▸ hs.1 _ (List.mem_map_of_mem ha')) (Str.lt_irrefl _)
      · exact ih ha' hb' hs.2

theorem Anc.trans {l : List Backup} {a b c : Str} (h : Anc l a b) (h' : Anc l b c) : Anc l a c := by
  induction h' with
  | self => exact h
  | step hb hp _ ih => exact .step hb hp ih

theorem Anc.mono {l l' : List Backup} (hs : ∀ b ∈ l', b ∈ l) {a b : Str} (h : Anc l' a b) : Anc l a b := by
  induction h with
  | self => exact .self
  | step hb hp _ ih => exact .step (hs _ hb) hp ih

/-- Ancestors in the list of a listed backup are listed. -/
theorem WF.anc_mem {l : List Backup} (h : WF l) {r x : Str} (ha : Anc l r x) (hx : ∃ b ∈ l, b.label = x) :
    ∃ b ∈ l, b.label = r := by
  induction ha with
  | self => exact hx
  | step hb hp _ ih =>
    obtain ⟨a, ha, e, -, -⟩ := h.prior _ hb _ hp
    exact ih ⟨a, ha, e⟩

theorem WF.anc_le {l : List Backup} (h : WF l) {r x : Str} (ha : Anc l r x) : r ≤ x := by
  induction ha with
  | self => exact Str.le_refl _
  | step hb hp _ ih =>
    obtain ⟨a, ha, e, hlt, -⟩ := h.prior _ hb _ hp
    exact Str.le_trans ih (Str.le_of_lt hlt)

theorem WF.anc_pgId {l : List Backup} (h : WF l) {r x : Str} (ha : Anc l r x) {a b : Backup} (hb : b ∈ l)
    (e : b.label = x) (h' : a ∈ l) (e' : a.label = r) : a.pgId = b.pgId := by
  induction ha generalizing b with
  | self => rw [h.unique hb h' (e.trans e'.symm)]
  | @step c p hc hp _ ih =>
    obtain ⟨d, hd, ed, -, hpg⟩ := h.prior _ hc _ hp
    rw [ih hd ed, hpg, h.unique hb hc e]

/-- The ancestors of a full backup are itself. -/
theorem WF.anc_full {l : List Backup} (h : WF l) {r x : Str} (ha : Anc l r x) (hx : isFull x = true) : r = x := by
  cases ha with
  | self => rfl
  | step hb hp _ => simp [(h.full _ hb).1 hx] at hp

/-- Ancestors of a listed backup: itself or those of its prior. -/
theorem WF.anc_cases {l : List Backup} (h : WF l) {r : Str} {b : Backup} (hb : b ∈ l) (ha : Anc l r b.label) :
    r = b.label ∨ ∃ p, b.prior = some p ∧ Anc l r p := by
  generalize e : b.label = x at ha
  cases ha with
  | self => exact .inl rfl
  | @step c p hc hp ha =>
    have := h.unique hb hc e
    subst this
    exact .inr ⟨p, hp, ha⟩

/-- Every backup has a full backup it is based on. -/
theorem WF.root {l : List Backup} (h : WF l) {b : Backup} (hb : b ∈ l) :
    ∃ f ∈ l, isFull f.label = true ∧ Anc l f.label b.label := by
  obtain ⟨pre, post, e⟩ := List.append_of_mem hb
  have key : ∀ n, ∀ pre post : List Backup, ∀ b, pre.length = n → l = pre ++ b :: post →
      ∃ f ∈ l, isFull f.label = true ∧ Anc l f.label b.label := by
    intro n
    induction n using Nat.strongRecOn with
    | _ n ih =>
      intro pre post b hn e
      have hb : b ∈ l := by rw [e]; simp
      cases hp : b.prior with
      | none => exact ⟨b, hb, (h.full b hb).2 hp, .self⟩
      | some p =>
        obtain ⟨a, ha, e', hlt, -⟩ := h.prior b hb p hp
        -- a is before b
        have ha' : a ∈ pre := by
          have hs := h.sorted
          rw [e, List.map_append, StrictAsc, List.pairwise_append] at hs
          rw [e] at ha
          rcases List.mem_append.1 ha with ha | ha
          · exact ha
          · exfalso
            rcases List.mem_cons.1 ha with rfl | ha
            · rw [e'] at hlt; exact Str.lt_irrefl _ hlt
            · have := (List.pairwise_cons.1 hs.2.1).1 _ (List.mem_map_of_mem ha)
              rw [e'] at this
              exact Str.lt_asymm this hlt
        obtain ⟨pre', post', e2⟩ := List.append_of_mem ha'
        have hlen : pre'.length < n := by
          rw [← hn, e2]; simp
        obtain ⟨f, hf, hf1, hf2⟩ := ih pre'.length hlen pre' (post' ++ b :: post) a rfl (by rw [e, e2]; simp)
        exact ⟨f, hf, hf1, .step hb hp (e' ▸ hf2)⟩
  exact key _ pre post b rfl e

/-- The full backup that a backup is based on is unique. -/
theorem WF.root_unique {l : List Backup} (h : WF l) {f g x : Str} (hf : Anc l f x) (hg : Anc l g x)
    (ff : isFull f = true) (fg : isFull g = true) : f = g := by
  induction hf with
  | self => exact (h.anc_full hg ff).symm
  | step hb hp _ ih =>
    rcases h.anc_cases hb hg with e | ⟨p', hp', hg'⟩
    · subst e
      simp [(h.full _ hb).1 fg] at hp
    · rw [hp] at hp'
      exact ih (Option.some.inj hp' ▸ hg')

/-! ### The dependent list -/

theorem dependentLoop_append (l1 l2 : List Backup) (res : List Str) :
    dependentLoop (l1 ++ l2) res = dependentLoop l2 (dependentLoop l1 res) := by
  induction l1 generalizing res with
  | nil => rfl
  | cons b l1 ih =>
    simp only [List.cons_append, dependentLoop]
    cases b.prior with
    | none => exact ih _
    | some p => simp only; split <;> exact ih _

theorem dependentLoop_mono (l : List Backup) (res : List Str) {x : Str} (h : x ∈ res) : x ∈ dependentLoop l res := by
  induction l generalizing res with
  | nil => exact h
  | cons b l ih =>
    simp only [dependentLoop]
    cases b.prior with
    | none => exact ih _ h
    | some p => simp only; split <;> exact ih _ (by simp [h])

theorem dependentLoop_sound (l l' : List Backup) (hsub : ∀ b ∈ l', b ∈ l) (r : Str) (res : List Str)
    (h : ∀ x ∈ res, Anc l r x) : ∀ x ∈ dependentLoop l' res, Anc l r x := by
  induction l' generalizing res with
  | nil => exact h
  | cons b l' ih =>
    simp only [dependentLoop]
    cases hp : b.prior with
    | none => exact ih (fun c hc => hsub c (by simp [hc])) _ h
    | some p =>
      simp only
      split
      · rename_i hpr
        refine ih (fun c hc => hsub c (by simp [hc])) _ ?_
        intro x hx
        rcases List.mem_append.1 hx with hx | hx
        · exact h x hx
        · rw [List.mem_singleton.1 hx]
          exact .step (hsub b (by simp)) hp (h p hpr)
      · exact ih (fun c hc => hsub c (by simp [hc])) _ h

theorem dependentLoop_complete {l : List Backup} (h : WF l) (r : Str) (l1 l2 : List Backup) (e : l = l1 ++ l2) (x : Str)
    (hx : x = r ∨ ∃ b ∈ l1, b.label = x) (ha : Anc l r x) : x ∈ dependentLoop l1 [r] := by
  have key : ∀ n, ∀ l1 l2 : List Backup, l1.length = n → l = l1 ++ l2 → ∀ x, (x = r ∨ ∃ b ∈ l1, b.label = x) →
      Anc l r x → x ∈ dependentLoop l1 [r] := by
    intro n
    induction n with
    | zero =>
      intro l1 l2 hl e x hx ha
      have : l1 = [] := List.length_eq_zero_iff.1 hl
      subst this
      rcases hx with rfl | ⟨b, hb, -⟩
      · simp [dependentLoop]
      · simp at hb
    | succ n ih =>
      intro l1 l2 hl e x hx ha
      have hne : l1 ≠ [] := by intro h0; subst h0; simp at hl
      obtain ⟨l0, b, e0⟩ : ∃ l0 b, l1 = l0 ++ [b] := ⟨l1.dropLast, l1.getLast hne, (List.dropLast_concat_getLast hne).symm⟩
      subst e0
      have hl0 : l0.length = n := by simpa using hl
      have e' : l = l0 ++ (b :: l2) := by simpa using e
      rw [dependentLoop_append]
      rcases hx with rfl | ⟨c, hc, ec⟩
      · exact dependentLoop_mono _ _ (dependentLoop_mono _ _ (by simp))
      · rcases List.mem_append.1 hc with hc | hc
        · exact dependentLoop_mono _ _ (ih l0 _ hl0 e' x (.inr ⟨c, hc, ec⟩) ha)
        · have : c = b := List.mem_singleton.1 hc
          subst this
          subst ec
          have hcl : c ∈ l := by rw [e']; simp
          rcases h.anc_cases hcl ha with er | ⟨p, hp, hap⟩
          · rw [er]; exact dependentLoop_mono _ _ (dependentLoop_mono _ _ (by simp))
          · obtain ⟨a, hal, ea, hlt, -⟩ := h.prior c hcl p hp
            have hap' : a ∈ l0 := by
              have hs := h.sorted
              rw [e', List.map_append, StrictAsc, List.pairwise_append] at hs
              rw [e'] at hal
              rcases List.mem_append.1 hal with ha | ha
              · exact ha
              · exfalso
                rcases List.mem_cons.1 ha with rfl | ha
                · rw [ea] at hlt; exact Str.lt_irrefl _ hlt
                · have := (List.pairwise_cons.1 hs.2.1).1 _ (List.mem_map_of_mem ha)
                  rw [ea] at this
                  exact Str.lt_asymm this hlt
            have hin := ih l0 _ hl0 e' p (.inr ⟨a, hap', ea⟩) hap
            simp only [dependentLoop, hp]
            rw [if_pos hin]
            simp
  exact key _ l1 l2 rfl e x hx ha

/-- The dependents are exactly the given backup and the listed backups based on it. -/
theorem WF.mem_dependentList {l : List Backup} (h : WF l) (r x : Str) :
    x ∈ dependentList l r ↔ Anc l r x := by
  constructor
  · exact dependentLoop_sound l l (fun _ hb => hb) r [r] (by simp [Anc.self]) x
  · intro ha
    refine dependentLoop_complete h r l [] (by simp) x ?_ ha
    cases ha with
    | self => exact .inl rfl
    | step hb _ _ => exact .inr ⟨_, hb, rfl⟩

/-! ### Removal -/

theorem dataDelete_eq {l : List Backup} (h : StrictAsc (l.map Backup.label)) (x : Str) :
    dataDelete x l = l.filter (fun b => decide (b.label ≠ x)) := by
  induction l with
  | nil => rfl
  | cons b l ih =>
    rw [List.map_cons, StrictAsc, List.pairwise_cons] at h
    unfold dataDelete
    split
    · rename_i hb
      have hrest : ∀ c ∈ l, c.label ≠ x := by
        intro c hc e
        have := h.1 _ (List.mem_map_of_mem hc)
        rw [hb, e] at this
        exact Str.lt_irrefl _ this
      have hself : l.filter (fun b => decide (b.label ≠ x)) = l :=
        List.filter_eq_self.2 (fun c hc => decide_eq_true (hrest c hc))
      rw [List.filter_cons_of_neg (by simp [hb]), hself]
      cases l with
      | nil => rfl
      | cons c l =>
        simp only
        have ih' := ih h.2
        rw [hself] at ih'
        unfold dataDelete at ih'
        rw [if_neg (hrest c (by simp))] at ih'
        exact ih'
    · rename_i hb
      rw [List.filter_cons_of_pos (by simp [hb]), ih h.2]

theorem sorted_sublist {l l' : List Backup} (hs : l'.Sublist l) (h : StrictAsc (l.map Backup.label)) :
    StrictAsc (l'.map Backup.label) := h.sublist (hs.map _)

theorem foldl_delete {l : List Backup} (h : StrictAsc (l.map Backup.label)) (xs : List Str) :
    xs.foldl (fun l x => dataDelete x l) l = l.filter (fun b => decide (b.label ∉ xs)) := by
  induction xs generalizing l with
  | nil => exact (List.filter_eq_self.2 (by simp)).symm
  | cons x xs ih =>
    rw [List.foldl_cons, dataDelete_eq h, ih (sorted_sublist List.filter_sublist h), List.filter_filter]
    congr 1
    funext b
    simp only [List.mem_cons, not_or, ne_eq, Bool.decide_and, Bool.and_comm]

theorem WF.expireBackup_eq {l : List Backup} (h : WF l) (r : Str) :
    expireBackup l r = l.filter (fun b => decide (b.label ∉ expireOrder l r)) := foldl_delete h.sorted _

theorem WF.mem_expireBackup {l : List Backup} (h : WF l) (r : Str) (b : Backup) :
    b ∈ expireBackup l r ↔ b ∈ l ∧ ¬ Anc l r b.label := by
  rw [h.expireBackup_eq, List.mem_filter]
  rw [decide_eq_true_eq, expireOrder, mem_sortDesc, h.mem_dependentList]

theorem WF.expireBackup_sublist {l : List Backup} (h : WF l) (r : Str) : (expireBackup l r).Sublist l := by
  rw [h.expireBackup_eq]; exact List.filter_sublist

/-- A sublist that keeps what its members are based on. -/
theorem anc_restrict {l l' : List Backup} (h : WF l) (hs : ∀ b ∈ l', b ∈ l)
    (hc : ∀ b ∈ l', ∀ p, b.prior = some p → ∃ a ∈ l', a.label = p) {r x : Str} (hx : ∃ b ∈ l', b.label = x)
    (ha : Anc l r x) : Anc l' r x := by
  induction ha with
  | self => exact .self
  | @step c p hcl hp _ ih =>
    obtain ⟨b, hb, e⟩ := hx
    have := h.unique (hs b hb) hcl e
    subst this
    exact .step hb hp (ih (hc b hb p hp))

theorem WF.sublist {l l' : List Backup} (h : WF l) (hs : l'.Sublist l)
    (hc : ∀ b ∈ l', ∀ p, b.prior = some p → ∃ a ∈ l', a.label = p) : WF l' where
  sorted := sorted_sublist hs h.sorted
  prior := by
    intro b hb p hp
    obtain ⟨a, ha, e⟩ := hc b hb p hp
    obtain ⟨a', ha', e', hlt, hpg⟩ := h.prior b (hs.subset hb) p hp
    have := h.unique (hs.subset ha) ha' (e.trans e'.symm)
    subst this
    exact ⟨a, ha, e, hlt, hpg⟩
  full := fun b hb => h.full b (hs.subset hb)
  diff := fun b hb => h.diff b (hs.subset hb)
  refs := by
    intro b hb r hr
    obtain ⟨c, hcl, e, p, hp, ha⟩ := h.refs b (hs.subset hb) r hr
    have := h.unique (hs.subset hb) hcl e.symm
    subst this
    exact ⟨b, hb, rfl, p, hp, anc_restrict h (fun _ hb => hs.subset hb) hc (hc b hb p hp) ha⟩

theorem WF.expireBackup {l : List Backup} (h : WF l) (r : Str) : WF (expireBackup l r) := by
  refine h.sublist (h.expireBackup_sublist r) ?_
  intro b hb p hp
  rw [h.mem_expireBackup] at hb
  obtain ⟨a, ha, e, -, -⟩ := h.prior b hb.1 p hp
  exact ⟨a, (h.mem_expireBackup r a).2 ⟨ha, fun hn => hb.2 (.step hb.1 hp (e ▸ hn))⟩, e⟩

theorem WF.anc_expireBackup {l : List Backup} (h : WF l) (r : Str) {b : Backup} (hb : b ∈ Expire.expireBackup l r)
    (x : Str) : Anc (Expire.expireBackup l r) x b.label ↔ Anc l x b.label := by
  have hs := h.expireBackup_sublist r
  constructor
  · exact Anc.mono (fun _ hb => hs.subset hb)
  · refine anc_restrict h (fun _ hb => hs.subset hb) ?_ ⟨b, hb, rfl⟩
    intro b hb p hp
    obtain ⟨a, ha, e, -⟩ := (h.expireBackup r).prior b hb p hp
    exact ⟨a, ha, e⟩

/-- Expiring several backups. -/
theorem WF.expireAll {l : List Backup} (h : WF l) (rs : List Str) :
    WF (rs.foldl Expire.expireBackup l) ∧ (rs.foldl Expire.expireBackup l).Sublist l ∧
      ∀ b, b ∈ rs.foldl Expire.expireBackup l ↔ b ∈ l ∧ ∀ r ∈ rs, ¬ Anc l r b.label := by
  induction rs generalizing l with
  | nil => exact ⟨h, List.Sublist.refl _, by simp⟩
  | cons r rs ih =>
    rw [List.foldl_cons]
    obtain ⟨h1, h2, h3⟩ := ih (h.expireBackup r)
    refine ⟨h1, h2.trans (h.expireBackup_sublist r), ?_⟩
    intro b
    rw [h3]
    constructor
    · rintro ⟨hb, hr⟩
      have hb' := (h.mem_expireBackup r b).1 hb
      refine ⟨hb'.1, ?_⟩
      intro x hx
      rcases List.mem_cons.1 hx with rfl | hx
      · exact hb'.2
      · rw [← h.anc_expireBackup r hb]
        exact hr x hx
    · rintro ⟨hb, hr⟩
      have hb' := (h.mem_expireBackup r b).2 ⟨hb, hr r (by simp)⟩
      refine ⟨hb', ?_⟩
      intro x hx
      rw [h.anc_expireBackup r hb']
      exact hr x (by simp [hx])

/-- Lists in label order with the same members are equal. -/
theorem eq_of_mem {l l' : List Backup} (h : StrictAsc (l.map Backup.label)) (h' : StrictAsc (l'.map Backup.label))
    (e : ∀ b, b ∈ l ↔ b ∈ l') : l = l' := by
  induction l generalizing l' with
  | nil =>
    cases l' with
    | nil => rfl
    | cons c l' => exact absurd ((e c).2 (by simp)) (by simp)
  | cons b l ih =>
    cases l' with
    | nil => exact absurd ((e b).1 (by simp)) (by simp)
    | cons c l' =>
      rw [List.map_cons, StrictAsc, List.pairwise_cons] at h h'
      have hbc : b = c := by
        rcases List.mem_cons.1 ((e b).1 (by simp)) with hb | hb
        · exact hb
        · rcases List.mem_cons.1 ((e c).2 (by simp)) with hc | hc
          · exact hc.symm
          · exact absurd (h.1 _ (List.mem_map_of_mem hc)) (Str.lt_asymm (h'.1 _ (List.mem_map_of_mem hb)))
      subst hbc
      congr 1
      refine ih h.2 h'.2 ?_
      intro x
      have hx := e x
      simp only [List.mem_cons] at hx
      constructor
      · intro hm
        rcases hx.1 (.inr hm) with rfl | hm'
        · exact absurd (h.1 _ (List.mem_map_of_mem hm)) (Str.lt_irrefl _)
        · exact hm'
      · intro hm
        rcases hx.2 (.inr hm) with rfl | hm'
        · exact absurd (h'.1 _ (List.mem_map_of_mem hm)) (Str.lt_irrefl _)
        · exact hm'

theorem labelList_eq (p : Str → Bool) (l : List Backup) :
    labelList p l = (l.filter (fun b => p b.label)).map Backup.label := by
  unfold labelList
  rw [List.filter_map]
  rfl

end Verif.Expire
