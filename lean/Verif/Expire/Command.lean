import Verif.Expire.Disk

/-! # C09 for the whole command -/

namespace Verif.Expire

open Verif.Label

theorem WF.nonempty_full {l : List Backup} (h : WF l) (hne : l ≠ []) : ∃ f ∈ l, isFull f.label = true := by
  cases l with
  | nil => exact absurd rfl hne
  | cons b rest => exact ⟨b, by simp, h.head_full⟩

theorem WF.expireFull_keeps {l : List Backup} (h : WF l) (n : Nat) (hne : l ≠ []) :
    ∃ f ∈ expireFull n l, isFull f.label = true := by
  rcases Nat.eq_zero_or_pos n with rfl | hn
  · exact h.nonempty_full hne
  · obtain ⟨h1, h2, h3⟩ := c06_full_retention n hn l h
    obtain ⟨f, hf, hff⟩ := h.nonempty_full hne
    have hfm : f ∈ fulls l := List.mem_filter.2 ⟨hf, hff⟩
    have hpos : 0 < (fulls l).length := List.length_pos_of_mem hfm
    have : (fulls l).drop ((fulls l).length - n) ≠ [] := by
      intro e
      have := congrArg List.length e
      simp only [List.length_drop, List.length_nil] at this
      omega
    obtain ⟨g, hg⟩ := List.exists_mem_of_ne_nil _ this
    rw [← h1] at hg
    obtain ⟨g1, g2⟩ := List.mem_filter.1 hg
    exact ⟨g, g1, g2⟩

theorem WF.expireDiff_keeps {l : List Backup} (h : WF l) (n : Nat) {f : Backup} (hf : f ∈ l)
    (hff : isFull f.label = true) : f ∈ expireDiff n l := by
  rcases Nat.eq_zero_or_pos n with rfl | hn
  · exact hf
  · exact (c07_diff_retention n hn l h).1 f hf hff

theorem WF.expireDiff_sublist {l : List Backup} (h : WF l) (n : Nat) : (expireDiff n l).Sublist l := by
  rcases Nat.eq_zero_or_pos n with rfl | hn
  · exact List.Sublist.refl _
  · exact (c07_diff_retention n hn l h).2.2.2.2

theorem WF.expireFull_sublist {l : List Backup} (h : WF l) (n : Nat) : (expireFull n l).Sublist l := by
  rcases Nat.eq_zero_or_pos n with rfl | hn
  · exact List.Sublist.refl _
  · exact (c06_full_retention n hn l h).2.1

/-- Whatever the options, the list that the command saves is part of the list before, is well formed and closed under
dependencies, and if there was a backup then a full backup is left. -/
theorem c09_command (o : Options) (l : List Backup) (h : WF l) (l' : List Backup) (n : Nat) (k : Kind)
    (e : expireRepo o l = .ok (l', n, k)) :
    WF l' ∧ Closed l' ∧ l'.Sublist l ∧ (l ≠ [] → ∃ f ∈ l', isFull f.label = true) := by
  suffices hs : WF l' ∧ l'.Sublist l ∧ (l ≠ [] → ∃ f ∈ l', isFull f.label = true) from
    ⟨hs.1, hs.1.closed, hs.2.1, hs.2.2⟩
  unfold expireRepo at e
  simp only at e
  generalize (if o.oldest ∧ (labelList isFull l).length > 1 then _ else o : Options) = o' at e
  have hdiff : ∀ m : List Backup, WF m → m.Sublist l → (l ≠ [] → ∃ f ∈ m, isFull f.label = true) →
      WF (expireDiff o'.diff m) ∧ (expireDiff o'.diff m).Sublist l ∧
        (l ≠ [] → ∃ f ∈ expireDiff o'.diff m, isFull f.label = true) := by
    intro m hm hsub hex
    refine ⟨((c09_closed m hm).2.2.1 _).1, (hm.expireDiff_sublist _).trans hsub, ?_⟩
    intro hne
    obtain ⟨f, hf, hff⟩ := hex hne
    exact ⟨f, hm.expireDiff_keeps _ hf hff, hff⟩
  cases ha : o'.adhoc with
  | some x =>
    rw [ha] at e
    simp only at e
    by_cases hx : labelExists l x = true
    · rw [if_pos hx] at e
      obtain ⟨b, hb, rfl⟩ := (labelExists_iff l x).1 hx
      cases hadhoc : expireAdhoc l b.label with
      | error err => rw [hadhoc] at e; simp at e
      | ok r =>
        obtain ⟨m, r⟩ := r
        rw [hadhoc] at e
        simp only [Except.ok.injEq, Prod.mk.injEq] at e
        obtain ⟨rfl, -, -⟩ := e
        have w := ((c09_closed l h).2.2.2.2 _ _ _ hadhoc).1
        obtain ⟨h1, h2, -⟩ := (c09_adhoc l h b hb).1 m r hadhoc
        refine ⟨w, ?_, fun _ => h2⟩
        have : m = expireBackup l b.label :=
          eq_of_mem w.sorted (h.expireBackup b.label).sorted
            (fun c => (h1 c).trans (h.mem_expireBackup _ c).symm)
        rw [this]
        exact h.expireBackup_sublist _
    · rw [if_neg hx] at e
      simp only [Except.ok.injEq, Prod.mk.injEq] at e
      obtain ⟨rfl, -, -⟩ := e
      exact ⟨h, List.Sublist.refl _, h.nonempty_full⟩
  | none =>
    rw [ha] at e
    simp only at e
    by_cases ht : o'.timeBased = true
    · rw [if_pos ht] at e
      cases hm : o'.minTimestamp with
      | none =>
        rw [hm] at e
        simp only [Except.ok.injEq, Prod.mk.injEq] at e
        obtain ⟨rfl, -, -⟩ := e
        exact hdiff l h (List.Sublist.refl _) h.nonempty_full
      | some t =>
        rw [hm] at e
        simp only at e
        obtain ⟨m, r, em, wm, sm, -⟩ := c08_time_retention t l h
        rw [em] at e
        simp only [Except.ok.injEq, Prod.mk.injEq] at e
        obtain ⟨rfl, -, -⟩ := e
        refine hdiff m wm sm ?_
        intro hne
        -- the newest full backup is kept
        have hw := (c08_window t l m r h em).2.2
        obtain ⟨f0, hf0, hff0⟩ := h.nonempty_full hne
        have hfs := sortDesc_fulls h
        cases hr : (fulls l).reverse with
        | nil =>
          have : f0 ∈ (fulls l).reverse := List.mem_reverse.2 (List.mem_filter.2 ⟨hf0, hff0⟩)
          rw [hr] at this; simp at this
        | cons f rest =>
          have hfm := List.mem_filter.1 (List.mem_reverse.1 (hr ▸ List.mem_cons_self : f ∈ (fulls l).reverse))
          refine ⟨f, hw f hfm.1 hfm.2 ?_, hfm.2⟩
          intro g hg hgf
          have hgr : g ∈ (fulls l).reverse := List.mem_reverse.2 (List.mem_filter.2 ⟨hg, hgf⟩)
          have hp : (f :: rest).Pairwise (fun a b => b.label < a.label) := by
            have hs : StrictAsc ((fulls l).map Backup.label) := sorted_sublist List.filter_sublist h.sorted
            rw [← hr, List.pairwise_reverse]
            exact List.Pairwise.of_map Backup.label (fun _ _ h => h) hs
          rw [hr] at hgr
          rcases List.mem_cons.1 hgr with rfl | hgr
          · exact Str.le_refl _
          · exact Str.le_of_lt ((List.pairwise_cons.1 hp).1 g hgr)
    · rw [if_neg ht] at e
      simp only [Except.ok.injEq, Prod.mk.injEq] at e
      obtain ⟨rfl, -, -⟩ := e
      exact hdiff _ ((c09_closed l h).2.1 _).1 (h.expireFull_sublist _) (h.expireFull_keeps _)

/-- With the option to expire the oldest backup set and more than one full backup: exactly the oldest full backup and
what is based on it are removed (before differential retention), and the archive is retained for all full backups that
are left. Otherwise the option changes nothing. -/
theorem c09_oldest (o : Options) (l : List Backup) (h : WF l) (ho : o.oldest = true) (ha : o.adhoc = none)
    (f : Backup) (rest : List Backup) (hf : fulls l = f :: rest) :
    (rest ≠ [] → expireRepo o l = .ok (expireDiff o.diff (expireBackup l f.label), (fulls l).length - 1, .full)) ∧
    (rest = [] → expireRepo o l = expireRepo { o with oldest := false } l) := by
  have hlen : (labelList isFull l).length = (fulls l).length := by
    rw [labelList_eq, List.length_map]; rfl
  constructor
  · intro hr
    have hpos : 0 < rest.length := List.length_pos_iff.2 hr
    have h1 : (fulls l).length = rest.length + 1 := by rw [hf]; rfl
    unfold expireRepo
    simp only [hlen]
    rw [if_pos ⟨ho, by omega⟩]
    simp only [ha]
    simp only [Bool.false_eq_true, if_false]
    rw [expireFull_eq _ (by omega)]
    have : (fulls l).length - ((fulls l).length - 1) = 1 := by omega
    rw [this, hf]
    rfl
  · intro hr
    have h1 : (fulls l).length = 1 := by rw [hf, hr]; rfl
    unfold expireRepo
    simp only [hlen, h1]
    simp

example : expireRepo ⟨true, 0, some 0, 0, 0, .full, true, none⟩ sampleList = .ok ([sF2, sD2, sF3], 2, .full) := rfl
example : expireRepo ⟨true, 0, some 450, 1, 0, .full, false, none⟩ sampleList = .ok ([sF2, sF3], 2, .full) := rfl
example : expireRepo ⟨false, 1, none, 0, 2, .diff, false, some sD1.label⟩ sampleList =
    .ok ([sF1, sF2, sD2, sF3], 2, .diff) := rfl

end Verif.Expire
