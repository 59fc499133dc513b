import Verif.Expire.Lemmas

/-! # C06 to C09: retention of backups -/

namespace Verif.Expire

open Verif.Label

/-! ## A concrete list: two full backups with dependents and a third full backup -/

/-- `2020010<d>-000000F`. -/
def sampleFull (d : UInt8) : Str :=
  [0x32, 0x30, 0x32, 0x30, 0x30, 0x31, 0x30, d, 0x2d, 0x30, 0x30, 0x30, 0x30, 0x30, 0x30, 0x46]

/-- `<full>_2020010<e>-000000<kind>`. -/
def sampleDependent (d e kind : UInt8) : Str :=
  sampleFull d ++ [0x5f, 0x32, 0x30, 0x32, 0x30, 0x30, 0x31, 0x30, e, 0x2d, 0x30, 0x30, 0x30, 0x30, 0x30, 0x30, kind]

def sampleBackup (label : Str) (prior : Option Str) (refs : List Str) (stop : Int) : Backup :=
  ⟨label, prior, refs, stop, 1, none, none⟩

def sF1 := sampleBackup (sampleFull 0x31) none [] 100
def sD1 := sampleBackup (sampleDependent 0x31 0x32 0x44) (some (sampleFull 0x31)) [sampleFull 0x31] 200
def sI1 := sampleBackup (sampleDependent 0x31 0x33 0x49) (some (sampleDependent 0x31 0x32 0x44))
  [sampleFull 0x31, sampleDependent 0x31 0x32 0x44] 300
def sF2 := sampleBackup (sampleFull 0x34) none [] 400
def sD2 := sampleBackup (sampleDependent 0x34 0x35 0x44) (some (sampleFull 0x34)) [sampleFull 0x34] 500
def sF3 := sampleBackup (sampleFull 0x36) none [] 600

def sampleList : List Backup := [sF1, sD1, sI1, sF2, sD2, sF3]

theorem sample_wf : WF sampleList where
  sorted := by decide
  prior := by
    intro b hb p hp
    simp only [sampleList, List.mem_cons, List.not_mem_nil, or_false] at hb
    rcases hb with rfl | rfl | rfl | rfl | rfl | rfl <;>
      simp only [sF1, sD1, sI1, sF2, sD2, sF3, sampleBackup, Option.some.injEq, reduceCtorEq] at hp <;> subst hp
    · exact ⟨sF1, by simp [sampleList], rfl, by decide, rfl⟩
    · exact ⟨sD1, by simp [sampleList], rfl, by decide, rfl⟩
    · exact ⟨sF2, by simp [sampleList], rfl, by decide, rfl⟩
  full := by decide
  diff := by
    intro b hb hd p hp
    simp only [sampleList, List.mem_cons, List.not_mem_nil, or_false] at hb
    rcases hb with rfl | rfl | rfl | rfl | rfl | rfl <;>
      simp only [sF1, sD1, sI1, sF2, sD2, sF3, sampleBackup, Option.some.injEq, reduceCtorEq] at hp <;> subst hp <;>
      revert hd <;> decide
  refs := by
    have m1 : sF1 ∈ sampleList := by simp [sampleList]
    have m2 : sD1 ∈ sampleList := by simp [sampleList]
    have m3 : sI1 ∈ sampleList := by simp [sampleList]
    have m4 : sD2 ∈ sampleList := by simp [sampleList]
    intro b hb r hr
    simp only [sampleList, List.mem_cons, List.not_mem_nil, or_false] at hb
    rcases hb with rfl | rfl | rfl | rfl | rfl | rfl <;>
      simp only [sF1, sD1, sI1, sF2, sD2, sF3, sampleBackup, List.mem_cons, List.not_mem_nil, or_false] at hr
    · subst hr; exact ⟨sD1, m2, rfl, _, rfl, .self⟩
    · rcases hr with rfl | rfl
      · exact ⟨sI1, m3, rfl, _, rfl, .step m2 rfl .self⟩
      · exact ⟨sI1, m3, rfl, _, rfl, .self⟩
    · subst hr; exact ⟨sD2, m4, rfl, _, rfl, .self⟩

/-! ## C06 -/

/-- The full backups of a list, oldest first. -/
def fulls (l : List Backup) : List Backup := l.filter (fun b => isFull b.label)

theorem mem_drop_iff {α : Type} {l : List α} (h : l.Nodup) (k : Nat) (x : α) :
    x ∈ l.drop k ↔ x ∈ l ∧ x ∉ l.take k := by
  have := List.take_append_drop k l
  rw [← this] at h
  have hd := List.nodup_append.1 h
  constructor
  · intro hx
    exact ⟨List.mem_of_mem_drop hx, fun ht => hd.2.2 x ht x hx rfl⟩
  · rintro ⟨hx, ht⟩
    rw [← this] at hx
    rcases List.mem_append.1 hx with hx | hx
    · exact absurd hx ht
    · exact hx

theorem WF.nodup {l : List Backup} (h : WF l) : l.Nodup :=
  List.Pairwise.of_map (S := (· < ·)) Backup.label (fun a b hlt e => Str.lt_irrefl _ (e ▸ hlt)) h.sorted

theorem expireFull_eq (n : Nat) (hn : 0 < n) (l : List Backup) :
    expireFull n l = (((fulls l).take ((fulls l).length - n)).map Backup.label).foldl expireBackup l := by
  unfold expireFull
  rw [if_pos hn, labelList_eq]
  simp only [List.length_map]
  rw [List.map_take]
  split
  · rfl
  · rename_i h
    rw [show (fulls l).length - n = 0 by unfold fulls; omega]
    rfl

/-- Count based retention keeps exactly the newest `n` full backups (all when there are not more) and exactly the
backups based on one of those. The order of the list is kept. -/
theorem c06_full_retention (n : Nat) (hn : 0 < n) (l : List Backup) (h : WF l) :
    fulls (expireFull n l) = (fulls l).drop ((fulls l).length - n) ∧
    (expireFull n l).Sublist l ∧
    ∀ b ∈ l, b ∈ expireFull n l ↔
      ∃ f ∈ (fulls l).drop ((fulls l).length - n), Anc l f.label b.label := by
  rw [expireFull_eq n hn]
  obtain ⟨h1, h2, h3⟩ := h.expireAll (((fulls l).take ((fulls l).length - n)).map Backup.label)
  generalize hl' : (((fulls l).take ((fulls l).length - n)).map Backup.label).foldl expireBackup l = l' at *
  have hnd : (fulls l).Nodup := h.nodup.filter _
  have hmem : ∀ b ∈ l, b ∈ l' ↔ ∃ f ∈ (fulls l).drop ((fulls l).length - n), Anc l f.label b.label := by
    intro b hb
    rw [h3]
    obtain ⟨f, hf, hf1, hf2⟩ := h.root hb
    have hff : f ∈ fulls l := List.mem_filter.2 ⟨hf, hf1⟩
    constructor
    · rintro ⟨-, hr⟩
      refine ⟨f, (mem_drop_iff hnd _ _).2 ⟨hff, ?_⟩, hf2⟩
      intro ht
      exact hr f.label (List.mem_map_of_mem ht) hf2
    · rintro ⟨g, hg, hga⟩
      refine ⟨hb, ?_⟩
      intro r hr ha
      obtain ⟨x, hx, rfl⟩ := List.mem_map.1 hr
      have hxf := List.mem_filter.1 (List.mem_of_mem_take hx)
      obtain ⟨hg1, hg2⟩ := (mem_drop_iff hnd _ _).1 hg
      have hgf := List.mem_filter.1 hg1
      have := h.root_unique ha hga (by simpa using hxf.2) (by simpa using hgf.2)
      have := h.unique hxf.1 hgf.1 this
      subst this
      exact hg2 hx
  refine ⟨?_, h2, hmem⟩
  refine eq_of_mem (sorted_sublist List.filter_sublist h1.sorted)
    (sorted_sublist ((List.drop_sublist _ _).trans List.filter_sublist) h.sorted) ?_
  intro b
  unfold fulls
  rw [List.mem_filter]
  constructor
  · rintro ⟨hb, hbf⟩
    obtain ⟨f, hf, hfa⟩ := (hmem b (h2.subset hb)).1 hb
    have hfl := List.mem_filter.1 (List.mem_of_mem_drop hf)
    have := h.unique hfl.1 (h2.subset hb) (h.anc_full hfa hbf)
    subst this
    exact hf
  · intro hb
    have hfl := List.mem_filter.1 (List.mem_of_mem_drop hb)
    exact ⟨(hmem b hfl.1).2 ⟨b, hb, .self⟩, hfl.2⟩

example : expireFull 2 sampleList = [sF2, sD2, sF3] := by decide
example : (fulls sampleList).length = 3 := by decide

/-- Nothing is expired when there are at most `n` full backups or when retention is not set. -/
theorem c06_not_met (n : Nat) (l : List Backup) (h : (fulls l).length ≤ n ∨ n = 0) : expireFull n l = l := by
  unfold expireFull
  rcases h with h | rfl
  · split
    · rw [labelList_eq]
      simp only [List.length_map]
      rw [if_neg (by unfold fulls at h; omega)]
    · rfl
  · rfl

example : (fulls [sF3]).length ≤ 1 := by decide

/-! ## C07 -/

/-- The full and differential backups of a list, oldest first. -/
def fullsAndDiffs (l : List Backup) : List Backup := l.filter (fun b => isFull b.label || isDiff b.label)

theorem matchRegExp_fd (s : Str) : matchRegExp true true false s = (isFull s || isDiff s) := by simp [matchRegExp]

theorem foldl_skip (l : List Backup) (xs : List Str) :
    xs.foldl (fun l x => if isFull x then l else expireBackup l x) l =
      (xs.filter (fun x => !isFull x)).foldl expireBackup l := by
  induction xs generalizing l with
  | nil => rfl
  | cons x xs ih =>
    rw [List.foldl_cons, ih]
    cases hx : isFull x with
    | true => rw [List.filter_cons_of_neg (by simp [hx])]; simp
    | false => rw [List.filter_cons_of_pos (by simp [hx])]; simp

theorem expireDiff_eq (n : Nat) (hn : 0 < n) (l : List Backup) :
    expireDiff n l = ((((fullsAndDiffs l).take ((fullsAndDiffs l).length - n)).map Backup.label).filter
      (fun x => !isFull x)).foldl expireBackup l := by
  unfold expireDiff
  rw [if_pos hn, labelList_eq]
  simp only [List.length_map, matchRegExp_fd]
  rw [foldl_skip, ← List.map_take]
  split
  · rfl
  · rename_i h
    rw [show (fullsAndDiffs l).length - n = 0 by unfold fullsAndDiffs; omega]
    rfl

theorem length_filter_lt {l : List Backup} (h : StrictAsc (l.map Backup.label)) (pre post : List Backup) (b : Backup)
    (e : l = pre ++ b :: post) : l.filter (fun c => decide (b.label < c.label)) = post := by
  subst e
  rw [List.map_append, StrictAsc, List.pairwise_append] at h
  have h1 : ∀ c ∈ pre, ¬ b.label < c.label := by
    intro c hc
    exact Str.lt_asymm (h.2.2 _ (List.mem_map_of_mem hc) b.label (by simp))
  have h2 : ∀ c ∈ post, b.label < c.label := by
    intro c hc
    exact (List.pairwise_cons.1 h.2.1).1 _ (List.mem_map_of_mem hc)
  rw [List.filter_append, List.filter_cons_of_neg (by simpa using Str.lt_irrefl _),
    List.filter_eq_nil_iff.2 (by simpa using h1), List.nil_append, List.filter_eq_self.2 (by simpa using h2)]

theorem diff_not_full (s : Str) (h : isDiff s = true) : isFull s = false := by
  simp only [isDiff, isDependent, Bool.and_eq_true, beq_iff_eq] at h
  simp [isFull, h.1.1.1.1]

/-- Differential retention: no full backup is expired; a differential backup is expired exactly when at least `n` newer
full or differential backups exist; any other backup is expired exactly when a differential backup that it is based on
is. The newest `n` full and differential backups all remain. -/
theorem c07_diff_retention (n : Nat) (hn : 0 < n) (l : List Backup) (h : WF l) :
    (∀ b ∈ l, isFull b.label = true → b ∈ expireDiff n l) ∧
    (∀ b ∈ l, isDiff b.label = true →
      (b ∈ expireDiff n l ↔ ((fullsAndDiffs l).filter (fun c => decide (b.label < c.label))).length < n)) ∧
    (∀ b ∈ l, b ∈ expireDiff n l ↔ ∀ d ∈ l, isDiff d.label = true → Anc l d.label b.label → d ∈ expireDiff n l) ∧
    (∀ b ∈ (fullsAndDiffs l).drop ((fullsAndDiffs l).length - n), b ∈ expireDiff n l) ∧
    (expireDiff n l).Sublist l := by
  rw [expireDiff_eq n hn]
  obtain ⟨h1, h2, h3⟩ := h.expireAll ((((fullsAndDiffs l).take ((fullsAndDiffs l).length - n)).map
    Backup.label).filter (fun x => !isFull x))
  generalize hl' : List.foldl expireBackup l _ = l' at *
  have hnd : (fullsAndDiffs l).Nodup := h.nodup.filter _
  have hs : StrictAsc ((fullsAndDiffs l).map Backup.label) := sorted_sublist List.filter_sublist h.sorted
  have hexp : ∀ r, r ∈ (((fullsAndDiffs l).take ((fullsAndDiffs l).length - n)).map Backup.label).filter
      (fun x => !isFull x) ↔ ∃ d ∈ (fullsAndDiffs l).take ((fullsAndDiffs l).length - n), d.label = r ∧
        isDiff r = true ∧ d ∈ l := by
    intro r
    rw [List.mem_filter, List.mem_map]
    constructor
    · rintro ⟨⟨d, hd, rfl⟩, hf⟩
      have := List.mem_filter.1 (List.mem_of_mem_take hd)
      refine ⟨d, hd, rfl, ?_, this.1⟩
      have h' := this.2
      simp only [Bool.not_eq_true'] at hf
      simpa [hf] using h'
    · rintro ⟨d, hd, rfl, hdi, -⟩
      exact ⟨⟨d, hd, rfl⟩, by simp [diff_not_full _ hdi]⟩
  have hdiff : ∀ b ∈ l, isDiff b.label = true →
      (b ∈ l' ↔ b ∉ (fullsAndDiffs l).take ((fullsAndDiffs l).length - n)) := by
    intro b hb hd
    rw [h3]
    constructor
    · rintro ⟨-, hr⟩ ht
      exact hr b.label ((hexp _).2 ⟨b, ht, rfl, hd, hb⟩) .self
    · intro ht
      refine ⟨hb, ?_⟩
      intro r hr ha
      obtain ⟨d, hdt, rfl, hdd, hdl⟩ := (hexp r).1 hr
      rcases h.anc_cases hb ha with e | ⟨p, hp, hap⟩
      · have := h.unique hdl hb e
        subst this
        exact ht hdt
      · have hpf := h.diff b hb hd p hp
        have := h.anc_full hap hpf
        rw [← this, diff_not_full _ hdd] at hpf
        simp at hpf
  have hfull : ∀ b ∈ l, isFull b.label = true → b ∈ l' := by
    intro b hb hf
    rw [h3]
    refine ⟨hb, ?_⟩
    intro r hr ha
    obtain ⟨d, -, rfl, hdd, -⟩ := (hexp r).1 hr
    have := h.anc_full ha hf
    rw [← this] at hf
    simp [diff_not_full _ hdd] at hf
  refine ⟨hfull, ?_, ?_, ?_, h2⟩
  · intro b hb hd
    rw [hdiff b hb hd]
    have hbm : b ∈ fullsAndDiffs l := List.mem_filter.2 ⟨hb, by simp [hd]⟩
    obtain ⟨pre, post, e⟩ := List.append_of_mem hbm
    rw [length_filter_lt hs pre post b e]
    have hlen : (fullsAndDiffs l).length = pre.length + (post.length + 1) := by rw [e]; simp
    have hpre : b ∉ pre := by
      rw [e] at hnd
      intro hp
      exact (List.nodup_append.1 hnd).2.2 b hp b (by simp) rfl
    rw [hlen]
    rw [e]
    constructor
    · intro ht
      rcases Nat.lt_or_ge post.length n with hc | hc
      · exact hc
      exfalso
      apply ht
      rw [List.take_append, show pre.length + (post.length + 1) - n - pre.length = (post.length - n) + 1 by omega]
      simp
    · intro hlt ht
      rw [List.take_append, show pre.length + (post.length + 1) - n - pre.length = 0 by omega] at ht
      simp only [List.take_zero, List.append_nil] at ht
      exact hpre (List.mem_of_mem_take ht)
  · intro b hb
    constructor
    · intro hbl d hd hdd ha
      rw [h3] at hbl ⊢
      exact ⟨hd, fun r hr ha' => hbl.2 r hr (ha'.trans ha)⟩
    · intro hall
      rw [h3]
      refine ⟨hb, ?_⟩
      intro r hr ha
      obtain ⟨d, hdt, rfl, hdd, hdl⟩ := (hexp r).1 hr
      have := hall d hdl hdd ha
      exact ((h3 d).1 this).2 d.label hr .self
  · intro b hb
    obtain ⟨hb1, hb2⟩ := (mem_drop_iff hnd _ _).1 hb
    have hbl := List.mem_filter.1 hb1
    rcases Bool.or_eq_true_iff.1 hbl.2 with hf | hd
    · exact hfull b hbl.1 hf
    · exact (hdiff b hbl.1 hd).2 hb2

example : expireDiff 2 sampleList = [sF1, sF2, sD2, sF3] := by decide
example : ((fullsAndDiffs sampleList).filter (fun c => decide (sD2.label < c.label))).length < 2 := by decide

/-- Nothing is expired when differential retention is not set. -/
theorem c07_not_set (l : List Backup) : expireDiff 0 l = l := rfl

/-! ## C08 -/

theorem WF.byLabel {l : List Backup} (h : WF l) {b : Backup} (hb : b ∈ l) : byLabel l b.label = some b := by
  unfold Expire.byLabel
  cases hf : l.find? (fun c => decide (c.label = b.label)) with
  | none =>
    have := List.find?_eq_none.1 hf b hb
    simp at this
  | some c =>
    have h1 := List.mem_of_find?_eq_some hf
    have h2 := List.find?_some hf
    rw [h.unique h1 hb (by simpa using h2)]

theorem WF.retentionMet {l : List Backup} (h : WF l) (t : Int) (xs : List Backup) (hx : ∀ b ∈ xs, b ∈ l) :
    ((∀ b ∈ xs, ¬ b.stop < t) ∧ retentionMet l t (xs.map Backup.label) = .ok none) ∨
    ∃ pre k post, xs = pre ++ k :: post ∧ (∀ b ∈ pre, ¬ b.stop < t) ∧ k.stop < t ∧
      retentionMet l t (xs.map Backup.label) = .ok (some k.label) := by
  induction xs with
  | nil => left; exact ⟨by simp, rfl⟩
  | cons b xs ih =>
    rw [List.map_cons, Expire.retentionMet, h.byLabel (hx b (by simp))]
    simp only
    by_cases hb : b.stop < t
    · right
      exact ⟨[], b, xs, rfl, by simp, hb, by rw [if_pos hb]⟩
    · rw [if_neg hb]
      rcases ih (fun c hc => hx c (by simp [hc])) with ⟨h1, h2⟩ | ⟨pre, k, post, e, h1, h2, h3⟩
      · left
        refine ⟨?_, h2⟩
        intro c hc
        rcases List.mem_cons.1 hc with rfl | hc
        · exact hb
        · exact h1 c hc
      · right
        refine ⟨b :: pre, k, post, by rw [e]; rfl, ?_, h2, h3⟩
        intro c hc
        rcases List.mem_cons.1 hc with rfl | hc
        · exact hb
        · exact h1 c hc

theorem WF.head_full {b : Backup} {l : List Backup} (h : WF (b :: l)) : isFull b.label = true := by
  rw [h.full b (by simp)]
  cases hp : b.prior with
  | none => rfl
  | some p =>
    obtain ⟨a, ha, e, hlt, -⟩ := h.prior b (by simp) p hp
    have hs := h.sorted
    rw [List.map_cons, StrictAsc, List.pairwise_cons] at hs
    rcases List.mem_cons.1 ha with rfl | ha
    · rw [e] at hlt; exact absurd hlt (Str.lt_irrefl _)
    · have := hs.1 _ (List.mem_map_of_mem ha)
      rw [e] at this
      exact absurd this (Str.lt_asymm hlt)

theorem length_filter_add {α : Type} (l : List α) (p : α → Bool) :
    l.length = (l.filter p).length + (l.filter (fun b => !p b)).length := by
  induction l with
  | nil => rfl
  | cons a l ih =>
    cases hp : p a
    · rw [List.filter_cons_of_neg (by simp [hp]), List.filter_cons_of_pos (by simp [hp])]
      simp only [List.length_cons]; omega
    · rw [List.filter_cons_of_pos hp, List.filter_cons_of_neg (by simp [hp])]
      simp only [List.length_cons]; omega

/-- Number of full backups before `keep`. -/
def fullsBefore (keep : Str) (l : List Backup) : Nat := ((fulls l).filter (fun b => decide (b.label < keep))).length

theorem WF.expireUntil {keep : Backup} (hk : isFull keep.label = true) (fuel : Nat) {l : List Backup} (h : WF l)
    (hkl : keep ∈ l) (hfuel : l.length < fuel) (n : Nat) :
    ∃ l', expireUntil keep.label fuel l n = .ok (l', n + fullsBefore keep.label l) ∧ WF l' ∧ l'.Sublist l ∧
      ∀ b ∈ l, b ∈ l' ↔ ∃ f ∈ l, isFull f.label = true ∧ Anc l f.label b.label ∧ keep.label ≤ f.label := by
  induction fuel generalizing l n with
  | zero => omega
  | succ fuel ih =>
    cases l with
    | nil => simp at hkl
    | cons b rest =>
      have hs := h.sorted
      rw [List.map_cons, StrictAsc, List.pairwise_cons] at hs
      unfold Expire.expireUntil
      split
      · rename_i e
        have := h.unique (by simp) hkl e
        subst this
        refine ⟨b :: rest, ?_, h, List.Sublist.refl _, ?_⟩
        · have : fullsBefore b.label (b :: rest) = 0 := by
            unfold fullsBefore
            rw [List.length_eq_zero_iff, List.filter_eq_nil_iff]
            intro c hc
            have hc' := (List.mem_filter.1 hc).1
            simp only [decide_eq_true_eq]
            rcases List.mem_cons.1 hc' with rfl | hc'
            · exact Str.lt_irrefl _
            · exact Str.lt_asymm (hs.1 _ (List.mem_map_of_mem hc'))
          rw [this]
          rfl
        · intro c hc
          refine ⟨fun _ => ?_, fun _ => hc⟩
          obtain ⟨f, hf, hf1, hf2⟩ := h.root hc
          refine ⟨f, hf, hf1, hf2, ?_⟩
          rcases List.mem_cons.1 hf with rfl | hf
          · exact Str.le_refl _
          · exact Str.le_of_lt (hs.1 _ (List.mem_map_of_mem hf))
      · rename_i hne
        have hbf := h.head_full
        have hkr : keep ∈ rest := by
          rcases List.mem_cons.1 hkl with rfl | hkr
          · exact absurd rfl hne
          · exact hkr
        have hlt : b.label < keep.label := hs.1 _ (List.mem_map_of_mem hkr)
        have h1 := h.expireBackup b.label
        have hm := h.mem_expireBackup b.label
        have hsub := h.expireBackup_sublist b.label
        have hanc := fun c hc x => h.anc_expireBackup b.label (b := c) hc x
        have hk1 : keep ∈ Expire.expireBackup (b :: rest) b.label := by
          rw [hm]
          refine ⟨hkl, fun ha => ?_⟩
          exact hne (h.anc_full ha hk)
        have hlen : (Expire.expireBackup (b :: rest) b.label).length < fuel := by
          have hb0 : b ∉ Expire.expireBackup (b :: rest) b.label := by
            rw [hm]; exact fun hb => hb.2 .self
          have hle := hsub.length_le
          have hne' : (Expire.expireBackup (b :: rest) b.label).length ≠ (b :: rest).length := by
            intro e
            have := hsub.eq_of_length e
            rw [this] at hb0
            simp at hb0
          simp only [List.length_cons] at hle hne' hfuel
          omega
        obtain ⟨l', e', w', s', m'⟩ := ih h1 hk1 hlen (n + 1)
        refine ⟨l', ?_, w', s'.trans hsub, ?_⟩
        · rw [e']
          congr 2
          have hfl : fulls (Expire.expireBackup (b :: rest) b.label) = fulls rest := by
            refine eq_of_mem (sorted_sublist List.filter_sublist h1.sorted)
              (sorted_sublist List.filter_sublist hs.2) ?_
            intro c
            unfold fulls
            rw [List.mem_filter, List.mem_filter, hm]
            constructor
            · rintro ⟨⟨hc, hca⟩, hcf⟩
              rcases List.mem_cons.1 hc with rfl | hc
              · exact absurd .self hca
              · exact ⟨hc, hcf⟩
            · rintro ⟨hc, hcf⟩
              refine ⟨⟨by simp [hc], fun ha => ?_⟩, hcf⟩
              have := h.anc_full ha hcf
              have hlt' := hs.1 _ (List.mem_map_of_mem hc)
              rw [this] at hlt'
              exact Str.lt_irrefl _ hlt'
          have hbc : fulls (b :: rest) = b :: fulls rest := by
            unfold fulls
            exact List.filter_cons_of_pos (p := fun b : Backup => isFull b.label) hbf
          unfold fullsBefore
          rw [hfl, hbc, List.filter_cons_of_pos (by simpa using hlt)]
          simp only [List.length_cons]
          omega
        · intro c hc
          constructor
          · intro hcl
            have hc1 := s'.subset hcl
            obtain ⟨f, hf, hf1, hf2, hf3⟩ := (m' c hc1).1 hcl
            exact ⟨f, hsub.subset hf, hf1, (hanc c hc1 _).1 hf2, hf3⟩
          · rintro ⟨f, hf, hf1, hf2, hf3⟩
            have hc1 : c ∈ Expire.expireBackup (b :: rest) b.label := by
              rw [hm]
              refine ⟨hc, fun ha => ?_⟩
              have := h.root_unique ha hf2 hbf hf1
              rw [← this] at hf3
              exact Str.lt_irrefl _ (Str.lt_of_lt_of_le hlt hf3)
            refine (m' c hc1).2 ⟨f, ?_, hf1, (hanc c hc1 _).2 hf2, hf3⟩
            rw [hm]
            refine ⟨hf, fun ha => ?_⟩
            have := h.anc_full ha hf1
            rw [← this] at hf3
            exact Str.lt_irrefl _ (Str.lt_of_lt_of_le hlt hf3)

/-- Time based retention with the period starting at `t`. If no full backup stopped before the period then nothing is
expired. Otherwise exactly the backups based on `k` or on a newer full backup are kept, where `k` is the newest full
backup that stopped before the period; the derived archive retention is the number of full backups kept. -/
theorem c08_time_retention (t : Int) (l : List Backup) (h : WF l) :
    ∃ l' r, expireTime t l = .ok (l', r) ∧ WF l' ∧ l'.Sublist l ∧
      ((∀ f ∈ l, isFull f.label = true → ¬ f.stop < t) → l' = l ∧ r = none) ∧
      (∀ k ∈ l, isFull k.label = true → k.stop < t →
        (∀ g ∈ l, isFull g.label = true → g.stop < t → g.label ≤ k.label) →
        r = some (fulls l').length ∧
        ∀ b ∈ l, b ∈ l' ↔ ∃ f ∈ l, isFull f.label = true ∧ Anc l f.label b.label ∧ k.label ≤ f.label) := by
  unfold expireTime
  have hs : StrictAsc ((fulls l).map Backup.label) := sorted_sublist List.filter_sublist h.sorted
  have hcur : sortAsc (labelList isFull l) = (fulls l).map Backup.label := by
    rw [labelList_eq]; exact sortAsc_eq_self hs
  simp only [hcur]
  have hfm : ∀ b, b ∈ fulls l ↔ b ∈ l ∧ isFull b.label = true := by
    intro b; unfold fulls; rw [List.mem_filter]
  have hrm := h.retentionMet t (fulls l).reverse (by
    intro b hb
    exact ((hfm b).1 (List.mem_reverse.1 hb)).1)
  rw [← List.map_reverse]
  rcases hrm with ⟨hnone, e⟩ | ⟨pre, k, post, hx, hpre, hk, e⟩
  · rw [e]
    refine ⟨l, none, rfl, h, List.Sublist.refl _, fun _ => ⟨rfl, rfl⟩, ?_⟩
    intro k hkl hkf hkt
    exact absurd hkt (hnone k (List.mem_reverse.2 ((hfm k).2 ⟨hkl, hkf⟩)))
  · rw [e]
    have hkm : k ∈ fulls l := by
      rw [← List.mem_reverse, hx]; simp
    obtain ⟨hkl, hkf⟩ := (hfm k).1 hkm
    obtain ⟨l', e', w', s', m'⟩ := h.expireUntil hkf (l.length + 1) hkl (by omega) 0
    refine ⟨l', some ((fulls l).map Backup.label |>.length |> (· - (0 + fullsBefore k.label l))), ?_, w', s', ?_, ?_⟩
    · show (do let (l', n) ← expireUntil k.label (l.length + 1) l 0
               pure (l', some (((fulls l).map Backup.label).length - n)) : Res (List Backup × Option Nat)) = _
      rw [e']
      rfl
    · intro hall
      exact absurd hk (hall k hkl hkf)
    · intro k' hk'l hk'f hk't hmax
      have hkk : k' = k := by
        have h1 := hmax k hkl hkf hk
        refine h.unique hk'l hkl (Str.le_antisymm ?_ h1)
        -- k' is not in front of k in the reversed list
        have hk'm : k' ∈ (fulls l).reverse := List.mem_reverse.2 ((hfm k').2 ⟨hk'l, hk'f⟩)
        rw [hx] at hk'm
        rcases List.mem_append.1 hk'm with hp | hp
        · exact absurd hk't (hpre k' hp)
        · rcases List.mem_cons.1 hp with rfl | hp
          · exact Str.le_refl _
          · have hfe : fulls l = post.reverse ++ k :: pre.reverse := by
              have := congrArg List.reverse hx
              simpa using this
            rw [hfe, List.map_append, StrictAsc, List.pairwise_append] at hs
            exact Str.le_of_lt (hs.2.2 _ (List.mem_map_of_mem (List.mem_reverse.2 hp)) k.label (by simp))
      subst hkk
      refine ⟨?_, m'⟩
      -- the full backups kept are those not before k
      have hfl : fulls l' = (fulls l).filter (fun b => !decide (b.label < k'.label)) := by
        refine eq_of_mem (sorted_sublist List.filter_sublist w'.sorted)
          (sorted_sublist (List.filter_sublist.trans List.filter_sublist) h.sorted) ?_
        intro b
        rw [List.mem_filter, hfm]
        unfold fulls
        rw [List.mem_filter]
        constructor
        · rintro ⟨hb, hbf⟩
          obtain ⟨f, hf, hf1, hf2, hf3⟩ := (m' b (s'.subset hb)).1 hb
          have := h.anc_full hf2 hbf
          rw [this] at hf3
          exact ⟨⟨s'.subset hb, hbf⟩, by simpa using (Str.le_iff _ _).1 hf3⟩
        · rintro ⟨⟨hb, hbf⟩, hbk⟩
          exact ⟨(m' b hb).2 ⟨b, hb, hbf, .self, (Str.le_iff _ _).2 (by simpa using hbk)⟩, hbf⟩
      rw [hfl]
      congr 1
      have := length_filter_add (fulls l) (fun b => decide (b.label < k'.label))
      unfold fullsBefore
      simp only [List.length_map]
      omega

example : expireTime 450 sampleList = .ok ([sF2, sD2, sF3], some 2) := rfl
example : expireTime 100 sampleList = .ok (sampleList, none) := rfl

/-- A full backup is expired only if a newer full backup that is kept stopped before the period; if a full backup
stopped before the period then one such backup is kept; the newest full backup is kept. -/
theorem c08_window (t : Int) (l l' : List Backup) (r : Option Nat) (h : WF l) (e : expireTime t l = .ok (l', r)) :
    (∀ f ∈ l, isFull f.label = true → f ∉ l' →
      ∃ g ∈ l', isFull g.label = true ∧ f.label < g.label ∧ g.stop < t) ∧
    ((∃ f ∈ l, isFull f.label = true ∧ f.stop < t) → ∃ g ∈ l', isFull g.label = true ∧ g.stop < t) ∧
    (∀ f ∈ l, isFull f.label = true → (∀ g ∈ l, isFull g.label = true → g.label ≤ f.label) → f ∈ l') := by
  obtain ⟨l2, r2, e2, -, hsub, h1, h2⟩ := c08_time_retention t l h
  rw [e] at e2
  simp only [Except.ok.injEq, Prod.mk.injEq] at e2
  obtain ⟨rfl, rfl⟩ := e2
  by_cases hex : ∃ f ∈ l, isFull f.label = true ∧ f.stop < t
  · -- the newest such backup
    have hmax : ∃ k ∈ l, isFull k.label = true ∧ k.stop < t ∧
        ∀ g ∈ l, isFull g.label = true → g.stop < t → g.label ≤ k.label := by
      clear h1 h2 hsub e h
      induction l with
      | nil => obtain ⟨f, hf, -⟩ := hex; simp at hf
      | cons b l ih =>
        by_cases hb : isFull b.label = true ∧ b.stop < t
        · by_cases hr : ∃ f ∈ l, isFull f.label = true ∧ f.stop < t
          · obtain ⟨k, hk, hkf, hkt, hkm⟩ := ih hr
            rcases Str.le_total b.label k.label with hle | hle
            · refine ⟨k, by simp [hk], hkf, hkt, ?_⟩
              intro g hg hgf hgt
              rcases List.mem_cons.1 hg with rfl | hg
              · exact hle
              · exact hkm g hg hgf hgt
            · refine ⟨b, by simp, hb.1, hb.2, ?_⟩
              intro g hg hgf hgt
              rcases List.mem_cons.1 hg with rfl | hg
              · exact Str.le_refl _
              · exact Str.le_trans (hkm g hg hgf hgt) hle
          · refine ⟨b, by simp, hb.1, hb.2, ?_⟩
            intro g hg hgf hgt
            rcases List.mem_cons.1 hg with rfl | hg
            · exact Str.le_refl _
            · exact absurd ⟨g, hg, hgf, hgt⟩ hr
        · obtain ⟨f, hf, hff⟩ := hex
          have hr : ∃ f ∈ l, isFull f.label = true ∧ f.stop < t := by
            rcases List.mem_cons.1 hf with rfl | hf
            · exact absurd hff hb
            · exact ⟨f, hf, hff⟩
          obtain ⟨k, hk, hkf, hkt, hkm⟩ := ih hr
          refine ⟨k, by simp [hk], hkf, hkt, ?_⟩
          intro g hg hgf hgt
          rcases List.mem_cons.1 hg with rfl | hg
          · exact absurd ⟨hgf, hgt⟩ hb
          · exact hkm g hg hgf hgt
    obtain ⟨k, hkl, hkf, hkt, hkm⟩ := hmax
    obtain ⟨-, hm⟩ := h2 k hkl hkf hkt hkm
    have hkl' : k ∈ l' := (hm k hkl).2 ⟨k, hkl, hkf, .self, Str.le_refl _⟩
    refine ⟨?_, fun _ => ⟨k, hkl', hkf, hkt⟩, ?_⟩
    · intro f hf hff hfl
      refine ⟨k, hkl', hkf, ?_, hkt⟩
      rw [← Str.not_le]
      intro hle
      exact hfl ((hm f hf).2 ⟨f, hf, hff, .self, hle⟩)
    · intro f hf hff hfm
      exact (hm f hf).2 ⟨f, hf, hff, .self, hfm k hkl hkf⟩
  · obtain ⟨rfl, rfl⟩ := h1 (fun f hf hff hft => hex ⟨f, hf, hff, hft⟩)
    exact ⟨fun f hf _ hn => absurd hf hn, fun hx => absurd hx hex, fun f hf _ _ => hf⟩

example : ∃ l' r, expireTime 450 sampleList = .ok (l', r) ∧ sF1 ∉ l' ∧ sF2 ∈ l' := ⟨_, _, rfl, by decide, by decide⟩

/-! ## C09 -/

/-- Every backup that a listed backup is based on or references is listed. -/
def Closed (l : List Backup) : Prop :=
  ∀ b ∈ l, (∀ p, b.prior = some p → ∃ a ∈ l, a.label = p) ∧ (∀ r ∈ b.refs, ∃ a ∈ l, a.label = r)

theorem WF.closed {l : List Backup} (h : WF l) : Closed l := by
  intro b hb
  refine ⟨?_, ?_⟩
  · intro p hp
    obtain ⟨a, ha, e, -⟩ := h.prior b hb p hp
    exact ⟨a, ha, e⟩
  · intro r hr
    obtain ⟨c, hc, e, p, hp, ha⟩ := h.refs b hb r hr
    obtain ⟨a, ha', e', -⟩ := h.prior c hc p hp
    exact h.anc_mem ha ⟨a, ha', e'⟩

/-- Every way to expire backups leaves a well formed list, in particular one that is closed under dependencies. -/
theorem c09_closed (l : List Backup) (h : WF l) :
    (∀ r, WF (expireBackup l r) ∧ Closed (expireBackup l r)) ∧
    (∀ n, WF (expireFull n l) ∧ Closed (expireFull n l)) ∧
    (∀ n, WF (expireDiff n l) ∧ Closed (expireDiff n l)) ∧
    (∀ t l' r, expireTime t l = .ok (l', r) → WF l' ∧ Closed l') ∧
    (∀ x l' r, expireAdhoc l x = .ok (l', r) → WF l' ∧ Closed l') := by
  have hadd : ∀ l', WF l' → WF l' ∧ Closed l' := fun l' w => ⟨w, w.closed⟩
  refine ⟨fun r => hadd _ (h.expireBackup r), fun n => hadd _ ?_, fun n => hadd _ ?_, ?_, ?_⟩
  · rcases Nat.eq_zero_or_pos n with rfl | hn
    · exact h
    · rw [expireFull_eq n hn]
      exact (h.expireAll _).1
  · rcases Nat.eq_zero_or_pos n with rfl | hn
    · exact h
    · rw [expireDiff_eq n hn]
      exact (h.expireAll _).1
  · intro t l' r e
    obtain ⟨l2, r2, e2, w, -⟩ := c08_time_retention t l h
    rw [e] at e2
    simp only [Except.ok.injEq, Prod.mk.injEq] at e2
    obtain ⟨rfl, rfl⟩ := e2
    exact hadd _ w
  · intro x l' r e
    refine hadd _ ?_
    have : l' = expireBackup l x := by
      unfold expireAdhoc at e
      dsimp only [bind, Except.bind, pure, Except.pure] at e
      repeat' split at e
      all_goals first
        | (exfalso; simp at e; done)
        | (simp only [Except.ok.injEq, Prod.mk.injEq] at e; exact e.1.symm)
    rw [this]
    exact h.expireBackup x

example : WF (expireFull 2 sampleList) ∧ expireFull 2 sampleList = [sF2, sD2, sF3] :=
  ⟨((c09_closed _ sample_wf).2.1 2).1, by decide⟩

theorem WF.ref_lt {l : List Backup} (h : WF l) {r x : Str} (hb : Based l r x) : r < x := by
  obtain ⟨b, hb, rfl, p, hp, ha⟩ := hb
  obtain ⟨-, -, -, hlt, -⟩ := h.prior b hb p hp
  exact Str.lt_of_le_of_lt (h.anc_le ha) hlt

theorem take_closed {xs : List Str} (hp : xs.Pairwise (fun a b => b ≤ a)) (k : Nat) {x y : Str} (hx : x ∈ xs.take k)
    (hy : y ∈ xs) (hlt : x < y) : y ∈ xs.take k := by
  rw [← List.take_append_drop k xs] at hy hp
  rcases List.mem_append.1 hy with hy | hy
  · exact hy
  · have := (List.pairwise_append.1 hp).2.2 x hx y hy
    exact absurd hlt (Str.not_lt.2 this)

/-- Expiring a backup can be interrupted at any point: when only the first `k` backups of the order used have been
removed, everything that the remaining backups are based on or reference is still there. -/
theorem c09_abort (l : List Backup) (h : WF l) (label : Str) (k : Nat) (b : Backup) (hb : b ∈ l)
    (hk : b.label ∉ (expireOrder l label).take k) :
    (∀ p, b.prior = some p → p ∉ (expireOrder l label).take k) ∧
    (∀ r ∈ b.refs, r ∉ (expireOrder l label).take k) ∧
    (∀ r, Anc l r b.label → r ∉ (expireOrder l label).take k) := by
  have hp : (expireOrder l label).Pairwise (fun a b => b ≤ a) := by
    unfold expireOrder sortDesc
    rw [List.pairwise_reverse]
    exact sortAsc_pairwise _
  have hm : ∀ x, x ∈ expireOrder l label ↔ Anc l label x := by
    intro x
    unfold expireOrder
    rw [mem_sortDesc]
    exact h.mem_dependentList label x
  have main : ∀ r, Anc l r b.label → r ≠ b.label → r ∉ (expireOrder l label).take k := by
    intro r ha hne hr
    have hlt : r < b.label := by
      rcases (Str.le_iff_lt_or_eq _ _).1 (h.anc_le ha) with hlt | e
      · exact hlt
      · exact absurd e hne
    exact hk (take_closed hp k hr ((hm _).2 (((hm r).1 (List.mem_of_mem_take hr)).trans ha)) hlt)
  have all : ∀ r, Anc l r b.label → r ∉ (expireOrder l label).take k := by
    intro r ha
    by_cases e : r = b.label
    · rw [e]; exact hk
    · exact main r ha e
  refine ⟨?_, ?_, all⟩
  · intro p hp
    exact all p (.step hb hp .self)
  · intro r hr
    obtain ⟨c, hc, e, p, hp, ha⟩ := h.refs b hb r hr
    exact all r (e ▸ .step hc hp ha)

example : sD1.label ∉ (expireOrder sampleList sF1.label).take 1 ∧ sI1.label ∈ (expireOrder sampleList sF1.label).take 1 := by
  decide

/-- A new backup that is based on a listed backup of the same database and references only backups that it is based on
keeps the list well formed (C12 shows that a new label is greater than all others). -/
theorem c09_add (l : List Backup) (h : WF l) (b : Backup) (hnew : ∀ a ∈ l, a.label < b.label)
    (hprior : ∀ p, b.prior = some p → ∃ a ∈ l, a.label = p ∧ a.pgId = b.pgId)
    (hfull : isFull b.label = true ↔ b.prior = none)
    (hdiff : isDiff b.label = true → ∀ p, b.prior = some p → isFull p = true)
    (hrefs : ∀ r ∈ b.refs, ∃ p, b.prior = some p ∧ Anc l r p) : WF (l ++ [b]) := by
  have hmem : ∀ c, c ∈ l → c ∈ l ++ [b] := fun c hc => by simp [hc]
  refine ⟨?_, ?_, ?_, ?_, ?_⟩
  · rw [List.map_append, StrictAsc, List.pairwise_append]
    refine ⟨h.sorted, by simp, ?_⟩
    intro x hx y hy
    obtain ⟨a, ha, rfl⟩ := List.mem_map.1 hx
    simp only [List.map_cons, List.map_nil, List.mem_singleton] at hy
    rw [hy]
    exact hnew a ha
  · intro c hc p hp
    rcases List.mem_append.1 hc with hc | hc
    · obtain ⟨a, ha, h1⟩ := h.prior c hc p hp
      exact ⟨a, hmem a ha, h1⟩
    · simp only [List.mem_singleton] at hc
      subst hc
      obtain ⟨a, ha, e, h1⟩ := hprior p hp
      exact ⟨a, hmem a ha, e, e ▸ hnew a ha, h1⟩
  · intro c hc
    rcases List.mem_append.1 hc with hc | hc
    · exact h.full c hc
    · simp only [List.mem_singleton] at hc
      subst hc; exact hfull
  · intro c hc
    rcases List.mem_append.1 hc with hc | hc
    · exact h.diff c hc
    · simp only [List.mem_singleton] at hc
      subst hc; exact hdiff
  · intro c hc r hr
    rcases List.mem_append.1 hc with hc | hc
    · obtain ⟨d, hd, e, p, hp, ha⟩ := h.refs c hc r hr
      exact ⟨d, hmem d hd, e, p, hp, ha.mono hmem⟩
    · simp only [List.mem_singleton] at hc
      subst hc
      obtain ⟨p, hp, ha⟩ := hrefs r hr
      exact ⟨c, by simp, rfl, p, hp, ha.mono hmem⟩

example : WF (sampleList ++ [sampleBackup (sampleDependent 0x36 0x37 0x44) (some sF3.label) [sF3.label] 700]) :=
  c09_add _ sample_wf _ (by decide) (fun p hp => ⟨sF3, by decide, by simpa [sampleBackup] using hp, rfl⟩)
    (by decide) (fun _ p hp => by simp only [sampleBackup, Option.some.injEq] at hp; subst hp; decide)
    (fun r hr => ⟨sF3.label, rfl, by simp only [sampleBackup, List.mem_singleton] at hr; subst hr; exact .self⟩)

theorem sortDesc_fulls {l : List Backup} (h : WF l) :
    sortDesc (labelList isFull l) = (fulls l).reverse.map Backup.label := by
  have hs : StrictAsc ((fulls l).map Backup.label) := sorted_sublist List.filter_sublist h.sorted
  unfold sortDesc
  rw [labelList_eq, List.map_reverse]
  exact congrArg List.reverse (sortAsc_eq_self hs)

/-- Expiring one backup on request removes exactly it and the backups based on it, and at least one full backup is
left. The latest link is changed exactly when the newest backup was removed, to the newest backup left. It fails only
for the newest full backup, when it is the only one or when the next full backup is of another database. -/
theorem c09_adhoc (l : List Backup) (h : WF l) (b : Backup) (hb : b ∈ l) :
    (∀ l' r, expireAdhoc l b.label = .ok (l', r) →
      (∀ c, c ∈ l' ↔ c ∈ l ∧ ¬ Anc l b.label c.label) ∧ (∃ f ∈ l', isFull f.label = true) ∧
      (∀ z, l.getLast? = some z → (z ∈ l' → r = none) ∧
        (z ∉ l' → ∃ y, l'.getLast? = some y ∧ r = some y.label))) ∧
    (∀ e, expireAdhoc l b.label = .error e → e = .backupSetInvalid ∧ isFull b.label = true ∧
      (∀ f ∈ l, isFull f.label = true → f.label ≤ b.label) ∧
      ((∀ f ∈ l, isFull f.label = true → f = b) ∨
        ∃ f ∈ l, isFull f.label = true ∧ f.label < b.label ∧ f.pgId ≠ b.pgId)) := by
  have hsd := sortDesc_fulls h
  have hfm : ∀ c, c ∈ fulls l ↔ c ∈ l ∧ isFull c.label = true := by
    intro c; unfold fulls; rw [List.mem_filter]
  obtain ⟨root, hroot, hrf, -⟩ := h.root hb
  obtain ⟨fs, hfs⟩ : ∃ fs, (fulls l).reverse = fs := ⟨_, rfl⟩
  have hfs' : fulls l = fs.reverse := by rw [← hfs, List.reverse_reverse]
  have hfm' : ∀ c, c ∈ fs ↔ c ∈ l ∧ isFull c.label = true := by
    intro c; rw [← hfm, hfs', List.mem_reverse]
  have hdesc : fs.Pairwise (fun a b => b.label < a.label) := by
    have hs : StrictAsc ((fulls l).map Backup.label) := sorted_sublist List.filter_sublist h.sorted
    rw [← hfs, List.pairwise_reverse]
    exact List.Pairwise.of_map Backup.label (fun _ _ h => h) hs
  rw [hfs] at hsd
  obtain ⟨z, hz⟩ : ∃ z, l.getLast? = some z := by
    cases hl : l.getLast? with
    | none => rw [List.getLast?_eq_none_iff] at hl; rw [hl] at hb; simp at hb
    | some z => exact ⟨z, rfl⟩
  have hzl : z ∈ l := List.mem_of_getLast? hz
  -- the second part of the function, once the checks have passed
  have tail : ∀ l' r, (∃ f ∈ expireBackup l b.label, isFull f.label = true) →
      (if labelExists (expireBackup l b.label) z.label then Except.ok (expireBackup l b.label, none)
       else match (expireBackup l b.label).getLast? with
        | none => .error .ub
        | some y => .ok (expireBackup l b.label, some y.label) : Res (List Backup × Option Str)) = .ok (l', r) →
      (∀ c, c ∈ l' ↔ c ∈ l ∧ ¬ Anc l b.label c.label) ∧ (∃ f ∈ l', isFull f.label = true) ∧
      (∀ z, l.getLast? = some z → (z ∈ l' → r = none) ∧
        (z ∉ l' → ∃ y, l'.getLast? = some y ∧ r = some y.label)) := by
    intro l' r hex e
    have hle : labelExists (expireBackup l b.label) z.label = true ↔ z ∈ expireBackup l b.label := by
      unfold labelExists
      rw [List.any_eq_true]
      constructor
      · rintro ⟨c, hc, hcz⟩
        have := h.unique ((h.expireBackup_sublist _).subset hc) hzl (by simpa using hcz)
        exact this ▸ hc
      · intro hc; exact ⟨z, hc, by simp⟩
    split at e
    · rename_i hx
      simp only [Except.ok.injEq, Prod.mk.injEq] at e
      obtain ⟨rfl, rfl⟩ := e
      refine ⟨h.mem_expireBackup _, hex, ?_⟩
      intro z' hz'
      rw [hz] at hz'
      simp only [Option.some.injEq] at hz'
      subst hz'
      exact ⟨fun _ => rfl, fun hn => absurd (hle.1 hx) hn⟩
    · rename_i hx
      split at e
      · simp at e
      · rename_i y hy
        simp only [Except.ok.injEq, Prod.mk.injEq] at e
        obtain ⟨rfl, rfl⟩ := e
        refine ⟨h.mem_expireBackup _, hex, ?_⟩
        intro z' hz'
        rw [hz] at hz'
        simp only [Option.some.injEq] at hz'
        subst hz'
        exact ⟨fun hn => absurd (hle.2 hn) hx, fun _ => ⟨y, hy, rfl⟩⟩
  have tailErr : ∀ err, (∃ f ∈ expireBackup l b.label, isFull f.label = true) →
      (if labelExists (expireBackup l b.label) z.label then Except.ok (expireBackup l b.label, none)
       else match (expireBackup l b.label).getLast? with
        | none => .error .ub
        | some y => .ok (expireBackup l b.label, some y.label) : Res (List Backup × Option Str)) ≠ .error err := by
    intro err hex e
    split at e
    · simp at e
    · split at e
      · rename_i hn
        rw [List.getLast?_eq_none_iff] at hn
        obtain ⟨f, hf, -⟩ := hex
        rw [hn] at hf
        simp at hf
      · simp at e
  cases fs with
  | nil => exact absurd ((hfm' root).2 ⟨hroot, hrf⟩) (by simp)
  | cons f older =>
    have hfl := (hfm' f).1 (by simp)
    by_cases hfb : f.label = b.label
    · have hfb' := h.unique hfl.1 hb hfb
      subst hfb'
      have hnewest : ∀ g ∈ l, isFull g.label = true → g.label ≤ f.label := by
        intro g hg hgf
        rcases List.mem_cons.1 ((hfm' g).2 ⟨hg, hgf⟩) with rfl | hg
        · exact Str.le_refl _
        · exact Str.le_of_lt ((List.pairwise_cons.1 hdesc).1 g hg)
      cases older with
      | nil =>
        have e : expireAdhoc l f.label = .error .backupSetInvalid := by
          unfold expireAdhoc
          rw [hsd]
          simp [bind, Except.bind]
        rw [e]
        refine ⟨fun _ _ h => by simp at h, ?_⟩
        intro err herr
        simp only [Except.error.injEq] at herr
        refine ⟨herr.symm, hfl.2, hnewest, .inl ?_⟩
        intro g hg hgf
        have := (hfm' g).2 ⟨hg, hgf⟩
        simpa using this
      | cons g older =>
        have hgl := (hfm' g).1 (by simp)
        have hgf : g.label < f.label := (List.pairwise_cons.1 hdesc).1 g (by simp)
        have hex : ∃ x ∈ expireBackup l f.label, isFull x.label = true := by
          refine ⟨g, (h.mem_expireBackup _ g).2 ⟨hgl.1, fun ha => ?_⟩, hgl.2⟩
          exact Str.lt_irrefl _ (Str.lt_of_le_of_lt (h.anc_le ha) hgf)
        by_cases hpg : f.pgId = g.pgId
        · have e : expireAdhoc l f.label = (if labelExists (expireBackup l f.label) z.label then
              Except.ok (expireBackup l f.label, none)
            else match (expireBackup l f.label).getLast? with
              | none => .error .ub
              | some y => .ok (expireBackup l f.label, some y.label)) := by
            unfold expireAdhoc
            rw [hsd, hz]
            simp [bind, Except.bind, pure, Except.pure, h.byLabel hb, h.byLabel hgl.1, hpg] <;> rfl
          rw [e]
          exact ⟨fun l' r => tail l' r hex, fun err herr => absurd herr (tailErr err hex)⟩
        · have e : expireAdhoc l f.label = .error .backupSetInvalid := by
            unfold expireAdhoc
            rw [hsd]
            simp [bind, Except.bind, h.byLabel hb, h.byLabel hgl.1, hpg]
          rw [e]
          refine ⟨fun _ _ h => by simp at h, ?_⟩
          intro err herr
          simp only [Except.error.injEq] at herr
          exact ⟨herr.symm, hfl.2, hnewest, .inr ⟨g, hgl.1, hgl.2, hgf, fun e => hpg e.symm⟩⟩
    · have hex : ∃ x ∈ expireBackup l b.label, isFull x.label = true := by
        refine ⟨f, (h.mem_expireBackup _ f).2 ⟨hfl.1, fun ha => ?_⟩, hfl.2⟩
        exact hfb (h.anc_full ha hfl.2).symm
      have e : expireAdhoc l b.label = (if labelExists (expireBackup l b.label) z.label then
              Except.ok (expireBackup l b.label, none)
            else match (expireBackup l b.label).getLast? with
              | none => .error .ub
              | some y => .ok (expireBackup l b.label, some y.label)) := by
        unfold expireAdhoc
        rw [hsd, hz]
        simp [bind, Except.bind, pure, Except.pure, hfb] <;> rfl
      rw [e]
      exact ⟨fun l' r => tail l' r hex, fun err herr => absurd herr (tailErr err hex)⟩

example : expireAdhoc sampleList sF3.label = .ok ([sF1, sD1, sI1, sF2, sD2], some sD2.label) := rfl
example : expireAdhoc sampleList sD1.label = .ok ([sF1, sF2, sD2, sF3], none) := rfl
example : expireAdhoc [sF3] sF3.label = .error .backupSetInvalid := rfl

end Verif.Expire
