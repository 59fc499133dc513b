import Verif.Archive.QueueModel
import Verif.StrLst.AntiProps

/-! # C19: the list of segments to push omits only acknowledged segments -/

namespace Verif.Archive

open Verif.StrLst

/-! ## Lemmas -/

theorem endsWith_iff {s e : Str} : endsWith s e = true ↔ ∃ p, s = p ++ e := by
  unfold endsWith
  simp only [Bool.and_eq_true, decide_eq_true_eq, beq_iff_eq]
  constructor
  · rintro ⟨_, h⟩
    have := List.take_append_drop (s.length - e.length) s
    rw [h] at this
    exact ⟨_, this.symm⟩
  · rintro ⟨p, rfl⟩
    refine ⟨by simp, ?_⟩
    rw [List.length_append, Nat.add_sub_cancel, List.drop_left]

theorem dropExt_append (p e : Str) : dropExt e (p ++ e) = p := by
  unfold dropExt
  rw [List.length_append, Nat.add_sub_cancel, List.take_left]

theorem mem_stripped {l : List Str} {e x : Str} : x ∈ (l.filter fun s => endsWith s e).map (dropExt e) ↔ x ++ e ∈ l := by
  rw [List.mem_map]
  constructor
  · rintro ⟨s, hs, rfl⟩
    rw [List.mem_filter, endsWith_iff] at hs
    obtain ⟨hs, p, rfl⟩ := hs
    rw [dropExt_append]
    exact hs
  · intro h
    exact ⟨x ++ e, List.mem_filter.2 ⟨h, endsWith_iff.2 ⟨x, rfl⟩⟩, dropExt_append x e⟩

theorem nodup_stripped {e : Str} : ∀ {l : List Str}, l.Nodup → ((l.filter fun s => endsWith s e).map (dropExt e)).Nodup
  | [], _ => by simp
  | s :: l, h => by
    rw [List.nodup_cons] at h
    rw [List.filter_cons]
    split
    · rename_i hs
      obtain ⟨p, rfl⟩ := endsWith_iff.1 hs
      rw [List.map_cons, dropExt_append, List.nodup_cons, mem_stripped]
      exact ⟨h.1, nodup_stripped h.2⟩
    · exact nodup_stripped h.2

theorem mem_readyList {status : List Str} {x : Str} : x ∈ readyList status ↔ x ++ readyExt ∈ status := by
  unfold readyList
  rw [List.mem_map]
  constructor
  · rintro ⟨s, hs, rfl⟩
    rw [mem_sortAsc] at hs
    exact mem_stripped.1 (List.mem_map_of_mem hs)
  · intro h
    exact ⟨x ++ readyExt, mem_sortAsc.2 (List.mem_filter.2 ⟨h, endsWith_iff.2 ⟨x, rfl⟩⟩), dropExt_append x _⟩

theorem mem_okList {spool : List Str} {x : Str} : x ∈ okList spool ↔ x ++ okExt ∈ spool := by
  unfold okList
  rw [mem_stripped, mem_sortAsc]

theorem nodup_readyList {status : List Str} (h : status.Nodup) : (readyList status).Nodup := by
  unfold readyList
  have h1 : ((status.filter fun s => endsWith s readyExt).map (dropExt readyExt)).Nodup := nodup_stripped h
  have hp : (sortAsc (status.filter fun s => endsWith s readyExt)).Perm (status.filter fun s => endsWith s readyExt) := sortAsc_perm _
  exact (hp.map (dropExt readyExt)).nodup_iff.2 h1

theorem nodup_okList {spool : List Str} (h : spool.Nodup) : (okList spool).Nodup := by
  unfold okList
  exact nodup_stripped ((sortAsc_perm spool).nodup_iff.2 h)

theorem mem_spoolAfter {spool rem : List Str} {s : Str} :
    s ∈ spoolAfter spool rem ↔ ∃ x, s = x ++ okExt ∧ s ∈ spool ∧ x ∉ rem := by
  unfold spoolAfter
  rw [List.mem_filter]
  simp only [Bool.and_eq_true, Bool.not_eq_true', List.contains_eq_mem, decide_eq_false_iff_not, endsWith_iff]
  constructor
  · rintro ⟨hs, ⟨x, rfl⟩, hn⟩
    rw [dropExt_append] at hn
    exact ⟨x, rfl, hs, hn⟩
  · rintro ⟨x, rfl, hs, hn⟩
    exact ⟨hs, ⟨x, rfl⟩, by rw [dropExt_append]; exact hn⟩

/-! ## Theorems -/

/-- Whatever is in the directories, only files that PostgreSQL marked ready are pushed. -/
theorem c19_only_ready (status spool : List Str) (x : Str) (h : x ∈ (processList status spool).1) : x ++ readyExt ∈ status :=
  mem_readyList.1 ((c26_any _ _).1.subset h)

/-- A ready file is omitted only when it has an ok file. -/
theorem c19_omitted (status spool : List Str) (x : Str) (hr : x ++ readyExt ∈ status) (h : x ∉ (processList status spool).1) :
    x ++ okExt ∈ spool :=
  mem_okList.1 ((c26_any _ _).2 x (mem_readyList.2 hr) h)

/-- After the list is made, each ready file either will be pushed or has an ok file, never both and never neither, in spite of the
order of the lists (`c19_order`). So no ready file is lost and PostgreSQL will get an answer for each. -/
theorem c19_partition (status spool : List Str) (hs : status.Nodup) (hp : spool.Nodup) (x : Str) (hr : x ++ readyExt ∈ status) :
    x ∈ (processList status spool).1 ↔ x ++ okExt ∉ (processList status spool).2 := by
  have hready := mem_readyList.2 hr
  unfold processList
  simp only
  constructor
  · intro h hin
    obtain ⟨y, hy, hspool, hn⟩ := mem_spoolAfter.1 hin
    have hxy : x = y := List.append_cancel_right hy
    subst hxy
    exact hn ((c26_symmetric _ _ (nodup_readyList hs) (nodup_okList hp) x hready (mem_okList.2 hspool)).1 h)
  · intro h
    by_cases hok : x ++ okExt ∈ spool
    · rw [c26_symmetric _ _ (nodup_readyList hs) (nodup_okList hp) x hready (mem_okList.2 hok)]
      exact Classical.byContradiction fun hn => h (mem_spoolAfter.2 ⟨x, rfl, hok, hn⟩)
    · exact Classical.byContradiction fun hn => hok (c19_omitted status spool x hr hn)

/-- What is left in the spool directory are ok files that were there, of ready files. -/
theorem c19_spool (status spool : List Str) (s : Str) (h : s ∈ (processList status spool).2) :
    s ∈ spool ∧ ∃ x, s = x ++ okExt ∧ x ++ readyExt ∈ status := by
  unfold processList at h
  obtain ⟨x, rfl, hs, hn⟩ := mem_spoolAfter.1 h
  exact ⟨hs, x, rfl, mem_readyList.1 ((c26_any _ _).2 x (mem_okList.2 hs) hn)⟩

/-- When the ready list and the ok list are in order without the extensions (no ready file is the name of another with an extension
before `.ready`) ok files are removed only when there is no ready file, and no file with an ok file is pushed again. -/
theorem c19_exact (status spool : List Str) (hs : (readyList status).Pairwise (· < ·)) (hp : (okList spool).Pairwise (· < ·)) (x : Str) :
    (x ∈ (processList status spool).1 ↔ x ++ readyExt ∈ status ∧ x ++ okExt ∉ spool) ∧
    (x ++ okExt ∈ (processList status spool).2 ↔ x ++ readyExt ∈ status ∧ x ++ okExt ∈ spool) := by
  have hle : ∀ {l : List Str}, l.Pairwise (· < ·) → l.Pairwise (· ≤ ·) := fun h =>
    h.imp fun hab => (Str.le_iff_lt_or_eq _ _).2 (.inl hab)
  unfold processList
  simp only
  rw [c26_difference _ _ hs (hle hp), c26_difference _ _ hp (hle hs)]
  constructor
  · rw [List.mem_filter]
    simp only [Bool.not_eq_true', List.contains_eq_mem, decide_eq_false_iff_not, mem_okList, mem_readyList]
  · rw [mem_spoolAfter]
    constructor
    · rintro ⟨y, hy, hs, hn⟩
      have hxy : x = y := List.append_cancel_right hy
      subst hxy
      refine ⟨?_, hs⟩
      rw [List.mem_filter, not_and] at hn
      have := hn (mem_okList.2 hs)
      simpa [mem_readyList] using this
    · rintro ⟨hr, hs⟩
      refine ⟨x, rfl, hs, ?_⟩
      rw [List.mem_filter]
      rintro ⟨_, h⟩
      simp [mem_readyList, hr] at h

/-- The files pushed in a run: a prefix of the list, never empty, within the size unless it is one file. -/
theorem c19_batch (batchMax : Nat) (files : List Str) (h : files ≠ []) :
    batchLimit batchMax files = files.take (max 1 batchMax) ∧ batchLimit batchMax files ≠ [] := by
  have h1 : ∀ (n : Nat) (files : List Str), files.length ≤ n → files ≠ [] →
      batchLimit batchMax files = files.take (max 1 batchMax) := by
    intro n
    induction n with
    | zero => intro files hl hne; exact absurd (List.length_eq_zero_iff.1 (by omega)) hne
    | succ n ih =>
      intro files hl hne
      rw [batchLimit]
      split
      · rename_i hc
        rw [ih files.dropLast (by rw [List.length_dropLast]; omega)
          (fun h => by have := congrArg List.length h; rw [List.length_dropLast, List.length_nil] at this; omega),
          List.dropLast_eq_take, List.take_take]
        congr 1
        omega
      · rename_i hc
        rw [List.take_of_length_le]
        omega
  have h1 := h1 _ files (Nat.le_refl _) h
  refine ⟨h1, ?_⟩
  rw [h1]
  cases files with
  | nil => exact absurd rfl h
  | cons x l =>
    intro hc
    have := congrArg List.length hc
    simp at this

/-! ## Examples and witness -/

/-- One file pushed before, one not, one acknowledged, one error. -/
example : processList [[0x41] ++ readyExt, [0x42] ++ readyExt, [0x43]] [[0x43] ++ okExt, [0x42] ++ errorExt, [0x41] ++ okExt] =
    ([[0x42]], [[0x41] ++ okExt]) := by decide

example : (readyList [[0x41] ++ readyExt, [0x42] ++ readyExt]).Pairwise (· < ·) ∧ (okList [[0x43] ++ okExt, [0x41] ++ okExt]).Pairwise (· < ·) := by
  decide

example : batchLimit 2 [[1], [2], [3]] = [[1], [2]] ∧ batchLimit 0 [[1], [2], [3]] = [[1]] := by
  constructor
  · rw [(c19_batch _ _ (by simp)).1]; rfl
  · rw [(c19_batch _ _ (by simp)).1]; rfl

/-- The ready files are put in order before the extension is removed, so the file `X.00000028.backup` is before `X`, and the ok file
of `X` is removed and `X` pushed again although it is ready and was pushed. -/
theorem c19_order : ∃ (status spool : List Str) (x : Str), x ++ readyExt ∈ status ∧ x ++ okExt ∈ spool ∧
    x ∈ (processList status spool).1 ∧ x ++ okExt ∉ (processList status spool).2 :=
  ⟨[[0x58] ++ readyExt, [0x58, 0x2e, 0x30, 0x2e, 0x62] ++ readyExt], [[0x58] ++ okExt], [0x58], by decide, by decide, by decide, by decide⟩

end Verif.Archive
