import Verif.Restore.TimelineModel
import Verif.Restore.SelectProps

/-! # Timeline verification (C24) -/

namespace Verif.Restore

open Num Wal
open Archive (trim isTrim)

/-! ## Specification: history files as PostgreSQL writes them -/

/-- A line of a history file: parent timeline, position of the switch and reason; or a blank line or comment. -/
inductive HLine where
  | entry (timeline hi lo reason : Str)
  | other (text : Str)

/-- The text of a line. PostgreSQL writes `%u\t%X/%X\t%s\n` (writeTimeLineHistory() in timeline.c). -/
def HLine.text : HLine → Str
  | .entry t h l r => t ++ [0x09] ++ (h ++ [0x2f] ++ l) ++ [0x09] ++ r
  | .other s => s

/-- The line is well formed. -/
def HLine.Valid : HLine → Prop
  | .entry t h l r => (∃ n, Numeral 10 t n ∧ n < 2 ^ 32) ∧ (∃ x, Numeral 16 h x ∧ x < 2 ^ 32) ∧ (∃ y, Numeral 16 l y ∧ y < 2 ^ 32) ∧
      (0x0a : UInt8) ∉ r
  | .other s => (0x0a : UInt8) ∉ s ∧ ((∀ c ∈ s, isTrim c = true) ∨ ∃ w r, s = w ++ 0x23 :: r ∧ ∀ c ∈ w, isTrim c = true)

/-- The line says that timeline `tl` was left at position `lsn`. -/
def HLine.Says (line : HLine) (tl lsn : Nat) : Prop :=
  match line with
  | .entry t h l _ => Numeral 10 t tl ∧ ∃ x y, Numeral 16 h x ∧ Numeral 16 l y ∧ lsn = x * 2 ^ 32 + y
  | .other _ => False

/-- The text of a history file. -/
def historyText : List HLine → Str
  | [] => []
  | l :: ls => l.text ++ [0x0a] ++ historyText ls

/-! ## Lemmas -/

theorem numeral_unique {base : Nat} {s : Str} {a b : Nat} (ha : Numeral base s a) (hb : Numeral base s b) : a = b := by
  obtain ⟨_, ds, hds, rfl⟩ := ha
  obtain ⟨_, es, hes, rfl⟩ := hb
  have : ds.map some = es.map some := hds.symm.trans hes
  have h2 : ds = es := by
    have := congrArg (List.map (fun o : Option Nat => o.getD 0)) this
    simpa [List.map_map, Function.comp_def] using this
  rw [h2]

theorem numeral_not_mem {base : Nat} {s : Str} {v : Nat} (h : Numeral base s v) (c : UInt8) (hc : digitVal c = none) : c ∉ s := by
  intro hm
  obtain ⟨_, ds, hds, _⟩ := h
  have : digitOf base c ∈ s.map (digitOf base) := List.mem_map_of_mem hm
  rw [hds] at this
  obtain ⟨d, _, hd⟩ := List.mem_map.1 this
  unfold digitOf at hd
  rw [hc] at hd
  cases hd

theorem numeral_not_trim {base : Nat} {s : Str} {v : Nat} (h : Numeral base s v) : ∀ c ∈ s, isTrim c = false := by
  intro c hc
  cases ht : isTrim c with
  | false => rfl
  | true =>
    exfalso
    unfold isTrim at ht
    simp only [Bool.or_eq_true, beq_iff_eq] at ht
    rcases ht with ((rfl | rfl) | rfl) | rfl <;> exact numeral_not_mem h _ (by decide) hc

theorem trim_eq (a b : Str) (ha : a ≠ []) (h : ∀ c ∈ a.head?, isTrim c = false) (hl : ∀ c ∈ a.getLast?, isTrim c = false) :
    ∃ b', b' <+: b ∧ trim (a ++ b) = a ++ b' := by
  have h1 : (a ++ b).dropWhile isTrim = a ++ b := by
    cases a with
    | nil => exact absurd rfl ha
    | cons c a =>
      rw [List.cons_append, List.dropWhile_cons_of_neg]
      have := h c (by simp)
      simp [this]
  refine ⟨(b.reverse.dropWhile isTrim).reverse, ?_, ?_⟩
  · have : b.reverse.dropWhile isTrim <:+ b.reverse := List.dropWhile_suffix _
    rw [← List.reverse_prefix] at this
    simpa using this
  · unfold trim
    rw [h1, List.reverse_append]
    have h2 : ∀ l : Str, (l ++ a.reverse).dropWhile isTrim = l.dropWhile isTrim ++ a.reverse := by
      intro l
      induction l with
      | nil =>
        rw [List.nil_append, List.dropWhile_nil, List.nil_append]
        rw [List.getLast?_eq_head?_reverse] at hl
        cases hr : a.reverse with
        | nil => rfl
        | cons c r =>
          rw [hr] at hl
          have := hl c (by simp)
          rw [List.dropWhile_cons_of_neg]
          simp [this]
      | cons c l ih =>
        rw [List.cons_append]
        cases hc : isTrim c with
        | true => rw [List.dropWhile_cons_of_pos hc, List.dropWhile_cons_of_pos hc, ih]
        | false =>
          rw [List.dropWhile_cons_of_neg (by simp [hc]), List.dropWhile_cons_of_neg (by simp [hc]), List.cons_append]
    rw [h2]
    simp

theorem trim_all (s : Str) (h : ∀ c ∈ s, isTrim c = true) : trim s = [] := by
  unfold trim
  have : s.dropWhile isTrim = [] := by
    induction s with
    | nil => rfl
    | cons c s ih =>
      rw [List.dropWhile_cons_of_pos (h c List.mem_cons_self)]
      exact ih (fun d hd => h d (List.mem_cons_of_mem _ hd))
  rw [this]
  rfl

theorem trim_comment (w r : Str) (h : ∀ c ∈ w, isTrim c = true) : ∃ r', trim (w ++ 0x23 :: r) = 0x23 :: r' := by
  have h1 : trim (w ++ 0x23 :: r) = trim (0x23 :: r) := by
    unfold trim
    rw [List.dropWhile_append_of_pos h]
  obtain ⟨b', _, hb⟩ := trim_eq [0x23] r (by simp) (by simp; decide) (by simp; decide)
  exact ⟨b', by rw [h1, ← List.singleton_append, hb]; rfl⟩

theorem lsnFromStr_numeral {h l : Str} {x y : Nat} (hx : Numeral 16 h x) (hxl : x < 2 ^ 32) (hy : Numeral 16 l y) (hyl : y < 2 ^ 32) :
    lsnFromStr (h ++ [0x2f] ++ l) = .ok (x * 2 ^ 32 + y) := by
  unfold lsnFromStr
  rw [split_one _ _ _ (numeral_not_mem hx _ (by decide)) (numeral_not_mem hy _ (by decide))]
  dsimp only
  rw [(c51_numeral 16 h x hx).1, (c51_numeral 16 l y hy).1, if_pos (by omega), if_pos (by omega)]
  simp only [bind, Except.bind, pure, Except.pure]
  congr 1
  omega

theorem historyLine_entry (t h l r : Str) (hv : (HLine.entry t h l r).Valid) :
    ∃ tl lsn, HLine.Says (.entry t h l r) tl lsn ∧ historyLine (HLine.text (.entry t h l r)) = .ok (some (tl, lsn)) := by
  obtain ⟨⟨n, hn, hnl⟩, ⟨x, hx, hxl⟩, ⟨y, hy, hyl⟩, hr⟩ := hv
  refine ⟨n, x * 2 ^ 32 + y, ⟨hn, x, y, hx, hy, rfl⟩, ?_⟩
  obtain ⟨b', hb', htrim⟩ := trim_eq (t ++ [0x09] ++ (h ++ [0x2f] ++ l)) ([0x09] ++ r) (by simp)
    (by
      intro c hc
      cases ht : t with
      | nil => exact absurd ht hn.1
      | cons d t' =>
        rw [ht] at hc
        simp at hc
        exact numeral_not_trim hn c (by rw [ht, ← hc]; exact List.mem_cons_self))
    (by
      intro c hc
      rw [← List.append_assoc, List.getLast?_append_of_ne_nil _ hy.1] at hc
      exact numeral_not_trim hy c (List.mem_of_getLast? hc))
  unfold historyLine
  have htext : HLine.text (.entry t h l r) = t ++ [0x09] ++ (h ++ [0x2f] ++ l) ++ ([0x09] ++ r) := by
    simp [HLine.text]
  rw [htext, htrim]
  cases ht : t with
  | nil => exact absurd ht hn.1
  | cons d t' =>
    have hd : d ∈ t := by rw [ht]; exact List.mem_cons_self
    have hne : d ≠ 0x23 := by
      rintro rfl
      exact numeral_not_mem hn 0x23 (by decide) hd
    have hcons : d :: t' ++ [0x09] ++ (h ++ [0x2f] ++ l) ++ b' = d :: (t' ++ [0x09] ++ (h ++ [0x2f] ++ l) ++ b') := rfl
    rw [hcons]
    dsimp only
    rw [if_neg hne]
    have hcons' : d :: (t' ++ [0x09] ++ (h ++ [0x2f] ++ l) ++ b') = t ++ 0x09 :: ((h ++ [0x2f] ++ l) ++ b') := by
      rw [ht]
      simp
    have htab : (0x09 : UInt8) ∉ h ++ [0x2f] ++ l := by
      simp only [List.mem_append, List.mem_singleton, not_or]
      exact ⟨⟨numeral_not_mem hx _ (by decide), by decide⟩, numeral_not_mem hy _ (by decide)⟩
    rw [hcons', split_append, split_none 0x09 t (numeral_not_mem hn _ (by decide))]
    have hrest : ∃ more, split 0x09 ((h ++ [0x2f] ++ l) ++ b') = (h ++ [0x2f] ++ l) :: more := by
      cases b' with
      | nil => exact ⟨[], by rw [List.append_nil, split_none _ _ htab]⟩
      | cons c b' =>
        obtain ⟨z, hz⟩ := hb'
        injection hz with h1 h2
        subst h1
        exact ⟨split 0x09 b', by rw [split_append, split_none _ _ htab]; rfl⟩
    obtain ⟨more, hmore⟩ := hrest
    rw [hmore]
    dsimp only [List.singleton_append]
    rw [(c51_numeral 10 t n hn).2.1, if_pos hnl, lsnFromStr_numeral hx hxl hy hyl]

theorem historyLine_other (s : Str) (hv : (HLine.other s).Valid) : historyLine s = .ok none := by
  unfold historyLine
  rcases hv.2 with h | ⟨w, r, rfl, h⟩
  · rw [trim_all s h]
  · obtain ⟨r', hr⟩ := trim_comment w r h
    rw [hr]
    rfl

theorem text_newline (line : HLine) (hv : line.Valid) : (0x0a : UInt8) ∉ line.text := by
  cases line with
  | entry t h l r =>
    obtain ⟨⟨n, hn, hnl⟩, ⟨x, hx, hxl⟩, ⟨y, hy, hyl⟩, hr⟩ := hv
    simp only [HLine.text, List.mem_append, List.mem_singleton, not_or]
    exact ⟨⟨⟨⟨numeral_not_mem hn _ (by decide), by decide⟩, ⟨numeral_not_mem hx _ (by decide), by decide⟩,
      numeral_not_mem hy _ (by decide)⟩, by decide⟩, hr⟩
  | other s => exact hv.1

/-- A history file is read as it was written: parents and switch positions. -/
theorem c24_history (lines : List HLine) (hv : ∀ l ∈ lines, l.Valid) :
    ∃ items, historyParse (historyText lines) = .ok items ∧
      ∀ tl lsn, (tl, lsn) ∈ items ↔ ∃ l ∈ lines, l.Says tl lsn := by
  unfold historyParse
  induction lines with
  | nil =>
    refine ⟨[], by decide, ?_⟩
    simp
  | cons line lines ih =>
    obtain ⟨items, hi, hm⟩ := ih (fun l hl => hv l (List.mem_cons_of_mem _ hl))
    have hvl := hv line List.mem_cons_self
    rw [historyText, List.append_assoc, List.singleton_append, split_append, split_none _ _ (text_newline line hvl)]
    cases line with
    | other s =>
      refine ⟨items, ?_, fun tl lsn => ?_⟩
      · rw [List.singleton_append, historyLines]
        simp only [HLine.text]
        rw [historyLine_other s hvl]
        dsimp only
        rw [hi]
        rfl
      · rw [hm]
        simp [HLine.Says]
    | entry t h l r =>
      obtain ⟨n, p, hs, hline⟩ := historyLine_entry t h l r hvl
      refine ⟨(n, p) :: items, ?_, fun tl lsn => ?_⟩
      · rw [List.singleton_append, historyLines, hline]
        dsimp only
        rw [hi]
        rfl
      · rw [List.mem_cons, hm]
        simp only [List.mem_cons, exists_eq_or_imp]
        have : (tl, lsn) = (n, p) ↔ HLine.Says (.entry t h l r) tl lsn := by
          constructor
          · intro h; cases h; exact hs
          · rintro ⟨h1, x, y, h2, h3, rfl⟩
            obtain ⟨h1', x', y', h2', h3', rfl⟩ := hs
            rw [numeral_unique h1 h1', numeral_unique h2 h2', numeral_unique h3 h3']
        rw [this]

/-- The name of the history file of a timeline. -/
def historyName (n : Nat) : Str := hexDigits 8 n ++ historyExt

theorem historyName_lt (a b : Nat) (ha : a < 2 ^ 32) (hb : b < 2 ^ 32) : historyName a < historyName b ↔ a < b := by
  unfold historyName
  rw [lt_append _ _ _ _ (by rw [hexDigits_length, hexDigits_length]), hexDigits_lt 8 a b (by omega) (by omega)]
  constructor
  · rintro (h | ⟨_, h⟩)
    · exact h
    · exact absurd h (Str.lt_irrefl _)
  · exact .inl

theorem hexDigits_range (w n : Nat) : ∀ c ∈ hexDigits w n, 0x30 ≤ c ∧ c ≤ 0x46 := by
  have hc : ∀ d : Fin 16, 0x30 ≤ hexChar d.1 ∧ hexChar d.1 ≤ 0x46 := by decide +kernel
  induction w generalizing n with
  | zero => intro c hc; cases hc
  | succ w ih =>
    intro c hm
    rw [hexDigits, List.mem_append] at hm
    rcases hm with hm | hm
    · exact ih _ c hm
    · simp at hm
      rw [hm]
      exact hc ⟨n % 16, Nat.mod_lt _ (by decide)⟩

theorem historyMatch_name (n : Nat) : historyMatch (historyName n) = true := by
  have hl := hexDigits_length 8 n
  unfold historyName
  cases hd : hexDigits 8 n with
  | nil => rw [hd] at hl; cases hl
  | cons c s =>
    rw [List.cons_append, historyMatch, ← List.cons_append, ← hd]
    have h1 : (hexDigits 8 n ++ historyExt).take 8 = hexDigits 8 n := by
      rw [List.take_append_of_le_length (by omega), List.take_of_length_le (by omega)]
    have h2 : (hexDigits 8 n ++ historyExt).drop 8 = historyExt := by
      conv => lhs; arg 1; rw [← hl]
      rw [List.drop_left]
    rw [h1, h2]
    have h3 : (hexDigits 8 n).all (fun x => 0x30 ≤ x && x ≤ 0x46) = true := by
      rw [List.all_eq_true]
      intro x hx
      have := hexDigits_range 8 n x hx
      simp [this.1, this.2]
    rw [h3]
    simp [hl]

/-- The latest timeline is the greatest one with a history file in the archive, and not before the one of the backup. -/
theorem c24_latest (repo : HistRepo) (names : List Str) (current : Nat) (hn : repo.names = .ok names)
    (hclean : ∀ x ∈ names, historyMatch x = true → ∃ n, n < 2 ^ 32 ∧ x = historyName n) :
    ∃ t, timelineLatest repo current = .ok t ∧ current ≤ t ∧ (t = current ∨ historyName t ∈ names) ∧
      ∀ n, n < 2 ^ 32 → historyName n ∈ names → n ≤ t := by
  unfold timelineLatest
  rw [hn]
  dsimp only
  have hmem : ∀ x, x ∈ sortDesc (names.filter historyMatch) ↔ x ∈ names ∧ historyMatch x = true := by
    intro x
    rw [mem_sortDesc, List.mem_filter]
  have hsorted : (sortDesc (names.filter historyMatch)).Pairwise (fun a b => b ≤ a) := by
    unfold sortDesc
    rw [List.pairwise_reverse]
    exact sortAsc_pairwise _
  cases hs : sortDesc (names.filter historyMatch) with
  | nil =>
    refine ⟨current, rfl, Nat.le_refl _, .inl rfl, fun n _ hnm => ?_⟩
    have := (hmem (historyName n)).2 ⟨hnm, historyMatch_name n⟩
    rw [hs] at this
    cases this
  | cons x rest =>
    rw [hs] at hsorted hmem
    rw [List.pairwise_cons] at hsorted
    obtain ⟨hx1, hx2⟩ := (hmem x).1 List.mem_cons_self
    obtain ⟨m, hm, rfl⟩ := hclean x hx1 hx2
    have htake : (historyName m).take 8 = hexDigits 8 m := by
      unfold historyName
      have hl := hexDigits_length 8 m
      rw [List.take_append_of_le_length (by omega), List.take_of_length_le (by omega)]
    have hmax : ∀ n, n < 2 ^ 32 → historyName n ∈ names → n ≤ m := by
      intro n hn hnm
      have h1 := (hmem (historyName n)).2 ⟨hnm, historyMatch_name n⟩
      rcases List.mem_cons.1 h1 with h1 | h1
      · have : ¬ m < n := fun hlt => by
          have := (historyName_lt m n hm hn).2 hlt
          rw [h1] at this
          exact Str.lt_irrefl _ this
        omega
      · have h2 := hsorted.1 _ h1
        have : ¬ m < n := fun hlt => by
          have h3 := (historyName_lt m n hm hn).2 hlt
          exact (Str.le_iff _ _).1 h2 h3
        omega
    dsimp only
    rw [htake, (c51_numeral 16 _ m (numeral8 m hm)).2.1, if_pos hm]
    dsimp only
    by_cases hgt : m > current
    · rw [if_pos hgt]
      exact ⟨m, rfl, by omega, .inr hx1, hmax⟩
    · rw [if_neg hgt]
      exact ⟨current, rfl, Nat.le_refl _, .inl rfl, fun n hn h => by have := hmax n hn h; omega⟩

/-- What the target asks for, as a number: given in decimal, or in hexadecimal after `0x`. -/
theorem c24_target_number (repo : HistRepo) (backup : Nat) (t : Str) (n : Nat) (hn : n < 2 ^ 32)
    (h : Numeral 10 t n ∨ ∃ h, Numeral 16 h n ∧ t = 0x30 :: 0x78 :: h) : targetTimeline repo backup t = .ok n := by
  unfold targetTimeline
  rcases h with h | ⟨s, h, rfl⟩
  · have h1 : t ≠ targetLatest := by
      rintro rfl
      obtain ⟨_, ds, hds, _⟩ := h
      cases ds with
      | nil => cases hds
      | cons d ds =>
        injection hds with h1 h2
        revert h1
        simp [digitOf, digitVal]
    have h2 : ¬ [0x30, 0x78].isPrefixOf t = true := by
      intro hp
      obtain ⟨r, rfl⟩ := List.isPrefixOf_iff_prefix.1 hp
      obtain ⟨_, ds, hds, _⟩ := h
      have h3 : digitOf 10 0x78 ∈ ([0x30, 0x78] ++ r).map (digitOf 10) := List.mem_map_of_mem (by simp)
      rw [hds] at h3
      obtain ⟨d, _, hd⟩ := List.mem_map.1 h3
      revert hd
      simp [digitOf, digitVal]
    rw [if_neg h1, if_neg h2, (c51_numeral 10 t n h).2.1, if_pos hn]
  · rw [if_neg (by simp [targetLatest]), if_pos (by simp [List.isPrefixOf])]
    have : (0x30 :: 0x78 :: s).drop 2 = s := rfl
    rw [this, (c51_numeral 16 s n h).2.1, if_pos hn]

/-- A restore to a timeline is accepted exactly when it is the timeline of the backup, or its history leaves the timeline of the backup
after the start of the backup. -/
theorem c24_verify (repo : HistRepo) (le11 immediate : Bool) (backup lsnBackup : Nat) (target : Option Str) (timeline : Nat)
    (lines : List HLine) (hcur : targetDefault le11 immediate target ≠ targetCurrent)
    (ht : targetTimeline repo backup (targetDefault le11 immediate target) = .ok timeline)
    (hc : timeline ≠ backup → repo.content timeline = .ok (historyText lines)) (hv : ∀ l ∈ lines, l.Valid) :
    ((timeline = backup ∨ ∃ l ∈ lines, ∃ lsn, l.Says backup lsn ∧ lsnBackup < lsn) →
      timelineVerify repo le11 immediate backup lsnBackup target = .ok ()) ∧
    (timeline ≠ backup → (∀ l ∈ lines, ∀ lsn, l.Says backup lsn → lsn ≤ lsnBackup) →
      timelineVerify repo le11 immediate backup lsnBackup target = .error .dbMismatch) := by
  unfold timelineVerify
  rw [if_neg hcur, ht]
  dsimp only
  by_cases heq : timeline = backup
  · rw [if_pos heq]
    exact ⟨fun _ => rfl, fun h => absurd heq h⟩
  · rw [if_neg heq]
    obtain ⟨items, hi, hm⟩ := c24_history lines hv
    unfold historyLoad
    rw [hc heq]
    dsimp only
    rw [hi]
    dsimp only
    have hiff : items.any (fun i => i.1 == backup && lsnBackup < i.2) = true ↔
        ∃ l ∈ lines, ∃ lsn, l.Says backup lsn ∧ lsnBackup < lsn := by
      rw [List.any_eq_true]
      simp only [Bool.and_eq_true, beq_iff_eq, decide_eq_true_eq]
      constructor
      · rintro ⟨⟨tl, lsn⟩, hmem, rfl, hlt⟩
        obtain ⟨l, hl, hs⟩ := (hm tl lsn).1 hmem
        exact ⟨l, hl, lsn, hs, hlt⟩
      · rintro ⟨l, hl, lsn, hs, hlt⟩
        exact ⟨(backup, lsn), (hm backup lsn).2 ⟨l, hl, hs⟩, rfl, hlt⟩
    constructor
    · rintro (h | h)
      · exact absurd h heq
      · rw [if_pos (hiff.2 h)]
    · intro _ hno
      rw [if_neg]
      intro hany
      obtain ⟨l, hl, lsn, hs, hlt⟩ := hiff.1 hany
      have := hno l hl lsn hs
      omega

/-- Whatever the repository holds: a restore that is accepted stays on the timeline of the backup, or the history file of the target
timeline was read and leaves the timeline of the backup after its start. -/
theorem c24_sound (repo : HistRepo) (le11 immediate : Bool) (backup lsnBackup : Nat) (target : Option Str)
    (h : timelineVerify repo le11 immediate backup lsnBackup target = .ok ()) :
    targetDefault le11 immediate target = targetCurrent ∨
    ∃ timeline, targetTimeline repo backup (targetDefault le11 immediate target) = .ok timeline ∧
      (timeline = backup ∨ ∃ content items lsn, repo.content timeline = .ok content ∧ historyParse content = .ok items ∧
        (backup, lsn) ∈ items ∧ lsnBackup < lsn) := by
  unfold timelineVerify at h
  by_cases hc : targetDefault le11 immediate target = targetCurrent
  · exact .inl hc
  · rw [if_neg hc] at h
    refine .inr ?_
    cases ht : targetTimeline repo backup (targetDefault le11 immediate target) with
    | error e => rw [ht] at h; cases h
    | ok timeline =>
      rw [ht] at h
      dsimp only at h
      refine ⟨timeline, rfl, ?_⟩
      by_cases heq : timeline = backup
      · exact .inl heq
      · rw [if_neg heq] at h
        refine .inr ?_
        unfold historyLoad at h
        cases hcont : repo.content timeline with
        | error e => rw [hcont] at h; cases h
        | ok content =>
          rw [hcont] at h
          dsimp only at h
          cases hp : historyParse content with
          | error e => rw [hp] at h; cases h
          | ok items =>
            rw [hp] at h
            dsimp only at h
            split at h
            · rename_i hany
              rw [List.any_eq_true] at hany
              obtain ⟨⟨tl, lsn⟩, hm, hcond⟩ := hany
              simp only [Bool.and_eq_true, beq_iff_eq, decide_eq_true_eq] at hcond
              exact ⟨content, items, lsn, rfl, hp, hcond.1 ▸ hm, hcond.2⟩
            · cases h

/-- The timeline of the backup is followed for old versions, immediate recovery and on request, with no history needed. -/
theorem c24_current (repo : HistRepo) (le11 immediate : Bool) (backup lsnBackup : Nat) (target : Option Str) :
    timelineVerify repo le11 immediate backup lsnBackup (some targetCurrent) = .ok () ∧
    timelineVerify repo true immediate backup lsnBackup none = .ok () ∧
    timelineVerify repo le11 true backup lsnBackup none = .ok () ∧
    timelineVerify repo false false backup lsnBackup none = timelineVerify repo le11 immediate backup lsnBackup (some targetLatest) := by
  refine ⟨rfl, rfl, ?_, rfl⟩
  unfold timelineVerify targetDefault
  simp

/-! ## Concrete cases -/

/-- Timeline 3 left timeline 1 at 0/5000000 and timeline 2 at 0/7000000. -/
def exLines : List HLine := [
  .other [0x23, 0x20, 0x78],
  .entry [0x31] [0x30] [0x35, 0x30, 0x30, 0x30, 0x30, 0x30, 0x30] [0x6e, 0x6f, 0x20, 0x09],
  .entry [0x32] [0x30] [0x37, 0x30, 0x30, 0x30, 0x30, 0x30, 0x30] []]

def exHist : HistRepo where
  names := .ok [historyName 2, historyName 3, [0x78]]
  content n := if n = 3 then .ok (historyText exLines) else .error .fileMissing

theorem exLines_valid : ∀ l ∈ exLines, l.Valid := by
  have hn : ∀ (base : Nat) (s : Str) (ds : List Nat), s ≠ [] → s.map (digitOf base) = ds.map some → valueOf base ds < 2 ^ 32 →
      ∃ n, Numeral base s n ∧ n < 2 ^ 32 := fun base s ds h1 h2 h3 => ⟨_, ⟨h1, ds, h2, rfl⟩, h3⟩
  intro l hl
  simp only [exLines, List.mem_cons, List.not_mem_nil, or_false] at hl
  rcases hl with rfl | rfl | rfl
  · exact ⟨by decide, .inr ⟨[], _, rfl, fun c hc => by cases hc⟩⟩
  · exact ⟨hn _ _ [1] (by decide) (by decide) (by decide), hn _ _ [0] (by decide) (by decide) (by decide),
      hn _ _ [5, 0, 0, 0, 0, 0, 0] (by decide) (by decide) (by decide), by decide⟩
  · exact ⟨hn _ _ [2] (by decide) (by decide) (by decide), hn _ _ [0] (by decide) (by decide) (by decide),
      hn _ _ [7, 0, 0, 0, 0, 0, 0] (by decide) (by decide) (by decide), by decide⟩

/-- The conditions of `c24_verify` hold; a backup of timeline 1 at 0/4000000 can follow timeline 3, one at 0/5000000 cannot. -/
example : (∀ l ∈ exLines, l.Valid) ∧ targetTimeline exHist 1 targetLatest = .ok 3 ∧ exHist.content 3 = .ok (historyText exLines) ∧
    timelineVerify exHist false false 1 0x4000000 none = .ok () ∧
    timelineVerify exHist false false 1 0x5000000 none = .error .dbMismatch ∧
    timelineVerify exHist false false 4 0x4000000 (some [0x33]) = .error .dbMismatch ∧
    timelineVerify exHist false false 2 0x6000000 (some [0x30, 0x78, 0x33]) = .ok () :=
  ⟨exLines_valid, by decide +kernel, by decide +kernel, by decide +kernel, by decide +kernel, by decide +kernel, by decide +kernel⟩

/-- The condition of `c24_latest` holds. -/
example : ∀ x ∈ [historyName 2, historyName 3, [0x78]], historyMatch x = true → ∃ n, n < 2 ^ 32 ∧ x = historyName n := by
  simp only [List.mem_cons, List.not_mem_nil, or_false]
  rintro x (rfl | rfl | rfl) h
  · exact ⟨2, by decide, rfl⟩
  · exact ⟨3, by decide, rfl⟩
  · exact absurd h (by decide)

/-- The expression for history files is not anchored, so a file with more in its name takes part: with a temporary file of an
unfinished push of `00000004.history` the latest timeline is one whose history file does not exist. -/
theorem c24_latest_unanchored : ∃ tmp : Str, historyName 4 <+: tmp ∧ tmp ≠ historyName 4 ∧
    timelineLatest ⟨.ok [historyName 2, tmp], fun _ => .error .fileMissing⟩ 1 = .ok 4 :=
  ⟨historyName 4 ++ [0x2e, 0x74, 0x6d, 0x70], ⟨_, rfl⟩, by decide, by decide +kernel⟩

end Verif.Restore
