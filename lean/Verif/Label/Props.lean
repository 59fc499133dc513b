import Verif.Label.Model

/-! # C12: new backup labels -/

namespace Verif.Label

/-! ## Specification -/

/-- A valid label of some type. -/
def isLabel (s : Str) : Bool := isFull s || isDiff s || isIncr s

/-- The type of a label. -/
def isKind : Kind → Str → Bool
  | .full => isFull
  | .diff => isDiff
  | .incr => isIncr

/-- The labels that a new label is compared with: all for a full backup, for others the differential and incremental
backups of the same full backup. -/
def Relevant (kind : Kind) (prior s : Str) : Prop :=
  isLabel s = true ∧ (kind ≠ .full → isFull s = false ∧ s.take 16 = prior.take 16)

/-! ## Lemmas -/

theorem lt_of_take_lt {a b : Str} (n : Nat) (h : a.take n < b.take n) : a < b := by
  rw [← Str.not_le]
  intro hle
  exact absurd h (Str.not_lt.2 (Str.take_le_take n hle))

theorem sortDesc_head {l : List Str} {x : Str} (h : (sortDesc l).head? = some x) : x ∈ l ∧ ∀ y ∈ l, y ≤ x := by
  have hp : (sortDesc l).Pairwise (fun a b => b ≤ a) := by
    unfold sortDesc
    rw [List.pairwise_reverse]
    exact sortAsc_pairwise _
  cases hs : sortDesc l with
  | nil => rw [hs] at h; simp at h
  | cons z rest =>
    rw [hs] at h hp
    simp only [List.head?_cons, Option.some.injEq] at h
    subst h
    have hm : ∀ y, y ∈ l ↔ y = z ∨ y ∈ rest := by
      intro y
      rw [← mem_sortDesc, hs, List.mem_cons]
    refine ⟨(hm z).2 (.inl rfl), ?_⟩
    intro y hy
    rcases (hm y).1 hy with rfl | hy
    · exact Str.le_refl _
    · exact (List.pairwise_cons.1 hp).1 y hy

theorem sortDesc_head_none {l : List Str} (h : (sortDesc l).head? = none) : l = [] := by
  rw [List.head?_eq_none_iff] at h
  rw [List.eq_nil_iff_forall_not_mem]
  intro x hx
  have := mem_sortDesc.2 hx
  rw [h] at this
  simp at this

theorem isDateTime_length {s : Str} (h : isDateTime s = true) : s.length = 15 := by
  simp only [isDateTime, Bool.and_eq_true, beq_iff_eq] at h
  exact h.1.1.1

theorem isDateTime_digits {s : Str} (h : isDateTime s = true) : ∀ c ∈ s, c = 0x2D ∨ isDigit c = true := by
  simp only [isDateTime, Bool.and_eq_true, beq_iff_eq] at h
  obtain ⟨⟨⟨h1, h2⟩, h3⟩, h4⟩ := h
  intro c hc
  rw [← List.take_append_drop 8 s] at hc
  rcases List.mem_append.1 hc with hc | hc
  · right
    exact List.all_eq_true.1 h2 c hc
  · cases hd : s.drop 8 with
    | nil => rw [hd] at hc; simp at hc
    | cons a rest =>
      rw [hd] at hc h3
      simp only [List.head?_cons, Option.some.injEq] at h3
      rcases List.mem_cons.1 hc with rfl | hc
      · exact .inl h3
      · right
        have : s.drop 9 = rest := by
          rw [show (9 : Nat) = 8 + 1 from rfl, ← List.drop_drop, hd]; rfl
        rw [this] at h4
        exact List.all_eq_true.1 h4 c hc

theorem labelFormat_kind (fmt : Int → Str) (kind : Kind) (prior : Str) (t : Int) (hf : isDateTime (fmt t) = true)
    (hp : kind ≠ .full → isFull (prior.take 16) = true) : isKind kind (labelFormat fmt kind prior t) = true := by
  have hl := isDateTime_length hf
  have dep : ∀ k, isFull (prior.take 16) = true →
      isDependent k (prior.take 16 ++ 0x5F :: fmt t ++ [k]) = true := by
    intro k hp
    have h16 : (prior.take 16).length = 16 := by
      simp only [isFull, Bool.and_eq_true, beq_iff_eq] at hp; exact hp.1.1
    generalize prior.take 16 = p at hp h16
    unfold isDependent
    simp only [Bool.and_eq_true, beq_iff_eq]
    have e1 : (p ++ 0x5F :: fmt t ++ [k]).take 16 = p := by
      rw [List.append_assoc, List.take_append_of_le_length (by omega), List.take_of_length_le (by omega)]
    have e2 : (p ++ 0x5F :: fmt t ++ [k]).drop 16 = 0x5F :: fmt t ++ [k] := by
      rw [List.append_assoc, ← h16, List.drop_left]
    have e3 : (p ++ 0x5F :: fmt t ++ [k]).drop 17 = fmt t ++ [k] := by
      rw [show (17 : Nat) = 16 + 1 from rfl, ← List.drop_drop, e2]; rfl
    have e4 : (p ++ 0x5F :: fmt t ++ [k]).drop 32 = [k] := by
      rw [show (32 : Nat) = 17 + 15 from rfl, ← List.drop_drop, e3, ← hl, List.drop_left]
    refine ⟨⟨⟨⟨by simp [h16, hl], by rw [e1]; exact hp⟩, by rw [e2]; rfl⟩, ?_⟩, e4⟩
    rw [e3, List.take_append_of_le_length (by omega), List.take_of_length_le (by omega)]
    exact hf
  cases kind with
  | full =>
    simp only [isKind, labelFormat, isFull, Bool.and_eq_true, beq_iff_eq]
    refine ⟨⟨by simp [hl], ?_⟩, by rw [← hl, List.drop_left]⟩
    rw [List.take_append_of_le_length (by omega), List.take_of_length_le (by omega)]
    exact hf
  | diff => exact dep 0x44 (hp (by simp))
  | incr => exact dep 0x49 (hp (by simp))

theorem isKind_isLabel {kind : Kind} {s : Str} (h : isKind kind s = true) : isLabel s = true := by
  cases kind <;> simp [isKind] at h <;> simp [isLabel, h]

theorem labelMatch_iff (kind : Kind) (prior s : Str) (hp : kind ≠ .full → isFull (prior.take 16) = true) :
    labelMatch kind prior s = true ↔ Relevant kind prior s := by
  have hdep : kind ≠ .full → ((s.length == 33 && s.take 15 == prior.take 15 && (s.drop 15).take 2 == [0x46, 0x5F] &&
      isDateTime ((s.drop 17).take 15) && (s.drop 32 == [0x44] || s.drop 32 == [0x49])) = true ↔
      isLabel s = true ∧ isFull s = false ∧ s.take 16 = prior.take 16) := by
    intro hk
    have hp := hp hk
    simp only [isLabel, isDiff, isIncr, isDependent, Bool.and_eq_true, Bool.or_eq_true, beq_iff_eq]
    have hpl : (prior.take 16).length = 16 := by
      simp only [isFull, Bool.and_eq_true, beq_iff_eq] at hp; exact hp.1.1
    have hp15 : (prior.take 16).drop 15 = [0x46] := by
      simp only [isFull, Bool.and_eq_true, beq_iff_eq] at hp; exact hp.2
    have hpe : prior.take 16 = prior.take 15 ++ [0x46] := by
      rw [← List.take_append_drop 15 (prior.take 16), hp15, List.take_take]; rfl
    constructor
    · rintro ⟨⟨⟨⟨h1, h2⟩, h3⟩, h4⟩, h5⟩
      have hd15 : s.drop 15 = 0x46 :: 0x5F :: s.drop 17 := by
        rw [← List.take_append_drop 2 (s.drop 15), h3, List.drop_drop]; rfl
      have hd16 : s.drop 16 = 0x5F :: s.drop 17 := by
        rw [show (16 : Nat) = 15 + 1 from rfl, ← List.drop_drop, hd15]; rfl
      have h16 : s.take 16 = prior.take 16 := by
        rw [hpe, ← h2, show (16 : Nat) = 15 + 1 from rfl, List.take_add, hd15]; rfl
      refine ⟨?_, ?_, h16⟩
      · rcases h5 with h5 | h5
        · left; right
          exact ⟨⟨⟨⟨h1, by rw [h16]; exact hp⟩, by rw [hd16]; rfl⟩, h4⟩, h5⟩
        · right
          exact ⟨⟨⟨⟨h1, by rw [h16]; exact hp⟩, by rw [hd16]; rfl⟩, h4⟩, h5⟩
      · simp [isFull, h1]
    · rintro ⟨hl, hnf, h16⟩
      have hdd : ∃ k, (k = 0x44 ∨ k = 0x49) ∧ (((s.length = 33 ∧ isFull (s.take 16) = true) ∧
          (s.drop 16).head? = some 0x5F) ∧ isDateTime ((s.drop 17).take 15) = true) ∧ s.drop 32 = [k] := by
        rcases hl with (hl | hl) | hl
        · rw [hnf] at hl; simp at hl
        · exact ⟨_, .inl rfl, hl⟩
        · exact ⟨_, .inr rfl, hl⟩
      obtain ⟨k, hk, ⟨⟨⟨h1, h2⟩, h3⟩, h4⟩, h5⟩ := hdd
      have hd16 : s.drop 16 = 0x5F :: s.drop 17 := by
        cases hd : s.drop 16 with
        | nil => rw [hd] at h3; simp at h3
        | cons a rest =>
          rw [hd] at h3
          simp only [List.head?_cons, Option.some.injEq] at h3
          rw [h3, show (17 : Nat) = 16 + 1 from rfl, ← List.drop_drop, hd]; rfl
      have h15 : s.take 15 = prior.take 15 := by
        have := congrArg (List.take 15) h16
        rwa [List.take_take, List.take_take] at this
      refine ⟨⟨⟨⟨h1, h15⟩, ?_⟩, h4⟩, ?_⟩
      · have : s.drop 15 = [0x46] ++ s.drop 16 := by
          rw [← List.take_append_drop 1 (s.drop 15), List.drop_drop]
          congr 1
          have h := congrArg (List.drop 15) h16
          rw [hp15, List.drop_take] at h
          exact h
        rw [this, hd16]; rfl
      · rcases hk with rfl | rfl
        · exact .inl h5
        · exact .inr h5
  unfold Relevant
  cases kind with
  | full =>
    simp only [labelMatch, matchRegExp, Bool.true_and, isLabel, ne_eq, not_true_eq_false, false_implies, and_true]
  | diff =>
    refine Iff.trans (hdep (by simp)) ?_
    simp
  | incr =>
    refine Iff.trans (hdep (by simp)) ?_
    simp

theorem le_of_ext {a b e : Str} (h : a ++ e ≤ b ++ e) (hlen : a.length = b.length) : a ≤ b := by
  have := Str.take_le_take a.length h
  rw [List.take_left, hlen, List.take_left] at this
  exact this

theorem prefix_le (a b : Str) : a ≤ a ++ b := by
  rw [Str.le_iff]
  induction a with
  | nil => simp
  | cons x a ih =>
    intro h
    rw [List.cons_append, List.cons_lt_cons_iff] at h
    rcases h with h | ⟨-, h⟩
    · exact absurd h (UInt8.lt_irrefl _)
    · exact ih h

theorem prefix_lt (a : Str) (x : UInt8) (b : Str) : a < a ++ x :: b := by
  rcases (Str.le_iff_lt_or_eq _ _).1 (prefix_le a (x :: b)) with h | h
  · exact h
  · have := congrArg List.length h
    simp at this

theorem isLabel_cases {s : Str} (h : isLabel s = true) :
    s.length = 16 ∨ ∃ r, s.length = 33 ∧ s = s.take 16 ++ 0x5F :: r := by
  simp only [isLabel, isDiff, isIncr, isDependent, isFull, Bool.and_eq_true, Bool.or_eq_true, beq_iff_eq] at h
  have dep : s.length = 33 → (s.drop 16).head? = some 0x5F → ∃ r, s.length = 33 ∧ s = s.take 16 ++ 0x5F :: r := by
    intro h1 h2
    cases hd : s.drop 16 with
    | nil => rw [hd] at h2; simp at h2
    | cons a r =>
      rw [hd] at h2
      simp only [List.head?_cons, Option.some.injEq] at h2
      subst h2
      exact ⟨r, h1, by rw [← hd, List.take_append_drop]⟩
  rcases h with (h | h) | h
  · exact .inl h.1.1
  · exact .inr (dep h.1.1.1.1 h.1.1.2)
  · exact .inr (dep h.1.1.1.1 h.1.1.2)

/-- The extension of history files does not disturb the order of labels. -/
theorem le_of_le_ext {a b : Str} (ha : isLabel a = true) (hb : isLabel b = true) (h : a ≤ b ++ manifestExt) : a ≤ b := by
  have short : ∀ n, a.length = n → n ≤ b.length → a ≤ b := by
    intro n hn hnb
    have h1 := Str.take_le_take n h
    rw [List.take_of_length_le (by omega), List.take_append_of_le_length hnb] at h1
    refine Str.le_trans h1 ?_
    conv => rhs; rw [← List.take_append_drop n b]
    exact prefix_le _ _
  rcases isLabel_cases ha with ha' | ⟨r, ha', hr⟩
  · refine short 16 ha' ?_
    rcases isLabel_cases hb with hb' | ⟨r, hb', -⟩ <;> omega
  · rcases isLabel_cases hb with hb' | ⟨r', hb', -⟩
    · have h1 := Str.take_le_take 16 h
      rw [List.take_append_of_le_length (by omega), List.take_of_length_le (l := b) (by omega)] at h1
      rcases (Str.le_iff_lt_or_eq _ _).1 h1 with h2 | h2
      · refine Str.le_of_lt (lt_of_take_lt 16 ?_)
        rwa [List.take_of_length_le (l := b) (by omega)]
      · exfalso
        rw [hr, h2] at h
        have : b ++ manifestExt < b ++ 0x5F :: r := by
          clear h h1 h2 hr short hb' hb ha ha'
          induction b with
          | nil => exact List.cons_lt_cons_iff.2 (.inl (by decide))
          | cons x b ih => exact List.cons_lt_cons_iff.2 (.inr ⟨rfl, ih⟩)
        exact absurd this (Str.not_lt.2 h)
    · exact short 33 ha' (by omega)

theorem ext_strip (l : Str) : (l ++ manifestExt).take ((l ++ manifestExt).length - manifestExt.length) = l := by
  rw [List.length_append, Nat.add_sub_cancel, List.take_left]

/-- Label `l` has a file in the history directory of the newest year. -/
def InNewestYear (history : List (Str × List Str)) (l : Str) : Prop :=
  ∃ h ∈ history, (∀ h' ∈ history, h'.1 ≤ h.1) ∧ l ++ manifestExt ∈ h.2

theorem mem_newest_iff {history : List (Str × List Str)} {year : Str}
    (hy : (sortDesc (history.map Prod.fst)).head? = some year) (f : Str) :
    f ∈ (history.filter fun h => decide (h.1 = year)).flatMap Prod.snd ↔
      ∃ h ∈ history, (∀ h' ∈ history, h'.1 ≤ h.1) ∧ f ∈ h.2 := by
  obtain ⟨h1, h2⟩ := sortDesc_head hy
  simp only [List.mem_flatMap, List.mem_filter, decide_eq_true_eq]
  constructor
  · rintro ⟨h, ⟨hh, rfl⟩, hf⟩
    exact ⟨h, hh, fun h' hh' => h2 _ (List.mem_map_of_mem hh'), hf⟩
  · rintro ⟨h, hh, hmax, hf⟩
    refine ⟨h, ⟨hh, ?_⟩, hf⟩
    obtain ⟨h', hh', he⟩ := List.mem_map.1 h1
    exact Str.le_antisymm (h2 _ (List.mem_map_of_mem hh)) (he ▸ hmax h' hh')

theorem latest_spec {kind : Kind} {prior : Str} {backups : List Str} {history : List (Str × List Str)}
    (hp : kind ≠ .full → isFull (prior.take 16) = true) :
    (∀ m, latestLabel kind prior backups history = some m →
      (m ∈ backups ∨ InNewestYear history m) ∧ Relevant kind prior m ∧
      ∀ l, Relevant kind prior l → l ∈ backups ∨ InNewestYear history l → l ≤ m) ∧
    (latestLabel kind prior backups history = none →
      ∀ l, Relevant kind prior l → ¬ (l ∈ backups ∨ InNewestYear history l)) := by
  have hm := fun s => labelMatch_iff kind prior s hp
  -- The newest label in the backup path
  have hb1 : ∀ b, (sortDesc (backups.filter (labelMatch kind prior))).head? = some b →
      b ∈ backups ∧ Relevant kind prior b ∧ ∀ l, Relevant kind prior l → l ∈ backups → l ≤ b := by
    intro b hb
    obtain ⟨h1, h2⟩ := sortDesc_head hb
    rw [List.mem_filter, hm] at h1
    exact ⟨h1.1, h1.2, fun l hl hlb => h2 l (List.mem_filter.2 ⟨hlb, (hm l).2 hl⟩)⟩
  have hb0 : (sortDesc (backups.filter (labelMatch kind prior))).head? = none →
      ∀ l, Relevant kind prior l → l ∉ backups := by
    intro hb l hl hlb
    have := sortDesc_head_none hb
    rw [List.filter_eq_nil_iff] at this
    exact this l hlb ((hm l).2 hl)
  have hbase : ∀ (h0 : ∀ l, Relevant kind prior l → ¬ InNewestYear history l),
      (∀ m, (sortDesc (backups.filter (labelMatch kind prior))).head? = some m →
        (m ∈ backups ∨ InNewestYear history m) ∧ Relevant kind prior m ∧
        ∀ l, Relevant kind prior l → l ∈ backups ∨ InNewestYear history l → l ≤ m) ∧
      ((sortDesc (backups.filter (labelMatch kind prior))).head? = none →
        ∀ l, Relevant kind prior l → ¬ (l ∈ backups ∨ InNewestYear history l)) := by
    intro h0
    refine ⟨fun m hmm => ?_, fun hn l hl => ?_⟩
    · obtain ⟨h1, h2, h3⟩ := hb1 m hmm
      refine ⟨.inl h1, h2, fun l hl ho => ?_⟩
      rcases ho with ho | ho
      · exact h3 l hl ho
      · exact absurd ho (h0 l hl)
    · rintro (ho | ho)
      · exact hb0 hn l hl ho
      · exact h0 l hl ho
  unfold latestLabel
  cases hy : (sortDesc (history.map Prod.fst)).head? with
  | none =>
    simp only []
    refine hbase ?_
    intro l hl hin
    obtain ⟨h, hh, -⟩ := hin
    have := sortDesc_head_none hy
    rw [List.map_eq_nil_iff] at this
    rw [this] at hh
    simp at hh
  | some year =>
    simp only []
    have hmem : ∀ l, Relevant kind prior l → (InNewestYear history l ↔ l ++ manifestExt ∈
        ((history.filter fun h => decide (h.1 = year)).flatMap Prod.snd).filter fun f =>
          (manifestExt <:+ f) && labelMatch kind prior (f.take (f.length - manifestExt.length))) := by
      intro l hl
      rw [List.mem_filter, mem_newest_iff hy, ext_strip]
      simp only [Bool.and_eq_true, decide_eq_true_eq, (hm l).2 hl, and_true]
      exact ⟨fun h => ⟨h, List.suffix_append _ _⟩, fun h => h.1⟩
    split
    · rename_i hn
      refine hbase fun l hl hin => ?_
      have := (hmem l hl).1 hin
      rw [sortDesc_head_none hn] at this
      simp at this
    · rename_i f hf
      obtain ⟨h1, h2⟩ := sortDesc_head hf
      rw [List.mem_filter] at h1
      obtain ⟨h1, h3⟩ := h1
      simp only [Bool.and_eq_true, decide_eq_true_eq] at h3
      obtain ⟨⟨l, rfl⟩, h4⟩ := h3
      rw [ext_strip] at h4 ⊢
      have hl := (hm l).1 h4
      have hin : InNewestYear history l := (mem_newest_iff hy _).1 h1
      have hmax : ∀ l', Relevant kind prior l' → InNewestYear history l' → l' ≤ l := by
        intro l' hl' hi
        exact le_of_le_ext hl'.1 hl.1 (Str.le_trans (prefix_le _ _) (h2 _ ((hmem l' hl').1 hi)))
      split
      · rename_i hn
        refine ⟨fun m hmm => ?_, fun h => by simp at h⟩
        simp only [Option.some.injEq] at hmm
        subst hmm
        refine ⟨.inr hin, hl, fun l' hl' ho => ?_⟩
        rcases ho with ho | ho
        · exact absurd ho (hb0 hn l' hl')
        · exact hmax l' hl' ho
      · rename_i b hb
        obtain ⟨g1, g2, g3⟩ := hb1 b hb
        split
        · rename_i hlt
          refine ⟨fun m hmm => ?_, fun h => by simp at h⟩
          simp only [Option.some.injEq] at hmm
          subst hmm
          refine ⟨.inr hin, hl, fun l' hl' ho => ?_⟩
          rcases ho with ho | ho
          · exact Str.le_trans (g3 l' hl' ho) (le_of_le_ext g2.1 hl.1 (Str.le_of_lt hlt))
          · exact hmax l' hl' ho
        · rename_i hlt
          refine ⟨fun m hmm => ?_, fun h => by simp at h⟩
          simp only [Option.some.injEq] at hmm
          subst hmm
          refine ⟨.inl g1, g2, fun l' hl' ho => ?_⟩
          rcases ho with ho | ho
          · exact g3 l' hl' ho
          · exact Str.le_trans (hmax l' hl' ho) (Str.le_trans (prefix_le _ _) (Str.not_lt.1 hlt))

/-! ## Properties -/

theorem create_ok {fmt : Int → Str} {kind : Kind} {prior : Str} {t : Int} {backups : List Str}
    {history : List (Str × List Str)} {r : Str} (h : labelCreate fmt kind prior t backups history = .ok r) :
    (r = labelFormat fmt kind prior t ∨ r = labelFormat fmt kind prior (t + 1)) ∧
      ∀ m, latestLabel kind prior backups history = some m → m < r := by
  unfold labelCreate at h
  cases hl : latestLabel kind prior backups history with
  | none =>
    rw [hl] at h
    injection h with h
    exact ⟨.inl h.symm, fun m hm => by simp at hm⟩
  | some m =>
    rw [hl] at h
    simp only [] at h
    split at h
    · split at h
      · cases h
      · rename_i h2
        injection h with h
        refine ⟨.inr h.symm, fun m' hm => ?_⟩
        simp only [Option.some.injEq] at hm
        subst hm; subst h
        exact Str.not_le.1 h2
    · rename_i h2
      injection h with h
      refine ⟨.inl h.symm, fun m' hm => ?_⟩
      simp only [Option.some.injEq] at hm
      subst hm; subst h
      exact Str.not_le.1 h2

/-- **C12** The label of a new backup is a valid label of the backup's type with the time of the backup or one second
later. A differential or incremental backup is in the set of the full backup of its prior backup. -/
theorem c12_valid {fmt : Int → Str} {kind : Kind} {prior : Str} {t : Int} {backups : List Str}
    {history : List (Str × List Str)} {r : Str} (hf : ∀ t, isDateTime (fmt t) = true)
    (hp : kind ≠ .full → isFull (prior.take 16) = true)
    (h : labelCreate fmt kind prior t backups history = .ok r) :
    isKind kind r = true ∧ (kind ≠ .full → r.take 16 = prior.take 16) ∧
      ∃ t' k, (t' = t ∨ t' = t + 1) ∧ fmt t' ++ [k] <:+ r := by
  have hpl : kind ≠ .full → (prior.take 16).length = 16 := by
    intro hk
    have := hp hk
    simp only [isFull, Bool.and_eq_true, beq_iff_eq] at this
    exact this.1.1
  have key : ∀ t', r = labelFormat fmt kind prior t' →
      isKind kind r = true ∧ (kind ≠ .full → r.take 16 = prior.take 16) ∧ ∃ k, fmt t' ++ [k] <:+ r := by
    intro t' ht
    refine ⟨ht ▸ labelFormat_kind fmt kind prior t' (hf t') hp, ?_, ?_⟩
    · intro hk
      have h16 := hpl hk
      cases kind with
      | full => exact absurd rfl hk
      | diff =>
        rw [ht, labelFormat, List.append_assoc, List.take_append_of_le_length (by omega),
          List.take_of_length_le (by omega)]
      | incr =>
        rw [ht, labelFormat, List.append_assoc, List.take_append_of_le_length (by omega),
          List.take_of_length_le (by omega)]
    · cases kind with
      | full => rw [ht, labelFormat]; exact ⟨_, List.suffix_refl _⟩
      | diff =>
        rw [ht, labelFormat]
        refine ⟨0x44, prior.take 16 ++ [0x5F], ?_⟩
        simp
      | incr =>
        rw [ht, labelFormat]
        refine ⟨0x49, prior.take 16 ++ [0x5F], ?_⟩
        simp
  rcases (create_ok h).1 with h1 | h1
  · obtain ⟨k1, k2, k, k3⟩ := key _ h1
    exact ⟨k1, k2, t, k, .inl rfl, k3⟩
  · obtain ⟨k1, k2, k, k3⟩ := key _ h1
    exact ⟨k1, k2, t + 1, k, .inr rfl, k3⟩

/-- **C12** The label of a new backup is after every label that it must be after: those of all backups for a full
backup, those of the backups of the same full backup for others; in the backup path or in the newest year of the
backup history. -/
theorem c12_after {fmt : Int → Str} {kind : Kind} {prior : Str} {t : Int} {backups : List Str}
    {history : List (Str × List Str)} {r : Str} (hp : kind ≠ .full → isFull (prior.take 16) = true)
    (h : labelCreate fmt kind prior t backups history = .ok r) (l : Str) (hl : Relevant kind prior l)
    (hin : l ∈ backups ∨ InNewestYear history l) : l < r := by
  obtain ⟨h1, h2⟩ := latest_spec (backups := backups) (history := history) hp
  cases hm : latestLabel kind prior backups history with
  | none => exact absurd hin (h2 hm l hl)
  | some m => exact Str.lt_of_le_of_lt ((h1 m hm).2.2 l hl hin) ((create_ok h).2 m hm)

/-- **C12** The label of a new backup is not in use: there is nothing with this name in the backup path, nor a manifest
of this name in the newest year of the backup history. -/
theorem c12_unique {fmt : Int → Str} {kind : Kind} {prior : Str} {t : Int} {backups : List Str}
    {history : List (Str × List Str)} {r : Str} (hf : ∀ t, isDateTime (fmt t) = true)
    (hp : kind ≠ .full → isFull (prior.take 16) = true)
    (h : labelCreate fmt kind prior t backups history = .ok r) : r ∉ backups ∧ ¬ InNewestYear history r := by
  obtain ⟨h1, h2, -⟩ := c12_valid hf hp h
  have hrel : Relevant kind prior r := by
    refine ⟨isKind_isLabel h1, fun hk => ⟨?_, h2 hk⟩⟩
    have h33 : r.length = 33 := by
      cases kind with
      | full => exact absurd rfl hk
      | diff => simp only [isKind, isDiff, isDependent, Bool.and_eq_true, beq_iff_eq] at h1; exact h1.1.1.1.1
      | incr => simp only [isKind, isIncr, isDependent, Bool.and_eq_true, beq_iff_eq] at h1; exact h1.1.1.1.1
    simp [isFull, h33]
  constructor
  · intro hin
    exact Str.lt_irrefl _ (c12_after hp h r hrel (.inl hin))
  · intro hin
    exact Str.lt_irrefl _ (c12_after hp h r hrel (.inr hin))

/-- **C12** When the prior backup is in the newest set, the label of the new backup is after the label of every backup. -/
theorem c12_last {fmt : Int → Str} {kind : Kind} {prior : Str} {t : Int} {backups : List Str}
    {history : List (Str × List Str)} {r : Str} (hf : ∀ t, isDateTime (fmt t) = true)
    (hp : kind ≠ .full → isFull (prior.take 16) = true)
    (hnew : kind ≠ .full → ∀ b ∈ backups, isLabel b = true → b.take 16 ≤ prior.take 16)
    (h : labelCreate fmt kind prior t backups history = .ok r) (b : Str) (hb : b ∈ backups) (hbl : isLabel b = true) :
    b < r := by
  by_cases hk : kind = .full
  · exact c12_after hp h b ⟨hbl, fun hk' => absurd hk hk'⟩ (.inl hb)
  · obtain ⟨h1, h2, -⟩ := c12_valid hf hp h
    rcases (Str.le_iff_lt_or_eq _ _).1 (hnew hk b hb hbl) with hlt | heq
    · exact lt_of_take_lt 16 (h2 hk ▸ hlt)
    · cases hbf : isFull b with
      | false => exact c12_after hp h b ⟨hbl, fun _ => ⟨hbf, heq⟩⟩ (.inl hb)
      | true =>
        have hb16 : b.length = 16 := by
          simp only [isFull, Bool.and_eq_true, beq_iff_eq] at hbf; exact hbf.1.1
        have hr33 : r.length = 33 := by
          cases kind with
          | full => exact absurd rfl hk
          | diff => simp only [isKind, isDiff, isDependent, Bool.and_eq_true, beq_iff_eq] at h1; exact h1.1.1.1.1
          | incr => simp only [isKind, isIncr, isDependent, Bool.and_eq_true, beq_iff_eq] at h1; exact h1.1.1.1.1
        rcases isLabel_cases (isKind_isLabel h1) with h16 | ⟨rest, -, hr⟩
        · omega
        · rw [hr, h2 hk, ← heq, List.take_of_length_le (by omega)]
          exact prefix_lt _ _ _

/-- **C12** The command fails only when a label one second later would still not be after a known label (clock skew), and
always fails then. -/
theorem c12_clock {fmt : Int → Str} {kind : Kind} {prior : Str} {t : Int} {backups : List Str}
    {history : List (Str × List Str)} (hp : kind ≠ .full → isFull (prior.take 16) = true) (e : Err) :
    labelCreate fmt kind prior t backups history = .error e ↔ e = .clock ∧
      (∃ l, Relevant kind prior l ∧ (l ∈ backups ∨ InNewestYear history l) ∧ labelFormat fmt kind prior t ≤ l) ∧
      ∃ l, Relevant kind prior l ∧ (l ∈ backups ∨ InNewestYear history l) ∧ labelFormat fmt kind prior (t + 1) ≤ l := by
  obtain ⟨h1, h2⟩ := latest_spec (backups := backups) (history := history) hp
  unfold labelCreate
  cases hm : latestLabel kind prior backups history with
  | none =>
    simp only []
    constructor
    · intro h; cases h
    · rintro ⟨-, ⟨l, hl, hin, -⟩, -⟩
      exact absurd hin (h2 hm l hl)
  | some m =>
    obtain ⟨g1, g2, g3⟩ := h1 m hm
    simp only []
    have hex : ∀ x : Str, x ≤ m ↔ ∃ l, Relevant kind prior l ∧ (l ∈ backups ∨ InNewestYear history l) ∧ x ≤ l :=
      fun x => ⟨fun h => ⟨m, g2, g1, h⟩, fun ⟨l, hl, hin, hx⟩ => Str.le_trans hx (g3 l hl hin)⟩
    rw [← hex, ← hex]
    split
    · rename_i ha
      split
      · rename_i hb
        exact ⟨fun h => (by injection h with h; exact ⟨h.symm, ha, hb⟩), fun h => by rw [h.1]⟩
      · rename_i hb
        exact ⟨fun h => (by cases h), fun h => absurd h.2.2 hb⟩
    · rename_i ha
      exact ⟨fun h => (by cases h), fun h => absurd h.2.1 ha⟩

/-! ## What is not checked -/

/-- `20250101-000000F` -/
def exFull : Str :=
  [0x32, 0x30, 0x32, 0x35, 0x30, 0x31, 0x30, 0x31, 0x2D, 0x30, 0x30, 0x30, 0x30, 0x30, 0x30, 0x46]

/-- `20260203-00000n` -/
def exTime (n : Int) : Str :=
  [0x32, 0x30, 0x32, 0x36, 0x30, 0x32, 0x30, 0x33, 0x2D, 0x30, 0x30, 0x30, 0x30, 0x30, UInt8.ofNat (48 + n.toNat % 10)]

/-- `2026` and `2025` -/
def exYear (n : UInt8) : Str := [0x32, 0x30, 0x32, n]

theorem exTime_valid (n : Int) : isDateTime (exTime n) = true := by
  have h : n.toNat % 10 < 10 := Nat.mod_lt _ (by decide)
  unfold exTime
  generalize n.toNat % 10 = k at h
  have : ∀ k < 10, isDateTime [0x32, 0x30, 0x32, 0x36, 0x30, 0x32, 0x30, 0x33, 0x2D, 0x30, 0x30, 0x30, 0x30, 0x30,
      UInt8.ofNat (48 + k)] = true := by decide
  exact this k h

/-- **C12** Only the newest year of the history is examined, but the history of a dependent backup is in the year of its
full backup: the label of a backup in the history can be used again. -/
theorem c12_history_reused :
    ∃ backups history r, labelCreate exTime .incr exFull 1 backups history = .ok r ∧ exFull ∈ backups ∧
      ∃ h ∈ history, r.take 4 = h.1 ∧ r ++ manifestExt ∈ h.2 :=
  ⟨[exFull], [(exYear 0x36, []), (exYear 0x35, [exFull ++ 0x5F :: exTime 1 ++ [0x49] ++ manifestExt])],
    exFull ++ 0x5F :: exTime 1 ++ [0x49], rfl, by decide, _, .tail _ (.head _), by decide, by decide⟩

/-- **C12** A new backup can have the same timestamp as an existing backup: labels are compared, not timestamps. Here an
incremental backup gets the timestamp of a differential backup of the same set, and a full backup gets the timestamp
of an incremental backup of another set. -/
theorem c12_same_time :
    (∃ r, labelCreate exTime .incr exFull 1 [exFull, exFull ++ 0x5F :: exTime 1 ++ [0x44]] [] = .ok r ∧
      exTime 1 ++ [0x49] <:+ r) ∧
    labelCreate exTime .full [] 1 [exFull, exFull ++ 0x5F :: exTime 1 ++ [0x49]] [] = .ok (exTime 1 ++ [0x46]) :=
  ⟨⟨exFull ++ 0x5F :: exTime 1 ++ [0x49], rfl, by decide⟩, rfl⟩

/-! ## Examples -/

/-- A second later is used when the label of the current second is in use (in the backup path or in the history). -/
example : labelCreate exTime .diff exFull 1 [exFull ++ 0x5F :: exTime 1 ++ [0x44], exFull] [] =
    .ok (exFull ++ 0x5F :: exTime 2 ++ [0x44]) := rfl
example : labelCreate exTime .full [] 1 [exFull] [(exYear 0x35, []), (exYear 0x36, [exTime 1 ++ 0x46 :: manifestExt])] =
    .ok (exTime 2 ++ [0x46]) := rfl

/-- The hypotheses of `c12_last` hold for it. -/
example : isFull (exFull.take 16) = true ∧
    ∀ b ∈ [exFull ++ 0x5F :: exTime 1 ++ [0x44], exFull], isLabel b = true → b.take 16 ≤ exFull.take 16 := by decide

/-- The clock is behind. -/
example : labelCreate exTime .full [] 1 [exTime 7 ++ [0x46]] [] = .error .clock := rfl

end Verif.Label
