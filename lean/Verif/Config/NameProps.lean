import Verif.Config.NameModel

/-!
# C62: what the name of an option means

The specification reads a name without the helpers of the model: a name is an optional `no-` or
`reset-`, a stem, an optional number and the rest that begins with the first dash.
-/

namespace Verif.Config

/-- The number that a string of decimal digits is. -/
def number (ds : Str) : Nat := ds.foldl (fun n c => n * 10 + (c.toNat - 48)) 0

/-- The string ends in a decimal digit. -/
def EndsInDigit (s : Str) : Prop := ∃ t c, s = t ++ [c] ∧ 48 ≤ c.toNat ∧ c.toNat ≤ 57

/-- How a name without `no-` and `reset-` is read: the key and the name without the key. The key is
taken modulo `2 ^ 32`, which is not what a reader expects (see `c62_wrap_divergence`). -/
inductive Body : Str → Option Nat → Str → Prop
  | plain {name : Str} (h : (45 : UInt8) ∉ name) : Body name none name
  | noKey {stem tail : Str} (h : (45 : UInt8) ∉ stem) (ne : stem ≠ []) (hd : ¬ EndsInDigit stem) :
      Body (stem ++ 45 :: tail) none (stem ++ 45 :: tail)
  | key {stem ds tail : Str} {k : Nat} (h : (45 : UInt8) ∉ stem) (ne : stem ≠ [])
      (hd : ¬ EndsInDigit stem) (dne : ds ≠ []) (dig : ∀ c ∈ ds, 48 ≤ c.toNat ∧ c.toNat ≤ 57)
      (hk : number ds % 2 ^ 32 = k) (lo : 1 ≤ k) (hi : k ≤ 256) :
      Body (stem ++ ds ++ 45 :: tail) (some k) (stem ++ 45 :: tail)

/-- How a name is read: is it negated, is it reset, the key and the name without all of this. -/
inductive Reads : Str → Bool → Bool → Option Nat → Str → Prop
  | negate {rest base : Str} {key : Option Nat} (h : Body rest key base) :
      Reads ([110, 111, 45] ++ rest) true false key base
  | reset {rest base : Str} {key : Option Nat} (h : Body rest key base) :
      Reads ([114, 101, 115, 101, 116, 45] ++ rest) false true key base
  | set {name base : Str} {key : Option Nat} (hn : ¬ [110, 111, 45] <+: name)
      (hr : ¬ [114, 101, 115, 101, 116, 45] <+: name) (h : Body name key base) :
      Reads name false false key base

/-- The name picks the entry `i` of the table: it is the name of this entry, or (when prefixes are
allowed) it is no name of the table and this entry is the only one whose name starts with it. -/
def Picks (prefixMatch : Bool) (names : List Str) (base : Str) (i : Nat) : Prop :=
  names[i]? = some base ∨
    (prefixMatch = true ∧ base ∉ names ∧ (∃ n, names[i]? = some n ∧ base <+: n) ∧
      ∀ j n, names[j]? = some n → base <+: n → j = i)

/-- The option a name stands for, directly or by a deprecated name. -/
inductive Denotes (T : Table) (prefixMatch : Bool) (base : Str) : Nat → Option DepRule → Prop
  | opt {i : Nat} (h : Picks prefixMatch (T.opts.map OptRule.name) base i) :
      Denotes T prefixMatch base i none
  | dep {j : Nat} {d : DepRule} (no : ∀ i, ¬ Picks prefixMatch (T.opts.map OptRule.name) base i)
      (h : Picks prefixMatch (T.deps.map DepRule.name) base j) (hd : T.deps[j]? = some d) :
      Denotes T prefixMatch base d.id (some d)

/-- May the name have, or lack, a key? -/
def KeyAllowed (ignoreMissing : Bool) (o : OptRule) (key : Option Nat) : Option DepRule → Prop
  | some d => (key ≠ none → d.indexed = true) ∧
      (key = none → d.unindexed = true ∨ ignoreMissing = true)
  | none => (key = none ∧ o.deprecateMatch = true) ∨
      ((key ≠ none → o.group = true) ∧ (key = none → o.group = true → ignoreMissing = true))

/-- What the tables guarantee: no name twice and deprecated names stand for options. -/
structure Table.WF (T : Table) : Prop where
  opts : (T.opts.map OptRule.name).Nodup
  deps : (T.deps.map DepRule.name).Nodup
  ids : ∀ d ∈ T.deps, d.id < T.opts.length

/-! ### The key -/

theorem number_snoc (xs : Str) (c : UInt8) :
    number (xs ++ [c]) = number xs * 10 + (c.toNat - 48) := by
  simp [number, List.foldl_append]

theorem isDigit_iff (c : UInt8) : isDigit c = true ↔ 48 ≤ c.toNat ∧ c.toNat ≤ 57 := by
  simp [isDigit, UInt8.le_iff_toNat_le]

theorem digit_toUInt32 (c : UInt8) (h : isDigit c = true) :
    c.toUInt32 - 48 = UInt32.ofNat (c.toNat - 48) := by
  obtain ⟨h1, h2⟩ := (isDigit_iff c).1 h
  apply UInt32.toNat_inj.1
  rw [UInt32.toNat_sub_of_le]
  · simp
    omega
  · rw [UInt32.le_iff_toNat_le]
    simpa using h1

theorem tally_eq (cs : Str) : ∀ (mult acc : UInt32),
    tally cs mult acc =
      (acc + mult * UInt32.ofNat (number (cs.takeWhile isDigit).reverse), cs.dropWhile isDigit) := by
  induction cs with
  | nil => intro mult acc; simp [tally, number]
  | cons c cs ih =>
    intro mult acc
    rw [tally]
    by_cases hc : isDigit c = true
    · rw [if_pos hc, ih, digit_toUInt32 c hc]
      rw [List.takeWhile_cons_of_pos hc, List.dropWhile_cons_of_pos hc, List.reverse_cons, number_snoc]
      rw [UInt32.ofNat_add, UInt32.ofNat_mul]
      simp only [Prod.mk.injEq, and_true]
      have : UInt32.ofNat 10 = 10 := rfl
      rw [this]
      grind
    · rw [if_neg hc]
      simp [hc, number]

/-! ### Reading the key -/

theorem takeWhile_dash {stem tail : Str} (h : (45 : UInt8) ∉ stem) :
    (stem ++ 45 :: tail).takeWhile (· ≠ dash) = stem ∧
    (stem ++ 45 :: tail).dropWhile (· ≠ dash) = 45 :: tail := by
  induction stem with
  | nil => simp [dash]
  | cons c cs ih =>
    have hc : c ≠ 45 := fun e => h (by simp [e])
    have hcs : (45 : UInt8) ∉ cs := fun e => h (by simp [e])
    obtain ⟨h1, h2⟩ := ih hcs
    constructor
    · rw [List.cons_append, List.takeWhile_cons_of_pos (by simp [dash, hc]), h1]
    · rw [List.cons_append, List.dropWhile_cons_of_pos (by simp [dash, hc]), h2]

theorem takeWhile_nodash {name : Str} (h : (45 : UInt8) ∉ name) :
    name.dropWhile (· ≠ dash) = [] := by
  induction name with
  | nil => rfl
  | cons c cs ih =>
    have hc : c ≠ 45 := fun e => h (by simp [e])
    have hcs : (45 : UInt8) ∉ cs := fun e => h (by simp [e])
    rw [List.dropWhile_cons_of_pos (by simp [dash, hc]), ih hcs]

/-- A name without a dash, or the part before its first dash and the part from there. -/
theorem name_cases (name : Str) :
    (45 : UInt8) ∉ name ∨ ∃ pre tail, name = pre ++ 45 :: tail ∧ (45 : UInt8) ∉ pre := by
  induction name with
  | nil => left; simp
  | cons c cs ih =>
    by_cases hc : c = 45
    · exact .inr ⟨[], cs, by simp [hc], by simp⟩
    · rcases ih with h | ⟨pre, tail, rfl, h⟩
      · left
        intro hx
        rcases List.mem_cons.1 hx with he | hx
        · exact hc he.symm
        · exact h hx
      · right
        refine ⟨c :: pre, tail, by simp, ?_⟩
        intro hx
        rcases List.mem_cons.1 hx with he | hx
        · exact hc he.symm
        · exact h hx

theorem endsInDigit_iff (s : Str) :
    EndsInDigit s ↔ ∃ c t, s.reverse = c :: t ∧ isDigit c = true := by
  constructor
  · rintro ⟨t, c, rfl, h⟩
    exact ⟨c, t.reverse, by simp, (isDigit_iff c).2 h⟩
  · rintro ⟨c, t, h, hd⟩
    refine ⟨t.reverse, c, ?_, (isDigit_iff c).1 hd⟩
    have := congrArg List.reverse h
    simpa using this

/-- The bytes before the dash are a stem that does not end in a digit and digits. -/
theorem split_digits {stem ds : Str} (hd : ¬ EndsInDigit stem)
    (dig : ∀ c ∈ ds, 48 ≤ c.toNat ∧ c.toNat ≤ 57) :
    (stem ++ ds).reverse.takeWhile isDigit = ds.reverse ∧
    (stem ++ ds).reverse.dropWhile isDigit = stem.reverse := by
  have hall : ∀ c ∈ ds.reverse, isDigit c = true := fun c hc =>
    (isDigit_iff c).2 (dig c (List.mem_reverse.1 hc))
  rw [List.reverse_append]
  have hstem : stem.reverse.takeWhile isDigit = [] ∧ stem.reverse.dropWhile isDigit = stem.reverse := by
    cases hs : stem.reverse with
    | nil => simp
    | cons c t =>
      have : ¬ isDigit c = true := fun h => hd ((endsInDigit_iff stem).2 ⟨c, t, hs, h⟩)
      simp [this]
  constructor
  · rw [List.takeWhile_append_of_pos hall, hstem.1, List.append_nil]
  · rw [List.dropWhile_append_of_pos hall, hstem.2]

theorem digits_split (pre : Str) :
    ∃ stem ds, pre = stem ++ ds ∧ ¬ EndsInDigit stem ∧
      (∀ c ∈ ds, 48 ≤ c.toNat ∧ c.toNat ≤ 57) := by
  refine ⟨(pre.reverse.dropWhile isDigit).reverse, (pre.reverse.takeWhile isDigit).reverse, ?_, ?_, ?_⟩
  · rw [← List.reverse_append, List.takeWhile_append_dropWhile, List.reverse_reverse]
  · rw [endsInDigit_iff]
    rintro ⟨c, t, h, hd⟩
    rw [List.reverse_reverse] at h
    have := List.head_dropWhile_not isDigit (l := pre.reverse) (by rw [h]; simp)
    simp only [h, List.head_cons] at this
    rw [hd] at this
    cases this
  · intro c hc
    have hc := List.mem_reverse.1 hc
    have := List.all_takeWhile (l := pre.reverse) (p := isDigit)
    exact (isDigit_iff c).1 (List.all_eq_true.1 this c hc)

theorem stripKey_pre {stem ds tail : Str} (hs : (45 : UInt8) ∉ stem) (hd : ¬ EndsInDigit stem)
    (dig : ∀ c ∈ ds, 48 ≤ c.toNat ∧ c.toNat ≤ 57) :
    stripKey (stem ++ ds ++ 45 :: tail) =
      if stem = [] then .error .optionInvalid
      else if ds = [] then .ok (false, 0, stem ++ 45 :: tail)
      else if number ds % 2 ^ 32 < 1 ∨ number ds % 2 ^ 32 > 256 then .error .optionInvalid
      else .ok (true, number ds % 2 ^ 32 - 1, stem ++ 45 :: tail) := by
  have hpre : (45 : UInt8) ∉ stem ++ ds := by
    intro h
    rcases List.mem_append.1 h with h | h
    · exact hs h
    · have := (dig 45 h).1; simp at this
  obtain ⟨h1, h2⟩ := takeWhile_dash (tail := tail) hpre
  obtain ⟨h3, h4⟩ := split_digits hd dig
  rw [stripKey, h1, h2]
  simp only [tally_eq, h3, h4, List.reverse_reverse]
  simp only [List.isEmpty_cons, Bool.false_eq_true, if_false, List.isEmpty_iff, List.reverse_eq_nil_iff,
    List.append_eq_nil_iff, List.length_reverse, List.length_append]
  have hnum : (0 + 1 * UInt32.ofNat (number ds) : UInt32).toNat = number ds % 2 ^ 32 := by simp
  have hsub : ¬ ((0 + 1 * UInt32.ofNat (number ds) : UInt32) < 1) →
      (0 + 1 * UInt32.ofNat (number ds) - 1 : UInt32).toNat = number ds % 2 ^ 32 - 1 := by
    intro h
    rw [UInt32.toNat_sub_of_le, hnum]
    · rfl
    · rw [UInt32.lt_iff_toNat_lt] at h
      rw [UInt32.le_iff_toNat_le]
      simp only [Nat.not_lt] at h
      exact h
  have hcond : ((0 + 1 * UInt32.ofNat (number ds) : UInt32) < 1 ∨
      (0 + 1 * UInt32.ofNat (number ds) : UInt32) > keyMax) ↔
      (number ds % 2 ^ 32 < 1 ∨ number ds % 2 ^ 32 > 256) := by
    rw [gt_iff_lt, UInt32.lt_iff_toNat_lt, UInt32.lt_iff_toNat_lt, hnum]
    exact Iff.rfl
  by_cases he : stem = []
  · simp [he]
  · simp only [he, false_and, if_false]
    by_cases hds : ds = []
    · simp [hds]
    · have hl : ¬ stem.length = stem.length + ds.length := by
        have := List.length_pos_iff.2 hds
        omega
      simp only [hds, hl, if_false]
      by_cases hc : (number ds % 2 ^ 32 < 1 ∨ number ds % 2 ^ 32 > 256)
      · rw [if_pos hc, if_pos (hcond.2 hc)]
      · rw [if_neg hc, if_neg (fun h => hc (hcond.1 h))]
        rw [hsub (fun h => hc (hcond.1 (.inl h)))]

theorem stripKey_iff (name base : Str) (ix : Bool) (k : Nat) :
    stripKey name = .ok (ix, k, base) ↔
      ∃ key, Body name key base ∧ ix = key.isSome ∧ k + 1 = key.getD 1 := by
  rcases name_cases name with hn | ⟨pre, tail, rfl, hp⟩
  · have hdw := takeWhile_nodash hn
    rw [stripKey]
    simp only [hdw, List.isEmpty_nil, if_true]
    constructor
    · intro h
      cases h
      exact ⟨none, .plain hn, rfl, rfl⟩
    · rintro ⟨key, hb, rfl, hk⟩
      cases hb with
      | plain _ => simp at hk; simp [hk]
      | noKey => exact absurd (by simp) hn
      | key => exact absurd (by simp) hn
  · obtain ⟨stem, ds, rfl, hd, dig⟩ := digits_split pre
    have hs : (45 : UInt8) ∉ stem := fun h => hp (List.mem_append_left _ h)
    rw [stripKey_pre hs hd dig]
    constructor
    · intro h
      split at h
      · cases h
      · rename_i hne
        split at h
        · rename_i hds
          cases h
          subst hds
          rw [List.append_nil]
          exact ⟨none, .noKey hs hne hd, rfl, rfl⟩
        · rename_i hds
          split at h
          · cases h
          · rename_i hr
            cases h
            refine ⟨some (number ds % 2 ^ 32), .key hs hne hd hds dig rfl (by omega) (by omega), rfl, ?_⟩
            simp
            omega
    · rintro ⟨key, hb, rfl, hk⟩
      -- the reading of a name is unique
      have hb' : ∃ stem' ds', stem ++ ds ++ 45 :: tail = stem' ++ ds' ++ 45 :: tail ∧
          (45 : UInt8) ∉ stem' ∧ stem' ≠ [] ∧ ¬ EndsInDigit stem' ∧
          (∀ c ∈ ds', 48 ≤ c.toNat ∧ c.toNat ≤ 57) ∧ base = stem' ++ 45 :: tail ∧
          ((ds' = [] ∧ key = none) ∨
            (ds' ≠ [] ∧ key = some (number ds' % 2 ^ 32) ∧ 1 ≤ number ds' % 2 ^ 32 ∧
              number ds' % 2 ^ 32 ≤ 256)) := by
        generalize hN : stem ++ ds ++ 45 :: tail = N at hb ⊢
        cases hb with
        | plain h => exact absurd (by rw [← hN]; simp) h
        | @noKey stem' tail' h ne hd' =>
          have h1 := takeWhile_dash (tail := tail) hp
          have h2 := takeWhile_dash (tail := tail') h
          rw [hN] at h1
          have ht : tail = tail' := by
            have := h1.2.symm.trans h2.2
            simpa using this
          subst ht
          exact ⟨stem', [], by simp, h, ne, hd', by simp, rfl, .inl ⟨rfl, rfl⟩⟩
        | @key stem' ds' tail' k' h ne hd' dne dig' hk' lo hi =>
          have hp' : (45 : UInt8) ∉ stem' ++ ds' := by
            intro hm
            rcases List.mem_append.1 hm with hm | hm
            · exact h hm
            · have := (dig' 45 hm).1; simp at this
          have h1 := takeWhile_dash (tail := tail) hp
          have h2 := takeWhile_dash (tail := tail') hp'
          rw [hN] at h1
          have ht : tail = tail' := by
            have := h1.2.symm.trans h2.2
            simpa using this
          subst ht
          subst hk'
          exact ⟨stem', ds', rfl, h, ne, hd', dig', rfl, .inr ⟨dne, rfl, lo, hi⟩⟩
      obtain ⟨stem', ds', heq, hs', ne, hd', dig', rfl, hkey⟩ := hb'
      have he : stem ++ ds = stem' ++ ds' := List.append_cancel_right heq
      have hst : stem = stem' ∧ ds = ds' := by
        have h1 := split_digits hd dig
        have h2 := split_digits hd' dig'
        rw [he] at h1
        have e1 := h1.1.symm.trans h2.1
        have e2 := h1.2.symm.trans h2.2
        exact ⟨by simpa using e2, by simpa using e1⟩
      obtain ⟨rfl, rfl⟩ := hst
      rw [if_neg ne]
      rcases hkey with ⟨rfl, rfl⟩ | ⟨dne, rfl, lo, hi⟩
      · rw [if_pos rfl]
        simp at hk
        simp [hk]
      · rw [if_neg dne, if_neg (by omega)]
        simp at hk
        have : k = number ds % 2 ^ 32 - 1 := by omega
        simp [this]

theorem stripKey_error {name : Str} {e : Err} (h : stripKey name = .error e) : e = .optionInvalid := by
  rcases name_cases name with hn | ⟨pre, tail, rfl, hp⟩
  · rw [stripKey] at h
    simp only [takeWhile_nodash hn, List.isEmpty_nil, if_true] at h
    cases h
  · obtain ⟨stem, ds, rfl, hd, dig⟩ := digits_split pre
    have hs : (45 : UInt8) ∉ stem := fun h => hp (List.mem_append_left _ h)
    rw [stripKey_pre hs hd dig] at h
    split at h
    · cases h; rfl
    · split at h
      · cases h
      · split at h
        · cases h; rfl
        · cases h

/-! ### Looking up the name -/

theorem exact_iff {names : List Str} (nd : names.Nodup) (base : Str) (i : Nat) :
    exact names base = some i ↔ names[i]? = some base := by
  rw [exact, List.findIdx?_eq_some_iff_getElem]
  constructor
  · rintro ⟨hi, h, -⟩
    rw [List.getElem?_eq_getElem hi]
    simpa using h
  · intro h
    obtain ⟨hi, he⟩ := List.getElem?_eq_some_iff.1 h
    refine ⟨hi, by simpa using he, ?_⟩
    intro j hj
    simp only [decide_eq_true_eq]
    intro hje
    have := (List.getElem_inj nd).1 (hje.trans he.symm)
    omega

theorem exact_none {names : List Str} {base : Str} : exact names base = none ↔ base ∉ names := by
  rw [exact, List.findIdx?_eq_none_iff]
  constructor
  · intro h hm
    have := h base hm
    simp at this
  · intro h x hx
    simp only [decide_eq_false_iff_not]
    rintro rfl
    exact h hx

theorem mem_matching (base : Str) : ∀ (names : List Str) (i j : Nat),
    j ∈ matching base names i ↔ ∃ n k, j = i + k ∧ names[k]? = some n ∧ base <+: n := by
  intro names
  induction names with
  | nil => intro i j; simp [matching]
  | cons m ms ih =>
    intro i j
    have key : (∃ n k, j = i + k ∧ (m :: ms)[k]? = some n ∧ base <+: n) ↔
        (j = i ∧ base <+: m) ∨ ∃ n k, j = i + 1 + k ∧ ms[k]? = some n ∧ base <+: n := by
      constructor
      · rintro ⟨n, k, hj, hn, hp⟩
        cases k with
        | zero => simp at hn; subst hn; exact .inl ⟨by omega, hp⟩
        | succ k => exact .inr ⟨n, k, by omega, by simpa using hn, hp⟩
      · rintro (⟨rfl, hp⟩ | ⟨n, k, hj, hn, hp⟩)
        · exact ⟨m, 0, by omega, by simp, hp⟩
        · exact ⟨n, k + 1, by omega, by simpa using hn, hp⟩
    rw [key, matching]
    by_cases hm : base.isPrefixOf m = true
    · rw [if_pos hm, List.mem_cons, ih]
      have := List.isPrefixOf_iff_prefix.1 hm
      constructor
      · rintro (h | h)
        · exact .inl ⟨h, this⟩
        · exact .inr h
      · rintro (⟨h, _⟩ | h)
        · exact .inl h
        · exact .inr h
    · rw [if_neg hm, ih]
      constructor
      · exact .inr
      · rintro (⟨_, h⟩ | h)
        · exact absurd (List.isPrefixOf_iff_prefix.2 h) hm
        · exact h

theorem matching_nodup (base : Str) : ∀ (names : List Str) (i : Nat),
    (matching base names i).Nodup := by
  intro names
  induction names with
  | nil => intro i; simp [matching]
  | cons m ms ih =>
    intro i
    rw [matching]
    split
    · refine List.nodup_cons.2 ⟨fun h => ?_, ih _⟩
      obtain ⟨_, k, hk, _⟩ := (mem_matching base ms (i + 1) i).1 h
      omega
    · exact ih _

theorem single_iff (names : List Str) (base : Str) (i : Nat) :
    single names base = some i ↔
      (∃ n, names[i]? = some n ∧ base <+: n) ∧ ∀ j n, names[j]? = some n → base <+: n → j = i := by
  have hmem : ∀ j, j ∈ matching base names 0 ↔ ∃ n, names[j]? = some n ∧ base <+: n := by
    intro j
    rw [mem_matching]
    constructor
    · rintro ⟨n, k, hk, h⟩
      rw [Nat.zero_add] at hk
      subst hk
      exact ⟨n, h⟩
    · rintro ⟨n, h⟩
      exact ⟨n, j, by omega, h⟩
  have hnd := matching_nodup base names 0
  rw [single]
  generalize matching base names 0 = L at hmem hnd ⊢
  constructor
  · intro h
    match L, h with
    | [a], h =>
      cases h
      refine ⟨(hmem i).1 (by simp), fun j n hn hp => ?_⟩
      have := (hmem j).2 ⟨n, hn, hp⟩
      simpa using this
  · rintro ⟨h1, h2⟩
    have hi := (hmem i).2 h1
    have hall : ∀ j ∈ L, j = i := fun j hj => by
      obtain ⟨n, hn, hp⟩ := (hmem j).1 hj
      exact h2 j n hn hp
    match L, hi, hall, hnd with
    | [a], hi, hall, _ => rw [hall a (by simp)]
    | a :: b :: t, _, hall, hnd =>
      have ha := hall a (by simp)
      have hb := hall b (by simp)
      simp [ha, hb] at hnd

/-- The two searches of a table together. -/
def pick (prefixMatch : Bool) (names : List Str) (base : Str) : Option Nat :=
  match exact names base with
  | some i => some i
  | none => if prefixMatch then single names base else none

theorem pick_iff {names : List Str} (nd : names.Nodup) (pm : Bool) (base : Str) (i : Nat) :
    pick pm names base = some i ↔ Picks pm names base i := by
  rw [pick, Picks]
  cases he : exact names base with
  | some j =>
    have hj := (exact_iff nd base j).1 he
    have hm : base ∈ names := List.mem_of_getElem? hj
    dsimp only
    constructor
    · intro h
      cases h
      exact .inl hj
    · rintro (h | ⟨_, hn, _⟩)
      · rw [(exact_iff nd base i).2 h] at he
        cases he; rfl
      · exact absurd hm hn
  | none =>
    have hn := exact_none.1 he
    dsimp only
    cases pm with
    | false =>
      constructor
      · intro h; simp at h
      · rintro (h | ⟨h, _⟩)
        · exact absurd (List.mem_of_getElem? h) hn
        · cases h
    | true =>
      rw [if_pos rfl, single_iff]
      constructor
      · intro h
        exact .inr ⟨rfl, hn, h⟩
      · rintro (h | ⟨_, _, h⟩)
        · exact absurd (List.mem_of_getElem? h) hn
        · exact h

theorem pick_none {names : List Str} (nd : names.Nodup) {pm : Bool} {base : Str} :
    pick pm names base = none ↔ ∀ i, ¬ Picks pm names base i := by
  constructor
  · intro h i hi
    rw [(pick_iff nd pm base i).2 hi] at h
    cases h
  · intro h
    cases hp : pick pm names base with
    | none => rfl
    | some i => exact absurd ((pick_iff nd pm base i).1 hp) (h i)

theorem findOpt_eq (T : Table) (pm im ix : Bool) (base : Str) :
    findOpt T pm im ix base =
      match pick pm (T.opts.map OptRule.name) base with
      | some i => .ok (some (i, false))
      | none =>
        match pick pm (T.deps.map DepRule.name) base with
        | none => .ok none
        | some i =>
          match T.deps[i]? with
          | none => .error .ub
          | some d =>
            if ix && !d.indexed then .error .optionInvalid
            else if !ix && !d.unindexed && !im then .error .optionInvalid
            else .ok (some (d.id, true)) := rfl

theorem pick_lt {names : List Str} (nd : names.Nodup) {pm : Bool} {base : Str} {i : Nat}
    (h : pick pm names base = some i) : i < names.length := by
  rcases (pick_iff nd pm base i).1 h with h | ⟨_, _, ⟨n, h, _⟩, _⟩ <;>
    exact (List.getElem?_eq_some_iff.1 h).1

/-- May a deprecated name have, or lack, a key? -/
def DepOk (im ix : Bool) : Option DepRule → Prop
  | none => True
  | some d => (ix = true → d.indexed = true) ∧ (ix = false → d.unindexed = true ∨ im = true)

theorem findOpt_some {T : Table} (wf : T.WF) (pm im ix : Bool) (base : Str) (id : Nat) (dep : Bool) :
    findOpt T pm im ix base = .ok (some (id, dep)) ↔
      ∃ d, Denotes T pm base id d ∧ dep = d.isSome ∧ DepOk im ix d := by
  rw [findOpt_eq]
  cases hp : pick pm (T.opts.map OptRule.name) base with
  | some i =>
    have hP := (pick_iff wf.opts pm base i).1 hp
    dsimp only
    constructor
    · intro h
      cases h
      exact ⟨none, .opt hP, rfl, trivial⟩
    · rintro ⟨d, hd, rfl, -⟩
      cases hd with
      | opt h =>
        rw [(pick_iff wf.opts pm base _).2 h] at hp
        cases hp; rfl
      | dep no _ _ => exact absurd hP (no i)
  | none =>
    have hno := (pick_none wf.opts).1 hp
    dsimp only
    cases hq : pick pm (T.deps.map DepRule.name) base with
    | none =>
      have hno' := (pick_none wf.deps).1 hq
      dsimp only
      constructor
      · intro h; cases h
      · rintro ⟨d, hd, -, -⟩
        cases hd with
        | opt h => exact absurd h (hno _)
        | dep _ h _ => exact absurd h (hno' _)
    | some j =>
      have hP := (pick_iff wf.deps pm base j).1 hq
      have hj := pick_lt wf.deps hq
      rw [List.length_map] at hj
      dsimp only
      rw [List.getElem?_eq_getElem hj]
      dsimp only
      constructor
      · intro h
        split at h
        · cases h
        · rename_i h1
          split at h
          · cases h
          · rename_i h2
            cases h
            refine ⟨some T.deps[j], .dep hno hP (List.getElem?_eq_getElem hj), rfl, ?_, ?_⟩
            · rintro rfl
              simpa using h1
            · rintro rfl
              simp at h2
              cases hu : T.deps[j].unindexed
              · exact .inr (h2 hu)
              · exact .inl rfl
      · rintro ⟨d, hd, rfl, hok⟩
        cases hd with
        | opt h => exact absurd h (hno _)
        | @dep j' d' _ h hd =>
          rw [(pick_iff wf.deps pm base j').2 h] at hq
          cases hq
          rw [List.getElem?_eq_getElem hj] at hd
          cases hd
          obtain ⟨h1, h2⟩ := hok
          rw [if_neg, if_neg]
          · rfl
          · cases ix with
            | true => simp
            | false => rcases h2 rfl with h | h <;> simp [h]
          · cases ix with
            | true => simp [h1 rfl]
            | false => simp

theorem findOpt_none {T : Table} (wf : T.WF) (pm im ix : Bool) (base : Str) :
    findOpt T pm im ix base = .ok none ↔ ∀ id d, ¬ Denotes T pm base id d := by
  rw [findOpt_eq]
  cases hp : pick pm (T.opts.map OptRule.name) base with
  | some i =>
    have hP := (pick_iff wf.opts pm base i).1 hp
    dsimp only
    constructor
    · intro h; cases h
    · intro h
      exact absurd (.opt hP) (h i none)
  | none =>
    have hno := (pick_none wf.opts).1 hp
    dsimp only
    cases hq : pick pm (T.deps.map DepRule.name) base with
    | none =>
      have hno' := (pick_none wf.deps).1 hq
      dsimp only
      constructor
      · rintro - id d hd
        cases hd with
        | opt h => exact hno _ h
        | dep _ h _ => exact hno' _ h
      · intro _; rfl
    | some j =>
      have hP := (pick_iff wf.deps pm base j).1 hq
      have hj := pick_lt wf.deps hq
      rw [List.length_map] at hj
      dsimp only
      rw [List.getElem?_eq_getElem hj]
      dsimp only
      constructor
      · intro h
        split at h
        · cases h
        · split at h <;> cases h
      · intro h
        exact absurd (.dep hno hP (List.getElem?_eq_getElem hj)) (h _ _)

theorem findOpt_error {T : Table} (wf : T.WF) {pm im ix : Bool} {base : Str} {e : Err}
    (h : findOpt T pm im ix base = .error e) : e = .optionInvalid := by
  rw [findOpt_eq] at h
  cases hp : pick pm (T.opts.map OptRule.name) base with
  | some i => rw [hp] at h; cases h
  | none =>
    rw [hp] at h
    dsimp only at h
    cases hq : pick pm (T.deps.map DepRule.name) base with
    | none => rw [hq] at h; cases h
    | some j =>
      have hj := pick_lt wf.deps hq
      rw [List.length_map] at hj
      rw [hq] at h
      dsimp only at h
      rw [List.getElem?_eq_getElem hj] at h
      dsimp only at h
      split at h
      · cases h; rfl
      · split at h
        · cases h; rfl
        · cases h

theorem findOpt_lt {T : Table} (wf : T.WF) {pm im ix dep : Bool} {base : Str} {id : Nat}
    (h : findOpt T pm im ix base = .ok (some (id, dep))) : id < T.opts.length := by
  obtain ⟨d, hd, -, -⟩ := (findOpt_some wf pm im ix base id dep).1 h
  cases hd with
  | opt h =>
    have := pick_lt wf.opts ((pick_iff wf.opts pm base id).2 h)
    simpa using this
  | dep _ _ hd => exact wf.ids _ (List.mem_of_getElem? hd)

/-! ### `no-` and `reset-` -/

theorem stripPre_iff (cand name : Str) (n r : Bool) (key : Option Nat) (base : Str) :
    (stripPre cand = (n, r, name) ∧ Body name key base) → Reads cand n r key base := by
  rintro ⟨h, hb⟩
  rw [stripPre] at h
  split at h
  · rename_i hp
    obtain ⟨t, rfl⟩ := List.isPrefixOf_iff_prefix.1 hp
    rw [List.drop_left'] at h
    · cases h; exact .negate hb
    · rfl
  · rename_i hn
    split at h
    · rename_i hp
      obtain ⟨t, rfl⟩ := List.isPrefixOf_iff_prefix.1 hp
      rw [List.drop_left'] at h
      · cases h; exact .reset hb
      · rfl
    · rename_i hr
      cases h
      exact .set (fun h => hn (List.isPrefixOf_iff_prefix.2 h))
        (fun h => hr (List.isPrefixOf_iff_prefix.2 h)) hb

theorem reads_strip {cand : Str} {n r : Bool} {key : Option Nat} {base : Str}
    (h : Reads cand n r key base) : ∃ name, stripPre cand = (n, r, name) ∧ Body name key base := by
  cases h with
  | @negate rest _ _ h => exact ⟨rest, by simp [stripPre, noPre], h⟩
  | @reset rest _ _ h => exact ⟨rest, by simp [stripPre, noPre, resetPre], h⟩
  | set hn hr h =>
    refine ⟨cand, ?_, h⟩
    rw [stripPre, if_neg, if_neg]
    · exact fun h => hr (List.isPrefixOf_iff_prefix.1 h)
    · exact fun h => hn (List.isPrefixOf_iff_prefix.1 h)

end Verif.Config
