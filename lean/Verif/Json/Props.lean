import Verif.Json.Text
import Mathlib.Data.List.Forall2

/-!
# C43: JSON strings and values survive writing and reading

The specification looks at values through paths: two trees are the same when the same values are found at the same places. The order of the
fields of an object is not observable.
-/

namespace Verif.Json

/-! ## Specification -/

/-- A step from a value to a part of it. -/
inductive Step where
  | item (i : Nat)
  | field (k : Str)
  deriving DecidableEq

/-- The part of a value that a step leads to. -/
def Val.part : Val → Step → Option Val
  | .arr l, .item i => l[i]?
  | .obj l, .field k => l.lookup k
  | _, _ => none

/-- The part of a value at the end of a path. -/
def Val.find (v : Val) : List Step → Option Val
  | [] => some v
  | s :: p => (v.part s).bind fun w => w.find p

/-- What is seen of a value without its parts. -/
inductive Shape where
  | null
  | bool (b : Bool)
  | number (n : Int)
  | string (s : Str)
  | array (length : Nat)
  | object (size : Nat)
  deriving DecidableEq

def Val.shape : Val → Shape
  | .null => .null
  | .bool b => .bool b
  | .num n => .number n
  | .str s => .string s
  | .arr l => .array l.length
  | .obj l => .object l.length

/-- The same tree. -/
def Same (v w : Val) : Prop := ∀ p, (v.find p).map Val.shape = (w.find p).map Val.shape

/-- A key of at most 66 bytes, none of which needs an escape. -/
def PlainKey (k : Str) : Prop := k.length ≤ 66 ∧ ∀ c ∈ k, c ∉ [0, 8, 9, 10, 12, 13, 34, 92]

/-- The numbers are signed or unsigned with 64 bits. The keys of an object are distinct. -/
def Expressible : Val → Prop
  | .num n => -2 ^ 63 ≤ n ∧ n < 2 ^ 64
  | .obj l => (l.map Prod.fst).Nodup ∧ ∀ x ∈ l, PlainKey x.1
  | _ => True

/-- All parts are expressible. -/
def Good (v : Val) : Prop := ∀ p w, v.find p = some w → Expressible w

/-! ## Sorting of fields -/

theorem insertField_keys (k : Str) (v : Val) (l : List (Str × Val)) (x : Str × Val) : x ∈ insertField k v l ↔ x = (k, v) ∨ x ∈ l := by
  induction l with
  | nil => simp [insertField]
  | cons y l ih =>
    obtain ⟨k', v'⟩ := y
    rw [insertField]
    split
    · rw [List.mem_cons, ih, List.mem_cons]; tauto
    · rw [List.mem_cons]

theorem insertField_length (k : Str) (v : Val) (l : List (Str × Val)) : (insertField k v l).length = l.length + 1 := by
  induction l with
  | nil => simp [insertField]
  | cons y l ih =>
    obtain ⟨k', v'⟩ := y
    rw [insertField]
    split <;> simp [ih]

theorem sortFields_mem (l : List (Str × Val)) (x : Str × Val) : x ∈ sortFields l ↔ x ∈ l := by
  induction l with
  | nil => simp [sortFields]
  | cons y l ih =>
    have : sortFields (y :: l) = insertField y.1 y.2 (sortFields l) := rfl
    rw [this, insertField_keys, ih, List.mem_cons]

theorem sortFields_length (l : List (Str × Val)) : (sortFields l).length = l.length := by
  induction l with
  | nil => rfl
  | cons y l ih =>
    have : sortFields (y :: l) = insertField y.1 y.2 (sortFields l) := rfl
    rw [this, insertField_length, ih]; rfl

theorem insertField_pairwise (k : Str) (v : Val) (l : List (Str × Val)) (h : (l.map Prod.fst).Pairwise (· < ·)) (hk : k ∉ l.map Prod.fst) :
    ((insertField k v l).map Prod.fst).Pairwise (· < ·) := by
  induction l with
  | nil => simp [insertField]
  | cons y l ih =>
    obtain ⟨k', v'⟩ := y
    simp only [List.map_cons, List.pairwise_cons, List.mem_cons, not_or] at h hk
    rw [insertField]
    split
    · rename_i hgt
      rw [cmpZ_gt] at hgt
      simp only [List.map_cons, List.pairwise_cons]
      refine ⟨?_, ih h.2 hk.2⟩
      intro a ha
      rw [List.mem_map] at ha
      obtain ⟨x, hx, rfl⟩ := ha
      rw [insertField_keys] at hx
      rcases hx with rfl | hx
      · exact hgt
      · exact h.1 _ (List.mem_map_of_mem hx)
    · rename_i hgt
      rw [cmpZ_gt] at hgt
      have hlt : k < k' := by
        rcases Str.trichotomy k k' with h' | h' | h'
        · exact h'
        · exact absurd h' hk.1
        · exact absurd h' hgt
      simp only [List.map_cons, List.pairwise_cons, List.mem_cons]
      refine ⟨?_, h.1, h.2⟩
      rintro a (rfl | ha)
      · exact hlt
      · exact Str.lt_trans hlt (h.1 a ha)

theorem sortFields_pairwise (l : List (Str × Val)) (h : (l.map Prod.fst).Nodup) : ((sortFields l).map Prod.fst).Pairwise (· < ·) := by
  induction l with
  | nil => simp [sortFields]
  | cons y l ih =>
    have e : sortFields (y :: l) = insertField y.1 y.2 (sortFields l) := rfl
    simp only [List.map_cons, List.nodup_cons] at h
    rw [e]
    refine insertField_pairwise _ _ _ (ih h.2) ?_
    intro hc
    apply h.1
    rw [List.mem_map] at hc ⊢
    obtain ⟨x, hx, hxy⟩ := hc
    exact ⟨x, (sortFields_mem l x).1 hx, hxy⟩

theorem lookup_mem {l : List (Str × Val)} {k : Str} {v : Val} (h : l.lookup k = some v) : (k, v) ∈ l := by
  induction l with
  | nil => simp at h
  | cons y l ih =>
    obtain ⟨k', v'⟩ := y
    rw [List.lookup_cons] at h
    by_cases hk : k = k'
    · subst hk
      simp only [beq_self_eq_true] at h
      cases h; simp
    · have : (k == k') = false := by simp [hk]
      simp only [this] at h
      exact List.mem_cons_of_mem _ (ih h)

theorem lookup_of_mem {l : List (Str × Val)} {k : Str} {v : Val} (hn : (l.map Prod.fst).Nodup) (h : (k, v) ∈ l) : l.lookup k = some v := by
  induction l with
  | nil => simp at h
  | cons y l ih =>
    obtain ⟨k', v'⟩ := y
    simp only [List.map_cons, List.nodup_cons] at hn
    rw [List.lookup_cons]
    rw [List.mem_cons] at h
    rcases h with h | h
    · cases h; simp
    · have : k ≠ k' := by
        rintro rfl
        exact hn.1 (List.mem_map_of_mem h (f := Prod.fst))
      have : (k == k') = false := by simp [this]
      simp only [this]
      exact ih hn.2 h

theorem nodup_of_pairwise {l : List Str} (h : l.Pairwise (· < ·)) : l.Nodup :=
  h.imp fun {a b} hab he => by rw [he] at hab; exact Str.lt_irrefl _ hab

/-- Lookups do not depend on the order of the fields. -/
theorem lookup_perm {l l' : List (Str × Val)} (hn : (l.map Prod.fst).Nodup) (hn' : (l'.map Prod.fst).Nodup)
    (h : ∀ x, x ∈ l ↔ x ∈ l') (k : Str) : l.lookup k = l'.lookup k := by
  cases h1 : l.lookup k with
  | some v => exact (lookup_of_mem hn' ((h _).1 (lookup_mem h1))).symm
  | none =>
    cases h2 : l'.lookup k with
    | none => rfl
    | some v => rw [lookup_of_mem hn ((h _).2 (lookup_mem h2))] at h1; cases h1

theorem sortedFields_keys (l : List (Str × Val)) : (sortedFields l).map Prod.fst = l.map Prod.fst := by
  induction l with
  | nil => rfl
  | cons y l ih => obtain ⟨k, v⟩ := y; simp [sortedFields, ih]

theorem sortedFields_lookup (l : List (Str × Val)) (k : Str) : (sortedFields l).lookup k = (l.lookup k).map sorted := by
  induction l with
  | nil => rfl
  | cons y l ih =>
    obtain ⟨k', v⟩ := y
    rw [sortedFields, List.lookup_cons, List.lookup_cons, ih]
    cases k == k' <;> rfl

theorem sortedItems_get (l : List Val) (i : Nat) : (sortedItems l)[i]? = (l[i]?).map sorted := by
  induction l generalizing i with
  | nil => simp [sortedItems]
  | cons v l ih =>
    cases i with
    | zero => simp [sortedItems]
    | succ i => simp [sortedItems, ih]

theorem part_sorted (v : Val) (s : Step) (h : Expressible v) : (sorted v).part s = (v.part s).map sorted := by
  cases v with
  | arr l =>
    cases s with
    | item i => simp [sorted, Val.part, sortedItems_get]
    | field k => simp [sorted, Val.part]
  | obj l =>
    cases s with
    | item i => simp [sorted, Val.part]
    | field k =>
      simp only [sorted, Val.part]
      have hn : ((sortedFields l).map Prod.fst).Nodup := by rw [sortedFields_keys]; exact h.1
      rw [lookup_perm (nodup_of_pairwise (sortFields_pairwise _ hn)) hn (sortFields_mem _), sortedFields_lookup]
  | _ => simp [sorted, Val.part]

theorem Good.part {v w : Val} {s : Step} (h : Good v) (hs : v.part s = some w) : Good w := by
  intro p x hx
  exact h (s :: p) x (by simp [Val.find, hs, hx])

theorem find_sorted (p : List Step) : ∀ v, Good v → (sorted v).find p = (v.find p).map sorted := by
  induction p with
  | nil => intro v _; rfl
  | cons s p ih =>
    intro v h
    rw [Val.find, Val.find, part_sorted v s (h [] v rfl)]
    cases hs : v.part s with
    | none => rfl
    | some w => exact ih w (h.part hs)

theorem sortedItems_length (l : List Val) : (sortedItems l).length = l.length := by
  induction l with
  | nil => rfl
  | cons v l ih => simp [sortedItems, ih]

theorem shape_sorted (v : Val) : (sorted v).shape = v.shape := by
  cases v with
  | arr l => simp [sorted, Val.shape, sortedItems_length]
  | obj l =>
    have := congrArg List.length (sortedFields_keys l)
    simp only [List.length_map] at this
    simp [sorted, Val.shape, sortFields_length, this]
  | _ => rfl

theorem same_sorted (v : Val) (h : Good v) : Same v (sorted v) := by
  intro p
  rw [find_sorted p v h]
  cases v.find p with
  | none => rfl
  | some w => simp [shape_sorted]

theorem keyOk_plain {k : Str} (h : PlainKey k) : keyOk k = true := by
  rw [keyOk, List.all_eq_true]
  intro c hc
  have := h.2 c hc
  simp only [List.mem_cons, List.not_mem_nil, or_false, not_or] at this
  simp [this]

theorem fitFields_iff (l : List (Str × Val)) : FitFields l ↔ ∀ x ∈ l, (keyOk x.1 = true ∧ x.1.length < 67) ∧ Fit x.2 := by
  induction l with
  | nil => simp [FitFields]
  | cons y l ih =>
    obtain ⟨k, v⟩ := y
    rw [FitFields, ih]
    simp only [List.mem_cons, forall_eq_or_imp]
    tauto

mutual

theorem fit_sorted : ∀ v, Good v → Fit (sorted v)
  | .null, _ => by simp [sorted, Fit]
  | .bool _, _ => by simp [sorted, Fit]
  | .num n, h => by have : Expressible (.num n) := h [] _ rfl; exact this
  | .str _, _ => by simp [sorted, Fit]
  | .arr l, h => by
    rw [sorted, Fit]
    refine fit_items l fun w hw => ?_
    obtain ⟨i, hi⟩ := List.mem_iff_getElem?.1 hw
    exact h.part (s := .item i) hi
  | .obj l, h => by
    have h0 : Expressible (.obj l) := h [] _ rfl
    rw [sorted, Fit]
    have h1 := fit_fields l fun x hx => ⟨h0.2 x hx, h.part (s := .field x.1) (lookup_of_mem h0.1 hx)⟩
    refine ⟨?_, sortFields_pairwise _ (by rw [sortedFields_keys]; exact h0.1)⟩
    rw [fitFields_iff] at h1 ⊢
    intro x hx
    exact h1 x ((sortFields_mem _ _).1 hx)

theorem fit_items : ∀ l : List Val, (∀ w ∈ l, Good w) → FitItems (sortedItems l)
  | [], _ => by simp [sortedItems, FitItems]
  | v :: l, h => ⟨fit_sorted v (h v (by simp)), fit_items l (fun w hw => h w (List.mem_cons_of_mem _ hw))⟩

theorem fit_fields : ∀ l : List (Str × Val), (∀ x ∈ l, PlainKey x.1 ∧ Good x.2) → FitFields (sortedFields l)
  | [], _ => by simp [sortedFields, FitFields]
  | (k, v) :: l, h => by
    have h0 := h (k, v) (by simp)
    exact ⟨⟨keyOk_plain h0.1, by have := h0.1.1; simp only at this; omega⟩, fit_sorted v h0.2,
      fit_fields l (fun w hw => h w (List.mem_cons_of_mem _ hw))⟩

end

theorem stop_nil : Stop [] := by intro c hc; simp at hc

theorem ready_new (j : Str) : Ready (readNew j) := ⟨rfl, rfl⟩

/-! ## Theorems -/

/-- Every string that is written is read back, whatever follows it, and nothing that follows is read. The string is skipped as one value. -/
theorem c43_str (s : Str) : ∃ w, writeStr writeNew s = .ok w ∧ ∀ rest,
    (∃ st, readStr (readNew (w.json ++ rest)) = .ok (some s, st) ∧ st.json = rest) ∧
    (∃ st, jsonReadSkip (readNew (w.json ++ rest)) = .ok st ∧ st.json = rest) := by
  have h0 := writeVal_text (.str s) writeNew trivial ⟨rfl, rfl⟩
  refine ⟨_, h0, fun rest => ⟨?_, ?_⟩⟩
  · have h1 := readStr_text (ready_new (text (.str s) ++ rest)) s rest
    refine ⟨after (readNew (text (.str s) ++ rest)) true rest, ?_, rfl⟩
    simpa [readNew, sep, wsep, writeNew, wafter, text] using h1
  · have h1 := push_str_skip (ready_new (text (.str s) ++ rest)) s rest
    refine ⟨after (readNew (text (.str s) ++ rest)) true rest, ?_, rfl⟩
    unfold jsonReadSkip readSkip
    have h2 := value_next (readNew []) (.str s) rest
    simp only [sep, readNew, List.nil_append] at h2
    simp only [wafter, writeNew, wsep, List.append_nil, List.nil_append, readNew]
    rw [h2]
    simp only [Val.ty, bind, Except.bind] at h1 ⊢
    simpa [sep, readNew, text] using h1

/-- A value tree is written without an error, and the text is read as the same tree. -/
theorem c43_tree (v : Val) (h : Good v) : ∃ j w, jsonFromVar v = .ok j ∧ jsonToVar j = .ok w ∧ Same v w := by
  have hf := fit_sorted v h
  have h1 := writeVal_text _ writeNew hf ⟨rfl, rfl⟩
  refine ⟨text (sorted v), sorted v, ?_, ?_, same_sorted v h⟩
  · simp only [jsonFromVar, writeVar, bind, Except.bind]
    rw [h1]
    simp [wafter, writeNew, wsep]
  · have h2 := readVar_text (sorted v) (2 * (text (sorted v)).length + 2) (readNew []) [] hf (ready_new _) stop_nil (by omega)
    simp only [sep, readNew, List.nil_append, List.append_nil] at h2
    simp only [jsonToVar, jsonReadVar, bind, Except.bind, readNew]
    rw [h2]

/-- The text of a value tree is valid. -/
theorem c43_validate (v : Val) (h : Good v) (j : Str) (hj : jsonFromVar v = .ok j) : validate j = .ok () := by
  have hf := fit_sorted v h
  have h1 := writeVal_text _ writeNew hf ⟨rfl, rfl⟩
  have hj' : j = text (sorted v) := by
    simp only [jsonFromVar, writeVar, bind, Except.bind] at hj
    rw [h1] at hj
    simp [wafter, writeNew, wsep] at hj
    exact hj.symm
  subst hj'
  have h2 := readSkip_text (sorted v) (2 * (text (sorted v)).length + 2) (readNew []) [] hf (ready_new _) stop_nil (by omega)
  simp only [sep, readNew, List.nil_append, List.append_nil] at h2
  simp only [validate, jsonReadSkip, bind, Except.bind, readNew]
  rw [h2]
  simp [after, skipWs]

/-- Every number is read back with the function for its type; a number out of the range of the type is an error. -/
theorem c43_number (n : Int) (h : -2 ^ 63 ≤ n ∧ n < 2 ^ 64) : ∃ w, writeNum writeNew n = .ok w ∧
    (readInt64 (readNew w.json)).map Prod.fst = (if n < 2 ^ 63 then .ok n else .error .jsonFormat) ∧
    (readInt (readNew w.json)).map Prod.fst = (if -2 ^ 31 ≤ n ∧ n < 2 ^ 31 then .ok n else .error .jsonFormat) ∧
    (readUInt64 (readNew w.json)).map Prod.fst = (if 0 ≤ n then .ok n.toNat else .error .jsonFormat) ∧
    (readUInt (readNew w.json)).map Prod.fst = (if 0 ≤ n ∧ n < 2 ^ 32 then .ok n.toNat else .error .jsonFormat) := by
  have h0 := writeVal_text (.num n) writeNew h ⟨rfl, rfl⟩
  refine ⟨_, h0, ?_⟩
  have e : (wafter writeNew (Val.num n).ty.scalar (writeNew.json ++ wsep writeNew ++ text (.num n))).json = text (.num n) := by
    simp [wafter, writeNew, wsep]
  have h1 := push_value (ready_new (text (.num n))) (.num n) [] rfl
  have h2 := readNumber_text h stop_nil
  have h3 : (Num.intToZ n).head? = some 45 ↔ n < 0 := by
    by_cases hn : n < 0
    · simp [Num.intToZ, hn]
    · rw [Num.intToZ, if_neg hn]
      cases hf : Num.fmt 10 false n.natAbs with
      | nil => exact absurd hf (fmt_ne _)
      | cons c s =>
        have := fmt_digits n.natAbs c (by rw [hf]; simp)
        simp only [List.head?_cons, Option.some.injEq, hn, iff_false]
        rintro rfl
        revert this; decide
  simp only [sep, readNew, List.nil_append, List.append_nil, Val.ty, after, text] at h1 h2
  rw [e]
  refine ⟨?_, ?_, ?_, ?_⟩
  · simp only [readInt64, readNew, text, h1, h2, bind, Except.bind]
    by_cases c : n < 2 ^ 63
    · rw [if_pos c, if_neg (by omega)]; rfl
    · rw [if_neg c, if_pos (by omega)]; rfl
  · simp only [readInt, readNew, text, h1, h2, bind, Except.bind]
    by_cases c : -2 ^ 31 ≤ n ∧ n < 2 ^ 31
    · rw [if_pos c, if_neg (by omega)]; rfl
    · rw [if_neg c, if_pos (by omega)]; rfl
  · simp only [readUInt64, readNew, text, h1, h2, h3, bind, Except.bind]
    by_cases c : 0 ≤ n
    · rw [if_pos c, if_neg (by omega)]; rfl
    · rw [if_neg c, if_pos (by omega)]; rfl
  · simp only [readUInt, readNew, text, h1, h2, h3, bind, Except.bind]
    by_cases c : 0 ≤ n
    · have hn : ¬ n < 0 := by omega
      simp only [hn, c, if_false, true_and]
      by_cases c' : n < 2 ^ 32
      · have : ¬ n > 2 ^ 32 - 1 := by omega
        simp only [c', this, if_true, if_false]; rfl
      · have : n > 2 ^ 32 - 1 := by omega
        simp only [c', this, if_true, if_false]; rfl
    · have hn : n < 0 := by omega
      simp only [hn, c, if_true, false_and, if_false]; rfl

example : ∃ w, writeNum writeNew (2 ^ 63) = .ok w ∧ (readInt64 (readNew w.json)).map Prod.fst = .error .jsonFormat ∧
    (readUInt64 (readNew w.json)).map Prod.fst = .ok (2 ^ 63) := by
  obtain ⟨w, h1, h2, _, h3, _⟩ := c43_number (2 ^ 63) (by decide)
  exact ⟨w, h1, by rw [h2]; rfl, by rw [h3]; rfl⟩

/-! ## Keys -/

theorem strncmp_spec (key k : Str) (h : ∀ c ∈ k, c ≠ 0) :
    (strncmp key k k.length = 0 ↔ k <+: key) ∧ (strncmp key k k.length < 0 → key < k) ∧ (0 < strncmp key k k.length → k < key) := by
  induction k generalizing key with
  | nil => simp [strncmp]
  | cons c k ih =>
    cases key with
    | nil =>
      have hc : c.toNat ≠ 0 := fun h' => h c (by simp) (UInt8.toNat_inj.1 h')
      simp only [List.length_cons, strncmp]
      refine ⟨⟨fun h' => by omega, fun h' => by simp at h'⟩, fun _ => List.Lex.nil, fun h' => by omega⟩
    | cons d key =>
      simp only [List.length_cons, strncmp]
      by_cases hd : d = c
      · subst hd
        have := ih key (fun x hx => h x (List.mem_cons_of_mem _ hx))
        simp only [if_true, List.cons_prefix_cons, true_and, List.cons_lt_cons_iff]
        exact ⟨this.1, fun h' => .inr (this.2.1 h'), fun h' => .inr (this.2.2 h')⟩
      · have hn : d.toNat ≠ c.toNat := fun h' => hd (UInt8.toNat_inj.1 h')
        simp only [if_neg hd, List.cons_prefix_cons, List.cons_lt_cons_iff, UInt8.lt_iff_toNat_lt]
        refine ⟨⟨fun h' => by omega, fun h' => absurd h'.1.symm hd⟩, fun h' => .inl (by omega), fun h' => .inl (by omega)⟩

theorem prefix_not_lt {a b : Str} (h : a <+: b) : ¬ b < a := by
  obtain ⟨t, rfl⟩ := h
  induction a with
  | nil => simp
  | cons c a ih => simp [List.cons_lt_cons_iff, ih]

theorem skip_value (st : Rd) (h : Ready st) (f : Bool) (v : Val) (hv : Fit v) (l : List (Str × Val)) (r : Str) :
    jsonReadSkip (mid st true f true (text v ++ (fields true l ++ 125 :: r))) = .ok (mid st true true false (fields true l ++ 125 :: r)) := by
  have h1 := readSkip_text v (2 * (text v ++ (fields true l ++ 125 :: r)).length + 2)
    (mid st true f true (text v ++ (fields true l ++ 125 :: r))) (fields true l ++ 125 :: r) hv (mid_ready _ h _ _ _) (stop_fields _ _)
    (by simp only [List.length_append]; omega)
  rw [mid_sep _ h, mid_after _ h, mid_set _ h] at h1
  rw [jsonReadSkip, mid_json _ h]
  simpa using h1

/-- What `jsonReadKeyExpect` does within an object. -/
theorem keyExpect_text (key : Str) (st : Rd) (h : Ready st) (r : Str) : ∀ (l : List (Str × Val)) (f : Bool) (fuel : Nat), FitFields l →
    (l.map Prod.fst).Pairwise (· < ·) → (∀ x ∈ l, ∀ c ∈ x.1, c ≠ 0) → (∀ x ∈ l, x.1 <+: key → x.1 = key) → l.length < fuel →
    (∃ a v t, l = a ++ (key, v) :: t ∧ keyExpect fuel key (mid st true f false (fields f l ++ 125 :: r)) =
        .ok (true, mid st true true true (text v ++ (fields true t ++ 125 :: r)))) ∨
    ((∀ x ∈ l, x.1 ≠ key) ∧ ∃ f' a t, l = a ++ t ∧ (∀ x ∈ a, x.1 < key) ∧
      keyExpect fuel key (mid st true f false (fields f l ++ 125 :: r)) =
        .ok (false, mid st true f' false (fields f' t ++ 125 :: r))) := by
  intro l
  induction l with
  | nil =>
    intro f fuel _ _ _ _ hl
    obtain ⟨n, rfl⟩ : ∃ n, fuel = n + 1 := ⟨fuel - 1, by omega⟩
    refine .inr ⟨by simp, f, [], [], rfl, by simp, ?_⟩
    rw [keyExpect, mid_json _ h, fields_next]
    simp only [bind, Except.bind, if_true, mid_set _ h]
  | cons y l ih =>
    obtain ⟨k, v⟩ := y
    intro f fuel hf hp hz hx hl
    obtain ⟨n, rfl⟩ : ∃ n, fuel = n + 1 := ⟨fuel - 1, by omega⟩
    simp only [List.map_cons, List.pairwise_cons] at hp
    have h0 := readKey_text st h f k (text v ++ (fields true l ++ 125 :: r)) hf.1.1
    have e : keyExpect (n + 1) key (mid st true f false (fields f ((k, v) :: l) ++ 125 :: r)) =
        if strncmp key k k.length = 0 then .ok (true, mid st true true true (text v ++ (fields true l ++ 125 :: r)))
        else if strncmp key k k.length < 0 then .ok (false, mid st true f false (fields f ((k, v) :: l) ++ 125 :: r))
        else keyExpect n key (mid st true true false (fields true l ++ 125 :: r)) := by
      rw [keyExpect, mid_json _ h, fields_next]
      simp only [bind, Except.bind, mid_set _ h, reduceCtorEq, if_false]
      simp only [fields, List.append_assoc, List.cons_append] at h0 ⊢
      rw [h0]
      simp only []
      rw [skip_value st h true v hf.2.1]
    obtain ⟨s1, s2, s3⟩ := strncmp_spec key k (hz (k, v) (by simp))
    by_cases c1 : strncmp key k k.length = 0
    · have : k = key := hx (k, v) (by simp) (s1.1 c1)
      subst this
      exact .inl ⟨[], v, l, rfl, by rw [e, if_pos c1]⟩
    · by_cases c2 : strncmp key k k.length < 0
      · right
        have hlt := s2 c2
        refine ⟨?_, f, [], (k, v) :: l, rfl, by simp, by rw [e, if_neg c1, if_pos c2]⟩
        intro x hxl hxk
        rw [List.mem_cons] at hxl
        rcases hxl with rfl | hxl
        · simp only at hxk; rw [hxk] at hlt; exact Str.lt_irrefl _ hlt
        · have := hp.1 _ (List.mem_map_of_mem hxl (f := Prod.fst))
          rw [hxk] at this
          exact Str.lt_asymm hlt this
      · have hlt := s3 (by omega)
        rcases ih true n hf.2.2 hp.2 (fun x hx' => hz x (List.mem_cons_of_mem _ hx')) (fun x hx' => hx x (List.mem_cons_of_mem _ hx'))
          (by simpa using hl) with ⟨a, w, t, rfl, hr⟩ | ⟨hne, f', a, t, rfl, ha, hr⟩
        · exact .inl ⟨(k, v) :: a, w, t, rfl, by rw [e, if_neg c1, if_neg c2, hr]⟩
        · right
          refine ⟨?_, f', (k, v) :: a, t, rfl, ?_, by rw [e, if_neg c1, if_neg c2, hr]⟩
          · intro x hxl
            rw [List.mem_cons] at hxl
            rcases hxl with rfl | hxl
            · exact fun hc => Str.lt_irrefl _ (hc ▸ hlt)
            · exact hne x hxl
          · intro x hxl
            rw [List.mem_cons] at hxl
            rcases hxl with rfl | hxl
            · exact hlt
            · exact ha x hxl

/-- A reader that asks for keys one after the other and reads the values of those that are found. This is how manifests and backup lists are
loaded. -/
def readKeys : List Str → Rd → Res (List (Option Val))
  | [], _ => .ok []
  | k :: ks, st => do
    let (found, st) ← readKeyExpect k st
    if found then do
      let (v, st) ← jsonReadVar st
      let r ← readKeys ks st
      .ok (some v :: r)
    else do
      let r ← readKeys ks st
      .ok (none :: r)

/-- Read keys of an object. -/
def readObject (ks : List Str) (j : Str) : Res (List (Option Val)) := do
  let st ← readObjectBegin (readNew j)
  readKeys ks st

theorem fields_skipWs (f : Bool) (l : List (Str × Val)) (r : Str) : skipWs (fields f l ++ 125 :: r) = fields f l ++ 125 :: r := by
  cases l with
  | nil => simp [fields, skipWs_cons (c := 125) (by decide)]
  | cons y l =>
    obtain ⟨k, v⟩ := y
    cases f <;> simp [fields, skipWs_cons (c := 34) (by decide), skipWs_cons (c := 44) (by decide)]

theorem fields_length (l : List (Str × Val)) (f : Bool) : l.length ≤ (fields f l).length := by
  induction l generalizing f with
  | nil => simp
  | cons y l ih =>
    obtain ⟨k, v⟩ := y
    have := ih true
    simp only [fields, List.length_append, List.length_cons]; omega

theorem lookup_split {a t : List (Str × Val)} {k : Str} (h : ∀ x ∈ a, x.1 ≠ k) : (a ++ t).lookup k = t.lookup k := by
  induction a with
  | nil => rfl
  | cons y a ih =>
    obtain ⟨k', v⟩ := y
    have : (k == k') = false := by simpa using fun e => h (k', v) (by simp) e.symm
    rw [List.cons_append, List.lookup_cons, this]
    exact ih (fun x hx => h x (List.mem_cons_of_mem _ hx))

theorem lookup_none {l : List (Str × Val)} {k : Str} (h : ∀ x ∈ l, x.1 ≠ k) : l.lookup k = none := by
  have := lookup_split (t := []) h
  simpa using this

theorem readKeys_text (st : Rd) (h : Ready st) (r : Str) : ∀ (ks : List Str) (l : List (Str × Val)) (f : Bool), FitFields l →
    (l.map Prod.fst).Pairwise (· < ·) → (∀ x ∈ l, ∀ c ∈ x.1, c ≠ 0) → ks.Pairwise (· < ·) →
    (∀ x ∈ l, ∀ k ∈ ks, x.1 <+: k → x.1 ∈ ks) →
    readKeys ks (mid st true f false (fields f l ++ 125 :: r)) = .ok (ks.map fun k => l.lookup k) := by
  intro ks
  induction ks with
  | nil => intros; rfl
  | cons k ks ih =>
    intro l f hf hp hz hks hx
    rw [List.pairwise_cons] at hks
    have hk : ∀ x ∈ l, x.1 <+: k → x.1 = k := by
      intro x hxl hxk
      have := hx x hxl k (by simp) hxk
      rw [List.mem_cons] at this
      rcases this with this | this
      · exact this
      · exact absurd (hks.1 _ this) (prefix_not_lt hxk)
    have hlen : l.length < (fields f l ++ 125 :: r).length + 1 := by
      have := fields_length l f
      simp only [List.length_append]; omega
    have ex : readKeyExpect k (mid st true f false (fields f l ++ 125 :: r)) =
        keyExpect ((fields f l ++ 125 :: r).length + 1) k (mid st true f false (fields f l ++ 125 :: r)) := by
      rw [readKeyExpect, mid_json _ h, mid_set _ h, fields_skipWs]
    rcases keyExpect_text k st h r l f _ hf hp hz hk hlen with ⟨a, v, t, rfl, hr⟩ | ⟨hne, f', a, t, rfl, ha, hr⟩
    · have hf' := (fitFields_iff _).1 hf
      have hft : FitFields t := (fitFields_iff _).2 fun x hx => hf' x (by simp [hx])
      rw [List.map_append, List.pairwise_append, List.map_cons, List.pairwise_cons] at hp
      have h1 := readVar_text v (2 * (text v ++ (fields true t ++ 125 :: r)).length + 2)
        (mid st true true true (text v ++ (fields true t ++ 125 :: r))) (fields true t ++ 125 :: r) (hf' (k, v) (by simp)).2
        (mid_ready _ h _ _ _) (stop_fields _ _) (by simp only [List.length_append]; omega)
      rw [mid_sep _ h, mid_after _ h, mid_set _ h] at h1
      simp only [Bool.true_eq_false, and_false, if_false, List.nil_append] at h1
      have hlt : ∀ x ∈ a, x.1 < k := fun x hx => hp.2.2 x.1 (List.mem_map_of_mem hx) k (by simp)
      have h2 := ih t true hft hp.2.1.2 (fun x hx => hz x (by simp [hx])) hks.2 (by
        intro x hxt k' hk' hxk'
        have := hx x (by simp [hxt]) k' (List.mem_cons_of_mem _ hk') hxk'
        rw [List.mem_cons] at this
        rcases this with this | this
        · have h3 := hp.2.1.1 _ (List.mem_map_of_mem hxt (f := Prod.fst))
          rw [this] at h3
          exact absurd h3 (Str.lt_irrefl _)
        · exact this)
      rw [readKeys, ex, hr]
      simp only [bind, Except.bind, if_true, jsonReadVar]
      rw [mid_json _ h, h1]
      simp only []
      rw [h2]
      simp only [List.map_cons]
      congr 2
      · rw [lookup_split (fun x hx => fun e => Str.lt_irrefl _ (e ▸ hlt x hx))]; simp
      · apply List.map_congr_left
        intro k' hk'
        have hkk := hks.1 k' hk'
        rw [lookup_split (fun x hx => fun e => Str.lt_asymm hkk (by have := hlt x hx; rwa [e] at this)), List.lookup_cons]
        have : (k' == k) = false := by simpa using fun e => Str.lt_irrefl _ (e ▸ hkk)
        rw [this]
    · have hf' := (fitFields_iff _).1 hf
      have hft : FitFields t := (fitFields_iff _).2 fun x hx => hf' x (by simp [hx])
      rw [List.map_append, List.pairwise_append] at hp
      have h2 := ih t f' hft hp.2.1 (fun x hx => hz x (by simp [hx])) hks.2 (by
        intro x hxt k' hk' hxk'
        have := hx x (by simp [hxt]) k' (List.mem_cons_of_mem _ hk') hxk'
        rw [List.mem_cons] at this
        rcases this with this | this
        · exact absurd this (hne x (by simp [hxt]))
        · exact this)
      rw [readKeys, ex, hr]
      simp only [bind, Except.bind, Bool.false_eq_true, if_false]
      rw [h2]
      simp only [List.map_cons]
      congr 2
      · exact (lookup_none hne).symm
      · apply List.map_congr_left
        intro k' hk'
        have hkk := hks.1 k' hk'
        rw [lookup_split (fun x hx => fun e => Str.lt_asymm hkk (by have := ha x hx; rwa [e] at this))]

/-- Keys that are asked for in order are found exactly when they are in the object, with their values, when every key of the object that is a
prefix of a key asked for is asked for as well. -/
theorem c43_keys (l : List (Str × Val)) (h : Good (.obj l)) (j : Str) (hj : jsonFromVar (.obj l) = .ok j) (ks : List Str)
    (hks : ks.Pairwise (· < ·)) (hx : ∀ x ∈ l, ∀ k ∈ ks, x.1 <+: k → x.1 ∈ ks) :
    ∃ r, readObject ks j = .ok r ∧ List.Forall₂ (fun k x => Option.Rel Same (l.lookup k) x) ks r := by
  have hf := fit_sorted _ h
  have h0 : Expressible (.obj l) := h [] _ rfl
  have h1 := writeVal_text _ writeNew hf ⟨rfl, rfl⟩
  have hj' : j = text (sorted (.obj l)) := by
    simp only [jsonFromVar, writeVar, bind, Except.bind] at hj
    rw [h1] at hj
    simp [wafter, writeNew, wsep] at hj
    exact hj.symm
  subst hj'
  rw [sorted] at *
  have hn : ((sortedFields l).map Prod.fst).Nodup := by rw [sortedFields_keys]; exact h0.1
  have hkey : ∀ x ∈ sortFields (sortedFields l), ∃ y ∈ l, y.1 = x.1 := by
    intro x hx'
    rw [sortFields_mem] at hx'
    have : x.1 ∈ (sortedFields l).map Prod.fst := List.mem_map_of_mem hx'
    rw [sortedFields_keys, List.mem_map] at this
    exact this
  have h2 := begin_object (ready_new []) (sortFields (sortedFields l)) []
  simp only [sep, readNew, List.nil_append, List.append_nil] at h2
  have h3 := readKeys_text (readNew []) (ready_new _) [] ks (sortFields (sortedFields l)) false hf.1 hf.2
    (by
      intro x hx' c hc
      obtain ⟨y, hy, e⟩ := hkey x hx'
      have := (h0.2 y hy).2 c (e ▸ hc)
      rintro rfl; simp at this)
    hks (by
      intro x hx' k hk hp
      obtain ⟨y, hy, e⟩ := hkey x hx'
      have := hx y hy k hk (by rw [e]; exact hp)
      rwa [e] at this)
  refine ⟨ks.map fun k => (sortFields (sortedFields l)).lookup k, ?_, ?_⟩
  · simp only [readObject, bind, Except.bind, readNew]
    rw [h2]
    exact h3
  · rw [List.forall₂_map_right_iff, List.forall₂_same]
    intro k _
    rw [lookup_perm (nodup_of_pairwise (sortFields_pairwise _ hn)) hn (sortFields_mem _), sortedFields_lookup]
    cases hl : l.lookup k with
    | none => exact .none
    | some v => exact .some (same_sorted v (h.part (s := .field k) hl))

/-- `checksum` -/
def aKey : Str := [99, 104, 101, 99, 107, 115, 117, 109]

/-- `checksum-page` -/
def aLonger : Str := aKey ++ [45, 112, 97, 103, 101]

/-- A tree with strings to escape, numbers at the limits and nested containers; the fields are not in order. -/
def aTree : Val :=
  .obj [(aLonger, .arr [.num (-2 ^ 63), .num (2 ^ 64 - 1), .null]), (aKey, .obj [([], .str [34, 92, 10, 7, 200]), ([97], .bool true)])]

theorem good_of {v : Val} (h : Expressible v) (hp : ∀ s w, v.part s = some w → Good w) : Good v := by
  intro p w hw
  cases p with
  | nil => cases hw; exact h
  | cons s p =>
    rw [Val.find] at hw
    cases hs : v.part s with
    | none => rw [hs] at hw; cases hw
    | some x => rw [hs] at hw; exact hp s x hs p w hw

theorem good_arr {l : List Val} (h : ∀ w ∈ l, Good w) : Good (.arr l) := by
  refine good_of trivial fun s w hs => ?_
  cases s with
  | item i => exact h w (List.mem_of_getElem? hs)
  | field k => cases hs

theorem good_obj {l : List (Str × Val)} (hn : (l.map Prod.fst).Nodup) (hk : ∀ x ∈ l, PlainKey x.1) (h : ∀ x ∈ l, Good x.2) :
    Good (.obj l) := by
  refine good_of ⟨hn, hk⟩ fun s w hs => ?_
  cases s with
  | item i => cases hs
  | field k => exact h (k, w) (lookup_mem hs)

theorem good_null : Good .null := good_of trivial fun s w hs => by cases s <;> cases hs
theorem good_bool (b : Bool) : Good (.bool b) := good_of trivial fun s w hs => by cases s <;> cases hs
theorem good_str (x : Str) : Good (.str x) := good_of trivial fun s w hs => by cases s <;> cases hs
theorem good_num {n : Int} (h : -2 ^ 63 ≤ n ∧ n < 2 ^ 64) : Good (.num n) := good_of h fun s w hs => by cases s <;> cases hs

instance (k : Str) : Decidable (PlainKey k) := inferInstanceAs (Decidable (_ ∧ _))

theorem aTree_good : Good aTree := by
  refine good_obj (by decide +kernel) (fun x hx => ?_) (fun x hx => ?_)
  · simp only [List.mem_cons, List.not_mem_nil, or_false] at hx
    rcases hx with rfl | rfl <;> decide +kernel
  · simp only [List.mem_cons, List.not_mem_nil, or_false] at hx
    rcases hx with rfl | rfl
    · refine good_arr fun w hw => ?_
      simp only [List.mem_cons, List.not_mem_nil, or_false] at hw
      rcases hw with rfl | rfl | rfl
      · exact good_num (by decide)
      · exact good_num (by decide)
      · exact good_null
    · refine good_obj (by decide +kernel) (fun x hx => ?_) (fun x hx => ?_)
      · simp only [List.mem_cons, List.not_mem_nil, or_false] at hx
        rcases hx with rfl | rfl <;> decide +kernel
      · simp only [List.mem_cons, List.not_mem_nil, or_false] at hx
        rcases hx with rfl | rfl
        · exact good_str _
        · exact good_bool _

example : ∃ j w, jsonFromVar aTree = .ok j ∧ jsonToVar j = .ok w ∧ Same aTree w := c43_tree aTree aTree_good

/-- The keys are written in order and the string is escaped. -/
example : jsonFromVar (.obj [(aLonger, .num (-1)), (aKey, .str [34, 10, 7])]) =
    .ok ([123, 34] ++ aKey ++ [34, 58, 34, 92, 34, 92, 110, 7, 34, 44, 34] ++ aLonger ++ [34, 58, 45, 49, 125]) := by decide +kernel

/-- Both keys are found when both are asked for, and a key between them that does not exist is not. -/
example : (do
    let j ← jsonFromVar aTree
    let r ← readObject [aKey, aKey ++ [32], aLonger] j
    .ok (r.map (Option.map Val.shape)) : Res _) = .ok [some (.object 2), none, some (.array 3)] := by decide +kernel

/-- A key that is not in the object is found: it begins with a key of the object that is not asked for. -/
theorem c43_prefix : ∃ (l : List (Str × Val)) (j : Str) (k : Str), Good (.obj l) ∧ jsonFromVar (.obj l) = .ok j ∧ l.lookup k = none ∧
    ∃ v, readObject [k] j = .ok [some v] :=
  ⟨[(aKey, .null)], text (.obj [(aKey, .null)]), aLonger,
    good_obj (by decide +kernel) (fun x hx => by
      rw [List.mem_singleton] at hx; subst hx; decide +kernel) (fun x hx => by
      rw [List.mem_singleton] at hx; subst hx; exact good_null), by
      simp only [jsonFromVar, writeVar, bind, Except.bind]
      rw [writeVal_text _ _ (fit_sorted _ (good_obj (by decide +kernel) (fun x hx => by
        rw [List.mem_singleton] at hx; subst hx; decide +kernel) (fun x hx => by
        rw [List.mem_singleton] at hx; subst hx; exact good_null))) ⟨rfl, rfl⟩]
      rfl, by rfl, .null, by rfl⟩

/-- A string with a `\\u` escape is read, but it is not skipped: the byte behind the escape, which is the closing quote, is lost. -/
theorem c43_skip_unicode : ∃ (j : Str) (st : Rd), readStr (readNew j) = .ok (some [65], st) ∧ st.json = [] ∧
    jsonReadSkip (readNew j) = .error .jsonFormat :=
  ⟨[34, 92, 117, 48, 48, 52, 49, 34], ⟨[], none, false, true⟩, by decide +kernel, by rfl, by decide +kernel⟩

/-- A text that ends in a backslash within a string, or in `\\u00`, makes the reader continue beyond the end of the text. -/
theorem c43_overrun : validate [34, 92] = .error .ub ∧ jsonToVar [34, 92, 117, 48, 48] = .error .ub := ⟨rfl, rfl⟩

/-- An object with a key of more than 66 bytes cannot be written. -/
theorem c43_long_key (k : Str) (v : Val) (h : 67 ≤ k.length) (hk : ∀ c ∈ k, c ∉ [0, 8, 9, 10, 12, 13, 34, 92]) :
    jsonFromVar (.obj [(k, v)]) = .error .assert := by
  have h1 : keyOk k = true := by
    rw [keyOk, List.all_eq_true]
    intro c hc
    have := hk c hc
    simp only [List.mem_cons, List.not_mem_nil, or_false, not_or] at this
    simp [this]
  simp only [jsonFromVar, writeVar, sorted, sortedFields, sortFields, List.foldr, insertField, writeVal, writeFields, writeObjectBegin,
    bind, Except.bind, wpush, writeNew, cat, writeKey, h1]
  simp [Ty.scalar, h]

example : ∃ k : Str, 67 ≤ k.length ∧ ∀ c ∈ k, c ∉ [0, 8, 9, 10, 12, 13, 34, 92] :=
  ⟨List.replicate 67 97, by decide, by decide⟩

end Verif.Json
