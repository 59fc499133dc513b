import Verif.Json.Props

/-!
# Reading an object field by field

Most of the loaders do not read a tree but ask for one key after the other and read a value of the type that they need. The lemmas show what
happens at the fields of an object that have not been read.
-/

namespace Verif.Json

/-- The state before the fields `l` of an object that was started in the state `st`; `r` follows the object. -/
def at' (st : Rd) (r : Str) (f : Bool) (l : List (Str × Val)) : Rd := mid st true f false (fields f l ++ 125 :: r)

/-- The state before the value `v` of a field, with the fields `l` after it. -/
def val' (st : Rd) (r : Str) (v : Val) (l : List (Str × Val)) : Rd := mid st true true true (text v ++ (fields true l ++ 125 :: r))

theorem begin_at (l : List (Str × Val)) (r : Str) : readObjectBegin (readNew (text (.obj l) ++ r)) = .ok (at' (readNew []) r false l) := by
  have h := begin_object (ready_new []) l r
  simpa [sep, readNew, at'] using h

theorem end_at {st : Rd} (h : Ready st) (r : Str) (f : Bool) : readObjectEnd (at' st r f []) = .ok (after st false r) := by
  simpa [at', fields] using mid_pop_object st h f r

private theorem expect_eq {st : Rd} (h : Ready st) (r : Str) (f : Bool) (k : Str) (l : List (Str × Val)) :
    readKeyExpect k (at' st r f l) = keyExpect ((fields f l ++ 125 :: r).length + 1) k (at' st r f l) := by
  rw [readKeyExpect, at', mid_json _ h, mid_set _ h, fields_skipWs]

/-- The key is that of the next field. -/
theorem expect_found {st : Rd} (h : Ready st) (r : Str) (f : Bool) {k : Str} (hk : keyOk k = true) (hz : 0 ∉ k) (v : Val) (l : List (Str × Val)) :
    readKeyExpect k (at' st r f ((k, v) :: l)) = .ok (true, val' st r v l) := by
  rw [expect_eq h, keyExpect, at', mid_json _ h, fields_next]
  have h0 := readKey_text st h f k (text v ++ (fields true l ++ 125 :: r)) hk
  simp only [bind, Except.bind, mid_set _ h, reduceCtorEq, if_false]
  simp only [fields, List.append_assoc, List.cons_append] at h0 ⊢
  rw [h0]
  simp only []
  have := (strncmp_spec k k (fun c hc e => hz (e ▸ hc))).1.2 (List.prefix_refl _)
  rw [if_pos this]
  rfl

/-- There is no field with the key: the keys of the fields that follow are greater. -/
theorem expect_missing {st : Rd} (h : Ready st) (r : Str) (f : Bool) {k : Str} (l : List (Str × Val))
    (hl : ∀ x, l.head? = some x → keyOk x.1 = true ∧ 0 ∉ x.1 ∧ k < x.1) :
    readKeyExpect k (at' st r f l) = .ok (false, at' st r f l) := by
  rw [expect_eq h, keyExpect, at', mid_json _ h, fields_next]
  cases l with
  | nil => simp only [bind, Except.bind, mid_set _ h, if_true]
  | cons y l =>
    obtain ⟨k', v⟩ := y
    obtain ⟨hk, hz, hlt⟩ := hl _ rfl
    simp only at hk hz hlt
    have h0 := readKey_text st h f k' (text v ++ (fields true l ++ 125 :: r)) hk
    simp only [bind, Except.bind, mid_set _ h, reduceCtorEq, if_false]
    simp only [fields, List.append_assoc, List.cons_append] at h0 ⊢
    rw [h0]
    simp only []
    obtain ⟨s1, s2, s3⟩ := strncmp_spec k k' (fun c hc e => hz (e ▸ hc))
    have n1 : ¬ strncmp k k' k'.length = 0 := fun e => prefix_not_lt (s1.1 e) hlt
    have n2 : strncmp k k' k'.length < 0 := by
      rcases Int.lt_trichotomy (strncmp k k' k'.length) 0 with e | e | e
      · exact e
      · exact absurd e n1
      · exact absurd (s3 e) (Str.lt_asymm hlt)
    rw [if_neg n1, if_pos n2]

theorem require_found {st : Rd} (h : Ready st) (r : Str) (f : Bool) {k : Str} (hk : keyOk k = true) (hz : 0 ∉ k) (v : Val) (l : List (Str × Val)) :
    readKeyRequire k (at' st r f ((k, v) :: l)) = .ok (val' st r v l) := by
  simp only [readKeyRequire, expect_found h r f hk hz, bind, Except.bind, if_true]

theorem val_push {st : Rd} (h : Ready st) (r : Str) (v : Val) (l : List (Str × Val)) (hs : v.ty.scalar = true) :
    push (val' st r v l) v.ty false = .ok (mid st true true false (text v ++ (fields true l ++ 125 :: r))) := by
  have h1 := push_value (mid_ready st h true true (text v ++ (fields true l ++ 125 :: r))) v (fields true l ++ 125 :: r) hs
  rw [mid_sep _ h, mid_after _ h, mid_set _ h] at h1
  exact h1

theorem val_str {st : Rd} (h : Ready st) (r : Str) (s : Str) (l : List (Str × Val)) :
    readStr (val' st r (.str s) l) = .ok (some s, at' st r true l) := by
  have h1 := readStr_text (mid_ready st h true true (text (.str s) ++ (fields true l ++ 125 :: r))) s (fields true l ++ 125 :: r)
  rw [mid_sep _ h, mid_after _ h, mid_set _ h] at h1
  simp only [val', text, List.append_assoc, List.cons_append, List.nil_append] at h1 ⊢
  exact h1

theorem val_bool {st : Rd} (h : Ready st) (r : Str) (b : Bool) (l : List (Str × Val)) :
    readBool (val' st r (.bool b) l) = .ok (b, at' st r true l) := by
  have h1 := val_push h r (.bool b) l rfl
  unfold readBool
  rw [show Ty.bool = (Val.bool b).ty from rfl, h1]
  simp only [bind, Except.bind, mid_json _ h, mid_set _ h, text]
  cases b <;> rfl

theorem head_minus {n : Nat} (r : Str) : ¬ (Num.intToZ (n : Int) ++ r).head? = some 45 := by
  rw [Num.intToZ, if_neg (by omega)]
  have hd := fmt_digits (n : Int).natAbs
  have hne := fmt_ne (n : Int).natAbs
  cases hf : Num.fmt 10 false (n : Int).natAbs with
  | nil => exact absurd hf hne
  | cons c s =>
    have := hd c (by rw [hf]; simp)
    simp only [List.cons_append, List.head?_cons, Option.some.injEq]
    rintro rfl
    revert this; decide

theorem val_uint64 {st : Rd} (h : Ready st) (r : Str) {n : Nat} (hn : n < 2 ^ 64) (l : List (Str × Val)) :
    readUInt64 (val' st r (.num n) l) = .ok (n, at' st r true l) := by
  have h1 := val_push h r (.num n) l rfl
  unfold readUInt64
  rw [show Ty.number = (Val.num n).ty from rfl, h1]
  simp only [bind, Except.bind, mid_json _ h, text, mid_set _ h]
  rw [readNumber_text (n := (n : Int)) (by omega) (stop_fields _ _)]
  simp only []
  rw [if_neg (head_minus _)]
  rfl

theorem val_uint {st : Rd} (h : Ready st) (r : Str) {n : Nat} (hn : n < 2 ^ 32) (l : List (Str × Val)) :
    readUInt (val' st r (.num n) l) = .ok (n, at' st r true l) := by
  have h1 := val_push h r (.num n) l rfl
  unfold readUInt
  rw [show Ty.number = (Val.num n).ty from rfl, h1]
  simp only [bind, Except.bind, mid_json _ h, text, mid_set _ h]
  rw [readNumber_text (n := (n : Int)) (by omega) (stop_fields _ _)]
  simp only []
  rw [if_neg (head_minus _), if_neg (by omega)]
  rfl

theorem new_uint {n : Nat} (hn : n < 2 ^ 32) : ∃ st, readUInt (readNew (text (.num n))) = .ok (n, st) := by
  have h1 := push_value (ready_new []) (.num n) [] rfl
  simp only [sep, readNew, List.nil_append, List.append_nil] at h1
  unfold readUInt
  rw [show Ty.number = (Val.num n).ty from rfl, readNew, h1]
  have h2 := readNumber_text (n := (n : Int)) (by omega) stop_nil
  rw [List.append_nil] at h2
  have h3 := head_minus (n := n) []
  rw [List.append_nil] at h3
  simp only [bind, Except.bind, after, text, h2, if_neg h3]
  rw [if_neg (by omega)]
  exact ⟨_, rfl⟩

theorem sortFields_asc : ∀ {l : List (Str × Val)}, (l.map Prod.fst).Pairwise (· < ·) → sortFields l = l
  | [], _ => rfl
  | (k, v) :: l, h => by
    simp only [List.map_cons, List.pairwise_cons] at h
    have ih := sortFields_asc h.2
    simp only [sortFields, List.foldr_cons] at ih ⊢
    rw [ih]
    cases l with
    | nil => rfl
    | cons y l =>
      have := h.1 y.1 (by simp)
      rw [insertField, if_neg]
      rw [cmpZ_gt]
      exact Str.lt_asymm this

mutual

/-- A value with the fields in order is not changed by the order. -/
theorem sorted_fit : ∀ v, Fit v → sorted v = v
  | .null, _ => rfl
  | .bool _, _ => rfl
  | .num _, _ => rfl
  | .str _, _ => rfl
  | .arr l, h => by rw [sorted, sortedItems_fit l h]
  | .obj l, h => by rw [sorted, sortedFields_fit l h.1, sortFields_asc h.2]

theorem sortedItems_fit : ∀ l, FitItems l → sortedItems l = l
  | [], _ => rfl
  | v :: l, h => by rw [sortedItems, sorted_fit v h.1, sortedItems_fit l h.2]

theorem sortedFields_fit : ∀ l, FitFields l → sortedFields l = l
  | [], _ => rfl
  | (k, v) :: l, h => by rw [sortedFields, sorted_fit v h.2.1, sortedFields_fit l h.2.2]

end

end Verif.Json
