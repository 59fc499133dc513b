import Verif.Manifest.SaveModel
import Verif.Json.Typed
import Verif.Encode.Props
import Verif.Num.Props
import Mathlib.Data.List.Forall2

/-! # Objects of the manifest are read field by field as they were written -/

namespace Verif.Manifest

open Verif Verif.Json

/-! ## Optional fields -/

/-- The tree that a field stands for. -/
def Means : Out → Val → Prop
  | .val v, w => v = w
  | .raw s, w => s = text w

/-- An optional field and the tree that it stands for. -/
def Field (a : Bool × Str × Out) (b : Bool × Str × Val) : Prop :=
  a.1 = b.1 ∧ a.2.1 = b.2.1 ∧ (a.1 = true → Means a.2.2 b.2.2 ∧ Json.Fit b.2.2)

/-- Keys in their order, without bytes that need an escape. -/
def Ordered (ks : List Str) : Prop := ks.Pairwise (· < ·) ∧ ∀ k ∈ ks, keyOk k = true ∧ k.length < 67 ∧ 0 ∉ k

instance (ks : List Str) : Decidable (Ordered ks) := inferInstanceAs (Decidable (_ ∧ _))

/-- The keys of optional fields. -/
def keysOf {α : Type} (l : List (Bool × Str × α)) : List Str := l.map fun x => x.2.1

theorem opt_nil {α : Type} : optFields ([] : List (Bool × Str × α)) = [] := rfl

theorem opt_true {α : Type} (x : Str × α) (l : List (Bool × Str × α)) : optFields ((true, x) :: l) = x :: optFields l := rfl

theorem opt_false {α : Type} (x : Str × α) (l : List (Bool × Str × α)) : optFields ((false, x) :: l) = optFields l := rfl

theorem opt_mem {α : Type} {l : List (Bool × Str × α)} {x : Str × α} (h : x ∈ optFields l) : (true, x) ∈ l := by
  unfold optFields at h
  rw [List.mem_flatMap] at h
  obtain ⟨⟨c, y⟩, hy, hx⟩ := h
  cases c with
  | true => simp only [if_true, List.mem_singleton] at hx; rw [hx]; exact hy
  | false => simp at hx

theorem opt_key {α : Type} {l : List (Bool × Str × α)} {x : Str × α} (h : x ∈ optFields l) : x.1 ∈ keysOf l :=
  List.mem_map.2 ⟨_, opt_mem h, rfl⟩

theorem opt_asc {α : Type} : ∀ {l : List (Bool × Str × α)}, (keysOf l).Pairwise (· < ·) → ((optFields l).map Prod.fst).Pairwise (· < ·)
  | [], _ => .nil
  | (c, k, o) :: l, h => by
    simp only [keysOf, List.map_cons, List.pairwise_cons] at h
    have ih := opt_asc (l := l) h.2
    cases c with
    | false => exact ih
    | true =>
      rw [opt_true, List.map_cons, List.pairwise_cons]
      refine ⟨fun x hx => ?_, ih⟩
      obtain ⟨y, hy, rfl⟩ := List.mem_map.1 hx
      exact h.1 _ (opt_key hy)

/-- The fields as trees. -/
def Same (l : List (Str × Out)) (m : List (Str × Val)) : Prop := List.Forall₂ (fun a b => a.1 = b.1 ∧ Means a.2 b.2) l m

theorem opt_same : ∀ {l : List (Bool × Str × Out)} {m : List (Bool × Str × Val)}, List.Forall₂ Field l m →
    Same (optFields l) (optFields m)
  | [], _, h => by cases h; exact .nil
  | (c, k, o) :: l, _, h => by
    cases h with
    | cons h1 h2 =>
      rename_i b m
      obtain ⟨c', k', v⟩ := b
      obtain ⟨rfl, rfl, h3⟩ := h1
      have ih := opt_same h2
      cases c with
      | false => exact ih
      | true => exact .cons ⟨rfl, (h3 rfl).1⟩ ih

theorem field_keys : ∀ {l : List (Bool × Str × Out)} {m : List (Bool × Str × Val)}, List.Forall₂ Field l m → keysOf l = keysOf m
  | [], _, h => by cases h; rfl
  | _ :: _, _, h => by
    cases h with
    | cons h1 h2 => simp only [keysOf, List.map_cons] at *; rw [h1.2.1]; congr 1; exact field_keys h2

theorem opt_fit : ∀ {l : List (Bool × Str × Out)} {m : List (Bool × Str × Val)}, List.Forall₂ Field l m → Ordered (keysOf m) →
    FitFields (optFields m)
  | [], _, h, _ => by cases h; trivial
  | (c, k, o) :: l, _, h, ho => by
    cases h with
    | cons h1 h2 =>
      rename_i b m
      obtain ⟨c', k', v⟩ := b
      obtain ⟨rfl, rfl, h3⟩ := h1
      simp only [Ordered, keysOf, List.map_cons, List.pairwise_cons, List.mem_cons, forall_eq_or_imp] at ho
      have ih := opt_fit h2 ⟨ho.1.2, ho.2.2⟩
      cases c with
      | false => exact ih
      | true => exact ⟨⟨ho.2.1.1, ho.2.1.2.1⟩, (h3 rfl).2, ih⟩

/-! ## Writing -/

theorem writeOuts_text : ∀ (l : List (Str × Out)) (m : List (Str × Val)) (st : Wr), Same l m → FitFields m →
    (m.map Prod.fst).Pairwise (· < ·) → WReady st → ∀ (f : Bool) (k : Str), (k = [] ∨ ∀ x ∈ m, k < x.1) → ∀ (s : Str),
    ∃ f' k', writeOuts (wmid st true f k false s) l = .ok (wmid st true f' k' false (s ++ fields f m))
  | [], _, st, hs, _, _, h, f, k, _, s => by
    cases hs
    exact ⟨f, k, by simp [writeOuts, fields]⟩
  | (key, o) :: l, _, st, hs, hf, hp, h, f, k, hk, s => by
    cases hs with
    | cons h1 h2 =>
      rename_i b m
      obtain ⟨key', v⟩ := b
      obtain ⟨e1, e2⟩ := h1
      simp only at e1 e2
      subst e1
      have h0 := wmid_key st h f k key s hf.1.1 hf.1.2 (hk.imp id (fun x => x (key, v) (by simp)))
      have hr := wmid_ready st h true true key (s ++ (if f then [44] else []) ++ (34 :: key ++ [34, 58]))
      have hw : writeOut (wmid st true true key true (s ++ (if f then [44] else []) ++ (34 :: key ++ [34, 58]))) o =
          .ok (wmid st true true key false (s ++ (if f then [44] else []) ++ (34 :: key ++ [34, 58]) ++ [] ++ text v)) := by
        cases o with
        | val w =>
          have e2 : w = v := e2
          subst e2
          have h1 := writeVal_text w _ hf.2.1 hr
          rw [wmid_json _ h, wmid_sep _ h, wmid_after _ h] at h1
          simp only [writeOut]
          rw [h1]
          simp
        | raw w =>
          have e2 : w = text v := e2
          simp only [writeOut, bind, Except.bind]
          rw [wpush_scalar hr rfl]
          simp only []
          rw [cat_wafter _ hr, wmid_json _ h, wmid_sep _ h, wmid_after _ h, e2]
          simp
      simp only [List.map_cons, List.pairwise_cons] at hp
      obtain ⟨f', k', h3⟩ := writeOuts_text l m st h2 hf.2.2 hp.2 h true key
        (.inr (fun x hx => hp.1 x.1 (List.mem_map_of_mem hx)))
        (s ++ (if f then [44] else []) ++ (34 :: key ++ [34, 58]) ++ [] ++ text v)
      refine ⟨f', k', ?_⟩
      simp only [writeOuts, bind, Except.bind]
      rw [h0]
      simp only []
      rw [hw]
      simp only []
      rw [h3, fields]
      simp

theorem writeObject_text {l : List (Str × Out)} {m : List (Str × Val)} (hs : Same l m) (hf : FitFields m)
    (hp : (m.map Prod.fst).Pairwise (· < ·)) : writeObject l = .ok (text (.obj m)) := by
  have h : WReady writeNew := ⟨rfl, rfl⟩
  simp only [writeObject, writeObjectBegin, bind, Except.bind]
  rw [wpush_container h rfl]
  simp only [winside_mid]
  rw [cat_wmid _ h]
  obtain ⟨f, k, hw⟩ := writeOuts_text l m writeNew hs hf hp h false [] (.inl rfl) (writeNew.json ++ wsep writeNew ++ [123])
  simp only [decide_true]
  rw [hw]
  simp only [writeObjectEnd, bind, Except.bind]
  rw [wmid_pop _ h]
  simp [wafter, writeNew, wsep, cat, text]

/-- The text of an object. -/
theorem writeObject_opt {l : List (Bool × Str × Out)} {m : List (Bool × Str × Val)} (h : List.Forall₂ Field l m)
    (ho : Ordered (keysOf m)) : writeObject (optFields l) = .ok (text (.obj (optFields m))) :=
  writeObject_text (opt_same h) (opt_fit h ho) (opt_asc ho.1)

/-! ## Reading -/

/-- The reader takes the value and stops after it. -/
def Takes {α : Type} (rd : Rd → Res (α × Rd)) (v : Val) (x : α) : Prop :=
  ∀ l, rd (val' (readNew []) [] v l) = .ok (x, at' (readNew []) [] true l)

/-- The state before optional fields. -/
def here (f : Bool) (l : List (Bool × Str × Val)) : Rd := at' (readNew []) [] f (optFields l)

theorem begin_here (l : List (Bool × Str × Val)) : readObjectBegin (readNew (text (.obj (optFields l)))) = .ok (here false l) := by
  have := begin_at (optFields l) []
  rwa [List.append_nil] at this

theorem ordered_tail {k : Str} {l : List Str} (h : Ordered (k :: l)) : Ordered l :=
  ⟨(List.pairwise_cons.1 h.1).2, fun x hx => h.2 x (List.mem_cons_of_mem _ hx)⟩

theorem expect_here {k : Str} {c : Bool} {v : Val} {l : List (Bool × Str × Val)} (f : Bool) (h : Ordered (k :: keysOf l)) :
    readKeyExpect k (here f ((c, k, v) :: l)) = .ok (c, if c then val' (readNew []) [] v (optFields l) else here f l) := by
  obtain ⟨k1, k2, k3⟩ := h.2 k (by simp)
  cases c with
  | true =>
    rw [here, opt_true, expect_found (ready_new []) [] f k1 k3]
    rfl
  | false =>
    rw [here, opt_false, expect_missing (ready_new []) [] f]
    · rfl
    · intro x hx
      have hm : x ∈ optFields l := List.mem_of_mem_head? hx
      have hk := opt_key hm
      obtain ⟨a1, a2, a3⟩ := h.2 x.1 (List.mem_cons_of_mem _ hk)
      exact ⟨a1, a3, (List.pairwise_cons.1 h.1).1 _ hk⟩

theorem optKey_here {α : Type} {k : Str} {c : Bool} {v : Val} {l : List (Bool × Str × Val)} (f : Bool) (h : Ordered (k :: keysOf l))
    {rd : Rd → Res (α × Rd)} {x : α} (d : α) (ht : c = true → Takes rd v x) :
    optKey k rd d (here f ((c, k, v) :: l)) = .ok (if c then x else d, here (f || c) l) := by
  simp only [optKey, bind, Except.bind]
  rw [expect_here f h]
  cases c with
  | true =>
    simp only [if_true, Bool.or_true]
    exact ht rfl _
  | false => simp

theorem needKey_here {α : Type} {k : Str} {v : Val} {l : List (Bool × Str × Val)} (f : Bool) (h : Ordered (k :: keysOf l))
    {rd : Rd → Res (α × Rd)} {x : α} (ht : Takes rd v x) :
    needKey k rd (here f ((true, k, v) :: l)) = .ok (x, here true l) := by
  simp only [needKey, bind, Except.bind]
  rw [expect_here f h]
  exact ht _

theorem require_here {k : Str} {v : Val} {l : List (Bool × Str × Val)} (f : Bool) (h : Ordered (k :: keysOf l)) :
    readKeyRequire k (here f ((true, k, v) :: l)) = .ok (val' (readNew []) [] v (optFields l)) := by
  obtain ⟨k1, k2, k3⟩ := h.2 k (by simp)
  rw [here, opt_true]
  exact require_found (ready_new []) [] f k1 k3 v _

/-! ## Values -/

theorem takes_str (s : Str) : Takes readStr (.str s) (some s) := fun l => val_str (ready_new []) [] s l

theorem takes_bool (b : Bool) : Takes readBool (.bool b) b := fun l => val_bool (ready_new []) [] b l

theorem takes_rdStr (s : Str) : Takes rdStr (.str s) s := by
  intro l
  simp only [rdStr, bind, Except.bind]
  rw [takes_str s l]

theorem takes_num (n : UInt64) : Takes rdNum (.num n.toNat) n := by
  intro l
  simp only [rdNum, bind, Except.bind]
  rw [val_uint64 (ready_new []) [] n.toNat_lt l]
  simp

theorem takes_uint (n : UInt32) : Takes rdUInt (.num n.toNat) n := by
  intro l
  simp only [rdUInt, bind, Except.bind]
  rw [val_uint (ready_new []) [] n.toNat_lt l]
  simp

theorem takes_some {α : Type} {rd : Rd → Res (α × Rd)} {v : Val} {x : α} (h : Takes rd v x) : Takes (rdSome rd) v (some x) := by
  intro l
  simp only [rdSome, bind, Except.bind]
  rw [h l]

theorem takes_var {v : Val} (h : Json.Fit v) : Takes jsonReadVar v v := by
  intro l
  have hr := mid_ready _ (ready_new []) true true (text v ++ (fields true l ++ 125 :: []))
  have h1 := readVar_text v (2 * (val' (readNew []) [] v l).json.length + 2) _ (fields true l ++ 125 :: []) h hr (stop_fields _ _) (by
    rw [val', mid_json _ (ready_new [])]
    simp only [List.length_append]
    omega)
  rw [mid_sep _ (ready_new []), mid_after _ (ready_new []), mid_set _ (ready_new [])] at h1
  exact h1

theorem fit_owner (o : Option Str) : Json.Fit (ownerVar o) := by
  cases o <;> trivial

theorem ownerGet_var (o : Option Str) : ownerGet (ownerVar o) = .ok o := by
  cases o <;> rfl

theorem takes_owner (o : Option Str) : Takes rdOwner (ownerVar o) o := by
  intro l
  simp only [rdOwner, bind, Except.bind]
  rw [takes_var (fit_owner o) l]
  simp only []
  rw [ownerGet_var]

theorem fromVar_fit {v : Val} (h : Json.Fit v) : jsonFromVar v = .ok (text v) := by
  have h1 := writeVal_text _ writeNew h ⟨rfl, rfl⟩
  simp only [jsonFromVar, writeVar, bind, Except.bind]
  rw [sorted_fit v h, h1]
  simp [wafter, writeNew, wsep]

theorem takes_json {v : Val} (h : Json.Fit v) : Takes rdJson v (some (text v)) := by
  intro l
  simp only [rdJson, bind, Except.bind]
  rw [takes_var h l]
  simp only []
  rw [fromVar_fit h]

theorem takes_sum (sgn : Bool) (b : List UInt8) : Takes (rdSum sgn) (.str (Encode.encodeHex b)) (some b) := by
  intro l
  simp only [rdSum, bind, Except.bind]
  rw [takes_rdStr _ l]
  simp only []
  rw [Encode.c02_hex_roundtrip]

theorem digit_ne_zero {base : Nat} {c : UInt8} {d : Nat} (h : Num.digitOf base c = some d) : c ≠ 0 := by
  rintro rfl
  revert h
  unfold Num.digitOf
  rw [show Num.digitVal 0 = none by decide]
  simp

theorem takeWhile_all {p : UInt8 → Bool} : ∀ {s : List UInt8}, (∀ c ∈ s, p c = true) → s.takeWhile p = s
  | [], _ => rfl
  | c :: s, h => by rw [List.takeWhile_cons, if_pos (h c (by simp)), takeWhile_all fun x hx => h x (List.mem_cons_of_mem _ hx)]

theorem numeral_zstr {base : Nat} {s : List UInt8} {n : Nat} (h : Num.Numeral base s n) : Info.zstr s = s := by
  unfold Info.zstr
  apply takeWhile_all
  intro c hc
  obtain ⟨_, ds, hd, _⟩ := h
  have : Num.digitOf base c ∈ s.map (Num.digitOf base) := List.mem_map_of_mem hc
  rw [hd] at this
  obtain ⟨d, _, hd⟩ := List.mem_map.1 this
  have := digit_ne_zero hd.symm
  simpa using this

theorem takes_mode (m : UInt32) : Takes rdMode (.str (modeStr m)) m := by
  intro l
  simp only [rdMode, bind, Except.bind]
  rw [takes_rdStr _ l]
  simp only []
  have hn := Num.numeral_fmtPad 4 8 (by decide) (by decide) false m.toNat
  rw [modeStr, numeral_zstr hn, (Num.c51_numeral 8 _ _ hn).2.1, if_pos m.toNat_lt]
  simp

theorem takes_int64 {n : Nat} (h : n < 2 ^ 63) : ∀ l, readInt64 (val' (readNew []) [] (.num n) l) = .ok ((n : Int), at' (readNew []) [] true l) := by
  intro l
  have hr := ready_new []
  have h1 := val_push hr [] (.num n) l rfl
  unfold readInt64
  rw [show Ty.number = (Val.num n).ty from rfl, h1]
  simp only [bind, Except.bind, mid_json _ hr, text, mid_set _ hr]
  rw [readNumber_text (n := (n : Int)) (by omega) (stop_fields _ _)]
  simp only []
  rw [if_neg (by omega)]
  rfl

theorem fails_int64 {n : Nat} (h : 2 ^ 63 ≤ n) (h2 : n < 2 ^ 64) (l : List (Str × Val)) :
    readInt64 (val' (readNew []) [] (.num n) l) = .error .jsonFormat := by
  have hr := ready_new []
  have h1 := val_push hr [] (.num n) l rfl
  unfold readInt64
  rw [show Ty.number = (Val.num n).ty from rfl, h1]
  simp only [bind, Except.bind, mid_json _ hr, text, mid_set _ hr]
  rw [readNumber_text (n := (n : Int)) (by omega) (stop_fields _ _)]
  simp only []
  rw [if_pos (by omega)]

theorem time_nat {t : Int64} (h : 0 ≤ t.toInt) : (t.toUInt64.toNat : Int) = t.toInt ∧ t.toUInt64.toNat < 2 ^ 63 := by
  have h1 := t.toInt_lt
  have h2 : t.toInt = Int.bmod (t.toUInt64.toNat : Int) (2 ^ 64) := by
    show t.toBitVec.toInt = (t.toBitVec.toNat : Int).bmod _
    rw [BitVec.toInt_eq_toNat_bmod]
  have h3 := t.toUInt64.toNat_lt
  rw [Int.bmod_def] at h2
  split at h2 <;> omega

theorem takes_time {t : Int64} (h : 0 ≤ t.toInt) : Takes rdTime (.num t.toUInt64.toNat) t := by
  intro l
  obtain ⟨h1, h2⟩ := time_nat h
  simp only [rdTime, bind, Except.bind]
  rw [takes_int64 h2 l]
  simp only [h1, Int64.ofInt_toInt]

theorem fails_time {t : Int64} (h : t.toInt < 0) (l : List (Str × Val)) :
    rdTime (val' (readNew []) [] (.num t.toUInt64.toNat) l) = .error .jsonFormat := by
  have h2 : t.toInt = Int.bmod (t.toUInt64.toNat : Int) (2 ^ 64) := by
    show t.toBitVec.toInt = (t.toBitVec.toNat : Int).bmod _
    rw [BitVec.toInt_eq_toNat_bmod]
  have h3 := t.toUInt64.toNat_lt
  simp only [rdTime, bind, Except.bind]
  rw [fails_int64 _ h3]
  rw [Int.bmod_def] at h2
  split at h2 <;> omega

/-! ## Bytes -/

mutual

/-- There is no zero byte in strings and keys. -/
def Clean : Val → Prop
  | .str s => 0 ∉ s
  | .arr l => CleanItems l
  | .obj l => CleanFields l
  | _ => True

def CleanItems : List Val → Prop
  | [] => True
  | v :: l => Clean v ∧ CleanItems l

def CleanFields : List (Str × Val) → Prop
  | [] => True
  | (k, v) :: l => 0 ∉ k ∧ Clean v ∧ CleanFields l

end

theorem escape_clean {s : Str} (h : 0 ∉ s) : 0 ∉ s.flatMap escape := by
  intro hc
  obtain ⟨c, h1, h2⟩ := List.mem_flatMap.1 hc
  have hz : c ≠ 0 := fun e => h (e ▸ h1)
  revert h2
  unfold escape
  repeat' split
  all_goals simp [Ne.symm hz]

theorem fmt_clean (n : Nat) : 0 ∉ Num.fmt 10 false n := by
  intro h
  have := fmt_digits n 0 h
  revert this; decide

mutual

theorem text_clean : ∀ v, Clean v → 0 ∉ text v
  | .null, _ => by decide
  | .bool b, _ => by cases b <;> decide
  | .num n, _ => by
    have := fmt_clean n.natAbs
    simp only [text, Num.intToZ]
    split
    · simp [this]
    · exact this
  | .str s, h => by
    have := escape_clean (s := s) h
    simp [text, this]
  | .arr l, h => by
    have := items_clean l h false
    simp [text, this]
  | .obj l, h => by
    have := fields_clean l h false
    simp [text, this]

theorem items_clean : ∀ l, CleanItems l → ∀ f, 0 ∉ items f l
  | [], _, _ => by simp [items]
  | v :: l, h, f => by
    have h1 := text_clean v h.1
    have h2 := items_clean l h.2 true
    cases f <;> simp [items, h1, h2]

theorem fields_clean : ∀ l, CleanFields l → ∀ f, 0 ∉ fields f l
  | [], _, _ => by simp [fields]
  | (k, v) :: l, h, f => by
    have h1 := text_clean v h.2.1
    have h2 := fields_clean l h.2.2 true
    have h3 := h.1
    cases f <;> simp [fields, h1, h2, h3]

end

end Verif.Manifest
