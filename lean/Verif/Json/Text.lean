import Verif.Json.Model
import Verif.Num.Props

/-!
# The text of a value

`text v` is the text that the writer appends for a value with fields in order. The lemmas show how writer and reader process such a text in
any state in which a value is expected.
-/

namespace Verif.Json

mutual

/-- The text of a value. -/
def text : Val → Str
  | .null => nullZ
  | .bool b => if b then trueZ else falseZ
  | .num n => Num.intToZ n
  | .str s => 34 :: s.flatMap escape ++ [34]
  | .arr l => 91 :: items false l ++ [93]
  | .obj l => 123 :: fields false l ++ [125]

/-- The text of items; a comma before the first one when `c`. -/
def items (c : Bool) : List Val → Str
  | [] => []
  | v :: l => (if c then [44] else []) ++ (text v ++ items true l)

/-- The text of fields. -/
def fields (c : Bool) : List (Str × Val) → Str
  | [] => []
  | (k, v) :: l => (if c then [44] else []) ++ (34 :: k ++ 34 :: 58 :: (text v ++ fields true l))

end

/-- The type of a value. -/
def Val.ty : Val → Ty
  | .null => .null
  | .bool _ => .bool
  | .num _ => .number
  | .str _ => .string
  | .arr _ => .arrayBegin
  | .obj _ => .objectBegin

mutual

/-- A value that the text can express: numbers of 64 bits, keys without bytes that need an escape, ascending. -/
def Fit : Val → Prop
  | .num n => -2 ^ 63 ≤ n ∧ n < 2 ^ 64
  | .arr l => FitItems l
  | .obj l => FitFields l ∧ (l.map Prod.fst).Pairwise (· < ·)
  | _ => True

def FitItems : List Val → Prop
  | [] => True
  | v :: l => Fit v ∧ FitItems l

def FitFields : List (Str × Val) → Prop
  | [] => True
  | (k, v) :: l => (keyOk k = true ∧ k.length < 67) ∧ Fit v ∧ FitFields l

end

/-! ## Writing -/

theorem cmpZ_gt (a b : Str) : cmpZ a b = .gt ↔ b < a := by
  induction a generalizing b with
  | nil => cases b <;> simp [cmpZ]
  | cons x a ih =>
    cases b with
    | nil => simp [cmpZ]
    | cons y b =>
      rw [cmpZ, List.cons_lt_cons_iff]
      by_cases h : x < y
      · rw [if_pos h]
        have h1 : ¬ y < x := by rw [UInt8.lt_iff_toNat_lt] at *; omega
        have h2 : y ≠ x := by rintro rfl; rw [UInt8.lt_iff_toNat_lt] at *; omega
        simp [h1, h2]
      · rw [if_neg h]
        by_cases h' : y < x
        · simp [h']
        · have : y = x := by rw [UInt8.lt_iff_toNat_lt] at *; exact UInt8.toNat_inj.1 (by omega)
          subst this
          simp [h', ih]

/-- A state of the writer in which a value is expected. -/
def WReady (st : Wr) : Prop :=
  st.complete = false ∧
    match st.stack with
    | none => st.key = false
    | some [] => False
    | some (i :: _) => st.key = i.object

/-- The comma before the value. -/
def wsep (st : Wr) : Str :=
  match st.stack with
  | some (i :: _) => if i.first ∧ i.object = false then [44] else []
  | _ => []

/-- The state after the value. -/
def wafter (st : Wr) (scalar : Bool) (s : Str) : Wr :=
  match st.stack with
  | none => ⟨s, if scalar then none else some [], false, true⟩
  | some [] => st
  | some (i :: up) => ⟨s, some ({ i with first := true } :: up), false, false⟩

/-- The state within the value. -/
def winside (st : Wr) (object : Bool) (s : Str) : Wr :=
  match st.stack with
  | none => ⟨s, some [⟨object, false, []⟩], false, false⟩
  | some [] => st
  | some (i :: up) => ⟨s, some (⟨object, false, []⟩ :: { i with first := true } :: up), false, false⟩

theorem wpush_scalar {st : Wr} (h : WReady st) {ty : Ty} (hs : ty.scalar = true) :
    wpush st ty none = .ok (wafter st true (st.json ++ wsep st)) := by
  obtain ⟨s, stack, key, complete⟩ := st
  obtain ⟨h1, h2⟩ := h
  rcases stack with _ | _ | ⟨⟨o, f, k⟩, up⟩
  · simp_all [wpush, wsep, wafter]
  · simp at h2
  · cases o <;> simp_all [wpush, wsep, wafter, bind, Except.bind]

theorem wpush_container {st : Wr} (h : WReady st) {ty : Ty} (hs : ty.scalar = false) :
    wpush st ty none = .ok (winside st (ty = .objectBegin) (st.json ++ wsep st)) := by
  obtain ⟨s, stack, key, complete⟩ := st
  obtain ⟨h1, h2⟩ := h
  rcases stack with _ | _ | ⟨⟨o, f, k⟩, up⟩
  · simp_all [wpush, wsep, winside]
  · simp at h2
  · cases o <;> simp_all [wpush, wsep, winside, bind, Except.bind]

theorem cat_wafter (st : Wr) (h : WReady st) (sc : Bool) (s t : Str) : cat (wafter st sc s) t = wafter st sc (s ++ t) := by
  obtain ⟨j, stack, key, complete⟩ := st
  rcases stack with _ | _ | ⟨⟨o, f, k⟩, up⟩
  · rfl
  · simp [WReady] at h
  · rfl

/-- The state among the items or fields of a container. -/
def wmid (st : Wr) (object : Bool) (first : Bool) (last : Str) (key : Bool) (s : Str) : Wr :=
  match st.stack with
  | none => ⟨s, some [⟨object, first, last⟩], key, false⟩
  | some [] => st
  | some (i :: up) => ⟨s, some (⟨object, first, last⟩ :: { i with first := true } :: up), key, false⟩

theorem winside_mid (st : Wr) (o : Bool) (s : Str) : winside st o s = wmid st o false [] false s := by
  unfold winside wmid; rfl

theorem cat_wmid (st : Wr) (h : WReady st) (o f : Bool) (k : Str) (b : Bool) (s t : Str) :
    cat (wmid st o f k b s) t = wmid st o f k b (s ++ t) := by
  obtain ⟨j, stack, key, complete⟩ := st
  rcases stack with _ | _ | ⟨⟨o, f, k⟩, up⟩
  · rfl
  · simp [WReady] at h
  · rfl

theorem wmid_pop (st : Wr) (h : WReady st) (o f : Bool) (k : Str) (s : Str) :
    wpop (wmid st o f k false s) = .ok (wafter st false s) := by
  obtain ⟨j, stack, key, complete⟩ := st
  rcases stack with _ | _ | ⟨⟨o, f, k⟩, up⟩
  · rfl
  · simp [WReady] at h
  · simp [wpop, wmid, wafter]

theorem wmid_ready (st : Wr) (h : WReady st) (o f : Bool) (k : Str) (s : Str) : WReady (wmid st o f k o s) := by
  obtain ⟨j, stack, key, complete⟩ := st
  rcases stack with _ | _ | ⟨⟨o, f, k⟩, up⟩
  · simp [WReady, wmid]
  · simp [WReady] at h
  · simp [WReady, wmid]

theorem wmid_after (st : Wr) (h : WReady st) (o f : Bool) (k : Str) (s t : Str) (sc : Bool) :
    wafter (wmid st o f k o s) sc t = wmid st o true k false t := by
  obtain ⟨j, stack, key, complete⟩ := st
  rcases stack with _ | _ | ⟨⟨o, f, k⟩, up⟩
  · rfl
  · simp [WReady] at h
  · rfl

theorem wmid_sep (st : Wr) (h : WReady st) (o f : Bool) (k : Str) (s : Str) (b : Bool) :
    wsep (wmid st o f k b s) = if f ∧ o = false then [44] else [] := by
  obtain ⟨j, stack, key, complete⟩ := st
  rcases stack with _ | _ | ⟨⟨o, f, k⟩, up⟩
  · rfl
  · simp [WReady] at h
  · rfl

theorem wmid_json (st : Wr) (h : WReady st) (o f : Bool) (k : Str) (s : Str) (b : Bool) : (wmid st o f k b s).json = s := by
  obtain ⟨j, stack, key, complete⟩ := st
  rcases stack with _ | _ | ⟨⟨o, f, k⟩, up⟩
  · rfl
  · simp [WReady] at h
  · rfl

theorem wmid_key (st : Wr) (h : WReady st) (f : Bool) (last k : Str) (s : Str) (h1 : keyOk k = true) (h2 : k.length < 67)
    (h3 : last = [] ∨ last < k) :
    writeKey (wmid st true f last false s) k = .ok (wmid st true true k true (s ++ (if f then [44] else []) ++ (34 :: k ++ [34, 58]))) := by
  have h4 : ¬ (last ≠ [] ∧ cmpZ k last ≠ .gt) := by
    rw [Ne, Ne, cmpZ_gt]; rcases h3 with h3 | h3 <;> simp [h3]
  have h5 : ¬ k.length ≥ 67 := by omega
  have key : wpush (wmid st true f last false s) .string (some k) =
      .ok (wmid st true true k true (s ++ (if f then [44] else []))) := by
    obtain ⟨j, stack, key, complete⟩ := st
    rcases stack with _ | _ | ⟨⟨o, f', k'⟩, up⟩
    · simp only [wpush, wmid, bind, Except.bind]
      rw [if_neg (by simp), if_neg (by simp), if_neg h4, if_neg h5]
      cases f <;> simp [Ty.scalar]
    · simp [WReady] at h
    · simp only [wpush, wmid, bind, Except.bind]
      rw [if_neg (by simp), if_neg (by simp), if_neg h4, if_neg h5]
      cases f <;> simp [Ty.scalar]
  unfold writeKey
  rw [if_neg (by simp [h1]), key]
  simp only [bind, Except.bind]
  rw [cat_wmid _ h]

mutual

theorem writeVal_text : ∀ (v : Val) (st : Wr), Fit v → WReady st →
    writeVal st v = .ok (wafter st v.ty.scalar (st.json ++ wsep st ++ text v))
  | .null, st, _, h => by
    simp only [writeVal, writeNull, bind, Except.bind]
    rw [wpush_scalar h rfl]; simp only []; rw [cat_wafter _ h]; simp [text, Val.ty, Ty.scalar]
  | .bool b, st, _, h => by
    simp only [writeVal, writeBool, bind, Except.bind]
    rw [wpush_scalar h rfl]; simp only []; rw [cat_wafter _ h]; simp [text, Val.ty, Ty.scalar]
  | .num n, st, _, h => by
    simp only [writeVal, writeNum, bind, Except.bind]
    rw [wpush_scalar h rfl]; simp only []; rw [cat_wafter _ h]; simp [text, Val.ty, Ty.scalar]
  | .str s, st, _, h => by
    simp only [writeVal, writeStr, bind, Except.bind]
    rw [wpush_scalar h rfl]; simp only []; rw [cat_wafter _ h]; simp [text, Val.ty, Ty.scalar]
  | .arr l, st, hf, h => by
    simp only [writeVal, writeArrayBegin, bind, Except.bind]
    rw [wpush_container h rfl]
    simp only [winside_mid]
    rw [cat_wmid _ h]
    obtain ⟨f, k, hw⟩ := writeItems_text l st hf h false [] (st.json ++ wsep st ++ [91])
    simp only [reduceCtorEq, decide_false]
    rw [hw]
    simp only [writeArrayEnd, bind, Except.bind]
    rw [wmid_pop _ h]
    simp only []
    rw [cat_wafter _ h]
    simp [text, Val.ty, Ty.scalar]
  | .obj l, st, hf, h => by
    simp only [writeVal, writeObjectBegin, bind, Except.bind]
    rw [wpush_container h rfl]
    simp only [winside_mid]
    rw [cat_wmid _ h]
    obtain ⟨f, k, hw⟩ := writeFields_text l st hf.1 hf.2 h false [] (.inl rfl) (st.json ++ wsep st ++ [123])
    simp only [decide_true]
    rw [hw]
    simp only [writeObjectEnd, bind, Except.bind]
    rw [wmid_pop _ h]
    simp only []
    rw [cat_wafter _ h]
    simp [text, Val.ty, Ty.scalar]

theorem writeItems_text : ∀ (l : List Val) (st : Wr), FitItems l → WReady st → ∀ (f : Bool) (k s : Str),
    ∃ f' k', writeItems (wmid st false f k false s) l = .ok (wmid st false f' k' false (s ++ items f l))
  | [], st, _, h, f, k, s => ⟨f, k, by simp [writeItems, items]⟩
  | v :: l, st, hf, h, f, k, s => by
    have h1 := writeVal_text v _ hf.1 (wmid_ready st h false f k s)
    rw [wmid_json _ h, wmid_sep _ h, wmid_after _ h] at h1
    obtain ⟨f', k', h2⟩ := writeItems_text l st hf.2 h true k (s ++ (if f then [44] else []) ++ text v)
    refine ⟨f', k', ?_⟩
    simp only [writeItems, bind, Except.bind]
    rw [h1]
    simp only [and_true]
    rw [h2, items]
    simp

theorem writeFields_text : ∀ (l : List (Str × Val)) (st : Wr), FitFields l → (l.map Prod.fst).Pairwise (· < ·) → WReady st →
    ∀ (f : Bool) (k : Str), (k = [] ∨ ∀ x ∈ l, k < x.1) → ∀ (s : Str),
    ∃ f' k', writeFields (wmid st true f k false s) l = .ok (wmid st true f' k' false (s ++ fields f l))
  | [], st, _, _, h, f, k, _, s => ⟨f, k, by simp [writeFields, fields]⟩
  | (key, v) :: l, st, hf, hp, h, f, k, hk, s => by
    have h0 := wmid_key st h f k key s hf.1.1 hf.1.2 (hk.imp id (fun x => x (key, v) (by simp)))
    have h1 := writeVal_text v _ hf.2.1 (wmid_ready st h true true key (s ++ (if f then [44] else []) ++ (34 :: key ++ [34, 58])))
    rw [wmid_json _ h, wmid_sep _ h, wmid_after _ h] at h1
    simp only [List.map_cons, List.pairwise_cons] at hp
    obtain ⟨f', k', h2⟩ := writeFields_text l st hf.2.2 hp.2 h true key
      (.inr (fun x hx => hp.1 x.1 (List.mem_map_of_mem hx)))
      (s ++ (if f then [44] else []) ++ (34 :: key ++ [34, 58]) ++ [] ++ text v)
    refine ⟨f', k', ?_⟩
    simp only [writeFields, bind, Except.bind]
    rw [h0]
    simp only []
    rw [h1]
    simp only [Bool.true_eq_false, and_false, if_false]
    rw [h2, fields]
    simp

end

/-! ## Reading -/

/-- A state of the reader in which a value is expected. -/
def Ready (st : Rd) : Prop :=
  st.complete = false ∧
    match st.stack with
    | none => st.key = false
    | some [] => False
    | some (i :: _) => st.key = i.object

/-- The comma before the value. -/
def sep (st : Rd) : Str :=
  match st.stack with
  | some (i :: _) => if i.first ∧ i.object = false then [44] else []
  | _ => []

/-- The state after the value. -/
def after (st : Rd) (scalar : Bool) (s : Str) : Rd :=
  match st.stack with
  | none => ⟨s, if scalar then none else some [], false, true⟩
  | some [] => st
  | some (i :: up) => ⟨s, some ({ i with first := true } :: up), false, false⟩

/-- The state among the items or fields of a container. -/
def mid (st : Rd) (object : Bool) (first : Bool) (key : Bool) (s : Str) : Rd :=
  match st.stack with
  | none => ⟨s, some [⟨object, first⟩], key, false⟩
  | some [] => st
  | some (i :: up) => ⟨s, some (⟨object, first⟩ :: { i with first := true } :: up), key, false⟩

theorem sep_cases (st : Rd) : sep st = [] ∨ sep st = [44] := by
  obtain ⟨j, stack, key, complete⟩ := st
  rcases stack with _ | _ | ⟨⟨o, f⟩, up⟩
  · exact .inl rfl
  · exact .inl rfl
  · cases o <;> cases f <;> simp [sep]

theorem tyOf_facts {c : UInt8} {t : Ty} (h : tyOf c = some t) : isWs c = false ∧ c ≠ 44 := by
  have key : ∀ c : UInt8, (isWs c = true ∨ c = 44) → tyOf c = none := by
    intro c hc
    rcases hc with hc | rfl
    · simp only [isWs, Bool.or_eq_true, beq_iff_eq] at hc
      rcases hc with ((rfl | rfl) | rfl) | rfl <;> decide
    · decide
  constructor
  · by_cases hc : isWs c = true
    · rw [key c (.inl hc)] at h; cases h
    · simpa using hc
  · rintro rfl
    rw [key 44 (.inr rfl)] at h; cases h

theorem skipWs_cons {c : UInt8} (h : isWs c = false) (r : Str) : skipWs (c :: r) = c :: r := by
  simp [skipWs, List.dropWhile, h]

theorem typeNext_cons {c : UInt8} {t : Ty} (h : tyOf c = some t) (r : Str) : typeNext (c :: r) = .ok (t, c :: r) := by
  rw [typeNext, skipWs_cons (tyOf_facts h).1]
  simp [h]

theorem typeNextIC_cons {c : UInt8} {t : Ty} (h : tyOf c = some t) (r : Str) {p : Str} (hp : p = [] ∨ p = [44]) :
    typeNextIC (p ++ c :: r) = .ok (t, p ++ c :: r) := by
  rcases hp with rfl | rfl
  · have h1 := tyOf_facts h
    rw [List.nil_append, typeNextIC, skipWs_cons h1.1]
    split
    · rename_i heq
      exact absurd (List.cons.inj heq).1 h1.2
    · exact typeNext_cons h r
  · rw [List.singleton_append, typeNextIC, skipWs_cons (by decide)]
    simp only [bind, Except.bind, typeNext_cons h]

theorem push_scalar {st : Rd} (h : Ready st) {c : UInt8} {r : Str} {t : Ty} (ht : tyOf c = some t) (hs : t.scalar = true) :
    push { st with json := sep st ++ c :: r } t false = .ok (after st true (c :: r)) := by
  have h0 := typeNextIC_cons ht r (sep_cases st)
  have h3 := tyOf_facts ht
  unfold push
  simp only [h0, bind, Except.bind]
  obtain ⟨s, stack, key, complete⟩ := st
  obtain ⟨h1, h2⟩ := h
  rcases stack with _ | _ | ⟨⟨o, f⟩, up⟩
  · simp_all [sep, after]
  · simp at h2
  · cases o <;> cases f <;> simp_all [sep, after, pushKey, pushComma, skipWs_cons]

theorem push_container {st : Rd} (h : Ready st) {c : UInt8} {r : Str} {t : Ty} (ht : tyOf c = some t) (hs : t.scalar = false) :
    push { st with json := sep st ++ c :: r } t false = .ok (mid st (t = .objectBegin) false false (c :: r)) := by
  have h0 := typeNextIC_cons ht r (sep_cases st)
  have h3 := tyOf_facts ht
  unfold push
  simp only [h0, bind, Except.bind]
  obtain ⟨s, stack, key, complete⟩ := st
  obtain ⟨h1, h2⟩ := h
  rcases stack with _ | _ | ⟨⟨o, f⟩, up⟩
  · simp_all [sep, mid]
  · simp at h2
  · cases o <;> cases f <;> simp_all [sep, mid, pushKey, pushComma, skipWs_cons]

theorem mid_json (st : Rd) (h : Ready st) (o f b : Bool) (s : Str) : (mid st o f b s).json = s := by
  obtain ⟨j, stack, key, complete⟩ := st
  rcases stack with _ | _ | ⟨⟨o, f⟩, up⟩
  · rfl
  · simp [Ready] at h
  · rfl

theorem mid_set (st : Rd) (h : Ready st) (o f b : Bool) (s t : Str) : { mid st o f b s with json := t } = mid st o f b t := by
  obtain ⟨j, stack, key, complete⟩ := st
  rcases stack with _ | _ | ⟨⟨o, f⟩, up⟩
  · rfl
  · simp [Ready] at h
  · rfl

theorem after_json (st : Rd) (h : Ready st) (b : Bool) (s : Str) : (after st b s).json = s := by
  obtain ⟨j, stack, key, complete⟩ := st
  rcases stack with _ | _ | ⟨⟨o, f⟩, up⟩
  · rfl
  · simp [Ready] at h
  · rfl

theorem after_set (st : Rd) (h : Ready st) (b : Bool) (s t : Str) : { after st b s with json := t } = after st b t := by
  obtain ⟨j, stack, key, complete⟩ := st
  rcases stack with _ | _ | ⟨⟨o, f⟩, up⟩
  · rfl
  · simp [Ready] at h
  · rfl

theorem mid_ready (st : Rd) (h : Ready st) (o f : Bool) (s : Str) : Ready (mid st o f o s) := by
  obtain ⟨j, stack, key, complete⟩ := st
  rcases stack with _ | _ | ⟨⟨o, f⟩, up⟩
  · simp [Ready, mid]
  · simp [Ready] at h
  · simp [Ready, mid]

theorem mid_after (st : Rd) (h : Ready st) (o f sc : Bool) (s t : Str) : after (mid st o f o s) sc t = mid st o true false t := by
  obtain ⟨j, stack, key, complete⟩ := st
  rcases stack with _ | _ | ⟨⟨o, f⟩, up⟩
  · rfl
  · simp [Ready] at h
  · rfl

theorem mid_sep (st : Rd) (h : Ready st) (o f b : Bool) (s : Str) : sep (mid st o f b s) = if f ∧ o = false then [44] else [] := by
  obtain ⟨j, stack, key, complete⟩ := st
  rcases stack with _ | _ | ⟨⟨o, f⟩, up⟩
  · rfl
  · simp [Ready] at h
  · rfl

theorem mid_pop_array (st : Rd) (h : Ready st) (f : Bool) (r : Str) :
    readArrayEnd (mid st false f false (93 :: r)) = .ok (after st false r) := by
  obtain ⟨j, stack, key, complete⟩ := st
  rcases stack with _ | _ | ⟨⟨o, f⟩, up⟩
  · rfl
  · simp [Ready] at h
  · rfl

theorem mid_pop_object (st : Rd) (h : Ready st) (f : Bool) (r : Str) :
    readObjectEnd (mid st true f false (125 :: r)) = .ok (after st false r) := by
  obtain ⟨j, stack, key, complete⟩ := st
  rcases stack with _ | _ | ⟨⟨o, f⟩, up⟩
  · rfl
  · simp [Ready] at h
  · rfl

theorem mid_push_key (st : Rd) (h : Ready st) (f : Bool) (r : Str) :
    push (mid st true f false ((if f then [44] else []) ++ 34 :: r)) .string true = .ok (mid st true true true (34 :: r)) := by
  have h0 := typeNextIC_cons (c := 34) (t := .string) (by decide) r (p := if f then [44] else []) (by cases f <;> simp)
  have h1 := mid_json st h true f false ((if f then [44] else []) ++ 34 :: r)
  unfold push
  rw [h1, h0]
  simp only [bind, Except.bind]
  have h2 : skipWs (34 :: r) = 34 :: r := skipWs_cons (by decide) r
  obtain ⟨s, stack, key, complete⟩ := st
  rcases stack with _ | _ | ⟨⟨o, f'⟩, up⟩
  · cases f <;> simp_all [mid, pushKey, pushComma, Ty.scalar]
  · simp [Ready] at h
  · cases f <;> simp_all [mid, pushKey, pushComma, Ty.scalar]

/-- The text that follows a value does not begin with a digit. -/
def Stop (s : Str) : Prop := ∀ c, s.head? = some c → isDigit c = false

theorem fmt_digits (n : Nat) : ∀ c ∈ Num.fmt 10 false n, isDigit c = true := by
  have key : ∀ d : Fin 10, isDigit (Num.digitChar false d) = true := by decide
  induction n using Nat.strongRecOn with
  | ind n ih =>
    intro c hc
    rw [Num.fmt] at hc
    split at hc
    · rename_i h
      rw [List.mem_singleton] at hc
      subst hc
      exact key ⟨n, by omega⟩
    · rename_i h
      simp only [not_or, Nat.not_lt] at h
      rw [List.mem_append, List.mem_singleton] at hc
      rcases hc with hc | rfl
      · exact ih (n / 10) (by omega) c hc
      · exact key ⟨n % 10, by omega⟩

theorem fmt_ne (n : Nat) : Num.fmt 10 false n ≠ [] := by
  rw [Num.fmt]; split <;> simp

theorem fmt_length (n k : Nat) (h : n < 10 ^ (k + 1)) : (Num.fmt 10 false n).length ≤ k + 1 := by
  induction k generalizing n with
  | zero =>
    rw [Num.fmt, dif_pos (by omega)]; simp
  | succ k ih =>
    rw [Num.fmt]
    split
    · simp
    · have := ih (n / 10) (by rw [Nat.pow_succ] at h; omega)
      simp only [List.length_append, List.length_singleton]; omega

theorem takeWhile_stop {d r : Str} (h : ∀ c ∈ d, isDigit c = true) (hr : Stop r) : (d ++ r).takeWhile isDigit = d ∧ (d ++ r).dropWhile isDigit = r := by
  induction d with
  | nil =>
    cases r with
    | nil => simp
    | cons c r => simp [List.takeWhile, List.dropWhile, hr c rfl]
  | cons c d ih =>
    have := ih (fun x hx => h x (List.mem_cons_of_mem _ hx))
    have hc := h c (by simp)
    simp [List.takeWhile, List.dropWhile, hc, this]

theorem readNumber_text {n : Int} (h : -2 ^ 63 ≤ n ∧ n < 2 ^ 64) {r : Str} (hr : Stop r) : readNumber (Num.intToZ n ++ r) = .ok (n, r) := by
  have hd := fmt_digits n.natAbs
  have hne := fmt_ne n.natAbs
  have hl : (Num.fmt 10 false n.natAbs).length ≤ 20 := fmt_length _ 19 (by omega)
  obtain ⟨t1, t2⟩ := takeWhile_stop hd hr
  by_cases hn : n < 0
  · have h1 := Num.c51_int_roundtrip n h.1 (by omega)
    rw [Num.intToZ, if_pos hn] at h1 ⊢
    unfold readNumber
    simp only [List.cons_append, List.head?_cons, if_true, List.tail_cons, t1, t2, if_neg hne]
    rw [if_neg (by omega)]
    simp only [h1, bind, Except.bind]
  · have h1 := (Num.c51_uint_roundtrip n.natAbs (by omega) false 0).1
    rw [Num.uintToZ] at h1
    rw [Num.intToZ, if_neg hn]
    have h2 : ¬ ((Num.fmt 10 false n.natAbs ++ r).head? = some 45) := by
      intro hc
      cases hf : Num.fmt 10 false n.natAbs with
      | nil => exact hne hf
      | cons c s =>
        rw [hf] at hc hd
        simp only [List.cons_append, List.head?_cons, Option.some.injEq] at hc
        have := hd c (by simp)
        rw [hc] at this
        revert this; decide
    unfold readNumber
    simp only [if_neg h2, t1, t2, if_neg hne]
    rw [if_neg (by omega)]
    simp only [h1, bind, Except.bind]
    have : ((n.natAbs : Nat) : Int) = n := by omega
    rw [this]

theorem intToZ_head (n : Int) : ∃ c s, Num.intToZ n = c :: s ∧ tyOf c = some .number := by
  by_cases hn : n < 0
  · exact ⟨45, Num.fmt 10 false n.natAbs, by rw [Num.intToZ, if_pos hn], by decide⟩
  · rw [Num.intToZ, if_neg hn]
    cases hf : Num.fmt 10 false n.natAbs with
    | nil => exact absurd hf (fmt_ne _)
    | cons c s =>
      refine ⟨c, s, rfl, ?_⟩
      have := fmt_digits n.natAbs c (by rw [hf]; simp)
      simp only [isDigit, Bool.and_eq_true, decide_eq_true_eq] at this
      unfold tyOf
      rw [if_neg (by rintro rfl; revert this; decide), if_pos (.inr this)]

/-- The first byte of a value tells its type. -/
theorem text_head (v : Val) : ∃ c s, text v = c :: s ∧ tyOf c = some v.ty := by
  cases v with
  | null => exact ⟨_, _, by rw [text, nullZ], by decide⟩
  | bool b => cases b
              · exact ⟨_, _, by rw [text, falseZ]; simp only [Bool.false_eq_true, if_false]; rfl, by decide⟩
              · exact ⟨_, _, by rw [text, trueZ]; simp only [if_true]; rfl, by decide⟩
  | num n => rw [text]; exact intToZ_head n
  | str s => exact ⟨_, _, by rw [text]; rfl, rfl⟩
  | arr l => exact ⟨_, _, by rw [text]; rfl, rfl⟩
  | obj l => exact ⟨_, _, by rw [text]; rfl, rfl⟩

theorem strBody_text : ∀ (s r : Str) (n : Nat), s.length < n → strBody n (s.flatMap escape ++ 34 :: r) = .ok (s, r)
  | [], r, n + 1, _ => by simp [strBody]
  | c :: s, r, n + 1, h => by
    have ih := strBody_text s r n (by simpa using h)
    rw [List.flatMap_cons, List.append_assoc]
    generalize List.flatMap escape s ++ 34 :: r = t at ih ⊢
    unfold escape
    split
    · subst_vars; simp only [List.cons_append, List.nil_append, strBody]; simp [unescape, ih, bind, Except.bind]
    split
    · subst_vars; simp only [List.cons_append, List.nil_append, strBody]; simp [unescape, ih, bind, Except.bind]
    split
    · subst_vars; simp only [List.cons_append, List.nil_append, strBody]; simp [unescape, ih, bind, Except.bind]
    split
    · subst_vars; simp only [List.cons_append, List.nil_append, strBody]; simp [unescape, ih, bind, Except.bind]
    split
    · subst_vars; simp only [List.cons_append, List.nil_append, strBody]; simp [unescape, ih, bind, Except.bind]
    split
    · subst_vars; simp only [List.cons_append, List.nil_append, strBody]; simp [unescape, ih, bind, Except.bind]
    split
    · subst_vars; simp only [List.cons_append, List.nil_append, strBody]; simp [unescape, ih, bind, Except.bind]
    · rename_i h1 h2 _ _ _ _ _
      simp only [List.cons_append, List.nil_append, strBody, h1, h2, if_false, ih, bind, Except.bind]

theorem skipStrBody_text : ∀ (s r : Str) (n : Nat), s.length < n → skipStrBody n (s.flatMap escape ++ 34 :: r) = .ok r
  | [], r, n + 1, _ => by simp [skipStrBody]
  | c :: s, r, n + 1, h => by
    have ih := skipStrBody_text s r n (by simpa using h)
    rw [List.flatMap_cons, List.append_assoc]
    generalize List.flatMap escape s ++ 34 :: r = t at ih ⊢
    unfold escape
    split
    · subst_vars; simp only [List.cons_append, List.nil_append, skipStrBody]; simp [ih]
    split
    · subst_vars; simp only [List.cons_append, List.nil_append, skipStrBody]; simp [ih]
    split
    · subst_vars; simp only [List.cons_append, List.nil_append, skipStrBody]; simp [ih]
    split
    · subst_vars; simp only [List.cons_append, List.nil_append, skipStrBody]; simp [ih]
    split
    · subst_vars; simp only [List.cons_append, List.nil_append, skipStrBody]; simp [ih]
    split
    · subst_vars; simp only [List.cons_append, List.nil_append, skipStrBody]; simp [ih]
    split
    · subst_vars; simp only [List.cons_append, List.nil_append, skipStrBody]; simp [ih]
    · rename_i h1 h2 _ _ _ _ _
      simp only [List.cons_append, List.nil_append, skipStrBody, h1, h2, if_false, ih]

theorem escape_length (s : Str) : s.length ≤ (s.flatMap escape).length := by
  induction s with
  | nil => simp
  | cons c s ih =>
    have : 1 ≤ (escape c).length := by
      unfold escape; repeat' split
      all_goals simp
    simp only [List.flatMap_cons, List.length_append, List.length_cons]; omega

theorem keyOk_cons {c : UInt8} {k : Str} (h : keyOk (c :: k) = true) : (c ≠ 34 ∧ c ≠ 92) ∧ keyOk k = true := by
  simp only [keyOk, List.all_cons, Bool.and_eq_true, bne_iff_ne, ne_eq] at h ⊢
  exact ⟨⟨h.1.2, h.1.1.1.1.1.1.2⟩, h.2⟩

theorem keyBody_text (k r : Str) (h : keyOk k = true) : keyBody (k ++ 34 :: r) = .ok (k, r) := by
  induction k with
  | nil => simp [keyBody]
  | cons c k ih =>
    obtain ⟨⟨h1, h2⟩, h3⟩ := keyOk_cons h
    rw [List.cons_append, keyBody.eq_4 _ _ (fun h => h1 h) (fun h => h2 h)]
    simp only [ih h3, bind, Except.bind]

theorem skipKey_text (k r : Str) (h : keyOk k = true) : ∀ n, k.length < n → skipStrBody n (k ++ 34 :: r) = .ok r := by
  induction k with
  | nil => intro n hn; cases n with
           | zero => omega
           | succ n => simp [skipStrBody]
  | cons c k ih =>
    obtain ⟨⟨h1, h2⟩, h3⟩ := keyOk_cons h
    intro n hn
    cases n with
    | zero => omega
    | succ n =>
      simp only [List.cons_append, skipStrBody, h1, h2, if_false]
      exact ih h3 n (by simpa using hn)

theorem colon_text (r : Str) : colon (58 :: r) = .ok r := rfl

theorem readStr_text {st : Rd} (h : Ready st) (s r : Str) :
    readStr { st with json := sep st ++ (34 :: s.flatMap escape ++ 34 :: r) } = .ok (some s, after st true r) := by
  have ht : tyOf 34 = some .string := by decide
  have h0 := typeNextIC_cons ht (s.flatMap escape ++ 34 :: r) (sep_cases st)
  unfold readStr
  simp only [List.cons_append] at *
  rw [h0]
  simp only [bind, Except.bind, reduceCtorEq, if_false]
  rw [push_scalar h ht rfl]
  simp only [skip1, after_json _ h, after_set _ h]
  rw [strBody_text]
  have := escape_length s
  simp only [List.length_append]; omega

theorem push_str_skip {st : Rd} (h : Ready st) (s r : Str) :
    (push { st with json := sep st ++ (34 :: s.flatMap escape ++ 34 :: r) } .string false >>= readSkipStr) = .ok (after st true r) := by
  have ht : tyOf 34 = some .string := by decide
  simp only [List.cons_append]
  rw [push_scalar h ht rfl]
  simp only [bind, Except.bind, readSkipStr, skip1, after_json _ h, after_set _ h]
  rw [skipStrBody_text]
  have := escape_length s
  simp only [List.length_append]; omega

theorem kvPut_new (l : List (Str × Val)) (k : Str) (v : Val) (h : ∀ x ∈ l, x.1 ≠ k) : kvPut l k v = l ++ [(k, v)] := by
  induction l with
  | nil => rfl
  | cons x l ih =>
    obtain ⟨k', v'⟩ := x
    rw [kvPut, if_neg (h (k', v') (by simp)), ih (fun y hy => h y (List.mem_cons_of_mem _ hy))]
    rfl

theorem stop_items (l : List Val) (r : Str) : Stop (items true l ++ 93 :: r) := by
  intro c hc
  cases l with
  | nil => simp only [items, List.nil_append, List.head?_cons, Option.some.injEq] at hc; subst hc; decide
  | cons v l => simp only [items, if_true, List.singleton_append, List.cons_append, List.head?_cons, Option.some.injEq] at hc; subst hc; decide

theorem stop_fields (l : List (Str × Val)) (r : Str) : Stop (fields true l ++ 125 :: r) := by
  intro c hc
  cases l with
  | nil => simp only [fields, List.nil_append, List.head?_cons, Option.some.injEq] at hc; subst hc; decide
  | cons v l => simp only [fields, if_true, List.singleton_append, List.cons_append, List.head?_cons, Option.some.injEq] at hc; subst hc; decide

/-- The key of the next field. -/
theorem readKey_text (st : Rd) (h : Ready st) (f : Bool) (k r : Str) (hk : keyOk k = true) :
    readKey (mid st true f false ((if f then [44] else []) ++ (34 :: k ++ 34 :: 58 :: r))) = .ok (k, mid st true true true r) := by
  unfold readKey
  simp only [List.cons_append]
  rw [mid_push_key _ h]
  simp only [bind, Except.bind, readKeyZN, skip1, mid_json _ h, mid_set _ h, keyBody_text _ _ hk, colon_text]

theorem skipKey_field (st : Rd) (h : Ready st) (f : Bool) (k r : Str) (hk : keyOk k = true) :
    push (mid st true f false ((if f then [44] else []) ++ (34 :: k ++ 34 :: 58 :: r))) .string true =
        .ok (mid st true true true (34 :: k ++ 34 :: 58 :: r)) ∧
      readSkipStr (mid st true true true (34 :: k ++ 34 :: 58 :: r)) = .ok (mid st true true true (58 :: r)) := by
  simp only [List.cons_append]
  refine ⟨mid_push_key _ h _ _, ?_⟩
  simp only [bind, Except.bind, readSkipStr, skip1, mid_json _ h, mid_set _ h]
  rw [skipKey_text _ _ hk]
  simp only [List.length_append]; omega

/-- What comes next among fields. -/
theorem fields_next (f : Bool) (l : List (Str × Val)) (r : Str) :
    typeNextIC (fields f l ++ 125 :: r) = .ok (if l = [] then .objectEnd else .string, fields f l ++ 125 :: r) := by
  cases l with
  | nil =>
    have := typeNextIC_cons (c := 125) (t := .objectEnd) (by decide) r (p := []) (.inl rfl)
    simpa [fields] using this
  | cons x l =>
    obtain ⟨k, v⟩ := x
    have := typeNextIC_cons (c := 34) (t := .string) (by decide) (k ++ 34 :: 58 :: (text v ++ fields true l) ++ 125 :: r)
      (p := if f then [44] else []) (by cases f <;> simp)
    simpa [fields] using this

theorem items_next (f : Bool) (l : List Val) (r : Str) :
    typeNextIC (items f l ++ 93 :: r) = .ok (match l with | [] => .arrayEnd | v :: _ => v.ty, items f l ++ 93 :: r) := by
  cases l with
  | nil =>
    have := typeNextIC_cons (c := 93) (t := .arrayEnd) (by decide) r (p := []) (.inl rfl)
    simpa [items] using this
  | cons v l =>
    obtain ⟨c, s, h1, h2⟩ := text_head v
    have := typeNextIC_cons h2 (s ++ items true l ++ 93 :: r)
      (p := if f then [44] else []) (by cases f <;> simp)
    simpa [items, h1] using this

theorem text_pos (v : Val) : 1 ≤ (text v).length := by
  obtain ⟨c, s, h, _⟩ := text_head v
  rw [h]; simp

theorem value_next (st : Rd) (v : Val) (r : Str) : typeNextIC (sep st ++ (text v ++ r)) = .ok (v.ty, sep st ++ (text v ++ r)) := by
  obtain ⟨c, s, h1, h2⟩ := text_head v
  have := typeNextIC_cons h2 (s ++ r) (sep_cases st)
  simpa [h1] using this

theorem push_value {st : Rd} (h : Ready st) (v : Val) (r : Str) (hs : v.ty.scalar = true) :
    push { st with json := sep st ++ (text v ++ r) } v.ty false = .ok (after st true (text v ++ r)) := by
  obtain ⟨c, s, h1, h2⟩ := text_head v
  rw [h1, List.cons_append]
  exact push_scalar h h2 hs

theorem begin_array {st : Rd} (h : Ready st) (l : List Val) (r : Str) :
    readArrayBegin { st with json := sep st ++ (text (.arr l) ++ r) } = .ok (mid st false false false (items false l ++ 93 :: r)) := by
  have := push_container h (c := 91) (t := .arrayBegin) (r := items false l ++ 93 :: r) (by decide) rfl
  simp only [readArrayBegin, text, List.cons_append, List.append_assoc, List.nil_append]
  rw [this]
  simp only [bind, Except.bind, skip1, mid_json _ h, mid_set _ h, reduceCtorEq, decide_false]

theorem begin_object {st : Rd} (h : Ready st) (l : List (Str × Val)) (r : Str) :
    readObjectBegin { st with json := sep st ++ (text (.obj l) ++ r) } = .ok (mid st true false false (fields false l ++ 125 :: r)) := by
  have := push_container h (c := 123) (t := .objectBegin) (r := fields false l ++ 125 :: r) (by decide) rfl
  simp only [readObjectBegin, text, List.cons_append, List.append_assoc, List.nil_append]
  rw [this]
  simp only [bind, Except.bind, skip1, mid_json _ h, mid_set _ h, decide_true]

mutual

theorem readVar_text : ∀ (v : Val) (fuel : Nat) (st : Rd) (r : Str), Fit v → Ready st → Stop r → (text v).length ≤ fuel →
    readVar fuel { st with json := sep st ++ (text v ++ r) } = .ok (v, after st v.ty.scalar r)
  | v, 0, _, _, _, _, _, hl => by have := text_pos v; omega
  | .null, n + 1, st, r, hf, h, hr, hl => by
    have h1 := push_value h .null r rfl
    unfold readVar
    rw [value_next]
    simp only [bind, Except.bind, Val.ty, readNull] at h1 ⊢
    rw [h1]
    simp only [after_json _ h, after_set _ h]
    rfl
  | .bool b, n + 1, st, r, hf, h, hr, hl => by
    have h1 := push_value h (.bool b) r rfl
    unfold readVar
    rw [value_next]
    simp only [bind, Except.bind, Val.ty, readBool] at h1 ⊢
    rw [h1]
    simp only [after_json _ h, after_set _ h]
    cases b <;> rfl
  | .num k, n + 1, st, r, hf, h, hr, hl => by
    have h1 := push_value h (.num k) r rfl
    unfold readVar
    rw [value_next]
    simp only [bind, Except.bind, Val.ty] at h1 ⊢
    rw [h1]
    simp only [after_json _ h, after_set _ h, text]
    rw [readNumber_text hf hr]
    rfl
  | .str s, n + 1, st, r, hf, h, hr, hl => by
    have h1 := readStr_text h s r
    unfold readVar
    rw [value_next]
    simp only [bind, Except.bind, Val.ty, text]
    simp only [List.cons_append, List.append_assoc, List.nil_append] at h1 ⊢
    rw [h1]
    rfl
  | .arr l, n + 1, st, r, hf, h, hr, hl => by
    unfold readVar
    rw [value_next]
    simp only [bind, Except.bind, Val.ty]
    rw [begin_array h]
    simp only []
    rw [readItems_text l n st false r hf h (by simp [text] at hl; omega)]
    rfl
  | .obj l, n + 1, st, r, hf, h, hr, hl => by
    unfold readVar
    rw [value_next]
    simp only [bind, Except.bind, Val.ty]
    rw [begin_object h]
    simp only []
    rw [readFields_text l n st false [] r hf.1 (by simpa using hf.2) h (by simp [text] at hl; omega)]
    rfl

theorem readItems_text : ∀ (l : List Val) (fuel : Nat) (st : Rd) (f : Bool) (r : Str), FitItems l → Ready st →
    (items f l).length + 1 ≤ fuel →
    readItems fuel (mid st false f false (items f l ++ 93 :: r)) = .ok (l, after st false r)
  | _, 0, _, _, _, _, _, hl => by omega
  | [], n + 1, st, f, r, _, h, _ => by
    unfold readItems
    rw [mid_json _ h, items_next]
    simp only [bind, Except.bind, if_true, mid_set _ h, items, List.nil_append]
    rw [mid_pop_array _ h]
  | v :: l, n + 1, st, f, r, hf, h, hl => by
    have hne : v.ty ≠ .arrayEnd := by cases v <;> simp [Val.ty]
    have h1 := readVar_text v n (mid st false f false (items f (v :: l) ++ 93 :: r)) (items true l ++ 93 :: r) hf.1 (mid_ready _ h _ _ _) (stop_items _ _)
      (by have := hl; simp only [items, List.length_append] at this; omega)
    have h2 := readItems_text l n st true r hf.2 h (by
      have := hl; have := text_pos v; simp only [items, List.length_append] at *; omega)
    unfold readItems
    rw [mid_json _ h, items_next]
    simp only [bind, Except.bind, mid_set _ h, if_neg hne]
    rw [mid_sep _ h, mid_after _ h, mid_set _ h] at h1
    simp only [and_true] at h1
    simp only [items, List.append_assoc]
    rw [h1]
    simp only []
    rw [h2]

theorem readFields_text : ∀ (l : List (Str × Val)) (fuel : Nat) (st : Rd) (f : Bool) (kv : List (Str × Val)) (r : Str), FitFields l →
    ((kv ++ l).map Prod.fst).Pairwise (· < ·) → Ready st → (fields f l).length + 1 ≤ fuel →
    readFields fuel kv (mid st true f false (fields f l ++ 125 :: r)) = .ok (kv ++ l, after st false r)
  | _, 0, _, _, _, _, _, _, _, hl => by omega
  | [], n + 1, st, f, kv, r, _, _, h, _ => by
    unfold readFields
    rw [mid_json _ h, fields_next]
    simp only [bind, Except.bind, if_true, mid_set _ h, fields, List.nil_append]
    rw [mid_pop_object _ h]
    simp
  | (k, v) :: l, n + 1, st, f, kv, r, hf, hp, h, hl => by
    have h0 := readKey_text st h f k (text v ++ (fields true l ++ 125 :: r)) hf.1.1
    have h1 := readVar_text v n (mid st true true true (text v ++ (fields true l ++ 125 :: r))) (fields true l ++ 125 :: r) hf.2.1
      (mid_ready _ h _ _ _) (stop_fields _ _)
      (by have := hl; simp only [fields, List.length_append, List.length_cons] at this; omega)
    have h2 := readFields_text l n st true (kv ++ [(k, v)]) r hf.2.2 (by simpa using hp) h (by
      have := hl; have := text_pos v; simp only [fields, List.length_append, List.length_cons] at *; omega)
    have h3 : kvPut kv k v = kv ++ [(k, v)] := by
      apply kvPut_new
      intro x hx hxk
      rw [List.map_append, List.pairwise_append] at hp
      have := hp.2.2 x.1 (List.mem_map_of_mem hx) k (by simp)
      rw [hxk] at this
      exact Str.lt_irrefl _ this
    unfold readFields
    rw [mid_json _ h, fields_next]
    simp only [bind, Except.bind, mid_set _ h, reduceCtorEq, if_false]
    rw [mid_sep _ h, mid_after _ h, mid_set _ h] at h1
    simp only [Bool.true_eq_false, and_false, if_false, List.nil_append] at h1
    simp only [fields, List.append_assoc, List.cons_append] at h0 ⊢
    rw [h0]
    simp only []
    rw [h1]
    simp only []
    rw [h3, h2]
    simp

end

mutual

theorem readSkip_text : ∀ (v : Val) (fuel : Nat) (st : Rd) (r : Str), Fit v → Ready st → Stop r → (text v).length ≤ fuel →
    readSkip fuel { st with json := sep st ++ (text v ++ r) } = .ok (after st v.ty.scalar r)
  | v, 0, _, _, _, _, _, hl => by have := text_pos v; omega
  | .null, n + 1, st, r, hf, h, hr, hl => by
    have h1 := push_value h .null r rfl
    unfold readSkip
    rw [value_next]
    simp only [bind, Except.bind, Val.ty, readNull] at h1 ⊢
    rw [h1]
    simp only [after_json _ h, after_set _ h]
    rfl
  | .bool b, n + 1, st, r, hf, h, hr, hl => by
    have h1 := push_value h (.bool b) r rfl
    unfold readSkip
    rw [value_next]
    simp only [bind, Except.bind, Val.ty, readBool] at h1 ⊢
    rw [h1]
    simp only [after_json _ h, after_set _ h]
    cases b <;> rfl
  | .num k, n + 1, st, r, hf, h, hr, hl => by
    have h1 := push_value h (.num k) r rfl
    unfold readSkip
    rw [value_next]
    simp only [bind, Except.bind, Val.ty] at h1 ⊢
    rw [h1]
    simp only [after_json _ h, after_set _ h, text]
    rw [readNumber_text hf hr]
    rfl
  | .str s, n + 1, st, r, hf, h, hr, hl => by
    have h1 := push_str_skip h s r
    unfold readSkip
    rw [value_next]
    simp only [bind, Except.bind, Val.ty, text] at h1 ⊢
    simp only [List.cons_append, List.append_assoc, List.nil_append] at h1 ⊢
    rw [h1]
    rfl
  | .arr l, n + 1, st, r, hf, h, hr, hl => by
    unfold readSkip
    rw [value_next]
    simp only [bind, Except.bind, Val.ty]
    rw [begin_array h]
    simp only []
    rw [readSkipItems_text l n st false r hf h (by simp [text] at hl; omega)]
    rfl
  | .obj l, n + 1, st, r, hf, h, hr, hl => by
    unfold readSkip
    rw [value_next]
    simp only [bind, Except.bind, Val.ty]
    rw [begin_object h]
    simp only []
    rw [readSkipFields_text l n st false r hf.1 h (by simp [text] at hl; omega)]
    rfl

theorem readSkipItems_text : ∀ (l : List Val) (fuel : Nat) (st : Rd) (f : Bool) (r : Str), FitItems l → Ready st →
    (items f l).length + 1 ≤ fuel →
    readSkipItems fuel (mid st false f false (items f l ++ 93 :: r)) = .ok (after st false r)
  | _, 0, _, _, _, _, _, hl => by omega
  | [], n + 1, st, f, r, _, h, _ => by
    unfold readSkipItems
    rw [mid_json _ h, items_next]
    simp only [bind, Except.bind, if_true, mid_set _ h, items, List.nil_append]
    rw [mid_pop_array _ h]
  | v :: l, n + 1, st, f, r, hf, h, hl => by
    have hne : v.ty ≠ .arrayEnd := by cases v <;> simp [Val.ty]
    have h1 := readSkip_text v n (mid st false f false (items f (v :: l) ++ 93 :: r)) (items true l ++ 93 :: r) hf.1 (mid_ready _ h _ _ _) (stop_items _ _)
      (by have := hl; simp only [items, List.length_append] at this; omega)
    have h2 := readSkipItems_text l n st true r hf.2 h (by
      have := hl; have := text_pos v; simp only [items, List.length_append] at *; omega)
    unfold readSkipItems
    rw [mid_json _ h, items_next]
    simp only [bind, Except.bind, mid_set _ h, if_neg hne]
    rw [mid_sep _ h, mid_after _ h, mid_set _ h] at h1
    simp only [and_true] at h1
    simp only [items, List.append_assoc]
    rw [h1]
    simp only []
    rw [h2]

theorem readSkipFields_text : ∀ (l : List (Str × Val)) (fuel : Nat) (st : Rd) (f : Bool) (r : Str), FitFields l →
    Ready st → (fields f l).length + 1 ≤ fuel →
    readSkipFields fuel (mid st true f false (fields f l ++ 125 :: r)) = .ok (after st false r)
  | _, 0, _, _, _, _, _, hl => by omega
  | [], n + 1, st, f, r, _, h, _ => by
    unfold readSkipFields
    rw [mid_json _ h, fields_next]
    simp only [bind, Except.bind, if_true, mid_set _ h, fields, List.nil_append]
    rw [mid_pop_object _ h]
  | (k, v) :: l, n + 1, st, f, r, hf, h, hl => by
    have h0 := skipKey_field st h f k (text v ++ (fields true l ++ 125 :: r)) hf.1.1
    have h1 := readSkip_text v n (mid st true true true (text v ++ (fields true l ++ 125 :: r))) (fields true l ++ 125 :: r) hf.2.1
      (mid_ready _ h _ _ _) (stop_fields _ _)
      (by have := hl; simp only [fields, List.length_append, List.length_cons] at this; omega)
    have h2 := readSkipFields_text l n st true r hf.2.2 h (by
      have := hl; have := text_pos v; simp only [fields, List.length_append, List.length_cons] at *; omega)
    unfold readSkipFields
    rw [mid_json _ h, fields_next]
    simp only [mid_set _ h, reduceCtorEq, if_false, bind, Except.bind]
    rw [mid_sep _ h, mid_after _ h, mid_set _ h] at h1
    simp only [Bool.true_eq_false, and_false, if_false, List.nil_append] at h1
    simp only [fields, List.append_assoc, List.cons_append, bind, Except.bind] at h0 ⊢
    rw [h0.1]
    simp only []
    rw [h0.2]
    simp only [mid_json _ h, colon_text, mid_set _ h]
    rw [h1]
    simp only []
    rw [h2]

end

end Verif.Json
