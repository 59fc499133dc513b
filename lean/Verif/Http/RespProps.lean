import Verif.Http.RespModel
import Verif.Http.RespSpec

/-!
# C75: a response is read as it was sent
-/

namespace Verif.Http

open Spec

/-! ## Text -/

theorem isTrim_iff (c : UInt8) : isTrim c = true ↔ c = 32 ∨ c = 9 ∨ c = 13 ∨ c = 10 := by
  simp [isTrim, or_assoc]

theorem dropWhile_ws {p s : Str} (hp : ∀ c ∈ p, isTrim c = true) : (p ++ s).dropWhile isTrim = s.dropWhile isTrim := by
  induction p with
  | nil => rfl
  | cons x p ih =>
    rw [List.cons_append, List.dropWhile_cons_of_pos (hp x (by simp))]
    exact ih fun c hc => hp c (by simp [hc])

theorem mem_dropWhile {l : Str} {c : UInt8} (h : c ∈ l) (hc : isTrim c = false) : c ∈ l.dropWhile isTrim := by
  rw [← List.takeWhile_append_dropWhile (p := isTrim) (l := l)] at h
  rcases List.mem_append.mp h with hm | hm
  · have := List.all_eq_true.mp (List.all_takeWhile (l := l) (p := isTrim)) c hm
    rw [hc] at this
    cases this
  · exact hm

theorem dropWhile_nil {l : Str} (h : l.dropWhile isTrim = []) : ∀ c ∈ l, isTrim c = true := by
  intro c hc
  by_cases hx : isTrim c = true
  · exact hx
  · have := mem_dropWhile hc (by simpa using hx)
    rw [h] at this
    simp at this

theorem Solid.ne {s : Str} (h : Solid s) : s ≠ [] := by
  rintro rfl
  obtain ⟨⟨c, hc, _⟩, _⟩ := h
  simp at hc

theorem dropWhile_solid {s t : Str} {c : UInt8} (h : s.head? = some c) (hc : c ≠ 32 ∧ c ≠ 9 ∧ c ≠ 13 ∧ c ≠ 10) :
    (s ++ t).dropWhile isTrim = s ++ t := by
  cases s with
  | nil => simp at h
  | cons x s =>
    simp only [List.head?_cons, Option.some.injEq] at h
    subst h
    rw [List.cons_append, List.dropWhile_cons_of_neg]
    simp [isTrim_iff, hc]

theorem trim_mid {p v q : Str} (hp : ∀ c ∈ p, isTrim c = true) (hv : v = [] ∨ Solid v) (hq : ∀ c ∈ q, isTrim c = true) : trim (p ++ v ++ q) = v := by
  unfold trim
  rw [List.append_assoc, dropWhile_ws hp]
  rcases hv with rfl | hv
  · have : ([] ++ q).dropWhile isTrim = [] := by
      have := dropWhile_ws (s := []) hq
      simpa using this
    rw [this]
    rfl
  · obtain ⟨⟨c, hc, hc'⟩, ⟨d, hd, hd'⟩⟩ := hv
    rw [dropWhile_solid hc hc', List.reverse_append, dropWhile_ws (by simpa using hq)]
    have := dropWhile_solid (s := v.reverse) (t := []) (c := d) (by simpa using hd) hd'
    simp only [List.append_nil] at this
    rw [this, List.reverse_reverse]

theorem ows_trim {s : Str} (h : Ows s) : ∀ c ∈ s, isTrim c = true := by
  intro c hc
  rw [isTrim_iff]
  rcases h c hc with h | h <;> simp [h]

theorem ows_trim_cr {s : Str} (h : Ows s) : ∀ c ∈ s ++ [13], isTrim c = true := by
  intro c hc
  rcases List.mem_append.mp hc with hc | hc
  · exact ows_trim h c hc
  · simp only [List.mem_singleton] at hc
    subst hc
    rfl

theorem takeWhile_ne {l t : Str} {x : UInt8} (h : x ∉ l) : (l ++ x :: t).takeWhile (· ≠ x) = l := by
  induction l with
  | nil => simp
  | cons y l ih =>
    simp only [List.mem_cons, not_or] at h
    have : y ≠ x := fun hx => h.1 hx.symm
    simp only [List.cons_append, ne_eq, this, not_false_eq_true, decide_true, List.takeWhile_cons_of_pos]
    rw [ih h.2]

theorem takeWhile_all {l : Str} {x : UInt8} (h : x ∉ l) : l.takeWhile (· ≠ x) = l := by
  induction l with
  | nil => simp
  | cons y l ih =>
    simp only [List.mem_cons, not_or] at h
    have : y ≠ x := fun hx => h.1 hx.symm
    simp only [ne_eq, this, not_false_eq_true, decide_true, List.takeWhile_cons_of_pos]
    rw [ih h.2]

theorem cstr_all {s : Str} (h : 0 ∉ s) : cstr s = s := takeWhile_all h

/-- The first `x`, if there is no zero before it. -/
theorem strChr_first {l t : Str} {x : UInt8} (hx : x ≠ 0) (h : x ∉ l) (h0 : 0 ∉ l) : strChr (l ++ x :: t) x = some l.length := by
  have : cstr (l ++ x :: t) = l ++ x :: cstr t := by
    unfold cstr
    rw [List.takeWhile_append_of_pos (fun c hc => by have : c ≠ 0 := fun h => h0 (h ▸ hc); simpa using this), List.takeWhile_cons_of_pos (by simpa using hx)]
  unfold strChr
  rw [this, if_pos (by simp), takeWhile_ne h]

theorem strChr_none {l : Str} {x : UInt8} (h : x ∉ l) : strChr l x = none := by
  unfold strChr
  rw [if_neg]
  intro hx
  exact h (List.takeWhile_subset _ hx)

/-! ## What is on the connection -/

/-- All of `w` is there and then `tail`, or not all of `w`. -/
def On (full : Bool) (tail : Str) (w q : Str) : Prop := if full then q = w ++ tail else Cut q w

theorem on_append {full : Bool} {tail a b q : Str} (h : On full tail (a ++ b) q) :
    (full = false ∧ Cut q a) ∨ ∃ q', q = a ++ q' ∧ On full tail b q' := by
  cases full with
  | true => exact .inr ⟨b ++ tail, by simpa [On] using h, by simp [On]⟩
  | false =>
    obtain ⟨s, hs, h⟩ := h
    rcases List.append_eq_append_iff.mp h with ⟨z, hz1, hz2⟩ | ⟨z, hz1, hz2⟩
    · exact .inr ⟨z, hz1, ⟨s, hs, hz2⟩⟩
    · by_cases hz : z = []
      · subst hz
        simp only [List.append_nil, List.nil_append] at hz1 hz2
        subst hz1 hz2
        exact .inr ⟨[], by simp, ⟨s, hs, rfl⟩⟩
      · exact .inl ⟨rfl, z, hz, hz1⟩

theorem on_nil {full : Bool} {tail q : Str} (h : On full tail [] q) : full = true ∧ q = tail := by
  cases full with
  | true => exact ⟨rfl, by simpa [On] using h⟩
  | false =>
    obtain ⟨s, hs, h⟩ := h
    have := (List.append_eq_nil_iff.mp h.symm).2
    exact absurd this hs

/-- A line, or an error if it is not all there. -/
theorem line_on {full : Bool} {tail l w q : Str} {cap : Nat} (e : Bool) (hl : 10 ∉ l) (hcap : l.length + 1 ≤ cap) (h : On full tail (l ++ [10] ++ w) q) :
    (full = false ∧ Conn.line ⟨q, e, cap⟩ false = .error .fileRead) ∨
      ∃ q', Conn.line ⟨q, e, cap⟩ false = .ok (⟨q', e, cap⟩, l) ∧ On full tail w q' ∧ q'.length < q.length := by
  rcases on_append h with ⟨hf, s, hs, hc⟩ | ⟨q', rfl, hq⟩
  · refine .inl ⟨hf, ?_⟩
    have h10 : (10 : UInt8) ∉ q := by
      intro hq
      rw [← List.dropLast_concat_getLast hs, ← List.append_assoc] at hc
      have := List.append_inj_left' hc (by simp)
      rw [this] at hl
      exact hl (List.mem_append_left _ hq)
    unfold Conn.line
    rw [if_neg (fun hm => h10 (List.mem_of_mem_take hm)), if_pos (by simp)]
  · refine .inr ⟨q', ?_, hq, by simp; omega⟩
    have e1 : l ++ [10] ++ q' = l ++ 10 :: q' := by simp
    unfold Conn.line
    simp only [e1]
    rw [if_pos, takeWhile_ne hl]
    · simp
    · have : l ++ 10 :: q' = (l ++ [10]) ++ q' := by simp
      rw [this, List.take_append]
      refine List.mem_append_left _ ?_
      rw [List.take_of_length_le (by simpa using hcap)]
      simp

/-! ## Status and fields -/

theorem lower_eq (s : Str) : lower s = s.map lc := rfl

theorem get_put (h : List (Str × Str)) (k v k' : Str) : get (put h k v) k' = if k' = k then some v else get h k' := by
  induction h with
  | nil =>
    simp only [put, get, List.find?_cons, List.find?_nil]
    by_cases hk : k' = k
    · subst hk; simp
    · have : (k == k') = false := by simpa using fun h => hk h.symm
      simp [this, hk]
  | cons a h ih =>
    obtain ⟨k1, v1⟩ := a
    unfold get at ih
    by_cases h1 : k1 = k
    · subst h1
      simp only [put, if_true, get, List.find?_cons]
      by_cases hk : k' = k1
      · subst hk; simp
      · have : (k1 == k') = false := by simpa using fun h => hk h.symm
        simp [this, hk]
    · simp only [put, if_neg h1, get, List.find?_cons]
      by_cases hk : k1 = k'
      · subst hk
        simp [h1]
      · have : (k1 == k') = false := by simpa using hk
        simp only [this]
        exact ih

theorem joined_concat (l : List Str) (v : Str) : joined (l ++ [v]) = match joined l with
    | some old => some (old ++ [44, 32] ++ v)
    | none => some v := by
  cases l with
  | nil => rfl
  | cons a l => simp [joined]

theorem get_headerAdd (h : List (Str × Str)) (k v k' : Str) (h0 : 0 ∉ v) : get (headerAdd h k v) k' = if k' = k then
    (match get h k with
     | some old => some (old ++ [44, 32] ++ v)
     | none => some v) else get h k' := by
  unfold headerAdd
  cases hk : get h k with
  | none => exact get_put h k v k'
  | some old => simp only [cstr_all h0]; exact get_put h k _ k'

/-- What is stored of a value. -/
def stored (k v : Str) : Str := if k = te ∨ k = conn then v.map lc else v

def valuesOf (fs : List Field) (k : Str) : List Str := (fs.filter (·.key = k)).map (·.value)

theorem kte : kTransferEncoding = te := by decide +kernel
theorem kcl : kContentLength = cl := by decide +kernel
theorem kconn : kConnection = conn := by decide +kernel
theorem vchunked : vChunked = chunked := by decide +kernel
theorem vclose : vClose = close := by decide +kernel

/-- The response after the fields `fs`, where `r0` is the response after the status. -/
structure HdrInv (r0 : Resp) (n : Nat) (fs : List Field) (r : Resp) : Prop where
  code : r.code = r0.code
  reason : r.reason = r0.reason
  chunked : r.chunked = true ↔ valuesOf fs te ≠ []
  sizeSet : r.sizeSet = true ↔ valuesOf fs cl ≠ []
  size : r.size = if valuesOf fs cl = [] then 0 else n
  remaining : r.remaining = r.size
  close : r.close = true ↔ r0.close = true ∨ ∃ v ∈ valuesOf fs conn, v.map lc = Spec.close
  header : ∀ k, get r.header k = joined ((valuesOf fs k).map (stored k))
  eof : r.eof = false

theorem valuesOf_concat (fs : List Field) (f : Field) (k : Str) :
    valuesOf (fs ++ [f]) k = if f.key = k then valuesOf fs k ++ [f.value] else valuesOf fs k := by
  unfold valuesOf
  rw [List.filter_append, List.map_append]
  by_cases h : f.key = k <;> simp [h]

theorem lowerChr_zero {c : UInt8} (h : lowerChr c = 0) : c = 0 := by
  have key : ∀ i : Fin 256, lowerChr (UInt8.ofNat i) = 0 → UInt8.ofNat i = 0 := by decide +kernel
  have := key ⟨c.toNat, c.toNat_lt⟩
  simp only [UInt8.ofNat_toNat] at this
  exact this h

theorem zero_not_lower {s : Str} (h : 0 ∉ s) : 0 ∉ lower s := by
  intro h0
  obtain ⟨c, hc, h1⟩ := List.mem_map.mp h0
  exact h (lowerChr_zero h1 ▸ hc)

/-- What the line of a field is when it is trimmed. -/
def Field.core (f : Field) : Str := f.name ++ 58 :: (if f.value = [] then [] else f.pre ++ f.value)

theorem field_trim {cap : Nat} {f : Field} (h : f.Valid cap) : trim (f.name ++ [58] ++ f.pre ++ f.value ++ f.post ++ [13]) = Field.core f := by
  obtain ⟨⟨⟨hn, _⟩, _⟩, hpre, ⟨hv, _⟩, hpost, _⟩ := h
  by_cases hv0 : f.value = []
  · have := trim_mid (p := []) (v := f.name ++ [58]) (q := f.pre ++ (f.post ++ [13])) (by simp)
      (.inr ⟨by obtain ⟨c, hc, h⟩ := hn; exact ⟨c, by simp [List.head?_append, hc], h⟩, ⟨58, by simp, by decide⟩⟩)
      (by
        intro c hc
        rcases List.mem_append.mp hc with hc | hc
        · exact ows_trim hpre c hc
        · exact ows_trim_cr hpost c hc)
    simp only [Field.core, hv0, if_true]
    simpa using this
  · have hs : Solid f.value := hv.resolve_left hv0
    have := trim_mid (p := []) (v := f.name ++ 58 :: (f.pre ++ f.value)) (q := f.post ++ [13]) (by simp)
      (.inr ⟨by obtain ⟨c, hc, h⟩ := hn; exact ⟨c, by simp [List.head?_append, hc], h⟩, by
        obtain ⟨c, hc, h⟩ := hs.2
        exact ⟨c, by simp [List.getLast?_append, List.getLast?_cons, hc], h⟩⟩)
      (ows_trim_cr hpost)
    simp only [Field.core, if_neg hv0]
    simpa using this

theorem field_parse {cap : Nat} {f : Field} (h : f.Valid cap) : strChr (Field.core f) 58 = some f.name.length ∧
    lower (trim ((Field.core f).take f.name.length)) = f.key ∧ trim ((Field.core f).drop (f.name.length + 1)) = f.value := by
  obtain ⟨⟨hn, hn'⟩, hpre, ⟨hv, _⟩, hpost, _⟩ := h
  refine ⟨strChr_first (by decide) (fun h => (hn' _ h).1 rfl) (fun h => (hn' _ h).2.2 rfl), ?_, ?_⟩
  · have := trim_mid (p := []) (v := f.name) (q := []) (by simp) (.inr hn) (by simp)
    simp only [List.nil_append, List.append_nil] at this
    simp [Field.core, this, lower_eq, Field.key]
  · have e : (Field.core f).drop (f.name.length + 1) = if f.value = [] then [] else f.pre ++ f.value := by
      simp [Field.core, ← List.drop_drop]
    rw [e]
    split
    · rename_i h0; rw [h0]; rfl
    · have := trim_mid (p := f.pre) (v := f.value) (q := []) (ows_trim hpre) hv (by simp)
      simpa using this

theorem header_step {cap : Nat} {r0 r : Resp} {n : Nat} {fs : List Field} {f : Field} (hr : HdrInv r0 n fs r) (h : f.Valid cap)
    (hte : f.key = te → f.value.map lc = Spec.chunked) (hcl : f.key = cl → Num.Numeral 10 f.value n ∧ n < 2 ^ 64) :
    ∃ r', headerParse r (Field.core f) = .ok r' ∧ HdrInv r0 n (fs ++ [f]) r' := by
  obtain ⟨p1, p2, p3⟩ := field_parse h
  have h0 : 0 ∉ f.value := fun h' => (h.value.2 _ h').2 rfl
  have ne1 : te ≠ cl := by decide +kernel
  have ne2 : te ≠ conn := by decide +kernel
  have ne3 : cl ≠ conn := by decide +kernel
  have hdr : ∀ k, get (headerAdd r.header f.key (stored f.key f.value)) k = joined ((valuesOf (fs ++ [f]) k).map (stored k)) := by
    intro k
    have hz : 0 ∉ stored f.key f.value := by
      unfold stored
      split
      · exact zero_not_lower h0
      · exact h0
    rw [get_headerAdd _ _ _ _ hz, valuesOf_concat, hr.header]
    by_cases hk : f.key = k
    · subst hk
      simp only [if_true, List.map_append, List.map_cons, List.map_nil]
      rw [joined_concat]
      cases joined ((valuesOf fs f.key).map (stored f.key)) <;> rfl
    · rw [if_neg (fun h => hk h.symm), if_neg hk, hr.header]
  unfold headerParse
  rw [p1]
  simp only [p2, p3]
  rw [kte, kcl, kconn, vchunked, vclose]
  by_cases k1 : f.key = te
  · rw [if_pos k1, if_neg (by rw [lower_eq]; simpa using hte k1)]
    refine ⟨_, rfl, hr.code, hr.reason, ?_, ?_, ?_, hr.remaining, ?_, ?_, hr.eof⟩
    · simp [valuesOf_concat, k1]
    · simpa [valuesOf_concat, k1, ne1] using hr.sizeSet
    · simpa [valuesOf_concat, k1, ne1] using hr.size
    · simpa [valuesOf_concat, k1, ne2] using hr.close
    · intro k; rw [← hdr k]; simp [stored, k1, lower_eq]
  · rw [if_neg k1]
    by_cases k2 : f.key = cl
    · obtain ⟨hnum, hlt⟩ := hcl k2
      rw [if_pos k2, cstr_all h0, (Num.c51_numeral 10 _ n hnum).1, if_pos hlt]
      refine ⟨_, rfl, hr.code, hr.reason, ?_, ?_, ?_, rfl, ?_, ?_, hr.eof⟩
      · simpa [valuesOf_concat, k2, ne1.symm] using hr.chunked
      · simp [valuesOf_concat, k2]
      · simp [valuesOf_concat, k2]
      · simpa [valuesOf_concat, k2, ne3] using hr.close
      · intro k; rw [← hdr k]; simp [stored, k2, ne1.symm, ne3]
    · rw [if_neg k2]
      by_cases k3 : f.key = conn
      · rw [if_pos k3]
        refine ⟨_, rfl, hr.code, hr.reason, ?_, ?_, ?_, hr.remaining, ?_, ?_, hr.eof⟩
        · simpa [valuesOf_concat, k3, ne2.symm] using hr.chunked
        · simpa [valuesOf_concat, k3, ne3.symm] using hr.sizeSet
        · simpa [valuesOf_concat, k3, ne3.symm] using hr.size
        · simp only [Bool.or_eq_true, hr.close, valuesOf_concat, k3, if_true, List.mem_append, List.mem_singleton, lower_eq, beq_iff_eq]
          constructor
          · rintro ((h | ⟨v, h, h'⟩) | h)
            · exact .inl h
            · exact .inr ⟨v, .inl h, h'⟩
            · exact .inr ⟨_, .inr rfl, h⟩
          · rintro (h | ⟨v, h | rfl, h'⟩)
            · exact .inl (.inl h)
            · exact .inl (.inr ⟨v, h, h'⟩)
            · exact .inr h'
        · intro k; rw [← hdr k]; simp [stored, k3, lower_eq]
      · rw [if_neg k3]
        refine ⟨_, rfl, hr.code, hr.reason, ?_, ?_, ?_, hr.remaining, ?_, ?_, hr.eof⟩
        · simpa [valuesOf_concat, k1] using hr.chunked
        · simpa [valuesOf_concat, k2] using hr.sizeSet
        · simpa [valuesOf_concat, k2] using hr.size
        · simpa [valuesOf_concat, k3] using hr.close
        · intro k; rw [← hdr k]; simp [stored, k1, k3]

theorem field_line {cap : Nat} {f : Field} (h : f.Valid cap) : f.wire = (f.name ++ [58] ++ f.pre ++ f.value ++ f.post ++ [13]) ++ [10] ∧
    10 ∉ f.name ++ [58] ++ f.pre ++ f.value ++ f.post ++ [13] ∧ (f.name ++ [58] ++ f.pre ++ f.value ++ f.post ++ [13]).length + 1 ≤ cap := by
  have e : f.wire = (f.name ++ [58] ++ f.pre ++ f.value ++ f.post ++ [13]) ++ [10] := by simp [Field.wire, crlf]
  refine ⟨e, ?_, ?_⟩
  · have hp : 10 ∉ f.pre := fun h' => by rcases h.pre _ h' with h | h <;> simp at h
    have hq : 10 ∉ f.post := fun h' => by rcases h.post _ h' with h | h <;> simp at h
    have hn : 10 ∉ f.name := fun h' => (h.name.2 _ h').2.1 rfl
    have hv : 10 ∉ f.value := fun h' => (h.value.2 _ h').1 rfl
    simp [hp, hq, hn, hv]
  · have := h.fits
    rw [e, List.length_append] at this
    simpa using this

theorem headerRead_spec {cap : Nat} {full : Bool} {tail w : Str} {r0 : Resp} {n : Nat} (hcap : 2 ≤ cap) (gs : List Field) : ∀ (k : Nat) (fs : List Field) (r : Resp) (q : Str), q.length < k →
    HdrInv r0 n fs r → (∀ f ∈ gs, f.Valid cap ∧ (f.key = te → f.value.map lc = Spec.chunked) ∧ (f.key = cl → Num.Numeral 10 f.value n ∧ n < 2 ^ 64)) →
    (valuesOf (fs ++ gs) te = [] ∨ valuesOf (fs ++ gs) cl = []) →
    On full tail ((gs.map Field.wire).flatten ++ crlf ++ w) q →
    (full = false ∧ headerRead false k r ⟨q, false, cap⟩ = some (.error .fileRead)) ∨
      ∃ r' q', headerRead false k r ⟨q, false, cap⟩ = some (.ok (r', ⟨q', false, cap⟩)) ∧ HdrInv r0 n (fs ++ gs) r' ∧ On full tail w q' := by
  induction gs with
  | nil =>
    intro k fs r q hk hr _ hboth hq
    cases k with
    | zero => omega
    | succ k =>
      have hq' : On full tail ([13] ++ [10] ++ w) q := by simpa [crlf] using hq
      rcases line_on false (by decide) (by simpa using hcap) hq' with ⟨hf, he⟩ | ⟨q', he, hq, _⟩
      · exact .inl ⟨hf, by simp [headerRead, he]⟩
      · refine .inr ⟨r, q', ?_, by simpa using hr, hq⟩
        have ht : trim [13] = [] := by decide
        simp only [headerRead, he, ht, if_true]
        rw [if_neg]
        rintro ⟨h1, h2⟩
        simp only [List.append_nil] at hboth
        rcases hboth with h | h
        · exact hr.chunked.mp h1 h
        · exact hr.sizeSet.mp h2 h
  | cons f gs ih =>
    intro k fs r q hk hr hfs hboth hq
    cases k with
    | zero => omega
    | succ k =>
      obtain ⟨hf, h1, h2⟩ := hfs f (by simp)
      obtain ⟨e1, e2, e3⟩ := field_line hf
      have hq' : On full tail ((f.name ++ [58] ++ f.pre ++ f.value ++ f.post ++ [13]) ++ [10] ++ ((gs.map Field.wire).flatten ++ crlf ++ w)) q := by
        rw [← e1]
        simpa using hq
      rcases line_on false e2 e3 hq' with ⟨hf', he⟩ | ⟨q', he, hq, hlt⟩
      · exact .inl ⟨hf', by simp [headerRead, he]⟩
      · obtain ⟨r', hp, hr'⟩ := header_step hr hf h1 h2
        have hne : Field.core f ≠ [] := by simp [Field.core]
        have := ih k (fs ++ [f]) r' q' (by omega) hr' (fun g hg => hfs g (by simp [hg])) (by simpa using hboth) hq
        simp only [headerRead, he, field_trim hf, if_neg hne, hp]
        simpa using this

/-! ## The body -/

/-- Chunks up to the blank line at the end. -/
def chunksWire (cs : List Chunk) (last : Chunk) (ts : List Str) : Str :=
  (cs.map Chunk.wire).flatten ++ last.head ++ (ts.map (· ++ crlf)).flatten ++ crlf

def dataOf (cs : List Chunk) : Str := (cs.map Chunk.data).flatten

def TrailersOk (cap : Nat) (ts : List Str) : Prop :=
  ∀ t ∈ ts, (∀ c ∈ t, c ≠ 10) ∧ (∃ c ∈ t, c ≠ 32 ∧ c ≠ 9 ∧ c ≠ 13) ∧ t.length + 2 ≤ cap

theorem trailers_spec {cap : Nat} {full : Bool} {tail w : Str} (hcap : 2 ≤ cap) (ts : List Str) : ∀ (k : Nat) (q : Str), q.length < k → TrailersOk cap ts →
    On full tail ((ts.map (· ++ crlf)).flatten ++ crlf ++ w) q →
    (full = false ∧ trailers k ⟨q, false, cap⟩ = .error .fileRead) ∨
      ∃ q', trailers k ⟨q, false, cap⟩ = .ok ⟨q', false, cap⟩ ∧ On full tail w q' ∧ q'.length < q.length := by
  induction ts with
  | nil =>
    intro k q hk _ hq
    cases k with
    | zero => omega
    | succ k =>
      have hq' : On full tail ([13] ++ [10] ++ w) q := by simpa [crlf] using hq
      rcases line_on false (by decide) (by simpa using hcap) hq' with ⟨hf, he⟩ | ⟨q', he, hq, hlt⟩
      · exact .inl ⟨hf, by simp [trailers, he]⟩
      · have ht : trim [13] = [] := by decide
        exact .inr ⟨q', by simp [trailers, he, ht], hq, hlt⟩
  | cons t ts ih =>
    intro k q hk hts hq
    cases k with
    | zero => omega
    | succ k =>
      obtain ⟨h1, ⟨c, hc, hc'⟩, h3⟩ := hts t (by simp)
      have hq' : On full tail ((t ++ [13]) ++ [10] ++ ((ts.map (· ++ crlf)).flatten ++ crlf ++ w)) q := by simpa [crlf] using hq
      have h10 : 10 ∉ t ++ [13] := by
        have : 10 ∉ t := fun h => h1 _ h rfl
        simp [this]
      rcases line_on false h10 (by simpa using h3) hq' with ⟨hf, he⟩ | ⟨q', he, hq, hlt⟩
      · exact .inl ⟨hf, by simp [trailers, he]⟩
      · have ht : trim (t ++ [13]) ≠ [] := by
          have hcx : isTrim c = false := by
            have := h1 c hc
            simp only [Bool.eq_false_iff, ne_eq, isTrim_iff]
            simp [hc', this]
          intro h0
          unfold trim at h0
          have h0 := dropWhile_nil (List.reverse_eq_nil_iff.mp h0)
          have hm := mem_dropWhile (l := t ++ [13]) (c := c) (by simp [hc]) hcx
          have := h0 c (by simpa using hm)
          rw [hcx] at this
          cases this
        rcases ih k q' (by omega) (fun t' ht' => hts t' (by simp [ht'])) hq with ⟨hf, h⟩ | ⟨q'', h, hq'', hlt'⟩
        · exact .inl ⟨hf, by simp [trailers, he, ht, h]⟩
        · exact .inr ⟨q'', by simp [trailers, he, ht, h], hq'', by omega⟩

theorem digit_ne {base : Nat} {s : Str} {v : Nat} (h : Num.Numeral base s v) : ∀ c ∈ s, (Num.digitVal c).isSome = true := by
  obtain ⟨_, ds, hds, _⟩ := h
  intro c hc
  have : Num.digitOf base c ∈ s.map (Num.digitOf base) := List.mem_map.mpr ⟨c, hc, rfl⟩
  rw [hds] at this
  obtain ⟨d, _, hd⟩ := List.mem_map.mp this
  unfold Num.digitOf at hd
  cases hv : Num.digitVal c with
  | none => rw [hv] at hd; simp at hd
  | some x => rfl

theorem digit_not {c : UInt8} (h : (Num.digitVal c).isSome = true) : c ≠ 32 ∧ c ≠ 9 ∧ c ≠ 13 ∧ c ≠ 10 ∧ c ≠ 59 ∧ c ≠ 0 := by
  have key : ∀ i : Fin 256, (Num.digitVal (UInt8.ofNat i)).isSome = true →
      UInt8.ofNat i ≠ 32 ∧ UInt8.ofNat i ≠ 9 ∧ UInt8.ofNat i ≠ 13 ∧ UInt8.ofNat i ≠ 10 ∧ UInt8.ofNat i ≠ 59 ∧ UInt8.ofNat i ≠ 0 := by decide +kernel
  have := key ⟨c.toNat, c.toNat_lt⟩
  simp only [UInt8.ofNat_toNat] at this
  exact this h

theorem numeral_solid {base : Nat} {s : Str} {v : Nat} (h : Num.Numeral base s v) : Solid s := by
  have hne := h.1
  refine ⟨⟨s.head hne, List.head?_eq_some_head hne, ?_⟩, ⟨s.getLast hne, List.getLast?_eq_some_getLast hne, ?_⟩⟩
  · have := digit_not (digit_ne h _ (List.head_mem hne))
    exact ⟨this.1, this.2.1, this.2.2.1, this.2.2.2.1⟩
  · have := digit_not (digit_ne h _ (List.getLast_mem hne))
    exact ⟨this.1, this.2.1, this.2.2.1, this.2.2.2.1⟩

theorem chunkSize_spec {cap n : Nat} {c : Chunk} (h : c.HeadValid cap n) : chunkSize (c.pre ++ c.size ++ c.post ++ c.ext ++ [13]) = .ok n := by
  obtain ⟨hpre, ⟨hnum, hlt⟩, hpost, ⟨hext, _⟩, _⟩ := h
  have hs := numeral_solid hnum
  have hd := digit_ne hnum
  have h0 : 0 ∉ c.size := fun h => (digit_not (hd _ h)).2.2.2.2.2 rfl
  have h59 : 59 ∉ c.size := fun h => (digit_not (hd _ h)).2.2.2.2.1 rfl
  have hfin : Num.toUInt64Base 16 (cstr c.size) = .ok n := by
    rw [cstr_all h0, (Num.c51_numeral 16 _ n hnum).1, if_pos hlt]
  have p59 : 59 ∉ c.post := fun h => by rcases hpost _ h with h | h <;> simp at h
  have p0 : 0 ∉ c.post := fun h => by rcases hpost _ h with h | h <;> simp at h
  unfold chunkSize
  rcases hext with he | he
  · have := trim_mid (p := c.pre) (v := c.size) (q := c.post ++ [13]) (ows_trim hpre) (.inr hs) (ows_trim_cr hpost)
    rw [he, List.append_nil, List.append_assoc (c.pre ++ c.size), this]
    simp only [strChr_none h59]
    exact hfin
  · obtain ⟨x, hx⟩ : ∃ x, c.ext = 59 :: x := by
      cases hc : c.ext with
      | nil => rw [hc] at he; simp at he
      | cons a x => rw [hc] at he; simp only [List.head?_cons, Option.some.injEq] at he; exact ⟨x, by rw [he]⟩
    -- what is left of the extension
    have : ∃ y, trim (c.pre ++ c.size ++ c.post ++ c.ext ++ [13]) = (c.size ++ c.post) ++ 59 :: y := by
      have hz : ∃ y q, x ++ [13] = y ++ q ∧ (∀ c ∈ q, isTrim c = true) ∧ (y = [] ∨ ∃ d, y.getLast? = some d ∧ isTrim d = false) := by
        refine ⟨((x ++ [13]).reverse.dropWhile isTrim).reverse, ((x ++ [13]).reverse.takeWhile isTrim).reverse, ?_, ?_, ?_⟩
        · have := congrArg List.reverse (List.takeWhile_append_dropWhile (p := isTrim) (l := (x ++ [13]).reverse))
          rw [List.reverse_append, List.reverse_reverse] at this
          exact this.symm
        · intro c hc
          exact List.all_eq_true.mp (List.all_takeWhile (l := (x ++ [13]).reverse) (p := isTrim)) c (by simpa using hc)
        · cases hw : (x ++ [13]).reverse.dropWhile isTrim with
          | nil => exact .inl rfl
          | cons d l =>
            refine .inr ⟨d, by simp, ?_⟩
            have hn : (x ++ [13]).reverse.dropWhile isTrim ≠ [] := by rw [hw]; simp
            have := List.head_dropWhile_not isTrim hn
            simp only [hw, List.head_cons] at this
            simpa using this
      obtain ⟨y, q, e, hq, hy⟩ := hz
      refine ⟨y, ?_⟩
      have e2 : c.pre ++ c.size ++ c.post ++ c.ext ++ [13] = c.pre ++ ((c.size ++ c.post) ++ 59 :: y) ++ q := by
        have : c.pre ++ c.size ++ c.post ++ c.ext ++ [13] = c.pre ++ c.size ++ c.post ++ 59 :: (x ++ [13]) := by rw [hx]; simp
        rw [this, e]
        simp
      rw [e2]
      refine trim_mid (ows_trim hpre) (.inr ⟨?_, ?_⟩) hq
      · obtain ⟨d, hd1, hd2⟩ := hs.1
        exact ⟨d, by simp [List.head?_append, hd1], hd2⟩
      · rcases hy with rfl | ⟨d, hd1, hd2⟩
        · exact ⟨59, by simp, by decide⟩
        · refine ⟨d, by simp [List.getLast?_append, List.getLast?_cons, hd1], ?_⟩
          have : ¬isTrim d = true := by simp [hd2]
          simpa [isTrim_iff] using this
    obtain ⟨y, hy⟩ := this
    rw [hy]
    have h59' : 59 ∉ c.size ++ c.post := by simp [h59, p59]
    have h0' : 0 ∉ c.size ++ c.post := by simp [h0, p0]
    simp only [strChr_first (t := y) (by decide) h59' h0', List.take_left]
    have := trim_mid (p := []) (v := c.size) (q := c.post) (by simp) (.inr hs) (ows_trim hpost)
    simp only [List.nil_append] at this
    rw [this]
    exact hfin

theorem head_line {cap n : Nat} {c : Chunk} (h : c.HeadValid cap n) : c.head = (c.pre ++ c.size ++ c.post ++ c.ext ++ [13]) ++ [10] ∧
    10 ∉ c.pre ++ c.size ++ c.post ++ c.ext ++ [13] ∧ (c.pre ++ c.size ++ c.post ++ c.ext ++ [13]).length + 1 ≤ cap := by
  have e : c.head = (c.pre ++ c.size ++ c.post ++ c.ext ++ [13]) ++ [10] := by simp [Chunk.head, crlf]
  refine ⟨e, ?_, ?_⟩
  · have hp : 10 ∉ c.pre := fun h' => by rcases h.pre _ h' with h | h <;> simp at h
    have hq : 10 ∉ c.post := fun h' => by rcases h.post _ h' with h | h <;> simp at h
    have hn : 10 ∉ c.size := fun h' => (digit_not (digit_ne h.size.1 _ h')).2.2.2.1 rfl
    have hv : 10 ∉ c.ext := fun h' => (h.ext.2 _ h') rfl
    simp [hp, hq, hn, hv]
  · have := h.fits
    rw [e, List.length_append] at this
    simpa using this

/-- The response is at a place in the body where `w` is still to come on the connection, which holds the data `b`. -/
inductive BodyAt (cap : Nat) (r : Resp) : Str → Str → Prop
  | len {b} : r.chunked = false → r.eof = false → 0 < r.size → b ≠ [] → r.remaining = b.length → BodyAt cap r b b
  | mid {d cs last ts} : r.chunked = true → r.eof = false → d ≠ [] → r.remaining = d.length → (∀ c ∈ cs, c.Valid cap) → last.HeadValid cap 0 → TrailersOk cap ts →
      BodyAt cap r (d ++ (crlf ++ chunksWire cs last ts)) (d ++ dataOf cs)
  | next {cs last ts} : r.chunked = true → r.eof = false → r.remaining = 0 → (∀ c ∈ cs, c.Valid cap) → last.HeadValid cap 0 → TrailersOk cap ts →
      BodyAt cap r (chunksWire cs last ts) (dataOf cs)

/-- Only where it is in the body changes. -/
def Same (r r' : Resp) : Prop := r' = { r with remaining := r'.remaining, eof := r'.eof }

theorem Same.trans {a b c : Resp} (h1 : Same a b) (h2 : Same b c) : Same a c := by
  unfold Same at *
  rw [h2, h1]

/-- What a turn, or the loop, may do. -/
def Good (cap : Nat) (full : Bool) (tail : Str) (r : Resp) (w b q : Str) (room : Nat) (res : Res (Resp × Conn × Str)) : Prop :=
  (full = false ∧ res = .error .fileRead) ∨ ∃ r' q' out, res = .ok (r', ⟨q', false, cap⟩, out) ∧ Same r r' ∧
    ((∃ w' b', BodyAt cap r' w' b' ∧ b = out ++ b' ∧ out.length = room ∧ On full tail w' q') ∨
     (full = true ∧ r'.eof = true ∧ b = out ∧ out.length ≤ room ∧ q' = tail))

theorem data_on {full : Bool} {tail d w q : Str} {cap n : Nat} (hn : n ≤ d.length) (hq : On full tail (d ++ w) q) :
    (full = false ∧ (Conn.read ⟨q, false, cap⟩ n).1.eof = true) ∨
      ∃ q', Conn.read ⟨q, false, cap⟩ n = (⟨q', false, cap⟩, d.take n) ∧ On full tail (d.drop n ++ w) q' ∧ q.length = n + q'.length := by
  have hl : (d.take n).length = n := by simp [hn]
  have e : d ++ w = d.take n ++ (d.drop n ++ w) := by rw [← List.append_assoc, List.take_append_drop]
  rw [e] at hq
  rcases on_append hq with ⟨hf, s, hs, hc⟩ | ⟨q', rfl, hq''⟩
  · refine .inl ⟨hf, ?_⟩
    have : q.length < n := by
      have := congrArg List.length hc
      rw [List.length_append, hl] at this
      have : 0 < s.length := List.length_pos_iff.mpr hs
      omega
    simp [Conn.read, this]
  · refine .inr ⟨q', ?_, hq'', by simp [hl]⟩
    simp only [Conn.read, Prod.mk.injEq, Conn.mk.injEq, and_true]
    refine ⟨⟨?_, ?_⟩, ?_⟩
    · rw [List.drop_append_of_le_length (by omega), List.drop_of_length_le (by omega), List.nil_append]
    · simp [hn]
    · rw [List.take_append_of_le_length (by omega), List.take_of_length_le (by omega)]

/-- The data part of a turn, and what comes after it, from a place where there is data. -/
theorem turn_data {cap room k : Nat} {full : Bool} {tail : Str} {r : Resp} {d q : Str} (hcap : 2 ≤ cap) (hroom : 0 < room) (hk : q.length < k)
    (hrem : r.remaining = d.length) (hd : d ≠ []) (heof : r.eof = false)
    (ih : ∀ room r w b q, q.length < k - 1 → 0 < room → BodyAt cap r w b → On full tail w q → Good cap full tail r w b q room (readLoop (k - 1) room r ⟨q, false, cap⟩))
    {w b : Str} (hw : (r.chunked = false ∧ 0 < r.size ∧ w = [] ∧ b = []) ∨
      ∃ cs last ts, r.chunked = true ∧ w = crlf ++ chunksWire cs last ts ∧ b = dataOf cs ∧ (∀ c ∈ cs, c.Valid cap) ∧ last.HeadValid cap 0 ∧ TrailersOk cap ts)
    (hq : On full tail (d ++ w) q) :
    Good cap full tail r (d ++ w) (d ++ b) q room (do
      let (r, c, out) ← chunkData room r ⟨q, false, cap⟩
      let (r, c) ← chunkTail r c
      if out.length < room ∧ r.eof = false then do
        let (r, c, more) ← readLoop (k - 1) (room - out.length) r c
        pure (r, c, out ++ more)
      else pure (r, c, out)) := by
  have hdl : 0 < d.length := List.length_pos_iff.mpr hd
  have hpos : 0 < r.remaining := by omega
  rcases data_on (cap := cap) (n := min room r.remaining) (by omega) hq with ⟨hf, he⟩ | ⟨q', he, hq', hql⟩
  · refine .inl ⟨hf, ?_⟩
    have hcd : chunkData room r ⟨q, false, cap⟩ = .error .fileRead := by
      simp only [chunkData, if_pos hpos, if_pos he]
    rw [hcd]
    rfl
  · have hlen : (d.take (min room r.remaining)).length = min room r.remaining := by simp; omega
    have hcd : chunkData room r ⟨q, false, cap⟩ = .ok ({ r with remaining := r.remaining - min room r.remaining }, ⟨q', false, cap⟩, d.take (min room r.remaining)) := by
      simp only [chunkData, if_pos hpos, he, hlen]
      rfl
    rw [hcd]
    by_cases hlt : room < d.length
    · -- the buffer is full first
      have hm : min room r.remaining = room := by omega
      rw [hm] at he hq' hlen ⊢
      refine .inr ⟨{ r with remaining := r.remaining - room }, q', d.take room, ?_, rfl, .inl ⟨d.drop room ++ w, d.drop room ++ b, ?_, ?_, hlen, hq'⟩⟩
      · have h1 : r.remaining - room ≠ 0 := by omega
        simp [hlen, pure, Except.pure, bind, Except.bind, chunkTail, h1]
      · have hdr : d.drop room ≠ [] := by
          intro h
          have := congrArg List.length h
          simp at this
          omega
        rcases hw with ⟨h1, h2, rfl, rfl⟩ | ⟨cs, last, ts, h1, rfl, rfl, h4, h5, h6⟩
        · simp only [List.append_nil]
          exact .len h1 heof h2 hdr (by simp [hrem])
        · exact .mid h1 heof hdr (by simp [hrem]) h4 h5 h6
      · rw [← List.append_assoc, List.take_append_drop]
    · have hm : min room r.remaining = d.length := by omega
      rw [hm] at hq' hlen hql ⊢
      rw [List.take_length]
      rw [List.drop_length, List.nil_append] at hq'
      have h0 : r.remaining - d.length = 0 := by omega
      rcases hw with ⟨h1, h2, rfl, rfl⟩ | ⟨cs, last, ts, h1, rfl, rfl, h4, h5, h6⟩
      · obtain ⟨hf, rfl⟩ := on_nil hq'
        refine .inr ⟨{ r with remaining := 0, eof := true }, q', d, ?_, rfl, .inr ⟨hf, rfl, by simp, by omega, rfl⟩⟩
        simp [pure, Except.pure, bind, Except.bind, chunkTail, h0, h1]
      · have hq2 : On full tail ([13] ++ [10] ++ chunksWire cs last ts) q' := by simpa [crlf] using hq'
        rcases line_on false (by decide) (by simpa using hcap) hq2 with ⟨hf, hl⟩ | ⟨q'', hl, hq'', hqlt⟩
        · refine .inl ⟨hf, ?_⟩
          simp [pure, Except.pure, bind, Except.bind, chunkTail, h0, h1, heof, hl]
        · have hb : BodyAt cap { r with remaining := 0 } (chunksWire cs last ts) (dataOf cs) := .next h1 heof rfl h4 h5 h6
          by_cases hfull : d.length < room
          · have := ih (room - d.length) { r with remaining := 0 } _ _ q'' (by omega) (by omega) hb hq''
            have hct : chunkTail { r with remaining := r.remaining - d.length } ⟨q', false, cap⟩ = .ok ({ r with remaining := 0 }, ⟨q'', false, cap⟩) := by
              simp only [h0, chunkTail, if_true, if_pos (And.intro h1 heof), hl]
              rfl
            rcases this with ⟨hf, hl'⟩ | ⟨r3, q3, out, hl', hs, hres⟩
            · refine .inl ⟨hf, ?_⟩
              simp only [pure, Except.pure, bind, Except.bind, hct, if_pos (And.intro hfull heof), hl']
            · refine .inr ⟨r3, q3, d ++ out, ?_, ?_, ?_⟩
              · simp only [pure, Except.pure, bind, Except.bind, hct, if_pos (And.intro hfull heof), hl']
              · exact Same.trans (b := { r with remaining := 0 }) rfl hs
              · rcases hres with ⟨w', b', g1, g2, g3, g4⟩ | ⟨g1, g2, g3, g4, g5⟩
                · exact .inl ⟨w', b', g1, by rw [g2]; simp, by simp; omega, g4⟩
                · exact .inr ⟨g1, g2, by rw [g3], by simp; omega, g5⟩
          · refine .inr ⟨{ r with remaining := 0 }, q'', d, ?_, rfl, .inl ⟨_, _, hb, rfl, by omega, hq''⟩⟩
            simp [pure, Except.pure, bind, Except.bind, chunkTail, h0, h1, heof, hl, hfull]

theorem readLoop_spec {cap : Nat} {full : Bool} {tail : Str} (hcap : 2 ≤ cap) : ∀ (k room : Nat) (r : Resp) (w b q : Str), q.length < k → 0 < room →
    BodyAt cap r w b → On full tail w q → Good cap full tail r w b q room (readLoop k room r ⟨q, false, cap⟩) := by
  intro k
  induction k with
  | zero => intro room r w b q h; omega
  | succ k ih =>
    intro room r w b q hk hroom hb hq
    unfold readLoop
    cases hb with
    | len h1 h2 h3 h4 h5 =>
      have : chunkHead r ⟨q, false, cap⟩ = .ok (r, ⟨q, false, cap⟩) := by simp [chunkHead, h1, pure, Except.pure]
      rw [this]
      have := turn_data (w := []) (b := []) hcap hroom hk h5 h4 h2 ih (.inl ⟨h1, h3, rfl, rfl⟩) (by simpa using hq)
      simp only [List.append_nil] at this
      exact this
    | @mid d cs last ts h1 h2 h3 h4 h5 h6 h7 =>
      have hne : r.remaining ≠ 0 := by
        have := List.length_pos_iff.mpr h3
        omega
      have : chunkHead r ⟨q, false, cap⟩ = .ok (r, ⟨q, false, cap⟩) := by simp [chunkHead, hne, pure, Except.pure]
      rw [this]
      exact turn_data hcap hroom hk h4 h3 h2 ih (.inr ⟨cs, last, ts, h1, rfl, rfl, h5, h6, h7⟩) hq
    | @next cs last ts h1 h2 h3 h4 h5 h6 =>
      cases cs with
      | nil =>
        obtain ⟨e1, e2, e3⟩ := head_line h5
        have hq' : On full tail ((last.pre ++ last.size ++ last.post ++ last.ext ++ [13]) ++ [10] ++ ((ts.map (· ++ crlf)).flatten ++ crlf ++ [])) q := by
          rw [← e1]
          simpa [chunksWire] using hq
        rcases line_on false e2 e3 hq' with ⟨hf, hl⟩ | ⟨q', hl, hq', hlt⟩
        · refine .inl ⟨hf, ?_⟩
          simp [chunkHead, h1, h3, hl, bind, Except.bind]
        · rcases trailers_spec hcap ts (q'.length + 1) q' (by omega) h6 hq' with ⟨hf, ht⟩ | ⟨q'', ht, hq'', _⟩
          · refine .inl ⟨hf, ?_⟩
            simp only [chunkHead, h1, h3, hl, bind, Except.bind, chunkSize_spec h5, ht, and_self, if_true]
          · obtain ⟨hf, rfl⟩ := on_nil hq''
            refine .inr ⟨{ r with remaining := 0, eof := true }, q'', [], ?_, rfl, .inr ⟨hf, rfl, rfl, by simp, rfl⟩⟩
            have hc : chunkHead r ⟨q, false, cap⟩ = .ok ({ r with remaining := 0, eof := true }, ⟨q'', false, cap⟩) := by
              unfold chunkHead
              rw [if_pos ⟨h1, h3⟩]
              simp only [hl, bind, Except.bind, chunkSize_spec h5, ht, if_true, pure, Except.pure]
            rw [hc]
            simp [bind, Except.bind, pure, Except.pure, chunkData, chunkTail]
      | cons c cs =>
        obtain ⟨hv, hdata⟩ := h4 c (by simp)
        obtain ⟨e1, e2, e3⟩ := head_line hv
        have hq' : On full tail ((c.pre ++ c.size ++ c.post ++ c.ext ++ [13]) ++ [10] ++ (c.data ++ (crlf ++ chunksWire cs last ts))) q := by
          rw [← e1]
          simpa [chunksWire, Chunk.wire] using hq
        rcases line_on false e2 e3 hq' with ⟨hf, hl⟩ | ⟨q', hl, hq', hlt⟩
        · refine .inl ⟨hf, ?_⟩
          simp [chunkHead, h1, h3, hl, bind, Except.bind]
        · have hne : c.data.length ≠ 0 := by
            have := List.length_pos_iff.mpr hdata
            omega
          have hc : chunkHead r ⟨q, false, cap⟩ = .ok ({ r with remaining := c.data.length }, ⟨q', false, cap⟩) := by
            unfold chunkHead
            rw [if_pos ⟨h1, h3⟩]
            simp only [hl, bind, Except.bind, chunkSize_spec hv, if_neg hne, pure, Except.pure]
          rw [hc]
          have := turn_data (r := { r with remaining := c.data.length }) (k := k + 1) hcap hroom (by omega) rfl hdata h2 ih
            (.inr ⟨cs, last, ts, h1, rfl, rfl, fun x hx => h4 x (by simp [hx]), h5, h6⟩) hq'
          rcases this with h | ⟨r', q3, out, g1, g2, g3⟩
          · exact .inl h
          · refine .inr ⟨r', q3, out, g1, Same.trans (b := { r with remaining := c.data.length }) rfl g2, ?_⟩
            have : dataOf (c :: cs) = c.data ++ dataOf cs := by simp [dataOf]
            rw [this]
            exact g3

end Verif.Http
