import Verif.Pack.Spec
import Verif.Varint.Lemmas
import Verif.Varint.Props

/-! # Tags are read as they were written -/

namespace Verif.Pack

open Varint (enc)

theorem enc_len {n : Nat} (h : n < 2 ^ 64) : (enc n).length ≤ 10 := Varint.enc_length_le 9 _ (by norm_num; omega)

theorem varint_read_enc (n : Nat) (h : n < 2 ^ 64) (s : Str) : Varint.read (enc n ++ s) = .ok (UInt64.ofNat n, s) := by
  have := Varint.readGo_enc 10 0 0 n s rfl (enc_len h) (by simp) (by simpa using h)
  simpa [Varint.read, Varint.bufferSizeMax] using this

theorem toNat_ofNat64 {n : Nat} (h : n < 2 ^ 64) : (UInt64.ofNat n).toNat = n :=
  UInt64.toNat_ofNat_of_lt' (by simpa [UInt64.size] using h)

theorem readU64_enc (r : R) (n : Nat) (h : n < 2 ^ 64) (s : Str) (hr : r.rest = enc n ++ s) :
    readU64 r = .ok (n, { r with rest := s }) := by
  simp [readU64, hr, varint_read_enc n h s, toNat_ofNat64 h]

/-- The first part of the tag. -/
def base (ty : Ty) : Nat := if ty.code ≥ 0xF then 0xF0 else ty.code <<< 4

def tag1 (ty : Ty) (v m : Nat) (h : Bool) : Nat := if h then base ty ||| v <<< 2 ||| m ||| 2 else base ty ||| v <<< 2 ||| m
def tag2 (ty : Ty) (m : Nat) (h : Bool) : Nat := if h then base ty ||| 8 ||| m ||| 4 else base ty ||| 8 ||| m
def tag3 (ty : Ty) (v m : Nat) (h : Bool) : Nat := if h then base ty ||| v <<< 3 ||| m ||| 4 else base ty ||| v <<< 3 ||| m
def tag4 (ty : Ty) (m : Nat) (h : Bool) : Nat := if h then base ty ||| m ||| 8 else base ty ||| m

theorem tag1_facts (ty : Ty) (v m : Fin 2) (h : Bool) :
    tag1 ty v m h < 256 ∧ tag1 ty v m h ≠ 0 ∧ tag1 ty v m h >>> 4 = min ty.code 15 ∧ tag1 ty v m h &&& 8 = 0 ∧
    tag1 ty v m h &&& 1 = m ∧ decide (tag1 ty v m h &&& 2 ≠ 0) = h ∧ (tag1 ty v m h >>> 2) &&& 3 = v := by
  cases ty <;> revert v m h <;> decide

theorem tag2_facts (ty : Ty) (m : Fin 4) (h : Bool) :
    tag2 ty m h < 256 ∧ tag2 ty m h ≠ 0 ∧ tag2 ty m h >>> 4 = min ty.code 15 ∧ tag2 ty m h &&& 8 ≠ 0 ∧
    tag2 ty m h &&& 3 = m ∧ decide (tag2 ty m h &&& 4 ≠ 0) = h := by
  cases ty <;> revert m h <;> decide

theorem tag3_facts (ty : Ty) (v : Fin 2) (m : Fin 4) (h : Bool) :
    tag3 ty v m h < 256 ∧ tag3 ty v m h ≠ 0 ∧ tag3 ty v m h >>> 4 = min ty.code 15 ∧
    tag3 ty v m h &&& 3 = m ∧ decide (tag3 ty v m h &&& 4 ≠ 0) = h ∧ (tag3 ty v m h >>> 3) &&& 1 = v := by
  cases ty <;> revert v m h <;> decide

theorem tag4_facts (ty : Ty) (m : Fin 8) (h : Bool) :
    tag4 ty m h < 256 ∧ tag4 ty m h ≠ 0 ∧ tag4 ty m h >>> 4 = min ty.code 15 ∧
    tag4 ty m h &&& 7 = m ∧ decide (tag4 ty m h &&& 8 ≠ 0) = h := by
  cases ty <;> revert m h <;> decide

/-- What is written for a tag (proof device). -/
def hdr (ty : Ty) (delta value : Nat) : Str :=
  match tagBits ty delta value with
  | .ok (tag, d, v) =>
    [UInt8.ofNat tag] ++ (if ty.code ≥ 0xF then enc (ty.code - 0xF) else []) ++ (if d > 0 then enc d else []) ++
      (if v > 0 then enc v else [])
  | .error _ => []

/-- A value fits the type. -/
def Fits (ty : Ty) (value : Nat) : Prop :=
  value < 2 ^ 64 ∧ (ty.multi = false → value < 2) ∧ (ty.multi = false → ty.single = false → value = 0)

def sized (ty : Ty) (value : Nat) : Bool := ty.size && (0 < value || !ty.single)

theorem readCode_enc (ty : Ty) (tag : Nat) (h : tag >>> 4 = min ty.code 15) (r : R) (s : Str)
    (hr : r.rest = (if ty.code ≥ 0xF then enc (ty.code - 0xF) else []) ++ s) :
    readCode tag r = .ok (ty.code, { r with rest := s }) := by
  unfold readCode
  rw [h]
  by_cases hc : ty.code ≥ 0xF
  · have hm : min ty.code 15 = 15 := by omega
    have hlt : ty.code ≤ 18 := by cases ty <;> decide
    rw [if_pos hc] at hr
    rw [if_pos hm, readU64_enc _ (ty.code - 0xF) (by omega) s hr]
    simp only [bind, Except.bind, pure, Except.pure]
    congr 2
    omega
  · have hm : min ty.code 15 = ty.code := by omega
    rw [if_neg hc] at hr
    simp only [List.nil_append] at hr
    rw [hm, if_neg (by omega), ← hr]

theorem ofCode_code (ty : Ty) : Ty.ofCode ty.code = some ty := by cases ty <;> rfl

theorem readDelta_enc (r : R) (k low d : Nat) (s : Str) (hl : low < 2 ^ k) (hd : low + d * 2 ^ k < 2 ^ 32) :
    readDelta { r with rest := (if d > 0 then enc d else []) ++ s } low k (decide (d > 0)) =
      .ok (low + d * 2 ^ k, { r with rest := s }) := by
  have hd' : d < 2 ^ 32 := by
    have : d * 1 ≤ d * 2 ^ k := Nat.mul_le_mul_left _ Nat.one_le_two_pow
    omega
  unfold readDelta
  by_cases h : d > 0
  · simp only [h, decide_true, if_true]
    rw [readU64_enc _ d (by omega) s rfl]
    simp only [bind, Except.bind, pure, Except.pure]
    rw [Nat.mod_eq_of_lt hd', Nat.shiftLeft_eq, Nat.mod_eq_of_lt (by omega), ← Nat.shiftLeft_eq, Varint.digit_or hl, Nat.shiftLeft_eq]
  · have : d = 0 := by omega
    subst this
    simp

theorem byte_toNat {n : Nat} (h : n < 256) : (UInt8.ofNat n).toNat = n := UInt8.toNat_ofNat_of_lt' (by simpa [UInt8.size] using h)

/-- A cap of a reader is not zero. -/
def CapOk (io : Option Nat) : Prop := ∀ cap, io = some cap → 0 < cap

theorem readBuffer_one (r : R) (b : UInt8) (s : Str) (hr : r.rest = b :: s) (hc : CapOk r.io) : readBuffer r 1 = .ok 1 := by
  unfold readBuffer
  rw [hr]
  cases h : r.io with
  | none => simp
  | some cap =>
    have := hc cap h
    have h1 : min (min 1 cap) (b :: s).length = 1 := by simp; omega
    simp only [h1]
    rfl

/-- The state after a tag. -/
def afterTag (r : R) (ty : Ty) (id value size : Nat) (s : Str) : R :=
  { r with rest := s, nextId := id, nextTy := some ty, nextValue := value, nextSize := if sized ty value then size else 0 }

theorem tagBits_cases (ty : Ty) (delta value : Nat) (hf : Fits ty value) :
    (ty.multi = true ∧ value < 2 ∧ tagBits ty delta value = .ok (tag1 ty value (delta % 2) (decide (delta / 2 > 0)), delta / 2, 0)) ∨
    (ty.multi = true ∧ ¬ value < 2 ∧ tagBits ty delta value = .ok (tag2 ty (delta % 4) (decide (delta / 4 > 0)), delta / 4, value)) ∨
    (ty.multi = false ∧ ty.single = true ∧ value < 2 ∧
      tagBits ty delta value = .ok (tag3 ty value (delta % 4) (decide (delta / 4 > 0)), delta / 4, 0)) ∨
    (ty.multi = false ∧ ty.single = false ∧ value = 0 ∧
      tagBits ty delta value = .ok (tag4 ty (delta % 8) (decide (delta / 8 > 0)), delta / 8, 0)) := by
  have e1 : delta &&& 1 = delta % 2 := Nat.and_one_is_mod delta
  have e3 : delta &&& 3 = delta % 4 := Nat.and_two_pow_sub_one_eq_mod delta 2
  have e7 : delta &&& 7 = delta % 8 := Nat.and_two_pow_sub_one_eq_mod delta 3
  have s1 : delta >>> 1 = delta / 2 := Nat.shiftRight_eq_div_pow delta 1
  have s2 : delta >>> 2 = delta / 4 := Nat.shiftRight_eq_div_pow delta 2
  have s3 : delta >>> 3 = delta / 8 := Nat.shiftRight_eq_div_pow delta 3
  cases hm : ty.multi with
  | true =>
    by_cases hv : value < 2
    · left
      refine ⟨rfl, hv, ?_⟩
      have v1 : value &&& 1 = value := by rw [Nat.and_one_is_mod]; omega
      have v2 : value >>> 1 = 0 := by rw [Nat.shiftRight_eq_div_pow]; omega
      simp only [tagBits, hm, hv, if_true, e1, s1, v1, v2, tag1, base, decide_eq_true_eq]
    · right; left
      refine ⟨rfl, hv, ?_⟩
      simp only [tagBits, hm, hv, if_true, if_false, e3, s2, tag2, base, decide_eq_true_eq]
  | false =>
    have hv := hf.2.1 hm
    have v1 : value &&& 1 = value := by rw [Nat.and_one_is_mod]; omega
    have v2 : value >>> 1 = 0 := by rw [Nat.shiftRight_eq_div_pow]; omega
    cases hs : ty.single with
    | true =>
      right; right; left
      refine ⟨rfl, rfl, hv, ?_⟩
      simp only [tagBits, hm, hs, if_true, Bool.false_eq_true, if_false, e3, s2, v1, v2, tag3, base, decide_eq_true_eq]
    | false =>
      right; right; right
      have h0 := hf.2.2 hm hs
      refine ⟨rfl, rfl, h0, ?_⟩
      simp only [tagBits, hm, hs, h0, if_true, Bool.false_eq_true, if_false, e7, s3, tag4, base, decide_eq_true_eq, ne_eq, not_true]

theorem readSize_enc (ty : Ty) (value size : Nat) (hz : size < 2 ^ 64) (r : R) (s : Str)
    (hr : r.rest = (if sized ty value then enc size else []) ++ s) :
    readSize ty value r = .ok (if sized ty value then size else 0, { r with rest := s }) := by
  unfold readSize
  cases hs : sized ty value with
  | true =>
    rw [show (ty.size && (decide (0 < value) || !ty.single)) = true from hs]
    rw [hs] at hr
    simp only [if_true]
    exact readU64_enc r size hz s hr
  | false =>
    rw [show (ty.size && (decide (0 < value) || !ty.single)) = false from hs]
    rw [hs] at hr
    simp only [Bool.false_eq_true, if_false, List.nil_append] at hr ⊢
    rw [← hr]

/-- The parts of a tag, for all types at once: the byte, what follows it and what `readValue` makes of it. -/
theorem hdr_parts (ty : Ty) (delta value : Nat) (hd : delta < 2 ^ 32) (hf : Fits ty value) :
    ∃ (tag : Nat) (tl : Str), hdr ty delta value = UInt8.ofNat tag :: ((if ty.code ≥ 0xF then enc (ty.code - 0xF) else []) ++ tl) ∧
      tag < 256 ∧ tag ≠ 0 ∧ tag >>> 4 = min ty.code 15 ∧
      ∀ (r : R) (s : Str), r.rest = tl ++ s → readValue tag ty r = .ok (delta, value, { r with rest := s }) := by
  rcases tagBits_cases ty delta value hf with ⟨hm, hv2, hb⟩ | ⟨hm, hv2, hb⟩ | ⟨hm, hsg, hv2, hb⟩ | ⟨hm, hsg, hv2, hb⟩
  · obtain ⟨f1, f2, f3, f4, f5, f6, f7⟩ := tag1_facts ty ⟨value, hv2⟩ ⟨delta % 2, by omega⟩ (decide (delta / 2 > 0))
    refine ⟨_, if delta / 2 > 0 then enc (delta / 2) else [], ?_, f1, f2, f3, ?_⟩
    · simp [hdr, hb, List.append_assoc]
    · intro r s hr
      have hdel := readDelta_enc r 1 (delta % 2) (delta / 2) s (by omega) (by omega)
      rw [← hr] at hdel
      unfold readValue
      simp only [hm, if_true, ne_eq, f4, not_true, if_false, f5, f7]
      simp only [ne_eq] at f6
      rw [f6, hdel]
      simp only [bind, Except.bind, pure, Except.pure]
      congr 2
      omega
  · obtain ⟨f1, f2, f3, f4, f5, f6⟩ := tag2_facts ty ⟨delta % 4, by omega⟩ (decide (delta / 4 > 0))
    refine ⟨_, (if delta / 4 > 0 then enc (delta / 4) else []) ++ enc value, ?_, f1, f2, f3, ?_⟩
    · simp [hdr, hb, List.append_assoc, show 0 < value by omega]
    · intro r s hr
      have hdel := readDelta_enc r 2 (delta % 4) (delta / 4) (enc value ++ s) (by omega) (by omega)
      rw [← List.append_assoc, ← hr] at hdel
      unfold readValue
      simp only [hm, if_true, ne_eq, f4, not_false_eq_true, f5]
      simp only [ne_eq] at f6
      rw [f6, hdel]
      simp only [bind, Except.bind, pure, Except.pure]
      rw [readU64_enc _ value hf.1 s rfl]
      simp only
      congr 2
      omega
  · obtain ⟨f1, f2, f3, f5, f6, f7⟩ := tag3_facts ty ⟨value, hv2⟩ ⟨delta % 4, by omega⟩ (decide (delta / 4 > 0))
    refine ⟨_, if delta / 4 > 0 then enc (delta / 4) else [], ?_, f1, f2, f3, ?_⟩
    · simp [hdr, hb, List.append_assoc]
    · intro r s hr
      have hdel := readDelta_enc r 2 (delta % 4) (delta / 4) s (by omega) (by omega)
      rw [← hr] at hdel
      unfold readValue
      simp only [hm, hsg, Bool.false_eq_true, if_true, if_false, ne_eq, f5, f7]
      simp only [ne_eq] at f6
      rw [f6, hdel]
      simp only [bind, Except.bind, pure, Except.pure]
      congr 2
      omega
  · obtain ⟨f1, f2, f3, f5, f6⟩ := tag4_facts ty ⟨delta % 8, by omega⟩ (decide (delta / 8 > 0))
    refine ⟨_, if delta / 8 > 0 then enc (delta / 8) else [], ?_, f1, f2, f3, ?_⟩
    · simp [hdr, hb, List.append_assoc]
    · intro r s hr
      have hdel := readDelta_enc r 3 (delta % 8) (delta / 8) s (by omega) (by omega)
      rw [← hr] at hdel
      unfold readValue
      simp only [hm, hsg, Bool.false_eq_true, if_false, ne_eq, f5]
      simp only [ne_eq] at f6
      rw [f6, hdel, hv2]
      simp only [bind, Except.bind, pure, Except.pure]
      congr 2
      omega

theorem readTagNext_hdr (r : R) (ty : Ty) (delta value size : Nat) (top : Frame) (tl : List Frame) (s : Str)
    (hc : CapOk r.io) (hst : r.stack = top :: tl) (hd : delta < 2 ^ 32) (hf : Fits ty value) (hz : size < 2 ^ 64)
    (hr : r.rest = hdr ty delta value ++ ((if sized ty value then enc size else []) ++ s)) :
    readTagNext r = .ok (afterTag r ty ((delta + (top.idLast + 1)) % 2 ^ 32) value size s, true) := by
  obtain ⟨tag, t, h1, h2, h3, h4, h5⟩ := hdr_parts ty delta value hd hf
  rw [h1, List.cons_append, List.append_assoc] at hr
  unfold readTagNext
  rw [readBuffer_one r _ _ hr hc]
  simp only [bind, Except.bind, hr, byte_toNat h2, h3, if_false, hst]
  rw [readCode_enc ty tag h4 _ _ rfl]
  simp only [ofCode_code]
  rw [h5 _ _ rfl]
  simp only
  rw [readSize_enc ty value size hz _ s rfl]
  simp [pure, Except.pure, afterTag, hst]

theorem readTagNext_zero (r : R) (s : Str) (hc : CapOk r.io) (hr : r.rest = 0 :: s) :
    readTagNext r = .ok ({ r with rest := s, nextId := uintMax }, false) := by
  unfold readTagNext
  rw [readBuffer_one r _ _ hr hc]
  simp [bind, Except.bind, hr, pure, Except.pure]

end Verif.Pack
