import Verif.Wal.Model
import Verif.Num.Props

/-! # C04: WAL segment names follow the WAL address order -/

namespace Verif.Wal

open Verif.Num

/-! ## Specification

PostgreSQL (access/xlog_internal.h, `XLogFileName`) names the segment number `segno` of a timeline by the timeline,
`segno / segmentsPerXLogId` and `segno % segmentsPerXLogId`, each as eight upper case hexadecimal digits, where
`segmentsPerXLogId = 2^32 / wal_segment_size`; segment `segno` starts at position `segno * wal_segment_size`. -/

def hexChar (d : Nat) : UInt8 := if d < 10 then UInt8.ofNat (48 + d) else UInt8.ofNat (65 + (d - 10))

/-- The last `w` hexadecimal digits of `n`. -/
def hexDigits : (w : Nat) → (n : Nat) → List UInt8
  | 0, _ => []
  | w + 1, n => hexDigits w (n / 16) ++ [hexChar (n % 16)]

def xlogFileName (tli segno size : Nat) : List UInt8 :=
  hexDigits 8 tli ++ hexDigits 8 (segno / (2 ^ 32 / size)) ++ hexDigits 8 (segno % (2 ^ 32 / size))

/-- Segment sizes: divisors of 4GB other than one byte, i.e. powers of two from 2 to 4GB. PostgreSQL allows 1MB to
1GB, which `pgWalSegmentSizeCheck` (src/postgres/interface.c:172-187) enforces. -/
def SegSize (size : Nat) : Prop := 1 < size ∧ size ∣ 2 ^ 32

/-- Segments that lie inside the 64-bit WAL address space. -/
def InSpace (segno size : Nat) : Prop := (segno + 1) * size ≤ 2 ^ 64

def IsUpperHex (c : UInt8) : Prop := (0x30 ≤ c ∧ c ≤ 0x39) ∨ (0x41 ≤ c ∧ c ≤ 0x46)

/-! ## Lemmas: formatting -/

theorem hexChar_eq (d : Nat) : digitChar true d = hexChar d := rfl

theorem fmtPad_step (w n : Nat) (hw : 1 ≤ w) :
    fmtPad (w + 1) 16 true n = fmtPad w 16 true (n / 16) ++ [digitChar true (n % 16)] := by
  by_cases hn : n < 16
  · have h1 : fmt 16 true n = [digitChar true n] := by rw [fmt]; simp [hn]
    have h0 : fmt 16 true 0 = [0x30] := by rw [fmt]; simp [digitChar]
    have e1 : n / 16 = 0 := by omega
    have e2 : n % 16 = n := by omega
    unfold fmtPad
    rw [e1, e2, h1, h0]
    obtain ⟨v, rfl⟩ : ∃ v, w = v + 1 := ⟨w - 1, by omega⟩
    simp [List.replicate_succ']
  · have h1 : fmt 16 true n = fmt 16 true (n / 16) ++ [digitChar true (n % 16)] := by
      rw [fmt]; simp [hn]
    unfold fmtPad
    rw [h1]
    simp

theorem fmtPad_eq (w n : Nat) (hw : 1 ≤ w) (hn : n < 16 ^ w) : fmtPad w 16 true n = hexDigits w n := by
  induction w generalizing n with
  | zero => omega
  | succ w ih =>
    by_cases h : 1 ≤ w
    · rw [fmtPad_step w n h, ih (n / 16) h (by rw [Nat.pow_succ] at hn; omega)]
      rfl
    · have : w = 0 := by omega
      subst this
      have h1 : n < 16 := by simpa using hn
      have h2 : fmt 16 true n = [digitChar true n] := by rw [fmt]; simp [h1]
      unfold fmtPad
      rw [h2]
      simp [hexDigits, hexChar_eq, Nat.mod_eq_of_lt h1]

theorem hexDigits_length (w n : Nat) : (hexDigits w n).length = w := by
  induction w generalizing n with
  | zero => rfl
  | succ w ih => simp [hexDigits, ih]

theorem fmt8 (n : Nat) (hn : n < 2 ^ 32) : fmtPad 8 16 true n = hexDigits 8 n := fmtPad_eq 8 n (by decide) (by omega)

theorem numeral8 (n : Nat) (hn : n < 2 ^ 32) : Numeral 16 (hexDigits 8 n) n := by
  rw [← fmt8 n hn]; exact numeral_fmtPad 8 16 (by decide) (by decide) true n

theorem strtol32_hex (n : Nat) (hn : n < 2 ^ 32) : strtol32 (hexDigits 8 n) = n := by
  unfold strtol32
  rw [(strto_numeral 16 _ n (numeral8 n hn)).1]
  simp only [Bool.false_eq_true, if_false]
  omega

theorem take8 (a b c : Nat) : (hexDigits 8 a ++ hexDigits 8 b ++ hexDigits 8 c).take 8 = hexDigits 8 a := by
  rw [List.append_assoc, List.take_left' (hexDigits_length 8 a)]

theorem drop8 (a b c : Nat) : ((hexDigits 8 a ++ hexDigits 8 b ++ hexDigits 8 c).drop 8).take 8 = hexDigits 8 b := by
  rw [List.append_assoc, List.drop_left' (hexDigits_length 8 a), List.take_left' (hexDigits_length 8 b)]

theorem drop16 (a b c : Nat) : ((hexDigits 8 a ++ hexDigits 8 b ++ hexDigits 8 c).drop 16).take 8 = hexDigits 8 c := by
  rw [List.drop_left' (by simp [hexDigits_length])]
  rw [List.take_of_length_le (by simp [hexDigits_length])]

theorem segFmt_eq (t a b : Nat) (ht : t < 2 ^ 32) (ha : a < 2 ^ 32) (hb : b < 2 ^ 32) :
    segFmt t a b = hexDigits 8 t ++ hexDigits 8 a ++ hexDigits 8 b := by
  rw [segFmt, fmt8 t ht, fmt8 a ha, fmt8 b hb]

/-! ## Lemmas: segment arithmetic -/

theorem segsize_pos {size : Nat} (h : SegSize size) : 0 < size := by have := h.1; omega

/-- With `n` segments per 4GB: `size * n = 2^32`. -/
theorem segsize_mul {size : Nat} (h : SegSize size) : size * (2 ^ 32 / size) = 2 ^ 32 := Nat.mul_div_cancel' h.2

theorem per_pos {size : Nat} (h : SegSize size) : 0 < 2 ^ 32 / size :=
  Nat.div_pos (Nat.le_of_dvd (by decide) h.2) (segsize_pos h)

theorem per_le {size : Nat} : 2 ^ 32 / size ≤ 2 ^ 32 := Nat.div_le_self _ _

/-- `UINT32_MAX / size` is one less than the number of segments per 4GB. -/
theorem max_div {size : Nat} (h : SegSize size) : (2 ^ 32 - 1) / size = 2 ^ 32 / size - 1 := by
  have hp := segsize_pos h
  have hm := segsize_mul h
  have hn := per_pos h
  apply Nat.div_eq_of_lt_le
  · have : (2 ^ 32 / size - 1) * size = 2 ^ 32 - size := by rw [Nat.sub_mul, Nat.mul_comm, hm]; simp
    omega
  · have : (2 ^ 32 / size - 1 + 1) * size = 2 ^ 32 := by
      rw [Nat.sub_add_cancel hn, Nat.mul_comm, hm]
    omega

theorem max_mod {size : Nat} (h : SegSize size) : (2 ^ 32 - 1) % size = size - 1 := by
  have h1 := max_div h
  have h2 := Nat.div_add_mod (2 ^ 32 - 1) size
  rw [h1, Nat.mul_sub, segsize_mul h] at h2
  have := segsize_pos h
  have : size ≤ 2 ^ 32 := Nat.le_of_dvd (by decide) h.2
  omega

theorem major_lt {size segno : Nat} (h : SegSize size) (hs : InSpace segno size) :
    segno / (2 ^ 32 / size) < 2 ^ 32 := by
  rw [Nat.div_lt_iff_lt_mul (per_pos h)]
  have hm := segsize_mul h
  have hp := segsize_pos h
  unfold InSpace at hs
  by_contra hc
  have : 2 ^ 32 * (2 ^ 32 / size) * size < (segno + 1) * size := Nat.mul_lt_mul_of_pos_right (by omega) hp
  have h2 : 2 ^ 32 * (2 ^ 32 / size) * size = 2 ^ 64 := by rw [Nat.mul_assoc, Nat.mul_comm _ size, hm]; rfl
  omega

theorem minor_lt {size segno : Nat} (h : SegSize size) : segno % (2 ^ 32 / size) < 2 ^ 32 :=
  Nat.lt_of_lt_of_le (Nat.mod_lt _ (per_pos h)) per_le

theorem nextPart_eq {size segno : Nat} (h : SegSize size) (hs : InSpace (segno + 1) size) :
    nextPart size (segno / (2 ^ 32 / size)) (segno % (2 ^ 32 / size)) =
      ((segno + 1) / (2 ^ 32 / size), (segno + 1) % (2 ^ 32 / size)) := by
  have hp := per_pos h
  have hle : 2 ^ 32 / size ≤ 2 ^ 32 := per_le
  have hmax := max_div h
  have hmaj := major_lt h hs
  unfold nextPart
  rw [hmax]
  generalize hn : 2 ^ 32 / size = n at *
  have hmod := Nat.mod_lt segno hp
  by_cases hlast : segno % n = n - 1
  · -- last segment of a 4GB block
    have e1 : (segno + 1) / n = segno / n + 1 := by
      have h1 := Nat.div_add_mod segno n
      have : segno + 1 = n * (segno / n + 1) := by rw [Nat.mul_add]; omega
      rw [this, Nat.mul_div_cancel_left _ hp]
    have e2 : (segno + 1) % n = 0 := by
      have h1 := Nat.div_add_mod segno n
      have : segno + 1 = n * (segno / n + 1) := by rw [Nat.mul_add]; omega
      rw [this, Nat.mul_mod_right]
    by_cases hn1 : n = 2 ^ 32
    · -- only for a segment size of one byte
      exfalso
      have : size = 1 := by
        have := segsize_mul h
        rw [hn, hn1] at this
        omega
      have := h.1
      omega
    · simp only
      rw [if_pos (by omega), e2, Nat.mod_eq_of_lt (by omega), e1]
  · have e1 : (segno + 1) / n = segno / n := by
      have h1 := Nat.div_add_mod segno n
      apply Nat.div_eq_of_lt_le
      · rw [Nat.mul_comm]; omega
      · rw [Nat.add_mul, Nat.mul_comm]; omega
    have e2 : (segno + 1) % n = segno % n + 1 := by
      have h1 := Nat.div_add_mod segno n
      have h2 := Nat.div_add_mod (segno + 1) n
      rw [e1] at h2; omega
    simp only
    rw [Nat.mod_eq_of_lt (by omega), if_neg (by omega), e1, e2]

/-! ## Theorems: successor and ranges -/

theorem xlog_length (tli segno size : Nat) : (xlogFileName tli segno size).length = 24 := by
  simp [xlogFileName, hexDigits_length]

theorem timelineOf_eq (tli segno size : Nat) (ht : tli < 2 ^ 32) : timelineOf (xlogFileName tli segno size) = .ok tli := by
  unfold timelineOf
  rw [if_neg (by simp [xlog_length]), xlogFileName, take8, (c51_numeral 16 _ tli (numeral8 tli ht)).2.1, if_pos ht]

/-- The segment after segment number `segno` is segment number `segno + 1` of the same timeline. -/
theorem c04_next (tli segno size : Nat) (ht : tli < 2 ^ 32) (h : SegSize size) (hs : InSpace (segno + 1) size) :
    next (xlogFileName tli segno size) size = .ok (xlogFileName tli (segno + 1) size) := by
  have hs' : InSpace segno size := by
    unfold InSpace at *
    have : (segno + 1) * size ≤ (segno + 1 + 1) * size := Nat.mul_le_mul_right _ (by omega)
    omega
  unfold next
  rw [if_neg (by have := segsize_pos h; rw [xlog_length]; omega), if_neg (by rw [max_mod h]; simp)]
  rw [timelineOf_eq tli segno size ht]
  simp only [bind, Except.bind, pure, Except.pure]
  rw [xlogFileName, drop8, drop16, strtol32_hex _ (major_lt h hs'), strtol32_hex _ (minor_lt h), nextPart_eq h hs,
    segFmt_eq _ _ _ ht (major_lt h hs) (minor_lt h)]
  rfl

example : SegSize (16 * 1024 * 1024) ∧ InSpace (0x1FE + 1) (16 * 1024 * 1024) :=
  ⟨⟨by decide, ⟨256, by decide⟩⟩, by unfold InSpace; decide⟩

/-- A range of `n` segments is the `n` consecutive segments, none missing and none repeated. -/
theorem c04_range (tli segno size n : Nat) (ht : tli < 2 ^ 32) (h : SegSize size) (hn : 0 < n)
    (hs : InSpace (segno + n - 1) size) :
    range (xlogFileName tli segno size) size n =
      .ok ((List.range n).map (fun i => xlogFileName tli (segno + i) size)) := by
  have key : ∀ m k, InSpace (k + m) size → rangeLoop size m (xlogFileName tli k size) =
      .ok ((List.range m).map (fun i => xlogFileName tli (k + (i + 1)) size)) := by
    intro m
    induction m with
    | zero => intro k _; rfl
    | succ m ih =>
      intro k hk
      have hk1 : InSpace (k + 1) size := by
        unfold InSpace at *
        have : (k + 1 + 1) * size ≤ (k + (m + 1) + 1) * size := Nat.mul_le_mul_right _ (by omega)
        omega
      simp only [rangeLoop]
      rw [c04_next tli k size ht h hk1]
      simp only [bind, Except.bind, pure, Except.pure]
      rw [ih (k + 1) (by rw [show k + 1 + m = k + (m + 1) by omega]; exact hk)]
      simp only [List.range_succ_eq_map, List.map_cons, List.map_map]
      congr 2
      apply List.map_congr_left
      intro i _
      simp only [Function.comp, Nat.succ_eq_add_one]
      congr 1; omega
  unfold range
  rw [if_neg (by omega), key (n - 1) segno (by rw [show segno + (n - 1) = segno + n - 1 by omega]; exact hs)]
  simp only [bind, Except.bind, pure, Except.pure]
  obtain ⟨m, rfl⟩ : ∃ m, n = m + 1 := ⟨n - 1, by omega⟩
  simp only [Nat.add_sub_cancel, List.range_succ_eq_map, List.map_cons, List.map_map, Nat.add_zero]
  rfl

/-- A position belongs to the segment whose number is the position divided by the segment size. -/
theorem c04_lsn_segment (tli lsn size : Nat) (ht : tli < 2 ^ 32) (h : SegSize size) (hl : lsn < 2 ^ 64) :
    lsnToSegment tli lsn size = xlogFileName tli (lsn / size) size := by
  have hm := segsize_mul h
  have hp := segsize_pos h
  have e1 : lsn / size / (2 ^ 32 / size) = lsn / 2 ^ 32 := by rw [Nat.div_div_eq_div_mul, hm]
  have e2 : lsn / size % (2 ^ 32 / size) = lsn % 2 ^ 32 / size := by
    have := Nat.mod_mul_right_div_self lsn size (2 ^ 32 / size)
    rw [hm] at this
    exact this.symm
  unfold lsnToSegment xlogFileName
  rw [e1, e2, Nat.mod_eq_of_lt (by omega), segFmt_eq _ _ _ ht (by omega)]
  exact Nat.lt_of_le_of_lt (Nat.div_le_self _ _) (Nat.mod_lt _ (by decide))

theorem inSpace_of_lsn {size lsn : Nat} (h : SegSize size) (hl : lsn < 2 ^ 64) : InSpace (lsn / size) size := by
  have hm := segsize_mul h
  have hp := segsize_pos h
  unfold InSpace
  have h1 : lsn / size < 2 ^ 32 * (2 ^ 32 / size) := by
    rw [Nat.div_lt_iff_lt_mul hp, Nat.mul_assoc, Nat.mul_comm _ size, hm]; exact hl
  calc (lsn / size + 1) * size ≤ 2 ^ 32 * (2 ^ 32 / size) * size := Nat.mul_le_mul_right _ h1
    _ = 2 ^ 64 := by rw [Nat.mul_assoc, Nat.mul_comm _ size, hm]; rfl

/-- The segments of a position range are exactly the segments from the one with the start position to the one with
the stop position, in order; the loop ends after as many iterations as there are segments. -/
theorem c04_lsn_range (tli start stop size fuel : Nat) (ht : tli < 2 ^ 32) (ht0 : tli ≠ 0) (h : SegSize size)
    (hle : start ≤ stop) (hl : stop < 2 ^ 64) (hf : stop / size - start / size ≤ fuel) :
    lsnRange fuel tli start stop size = .ok (some ((List.range (stop / size - start / size + 1)).map
      (fun i => xlogFileName tli (start / size + i) size))) := by
  have hm := segsize_mul h
  have hp := segsize_pos h
  have part : ∀ lsn, lsn < 2 ^ 64 → lsn / 2 ^ 32 % 2 ^ 32 = lsn / size / (2 ^ 32 / size) ∧
      lsn % 2 ^ 32 / size = lsn / size % (2 ^ 32 / size) := by
    intro lsn hlsn
    constructor
    · rw [Nat.div_div_eq_div_mul, hm, Nat.mod_eq_of_lt (by omega)]
    · have := Nat.mod_mul_right_div_self lsn size (2 ^ 32 / size)
      rw [hm] at this
      exact this
  obtain ⟨s1, s2⟩ := part start (by omega)
  obtain ⟨t1, t2⟩ := part stop hl
  have hseg : start / size ≤ stop / size := Nat.div_le_div_right hle
  have hsp := inSpace_of_lsn h hl
  unfold lsnRange
  rw [if_neg (by omega)]
  simp only [s1, s2, t1, t2]
  generalize start / size = a at *
  generalize stop / size = b at *
  have inj : ∀ k, k / (2 ^ 32 / size) = b / (2 ^ 32 / size) ∧ k % (2 ^ 32 / size) = b % (2 ^ 32 / size) ↔ k = b := by
    intro k
    constructor
    · rintro ⟨h1, h2⟩
      rw [← Nat.div_add_mod k (2 ^ 32 / size), ← Nat.div_add_mod b (2 ^ 32 / size), h1, h2]
    · rintro rfl; exact ⟨rfl, rfl⟩
  have key : ∀ d k fuel, k + d = b → d ≤ fuel →
      lsnRangeLoop tli ((2 ^ 32 - 1) / size) (b / (2 ^ 32 / size)) (b % (2 ^ 32 / size)) fuel
        (k / (2 ^ 32 / size)) (k % (2 ^ 32 / size)) =
      some ((List.range d).map (fun i => xlogFileName tli (k + (i + 1)) size)) := by
    intro d
    induction d with
    | zero =>
      intro k fuel hk _
      have hk' : k = b := by omega
      subst hk'
      cases fuel <;> simp [lsnRangeLoop]
    | succ d ih =>
      intro k fuel hk hd
      cases fuel with
      | zero => omega
      | succ fuel =>
        have hin : InSpace (k + 1) size := by
          unfold InSpace at *
          have : (k + 1 + 1) * size ≤ (b + 1) * size := Nat.mul_le_mul_right _ (by omega)
          omega
        have hnx := nextPart_eq h hin
        unfold nextPart at hnx
        simp only [lsnRangeLoop]
        rw [if_neg (by rw [inj]; omega)]
        simp only at hnx
        rw [hnx]
        simp only
        rw [ih (k + 1) fuel (by omega) (by omega), segFmt_eq _ _ _ ht (major_lt h hin) (minor_lt h)]
        simp only [Option.map_some, List.range_succ_eq_map, List.map_cons, List.map_map]
        congr 2
        apply List.map_congr_left
        intro i _
        simp only [Function.comp, Nat.succ_eq_add_one]
        congr 1; omega
  have hina : InSpace a size := by
    unfold InSpace at *
    have : (a + 1) * size ≤ (b + 1) * size := Nat.mul_le_mul_right _ (by omega)
    omega
  rw [key (b - a) a fuel (by omega) hf, segFmt_eq _ _ _ ht (major_lt h hina) (minor_lt h)]
  simp only [Option.map_some, List.range_succ_eq_map, List.map_cons, List.map_map, Nat.add_zero]
  rfl

/-! ## Theorems: names -/

theorem hexChar_lt (a b : Nat) (ha : a < 16) (hb : b < 16) : hexChar a < hexChar b ↔ a < b := by
  have : ∀ a b : Fin 16, hexChar a < hexChar b ↔ a.1 < b.1 := by decide +kernel
  exact this ⟨a, ha⟩ ⟨b, hb⟩

theorem hexChar_inj (a b : Nat) (ha : a < 16) (hb : b < 16) : hexChar a = hexChar b ↔ a = b := by
  have : ∀ a b : Fin 16, hexChar a = hexChar b ↔ a.1 = b.1 := by decide +kernel
  exact this ⟨a, ha⟩ ⟨b, hb⟩

theorem lt_append (p q x y : List UInt8) (h : p.length = q.length) :
    p ++ x < q ++ y ↔ p < q ∨ (p = q ∧ x < y) := by
  induction p generalizing q with
  | nil =>
    have : q = [] := by simpa using h.symm
    subst this; simp
  | cons a p ih =>
    cases q with
    | nil => simp at h
    | cons b q =>
      simp only [List.cons_append, List.cons_lt_cons_iff, ih q (by simpa using h), List.cons.injEq]
      tauto

theorem hexDigits_inj (w a b : Nat) (ha : a < 16 ^ w) (hb : b < 16 ^ w) : hexDigits w a = hexDigits w b ↔ a = b := by
  induction w generalizing a b with
  | zero => simp at ha hb; simp [hexDigits, ha, hb]
  | succ w ih =>
    rw [Nat.pow_succ] at ha hb
    constructor
    · intro h
      obtain ⟨h1, h2⟩ := List.append_inj h (by simp [hexDigits_length])
      rw [ih _ _ (by omega) (by omega)] at h1
      simp only [List.cons.injEq, and_true] at h2
      rw [hexChar_inj _ _ (by omega) (by omega)] at h2
      omega
    · rintro rfl; rfl

theorem hexDigits_lt (w a b : Nat) (ha : a < 16 ^ w) (hb : b < 16 ^ w) : hexDigits w a < hexDigits w b ↔ a < b := by
  induction w generalizing a b with
  | zero => simp at ha hb; simp [hexDigits, ha, hb]
  | succ w ih =>
    rw [Nat.pow_succ] at ha hb
    rw [hexDigits, hexDigits, lt_append _ _ _ _ (by simp [hexDigits_length]), ih _ _ (by omega) (by omega),
      hexDigits_inj _ _ _ (by omega) (by omega)]
    simp only [List.cons_lt_cons_iff, List.not_lt_nil, and_false, or_false]
    rw [hexChar_lt _ _ (by omega) (by omega)]
    omega

theorem lex_div (s1 s2 n : Nat) : s1 < s2 ↔ s1 / n < s2 / n ∨ (s1 / n = s2 / n ∧ s1 % n < s2 % n) := by
  have d1 := Nat.div_add_mod s1 n
  have d2 := Nat.div_add_mod s2 n
  constructor
  · intro hlt
    rcases Nat.lt_or_ge (s1 / n) (s2 / n) with hd | hd
    · exact Or.inl hd
    · right
      have : s1 / n ≤ s2 / n := Nat.div_le_div_right (by omega)
      have e : s1 / n = s2 / n := by omega
      refine ⟨e, ?_⟩
      rw [e] at d1; omega
  · rintro (hd | ⟨hd, hm⟩)
    · by_contra hc
      have : s2 / n ≤ s1 / n := Nat.div_le_div_right (by omega)
      omega
    · rw [hd] at d1; omega

theorem three_order (t1 a1 b1 t2 a2 b2 : Nat) (h1 : t1 < 16 ^ 8) (h2 : t2 < 16 ^ 8) (h3 : a1 < 16 ^ 8)
    (h4 : a2 < 16 ^ 8) (h5 : b1 < 16 ^ 8) (h6 : b2 < 16 ^ 8) :
    hexDigits 8 t1 ++ hexDigits 8 a1 ++ hexDigits 8 b1 < hexDigits 8 t2 ++ hexDigits 8 a2 ++ hexDigits 8 b2 ↔
      t1 < t2 ∨ (t1 = t2 ∧ (a1 < a2 ∨ (a1 = a2 ∧ b1 < b2))) := by
  rw [List.append_assoc, List.append_assoc, lt_append _ _ _ _ (by simp [hexDigits_length]),
    lt_append _ _ _ _ (by simp [hexDigits_length]), hexDigits_lt 8 _ _ h1 h2, hexDigits_lt 8 _ _ h3 h4,
    hexDigits_lt 8 _ _ h5 h6, hexDigits_inj 8 _ _ h1 h2, hexDigits_inj 8 _ _ h3 h4]

/-- Names are ordered (character by character, as the code sorts and compares them) by timeline first and then by
segment number, so within a timeline by WAL position. -/
theorem c04_name_order (t1 t2 s1 s2 size : Nat) (h1 : t1 < 2 ^ 32) (h2 : t2 < 2 ^ 32) (h : SegSize size)
    (hs1 : InSpace s1 size) (hs2 : InSpace s2 size) :
    xlogFileName t1 s1 size < xlogFileName t2 s2 size ↔ t1 < t2 ∨ (t1 = t2 ∧ s1 < s2) := by
  have e : (2 : Nat) ^ 32 = 16 ^ 8 := by decide
  unfold xlogFileName
  rw [three_order _ _ _ _ _ _ (e ▸ h1) (e ▸ h2) (e ▸ major_lt h hs1) (e ▸ major_lt h hs2) (e ▸ minor_lt h)
    (e ▸ minor_lt h), ← lex_div]

/-- Different segments have different names. -/
theorem c04_name_injective (t1 t2 s1 s2 size : Nat) (h1 : t1 < 2 ^ 32) (h2 : t2 < 2 ^ 32) (h : SegSize size)
    (hs1 : InSpace s1 size) (hs2 : InSpace s2 size) (he : xlogFileName t1 s1 size = xlogFileName t2 s2 size) :
    t1 = t2 ∧ s1 = s2 := by
  have a := c04_name_order t1 t2 s1 s2 size h1 h2 h hs1 hs2
  have b := c04_name_order t2 t1 s2 s1 size h2 h1 h hs2 hs1
  rw [he] at a
  rw [he] at b
  have irr : ¬ xlogFileName t2 s2 size < xlogFileName t2 s2 size := List.lt_irrefl _
  rw [iff_false_left irr] at a
  rw [iff_false_left irr] at b
  omega

/-- Every segment name is 24 upper case hexadecimal digits and is recognised as a segment. -/
theorem c04_name_valid (tli segno size : Nat) :
    (xlogFileName tli segno size).length = 24 ∧ (∀ c ∈ xlogFileName tli segno size, IsUpperHex c) ∧
      matchSegment (xlogFileName tli segno size) = true ∧ isSegment (xlogFileName tli segno size) = true := by
  have hd : ∀ w n, ∀ c ∈ hexDigits w n, IsUpperHex c := by
    have : ∀ d : Fin 16, (0x30 ≤ hexChar d ∧ hexChar d ≤ 0x39) ∨ (0x41 ≤ hexChar d ∧ hexChar d ≤ 0x46) := by
      decide +kernel
    intro w
    induction w with
    | zero => intro n c hc; simp [hexDigits] at hc
    | succ w ih =>
      intro n c hc
      simp only [hexDigits, List.mem_append, List.mem_singleton] at hc
      rcases hc with hc | rfl
      · exact ih _ _ hc
      · exact this ⟨n % 16, Nat.mod_lt _ (by decide)⟩
  have hall : ∀ c ∈ xlogFileName tli segno size, IsUpperHex c := by
    intro c hc
    simp only [xlogFileName, List.mem_append] at hc
    rcases hc with (hc | hc) | hc <;> exact hd _ _ _ hc
  have hrange : (xlogFileName tli segno size).all rangeChar = true := by
    rw [List.all_eq_true]
    intro c hc
    have := hall c hc
    unfold IsUpperHex at this
    simp only [UInt8.le_iff_toNat_le] at this
    simp only [rangeChar, Bool.and_eq_true, decide_eq_true_eq, UInt8.le_iff_toNat_le]
    simp only [UInt8.reduceToNat] at *
    omega
  refine ⟨xlog_length _ _ _, hall, ?_, ?_⟩
  · simp [matchSegment, xlog_length, hrange]
  · have ht : (xlogFileName tli segno size).take 24 = xlogFileName tli segno size :=
      List.take_of_length_le (by rw [xlog_length])
    have hdr : (xlogFileName tli segno size).drop 24 = [] := List.drop_of_length_le (by rw [xlog_length])
    simp [isSegment, ht, hdr, xlog_length, hrange]

/-- Observation: `[0-F]` also contains the characters between `9` and `A`, so a name that is not hexadecimal is
recognised as a WAL segment. -/
theorem c04_regexp_accepts_non_hex :
    isSegment ([0x30, 0x30, 0x30, 0x30, 0x30, 0x30, 0x30, 0x31] ++ [0x30, 0x30, 0x30, 0x30, 0x30, 0x30, 0x30, 0x31] ++
      [0x30, 0x30, 0x30, 0x30, 0x30, 0x30, 0x30, 0x3a]) = true ∧ ¬ IsUpperHex 0x3a := by
  refine ⟨by decide, ?_⟩
  unfold IsUpperHex; decide

/-! ## Theorems: positions as text -/

theorem split_none (d : UInt8) (s : List UInt8) (h : d ∉ s) : split d s = [s] := by
  induction s with
  | nil => rfl
  | cons c s ih =>
    simp only [List.mem_cons, not_or] at h
    simp [split, ih h.2, Ne.symm h.1]

theorem split_one (d : UInt8) (a b : List UInt8) (ha : d ∉ a) (hb : d ∉ b) : split d (a ++ [d] ++ b) = [a, b] := by
  induction a with
  | nil => simp [split, split_none d b hb]
  | cons c a ih =>
    simp only [List.mem_cons, not_or] at ha
    simp only [List.cons_append, split]
    rw [if_neg (Ne.symm ha.1)]
    rw [ih ha.2]

theorem fmt_no_slash (n : Nat) : (0x2f : UInt8) ∉ fmt 16 false n := by
  intro hm
  obtain ⟨_, ds, hds, _⟩ := numeral_fmt 16 (by decide) (by decide) false n
  have : digitOf 16 0x2f ∈ (fmt 16 false n).map (digitOf 16) := List.mem_map_of_mem hm
  rw [hds] at this
  obtain ⟨d, _, hd⟩ := List.mem_map.mp this
  have : digitOf 16 0x2f = none := by decide
  rw [this] at hd; simp at hd

/-- A WAL position is read back from its text. -/
theorem c04_lsn_text_roundtrip (lsn : Nat) (h : lsn < 2 ^ 64) : lsnFromStr (lsnToStr lsn) = .ok lsn := by
  unfold lsnFromStr lsnToStr
  rw [split_one _ _ _ (fmt_no_slash _) (fmt_no_slash _)]
  simp only
  rw [(c51_uint_roundtrip (lsn / 2 ^ 32 % 2 ^ 32) (by omega) false 0).2.2,
    (c51_uint_roundtrip (lsn % 2 ^ 32) (by omega) false 0).2.2]
  simp only [bind, Except.bind, pure, Except.pure]
  congr 1; omega

/-- Observation: the parts of a position are not limited to 32 bits each, so out of range text is accepted with
a wrapped value instead of being rejected: `1/100000000` and `2/0` are the same position. -/
theorem c04_lsn_text_wraps :
    lsnFromStr [0x31, 0x2f, 0x31, 0x30, 0x30, 0x30, 0x30, 0x30, 0x30, 0x30, 0x30] = .ok (2 * 2 ^ 32) ∧
    lsnFromStr [0x32, 0x2f, 0x30] = .ok (2 * 2 ^ 32) := by decide +kernel

end Verif.Wal
