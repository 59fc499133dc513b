import Verif.Manifest.PackModel
import Verif.Varint.Props
import Mathlib.Data.List.Forall2

/-! # The packed file list keeps files as they are (C36) -/

namespace Verif.Manifest

open Verif

/-! ## Specification -/

/-- What the writer keeps up: checksums have the size of a checksum, the block size is a multiple of the factor,
there is no part of a bundle or of block incremental data without the other parts, and times are not extreme. -/
structure Valid (f : File) : Prop where
  sum : ∀ s, f.checksumSha1 = some s → s.length = 20
  sumRepo : ∀ s, f.checksumRepoSha1 = some s → s.length = 20
  factor : f.blockIncrSize.toNat % 8192 = 0
  block : f.blockIncrSize = 0 → f.blockIncrChecksumSize = 0 ∧ f.blockIncrMapSize = 0
  bundle : f.bundleId = 0 → f.bundleOffset = 0
  time : -2 ^ 62 ≤ f.timestamp.toInt ∧ f.timestamp.toInt < 2 ^ 62

/-- The strings of a file that are kept by index are in the lists. -/
structure Known (e : Env) (f : File) : Prop where
  user : ∀ u, f.user = some u → u ∈ e.owners
  group : ∀ g, f.group = some g → g ∈ e.owners
  reference : ∀ r, f.reference = some r → r ∈ e.references

/-- Lists are of a size that `unsigned int` can hold, the base time is not extreme. -/
structure Fit (e : Env) : Prop where
  owners : e.owners.length < 2 ^ 32
  references : e.references.length < 2 ^ 32
  base : -2 ^ 62 ≤ e.base.toInt ∧ e.base.toInt < 2 ^ 62

/-- An owner that is the default of `e` is replaced by the default of `e'`. -/
def redefault (d d' : Option Str) (o : Option Str) : Option Str := if o.isSome ∧ o = d then d' else o

/-- The file when the defaults of `e` are replaced by the ones of `e'`. -/
def follow (e e' : Env) (f : File) : File :=
  { f with
    user := redefault e.userDefault e'.userDefault f.user
    group := redefault e.groupDefault e'.groupDefault f.group
    mode := if f.mode = e.modeDefault then e'.modeDefault else f.mode }

/-- A later state of the same manifest: strings are only added and the base time stays what packing set. -/
structure Later (e e' : Env) (base : Int64) : Prop where
  owners : e.owners <+: e'.owners
  references : e.references <+: e'.references
  base : e'.base = base

/-! ## Flags -/

theorem bit_nat (flag : UInt64) (n : Nat) (h : n < 64) : bit flag n = flag.toNat.testBit n := by
  unfold bit
  have hn : (UInt64.ofNat n).toNat = n := UInt64.toNat_ofNat_of_lt' (by simp [UInt64.size]; omega)
  have e : ((flag >>> UInt64.ofNat n) &&& 1).toNat = flag.toNat / 2 ^ n % 2 := by
    rw [UInt64.toNat_and, UInt64.toNat_shiftRight, hn, Nat.mod_eq_of_lt h, Nat.shiftRight_eq_div_pow]
    exact Nat.and_one_is_mod _
  rw [Nat.testBit_eq_decide_div_mod_eq, ← e]
  have h2 : (((flag >>> UInt64.ofNat n) &&& 1).toNat) < 2 := by rw [e]; omega
  rw [Bool.eq_iff_iff, bne_iff_ne, decide_eq_true_iff, Ne, ← UInt64.toNat_inj]
  have : (0 : UInt64).toNat = 0 := rfl
  rw [this]; omega

theorem one_shift (n : Nat) (h : n < 64) : ((1 : UInt64) <<< UInt64.ofNat n).toNat = 2 ^ n := by
  have hn : (UInt64.ofNat n).toNat = n := UInt64.toNat_ofNat_of_lt' (by simp [UInt64.size]; omega)
  rw [UInt64.toNat_shiftLeft, hn, Nat.mod_eq_of_lt h, Nat.shiftLeft_eq]
  have : (1 : UInt64).toNat = 1 := rfl
  rw [this, Nat.one_mul, Nat.mod_eq_of_lt (Nat.pow_lt_pow_right (by omega) h)]

theorem has_nat (flag : UInt64) (n : Nat) (h : n < 64) : has flag n = flag.toNat.testBit n := by
  unfold has
  rw [Bool.eq_iff_iff, bne_iff_ne, Ne, ← UInt64.toNat_inj, UInt64.toNat_and, one_shift n h]
  have : (0 : UInt64).toNat = 0 := rfl
  rw [this]
  constructor
  · intro h'
    cases ht : flag.toNat.testBit n with
    | true => rfl
    | false =>
      refine absurd ?_ h'
      apply Nat.eq_of_testBit_eq
      intro i
      rw [Nat.testBit_and, Nat.testBit_two_pow, Nat.zero_testBit]
      by_cases hi : n = i
      · rw [← hi, ht]; rfl
      · simp [hi]
  · intro ht h'
    have : (flag.toNat &&& 2 ^ n).testBit n = true := by rw [Nat.testBit_and, ht, Nat.testBit_two_pow]; simp
    rw [h'] at this; simp at this

theorem testBit_setIf (c : Bool) (m : Nat) (flag : UInt64) (n : Nat) (hm : m < 64) :
    (setIf c m flag).toNat.testBit n = ((c && decide (m = n)) || flag.toNat.testBit n) := by
  unfold setIf
  cases c with
  | false => simp
  | true =>
    simp only [if_true, Bool.true_and]
    rw [UInt64.toNat_or, Nat.testBit_or, one_shift m hm, Nat.testBit_two_pow, Bool.or_comm]

/-! ## Parts of the data -/

/-- What `w` writes is read by `r` as `v`, and has at most `k` bytes. -/
def Codec {α : Type} (w : List UInt8 → Res (List UInt8)) (r : List UInt8 → Res (α × List UInt8)) (v : α) (k : Nat) :
    Prop :=
  ∃ bs : List UInt8, bs.length ≤ k ∧ (∀ buf, buf.length + k ≤ 512 → w buf = .ok (buf ++ bs)) ∧
    ∀ s, r (bs ++ s) = .ok (v, s)

theorem codec_put (v : UInt64) : Codec (put v) get v 10 := by
  have hlen : (Varint.enc v.toNat).length ≤ 10 :=
    Varint.enc_length_le 9 _ (by have := v.toNat_lt; norm_num; omega)
  obtain ⟨bs, h1, _, _, _, _, h6⟩ := Varint.c01_write_read v [] 10 (by simp)
  have hb : bs = Varint.enc v.toNat := by
    rw [Varint.write_eq, if_pos (by simpa using hlen)] at h1
    simpa using (Except.ok.inj h1).symm
  refine ⟨bs, by rw [hb]; exact hlen, ?_, ?_⟩
  · intro buf h
    unfold put bufferSize
    rw [Varint.write_eq, if_pos (by omega), hb]
  · intro s
    unfold get
    rw [h6 s]

theorem codec_putIf (c : Bool) (v : UInt64) :
    ∃ bs : List UInt8, bs.length ≤ 10 ∧ (∀ buf, buf.length + 10 ≤ 512 → putIf c v buf = .ok (buf ++ bs)) ∧
      ∀ d s, getIf c d (bs ++ s) = .ok (if c then v else d, s) := by
  cases c with
  | true =>
    obtain ⟨bs, h1, h2, h3⟩ := codec_put v
    exact ⟨bs, h1, fun buf hb => by simpa [putIf] using h2 buf hb, fun d s => by simpa [getIf] using h3 s⟩
  | false =>
    refine ⟨[], by simp, ?_, ?_⟩
    · intro buf _; simp [putIf]
    · intro d s; simp [getIf]

theorem codec_sum (s : Option (List UInt8)) (h : ∀ x, s = some x → x.length = 20) :
    Codec (putSum s) (getSum s.isSome) s 20 := by
  cases s with
  | none =>
    refine ⟨[], by simp, ?_, ?_⟩
    · intro buf _; simp [putSum]
    · intro s; simp [getSum]
  | some x =>
    have hx := h x rfl
    refine ⟨x, by omega, ?_, ?_⟩
    · intro buf hb
      show (if x.length < sha1Size ∨ bufferSize < buf.length + sha1Size then Except.error Err.ub
        else Except.ok (buf ++ x.take 20)) = _
      rw [if_neg (by unfold sha1Size bufferSize; omega)]
      rw [List.take_of_length_le (by omega)]
    · intro s
      show (if (x ++ s).length < sha1Size then Except.error Err.ub
        else Except.ok (some ((x ++ s).take 20), (x ++ s).drop 20)) = _
      rw [if_neg (by unfold sha1Size; rw [List.length_append]; omega)]
      rw [List.take_append_of_le_length (by omega), List.drop_append_of_le_length (by omega),
        List.take_of_length_le (by omega), List.drop_of_length_le (by omega), List.nil_append]

theorem findIdx_spec (l : List Str) (s : Str) (h : s ∈ l) :
    ∃ i, l.findIdx? (· == s) = some i ∧ i < l.length ∧ l[i]? = some s := by
  cases hf : l.findIdx? (· == s) with
  | none =>
    rw [List.findIdx?_eq_none_iff] at hf
    exact absurd (hf s h) (by simp)
  | some i =>
    rw [List.findIdx?_eq_some_iff_getElem] at hf
    obtain ⟨hi, he, _⟩ := hf
    refine ⟨i, rfl, hi, ?_⟩
    rw [List.getElem?_eq_getElem hi]
    simpa using he

theorem codec_idx (c : Bool) (l : List Str) (s : Option Str) (hc : c = true → s.isSome = true)
    (h : ∀ x, s = some x → x ∈ l) :
    ∃ bs : List UInt8, bs.length ≤ 10 ∧ (∀ buf, buf.length + 10 ≤ 512 → putIdxIf c l s buf = .ok (buf ++ bs)) ∧
      ∀ l', l <+: l' → l'.length < 2 ^ 32 →
        ∀ d t, getIdxIf c l' d (bs ++ t) = .ok (if c then s else d, t) := by
  cases c with
  | false =>
    refine ⟨[], by simp, ?_, ?_⟩
    · intro buf _; simp [putIdxIf]
    · intro l' _ _ d s; simp [getIdxIf]
  | true =>
    cases s with
    | none => exact absurd (hc rfl) (by simp)
    | some x =>
      obtain ⟨i, h1, h2, h3⟩ := findIdx_spec l x (h x rfl)
      obtain ⟨bs, hb1, hb2, hb3⟩ := codec_put (UInt64.ofNat i)
      refine ⟨bs, hb1, ?_, ?_⟩
      · intro buf hb
        simp only [putIdxIf, if_true, findIdx, h1]
        exact hb2 buf hb
      · intro l' hp hl d s
        have hle := hp.length_le
        simp only [getIdxIf, if_true, hb3 s]
        have hi : (UInt64.ofNat i).toUInt32.toNat = i := by
          rw [UInt64.toNat_toUInt32, UInt64.toNat_ofNat_of_lt' (by simp [UInt64.size]; omega)]
          exact Nat.mod_eq_of_lt (by omega)
        have hg : l'[i]? = some x := by
          obtain ⟨t, rfl⟩ := hp
          rw [List.getElem?_append_left h2, h3]
        show (match l'[(UInt64.ofNat i).toUInt32.toNat]? with
          | some s' => Except.ok (some s', s)
          | none => Except.error Err.assert) = Except.ok (some x, s)
        rw [hi, hg]

theorem codec_bundle (f : File) (h : f.bundleId = 0 → f.bundleOffset = 0) :
    Codec (putBundle (f.bundleId != 0) f) (getBundle (f.bundleId != 0)) (f.bundleId, f.bundleOffset) 20 := by
  by_cases hz : f.bundleId = 0
  · refine ⟨[], by simp, ?_, ?_⟩
    · intro buf _; simp [putBundle, hz]
    · intro s; simp [getBundle, hz, h hz]
  · obtain ⟨b1, h1, h2, h3⟩ := codec_put f.bundleId
    obtain ⟨b2, g1, g2, g3⟩ := codec_put f.bundleOffset
    have hc : (f.bundleId != 0) = true := by simpa using hz
    refine ⟨b1 ++ b2, by simp; omega, ?_, ?_⟩
    · intro buf hb
      simp only [putBundle, hc, if_true, h2 buf (by omega)]
      show put f.bundleOffset (buf ++ b1) = _
      rw [g2 (buf ++ b1) (by simp; omega), List.append_assoc]
    · intro s
      simp only [getBundle, hc, if_true]
      rw [List.append_assoc, h3]
      show (do let (b, rest) ← get (b2 ++ s); Except.ok ((f.bundleId, b), rest)) = _
      rw [g3]; rfl

theorem codec_block (f : File) (hf : f.blockIncrSize.toNat % 8192 = 0)
    (h : f.blockIncrSize = 0 → f.blockIncrChecksumSize = 0 ∧ f.blockIncrMapSize = 0) :
    Codec (putBlock (f.blockIncrSize != 0) f) (getBlock (f.blockIncrSize != 0))
      (f.blockIncrSize, f.blockIncrChecksumSize, f.blockIncrMapSize) 30 := by
  by_cases hz : f.blockIncrSize = 0
  · refine ⟨[], by simp, ?_, ?_⟩
    · intro buf _; simp [putBlock, hz]
    · intro s; simp [getBlock, hz, (h hz).1, (h hz).2]
  · obtain ⟨b1, h1, h2, h3⟩ := codec_put (f.blockIncrSize / factor)
    obtain ⟨b2, g1, g2, g3⟩ := codec_put f.blockIncrChecksumSize
    obtain ⟨b3, k1, k2, k3⟩ := codec_put f.blockIncrMapSize
    have hc : (f.blockIncrSize != 0) = true := by simpa using hz
    have hfac : factor.toNat = 8192 := rfl
    have hm : f.blockIncrSize % factor = 0 := by
      rw [← UInt64.toNat_inj, UInt64.toNat_mod, hfac, hf]; rfl
    have hd : f.blockIncrSize / factor * factor = f.blockIncrSize := by
      rw [← UInt64.toNat_inj, UInt64.toNat_mul, UInt64.toNat_div, hfac]
      have := f.blockIncrSize.toNat_lt
      rw [Nat.div_mul_cancel (Nat.dvd_of_mod_eq_zero hf), Nat.mod_eq_of_lt this]
    refine ⟨b1 ++ (b2 ++ b3), by simp; omega, ?_, ?_⟩
    · intro buf hb
      simp only [putBlock, hc, if_true]
      rw [if_neg (by simpa using hm), h2 buf (by omega)]
      show (do let buf ← put f.blockIncrChecksumSize (buf ++ b1); put f.blockIncrMapSize buf) = _
      rw [g2 (buf ++ b1) (by simp; omega)]
      show put f.blockIncrMapSize (buf ++ b1 ++ b2) = _
      rw [k2 (buf ++ b1 ++ b2) (by simp; omega)]
      simp
    · intro s
      simp only [getBlock, hc, if_true]
      rw [List.append_assoc, h3]
      show (do
        let (b, rest) ← get (b2 ++ b3 ++ s)
        let (d, rest) ← get rest
        Except.ok ((f.blockIncrSize / factor * factor, b, d), rest)) = _
      rw [List.append_assoc, g3]
      show (do
        let (d, rest) ← get (b3 ++ s)
        Except.ok ((f.blockIncrSize / factor * factor, f.blockIncrChecksumSize, d), rest)) = _
      rw [k3, hd]; rfl

/-! ## Times -/

theorem subTime_ok (a b : Int64) (ha : -2 ^ 62 ≤ a.toInt ∧ a.toInt < 2 ^ 62)
    (hb : -2 ^ 62 ≤ b.toInt ∧ b.toInt < 2 ^ 62) : subTime a b = .ok (a - b) ∧ (a - b).toInt = a.toInt - b.toInt := by
  constructor
  · unfold subTime; rw [if_neg (by omega)]
  · rw [Int64.toInt_sub, Int.bmod_eq_of_le (by omega) (by omega)]

theorem subTime_back (a b : Int64) (ha : -2 ^ 62 ≤ a.toInt ∧ a.toInt < 2 ^ 62)
    (hb : -2 ^ 62 ≤ b.toInt ∧ b.toInt < 2 ^ 62) : subTime a (a - b) = .ok b := by
  have h := (subTime_ok a b ha hb).2
  unfold subTime
  rw [if_neg (by omega)]
  congr 1
  apply Int64.toInt_inj.mp
  rw [Int64.toInt_sub, Int.bmod_eq_of_le (by omega) (by omega)]
  omega

/-! ## Files -/

/-- Every flag tells what it is meant to tell. -/
theorem flags_spec (e : Env) (f : File) :
    let g := (flags e f).toNat
    g.testBit 0 = f.checksumSha1.isSome ∧ g.testBit 1 = f.checksumRepoSha1.isSome ∧
    g.testBit 2 = f.reference.isSome ∧ g.testBit 3 = (f.bundleId != 0) ∧ g.testBit 4 = (f.blockIncrSize != 0) ∧
    g.testBit 5 = f.copy ∧ g.testBit 6 = f.delta ∧ g.testBit 7 = f.resume ∧ g.testBit 8 = f.checksumPage ∧
    g.testBit 9 = f.checksumPageError ∧ g.testBit 10 = f.checksumPageErrorList.isSome ∧
    g.testBit 11 = (f.sizeOriginal != f.size) ∧ g.testBit 12 = (f.mode != e.modeDefault) ∧
    g.testBit 13 = (f.user.isSome && f.user != e.userDefault) ∧ g.testBit 14 = f.user.isNone ∧
    g.testBit 15 = (f.group.isSome && f.group != e.groupDefault) ∧ g.testBit 16 = f.group.isNone := by
  have z : (0 : UInt64).toNat = 0 := rfl
  simp only [flags, fChecksum, fChecksumRepo, fReference, fBundle, fBlockIncr, fCopy, fDelta, fResume, fChecksumPage,
    fChecksumPageError, fChecksumPageErrorList, fSizeOriginal, fMode, fUser, fUserNull, fGroup, fGroupNull]
  repeat' constructor
  all_goals
    simp [testBit_setIf, z, -Nat.testBit_zero]

theorem redefault_some (d d' o : Option Str) :
    (if (o.isSome && o != d) = true then o else if o.isNone then none else d') = redefault d d' o := by
  unfold redefault
  cases o with
  | none => simp
  | some x =>
    by_cases h : some x = d
    · subst h; simp
    · simp [h]

theorem getList_ok (l : Option Str) (name : Str) (d : List UInt8) (pos : Nat)
    (h : stringSize + (name.length + 1) + d.length = pos) :
    getList l.isSome { name := name, data := d, list := l.map fun l =>
      (stringSize + (name.length + 1) + (d.length + alignOffset (name.length + 1 + d.length)), l) } pos = .ok l := by
  cases l with
  | none => rfl
  | some l =>
    simp only [getList, Option.isSome_some, if_true, Option.map_some]
    rw [if_pos]
    subst h
    unfold alignOffset stringSize stringAlign
    omega

/-- Packing and unpacking, possibly after the defaults were set to other values. -/
theorem pack_unpack (e e' : Env) (f : File) (hv : Valid f) (hk : Known e f)
    (hb : -2 ^ 62 ≤ (baseTime e f).toInt ∧ (baseTime e f).toInt < 2 ^ 62) (hn : baseTime e f ≠ -1) :
    ∃ p, pack e f = .ok (p, baseTime e f) ∧
      (Later e e' (baseTime e f) → Fit e' → unpack e' p = .ok (follow e e' f)) := by
  obtain ⟨g0, g1, g2, g3, g4, g5, g6, g7, g8, g9, g10, g11, g12, g13, g14, g15, g16⟩ := flags_spec e f
  rw [← has_nat _ _ (by decide)] at g0 g1 g2 g3 g4 g9 g10 g11 g12 g13 g14 g15 g16
  rw [← bit_nat _ _ (by decide)] at g5 g6 g7 g8
  have ht := subTime_ok (baseTime e f) f.timestamp hb hv.time
  obtain ⟨b0, l0, w0, r0⟩ := codec_put (flags e f)
  obtain ⟨b1, l1, w1, r1⟩ := codec_put f.size
  obtain ⟨b2, l2, w2, r2⟩ := codec_putIf (f.sizeOriginal != f.size) f.sizeOriginal
  obtain ⟨b3, l3, w3, r3⟩ := codec_put (Varint.toZigZag64 (baseTime e f - f.timestamp))
  obtain ⟨b4, l4, w4, r4⟩ := codec_sum f.checksumSha1 hv.sum
  obtain ⟨b5, l5, w5, r5⟩ := codec_sum f.checksumRepoSha1 hv.sumRepo
  obtain ⟨b6, l6, w6, r6⟩ := codec_idx f.reference.isSome e.references f.reference id hk.reference
  obtain ⟨b7, l7, w7, r7⟩ := codec_putIf (f.mode != e.modeDefault) f.mode.toUInt64
  obtain ⟨b8, l8, w8, r8⟩ := codec_idx (f.user.isSome && f.user != e.userDefault) e.owners f.user
    (fun h => by simpa using (Bool.and_eq_true _ _ ▸ h : _ ∧ _).1) hk.user
  obtain ⟨b9, l9, w9, r9⟩ := codec_idx (f.group.isSome && f.group != e.groupDefault) e.owners f.group
    (fun h => by simpa using (Bool.and_eq_true _ _ ▸ h : _ ∧ _).1) hk.group
  obtain ⟨b10, l10, w10, r10⟩ := codec_put f.sizeRepo
  obtain ⟨b11, l11, w11, r11⟩ := codec_bundle f hv.bundle
  obtain ⟨b12, l12, w12, r12⟩ := codec_block f hv.factor hv.block
  have hd : packData e f = .ok (b0 ++ b1 ++ b2 ++ b3 ++ b4 ++ b5 ++ b6 ++ b7 ++ b8 ++ b9 ++ b10 ++ b11 ++ b12) := by
    unfold packData
    simp only [fChecksum, fChecksumRepo, fReference, fBundle, fBlockIncr, fSizeOriginal, fMode, fUser, fGroup, g3, g4,
      g11, g12, g13, g15, ht.1, bind, Except.bind]
    rw [w0 [] (by simp)]; simp only []
    rw [w1 _ (by simp; omega)]; simp only []
    rw [w2 _ (by simp; omega)]; simp only []
    rw [w3 _ (by simp; omega)]; simp only []
    rw [w4 _ (by simp; omega)]; simp only []
    rw [w5 _ (by simp; omega)]; simp only []
    rw [w6 _ (by simp; omega)]; simp only []
    rw [w7 _ (by simp; omega)]; simp only []
    rw [w8 _ (by simp; omega)]; simp only []
    rw [w9 _ (by simp; omega)]; simp only []
    rw [w10 _ (by simp; omega)]; simp only []
    rw [w11 _ (by simp; omega)]; simp only []
    rw [w12 _ (by simp; omega)]; simp
  refine ⟨_, by unfold pack; rw [hd]; rfl, ?_⟩
  intro hl hf
  have hne : e'.base ≠ -1 := by rw [hl.base]; exact hn
  unfold unpack
  rw [if_neg hne]
  simp only [fChecksum, fChecksumRepo, fReference, fBundle, fBlockIncr, fSizeOriginal, fMode, fUser, fGroup, fUserNull,
    fGroupNull, fCopy, fDelta, fResume, fChecksumPage, fChecksumPageError, fChecksumPageErrorList,
    bind, Except.bind, List.append_assoc, r0, g0, g1, g2, g3, g4, g9, g10, g11, g12, g13, g14, g15, g16, g5, g6, g7, g8]
  rw [r1]; simp only []
  rw [r2]; simp only []
  rw [r3]; simp only []
  rw [Varint.c01_zigzag64_roundtrip, hl.base, subTime_back _ _ hb hv.time]; simp only []
  rw [r4]; simp only []
  rw [r5]; simp only []
  rw [r6 _ hl.references hf.references]; simp only []
  rw [r7]; simp only []
  rw [r8 _ hl.owners hf.owners]; simp only []
  rw [r9 _ hl.owners hf.owners]; simp only []
  rw [r10]; simp only []
  rw [r11]; simp only []
  have r12' := r12 []
  rw [List.append_nil] at r12'
  rw [r12']; simp only []
  rw [getList_ok _ _ _ _ (by simp only [List.append_assoc, List.length_nil, Nat.sub_zero])]
  simp only []
  congr 1
  unfold follow
  have hm : (if (f.mode != e.modeDefault) = true then f.mode.toUInt64 else e'.modeDefault.toUInt64).toUInt32 =
      if f.mode = e.modeDefault then e'.modeDefault else f.mode := by
    by_cases h : f.mode = e.modeDefault
    · simp [h]
    · simp [h]
  have hs : (if (f.sizeOriginal != f.size) = true then f.sizeOriginal else f.size) = f.sizeOriginal := by
    by_cases h : f.sizeOriginal = f.size
    · simp [h]
    · simp [h]
  have hr : (if f.reference.isSome = true then f.reference else none) = f.reference := by
    cases f.reference <;> rfl
  rw [hm, hs, hr, redefault_some, redefault_some]

/-! ## The list of files -/

/-- What is done with the list of files. -/
inductive Op where
  | add (f : File)
  | update (i : Nat) (f : File)
  | remove (i : Nat)
  | reference (s : Str)

def step (st : Store) : Op → Res Store
  | .add f => fileAdd st f
  | .update i f => fileUpdate st i f
  | .remove i => fileRemove st i
  | .reference s => .ok (referenceAdd st s)

def run : Store → List Op → Res Store
  | st, [] => .ok st
  | st, op :: ops => do run (← step st op) ops

/-- The same with a plain list of files. -/
structure Plain where
  files : List File
  owners : List Str
  references : List Str
  /-- no file was added yet -/
  first : Bool

def plainStep (p : Plain) : Op → Plain
  | .add f => { p with files := p.files ++ [f], owners := f.user.toList ++ f.group.toList ++ p.owners, first := false }
  | .update i f => { p with files := p.files.set i f }
  | .remove i => { p with files := p.files.eraseIdx i }
  | .reference s => { p with references := s :: p.references }

/-- When an operation is allowed: references were added before, an update does not bring a new owner. The first file
that is ever added must not have the time -1. -/
def Allowed (p : Plain) : Op → Prop
  | .add f => Valid f ∧ (∀ r, f.reference = some r → r ∈ p.references) ∧ (p.first = true → f.timestamp ≠ -1)
  | .update i f =>
    Valid f ∧ (∀ r, f.reference = some r → r ∈ p.references) ∧ i < p.files.length ∧ updateOk f = true ∧
      (∀ u, f.user = some u → u ∈ p.owners) ∧ (∀ g, f.group = some g → g ∈ p.owners) ∧ p.first = false
  | .remove i => i < p.files.length
  | .reference _ => True

def AllAllowed : Plain → List Op → Prop
  | _, [] => True
  | p, op :: ops => Allowed p op ∧ AllAllowed (plainStep p op) ops

/-- `p` is the packed form of `f`, now and later. -/
def Stored (e : Env) (p : Pack) (f : File) : Prop :=
  ∀ e', Later e e' e.base → Fit e' → unpack e' p = .ok (follow e e' f)

structure Inv (st : Store) (pl : Plain) : Prop where
  files : List.Forall₂ (Stored st.env) st.files pl.files
  owners : ∀ o ∈ pl.owners, o ∈ st.env.owners
  references : ∀ r ∈ pl.references, r ∈ st.env.references
  base : -2 ^ 62 ≤ st.env.base.toInt ∧ st.env.base.toInt < 2 ^ 62
  first : st.env.base = -1 → pl.first = true ∧ pl.files = []

theorem ownerCache_prefix (o : Option Str) (l : List Str) : l <+: ownerCache o l := by
  unfold ownerCache
  cases o with
  | none => exact List.prefix_refl _
  | some o =>
    simp only []
    split
    · exact List.prefix_refl _
    · exact List.prefix_append _ _

theorem ownerCache_mem (o : Str) (l : List Str) : o ∈ ownerCache (some o) l := by
  unfold ownerCache
  simp only []
  split
  · assumption
  · simp

theorem ownerCache_length (o : Option Str) (l : List Str) : (ownerCache o l).length ≤ l.length + 1 := by
  unfold ownerCache
  cases o with
  | none => simp
  | some o => simp only []; split <;> simp

/-- What was stored stays stored when strings are added. -/
theorem stored_later {e e' : Env} {p : Pack} {f : File} (h : Stored e p f) (hl : Later e e' e.base)
    (hu : e'.userDefault = e.userDefault) (hg : e'.groupDefault = e.groupDefault) (hm : e'.modeDefault = e.modeDefault) :
    Stored e' p f := by
  intro e'' hl' hf
  have := h e'' ⟨hl.owners.trans hl'.owners, hl.references.trans hl'.references, by rw [hl'.base, hl.base]⟩ hf
  rw [this]
  unfold follow
  rw [hu, hg, hm]

theorem pack_stored (e : Env) (f : File) (hv : Valid f) (hk : Known e f)
    (hb : -2 ^ 62 ≤ e.base.toInt ∧ e.base.toInt < 2 ^ 62) (hn : e.base = -1 → f.timestamp ≠ -1) :
    ∃ p, pack e f = .ok (p, baseTime e f) ∧ Stored { e with base := baseTime e f } p f := by
  have hr : -2 ^ 62 ≤ (baseTime e f).toInt ∧ (baseTime e f).toInt < 2 ^ 62 := by
    unfold baseTime; split
    · exact hv.time
    · exact hb
  have hne : baseTime e f ≠ -1 := by
    unfold baseTime; split
    · exact hn ‹_›
    · assumption
  have h0 := pack_unpack e e f hv hk hr hne
  obtain ⟨p, hp, _⟩ := h0
  refine ⟨p, hp, ?_⟩
  intro e' hl hf
  obtain ⟨q, hq, hq'⟩ := pack_unpack e e' f hv hk hr hne
  have : q = p := by rw [hp] at hq; exact ((Prod.mk.inj (Except.ok.inj hq)).1).symm
  rw [this] at hq'
  exact hq' ⟨hl.owners, hl.references, hl.base⟩ hf

theorem base_range (e : Env) (f : File) (hv : Valid f) (hb : -2 ^ 62 ≤ e.base.toInt ∧ e.base.toInt < 2 ^ 62) :
    -2 ^ 62 ≤ (baseTime e f).toInt ∧ (baseTime e f).toInt < 2 ^ 62 := by
  unfold baseTime; split
  · exact hv.time
  · exact hb

theorem base_ne (e : Env) (f : File) (hn : e.base = -1 → f.timestamp ≠ -1) : baseTime e f ≠ -1 := by
  unfold baseTime; split
  · exact hn ‹_›
  · assumption

theorem forall₂_mono {α β : Type} {R S : α → β → Prop} {l : List α} {m : List β} (h : List.Forall₂ R l m)
    (hi : ∀ a b, R a b → S a b) : List.Forall₂ S l m := h.imp hi

theorem forall₂_set {α β : Type} {R : α → β → Prop} {l : List α} {m : List β} (h : List.Forall₂ R l m) (i : Nat)
    {a : α} {b : β} (hab : R a b) : List.Forall₂ R (l.set i a) (m.set i b) := by
  induction h generalizing i with
  | nil => exact .nil
  | cons h1 h2 ih =>
    cases i with
    | zero => exact .cons hab h2
    | succ i => exact .cons h1 (ih i)

theorem forall₂_erase {α β : Type} {R : α → β → Prop} {l : List α} {m : List β} (h : List.Forall₂ R l m) (i : Nat) :
    List.Forall₂ R (l.eraseIdx i) (m.eraseIdx i) := by
  induction h generalizing i with
  | nil => exact .nil
  | cons h1 h2 ih =>
    cases i with
    | zero => exact h2
    | succ i => exact .cons h1 (ih i)

/-- Files that are stored stay stored when another file is packed. -/
theorem stored_base {st : Store} {pl : Plain} (h : Inv st pl) (e : Env) (ho : st.env.owners <+: e.owners)
    (hr : st.env.references <+: e.references) (hb : st.env.base ≠ -1 → e.base = st.env.base)
    (hu : e.userDefault = st.env.userDefault) (hg : e.groupDefault = st.env.groupDefault)
    (hm : e.modeDefault = st.env.modeDefault) : List.Forall₂ (Stored e) st.files pl.files := by
  by_cases hbase : st.env.base = -1
  · have h1 := (h.first hbase).2
    have h2 := h.files
    rw [h1] at h2 ⊢
    rw [List.forall₂_nil_right_iff.mp h2]
    exact .nil
  · exact h.files.imp fun p f hs => stored_later hs ⟨ho, hr, hb hbase⟩ hu hg hm

theorem step_inv (st : Store) (pl : Plain) (op : Op) (h : Inv st pl) (ha : Allowed pl op) :
    ∃ st', step st op = .ok st' ∧ Inv st' (plainStep pl op) ∧
      st'.env.userDefault = st.env.userDefault ∧ st'.env.groupDefault = st.env.groupDefault ∧
      st'.env.modeDefault = st.env.modeDefault ∧ st'.env.owners.length ≤ st.env.owners.length + 2 ∧
      st'.env.references.length ≤ st.env.references.length + 1 := by
  cases op with
  | add f =>
    obtain ⟨hv, hr, hn⟩ := ha
    have hn' : st.env.base = -1 → f.timestamp ≠ -1 := fun hb => hn (h.first hb).1
    let e : Env := { st.env with owners := ownerCache f.group (ownerCache f.user st.env.owners) }
    have hp1 := ownerCache_prefix f.user st.env.owners
    have hp2 := ownerCache_prefix f.group (ownerCache f.user st.env.owners)
    have hk : Known e f :=
      { user := fun u hu => hp2.subset (by rw [hu]; exact ownerCache_mem u _)
        group := fun g hg => by show g ∈ ownerCache f.group _; rw [hg]; exact ownerCache_mem g _
        reference := fun r hr' => h.references r (hr r hr') }
    obtain ⟨p, hp, hs⟩ := pack_stored e f hv hk h.base hn'
    have hbase : e.base = st.env.base := rfl
    refine ⟨{ env := { e with base := baseTime e f }, files := st.files ++ [p] }, ?_, ?_, rfl, rfl, rfl, ?_, ?_⟩
    · show fileAdd st f = _
      unfold fileAdd
      show (do let (p, base) ← pack e f; Except.ok ({ env := { e with base := base }, files := st.files ++ [p] } : Store)) = _
      rw [hp]; rfl
    · refine ⟨?_, ?_, ?_, base_range e f hv h.base, fun hb => absurd hb (base_ne e f hn')⟩
      · refine List.rel_append ?_ (.cons hs .nil)
        refine stored_base h _ (hp1.trans hp2) (List.prefix_refl _) ?_ rfl rfl rfl
        intro hb
        show baseTime e f = _
        unfold baseTime; rw [if_neg hb]
      · intro o ho
        have ho' : o ∈ f.user.toList ++ f.group.toList ++ pl.owners := ho
        simp only [List.mem_append, Option.mem_toList] at ho'
        rcases ho' with (hu | hg) | ho'
        · exact hk.user o hu
        · exact hk.group o hg
        · exact (hp1.trans hp2).subset (h.owners o ho')
      · intro r hr'; exact h.references r hr'
    · show (ownerCache f.group (ownerCache f.user st.env.owners)).length ≤ _
      have := ownerCache_length f.user st.env.owners
      have := ownerCache_length f.group (ownerCache f.user st.env.owners)
      omega
    · show st.env.references.length ≤ _; omega
  | update i f =>
    obtain ⟨hv, hr, hi, hu, ho, hg, hfirst⟩ := ha
    have hn' : st.env.base = -1 → f.timestamp ≠ -1 := fun hb => absurd (h.first hb).1 (by rw [hfirst]; simp)
    have hk : Known st.env f :=
      { user := fun u hu => h.owners u (ho u hu)
        group := fun g hg' => h.owners g (hg g hg')
        reference := fun r hr' => h.references r (hr r hr') }
    obtain ⟨p, hp, hs⟩ := pack_stored st.env f hv hk h.base hn'
    refine ⟨{ env := { st.env with base := baseTime st.env f }, files := st.files.set i p }, ?_, ?_, rfl, rfl, rfl, ?_, ?_⟩
    · show fileUpdate st i f = _
      unfold fileUpdate
      rw [if_neg (by rw [hu]; simp), if_neg (by rw [h.files.length_eq]; omega), hp]; rfl
    · refine ⟨?_, h.owners, h.references, base_range _ f hv h.base, fun hb => absurd hb (base_ne _ f hn')⟩
      refine forall₂_set ?_ i hs
      refine stored_base h _ (List.prefix_refl _) (List.prefix_refl _) ?_ rfl rfl rfl
      intro hb
      show baseTime st.env f = _
      unfold baseTime; rw [if_neg hb]
    · show st.env.owners.length ≤ _; omega
    · show st.env.references.length ≤ _; omega
  | remove i =>
    have hi : i < pl.files.length := ha
    refine ⟨{ st with files := st.files.eraseIdx i }, ?_, ?_, rfl, rfl, rfl, ?_, ?_⟩
    · show fileRemove st i = _
      unfold fileRemove
      rw [if_neg (by rw [h.files.length_eq]; omega)]
    · refine ⟨forall₂_erase h.files i, h.owners, h.references, h.base, fun hb => ?_⟩
      have := h.first hb
      refine ⟨this.1, ?_⟩
      show pl.files.eraseIdx i = []
      rw [this.2]; rfl
    · show st.env.owners.length ≤ _; omega
    · show st.env.references.length ≤ _; omega
  | reference s =>
    refine ⟨referenceAdd st s, rfl, ?_, rfl, rfl, rfl, ?_, ?_⟩
    · refine ⟨stored_base h _ (List.prefix_refl _) (List.prefix_append _ _) (fun _ => rfl) rfl rfl rfl, h.owners, ?_,
        h.base, h.first⟩
      intro r hr
      have hr' : r ∈ s :: pl.references := hr
      show r ∈ st.env.references ++ [s]
      rcases List.mem_cons.mp hr' with rfl | hr'
      · simp
      · exact List.mem_append_left _ (h.references r hr')
    · show st.env.owners.length ≤ _; omega
    · simp [referenceAdd]

theorem run_inv (ops : List Op) : ∀ (st : Store) (pl : Plain), Inv st pl → AllAllowed pl ops →
    ∃ st', run st ops = .ok st' ∧ Inv st' (ops.foldl plainStep pl) ∧
      st'.env.userDefault = st.env.userDefault ∧ st'.env.groupDefault = st.env.groupDefault ∧
      st'.env.modeDefault = st.env.modeDefault ∧ st'.env.owners.length ≤ st.env.owners.length + 2 * ops.length ∧
      st'.env.references.length ≤ st.env.references.length + ops.length := by
  induction ops with
  | nil => intro st pl h _; exact ⟨st, rfl, h, rfl, rfl, rfl, by simp, by simp⟩
  | cons op ops ih =>
    intro st pl h ha
    obtain ⟨st1, h1, h2, h3, h4, h5, h6, h7⟩ := step_inv st pl op h ha.1
    obtain ⟨st2, g1, g2, g3, g4, g5, g6, g7⟩ := ih st1 _ h2 ha.2
    refine ⟨st2, ?_, g2, by rw [g3, h3], by rw [g4, h4], by rw [g5, h5], ?_, ?_⟩
    · show (do run (← step st op) ops) = _
      rw [h1]; exact g1
    · rw [List.length_cons]; omega
    · rw [List.length_cons]; omega

/-- A manifest without files. -/
def empty (e : Env) : Store := { env := e, files := [] }

def plainEmpty (e : Env) : Plain := { files := [], owners := e.owners, references := e.references, first := e.base == -1 }

theorem empty_inv (e : Env) (hb : -2 ^ 62 ≤ e.base.toInt ∧ e.base.toInt < 2 ^ 62) : Inv (empty e) (plainEmpty e) :=
  ⟨.nil, fun _ h => h, fun _ h => h, hb, fun h => ⟨by show (e.base == -1) = true; exact beq_iff_eq.mpr h, rfl⟩⟩

theorem follow_self (e e' : Env) (f : File) (hu : e'.userDefault = e.userDefault) (hg : e'.groupDefault = e.groupDefault)
    (hm : e'.modeDefault = e.modeDefault) : follow e e' f = f := by
  unfold follow redefault
  rw [hu, hg, hm]
  have h : ∀ o d : Option Str, (if o.isSome = true ∧ o = d then d else o) = o := by
    intro o d
    by_cases h : o.isSome = true ∧ o = d
    · rw [if_pos h, h.2]
    · rw [if_neg h]
  rw [h, h]
  have : (if f.mode = e.modeDefault then e.modeDefault else f.mode) = f.mode := by
    by_cases h : f.mode = e.modeDefault
    · rw [if_pos h, h]
    · rw [if_neg h]
  rw [this]

/-- C36: after any sequence of operations the packed list has the files that a plain list would have. -/
theorem c36_history (e : Env) (ops : List Op) (hb : -2 ^ 62 ≤ e.base.toInt ∧ e.base.toInt < 2 ^ 62)
    (ha : AllAllowed (plainEmpty e) ops) (ho : e.owners.length + 2 * ops.length < 2 ^ 32)
    (hr : e.references.length + ops.length < 2 ^ 32) :
    ∃ st, run (empty e) ops = .ok st ∧ st.files.length = (ops.foldl plainStep (plainEmpty e)).files.length ∧
      ∀ i f, (ops.foldl plainStep (plainEmpty e)).files[i]? = some f → file st i = .ok f := by
  obtain ⟨st, h1, h2, h3, h4, h5, h6, h7⟩ := run_inv ops _ _ (empty_inv e hb) ha
  refine ⟨st, h1, h2.files.length_eq, ?_⟩
  intro i f hf
  have hlt : i < (ops.foldl plainStep (plainEmpty e)).files.length := by
    rw [List.getElem?_eq_some_iff] at hf; exact hf.1
  have hi : i < st.files.length := by rw [h2.files.length_eq]; exact hlt
  have hs := h2.files.get hi hlt
  unfold file
  rw [List.getElem?_eq_getElem hi]
  simp only [empty] at h6 h7
  have := hs st.env ⟨List.prefix_refl _, List.prefix_refl _, rfl⟩ ⟨by omega, by omega, h2.base⟩
  rw [List.getElem?_eq_getElem hlt] at hf
  simp only [List.get_eq_getElem, Option.some.inj hf] at this
  rw [follow_self _ _ _ rfl rfl rfl] at this
  exact this

/-- C36: when a manifest is loaded the defaults are known only after the files. Files that were added with the
placeholder get the defaults, the others stay as they are. -/
theorem c36_defaults (e : Env) (ops : List Op) (user group : Option Str) (mode : UInt32)
    (hb : -2 ^ 62 ≤ e.base.toInt ∧ e.base.toInt < 2 ^ 62)
    (ha : AllAllowed (plainEmpty e) ops) (ho : e.owners.length + 2 * ops.length < 2 ^ 32)
    (hr : e.references.length + ops.length < 2 ^ 32) :
    ∃ st, run (empty e) ops = .ok st ∧
      ∀ i f, (ops.foldl plainStep (plainEmpty e)).files[i]? = some f →
        file { st with env := { st.env with userDefault := user, groupDefault := group, modeDefault := mode } } i = .ok
          { f with
            user := if f.user.isSome ∧ f.user = e.userDefault then user else f.user
            group := if f.group.isSome ∧ f.group = e.groupDefault then group else f.group
            mode := if f.mode = e.modeDefault then mode else f.mode } := by
  obtain ⟨st, h1, h2, h3, h4, h5, h6, h7⟩ := run_inv ops _ _ (empty_inv e hb) ha
  refine ⟨st, h1, ?_⟩
  intro i f hf
  have hlt : i < (ops.foldl plainStep (plainEmpty e)).files.length := by
    rw [List.getElem?_eq_some_iff] at hf; exact hf.1
  have hi : i < st.files.length := by rw [h2.files.length_eq]; exact hlt
  have hs := h2.files.get hi hlt
  unfold file
  simp only []
  rw [List.getElem?_eq_getElem hi]
  simp only [empty] at h3 h4 h5 h6 h7
  have := hs { st.env with userDefault := user, groupDefault := group, modeDefault := mode }
    ⟨List.prefix_refl _, List.prefix_refl _, rfl⟩ ⟨by show st.env.owners.length < _; omega,
      by show st.env.references.length < _; omega, h2.base⟩
  rw [List.getElem?_eq_getElem hlt] at hf
  simp only [List.get_eq_getElem, Option.some.inj hf] at this
  simp only []
  rw [this]
  unfold follow redefault
  rw [h3, h4, h5]

/-- C36: the time -1 is also the mark for a base time that is not set. When the first file that is ever packed has
this time, it has another time after the next file was packed. -/
theorem c36_minus_one :
    ∃ (e : Env) (a b : File), Valid a ∧ Valid b ∧ a.timestamp = -1 ∧ b.timestamp ≠ -1 ∧
      ∃ st1 st2, fileAdd (empty e) a = .ok st1 ∧ file st1 0 = .error .assert ∧ fileAdd st1 b = .ok st2 ∧
        file st2 0 = .ok { a with timestamp := b.timestamp } ∧ file st2 1 = .ok b := by
  refine ⟨{ owners := [], references := [], userDefault := none, groupDefault := none, modeDefault := 0, base := -1 },
    { name := [97], size := 3, sizeOriginal := 3, timestamp := -1 }, { name := [98], size := 4, sizeOriginal := 4, timestamp := 1700000000 },
    ⟨by simp, by simp, by decide, by decide, by decide, by decide⟩,
    ⟨by simp, by simp, by decide, by decide, by decide, by decide⟩, by decide, by decide,
    { env := { owners := [], references := [], userDefault := none, groupDefault := none, modeDefault := 0, base := -1 }
      files := [{ name := [97], data := [128, 128, 5, 3, 0, 0], list := none }] },
    { env := { owners := [], references := [], userDefault := none, groupDefault := none, modeDefault := 0
               base := 1700000000 }
      files := [{ name := [97], data := [128, 128, 5, 3, 0, 0], list := none },
        { name := [98], data := [128, 128, 5, 4, 0, 0], list := none }] },
    by decide +kernel, by decide +kernel, by decide +kernel, by decide +kernel, by decide +kernel⟩

/-! ## Examples -/

/-- A file with everything. -/
def full : File :=
  { name := [97, 47, 98], copy := true, resume := true, checksumPage := true, checksumPageError := true
    mode := 0o600, checksumSha1 := some (List.replicate 20 7), checksumRepoSha1 := some (List.replicate 20 255)
    checksumPageErrorList := some [91, 49, 93], user := some [117], group := some [64], reference := some [50]
    bundleId := 3, bundleOffset := 18446744073709551615, blockIncrSize := 16384, blockIncrChecksumSize := 6
    blockIncrMapSize := 99, size := 1000000, sizeOriginal := 4096, sizeRepo := 5, timestamp := -86400 }

def env0 : Env :=
  { owners := [], references := [], userDefault := some [64], groupDefault := some [64], modeDefault := 0xffffffff
    base := -1 }

theorem full_valid : Valid full :=
  ⟨by intro s h; rw [← Option.some.inj (show some _ = some s from h)]; decide,
   by intro s h; rw [← Option.some.inj (show some _ = some s from h)]; decide, by decide, by decide, by decide, by decide⟩

def ops0 : List Op := [.reference [50], .add full, .add { full with name := [98], timestamp := 5 }, .remove 0]

example : AllAllowed (plainEmpty env0) ops0 := by
  have hv2 : Valid { full with name := [98], timestamp := 5 } :=
    ⟨full_valid.sum, full_valid.sumRepo, full_valid.factor, full_valid.block, full_valid.bundle, by decide⟩
  refine ⟨trivial, ⟨full_valid, ?_, by decide⟩, ⟨hv2, ?_, by decide⟩, show 0 < 2 by decide, trivial⟩
  · intro r h; rw [← Option.some.inj (show some _ = some r from h)]; decide
  · intro r h; rw [← Option.some.inj (show some _ = some r from h)]; decide

example : (do let st ← run (empty env0) ops0; file st 0) = .ok { full with name := [98], timestamp := 5 } := by
  decide +kernel

/-- The group is the placeholder and becomes the real default. -/
example : (do
    let st ← run (empty env0) ops0
    file { st with env := { st.env with groupDefault := none } } 0) =
      .ok { full with name := [98], timestamp := 5, group := none } := by
  decide +kernel

end Verif.Manifest
