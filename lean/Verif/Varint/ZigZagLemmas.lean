import Verif.Varint.Model
import Mathlib.Tactic.Linarith

namespace Verif.Varint

theorem sshiftRight_top {n : Nat} (x : BitVec (n + 1)) :
    x.sshiftRight n = if x.msb then BitVec.allOnes (n + 1) else 0#(n + 1) := by
  apply BitVec.eq_of_getLsbD_eq
  intro i hi
  rw [BitVec.getLsbD_sshiftRight]
  have hmsb : x.msb = x.getLsbD n := by simp [BitVec.msb_eq_getLsbD_last]
  rcases Nat.eq_zero_or_pos i with rfl | h0
  · cases h : x.msb <;> simp_all
  · have h1 : ¬ n + i < n + 1 := by omega
    cases h : x.msb <;> simp [h1, hi]

theorem bv_fwd {n : Nat} (x : BitVec (n + 1)) :
    ((x <<< 1) ^^^ x.sshiftRight n).toNat =
      if 0 ≤ x.toInt then 2 * x.toInt.toNat else 2 * (-x.toInt - 1).toNat + 1 := by
  have hx : x.toNat < 2 ^ (n + 1) := x.isLt
  have hp : (2 : Nat) ^ (n + 1) = 2 * 2 ^ n := by rw [Nat.pow_succ]; omega
  rw [sshiftRight_top]
  have hmsb : x.msb = decide (2 ^ n ≤ x.toNat) := by
    rw [BitVec.msb_eq_decide]; simp
  by_cases h : 2 ^ n ≤ x.toNat
  · have hm : x.msb = true := by rw [hmsb]; simpa using h
    have hint : x.toInt = (x.toNat : Int) - 2 ^ (n + 1) := by
      rw [BitVec.toInt_eq_msb_cond, if_pos hm]; norm_cast
    rw [if_pos hm, BitVec.xor_allOnes, BitVec.toNat_not, BitVec.toNat_shiftLeft, Nat.shiftLeft_eq]
    have hneg : ¬ 0 ≤ x.toInt := by
      rw [hint]; have : (x.toNat : Int) < 2 ^ (n + 1) := by exact_mod_cast hx
      omega
    rw [if_neg hneg, hint]
    have h1 : x.toNat * 2 ^ 1 % 2 ^ (n + 1) = 2 * (x.toNat - 2 ^ n) := by
      have : x.toNat * 2 ^ 1 = 2 * (x.toNat - 2 ^ n) + 2 ^ (n + 1) := by omega
      rw [this, Nat.add_mod_right, Nat.mod_eq_of_lt (by omega)]
    rw [h1]
    have h2 : (-((x.toNat : Int) - 2 ^ (n + 1)) - 1).toNat = 2 ^ (n + 1) - x.toNat - 1 := by
      have : ((2 : Int) ^ (n + 1)) = ((2 ^ (n + 1) : Nat) : Int) := by norm_cast
      rw [this]; omega
    rw [h2]; omega
  · have hm : x.msb = false := by rw [hmsb]; simpa using h
    have hint : x.toInt = (x.toNat : Int) := by
      rw [BitVec.toInt_eq_msb_cond, hm]; simp
    rw [if_neg (by simp [hm]), BitVec.xor_zero, BitVec.toNat_shiftLeft, Nat.shiftLeft_eq]
    rw [hint, if_pos (by omega)]
    rw [Nat.mod_eq_of_lt (by omega)]
    simp; omega

theorem bv_bwd {n : Nat} (y : BitVec (n + 1)) :
    ((y >>> 1) ^^^ (~~~(y &&& 1#(n + 1)) + 1#(n + 1))).toInt =
      if y.toNat % 2 = 0 then ((y.toNat / 2 : Nat) : Int) else -((y.toNat / 2 : Nat) : Int) - 1 := by
  have hy : y.toNat < 2 ^ (n + 1) := y.isLt
  have hp : (2 : Nat) ^ (n + 1) = 2 * 2 ^ n := by rw [Nat.pow_succ]; omega
  have hneg : ~~~(y &&& 1#(n + 1)) + 1#(n + 1) = -(y &&& 1#(n + 1)) := by
    rw [BitVec.neg_eq_not_add]
  rw [hneg]
  have h1 : (1#(n + 1)).toNat = 1 := by simp
  have hand : (y &&& 1#(n + 1)).toNat = y.toNat % 2 := by
    rw [BitVec.toNat_and, h1, Nat.and_one_is_mod]
  have hshift : (y >>> 1).toNat = y.toNat / 2 := by
    rw [BitVec.toNat_ushiftRight, Nat.shiftRight_eq_div_pow]
  have hsmsb : (y >>> 1).msb = false := by
    rw [BitVec.msb_eq_decide, hshift]; simp; omega
  rcases Nat.mod_two_eq_zero_or_one y.toNat with h | h
  · have : y &&& 1#(n + 1) = 0#(n + 1) := by
      apply BitVec.eq_of_toNat_eq; rw [hand, h]; simp
    rw [if_pos h, this, BitVec.neg_zero, BitVec.xor_zero, BitVec.toInt_eq_msb_cond, hsmsb, hshift]
    simp
  · have : y &&& 1#(n + 1) = 1#(n + 1) := by
      apply BitVec.eq_of_toNat_eq; rw [hand, h, h1]
    rw [if_neg (by omega), this]
    have hm1 : -(1#(n + 1)) = BitVec.allOnes (n + 1) := BitVec.neg_one_eq_allOnes
    rw [hm1, BitVec.xor_allOnes]
    have hmsb : (~~~(y >>> 1)).msb = true := by
      rw [BitVec.msb_eq_decide, BitVec.toNat_not, hshift]; simp; omega
    rw [BitVec.toInt_eq_msb_cond, hmsb, BitVec.toNat_not, hshift]
    simp only [if_true]
    have : ((2 : Int) ^ (n + 1)) = ((2 ^ (n + 1) : Nat) : Int) := by norm_cast
    omega

theorem toZigZag64_toNat (v : Int64) : (toZigZag64 v).toNat =
    if 0 ≤ v.toInt then 2 * v.toInt.toNat else 2 * (-v.toInt - 1).toNat + 1 := by
  have := bv_fwd (n := 63) v.toBitVec
  exact this

theorem fromZigZag64_toInt (v : UInt64) : (fromZigZag64 v).toInt =
    if v.toNat % 2 = 0 then ((v.toNat / 2 : Nat) : Int) else -((v.toNat / 2 : Nat) : Int) - 1 := by
  have := bv_bwd (n := 63) v.toBitVec
  exact this

theorem toZigZag32_toNat (v : Int32) : (toZigZag32 v).toNat =
    if 0 ≤ v.toInt then 2 * v.toInt.toNat else 2 * (-v.toInt - 1).toNat + 1 := by
  have := bv_fwd (n := 31) v.toBitVec
  exact this

theorem fromZigZag32_toInt (v : UInt32) : (fromZigZag32 v).toInt =
    if v.toNat % 2 = 0 then ((v.toNat / 2 : Nat) : Int) else -((v.toNat / 2 : Nat) : Int) - 1 := by
  have := bv_bwd (n := 31) v.toBitVec
  exact this

end Verif.Varint
