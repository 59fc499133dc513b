import Verif.Http.UriModel
import Verif.Http.QuerySpec

/-!
# What characters of URIs are encoded, and how
-/

namespace Verif.Http.Query

open Spec

/-! ## Characters -/

theorem all_bytes {P : UInt8 → Prop} (h : ∀ n < 256, P n.toUInt8) (c : UInt8) : P c := by
  have := h c.toNat c.toNat_lt
  simpa using this

instance (c : UInt8) : Decidable (Unreserved c) := by unfold Unreserved; infer_instance
instance (p : Bool) (c : UInt8) : Decidable (Safe p c) := by unfold Safe; infer_instance
instance (c : UInt8) : Decidable (Upper c) := by unfold Upper; infer_instance

theorem verbatim_iff (p : Bool) (c : UInt8) : verbatim p c = true ↔ Safe p c := by
  refine all_bytes (P := fun c => verbatim p c = true ↔ Safe p c) ?_ c
  cases p <;> decide +kernel

theorem safe_ne (p : Bool) (c : UInt8) (h : Safe p c) : c ≠ 37 ∧ c ≠ 38 ∧ c ≠ 61 ∧ c ≠ 63 := by
  revert h
  refine all_bytes (P := fun c => Safe p c → c ≠ 37 ∧ c ≠ 38 ∧ c ≠ 61 ∧ c ≠ 63) ?_ c
  cases p <;> decide +kernel

theorem hex_digits : ∀ c : UInt8, Upper (hexChr (c / 16)) ∧ Upper (hexChr (c % 16)) ∧
    [hexChr (c / 16), hexChr (c % 16)].map (Num.digitOf 16) = [c.toNat / 16, c.toNat % 16].map some ∧ c.toNat = Num.valueOf 16 [c.toNat / 16, c.toNat % 16] :=
  all_bytes (by decide +kernel)

theorem hex_numeral (c : UInt8) : Num.Numeral 16 [hexChr (c / 16), hexChr (c % 16)] c.toNat :=
  ⟨by simp, [c.toNat / 16, c.toNat % 16], (hex_digits c).2.2.1, (hex_digits c).2.2.2⟩

theorem upper_ne (c : UInt8) (h : Upper c) : c ≠ 37 ∧ c ≠ 38 ∧ c ≠ 61 ∧ c ≠ 63 := by
  revert h
  exact all_bytes (P := fun c => Upper c → c ≠ 37 ∧ c ≠ 38 ∧ c ≠ 61 ∧ c ≠ 63) (by decide +kernel) c

theorem upper_unique : ∀ a b : UInt8, Upper a → Upper b → Num.digitOf 16 a = Num.digitOf 16 b → a = b := by
  intro a b ⟨x, hx, ex⟩ ⟨y, hy, ey⟩
  subst ex ey
  have : ∀ x ∈ "0123456789ABCDEF".toUTF8.toList, ∀ y ∈ "0123456789ABCDEF".toUTF8.toList, Num.digitOf 16 x = Num.digitOf 16 y → x = y := by decide +kernel
  exact this _ hx _ hy

end Verif.Http.Query
