import Verif.Num.Props

/-!
# URI encoding after RFC 3986
-/

namespace Verif.Http.Query.Spec

abbrev Str := List UInt8

/-- Unreserved characters (2.3). -/
def Unreserved (c : UInt8) : Prop :=
  (∃ l ∈ "ABCDEFGHIJKLMNOPQRSTUVWXYZabcdefghijklmnopqrstuvwxyz0123456789-._~".toUTF8.toList, c = l)

/-- What is not encoded: in paths also the slash. -/
def Safe (path : Bool) (c : UInt8) : Prop := Unreserved c ∨ (path = true ∧ c = 47)

/-- `e` is `s` with some characters encoded, with digits of any case (2.1). -/
inductive Enc : Str → Str → Prop
  | nil : Enc [] []
  | plain {c e s} : c ≠ 37 → Enc e s → Enc (c :: e) (c :: s)
  | esc {a b v e s} : Num.Numeral 16 [a, b] v → Enc e s → Enc (37 :: a :: b :: e) (v.toUInt8 :: s)

/-- A digit in upper case. -/
def Upper (c : UInt8) : Prop := ∃ l ∈ "0123456789ABCDEF".toUTF8.toList, c = l

/-- `e` is the normal form of `s` (6.2.2): unreserved characters are as they are, all others are encoded with digits in upper case. -/
inductive Canon (path : Bool) : Str → Str → Prop
  | nil : Canon path [] []
  | plain {c e s} : Safe path c → Canon path e s → Canon path (c :: e) (c :: s)
  | esc {c a b e s} : ¬Safe path c → Upper a → Upper b → Num.Numeral 16 [a, b] c.toNat → Canon path e s → Canon path (37 :: a :: b :: e) (c :: s)

end Verif.Http.Query.Spec
