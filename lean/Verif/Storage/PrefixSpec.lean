import Verif.Storage.PrefixModel

/-!
# Extended regular expressions

How an expression is written and what it matches (POSIX 1003.1, 9.4).
-/

namespace Verif.Storage.Spec

open Verif.Storage

inductive Ere where
  | empty
  | bol
  | eol
  | any
  | chr (c : Char)
  | esc (c : Char)
  /-- A bracket expression: what is between the brackets and the characters that are meant. -/
  | set (text : List Char) (f : Char → Bool)
  | group (r : Ere)
  | seq (a b : Ere)
  | alt (a b : Ere)
  /-- Repetition: the text of the quantifier, at least and at most. -/
  | rep (a : Ere) (text : List Char) (min : Nat) (max : Option Nat)

/-- How it is written. -/
def Ere.render : Ere → List Char
  | .empty => []
  | .bol => ['^']
  | .eol => ['$']
  | .any => ['.']
  | .chr c => [c]
  | .esc c => ['\\', c]
  | .set t _ => '[' :: t ++ [']']
  | .group r => '(' :: r.render ++ [')']
  | .seq a b => a.render ++ b.render
  | .alt a b => a.render ++ '|' :: b.render
  | .rep a t _ _ => a.render ++ t

/-- The characters that mean something else. -/
def special (c : Char) : Bool :=
  c == '.' || c == '^' || c == '$' || c == '*' || c == '+' || c == '?' || c == '(' || c == ')' || c == '[' || c == '{' || c == '|' ||
    c == '\\'

/-- One thing that can be repeated. -/
def Ere.atom : Ere → Bool
  | .any | .chr _ | .esc _ | .set _ _ | .group _ => true
  | _ => false

/-- An alternation is at the top. -/
def Ere.isAlt : Ere → Bool
  | .alt _ _ => true
  | _ => false

/-- It is written so that it is read as it is meant. -/
def Ere.Ok : Ere → Prop
  | .chr c => special c = false
  | .group r => r.Ok
  | .seq a b => a.Ok ∧ b.Ok ∧ a.isAlt = false ∧ b.isAlt = false
  | .alt a b => a.Ok ∧ b.Ok
  | .rep a t min max => a.Ok ∧ a.atom = true ∧
      ((t = ['*'] ∧ min = 0 ∧ max = none) ∨ (t = ['+'] ∧ min = 1 ∧ max = none) ∨ (t = ['?'] ∧ min = 0 ∧ max = some 1) ∨
        ∃ u, t = '{' :: u)
  | _ => True

/-- It matches the part in the middle of a string. -/
inductive Match3 : Ere → Name → Name → Name → Prop where
  | empty {p q : Name} : Match3 .empty p [] q
  | bol {q : Name} : Match3 .bol [] [] q
  | eol {p : Name} : Match3 .eol p [] []
  | any {p q : Name} {c : Char} : Match3 .any p [c] q
  | chr {p q : Name} {c : Char} : Match3 (.chr c) p [c] q
  | esc {p q : Name} {c : Char} : Match3 (.esc c) p [c] q
  | set {p q : Name} {t : List Char} {f : Char → Bool} {c : Char} (h : f c = true) : Match3 (.set t f) p [c] q
  | group {p m q : Name} {r : Ere} (h : Match3 r p m q) : Match3 (.group r) p m q
  | seq {p m n q : Name} {a b : Ere} (h : Match3 a p m (n ++ q)) (h2 : Match3 b (p ++ m) n q) : Match3 (.seq a b) p (m ++ n) q
  | altL {p m q : Name} {a b : Ere} (h : Match3 a p m q) : Match3 (.alt a b) p m q
  | altR {p m q : Name} {a b : Ere} (h : Match3 b p m q) : Match3 (.alt a b) p m q
  | repDone {p q : Name} {a : Ere} {t : List Char} {max : Option Nat} : Match3 (.rep a t 0 max) p [] q
  | repMore {p m n q : Name} {a : Ere} {t : List Char} {min : Nat} {max : Option Nat} (h : Match3 a p m (n ++ q))
    (hm : max ≠ some 0) (h2 : Match3 (.rep a t (min - 1) (max.map (· - 1))) (p ++ m) n q) : Match3 (.rep a t min max) p (m ++ n) q

/-- It is found in a string (`regexec` without flags). -/
def Found (r : Ere) (s : Name) : Prop := ∃ p m q, s = p ++ m ++ q ∧ Match3 r p m q

/-- The characters at the begin that the prefix takes, and whether these are all. -/
def Ere.run : Ere → List Char × Bool
  | .empty => ([], true)
  | .chr c => if stops c then ([], false) else ([c], true)
  | .seq a b => if a.run.2 then (a.run.1 ++ b.run.1, b.run.2) else (a.run.1, false)
  | .rep a _ _ _ => (a.run.1, false)
  | _ => ([], false)

/-- The prefix is meant: it does not end with a character that may be left out, and nothing is an alternative to all of it. -/
def Ere.Safe : Ere → Prop
  | .seq a b => a.Safe ∧ (a.run.2 = true → b.Safe)
  | .alt _ _ => False
  | .rep (.chr c) _ min _ => stops c = true ∨ 0 < min
  | _ => True

end Verif.Storage.Spec
