import Verif.Storage.ItrModel

/-!
# What a listing is

The entries that are there, in the order of their paths. Nothing of this uses a stack or a position in a list.
-/

namespace Verif.Storage.Spec

open Verif.Storage

variable {ι : Type}

/-- The paths that are visited: the root, and with recursion every path in a path that is visited. -/
inductive At (P : Param ι) : Option Name → Prop where
  | root : At P none
  | sub {p : Option Name} {l : List (Entry ι)} {e : Entry ι} (h : At P p) (hl : P.list p = some l) (he : e ∈ l)
    (hp : e.isPath = true) (hr : P.recurse = true) : At P (some (join p e.name))

/-- The entries that are there: what a path that is visited contains, with the name below the root. -/
def There (P : Param ι) (x : Entry ι) : Prop :=
  ∃ p l e, At P p ∧ P.list p = some l ∧ e ∈ l ∧ x = { e with name := join p e.name }

/-- The expression, if there is one, matches the name below the root. -/
def Match (P : Param ι) (x : Entry ι) : Prop := ∀ f, P.regExp = some f → f x.name = true

/-- Paths are nested at most so deep below this one. -/
def Shallow (P : Param ι) : Nat → Option Name → Prop
  | 0, _ => False
  | n + 1, p => ∀ l, P.list p = some l → ∀ e ∈ l, e.isPath = true → P.recurse = true → Shallow P n (some (join p e.name))

/-- What a driver lists: no name twice, and no slash in a name. -/
def Clean (P : Param ι) : Prop :=
  ∀ p l, P.list p = some l → (l.map (·.name)).Nodup ∧ ∀ e ∈ l, '/' ∉ e.name

/-- The parts of a name between slashes. -/
def parts : Name → List Name
  | [] => [[]]
  | c :: cs =>
    if c = '/' then [] :: parts cs
    else
      match parts cs with
      | [] => [[c]]
      | x :: xs => (c :: x) :: xs

/-- One part is before another: the first character that is different is smaller, or there is none and it is shorter. -/
def ltPart : Name → Name → Prop
  | _, [] => False
  | [], _ :: _ => True
  | a :: as, b :: bs => a.toNat < b.toNat ∨ (a = b ∧ ltPart as bs)

/-- One name is before another: the first part that is different is before, or there is none and it has fewer parts. -/
def ltParts : List Name → List Name → Prop
  | _, [] => False
  | [], _ :: _ => True
  | a :: as, b :: bs => ltPart a b ∨ (a = b ∧ ltParts as bs)

end Verif.Storage.Spec
