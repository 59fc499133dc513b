import Verif.Storage.ObjModel

/-!
# What a listing by time is

A key has a history, oldest version first. What was current at a time is the last version that is not newer.
-/

namespace Verif.Storage.Spec

open Verif.Storage

/-- The version of a history that was current at a time. -/
def CurrentAt (t : Nat) (h : List Ver) (v : Ver) : Prop :=
  ∃ a b, h = a ++ v :: b ∧ v.time ≤ t ∧ ∀ w ∈ b, t < w.time

/-- There was no version at the time. -/
def NoneAt (t : Nat) (h : List Ver) : Prop := ∀ w ∈ h, t < w.time

/-- The files that the callback gets. -/
def files (l : List Out) : List FileInfo := l.filterMap fun | .file i => some i | .path _ => none

/-- The paths that the callback gets. -/
def paths (l : List Out) : List Name := l.filterMap fun | .path n => some n | .file _ => none

/-- What a key gives: nothing, or the name, size and version of what was current at the time, unless that is a delete marker. -/
inductive Shows (t : Nat) (name : Name) (h : List Ver) : List (Name × Nat × Option Nat) → Prop where
  | nothing (h0 : NoneAt t h) : Shows t name h []
  | deleted {v : Ver} (hv : CurrentAt t h v) (hd : v.del = true) : Shows t name h []
  | current {v : Ver} (hv : CurrentAt t h v) (hd : v.del = false) : Shows t name h [(name, v.size, some v.id)]

/-- What the keys give, one after another, each with a time that is taken from its history. -/
inductive ShowsAll (t : Nat) (time : List Ver → Nat) : List (Name × List Ver) → List ((Name × Nat × Option Nat) × Nat) → Prop where
  | nil : ShowsAll t time [] []
  | cons {k : Name × List Ver} {ks : List (Name × List Ver)} {a : List (Name × Nat × Option Nat)}
    {b : List ((Name × Nat × Option Nat) × Nat)} (h : Shows t k.1 k.2 a) (h2 : ShowsAll t time ks b) :
    ShowsAll t time (k :: ks) (a.map (fun x => (x, time k.2)) ++ b)

/-- A store: different names that are not empty, each with a history that is not empty. -/
structure Store (ks : List (Name × List Ver)) : Prop where
  nodup : (ks.map (·.1)).Nodup
  named : ∀ k ∈ ks, k.1 ≠ []
  some : ∀ k ∈ ks, k.2 ≠ []
  same : ∀ k ∈ ks, ∀ v ∈ k.2, v.name = k.1

/-- What is said of a file, less the time. -/
def noTime (i : FileInfo) : Name × Nat × Option Nat := (i.name, i.size, i.id)

/-- All that is said of a file. -/
def withTime (i : FileInfo) : (Name × Nat × Option Nat) × Nat := (noTime i, i.time)

/-- The time of the first version. -/
def oldest : List Ver → Nat
  | [] => 0
  | v :: _ => v.time

/-- The time of the last version. -/
def newest (h : List Ver) : Nat := oldest h.reverse

end Verif.Storage.Spec
