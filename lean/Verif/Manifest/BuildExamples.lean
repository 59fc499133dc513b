import Verif.Manifest.BuildMain
import Verif.Block.IncrProps

/-! # What a new manifest contains: examples and divergences (C61) -/

namespace Verif.Manifest.Build

open Verif

/-- A backup of PostgreSQL 15 that is online, with bundles, page checksums and two exclusions: `junk` and `keep/`. -/
def exCfg : Cfg where
  ts := [80, 71, 95, 49, 53, 95, 50]
  wal := [112, 103, 95, 119, 97, 108]
  version := 150000
  online := true
  checksumPage := true
  bundle := true
  exclude := [[106, 117, 110, 107], [107, 101, 101, 112, 47]]
  tablespaces := some [(16400, [116, 115, 49])]
  check := fun _ => .ok ()

/-- A data directory. -/
def exTree : DTree :=
  (.file [80, 71, 95, 86, 69, 82, 83, 73, 79, 78] 3 (.path [98, 97, 115, 101]
  (.path [49]
  (.file [49, 50, 53, 57] 8192 (.file [80, 71, 95, 86, 69, 82, 83, 73, 79, 78] 3 (.file [112, 103, 95, 105, 110, 116, 101, 114, 110, 97, 108, 46, 105, 110, 105, 116] 10 (.file [116, 51, 95, 49, 54, 51, 56, 52, 95, 118, 109, 46, 49] 5 .nil))))
  .nil)
  (.path [103, 108, 111, 98, 97, 108]
  (.file [49, 50, 54, 48] 0 (.file [112, 103, 95, 99, 111, 110, 116, 114, 111, 108] 8192 .nil))
  (.path [106, 117, 110, 107]
  (.file [97] 1 .nil)
  (.path [107, 101, 101, 112]
  (.file [97] 1 .nil)
  (.link [108, 111, 103] [47, 108, 111, 103] false .path
  (.file [120, 46, 108, 111, 103] 4 .nil)
  (.link [109, 121, 46, 99, 111, 110, 102] [47, 99] false (.file 9) .nil
  (.path [112, 103, 95, 110, 111, 116, 105, 102, 121]
  (.file [97] 1 .nil)
  (.path [112, 103, 95, 116, 98, 108, 115, 112, 99]
  (.link [49, 54, 52, 48, 48] [47, 116, 115] false .path
  (.path [80, 71, 95, 49, 52, 95, 49]
  (.file [111, 108, 100] 1 .nil)
  (.path [80, 71, 95, 49, 53, 95, 50]
  (.path [53]
  (.file [55, 55] 16384 .nil)
  .nil)
  .nil))
  .nil)
  (.path [112, 103, 95, 119, 97, 108]
  (.file [48, 48, 48, 48, 48, 48, 48, 49, 48, 48, 48, 48, 48, 48, 48, 48, 48, 48, 48, 48, 48, 48, 48, 49] 1 (.path [97, 114, 99, 104, 105, 118, 101, 95, 115, 116, 97, 116, 117, 115]
  (.file [97] 1 .nil)
  .nil))
  (.path [112, 103, 115, 113, 108, 95, 116, 109, 112]
  (.file [97] 1 .nil)
  (.file [112, 111, 115, 116, 109, 97, 115, 116, 101, 114, 46, 112, 105, 100] 7 (.special [115, 111, 99, 107, 101, 116] (.file [116, 97, 98, 108, 101, 115, 112, 97, 99, 101, 95, 109, 97, 112] 7 .nil))))))))))))))

/-- Its manifest. -/
def exOut : List Entry :=
  [.path [112, 103, 95, 100, 97, 116, 97],
   .target [112, 103, 95, 100, 97, 116, 97] 0 [],
   .file [112, 103, 95, 100, 97, 116, 97, 47, 80, 71, 95, 86, 69, 82, 83, 73, 79, 78] 3 true false,
   .path [112, 103, 95, 100, 97, 116, 97, 47, 98, 97, 115, 101],
   .path [112, 103, 95, 100, 97, 116, 97, 47, 98, 97, 115, 101, 47, 49],
   .file [112, 103, 95, 100, 97, 116, 97, 47, 98, 97, 115, 101, 47, 49, 47, 49, 50, 53, 57] 8192 true true,
   .file [112, 103, 95, 100, 97, 116, 97, 47, 98, 97, 115, 101, 47, 49, 47, 80, 71, 95, 86, 69, 82, 83, 73, 79, 78] 3 true false,
   .path [112, 103, 95, 100, 97, 116, 97, 47, 103, 108, 111, 98, 97, 108],
   .file [112, 103, 95, 100, 97, 116, 97, 47, 103, 108, 111, 98, 97, 108, 47, 49, 50, 54, 48] 0 false true,
   .file [112, 103, 95, 100, 97, 116, 97, 47, 103, 108, 111, 98, 97, 108, 47, 112, 103, 95, 99, 111, 110, 116, 114, 111, 108] 8192 true false,
   .path [112, 103, 95, 100, 97, 116, 97, 47, 107, 101, 101, 112],
   .target [112, 103, 95, 100, 97, 116, 97, 47, 108, 111, 103] 0 [],
   .link [112, 103, 95, 100, 97, 116, 97, 47, 108, 111, 103] [47, 108, 111, 103],
   .path [112, 103, 95, 100, 97, 116, 97, 47, 108, 111, 103],
   .file [112, 103, 95, 100, 97, 116, 97, 47, 108, 111, 103, 47, 120, 46, 108, 111, 103] 4 true false,
   .target [112, 103, 95, 100, 97, 116, 97, 47, 109, 121, 46, 99, 111, 110, 102] 0 [],
   .link [112, 103, 95, 100, 97, 116, 97, 47, 109, 121, 46, 99, 111, 110, 102] [47, 99],
   .file [112, 103, 95, 100, 97, 116, 97, 47, 109, 121, 46, 99, 111, 110, 102] 9 true false,
   .path [112, 103, 95, 100, 97, 116, 97, 47, 112, 103, 95, 110, 111, 116, 105, 102, 121],
   .path [112, 103, 95, 100, 97, 116, 97, 47, 112, 103, 95, 116, 98, 108, 115, 112, 99],
   .path [112, 103, 95, 116, 98, 108, 115, 112, 99],
   .path [112, 103, 95, 116, 98, 108, 115, 112, 99, 47, 49, 54, 52, 48, 48],
   .target [112, 103, 95, 116, 98, 108, 115, 112, 99, 47, 49, 54, 52, 48, 48] 16400 [116, 115, 49],
   .link [112, 103, 95, 100, 97, 116, 97, 47, 112, 103, 95, 116, 98, 108, 115, 112, 99, 47, 49, 54, 52, 48, 48] [47, 116, 115],
   .path [112, 103, 95, 116, 98, 108, 115, 112, 99, 47, 49, 54, 52, 48, 48, 47, 80, 71, 95, 49, 53, 95, 50],
   .path [112, 103, 95, 116, 98, 108, 115, 112, 99, 47, 49, 54, 52, 48, 48, 47, 80, 71, 95, 49, 53, 95, 50, 47, 53],
   .file [112, 103, 95, 116, 98, 108, 115, 112, 99, 47, 49, 54, 52, 48, 48, 47, 80, 71, 95, 49, 53, 95, 50, 47, 53, 47, 55, 55] 16384 true true,
   .path [112, 103, 95, 100, 97, 116, 97, 47, 112, 103, 95, 119, 97, 108],
   .path [112, 103, 95, 100, 97, 116, 97, 47, 112, 103, 95, 119, 97, 108, 47, 97, 114, 99, 104, 105, 118, 101, 95, 115, 116, 97, 116, 117, 115],
   .file [112, 103, 95, 100, 97, 116, 97, 47, 116, 97, 98, 108, 101, 115, 112, 97, 99, 101, 95, 109, 97, 112] 7 true false]

theorem names_of : ∀ {t : DTree}, TNames t → Names t := by
  intro t ht p k h
  induction h with
  | file => intro n hn; rw [List.mem_singleton.1 hn]; exact ht.1
  | special => intro n hn; rw [List.mem_singleton.1 hn]; exact ht.1
  | path => intro n hn; rw [List.mem_singleton.1 hn]; exact ht.1
  | inPath _ ih =>
    intro n hn
    rcases List.mem_cons.1 hn with rfl | hn
    · exact ht.1
    · exact ih ht.2.1 n hn
  | link => intro n hn; rw [List.mem_singleton.1 hn]; exact ht.1
  | linkFile => intro n hn; rw [List.mem_singleton.1 hn]; exact ht.1
  | linkSpecial => intro n hn; rw [List.mem_singleton.1 hn]; exact ht.1
  | linkPath => intro n hn; rw [List.mem_singleton.1 hn]; exact ht.1
  | inLink _ ih =>
    intro n hn
    rcases List.mem_cons.1 hn with rfl | hn
    · exact ht.1
    · exact ih (ht.2.1 rfl) n hn
  | afterFile _ ih => exact ih ht.2
  | afterSpecial _ ih => exact ih ht.2
  | afterPath _ ih => exact ih ht.2.2
  | afterLink _ ih => exact ih ht.2.2

/-- The names of a tree, to be computed. -/
def tnamesB : DTree → Bool
  | .nil => true
  | .file n _ rest => (n != [] && !n.contains 47) && tnamesB rest
  | .special n rest => (n != [] && !n.contains 47) && tnamesB rest
  | .path n ch rest => (n != [] && !n.contains 47) && (tnamesB ch && tnamesB rest)
  | .link n _ _ _ ch rest => (n != [] && !n.contains 47) && (tnamesB ch && tnamesB rest)

theorem nm_of {n : Str} (h : (n != [] && !n.contains 47) = true) : Nm n := by
  simpa [Nm] using h

theorem tnames_ofB : ∀ {t : DTree}, tnamesB t = true → TNames t
  | .nil, _ => trivial
  | .file n s rest, h => by
    rw [tnamesB, Bool.and_eq_true] at h
    exact ⟨nm_of h.1, tnames_ofB h.2⟩
  | .special n rest, h => by
    rw [tnamesB, Bool.and_eq_true] at h
    exact ⟨nm_of h.1, tnames_ofB h.2⟩
  | .path n ch rest, h => by
    rw [tnamesB, Bool.and_eq_true] at h
    have h2 := Bool.and_eq_true_iff.1 h.2
    exact ⟨nm_of h.1, tnames_ofB h2.1, tnames_ofB h2.2⟩
  | .link n dest tw g ch rest, h => by
    rw [tnamesB, Bool.and_eq_true] at h
    have h2 := Bool.and_eq_true_iff.1 h.2
    exact ⟨nm_of h.1, fun _ => tnames_ofB h2.1, tnames_ofB h2.2⟩

theorem ex_names : Names exTree := names_of (tnames_ofB (by decide +kernel))

theorem ex_wal : WalDir exCfg := .inl rfl

theorem ex_out : newBuild exCfg exTree = .ok exOut := Block.ok_of_toOption (by decide +kernel)

/-- The example meets the hypotheses of `c61_entries`. -/
example : WalDir exCfg ∧ Names exTree ∧ newBuild exCfg exTree = .ok exOut := ⟨ex_wal, ex_names, ex_out⟩

/-- The relation in the tablespace is in the manifest, and its pages are checked. -/
example : ∃ p k, Has exTree p k ∧ Reached exCfg p ∧ Adds exCfg p k
    (.file [112, 103, 95, 116, 98, 108, 115, 112, 99, 47, 49, 54, 52, 48, 48, 47, 80, 71, 95, 49, 53, 95, 50, 47, 53, 47, 55, 55] 16384 true true) := by
  have h := (c61_entries ex_wal ex_names ex_out (.file [112, 103, 95, 116, 98, 108, 115, 112, 99, 47, 49, 54, 52, 48, 48, 47, 80, 71, 95, 49, 53, 95, 50, 47, 53, 47, 55, 55] 16384 true true)).1 (by decide +kernel)
  rcases h with h | h | h
  · cases h
  · cases h
  · exact h

/-- The example meets the hypotheses of `c61_success`; without the directory of the version in the tablespace there is no manifest. -/
example : WalDir exCfg ∧ Names exTree ∧ (∀ l, exCfg.check l = .ok ()) ∧ ∀ p k, Has exTree p k → Reached exCfg p → Fine exCfg p k :=
  ⟨ex_wal, ex_names, fun _ => rfl, (c61_success ex_wal ex_names fun _ => rfl).1 ⟨_, ex_out⟩⟩

example : ¬ ∃ out, newBuild { exCfg with ts := [80, 71, 95, 49, 54, 95, 50] } exTree = .ok out := by
  rintro ⟨out, h⟩
  have : (newBuild { exCfg with ts := [80, 71, 95, 49, 54, 95, 50] } exTree).toOption = none := by decide +kernel
  rw [h] at this
  cases this

/-- Two files of the example have the same name only when they are the same: the hypotheses of `c61_names`. -/
example : Has exTree [pgVersionZ] (.file 3 false) ∧ Has exTree [[98, 97, 115, 101], [49], pgVersionZ] (.file 3 false) ∧ ename [] pgVersionZ ≠ ename [[98, 97, 115, 101], [49]] pgVersionZ :=
  ⟨.file, .afterFile (.inPath (.inPath (.afterFile .file))), by decide⟩

/-! ## Divergences -/

/-- Exclusions are relative to the data directory (doc/xml/reference.xml 1550-1568), but they are of no use below a tablespace: neither for
an entry nor for the contents of the tablespace. -/
theorem c61_exclude_divergence : ∃ out,
    newBuild { exCfg with exclude := [[112, 103, 95, 116, 98, 108, 115, 112, 99, 47, 49, 54, 52, 48, 48, 47], [112, 103, 95, 116, 98, 108, 115, 112, 99, 47, 49, 54, 52, 48, 48, 47, 80, 71, 95, 49, 53, 95, 50], [112, 103, 95, 116, 98, 108, 115, 112, 99, 47, 49, 54, 52, 48, 48, 47, 80, 71, 95, 49, 53, 95, 50, 47, 53, 47, 55, 55]] } exTree = .ok out ∧
    Entry.file [112, 103, 95, 116, 98, 108, 115, 112, 99, 47, 49, 54, 52, 48, 48, 47, 80, 71, 95, 49, 53, 95, 50, 47, 53, 47, 55, 55] 16384 true true ∈ out := by
  have h : (newBuild { exCfg with exclude := [[112, 103, 95, 116, 98, 108, 115, 112, 99, 47, 49, 54, 52, 48, 48, 47], [112, 103, 95, 116, 98, 108, 115, 112, 99, 47, 49, 54, 52, 48, 48, 47, 80, 71, 95, 49, 53, 95, 50], [112, 103, 95, 116, 98, 108, 115, 112, 99, 47, 49, 54, 52, 48, 48, 47, 80, 71, 95, 49, 53, 95, 50, 47, 53, 47, 55, 55]] } exTree).toOption.any (fun o => o.contains (Entry.file [112, 103, 95, 116, 98, 108, 115, 112, 99, 47, 49, 54, 52, 48, 48, 47, 80, 71, 95, 49, 53, 95, 50, 47, 53, 47, 55, 55] 16384 true true)) = true := by
    decide +kernel
  cases ho : newBuild { exCfg with exclude := [[112, 103, 95, 116, 98, 108, 115, 112, 99, 47, 49, 54, 52, 48, 48, 47], [112, 103, 95, 116, 98, 108, 115, 112, 99, 47, 49, 54, 52, 48, 48, 47, 80, 71, 95, 49, 53, 95, 50], [112, 103, 95, 116, 98, 108, 115, 112, 99, 47, 49, 54, 52, 48, 48, 47, 80, 71, 95, 49, 53, 95, 50, 47, 53, 47, 55, 55]] } exTree with
  | error e => rw [ho] at h; cases h
  | ok out =>
    rw [ho] at h
    exact ⟨out, rfl, by simpa [Except.toOption] using h⟩

/-- A file that only starts with `pg_internal.init`, and has a dot before a digit somewhere, is left out too. -/
theorem c61_init_divergence : newBuild { exCfg with exclude := [] } (.path [98, 97, 115, 101] (.path [49] (.file [112, 103, 95, 105, 110, 116, 101, 114, 110, 97, 108, 46, 105, 110, 105, 116, 95, 109, 105, 110, 101, 46, 49, 97] 5 .nil) .nil) .nil) =
    .ok [.path pgdataZ, .target pgdataZ 0 [], .path (inData [98, 97, 115, 101]), .path (inData ([98, 97, 115, 101] ++ 47 :: [49]))] :=
  Block.ok_of_toOption (by decide +kernel)

end Verif.Manifest.Build
