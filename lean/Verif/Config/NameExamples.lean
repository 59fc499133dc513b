import Verif.Config.NameMain
import Verif.Config.Table

/-! # C62: examples and divergences, on the tables of the program -/

namespace Verif.Config

set_option maxRecDepth 100000

/-- `repo2-path` is the path of the second repository. -/
example : parseName realTable true false [114, 101, 112, 111, 50, 45, 112, 97, 116, 104] =
    .ok (some ⟨125, 1, false, false, false, false⟩) := by decide +kernel

/-- The specification holds for it, with the key 2. -/
example : Reads [114, 101, 112, 111, 50, 45, 112, 97, 116, 104] false false (some 2) [114, 101, 112, 111, 45, 112, 97, 116, 104] :=
  .set (by decide) (by decide)
    (.key (stem := [114, 101, 112, 111]) (ds := [50]) (tail := [112, 97, 116, 104]) (by decide) (by decide)
      (by rintro ⟨t, c, h, h1, h2⟩
          have := congrArg List.getLast? h
          simp at this
          subst this
          simp at h2)
      (by decide) (by decide) rfl (by decide) (by decide))

/-- `no-online` negates `online`. -/
example : parseName realTable true false [110, 111, 45, 111, 110, 108, 105, 110, 101] =
    .ok (some ⟨56, 0, true, false, false, false⟩) := by decide +kernel

/-- `reset-compress-ty` resets `compress-type` on the command line... -/
example : parseName realTable true false [114, 101, 115, 101, 116, 45, 99, 111, 109, 112, 114, 101, 115, 115, 45, 116, 121] =
    .ok (some ⟨23, 0, false, true, false, false⟩) := by decide +kernel

/-- ...and is unknown in a configuration file, where names are not abbreviated. -/
example : parseName realTable false false [114, 101, 115, 101, 116, 45, 99, 111, 109, 112, 114, 101, 115, 115, 45, 116, 121] = .ok none := by decide +kernel

/-- `stanza` cannot be reset, `stanza1-x` is unknown, `pg-path` has no key, `1-path` no stem, `pg0-path`
and `pg257-path` keys out of range. -/
example : parseName realTable true false [114, 101, 115, 101, 116, 45, 115, 116, 97, 110, 122, 97] = .error .optionInvalid ∧
    parseName realTable true false [115, 116, 97, 110, 122, 97, 49, 45, 120] = .ok none ∧
    parseName realTable true false [112, 103, 45, 112, 97, 116, 104] = .error .optionInvalid ∧
    parseName realTable true false [49, 45, 112, 97, 116, 104] = .error .optionInvalid ∧
    parseName realTable true false [112, 103, 48, 45, 112, 97, 116, 104] = .error .optionInvalid ∧
    parseName realTable true false [112, 103, 50, 53, 55, 45, 112, 97, 116, 104] = .error .optionInvalid := by decide +kernel

/-- `repo-path` and `db-path` are deprecated names of the options with the key 1. -/
example : parseName realTable false false [114, 101, 112, 111, 45, 112, 97, 116, 104] =
      .ok (some ⟨125, 0, false, false, true, false⟩) ∧
    parseName realTable false false [100, 98, 45, 112, 97, 116, 104] =
      .ok (some ⟨74, 0, false, false, true, false⟩) := by decide +kernel

/-- C62, divergence: the key is added up in an `unsigned int` without a check for overflow, so a key
outside of the range 1 to 256 is accepted when it is in the range modulo `2 ^ 32`:
`repo4294967297-path` sets the path of the first repository. -/
theorem c62_wrap_divergence :
    ∃ stem ds tail : Str, number ds > 256 ∧
      parseName realTable false false (stem ++ ds ++ tail) =
        parseName realTable false false (stem ++ [49] ++ tail) ∧
      parseName realTable false false (stem ++ ds ++ tail) =
        .ok (some ⟨125, 0, false, false, false, false⟩) :=
  ⟨[114, 101, 112, 111], [52, 50, 57, 52, 57, 54, 55, 50, 57, 55], [45, 112, 97, 116, 104], by decide +kernel, by decide +kernel,
    by decide +kernel⟩

/-- C62, divergence: an abbreviation that several options start with is not refused when exactly one
deprecated name starts with it: on the command line `archive` is read as `archive-push-queue-max`
although all the options `archive-async`, `archive-check`, ... start with it. -/
theorem c62_prefix_divergence :
    ∃ base : Str, ∃ i j k : Nat, i ≠ j ∧ i ≠ k ∧ j ≠ k ∧
      (∃ o, realTable.opts[i]? = some o ∧ base <+: o.name) ∧
      (∃ o, realTable.opts[j]? = some o ∧ base <+: o.name) ∧
      (∃ o, realTable.opts[k]? = some o ∧ base <+: o.name) ∧
      parseName realTable true false base = .ok (some ⟨k, 0, false, false, true, false⟩) :=
  ⟨[97, 114, 99, 104, 105, 118, 101], 2, 3, 12,
    by decide, by decide, by decide,
    ⟨_, rfl, by decide⟩, ⟨_, rfl, by decide⟩, ⟨_, rfl, by decide⟩, by decide +kernel⟩

end Verif.Config
