import Verif.Config.NameMain
import Verif.Config.Table

/-! # C62: the tables of the program -/

namespace Verif.Config

set_option maxRecDepth 100000

/-- C62: the tables of the program have what `c62_names` asks for. -/
theorem c62_table : realTable.WF where
  opts := by decide +kernel
  deps := by decide +kernel
  ids := by decide +kernel

/-- The abbreviations `a`, `ar`, `arc`, `arch`, `archi`, `archiv`, `archive`, `archive-`,
`repo-s3-key-`, `repo-s3-r`, `repo-s3-re`, `repo-t`. -/
def ambiguous : List Str := [
  [97],
  [97, 114],
  [97, 114, 99],
  [97, 114, 99, 104],
  [97, 114, 99, 104, 105],
  [97, 114, 99, 104, 105, 118],
  [97, 114, 99, 104, 105, 118, 101],
  [97, 114, 99, 104, 105, 118, 101, 45],
  [114, 101, 112, 111, 45, 115, 51, 45, 107, 101, 121, 45],
  [114, 101, 112, 111, 45, 115, 51, 45, 114],
  [114, 101, 112, 111, 45, 115, 51, 45, 114, 101],
  [114, 101, 112, 111, 45, 116]]

/-- The check behind `c62_prefix_only`, for the deprecated name `j` cut to `n` bytes. -/
def cutOk (j n : Nat) : Bool :=
  let base := ((realDeps.map DepRule.name).getD j []).take n
  base.length != n ||
    pick true (realDeps.map DepRule.name) base != some j ||
    !(realOpts.any fun o => base.isPrefixOf o.name) ||
    pick true (realOpts.map OptRule.name) base != none ||
    ambiguous.contains base

theorem cutOk_all : ∀ j < 39, ∀ n < 23, cutOk j n = true := by decide +kernel

theorem dep_len : ∀ j < 39, ((realDeps.map DepRule.name).getD j []).length < 23 := by decide +kernel

/-- C62: in the tables of the program the abbreviations that several options start with and that are
accepted nevertheless are these twelve. -/
theorem c62_prefix_only (base : Str) (dep : DepRule) (id : Nat)
    (h : Denotes realTable true base id (some dep))
    (hs : ∃ o ∈ realTable.opts, base <+: o.name) : base ∈ ambiguous := by
  cases h with
  | @dep j _ no hp hd =>
    have hpick : pick true (realDeps.map DepRule.name) base = some j :=
      (pick_iff c62_table.deps true base j).2 hp
    have hnone : pick true (realOpts.map OptRule.name) base = none := (pick_none c62_table.opts).2 no
    have hj : j < 39 := by
      have := pick_lt c62_table.deps hpick
      have hl : (realTable.deps.map DepRule.name).length = 39 := by decide +kernel
      omega
    have hpre : base <+: (realDeps.map DepRule.name).getD j [] := by
      rw [List.getD_eq_getElem?_getD]
      rcases hp with hp | ⟨_, _, ⟨n, hn, hb⟩, _⟩
      · have hp : (realDeps.map DepRule.name)[j]? = some base := hp
        rw [hp]; exact List.prefix_rfl
      · have hn : (realDeps.map DepRule.name)[j]? = some n := hn
        rw [hn]; exact hb
    have htake := List.prefix_iff_eq_take.1 hpre
    have hlen := hpre.length_le
    have hdl := dep_len j hj
    have hc := cutOk_all j hj base.length (by omega)
    have hany : (realOpts.any fun o => base.isPrefixOf o.name) = true := by
      obtain ⟨o, ho, hb⟩ := hs
      exact List.any_eq_true.2 ⟨o, ho, List.isPrefixOf_iff_prefix.2 hb⟩
    rw [cutOk, ← htake] at hc
    simp only [hpick, hnone, hany] at hc
    simpa using hc

/-- The premises hold for `archive`. -/
example : ∃ dep id, Denotes realTable true [97, 114, 99, 104, 105, 118, 101] id (some dep) ∧
    ∃ o ∈ realTable.opts, ([97, 114, 99, 104, 105, 118, 101] : Str) <+: o.name := by
  have hp : pick true (realTable.opts.map OptRule.name) [97, 114, 99, 104, 105, 118, 101] = none := by decide +kernel
  have hq : pick true (realTable.deps.map DepRule.name) [97, 114, 99, 104, 105, 118, 101] = some 0 := by decide +kernel
  exact ⟨_, _, .dep ((pick_none c62_table.opts).1 hp) ((pick_iff c62_table.deps _ _ _).1 hq) rfl,
    _, List.mem_of_getElem? (i := 2) rfl, by decide⟩

end Verif.Config
