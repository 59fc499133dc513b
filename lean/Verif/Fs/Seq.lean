import Verif.Fs.Props

/-!
# Writes one after another
-/

namespace Verif.Fs

/-- A writer with all safeguards, as `storageNewWriteP` makes it by default (src/storage/storage.c 556-594). -/
def Safe (w : Writer) : Prop := w.atomic = true ∧ w.truncate = true ∧ w.syncFile = true ∧ w.syncPath = true

/-- The temporary file, if there is one from an earlier run, is no other file. -/
def Private (fs : Fs) (w : Writer) : Prop := ∀ i, fs.cur w.tmp = .file i → ∀ p, p ≠ w.tmp → Ent.file i ∉ fs.hist p

theorem Private.unshared {fs : Fs} {w : Writer} (h : Private fs w) {p : Path} (hp : p ≠ w.tmp) : Unshared fs w p :=
  fun i hi hc => h i hc p hp hi

/-- A write leaves the temporary files of other writers alone. -/
theorem Private.put {f0 f1 : Fs} {w w' : Writer} {bufs : List Str} (h0 : WF f0) (hs : Safe w) (h : Private f0 w') (hn : w'.tmp ≠ w.name)
    (hd : done f0 (writeOps w f0 bufs) = some f1) : Private f1 w' := by
  obtain ⟨h4, -⟩ := (write_inv (fs := f1) (bufs := bufs) h0 hs.1 hs.2.1 hs.2.2.1).2 hd
  intro i hi p hp hm
  by_cases ht : w'.tmp = w.tmp
  · rw [ht, h4.tmp] at hi; cases hi
  · rcases h4.inv.cur w'.tmp ht with hc | ⟨hc, -⟩ | ⟨hc, -⟩
    · rw [hi] at hc
      have hit : i ≠ target f0 w := by
        intro hx
        unfold target at hx
        cases htc : f0.cur w.tmp with
        | file j =>
          rw [htc] at hx
          dsimp only at hx
          subst hx
          exact h i hc.symm w.tmp (Ne.symm ht) (htc ▸ h0.cur w.tmp)
        | missing => rw [htc] at hx; exact Nat.lt_irrefl _ (hx ▸ h0.fdLt hc.symm)
        | dir => rw [htc] at hx; exact Nat.lt_irrefl _ (hx ▸ h0.fdLt hc.symm)
        | link t => rw [htc] at hx; exact Nat.lt_irrefl _ (hx ▸ h0.fdLt hc.symm)
      by_cases hpt : p = w.tmp
      · subst hpt
        rcases h4.inv.tmpHist _ hm with h1 | h1 | h1
        · exact h i hc.symm _ hp h1
        · exact hit (Ent.file.inj h1)
        · cases h1
      · rcases h4.inv.hist p hpt _ hm with h1 | ⟨h1, -⟩ | ⟨-, -, h1, -⟩
        · exact h i hc.symm p hp h1
        · cases h1
        · exact hit (Ent.file.inj h1)
    · rw [hi] at hc; cases hc
    · exact absurd hc hn

theorem Stable.dir_unshared {fs : Fs} {w : Writer} {p : Path} (h0 : WF fs) (h : Stable fs p .dir) : Unshared fs w p := by
  intro i hi
  exfalso
  have hx := h (look (fun q => if q = p then .file i else fs.cur q) (fun i => (fs.inode i).data))
    ⟨_, _, fun q => by
      by_cases hq : q = p
      · subst hq; simpa using hi
      · simpa [hq] using h0.cur q, fun _ _ => rfl, fun _ => rfl⟩
  have := (look_dir hx).2
  simp at this

theorem Stable.dir_cur {fs : Fs} {p : Path} (h0 : WF fs) (h : Stable fs p .dir) : fs.cur p = .dir := (look_dir (h _ (crash_view h0))).2

/-- A write leaves directories alone. -/
theorem Stable.dir_put {f0 f1 : Fs} {w : Writer} {bufs : List Str} {p : Path} (h0 : WF f0) (hs : Safe w) (h : Stable f0 p .dir)
    (hpn : p ≠ w.name) (hpt : p ≠ w.tmp) (hd : Reach f0 (writeOps w f0 bufs) f1) : Stable f1 p .dir := by
  intro disk hc
  refine c46_others f0 f1 w bufs p .dir disk h0 hs.1 hs.2.1 hs.2.2.1 hpn hpt (h.dir_unshared h0) ?_ h hd hc
  rw [h.dir_cur h0]
  rintro ⟨hx, -⟩
  cases hx

end Verif.Fs
