import Verif.Block.ChecksumModel
import Verif.Block.IncrLemmas

/-! # C16: the block checksum list does not depend on how the file is read -/

namespace Verif.Block

/-- The state after some data: checksums of the full blocks, and the data of the block that is not full. -/
structure ChecksumInv (blockSize : Nat) (hash : List UInt8 → List UInt8) (st : ChecksumState) (data : List UInt8) : Prop where
  list : st.list = (blocks blockSize (data.length / blockSize) data).map hash
  rest : st.checksum.getD [] = data.drop (data.length / blockSize * blockSize)
  some : st.checksum.isSome ↔ data.length % blockSize ≠ 0
  current : st.checksum.isSome → st.blockCurrent = data.length % blockSize

theorem blocks_append {bs : Nat} : ∀ (n : Nat) (a b : List UInt8), n * bs ≤ a.length → blocks bs n (a ++ b) = blocks bs n a
  | 0, _, _, _ => rfl
  | n + 1, a, b, h => by
    rw [Nat.add_mul] at h
    rw [blocks, blocks, List.take_append_of_le_length (by omega), List.drop_append_of_le_length (by omega),
      blocks_append n _ _ (by rw [List.length_drop]; omega)]

theorem checksumStep_inv {bs : Nat} {hash : List UInt8 → List UInt8} {st : ChecksumState} {data : List UInt8} (hbs : 0 < bs)
    (h : ChecksumInv bs hash st data) (input : List UInt8) (hne : input.length ≠ 0) :
    0 < (checksumStep bs hash st input).2 ∧ (checksumStep bs hash st input).2 ≤ input.length ∧
      ChecksumInv bs hash (checksumStep bs hash st input).1 (data ++ input.take (checksumStep bs hash st input).2) := by
  have hdm := Nat.div_add_mod data.length bs
  rw [Nat.mul_comm] at hdm
  have hmod := Nat.mod_lt data.length hbs
  -- The block so far
  have hcur : checksumCurrent st =
      (data.length % bs, data.drop (data.length / bs * bs)) := by
    have hr := h.rest
    have hs := h.some
    have hc := h.current
    unfold checksumCurrent
    cases hck : st.checksum with
    | none =>
      rw [hck] at hr hs
      simp at hr hs
      have : data.drop (data.length / bs * bs) = [] := by rw [List.drop_eq_nil_iff]; omega
      rw [this, hs]
    | some d =>
      rw [hck] at hr hc
      simp at hr hc
      rw [hr, hc]
  unfold checksumStep
  rw [hcur]
  simp only []
  generalize hsize : (if bs - data.length % bs < input.length then bs - data.length % bs else input.length) = size
  have hs1 : 0 < size := by rw [← hsize]; split <;> omega
  have hs2 : size ≤ input.length := by rw [← hsize]; split <;> omega
  have hs3 : data.length % bs + size ≤ bs := by rw [← hsize]; split <;> omega
  refine ⟨hs1, hs2, ?_⟩
  have hlen : (data ++ input.take size).length = data.length + size := by
    rw [List.length_append, List.length_take, Nat.min_eq_left hs2]
  split
  · rename_i hfull
    have hdiv : (data.length + size) / bs = data.length / bs + 1 := by
      rw [show data.length + size = (data.length / bs + 1) * bs by rw [Nat.add_mul]; omega, Nat.mul_div_cancel _ hbs]
    have hmod0 : (data.length + size) % bs = 0 := by
      rw [show data.length + size = (data.length / bs + 1) * bs by rw [Nat.add_mul]; omega, Nat.mul_mod_left]
    refine ⟨?_, ?_, ?_, ?_⟩
    · dsimp only
      rw [h.list, hlen, hdiv, blocks_add, blocks_append _ _ _ (by omega), List.map_append]
      congr 1
      rw [blocks, blocks, List.drop_append_of_le_length (by omega),
        List.take_of_length_le (l := data.drop (data.length / bs * bs) ++ input.take size)]
      · rfl
      · simp only [List.length_append, List.length_drop, List.length_take, Nat.min_eq_left hs2]
        omega
    · dsimp only
      rw [hlen, hdiv]
      simp only [Option.getD_none]
      symm
      rw [List.drop_eq_nil_iff, hlen, Nat.add_mul]
      omega
    · dsimp only
      rw [hlen]
      simp [hmod0]
    · intro hs
      cases hs
  · rename_i hfull
    have hdiv : (data.length + size) / bs = data.length / bs := by
      rw [show data.length + size = data.length % bs + size + data.length / bs * bs by omega, Nat.add_mul_div_right _ _ hbs,
        Nat.div_eq_of_lt (by omega), Nat.zero_add]
    have hmod1 : (data.length + size) % bs = data.length % bs + size := by
      rw [show data.length + size = data.length % bs + size + data.length / bs * bs by omega, Nat.add_mul_mod_self_right,
        Nat.mod_eq_of_lt (by omega)]
    refine ⟨?_, ?_, ?_, ?_⟩
    · dsimp only
      rw [h.list, hlen, hdiv, blocks_append _ _ _ (by omega)]
    · dsimp only
      rw [hlen, hdiv, List.drop_append_of_le_length (by omega)]
      rfl
    · dsimp only
      rw [hlen, hmod1]
      simp
      omega
    · intro _
      dsimp only
      rw [hlen, hmod1]

/-- All the input is used. -/
theorem checksumProcess_used {bs : Nat} {hash : List UInt8 → List UInt8} (hbs : 0 < bs) : ∀ (fuel : Nat) (st : ChecksumState)
    (data input : List UInt8), ChecksumInv bs hash st data → input.length ≤ fuel →
    ChecksumInv bs hash (checksumProcess bs hash fuel st input) (data ++ input)
  | 0, st, data, input, h, hf => by
    have : input = [] := List.length_eq_zero_iff.1 (by omega)
    subst this
    rw [List.append_nil]
    exact h
  | fuel + 1, st, data, input, h, hf => by
    rw [checksumProcess]
    split
    · rename_i h0
      rw [List.length_eq_zero_iff.1 h0, List.append_nil]
      exact h
    · rename_i h0
      obtain ⟨k1, k2, k3⟩ := checksumStep_inv hbs h input h0
      have := checksumProcess_used hbs fuel _ _ (input.drop (checksumStep bs hash st input).2) k3 (by
        rw [List.length_drop]; omega)
      rw [List.append_assoc, List.take_append_drop] at this
      exact this

theorem checksumFold_inv {bs : Nat} {hash : List UInt8 → List UInt8} (hbs : 0 < bs) : ∀ (buffers : List (List UInt8))
    (st : ChecksumState) (data : List UInt8), ChecksumInv bs hash st data →
    ChecksumInv bs hash (buffers.foldl (fun st input => checksumProcess bs hash input.length st input) st) (data ++ buffers.flatten)
  | [], st, data, h => by simpa using h
  | b :: bsx, st, data, h => by
    have := checksumFold_inv hbs bsx _ _ (checksumProcess_used hbs b.length st data b h (Nat.le_refl _))
    rw [List.append_assoc] at this
    exact this

/-- However the file is split in buffers, the list is the checksums of its consecutive blocks, the last one possibly short. -/
theorem c16_list (blockSize : Nat) (hash : List UInt8 → List UInt8) (buffers : List (List UInt8)) (hbs : 0 < blockSize) (i : Nat) :
    (checksumFilter blockSize hash buffers)[i]? =
      if i * blockSize < buffers.flatten.length then some (hash (slice buffers.flatten (i * blockSize) blockSize)) else none := by
  have hinv := checksumFold_inv (hash := hash) hbs buffers .new [] ⟨by simp [ChecksumState.new, blocks], by simp [ChecksumState.new],
    by simp [ChecksumState.new], by simp [ChecksumState.new]⟩
  rw [List.nil_append] at hinv
  unfold checksumFilter
  generalize buffers.flatten = file at *
  generalize buffers.foldl _ _ = st at *
  have hres : checksumResult hash st = (fileBlocks blockSize file).map hash := by
    have hdm := Nat.div_add_mod file.length blockSize
    rw [Nat.mul_comm] at hdm
    rw [fileBlocks_eq hbs, List.map_append, ← hinv.list, List.length_drop]
    have hr := hinv.rest
    have hs := hinv.some
    unfold checksumResult
    cases hck : st.checksum with
    | none =>
      rw [hck] at hs
      simp at hs
      rw [if_neg (by omega)]
      simp
    | some d =>
      rw [hck] at hr hs
      simp at hr hs
      rw [if_pos (by omega), hr]
      rfl
  rw [hres, List.getElem?_map]
  unfold fileBlocks
  have hdm := Nat.div_add_mod file.length blockSize
  rw [Nat.mul_comm] at hdm
  have hmod := Nat.mod_lt file.length hbs
  split
  · rename_i hi
    have : i < blockTotal file.length blockSize := by
      rw [blockTotal_cases hbs]
      rcases Nat.lt_or_ge i (file.length / blockSize) with h | h
      · split <;> omega
      · have := Nat.mul_le_mul_right blockSize h
        rw [if_pos (by omega)]
        rcases Nat.lt_or_ge (file.length / blockSize) i with h' | h'
        · have := Nat.mul_le_mul_right blockSize h'
          rw [Nat.succ_mul] at this
          omega
        · omega
    rw [blocks_getElem? _ _ _ _ this]
    rfl
  · rename_i hi
    rw [List.getElem?_eq_none]
    · rfl
    · rw [blocks_length, blockTotal_cases hbs]
      split
      · rcases Nat.lt_or_ge (file.length / blockSize) i with h' | h'
        · omega
        · have := Nat.mul_le_mul_right blockSize h'
          omega
      · rcases Nat.lt_or_ge i (file.length / blockSize) with h' | h'
        · have := Nat.mul_le_mul_right blockSize (show i + 1 ≤ _ from h')
          rw [Nat.succ_mul] at this
          omega
        · omega

/-- The split does not matter. -/
theorem c16_split (blockSize : Nat) (hash : List UInt8 → List UInt8) (a b : List (List UInt8)) (hbs : 0 < blockSize)
    (h : a.flatten = b.flatten) : checksumFilter blockSize hash a = checksumFilter blockSize hash b := by
  apply List.ext_getElem?
  intro i
  rw [c16_list _ _ _ hbs, c16_list _ _ _ hbs, h]

/-- It is the list that the model of restore (`c15_restore`) uses. -/
theorem c16_restore (f : Format) (buffers : List (List UInt8)) (hbs : 0 < f.blockSize) :
    checksumFilter f.blockSize f.hash buffers = blockChecksums f buffers.flatten := by
  have key : ∀ file : List UInt8, checksumFilter f.blockSize f.hash [file] = blockChecksums f file := by
    intro file
    apply List.ext_getElem?
    intro i
    rw [c16_list _ _ _ hbs]
    unfold blockChecksums
    rw [List.getElem?_map]
    have hlen := blocks_length f.blockSize (blockTotal file.length f.blockSize) file
    have hfl : [file].flatten = file := by simp
    rw [hfl]
    have hflat := fileBlocks_flatten hbs file
    split
    · rename_i hi
      have : i < blockTotal file.length f.blockSize := by
        rcases Nat.lt_or_ge i (blockTotal file.length f.blockSize) with h | h
        · exact h
        · exfalso
          have h1 := Nat.mul_le_mul_right f.blockSize h
          unfold fileBlocks at hflat
          rw [flatten_blocks] at hflat
          have := congrArg List.length hflat
          rw [List.length_take] at this
          omega
      rw [blocks_getElem? _ _ _ _ this]
      rfl
    · rename_i hi
      rw [List.getElem?_eq_none]
      · rfl
      · rw [hlen]
        rcases Nat.lt_or_ge i (blockTotal file.length f.blockSize) with h | h
        · exfalso
          have hdm := Nat.div_add_mod file.length f.blockSize
          rw [Nat.mul_comm] at hdm
          rw [blockTotal_cases hbs] at h
          have h2 : i ≤ file.length / f.blockSize := by split at h <;> omega
          have h3 := Nat.mul_le_mul_right f.blockSize h2
          split at h
          · omega
          · have h4 := Nat.mul_le_mul_right f.blockSize (show i + 1 ≤ file.length / f.blockSize by omega)
            rw [Nat.succ_mul] at h4
            omega
        · exact h
  rw [c16_split _ _ buffers [buffers.flatten] hbs (by simp), key]

example : checksumFilter 3 id [[1], [2, 3, 4, 5], [], [6, 7]] = [[1, 2, 3], [4, 5, 6], [7]] := by decide

end Verif.Block
