import Verif.Backup.PageModel
import Mathlib.Data.List.Basic

/-!
# C32 and C33 Page checksums
-/

namespace Verif.Backup.Page

/-! ## C33: the checksum -/

/-- The sum of one of the 32 columns: the initial value, the words of the column and two rounds with zero. -/
def columnSum (initial : UInt32) (column : List UInt32) : UInt32 := (column ++ [0, 0]).foldl round initial

/-- The words of a column in a table with rows of 32 words. -/
def column (n : Nat) (data : List UInt32) (j : Nat) : List UInt32 := (List.range n).map fun i => data.getD (32 * i + j) 0

theorem row_getElem (sums data : List UInt32) (j : Nat) (hs : j < sums.length) (hd : j < data.length) :
    (row sums data)[j]? = some (round (sums.getD j 0) (data.getD j 0)) := by
  simp [row, List.getElem?_zipWith, List.getElem?_eq_getElem hs, List.getElem?_eq_getElem hd]

theorem row_length (sums data : List UInt32) (hs : sums.length = 32) (hd : 32 ≤ data.length) : (row sums (data.take 32)).length = 32 := by
  simp [row, hs]; omega

theorem rows_spec (n : Nat) : ∀ (sums data : List UInt32), sums.length = 32 → data.length = 32 * n →
    (rows n sums data).length = 32 ∧ ∀ j, j < 32 → (rows n sums data).getD j 0 = (column n data j).foldl round (sums.getD j 0) := by
  induction n with
  | zero => intro sums data hs hd; exact ⟨hs, fun j hj => by simp [rows, column]⟩
  | succ n ih =>
    intro sums data hs hd
    have hl := row_length sums data hs (by omega)
    obtain ⟨h1, h2⟩ := ih (row sums (data.take 32)) (data.drop 32) hl (by simp; omega)
    refine ⟨h1, ?_⟩
    intro j hj
    simp only [rows]
    rw [h2 j hj]
    have h3 : (row sums (data.take 32)).getD j 0 = round (sums.getD j 0) (data.getD j 0) := by
      rw [List.getD_eq_getElem?_getD, row_getElem _ _ _ (by omega) (by simp; omega)]
      simp [List.getD_eq_getElem?_getD, hj]
    have h4 : column (n + 1) data j = data.getD j 0 :: column n (data.drop 32) j := by
      unfold column
      rw [List.range_succ_eq_map, List.map_cons, List.map_map, Nat.mul_zero, Nat.zero_add]
      refine congrArg _ ?_
      apply List.map_congr_left
      intro i _
      simp only [Function.comp, List.getD_eq_getElem?_getD, List.getElem?_drop]
      have : 32 * (i + 1) + j = 32 + (32 * i + j) := by omega
      rw [this]
    rw [h3, h4, List.foldl_cons]

theorem foldl_getD (l : List UInt32) : l = (List.range l.length).map (fun j => l.getD j 0) := by
  apply List.ext_getElem
  · simp
  · intro i h1 h2
    simp [List.getD_eq_getElem?_getD, h1]

theorem words_length (n : Nat) : ∀ page : List UInt8, page.length = 4 * n → (words page).length = n := by
  induction n with
  | zero => intro page h; simp only [Nat.mul_zero, List.length_eq_zero_iff] at h; subst h; rfl
  | succ n ih =>
    intro page h
    match page, h with
    | a :: b :: c :: d :: rest, h =>
      simp only [List.length_cons] at h
      simp only [words, List.length_cons]
      rw [ih rest (by omega)]

/-- C33: the checksum of a page is the xor of 32 independent sums over the columns of the page, with the stored checksum taken as zero,
and of the block number, reduced to a number from 1 to 65535. -/
theorem c33_columns (page : List UInt8) (blockNo : UInt32) (n : Nat) (h : page.length = 128 * n) :
    pageChecksum page blockNo (128 * n) =
      ((((List.range 32).map fun j => columnSum (sumInit.getD j 0) (column n (words ((page.set 8 0).set 9 0)) j)).foldl (· ^^^ ·) 0 ^^^ blockNo)
        % 65535 + 1).toUInt16 := by
  unfold pageChecksum
  have hn : 128 * n / 128 = n := by omega
  have hw : (words (clear page)).length = 32 * n := words_length _ _ (by simp [clear]; omega)
  obtain ⟨h1, h2⟩ := rows_spec n sumInit (words (clear page)) rfl hw
  obtain ⟨h3, h4⟩ := rows_spec 2 (rows n sumInit (words (clear page))) (List.replicate 64 0) h1 (by simp)
  have hsums : rows 2 (rows n sumInit (words (clear page))) (List.replicate 64 0) =
      (List.range 32).map fun j => columnSum (sumInit.getD j 0) (column n (words ((page.set 8 0).set 9 0)) j) := by
    rw [foldl_getD (rows 2 _ _), h3]
    apply List.map_congr_left
    intro j hj
    rw [h4 j (List.mem_range.1 hj), h2 j (List.mem_range.1 hj)]
    unfold columnSum
    rw [List.foldl_append]
    have : column 2 (List.replicate 64 0) j = [0, 0] := by
      have hj32 := List.mem_range.1 hj
      have hz : ∀ (m k : Nat), (List.replicate m (0 : UInt32)).getD k 0 = 0 := by
        intro m k
        rw [List.getD_eq_getElem?_getD, List.getElem?_replicate]
        split <;> rfl
      unfold column
      simp only [hz]
      rfl
    rw [this]
    rfl
  simp only [hn]
  rw [hsums]

/-- C33: a checksum is never zero. -/
theorem c33_nonzero (page : List UInt8) (blockNo : UInt32) (pageSize : Nat) : pageChecksum page blockNo pageSize ≠ 0 := by
  unfold pageChecksum
  dsimp only
  generalize List.foldl _ _ _ ^^^ blockNo = x
  intro h
  have h1 : (x % 65535 + 1).toUInt16.toNat = 0 := by rw [h]; rfl
  rw [UInt32.toNat_toUInt16, UInt32.toNat_add, UInt32.toNat_mod] at h1
  have h2 : x.toNat % (65535 : UInt32).toNat < 65535 := Nat.mod_lt _ (by decide)
  generalize x.toNat % (65535 : UInt32).toNat = y at h1 h2
  have h3 : (1 : UInt32).toNat = 1 := rfl
  rw [h3] at h1
  omega

/-- C33: the checksum does not depend on the checksum that is stored in the page. -/
theorem c33_stored (page : List UInt8) (a b : UInt8) (blockNo : UInt32) (pageSize : Nat) :
    pageChecksum ((page.set 8 a).set 9 b) blockNo pageSize = pageChecksum page blockNo pageSize := by
  have : clear ((page.set 8 a).set 9 b) = clear page := by
    unfold clear
    apply List.ext_getElem?
    intro i
    simp only [List.getElem?_set, List.length_set]
    by_cases h9 : 9 = i
    · simp [h9]
    · by_cases h8 : 8 = i
      · simp [h8, h9]
      · simp [h8, h9]
  unfold pageChecksum
  rw [this]

/-- C33: two blocks with numbers that agree in the upper half, and whose contents are equal, have different checksums unless the lower
halves of the mixed sums are 0 and 65535. -/
theorem c33_block (page : List UInt8) (a b : UInt32) (pageSize : Nat) (hu : a >>> 16 = b >>> 16)
    (h : pageChecksum page a pageSize = pageChecksum page b pageSize) : a = b ∨ a ^^^ b = 0xffff := by
  unfold pageChecksum at h
  dsimp only at h
  generalize List.foldl _ _ _ = x at h
  have h1 : (x ^^^ a).toNat % 65535 = (x ^^^ b).toNat % 65535 := by
    have h2 := congrArg UInt16.toNat h
    rw [UInt32.toNat_toUInt16, UInt32.toNat_toUInt16, UInt32.toNat_add, UInt32.toNat_add, UInt32.toNat_mod, UInt32.toNat_mod] at h2
    have e1 : (65535 : UInt32).toNat = 65535 := rfl
    have e2 : (1 : UInt32).toNat = 1 := rfl
    rw [e1, e2] at h2
    omega
  have h3 : (x ^^^ a) >>> 16 = (x ^^^ b) >>> 16 := by
    rw [UInt32.shiftRight_xor, UInt32.shiftRight_xor, hu]
  have h4 : (x ^^^ a).toNat / 65536 = (x ^^^ b).toNat / 65536 := by
    have h5 := congrArg UInt32.toNat h3
    rw [UInt32.toNat_shiftRight, UInt32.toNat_shiftRight] at h5
    have e : (16 : UInt32).toNat % 32 = 16 := rfl
    rw [e, Nat.shiftRight_eq_div_pow, Nat.shiftRight_eq_div_pow] at h5
    exact h5
  have hx : (x ^^^ a) ^^^ (x ^^^ b) = a ^^^ b := by
    rw [UInt32.xor_comm x a, UInt32.xor_assoc, ← UInt32.xor_assoc x x b, UInt32.xor_self, UInt32.zero_xor]
  have key : ∀ h : Nat, (65536 * h) ^^^ (65536 * h + 65535) = 65535 := by
    intro h
    apply Nat.eq_of_testBit_eq
    intro i
    have e1 : (65535 : Nat) = 2 ^ 16 - 1 := rfl
    have e2 : 65536 * h = 2 ^ 16 * h + 0 := by omega
    have e3 : 65536 * h + 65535 = 2 ^ 16 * h + 65535 := by omega
    have f1 : ∀ r, r < 2 ^ 16 → (2 ^ 16 * h + r).testBit i = if i < 16 then r.testBit i else h.testBit (i - 16) :=
      fun r hr => Nat.testBit_two_pow_mul_add _ hr _
    rw [Nat.testBit_xor, e3, f1 _ (by omega), e2, f1 _ (by omega)]
    by_cases hi : i < 16
    · simp [hi]
    · simp only [hi, if_false, Bool.xor_self, e1, Nat.testBit_two_pow_sub_one]
      simp
  have hsum : ∀ u v : UInt32, u.toNat % 65535 = v.toNat % 65535 → u.toNat / 65536 = v.toNat / 65536 → u.toNat ≤ v.toNat →
      u = v ∨ u ^^^ v = 0xffff := by
    intro u v h5 h6 h7
    by_cases he : u.toNat = v.toNat
    · exact Or.inl (UInt32.toNat_inj.1 he)
    · right
      apply UInt32.toNat_inj.1
      rw [UInt32.toNat_xor]
      have e4 : u.toNat = 65536 * (u.toNat / 65536) := by omega
      have e5 : v.toNat = 65536 * (u.toNat / 65536) + 65535 := by omega
      rw [e5, e4]
      have : 65536 * (u.toNat / 65536) / 65536 = u.toNat / 65536 := by omega
      rw [this]
      exact key _
  rcases Nat.le_total (x ^^^ a).toNat (x ^^^ b).toNat with hle | hle
  · rcases hsum _ _ h1 h4 hle with h5 | h5
    · left
      rw [h5, UInt32.xor_self] at hx
      exact UInt32.xor_eq_zero_iff.1 hx.symm
    · right; rw [← hx]; exact h5
  · rcases hsum _ _ h1.symm h4.symm hle with h5 | h5
    · left
      rw [h5, UInt32.xor_self] at hx
      exact UInt32.xor_eq_zero_iff.1 hx.symm
    · right; rw [← hx, UInt32.xor_comm]; exact h5

/-! ## C33: the filter -/

/-- Two bytes of the page as a number. -/
def number (page : List UInt8) (i : Nat) : Nat := (page.getD i 0).toNat + 256 * (page.getD (i + 1) 0).toNat

theorem word16_toNat (page : List UInt8) (i : Nat) : (word16 page i).toNat = number page i := by
  unfold word16 number
  generalize page.getD i 0 = a
  generalize page.getD (i + 1) 0 = b
  have ha := a.toNat_lt
  have hb := b.toNat_lt
  rw [UInt16.toNat_or, UInt16.toNat_shiftLeft, UInt8.toNat_toUInt16, UInt8.toNat_toUInt16]
  have e : (8 : UInt16).toNat % 16 = 8 := rfl
  rw [e, Nat.mod_eq_of_lt (by rw [Nat.shiftLeft_eq]; omega), Nat.or_comm, ← Nat.shiftLeft_add_eq_or_of_lt (by omega), Nat.shiftLeft_eq]
  omega

/-- A page that is not valid: it has a byte that is not zero and, when the header is checked, says that it is new, or its checksum does
not match. -/
def Bad (headerCheck : Bool) (pageSize : Nat) (page : List UInt8) (block : Nat) : Prop :=
  (∃ x ∈ page, x ≠ 0) ∧
    ((headerCheck = true ∧ number page 14 = 0) ∨ number page 8 ≠ (pageChecksum page (UInt32.ofNat block) pageSize).toNat)

theorem bad_iff (headerCheck : Bool) (pageSize : Nat) (page : List UInt8) (block : Nat) : Bad headerCheck pageSize page block ↔
    (∃ x ∈ page, x ≠ 0) ∧
      ((headerCheck = true ∧ word16 page 14 = 0) ∨ word16 page 8 ≠ pageChecksum page (UInt32.ofNat block) pageSize) := by
  unfold Bad
  rw [← word16_toNat, ← word16_toNat, UInt16.toNat_inj.ne]
  have : (word16 page 14).toNat = 0 ↔ word16 page 14 = 0 := ⟨fun h => UInt16.toNat_inj.1 h, fun h => by rw [h]; rfl⟩
  rw [this]

theorem word16_zero {page : List UInt8} (h : ∀ x ∈ page, x = 0) (i : Nat) : word16 page i = 0 := by
  have hz : ∀ k, page.getD k 0 = 0 := by
    intro k
    rw [List.getD_eq_getElem?_getD]
    cases hk : page[k]? with
    | none => rfl
    | some x => exact h x (List.mem_of_getElem? hk)
  unfold word16
  rw [hz, hz]
  rfl

theorem pageBad_iff (c : Conf) (page : List UInt8) (block : Nat) : pageBad c page block = true ↔
    Bad c.headerCheck c.pageSize page block ∧ c.retry (block % c.segmentPageTotal * c.pageSize) = page := by
  rw [bad_iff]
  unfold pageBad
  by_cases hz : ∀ x ∈ page, x = 0
  · have h8 := word16_zero hz 8
    have h14 := word16_zero hz 14
    have hall : (page.all fun x => x == 0) = true := by simpa using hz
    have hn : ¬∃ x ∈ page, x ≠ 0 := fun ⟨x, hx, hne⟩ => hne (hz x hx)
    rw [h8, h14]
    cases c.headerCheck <;> simp [hall, hn]
  · have hall : (page.all fun x => x == 0) = false := by
      rw [Bool.eq_false_iff]; intro h; exact hz (by simpa using h)
    have hn : ∃ x ∈ page, x ≠ 0 := by
      refine Classical.byContradiction fun h => hz fun x hx => ?_
      exact Classical.byContradiction fun hne => h ⟨x, hx, hne⟩
    have hnz := c33_nonzero page (UInt32.ofNat block) c.pageSize
    cases c.headerCheck
    · by_cases h8 : word16 page 8 = 0
      · simp [hall, hn, h8, Ne.symm hnz]
      · by_cases hs : word16 page 8 = pageChecksum page (UInt32.ofNat block) c.pageSize
        · simp [hall, h8, hs]; exact fun h => absurd h hnz
        · simp [hall, hn, h8, hs]
    · by_cases h14 : word16 page 14 = 0
      · simp [hall, hn, h14]
      · by_cases hs : word16 page 8 = pageChecksum page (UInt32.ofNat block) c.pageSize
        · simp [hall, h14, hs]
        · simp [hall, hn, h14, hs]

/-- The blocks of a file that the filter must find: the pages that are not valid and still have the same content when read again. -/
def BadBlocks (c : Conf) (offset : Nat) (content : List UInt8) : List Nat :=
  ((List.range (content.length / c.pageSize)).filter fun i => pageBad c (pageAt c content i) (offset + i)).map (offset + ·)

theorem pageAt_left (c : Conf) {a b : List UInt8} {n : Nat} (ha : a.length = n * c.pageSize) {i : Nat} (hi : i < n) :
    pageAt c (a ++ b) i = pageAt c a i := by
  unfold pageAt
  have h1 : (i + 1) * c.pageSize ≤ a.length := by rw [ha]; exact Nat.mul_le_mul_right _ hi
  rw [Nat.add_mul, Nat.one_mul] at h1
  rw [List.drop_append_of_le_length (by omega), List.take_append_of_le_length (by simp; omega)]

theorem pageAt_right (c : Conf) {a b : List UInt8} {n : Nat} (ha : a.length = n * c.pageSize) (i : Nat) :
    pageAt c (a ++ b) (n + i) = pageAt c b i := by
  unfold pageAt
  rw [Nat.add_mul, ← ha, List.drop_append, List.drop_eq_nil_of_le (by omega), List.nil_append]
  congr 2
  omega

theorem badBlocks_append (c : Conf) (hp : 0 < c.pageSize) (offset n : Nat) (a b : List UInt8) (ha : a.length = n * c.pageSize) :
    BadBlocks c offset (a ++ b) = BadBlocks c offset a ++ BadBlocks c (offset + n) b := by
  unfold BadBlocks
  have h1 : (a ++ b).length / c.pageSize = n + b.length / c.pageSize := by
    rw [List.length_append, ha, Nat.add_comm, Nat.add_mul_div_right _ _ hp, Nat.add_comm]
  have h2 : a.length / c.pageSize = n := by rw [ha]; exact Nat.mul_div_cancel _ hp
  rw [h1, h2, List.range_add, List.filter_append, List.map_append]
  congr 1
  · congr 1
    apply List.filter_congr
    intro i hi
    rw [pageAt_left c ha (List.mem_range.1 hi)]
  · rw [List.filter_map, List.map_map]
    have h3 : ((fun i => pageBad c (pageAt c (a ++ b) i) (offset + i)) ∘ fun x => n + x) =
        fun i => pageBad c (pageAt c b i) (offset + n + i) := by
      funext i
      simp only [Function.comp]
      rw [pageAt_right c ha, Nat.add_assoc]
    rw [h3]
    apply List.map_congr_left
    intro i _
    simp only [Function.comp]
    omega

theorem process_aligned (c : Conf) (hp : 0 < c.pageSize) (st : St) (hv : st.valid = true) (ha : st.align = true) (n : Nat)
    (b : List UInt8) (hb : b.length = n * c.pageSize) :
    process c st b = .ok { st with pageNoOffset := st.pageNoOffset + n, error := st.error ++ BadBlocks c st.pageNoOffset b } := by
  have h1 : b.length % c.pageSize = 0 := by rw [hb]; exact Nat.mul_mod_left _ _
  have h2 : b.length / c.pageSize = n := by rw [hb]; exact Nat.mul_div_cancel _ hp
  unfold process BadBlocks
  simp [h1, h2, hv, ha]

theorem processAll_aligned (c : Conf) (hp : 0 < c.pageSize) (bufs : List (List UInt8)) : ∀ (st : St), st.valid = true → st.align = true →
    (∀ b ∈ bufs, b.length % c.pageSize = 0) →
    processAll c st bufs = .ok { st with
      pageNoOffset := st.pageNoOffset + bufs.flatten.length / c.pageSize
      error := st.error ++ BadBlocks c st.pageNoOffset bufs.flatten } := by
  induction bufs with
  | nil => intro st _ _ _; simp [processAll, BadBlocks]
  | cons b bufs ih =>
    intro st hv ha hb
    have hb1 : b.length = b.length / c.pageSize * c.pageSize := by
      have h1 := hb b List.mem_cons_self
      have h2 := Nat.div_add_mod b.length c.pageSize
      rw [h1, Nat.mul_comm] at h2
      omega
    simp only [processAll]
    rw [process_aligned c hp st hv ha _ b hb1]
    dsimp only
    rw [ih _ (by exact hv) (by exact ha) (fun x hx => hb x (List.mem_cons_of_mem _ hx))]
    simp only [List.flatten_cons]
    rw [badBlocks_append c hp st.pageNoOffset _ b bufs.flatten hb1, List.append_assoc]
    have h3 : (b ++ bufs.flatten).length / c.pageSize = b.length / c.pageSize + bufs.flatten.length / c.pageSize := by
      rw [List.length_append]
      conv => lhs; rw [hb1]
      rw [Nat.add_comm, Nat.add_mul_div_right _ _ hp, Nat.add_comm]
    rw [h3, Nat.add_assoc]

/-- C33: for a file of complete pages, however it is split in buffers of complete pages, the filter reports exactly the pages that are
not valid and did not change when they were read again from their place in the file, with their block numbers in the relation. -/
theorem c33_filter (c : Conf) (hp : 0 < c.pageSize) (segmentNo : Nat) (bufs : List (List UInt8))
    (hb : ∀ b ∈ bufs, b.length % c.pageSize = 0) (hseg : bufs.flatten.length / c.pageSize ≤ c.segmentPageTotal) :
    ∃ st, processAll c (init segmentNo c.segmentPageTotal) bufs = .ok st ∧ st.valid = true ∧ st.align = true ∧
      st.error.Pairwise (· < ·) ∧
      ∀ block, block ∈ st.error ↔ ∃ i, i < bufs.flatten.length / c.pageSize ∧ block = segmentNo * c.segmentPageTotal + i ∧
        Bad c.headerCheck c.pageSize ((bufs.flatten.drop (i * c.pageSize)).take c.pageSize) block ∧
        c.retry (i * c.pageSize) = (bufs.flatten.drop (i * c.pageSize)).take c.pageSize := by
  refine ⟨_, processAll_aligned c hp bufs _ rfl rfl hb, rfl, rfl, ?_, ?_⟩
  · simp only [init, List.nil_append, BadBlocks]
    refine List.Pairwise.map _ ?_ (List.Pairwise.filter _ List.pairwise_lt_range)
    intro a b hab
    omega
  · intro block
    simp only [init, List.nil_append, BadBlocks, List.mem_map, List.mem_filter, List.mem_range]
    have hmod : ∀ i, i < bufs.flatten.length / c.pageSize → (segmentNo * c.segmentPageTotal + i) % c.segmentPageTotal = i := by
      intro i hi
      rw [Nat.add_comm, Nat.add_mul_mod_self_right]
      exact Nat.mod_eq_of_lt (by omega)
    constructor
    · rintro ⟨i, ⟨hi, hbad⟩, rfl⟩
      rw [pageBad_iff, hmod i hi] at hbad
      exact ⟨i, hi, rfl, hbad.1, hbad.2⟩
    · rintro ⟨i, hi, rfl, h1, h2⟩
      refine ⟨i, ⟨hi, ?_⟩, rfl⟩
      rw [pageBad_iff, hmod i hi]
      exact ⟨h1, h2⟩

theorem processAll_append (c : Conf) (a b : List (List UInt8)) : ∀ st, processAll c st (a ++ b) =
    match processAll c st a with
    | .error e => .error e
    | .ok st' => processAll c st' b := by
  induction a with
  | nil => intro st; rfl
  | cons x a ih =>
    intro st
    simp only [List.cons_append, processAll]
    cases process c st x with
    | error e => rfl
    | ok st' => exact ih st'

theorem flatten_aligned (c : Conf) (bufs : List (List UInt8)) (hb : ∀ b ∈ bufs, b.length % c.pageSize = 0) :
    ∃ m, bufs.flatten.length = m * c.pageSize := by
  induction bufs with
  | nil => exact ⟨0, by simp⟩
  | cons b bufs ih =>
    obtain ⟨m, hm⟩ := ih (fun x hx => hb x (List.mem_cons_of_mem _ hx))
    have h1 := hb b List.mem_cons_self
    have h2 := Nat.div_add_mod b.length c.pageSize
    refine ⟨b.length / c.pageSize + m, ?_⟩
    rw [List.flatten_cons, List.length_append, hm, Nat.add_mul]
    rw [h1, Nat.mul_comm] at h2
    omega

theorem process_torn (c : Conf) (st : St) (hv : st.valid = true) (ha : st.align = true) (b : List UInt8)
    (hb : 512 ≤ b.length % c.pageSize) :
    process c st b = .ok { pageNoOffset := st.pageNoOffset + (b.length / c.pageSize + 1), valid := true, align := false, error :=
      st.error ++ (BadBlocks c st.pageNoOffset b ++ [st.pageNoOffset + b.length / c.pageSize]) } := by
  have h0 : (b.length % c.pageSize == 0) = false := by simp; omega
  have h1 : decide (b.length % c.pageSize < 512) = false := by simp; omega
  unfold process BadBlocks
  simp only [hv, ha, h0, h1, if_pos hb]
  rw [if_neg (by simp)]
  simp only [Bool.and_false, Bool.true_and, Bool.not_false, if_true, Bool.false_or, Nat.add_sub_cancel, decide_eq_true_eq]
  congr 2
  rw [List.range_succ, List.filter_append, List.map_append]
  congr 1
  congr 1
  · congr 1
    apply List.filter_congr
    intro i hi
    rw [if_pos (List.mem_range.1 hi)]
  · simp

theorem process_short (c : Conf) (st : St) (ha : st.align = true) (b : List UInt8)
    (hb0 : b.length % c.pageSize ≠ 0) (hb : b.length % c.pageSize < 512) :
    process c st b = .ok { st with valid := false, align := false } := by
  have h0 : (b.length % c.pageSize == 0) = false := by simpa using hb0
  have h1 : decide (b.length % c.pageSize < 512) = true := by simpa using hb
  unfold process
  have h2 : (b.length % c.pageSize != 0) = true := by simpa using hb0
  simp only [ha, h0, h1, h2]
  rw [if_neg (by simp)]
  simp

/-- C33: when the last buffer ends with 512 bytes or more of a page, all complete pages are verified and the page that is not complete is
reported as well. -/
theorem c33_torn (c : Conf) (hp : 0 < c.pageSize) (segmentNo : Nat) (bufs : List (List UInt8)) (last : List UInt8)
    (hb : ∀ b ∈ bufs, b.length % c.pageSize = 0) (hl : 512 ≤ last.length % c.pageSize) :
    ∃ st, processAll c (init segmentNo c.segmentPageTotal) (bufs ++ [last]) = .ok st ∧
      result st = (some (BadBlocks c (segmentNo * c.segmentPageTotal) (bufs.flatten ++ last) ++
        [segmentNo * c.segmentPageTotal + (bufs.flatten ++ last).length / c.pageSize]), false, false) := by
  rw [processAll_append, processAll_aligned c hp bufs _ rfl rfl hb]
  obtain ⟨m, hm⟩ : ∃ m, bufs.flatten.length = m * c.pageSize := flatten_aligned c bufs hb
  have hdiv : bufs.flatten.length / c.pageSize = m := by rw [hm]; exact Nat.mul_div_cancel _ hp
  have htot : (bufs.flatten ++ last).length / c.pageSize = m + last.length / c.pageSize := by
    rw [List.length_append, hm, Nat.add_comm, Nat.add_mul_div_right _ _ hp, Nat.add_comm]
  refine ⟨_, by simp only [processAll]; rw [process_torn c _ rfl rfl last hl], ?_⟩
  unfold result
  rw [if_pos (by simp)]
  simp only [init, List.nil_append, hdiv]
  rw [badBlocks_append c hp _ m _ _ hm, htot, List.append_assoc, Nat.add_assoc]

/-- C33: when the last buffer ends with less than 512 bytes of a page the file is reported as not valid, with the errors of the buffers
before. -/
theorem c33_short (c : Conf) (hp : 0 < c.pageSize) (segmentNo : Nat) (bufs : List (List UInt8)) (last : List UInt8)
    (hb : ∀ b ∈ bufs, b.length % c.pageSize = 0) (hl0 : last.length % c.pageSize ≠ 0) (hl : last.length % c.pageSize < 512) :
    ∃ st, processAll c (init segmentNo c.segmentPageTotal) (bufs ++ [last]) = .ok st ∧ (result st).2 = (false, false) ∧
      ((result st).1.getD []) = BadBlocks c (segmentNo * c.segmentPageTotal) bufs.flatten := by
  rw [processAll_append, processAll_aligned c hp bufs _ rfl rfl hb]
  refine ⟨_, by simp only [processAll]; rw [process_short c _ rfl last hl0 hl], ?_⟩
  have hres : ∀ (n : Nat) (l : List Nat), (result ⟨n, false, false, l⟩).2 = (false, false) ∧ (result ⟨n, false, false, l⟩).1.getD [] = l := by
    intro n l
    cases l <;> simp [result]
  exact hres _ _

/-- C33: two buffers that are not made of complete pages are an error. -/
theorem c33_misaligned (c : Conf) (st : St) (a b : List UInt8) (rest : List (List UInt8)) (ha : a.length % c.pageSize ≠ 0)
    (hb : b.length % c.pageSize ≠ 0) : processAll c st (a :: b :: rest) = .error .assert := by
  have hsnd : ∀ st1 : St, st1.align = false → processAll c st1 (b :: rest) = .error .assert := by
    intro st1 h1
    simp only [processAll, process]
    rw [if_pos ⟨hb, by simp [h1]⟩]
  rw [processAll]
  cases hpr : process c st a with
  | error e =>
    unfold process at hpr
    dsimp only at hpr
    split at hpr
    · cases hpr; rfl
    · split at hpr <;> cases hpr
  | ok st1 =>
    dsimp only
    refine hsnd st1 ?_
    have hz : (a.length % c.pageSize == 0) = false := by simpa using ha
    unfold process at hpr
    dsimp only at hpr
    split at hpr
    · cases hpr
    · split at hpr
      · cases hpr; simp [hz]
      · cases hpr; simp [hz]

/-! ## C32: the list in the manifest -/

/-- The pages an element of the list stands for. -/
def expand : Item → List Nat
  | .page n => [n]
  | .range first last => (List.range (last + 1 - first)).map (first + ·)

theorem expand_out {a b : Nat} (h : a ≤ b) : expand (out a b) = (List.range (b + 1 - a)).map (a + ·) := by
  unfold out
  split
  · rename_i he
    subst he
    have : a + 1 - a = 1 := by omega
    rw [this]; rfl
  · rfl

theorem combineFrom_expand (l : List Nat) : ∀ a b, a ≤ b → (combineFrom a b l).flatMap expand = (List.range (b + 1 - a)).map (a + ·) ++ l := by
  induction l with
  | nil => intro a b h; simp [combineFrom, expand_out h]
  | cons p l ih =>
    intro a b h
    simp only [combineFrom]
    split
    · rename_i hp
      subst hp
      rw [ih a (b + 1) (by omega)]
      have : b + 1 + 1 - a = (b + 1 - a) + 1 := by omega
      rw [this, List.range_succ, List.map_append, List.append_assoc]
      congr 1
      simp; omega
    · rw [List.flatMap_cons, expand_out h, ih p p (Nat.le_refl p)]
      have : p + 1 - p = 1 := by omega
      rw [this]; rfl

/-- The first page of an element. -/
def first : Item → Nat
  | .page n => n
  | .range a _ => a

/-- The last page of an element. -/
def last : Item → Nat
  | .page n => n
  | .range _ b => b

/-- A range has at least two pages. -/
def Proper : Item → Prop
  | .page _ => True
  | .range a b => a < b

theorem combineFrom_gap (l : List Nat) : ∀ a b, a ≤ b → (b :: l).Pairwise (· < ·) →
    (combineFrom a b l).Pairwise (fun x y => last x + 1 < first y) ∧
    (∀ x ∈ combineFrom a b l, Proper x) ∧ ∀ x ∈ combineFrom a b l, a ≤ first x := by
  have hout : ∀ a b, a ≤ b → Proper (out a b) ∧ first (out a b) = a ∧ last (out a b) = b := by
    intro a b h
    unfold out
    by_cases he : a = b
    · rw [if_pos he]; exact ⟨trivial, rfl, he⟩
    · rw [if_neg he]; exact ⟨by unfold Proper; omega, rfl, rfl⟩
  induction l with
  | nil =>
    intro a b h _
    obtain ⟨h1, h2, h3⟩ := hout a b h
    refine ⟨List.pairwise_singleton _ _, ?_, ?_⟩
    · intro x hx; rw [List.mem_singleton.1 hx]; exact h1
    · intro x hx; rw [List.mem_singleton.1 hx, h2]; exact Nat.le_refl a
  | cons p l ih =>
    intro a b h hs
    simp only [combineFrom]
    rw [List.pairwise_cons] at hs
    have hbp := hs.1 p List.mem_cons_self
    split
    · exact ih a p (by omega) hs.2
    · rename_i hp
      obtain ⟨h1, h2, h3⟩ := hout a b h
      obtain ⟨h4, h5, h6⟩ := ih p p (Nat.le_refl p) hs.2
      refine ⟨List.pairwise_cons.2 ⟨?_, h4⟩, ?_, ?_⟩
      · intro x hx
        rw [h3]
        have := h6 x hx
        omega
      · intro x hx
        rcases List.mem_cons.1 hx with rfl | hx
        · exact h1
        · exact h5 x hx
      · intro x hx
        rcases List.mem_cons.1 hx with rfl | hx
        · rw [h2]; exact Nat.le_refl a
        · have := h6 x hx
          omega

/-- C32: the pages and ranges stored for a file stand for exactly the pages of the error list, in this order. -/
theorem c32_expand (p : Nat) (l : List Nat) : ∃ items, combine (some (p :: l)) = .ok (some items) ∧ items.flatMap expand = p :: l := by
  refine ⟨_, rfl, ?_⟩
  rw [combineFrom_expand l p p (Nat.le_refl p)]
  have : p + 1 - p = 1 := by omega
  rw [this]; rfl

/-- C32: the ranges of an ascending list are as long as possible: there is a gap between elements and a range has at least two pages. -/
theorem c32_compact (p : Nat) (l : List Nat) (h : (p :: l).Pairwise (· < ·)) : ∃ items, combine (some (p :: l)) = .ok (some items) ∧
    items.Pairwise (fun x y => last x + 1 < first y) ∧ ∀ a b, Item.range a b ∈ items → a < b := by
  obtain ⟨h1, h2, -⟩ := combineFrom_gap l p p (Nat.le_refl p) h
  exact ⟨_, rfl, h1, fun a b hab => h2 _ hab⟩

/-- C32: without an error list nothing is stored, and an empty list is an error. -/
theorem c32_none : combine none = .ok none ∧ combine (some []) = .error .format := ⟨rfl, rfl⟩

/-- C32, C33: for a file of complete pages in any buffers of complete pages, what is stored in the manifest stands for exactly the
pages that are not valid, and nothing is stored when all are valid. -/
theorem c32_file (c : Conf) (hp : 0 < c.pageSize) (segmentNo : Nat) (bufs : List (List UInt8))
    (hb : ∀ b ∈ bufs, b.length % c.pageSize = 0) (hseg : bufs.flatten.length / c.pageSize ≤ c.segmentPageTotal) :
    ∃ st items, processAll c (init segmentNo c.segmentPageTotal) bufs = .ok st ∧ combine (result st).1 = .ok items ∧
      ((result st).2.1 = true ↔ items = none) ∧
      ∀ block, block ∈ (items.getD []).flatMap expand ↔
        ∃ i, i < bufs.flatten.length / c.pageSize ∧ block = segmentNo * c.segmentPageTotal + i ∧
          Bad c.headerCheck c.pageSize ((bufs.flatten.drop (i * c.pageSize)).take c.pageSize) block ∧
          c.retry (i * c.pageSize) = (bufs.flatten.drop (i * c.pageSize)).take c.pageSize := by
  obtain ⟨st, h1, h2, h3, h4, h5⟩ := c33_filter c hp segmentNo bufs hb hseg
  cases he : st.error with
  | nil =>
    refine ⟨st, none, h1, ?_, ?_, ?_⟩
    · simp [result, he, combine]
    · simp [result, he, h2]
    · intro block
      rw [← h5 block, he]
      simp
  | cons p l =>
    obtain ⟨items, h6, h7⟩ := c32_expand p l
    refine ⟨st, some items, h1, ?_, ?_, ?_⟩
    · simp only [result, he]
      simpa using h6
    · simp [result, he]
    · intro block
      rw [← h5 block, he, Option.getD_some, h7]

/-! ## Examples -/

example : combine (some [1, 3, 4, 5, 8, 10, 11]) = .ok (some [.page 1, .range 3 5, .page 8, .range 10 11]) := by decide

/-- Pages of 2 · 128 bytes. -/
def exampleConf : Conf := { segmentPageTotal := 4, pageSize := 256, headerCheck := true, retry := fun _ => List.replicate 256 1 }

/-- A page of zeros, two bad pages and a page that changed, in two ways to split them. -/
example : processAll exampleConf (init 2 4) [List.replicate 256 0 ++ List.replicate 512 1, List.replicate 256 2] =
    .ok ⟨12, true, true, [9, 10]⟩ := by decide +kernel

example : processAll exampleConf (init 2 4) [List.replicate 256 0, List.replicate 512 1 ++ List.replicate 256 2] =
    .ok ⟨12, true, true, [9, 10]⟩ := by decide +kernel

/-- A page with a matching checksum is valid for its block and no other. -/
example : ¬Bad true 256 (((List.replicate 256 1).set 8 102).set 9 197) 9 ∧ Bad true 256 (((List.replicate 256 1).set 8 102).set 9 197) 8 := by
  refine ⟨fun h => h.2.elim (fun h => absurd h.2 (by decide +kernel)) (fun h => h (by decide +kernel)), ⟨1, by decide +kernel, by decide⟩, Or.inr (by decide +kernel)⟩

/-- A page with the wrong checksum. -/
example : Bad true 256 ((List.replicate 256 1).set 8 0) 9 := by
  refine ⟨⟨1, by decide +kernel, by decide⟩, Or.inr (by decide +kernel)⟩

/-- With pages of 32768 bytes and a buffer size of 16384 bytes, which the option allows, every file with more than one buffer is an
error. -/
example (c : Conf) (h : c.pageSize = 32768) (st : St) (a b : List UInt8) (ha : a.length = 16384) (hb : b.length = 16384)
    (rest : List (List UInt8)) : processAll c st (a :: b :: rest) = .error .assert :=
  c33_misaligned c st a b rest (by rw [h, ha]; decide) (by rw [h, hb]; decide)

/-- With less than 512 bytes at the end the complete pages of the last buffer are not verified, so the list depends on the buffers. -/
example : processAll exampleConf (init 0 4) [List.replicate 256 1, List.replicate 3 1] = .ok ⟨1, false, false, [0]⟩ ∧
    processAll exampleConf (init 0 4) [List.replicate 259 1] = .ok ⟨0, false, false, []⟩ := by decide +kernel

end Verif.Backup.Page
