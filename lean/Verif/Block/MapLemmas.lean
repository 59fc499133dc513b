import Verif.Block.MapModel
import Verif.Varint.Props

/-! # Lemmas on block maps -/

namespace Verif.Block

/-! ## Numbers -/

theorem vint_eq {n : Nat} (h : n < 2 ^ 64) : vint n = Varint.enc n := by
  have hv : (UInt64.ofNat n).toNat = n := UInt64.toNat_ofNat_of_lt' (by simpa [UInt64.size] using h)
  unfold vint
  have hlen : (Varint.enc n).length ≤ 10 := Varint.enc_length_le 9 _ (by norm_num; omega)
  rw [Varint.write_eq, hv, if_pos (by simpa [Varint.bufferSizeMax] using hlen)]
  simp

theorem vint_length {n : Nat} (h : n < 2 ^ 64) : 1 ≤ (vint n).length := by
  rw [vint_eq h]
  exact Varint.enc_length_pos _

theorem readVint_vint {n : Nat} (h : n < 2 ^ 64) (s : List UInt8) : readVint (vint n ++ s) = .ok (n, s) := by
  have hlen : (Varint.enc n).length ≤ 10 := Varint.enc_length_le 9 _ (by norm_num; omega)
  have := Varint.readGo_enc 10 0 0 n s rfl hlen (by simp) (by simpa using h)
  unfold readVint
  rw [vint_eq h]
  have hr : Varint.read (Varint.enc n ++ s) = .ok (UInt64.ofNat n, s) := by
    simpa [Varint.read, Varint.bufferSizeMax] using this
  rw [hr]
  simp only []
  rw [UInt64.toNat_ofNat_of_lt' (by simpa [UInt64.size] using h)]

theorem flag0 (a b c : Bool) (x : Nat) : flag (flagIf a 0 + flagIf b 1 + flagIf c 2 + x * 8) 0 = a := by
  cases a <;> cases b <;> cases c <;> simp [flag, flagIf] <;> omega

theorem flag1 (a b c : Bool) (x : Nat) : flag (flagIf a 0 + flagIf b 1 + flagIf c 2 + x * 8) 1 = b := by
  cases a <;> cases b <;> cases c <;> simp [flag, flagIf] <;> omega

theorem flag2 (a b c : Bool) (x : Nat) : flag (flagIf a 0 + flagIf b 1 + flagIf c 2 + x * 8) 2 = c := by
  cases a <;> cases b <;> cases c <;> simp [flag, flagIf] <;> omega

theorem flagDiv (a b c : Bool) (x : Nat) : (flagIf a 0 + flagIf b 1 + flagIf c 2 + x * 8) / 8 = x := by
  cases a <;> cases b <;> cases c <;> simp [flagIf] <;> omega

theorem flagLt (a b c : Bool) (x : Nat) (h : x < 2 ^ 61) : flagIf a 0 + flagIf b 1 + flagIf c 2 + x * 8 < 2 ^ 64 := by
  cases a <;> cases b <;> cases c <;> simp [flagIf] <;> omega

theorem flagOne (a : Bool) (x : Nat) : flag (x * 2 + flagIf a 0) 0 = a ∧ (x * 2 + flagIf a 0) / 2 = x := by
  cases a <;> simp [flag, flagIf] <;> omega

theorem sub64_eq {a b : Nat} (h : b ≤ a) (ha : a < 2 ^ 64) : sub64 a b = a - b := by
  unfold sub64
  omega

theorem int64_ofNat_toInt {n : Nat} (h : n < 2 ^ 63) : (Int64.ofNat n).toInt = n := by
  rw [Int64.toInt_ofNat_of_lt h]

theorem encodeSize_lt {sizeLast size : Nat} (h1 : sizeLast < 2 ^ 59) (h2 : size < 2 ^ 59) :
    encodeSize sizeLast size < 2 ^ 61 := by
  unfold encodeSize
  split
  · omega
  · rw [Varint.toZigZag64_toNat]
    have e : (Int64.ofNat size - Int64.ofNat sizeLast).toInt = size - sizeLast := by
      rw [Int64.toInt_sub, int64_ofNat_toInt (by omega), int64_ofNat_toInt (by omega)]
      apply Int.bmod_eq_of_le <;> omega
    rw [e]
    split <;> omega

theorem decodeSize_encodeSize {sizeLast size : Nat} (h2 : size < 2 ^ 59) :
    decodeSize sizeLast (encodeSize sizeLast size) = size := by
  unfold decodeSize encodeSize
  by_cases h : sizeLast = 0
  · rw [if_pos h, if_neg (by simp [h])]
  · rw [if_neg h, if_pos h, UInt64.ofNat_toNat, Varint.c01_zigzag64_roundtrip, Int64.sub_add_cancel]
    have : (Int64.ofNat size).toUInt64 = UInt64.ofNat size := by simp
    rw [this]
    exact UInt64.toNat_ofNat_of_lt' (by simp [UInt64.size]; omega)

/-! ## Groups -/

/-- The items of groups. -/
def flat {α : Type} (gs : List (α × List α)) : List α := gs.flatMap fun g => g.1 :: g.2

theorem groupKey_flat {α β : Type} [DecidableEq β] (key : α → β) (l : List α) : flat (groupKey key l) = l := by
  induction l with
  | nil => rfl
  | cons x xs ih =>
    simp only [groupKey]
    split
    · rename_i h
      rw [h] at ih
      simp only [flat, List.flatMap_nil] at ih
      rw [← ih]
      rfl
    · rename_i y ys rest h
      rw [h] at ih
      split
      · rw [← ih]; simp [flat]
      · rw [← ih]; simp [flat]

theorem groupKey_key {α β : Type} [DecidableEq β] (key : α → β) (l : List α) :
    ∀ g ∈ groupKey key l, ∀ y ∈ g.2, key y = key g.1 := by
  induction l with
  | nil => simp [groupKey]
  | cons x xs ih =>
    simp only [groupKey]
    split
    · simp
    · rename_i y ys rest h
      rw [h] at ih
      split
      · rename_i hk
        intro g hg
        rcases List.mem_cons.1 hg with rfl | hg
        · intro z hz
          rcases List.mem_cons.1 hz with rfl | hz
          · exact hk.symm
          · rw [ih _ (.head _) z hz]; exact hk.symm
        · exact ih g (.tail _ hg)
      · intro g hg
        rcases List.mem_cons.1 hg with rfl | hg
        · simp
        · exact ih g hg

theorem groupKey_ne_nil {α β : Type} [DecidableEq β] (key : α → β) {l : List α} (h : l ≠ []) : groupKey key l ≠ [] := by
  intro hn
  have := groupKey_flat key l
  rw [hn] at this
  exact h this.symm

theorem groupKey_head {α β : Type} [DecidableEq β] (key : α → β) (x : α) (xs : List α) :
    ∃ ys rest, groupKey key (x :: xs) = (x, ys) :: rest := by
  simp only [groupKey]
  split
  · exact ⟨[], [], rfl⟩
  · split
    · exact ⟨_, _, rfl⟩
    · exact ⟨_, _, rfl⟩

/-! ## Super blocks -/

/-- Items of the same super block. -/
structure Same (a b : Item) : Prop where
  reference : a.reference = b.reference
  superBlockSize : a.superBlockSize = b.superBlockSize
  bundleId : a.bundleId = b.bundleId
  offset : a.offset = b.offset
  size : a.size = b.size

theorem Same.trans {a b c : Item} (h : Same a b) (h' : Same b c) : Same a c :=
  ⟨h.1.trans h'.1, h.2.trans h'.2, h.3.trans h'.3, h.4.trans h'.4, h.5.trans h'.5⟩

/-- Items of the super block of `item` with consecutive blocks from `block`. -/
def Consec (checksumSize : Nat) (item : Item) : Nat → List Item → Prop
  | _, [] => True
  | block, x :: xs => Same x item ∧ x.block = block ∧ x.checksum.length = checksumSize ∧
      Consec checksumSize item (block + 1) xs

theorem Consec.congr {cs : Nat} {a b : Item} (h : Same a b) : ∀ (n : Nat) (l : List Item), Consec cs a n l → Consec cs b n l
  | _, [], _ => trivial
  | n, _ :: l, ⟨h1, h2, h3, h4⟩ => ⟨h1.trans h, h2, h3, Consec.congr h (n + 1) l h4⟩

theorem Consec.last {cs : Nat} {item : Item} : ∀ (n : Nat) (x : Item) (l : List Item), Consec cs item n (x :: l) →
    Same ((x :: l).getLast (by simp)) item ∧ ((x :: l).getLast (by simp)).block = n + l.length
  | _, _, [], ⟨h1, h2, _, _⟩ => ⟨h1, h2⟩
  | n, x, y :: l, ⟨_, _, _, h4⟩ => by
    have := Consec.last (n + 1) y l h4
    rw [List.getLast_cons (by simp)]
    refine ⟨this.1, ?_⟩
    rw [this.2, List.length_cons]
    omega

theorem readBlocks_eq (cs : Nat) (tail : List UInt8) : ∀ (l : List Item) (item : Item) (n : Nat),
    item.checksum.length = cs → Consec cs item n l →
    ∃ c, c.length = cs ∧ readBlocks cs item l.length n (l.flatMap Item.checksum ++ tail) = (l, c, tail)
  | [], item, n, hc, _ => ⟨item.checksum, hc, rfl⟩
  | x :: l, item, n, hc, ⟨h1, h2, h3, h4⟩ => by
    simp only [List.length_cons, readBlocks, List.flatMap_cons, List.append_assoc]
    rw [List.take_append_of_le_length (by omega), List.take_of_length_le (by omega),
      List.drop_append_of_le_length (by omega), List.drop_of_length_le (by omega), List.nil_append]
    have ho : overlay item.checksum x.checksum = x.checksum := by
      unfold overlay
      rw [List.drop_of_length_le (by omega), List.append_nil]
    rw [ho]
    have hx : { item with block := n, checksum := x.checksum } = x := by
      rw [← h2, ← h1.1, ← h1.2, ← h1.3, ← h1.4, ← h1.5]
    rw [hx]
    obtain ⟨c, hc1, hc2⟩ := readBlocks_eq cs tail l x (n + 1) h3
      (Consec.congr (a := item) ⟨h1.1.symm, h1.2.symm, h1.3.symm, h1.4.symm, h1.5.symm⟩ _ _ h4)
    exact ⟨c, hc1, by rw [hc2]⟩

/-- Values that the encoding has room for. -/
structure Bounds (x : Item) : Prop where
  reference : x.reference < 2 ^ 29
  superBlockSize : x.superBlockSize < 2 ^ 59
  bundleId : x.bundleId < 2 ^ 59
  offset : x.offset < 2 ^ 59
  size : x.size < 2 ^ 59
  block : x.block < 2 ^ 59

theorem readSuperBlockSize_eq {bs sb0 sb : Nat} (hbs : 0 < bs) (h : sb < 2 ^ 59) (s : List UInt8)
    (change : Bool) (hc : change = false → sb = sb0) :
    readSuperBlockSize bs sb0 change ((if change then writeSuperBlockSize bs sb else []) ++ s) = .ok (sb, s) := by
  cases change with
  | false => simp [readSuperBlockSize, hc rfl]; rfl
  | true =>
    have hle : sb / bs ≤ sb := Nat.div_le_self _ _
    have hm : sb % bs ≤ sb := Nat.mod_le _ _
    have hd := Nat.div_add_mod sb bs
    simp only [readSuperBlockSize, writeSuperBlockSize, if_true]
    have hw : sb / bs * 2 % 2 ^ 64 = sb / bs * 2 := Nat.mod_eq_of_lt (by omega)
    rw [hw, List.append_assoc]
    obtain ⟨f0, f1⟩ := flagOne (decide (sb % bs ≠ 0)) (sb / bs)
    have hlt : sb / bs * 2 + flagIf (decide (sb % bs ≠ 0)) 0 < 2 ^ 64 := by
      unfold flagIf; split <;> omega
    rw [readVint_vint hlt]
    simp only [bind, Except.bind, f0, f1]
    by_cases hr : sb % bs = 0
    · simp only [hr, ne_eq, not_true_eq_false, decide_false, Bool.false_eq_true, if_false, List.nil_append]
      rw [hr, Nat.add_zero] at hd
      rw [Nat.mul_comm, hd]; rfl
    · simp only [hr, ne_eq, not_false_eq_true, decide_true, if_true]
      rw [readVint_vint (by omega)]
      simp only []
      rw [Nat.mul_comm, hd]; rfl

theorem readTotal_eq {bs : Nat} (total : Bool) (ref : Ref) (first : Item) (blocks : Nat) (h0 : 0 < blocks)
    (h1 : blocks < 2 ^ 31) (hb : first.block < 2 ^ 59) (hr : ref.block ≤ first.block)
    (ht : total = false → ref.block = first.block ∧ blocks = blockTotal first.superBlockSize bs) (s : List UInt8) :
    readTotal bs first.superBlockSize ref.block total ((writeTotal total ref first blocks).1 ++ s) =
      .ok (blocks, first.block, s) ∧
    (writeTotal total ref first blocks).2 = { ref with block := first.block + blocks } := by
  cases total with
  | false =>
    obtain ⟨e1, e2⟩ := ht rfl
    simp [readTotal, writeTotal, e1, ← e2]
    rfl
  | true =>
    have hg : sub64 first.block ref.block = first.block - ref.block := sub64_eq hr (by omega)
    simp only [readTotal, writeTotal, if_true, hg]
    have hw : (blocks - 1) * 2 % 2 ^ 32 = (blocks - 1) * 2 := Nat.mod_eq_of_lt (by omega)
    rw [hw, List.append_assoc]
    obtain ⟨f0, f1⟩ := flagOne (decide (first.block - ref.block > 0)) (blocks - 1)
    have hlt : (blocks - 1) * 2 + flagIf (decide (first.block - ref.block > 0)) 0 < 2 ^ 64 := by
      unfold flagIf; split <;> omega
    rw [readVint_vint hlt]
    simp only [bind, Except.bind, f0, f1]
    by_cases hgt : first.block - ref.block > 0
    · simp only [hgt, decide_true, if_true, readVint_vint (show first.block - ref.block < 2 ^ 64 by omega)]
      refine ⟨?_, trivial⟩
      show Except.ok _ = _
      congr 2
      · omega
      · congr 1; omega
    · simp only [hgt, decide_false, Bool.false_eq_true, if_false, List.nil_append]
      have he : ref.block = first.block := by omega
      refine ⟨?_, by rw [he]⟩
      show Except.ok _ = _
      congr 2
      · omega
      · rw [he]

/-- The reference data after an item. -/
def toRef (x : Item) : Ref := ⟨x.superBlockSize, x.bundleId, x.offset, x.size, x.block + 1⟩

/-- Consecutive super blocks of one reference. -/
def SupersOk (checksumSize : Nat) : List (Item × List Item) → Prop
  | [] => True
  | (first, others) :: rest => Bounds first ∧ Consec checksumSize first first.block (first :: others) ∧
      (∀ g ∈ rest.head?, g.1.reference = first.reference ∧ g.1.bundleId = first.bundleId ∧
        g.1.offset = first.offset + first.size) ∧ SupersOk checksumSize rest

theorem readSuperHead_eq {bs : Nat} (hbs : 0 < bs) (enc encW : Nat) (first last total : Bool) (sl : Nat) (item f : Item)
    (refR refW : Ref) (s : List UInt8) (hsl : sl < 2 ^ 59) (hf : Bounds f)
    (h1 : item.superBlockSize = refR.superBlockSize) (h2 : refR.superBlockSize = refW.superBlockSize)
    (h3 : refR.bundleId = f.bundleId) (h4 : refW.bundleId = f.bundleId) (h5 : item.offset = f.offset)
    (h6 : first = true ∨ refR.offset + sl = f.offset) :
    readSuperHead bs enc false first sl item refR ((writeSuperHead bs encW false last total sl refW f).1 ++ s) =
      .ok (last, total, { item with size := f.size, superBlockSize := f.superBlockSize },
        ⟨f.superBlockSize, f.bundleId, f.offset, f.size, 0⟩, s) ∧
    (writeSuperHead bs encW false last total sl refW f).2 = ⟨f.superBlockSize, f.bundleId, f.offset, f.size, 0⟩ ∧
    1 ≤ (writeSuperHead bs encW false last total sl refW f).1.length := by
  have hes := encodeSize_lt hsl hf.size
  have hw : encodeSize sl f.size * 8 % 2 ^ 64 = encodeSize sl f.size * 8 := Nat.mod_eq_of_lt (by omega)
  have hlt := flagLt last (decide (f.superBlockSize ≠ refW.superBlockSize)) total _ hes
  unfold readSuperHead writeSuperHead
  simp only [Bool.false_eq_true, if_false, hw, List.append_assoc]
  refine ⟨?_, by rw [h4], ?_⟩
  · rw [readVint_vint hlt]
    simp only [bind, Except.bind, flag0, flag1, flag2, flagDiv, decodeSize_encodeSize hf.size]
    rw [readSuperBlockSize_eq hbs hf.superBlockSize s _ (by
      intro hc
      simp only [decide_eq_false_iff_not, ne_eq, Decidable.not_not] at hc
      rw [h1, h2, hc])]
    simp only []
    show Except.ok _ = _
    congr 5
    · rw [h3]
      congr 1
      · split
        · rfl
        · rename_i hc
          simp only [decide_eq_true_eq, ne_eq, Decidable.not_not] at hc
          rw [h2, hc]
      · rcases h6 with h6 | h6
        · rw [if_pos h6, h5]
        · split
          · exact h5
          · exact h6
  · have := vint_length hlt
    rw [List.length_append]
    omega

theorem flat_ne_nil {α : Type} {g : α × List α} {gs : List (α × List α)} : flat (g :: gs) ≠ [] := by
  simp [flat]

/-- The last item. -/
def lastItem (sbs : List (Item × List Item)) (d : Item) : Item := (flat sbs).getLastD d

theorem lastItem_cons (f : Item) (o : List Item) (rest : List (Item × List Item)) (d : Item) :
    lastItem ((f, o) :: rest) d = lastItem rest ((f :: o).getLast (by simp)) := by
  unfold lastItem
  have : flat ((f, o) :: rest) = (f :: o) ++ flat rest := by simp [flat]
  rw [this]
  cases hr : flat rest with
  | nil => simp [List.getLastD_eq_getLast?, List.getLast?_eq_some_getLast]
  | cons x xs =>
    rw [List.getLastD_eq_getLast?, List.getLastD_eq_getLast?, List.getLast?_append,
      List.getLast?_eq_some_getLast (l := x :: xs) (by simp)]
    rfl

/-- The bytes of one super block, without the header of a continued reference. -/
theorem super_one {bs cs : Nat} (hbs : 0 < bs) (enc encW : Nat) (last : Bool) (f : Item) (o : List Item)
    (cont first : Bool) (sl : Nat) (item : Item) (refR refW : Ref) (hf : Bounds f)
    (hcon : Consec cs f f.block (f :: o)) (h1 : item.reference = f.reference) (h2 : item.bundleId = f.bundleId)
    (h3 : item.offset = f.offset) (h4 : item.checksum.length = cs) (h5 : item.superBlockSize = refR.superBlockSize)
    (h6 : refR.superBlockSize = refW.superBlockSize) (h7 : refR.bundleId = f.bundleId) (h8 : refW.bundleId = f.bundleId)
    (h9 : cont = false → first = true ∨ refR.offset + sl = f.offset)
    (h10 : cont = true → refR = refW ∧ item.size = f.size ∧ refW.superBlockSize = f.superBlockSize ∧
      refW.offset = f.offset ∧ refW.size = f.size ∧ refW.block ≤ f.block ∧ flag enc 2 = last)
    (hsl : sl < 2 ^ 59) (hlen : o.length + 1 < 2 ^ 31) (total : Bool)
    (ht : total = (cont || decide (f.block ≠ 0) || decide (o.length + 1 ≠ blockTotal f.superBlockSize bs))) :
    ∃ hd body, (writeSuperHead bs encW cont last total sl refW f).1 ++
          (writeTotal total (writeSuperHead bs encW cont last total sl refW f).2 f (o.length + 1)).1 ++
          (f :: o).flatMap Item.checksum = hd ++ body ∧
      (writeTotal total (writeSuperHead bs encW cont last total sl refW f).2 f (o.length + 1)).2 =
        ⟨f.superBlockSize, f.bundleId, f.offset, f.size, f.block + (o.length + 1)⟩ ∧
      (cont = false → hd = []) ∧
      (cont = true → hd = vint (encW + flagIf last 2 + (f.reference * 8) % 2 ^ 32)) ∧ 1 ≤ body.length ∧
      ∃ item', item'.reference = f.reference ∧ item'.bundleId = f.bundleId ∧ item'.offset = f.offset + f.size ∧
        item'.checksum.length = cs ∧ item'.superBlockSize = f.superBlockSize ∧
        ∀ fuel s, readSupers bs cs enc (fuel + 1) cont first sl item refR (body ++ s) =
          if last then .ok ⟨f :: o, ⟨f.superBlockSize, f.bundleId, f.offset, f.size, f.block + (o.length + 1)⟩, f.size, s⟩
          else (readSupers bs cs enc fuel false false f.size item'
            ⟨f.superBlockSize, f.bundleId, f.offset, f.size, f.block + (o.length + 1)⟩ s).bind
              fun next => .ok { next with items := (f :: o) ++ next.items } := by
  -- The header
  obtain ⟨hd, hbody, itemH, e1, e2, e3, e4, hi, e5⟩ : ∃ hd hbody itemH,
      (writeSuperHead bs encW cont last total sl refW f).1 = hd ++ hbody ∧
      (cont = false → hd = []) ∧ (cont = true → hd = vint (encW + flagIf last 2 + (f.reference * 8) % 2 ^ 32)) ∧
      (cont = false → 1 ≤ hbody.length) ∧
      (Same itemH f ∧ itemH.checksum = item.checksum) ∧
      ∃ ref', ref' = (writeSuperHead bs encW cont last total sl refW f).2 ∧
        ref'.superBlockSize = f.superBlockSize ∧ ref'.bundleId = f.bundleId ∧ ref'.offset = f.offset ∧
        ref'.size = f.size ∧ ref'.block ≤ f.block ∧ (cont = false → ref'.block = 0) ∧
        ∀ s, readSuperHead bs enc cont first sl item refR (hbody ++ s) = .ok (last, total, itemH, ref', s) := by
    cases cont with
    | false =>
      obtain ⟨k1, k2, k3⟩ := readSuperHead_eq hbs enc encW first last total sl item f refR refW [] hsl hf h5 h6 h7 h8 h3
        (h9 rfl)
      refine ⟨[], (writeSuperHead bs encW false last total sl refW f).1,
        { item with size := f.size, superBlockSize := f.superBlockSize }, rfl, fun _ => rfl, fun h => by simp at h,
        fun _ => k3, ⟨⟨h1, rfl, h2, h3, rfl⟩, rfl⟩, _, rfl, ?_⟩
      rw [k2]
      refine ⟨rfl, rfl, rfl, rfl, Nat.zero_le _, fun _ => rfl, ?_⟩
      intro s
      exact (readSuperHead_eq hbs enc encW first last total sl item f refR refW s hsl hf h5 h6 h7 h8 h3 (h9 rfl)).1
    | true =>
      obtain ⟨k1, k2, k3, k4, k5, k6, k7⟩ := h10 rfl
      refine ⟨vint (encW + flagIf last 2 + (f.reference * 8) % 2 ^ 32), [], item, by simp [writeSuperHead],
        fun h => by simp at h, fun _ => rfl, fun h => by simp at h,
        ⟨⟨h1, by rw [h5, h6, k3], h2, h3, k2⟩, rfl⟩, refR, ?_, by rw [h6, k3], h7, by rw [k1, k4], by rw [k1, k5],
        by rw [k1]; exact k6, fun h => by simp at h, ?_⟩
      · rw [k1]; rfl
      · intro s
        have : total = true := by rw [ht]; rfl
        rw [this, ← k7]
        rfl
  obtain ⟨ref', r1, r2, r3, r4, r5, r6, r7, r8⟩ := e5
  -- The number of blocks
  have htot := fun s => readTotal_eq (bs := bs) total ref' f (o.length + 1) (by omega) hlen hf.block r6 (by
    intro htf
    rw [htf] at ht
    have ht := ht.symm
    simp only [Bool.or_eq_false_iff, decide_eq_false_iff_not, ne_eq, Decidable.not_not] at ht
    exact ⟨by rw [r7 ht.1.1, ht.1.2], ht.2⟩) s
  have hlast : { ref' with block := f.block + (o.length + 1) } =
      (⟨f.superBlockSize, f.bundleId, f.offset, f.size, f.block + (o.length + 1)⟩ : Ref) := by
    rw [← r2, ← r3, ← r4, ← r5]
  have hcon' : Consec cs itemH f.block (f :: o) :=
    Consec.congr ⟨hi.1.1.symm, hi.1.2.symm, hi.1.3.symm, hi.1.4.symm, hi.1.5.symm⟩ _ _ hcon
  obtain ⟨c, hc1, -⟩ := readBlocks_eq cs [] (f :: o) itemH f.block (by rw [hi.2]; exact h4) hcon'
  refine ⟨hd, hbody ++ ((writeTotal total ref' f (o.length + 1)).1 ++ (f :: o).flatMap Item.checksum), ?_, ?_, e2, e3, ?_,
    { itemH with
        offset := itemH.offset + itemH.size
        checksum := (readBlocks cs itemH (o.length + 1) f.block ((f :: o).flatMap Item.checksum)).2.1 },
    hi.1.1, hi.1.3, by rw [← hi.1.4, ← hi.1.5], ?_, hi.1.2, ?_⟩
  · rw [e1, ← r1]; simp only [List.append_assoc]
  · rw [← r1, (htot []).2, hlast]
  · cases hct : cont with
    | false => have := e4 hct; rw [List.length_append]; omega
    | true =>
      have : total = true := by rw [ht, hct]; rfl
      have hv := (htot []).1
      rw [List.append_nil] at hv
      rw [List.length_append, List.length_append]
      cases hw : (writeTotal total ref' f (o.length + 1)).1 with
      | nil =>
        rw [hw, this] at hv
        simp only [readTotal, if_true] at hv
        have : readVint [] = .error .fileRead := rfl
        rw [this] at hv
        cases hv
      | cons x xs => simp only [List.length_cons]; omega
  · obtain ⟨c, hc1, hc2⟩ := readBlocks_eq cs [] (f :: o) itemH f.block (by rw [hi.2]; exact h4) hcon'
    rw [List.append_nil, List.length_cons] at hc2
    rw [hc2]
    exact hc1
  · intro fuel s
    simp only [readSupers, List.append_assoc]
    rw [r8]
    simp only [bind, Except.bind]
    rw [hi.1.2, (htot _).1]
    simp only []
    obtain ⟨c1, -, hb1⟩ := readBlocks_eq cs s (f :: o) itemH f.block (by rw [hi.2]; exact h4) hcon'
    obtain ⟨c2, -, hb2⟩ := readBlocks_eq cs [] (f :: o) itemH f.block (by rw [hi.2]; exact h4) hcon'
    have hcc : c1 = c2 := by
      have gen : ∀ (l : List Item) (it : Item) (n : Nat) (t1 t2 : List UInt8), it.checksum.length = cs →
          Consec cs it n l → (readBlocks cs it l.length n (l.flatMap Item.checksum ++ t1)).2.1 =
            (readBlocks cs it l.length n (l.flatMap Item.checksum ++ t2)).2.1 := by
        intro l
        induction l with
        | nil => intros; rfl
        | cons x l ih =>
          intro it n t1 t2 hl hcn
          obtain ⟨g1, g2, g3, g4⟩ := hcn
          simp only [List.length_cons, readBlocks, List.flatMap_cons, List.append_assoc]
          rw [List.take_append_of_le_length (by omega), List.take_of_length_le (by omega),
            List.drop_append_of_le_length (by omega), List.drop_of_length_le (by omega), List.nil_append,
            List.take_append_of_le_length (by omega), List.take_of_length_le (by omega),
            List.drop_append_of_le_length (by omega), List.drop_of_length_le (by omega), List.nil_append]
          refine ih _ _ _ _ ?_ ?_
          rotate_left
          · refine Consec.congr (a := it) ?_ _ _ g4
            exact ⟨rfl, rfl, rfl, rfl, rfl⟩
          simp only [overlay, List.length_append, List.length_drop]
          omega
      have := gen (f :: o) itemH f.block s [] (by rw [hi.2]; exact h4) hcon'
      rw [hb1, hb2] at this
      exact this
    rw [List.length_cons] at hb1 hb2
    rw [List.append_nil] at hb2
    rw [hb1, hb2, ← hcc]
    simp only []
    rw [hlast, hi.1.5]
    cases last with
    | true => rfl
    | false =>
      simp only [Bool.false_eq_true, if_false]
      rfl

theorem readSupers_eq {bs cs : Nat} (hbs : 0 < bs) (enc encW : Nat) (s : List UInt8) :
    ∀ (rest : List (Item × List Item)) (f : Item) (o : List Item) (cont first : Bool) (sl : Nat) (item : Item)
      (refR refW : Ref),
    SupersOk cs ((f, o) :: rest) → item.reference = f.reference → item.bundleId = f.bundleId → item.offset = f.offset →
    item.checksum.length = cs → item.superBlockSize = refR.superBlockSize → refR.superBlockSize = refW.superBlockSize →
    refR.bundleId = f.bundleId → refW.bundleId = f.bundleId →
    (cont = false → first = true ∨ refR.offset + sl = f.offset) →
    (cont = true → refR = refW ∧ item.size = f.size ∧ refW.superBlockSize = f.superBlockSize ∧ refW.offset = f.offset ∧
      refW.size = f.size ∧ refW.block ≤ f.block ∧ flag enc 2 = rest.isEmpty) →
    sl < 2 ^ 59 → (flat ((f, o) :: rest)).length < 2 ^ 31 →
    ∃ hd body, writeSupers bs encW cont sl refW ((f, o) :: rest) =
        (hd ++ body, toRef (lastItem ((f, o) :: rest) f), (lastItem ((f, o) :: rest) f).size) ∧
      (cont = false → hd = []) ∧
      (cont = true → hd = vint (encW + flagIf rest.isEmpty 2 + (f.reference * 8) % 2 ^ 32)) ∧ 1 ≤ body.length ∧
      (∀ fuel, (body ++ s).length < fuel → readSupers bs cs enc fuel cont first sl item refR (body ++ s) =
        .ok ⟨flat ((f, o) :: rest), toRef (lastItem ((f, o) :: rest) f), (lastItem ((f, o) :: rest) f).size, s⟩) := by
  intro rest
  induction rest with
  | nil =>
    intro f o cont first sl item refR refW hok h1 h2 h3 h4 h5 h6 h7 h8 h9 h10 hsl hlen
    obtain ⟨hf, hcon, -, -⟩ := hok
    have hlen' : o.length + 1 < 2 ^ 31 := by simpa [flat] using hlen
    obtain ⟨hd, body, k1, k2, k3, k4, k5, item', -, -, -, -, -, k6⟩ := super_one hbs enc encW true f o cont first sl item
      refR refW hf hcon h1 h2 h3 h4 h5 h6 h7 h8 h9 h10 hsl hlen' _ rfl
    have hl := hcon.last
    have hlast : lastItem [(f, o)] f = (f :: o).getLast (by simp) := by rw [lastItem_cons]; rfl
    have htr : toRef (lastItem [(f, o)] f) = ⟨f.superBlockSize, f.bundleId, f.offset, f.size, f.block + (o.length + 1)⟩ := by
      rw [hlast]
      unfold toRef
      rw [hl.1.2, hl.1.3, hl.1.4, hl.1.5, hl.2]
      rfl
    refine ⟨hd, body, ?_, k3, k4, k5, ?_⟩
    · simp only [writeSupers, List.isEmpty_nil]
      rw [k1, k2, htr, hlast, hl.1.5]
      simp
    · intro fuel hfuel
      obtain ⟨fuel, rfl⟩ : ∃ k, fuel = k + 1 := ⟨fuel - 1, by omega⟩
      rw [k6, if_pos rfl, htr, hlast, hl.1.5]
      simp [flat]
  | cons g rest ih =>
    intro f o cont first sl item refR refW hok h1 h2 h3 h4 h5 h6 h7 h8 h9 h10 hsl hlen
    obtain ⟨hf, hcon, hnext, hrest⟩ := hok
    obtain ⟨f', o'⟩ := g
    obtain ⟨n1, n2, n3⟩ := hnext (f', o') (by simp)
    simp only [] at n1 n2 n3
    have hlen1 : o.length + 1 < 2 ^ 31 := by simp [flat] at hlen; omega
    have hlen2 : (flat ((f', o') :: rest)).length < 2 ^ 31 := by simp [flat] at hlen ⊢; omega
    obtain ⟨hd, body, k1, k2, k3, k4, k5, item', j1, j2, j3, j4, j5, k6⟩ := super_one hbs enc encW false f o cont first sl
      item refR refW hf hcon h1 h2 h3 h4 h5 h6 h7 h8 h9 h10 hsl hlen1 _ rfl
    have hl := hcon.last
    obtain ⟨hd', body', m1, m2, -, m4, m5⟩ := ih f' o' false false f.size item'
      ⟨f.superBlockSize, f.bundleId, f.offset, f.size, f.block + (o.length + 1)⟩
      ⟨f.superBlockSize, f.bundleId, f.offset, f.size, f.block + (o.length + 1)⟩ hrest
      (by rw [j1, n1]) (by rw [j2, n2]) (by rw [j3, n3]) j4 j5 rfl n2.symm n2.symm
      (fun _ => .inr n3.symm) (fun h => by simp at h) hf.size hlen2
    have hlast : lastItem ((f, o) :: (f', o') :: rest) f = lastItem ((f', o') :: rest) f' := by
      rw [lastItem_cons, lastItem_cons, lastItem_cons]
    rw [m2 rfl, List.nil_append] at m1
    refine ⟨hd, body ++ body', ?_, k3, k4, by rw [List.length_append]; omega, ?_⟩
    · rw [writeSupers]
      simp only [List.isEmpty_cons]
      rw [k1, k2, m1, hlast]
      simp only [List.append_assoc]
    · intro fuel hfuel
      rw [List.append_assoc, List.length_append] at hfuel
      obtain ⟨fuel, rfl⟩ : ∃ k, fuel = k + 1 := ⟨fuel - 1, by omega⟩
      rw [List.append_assoc, k6, if_neg (by simp), m5 fuel (by omega)]
      simp only [Except.bind, hlast]
      simp [flat]

end Verif.Block
