import Verif.Block.MapLemmas

/-! # C14: block maps are read back as they were written -/

namespace Verif.Block

/-! ## Specification -/

/-- `b` comes after `a` in a map. Blocks of one backup are stored in one file (so the bundle is the same), each super block
at its own place after the ones before, and the blocks of a super block are stored in the order of the map. -/
def Before (a b : Item) : Prop :=
  a.reference = b.reference → a.bundleId = b.bundleId ∧
    ((a.offset = b.offset ∧ a.size = b.size ∧ a.superBlockSize = b.superBlockSize ∧ a.block < b.block) ∨
      (a.offset < b.offset ∧ a.offset + a.size ≤ b.offset))

/-- `b` is right after `a` in a map. Nothing is stored between two such blocks of one backup. -/
def Next (a b : Item) : Prop :=
  a.reference = b.reference →
    (a.offset = b.offset → b.block = a.block + 1) ∧ (a.offset ≠ b.offset → b.offset = a.offset + a.size)

/-- Neighbours are related. -/
def Chain {α : Type} (R : α → α → Prop) : List α → Prop
  | [] => True
  | [_] => True
  | a :: b :: l => R a b ∧ Chain R (b :: l)

/-- A map as the block incremental filter makes it. -/
structure MapOk (checksumSize : Nat) (map : List Item) : Prop where
  notEmpty : map ≠ []
  before : map.Pairwise Before
  next : Chain Next map
  bounds : ∀ x ∈ map, Bounds x
  checksum : ∀ x ∈ map, x.checksum.length = checksumSize
  length : map.length < 2 ^ 31

/-! ## Proof -/

/-- Neighbours in a run of a reference. -/
def Link (a b : Item) : Prop :=
  (Same b a ∧ b.block = a.block + 1) ∨
    (a.offset ≠ b.offset ∧ b.reference = a.reference ∧ b.bundleId = a.bundleId ∧ b.offset = a.offset + a.size)

theorem Chain.tail {α : Type} {R : α → α → Prop} {a : α} {l : List α} (h : Chain R (a :: l)) : Chain R l := by
  cases l with
  | nil => trivial
  | cons b l => exact h.2

theorem supersOk_group {cs : Nat} : ∀ (run : List Item), (∀ x ∈ run, Bounds x ∧ x.checksum.length = cs) → Chain Link run →
    SupersOk cs (groupKey Item.offset run)
  | [], _, _ => trivial
  | [x], hb, _ => ⟨(hb x (.head _)).1, ⟨⟨rfl, rfl, rfl, rfl, rfl⟩, rfl, (hb x (.head _)).2, trivial⟩, by simp, trivial⟩
  | x :: y :: l, hb, hc => by
    have ih := supersOk_group (y :: l) (fun z hz => hb z (.tail _ hz)) hc.2
    obtain ⟨ys, rest, hg⟩ := groupKey_head Item.offset y l
    rw [hg] at ih
    obtain ⟨i1, i2, i3, i4⟩ := ih
    have hx := hb x (.head _)
    rw [groupKey, hg]
    simp only []
    rcases hc.1 with ⟨hs, hbl⟩ | ⟨hne, h1, h2, h3⟩
    · rw [if_pos hs.offset.symm]
      refine ⟨hx.1, ⟨⟨rfl, rfl, rfl, rfl, rfl⟩, rfl, hx.2, ?_⟩, ?_, i4⟩
      · rw [← hbl]
        exact Consec.congr hs _ _ i2
      · intro g hg
        obtain ⟨k1, k2, k3⟩ := i3 g hg
        exact ⟨k1.trans hs.1, k2.trans hs.3, by rw [k3, hs.4, hs.5]⟩
    · rw [if_neg hne]
      refine ⟨hx.1, ⟨⟨rfl, rfl, rfl, rfl, rfl⟩, rfl, hx.2, trivial⟩, ?_, i1, i2, i3, i4⟩
      intro g hg
      simp only [List.head?_cons, Option.mem_def, Option.some.injEq] at hg
      subst hg
      exact ⟨h1, h2, h3⟩

theorem chain_link : ∀ (run : List Item) (r : Nat), (∀ x ∈ run, x.reference = r) → run.Pairwise Before → Chain Next run →
    Chain Link run
  | [], _, _, _, _ => trivial
  | [_], _, _, _, _ => trivial
  | x :: y :: l, r, hr, hp, hn => by
    rw [List.pairwise_cons] at hp
    refine ⟨?_, chain_link (y :: l) r (fun z hz => hr z (.tail _ hz)) hp.2 hn.2⟩
    have he : x.reference = y.reference := by rw [hr x (by simp), hr y (by simp)]
    obtain ⟨hb, hcase⟩ := hp.1 y (.head _) he
    rcases hcase with ⟨c1, c2, c3, c4⟩ | ⟨c1, c2⟩
    · exact .inl ⟨⟨he.symm, c3.symm, hb.symm, c1.symm, c2.symm⟩, (hn.1 he).1 c1⟩
    · exact .inr ⟨by omega, he.symm, hb.symm, (hn.1 he).2 (by omega)⟩

/-- The last item of a reference. -/
def lastOf (r : Nat) (seen : List Item) : Option Item := (seen.filter (fun x => x.reference == r)).getLast?

theorem lastOf_mem {r : Nat} {seen : List Item} {p : Item} (h : lastOf r seen = some p) : p ∈ seen ∧ p.reference = r := by
  have := List.mem_of_getLast? h
  simpa using this

theorem lastOf_append {r : Nat} {seen run : List Item} (hne : run ≠ []) (hr : ∀ x ∈ run, x.reference = r) (q : Nat) :
    lastOf q (seen ++ run) = if q = r then some (run.getLast hne) else lastOf q seen := by
  unfold lastOf
  rw [List.filter_append]
  split
  · rename_i hq
    have : run.filter (fun x => x.reference == q) = run :=
      List.filter_eq_self.2 (fun x hx => by simp [hr x hx, hq])
    rw [this, List.getLast?_append, List.getLast?_eq_some_getLast hne]
    rfl
  · rename_i hq
    have : run.filter (fun x => x.reference == q) = [] :=
      List.filter_eq_nil_iff.2 (fun x hx => by rw [hr x hx]; simp; exact fun h => hq h.symm)
    rw [this, List.append_nil]

theorem readOpt_eq {n : Nat} (h : n < 2 ^ 64) (s : List UInt8) :
    readOpt (decide (n > 0)) ((if n > 0 then vint n else []) ++ s) = .ok (n, s) := by
  unfold readOpt
  by_cases h0 : n > 0
  · simp only [h0, decide_true, if_true]
    exact readVint_vint h s
  · simp only [h0, decide_false, Bool.false_eq_true, if_false, List.nil_append]
    rw [show n = 0 by omega]

/-- Runs of references. -/
def RunsOk (cs : Nat) (gs : List (Item × List Item)) : Prop :=
  ∀ g ∈ gs, (∀ x ∈ g.2, x.reference = g.1.reference) ∧ Chain Link (g.1 :: g.2) ∧
    ∀ x ∈ g.1 :: g.2, Bounds x ∧ x.checksum.length = cs

theorem readRefs_eq {bs cs : Nat} (hbs : 0 < bs) (s : List UInt8) :
    ∀ (gs : List (Item × List Item)) (refs : Refs) (seen : List Item) (sl fuel : Nat), gs ≠ [] → RunsOk cs gs →
    (seen ++ flat gs).Pairwise Before → (∀ r, refs r = (lastOf r seen).map toRef) → sl < 2 ^ 59 →
    (flat gs).length < 2 ^ 31 → (writeRefs bs refs sl gs ++ s).length < fuel →
    readRefs bs cs fuel refs sl (writeRefs bs refs sl gs ++ s) = .ok (flat gs, s) := by
  intro gs
  induction gs with
  | nil => intro _ _ _ _ h; exact absurd rfl h
  | cons g rest ih =>
    intro refs seen sl fuel _ hok hpw hrefs hsl hlen hfuel
    obtain ⟨f, o⟩ := g
    obtain ⟨fuel, rfl⟩ : ∃ k, fuel = k + 1 := ⟨fuel - 1, by omega⟩
    obtain ⟨hr, hchain, hbd⟩ := hok (f, o) (.head _)
    simp only [] at hr hchain hbd
    have hf := (hbd f (.head _)).1
    have hr' : ∀ x ∈ f :: o, x.reference = f.reference := by
      intro x hx
      rcases List.mem_cons.1 hx with rfl | hx
      · rfl
      · exact hr x hx
    obtain ⟨o1, rest1, hg⟩ := groupKey_head Item.offset f o
    have hflat := groupKey_flat Item.offset (f :: o)
    have hsup := supersOk_group _ hbd hchain
    rw [hg] at hflat hsup
    have hflatg : flat ((f, o) :: rest) = (f :: o) ++ flat rest := by simp [flat]
    have hlast : lastItem ((f, o1) :: rest1) f = (f :: o).getLast (by simp) := by
      unfold lastItem
      rw [hflat, List.getLastD_eq_getLast?, List.getLast?_eq_some_getLast (l := f :: o) (by simp)]
      rfl
    have hlen1 : (flat ((f, o1) :: rest1)).length < 2 ^ 31 := by
      rw [hflat]; rw [hflatg, List.length_append] at hlen; omega
    have hlen2 : (flat rest).length < 2 ^ 31 := by
      rw [hflatg, List.length_append] at hlen; omega
    have hslast : ((f :: o).getLast (by simp)).size < 2 ^ 59 := (hbd _ (List.getLast_mem _)).1.size
    have hshift : f.reference * 8 % 2 ^ 32 = f.reference * 8 := Nat.mod_eq_of_lt (by have := hf.reference; omega)
    -- The reference data afterwards
    have hrefs' : ∀ r, (refs.set f.reference (toRef ((f :: o).getLast (by simp)))) r =
        (lastOf r (seen ++ (f :: o))).map toRef := by
      intro r
      rw [lastOf_append (by simp) hr' r]
      unfold Refs.set
      split
      · rfl
      · exact hrefs r
    have hpw' : ((seen ++ (f :: o)) ++ flat rest).Pairwise Before := by rw [List.append_assoc, ← hflatg]; exact hpw
    -- What follows
    have hnext : ∀ bytes, bytes = writeRefs bs (refs.set f.reference (toRef ((f :: o).getLast (by simp))))
          ((f :: o).getLast (by simp)).size rest ++ s → bytes.length < fuel → rest.isEmpty = false →
        readRefs bs cs fuel (refs.set f.reference (toRef ((f :: o).getLast (by simp))))
          ((f :: o).getLast (by simp)).size bytes = .ok (flat rest, s) := by
      intro bytes hb hl hne
      rw [hb]
      refine ih _ (seen ++ (f :: o)) _ _ (by intro h; rw [h] at hne; simp at hne) (fun g hg => hok g (.tail _ hg)) hpw' hrefs'
        hslast hlen2 ?_
      rw [← hb]; exact hl
    -- One reference, once its header is read
    have hone : ∀ (enc encW : Nat) (cont : Bool) (item : Item) (refR refW : Ref) (hdr : List UInt8),
        item.reference = f.reference → item.bundleId = f.bundleId → item.offset = f.offset → item.checksum.length = cs →
        item.superBlockSize = refR.superBlockSize → refR.superBlockSize = refW.superBlockSize →
        refR.bundleId = f.bundleId → refW.bundleId = f.bundleId →
        (cont = true → refR = refW ∧ item.size = f.size ∧ refW.superBlockSize = f.superBlockSize ∧ refW.offset = f.offset ∧
          refW.size = f.size ∧ refW.block ≤ f.block ∧ flag enc 2 = rest1.isEmpty) →
        writeRefHead bs refs rest.isEmpty f = (hdr, encW, cont, refW) →
        enc < 2 ^ 64 → flag enc 0 = rest.isEmpty →
        (∃ tail, (∀ t, hdr ++ (if cont then vint (encW + flagIf rest1.isEmpty 2 + (f.reference * 8) % 2 ^ 32) else []) ++ t =
          vint enc ++ (tail ++ t)) ∧
          ∀ t, readRefHead bs cs refs enc (tail ++ t) = .ok (item, refR, cont, t)) →
        readRefs bs cs (fuel + 1) refs sl (writeRefs bs refs sl ((f, o) :: rest) ++ s) = .ok (flat ((f, o) :: rest), s) := by
      intro enc encW cont item refR refW hdr h1 h2 h3 h4 h5 h6 h7 h8 h10 hw henc hfl ⟨tail, ht1, ht2⟩
      obtain ⟨hd, body, k1, k2, k3, k4, k5⟩ := readSupers_eq hbs enc encW
        (writeRefs bs (refs.set f.reference (toRef ((f :: o).getLast (by simp)))) ((f :: o).getLast (by simp)).size rest ++ s)
        rest1 f o1 cont true sl item refR refW hsup h1 h2 h3 h4 h5 h6 h7 h8 (fun _ => .inl rfl) h10 hsl hlen1
      have hhd : hd = if cont then vint (encW + flagIf rest1.isEmpty 2 + (f.reference * 8) % 2 ^ 32) else [] := by
        cases cont with
        | false => exact k2 rfl
        | true => exact k3 rfl
      have hbytes : writeRefs bs refs sl ((f, o) :: rest) ++ s = vint enc ++ (tail ++ (body ++
          (writeRefs bs (refs.set f.reference (toRef ((f :: o).getLast (by simp)))) ((f :: o).getLast (by simp)).size rest ++
            s))) := by
        rw [writeRefs, hw]
        simp only []
        rw [hg, k1, hlast, hhd, ← ht1]
        simp only [List.append_assoc]
      rw [hbytes] at hfuel ⊢
      simp only [readRefs]
      rw [readVint_vint henc]
      simp only [bind, Except.bind]
      rw [ht2]
      simp only []
      rw [k5 _ (by omega)]
      simp only []
      rw [hflat, hlast, hfl, h1]
      cases hre : rest.isEmpty with
      | true =>
        have : rest = [] := by simpa using hre
        subst this
        simp only [if_true]
        show Except.ok _ = _
        simp [flat, writeRefs]
      | false =>
        simp only [Bool.false_eq_true, if_false]
        rw [hnext _ rfl (by
          have := vint_length henc
          simp only [List.length_append] at hfuel ⊢
          omega) hre]
        simp only []
        rw [hflatg]
        rfl
    have hlookup := hrefs f.reference
    cases hl : lastOf f.reference seen with
    | none =>
      rw [hl] at hlookup
      have hlt := flagLt rest.isEmpty (decide (f.bundleId > 0)) (decide (f.offset > 0)) f.reference
        (by have := hf.reference; omega)
      refine hone (flagIf rest.isEmpty 0 + flagIf (decide (f.bundleId > 0)) 1 + flagIf (decide (f.offset > 0)) 2 +
        f.reference * 8)
        (flagIf rest.isEmpty 0 + flagIf (decide (f.bundleId > 0)) 1 + flagIf (decide (f.offset > 0)) 2) false
        ⟨f.reference, bs, f.bundleId, f.offset, 0, 0, List.replicate cs 0⟩ ⟨bs, f.bundleId, f.offset, 0, 0⟩
        ⟨bs, f.bundleId, f.offset, 0, 0⟩ (vint (flagIf rest.isEmpty 0 + flagIf (decide (f.bundleId > 0)) 1 +
          flagIf (decide (f.offset > 0)) 2 + f.reference * 8) ++ (if f.bundleId > 0 then vint f.bundleId else []) ++
          (if f.offset > 0 then vint f.offset else []))
        rfl rfl rfl (by simp) rfl rfl rfl rfl (fun h => by cases h) ?_ hlt (flag0 _ _ _ _) ?_
      · rw [writeRefHead, hlookup, hshift]
        rfl
      · refine ⟨(if f.bundleId > 0 then vint f.bundleId else []) ++ (if f.offset > 0 then vint f.offset else []), ?_, ?_⟩
        · intro t
          simp only [List.append_assoc, Bool.false_eq_true, if_false, List.nil_append]
        · intro t
          have hq : f.reference % 2 ^ 32 = f.reference := Nat.mod_eq_of_lt (by have := hf.reference; omega)
          unfold readRefHead
          simp only [flagDiv, hq, hlookup, Option.map_none, flag1, flag2, List.append_assoc]
          simp only [bind, Except.bind]
          rw [readOpt_eq (by have := hf.bundleId; omega)]
          simp only []
          rw [readOpt_eq (by have := hf.offset; omega)]
          rfl
    | some p =>
      obtain ⟨hmem, hpr⟩ := lastOf_mem hl
      rw [hl] at hlookup
      rw [List.pairwise_append] at hpw
      obtain ⟨hbun, hcase⟩ := hpw.2.2 p hmem f (by rw [hflatg]; simp) hpr
      have hq : f.reference % 2 ^ 32 = f.reference := Nat.mod_eq_of_lt (by have := hf.reference; omega)
      by_cases hoff : f.offset = p.offset
      · obtain ⟨c1, c2, c3, c4⟩ : p.offset = f.offset ∧ p.size = f.size ∧ p.superBlockSize = f.superBlockSize ∧
            p.block < f.block := by
          rcases hcase with h | h
          · exact h
          · omega
        have hlt := flagLt rest.isEmpty true rest1.isEmpty f.reference (by have := hf.reference; omega)
        refine hone (flagIf rest.isEmpty 0 + flagIf true 1 + flagIf rest1.isEmpty 2 + f.reference * 8)
          (flagIf rest.isEmpty 0 + flagIf true 1) true
          ⟨f.reference, p.superBlockSize, p.bundleId, p.offset, p.size, 0, List.replicate cs 0⟩ (toRef p) (toRef p) []
          rfl hbun c1 (by simp) rfl rfl hbun hbun ?_ ?_ hlt (flag0 _ _ _ _) ?_
        · intro _
          exact ⟨rfl, c2, c3, c1, c2, by simp only [toRef]; omega, flag2 _ _ _ _⟩
        · rw [writeRefHead, hlookup]
          simp only [Option.map_some]
          rw [if_pos (by exact hoff)]
        · refine ⟨[], ?_, ?_⟩
          · intro t
            rw [hshift]
            simp only [if_true, List.nil_append]
          · intro t
            unfold readRefHead
            simp only [flagDiv, hq, hlookup, Option.map_some, flag1, if_true]
            rfl
      · obtain ⟨c1, c2⟩ : p.offset < f.offset ∧ p.offset + p.size ≤ f.offset := by
          rcases hcase with h | h
          · exact absurd h.1.symm hoff
          · exact h
        have hlt := flagLt rest.isEmpty false (decide (f.offset > p.offset + p.size)) f.reference
          (by have := hf.reference; omega)
        refine hone (flagIf rest.isEmpty 0 + flagIf false 1 + flagIf (decide (f.offset > p.offset + p.size)) 2 +
            f.reference * 8)
          (flagIf rest.isEmpty 0 + flagIf (decide (f.offset > p.offset + p.size)) 2) false
          ⟨f.reference, p.superBlockSize, p.bundleId, f.offset, 0, 0, List.replicate cs 0⟩
          { toRef p with offset := f.offset } { toRef p with offset := f.offset, size := f.size } _
          rfl hbun rfl (by simp) rfl rfl hbun hbun ?_ (by
            rw [writeRefHead, hlookup]
            simp only [Option.map_some]
            rw [if_neg (by exact hoff)]
            rfl) hlt (flag0 _ _ _ _) ?_
        · intro h; cases h
        · refine ⟨if f.offset > p.offset + p.size then vint (f.offset - (p.offset + p.size)) else [], ?_, ?_⟩
          · intro t
            rw [hshift]
            simp only [toRef, Bool.false_eq_true, if_false, decide_eq_true_eq, List.append_assoc, List.nil_append]
            rw [show flagIf false 1 = 0 from rfl, Nat.add_zero]
            by_cases h : f.offset > p.offset + p.size <;> simp [h]
          · intro t
            unfold readRefHead
            have he : (f.offset > p.offset + p.size) = (f.offset - (p.offset + p.size) > 0) := by
              apply propext; omega
            simp only [flagDiv, hq, hlookup, Option.map_some, flag1, flag2, Bool.false_eq_true, if_false, he]
            simp only [bind, Except.bind]
            rw [readOpt_eq (by have := hf.offset; omega)]
            simp only [toRef]
            rw [show p.offset + p.size + (f.offset - (p.offset + p.size)) = f.offset by omega]
            rfl

theorem runsOk_group {cs : Nat} : ∀ (map : List Item), (∀ x ∈ map, Bounds x ∧ x.checksum.length = cs) →
    map.Pairwise Before → Chain Next map → RunsOk cs (groupKey Item.reference map) := by
  intro map hb hp hn g hg
  have hkey := groupKey_key Item.reference map g hg
  refine ⟨hkey, ?_, ?_⟩
  · -- The run is a contiguous part of the map
    have hin : ∀ (gs : List (Item × List Item)), g ∈ gs → (flat gs).Pairwise Before → Chain Next (flat gs) →
        (g.1 :: g.2).Pairwise Before ∧ Chain Next (g.1 :: g.2) := by
      intro gs
      induction gs with
      | nil => intro h; cases h
      | cons x gs ih =>
        intro hmem hp hn
        have he : flat (x :: gs) = (x.1 :: x.2) ++ flat gs := by simp [flat]
        rw [he] at hp hn
        rcases List.mem_cons.1 hmem with rfl | hmem
        · refine ⟨(List.pairwise_append.1 hp).1, ?_⟩
          have gen : ∀ (l l' : List Item), Chain Next (l ++ l') → Chain Next l := by
            intro l
            induction l with
            | nil => intros; trivial
            | cons a l ih =>
              intro l' h
              cases l with
              | nil => trivial
              | cons b l => exact ⟨h.1, ih l' h.2⟩
          exact gen _ _ hn
        · refine ih hmem (List.pairwise_append.1 hp).2.1 ?_
          have gen : ∀ (l l' : List Item), Chain Next (l ++ l') → Chain Next l' := by
            intro l
            induction l with
            | nil => intro l' h; exact h
            | cons a l ih => intro l' h; exact ih l' (Chain.tail h)
          exact gen _ _ hn
    obtain ⟨h1, h2⟩ := hin _ hg (by rw [groupKey_flat]; exact hp) (by rw [groupKey_flat]; exact hn)
    refine chain_link _ g.1.reference ?_ h1 h2
    intro x hx
    rcases List.mem_cons.1 hx with rfl | hx
    · rfl
    · exact hkey x hx
  · intro x hx
    refine hb x ?_
    rw [← groupKey_flat Item.reference map]
    unfold flat
    rw [List.mem_flatMap]
    exact ⟨g, hg, hx⟩

/-! ## Theorems -/

/-- The map that is read is the map that was written, whatever follows it in the repository file: references, super block
sizes, bundles, offsets, sizes, block numbers and checksums. -/
theorem c14_roundtrip (blockSize checksumSize : Nat) (map : List Item) (rest : List UInt8) (hbs : 0 < blockSize)
    (hmap : MapOk checksumSize map) : mapRead blockSize checksumSize (mapWrite blockSize map ++ rest) = .ok map := by
  unfold mapRead mapWrite
  rw [List.append_assoc, readVint_vint (by omega)]
  simp only [bind, Except.bind]
  have h0 : flag 0 0 = false := rfl
  rw [h0]
  simp only [Bool.false_eq_true, if_false]
  have hflat := groupKey_flat Item.reference map
  rw [readRefs_eq hbs rest (groupKey Item.reference map) (fun _ => none) [] 0 _
    (groupKey_ne_nil _ hmap.notEmpty)
    (runsOk_group map (fun x hx => ⟨hmap.bounds x hx, hmap.checksum x hx⟩) hmap.before hmap.next)
    (by rw [List.nil_append, hflat]; exact hmap.before) (fun _ => rfl) (by omega) (by rw [hflat]; exact hmap.length)
    (by omega)]
  rw [hflat]
  rfl

/-- Different maps are stored differently. -/
theorem c14_injective (blockSize checksumSize : Nat) (map map' : List Item) (hbs : 0 < blockSize)
    (hmap : MapOk checksumSize map) (hmap' : MapOk checksumSize map')
    (h : mapWrite blockSize map = mapWrite blockSize map') : map = map' := by
  have h1 := c14_roundtrip blockSize checksumSize map [] hbs hmap
  have h2 := c14_roundtrip blockSize checksumSize map' [] hbs hmap'
  rw [h, h2] at h1
  cases h1
  rfl

/-- A map that was written by a later version of the format is not read. -/
theorem c14_version (blockSize checksumSize n : Nat) (rest : List UInt8) (hn : 2 * n + 1 < 2 ^ 64) :
    mapRead blockSize checksumSize (vint (2 * n + 1) ++ rest) = .error .format := by
  unfold mapRead
  rw [readVint_vint hn]
  simp only [bind, Except.bind]
  have : flag (2 * n + 1) 0 = true := by simp [flag]
  rw [this]
  rfl

/-- A map with three generations: the full backup wrote blocks 0 to 4 in super blocks of two, the next backup replaced
blocks 1 and 4, the one after block 2. -/
def exampleMap : List Item :=
  [⟨0, 16, 0, 100, 12, 0, [1, 1]⟩, ⟨1, 16, 3, 0, 10, 0, [2, 2]⟩, ⟨2, 8, 4, 7, 9, 0, [3, 3]⟩, ⟨0, 16, 0, 112, 13, 1, [4, 4]⟩,
    ⟨1, 16, 3, 0, 10, 1, [5, 5]⟩]

theorem exampleMap_ok : MapOk 2 exampleMap where
  notEmpty := by decide
  before := by
    simp [exampleMap, Before]
  next := by
    simp [exampleMap, Chain, Next]
  bounds := by
    intro x hx
    simp only [exampleMap, List.mem_cons, List.not_mem_nil, or_false] at hx
    rcases hx with rfl | rfl | rfl | rfl | rfl <;> constructor <;> decide
  checksum := by
    intro x hx
    simp only [exampleMap, List.mem_cons, List.not_mem_nil, or_false] at hx
    rcases hx with rfl | rfl | rfl | rfl | rfl <;> rfl
  length := by decide

example : mapRead 8 2 (mapWrite 8 exampleMap ++ [9, 9]) = .ok exampleMap := c14_roundtrip 8 2 _ _ (by omega) exampleMap_ok

/-- The bytes of the end of a map may be missing without an error, because `ioRead` returning less than the size of a
checksum is not checked: the checksum keeps bytes of the checksum before it. -/
theorem c14_truncated_accepted : ∃ map map' bytes, MapOk 2 map ∧ MapOk 2 map' ∧ map ≠ map' ∧ bytes ≠ [] ∧
    (∃ part, mapWrite 8 map = part ++ bytes ∧ mapRead 8 2 part = .ok map') := by
  refine ⟨[⟨0, 16, 0, 0, 12, 0, [1, 1]⟩, ⟨0, 16, 0, 0, 12, 1, [2, 2]⟩], [⟨0, 16, 0, 0, 12, 0, [1, 1]⟩, ⟨0, 16, 0, 0, 12, 1, [2, 1]⟩],
    [2], ?_, ?_, by decide, by decide, [0, 1, 99, 4, 1, 1, 2], ?_, ?_⟩
  · refine ⟨by decide, by simp [Before], by simp [Chain, Next], ?_, by simp, by decide⟩
    intro x hx
    simp only [List.mem_cons, List.not_mem_nil, or_false] at hx
    rcases hx with rfl | rfl <;> constructor <;> decide
  · refine ⟨by decide, by simp [Before], by simp [Chain, Next], ?_, by simp, by decide⟩
    intro x hx
    simp only [List.mem_cons, List.not_mem_nil, or_false] at hx
    rcases hx with rfl | rfl <;> constructor <;> decide
  · decide +kernel
  · rfl

/-- Super blocks have as many blocks as needed to hold the data: the blocks hold it and one less would not. -/
theorem c14_block_total (size blockSize : Nat) (hbs : 0 < blockSize) :
    size ≤ blockTotal size blockSize * blockSize ∧ ∀ n, size ≤ n * blockSize → blockTotal size blockSize ≤ n := by
  have h1 := Nat.div_add_mod size blockSize
  have h2 := Nat.mod_lt size hbs
  rw [Nat.mul_comm] at h1
  constructor
  · unfold blockTotal
    split
    · rw [Nat.add_zero]; omega
    · rw [Nat.add_mul]; omega
  · intro n hn
    have h3 : size / blockSize ≤ n := by
      have := Nat.div_le_div_right (c := blockSize) hn
      rwa [Nat.mul_div_cancel _ hbs] at this
    unfold blockTotal
    split
    · omega
    · rcases Nat.lt_or_ge (size / blockSize) n with h4 | h4
      · omega
      · have h5 : n = size / blockSize := by omega
        rw [h5] at hn
        omega

/-- A map of no blocks, which the writer makes for a file truncated to nothing during a backup (blockIncr.c:236-238; there is only
a debug assertion against it, blockMap.c:280), cannot be read by the next backup. -/
theorem c14_empty_unreadable (blockSize checksumSize : Nat) :
    mapRead blockSize checksumSize (mapWrite blockSize []) = .error .fileRead := by
  unfold mapRead mapWrite
  rw [readVint_vint (by omega)]
  rfl

end Verif.Block
