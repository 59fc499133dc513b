import Verif.Block.IncrLemmas

/-! # Lemmas on block incremental restore -/

namespace Verif.Block

/-! ## Writing blocks -/

theorem writeAt_getElem? (file : List UInt8) (o : Nat) (d : List UInt8) (k : Nat) : (writeAt file (o, d))[k]? =
    if k < o then (if k < file.length then file[k]? else some 0)
    else if k < o + d.length then d[k - o]? else file[k]? := by
  unfold writeAt
  simp only []
  by_cases h1 : k < o
  · rw [if_pos h1, List.append_assoc, List.append_assoc]
    by_cases h2 : k < file.length
    · rw [if_pos h2, List.getElem?_append_left (by rw [List.length_take]; omega), List.getElem?_take, if_pos h1]
    · rw [if_neg h2, List.getElem?_append_right (by rw [List.length_take]; omega),
        List.getElem?_append_left (by rw [List.length_take, List.length_replicate]; omega), List.getElem?_replicate,
        if_pos (by rw [List.length_take]; omega)]
  · rw [if_neg h1]
    have hl : (file.take o ++ List.replicate (o - file.length) (0 : UInt8)).length = o := by
      rw [List.length_append, List.length_take, List.length_replicate]; omega
    rw [List.append_assoc, List.getElem?_append_right (by rw [hl]; omega), hl]
    by_cases h2 : k < o + d.length
    · rw [if_pos h2, List.getElem?_append_left (by omega)]
    · rw [if_neg h2, List.getElem?_append_right (by omega), List.getElem?_drop]
      congr 1
      omega

theorem writeAt_length (file : List UInt8) (o : Nat) (d : List UInt8) :
    (writeAt file (o, d)).length = max file.length (o + d.length) := by
  unfold writeAt
  simp only [List.length_append, List.length_take, List.length_replicate, List.length_drop]
  omega

theorem chunk_getElem? (bs i : Nat) (content : List UInt8) (k : Nat) : (chunk bs i content)[k]? =
    if k < bs then content[i * bs + k]? else none := by
  unfold chunk slice
  rw [List.getElem?_take]
  split
  · rw [List.getElem?_drop]
  · rfl

theorem chunk_length (bs i : Nat) (content : List UInt8) : (chunk bs i content).length = min bs (content.length - i * bs) := by
  unfold chunk slice
  rw [List.length_take, List.length_drop]

theorem div_eq {k i bs : Nat} (hbs : 0 < bs) : k / bs = i ↔ i * bs ≤ k ∧ k < i * bs + bs := by
  constructor
  · intro h
    subst h
    have h1 := Nat.div_add_mod k bs
    have h2 := Nat.mod_lt k hbs
    rw [Nat.mul_comm] at h1
    omega
  · intro ⟨h1, h2⟩
    rw [Nat.div_eq_iff hbs]
    omega

/-- The file agrees with the content on some blocks. -/
def Agrees (bs : Nat) (content : List UInt8) (S : Nat → Prop) (file : List UInt8) : Prop :=
  file.length ≤ content.length ∧ ∀ k, k < content.length → S (k / bs) → file[k]? = content[k]?

theorem Agrees.write {bs : Nat} (hbs : 0 < bs) {content file : List UInt8} {S : Nat → Prop} (h : Agrees bs content S file)
    {i : Nat} (hi : i * bs < content.length) :
    Agrees bs content (fun j => S j ∨ j = i) (writeAt file (i * bs, chunk bs i content)) := by
  have hlen := chunk_length bs i content
  refine ⟨?_, ?_⟩
  · have := h.1
    rw [writeAt_length, hlen]
    omega
  · intro k hk hs
    rw [writeAt_getElem?, hlen]
    by_cases hin : k / bs = i
    · have := (div_eq hbs).1 hin
      rw [if_neg (by omega), if_pos (by omega), chunk_getElem?, if_pos (by omega)]
      congr 1
      omega
    · have hs : S (k / bs) := hs.resolve_right hin
      have hf := h.2 k hk hs
      have hkl : k < file.length := by
        rw [List.getElem?_eq_getElem hk] at hf
        exact (List.getElem?_eq_some_iff.1 hf).1
      have hn : ¬ (i * bs ≤ k ∧ k < i * bs + bs) := fun h => hin ((div_eq hbs).2 h)
      split
      · exact hf
      · rw [if_neg (by omega)]; exact hf

theorem Agrees.writes {bs : Nat} (hbs : 0 < bs) {content : List UInt8} : ∀ (l : List Nat) (S : Nat → Prop) (file : List UInt8),
    Agrees bs content S file → (∀ i ∈ l, i * bs < content.length) →
    Agrees bs content (fun j => S j ∨ j ∈ l) ((l.map fun i => (i * bs, chunk bs i content)).foldl writeAt file)
  | [], S, file, h, _ => by
    refine ⟨h.1, fun k hk hs => h.2 k hk ?_⟩
    simpa using hs
  | i :: l, S, file, h, hl => by
    have h1 := Agrees.writes hbs l _ _ (h.write hbs (hl i (.head _))) (fun j hj => hl j (.tail _ hj))
    refine ⟨h1.1, fun k hk hs => h1.2 k hk ?_⟩
    rcases hs with hs | hs
    · exact .inl (.inl hs)
    · rcases List.mem_cons.1 hs with hs | hs
      · exact .inl (.inr hs)
      · exact .inr hs

theorem Agrees.all {bs : Nat} {content file : List UInt8} {S : Nat → Prop} (h : Agrees bs content S file)
    (hS : ∀ k, k < content.length → S (k / bs)) : file = content := by
  apply List.ext_getElem?
  intro k
  by_cases hk : k < content.length
  · exact h.2 k hk (hS k hk)
  · rw [List.getElem?_eq_none (by have := h.1; omega), List.getElem?_eq_none (by omega)]

/-! ## Finding blocks in a super block -/

theorem findBlocks_eq (bs : Nat) : ∀ (total idx : Nat) (raw : List UInt8) (finds : List DeltaBlock),
    finds.Pairwise (fun a b => a.no < b.no) → (∀ b ∈ finds, idx ≤ b.no ∧ b.no < idx + total) →
    findBlocks bs total idx raw finds = finds.map fun b => (b.offset, chunk bs (b.no - idx) raw)
  | 0, idx, raw, [], _, _ => rfl
  | 0, idx, raw, b :: _, _, h => by have := h b (.head _); omega
  | total + 1, idx, raw, [], _, _ => rfl
  | total + 1, idx, raw, b :: bs', hp, h => by
    rw [findBlocks]
    rw [List.pairwise_cons] at hp
    have hb := h b (.head _)
    have hshift : ∀ k, idx + 1 ≤ k → chunk bs (k - (idx + 1)) (raw.drop bs) = chunk bs (k - idx) raw := by
      intro k hk
      unfold chunk slice
      rw [List.drop_drop]
      congr 2
      rw [show k - idx = (k - (idx + 1)) + 1 by omega, Nat.add_mul, Nat.one_mul, Nat.add_comm]
    split
    · rename_i he
      rw [findBlocks_eq bs total (idx + 1) _ bs' hp.2 (by
        intro x hx
        have h1 := h x (.tail _ hx)
        have h2 := hp.1 x hx
        omega), List.map_cons]
      refine congrArg₂ _ ?_ ?_
      · rw [he, Nat.sub_self]
        simp [chunk, slice]
      · apply List.map_congr_left
        intro x hx
        rw [hshift _ (by have := hp.1 x hx; omega)]
    · rename_i he
      rw [findBlocks_eq bs total (idx + 1) _ (b :: bs') (List.pairwise_cons.2 hp) (by
        intro x hx
        have h1 := h x hx
        rcases List.mem_cons.1 hx with rfl | hx
        · omega
        · have h2 := hp.1 x hx
          omega)]
      apply List.map_congr_left
      intro x hx
      rw [hshift]
      rcases List.mem_cons.1 hx with rfl | hx
      · omega
      · have h2 := hp.1 x hx
        omega

theorem lt_blockTotal {bs k len : Nat} (hbs : 0 < bs) (h : k * bs < len) : k < blockTotal len bs := by
  unfold blockTotal
  have h1 := Nat.div_add_mod len bs
  have h2 := Nat.mod_lt len hbs
  rw [Nat.mul_comm] at h1
  have : k ≤ len / bs := by
    rw [Nat.le_div_iff_mul_le hbs]; omega
  split
  · rename_i h0
    rcases Nat.lt_or_ge k (len / bs) with h | h
    · omega
    · have : k = len / bs := by omega
      subst this
      omega
  · omega

theorem blockTotal_mul_ge {bs len : Nat} (hbs : 0 < bs) : len ≤ blockTotal len bs * bs := by
  unfold blockTotal
  have h1 := Nat.div_add_mod len bs
  have h2 := Nat.mod_lt len hbs
  rw [Nat.mul_comm] at h1
  split
  · rw [Nat.add_zero]; omega
  · rw [Nat.add_mul]; omega

/-! ## Reading super blocks -/

/-- Blocks of one super block, all of them stored. -/
structure SuperGood (f : Format) (F : List UInt8) (content : List UInt8) (g : (Nat × Item) × List (Nat × Item)) : Prop where
  same : ∀ b ∈ g.1 :: g.2, b.2.offset = g.1.2.offset ∧ b.2.size = g.1.2.size ∧ b.2.superBlockSize = g.1.2.superBlockSize
  order : (g.1 :: g.2).Pairwise fun a b => a.2.block < b.2.block
  stored : ∀ b ∈ g.1 :: g.2, StoredIn f 0 F b.2 (chunk f.blockSize b.1 content)

/-- The blocks to be written. -/
def writesOf (bs : Nat) (content : List UInt8) (l : List (Nat × Item)) : List (Nat × List UInt8) :=
  (l.map Prod.fst).map fun i => (i * bs, chunk bs i content)

theorem writesOf_append (bs : Nat) (content : List UInt8) (a b : List (Nat × Item)) :
    writesOf bs content (a ++ b) = writesOf bs content a ++ writesOf bs content b := by
  simp [writesOf]

theorem deltaNext_cons {f : Format} (hbs : 0 < f.blockSize) {F content : List UInt8} {g : (Nat × Item) × List (Nat × Item)}
    (hg : SuperGood f F content g) (rest : List DeltaSuper) (data : List UInt8)
    (hdata : data.take g.1.2.size = slice F g.1.2.offset g.1.2.size) :
    deltaNext f ((deltaSuper f.blockSize g).2 :: rest) data =
      (deltaNext f rest (data.drop g.1.2.size)).bind fun next => .ok (writesOf f.blockSize content (g.1 :: g.2) ++ next) := by
  obtain ⟨-, -, raw, r1, r2, r3, r4⟩ := hg.stored g.1 (.head _)
  rw [Nat.sub_zero] at r1
  have hraw : ∀ b ∈ g.1 :: g.2, chunk f.blockSize b.2.block raw = chunk f.blockSize b.1 content ∧
      b.2.block < blockTotal raw.length f.blockSize := by
    intro b hb
    obtain ⟨s1, s2, s3⟩ := hg.same b hb
    obtain ⟨-, -, raw', q1, q2, q3, q4⟩ := hg.stored b hb
    rw [Nat.sub_zero, s1, s2, r1] at q1
    cases q1
    exact ⟨q3, lt_blockTotal hbs q4⟩
  have hfind : findBlocks f.blockSize (blockTotal g.1.2.superBlockSize f.blockSize) 0 raw
      ((g.1 :: g.2).map fun b => ⟨b.2.block, b.1 * f.blockSize⟩) = writesOf f.blockSize content (g.1 :: g.2) := by
    rw [findBlocks_eq]
    · unfold writesOf
      rw [List.map_map, List.map_map]
      apply List.map_congr_left
      intro b hb
      simp only [Function.comp_apply, Nat.sub_zero]
      rw [(hraw b hb).1]
    · rw [List.pairwise_map]
      exact hg.order
    · intro b hb
      obtain ⟨c, hc, rfl⟩ := List.mem_map.1 hb
      rw [← r2]
      have := (hraw c hc).2
      simp only []
      omega
  rw [deltaNext, deltaSuper]
  simp only []
  rw [hdata, r1]
  simp only []
  rw [if_neg (by have := blockTotal_mul_ge (len := raw.length) hbs; rw [← r2]; omega), hfind]
  rfl

theorem deltaNext_eq {f : Format} (hbs : 0 < f.blockSize) {F content : List UInt8} :
    ∀ (gs : List ((Nat × Item) × List (Nat × Item))) (o : Nat) (data : List UInt8), (∀ g ∈ gs, SuperGood f F content g) →
    Chain (fun a b : (Nat × Item) × List (Nat × Item) => a.1.2.offset + a.1.2.size = b.1.2.offset) gs →
    (∀ g ∈ gs.head?, g.1.2.offset = o) → data = slice F o (gs.map fun g => g.1.2.size).sum →
    deltaNext f (gs.map fun g => (deltaSuper f.blockSize g).2) data = .ok (gs.flatMap fun g => writesOf f.blockSize content (g.1 :: g.2))
  | [], o, data, _, _, _, _ => rfl
  | g :: gs, o, data, hg, hc, ho, hd => by
    have hgo := ho g (by simp)
    have hsize : ((g :: gs).map fun g => g.1.2.size).sum = g.1.2.size + (gs.map fun g => g.1.2.size).sum := by simp
    rw [hsize] at hd
    rw [List.map_cons, deltaNext_cons hbs (hg g (.head _)) _ _ (by
      rw [hd, hgo]
      unfold slice
      rw [List.take_take]
      congr 1
      omega)]
    rw [deltaNext_eq hbs gs (o + g.1.2.size) (data.drop g.1.2.size) (fun x hx => hg x (.tail _ hx)) (Chain.tail hc) (by
      intro x hx
      cases gs with
      | nil => cases hx
      | cons y gs =>
        simp only [List.head?_cons, Option.mem_def, Option.some.injEq] at hx
        subst hx
        rw [← hc.1, hgo]) (by
      rw [hd]
      unfold slice
      rw [List.drop_take, List.drop_drop]
      congr 1
      omega)]
    rfl

/-! ## Reads -/

theorem groupAdj_flatten {α : Type} (rel : α → α → Bool) : ∀ l : List α, (groupAdj rel l).flatten = l
  | [] => rfl
  | x :: xs => by
    have ih := groupAdj_flatten rel xs
    rw [groupAdj]
    split
    · rename_i y ys rest h
      rw [h] at ih
      split
      · simp at ih ⊢; exact ih
      · simp at ih ⊢; exact ih
    · simp [ih]

theorem groupAdj_chain {α : Type} (rel : α → α → Bool) : ∀ (l : List α) (g : List α), g ∈ groupAdj rel l →
    Chain (fun a b => rel a b = true) g ∧ g ≠ []
  | [], g, h => by cases h
  | x :: xs, g, h => by
    have ih := groupAdj_chain rel xs
    rw [groupAdj] at h
    split at h
    · rename_i y ys rest hg
      rw [hg] at ih
      split at h
      · rename_i hr
        rcases List.mem_cons.1 h with rfl | h
        · exact ⟨⟨hr, (ih _ (.head _)).1⟩, by simp⟩
        · exact ih g (.tail _ h)
      · rcases List.mem_cons.1 h with rfl | h
        · exact ⟨trivial, by simp⟩
        · exact ih g h
    · rcases List.mem_cons.1 h with rfl | h
      · exact ⟨trivial, by simp⟩
      · exact ih g h

theorem groupAdj_map {α β : Type} (rel : β → β → Bool) (h : α → β) : ∀ l : List α,
    groupAdj rel (l.map h) = (groupAdj (fun a b => rel (h a) (h b)) l).map (List.map h)
  | [] => rfl
  | x :: xs => by
    rw [List.map_cons, groupAdj, groupAdj, groupAdj_map rel h xs]
    cases hg : groupAdj (fun a b => rel (h a) (h b)) xs with
    | nil => rfl
    | cons g rest =>
      cases g with
      | nil => rfl
      | cons y ys =>
        simp only [List.map_cons]
        split <;> rfl

/-- Blocks of one reference, in the order of the map, all of them stored. -/
structure RefGood (f : Format) (repo : Repo) (content : List UInt8) (r b : Nat) (l : List (Nat × Item)) : Prop where
  reference : ∀ x ∈ l, x.2.reference = r ∧ x.2.bundleId = b
  before : l.Pairwise fun x y => Before x.2 y.2
  stored : ∀ x ∈ l, StoredIn f 0 (repo r b) x.2 (chunk f.blockSize x.1 content)

theorem superGood_group {f : Format} {repo : Repo} {content : List UInt8} {r b : Nat} {l : List (Nat × Item)}
    (h : RefGood f repo content r b l) :
    ∀ g ∈ groupKey (fun b : Nat × Item => b.2.offset) l, SuperGood f (repo r b) content g := by
  intro g hg
  have hkey := groupKey_key _ l g hg
  have hflat := groupKey_flat (fun b : Nat × Item => b.2.offset) l
  have hmem : ∀ x ∈ g.1 :: g.2, x ∈ l := by
    intro x hx
    rw [← hflat]
    unfold flat
    rw [List.mem_flatMap]
    exact ⟨g, hg, hx⟩
  have hbefore : (g.1 :: g.2).Pairwise fun x y => Before x.2 y.2 := by
    have hp := h.before
    rw [← hflat] at hp
    have hsub : List.Sublist (g.1 :: g.2) (flat (groupKey (fun b : Nat × Item => b.2.offset) l)) := by
      obtain ⟨a, c, hac⟩ := List.append_of_mem hg
      rw [hac]
      unfold flat
      rw [List.flatMap_append, List.flatMap_cons]
      exact (List.sublist_append_left _ _).trans (List.sublist_append_right _ _)
    exact hp.sublist hsub
  have hoff : ∀ x ∈ g.1 :: g.2, x.2.offset = g.1.2.offset := by
    intro x hx
    rcases List.mem_cons.1 hx with rfl | hx
    · rfl
    · exact hkey x hx
  have hcase : ∀ x y, x ∈ g.1 :: g.2 → y ∈ g.1 :: g.2 → Before x.2 y.2 →
      x.2.size = y.2.size ∧ x.2.superBlockSize = y.2.superBlockSize ∧ x.2.block < y.2.block := by
    intro x y hx hy hb
    obtain ⟨-, hc⟩ := hb ((h.reference x (hmem x hx)).1.trans (h.reference y (hmem y hy)).1.symm)
    have h1 := hoff x hx
    have h2 := hoff y hy
    rcases hc with ⟨-, c2, c3, c4⟩ | ⟨c1, -⟩
    · exact ⟨c2, c3, c4⟩
    · omega
  refine ⟨?_, ?_, fun x hx => h.stored x (hmem x hx)⟩
  · intro x hx
    refine ⟨hoff x hx, ?_⟩
    rcases List.mem_cons.1 hx with hx' | hx'
    · rw [hx']; exact ⟨rfl, rfl⟩
    · have := hcase g.1 x (.head _) hx ((List.pairwise_cons.1 hbefore).1 x hx')
      exact ⟨this.1.symm, this.2.1.symm⟩
  · exact hbefore.imp_of_mem fun {x y} hx hy hb => (hcase x y hx hy hb).2.2

theorem applyReads_append (f : Format) (repo : Repo) : ∀ (a b : List DeltaRead) (file : List UInt8),
    applyReads f repo (a ++ b) file = (applyReads f repo a file).bind fun file => applyReads f repo b file
  | [], _, _ => rfl
  | r :: a, b, file => by
    rw [List.cons_append]
    simp only [applyReads, bind, Except.bind]
    cases deltaNext f r.superList (slice (repo r.reference r.bundleId) r.offset r.size) with
    | error e => rfl
    | ok w =>
      simp only []
      rw [applyReads_append f repo a b]
      rfl

theorem deltaReads_apply {f : Format} (hbs : 0 < f.blockSize) {repo : Repo} {content : List UInt8} {r b : Nat}
    {l : List (Nat × Item)} (h : RefGood f repo content r b l) (file : List UInt8) :
    applyReads f repo (deltaReads f.blockSize l) file = .ok ((writesOf f.blockSize content l).foldl writeAt file) := by
  unfold deltaReads
  simp only []
  rw [groupAdj_map]
  have hsuper := superGood_group h
  have hflat := groupKey_flat (fun b : Nat × Item => b.2.offset) l
  -- The first item of each super block is an item of the list
  have hfirst : ∀ g ∈ groupKey (fun b : Nat × Item => b.2.offset) l, g.1.2.reference = r ∧ g.1.2.bundleId = b := by
    intro g hg
    refine h.reference g.1 ?_
    rw [← hflat]
    unfold flat
    rw [List.mem_flatMap]
    exact ⟨g, hg, .head _⟩
  generalize groupKey (fun b : Nat × Item => b.2.offset) l = sbs at *
  have hfl := groupAdj_flatten (fun a b => (fun a b : Item × DeltaSuper => decide (a.1.offset + a.1.size = b.1.offset))
    (deltaSuper f.blockSize a) (deltaSuper f.blockSize b)) sbs
  have hch := groupAdj_chain (fun a b => (fun a b : Item × DeltaSuper => decide (a.1.offset + a.1.size = b.1.offset))
    (deltaSuper f.blockSize a) (deltaSuper f.blockSize b)) sbs
  rw [← hfl] at hflat hsuper hfirst
  rw [← hflat]
  generalize groupAdj (fun a b => (fun a b : Item × DeltaSuper => decide (a.1.offset + a.1.size = b.1.offset))
    (deltaSuper f.blockSize a) (deltaSuper f.blockSize b)) sbs = groups at *
  clear hflat hfl h
  induction groups generalizing file with
  | nil => rfl
  | cons gs groups ih =>
    rw [List.map_cons, List.flatMap_cons, applyReads_append]
    obtain ⟨hc, hne⟩ := hch gs (.head _)
    have hone : applyReads f repo (deltaRead (gs.map (deltaSuper f.blockSize))) file =
        .ok ((writesOf f.blockSize content (flat gs)).foldl writeAt file) := by
      cases gs with
      | nil => exact absurd rfl hne
      | cons g gs =>
        obtain ⟨f1, f2⟩ := hfirst g (by simp)
        rw [List.map_cons, deltaRead]
        simp only [applyReads, bind, Except.bind]
        have hd : (deltaSuper f.blockSize g).1 = g.1.2 := rfl
        rw [hd, f1, f2]
        have hsum : (((deltaSuper f.blockSize g :: gs.map (deltaSuper f.blockSize)).map fun s => s.2.size).sum) =
            (((g :: gs).map fun g => g.1.2.size).sum) := by
          rw [← List.map_cons, List.map_map]
          rfl
        have hlist : (deltaSuper f.blockSize g :: gs.map (deltaSuper f.blockSize)).map Prod.snd =
            (g :: gs).map fun g => (deltaSuper f.blockSize g).2 := by
          rw [← List.map_cons, List.map_map]
          rfl
        rw [hsum, hlist, deltaNext_eq hbs (g :: gs) g.1.2.offset _ (F := repo r b) (content := content)
          (fun x hx => hsuper x (by
            rw [List.flatten_cons, List.mem_append]; exact .inl hx))
          (by
            have gen : ∀ l : List ((Nat × Item) × List (Nat × Item)),
                Chain (fun a b => (fun a b : Item × DeltaSuper => decide (a.1.offset + a.1.size = b.1.offset))
                  (deltaSuper f.blockSize a) (deltaSuper f.blockSize b) = true) l →
                Chain (fun a b : (Nat × Item) × List (Nat × Item) => a.1.2.offset + a.1.2.size = b.1.2.offset) l := by
              intro l
              induction l with
              | nil => intro; trivial
              | cons x l ih =>
                cases l with
                | nil => intro; trivial
                | cons y l =>
                  intro h
                  exact ⟨by simpa [deltaSuper] using h.1, ih h.2⟩
            exact gen _ hc) (by simp) rfl]
        simp only []
        congr 2
        unfold flat writesOf
        simp only [List.map_flatMap]
    rw [hone]
    simp only [Except.bind]
    rw [ih _ (fun g hg => hsuper g (by rw [List.flatten_cons, List.mem_append]; exact .inr hg))
      (fun g hg => hfirst g (by rw [List.flatten_cons, List.mem_append]; exact .inr hg))
      (fun g hg => hch g (.tail _ hg))]
    rw [List.flatten_cons]
    have : flat (gs ++ groups.flatten) = flat gs ++ flat groups.flatten := by simp [flat]
    rw [this, writesOf_append, List.foldl_append]

/-! ## The whole file -/

theorem neededRefs_mem (l : List (Nat × Item)) (r : Nat) : r ∈ neededRefs l ↔ ∃ b ∈ l, b.2.reference = r := by
  have hins : ∀ (a : Nat) (l : List Nat), r ∈ neededRefs.insert a l ↔ r = a ∨ r ∈ l := by
    intro a l
    induction l with
    | nil => simp [neededRefs.insert]
    | cons x xs ih =>
      rw [neededRefs.insert]
      split
      · rename_i h; subst h; simp
      · split
        · simp
        · rw [List.mem_cons, ih, List.mem_cons]
          constructor
          · rintro (h | h | h)
            · exact .inr (.inl h)
            · exact .inl h
            · exact .inr (.inr h)
          · rintro (h | h | h)
            · exact .inr (.inl h)
            · exact .inl h
            · exact .inr (.inr h)
  have gen : ∀ (l : List (Nat × Item)) (acc : List Nat),
      r ∈ l.foldl (fun l b => neededRefs.insert b.2.reference l) acc ↔ r ∈ acc ∨ ∃ b ∈ l, b.2.reference = r := by
    intro l
    induction l with
    | nil => simp
    | cons x xs ih =>
      intro acc
      rw [List.foldl_cons, ih, hins]
      constructor
      · rintro ((h | h) | ⟨b, hb, hr⟩)
        · exact .inr ⟨x, .head _, h.symm⟩
        · exact .inl h
        · exact .inr ⟨b, .tail _ hb, hr⟩
      · rintro (h | ⟨b, hb, hr⟩)
        · exact .inl (.inr h)
        · rcases List.mem_cons.1 hb with rfl | hb
          · exact .inl (.inl hr.symm)
          · exact .inr ⟨b, hb, hr⟩
  have := gen l []
  simpa [neededRefs] using this

theorem needed_mem {checksums : List (List UInt8)} {map : List Item} {b : Nat × Item} : b ∈ needed checksums map ↔
    map[b.1]? = some b.2 ∧ (b.1 ≥ checksums.length ∨ checksums[b.1]? ≠ some b.2.checksum) := by
  unfold needed
  rw [List.mem_filter]
  have : b ∈ (map.mapIdx fun i x => (i, x)) ↔ map[b.1]? = some b.2 := by
    rw [List.mem_mapIdx]
    constructor
    · rintro ⟨i, hi, rfl⟩
      exact List.getElem?_eq_getElem hi
    · intro h
      obtain ⟨hi, he⟩ := List.getElem?_eq_some_iff.1 h
      exact ⟨b.1, hi, by rw [he]⟩
  rw [this]
  simp

theorem needed_pairwise {checksums : List (List UInt8)} {map : List Item} (h : map.Pairwise Before) :
    (needed checksums map).Pairwise fun x y => Before x.2 y.2 := by
  unfold needed
  apply List.Pairwise.filter
  rw [List.pairwise_iff_getElem] at h ⊢
  intro i j hi hj hij
  simp only [List.length_mapIdx] at hi hj
  simp only [List.getElem_mapIdx]
  exact h i j hi hj hij

theorem applyReads_refs {f : Format} (hbs : 0 < f.blockSize) {repo : Repo} {content : List UInt8} (need : List (Nat × Item)) :
    ∀ (refs : List Nat) (file : List UInt8),
    (∀ r ∈ refs, ∃ b, RefGood f repo content r b (need.filter fun x => x.2.reference == r)) →
    applyReads f repo (refs.flatMap fun r => deltaReads f.blockSize (need.filter fun b => b.2.reference == r)) file =
      .ok ((refs.flatMap fun r => writesOf f.blockSize content (need.filter fun b => b.2.reference == r)).foldl writeAt file)
  | [], _, _ => rfl
  | r :: refs, file, h => by
    obtain ⟨b, hb⟩ := h r (.head _)
    rw [List.flatMap_cons, applyReads_append, deltaReads_apply hbs hb, List.flatMap_cons, List.foldl_append]
    exact applyReads_refs hbs need refs _ (fun x hx => h x (.tail _ hx))

theorem restore_map {f : Format} (hbs : 0 < f.blockSize) {repo : Repo} {content : List UInt8} {map : List Item} {r : Nat}
    (hg : MapGood f repo r map content) (existing : List UInt8) (hlen : existing.length ≤ content.length)
    (hcol : NoCollision f existing content) :
    applyReads f repo (deltaNew f.blockSize (blockChecksums f existing) map) existing = .ok content := by
  unfold deltaNew
  simp only []
  have hfb : ∀ (i : Nat) (x : Item), map[i]? = some x → i * f.blockSize < content.length ∧
      (fileBlocks f.blockSize content)[i]? = some (chunk f.blockSize i content) := by
    intro i x hx
    have hi : i < (fileBlocks f.blockSize content).length := by
      rw [← hg.len]; exact (List.getElem?_eq_some_iff.1 hx).1
    unfold fileBlocks at hi ⊢
    rw [blocks_length] at hi
    refine ⟨?_, blocks_getElem? _ _ _ _ hi⟩
    rcases Nat.lt_or_ge (i * f.blockSize) content.length with h | h
    · exact h
    · exfalso
      unfold blockTotal at hi
      have h1 := Nat.div_add_mod content.length f.blockSize
      have h2 := Nat.mod_lt content.length hbs
      rw [Nat.mul_comm] at h1
      have h3 : content.length / f.blockSize ≤ i := by
        rcases Nat.lt_or_ge i (content.length / f.blockSize) with h4 | h4
        · have := Nat.mul_le_mul_right f.blockSize (show i + 1 ≤ content.length / f.blockSize by omega)
          rw [Nat.add_mul] at this
          omega
        · exact h4
      split at hi
      · omega
      · have h5 : i = content.length / f.blockSize := by omega
        rw [h5] at h
        omega
  rw [applyReads_refs hbs (content := content)]
  · congr 1
    have hw : ((neededRefs (needed (blockChecksums f existing) map)).flatMap fun r =>
        writesOf f.blockSize content ((needed (blockChecksums f existing) map).filter fun b => b.2.reference == r)) =
        ((neededRefs (needed (blockChecksums f existing) map)).flatMap fun r =>
          ((needed (blockChecksums f existing) map).filter fun b => b.2.reference == r).map Prod.fst).map
            fun i => (i * f.blockSize, chunk f.blockSize i content) := by
      unfold writesOf
      rw [List.map_flatMap]
    rw [hw]
    have hmem : ∀ i, i ∈ ((neededRefs (needed (blockChecksums f existing) map)).flatMap fun r =>
        ((needed (blockChecksums f existing) map).filter fun b => b.2.reference == r).map Prod.fst) ↔
        ∃ x, (i, x) ∈ needed (blockChecksums f existing) map := by
      intro i
      rw [List.mem_flatMap]
      constructor
      · rintro ⟨r, -, hi⟩
        obtain ⟨b, hb, rfl⟩ := List.mem_map.1 hi
        exact ⟨b.2, (List.mem_filter.1 hb).1⟩
      · rintro ⟨x, hx⟩
        refine ⟨x.reference, (neededRefs_mem _ _).2 ⟨_, hx, rfl⟩, List.mem_map.2 ⟨(i, x), List.mem_filter.2 ⟨hx, by simp⟩, rfl⟩⟩
    have h0 : Agrees f.blockSize content (fun j => j < map.length ∧ ∀ x, (j, x) ∉ needed (blockChecksums f existing) map)
        existing := by
      refine ⟨hlen, ?_⟩
      intro k hk ⟨hj, hn⟩
      obtain ⟨x, hx⟩ : ∃ x, map[k / f.blockSize]? = some x := ⟨_, List.getElem?_eq_getElem hj⟩
      have h1 := hn x
      rw [needed_mem] at h1
      simp only [not_and, not_or, ge_iff_le, Nat.not_le, ne_eq, Decidable.not_not] at h1
      obtain ⟨h2, h3⟩ := h1 hx
      unfold blockChecksums at h3 h2
      rw [List.getElem?_map] at h3
      rw [List.length_map, blocks_length] at h2
      rw [blocks_getElem? _ _ _ _ h2] at h3
      simp only [Option.map_some, Option.some.injEq] at h3
      obtain ⟨c1, c2⟩ := hfb _ x hx
      have hdata := (hg.data _ x _ hx c2).1
      have heq := hcol (k / f.blockSize) (chunk f.blockSize (k / f.blockSize) existing)
        (chunk f.blockSize (k / f.blockSize) content) (blocks_getElem? _ _ _ _ h2) c2 (by rw [h3, hdata])
      have h4 := chunk_getElem? f.blockSize (k / f.blockSize) existing (k % f.blockSize)
      have h5 := chunk_getElem? f.blockSize (k / f.blockSize) content (k % f.blockSize)
      rw [heq, h5, if_pos (Nat.mod_lt _ hbs), if_pos (Nat.mod_lt _ hbs), Nat.mul_comm, Nat.div_add_mod] at h4
      exact h4.symm
    refine Agrees.all (Agrees.writes hbs _ _ _ h0 ?_) ?_
    · intro i hi
      obtain ⟨x, hx⟩ := (hmem i).1 hi
      exact (hfb i x (needed_mem.1 hx).1).1
    · intro k hk
      have hj : k / f.blockSize < map.length := by
        rw [hg.len]
        unfold fileBlocks
        rw [blocks_length]
        exact lt_blockTotal hbs (by
          have h1 := Nat.div_add_mod k f.blockSize
          rw [Nat.mul_comm] at h1
          omega)
      rcases Classical.em (∃ x, (k / f.blockSize, x) ∈ needed (blockChecksums f existing) map) with h | h
      · exact .inr ((hmem _).2 h)
      · exact .inl ⟨hj, fun x hx => h ⟨x, hx⟩⟩
  · intro q hq
    obtain ⟨b, hb, hbr⟩ := (neededRefs_mem _ _).1 hq
    refine ⟨b.2.bundleId, ?_, (needed_pairwise hg.ok.before).filter _, ?_⟩
    · intro x hx
      rw [List.mem_filter] at hx
      have hxr : x.2.reference = q := by simpa using hx.2
      refine ⟨hxr, ?_⟩
      have hxm := (needed_mem.1 hx.1).1
      have hbm := (needed_mem.1 hb).1
      rcases Nat.lt_trichotomy x.1 b.1 with h | h | h
      · exact (pairwise_getElem hg.ok.before h hxm hbm (hxr.trans hbr.symm)).1
      · rw [h, hbm] at hxm
        simp only [Option.some.injEq] at hxm
        rw [hxm]
      · exact (pairwise_getElem hg.ok.before h hbm hxm (hbr.trans hxr.symm)).1.symm
    · intro x hx
      rw [List.mem_filter] at hx
      have hxr : x.2.reference = q := by simpa using hx.2
      have hxm := (needed_mem.1 hx.1).1
      have hbm := (needed_mem.1 hb).1
      have hbun : x.2.bundleId = b.2.bundleId := by
        rcases Nat.lt_trichotomy x.1 b.1 with h | h | h
        · exact (pairwise_getElem hg.ok.before h hxm hbm (hxr.trans hbr.symm)).1
        · rw [h, hbm] at hxm
          simp only [Option.some.injEq] at hxm
          rw [hxm]
        · exact (pairwise_getElem hg.ok.before h hbm hxm (hbr.trans hxr.symm)).1.symm
      have := (hg.data x.1 x.2 _ hxm (hfb _ _ hxm).2).2
      rw [hxr, hbun] at this
      exact this

end Verif.Block
