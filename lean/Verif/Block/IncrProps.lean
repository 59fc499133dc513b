import Verif.Block.DeltaLemmas

/-! # C15: block incremental backup and restore reproduces the file

What a user relies on: whatever the history of backups, restoring a file over whatever is there gives the bytes that were
backed up. -/

namespace Verif.Block

/-! ## Histories -/

/-- The manifest entry of a copied file, src/command/backup/process.c.inc:288-299. -/
def entryOf {D : Type} (sha : List UInt8 → D) (p : Param) (r : IncrResult) (content : List UInt8) : Entry D :=
  { reference := p.reference
    bundleId := p.bundleId
    bundleOffset := p.bundleOffset
    sizeRepo := r.out.length
    mapSize := r.mapSize
    size := content.length
    checksum := sha content }

/-- `Backups f sha repo e content`: a sequence of backups, each with its own parameters and content of the file, stored what is
in `repo` and the last one that copied the file made the manifest entry `e` when the file was `content`. Other data (of other
files of a bundle, of later backups) may be anything. -/
inductive Backups {D : Type} (f : Format) (sha : List UInt8 → D) (repo : Repo) : Entry D → List UInt8 → Prop
  | full (p : Param) (content : List UInt8) (fits : Fits f p content (blockIncr f p none content).out)
      (stored : InRepo repo p (blockIncr f p none content).out) :
      Backups f sha repo (entryOf sha p (blockIncr f p none content) content) content
  | incr (p : Param) (e : Entry D) (content0 content : List UInt8) (map : List Item) (before : Backups f sha repo e content0)
      (prior : loadMap f repo e = .ok map) (later : e.reference < p.reference) (collision : NoCollision f content0 content)
      (fits : Fits f p content (blockIncr f p (some map) content).out)
      (stored : InRepo repo p (blockIncr f p (some map) content).out)
      (copied : (blockIncr f p (some map) content).mapSize ≠ 0) :
      Backups f sha repo (entryOf sha p (blockIncr f p (some map) content) content) content

/-- The conditions on the parts that are not modelled: filters are inverse of each other and checksums have the expected
size. -/
structure Format.Ok (f : Format) : Prop where
  codec : f.codec.Ok
  blockSize : 0 < f.blockSize
  hash : ∀ b, (f.hash b).length = f.checksumSize

/-! ## Lemmas -/

/-- Some data is new, or the blocks so far are those of the prior map. -/
def NewOr (f : Format) (prior : List Item) (st : State) (done : List (List UInt8)) : Prop :=
  (st.opened = true ∨ st.mapWrite = true) ∨
    (st.out = [] ∧ ∀ (i : Nat) (b : List UInt8), done[i]? = some b → ∃ x, prior[i]? = some x ∧ x.checksum = f.hash b)

theorem NewOr.add {f : Format} {p : Param} {prior : List Item} {st : State} {done : List (List UInt8)} (b : List UInt8)
    (h : NewOr f prior st done) (hno : st.blockNo = done.length) : NewOr f prior (addBlock f p (some prior) st b) (done ++ [b]) := by
  unfold addBlock
  simp only [Option.bind_some]
  split
  · exact .inl (.inl rfl)
  · rename_i item hitem
    split
    · exact .inl (.inl rfl)
    · rename_i hch
      rcases h with h | ⟨ho, h⟩
      · exact .inl h
      · refine .inr ⟨ho, ?_⟩
        intro i c hc
        rcases getElem?_snoc hc with ⟨-, hc⟩ | ⟨rfl, rfl⟩
        · exact h i c hc
        · rw [← hno]
          exact ⟨item, hitem, by simpa using hch⟩

theorem NewOr.flush {f : Format} {p : Param} {prior : List Item} {st : State} {done : List (List UInt8)} (d : Bool)
    (h : NewOr f prior st done) : NewOr f prior (flush f p d st) done ∧
      (d = true → (flush f p d st).opened = false) := by
  unfold Block.flush
  split
  · exact ⟨.inl (.inr rfl), fun _ => rfl⟩
  · rename_i hcond
    refine ⟨h, fun hd => ?_⟩
    subst hd
    simp at hcond
    exact hcond

theorem addBlock_no (f : Format) (p : Param) (prior : Option (List Item)) (st : State) (b : List UInt8) :
    (addBlock f p prior st b).blockNo = st.blockNo + 1 := by
  unfold addBlock
  simp only []
  split
  · rfl
  · split <;> rfl

theorem flush_no (f : Format) (p : Param) (d : Bool) (st : State) : (flush f p d st).blockNo = st.blockNo := by
  unfold flush
  split <;> rfl

theorem addBlock_map_length (f : Format) (p : Param) (prior : Option (List Item)) (st : State) (b : List UInt8) :
    (addBlock f p prior st b).map.length = st.map.length + 1 := by
  unfold addBlock
  simp only []
  split
  · simp
  · split <;> simp

theorem flush_map_length (f : Format) (p : Param) (d : Bool) (st : State) : (flush f p d st).map.length = st.map.length := by
  unfold flush
  split
  · simp [patch]
  · rfl

theorem NewOr.fold {f : Format} {p : Param} {prior : List Item} : ∀ (L done : List (List UInt8)) (st : State),
    NewOr f prior st done → st.blockNo = done.length →
    NewOr f prior (L.foldl (fun st b => Block.flush f p false (addBlock f p (some prior) st b)) st) (done ++ L) ∧
      (L.foldl (fun st b => Block.flush f p false (addBlock f p (some prior) st b)) st).blockNo = (done ++ L).length
  | [], done, st, h, hno => by rw [List.append_nil]; exact ⟨h, hno⟩
  | b :: L, done, st, h, hno => by
    have := NewOr.fold (p := p) L (done ++ [b]) (Block.flush f p false (addBlock f p (some prior) st b)) ((h.add b hno).flush false).1
      (by rw [flush_no, addBlock_no, hno]; simp)
    rw [List.append_assoc] at this
    exact this

/-- What is written when there is a prior map. -/
theorem blockIncr_new {f : Format} (hbs : 0 < f.blockSize) (p : Param) (prior : List Item) (content : List UInt8) :
    ∃ st, blockIncr f p (some prior) content = finish f p (some prior) st ∧
      (st.mapWrite = true ∨ (st.out = [] ∧ ∀ (i : Nat) (b : List UInt8), (fileBlocks f.blockSize content)[i]? = some b →
        ∃ x, prior[i]? = some x ∧ x.checksum = f.hash b)) := by
  have h0 : NewOr f prior (State.new p) [] := .inr ⟨rfl, by simp⟩
  obtain ⟨h1, h2⟩ := NewOr.fold (p := p) (blocks f.blockSize (content.length / f.blockSize) content) [] _ h0 rfl
  rw [List.nil_append] at h1 h2
  refine ⟨_, rfl, ?_⟩
  rw [fileBlocks_eq hbs content]
  split
  · obtain ⟨h3, h4⟩ := (h1.add (p := p) (content.drop (content.length / f.blockSize * f.blockSize)) h2).flush (p := p) true
    rcases h3 with (h3 | h3) | h3
    · rw [h4 rfl] at h3; cases h3
    · exact .inl h3
    · exact .inr h3
  · rw [List.append_nil]
    obtain ⟨h3, h4⟩ := h1.flush (p := p) true
    rcases h3 with (h3 | h3) | h3
    · rw [h4 rfl] at h3; cases h3
    · exact .inl h3
    · exact .inr h3

/-- Blocks that are all as in the prior map. -/
theorem fold_same {f : Format} {p : Param} {prior : List Item} : ∀ (L : List (List UInt8)) (st : State),
    (∀ (i : Nat) (b : List UInt8), L[i]? = some b → ∃ x, prior[st.blockNo + i]? = some x ∧ x.checksum = f.hash b) →
    st.opened = false → st.mapWrite = false →
    (L.foldl (fun st b => flush f p false (addBlock f p (some prior) st b)) st).opened = false ∧
    (L.foldl (fun st b => flush f p false (addBlock f p (some prior) st b)) st).mapWrite = false ∧
    (L.foldl (fun st b => flush f p false (addBlock f p (some prior) st b)) st).out = st.out ∧
    (L.foldl (fun st b => flush f p false (addBlock f p (some prior) st b)) st).blockNo = st.blockNo + L.length ∧
    (L.foldl (fun st b => flush f p false (addBlock f p (some prior) st b)) st).map.length = st.map.length + L.length
  | [], st, _, h2, h3 => ⟨h2, h3, rfl, rfl, rfl⟩
  | b :: L, st, h1, h2, h3 => by
    obtain ⟨x, hx, hc⟩ := h1 0 b rfl
    have hstep : flush f p false (addBlock f p (some prior) st b) = { st with map := st.map ++ [x], blockNo := st.blockNo + 1 } := by
      have : addBlock f p (some prior) st b = { st with map := st.map ++ [x], blockNo := st.blockNo + 1 } := by
        unfold addBlock
        rw [Nat.add_zero] at hx
        simp [hx, hc]
      rw [this]
      unfold flush
      simp [h2]
    rw [List.foldl_cons, hstep]
    obtain ⟨k1, k2, k3, k4, k5⟩ := fold_same L { st with map := st.map ++ [x], blockNo := st.blockNo + 1 } (by
      intro i c hc
      obtain ⟨y, hy⟩ := h1 (i + 1) c (by simpa using hc)
      refine ⟨y, ?_, hy.2⟩
      rw [← hy.1]
      congr 1
      dsimp only
      omega) h2 h3
    refine ⟨k1, k2, k3, ?_, ?_⟩
    · rw [k4]; simp; omega
    · rw [k5]; simp; omega

theorem mapWrite_ne_nil (bs : Nat) (map : List Item) : mapWrite bs map ≠ [] := by
  unfold mapWrite
  rw [show vint 0 = [0] by decide +kernel]
  simp

theorem slice_middle (pre a b post : List UInt8) (o : Nat) (ho : o = pre.length + a.length) :
    slice (pre ++ (a ++ b) ++ post) o b.length = b := by
  unfold slice
  subst ho
  rw [List.append_assoc, List.append_assoc, ← List.append_assoc, ← List.length_append, List.drop_left, List.take_left]

theorem loadMap_entryOf {D : Type} {f : Format} {sha : List UInt8 → D} {repo : Repo} {p : Param} {priorO : Option (List Item)}
    {content : List UInt8} (hf : f.Ok) (hg : MapGood f repo p.reference (blockIncr f p priorO content).map content)
    (hm : (blockIncr f p priorO content).mapSize ≠ 0) (hrepo : InRepo repo p (blockIncr f p priorO content).out) :
    loadMap f repo (entryOf sha p (blockIncr f p priorO content) content) = .ok (blockIncr f p priorO content).map := by
  obtain ⟨pre, post, r1, r2⟩ := hrepo
  have hfin : ∃ st, blockIncr f p priorO content = finish f p priorO st := ⟨_, rfl⟩
  obtain ⟨st, hst⟩ := hfin
  obtain ⟨t, t1, t2, t3⟩ := finish_out f p priorO st
  rw [← hst] at t1 t2 t3
  obtain ⟨t4, t5⟩ := t3 hm
  unfold loadMap entryOf
  simp only []
  rw [r1, t5, t1, slice_middle _ _ _ _ _ (by rw [List.length_append]; omega), t4, hf.codec.unpackMap]
  simp only []
  rw [← t2, ← List.append_nil (mapWrite _ _)]
  exact c14_roundtrip _ _ _ _ hf.blockSize hg.ok

theorem full_mapSize {f : Format} (hf : f.Ok) {p : Param} {content : List UInt8} (hne : content ≠ [])
    (hpm : ∀ r d, d ≠ [] → f.codec.packMap r d ≠ []) : (blockIncr f p none content).mapSize ≠ 0 := by
  have hprior : PriorOk f p ((none : Option (List Item)).getD []) [] (fun _ _ => True) (fileBlocks f.blockSize content) :=
    ⟨List.Pairwise.nil, trivial, by simp, rfl, by simp, by simp⟩
  have h0 : NewOr f [] (State.new p) [] := .inr ⟨rfl, by simp⟩
  have same : ∀ st b, addBlock f p none st b = addBlock f p (some []) st b := by
    intro st b
    unfold addBlock
    simp
  have hin : blockIncr f p none content = finish f p none
      (flush f p true (if (content.drop (content.length / f.blockSize * f.blockSize)).length > 0
        then addBlock f p (some []) ((blocks f.blockSize (content.length / f.blockSize) content).foldl
          (fun st b => flush f p false (addBlock f p (some []) st b)) (State.new p))
            (content.drop (content.length / f.blockSize * f.blockSize))
        else (blocks f.blockSize (content.length / f.blockSize) content).foldl
          (fun st b => flush f p false (addBlock f p (some []) st b)) (State.new p))) := by
    unfold blockIncr
    simp only [same]
  have hnew : ∃ st, blockIncr f p none content = finish f p none st ∧ st.mapWrite = true := by
    obtain ⟨h1, h2⟩ := NewOr.fold (p := p) (blocks f.blockSize (content.length / f.blockSize) content) [] _ h0 rfl
    rw [List.nil_append] at h1 h2
    refine ⟨_, hin, ?_⟩
    have hflat := fileBlocks_flatten hf.blockSize content
    have hfb := fileBlocks_eq hf.blockSize content
    have contra : ∀ L : List (List UInt8), L = fileBlocks f.blockSize content →
        (∀ (i : Nat) (b : List UInt8), L[i]? = some b → ∃ x, ([] : List Item)[i]? = some x ∧ x.checksum = f.hash b) → False := by
      intro L hL h
      cases L with
      | nil => rw [← hL] at hflat; exact hne hflat.symm
      | cons b L =>
        obtain ⟨x, hx, -⟩ := h 0 b rfl
        cases hx
    split
    · rename_i hlt
      rw [if_pos hlt] at hfb
      obtain ⟨h3, h4⟩ := (h1.add (p := p) (content.drop (content.length / f.blockSize * f.blockSize)) h2).flush (p := p) true
      rcases h3 with (h3 | h3) | h3
      · rw [h4 rfl] at h3; cases h3
      · exact h3
      · exact (contra _ hfb.symm h3.2).elim
    · rename_i hlt
      rw [if_neg hlt, List.append_nil] at hfb
      obtain ⟨h3, h4⟩ := h1.flush (p := p) true
      rcases h3 with (h3 | h3) | h3
      · rw [h4 rfl] at h3; cases h3
      · exact h3
      · exact (contra _ hfb.symm h3.2).elim
  obtain ⟨st, h1, h2⟩ := hnew
  rw [h1]
  unfold finish
  rw [if_pos (by simp [h2])]
  simp only [ne_eq, List.length_eq_zero_iff]
  exact hpm _ _ (mapWrite_ne_nil _ _)

theorem Backups.good {D : Type} {f : Format} {sha : List UInt8 → D} {repo : Repo} {e : Entry D} {content : List UInt8} (hf : f.Ok)
    (hpm : ∀ r d, d ≠ [] → f.codec.packMap r d ≠ []) (h : Backups f sha repo e content) :
    (∃ map, loadMap f repo e = .ok map ∧ MapGood f repo e.reference map content) ∧ e.size = content.length ∧
      e.checksum = sha content ∧ content ≠ [] ∧ e.mapSize ≠ 0 := by
  induction h with
  | full p content fits stored =>
    have hg := blockIncr_good hf.codec hf.blockSize hf.hash (priorO := none) (content0 := []) ⟨by simp, by simp⟩ fits stored
    have hm := full_mapSize hf fits.notEmpty hpm (p := p)
    exact ⟨⟨_, loadMap_entryOf hf hg hm stored, hg⟩, rfl, rfl, fits.notEmpty, hm⟩
  | incr p e content0 content map before prior later collision fits stored copied ih =>
    obtain ⟨⟨map', h1, h2⟩, -⟩ := ih
    rw [prior] at h1
    cases h1
    have hg := blockIncr_good hf.codec hf.blockSize hf.hash (priorO := some map) (content0 := content0)
      ⟨fun m hm => by cases hm; exact ⟨_, later, h2⟩, fun _ => collision⟩ fits stored
    exact ⟨⟨_, loadMap_entryOf hf hg copied stored, hg⟩, rfl, rfl, fits.notEmpty, copied⟩

/-! ## Theorems -/

/-- Restoring the file over whatever is there (nothing, or any bytes) gives exactly the bytes backed up, after any number of
backups. -/
theorem c15_restore {D : Type} [DecidableEq D] (f : Format) (sha : List UInt8 → D) (repo : Repo) (e : Entry D)
    (content : List UInt8) (existing : Option (List UInt8)) (hf : f.Ok) (hpm : ∀ r d, d ≠ [] → f.codec.packMap r d ≠ [])
    (h : Backups f sha repo e content) (hcol : NoCollision f ((existing.getD []).take content.length) content)
    (hsha : sha ((existing.getD []).take content.length) = sha content → (existing.getD []).take content.length = content) :
    restore f sha repo e existing = .ok content := by
  obtain ⟨⟨map, h1, h2⟩, h3, h4, -⟩ := h.good hf hpm
  unfold restore
  simp only [h3, h4]
  split
  · rename_i hc
    rw [hsha hc.2]
  · simp only [bind, Except.bind, h1]
    rw [restore_map hf.blockSize h2 _ (by rw [List.length_take]; omega) hcol]
    simp

/-- With nothing there no assumption on checksums of what is there is needed. -/
theorem c15_restore_new {D : Type} [DecidableEq D] (f : Format) (sha : List UInt8 → D) (repo : Repo) (e : Entry D)
    (content : List UInt8) (hf : f.Ok) (hpm : ∀ r d, d ≠ [] → f.codec.packMap r d ≠ []) (h : Backups f sha repo e content) :
    restore f sha repo e none = .ok content := by
  obtain ⟨⟨map, h1, h2⟩, h3, h4, h5, -⟩ := h.good hf hpm
  unfold restore
  simp only [h3, h4, Option.getD_none, List.take_nil]
  rw [if_neg (by
    intro hc
    exact h5 (List.length_eq_zero_iff.1 hc.1.symm))]
  simp only [bind, Except.bind, h1]
  rw [restore_map hf.blockSize h2 _ (by simp) (by
    intro i x y hx
    simp [fileBlocks, blockTotal, blocks] at hx)]
  simp

/-- Whatever the repository has, what is restored has the checksum of the manifest. -/
theorem c15_checked {D : Type} [DecidableEq D] (f : Format) (sha : List UInt8 → D) (repo : Repo) (e : Entry D)
    (existing : Option (List UInt8)) (file : List UInt8) (h : restore f sha repo e existing = .ok file) : sha file = e.checksum := by
  unfold restore at h
  simp only [] at h
  split at h
  · rename_i hc
    cases h
    exact hc.2
  · simp only [bind, Except.bind] at h
    split at h
    · cases h
    · split at h
      · cases h
      · split at h
        · rename_i hs
          cases h
          exact hs
        · cases h

/-- A later backup finds the map of any prior backup. -/
theorem c15_prior_map {D : Type} (f : Format) (sha : List UInt8 → D) (repo : Repo) (e : Entry D) (content : List UInt8) (hf : f.Ok)
    (hpm : ∀ r d, d ≠ [] → f.codec.packMap r d ≠ []) (h : Backups f sha repo e content) :
    ∃ map, loadMap f repo e = .ok map ∧ map.length = (fileBlocks f.blockSize content).length := by
  obtain ⟨⟨map, h1, h2⟩, -⟩ := h.good hf hpm
  exact ⟨map, h1, h2.len⟩

/-- A file that gets no map has not changed. -/
theorem unchanged_of_mapSize {D : Type} (f : Format) (sha : List UInt8 → D) (repo : Repo) (e : Entry D) (content0 content : List UInt8)
    (map : List Item) (p : Param) (hf : f.Ok) (hpm : ∀ r d, d ≠ [] → f.codec.packMap r d ≠ [])
    (h : Backups f sha repo e content0) (hmap : loadMap f repo e = .ok map) (hcol : NoCollision f content0 content)
    (hms : (blockIncr f p (some map) content).mapSize = 0) : content = content0 := by
  obtain ⟨⟨map', h1, h2⟩, -⟩ := h.good hf hpm
  rw [hmap] at h1
  cases h1
  obtain ⟨st, hst, hnew⟩ := blockIncr_new hf.blockSize p map content
  obtain ⟨oldBlocks, hok, -⟩ := (⟨fun m hm => by
    cases hm
    exact ⟨e.reference, Nat.lt_succ_self _, h2⟩, fun _ => hcol⟩ :
      PriorGood f { p with reference := e.reference + 1 } repo (some map) content0 content).ok
  rw [hst] at hms
  unfold finish at hms
  split at hms
  · exfalso
    simp only [List.length_eq_zero_iff] at hms
    exact hpm _ _ (mapWrite_ne_nil _ _) hms
  · rename_i hc
    simp only [Bool.or_eq_true, Option.any_some, decide_eq_true_eq, not_or, Nat.not_lt] at hc
    rcases hnew with hnew | ⟨-, hnew⟩
    · exact absurd hnew hc.1
    · -- The map of the new file has as many items as there are blocks
      have hlen : st.map.length = (fileBlocks f.blockSize content).length := by
        have gen : ∀ (L : List (List UInt8)) (st : State),
            (L.foldl (fun st b => flush f p false (addBlock f p (some map) st b)) st).map.length = st.map.length + L.length := by
          intro L
          induction L with
          | nil => intro st; rfl
          | cons b L ih =>
            intro st
            rw [List.foldl_cons, ih, flush_map_length, addBlock_map_length]
            simp; omega
        have hst' : (blockIncr f p (some map) content).map = st.map := by rw [hst]; exact (finish_out f p (some map) st).choose_spec.2.1
        rw [← hst']
        unfold blockIncr
        simp only []
        have hfin : ∀ s, (finish f p (some map) s).map = s.map := fun s => (finish_out f p (some map) s).choose_spec.2.1
        rw [hfin, flush_map_length, fileBlocks_eq hf.blockSize]
        split
        · rw [addBlock_map_length, gen]
          simp [State.new]
        · rw [gen]
          simp [State.new]
      have hsame : fileBlocks f.blockSize content = fileBlocks f.blockSize content0 := by
        apply List.ext_getElem?
        intro i
        cases hb : (fileBlocks f.blockSize content)[i]? with
        | none =>
          symm
          rw [List.getElem?_eq_none_iff] at hb ⊢
          rw [← h2.len]
          omega
        | some b =>
          obtain ⟨x, hx, hxc⟩ := hnew i b hb
          have hi : i < (fileBlocks f.blockSize content0).length := by
            rw [← h2.len]; exact (List.getElem?_eq_some_iff.1 hx).1
          have hb0 := List.getElem?_eq_getElem hi
          have := (h2.data i x _ hx hb0).1
          rw [hb0, hcol i _ b hb0 hb (by rw [← this, hxc])]
      rw [← fileBlocks_flatten hf.blockSize content, hsame, fileBlocks_flatten hf.blockSize content0]

/-- A backup stores nothing exactly when the file is what it was in the prior backup, in which case the entry of the prior
backup is kept. -/
theorem c15_unchanged {D : Type} (f : Format) (sha : List UInt8 → D) (repo : Repo) (e : Entry D) (content0 content : List UInt8)
    (map : List Item) (p : Param) (hf : f.Ok) (hpm : ∀ r d, d ≠ [] → f.codec.packMap r d ≠ [])
    (h : Backups f sha repo e content0) (hmap : loadMap f repo e = .ok map) (hcol : NoCollision f content0 content) :
    ((blockIncr f p (some map) content).out = [] ∧ (blockIncr f p (some map) content).mapSize = 0) ↔ content = content0 := by
  obtain ⟨⟨map', h1, h2⟩, -⟩ := h.good hf hpm
  rw [hmap] at h1
  cases h1
  constructor
  · rintro ⟨-, hms⟩
    exact unchanged_of_mapSize f sha repo e content0 content map p hf hpm h hmap hcol hms
  · rintro rfl
    have hall : ∀ (i : Nat) (b : List UInt8), (fileBlocks f.blockSize content)[i]? = some b →
        ∃ x, map[i]? = some x ∧ x.checksum = f.hash b := by
      intro i b hb
      have hi : i < map.length := by rw [h2.len]; exact (List.getElem?_eq_some_iff.1 hb).1
      exact ⟨map[i], List.getElem?_eq_getElem hi, (h2.data i _ b (List.getElem?_eq_getElem hi) hb).1⟩
    have hfb := fileBlocks_eq hf.blockSize content
    have hst : ∃ st, blockIncr f p (some map) content = finish f p (some map) st ∧ st.mapWrite = false ∧ st.out = [] ∧
        st.map.length = map.length := by
      have hfull : ∀ (i : Nat) (b : List UInt8), (blocks f.blockSize (content.length / f.blockSize) content)[i]? = some b →
          ∃ x, map[(State.new p).blockNo + i]? = some x ∧ x.checksum = f.hash b := by
        intro i b hb
        have := hall i b (by
          rw [hfb, List.getElem?_append_left (List.getElem?_eq_some_iff.1 hb).1]; exact hb)
        simpa [State.new] using this
      obtain ⟨k1, k2, k3, k4, k5⟩ := fold_same (p := p) _ (State.new p) hfull rfl rfl
      refine ⟨_, rfl, ?_⟩
      rw [h2.len, hfb]
      split
      · rename_i hlt
        rw [if_pos hlt] at hfb
        obtain ⟨x, hx, hxc⟩ := hall (blocks f.blockSize (content.length / f.blockSize) content).length
          (content.drop (content.length / f.blockSize * f.blockSize)) (by rw [hfb]; simp)
        have k4' := k4
        rw [show (State.new p).blockNo = 0 from rfl, Nat.zero_add] at k4'
        rw [← k4'] at hx
        generalize (blocks f.blockSize (content.length / f.blockSize) content).foldl
          (fun st b => flush f p false (addBlock f p (some map) st b)) (State.new p) = st at *
        have : addBlock f p (some map) st (content.drop (content.length / f.blockSize * f.blockSize)) =
            { st with map := st.map ++ [x], blockNo := st.blockNo + 1 } := by
          unfold addBlock
          simp [hx, hxc]
        rw [this]
        have hfl : flush f p true { st with map := st.map ++ [x], blockNo := st.blockNo + 1 } =
            { st with map := st.map ++ [x], blockNo := st.blockNo + 1 } := by
          unfold flush
          simp [k1]
        rw [hfl]
        refine ⟨k2, k3, ?_⟩
        simp [k5, State.new]
      · generalize (blocks f.blockSize (content.length / f.blockSize) content).foldl
          (fun st b => flush f p false (addBlock f p (some map) st b)) (State.new p) = st at *
        have hfl : flush f p true st = st := by
          unfold flush
          simp [k1]
        rw [hfl]
        refine ⟨k2, k3, ?_⟩
        simp [k5, State.new]
    obtain ⟨st, e1, e2, e3, e4⟩ := hst
    rw [e1]
    unfold finish
    rw [if_neg (by simp [e2, e4])]
    exact ⟨e3, rfl⟩

/-- The blocks read by a restore are exactly those that are not already as they were at the time of the backup. -/
theorem c15_needed {D : Type} (f : Format) (sha : List UInt8 → D) (repo : Repo) (e : Entry D) (content existing : List UInt8)
    (map : List Item) (hf : f.Ok) (hpm : ∀ r d, d ≠ [] → f.codec.packMap r d ≠ []) (h : Backups f sha repo e content)
    (hmap : loadMap f repo e = .ok map) (hcol : NoCollision f existing content) (i : Nat) :
    i ∈ (needed (blockChecksums f existing) map).map Prod.fst ↔
      i < (fileBlocks f.blockSize content).length ∧ (fileBlocks f.blockSize existing)[i]? ≠ (fileBlocks f.blockSize content)[i]? := by
  obtain ⟨⟨map', h1, h2⟩, -⟩ := h.good hf hpm
  rw [hmap] at h1
  cases h1
  rw [List.mem_map]
  constructor
  · rintro ⟨b, hb, rfl⟩
    obtain ⟨hb1, hb2⟩ := needed_mem.1 hb
    have hlt : b.1 < (fileBlocks f.blockSize content).length := by rw [← h2.len]; exact (List.getElem?_eq_some_iff.1 hb1).1
    refine ⟨hlt, ?_⟩
    intro heq
    have hc := List.getElem?_eq_getElem hlt
    rw [hc] at heq
    have hd := (h2.data _ _ _ hb1 hc).1
    rcases hb2 with hb2 | hb2
    · unfold blockChecksums at hb2
      rw [List.length_map] at hb2
      have := (List.getElem?_eq_some_iff.1 heq).1
      unfold fileBlocks at this
      omega
    · apply hb2
      unfold blockChecksums
      rw [List.getElem?_map]
      unfold fileBlocks at heq
      rw [heq, hd]
      rfl
  · rintro ⟨hlt, hne⟩
    have hm : i < map.length := by rw [h2.len]; exact hlt
    refine ⟨(i, map[i]), needed_mem.2 ⟨List.getElem?_eq_getElem hm, ?_⟩, rfl⟩
    have hc := List.getElem?_eq_getElem hlt
    have hd := (h2.data _ _ _ (List.getElem?_eq_getElem hm) hc).1
    rcases Nat.lt_or_ge i (blockChecksums f existing).length with hl | hl
    · right
      intro heq
      apply hne
      unfold blockChecksums at heq hl
      rw [List.length_map] at hl
      have hx : (fileBlocks f.blockSize existing)[i]? = some ((fileBlocks f.blockSize existing)[i]'hl) := List.getElem?_eq_getElem hl
      rw [List.getElem?_map] at heq
      unfold fileBlocks at hx
      rw [hx, hd] at heq
      simp only [Option.map_some, Option.some.injEq] at heq
      have := hcol i _ _ (by unfold fileBlocks; exact hx) hc heq
      rw [hc, ← this]
      unfold fileBlocks
      exact hx
    · exact .inl hl

theorem ok_of_toOption {α : Type} {r : Res α} {a : α} (h : r.toOption = some a) : r = .ok a := by
  cases r with
  | ok b =>
    simp only [Except.toOption, Option.some.injEq] at h
    rw [h]
  | error e => simp [Except.toOption] at h

/-! ## An example with two backups, the second one in a bundle -/

/-- Filters that add a byte, blocks of two bytes. -/
def exampleFormat : Format :=
  { codec := ⟨fun _ _ d => 7 :: d, fun | 7 :: d => some d | _ => none, fun _ d => d, some⟩
    blockSize := 2
    checksumSize := 2
    hash := fun b => [b.headD 0, b.getD 1 0xff] }

theorem exampleFormat_ok : exampleFormat.Ok where
  codec := ⟨fun _ _ _ => rfl, fun _ _ => rfl, fun _ _ _ _ => by simp [exampleFormat]⟩
  blockSize := by decide
  hash := fun _ => rfl

def exampleParam0 : Param := ⟨4, 0, 0, 0⟩
def exampleParam1 : Param := ⟨4, 1, 3, 2⟩
def exampleContent0 : List UInt8 := [1, 2, 3, 4, 5]
def exampleContent1 : List UInt8 := [1, 2, 9, 9, 5, 6]

/-- The map of the first backup. -/
def exampleMap0 : List Item :=
  [⟨0, 4, 0, 0, 5, 0, [1, 2]⟩, ⟨0, 4, 0, 0, 5, 1, [3, 4]⟩, ⟨0, 1, 0, 5, 2, 0, [5, 0xff]⟩]

def exampleRepo : Repo := fun reference bundle =>
  if reference = 0 ∧ bundle = 0 then (blockIncr exampleFormat exampleParam0 none exampleContent0).out
  else if reference = 1 ∧ bundle = 3 then
    [100, 101] ++ (blockIncr exampleFormat exampleParam1 (some exampleMap0) exampleContent1).out ++ [102]
  else []

def exampleEntry0 : Entry (List UInt8) :=
  entryOf id exampleParam0 (blockIncr exampleFormat exampleParam0 none exampleContent0) exampleContent0

def exampleEntry1 : Entry (List UInt8) :=
  entryOf id exampleParam1 (blockIncr exampleFormat exampleParam1 (some exampleMap0) exampleContent1) exampleContent1

theorem example_collision (a b : List UInt8) (h : ∀ i < 3, ∀ x y : List UInt8, (fileBlocks 2 a)[i]? = some x → (fileBlocks 2 b)[i]? = some y →
      exampleFormat.hash x = exampleFormat.hash y → x = y) (hlen : (fileBlocks 2 b).length ≤ 3) : NoCollision exampleFormat a b := by
  intro i x y hx hy
  refine h i ?_ x y hx hy
  have : (fileBlocks 2 b)[i]? = some y := hy
  have := (List.getElem?_eq_some_iff.1 this).1
  omega

theorem exampleBackups : Backups exampleFormat id exampleRepo exampleEntry1 exampleContent1 := by
  refine .incr exampleParam1 exampleEntry0 exampleContent0 exampleContent1 exampleMap0 (.full exampleParam0 exampleContent0 ?_ ?_) ?_ ?_ ?_
    ?_ ?_ ?_
  · exact ⟨by decide, by decide, by decide, by decide, by decide, by decide, by decide +kernel⟩
  · exact ⟨[], [], by decide +kernel, rfl⟩
  · exact ok_of_toOption (by decide +kernel)
  · decide
  · refine example_collision _ _ ?_ (by decide)
    intro i hi x y hx hy hh
    have h1 : fileBlocks 2 exampleContent0 = [[1, 2], [3, 4], [5]] := by decide
    have h2 : fileBlocks 2 exampleContent1 = [[1, 2], [9, 9], [5, 6]] := by decide
    rw [h1] at hx
    rw [h2] at hy
    rcases i with _ | _ | _ | i
    · simp at hx hy
      rw [← hx, ← hy]
    · simp at hx hy
      subst hx
      subst hy
      revert hh
      decide
    · simp at hx hy
      subst hx
      subst hy
      revert hh
      decide
    · omega
  · exact ⟨by decide, by decide, by decide, by decide, by decide, by decide, by decide +kernel⟩
  · exact ⟨[100, 101], [102], by decide +kernel, rfl⟩
  · decide +kernel

example : restore exampleFormat id exampleRepo exampleEntry1 none = .ok [1, 2, 9, 9, 5, 6] :=
  c15_restore_new _ _ _ _ _ exampleFormat_ok (fun _ _ h => h) exampleBackups

/-- The file that is there has one block that is already as expected and one too many. -/
example : restore exampleFormat id exampleRepo exampleEntry1 (some [1, 2, 3, 3, 3, 3, 3]) = .ok [1, 2, 9, 9, 5, 6] := by
  refine c15_restore _ _ _ _ exampleContent1 _ exampleFormat_ok (fun _ _ h => h) exampleBackups ?_ (by simp [exampleContent1])
  refine example_collision _ _ ?_ (by decide)
  intro i hi x y hx hy hh
  have h1 : fileBlocks 2 ((Option.getD (some [1, 2, 3, 3, 3, 3, 3]) []).take exampleContent1.length) = [[1, 2], [3, 3], [3, 3]] := by
    decide
  have h2 : fileBlocks 2 exampleContent1 = [[1, 2], [9, 9], [5, 6]] := by decide
  rw [h1] at hx
  rw [h2] at hy
  rcases i with _ | _ | _ | i
  · simp at hx hy
    rw [← hx, ← hy]
  · simp at hx hy
    subst hx
    subst hy
    revert hh
    decide
  · simp at hx hy
    subst hx
    subst hy
    revert hh
    decide
  · omega

/-- Without the assumption on collisions the property is false, so the checksum is what protects: here the block checksum of a
changed block is the one in the prior backup (the hash only looks at two bytes), nothing is stored for it and the restore fails
on the checksum of the file. -/
theorem c15_collision_detected : ∃ (f : Format) (repo : Repo) (e : Entry (List UInt8)) (map : List Item) (p : Param)
    (content0 content : List UInt8), f.Ok ∧ Backups f id repo e content0 ∧ loadMap f repo e = .ok map ∧ content ≠ content0 ∧
      (blockIncr f p (some map) content).out = [] := by
  refine ⟨{ exampleFormat with blockSize := 3 }, fun _ _ => (blockIncr { exampleFormat with blockSize := 3 } exampleParam0 none
    [1, 2, 3]).out, entryOf id exampleParam0 (blockIncr { exampleFormat with blockSize := 3 } exampleParam0 none [1, 2, 3]) [1, 2, 3],
    [⟨0, 3, 0, 0, 4, 0, [1, 2]⟩], exampleParam1, [1, 2, 3], [1, 2, 4], ?_, ?_, ok_of_toOption (by decide +kernel), by decide, by decide +kernel⟩
  · exact ⟨⟨fun _ _ _ => rfl, fun _ _ => rfl, fun _ _ _ _ => by simp [exampleFormat]⟩, by decide, fun _ => rfl⟩
  · refine .full exampleParam0 [1, 2, 3] ?_ ?_
    · exact ⟨by decide, by decide, by decide, by decide, by decide, by decide, by decide +kernel⟩
    · exact ⟨[], [], by simp, rfl⟩

end Verif.Block
