import Verif.Archive.PushLemmas

/-! # C17: archive push never replaces an archived segment with different content -/

namespace Verif.Archive

/-! ## Specification -/

/-- A file of the segment is in the repository (`c50_match`: name of the segment, checksum, compression extension). -/
def Archived (repo : Repo) (seg name : Str) : Prop := name ∈ repo.files.map Prod.fst ∧ matchFile seg name = true

/-- Files of a repository have different names. -/
def Repo.Distinct (repo : Repo) : Prop := (repo.files.map Prod.fst).Nodup

/-- The checksum in the name of a file of the segment. -/
def checksumIn (seg name : Str) : Str := (name.drop (seg.length + 1)).take 40

/-- A checksum of 40 hexadecimal characters. -/
def HexSha (sha : Bytes → Str) : Prop := ∀ b, (sha b).length = 40 ∧ ∀ c ∈ sha b, hashChar c = true

/-- No operation on the repository fails. -/
def Env.Works (env : Env) : Prop := env.find = none ∧ env.opn = none ∧ (∀ n, env.write n = none) ∧ env.close = none

/-- The name of a segment in the archive. -/
def archiveName (file sha ext : Str) : Str := file ++ [0x2d] ++ sha ++ ext

/-! ## Lemmas -/

theorem checksumIn_name (file sha ext : Str) (h : sha.length = 40) : checksumIn file (archiveName file sha ext) = sha := by
  unfold checksumIn archiveName
  have : (file ++ [0x2d] ++ sha ++ ext).drop (file.length + 1) = sha ++ ext := by
    rw [show file.length + 1 = (file ++ [0x2d]).length by simp, List.append_assoc, List.drop_left]
  rw [this, ← h, List.take_left]

theorem match_take {seg name : Str} (h : matchFile seg name = true) : name.take 24 = seg.take 24 := by
  unfold matchFile at h
  simp only [Bool.and_eq_true, beq_iff_eq] at h
  exact h.1

/-- Files of the segment in the directory are those in the repository. -/
theorem mem_listing {repo : Repo} {seg name : Str} (hs : Wal.isSegment seg = true) :
    (name ∈ listing repo.files (seg.take 16) ∧ matchFile seg name = true) ↔ Archived repo seg name := by
  unfold listing Archived
  constructor
  · rintro ⟨h1, h2⟩
    exact ⟨(List.mem_filter.1 h1).1, h2⟩
  · rintro ⟨h1, h2⟩
    refine ⟨List.mem_filter.2 ⟨h1, ?_⟩, h2⟩
    have ht := match_take h2
    obtain ⟨⟨hl, hr⟩, -⟩ := isSegment_iff.1 hs
    have h16 : name.take 16 = seg.take 16 := by
      have := congrArg (List.take 16) ht
      simpa [List.take_take] using this
    rw [ht, h16]
    simp only [Bool.and_eq_true, beq_iff_eq, List.all_eq_true, decide_true]
    exact ⟨⟨hl, hr⟩, trivial⟩

theorem findIn_cases {repo : Repo} {env : Env} {seg : Str} (hs : Wal.isSegment seg = true) (hd : repo.Distinct) (he : env.find = none) :
    ((∀ x, ¬ Archived repo seg x) → findIn repo env seg = .ok none) ∧
    (∀ x, Archived repo seg x → (∀ y, Archived repo seg y → y = x) → findIn repo env seg = .ok (some x)) ∧
    (∀ x y, Archived repo seg x → Archived repo seg y → x ≠ y → findIn repo env seg = .error .archiveDuplicate) := by
  have hnd : (listing repo.files (seg.take 16)).Nodup := List.Nodup.sublist List.filter_sublist hd
  have hf := c50_find 0 seg [] (listing repo.files) [] hnd (by simp)
  unfold findIn
  rw [he]
  simp only
  refine ⟨fun h => ?_, fun x hx hu => ?_, fun x y hx hy hne => ?_⟩
  · rw [c50_missing 0 seg [listing repo.files]]
    · simp
    · intro l hl x hx
      rw [List.mem_singleton] at hl
      subst hl
      cases hm : matchFile seg x with
      | false => rfl
      | true => exact absurd ((mem_listing hs).1 ⟨hx, hm⟩) (h x)
  · have hx' := (mem_listing hs).2 hx
    exact hf.1 x hx'.1 hx'.2 fun y hy hm => hu y ((mem_listing hs).1 ⟨hy, hm⟩)
  · have hx' := (mem_listing hs).2 hx
    have hy' := (mem_listing hs).2 hy
    exact hf.2 x y hx'.1 hy'.1 hne hx'.2 hy'.2

/-- The three cases. -/
theorem archived_cases (repo : Repo) (seg : Str) : (∀ x, ¬ Archived repo seg x) ∨
    (∃ x, Archived repo seg x ∧ ∀ y, Archived repo seg y → y = x) ∨ (∃ x y, Archived repo seg x ∧ Archived repo seg y ∧ x ≠ y) := by
  rcases Classical.em (∃ x, Archived repo seg x) with ⟨x, hx⟩ | h
  · rcases Classical.em (∀ y, Archived repo seg y → y = x) with hu | hu
    · exact .inr (.inl ⟨x, hx, hu⟩)
    · obtain ⟨y, hy⟩ := Classical.not_forall.1 hu
      obtain ⟨hy, hne⟩ := Classical.not_imp.1 hy
      exact .inr (.inr ⟨y, x, hy, hx, hne⟩)
  · exact .inl fun x hx => h ⟨x, hx⟩

theorem findIn_error {repo : Repo} {env : Env} {seg : Str} {e : Err} (he : env.find = some e) : findIn repo env seg = .error e := by
  unfold findIn; rw [he]

theorem need_iff {repo : Repo} {env : Env} {seg : Str} (hs : Wal.isSegment seg = true) (hd : repo.Distinct) :
    need seg (repo, env) = true ↔ env.find = none ∧ ∀ x, ¬ Archived repo seg x := by
  unfold need
  simp only
  cases he : env.find with
  | some e => rw [findIn_error he]; simp
  | none =>
    obtain ⟨h1, h2, h3⟩ := findIn_cases hs hd he
    rcases archived_cases repo seg with h | ⟨x, hx, hu⟩ | ⟨x, y, hx, hy, hne⟩
    · rw [h1 h]; simp [h]
    · rw [h2 x hx hu]
      simp only [Bool.false_eq_true, true_and, false_iff]
      exact fun h => h x hx
    · rw [h3 x y hx hy hne]
      simp only [Bool.false_eq_true, true_and, false_iff]
      exact fun h => h x hx

theorem findOk_iff {repo : Repo} {env : Env} {seg : Str} (hs : Wal.isSegment seg = true) (hd : repo.Distinct) :
    findOk seg (repo, env) = true ↔ env.find = none ∧ ∀ x y, Archived repo seg x → Archived repo seg y → x = y := by
  unfold findOk
  simp only
  cases he : env.find with
  | some e => rw [findIn_error he]; simp
  | none =>
    obtain ⟨h1, h2, h3⟩ := findIn_cases hs hd he
    rcases archived_cases repo seg with h | ⟨x, hx, hu⟩ | ⟨x, y, hx, hy, hne⟩
    · rw [h1 h]
      simp only [true_and, true_iff]
      exact fun x y hx => absurd hx (h x)
    · rw [h2 x hx hu]
      simp only [true_and, true_iff]
      exact fun a b ha hb => (hu a ha).trans (hu b hb).symm
    · rw [h3 x y hx hy hne]
      simp only [Bool.false_eq_true, true_and, false_iff]
      exact fun h => hne (h x y hx hy)

theorem mismatch_iff {repo : Repo} {env : Env} {seg sha : Str} (hs : Wal.isSegment seg = true) (hd : repo.Distinct) :
    mismatch seg sha (repo, env) ↔ env.find = none ∧ (∀ x y, Archived repo seg x → Archived repo seg y → x = y) ∧
      ∃ x, Archived repo seg x ∧ checksumIn seg x ≠ sha := by
  unfold mismatch checksumIn
  simp only
  cases he : env.find with
  | some e => rw [findIn_error he]; simp
  | none =>
    obtain ⟨h1, h2, h3⟩ := findIn_cases hs hd he
    simp only [true_and]
    rcases archived_cases repo seg with h | ⟨x, hx, hu⟩ | ⟨x, y, hx, hy, hne⟩
    · rw [h1 h]
      constructor
      · rintro ⟨_, hc, _⟩; cases hc
      · rintro ⟨_, x, hx, _⟩; exact absurd hx (h x)
    · rw [h2 x hx hu]
      constructor
      · rintro ⟨f, hf, hne⟩
        cases hf
        exact ⟨fun a b ha hb => (hu a ha).trans (hu b hb).symm, x, hx, hne⟩
      · rintro ⟨_, y, hy, hne⟩
        rw [hu y hy] at hne
        exact ⟨x, rfl, hne⟩
    · rw [h3 x y hx hy hne]
      constructor
      · rintro ⟨_, hc, _⟩; cases hc
      · rintro ⟨h, _⟩; exact absurd (h x y hx hy) hne

theorem putFile_new (name : Str) (data : Bytes) : ∀ (files : List (Str × Bytes)), name ∉ files.map Prod.fst →
    putFile name data files = files ++ [(name, data)]
  | [], _ => rfl
  | (n, d) :: files, h => by
    rw [List.map_cons, List.mem_cons, not_or] at h
    rw [putFile, if_neg (fun hn => h.1 hn.symm), putFile_new name data files h.2]
    rfl

/-- All outcomes of a push of a segment. -/
theorem push_cases (sha : Bytes → Str) (o : PushOpts) (src : Source) (file : Str) (repos : List (Repo × Env)) (prior : List (Nat × Err))
    (hs : Wal.isSegment file = true) :
    (∃ e, pushFile sha o src file repos prior = (repos.map Prod.fst, .error e) ∧ headerOk o src = .error e) ∨
    (headerOk o src = .ok () ∧
      ((∃ e, pushFile sha o src file repos prior = (repos.map Prod.fst, .error e) ∧ src.content = .error e) ∨
      ∃ content, src.content = .ok content ∧
        ((pushFile sha o src file repos prior = (repos.map Prod.fst, .error .archiveDuplicate) ∧
            ∃ r ∈ repos, mismatch file (sha content) r) ∨
        ((∀ r ∈ repos, ¬ mismatch file (sha content) r) ∧
          ((∃ e, pushFile sha o src file repos prior = (repos.map Prod.fst, .error e) ∧ src.chunks = .error e ∧
              ∃ r ∈ repos, need file r = true) ∨
          ∃ warn, (∀ i, i ∈ warn ↔ o.modeCheck = true ∧ ∃ r, repos[i]? = some r ∧ findOk file r = true ∧ need file r = false) ∧
            ((pushFile sha o src file repos prior).2 = .ok warn ∨ (pushFile sha o src file repos prior).2 = .error .command) ∧
            (((∀ r ∈ repos, need file r = false) ∧ (pushFile sha o src file repos prior).1 = repos.map Prod.fst ∧
              ((pushFile sha o src file repos prior).2 = .ok warn ↔ prior = [] ∧ ∀ r ∈ repos, findOk file r = true)) ∨
            ∃ chunks, src.chunks = .ok chunks ∧
              (pushFile sha o src file repos prior).1 =
                repos.map (after (archiveName file (sha content) o.ext) chunks (need file)) ∧
              ((pushFile sha o src file repos prior).2 = .ok warn ↔ prior = [] ∧ ∀ r ∈ repos, findOk file r = true ∧
                (need file r = true → ioClean chunks.length r.2)))))))) := by
  cases hh : headerOk o src with
  | error e => exact .inl ⟨e, by simp only [pushFile, checkPhase, if_pos hs, hh], rfl⟩
  | ok u =>
    refine .inr ⟨rfl, ?_⟩
    cases hc : src.content with
    | error e => exact .inl ⟨e, by simp only [pushFile, checkPhase, if_pos hs, hh, hc], rfl⟩
    | ok content =>
      refine .inr ⟨content, rfl, ?_⟩
      rcases Classical.em (∃ r ∈ repos, mismatch file (sha content) r) with hm | hm
      · have h1 := checkLoop_mismatch o.modeCheck file (sha content) repos 0 ⟨[], false, [], prior⟩ hm
        exact .inl ⟨by simp only [pushFile, checkPhase, if_pos hs, hh, hc, h1], hm⟩
      · have hm' : ∀ r ∈ repos, ¬ mismatch file (sha content) r := fun r hr h => hm ⟨r, hr, h⟩
        refine .inr ⟨hm', ?_⟩
        obtain ⟨c, h1, h2, h3, h4, h5⟩ := checkLoop_ok o.modeCheck file (sha content) repos 0 ⟨[], false, [], prior⟩ hm'
        have hpush : pushFile sha o src file repos prior = copyPhase src (archiveName file (sha content) o.ext) repos c := by
          simp only [pushFile, checkPhase, if_pos hs, hh, hc, h1]
          rfl
        rw [hpush]
        simp only [List.nil_append, Bool.false_or] at h2 h3 h4
        have hwarn : ∀ i, i ∈ c.warn ↔ o.modeCheck = true ∧
            ∃ r, repos[i]? = some r ∧ findOk file r = true ∧ need file r = false := by
          intro i
          rw [h5]
          simp only [List.not_mem_nil, false_or, Nat.zero_add]
          refine and_congr_right fun _ => ?_
          constructor
          · rintro ⟨j, r, rfl, h⟩; exact ⟨r, h⟩
          · rintro ⟨r, h⟩; exact ⟨i, r, rfl, h⟩
        by_cases hany : c.copyAny = true
        · cases hch : src.chunks with
          | error e =>
            left
            refine ⟨e, ?_, rfl, ?_⟩
            · simp only [copyPhase, hany, hch, if_true]
            · rw [h3, List.any_eq_true] at hany
              exact hany
          | ok chunks =>
            right
            refine ⟨c.warn, hwarn, ?_⟩
            obtain ⟨g1, g2⟩ := copyPhase_eq src (archiveName file (sha content) o.ext) repos (need file) chunks c hch h2 hany
            have hiff : (prior = [] ∧ ∀ r ∈ repos, findOk file r = true ∧ (need file r = true → ioClean chunks.length r.2)) ↔
                (c.errors = [] ∧ ∀ r ∈ repos, need file r = true → ioClean chunks.length r.2) := by
              rw [h4]
              constructor
              · rintro ⟨a, b⟩; exact ⟨⟨a, fun r hr => (b r hr).1⟩, fun r hr => (b r hr).2⟩
              · rintro ⟨⟨a, b⟩, d⟩; exact ⟨a, fun r hr => ⟨b r hr, d r hr⟩⟩
            rcases g2 with ⟨g2, g3⟩ | ⟨g2, g3⟩
            · exact ⟨.inl g2, .inr ⟨chunks, rfl, g1, fun _ => hiff.2 g3, fun _ => g2⟩⟩
            · refine ⟨.inr g2, .inr ⟨chunks, rfl, g1, fun h => ?_, fun h => absurd (hiff.1 h) g3⟩⟩
              rw [g2] at h
              cases h
        · right
          refine ⟨c.warn, hwarn, ?_⟩
          have hn : ∀ r ∈ repos, need file r = false := by
            intro r hr
            cases hnr : need file r with
            | false => rfl
            | true => exact absurd (h3 ▸ List.any_eq_true.2 ⟨r, hr, hnr⟩) hany
          have hcp : copyPhase src (archiveName file (sha content) o.ext) repos c =
              (repos.map Prod.fst, if c.errors ≠ [] then .error .command else .ok c.warn) := by
            unfold copyPhase; rw [if_neg hany]
          rw [hcp]
          by_cases he : c.errors = []
          · rw [if_neg (fun h => h he)]
            exact ⟨.inl rfl, .inl ⟨hn, rfl, fun _ => h4.1 he, fun _ => rfl⟩⟩
          · rw [if_pos he]
            exact ⟨.inr rfl, .inl ⟨hn, rfl, fun h => (by cases h), fun h => absurd (h4.2 h) he⟩⟩

theorem archiveName_match {file sha ext : Str} (hs : Wal.isSegment file = true) (h1 : sha.length = 40) (h2 : ∀ c ∈ sha, hashChar c = true)
    (h3 : ext = [] ∨ ext ∈ compressExts) : matchFile file (archiveName file sha ext) = true :=
  matchFile_of hs ⟨sha, ext, rfl, h1, h2, h3⟩

/-! ## Theorems -/

/-- Whatever fails, in all repositories: the push of a segment changes nothing, or it adds one file, the segment with its checksum
and the pushed content, to a repository which had no file of the segment. In particular nothing is overwritten. -/
theorem c17_append_only (sha : Bytes → Str) (o : PushOpts) (src : Source) (file : Str) (repos : List (Repo × Env))
    (prior : List (Nat × Err)) (hs : Wal.isSegment file = true) (hsha : HexSha sha) (hext : o.ext = [] ∨ o.ext ∈ compressExts)
    (hd : ∀ r ∈ repos, r.1.Distinct) :
    (pushFile sha o src file repos prior).1.length = repos.length ∧
    ∀ (i : Nat) (r : Repo) (env : Env), repos[i]? = some (r, env) → ∃ r' : Repo, (pushFile sha o src file repos prior).1[i]? = some r' ∧ r'.enc = r.enc ∧
      (r'.files = r.files ∨ (∃ content chunks, src.content = .ok content ∧ src.chunks = .ok chunks ∧ (∀ x, ¬ Archived r file x) ∧
        r'.files = r.files ++ [(archiveName file (sha content) o.ext, r.enc chunks.flatten)])) := by
  have hsame : ∀ l : List Repo, l = repos.map Prod.fst → l.length = repos.length ∧ ∀ (i : Nat) (r : Repo) (env : Env), repos[i]? = some (r, env) →
      ∃ r' : Repo, l[i]? = some r' ∧ r'.enc = r.enc ∧ (r'.files = r.files ∨ (∃ content chunks, src.content = .ok content ∧
        src.chunks = .ok chunks ∧ (∀ x, ¬ Archived r file x) ∧
        r'.files = r.files ++ [(archiveName file (sha content) o.ext, r.enc chunks.flatten)])) := by
    rintro l rfl
    refine ⟨by simp, fun i r env h => ⟨r, by simp [h], rfl, .inl rfl⟩⟩
  rcases push_cases sha o src file repos prior hs with ⟨e, h, _⟩ | ⟨_, ⟨e, h, _⟩ | ⟨content, hcontent, ⟨h, _⟩ | ⟨_, ⟨e, h, _⟩ |
    ⟨warn, _, _, ⟨_, h, _⟩ | ⟨chunks, hchunks, h, _⟩⟩⟩⟩⟩
  · exact hsame _ (by rw [h])
  · exact hsame _ (by rw [h])
  · exact hsame _ (by rw [h])
  · exact hsame _ (by rw [h])
  · exact hsame _ h
  · rw [h]
    refine ⟨by simp, fun i r env hi => ⟨_, by simp [hi]; rfl, ?_⟩⟩
    have hdr := hd _ (List.mem_of_getElem? hi)
    unfold after
    split
    · rename_i hc
      have hno := ((need_iff hs hdr).1 hc.1).2
      refine ⟨rfl, .inr ⟨content, chunks, hcontent, hchunks, hno, ?_⟩⟩
      refine putFile_new _ _ _ fun hin => ?_
      exact hno _ ⟨hin, archiveName_match hs (hsha content).1 (hsha content).2 hext⟩
    · exact ⟨rfl, .inl rfl⟩

/-- If a repository which can be listed has one file for the segment with another checksum then the push fails with an error for it
and no repository is changed. -/
theorem c17_different (sha : Bytes → Str) (o : PushOpts) (src : Source) (file : Str) (repos : List (Repo × Env))
    (prior : List (Nat × Err)) (content : Bytes) (hs : Wal.isSegment file = true) (hd : ∀ r ∈ repos, r.1.Distinct)
    (hh : o.headerCheck = true → src.header = .ok o.header) (hc : src.content = .ok content)
    (r : Repo) (env : Env) (hr : (r, env) ∈ repos) (he : env.find = none) (x : Str) (hx : Archived r file x)
    (hu : ∀ y, Archived r file y → y = x) (hne : checksumIn file x ≠ sha content) :
    pushFile sha o src file repos prior = (repos.map Prod.fst, .error .archiveDuplicate) := by
  have hm : mismatch file (sha content) (r, env) :=
    (mismatch_iff hs (hd _ hr)).2 ⟨he, fun a b ha hb => (hu a ha).trans (hu b hb).symm, x, hx, hne⟩
  have hok : headerOk o src = .ok () := by
    unfold headerOk
    split
    · rename_i h; rw [hh h]; simp
    · rfl
  rcases push_cases sha o src file repos prior hs with ⟨e, _, h⟩ | ⟨_, ⟨e, _, h⟩ | ⟨content', hcontent, ⟨h, _⟩ | ⟨h, _⟩⟩⟩
  · rw [hok] at h; cases h
  · rw [hc] at h; cases h
  · exact h
  · rw [hc] at hcontent
    cases hcontent
    exact absurd hm (h _ hr)

/-- A successful push: no error before, the header is as expected, and every repository has exactly one file of the segment, with
the checksum of the content: the file it had, or the pushed content. Warnings are for the files that existed. -/
theorem c17_success (sha : Bytes → Str) (o : PushOpts) (src : Source) (file : Str) (repos : List (Repo × Env))
    (prior : List (Nat × Err)) (warn : List Nat) (hs : Wal.isSegment file = true) (hsha : HexSha sha)
    (hext : o.ext = [] ∨ o.ext ∈ compressExts) (hd : ∀ r ∈ repos, r.1.Distinct)
    (h : (pushFile sha o src file repos prior).2 = .ok warn) :
    prior = [] ∧ (o.headerCheck = true → src.header = .ok o.header) ∧ ∃ content, src.content = .ok content ∧
      (∀ (i : Nat) (r : Repo) (env : Env), repos[i]? = some (r, env) → env.find = none ∧ ∃ (r' : Repo) (x : Str), (pushFile sha o src file repos prior).1[i]? = some r' ∧
        Archived r' file x ∧ (∀ y, Archived r' file y → y = x) ∧ checksumIn file x = sha content ∧
        ((r'.files = r.files ∧ (i ∈ warn ↔ o.modeCheck = true)) ∨
          (∃ chunks, src.chunks = .ok chunks ∧ (x, r.enc chunks.flatten) ∈ r'.files ∧ (∀ y, ¬ Archived r file y) ∧ i ∉ warn ∧
            env.opn = none ∧ env.close = none ∧ ∀ n, n < chunks.length → env.write n = none))) := by
  have hhead : headerOk o src = .ok () → o.headerCheck = true → src.header = .ok o.header := by
    intro hk hc
    unfold headerOk at hk
    rw [if_pos hc] at hk
    cases hsrc : src.header with
    | error e => rw [hsrc] at hk; cases hk
    | ok v =>
      rw [hsrc] at hk
      simp only at hk
      split at hk
      · rename_i hv; rw [hv]
      · cases hk
  rcases push_cases sha o src file repos prior hs with ⟨e, h', _⟩ | ⟨hho, ⟨e, h', _⟩ | ⟨content, hcontent, ⟨h', _⟩ | ⟨hm, ⟨e, h', _⟩ |
    ⟨warn', hwarn, hor, ⟨hn, h1, hiff⟩ | ⟨chunks, hchunks, h1, hiff⟩⟩⟩⟩⟩
  · rw [h'] at h; cases h
  · rw [h'] at h; cases h
  · rw [h'] at h; cases h
  · rw [h'] at h; cases h
  · have hw : warn' = warn := by
      rcases hor with h' | h'
      · rw [h'] at h; exact Except.ok.inj h
      · rw [h'] at h; cases h
    subst hw
    obtain ⟨hp, hf⟩ := hiff.1 h
    refine ⟨hp, hhead hho, content, hcontent, fun i r env hi => ?_⟩
    have hmem := List.mem_of_getElem? hi
    have hdr := hd _ hmem
    obtain ⟨hfind, huniq⟩ := (findOk_iff hs hdr).1 (hf _ hmem)
    refine ⟨hfind, ?_⟩
    rcases archived_cases r file with hno | ⟨x, hx, hu⟩ | ⟨x, y, hx, hy, hne⟩
    · have := hn _ hmem
      rw [(need_iff hs hdr).2 ⟨hfind, hno⟩] at this
      cases this
    · refine ⟨r, x, by rw [h1]; simp [hi], hx, hu, ?_, .inl ⟨rfl, ?_⟩⟩
      · exact Classical.byContradiction fun hne => hm _ hmem ((mismatch_iff hs hdr).2 ⟨hfind, huniq, x, hx, hne⟩)
      · rw [hwarn]
        exact ⟨fun h => h.1, fun h => ⟨h, _, hi, hf _ hmem, hn _ hmem⟩⟩
    · exact absurd (huniq x y hx hy) hne
  · have hw : warn' = warn := by
      rcases hor with h' | h'
      · rw [h'] at h; exact Except.ok.inj h
      · rw [h'] at h; cases h
    subst hw
    obtain ⟨hp, hf⟩ := hiff.1 h
    refine ⟨hp, hhead hho, content, hcontent, fun i r env hi => ?_⟩
    have hmem := List.mem_of_getElem? hi
    have hdr := hd _ hmem
    obtain ⟨hfind, huniq⟩ := (findOk_iff hs hdr).1 (hf _ hmem).1
    refine ⟨hfind, ?_⟩
    have h2 : (pushFile sha o src file repos prior).1[i]? =
        some (after (archiveName file (sha content) o.ext) chunks (need file) (r, env)) := by rw [h1]; simp [hi]
    rcases archived_cases r file with hno | ⟨x, hx, hu⟩ | ⟨x, y, hx, hy, hne⟩
    · have hneed := (need_iff (env := env) hs hdr).2 ⟨hfind, hno⟩
      have hcl := (hf _ hmem).2 hneed
      have hmatch := archiveName_match hs (hsha content).1 (hsha content).2 hext
      have hfiles : (after (archiveName file (sha content) o.ext) chunks (need file) (r, env)).files =
          r.files ++ [(archiveName file (sha content) o.ext, r.enc chunks.flatten)] := by
        unfold after
        rw [if_pos ⟨hneed, hcl⟩]
        exact putFile_new _ _ _ fun hin => hno _ ⟨hin, hmatch⟩
      refine ⟨_, archiveName file (sha content) o.ext, h2, ⟨by rw [hfiles]; simp, hmatch⟩, fun y hy => ?_,
        checksumIn_name _ _ _ (hsha content).1, .inr ⟨chunks, hchunks, by rw [hfiles]; simp, hno, ?_, hcl.1, hcl.2.2, hcl.2.1⟩⟩
      · obtain ⟨hy1, hy2⟩ := hy
        rw [hfiles, List.map_append, List.mem_append] at hy1
        rcases hy1 with hy1 | hy1
        · exact absurd ⟨hy1, hy2⟩ (hno y)
        · simpa using hy1
      · rw [hwarn]
        rintro ⟨_, r', hr', _, hn⟩
        rw [hi] at hr'
        cases hr'
        rw [hneed] at hn
        cases hn
    · have hnn : need file (r, env) = false := by
        cases hnn : need file (r, env) with
        | false => rfl
        | true => exact absurd hx (((need_iff hs hdr).1 hnn).2 x)
      have heq : after (archiveName file (sha content) o.ext) chunks (need file) (r, env) = r := by
        unfold after
        rw [if_neg (by rw [hnn]; simp)]
      rw [heq] at h2
      refine ⟨r, x, h2, hx, hu, ?_, .inl ⟨rfl, ?_⟩⟩
      · exact Classical.byContradiction fun hne => hm _ hmem ((mismatch_iff hs hdr).2 ⟨hfind, huniq, x, hx, hne⟩)
      · rw [hwarn]
        exact ⟨fun h => h.1, fun h => ⟨h, _, hi, (hf _ hmem).1, hnn⟩⟩
    · exact absurd (huniq x y hx hy) hne

/-- A push succeeds when nothing fails and what the repositories have for the segment has the same checksum. -/
theorem c17_complete (sha : Bytes → Str) (o : PushOpts) (src : Source) (file : Str) (repos : List (Repo × Env)) (content : Bytes)
    (chunks : List Bytes) (hs : Wal.isSegment file = true) (hd : ∀ r ∈ repos, r.1.Distinct)
    (hh : o.headerCheck = true → src.header = .ok o.header) (hc : src.content = .ok content) (hch : src.chunks = .ok chunks)
    (hw : ∀ r ∈ repos, r.2.Works)
    (hx : ∀ r ∈ repos, ∀ x y, Archived r.1 file x → Archived r.1 file y → x = y ∧ checksumIn file x = sha content) :
    ∃ warn, (pushFile sha o src file repos []).2 = .ok warn := by
  have hok : headerOk o src = .ok () := by
    unfold headerOk
    split
    · rename_i h; rw [hh h]; simp
    · rfl
  have hfo : ∀ r ∈ repos, findOk file r = true := fun r hr =>
    (findOk_iff hs (hd r hr)).2 ⟨(hw r hr).1, fun a b ha hb => (hx r hr a b ha hb).1⟩
  rcases push_cases sha o src file repos [] hs with ⟨e, _, h⟩ | ⟨_, ⟨e, _, h⟩ | ⟨content', hcontent, ⟨_, r, hr, h⟩ | ⟨hm, ⟨e, _, h, _⟩ |
    ⟨warn, _, _, ⟨_, _, hiff⟩ | ⟨chunks', hchunks, _, hiff⟩⟩⟩⟩⟩
  · rw [hok] at h; cases h
  · rw [hc] at h; cases h
  · rw [hc] at hcontent
    cases hcontent
    obtain ⟨r1, r2⟩ := r
    obtain ⟨_, _, x, h1, h2⟩ := (mismatch_iff hs (hd _ hr)).1 h
    exact absurd (hx _ hr x x h1 h1).2 h2
  · rw [hch] at h; cases h
  · exact ⟨warn, hiff.2 ⟨rfl, hfo⟩⟩
  · refine ⟨warn, hiff.2 ⟨rfl, fun r hr => ⟨hfo r hr, fun _ => ?_⟩⟩⟩
    obtain ⟨_, h2, h3, h4⟩ := hw r hr
    exact ⟨h2, fun i _ => h3 i, h4⟩

/-- A repository for which nothing fails gets the segment, whatever fails for the others, unless one of them has another checksum. -/
theorem c17_independent (sha : Bytes → Str) (o : PushOpts) (src : Source) (file : Str) (repos : List (Repo × Env))
    (prior : List (Nat × Err)) (content : Bytes) (chunks : List Bytes) (hs : Wal.isSegment file = true) (hsha : HexSha sha)
    (hext : o.ext = [] ∨ o.ext ∈ compressExts) (hd : ∀ r ∈ repos, r.1.Distinct)
    (hh : o.headerCheck = true → src.header = .ok o.header) (hc : src.content = .ok content) (hch : src.chunks = .ok chunks)
    (hx : ∀ r ∈ repos, ∀ x, Archived r.1 file x → checksumIn file x = sha content)
    (i : Nat) (r : Repo) (env : Env) (hi : repos[i]? = some (r, env)) (hw : env.Works) :
    ∃ (r' : Repo) (x : Str), (pushFile sha o src file repos prior).1[i]? = some r' ∧ Archived r' file x ∧
      checksumIn file x = sha content := by
  have hok : headerOk o src = .ok () := by
    unfold headerOk
    split
    · rename_i h; rw [hh h]; simp
    · rfl
  have hmem := List.mem_of_getElem? hi
  have hdr := hd _ hmem
  have hsame : (pushFile sha o src file repos prior).1[i]? = some r → need file (r, env) = false →
      ∃ (r' : Repo) (x : Str), (pushFile sha o src file repos prior).1[i]? = some r' ∧ Archived r' file x ∧
        checksumIn file x = sha content := by
    intro h hn
    rcases Classical.em (∃ x, Archived r file x) with ⟨x, hax⟩ | hno
    · exact ⟨r, x, h, hax, hx _ hmem x hax⟩
    · rw [(need_iff hs hdr).2 ⟨hw.1, fun x hax => hno ⟨x, hax⟩⟩] at hn
      cases hn
  rcases push_cases sha o src file repos prior hs with ⟨e, _, h⟩ | ⟨_, ⟨e, _, h⟩ | ⟨content', hcontent, ⟨_, r', hr', h⟩ | ⟨hm, ⟨e, _, h, _⟩ |
    ⟨warn, _, _, ⟨hn, h1, _⟩ | ⟨chunks', hchunks, h1, _⟩⟩⟩⟩⟩
  · rw [hok] at h; cases h
  · rw [hc] at h; cases h
  · rw [hc] at hcontent
    cases hcontent
    obtain ⟨r1, r2⟩ := r'
    obtain ⟨_, _, x, h1, h2⟩ := (mismatch_iff hs (hd _ hr')).1 h
    exact absurd (hx _ hr' x h1) h2
  · rw [hch] at h; cases h
  · exact hsame (by rw [h1]; simp [hi]) (hn _ hmem)
  · rw [hc] at hcontent
    cases hcontent
    have h2 : (pushFile sha o src file repos prior).1[i]? =
        some (after (archiveName file (sha content) o.ext) chunks' (need file) (r, env)) := by rw [h1]; simp [hi]
    cases hn : need file (r, env) with
    | false =>
      have heq : after (archiveName file (sha content) o.ext) chunks' (need file) (r, env) = r := by
        unfold after
        rw [if_neg (by rw [hn]; simp)]
      exact hsame (by rw [h2, heq]) hn
    | true =>
      have hmatch := archiveName_match hs (hsha content).1 (hsha content).2 hext
      refine ⟨_, archiveName file (sha content) o.ext, h2, ⟨?_, hmatch⟩, checksumIn_name _ _ _ (hsha content).1⟩
      unfold after
      rw [if_pos ⟨hn, hw.2.1, fun n _ => hw.2.2.1 n, hw.2.2.2⟩]
      simp only
      rw [putFile_new _ _ _ fun hin => ((need_iff hs hdr).1 hn).2 _ ⟨hin, hmatch⟩]
      simp

/-- A push that is tried again after a first try in which anything failed (or a crash: a repository for which the close was not
done is as one for which it fails) succeeds, whatever the first try reported. -/
theorem c17_retry (sha : Bytes → Str) (o o' : PushOpts) (src src' : Source) (file : Str) (repos : List (Repo × Env)) (prior : List (Nat × Err))
    (content : Bytes) (chunks : List Bytes) (env : Env) (hs : Wal.isSegment file = true) (hsha : HexSha sha)
    (hext : o.ext = [] ∨ o.ext ∈ compressExts) (hd : ∀ r ∈ repos, r.1.Distinct)
    (hx : ∀ r ∈ repos, ∀ x y, Archived r.1 file x → Archived r.1 file y → x = y ∧ checksumIn file x = sha content)
    (hc : src.content = .ok content) (hc' : src'.content = .ok content) (hch : src'.chunks = .ok chunks)
    (hh : o'.headerCheck = true → src'.header = .ok o'.header) (hw : env.Works) :
    ∃ warn, (pushFile sha o' src' file ((pushFile sha o src file repos prior).1.map fun r => (r, env)) []).2 = .ok warn := by
  obtain ⟨hlen, happ⟩ := c17_append_only sha o src file repos prior hs hsha hext hd
  have hrepo : ∀ r' ∈ (pushFile sha o src file repos prior).1, ∃ p ∈ repos, r'.files = p.1.files ∨ ((∀ x, ¬ Archived p.1 file x) ∧
      ∃ data, r'.files = p.1.files ++ [(archiveName file (sha content) o.ext, data)]) := by
    intro r' hr'
    obtain ⟨i, hi, hr'⟩ := List.mem_iff_getElem.1 hr'
    have hi' : i < repos.length := by rw [← hlen]; exact hi
    obtain ⟨r'', h1, _, h2⟩ := happ i repos[i].1 repos[i].2 (by simp [hi'])
    rw [List.getElem?_eq_getElem hi, hr'] at h1
    cases h1
    refine ⟨repos[i], List.getElem_mem hi', ?_⟩
    rcases h2 with h2 | ⟨c, ch, h3, _, h4, h5⟩
    · exact .inl h2
    · rw [hc] at h3
      cases h3
      exact .inr ⟨h4, _, h5⟩
  have hmatch := archiveName_match hs (hsha content).1 (hsha content).2 hext
  refine c17_complete sha o' src' file _ content chunks hs ?_ hh hc' hch ?_ ?_
  · intro r hr
    obtain ⟨r', hr', rfl⟩ := List.mem_map.1 hr
    obtain ⟨p, hp, h | ⟨hno, data, h⟩⟩ := hrepo r' hr'
    · have := hd p hp
      unfold Repo.Distinct at this ⊢
      rw [h]
      exact this
    · have := hd p hp
      unfold Repo.Distinct at this ⊢
      rw [h, List.map_append, List.nodup_append]
      refine ⟨this, by simp, fun a ha b hb hab => ?_⟩
      rw [List.map_cons, List.map_nil, List.mem_singleton] at hb
      rw [hab, hb] at ha
      exact hno _ ⟨ha, hmatch⟩
  · intro r hr
    obtain ⟨r', hr', rfl⟩ := List.mem_map.1 hr
    exact hw
  · intro r hr x y ax ay
    obtain ⟨r', hr', rfl⟩ := List.mem_map.1 hr
    obtain ⟨p, hp, h | ⟨hno, data, h⟩⟩ := hrepo r' hr'
    · refine hx p hp x y ?_ ?_
      · exact ⟨by rw [← h]; exact ax.1, ax.2⟩
      · exact ⟨by rw [← h]; exact ay.1, ay.2⟩
    · have hone : ∀ z, Archived r' file z → z = archiveName file (sha content) o.ext := by
        rintro z ⟨h1, h2⟩
        rw [h, List.map_append, List.mem_append] at h1
        rcases h1 with h1 | h1
        · exact absurd ⟨h1, h2⟩ (hno z)
        · simpa using h1
      rw [hone x ax, hone y ay]
      exact ⟨rfl, checksumIn_name _ _ _ (hsha content).1⟩

/-- When each archived file holds a content with the checksum of its name, a successful push of `content` means each repository has a
file of the segment that holds `content`, unless the checksums of different contents are the same. -/
theorem c17_content (sha : Bytes → Str) (o : PushOpts) (src : Source) (file : Str) (repos : List (Repo × Env)) (prior : List (Nat × Err))
    (warn : List Nat) (content : Bytes) (chunks : List Bytes) (stored : Str → Bytes → Bytes → Prop)
    (hs : Wal.isSegment file = true) (hsha : HexSha sha) (hext : o.ext = [] ∨ o.ext ∈ compressExts) (hd : ∀ r ∈ repos, r.1.Distinct)
    (hc : src.content = .ok content) (hch : src.chunks = .ok chunks)
    (hstore : ∀ r ∈ repos, stored (archiveName file (sha content) o.ext) (r.1.enc chunks.flatten) content)
    (hfaith : ∀ r ∈ repos, ∀ x d, (x, d) ∈ r.1.files → matchFile file x = true → ∃ b, stored x d b ∧ checksumIn file x = sha b)
    (hcoll : ∀ b, sha b = sha content → b = content)
    (h : (pushFile sha o src file repos prior).2 = .ok warn) :
    ∀ r' ∈ (pushFile sha o src file repos prior).1, ∃ x d, (x, d) ∈ r'.files ∧ matchFile file x = true ∧ stored x d content := by
  intro r' hr'
  obtain ⟨hlen, happ⟩ := c17_append_only sha o src file repos prior hs hsha hext hd
  obtain ⟨_, _, content', hc', hall⟩ := c17_success sha o src file repos prior warn hs hsha hext hd h
  rw [hc] at hc'
  cases hc'
  obtain ⟨i, hi, hget⟩ := List.mem_iff_getElem.1 hr'
  have hi' : i < repos.length := by rw [← hlen]; exact hi
  have hri : repos[i]? = some (repos[i].1, repos[i].2) := by simp [hi']
  have hmem : repos[i] ∈ repos := List.getElem_mem hi'
  have hr'i : (pushFile sha o src file repos prior).1[i]? = some r' := by rw [List.getElem?_eq_getElem hi, hget]
  obtain ⟨_, r2, x, h1, hx, hu, hcs, hcase⟩ := hall i _ _ hri
  rw [hr'i] at h1
  cases h1
  obtain ⟨r3, h3, _, hap⟩ := happ i _ _ hri
  rw [hr'i] at h3
  cases h3
  rcases hap with hap | ⟨c, ch, hc1, hch1, hno, hap⟩
  · obtain ⟨⟨x', d⟩, hd', hx'⟩ := List.mem_map.1 hx.1
    simp only at hx'
    subst hx'
    rw [hap] at hd'
    obtain ⟨b, hb, hcb⟩ := hfaith _ hmem x' d hd' hx.2
    rw [hcs] at hcb
    rw [hcoll b hcb.symm] at hb
    exact ⟨x', d, by rw [hap]; exact hd', hx.2, hb⟩
  · rw [hc] at hc1
    cases hc1
    rw [hch] at hch1
    cases hch1
    exact ⟨_, _, by rw [hap]; simp, archiveName_match hs (hsha content).1 (hsha content).2 hext, hstore _ hmem⟩

/-- A file that is not a segment (history file for example) is copied to all repositories without a check. -/
theorem c17_other_file (sha : Bytes → Str) (o : PushOpts) (src : Source) (file : Str) (repos : List (Repo × Env)) (prior : List (Nat × Err))
    (chunks : List Bytes) (hs : Wal.isSegment file = false) (hch : src.chunks = .ok chunks) :
    (pushFile sha o src file repos prior).1 = repos.map (after file chunks fun _ => true) ∧
    ((pushFile sha o src file repos prior).2 = .ok [] ↔ prior = [] ∧ ∀ r ∈ repos, ioClean chunks.length r.2) ∧
    ((pushFile sha o src file repos prior).2 = .ok [] ∨ (pushFile sha o src file repos prior).2 = .error .command) := by
  unfold pushFile checkPhase
  rw [if_neg (by rw [hs]; simp)]
  obtain ⟨h1, h2⟩ := copyPhase_eq src file repos (fun _ => true) chunks ⟨repos.map fun _ => true, true, [], prior⟩ hch rfl rfl
  refine ⟨h1, ?_, ?_⟩
  · rcases h2 with ⟨h2, h3⟩ | ⟨h2, h3⟩
    · exact ⟨fun _ => ⟨h3.1, fun r hr => h3.2 r hr rfl⟩, fun _ => h2⟩
    · refine ⟨fun h => ?_, fun h => absurd ⟨h.1, fun r hr _ => h.2 r hr⟩ h3⟩
      have h' : (copyPhase src file repos ⟨repos.map fun _ => true, true, [], prior⟩).2 = .ok [] := h
      rw [h2] at h'
      cases h'
  · rcases h2 with ⟨h2, _⟩ | ⟨h2, _⟩
    · exact .inl h2
    · exact .inr h2

/-! ## Examples and witnesses -/

/-- A checksum for examples: 40 times a character that depends on the first byte. -/
def exSha (b : Bytes) : Str := List.replicate 40 (if b = [1] then 0x61 else 0x62)

def exOpts : PushOpts := ⟨true, (14, 7), true, [0x2e, 0x67, 0x7a]⟩
def exSource (b : Bytes) : Source := ⟨.ok (14, 7), .ok b, .ok [b, []]⟩
def exRepo (files : List (Str × Bytes)) : Repo := ⟨files, fun b => 9 :: b⟩

example : HexSha exSha := by
  intro b
  unfold exSha
  refine ⟨by simp, fun c hc => ?_⟩
  rw [List.eq_of_mem_replicate hc]
  split <;> decide

/-- One repository has the segment, another does not, and the write to a third fails: as in `c17_append_only`, `c17_retry`. -/
example : (pushFile exSha exOpts (exSource [1]) segA
      [(exRepo [(fileSha segA 0x61 [], [5])], {}), (exRepo [], {}), (exRepo [], { write := fun n => if n = 1 then some .fileWrite else none })]
      []).2 = .error .command ∧
    ((pushFile exSha exOpts (exSource [1]) segA
      [(exRepo [(fileSha segA 0x61 [], [5])], {}), (exRepo [], {}), (exRepo [], { write := fun n => if n = 1 then some .fileWrite else none })]
      []).1.map Repo.files) = [[(fileSha segA 0x61 [], [5])], [(fileSha segA 0x61 [0x2e, 0x67, 0x7a], [9, 1])], []] := ⟨by rfl, by rfl⟩

/-- A push that succeeds with a warning for one repository, as in `c17_success`, `c17_complete`. -/
example : (pushFile exSha exOpts (exSource [1]) segA [(exRepo [(fileSha segA 0x61 [], [5])], {}), (exRepo [], {})] []).2 = .ok [0] := by
  rfl

/-- A push for which a repository has another checksum, as in `c17_different`. -/
example : (exRepo [(fileSha segA 0x62 [], [5])]).Distinct ∧ Archived (exRepo [(fileSha segA 0x62 [], [5])]) segA (fileSha segA 0x62 []) ∧
    checksumIn segA (fileSha segA 0x62 []) ≠ exSha [1] := by
  refine ⟨by unfold Repo.Distinct; decide, ⟨by decide, by decide⟩, by decide⟩

/-- The hypotheses of `c17_content`. -/
example : (∀ b, exSha b = exSha [1] → b = [1]) ∧ ((exRepo []).enc [([1] : Bytes), []].flatten = 9 :: [1]) ∧
    (∀ x d, (x, d) ∈ (exRepo [(fileSha segA 0x62 [], [9, 5])]).files → matchFile segA x = true →
      ∃ b, d = 9 :: b ∧ checksumIn segA x = exSha b) := by
  refine ⟨fun b hb => ?_, rfl, fun x d h _ => ?_⟩
  · unfold exSha at hb
    by_cases h : b = [1]
    · exact h
    · rw [if_neg h, if_pos rfl] at hb
      exact absurd hb (by decide)
  · rw [exRepo, List.mem_singleton] at h
    cases h
    exact ⟨[5], rfl, by decide⟩

/-- A history file with other content is replaced without an error, unlike a segment: as in `c17_other_file`. -/
theorem c17_history_replaced : ∃ (src : Source) (file : Str) (repo : Repo) (old new : Bytes), old ≠ new ∧ (file, old) ∈ repo.files ∧
    pushFile exSha exOpts src file [(repo, {})] [] = ([⟨[(file, new)], repo.enc⟩], .ok []) :=
  ⟨exSource [1], [0x30, 0x2e, 0x68], exRepo [([0x30, 0x2e, 0x68], [9, 7])], [9, 7], [9, 1], by decide, by decide, by rfl⟩

/-- The check and the copy are not atomic: of two pushes of different contents at the same time, both can succeed and then the
repository has two files for the segment, so that no further push or get of it succeeds. -/
theorem c17_concurrent : ∃ (repo : Repo) (c1 c2 : Check) (n1 n2 : Str) (repo' : Repo),
    checkPhase exSha exOpts (exSource [1]) segA [(repo, {})] [] = .ok (n1, c1) ∧
    checkPhase exSha exOpts (exSource [2]) segA [(repo, {})] [] = .ok (n2, c2) ∧
    copyPhase (exSource [1]) n1 [(repo, {})] c1 = ([repo'], .ok []) ∧
    (copyPhase (exSource [2]) n2 [(repo', {})] c2).2 = .ok [] ∧
    (copyPhase (exSource [2]) n2 [(repo', {})] c2).1.map Repo.files =
      [[(fileSha segA 0x61 [0x2e, 0x67, 0x7a], [9, 1]), (fileSha segA 0x62 [0x2e, 0x67, 0x7a], [9, 2])]] :=
  ⟨exRepo [], ⟨[true], true, [], []⟩, ⟨[true], true, [], []⟩, fileSha segA 0x61 [0x2e, 0x67, 0x7a],
    fileSha segA 0x62 [0x2e, 0x67, 0x7a], exRepo [(fileSha segA 0x61 [0x2e, 0x67, 0x7a], [9, 1])], by rfl, by rfl, by rfl, by rfl, by rfl⟩

end Verif.Archive
