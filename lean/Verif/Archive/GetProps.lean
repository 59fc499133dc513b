import Verif.Archive.GetModel
import Verif.Archive.FindProps

/-! # C21: archive get never delivers the wrong segment -/

namespace Verif.Archive

/-! ## Specification -/

/-- The archive id is one of the cluster in the history of the repository. -/
def OfCluster (c : Control) (r : GetRepo) (id : Str) : Prop :=
  ∃ hist, r.info = .ok hist ∧ ∃ h ∈ hist, h.systemId = c.systemId ∧ h.version = c.version ∧ h.archiveId = id

/-- `file` is the path of a file for the request in the archive id of a repository. -/
def FileFor (r : GetRepo) (request id file : Str) : Prop :=
  if Wal.isSegment request then
    ∃ names n, r.list id (request.take 16) = .ok names ∧ n ∈ names ∧ matchFile request n = true ∧
      file = id ++ [0x2f] ++ request.take 16 ++ [0x2f] ++ n
  else r.has id request = .ok true ∧ file = id ++ [0x2f] ++ request

/-- The storage answers what is needed to search an archive id. -/
def Answers (r : GetRepo) (request id : Str) : Prop :=
  if Wal.isSegment request then ∃ names, r.list id (request.take 16) = .ok names else ∃ b, r.has id request = .ok b

/-- The repository of an index is searched, with its archive ids. -/
def Searched (c : Control) (repos : List GetRepo) (i : Nat) (r : GetRepo) (ids : List Str) : Prop :=
  repos[i]? = some r ∧ repoIds c.systemId c.version r = .ok ids

/-! ## Lemmas -/

theorem idsFrom_mem {r : GetRepo} {systemId version : Nat} : ∀ {hist : List PgHist} {k : Nat} {ids : List Str},
    idsFrom r systemId version k hist = .ok ids → ∀ id ∈ ids, ∃ h ∈ hist, h.systemId = systemId ∧ h.version = version ∧ h.archiveId = id
  | [], _, ids, h, id, hid => by
    cases h; cases hid
  | x :: hist, k, ids, h, id, hid => by
    have step : ∀ {ids}, idsFrom r systemId version (k + 1) hist = .ok ids → id ∈ ids →
        ∃ h ∈ x :: hist, h.systemId = systemId ∧ h.version = version ∧ h.archiveId = id := by
      intro ids h hid
      obtain ⟨y, hy, hy'⟩ := idsFrom_mem h id hid
      exact ⟨y, .tail _ hy, hy'⟩
    rw [idsFrom] at h
    split at h
    · rename_i hx
      split at h
      · cases hp : r.paths with
        | error e => rw [hp] at h; cases h
        | ok paths =>
          rw [hp] at h
          simp only at h
          cases hr : idsFrom r systemId version (k + 1) hist with
          | error e => rw [hr] at h; cases h
          | ok rest =>
            rw [hr] at h
            cases h
            simp only at hid
            split at hid
            · rcases List.mem_cons.1 hid with rfl | hid
              · exact ⟨x, .head _, hx.1, hx.2, rfl⟩
              · exact step hr hid
            · exact step hr hid
      · cases hr : idsFrom r systemId version (k + 1) hist with
        | error e => rw [hr] at h; cases h
        | ok rest =>
          rw [hr] at h
          cases h
          rcases List.mem_cons.1 hid with rfl | hid
          · exact ⟨x, .head _, hx.1, hx.2, rfl⟩
          · exact step hr hid
    · exact step h hid

theorem repoIds_mem {c : Control} {r : GetRepo} {ids : List Str} (h : repoIds c.systemId c.version r = .ok ids) :
    ids ≠ [] ∧ ∀ id ∈ ids, OfCluster c r id := by
  unfold repoIds at h
  cases hi : r.info with
  | error e => rw [hi] at h; cases h
  | ok hist =>
    rw [hi] at h
    simp only at h
    cases hids : idsFrom r c.systemId c.version 0 hist with
    | error e => rw [hids] at h; cases h
    | ok l =>
      rw [hids] at h
      cases l with
      | nil => cases h
      | cons a l =>
        cases h
        exact ⟨by simp, fun id hid => ⟨hist, hi, idsFrom_mem hids id hid⟩⟩

theorem usable_mem {c : Control} {i : Nat} {r : GetRepo} {ids : List Str} : ∀ {repos : List GetRepo} {k : Nat},
    (i, r, ids) ∈ usable c.systemId c.version k repos ↔ k ≤ i ∧ Searched c repos (i - k) r ids
  | [], k => by simp [usable, Searched]
  | x :: repos, k => by
    have hstep : k + 1 ≤ i ∧ Searched c repos (i - (k + 1)) r ids ↔ k < i ∧ Searched c (x :: repos) (i - k) r ids := by
      constructor
      · rintro ⟨h1, h2, h3⟩
        refine ⟨by omega, ?_, h3⟩
        rw [show i - k = i - (k + 1) + 1 by omega, List.getElem?_cons_succ]
        exact h2
      · rintro ⟨h1, h2, h3⟩
        refine ⟨by omega, ?_, h3⟩
        rw [show i - k = i - (k + 1) + 1 by omega, List.getElem?_cons_succ] at h2
        exact h2
    rw [usable]
    cases hx : repoIds c.systemId c.version x with
    | error e =>
      simp only
      rw [usable_mem, hstep]
      constructor
      · rintro ⟨h1, h2⟩
        exact ⟨by omega, h2⟩
      · rintro ⟨h1, h2⟩
        refine ⟨?_, h2⟩
        by_cases hk : k = i
        · subst hk
          obtain ⟨h3, h4⟩ := h2
          rw [Nat.sub_self, List.getElem?_cons_zero] at h3
          cases h3
          rw [hx] at h4
          cases h4
        · omega
    | ok ids' =>
      simp only
      rw [List.mem_cons, usable_mem, hstep]
      constructor
      · rintro (h | ⟨h1, h2⟩)
        · cases h
          refine ⟨Nat.le_refl _, ?_, hx⟩
          rw [Nat.sub_self, List.getElem?_cons_zero]
        · exact ⟨by omega, h2⟩
      · rintro ⟨h1, h2⟩
        by_cases hk : k = i
        · subst hk
          obtain ⟨h3, h4⟩ := h2
          rw [Nat.sub_self, List.getElem?_cons_zero] at h3
          cases h3
          rw [hx] at h4
          cases h4
          exact .inl rfl
        · exact .inr ⟨by omega, h2⟩

theorem usable_sorted (systemId version : Nat) : ∀ (repos : List GetRepo) (k : Nat),
    (usable systemId version k repos).Pairwise (fun a b => a.1 < b.1) ∧ ∀ p ∈ usable systemId version k repos, k ≤ p.1
  | [], k => ⟨.nil, fun p hp => by cases hp⟩
  | x :: repos, k => by
    obtain ⟨h1, h2⟩ := usable_sorted systemId version repos (k + 1)
    rw [usable]
    cases repoIds systemId version x with
    | error e => exact ⟨h1, fun p hp => Nat.le_of_succ_le (h2 p hp)⟩
    | ok ids =>
      refine ⟨List.Pairwise.cons (fun p hp => h2 p hp) h1, fun p hp => ?_⟩
      rcases List.mem_cons.1 hp with rfl | hp
      · exact Nat.le_refl _
      · exact Nat.le_of_succ_le (h2 p hp)

/-- For a segment that is not partial both ways to search find the same files. -/
theorem matchPath_eq {seg n : Str} (hs : Wal.isSegment seg = true) (hp : isPartial seg = false) :
    (matchPath (seg.take 16) n && seg.isPrefixOf n) = matchFile seg n := by
  obtain ⟨⟨hlen, hch⟩, htail⟩ := isSegment_iff.1 hs
  have ht : seg.drop 24 = [] := by
    rcases htail with h | h
    · exact h
    · unfold isPartial at hp; rw [h] at hp; simp at hp
  have hseg : seg.take 24 = seg := by
    have := List.take_append_drop 24 seg
    rw [ht, List.append_nil] at this
    exact this
  have h24 : seg.length = 24 := by rw [← hseg]; exact hlen
  have hpre : seg.isPrefixOf n = true ↔ n.take 24 = seg := by
    rw [List.isPrefixOf_iff_prefix, List.prefix_iff_eq_take, h24]
    exact eq_comm
  rw [Bool.eq_iff_iff, Bool.and_eq_true, hpre]
  unfold matchFile matchPath
  rw [hp, hseg]
  simp only [Bool.and_eq_true, beq_iff_eq, Bool.false_eq_true, if_false]
  constructor
  · rintro ⟨⟨_, h⟩, h2⟩
    exact ⟨h2, h⟩
  · rintro ⟨h2, h⟩
    have h16 : n.take 16 = seg.take 16 := by
      rw [← h2, List.take_take]; rfl
    have h8 : (n.drop 16).take 8 = seg.drop 16 := by
      rw [← h2, List.drop_take]
    refine ⟨⟨⟨⟨h16, ?_⟩, ?_⟩, h⟩, h2⟩
    · rw [h8, List.length_drop, h24]
    · rw [h8, List.all_eq_true]
      intro c hc
      rw [hseg] at hch
      exact hch c (List.mem_of_mem_drop hc)

theorem segmentNames_eq {seg : Str} (single : Bool) (hs : Wal.isSegment seg = true) (hp : single = true ∨ isPartial seg = false)
    (names : List Str) : segmentNames single seg names = names.filter (matchFile seg) := by
  unfold segmentNames
  split
  · rfl
  · rename_i hsingle
    have hp' : isPartial seg = false := hp.resolve_left hsingle
    rw [List.filter_filter]
    congr 1
    funext n
    rw [← matchPath_eq hs hp', Bool.and_comm]

theorem idMatches_answers {single : Bool} {request : Str} {idx : Nat} {r : GetRepo} {id : Str} :
    (∃ ms, idMatches single request idx r id = .ok ms) ↔ Answers r request id := by
  unfold idMatches Answers
  split
  · cases r.list id (request.take 16) <;> simp [Except.map]
  · cases r.has id request <;> simp [Except.map]

theorem idMatches_mem {single : Bool} {request : Str} {idx : Nat} {r : GetRepo} {id : Str} {ms : List Match} {m : Match}
    (hp : single = true ∨ isPartial request = false) (h : idMatches single request idx r id = .ok ms) :
    m ∈ ms ↔ m.repo = idx ∧ m.archiveId = id ∧ FileFor r request id m.file := by
  obtain ⟨file, repo, aid⟩ := m
  unfold idMatches at h
  unfold FileFor
  split at h
  · rename_i hs
    rw [if_pos hs]
    cases hl : r.list id (request.take 16) with
    | error e => rw [hl] at h; cases h
    | ok names =>
      rw [hl] at h
      cases h
      rw [List.mem_map, segmentNames_eq single hs hp]
      constructor
      · rintro ⟨n, hn, he⟩
        injection he with h1 h2 h3
        subst h1 h2 h3
        exact ⟨rfl, rfl, names, n, rfl, (List.mem_filter.1 hn).1, (List.mem_filter.1 hn).2, by simp [slash]⟩
      · rintro ⟨rfl, rfl, names', n, h1, h2, h3, h4⟩
        cases h1
        refine ⟨n, List.mem_filter.2 ⟨h2, h3⟩, ?_⟩
        simp only at h4
        rw [h4]
        simp [slash]
  · rename_i hs
    rw [if_neg hs]
    cases hl : r.has id request with
    | error e => rw [hl] at h; cases h
    | ok b =>
      rw [hl] at h
      cases h
      cases b with
      | false => simp
      | true =>
        simp only [if_true, List.mem_singleton, Match.mk.injEq, true_and, slash]
        constructor
        · rintro ⟨h1, h2, h3⟩; exact ⟨h2, h3, h1⟩
        · rintro ⟨h2, h3, h1⟩; exact ⟨h1, h2, h3⟩

theorem repoMatches_mem {single : Bool} {request : Str} {idx : Nat} {r : GetRepo} {m : Match}
    (hp : single = true ∨ isPartial request = false) : ∀ {ids : List Str}, m ∈ (repoMatches single request idx r ids).1 ↔
      ∃ pre post, ids = pre ++ m.archiveId :: post ∧ (∀ x ∈ pre, Answers r request x) ∧ m.repo = idx ∧
        FileFor r request m.archiveId m.file ∧ Answers r request m.archiveId
  | [] => by simp [repoMatches]
  | id :: ids => by
    rw [repoMatches]
    cases hid : idMatches single request idx r id with
    | error e =>
      have hno : ¬ Answers r request id := by
        rw [← idMatches_answers (single := single) (idx := idx), hid]
        simp
      simp only [List.not_mem_nil, false_iff]
      rintro ⟨pre, post, h1, h2, _, _, h5⟩
      cases pre with
      | nil =>
        rw [List.nil_append] at h1
        injection h1 with h1 _
        rw [← h1] at h5
        exact hno h5
      | cons x pre =>
        rw [List.cons_append] at h1
        injection h1 with h1 _
        exact hno (h1 ▸ h2 x (.head _))
    | ok ms =>
      have hans : Answers r request id := idMatches_answers.1 ⟨ms, hid⟩
      simp only [List.mem_append]
      rw [idMatches_mem hp hid, repoMatches_mem hp]
      constructor
      · rintro (⟨h1, h2, h3⟩ | ⟨pre, post, h1, h2, h3⟩)
        · exact ⟨[], ids, by rw [h2]; rfl, (fun x hx => by cases hx), h1, (by rw [h2]; exact h3), (by rw [h2]; exact hans)⟩
        · refine ⟨id :: pre, post, by rw [h1]; rfl, fun x hx => ?_, h3⟩
          rcases List.mem_cons.1 hx with rfl | hx
          · exact hans
          · exact h2 x hx
      · rintro ⟨pre, post, h1, h2, h3, h4, h5⟩
        cases pre with
        | nil =>
          rw [List.nil_append] at h1
          injection h1 with h1 _
          exact .inl ⟨h3, h1.symm, by rw [h1]; exact h4⟩
        | cons x pre =>
          rw [List.cons_append] at h1
          injection h1 with h1 h6
          exact .inr ⟨pre, post, h6, fun y hy => h2 y (.tail _ hy), h3, h4, h5⟩

theorem repoMatches_err {single : Bool} {request : Str} {idx : Nat} {r : GetRepo} : ∀ {ids : List Str},
    (repoMatches single request idx r ids).2 = false ↔ ∀ id ∈ ids, Answers r request id
  | [] => by simp [repoMatches]
  | id :: ids => by
    rw [repoMatches]
    cases hid : idMatches single request idx r id with
    | error e =>
      have hno : ¬ Answers r request id := by
        rw [← idMatches_answers (single := single) (idx := idx), hid]
        simp
      simp only [Bool.true_eq_false, false_iff]
      exact fun h => hno (h id (.head _))
    | ok ms =>
      have hans : Answers r request id := idMatches_answers.1 ⟨ms, hid⟩
      simp only
      rw [repoMatches_err]
      constructor
      · intro h x hx
        rcases List.mem_cons.1 hx with rfl | hx
        · exact hans
        · exact h x hx
      · exact fun h x hx => h x (.tail _ hx)

/-- All files found, in the order of the search. -/
def allMatches (single : Bool) (request : Str) (repos : List (Nat × GetRepo × List Str)) : List Match :=
  (repos.map fun p => repoMatches single request p.1 p.2.1 p.2.2).flatMap Prod.fst

/-- A file that the search finds. -/
def Candidate (c : Control) (repos : List GetRepo) (request : Str) (m : Match) : Prop :=
  ∃ r pre post, Searched c repos m.repo r (pre ++ m.archiveId :: post) ∧ (∀ x ∈ pre, Answers r request x) ∧
    FileFor r request m.archiveId m.file

theorem answers_of_file {r : GetRepo} {request id file : Str} (h : FileFor r request id file) : Answers r request id := by
  unfold FileFor at h
  unfold Answers
  split
  · rename_i hs
    rw [if_pos hs] at h
    obtain ⟨names, _, h, _⟩ := h
    exact ⟨names, h⟩
  · rename_i hs
    rw [if_neg hs] at h
    exact ⟨true, h.1⟩

theorem allMatches_mem {c : Control} {repos : List GetRepo} {single : Bool} {request : Str} {m : Match}
    (hp : single = true ∨ isPartial request = false) :
    m ∈ allMatches single request (usable c.systemId c.version 0 repos) ↔ Candidate c repos request m := by
  unfold allMatches Candidate
  rw [List.mem_flatMap]
  constructor
  · rintro ⟨x, hx, hm⟩
    obtain ⟨⟨i, r, ids⟩, hu, rfl⟩ := List.mem_map.1 hx
    obtain ⟨pre, post, h1, h2, h3, h4, h5⟩ := (repoMatches_mem hp).1 hm
    have hs := (usable_mem.1 hu).2
    simp only at h1 h3
    subst h3
    rw [Nat.sub_zero] at hs
    subst h1
    exact ⟨r, pre, post, hs, h2, h4⟩
  · rintro ⟨r, pre, post, hs, h2, h3⟩
    refine ⟨_, List.mem_map.2 ⟨(m.repo, r, pre ++ m.archiveId :: post), usable_mem.2 ⟨Nat.zero_le _, ?_⟩, rfl⟩, ?_⟩
    · rw [Nat.sub_zero]; exact hs
    · exact (repoMatches_mem hp).2 ⟨pre, post, rfl, h2, rfl, h3, answers_of_file h3⟩

theorem allMatches_sorted {single : Bool} {request : Str} (hp : single = true ∨ isPartial request = false) :
    ∀ (us : List (Nat × GetRepo × List Str)), us.Pairwise (fun a b => a.1 < b.1) →
      (allMatches single request us).Pairwise (fun a b => a.repo ≤ b.repo)
  | [], _ => .nil
  | p :: us, h => by
    rw [List.pairwise_cons] at h
    unfold allMatches
    rw [List.map_cons, List.flatMap_cons, List.pairwise_append]
    have hrepo : ∀ q : Nat × GetRepo × List Str, ∀ m ∈ (repoMatches single request q.1 q.2.1 q.2.2).1, m.repo = q.1 := by
      intro q m hm
      obtain ⟨_, _, _, _, h3, _⟩ := (repoMatches_mem hp).1 hm
      exact h3
    refine ⟨?_, allMatches_sorted hp us h.2, ?_⟩
    · exact List.pairwise_of_forall_mem_list fun a ha b hb => Nat.le_of_eq ((hrepo p a ha).trans (hrepo p b hb).symm)
    · intro a ha b hb
      obtain ⟨x, hx, hb⟩ := List.mem_flatMap.1 hb
      obtain ⟨q, hq, rfl⟩ := List.mem_map.1 hx
      rw [hrepo p a ha, hrepo q b hb]
      exact Nat.le_of_lt (h.1 q hq)

theorem getFile_ok {read : Match → Res Bytes} {m : Match} {data : Bytes} {w' : List (Match × Err)} : ∀ {l : List Match}
    {w : List (Match × Err)}, getFile read l w = .ok (m, data, w') →
      read m = .ok data ∧ ∃ pre post es, l = pre ++ m :: post ∧ w' = w ++ es ∧ es.map Prod.fst = pre ∧
        ∀ x ∈ es, read x.1 = .error x.2
  | [], w, h => by cases h
  | a :: l, w, h => by
    rw [getFile] at h
    cases ha : read a with
    | ok d =>
      rw [ha] at h
      cases h
      exact ⟨ha, [], l, [], rfl, by simp, rfl, fun x hx => by cases hx⟩
    | error e =>
      rw [ha] at h
      obtain ⟨h1, pre, post, es, h2, h3, h4, h5⟩ := getFile_ok h
      refine ⟨h1, a :: pre, post, (a, e) :: es, by rw [h2]; rfl, by rw [h3]; simp, by simp [h4], fun x hx => ?_⟩
      rcases List.mem_cons.1 hx with rfl | hx
      · exact ha
      · exact h5 x hx

theorem getFile_error {read : Match → Res Bytes} {e : Err} : ∀ {l : List Match} {w : List (Match × Err)},
    getFile read l w = .error e → e = .fileRead ∧ ∀ m ∈ l, ∃ e, read m = .error e
  | [], w, h => by cases h; exact ⟨rfl, fun m hm => by cases hm⟩
  | a :: l, w, h => by
    rw [getFile] at h
    cases ha : read a with
    | ok d => rw [ha] at h; cases h
    | error e' =>
      rw [ha] at h
      obtain ⟨h1, h2⟩ := getFile_error h
      refine ⟨h1, fun m hm => ?_⟩
      rcases List.mem_cons.1 hm with rfl | hm
      · exact ⟨e', ha⟩
      · exact h2 m hm

theorem getFind_files {single : Bool} {request : Str} {us : List (Nat × GetRepo × List Str)} {l : List Match}
    (h : getFind single request us = .files l) : l = allMatches single request us ∧ l ≠ [] := by
  unfold getFind at h
  simp only at h
  split at h
  · cases h
  · split at h
    · cases h
    · rename_i hne
      split at h
      · cases h
      · cases h
        exact ⟨rfl, hne⟩

/-- The request is found in a search for it alone. -/
theorem getSingle_cases {c : Control} {repos : List GetRepo} {request : Str} {res : Res (Option (Match × Bytes × List (Match × Err)))}
    (h : getSingle (.ok c) repos request = res) :
    (c.checkpointInvalid = true ∧ c.backupLabel = false ∧ res = .error .format) ∨
    (usable c.systemId c.version 0 repos = [] ∧ res = .error .repoInvalid) ∨
    (usable c.systemId c.version 0 repos ≠ [] ∧
      ((∃ e, getFind true request (usable c.systemId c.version 0 repos) = .error e ∧ res = .error e) ∨
      (getFind true request (usable c.systemId c.version 0 repos) = .missing ∧ res = .ok none) ∨
      (getFind true request (usable c.systemId c.version 0 repos) = .files (allMatches true request (usable c.systemId c.version 0 repos)) ∧
        res = (getFile (readMatch repos) (allMatches true request (usable c.systemId c.version 0 repos)) []).map some))) := by
  unfold getSingle getCheck at h
  simp only at h
  by_cases hc : (c.checkpointInvalid && !c.backupLabel) = true
  · rw [if_pos hc] at h
    simp only [Bool.and_eq_true, Bool.not_eq_true'] at hc
    exact .inl ⟨hc.1, hc.2, h.symm⟩
  · rw [if_neg hc] at h
    refine .inr ?_
    generalize usable c.systemId c.version 0 repos = us at h ⊢
    cases us with
    | nil => exact .inl ⟨rfl, h.symm⟩
    | cons u us =>
      refine .inr ⟨by simp, ?_⟩
      simp only [List.length_singleton, beq_self_eq_true, findAll] at h
      cases hf : getFind true request (u :: us) with
      | files l =>
        rw [hf] at h
        obtain ⟨rfl, _⟩ := getFind_files hf
        exact .inr (.inr ⟨rfl, h.symm⟩)
      | missing => rw [hf] at h; exact .inr (.inl ⟨rfl, h.symm⟩)
      | error e => rw [hf] at h; exact .inl ⟨e, rfl, h.symm⟩

/-! ## Theorems -/

/-- What is delivered is the content of a file of the request, in the archive of the cluster. -/
theorem c21_delivered (c : Control) (repos : List GetRepo) (request : Str) (m : Match) (data : Bytes) (warn : List (Match × Err))
    (h : getSingle (.ok c) repos request = .ok (some (m, data, warn))) :
    ∃ r, repos[m.repo]? = some r ∧ OfCluster c r m.archiveId ∧ FileFor r request m.archiveId m.file ∧ r.read m.file = .ok data := by
  rcases getSingle_cases h with ⟨_, _, h⟩ | ⟨_, h⟩ | ⟨_, ⟨_, _, h⟩ | ⟨_, h⟩ | ⟨_, h⟩⟩
  · cases h
  · cases h
  · cases h
  · cases h
  · cases hg : getFile (readMatch repos) (allMatches true request (usable c.systemId c.version 0 repos)) [] with
    | error e => rw [hg] at h; cases h
    | ok v =>
      rw [hg] at h
      cases h
      obtain ⟨h1, pre, post, es, h2, _⟩ := getFile_ok hg
      have hm : m ∈ allMatches true request (usable c.systemId c.version 0 repos) := by rw [h2]; simp
      obtain ⟨r, pre, post, ⟨hr, hids⟩, _, hf⟩ := (allMatches_mem (.inl rfl)).1 hm
      refine ⟨r, hr, (repoIds_mem hids).2 _ (by simp), hf, ?_⟩
      unfold readMatch at h1
      rw [hr] at h1
      exact h1

/-- Files found in repositories before it could not be read, and each file skipped is reported. -/
theorem c21_first (c : Control) (repos : List GetRepo) (request : Str) (m : Match) (data : Bytes) (warn : List (Match × Err))
    (h : getSingle (.ok c) repos request = .ok (some (m, data, warn))) :
    (∀ w ∈ warn, Candidate c repos request w.1 ∧ readMatch repos w.1 = .error w.2) ∧
      ∀ m', Candidate c repos request m' → m'.repo < m.repo → ∃ e, (m', e) ∈ warn := by
  rcases getSingle_cases h with ⟨_, _, h⟩ | ⟨_, h⟩ | ⟨_, ⟨_, _, h⟩ | ⟨_, h⟩ | ⟨_, h⟩⟩
  · cases h
  · cases h
  · cases h
  · cases h
  · cases hg : getFile (readMatch repos) (allMatches true request (usable c.systemId c.version 0 repos)) [] with
    | error e => rw [hg] at h; cases h
    | ok v =>
      rw [hg] at h
      cases h
      obtain ⟨h1, pre, post, es, h2, h3, h4, h5⟩ := getFile_ok hg
      rw [List.nil_append] at h3
      subst h3
      constructor
      · intro w hw
        refine ⟨(allMatches_mem (.inl rfl)).1 ?_, h5 w hw⟩
        rw [h2, ← h4]
        exact List.mem_append_left _ (List.mem_map_of_mem hw)
      · intro m' hm' hlt
        have hs := allMatches_sorted (single := true) (request := request) (.inl rfl) _
          (usable_sorted c.systemId c.version repos 0).1
        have hmem := (allMatches_mem (single := true) (.inl rfl)).2 hm'
        rw [h2] at hs hmem
        rcases List.mem_append.1 hmem with hmem | hmem
        · rw [← h4] at hmem
          obtain ⟨w, hw, rfl⟩ := List.mem_map.1 hmem
          exact ⟨w.2, hw⟩
        · exfalso
          rcases List.mem_cons.1 hmem with rfl | hmem
          · omega
          · have := (List.pairwise_cons.1 (List.pairwise_append.1 hs).2.1).1 m' hmem
            omega

/-- A file is reported as missing only when a repository answered and no file was found in any. -/
theorem c21_missing (c : Control) (repos : List GetRepo) (request : Str) (h : getSingle (.ok c) repos request = .ok none) :
    (∃ i r ids, Searched c repos i r ids ∧ ∀ id ∈ ids, Answers r request id) ∧ ∀ m, ¬ Candidate c repos request m := by
  rcases getSingle_cases h with ⟨_, _, h⟩ | ⟨_, h⟩ | ⟨_, ⟨_, _, h⟩ | ⟨hf, h⟩ | ⟨_, h⟩⟩
  · cases h
  · cases h
  · cases h
  · unfold getFind at hf
    simp only at hf
    split at hf
    · cases hf
    · rename_i hcount
      split at hf
      · rename_i hnil
        constructor
        · have : ∃ x ∈ (usable c.systemId c.version 0 repos).map fun p => repoMatches true request p.1 p.2.1 p.2.2, x.2 = false := by
            refine Classical.byContradiction fun hno => hcount ?_
            rw [List.countP_eq_length.2, List.length_map]
            intro x hx
            cases hx2 : x.2 with
            | true => rfl
            | false => exact absurd ⟨x, hx, hx2⟩ hno
          obtain ⟨x, hx, hx2⟩ := this
          obtain ⟨⟨i, r, ids⟩, hu, rfl⟩ := List.mem_map.1 hx
          have hs := (usable_mem.1 hu).2
          rw [Nat.sub_zero] at hs
          exact ⟨i, r, ids, hs, repoMatches_err.1 hx2⟩
        · intro m hm
          have := (allMatches_mem (single := true) (.inl rfl)).2 hm
          unfold allMatches at this
          rw [hnil] at this
          cases this
      · split at hf <;> cases hf
  · cases hg : getFile (readMatch repos) (allMatches true request (usable c.systemId c.version 0 repos)) [] with
    | error e => rw [hg] at h; cases h
    | ok v => rw [hg] at h; cases h

/-- No file is delivered, and none is reported as missing, when no repository can be searched. -/
theorem c21_no_repository (c : Control) (repos : List GetRepo) (request : Str)
    (h : ∀ i r ids, Searched c repos i r ids → ∃ id ∈ ids, ¬ Answers r request id) :
    ∃ e, getSingle (.ok c) repos request = .error e := by
  cases hg : getSingle (.ok c) repos request with
  | error e => exact ⟨e, rfl⟩
  | ok v =>
    exfalso
    have key : ∀ {us : List (Nat × GetRepo × List Str)}, (∀ p ∈ us, ∃ id ∈ p.2.2, ¬ Answers p.2.1 request id) →
        getFind true request us = .error .repoInvalid := by
      intro us hus
      unfold getFind
      simp only
      rw [if_pos]
      rw [List.countP_eq_length.2, List.length_map]
      intro x hx
      obtain ⟨p, hp, rfl⟩ := List.mem_map.1 hx
      obtain ⟨id, hid, hno⟩ := hus p hp
      cases he : (repoMatches true request p.1 p.2.1 p.2.2).2 with
      | true => rfl
      | false => exact absurd (repoMatches_err.1 he id hid) hno
    have hkey := key (us := usable c.systemId c.version 0 repos) fun p hp =>
      h p.1 p.2.1 p.2.2 (by have := (usable_mem.1 (show (p.1, p.2.1, p.2.2) ∈ _ from hp)).2; rw [Nat.sub_zero] at this; exact this)
    rcases getSingle_cases hg with ⟨_, _, h⟩ | ⟨_, h⟩ | ⟨_, ⟨_, _, h⟩ | ⟨hf, _⟩ | ⟨hf, _⟩⟩
    · cases h
    · cases h
    · cases h
    · rw [hkey] at hf; cases hf
    · rw [hkey] at hf; cases hf

theorem length_eraseDups_le : ∀ (n : Nat) (l : List Str), l.length ≤ n → (l.eraseDups.length ≤ 1 ↔ ∀ a ∈ l, ∀ b ∈ l, a = b)
  | 0, [], _ => by simp
  | n + 1, [], _ => by simp
  | n + 1, x :: l, hn => by
    rw [List.eraseDups_cons]
    have hle : (l.filter fun b => !b == x).length ≤ n :=
      Nat.le_trans (List.length_filter_le _ _) (by simp only [List.length_cons] at hn; omega)
    simp only [List.length_cons]
    have hz : (l.filter fun b => !b == x).eraseDups.length + 1 ≤ 1 ↔ l.filter (fun b => !b == x) = [] := by
      cases hl : l.filter (fun b => !b == x) with
      | nil => simp
      | cons y l' => rw [List.eraseDups_cons]; simp
    rw [hz, List.filter_eq_nil_iff]
    constructor
    · intro h a ha b hb
      have hx : ∀ a ∈ x :: l, a = x := by
        intro a ha
        rcases List.mem_cons.1 ha with rfl | ha
        · rfl
        · simpa using h a ha
      rw [hx a ha, hx b hb]
    · intro h a ha
      simpa using h a (.tail _ ha) x (.head _)

/-- The error for duplicates: two files differ in the part that is compared. -/
theorem c21_duplicate_iff (single : Bool) (request : Str) (us : List (Nat × GetRepo × List Str)) :
    getFind single request us = .error .archiveDuplicate ↔
      (∃ p ∈ us, ∀ id ∈ p.2.2, Answers p.2.1 request id) ∧ Wal.isSegment request = true ∧
        ∃ a ∈ allMatches single request us, ∃ b ∈ allMatches single request us, hashPart a.file ≠ hashPart b.file := by
  have hcount : ((us.map fun p => repoMatches single request p.1 p.2.1 p.2.2).countP (fun x => x.2) = us.length) ↔
      ¬ ∃ p ∈ us, ∀ id ∈ p.2.2, Answers p.2.1 request id := by
    rw [show us.length = (us.map fun p => repoMatches single request p.1 p.2.1 p.2.2).length by simp, List.countP_eq_length]
    constructor
    · rintro h ⟨p, hp, hall⟩
      have := h _ (List.mem_map_of_mem hp)
      rw [repoMatches_err.2 hall] at this
      cases this
    · intro h x hx
      obtain ⟨p, hp, rfl⟩ := List.mem_map.1 hx
      cases he : (repoMatches single request p.1 p.2.1 p.2.2).2 with
      | true => rfl
      | false => exact absurd ⟨p, hp, repoMatches_err.1 he⟩ h
  have hdup : (((allMatches single request us).map fun m => hashPart m.file).eraseDups.length > 1) ↔
      ∃ a ∈ allMatches single request us, ∃ b ∈ allMatches single request us, hashPart a.file ≠ hashPart b.file := by
    have := length_eraseDups_le _ ((allMatches single request us).map fun m => hashPart m.file) (Nat.le_refl _)
    rw [gt_iff_lt, ← Nat.not_le, this]
    constructor
    · intro h
      refine Classical.byContradiction fun hno => h ?_
      intro a ha b hb
      obtain ⟨x, hx, rfl⟩ := List.mem_map.1 ha
      obtain ⟨y, hy, rfl⟩ := List.mem_map.1 hb
      exact Classical.byContradiction fun hne => hno ⟨x, hx, y, hy, hne⟩
    · rintro ⟨a, ha, b, hb, hne⟩ h
      exact hne (h _ (List.mem_map_of_mem ha) _ (List.mem_map_of_mem hb))
  unfold getFind
  simp only
  by_cases hc : ∃ p ∈ us, ∀ id ∈ p.2.2, Answers p.2.1 request id
  · rw [if_neg (by rw [hcount]; exact fun h => h hc)]
    change (if allMatches single request us = [] then Found.missing else _) = _ ↔ _
    by_cases hl : allMatches single request us = []
    · rw [if_pos hl, hl]
      simp
    · rw [if_neg hl]
      change (if Wal.isSegment request = true ∧
        ((allMatches single request us).map fun m => hashPart m.file).eraseDups.length > 1 then _ else Found.files _) = _ ↔ _
      by_cases hx : Wal.isSegment request = true ∧
          ((allMatches single request us).map fun m => hashPart m.file).eraseDups.length > 1
      · rw [if_pos hx]
        exact ⟨fun _ => ⟨hc, hx.1, hdup.1 hx.2⟩, fun _ => rfl⟩
      · rw [if_neg hx]
        constructor
        · intro h; cases h
        · exact fun h => absurd ⟨h.2.1, hdup.2 h.2.2⟩ hx
  · rw [if_pos (hcount.2 hc)]
    constructor
    · intro h; cases h
    · exact fun h => absurd h.1 hc

/-- The part compared is the beginning of the checksum for files of the same archive id. -/
theorem hashPart_eq {seg id sha ext : Str} (hs : Wal.isSegment seg = true) (hid : id.length ≤ 22) (hsha : sha.length = 40)
    (hp : isPartial seg = false) :
    hashPart (id ++ [0x2f] ++ seg.take 16 ++ [0x2f] ++ (seg ++ [0x2d] ++ sha ++ ext)) =
      (id ++ [0x2f] ++ seg.take 16 ++ [0x2f] ++ seg ++ [0x2d]).drop 25 ++ sha.take (22 - id.length) := by
  obtain ⟨⟨hlen, -⟩, htail⟩ := isSegment_iff.1 hs
  have ht : seg.drop 24 = [] := by
    rcases htail with h | h
    · exact h
    · unfold isPartial at hp; rw [h] at hp; simp at hp
  have h24 : seg.length = 24 := by
    have := List.take_append_drop 24 seg
    rw [ht, List.append_nil] at this
    rw [← this]; exact hlen
  unfold hashPart
  have e : id ++ [0x2f] ++ seg.take 16 ++ [0x2f] ++ (seg ++ [0x2d] ++ sha ++ ext) =
      (id ++ [0x2f] ++ seg.take 16 ++ [0x2f] ++ seg ++ [0x2d]) ++ (sha ++ ext) := by simp
  rw [e]
  have hl : (id ++ [0x2f] ++ seg.take 16 ++ [0x2f] ++ seg ++ [0x2d]).length = id.length + 43 := by
    simp only [List.length_append, List.length_take, List.length_cons, List.length_nil, h24]
    omega
  generalize id ++ [0x2f] ++ seg.take 16 ++ [0x2f] ++ seg ++ [0x2d] = p at hl
  rw [List.drop_append_of_le_length (by omega), List.take_append, List.take_of_length_le (by rw [List.length_drop]; omega)]
  rw [List.length_drop, hl, List.take_append_of_le_length (by omega)]
  congr 2
  omega

/-- Files of a segment in the same archive id (of any repositories) whose checksums differ in the part that is compared: nothing is
delivered. -/
theorem c21_duplicate (c : Control) (repos : List GetRepo) (seg id : Str) (i j : Nat) (sha1 sha2 ext1 ext2 : Str)
    (hs : Wal.isSegment seg = true) (hp : isPartial seg = false) (hid : id.length ≤ 22) (h1 : sha1.length = 40) (h2 : sha2.length = 40)
    (hne : sha1.take (22 - id.length) ≠ sha2.take (22 - id.length))
    (hc1 : Candidate c repos seg ⟨id ++ [0x2f] ++ seg.take 16 ++ [0x2f] ++ (seg ++ [0x2d] ++ sha1 ++ ext1), i, id⟩)
    (hc2 : Candidate c repos seg ⟨id ++ [0x2f] ++ seg.take 16 ++ [0x2f] ++ (seg ++ [0x2d] ++ sha2 ++ ext2), j, id⟩) :
    ∃ e, getSingle (.ok c) repos seg = .error e := by
  cases hg : getSingle (.ok c) repos seg with
  | error e => exact ⟨e, rfl⟩
  | ok v =>
    exfalso
    have m1 := (allMatches_mem (single := true) (.inl rfl)).2 hc1
    have m2 := (allMatches_mem (single := true) (.inl rfl)).2 hc2
    by_cases hall : ∃ i r ids, Searched c repos i r ids ∧ ∀ id ∈ ids, Answers r seg id
    · have hdup : getFind true seg (usable c.systemId c.version 0 repos) = .error .archiveDuplicate := by
        rw [c21_duplicate_iff]
        obtain ⟨i, r, ids, hsr, ha⟩ := hall
        refine ⟨⟨(i, r, ids), usable_mem.2 ⟨Nat.zero_le _, by rw [Nat.sub_zero]; exact hsr⟩, ha⟩, hs, _, m1, _, m2, ?_⟩
        simp only
        rw [hashPart_eq hs hid h1 hp, hashPart_eq hs hid h2 hp]
        exact fun h => hne (List.append_cancel_left h)
      rcases getSingle_cases hg with ⟨_, _, h⟩ | ⟨_, h⟩ | ⟨_, ⟨_, _, h⟩ | ⟨hf, _⟩ | ⟨hf, _⟩⟩
      · cases h
      · cases h
      · cases h
      · rw [hdup] at hf; cases hf
      · rw [hdup] at hf; cases hf
    · obtain ⟨e, he⟩ := c21_no_repository c repos seg fun i r ids hsr =>
        Classical.byContradiction fun hno => hall ⟨i, r, ids, hsr, fun id hid' =>
          Classical.byContradiction fun hna => hno ⟨id, hid', hna⟩⟩
      rw [hg] at he
      cases he

/-- No error for duplicates when all files are in one archive id (of any repositories) with the same checksum. -/
theorem c21_no_false_duplicate (c : Control) (repos : List GetRepo) (seg id sha : Str) (hs : Wal.isSegment seg = true)
    (hp : isPartial seg = false) (hid : id.length ≤ 22) (hsha : sha.length = 40)
    (hall : ∀ m, Candidate c repos seg m → ∃ ext, m.file = id ++ [0x2f] ++ seg.take 16 ++ [0x2f] ++ (seg ++ [0x2d] ++ sha ++ ext)) :
    getSingle (.ok c) repos seg ≠ .error .archiveDuplicate := by
  intro hg
  have hno : getFind true seg (usable c.systemId c.version 0 repos) ≠ .error .archiveDuplicate := by
    intro h
    rw [c21_duplicate_iff] at h
    obtain ⟨_, _, a, ha, b, hb, hne⟩ := h
    obtain ⟨x, hx⟩ := hall a ((allMatches_mem (.inl rfl)).1 ha)
    obtain ⟨y, hy⟩ := hall b ((allMatches_mem (.inl rfl)).1 hb)
    rw [hx, hy, hashPart_eq hs hid hsha hp, hashPart_eq hs hid hsha hp] at hne
    exact hne rfl
  rcases getSingle_cases hg with ⟨_, _, h⟩ | ⟨_, h⟩ | ⟨_, ⟨e, hf, h⟩ | ⟨hf, h⟩ | ⟨hf, h⟩⟩
  · cases h
  · cases h
  · cases h; exact hno hf
  · cases h
  · cases hgf : getFile (readMatch repos) (allMatches true seg (usable c.systemId c.version 0 repos)) [] with
    | error e =>
      rw [hgf] at h
      cases h
      have := (getFile_error hgf).1
      cases this
    | ok v => rw [hgf] at h; cases h

/-- The asynchronous search finds the same files, up to the first that is missing or in error. -/
theorem c21_many (c : Control) (repos : List GetRepo) (requests : List Str) (ch : Checked) (hn : requests.length ≠ 1)
    (hp : ∀ x ∈ requests, isPartial x = false) (h : getCheck (.ok c) repos requests = .ok ch) :
    ∀ p ∈ ch.maps, p.1 ∈ requests ∧ p.2 ≠ [] ∧ ∀ m, m ∈ p.2 ↔ Candidate c repos p.1 m := by
  unfold getCheck at h
  simp only at h
  split at h
  · cases h
  · generalize hu : usable c.systemId c.version 0 repos = us at h
    cases us with
    | nil => cases h; intro p hp; cases hp
    | cons u us =>
      simp only at h
      rw [show (requests.length == 1) = false by simpa using hn] at h
      cases h
      have key : ∀ l : List Str, (∀ x ∈ l, isPartial x = false) → ∀ p ∈ (findAll false (u :: us) l).maps,
          p.1 ∈ l ∧ p.2 ≠ [] ∧ ∀ m, m ∈ p.2 ↔ Candidate c repos p.1 m := by
        intro l
        induction l with
        | nil => intro _ p hp; cases hp
        | cons x l ih =>
          intro hx p hp
          rw [findAll] at hp
          cases hf : getFind false x (u :: us) with
          | missing => rw [hf] at hp; cases hp
          | error e => rw [hf] at hp; cases hp
          | files fl =>
            rw [hf] at hp
            simp only at hp
            rcases List.mem_cons.1 hp with rfl | hp
            · obtain ⟨h1, h2⟩ := getFind_files hf
              refine ⟨.head _, h2, fun m => ?_⟩
              simp only
              rw [h1, ← hu]
              exact allMatches_mem (.inr (hx x (.head _)))
            · obtain ⟨h1, h2⟩ := ih (fun y hy => hx y (.tail _ hy)) p hp
              exact ⟨.tail _ h1, h2⟩
      exact key requests hp

theorem idsFrom_iff {r : GetRepo} {systemId version : Nat} {paths : List Str} (hp : r.paths = .ok paths) (id : Str) :
    ∀ {hist : List PgHist} {k : Nat} {ids : List Str}, idsFrom r systemId version k hist = .ok ids →
      (id ∈ ids ↔ ∃ i h, hist[i]? = some h ∧ h.systemId = systemId ∧ h.version = version ∧ h.archiveId = id ∧ (i + k = 0 ∨ id ∈ paths))
  | [], k, ids, h => by
    cases h
    simp
  | x :: hist, k, ids, h => by
    have hcons : (∃ i h, (x :: hist)[i]? = some h ∧ h.systemId = systemId ∧ h.version = version ∧ h.archiveId = id ∧
        (i + k = 0 ∨ id ∈ paths)) ↔ ((x.systemId = systemId ∧ x.version = version) ∧ x.archiveId = id ∧ (k = 0 ∨ id ∈ paths)) ∨
        ∃ i h, hist[i]? = some h ∧ h.systemId = systemId ∧ h.version = version ∧ h.archiveId = id ∧ (i + (k + 1) = 0 ∨ id ∈ paths) := by
      constructor
      · rintro ⟨i, y, h1, h2, h3, h4, h5⟩
        cases i with
        | zero =>
          cases h1
          rw [Nat.zero_add] at h5
          exact .inl ⟨⟨h2, h3⟩, h4, h5⟩
        | succ i =>
          rw [List.getElem?_cons_succ] at h1
          exact .inr ⟨i, y, h1, h2, h3, h4, h5.imp_left (by omega)⟩
      · rintro (⟨⟨h2, h3⟩, h4, h5⟩ | ⟨i, y, h1, h2, h3, h4, h5⟩)
        · exact ⟨0, x, rfl, h2, h3, h4, by rw [Nat.zero_add]; exact h5⟩
        · exact ⟨i + 1, y, by rw [List.getElem?_cons_succ]; exact h1, h2, h3, h4, h5.imp_left (by omega)⟩
    rw [hcons]
    rw [idsFrom] at h
    cases hr : idsFrom r systemId version (k + 1) hist with
    | error e =>
      rw [hr, hp] at h
      split at h
      · split at h <;> cases h
      · cases h
    | ok rest =>
      rw [hr, hp] at h
      rw [← idsFrom_iff hp id hr]
      split at h
      · rename_i hx
        split at h
        · rename_i hk
          cases h
          simp only [hx, hk, true_and, false_or, and_self]
          split
          · rename_i hc
            rw [List.mem_cons]
            have hc' : x.archiveId ∈ paths := by simpa using hc
            constructor
            · rintro (rfl | h)
              · exact .inl ⟨rfl, hc'⟩
              · exact .inr h
            · rintro (⟨rfl, _⟩ | h)
              · exact .inl rfl
              · exact .inr h
          · rename_i hc
            have hc' : x.archiveId ∉ paths := by simpa using hc
            constructor
            · exact .inr
            · rintro (⟨rfl, h⟩ | h)
              · exact absurd h hc'
              · exact h
        · rename_i hk
          cases h
          have hk' : k = 0 := Classical.byContradiction hk
          simp only [hx, hk', true_and, true_or, and_true, and_self, List.mem_cons]
          rw [@eq_comm _ id]
      · rename_i hx
        cases h
        simp only [hx, false_and, false_or]

/-- The archive ids that are searched: those of the cluster, the newest or those with a path. -/
theorem c21_ids (c : Control) (r : GetRepo) (hist : List PgHist) (paths ids : List Str) (hi : r.info = .ok hist)
    (hp : r.paths = .ok paths) (h : repoIds c.systemId c.version r = .ok ids) (id : Str) :
    id ∈ ids ↔ ∃ (i : Nat) (x : PgHist), hist[i]? = some x ∧ x.systemId = c.systemId ∧ x.version = c.version ∧ x.archiveId = id ∧
      (i = 0 ∨ id ∈ paths) := by
  unfold repoIds at h
  rw [hi] at h
  simp only at h
  cases hids : idsFrom r c.systemId c.version 0 hist with
  | error e => rw [hids] at h; cases h
  | ok l =>
    have := idsFrom_iff hp id hids
    simp only [Nat.add_zero] at this
    rw [hids] at h
    cases l with
    | nil => cases h
    | cons a l => cases h; exact this

/-! ## Examples and divergences -/

/-- `12-1` and `12-10`. -/
def id1 : Str := [0x31, 0x32, 0x2d, 0x31]
def id10 : Str := [0x31, 0x32, 0x2d, 0x31, 0x30]

/-- A repository with the given files of a segment by archive id. -/
def getRepo (ids : List Str) (files : Str → List Str) (read : Str → Res Bytes) : GetRepo :=
  ⟨.ok (ids.map fun id => ⟨7, 12, id⟩), .ok ids, fun id _ => .ok (files id), fun _ _ => .ok false, read⟩

def exControl : Control := ⟨7, 12, false, false⟩

/-- A first repository whose file cannot be read, a second which delivers it. -/
example : getSingle (.ok exControl)
    [getRepo [id1] (fun _ => [fileSha segA 0x61 []]) (fun _ => .error .fileRead),
      getRepo [id1] (fun _ => [fileSha segA 0x61 [0x2e, 0x67, 0x7a]]) (fun _ => .ok [1, 2])] segA =
    .ok (some (⟨slash (slash id1 (segA.take 16)) (fileSha segA 0x61 [0x2e, 0x67, 0x7a]), 1, id1⟩, [1, 2],
      [(⟨slash (slash id1 (segA.take 16)) (fileSha segA 0x61 []), 0, id1⟩, .fileRead)])) := by rfl

/-- Two files with different checksums in one archive. -/
example : getSingle (.ok exControl) [getRepo [id1] (fun _ => [fileSha segA 0x61 [], fileSha segA 0x62 []]) (fun _ => .ok [1])] segA =
    .error .archiveDuplicate := by rfl

/-- The hypotheses of `c21_duplicate` are met by two repositories with different files. -/
example : ∃ e, getSingle (.ok exControl) [getRepo [id1] (fun _ => [fileSha segA 0x61 []]) (fun _ => .ok [1]),
    getRepo [id1] (fun _ => [fileSha segA 0x62 []]) (fun _ => .ok [2])] segA = .error e := by
  have hseg : Wal.isSegment segA = true := by decide
  have hc : ∀ (i : Nat) (c : UInt8) (r : GetRepo), [getRepo [id1] (fun _ => [fileSha segA 0x61 []]) (fun _ => .ok [1]),
      getRepo [id1] (fun _ => [fileSha segA 0x62 []]) (fun _ => .ok [2])][i]? = some r → repoIds 7 12 r = .ok [id1] →
      r.list id1 (segA.take 16) = .ok [fileSha segA c []] → matchFile segA (fileSha segA c []) = true →
      Candidate exControl [getRepo [id1] (fun _ => [fileSha segA 0x61 []]) (fun _ => .ok [1]),
        getRepo [id1] (fun _ => [fileSha segA 0x62 []]) (fun _ => .ok [2])] segA
        ⟨id1 ++ [0x2f] ++ segA.take 16 ++ [0x2f] ++ (segA ++ [0x2d] ++ List.replicate 40 c ++ []), i, id1⟩ := by
    intro i c r hr hids hl hm
    refine ⟨r, [], [], ⟨hr, hids⟩, (fun x hx => by cases hx), ?_⟩
    unfold FileFor
    rw [if_pos hseg]
    exact ⟨_, _, hl, .head _, hm, rfl⟩
  exact c21_duplicate exControl _ segA id1 0 1 (List.replicate 40 0x61) (List.replicate 40 0x62) [] [] hseg (by decide) (by decide)
    (by decide) (by decide) (by decide) (hc 0 0x61 _ rfl rfl rfl (by decide +kernel)) (hc 1 0x62 _ rfl rfl rfl (by decide +kernel))

/-- Two names of files whose checksums have the same first 18 characters. -/
def near1 : Str := segA ++ [0x2d] ++ List.replicate 40 0x61
def near2 : Str := segA ++ [0x2d] ++ (List.replicate 18 0x61 ++ List.replicate 22 0x62)

def nearRepo : GetRepo := getRepo [id1] (fun _ => [near1, near2]) (fun _ => .ok [1])

/-- The part that is compared is not the checksum but begins in the name of the segment, so checksums that differ after the first 18
characters are not told apart: one of the files is delivered. -/
theorem c21_checksum_part : FileOf segA near1 ∧ FileOf segA near2 ∧ (near1.drop 25).take 40 ≠ (near2.drop 25).take 40 ∧
    Candidate exControl [nearRepo] segA ⟨slash (slash id1 (segA.take 16)) near1, 0, id1⟩ ∧
    Candidate exControl [nearRepo] segA ⟨slash (slash id1 (segA.take 16)) near2, 0, id1⟩ ∧
    getSingle (.ok exControl) [nearRepo] segA = .ok (some (⟨slash (slash id1 (segA.take 16)) near1, 0, id1⟩, [1], [])) := by
  have h1 : matchFile segA near1 = true := by decide +kernel
  have h2 : matchFile segA near2 = true := by decide +kernel
  have hseg : Wal.isSegment segA = true := by decide
  have hc : ∀ n, n ∈ [near1, near2] → matchFile segA n = true →
      Candidate exControl [nearRepo] segA ⟨slash (slash id1 (segA.take 16)) n, 0, id1⟩ := by
    intro n hn hm
    refine ⟨nearRepo, [], [], ⟨rfl, rfl⟩, (fun x hx => by cases hx), ?_⟩
    unfold FileFor
    rw [if_pos hseg]
    exact ⟨[near1, near2], n, rfl, hn, hm, by simp [slash]⟩
  exact ⟨fileOf_of_match hseg (by decide) h1, fileOf_of_match hseg (by decide) h2, by decide +kernel,
    hc near1 (by simp) h1, hc near2 (by simp) h2, rfl⟩

/-- The same file in two archive ids of the cluster whose lengths differ is an error for duplicates. -/
theorem c21_false_duplicate : getSingle (.ok exControl) [getRepo [id1, id10] (fun _ => [fileSha segA 0x61 []]) (fun _ => .ok [1])] segA =
    .error .archiveDuplicate := by rfl

/-- A segment is reported as missing although the repository that has it could not be read, when another answered. -/
theorem c21_missing_unread :
    getSingle (.ok exControl)
      [{ getRepo [id1] (fun _ => [fileSha segA 0x61 []]) (fun _ => .ok [1]) with list := fun _ _ => .error .pathOpen },
        getRepo [id1] (fun _ => []) (fun _ => .ok [1])] segA = .ok none := by rfl

end Verif.Archive
