import Verif.Archive.AsyncModel
import Verif.Archive.StatusProps
import Verif.Archive.PushProps

/-! # C54: PostgreSQL is told that a segment is archived only when it is -/

namespace Verif.Archive

/-! ## Specification -/

/-- Every repository has a file of the segment with the checksum of its content. -/
def Stored (sha : Bytes → Str) (content : Str → Bytes) (repos : List Repo) (x : Str) : Prop :=
  ∀ r ∈ repos, ∃ name, Archived r x name ∧ checksumIn x name = sha (content x)

/-- What justifies that a segment is reported as archived. -/
def Justified (sha : Bytes → Str) (content : Str → Bytes) (s : Sys) (x : Str) : Prop :=
  Wal.isSegment x = true → Stored sha content s.repos x ∨ x ∈ s.dropped ∨ x ∈ s.skipped

/-- Compression extensions of the pushes are those of compression types. -/
def Event.Valid : Event → Prop
  | .push _ o _ _ _ _ => o.ext = [] ∨ o.ext ∈ compressExts
  | _ => True

/-! ## Lemmas -/

structure Inv (sha : Bytes → Str) (content : Str → Bytes) (s : Sys) : Prop where
  distinct : ∀ r ∈ s.repos, r.Distinct
  ok : ∀ x, s.spool.has (x ++ okExt) → Justified sha content s x
  done : ∀ x ∈ s.done, Wal.isSegment x = true → Stored sha content s.repos x
  acked : ∀ x ∈ s.acked, Justified sha content s x

theorem has_putFile {name other : Str} {data : Bytes} {spool : Spool} :
    Spool.has (putFile name data spool) other ↔ other = name ∨ spool.has other := by
  rw [← get_isSome, ← get_isSome, get_putFile]
  by_cases h : other = name <;> simp [h]

theorem names_putFile (name : Str) (data : Bytes) : ∀ files : List (Str × Bytes),
    (putFile name data files).map Prod.fst = if name ∈ files.map Prod.fst then files.map Prod.fst else files.map Prod.fst ++ [name]
  | [] => by simp [putFile]
  | (n, d) :: files => by
    rw [putFile]
    by_cases h : n = name
    · subst h; simp
    · rw [if_neg h, List.map_cons, names_putFile name data files]
      have h' : ¬ name = n := fun e => h e.symm
      by_cases hm : name ∈ files.map Prod.fst
      · simp [hm]
      · rw [if_neg hm, if_neg (by simp only [List.map_cons, List.mem_cons, not_or]; exact ⟨h', hm⟩)]
        simp

/-- A push keeps the files of each repository, by name, and their names distinct. -/
theorem push_keeps (sha : Bytes → Str) (o : PushOpts) (src : Source) (file : Str) (repos : List (Repo × Env)) (prior : List (Nat × Err))
    (hsha : HexSha sha) (hext : o.ext = [] ∨ o.ext ∈ compressExts) (hd : ∀ r ∈ repos, r.1.Distinct) :
    ∀ r' ∈ (pushFile sha o src file repos prior).1, r'.Distinct ∧ ∃ p ∈ repos,
      ∀ name, name ∈ p.1.files.map Prod.fst → name ∈ r'.files.map Prod.fst := by
  intro r' hr'
  cases hs : Wal.isSegment file with
  | true =>
    obtain ⟨hlen, happ⟩ := c17_append_only sha o src file repos prior hs hsha hext hd
    obtain ⟨i, hi, hget⟩ := List.mem_iff_getElem.1 hr'
    have hi' : i < repos.length := by rw [← hlen]; exact hi
    have hmem : repos[i] ∈ repos := List.getElem_mem hi'
    obtain ⟨r'', h1, _, h2⟩ := happ i repos[i].1 repos[i].2 (by simp [hi'])
    rw [List.getElem?_eq_getElem hi, hget] at h1
    cases h1
    have hdi := hd _ hmem
    unfold Repo.Distinct at hdi ⊢
    rcases h2 with h2 | ⟨c, ch, _, _, hno, h2⟩
    · rw [h2]
      exact ⟨hdi, _, hmem, fun _ h => h⟩
    · rw [h2, List.map_append]
      refine ⟨?_, _, hmem, fun _ h => List.mem_append_left _ h⟩
      rw [List.nodup_append]
      refine ⟨hdi, by simp, fun a ha b hb hab => ?_⟩
      rw [List.map_cons, List.map_nil, List.mem_singleton] at hb
      rw [hab, hb] at ha
      exact hno _ ⟨ha, archiveName_match hs (hsha c).1 (hsha c).2 hext⟩
  | false =>
    have hsame : ∀ r' ∈ repos.map Prod.fst, r'.Distinct ∧ ∃ p ∈ repos,
        ∀ name, name ∈ p.1.files.map Prod.fst → name ∈ r'.files.map Prod.fst := by
      intro r' hr'
      obtain ⟨p, hp, rfl⟩ := List.mem_map.1 hr'
      exact ⟨hd p hp, p, hp, fun _ h => h⟩
    cases hch : src.chunks with
    | error e =>
      unfold pushFile checkPhase copyPhase at hr'
      rw [if_neg (by rw [hs]; simp), hch] at hr'
      exact hsame r' hr'
    | ok chunks =>
      rw [(c17_other_file sha o src file repos prior chunks hs hch).1] at hr'
      obtain ⟨p, hp, rfl⟩ := List.mem_map.1 hr'
      have hdp := hd p hp
      unfold after
      split
      · refine ⟨?_, p, hp, fun name h => ?_⟩
        · unfold Repo.Distinct at hdp ⊢
          simp only
          rw [names_putFile]
          split
          · exact hdp
          · rename_i hn
            rw [List.nodup_append]
            refine ⟨hdp, by simp, fun a ha b hb hab => ?_⟩
            rw [List.mem_singleton] at hb
            rw [hab, hb] at ha
            exact hn ha
        · simp only
          rw [names_putFile]
          split
          · exact h
          · exact List.mem_append_left _ h
      · exact ⟨hdp, p, hp, fun _ h => h⟩

theorem stored_keep {sha : Bytes → Str} {content : Str → Bytes} {repos repos' : List Repo} {x : Str}
    (h : ∀ r' ∈ repos', ∃ r ∈ repos, ∀ name, name ∈ r.files.map Prod.fst → name ∈ r'.files.map Prod.fst)
    (hs : Stored sha content repos x) : Stored sha content repos' x := by
  intro r' hr'
  obtain ⟨r, hr, hk⟩ := h r' hr'
  obtain ⟨name, ⟨h1, h2⟩, h3⟩ := hs r hr
  exact ⟨name, ⟨hk name h1, h2⟩, h3⟩

theorem inv_step (sha : Bytes → Str) (content : Str → Bytes) (hsha : HexSha sha) (s : Sys) (e : Event) (hv : e.Valid)
    (h : Inv sha content s) : Inv sha content (s.step sha content e) := by
  obtain ⟨h1, h2, h3, h4⟩ := h
  cases e with
  | ready x => exact ⟨h1, h2, h3, h4⟩
  | start =>
    unfold Sys.step
    simp only
    split
    · refine ⟨h1, ?_, (by intro x hx; cases hx), h4⟩
      rintro x ⟨c, hc⟩
      exact h2 x ⟨c, (List.mem_filter.1 hc).1⟩
    · exact ⟨h1, h2, h3, h4⟩
  | push x o header readable chunks envs =>
    unfold Sys.step
    simp only
    split
    · rename_i hc
      have hrepo : ∀ p ∈ s.repos.zip envs, p.1 ∈ s.repos := fun p hp => (List.of_mem_zip (a := p.1) (b := p.2) hp).1
      have hd : ∀ p ∈ s.repos.zip envs, p.1.Distinct := fun p hp => h1 _ (hrepo p hp)
      have hkeep := push_keeps sha o ⟨header, if readable then .ok (content x) else .error .fileOpen, chunks⟩ x (s.repos.zip envs) []
        hsha hv hd
      have hk : ∀ r' ∈ (pushFile sha o ⟨header, if readable then .ok (content x) else .error .fileOpen, chunks⟩ x
          (s.repos.zip envs) []).1, ∃ r ∈ s.repos, ∀ name, name ∈ r.files.map Prod.fst → name ∈ r'.files.map Prod.fst := by
        intro r' hr'
        obtain ⟨_, p, hp, hn⟩ := hkeep r' hr'
        exact ⟨p.1, hrepo p hp, hn⟩
      have hj : ∀ y, Justified sha content s y → Wal.isSegment y = true → Stored sha content (pushFile sha o
          ⟨header, if readable then .ok (content x) else .error .fileOpen, chunks⟩ x (s.repos.zip envs) []).1 y ∨
          y ∈ s.dropped ∨ y ∈ s.skipped := by
        intro y hy hseg
        rcases hy hseg with hy | hy
        · exact .inl (stored_keep hk hy)
        · exact .inr hy
      refine ⟨fun r' hr' => (hkeep r' hr').1, fun y hy => hj y (h2 y hy), ?_, fun y hy => hj y (h4 y hy)⟩
      intro y hy hseg
      simp only at hy ⊢
      split at hy
      · rename_i w hw
        rcases List.mem_cons.1 hy with rfl | hy
        · obtain ⟨_, _, content', hc', hall⟩ := c17_success sha o _ y (s.repos.zip envs) [] w hseg hsha hv hd hw
          have hcc : content' = content y := by
            simp only at hc'
            split at hc'
            · exact (Except.ok.inj hc').symm
            · cases hc'
          subst hcc
          intro r' hr'
          obtain ⟨hlen, _⟩ := c17_append_only sha o ⟨header, if readable then .ok (content y) else .error .fileOpen, chunks⟩ y
            (s.repos.zip envs) [] hseg hsha hv hd
          obtain ⟨i, hi, hget⟩ := List.mem_iff_getElem.1 hr'
          have hi' : i < (s.repos.zip envs).length := by rw [← hlen]; exact hi
          obtain ⟨_, r2, name, g1, g2, _, g3, _⟩ := hall i (s.repos.zip envs)[i].1 (s.repos.zip envs)[i].2
            (by rw [List.getElem?_eq_getElem hi'])
          rw [List.getElem?_eq_getElem hi, hget] at g1
          cases g1
          exact ⟨name, g2, g3⟩
        · exact stored_keep hk (h3 y hy hseg)
      · exact stored_keep hk (h3 y hy hseg)
    · exact ⟨h1, h2, h3, h4⟩
  | ok x warning =>
    unfold Sys.step
    simp only
    split
    · rename_i hx
      refine ⟨h1, fun y hy => ?_, h3, h4⟩
      rcases has_putFile.1 hy with hy | hy
      · have : y = x := List.append_cancel_right hy
        subst this
        exact fun hseg => .inl (h3 y hx hseg)
      · exact h2 y hy
    · exact ⟨h1, h2, h3, h4⟩
  | error x code message =>
    refine ⟨h1, fun y hy => ?_, h3, h4⟩
    rcases has_putFile.1 hy with hy | hy
    · exact absurd hy (ok_ne_error _ _)
    · exact h2 y hy
  | drop x warning =>
    unfold Sys.step
    simp only
    split
    · refine ⟨h1, fun y hy => ?_, h3, fun y hy hseg => ?_⟩
      · rcases has_putFile.1 hy with hy | hy
        · have : y = x := List.append_cancel_right hy
          subst this
          exact fun _ => .inr (.inl (.head _))
        · intro hseg
          rcases h2 y hy hseg with h | h | h
          · exact .inl h
          · exact .inr (.inl (.tail _ h))
          · exact .inr (.inr h)
      · rcases h4 y hy hseg with h | h | h
        · exact .inl h
        · exact .inr (.inl (.tail _ h))
        · exact .inr (.inr h)
    · exact ⟨h1, h2, h3, h4⟩
  | stop => exact ⟨h1, h2, (by intro x hx; cases hx), h4⟩
  | clear x =>
    refine ⟨h1, fun y hy => ?_, h3, h4⟩
    exact h2 y (has_errorClear.1 hy).2.2
  | check x throwOnError =>
    unfold Sys.step
    simp only
    split
    · rename_i w hw
      refine ⟨h1, h2, h3, fun y hy => ?_⟩
      rcases List.mem_cons.1 hy with rfl | hy
      · exact h2 y (c18_success _ _ _ _ _ hw)
      · exact h4 y hy
    · exact ⟨h1, h2, h3, h4⟩
  | skip x content =>
    refine ⟨h1, fun y hy => ?_, h3, fun y hy hseg => ?_⟩
    · rcases has_putFile.1 hy with hy | hy
      · have : y = x := List.append_cancel_right hy
        subst this
        exact fun _ => .inr (.inr (.head _))
      · intro hseg
        rcases h2 y hy hseg with h | h | h
        · exact .inl h
        · exact .inr (.inl h)
        · exact .inr (.inr (.tail _ h))
    · rcases h4 y hy hseg with h | h | h
      · exact .inl h
      · exact .inr (.inl h)
      · exact .inr (.inr (.tail _ h))

theorem inv_run (sha : Bytes → Str) (content : Str → Bytes) (hsha : HexSha sha) : ∀ (es : List Event) (s : Sys), (∀ e ∈ es, e.Valid) →
    Inv sha content s → Inv sha content (s.run sha content es)
  | [], _, _, h => h
  | e :: es, s, hv, h =>
    inv_run sha content hsha es _ (fun e' he' => hv e' (.tail _ he')) (inv_step sha content hsha s e (hv e (.head _)) h)

/-! ## Theorems -/

/-- In every run, in which anything may fail at any time and the processes are interleaved in any way, a segment that PostgreSQL was
told is archived is in every repository with the checksum of its content, or it was dropped because the queue was too large, or an
administrator made its ok file. The run may begin with any repositories and any status files but ok files. -/
theorem c54_acknowledged (sha : Bytes → Str) (content : Str → Bytes) (hsha : HexSha sha) (s : Sys) (es : List Event)
    (hd : ∀ r ∈ s.repos, r.Distinct) (hok : ∀ x, ¬ s.spool.has (x ++ okExt)) (hdone : s.done = []) (hacked : s.acked = [])
    (hv : ∀ e ∈ es, e.Valid) (x : Str) (hx : x ∈ (s.run sha content es).acked) (hseg : Wal.isSegment x = true) :
    Stored sha content (s.run sha content es).repos x ∨ x ∈ (s.run sha content es).dropped ∨ x ∈ (s.run sha content es).skipped := by
  refine (inv_run sha content hsha es s hv ⟨hd, fun x hx => absurd hx (hok x), ?_, ?_⟩).acked x hx hseg
  · intro x hx; rw [hdone] at hx; cases hx
  · intro x hx; rw [hacked] at hx; cases hx

/-- No ready file is forgotten: when the asynchronous process has started, each ready file is to be pushed or has an ok file. -/
theorem c54_no_loss (sha : Bytes → Str) (content : Str → Bytes) (s : Sys) (hq : s.queue = []) (hr : s.ready.Nodup)
    (hs : (s.spool.map Prod.fst).Nodup) (x : Str) (hx : x ∈ s.ready) :
    x ∈ (s.step sha content .start).queue ↔ ¬ (s.step sha content .start).spool.has (x ++ okExt) := by
  unfold Sys.step
  rw [if_pos hq]
  simp only
  have hready : (s.ready.map (· ++ readyExt)).Nodup := by
    unfold List.Nodup at hr ⊢
    rw [List.pairwise_map]
    exact hr.imp fun h he => h (List.append_cancel_right he)
  rw [c19_partition _ _ hready hs x (List.mem_map_of_mem hx)]
  refine not_congr ?_
  constructor
  · intro h
    have hmem := (c19_spool _ _ _ h).1
    obtain ⟨f, hf, hfx⟩ := List.mem_map.1 hmem
    refine ⟨f.2, List.mem_filter.2 ⟨by rw [← hfx]; exact hf, ?_⟩⟩
    simpa using h
  · rintro ⟨c, hc⟩
    have := (List.mem_filter.1 hc).2
    simpa using this

/-! ## Example -/

/-- A run: a segment is ready, the process starts, a first push fails for one repository, the second succeeds, PostgreSQL is told. -/
def exRun : List Event :=
  [.ready segA, .start, .push segA exOpts (.ok (14, 7)) true (.ok [[1]]) [{}, { close := some .fileWrite }], .error (some segA) 39 [0x78],
    .check segA false, .stop, .clear segA, .start, .push segA exOpts (.ok (14, 7)) true (.ok [[1]]) [{}, {}], .ok segA (some [0x79]),
    .check segA true]

def exSys : Sys := ⟨[], [], [exRepo [], exRepo []], [], [], [], [], []⟩

example : (∀ e ∈ exRun, e.Valid) ∧ (exSys.run exSha (fun _ => [1]) exRun).acked = [segA] ∧
    (exSys.run exSha (fun _ => [1]) exRun).repos.map Repo.files =
      [[(fileSha segA 0x61 [0x2e, 0x67, 0x7a], [9, 1])], [(fileSha segA 0x61 [0x2e, 0x67, 0x7a], [9, 1])]] := by
  refine ⟨?_, by decide +kernel, by decide +kernel⟩
  intro e he
  simp only [exRun, List.mem_cons, List.not_mem_nil, or_false] at he
  rcases he with rfl | rfl | rfl | rfl | rfl | rfl | rfl | rfl | rfl | rfl | rfl <;> first | trivial | exact .inr (by decide)

end Verif.Archive
