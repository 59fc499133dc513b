import Verif.Archive.NeedModel
import Verif.Archive.StatusProps
import Verif.Archive.FindProps
import Verif.Wal.Props

/-! # C20: the queue of archive get, C55: the loop of asynchronous archive get -/

namespace Verif.Archive

open Verif.Wal

/-! ## Specification -/

/-- Number of segments in the queue: what fits in its size, at least two. -/
def queueTotal (queueSize segSize : Nat) : Nat := max 2 (queueSize / segSize)

/-- The segments wanted in the queue: from the requested one, or the next when it was found. -/
def Wanted (tli segno segSize : Nat) (found : Bool) (queueSize : Nat) (x : Str) : Prop :=
  ∃ i, i < queueTotal queueSize segSize ∧ x = xlogFileName tli (segno + (if found then 1 else 0) + i) segSize

/-- What is needed for the names of the segments. -/
structure Sizes (tli segno segSize queueSize : Nat) : Prop where
  timeline : tli < 2 ^ 32
  size : SegSize segSize
  total : queueSize / segSize < 2 ^ 32
  space : InSpace (segno + queueTotal queueSize segSize + 1) segSize

/-! ## Lemmas -/

theorem inSpace_le {a b size : Nat} (h : InSpace b size) (hab : a ≤ b) : InSpace a size := by
  unfold InSpace at *
  exact Nat.le_trans (Nat.mul_le_mul_right _ (by omega)) h

theorem queueNeed_eq {tli segno segSize queueSize : Nat} (h : Sizes tli segno segSize queueSize) (found : Bool) (files : List Str) :
    ∃ ideal : List Str, (∀ x, x ∈ ideal ↔ Wanted tli segno segSize found queueSize x) ∧ ideal.Nodup ∧
      queueNeed (xlogFileName tli segno segSize) found queueSize segSize files =
        .ok ((sortAsc ideal).filter (fun f => !(files.filter ideal.contains).contains f),
          files.filter fun f => ideal.contains f || endsWith f okExt && files.contains (dropExt okExt f)) := by
  obtain ⟨h1, h2, h3, h4⟩ := h
  have hpos := segsize_pos h2
  have htot : max 2 (queueSize / segSize % 2 ^ 32) = queueTotal queueSize segSize := by
    unfold queueTotal
    rw [Nat.mod_eq_of_lt h3]
  have htp : 0 < queueTotal queueSize segSize := by unfold queueTotal; omega
  have hfirst : (if found = true then Wal.next (xlogFileName tli segno segSize) segSize else .ok (xlogFileName tli segno segSize)) =
      .ok (xlogFileName tli (segno + (if found then 1 else 0)) segSize) := by
    cases found with
    | true => exact c04_next tli segno segSize h1 h2 (inSpace_le h4 (by omega))
    | false => rfl
  have hle : (if found = true then 1 else 0) ≤ 1 := by cases found <;> decide
  have hrange := c04_range tli (segno + (if found then 1 else 0)) segSize (queueTotal queueSize segSize) h1 h2 htp
    (inSpace_le h4 (by omega))
  refine ⟨(List.range (queueTotal queueSize segSize)).map
    (fun i => xlogFileName tli ((segno + if found = true then 1 else 0) + i) segSize), ?_, ?_, ?_⟩
  rotate_left 2
  · unfold queueNeed
    rw [if_neg (by omega), hfirst]
    simp only
    rw [htot, hrange]
  · intro x
    rw [List.mem_map]
    constructor
    · rintro ⟨i, hi, rfl⟩
      exact ⟨i, List.mem_range.1 hi, rfl⟩
    · rintro ⟨i, hi, rfl⟩
      exact ⟨i, List.mem_range.2 hi, rfl⟩
  · unfold List.Nodup
    rw [List.pairwise_map]
    refine List.Pairwise.imp_of_mem ?_ (List.nodup_range (n := queueTotal queueSize segSize))
    intro a b ha hb hab he
    rw [List.mem_range] at ha hb
    have := (c04_name_injective tli tli _ _ segSize h1 h1 h2 (inSpace_le h4 (by omega)) (inSpace_le h4 (by omega)) he).2
    omega

theorem wanted_not_ok {tli segno segSize queueSize : Nat} {found : Bool} {x y : Str} (h : Wanted tli segno segSize found queueSize x) :
    x ≠ y ++ okExt := by
  rintro rfl
  obtain ⟨i, _, hi⟩ := h
  have hv := (c04_name_valid tli (segno + (if found then 1 else 0) + i) segSize).2
  rw [← hi] at hv
  have := hv.1 0x6b (by simp [okExt])
  revert this
  unfold IsUpperHex
  decide

/-! ## C20 -/

/-- What is asked for is what is wanted and not in the queue, in order and once. -/
theorem c20_need (tli segno segSize queueSize : Nat) (found : Bool) (files need left : List Str)
    (h : Sizes tli segno segSize queueSize)
    (hq : queueNeed (xlogFileName tli segno segSize) found queueSize segSize files = .ok (need, left)) :
    (∀ x, x ∈ need ↔ Wanted tli segno segSize found queueSize x ∧ x ∉ files) ∧ need.Pairwise (· < ·) := by
  obtain ⟨ideal, h1, h2, h3⟩ := queueNeed_eq h found files
  rw [h3] at hq
  cases hq
  constructor
  · intro x
    simp only [List.mem_filter, mem_sortAsc, Bool.not_eq_true', List.contains_eq_mem, decide_eq_false_iff_not, decide_eq_true_eq]
    rw [← h1]
    constructor
    · rintro ⟨hx, hn⟩
      exact ⟨hx, fun hf => hn ⟨hf, hx⟩⟩
    · rintro ⟨hx, hn⟩
      exact ⟨hx, fun hf => hn hf.1⟩
  · exact List.Pairwise.filter _ (sortAsc_strictAsc h2)

/-- Files left in the queue: the segments wanted, and the ok files of segments that were in the queue. -/
theorem c20_left (tli segno segSize queueSize : Nat) (found : Bool) (files need left : List Str)
    (h : Sizes tli segno segSize queueSize)
    (hq : queueNeed (xlogFileName tli segno segSize) found queueSize segSize files = .ok (need, left)) (f : Str) :
    f ∈ left ↔ f ∈ files ∧ (Wanted tli segno segSize found queueSize f ∨ ∃ x, f = x ++ okExt ∧ x ∈ files) := by
  obtain ⟨ideal, h1, h2, h3⟩ := queueNeed_eq h found files
  rw [h3] at hq
  cases hq
  simp only [List.mem_filter, Bool.or_eq_true, Bool.and_eq_true, List.contains_eq_mem, decide_eq_true_eq, endsWith_iff]
  rw [h1]
  constructor
  · rintro ⟨hf, h | ⟨⟨x, rfl⟩, hx⟩⟩
    · exact ⟨hf, .inl h⟩
    · rw [dropExt_append] at hx
      exact ⟨hf, .inr ⟨x, rfl, hx⟩⟩
  · rintro ⟨hf, h | ⟨x, rfl, hx⟩⟩
    · exact ⟨hf, .inl h⟩
    · exact ⟨hf, .inr ⟨⟨x, rfl⟩, by rw [dropExt_append]; exact hx⟩⟩

/-- Together they are the queue that is wanted: each segment wanted is either left in the queue or asked for. -/
theorem c20_complete (tli segno segSize queueSize : Nat) (found : Bool) (files need left : List Str)
    (h : Sizes tli segno segSize queueSize)
    (hq : queueNeed (xlogFileName tli segno segSize) found queueSize segSize files = .ok (need, left)) (x : Str)
    (hx : Wanted tli segno segSize found queueSize x) : x ∈ need ↔ x ∉ left := by
  rw [(c20_need _ _ _ _ _ _ _ _ h hq).1, c20_left _ _ _ _ _ _ _ _ h hq]
  constructor
  · rintro ⟨_, hn⟩ ⟨hf, _⟩
    exact hn hf
  · intro hn
    exact ⟨hx, fun hf => hn ⟨hf, .inl hx⟩⟩

/-- An ok file that says that a segment is missing does not outlive the start of the asynchronous process: if the segment is not in the
queue then its ok file is removed. -/
theorem c20_missing_cleared (tli segno segSize queueSize : Nat) (found : Bool) (files need left : List Str)
    (h : Sizes tli segno segSize queueSize)
    (hq : queueNeed (xlogFileName tli segno segSize) found queueSize segSize files = .ok (need, left)) (x : Str) (hx : x ∉ files) :
    x ++ okExt ∉ left := by
  rw [c20_left _ _ _ _ _ _ _ _ h hq]
  rintro ⟨_, hw | ⟨y, hy, hy'⟩⟩
  · exact wanted_not_ok hw rfl
  · rw [List.append_cancel_right hy] at hx
    exact hx hy'

/-- When an ok file is left without its segment, so that it says that the segment is missing: exactly when it is the warning of a
segment that was in the queue and was removed. -/
theorem c20_stale_ok (tli segno segSize queueSize : Nat) (found : Bool) (files need left : List Str)
    (h : Sizes tli segno segSize queueSize)
    (hq : queueNeed (xlogFileName tli segno segSize) found queueSize segSize files = .ok (need, left)) (x : Str)
    (hok : ∀ y, x ≠ y ++ okExt) :
    (x ++ okExt ∈ left ∧ x ∉ left) ↔ x ++ okExt ∈ files ∧ x ∈ files ∧ ¬ Wanted tli segno segSize found queueSize x := by
  rw [c20_left _ _ _ _ _ _ _ _ h hq, c20_left _ _ _ _ _ _ _ _ h hq]
  constructor
  · rintro ⟨⟨h1, h2⟩, h3⟩
    rcases h2 with hw | ⟨y, hy, hy'⟩
    · exact absurd rfl (wanted_not_ok hw)
    · have := List.append_cancel_right hy
      subst this
      exact ⟨h1, hy', fun hw => h3 ⟨hy', .inl hw⟩⟩
  · rintro ⟨h1, h2, h3⟩
    refine ⟨⟨h1, .inr ⟨x, rfl, h2⟩⟩, ?_⟩
    rintro ⟨_, hw | ⟨y, hy, _⟩⟩
    · exact h3 hw
    · exact hok y hy

/-- Such an ok file is removed by the next start. -/
theorem c20_second (tli segno segSize queueSize : Nat) (found : Bool) (files need left need' left' : List Str)
    (h : Sizes tli segno segSize queueSize)
    (hq : queueNeed (xlogFileName tli segno segSize) found queueSize segSize files = .ok (need, left))
    (hq' : queueNeed (xlogFileName tli segno segSize) found queueSize segSize left = .ok (need', left')) (f : Str) :
    (f ∈ left' ↔ f ∈ left ∧ (Wanted tli segno segSize found queueSize f ∨ ∃ x, f = x ++ okExt ∧ x ∈ left)) ∧ need' = need := by
  refine ⟨c20_left _ _ _ _ _ _ _ _ h hq' f, ?_⟩
  have h1 := c20_need _ _ _ _ _ _ _ _ h hq
  have h2 := c20_need _ _ _ _ _ _ _ _ h hq'
  refine List.Perm.eq_of_pairwise (le := (· < ·)) ?_ h2.2 h1.2 ?_
  · intro a b _ _ hab hba
    exact absurd (Str.lt_trans hab hba) (Str.lt_irrefl _)
  · have hnd : ∀ l : List Str, l.Pairwise (· < ·) → l.Nodup := fun l hl => List.Pairwise.imp (fun h he => by subst he; exact Str.lt_irrefl _ h) hl
    rw [List.perm_ext_iff_of_nodup (hnd _ h2.2) (hnd _ h1.2)]
    intro x
    rw [h1.1, h2.1, c20_left _ _ _ _ _ _ _ _ h hq]
    constructor
    · rintro ⟨hw, hn⟩
      exact ⟨hw, fun hf => hn ⟨hf, .inl hw⟩⟩
    · rintro ⟨hw, hn⟩
      exact ⟨hw, fun hf => hn hf.1⟩

/-! ## C55 -/

theorem asyncStatus_ok_iff {spool : Spool} {seg : Str} {t w : Bool} (h : ¬ spool.has (seg ++ okExt)) :
    ∀ c, asyncStatus spool seg t w ≠ .ok c := fun _ he => h (c18_success _ _ _ _ _ he)

theorem spawn_sub {seg : Str} {queueSize segSize : Nat} {spool spool' : Spool} (h : spawn seg queueSize segSize spool = .ok spool') :
    ∀ f ∈ spool', f ∈ spool := by
  unfold spawn at h
  cases hq : queueNeed seg false queueSize segSize (spool.map Prod.fst) with
  | error e => rw [hq] at h; cases h
  | ok p =>
    rw [hq] at h
    cases h
    intro f hf
    unfold errorClear Spool.remove at hf
    exact (List.mem_filter.1 (List.mem_filter.1 (List.mem_filter.1 hf).1).1).1

theorem getSpawn_sub {seg : Str} {queueSize segSize : Nat} {spool : Spool} {forked lock : Bool} {s : Spool × Bool}
    (h : getSpawn seg queueSize segSize spool forked lock = .ok s) : ∀ f ∈ s.1, f ∈ spool := by
  unfold getSpawn at h
  split at h
  · cases hs : spawn seg queueSize segSize spool with
    | error e => rw [hs] at h; cases h
    | ok s' =>
      rw [hs] at h
      cases h
      exact spawn_sub hs
  · cases h
    exact fun f hf => hf

/-- What a pass that goes on leaves: only files that were there, not the ok file of the segment. -/
theorem getPass_next {seg : Str} {queueSize segSize : Nat} {retry first forked : Bool} {spool : Spool} {p : GetPass} {s : Spool × Bool}
    (h : getPass seg queueSize segSize retry spool first forked p = .inr s) :
    (∀ f ∈ s.1, f ∈ spool) ∧ ¬ s.1.has (seg ++ okExt) ∧ (first = true ∨ p.own = true) := by
  unfold getPass at h
  simp only at h
  cases hst : asyncStatus spool seg (!first) ((spool.get seg).isSome || !(first && retry)) with
  | thrown c m => rw [hst] at h; cases h
  | fail e => rw [hst] at h; cases h
  | ok w =>
    rw [hst] at h
    simp only at h
    cases hf : spool.get seg with
    | some d => rw [hf] at h; cases h
    | none =>
      rw [hf] at h
      simp only at h
      split at h
      · cases h
      · cases hg : getSpawn seg queueSize segSize (if (Status.ok w != Status.wait) = true then spool.remove (seg ++ okExt) else spool)
            forked p.lock with
        | error e => rw [hg] at h; cases h
        | ok s' =>
          rw [hg] at h
          simp only at h
          split at h
          · cases h
          · rename_i hend
            cases h
            have hsub := getSpawn_sub hg
            rw [if_pos (by simp)] at hsub
            refine ⟨fun f hf => (List.mem_filter.1 (hsub f hf)).1, ?_, ?_⟩
            · rintro ⟨c, hc⟩
              have := (List.mem_filter.1 (hsub _ hc)).2
              simp at this
            · cases first <;> cases hown : p.own <;> simp_all
  | wait =>
    rw [hst] at h
    simp only at h
    cases hf : spool.get seg with
    | some d => rw [hf] at h; cases h
    | none =>
      rw [hf] at h
      simp only at h
      split at h
      · cases h
      · cases hg : getSpawn seg queueSize segSize (if (Status.wait != Status.wait) = true then spool.remove (seg ++ okExt) else spool)
            forked p.lock with
        | error e => rw [hg] at h; cases h
        | ok s' =>
          rw [hg] at h
          simp only at h
          split at h
          · cases h
          · rename_i hend
            cases h
            have hsub := getSpawn_sub hg
            rw [if_neg (by simp)] at hsub
            refine ⟨hsub, ?_, ?_⟩
            · rintro ⟨c, hc⟩
              have hhas : spool.has (seg ++ okExt) := ⟨c, hsub _ hc⟩
              obtain ⟨d, hd⟩ := get_isSome.2 hhas
              unfold asyncStatus at hst
              rw [hd] at hst
              simp only at hst
              split at hst <;> cases hst
            · cases first <;> cases hown : p.own <;> simp_all

theorem getPass_spool {seg : Str} {queueSize segSize : Nat} {retry first forked : Bool} {spool : Spool} {p : GetPass} {data : Bytes}
    (h : getPass seg queueSize segSize retry spool first forked p = .inl (.spool data)) : spool.get seg = some data := by
  unfold getPass at h
  simp only at h
  split at h
  · cases h
  · cases h
  · cases hf : spool.get seg with
    | some d => rw [hf] at h; cases h; rfl
    | none =>
      rw [hf] at h
      simp only at h
      split at h
      · cases h
      · split at h
        · cases h
        · split at h <;> cases h

theorem getPass_missing {seg : Str} {queueSize segSize : Nat} {retry first forked : Bool} {spool : Spool} {p : GetPass}
    (h : getPass seg queueSize segSize retry spool first forked p = .inl .missing) :
    spool.has (seg ++ okExt) ∧ spool.get seg = none ∧ (first && retry) = false := by
  unfold getPass at h
  simp only at h
  cases hst : asyncStatus spool seg (!first) ((spool.get seg).isSome || !(first && retry)) with
  | thrown c m => rw [hst] at h; cases h
  | fail e => rw [hst] at h; cases h
  | wait =>
    rw [hst] at h
    simp only at h
    cases hf : spool.get seg with
    | some d => rw [hf] at h; cases h
    | none =>
      rw [hf] at h
      simp only at h
      rw [if_neg (by simp)] at h
      split at h
      · cases h
      · split at h <;> cases h
  | ok w =>
    rw [hst] at h
    simp only at h
    cases hf : spool.get seg with
    | some d => rw [hf] at h; cases h
    | none =>
      rw [hf] at h
      simp only at h
      split at h
      · rename_i hc
        refine ⟨c18_success _ _ _ _ _ hst, rfl, ?_⟩
        cases hfr : first && retry with
        | false => rfl
        | true => rw [hfr] at hc; simp at hc
      · split at h
        · cases h
        · split at h <;> cases h

/-- What is delivered from the queue is right when the other processes put nothing but the right content in the queue. -/
theorem c55_content (seg : Str) (queueSize segSize : Nat) (retry : Bool) (content : Bytes) (passes : List GetPass) (spool : Spool)
    (data : Bytes) (hs : ∀ d, (seg, d) ∈ spool → d = content)
    (hp : ∀ p ∈ passes, ∀ s : Spool, (∀ d, (seg, d) ∈ s → d = content) → ∀ d, (seg, d) ∈ p.change s → d = content)
    (h : getAsync seg queueSize segSize retry spool passes = .spool data) : data = content := by
  unfold getAsync at h
  suffices ∀ first forked, getWait seg queueSize segSize retry spool first forked passes = .spool data → data = content from
    this _ _ h
  clear h
  induction passes generalizing spool with
  | nil => intro first forked h; cases h
  | cons p passes ih =>
    intro first forked h
    rw [getWait] at h
    have hch := hp p (.head _) spool hs
    cases hg : getPass seg queueSize segSize retry (p.change spool) first forked p with
    | inl r =>
      rw [hg] at h
      simp only at h
      subst h
      have hget := getPass_spool hg
      unfold Spool.get at hget
      obtain ⟨f, hf, rfl⟩ := Option.map_eq_some_iff.1 hget
      have h1 := List.find?_some hf
      have h2 := List.mem_of_find?_eq_some hf
      simp only [beq_iff_eq] at h1
      exact hch f.2 (by rw [← h1]; exact h2)
    | inr s =>
      rw [hg] at h
      exact ih s.1 (fun d hd => hch d ((getPass_next hg).1 _ hd)) (fun q hq => hp q (.tail _ hq)) _ _ h

/-- With retry of missing segments, a segment is reported as missing only when an ok file for it was made after the first pass: one
left by an earlier recovery or by an earlier run is not enough. -/
theorem c55_missing (seg : Str) (queueSize segSize : Nat) (p : GetPass) (passes : List GetPass) (spool : Spool)
    (h : getAsync seg queueSize segSize true spool (p :: passes) = .missing) :
    ∃ q ∈ passes, ∃ s : Spool, ¬ s.has (seg ++ okExt) ∧ (q.change s).has (seg ++ okExt) ∧ (q.change s).get seg = none := by
  unfold getAsync at h
  rw [getWait] at h
  cases hg : getPass seg queueSize segSize true (p.change spool) true false p with
  | inl r =>
    rw [hg] at h
    simp only at h
    subst h
    have := (getPass_missing hg).2.2
    cases this
  | inr s =>
    rw [hg] at h
    have hno := (getPass_next hg).2.1
    obtain ⟨s1, s2⟩ := s
    simp only at h hno
    clear hg
    induction passes generalizing s1 s2 with
    | nil => cases h
    | cons q passes ih =>
      rw [getWait] at h
      cases hg : getPass seg queueSize segSize true (q.change s1) false s2 q with
      | inl r =>
        rw [hg] at h
        simp only at h
        subst h
        obtain ⟨h1, h2, _⟩ := getPass_missing hg
        exact ⟨q, .head _, s1, hno, h1, h2⟩
      | inr s =>
        rw [hg] at h
        obtain ⟨q', hq', s', hs'⟩ := ih s.1 s.2 h (getPass_next hg).2.1
        exact ⟨q', .tail _ hq', s', hs'⟩

/-- After the first pass it does not wait for an asynchronous process that is not its own: passes after the second have no effect. -/
theorem c55_no_foreign_wait (seg : Str) (queueSize segSize : Nat) (retry : Bool) (p q : GetPass) (rest rest' : List GetPass)
    (spool : Spool) (hq : q.own = false) :
    getAsync seg queueSize segSize retry spool (p :: q :: rest) = getAsync seg queueSize segSize retry spool (p :: q :: rest') := by
  unfold getAsync
  rw [getWait, getWait]
  cases getPass seg queueSize segSize retry (p.change spool) true false p with
  | inl r => rfl
  | inr s =>
    simp only
    rw [getWait, getWait]
    cases hg : getPass seg queueSize segSize retry (q.change s.1) false s.2 q with
    | inl r => rfl
    | inr s' =>
      exfalso
      rcases (getPass_next hg).2.2 with h | h
      · cases h
      · rw [hq] at h; cases h

/-- A segment in the queue is delivered at once when there is no status file for it. -/
theorem c55_found (seg : Str) (queueSize segSize : Nat) (retry : Bool) (p : GetPass) (passes : List GetPass) (spool : Spool)
    (data : Bytes) (hf : (p.change spool).get seg = some data) (h1 : ¬ (p.change spool).has (seg ++ okExt))
    (h2 : ¬ (p.change spool).has (seg ++ errorExt)) (h3 : ¬ (p.change spool).has (globalName ++ errorExt)) :
    getAsync seg queueSize segSize retry spool (p :: passes) = .spool data := by
  unfold getAsync
  rw [getWait]
  have hw : ∀ t w, asyncStatus (p.change spool) seg t w = .wait := fun t w => c18_wait _ _ _ _ h1 h2 h3
  have : getPass seg queueSize segSize retry (p.change spool) true false p = .inl (.spool data) := by
    unfold getPass
    simp only [hw, hf]
  rw [this]

/-! ## Examples and divergences -/

/-- 16MB segments and a queue of 64MB. -/
example : Sizes 1 3 16777216 67108864 := ⟨by decide, ⟨by decide, ⟨256, by decide⟩⟩, by decide, by unfold InSpace queueTotal; decide⟩

def w3 : Str := xlogFileName 1 3 16777216
def w4 : Str := xlogFileName 1 4 16777216
def w5 : Str := xlogFileName 1 5 16777216
def w9 : Str := xlogFileName 1 9 16777216

/-- Segment 4 is kept with its warning, the rest is removed, 3 is asked for. -/
example : queueNeed w3 false 0 16777216 [w4, w4 ++ okExt, w9, [0x78]] = .ok ([w3], [w4, w4 ++ okExt]) := by decide +kernel

/-- The warning of a segment that is removed is kept, and from then on says that the segment is missing. -/
theorem c20_stale_kept : queueNeed w3 false 0 16777216 [w4, w9, w9 ++ okExt] = .ok ([w3], [w4, w9 ++ okExt]) := by decide +kernel

/-- Without retry of missing segments PostgreSQL is then told that the segment is missing, although it is archived and was in the
queue: one run that starts the process for another segment, then a run for the segment itself. -/
theorem c55_stale_missing :
    (spawn w3 0 16777216 [(w4, [4]), (w9, [9]), (w9 ++ okExt, [0x30, 0x0a, 0x77])]) = .ok [(w4, [4]), (w9 ++ okExt, [0x30, 0x0a, 0x77])] ∧
    getAsync w9 0 16777216 false [(w4, [4]), (w9 ++ okExt, [0x30, 0x0a, 0x77])] [⟨id, true, true⟩] = .missing := ⟨by decide +kernel, by decide +kernel⟩

/-- The process is spawned in the first pass, the segment is in the queue in the third. -/
example : getAsync w3 0 16777216 true [] [⟨id, true, true⟩, ⟨id, false, true⟩, ⟨fun s => (w3, [3]) :: s, false, true⟩] = .spool [3] := by rfl

/-- The segment is missing: ok file made while the process waits. -/
example : getAsync w3 0 16777216 true [(w3 ++ okExt, [])] [⟨id, true, true⟩, ⟨fun s => okWrite s w3 none, false, true⟩] = .missing := by rfl

end Verif.Archive
