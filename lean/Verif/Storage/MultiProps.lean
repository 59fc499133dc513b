import Verif.Storage.MultiModel

/-! # Parts of many files are read in the order in which they were added (C60) -/

namespace Verif.Storage

open Verif

/-! ## Specification -/

/-- The bytes of a file that were asked for, as far as the file has them. -/
def wantedOf (files : Str → Option Str) (a : Add) : Str :=
  match files a.file, a.limit with
  | none, _ => []
  | some data, none => data.drop a.offset
  | some data, some l => (data.drop a.offset).take l

/-- All that was asked for, in order. -/
def wanted (files : Str → Option Str) (as : List Add) : Str := as.flatMap (wantedOf files)

/-- `b` may follow `a`: it is another file, or it starts where `a` ends or later. -/
def Follows (a b : Add) : Prop :=
  a.file = b.file → ∃ la lb, a.limit = some la ∧ b.limit = some lb ∧ a.offset + la ≤ b.offset

/-- Each file may follow the one before. -/
def Ordered : List Add → Prop
  | a :: b :: more => Follows a b ∧ Ordered (b :: more)
  | _ => True

/-! ## What a request delivers -/

theorem wantedOf_eq (files : Str → Option Str) (a : Add) : wantedOf files a = part ((files a.file).getD []) a.offset a.limit := by
  unfold wantedOf part
  cases files a.file <;> cases a.limit <;> simp

theorem part_append (data : Str) (o a b : Nat) : part data o (some (a + b)) = part data o (some a) ++ part data (o + a) (some b) := by
  simp only [part, List.take_add, List.drop_drop]

/-- The bytes of the ranges out of those of the whole request. -/
def pick : Str → List Range → Nat → Str
  | s, a :: b :: more, rr =>
    s.take (a.limit - rr) ++ pick (s.drop (a.limit - rr + (b.offset - (a.offset + a.limit)))) (b :: more) 0
  | s, _, _ => s

theorem pick_nil : ∀ (l : List Range) (rr : Nat), pick [] l rr = []
  | [], _ => rfl
  | [_], _ => rfl
  | a :: b :: more, rr => by
    rw [pick]
    simp [pick_nil (b :: more) 0]

/-- The ranges are in order and end at `e`. -/
def Chained : List Range → Nat → Prop
  | [], _ => False
  | [a], e => a.offset + a.limit = e
  | a :: b :: more, e => a.offset + a.limit ≤ b.offset ∧ Chained (b :: more) e

theorem Chained.le : ∀ {l : List Range} {a : Range} {e : Nat}, Chained (a :: l) e → a.offset + a.limit ≤ e
  | [], a, e, h => Nat.le_of_eq h
  | b :: l, a, e, h => by
    have := Chained.le h.2
    have := h.1
    omega

theorem pick_chained (data : Str) : ∀ (l : List Range) (a : Range) (e : Nat), Chained (a :: l) e →
    pick (part data a.offset (some (e - a.offset))) (a :: l) 0 = (a :: l).flatMap fun r => part data r.offset (some r.limit)
  | [], a, e, h => by
    have : e - a.offset = a.limit := by
      have : a.offset + a.limit = e := h
      omega
    simp [pick, this]
  | b :: l, a, e, h => by
    have ih := pick_chained data l b e h.2
    have hb := Chained.le h.2
    have ha := h.1
    rw [pick, List.flatMap_cons]
    have h1 : (part data a.offset (some (e - a.offset))).take (a.limit - 0) = part data a.offset (some a.limit) := by
      simp only [part, Nat.sub_zero, List.take_take]
      rw [Nat.min_eq_left (by omega)]
    have h2 : (part data a.offset (some (e - a.offset))).drop (a.limit - 0 + (b.offset - (a.offset + a.limit))) =
        part data b.offset (some (e - b.offset)) := by
      simp only [part, List.drop_take, List.drop_drop]
      congr 1
      · omega
      · congr 1
        omega
    rw [h1, h2, ih]

/-- A request is made of ranges, or is one. -/
def ReqOk (r : Req) : Prop :=
  match r.ranges with
  | none => True
  | some l => ∃ a more n, l = a :: more ∧ a.offset = r.offset ∧ r.limit = some n ∧ Chained l (r.offset + n)

/-- The bytes of the read for a request. -/
def opened (files : Str → Option Str) (r : Req) : Str := part ((files r.file).getD []) r.offset r.limit

/-- What a request delivers. -/
def outOf (files : Str → Option Str) (r : Req) : Str := pick (opened files r) (r.ranges.getD []) 0

theorem outOf_none (files : Str → Option Str) {r : Req} (h : r.ranges = none) : outOf files r = opened files r := by
  unfold outOf
  rw [h]
  rfl

theorem outOf_some (files : Str → Option Str) {r : Req} {l : List Range} (hr : ReqOk r) (h : r.ranges = some l) :
    outOf files r = l.flatMap fun x => part ((files r.file).getD []) x.offset (some x.limit) := by
  unfold ReqOk at hr
  rw [h] at hr
  obtain ⟨a, more, n, rfl, h1, h2, h3⟩ := hr
  unfold outOf opened
  rw [h, h2, ← h1]
  have := pick_chained ((files r.file).getD []) more a (r.offset + n) h3
  rw [h1, Nat.add_sub_cancel_left] at this
  rw [h1]
  exact this

theorem Chained.last : ∀ {l : List Range} {x : Range} {e : Nat}, Chained (l ++ [x]) e → x.offset + x.limit = e
  | [], x, e, h => h
  | [a], x, e, h => h.2
  | a :: b :: l, x, e, h => Chained.last (l := b :: l) h.2

theorem Chained.snoc : ∀ {l : List Range} {x : Range} {e : Nat}, Chained l e → e ≤ x.offset → Chained (l ++ [x]) (x.offset + x.limit)
  | [], x, e, h, _ => False.elim h
  | [a], x, e, h, hx => by
    have h : a.offset + a.limit = e := h
    exact ⟨by omega, rfl⟩
  | a :: b :: l, x, e, h, hx => ⟨h.1, Chained.snoc (l := b :: l) h.2 hx⟩

theorem Chained.extend : ∀ {l : List Range} {x : Range} {e : Nat} (n : Nat), Chained (l ++ [x]) e →
    Chained (l ++ [⟨x.offset, x.limit + n⟩]) (e + n)
  | [], x, e, n, h => by
    have h : x.offset + x.limit = e := h
    show x.offset + (x.limit + n) = e + n
    omega
  | [a], x, e, n, h => by
    obtain ⟨h1, h2⟩ := h
    have h2 : x.offset + x.limit = e := h2
    refine ⟨h1, ?_⟩
    show x.offset + (x.limit + n) = e + n
    omega
  | a :: b :: l, x, e, n, h => ⟨h.1, Chained.extend (l := b :: l) n h.2⟩

/-- A request combined with one more range. -/
theorem combined {files : Str → Option Str} {p : Req} {pl offset l : Nat} (hp : ReqOk p) (hl : p.limit = some pl)
    (ho : p.offset + pl ≤ offset) :
    ReqOk ⟨p.file, p.offset, some (offset - p.offset + l), addRange p pl offset l⟩ ∧
    outOf files ⟨p.file, p.offset, some (offset - p.offset + l), addRange p pl offset l⟩ =
      outOf files p ++ part ((files p.file).getD []) offset (some l) := by
  have hsum : p.offset + (offset - p.offset + l) = offset + l := by omega
  by_cases hne : offset ≠ p.offset + pl
  · have hok : ReqOk ⟨p.file, p.offset, some (offset - p.offset + l), addRange p pl offset l⟩ := by
      unfold ReqOk addRange
      rw [if_pos hne]
      simp only
      cases hr : p.ranges with
      | none =>
        refine ⟨⟨p.offset, pl⟩, [⟨offset, l⟩], _, rfl, rfl, rfl, ?_⟩
        rw [hsum]
        exact ⟨ho, rfl⟩
      | some rs =>
        unfold ReqOk at hp
        rw [hr] at hp
        obtain ⟨a, more, n, rfl, h1, h2, h3⟩ := hp
        rw [hl] at h2
        cases h2
        refine ⟨a, more ++ [⟨offset, l⟩], _, rfl, h1, rfl, ?_⟩
        rw [hsum]
        exact Chained.snoc h3 ho
    refine ⟨hok, ?_⟩
    have hr' : (Req.mk p.file p.offset (some (offset - p.offset + l)) (addRange p pl offset l)).ranges =
        some (p.ranges.getD [⟨p.offset, pl⟩] ++ [⟨offset, l⟩]) := by
      show addRange p pl offset l = _
      unfold addRange
      rw [if_pos hne]
    rw [outOf_some files hok hr', List.flatMap_append]
    cases hr : p.ranges with
    | none =>
      rw [outOf_none files hr]
      simp [opened, hl]
    | some rs =>
      rw [outOf_some files hp hr]
      simp
  · have heq : offset = p.offset + pl := by omega
    subst heq
    cases hr : p.ranges with
    | none =>
      have hr' : addRange p pl (p.offset + pl) l = none := by simp [addRange, hr]
      rw [hr']
      refine ⟨trivial, ?_⟩
      rw [outOf_none files hr, outOf_none files rfl]
      simp only [opened, hl]
      rw [← part_append, Nat.add_sub_cancel_left]
    | some rs =>
      have hp0 := hp
      unfold ReqOk at hp
      rw [hr] at hp
      obtain ⟨a, more, n, h0, h1, h2, h3⟩ := hp
      rw [hl] at h2
      cases h2
      obtain ⟨init, last, hil⟩ : ∃ init last, rs = init ++ [last] :=
        ⟨rs.dropLast, rs.getLast (by rw [h0]; simp), (List.dropLast_concat_getLast _).symm⟩
      have hlast := Chained.last (hil ▸ h3)
      have hr' : addRange p pl (p.offset + pl) l = some (init ++ [⟨last.offset, last.limit + l⟩]) := by
        unfold addRange
        simp only [ne_eq, not_true_eq_false, if_false, hr]
        rw [hil]
        simp only [List.getLast?_append, List.getLast?_singleton, Option.some_or, List.dropLast_concat]
        congr 5
        omega
      have hok : ReqOk ⟨p.file, p.offset, some (p.offset + pl - p.offset + l), addRange p pl (p.offset + pl) l⟩ := by
        unfold ReqOk
        rw [hr']
        simp only
        have hc := Chained.extend l (hil ▸ h3)
        have hx : p.offset + (p.offset + pl - p.offset + l) = p.offset + pl + l := by omega
        cases init with
        | nil =>
          refine ⟨⟨last.offset, last.limit + l⟩, [], _, rfl, ?_, rfl, hx ▸ hc⟩
          rw [h0] at hil
          cases hil
          exact h1
        | cons b init =>
          refine ⟨b, init ++ [⟨last.offset, last.limit + l⟩], _, rfl, ?_, rfl, hx ▸ hc⟩
          rw [h0] at hil
          cases hil
          exact h1
      refine ⟨hok, ?_⟩
      rw [outOf_some files hok hr', outOf_some files hp0 hr, hil]
      simp only [List.flatMap_append, List.flatMap_cons, List.flatMap_nil, List.append_nil, List.append_assoc]
      rw [part_append, hlast]

/-! ## The queue -/

theorem openRead_ok {files : Str → Option Str} {r : Req} {s : Str} (h : openRead files r = .ok s) :
    (files r.file).isSome = true ∧ s = opened files r := by
  unfold openRead at h
  cases hf : files r.file with
  | none =>
    rw [hf] at h
    cases h
  | some d =>
    rw [hf] at h
    cases h
    simp [opened, hf]

theorem fill_ok {files : Str → Option Str} {queueMax : Nat} : ∀ {rs : List Req} {q q' : List Str}, fill files queueMax rs q = .ok q' →
    ∃ k, k ≤ rs.length ∧ q' = q ++ (rs.take k).map (opened files) ∧ (∀ r ∈ rs.take k, (files r.file).isSome = true) ∧
      q'.length ≤ max queueMax q.length ∧ (rs ≠ [] → q.length < queueMax → 0 < k)
  | [], q, q', h => by
    cases h
    exact ⟨0, by simp, by simp, by simp, by omega, by simp⟩
  | r :: rs, q, q', h => by
    unfold fill at h
    by_cases hq : q.length < queueMax
    · rw [if_pos hq] at h
      cases ho : openRead files r with
      | error e =>
        rw [ho] at h
        cases h
      | ok s =>
        rw [ho] at h
        obtain ⟨h1, rfl⟩ := openRead_ok ho
        obtain ⟨k, h2, h3, h4, h5, h6⟩ := fill_ok h
        refine ⟨k + 1, by simpa using h2, ?_, ?_, ?_, fun _ _ => by omega⟩
        · rw [h3]
          simp
        · intro x hx
          rw [List.take_succ_cons] at hx
          rcases List.mem_cons.1 hx with rfl | hx
          · exact h1
          · exact h4 x hx
        · simp only [List.length_append, List.length_singleton] at h5
          omega
    · rw [if_neg hq] at h
      cases h
      exact ⟨0, by simp, by simp, by simp, by omega, fun _ h' => absurd h' hq⟩

theorem fill_error {files : Str → Option Str} {queueMax : Nat} {e : Err} : ∀ {rs : List Req} {q : List Str}, fill files queueMax rs q = .error e →
    e = .fileMissing ∧ ∃ r ∈ rs, files r.file = none
  | [], q, h => by cases h
  | r :: rs, q, h => by
    unfold fill at h
    by_cases hq : q.length < queueMax
    · rw [if_pos hq] at h
      cases ho : openRead files r with
      | error e' =>
        rw [ho] at h
        cases h
        unfold openRead at ho
        cases hf : files r.file with
        | none =>
          rw [hf] at ho
          cases ho
          exact ⟨rfl, r, by simp, hf⟩
        | some d =>
          rw [hf] at ho
          cases ho
      | ok s =>
        rw [ho] at h
        obtain ⟨h1, x, h2, h3⟩ := fill_error h
        exact ⟨h1, x, List.mem_cons_of_mem _ h2, h3⟩
    · rw [if_neg hq] at h
      cases h

/-- The reads in the queue are those of the first requests. -/
def QueueOk (files : Str → Option Str) (rs : List Req) (q : List Str) : Prop :=
  q.length ≤ rs.length ∧ q = (rs.take q.length).map (opened files) ∧ ∀ r ∈ rs.take q.length, (files r.file).isSome = true

theorem fill_queue {files : Str → Option Str} {queueMax : Nat} {rs : List Req} {q q' : List Str} (hq : QueueOk files rs q)
    (h : fill files queueMax (rs.drop q.length) q = .ok q') : QueueOk files rs q' ∧ q'.length ≤ max queueMax q.length ∧
      (q.length < rs.length → q.length < queueMax → q ≠ [] ∨ q' ≠ []) := by
  obtain ⟨k, h1, h2, h3, h4, h5⟩ := fill_ok h
  obtain ⟨a, b, c⟩ := hq
  have hlen : q'.length = q.length + k := by
    rw [h2, List.length_append, List.length_map, List.length_take]
    omega
  have htake : rs.take q'.length = rs.take q.length ++ (rs.drop q.length).take k := by rw [hlen, List.take_add]
  refine ⟨⟨?_, ?_, ?_⟩, h4, fun x y => ?_⟩
  · rw [hlen]
    rw [List.length_drop] at h1
    omega
  · rw [htake, List.map_append, ← b]
    exact h2
  · intro r hr
    rw [htake] at hr
    rcases List.mem_append.1 hr with hr | hr
    · exact c r hr
    · exact h3 r hr
  · right
    have : 0 < k := h5 (by
      intro h0
      have := congrArg List.length h0
      rw [List.length_drop] at this
      simp at this
      omega) y
    intro h0
    rw [h0] at hlen
    simp at hlen
    omega

theorem QueueOk.more {files : Str → Option Str} {rs : List Req} {q : List Str} (more : List Req) (h : QueueOk files rs q) :
    QueueOk files (rs ++ more) q := by
  obtain ⟨a, b, c⟩ := h
  have : (rs ++ more).take q.length = rs.take q.length := by
    rw [List.take_append_of_le_length a]
  refine ⟨by rw [List.length_append]; omega, ?_, ?_⟩
  · rw [this]
    exact b
  · rw [this]
    exact c

/-! ## Adding -/

/-- The number of ranges in a request. -/
def weight (r : Req) : Nat :=
  match r.ranges with
  | none => 1
  | some l => l.length

def weights (rs : List Req) : Nat := (rs.map weight).sum

theorem weights_append (a b : List Req) : weights (a ++ b) = weights a + weights b := by simp [weights]

/-- The last request ends with the last file that was added. -/
def EndsWith (p : Req) (a : Add) : Prop :=
  p.file = a.file ∧ (p.limit = none ↔ a.limit = none) ∧ ∀ pl la, p.limit = some pl → a.limit = some la → p.offset + pl = a.offset + la

structure AddInv (files : Str → Option Str) (queueMax : Nat) (as : List Add) (st : St) : Prop where
  wanted : wanted files as = st.reqs.flatMap (outOf files)
  reqs : ∀ r ∈ st.reqs, ReqOk r
  queue : QueueOk files st.reqs.dropLast st.queue
  max : st.queue.length ≤ queueMax
  rangeRead : st.rangeRead = 0
  eof : st.eof = false
  empty : st.reqs = [] ↔ as = []
  last : ∀ p ∈ st.reqs.getLast?, ∀ a ∈ as.getLast?, EndsWith p a
  names : ∀ r ∈ st.reqs, ∃ a ∈ as, a.file = r.file
  keeps : ∀ a ∈ as, ∃ r ∈ st.reqs, r.file = a.file
  weights : weights st.reqs ≤ as.length

theorem AddInv.start (files : Str → Option Str) (queueMax : Nat) : AddInv files queueMax [] .new where
  wanted := rfl
  reqs := by simp [St.new]
  queue := ⟨by simp [St.new], by simp [St.new], by simp [St.new]⟩
  max := by simp [St.new]
  rangeRead := rfl
  eof := rfl
  empty := by simp [St.new]
  last := by simp [St.new]
  names := by simp [St.new]
  keeps := by simp
  weights := by simp [St.new, Storage.weights]

theorem addNew_ok {files : Str → Option Str} {queueMax : Nat} {as : List Add} {st st' : St} {a : Add}
    (hi : AddInv files queueMax as st) (h : addNew files queueMax st a.file a.offset a.limit = .ok st') :
    AddInv files queueMax (as ++ [a]) st' := by
  unfold addNew queueMore at h
  simp only [if_true] at h
  cases hf : fill files queueMax ((st.reqs ++ [Req.mk a.file a.offset a.limit none]).dropLast.drop st.queue.length) st.queue with
  | error e =>
    rw [hf] at h
    cases h
  | ok q =>
    rw [hf] at h
    cases h
    rw [List.dropLast_concat] at hf
    have hq : QueueOk files st.reqs st.queue := by
      by_cases hr : st.reqs = []
      · have := hi.queue
        rw [hr] at this ⊢
        exact this
      · have := hi.queue.more [st.reqs.getLast hr]
        rwa [List.dropLast_concat_getLast] at this
    obtain ⟨h1, h2, _⟩ := fill_queue hq hf
    have hm := hi.max
    exact {
      wanted := by
        have := hi.wanted
        simp only [Storage.wanted, List.flatMap_append] at this ⊢
        rw [this]
        simp [wantedOf_eq, outOf_none, opened]
      reqs := by
        intro r hr
        rcases List.mem_append.1 hr with hr | hr
        · exact hi.reqs r hr
        · cases List.mem_singleton.1 hr
          trivial
      queue := by
        simp only [List.dropLast_concat]
        exact h1
      max := by
        show q.length ≤ queueMax
        omega
      rangeRead := hi.rangeRead
      eof := by simp [hi.eof]
      empty := by simp
      last := by
        intro p hp b hb
        simp only [List.getLast?_append, List.getLast?_singleton, Option.some_or, Option.mem_def, Option.some.injEq] at hp hb
        subst hp hb
        refine ⟨rfl, Iff.rfl, ?_⟩
        intro pl la h1 h2
        have h1 : a.limit = some pl := h1
        rw [h1] at h2
        cases h2
        rfl
      names := by
        intro r hr
        rcases List.mem_append.1 hr with hr | hr
        · obtain ⟨x, hx, he⟩ := hi.names r hr
          exact ⟨x, List.mem_append_left _ hx, he⟩
        · cases List.mem_singleton.1 hr
          exact ⟨a, by simp, rfl⟩
      keeps := by
        intro b hb
        rcases List.mem_append.1 hb with hb | hb
        · obtain ⟨r, hr, he⟩ := hi.keeps b hb
          exact ⟨r, List.mem_append_left _ hr, he⟩
        · cases List.mem_singleton.1 hb
          exact ⟨_, List.mem_append_right _ (List.mem_singleton.2 rfl), rfl⟩
      weights := by
        have := hi.weights
        simp only [weights_append, List.length_append, List.length_singleton]
        simp only [Storage.weights, List.map_cons, List.map_nil, List.sum_cons, List.sum_nil, weight] at this ⊢
        omega }

theorem addNew_error {files : Str → Option Str} {queueMax : Nat} {as : List Add} {st : St} {a : Add} {e : Err}
    (hi : AddInv files queueMax as st) (h : addNew files queueMax st a.file a.offset a.limit = .error e) :
    e = .fileMissing ∧ ∃ b ∈ as, files b.file = none := by
  unfold addNew queueMore at h
  simp only [if_true] at h
  cases hf : fill files queueMax ((st.reqs ++ [Req.mk a.file a.offset a.limit none]).dropLast.drop st.queue.length) st.queue with
  | ok q =>
    rw [hf] at h
    cases h
  | error e' =>
    rw [hf] at h
    cases h
    obtain ⟨h1, r, h2, h3⟩ := fill_error hf
    rw [List.dropLast_concat] at h2
    obtain ⟨b, h4, h5⟩ := hi.names r (List.mem_of_mem_drop h2)
    exact ⟨h1, b, h4, by rw [h5]; exact h3⟩

theorem addRange_length {p : Req} {pl offset l : Nat} (hp : ReqOk p) : weight ⟨p.file, p.offset, some (offset - p.offset + l), addRange p pl offset l⟩ ≤
    weight p + 1 := by
  unfold weight addRange
  simp only
  by_cases hne : offset ≠ p.offset + pl
  · rw [if_pos hne]
    cases hr : p.ranges with
    | none => simp
    | some rs => simp
  · rw [if_neg hne]
    cases hr : p.ranges with
    | none => simp
    | some rs =>
      unfold ReqOk at hp
      rw [hr] at hp
      obtain ⟨a, more, n, rfl, _⟩ := hp
      cases hl : (a :: more).getLast? with
      | none => simp only [hl]; simp
      | some x => simp only [hl]; simp

theorem add_step {files : Str → Option Str} {queueMax readOver : Nat} {as : List Add} {st : St} {a : Add}
    (hi : AddInv files queueMax as st) :
    match add files queueMax readOver st a.file a.offset a.limit with
    | .ok st' => AddInv files queueMax (as ++ [a]) st' ∧ ∀ b ∈ as.getLast?, Follows b a
    | .error e => (e = .assert ∧ ∃ b ∈ as.getLast?, ¬ Follows b a) ∨ (e = .fileMissing ∧ ∃ b ∈ as, files b.file = none) := by
  have hnew : (∀ b ∈ as.getLast?, Follows b a) →
      match addNew files queueMax st a.file a.offset a.limit with
      | .ok st' => AddInv files queueMax (as ++ [a]) st' ∧ ∀ b ∈ as.getLast?, Follows b a
      | .error e => (e = .assert ∧ ∃ b ∈ as.getLast?, ¬ Follows b a) ∨ (e = .fileMissing ∧ ∃ b ∈ as, files b.file = none) := by
    intro hf
    cases h : addNew files queueMax st a.file a.offset a.limit with
    | ok st' => exact ⟨addNew_ok hi h, hf⟩
    | error e => exact .inr (addNew_error hi h)
  unfold add
  cases hl : st.reqs.getLast? with
  | none =>
    have hr : st.reqs = [] := List.getLast?_eq_none_iff.1 hl
    have ha := hi.empty.1 hr
    subst ha
    exact hnew (by simp)
  | some p =>
    have hne : as ≠ [] := by
      intro h0
      have := hi.empty.2 h0
      rw [this] at hl
      cases hl
    have hbl : as.getLast? = some (as.getLast hne) := List.getLast?_eq_some_getLast hne
    obtain ⟨e1, e2, e3⟩ := hi.last p hl _ hbl
    simp only
    generalize as.getLast hne = b at hbl e1 e2 e3
    by_cases hpf : p.file = a.file
    · rw [if_pos hpf]
      have hbf : b.file = a.file := by rw [← e1]; exact hpf
      cases hpl : p.limit with
      | none =>
        refine .inl ⟨rfl, b, hbl, fun hf => ?_⟩
        obtain ⟨la, lb, h1, h2, h3⟩ := hf hbf
        rw [e2.1 hpl] at h1
        cases h1
      | some pl =>
        cases hal : a.limit with
        | none =>
          refine .inl ⟨rfl, b, hbl, fun hf => ?_⟩
          obtain ⟨la, lb, h1, h2, h3⟩ := hf hbf
          rw [hal] at h2
          cases h2
        | some l =>
          obtain ⟨bl, hbll⟩ : ∃ bl, b.limit = some bl := by
            cases hb : b.limit with
            | none =>
              rw [e2.2 hb] at hpl
              cases hpl
            | some bl => exact ⟨bl, rfl⟩
          have hend := e3 pl bl hpl hbll
          simp only
          by_cases hlt : a.offset < p.offset + pl
          · rw [if_pos hlt]
            refine .inl ⟨rfl, b, hbl, fun hf => ?_⟩
            obtain ⟨la, lb, h1, h2, h3⟩ := hf hbf
            rw [hbll] at h1
            cases h1
            omega
          · rw [if_neg hlt]
            have hfo : ∀ b' ∈ as.getLast?, Follows b' a := by
              intro b' hb'
              rw [hbl] at hb'
              cases hb'
              exact fun _ => ⟨bl, l, hbll, hal, by omega⟩
            by_cases hov : a.offset - (p.offset + pl) ≤ readOver
            · rw [if_pos hov]
              refine ⟨?_, hfo⟩
              have hrne : st.reqs ≠ [] := by
                intro h0
                rw [h0] at hl
                cases hl
              have hsplit : st.reqs = st.reqs.dropLast ++ [p] := by
                have h1 := List.dropLast_concat_getLast hrne
                have h2 : st.reqs.getLast hrne = p := by
                  rw [List.getLast?_eq_some_getLast hrne] at hl
                  exact Option.some.inj hl
                rw [h2] at h1
                exact h1.symm
              have hpok : ReqOk p := hi.reqs p (by rw [hsplit]; simp)
              obtain ⟨c1, c2⟩ := combined (files := files) (l := l) hpok hpl (show p.offset + pl ≤ a.offset by omega)
              exact {
                wanted := by
                  have hw := hi.wanted
                  rw [hsplit] at hw
                  simp only [Storage.wanted, List.flatMap_append, List.flatMap_cons, List.flatMap_nil, List.append_nil] at hw ⊢
                  rw [hw, c2]
                  simp [wantedOf_eq, hal, hpf]
                reqs := by
                  intro r hr
                  rcases List.mem_append.1 hr with hr | hr
                  · exact hi.reqs r (List.dropLast_subset _ hr)
                  · cases List.mem_singleton.1 hr
                    exact c1
                queue := by
                  simp only [List.dropLast_concat]
                  exact hi.queue
                max := hi.max
                rangeRead := hi.rangeRead
                eof := hi.eof
                empty := by simp
                last := by
                  intro x hx y hy
                  simp only [List.getLast?_append, List.getLast?_singleton, Option.some_or, Option.mem_def, Option.some.injEq] at hx hy
                  subst hx hy
                  refine ⟨hpf, by simp [hal], ?_⟩
                  intro pl' la' h1 h2
                  cases h1
                  rw [hal] at h2
                  cases h2
                  show p.offset + (a.offset - p.offset + l) = a.offset + l
                  omega
                names := by
                  intro r hr
                  rcases List.mem_append.1 hr with hr | hr
                  · obtain ⟨x, hx, he⟩ := hi.names r (List.dropLast_subset _ hr)
                    exact ⟨x, List.mem_append_left _ hx, he⟩
                  · cases List.mem_singleton.1 hr
                    exact ⟨a, by simp, hpf.symm⟩
                keeps := by
                  intro b' hb'
                  rcases List.mem_append.1 hb' with hb' | hb'
                  · obtain ⟨r, hr, he⟩ := hi.keeps b' hb'
                    rw [hsplit] at hr
                    rcases List.mem_append.1 hr with hr | hr
                    · exact ⟨r, List.mem_append_left _ hr, he⟩
                    · cases List.mem_singleton.1 hr
                      exact ⟨_, List.mem_append_right _ (List.mem_singleton.2 rfl), he⟩
                  · cases List.mem_singleton.1 hb'
                    exact ⟨_, List.mem_append_right _ (List.mem_singleton.2 rfl), hpf⟩
                weights := by
                  have hw := hi.weights
                  rw [hsplit] at hw
                  have := addRange_length (pl := pl) (offset := a.offset) (l := l) hpok
                  simp only [weights_append, List.length_append, List.length_singleton] at hw ⊢
                  simp only [Storage.weights, List.map_cons, List.map_nil, List.sum_cons, List.sum_nil] at hw ⊢
                  omega }
            · rw [if_neg hov, ← hal]
              exact hnew hfo
    · rw [if_neg hpf]
      refine hnew fun b' hb' => ?_
      rw [hbl] at hb'
      cases hb'
      intro hf
      exact absurd (e1.trans hf) hpf

theorem Ordered.snoc : ∀ {as : List Add} {a : Add}, Ordered (as ++ [a]) ↔ Ordered as ∧ ∀ b ∈ as.getLast?, Follows b a
  | [], a => by simp [Ordered]
  | [b], a => by simp [Ordered]
  | b :: c :: as, a => by
    have := Ordered.snoc (as := c :: as) (a := a)
    simp only [List.cons_append, Ordered] at this ⊢
    rw [this]
    simp [and_assoc]

theorem Ordered.prefix : ∀ {as more : List Add}, Ordered (as ++ more) → Ordered as
  | [], _, _ => trivial
  | [_], _, _ => trivial
  | _ :: b :: as, more, h => ⟨h.1, Ordered.prefix (as := b :: as) h.2⟩

theorem addAll_step {files : Str → Option Str} {queueMax readOver : Nat} : ∀ {todo as : List Add} {st : St}, AddInv files queueMax as st → Ordered as →
    match addAll files queueMax readOver st todo with
    | .ok st' => AddInv files queueMax (as ++ todo) st' ∧ Ordered (as ++ todo)
    | .error e => (e = .assert ∧ ¬ Ordered (as ++ todo)) ∨ (e = .fileMissing ∧ ∃ b ∈ as ++ todo, files b.file = none)
  | [], as, st, hi, ho => by simpa [addAll] using ⟨hi, ho⟩
  | a :: todo, as, st, hi, ho => by
    have h1 := add_step (readOver := readOver) (a := a) hi
    unfold addAll
    cases h : add files queueMax readOver st a.file a.offset a.limit with
    | error e =>
      rw [h] at h1
      simp only at h1 ⊢
      rcases h1 with ⟨h1, b, hb, hf⟩ | ⟨h1, b, hb, hf⟩
      · refine .inl ⟨h1, fun hc => ?_⟩
        have : as ++ a :: todo = (as ++ [a]) ++ todo := by simp
        rw [this] at hc
        exact hf ((Ordered.snoc.1 (Ordered.prefix hc)).2 b hb)
      · exact .inr ⟨h1, b, List.mem_append_left _ hb, hf⟩
    | ok st' =>
      rw [h] at h1
      simp only at h1 ⊢
      have := addAll_step (readOver := readOver) (todo := todo) h1.1 (Ordered.snoc.2 ⟨ho, h1.2⟩)
      simpa using this

/-! ## Reading -/

/-- While reading: `w` is what remains to be delivered. -/
structure ReadInv (files : Str → Option Str) (queueMax : Nat) (as : List Add) (st : St) (w : Str) : Prop where
  data : st.eof = false → ∃ r rs s q, st.reqs = r :: rs ∧ st.queue = s :: q ∧ QueueOk files rs q ∧ (∀ x ∈ rs, ReqOk x) ∧
    (r.ranges ≠ some [] ∧ (files r.file).isSome = true) ∧ w = pick s (r.ranges.getD []) st.rangeRead ++ rs.flatMap (outOf files)
  done : st.eof = true → st.reqs = [] ∧ st.queue = [] ∧ w = []
  names : ∀ r ∈ st.reqs, ∃ a ∈ as, a.file = r.file
  keeps : ∀ a ∈ as, files a.file = none → ∃ r ∈ st.reqs, r.file = a.file
  max : st.queue.length ≤ queueMax

theorem queueMore_step {files : Str → Option Str} {queueMax : Nat} {as : List Add} {st : St} (hm : 0 < queueMax)
    (hq : QueueOk files st.reqs st.queue) (hok : ∀ x ∈ st.reqs, ReqOk x) (hn : ∀ r ∈ st.reqs, ∃ a ∈ as, a.file = r.file)
    (hk : ∀ a ∈ as, files a.file = none → ∃ r ∈ st.reqs, r.file = a.file) (hmax : st.queue.length ≤ queueMax) (hr : st.rangeRead = 0) (he : st.eof = false) :
    match queueMore files queueMax false st with
    | .ok st' => st'.reqs = st.reqs ∧ ReadInv files queueMax as st' (st.reqs.flatMap (outOf files))
    | .error e => e = .fileMissing ∧ ∃ b ∈ as, files b.file = none := by
  unfold queueMore
  simp only [Bool.false_eq_true, if_false]
  cases hf : fill files queueMax (st.reqs.drop st.queue.length) st.queue with
  | error e =>
    obtain ⟨h1, r, h2, h3⟩ := fill_error hf
    obtain ⟨b, h4, h5⟩ := hn r (List.mem_of_mem_drop h2)
    exact ⟨h1, b, h4, by rw [h5]; exact h3⟩
  | ok q' =>
    obtain ⟨h1, h2, h3⟩ := fill_queue hq hf
    simp only [he, Bool.false_or, Bool.not_false, Bool.and_true, true_and]
    cases hrs : st.reqs with
    | nil =>
      rw [hrs] at h1
      have hq0 : q' = [] := by
        have := h1.1
        cases q' with
        | nil => rfl
        | cons a b => simp at this
      subst hq0
      exact {
        data := by simp
        done := fun _ => ⟨rfl, rfl, rfl⟩
        names := by simp
        keeps := by
          rw [← hrs]
          exact hk
        max := by simp }
    | cons r rs =>
      have hne : q' ≠ [] := by
        rw [hrs] at h3 hq
        have hlen : q'.length ≥ st.queue.length := by
          obtain ⟨k, _, h, _⟩ := fill_ok hf
          rw [h]
          simp
        by_cases h0 : st.queue = []
        · rcases h3 (by simp [h0]) (by simp [h0]; exact hm) with h | h
          · exact absurd h0 h
          · exact h
        · intro h
          rw [h] at hlen
          cases hs : st.queue with
          | nil => exact h0 hs
          | cons x y =>
            rw [hs] at hlen
            simp at hlen
      cases q' with
      | nil => exact absurd rfl hne
      | cons s q =>
        rw [hrs] at h1
        obtain ⟨a1, a2, a3⟩ := h1
        simp only [List.length_cons, List.take_succ_cons, List.map_cons, List.cons.injEq] at a1 a2 a3
        have hreq : ReqOk r := hok r (by rw [hrs]; simp)
        exact {
          data := fun _ => ⟨r, rs, s, q, rfl, rfl, ⟨by omega, a2.2, fun x hx => a3 x (List.mem_cons_of_mem _ hx)⟩,
            fun x hx => hok x (by rw [hrs]; exact List.mem_cons_of_mem _ hx), (by
              intro h0
              unfold ReqOk at hreq
              rw [h0] at hreq
              obtain ⟨_, _, _, h, _⟩ := hreq
              cases h) |> fun h => ⟨h, a3 r (by simp)⟩, by
              show (r :: rs).flatMap (outOf files) = pick s (r.ranges.getD []) st.rangeRead ++ rs.flatMap (outOf files)
              rw [List.flatMap_cons, a2.1, hr]
              rfl⟩
          done := by simp
          names := by
            rw [← hrs]
            exact hn
          keeps := by
            rw [← hrs]
            exact hk
          max := by
            show (s :: q).length ≤ queueMax
            omega }

/-- The ranges of a request that are still to be read, of all requests. -/
def size (st : St) (w : Str) : Nat := w.length + weights st.reqs

theorem pick_take : ∀ (l : List Range) (s : Str) (rr n : Nat), (∀ a b more, l = a :: b :: more → n ≤ a.limit - rr) →
    pick s l rr = s.take n ++ pick (s.drop n) l (rr + (s.take n).length)
  | [], s, rr, n, _ => (List.take_append_drop n s).symm
  | [_], s, rr, n, _ => (List.take_append_drop n s).symm
  | a :: b :: more, s, rr, n, h => by
    have hn := h a b more rfl
    rw [pick, pick]
    by_cases hs : n ≤ s.length
    · have hl : (s.take n).length = n := by rw [List.length_take]; omega
      rw [hl, List.drop_drop, ← List.append_assoc]
      congr 1
      · have : a.limit - rr = n + (a.limit - (rr + n)) := by omega
        rw [this, List.take_add]
      · congr 2
        omega
    · have h1 : s.drop n = [] := List.drop_eq_nil_of_le (by omega)
      have h2 : s.take n = s := List.take_of_length_le (by omega)
      rw [h1, h2]
      have h3 : s.take (a.limit - rr) = s := List.take_of_length_le (by omega)
      rw [h3, List.drop_eq_nil_of_le (show s.length ≤ a.limit - rr + (b.offset - (a.offset + a.limit)) by omega)]
      simp [pick_nil]

theorem advance_pick (r : Req) (rr : Nat) (s : Str) :
    pick (advance r rr s).1 ((advance r rr s).2.1.ranges.getD []) (advance r rr s).2.2 = pick s (r.ranges.getD []) rr ∧
    (r.ranges ≠ some [] → (advance r rr s).2.1.ranges ≠ some []) ∧ weight (advance r rr s).2.1 ≤ weight r ∧
    (advance r rr s).2.1.file = r.file := by
  unfold advance
  cases hr : r.ranges with
  | none =>
    refine ⟨?_, fun _ => by simp [hr], Nat.le_refl _, rfl⟩
    simp [hr, pick]
  | some l =>
    match l with
    | [] => exact ⟨by simp [hr], fun h => by simp [hr] at h ⊢, Nat.le_refl _, rfl⟩
    | [a] => exact ⟨by simp [hr], fun h => by simp [hr], Nat.le_refl _, rfl⟩
    | a :: b :: more =>
      simp only
      by_cases h : a.limit - rr = 0
      · rw [if_pos h]
        refine ⟨?_, by simp, by simp [weight, hr], rfl⟩
        simp only [Option.getD_some]
        rw [pick, h]
        simp
      · rw [if_neg h]
        exact ⟨by simp [hr], by simp [hr], Nat.le_refl _, rfl⟩

theorem read_step {files : Str → Option Str} {queueMax : Nat} {as : List Add} {st : St} {w : Str} {cap : Nat} {known : Bool} (hm : 0 < queueMax)
    (hi : ReadInv files queueMax as st w) (he : st.eof = false) :
    match read files queueMax st cap known with
    | .ok (out, st') => out.length ≤ cap ∧ ∃ w', w = out ++ w' ∧ ReadInv files queueMax as st' w' ∧ size st' w' ≤ size st w ∧
      (0 < cap → size st' w' < size st w)
    | .error e => e = .fileMissing ∧ ∃ b ∈ as, files b.file = none := by
  obtain ⟨r, rs, s, q, hr, hq, hqo, hok, ⟨hne, hsome⟩, hw⟩ := hi.data he
  unfold read
  rw [hr, hq]
  simp only
  generalize hn : space r st.rangeRead cap = n
  have hspace : ∀ a b more, r.ranges.getD [] = a :: b :: more → n ≤ a.limit - st.rangeRead := by
    intro a b more h
    cases hrr : r.ranges with
    | none =>
      rw [hrr] at h
      cases h
    | some l =>
      rw [hrr] at h
      have h : l = a :: b :: more := h
      subst h
      rw [← hn]
      unfold space
      rw [hrr]
      simp only
      omega
  have hcap : n ≤ cap := by
    rw [← hn]
    unfold space
    split <;> omega
  have h1 := pick_take (r.ranges.getD []) s st.rangeRead n hspace
  obtain ⟨h2, h3, h4, h5⟩ := advance_pick r (st.rangeRead + (s.take n).length) (s.drop n)
  have hprog : 0 < cap → (s.take n = [] → (advance r (st.rangeRead + (s.take n).length) (s.drop n)).1 = [] ∧ (s.take n).length < n ∨
      weight (advance r (st.rangeRead + (s.take n).length) (s.drop n)).2.1 < weight r) := by
    intro hc h0
    by_cases hn0 : n = 0
    · right
      have : ∃ a b more, r.ranges = some (a :: b :: more) ∧ a.limit - st.rangeRead = 0 := by
        rw [← hn] at hn0
        unfold space at hn0
        split at hn0
        · rename_i a b more hx
          exact ⟨a, b, more, hx, by omega⟩
        · omega
      obtain ⟨a, b, more, ha, hb⟩ := this
      unfold advance
      rw [ha]
      simp only
      rw [if_pos (by omega)]
      simp [weight, ha]
    · left
      have hs : s = [] := by
        cases s with
        | nil => rfl
        | cons x y =>
          cases n with
          | zero => exact absurd rfl hn0
          | succ n => cases h0
      subst hs
      refine ⟨?_, by simp; omega⟩
      unfold advance
      split
      · split <;> simp
      · simp
      · simp
  generalize advance r (st.rangeRead + (s.take n).length) (s.drop n) = next at *
  have hout : (s.take n).length ≤ cap := by
    rw [List.length_take]
    omega
  by_cases hc : next.1 = [] ∧ (known = true ∨ (s.take n).length < n)
  · rw [if_pos hc]
    have hkey := queueMore_step (files := files) (queueMax := queueMax) (as := as)
      (st := { st with reqs := rs, queue := q, rangeRead := 0 }) hm hqo hok
      (fun x hx => hi.names x (by rw [hr]; exact List.mem_cons_of_mem _ hx))
      (by
        intro a ha hnone
        obtain ⟨x, hx, hxe⟩ := hi.keeps a ha hnone
        rw [hr] at hx
        rcases List.mem_cons.1 hx with rfl | hx
        · rw [hxe, hnone] at hsome
          cases hsome
        · exact ⟨x, hx, hxe⟩)
      (by
        have := hi.max
        rw [hq] at this
        simp only [List.length_cons] at this
        show q.length ≤ queueMax
        omega) rfl he
    cases hqm : queueMore files queueMax false { st with reqs := rs, queue := q, rangeRead := 0 } with
    | error e =>
      rw [hqm] at hkey
      exact hkey
    | ok st' =>
      rw [hqm] at hkey
      simp only at hkey ⊢
      have hw' : w = s.take n ++ rs.flatMap (outOf files) := by
        rw [hw, h1, ← h2, hc.1, pick_nil, List.append_nil]
      have hwt : 0 < weight r := by
        unfold weight
        split
        · omega
        · rename_i l hl
          cases l with
          | nil => exact absurd hl hne
          | cons => simp
      have hsz : size st' (rs.flatMap (outOf files)) < size st w := by
        unfold size
        rw [hkey.1, hr, hw', List.length_append]
        simp only [weights, List.map_cons, List.sum_cons]
        omega
      exact ⟨hout, _, hw', hkey.2, Nat.le_of_lt hsz, fun _ => hsz⟩
  · rw [if_neg hc]
    simp only
    have hw' : w = s.take n ++ (pick next.1 (next.2.1.ranges.getD []) next.2.2 ++ rs.flatMap (outOf files)) := by
      rw [hw, h1, h2, List.append_assoc]
    refine ⟨hout, _, hw', ?_, ?_, ?_⟩
    · exact {
        data := fun _ => ⟨next.2.1, rs, next.1, q, rfl, rfl, hqo, hok, ⟨h3 hne, by rw [h5]; exact hsome⟩, rfl⟩
        done := by
          intro h
          rw [he] at h
          cases h
        names := by
          intro x hx
          rcases List.mem_cons.1 hx with rfl | hx
          · rw [h5]
            exact hi.names r (by rw [hr]; simp)
          · exact hi.names x (by rw [hr]; exact List.mem_cons_of_mem _ hx)
        keeps := by
          intro a ha hnone
          obtain ⟨x, hx, hxe⟩ := hi.keeps a ha hnone
          rw [hr] at hx
          rcases List.mem_cons.1 hx with rfl | hx
          · rw [hxe, hnone] at hsome
            cases hsome
          · exact ⟨x, List.mem_cons_of_mem _ hx, hxe⟩
        max := by
          have := hi.max
          rw [hq] at this
          exact this }
    · unfold size
      rw [hr, hw']
      simp only [List.length_append, weights, List.map_cons, List.sum_cons]
      omega
    · intro hcap0
      unfold size
      rw [hr, hw']
      simp only [List.length_append, weights, List.map_cons, List.sum_cons]
      by_cases h0 : s.take n = []
      · rcases hprog hcap0 h0 with ⟨a, b⟩ | h
        · exact absurd ⟨a, .inr b⟩ hc
        · simp only [h0, List.length_nil]
          omega
      · have : 0 < (s.take n).length := List.length_pos_iff.2 h0
        omega

theorem readAll_step {files : Str → Option Str} {queueMax : Nat} {as : List Add} (hm : 0 < queueMax) : ∀ {calls : List (Nat × Bool)} {st : St} {w : Str},
    ReadInv files queueMax as st w →
    match readAll files queueMax st calls with
    | .ok (out, st') => ∃ w', w = out ++ w' ∧ ReadInv files queueMax as st' w' ∧
      ((∀ c ∈ calls, 0 < c.1) → size st w ≤ calls.length → st'.eof = true)
    | .error e => e = .fileMissing ∧ ∃ b ∈ as, files b.file = none
  | [], st, w, hi => by
    refine ⟨w, rfl, hi, fun _ h => ?_⟩
    cases he : st.eof with
    | true => rfl
    | false =>
      obtain ⟨r, rs, s, q, hr, hq, hqo, hok, ⟨hne, hsome⟩, hw⟩ := hi.data he
      have : 0 < weight r := by
        unfold weight
        split
        · omega
        · rename_i l hl
          cases l with
          | nil => exact absurd hl hne
          | cons => simp
      unfold size at h
      rw [hr] at h
      simp only [weights, List.map_cons, List.sum_cons, List.length_nil] at h
      omega
  | (cap, known) :: calls, st, w, hi => by
    unfold readAll
    cases he : st.eof with
    | true =>
      rw [if_pos rfl]
      exact ⟨w, rfl, hi, fun _ _ => he⟩
    | false =>
      rw [if_neg (by simp)]
      have h1 := read_step (cap := cap) (known := known) hm hi he
      cases hr : read files queueMax st cap known with
      | error e =>
        rw [hr] at h1
        exact h1
      | ok p =>
        obtain ⟨out, st1⟩ := p
        rw [hr] at h1
        obtain ⟨_, w1, hw1, hi1, hs1, hs2⟩ := h1
        have h2 := readAll_step hm (calls := calls) hi1
        simp only
        cases hra : readAll files queueMax st1 calls with
        | error e =>
          rw [hra] at h2
          exact h2
        | ok p2 =>
          obtain ⟨more, st2⟩ := p2
          rw [hra] at h2
          obtain ⟨w2, hw2, hi2, hs3⟩ := h2
          refine ⟨w2, by rw [hw1, hw2, List.append_assoc], hi2, fun hc hl => hs3 (fun c h => hc c (List.mem_cons_of_mem _ h)) ?_⟩
          have := hs2 (hc (cap, known) (by simp))
          simp only [List.length_cons] at hl
          omega

/-! ## The claims -/

theorem open_step {files : Str → Option Str} {queueMax readOver : Nat} {as : List Add} (hm : 0 < queueMax) :
    match openAll files queueMax readOver as with
    | .ok st => Ordered as ∧ ReadInv files queueMax as st (wanted files as) ∧ weights st.reqs ≤ as.length
    | .error e => (e = .assert ∧ ¬ Ordered as) ∨ (e = .fileMissing ∧ ∃ b ∈ as, files b.file = none) := by
  have h1 := addAll_step (readOver := readOver) (todo := as) (AddInv.start files queueMax) trivial
  unfold openAll
  cases h : addAll files queueMax readOver .new as with
  | error e =>
    rw [h] at h1
    simpa using h1
  | ok st =>
    rw [h] at h1
    simp only [List.nil_append] at h1 ⊢
    obtain ⟨hi, ho⟩ := h1
    have hq : QueueOk files st.reqs st.queue := by
      by_cases hr : st.reqs = []
      · have := hi.queue
        rw [hr] at this ⊢
        exact this
      · have := hi.queue.more [st.reqs.getLast hr]
        rwa [List.dropLast_concat_getLast] at this
    have h2 := queueMore_step hm hq hi.reqs hi.names (fun a ha _ => hi.keeps a ha) hi.max hi.rangeRead hi.eof
    cases hqm : queueMore files queueMax false st with
    | error e =>
      rw [hqm] at h2
      exact .inr h2
    | ok st' =>
      rw [hqm] at h2
      simp only at h2 ⊢
      refine ⟨ho, ?_, ?_⟩
      · rw [hi.wanted]
        exact h2.2
      · rw [h2.1]
        exact hi.weights

/-- Whatever the sizes of the buffers, the number of reads that are opened early and the size of gaps that are read over: what is read up to the
end are the parts that were added, in order and nothing else. Before the end it is the start of this. -/
theorem c60_data {files : Str → Option Str} {queueMax readOver : Nat} {as : List Add} {calls : List (Nat × Bool)} {st st' : St} {out : Str}
    (hm : 0 < queueMax) (h : openAll files queueMax readOver as = .ok st) (hr : readAll files queueMax st calls = .ok (out, st')) :
    out <+: wanted files as ∧ (st'.eof = true → out = wanted files as) := by
  have h1 := open_step (files := files) (readOver := readOver) (as := as) hm
  rw [h] at h1
  have h2 := readAll_step hm (calls := calls) h1.2.1
  rw [hr] at h2
  obtain ⟨w', h3, h4, _⟩ := h2
  refine ⟨⟨w', h3.symm⟩, fun he => ?_⟩
  rw [h3, (h4.done he).2.2, List.append_nil]

/-- Reading comes to the end: each call with space in the buffer delivers some bytes or finishes one of the parts. -/
theorem c60_end {files : Str → Option Str} {queueMax readOver : Nat} {as : List Add} {calls : List (Nat × Bool)} {st st' : St} {out : Str}
    (hm : 0 < queueMax) (h : openAll files queueMax readOver as = .ok st) (hr : readAll files queueMax st calls = .ok (out, st'))
    (hc : ∀ c ∈ calls, 0 < c.1) (hl : (wanted files as).length + as.length ≤ calls.length) : st'.eof = true := by
  have h1 := open_step (files := files) (readOver := readOver) (as := as) hm
  rw [h] at h1
  have h2 := readAll_step hm (calls := calls) h1.2.1
  rw [hr] at h2
  obtain ⟨w', h3, h4, h5⟩ := h2
  refine h5 hc ?_
  unfold size
  have := h1.2.2
  omega

/-- Files are accepted when each may follow the one before, and nothing else is an error while all the files exist. -/
theorem c60_accepts {files : Str → Option Str} {queueMax readOver : Nat} {as : List Add} (hm : 0 < queueMax)
    (hf : ∀ a ∈ as, (files a.file).isSome = true) (ho : Ordered as) (calls : List (Nat × Bool)) :
    ∃ st p, openAll files queueMax readOver as = .ok st ∧ readAll files queueMax st calls = .ok p := by
  have hno : ¬ ∃ b ∈ as, files b.file = none := by
    rintro ⟨b, hb, h⟩
    have := hf b hb
    rw [h] at this
    cases this
  have h1 := open_step (files := files) (readOver := readOver) (as := as) hm
  cases h : openAll files queueMax readOver as with
  | error e =>
    rw [h] at h1
    rcases h1 with ⟨_, h1⟩ | ⟨_, h1⟩
    · exact absurd ho h1
    · exact absurd h1 hno
  | ok st =>
    rw [h] at h1
    have h2 := readAll_step hm (calls := calls) h1.2.1
    cases hr : readAll files queueMax st calls with
    | error e =>
      rw [hr] at h2
      exact absurd h2.2 hno
    | ok p => exact ⟨st, p, rfl, hr⟩

/-- Files that may not follow the one before are never accepted, and a missing file is never read as empty. -/
theorem c60_rejects {files : Str → Option Str} {queueMax readOver : Nat} {as : List Add} (hm : 0 < queueMax) :
    (¬ Ordered as → ∃ e, openAll files queueMax readOver as = .error e ∧ (e = .assert ∨ e = .fileMissing)) ∧
    ((∃ a ∈ as, files a.file = none) → ∀ st calls out st', openAll files queueMax readOver as = .ok st →
      readAll files queueMax st calls = .ok (out, st') → st'.eof = false) := by
  refine ⟨fun hn => ?_, ?_⟩
  · have h1 := open_step (files := files) (readOver := readOver) (as := as) hm
    cases h : openAll files queueMax readOver as with
    | error e =>
      rw [h] at h1
      rcases h1 with ⟨h1, _⟩ | ⟨h1, _⟩
      · exact ⟨e, rfl, .inl h1⟩
      · exact ⟨e, rfl, .inr h1⟩
    | ok st =>
      rw [h] at h1
      exact absurd h1.1 hn
  · rintro ⟨a, ha, hn⟩ st calls out st' ho hr
    have h1 := open_step (files := files) (readOver := readOver) (as := as) hm
    rw [ho] at h1
    have h2 := readAll_step hm (calls := calls) h1.2.1
    rw [hr] at h2
    obtain ⟨w', h3, h4, _⟩ := h2
    cases he : st'.eof with
    | false => rfl
    | true =>
      obtain ⟨r, hr, _⟩ := h4.keeps a ha hn
      rw [(h4.done he).1] at hr
      cases hr

/-- There are never more reads open than allowed. -/
theorem c60_queue {files : Str → Option Str} {queueMax readOver : Nat} {as : List Add} {calls : List (Nat × Bool)} {st st' : St} {out : Str}
    (hm : 0 < queueMax) (h : openAll files queueMax readOver as = .ok st) (hr : readAll files queueMax st calls = .ok (out, st')) :
    st.queue.length ≤ queueMax ∧ st'.queue.length ≤ queueMax := by
  have h1 := open_step (files := files) (readOver := readOver) (as := as) hm
  rw [h] at h1
  have h2 := readAll_step hm (calls := calls) h1.2.1
  rw [hr] at h2
  obtain ⟨w', h3, h4, _⟩ := h2
  exact ⟨h1.2.1.max, h4.max⟩

/-! ## Examples -/

def exFiles : Str → Option Str := fun n => if n = [97] then some [1, 2, 3, 4, 5, 6, 7, 8] else if n = [98] then some [9, 10] else none

/-- Parts of the file `a` with a gap of one byte, next to each other, and after a larger gap; then the whole file `b`. -/
def exAdds : List Add := [⟨[97], 0, some 1⟩, ⟨[97], 2, some 2⟩, ⟨[97], 4, some 1⟩, ⟨[97], 7, some 5⟩, ⟨[98], 0, none⟩]

example : Ordered exAdds ∧ ∀ a ∈ exAdds, (exFiles a.file).isSome = true := by
  refine ⟨⟨?_, ?_, ?_, ?_, trivial⟩, by decide⟩
  · exact fun _ => ⟨1, 2, rfl, rfl, by decide⟩
  · exact fun _ => ⟨2, 1, rfl, rfl, by decide⟩
  · exact fun _ => ⟨1, 5, rfl, rfl, by decide⟩
  · intro h
    simp at h

example : wanted exFiles exAdds = [1, 3, 4, 5, 8, 9, 10] := by decide

/-- Two reads of the file `a` are used when gaps of one byte are read over. -/
example : (openAll exFiles 2 1 exAdds).toOption = some ⟨[⟨[97], 0, some 5, some [⟨0, 1⟩, ⟨2, 3⟩]⟩, ⟨[97], 7, some 5, none⟩, ⟨[98], 0, none, none⟩],
    [[1, 2, 3, 4, 5], [8]], 0, false⟩ := by decide +kernel

example : ((openAll exFiles 2 1 exAdds).toOption.bind fun st =>
    (readAll exFiles 2 st [(2, false), (2, false), (9, false), (4, true), (2, false), (1, false)]).toOption.map fun p => (p.1, p.2.eof)) =
    some ([1, 3, 4, 5, 8, 9, 10], true) := by decide +kernel

example : (openAll exFiles 2 1 [⟨[97], 4, some 2⟩, ⟨[97], 5, some 1⟩]).toOption = none := by decide +kernel

example : (openAll exFiles 2 1 [⟨[97], 4, some 2⟩, ⟨[99], 5, some 1⟩]).toOption = none := by decide +kernel

end Verif.Storage
