import Verif.Lst.Model

/-! # The list container is a sequence (C25) -/

namespace Verif.Lst

variable {α : Type}

/-! ## Specification: operations on a mathematical sequence -/

/-- The sequence, and whether a first item has been removed since the sequence was last empty of storage. -/
structure S (α : Type) where
  xs : List α
  front : Bool

/-- `xs` is in the order asked for. -/
def Sorted (cmp : α → α → Ordering) : Order → List α → Prop
  | .none, _ => True
  | .asc, xs => xs.Pairwise (fun a b => (cmp a b).isLE)
  | .desc, xs => xs.Pairwise (fun a b => (cmp b a).isLE)

/-- What an operation may do. -/
inductive SpecStep (cmp : α → α → Ordering) : S α → Op α → S α → Out α → Prop
  | add (s x) : SpecStep cmp s (.add x) ⟨s.xs ++ [x], s.front⟩ .unit
  | insert (s i x) : i ≤ s.xs.length → SpecStep cmp s (.insert i x) ⟨s.xs.take i ++ x :: s.xs.drop i, s.front⟩ .unit
  | removeIdx (s i) : i < s.xs.length → SpecStep cmp s (.removeIdx i) ⟨s.xs.eraseIdx i, s.front || i == 0⟩ .unit
  | remove (s x i y) : s.xs[i]? = some y → cmp x y = .eq →
      SpecStep cmp s (.remove x) ⟨s.xs.eraseIdx i, s.front || i == 0⟩ (.bool true)
  | removeNot (s x) : (∀ y ∈ s.xs, cmp x y ≠ .eq) → SpecStep cmp s (.remove x) s (.bool false)
  | removeLast (s) : s.xs ≠ [] → SpecStep cmp s .removeLast ⟨s.xs.dropLast, s.front || s.xs.length == 1⟩ .unit
  | removeLastErr (s) : s.xs = [] → SpecStep cmp s .removeLast s (.error .assert)
  | get (s i y) : s.xs[i]? = some y → SpecStep cmp s (.get i) s (.item y)
  | getErr (s i) : s.xs.length ≤ i → SpecStep cmp s (.get i) s (.error .assert)
  | getLast (s y) : s.xs.getLast? = some y → SpecStep cmp s .getLast s (.item y)
  | getLastErr (s) : s.xs = [] → SpecStep cmp s .getLast s (.error .assert)
  | find (s x i y) : s.xs[i]? = some y → cmp x y = .eq → SpecStep cmp s (.find x) s (.index (some i))
  | findNot (s x) : (∀ y ∈ s.xs, cmp x y ≠ .eq) → SpecStep cmp s (.find x) s (.index none)
  | sort (s o xs') : xs'.Perm s.xs → Sorted cmp o xs' → (o = .none → xs' = s.xs) → SpecStep cmp s (.sort o) ⟨xs', s.front⟩ .unit
  | clear (s) : SpecStep cmp s .clear ⟨[], false⟩ .unit

/-- What a program must respect: positions in range, and no `lstClear` after a first item was removed. -/
def Pre (s : S α) : Op α → Prop
  | .insert i _ => i ≤ s.xs.length
  | .removeIdx i => i < s.xs.length
  | .clear => s.front = false
  | _ => True

/-- A program that respects it, whatever the sequence does. -/
inductive Legal (cmp : α → α → Ordering) : S α → List (Op α) → Prop
  | nil (s) : Legal cmp s []
  | cons (s op ops) : Pre s op → (∀ s' out, SpecStep cmp s op s' out → Legal cmp s' ops) → Legal cmp s (op :: ops)

/-- Runs on a sequence. -/
inductive SpecRun (cmp : α → α → Ordering) : S α → List (Op α) → S α → List (Out α) → Prop
  | nil (s) : SpecRun cmp s [] s []
  | cons {s op s' out ops s'' outs} : SpecStep cmp s op s' out → SpecRun cmp s' ops s'' outs → SpecRun cmp s (op :: ops) s'' (out :: outs)

/-- What is assumed of `qsort`, for a comparator that is a total preorder. -/
def QSort (qsort : (α → α → Ordering) → List α → List α) : Prop :=
  ∀ (cmp : α → α → Ordering) (xs : List α), Std.TransCmp cmp → (qsort cmp xs).Perm xs ∧ (qsort cmp xs).Pairwise (fun a b => (cmp a b).isLE)

/-! ## Representation -/

/-- The list represents the sequence. -/
structure Rep (cmp : α → α → Ordering) (l : L α) (s : S α) : Prop where
  ex : ∃ a b, l.mem = a ++ s.xs.map some ++ b ∧ a.length = l.off
  size : l.size = s.xs.length
  front : s.front = false → l.off = 0
  sorted : Sorted cmp l.order s.xs

theorem sorted_nil (cmp : α → α → Ordering) (o : Order) : Sorted cmp o [] := by
  cases o
  · trivial
  · exact List.Pairwise.nil
  · exact List.Pairwise.nil

theorem sorted_sublist {cmp : α → α → Ordering} {o : Order} {xs ys : List α} (h : Sorted cmp o ys) (hs : xs.Sublist ys) :
    Sorted cmp o xs := by
  cases o
  · trivial
  · exact List.Pairwise.sublist hs h
  · exact List.Pairwise.sublist hs h

theorem rep_new (cmp : α → α → Ordering) (o : Order) : Rep cmp (new o : L α) ⟨[], false⟩ :=
  ⟨⟨[], [], rfl, rfl⟩, rfl, fun _ => rfl, sorted_nil cmp o⟩

theorem read_ok {cmp : α → α → Ordering} {l : L α} {s : S α} (h : Rep cmp l s) (i : Nat) (y : α) (hy : s.xs[i]? = some y) : read l i = .ok y := by
  obtain ⟨a, b, hm, ha⟩ := h.ex
  unfold read
  have hlt : i < s.xs.length := by
    rw [List.getElem?_eq_some_iff] at hy
    exact hy.1
  rw [hm, ← ha, List.append_assoc, List.getElem?_append_right (by omega), List.getElem?_append_left (by simp; omega)]
  simp [hy]

theorem get_ok {cmp : α → α → Ordering} {l : L α} {s : S α} (h : Rep cmp l s) (i : Nat) (y : α) (hy : s.xs[i]? = some y) : get l i = .ok y := by
  unfold get
  have hlt : i < s.xs.length := by
    rw [List.getElem?_eq_some_iff] at hy
    exact hy.1
  rw [if_neg (by rw [h.size]; omega), read_ok h i y hy]

theorem get_err {cmp : α → α → Ordering} {l : L α} {s : S α} (h : Rep cmp l s) (i : Nat) (hi : s.xs.length ≤ i) : get l i = .error .assert := by
  unfold get
  rw [if_pos (by rw [h.size]; omega)]

/-! ## Insert -/

theorem grow_ok {cmp : α → α → Ordering} {l : L α} {s : S α} (h : Rep cmp l s) :
    ∃ l', grow l = .ok l' ∧ Rep cmp l' s ∧ l'.off + l'.size < l'.mem.length := by
  obtain ⟨a, b, hm, ha⟩ := h.ex
  have hsize := h.size
  have hlen : l.mem.length = a.length + s.xs.length + b.length := by rw [hm]; simp; omega
  unfold grow
  by_cases h1 : l.size = l.mem.length
  · rw [if_pos h1]
    have ha0 : a = [] := List.eq_nil_of_length_eq_zero (by omega)
    have hb0 : b = [] := List.eq_nil_of_length_eq_zero (by omega)
    subst ha0 hb0
    by_cases h2 : l.mem = []
    · rw [if_pos h2]
      have hx : s.xs = [] := by
        rw [h2] at h1
        apply List.eq_nil_of_length_eq_zero
        rw [← hsize, h1]
        rfl
      refine ⟨_, rfl, ⟨⟨[], List.replicate 8 none, by simp [hx], rfl⟩, hsize, fun _ => rfl, h.sorted⟩, ?_⟩
      simp [hsize, hx]
    · rw [if_neg h2, if_neg (by rw [← ha]; simp)]
      refine ⟨_, rfl, ⟨⟨[], List.replicate l.mem.length none, by simp [hm], ha⟩, hsize, h.front, h.sorted⟩, ?_⟩
      have : l.mem.length ≠ 0 := by simpa using h2
      simp only [List.length_append, List.length_replicate]
      rw [← ha]
      simp only [List.length_nil]
      omega
  · rw [if_neg h1]
    by_cases h2 : l.off ≠ 0 ∧ l.size + l.off = l.mem.length
    · rw [if_pos h2]
      have hb0 : b = [] := List.eq_nil_of_length_eq_zero (by omega)
      subst hb0
      unfold memmove
      rw [if_pos (by constructor <;> omega)]
      refine ⟨_, rfl, ⟨⟨[], l.mem.drop (0 + l.size), ?_, rfl⟩, hsize, fun _ => rfl, h.sorted⟩, ?_⟩
      · dsimp only
        rw [List.take_zero, List.nil_append, List.nil_append]
        congr 1
        rw [hm, List.append_nil, ← ha, List.drop_left, List.take_of_length_le]
        simp; omega
      · dsimp only
        simp only [List.length_append, List.length_take, List.length_drop]
        omega
    · rw [if_neg h2]
      refine ⟨l, rfl, h, ?_⟩
      by_cases h3 : l.off = 0
      · omega
      · have : ¬ l.size + l.off = l.mem.length := fun h => h2 ⟨h3, h⟩
        omega

theorem insert_ok {cmp : α → α → Ordering} {l : L α} {s : S α} (h : Rep cmp l s) (i : Nat) (x : α) (hi : i ≤ s.xs.length) :
    ∃ l', insert l i x = .ok l' ∧ Rep cmp l' ⟨s.xs.take i ++ x :: s.xs.drop i, s.front⟩ := by
  unfold insert
  rw [if_pos (by rw [h.size]; exact hi)]
  obtain ⟨l1, hg, h1, hroom⟩ := grow_ok h
  rw [hg]
  dsimp only
  obtain ⟨a, b, hm, ha⟩ := h1.ex
  have hsize := h1.size
  have hlen : l1.mem.length = a.length + s.xs.length + b.length := by rw [hm]; simp; omega
  have hb : b ≠ [] := by
    intro hb
    subst hb
    simp at hlen
    omega
  obtain ⟨c, b', rfl⟩ : ∃ c b', b = c :: b' := by
    cases b with
    | nil => exact absurd rfl hb
    | cons c b' => exact ⟨c, b', rfl⟩
  have hlen' : l1.mem.length = a.length + s.xs.length + b'.length + 1 := by rw [hlen]; simp; omega
  -- split the sequence
  have hsplit : s.xs.map some = (s.xs.take i).map some ++ (s.xs.drop i).map some := by
    rw [← List.map_append, List.take_append_drop]
  unfold place
  have hmove : ∃ d, (if i ≠ l1.size then memmove l1.mem (l1.off + i + 1) (l1.off + i) (l1.size - i) else .ok l1.mem) =
      .ok (a ++ (s.xs.take i).map some ++ d :: ((s.xs.drop i).map some ++ b')) := by
    by_cases hne : i ≠ l1.size
    · rw [if_pos hne]
      unfold memmove
      rw [if_pos (by constructor <;> omega)]
      have hdrop : s.xs.drop i ≠ [] := by
        intro h0
        have := congrArg List.length h0
        simp at this
        omega
      obtain ⟨y, ys, hys⟩ : ∃ y ys, s.xs.drop i = y :: ys := by
        cases hd : s.xs.drop i with
        | nil => exact absurd hd hdrop
        | cons y ys => exact ⟨y, ys, rfl⟩
      refine ⟨some y, ?_⟩
      have hli : (s.xs.take i).length = i := by simp; omega
      have hmem : l1.mem = (a ++ (s.xs.take i).map some) ++ ((s.xs.drop i).map some ++ c :: b') := by
        rw [hm, hsplit]
        simp only [List.append_assoc]
      have hal : (a ++ (s.xs.take i).map some).length = l1.off + i := by simp; omega
      have e1 : l1.mem.take (l1.off + i + 1) = a ++ (s.xs.take i).map some ++ [some y] := by
        rw [hmem, hys, ← hal, List.take_length_add_append]
        simp
      have e2 : (l1.mem.drop (l1.off + i)).take (l1.size - i) = (s.xs.drop i).map some := by
        rw [hmem, ← hal, List.drop_left, List.take_append_of_le_length (by simp; omega), List.take_of_length_le (by simp; omega)]
      have e3 : l1.mem.drop (l1.off + i + 1 + (l1.size - i)) = b' := by
        rw [hmem]
        have : l1.off + i + 1 + (l1.size - i) = ((a ++ (s.xs.take i).map some) ++ ((s.xs.drop i).map some ++ [c])).length := by
          simp
          omega
        rw [this]
        have h4 : (a ++ (s.xs.take i).map some) ++ ((s.xs.drop i).map some ++ c :: b') =
            ((a ++ (s.xs.take i).map some) ++ ((s.xs.drop i).map some ++ [c])) ++ b' := by simp
        rw [h4, List.drop_left]
      rw [e1, e2, e3]
      simp
    · rw [if_neg hne]
      have hi' : i = s.xs.length := by omega
      refine ⟨c, ?_⟩
      rw [hm, hi']
      simp
  obtain ⟨d, hd⟩ := hmove
  rw [hd]
  dsimp only
  have hal : (a ++ (s.xs.take i).map some).length = l1.off + i := by simp; omega
  unfold store
  rw [if_pos (by rw [← hal]; simp)]
  refine ⟨_, rfl, ⟨a, b', ?_, ha⟩, ?_, h1.front, trivial⟩
  · dsimp only
    rw [← hal, List.set_append_right _ _ (Nat.le_refl _)]
    simp
  · dsimp only
    simp
    omega

/-! ## Remove -/

theorem removeIdx_ok {cmp : α → α → Ordering} {l : L α} {s : S α} (h : Rep cmp l s) (i : Nat) (hi : i < s.xs.length) :
    ∃ l', removeIdx l i = .ok l' ∧ Rep cmp l' ⟨s.xs.eraseIdx i, s.front || i == 0⟩ := by
  obtain ⟨a, b, hm, ha⟩ := h.ex
  have hsize := h.size
  have hlen : l.mem.length = a.length + s.xs.length + b.length := by rw [hm]; simp; omega
  unfold removeIdx
  rw [if_neg (by omega)]
  by_cases h0 : i = 0
  · rw [if_pos h0]
    subst h0
    cases hx : s.xs with
    | nil => rw [hx] at hi; cases hi
    | cons y ys =>
      refine ⟨_, rfl, ⟨a ++ [some y], b, ?_, ?_⟩, ?_, ?_, ?_⟩
      · simp [hm, hx]
      · simp [ha]
      · simp [hsize, hx]
      · simp
      · have := h.sorted
        rw [hx] at this
        exact sorted_sublist this (List.sublist_cons_self _ _)
  · rw [if_neg h0]
    unfold memmove
    rw [if_pos (by constructor <;> omega)]
    obtain ⟨y, ys, hys⟩ : ∃ y ys, s.xs.drop i = y :: ys := by
      cases hd : s.xs.drop i with
      | nil =>
        have := congrArg List.length hd
        simp at this
        omega
      | cons y ys => exact ⟨y, ys, rfl⟩
    have hxs : s.xs = s.xs.take i ++ y :: ys := by rw [← hys, List.take_append_drop]
    have hys' : ys.length = s.xs.length - i - 1 := by
      have := congrArg List.length hys
      simp at this
      omega
    have herase : s.xs.eraseIdx i = s.xs.take i ++ ys := by
      rw [List.eraseIdx_eq_take_drop_succ]
      congr 1
      rw [← List.tail_drop, hys]
      rfl
    have hli : (s.xs.take i).length = i := by simp; omega
    have hmem : l.mem = (a ++ (s.xs.take i).map some) ++ (some y :: (ys.map some ++ b)) := by
      rw [hm]
      conv => lhs; rw [hxs]
      simp
    have hal : (a ++ (s.xs.take i).map some).length = l.off + i := by simp; omega
    have e1 : l.mem.take (l.off + i) = a ++ (s.xs.take i).map some := by
      rw [hmem, ← hal, List.take_left]
    have e2 : (l.mem.drop (l.off + i + 1)).take (l.size - 1 - i) = ys.map some := by
      rw [← List.drop_drop, hmem, ← hal, List.drop_left]
      rw [List.drop_one, List.tail_cons, List.take_append_of_le_length (by simp; omega), List.take_of_length_le (by simp; omega)]
    rw [e1, e2]
    refine ⟨_, rfl, ⟨a, l.mem.drop (l.off + i + (l.size - 1 - i)), ?_, ha⟩, ?_, ?_, ?_⟩
    · rw [herase]
      simp
    · rw [herase]
      simp
      omega
    · intro hf
      simp at hf
      exact h.front hf.1
    · exact sorted_sublist h.sorted (List.eraseIdx_sublist _ _)

/-! ## Find -/

theorem bsearch_ok {cmp cmp' : α → α → Ordering} {l : L α} {s : S α} (h : Rep cmp l s) (x : α)
    (hs : s.xs.Pairwise (fun a b => (cmp' a b).isLE))
    (h1 : ∀ y z, cmp' x y = .lt → (cmp' y z).isLE → cmp' x z = .lt)
    (h2 : ∀ y z, cmp' x y = .gt → (cmp' z y).isLE → cmp' x z = .gt) (fuel lo hi : Nat) (hf : hi - lo ≤ fuel) (hhi : hi ≤ s.xs.length)
    (hlo : ∀ i y, i < lo → s.xs[i]? = some y → cmp' x y ≠ .eq) (hup : ∀ i y, hi ≤ i → s.xs[i]? = some y → cmp' x y ≠ .eq) :
    (∃ i y, bsearch cmp' l x fuel lo hi = .ok (some i) ∧ s.xs[i]? = some y ∧ cmp' x y = .eq) ∨
    (bsearch cmp' l x fuel lo hi = .ok none ∧ ∀ y ∈ s.xs, cmp' x y ≠ .eq) := by
  have hall : hi ≤ lo → ∀ y ∈ s.xs, cmp' x y ≠ .eq := by
    intro hle y hy
    obtain ⟨i, hi', rfl⟩ := List.mem_iff_getElem.1 hy
    by_cases hilo : i < lo
    · exact hlo i _ hilo (List.getElem?_eq_getElem hi')
    · exact hup i _ (by omega) (List.getElem?_eq_getElem hi')
  induction fuel generalizing lo hi with
  | zero => exact .inr ⟨rfl, hall (by omega)⟩
  | succ fuel ih =>
    rw [bsearch]
    by_cases hlt : lo < hi
    · rw [if_pos hlt]
      have hmid : (lo + hi) / 2 < s.xs.length := by omega
      have hget : s.xs[(lo + hi) / 2]? = some s.xs[(lo + hi) / 2] := List.getElem?_eq_getElem hmid
      rw [read_ok h _ _ hget]
      dsimp only
      have hpw := List.pairwise_iff_getElem.1 hs
      cases hc : cmp' x s.xs[(lo + hi) / 2] with
      | eq => exact .inl ⟨_, _, rfl, hget, hc⟩
      | lt =>
        dsimp only
        have hup' : ∀ i y, (lo + hi) / 2 ≤ i → s.xs[i]? = some y → cmp' x y ≠ .eq := by
          intro i y hi' hy
          obtain ⟨hl, rfl⟩ := List.getElem?_eq_some_iff.1 hy
          by_cases heq : i = (lo + hi) / 2
          · subst heq; rw [hc]; simp
          · rw [h1 _ _ hc (hpw _ _ hmid hl (by omega))]; simp
        refine ih lo ((lo + hi) / 2) (by omega) (by omega) hlo hup' ?_
        intro hle y hy
        obtain ⟨i, hi', rfl⟩ := List.mem_iff_getElem.1 hy
        by_cases hilo : i < lo
        · exact hlo i _ hilo (List.getElem?_eq_getElem hi')
        · exact hup' i _ (by omega) (List.getElem?_eq_getElem hi')
      | gt =>
        dsimp only
        have hlo' : ∀ i y, i < (lo + hi) / 2 + 1 → s.xs[i]? = some y → cmp' x y ≠ .eq := by
          intro i y hi' hy
          obtain ⟨hl, rfl⟩ := List.getElem?_eq_some_iff.1 hy
          by_cases heq : i = (lo + hi) / 2
          · subst heq; rw [hc]; simp
          · rw [h2 _ _ hc (hpw _ _ hl hmid (by omega))]; simp
        refine ih ((lo + hi) / 2 + 1) hi (by omega) hhi hlo' hup ?_
        intro hle y hy
        obtain ⟨i, hi', rfl⟩ := List.mem_iff_getElem.1 hy
        by_cases hilo : i < (lo + hi) / 2 + 1
        · exact hlo' i _ hilo (List.getElem?_eq_getElem hi')
        · exact hup i _ (by omega) (List.getElem?_eq_getElem hi')
    · rw [if_neg hlt]
      exact .inr ⟨rfl, hall (by omega)⟩

theorem linear_ok {cmp : α → α → Ordering} {l : L α} {s : S α} (h : Rep cmp l s) (x : α) (n i : Nat) (hn : i + n = s.xs.length)
    (hlo : ∀ j y, j < i → s.xs[j]? = some y → cmp x y ≠ .eq) :
    (∃ i' y, linear cmp l x n i = .ok (some i') ∧ s.xs[i']? = some y ∧ cmp x y = .eq) ∨
    (linear cmp l x n i = .ok none ∧ ∀ y ∈ s.xs, cmp x y ≠ .eq) := by
  induction n generalizing i with
  | zero =>
    refine .inr ⟨rfl, fun y hy => ?_⟩
    obtain ⟨j, hj, rfl⟩ := List.mem_iff_getElem.1 hy
    exact hlo j _ (by omega) (List.getElem?_eq_getElem hj)
  | succ n ih =>
    have hi : i < s.xs.length := by omega
    have hget : s.xs[i]? = some s.xs[i] := List.getElem?_eq_getElem hi
    rw [linear, get_ok h i _ hget]
    dsimp only
    by_cases hc : cmp x s.xs[i] = .eq
    · rw [if_pos hc]
      exact .inl ⟨i, _, rfl, hget, hc⟩
    · rw [if_neg hc]
      refine ih (i + 1) (by omega) (fun j y hj hy => ?_)
      by_cases heq : j = i
      · subst heq
        rw [hget] at hy
        cases hy
        exact hc
      · exact hlo j y (by omega) hy

theorem find_ok {cmp : α → α → Ordering} [Std.TransCmp cmp] {l : L α} {s : S α} (h : Rep cmp l s) (x : α) :
    (∃ i y, find cmp l x = .ok (some i) ∧ s.xs[i]? = some y ∧ cmp x y = .eq) ∨
    (find cmp l x = .ok none ∧ ∀ y ∈ s.xs, cmp x y ≠ .eq) := by
  unfold find
  by_cases hm : l.mem = []
  · rw [if_pos hm]
    obtain ⟨a, b, hmem, _⟩ := h.ex
    rw [hm] at hmem
    have hx : s.xs = [] := by
      have := congrArg List.length hmem
      simp at this
      exact List.eq_nil_of_length_eq_zero (by omega)
    refine .inr ⟨rfl, fun y hy => ?_⟩
    rw [hx] at hy
    cases hy
  · rw [if_neg hm]
    have hs := h.sorted
    cases ho : l.order with
    | none =>
      dsimp only
      rw [h.size]
      exact linear_ok h x _ 0 (by omega) (fun j y hj => by omega)
    | asc =>
      dsimp only
      rw [ho] at hs
      rw [h.size]
      refine bsearch_ok h x hs (fun y z h1 h2 => Std.TransCmp.lt_of_lt_of_isLE h1 h2) (fun y z h1 h2 => ?_) _ 0 _ (by omega) (Nat.le_refl _)
        (fun i y hi => by omega) (fun i y hi hy => ?_)
      · exact Std.TransCmp.gt_of_gt_of_isGE h1 (by rw [Std.OrientedCmp.isGE_iff_isLE]; exact h2)
      · rw [List.getElem?_eq_none hi] at hy
        cases hy
    | desc =>
      dsimp only
      rw [ho] at hs
      rw [h.size]
      have key := bsearch_ok (cmp' := fun a b => cmp b a) h x hs (fun y z h1 h2 => Std.TransCmp.lt_of_isLE_of_lt h2 h1) (fun y z h1 h2 => ?_) _ 0 _
        (Nat.le_refl _) (Nat.le_refl _) (fun i y hi => by omega) (fun i y hi hy => by rw [List.getElem?_eq_none hi] at hy; cases hy)
      · rcases key with ⟨i, y, h1, h2, h3⟩ | ⟨h1, h2⟩
        · exact .inl ⟨i, y, h1, h2, Std.OrientedCmp.eq_symm h3⟩
        · exact .inr ⟨h1, fun y hy he => h2 y hy (Std.OrientedCmp.eq_symm he)⟩
      · exact Std.TransCmp.gt_of_isGE_of_gt (by rw [Std.OrientedCmp.isGE_iff_isLE]; exact h2) h1

/-! ## Sort and clear -/

theorem items_ok {cmp : α → α → Ordering} {l : L α} {s : S α} (h : Rep cmp l s) (n i : Nat) (hn : i + n = s.xs.length) :
    items l n i = .ok (s.xs.drop i) := by
  induction n generalizing i with
  | zero =>
    rw [items, List.drop_of_length_le (by omega)]
  | succ n ih =>
    have hi : i < s.xs.length := by omega
    rw [items, read_ok h i _ (List.getElem?_eq_getElem hi)]
    dsimp only
    rw [ih (i + 1) (by omega)]
    dsimp only
    rw [← List.drop_eq_getElem_cons hi]

theorem transCmp_swap (cmp : α → α → Ordering) [Std.TransCmp cmp] : Std.TransCmp (fun a b => cmp b a) where
  eq_swap := by
    intro a b
    exact Std.OrientedCmp.eq_swap
  isLE_trans := by
    intro a b c h1 h2
    exact Std.TransCmp.isLE_trans h2 h1

theorem sort_ok {qsort : (α → α → Ordering) → List α → List α} (hq : QSort qsort) {cmp : α → α → Ordering} [Std.TransCmp cmp] {l : L α}
    {s : S α} (h : Rep cmp l s) (o : Order) :
    ∃ l' xs', sort qsort cmp l o = .ok l' ∧ xs'.Perm s.xs ∧ Sorted cmp o xs' ∧ (o = .none → xs' = s.xs) ∧ Rep cmp l' ⟨xs', s.front⟩ := by
  obtain ⟨a, b, hm, ha⟩ := h.ex
  unfold sort
  by_cases hnil : l.mem = []
  · rw [if_pos hnil]
    have hx : s.xs = [] := by
      have := congrArg List.length (hnil ▸ hm)
      simp at this
      exact List.eq_nil_of_length_eq_zero (by omega)
    refine ⟨_, s.xs, rfl, List.Perm.refl _, ?_, fun _ => rfl, ⟨a, b, hm, ha⟩, h.size, h.front, ?_⟩
    · rw [hx]; exact sorted_nil cmp o
    · dsimp only
      rw [hx]; exact sorted_nil cmp o
  · rw [if_neg hnil]
    have hput : ∀ (ys : List α) (o' : Order), ys.Perm s.xs → Sorted cmp o' ys →
        Rep cmp { l with mem := l.mem.take l.off ++ ys.map some ++ l.mem.drop (l.off + l.size), order := o' } ⟨ys, s.front⟩ := by
      intro ys o' hp hs
      refine ⟨⟨l.mem.take l.off, l.mem.drop (l.off + l.size), rfl, ?_⟩, ?_, h.front, hs⟩
      · rw [hm]
        simp
        omega
      · dsimp only
        rw [h.size, hp.length_eq]
    have hitems := items_ok h l.size 0 (by rw [h.size]; omega)
    cases o with
    | none =>
      exact ⟨_, s.xs, rfl, List.Perm.refl _, trivial, fun _ => rfl, ⟨a, b, hm, ha⟩, h.size, h.front, trivial⟩
    | asc =>
      dsimp only
      rw [hitems]
      dsimp only
      obtain ⟨h1, h2⟩ := hq cmp (s.xs.drop 0) inferInstance
      exact ⟨_, _, rfl, h1, h2, (fun h => by cases h), hput _ .asc h1 h2⟩
    | desc =>
      dsimp only
      rw [hitems]
      dsimp only
      obtain ⟨h1, h2⟩ := hq (fun a b => cmp b a) (s.xs.drop 0) (transCmp_swap cmp)
      exact ⟨_, _, rfl, h1, h2, (fun h => by cases h), hput _ .desc h1 h2⟩

theorem clear_ok {cmp : α → α → Ordering} {l : L α} {s : S α} (h : Rep cmp l s) (hf : s.front = false) :
    ∃ l', clear l = .ok l' ∧ Rep cmp l' ⟨[], false⟩ := by
  obtain ⟨a, b, hm, ha⟩ := h.ex
  have hoff := h.front hf
  unfold clear
  by_cases hnil : l.mem = []
  · rw [if_pos hnil]
    have hx : s.xs = [] := by
      have := congrArg List.length (hnil ▸ hm)
      simp at this
      exact List.eq_nil_of_length_eq_zero (by omega)
    refine ⟨l, rfl, ⟨a, b, ?_, ha⟩, ?_, fun _ => hoff, sorted_nil cmp _⟩
    · rw [hm, hx]
    · rw [h.size, hx]
  · rw [if_neg hnil, if_neg (by simp [hoff])]
    exact ⟨_, rfl, ⟨[], [], rfl, hoff.symm⟩, rfl, fun _ => hoff, sorted_nil cmp _⟩

/-! ## Theorems -/

/-- Each operation on the container is the operation on the sequence. -/
theorem c25_step {qsort : (α → α → Ordering) → List α → List α} (hq : QSort qsort) {cmp : α → α → Ordering} [Std.TransCmp cmp] {l : L α}
    {s : S α} (h : Rep cmp l s) (op : Op α) (hp : Pre s op) :
    ∃ s', SpecStep cmp s op s' (step qsort cmp l op).2 ∧ Rep cmp (step qsort cmp l op).1 s' := by
  cases op with
  | add x =>
    obtain ⟨l', hi, hr⟩ := insert_ok h s.xs.length x (Nat.le_refl _)
    have : add l x = .ok l' := by unfold add; rw [h.size, hi]
    rw [step, this]
    refine ⟨_, .add s x, ?_⟩
    simpa using hr
  | insert i x =>
    obtain ⟨l', hi, hr⟩ := insert_ok h i x hp
    rw [step, hi]
    exact ⟨_, .insert s i x hp, hr⟩
  | removeIdx i =>
    obtain ⟨l', hi, hr⟩ := removeIdx_ok h i hp
    rw [step, hi]
    exact ⟨_, .removeIdx s i hp, hr⟩
  | remove x =>
    rcases find_ok h x with ⟨i, y, hf, hy, hc⟩ | ⟨hf, hno⟩
    · obtain ⟨l', hi, hr⟩ := removeIdx_ok h i (List.getElem?_eq_some_iff.1 hy).1
      have : remove cmp l x = .ok (l', true) := by unfold remove; rw [hf]; dsimp only; rw [hi]
      rw [step, this]
      exact ⟨_, .remove s x i y hy hc, hr⟩
    · have : remove cmp l x = .ok (l, false) := by unfold remove; rw [hf]
      rw [step, this]
      exact ⟨s, .removeNot s x hno, h⟩
  | removeLast =>
    by_cases hx : s.xs = []
    · have : removeLast l = .error .assert := by
        unfold removeLast
        rw [if_pos (by rw [h.size, hx]; rfl)]
      rw [step, this]
      exact ⟨s, .removeLastErr s hx, h⟩
    · have hpos : 0 < s.xs.length := List.length_pos_iff.2 hx
      obtain ⟨l', hi, hr⟩ := removeIdx_ok h (s.xs.length - 1) (by omega)
      have : removeLast l = .ok l' := by
        unfold removeLast
        rw [if_neg (by rw [h.size]; omega), h.size, hi]
      rw [step, this]
      refine ⟨_, .removeLast s hx, ?_⟩
      rw [List.eraseIdx_length_sub_one] at hr
      have hb : (s.xs.length - 1 == 0) = (s.xs.length == 1) := by
        rw [Bool.eq_iff_iff]
        simp
        omega
      rw [hb] at hr
      exact hr
  | get i =>
    by_cases hi : i < s.xs.length
    · rw [step, get_ok h i _ (List.getElem?_eq_getElem hi)]
      exact ⟨s, .get s i _ (List.getElem?_eq_getElem hi), h⟩
    · rw [step, get_err h i (by omega)]
      exact ⟨s, .getErr s i (by omega), h⟩
  | getLast =>
    by_cases hx : s.xs = []
    · have : getLast l = .error .assert := by
        unfold getLast
        rw [if_pos (by rw [h.size, hx]; rfl)]
      rw [step, this]
      exact ⟨s, .getLastErr s hx, h⟩
    · have hpos : 0 < s.xs.length := List.length_pos_iff.2 hx
      have hy : s.xs[s.xs.length - 1]? = some (s.xs.getLast hx) := by
        rw [← List.getLast?_eq_getElem?, List.getLast?_eq_some_getLast hx]
      have : getLast l = .ok (s.xs.getLast hx) := by
        unfold getLast
        rw [if_neg (by rw [h.size]; omega), h.size, get_ok h _ _ hy]
      rw [step, this]
      exact ⟨s, .getLast s _ (List.getLast?_eq_some_getLast hx), h⟩
  | find x =>
    rcases find_ok h x with ⟨i, y, hf, hy, hc⟩ | ⟨hf, hno⟩
    · rw [step, hf]
      exact ⟨s, .find s x i y hy hc, h⟩
    · rw [step, hf]
      exact ⟨s, .findNot s x hno, h⟩
  | sort o =>
    obtain ⟨l', xs', hs, h1, h2, h3, hr⟩ := sort_ok hq h o
    rw [step, hs]
    exact ⟨_, .sort s o xs' h1 h2 h3, hr⟩
  | clear =>
    obtain ⟨l', hs, hr⟩ := clear_ok h hp
    rw [step, hs]
    exact ⟨_, .clear s, hr⟩

/-- Every program of any length that respects the preconditions sees a sequence. -/
theorem c25_run {qsort : (α → α → Ordering) → List α → List α} (hq : QSort qsort) {cmp : α → α → Ordering} [Std.TransCmp cmp] (o : Order)
    (ops : List (Op α)) (hl : Legal cmp ⟨[], false⟩ ops) :
    ∃ s', SpecRun cmp ⟨[], false⟩ ops s' (run qsort cmp (new o) ops).2 := by
  suffices ∀ (l : L α) (s : S α), Rep cmp l s → Legal cmp s ops → ∃ s', SpecRun cmp s ops s' (run qsort cmp l ops).2 from
    this _ _ (rep_new cmp o) hl
  clear hl
  induction ops with
  | nil => exact fun l s h _ => ⟨s, .nil s⟩
  | cons op ops ih =>
    intro l s h hl
    cases hl with
    | cons _ _ _ hp hn =>
      obtain ⟨s1, hs1, hr1⟩ := c25_step hq h op hp
      obtain ⟨s2, hs2⟩ := ih _ s1 hr1 (hn s1 _ hs1)
      exact ⟨s2, .cons hs1 hs2⟩

/-- No memory outside of the block, and no unwritten memory, is used. -/
theorem c25_memory {qsort : (α → α → Ordering) → List α → List α} (hq : QSort qsort) {cmp : α → α → Ordering} [Std.TransCmp cmp] (o : Order)
    (ops : List (Op α)) (hl : Legal cmp ⟨[], false⟩ ops) : Out.error .ub ∉ (run qsort cmp (new o) ops).2 := by
  obtain ⟨s', hr⟩ := c25_run hq o ops hl
  generalize (run qsort cmp (new o) ops).2 = outs at hr
  generalize (⟨[], false⟩ : S α) = s at hr
  intro hm
  clear hl
  induction hr with
  | nil => cases hm
  | cons h1 _ ih =>
    rcases List.mem_cons.1 hm with rfl | hm
    · cases h1
    · exact ih hm

/-- `lstClear` after the first item was removed frees a pointer that was not allocated: the precondition is needed. -/
theorem c25_clear_after_front (qsort : (Nat → Nat → Ordering) → List Nat → List Nat) :
    (run qsort compare (new .none) [.add 1, .add 2, .removeIdx 0, .clear]).2.getLast? = some (.error .ub) := by
  rfl

/-! ## Concrete cases -/

/-- There is a `qsort` as assumed. -/
theorem exists_qsort : ∃ qsort : (α → α → Ordering) → List α → List α, QSort qsort := by
  refine ⟨fun cmp xs => xs.mergeSort (fun a b => (cmp a b).isLE), fun cmp xs ht => ⟨List.mergeSort_perm _ _, ?_⟩⟩
  refine List.pairwise_mergeSort ?_ ?_ xs
  · intro a b c h1 h2
    exact Std.TransCmp.isLE_trans h1 h2
  · intro a b
    rw [Bool.or_eq_true]
    rw [← Std.OrientedCmp.isGE_iff_isLE (cmp := cmp) (a := a) (b := b)]
    cases cmp a b <;> simp

/-- Programs without insert, remove at a position and clear are legal; so is this one with the list shrinking from the front. -/
example : Legal compare ⟨[], false⟩ [.add 3, .add 1, .insert 1 (2 : Nat), .removeIdx 0, .sort .asc, .find 2, .removeLast] := by
  refine .cons _ _ _ trivial (fun _ _ h => ?_)
  cases h
  refine .cons _ _ _ trivial (fun _ _ h => ?_)
  cases h
  refine .cons _ _ _ (by simp [Pre]) (fun _ _ h => ?_)
  cases h
  refine .cons _ _ _ (by simp [Pre]) (fun _ _ h => ?_)
  cases h
  refine .cons _ _ _ trivial (fun _ _ h => ?_)
  refine .cons _ _ _ trivial (fun _ _ h => ?_)
  exact .cons _ _ _ trivial (fun _ _ h => .nil _)

/-- Ten items added, the first removed and two added: the list moves down in its block. -/
example : (run (fun _ xs => xs) compare (new .none) ((List.range 16).map Op.add ++ [.removeIdx 0, .add 16, .get 0, .get 15, .get 16])).2.drop 18 =
    [.item 1, .item 16, .error .assert] := by rfl

end Verif.Lst
