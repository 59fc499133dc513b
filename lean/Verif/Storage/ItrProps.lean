import Verif.Storage.ItrSpec

/-!
# C72: an iterator returns what is there, once and in order

Properties of src/storage/iterator.c.
-/

namespace Verif.Storage

variable {ι : Type} {P : Param ι}

/-! ## The iterator walks the tree -/

/-- What an entry contributes, given what is below it. -/
def item (P : Param ι) (below : Name → List (Entry ι)) (p : Option Name) (e : Entry ι) : List (Entry ι) :=
  let full := { e with name := join p e.name }
  let sub := if e.isPath && P.recurse then below full.name else []
  if P.sort = .desc then sub ++ [full] else full :: sub

/-- The entries below a path, down to a depth. -/
def walk (P : Param ι) : Nat → Option Name → List (Entry ι)
  | 0, _ => []
  | n + 1, p => (sortList P.sort ((P.list p).getD [])).flatMap (item P (fun q => walk P n (some q)) p)

theorem insertBy_perm {le : Entry ι → Entry ι → Bool} {x : Entry ι} : ∀ {l : List (Entry ι)}, (insertBy le x l).Perm (x :: l)
  | [] => .refl _
  | y :: ys => by
    unfold insertBy
    split
    · exact .refl _
    · exact (insertBy_perm.cons y).trans (.swap x y ys)

theorem sortBy_perm {le : Entry ι → Entry ι → Bool} : ∀ {l : List (Entry ι)}, (sortBy le l).Perm l
  | [] => .refl _
  | _ :: _ => insertBy_perm.trans (sortBy_perm.cons _)

theorem insertBy_pairwise {le : Entry ι → Entry ι → Bool} (ht : ∀ a b c, le a b = true → le b c = true → le a c = true)
    (hl : ∀ a b, (le a b || le b a) = true) {x : Entry ι} : ∀ {l : List (Entry ι)}, l.Pairwise (fun a b => le a b = true) →
    (insertBy le x l).Pairwise (fun a b => le a b = true)
  | [], _ => by simp [insertBy]
  | y :: ys, h => by
    unfold insertBy
    rw [List.pairwise_cons] at h
    split
    · rename_i hxy
      rw [List.pairwise_cons, List.pairwise_cons]
      refine ⟨fun z hz => ?_, h⟩
      rcases List.mem_cons.mp hz with rfl | hz
      · exact hxy
      · exact ht _ _ _ hxy (h.1 z hz)
    · rename_i hxy
      rw [List.pairwise_cons]
      refine ⟨fun z hz => ?_, insertBy_pairwise ht hl h.2⟩
      rcases List.mem_cons.mp (insertBy_perm.mem_iff.mp hz) with rfl | hz
      · have := hl z y
        simp only [Bool.or_eq_true] at this
        exact this.resolve_left hxy
      · exact h.1 z hz

theorem sortBy_pairwise {le : Entry ι → Entry ι → Bool} (ht : ∀ a b c, le a b = true → le b c = true → le a c = true)
    (hl : ∀ a b, (le a b || le b a) = true) : ∀ {l : List (Entry ι)}, (sortBy le l).Pairwise (fun a b => le a b = true)
  | [] => .nil
  | _ :: _ => insertBy_pairwise ht hl (sortBy_pairwise ht hl)

theorem mem_sortList {s : SortOrder} {l : List (Entry ι)} {e : Entry ι} : e ∈ sortList s l ↔ e ∈ l := by
  cases s <;> simp [sortList, sortBy_perm.mem_iff]

/-- Passes that go from one stack to another and find these entries. -/
inductive Runs (P : Param ι) : List (Frame ι) → List (Entry ι) → List (Frame ι) → Prop where
  | refl (S : List (Frame ι)) : Runs P S [] S
  | go {S S' S'' : List (Frame ι)} {l : List (Entry ι)} (h : step P S = .go S') (h2 : Runs P S' l S'') : Runs P S l S''
  | emit {S S' S'' : List (Frame ι)} {e : Entry ι} {l : List (Entry ι)} (h : step P S = .emit e S') (h2 : Runs P S' l S'') :
    Runs P S (e :: l) S''

theorem Runs.trans {S S' S'' : List (Frame ι)} {l l' : List (Entry ι)} (h : Runs P S l S') (h2 : Runs P S' l' S'') :
    Runs P S (l ++ l') S'' := by
  induction h with
  | refl => exact h2
  | go h _ ih => exact .go h (ih h2)
  | emit h _ ih => exact .emit h (ih h2)

theorem Lists.back {S S' : List (Frame ι)} {l : List (Entry ι)} (h : step P S = .go S') (hl : Lists P ⟨S', none⟩ l) :
    Lists P ⟨S, none⟩ l := by
  cases hl with
  | nil hm =>
    cases hm with
    | nothing hs => exact .nil (.nothing (.go h hs))
  | cons hm h2 =>
    cases hm with
    | found hs => exact .cons (.found (.go h hs)) h2

theorem Runs.lists {S S' : List (Frame ι)} {l : List (Entry ι)} (h : Runs P S l S') (hs : S' = []) : Lists P ⟨S, none⟩ l := by
  induction h with
  | refl S => subst hs; exact .nil (.nothing (.done rfl))
  | go h _ ih => exact (ih hs).back h
  | emit h _ ih => exact .cons (.found (.emit h)) (ih hs)

/-- The entries of a frame that are left. -/
theorem frame_runs : ∀ (n : Nat) (k : Nat) (f : Frame ι) (S : List (Frame ι)), f.list.length - f.idx = k → f.skip = false →
    (∀ e ∈ f.list, e.isPath = true → P.recurse = true → Spec.Shallow P n (some (join f.pathSub e.name))) →
    Runs P (f :: S) (((f.list.drop f.idx).flatMap (item P (fun q => walk P n (some q)) f.pathSub)).filter (matchP P)) S := by
  intro n
  induction n with
  | zero =>
    intro k
    induction k with
    | zero =>
      intro f S hk hsk hd
      have hg : f.list[f.idx]? = none := by simp; omega
      have : f.list.drop f.idx = [] := by simp; omega
      rw [this]
      exact .go (by simp [step, hg]) (.refl S)
    | succ k ih =>
      intro f S hk hsk hd
      have hlt : f.idx < f.list.length := by omega
      have hg : f.list[f.idx]? = some f.list[f.idx] := List.getElem?_eq_getElem hlt
      rw [List.drop_eq_getElem_cons hlt, List.flatMap_cons, List.filter_append]
      have hno : (f.list[f.idx].isPath && P.recurse) = false := by
        cases h1 : f.list[f.idx].isPath
        · rfl
        · cases h2 : P.recurse
          · rfl
          · exact (hd _ (List.getElem_mem hlt) h1 h2).elim
      have hi : item P (fun q => walk P 0 (some q)) f.pathSub f.list[f.idx] =
          [{ f.list[f.idx] with name := join f.pathSub f.list[f.idx].name }] := by
        simp [item, hno]
      rw [hi]
      have next := ih { f with skip := false, idx := f.idx + 1 } S (by simp only; omega) rfl hd
      cases hm : matchP P { f.list[f.idx] with name := join f.pathSub f.list[f.idx].name } with
      | false =>
        rw [List.filter_cons, hm]
        exact .go (by simp [step, hg, visit, hno, hm]) next
      | true =>
        rw [List.filter_cons, hm]
        exact .emit (by simp [step, hg, visit, hno, hm]) next
  | succ n ihn =>
    intro k
    induction k with
    | zero =>
      intro f S hk hsk hd
      have hg : f.list[f.idx]? = none := by simp; omega
      have : f.list.drop f.idx = [] := by simp; omega
      rw [this]
      exact .go (by simp [step, hg]) (.refl S)
    | succ k ih =>
      intro f S hk hsk hd
      have hlt : f.idx < f.list.length := by omega
      have hg : f.list[f.idx]? = some f.list[f.idx] := List.getElem?_eq_getElem hlt
      rw [List.drop_eq_getElem_cons hlt, List.flatMap_cons, List.filter_append]
      have next := ih { f with skip := false, idx := f.idx + 1 } S (by simp only; omega) rfl hd
      generalize hfull : ({ f.list[f.idx] with name := join f.pathSub f.list[f.idx].name } : Entry ι) = full at *
      have hst : step P (f :: S) = visit P f S full := by simp [step, hg, hfull]
      have hpath : f.list[f.idx].isPath = full.isPath := by rw [← hfull]
      have hname : join f.pathSub f.list[f.idx].name = full.name := by rw [← hfull]
      -- when there is nothing to go into
      have flat : ∀ (add : List (Frame ι) × Bool × Bool), add = ([], add.2.1, false) →
          (if (full.isPath && P.recurse && !f.skip) = true then pathAdd P [] (some full.name) else ([], false, false)) = add →
          item P (fun q => walk P (n + 1) (some q)) f.pathSub f.list[f.idx] = [full] →
          Runs P (f :: S) ((item P (fun q => walk P (n + 1) (some q)) f.pathSub f.list[f.idx]).filter (matchP P) ++
            ((f.list.drop (f.idx + 1)).flatMap (item P (fun q => walk P (n + 1) (some q)) f.pathSub)).filter (matchP P)) S := by
        intro add h1 h2 h3
        rw [h3]
        cases hm : matchP P full with
        | false =>
          rw [List.filter_cons, hm]
          refine .go (S' := { f with skip := false, idx := f.idx + 1 } :: S) ?_ next
          rw [hst]
          simp only [visit, h2, hm]
          rw [h1]
          rfl
        | true =>
          rw [List.filter_cons, hm]
          refine .emit (S' := { f with skip := false, idx := f.idx + 1 } :: S) ?_ next
          rw [hst]
          simp only [visit, h2, hm]
          rw [h1]
          rfl
      cases hpr : (full.isPath && P.recurse) with
      | false =>
        refine flat ([], false, false) rfl (by simp [hpr]) ?_
        simp only [item, hpath, hpr]
        rw [← hfull]
        simp
      | true =>
        simp only [Bool.and_eq_true] at hpr
        have hsh := hd _ (List.getElem_mem hlt) (hpath.trans hpr.1) hpr.2
        rw [hname] at hsh
        have hadd : (if (full.isPath && P.recurse && !f.skip) = true then pathAdd P [] (some full.name) else ([], false, false)) =
            pathAdd P [] (some full.name) := by simp [hpr, hsk]
        have hitem : item P (fun q => walk P (n + 1) (some q)) f.pathSub f.list[f.idx] =
            if P.sort = .desc then walk P (n + 1) (some full.name) ++ [full] else full :: walk P (n + 1) (some full.name) := by
          have h1 : item P (fun q => walk P (n + 1) (some q)) f.pathSub f.list[f.idx] =
              if P.sort = .desc then (if full.isPath && P.recurse then walk P (n + 1) (some full.name) else []) ++ [full]
              else full :: (if full.isPath && P.recurse then walk P (n + 1) (some full.name) else []) := by
            rw [← hfull]
            rfl
          rw [h1, hpr.1, hpr.2]
          rfl
        cases hl : P.list (some full.name) with
        | none =>
          refine flat ([], false, false) rfl ?_ ?_
          · rw [hadd]; simp [pathAdd, hl]
          · rw [hitem]
            have : walk P (n + 1) (some full.name) = [] := by
              simp only [walk, hl, Option.getD_none]
              cases P.sort <;> simp [sortList, sortBy]
            rw [this]
            simp
        | some l =>
          cases l with
          | nil =>
            refine flat ([], true, false) rfl ?_ ?_
            · rw [hadd]; simp [pathAdd, hl]
            · rw [hitem]
              have : walk P (n + 1) (some full.name) = [] := by
                simp only [walk, hl, Option.getD_some]
                cases P.sort <;> simp [sortList, sortBy]
              rw [this]
              simp
          | cons y ys =>
            -- the content is on the stack above this list
            have content : ∀ T, Runs P (⟨some full.name, sortList P.sort (y :: ys), 0, false⟩ :: T)
                ((walk P (n + 1) (some full.name)).filter (matchP P)) T := by
              intro T
              have := ihn _ ⟨some full.name, sortList P.sort (y :: ys), 0, false⟩ T rfl rfl (by
                intro e he h1 h2
                exact hsh _ hl e (mem_sortList.mp he) h1 h2)
              simpa [walk, hl] using this
            have hv : visit P f S full =
                if (!matchP P full) = true then
                  .go (⟨some full.name, sortList P.sort (y :: ys), 0, false⟩ :: { f with skip := false, idx := f.idx + 1 } :: S)
                else if (P.sort == .desc) = true then
                  .go (⟨some full.name, sortList P.sort (y :: ys), 0, false⟩ :: { f with skip := true } :: S)
                else
                  .emit full (⟨some full.name, sortList P.sort (y :: ys), 0, false⟩ :: { f with skip := false, idx := f.idx + 1 } :: S) := by
              simp only [visit, hadd]
              simp [pathAdd, hl]
            rw [hitem]
            cases hm : matchP P full with
            | false =>
              have : (if P.sort = .desc then walk P (n + 1) (some full.name) ++ [full]
                  else full :: walk P (n + 1) (some full.name)).filter (matchP P) =
                  (walk P (n + 1) (some full.name)).filter (matchP P) := by
                split <;> simp [hm]
              rw [this]
              refine .go (S' := ⟨some full.name, sortList P.sort (y :: ys), 0, false⟩ ::
                { f with skip := false, idx := f.idx + 1 } :: S) ?_ ((content _).trans next)
              rw [hst, hv, hm]
              rfl
            | true =>
              by_cases hdesc : P.sort = .desc
              · rw [if_pos hdesc, List.filter_append]
                have h1 : [full].filter (matchP P) = [full] := by simp [hm]
                rw [h1, List.append_assoc]
                refine .go (S' := ⟨some full.name, sortList P.sort (y :: ys), 0, false⟩ :: { f with skip := true } :: S) ?_
                  ((content _).trans ?_)
                · rw [hst, hv, hm, hdesc]
                  rfl
                · refine .emit (S' := { f with skip := false, idx := f.idx + 1 } :: S) ?_ next
                  have : step P ({ f with skip := true } :: S) = visit P { f with skip := true } S full := by
                    simp [step, hg, hfull]
                  rw [this]
                  simp [visit, hm]
              · rw [if_neg hdesc, List.filter_cons, hm]
                simp only [if_true, List.cons_append]
                refine .emit (S' := ⟨some full.name, sortList P.sort (y :: ys), 0, false⟩ ::
                  { f with skip := false, idx := f.idx + 1 } :: S) ?_ ((content _).trans next)
                rw [hst, hv, hm]
                have : (P.sort == SortOrder.desc) = false := by simp [hdesc]
                rw [this]
                rfl

theorem lists_walk {n : Nat} (hd : Spec.Shallow P (n + 1) none) {itr : Itr ι} {a b : Bool}
    (h : itrNew P a b = .ok (some itr)) : Lists P itr ((walk P (n + 1) none).filter (matchP P)) := by
  unfold itrNew pathAdd at h
  cases hl : P.list none with
  | none =>
    simp only [hl] at h
    have : walk P (n + 1) none = [] := by
      simp only [walk, hl, Option.getD_none]
      cases P.sort <;> simp [sortList, sortBy]
    rw [this]
    have hi : itr = ⟨[], none⟩ := by
      cases a <;> cases b <;> simp_all
    rw [hi]
    exact .nil (.nothing (.done rfl))
  | some l =>
    cases l with
    | nil =>
      simp only [hl, Except.ok.injEq, Option.some.injEq] at h
      subst h
      have : walk P (n + 1) none = [] := by
        simp only [walk, hl, Option.getD_some]
        cases P.sort <;> simp [sortList, sortBy]
      rw [this]
      exact .nil (.nothing (.done rfl))
    | cons y ys =>
      simp only [hl, Except.ok.injEq, Option.some.injEq] at h
      subst h
      have := frame_runs n _ ⟨none, sortList P.sort (y :: ys), 0, false⟩ [] rfl rfl (by
        intro e he h1 h2
        exact hd _ hl e (mem_sortList.mp he) h1 h2)
      have h2 := this.lists rfl
      simpa [walk, hl] using h2

/-! ## The search is a function -/

theorem Search.unique {S : List (Frame ι)} {r r' : Option (Entry ι × List (Frame ι))} (h : Search P S r) (h' : Search P S r') :
    r = r' := by
  induction h with
  | done h1 => cases h' <;> simp_all
  | emit h1 => cases h' <;> simp_all
  | go h1 _ ih =>
    cases h' with
    | done h2 => simp_all
    | emit h2 => simp_all
    | go h2 h3 =>
      rw [h1] at h2
      simp only [Step.go.injEq] at h2
      subst h2
      exact ih h3

theorem More.unique {i j j' : Itr ι} {b b' : Bool} (h : More P i b j) (h' : More P i b' j') : b = b' ∧ j = j' := by
  cases h with
  | again => cases h'; exact ⟨rfl, rfl⟩
  | found h1 =>
    cases h' with
    | found h2 =>
      have := h1.unique h2
      simp only [Option.some.injEq, Prod.mk.injEq] at this
      obtain ⟨rfl, rfl⟩ := this
      exact ⟨rfl, rfl⟩
    | nothing h2 => exact absurd (h1.unique h2) (by simp)
  | nothing h1 =>
    cases h' with
    | found h2 => exact absurd (h1.unique h2) (by simp)
    | nothing h2 => exact ⟨rfl, rfl⟩

theorem Lists.unique {i : Itr ι} {l l' : List (Entry ι)} (h : Lists P i l) (h' : Lists P i l') : l = l' := by
  induction h generalizing l' with
  | nil h1 =>
    cases h' with
    | nil => rfl
    | cons h2 _ => exact absurd (h1.unique h2).1 (by simp)
  | cons h1 _ ih =>
    cases h' with
    | nil h2 => exact absurd (h1.unique h2).1 (by simp)
    | cons h2 h3 =>
      have := (h1.unique h2).2
      simp only [Itr.mk.injEq, Option.some.injEq] at this
      obtain ⟨rfl, rfl⟩ := this
      rw [ih h3]

/-! ## What the walk contains -/

theorem mem_item {below : Name → List (Entry ι)} {p : Option Name} {e x : Entry ι} :
    x ∈ item P below p e ↔ x = { e with name := join p e.name } ∨
      ((e.isPath && P.recurse) = true ∧ x ∈ below (join p e.name)) := by
  unfold item
  cases h : (e.isPath && P.recurse) <;> by_cases hd : P.sort = .desc <;> simp [hd, or_comm]

theorem mem_walk : ∀ {n : Nat} {p : Option Name} {x : Entry ι}, Spec.Shallow P n p →
    (x ∈ walk P n p ↔ ∃ l e, P.list p = some l ∧ e ∈ l ∧ (x = { e with name := join p e.name } ∨
      (e.isPath = true ∧ P.recurse = true ∧ x ∈ walk P (n - 1) (some (join p e.name)))))
  | 0, _, _, h => h.elim
  | n + 1, p, x, h => by
    simp only [walk, List.mem_flatMap, mem_sortList, mem_item, Nat.add_sub_cancel, Bool.and_eq_true, and_assoc]
    cases hl : P.list p with
    | none => simp
    | some l => simp

theorem at_walk {x : Entry ι} : ∀ {n : Nat} {p : Option Name}, Spec.Shallow P n p → Spec.At P p → x ∈ walk P n p → Spec.There P x
  | 0, _, h, _, _ => h.elim
  | n + 1, p, h, ha, hx => by
    obtain ⟨l, e, hl, he, h1 | ⟨h1, h2, h3⟩⟩ := (mem_walk h).mp hx
    · exact ⟨p, l, e, ha, hl, he, h1⟩
    · exact at_walk (h l hl e he h1 h2) (.sub ha hl he h1 h2) h3

/-- What is at a path that is visited is in the walk from the root. -/
theorem walk_at {n : Nat} (h : Spec.Shallow P n none) {p : Option Name} (ha : Spec.At P p) :
    ∃ m, Spec.Shallow P m p ∧ ∀ x, x ∈ walk P m p → x ∈ walk P n none := by
  induction ha with
  | root => exact ⟨n, h, fun _ hx => hx⟩
  | sub _ hl he hp hr ih =>
    obtain ⟨m, h1, h2⟩ := ih
    cases m with
    | zero => exact h1.elim
    | succ m =>
      refine ⟨m, h1 _ hl _ he hp hr, fun x hx => h2 x ?_⟩
      exact (mem_walk h1).mpr ⟨_, _, hl, he, .inr ⟨hp, hr, hx⟩⟩

theorem walk_there {n : Nat} (h : Spec.Shallow P n none) {x : Entry ι} : x ∈ walk P n none ↔ Spec.There P x := by
  constructor
  · exact at_walk h .root
  · rintro ⟨p, l, e, ha, hl, he, rfl⟩
    obtain ⟨m, h1, h2⟩ := walk_at h ha
    exact h2 _ ((mem_walk h1).mpr ⟨l, e, hl, he, .inl rfl⟩)

theorem matchP_spec {x : Entry ι} : matchP P x = true ↔ Spec.Match P x := by
  unfold matchP Spec.Match
  cases P.regExp <;> simp

/-- Listing ends whenever paths are nested to a finite depth, and there is only one list that it can give: exactly the entries that
are there and match the expression, also those in paths that do not match. -/
theorem c72_complete (P : Param ι) (n : Nat) (hd : Spec.Shallow P n none) (itr : Itr ι) (a b : Bool)
    (h : itrNew P a b = .ok (some itr)) :
    ∃ out, Lists P itr out ∧ (∀ out', Lists P itr out' → out' = out) ∧
      ∀ x, x ∈ out ↔ Spec.There P x ∧ Spec.Match P x := by
  cases n with
  | zero => exact hd.elim
  | succ n =>
    refine ⟨_, lists_walk hd h, fun out' h' => h'.unique (lists_walk hd h), fun x => ?_⟩
    rw [List.mem_filter, walk_there hd, matchP_spec]

/-! ## Order -/

open Spec (parts ltPart ltParts)

theorem parts_ne_nil : ∀ n : Name, parts n ≠ []
  | [] => by simp [parts]
  | c :: cs => by
    unfold parts
    split
    · simp
    · split <;> simp

theorem parts_slash : ∀ (p n : Name), parts (p ++ '/' :: n) = parts p ++ parts n
  | [], n => by simp [parts]
  | c :: cs, n => by
    rw [List.cons_append, parts, parts, parts_slash cs n]
    split
    · simp
    · cases h : parts cs with
      | nil => exact absurd h (parts_ne_nil cs)
      | cons x xs => simp

theorem parts_simple : ∀ {n : Name}, '/' ∉ n → parts n = [n]
  | [], _ => rfl
  | c :: cs, h => by
    simp only [List.mem_cons, not_or] at h
    unfold parts
    rw [parts_simple h.2, if_neg (Ne.symm h.1)]

/-- The parts of the path that is listed. -/
def base : Option Name → List Name
  | none => []
  | some p => parts p

theorem parts_join {p : Option Name} {n : Name} (h : '/' ∉ n) : parts (join p n) = base p ++ [n] := by
  cases p with
  | none => simp [join, base, parts_simple h]
  | some p => simp [join, base, parts_slash, parts_simple h]

theorem ltParts_append (l : List Name) {a b : List Name} (h : ltParts a b) : ltParts (l ++ a) (l ++ b) := by
  induction l with
  | nil => exact h
  | cons x l ih => exact .inr ⟨rfl, ih⟩

theorem ltParts_longer (l : List Name) {a : List Name} (h : a ≠ []) : ltParts l (l ++ a) := by
  induction l with
  | nil => cases a <;> simp_all [ltParts]
  | cons x l ih => exact .inr ⟨rfl, ih⟩

/-- Everything below a path begins with its parts. -/
theorem walk_parts (hc : Spec.Clean P) : ∀ {n : Nat} {p : Option Name} {x : Entry ι}, Spec.Shallow P n p → x ∈ walk P n p →
    ∃ l e t, P.list p = some l ∧ e ∈ l ∧ parts x.name = base p ++ e.name :: t
  | 0, _, _, h, _ => h.elim
  | n + 1, p, x, h, hx => by
    obtain ⟨l, e, hl, he, h1 | ⟨h1, h2, h3⟩⟩ := (mem_walk h).mp hx
    · refine ⟨l, e, [], hl, he, ?_⟩
      rw [h1]
      exact parts_join ((hc p l hl).2 e he)
    · obtain ⟨l', e', t, _, _, h4⟩ := walk_parts hc (h l hl e he h1 h2) h3
      refine ⟨l, e, e'.name :: t, hl, he, ?_⟩
      rw [h4]
      simp [base, parts_join ((hc p l hl).2 e he)]

theorem item_parts (hc : Spec.Clean P) {n : Nat} {p : Option Name} (h : Spec.Shallow P (n + 1) p) {l : List (Entry ι)}
    (hl : P.list p = some l) {e x : Entry ι} (he : e ∈ l) (hx : x ∈ item P (fun q => walk P n (some q)) p e) :
    ∃ t, parts x.name = base p ++ e.name :: t := by
  rcases mem_item.mp hx with h1 | ⟨h1, h2⟩
  · exact ⟨[], by rw [h1]; exact parts_join ((hc p l hl).2 e he)⟩
  · simp only [Bool.and_eq_true] at h1
    obtain ⟨l', e', t, _, _, h4⟩ := walk_parts hc (h l hl e he h1.1 h1.2) h2
    exact ⟨e'.name :: t, by rw [h4]; simp [base, parts_join ((hc p l hl).2 e he)]⟩

theorem leZ_lt : ∀ {a b : Name}, leZ a b = true → a ≠ b → ltPart a b
  | [], [], _, h => absurd rfl h
  | [], _ :: _, _, _ => trivial
  | _ :: _, [], h, _ => by simp [leZ] at h
  | a :: as, b :: bs, h, hne => by
    unfold leZ at h
    split at h
    · rename_i hab
      subst hab
      exact .inr ⟨rfl, leZ_lt h (fun hh => hne (by rw [hh]))⟩
    · simp only [decide_eq_true_eq] at h
      exact .inl h

theorem leZ_trans : ∀ (a b c : Name), leZ a b = true → leZ b c = true → leZ a c = true
  | [], _, _, _, _ => by simp [leZ]
  | _ :: _, [], _, h, _ => by simp [leZ] at h
  | _ :: _, _ :: _, [], _, h => by simp [leZ] at h
  | a :: as, b :: bs, c :: cs, h1, h2 => by
    unfold leZ at h1 h2 ⊢
    by_cases hab : a = b
    · subst hab
      rw [if_pos rfl] at h1
      by_cases hac : a = c
      · rw [if_pos hac] at h2 ⊢
        exact leZ_trans as bs cs h1 h2
      · rw [if_neg hac] at h2 ⊢
        exact h2
    · rw [if_neg hab] at h1
      by_cases hbc : b = c
      · subst hbc
        rw [if_neg hab]
        exact h1
      · rw [if_neg hbc] at h2
        simp only [decide_eq_true_eq] at h1 h2
        have hac : a ≠ c := by
          intro hh
          subst hh
          omega
        rw [if_neg hac]
        simp only [decide_eq_true_eq]
        omega

theorem leZ_total : ∀ (a b : Name), (leZ a b || leZ b a) = true
  | [], _ => by simp [leZ]
  | _ :: _, [] => by simp [leZ]
  | a :: as, b :: bs => by
    unfold leZ
    by_cases hab : a = b
    · subst hab
      simpa using leZ_total as bs
    · rw [if_neg hab, if_neg (Ne.symm hab)]
      simp only [Bool.or_eq_true, decide_eq_true_eq]
      have : a.toNat ≠ b.toNat := fun h => hab (Char.toNat_inj.mp h)
      omega

theorem ltPart_irrefl : ∀ a : Name, ¬ ltPart a a
  | [] => by simp [ltPart]
  | a :: as => by
    rintro (h | ⟨_, h⟩)
    · omega
    · exact ltPart_irrefl as h

/-- Two things in order. -/
def Before (a b : Entry ι) : Prop := ltParts (parts a.name) (parts b.name)

theorem sorted_asc {l : List (Entry ι)} (hn : (l.map (·.name)).Nodup) :
    (sortBy (fun a b => leZ a.name b.name) l).Pairwise (fun a b => ltPart a.name b.name) := by
  have h1 := sortBy_pairwise (le := fun a b : Entry ι => leZ a.name b.name) (fun a b c => leZ_trans _ _ _)
    (fun a b => leZ_total _ _) (l := l)
  have hp := sortBy_perm (l := l) (le := fun a b : Entry ι => leZ a.name b.name)
  have h2 : ((sortBy (fun a b => leZ a.name b.name) l).map (·.name)).Nodup := (hp.map _).nodup_iff.mpr hn
  rw [List.nodup_iff_pairwise_ne, List.pairwise_map] at h2
  exact (h1.and h2).imp fun ⟨a, b⟩ => leZ_lt a b

theorem sorted_desc {l : List (Entry ι)} (hn : (l.map (·.name)).Nodup) :
    (sortBy (fun a b => leZ b.name a.name) l).Pairwise (fun a b => ltPart b.name a.name) := by
  have h1 := sortBy_pairwise (le := fun a b : Entry ι => leZ b.name a.name) (fun a b c h1 h2 => leZ_trans _ _ _ h2 h1)
    (fun a b => leZ_total _ _) (l := l)
  have hp := sortBy_perm (l := l) (le := fun a b : Entry ι => leZ b.name a.name)
  have h2 : ((sortBy (fun a b => leZ b.name a.name) l).map (·.name)).Nodup := (hp.map _).nodup_iff.mpr hn
  rw [List.nodup_iff_pairwise_ne, List.pairwise_map] at h2
  exact (h1.and h2).imp fun ⟨a, b⟩ => leZ_lt a (Ne.symm b)

theorem walk_asc (hc : Spec.Clean P) (ho : P.sort = .asc) : ∀ {n : Nat} {p : Option Name}, Spec.Shallow P n p →
    (walk P n p).Pairwise Before
  | 0, _, h => h.elim
  | n + 1, p, h => by
    unfold walk
    cases hl : P.list p with
    | none => simp [ho, sortList, sortBy]
    | some l =>
      simp only [Option.getD_some]
      obtain ⟨hn, hs⟩ := hc p l hl
      rw [List.pairwise_flatMap]
      refine ⟨fun e he => ?_, ?_⟩
      · have he' := mem_sortList.mp he
        unfold item
        rw [ho, if_neg (by simp)]
        rw [List.pairwise_cons]
        constructor
        · intro x hx
          split at hx
          · rename_i hpr
            simp only [Bool.and_eq_true] at hpr
            obtain ⟨l', e', t, _, _, h4⟩ := walk_parts hc (h l hl e he' hpr.1 hpr.2) hx
            unfold Before
            rw [h4]
            exact ltParts_longer _ (by simp)
          · simp at hx
        · split
          · rename_i hpr
            simp only [Bool.and_eq_true] at hpr
            exact walk_asc hc ho (h l hl e he' hpr.1 hpr.2)
          · simp
      · rw [ho]
        refine List.Pairwise.imp_of_mem ?_ (sorted_asc hn)
        intro a b ha hb hab x hx y hy
        obtain ⟨t, h1⟩ := item_parts hc h hl (mem_sortList (s := .asc).mp ha) hx
        obtain ⟨t', h2⟩ := item_parts hc h hl (mem_sortList (s := .asc).mp hb) hy
        unfold Before
        rw [h1, h2]
        exact ltParts_append _ (.inl hab)

theorem walk_desc (hc : Spec.Clean P) (ho : P.sort = .desc) : ∀ {n : Nat} {p : Option Name}, Spec.Shallow P n p →
    (walk P n p).Pairwise (fun a b => Before b a)
  | 0, _, h => h.elim
  | n + 1, p, h => by
    unfold walk
    cases hl : P.list p with
    | none => simp [ho, sortList, sortBy]
    | some l =>
      simp only [Option.getD_some]
      obtain ⟨hn, hs⟩ := hc p l hl
      rw [List.pairwise_flatMap]
      refine ⟨fun e he => ?_, ?_⟩
      · have he' := mem_sortList.mp he
        unfold item
        rw [ho, if_pos rfl]
        rw [List.pairwise_append]
        refine ⟨?_, by simp, ?_⟩
        · split
          · rename_i hpr
            simp only [Bool.and_eq_true] at hpr
            exact walk_desc hc ho (h l hl e he' hpr.1 hpr.2)
          · simp
        · intro x hx y hy
          simp only [List.mem_singleton] at hy
          subst hy
          split at hx
          · rename_i hpr
            simp only [Bool.and_eq_true] at hpr
            obtain ⟨l', e', t, _, _, h4⟩ := walk_parts hc (h l hl e he' hpr.1 hpr.2) hx
            unfold Before
            rw [h4]
            exact ltParts_longer _ (by simp)
          · simp at hx
      · rw [ho]
        refine List.Pairwise.imp_of_mem ?_ (sorted_desc hn)
        intro a b ha hb hab x hx y hy
        obtain ⟨t, h1⟩ := item_parts hc h hl (mem_sortList (s := .desc).mp ha) hx
        obtain ⟨t', h2⟩ := item_parts hc h hl (mem_sortList (s := .desc).mp hb) hy
        unfold Before
        rw [h1, h2]
        exact ltParts_append _ (.inl hab)

/-- In ascending order each entry is before the next by the parts of its path: a path comes before what is in it, and no entry comes
twice. With `c72_complete` this says exactly what the list is. -/
theorem c72_ascending (P : Param ι) (hc : Spec.Clean P) (ho : P.sort = .asc) (n : Nat) (hd : Spec.Shallow P n none) (itr : Itr ι)
    (a b : Bool) (h : itrNew P a b = .ok (some itr)) (out : List (Entry ι)) (hout : Lists P itr out) :
    out.Pairwise (fun x y => ltParts (parts x.name) (parts y.name)) := by
  cases n with
  | zero => exact hd.elim
  | succ n =>
    rw [hout.unique (lists_walk hd h)]
    exact (walk_asc hc ho hd).filter _

/-- In descending order it is the other way round: what is in a path comes before the path, so that it can be removed in this
order. -/
theorem c72_descending (P : Param ι) (hc : Spec.Clean P) (ho : P.sort = .desc) (n : Nat) (hd : Spec.Shallow P n none) (itr : Itr ι)
    (a b : Bool) (h : itrNew P a b = .ok (some itr)) (out : List (Entry ι)) (hout : Lists P itr out) :
    out.Pairwise (fun x y => ltParts (parts y.name) (parts x.name)) := by
  cases n with
  | zero => exact hd.elim
  | succ n =>
    rw [hout.unique (lists_walk hd h)]
    exact (walk_desc hc ho hd).filter _

theorem ltPart_asymm : ∀ {a b : Name}, ltPart a b → ¬ ltPart b a
  | _, [], h => by simp [ltPart] at h
  | [], _ :: _, _ => fun h => h
  | a :: as, b :: bs, h => by
    rintro (h2 | ⟨h2, h3⟩)
    · rcases h with h | ⟨rfl, _⟩ <;> omega
    · subst h2
      rcases h with h | ⟨_, h⟩
      · omega
      · exact ltPart_asymm h h3

theorem ltParts_asymm : ∀ {a b : List Name}, ltParts a b → ¬ ltParts b a
  | _, [], h => by simp [ltParts] at h
  | [], _ :: _, _ => fun h => h
  | a :: as, b :: bs, h => by
    rintro (h2 | ⟨h2, h3⟩)
    · rcases h with h | ⟨rfl, _⟩
      · exact ltPart_asymm h h2
      · exact ltPart_irrefl _ h2
    · subst h2
      rcases h with h | ⟨_, h⟩
      · exact ltPart_irrefl _ h
      · exact ltParts_asymm h h3

/-- There is one way only to put things in order. -/
theorem pairwise_unique {α : Type} {R : α → α → Prop} (hR : ∀ a b, R a b → ¬ R b a) : ∀ {l m : List α}, l.Pairwise R → m.Pairwise R →
    (∀ x, x ∈ l ↔ x ∈ m) → l = m
  | [], [], _, _, _ => rfl
  | [], b :: m, _, _, h => absurd ((h b).mpr (by simp)) (by simp)
  | a :: l, [], _, _, h => absurd ((h a).mp (by simp)) (by simp)
  | a :: l, b :: m, hl, hm, h => by
    rw [List.pairwise_cons] at hl hm
    have hab : a = b := by
      have h1 := (h a).mp (by simp)
      have h2 := (h b).mpr (by simp)
      rcases List.mem_cons.mp h1 with h1 | h1
      · exact h1
      · rcases List.mem_cons.mp h2 with h2 | h2
        · exact h2.symm
        · exact absurd (hl.1 b h2) (hR _ _ (hm.1 a h1))
    subst hab
    have hirr : ∀ x, ¬ R x x := fun x hx => hR x x hx hx
    rw [pairwise_unique hR hl.2 hm.2 fun x => ?_]
    have hx := h x
    simp only [List.mem_cons] at hx
    constructor
    · intro h1
      rcases hx.mp (.inr h1) with h2 | h2
      · subst h2; exact absurd (hl.1 x h1) (hirr x)
      · exact h2
    · intro h1
      rcases hx.mpr (.inr h1) with h2 | h2
      · subst h2; exact absurd (hm.1 x h1) (hirr x)
      · exact h2

theorem at_sort {s t : SortOrder} {p : Option Name} (h : Spec.At { P with sort := s } p) : Spec.At { P with sort := t } p := by
  induction h with
  | root => exact .root
  | sub _ hl he hp hr ih => exact .sub ih hl he hp hr

theorem there_sort {s t : SortOrder} {x : Entry ι} (h : Spec.There { P with sort := s } x) : Spec.There { P with sort := t } x := by
  obtain ⟨p, l, e, h1, h2, h3, h4⟩ := h
  exact ⟨p, l, e, at_sort h1, h2, h3, h4⟩

theorem shallow_sort {s : SortOrder} : ∀ {n : Nat} {p : Option Name}, Spec.Shallow P n p → Spec.Shallow { P with sort := s } n p
  | 0, _, h => h
  | _ + 1, _, h => fun l hl e he hp hr => shallow_sort (h l hl e he hp hr)

/-- The descending list is the ascending one turned round. -/
theorem c72_reverse (P : Param ι) (hc : Spec.Clean P) (n : Nat) (hd : Spec.Shallow P n none) (a b : Bool) (itr itr' : Itr ι)
    (h : itrNew { P with sort := .asc } a b = .ok (some itr)) (h' : itrNew { P with sort := .desc } a b = .ok (some itr'))
    (out out' : List (Entry ι)) (hout : Lists { P with sort := .asc } itr out) (hout' : Lists { P with sort := .desc } itr' out') :
    out' = out.reverse := by
  have h1 := c72_ascending { P with sort := .asc } hc rfl n (shallow_sort hd) itr a b h out hout
  have h2 := c72_descending { P with sort := .desc } hc rfl n (shallow_sort hd) itr' a b h' out' hout'
  obtain ⟨o, ho, hu, hm⟩ := c72_complete _ n (shallow_sort hd) itr a b h
  obtain ⟨o', ho', hu', hm'⟩ := c72_complete _ n (shallow_sort hd) itr' a b h'
  rw [← hu out hout] at hm
  rw [← hu' out' hout'] at hm'
  refine pairwise_unique (R := fun x y => ltParts (parts y.name) (parts x.name)) (fun _ _ h => ltParts_asymm h) h2
    (List.pairwise_reverse.mpr h1) fun x => ?_
  rw [hm', List.mem_reverse, hm]
  exact ⟨fun ⟨h, h2⟩ => ⟨there_sort h, h2⟩, fun ⟨h, h2⟩ => ⟨there_sort h, h2⟩⟩

/-- Asking whether there is more is free: the answer and what is returned next stay the same. -/
theorem c72_more_again (P : Param ι) (i j k : Itr ι) (b c : Bool) (h : More P i b j) (h2 : More P j c k) : c = b ∧ k = j := by
  cases h with
  | again => cases h2; exact ⟨rfl, rfl⟩
  | found _ => cases h2; exact ⟨rfl, rfl⟩
  | nothing _ => exact (More.nothing (P := P) (.done rfl)).unique h2 |>.imp Eq.symm Eq.symm

/-- When the root does not exist there is an error if that was asked for, else no iterator if that was asked for, else an empty list;
a root that exists gives an iterator whatever was asked for. -/
theorem c72_missing (P : Param ι) (a b : Bool) :
    (P.list none = none →
      itrNew P a b = (if a then .error .pathMissing else if b then .ok none else .ok (some ⟨[], none⟩)) ∧ Lists P ⟨[], none⟩ []) ∧
    (P.list none ≠ none → ∃ itr, itrNew P a b = .ok (some itr)) := by
  constructor
  · intro h
    exact ⟨by simp [itrNew, pathAdd, h], .nil (.nothing (.done rfl))⟩
  · intro h
    cases hl : P.list none with
    | none => exact absurd hl h
    | some l => cases l <;> simp [itrNew, pathAdd, hl]

/-! ## It does something -/

namespace ItrEx

/-- A tree with files `a-` and `c`, a path `a` with a file `b` and an empty path `d`, and a path `e` that went away. -/
def tree (sort : SortOrder) (re : Option (Name → Bool)) : Param Nat where
  list
    | none => some [⟨['c'], false, 1⟩, ⟨['a'], true, 2⟩, ⟨['a', '-'], false, 3⟩, ⟨['e'], true, 4⟩]
    | some p => if p = ['a'] then some [⟨['d'], true, 5⟩, ⟨['b'], false, 6⟩] else if p = ['a', '/', 'd'] then some [] else none
  recurse := true
  sort := sort
  regExp := re

theorem shallow (s : SortOrder) (re : Option (Name → Bool)) : Spec.Shallow (tree s re) 3 none := by
  intro l hl e he hp _
  simp only [tree, Option.some.injEq] at hl
  subst hl
  simp only [List.mem_cons, List.not_mem_nil, or_false] at he
  rcases he with rfl | rfl | rfl | rfl <;> simp at hp
  · intro l hl e he hp _
    simp only [tree, join, if_true, Option.some.injEq] at hl
    subst hl
    simp only [List.mem_cons, List.not_mem_nil, or_false] at he
    rcases he with rfl | rfl <;> simp at hp
    intro l hl e he
    simp [tree, join] at hl
    subst hl
    simp at he
  · intro l hl
    simp [tree, join] at hl

theorem clean (s : SortOrder) (re : Option (Name → Bool)) : Spec.Clean (tree s re) := by
  intro p l hl
  cases p with
  | none =>
    simp only [tree, Option.some.injEq] at hl
    subst hl
    decide
  | some p =>
    simp only [tree] at hl
    split at hl
    · simp only [Option.some.injEq] at hl
      subst hl
      decide
    · split at hl
      · simp only [Option.some.injEq] at hl
        subst hl
        decide
      · simp at hl

def names (Q : Param Nat) : Option (List String) :=
  match itrNew Q false false with
  | .ok (some i) => (drain Q 50 i.stack).map (·.map (String.ofList ·.name))
  | _ => none

example : names (tree .asc none) = some ["a", "a/b", "a/d", "a-", "c", "e"] := by decide +kernel
example : names (tree .desc none) = some ["e", "c", "a-", "a/d", "a/b", "a"] := by decide +kernel
example : names (tree .unsorted none) = some ["c", "a", "a/d", "a/b", "a-", "e"] := by decide +kernel
-- only `a/b` matches, and it is found although `a` does not
example : names (tree .asc (some (· = ['a', '/', 'b']))) = some ["a/b"] := by decide +kernel

end ItrEx

/-- The order is not the order of the names as strings: `a/b` comes before `a-`, although `-` is before `/`. A caller that merges the
list with one that is sorted by name must not rely on it. -/
theorem c72_not_by_name :
    ItrEx.names (ItrEx.tree .asc none) = some ["a", "a/b", "a/d", "a-", "c", "e"] ∧ leZ "a-".toList "a/b".toList = true ∧
      leZ "a/b".toList "a-".toList = false := by
  decide +kernel

end Verif.Storage
