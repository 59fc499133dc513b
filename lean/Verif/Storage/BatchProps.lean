import Verif.Storage.BatchSpec

/-!
# C77: a path on an object store is removed with all its files and nothing else
-/

namespace Verif.Batch

open Spec

theorem fine_iff (code : Nat) : fine code = false ↔ ¬Done code := by
  unfold fine Done
  simp only [Bool.or_eq_false_iff, beq_eq_false_iff_ne]
  omega

theorem idPrefix_eq : idPrefix = "response-".toUTF8.toList := by decide +kernel

theorem wire_object (kind : Kind) {path : Str} (hp : path.head? = some 47) (name : Str) : object kind (wireName kind path name) = file path name := by
  obtain ⟨t, rfl⟩ : ∃ t, path = 47 :: t := by
    cases path with
    | nil => simp at hp
    | cons c t => simp only [List.head?_cons, Option.some.injEq] at hp; exact ⟨t, by rw [hp]⟩
  cases kind <;> cases t <;> simp [object, wireName, file]

section

variable {σ : Type} {kind : Kind} {svc : Svc σ} {There : σ → Str → Prop}

/-- What is the same for each way to go through an answer: nothing comes back, and only what is asked for is removed. -/
def Step (There : σ → Str → Prop) (xs : List Str) (w w' : σ) : Prop :=
  (∀ x, There w' x → There w x) ∧ ∀ x, There w x → ¬There w' x → x ∈ xs

theorem step_refl {xs : List Str} (w : σ) : Step There xs w w := ⟨fun _ h => h, fun _ h h' => absurd h h'⟩

theorem step_trans {xs : List Str} {a b c : σ} (h1 : Step There xs a b) (h2 : Step There xs b c) : Step There xs a c := by
  refine ⟨fun x h => h1.1 x (h2.1 x h), fun x ha hc => ?_⟩
  by_cases hb : There b x
  · exact h2.2 x hb hc
  · exact h1.2 x ha hb

theorem step_remove (h : Honest kind svc There) {xs : List Str} {k : Str} (hk : k ∈ xs) (w : σ) : Step There xs w (svc.remove w k).1 :=
  ⟨fun x hx => h.removeNew w k x hx, fun x hx hx' => by rw [h.removeOnly w k x hx hx']; exact hk⟩

theorem azure_spec (h : Honest kind svc There) {sent : List Str} : ∀ (ps : List Part) (idx : Nat) (w : σ),
    Step There sent w (azureParts svc sent idx ps w).1 ∧ ((azureParts svc sent idx ps w).2 = .ok () →
      ∀ j p, ps[j]? = some p → ¬Done p.code → ∀ k, sent[idx + j]? = some k → ¬There (azureParts svc sent idx ps w).1 k) := by
  intro ps
  induction ps with
  | nil => intro idx w; exact ⟨step_refl w, by simp⟩
  | cons p ps ih =>
    intro idx w
    unfold azureParts
    by_cases hf : fine p.code = false
    · rw [if_pos hf]
      cases hs : sent[idx]? with
      | none => exact ⟨step_refl w, by simp⟩
      | some path =>
        have hmem : path ∈ sent := List.mem_of_getElem? hs
        have hstep := step_remove h hmem w
        simp only
        cases hr : svc.remove w path with
        | mk w1 res =>
          rw [hr] at hstep
          cases res with
          | error e => exact ⟨hstep, by simp⟩
          | ok u =>
            obtain ⟨i1, i2⟩ := ih (idx + 1) w1
            refine ⟨step_trans hstep i1, ?_⟩
            intro hok j q hq hd k hk
            cases j with
            | zero =>
              have hkp : k = path := by simpa [hs] using hk.symm
              subst hkp
              have := h.removeSays w k (by rw [hr])
              rw [hr] at this
              exact fun hx => this (i1.1 k hx)
            | succ j => exact i2 hok j q (by simpa using hq) hd k (by rw [← hk]; congr 1; omega)
    · rw [if_neg hf]
      obtain ⟨i1, i2⟩ := ih (idx + 1) w
      refine ⟨i1, ?_⟩
      intro hok j q hq hd k hk
      cases j with
      | zero =>
        have : p = q := by simpa using hq
        subst this
        exact absurd ((fine_iff _).mpr hd) hf
      | succ j => exact i2 hok j q (by simpa using hq) hd k (by rw [← hk]; congr 1; omega)

theorem gcsFind_mem {sent : List Str} {p : Part} {k : Str} (h : gcsFind sent p = .ok k) : k ∈ sent := by
  unfold gcsFind at h
  split at h
  · cases h
  · split at h
    · rename_i id _ _
      cases hn : Num.toUIntBase 10 (id.drop idPrefix.length) with
      | error e => rw [hn] at h; cases h
      | ok n =>
        rw [hn] at h
        simp only [bind, Except.bind] at h
        cases hs : sent[n]? with
        | none => rw [hs] at h; cases h
        | some o =>
          rw [hs] at h
          simp only [Except.ok.injEq] at h
          subst h
          exact List.mem_of_getElem? hs
    · cases h

theorem gcsFind_id {sent : List Str} {p : Part} {k s : Str} {i : Nat} (hid : p.id = some ("response-".toUTF8.toList ++ s)) (hn : Num.Numeral 10 s i) (hi : i < 2 ^ 32)
    (hs : sent[i]? = some k) : gcsFind sent p = .ok k := by
  unfold gcsFind
  rw [hid, ← idPrefix_eq]
  simp only [List.prefix_append, if_true, List.drop_left]
  rw [(Num.c51_numeral 10 _ i hn).2.1, if_pos hi]
  simp only [bind, Except.bind, hs]

theorem gcs_spec (h : Honest kind svc There) {sent : List Str} : ∀ (ps : List Part) (w : σ),
    Step There sent w (gcsParts svc sent ps w).1 ∧ ((gcsParts svc sent ps w).2 = .ok () →
      ∀ p ∈ ps, ¬Done p.code → ∀ k, gcsFind sent p = .ok k → ¬There (gcsParts svc sent ps w).1 k) := by
  intro ps
  induction ps with
  | nil => intro w; exact ⟨step_refl w, by simp⟩
  | cons p ps ih =>
    intro w
    unfold gcsParts
    by_cases hf : fine p.code = false
    · rw [if_pos hf]
      cases hs : gcsFind sent p with
      | error e => exact ⟨step_refl w, by simp⟩
      | ok path =>
        have hstep := step_remove h (gcsFind_mem hs) w
        simp only
        cases hr : svc.remove w path with
        | mk w1 res =>
          rw [hr] at hstep
          cases res with
          | error e => exact ⟨hstep, by simp⟩
          | ok u =>
            obtain ⟨i1, i2⟩ := ih w1
            refine ⟨step_trans hstep i1, ?_⟩
            intro hok q hq hd k hk
            rcases List.mem_cons.mp hq with rfl | hq
            · rw [hs] at hk
              cases hk
              have := h.removeSays w path (by rw [hr])
              rw [hr] at this
              exact fun hx => this (i1.1 _ hx)
            · exact i2 hok q hq hd k hk
    · rw [if_neg hf]
      obtain ⟨i1, i2⟩ := ih w
      refine ⟨i1, ?_⟩
      intro hok q hq hd k hk
      rcases List.mem_cons.mp hq with rfl | hq
      · exact absurd ((fine_iff _).mpr hd) hf
      · exact i2 hok q hq hd k hk

theorem s3_spec (h : Honest kind svc There) {xs : List Str} : ∀ (ks : List Str) (w : σ), (∀ k ∈ ks, 47 :: k ∈ xs) →
    Step There xs w (s3Errors svc ks w).1 ∧ ((s3Errors svc ks w).2 = .ok () → ∀ k ∈ ks, ¬There (s3Errors svc ks w).1 (47 :: k)) := by
  intro ks
  induction ks with
  | nil => intro w _; exact ⟨step_refl w, by simp⟩
  | cons k ks ih =>
    intro w hks
    unfold s3Errors
    have hstep := step_remove h (hks k (by simp)) w
    cases hr : svc.remove w (47 :: k) with
    | mk w1 res =>
      rw [hr] at hstep
      cases res with
      | error e => exact ⟨hstep, by simp⟩
      | ok u =>
        obtain ⟨i1, i2⟩ := ih w1 (fun q hq => hks q (by simp [hq]))
        refine ⟨step_trans hstep i1, ?_⟩
        intro hok q hq
        rcases List.mem_cons.mp hq with rfl | hq
        · have := h.removeSays w (47 :: q) (by rw [hr])
          rw [hr] at this
          exact fun hx => this (i1.1 _ hx)
        · exact i2 hok q hq

/-- An answer that is not yet looked at says what was not removed. -/
def Pending (kind : Kind) (There : σ → Str → Prop) (sent : List Str) (reply : Res Reply) (w : σ) : Prop :=
  ∀ r, reply = .ok r → Says kind sent (fun k => ¬There w k) r

theorem answer_spec (h : Honest kind svc There) {sent : List Str} {reply : Res Reply} {w : σ} (hp : Pending kind There sent reply w) :
    Step There (sent.map (object kind)) w (answer svc kind sent reply w).1 ∧
      ((answer svc kind sent reply w).2 = .ok () → ∀ k ∈ sent, ¬There (answer svc kind sent reply w).1 (object kind k)) := by
  unfold answer
  cases reply with
  | error e => exact ⟨step_refl w, by simp⟩
  | ok r =>
    have hs := hp r rfl
    simp only
    cases kind with
    | azure =>
      have hobj : sent.map (object .azure) = sent := by
        have : object Kind.azure = id := rfl
        rw [this, List.map_id]
      rw [hobj]
      cases r with
      | errors ks => exact ⟨step_refl w, by simp⟩
      | parts ps =>
        simp only
        by_cases h0 : ps = []
        · rw [if_pos h0]; exact ⟨step_refl w, by simp⟩
        · rw [if_neg h0]
          obtain ⟨i1, i2⟩ := azure_spec h (sent := sent) ps 0 w
          refine ⟨i1, ?_⟩
          intro hok k hk
          obtain ⟨i, hi⟩ := List.mem_iff_getElem?.mp hk
          rcases hs i k hi with hg | ⟨p, hp, hd⟩
          · exact fun hx => hg (i1.1 _ hx)
          · exact i2 hok i p hp hd k (by simpa using hi)
    | gcs =>
      have hobj : sent.map (object .gcs) = sent := by
        have : object Kind.gcs = id := rfl
        rw [this, List.map_id]
      rw [hobj]
      cases r with
      | errors ks => exact ⟨step_refl w, by simp⟩
      | parts ps =>
        simp only
        by_cases h0 : ps = []
        · rw [if_pos h0]; exact ⟨step_refl w, by simp⟩
        · rw [if_neg h0]
          obtain ⟨i1, i2⟩ := gcs_spec h (sent := sent) ps w
          refine ⟨i1, ?_⟩
          intro hok k hk
          obtain ⟨i, hi⟩ := List.mem_iff_getElem?.mp hk
          rcases hs i k hi with hg | ⟨p, hp, hd, s, hid, hn, hlt⟩
          · exact fun hx => hg (i1.1 _ hx)
          · exact i2 hok p hp hd k (gcsFind_id hid hn hlt hi)
    | s3 =>
      cases r with
      | parts ps => exact ⟨step_refl w, by simp⟩
      | errors ks =>
        obtain ⟨i1, i2⟩ := s3_spec h (xs := sent.map (object .s3)) ks w (fun k hk => List.mem_map.mpr ⟨k, hs.2 k hk, rfl⟩)
        refine ⟨i1, ?_⟩
        intro hok k hk
        rcases hs.1 k hk with hg | hg
        · exact fun hx => hg (i1.1 _ hx)
        · exact i2 hok k hg

/-- After the files `A`: each is gone, waits to be sent, or was sent. -/
structure Inv (kind : Kind) (There : σ → Str → Prop) (A : List Str) (w0 w : σ) (d : Data) : Prop where
  pend : ∀ sent reply, d.request = some (sent, reply) → Pending kind There sent reply w
  cover : ∀ x ∈ A, ¬There w x ∨ (∃ c, d.content = some c ∧ x ∈ c.map (object kind)) ∨ ∃ sent reply, d.request = some (sent, reply) ∧ x ∈ sent.map (object kind)
  content : ∀ c, d.content = some c → ∀ x ∈ c.map (object kind), x ∈ A
  sent : ∀ sent reply, d.request = some (sent, reply) → ∀ x ∈ sent.map (object kind), x ∈ A
  only : Step There A w0 w

theorem step_mono {xs ys : List Str} {a b : σ} (h : Step There xs a b) (hs : ∀ x ∈ xs, x ∈ ys) : Step There ys a b := ⟨h.1, fun x h1 h2 => hs x (h.2 x h1 h2)⟩

theorem send_spec (h : Honest kind svc There) {A : List Str} {w0 w : σ} {d : Data} (hi : Inv kind There A w0 w d) (hr : d.request = none) :
    ∃ d', (send svc w d).2 = .ok d' ∧ Inv kind There A w0 (send svc w d).1 d' ∧ d'.content = none ∧ (d.content = none → d'.request = none) := by
  unfold send
  cases hc : d.content with
  | none => exact ⟨d, rfl, hi, hc, fun _ => hr⟩
  | some c =>
    have hst : Step There A w (svc.batch w c).1 :=
      ⟨fun x => h.batchNew w c x, fun x h1 h2 => by
        obtain ⟨k, hk, rfl⟩ := h.batchOnly w c x h1 h2
        exact hi.content c hc _ (List.mem_map.mpr ⟨k, hk, rfl⟩)⟩
    refine ⟨_, rfl, ⟨?_, ?_, by simp, ?_, step_trans hi.only hst⟩, rfl, by simp⟩
    · intro sent reply he r hr
      simp only [Option.some.injEq, Prod.mk.injEq] at he
      obtain ⟨rfl, rfl⟩ := he
      exact h.batchSays w c r hr
    · intro x hx
      rcases hi.cover x hx with hg | ⟨c', hc', hx'⟩ | ⟨s, r, hs, _⟩
      · exact .inl fun hx' => hg (h.batchNew w c x hx')
      · rw [hc] at hc'
        cases hc'
        exact .inr (.inr ⟨_, _, rfl, hx'⟩)
      · rw [hr] at hs; cases hs
    · intro sent reply he x hx
      simp only [Option.some.injEq, Prod.mk.injEq] at he
      obtain ⟨rfl, rfl⟩ := he
      exact hi.content c hc x hx

theorem removeInternal_spec (h : Honest kind svc There) {A : List Str} {w0 w : σ} {d : Data} (hi : Inv kind There A w0 w d) :
    Step There A w0 (removeInternal svc kind w d).1 ∧ ∀ d', (removeInternal svc kind w d).2 = .ok d' →
      Inv kind There A w0 (removeInternal svc kind w d).1 d' ∧ d'.content = none ∧ (d.content = none → d'.request = none) := by
  unfold removeInternal
  cases hr : d.request with
  | none =>
    obtain ⟨d', h1, h2, h3, h4⟩ := send_spec h hi hr
    refine ⟨h2.only, ?_⟩
    intro d'' hd
    simp only at hd
    rw [h1] at hd
    cases hd
    exact ⟨h2, h3, h4⟩
  | some sr =>
    obtain ⟨sent, reply⟩ := sr
    obtain ⟨a1, a2⟩ := answer_spec h (hi.pend sent reply hr)
    have a1' := step_mono a1 (hi.sent sent reply hr)
    simp only
    cases ha : answer svc kind sent reply w with
    | mk w1 res =>
      rw [ha] at a1 a1' a2
      cases res with
      | error e => exact ⟨step_trans hi.only a1', by simp⟩
      | ok u =>
        have hi' : Inv kind There A w0 w1 { d with request := none } := by
          refine ⟨by simp, ?_, hi.content, by simp, step_trans hi.only a1'⟩
          intro x hx
          rcases hi.cover x hx with hg | hc | ⟨s, r, hs, hx'⟩
          · exact .inl fun hx' => hg (a1.1 x hx')
          · exact .inr (.inl hc)
          · rw [hr] at hs
            cases hs
            obtain ⟨k, hk, rfl⟩ := List.mem_map.mp hx'
            exact .inl (a2 rfl k hk)
        obtain ⟨d', h1, h2, h3, h4⟩ := send_spec h hi' rfl
        refine ⟨h2.only, ?_⟩
        intro d'' hd
        simp only at hd
        rw [h1] at hd
        cases hd
        exact ⟨h2, h3, h4⟩

/-- The files of a listing. -/
def filesOf (path : Str) (is : List Info) : List Str := (is.filter (·.file)).map fun i => file path i.name

theorem callback_spec (h : Honest kind svc There) {A : List Str} {w0 w : σ} {d : Data} {max : Nat} {path : Str} (hp : path.head? = some 47) (i : Info)
    (hi : Inv kind There A w0 w d) :
    Step There (A ++ filesOf path [i]) w0 (callback svc kind max path w d i).1 ∧ ∀ d', (callback svc kind max path w d i).2 = .ok d' →
      Inv kind There (A ++ filesOf path [i]) w0 (callback svc kind max path w d i).1 d' := by
  unfold callback
  cases hf : i.file with
  | false =>
    have e : A ++ filesOf path [i] = A := by simp [filesOf, hf]
    rw [e]
    refine ⟨hi.only, ?_⟩
    intro d' hd
    simp only [Bool.false_eq_true, if_false, Except.ok.injEq] at hd ⊢
    subst hd
    exact hi
  | true =>
    have e : filesOf path [i] = [object kind (wireName kind path i.name)] := by simp [filesOf, hf, wire_object kind hp]
    rw [e]
    have hi' : Inv kind There (A ++ [object kind (wireName kind path i.name)]) w0 w { d with content := some (d.content.getD [] ++ [wireName kind path i.name]) } := by
      refine ⟨hi.pend, ?_, ?_, fun s r hs x hx => List.mem_append_left _ (hi.sent s r hs x hx), step_mono hi.only (fun x hx => List.mem_append_left _ hx)⟩
      · intro x hx
        rcases List.mem_append.mp hx with hx | hx
        · rcases hi.cover x hx with hg | ⟨c, hc, hx⟩ | hs
          · exact .inl hg
          · exact .inr (.inl ⟨_, rfl, by rw [hc]; simp only [Option.getD_some, List.map_append, List.mem_append]; exact .inl hx⟩)
          · exact .inr (.inr hs)
        · exact .inr (.inl ⟨_, rfl, by rw [List.mem_singleton.mp hx]; simp⟩)
      · intro c hc x hx
        simp only [Option.some.injEq] at hc
        subst hc
        rw [List.map_append, List.mem_append] at hx
        rcases hx with hx | hx
        · cases hc : d.content with
          | none => rw [hc] at hx; simp at hx
          | some c => rw [hc] at hx; exact List.mem_append_left _ (hi.content c hc x hx)
        · exact List.mem_append_right _ (by simpa using hx)
    simp only [if_true]
    split
    · obtain ⟨r1, r2⟩ := removeInternal_spec h hi'
      exact ⟨r1, fun d' hd => (r2 d' hd).1⟩
    · refine ⟨hi'.only, ?_⟩
      intro d' hd
      simp only [Except.ok.injEq] at hd
      subst hd
      exact hi'

theorem callbacks_spec (h : Honest kind svc There) {max : Nat} {path : Str} (hp : path.head? = some 47) {w0 : σ} (is : List Info) : ∀ {A : List Str} {w : σ} {d : Data},
    Inv kind There A w0 w d →
    Step There (A ++ filesOf path is) w0 (callbacks svc kind max path is w d).1 ∧ ∀ d', (callbacks svc kind max path is w d).2 = .ok d' →
      Inv kind There (A ++ filesOf path is) w0 (callbacks svc kind max path is w d).1 d' := by
  induction is with
  | nil =>
    intro A w d hi
    have e : A ++ filesOf path [] = A := by simp [filesOf]
    rw [e]
    refine ⟨hi.only, ?_⟩
    intro d' hd
    simp only [callbacks, Except.ok.injEq] at hd ⊢
    subst hd
    exact hi
  | cons i is ih =>
    intro A w d hi
    have e : A ++ filesOf path (i :: is) = (A ++ filesOf path [i]) ++ filesOf path is := by
      rw [List.append_assoc]
      congr 1
      simp only [filesOf, ← List.map_append, ← List.filter_append]
      rfl
    rw [e]
    obtain ⟨c1, c2⟩ := callback_spec h (max := max) hp i hi
    unfold callbacks
    cases hc : callback svc kind max path w d i with
    | mk w1 res =>
      rw [hc] at c1 c2
      cases res with
      | error er => exact ⟨step_mono c1 (fun x hx => List.mem_append_left _ hx), by simp⟩
      | ok d1 => exact ih (c2 d1 rfl)

theorem pathRemove_spec (h : Honest kind svc There) (max : Nat) {path : Str} (hp : path.head? = some 47) (is : List Info) (w : σ) :
    Step There (filesOf path is) w (pathRemove svc kind max path is w).1 ∧ ((pathRemove svc kind max path is w).2 = .ok () →
      ∀ x ∈ filesOf path is, ¬There (pathRemove svc kind max path is w).1 x) := by
  have h0 : Inv kind There [] w w ⟨none, none⟩ := ⟨by simp, by simp, by simp, by simp, step_refl w⟩
  obtain ⟨c1, c2⟩ := callbacks_spec h (max := max) hp is h0
  rw [List.nil_append] at c1 c2
  unfold pathRemove
  cases hc : callbacks svc kind max path is w ⟨none, none⟩ with
  | mk w1 res =>
    rw [hc] at c1 c2
    cases res with
    | error e => exact ⟨c1, by simp⟩
    | ok d =>
      have hi := c2 d rfl
      simp only at hi ⊢
      have hmid : Step There (filesOf path is) w (if d.content.isSome then removeInternal svc kind w1 d else (w1, .ok d)).1 ∧
          ∀ d', (if d.content.isSome then removeInternal svc kind w1 d else (w1, .ok d)).2 = .ok d' →
            Inv kind There (filesOf path is) w (if d.content.isSome then removeInternal svc kind w1 d else (w1, .ok d)).1 d' ∧ d'.content = none := by
        split
        · obtain ⟨r1, r2⟩ := removeInternal_spec h hi
          exact ⟨r1, fun d' hd => ⟨(r2 d' hd).1, (r2 d' hd).2.1⟩⟩
        · rename_i hn
          refine ⟨hi.only, ?_⟩
          intro d' hd
          simp only [Except.ok.injEq] at hd
          subst hd
          exact ⟨hi, by simpa using hn⟩
      cases hm : (if d.content.isSome then removeInternal svc kind w1 d else (w1, .ok d)) with
      | mk w2 res2 =>
        rw [hm] at hmid
        cases res2 with
        | error e => exact ⟨hmid.1, by simp⟩
        | ok d2 =>
          obtain ⟨i2, hc2⟩ := hmid.2 d2 rfl
          obtain ⟨r1, r2⟩ := removeInternal_spec h i2
          simp only
          cases hr : removeInternal svc kind w2 d2 with
          | mk w3 res3 =>
            rw [hr] at r1 r2
            cases res3 with
            | error e => exact ⟨r1, by simp⟩
            | ok d3 =>
              obtain ⟨i3, hc3, hr3⟩ := r2 d3 rfl
              refine ⟨r1, ?_⟩
              intro _ x hx
              rcases i3.cover x hx with hg | ⟨c, hcc, _⟩ | ⟨s, r, hs, _⟩
              · exact hg
              · rw [hc3] at hcc; cases hcc
              · rw [hr3 hc2] at hs; cases hs

/-- C77: if the removal of a path is said to be done then no file of the listing is there, whatever the service refused in batches and whatever it removed when asked again. -/
theorem c77_removed (h : Honest kind svc There) (max : Nat) (path : Str) (hp : path.head? = some 47) (is : List Info) (w : σ)
    (hok : (pathRemove svc kind max path is w).2 = .ok ()) (i : Info) (hi : i ∈ is) (hf : i.file = true) :
    ¬There (pathRemove svc kind max path is w).1 (file path i.name) :=
  (pathRemove_spec h max hp is w).2 hok _ (List.mem_map.mpr ⟨i, by simp [hi, hf], rfl⟩)

/-- C77: whether it is done or ends with an error, nothing is removed but files of the listing. -/
theorem c77_only (h : Honest kind svc There) (max : Nat) (path : Str) (hp : path.head? = some 47) (is : List Info) (w : σ) (x : Str)
    (h1 : There w x) (h2 : ¬There (pathRemove svc kind max path is w).1 x) : ∃ i ∈ is, i.file = true ∧ x = file path i.name := by
  have := (pathRemove_spec h max hp is w).1.2 x h1 h2
  obtain ⟨i, hi, rfl⟩ := List.mem_map.mp this
  simp only [List.mem_filter] at hi
  exact ⟨i, hi.1, hi.2, rfl⟩

end

end Verif.Batch
