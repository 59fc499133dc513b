import Verif.Storage.BatchProps

/-!
# C77: batches, services without failures, and examples
-/

namespace Verif.Batch

open Spec

section

variable {σ : Type} {kind : Kind} {svc : Svc σ}

/-! ## Batches -/

theorem azure_log {sent : List Str} : ∀ (ps : List Part) (idx : Nat) (w : σ × List (List Str)), (azureParts (logged svc) sent idx ps w).1.2 = w.2 := by
  intro ps
  induction ps with
  | nil => intro idx w; rfl
  | cons p ps ih =>
    intro idx w
    unfold azureParts
    split
    · cases sent[idx]? with
      | none => rfl
      | some path =>
        simp only
        cases hr : (logged svc).remove w path with
        | mk w1 res =>
          have : w1.2 = w.2 := by have := congrArg (·.1.2) hr; simpa [logged] using this.symm
          cases res with
          | error e => exact this
          | ok u => rw [ih]; exact this
    · exact ih _ _

theorem gcs_log {sent : List Str} : ∀ (ps : List Part) (w : σ × List (List Str)), (gcsParts (logged svc) sent ps w).1.2 = w.2 := by
  intro ps
  induction ps with
  | nil => intro w; rfl
  | cons p ps ih =>
    intro w
    unfold gcsParts
    split
    · cases gcsFind sent p with
      | error e => rfl
      | ok path =>
        simp only
        cases hr : (logged svc).remove w path with
        | mk w1 res =>
          have : w1.2 = w.2 := by have := congrArg (·.1.2) hr; simpa [logged] using this.symm
          cases res with
          | error e => exact this
          | ok u => rw [ih]; exact this
    · exact ih _

theorem s3_log : ∀ (ks : List Str) (w : σ × List (List Str)), (s3Errors (logged svc) ks w).1.2 = w.2 := by
  intro ks
  induction ks with
  | nil => intro w; rfl
  | cons k ks ih =>
    intro w
    unfold s3Errors
    cases hr : (logged svc).remove w (47 :: k) with
    | mk w1 res =>
      have : w1.2 = w.2 := by have := congrArg (·.1.2) hr; simpa [logged] using this.symm
      cases res with
      | error e => exact this
      | ok u => rw [ih]; exact this

theorem answer_log {sent : List Str} {reply : Res Reply} (w : σ × List (List Str)) : (answer (logged svc) kind sent reply w).1.2 = w.2 := by
  unfold answer
  cases reply with
  | error e => rfl
  | ok r =>
    cases kind <;> cases r <;> simp only
    · split
      · rfl
      · exact azure_log _ _ _
    · split
      · rfl
      · exact gcs_log _ _
    · exact s3_log _ _

/-- What was sent and what waits are the names so far. -/
structure LogInv (max : Nat) (names : List Str) (log : List (List Str)) (content : Option (List Str)) : Prop where
  all : log.flatten ++ content.getD [] = names
  sizes : ∀ b ∈ log, b ≠ [] ∧ b.length ≤ max
  content : ∀ c, content = some c → c ≠ [] ∧ c.length ≤ max

theorem removeInternal_log {max : Nat} {names : List Str} {w : σ × List (List Str)} {d : Data} (h : LogInv max names w.2 d.content) :
    (∃ rest, (removeInternal (logged svc) kind w d).1.2.flatten ++ rest = names) ∧ (∀ b ∈ (removeInternal (logged svc) kind w d).1.2, b ≠ [] ∧ b.length ≤ max) ∧
      ∀ d', (removeInternal (logged svc) kind w d).2 = .ok d' → LogInv max names (removeInternal (logged svc) kind w d).1.2 d'.content ∧ d'.content = none := by
  have hsend : ∀ (w' : σ × List (List Str)) (d1 : Data), w'.2 = w.2 → d1.content = d.content →
      (∃ rest, (send (logged svc) w' d1).1.2.flatten ++ rest = names) ∧ (∀ b ∈ (send (logged svc) w' d1).1.2, b ≠ [] ∧ b.length ≤ max) ∧
        ∀ d', (send (logged svc) w' d1).2 = .ok d' → LogInv max names (send (logged svc) w' d1).1.2 d'.content ∧ d'.content = none := by
    intro w' d1 hw hd
    unfold send
    cases hc : d1.content with
    | none =>
      simp only [hw]
      have hcd : d.content = none := by rw [← hd, hc]
      refine ⟨⟨_, h.all⟩, h.sizes, ?_⟩
      intro d' hd'
      cases hd'
      rw [hd]
      exact ⟨h, hcd⟩
    | some c =>
      have hcd : d.content = some c := by rw [← hd, hc]
      have hall := h.all
      rw [hcd] at hall
      have hsz : ∀ b ∈ w.2 ++ [c], b ≠ [] ∧ b.length ≤ max := by
        intro b hb
        rcases List.mem_append.mp hb with hb | hb
        · exact h.sizes b hb
        · rw [List.mem_singleton.mp hb]; exact h.content c hcd
      have hfl : (w.2 ++ [c]).flatten = names := by rw [← hall]; simp
      obtain ⟨w1, l⟩ := w'
      simp only at hw
      subst hw
      simp only [logged]
      refine ⟨⟨[], by rw [hfl, List.append_nil]⟩, hsz, ?_⟩
      intro d' hd'
      cases hd'
      exact ⟨⟨by rw [hfl]; simp, hsz, by simp⟩, rfl⟩
  unfold removeInternal
  cases hr : d.request with
  | none => exact hsend w d rfl rfl
  | some sr =>
    obtain ⟨sent, reply⟩ := sr
    simp only
    have hl := answer_log (kind := kind) (svc := svc) (sent := sent) (reply := reply) w
    cases ha : answer (logged svc) kind sent reply w with
    | mk w1 res =>
      rw [ha] at hl
      simp only at hl
      cases res with
      | error e =>
        simp only [hl]
        exact ⟨⟨_, h.all⟩, h.sizes, by simp⟩
      | ok u => exact hsend w1 { d with request := none } hl rfl

/-- The names in requests of the files of a listing. -/
def namesOf (kind : Kind) (path : Str) (is : List Info) : List Str := (is.filter (·.file)).map fun i => wireName kind path i.name

theorem callbacks_log {max : Nat} (hmax : 0 < max) {path : Str} (is : List Info) : ∀ {names : List Str} {w : σ × List (List Str)} {d : Data},
    LogInv max names w.2 d.content → (∀ c, d.content = some c → c.length < max) →
    (∃ rest, (callbacks (logged svc) kind max path is w d).1.2.flatten ++ rest = names ++ namesOf kind path is) ∧
      (∀ b ∈ (callbacks (logged svc) kind max path is w d).1.2, b ≠ [] ∧ b.length ≤ max) ∧
      ∀ d', (callbacks (logged svc) kind max path is w d).2 = .ok d' →
        LogInv max (names ++ namesOf kind path is) (callbacks (logged svc) kind max path is w d).1.2 d'.content := by
  induction is with
  | nil =>
    intro names w d h _
    have e : names ++ namesOf kind path [] = names := by simp [namesOf]
    rw [e]
    refine ⟨⟨_, h.all⟩, h.sizes, ?_⟩
    intro d' hd
    cases hd
    exact h
  | cons i is ih =>
    intro names w d h hlt
    unfold callbacks callback
    cases hf : i.file with
    | false =>
      have e : namesOf kind path (i :: is) = namesOf kind path is := by simp [namesOf, hf]
      rw [e]
      exact ih h hlt
    | true =>
      have e : names ++ namesOf kind path (i :: is) = (names ++ [wireName kind path i.name]) ++ namesOf kind path is := by simp [namesOf, hf]
      rw [e]
      have hlen : (d.content.getD []).length < max := by
        cases hc : d.content with
        | none => simpa using hmax
        | some c => exact hlt c hc
      have h' : LogInv max (names ++ [wireName kind path i.name]) w.2 (some (d.content.getD [] ++ [wireName kind path i.name])) := by
        refine ⟨by rw [← h.all]; simp, h.sizes, ?_⟩
        intro c hc
        simp only [Option.some.injEq] at hc
        subst hc
        exact ⟨by simp, by simp; omega⟩
      simp only [if_true]
      by_cases hm : (d.content.getD [] ++ [wireName kind path i.name]).length = max
      · rw [if_pos hm]
        obtain ⟨⟨rest, r1⟩, r2, r3⟩ := removeInternal_log (svc := svc) (kind := kind) (d := { d with content := some (d.content.getD [] ++ [wireName kind path i.name]) }) h'
        cases hr : removeInternal (logged svc) kind w { d with content := some (d.content.getD [] ++ [wireName kind path i.name]) } with
        | mk w1 res =>
          rw [hr] at r1 r2 r3
          cases res with
          | error er => exact ⟨⟨rest ++ namesOf kind path is, by rw [← List.append_assoc, r1]⟩, r2, by simp⟩
          | ok d1 =>
            obtain ⟨h1, h2⟩ := r3 d1 rfl
            exact ih h1 (by rw [h2]; simp)
      · rw [if_neg hm]
        refine ih h' ?_
        intro c hc
        simp only [Option.some.injEq] at hc
        subst hc
        simp only [List.length_append, List.length_cons, List.length_nil] at hm ⊢
        omega

/-- C77: batches are not empty and not larger than the service accepts, and together they are the files of the listing, each once and in order, or with an error the first of them. -/
theorem c77_batches (kind : Kind) (svc : Svc σ) (max : Nat) (hmax : 0 < max) (path : Str) (is : List Info) (w : σ) :
    (∀ b ∈ (pathRemove (logged svc) kind max path is (w, [])).1.2, b ≠ [] ∧ b.length ≤ max) ∧
    (∃ rest, (pathRemove (logged svc) kind max path is (w, [])).1.2.flatten ++ rest = namesOf kind path is ∧
      ((pathRemove (logged svc) kind max path is (w, [])).2 = .ok () → rest = [])) := by
  have h0 : LogInv max [] (w, ([] : List (List Str))).2 (Data.mk none none).content := ⟨by simp, by simp, by simp⟩
  obtain ⟨⟨rest, c1⟩, c2, c3⟩ := callbacks_log (svc := svc) (kind := kind) hmax (path := path) is h0 (by simp)
  rw [List.nil_append] at c1 c3
  unfold pathRemove
  cases hc : callbacks (logged svc) kind max path is (w, []) ⟨none, none⟩ with
  | mk w1 res =>
    rw [hc] at c1 c2 c3
    cases res with
    | error e => exact ⟨c2, rest, c1, by simp⟩
    | ok d =>
      have hi := c3 d rfl
      simp only at hi ⊢
      have hmid : (∃ rest, (if d.content.isSome then removeInternal (logged svc) kind w1 d else (w1, .ok d)).1.2.flatten ++ rest = namesOf kind path is) ∧
          (∀ b ∈ (if d.content.isSome then removeInternal (logged svc) kind w1 d else (w1, .ok d)).1.2, b ≠ [] ∧ b.length ≤ max) ∧
          ∀ d', (if d.content.isSome then removeInternal (logged svc) kind w1 d else (w1, .ok d)).2 = .ok d' →
            LogInv max (namesOf kind path is) (if d.content.isSome then removeInternal (logged svc) kind w1 d else (w1, .ok d)).1.2 d'.content ∧ d'.content = none := by
        split
        · exact removeInternal_log hi
        · rename_i hn
          refine ⟨⟨_, hi.all⟩, hi.sizes, ?_⟩
          intro d' hd
          simp only [Except.ok.injEq] at hd
          subst hd
          exact ⟨hi, by simpa using hn⟩
      cases hm : (if d.content.isSome then removeInternal (logged svc) kind w1 d else (w1, .ok d)) with
      | mk w2 res2 =>
        rw [hm] at hmid
        obtain ⟨⟨rest2, m1⟩, m2, m3⟩ := hmid
        cases res2 with
        | error e => exact ⟨m2, rest2, m1, by simp⟩
        | ok d2 =>
          obtain ⟨i2, hc2⟩ := m3 d2 rfl
          obtain ⟨⟨rest3, r1⟩, r2, r3⟩ := removeInternal_log (svc := svc) (kind := kind) i2
          simp only
          cases hr : removeInternal (logged svc) kind w2 d2 with
          | mk w3 res3 =>
            rw [hr] at r1 r2 r3
            cases res3 with
            | error e => exact ⟨r2, rest3, r1, by simp⟩
            | ok d3 =>
              obtain ⟨i3, hc3⟩ := r3 d3 rfl
              have := i3.all
              rw [hc3] at this
              exact ⟨r2, [], this, fun _ => rfl⟩

/-! ## A service without failures -/

/-- An answer has the form it should have. -/
def Formed (kind : Kind) (sent : List Str) (reply : Res Reply) : Prop := ∃ r, reply = .ok r ∧
  match kind, r with
  | .azure, .parts ps => ps ≠ [] ∧ ps.length ≤ sent.length
  | .gcs, .parts ps => ps ≠ [] ∧ ∀ p ∈ ps, ¬Done p.code → ∃ s i, p.id = some ("response-".toUTF8.toList ++ s) ∧ Num.Numeral 10 s i ∧ i < sent.length ∧ i < 2 ^ 32
  | .s3, .errors _ => True
  | _, _ => False

theorem azure_ok (h : Working kind svc) {sent : List Str} : ∀ (ps : List Part) (idx : Nat) (w : σ), idx + ps.length ≤ sent.length → (azureParts svc sent idx ps w).2 = .ok () := by
  intro ps
  induction ps with
  | nil => intro idx w _; rfl
  | cons p ps ih =>
    intro idx w hl
    simp only [List.length_cons] at hl
    unfold azureParts
    split
    · rw [List.getElem?_eq_getElem (by omega)]
      simp only
      cases hr : svc.remove w sent[idx] with
      | mk w1 res =>
        have := h.remove w sent[idx]
        rw [hr] at this
        simp only at this
        subst this
        exact ih _ _ (by omega)
    · exact ih _ _ (by omega)

theorem gcs_ok (h : Working kind svc) {sent : List Str} : ∀ (ps : List Part) (w : σ),
    (∀ p ∈ ps, ¬Done p.code → ∃ s i, p.id = some ("response-".toUTF8.toList ++ s) ∧ Num.Numeral 10 s i ∧ i < sent.length ∧ i < 2 ^ 32) → (gcsParts svc sent ps w).2 = .ok () := by
  intro ps
  induction ps with
  | nil => intro w _; rfl
  | cons p ps ih =>
    intro w hps
    unfold gcsParts
    split
    · rename_i hf
      obtain ⟨s, i, hid, hn, hi, hi'⟩ := hps p (by simp) ((fine_iff _).mp hf)
      rw [gcsFind_id hid hn hi' (List.getElem?_eq_getElem hi)]
      simp only
      cases hr : svc.remove w sent[i] with
      | mk w1 res =>
        have := h.remove w sent[i]
        rw [hr] at this
        simp only at this
        subst this
        exact ih _ (fun q hq => hps q (by simp [hq]))
    · exact ih _ (fun q hq => hps q (by simp [hq]))

theorem s3_ok (h : Working kind svc) : ∀ (ks : List Str) (w : σ), (s3Errors svc ks w).2 = .ok () := by
  intro ks
  induction ks with
  | nil => intro w; rfl
  | cons k ks ih =>
    intro w
    unfold s3Errors
    cases hr : svc.remove w (47 :: k) with
    | mk w1 res =>
      have := h.remove w (47 :: k)
      rw [hr] at this
      simp only at this
      subst this
      exact ih _

theorem answer_ok (h : Working kind svc) {sent : List Str} {reply : Res Reply} (hf : Formed kind sent reply) (w : σ) : (answer svc kind sent reply w).2 = .ok () := by
  obtain ⟨r, rfl, hr⟩ := hf
  unfold answer
  cases kind <;> cases r <;> simp only at hr ⊢
  · rw [if_neg hr.1]; exact azure_ok h _ _ _ (by omega)
  · rw [if_neg hr.1]; exact gcs_ok h _ _ hr.2
  · exact s3_ok h _ _

structure OkInv (kind : Kind) (d : Data) : Prop where
  content : ∀ c, d.content = some c → c ≠ []
  request : ∀ sent reply, d.request = some (sent, reply) → Formed kind sent reply

theorem send_ok (h : Working kind svc) {d : Data} (hi : OkInv kind d) (w : σ) : ∃ d', (send svc w d).2 = .ok d' ∧ OkInv kind d' := by
  unfold send
  cases hc : d.content with
  | none => exact ⟨d, rfl, hi⟩
  | some c =>
    refine ⟨_, rfl, by simp, ?_⟩
    intro sent reply he
    simp only [Option.some.injEq, Prod.mk.injEq] at he
    obtain ⟨rfl, rfl⟩ := he
    exact h.batch w c (hi.content c hc)

theorem removeInternal_ok (h : Working kind svc) {d : Data} (hi : OkInv kind d) (w : σ) : ∃ d', (removeInternal svc kind w d).2 = .ok d' ∧ OkInv kind d' := by
  unfold removeInternal
  cases hr : d.request with
  | none => exact send_ok h hi w
  | some sr =>
    obtain ⟨sent, reply⟩ := sr
    have := answer_ok h (hi.request sent reply hr) w
    simp only
    cases ha : answer svc kind sent reply w with
    | mk w1 res =>
      rw [ha] at this
      simp only at this
      subst this
      exact send_ok h (d := { d with request := none }) ⟨hi.content, by simp⟩ w1

theorem callbacks_ok (h : Working kind svc) {max : Nat} {path : Str} (is : List Info) : ∀ {d : Data} (w : σ), OkInv kind d →
    ∃ d', (callbacks svc kind max path is w d).2 = .ok d' ∧ OkInv kind d' := by
  induction is with
  | nil => intro d w hi; exact ⟨d, rfl, hi⟩
  | cons i is ih =>
    intro d w hi
    have hcb : ∃ d', (callback svc kind max path w d i).2 = .ok d' ∧ OkInv kind d' := by
      unfold callback
      split
      · have hi' : OkInv kind { d with content := some (d.content.getD [] ++ [wireName kind path i.name]) } := by
          refine ⟨?_, hi.request⟩
          intro c hc
          simp only [Option.some.injEq] at hc
          subst hc
          simp
        simp only
        split
        · exact removeInternal_ok h hi' w
        · exact ⟨_, rfl, hi'⟩
      · exact ⟨d, rfl, hi⟩
    obtain ⟨d1, h1, h2⟩ := hcb
    unfold callbacks
    cases hc : callback svc kind max path w d i with
    | mk w1 res =>
      rw [hc] at h1
      simp only at h1
      subst h1
      exact ih w1 h2

/-- C77: if the service answers as it should then the removal of a path is done, whatever it refuses in batches. -/
theorem c77_done (h : Working kind svc) (max : Nat) (path : Str) (is : List Info) (w : σ) : (pathRemove svc kind max path is w).2 = .ok () := by
  obtain ⟨d1, h1, i1⟩ := callbacks_ok h (max := max) (path := path) is w (d := ⟨none, none⟩) ⟨by simp, by simp⟩
  unfold pathRemove
  cases hc : callbacks svc kind max path is w ⟨none, none⟩ with
  | mk w1 res =>
    rw [hc] at h1
    simp only at h1
    subst h1
    simp only
    have hm : ∃ d', (if d1.content.isSome then removeInternal svc kind w1 d1 else (w1, .ok d1)).2 = .ok d' ∧ OkInv kind d' := by
      split
      · exact removeInternal_ok h i1 w1
      · exact ⟨d1, rfl, i1⟩
    obtain ⟨d2, h2, i2⟩ := hm
    cases hc2 : (if d1.content.isSome then removeInternal svc kind w1 d1 else (w1, .ok d1)) with
    | mk w2 res2 =>
      rw [hc2] at h2
      simp only at h2
      subst h2
      simp only
      obtain ⟨d3, h3, _⟩ := removeInternal_ok h i2 w2
      cases hc3 : removeInternal svc kind w2 d2 with
      | mk w3 res3 =>
        rw [hc3] at h3
        simp only at h3
        subst h3
        rfl

end

/-! ## Examples -/

def txt (s : String) : Str := s.toUTF8.toList

/-- An Azure that removes no more than the first file of a batch, and refuses the others. -/
def busyAzure : Svc (List Str) where
  batch := fun w ks => (w.filter fun x => ks.head? ≠ some x, .ok (.parts (ks.mapIdx fun i _ => ⟨if i = 0 then 202 else 503, none⟩)))
  remove := fun w k => (w.filter (· ≠ k), .ok ())

theorem busyAzure_honest : Honest .azure busyAzure (fun w x => x ∈ w) := by
  refine ⟨?_, ?_, ?_, ?_, ?_, ?_⟩
  · intro w ks x h; exact (List.mem_filter.mp h).1
  · intro w ks x h h'
    simp only [busyAzure, List.mem_filter, h, true_and, decide_not, Bool.not_eq_true', decide_eq_false_iff_not, not_not] at h'
    exact ⟨x, List.mem_of_mem_head? (by rw [h']; rfl), rfl⟩
  · intro w ks r hr
    simp only [busyAzure, Except.ok.injEq] at hr
    subst hr
    intro i k hk
    cases i with
    | zero =>
      left
      have hh : ks.head? = some k := by rw [List.head?_eq_getElem?]; exact hk
      simp [busyAzure, hh]
    | succ i =>
      right
      exact ⟨⟨503, none⟩, by simp [List.getElem?_mapIdx, hk], by simp [Done]⟩
  · intro w k x h; exact (List.mem_filter.mp h).1
  · intro w k x h h'
    simp only [busyAzure, List.mem_filter, h, true_and, decide_not, Bool.not_eq_true', decide_eq_false_iff_not, not_not] at h'
    exact h'
  · intro w k _ h; simp [busyAzure] at h

theorem busyAzure_working : Working .azure busyAzure := by
  refine ⟨?_, fun _ _ => rfl⟩
  intro w ks hks
  exact ⟨_, rfl, by simpa using hks, by simp⟩

def exampleInfos : List Info := [⟨txt "a", true⟩, ⟨txt "p", false⟩, ⟨txt "p/b", true⟩, ⟨txt "p/c", true⟩]
def exampleStore : List Str := [txt "/x/a", txt "/x/p/b", txt "/x/p/c", txt "/y"]

example : pathRemove busyAzure .azure 2 (txt "/x") exampleInfos exampleStore = ([txt "/y"], .ok ()) := by decide +kernel

example : (pathRemove (logged busyAzure) .azure 2 (txt "/x") exampleInfos (exampleStore, [])).1.2 = [[txt "/x/a", txt "/x/p/b"], [txt "/x/p/c"]] := by decide +kernel

/-- A GCS that answers in reverse. -/
def busyGcs : Svc (List Str) where
  batch := fun w ks => (w.filter fun x => ks.head? ≠ some x,
    .ok (.parts (ks.mapIdx fun i _ => ⟨if i = 0 then 204 else 503, some (txt "response-" ++ [48 + i.toUInt8])⟩).reverse))
  remove := fun w k => (w.filter (· ≠ k), .ok ())

example : pathRemove busyGcs .gcs 3 (txt "/x") exampleInfos exampleStore = ([txt "/y"], .ok ()) := by decide +kernel

/-- An S3 that refuses all but the first. -/
def busyS3 : Svc (List Str) where
  batch := fun w ks => (w.filter fun x => (ks.head?.map (47 :: ·)) ≠ some x, .ok (.errors ks.tail))
  remove := fun w k => (w.filter (· ≠ k), .ok ())

example : pathRemove busyS3 .s3 1000 (txt "/x") exampleInfos exampleStore = ([txt "/y"], .ok ()) := by decide +kernel

theorem busyS3_honest : Honest .s3 busyS3 (fun w x => x ∈ w) := by
  refine ⟨?_, ?_, ?_, ?_, ?_, ?_⟩
  · intro w ks x h; exact (List.mem_filter.mp h).1
  · intro w ks x h h'
    simp only [busyS3, List.mem_filter, h, true_and, decide_not, Bool.not_eq_true', decide_eq_false_iff_not, not_not] at h'
    cases ks with
    | nil => simp at h'
    | cons k ks => exact ⟨k, by simp, by simpa [object] using h'.symm⟩
  · intro w ks r hr
    simp only [busyS3, Except.ok.injEq] at hr
    subst hr
    refine ⟨?_, fun k hk => List.mem_of_mem_tail hk⟩
    intro k hk
    cases ks with
    | nil => simp at hk
    | cons q ks =>
      rcases List.mem_cons.mp hk with rfl | hk
      · left; simp [busyS3]
      · right; exact hk
  · intro w k x h; exact (List.mem_filter.mp h).1
  · intro w k x h h'
    simp only [busyS3, List.mem_filter, h, true_and, decide_not, Bool.not_eq_true', decide_eq_false_iff_not, not_not] at h'
    exact h'
  · intro w k _ h; simp [busyS3] at h

/-- A GCS that refuses the first and says nothing of the others but that one was removed. -/
def firstGcs : Svc (List Str) where
  batch := fun w ks => (w.filter (· ∉ ks.tail), .ok (.parts [⟨204, none⟩, ⟨429, some (txt "response-" ++ txt "0")⟩]))
  remove := fun w k => (w.filter (· ≠ k), .ok ())

theorem firstGcs_honest : Honest .gcs firstGcs (fun w x => x ∈ w) := by
  refine ⟨?_, ?_, ?_, ?_, ?_, ?_⟩
  · intro w ks x h; exact (List.mem_filter.mp h).1
  · intro w ks x h h'
    simp only [firstGcs, List.mem_filter, h, true_and, decide_not, Bool.not_eq_true', decide_eq_false_iff_not, not_not] at h'
    exact ⟨x, List.mem_of_mem_tail h', rfl⟩
  · intro w ks r hr
    simp only [firstGcs, Except.ok.injEq] at hr
    subst hr
    intro i k hk
    cases i with
    | zero => exact .inr ⟨⟨429, some (txt "response-" ++ txt "0")⟩, by simp, by simp [Done], txt "0", rfl, ⟨by decide +kernel, [0], by decide +kernel, by decide +kernel⟩, by decide⟩
    | succ i =>
      left
      have : k ∈ ks.tail := List.mem_of_getElem? (i := i) (by rw [List.getElem?_tail]; exact hk)
      simp [firstGcs, this]
  · intro w k x h; exact (List.mem_filter.mp h).1
  · intro w k x h h'
    simp only [firstGcs, List.mem_filter, h, true_and, decide_not, Bool.not_eq_true', decide_eq_false_iff_not, not_not] at h'
    exact h'
  · intro w k _ h; simp [firstGcs] at h

example : pathRemove firstGcs .gcs 2 (txt "/x") exampleInfos exampleStore = ([txt "/y"], .ok ()) := by decide +kernel

/-- An Azure of which the answer has one part only, whatever it was asked. -/
def shortAzure : Svc (List Str) where
  batch := fun w ks => (w.filter fun x => ks.head? ≠ some x, .ok (.parts [⟨202, none⟩]))
  remove := fun w k => (w.filter (· ≠ k), .ok ())

/-- C77: that there are as many parts as requests is not looked at. If there are fewer (for instance because the answer was cut, see `c76_cut_not_seen`) then files are left and the removal is
said to be done. -/
theorem c77_missing_parts : pathRemove shortAzure .azure 256 (txt "/x") exampleInfos exampleStore = ([txt "/x/p/b", txt "/x/p/c", txt "/y"], .ok ()) := by decide +kernel

theorem c77_missing_parts_gcs : pathRemove shortAzure .gcs 100 (txt "/x") exampleInfos exampleStore = ([txt "/x/p/b", txt "/x/p/c", txt "/y"], .ok ()) := by decide +kernel

/-- An S3 that names a key in its errors that it was not asked to remove. -/
def oddS3 : Svc (List Str) where
  batch := fun w ks => (w.filter fun x => x ∉ ks.map (47 :: ·), .ok (.errors [txt "y"]))
  remove := fun w k => (w.filter (· ≠ k), .ok ())

/-- C77: a key in the errors of S3 is not compared with what was asked: it is removed. -/
theorem c77_s3_any_key : pathRemove oddS3 .s3 1000 (txt "/x") exampleInfos exampleStore = ([], .ok ()) := by decide +kernel

end Verif.Batch
