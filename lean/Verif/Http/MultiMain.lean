import Verif.Http.MultiProps
import Verif.Http.RespExamples

/-!
# C76: the parts of a multipart message are read as they were written
-/

namespace Verif.Http

open Spec

/-- Letters and digits, which a boundary may have without quotes (RFC 2046, 5.1.1). -/
def Spec.Alnum (c : UInt8) : Prop := (48 ≤ c ∧ c ≤ 57) ∨ (65 ≤ c ∧ c ≤ 90) ∨ (97 ≤ c ∧ c ≤ 122)

theorem boundary_alnum : ∀ c ∈ boundaryFull, (48 ≤ c ∧ c ≤ 57) ∨ (65 ≤ c ∧ c ≤ 90) ∨ (97 ≤ c ∧ c ≤ 122) := by decide +kernel

theorem delim_short {b t : Str} (h : t.length < b.length + 4) : ¬Occurs (delim b) t := by
  rintro ⟨x, y, rfl⟩
  simp [delim] at h
  omega

/-- C76: whatever the parts of a request are, the request is a multipart message of these parts with a boundary that is in none of them and that is fit for the header, and a
reader of the message that goes by the header finds these parts and no others. The only parts that are refused are those with all 68 bytes of the longest boundary. -/
theorem c76_request (cs : List Str) (h : cs ≠ []) :
    (∃ m, reqAddAll reqNew cs = .ok m ∧ reqContent m = multi m.boundary [] cs [45, 45, 13, 10] ∧ (∀ c ∈ cs, ¬Occurs m.boundary c) ∧
      m.boundary ≠ [] ∧ m.boundary.length ≤ 70 ∧ (∀ c ∈ m.boundary, Alnum c) ∧
      ∃ r, multiNew (reqContent m) (some (reqType m)) = .ok r ∧ ∀ k, cs.length < k → multiRaw k r = cs) ∨
    (reqAddAll reqNew cs = .error .assert ∧
      ∃ c ∈ cs, Occurs (txt "QKX4EYg4LARJ52gF4F239iNVrrC5w5aYskcGrWCXIFlMp5IxswggIhcX2A0gF9nrgN8q") c) := by
  have efull : txt "QKX4EYg4LARJ52gF4F239iNVrrC5w5aYskcGrWCXIFlMp5IxswggIhcX2A0gF9nrgN8q" = boundaryFull := by decide +kernel
  rw [efull]
  rcases reqAddAll_spec cs reqInv_new with ⟨m, h1, ⟨j, hj, hb, ho⟩, h3⟩ | h
  · have h3 : m.contents = cs := by simpa [reqNew] using h3
    rw [h3] at ho
    obtain ⟨hl, h13, hne, hq⟩ := boundary_length j hj
    rw [← hb] at hl h13 hne hq
    have hc : reqContent m = multi m.boundary [] cs [45, 45, 13, 10] := by
      unfold reqContent multi
      rw [h3, ← reqParts_body m.boundary cs h]
      simp [delim]
    refine .inl ⟨m, h1, hc, ho, hne, by omega, ?_, ⟨delim m.boundary, [45, 45] ++ m.boundary ++ body m.boundary [45, 45, 13, 10] cs⟩, ?_, ?_⟩
    · intro c hcm
      rw [hb] at hcm
      exact boundary_alnum c (List.mem_of_mem_take hcm)
    · rw [hc]
      exact multiNew_spec (boundaryOf_plain hq) h13 (.inl rfl) (by rintro ⟨x, y, hxy⟩; have := congrArg List.length hxy; simp at this) h
    · intro k hk
      refine multiRaw_spec h13 (delim_short (by simp; omega)) cs k hk ?_
      intro p hp hop
      refine ho p hp ?_
      obtain ⟨x, y, rfl⟩ := hop
      exact ⟨x ++ [13, 10, 45, 45], y, by simp [delim]⟩
  · exact .inr h

/-- What a part says is what is read of it. -/
def Spec.Says (p : Part) (x : Resp × Str) : Prop :=
  Num.Numeral 10 p.code x.1.code ∧ x.1.reason = p.reason ∧ (∀ k, get x.1.header k = p.field k) ∧ x.2 = p.data

/-- The type of the message: the boundary with or without quotes. -/
def Spec.TypeOf (b ty : Str) : Prop :=
  (ty = txt "multipart/mixed; boundary=" ++ b ∧ b.head? ≠ some 34) ∨ ty = txt "multipart/mixed; boundary=" ++ ([34] ++ b ++ [34])

theorem multiAll_spec {cap fuel : Nat} {b t : Str} (hb : 13 ∉ b) (ht : ¬Occurs (delim b) t) : ∀ (ps : List Part) (k : Nat), ps.length < k →
    (∀ p ∈ ps, p.Valid cap ∧ ¬Occurs (delim b) p.wire ∧ p.wire.length < fuel) →
    ∃ xs, multiAll fuel cap k ⟨delim b, [45, 45] ++ b ++ body b t (ps.map Part.wire)⟩ = some (.ok xs) ∧ List.Forall₂ Says ps xs := by
  intro ps
  induction ps with
  | nil =>
    intro k hk _
    cases k with
    | zero => simp at hk
    | succ k =>
      have := multiPart_end ht
      refine ⟨[], ?_, .nil⟩
      unfold multiAll
      simp only [List.map_nil, body]
      cases hm : multiPart ⟨delim b, [45, 45] ++ b ++ t⟩ with
      | mk m o => rw [hm] at this; simp only at this; subst this; rfl
  | cons p ps ih =>
    intro k hk hps
    cases k with
    | zero => simp at hk
    | succ k =>
      obtain ⟨hv, hd, hl⟩ := hps p (by simp)
      have := multiPart_step (t := body b t (ps.map Part.wire)) hb hd
      have e : [45, 45] ++ b ++ body b t ((p :: ps).map Part.wire) = [45, 45] ++ b ++ [13, 10] ++ p.wire ++ (delim b ++ body b t (ps.map Part.wire)) := by simp [body]
      obtain ⟨r, hr, s1, s2, s3⟩ := partRead_spec hv hl
      obtain ⟨xs, hx, hxs⟩ := ih k (by simpa using hk) (fun q hq => hps q (by simp [hq]))
      refine ⟨(r, p.data) :: xs, ?_, .cons ⟨s1, s2, s3, rfl⟩ hxs⟩
      unfold multiAll
      rw [e, this]
      simp only [hr, hx]

theorem len_le_sum {p : Part} : ∀ {ps : List Part}, p ∈ ps → p.wire.length ≤ (ps.map fun p => p.wire.length).sum := by
  intro ps
  induction ps with
  | nil => simp
  | cons q ps ih =>
    intro h
    simp only [List.map_cons, List.sum_cons]
    rcases List.mem_cons.mp h with rfl | h
    · omega
    · have := ih h
      omega

/-- C76: the parts of a multipart response are read in order, each with the code, the reason, the fields and the data that it has, whatever the boundary, whatever comes before the
first and after the last delimiter, and whether or not the head of the response in a part is ended by a blank line. What comes after the last delimiter may be anything without a
delimiter, so that this also says what is read of a message that was cut: the parts that are complete. -/
theorem c76_response (cap : Nat) (b pre rest ty : Str) (ps : List Part) (hty : TypeOf b ty) (hb : 13 ∉ b) (hpre : pre = [] ∨ ∃ q, pre = q ++ crlf)
    (hpre' : ¬Occurs ([45, 45] ++ b) pre) (hrest : ¬Occurs (delim b) rest) (h0 : ps ≠ []) (hps : ∀ p ∈ ps, p.Valid cap ∧ ¬Occurs (delim b) p.wire) :
    ∃ m, multiNew (multi b pre (ps.map Part.wire) rest) (some ty) = .ok m ∧
      ∃ n, ∀ fuel k, n ≤ fuel → n ≤ k → ∃ xs, multiAll fuel cap k m = some (.ok xs) ∧ List.Forall₂ Says ps xs := by
  have hty' : boundaryOf (some ty) = .ok b := by
    rcases hty with ⟨rfl, h⟩ | rfl
    · exact boundaryOf_plain h
    · exact boundaryOf_quoted b
  refine ⟨_, multiNew_spec hty' hb hpre hpre' (by simpa using h0), ps.length + (ps.map fun p => p.wire.length).sum + 1, ?_⟩
  intro fuel k hf hk
  refine multiAll_spec hb hrest ps k (by omega) ?_
  intro p hp
  refine ⟨(hps p hp).1, (hps p hp).2, ?_⟩
  have := len_le_sum hp
  omega

/-- C76: a message of another type, or without the boundary that the type says, is an error. -/
theorem c76_refused (content : Str) :
    multiNew content none = .error .format ∧
    (∀ ty, ¬(txt "multipart/mixed; boundary=" <+: ty) → multiNew content (some ty) = .error .format) ∧
    (∀ b ty, TypeOf b ty → ¬Occurs ([45, 45] ++ b ++ crlf) content → multiNew content (some ty) = .error .format) := by
  refine ⟨rfl, ?_, ?_⟩
  · intro ty h
    unfold multiNew boundaryOf
    simp only
    rw [if_neg (show ¬typeMulti <+: ty from h)]
    rfl
  · intro b ty hty ho
    have hty' : boundaryOf (some ty) = .ok b := by
      rcases hty with ⟨rfl, h⟩ | rfl
      · exact boundaryOf_plain h
      · exact boundaryOf_quoted b
    unfold multiNew
    rw [hty']
    simp only [bind, Except.bind]
    rw [(find_none (by simp) _).mpr (show ¬Occurs ([45, 45] ++ b ++ [13, 10]) content from ho)]

/-- C76: a part of which the last line of the head has no line end of its own is never read to the end: the end of the part is given as a line again and again, for any number of turns. -/
theorem c76_head_never_ends : ∀ k r, headerRead true k r ⟨txt "a: b", false, 100⟩ = none := by
  have h : ∀ k r e, headerRead true k r ⟨txt "a: b", e, 100⟩ = none := by
    intro k
    induction k with
    | zero => intro r e; rfl
    | succ k ih =>
      intro r e
      have hl : Conn.line ⟨txt "a: b", e, 100⟩ true = .ok (⟨txt "a: b", true, 100⟩, txt "a: b") := by cases e <;> decide +kernel
      have ht : trim (txt "a: b") = txt "a: b" := by decide +kernel
      have hp : headerParse r (txt "a: b") = .ok { r with header := headerAdd r.header (txt "a") (txt "b") } := by
        have h1 : strChr (txt "a: b") 58 = some 1 := by decide +kernel
        have h2 : lower (trim ((txt "a: b").take 1)) = txt "a" := by decide +kernel
        have h3 : trim ((txt "a: b").drop 2) = txt "b" := by decide +kernel
        unfold headerParse
        rw [h1]
        simp only [h2, h3]
        rw [if_neg (by decide +kernel), if_neg (by decide +kernel), if_neg (by decide +kernel)]
        rfl
      simp only [headerRead, hl, ht, hp]
      rw [if_neg (by decide +kernel)]
      exact ih _ _
  exact fun k r => h k r false

/-! ## Examples -/

/-- A message as an object store sends it: the second part has no blank line at its end. -/
def exampleParts : List Part := [
  ⟨[⟨txt "Content-Type", txt " ", txt "application/http", []⟩, ⟨txt "Content-ID", txt ": " |>.drop 1, txt "0", []⟩], false, txt "202", txt "Accepted",
    [⟨txt "x-id", [], txt "7", []⟩], true, txt "some --b data"⟩,
  ⟨[⟨txt "content-type", [], txt "application/http", []⟩], false, txt "404", txt "Not Found", [⟨txt "Content-Length", txt " ", txt "0", []⟩], false, []⟩]

theorem field_ok {cap : Nat} {f : Field} (h1 : ((f.name.head?.any fun c => !isTrim c) = true ∧ (f.name.getLast?.any fun c => !isTrim c) = true) ∧ ∀ c ∈ f.name, c ≠ 58 ∧ c ≠ 10 ∧ c ≠ 0)
    (h2 : ∀ c ∈ f.pre, c = 32 ∨ c = 9) (h3 : ((f.value.head?.any fun c => !isTrim c) = true ∧ (f.value.getLast?.any fun c => !isTrim c) = true) ∧ ∀ c ∈ f.value, c ≠ 10 ∧ c ≠ 0)
    (h4 : ∀ c ∈ f.post, c = 32 ∨ c = 9) (h5 : f.wire.length ≤ cap) : f.Valid cap :=
  ⟨⟨solid_ex h1.1, h1.2⟩, h2, ⟨.inr (solid_ex h3.1), h3.2⟩, h4, h5⟩

theorem exampleParts_valid : ∀ p ∈ exampleParts, p.Valid 100 ∧ ¬Occurs (delim (txt "b")) p.wire := by
  intro p hp
  simp only [exampleParts, List.mem_cons, List.not_mem_nil, or_false] at hp
  rcases hp with rfl | rfl
  · refine ⟨⟨by decide, ⟨⟨202, numeral_ex [2, 0, 2] 202 (by decide +kernel) (by decide +kernel) (by decide +kernel)⟩, by decide +kernel⟩, by decide +kernel, by decide +kernel, ?_,
      by decide +kernel, ?_, by decide +kernel, by decide +kernel⟩, ?_⟩
    · intro f hf
      simp only [Part.all, List.mem_cons, List.not_mem_nil, or_false, List.cons_append, List.nil_append] at hf
      rcases hf with rfl | rfl | rfl <;> exact field_ok (by decide +kernel) (by decide +kernel) (by decide +kernel) (by decide +kernel) (by decide +kernel)
    · intro f hf hk
      have : ∀ f ∈ ([⟨txt "Content-Type", txt " ", txt "application/http", []⟩, ⟨txt "Content-ID", txt ": " |>.drop 1, txt "0", []⟩] ++ [⟨txt "x-id", [], txt "7", []⟩] : List Field), f.key ≠ cl := by decide +kernel
      exact absurd hk (this f hf)
    · rw [← find_none (by simp [delim])]; decide +kernel
  · refine ⟨⟨by decide, ⟨⟨404, numeral_ex [4, 0, 4] 404 (by decide +kernel) (by decide +kernel) (by decide +kernel)⟩, by decide +kernel⟩, by decide +kernel, by decide +kernel, ?_,
      by decide +kernel, ?_, by decide +kernel, by decide +kernel⟩, ?_⟩
    · intro f hf
      simp only [Part.all, List.mem_cons, List.not_mem_nil, or_false, List.cons_append, List.nil_append] at hf
      rcases hf with rfl | rfl <;> exact field_ok (by decide +kernel) (by decide +kernel) (by decide +kernel) (by decide +kernel) (by decide +kernel)
    · intro f hf hk
      simp only [Part.all, List.mem_cons, List.not_mem_nil, or_false, List.cons_append, List.nil_append] at hf
      rcases hf with rfl | rfl
      · exact absurd hk (by decide +kernel)
      · exact ⟨0, numeral_ex [0] 0 (by decide +kernel) (by decide +kernel) (by decide +kernel), by decide⟩
    · rw [← find_none (by simp [delim])]; decide +kernel

/-- What one sees of a response with many parts. -/
def seenParts (ty s : String) : Option (Res (List (Nat × Str × Str))) :=
  match multiNew (txt s) (some (txt ty)) with
  | .error e => some (.error e)
  | .ok m => (multiAll 20 100 10 m).map (·.map (·.map fun (r, d) => (r.code, r.reason, d)))

def exampleWire : String :=
  "skip\r\n--b\r\nContent-Type: application/http\r\n\r\nHTTP/1.1 202 Accepted\r\nx-id:7\r\n\r\nsome --b data" ++
  "\r\n--b\r\ncontent-type:application/http\r\n\r\nHTTP/1.1 404 Not Found\r\nContent-Length: 0\r\n\r\n--b--\r\n"

example : seenParts "multipart/mixed; boundary=b" exampleWire =
    some (.ok [(202, txt "Accepted", txt "some --b data"), (404, txt "Not Found", [])]) := by decide +kernel
example : seenParts "multipart/mixed; boundary=\"b\"" exampleWire =
    some (.ok [(202, txt "Accepted", txt "some --b data"), (404, txt "Not Found", [])]) := by decide +kernel

/-- C76: a message that was cut after its first part is not an error: one part is read of two. -/
theorem c76_cut_not_seen : seenParts "multipart/mixed; boundary=b"
    ("--b\r\nContent-Type: application/http\r\n\r\nHTTP/1.1 202 Accepted\r\n\r\n" ++ "\r\n--b\r\ncontent-type:application/http\r\n\r\nHTTP/1.1 404 Not F") =
    some (.ok [(202, txt "Accepted", [])]) := by decide +kernel

/-- The first boundary is in the second part, so that the boundary is made longer. -/
example : (reqAddAll reqNew [txt "one", txt "two QKX4EYg4", txt "three"]).map (·.boundary) = .ok (txt "QKX4EYg4LARJ") := by decide +kernel

/-- A boundary that is longer than it has to be is not made shorter. -/
example : (reqAddAll reqNew [txt "QKX4EYg4LARJ", txt "QKX4EYg4"]).map reqContent =
    .ok (txt "--QKX4EYg4LARJ52gF\r\nQKX4EYg4LARJ\r\n--QKX4EYg4LARJ52gF\r\nQKX4EYg4\r\n--QKX4EYg4LARJ52gF--\r\n") := by decide +kernel

end Verif.Http
