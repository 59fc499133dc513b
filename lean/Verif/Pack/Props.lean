import Verif.Pack.ReadSim
import Verif.Pack.WriteLemmas
import Verif.Pack.Local

/-!
# C69: what is written to a pack is what is read from it

`docOf` says which fields a sequence of writing calls makes, `specReads` what reading calls find in such fields; neither knows bytes.
-/

namespace Verif.Pack

/-- A pack that is read from its start. -/
def start (doc : Doc) : List Cur := [⟨.obj, 0, false, doc⟩]

theorem start_rel {doc : Doc} (h : DocOk 0 doc) (io : Option Nat) (hc : CapOk io) (sfx : Str) :
    RelS (readNew io (encD 0 doc ++ [0] ++ sfx)) (start doc) sfx := by
  refine ⟨hc, rfl, ?_, ⟨h, (by decide : 0 < idLimit)⟩, by simp⟩
  simp [Top, readNew, tailBytes]

/-- Every sequence of calls that makes a pack succeeds, and the bytes it gives are the same in memory and through a stream with a buffer
of any size. Read back, in memory or through a stream with a buffer of any size, with anything after them, they give for each sequence
of calls what is in the fields: the same values, the same defaults for those that are missing, and an error at the same call. When the
pack was read to its end, exactly its bytes were taken. -/
theorem c69_read_back (ws : List WOp) (doc : Doc) (hw : docOf ws = some doc) :
    ∃ bytes, (∀ io, writeAll io ws = .ok bytes) ∧
      ∀ (io : Option Nat) (sfx : Str) (rs : List ROp) (res : Res (List Out × List Cur)), CapOk io → specReads (start doc) rs = some res →
        (∀ e, res = .error e → reads (readNew io (bytes ++ sfx)) rs = .error e) ∧
        (∀ os st, res = .ok (os, st) → ∃ r, reads (readNew io (bytes ++ sfx)) rs = .ok (os, r) ∧ (st = [] → r.rest = sfx)) := by
  refine ⟨encD 0 doc ++ [0], fun io => (writeAll_eq io ws doc hw).1, ?_⟩
  intro io sfx rs res hc hs
  have hd := (writeAll_eq none ws doc hw).2
  obtain ⟨h1, h2⟩ := reads_sim sfx rs _ _ res (start_rel hd io hc sfx) hs
  refine ⟨h1, ?_⟩
  intro os st ho
  obtain ⟨r, e1, e2⟩ := h2 os st ho
  refine ⟨r, e1, ?_⟩
  intro hst
  subst hst
  exact e2.2

/-- A pack that was cut off is never read to its end: calls that read all of it end with an error. -/
theorem c69_truncated (ws : List WOp) (doc : Doc) (hw : docOf ws = some doc) (bytes : Str) (io' : Option Nat)
    (hb : writeAll io' ws = .ok bytes) (rs : List ROp) (os : List Out) (hr : specReads (start doc) rs = some (.ok (os, []))) (io : Option Nat)
    (hc : CapOk io) (p x : Str) (hp : bytes = p ++ x) (hx : x ≠ []) : ∃ e, reads (readNew io p) rs = .error e := by
  cases h : reads (readNew io p) rs with
  | error e => exact ⟨e, rfl⟩
  | ok q =>
    exfalso
    obtain ⟨bytes', h1, h2⟩ := c69_read_back ws doc hw
    have : bytes' = bytes := by have := h1 io'; rw [hb] at this; simpa using this.symm
    subst this
    obtain ⟨r, e1, e2⟩ := (h2 io [] rs _ hc hr).2 os [] rfl
    obtain ⟨_, e3⟩ := loc_reads rs x (readNew io p) q.1 q.2 hc h
    have : app x (readNew io p) = readNew io (bytes' ++ []) := by simp [app, readNew, hp]
    simp only at e3
    rw [this, e1] at e3
    simp only [Except.ok.injEq, Prod.mk.injEq] at e3
    have hr' := e2 rfl
    rw [e3.2] at hr'
    simp [app, hx] at hr'

/-- Fields must be written with ascending numbers: a number that is not greater than the last one is an error. -/
theorem c69_ascending (ws : List WOp) (o : Open) (os : List Open) (hw : ws.foldlM specWrite [⟨.obj, 0, 0, 0, []⟩] = some (o :: os))
    (io : Option Nat) (id : Nat) (h0 : id ≠ 0) (h1 : id ≤ o.last) (v dv : UInt32) (s : Str) :
    writeAll io (ws ++ [.u32 id v true dv]) = .error .assert ∧ writeAll io (ws ++ [.bin id (some s)]) = .error .assert ∧
    writeAll io (ws ++ [.objBegin id]) = .error .assert := by
  have hrel : WRel (writeNew io) ⟨.obj, 0, 0, 0, []⟩ [] :=
    ⟨rfl, by simp [W.out, writeNew, openBytes, encD], fun _ => rfl, ⟨rfl, by simp [idLimit], by unfold DocOk; trivial⟩, trivial⟩
  obtain ⟨w1, o1, os1, a1, a2, a3, a4⟩ := writes_sim ws _ _ _ _ hrel hw
  simp only [List.cons.injEq] at a2
  obtain ⟨rfl, rfl⟩ := a2
  have key : ∀ ty value, writeTag w1 ty id value = .error .assert := by
    intro ty value
    unfold writeTag
    rw [a3.stack]
    simp only
    rw [if_pos ⟨h0, by simp only [openFrame]; omega⟩]
  have fin : ∀ op, write w1 op = .error .assert → writeAll io (ws ++ [op]) = .error .assert := by
    intro op hop
    unfold writeAll
    rw [List.foldlM_append, a1]
    simp [bind, Except.bind, hop]
  refine ⟨fin _ ?_, fin _ ?_, fin _ ?_⟩
  · simp [write, writeDefault, key]
  · simp [write, writeBin, writeBytes, writeDefault, key, bind, Except.bind]
  · simp [write, writeBegin, key, bind, Except.bind]

/-- A container is ended as what it was begun, and what is not open is not ended. -/
theorem c69_end_kind (ws : List WOp) (o : Open) (os : List Open) (hw : ws.foldlM specWrite [⟨.obj, 0, 0, 0, []⟩] = some (o :: os))
    (io : Option Nat) :
    ((os = [] ∨ o.kind ≠ .array) → writeAll io (ws ++ [.arrayEnd]) = .error .format) ∧
    ((os = [] ∨ o.kind ≠ .obj) → writeAll io (ws ++ [.objEnd]) = .error .format) := by
  have hrel : WRel (writeNew io) ⟨.obj, 0, 0, 0, []⟩ [] :=
    ⟨rfl, by simp [W.out, writeNew, openBytes, encD], fun _ => rfl, ⟨rfl, by simp [idLimit], by unfold DocOk; trivial⟩, trivial⟩
  obtain ⟨w1, o1, os1, a1, a2, a3, a4⟩ := writes_sim ws _ _ _ _ hrel hw
  simp only [List.cons.injEq] at a2
  obtain ⟨rfl, rfl⟩ := a2
  have key : ∀ kind, (os = [] ∨ o.kind ≠ kind) → writeEndOf w1 kind = .error .format := by
    intro kind h
    unfold writeEndOf
    rw [a3.stack]
    cases os with
    | nil => rfl
    | cons p os =>
      simp only [List.map_cons]
      rw [if_pos]
      simpa [openFrame] using h
  constructor <;> intro h <;>
  · unfold writeAll
    rw [List.foldlM_append, a1]
    simp [bind, Except.bind, write, key _ h]

/-! ## Cases that meet the hypotheses -/

/-- An object in an array, gaps, defaults, values of one and more bytes. -/
def exampleWrites : List WOp :=
  [.bool 0 true false false, .null, .i32 0 (-7) false 0, .u32 0 5 false 5, .arrayBegin 9, .objBegin 0, .str 3 (some [0x61, 0x62]) false none,
   .bin 0 (some []), .objEnd, .u64 0 300 true 0, .arrayEnd, .strLst 0 (some [some [0x78], some []]), .strLst 0 none]

/-- They make these bytes. -/
theorem c69_example_bytes : writeAll (some 3) exampleWrites =
    .ok [0x28, 0x39, 0xd, 0x15, 0x50, 0x7a, 0x2, 0x61, 0x62, 0xf0, 0x1, 0x0, 0x98, 0xac, 0x2, 0x0, 0x10, 0x78, 0x1, 0x78, 0x70, 0x0, 0x0] := by
  decide +kernel

/-- Reading calls for them: a missing field has its default, and numbers may be passed over. -/
def exampleReads : List ROp :=
  [.bool 0 false, .null 0, .i32 0 0, .u32 0 5, .arrayBegin 9, .objBegin 0, .str 3 none, .objEnd, .next, .u64 0 0, .arrayEnd, .strLst 0, .strLst 0,
   .u32 77 1, .end]

def exampleOuts : List Out :=
  [.bool true, .bool true, .int (-7), .nat 5, .none, .none, .bytes (some [0x61, 0x62]), .none, .next (some (2, .u64)), .nat 300, .none,
   .list (some [some [0x78], some []]), .list none, .nat 1, .none]

example : ∃ doc, docOf exampleWrites = some doc ∧ specReads (start doc) exampleReads = some (.ok (exampleOuts, [])) :=
  ⟨[(1, .leaf (.bool true)), (3, .leaf (.i32 (-7))),
    (9, .arr [(1, .obj [(3, .leaf (.str [0x61, 0x62])), (4, .leaf (.bin []))]), (2, .leaf (.u64 300))]),
    (10, .arr [(1, .leaf (.str [0x78])), (2, .leaf (.str []))])], rfl, rfl⟩

/-! ## What is not so -/

/-- A container that is passed over is not passed: the fields in it are taken as fields of the container around it. Here field 2 is 7 but
5 is read, which is field 1 of the object in field 1, and the pack is then read to its end without an error. -/
theorem c69_skip_container :
    docOf [.objBegin 0, .u32 0 5 true 0, .objEnd, .u32 0 7 true 0] = some [(1, .obj [(1, .leaf (.u32 5))]), (2, .leaf (.u32 7))] ∧
    ∃ bytes, writeAll none [.objBegin 0, .u32 0 5 true 0, .objEnd, .u32 0 7 true 0] = .ok bytes ∧
      (reads (readNew none bytes) [.u32 2 0, .end]).map (fun p => p.1) = .ok [.nat 5, .none] :=
  ⟨rfl, [80, 136, 5, 0, 136, 7, 0], by decide +kernel, by decide +kernel⟩

/-- A container that is missing can be begun: this is not an error, and the fields after it are taken as its own. -/
theorem c69_missing_container :
    ∃ bytes, writeAll none [.u32 0 7 true 0] = .ok bytes ∧
      (reads (readNew none bytes) [.u32 0 0, .objBegin 5, .u32 0 1, .objEnd]).map (fun p => p.1) = .ok [.nat 7, .none, .nat 1, .none] :=
  ⟨[136, 7, 0], by decide +kernel, by decide +kernel⟩

/-- A pack with a container that was not ended is written without an error, but it cannot be read to its end. -/
theorem c69_unclosed :
    docOf [.objBegin 0, .u32 0 7 true 0] = none ∧
    ∃ bytes, writeAll none [.objBegin 0, .u32 0 7 true 0] = .ok bytes ∧
      (reads (readNew none bytes) [.objBegin 0, .u32 0 0, .objEnd]).map (fun p => p.1) = .ok [.none, .nat 7, .none] ∧
      (reads (readNew none bytes) [.objBegin 0, .u32 0 0, .objEnd, .end]).map (fun p => p.1) = .error .format :=
  ⟨rfl, [80, 136, 7, 0], by decide +kernel, by decide +kernel, by decide +kernel⟩

/-- A list of strings with a NULL in it is written in full but read up to the NULL. -/
theorem c69_list_null :
    ∃ bytes, writeAll none [.strLst 0 (some [some [0x61], none, some [0x62]])] = .ok bytes ∧
      (reads (readNew none bytes) [.strLst 0, .end]).map (fun p => p.1) = .ok [.list (some [some [0x61]]), .none] :=
  ⟨[16, 120, 1, 97, 121, 1, 98, 0, 0], by decide +kernel, by decide +kernel⟩

end Verif.Pack
