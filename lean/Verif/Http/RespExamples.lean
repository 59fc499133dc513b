import Verif.Http.RespMain

/-!
# C75: examples, and what is read that should not be
-/

namespace Verif.Http

open Spec

def txt (s : String) : Str := s.toUTF8.toList

/-- A response in two chunks, the first with an extension, and with a trailer. -/
def exampleMsg : Msg where
  old := false
  code := txt "200"
  reason := txt "OK"
  fields := [⟨txt "Transfer-Encoding", txt " ", txt "Chunked", []⟩, ⟨txt "x-a", txt " ", txt "1", txt " "⟩, ⟨txt "X-A", [], txt "2", []⟩, ⟨txt "x-b", [], [], []⟩]
  body := .chunks [⟨[], txt "3", [], txt ";a=b", txt "abc"⟩, ⟨[], txt "0A", txt " ", [], txt "defghijklm"⟩] ⟨[], txt "0", [], [], []⟩ [txt "x: y"]

theorem numeral_ex {base : Nat} {s : Str} (ds : List Nat) (v : Nat) (h0 : s ≠ []) (h : s.map (Num.digitOf base) = ds.map some) (hv : v = Num.valueOf base ds) :
    Num.Numeral base s v := ⟨h0, ds, h, hv⟩

theorem solid_ex {s : Str} (h : (s.head?.any fun c => !isTrim c) = true ∧ (s.getLast?.any fun c => !isTrim c) = true) : Solid s := by
  obtain ⟨h1, h2⟩ := h
  rw [Option.any_eq_true] at h1 h2
  obtain ⟨c, hc, hc'⟩ := h1
  obtain ⟨d, hd, hd'⟩ := h2
  refine ⟨⟨c, hc, ?_⟩, ⟨d, hd, ?_⟩⟩
  · have : ¬isTrim c = true := by simpa using hc'
    simpa [isTrim_iff] using this
  · have : ¬isTrim d = true := by simpa using hd'
    simpa [isTrim_iff] using this

theorem exampleMsg_valid : exampleMsg.Valid 100 := by
  refine ⟨by decide, ⟨⟨200, numeral_ex [2, 0, 0] 200 (by decide +kernel) (by decide +kernel) (by decide +kernel)⟩, by decide +kernel⟩, ?_, by decide +kernel, ?_, ?_⟩
  · have : ∀ c ∈ exampleMsg.reason, c ≠ 10 := by decide +kernel
    exact this
  · intro f hf
    simp only [exampleMsg, List.mem_cons, List.not_mem_nil, or_false] at hf
    rcases hf with rfl | rfl | rfl | rfl
    · exact ⟨⟨solid_ex (by decide +kernel), by decide +kernel⟩, by unfold Ows; decide +kernel, ⟨.inr (solid_ex (by decide +kernel)), by decide +kernel⟩, by unfold Ows; decide +kernel, by decide +kernel⟩
    · exact ⟨⟨solid_ex (by decide +kernel), by decide +kernel⟩, by unfold Ows; decide +kernel, ⟨.inr (solid_ex (by decide +kernel)), by decide +kernel⟩, by unfold Ows; decide +kernel, by decide +kernel⟩
    · exact ⟨⟨solid_ex (by decide +kernel), by decide +kernel⟩, by unfold Ows; decide +kernel, ⟨.inr (solid_ex (by decide +kernel)), by decide +kernel⟩, by unfold Ows; decide +kernel, by decide +kernel⟩
    · exact ⟨⟨solid_ex (by decide +kernel), by decide +kernel⟩, by unfold Ows; decide +kernel, ⟨.inl rfl, by decide +kernel⟩, by unfold Ows; decide +kernel, by decide +kernel⟩
  · refine ⟨by decide +kernel, by decide +kernel, by decide +kernel, ?_, ?_, by decide +kernel⟩
    · intro c hc
      simp only [List.mem_cons, List.not_mem_nil, or_false] at hc
      rcases hc with rfl | rfl
      · exact ⟨⟨by unfold Ows; decide +kernel, ⟨numeral_ex [3] _ (by decide +kernel) (by decide +kernel) (by decide +kernel), by decide +kernel⟩, by unfold Ows; decide +kernel, ⟨.inr (by decide +kernel), by decide +kernel⟩, by decide +kernel⟩, by decide +kernel⟩
      · exact ⟨⟨by unfold Ows; decide +kernel, ⟨numeral_ex [0, 10] _ (by decide +kernel) (by decide +kernel) (by decide +kernel), by decide +kernel⟩, by unfold Ows; decide +kernel, ⟨.inl rfl, by decide +kernel⟩, by decide +kernel⟩, by decide +kernel⟩
    · exact ⟨by unfold Ows; decide +kernel, ⟨numeral_ex [0] _ (by decide +kernel) (by decide +kernel) (by decide +kernel), by decide +kernel⟩, by unfold Ows; decide +kernel, ⟨.inl rfl, by decide +kernel⟩, by decide +kernel⟩

example : exampleMsg.body.data = txt "abcdefghijklm" := by decide +kernel
example : exampleMsg.field (txt "x-a") = some (txt "1, 2") := by decide +kernel

/-- Open a response and read with buffers of these sizes. -/
def openRead (s : String) (ns : List Nat) : Option (Res (Open × List Str)) :=
  (respNew 200 false ⟨txt s, false, 100⟩).map fun o => o.bind fun o => respReads o ns

/-- What one sees: is it at the end, what is left on the connection, what became of the session, what was read. -/
def seen (x : Option (Res (Open × List Str))) : Option (Res (Bool × Str × Sess × List Str)) :=
  x.map (·.map fun (o, outs) => (o.resp.eof, o.conn.rest, o.sess, outs))

example : seen (openRead "HTTP/1.1 200 OK\r\nTransfer-Encoding: chunked\r\n\r\n3;a=b\r\nabc\r\n0A \r\ndefghijklm\r\n0\r\nx: y\r\n\r\nHTTP" [4, 4, 100]) =
    some (.ok (true, txt "HTTP", .returned, [txt "abcd", txt "efgh", txt "ijklm"])) := by decide +kernel

/-- C75: a response of an HTTP/1.1 server that says nothing of the length is ended by the end of the connection (RFC 9112, 6.3). It is taken to have no body, and the
session is given back with the body on it, where it is taken for the next response. -/
theorem c75_unframed_body_left :
    seen (openRead "HTTP/1.1 200 OK\r\nServer: x\r\n\r\nbody" [100]) = some (.ok (true, txt "body", .returned, [[]])) := by decide +kernel

/-- C75: a length of zero is not seen if the server closes the connection: what comes after the response is taken for the body. -/
theorem c75_zero_length_close :
    seen (openRead "HTTP/1.1 200 OK\r\nContent-Length: 0\r\nConnection: close\r\n\r\nmore" [100]) = some (.ok (true, [], .freed, [txt "more"])) := by decide +kernel

/-- C75: a chunk that has more data than it says is taken to be complete, and the rest of the line is lost. -/
theorem c75_chunk_overrun :
    seen (openRead "HTTP/1.1 200 OK\r\nTransfer-Encoding: chunked\r\n\r\n3\r\nabcdef\r\n0\r\n\r\n" [100]) = some (.ok (true, [], .returned, [txt "abc"])) := by decide +kernel

/-- C75: of two lengths that are not the same the last is taken, where the response should be refused (RFC 9112, 6.3). -/
theorem c75_two_lengths :
    seen (openRead "HTTP/1.1 200 OK\r\nContent-Length: 5\r\nContent-Length: 2\r\n\r\nabcde" [100]) = some (.ok (true, txt "cde", .returned, [txt "ab"])) := by decide +kernel

/-- A response that is cut is an error. -/
example : openRead "HTTP/1.1 200 OK\r\nContent-Length: 5\r\n\r\nabcd" [100] = some (.error .fileRead) := by decide +kernel
example : openRead "HTTP/1.1 200 OK\r\nTransfer-Encoding: chunked\r\n\r\n3\r\nabc\r\n" [2, 100] = some (.error .fileRead) := by decide +kernel
example : openRead "HTTP/1.1 200 OK\r\nTransfer-Encoding: chunked\r\nContent-Length: 5\r\n\r\n" [] = some (.error .format) := by decide +kernel

end Verif.Http
