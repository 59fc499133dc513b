import Verif.Info.IniModel
import Verif.Json.Extend

/-!
# Information files: round trip and checksum

The specification of a value that can be saved is `Writable`. It uses `Json.Good` (values that can be written as JSON), `Json.Calm` and
`Json.LongRun`. The values of a file are `parse`, which has no checksum.
-/

namespace Verif.Info

open Verif.Json

/-! ## Specification -/

/-- The line of a value. -/
def Entry.line (e : Entry) : Str := e.key ++ 61 :: e.val

/-- A value that a callback can save. The key may have equals signs when no string in the value ends with a comma and blanks, and the line has
no run of 19 digits. -/
structure Writable (buffer : Nat) (e : Entry) : Prop where
  sec : e.sec ≠ [] ∧ 10 ∉ e.sec ∧ e.sec.length + 2 < buffer
  other : e.sec ≠ backrestZ ∧ e.sec ≠ cipherZ
  key : e.key ≠ [] ∧ 10 ∉ e.key ∧ 0 ∉ e.key
  fits : e.line.length < buffer
  zero : 0 ∉ e.val
  val : ∃ v, Good v ∧ (∀ l, v ≠ .arr l) ∧ jsonFromVar v = .ok e.val ∧ (61 ∉ e.key ∨ (Calm v ∧ ¬LongRun e.line))

/-- A hash that gives 40 hexadecimal digits. -/
def Hex (H : Str → Str) : Prop := ∀ x, (H x).length = 40 ∧ ∀ c ∈ H x, (48 ≤ c ∧ c ≤ 57) ∨ (97 ≤ c ∧ c ≤ 102)

/-- The values of a file. -/
def parse (buffer : Nat) : Str → List Str → Res (List Entry)
  | _, [] => .ok []
  | sec, l :: ls => do
    let (s, e) ← iniLine buffer sec l
    let r ← parse buffer s ls
    .ok (e.toList ++ r)

/-- A collision. -/
def Collision (H : Str → Str) : Prop := ∃ x y, x ≠ y ∧ H x = H y

/-- The checksum of the file is left out. -/
def covered (l : List Entry) : List Entry := l.filter fun e => !(e.sec = backrestZ && e.key = checksumZ)

/-! ## Lines -/

theorem lines_cons {l : Str} (h : 10 ∉ l) (r : Str) : lines (l ++ 10 :: r) = l :: lines r := by
  induction l with
  | nil => simp [lines]
  | cons c l ih =>
    have hc : c ≠ 10 := fun e => h (by simp [e])
    rw [List.cons_append, lines, if_neg hc, ih (fun e => h (List.mem_cons_of_mem _ e))]

theorem splitAt_ok {t : Str} (hv : validate t = .ok ()) : ∀ (k pre : Str),
    (∀ a b, k = a ++ 61 :: b → validate (b ++ 61 :: t) = .error .jsonFormat) → splitAt pre (k ++ 61 :: t) = .ok (pre ++ k, t)
  | [], pre, _ => by
    rw [List.nil_append, splitAt, if_pos rfl, hv, List.append_nil]
  | c :: k, pre, h => by
    have ih := splitAt_ok hv k (pre ++ [c]) (fun a b e => h (c :: a) b (by rw [e]; rfl))
    rw [List.append_assoc] at ih
    rw [List.cons_append, splitAt]
    split
    · rename_i hc
      subst hc
      rw [h [] k rfl]
      exact ih
    · exact ih

theorem zstr_id {s : Str} (h : 0 ∉ s) : zstr s = s := by
  unfold zstr
  induction s with
  | nil => rfl
  | cons c s ih =>
    have hc : c ≠ 0 := fun e => h (by simp [e])
    rw [List.takeWhile_cons, if_pos (by simpa using hc), ih (fun e => h (List.mem_cons_of_mem _ e))]

/-- What is needed of a value in order to be read: also met by the values of `infoSave`. -/
structure Legible (buffer : Nat) (e : Entry) : Prop where
  sec : e.sec ≠ [] ∧ 10 ∉ e.sec ∧ e.sec.length + 2 < buffer
  key : e.key ≠ [] ∧ 10 ∉ e.key ∧ 0 ∉ e.key
  fits : e.line.length < buffer
  zero : 0 ∉ e.val
  newline : 10 ∉ e.val
  last : ∃ a c, e.val = a ++ [c] ∧ c ≠ 93
  valid : validate e.val = .ok ()
  split : ∀ a b, e.key = a ++ 61 :: b → validate (b ++ 61 :: e.val) = .error .jsonFormat

theorem sorted_arr {v : Val} (h : ∀ l, v ≠ .arr l) : ∀ l, sorted v ≠ .arr l := by
  intro l e
  cases v <;> simp [sorted] at e
  rename_i l'; exact h l' rfl

theorem LongRun.suffix {a s : Str} (h : LongRun s) : LongRun (a ++ s) := h.left a

theorem Writable.legible {buffer : Nat} {e : Entry} (h : Writable buffer e) : Legible buffer e := by
  obtain ⟨v, hg, ha, hj, hk⟩ := h.val
  have ht : e.val = text (sorted v) := by
    rw [fromVar_text hg] at hj; exact (Except.ok.inj hj).symm
  refine ⟨h.sec, h.key, h.fits, h.zero, ?_, ?_, c43_validate v hg _ hj, ?_⟩
  · rw [ht]; exact text_newline _ (fit_sorted v hg)
  · rw [ht]; exact text_last (sorted_arr ha)
  · intro a b e1
    rcases hk with hk | ⟨hc, hl⟩
    · exact absurd (by rw [e1]; simp) hk
    · rw [ht]
      refine validate_wrong b (fit_sorted v hg) (calm_sorted hg hc) ?_
      intro hlong
      apply hl
      rw [Entry.line, e1, ht, List.append_assoc]
      exact hlong.left (a ++ [61]) |> fun x => by simpa using x

theorem iniLine_value {buffer : Nat} {e : Entry} (h : Legible buffer e) : iniLine buffer e.sec e.line = .ok (e.sec, some e) := by
  obtain ⟨a, c, ha, hc⟩ := h.last
  have hl : e.line.getLast? = some c := by
    rw [Entry.line, ha, ← List.cons_append, ← List.append_assoc]; exact List.getLast?_concat
  have hne : e.line ≠ [] := by simp [Entry.line]
  have hz : 0 ∉ e.line := by
    rw [Entry.line]; simp [h.key.2.2, h.zero]
  have hsp : splitAt [] e.line = .ok (e.key, e.val) := by
    have := splitAt_ok h.valid e.key [] h.split
    simpa [Entry.line] using this
  unfold iniLine
  rw [if_neg (by have := h.fits; omega), if_neg hne, if_neg (by rw [hl]; simp [hc]), if_neg h.sec.1, zstr_id hz, hsp]
  simp only [bind, Except.bind]
  rw [if_neg h.key.1]

theorem iniLine_section {buffer : Nat} {s : Str} (h1 : s ≠ []) (h2 : s.length + 2 < buffer) (sec : Str) :
    iniLine buffer sec (91 :: s ++ [93]) = .ok (s, none) := by
  unfold iniLine
  rw [if_neg (by simp only [List.length_append, List.length_cons, List.length_nil]; omega), if_neg (by simp), if_pos ⟨rfl, List.getLast?_concat⟩]
  simp [h1]

theorem iniLine_blank {buffer : Nat} (h : 0 < buffer) (sec : Str) : iniLine buffer sec [] = .ok (sec, none) := by
  unfold iniLine
  rw [if_neg (by simp only [List.length_nil]; omega), if_pos rfl]

/-! ## Saving -/

/-- The text of values. -/
def chunks (last : Option Str) : List Entry → Str
  | [] => []
  | e :: l => ((if last = some e.sec then [] else (if last = none then [] else [10]) ++ (91 :: e.sec ++ [93, 10])) ++ (e.line ++ [10])) ++
      chunks (some e.sec) l

/-- The input of the checksum. -/
def sums (last : Option Str) : List Entry → Str
  | [] => []
  | e :: l => sumNext last e ++ sums (some e.sec) l

/-- The last section. -/
def lastSec (last : Option Str) : List Entry → Option Str
  | [] => last
  | e :: l => lastSec (some e.sec) l

theorem fold_save (l : List Entry) (st : Sv) :
    l.foldl saveValue st = ⟨lastSec st.last l, st.text ++ chunks st.last l, st.sum ++ sums st.last l⟩ := by
  induction l generalizing st with
  | nil => simp [lastSec, chunks, sums]
  | cons e l ih =>
    rw [List.foldl_cons, ih]
    simp [saveValue, lastSec, chunks, sums, Entry.line, List.append_assoc]

/-- The values one after the other. -/
def loadValues (st : Ld) : List Entry → Res Ld
  | [] => .ok st
  | e :: l => do loadValues (← loadValue { st with sec := e.sec } e) l

theorem loadLines_chunks {buffer : Nat} (hb : 0 < buffer) (rest : Str) : ∀ (l : List Entry) (st : Ld),
    (∀ e ∈ l, Legible buffer e ∧ ¬(e.sec = backrestZ ∧ e.key = checksumZ)) → (st.last = none ∨ st.last = some st.sec) →
    loadLines buffer st (lines (chunks st.last l ++ rest)) =
      (match loadValues st l with
        | .error e => .error e
        | .ok st' => loadLines buffer st' (lines rest))
  | [], st, _, _ => by simp [chunks, loadValues]
  | e :: l, st, h, hs => by
    obtain ⟨he, hn⟩ := h e (by simp)
    have hnl : 10 ∉ e.line := by rw [Entry.line]; simp [he.key.2.1, he.newline]
    have hsl : 10 ∉ (91 :: e.sec ++ [93] : Str) := by simp [he.sec.2.1]
    have tail : loadLines buffer { st with sec := e.sec } (lines ((e.line ++ [10]) ++ (chunks (some e.sec) l ++ rest))) =
        (match loadValues st (e :: l) with
        | .error e => .error e
        | .ok st' => loadLines buffer st' (lines rest)) := by
      rw [List.append_assoc, List.cons_append, List.nil_append, lines_cons hnl, loadLines, iniLine_value he]
      simp only [bind, Except.bind, loadValues]
      cases hv : loadValue { st with sec := e.sec } e with
      | error x => rfl
      | ok st' =>
        have hst : st'.last = some e.sec ∧ st'.sec = e.sec := by
          unfold loadValue at hv
          simp only [bind, Except.bind, hn, if_false] at hv
          split at hv
          · split at hv
            · split at hv
              · cases hv
              · split at hv
                · split at hv
                  · cases hv; exact ⟨rfl, rfl⟩
                  · cases hv
                · cases hv
            · split at hv
              · split at hv
                · cases hv
                · split at hv
                  · cases hv
                  · cases hv; exact ⟨rfl, rfl⟩
              · split at hv
                · split at hv
                  · cases hv
                  · split at hv
                    · cases hv
                    · cases hv; exact ⟨rfl, rfl⟩
                · cases hv; exact ⟨rfl, rfl⟩
          · split at hv
            · split at hv
              · split at hv
                · cases hv
                · split at hv
                  · cases hv
                  · cases hv; exact ⟨rfl, rfl⟩
              · cases hv; exact ⟨rfl, rfl⟩
            · cases hv; exact ⟨rfl, rfl⟩
        have := loadLines_chunks hb rest l st' (fun x hx => h x (List.mem_cons_of_mem _ hx)) (.inr (by rw [hst.1, hst.2]))
        rw [hst.1] at this
        exact this
    rw [chunks, List.append_assoc, List.append_assoc]
    by_cases hc : st.last = some e.sec
    · rw [if_pos hc, List.nil_append]
      have : st.sec = e.sec := by
        rcases hs with hs | hs
        · rw [hs] at hc; cases hc
        · rw [hs] at hc; exact Option.some.inj hc
      rw [← tail, ← this]
    · rw [if_neg hc]
      have sect : ∀ st : Ld, loadLines buffer st (lines ((91 :: e.sec ++ [93, 10]) ++ ((e.line ++ [10]) ++ (chunks (some e.sec) l ++ rest)))) =
          loadLines buffer { st with sec := e.sec } (lines ((e.line ++ [10]) ++ (chunks (some e.sec) l ++ rest))) := by
        intro st
        rw [show (91 :: e.sec ++ [93, 10]) ++ ((e.line ++ [10]) ++ (chunks (some e.sec) l ++ rest)) =
          (91 :: e.sec ++ [93]) ++ 10 :: ((e.line ++ [10]) ++ (chunks (some e.sec) l ++ rest)) by simp]
        rw [lines_cons hsl, loadLines, iniLine_section he.sec.1 he.sec.2.2]
        rfl
      by_cases hn2 : st.last = none
      · rw [if_pos hn2, List.nil_append, sect, tail]
      · rw [if_neg hn2, List.append_assoc, List.cons_append, List.nil_append]
        rw [show ∀ x : Str, lines (10 :: x) = [] :: lines x from fun x => by rw [lines, if_pos rfl]]
        rw [loadLines, iniLine_blank hb]
        simp only [bind, Except.bind]
        rw [sect, ← tail]

theorem toVar_text {v : Val} (hf : Fit v) : jsonToVar (text v) = .ok v := by
  have h2 := readVar_text v (2 * (text v).length + 2) (readNew []) [] hf (ready_new _) stop_nil (by omega)
  simp only [sep, readNew, List.nil_append, List.append_nil] at h2
  simp only [jsonToVar, jsonReadVar, bind, Except.bind, readNew]
  rw [h2]

theorem loadValue_other {st : Ld} {e : Entry} (h : e.sec ≠ backrestZ ∧ e.sec ≠ cipherZ) :
    loadValue st e = .ok { st with sum := st.sum ++ sumNext st.last e, last := some e.sec, out := st.out ++ [e] } := by
  unfold loadValue
  simp [h.1, h.2]

theorem loadValues_append (l m : List Entry) (st : Ld) : loadValues st (l ++ m) =
    (match loadValues st l with
      | .error e => .error e
      | .ok st => loadValues st m) := by
  induction l generalizing st with
  | nil => rfl
  | cons e l ih =>
    rw [List.cons_append, loadValues, loadValues]
    simp only [bind, Except.bind]
    cases loadValue { st with sec := e.sec } e with
    | error e => rfl
    | ok st => exact ih st

theorem loadValues_other (l : List Entry) (h : ∀ e ∈ l, e.sec ≠ backrestZ ∧ e.sec ≠ cipherZ) (st : Ld) : ∃ s,
    loadValues st l = .ok { st with sec := s, sum := st.sum ++ sums st.last l, last := lastSec st.last l, out := st.out ++ l } := by
  induction l generalizing st with
  | nil => exact ⟨st.sec, by simp [loadValues, sums, lastSec]⟩
  | cons e l ih =>
    rw [loadValues, loadValue_other (h e (by simp))]
    obtain ⟨s, hs⟩ := ih (fun x hx => h x (List.mem_cons_of_mem _ hx))
      { st with sec := e.sec, sum := st.sum ++ sumNext st.last e, last := some e.sec, out := st.out ++ [e] }
    refine ⟨s, ?_⟩
    simp only [bind, Except.bind]
    rw [hs]
    simp [sums, lastSec]

theorem sums_append (l m : List Entry) (last : Option Str) : sums last (l ++ m) = sums last l ++ sums (lastSec last l) m := by
  induction l generalizing last with
  | nil => rfl
  | cons e l ih => rw [List.cons_append, sums, sums, ih, lastSec, List.append_assoc]

theorem lastSec_append (l m : List Entry) (last : Option Str) : lastSec last (l ++ m) = lastSec (lastSec last l) m := by
  induction l generalizing last with
  | nil => rfl
  | cons e l ih => rw [List.cons_append, lastSec, ih, lastSec]

theorem chunks_append (l m : List Entry) (last : Option Str) : chunks last (l ++ m) = chunks last l ++ chunks (lastSec last l) m := by
  induction l generalizing last with
  | nil => rfl
  | cons e l ih => rw [List.cons_append, chunks, chunks, ih, lastSec]; simp [List.append_assoc]

/-- The text of a string. -/
def quote (s : Str) : Str := text (.str s)

theorem toVar_quote (s : Str) : jsonToVar (quote s) = .ok (.str s) := toVar_text (v := .str s) trivial

theorem fromVar_quote (s : Str) : jsonFromVar (.str s) = .ok (quote s) := fromVar_text (v := .str s) (good_str s)

theorem validate_quote (s : Str) : validate (quote s) = .ok () := c43_validate _ (good_str s) _ (fromVar_quote s)

/-- Values are loaded, and the input of the checksum is the text of them. -/
structure Does (st : Ld) (l : List Entry) (st' : Ld) : Prop where
  ok : loadValues st l = .ok st'
  sum : st'.sum = st.sum ++ sums st.last l
  last : st'.last = lastSec st.last l

theorem Does.append {a b c : Ld} {l m : List Entry} (h : Does a l b) (h' : Does b m c) : Does a (l ++ m) c where
  ok := by rw [loadValues_append, h.ok]; exact h'.ok
  sum := by rw [h'.sum, h.sum, h.last, sums_append, List.append_assoc]
  last := by rw [h'.last, h.last, lastSec_append]

theorem does_other (l : List Entry) (h : ∀ e ∈ l, e.sec ≠ backrestZ ∧ e.sec ≠ cipherZ) (st : Ld) : ∃ st',
    Does st l st' ∧ st'.version = st.version ∧ st'.pass = st.pass ∧ st'.out = st.out ++ l := by
  obtain ⟨s, hs⟩ := loadValues_other l h st
  exact ⟨_, ⟨hs, rfl, rfl⟩, rfl, rfl, rfl⟩

theorem does_version (st : Ld) (v : Str) : ∃ st', Does st [⟨backrestZ, formatZ, [53]⟩, ⟨backrestZ, versionZ, quote v⟩] st' ∧
    st'.version = some v ∧ st'.pass = st.pass ∧ st'.out = st.out := by
  have h5 : jsonToVar [53] = .ok (.num 5) := by
    have := toVar_text (v := .num 5) (by simp [Fit])
    rwa [show text (.num 5) = [53] by decide +kernel] at this
  have n1 : formatZ ≠ checksumZ := by decide
  have n2 : versionZ ≠ checksumZ := by decide
  have n3 : versionZ ≠ formatZ := by decide
  refine ⟨{ st with
    sec := backrestZ
    sum := st.sum ++ sums st.last [⟨backrestZ, formatZ, [53]⟩, ⟨backrestZ, versionZ, quote v⟩]
    last := some backrestZ
    version := some v }, ⟨?_, rfl, rfl⟩, rfl, rfl, rfl⟩
  simp [loadValues, loadValue, bind, Except.bind, n1, n2, n3, h5, toVar_quote, varStr, sums]

theorem does_pass (st : Ld) (p : Str) : ∃ st', Does st [⟨cipherZ, cipherPassZ, quote p⟩] st' ∧
    st'.version = st.version ∧ st'.pass = some p ∧ st'.out = st.out := by
  have n1 : cipherZ ≠ backrestZ := by decide
  refine ⟨{ st with
    sec := cipherZ
    sum := st.sum ++ sums st.last [⟨cipherZ, cipherPassZ, quote p⟩]
    last := some cipherZ
    pass := some p }, ⟨?_, rfl, rfl⟩, rfl, rfl, rfl⟩
  simp [loadValues, loadValue, bind, Except.bind, n1, toVar_quote, varStr, sums]

theorem quote_last (s : Str) : ∃ a c, quote s = a ++ [c] ∧ c ≠ 93 := text_last (v := .str s) (by intro l h; cases h)

theorem escape_zero (s : Str) (h : 0 ∉ s) : 0 ∉ s.flatMap escape := by
  rw [List.mem_flatMap]
  rintro ⟨c, hc, h0⟩
  rcases escape_cases c with ⟨x, e⟩ | ⟨e, _⟩
  · unfold escape at h0
    split at h0; · exact absurd h0 (by decide)
    split at h0; · exact absurd h0 (by decide)
    split at h0; · exact absurd h0 (by decide)
    split at h0; · exact absurd h0 (by decide)
    split at h0; · exact absurd h0 (by decide)
    split at h0; · exact absurd h0 (by decide)
    split at h0; · exact absurd h0 (by decide)
    rw [List.mem_singleton] at h0; exact h (h0 ▸ hc)
  · rw [e, List.mem_singleton] at h0; exact h (h0 ▸ hc)

theorem quote_zero {s : Str} (h : 0 ∉ s) : 0 ∉ quote s := by
  have := escape_zero s h
  simp [quote, text, this]

theorem quote_legible {buffer : Nat} {sec key s : Str} (hs : sec ≠ [] ∧ 10 ∉ sec ∧ sec.length + 2 < buffer) (hk : key ≠ [] ∧ 10 ∉ key ∧ 0 ∉ key)
    (he : 61 ∉ key) (h0 : 0 ∉ s) (hf : key.length + (quote s).length + 1 < buffer) : Legible buffer ⟨sec, key, quote s⟩ where
  sec := hs
  key := hk
  fits := by simp only [Entry.line, List.length_append, List.length_cons]; omega
  zero := quote_zero h0
  newline := text_newline (.str s) trivial
  last := quote_last s
  valid := validate_quote s
  split := fun a b e => absurd (show 61 ∈ key by simp only at e; rw [e]; simp) he

theorem hex_facts (c : UInt8) (h : (48 ≤ c ∧ c ≤ 57) ∨ (97 ≤ c ∧ c ≤ 102)) : c ≠ 0 ∧ escape c = [c] := by
  have ne : ∀ x : UInt8, ¬((48 ≤ x ∧ x ≤ 57) ∨ (97 ≤ x ∧ x ≤ 102)) → c ≠ x := fun x hx e => hx (e ▸ h)
  refine ⟨ne 0 (by decide), ?_⟩
  unfold escape
  simp [ne 34 (by decide), ne 92 (by decide), ne 10 (by decide), ne 13 (by decide), ne 9 (by decide), ne 8 (by decide), ne 12 (by decide)]

theorem hex_quote {H : Str → Str} (h : Hex H) (x : Str) : 0 ∉ H x ∧ (quote (H x)).length = 42 := by
  have h1 := (h x).1
  have h2 := (h x).2
  refine ⟨fun e => (hex_facts 0 (h2 0 e)).1 rfl, ?_⟩
  have : ∀ s : Str, (∀ c ∈ s, (48 ≤ c ∧ c ≤ 57) ∨ (97 ≤ c ∧ c ≤ 102)) → s.flatMap escape = s := by
    intro s
    induction s with
    | nil => intro _; rfl
    | cons c s ih =>
      intro hc
      rw [List.flatMap_cons, (hex_facts c (hc c (by simp))).2, ih (fun x hx => hc x (List.mem_cons_of_mem _ hx))]; rfl
  rw [quote, text, this _ h2]
  simp [h1]

/-- All the values that are saved. -/
def total (before : List Entry) (cipher : Option (List Entry × Str)) (after : List Entry) : List Entry :=
  saveList (quote projectVersion) before (cipher.map fun x => (x.1, quote x.2)) after

/-- The text that is saved. -/
def file (H : Str → Str) (l : List Entry) : Str :=
  chunks none l ++ (10 :: 91 :: backrestZ ++ [93, 10]) ++ checksumZ ++ 61 :: quote (H ([123] ++ sums none l ++ [125, 125])) ++ [10]

theorem save_file (H : Str → Str) (before after : List Entry) (cipher : Option (List Entry × Str)) :
    save H before cipher after = .ok (file H (total before cipher after)) := by
  unfold save
  cases cipher with
  | none =>
    simp only [bind, Except.bind, fromVar_quote, fold_save]
    simp [file, total, List.append_assoc]
  | some x =>
    obtain ⟨m, p⟩ := x
    simp only [bind, Except.bind, fromVar_quote, fold_save]
    simp [file, total, List.append_assoc]

/-- The checksum at the end of the file. -/
theorem load_tail {H : Str → Str} (hH : Hex H) {buffer : Nat} (hb : 60 < buffer) (st : Ld) (input : Str) :
    loadLines buffer st (lines ((10 :: 91 :: backrestZ ++ [93, 10]) ++ checksumZ ++ 61 :: quote (H input) ++ [10])) =
      .ok { st with sec := backrestZ, expected := some (H input) } := by
  have hx := hex_quote hH input
  have hc : Legible buffer ⟨backrestZ, checksumZ, quote (H input)⟩ :=
    quote_legible ⟨by decide, by decide, by have : backrestZ.length = 8 := rfl; omega⟩ (by decide) (by decide) hx.1
      (by rw [hx.2]; have : checksumZ.length = 17 := rfl; omega)
  have hline : 10 ∉ (Entry.mk backrestZ checksumZ (quote (H input))).line := by
    rw [Entry.line]
    have h1 : 10 ∉ checksumZ := by decide
    have h2 : 10 ∉ quote (H input) := hc.newline
    simp [h1, h2]
  have e3 : (10 :: 91 :: backrestZ ++ [93, 10]) ++ checksumZ ++ 61 :: quote (H input) ++ [10] =
      [] ++ 10 :: ((91 :: backrestZ ++ [93]) ++ 10 :: ((Entry.mk backrestZ checksumZ (quote (H input))).line ++ 10 :: [])) := by
    simp [Entry.line, List.append_assoc]
  rw [e3, lines_cons (by decide), lines_cons (by decide), lines_cons hline]
  simp only [lines, loadLines]
  rw [iniLine_blank (by omega)]
  simp only [bind, Except.bind]
  rw [iniLine_section (by decide) (by have : backrestZ.length = 8 := rfl; omega)]
  simp only []
  rw [iniLine_value hc]
  have n1 : checksumZ ≠ formatZ := by decide
  have n2 : checksumZ ≠ versionZ := by decide
  simp only [loadValue, and_self, if_true, n1, n2, if_false, toVar_quote, bind, Except.bind, varStr]

theorem load_file {H : Str → Str} (hH : Hex H) {buffer : Nat} (hb : 60 < buffer) {l : List Entry}
    (hl : ∀ e ∈ l, Legible buffer e ∧ ¬(e.sec = backrestZ ∧ e.key = checksumZ)) {st : Ld} (hv : Does {} l st) :
    load buffer H (file H l) = .ok ⟨st.version, st.pass, st.out, [123] ++ sums none l ++ [125, 125], H ([123] ++ sums none l ++ [125, 125])⟩ := by
  have hs : st.sum = [123] ++ sums none l := hv.sum
  obtain ⟨input, hin⟩ : ∃ input, input = [123] ++ sums none l ++ [125, 125] := ⟨_, rfl⟩
  unfold load
  have e1 := loadLines_chunks (buffer := buffer) (by omega)
    ((10 :: 91 :: backrestZ ++ [93, 10]) ++ checksumZ ++ 61 :: quote (H input) ++ [10]) l {} hl (.inl rfl)
  rw [hv.ok] at e1
  have e2 : file H l = chunks (Ld.last {}) l ++ ((10 :: 91 :: backrestZ ++ [93, 10]) ++ checksumZ ++ 61 :: quote (H input) ++ [10]) := by
    rw [hin]
    simp [file, List.append_assoc]
  rw [e2, e1]
  simp only [load_tail hH hb, bind, Except.bind]
  rw [hs, ← hin, if_pos rfl]

/-- The values of `infoSave` itself are legible. -/
theorem version_legible {buffer : Nat} (hb : 60 < buffer) : ∀ e ∈ [⟨backrestZ, formatZ, [53]⟩, ⟨backrestZ, versionZ, quote projectVersion⟩],
    Legible buffer e ∧ ¬(e.sec = backrestZ ∧ e.key = checksumZ) := by
  have hs : (backrestZ ≠ [] ∧ 10 ∉ backrestZ ∧ backrestZ.length + 2 < buffer) :=
    ⟨by decide, by decide, by have : backrestZ.length = 8 := rfl; omega⟩
  intro e he
  simp only [List.mem_cons, List.not_mem_nil, or_false] at he
  rcases he with rfl | rfl
  · refine ⟨⟨hs, by decide, ?_, by decide, by decide, ⟨[], 53, rfl, by decide⟩, by decide +kernel, ?_⟩, by decide⟩
    · have : (Entry.mk backrestZ formatZ [53]).line.length = 17 := rfl
      omega
    · intro a b e
      exact absurd (show 61 ∈ formatZ by simp only at e; rw [e]; simp) (by decide)
  · refine ⟨quote_legible hs (by decide) (by decide) (by decide) ?_, by decide⟩
    have : versionZ.length + (quote projectVersion).length + 1 = 28 := by decide +kernel
    omega

theorem quote_length (p : Str) : (quote p).length ≤ 2 * p.length + 2 := by
  have : (p.flatMap escape).length ≤ 2 * p.length := by
    induction p with
    | nil => simp
    | cons c p ih =>
      rw [List.flatMap_cons, List.length_append, List.length_cons]
      rcases escape_cases c with ⟨x, e⟩ | ⟨e, _⟩ <;> rw [e] <;> simp only [List.length_cons, List.length_nil] <;> omega
  simp only [quote, text, List.length_append, List.length_cons, List.length_nil]; omega

theorem load_total {H : Str → Str} (hH : Hex H) {buffer : Nat} (hb : 60 < buffer) (before after : List Entry)
    (cipher : Option (List Entry × Str)) (h1 : ∀ e ∈ before, Writable buffer e) (h2 : ∀ e ∈ after, Writable buffer e)
    (h3 : ∀ m p, cipher = some (m, p) → (∀ e ∈ m, Writable buffer e) ∧ 0 ∉ p ∧ 2 * p.length + 14 < buffer) :
    load buffer H (file H (total before cipher after)) = .ok ⟨some projectVersion, cipher.map Prod.snd,
      before ++ ((cipher.map Prod.fst).getD [] ++ after), [123] ++ sums none (total before cipher after) ++ [125, 125],
      H ([123] ++ sums none (total before cipher after) ++ [125, 125])⟩ := by
  have hver := version_legible hb
  have wl : ∀ e, Writable buffer e → Legible buffer e ∧ ¬(e.sec = backrestZ ∧ e.key = checksumZ) :=
    fun e h => ⟨h.legible, fun x => h.other.1 x.1⟩
  obtain ⟨st1, d1, v1, p1, o1⟩ := does_other before (fun e he => (h1 e he).other) {}
  obtain ⟨st2, d2, v2, p2, o2⟩ := does_version st1 projectVersion
  cases cipher with
  | none =>
    obtain ⟨st3, d3, v3, p3, o3⟩ := does_other after (fun e he => (h2 e he).other) st2
    have d : Does {} (total before none after) st3 := by
      have := (d1.append d2).append d3
      simpa [total, saveList] using this
    rw [load_file hH hb ?_ d, v3, v2, p3, p2, p1, o3, o2, o1]
    · simp
    · intro e he
      simp only [total, Option.map_none, saveList, List.append_nil, List.mem_append] at he
      rcases he with (he | he) | he
      · exact wl e (h1 e he)
      · exact hver e he
      · exact wl e (h2 e he)
  | some x =>
    obtain ⟨m, p⟩ := x
    obtain ⟨h4, h5, h6⟩ := h3 m p rfl
    obtain ⟨st3, d3, v3, p3, o3⟩ := does_other m (fun e he => (h4 e he).other) st2
    obtain ⟨st4, d4, v4, p4, o4⟩ := does_pass st3 p
    obtain ⟨st5, d5, v5, p5, o5⟩ := does_other after (fun e he => (h2 e he).other) st4
    have d : Does {} (total before (some (m, p)) after) st5 := by
      have := (((d1.append d2).append d3).append d4).append d5
      simpa [total, saveList] using this
    rw [load_file hH hb ?_ d, v5, v4, v3, v2, p5, p4, o5, o4, o3, o2, o1]
    · simp
    · intro e he
      simp only [total, Option.map_some, saveList, List.mem_append, List.mem_singleton] at he
      rcases he with ((he | he) | he | he) | he
      · exact wl e (h1 e he)
      · exact hver e he
      · exact wl e (h4 e he)
      · subst he
        refine ⟨quote_legible ⟨by decide, by decide, by have : cipherZ.length = 6 := rfl; omega⟩ (by decide) (by decide) h5 ?_, fun x => absurd x.1 (by decide : cipherZ ≠ backrestZ)⟩
        have : cipherPassZ.length = 11 := rfl
        have := quote_length p
        omega
      · exact wl e (h2 e he)

/-- A file that is saved is loaded with the same version, passphrase and values. -/
theorem c40_roundtrip {H : Str → Str} (hH : Hex H) {buffer : Nat} (hb : 60 < buffer) (before after : List Entry)
    (cipher : Option (List Entry × Str)) (h1 : ∀ e ∈ before, Writable buffer e) (h2 : ∀ e ∈ after, Writable buffer e)
    (h3 : ∀ m p, cipher = some (m, p) → (∀ e ∈ m, Writable buffer e) ∧ 0 ∉ p ∧ 2 * p.length + 14 < buffer) :
    ∃ f r, save H before cipher after = .ok f ∧ load buffer H f = .ok r ∧ r.version = some projectVersion ∧ r.pass = cipher.map Prod.snd ∧
      r.out = before ++ ((cipher.map Prod.fst).getD [] ++ after) :=
  ⟨_, _, save_file H before after cipher, load_total hH hb before after cipher h1 h2 h3, rfl, rfl, rfl⟩

/-! ## The checksum -/

theorem cut_quote {a b x y : Str} (ha : 34 ∉ a) (hb : 34 ∉ b) (h : a ++ 34 :: x = b ++ 34 :: y) : a = b ∧ x = y := by
  induction a generalizing b with
  | nil =>
    cases b with
    | nil => exact ⟨rfl, (List.cons.inj h).2⟩
    | cons c b => obtain ⟨rfl, _⟩ := List.cons.inj h; exact absurd (by simp) hb
  | cons c a ih =>
    cases b with
    | nil => obtain ⟨rfl, _⟩ := List.cons.inj h; exact absurd (by simp) ha
    | cons d b =>
      obtain ⟨rfl, h'⟩ := List.cons.inj h
      obtain ⟨rfl, h2⟩ := ih (fun e => ha (List.mem_cons_of_mem _ e)) (fun e => hb (List.mem_cons_of_mem _ e)) h'
      exact ⟨rfl, h2⟩

/-- Behind a value there is a comma or a brace. -/
theorem sums_head (l : List Entry) (s : Str) : ∃ c x, sums (some s) l ++ [125, 125] = c :: x ∧ (c = 44 ∨ c = 125) := by
  cases l with
  | nil => exact ⟨125, [125], rfl, .inr rfl⟩
  | cons e l =>
    rw [sums, sumNext]
    by_cases h : s = e.sec
    · subst h; exact ⟨44, _, by simp; rfl, .inl rfl⟩
    · refine ⟨125, _, by simp [h]; rfl, .inr rfl⟩

/-- A value that `iniValueNext` gives. -/
def Fine (e : Entry) : Prop := 34 ∉ e.sec ∧ validate e.val = .ok ()

theorem value_unique {k k' v v' a b : Str} {l m : List Entry} (hv : validate v = .ok ()) (hv' : validate v' = .ok ())
    (h : sumValue k v ++ (sums (some a) l ++ [125, 125]) = sumValue k' v' ++ (sums (some b) m ++ [125, 125])) :
    k = k' ∧ v = v' ∧ sums (some a) l ++ [125, 125] = sums (some b) m ++ [125, 125] := by
  obtain ⟨c, x, hc, h1⟩ := sums_head l a
  obtain ⟨d, y, hd, h2⟩ := sums_head m b
  rw [hc, hd] at h ⊢
  simp only [sumValue, List.cons_append, List.append_assoc, List.nil_append] at h
  obtain ⟨h3, h4⟩ := quoted_unique (List.cons.inj h).2
  obtain ⟨h5, h6, h7⟩ := validate_unique hv hv' h1 h2 (List.cons.inj h4).2
  exact ⟨h3, h5, by rw [h6, h7]⟩

theorem sums_unique : ∀ (l m : List Entry) (last : Option Str), (∀ e ∈ l, Fine e) → (∀ e ∈ m, Fine e) → last ≠ none →
    sums last l ++ [125, 125] = sums last m ++ [125, 125] → l = m
  | [], [], _, _, _, _, _ => rfl
  | [], e :: m, some s, _, hm, _, h => by
    exfalso
    rw [sums, sums, sumNext] at h
    by_cases hs : s = e.sec <;> simp [hs] at h
  | e :: l, [], some s, _, hm, _, h => by
    exfalso
    rw [sums, sums, sumNext] at h
    by_cases hs : s = e.sec <;> simp [hs] at h
  | e :: l, e' :: m, some s, hl, hm, _, h => by
    have f1 := hl e (by simp)
    have f2 := hm e' (by simp)
    have fin : e.sec = e'.sec → sumValue e.key e.val ++ (sums (some e.sec) l ++ [125, 125]) =
        sumValue e'.key e'.val ++ (sums (some e'.sec) m ++ [125, 125]) → e :: l = e' :: m := by
      intro hs h
      obtain ⟨h1, h2, h3⟩ := value_unique f1.2 f2.2 h
      have he : e = e' := by cases e; cases e'; simp_all
      subst he
      rw [sums_unique l m (some e.sec) (fun x hx => hl x (List.mem_cons_of_mem _ hx)) (fun x hx => hm x (List.mem_cons_of_mem _ hx))
        (by simp) h3]
    rw [sums, sums, sumNext, sumNext] at h
    by_cases h1 : s = e.sec
    · by_cases h2 : s = e'.sec
      · simp only [h1, ← h2, if_true, List.append_assoc, List.cons_append, List.nil_append] at h
        refine fin (h1 ▸ h2) ?_
        rw [← h2, ← h1]
        have := (List.cons.inj h).2
        simpa [h1] using this
      · exfalso
        simp [h1] at h
        rw [if_neg (by rw [← h1]; exact h2)] at h
        simp at h
    · by_cases h2 : s = e'.sec
      · exfalso
        simp [h2] at h
        rw [if_neg (by rw [← h2]; exact h1)] at h
        simp at h
      · simp only [Option.some.injEq, h1, h2, if_false, reduceCtorEq, List.append_assoc, List.cons_append, List.nil_append, List.cons.injEq,
          true_and] at h
        obtain ⟨h3, h4⟩ := cut_quote f1.1 f2.1 h
        simp only [List.cons.injEq, true_and] at h4
        exact fin h3 h4

/-- The input of the checksum determines the sections, the keys and the texts of the values, in their order. -/
theorem c40_checksum (l m : List Entry) (hl : ∀ e ∈ l, 34 ∉ e.sec ∧ validate e.val = .ok ()) (hm : ∀ e ∈ m, 34 ∉ e.sec ∧ validate e.val = .ok ())
    (h : (l.foldl saveValue {}).sum ++ [125, 125] = (m.foldl saveValue {}).sum ++ [125, 125]) : l = m := by
  rw [fold_save, fold_save] at h
  simp only [List.cons_append, List.nil_append, List.cons.injEq, true_and] at h
  cases l with
  | nil =>
    cases m with
    | nil => rfl
    | cons e m => simp [sums, sumNext] at h
  | cons e l =>
    cases m with
    | nil => simp [sums, sumNext] at h
    | cons e' m =>
      have f1 := hl e (by simp)
      have f2 := hm e' (by simp)
      simp only [sums, sumNext, reduceCtorEq, if_false, if_true, List.append_assoc, List.cons_append, List.nil_append, List.cons.injEq, true_and] at h
      obtain ⟨h3, h4⟩ := cut_quote f1.1 f2.1 h
      simp only [List.cons.injEq, true_and] at h4
      obtain ⟨h5, h6, h7⟩ := value_unique f1.2 f2.2 h4
      have he : e = e' := by cases e; cases e'; simp_all
      subst he
      rw [sums_unique l m (some e.sec) (fun x hx => hl x (List.mem_cons_of_mem _ hx)) (fun x hx => hm x (List.mem_cons_of_mem _ hx)) (by simp) h7]

/-! ## Files that were changed -/

/-- What a value changes: the version, the passphrase and the values for the callback. -/
def effect (x : Option Str × Option Str × List Entry) (e : Entry) : Option Str × Option Str × List Entry :=
  if e.sec = backrestZ then
    if e.key = versionZ then (match jsonToVar e.val with | .ok (.str s) => (some s, x.2) | _ => x) else x
  else if e.sec = cipherZ then
    if e.key = cipherPassZ then (match jsonToVar e.val with | .ok (.str s) => (x.1, some s, x.2.2) | _ => x) else x
  else (x.1, x.2.1, x.2.2 ++ [e])

theorem effect_covered (l : List Entry) (x : Option Str × Option Str × List Entry) : l.foldl effect x = (covered l).foldl effect x := by
  induction l generalizing x with
  | nil => rfl
  | cons e l ih =>
    rw [List.foldl_cons, ih]
    unfold covered
    rw [List.filter_cons]
    split
    · rfl
    · rename_i h
      simp only [Bool.not_eq_true', Bool.and_eq_true, decide_eq_true_eq, Bool.not_eq_eq_eq_not, Bool.not_true, Bool.not_false] at h
      have h' : e.sec = backrestZ ∧ e.key = checksumZ := by simpa using h
      have n : checksumZ ≠ versionZ := by decide
      have : effect x e = x := by unfold effect; simp [h', n]
      rw [this]

theorem loadValue_effect {st st' : Ld} {e : Entry} (h : loadValue st e = .ok st') :
    st'.sec = st.sec ∧ (st'.version, st'.pass, st'.out) = effect (st.version, st.pass, st.out) e ∧
      st'.sum = st.sum ++ sums st.last (covered [e]) ∧ st'.last = lastSec st.last (covered [e]) := by
  have hn1 : versionZ ≠ formatZ := by decide
  have hn2 : versionZ ≠ checksumZ := by decide
  have hcov : ∀ a : Ld, a = (if e.sec = backrestZ ∧ e.key = checksumZ then st else { st with sum := st.sum ++ sumNext st.last e, last := some e.sec }) →
      a.sec = st.sec ∧ a.version = st.version ∧ a.pass = st.pass ∧ a.out = st.out ∧ a.sum = st.sum ++ sums st.last (covered [e]) ∧
      a.last = lastSec st.last (covered [e]) := by
    rintro a rfl
    by_cases hc : e.sec = backrestZ ∧ e.key = checksumZ
    · simp [hc, covered, sums, lastSec]
    · have hf : covered [e] = [e] := by
        unfold covered
        rw [List.filter_cons, if_pos (by simpa [← not_and_or] using hc)]; rfl
      rw [if_neg hc, hf]
      simp [sums, lastSec]
  unfold loadValue at h
  simp only [] at h
  generalize ha : (if e.sec = backrestZ ∧ e.key = checksumZ then st else { st with sum := st.sum ++ sumNext st.last e, last := some e.sec }) = a at h
  obtain ⟨a1, a2, a3, a4, a5, a6⟩ := hcov a ha.symm
  rw [← a1, ← a2, ← a3, ← a4, ← a5, ← a6]
  unfold effect
  by_cases c1 : e.sec = backrestZ
  · simp only [c1, if_true] at h ⊢
    by_cases c2 : e.key = formatZ
    · have : ¬formatZ = versionZ := fun x => hn1 x.symm
      simp only [c2, if_true, this, if_false] at h ⊢
      cases hj : jsonToVar e.val with
      | error x => rw [hj] at h; cases h
      | ok v =>
        rw [hj] at h
        simp only [bind, Except.bind] at h
        split at h
        · split at h
          · cases h; exact ⟨rfl, rfl, rfl, rfl⟩
          · cases h
        · cases h
    · by_cases c3 : e.key = versionZ
      · simp only [c3, hn1, if_true, if_false] at h ⊢
        cases hj : jsonToVar e.val with
        | error x => rw [hj] at h; cases h
        | ok v =>
          rw [hj] at h
          cases v <;> simp only [bind, Except.bind, varStr] at h <;> cases h
          exact ⟨rfl, rfl, rfl, rfl⟩
      · simp only [c2, c3, if_false] at h ⊢
        by_cases c4 : e.key = checksumZ
        · simp only [c4, if_true] at h
          cases hj : jsonToVar e.val with
          | error x => rw [hj] at h; cases h
          | ok v =>
            rw [hj] at h
            cases v <;> simp only [bind, Except.bind, varStr] at h <;> cases h
            exact ⟨rfl, rfl, rfl, rfl⟩
        · simp only [c4, if_false] at h
          cases h; exact ⟨rfl, rfl, rfl, rfl⟩
  · simp only [c1, if_false] at h ⊢
    by_cases c2 : e.sec = cipherZ
    · simp only [c2, if_true] at h ⊢
      by_cases c3 : e.key = cipherPassZ
      · simp only [c3, if_true] at h ⊢
        cases hj : jsonToVar e.val with
        | error x => rw [hj] at h; cases h
        | ok v =>
          rw [hj] at h
          cases v <;> simp only [bind, Except.bind, varStr] at h <;> cases h
          exact ⟨rfl, rfl, rfl, rfl⟩
      · simp only [c3, if_false] at h ⊢
        cases h; exact ⟨rfl, rfl, rfl, rfl⟩
    · simp only [c2, if_false] at h ⊢
      cases h; exact ⟨rfl, rfl, rfl, rfl⟩

theorem covered_append (l m : List Entry) : covered (l ++ m) = covered l ++ covered m := List.filter_append ..

theorem loadLines_parse {buffer : Nat} : ∀ (ls : List Str) (st st' : Ld), loadLines buffer st ls = .ok st' →
    ∃ es, parse buffer st.sec ls = .ok es ∧ (st'.version, st'.pass, st'.out) = es.foldl effect (st.version, st.pass, st.out) ∧
      st'.sum = st.sum ++ sums st.last (covered es) ∧ st'.last = lastSec st.last (covered es)
  | [], st, st', h => by cases h; exact ⟨[], rfl, rfl, by simp [covered, sums], rfl⟩
  | l :: ls, st, st', h => by
    rw [loadLines] at h
    simp only [bind, Except.bind] at h
    cases h1 : iniLine buffer st.sec l with
    | error e => rw [h1] at h; cases h
    | ok a =>
      obtain ⟨s, e⟩ := a
      rw [h1] at h
      simp only at h
      cases e with
      | none =>
        simp only at h
        obtain ⟨es, h2, h3, h4, h5⟩ := loadLines_parse ls _ st' h
        refine ⟨es, ?_, h3, h4, h5⟩
        rw [parse, h1]
        simp only at h2
        simp only [bind, Except.bind, h2]; rfl
      | some e =>
        simp only at h
        cases h6 : loadValue { st with sec := s } e with
        | error x => rw [h6] at h; cases h
        | ok st1 =>
          rw [h6] at h
          obtain ⟨g1, g2, g3, g4⟩ := loadValue_effect h6
          obtain ⟨es, h2, h3, h4, h5⟩ := loadLines_parse ls _ st' h
          refine ⟨e :: es, ?_, ?_, ?_, ?_⟩
          · rw [g1] at h2
            rw [parse, h1]
            simp only [bind, Except.bind]
            simp only at h2
            rw [h2]; rfl
          · rw [h3, g2]; rfl
          · rw [h4, g3, g4, show e :: es = [e] ++ es from rfl, covered_append, sums_append, List.append_assoc]
          · rw [h5, g4, show e :: es = [e] ++ es from rfl, covered_append, lastSec_append]

theorem splitAt_valid : ∀ (s pre k v : Str), splitAt pre s = .ok (k, v) → validate v = .ok ()
  | [], _, _, _, h => by cases h
  | c :: s, pre, k, v, h => by
    rw [splitAt] at h
    split at h
    · split at h
      · rename_i hv; cases h; exact hv
      · exact splitAt_valid s _ k v h
      · cases h
    · exact splitAt_valid s _ k v h

theorem parse_valid {buffer : Nat} : ∀ (ls : List Str) (sec : Str) (es : List Entry), parse buffer sec ls = .ok es →
    ∀ e ∈ es, validate e.val = .ok ()
  | [], sec, es, h => by cases h; simp
  | l :: ls, sec, es, h => by
    rw [parse] at h
    simp only [bind, Except.bind] at h
    cases h1 : iniLine buffer sec l with
    | error e => rw [h1] at h; cases h
    | ok a =>
      obtain ⟨s, e⟩ := a
      rw [h1] at h
      simp only at h
      cases h2 : parse buffer s ls with
      | error x => rw [h2] at h; cases h
      | ok r =>
        rw [h2] at h
        cases h
        intro x hx
        rw [List.mem_append] at hx
        rcases hx with hx | hx
        · cases e with
          | none => simp at hx
          | some e =>
            simp only [Option.toList_some, List.mem_singleton] at hx
            subst hx
            unfold iniLine at h1
            split at h1
            · cases h1
            split at h1
            · cases h1
            split at h1
            · simp only [] at h1; split at h1 <;> cases h1
            split at h1
            · cases h1
            simp only [bind, Except.bind] at h1
            cases h3 : splitAt [] (zstr l) with
            | error y => rw [h3] at h1; cases h1
            | ok kv =>
              obtain ⟨k, v⟩ := kv
              rw [h3] at h1
              simp only at h1
              split at h1
              · cases h1
              · cases h1; exact splitAt_valid _ _ _ _ h3
        · exact parse_valid ls s r h2 x hx

/-- Two files that load and have the same checksum have the same values, in the same order, so the same version, passphrase and values are
loaded from them; or there is a collision of the hash. The sections have no quotes. -/
theorem c40_tamper {H : Str → Str} {buffer : Nat} {f g : Str} {a b : Loaded} (ha : load buffer H f = .ok a) (hb : load buffer H g = .ok b)
    (hc : a.checksum = b.checksum) : ∃ es fs, parse buffer [] (lines f) = .ok es ∧ parse buffer [] (lines g) = .ok fs ∧
      ((∀ e ∈ es ++ fs, 34 ∉ e.sec) → (covered es = covered fs ∧ a.version = b.version ∧ a.pass = b.pass ∧ a.out = b.out) ∨ Collision H) := by
  have key : ∀ {f : Str} {a : Loaded}, load buffer H f = .ok a → ∃ es, parse buffer [] (lines f) = .ok es ∧
      (a.version, a.pass, a.out) = (covered es).foldl effect (none, none, []) ∧
      a.input = ((covered es).foldl saveValue {}).sum ++ [125, 125] ∧ a.checksum = H a.input := by
    intro f a h
    unfold load at h
    simp only [bind, Except.bind] at h
    cases h1 : loadLines buffer {} (lines f) with
    | error e => rw [h1] at h; cases h
    | ok st =>
      rw [h1] at h
      obtain ⟨es, h2, h3, h4, h5⟩ := loadLines_parse _ _ _ h1
      simp only at h
      cases hx : st.expected with
      | none => rw [hx] at h; cases h
      | some c =>
        rw [hx] at h
        simp only at h
        split at h
        · rename_i hh
          cases h
          refine ⟨es, h2, ?_, ?_, hh⟩
          · rw [← effect_covered]; exact h3
          · simp only [fold_save, h4]
        · cases h
  obtain ⟨es, p1, e1, i1, c1⟩ := key ha
  obtain ⟨fs, p2, e2, i2, c2⟩ := key hb
  refine ⟨es, fs, p1, p2, fun hq => ?_⟩
  by_cases hi : a.input = b.input
  · left
    have hl : covered es = covered fs := by
      apply c40_checksum
      · intro e he
        have := (List.mem_filter.1 he).1
        exact ⟨hq e (List.mem_append_left _ this), parse_valid _ _ _ p1 e this⟩
      · intro e he
        have := (List.mem_filter.1 he).1
        exact ⟨hq e (List.mem_append_right _ this), parse_valid _ _ _ p2 e this⟩
      · rw [← i1, ← i2, hi]
    refine ⟨hl, ?_⟩
    rw [hl, ← e2] at e1
    simp only [Prod.mk.injEq] at e1
    exact e1
  · right
    exact ⟨a.input, b.input, hi, by rw [← c1, ← c2, hc]⟩

/-! ## Examples -/

theorem short_run {s : Str} (h : s.length < 19) : ¬LongRun s := by
  rintro ⟨a, d, b, rfl, h1, _⟩
  simp only [List.length_append] at h
  omega

/-- The key `a="b`, with an equals sign and a quote. -/
def aKey : Str := [97, 61, 34, 98]

/-- The section `s` with the value `{"k":[1,"x=y"]}`. -/
def aEntry : Entry := ⟨[115], aKey, [123, 34, 107, 34, 58, 91, 49, 44, 34, 120, 61, 121, 34, 93, 125]⟩

theorem aEntry_writable : Writable 100 aEntry where
  sec := by decide
  other := by decide
  key := by decide
  fits := by decide
  zero := by decide
  val := by
    have hg : Good (.obj [([107], .arr [.num 1, .str [120, 61, 121]])]) := by
      apply good_obj
      · simp
      · intro x hx
        simp only [List.mem_singleton] at hx
        subst hx
        exact ⟨by decide, by decide⟩
      · intro x hx
        simp only [List.mem_singleton] at hx
        subst hx
        refine good_arr ?_
        intro w hw
        simp only [List.mem_cons, List.not_mem_nil, or_false] at hw
        rcases hw with rfl | rfl
        · exact good_num (by decide)
        · exact good_str _
    refine ⟨.obj [([107], .arr [.num 1, .str [120, 61, 121]])], hg, (by intro l h; cases h), ?_, .inr ⟨?_, ?_⟩⟩
    · rw [fromVar_text hg]; congr 1; decide +kernel
    · intro p w hw
      have hk : ¬CommaEnd [107] := by
        rintro ⟨a, n, h⟩
        have := congrArg (fun s => (44 : UInt8) ∈ s) h
        simp at this
      have hx : ¬CommaEnd [120, 61, 121] := by
        rintro ⟨a, n, h⟩
        have := congrArg (fun s => (44 : UInt8) ∈ s) h
        simp at this
      match p, hw with
      | [], hw => cases hw; intro x hx; simp only [List.mem_singleton] at hx; subst hx; exact hk
      | .item _ :: _, hw => cases hw
      | .field k :: p, hw =>
        simp only [Val.find, Val.part, List.lookup] at hw
        split at hw
        · rename_i c
          simp only [Option.bind_some] at hw
          match p, hw with
          | [], hw => cases hw; trivial
          | .field _ :: _, hw => cases hw
          | .item 0 :: [], hw => cases hw; trivial
          | .item 0 :: _ :: _, hw => cases hw
          | .item 1 :: [], hw => cases hw; exact hx
          | .item 1 :: _ :: _, hw => cases hw
          | .item (i + 2) :: _, hw => simp [Val.find, Val.part] at hw
        · cases hw
    · rintro ⟨a, d, b, h, h1, h2⟩
      have hc : (34 : UInt8) ∉ d := fun e => absurd (h2 34 e) (by decide)
      have hd : d.length ≤ (aEntry.line.filter isDigit).length := by
        rw [h, List.filter_append, List.filter_append, List.filter_eq_self.2 h2]
        simp only [List.length_append]; omega
      have : (aEntry.line.filter isDigit).length = 1 := by decide +kernel
      omega

/-- A hash. -/
def aHash : Str → Str := fun _ => List.replicate 40 48

theorem aHash_hex : Hex aHash := by
  intro x
  refine ⟨by simp [aHash], fun c hc => ?_⟩
  have := List.eq_of_mem_replicate hc
  subst this; decide

example : ∃ f r, save aHash [aEntry] (some ([aEntry], [112])) [aEntry] = .ok f ∧ load 100 aHash f = .ok r ∧ r.pass = some [112] ∧
    r.out = [aEntry, aEntry, aEntry] := by
  obtain ⟨f, r, h1, h2, _, h4, h5⟩ := c40_roundtrip aHash_hex (buffer := 100) (by decide) [aEntry] [aEntry] (some ([aEntry], [112]))
    (by simpa using aEntry_writable) (by simpa using aEntry_writable)
    (by intro m p h; cases h; exact ⟨by simpa using aEntry_writable, by decide, by decide⟩)
  exact ⟨f, r, h1, h2, h4, h5⟩

/-- Two values for `c40_checksum`: the section, the key and the value are all valid. -/
example : ∀ e ∈ [aEntry, aEntry], 34 ∉ e.sec ∧ validate e.val = .ok () := by
  intro e he
  simp only [List.mem_cons, List.not_mem_nil, or_false, or_self] at he
  subst he
  exact ⟨by decide, aEntry_writable.legible.valid⟩

theorem load_blank {H : Str → Str} {buffer : Nat} (hb : 0 < buffer) (f : Str) : load buffer H ([10] ++ f) = load buffer H f := by
  unfold load
  rw [List.cons_append, List.nil_append, lines, if_pos rfl, loadLines, iniLine_blank hb]
  rfl

/-- Two files for `c40_tamper`: the file and the same file with more blank lines. -/
example : ∃ f r s, f ≠ [10] ++ f ∧ load 100 aHash f = .ok r ∧ load 100 aHash ([10] ++ f) = .ok s ∧ r.checksum = s.checksum := by
  have h := load_total aHash_hex (buffer := 100) (by decide) [] [aEntry] none (by simp) (by simpa using aEntry_writable) (by intro m p h; cases h)
  refine ⟨file aHash (total [] none [aEntry]), _, _, by intro h; simpa using congrArg List.length h, h, (load_blank (by decide) _).trans h, rfl⟩

/-! ## What does not hold -/

theorem loadLines_error {buffer : Nat} (st : Ld) (ls : List Str) {l : Str} {x : Err} (h : iniLine buffer st.sec l = .error x) :
    loadLines buffer st (l :: ls) = .error x := by
  rw [loadLines, h]; rfl

theorem loadLines_value {buffer : Nat} (st : Ld) (ls : List Str) {l s : Str} {e : Entry} {st' : Ld} (h : iniLine buffer st.sec l = .ok (s, some e))
    (h' : loadValue { st with sec := s } e = .ok st') : loadLines buffer st (l :: ls) = loadLines buffer st' ls := by
  rw [loadLines, h]
  simp only [bind, Except.bind, h']

/-- The state behind the values of `infoSave` itself. -/
theorem load_after {H : Str → Str} {buffer : Nat} (hb : 60 < buffer) (e : Entry) (hs : e.sec ≠ [] ∧ 10 ∉ e.sec ∧ e.sec.length + 2 < buffer)
    (ho : e.sec ≠ backrestZ) (hn : 10 ∉ e.line) : ∃ st rest, Does {} [⟨backrestZ, formatZ, [53]⟩, ⟨backrestZ, versionZ, quote projectVersion⟩] st ∧
      rest = ((10 :: 91 :: backrestZ ++ [93, 10]) ++ checksumZ ++ 61 :: quote (H ([123] ++ sums none (total [] none [e]) ++ [125, 125])) ++ [10]) ∧
      loadLines buffer {} (lines (file H (total [] none [e]))) = loadLines buffer { st with sec := e.sec } (e.line :: lines rest) := by
  obtain ⟨st, d, _⟩ := does_version {} projectVersion
  obtain ⟨rest, hr⟩ : ∃ rest, rest = ((10 :: 91 :: backrestZ ++ [93, 10]) ++ checksumZ ++
    61 :: quote (H ([123] ++ sums none (total [] none [e]) ++ [125, 125])) ++ [10]) := ⟨_, rfl⟩
  have hf : file H (total [] none [e]) = chunks (Ld.last {}) [⟨backrestZ, formatZ, [53]⟩, ⟨backrestZ, versionZ, quote projectVersion⟩] ++
      ([] ++ 10 :: ((91 :: e.sec ++ [93]) ++ 10 :: (e.line ++ 10 :: rest))) := by
    rw [file, hr]
    obtain ⟨input, hin⟩ : ∃ input, input = [123] ++ sums none (total [] none [e]) ++ [125, 125] := ⟨_, rfl⟩
    rw [← hin]
    have : total [] none [e] = [⟨backrestZ, formatZ, [53]⟩, ⟨backrestZ, versionZ, quote projectVersion⟩] ++ [e] := rfl
    rw [this, chunks_append]
    have h2 : chunks (lastSec none [⟨backrestZ, formatZ, [53]⟩, ⟨backrestZ, versionZ, quote projectVersion⟩]) [e] =
        [10] ++ (91 :: e.sec ++ [93, 10]) ++ (e.line ++ [10]) := by
      simp [lastSec, chunks, Ne.symm ho]
    rw [h2]
    simp [List.append_assoc]
  refine ⟨st, rest, d, hr, ?_⟩
  have hl := loadLines_chunks (buffer := buffer) (by omega) ([] ++ 10 :: ((91 :: e.sec ++ [93]) ++ 10 :: (e.line ++ 10 :: rest)))
    [⟨backrestZ, formatZ, [53]⟩, ⟨backrestZ, versionZ, quote projectVersion⟩] {} (version_legible hb) (.inl rfl)
  rw [d.ok] at hl
  rw [hf, hl]
  simp only []
  have h91 : 10 ∉ (91 :: e.sec ++ [93] : Str) := by simp [hs.2.1]
  rw [lines_cons (by decide), lines_cons h91, lines_cons hn, loadLines, iniLine_blank (by omega)]
  simp only [bind, Except.bind]
  rw [loadLines, iniLine_section hs.1 hs.2.2]
  simp only [bind, Except.bind]

theorem load_error {H : Str → Str} {buffer : Nat} (hb : 60 < buffer) (e : Entry) (hs : e.sec ≠ [] ∧ 10 ∉ e.sec ∧ e.sec.length + 2 < buffer)
    (ho : e.sec ≠ backrestZ) (hn : 10 ∉ e.line) {x : Err} (hx : iniLine buffer e.sec e.line = .error x) :
    ∃ f, save H [] none [e] = .ok f ∧ load buffer H f = .error x := by
  obtain ⟨st, rest, _, _, h⟩ := load_after (H := H) hb e hs ho hn
  refine ⟨_, save_file H [] [e] none, ?_⟩
  have h := h.trans (loadLines_error _ _ hx)
  unfold load
  simp only [h, bind, Except.bind]

/-- Nothing checks the length of a line when it is saved. A file with a line that does not fit in the buffer of the reader cannot be
loaded. -/
theorem c40_line (H : Str → Str) {buffer : Nat} (hb : 60 < buffer) (e : Entry) (hs : e.sec ≠ [] ∧ 10 ∉ e.sec ∧ e.sec.length + 2 < buffer)
    (ho : e.sec ≠ backrestZ) (hn : 10 ∉ e.line) (hl : buffer ≤ e.line.length) :
    ∃ f, save H [] none [e] = .ok f ∧ load buffer H f = .error .fileRead :=
  load_error hb e hs ho hn (by unfold iniLine; rw [if_pos hl])

example : ∃ e : Entry, (e.sec ≠ [] ∧ 10 ∉ e.sec ∧ e.sec.length + 2 < 61) ∧ e.sec ≠ backrestZ ∧ 10 ∉ e.line ∧ 61 ≤ e.line.length :=
  ⟨⟨[115], List.replicate 60 107, [49]⟩, by decide, by decide, by decide, by decide⟩

/-- The key `k=` and 20 digits, the value `1`. -/
def numberEntry : Entry := ⟨[115], [107, 61] ++ List.replicate 20 57, [49]⟩

/-- A key with an equals sign and then a number that is out of range: the file that is saved cannot be loaded. The error of the number is not
the one that leads to another try. -/
theorem c40_number (H : Str → Str) {buffer : Nat} (hb : 60 < buffer) :
    ∃ f, save H [] none [numberEntry] = .ok f ∧ load buffer H f = .error .format := by
  refine load_error hb numberEntry ⟨by decide, by decide, ?_⟩ (by decide) (by decide) ?_
  · have : numberEntry.sec.length = 1 := rfl
    omega
  · unfold iniLine
    have : numberEntry.line.length = 24 := by decide
    rw [if_neg (by omega), if_neg (by decide), if_neg (by decide), if_neg (by decide),
      show splitAt [] (zstr numberEntry.line) = .error .format by decide +kernel]
    rfl

/-- The key `x={,":"` with the value `{",":[":[,","C"]}`. -/
def commaEntry : Entry := ⟨[115], [120, 61, 123, 44, 34, 58, 34],
  [123, 34, 44, 34, 58, 91, 34, 58, 91, 44, 34, 44, 34, 67, 34, 93, 125]⟩

/-- How it is read: the key `x`. -/
def commaRead : Entry := ⟨[115], [120], [123, 44, 34, 58, 34] ++ 61 :: commaEntry.val⟩

/-- The value is a tree that can be written. The reader accepts a comma in place of a quote and so divides the line at the wrong equals sign.
The file that is saved cannot be loaded, unless there is a collision of the hash. -/
theorem c40_misparse {H : Str → Str} (hH : Hex H) {buffer : Nat} (hb : 60 < buffer) :
    (∃ v, Good v ∧ (∀ l, v ≠ .arr l) ∧ jsonFromVar v = .ok commaEntry.val) ∧
    ((∃ f, save H [] none [commaEntry] = .ok f ∧ load buffer H f = .error .checksum) ∨ Collision H) := by
  constructor
  · have hg : Good (.obj [([44], .arr [.str [58, 91, 44], .str [67]])]) := by
      apply good_obj
      · simp
      · intro x hx
        simp only [List.mem_singleton] at hx
        subst hx
        exact ⟨by decide, by decide⟩
      · intro x hx
        simp only [List.mem_singleton] at hx
        subst hx
        refine good_arr ?_
        intro w hw
        simp only [List.mem_cons, List.not_mem_nil, or_false] at hw
        rcases hw with rfl | rfl <;> exact good_str _
    exact ⟨_, hg, (by intro l h; cases h), by rw [fromVar_text hg]; congr 1⟩
  · have hi : iniLine buffer commaEntry.sec commaEntry.line = .ok ([115], some commaRead) := by
      unfold iniLine
      have : commaEntry.line.length = 25 := by decide
      rw [if_neg (by omega), if_neg (by decide), if_neg (by decide), if_neg (by decide),
        show splitAt [] (zstr commaEntry.line) = .ok (commaRead.key, commaRead.val) by decide +kernel]
      rfl
    obtain ⟨st, rest, d, hr, h⟩ := load_after (H := H) hb commaEntry ⟨by decide, by decide, by have : commaEntry.sec.length = 1 := rfl; omega⟩
      (by decide) (by decide)
    have h := h.trans (loadLines_value _ _ hi (loadValue_other (by decide)))
    rw [hr, load_tail hH hb] at h
    have hsum : st.sum = _ := d.sum
    have hlast : st.last = some backrestZ := d.last
    by_cases hc : H ([123] ++ sums none (total [] none [commaEntry]) ++ [125, 125]) = H ((st.sum ++ sumNext st.last commaRead) ++ [125, 125])
    · right
      refine ⟨_, _, ?_, hc⟩
      rw [hsum, hlast]
      decide +kernel
    · left
      refine ⟨_, save_file H [] [commaEntry] none, ?_⟩
      unfold load
      simp only [h, bind, Except.bind]
      rw [if_neg hc]

/-- The section `s":{"a":1},"t`. -/
def quoteSec : Str := [115, 34, 58, 123, 34, 97, 34, 58, 49, 125, 44, 34, 116]

/-- Sections with a quote: two different files, whatever the hash, have the same checksum. -/
theorem c40_section {H : Str → Str} (hH : Hex H) {buffer : Nat} (hb : 60 < buffer) : ∃ f g a b,
    save H [] none [⟨[115], [97], [49]⟩, ⟨[116], [98], [50]⟩] = .ok f ∧ save H [] none [⟨quoteSec, [98], [50]⟩] = .ok g ∧
    load buffer H f = .ok a ∧ load buffer H g = .ok b ∧ a.checksum = b.checksum ∧ a.out ≠ b.out := by
  have w : ∀ (s : Str) (k : UInt8) (n : Nat) (d : UInt8), s ≠ [] → 10 ∉ s → s.length ≤ 13 → s ≠ backrestZ ∧ s ≠ cipherZ → k ≠ 10 → k ≠ 0 → k ≠ 61 →
      d ≠ 0 → n < 10 → text (.num n) = [d] → Writable buffer ⟨s, [k], [d]⟩ := by
    intro s k n d h1 h2 h3 h4 h5 h6 h7 h8 h9 h10
    have hg : Good (.num n) := good_num ⟨by omega, by omega⟩
    refine ⟨⟨h1, h2, by simp only; omega⟩, h4, ⟨by simp, by simp [Ne.symm h5], by simp [Ne.symm h6]⟩, by simp [Entry.line]; omega, by simp [Ne.symm h8],
      ⟨.num n, hg, (by intro l h; cases h), ?_, .inl (by simp [Ne.symm h7])⟩⟩
    rw [fromVar_text hg]
    exact congrArg _ h10
  have h1 := load_total hH hb [] [⟨[115], [97], [49]⟩, ⟨[116], [98], [50]⟩] none (by simp) (by
    intro e he
    simp only [List.mem_cons, List.not_mem_nil, or_false] at he
    rcases he with rfl | rfl
    · exact w [115] 97 1 49 (by decide) (by decide) (by decide) (by decide) (by decide) (by decide) (by decide) (by decide) (by decide) (by decide +kernel)
    · exact w [116] 98 2 50 (by decide) (by decide) (by decide) (by decide) (by decide) (by decide) (by decide) (by decide) (by decide) (by decide +kernel))
    (by intro m p h; cases h)
  have h2 := load_total hH hb [] [⟨quoteSec, [98], [50]⟩] none (by simp) (by
    intro e he
    simp only [List.mem_singleton] at he
    subst he
    exact w quoteSec 98 2 50 (by decide) (by decide) (by decide) (by decide) (by decide) (by decide) (by decide) (by decide) (by decide) (by decide +kernel))
    (by intro m p h; cases h)
  refine ⟨_, _, _, _, save_file H _ _ _, save_file H _ _ _, h1, h2, ?_, ?_⟩
  · exact congrArg H (by decide +kernel)
  · simp

end Verif.Info
