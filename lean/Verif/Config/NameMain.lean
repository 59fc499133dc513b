import Verif.Config.NameProps

/-! # C62: the theorems -/

namespace Verif.Config

/-- C62: what a name means. A name of at most 64 bytes is accepted as an option exactly if it is an
optional `no-` or `reset-`, a name that picks the option (or, when it picks none, a deprecated name of
it) and a key between 1 and 256 where the option has one; the result is this option, this key, and
whether it is negated or reset. -/
theorem c62_names {T : Table} (wf : T.WF) (pm im : Bool) (cand : Str) (res : OptRes) :
    parseName T pm im cand = .ok (some res) ↔
      cand.length ≤ 64 ∧ ∃ key base dep o,
        Reads cand res.negate res.reset key base ∧
        Denotes T pm base res.id dep ∧ T.opts[res.id]? = some o ∧
        (res.negate = true → o.negate = true) ∧ (res.reset = true → o.reset = true) ∧
        KeyAllowed im o key dep ∧
        res.keyIdx + 1 = key.getD 1 ∧ res.multi = o.multi ∧
        (res.deprecated = true ↔ dep ≠ none ∨ (key = none ∧ o.deprecateMatch = true)) := by
  rw [parseName]
  by_cases hl : cand.length > nameMax
  · rw [if_pos hl]
    constructor
    · intro h; cases h
    · rintro ⟨h, -⟩
      simp only [nameMax] at hl
      omega
  rw [if_neg hl]
  have hl' : cand.length ≤ 64 := by simp only [nameMax] at hl; omega
  obtain ⟨n, r, name, hs⟩ : ∃ n r name, stripPre cand = (n, r, name) := ⟨_, _, _, rfl⟩
  rw [hs]
  dsimp only
  constructor
  · intro h
    refine ⟨hl', ?_⟩
    cases hk : stripKey name with
    | error e => rw [hk] at h; cases h
    | ok p =>
      obtain ⟨ix, k, base⟩ := p
      rw [hk] at h
      dsimp only at h
      cases hf : findOpt T pm im ix base with
      | error e => rw [hf] at h; cases h
      | ok q =>
        rw [hf] at h
        cases q with
        | none => cases h
        | some q =>
          obtain ⟨id, dep⟩ := q
          dsimp only at h
          have hid := findOpt_lt wf hf
          rw [List.getElem?_eq_getElem hid] at h
          dsimp only at h
          obtain ⟨key, hb, hix, hkk⟩ := (stripKey_iff name base ix k).1 hk
          obtain ⟨d, hd, hdep, hok⟩ := (findOpt_some wf pm im ix base id dep).1 hf
          have hR := stripPre_iff cand name n r key base ⟨hs, hb⟩
          split at h
          · cases h
          rename_i h1
          split at h
          · cases h
          rename_i h2
          split at h
          · cases h
          rename_i h3
          split at h
          · cases h
          rename_i h4
          cases h
          refine ⟨key, base, d, T.opts[id], hR, hd, List.getElem?_eq_getElem hid, ?_, ?_, ?_, hkk, rfl, ?_⟩
          · rintro rfl; simpa using h1
          · rintro rfl; simpa using h2
          · subst hix hdep
            cases d with
            | some d =>
              obtain ⟨hk1, hk2⟩ := hok
              refine ⟨fun h => hk1 ?_, fun h => hk2 ?_⟩
              · cases key with
                | none => exact absurd rfl h
                | some _ => rfl
              · rw [h]; rfl
            | none =>
              cases key with
              | none =>
                cases hdm : T.opts[id].deprecateMatch with
                | true => exact .inl ⟨rfl, hdm⟩
                | false =>
                  right
                  refine ⟨fun h => absurd rfl h, fun _ hg => ?_⟩
                  simpa [hdm, hg] using h4
              | some k' =>
                right
                refine ⟨fun _ => ?_, fun h => by cases h⟩
                simpa using h3
          · subst hix hdep
            cases d <;> cases key <;> simp
  · rintro ⟨-, key, base, dep, o, hR, hD, ho, hn, hr, hka, hkk, hm, hdp⟩
    obtain ⟨name', hs', hb⟩ := reads_strip hR
    rw [hs] at hs'
    cases hs'
    have hk := (stripKey_iff name base key.isSome res.keyIdx).2 ⟨key, hb, rfl, hkk⟩
    rw [hk]
    dsimp only
    have hdok : DepOk im key.isSome dep := by
      cases dep with
      | none => trivial
      | some d =>
        obtain ⟨h1, h2⟩ := hka
        refine ⟨fun h => h1 ?_, fun h => h2 ?_⟩
        · rintro rfl; cases h
        · cases key with
          | none => rfl
          | some _ => cases h
    have hf := (findOpt_some wf pm im key.isSome base res.id dep.isSome).2 ⟨dep, hD, rfl, hdok⟩
    rw [hf]
    dsimp only
    rw [ho]
    dsimp only
    obtain ⟨id, keyIdx, n', r', dp, mu⟩ := res
    dsimp only at *
    have e1 : (n' && !o.negate) = false := by
      cases n' with
      | false => rfl
      | true => simp [hn rfl]
    have e2 : (r' && !o.reset) = false := by
      cases r' with
      | false => rfl
      | true => simp [hr rfl]
    rw [e1, e2]
    simp only [Bool.false_eq_true, if_false]
    cases dep with
    | some d => cases key <;> simp_all
    | none =>
      cases key with
      | some k' =>
        rcases hka with ⟨h, _⟩ | ⟨h, _⟩
        · cases h
        · have := h (by simp)
          simp_all
      | none =>
        cases hdm : o.deprecateMatch with
        | true => simp_all
        | false =>
          rcases hka with ⟨_, h⟩ | ⟨_, h⟩
          · rw [hdm] at h; cases h
          · cases hg : o.group <;> simp_all

/-- C62: a name is unknown (and not refused) exactly if it can be read and no option or deprecated name
is picked by it. -/
theorem c62_unknown {T : Table} (wf : T.WF) (pm im : Bool) (cand : Str) :
    parseName T pm im cand = .ok none ↔
      cand.length ≤ 64 ∧ ∃ n r key base, Reads cand n r key base ∧
        ∀ id dep, ¬ Denotes T pm base id dep := by
  rw [parseName]
  by_cases hl : cand.length > nameMax
  · rw [if_pos hl]
    constructor
    · intro h; cases h
    · rintro ⟨h, -⟩
      simp only [nameMax] at hl
      omega
  rw [if_neg hl]
  have hl' : cand.length ≤ 64 := by simp only [nameMax] at hl; omega
  obtain ⟨n, r, name, hs⟩ : ∃ n r name, stripPre cand = (n, r, name) := ⟨_, _, _, rfl⟩
  rw [hs]
  dsimp only
  constructor
  · intro h
    refine ⟨hl', ?_⟩
    cases hk : stripKey name with
    | error e => rw [hk] at h; cases h
    | ok p =>
      obtain ⟨ix, k, base⟩ := p
      rw [hk] at h
      dsimp only at h
      obtain ⟨key, hb, hix, hkk⟩ := (stripKey_iff name base ix k).1 hk
      cases hf : findOpt T pm im ix base with
      | error e => rw [hf] at h; cases h
      | ok q =>
        rw [hf] at h
        cases q with
        | none =>
          exact ⟨n, r, key, base, stripPre_iff cand name n r key base ⟨hs, hb⟩,
            (findOpt_none wf pm im ix base).1 hf⟩
        | some q =>
          obtain ⟨id, dep⟩ := q
          dsimp only at h
          have hid := findOpt_lt wf hf
          rw [List.getElem?_eq_getElem hid] at h
          dsimp only at h
          split at h
          · cases h
          split at h
          · cases h
          split at h
          · cases h
          split at h <;> cases h
  · rintro ⟨-, n', r', key, base, hR, hD⟩
    obtain ⟨name', hs', hb⟩ := reads_strip hR
    rw [hs] at hs'
    cases hs'
    have hkk : (key.getD 1 - 1) + 1 = key.getD 1 := by
      cases hb <;> simp <;> omega
    rw [(stripKey_iff name base key.isSome (key.getD 1 - 1)).2 ⟨key, hb, rfl, hkk⟩]
    dsimp only
    rw [(findOpt_none wf pm im _ base).2 hD]

/-- C62: a name that is refused is refused with `OptionInvalidError`. -/
theorem c62_error {T : Table} (wf : T.WF) {pm im : Bool} {cand : Str} {e : Err}
    (h : parseName T pm im cand = .error e) : e = .optionInvalid := by
  rw [parseName] at h
  split at h
  · cases h; rfl
  obtain ⟨n, r, name, hs⟩ : ∃ n r name, stripPre cand = (n, r, name) := ⟨_, _, _, rfl⟩
  rw [hs] at h
  dsimp only at h
  cases hk : stripKey name with
  | error e' => rw [hk] at h; cases h; exact stripKey_error hk
  | ok p =>
    obtain ⟨ix, k, base⟩ := p
    rw [hk] at h
    dsimp only at h
    cases hf : findOpt T pm im ix base with
    | error e' => rw [hf] at h; cases h; exact findOpt_error wf hf
    | ok q =>
      rw [hf] at h
      cases q with
      | none => cases h
      | some q =>
        obtain ⟨id, dep⟩ := q
        dsimp only at h
        have hid := findOpt_lt wf hf
        rw [List.getElem?_eq_getElem hid] at h
        dsimp only at h
        split at h
        · cases h; rfl
        split at h
        · cases h; rfl
        split at h
        · cases h; rfl
        split at h <;> cases h
        rfl

end Verif.Config
