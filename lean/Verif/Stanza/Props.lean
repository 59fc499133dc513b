import Verif.Stanza.Model
import Verif.Info.PgProps

/-!
# C59: interrupted stanza-create and stanza-upgrade
-/

namespace Verif.Stanza

open Verif.Info.Pg

/-! ## Specification -/

/-- What identifies the database in an entry that is in both files. -/
def key (d : Data) : Nat × Nat × Nat := (d.id, d.version, d.sys)

/-- The current entry is that of the database. -/
def IsCurrent (p : Pg) (db : Db) : Prop := ∃ d, p.history[p.current]? = some d ∧ d.version = db.1 ∧ d.sys = db.2.1

/-- The repository after at most `n` commands, each of which may have been interrupted after any number of files. -/
inductive Reach (cv : Nat → Nat) : Nat → Repo → Prop
  | empty : Reach cv 0 fun _ => none
  | create {n : Nat} {r : Repo} {other : Bool} {db : Db} {ws : List Write} (k : Nat) :
    Reach cv n r → create cv other r db = .ok ws → Reach cv (n + 1) (apply r (ws.take k))
  | upgrade {n : Nat} {r : Repo} {db : Db} {ws : List Write} (k : Nat) :
    Reach cv n r → upgrade cv r db = .ok ws → Reach cv (n + 1) (apply r (ws.take k))

/-! ## Lemmas -/

/-- The information after the databases `l`. -/
def info (cv : Nat → Nat) (kind : Kind) (l : List Db) : Pg := ⟨kind, expected kind cv l, 0⟩

/-- The databases are the same. -/
def same (x y : Db) : Bool := x.1 = y.1 && x.2.1 = y.2.1

theorem same_refl (x : Db) : same x x = true := by simp [same]

theorem info_data (cv : Nat → Nat) (kind : Kind) (l : List Db) (x : Db) :
    data (info cv kind (l ++ [x])) (info cv kind (l ++ [x])).current = .ok (entry kind cv (l.length + 1) x) := by
  simp only [info, expected_snoc, data, List.getElem?_cons_zero]

theorem differs_entry (cv : Nat → Nat) (kind : Kind) (n : Nat) (db x : Db) : differs db (entry kind cv n x) = !same db x := by
  simp only [differs, entry, same, Bool.not_and]
  congr 1
  · by_cases h : db.1 = x.1 <;> simp [h]
  · by_cases h : db.2.1 = x.2.1 <;> simp [h]

theorem set_info (cv : Nat → Nat) (l : List Db) (hn : l.length + 1 < 2 ^ 32) (x : Db) (c : Nat) :
    set cv (info cv .archive l) x.1 x.2.1 c = .ok (info cv .archive (l ++ [x])) ∧
    set cv (info cv .backup l) x.1 x.2.1 x.2.2 = .ok (info cv .backup (l ++ [x])) :=
  ⟨set_expected .archive cv l hn x, set_expected .backup cv l hn x⟩

theorem archive_same (cv : Nat → Nat) (l : List Db) {x y : Db} (h : same x y = true) :
    info cv .archive (l ++ [x]) = info cv .archive (l ++ [y]) := by
  simp only [same, Bool.and_eq_true, decide_eq_true_eq] at h
  simp only [info, expected_snoc]
  have : entry .archive cv (l.length + 1) x = entry .archive cv (l.length + 1) y := by simp only [entry, h.1, h.2]; rfl
  rw [this]

theorem checkInfo_entry (cv : Nat → Nat) (n m : Nat) (x y : Db) :
    checkInfo (entry .archive cv n x) (entry .backup cv m y) = if n = m ∧ same x y = true then .ok () else .error .fileInvalid := by
  unfold checkInfo
  simp only [entry, same]
  by_cases h1 : n = m <;> by_cases h2 : x.1 = y.1 <;> by_cases h3 : x.2.1 = y.2.1 <;> simp [h1, h2, h3]

theorem refresh_info (cv : Nat → Nat) (l : List Db) (hn : l.length + 2 < 2 ^ 32) (x db : Db) :
    refresh cv (info cv .archive (l ++ [x])) (entry .archive cv (l.length + 1) x) db 0 =
      .ok (info cv .archive (if same db x then l ++ [x] else l ++ [x] ++ [db])) ∧
    refresh cv (info cv .backup (l ++ [x])) (entry .backup cv (l.length + 1) x) db db.2.2 =
      .ok (info cv .backup (if same db x then l ++ [x] else l ++ [x] ++ [db])) := by
  have h1 := set_info cv (l ++ [x]) (by simp only [List.length_append, List.length_singleton]; omega) db 0
  unfold refresh
  rw [differs_entry, differs_entry]
  cases same db x with
  | true => exact ⟨rfl, rfl⟩
  | false => exact h1

/-- The upgrade when both files agree. -/
theorem upgrade_agree {cv : Nat → Nat} {r : Repo} {l : List Db} {x : Db} (hn : l.length + 2 < 2 ^ 32)
    (ha : r .archive = some (info cv .archive (l ++ [x]))) (hb : r .backup = some (info cv .backup (l ++ [x]))) (db : Db) :
    upgrade cv r db = .ok (if same db x then [] else
      saveArchive (info cv .archive (l ++ [x] ++ [db])) ++ saveBackup (info cv .backup (l ++ [x] ++ [db]))) := by
  obtain ⟨r1, r2⟩ := refresh_info cv l hn x db
  unfold upgrade
  simp only [loadFile, ha, hb, bind, Except.bind, info_data, r1, r2, differs_entry]
  cases hs : same db x with
  | true => simp only [if_true, info_data, checkInfo_entry, same_refl, and_self]; rfl
  | false =>
    simp only [Bool.false_eq_true, if_false, info_data, checkInfo_entry, same_refl, and_self, if_true, Bool.not_false]

/-- The upgrade when the archive information is ahead. -/
theorem upgrade_ahead {cv : Nat → Nat} {r : Repo} {l : List Db} {x y : Db} (hn : l.length + 3 < 2 ^ 32) (hd : same y x = false)
    (ha : r .archive = some (info cv .archive (l ++ [x] ++ [y]))) (hb : r .backup = some (info cv .backup (l ++ [x]))) (db : Db) :
    upgrade cv r db = if same db y then .ok (saveBackup (info cv .backup (l ++ [x] ++ [db]))) else .error .fileInvalid := by
  obtain ⟨r1, _⟩ := refresh_info cv (l ++ [x]) (by simp only [List.length_append, List.length_singleton]; omega) y db
  obtain ⟨_, r2⟩ := refresh_info cv l (by omega) x db
  have e : (l ++ [x]).length = l.length + 1 := by simp
  unfold upgrade
  simp only [loadFile, ha, hb, bind, Except.bind, info_data, r1, r2, differs_entry]
  cases hs : same db y with
  | true =>
    have hx : same db x = false := by
      simp only [same, Bool.and_eq_true, decide_eq_true_eq, Bool.and_eq_false_iff, decide_eq_false_iff_not] at hs hd ⊢
      rw [hs.1, hs.2]; exact hd
    have hs' : same y db = true := by
      simp only [same, Bool.and_eq_true, decide_eq_true_eq] at hs ⊢
      exact ⟨hs.1.symm, hs.2.symm⟩
    simp only [if_true, hx, Bool.false_eq_true, if_false, info_data, checkInfo_entry, hs', and_self, Bool.not_true, Bool.not_false,
      List.nil_append]
  | false =>
    simp only [Bool.false_eq_true, if_false, info_data]
    cases hx : same db x with
    | true =>
      simp only [if_true, info_data, checkInfo_entry, e]
      rw [if_neg (by simp)]
    | false =>
      simp only [Bool.false_eq_true, if_false, info_data, checkInfo_entry, List.length_append, List.length_singleton]
      rw [if_neg (by omega)]

/-- What is known of the repository. -/
inductive Inv (cv : Nat → Nat) (n : Nat) (r : Repo) : Prop
  | empty : (∀ f, r f = none) → Inv cv n r
  | started {a : Pg} : r .archive = some a → r .backup = none → r .backupCopy = none → Inv cv n r
  | agree {l : List Db} {x : Db} : l.length + 1 ≤ n → r .archive = some (info cv .archive (l ++ [x])) →
    r .backup = some (info cv .backup (l ++ [x])) → Inv cv n r
  | ahead {l : List Db} {x y : Db} : l.length + 2 ≤ n → same y x = false → r .archive = some (info cv .archive (l ++ [x] ++ [y])) →
    r .backup = some (info cv .backup (l ++ [x])) → Inv cv n r

theorem apply_snoc (r : Repo) (l : List Write) (w : Write) : apply r (l ++ [w]) = put (apply r l) w := by
  simp [apply]

theorem inv_upgrade {cv : Nat → Nat} {n : Nat} {r : Repo} (hn : n + 1 < 2 ^ 32) (h : Inv cv n r) {db : Db} {ws : List Write}
    (hu : upgrade cv r db = .ok ws) (k : Nat) : Inv cv (n + 1) (apply r (ws.take k)) := by
  cases h with
  | empty h => simp [upgrade, loadFile, h, bind, Except.bind] at hu
  | @started a h1 h2 h3 =>
    simp only [upgrade, loadFile, h1, h2, h3, bind, Except.bind] at hu
    split at hu <;> cases hu
  | @agree l x hl h1 h2 =>
    rw [upgrade_agree (by omega) h1 h2] at hu
    cases hu
    cases hs : same db x with
    | true => exact .agree (l := l) (x := x) (by omega) (by simpa [apply] using h1) (by simpa [apply] using h2)
    | false =>
      simp only [Bool.false_eq_true, if_false, saveArchive, saveBackup, List.cons_append, List.nil_append]
      match k with
      | 0 => exact .agree (l := l) (x := x) (by omega) (by simpa [apply] using h1) (by simpa [apply] using h2)
      | 1 => exact .ahead (l := l) (x := x) (y := db) (by omega) hs (by simp [apply, put]) (by simpa [apply, put] using h2)
      | 2 => exact .ahead (l := l) (x := x) (y := db) (by omega) hs (by simp [apply, put]) (by simpa [apply, put] using h2)
      | 3 => exact .agree (l := l ++ [x]) (x := db) (by simp; omega) (by simp [apply, put]) (by simp [apply, put])
      | k + 4 => exact .agree (l := l ++ [x]) (x := db) (by simp; omega) (by simp [apply, put]) (by simp [apply, put])
  | @ahead l x y hl hd h1 h2 =>
    rw [upgrade_ahead (by omega) hd h1 h2] at hu
    cases hs : same db y with
    | false => rw [hs] at hu; simp at hu
    | true =>
      rw [hs] at hu
      cases hu
      have h1' := h1
      rw [archive_same cv (l ++ [x]) hs |>.symm] at h1'
      match k with
      | 0 => exact .ahead (l := l) (x := x) (y := y) (by omega) hd (by simpa [apply] using h1) (by simpa [apply] using h2)
      | 1 => exact .agree (l := l ++ [x]) (x := db) (by simp; omega) (by simpa [apply, put, saveBackup] using h1') (by simp [apply, put, saveBackup])
      | k + 2 => exact .agree (l := l ++ [x]) (x := db) (by simp; omega) (by simpa [apply, put, saveBackup] using h1') (by simp [apply, put, saveBackup])

theorem copy_keeps (r : Repo) {p : Pg} {file copy f : File} (h : r file = some p) (hf : f ≠ copy) (k : Nat) (r' : Repo) :
    apply r' ((copyMissing r file copy).take k) f = r' f := by
  unfold copyMissing
  rw [h]
  cases r copy with
  | none =>
    match k with
    | 0 => rfl
    | k + 1 => simp [apply, put, hf]
  | some q => simp [apply]

theorem create_new {cv : Nat → Nat} {r : Repo} (h : ∀ f, r f = none) (db : Db) :
    create cv false r db = .ok (saveArchive (info cv .archive [db]) ++ saveBackup (info cv .backup [db])) := by
  obtain ⟨s1, _⟩ := set_info cv [] (by decide) db 0
  obtain ⟨_, s2⟩ := set_info cv [] (by decide) db 0
  have e1 : info cv .archive [] = new .archive := rfl
  have e2 : info cv .backup [] = new .backup := rfl
  rw [e1] at s1
  rw [e2] at s2
  unfold create
  simp only [h, Option.isSome_none, Bool.not_false, Bool.and_self, if_true, Bool.false_eq_true, if_false, bind, Except.bind, s1, s2]
  rfl

theorem inv_create {cv : Nat → Nat} {n : Nat} {r : Repo} (h : Inv cv n r) {other : Bool} {db : Db} {ws : List Write}
    (hu : create cv other r db = .ok ws) (k : Nat) : Inv cv (n + 1) (apply r (ws.take k)) := by
  have copies : ∀ {a b : Pg}, r .archive = some a → r .backup = some b →
      apply r (ws.take k) .archive = some a ∧ apply r (ws.take k) .backup = some b := by
    intro a b h1 h2
    unfold create at hu
    simp only [h1, h2, Option.isSome_some, Bool.not_true, Bool.false_and, Bool.false_eq_true, if_false, Bool.true_or, Bool.true_and, if_true,
      bind, Except.bind] at hu
    split at hu
    · cases hu
    · cases hu
      rw [List.take_append, apply, List.foldl_append, ← apply, ← apply]
      constructor
      · rw [copy_keeps r h2 (by decide), copy_keeps r h1 (by decide)]; exact h1
      · rw [copy_keeps r h2 (by decide), copy_keeps r h1 (by decide)]; exact h2
  cases h with
  | empty h =>
    cases other with
    | true => simp [create, h] at hu
    | false =>
      rw [create_new h] at hu
      cases hu
      simp only [saveArchive, saveBackup, List.cons_append, List.nil_append]
      match k with
      | 0 => exact .empty (by simpa [apply] using h)
      | 1 => exact .started (a := info cv .archive [db]) (by simp [apply, put]) (by simp [apply, put, h]) (by simp [apply, put, h])
      | 2 => exact .started (a := info cv .archive [db]) (by simp [apply, put]) (by simp [apply, put, h]) (by simp [apply, put, h])
      | 3 => exact .agree (l := []) (x := db) (by simp) (by simp [apply, put]) (by simp [apply, put])
      | k + 4 => exact .agree (l := []) (x := db) (by simp) (by simp [apply, put]) (by simp [apply, put])
  | @started a h1 h2 h3 => simp [create, h1, h2, h3] at hu
  | @agree l x hl h1 h2 => exact .agree (by omega) (copies h1 h2).1 (copies h1 h2).2
  | @ahead l x y hl hd h1 h2 => exact .ahead (by omega) hd (copies h1 h2).1 (copies h1 h2).2

theorem inv_reach {cv : Nat → Nat} {n : Nat} {r : Repo} (h : Reach cv n r) (hn : n < 2 ^ 32) : Inv cv n r := by
  induction h with
  | empty => exact .empty fun _ => rfl
  | create k _ hu ih => exact inv_create (ih (by omega)) hu k
  | upgrade k _ hu ih => exact inv_upgrade (by omega) (ih (by omega)) hu k

theorem info_keys (cv : Nat → Nat) (l : List Db) : (info cv .archive l).history.map key = (info cv .backup l).history.map key := by
  simp only [info, expected, List.map_reverse]
  congr 1
  apply List.ext_getElem
  · simp
  · intro i _ _
    simp [key, entry]

/-- What an upgrade that succeeds leaves. -/
def Complete (cv : Nat → Nat) (r : Repo) (db : Db) : Prop :=
  ∃ ws a b, upgrade cv r db = .ok ws ∧ apply r ws .archive = some a ∧ apply r ws .backup = some b ∧ IsCurrent a db ∧ IsCurrent b db ∧
    a.history.map key = b.history.map key ∧ upgrade cv (apply r ws) db = .ok []

theorem info_current (cv : Nat → Nat) (kind : Kind) (l : List Db) {x db : Db} (h : same db x = true) : IsCurrent (info cv kind (l ++ [x])) db := by
  simp only [same, Bool.and_eq_true, decide_eq_true_eq] at h
  refine ⟨entry kind cv (l.length + 1) x, ?_, h.1.symm, h.2.symm⟩
  simp only [info, expected_snoc, List.getElem?_cons_zero]

theorem complete_agree {cv : Nat → Nat} {r : Repo} {l : List Db} {x : Db} (hn : l.length + 3 < 2 ^ 32)
    (ha : r .archive = some (info cv .archive (l ++ [x]))) (hb : r .backup = some (info cv .backup (l ++ [x]))) (db : Db) : Complete cv r db := by
  have h := upgrade_agree (by omega) ha hb db
  cases hs : same db x with
  | true =>
    rw [hs, if_pos rfl] at h
    exact ⟨_, _, _, h, ha, hb, info_current _ _ _ hs, info_current _ _ _ hs, info_keys _ _, h⟩
  | false =>
    rw [hs, if_neg (by decide)] at h
    have ha' : apply r (saveArchive (info cv .archive (l ++ [x] ++ [db])) ++ saveBackup (info cv .backup (l ++ [x] ++ [db]))) .archive =
        some (info cv .archive (l ++ [x] ++ [db])) := by simp [apply, put, saveArchive, saveBackup]
    have hb' : apply r (saveArchive (info cv .archive (l ++ [x] ++ [db])) ++ saveBackup (info cv .backup (l ++ [x] ++ [db]))) .backup =
        some (info cv .backup (l ++ [x] ++ [db])) := by simp [apply, put, saveArchive, saveBackup]
    refine ⟨_, _, _, h, ha', hb', info_current _ _ _ (same_refl _), info_current _ _ _ (same_refl _), info_keys _ _, ?_⟩
    rw [upgrade_agree (by simp only [List.length_append, List.length_singleton]; omega) ha' hb', if_pos (same_refl _)]

theorem complete_ahead {cv : Nat → Nat} {r : Repo} {l : List Db} {x y : Db} (hn : l.length + 3 < 2 ^ 32) (hd : same y x = false)
    (ha : r .archive = some (info cv .archive (l ++ [x] ++ [y]))) (hb : r .backup = some (info cv .backup (l ++ [x]))) {db : Db}
    (hs : same db y = true) : Complete cv r db := by
  have h := upgrade_ahead (by omega) hd ha hb db
  rw [if_pos hs] at h
  rw [← archive_same cv (l ++ [x]) hs] at ha
  have ha' : apply r (saveBackup (info cv .backup (l ++ [x] ++ [db]))) .archive = some (info cv .archive (l ++ [x] ++ [db])) := by
    simpa [apply, put, saveBackup] using ha
  have hb' : apply r (saveBackup (info cv .backup (l ++ [x] ++ [db]))) .backup = some (info cv .backup (l ++ [x] ++ [db])) := by
    simp [apply, put, saveBackup]
  refine ⟨_, _, _, h, ha', hb', info_current _ _ _ (same_refl _), info_current _ _ _ (same_refl _), info_keys _ _, ?_⟩
  rw [upgrade_agree (by simp only [List.length_append, List.length_singleton]; omega) ha' hb', if_pos (same_refl _)]

/-! ## Properties -/

/-- Once there is a backup information, the history of the archive information is the same or has one more entry, at any time. -/
theorem c59_ahead {cv : Nat → Nat} {n : Nat} {r : Repo} (h : Reach cv n r) (hn : n < 2 ^ 32) {b : Pg} (hb : r .backup = some b) :
    ∃ a, r .archive = some a ∧ (a.history.map key = b.history.map key ∨ ∃ d, a.history.map key = d :: b.history.map key) := by
  cases inv_reach h hn with
  | empty h => rw [h] at hb; cases hb
  | started _ h2 _ => rw [h2] at hb; cases hb
  | @agree l x _ h1 h2 =>
    rw [h2] at hb; cases hb
    exact ⟨_, h1, .inl (info_keys cv _)⟩
  | @ahead l x y _ _ h1 h2 =>
    rw [h2] at hb; cases hb
    refine ⟨_, h1, .inr ⟨key (entry .archive cv ((l ++ [x]).length + 1) y), ?_⟩⟩
    rw [← info_keys]
    show ((expected .archive cv (l ++ [x] ++ [y])).map key) = _
    rw [expected_snoc]
    rfl

/-- An upgrade that was interrupted after any number of files is completed by the same upgrade: both files have the same history and the
database is the current one. After that there is nothing left to do. -/
theorem c59_rerun {cv : Nat → Nat} {n : Nat} {r : Repo} (h : Reach cv n r) (hn : n + 4 < 2 ^ 32) {db : Db} {ws : List Write}
    (hu : upgrade cv r db = .ok ws) (k : Nat) :
    ∃ ws' a b, upgrade cv (apply r (ws.take k)) db = .ok ws' ∧ apply (apply r (ws.take k)) ws' .archive = some a ∧
      apply (apply r (ws.take k)) ws' .backup = some b ∧ IsCurrent a db ∧ IsCurrent b db ∧ a.history.map key = b.history.map key ∧
      upgrade cv (apply (apply r (ws.take k)) ws') db = .ok [] := by
  show Complete cv (apply r (ws.take k)) db
  cases inv_reach h (by omega) with
  | empty h => simp [upgrade, loadFile, h, bind, Except.bind] at hu
  | @started a h1 h2 h3 =>
    simp only [upgrade, loadFile, h1, h2, h3, bind, Except.bind] at hu
    split at hu <;> cases hu
  | @agree l x hl h1 h2 =>
    rw [upgrade_agree (by omega) h1 h2] at hu
    cases hu
    cases hs : same db x with
    | true => exact complete_agree (l := l) (x := x) (by omega) (by simpa [apply] using h1) (by simpa [apply] using h2) db
    | false =>
      simp only [Bool.false_eq_true, if_false, saveArchive, saveBackup, List.cons_append, List.nil_append]
      match k with
      | 0 => exact complete_agree (l := l) (x := x) (by omega) (by simpa [apply] using h1) (by simpa [apply] using h2) db
      | 1 => exact complete_ahead (l := l) (y := db) (by omega) hs (by simp [apply, put]) (by simpa [apply, put] using h2) (same_refl _)
      | 2 => exact complete_ahead (l := l) (y := db) (by omega) hs (by simp [apply, put]) (by simpa [apply, put] using h2) (same_refl _)
      | 3 => exact complete_agree (l := l ++ [x]) (x := db) (by simp; omega) (by simp [apply, put]) (by simp [apply, put]) db
      | k + 4 => exact complete_agree (l := l ++ [x]) (x := db) (by simp; omega) (by simp [apply, put]) (by simp [apply, put]) db
  | @ahead l x y hl hd h1 h2 =>
    rw [upgrade_ahead (by omega) hd h1 h2] at hu
    cases hs : same db y with
    | false => rw [hs] at hu; simp at hu
    | true =>
      rw [hs] at hu
      cases hu
      have h1' := h1
      rw [archive_same cv (l ++ [x]) hs |>.symm] at h1'
      match k with
      | 0 => exact complete_ahead (l := l) (x := x) (y := y) (by omega) hd (by simpa [apply] using h1) (by simpa [apply] using h2) hs
      | 1 => exact complete_agree (l := l ++ [x]) (x := db) (by simp; omega) (by simpa [apply, put, saveBackup] using h1') (by simp [apply, put, saveBackup]) db
      | k + 2 => exact complete_agree (l := l ++ [x]) (x := db) (by simp; omega) (by simpa [apply, put, saveBackup] using h1') (by simp [apply, put, saveBackup]) db

/-- When the files agree then an upgrade to any database succeeds, and is complete. -/
theorem c59_upgrade {cv : Nat → Nat} {n : Nat} {r : Repo} (h : Reach cv n r) (hn : n + 4 < 2 ^ 32) {a b : Pg} (ha : r .archive = some a)
    (hb : r .backup = some b) (hk : a.history.map key = b.history.map key) (db : Db) :
    ∃ ws a b, upgrade cv r db = .ok ws ∧ apply r ws .archive = some a ∧ apply r ws .backup = some b ∧ IsCurrent a db ∧ IsCurrent b db ∧
      a.history.map key = b.history.map key ∧ upgrade cv (apply r ws) db = .ok [] := by
  cases inv_reach h (by omega) with
  | empty h => rw [h] at hb; cases hb
  | started _ h2 _ => rw [h2] at hb; cases hb
  | @agree l x _ h1 h2 => exact complete_agree (by omega) h1 h2 db
  | @ahead l x y _ _ h1 h2 =>
    rw [h1] at ha; rw [h2] at hb; cases ha; cases hb
    have := congrArg List.length hk
    simp [info, expected] at this

/-- A create that was interrupted after the first file of the backup information was written is completed by the same create. -/
theorem c59_create {cv : Nat → Nat} {r : Repo} (h : ∀ f, r f = none) (db : Db) {ws : List Write} (hc : create cv false r db = .ok ws) {k : Nat}
    (hk : k = 0 ∨ 3 ≤ k) : ∃ ws', create cv (decide (k ≠ 0)) (apply r (ws.take k)) db = .ok ws' ∧ apply (apply r (ws.take k)) ws' = apply r ws := by
  have hc' := hc
  rw [create_new h] at hc
  cases hc
  have d1 := info_data cv .archive [] db
  have d2 := info_data cv .backup [] db
  simp only [List.nil_append] at d1 d2
  have ce := checkInfo_entry cv 1 1 db db
  rw [if_pos ⟨rfl, same_refl _⟩] at ce
  have fin : ∀ r' : Repo, r' .archive = some (info cv .archive [db]) → r' .backup = some (info cv .backup [db]) →
      create cv true r' db = .ok (copyMissing r' .archive .archiveCopy ++ copyMissing r' .backup .backupCopy) := by
    intro r' h1 h2
    have : checkInfoPg r' db = .ok () := by
      simp only [checkInfoPg, loadFile, h1, h2, bind, Except.bind, d1, d2, List.length_nil, Nat.zero_add, ce]
      simp [entry]
    simp [create, h1, h2, this, bind, Except.bind]
  rcases hk with rfl | hk
  · exact ⟨_, hc', rfl⟩
  · match k, hk with
    | 3, _ =>
      refine ⟨_, fin _ (by simp [apply, put, saveArchive, saveBackup]) (by simp [apply, put, saveArchive, saveBackup]), ?_⟩
      funext f
      cases f <;> simp [apply, put, saveArchive, saveBackup, copyMissing, h]
    | k + 4, _ =>
      refine ⟨_, fin _ (by simp [apply, put, saveArchive, saveBackup]) (by simp [apply, put, saveArchive, saveBackup]), ?_⟩
      funext f
      cases f <;> simp [apply, put, saveArchive, saveBackup, copyMissing]

/-- A create for a stanza that has both files is refused when the database is not the current one of both. -/
theorem c59_refuse {cv : Nat → Nat} {n : Nat} {r : Repo} (h : Reach cv n r) (hn : n < 2 ^ 32) {a b : Pg} (ha : r .archive = some a)
    (hb : r .backup = some b) {db : Db} (hd : ¬ (IsCurrent a db ∧ IsCurrent b db)) (other : Bool) : create cv other r db = .error .fileInvalid := by
  have key : checkInfoPg r db = .error .fileInvalid → create cv other r db = .error .fileInvalid := by
    intro hc
    simp [create, ha, hb, hc, bind, Except.bind]
  apply key
  cases inv_reach h hn with
  | empty h => rw [h] at hb; cases hb
  | started _ h2 _ => rw [h2] at hb; cases hb
  | @agree l x _ h1 h2 =>
    rw [h1] at ha; rw [h2] at hb; cases ha; cases hb
    have hs : same db x = false := by
      cases hs : same db x with
      | false => rfl
      | true => exact absurd ⟨info_current _ _ _ hs, info_current _ _ _ hs⟩ hd
    simp only [checkInfoPg, loadFile, h1, h2, bind, Except.bind, info_data, checkInfo_entry, same_refl, and_self, if_true]
    rw [if_pos]
    simpa [same, entry, or_iff_not_imp_left] using hs
  | @ahead l x y _ _ h1 h2 =>
    simp only [checkInfoPg, loadFile, h1, h2, bind, Except.bind, info_data, checkInfo_entry]
    rw [if_neg (by simp)]

/-- But one that was interrupted between the archive information and the backup information leaves a stanza that neither command accepts. -/
theorem c59_stuck {cv : Nat → Nat} {r : Repo} (h : ∀ f, r f = none) (db : Db) {ws : List Write} (hc : create cv false r db = .ok ws) {k : Nat}
    (hk : k = 1 ∨ k = 2) (other : Bool) (db' : Db) :
    create cv other (apply r (ws.take k)) db' = .error .fileMissing ∧ upgrade cv (apply r (ws.take k)) db' = .error .fileMissing := by
  rw [create_new h] at hc
  cases hc
  have hd := info_data cv .archive [] db
  rcases hk with rfl | rfl
  · refine ⟨by simp [create, apply, put, saveArchive, saveBackup, h], ?_⟩
    simp only [List.nil_append] at hd
    simp [upgrade, loadFile, apply, put, saveArchive, saveBackup, h, bind, Except.bind, hd]
  · refine ⟨by simp [create, apply, put, saveArchive, saveBackup, h], ?_⟩
    simp only [List.nil_append] at hd
    simp [upgrade, loadFile, apply, put, saveArchive, saveBackup, h, bind, Except.bind, hd]

/-- Four files are written when the files agree. -/
theorem upgrade_four {cv : Nat → Nat} {n : Nat} {r : Repo} (h : Reach cv n r) (hn : n + 4 < 2 ^ 32) {db : Db} {ws : List Write}
    (hu : upgrade cv r db = .ok ws) (hl : ws.length = 4) : ∃ l x, l.length + 3 < 2 ^ 32 ∧ r .archive = some (info cv .archive (l ++ [x])) ∧
      r .backup = some (info cv .backup (l ++ [x])) ∧ same db x = false ∧
      ws = saveArchive (info cv .archive (l ++ [x] ++ [db])) ++ saveBackup (info cv .backup (l ++ [x] ++ [db])) := by
  cases inv_reach h (by omega) with
  | empty h => simp [upgrade, loadFile, h, bind, Except.bind] at hu
  | @started a h1 h2 h3 =>
    simp only [upgrade, loadFile, h1, h2, h3, bind, Except.bind] at hu
    split at hu <;> cases hu
  | @agree l x hl' h1 h2 =>
    rw [upgrade_agree (by omega) h1 h2] at hu
    cases hu
    cases hs : same db x with
    | true => rw [hs] at hl; simp at hl
    | false => exact ⟨l, x, by omega, h1, h2, hs, rfl⟩
  | @ahead l x y hl' hd h1 h2 =>
    rw [upgrade_ahead (by omega) hd h1 h2] at hu
    split at hu <;> cases hu
    simp [saveBackup] at hl

/-- An upgrade that was interrupted between the files prevents every upgrade to another database, also the one to the version before. -/
theorem c59_other {cv : Nat → Nat} {n : Nat} {r : Repo} (h : Reach cv n r) (hn : n + 4 < 2 ^ 32) {db : Db} {ws : List Write}
    (hu : upgrade cv r db = .ok ws) (hl : ws.length = 4) {k : Nat} (hk : k = 1 ∨ k = 2) {db' : Db} (hd : db'.1 ≠ db.1 ∨ db'.2.1 ≠ db.2.1) :
    upgrade cv (apply r (ws.take k)) db' = .error .fileInvalid := by
  obtain ⟨l, x, hlen, h1, h2, hs, rfl⟩ := upgrade_four h hn hu hl
  have hs' : same db' db = false := by
    simp only [same, Bool.and_eq_false_iff, decide_eq_false_iff_not]; exact hd
  have key : ∀ r' : Repo, r' .archive = some (info cv .archive (l ++ [x] ++ [db])) → r' .backup = some (info cv .backup (l ++ [x])) →
      upgrade cv r' db' = .error .fileInvalid := by
    intro r' h1 h2
    rw [upgrade_ahead hlen hs h1 h2, hs']; rfl
  rcases hk with rfl | rfl
  · exact key _ (by simp [apply, put, saveArchive, saveBackup]) (by simpa [apply, put, saveArchive, saveBackup] using h2)
  · exact key _ (by simp [apply, put, saveArchive, saveBackup]) (by simpa [apply, put, saveArchive, saveBackup] using h2)

/-- A copy of the archive information that was not written by the upgrade stays as it was when the upgrade is completed, although it has the
history from before the upgrade. -/
theorem c59_stale {cv : Nat → Nat} {n : Nat} {r : Repo} (h : Reach cv n r) (hn : n + 4 < 2 ^ 32) {db : Db} {ws ws' : List Write}
    (hu : upgrade cv r db = .ok ws) (hl : ws.length = 4) (hu' : upgrade cv (apply r (ws.take 1)) db = .ok ws') :
    apply (apply r (ws.take 1)) ws' .archiveCopy = r .archiveCopy ∧ ∃ a, apply (apply r (ws.take 1)) ws' .archive = some a ∧ IsCurrent a db := by
  obtain ⟨l, x, hlen, h1, h2, hs, rfl⟩ := upgrade_four h hn hu hl
  have h1' : apply r ((saveArchive (info cv .archive (l ++ [x] ++ [db])) ++ saveBackup (info cv .backup (l ++ [x] ++ [db]))).take 1) .archive =
    some (info cv .archive (l ++ [x] ++ [db])) := by simp [apply, put, saveArchive, saveBackup]
  have h2' : apply r ((saveArchive (info cv .archive (l ++ [x] ++ [db])) ++ saveBackup (info cv .backup (l ++ [x] ++ [db]))).take 1) .backup =
    some (info cv .backup (l ++ [x])) := by simpa [apply, put, saveArchive, saveBackup] using h2
  rw [upgrade_ahead hlen hs h1' h2', if_pos (same_refl _)] at hu'
  cases hu'
  refine ⟨by simp [apply, put, saveArchive, saveBackup], info cv .archive (l ++ [x] ++ [db]), by simp [apply, put, saveArchive, saveBackup],
    info_current _ _ _ (same_refl _)⟩

/-! ## Examples -/

/-- A stanza that was created for version 16, with an interruption before the last file. -/
def aRepo : Repo := apply (fun _ => none) ([(.archive, info (fun _ => 1300) .archive [(160000, 7, 8)]),
  (.archiveCopy, info (fun _ => 1300) .archive [(160000, 7, 8)]), (.backup, info (fun _ => 1300) .backup [(160000, 7, 8)]),
  (.backupCopy, info (fun _ => 1300) .backup [(160000, 7, 8)])].take 3)

theorem aRepo_reach : Reach (fun _ => 1300) 1 aRepo := .create (other := false) (db := (160000, 7, 8)) 3 .empty (create_new (fun _ => rfl) _)

theorem aUpgrade : upgrade (fun _ => 1300) aRepo (170000, 7, 9) =
    .ok (saveArchive (info (fun _ => 1300) .archive [(160000, 7, 8), (170000, 7, 9)]) ++
      saveBackup (info (fun _ => 1300) .backup [(160000, 7, 8), (170000, 7, 9)])) :=
  (upgrade_agree (l := []) (x := (160000, 7, 8)) (by decide) (by simp [aRepo, apply, put]) (by simp [aRepo, apply, put]) _).trans (by rfl)

example (k : Nat) := c59_rerun aRepo_reach (by decide) aUpgrade k

example : upgrade (fun _ => 1300) (apply aRepo ((saveArchive (info (fun _ => 1300) .archive [(160000, 7, 8), (170000, 7, 9)]) ++
      saveBackup (info (fun _ => 1300) .backup [(160000, 7, 8), (170000, 7, 9)])).take 2)) (160000, 7, 8) = .error .fileInvalid :=
  c59_other aRepo_reach (by decide) aUpgrade rfl (.inr rfl) (.inl (by decide))

example : create (fun _ => 1300) true aRepo (170000, 7, 9) = .error .fileInvalid :=
  c59_refuse aRepo_reach (by decide) (a := info (fun _ => 1300) .archive [(160000, 7, 8)]) (b := info (fun _ => 1300) .backup [(160000, 7, 8)]) rfl rfl
    (fun h => by
      obtain ⟨d, h1, h2, _⟩ := h.1
      cases h1
      exact absurd h2 (by decide)) _

/-- The copy has only the first entry. -/
example : ∃ ws', upgrade (fun _ => 1300) (apply aRepo ((saveArchive (info (fun _ => 1300) .archive [(160000, 7, 8), (170000, 7, 9)]) ++
      saveBackup (info (fun _ => 1300) .backup [(160000, 7, 8), (170000, 7, 9)])).take 1)) (170000, 7, 9) = .ok ws' ∧
    (apply aRepo ((saveArchive (info (fun _ => 1300) .archive [(160000, 7, 8), (170000, 7, 9)]) ++
      saveBackup (info (fun _ => 1300) .backup [(160000, 7, 8), (170000, 7, 9)])).take 1 ++ ws')) .archiveCopy =
      some ⟨.archive, [⟨1, 160000, 7, 0, 0⟩], 0⟩ :=
  ⟨_, by rfl, by rfl⟩

example : ∃ a, aRepo .archive = some a ∧
    (a.history.map key = (info (fun _ => 1300) .backup [(160000, 7, 8)]).history.map key ∨
      ∃ d, a.history.map key = d :: (info (fun _ => 1300) .backup [(160000, 7, 8)]).history.map key) :=
  c59_ahead aRepo_reach (by decide) rfl

end Verif.Stanza
