import Verif.Info.LoadModel
import Verif.Fs.Seq

/-!
# C41 Loading information files
-/

namespace Verif.Info.Load

open Verif.Fs

/-- C41: loading ends. -/
theorem c41_ends {α : Type} (main copy : Res α) : infoLoad (callback main copy) 3 0 none ≠ none := by
  cases main <;> cases copy <;> simp [infoLoad, callback, Except.map]

/-- C41: the file is used when it is valid. -/
theorem c41_main {α : Type} (x : α) (copy : Res α) : loadFile (.ok x) copy = .ok x := by
  simp [loadFile, infoLoad, callback, Except.map]

/-- C41: the copy is used when the file is not valid for any reason. -/
theorem c41_copy {α : Type} (e : Err) (x : α) : loadFile (.error e) (.ok x) = .ok x := by
  simp [loadFile, infoLoad, callback, Except.map]

/-- C41: when both are not valid there is an error; it says that files are missing only when both are missing, it is the error of the other
file when one is missing, and the error of both when it is the same. -/
theorem c41_error {α : Type} (e1 e2 : Err) : ∃ e, loadFile (.error e1 : Res α) (.error e2) = .error e ∧
    (e = .fileMissing ↔ e1 = .fileMissing ∧ e2 = .fileMissing) ∧ (e1 = .fileMissing → e = e2) ∧ (e2 = .fileMissing → e = e1) ∧
    (e1 = e2 → e = e1) ∧ (e1 ≠ .fileMissing → e2 ≠ .fileMissing → e1 ≠ e2 → e = .fileOpen) := by
  refine ⟨keep (some e1) e2, by simp [loadFile, infoLoad, callback, Except.map, keep], ?_⟩
  unfold keep
  dsimp only
  by_cases h : e1 = e2
  · subst h; simp
  · rw [if_pos h]
    by_cases h1 : e1 = .fileMissing
    · subst h1
      simp
      exact fun hx => hx.symm
    · rw [if_neg h1]
      by_cases h2 : e2 = .fileMissing
      · subst h2; simp [h1, h]
      · simp [h1, h2, h]

theorem loadFile_cases {α : Type} {a b : Res α} {x : α} (h : loadFile a b = .ok x) : a = .ok x ∨ (∃ e, a = .error e) ∧ b = .ok x := by
  cases a with
  | ok y => rw [c41_main] at h; exact Or.inl h
  | error e =>
    cases b with
    | ok y => rw [c41_copy] at h; exact Or.inr ⟨⟨e, rfl⟩, h⟩
    | error e2 =>
      obtain ⟨e3, h3, -⟩ := c41_error (α := α) e e2
      rw [h3] at h
      cases h

theorem safe_writer (dir : Path) (base : Str) : Safe (writer dir base) := ⟨rfl, rfl, rfl, rfl⟩

theorem base_ne {dir : Path} {a b : Str} (h : a.length ≠ b.length) : a :: dir ≠ b :: dir := fun hx => h (congrArg List.length (List.cons.inj hx).1)

theorem writer_name (dir : Path) (base : Str) : (writer dir base).name = base :: dir := rfl

theorem writer_tmp (dir : Path) (base : Str) : (writer dir base).tmp = (base ++ tempExt) :: dir := rfl

theorem dir_ne (dir : Path) (a : Str) : dir ≠ a :: dir := fun hx => by have := congrArg List.length hx; simp at this

/-- What is known before a file and its copy are saved: the directory is durable, what is found at both is known, and temporary files of
earlier runs are no other files. -/
structure Ready (fs : Fs) (dir : Path) (base : Str) (main copy : Found) : Prop where
  wf : WF fs
  there : Stable fs dir .dir
  main : Stable fs (base :: dir) main
  copy : Stable fs ((base ++ copyExt) :: dir) copy
  private1 : Private fs (writer dir base)
  private2 : Private fs (writer dir (base ++ copyExt))

/-- What a crash leaves at any point of saving, and what is left when it is done. -/
theorem save_crash {f0 fs : Fs} {dir : Path} {base content : Str} {main copy : Found} (h : Ready f0 dir base main copy)
    (hr : Run f0 (saveFile dir base content) fs) {disk : Path → Found} (hc : Crash fs disk) :
    (disk (base :: dir) = main ∧ disk ((base ++ copyExt) :: dir) = copy) ∨
    (disk (base :: dir) = .file content ∧ (disk ((base ++ copyExt) :: dir) = copy ∨ disk ((base ++ copyExt) :: dir) = .file content)) := by
  have hs1 := safe_writer dir base
  have hs2 := safe_writer dir (base ++ copyExt)
  have hflat : [content].flatten = content := by simp
  have n1 : (base ++ copyExt) :: dir ≠ base :: dir := base_ne (by simp [copyExt])
  have n2 : (base ++ copyExt) :: dir ≠ (base ++ tempExt) :: dir := base_ne (by simp [copyExt, tempExt])
  have n3 : base :: dir ≠ (base ++ copyExt ++ tempExt) :: dir := base_ne (by simp [copyExt])
  have n4 : dir ≠ (base ++ tempExt) :: dir := dir_ne _ _
  have n5 : base :: dir ≠ (base ++ tempExt) :: dir := base_ne (by simp [tempExt])
  have n6 : (base ++ copyExt ++ tempExt) :: dir ≠ base :: dir := base_ne (by simp [copyExt])
  have n7 : (base ++ copyExt) :: dir ≠ (base ++ copyExt ++ tempExt) :: dir := base_ne (by simp [tempExt])
  have hnd : ∀ (fs : Fs) (x : Str), ¬(fs.cur (x :: dir) = .missing ∧ x :: dir <:+ dir) := fun fs x hx => suffix_ne_cons hx.2 x rfl
  -- the copy while the file is written
  have hcopy : ∀ fs, Reach f0 (writeOps (writer dir base) f0 [content]) fs → Stable fs ((base ++ copyExt) :: dir) copy := by
    intro fs hr disk hc
    exact c46_others f0 fs (writer dir base) [content] _ copy disk h.wf hs1.1 hs1.2.1 hs1.2.2.1 n1 n2 (h.private1.unshared n2)
      (hnd _ _) h.copy hr hc
  have first : ∀ fs disk, Reach f0 (writeOps (writer dir base) f0 [content]) fs → Crash fs disk →
      (disk (base :: dir) = main ∧ disk ((base ++ copyExt) :: dir) = copy) ∨
      (disk (base :: dir) = .file content ∧ (disk ((base ++ copyExt) :: dir) = copy ∨ disk ((base ++ copyExt) :: dir) = .file content)) := by
    intro fs disk hr hc
    have h2 := hcopy fs hr disk hc
    rcases c46_atomic f0 fs (writer dir base) [content] main disk h.wf hs1.1 hs1.2.1 hs1.2.2.1 (h.private1.unshared n5) h.main hr hc with
      h1 | h1
    · exact Or.inl ⟨h1, h2⟩
    · rw [hflat] at h1
      exact Or.inr ⟨h1, Or.inl h2⟩
  cases hr with
  | stop => exact first _ _ (.stop _ _) hc
  | here _ hr => exact first _ _ hr hc
  | next hd hr =>
    rename_i f1
    have hd' : done f0 (writeOps (writer dir base) f0 [content]) = some f1 := hd
    have w1 : WF f1 := wf_done h.wf hd'
    have s1 : Stable f1 (base :: dir) (.file content) := by
      have := c46_durable f0 f1 (writer dir base) [content] h.wf hs1.1 hs1.2.1 hs1.2.2.1 hs1.2.2.2 h.there hd'
      rwa [hflat] at this
    have c1 := hcopy f1 (done_reach hd')
    have p2 : Private f1 (writer dir (base ++ copyExt)) := Private.put h.wf hs1 h.private2 n6 hd'
    have second : ∀ fs disk, Reach f1 (writeOps (writer dir (base ++ copyExt)) f1 [content]) fs → Crash fs disk →
        disk (base :: dir) = .file content ∧ (disk ((base ++ copyExt) :: dir) = copy ∨ disk ((base ++ copyExt) :: dir) = .file content) := by
      intro fs disk hr hc
      constructor
      · exact c46_others f1 fs (writer dir (base ++ copyExt)) [content] _ _ disk w1 hs2.1 hs2.2.1 hs2.2.2.1 (Ne.symm n1) n3
          (p2.unshared n3) (hnd _ _) s1 hr hc
      · have := c46_atomic f1 fs (writer dir (base ++ copyExt)) [content] copy disk w1 hs2.1 hs2.2.1 hs2.2.2.1 (p2.unshared n7) c1 hr hc
        rwa [hflat] at this
    cases hr with
    | stop => exact Or.inr (second _ _ (.stop _ _) hc)
    | here _ hr => exact Or.inr (second _ _ hr hc)
    | next hd2 hr2 =>
      cases hr2 with
      | stop => exact Or.inr (second _ _ (done_reach hd2) hc)

/-- C41: after a crash at any point of saving, the earlier content or the new content is loaded, whatever the state of the two files was
before, if anything could be loaded. -/
theorem c41_crash {α : Type} (parse : Str → Res α) (f0 fs : Fs) (dir : Path) (base content : Str) (main copy : Found) (old new : α)
    (disk : Path → Found) (h : Ready f0 dir base main copy) (hold : loadFile (readFile parse main) (readFile parse copy) = .ok old)
    (hnew : parse content = .ok new) (hr : Run f0 (saveFile dir base content) fs) (hc : Crash fs disk) :
    let loaded := loadFile (readFile parse (disk (base :: dir))) (readFile parse (disk ((base ++ copyExt) :: dir)))
    loaded = .ok old ∨ loaded = .ok new := by
  intro loaded
  rcases save_crash h hr hc with ⟨h1, h2⟩ | ⟨h1, -⟩
  · left
    simp only [loaded]
    rw [h1, h2]
    exact hold
  · right
    simp only [loaded]
    rw [h1]
    have : readFile parse (.file content) = .ok new := hnew
    rw [this]
    exact c41_main new _

/-- C41: when nothing could be loaded before, a crash leaves nothing that can be loaded or the new content, and files are reported as missing
only when they were. -/
theorem c41_crash_first {α : Type} (parse : Str → Res α) (f0 fs : Fs) (dir : Path) (base content : Str) (new : α)
    (disk : Path → Found) (h : Ready f0 dir base .missing .missing) (hnew : parse content = .ok new)
    (hr : Run f0 (saveFile dir base content) fs) (hc : Crash fs disk) :
    let loaded := loadFile (readFile parse (disk (base :: dir))) (readFile parse (disk ((base ++ copyExt) :: dir)))
    loaded = .error .fileMissing ∨ loaded = .ok new := by
  intro loaded
  rcases save_crash h hr hc with ⟨h1, h2⟩ | ⟨h1, -⟩
  · left
    simp only [loaded]
    rw [h1, h2]
    rfl
  · right
    simp only [loaded]
    rw [h1]
    have : readFile parse (.file content) = .ok new := hnew
    rw [this]
    exact c41_main new _

/-- C41: when saving is done the new content is loaded after any crash, even if then one of the files is damaged. -/
theorem c41_saved {α : Type} (parse : Str → Res α) (f0 fs : Fs) (dir : Path) (base content : Str) (main copy : Found) (new : α)
    (disk : Path → Found) (h : Ready f0 dir base main copy) (hnew : parse content = .ok new)
    (hr : finish f0 (saveFile dir base content) = some fs) (hc : Crash fs disk) (e : Err) :
    loadFile (readFile parse (disk (base :: dir))) (readFile parse (disk ((base ++ copyExt) :: dir))) = .ok new ∧
    loadFile (.error e) (readFile parse (disk ((base ++ copyExt) :: dir))) = .ok new ∧
    loadFile (readFile parse (disk (base :: dir))) (.error e) = .ok new := by
  have hs1 := safe_writer dir base
  have hs2 := safe_writer dir (base ++ copyExt)
  have hflat : [content].flatten = content := by simp
  simp only [finish, saveFile] at hr
  cases hd : done f0 (stepOps f0 (.put (writer dir base) [content])) with
  | none => rw [hd] at hr; cases hr
  | some f1 =>
    rw [hd, Option.bind_some] at hr
    cases hd2 : done f1 (stepOps f1 (.put (writer dir (base ++ copyExt)) [content])) with
    | none => rw [hd2] at hr; cases hr
    | some f2 =>
      rw [hd2, Option.bind_some] at hr
      cases hr
      have hd' : done f0 (writeOps (writer dir base) f0 [content]) = some f1 := hd
      have hd2' : done f1 (writeOps (writer dir (base ++ copyExt)) f1 [content]) = some fs := hd2
      have w1 : WF f1 := wf_done h.wf hd'
      have dir1 : Stable f1 dir .dir := h.there.dir_put h.wf hs1 (dir_ne _ _) (dir_ne _ _) (done_reach hd')
      have s1 : Stable f1 (base :: dir) (.file content) := by
        have := c46_durable f0 f1 (writer dir base) [content] h.wf hs1.1 hs1.2.1 hs1.2.2.1 hs1.2.2.2 h.there hd'
        rwa [hflat] at this
      have s2 : Stable fs ((base ++ copyExt) :: dir) (.file content) := by
        have := c46_durable f1 fs (writer dir (base ++ copyExt)) [content] w1 hs2.1 hs2.2.1 hs2.2.2.1 hs2.2.2.2 dir1 hd2'
        rwa [hflat] at this
      have n1 : base :: dir ≠ (base ++ copyExt) :: dir := base_ne (by simp [copyExt])
      have n3 : base :: dir ≠ (base ++ copyExt ++ tempExt) :: dir := base_ne (by simp [copyExt])
      have n6 : (base ++ copyExt ++ tempExt) :: dir ≠ base :: dir := base_ne (by simp [copyExt])
      have p2 : Private f1 (writer dir (base ++ copyExt)) := Private.put h.wf hs1 h.private2 n6 hd'
      have s3 : disk (base :: dir) = .file content :=
        c46_others f1 fs (writer dir (base ++ copyExt)) [content] _ _ disk w1 hs2.1 hs2.2.1 hs2.2.2.1 n1 n3
          (p2.unshared n3) (fun hx => suffix_ne_cons hx.2 base rfl) s1 (done_reach hd2') hc
      have : readFile parse (.file content) = .ok new := hnew
      rw [s3, s2 disk hc, this]
      exact ⟨c41_main _ _, c41_copy _ _, c41_main _ _⟩

/-! ## Examples -/

example : loadFile (.error .checksum) (.ok 5) = .ok 5 := c41_copy _ _

example : loadFile (.error .checksum : Res Nat) (.error .fileMissing) = .error .checksum := by decide

example : loadFile (.error .checksum : Res Nat) (.error .crypto) = .error .fileOpen := by decide

/-- A file system on which the files can be saved. -/
example : Ready aFs [[100]] [97] .missing .missing ∧ (finish aFs (saveFile [[100]] [97] [1, 2])).isSome = true := by
  refine ⟨⟨aFs_wf, ?_, ?_, ?_, ?_, ?_⟩, rfl⟩
  · rintro disk ⟨e, r, h1, h2, h3⟩
    rw [h3]
    have e1 : e [[100]] = .dir := List.mem_singleton.1 (h1 [[100]])
    have e2 : e [] = .dir := List.mem_singleton.1 (h1 [])
    simp [look, up, e1, e2]
  · rintro disk ⟨e, r, h1, h2, h3⟩
    rw [h3]
    have e3 : e [[97], [100]] = .missing := List.mem_singleton.1 (h1 [[97], [100]])
    simp [look, e3]
  · rintro disk ⟨e, r, h1, h2, h3⟩
    rw [h3]
    have e3 : e [[97] ++ copyExt, [100]] = .missing := List.mem_singleton.1 (h1 [[97] ++ copyExt, [100]])
    simp only [look, e3]
    split <;> rfl
  · intro i hi
    have : aFs.cur (writer [[100]] [97]).tmp = .missing := rfl
    rw [this] at hi
    cases hi
  · intro i hi
    have : aFs.cur (writer [[100]] ([97] ++ copyExt)).tmp = .missing := rfl
    rw [this] at hi
    cases hi

end Verif.Info.Load
