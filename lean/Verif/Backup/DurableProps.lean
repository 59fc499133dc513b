import Verif.Backup.DurableModel
import Verif.Backup.CompleteProps
import Verif.Fs.Direct

/-!
# C58 The files of a completed backup survive a crash
-/

namespace Verif.Backup.Durable

open Verif.Fs Verif.Info.Load Verif.Backup.Complete

/-- The path of a file. -/
def File.path (L : Path) (f : File) : Path := f.base :: (f.dirs ++ L)

theorem direct_file (L : Path) (f : File) : Direct (fileWriter L f) := ⟨rfl, rfl, rfl, rfl⟩

theorem file_name (L : Path) (f : File) : (fileWriter L f).name = f.path L := rfl

theorem puts_frame {f0 f1 : Fs} {L : Path} {files : List File} (h0 : WF f0) (hpr : ∀ f ∈ files, Private f0 (fileWriter L f))
    (hn : (files.map (·.path L)).Nodup) (hf : finish f0 (putFiles L files) = some f1) :
    WF f1 ∧ (∀ p x, p ∉ files.map (·.path L) → Here f0 p x → Here f1 p x) ∧ (∀ p, f0.cur p = .dir → f1.cur p = .dir) ∧
    (∀ w, w.tmp ∉ files.map (·.path L) → Private f0 w → Private f1 w) ∧ (∀ p, Stable f0 p .dir → Stable f1 p .dir) ∧
    ∀ f ∈ files, Here f1 (f.path L) f.bufs.flatten ∧ f1.cur (f.dirs ++ L) = .dir := by
  induction files generalizing f0 with
  | nil =>
    cases hf
    exact ⟨h0, fun _ _ _ h => h, fun _ h => h, fun _ _ h => h, fun _ h => h, fun _ h => by cases h⟩
  | cons f files ih =>
    simp only [putFiles, finish, List.map_cons] at hf
    cases hd : done f0 (stepOps f0 (.put (fileWriter L f) f.bufs)) with
    | none => rw [hd] at hf; cases hf
    | some g =>
      rw [hd, Option.bind_some] at hf
      simp only [List.map_cons, List.nodup_cons] at hn
      have hdir := direct_file L f
      have hown := hpr f List.mem_cons_self
      have hd' : done f0 (writeOps (fileWriter L f) f0 f.bufs) = some g := hd
      have hpr' : ∀ f' ∈ files, Private g (fileWriter L f') := by
        intro f' hf'
        refine direct_private h0 hdir hown (hpr f' (List.mem_cons_of_mem _ hf')) ?_ hd'
        rw [(direct_file L f').tmp, file_name, file_name]
        exact fun hx => hn.1 (List.mem_map.2 ⟨f', hf', hx⟩)
      obtain ⟨a1, a2, a3, a4, a5, a6⟩ := ih (wf_done h0 hd) hpr' hn.2 hf
      refine ⟨a1, ?_, ?_, ?_, ?_, ?_⟩
      · intro p x hp hh
        simp only [List.map_cons, List.mem_cons, not_or] at hp
        exact a2 p x hp.2 (direct_keeps h0 hdir hown hp.1 hh hd')
      · intro p hp
        exact a3 p (direct_dir hdir hp hd')
      · intro w hw hp
        simp only [List.map_cons, List.mem_cons, not_or] at hw
        exact a4 w hw.2 (direct_private h0 hdir hown hp hw.1 hd')
      · intro p hp
        exact a5 p (direct_stable h0 hdir hp hd')
      · intro f' hf'
        rcases List.mem_cons.1 hf' with rfl | hf'
        · obtain ⟨b1, b2⟩ := direct_here hdir hd'
          exact ⟨a2 _ _ hn.1 b1, a3 _ b2⟩
        · exact a6 f' hf'

/-- What is known about the paths of a backup, when `backupProcess` is done. -/
theorem process_file {f0 f2 : Fs} {L : Path} {files : List File} {always : Bool} {paths : List Path} (h0 : WF f0)
    (hpr : ∀ f ∈ files, Private f0 (fileWriter L f)) (hn : (files.map (·.path L)).Nodup)
    (hp : process f0 L files always paths = some f2) :
    WF f2 ∧ (∀ w, w.tmp ∉ files.map (·.path L) → Private f0 w → Private f2 w) ∧ (∀ p, Stable f0 p .dir → Stable f2 p .dir) ∧
    ∀ f ∈ files, (∀ d, d ≠ [] → d <:+ f.dirs → d ∈ paths) → f.dirs ≠ [] →
      Inside f2 (f.path L) f.bufs.flatten ∧ (∀ d, d <:+ f.dirs → f2.cur (d ++ L) = .dir) ∧
        ∀ c d, d ≠ [] → (c :: d) <:+ f.dirs → InsideDir f2 (c :: d ++ L) := by
  simp only [process] at hp
  cases hf1 : finish f0 (putFiles L files) with
  | none => rw [hf1] at hp; cases hp
  | some f1 =>
    rw [hf1, Option.bind_some] at hp
    obtain ⟨w1, -, -, a4, a5, a6⟩ := puts_frame h0 hpr hn hf1
    have hp' : finish f1 ((((paths.filter fun p => always || f1.cur (p ++ L) == .dir).map (· ++ L))).map fun d => .sys (.syncDir d)) =
        some f2 := by
      rw [List.map_map]
      exact hp
    obtain ⟨b1, b2, b3, b4⟩ := syncs_hist w1 hp'
    refine ⟨finish_wf w1 hp, ?_, ?_, ?_⟩
    · intro w hw hpw i hi p hpt hm
      rw [b2] at hi
      exact a4 w hw hpw i hi p hpt (b1 p _ hm)
    · intro p hp
      exact (a5 p hp).dir_mono w1 fun a _ => b1 a
    · intro f hf hpaths hne
      obtain ⟨⟨i, hi, hx⟩, hd⟩ := a6 f hf
      have hup : ∀ d, d <:+ f.dirs → f1.cur (d ++ L) = .dir := by
        intro d ⟨t, ht⟩
        rcases Classical.em (d ++ L = f.dirs ++ L) with h | h
        · rw [h]; exact hd
        · refine Classical.byContradiction fun hc => ?_
          have hs : (d ++ L) <:+ (f.dirs ++ L).tail := by
            cases t with
            | nil => exact absurd (by rw [← ht]; rfl) h
            | cons y t => exact ⟨t, by rw [← ht]; simp⟩
          have hne' : f.dirs ++ L ≠ [] := by simp [hne]
          have := w1.nothing hs hne' hc
          have h2 := w1.cur (f.dirs ++ L)
          rw [hd, this] at h2
          cases List.mem_singleton.1 h2
      have sync : ∀ d, d ≠ [] → d <:+ f.dirs → ∀ c, ∀ e ∈ f2.hist (c :: (d ++ L)), e = f1.cur (c :: (d ++ L)) := by
        intro d hdn hds
        refine b4 (d ++ L) (List.mem_map.2 ⟨d, List.mem_filter.2 ⟨hpaths d hdn hds, ?_⟩, rfl⟩)
        rw [hup d hds]
        simp
      refine ⟨?_, ?_, ?_⟩
      · intro e he
        refine ⟨i, ?_, by rw [b3]; exact hx⟩
        rw [sync f.dirs hne (List.suffix_refl _) f.base e he]
        exact hi
      · intro d hd
        rw [b2]
        exact hup d hd
      · intro c d hdn hcd e he
        rw [sync d hdn ((List.suffix_cons c d).trans hcd) c e he]
        exact hup (c :: d) hcd

/-- A path in the backup, at least two levels below it, is not a path of `backupComplete`. -/
theorem away_deep {B : Path} {label : Str} {c : Content} (hl : Label label) {q : Path} (hq : 2 ≤ q.length) :
    ∀ s ∈ before B label c, Away (q ++ label :: B) s := by
  have hh := hl.names.2.2.2
  intro s hs
  simp only [before, linkLatest, List.cons_append, List.nil_append, List.mem_cons, List.not_mem_nil, or_false] at hs
  rcases hs with rfl | rfl | rfl | rfl | rfl | rfl | rfl
  · exact ⟨cons_ne_len (by simp [writer_name]; omega), cons_ne_len (by simp [writer_tmp]; omega)⟩
  · exact ⟨cons_ne_len (by simp [writer_name]; omega), cons_ne_len (by simp [writer_tmp]; omega)⟩
  · exact ⟨fun hx => hh (below_inj (r := [_, _]) hx), fun hx => hh (below_inj (r := [_, _]) hx)⟩
  · exact trivial
  · exact cons_ne_len (by simp; intro hx; subst hx; simp at hq)
  · exact cons_ne_len (by simp; intro hx; subst hx; simp at hq)
  · exact trivial

/-- A directory in the backup that has no name of a manifest is not a path of `backupComplete`. -/
theorem away_child {B : Path} {label x : Str} {c : Content} (hl : Label label) (hx : x ≠ manifestName ++ copyExt ∧ x ≠ manifestName ∧
    x ≠ manifestName ++ copyExt ++ tempExt ∧ x ≠ manifestName ++ tempExt) :
    ∀ s ∈ before B label c, Away (x :: label :: B) s := by
  have hh := hl.names.2.2.2
  intro s hs
  simp only [before, linkLatest, List.cons_append, List.nil_append, List.mem_cons, List.not_mem_nil, or_false] at hs
  rcases hs with rfl | rfl | rfl | rfl | rfl | rfl | rfl
  · exact ⟨fun h => hx.1 (List.cons.inj h).1, fun h => hx.2.2.1 (List.cons.inj h).1⟩
  · exact ⟨fun h => hx.2.1 (List.cons.inj h).1, fun h => hx.2.2.2 (List.cons.inj h).1⟩
  · exact ⟨cons_ne_len (by simp [writer_name]), cons_ne_len (by simp [writer_tmp])⟩
  · exact trivial
  · exact cons_ne_len (by simp)
  · exact cons_ne_len (by simp)
  · exact trivial

/-- What may be at the top of a backup: not the manifest. -/
def TopName (x : Str) : Prop :=
  x ≠ manifestName ++ copyExt ∧ x ≠ manifestName ∧ x ≠ manifestName ++ copyExt ++ tempExt ∧ x ≠ manifestName ++ tempExt

/-- A durable file when the first part of `backupComplete` is done. -/
theorem before_file {f2 f3 : Fs} {B : Path} {label : Str} {c : Content} {f : File} {x top : Str} (h2 : WF f2) (hB : Stable f2 B .dir)
    (hp : AllPrivate f2 (before B label c)) (hl : Label label) (hf : finish f2 (before B label c) = some f3) (hne : f.dirs ≠ [])
    (htop : f.dirs.getLast? = some top) (ht : TopName top) (hi : Inside f2 (f.path (label :: B)) x)
    (hd : ∀ d, d <:+ f.dirs → f2.cur (d ++ label :: B) = .dir)
    (hdd : ∀ c d, d ≠ [] → (c :: d) <:+ f.dirs → InsideDir f2 (c :: d ++ label :: B)) : Stable f3 (f.path (label :: B)) (.file x) := by
  have hpl := plain_before B label c
  have hBs : Stable f3 B .dir := run_stable h2 hpl hp away_before_dir (Or.inr rfl) hB (finish_run hf)
  have hlen : 1 ≤ f.dirs.length := by cases h : f.dirs with | nil => exact absurd h hne | cons => simp
  have htop' : [top] <:+ f.dirs := by
    obtain ⟨l, hl⟩ := List.getLast?_eq_some_iff.1 htop
    exact ⟨l, hl.symm⟩
  have hi3 : Inside f3 (f.path (label :: B)) x :=
    finish_inside h2 hpl hp (away_deep (q := f.base :: f.dirs) hl (by simp; omega)) hi hf
  -- the directories below the first
  have hd3 : ∀ c d, d ≠ [] → (c :: d) <:+ f.dirs → InsideDir f3 (c :: d ++ label :: B) := by
    intro c d hdn hcd
    refine finish_insideDir h2 hpl (away_deep (q := c :: d) hl ?_) (hdd c d hdn hcd) hf
    cases d with
    | nil => exact absurd rfl hdn
    | cons => simp
  -- the first directory and the backup
  have hs : before B label c = .put (writer (label :: B) (manifestName ++ copyExt)) [c.manifest] :: (before B label c).drop 1 := rfl
  have hsync : (before B label c).drop 1 = ((before B label c).drop 1).dropLast ++ [.sys (.syncDir B)] := rfl
  generalize hrest : (before B label c).drop 1 = rest at hs hsync
  have hsub : ∀ s ∈ rest, s ∈ before B label c := fun s h => by rw [← hrest] at h; exact List.mem_of_mem_drop h
  rw [hs] at hf
  simp only [finish] at hf
  cases hd1 : done f2 (stepOps f2 (.put (writer (label :: B) (manifestName ++ copyExt)) [c.manifest])) with
  | none => rw [hd1] at hf; cases hf
  | some g1 =>
    rw [hd1, Option.bind_some] at hf
    have w1 := wf_done h2 hd1
    have hmem : Step.put (writer (label :: B) (manifestName ++ copyExt)) [c.manifest] ∈ before B label c := by rw [hs]; exact List.mem_cons_self
    have t1 : g1.cur (top :: label :: B) = .dir :=
      curDir_step h2 (hpl _ hmem) (away_child hl ht _ hmem) (hd [top] htop') hd1
    have l1 : g1.cur (label :: B) = .dir := (put_inside (w := writer (label :: B) (manifestName ++ copyExt)) h2 (safe_writer _ _) hd1).2
    have t2 : InsideDir g1 (top :: label :: B) := by
      intro e he
      have := put_syncs (w := writer (label :: B) (manifestName ++ copyExt)) h2 (safe_writer _ _) hd1 top
      rw [show (writer (label :: B) (manifestName ++ copyExt)).dir = label :: B from rfl] at this
      rw [this, t1] at he
      exact List.mem_singleton.1 he
    have t3 : InsideDir f3 (top :: label :: B) :=
      finish_insideDir w1 (fun s h => hpl s (hsub s h)) (fun s h => away_child hl ht s (hsub s h)) t2 hf
    rw [hsync, finish_append] at hf
    cases hf1 : finish g1 rest.dropLast with
    | none => rw [hf1] at hf; cases hf
    | some g2 =>
      rw [hf1, Option.bind_some] at hf
      have hsub' : ∀ s ∈ rest.dropLast, s ∈ before B label c := fun s h => hsub s ((List.dropLast_sublist _).subset h)
      have w2 := finish_wf w1 hf1
      have l2 : g2.cur (label :: B) = .dir :=
        finish_curDir w1 (fun s h => hpl s (hsub' s h)) (fun s h => away_before hl.names.1 s (hsub' s h)) l1 hf1
      simp only [finish] at hf
      cases hd4 : done g2 (stepOps g2 (.sys (.syncDir B))) with
      | none => rw [hd4] at hf; cases hf
      | some g4 =>
        rw [hd4, Option.bind_some] at hf
        cases hf
        obtain ⟨-, -, -, h4⟩ := sync_hist w2 (done_one hd4)
        have l3 : InsideDir f3 (label :: B) := by
          intro e he
          rw [h4, l2] at he
          exact List.mem_singleton.1 he
        have hpath : f.path (label :: B) = f.base :: ((f.dirs ++ [label]) ++ B) := by simp [File.path]
        rw [hpath] at hi3 ⊢
        refine chain_stable hBs ?_ (by simp) hi3
        intro r hr hrs
        obtain ⟨t, ht'⟩ := hrs
        -- the suffixes of the directories with the backup
        rcases List.eq_nil_or_concat r with hr' | ⟨r', y, hr'⟩
        · exact absurd hr' hr
        · rw [List.concat_eq_append] at hr'
          subst hr'
          rw [← List.append_assoc] at ht'
          have hy : y = label := by
            have := congrArg List.getLast? ht'
            simpa using this
          subst hy
          have hr2 : r' <:+ f.dirs := ⟨t, List.append_cancel_right ht'⟩
          have : (r' ++ [y]) ++ B = r' ++ y :: B := by simp
          rw [this]
          match r', hr2 with
          | [], _ => exact l3
          | [z], hz =>
            have : z = top := by
              obtain ⟨t', ht'⟩ := hz
              rw [← ht'] at htop
              simpa using htop
            subst this
            exact t3
          | z1 :: z2 :: zs, hz => exact hd3 z1 (z2 :: zs) (by simp) hz

/-- The backup is not listed before `backup.info` is saved. -/
theorem listed_after {parse : Str → Res (List Str)} {f0 fs : Fs} {root : Path} {stanza label : Str} {c : Content} {main copy : Found}
    {old l : List Str} {disk : Path → Found} (h : Begin f0 root stanza label c main copy) (hl : Label label)
    (hold : loadFile (readFile parse main) (readFile parse copy) = .ok old) (hno : label ∉ old)
    (hr : Run f0 (complete root stanza label c) fs) (hc : Crash fs disk)
    (hload : load parse disk (backupPath root stanza) backupInfo = .ok l) (hlisted : label ∈ l) :
    ∃ f1, finish f0 (before (backupPath root stanza) label c) = some f1 ∧
      Run f1 (saveFile (backupPath root stanza) backupInfo c.info ++ saveFile (archivePath root stanza) archiveInfo c.archive) fs := by
  rcases run_append hr with hr | h
  · exfalso
    have hlate : backupInfo ≠ latestName ∧ backupInfo ++ copyExt ≠ latestName := by decide
    have hhist : backupInfo ≠ historyName ∧ backupInfo ++ copyExt ≠ historyName := by decide
    have h1 := run_stable h.wf (plain_before _ _ _) h.own.left (away_before hlate.1) (Or.inl (noMake_before hl.names.2.1.symm hhist.1)) h.main hr
    have h2 := run_stable h.wf (plain_before _ _ _) h.own.left (away_before hlate.2) (Or.inl (noMake_before hl.names.2.2.1.symm hhist.2)) h.copy hr
    unfold load at hload
    rw [h1 disk hc, h2 disk hc, hold] at hload
    cases hload
    exact hno hlisted
  · exact h

/-- C58, for files that are in directories of the manifest: when a crash leaves a repository that lists the backup, these files are there with
their content. Missing: the files of bundles, for which this is not true (`c58_bundle_lost`). -/
theorem c58_durable_partial (parse : Str → Res (List Str)) (f0 f2 fs : Fs) (root : Path) (stanza label : Str) (files : List File) (always : Bool)
    (paths : List Path) (c : Content) (main copy : Found) (old l : List Str) (disk : Path → Found) (f : File) (top : Str)
    (h0 : WF f0)
    (hpr : ∀ f ∈ files, Private f0 (fileWriter (label :: backupPath root stanza) f))
    (hn : (files.map (·.path (label :: backupPath root stanza))).Nodup) (hl : Label label)
    (hp : process f0 (label :: backupPath root stanza) files always paths = some f2)
    (hbegin : Begin f2 root stanza label c main copy)
    (hold : loadFile (readFile parse main) (readFile parse copy) = .ok old) (hno : label ∉ old)
    (hf : f ∈ files) (hpaths : ∀ d, d ≠ [] → d <:+ f.dirs → d ∈ paths) (htop : f.dirs.getLast? = some top) (ht : TopName top)
    (hr : Run f2 (complete root stanza label c) fs) (hc : Crash fs disk)
    (hload : load parse disk (backupPath root stanza) backupInfo = .ok l) (hlisted : label ∈ l) :
    disk (f.path (label :: backupPath root stanza)) = .file f.bufs.flatten := by
  obtain ⟨f3, hf3, hr3⟩ := listed_after hbegin hl hold hno hr hc hload hlisted
  have hne : f.dirs ≠ [] := fun hx => by rw [hx] at htop; cases htop
  have hlen : 1 ≤ f.dirs.length := by cases h : f.dirs with | nil => exact absurd h hne | cons => simp
  obtain ⟨-, -, -, hfile⟩ := process_file h0 hpr hn hp
  obtain ⟨hi, hd, hdd⟩ := hfile f hf hpaths hne
  have hs3 := before_file hbegin.wf hbegin.there hbegin.own.left hl hf3 hne htop ht hi hd hdd
  have hpl1 : ∀ s ∈ saveFile (backupPath root stanza) backupInfo c.info ++ saveFile (archivePath root stanza) archiveInfo c.archive,
      Plain s := fun s hs => plain_complete root stanza label c s (List.mem_append_right _ hs)
  have own3 := finish_private hbegin.wf (plain_complete root stanza label c) hbegin.own hf3
  refine run_stable (finish_wf hbegin.wf hf3) hpl1 own3 ?_ (Or.inl ?_) hs3 hr3 disk hc
  · intro s hs
    rcases List.mem_append.1 hs with hs | hs
    · refine away_save ?_ ?_ ?_ ?_ s hs <;> exact cons_ne_len (by simp [File.path, backupPath]; omega)
    · refine away_save ?_ ?_ ?_ ?_ s hs <;> exact cons_ne_len (by simp [File.path, backupPath, archivePath]; omega)
  · intro s hs
    rcases List.mem_append.1 hs with hs | hs
    · exact noMake_save (not_suffix_len (by simp [File.path, backupPath]; omega)) s hs
    · exact noMake_save (not_suffix_len (by simp [File.path, backupPath, archivePath]; omega)) s hs

/-! ## Bundles -/

/-- The state after a backup with one bundle, in the repository of the example for C35. -/
def aBundled : Option Fs :=
  (process aRepo (aLabel :: backupPath [] [115]) [bundle [49] [[7], [8]]] false [[[112, 103]]]).bind fun f2 =>
    finish f2 (complete [] [115] aLabel aContent)

/-- The path of the bundle. -/
def aBundlePath : Path := (bundle [49] [[7], [8]]).path (aLabel :: backupPath [] [115])

/-- What may be found after a crash: everything but the bundle. -/
def aLoss (fs : Fs) : Path → Found := look (upd fs.cur aBundlePath .missing) fun i => (fs.inode i).data

/-- C58 is not true for bundles: a backup was completed without error, the repository lists it after a crash, and the bundle with its files is
missing. The directory of bundles is not a path of the manifest, so it is never synced. -/
theorem c58_bundle_lost : ∃ fs disk, aBundled = some fs ∧ Crash fs disk ∧
    load aParse disk (backupPath [] [115]) backupInfo = .ok [aLabel] ∧
    disk (manifestName :: aLabel :: backupPath [] [115]) = .file aContent.manifest ∧
    disk ((bundle [49] [[7], [8]]).path (aLabel :: backupPath [] [115])) = .missing := by
  have hw : ∀ fs, aBundled = some fs → WF fs := by
    intro fs h
    simp only [aBundled, process] at h
    cases h1 : finish aRepo (putFiles (aLabel :: backupPath [] [115]) [bundle [49] [[7], [8]]]) with
    | none => rw [h1] at h; cases h
    | some f1 =>
      rw [h1, Option.bind_some] at h
      cases h2 : finish f1 (syncPaths false f1 (aLabel :: backupPath [] [115]) [[[112, 103]]]) with
      | none => rw [h2] at h; cases h
      | some f2 =>
        rw [h2, Option.bind_some] at h
        exact finish_wf (finish_wf (finish_wf aRepo_wf h1) h2) h
  have facts : aBundled.map (fun fs => (decide (.missing ∈ fs.hist aBundlePath), aLoss fs (backupInfo :: backupPath [] [115]),
      aLoss fs (manifestName :: aLabel :: backupPath [] [115]), aLoss fs aBundlePath)) =
      some (true, .file [13], .file aContent.manifest, .missing) := by decide +kernel
  cases hb : aBundled with
  | none => rw [hb] at facts; cases facts
  | some fs =>
    rw [hb, Option.map_some, Option.some.injEq, Prod.mk.injEq, Prod.mk.injEq, Prod.mk.injEq] at facts
    obtain ⟨f1, f2, f3, f4⟩ := facts
    refine ⟨fs, aLoss fs, rfl, ⟨_, _, ?_, fun _ _ => rfl, fun _ => rfl⟩, ?_, f3, f4⟩
    · intro p
      by_cases hp : p = aBundlePath
      · subst hp
        rw [upd_same]
        exact of_decide_eq_true f1
      · rw [upd_other _ _ hp]
        exact (hw fs hb).cur p
    · unfold load
      rw [f2]
      exact c41_main [aLabel] _

/-! ## Examples -/

def aFile : File := ⟨[[98], [112, 103]], [49], [[7], [8]]⟩

/-- The hypotheses of `c58_durable_partial`: a file `pg/b/1`. -/
example : ∃ f2, process aRepo (aLabel :: backupPath [] [115]) [aFile] false [[[112, 103]], [[98], [112, 103]]] = some f2 ∧
    Begin f2 [] [115] aLabel aContent (.file [1]) (.file [1]) ∧
    (∀ f ∈ [aFile], Private aRepo (fileWriter (aLabel :: backupPath [] [115]) f)) ∧
    (∀ d, d ≠ [] → d <:+ aFile.dirs → d ∈ [[[112, 103]], [[98], [112, 103]]]) ∧ TopName [112, 103] ∧
    (finish f2 (complete [] [115] aLabel aContent)).isSome = true := by
  have hpr : ∀ f ∈ [aFile], Private aRepo (fileWriter (aLabel :: backupPath [] [115]) f) := by
    intro f hf
    rw [List.mem_singleton] at hf
    subst hf
    have : aRepo.cur (fileWriter (aLabel :: backupPath [] [115]) aFile).tmp = .missing := by decide +kernel
    intro i hi
    rw [this] at hi
    cases hi
  have facts : (process aRepo (aLabel :: backupPath [] [115]) [aFile] false [[[112, 103]], [[98], [112, 103]]]).map (fun f2 =>
      ([f2.hist [[98, 97, 99, 107, 117, 112]], f2.hist (backupPath [] [115]), f2.hist (backupInfo :: backupPath [] [115]),
        f2.hist ((backupInfo ++ copyExt) :: backupPath [] [115])], [f2.inode 0, f2.inode 1],
        (complete [] [115] aLabel aContent).all (fun s => match s with | .put w _ => f2.cur w.tmp == .missing | _ => true),
        (finish f2 (complete [] [115] aLabel aContent)).isSome)) =
      some ([[.dir], [.dir], [.file 0], [.file 1]], [⟨[1], true⟩, ⟨[1], true⟩], true, true) := by decide +kernel
  cases hp : process aRepo (aLabel :: backupPath [] [115]) [aFile] false [[[112, 103]], [[98], [112, 103]]] with
  | none => rw [hp] at facts; cases facts
  | some f2 =>
    rw [hp, Option.map_some, Option.some.injEq, Prod.mk.injEq, Prod.mk.injEq, Prod.mk.injEq] at facts
    obtain ⟨g1, g2, g3, g4⟩ := facts
    injection g1 with g11 g1; injection g1 with g12 g1; injection g1 with g13 g1; injection g1 with g14 g1
    injection g2 with g21 g2; injection g2 with g22 g2
    obtain ⟨w2, -, -, -⟩ := process_file aRepo_wf hpr (by decide) hp
    have root : Stable f2 [] .dir := by
      rintro disk ⟨e, r, h1, h2, h3⟩
      rw [h3]
      have := h1 []
      rw [w2.root] at this
      simp [look, up, List.mem_singleton.1 this]
    have hB : Stable f2 (backupPath [] [115]) .dir := by
      refine inside_dir_stable (inside_dir_stable root ?_) ?_
      · intro e he; rw [g11] at he; exact List.mem_singleton.1 he
      · intro e he; rw [show [115] :: [[98, 97, 99, 107, 117, 112]] = backupPath [] [115] from rfl, g12] at he; exact List.mem_singleton.1 he
    have bk : Stable f2 [[98, 97, 99, 107, 117, 112]] .dir := inside_dir_stable root (fun e he => by rw [g11] at he; exact List.mem_singleton.1 he)
    have hBe : ∀ e ∈ f2.hist (backupPath [] [115]), e = .dir := fun e he => by rw [g12] at he; exact List.mem_singleton.1 he
    refine ⟨f2, rfl, ⟨w2, hB, inside_stable bk hBe ?_, inside_stable bk hBe ?_, ?_⟩, hpr, ?_, by unfold TopName; decide, g4⟩
    · intro e he
      rw [show [115] :: [[98, 97, 99, 107, 117, 112]] = backupPath [] [115] from rfl, g13] at he
      exact ⟨0, List.mem_singleton.1 he, g21⟩
    · intro e he
      rw [show [115] :: [[98, 97, 99, 107, 117, 112]] = backupPath [] [115] from rfl, g14] at he
      exact ⟨1, List.mem_singleton.1 he, g22⟩
    · intro w bufs hw i hi
      have := List.all_eq_true.1 g3 _ hw
      dsimp only at this
      rw [hi] at this
      cases this
    · intro d hd hs
      simp only [aFile, List.suffix_cons_iff, List.suffix_nil] at hs
      rcases hs with rfl | rfl | rfl
      · simp
      · simp
      · exact absurd rfl hd

end Verif.Backup.Durable
