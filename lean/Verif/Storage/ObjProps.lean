import Verif.Storage.ObjSpec

/-!
# C74: listing an object store in pages and by time
-/

namespace Verif.Storage

open Spec (files paths)

/-! ## Pages do not matter -/

/-- What the files and the paths are, whatever comes between. -/
structure Same (s s' : ObjSt) : Prop where
  last : s.last = s'.last
  files : files s.out = files s'.out

/-- A step looks at the last info only, and adds files only. -/
def Local (file : ObjSt → Ver → ObjSt) : Prop :=
  ∀ s f, ∃ add : List FileInfo, ∀ o, file ⟨s.last, o⟩ f = ⟨(file s f).last, o ++ add.map .file⟩

theorem files_append (a b : List Out) : files (a ++ b) = files a ++ files b := by simp [files]
theorem paths_append (a b : List Out) : paths (a ++ b) = paths a ++ paths b := by simp [paths]
theorem files_file (a : List FileInfo) : files (a.map .file) = a := by
  induction a with
  | nil => rfl
  | cons x a ih => simp only [files] at ih; simp [files, ih]
theorem files_path (a : List Name) : files (a.map .path) = [] := by
  induction a with
  | nil => rfl
  | cons x a ih => simp only [files] at ih; simp [files]
theorem paths_file (a : List FileInfo) : paths (a.map .file) = [] := by
  induction a with
  | nil => rfl
  | cons x a ih => simp only [paths] at ih; simp [paths]
theorem paths_path (a : List Name) : paths (a.map .path) = a := by
  induction a with
  | nil => rfl
  | cons x a ih => simp only [paths] at ih; simp [paths, ih]

theorem local_fold {file : ObjSt → Ver → ObjSt} (hl : Local file) : ∀ (fs : List Ver) (l : Last),
    ∃ (l' : Last) (add : List FileInfo), ∀ o, fs.foldl file ⟨l, o⟩ = ⟨l', o ++ add.map .file⟩
  | [], l => ⟨l, [], fun o => by simp⟩
  | f :: fs, l => by
    obtain ⟨a1, h1⟩ := hl ⟨l, []⟩ f
    obtain ⟨l', a2, h2⟩ := local_fold hl fs (file ⟨l, []⟩ f).last
    refine ⟨l', a1 ++ a2, fun o => ?_⟩
    rw [List.foldl_cons, h1 o, h2]
    simp

/-- Pages are as good as one page, for the files; and all paths are returned as they come. -/
theorem pages_one {file : ObjSt → Ver → ObjSt} (hl : Local file) : ∀ (pages : List Page) (l : Last) (o : List Out),
    ∃ add, pages.foldl (page file) ⟨l, o⟩ = ⟨((pages.flatMap (·.files)).foldl file ⟨l, []⟩).last, o ++ add⟩ ∧
      files add = files ((pages.flatMap (·.files)).foldl file ⟨l, []⟩).out ∧ paths add = pages.flatMap (·.paths)
  | [], l, o => ⟨[], by simp, by simp, by simp [paths]⟩
  | p :: ps, l, o => by
    obtain ⟨l1, a1, h1⟩ := local_fold hl p.files l
    obtain ⟨a2, h2, h3, h4⟩ := pages_one hl ps l1 (o ++ p.paths.map .path ++ a1.map .file)
    obtain ⟨l2, b, h5⟩ := local_fold hl (ps.flatMap (·.files)) l1
    refine ⟨p.paths.map .path ++ a1.map .file ++ a2, ?_, ?_, ?_⟩
    · rw [List.foldl_cons, List.flatMap_cons, List.foldl_append]
      have : page file ⟨l, o⟩ p = ⟨l1, o ++ p.paths.map .path ++ a1.map .file⟩ := by simp only [page]; exact h1 _
      rw [this, h2, h1 [], h5, h5]
      simp
    · rw [List.flatMap_cons, List.foldl_append, h1 [], files_append, files_append, files_path, files_file, h3, h5, h5]
      simp [files_append, files_file]
    · rw [paths_append, paths_append, paths_file, paths_path, h4]
      simp

theorem flush_local (s : ObjSt) (n : Name) : ∃ add : List FileInfo, ∀ o, flush ⟨s.last, o⟩ n = ⟨(flush s n).last, o ++ add.map .file⟩ := by
  cases h : (s.last.exists_ && s.last.name != n) with
  | true => exact ⟨[s.last.info], fun o => by simp only [flush, h]; simp⟩
  | false => exact ⟨[], fun o => by simp only [flush, h]; simp⟩

theorem s3_local (target : Option Nat) : Local (s3File target) := by
  intro s f
  obtain ⟨add, h⟩ := flush_local s f.name
  refine ⟨add, fun o => ?_⟩
  unfold s3File
  rw [h o]
  cases target with
  | none => rfl
  | some t =>
    dsimp only
    split
    · rfl
    · split
      · rfl
      · split <;> rfl

theorem azure_local (target : Option Nat) : Local (azureFile target) := by
  intro s f
  obtain ⟨add, h⟩ := flush_local s f.name
  refine ⟨add, fun o => ?_⟩
  unfold azureFile
  rw [h o]
  cases target with
  | none => rfl
  | some t =>
    dsimp only
    split <;> rfl

theorem gcs_azure (target : Option Nat) : gcsFile target = azureFile target := by
  funext s f
  unfold gcsFile azureFile
  cases target <;> rfl

/-! ## One key -/

/-- What waits to be returned. -/
def pend (l : Last) : List FileInfo := if l.exists_ then [l.info] else []

theorem listPages_files {file : ObjSt → Ver → ObjSt} (hl : Local file) (pages : List Page) :
    files (listPages file pages) =
      files ((pages.flatMap (·.files)).foldl file ⟨⟨false, [], 0, 0, none⟩, []⟩).out ++
        pend ((pages.flatMap (·.files)).foldl file ⟨⟨false, [], 0, 0, none⟩, []⟩).last ∧
    paths (listPages file pages) = pages.flatMap (·.paths) := by
  obtain ⟨add, h1, h2, h3⟩ := pages_one hl pages ⟨false, [], 0, 0, none⟩ []
  unfold listPages
  simp only [h1, List.nil_append]
  unfold pend
  split
  · rw [files_append, paths_append, h2, h3]
    exact ⟨rfl, by simp [paths]⟩
  · rw [h2, h3]
    simp

/-- A step that works through the versions of a key returns what waits, and then has what the key shows. `order` is how the store
lists a history. -/
def Good (file : ObjSt → Ver → ObjSt) (order : List Ver → List Ver) (ok : List Ver → Prop) (t : Nat) : Prop :=
  ∀ (name : Name) (h : List Ver) (s : ObjSt), h ≠ [] → ok h → (∀ v ∈ h, v.name = name) → s.last.name ≠ name →
    ∃ shown, Spec.Shows t name h shown ∧
      files ((order h).foldl file s).out = files s.out ++ pend s.last ∧
      (pend ((order h).foldl file s).last).map Spec.noTime = shown ∧
      (((order h).foldl file s).last.name = s.last.name ∨ ((order h).foldl file s).last.name = name)

/-- The time is that of the version that comes last. -/
theorem fold_time {file : ObjSt → Ver → ObjSt} (ht : ∀ s f, (file s f).last.time = f.time) (vs : List Ver) (hne : vs ≠ []) (s : ObjSt) :
    (vs.foldl file s).last.time = Spec.newest vs := by
  have h1 : vs = vs.dropLast ++ [vs.getLast hne] := (List.dropLast_concat_getLast hne).symm
  rw [h1, List.foldl_append]
  simp [ht, Spec.newest, Spec.oldest]

theorem pend_time (l : Last) : (pend l).map Spec.withTime = ((pend l).map Spec.noTime).map (fun x => (x, l.time)) := by
  unfold pend
  split <;> rfl

theorem good_all {file : ObjSt → Ver → ObjSt} {order : List Ver → List Ver} {ok : List Ver → Prop} {t : Nat} (hg : Good file order ok t)
    (ht : ∀ s f, (file s f).last.time = f.time) (ho : ∀ h, h ≠ [] → order h ≠ []) :
    ∀ (ks : List (Name × List Ver)) (s : ObjSt), Spec.Store ks → (∀ k ∈ ks, ok k.2) → s.last.name ∉ ks.map (·.1) →
    ∃ shown, Spec.ShowsAll t (fun h => Spec.newest (order h)) ks shown ∧
      (files ((ks.flatMap (fun k => order k.2)).foldl file s).out ++
        pend ((ks.flatMap (fun k => order k.2)).foldl file s).last).map Spec.withTime =
        (files s.out ++ pend s.last).map Spec.withTime ++ shown
  | [], s, _, _, _ => ⟨[], .nil, by simp⟩
  | k :: ks, s, hst, hok, hs => by
    simp only [List.map_cons, List.mem_cons, not_or] at hs
    have hne := hst.some k (by simp)
    obtain ⟨a, h1, h2, h3, h4⟩ := hg k.1 k.2 s hne (hok k (by simp)) (hst.same k (by simp)) hs.1
    have hnd := hst.nodup
    simp only [List.map_cons, List.nodup_cons] at hnd
    have hst' : Spec.Store ks := ⟨hnd.2, fun x hx => hst.named x (by simp [hx]), fun x hx => hst.some x (by simp [hx]),
      fun x hx => hst.same x (by simp [hx])⟩
    have hn : ((order k.2).foldl file s).last.name ∉ ks.map (·.1) := by
      rcases h4 with h4 | h4 <;> rw [h4]
      · exact hs.2
      · exact hnd.1
    obtain ⟨b, h5, h6⟩ := good_all hg ht ho ks ((order k.2).foldl file s) hst' (fun x hx => hok x (by simp [hx])) hn
    refine ⟨_, .cons h1 h5, ?_⟩
    rw [List.flatMap_cons, List.foldl_append, h6, List.map_append, pend_time, h3, h2, fold_time ht _ (ho _ hne)]
    simp

/-! ### S3 -/

/-- A name that was settled: only the time changes. -/
theorem s3_settled {t : Nat} {name : Name} : ∀ (vs : List Ver) (s : ObjSt), (∀ v ∈ vs, v.name = name) → s.last.name = name →
    ∃ time, vs.foldl (s3File (some t)) s = ⟨{ s.last with time := time }, s.out⟩
  | [], s, _, _ => ⟨s.last.time, rfl⟩
  | v :: vs, s, hv, hs => by
    have h1 : s3File (some t) s v = ⟨{ s.last with time := v.time }, s.out⟩ := by
      have : flush s v.name = s := by simp [flush, hs, hv v (by simp)]
      simp only [s3File, this]
      split
      · rfl
      · rw [if_pos (hs.trans (hv v (by simp)).symm)]
    obtain ⟨time, h2⟩ := s3_settled vs ⟨{ s.last with time := v.time }, s.out⟩ (fun x hx => hv x (by simp [hx])) hs
    exact ⟨time, by rw [List.foldl_cons, h1, h2]⟩

/-- A name that was not found yet, nothing waits. -/
theorem s3_search {t : Nat} {name : Name} : ∀ (vs : List Ver) (s : ObjSt), (∀ v ∈ vs, v.name = name) → s.last.name ≠ name →
    s.last.exists_ = false →
    ∃ shown, Spec.Shows t name vs.reverse shown ∧ (vs.foldl (s3File (some t)) s).out = s.out ∧
      (pend (vs.foldl (s3File (some t)) s).last).map Spec.noTime = shown ∧
      ((vs.foldl (s3File (some t)) s).last.name = s.last.name ∨ (vs.foldl (s3File (some t)) s).last.name = name)
  | [], s, _, _, he => ⟨[], .nothing (by simp [Spec.NoneAt]), rfl, by simp [pend, he], .inl rfl⟩
  | v :: vs, s, hv, hs, he => by
    have hv' : ∀ x ∈ vs, x.name = name := fun x hx => hv x (by simp [hx])
    have hvn : v.name = name := hv v (by simp)
    have hfl : flush s v.name = s := by simp [flush, he]
    rw [List.foldl_cons]
    by_cases hlt : v.time > t
    · have h1 : s3File (some t) s v = ⟨{ s.last with time := v.time }, s.out⟩ := by
        simp only [s3File, hfl]
        rw [if_pos hlt]
      rw [h1]
      obtain ⟨shown, h2, h3, h4, h5⟩ := s3_search vs ⟨{ s.last with time := v.time }, s.out⟩ hv' hs he
      refine ⟨shown, ?_, h3, h4, h5⟩
      rw [List.reverse_cons]
      have key : ∀ w, Spec.CurrentAt t vs.reverse w → Spec.CurrentAt t (vs.reverse ++ [v]) w := by
        rintro w ⟨a, b, h6, h7, h8⟩
        refine ⟨a, b ++ [v], by rw [h6]; simp, h7, ?_⟩
        intro x hx
        rcases List.mem_append.mp hx with hx | hx
        · exact h8 x hx
        · simp only [List.mem_singleton] at hx
          subst hx
          exact hlt
      cases h2 with
      | nothing h0 =>
        refine .nothing ?_
        intro x hx
        rcases List.mem_append.mp hx with hx | hx
        · exact h0 x hx
        · simp only [List.mem_singleton] at hx
          subst hx
          exact hlt
      | deleted hw hd => exact .deleted (key _ hw) hd
      | current hw hd => exact .current (key _ hw) hd
    · have hc : Spec.CurrentAt t (v :: vs).reverse v := ⟨vs.reverse, [], by simp, by omega, by simp⟩
      have hne : ¬ s.last.name = v.name := by rw [hvn]; exact hs
      cases hd : v.del with
      | true =>
        have h1 : s3File (some t) s v = ⟨{ s.last with time := v.time, name := v.name, exists_ := false }, s.out⟩ := by
          simp only [s3File, hfl]
          rw [if_neg hlt, if_neg hne, hd]
          rfl
        rw [h1]
        obtain ⟨time, h2⟩ := s3_settled (t := t) vs ⟨{ s.last with time := v.time, name := v.name, exists_ := false }, s.out⟩ hv' hvn
        rw [h2]
        exact ⟨[], .deleted hc hd, rfl, by simp [pend], .inr hvn⟩
      | false =>
        have h1 : s3File (some t) s v =
            ⟨{ s.last with time := v.time, name := v.name, exists_ := true, id := some v.id, size := v.size }, s.out⟩ := by
          simp only [s3File, hfl]
          rw [if_neg hlt, if_neg hne, hd]
          rfl
        rw [h1]
        obtain ⟨time, h2⟩ := s3_settled (t := t) vs
          ⟨{ s.last with time := v.time, name := v.name, exists_ := true, id := some v.id, size := v.size }, s.out⟩ hv' hvn
        rw [h2]
        exact ⟨_, .current hc hd, rfl, by simp [pend, Spec.noTime, Last.info, hvn], .inr hvn⟩

theorem flush_again (s : ObjSt) (n : Name) : flush (flush s n) n = flush s n := by
  unfold flush
  split <;> simp_all

theorem flush_out (s : ObjSt) (n : Name) (h : s.last.name ≠ n) :
    files (flush s n).out = files s.out ++ pend s.last ∧ (flush s n).last.exists_ = false ∧ (flush s n).last.name = s.last.name := by
  cases he : s.last.exists_ with
  | true => simp [flush, he, h, pend, files_append, files]
  | false => simp [flush, he, pend]

theorem s3_flush (t : Nat) (s : ObjSt) (v : Ver) : s3File (some t) s v = s3File (some t) (flush s v.name) v := by
  simp only [s3File, flush_again]

theorem s3_good (t : Nat) : Good (s3File (some t)) List.reverse (fun _ => True) t := by
  intro name h s hne _ hn hs
  cases hr : h.reverse with
  | nil => simp at hr; exact absurd hr hne
  | cons v vs =>
    have hv : ∀ x ∈ v :: vs, x.name = name := fun x hx => hn x (by rw [← List.mem_reverse, hr]; exact hx)
    have hvn := hv v (by simp)
    obtain ⟨f1, f2, f3⟩ := flush_out s name hs
    obtain ⟨shown, h1, h2, h3, h4⟩ := s3_search (t := t) (v :: vs) (flush s name) hv (by rw [f3]; exact hs) f2
    have he : (v :: vs).foldl (s3File (some t)) s = (v :: vs).foldl (s3File (some t)) (flush s name) := by
      rw [List.foldl_cons, List.foldl_cons, s3_flush, hvn]
    rw [he]
    refine ⟨shown, ?_, by rw [h2, f1], h3, by rw [← f3]; exact h4⟩
    rwa [← hr, List.reverse_reverse] at h1

/-! ### Azure and GCS -/

/-- In the middle of a key: what is shown so far is replaced by what comes and is not too new. -/
theorem azure_search {t : Nat} {name : Name} : ∀ (vs : List Ver) (before : List Ver) (s : ObjSt) (shown : List (Name × Nat × Option Nat)),
    (∀ v ∈ vs, v.name = name) → (∀ v ∈ vs, v.del = false) →
    (s.last.exists_ = false ∨ s.last.name = name) → Spec.Shows t name before shown → (pend s.last).map Spec.noTime = shown →
    ∃ shown', Spec.Shows t name (before ++ vs) shown' ∧ (vs.foldl (azureFile (some t)) s).out = s.out ∧
      (pend (vs.foldl (azureFile (some t)) s).last).map Spec.noTime = shown' ∧
      ((vs.foldl (azureFile (some t)) s).last.name = s.last.name ∨ (vs.foldl (azureFile (some t)) s).last.name = name)
  | [], before, s, shown, _, _, _, h1, h2 => ⟨shown, by simpa using h1, rfl, h2, .inl rfl⟩
  | v :: vs, before, s, shown, hv, hd, hs, h1, h2 => by
    have hv' : ∀ x ∈ vs, x.name = name := fun x hx => hv x (by simp [hx])
    have hd' : ∀ x ∈ vs, x.del = false := fun x hx => hd x (by simp [hx])
    have hvn : v.name = name := hv v (by simp)
    have hfl : flush s v.name = s := by
      rcases hs with hs | hs
      · simp [flush, hs]
      · simp [flush, hs, hvn]
    rw [List.foldl_cons]
    have happ : before ++ v :: vs = (before ++ [v]) ++ vs := by simp
    rw [happ]
    by_cases hlt : v.time > t
    · have h3 : azureFile (some t) s v = ⟨{ s.last with time := v.time }, s.out⟩ := by
        simp only [azureFile, hfl]
        rw [if_pos hlt]
      rw [h3]
      refine azure_search vs (before ++ [v]) ⟨{ s.last with time := v.time }, s.out⟩ shown hv' hd' hs ?_ ?_
      · have key : ∀ w, Spec.CurrentAt t before w → Spec.CurrentAt t (before ++ [v]) w := by
          rintro w ⟨a, b, h6, h7, h8⟩
          refine ⟨a, b ++ [v], by rw [h6]; simp, h7, ?_⟩
          intro x hx
          rcases List.mem_append.mp hx with hx | hx
          · exact h8 x hx
          · simp only [List.mem_singleton] at hx
            subst hx
            exact hlt
        cases h1 with
        | nothing h0 =>
          refine .nothing ?_
          intro x hx
          rcases List.mem_append.mp hx with hx | hx
          · exact h0 x hx
          · simp only [List.mem_singleton] at hx
            subst hx
            exact hlt
        | deleted hw hd => exact .deleted (key _ hw) hd
        | current hw hd => exact .current (key _ hw) hd
      · rw [← h2]
        unfold pend
        cases s.last.exists_ <;> rfl
    · have h3 : azureFile (some t) s v =
          ⟨{ s.last with time := v.time, name := v.name, exists_ := true, size := v.size, id := some v.id }, s.out⟩ := by
        simp only [azureFile, hfl]
        rw [if_neg hlt]
      rw [h3]
      obtain ⟨sh, g1, g2, g3, g4⟩ := azure_search (t := t) (name := name) vs (before ++ [v])
        ⟨{ s.last with time := v.time, name := v.name, exists_ := true, size := v.size, id := some v.id }, s.out⟩
        [(name, v.size, some v.id)] hv' hd' (.inr hvn) (.current ⟨before, [], by simp, by omega, by simp⟩ (hd v (by simp)))
        (by simp [pend, Spec.noTime, Last.info, hvn])
      refine ⟨sh, g1, g2, g3, ?_⟩
      rcases g4 with g4 | g4
      · exact .inr (g4.trans hvn)
      · exact .inr g4

theorem azure_flush (t : Nat) (s : ObjSt) (v : Ver) : azureFile (some t) s v = azureFile (some t) (flush s v.name) v := by
  simp only [azureFile, flush_again]

theorem azure_good (t : Nat) : Good (azureFile (some t)) id (fun h => ∀ v ∈ h, v.del = false) t := by
  intro name h s hne hd hn hs
  cases h with
  | nil => exact absurd rfl hne
  | cons v vs =>
    have hvn := hn v (by simp)
    obtain ⟨f1, f2, f3⟩ := flush_out s name hs
    obtain ⟨shown, h1, h2, h3, h4⟩ := azure_search (t := t) (name := name) (v :: vs) [] (flush s name) [] hn hd (.inl f2)
      (.nothing (by simp [Spec.NoneAt])) (by simp [pend, f2])
    have he : (v :: vs).foldl (azureFile (some t)) s = (v :: vs).foldl (azureFile (some t)) (flush s name) := by
      rw [List.foldl_cons, List.foldl_cons, azure_flush, hvn]
    rw [id, he]
    exact ⟨shown, h1, by rw [h2, f1], h3, by rw [← f3]; exact h4⟩

/-! ## What is current is unique -/

theorem current_unique {t : Nat} {h : List Ver} {v w : Ver} (hv : Spec.CurrentAt t h v) (hw : Spec.CurrentAt t h w) : v = w := by
  obtain ⟨a, b, h1, h2, h3⟩ := hv
  obtain ⟨c, d, h4, h5, h6⟩ := hw
  rw [h1] at h4
  rcases List.append_eq_append_iff.mp h4 with ⟨e, he, hf⟩ | ⟨e, he, hf⟩
  · cases e with
    | nil => simp at hf; exact hf.1
    | cons x e =>
      simp only [List.cons_append, List.cons.injEq] at hf
      have := h3 w (by rw [hf.2]; simp)
      omega
  · cases e with
    | nil => simp at hf; exact hf.1.symm
    | cons x e =>
      simp only [List.cons_append, List.cons.injEq] at hf
      have := h6 v (by rw [hf.2]; simp)
      omega

theorem none_current {t : Nat} {h : List Ver} {v : Ver} (h0 : Spec.NoneAt t h) (hv : Spec.CurrentAt t h v) : False := by
  obtain ⟨a, b, h1, h2, _⟩ := hv
  have := h0 v (by rw [h1]; simp)
  omega

theorem shows_unique {t : Nat} {n : Name} {h : List Ver} {a b : List (Name × Nat × Option Nat)} (ha : Spec.Shows t n h a)
    (hb : Spec.Shows t n h b) : a = b := by
  cases ha with
  | nothing h0 =>
    cases hb with
    | nothing _ => rfl
    | deleted hv _ => rfl
    | current hv _ => exact (none_current h0 hv).elim
  | deleted hv hd =>
    cases hb with
    | nothing _ => rfl
    | deleted _ _ => rfl
    | current hw hd2 =>
      have := current_unique hv hw
      subst this
      simp [hd] at hd2
  | current hv hd =>
    cases hb with
    | nothing h0 => exact (none_current h0 hv).elim
    | deleted hw hd2 =>
      have := current_unique hv hw
      subst this
      simp [hd] at hd2
    | current hw _ =>
      have := current_unique hv hw
      subst this
      rfl

theorem showsAll_unique {t : Nat} {tm : List Ver → Nat} : ∀ {ks : List (Name × List Ver)} {a b : List ((Name × Nat × Option Nat) × Nat)},
    Spec.ShowsAll t tm ks a → Spec.ShowsAll t tm ks b → a = b
  | [], _, _, .nil, .nil => rfl
  | _ :: _, _, _, .cons h1 h2, .cons h3 h4 => by rw [shows_unique h1 h3, showsAll_unique h2 h4]

/-! ## The theorems -/

/-- By time, S3: however the answer is cut into pages, every key that had a version at the time which is not a delete marker is
returned once, in the order of the keys, with the size and the version of the one that was current; the time is that of its oldest
version. -/
theorem c74_s3 (t : Nat) (ks : List (Name × List Ver)) (hst : Spec.Store ks) (pages : List Page)
    (hp : pages.flatMap (·.files) = ks.flatMap (fun k => k.2.reverse)) :
    ∃ shown, Spec.ShowsAll t Spec.oldest ks shown ∧ (∀ shown', Spec.ShowsAll t Spec.oldest ks shown' → shown' = shown) ∧
      (files (listPages (s3File (some t)) pages)).map Spec.withTime = shown ∧
      paths (listPages (s3File (some t)) pages) = pages.flatMap (·.paths) := by
  obtain ⟨h1, h2⟩ := listPages_files (s3_local (some t)) pages
  obtain ⟨shown, h3, h4⟩ := good_all (s3_good t) (by
      intro s f
      simp only [s3File]
      split
      · rfl
      · split
        · rfl
        · split <;> rfl) (fun h hh => by simpa using hh) ks ⟨⟨false, [], 0, 0, none⟩, []⟩ hst (fun _ _ => trivial) (by
      intro hm
      obtain ⟨k, hk, he⟩ := List.mem_map.mp hm
      exact hst.named k hk he)
  have ho : (fun h => Spec.newest (List.reverse h)) = Spec.oldest := by
    funext h
    simp [Spec.newest]
  rw [ho] at h3
  refine ⟨shown, h3, fun s hs => showsAll_unique hs h3, ?_, h2⟩
  rw [h1, hp, h4]
  simp [files, pend]

/-- By time, Azure and GCS: the same, for stores without delete markers (those they give say nothing of the time of the deletion); the
time is that of the newest version. -/
theorem c74_azure_gcs (t : Nat) (ks : List (Name × List Ver)) (hst : Spec.Store ks) (hd : ∀ k ∈ ks, ∀ v ∈ k.2, v.del = false)
    (pages : List Page) (hp : pages.flatMap (·.files) = ks.flatMap (fun k => k.2)) :
    ∃ shown, Spec.ShowsAll t Spec.newest ks shown ∧ (∀ shown', Spec.ShowsAll t Spec.newest ks shown' → shown' = shown) ∧
      (files (listPages (azureFile (some t)) pages)).map Spec.withTime = shown ∧
      (files (listPages (gcsFile (some t)) pages)).map Spec.withTime = shown ∧
      paths (listPages (azureFile (some t)) pages) = pages.flatMap (·.paths) ∧
      paths (listPages (gcsFile (some t)) pages) = pages.flatMap (·.paths) := by
  rw [gcs_azure]
  obtain ⟨h1, h2⟩ := listPages_files (azure_local (some t)) pages
  obtain ⟨shown, h3, h4⟩ := good_all (azure_good t) (by
      intro s f
      simp only [azureFile]
      split <;> rfl) (fun h hh => hh) ks ⟨⟨false, [], 0, 0, none⟩, []⟩ hst hd (by
      intro hm
      obtain ⟨k, hk, he⟩ := List.mem_map.mp hm
      exact hst.named k hk he)
  have h5 : (files (listPages (azureFile (some t)) pages)).map Spec.withTime = shown := by
    rw [h1, hp]
    simpa [files, pend] using h4
  exact ⟨shown, h3, fun s hs => showsAll_unique hs h3, h5, h5, h2, h2⟩

/-- A step without a time: what waits is returned and the file waits. -/
theorem plain_fold {file : ObjSt → Ver → ObjSt}
    (hf : ∀ s f, file s f = { flush s f.name with last := { (flush s f.name).last with name := f.name, exists_ := true, size := f.size, time := f.time } })
    (hid : ∀ s f, (file s f).last.id = s.last.id) :
    ∀ (fs : List Ver) (s : ObjSt), (fs.map (·.name)).Nodup → (s.last.exists_ = true → s.last.name ∉ fs.map (·.name)) → s.last.id = none →
    files (fs.foldl file s).out ++ pend (fs.foldl file s).last =
      files s.out ++ pend s.last ++ fs.map (fun f => ⟨f.name, f.time, f.size, none⟩)
  | [], s, _, _, _ => by simp
  | f :: fs, s, hn, hs, hi => by
    simp only [List.map_cons, List.nodup_cons] at hn
    have hi' : (file s f).last.id = none := (hid s f).trans hi
    have h1 := plain_fold hf hid fs (file s f) hn.2 (by
      intro _
      rw [hf]
      exact hn.1) hi'
    rw [List.foldl_cons, h1]
    have h2 : pend (file s f).last = [⟨f.name, f.time, f.size, none⟩] := by
      have h3 := hi'
      rw [hf] at h3 ⊢
      simp only at h3
      simp [pend, Last.info, h3]
    have h4 : files (file s f).out = files s.out ++ pend s.last := by
      rw [hf]
      cases he : s.last.exists_ with
      | false => simp [flush, he, pend]
      | true =>
        have hne : s.last.name ≠ f.name := by
          have := hs he
          simp only [List.map_cons, List.mem_cons, not_or] at this
          exact this.1
        exact (flush_out s f.name hne).1
    rw [h2, h4]
    simp

/-- Without a time every file is returned once with its own size and time, in the order of the answers, however they are cut into
pages; and every path. -/
theorem c74_plain (pages : List Page) (hn : ((pages.flatMap (·.files)).map (·.name)).Nodup) :
    ∀ file ∈ [s3File none, azureFile none, gcsFile none],
      files (listPages file pages) = (pages.flatMap (·.files)).map (fun f => ⟨f.name, f.time, f.size, none⟩) ∧
      paths (listPages file pages) = pages.flatMap (·.paths) := by
  have key : ∀ file : ObjSt → Ver → ObjSt, Local file →
      (∀ s f, file s f = { flush s f.name with last := { (flush s f.name).last with name := f.name, exists_ := true, size := f.size, time := f.time } }) →
      files (listPages file pages) = (pages.flatMap (·.files)).map (fun f => ⟨f.name, f.time, f.size, none⟩) ∧
      paths (listPages file pages) = pages.flatMap (·.paths) := by
    intro file hl hf
    obtain ⟨h1, h2⟩ := listPages_files hl pages
    refine ⟨?_, h2⟩
    rw [h1, plain_fold hf ?_ _ _ hn (by simp) rfl]
    · simp [files, pend]
    · intro s f
      rw [hf]
      simp only [flush]
      split <;> rfl
  intro file hfile
  simp only [List.mem_cons, List.not_mem_nil, or_false] at hfile
  rcases hfile with rfl | rfl | rfl
  · exact key _ (s3_local none) fun s f => rfl
  · exact key _ (azure_local none) fun s f => rfl
  · exact key _ (gcs_azure none ▸ azure_local none) fun s f => rfl

/-! ## It does something -/

namespace ObjEx

def ver (n : Char) (time id : Nat) (del : Bool := false) : Ver := ⟨[n], time, 100 + id, id, del⟩

/-- `a` was written twice, `b` written and deleted, `c` written after 10. -/
def store : List (Name × List Ver) :=
  [(['a'], [ver 'a' 1 1, ver 'a' 5 2, ver 'a' 20 3]), (['b'], [ver 'b' 2 4, ver 'b' 6 5 true, ver 'b' 30 6]), (['c'], [ver 'c' 11 7])]

example : Spec.Store store := ⟨by decide, by decide, by decide, by decide⟩

/-- The answer of S3, cut in the middle of `a`. -/
def pages : List Page :=
  [⟨[['p']], [ver 'a' 20 3, ver 'a' 5 2]⟩, ⟨[['q']], [ver 'a' 1 1, ver 'b' 30 6, ver 'b' 6 5 true, ver 'b' 2 4, ver 'c' 11 7]⟩]

example : pages.flatMap (·.files) = store.flatMap (fun k => k.2.reverse) := by decide
example : listPages (s3File (some 10)) pages = [.path ['p'], .path ['q'], .file ⟨['a'], 1, 102, some 2⟩] := by decide +kernel
example : listPages (s3File (some 3)) pages =
    [.path ['p'], .path ['q'], .file ⟨['a'], 1, 101, some 1⟩, .file ⟨['b'], 2, 104, some 4⟩] := by decide +kernel

end ObjEx

/-- The time that is returned is not that of the version that is returned: S3 gives that of the oldest version, Azure and GCS that of
the newest, which may be after the time asked for. -/
theorem c74_wrong_time :
    files (listPages (s3File (some 10)) [⟨[], [ObjEx.ver 'a' 5 2, ObjEx.ver 'a' 1 1]⟩]) = [⟨['a'], 1, 102, some 2⟩] ∧
    files (listPages (azureFile (some 10)) [⟨[], [ObjEx.ver 'a' 5 1, ObjEx.ver 'a' 20 2]⟩]) = [⟨['a'], 20, 101, some 1⟩] ∧
    files (listPages (gcsFile (some 10)) [⟨[], [ObjEx.ver 'a' 5 1, ObjEx.ver 'a' 20 2]⟩]) = [⟨['a'], 20, 101, some 1⟩] := by
  decide +kernel

end Verif.Storage
