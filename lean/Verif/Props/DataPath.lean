/-
C72 (files of the data directories) and C76 (command line).
-/
import Verif.Lemmas.DataPath
import Verif.Lemmas.Inventory
import Verif.Lemmas.PathTags

namespace Razorback.Props
open Razorback.Spec Razorback.Data

theorem firstExisting_ok {w : World} {name : List Char} {ds : List Path} {p : Path} (h : firstExisting w name ds = .ok p) :
    ∃ d ∈ ds, p = d.join (.parse name) ∧ pathExists w.fs w.cwd p = true := by
  induction ds with
  | nil => simp [firstExisting] at h
  | cons d ds ih =>
    rw [firstExisting] at h
    by_cases hc : pathExists w.fs w.cwd (d.join (.parse name)) = true
    · rw [if_pos hc] at h
      injection h with h
      exact ⟨d, by simp, h.symm, h ▸ hc⟩
    · rw [if_neg hc] at h
      obtain ⟨d', h1, h2⟩ := ih h
      exact ⟨d', by simp [h1], h2⟩

/-- **C72.** What is returned exists, and is the name in one of the two directories; what is raised is ValueError.  For all
names, directories and states. -/
theorem C72_exists (w : World) (name dir : List Char) :
    (∃ p, getDataFile w name dir = .ok p ∧ (stat w.fs w.cwd p).isSome ∧
      (p = (dataPath w dir).join (.parse name) ∨ p = (defaultDataPath w dir).join (.parse name))) ∨
    getDataFile w name dir = .error .value := by
  cases h : getDataFile w name dir with
  | ok p =>
    left
    obtain ⟨d, hd, h1, h2⟩ := firstExisting_ok h
    refine ⟨p, rfl, h2, ?_⟩
    simp only [List.mem_cons, List.not_mem_nil, or_false] at hd
    rcases hd with rfl | rfl
    · exact .inl h1
    · exact .inr h1
  | error e =>
    right
    unfold getDataFile at h
    simp only [firstExisting] at h
    split at h
    · simp at h
    · split at h
      · simp at h
      · rw [h]

/-- The candidates for simple names. -/
theorem getDataFile_eq {w : World} (hw : OkWorld w) {name dir : List Char} {t : List Name} (hn : SimpleName name)
    (hp : Path.parse dir = ⟨false, t⟩) (ht : ['.', '.'] ∉ t) :
    getDataFile w name dir =
      if (w.fs (localDir w t ++ [name])).isSome then .ok ⟨true, localDir w t ++ [name]⟩
      else if (w.fs (packagedDir w t ++ [name])).isSome then .ok ⟨true, packagedDir w t ++ [name]⟩
      else .error .value := by
  have hname : ['.', '.'] ∉ [name] := by simpa using hn.dots.symm
  have hl : ['.', '.'] ∉ localDir w t ++ [name] := dots_notin_append (dots_notin_append hw.cwd_plain (dots_notin_data ht)) hname
  have hk : ['.', '.'] ∉ packagedDir w t ++ [name] :=
    dots_notin_append (dots_notin_append hw.pkg_plain (dots_notin_data ht)) hname
  unfold getDataFile
  rw [dataPath_eq hw hp ht, defaultDataPath_eq hw hp ht]
  simp only [firstExisting, parse_simple hn, Path.join, Bool.false_eq_true, if_false, pathExists, stat_plain hw.tree _ _ hk]
  by_cases hd : w.fs (localDir w t) = some .dir
  · rw [if_pos hd, stat_plain hw.tree _ _ hl]
  · rw [if_neg hd, stat_plain hw.tree _ _ hk]
    have : ¬ (w.fs (localDir w t ++ [name])).isSome = true := fun h => hd (hw.tree.parent _ _ h)
    rw [if_neg this]
    by_cases h : (w.fs (packagedDir w t ++ [name])).isSome = true <;> simp [h]

/-- **C72.** A file present in the local directory is the one returned. -/
theorem C72_local (w : World) (hw : OkWorld w) (name dir : List Char) (hn : SimpleName name) (hd : SimpleName dir)
    (h : w.fs (localDir w [dir] ++ [name]) ≠ none) :
    getDataFile w name dir = .ok ⟨true, localDir w [dir] ++ [name]⟩ := by
  rw [getDataFile_eq hw hn (parse_simple hd) (by simpa using hd.dots.symm), if_pos (Option.isSome_iff_ne_none.2 h)]

/-- **C72.** A file which is only in the package is found there, whether or not the local directory exists. -/
theorem C72_packaged (w : World) (hw : OkWorld w) (name dir : List Char) (hn : SimpleName name) (hd : SimpleName dir)
    (h : w.fs (localDir w [dir] ++ [name]) = none) (hp : w.fs (packagedDir w [dir] ++ [name]) ≠ none) :
    getDataFile w name dir = .ok ⟨true, packagedDir w [dir] ++ [name]⟩ := by
  rw [getDataFile_eq hw hn (parse_simple hd) (by simpa using hd.dots.symm), if_neg (by simp [h]),
    if_pos (Option.isSome_iff_ne_none.2 hp)]

/-- **C72.** A file in neither directory: ValueError. -/
theorem C72_missing (w : World) (hw : OkWorld w) (name dir : List Char) (hn : SimpleName name) (hd : SimpleName dir)
    (h : w.fs (localDir w [dir] ++ [name]) = none) (hp : w.fs (packagedDir w [dir] ++ [name]) = none) :
    getDataFile w name dir = .error .value := by
  rw [getDataFile_eq hw hn (parse_simple hd) (by simpa using hd.dots.symm), if_neg (by simp [h]), if_neg (by simp [hp])]

/-- **C72.** An absolute file name is not searched in the data directories at all. -/
theorem C72_absolute (w : World) (name dir : List Char) :
    getDataFile w ('/' :: name) dir =
      if (stat w.fs w.cwd (.parse ('/' :: name))).isSome then .ok (.parse ('/' :: name)) else .error .value := by
  have habs : (Path.parse ('/' :: name)).abs = true := rfl
  have hj : ∀ d : Path, d.join (.parse ('/' :: name)) = .parse ('/' :: name) := fun d => by
    unfold Path.join
    rw [habs, if_pos rfl]
  unfold getDataFile
  simp only [firstExisting, hj, pathExists]
  by_cases h : (stat w.fs w.cwd (Path.parse ('/' :: name))).isSome = true <;> simp [h]

/-- **C72.** The data directory is the local one exactly when there is such a directory. -/
theorem C72_data_path (w : World) (hw : OkWorld w) (dir : List Char) (hd : SimpleName dir) :
    dataPath w dir = ⟨true, if w.fs (localDir w [dir]) = some .dir then localDir w [dir] else packagedDir w [dir]⟩ :=
  dataPath_eq hw (parse_simple hd) (by simpa using hd.dots.symm)

/-- The names under `data` the two commands deal with. -/
def cmdTarget : PathCmd → List Name
  | .base => []
  | .metronix => [metronixDataPath]

theorem metronix_simple : SimpleName metronixDataPath := ⟨by decide, by decide, by decide, by decide⟩

def cmdArg : PathCmd → List Char
  | .base => []
  | .metronix => metronixDataPath

theorem cmdArg_parse (c : PathCmd) : Path.parse (cmdArg c) = ⟨false, cmdTarget c⟩ := by
  cases c
  · rfl
  · exact parse_simple metronix_simple

theorem cmdTarget_plain (c : PathCmd) : ['.', '.'] ∉ cmdTarget c := by
  cases c <;> decide

theorem runPath_eq (w : World) (create : Bool) (c : PathCmd) : runPath w create c = pathAction w create (cmdArg c) := by
  cases c <;> rfl

theorem localDir_plain {w : World} (hw : OkWorld w) (c : PathCmd) : ['.', '.'] ∉ localDir w (cmdTarget c) :=
  dots_notin_append hw.cwd_plain (dots_notin_data (cmdTarget_plain c))

theorem joinSlash_cons (w : Name) (ws : List Name) : '/' :: PathTags.joinSlash (w :: ws) = (w :: ws).flatMap ('/' :: ·) := by
  induction ws generalizing w with
  | nil => simp [PathTags.joinSlash]
  | cons v vs ih =>
    rw [List.flatMap_cons, ← ih]
    rfl

/-- **C76.** What is written for a location is a slash before every name, and it is read back as the same path. -/
theorem C76_text (ps : List Name) (hne : ps ≠ []) :
    Path.str ⟨true, ps⟩ = ps.flatMap ('/' :: ·) ∧
    ((∀ n ∈ ps, '/' ∉ n ∧ n ≠ [] ∧ n ≠ ['.']) → Path.parse (Path.str ⟨true, ps⟩) = ⟨true, ps⟩) := by
  obtain ⟨w, ws, rfl⟩ := List.exists_cons_of_ne_nil hne
  refine ⟨(if_pos rfl).trans (joinSlash_cons w ws), fun h => ?_⟩
  have e : Path.str ⟨true, w :: ws⟩ = '/' :: PathTags.joinSlash (w :: ws) := if_pos rfl
  have hs : PathTags.splitSlash ('/' :: PathTags.joinSlash (w :: ws)) = [] :: w :: ws := by
    rw [PathTags.splitSlash, if_pos rfl, PathTags.splitSlash_join hne (fun n hn => (h n hn).1)]
  rw [e]
  unfold Path.parse
  rw [hs]
  have hf : ([] :: w :: ws).filter (fun w => w ≠ [] ∧ w ≠ ['.']) = w :: ws := by
    rw [List.filter_cons_of_neg (by simp), List.filter_eq_self]
    intro n hn
    simpa using (h n hn).2
  rw [hf]
  rfl

/-- **C76.** Without `-c` nothing changes and the data directory is printed. -/
theorem C76_no_create (w : World) (hw : OkWorld w) (c : PathCmd) :
    runPath w false c = (w.fs, .ok (Path.str ⟨true,
      if w.fs (localDir w (cmdTarget c)) = some .dir then localDir w (cmdTarget c) else packagedDir w (cmdTarget c)⟩)) := by
  rw [runPath_eq, pathAction, ← dataPath_eq hw (cmdArg_parse c) (cmdTarget_plain c)]
  rfl

theorem runPath_create {w : World} (hw : OkWorld w) (c : PathCmd) :
    runPath w true c =
      if (w.fs (localDir w (cmdTarget c))).isSome then
        (w.fs, .ok (Path.str ⟨true, localDir w (cmdTarget c)⟩ ++ " already exists".toList))
      else
        match mkdirParents w.fs w.cwd false (localDir w (cmdTarget c)).reverse with
        | (fs', .error _) => (fs', .error .os)
        | (fs', .ok ()) => (fs', .ok (Path.str ⟨true, localDir w (cmdTarget c)⟩ ++ " created".toList)) := by
  rw [runPath_eq, pathAction, if_neg (by simp)]
  simp only [localDataPath_eq (cmdArg_parse c) (cmdTarget_plain c), pathExists,
    stat_plain hw.tree _ _ (localDir_plain hw c)]
  rfl

/-- **C76.** `-c` leaves everything as it is when the location is already taken. -/
theorem C76_present (w : World) (hw : OkWorld w) (c : PathCmd) (h : w.fs (localDir w (cmdTarget c)) ≠ none) :
    runPath w true c = (w.fs, .ok (Path.str ⟨true, localDir w (cmdTarget c)⟩ ++ " already exists".toList)) := by
  rw [runPath_create hw, if_pos (Option.isSome_iff_ne_none.2 h)]

/-- **C76.** `-c` creates a missing directory, with those on the way to it, and changes nothing else. -/
theorem C76_missing (w : World) (hw : OkWorld w) (c : PathCmd) (h : w.fs (localDir w (cmdTarget c)) = none)
    (hf : ∀ t, w.fs (w.cwd ++ [dataName]) ≠ some (.file t)) :
    ∃ fs', runPath w true c = (fs', .ok (Path.str ⟨true, localDir w (cmdTarget c)⟩ ++ " created".toList)) ∧
      WithDirs w.fs fs' (localDir w (cmdTarget c)) := by
  rw [runPath_create hw, if_neg (by simp [h])]
  have hno : ∀ q, q <+: localDir w (cmdTarget c) → ∀ t, w.fs q ≠ some (.file t) := by
    intro q hq t ht
    have hlt : q ≠ localDir w (cmdTarget c) := by rintro rfl; rw [h] at ht; simp at ht
    have hcd : q <+: w.cwd ++ [dataName] := by
      cases c with
      | base => exact hq
      | metronix =>
        have e : localDir w (cmdTarget .metronix) = (w.cwd ++ [dataName]) ++ [metronixDataPath] := by
          simp [localDir, cmdTarget]
        rw [e] at hq hlt
        rw [List.prefix_concat_iff] at hq
        rcases hq with hq | hq
        · exact absurd hq hlt
        · exact hq
    rw [List.prefix_concat_iff] at hcd
    rcases hcd with hcd | hcd
    · rw [hcd] at ht
      exact hf t ht
    · by_cases e : q = w.cwd
      · rw [e, hw.cwd] at ht; simp at ht
      · have := hw.tree.of_prefix hcd e (by rw [hw.cwd]; rfl)
        rw [ht] at this; simp at this
  have hplain : ['.', '.'] ∉ (localDir w (cmdTarget c)).reverse := by
    rw [List.mem_reverse]; exact localDir_plain hw c
  have := (mkdirParents_spec hw.tree w.cwd _ false hplain).1 (by rwa [List.reverse_reverse])
    (.inr (by rwa [List.reverse_reverse]))
  rw [this, List.reverse_reverse]
  exact ⟨_, rfl, fun q => rfl⟩

/-- **C76.** A file called `data` in the way: OSError, and nothing changes. -/
theorem C76_blocked (w : World) (hw : OkWorld w) (t : List Char) (hf : w.fs (w.cwd ++ [dataName]) = some (.file t)) :
    runPath w true .metronix = (w.fs, .error .os) := by
  have e : localDir w (cmdTarget .metronix) = (w.cwd ++ [dataName]) ++ [metronixDataPath] := by
    simp [localDir, cmdTarget]
  have h : w.fs (localDir w (cmdTarget .metronix)) = none := by
    cases hs : w.fs (localDir w (cmdTarget .metronix)) with
    | none => rfl
    | some nd =>
      have := hw.tree.parent (w.cwd ++ [dataName]) metronixDataPath (by rw [← e, hs]; rfl)
      rw [hf] at this; simp at this
  rw [runPath_create hw, if_neg (by simp [h])]
  have hplain : ['.', '.'] ∉ (localDir w (cmdTarget .metronix)).reverse := by
    rw [List.mem_reverse]; exact localDir_plain hw .metronix
  obtain ⟨err, he⟩ := (mkdirParents_spec hw.tree w.cwd _ false hplain).2
    ⟨w.cwd ++ [dataName], t, by rw [List.reverse_reverse, e]; exact List.prefix_append _ _, hf⟩
  rw [he]

/-- **C76.** Nothing that is there is ever changed, whatever the state, the target and the options. -/
theorem C76_never_destroys (w : World) (create : Bool) (c : PathCmd) (q : List Name) (h : w.fs q ≠ none) :
    (runPath w create c).1 q = w.fs q := by
  rw [runPath_eq, pathAction]
  cases create with
  | false => rfl
  | true =>
    rw [if_neg (by simp)]
    dsimp only
    by_cases hx : pathExists w.fs w.cwd (localDataPath w (cmdArg c)) = true
    · rw [if_pos hx]
    · rw [if_neg hx]
      have := mkdirParents_keeps w.cwd q (localDataPath w (cmdArg c)).parts.reverse w.fs false (Option.isSome_iff_ne_none.2 h)
      split
      · next h1 => rw [h1] at this; exact this
      · next h1 => rw [h1] at this; exact this

/-- The three possible courses of `rzb path -c`. -/
theorem create_cases (w : World) (hw : OkWorld w) (c : PathCmd) :
    (w.fs (localDir w (cmdTarget c)) ≠ none) ∨
    (w.fs (localDir w (cmdTarget c)) = none ∧ ∀ t, w.fs (w.cwd ++ [dataName]) ≠ some (.file t)) ∨
    (c = .metronix ∧ ∃ t, w.fs (w.cwd ++ [dataName]) = some (.file t)) := by
  by_cases h : w.fs (localDir w (cmdTarget c)) = none
  · right
    by_cases hf : ∀ t, w.fs (w.cwd ++ [dataName]) ≠ some (.file t)
    · exact .inl ⟨h, hf⟩
    · push Not at hf
      right
      cases c with
      | metronix => exact ⟨rfl, hf⟩
      | base =>
        obtain ⟨t, ht⟩ := hf
        have : localDir w (cmdTarget .base) = w.cwd ++ [dataName] := rfl
        rw [this, ht] at h
        simp at h
  · exact .inl h

/-- **C76.** The files still form a tree, with the same current directory. -/
theorem C76_ok (w : World) (hw : OkWorld w) (create : Bool) (c : PathCmd) :
    OkWorld { w with fs := (runPath w create c).1 } := by
  have hcwd : ∀ fs', fs' = (runPath w create c).1 → fs' w.cwd = some .dir := by
    rintro fs' rfl
    rw [C76_never_destroys w create c w.cwd (by rw [hw.cwd]; simp), hw.cwd]
  refine ⟨?_, hcwd _ rfl, hw.cwd_plain, hw.pkg_plain⟩
  show Tree (runPath w create c).1
  cases create with
  | false => rw [C76_no_create w hw c]; exact hw.tree
  | true =>
    rcases create_cases w hw c with h | ⟨h, hf⟩ | ⟨rfl, t, ht⟩
    · rw [C76_present w hw c h]; exact hw.tree
    · obtain ⟨fs', h1, h2⟩ := C76_missing w hw c h hf
      rw [h1]
      have : fs' = fill w.fs (localDir w (cmdTarget c)) := funext h2
      rw [this]
      refine fill_tree hw.tree ?_
      intro q hq t ht
      have hk := C76_never_destroys w true c q (by rw [ht]; simp)
      by_cases e : q = localDir w (cmdTarget c)
      · rw [e, h] at ht; simp at ht
      · have hd : localDir w (cmdTarget c) = (w.cwd ++ [dataName]) ++ cmdTarget c := by simp [localDir]
        have hql : q <+: w.cwd ++ [dataName] := by
          cases c with
          | base => exact hq
          | metronix =>
            rw [hd] at hq e
            have hq' : q <+: (w.cwd ++ [dataName]) ++ [metronixDataPath] := hq
            rw [List.prefix_concat_iff] at hq'
            rcases hq' with hq' | hq'
            · exact absurd hq' e
            · exact hq'
        rw [List.prefix_concat_iff] at hql
        rcases hql with hql | hql
        · rw [hql] at ht; exact hf t ht
        · by_cases e2 : q = w.cwd
          · rw [e2, hw.cwd] at ht; simp at ht
          · have := hw.tree.of_prefix hql e2 (by rw [hw.cwd]; rfl)
            rw [ht] at this; simp at this
    · rw [C76_blocked w hw t ht]; exact hw.tree

/-- **C76.** Running the command twice leaves the files as running it once. -/
theorem C76_idempotent (w : World) (hw : OkWorld w) (create : Bool) (c : PathCmd) :
    (runPath { w with fs := (runPath w create c).1 } create c).1 = (runPath w create c).1 := by
  have hw' := C76_ok w hw create c
  cases create with
  | false => rw [C76_no_create _ hw' c]
  | true =>
    rcases create_cases w hw c with h | ⟨h, hf⟩ | ⟨rfl, t, ht⟩
    · have e := C76_present w hw c h
      rw [e] at hw' ⊢
      exact (congrArg Prod.fst e)
    · obtain ⟨fs', h1, h2⟩ := C76_missing w hw c h hf
      rw [h1] at hw' ⊢
      have hp := C76_present _ hw' c (by
        show fs' (localDir w (cmdTarget c)) ≠ none
        rw [h2, if_pos ⟨h, List.prefix_refl _⟩]; simp)
      rw [hp]
    · have e := C76_blocked w hw t ht
      rw [e]
      exact congrArg Prod.fst e

/-- **C76.** After `-c` has succeeded the data directory is the local one, unless the location is taken by a file. -/
theorem C76_after (w : World) (hw : OkWorld w) (c : PathCmd) (hf : ∀ t, w.fs (localDir w (cmdTarget c)) ≠ some (.file t))
    (line : List Char) (h : (runPath w true c).2 = .ok line) :
    (runPath { w with fs := (runPath w true c).1 } false c).2 = .ok (Path.str ⟨true, localDir w (cmdTarget c)⟩) := by
  have hw' := C76_ok w hw true c
  rw [C76_no_create _ hw' c]
  have : (runPath w true c).1 (localDir w (cmdTarget c)) = some .dir := by
    rcases create_cases w hw c with h1 | ⟨h1, h2⟩ | ⟨rfl, t, ht⟩
    · rw [C76_present w hw c h1]
      cases hs : w.fs (localDir w (cmdTarget c)) with
      | none => exact absurd hs h1
      | some nd =>
        cases nd with
        | dir => exact hs
        | file t => exact absurd hs (hf t)
    · obtain ⟨fs', h3, h4⟩ := C76_missing w hw c h1 h2
      rw [h3]
      show fs' _ = _
      rw [h4, if_pos ⟨h1, List.prefix_refl _⟩]
    · rw [C76_blocked w hw t ht] at h
      simp at h
  dsimp only
  have hl : localDir { w with fs := (runPath w true c).1 } (cmdTarget c) = localDir w (cmdTarget c) := rfl
  rw [hl, if_pos this]

/-- **C76.** When the location is taken by a file, the command reports that it exists, and the data directory remains
the one of the package. -/
theorem C76_taken (w : World) (hw : OkWorld w) (c : PathCmd) (t : List Char)
    (h : w.fs (localDir w (cmdTarget c)) = some (.file t)) :
    runPath w true c = (w.fs, .ok (Path.str ⟨true, localDir w (cmdTarget c)⟩ ++ " already exists".toList)) ∧
    runPath w false c = (w.fs, .ok (Path.str ⟨true, packagedDir w (cmdTarget c)⟩)) := by
  refine ⟨C76_present w hw c (by rw [h]; simp), ?_⟩
  rw [C76_no_create w hw c, if_neg (by rw [h]; simp)]

/-- **C76.** Creating the local directory does not hide the files of the package: they are found as before. -/
theorem C76_files_kept (w : World) (hw : OkWorld w) (create : Bool) (c : PathCmd) (name dir : List Char) (hn : SimpleName name)
    (hd : SimpleName dir) (h1 : name ≠ dataName) (h2 : name ≠ metronixDataPath) :
    getDataFile { w with fs := (runPath w create c).1 } name dir = getDataFile w name dir := by
  have hw' := C76_ok w hw create c
  have key : ∀ q : List Name, (runPath w create c).1 (q ++ [name]) = w.fs (q ++ [name]) := by
    intro q
    cases create with
    | false => rw [C76_no_create w hw c]
    | true =>
      rcases create_cases w hw c with h | ⟨h, hf⟩ | ⟨rfl, t, ht⟩
      · rw [C76_present w hw c h]
      · obtain ⟨fs', h3, h4⟩ := C76_missing w hw c h hf
        rw [h3]
        show fs' _ = _
        rw [h4, if_neg]
        rintro ⟨hnone, hpre⟩
        have hd : localDir w (cmdTarget c) = (w.cwd ++ [dataName]) ++ cmdTarget c := by simp [localDir]
        have hql : q ++ [name] <+: w.cwd ++ [dataName] := by
          cases c with
          | base => exact hpre
          | metronix =>
            rw [hd] at hpre
            have hq' : q ++ [name] <+: (w.cwd ++ [dataName]) ++ [metronixDataPath] := hpre
            rw [List.prefix_concat_iff] at hq'
            rcases hq' with hq' | hq'
            · have := (List.append_inj' hq' rfl).2
              simp at this
              exact absurd this h2
            · exact hq'
        rw [List.prefix_concat_iff] at hql
        rcases hql with hql | hql
        · have := (List.append_inj' hql rfl).2
          simp at this
          exact h1 this
        · by_cases e : q ++ [name] = w.cwd
          · rw [e, hw.cwd] at hnone; simp at hnone
          · have := hw.tree.of_prefix hql e (by rw [hw.cwd]; rfl)
            rw [hnone] at this; simp at this
      · rw [C76_blocked w hw t ht]
  rw [getDataFile_eq hw' hn (parse_simple hd) (by simpa using hd.dots.symm),
    getDataFile_eq hw hn (parse_simple hd) (by simpa using hd.dots.symm)]
  have e1 : localDir { w with fs := (runPath w create c).1 } [dir] = localDir w [dir] := rfl
  have e2 : packagedDir { w with fs := (runPath w create c).1 } [dir] = packagedDir w [dir] := rfl
  rw [e1, e2]
  simp only [key]

/-! ### Commands -/

theorem le_names_trans (a b c : String) : decide (a ≤ b) = true → decide (b ≤ c) = true → decide (a ≤ c) = true := by
  simp only [decide_eq_true_eq]
  exact String.le_trans

theorem le_names_total (a b : String) : (decide (a ≤ b) || decide (b ≤ a)) = true := by
  simp only [Bool.or_eq_true, decide_eq_true_eq]
  exact String.le_total a b

/-- **C76.** The commands listed: in increasing order, each once, exactly those of the program and of the plugins. -/
theorem C76_list {β : Type} (o : SetOrder) (ho : SetOrder.OK o) (commands extra : Dict (Cmd β)) :
    (listCommands o commands extra).Pairwise (· ≤ ·) ∧ (listCommands o commands extra).Nodup ∧
    ∀ n, n ∈ listCommands o commands extra ↔ (n ∈ commands.map Prod.fst ∨ n ∈ extra.map Prod.fst) := by
  unfold listCommands sortedNames
  refine ⟨?_, ?_, ?_⟩
  · have := List.pairwise_mergeSort (le := fun a b : String => decide (a ≤ b)) le_names_trans le_names_total
      (Inventory.setOf o ((List.mergeSort commands.keys fun a b => decide (a ≤ b)) ++ extra.keys))
    exact this.imp (fun h => by simpa using h)
  · rw [(List.mergeSort_perm _ _).nodup_iff]
    exact Inventory.setOf_nodup ho _
  · intro n
    rw [(List.mergeSort_perm _ _).mem_iff, Inventory.mem_setOf ho, List.mem_append, (List.mergeSort_perm _ _).mem_iff]
    rfl

/-- **C76.** The list does not depend on the order of sets. -/
theorem C76_list_order {β : Type} (o o' : SetOrder) (ho : SetOrder.OK o) (ho' : SetOrder.OK o') (commands extra : Dict (Cmd β)) :
    listCommands o commands extra = listCommands o' commands extra := by
  obtain ⟨h1, h2, h3⟩ := C76_list o ho commands extra
  obtain ⟨k1, k2, k3⟩ := C76_list o' ho' commands extra
  refine List.Perm.eq_of_pairwise (le := (· ≤ ·)) (fun a b _ _ => String.le_antisymm) h1 k1 ?_
  exact (List.perm_ext_iff_of_nodup h2 k2).2 (fun n => by rw [h3, k3])

theorem extraCommands_get {β : Type} (entries : List (String × Cmd β)) (n : String) (d : Dict (Cmd β)) :
    (entries.foldl (fun d e => d.set e.1 e.2) d).get? n =
      match (entries.filter (fun e => e.1 = n)).getLast? with
      | some e => some e.2
      | none => d.get? n := by
  induction entries generalizing d with
  | nil => rfl
  | cons e entries ih =>
    rw [List.foldl_cons, ih]
    by_cases he : e.1 = n
    · rw [List.filter_cons_of_pos (by simpa using he)]
      cases hl : (entries.filter (fun e => e.1 = n)) with
      | nil => simp [Dict.get?_set, he]
      | cons x l =>
        rw [List.getLast?_cons_cons, List.getLast?_eq_some_getLast (by simp)]
    · rw [List.filter_cons_of_neg (by simpa using he)]
      cases hl : (entries.filter (fun e => e.1 = n)).getLast? with
      | none =>
        dsimp only
        rw [Dict.get?_set, if_neg he]
      | some x => rfl

/-- **C76.** A plugin command (the last one loaded with that name) is the one run, even when the program has a command of that
name. -/
theorem C76_plugin_first {β : Type} (commands : Dict (Cmd β)) (entries : List (String × Cmd β)) (n : String) (c : Cmd β)
    (h : (entries.filter (fun e => e.1 = n)).getLast? = some (n, c)) (ht : c.truthy = true) :
    getCommand commands (extraCommands entries) n = some c := by
  unfold getCommand extraCommands
  rw [extraCommands_get, h]
  dsimp only
  rw [if_pos ht]

/-- **C76.** Without a plugin of that name, the command of the program is run. -/
theorem C76_builtin {β : Type} (commands : Dict (Cmd β)) (entries : List (String × Cmd β)) (n : String)
    (h : ∀ e ∈ entries, e.1 ≠ n) : getCommand commands (extraCommands entries) n = commands.get? n := by
  unfold getCommand extraCommands
  rw [extraCommands_get]
  have : entries.filter (fun e => e.1 = n) = [] := by
    rw [List.filter_eq_nil_iff]
    simpa using h
  rw [this]
  rfl

/-- **C76.** A name can be run exactly when it is listed. -/
theorem C76_listed {β : Type} (o : SetOrder) (ho : SetOrder.OK o) (commands : Dict (Cmd β)) (entries : List (String × Cmd β))
    (ht : ∀ e ∈ entries, e.2.truthy = true) (n : String) :
    n ∈ listCommands o commands (extraCommands entries) ↔ (getCommand commands (extraCommands entries) n).isSome := by
  rw [(C76_list o ho commands _).2.2]
  have hk : ∀ d : Dict (Cmd β), n ∈ d.map Prod.fst ↔ (d.get? n).isSome := by
    intro d
    induction d with
    | nil => simp [Dict.get?]
    | cons e d ih =>
      obtain ⟨k, v⟩ := e
      rw [List.map_cons, List.mem_cons, ih, Dict.get?]
      by_cases hkn : k = n
      · simp [hkn]
      · rw [if_neg hkn]
        exact ⟨fun h => h.resolve_left (fun h => hkn h.symm), .inr⟩
  rw [hk, hk]
  unfold getCommand
  cases he : (extraCommands entries).get? n with
  | none => simp
  | some c =>
    have : c.truthy = true := by
      unfold extraCommands at he
      rw [extraCommands_get] at he
      cases hl : (entries.filter (fun e => e.1 = n)).getLast? with
      | none => rw [hl] at he; simp [Dict.get?] at he
      | some x =>
        rw [hl] at he
        injection he with he
        rw [← he]
        have := List.mem_of_getLast? hl
        exact ht x (List.mem_of_mem_filter this)
    simp [this]

/-! ### Examples -/

def fsOf (table : List (List Name × Node)) : Fs := fun q => (table.find? (fun e => e.1 = q)).map Prod.snd

theorem fsOf_tree (table : List (List Name × Node)) (hr : fsOf table [] = some .dir)
    (h : ∀ e ∈ table, e.1 = [] ∨ fsOf table e.1.dropLast = some .dir) : Tree (fsOf table) where
  root := hr
  parent := by
    intro p w hs
    unfold fsOf at hs
    rw [Option.isSome_map] at hs
    obtain ⟨e, he⟩ := Option.isSome_iff_exists.1 hs
    have hm := List.mem_of_find?_eq_some he
    have hp := List.find?_some he
    have e1 : e.1 = p ++ [w] := by simpa using hp
    rcases h e hm with h0 | h0
    · rw [e1] at h0; simp at h0
    · rwa [e1, List.dropLast_concat] at h0

/-- A packaged calibration file `a`, the current directory `/h`. -/
def exTable : List (List Name × Node) :=
  [([], .dir), ([['h']], .dir), ([['p']], .dir), ([['p'], dataName], .dir), ([['p'], dataName, metronixDataPath], .dir),
    ([['p'], dataName, metronixDataPath, ['a']], .file []), ([['h'], ['n']], .file [])]

def exWorld : World := ⟨fsOf exTable, [['h']], [['p']]⟩

theorem exWorld_ok : OkWorld exWorld :=
  ⟨fsOf_tree _ (by decide) (by decide), by decide, by decide, by decide⟩

/-- The same with a local file `a`. -/
def exWorld2 : World := ⟨fsOf (exTable ++ [([['h'], dataName], .dir), ([['h'], dataName, metronixDataPath], .dir),
  ([['h'], dataName, metronixDataPath, ['a']], .file [])]), [['h']], [['p']]⟩

theorem exWorld2_ok : OkWorld exWorld2 :=
  ⟨fsOf_tree _ (by decide) (by decide), by decide, by decide, by decide⟩

/-- The same with a file called `data`. -/
def exWorld3 : World := ⟨fsOf (exTable ++ [([['h'], dataName], .file [])]), [['h']], [['p']]⟩

theorem exWorld3_ok : OkWorld exWorld3 :=
  ⟨fsOf_tree _ (by decide) (by decide), by decide, by decide, by decide⟩

theorem simple_a : SimpleName ['a'] := ⟨by decide, by decide, by decide, by decide⟩

example : getDataFile exWorld ['a'] metronixDataPath = .ok ⟨true, [['p'], dataName, metronixDataPath, ['a']]⟩ :=
  C72_packaged exWorld exWorld_ok _ _ simple_a metronix_simple (by decide) (by decide)

example : getDataFile exWorld2 ['a'] metronixDataPath = .ok ⟨true, [['h'], dataName, metronixDataPath, ['a']]⟩ :=
  C72_local exWorld2 exWorld2_ok _ _ simple_a metronix_simple (by decide)

example : getDataFile exWorld2 ['b'] metronixDataPath = .error .value :=
  C72_missing exWorld2 exWorld2_ok _ _ ⟨by decide, by decide, by decide, by decide⟩ metronix_simple (by decide) (by decide)

example : Path.parse (Path.str ⟨true, [['h'], dataName]⟩) = ⟨true, [['h'], dataName]⟩ :=
  (C76_text _ (by decide)).2 (by decide)

example : ∃ fs', runPath exWorld true .metronix =
      (fs', .ok (Path.str ⟨true, [['h'], dataName, metronixDataPath]⟩ ++ " created".toList)) ∧
    fs' [['h'], dataName] = some .dir ∧ fs' [['h'], dataName, metronixDataPath] = some .dir ∧ fs' [['h'], ['n']] = some (.file []) := by
  obtain ⟨fs', h1, h2⟩ := C76_missing exWorld exWorld_ok .metronix (by decide) (by
    intro t
    have : exWorld.fs (exWorld.cwd ++ [dataName]) = none := by decide
    rw [this]
    simp)
  refine ⟨fs', h1, ?_, ?_, ?_⟩
  · rw [h2, if_pos (by decide)]
  · rw [h2, if_pos (by decide)]
  · rw [h2, if_neg (by decide)]
    decide

example : runPath exWorld3 true .metronix = (exWorld3.fs, .error .os) :=
  C76_blocked exWorld3 exWorld3_ok [] (by decide)

example : (runPath exWorld3 true .base).2 = .ok "/h/data already exists".toList ∧
    (runPath exWorld3 false .base).2 = .ok "/p/data".toList := by
  obtain ⟨h1, h2⟩ := C76_taken exWorld3 exWorld3_ok .base [] (by decide)
  rw [h1, h2]
  exact ⟨by decide, by decide⟩

example : (entriesEx : List (String × Cmd Nat)) → entriesEx = [("path", ⟨7, true⟩)] →
    getCommand [("path", ⟨1, true⟩), ("version", ⟨2, true⟩)] (extraCommands entriesEx) "path" = some ⟨7, true⟩ := by
  rintro _ rfl
  exact C76_plugin_first _ _ _ _ (by simp) rfl

end Razorback.Props
