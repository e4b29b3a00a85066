/-
C73, C74 (metronix calibrations) and C75 (phoenix calibrations).
-/
import Verif.Lemmas.Calib
import Verif.Props.DataPath

namespace Razorback.Props
open Razorback.Spec Razorback.Data Razorback.Calib
open Complex (I)

variable {num : List Char → Option ℚ} {w : World} {filename : List Char} {rate : ℚ} {limit : Option ℚ}
  {version : Option (List Char → Option (List Char))} {am : Option (List (List Char × ℚ))} {rows : List (List ℚ)} {alpha : ℚ}
  {g : ℚ → Except Err (Option ℂ)}

/-! ### C73 -/

/-- **C73.** The characters that separate words and make lines blank are the white space ones. -/
theorem C73_spaces (c : Char) : isSpace c = true ↔ c.toNat ∈ whiteCodes := by
  unfold isSpace whiteCodes
  generalize c.toNat = n
  simp only [Bool.or_eq_true, Bool.and_eq_true, decide_eq_true_eq, beq_iff_eq, List.mem_cons, List.not_mem_nil, or_false]
  omega

/-- **C73.** `metronix` gives a calibration exactly when the file exists, is a text with the section asked for (the one with
the chopper on if and only if the rate is at most the limit, 512 by default), the table of this section has at least two
rows and three columns, and the name of the file has a known version. -/
theorem C73_iff (num : List Char → Option ℚ) (w : World) (filename : List Char) (rate : ℚ) (limit : Option ℚ)
    (version : Option (List Char → Option (List Char))) (am : Option (List (List Char × ℚ))) :
    (∃ g, metronix num w filename rate limit version am = .ok g) ↔
      ∃ rows alpha, Calibrated num w filename rate (limit.getD 512) (version.getD lastVersion)
        (am.getD [("MFS06".toList, 4), ("MFS07".toList, 32)]) rows alpha := by
  constructor
  · rintro ⟨g, h⟩
    exact metronix_only h
  · rintro ⟨rows, alpha, h⟩
    exact ⟨_, metronix_of h⟩

/-- **C73.** The rows read, and the parameter of the sensor, are determined by the file. -/
theorem C73_unique {limit : ℚ} {version : List Char → Option (List Char)} {am : List (List Char × ℚ)}
    {rows rows' : List (List ℚ)} {alpha alpha' : ℚ} (h : Calibrated num w filename rate limit version am rows alpha)
    (h' : Calibrated num w filename rate limit version am rows' alpha') : rows = rows' ∧ alpha = alpha' := by
  obtain ⟨p, text, name, v, h1, h2, h3, hn, h4, h5⟩ := h.file
  obtain ⟨p', text', name', v', k1, k2, k3, kn, k4, k5⟩ := h'.file
  rw [stemOf_iff] at hn kn
  subst hn kn
  rw [h1] at k1
  injection k1 with k1
  subst k1
  rw [h2] at k2
  injection k2 with k2
  injection k2 with k2
  subst k2
  obtain ⟨ss, a1, a2⟩ := metronixRows_iff.2 h3
  obtain ⟨ss', b1, b2⟩ := metronixRows_iff.2 k3
  rw [a1] at b1
  injection b1 with b1
  subst b1
  rw [a2] at b2
  rw [h4] at k4
  injection k4 with k4
  subst k4
  rw [h5] at k5
  exact ⟨by injection b2, by injection k5⟩

/-- **C73.** What is found is a directory: OSError. -/
theorem C73_directory (p : Path) (hp : getDataFile w filename metronixDataPath = .ok p)
    (h : ∀ t, stat w.fs w.cwd p ≠ some (.file t)) : metronix num w filename rate limit version am = .error .os := by
  have ho : openText w p = .error .os := by
    unfold openText
    split
    · rename_i t ht
      exact absurd ht (h t)
    · rfl
  unfold metronix
  rw [hp]
  dsimp only
  rw [ho]

/-- **C73.** Without a mark of the section: StopIteration. -/
theorem C73_no_section (p : Path) (text : List Char) (hp : getDataFile w filename metronixDataPath = .ok p)
    (ht : stat w.fs w.cwd p = some (.file text)) (lines : List (List Char)) (hl : LinesOf text lines)
    (h : ∀ l ∈ lines, ¬ Mark (decide (rate ≤ limit.getD 512)) l) :
    metronix num w filename rate limit version am = .error .stopIter := by
  have e : lines = readlines (universal text) := linesOf_iff.1 hl
  have hs : startStop (decide (rate ≤ limit.getD chopperOnLimit)) (readlines (universal text)) = .error .stopIter := by
    unfold startStop
    have : (readlines (universal text)).findIdx? (isMark (decide (rate ≤ limit.getD chopperOnLimit))) = none := by
      rw [List.findIdx?_eq_none_iff]
      intro l hl
      have := h l (e ▸ hl)
      rw [← isMark_iff, Bool.not_eq_true] at this
      exact this
    rw [this]
  unfold metronix
  rw [hp]
  dsimp only
  have ho : openText w p = .ok (universal text) := by
    unfold openText
    rw [ht]
  rw [ho]
  dsimp only
  rw [hs]

theorem loadtxt_error {fields : List Char → List (List Char)} {cols : Option Nat} {lines : List (List Char)} {e : Err}
    (h : loadtxt num fields cols lines = .error e) : e = .value := by
  have hnum : ∀ (ws : List (List Char)) (e : Err), mapE (toNum num) ws = .error e → e = .value := by
    intro ws e he
    obtain ⟨w, -, hw⟩ := mapE_error he
    unfold toNum at hw
    split at hw
    · simp at hw
    · simpa using hw.symm
  unfold loadtxt at h
  split at h
  · rename_i e' he'
    injection h with h
    subst h
    obtain ⟨fs, -, hfs⟩ := mapE_error he'
    unfold loadRow at hfs
    split at hfs
    · exact hnum _ _ hfs
    · split at hfs
      · simpa using hfs.symm
      · exact hnum _ _ hfs
  · simp at h
  · split at h
    · simp at h
    · simpa using h.symm

/-- **C73.** A section with a word which is not a number, or with lines of different lengths: ValueError. -/
theorem C73_bad_table (p : Path) (text : List Char) (hp : getDataFile w filename metronixDataPath = .ok p)
    (ht : stat w.fs w.cwd p = some (.file text)) (lines : List (List Char)) (hl : LinesOf text lines) (m : List Char)
    (hm : m ∈ lines) (hmark : Mark (decide (rate ≤ limit.getD 512)) m)
    (hr : ¬ ∃ rows, MetronixRows num text (decide (rate ≤ limit.getD 512)) rows) :
    metronix num w filename rate limit version am = .error .value := by
  have e : lines = readlines (universal text) := linesOf_iff.1 hl
  have hs : ∃ ss, startStop (decide (rate ≤ limit.getD chopperOnLimit)) (readlines (universal text)) = .ok ss := by
    unfold startStop
    split
    · rename_i hn
      rw [List.findIdx?_eq_none_iff] at hn
      have := hn m (e ▸ hm)
      rw [← Bool.not_eq_true, isMark_iff] at this
      exact absurd hmark this
    · exact ⟨_, rfl⟩
  obtain ⟨ss, hs⟩ := hs
  unfold metronix
  rw [hp]
  dsimp only
  have ho : openText w p = .ok (universal text) := by
    unfold openText
    rw [ht]
  rw [ho]
  dsimp only
  rw [hs]
  dsimp only
  cases hload : loadtxt num fieldsWs none (between (readlines (universal text)) ss) with
  | error e => rw [loadtxt_error hload]
  | ok rows => exact absurd ⟨rows, metronixRows_iff.1 ⟨ss, hs, hload⟩⟩ hr

/-- **C73.** The version of the sensor is not found in the name, or is not known: ValueError. -/
theorem C73_unknown_version (p : Path) (text : List Char) (hp : getDataFile w filename metronixDataPath = .ok p)
    (ht : stat w.fs w.cwd p = some (.file text)) (hr : MetronixRows num text (decide (rate ≤ limit.getD 512)) rows)
    (h2 : 2 ≤ rows.length) (h3 : ∀ r ∈ rows, 3 ≤ r.length)
    (name : List Char) (hn : StemOf p name) (hv : ∀ v, version.getD lastVersion name = some v →
      (am.getD [("MFS06".toList, 4), ("MFS07".toList, 32)]).lookup v = none) :
    metronix num w filename rate limit version am = .error .value := by
  rw [stemOf_iff] at hn
  subst hn
  obtain ⟨ss, k1, k2⟩ := metronixRows_iff.2 hr
  unfold metronix
  rw [hp]
  dsimp only
  have ho : openText w p = .ok (universal text) := by
    unfold openText
    rw [ht]
  rw [ho]
  dsimp only
  have k1' : startStop (decide (rate ≤ limit.getD chopperOnLimit)) (readlines (universal text)) = .ok ss := k1
  rw [k1']
  dsimp only
  rw [k2]
  dsimp only
  rw [calibration_eq h2 h3]
  cases hvs : version.getD lastVersion (stem p) with
  | none => rfl
  | some v =>
    dsimp only
    have : (am.getD alphaMapDefault).lookup v = none := hv v hvs
    rw [this]

theorem column_error {rows : List (List ℚ)} {k : Nat} {e : Err} (h : column rows k = .error e) : e = .index := by
  unfold column at h
  split at h
  · simpa using h.symm
  · split at h
    · simpa using h.symm
    · obtain ⟨r, -, hr⟩ := mapE_error h
      split at hr
      · simp at hr
      · simpa using hr.symm

/-- **C73.** A table of less than two rows, though complete, or of less than three columns: IndexError. -/
theorem C73_too_small (p : Path) (text : List Char) (hp : getDataFile w filename metronixDataPath = .ok p)
    (ht : stat w.fs w.cwd p = some (.file text)) (hr : MetronixRows num text (decide (rate ≤ limit.getD 512)) rows)
    (hs : rows.length < 2 ∨ ∃ r ∈ rows, r.length < 3) :
    metronix num w filename rate limit version am = .error .index := by
  obtain ⟨ss, k1, k2⟩ := metronixRows_iff.2 hr
  unfold metronix
  rw [hp]
  dsimp only
  have ho : openText w p = .ok (universal text) := by
    unfold openText
    rw [ht]
  rw [ho]
  dsimp only
  have k1' : startStop (decide (rate ≤ limit.getD chopperOnLimit)) (readlines (universal text)) = .ok ss := k1
  rw [k1']
  dsimp only
  rw [k2]
  dsimp only
  unfold calibration
  split
  · rename_i h2
    obtain ⟨h4, h5⟩ := column_only h2
    rcases hs with hs | ⟨r, hr, hlt⟩
    · omega
    · have := h5 r hr
      omega
  all_goals
    rename_i e _
    congr 1
    first
      | exact column_error (k := 0) (by assumption)
      | exact column_error (k := 1) (by assumption)
      | exact column_error (k := 2) (by assumption)

/-- **C73.** In particular a table of a single row raises. -/
theorem C73_single_row (p : Path) (text : List Char) (hp : getDataFile w filename metronixDataPath = .ok p)
    (ht : stat w.fs w.cwd p = some (.file text)) (row : List ℚ)
    (hr : MetronixRows num text (decide (rate ≤ limit.getD 512)) [row]) :
    metronix num w filename rate limit version am = .error .index :=
  C73_too_small p text hp ht hr (.inl (by simp))

/-- **C73.** The version found in a name by default. -/
theorem C73_version (name : List Char) (v : List Char) : lastVersion name = some v ↔ VersionOf name v := by
  have key : ∀ name : List Char,
      (∀ v, lastVersion name = some v → VersionOf name v) ∧
      (lastVersion name = none → ∀ a b x y, name.takeWhile (· ≠ '\n') = a ++ ['M', 'F', 'S', x, y] ++ b →
        ¬ (x.isDigit = true ∧ y.isDigit = true)) := by
    intro name
    induction name with
    | nil =>
      refine ⟨by simp [lastVersion], ?_⟩
      intro _ a b x y h
      simp at h
    | cons c l ih =>
      obtain ⟨ih1, ih2⟩ := ih
      by_cases hc : c = '\n'
      · have e : lastVersion (c :: l) = none := by rw [lastVersion, if_pos hc]
        rw [e]
        refine ⟨by simp, ?_⟩
        intro _ a b x y h
        simp [hc] at h
      · have ht : (c :: l).takeWhile (· ≠ '\n') = c :: l.takeWhile (· ≠ '\n') := by
          rw [List.takeWhile_cons_of_pos (by simpa using hc)]
        -- an occurrence in the tail
        have htail : ∀ a b x y, (c :: l).takeWhile (· ≠ '\n') = a ++ ['M', 'F', 'S', x, y] ++ b →
            (a = [] ∧ c = 'M' ∧ l.takeWhile (· ≠ '\n') = ['F', 'S', x, y] ++ b) ∨
            ∃ a', a = c :: a' ∧ l.takeWhile (· ≠ '\n') = a' ++ ['M', 'F', 'S', x, y] ++ b := by
          intro a b x y h
          rw [ht] at h
          cases a with
          | nil =>
            left
            simp at h
            exact ⟨rfl, h.1, by simpa using h.2⟩
          | cons d a =>
            right
            rw [List.cons_append, List.cons_append] at h
            injection h with h1 h2
            exact ⟨a, by rw [h1], h2⟩
        rw [lastVersion, if_neg hc]
        cases hl : lastVersion l with
        | some v =>
          dsimp only
          refine ⟨?_, by simp⟩
          intro v' hv'
          injection hv' with hv'
          subst hv'
          obtain ⟨a, b, x, y, h1, h2, h3, h4, h5⟩ := ih1 v hl
          refine ⟨c :: a, b, x, y, by rw [ht, h1]; simp, h2, h3, h4, ?_⟩
          intro a' b' x' y' e ex ey
          rcases htail a' b' x' y' e with ⟨rfl, -, -⟩ | ⟨a'', rfl, e2⟩
          · simp
          · have := h5 a'' b' x' y' e2 ex ey
            simpa using this
        | none =>
          dsimp only
          have hno := ih2 hl
          have hmatch : ∀ v, versionAt (c :: l) = some v ↔ ∃ x y r, c :: l = ['M', 'F', 'S', x, y] ++ r ∧ v = ['M', 'F', 'S', x, y] ∧
                x.isDigit = true ∧ y.isDigit = true := by
            intro v
            unfold versionAt
            split
            · next a b r he =>
              constructor
              · intro h
                split at h
                · next hd =>
                  simp only [Bool.and_eq_true] at hd
                  injection h with h
                  exact ⟨a, b, r, by rw [he]; rfl, h.symm, hd.1, hd.2⟩
                · simp at h
              · rintro ⟨x, y, r', h1, h2, h3, h4⟩
                rw [he] at h1
                simp at h1
                obtain ⟨rfl, rfl, rfl⟩ := h1
                rw [if_pos (by simp [h3, h4]), h2]
            · next hno' =>
              constructor
              · simp
              · rintro ⟨x, y, r', h1, -⟩
                exact absurd h1 (hno' x y r')
          have hnl : ∀ x : Char, x.isDigit = true → x ≠ '\n' := by
            rintro x hx rfl
            exact absurd hx (by decide)
          refine ⟨?_, ?_⟩
          · intro v hv
            obtain ⟨x, y, r, h1, h2, h3, h4⟩ := (hmatch v).1 hv
            refine ⟨[], r.takeWhile (· ≠ '\n'), x, y, ?_, h2, h3, h4, ?_⟩
            · rw [h1, h2, List.takeWhile_append_of_pos]
              · rfl
              · intro z hz
                simp at hz
                have := hnl x h3
                have := hnl y h4
                rcases hz with rfl | rfl | rfl | rfl | rfl <;> simp [*]
            · intro a' b' x' y' e ex ey
              rcases htail a' b' x' y' e with ⟨rfl, -, -⟩ | ⟨a'', rfl, e2⟩
              · simp
              · exact absurd ⟨ex, ey⟩ (hno a'' b' x' y' e2)
          · intro hn a b x y e hd
            rcases htail a b x y e with ⟨rfl, h1, h2⟩ | ⟨a'', rfl, e2⟩
            · have hx : c :: l = ['M', 'F', 'S', x, y] ++ (b ++ l.dropWhile (· ≠ '\n')) := by
                have := List.takeWhile_append_dropWhile (p := (· ≠ '\n')) (l := l)
                rw [h2] at this
                rw [h1, ← List.append_assoc]
                simpa using this.symm
              have := (hmatch ['M', 'F', 'S', x, y]).2 ⟨x, y, _, hx, rfl, hd.1, hd.2⟩
              rw [this] at hn
              simp at hn
            · exact hno a'' b x y e2 hd
  constructor
  · exact (key name).1 v
  · intro hv
    cases hl : lastVersion name with
    | none =>
      obtain ⟨a, b, x, y, h1, h2, h3, h4, -⟩ := hv
      exact absurd ⟨h3, h4⟩ ((key name).2 hl a b x y (by rw [h1, h2]))
    | some v' =>
      obtain ⟨a, b, x, y, h1, h2, h3, h4, h5⟩ := hv
      obtain ⟨a', b', x', y', k1, k2, k3, k4, k5⟩ := (key name).1 v' hl
      have l1 := h5 a' b' x' y' (by rw [k1, k2]) k3 k4
      have l2 := k5 a b x y (by rw [h1, h2]) h3 h4
      rw [h1, List.append_assoc, List.append_assoc] at k1
      obtain ⟨-, e⟩ := List.append_inj k1 (by omega)
      obtain ⟨e, -⟩ := List.append_inj e (by rw [h2, k2]; rfl)
      rw [e]

/-! ### C74 -/

theorem row_getD {r : List ℚ} {k : Nat} {x : ℚ} (h : r[k]? = some x) : r.getD k 0 = x := by
  rw [List.getD_eq_getElem?_getD, h]
  rfl

theorem tablePoint_eq {r : List ℚ} {x m p : ℚ} (h0 : r[0]? = some x) (h1 : r[1]? = some m) (h2 : r[2]? = some p) :
    tablePoint r = (x, tabulated x m p) := by
  unfold tablePoint
  rw [row_getD h0, row_getD h1, row_getD h2, calMp_tabulated]

theorem tablePoint_fst {r : List ℚ} {x : ℚ} (h0 : r[0]? = some x) : (tablePoint r).1 = x := row_getD h0

theorem nodup_freq {rows : List (List ℚ)} (h3 : ∀ r ∈ rows, 3 ≤ r.length)
    (hd : rows.Pairwise (fun r r' => r[0]? ≠ r'[0]?)) : ((rows.map tablePoint).map Prod.fst).Nodup := by
  rw [List.map_map]
  refine List.pairwise_map.2 (List.Pairwise.imp_of_mem ?_ hd)
  intro r r' hr hr' hne e
  apply hne
  have l1 := h3 r hr
  have l2 := h3 r' hr'
  have e1 : r.getD 0 0 = r'.getD 0 0 := e
  rw [List.getD_eq_getElem?_getD, List.getD_eq_getElem?_getD] at e1
  rw [List.getElem?_eq_getElem (by omega), List.getElem?_eq_getElem (by omega)] at e1 ⊢
  simpa using e1

theorem metronix_high (h : Calibrated num w filename rate (limit.getD 512) (version.getD lastVersion)
    (am.getD [("MFS06".toList, 4), ("MFS07".toList, 32)]) rows alpha)
    (hg : metronix num w filename rate limit version am = .ok g) {f x0 : ℚ} (hx0 : (rows.headD [])[0]? = some x0)
    (hf : ¬ (f < x0 ∧ rate ≤ limit.getD 512)) : g f = evalInterp (interp1d (rows.map tablePoint)) f := by
  rw [metronix_of h] at hg
  injection hg with hg
  rw [← hg]
  dsimp only
  rw [row_getD hx0, if_neg]
  rw [Bool.and_eq_true, decide_eq_true_eq, decide_eq_true_eq]
  exact hf

/-- **C74.** A tabulated frequency has the tabulated value. -/
theorem C74_tabulated (h : Calibrated num w filename rate (limit.getD 512) (version.getD lastVersion)
    (am.getD [("MFS06".toList, 4), ("MFS07".toList, 32)]) rows alpha)
    (hg : metronix num w filename rate limit version am = .ok g) (hd : rows.Pairwise (fun r r' => r[0]? ≠ r'[0]?))
    (x0 : ℚ) (hx0 : (rows.headD [])[0]? = some x0) (r : List ℚ) (hr : r ∈ rows) (x m p : ℚ) (hx : r[0]? = some x)
    (hm : r[1]? = some m) (hp : r[2]? = some p) (hf : ¬ (x < x0 ∧ rate ≤ limit.getD 512)) :
    g x = .ok (some (tabulated x m p)) := by
  rw [metronix_high h hg hx0 hf]
  have hs := interp1d_strict (nodup_freq h.three hd)
  have hmem : (x, tabulated x m p) ∈ interp1d (rows.map tablePoint) := by
    rw [(interp1d_perm _).mem_iff, ← tablePoint_eq hx hm hp]
    exact List.mem_map_of_mem hr
  have := evalInterp_at hs (by rw [(interp1d_perm _).length_eq]; simpa using h.two) hmem
  exact this

/-- **C74.** Between neighbouring frequencies the value is on the straight line. -/
theorem C74_between (h : Calibrated num w filename rate (limit.getD 512) (version.getD lastVersion)
    (am.getD [("MFS06".toList, 4), ("MFS07".toList, 32)]) rows alpha)
    (hg : metronix num w filename rate limit version am = .ok g) (hd : rows.Pairwise (fun r r' => r[0]? ≠ r'[0]?))
    (x0 : ℚ) (hx0 : (rows.headD [])[0]? = some x0) (r r' : List ℚ) (hr : r ∈ rows) (hr' : r' ∈ rows) (x m p x' m' p' : ℚ)
    (hx : r[0]? = some x) (hm : r[1]? = some m) (hp : r[2]? = some p) (hx' : r'[0]? = some x') (hm' : r'[1]? = some m')
    (hp' : r'[2]? = some p') (hlt : x < x') (hno : ∀ s ∈ rows, ∀ z, s[0]? = some z → ¬ (x < z ∧ z < x')) (f : ℚ) (h1 : x ≤ f)
    (h2 : f ≤ x') (hf : ¬ (f < x0 ∧ rate ≤ limit.getD 512)) :
    g f = .ok (some (onLine x x' (tabulated x m p) (tabulated x' m' p') f)) := by
  rw [metronix_high h hg hx0 hf]
  have e := tablePoint_eq hx hm hp
  have e' := tablePoint_eq hx' hm' hp'
  refine evalInterp_neighbours (nodup_freq h.three hd) (a := (x, tabulated x m p)) (b := (x', tabulated x' m' p'))
    (e ▸ List.mem_map_of_mem hr) (e' ▸ List.mem_map_of_mem hr') hlt ?_ h1 h2
  intro c hc
  obtain ⟨s, hs, rfl⟩ := List.mem_map.1 hc
  have h3 := h.three s hs
  have hz : s[0]? = some (s[0]'(by omega)) := List.getElem?_eq_getElem _
  rw [tablePoint_fst hz]
  exact hno s hs _ hz

/-- **C74.** With the chopper on, strictly below the first frequency of the table: the module of the first row times the
frequency, with the phase of `f + i alpha`. -/
theorem C74_below (h : Calibrated num w filename rate (limit.getD 512) (version.getD lastVersion)
    (am.getD [("MFS06".toList, 4), ("MFS07".toList, 32)]) rows alpha)
    (hg : metronix num w filename rate limit version am = .ok g) (x0 m0 : ℚ) (hx0 : (rows.headD [])[0]? = some x0)
    (hm0 : (rows.headD [])[1]? = some m0) (hon : rate ≤ limit.getD 512) (f : ℚ) (hf : f < x0) (hne : f ≠ 0 ∨ alpha ≠ 0) :
    g f = .ok (some (((f * m0 : ℚ) : ℂ) * (((f : ℂ) + I * (alpha : ℂ)) / (‖(f : ℂ) + I * (alpha : ℂ)‖ : ℂ)))) := by
  rw [metronix_of h] at hg
  injection hg with hg
  rw [← hg]
  dsimp only
  rw [row_getD hx0, if_pos (by simpa using ⟨hf, hon⟩), row_getD hm0]
  congr 2
  unfold calMp angleDeg
  have hz : (f : ℂ) + I * (alpha : ℂ) ≠ 0 := by
    intro e
    have h1 := congrArg Complex.re e
    have h2 := congrArg Complex.im e
    simp at h1 h2
    rcases hne with hne | hne
    · exact hne h1
    · exact hne h2
  generalize (f : ℂ) + I * (alpha : ℂ) = z at hz
  have hpi : (Real.pi : ℂ) ≠ 0 := by exact_mod_cast Real.pi_ne_zero
  have harg : I * ((z.arg * (180 / Real.pi) : ℝ) : ℂ) * (Real.pi : ℂ) / 180 = (z.arg : ℂ) * I := by
    push_cast
    field_simp
  rw [harg]
  have hnz : (‖z‖ : ℂ) ≠ 0 := by
    exact_mod_cast (norm_ne_zero_iff.2 hz)
  have : Complex.exp ((z.arg : ℂ) * I) = z / (‖z‖ : ℂ) := by
    rw [eq_div_iff hnz, mul_comm]
    exact Complex.norm_mul_exp_arg_mul_I z
  rw [this]
  push_cast
  ring

/-- **C74.** Outside of the table, except below it with the chopper on, ValueError. -/
theorem C74_outside (h : Calibrated num w filename rate (limit.getD 512) (version.getD lastVersion)
    (am.getD [("MFS06".toList, 4), ("MFS07".toList, 32)]) rows alpha)
    (hg : metronix num w filename rate limit version am = .ok g) (f : ℚ)
    (hout : (∀ r ∈ rows, ∀ x, r[0]? = some x → x < f) ∨
      ((∀ r ∈ rows, ∀ x, r[0]? = some x → f < x) ∧ limit.getD 512 < rate)) : g f = .error .value := by
  have hne : rows ≠ [] := by
    intro e
    have := h.two
    rw [e] at this
    simp at this
  obtain ⟨r0, rs, hrs⟩ := List.exists_cons_of_ne_nil hne
  have h3 := h.three r0 (by rw [hrs]; simp)
  have hx0 : (rows.headD [])[0]? = some (r0[0]'(by omega)) := by
    rw [hrs]
    exact List.getElem?_eq_getElem _
  have hr0 : r0[0]? = some (r0[0]'(by omega)) := List.getElem?_eq_getElem _
  have hpt : ∀ q ∈ rows.map tablePoint, ∃ r ∈ rows, r[0]? = some q.1 := by
    intro q hq
    obtain ⟨s, hs, rfl⟩ := List.mem_map.1 hq
    have h3 := h.three s hs
    have hz : s[0]? = some (s[0]'(by omega)) := List.getElem?_eq_getElem _
    exact ⟨s, hs, by rw [tablePoint_fst hz]; exact hz⟩
  rw [metronix_high h hg hx0 ?_]
  · refine evalInterp_outside (by simpa using hne) f ?_
    rcases hout with hout | ⟨hout, -⟩
    · right
      intro q hq
      obtain ⟨r, hr, e⟩ := hpt q hq
      exact hout r hr _ e
    · left
      intro q hq
      obtain ⟨r, hr, e⟩ := hpt q hq
      exact hout r hr _ e
  · rintro ⟨h1, h2⟩
    rcases hout with hout | ⟨-, hout⟩
    · have := hout r0 (by rw [hrs]; simp) _ hr0
      exact absurd h1 (not_lt.2 (le_of_lt this))
    · exact absurd h2 (not_le.2 hout)

theorem evalInterp_inside {pts : List (ℚ × ℂ)} (hnd : (pts.map Prod.fst).Nodup) (hlen : 2 ≤ pts.length) {f : ℚ} {a b : ℚ × ℂ}
    (ha : a ∈ pts) (hb : b ∈ pts) (h1 : a.1 ≤ f) (h2 : f ≤ b.1) : ∃ y, evalInterp (interp1d pts) f = .ok (some y) := by
  have hs := interp1d_strict hnd
  have hp := interp1d_perm pts
  rcases lt_or_eq_of_le h1 with h1 | rfl
  · -- the first point which is not below
    have hmem : ∃ i y r, interp1d pts = i ++ y :: r ∧ (∀ x ∈ i, x.1 < f) ∧ ¬ y.1 < f := by
      have hb' := hp.mem_iff.2 hb
      generalize interp1d pts = s at hb'
      induction s with
      | nil => simp at hb'
      | cons x s ih =>
        by_cases hx : x.1 < f
        · have : b ∈ s := by
            rcases List.mem_cons.1 hb' with rfl | h
            · exact absurd hx (not_lt.2 h2)
            · exact h
          obtain ⟨i, y, r, e1, e2, e3⟩ := ih this
          refine ⟨x :: i, y, r, by rw [e1]; rfl, ?_, e3⟩
          intro z hz
          rcases List.mem_cons.1 hz with rfl | hz
          · exact hx
          · exact e2 z hz
        · exact ⟨[], x, s, rfl, by simp, hx⟩
    obtain ⟨i, y, r, e1, e2, e3⟩ := hmem
    rcases List.eq_nil_or_concat i with rfl | ⟨i, c, rfl⟩
    · exfalso
      have := hp.mem_iff.2 ha
      rw [e1] at this hs
      have h4 := head_le hs rfl a this
      exact e3 (lt_of_le_of_lt h4 h1)
    · rw [List.concat_eq_append, List.append_assoc, List.singleton_append] at e1
      rw [e1] at hs ⊢
      exact ⟨_, evalInterp_between hs (e2 c (by simp)) (not_lt.1 e3)⟩
  · exact ⟨_, evalInterp_at hs (by rw [hp.length_eq]; exact hlen) (hp.mem_iff.2 ha)⟩

/-- **C74.** With distinct frequencies, a number is obtained everywhere except above the table, and below it with the chopper
off. -/
theorem C74_defined (h : Calibrated num w filename rate (limit.getD 512) (version.getD lastVersion)
    (am.getD [("MFS06".toList, 4), ("MFS07".toList, 32)]) rows alpha)
    (hg : metronix num w filename rate limit version am = .ok g) (hd : rows.Pairwise (fun r r' => r[0]? ≠ r'[0]?)) (f : ℚ) :
    (∃ y, g f = .ok (some y)) ↔ (∃ r ∈ rows, ∃ x, r[0]? = some x ∧ f ≤ x) ∧
      (rate ≤ limit.getD 512 ∨ ∃ r ∈ rows, ∃ x, r[0]? = some x ∧ x ≤ f) := by
  have hfirst : ∀ r ∈ rows, ∃ x, r[0]? = some x := by
    intro r hr
    have := h.three r hr
    exact ⟨_, List.getElem?_eq_getElem (by omega)⟩
  constructor
  · rintro ⟨y, hy⟩
    by_contra hcon
    have hout : (∀ r ∈ rows, ∀ x, r[0]? = some x → x < f) ∨
      ((∀ r ∈ rows, ∀ x, r[0]? = some x → f < x) ∧ limit.getD 512 < rate) := by
      by_cases h1 : ∃ r ∈ rows, ∃ x, r[0]? = some x ∧ f ≤ x
      · right
        have h2 : ¬ (rate ≤ limit.getD 512 ∨ ∃ r ∈ rows, ∃ x, r[0]? = some x ∧ x ≤ f) := fun h2 => hcon ⟨h1, h2⟩
        push Not at h2
        exact ⟨h2.2, h2.1⟩
      · left
        push Not at h1
        exact h1
    rw [C74_outside h hg f hout] at hy
    simp at hy
  · rintro ⟨⟨r, hr, x, hx, hfx⟩, hlow⟩
    have hne : rows ≠ [] := List.ne_nil_of_mem hr
    obtain ⟨r0, rs, hrs⟩ := List.exists_cons_of_ne_nil hne
    obtain ⟨x0, hx0⟩ := hfirst r0 (by rw [hrs]; simp)
    have hx0' : (rows.headD [])[0]? = some x0 := by rw [hrs]; exact hx0
    by_cases hf : f < x0 ∧ rate ≤ limit.getD 512
    · rw [metronix_of h] at hg
      injection hg with hg
      rw [← hg]
      dsimp only
      rw [row_getD hx0', if_pos (by rw [Bool.and_eq_true, decide_eq_true_eq, decide_eq_true_eq]; exact hf)]
      exact ⟨_, rfl⟩
    · rw [metronix_high h hg hx0' hf]
      have hlow' : ∃ r ∈ rows, ∃ x, r[0]? = some x ∧ x ≤ f := by
        rcases hlow with hlow | hlow
        · refine ⟨r0, by rw [hrs]; simp, x0, hx0, ?_⟩
          by_contra hlt
          exact hf ⟨not_le.1 hlt, hlow⟩
        · exact hlow
      obtain ⟨r', hr', x', hx', hfx'⟩ := hlow'
      refine evalInterp_inside (nodup_freq h.three hd) (by simpa using h.two) (List.mem_map_of_mem hr') (List.mem_map_of_mem hr) ?_ ?_
      · rw [tablePoint_fst hx']; exact hfx'
      · rw [tablePoint_fst hx]; exact hfx

/-- **C74.** The limit for the low frequency formula is the first row, not the lowest frequency: with the chopper on, a table
which is not in increasing order is not followed, even at its own frequencies. -/
theorem C74_unsorted (h : Calibrated num w filename rate (limit.getD 512) (version.getD lastVersion)
    (am.getD [("MFS06".toList, 4), ("MFS07".toList, 32)]) [[2, 1, 0], [1, 1, 0], [3, 1, 0]] 4)
    (hg : metronix num w filename rate limit version am = .ok g) (hon : rate ≤ limit.getD 512) :
    ∃ y, g 1 = .ok (some y) ∧ y ≠ tabulated 1 1 0 := by
  refine ⟨_, C74_below h hg 2 1 rfl rfl hon 1 (by norm_num) (.inl (by norm_num)), ?_⟩
  intro e
  have h2 := congrArg Complex.im e
  unfold tabulated at h2
  have hn : ‖((1 : ℚ) : ℂ) + I * ((4 : ℚ) : ℂ)‖ ≠ 0 := by
    rw [norm_ne_zero_iff]
    intro e
    have := congrArg Complex.im e
    simp at this
  generalize ‖((1 : ℚ) : ℂ) + I * ((4 : ℚ) : ℂ)‖ = n at h2 hn
  simp [Complex.div_im] at h2
  have : (4 : ℝ) * n / (n * n) = 0 := by simpa [Complex.normSq] using h2
  simp [hn] at this

/-! ### C75 -/

theorem map_stripped (ws : List (List Char)) : List.Forall₂ Stripped ws (ws.map strip) := by
  induction ws with
  | nil => exact .nil
  | cons w ws ih => exact .cons (stripped_iff.2 rfl) ih

theorem ctsRows_iff {num : List Char → Option ℚ} {n : Nat} {first : List Char} {rest : List (List Char)} {rows : List (List ℚ)} :
    ctsRows num n (first :: rest) = .ok rows ↔
    (RowsOf (CtsRowOf num (2 + 2 * n)) rest rows ∨
      (¬ ∃ rows', RowsOf (CtsRowOf num (2 + 2 * n)) rest rows') ∧ RowsOf (CtsRowOf num (2 + 2 * n)) rest.tail rows) := by
  have hn : 0 < 2 + 2 * n := by omega
  unfold ctsRows
  simp only [← rows_cts hn, List.drop_succ_cons, List.drop_zero, List.drop_one]
  cases h : loadtxt num fieldsComma (some (2 + 2 * n)) rest with
  | ok r => simp
  | error e => simp

theorem phoenix_of {num : List Char → Option ℚ} {int : List Char → Option Int} {w : World} {file : List Char} {n : Nat}
    {rows : List (List ℚ)} (h : CtsFile num int w file n rows) (level : ℚ) :
    phoenix num int w file level =
      if rows.length < 2 then .error .index
      else if rows.filter (fun r => r[1]? = some level) = [] then .error .value
      else .ok ((List.range n).map (fun i =>
        evalInterp (interp1d ((rows.filter (fun r => r[1]? = some level)).map (ctsPoint i))))) := by
  obtain ⟨text, first, rest, line, ws, ts, a, b, c, nb, h1, h2, hs, h3, ht, h4, h5, h6⟩ := h.text
  have e : readlines (universal text) = first :: rest := (linesOf_iff.1 h2).symm
  rw [stripped_iff] at hs
  subst hs
  have ht' : ts = ws.map strip := by
    clear h4 h3
    induction ht with
    | nil => rfl
    | cons h _ ih => rw [stripped_iff.1 h, ih]; rfl
  subst ht'
  have ho : openText w (.parse file) = .ok (universal text) := by
    unfold openText
    rw [h1]
  unfold phoenix
  rw [ho]
  dsimp only
  rw [e]
  have hh : ctsHeader ((first :: rest).headD []) = [a, b, c, nb] := by
    unfold ctsHeader
    rw [List.headD_cons, fields_unique (splitComma_spec _) h3, h4]
  rw [hh]
  dsimp only
  rw [h5]
  dsimp only
  rw [if_neg (by omega), Int.toNat_natCast, ctsRows_iff.2 h6]

/-- **C75.** `phoenix` gives one function for each channel. -/
theorem C75_channels (int : List Char → Option Int) (file : List Char) (n : Nat) (level : ℚ)
    (h : CtsFile num int w file n rows) (h2 : 2 ≤ rows.length) (hl : ∃ r ∈ rows, r[1]? = some level) :
    ∃ gs, phoenix num int w file level = .ok gs ∧ gs.length = n := by
  rw [phoenix_of h, if_neg (by omega), if_neg]
  · exact ⟨_, rfl, by simp⟩
  · intro e
    obtain ⟨r, hr, hrl⟩ := hl
    have : r ∈ rows.filter (fun r => r[1]? = some level) := by simp [hr, hrl]
    rw [e] at this
    simp at this

/-- **C75.** A function is obtained only in this way. -/
theorem C75_only (int : List Char → Option Int) (file : List Char) (level : ℚ) (gs : List (ℚ → Except Err (Option ℂ)))
    (h : phoenix num int w file level = .ok gs) :
    ∃ n rows, CtsFile num int w file n rows ∧ 2 ≤ rows.length ∧ ∃ r ∈ rows, r[1]? = some level := by
  have hfile : ∃ n rows, CtsFile num int w file n rows := by
    unfold phoenix at h
    cases ho : openText w (.parse file) with
    | error e => rw [ho] at h; simp at h
    | ok text =>
      rw [ho] at h
      dsimp only at h
      obtain ⟨t, ht, rfl⟩ : ∃ t, stat w.fs w.cwd (.parse file) = some (.file t) ∧ universal t = text := by
        unfold openText at ho
        split at ho
        · next t ht => exact ⟨t, ht, by simpa using ho⟩
        · simp at ho
      have hlines : LinesOf t (readlines (universal t)) := linesOf_iff.2 rfl
      cases hr : readlines (universal t) with
      | nil =>
        rw [hr] at h
        simp [ctsHeader, strip, splitComma] at h
      | cons first rest =>
        rw [hr] at h hlines
        split at h
        · next a b c nb hh =>
          cases hk : int nb with
          | none => rw [hk] at h; simp at h
          | some k =>
            rw [hk] at h
            dsimp only at h
            by_cases hk0 : k < 0
            · rw [if_pos hk0] at h; simp at h
            · rw [if_neg hk0] at h
              cases hrows : ctsRows num k.toNat (first :: rest) with
              | error e => rw [hrows] at h; simp at h
              | ok rows =>
                exact ⟨k.toNat, rows, t, first, rest, _, _, _, a, b, c, nb, ht, hlines, stripped_iff.2 rfl, splitComma_spec _, map_stripped _, hh,
                  by rw [hk]; congr 1; omega, ctsRows_iff.1 hrows⟩
        · simp at h
  obtain ⟨n, rows, hf⟩ := hfile
  refine ⟨n, rows, hf, ?_⟩
  rw [phoenix_of hf] at h
  by_cases h2 : rows.length < 2
  · rw [if_pos h2] at h; simp at h
  · rw [if_neg h2] at h
    refine ⟨by omega, ?_⟩
    by_cases he : rows.filter (fun r => r[1]? = some level) = []
    · rw [if_pos he] at h; simp at h
    · obtain ⟨r, hr⟩ := List.exists_mem_of_ne_nil _ he
      simp at hr
      exact ⟨r, hr⟩

theorem cts_len {num : List Char → Option ℚ} {int : List Char → Option Int} {w : World} {file : List Char} {n : Nat}
    {rows : List (List ℚ)} (h : CtsFile num int w file n rows) : ∀ r ∈ rows, r.length = 2 + 2 * n := by
  have key : ∀ lines, RowsOf (CtsRowOf num (2 + 2 * n)) lines rows → ∀ r ∈ rows, r.length = 2 + 2 * n := by
    rintro lines ⟨⟨rs, h1, rfl⟩, -⟩ r hr
    rw [List.mem_filter] at hr
    obtain ⟨hr1, hr2⟩ := hr
    obtain ⟨i, hi, rfl⟩ := List.getElem_of_mem hr1
    have := List.Forall₂.get h1 (by rw [h1.length_eq]; exact hi) hi
    simp only [List.get_eq_getElem] at this
    rcases this with ⟨-, h0⟩ | ⟨-, ws, -, h3, h4⟩
    · simp [h0] at hr2
    · have := h4.length_eq
      rw [List.length_take] at this
      omega
  obtain ⟨text, first, rest, line, ws, ts, a, b, c, nb, -, -, -, -, -, -, -, h6⟩ := h.text
  rcases h6 with h6 | ⟨-, h6⟩
  · exact key _ h6
  · exact key _ h6

/-- The point of channel `i` in a row. -/
theorem ctsPoint_eq {i : Nat} {r : List ℚ} {x u v : ℚ} (h0 : r[0]? = some x) (hu : r[2 + 2 * i]? = some u)
    (hv : r[3 + 2 * i]? = some v) : ctsPoint i r = (x, (u : ℂ) + I * (v : ℂ)) := by
  unfold ctsPoint
  rw [row_getD h0, row_getD hu, row_getD hv]

theorem cts_nodup {n : Nat} {rows : List (List ℚ)} (hlen : ∀ r ∈ rows, r.length = 2 + 2 * n) (level : ℚ) (i : Nat)
    (hd : rows.Pairwise (fun r r' => r[1]? = some level → r'[1]? = some level → r[0]? ≠ r'[0]?)) :
    (((rows.filter (fun r => r[1]? = some level)).map (ctsPoint i)).map Prod.fst).Nodup := by
  rw [List.map_map]
  refine List.pairwise_map.2 ?_
  have h1 := hd.filter (fun r => decide (r[1]? = some level))
  refine List.Pairwise.imp_of_mem ?_ h1
  intro r r' hr hr' hne e
  simp at hr hr'
  have l1 := hlen r hr.1
  have l2 := hlen r' hr'.1
  have e1 : r.getD 0 0 = r'.getD 0 0 := e
  apply hne hr.2 hr'.2
  rw [List.getD_eq_getElem?_getD, List.getD_eq_getElem?_getD] at e1
  rw [List.getElem?_eq_getElem (by omega), List.getElem?_eq_getElem (by omega)] at e1 ⊢
  simpa using e1

/-- **C75.** Between neighbouring frequencies of the level, channel `i` is on the straight line through the complex numbers
in the columns `2 + 2i` (real part) and `3 + 2i` (imaginary part). Rows of other levels do not matter. -/
theorem C75_between (int : List Char → Option Int) (file : List Char) (n : Nat) (level : ℚ)
    (h : CtsFile num int w file n rows) (gs : List (ℚ → Except Err (Option ℂ))) (hg : phoenix num int w file level = .ok gs)
    (hd : rows.Pairwise (fun r r' => r[1]? = some level → r'[1]? = some level → r[0]? ≠ r'[0]?))
    (i : Nat) (hi : i < gs.length) (r r' : List ℚ) (hr : r ∈ rows) (hr' : r' ∈ rows) (hl : r[1]? = some level)
    (hl' : r'[1]? = some level) (x u v x' u' v' : ℚ) (hx : r[0]? = some x) (hu : r[2 + 2 * i]? = some u)
    (hv : r[3 + 2 * i]? = some v) (hx' : r'[0]? = some x') (hu' : r'[2 + 2 * i]? = some u') (hv' : r'[3 + 2 * i]? = some v')
    (hlt : x < x') (hno : ∀ s ∈ rows, s[1]? = some level → ∀ z, s[0]? = some z → ¬ (x < z ∧ z < x')) (f : ℚ) (h1 : x ≤ f)
    (h2 : f ≤ x') : gs[i] f = .ok (some (onLine x x' ((u : ℂ) + I * (v : ℂ)) ((u' : ℂ) + I * (v' : ℂ)) f)) := by
  have hlen := cts_len h
  rw [phoenix_of h] at hg
  split at hg
  · simp at hg
  · split at hg
    · simp at hg
    · injection hg with hg
      subst hg
      rw [List.getElem_map, List.getElem_range]
      have e := ctsPoint_eq hx hu hv
      have e' := ctsPoint_eq hx' hu' hv'
      refine evalInterp_neighbours (cts_nodup hlen level i hd) (a := (x, (u : ℂ) + I * (v : ℂ)))
        (b := (x', (u' : ℂ) + I * (v' : ℂ))) (e ▸ List.mem_map_of_mem (by simp [hr, hl]))
        (e' ▸ List.mem_map_of_mem (by simp [hr', hl'])) hlt ?_ h1 h2
      intro c hc
      obtain ⟨s, hs, rfl⟩ := List.mem_map.1 hc
      simp at hs
      have h3 := hlen s hs.1
      have hz : s[0]? = some (s[0]'(by omega)) := List.getElem?_eq_getElem _
      have : (ctsPoint i s).1 = s[0]'(by omega) := row_getD hz
      rw [this]
      exact hno s hs.1 hs.2 _ hz

/-- **C75.** Outside of the frequencies of the level: ValueError. -/
theorem C75_outside (int : List Char → Option Int) (file : List Char) (n : Nat) (level : ℚ)
    (h : CtsFile num int w file n rows) (gs : List (ℚ → Except Err (Option ℂ))) (hg : phoenix num int w file level = .ok gs)
    (i : Nat) (hi : i < gs.length) (f : ℚ)
    (hout : (∀ r ∈ rows, r[1]? = some level → ∀ x, r[0]? = some x → x < f) ∨
      (∀ r ∈ rows, r[1]? = some level → ∀ x, r[0]? = some x → f < x)) : gs[i] f = .error .value := by
  have hlen := cts_len h
  rw [phoenix_of h] at hg
  split at hg
  · simp at hg
  · split at hg
    · simp at hg
    · next hne =>
      injection hg with hg
      subst hg
      rw [List.getElem_map, List.getElem_range]
      have hpt : ∀ q ∈ (rows.filter (fun r => r[1]? = some level)).map (ctsPoint i),
          ∃ r ∈ rows, r[1]? = some level ∧ r[0]? = some q.1 := by
        intro q hq
        obtain ⟨s, hs, rfl⟩ := List.mem_map.1 hq
        simp at hs
        have h3 := hlen s hs.1
        have hz : s[0]? = some (s[0]'(by omega)) := List.getElem?_eq_getElem _
        have : (ctsPoint i s).1 = s[0]'(by omega) := row_getD hz
        exact ⟨s, hs.1, hs.2, by rw [this]; exact hz⟩
      refine evalInterp_outside (by simpa using hne) f ?_
      rcases hout with hout | hout
      · right
        intro q hq
        obtain ⟨r, hr, hl, e⟩ := hpt q hq
        exact hout r hr hl _ e
      · left
        intro q hq
        obtain ⟨r, hr, hl, e⟩ := hpt q hq
        exact hout r hr hl _ e

/-- **C75.** A level without rows: ValueError (from the message of the assertion). -/
theorem C75_missing_level (int : List Char → Option Int) (file : List Char) (n : Nat) (level : ℚ)
    (h : CtsFile num int w file n rows) (h2 : 2 ≤ rows.length) (hl : ∀ r ∈ rows, r[1]? ≠ some level) :
    phoenix num int w file level = .error .value := by
  rw [phoenix_of h, if_neg (by omega), if_pos]
  rw [List.filter_eq_nil_iff]
  intro r hr
  simpa using hl r hr

/-- **C75.** No file, or a directory: OSError. -/
theorem C75_no_file (int : List Char → Option Int) (file : List Char) (level : ℚ)
    (h : ∀ t, stat w.fs w.cwd (.parse file) ≠ some (.file t)) : phoenix num int w file level = .error .os := by
  have ho : openText w (.parse file) = .error .os := by
    unfold openText
    split
    · rename_i t ht
      exact absurd ht (h t)
    · rfl
  unfold phoenix
  rw [ho]

/-- **C75.** A file which is not a cts file (another number of words on the first line, no number of channels, a word which
is not a number in a row, a row too short): ValueError. -/
theorem C75_bad_file (int : List Char → Option Int) (file : List Char) (level : ℚ) (text : List Char)
    (ht : stat w.fs w.cwd (.parse file) = some (.file text)) (h : ¬ ∃ n rows, CtsFile num int w file n rows) :
    phoenix num int w file level = .error .value := by
  have ho : openText w (.parse file) = .ok (universal text) := by
    unfold openText
    rw [ht]
  unfold phoenix
  rw [ho]
  dsimp only
  cases hr : readlines (universal text) with
  | nil => simp [ctsHeader, strip, splitComma]
  | cons first rest =>
    split
    · next a b c nb hh =>
      cases hk : int nb with
      | none => rfl
      | some k =>
        dsimp only
        by_cases hk0 : k < 0
        · rw [if_pos hk0]
        · rw [if_neg hk0]
          cases hrows : ctsRows num k.toNat (first :: rest) with
          | error e =>
            unfold ctsRows at hrows
            split at hrows
            · simp at hrows
            · rw [loadtxt_error hrows]
          | ok rows =>
            exact absurd ⟨k.toNat, rows, text, first, rest, _, _, _, a, b, c, nb, ht, linesOf_iff.2 hr.symm, stripped_iff.2 rfl,
              splitComma_spec _, map_stripped _, hh, by rw [hk]; congr 1; omega, ctsRows_iff.1 hrows⟩ h
    · rfl

/-- **C75.** A file with a single row raises. -/
theorem C75_single_row (int : List Char → Option Int) (file : List Char) (n : Nat) (level : ℚ) (row : List ℚ)
    (h : CtsFile num int w file n [row]) : phoenix num int w file level = .error .index := by
  rw [phoenix_of h, if_pos (by simp)]

/-- **C75.** A level with a single row gives functions without any number: not a number at its frequency, ValueError
elsewhere. -/
theorem C75_lonely (int : List Char → Option Int) (file : List Char) (n : Nat) (level : ℚ)
    (h : CtsFile num int w file n rows) (row : List ℚ) (hone : rows.filter (fun r => r[1]? = some level) = [row])
    (gs : List (ℚ → Except Err (Option ℂ))) (hg : phoenix num int w file level = .ok gs) (i : Nat) (hi : i < gs.length)
    (f : ℚ) : gs[i] f = if row[0]? = some f then .ok none else .error .value := by
  have hlen := cts_len h
  rw [phoenix_of h] at hg
  split at hg
  · simp at hg
  · rw [hone] at hg
    simp only [List.cons_ne_nil, if_false, Except.ok.injEq, reduceCtorEq] at hg
    subst hg
    rw [List.getElem_map]
    have hmem : row ∈ rows := by
      have : row ∈ rows.filter (fun r => r[1]? = some level) := by rw [hone]; simp
      exact List.mem_of_mem_filter this
    have hl := hlen row hmem
    have hz : row[0]? = some (row[0]'(by omega)) := List.getElem?_eq_getElem _
    have hp : interp1d ([row].map (ctsPoint ((List.range n)[i]'(by simpa using hi)))) =
        [ctsPoint ((List.range n)[i]'(by simpa using hi)) row] := rfl
    rw [hp, hz]
    generalize hq : ctsPoint ((List.range n)[i]'(by simpa using hi)) row = q
    have hq1 : q.1 = row[0]'(by omega) := by rw [← hq]; exact row_getD hz
    rw [← hq1]
    unfold evalInterp
    simp only [List.head?_cons, List.getLast?_singleton]
    by_cases hf : q.1 = f
    · subst hf
      simp
    · have : f < q.1 ∨ q.1 < f := by
        rcases lt_trichotomy f q.1 with h | h | h
        · exact .inl h
        · exact absurd h.symm hf
        · exact .inr h
      rw [if_pos this, if_neg (by simpa using hf)]

/-! ### Examples -/

/-- Unsigned integers. -/
def exNum (l : List Char) : Option ℚ :=
  if l ≠ [] ∧ l.all Char.isDigit then some ((l.foldl (fun n c => 10 * n + (c.toNat - 48)) 0 : Nat) : ℚ) else none

def exMetronix : List Char :=
  "Head\r\n  chopper  ON \r1 2 0\n 2 2 90 # c\n#\n \nChopper off\n5 1 0\n6 1 0\n".toList

def exCts : List Char := "d,s, t ,1,\nx\n1,2,3,4,9\n2,3,0,0\n2,2,5,6\n".toList

def exMfs : Name := "xMFS06.txt".toList

def exCalWorld : World := ⟨fsOf
  [([], .dir), ([['h']], .dir), ([['p']], .dir), ([['p'], dataName], .dir), ([['p'], dataName, metronixDataPath], .dir),
    ([['p'], dataName, metronixDataPath, exMfs], .file exMetronix), ([['h'], ['n']], .file exCts)], [['h']], [['p']]⟩

theorem exCal_on : Calibrated exNum exCalWorld exMfs 512 512 lastVersion [("MFS06".toList, 4), ("MFS07".toList, 32)]
    [[1, 2, 0], [2, 2, 90]] 4 where
  file := ⟨⟨true, [['p'], dataName, metronixDataPath, exMfs]⟩, exMetronix, _, "MFS06".toList, by decide +kernel, by decide +kernel,
    metronixRows_iff.1 ⟨(2, some 5), by decide +kernel, by decide +kernel⟩, stemOf_iff.2 rfl, by decide +kernel, by decide +kernel⟩
  two := by simp
  three := by simp

theorem exCal_off : Calibrated exNum exCalWorld exMfs 513 512 lastVersion [("MFS06".toList, 4), ("MFS07".toList, 32)]
    [[5, 1, 0], [6, 1, 0]] 4 where
  file := ⟨⟨true, [['p'], dataName, metronixDataPath, exMfs]⟩, exMetronix, _, "MFS06".toList, by decide +kernel, by decide +kernel,
    metronixRows_iff.1 ⟨(7, none), by decide +kernel, by decide +kernel⟩, stemOf_iff.2 rfl, by decide +kernel, by decide +kernel⟩
  two := by simp
  three := by simp

example : ∃ g, metronix exNum exCalWorld exMfs 512 = .ok g ∧ g 2 = .ok (some (tabulated 2 2 90)) ∧
    g (3 / 2) = .ok (some (onLine 1 2 (tabulated 1 2 0) (tabulated 2 2 90) (3 / 2))) ∧ g 3 = .error .value ∧
    g (1 / 2) = .ok (some ((((1 / 2) * 2 : ℚ) : ℂ) * ((((1 / 2 : ℚ) : ℂ) + I * ((4 : ℚ) : ℂ)) / (‖((1 / 2 : ℚ) : ℂ) + I * ((4 : ℚ) : ℂ)‖ : ℂ)))) := by
  obtain ⟨g, hg⟩ := (C73_iff exNum exCalWorld exMfs 512 none none none).2 ⟨_, _, exCal_on⟩
  have hd : [[(1 : ℚ), 2, 0], [2, 2, 90]].Pairwise (fun r r' => r[0]? ≠ r'[0]?) := by decide +kernel
  refine ⟨g, hg, ?_, ?_, ?_, ?_⟩
  · exact C74_tabulated (limit := none) (version := none) (am := none) exCal_on hg hd 1 rfl [2, 2, 90] (by simp) 2 2 90 rfl rfl rfl (by norm_num)
  · refine C74_between (limit := none) (version := none) (am := none) exCal_on hg hd 1 rfl [1, 2, 0] [2, 2, 90] (by simp) (by simp) 1 2 0 2 2 90
      rfl rfl rfl rfl rfl rfl (by norm_num) ?_ _ (by norm_num) (by norm_num) (by norm_num)
    intro s hs z hz
    simp at hs
    rcases hs with rfl | rfl
    · simp at hz; subst hz; norm_num
    · simp at hz; subst hz; norm_num
  · refine C74_outside (limit := none) (version := none) (am := none) exCal_on hg 3 (.inl ?_)
    intro s hs z hz
    simp at hs
    rcases hs with rfl | rfl
    · simp at hz; subst hz; norm_num
    · simp at hz; subst hz; norm_num
  · exact C74_below (limit := none) (version := none) (am := none) exCal_on hg 1 2 rfl rfl (by decide +kernel) (1 / 2) (by norm_num) (.inl (by norm_num))

example : ∃ g, metronix exNum exCalWorld exMfs 513 = .ok g ∧ g 5 = .ok (some (tabulated 5 1 0)) ∧ g 1 = .error .value := by
  obtain ⟨g, hg⟩ := (C73_iff exNum exCalWorld exMfs 513 none none none).2 ⟨_, _, exCal_off⟩
  have hd : [[(5 : ℚ), 1, 0], [6, 1, 0]].Pairwise (fun r r' => r[0]? ≠ r'[0]?) := by decide +kernel
  refine ⟨g, hg, ?_, ?_⟩
  · exact C74_tabulated (limit := none) (version := none) (am := none) exCal_off hg hd 5 rfl [5, 1, 0] (by simp) 5 1 0 rfl rfl rfl (by norm_num)
  · refine C74_outside (limit := none) (version := none) (am := none) exCal_off hg 1 (.inr ⟨?_, by decide +kernel⟩)
    intro s hs z hz
    simp at hs
    rcases hs with rfl | rfl
    · simp at hz; subst hz; norm_num
    · simp at hz; subst hz; norm_num

/-- A cts file with one channel; the second line is not a row. -/
theorem exCts_file : CtsFile exNum (fun l => (exNum l).map (fun q => q.num)) exCalWorld ['n'] 1
    [[1, 2, 3, 4], [2, 3, 0, 0], [2, 2, 5, 6]] where
  text := ⟨exCts, "d,s, t ,1,\n".toList, (readlines exCts).tail, _, _, _, ['d'], ['s'], ['t'], ['1'], by decide +kernel,
    linesOf_iff.2 (by decide +kernel), stripped_iff.2 rfl, splitComma_spec _, map_stripped _, by decide +kernel, by decide +kernel,
    (ctsRows_iff (first := [])).1 (by decide +kernel)⟩

example : ∃ gs, phoenix exNum (fun l => (exNum l).map (fun q => q.num)) exCalWorld ['n'] 2 = .ok gs ∧ gs.length = 1 ∧
    ∀ g ∈ gs, g (3 / 2) = .ok (some (onLine 1 2 (((3 : ℚ) : ℂ) + I * ((4 : ℚ) : ℂ)) (((5 : ℚ) : ℂ) + I * ((6 : ℚ) : ℂ)) (3 / 2))) := by
  obtain ⟨gs, h1, h2⟩ := C75_channels _ _ _ 2 exCts_file (by simp) ⟨[1, 2, 3, 4], by simp, rfl⟩
  refine ⟨gs, h1, h2, ?_⟩
  intro g hg
  obtain ⟨i, hi, rfl⟩ := List.getElem_of_mem hg
  have hi0 : i = 0 := by omega
  subst hi0
  refine C75_between _ _ _ 2 exCts_file gs h1 (by decide +kernel) 0 hi [1, 2, 3, 4] [2, 2, 5, 6] (by simp) (by simp) rfl rfl 1 3 4 2 5 6
    rfl rfl rfl rfl rfl rfl (by norm_num) ?_ _ (by norm_num) (by norm_num)
  intro s hs hl z hz
  simp at hs
  rcases hs with rfl | rfl | rfl
  · simp at hz; subst hz; norm_num
  · simp at hz; subst hz; norm_num
  · simp at hz; subst hz; norm_num

/-- The same file when its fourth word is not a number. -/
example : phoenix exNum (fun _ => none) exCalWorld ['n'] 2 = .error .value := by
  refine C75_bad_file _ _ _ exCts (by decide +kernel) ?_
  rintro ⟨n, rows, ⟨_, _, _, _, _, _, _, _, _, _, -, -, -, -, -, -, h, -⟩⟩
  simp at h

/-- The same file when nothing is a number. -/
example : metronix (fun _ => none) exCalWorld exMfs 512 = .error .value := by
  refine C73_bad_table (limit := none) (version := none) (am := none) ⟨true, [['p'], dataName, metronixDataPath, exMfs]⟩ exMetronix
    (by decide +kernel) (by decide +kernel) (readlines (universal exMetronix)) (linesOf_iff.2 rfl) "  chopper  ON \n".toList
    (by decide +kernel) (isMark_iff.1 (by decide +kernel)) ?_
  rintro ⟨rows, h⟩
  obtain ⟨ss, h1, h2⟩ := metronixRows_iff.2 h
  have hs : startStop (decide ((512 : ℚ) ≤ (none : Option ℚ).getD 512)) (readlines (universal exMetronix)) = .ok (2, some 5) := by
    decide +kernel
  rw [hs] at h1
  injection h1 with h1
  subst h1
  revert h2
  have : loadtxt (fun _ => none) fieldsWs none (between (readlines (universal exMetronix)) (2, some 5)) = .error .value := by
    decide +kernel
  rw [this]
  simp

example : VersionOf "aMFS06MFS07_1".toList "MFS07".toList := (C73_version _ _).1 (by decide +kernel)

end Razorback.Props
