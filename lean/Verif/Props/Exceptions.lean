/-
Property C117: the kind of the exception tells what went wrong.
-/
import Verif.Props.Fourier
import Verif.Props.Select
import Verif.Props.Merge
import Verif.Props.RealProb
import Verif.Props.Weights
import Verif.Props.Extract
import Verif.Props.Join
import Verif.Props.Retag

namespace Razorback.Props
open Razorback Razorback.Spec Razorback.Fourier Razorback.SigSet Razorback.MEst Razorback.RealProb Razorback.Weights

variable {α κ σ : Type}

/-! Fourier coefficients -/

/-- **C117.** The windows: AssertionError for an overlap or a frequency out of range; OverflowError when the shift is below
one sample and the recording is longer than the window; otherwise, when no window or no shift fits, ValueError. -/
theorem C117_windows (size : ℕ) (nf nper overlap : ℚ) :
    (¬ (0 ≤ overlap ∧ overlap ≤ 1) ∨ ¬ (0 < nf ∧ nf ≤ 1 / 2) → discreteWindow size nf nper overlap = .error .assertion) ∧
    (0 ≤ overlap ∧ overlap ≤ 1 → 0 < nf ∧ nf ≤ 1 / 2 →
      (|(⌈nper / nf⌉ : ℚ) * (1 - overlap)| < 1 → ⌈nper / nf⌉ < (size : ℤ) →
        discreteWindow size nf nper overlap = .error .overflow) ∧
      (|(⌈nper / nf⌉ : ℚ) * (1 - overlap)| < 1 → (size : ℤ) ≤ ⌈nper / nf⌉ →
        discreteWindow size nf nper overlap = .error .value) ∧
      ((⌈nper / nf⌉ : ℚ) * (1 - overlap) ≤ -1 → discreteWindow size nf nper overlap = .error .value) ∧
      (1 ≤ (⌈nper / nf⌉ : ℚ) * (1 - overlap) → (size : ℤ) < ⌈nper / nf⌉ + ⌊(⌈nper / nf⌉ : ℚ) * (1 - overlap)⌋ →
        discreteWindow size nf nper overlap = .error .value)) := by
  constructor
  · intro h
    unfold discreteWindow
    by_cases h1 : 0 ≤ overlap ∧ overlap ≤ 1
    · have h2 := h.resolve_left (by simpa using h1)
      rw [if_neg (by simpa using h1), if_pos h2]
    · rw [if_pos h1]
  · intro h1 h2
    have hzero : ∀ x : ℚ, |x| < 1 → truncInt x = 0 := by
      intro x hx
      rw [abs_lt] at hx
      unfold truncInt
      split
      · rename_i h0
        exact Int.floor_eq_zero_iff.2 ⟨h0, hx.2⟩
      · rename_i h0
        rw [Int.ceil_eq_iff]
        constructor
        · push_cast; linarith
        · push_cast; linarith
    refine ⟨?_, ?_, ?_, ?_⟩
    · intro h3 h4
      unfold discreteWindow
      rw [if_neg (by simpa using h1), if_neg (by simpa using h2)]
      simp only [Rnd.rnd_exact, hzero _ h3, if_true, h4]
    · intro h3 h4
      unfold discreteWindow
      rw [if_neg (by simpa using h1), if_neg (by simpa using h2)]
      simp only [Rnd.rnd_exact, hzero _ h3, if_true, not_lt.2 h4, if_false]
    · intro h3
      unfold discreteWindow
      rw [if_neg (by simpa using h1), if_neg (by simpa using h2)]
      simp only [Rnd.rnd_exact]
      generalize ⌈nper / nf⌉ = L at *
      have hL : L < 0 := by
        by_contra hc
        push Not at hc
        have : (0 : ℚ) ≤ (L : ℚ) * (1 - overlap) :=
          mul_nonneg (by exact_mod_cast hc) (by linarith [h1.2])
        linarith
      have hs : truncInt ((L : ℚ) * (1 - overlap)) ≤ -1 := by
        unfold truncInt
        rw [if_neg (by linarith), Int.ceil_le]
        exact_mod_cast h3
      generalize truncInt ((L : ℚ) * (1 - overlap)) = s at *
      rw [if_neg (by omega)]
      have : Int.fdiv ((size : ℤ) - L) s < 1 := by
        have h5 : 0 < (size : ℤ) - L := by omega
        have := Int.fdiv_nonpos_of_nonneg_of_nonpos h5.le (show s ≤ 0 by omega)
        omega
      rw [if_pos this]
    · intro h3 h4
      rw [discreteWindow_eq h1 h2 h3, if_pos]
      have hs1 : 1 ≤ ⌊(⌈nper / nf⌉ : ℚ) * (1 - overlap)⌋ := Int.le_floor.2 (by simpa using h3)
      rw [Int.ediv_lt_iff_lt_mul (by omega)]
      omega

example : discreteWindow 100 (1/10) 2 (3/2) = .error .assertion ∧ discreteWindow 100 (3/5) 2 0 = .error .assertion ∧
    discreteWindow 100 (1/10) 2 1 = .error .overflow ∧ discreteWindow 20 (1/10) 2 1 = .error .value ∧
    discreteWindow 100 (1/10) (-2) (1/2) = .error .value ∧ discreteWindow 29 (1/10) 2 (1/2) = .error .value := by decide +kernel

theorem mapE_first {β γ : Type _} {f : β → Except Err γ} {pre post : List β} {b : β} {e : Err} (hpre : ∀ a ∈ pre, ∃ r, f a = .ok r)
    (hb : f b = .error e) : mapE f (pre ++ b :: post) = .error e := by
  induction pre with
  | nil => simp [mapE, hb]
  | cons a pre ih =>
    obtain ⟨r, hr⟩ := hpre a (by simp)
    simp only [List.cons_append, mapE, hr, ih (fun a ha => hpre a (by simp [ha]))]

/-- **C117.** Fourier coefficients of a set: ValueError without run; otherwise the first run that fails decides: AssertionError
when a calibration of it has no value at the frequency, and else the exception met in transforming its samples. -/
theorem C117_fourier (cal : κ → ℚ → Option ℂ) (S : SigSet ℂ κ) (freq nper overlap : ℚ) (win : Win) :
    (S.runs = [] → setCoeffs cal S freq nper overlap win = .error .value) ∧
    (∀ pre s post, S.runs = pre ++ s :: post →
      (∀ r ∈ pre, (∀ k ∈ r.cals, cal k freq ≠ none) ∧ ∃ c, timeToFreq r.data r.rate freq nper overlap win = .ok c) →
      ((∃ k ∈ s.cals, cal k freq = none) → setCoeffs cal S freq nper overlap win = .error .assertion) ∧
      (∀ e, (∀ k ∈ s.cals, cal k freq ≠ none) → timeToFreq s.data s.rate freq nper overlap win = .error e →
        setCoeffs cal S freq nper overlap win = .error e)) := by
  have hbad : ∀ s : Sync ℂ κ, (s.cals.map (fun k => cal k freq)).any (fun v => v.isNone) = true ↔ ∃ k ∈ s.cals, cal k freq = none := by
    intro s
    simp [List.any_eq_true]
  constructor
  · intro h
    unfold setCoeffs
    rw [h]; rfl
  · intro pre s post hS hpre
    have hp : ∀ r ∈ pre, ∃ x, syncCoeffs cal r freq nper overlap win = .ok x := by
      intro r hr
      obtain ⟨h1, c, hc⟩ := hpre r hr
      exact ⟨_, (syncCoeffs_ok (p := _) (d := c.2)).2 ⟨h1, c.1, hc, rfl⟩⟩
    constructor
    · intro hk
      have hs : syncCoeffs cal s freq nper overlap win = .error .assertion := by
        unfold syncCoeffs
        simp only [(hbad s).2 hk, if_true]
      unfold setCoeffs
      rw [hS, mapE_first hp hs]
    · intro e hk ht
      have hs : syncCoeffs cal s freq nper overlap win = .error e := by
        unfold syncCoeffs
        have : ¬ (s.cals.map (fun k => cal k freq)).any (fun v => v.isNone) = true := by
          rw [hbad]; push Not; exact hk
        simp only [this, ht]
        rfl
      unfold setCoeffs
      rw [hS, mapE_first hp hs]

theorem commonLength_none {β : Type _} {data : List (List β)} (h : data = [] ∨ ∃ y ∈ data, ∃ z ∈ data, y.length ≠ z.length) :
    commonLength data = none := by
  cases data with
  | nil => rfl
  | cons y l =>
    rcases h with h | ⟨a, ha, b, hb, hab⟩
    · cases h
    · simp only [commonLength]
      rw [if_neg]
      intro hc
      simp only [List.all_eq_true, beq_iff_eq] at hc
      have : ∀ c ∈ y :: l, c.length = y.length := by
        intro c hcm
        rcases List.mem_cons.1 hcm with rfl | h
        · rfl
        · exact hc c h
      exact hab ((this a ha).trans (this b hb).symm)

theorem commonLength_some {β : Type _} {data : List (List β)} {N : ℕ} (hne : data ≠ []) (hN : ∀ y ∈ data, y.length = N) :
    commonLength data = some N := by
  cases data with
  | nil => exact absurd rfl hne
  | cons y l =>
    simp only [commonLength]
    rw [if_pos, hN y (by simp)]
    simp only [List.all_eq_true, beq_iff_eq]
    intro c hc
    rw [hN y (by simp), hN c (by simp [hc])]

/-- **C117.** Transforming samples: AssertionError for no channel, or channels of different lengths; else the exception of the windows;
AssertionError for a tapering window of another length than the windows. -/
theorem C117_transform (data : List (List ℂ)) (fs freq nper overlap : ℚ) (win : Win) :
    ((data = [] ∨ ∃ y ∈ data, ∃ z ∈ data, y.length ≠ z.length) → timeToFreq data fs freq nper overlap win = .error .assertion) ∧
    (∀ N, data ≠ [] → (∀ y ∈ data, y.length = N) →
      (∀ e, discreteWindow N (freq / fs) nper overlap = .error e → timeToFreq data fs freq nper overlap win = .error e) ∧
      (∀ n L s w, discreteWindow N (freq / fs) nper overlap = .ok (n, L, s) → win.eval L = some w → w.length ≠ L →
        timeToFreq data fs freq nper overlap win = .error .assertion)) := by
  constructor
  · intro h
    have := commonLength_none h
    unfold timeToFreq
    rw [this]
  · intro N hne hN
    have := commonLength_some hne hN
    constructor
    · intro e he
      unfold timeToFreq
      rw [this]; simp only [he]
    · intro n L s w hd hw hl
      unfold timeToFreq
      rw [this]
      simp only [hd, hw, Option.any_some]
      rw [if_pos (by simpa using hl)]

/-- **C117.** and so does the former transformation, except that it also checks that the windows are inside the samples. -/
theorem C117_transform_old (data : List (List ℂ)) (fs freq nper overlap : ℚ) (win : Win) :
    ((data = [] ∨ ∃ y ∈ data, ∃ z ∈ data, y.length ≠ z.length) → timeToFreqOld data fs freq nper overlap win = .error .assertion) ∧
    (∀ N, data ≠ [] → (∀ y ∈ data, y.length = N) →
      (∀ e, discreteWindow N (freq / fs) nper overlap = .error e → timeToFreqOld data fs freq nper overlap win = .error e) ∧
      (∀ n L s w, discreteWindow N (freq / fs) nper overlap = .ok (n, L, s) → win.eval L = some w → w.length ≠ L →
        timeToFreqOld data fs freq nper overlap win = .error .assertion) ∧
      (∀ n L s, discreteWindow N (freq / fs) nper overlap = .ok (n, L, s) → (∀ w, win.eval L = some w → w.length = L) →
        ∃ r, timeToFreqOld data fs freq nper overlap win = .ok r)) := by
  constructor
  · intro h
    unfold timeToFreqOld
    rw [commonLength_none h]
  · intro N hne hN
    have := commonLength_some hne hN
    refine ⟨?_, ?_, ?_⟩
    · intro e he
      unfold timeToFreqOld
      rw [this]; simp only [he]
    · intro n L s w hd hw hl
      unfold timeToFreqOld
      rw [this]
      simp only [hd, hw, Option.any_some]
      rw [if_pos (by simpa using hl)]
    · intro n L s hd hw
      unfold timeToFreqOld
      rw [this]
      simp only [hd]
      have hn : ¬ ((win.eval L).any (fun w => w.length != L)) = true := by
        cases h : win.eval L with
        | none => simp
        | some w => simpa using hw w h
      rw [if_neg hn]
      have hm : mapE (fun y : List ℂ => slidingWindow y n L s) data = .ok (data.map (fun y =>
          (List.range n).map (fun k => (List.range L).filterMap (fun j => y[k * s + j]?)))) := by
        refine mapE_of_forall (fun y hy => ?_)
        unfold slidingWindow
        rw [if_neg]
        obtain ⟨-, -, -, -, h1, -, h2, h3, -⟩ := C37_discrete_window N (freq / fs) nper overlap n L s hd
        rw [hN y hy]
        have : ((L + n * s : ℕ) : ℤ) ≤ N := by exact_mod_cast h3
        push_cast at this
        have h4 : (0 : ℤ) < s := by exact_mod_cast h1
        nlinarith
      rw [hm]
      exact ⟨_, rfl⟩

example : timeToFreq [] 1 (1/10) 2 (1/2) .none = .error .assertion := (C117_transform [] 1 (1/10) 2 (1/2) .none).1 (.inl rfl)
example : timeToFreq [List.replicate 29 1] 1 (1/10) 2 (1/2) .none = .error .value :=
  ((C117_transform [List.replicate 29 1] 1 (1/10) 2 (1/2) .none).2 29 (by simp) (by simp)).1 _ (by decide +kernel)
example : timeToFreq [List.replicate 100 1] 1 (1/10) 2 (1/2) (.arr [1, 1]) = .error .assertion :=
  ((C117_transform [List.replicate 100 1] 1 (1/10) 2 (1/2) (.arr [1, 1])).2 100 (by simp) (by simp)).2 8 20 10 [1, 1] (by decide +kernel) rfl
    (by simp)
example : timeToFreqOld [List.replicate 29 1] 1 (1/10) 2 (1/2) .none = .error .value ∧
    ∃ r, timeToFreqOld [List.replicate 100 1] 1 (1/10) 2 (1/2) .none = .ok r :=
  ⟨((C117_transform_old [List.replicate 29 1] 1 (1/10) 2 (1/2) .none).2 29 (by simp) (by simp)).1 _ (by decide +kernel),
    ((C117_transform_old [List.replicate 100 1] 1 (1/10) 2 (1/2) .none).2 100 (by simp) (by simp)).2.2 8 20 10 (by decide +kernel)
      (by simp [Win.eval])⟩
/-- The second run is too short: ValueError; with a calibration without value, AssertionError. -/
example : let S : SigSet ℂ ℚ := ⟨[⟨[List.replicate 100 1], [1], 1, 0, 100⟩, ⟨[List.replicate 29 1], [2], 1, 200, 29⟩], ⟨1, [("E", [0])]⟩⟩
    setCoeffs (fun _ _ => some 1) S (1/10) 2 (1/2) .none = .error .value ∧
    setCoeffs (fun k _ => if k = 2 then none else some 1) S (1/10) 2 (1/2) .none = .error .assertion := by
  have hok : ∃ c, timeToFreq [List.replicate 100 1] 1 (1/10) 2 (1/2) .none = .ok c := by
    have hd : discreteWindow 100 ((1/10) / 1) 2 (1/2) = .ok (8, 20, 10) := by decide +kernel
    unfold timeToFreq
    simp only [commonLength, List.all_nil, if_true, List.length_replicate, hd, Win.eval, Option.any_none, Bool.false_eq_true, if_false,
      List.map_cons, List.map_nil]
    exact ⟨_, rfl⟩
  constructor
  · refine ((C117_fourier _ _ _ _ _ _).2 [_] _ [] rfl ?_).2 _ (by simp)
      (((C117_transform [List.replicate 29 1] 1 (1/10) 2 (1/2) .none).2 29 (by simp) (by simp)).1 _ (by decide +kernel))
    simpa using hok
  · refine ((C117_fourier _ _ _ _ _ _).2 [_] _ [] rfl ?_).1 ⟨2, by simp, by simp⟩
    simpa using hok

/-! Selections -/

/-- **C117.** Selecting no channel from a set that has runs: AssertionError (an unknown identifier: ValueError, C16). -/
theorem C117_select_nothing [Rnd] [One κ] (S : SigSet α κ) (hS : Reach S) (hp : Plain S.tags) (sel : ChanSel)
    (hr : S.runs ≠ []) (hk : SelKnown S.tags S.nbChannels sel) (hne : ¬ ∃ i, SelDesig S.tags S.nbChannels sel i) :
    S.selectChannels sel = .error .assertion := by
  have hI := reach_sinv hS
  have hn := nbChannels_tags hI hp
  rw [hn] at hk hne
  obtain ⟨idx, h1, h2, h3, h4⟩ := chanIndices_ok hI.inv hp hk
  have : idx = [] := by
    apply List.eq_nil_iff_forall_not_mem.2
    intro i hi
    exact hne ⟨i, (h3 i).1 hi⟩
  subst this
  obtain ⟨s, l, hl⟩ := List.exists_cons_of_ne_nil hr
  unfold selectChannels
  rw [hn, h1]
  simp only [selectTags_eq hI.inv hp, hl, mapE]
  simp [Sync.select, mapE, Sync.new, dedup]

example : SelKnown exC.tags exC.nbChannels (.many []) ∧ exC.selectChannels (.many []) = .error .assertion ∧
    exC.selectChannels (.one (.name "X")) = .error .value := by
  refine ⟨?_, by decide +kernel, by decide +kernel⟩
  simp [SelKnown]

/-- **C117.** Channels of a signal by number: IndexError for a number outside, AssertionError for no number. -/
theorem C117_channels [One κ] (s : Sync α κ) (l : List Int) :
    ((∃ i ∈ l, i < -(s.data.length : ℤ) ∨ (s.data.length : ℤ) ≤ i) → s.select l = .error .index) ∧
    (l = [] → s.select l = .error .assertion) := by
  have hkind : ∀ i, (∃ v, pyGet s.data i = .ok v ∧ -(s.data.length : ℤ) ≤ i ∧ i < s.data.length) ∨ pyGet s.data i = .error .index := by
    intro i
    unfold pyGet
    dsimp only
    by_cases h0 : i < 0
    · simp only [h0, if_true]
      split
      · exact .inr rfl
      · rename_i h1
        cases hv : s.data[(i + (s.data.length : ℤ)).toNat]? with
        | none => exact .inr rfl
        | some v => exact .inl ⟨v, rfl, by omega, by omega⟩
    · simp only [h0, if_false]
      cases hv : s.data[i.toNat]? with
      | none => exact .inr rfl
      | some v =>
        have := (List.getElem?_eq_some_iff.1 hv).1
        exact .inl ⟨v, rfl, by omega, by omega⟩
  constructor
  · rintro ⟨i, hi, hout⟩
    unfold Sync.select
    cases hm : mapE (pyGet s.data) l with
    | ok r =>
      obtain ⟨v, _, hv⟩ := mapE_ok_forall hm i hi
      rcases hkind i with ⟨_, _, h1, h2⟩ | h
      · omega
      · rw [h] at hv; simp at hv
    | error e =>
      obtain ⟨a, _, ha⟩ := mapE_error hm
      rcases hkind a with ⟨v, h, _⟩ | h
      · rw [h] at ha; simp at ha
      · rw [h] at ha
        simp only [Except.error.injEq] at ha
        rw [← ha]
  · rintro rfl
    simp [Sync.select, mapE, Sync.new, dedup]

example : let s : Sync Int ℚ := ⟨[[1, 2], [3, 4]], [1, 1], 1, 0, 2⟩
    s.select [0, 2] = .error .index ∧ s.select [-3] = .error .index ∧ s.select [] = .error .assertion ∧ s.select [-2] =
      .ok ⟨[[1, 2]], [1], 1, 0, 2⟩ := by decide +kernel

/-- `build` on runs that fit the tags raises nothing but AssertionError. -/
theorem build_only_assertion [Rnd] {t : Tags} (hi : t.Inv) (hp : Plain t) {runs : List (Sync α κ)} (hr : ∀ r ∈ runs, r.rate ≠ 0)
    (hn : ∀ r ∈ runs, t.n ≤ r.data.length) {e : Err} (h : build (.tags t) runs = .error e) : e = .assertion := by
  unfold build at h
  split at h
  · simpa [eq_comm] using h
  · have hm : mapE Sync.interval runs = .ok (runs.map (fun r => (r.start, r.stopAs))) := by
      refine mapE_of_forall (fun r hr' => ?_)
      exact Sync.interval_as (hr r hr')
    rw [hm] at h
    simp only at h
    split at h
    · have hc : chanCount (sortRuns runs) ≠ 0 → t.n ≤ chanCount (sortRuns runs) := by
        cases hs : sortRuns runs with
        | nil => simp [chanCount]
        | cons r l =>
          intro _
          exact hn r (mem_sortRuns.1 (by rw [hs]; simp))
      obtain ⟨m, hm, _⟩ := mkTags_plain hi hp hc
      have : mkTags (chanCount (sortBy (fun a b => decide (a.start ≤ b.start)) runs)) (.tags t) = .ok { n := m, tags := t.tags } := hm
      rw [this] at h
      simp at h
    · simpa [eq_comm] using h

/-- **C117.** A run number outside the set: IndexError; a run of two samples or more designated twice by valid numbers:
AssertionError. -/
theorem C117_runs [One κ] (S : SigSet α κ) (hS : Reach S) (hp : Plain S.tags) (l : List Int) :
    ((∃ i ∈ l, ∀ j, ¬ At S.runs.length i j) → S.selectRuns (.list l) = .error .index) ∧
    ((∀ i ∈ l, ∃ j, At S.runs.length i j) →
      ∀ (p q i : Nat) (_ : p < q) (hq : q < l.length), At S.runs.length l[p] i → At S.runs.length l[q] i →
      ∀ s, S.runs[i]? = some s → 0 < s.rate ∧ 1 < s.size → S.selectRuns (.list l) = .error .assertion) := by
  have hkind : ∀ i e, npIndex S.runs.length i = .error e → e = .index := by
    intro i e h
    unfold npIndex at h
    dsimp only at h
    generalize (if i < 0 then i + (S.runs.length : ℤ) else i) = j at h
    split at h
    · simp at h
    · simpa [eq_comm] using h
  constructor
  · rintro ⟨i, hi, hno⟩
    cases hm : mapE (npIndex S.runs.length) l with
    | ok idx =>
      obtain ⟨j, _, hj⟩ := mapE_ok_forall hm i hi
      exact absurd (npIndex_ok.1 hj) (hno j)
    | error e =>
      obtain ⟨a, _, ha⟩ := mapE_error hm
      have := hkind a e ha
      subst this
      unfold selectRuns
      simp only [RunIdx.resolve, hm]
  · intro hall p q i hpq hq h1 h2 s hs hpos
    obtain ⟨e, he⟩ := C18_repeated_run_raises S l p q i hpq hq h1 h2 s hs hpos
    rw [he]
    congr 1
    have hI := reach_sinv hS
    unfold selectRuns at he
    cases hm : RunIdx.resolve S.runs.length (.list l) with
    | error x =>
      obtain ⟨a, ha, hae⟩ := mapE_error hm
      obtain ⟨j, hj⟩ := hall a ha
      rw [npIndex_ok.2 hj] at hae
      simp at hae
    | ok idx =>
      rw [hm] at he
      simp only at he
      refine build_only_assertion hI.inv hp ?_ ?_ he
      · intro r hr
        obtain ⟨j, _, hj⟩ := List.mem_filterMap.1 hr
        exact hI.ok.rate r (List.mem_of_getElem? hj)
      · intro r hr
        obtain ⟨j, _, hj⟩ := List.mem_filterMap.1 hr
        exact (hI.n r (List.mem_of_getElem? hj)).le

example : exRuns.selectRuns (.list [0, 3]) = .error .index ∧ exRuns.selectRuns (.list [0, -3]) = .error .assertion := by decide +kernel
example : At exRuns.runs.length 0 0 ∧ At exRuns.runs.length (-3) 0 ∧ ∀ j, ¬ At exRuns.runs.length 3 j := by
  refine ⟨by simp [At, exRuns], by simp [At, exRuns], fun j => ?_⟩
  simp only [At, exRuns, List.length_cons, List.length_nil]
  omega

/-! Combining sets -/

/-- **C117.** `S.join(T)`, for two sets with runs: AssertionError when the tags of `T` cannot be renumbered to those of `S`;
KeyError when they can but a channel of `T` has no name; ValueError when `T` has less channels than `S`; and in the other cases
(runs overlap) AssertionError only. -/
theorem C117_join [One κ] (S T : SigSet α κ) (hS : Reach S) (hp : Plain S.tags) (hT : Reach T) (hr : T.runs ≠ []) :
    (¬ Renumbers S.tags T.tags → S.join [.set T] = .error .assertion) ∧
    (Renumbers S.tags T.tags → ¬ (SameTags S.tags T.tags ∧ S.tags.n = T.nbChannels) → ¬ AllTagged S.tags T.nbChannels →
      S.join [.set T] = .error .key) ∧
    (Renumbers S.tags T.tags → AllTagged S.tags T.nbChannels → T.nbChannels < S.tags.n →
      S.join [.set T] = .error .value) ∧
    (Renumbers S.tags T.tags → (SameTags S.tags T.tags ∨ AllTagged S.tags T.nbChannels) → S.tags.n = T.nbChannels →
      ∀ e, S.join [.set T] = .error e → e = .assertion) := by
  have hI := reach_sinv hS
  have hJ := reach_sinv hT
  obtain ⟨s0, hs0⟩ := List.exists_mem_of_ne_nil _ hr
  have hTn : T.tags.n = T.nbChannels := by rw [hJ.n s0 hs0, nbChannels_eq hJ hs0]
  have hself : argRuns (.tags S.tags) (.set S) = .ok S.runs := by
    have : S.tags.eq S.tags = true := (tags_eq_iff_plain hI.inv hI.inv hp).2 ⟨fun _ => rfl, rfl⟩
    simp only [argRuns, reorder, reorderMap, tagsEq, this, if_true]
  have herr : ∀ e, T.reorder (.tags S.tags) = .error e → S.join [.set T] = .error e := by
    intro e h
    unfold SigSet.join SigSet.new
    simp only [mapE, hself]
    simp only [argRuns, h]
  have heq := tags_eq_iff_plain (t := S.tags) (t' := T.tags) hI.inv hJ.inv hp
  have hsame : SameTags S.tags T.tags → Renumbers S.tags T.tags := by
    intro h
    refine ⟨fun k => by rw [h k], ?_, ?_⟩
    · intro k v w hv hw
      rw [h k, hw] at hv
      simp only [Except.ok.injEq] at hv
      rw [hv]
    · intro k v w k' v' w' j j' c hv hw hv' hw' hj hj'
      rw [h k, hw] at hv
      rw [h k', hw'] at hv'
      simp only [Except.ok.injEq] at hv hv'
      subst hv; subst hv'
      rw [hj, hj']
  refine ⟨?_, ?_, ?_, ?_⟩
  · intro h
    have he : ¬ T.tags.eq S.tags = true := fun hc => h (hsame ((heq.1 hc).1))
    exact herr _ ((reorder_tags hI.inv hp hJ hr he).1 h)
  · intro h hne ha
    have he : ¬ T.tags.eq S.tags = true := by
      rw [heq]
      rintro ⟨a, b⟩
      exact hne ⟨a, by omega⟩
    exact herr _ ((reorder_tags hI.inv hp hJ hr he).2.1 h ha)
  · intro h ha hlt
    have he : ¬ T.tags.eq S.tags = true := by
      rw [heq]
      rintro ⟨-, b⟩
      omega
    exact herr _ ((reorder_tags hI.inv hp hJ hr he).2.2.1 h ha hlt)
  · intro h hor hn e hj
    have hok : ∃ T', T.reorder (.tags S.tags) = .ok T' := by
      by_cases he : T.tags.eq S.tags = true
      · exact ⟨T, by simp only [reorder, reorderMap, tagsEq, he, if_true]⟩
      · rcases hor with hs | ha
        · exact absurd (heq.2 ⟨hs, by omega⟩) he
        · exact (reorder_tags hI.inv hp hJ hr he).2.2.2 h ha (by omega)
    obtain ⟨T', hT'⟩ := hok
    have hm : mapE (argRuns (.tags S.tags)) [.set S, .set T] = .ok [S.runs, T'.runs] := by
      simp only [mapE, hself]
      simp only [argRuns, hT']
    have hF := argRuns_alike hI.inv (args := [.set S, .set T]) (by
      intro U hU
      rcases List.mem_cons.1 hU with h | h
      · cases h; exact hS
      · rw [List.mem_singleton] at h
        cases h; exact hT) hm
    unfold SigSet.join SigSet.new at hj
    rw [hm] at hj
    simp only at hj
    obtain ⟨hm1, -⟩ := forall₂_mems hF
    have hmem : ∀ r ∈ [SigArg.set S, SigArg.set T].flatMap operandRuns, r.rate ≠ 0 ∧ S.tags.n ≤ r.data.length := by
      intro r hr
      simp only [List.flatMap_cons, operandRuns, List.flatMap_nil, List.append_nil, List.mem_append] at hr
      rcases hr with hr | hr
      · exact ⟨hI.ok.rate r hr, (hI.n r hr).le⟩
      · refine ⟨hJ.ok.rate r hr, ?_⟩
        rw [hn, nbChannels_eq hJ hr]
    refine build_only_assertion hI.inv hp ?_ ?_ hj
    · intro r hr
      obtain ⟨s, hs, h1, h2⟩ := hm1 r hr
      simp only [clock, Prod.mk.injEq] at h1
      rw [h1.1]
      exact (hmem s hs).1
    · intro r hr
      obtain ⟨s, hs, h1, h2⟩ := hm1 r hr
      rw [h2]
      exact (hmem s hs).2

/-- Other name, channel without name, missing channel, overlap. -/
example :
    let S : SigSet Int ℚ := ⟨[⟨[[1, 2], [3, 4]], [1, 1], 1, 0, 2⟩], ⟨2, [("E", [0]), ("B", [1])]⟩⟩
    S.join [.set ⟨[⟨[[1, 2], [3, 4]], [1, 1], 1, 9, 2⟩], ⟨2, [("E", [0]), ("H", [1])]⟩⟩] = .error .assertion ∧
    S.join [.set ⟨[⟨[[1, 2], [3, 4], [5, 6]], [1, 1, 1], 1, 9, 2⟩], ⟨3, [("E", [0]), ("B", [1])]⟩⟩] = .error .key ∧
    S.join [.set ⟨[⟨[[1, 2], [3, 4]], [1, 1], 1, 0, 2⟩], ⟨2, [("E", [1]), ("B", [0])]⟩⟩] = .error .assertion ∧
    (SigSet.mk [] ⟨2, [("E", [0])]⟩ : SigSet Int ℚ).join [.set ⟨[⟨[[1, 2]], [1], 1, 0, 2⟩], ⟨1, [("E", [0])]⟩⟩] = .error .value := by
  decide +kernel

/-- **C117.** `merge` with an operand that has no run: AssertionError when two operands share a name, else ValueError. -/
theorem C117_merge_empty [One κ] (S : SigSet α κ) (others : List (SigSet α κ))
    (hR : ∀ T ∈ S :: others, Reach T) (hp : ∀ T ∈ S :: others, Plain T.tags)
    (hr : ∀ T ∈ S :: others, ∀ s ∈ T.runs, 0 < s.rate) (he : ∃ T ∈ S :: others, T.runs = []) :
    S.merge others = .error (open Classical in if NamesDisjoint (S :: others) then .value else .assertion) := by
  have hI : ∀ T ∈ S :: others, SInv T := fun T hT => reach_sinv (hR T hT)
  unfold SigSet.merge
  by_cases hnd : ((S :: others).flatMap (fun S => S.tags.tags.keys)).Nodup
  · rw [mergeTags_eq hI hp hnd, if_pos ((namesDisjoint_iff hI).1 hnd)]
    simp only
    rw [mergeIntervals_empty he (fun T hT s hs => (hr T hT s hs).ne')]
  · rw [mergeTags_conflict hp hnd, if_neg (fun h => hnd ((namesDisjoint_iff hI).2 h))]

example :
    let S : SigSet Int ℚ := ⟨[⟨[[1, 2]], [1], 1, 0, 2⟩], ⟨1, [("E", [0])]⟩⟩
    S.merge [⟨[], ⟨1, [("B", [0])]⟩⟩] = .error .value ∧ S.merge [⟨[], ⟨1, [("E", [0])]⟩⟩] = .error .assertion := by decide +kernel

/-- **C117.** Excluding a time span from a set without runs: ValueError, whereas extracting one gives the set back without runs. -/
theorem C117_exclude_empty [Rnd] [One κ] (S : SigSet α κ) (hS : Reach S) (hp : Plain S.tags) (h : S.runs = []) (a b : ℚ) :
    S.extractT a b true = .error .value ∧ ∃ R, S.extractT a b false = .ok R ∧ R.runs = [] ∧ SameTags R.tags S.tags := by
  constructor
  · unfold SigSet.extractT
    simp only [h, List.map_nil, npMin, if_true]
  · have hI := reach_sinv hS
    unfold SigSet.extractT SigSet.extractIn
    simp only [h, mapE, Bool.false_eq_true, if_false, List.filter_nil, build_nil hI.inv hp]
    exact ⟨_, rfl, rfl, fun _ => rfl⟩

example :
    let S : SigSet Int ℚ := ⟨[], ⟨1, [("E", [0])]⟩⟩
    S.extractT 0 1 true = .error .value ∧ S.extractT 0 1 false = .ok S := by decide +kernel

/-! Estimations -/

variable {𝕜 : Type} [RCLike 𝕜] {q : ℕ}

/-- **C117.** A transfer function without output: IndexError when no invalid indices are given. -/
theorem C117_no_outputs (inputs : Fin q → List 𝕜) (ws : Weighting σ 𝕜 q) (init : Option (List (Fin q → 𝕜))) (o : Opts) (heap : ℕ → σ) :
    (transferFunction [] inputs ws init .none o heap).1 = .error .index ∧
    ∀ l, l ≠ [] → (transferFunction [] inputs ws init (.each l) o heap).1 = .error .assertion := by
  constructor
  · rfl
  · intro l hl
    obtain ⟨a, l, rfl⟩ := List.exists_cons_of_ne_nil hl
    rfl

/-- Without weight function nor starting value there is no estimate. -/
theorem transferFunction_none (outputs : List (List 𝕜)) (inputs : Fin q → List 𝕜) (N : ℕ) (hq : q ≠ 0) (hne : outputs ≠ [])
    (hN : ∀ y ∈ outputs, y.length = N) (hin : ∀ j, (inputs j).length = N) (o : Opts) (heap : ℕ → σ) :
    transferFunction outputs inputs [] none .none o heap = (.ok (outputs.map (fun _ => (none, []))), heap) := by
  have hloop : ∀ (b : List (Fin q → 𝕜)) (ys : List (List 𝕜)) (n : ℕ), n = ys.length →
      outputsLoop o ([] : Weighting σ 𝕜 q) b (ys.zip ((List.replicate n none).zip (List.replicate n []))) heap =
        (.ok (ys.map (fun _ => (none, []))), heap) := by
    intro b ys
    induction ys with
    | nil => intro n hn; subst hn; rfl
    | cons y ys ih =>
      intro n hn
      subst hn
      simp only [List.length_cons, List.replicate_succ, List.zip_cons_cons, outputsLoop]
      have h1 : oneOutput o ([] : Weighting σ 𝕜 q) b y none [] heap = (.ok (none, []), heap) := by
        rfl
      rw [h1]
      simp only [ih _ rfl, List.map_cons]
  obtain ⟨y, ys, rfl⟩ := List.exists_cons_of_ne_nil hne
  unfold transferFunction
  have hn : InvArg.none.norm (y :: ys).length = .ok (List.replicate (y :: ys).length []) := by
    simp [InvArg.norm]
  rw [hn]
  simp only
  rw [if_neg, if_neg (by simp), if_neg (by simp)]
  · exact hloop _ _ _ rfl
  · simp only [hq, hin, hN y (by simp), ne_eq, not_true_eq_false, exists_false, false_or, List.any_eq_true, decide_eq_true_eq, not_exists,
      not_and, not_not]
    exact hN

/-- **C117.** Without weight function nor starting value, outputs and inputs of one length: `transfer_function` returns `None`s, on
which, for two outputs or more, `transfer_function_real_prob` raises TypeError. -/
theorem C117_real_prob (outputs : List (List ℂ)) (inputs : Fin q → List ℂ) (N : ℕ) (hq : q ≠ 0) (h2 : 2 ≤ outputs.length)
    (hN : ∀ y ∈ outputs, y.length = N) (hin : ∀ j, (inputs j).length = N) (o : Opts) (heap : ℕ → σ) :
    (transferFunction outputs inputs [] none .none o heap).1 = .ok (outputs.map (fun _ => (none, []))) ∧
    (realProb outputs inputs [] none .none o heap).1 = .error .type := by
  have hne : outputs ≠ [] := by
    rintro rfl
    simp at h2
  constructor
  · rw [transferFunction_none outputs inputs N hq hne hN hin o heap]
  · have hout : mapE (realOutput (inputs ⟨0, Nat.pos_of_ne_zero hq⟩).length) outputs =
        .ok (outputs.map (interleave Complex.re Complex.im)) := by
      apply mapE_of_forall
      intro y hy
      unfold realOutput
      rw [if_pos (by rw [hin, hN y hy])]
    have hin2 : ∀ j, (realInputs inputs j).length = 2 * N := by
      intro j
      unfold realInputs
      split <;> rw [interleave_length, hin]
    have hN2 : ∀ y ∈ outputs.map (interleave Complex.re Complex.im), y.length = 2 * N := by
      intro y hy
      obtain ⟨y', hy', rfl⟩ := List.mem_map.1 hy
      rw [interleave_length, hN y' hy']
    unfold realProb
    rw [dif_neg hq, hout]
    simp only
    rw [transferFunction_none (σ := σ) _ (realInputs inputs) (2 * N) (by omega) (by simpa using hne) hN2 hin2]
    obtain ⟨y, ys, rfl⟩ := List.exists_cons_of_ne_nil hne
    simp

example : (realProb [[1, 2], [3, 4]] (fun _ : Fin 1 => [1, 2]) [] none .none {} (fun _ => ())).1 = .error .type :=
  (C117_real_prob _ _ 2 (by simp) (by simp) (by simp) (by simp) {} _).2

/-- **C117.** A bounded influence step around a function that returns no weights: TypeError on its first iteration; and called
for a later iteration without the one before: AssertionError. -/
theorem C117_bounded_influence (inner : WFun σ 𝕜 q) (lower khi : ℝ) (st : Option Prev × σ) (residual : List (Option 𝕜))
    (e : List 𝕜) (b : List (Fin q → 𝕜)) (inv : List ℕ) :
    (∀ s, inner st.2 0 residual e b inv = (.ok none, s) → (bis inner lower khi st 0 residual e b inv).1 = .error .type) ∧
    (∀ it : ℕ, it ≠ 0 → (∀ p, st.1 = some p → (it : ℤ) ≠ 1 + p.it) → (bis inner lower khi st it residual e b inv).1 = .error .assertion) := by
  constructor
  · intro s h
    unfold bis
    simp only [if_true, h]
    rfl
  · intro it hit hp
    unfold bis
    simp only [hit, if_false]
    cases h : st.1 with
    | none => rfl
    | some p =>
      simp only
      rw [if_pos (hp p h)]

example : (bis (σ := Unit) (𝕜 := ℝ) (q := 1) (fun st _ _ _ _ _ => (.ok none, st)) 1 1 (none, ()) 0 [some 1] [1] [fun _ => 1] []).1 = .error .type :=
  (C117_bounded_influence _ _ _ _ _ _ _ _).1 () rfl
example : (bis (σ := Unit) (𝕜 := ℝ) (q := 1) (fun st _ _ _ _ _ => (.ok none, st)) 1 1 (none, ()) 1 [some 1] [1] [fun _ => 1] []).1 = .error .assertion :=
  (C117_bounded_influence _ _ _ _ _ _ _ _).2 1 (by simp) (by simp)

end Razorback.Props
