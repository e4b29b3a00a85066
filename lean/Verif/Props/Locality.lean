/-
Property C105: Fourier coefficients depend on their own window only, are bounded by the samples and ignore other tones.
-/
import Verif.Props.Fourier
import Verif.Props.Sync

namespace Razorback.Props
open Razorback Razorback.Spec Razorback.Fourier

theorem fourierAt_congr {nf : ℚ} {L : ℕ} {w : Option (List ℂ)} {y z : List ℂ} {m n : ℕ}
    (h : ∀ j < L, y.getD (m + j) 0 = z.getD (n + j) 0) : fourierAt nf L w y m = fourierAt nf L w z n := by
  unfold fourierAt
  congr 1
  refine Finset.sum_congr rfl (fun j hj => ?_)
  rw [h j (Finset.mem_range.1 hj)]

/-- **C105.** A coefficient depends on the samples of its own window of its own channel only: two data sets which agree there have the same
coefficient there, whatever their other samples, other channels and lengths. -/
theorem C105_local (data data' : List (List ℂ)) (fs freq nper overlap : ℚ) (win : Win) (res res' : List (List ℂ))
    (Nw Lw shift Nw' Lw' shift' : ℕ) (h : timeToFreq data fs freq nper overlap win = .ok (res, (Nw, Lw, shift)))
    (h' : timeToFreq data' fs freq nper overlap win = .ok (res', (Nw', Lw', shift'))) :
    Lw = Lw' ∧ shift = shift' ∧
    ∀ (c c' : ℕ) y y' (k k' : ℕ), data[c]? = some y → data'[c']? = some y' → k < Nw → k' < Nw' →
      (∀ j < Lw, y[k * shift + j]? = y'[k' * shift + j]?) → ∃ r r', res[c]? = some r ∧ res'[c']? = some r' ∧ r[k]? = r'[k']? := by
  have a := C38_time_to_freq _ _ _ _ _ _ _ _ _ _ h
  have a' := C38_time_to_freq _ _ _ _ _ _ _ _ _ _ h'
  obtain ⟨N, hne, hlen, ⟨n, hd, -⟩, hw, -⟩ := timeToFreq_ok h
  obtain ⟨N', hne', hlen', ⟨n', hd', -⟩, hw', -⟩ := timeToFreq_ok h'
  obtain ⟨-, -, ⟨b1, b2⟩, ⟨b3, b4⟩, -⟩ := C37_discrete_window _ _ _ _ _ _ _ hd
  obtain ⟨-, -, ⟨c1, c2⟩, ⟨c3, c4⟩, -⟩ := C37_discrete_window _ _ _ _ _ _ _ hd'
  have hL : Lw = Lw' := le_antisymm (b2 _ c1) (c2 _ b1)
  subst hL
  have hs : shift = shift' := by
    have h1 : (shift : ℚ) < shift' + 1 := lt_of_le_of_lt b3 c4
    have h2 : (shift' : ℚ) < shift + 1 := lt_of_le_of_lt c3 b4
    have h1' : shift < shift' + 1 := by exact_mod_cast h1
    have h2' : shift' < shift + 1 := by exact_mod_cast h2
    omega
  subst hs
  refine ⟨rfl, rfl, ?_⟩
  intro c c' y y' k k' hy hy' hk hk' hag
  obtain ⟨⟨r, hr, -, hr2⟩, -⟩ := a.2.2.2.2 c y hy
  obtain ⟨⟨r', hr', -, hr2'⟩, -⟩ := a'.2.2.2.2 c' y' hy'
  refine ⟨r, r', hr, hr', ?_⟩
  rw [hr2 k hk, hr2' k' hk', Option.some.injEq]
  apply fourierAt_congr
  intro j hj
  rw [List.getD_eq_getElem?_getD, List.getD_eq_getElem?_getD, hag j hj]

/-- **C105.** The coefficients of the part of a run that begins with window `k` are those of the run from window `k` on, as many as
there are complete windows in the part; at least two are needed. -/
theorem C105_extract {κ : Type _} [One κ] (cal : κ → ℚ → Option ℂ) (s : Sync ℂ κ) (hw : WF s) (hr : s.rate ≠ 0)
    (freq nper overlap : ℚ) (win : Win) (p : List (List ℂ)) (Nw Lw shift : ℕ)
    (h : syncCoeffs cal s freq nper overlap win = .ok (p, (Nw, Lw, shift))) (k m : ℕ) (hm : Lw + shift ≤ m)
    (hkm : k * shift + m ≤ s.size) :
    ∃ t n, s.extractI (some (k * shift : ℕ)) (some (k * shift + m : ℕ)) = .ok t ∧
      (∀ j : ℕ, j < n ↔ j * shift + Lw ≤ m) ∧
      syncCoeffs cal t freq nper overlap win = .ok (p.map (fun l => (l.drop k).take n), (n, Lw, shift)) := by
  obtain ⟨hcal, raw, ht, rfl⟩ := syncCoeffs_ok.1 h
  have h38 := C38_time_to_freq _ _ _ _ _ _ _ _ _ _ ht
  obtain ⟨N, hne, hlen, ⟨n, hd, hn⟩, hwin, rfl⟩ := timeToFreq_ok ht
  obtain ⟨d1, d2, ⟨b1, b2⟩, ⟨b3, b4⟩, hs1, hsL, -, -, -⟩ := C37_discrete_window _ _ _ _ _ _ _ hd
  -- the windows of the part
  obtain ⟨n', hd'⟩ : ∃ n', discreteWindow m (freq / s.rate) nper overlap = .ok (n', Lw, shift) := by
    cases hdm : discreteWindow m (freq / s.rate) nper overlap with
    | ok r =>
      obtain ⟨n', L', s'⟩ := r
      obtain ⟨-, -, ⟨c1, c2⟩, ⟨c3, c4⟩, -⟩ := C37_discrete_window _ _ _ _ _ _ _ hdm
      have hL : Lw = L' := le_antisymm (b2 _ c1) (c2 _ b1)
      subst hL
      have hs : shift = s' := by
        have h1 : (shift : ℚ) < s' + 1 := lt_of_le_of_lt b3 c4
        have h2 : (s' : ℚ) < shift + 1 := lt_of_le_of_lt c3 b4
        have h1' : shift < s' + 1 := by exact_mod_cast h1
        have h2' : s' < shift + 1 := by exact_mod_cast h2
        omega
      subst hs
      exact ⟨n', rfl⟩
    | error x =>
      exfalso
      have h1 := (C37_raises_iff m (freq / s.rate) nper overlap).1 ⟨x, hdm⟩
      have h0 : ¬ ∃ e, discreteWindow N (freq / s.rate) nper overlap = .error e := by
        rintro ⟨e, he⟩; rw [hd] at he; simp at he
      rw [C37_raises_iff] at h0
      push Not at h0
      obtain ⟨a1, a2, a3, a4⟩ := h0
      rcases h1 with h1 | h1 | h1 | h1
      · exact h1 a1
      · exact h1 a2
      · linarith
      · rw [discreteWindow_eq a1 a2 a3] at hd
        split at hd
        · simp at hd
        · simp only [Except.ok.injEq, Prod.mk.injEq] at hd
          omega
  obtain ⟨-, -, -, -, -, -, hn1, hfit, hnot⟩ := C37_discrete_window _ _ _ _ _ _ _ hd'
  have hks : k * shift < s.size := by omega
  have hext := Sync.extractI_strict (i := ((k * shift : ℕ) : Int)) (j := ((k * shift + m : ℕ) : Int)) hw hr
    (by omega) (by omega) (by omega) (by omega)
  have hcut : ((k * shift + m : ℕ) : Int).toNat - ((k * shift : ℕ) : Int).toNat = m := by omega
  rw [hcut, Int.toNat_natCast] at hext
  have hcount : ∀ j : ℕ, j < n' + 1 ↔ j * shift + Lw ≤ m := by
    intro j
    constructor
    · intro hj
      have : j * shift ≤ n' * shift := Nat.mul_le_mul_right _ (by omega)
      omega
    · intro hj
      by_contra hc
      have : (n' + 1) * shift ≤ j * shift := Nat.mul_le_mul_right _ (by omega)
      omega
  refine ⟨_, n' + 1, hext, hcount, ?_⟩
  obtain ⟨res, hres⟩ := timeToFreq_of (data := (s.cut (k * shift) m).data) (fs := s.rate) (win := win) (N := m) (by simpa [Sync.cut] using hne)
    (by
      intro y hy
      obtain ⟨d, hd, rfl⟩ := List.mem_map.1 hy
      rw [List.length_take, List.length_drop, hw.rect d hd]
      omega) hd' hwin
  obtain ⟨-, -, -, -, -, rfl⟩ := timeToFreq_ok hres
  rw [syncCoeffs_ok]
  refine ⟨hcal, _, hres, ?_⟩
  simp only [Sync.cut, List.map_map]
  apply List.ext_getElem?
  intro c
  simp only [List.getElem?_map, List.getElem?_zipWith]
  cases hc : s.data[c]? with
  | none => simp
  | some y =>
    cases hv : s.cals[c]? with
    | none => simp
    | some v =>
      simp only [Option.map_some, Option.some.injEq, Function.comp]
      rw [← List.map_drop, ← List.map_take]
      congr 1
      have hylen : y.length = s.size := hw.rect y (List.mem_of_getElem? hc)
      have hNw := (h38.2.2.2.2 c y hc).2
      apply List.ext_getElem?
      intro j
      rw [List.getElem?_take, List.getElem?_map]
      split
      · rename_i hj
        have hj2 : k + j < Nw := by
          rw [hNw, hylen, Nat.add_mul]
          have := (hcount j).1 hj
          omega
        rw [List.getElem?_drop, List.getElem?_map, List.getElem?_range hj2, List.getElem?_range hj]
        simp only [Option.map_some, Option.some.injEq]
        apply fourierAt_congr
        intro i hi
        have := (hcount j).1 hj
        rw [List.getD_eq_getElem?_getD, List.getD_eq_getElem?_getD, List.getElem?_take, if_pos (by omega), List.getElem?_drop]
        congr 2
        rw [Nat.add_mul]
        omega
      · rename_i hj
        rw [List.getElem?_eq_none (by simpa using hj)]
        rfl

/-- **C105.** Without window function no coefficient is larger than twice the largest sample of its window; with one, than twice the
largest sample times the mean absolute weight. -/
theorem C105_bounded (data : List (List ℂ)) (fs freq nper overlap : ℚ) (win : Win) (res : List (List ℂ))
    (Nw Lw shift : ℕ) (h : timeToFreq data fs freq nper overlap win = .ok (res, (Nw, Lw, shift)))
    (c : ℕ) (y r : List ℂ) (hy : data[c]? = some y) (hr : res[c]? = some r) (k : ℕ) (z : ℂ) (hz : r[k]? = some z) (A : ℝ)
    (hA : ∀ j < Lw, ∀ v, y[k * shift + j]? = some v → ‖v‖ ≤ A) :
    (win.eval Lw = none → ‖z‖ ≤ 2 * A) ∧
    ∀ w, win.eval Lw = some w → ‖z‖ ≤ 2 * A * ((w.map (fun v => ‖v‖)).sum / Lw) := by
  obtain ⟨-, hs1, hL1, -, h38⟩ := C38_time_to_freq _ _ _ _ _ _ _ _ _ _ h
  obtain ⟨⟨r', hr', hlen, hval⟩, hfit⟩ := h38 c y hy
  rw [hr] at hr'
  injection hr' with hr'
  subst hr'
  have hk : k < Nw := by
    have := (List.getElem?_eq_some_iff.1 hz).1
    omega
  have hv := hval k hk
  rw [hz] at hv
  injection hv with hv
  subst hv
  obtain ⟨-, -, -, -, hwin, -⟩ := timeToFreq_ok h
  have hkf := (hfit k).1 hk
  have hLpos : (0 : ℝ) < Lw := by exact_mod_cast hL1
  have key : ‖fourierAt (freq / fs) Lw (win.eval Lw) y (k * shift)‖ ≤
      2 / Lw * ∑ j ∈ Finset.range Lw, ‖winAt (win.eval Lw) j‖ * A := by
    unfold fourierAt
    rw [norm_mul, norm_div, Complex.norm_natCast]
    have h2 : ‖(2 : ℂ)‖ = 2 := by simp
    rw [h2]
    refine mul_le_mul_of_nonneg_left ?_ (by positivity)
    refine (norm_sum_le _ _).trans (Finset.sum_le_sum ?_)
    intro j hj
    have hj := Finset.mem_range.1 hj
    rw [norm_mul, norm_mul]
    have h1 : ‖Complex.exp (-(2 * Real.pi * Complex.I * ((freq / fs : ℚ) : ℂ) * (j : ℂ)))‖ = 1 := by
      rw [show (-(2 * Real.pi * Complex.I * ((freq / fs : ℚ) : ℂ) * (j : ℂ))) =
        ((-(2 * Real.pi * ((freq / fs : ℚ) : ℝ) * j) : ℝ) : ℂ) * Complex.I by push_cast; ring]
      exact Complex.norm_exp_ofReal_mul_I _
    rw [h1, mul_one]
    refine mul_le_mul_of_nonneg_left ?_ (norm_nonneg _)
    have hin : k * shift + j < y.length := by omega
    have := hA j hj _ (List.getElem?_eq_getElem hin)
    rwa [List.getD_eq_getElem?_getD, List.getElem?_eq_getElem hin]
  constructor
  · intro hnone
    refine key.trans (le_of_eq ?_)
    rw [hnone]
    simp only [winAt, norm_one, one_mul, Finset.sum_const, Finset.card_range, nsmul_eq_mul]
    field_simp
  · intro w hw
    refine key.trans (le_of_eq ?_)
    rw [hw, ← Finset.sum_mul]
    have hwl := hwin w hw
    have hsum : ∑ j ∈ Finset.range Lw, ‖winAt (some w) j‖ = (w.map (fun v => ‖v‖)).sum := by
      rw [← hwl, Finset.sum_range, ← List.sum_ofFn]
      congr 1
      apply List.ext_getElem
      · simp
      · intro i h1 h2
        have : i < w.length := by simpa using h1
        simp [winAt, List.getD_eq_getElem?_getD, List.getElem?_eq_getElem this]
    rw [hsum]
    field_simp

/-- Samples of a sum of tones: amplitude, phase and frequency, in cycles per sample, of each; frequency zero is a constant. -/
noncomputable def tones (l : List (ℝ × ℝ × ℚ)) (N : ℕ) : List ℂ :=
  (List.range N).map (fun n : ℕ => (((l.map (fun t => t.1 * Real.cos (2 * Real.pi * t.2.2 * n + t.2.1))).sum : ℝ) : ℂ))

theorem geom_zero' {f : ℚ} {L : ℕ} {r : ℤ} (hr : (L : ℚ) * f = r) (hnot : ¬ (L : ℤ) ∣ r) :
    ∑ j ∈ Finset.range L, Complex.exp (2 * Real.pi * Complex.I * (f : ℂ) * (j : ℂ)) = 0 := by
  have hL : (L : ℚ) ≠ 0 := by
    intro h0
    rw [h0, zero_mul] at hr
    have : r = 0 := by exact_mod_cast hr.symm
    exact hnot (this ▸ dvd_zero _)
  have hz : ∀ j : ℕ, Complex.exp (2 * Real.pi * Complex.I * (f : ℂ) * (j : ℂ)) =
      Complex.exp (2 * Real.pi * Complex.I * (f : ℂ)) ^ j := by
    intro j
    rw [← Complex.exp_nat_mul]
    congr 1
    ring
  simp only [hz]
  have hne : Complex.exp (2 * Real.pi * Complex.I * (f : ℂ)) ≠ 1 := by
    intro he
    obtain ⟨n, hn⟩ := Complex.exp_eq_one_iff.1 he
    have h2 : ((f : ℂ)) = (n : ℂ) := by
      have : (2 * Real.pi * Complex.I : ℂ) * (f : ℂ) = (2 * Real.pi * Complex.I) * n := by
        rw [hn]; ring
      exact mul_left_cancel₀ Complex.two_pi_I_ne_zero this
    have h3 : f = (n : ℚ) := by exact_mod_cast h2
    apply hnot
    refine ⟨n, ?_⟩
    rw [h3] at hr
    exact_mod_cast hr.symm
  rw [geom_sum_eq hne]
  have hone : Complex.exp (2 * Real.pi * Complex.I * (f : ℂ)) ^ L = 1 := by
    rw [← Complex.exp_nat_mul, Complex.exp_eq_one_iff]
    refine ⟨r, ?_⟩
    have hp' : (L : ℂ) * (f : ℂ) = (r : ℂ) := by exact_mod_cast congrArg (fun q : ℚ => (q : ℂ)) hr
    rw [← hp']
    ring
  rw [hone]
  simp

theorem fourierAt_other (a φ : ℝ) {nf g : ℚ} {L N m : ℕ} {p r : ℤ} (hp : (L : ℚ) * nf = p) (hr : (L : ℚ) * g = r)
    (h1 : ¬ (L : ℤ) ∣ r - p) (h2 : ¬ (L : ℤ) ∣ r + p) (hm : m + L ≤ N) :
    fourierAt nf L none (tone a φ g N) m = 0 := by
  have hy : ∀ j ∈ Finset.range L, winAt none j * Complex.exp (-(2 * Real.pi * Complex.I * (nf : ℂ) * (j : ℂ))) *
      (tone a φ g N).getD (m + j) 0 =
      a / 2 * Complex.exp (Complex.I * (φ + 2 * Real.pi * g * m)) *
        Complex.exp (2 * Real.pi * Complex.I * ((g - nf : ℚ) : ℂ) * (j : ℂ)) +
      a / 2 * Complex.exp (-(Complex.I * (φ + 2 * Real.pi * g * m))) *
        Complex.exp (2 * Real.pi * Complex.I * ((-g - nf : ℚ) : ℂ) * (j : ℂ)) := by
    intro j hj
    have hj := Finset.mem_range.1 hj
    have hg : (tone a φ g N).getD (m + j) 0 = a * Complex.cos (2 * Real.pi * g * (m + j : ℕ) + φ) := by
      unfold tone
      rw [List.getD_eq_getElem?_getD, List.getElem?_map, List.getElem?_range (by omega)]
      simp
    rw [hg, Complex.cos, winAt, one_mul]
    rw [mul_assoc (a / 2 : ℂ), mul_assoc (a / 2 : ℂ), ← Complex.exp_add, ← Complex.exp_add]
    have e1 : Complex.exp (-(2 * Real.pi * Complex.I * (nf : ℂ) * (j : ℂ))) *
        Complex.exp ((2 * Real.pi * g * (m + j : ℕ) + φ) * Complex.I) =
        Complex.exp (Complex.I * (φ + 2 * Real.pi * g * m) + 2 * Real.pi * Complex.I * ((g - nf : ℚ) : ℂ) * (j : ℂ)) := by
      rw [← Complex.exp_add]; congr 1; push_cast; ring
    have e2 : Complex.exp (-(2 * Real.pi * Complex.I * (nf : ℂ) * (j : ℂ))) *
        Complex.exp (-(2 * Real.pi * g * (m + j : ℕ) + φ) * Complex.I) =
        Complex.exp (-(Complex.I * (φ + 2 * Real.pi * g * m)) + 2 * Real.pi * Complex.I * ((-g - nf : ℚ) : ℂ) * (j : ℂ)) := by
      rw [← Complex.exp_add]; congr 1; push_cast; ring
    rw [← e1, ← e2]
    ring
  unfold fourierAt
  rw [Finset.sum_congr rfl hy, Finset.sum_add_distrib, ← Finset.mul_sum, ← Finset.mul_sum,
    geom_zero' (r := r - p) (by push_cast; rw [mul_sub, hr, hp]) h1,
    geom_zero' (r := -r - p) (by push_cast; rw [mul_sub, mul_neg, hr, hp]) (by
      intro h
      apply h2
      have := (dvd_neg (α := ℤ)).2 h
      rwa [show -(-r - p) = r + p by ring] at this)]
  simp

theorem tones_cons (t : ℝ × ℝ × ℚ) (l : List (ℝ × ℝ × ℚ)) (N : ℕ) :
    tones (t :: l) N = List.zipWith (fun u v => 1 * u + 1 * v) (tone t.1 t.2.1 t.2.2 N) (tones l N) := by
  unfold tones tone
  rw [List.zipWith_map, List.zipWith_self]
  apply List.map_congr_left
  intro n _
  simp

theorem fourierAt_tones_other (l : List (ℝ × ℝ × ℚ)) {nf : ℚ} {L N m : ℕ} {p : ℤ} (hp : (L : ℚ) * nf = p)
    (hl : ∀ t ∈ l, ∃ r : ℤ, (L : ℚ) * t.2.2 = r ∧ ¬ (L : ℤ) ∣ r - p ∧ ¬ (L : ℤ) ∣ r + p) (hm : m + L ≤ N) :
    fourierAt nf L none (tones l N) m = 0 := by
  induction l with
  | nil =>
    unfold fourierAt
    rw [Finset.sum_eq_zero, mul_zero]
    intro j hj
    have hj := Finset.mem_range.1 hj
    have : (tones [] N).getD (m + j) 0 = 0 := by
      unfold tones
      rw [List.getD_eq_getElem?_getD, List.getElem?_map, List.getElem?_range (by omega)]
      simp
    rw [this, mul_zero]
  | cons t l ih =>
    obtain ⟨r, h1, h2, h3⟩ := hl t (by simp)
    rw [tones_cons, fourierAt_comb _ _ _ _ _ _ _ (by simp [tone, tones]), fourierAt_other _ _ hp h1 h2 h3 hm,
      ih (fun t ht => hl t (by simp [ht]))]
    simp

/-- **C105.** Of a sum of tones, without window function and if the window is a whole number of periods of each, the coefficients show
the tone at the frequency asked for, as if it were alone: constants, harmonics and any other tone contribute nothing, except those which
the sampling cannot tell from it. -/
theorem C105_tones (a φ : ℝ) (others : List (ℝ × ℝ × ℚ)) (N : ℕ) (fs freq nper overlap : ℚ) (res : List (List ℂ)) (Nw Lw shift : ℕ)
    (h : timeToFreq [tones ((a, φ, freq / fs) :: others) N] fs freq nper overlap .none = .ok (res, (Nw, Lw, shift)))
    (hnyq : freq / fs < 1 / 2) (p : ℤ) (hp : (Lw : ℚ) * (freq / fs) = p)
    (ho : ∀ t ∈ others, ∃ r : ℤ, (Lw : ℚ) * t.2.2 = r ∧ ¬ (Lw : ℤ) ∣ r - p ∧ ¬ (Lw : ℤ) ∣ r + p) :
    res = [(List.range Nw).map (fun k : ℕ =>
      a * Complex.exp (Complex.I * (φ + 2 * Real.pi * (freq / fs : ℚ) * ((k * shift : ℕ) : ℂ))))] := by
  have h38 := C38_time_to_freq _ _ _ _ _ _ _ _ _ _ h
  obtain ⟨M, hne, hlen, ⟨n, hd, rfl⟩, hw, rfl⟩ := timeToFreq_ok h
  obtain ⟨_, hf, _, _, _, _, _, _, _⟩ := C37_discrete_window M _ _ _ _ _ _ hd
  simp only [List.map_cons, List.map_nil, List.cons.injEq, and_true]
  refine List.map_congr_left (fun k hk => ?_)
  have hk := List.mem_range.1 hk
  have := ((h38.2.2.2.2 0 _ rfl).2 k).1 hk
  have hl : (tones ((a, φ, freq / fs) :: others) N).length = N := by simp [tones]
  rw [hl] at this
  have hwin : Win.eval .none Lw = none := rfl
  rw [hwin, tones_cons, fourierAt_comb _ _ _ _ _ _ _ (by simp [tone, tones]),
    fourierAt_tone a φ hf.1 hnyq h38.2.2.1 hp this, fourierAt_tones_other others hp ho this]
  simp

/-- A tone of period 4 with an offset and a tone of period 2, in windows of 4 samples. -/
example : ∃ res, timeToFreq [tones [(3, 1, 1 / 4 / 1), (7, 0, 0), (5, 2, 1 / 2)] 8] 1 (1 / 4) 1 0 .none = .ok (res, (2, 4, 4)) ∧
    ∀ t ∈ [((7 : ℝ), (0 : ℝ), (0 : ℚ)), (5, 2, 1 / 2)], ∃ r : ℤ, ((4 : ℕ) : ℚ) * t.2.2 = r ∧ ¬ ((4 : ℕ) : ℤ) ∣ r - 1 ∧ ¬ ((4 : ℕ) : ℤ) ∣ r + 1 := by
  obtain ⟨res, h⟩ := timeToFreq_of (data := [tones [(3, 1, 1 / 4 / 1), (7, 0, 0), (5, 2, 1 / 2)] 8]) (N := 8) (win := .none) (by simp)
    (by simp [tones]) exDW (by simp [Win.eval])
  refine ⟨res, h, ?_⟩
  intro t ht
  simp only [List.mem_cons, List.not_mem_nil, or_false] at ht
  rcases ht with rfl | rfl
  · exact ⟨0, by norm_num, by decide, by decide⟩
  · exact ⟨2, by norm_num, by decide, by decide⟩

/-- Two of the three windows of 12 samples, from the second one on. -/
example : ∃ t n, Sync.extractI (κ := ℚ) ⟨[List.replicate 12 (1 : ℂ)], [1], 1, 0, 12⟩ (some ((1 * 4 : ℕ) : Int)) (some ((1 * 4 + 8 : ℕ) : Int)) = .ok t ∧
    (∀ j : ℕ, j < n ↔ j * 4 + 4 ≤ 8) ∧ ∃ p, syncCoeffs (fun _ _ => some 1) t (1 / 4) 1 0 .none = .ok (p, (n, 4, 4)) := by
  have hdw : discreteWindow 12 (1 / 4 / 1) 1 0 = .ok (2, 4, 4) := by decide +kernel
  obtain ⟨res, h⟩ := timeToFreq_of (data := [List.replicate 12 (1 : ℂ)]) (N := 12) (win := .none) (by simp) (by simp) hdw (by simp [Win.eval])
  have h2 : syncCoeffs (fun (_ : ℚ) (_ : ℚ) => some (1 : ℂ)) ⟨[List.replicate 12 (1 : ℂ)], [1], 1, 0, 12⟩ (1 / 4) 1 0 .none =
      .ok (_, (3, 4, 4)) := syncCoeffs_ok.2 ⟨by simp, res, h, rfl⟩
  obtain ⟨t, n, a, b, c⟩ := C105_extract _ _ ⟨by simp, by simp, by simp⟩ (by simp) _ _ _ _ _ _ _ _ h2 1 8 (by norm_num) (by norm_num)
  exact ⟨t, n, a, b, _, c⟩

end Razorback.Props
