/-
Property C122: what white noise in the recordings becomes in the Fourier coefficients, in the estimates and in the reported errors.
-/
import Verif.Props.Unbiased
import Verif.Props.Fourier

namespace Razorback.Props
open Razorback Razorback.Spec Razorback.MEst Razorback.Windows Razorback.Fourier
open scoped Matrix ComplexOrder
open MeasureTheory

theorem no_overlap_shift {n Nw Lw shift : ℕ} {nf nper : ℚ} (h : discreteWindow n nf nper 0 = .ok (Nw, Lw, shift)) : shift = Lw := by
  obtain ⟨-, -, -, ⟨h1, h2⟩, -⟩ := C37_discrete_window _ _ _ _ _ _ _ h
  rw [sub_zero, mul_one] at h1 h2
  have h1' : shift ≤ Lw := by exact_mod_cast h1
  have h2' : Lw < shift + 1 := by exact_mod_cast h2
  omega

theorem overlap_shift {n Nw Lw shift : ℕ} {nf nper overlap : ℚ} (ho : 0 < overlap) (hL : 1 ≤ Lw)
    (h : discreteWindow n nf nper overlap = .ok (Nw, Lw, shift)) : shift < Lw := by
  obtain ⟨-, -, -, ⟨h1, -⟩, -⟩ := C37_discrete_window _ _ _ _ _ _ _ h
  have hL' : (1 : ℚ) ≤ Lw := by exact_mod_cast hL
  have : (shift : ℚ) < Lw := by nlinarith
  exact_mod_cast this

section coefficients
variable {Ω : Type} [MeasurableSpace Ω] {P : Measure Ω} {N : ℕ} {s : ℝ} {η : Ω → ℕ → ℂ}

/-- The number that multiplies sample `j` of a window in its Fourier coefficient. -/
noncomputable def tap (nf : ℚ) (L : ℕ) (w : Option (List ℂ)) (j : ℕ) : ℂ :=
  2 / (L : ℂ) * (winAt w j * Complex.exp (-(2 * Real.pi * Complex.I * (nf : ℂ) * (j : ℂ))))

theorem fourierAt_samples (nf : ℚ) (L : ℕ) (w : Option (List ℂ)) (f : ℕ → ℂ) {m : ℕ} (hm : m + L ≤ N) :
    fourierAt nf L w ((List.range N).map f) m = ∑ j ∈ Finset.range L, tap nf L w j * f (m + j) := by
  unfold fourierAt
  rw [Finset.mul_sum]
  refine Finset.sum_congr rfl (fun j hj => ?_)
  have hj := Finset.mem_range.1 hj
  have : ((List.range N).map f).getD (m + j) 0 = f (m + j) := by
    rw [List.getD_eq_getElem?_getD, List.getElem?_map, List.getElem?_range (by omega)]
    rfl
  rw [this, tap]
  ring

theorem tap_product (nf : ℚ) (L : ℕ) (w : Option (List ℂ)) (i d : ℕ) :
    tap nf L w (i + d) * star (tap nf L w i) =
      4 / (L : ℂ) ^ 2 * Complex.exp (-(2 * Real.pi * Complex.I * (nf : ℂ) * (d : ℂ))) * (winAt w (i + d) * star (winAt w i)) := by
  have hs : star (2 / (L : ℂ)) = 2 / (L : ℂ) := by
    simp only [RCLike.star_def, map_div₀, map_natCast, Complex.conj_ofNat]
  have he : Complex.exp (-(2 * Real.pi * Complex.I * (nf : ℂ) * ((i + d : ℕ) : ℂ))) *
      star (Complex.exp (-(2 * Real.pi * Complex.I * (nf : ℂ) * (i : ℂ)))) =
      Complex.exp (-(2 * Real.pi * Complex.I * (nf : ℂ) * (d : ℂ))) := by
    rw [RCLike.star_def, ← Complex.exp_conj, ← Complex.exp_add]
    congr 1
    simp only [map_neg, map_mul, Complex.conj_I, Complex.conj_ofReal, Complex.conj_ofNat, map_natCast, map_ratCast]
    push_cast
    ring
  rw [tap, tap, star_mul', star_mul', hs, ← he]
  ring

theorem white_taps_memLp (hη : White P N s η) (α : ℕ → ℂ) {m L : ℕ} (hm : m + L ≤ N) :
    MemLp (fun ω => ∑ j ∈ Finset.range L, α j * η ω (m + j)) 2 P :=
  memLp_finsetSum _ (fun j hj => (hη.square (m + j) (by have := Finset.mem_range.1 hj; omega)).const_mul (α j))

theorem white_taps_mean [IsProbabilityMeasure P] (hη : White P N s η) (α : ℕ → ℂ) {m L : ℕ} (hm : m + L ≤ N) :
    ∫ ω, ∑ j ∈ Finset.range L, α j * η ω (m + j) ∂P = 0 := by
  have hl : ∀ j ∈ Finset.range L, m + j < N := fun j hj => by have := Finset.mem_range.1 hj; omega
  rw [integral_finsetSum _ (fun j hj => (white_int hη (hl j hj)).const_mul _)]
  refine Finset.sum_eq_zero (fun j hj => ?_)
  rw [integral_const_mul, hη.mean _ (hl j hj), mul_zero]

theorem white_taps_product (hη : White P N s η) (α β : ℕ → ℂ) {m d L : ℕ} (hm : m + d + L ≤ N) :
    ∫ ω, (∑ j ∈ Finset.range L, α j * η ω (m + j)) * star (∑ i ∈ Finset.range L, β i * η ω (m + d + i)) ∂P =
      (s : ℂ) * ∑ i ∈ Finset.range (L - d), α (i + d) * star (β i) := by
  have hl : ∀ j ∈ Finset.range L, m + j < N := fun j hj => by have := Finset.mem_range.1 hj; omega
  have hl' : ∀ i ∈ Finset.range L, m + d + i < N := fun j hj => by have := Finset.mem_range.1 hj; omega
  have e : ∀ ω, (∑ j ∈ Finset.range L, α j * η ω (m + j)) * star (∑ i ∈ Finset.range L, β i * η ω (m + d + i)) =
      ∑ i ∈ Finset.range L, ∑ j ∈ Finset.range L, α j * star (β i) * (η ω (m + j) * star (η ω (m + d + i))) := by
    intro ω
    rw [star_sum, Finset.sum_mul_sum, Finset.sum_comm]
    refine Finset.sum_congr rfl (fun i _ => Finset.sum_congr rfl (fun j _ => ?_))
    rw [star_mul']
    ring
  simp only [e]
  rw [integral_finsetSum _ (fun i hi => integrable_finsetSum _ (fun j hj => (white_mul hη (hl j hj) (hl' i hi)).const_mul _))]
  have e2 : ∀ i ∈ Finset.range L, ∫ ω, ∑ j ∈ Finset.range L, α j * star (β i) * (η ω (m + j) * star (η ω (m + d + i))) ∂P =
      if i < L - d then (s : ℂ) * (α (i + d) * star (β i)) else 0 := by
    intro i hi
    rw [integral_finsetSum _ (fun j hj => (white_mul hη (hl j hj) (hl' i hi)).const_mul _)]
    have hi' := Finset.mem_range.1 hi
    split
    · rw [Finset.sum_eq_single (i + d)]
      · rw [integral_const_mul, hη.power _ (by omega) _ (hl' i hi), if_pos (by omega)]
        exact mul_comm _ _
      · intro j hj hne
        rw [integral_const_mul, hη.power _ (hl j hj) _ (hl' i hi), if_neg (by omega), mul_zero]
      · intro hn
        exact absurd (Finset.mem_range.2 (by omega)) hn
    · refine Finset.sum_eq_zero (fun j hj => ?_)
      have hj' := Finset.mem_range.1 hj
      rw [integral_const_mul, hη.power _ (hl j hj) _ (hl' i hi), if_neg (by omega), mul_zero]
  rw [Finset.sum_congr rfl e2, ← Finset.sum_filter, Finset.mul_sum]
  refine Finset.sum_congr ?_ (fun _ _ => rfl)
  ext i
  simp only [Finset.mem_filter, Finset.mem_range]
  omega

/-- **C122.** White noise of power `s` in a recording: the Fourier coefficients have zero mean, and the mean product of two of them is what
the windows have in common, `4 s / Lw² exp(-2 i pi f d) Σ w[j + d] conj(w[j])`, where `d` is the number of samples between the windows. -/
theorem C122_covariance [IsProbabilityMeasure P] (hη : White P N s η) (fs freq nper overlap : ℚ) (win : Win) (c : Ω → List ℂ) (Nw Lw shift : ℕ)
    (h : ∀ ω, timeToFreq [(List.range N).map (η ω)] fs freq nper overlap win = .ok ([c ω], (Nw, Lw, shift))) :
    (∀ k < Nw, MemLp (fun ω => (c ω).getD k 0) 2 P ∧ ∫ ω, (c ω).getD k 0 ∂P = 0) ∧
    ∀ k d, k + d < Nw → ∫ ω, (c ω).getD k 0 * star ((c ω).getD (k + d) 0) ∂P =
      s * (4 / (Lw : ℂ) ^ 2 * Complex.exp (-(2 * Real.pi * Complex.I * ((freq / fs : ℚ) : ℂ) * ((d * shift : ℕ) : ℂ))) *
        ∑ j ∈ Finset.range (Lw - d * shift), winAt (win.eval Lw) (j + d * shift) * star (winAt (win.eval Lw) j)) := by
  have hc : ∀ ω k, k < Nw → (c ω).getD k 0 = ∑ j ∈ Finset.range Lw, tap (freq / fs) Lw (win.eval Lw) j * η ω (k * shift + j) ∧ k * shift + Lw ≤ N := by
    intro ω k hk
    obtain ⟨-, -, -, -, h38⟩ := C38_time_to_freq _ _ _ _ _ _ _ _ _ _ (h ω)
    obtain ⟨⟨r, hr, -, hr2⟩, hfit⟩ := h38 0 _ rfl
    simp only [List.getElem?_cons_zero, Option.some.injEq] at hr
    subst hr
    have hf := (hfit k).1 hk
    simp only [List.length_map, List.length_range] at hf
    rw [List.getD_eq_getElem?_getD, hr2 k hk, Option.getD_some, fourierAt_samples _ _ _ _ hf]
    exact ⟨rfl, hf⟩
  rcases isEmpty_or_nonempty Ω with he | ⟨⟨ω0⟩⟩
  · exact absurd (measure_univ (μ := P)) (by rw [Set.univ_eq_empty_iff.2 he]; simp)
  refine ⟨fun k hk => ?_, fun k d hkd => ?_⟩
  · simp only [fun ω => (hc ω k hk).1]
    exact ⟨white_taps_memLp hη _ (hc ω0 k hk).2, white_taps_mean hη _ (hc ω0 k hk).2⟩
  · have e : (k + d) * shift = k * shift + d * shift := by ring
    simp only [fun ω => (hc ω k (by omega)).1, fun ω => (hc ω (k + d) hkd).1, e]
    rw [white_taps_product hη _ _ (by rw [← e]; exact (hc ω0 (k + d) hkd).2), Finset.sum_congr rfl (fun i _ => tap_product _ _ _ _ _), ← Finset.mul_sum]

/-- **C122.** Without overlap the coefficients of white noise are white noise again, of power `4 s / Lw² Σ |w[j]|²`. -/
theorem C122_white [IsProbabilityMeasure P] (hη : White P N s η) (fs freq nper : ℚ) (win : Win) (c : Ω → List ℂ) (Nw Lw shift : ℕ)
    (h : ∀ ω, timeToFreq [(List.range N).map (η ω)] fs freq nper 0 win = .ok ([c ω], (Nw, Lw, shift))) :
    White P Nw (s * (4 / (Lw : ℝ) ^ 2 * ∑ j ∈ Finset.range Lw, ‖winAt (win.eval Lw) j‖ ^ 2)) (fun ω k => (c ω).getD k 0) := by
  obtain ⟨h1, h2⟩ := C122_covariance hη fs freq nper 0 win c Nw Lw shift h
  rcases isEmpty_or_nonempty Ω with he | ⟨⟨ω0⟩⟩
  · exact absurd (measure_univ (μ := P)) (by rw [Set.univ_eq_empty_iff.2 he]; simp)
  have hshift : shift = Lw := by
    have hd := C38_window_data _ _ _ _ _ _ _ _ _ _ (h ω0) _ (List.mem_singleton.2 rfl)
    exact no_overlap_shift hd
  subst hshift
  refine ⟨fun k hk => (h1 k hk).1, fun k hk => (h1 k hk).2, ?_⟩
  have hlt : ∀ k d, k + d < Nw → 0 < d → ∫ ω, (c ω).getD k 0 * star ((c ω).getD (k + d) 0) ∂P = 0 := by
    intro k d hkd hd
    rw [h2 k d hkd]
    have : shift - d * shift = 0 := by
      have := Nat.le_mul_of_pos_left shift hd
      omega
    rw [this]
    simp
  intro k hk l hl
  rcases lt_trichotomy k l with hkl | rfl | hkl
  · rw [if_neg (by omega)]
    have := hlt k (l - k) (by omega) (by omega)
    rwa [show k + (l - k) = l by omega] at this
  · rw [if_pos rfl]
    have := h2 k 0 (by omega)
    rw [Nat.add_zero] at this
    rw [this]
    simp only [Nat.zero_mul, Nat.add_zero, Nat.sub_zero, Nat.cast_zero, mul_zero, neg_zero, Complex.exp_zero, mul_one]
    have e : ∀ j, winAt (win.eval shift) j * star (winAt (win.eval shift) j) = ((‖winAt (win.eval shift) j‖ ^ 2 : ℝ) : ℂ) := by
      intro j
      rw [RCLike.star_def, Complex.mul_conj, Complex.normSq_eq_norm_sq]
    simp only [e]
    change _ = ((_ : ℝ) : ℂ)
    push_cast
    rfl
  · rw [if_neg (by omega)]
    have := congrArg star (hlt l (k - l) (by omega) (by omega))
    rw [show l + (k - l) = k by omega] at this
    rw [RCLike.star_def, ← integral_conj] at this
    simpa [mul_comm] using this

/-- **C122.** With overlap and a positive tapering window (or none), two windows that share samples have correlated coefficients: the noise of the
coefficients is not white. -/
theorem C122_correlated [IsProbabilityMeasure P] (hη : White P N s η) (hs : s ≠ 0) (fs freq nper overlap : ℚ) (win : Win) (c : Ω → List ℂ) (Nw Lw shift : ℕ)
    (h : ∀ ω, timeToFreq [(List.range N).map (η ω)] fs freq nper overlap win = .ok ([c ω], (Nw, Lw, shift)))
    (hpos : ∀ j < Lw, 0 < winAt (win.eval Lw) j) :
    (∀ k d, k + d < Nw → (∫ ω, (c ω).getD k 0 * star ((c ω).getD (k + d) 0) ∂P ≠ 0 ↔ d * shift < Lw)) ∧
    (0 < overlap → ∫ ω, (c ω).getD 0 0 * star ((c ω).getD 1 0) ∂P ≠ 0) := by
  obtain ⟨h1, h2⟩ := C122_covariance hη fs freq nper overlap win c Nw Lw shift h
  rcases isEmpty_or_nonempty Ω with he | ⟨⟨ω0⟩⟩
  · exact absurd (measure_univ (μ := P)) (by rw [Set.univ_eq_empty_iff.2 he]; simp)
  obtain ⟨-, -, hL, hNw, -⟩ := C38_time_to_freq _ _ _ _ _ _ _ _ _ _ (h ω0)
  have hL0 : (Lw : ℂ) ≠ 0 := by exact_mod_cast (by omega : Lw ≠ 0)
  have key : ∀ k d, k + d < Nw → (∫ ω, (c ω).getD k 0 * star ((c ω).getD (k + d) 0) ∂P ≠ 0 ↔ d * shift < Lw) := by
    intro k d hkd
    rw [h2 k d hkd]
    constructor
    · intro hne
      by_contra hle
      rw [show Lw - d * shift = 0 by omega] at hne
      simp at hne
    · intro hlt
      have hsum : 0 < ∑ j ∈ Finset.range (Lw - d * shift), winAt (win.eval Lw) (j + d * shift) * star (winAt (win.eval Lw) j) := by
        refine Finset.sum_pos (fun j hj => ?_) ⟨0, Finset.mem_range.2 (by omega)⟩
        have hj := Finset.mem_range.1 hj
        exact mul_pos (hpos _ (by omega)) (star_pos_iff.2 (hpos _ (by omega)))
      refine mul_ne_zero (by exact_mod_cast hs) (mul_ne_zero (mul_ne_zero ?_ (Complex.exp_ne_zero _)) hsum.ne')
      exact div_ne_zero (by norm_num) (pow_ne_zero _ hL0)
  refine ⟨key, fun hov => ?_⟩
  have := (key 0 1 (by omega)).2 (by
    have hd := C38_window_data _ _ _ _ _ _ _ _ _ _ (h ω0) _ (List.mem_singleton.2 rfl)
    have := overlap_shift hov hL hd
    omega)
  simpa using this

end coefficients

section chain
variable {q : ℕ}

/-- The coefficients of a recording window by window. -/
noncomputable def windowed (nf : ℚ) (Lw shift : ℕ) (w : Option (List ℂ)) (y : List ℂ) (k : ℕ) : ℂ := fourierAt nf Lw w y (k * shift)

/-- Recordings whose outputs are the response to the inputs plus noise have coefficients of the same kind. -/
theorem coeffs_noisy (B : Fin q → List ℂ) (N : ℕ) (hB : ∀ j, (B j).length = N) (T : ℕ → Fin q → ℂ) (η : ℕ → ℕ → ℂ) (p : ℕ)
    (fs freq nper overlap : ℚ) (win : Win) (co : List (List ℂ)) (Nw Lw shift : ℕ)
    (h : timeToFreq (noisy B N T η p ++ List.ofFn B) fs freq nper overlap win = .ok (co, (Nw, Lw, shift))) :
    co.take p = noisy (fun j => (List.range Nw).map (windowed (freq / fs) Lw shift (win.eval Lw) (B j))) Nw T
      (fun i k => windowed (freq / fs) Lw shift (win.eval Lw) ((List.range N).map (η i)) k) p ∧
    (∀ j : Fin q, co.getD (p + j) [] = (List.range Nw).map (windowed (freq / fs) Lw shift (win.eval Lw) (B j))) ∧
    co.length = p + q := by
  obtain ⟨hlen, -, -, -, h38⟩ := C38_time_to_freq _ _ _ _ _ _ _ _ _ _ h
  have hpl : (noisy B N T η p).length = p := by simp [noisy]
  have row : ∀ (c : ℕ) y, (noisy B N T η p ++ List.ofFn B)[c]? = some y → co[c]? = some ((List.range Nw).map (windowed (freq / fs) Lw shift (win.eval Lw) y)) := by
    intro c y hy
    obtain ⟨⟨r, hr, hrl, hrk⟩, -⟩ := h38 c y hy
    rw [hr, Option.some.injEq]
    apply List.ext_getElem?
    intro k
    by_cases hk : k < Nw
    · rw [hrk k hk, List.getElem?_map, List.getElem?_range hk]
      rfl
    · rw [List.getElem?_eq_none (by omega), List.getElem?_eq_none (by simp; omega)]
  refine ⟨?_, ?_, ?_⟩
  · apply List.ext_getElem?
    intro i
    by_cases hi : i < p
    · rw [List.getElem?_take_of_lt hi]
      have hy : (noisy B N T η p ++ List.ofFn B)[i]? = some ((List.range N).map (fun n => ∑ j, T i j * (B j).getD n 0 + η i n)) := by
        rw [List.getElem?_append_left (by omega)]
        simp [noisy, hi]
      rw [row i _ hy]
      simp only [noisy, List.getElem?_map, List.getElem?_range hi, Option.map_some, Option.some.injEq]
      refine List.map_congr_left (fun k hk => ?_)
      have hk := List.mem_range.1 hk
      have hfit := ((h38 i _ hy).2 k).1 hk
      simp only [List.length_map, List.length_range] at hfit
      have hBj : ∀ j, B j = (List.range N).map (fun n => (B j).getD n 0) := by
        intro j
        apply List.ext_getElem?
        intro n
        by_cases hn : n < N
        · rw [List.getElem?_map, List.getElem?_range hn, List.getElem?_eq_getElem (by rw [hB]; exact hn)]
          simp [hB, hn]
        · rw [List.getElem?_eq_none (by rw [hB]; omega), List.getElem?_eq_none (by simp; omega)]
      have hg : ∀ j, ((List.range Nw).map (windowed (freq / fs) Lw shift (win.eval Lw) (B j))).getD k 0 =
          ∑ l ∈ Finset.range Lw, tap (freq / fs) Lw (win.eval Lw) l * (B j).getD (k * shift + l) 0 := by
        intro j
        rw [List.getD_eq_getElem?_getD, List.getElem?_map, List.getElem?_range hk]
        simp only [Option.map_some, Option.getD_some, windowed]
        rw [hBj j, fourierAt_samples _ _ _ _ hfit, ← hBj j]
      simp only [hg, windowed]
      rw [fourierAt_samples _ _ _ _ hfit, fourierAt_samples _ _ _ _ hfit]
      simp only [mul_add, Finset.sum_add_distrib, Finset.mul_sum]
      congr 1
      rw [Finset.sum_comm]
      exact Finset.sum_congr rfl (fun j _ => Finset.sum_congr rfl (fun l _ => by ring))
    · rw [List.getElem?_eq_none (by simp; omega), List.getElem?_eq_none (by simp [noisy]; omega)]
  · intro j
    have hy : (noisy B N T η p ++ List.ofFn B)[p + (j : ℕ)]? = some (B j) := by
      rw [List.getElem?_append_right (by omega), hpl]
      simp
    rw [List.getD_eq_getElem?_getD, row _ _ hy, Option.getD_some]
  · rw [hlen]
    simp [hpl]

/-- The coefficients of the noise alone, as numbers. -/
theorem windowed_alone {Ω : Type} {N : ℕ} (η : Ω → ℕ → ℂ)
    (data : List (List ℂ)) (hd : data ≠ []) (hl : ∀ y ∈ data, y.length = N) (fs freq nper overlap : ℚ) (win : Win) (co : List (List ℂ)) (Nw Lw shift : ℕ)
    (h : timeToFreq data fs freq nper overlap win = .ok (co, (Nw, Lw, shift))) (ω : Ω) :
    timeToFreq [(List.range N).map (η ω)] fs freq nper overlap win =
      .ok ([(List.range Nw).map (windowed (freq / fs) Lw shift (win.eval Lw) ((List.range N).map (η ω)))], (Nw, Lw, shift)) := by
  obtain ⟨y, hy⟩ := List.exists_mem_of_ne_nil _ hd
  obtain ⟨M, hne, hlen, ⟨n, hdw, rfl⟩, hw, -⟩ := timeToFreq_ok h
  obtain rfl : M = N := by rw [← hlen y hy, hl y hy]
  obtain ⟨res, hres⟩ := timeToFreq_of (data := [(List.range M).map (η ω)]) (by simp) (by simp) hdw hw
  obtain ⟨-, -, -, -, -, hr⟩ := timeToFreq_ok hres
  rw [hres, hr]
  rfl

/-- **C122.** Recordings of which the outputs are the response to the inputs plus white noise: by least squares on the Fourier coefficients, with
any overlap and tapering window, the mean of the estimate is the true transfer function. Without overlap the mean square of the error reported with it
is the mean square distance to the truth. -/
theorem C122_estimate {σ Ω : Type} [MeasurableSpace Ω] (P : Measure Ω) [IsProbabilityMeasure P] (B : Fin q → List ℂ) (N : ℕ) (hq : q ≠ 0)
    (hB : ∀ j, (B j).length = N) (p : ℕ) (hp : p ≠ 0) (T : ℕ → Fin q → ℂ) (s : ℕ → ℝ) (η : Ω → ℕ → ℕ → ℂ)
    (hη : ∀ i < p, White P N (s i) (fun ω => η ω i)) (fs freq nper overlap : ℚ) (win : Win) (co : Ω → List (List ℂ)) (Nw Lw shift : ℕ)
    (h : ∀ ω, timeToFreq (noisy B N T (η ω) p ++ List.ofFn B) fs freq nper overlap win = .ok (co ω, (Nw, Lw, shift)))
    (hind : ∀ ω, InputsIndependent (fun j : Fin q => (co ω).getD (p + j) []) Nw []) (o : MEst.Opts) (heap : ℕ → σ) :
    ∃ Z : Ω → ℕ → Fin q → ℂ,
      (∀ ω, transferFunction ((co ω).take p) (fun j : Fin q => (co ω).getD (p + j) []) [none] none .none o heap =
        (.ok ((List.range p).map (fun i => (some (Z ω i), []))), heap)) ∧
      (∀ i < p, ∀ j, Integrable (fun ω => Z ω i j) P ∧ ∫ ω, Z ω i j ∂P = T i j) ∧
      (overlap = 0 → q < Nw → ∃ e : Ω → ℕ → Fin q → ℝ,
        (∀ ω, transferError ((co ω).take p) (fun j : Fin q => (co ω).getD (p + j) []) ((List.range p).map (Z ω)) (List.replicate p []) =
          .ok ((List.range p).map (fun i j => .fin (e ω i j)))) ∧
        ∀ i < p, ∀ j, Integrable (fun ω => ‖Z ω i j - T i j‖ ^ 2) P ∧ Integrable (fun ω => e ω i j ^ 2) P ∧
          ∫ ω, e ω i j ^ 2 ∂P = ∫ ω, ‖Z ω i j - T i j‖ ^ 2 ∂P) := by
  rcases isEmpty_or_nonempty Ω with he | ⟨⟨ω0⟩⟩
  · exact absurd (measure_univ (μ := P)) (by rw [Set.univ_eq_empty_iff.2 he]; simp)
  set X : Fin q → List ℂ := fun j => (List.range Nw).map (windowed (freq / fs) Lw shift (win.eval Lw) (B j)) with hX
  set ε : Ω → ℕ → ℕ → ℂ := fun ω i k => windowed (freq / fs) Lw shift (win.eval Lw) ((List.range N).map (η ω i)) k with hε
  have hco : ∀ ω, (co ω).take p = noisy X Nw T (ε ω) p ∧ (fun j : Fin q => (co ω).getD (p + j) []) = X := by
    intro ω
    obtain ⟨h1, h2, -⟩ := coeffs_noisy B N hB T (η ω) p fs freq nper overlap win (co ω) Nw Lw shift (h ω)
    exact ⟨h1, funext h2⟩
  have hindX : InputsIndependent X Nw [] := by
    rw [← (hco ω0).2]
    exact hind ω0
  have hXl : ∀ j, (X j).length = Nw := fun j => by simp [hX]
  have halone : ∀ i ω, timeToFreq [(List.range N).map (η ω i)] fs freq nper overlap win =
      .ok ([(List.range Nw).map (ε ω i)], (Nw, Lw, shift)) := by
    intro i ω
    refine windowed_alone (fun ω => η ω i) _ ?_ ?_ fs freq nper overlap win (co ω0) Nw Lw shift (h ω0) ω
    · intro h0
      have := congrArg List.length h0
      simp [noisy, hp] at this
    · intro y hy
      rcases List.mem_append.1 hy with hy | hy
      · simp only [noisy, List.mem_map] at hy
        obtain ⟨i, -, rfl⟩ := hy
        simp
      · obtain ⟨j, rfl⟩ := List.mem_ofFn.1 hy
        exact hB j
  have hget : ∀ i ω k, k < Nw → ((List.range Nw).map (ε ω i)).getD k 0 = ε ω i k := by
    intro i ω k hk
    rw [List.getD_eq_getElem?_getD, List.getElem?_map, List.getElem?_range hk]
    rfl
  have hZ : ∀ ω, transferFunction ((co ω).take p) (fun j : Fin q => (co ω).getD (p + j) []) [none] none .none o heap =
      (.ok ((List.range p).map (fun i => (some ((lsCoef (design X Nw)).mulVec (fun n : Fin Nw => ∑ j, T i j * (X j).getD n 0 + ε ω i n)), []))), heap) := by
    intro ω
    rw [(hco ω).1, (hco ω).2]
    exact transferFunction_ls hq hXl hindX p hp _ o heap
  refine ⟨fun ω i => (lsCoef (design X Nw)).mulVec (fun n : Fin Nw => ∑ j, T i j * (X j).getD n 0 + ε ω i n), hZ, ?_, ?_⟩
  · intro i hi j
    obtain ⟨h1, -⟩ := C122_covariance (hη i hi) fs freq nper overlap win (fun ω => (List.range Nw).map (ε ω i)) Nw Lw shift (halone i)
    have hint : ∀ k : Fin Nw, Integrable (fun ω => lsCoef (design X Nw) j k * ε ω i k) P := by
      intro k
      refine Integrable.const_mul ?_ _
      have := (h1 k k.2).1.integrable (by norm_num)
      simpa only [hget i _ k k.2] using this
    simp only [ls_noisy hindX]
    refine ⟨(integrable_const _).add (integrable_finsetSum _ (fun k _ => hint k)), ?_⟩
    rw [integral_add (integrable_const _) (integrable_finsetSum _ (fun k _ => hint k)), integral_finsetSum _ (fun k _ => hint k)]
    rw [Finset.sum_eq_zero]
    · simp
    · intro k _
      have := (h1 k k.2).2
      simp only [hget i _ k k.2] at this
      rw [integral_const_mul, this, mul_zero]
  · rintro rfl hqN
    have hw : ∀ i < p, White P Nw (s i * (4 / (Lw : ℝ) ^ 2 * ∑ j ∈ Finset.range Lw, ‖winAt (win.eval Lw) j‖ ^ 2)) (fun ω => ε ω i) := by
      intro i hi
      have := C122_white (hη i hi) fs freq nper win (fun ω => (List.range Nw).map (ε ω i)) Nw Lw shift (halone i)
      refine ⟨fun k hk => ?_, fun k hk => ?_, fun k hk l hl => ?_⟩
      · have := this.square k hk
        simpa only [hget i _ k hk] using this
      · have := this.mean k hk
        simpa only [hget i _ k hk] using this
      · have := this.power k hk l hl
        simpa only [hget i _ k hk, hget i _ l hl] using this
    obtain ⟨Z', e, g1, g2, g3⟩ := C118_unbiased P X Nw hq hqN hXl hindX p hp T _ ε hw o heap
    have hZZ : ∀ ω, ∀ i < p, Z' ω i = (lsCoef (design X Nw)).mulVec (fun n : Fin Nw => ∑ j, T i j * (X j).getD n 0 + ε ω i n) := by
      intro ω i hi
      have e1 := hZ ω
      rw [(hco ω).1, (hco ω).2, g1 ω] at e1
      simp only [Prod.mk.injEq, Except.ok.injEq, and_true] at e1
      have := congrArg (fun l => l[i]?) e1
      simpa [hi] using this
    refine ⟨e, fun ω => ?_, fun i hi j => ?_⟩
    · rw [(hco ω).1, (hco ω).2]
      rw [← g2 ω]
      congr 1
      exact List.map_congr_left (fun i hi => (hZZ ω i (List.mem_range.1 hi)).symm)
    · obtain ⟨-, -, a1, a2, a3⟩ := g3 i hi j
      simp only [hZZ _ i hi] at a1 a3
      exact ⟨a1, a2, a3⟩

end chain

section oneInput
variable {σ : Type}

/-- The error reported for outputs which are the response to the inputs plus noise, one more time but for any noise. -/
theorem transferError_noisy {q : ℕ} (hq : q ≠ 0) {inputs : Fin q → List ℂ} {N : ℕ} (hqN : q < N) (hin : ∀ j, (inputs j).length = N)
    (hind : InputsIndependent inputs N []) (p : ℕ) (hp : p ≠ 0) (T : ℕ → Fin q → ℂ) (ε : ℕ → ℕ → ℂ) :
    transferError (noisy inputs N T ε p) inputs ((List.range p).map (fun i =>
      (lsCoef (design inputs N)).mulVec (fun n : Fin N => ∑ j, T i j * (inputs j).getD n 0 + ε i n))) (List.replicate p []) =
    .ok ((List.range p).map (fun i j => Flt.fin (Real.sqrt ((∑ n : Fin N, ‖∑ m : Fin N, ((1 : Matrix (Fin N) (Fin N) ℂ) -
          design inputs N * lsCoef (design inputs N)) n m * ε i m‖ ^ 2) / (N - q) * ∑ n, ‖lsCoef (design inputs N) j n‖ ^ 2)))) := by
  obtain ⟨E, hE⟩ := (C50_succeeds_iff (noisy inputs N T ε p) inputs ((List.range p).map (fun i =>
    (lsCoef (design inputs N)).mulVec (fun n : Fin N => ∑ j, T i j * (inputs j).getD n 0 + ε i n))) (List.replicate p [])).2
    ⟨by simpa [noisy] using hp, hq, by simp [noisy], N, by simp [noisy], hin, by
      intro d hd
      exact hind d (fun n hn _ => by simpa only [mul_comm] using hd n hn)⟩
  rw [hE]
  obtain ⟨N', g1, g2, -, rfl⟩ := transferError_ok hE
  obtain rfl : N' = N := by rw [← g2 ⟨0, Nat.pos_of_ne_zero hq⟩, hin]
  congr 1
  have key : ∀ l : List ℕ, ((l.map (fun i => (List.range N').map (fun n => ∑ j, T i j * (inputs j).getD n 0 + ε i n))).zip
      ((l.map (fun i => (lsCoef (design inputs N')).mulVec (fun n : Fin N' => ∑ j, T i j * (inputs j).getD n 0 + ε i n))).zip
        (List.replicate l.length ([] : List ℕ)))).map (fun t => errorRow (rowsOf inputs N') t.1 t.2.1 t.2.2.length) =
      l.map (fun i j => Flt.fin (Real.sqrt ((∑ n : Fin N', ‖∑ m : Fin N', ((1 : Matrix (Fin N') (Fin N') ℂ) -
        design inputs N' * lsCoef (design inputs N')) n m * ε i m‖ ^ 2) / (N' - q) *
          ∑ n, ‖lsCoef (design inputs N') j n‖ ^ 2))) := by
    intro l
    induction l with
    | nil => rfl
    | cons i l ih =>
      simp only [List.length_cons, List.replicate_succ, List.map_cons, List.zip_cons_cons, ih, List.length_nil]
      congr 1
      funext j
      exact errorRow_noisy hqN hind (T i) (ε i) j
  simpa [noisy] using key (List.range p)

/-- Least squares with one input. -/
theorem lsCoef_one {N : ℕ} (X : Matrix (Fin N) (Fin 1) ℂ) (n : Fin N) :
    lsCoef X 0 n = star (X n 0) / ((∑ m, ‖X m 0‖ ^ 2 : ℝ) : ℂ) := by
  have h : (Xᴴ * X) 0 0 = ((∑ m, ‖X m 0‖ ^ 2 : ℝ) : ℂ) := by
    rw [Matrix.mul_apply]
    push_cast
    refine Finset.sum_congr rfl (fun m _ => ?_)
    rw [Matrix.conjTranspose_apply, mul_comm, RCLike.star_def, Complex.mul_conj, Complex.normSq_eq_norm_sq]
    push_cast
    rfl
  rw [lsCoef, Matrix.mul_apply, Fin.sum_univ_one, Matrix.inv_def, Matrix.adjugate_fin_one, Matrix.det_fin_one, h]
  simp only [Matrix.smul_apply, Matrix.one_apply_eq, smul_eq_mul, mul_one, Matrix.conjTranspose_apply, Ring.inverse_eq_inv']
  ring

set_option maxHeartbeats 1000000 in
/-- **C122.** One input, one output, and noise of any kind, white or not, of zero mean: the mean of the estimate is right; its mean square distance
to the truth is a combination of the mean products of the noise; the mean square of the reported error is the power of the noise less what the
estimate absorbs, shared between the `N - 1` remaining samples as if they were uncorrelated. -/
theorem C122_reported {Ω : Type} [MeasurableSpace Ω] (P : Measure Ω) [IsProbabilityMeasure P] (x : ℕ → ℂ) (N : ℕ) (hN : 1 < N)
    (hx : ∃ n < N, x n ≠ 0) (T : ℂ) (ε : Ω → ℕ → ℂ) (hsq : ∀ n < N, MemLp (fun ω => ε ω n) 2 P) (hmean : ∀ n < N, ∫ ω, ε ω n ∂P = 0)
    (o : MEst.Opts) (heap : ℕ → σ) :
    ∃ (Z : Ω → ℂ) (e : Ω → ℝ),
      (∀ ω, transferFunction [(List.range N).map (fun n => T * x n + ε ω n)] (fun _ : Fin 1 => (List.range N).map x) [none] none .none o heap =
        (.ok [(some (fun _ => Z ω), [])], heap)) ∧
      (∀ ω, transferError [(List.range N).map (fun n => T * x n + ε ω n)] (fun _ : Fin 1 => (List.range N).map x) [fun _ => Z ω] [[]] =
        .ok [fun _ => .fin (e ω)]) ∧
      ∫ ω, Z ω ∂P = T ∧
      ((∫ ω, ‖Z ω - T‖ ^ 2 ∂P : ℝ) : ℂ) = (∑ n ∈ Finset.range N, ∑ m ∈ Finset.range N, star (x n) * x m * ∫ ω, ε ω n * star (ε ω m) ∂P) /
        ((∑ n ∈ Finset.range N, ‖x n‖ ^ 2 : ℝ) : ℂ) ^ 2 ∧
      ∫ ω, e ω ^ 2 ∂P = ((∑ n ∈ Finset.range N, ∫ ω, ‖ε ω n‖ ^ 2 ∂P) - (∑ n ∈ Finset.range N, ‖x n‖ ^ 2) * ∫ ω, ‖Z ω - T‖ ^ 2 ∂P) /
        ((N - 1) * ∑ n ∈ Finset.range N, ‖x n‖ ^ 2) := by
  set inputs : Fin 1 → List ℂ := fun _ => (List.range N).map x with hinp
  set Pw : ℝ := ∑ n ∈ Finset.range N, ‖x n‖ ^ 2 with hPw
  have hPpos : 0 < Pw := by
    obtain ⟨n, hn, h0⟩ := hx
    exact Finset.sum_pos' (fun _ _ => by positivity) ⟨n, Finset.mem_range.2 hn, by positivity⟩
  have hPc : (Pw : ℂ) ≠ 0 := by exact_mod_cast hPpos.ne'
  have hD : ∀ n : Fin N, design inputs N n 0 = x n := by
    intro n
    simp [design, hinp]
  have hls : ∀ n : Fin N, lsCoef (design inputs N) 0 n = star (x n) / (Pw : ℂ) := by
    intro n
    rw [lsCoef_one]
    simp only [hD]
    rw [hPw, Finset.sum_range]
  have hind : InputsIndependent inputs N [] := by
    intro d hd
    obtain ⟨n, hn, h0⟩ := hx
    have h1 := hd n hn (by simp)
    simp only [Fin.sum_univ_one] at h1
    have h2 : (inputs 0).getD n 0 = x n := by simp [hinp, hn]
    rw [h2] at h1
    funext j
    rw [Subsingleton.elim j 0]
    rcases mul_eq_zero.1 h1 with h | h
    · exact h
    · exact absurd h h0
  have hin : ∀ j, (inputs j).length = N := fun j => by simp [hinp]
  have hno : ∀ ω, [(List.range N).map (fun n => T * x n + ε ω n)] = noisy inputs N (fun _ _ => T) (fun _ => ε ω) 1 := by
    intro ω
    simp only [noisy, List.range_one, List.map_cons, List.map_nil, Fin.sum_univ_one, List.cons.injEq, and_true]
    refine List.map_congr_left (fun n hn => ?_)
    have hn := List.mem_range.1 hn
    simp [hinp, hn]
  set δ : Ω → ℂ := fun ω => ∑ n : Fin N, star (x n) / (Pw : ℂ) * ε ω n with hδ
  have hZ : ∀ ω, (lsCoef (design inputs N)).mulVec (fun n : Fin N => ∑ j : Fin 1, T * (inputs j).getD n 0 + ε ω n) = fun _ => T + δ ω := by
    intro ω
    funext j
    have := ls_noisy hind (fun _ => T) (ε ω) j
    rw [this, Subsingleton.elim j 0]
    simp only [hls, hδ]
  have hδL : MemLp δ 2 P := memLp_finsetSum _ (fun n _ => (hsq n n.2).const_mul _)
  have hδi : Integrable δ P := hδL.integrable (by norm_num)
  have hint : ∀ n < N, Integrable (fun ω => ε ω n) P := fun n hn => (hsq n hn).integrable (by norm_num)
  have hprod : ∀ n < N, ∀ m < N, Integrable (fun ω => ε ω n * star (ε ω m)) P := by
    intro n hn m hm
    exact (hsq n hn).integrable_mul (hsq m hm).star
  have hn2 : ∀ n < N, Integrable (fun ω => ‖ε ω n‖ ^ 2) P := fun n hn => (hsq n hn).integrable_norm_pow (by norm_num)
  have hδ2 : Integrable (fun ω => ‖δ ω‖ ^ 2) P := hδL.integrable_norm_pow (by norm_num)
  have hN1 : (0 : ℝ) < (N : ℝ) - 1 := by
    have : (1 : ℝ) < N := by exact_mod_cast hN
    linarith
  refine ⟨fun ω => T + δ ω, fun ω => Real.sqrt ((∑ n : Fin N, ‖∑ m : Fin N, ((1 : Matrix (Fin N) (Fin N) ℂ) -
          design inputs N * lsCoef (design inputs N)) n m * ε ω m‖ ^ 2) / (N - (1 : ℕ)) * ∑ n, ‖lsCoef (design inputs N) 0 n‖ ^ 2), ?_, ?_, ?_, ?_, ?_⟩
  · intro ω
    rw [hno]
    have := transferFunction_ls (by norm_num : (1 : ℕ) ≠ 0) hin hind 1 (by norm_num) (fun _ n => ∑ j : Fin 1, T * (inputs j).getD n 0 + ε ω n) o heap
    rw [noisy, this]
    simp only [hZ, List.range_one, List.map_cons, List.map_nil]
  · intro ω
    rw [hno]
    have := transferError_noisy (by norm_num : (1 : ℕ) ≠ 0) hN hin hind 1 (by norm_num) (fun _ _ => T) (fun _ => ε ω)
    simp only [hZ, List.range_one, List.map_cons, List.map_nil, List.replicate_one] at this
    rw [this]
    refine congrArg (fun f : Fin 1 → Flt => Except.ok [f]) (funext (fun j => ?_))
    rw [Subsingleton.elim j 0]
  · rw [integral_add (integrable_const _) hδi, hδ, integral_finsetSum _ (fun (n : Fin N) _ => (hint n n.2).const_mul _)]
    rw [Finset.sum_eq_zero (fun (n : Fin N) _ => by rw [integral_const_mul, hmean n n.2, mul_zero])]
    simp
  · simp only [add_sub_cancel_left]
    rw [← integral_complex_ofReal]
    have e : ∀ ω, ((‖δ ω‖ ^ 2 : ℝ) : ℂ) = (∑ n : Fin N, ∑ m : Fin N, star (x n) * x m * (ε ω n * star (ε ω m))) / (Pw : ℂ) ^ 2 := by
      intro ω
      rw [← Complex.normSq_eq_norm_sq, ← Complex.mul_conj, ← RCLike.star_def, hδ]
      simp only
      rw [star_sum, Finset.sum_mul_sum, Finset.sum_div]
      refine Finset.sum_congr rfl (fun n _ => ?_)
      rw [Finset.sum_div]
      refine Finset.sum_congr rfl (fun m _ => ?_)
      have : star (Pw : ℂ) = Pw := Complex.conj_ofReal Pw
      rw [star_mul', star_div₀, star_star, this]
      field_simp
    simp only [e]
    rw [integral_div]
    congr 1
    rw [integral_finsetSum _ (fun (n : Fin N) _ => integrable_finsetSum _ (fun (m : Fin N) _ => (hprod n n.2 m m.2).const_mul _)), Finset.sum_range]
    refine Finset.sum_congr rfl (fun n _ => ?_)
    rw [integral_finsetSum _ (fun (m : Fin N) _ => (hprod n n.2 m m.2).const_mul _), Finset.sum_range]
    exact Finset.sum_congr rfl (fun m _ => integral_const_mul _ _)
  · simp only [add_sub_cancel_left]
    have hrow : ∑ n, ‖lsCoef (design inputs N) 0 n‖ ^ 2 = 1 / Pw := by
      simp only [hls, norm_div, norm_star, Complex.norm_real, Real.norm_eq_abs, abs_of_pos hPpos, div_pow]
      rw [← Finset.sum_div, ← Finset.sum_range (fun n => ‖x n‖ ^ 2), ← hPw]
      field_simp
    have hres : ∀ ω, ∑ n : Fin N, ‖∑ m : Fin N, ((1 : Matrix (Fin N) (Fin N) ℂ) - design inputs N * lsCoef (design inputs N)) n m * ε ω m‖ ^ 2 =
        (∑ n ∈ Finset.range N, ‖ε ω n‖ ^ 2) - Pw * ‖δ ω‖ ^ 2 := by
      intro ω
      have e1 : ∀ n : Fin N, ∑ m : Fin N, ((1 : Matrix (Fin N) (Fin N) ℂ) - design inputs N * lsCoef (design inputs N)) n m * ε ω m =
          ε ω n - x n * δ ω := by
        intro n
        simp only [Matrix.sub_apply, sub_mul, Finset.sum_sub_distrib, Matrix.one_apply, ite_mul, one_mul, zero_mul, Finset.sum_ite_eq,
          Finset.mem_univ, if_true, Matrix.mul_apply, Fin.sum_univ_one, hD, hls, hδ, Finset.mul_sum, mul_assoc]
      simp only [e1]
      have e2 : (((∑ n : Fin N, ‖ε ω n - x n * δ ω‖ ^ 2 : ℝ)) : ℂ) = (((∑ n ∈ Finset.range N, ‖ε ω n‖ ^ 2) - Pw * ‖δ ω‖ ^ 2 : ℝ) : ℂ) := by
        have hsqn : ∀ z : ℂ, ((‖z‖ : ℝ) : ℂ) ^ 2 = z * star z := by
          intro z
          rw [RCLike.star_def, Complex.mul_conj, Complex.normSq_eq_norm_sq]
          push_cast
          rfl
        have hcross : ∑ n : Fin N, star (x n) * ε ω n = Pw * δ ω := by
          rw [hδ]
          simp only [Finset.mul_sum]
          refine Finset.sum_congr rfl (fun n _ => ?_)
          field_simp
        have hcross' : ∑ n : Fin N, x n * star (ε ω n) = Pw * star (δ ω) := by
          have := congrArg star hcross
          rw [star_sum, star_mul'] at this
          simp only [star_mul', star_star] at this
          rw [this]
          congr 1
          exact Complex.conj_ofReal Pw
        have hPn : ∑ n : Fin N, x n * star (x n) = Pw := by
          rw [hPw, Finset.sum_range]
          push_cast
          exact Finset.sum_congr rfl (fun n _ => (hsqn _).symm)
        push_cast
        simp only [hsqn]
        rw [Finset.sum_range]
        have e3 : ∀ n : Fin N, (ε ω n - x n * δ ω) * star (ε ω n - x n * δ ω) =
            ε ω n * star (ε ω n) - star (x n) * ε ω n * star (δ ω) - x n * star (ε ω n) * δ ω + x n * star (x n) * (δ ω * star (δ ω)) := by
          intro n
          rw [star_sub, star_mul']
          ring
        simp only [e3, Finset.sum_add_distrib, Finset.sum_sub_distrib, ← Finset.sum_mul, hcross, hcross', hPn]
        ring
      exact_mod_cast e2
    have hsqrt : ∀ ω, Real.sqrt ((∑ n : Fin N, ‖∑ m : Fin N, ((1 : Matrix (Fin N) (Fin N) ℂ) - design inputs N * lsCoef (design inputs N)) n m * ε ω m‖ ^ 2) /
        (N - (1 : ℕ)) * ∑ n, ‖lsCoef (design inputs N) 0 n‖ ^ 2) ^ 2 = ((∑ n ∈ Finset.range N, ‖ε ω n‖ ^ 2) - Pw * ‖δ ω‖ ^ 2) / ((N - 1) * Pw) := by
      intro ω
      rw [Real.sq_sqrt, hrow, hres]
      · push_cast
        field_simp
      · refine mul_nonneg (div_nonneg (Finset.sum_nonneg (fun _ _ => by positivity)) ?_) (Finset.sum_nonneg (fun _ _ => by positivity))
        push_cast
        exact hN1.le
    simp only [hsqrt]
    rw [integral_div, integral_sub (integrable_finsetSum _ (fun n hn => hn2 n (Finset.mem_range.1 hn))) (hδ2.const_mul _), integral_const_mul,
      integral_finsetSum _ (fun n hn => hn2 n (Finset.mem_range.1 hn))]

theorem product_swap {Ω : Type} [MeasurableSpace Ω] {P : Measure Ω} (u v : ℂ) (f g : Ω → ℂ) :
    star u * v * ∫ ω, f ω * star (g ω) ∂P = star (star v * u * ∫ ω, g ω * star (f ω) ∂P) := by
  have : star (∫ ω, g ω * star (f ω) ∂P) = ∫ ω, f ω * star (g ω) ∂P := by
    rw [RCLike.star_def, ← integral_conj]
    refine integral_congr_ae (Filter.Eventually.of_forall (fun ω => ?_))
    simp [mul_comm]
  rw [star_mul', star_mul', star_star, this]
  ring

set_option maxHeartbeats 2000000 in
/-- **C122.** With overlapping windows the reported error is too small. The input is a pure tone at the frequency of the estimation, the windows last a
whole number of periods, the output is the response to it plus white noise. With `V = Σ_k Σ_l (Lw - |k - l| shift)⁺`, the number of samples that pairs
of windows share, the mean square distance to the truth is `4 s V / (Lw² Nw² a²)`, while the mean square of the reported error is less, by the factor
`(Nw² Lw - V) / ((Nw - 1) V)`. -/
theorem C122_too_small {Ω : Type} [MeasurableSpace Ω] (P : Measure Ω) [IsProbabilityMeasure P] (a φ : ℝ) (ha : a ≠ 0) (N : ℕ) (T : ℂ) (s : ℝ) (hs : 0 < s)
    (η : Ω → ℕ → ℂ) (hη : White P N s η) (fs freq nper overlap : ℚ) (hov : 0 < overlap) (hnyq : freq / fs < 1 / 2) (E b : Ω → List ℂ) (Nw Lw shift : ℕ)
    (h : ∀ ω, timeToFreq [(List.range N).map (fun n => T * (tone a φ (freq / fs) N).getD n 0 + η ω n), tone a φ (freq / fs) N] fs freq nper overlap .none =
      .ok ([E ω, b ω], (Nw, Lw, shift))) (p : ℤ) (hp : (Lw : ℚ) * (freq / fs) = p) (o : MEst.Opts) (heap : ℕ → σ) :
    ∃ (Z : Ω → ℂ) (e : Ω → ℝ) (V : ℕ),
      (∀ ω, transferFunction [E ω] (fun _ : Fin 1 => b ω) [none] none .none o heap = (.ok [(some (fun _ => Z ω), [])], heap)) ∧
      (∀ ω, transferError [E ω] (fun _ : Fin 1 => b ω) [fun _ => Z ω] [[]] = .ok [fun _ => .fin (e ω)]) ∧
      V = ∑ k ∈ Finset.range Nw, ∑ l ∈ Finset.range Nw, (Lw - ((k - l) + (l - k)) * shift) ∧
      ∫ ω, Z ω ∂P = T ∧
      ∫ ω, ‖Z ω - T‖ ^ 2 ∂P = 4 * s * V / (Lw ^ 2 * Nw ^ 2 * a ^ 2) ∧
      (Nw - 1) * V * ∫ ω, e ω ^ 2 ∂P = (Nw ^ 2 * Lw - V) * ∫ ω, ‖Z ω - T‖ ^ 2 ∂P ∧
      ∫ ω, e ω ^ 2 ∂P < ∫ ω, ‖Z ω - T‖ ^ 2 ∂P := by
  rcases isEmpty_or_nonempty Ω with he | ⟨⟨ω0⟩⟩
  · exact absurd (measure_univ (μ := P)) (by rw [Set.univ_eq_empty_iff.2 he]; simp)
  set nf : ℚ := freq / fs with hnf
  set tn : List ℂ := tone a φ nf N with htn
  have htl : tn.length = N := by simp [htn, tone]
  obtain ⟨-, hsh, hL, hNw, h38⟩ := C38_time_to_freq _ _ _ _ _ _ _ _ _ _ (h ω0)
  have hdw := C38_window_data _ _ _ _ _ _ _ _ _ _ (h ω0) tn (by simp)
  have hslt : shift < Lw := overlap_shift hov hL hdw
  obtain ⟨-, hf, -⟩ := C37_discrete_window _ _ _ _ _ _ _ hdw
  -- the coefficients of the input and of the output
  set x : ℕ → ℂ := fun k => a * Complex.exp (Complex.I * (φ + 2 * Real.pi * nf * ((k * shift : ℕ) : ℂ))) with hxdef
  set ε : Ω → ℕ → ℂ := fun ω k => windowed nf Lw shift none ((List.range N).map (η ω)) k with hε
  have hco : ∀ ω, E ω = (List.range Nw).map (fun k => T * x k + ε ω k) ∧ b ω = (List.range Nw).map x := by
    intro ω
    have hl1 : [(List.range N).map (fun n => T * tn.getD n 0 + η ω n), tn] =
        noisy (fun _ : Fin 1 => tn) N (fun _ _ => T) (fun _ => η ω) 1 ++ List.ofFn (fun _ : Fin 1 => tn) := by
      simp [noisy]
    have h' := h ω
    rw [hl1] at h'
    obtain ⟨g1, g2, -⟩ := coeffs_noisy (fun _ : Fin 1 => tn) N (fun _ => htl) (fun _ _ => T) (fun _ => η ω) 1 fs freq nper overlap .none _ Nw Lw shift h'
    have hx : (List.range Nw).map (windowed nf Lw shift (Win.none.eval Lw) tn) = (List.range Nw).map x := by
      refine List.map_congr_left (fun k hk => ?_)
      have hk := List.mem_range.1 hk
      have hfit := ((h38 1 tn rfl).2 k).1 hk
      rw [htl] at hfit
      exact fourierAt_tone a φ hf.1 hnyq hL hp hfit
    have g2' := g2 0
    simp only [Fin.val_zero, Nat.add_zero, List.getD_cons_succ, List.getD_cons_zero] at g2'
    rw [← hnf, hx] at g2'
    refine ⟨?_, g2'⟩
    simp only [List.take_succ_cons, List.take_zero, noisy, List.range_one, List.map_cons, List.map_nil, List.cons.injEq, and_true, Fin.sum_univ_one] at g1
    rw [g1, ← hnf, hx]
    refine List.map_congr_left (fun k hk => ?_)
    have hk := List.mem_range.1 hk
    simp [hk, hε, Win.eval]
  have halone : ∀ ω, timeToFreq [(List.range N).map (η ω)] fs freq nper overlap .none = .ok ([(List.range Nw).map (ε ω)], (Nw, Lw, shift)) := by
    intro ω
    refine windowed_alone η _ (by simp) ?_ fs freq nper overlap .none [E ω0, b ω0] Nw Lw shift (h ω0) ω
    intro y hy
    rcases List.mem_cons.1 hy with rfl | hy
    · simp
    · rw [List.mem_singleton.1 hy, htl]
  have hget : ∀ ω k, k < Nw → ((List.range Nw).map (ε ω)).getD k 0 = ε ω k := by
    intro ω k hk
    rw [List.getD_eq_getElem?_getD, List.getElem?_map, List.getElem?_range hk]
    rfl
  obtain ⟨c1, c2⟩ := C122_covariance hη fs freq nper overlap .none (fun ω => (List.range Nw).map (ε ω)) Nw Lw shift halone
  have hsq : ∀ k < Nw, MemLp (fun ω => ε ω k) 2 P := by
    intro k hk
    have := (c1 k hk).1
    simpa only [hget _ k hk] using this
  have hmean : ∀ k < Nw, ∫ ω, ε ω k ∂P = 0 := by
    intro k hk
    have := (c1 k hk).2
    simpa only [hget _ k hk] using this
  have hcov : ∀ k d, k + d < Nw → ∫ ω, ε ω k * star (ε ω (k + d)) ∂P =
      s * (4 / (Lw : ℂ) ^ 2 * Complex.exp (-(2 * Real.pi * Complex.I * (nf : ℂ) * ((d * shift : ℕ) : ℂ))) * ((Lw - d * shift : ℕ) : ℂ)) := by
    intro k d hkd
    have := c2 k d hkd
    simp only [hget _ k (by omega : k < Nw), hget _ (k + d) hkd] at this
    rw [this]
    simp [Win.eval, winAt, hnf]
  have hxn : ∀ k, ‖x k‖ ^ 2 = a ^ 2 := by
    intro k
    simp only [hxdef]
    rw [norm_mul, Complex.norm_real, Real.norm_eq_abs]
    have : Complex.I * (φ + 2 * Real.pi * nf * ((k * shift : ℕ) : ℂ)) = ((φ + 2 * Real.pi * nf * (k * shift : ℕ) : ℝ) : ℂ) * Complex.I := by
      push_cast
      ring
    rw [this, Complex.norm_exp_ofReal_mul_I, mul_one, sq_abs]
  -- every term of the double sum is a positive multiple of the number of samples shared
  have hterm : ∀ k d, k + d < Nw → star (x k) * x (k + d) * ∫ ω, ε ω k * star (ε ω (k + d)) ∂P = ((4 * s * a ^ 2 / Lw ^ 2 * (Lw - d * shift : ℕ) : ℝ) : ℂ) := by
    intro k d hkd
    rw [hcov k d hkd]
    have hex : star (x k) * x (k + d) * Complex.exp (-(2 * Real.pi * Complex.I * (nf : ℂ) * ((d * shift : ℕ) : ℂ))) = (a : ℂ) ^ 2 := by
      simp only [hxdef]
      rw [star_mul', RCLike.star_def, Complex.conj_ofReal, ← Complex.exp_conj]
      have : (a : ℂ) * Complex.exp ((starRingEnd ℂ) (Complex.I * (φ + 2 * Real.pi * nf * ((k * shift : ℕ) : ℂ)))) *
          (a * Complex.exp (Complex.I * (φ + 2 * Real.pi * nf * (((k + d) * shift : ℕ) : ℂ)))) *
          Complex.exp (-(2 * Real.pi * Complex.I * (nf : ℂ) * ((d * shift : ℕ) : ℂ))) =
          (a : ℂ) ^ 2 * Complex.exp ((starRingEnd ℂ) (Complex.I * (φ + 2 * Real.pi * nf * ((k * shift : ℕ) : ℂ))) +
            Complex.I * (φ + 2 * Real.pi * nf * (((k + d) * shift : ℕ) : ℂ)) + -(2 * Real.pi * Complex.I * (nf : ℂ) * ((d * shift : ℕ) : ℂ))) := by
        rw [Complex.exp_add, Complex.exp_add]
        ring
      rw [this]
      have h0 : (starRingEnd ℂ) (Complex.I * (φ + 2 * Real.pi * nf * ((k * shift : ℕ) : ℂ))) +
            Complex.I * (φ + 2 * Real.pi * nf * (((k + d) * shift : ℕ) : ℂ)) + -(2 * Real.pi * Complex.I * (nf : ℂ) * ((d * shift : ℕ) : ℂ)) = 0 := by
        simp only [map_mul, map_add, Complex.conj_I, Complex.conj_ofReal, Complex.conj_ofNat, map_natCast, map_ratCast]
        push_cast
        ring
      rw [h0, Complex.exp_zero, mul_one]
    calc _ = (star (x k) * x (k + d) * Complex.exp (-(2 * Real.pi * Complex.I * (nf : ℂ) * ((d * shift : ℕ) : ℂ)))) *
        (s * (4 / (Lw : ℂ) ^ 2) * ((Lw - d * shift : ℕ) : ℂ)) := by ring
      _ = _ := by
        rw [hex]
        push_cast
        ring
  have hsym : ∀ k l, star (x l) * x k * ∫ ω, ε ω l * star (ε ω k) ∂P = star (star (x k) * x l * ∫ ω, ε ω k * star (ε ω l) ∂P) := by
    exact fun k l => product_swap _ _ _ _
  have hterm' : ∀ k < Nw, ∀ l < Nw, star (x k) * x l * ∫ ω, ε ω k * star (ε ω l) ∂P =
      ((4 * s * a ^ 2 / Lw ^ 2 * (Lw - ((k - l) + (l - k)) * shift : ℕ) : ℝ) : ℂ) := by
    intro k hk l hl
    rcases le_total k l with hkl | hkl
    · have := hterm k (l - k) (by omega)
      rw [show k + (l - k) = l by omega] at this
      rw [this, show (k - l) + (l - k) = l - k by omega]
    · have := hterm l (k - l) (by omega)
      rw [show l + (k - l) = k by omega] at this
      rw [hsym l k, this, show (k - l) + (l - k) = k - l by omega]
      exact Complex.conj_ofReal _
  obtain ⟨Z, e, z1, z2, z3, z4, z5⟩ := C122_reported P x Nw (by omega) ⟨0, by omega, by
    intro h0
    have := hxn 0
    rw [h0, norm_zero] at this
    exact ha (by simpa using this.symm)⟩ T ε hsq hmean o heap
  set V : ℕ := ∑ k ∈ Finset.range Nw, ∑ l ∈ Finset.range Nw, (Lw - ((k - l) + (l - k)) * shift) with hV
  have hP : ∑ n ∈ Finset.range Nw, ‖x n‖ ^ 2 = Nw * a ^ 2 := by
    simp only [hxn, Finset.sum_const, Finset.card_range, nsmul_eq_mul]
  have hL0 : (0 : ℝ) < Lw := by exact_mod_cast hL
  have hN0 : (0 : ℝ) < Nw := by exact_mod_cast (by omega : 0 < Nw)
  have ha2 : 0 < a ^ 2 := by positivity
  have hZ2 : ∫ ω, ‖Z ω - T‖ ^ 2 ∂P = 4 * s * V / (Lw ^ 2 * Nw ^ 2 * a ^ 2) := by
    have h2 : ∑ n ∈ Finset.range Nw, ∑ m ∈ Finset.range Nw, star (x n) * x m * ∫ ω, ε ω n * star (ε ω m) ∂P = ((4 * s * a ^ 2 / Lw ^ 2 * V : ℝ) : ℂ) := by
      rw [hV]
      push_cast
      rw [Finset.mul_sum]
      refine Finset.sum_congr rfl (fun k hk => ?_)
      rw [Finset.mul_sum]
      refine Finset.sum_congr rfl (fun l hl => ?_)
      rw [hterm' k (Finset.mem_range.1 hk) l (Finset.mem_range.1 hl)]
      push_cast
      rfl
    rw [h2, hP, ← Complex.ofReal_pow, ← Complex.ofReal_div] at z4
    have := Complex.ofReal_injective z4
    rw [this]
    field_simp
  have hpow : ∀ k < Nw, ∫ ω, ‖ε ω k‖ ^ 2 ∂P = 4 * s / Lw := by
    intro k hk
    have h1 := hcov k 0 (by omega)
    have h2 : ∫ ω, ε ω k * star (ε ω (k + 0)) ∂P = ((∫ ω, ‖ε ω k‖ ^ 2 ∂P : ℝ) : ℂ) := by
      rw [← integral_complex_ofReal]
      refine integral_congr_ae (Filter.Eventually.of_forall (fun ω => ?_))
      simp only [Nat.add_zero]
      rw [RCLike.star_def, Complex.mul_conj, Complex.normSq_eq_norm_sq]
    rw [h2] at h1
    have h3 : (s : ℂ) * (4 / (Lw : ℂ) ^ 2 * Complex.exp (-(2 * Real.pi * Complex.I * (nf : ℂ) * ((0 * shift : ℕ) : ℂ))) * ((Lw - 0 * shift : ℕ) : ℂ)) =
        ((4 * s / Lw : ℝ) : ℂ) := by
      simp only [Nat.zero_mul, Nat.cast_zero, mul_zero, neg_zero, Complex.exp_zero, mul_one, Nat.sub_zero]
      have : (Lw : ℂ) ≠ 0 := by exact_mod_cast hL0.ne'
      push_cast
      field_simp
    rw [h3] at h1
    exact Complex.ofReal_injective h1
  have hsum : ∑ n ∈ Finset.range Nw, ∫ ω, ‖ε ω n‖ ^ 2 ∂P = Nw * (4 * s / Lw) := by
    rw [Finset.sum_congr rfl (fun k hk => hpow k (Finset.mem_range.1 hk)), Finset.sum_const, Finset.card_range, nsmul_eq_mul]
  have hVgt : Nw * Lw < V := by
    have hdiag : ∀ k ∈ Finset.range Nw, Lw ≤ ∑ l ∈ Finset.range Nw, (Lw - ((k - l) + (l - k)) * shift) := by
      intro k hk
      have := Finset.single_le_sum (f := fun l => Lw - ((k - l) + (l - k)) * shift) (fun _ _ => Nat.zero_le _) hk
      simpa using this
    have h0 : Lw < ∑ l ∈ Finset.range Nw, (Lw - ((0 - l) + (l - 0)) * shift) := by
      have hsub : ({0, 1} : Finset ℕ) ⊆ Finset.range Nw := by
        intro l hl
        simp only [Finset.mem_insert, Finset.mem_singleton] at hl
        exact Finset.mem_range.2 (by omega)
      have := Finset.sum_le_sum_of_subset (f := fun l => Lw - ((0 - l) + (l - 0)) * shift) hsub
      rw [Finset.sum_pair (by norm_num)] at this
      simp at this
      simp
      omega
    have := Finset.sum_lt_sum hdiag ⟨0, Finset.mem_range.2 (by omega), h0⟩
    simpa [Finset.sum_const, Finset.card_range] using this
  have hVr : (Nw : ℝ) * Lw < V := by exact_mod_cast hVgt
  have hN1 : (0 : ℝ) < (Nw : ℝ) - 1 := by
    have : (2 : ℝ) ≤ Nw := by exact_mod_cast hNw
    linarith
  rw [hsum, hP, hZ2] at z5
  refine ⟨Z, e, V, fun ω => ?_, fun ω => ?_, rfl, z3, hZ2, ?_, ?_⟩
  · rw [(hco ω).1, (hco ω).2]; exact z1 ω
  · rw [(hco ω).1, (hco ω).2]; exact z2 ω
  · rw [z5, hZ2]
    field_simp
  · rw [z5, hZ2, div_lt_div_iff₀ (by positivity) (by positivity)]
    have key : (Nw * (4 * s / Lw) - Nw * a ^ 2 * (4 * s * V / (Lw ^ 2 * Nw ^ 2 * a ^ 2)) : ℝ) = 4 * s / (Lw ^ 2 * Nw) * (Nw ^ 2 * Lw - V) := by
      field_simp
    rw [key]
    have : 4 * s / (Lw ^ 2 * Nw) * (Nw ^ 2 * Lw - V) * (Lw ^ 2 * Nw ^ 2 * a ^ 2) = 4 * s * Nw * a ^ 2 * (Nw ^ 2 * Lw - V) := by
      field_simp
    rw [this]
    have h4 : 0 < 4 * s * Nw * a ^ 2 := by positivity
    nlinarith [mul_lt_mul_of_pos_left hVr (mul_pos h4 hN0)]

end oneInput

section examples

/-- Noise in real recordings is noise in recordings. -/
theorem white_complex {Ω : Type} [MeasurableSpace Ω] {P : Measure Ω} {N : ℕ} {s : ℝ} {η : Ω → ℕ → ℝ} (hη : White P N s η) :
    White P N s (fun ω n => (η ω n : ℂ)) where
  square n hn := (hη.square n hn).ofReal
  mean n hn := by
    have := hη.mean n hn
    rw [integral_complex_ofReal, this, Complex.ofReal_zero]
  power n hn m hm := by
    have := hη.power n hn m hm
    simp only [RCLike.star_def, Complex.conj_ofReal, ← Complex.ofReal_mul]
    rw [integral_complex_ofReal]
    simp only [star_trivial] at this
    rw [this]
    split <;> simp

instance : IsProbabilityMeasure (exLaw 8) := exProb (by norm_num)

theorem exNoise8 : White (exLaw 8) 8 (1 / 8) (fun ω n => ((exSign ω n : ℝ) : ℂ)) := by
  have := white_complex (exWhite (N := 8) (by norm_num))
  exact_mod_cast this

theorem exHalf : discreteWindow 8 (1 / 4 / 1) 1 (1 / 2) = .ok (2, 4, 2) := by decide +kernel

/-- Eight samples of white noise, windows of four samples, disjoint: two uncorrelated coefficients. -/
example : ∃ c : Fin 8 × Bool → List ℂ, (∀ ω, timeToFreq [(List.range 8).map (fun n => ((exSign ω n : ℝ) : ℂ))] 1 (1 / 4) 1 0 .none = .ok ([c ω], (2, 4, 4))) ∧
    White (exLaw 8) 2 (1 / 8 * (4 / 4 ^ 2 * 4)) (fun ω k => (c ω).getD k 0) := by
  have hc : ∀ ω : Fin 8 × Bool, ∃ c, timeToFreq [(List.range 8).map (fun n => ((exSign ω n : ℝ) : ℂ))] 1 (1 / 4) 1 0 .none = .ok ([c], (2, 4, 4)) := by
    intro ω
    obtain ⟨res, h⟩ := timeToFreq_of (data := [(List.range 8).map (fun n => ((exSign ω n : ℝ) : ℂ))]) (N := 8) (win := .none) (by simp) (by simp) exDW
      (by simp [Win.eval])
    have hl := (C38_time_to_freq _ _ _ _ _ _ _ _ _ _ h).1
    obtain ⟨c, rfl⟩ := List.length_eq_one_iff.1 hl
    exact ⟨c, h⟩
  choose c hc using hc
  refine ⟨c, hc, ?_⟩
  have := C122_white exNoise8 1 (1 / 4) 1 .none c 2 4 4 hc
  simpa [Win.eval, winAt] using this

/-- Eight samples of a tone of period four and of its double plus white noise, windows of four samples which overlap by half: the mean square of the
error reported is two fifths of what it should be. -/
example : ∃ (E b : Fin 8 × Bool → List ℂ) (Z : Fin 8 × Bool → ℂ) (e : Fin 8 × Bool → ℝ),
    (∀ ω, timeToFreq [(List.range 8).map (fun n => 2 * (tone 3 1 (1 / 4 / 1) 8).getD n 0 + ((exSign ω n : ℝ) : ℂ)), tone 3 1 (1 / 4 / 1) 8] 1 (1 / 4) 1 (1 / 2) .none =
      .ok ([E ω, b ω], (3, 4, 2))) ∧
    (∀ ω, transferFunction [E ω] (fun _ : Fin 1 => b ω) [none] none .none {} (fun _ => ()) = (.ok [(some (fun _ => Z ω), [])], fun _ => ())) ∧
    (∀ ω, transferError [E ω] (fun _ : Fin 1 => b ω) [fun _ => Z ω] [[]] = .ok [fun _ => .fin (e ω)]) ∧
    ∫ ω, Z ω ∂(exLaw 8) = 2 ∧ ∫ ω, e ω ^ 2 ∂(exLaw 8) = 2 / 5 * ∫ ω, ‖Z ω - 2‖ ^ 2 ∂(exLaw 8) := by
  have hc : ∀ ω : Fin 8 × Bool, ∃ E b, timeToFreq [(List.range 8).map (fun n => 2 * (tone 3 1 (1 / 4 / 1) 8).getD n 0 + ((exSign ω n : ℝ) : ℂ)),
      tone 3 1 (1 / 4 / 1) 8] 1 (1 / 4) 1 (1 / 2) .none = .ok ([E, b], (3, 4, 2)) := by
    intro ω
    obtain ⟨res, h⟩ := timeToFreq_of (data := [(List.range 8).map (fun n => 2 * (tone 3 1 (1 / 4 / 1) 8).getD n 0 + ((exSign ω n : ℝ) : ℂ)),
      tone 3 1 (1 / 4 / 1) 8]) (N := 8) (win := .none) (by simp) (by simp [tone]) exHalf (by simp [Win.eval])
    have hl := (C38_time_to_freq _ _ _ _ _ _ _ _ _ _ h).1
    obtain ⟨E, b, rfl⟩ := List.length_eq_two.1 hl
    exact ⟨E, b, h⟩
  choose E b hc using hc
  obtain ⟨Z, e, V, h1, h2, hV, h3, h4, h5, -⟩ := C122_too_small (σ := Unit) (exLaw 8) 3 1 (by norm_num) 8 2 (1 / 8) (by norm_num) _ exNoise8 1 (1 / 4) 1 (1 / 2)
    (by norm_num) (by norm_num) E b 3 4 2 hc 1 (by norm_num) {} (fun _ => ())
  have hV' : V = 20 := by rw [hV]; decide
  refine ⟨E, b, Z, e, hc, h1, h2, h3, ?_⟩
  rw [hV'] at h5
  norm_num at h5
  linarith

/-- The same recordings with disjoint windows: the hypotheses of `C122_estimate` hold, and the error is right in the mean. -/
example : ∃ (co : Fin 8 × Bool → List (List ℂ)) (Z : Fin 8 × Bool → ℕ → Fin 1 → ℂ) (e : Fin 8 × Bool → ℕ → Fin 1 → ℝ),
    (∀ ω, timeToFreq (noisy (fun _ : Fin 1 => tone 3 1 (1 / 4 / 1) 8) 8 (fun _ _ => 2) (fun _ n => ((exSign ω n : ℝ) : ℂ)) 1 ++
      List.ofFn (fun _ : Fin 1 => tone 3 1 (1 / 4 / 1) 8)) 1 (1 / 4) 1 0 .none = .ok (co ω, (2, 4, 4))) ∧
    ∫ ω, Z ω 0 0 ∂(exLaw 8) = 2 ∧ ∫ ω, e ω 0 0 ^ 2 ∂(exLaw 8) = ∫ ω, ‖Z ω 0 0 - 2‖ ^ 2 ∂(exLaw 8) := by
  have hc : ∀ ω : Fin 8 × Bool, ∃ co, timeToFreq (noisy (fun _ : Fin 1 => tone 3 1 (1 / 4 / 1) 8) 8 (fun _ _ => 2) (fun _ n => ((exSign ω n : ℝ) : ℂ)) 1 ++
      List.ofFn (fun _ : Fin 1 => tone 3 1 (1 / 4 / 1) 8)) 1 (1 / 4) 1 0 .none = .ok (co, (2, 4, 4)) := by
    intro ω
    exact timeToFreq_of (N := 8) (win := .none) (by simp) (by simp [noisy, tone]) exDW (by simp [Win.eval])
  choose co hc using hc
  have hlen : ∀ j : Fin 1, (tone 3 1 (1 / 4 / 1) 8).length = 8 := fun _ => by simp [tone]
  have hind : ∀ ω, InputsIndependent (fun j : Fin 1 => (co ω).getD (1 + j) []) 2 [] := by
    intro ω d hd
    obtain ⟨-, h2, -⟩ := coeffs_noisy (fun _ : Fin 1 => tone 3 1 (1 / 4 / 1) 8) 8 hlen _ _ 1 _ _ _ _ _ _ _ _ _ (hc ω)
    have h0 := hd 0 (by norm_num) (by simp)
    simp only [Fin.sum_univ_one, h2] at h0
    have hv : ((List.range 2).map (windowed (1 / 4 / 1) 4 4 (Win.none.eval 4) (tone 3 1 (1 / 4 / 1) 8))).getD 0 0 ≠ 0 := by
      have := fourierAt_tone 3 1 (nf := 1 / 4 / 1) (by norm_num) (by norm_num) (L := 4) (N := 8) (m := 0) (p := 1) (by norm_num) (by norm_num) (by norm_num)
      simp only [List.getD_eq_getElem?_getD, List.getElem?_map, List.getElem?_range (show 0 < 2 by norm_num), Option.map_some, Option.getD_some, windowed,
        Nat.zero_mul, Win.eval]
      rw [this]
      exact mul_ne_zero (by norm_num) (Complex.exp_ne_zero _)
    funext j
    rw [Subsingleton.elim j 0]
    exact (mul_eq_zero.1 h0).resolve_right hv
  obtain ⟨Z, -, h2, h3⟩ := C122_estimate (σ := Unit) (exLaw 8) (fun _ : Fin 1 => tone 3 1 (1 / 4 / 1) 8) 8 (by norm_num) hlen 1 (by norm_num) (fun _ _ => 2)
    (fun _ => 1 / 8) (fun ω _ n => ((exSign ω n : ℝ) : ℂ)) (fun _ _ => exNoise8) 1 (1 / 4) 1 0 .none co 2 4 4 hc hind {} (fun _ => ())
  obtain ⟨e, -, h5⟩ := h3 rfl (by norm_num)
  exact ⟨co, Z, e, hc, (h2 0 (by norm_num) 0).2, (h5 0 (by norm_num) 0).2.2⟩

end examples

end Razorback.Props
