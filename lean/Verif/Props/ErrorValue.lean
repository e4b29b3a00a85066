/-
C50: the value of `transfer_error`, and when it succeeds.
-/
import Verif.Props.Transfer
import Verif.Lemmas.Windows

namespace Razorback.Props
open Razorback Razorback.Spec Razorback.MEst Razorback.Windows
open scoped Matrix

variable {𝕜 : Type} [RCLike 𝕜] {q : ℕ}

theorem list_sum_range {M : Type} [AddCommMonoid M] (f : ℕ → M) (N : ℕ) : ((List.range N).map f).sum = ∑ n ∈ Finset.range N, f n := rfl

theorem gram_transpose (inputs : Fin q → List 𝕜) (N : ℕ) (j k : Fin q) :
    (gram (rowsOf inputs N) none)ᵀ j k = ∑ n ∈ Finset.range N, (inputs j).getD n 0 * star ((inputs k).getD n 0) := by
  have h := gram_list (List.range N) (fun n (j : Fin q) => (inputs j).getD n 0) none
  rw [Option.map_none] at h
  rw [Matrix.transpose_apply]
  have e : rowsOf inputs N = (List.range N).map (fun n (j : Fin q) => (inputs j).getD n 0) := rfl
  rw [e, h]
  simp only [Matrix.of_apply, Option.map_none, Option.getD_none, one_smul, list_sum_range]
  exact Finset.sum_congr rfl (fun n _ => mul_comm _ _)

/-- **C50.** It succeeds exactly when there is an output and an input, all have the same number of samples, there is a list of
invalid indices for each output, and the inputs are linearly independent over all the samples, the invalid ones included. -/
theorem C50_succeeds_iff (outputs : List (List 𝕜)) (inputs : Fin q → List 𝕜) (transfer : List (Fin q → 𝕜)) (inv : List (List ℕ)) :
    (∃ E, transferError outputs inputs transfer inv = .ok E) ↔
      outputs ≠ [] ∧ q ≠ 0 ∧ inv.length = outputs.length ∧ ∃ N, (∀ y ∈ outputs, y.length = N) ∧ (∀ j, (inputs j).length = N) ∧
        ∀ d : Fin q → 𝕜, (∀ n < N, ∑ j, (inputs j).getD n 0 * d j = 0) → d = 0 := by
  have hdet : ∀ N, (gram (rowsOf inputs N) none)ᵀ.det = 0 ↔ ¬ ∀ d : Fin q → 𝕜, (∀ n < N, ∑ j, (inputs j).getD n 0 * d j = 0) → d = 0 := by
    intro N
    have hl : (rowsOf inputs N).length = N := by simp [rowsOf]
    have h1 := independent_iff (x := List.replicate N (0 : 𝕜)) (y := rowsOf inputs N) (w := none) (by simp [hl]) (by simp [eff])
    rw [Matrix.det_transpose, ← not_iff_not, not_not]
    have hobs : obs (List.replicate N (0 : 𝕜)) (rowsOf inputs N) (eff none (rowsOf inputs N).length) =
        (List.range N).map (fun n => ⟨1, 0, fun j => (inputs j).getD n 0⟩) := by
      apply List.ext_getElem
      · simp [obs, eff, hl]
      · intro n h2 h3
        simp [obs, eff, rowsOf]
    rw [hobs] at h1
    rw [← Ne, ← h1, C44_independent _ (by
      intro t ht
      obtain ⟨n, -, rfl⟩ := List.mem_map.1 ht
      simp)]
    simp [dotProduct]
  unfold transferError
  cases outputs with
  | nil => simp
  | cons y l =>
    simp only
    constructor
    · rintro ⟨E, h⟩
      split at h
      · simp at h
      · rename_i h0
        split at h
        · simp at h
        · rename_i h1
          split at h
          · simp at h
          · rename_i h2
            rw [hdet, not_not] at h2
            push Not at h0 h1
            refine ⟨by simp, h0.1, h1, y.length, ?_, h0.2.1, h2⟩
            simpa using h0.2.2
    · rintro ⟨-, hq, hi, N, h1, h2, h3⟩
      obtain rfl := h1 y (by simp)
      rw [if_neg, if_neg (by simpa using hi), if_neg]
      · exact ⟨_, rfl⟩
      · rw [hdet, not_not]; exact h3
      · push Not
        refine ⟨hq, h2, ?_⟩
        simpa using h1

theorem residual_samples {inputs : Fin q → List 𝕜} {y : List 𝕜} {N : ℕ} (hN : y.length = N) (T : Fin q → 𝕜) :
    MEst.residual y (rowsOf inputs N) T = (List.range N).map (fun n => y.getD n 0 - ∑ k, (inputs k).getD n 0 * T k) := by
  have : y = (List.range N).map (fun n => y.getD n 0) := by
    apply List.ext_getElem
    · simp [hN]
    · intro n h1 h2
      simp [h1]
  conv_lhs => rw [this]
  exact residual_list (List.range N) (fun n => y.getD n 0) (fun n (j : Fin q) => (inputs j).getD n 0) T

/-- **C50.** The value: the norm of the residual over all the samples, times the number `N` of samples over the square root of
`N` minus the number of inputs, over the number of valid samples, times the square root of the diagonal entry of the inverse
of the matrix of the scalar products of the inputs. -/
theorem C50_value (outputs : List (List 𝕜)) (inputs : Fin q → List 𝕜) (transfer : List (Fin q → 𝕜))
    (inv : List (List ℕ)) (E : List (Fin q → Flt)) (h : transferError outputs inputs transfer inv = .ok E) (N : ℕ)
    (M : Matrix (Fin q) (Fin q) 𝕜)
    (hM : ∀ j k, ∑ l, M j l * ∑ n ∈ Finset.range N, (inputs l).getD n 0 * star ((inputs k).getD n 0) = if j = k then 1 else 0)
    (i : ℕ) (y : List 𝕜) (T : Fin q → 𝕜) (v : List ℕ) (row : Fin q → Flt) (hy : outputs[i]? = some y) (hN : y.length = N)
    (hT : transfer[i]? = some T) (hv : inv[i]? = some v) (hE : E[i]? = some row) (hq : q < N) (hvl : v.length < N) (j : Fin q) :
    row j = .fin (Real.sqrt (∑ n ∈ Finset.range N, ‖y.getD n 0 - ∑ k, (inputs k).getD n 0 * T k‖ ^ 2) * (N / Real.sqrt (N - q)) /
      (N - v.length) * Real.sqrt ‖M j j‖) := by
  obtain ⟨N', h1, h2, h3, rfl⟩ := transferError_ok h
  obtain rfl : N' = N := by rw [← hN, h1 y (List.mem_of_getElem? hy)]
  rw [List.getElem?_map, Option.map_eq_some_iff] at hE
  obtain ⟨⟨y', T', v'⟩, hm, rfl⟩ := hE
  rw [List.getElem?_zip_eq_some, List.getElem?_zip_eq_some] at hm
  obtain ⟨a, b, c⟩ := hm
  rw [hy] at a; rw [hT] at b; rw [hv] at c
  simp only [Option.some.injEq] at a b c
  subst a b c
  have hinv : (gram (rowsOf inputs N') none)ᵀ⁻¹ = M := by
    apply Matrix.inv_eq_left_inv
    ext j k
    rw [Matrix.mul_apply, Matrix.one_apply, ← hM j k]
    exact Finset.sum_congr rfl (fun l _ => by rw [gram_transpose])
  have hres := residual_samples (inputs := inputs) hN T
  simp only
  rw [errorRow_fin _ _ _ _ (by omega) (by omega)]
  simp only [hinv, hres, List.map_map, Function.comp_def, list_sum_range, hN]
  rw [div_div_eq_mul_div, mul_div_assoc (Real.sqrt _)]

/-- **C50.** With as many samples as inputs, or when all the samples are invalid, the errors of an output which is not reproduced
exactly are infinite. -/
theorem C50_infinite (outputs : List (List 𝕜)) (inputs : Fin q → List 𝕜) (transfer : List (Fin q → 𝕜))
    (inv : List (List ℕ)) (E : List (Fin q → Flt)) (h : transferError outputs inputs transfer inv = .ok E)
    (i : ℕ) (y : List 𝕜) (T : Fin q → 𝕜) (v : List ℕ) (row : Fin q → Flt) (hy : outputs[i]? = some y)
    (hT : transfer[i]? = some T) (hv : inv[i]? = some v) (hE : E[i]? = some row) (hN : y.length = q ∨ q < y.length ∧ v.length = y.length)
    (hvl : v.length ≤ y.length) (n : ℕ) (hn : n < y.length) (hfit : y.getD n 0 ≠ ∑ k, (inputs k).getD n 0 * T k) :
    row = fun _ => .pinf := by
  obtain ⟨-, -, -, N0, g1, -, g3⟩ := (C50_succeeds_iff outputs inputs transfer inv).1 ⟨E, h⟩
  obtain ⟨N, h1, h2, h3, rfl⟩ := transferError_ok h
  obtain rfl : N0 = N := by rw [← g1 y (List.mem_of_getElem? hy), h1 y (List.mem_of_getElem? hy)]
  have hNy := h1 y (List.mem_of_getElem? hy)
  rw [List.getElem?_map, Option.map_eq_some_iff] at hE
  obtain ⟨⟨y', T', v'⟩, hm, rfl⟩ := hE
  rw [List.getElem?_zip_eq_some, List.getElem?_zip_eq_some] at hm
  obtain ⟨a, b, c⟩ := hm
  rw [hy] at a; rw [hT] at b; rw [hv] at c
  simp only [Option.some.injEq] at a b c
  subst a b c
  have hdet : (gram (rowsOf inputs N0) none)ᵀ.det ≠ 0 := by
    intro h0
    unfold transferError at h
    cases outputs with
    | nil => simp at h
    | cons z l =>
      have : z.length = N0 := g1 z (by simp)
      simp only [this, h0, if_true] at h
      split at h
      · simp at h
      · split at h <;> simp at h
  have hMG := Matrix.nonsing_inv_mul _ (isUnit_iff_ne_zero.2 hdet)
  funext j
  have hjj : ‖(gram (rowsOf inputs N0) none)ᵀ⁻¹ j j‖ ≠ 0 := by
    intro h0
    rw [norm_eq_zero] at h0
    generalize hM : (gram (rowsOf inputs N0) none)ᵀ⁻¹ = M at hMG h0
    have hrow : ∀ k, ∑ n ∈ Finset.range N0, (∑ l, M j l * (inputs l).getD n 0) * star ((inputs k).getD n 0) = if j = k then 1 else 0 := by
      intro k
      have := congrFun (congrFun hMG j) k
      rw [Matrix.mul_apply, Matrix.one_apply] at this
      rw [← this]
      simp only [gram_transpose, Finset.mul_sum, Finset.sum_mul]
      rw [Finset.sum_comm]
      exact Finset.sum_congr rfl (fun l _ => Finset.sum_congr rfl (fun n _ => by ring))
    have hsq : ∑ n ∈ Finset.range N0, (∑ l, M j l * (inputs l).getD n 0) * star (∑ k, M j k * (inputs k).getD n 0) = 0 := by
      have e : ∑ k, star (M j k) * (if j = k then (1 : 𝕜) else 0) = 0 := by simp [h0]
      refine Eq.trans ?_ e
      simp only [← hrow, Finset.mul_sum]
      rw [Finset.sum_comm]
      refine Finset.sum_congr rfl (fun n _ => ?_)
      rw [star_sum, Finset.mul_sum]
      refine Finset.sum_congr rfl (fun k _ => ?_)
      rw [star_mul']
      ring
    have hz : ∀ n ∈ Finset.range N0, ‖∑ l, M j l * (inputs l).getD n 0‖ ^ 2 = 0 := by
      rw [← Finset.sum_eq_zero_iff_of_nonneg (fun n _ => by positivity)]
      have : ((∑ n ∈ Finset.range N0, ‖∑ l, M j l * (inputs l).getD n 0‖ ^ 2 : ℝ) : 𝕜) = 0 := by
        refine Eq.trans ?_ hsq
        push_cast
        exact Finset.sum_congr rfl (fun n _ => (RCLike.mul_conj _).symm)
      exact_mod_cast this
    have h1 := hrow j
    rw [if_pos rfl, Finset.sum_eq_zero] at h1
    · exact zero_ne_one h1
    · intro n hn
      have := hz n hn
      rw [pow_eq_zero_iff (by norm_num), norm_eq_zero] at this
      rw [this, zero_mul]
  have hs : (0 : ℝ) < Real.sqrt ‖(gram (rowsOf inputs N0) none)ᵀ⁻¹ j j‖ := Real.sqrt_pos.2 (lt_of_le_of_ne (norm_nonneg _) (Ne.symm hjj))
  have hnres : (0 : ℝ) < Real.sqrt ((MEst.residual y (rowsOf inputs N0) T).map (fun x => ‖x‖ ^ 2)).sum := by
    rw [Real.sqrt_pos, residual_samples hNy, List.map_map, list_sum_range]
    refine Finset.sum_pos' (fun n _ => by simp only [Function.comp]; positivity) ⟨n, by rw [Finset.mem_range]; omega, ?_⟩
    have : y.getD n 0 - ∑ k, (inputs k).getD n 0 * T k ≠ 0 := sub_ne_zero.2 hfit
    simp only [Function.comp]
    positivity
  have hy0 : (0 : ℝ) < y.length := by exact_mod_cast (by omega : 0 < y.length)
  have hvy : ¬ (y.length : ℝ) - v.length < 0 := by
    have : (v.length : ℝ) ≤ y.length := by exact_mod_cast hvl
    linarith
  simp only [errorRow]
  generalize Real.sqrt ‖(gram (rowsOf inputs N0) none)ᵀ⁻¹ j j‖ = s at hs
  generalize Real.sqrt ((MEst.residual y (rowsOf inputs N0) T).map (fun x => ‖x‖ ^ 2)).sum = r at hnres
  rcases hN with hN | ⟨hq, hN⟩
  · have : Flt.div (Flt.sqrt (.fin ((y.length : ℝ) - q))) (.fin y.length) = .fin 0 := by
      simp [← hN, Flt.sqrt, Flt.div, hy0.ne']
    rw [this]
    simp [Flt.div, hnres, hnres.ne', hvy, Flt.mul, Flt.infTimes, hs, hs.ne']
  · have h5 : (q : ℝ) < y.length := by exact_mod_cast hq
    have h6 : 0 < Real.sqrt ((y.length : ℝ) - q) / y.length := div_pos (Real.sqrt_pos.2 (by linarith)) hy0
    have h7 : ¬ (y.length : ℝ) - q < 0 := by linarith
    have h8 := div_pos hnres h6
    simp only [Flt.sqrt, h7, if_false, Flt.div, hy0.ne', h6.ne', hN, sub_self, if_true, h8, h8.ne', Flt.mul, Flt.infTimes, hs, hs.ne']

/-- **C50.** With orthogonal inputs the error of a coefficient is inversely proportional to the norm of its input. -/
theorem C50_orthogonal (outputs : List (List 𝕜)) (inputs : Fin q → List 𝕜) (transfer : List (Fin q → 𝕜))
    (inv : List (List ℕ)) (E : List (Fin q → Flt)) (h : transferError outputs inputs transfer inv = .ok E) (N : ℕ)
    (horth : ∀ j k, j ≠ k → ∑ n ∈ Finset.range N, (inputs j).getD n 0 * star ((inputs k).getD n 0) = 0)
    (hpos : ∀ j, ∃ n < N, (inputs j).getD n 0 ≠ 0)
    (i : ℕ) (y : List 𝕜) (T : Fin q → 𝕜) (v : List ℕ) (row : Fin q → Flt) (hy : outputs[i]? = some y) (hN : y.length = N)
    (hT : transfer[i]? = some T) (hv : inv[i]? = some v) (hE : E[i]? = some row) (hq : q < N) (hvl : v.length < N) (j : Fin q) :
    row j = .fin (Real.sqrt (∑ n ∈ Finset.range N, ‖y.getD n 0 - ∑ k, (inputs k).getD n 0 * T k‖ ^ 2) * (N / Real.sqrt (N - q)) /
      (N - v.length) / Real.sqrt (∑ n ∈ Finset.range N, ‖(inputs j).getD n 0‖ ^ 2)) := by
  let s : Fin q → ℝ := fun j => ∑ n ∈ Finset.range N, ‖(inputs j).getD n 0‖ ^ 2
  have hs : ∀ j, ∑ n ∈ Finset.range N, (inputs j).getD n 0 * star ((inputs j).getD n 0) = ((s j : ℝ) : 𝕜) := by
    intro j
    simp only [s]
    push_cast
    exact Finset.sum_congr rfl (fun n _ => RCLike.mul_conj _)
  have hs0 : ∀ j, 0 < s j := by
    intro j
    obtain ⟨n, hn, h0⟩ := hpos j
    exact Finset.sum_pos' (fun n _ => by positivity) ⟨n, by simpa using hn, by positivity⟩
  have hM := C50_value outputs inputs transfer inv E h N (Matrix.diagonal (fun j => ((s j : ℝ) : 𝕜)⁻¹)) (by
    intro j k
    rw [Finset.sum_eq_single j]
    · rw [Matrix.diagonal_apply_eq]
      split
      · rename_i hjk
        subst hjk
        rw [hs]
        exact inv_mul_cancel₀ (by exact_mod_cast (hs0 j).ne')
      · rename_i hjk
        rw [horth j k hjk, mul_zero]
    · intro l _ hl
      rw [Matrix.diagonal_apply_ne _ (Ne.symm hl), zero_mul]
    · simp) i y T v row hy hN hT hv hE hq hvl j
  rw [hM, Matrix.diagonal_apply_eq, norm_inv, RCLike.norm_ofReal, abs_of_pos (hs0 j), Real.sqrt_inv, ← div_eq_mul_inv]

/-- An output `(1, 2)` with the input `(1, 0)` and the coefficient `1`: an error is given, and it is `2`. -/
example : ∃ E : List (Fin 1 → Flt), transferError (𝕜 := ℝ) [[1, 2]] (fun _ => [1, 0]) [fun _ => 1] [[]] = .ok E ∧
    ∃ row, E[0]? = some row ∧ row 0 = .fin 2 := by
  obtain ⟨E, hE⟩ := (C50_succeeds_iff (𝕜 := ℝ) [[1, 2]] (fun _ : Fin 1 => [1, 0]) [fun _ => 1] [[]]).2 (by
    refine ⟨by simp, by simp, by simp, 2, by simp, by simp, ?_⟩
    intro d hd
    have := hd 0 (by simp)
    funext j
    fin_cases j
    simpa using this)
  refine ⟨E, hE, ?_⟩
  have hl : E.length = 1 := by
    obtain ⟨N, -, -, -, rfl⟩ := transferError_ok hE
    simp
  obtain ⟨row, rfl⟩ := List.length_eq_one_iff.1 hl
  refine ⟨row, rfl, ?_⟩
  have := C50_orthogonal (𝕜 := ℝ) _ _ _ _ _ hE 2 (by
    intro j k hjk
    exact absurd (Subsingleton.elim j k) hjk) (fun j => ⟨0, by simp, by simp⟩) 0 _ _ _ _ rfl rfl rfl rfl rfl (by norm_num) (by simp) 0
  rw [this]
  norm_num [Finset.sum_range_succ]
  rw [show (4 : ℝ) = 2 ^ 2 by norm_num]
  exact Real.sqrt_sq (by norm_num)

end Razorback.Props
