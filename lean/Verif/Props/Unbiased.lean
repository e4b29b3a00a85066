/-
Property C118: what noise does to the least squares estimate and to the error reported with it.
-/
import Verif.Props.ErrorValue
import Verif.Props.RealProb
import Mathlib.MeasureTheory.Function.L2Space
import Mathlib.MeasureTheory.Integral.Bochner.Basic
import Mathlib.MeasureTheory.Measure.Dirac

namespace Razorback.Props
open Razorback Razorback.Spec Razorback.MEst Razorback.Windows
open scoped Matrix ComplexOrder
open MeasureTheory

variable {𝕜 : Type} [RCLike 𝕜] {q : ℕ} {σ : Type}

section matrices
variable {N : ℕ} {X : Matrix (Fin N) (Fin q) 𝕜}

/-- The matrix of least squares. -/
noncomputable def lsCoef (X : Matrix (Fin N) (Fin q) 𝕜) : Matrix (Fin q) (Fin N) 𝕜 := (Xᴴ * X)⁻¹ * Xᴴ

theorem lsCoef_mul (h : IsUnit (Xᴴ * X).det) : lsCoef X * X = 1 := by
  rw [lsCoef, Matrix.mul_assoc, Matrix.nonsing_inv_mul _ h]

theorem inv_herm : ((Xᴴ * X)⁻¹)ᴴ = (Xᴴ * X)⁻¹ := by
  rw [Matrix.conjTranspose_nonsing_inv, Matrix.conjTranspose_mul, Matrix.conjTranspose_conjTranspose]

theorem lsCoef_herm : (lsCoef X)ᴴ = X * (Xᴴ * X)⁻¹ := by
  rw [lsCoef, Matrix.conjTranspose_mul, Matrix.conjTranspose_conjTranspose, inv_herm]

theorem lsCoef_self (h : IsUnit (Xᴴ * X).det) : lsCoef X * (lsCoef X)ᴴ = (Xᴴ * X)⁻¹ := by
  rw [lsCoef_herm, ← Matrix.mul_assoc, lsCoef_mul h, Matrix.one_mul]

theorem row_norm (A : Matrix (Fin q) (Fin N) 𝕜) (j : Fin q) : (A * Aᴴ) j j = ((∑ n, ‖A j n‖ ^ 2 : ℝ) : 𝕜) := by
  rw [Matrix.mul_apply]
  push_cast
  exact Finset.sum_congr rfl (fun n _ => by rw [Matrix.conjTranspose_apply]; exact RCLike.mul_conj _)

/-- The sum of the squares of the entries of the matrix which takes the noise to the residual. -/
theorem residual_norm (h : IsUnit (Xᴴ * X).det) :
    ∑ n, ∑ m, ‖((1 : Matrix (Fin N) (Fin N) 𝕜) - X * lsCoef X) n m‖ ^ 2 = (N : ℝ) - q := by
  set R := (1 : Matrix (Fin N) (Fin N) 𝕜) - X * lsCoef X with hR
  have hH : (X * lsCoef X)ᴴ = X * lsCoef X := by
    rw [Matrix.conjTranspose_mul, lsCoef_herm, lsCoef, ← Matrix.mul_assoc]
  have hRR : R * Rᴴ = R := by
    rw [hR, Matrix.conjTranspose_sub, Matrix.conjTranspose_one, hH, Matrix.sub_mul, Matrix.mul_sub, Matrix.mul_sub]
    have : X * lsCoef X * (X * lsCoef X) = X * lsCoef X := by
      rw [Matrix.mul_assoc, ← Matrix.mul_assoc (lsCoef X), lsCoef_mul h, Matrix.one_mul]
    rw [this]
    simp
  have ht : R.trace = (N : 𝕜) - q := by
    rw [hR, Matrix.trace_sub, Matrix.trace_mul_comm, lsCoef_mul h]
    simp
  have hs : ((∑ n, ∑ m, ‖R n m‖ ^ 2 : ℝ) : 𝕜) = (((N : ℝ) - q : ℝ) : 𝕜) := by
    rw [RCLike.ofReal_sum]
    push_cast
    rw [← ht, Matrix.trace]
    conv_rhs => rw [← hRR]
    refine Finset.sum_congr rfl (fun n _ => ?_)
    rw [Matrix.diag_apply, row_norm]
    push_cast
    rfl
  exact_mod_cast hs

/-- Gauss and Markov: of the combinations of the outputs which give back the coefficient of one input, the one of least squares
has the smallest norm. -/
theorem smallest_norm (h : IsUnit (Xᴴ * X).det) (j : Fin q) (d : Fin N → 𝕜)
    (hd : ∀ k, ∑ n, d n * X n k = if j = k then 1 else 0) :
    ∑ n, ‖lsCoef X j n‖ ^ 2 ≤ ∑ n, ‖d n‖ ^ 2 := by
  have hc : ∀ k, ∑ n, lsCoef X j n * X n k = if j = k then 1 else 0 := by
    intro k
    have := congrFun (congrFun (lsCoef_mul h) j) k
    rwa [Matrix.mul_apply, Matrix.one_apply] at this
  have horth : ∑ n, (d n - lsCoef X j n) * star (lsCoef X j n) = 0 := by
    have e : ∀ n, star (lsCoef X j n) = ∑ k, X n k * (Xᴴ * X)⁻¹ k j := by
      intro n
      have := congrFun (congrFun (lsCoef_herm (X := X)) n) j
      rwa [Matrix.conjTranspose_apply, Matrix.mul_apply] at this
    simp only [e, Finset.mul_sum]
    rw [Finset.sum_comm]
    refine Finset.sum_eq_zero (fun k _ => ?_)
    simp only [← mul_assoc, ← Finset.sum_mul, sub_mul, Finset.sum_sub_distrib, hd, hc, sub_self]
  have hsq : ((∑ n, ‖d n‖ ^ 2 : ℝ) : 𝕜) = ((∑ n, ‖lsCoef X j n‖ ^ 2 + ∑ n, ‖d n - lsCoef X j n‖ ^ 2 : ℝ) : 𝕜) := by
    have h2 : ∑ n, lsCoef X j n * star (d n - lsCoef X j n) = 0 := by
      have := congrArg star horth
      simpa [star_sum, mul_comm] using this
    push_cast
    have e1 : ∀ z : 𝕜, ((‖z‖ : ℝ) : 𝕜) ^ 2 = z * star z := fun z => (RCLike.mul_conj z).symm
    simp only [e1]
    have e2 : ∀ n, d n * star (d n) = lsCoef X j n * star (lsCoef X j n) + (d n - lsCoef X j n) * star (d n - lsCoef X j n) +
        (d n - lsCoef X j n) * star (lsCoef X j n) + lsCoef X j n * star (d n - lsCoef X j n) := by
      intro n
      rw [star_sub]
      ring
    simp only [e2, Finset.sum_add_distrib, horth, h2, add_zero]
  have hsq' : ∑ n, ‖d n‖ ^ 2 = ∑ n, ‖lsCoef X j n‖ ^ 2 + ∑ n, ‖d n - lsCoef X j n‖ ^ 2 := by exact_mod_cast hsq
  rw [hsq']
  have : 0 ≤ ∑ n, ‖d n - lsCoef X j n‖ ^ 2 := Finset.sum_nonneg (fun _ _ => by positivity)
  linarith

end matrices

/-- Noise of zero mean, the same power `s` on every sample, uncorrelated from one sample to another. -/
structure White {Ω : Type} [MeasurableSpace Ω] (P : Measure Ω) (N : ℕ) (s : ℝ) (ε : Ω → ℕ → 𝕜) : Prop where
  square : ∀ n < N, MemLp (fun ω => ε ω n) 2 P
  mean : ∀ n < N, ∫ ω, ε ω n ∂P = 0
  power : ∀ n < N, ∀ m < N, ∫ ω, ε ω n * star (ε ω m) ∂P = if n = m then (s : 𝕜) else 0

section noise
variable {Ω : Type} [MeasurableSpace Ω] {P : Measure Ω} {N : ℕ} {s : ℝ} {ε : Ω → ℕ → 𝕜}

theorem white_mul (hε : White P N s ε) {n m : ℕ} (hn : n < N) (hm : m < N) : Integrable (fun ω => ε ω n * star (ε ω m)) P := by
  have h2 : MemLp (fun ω => star (ε ω m)) 2 P := (hε.square m hm).star
  exact (hε.square n hn).integrable_mul h2

theorem white_int [IsProbabilityMeasure P] (hε : White P N s ε) {n : ℕ} (hn : n < N) : Integrable (fun ω => ε ω n) P :=
  (hε.square n hn).integrable (by norm_num)

theorem white_mean [IsProbabilityMeasure P] (hε : White P N s ε) (a : Fin N → 𝕜) : ∫ ω, ∑ n, a n * ε ω n ∂P = 0 := by
  rw [integral_finsetSum _ (fun n _ => (white_int hε n.2).const_mul _)]
  refine Finset.sum_eq_zero (fun n _ => ?_)
  rw [integral_const_mul, hε.mean n n.2, mul_zero]

theorem white_square_int (hε : White P N s ε) (a : Fin N → 𝕜) : Integrable (fun ω => ‖∑ n, a n * ε ω n‖ ^ 2) P := by
  have : MemLp (fun ω => ∑ n, a n * ε ω n) 2 P :=
    memLp_finsetSum _ (fun n _ => (hε.square n n.2).const_mul (a n))
  exact this.integrable_norm_pow (by norm_num)

theorem white_square (hε : White P N s ε) (a : Fin N → 𝕜) : ∫ ω, ‖∑ n, a n * ε ω n‖ ^ 2 ∂P = s * ∑ n, ‖a n‖ ^ 2 := by
  have h : ((∫ ω, ‖∑ n, a n * ε ω n‖ ^ 2 ∂P : ℝ) : 𝕜) = ((s * ∑ n, ‖a n‖ ^ 2 : ℝ) : 𝕜) := by
    rw [← integral_ofReal]
    have e : ∀ ω, ((‖∑ n, a n * ε ω n‖ ^ 2 : ℝ) : 𝕜) = ∑ n : Fin N, ∑ m : Fin N, a n * star (a m) * (ε ω n * star (ε ω m)) := by
      intro ω
      push_cast
      rw [← RCLike.mul_conj, ← RCLike.star_def, star_sum, Finset.sum_mul_sum]
      refine Finset.sum_congr rfl (fun n _ => Finset.sum_congr rfl (fun m _ => ?_))
      rw [star_mul']
      ring
    simp only [e]
    rw [integral_finsetSum _ (fun n _ => integrable_finsetSum _ (fun m _ => (white_mul hε n.2 m.2).const_mul _))]
    have e2 : ∀ n : Fin N, ∫ ω, ∑ m : Fin N, a n * star (a m) * (ε ω n * star (ε ω m)) ∂P = a n * star (a n) * s := by
      intro n
      rw [integral_finsetSum _ (fun m _ => (white_mul hε n.2 m.2).const_mul _)]
      rw [Finset.sum_eq_single n]
      · rw [integral_const_mul, hε.power n n.2 n n.2, if_pos rfl]
      · intro m _ hm
        rw [integral_const_mul, hε.power n n.2 m m.2, if_neg (fun h => hm (Fin.ext h.symm)), mul_zero]
      · simp
    simp only [e2]
    push_cast
    rw [Finset.mul_sum]
    refine Finset.sum_congr rfl (fun n _ => ?_)
    rw [RCLike.star_def, RCLike.mul_conj, mul_comm]
  exact_mod_cast h

theorem white_residual (hε : White P N s ε) {X : Matrix (Fin N) (Fin q) 𝕜} (h : IsUnit (Xᴴ * X).det) :
    ∫ ω, ∑ n : Fin N, ‖∑ m : Fin N, ((1 : Matrix (Fin N) (Fin N) 𝕜) - X * lsCoef X) n m * ε ω m‖ ^ 2 ∂P = s * ((N : ℝ) - q) := by
  rw [integral_finsetSum _ (fun n _ => white_square_int hε (fun m => ((1 : Matrix (Fin N) (Fin N) 𝕜) - X * lsCoef X) n m))]
  rw [Finset.sum_congr rfl (fun n _ => white_square hε (fun m => ((1 : Matrix (Fin N) (Fin N) 𝕜) - X * lsCoef X) n m)),
    ← Finset.mul_sum, residual_norm h]

end noise

/-- The samples of the inputs, one line per sample. -/
def design (inputs : Fin q → List 𝕜) (N : ℕ) : Matrix (Fin N) (Fin q) 𝕜 := Matrix.of fun n j => (inputs j).getD n 0

theorem gram_design (inputs : Fin q → List 𝕜) (N : ℕ) : gram (rowsOf inputs N) none = (design inputs N)ᴴ * design inputs N := by
  ext j k
  have h := gram_transpose inputs N k j
  rw [Matrix.transpose_apply] at h
  rw [h, Matrix.mul_apply, Finset.sum_range]
  exact Finset.sum_congr rfl (fun n _ => mul_comm _ _)

theorem rhs_design (inputs : Fin q → List 𝕜) (N : ℕ) (f : ℕ → 𝕜) :
    rhs ((List.range N).map f) (rowsOf inputs N) none = (design inputs N)ᴴ.mulVec (fun n => f n) := by
  funext j
  have : List.zipWith (fun (r : Fin q → 𝕜) v => star (r j) * v) (rowsOf inputs N) ((List.range N).map f) =
      (List.range N).map (fun n => star ((inputs j).getD n 0) * f n) := by
    simp only [rowsOf, List.zipWith_map, List.zipWith_self]
  simp only [rhs, dotdiag]
  rw [this, list_sum_range, Finset.sum_range]
  rfl

theorem design_unit {inputs : Fin q → List 𝕜} {N : ℕ} (hind : InputsIndependent inputs N []) :
    IsUnit ((design inputs N)ᴴ * design inputs N).det := by
  rw [isUnit_iff_ne_zero]
  intro h0
  obtain ⟨d, hd, hz⟩ := Matrix.exists_mulVec_eq_zero_iff.2 h0
  apply hd
  apply hind
  have h1 : (design inputs N).mulVec d = 0 := Matrix.conjTranspose_mul_self_mulVec_eq_zero _ _ |>.1 hz
  intro n hn _
  have := congrFun h1 ⟨n, hn⟩
  simp only [Matrix.mulVec, dotProduct, design, Matrix.of_apply, Pi.zero_apply] at this
  simpa only [mul_comm] using this

theorem wlse_design {inputs : Fin q → List 𝕜} {N : ℕ} (hind : InputsIndependent inputs N []) (f : ℕ → 𝕜) :
    wlse ((List.range N).map f) (rowsOf inputs N) none = .ok ((lsCoef (design inputs N)).mulVec (fun n => f n)) := by
  have h := design_unit hind
  rw [isUnit_iff_ne_zero] at h
  simp only [wlse]
  rw [if_neg (by rw [gram_design]; exact h), gram_design, rhs_design, lsCoef, Matrix.mulVec_mulVec]

theorem oneOutput_plain (hq : q ≠ 0) {inputs : Fin q → List 𝕜} {N : ℕ} (hind : InputsIndependent inputs N []) (f : ℕ → 𝕜) (o : Opts)
    (heap : ℕ → σ) : oneOutput o [none] (rowsOf inputs N) ((List.range N).map f) none [] heap =
      (.ok (some ((lsCoef (design inputs N)).mulVec (fun n => f n)), []), heap) := by
  have hrl : ((List.range N).map f).length = (rowsOf inputs N).length := by simp [rowsOf]
  have hN : N ≠ 0 := by
    rintro rfl
    have hd : (fun _ => 1 : Fin q → 𝕜) = 0 := hind _ (by intro n hn; omega)
    simpa using congrFun hd ⟨0, Nat.pos_of_ne_zero hq⟩
  unfold oneOutput
  have hc : callEstimate ((List.range N).map f) (rowsOf inputs N) none (none : Option (ℕ × WFun σ 𝕜 q)) o heap =
      (.ok ((lsCoef (design inputs N)).mulVec (fun n => f n), []), heap) := by
    unfold callEstimate
    simp only
    rw [C46_least_squares _ _ hrl _ [] (by simp), without_nil, without_nil, wlse_design hind]
    rfl
  rw [chainLoop, eliminate_ok.2 ⟨by simp, rfl⟩, eliminate_ok.2 ⟨by simp, rfl⟩, without_nil, without_nil]
  simp only [List.length_map, List.length_range, hN, if_false]
  rw [hc]
  rfl

/-- The outputs: what the inputs give through the transfer function `T`, plus noise. -/
def noisy (inputs : Fin q → List 𝕜) (N : ℕ) (T : ℕ → Fin q → 𝕜) (ε : ℕ → ℕ → 𝕜) (p : ℕ) : List (List 𝕜) :=
  (List.range p).map (fun i => (List.range N).map (fun n => ∑ j, T i j * (inputs j).getD n 0 + ε i n))

theorem transferFunction_ls (hq : q ≠ 0) {inputs : Fin q → List 𝕜} {N : ℕ} (hin : ∀ j, (inputs j).length = N)
    (hind : InputsIndependent inputs N []) (p : ℕ) (hp : p ≠ 0) (f : ℕ → ℕ → 𝕜) (o : Opts) (heap : ℕ → σ) :
    transferFunction ((List.range p).map (fun i => (List.range N).map (f i))) inputs [none] none .none o heap =
      (.ok ((List.range p).map (fun i => (some ((lsCoef (design inputs N)).mulVec (fun n => f i n)), []))), heap) := by
  rw [transferFunction_plain _ inputs N hq (by simpa using hp) (by simp) hin .none (List.replicate p []) (by simp [InvArg.norm, hp]),
    if_neg (by simp)]
  have key : ∀ l : List ℕ, outputsLoop o ([none] : Weighting σ 𝕜 q) (rowsOf inputs N)
      (((l.map (fun i => (List.range N).map (f i))).zip (List.replicate l.length [])).map (fun p => (p.1, none, p.2))) heap =
      (.ok (l.map (fun i => (some ((lsCoef (design inputs N)).mulVec (fun n => f i n)), []))), heap) := by
    intro l
    induction l with
    | nil => rfl
    | cons i l ih =>
      simp only [List.length_cons, List.replicate_succ, List.map_cons, List.zip_cons_cons, outputsLoop, oneOutput_plain hq hind, ih]
  simpa using key (List.range p)

/-- The estimate is the truth plus a combination of the noise. -/
theorem ls_noisy {inputs : Fin q → List 𝕜} {N : ℕ} (hind : InputsIndependent inputs N []) (T : Fin q → 𝕜) (ε : ℕ → 𝕜) (j : Fin q) :
    (lsCoef (design inputs N)).mulVec (fun n : Fin N => ∑ j, T j * (inputs j).getD n 0 + ε n) j =
      T j + ∑ n : Fin N, lsCoef (design inputs N) j n * ε n := by
  have e : (fun n : Fin N => ∑ j, T j * (inputs j).getD n 0 + ε n) = (design inputs N).mulVec T + fun n : Fin N => ε n := by
    funext n
    simp only [Pi.add_apply, Matrix.mulVec, dotProduct, design, Matrix.of_apply]
    congr 1
    exact Finset.sum_congr rfl (fun k _ => mul_comm _ _)
  rw [e, Matrix.mulVec_add, Matrix.mulVec_mulVec, lsCoef_mul (design_unit hind), Matrix.one_mulVec]
  rfl

/-- The residual is a combination of the noise. -/
theorem residual_noisy {inputs : Fin q → List 𝕜} {N : ℕ} (hind : InputsIndependent inputs N []) (T : Fin q → 𝕜) (ε : ℕ → 𝕜) (n : Fin N) :
    (∑ j, T j * (inputs j).getD n 0 + ε n) - ∑ k, (inputs k).getD n 0 *
      (lsCoef (design inputs N)).mulVec (fun n : Fin N => ∑ j, T j * (inputs j).getD n 0 + ε n) k =
      ∑ m : Fin N, ((1 : Matrix (Fin N) (Fin N) 𝕜) - design inputs N * lsCoef (design inputs N)) n m * ε m := by
  simp only [ls_noisy hind, mul_add, Finset.sum_add_distrib, Matrix.sub_apply, sub_mul, Finset.sum_sub_distrib, Matrix.one_apply,
    ite_mul, one_mul, zero_mul, Finset.sum_ite_eq, Finset.mem_univ, if_true, Matrix.mul_apply, Finset.sum_mul, Finset.mul_sum]
  rw [Finset.sum_comm (s := Finset.univ (α := Fin N))]
  simp only [design, Matrix.of_apply, mul_assoc, mul_comm (T _)]
  ring

/-- The error reported, as a number. -/
theorem errorRow_noisy {inputs : Fin q → List 𝕜} {N : ℕ} (hqN : q < N) (hind : InputsIndependent inputs N []) (T : Fin q → 𝕜)
    (ε : ℕ → 𝕜) (j : Fin q) :
    errorRow (rowsOf inputs N) ((List.range N).map (fun n => ∑ j, T j * (inputs j).getD n 0 + ε n))
      ((lsCoef (design inputs N)).mulVec (fun n : Fin N => ∑ j, T j * (inputs j).getD n 0 + ε n)) 0 j =
    .fin (Real.sqrt ((∑ n : Fin N, ‖∑ m : Fin N, ((1 : Matrix (Fin N) (Fin N) 𝕜) - design inputs N * lsCoef (design inputs N)) n m *
      ε m‖ ^ 2) / (N - q) * ∑ n, ‖lsCoef (design inputs N) j n‖ ^ 2)) := by
  have h0 : (0 : ℝ) < N := by exact_mod_cast (by omega : 0 < N)
  have h1 : (0 : ℝ) < (N : ℝ) - q := by
    have : (q : ℝ) < N := by exact_mod_cast hqN
    linarith
  have hinv : ‖(gram (rowsOf inputs N) none)ᵀ⁻¹ j j‖ = ∑ n, ‖lsCoef (design inputs N) j n‖ ^ 2 := by
    rw [← Matrix.transpose_nonsing_inv, Matrix.transpose_apply, gram_design, ← lsCoef_self (design_unit hind), row_norm,
      RCLike.norm_ofReal, abs_of_nonneg (Finset.sum_nonneg (fun _ _ => by positivity))]
  rw [errorRow_fin _ _ _ _ (by simpa using hqN) (by simp; omega)]
  rw [residual_samples (by simp)]
  rw [hinv, List.map_map, list_sum_range, Finset.sum_range]
  have e : ∀ n : Fin N, ((fun x : 𝕜 => ‖x‖ ^ 2) ∘ fun n : ℕ => ((List.range N).map (fun n => ∑ j, T j * (inputs j).getD n 0 + ε n)).getD n 0 -
      ∑ k, (inputs k).getD n 0 * (lsCoef (design inputs N)).mulVec (fun n : Fin N => ∑ j, T j * (inputs j).getD n 0 + ε n) k) n =
      ‖∑ m : Fin N, ((1 : Matrix (Fin N) (Fin N) 𝕜) - design inputs N * lsCoef (design inputs N)) n m * ε m‖ ^ 2 := by
    intro n
    rw [← residual_noisy hind T ε n]
    simp
  simp only [e, List.length_map, List.length_range, Nat.cast_zero, sub_zero]
  congr 1
  rw [Real.sqrt_mul (by positivity), Real.sqrt_div (by positivity)]
  field_simp

/-- **C118.** Outputs which are the response to the inputs plus white noise, whatever its law: the mean of the least squares estimate
is the true transfer function, and the mean of the square of the error reported with it is the mean square distance from the
estimate to the truth. -/
theorem C118_unbiased {Ω : Type} [MeasurableSpace Ω] (P : Measure Ω) [IsProbabilityMeasure P] (inputs : Fin q → List 𝕜) (N : ℕ)
    (hq : q ≠ 0) (hqN : q < N) (hin : ∀ j, (inputs j).length = N) (hind : InputsIndependent inputs N []) (p : ℕ) (hp : p ≠ 0)
    (T : ℕ → Fin q → 𝕜) (s : ℕ → ℝ) (ε : Ω → ℕ → ℕ → 𝕜) (hε : ∀ i < p, White P N (s i) (fun ω => ε ω i)) (o : Opts) (heap : ℕ → σ) :
    ∃ (Z : Ω → ℕ → Fin q → 𝕜) (e : Ω → ℕ → Fin q → ℝ),
      (∀ ω, transferFunction (noisy inputs N T (ε ω) p) inputs [none] none .none o heap =
        (.ok ((List.range p).map (fun i => (some (Z ω i), []))), heap)) ∧
      (∀ ω, transferError (noisy inputs N T (ε ω) p) inputs ((List.range p).map (Z ω)) (List.replicate p []) =
        .ok ((List.range p).map (fun i j => .fin (e ω i j)))) ∧
      ∀ i < p, ∀ j, Integrable (fun ω => Z ω i j) P ∧ ∫ ω, Z ω i j ∂P = T i j ∧
        Integrable (fun ω => ‖Z ω i j - T i j‖ ^ 2) P ∧ Integrable (fun ω => e ω i j ^ 2) P ∧
        ∫ ω, e ω i j ^ 2 ∂P = ∫ ω, ‖Z ω i j - T i j‖ ^ 2 ∂P := by
  have h1 : (0 : ℝ) < (N : ℝ) - q := by
    have : (q : ℝ) < N := by exact_mod_cast hqN
    linarith
  refine ⟨fun ω i => (lsCoef (design inputs N)).mulVec (fun n : Fin N => ∑ j, T i j * (inputs j).getD n 0 + ε ω i n),
    fun ω i j => Real.sqrt ((∑ n : Fin N, ‖∑ m : Fin N, ((1 : Matrix (Fin N) (Fin N) 𝕜) - design inputs N * lsCoef (design inputs N)) n m *
      ε ω i m‖ ^ 2) / (N - q) * ∑ n, ‖lsCoef (design inputs N) j n‖ ^ 2), ?_, ?_, ?_⟩
  · intro ω
    exact transferFunction_ls hq hin hind p hp _ o heap
  · intro ω
    obtain ⟨E, hE⟩ := (C50_succeeds_iff (noisy inputs N T (ε ω) p) inputs ((List.range p).map (fun i =>
      (lsCoef (design inputs N)).mulVec (fun n : Fin N => ∑ j, T i j * (inputs j).getD n 0 + ε ω i n))) (List.replicate p [])).2
      ⟨by simpa [noisy] using hp, hq, by simp [noisy], N, by simp [noisy], hin, by
        intro d hd
        exact hind d (fun n hn _ => by simpa only [mul_comm] using hd n hn)⟩
    rw [hE]
    obtain ⟨N', g1, g2, -, rfl⟩ := transferError_ok hE
    obtain rfl : N' = N := by rw [← g2 ⟨0, Nat.pos_of_ne_zero hq⟩, hin]
    congr 1
    have key : ∀ l : List ℕ, ((l.map (fun i => (List.range N').map (fun n => ∑ j, T i j * (inputs j).getD n 0 + ε ω i n))).zip
        ((l.map (fun i => (lsCoef (design inputs N')).mulVec (fun n : Fin N' => ∑ j, T i j * (inputs j).getD n 0 + ε ω i n))).zip
          (List.replicate l.length ([] : List ℕ)))).map (fun t => errorRow (rowsOf inputs N') t.1 t.2.1 t.2.2.length) =
        l.map (fun i j => Flt.fin (Real.sqrt ((∑ n : Fin N', ‖∑ m : Fin N', ((1 : Matrix (Fin N') (Fin N') 𝕜) -
          design inputs N' * lsCoef (design inputs N')) n m * ε ω i m‖ ^ 2) / (N' - q) *
            ∑ n, ‖lsCoef (design inputs N') j n‖ ^ 2))) := by
      intro l
      induction l with
      | nil => rfl
      | cons i l ih =>
        simp only [List.length_cons, List.replicate_succ, List.map_cons, List.zip_cons_cons, ih, List.length_nil]
        congr 1
        funext j
        exact errorRow_noisy hqN hind (T i) (ε ω i) j
    simpa [noisy] using key (List.range p)
  · intro i hi j
    have hw := hε i hi
    have e1 : ∀ ω, (lsCoef (design inputs N)).mulVec (fun n : Fin N => ∑ j, T i j * (inputs j).getD n 0 + ε ω i n) j =
        T i j + ∑ n : Fin N, lsCoef (design inputs N) j n * ε ω i n := fun ω => ls_noisy hind (T i) (ε ω i) j
    have hint : Integrable (fun ω => ∑ n : Fin N, lsCoef (design inputs N) j n * ε ω i n) P :=
      integrable_finsetSum _ (fun n _ => (white_int hw n.2).const_mul _)
    have e2 : ∀ ω, Real.sqrt ((∑ n : Fin N, ‖∑ m : Fin N, ((1 : Matrix (Fin N) (Fin N) 𝕜) - design inputs N * lsCoef (design inputs N)) n m *
      ε ω i m‖ ^ 2) / (N - q) * ∑ n, ‖lsCoef (design inputs N) j n‖ ^ 2) ^ 2 =
      (∑ n, ‖lsCoef (design inputs N) j n‖ ^ 2) / (N - q) * ∑ n : Fin N, ‖∑ m : Fin N, ((1 : Matrix (Fin N) (Fin N) 𝕜) -
        design inputs N * lsCoef (design inputs N)) n m * ε ω i m‖ ^ 2 := by
      intro ω
      rw [Real.sq_sqrt (by positivity)]
      ring
    simp only [e1, e2, add_sub_cancel_left]
    refine ⟨(integrable_const _).add hint, ?_, white_square_int hw _, ?_, ?_⟩
    · rw [integral_add (integrable_const _) hint, white_mean hw]
      simp
    · exact (integrable_finsetSum _ (fun n _ => white_square_int hw _)).const_mul _
    · rw [integral_const_mul, white_residual hw (design_unit hind), white_square hw]
      field_simp

/-- **C118.** No other combination of the outputs which is exact without noise comes closer to the truth in the mean square. -/
theorem C118_best {Ω : Type} [MeasurableSpace Ω] (P : Measure Ω) [IsProbabilityMeasure P] (inputs : Fin q → List 𝕜) (N : ℕ)
    (hq : q ≠ 0) (hin : ∀ j, (inputs j).length = N) (hind : InputsIndependent inputs N []) (p : ℕ)
    (T : ℕ → Fin q → 𝕜) (s : ℕ → ℝ) (hs : ∀ i, 0 ≤ s i) (ε : Ω → ℕ → ℕ → 𝕜) (hε : ∀ i < p, White P N (s i) (fun ω => ε ω i)) (o : Opts)
    (heap : ℕ → σ) (Z : Ω → ℕ → Fin q → 𝕜) (inv : Ω → ℕ → List ℕ)
    (hZ : ∀ ω, (transferFunction (noisy inputs N T (ε ω) p) inputs [none] none .none o heap).1 =
        .ok ((List.range p).map (fun i => (some (Z ω i), inv ω i))))
    (j : Fin q) (d : ℕ → 𝕜) (hd : ∀ t : Fin q → 𝕜, ∑ n ∈ Finset.range N, d n * ∑ k, t k * (inputs k).getD n 0 = t j) (i : ℕ) (hi : i < p) :
    ∫ ω, ‖Z ω i j - T i j‖ ^ 2 ∂P ≤
      ∫ ω, ‖∑ n ∈ Finset.range N, d n * (((noisy inputs N T (ε ω) p).getD i []).getD n 0) - T i j‖ ^ 2 ∂P := by
  have hw := hε i hi
  have hZ' : ∀ ω, Z ω i j - T i j = ∑ n : Fin N, lsCoef (design inputs N) j n * ε ω i n := by
    intro ω
    have h := hZ ω
    have hls := transferFunction_ls (σ := σ) hq hin hind p (by omega) (fun i n => ∑ j, T i j * (inputs j).getD n 0 + ε ω i n) o heap
    rw [noisy, hls] at h
    simp only [Except.ok.injEq] at h
    have h2 := congrArg (fun l => l[i]?) h
    simp only [List.getElem?_map, List.getElem?_range hi, Option.map_some, Option.some.injEq, Prod.mk.injEq] at h2
    rw [← h2.1, ls_noisy hind]
    ring
  have hd' : ∀ ω, ∑ n ∈ Finset.range N, d n * (((noisy inputs N T (ε ω) p).getD i []).getD n 0) - T i j = ∑ n : Fin N, d n * ε ω i n := by
    intro ω
    have e : ∀ n ∈ Finset.range N, d n * (((noisy inputs N T (ε ω) p).getD i []).getD n 0) =
        d n * ∑ k, T i k * (inputs k).getD n 0 + d n * ε ω i n := by
      intro n hn
      rw [Finset.mem_range] at hn
      simp [noisy, hi, hn, mul_add]
    rw [Finset.sum_congr rfl e, Finset.sum_add_distrib, hd, add_sub_cancel_left, Finset.sum_range]
  simp only [hZ', hd']
  rw [white_square hw (fun n => lsCoef (design inputs N) j n), white_square hw (fun n : Fin N => d n)]
  refine mul_le_mul_of_nonneg_left (smallest_norm (design_unit hind) j (fun n => d n) ?_) (hs i)
  intro k
  have := hd (Pi.single k 1)
  rw [Finset.sum_range] at this
  simp only [Pi.single_apply, ite_mul, one_mul, zero_mul, Finset.sum_ite_eq', Finset.mem_univ, if_true] at this
  simpa only [design, Matrix.of_apply, eq_comm] using this

/-- **C118.** Noise in the outputs which is orthogonal to every input does not change the estimate. -/
theorem C118_orthogonal (inputs : Fin q → List 𝕜) (N : ℕ) (hq : q ≠ 0) (hin : ∀ j, (inputs j).length = N)
    (hind : InputsIndependent inputs N []) (p : ℕ) (hp : p ≠ 0) (T : ℕ → Fin q → 𝕜) (ε : ℕ → ℕ → 𝕜)
    (hε : ∀ i < p, ∀ j, ∑ n ∈ Finset.range N, star ((inputs j).getD n 0) * ε i n = 0) (o : Opts) (heap : ℕ → σ) :
    transferFunction (noisy inputs N T ε p) inputs [none] none .none o heap =
      (.ok ((List.range p).map (fun i => (some (T i), []))), heap) := by
  rw [noisy, transferFunction_ls hq hin hind p hp]
  congr 2
  refine List.map_congr_left (fun i hi => ?_)
  congr 2
  funext j
  rw [ls_noisy hind]
  have : ∑ n : Fin N, lsCoef (design inputs N) j n * ε i n = 0 := by
    have h0 : (design inputs N)ᴴ.mulVec (fun n : Fin N => ε i n) = 0 := by
      funext k
      have := hε i (List.mem_range.1 hi) k
      rwa [Finset.sum_range] at this
    have h1 : (lsCoef (design inputs N)).mulVec (fun n : Fin N => ε i n) = 0 := by
      rw [lsCoef, ← Matrix.mulVec_mulVec, h0, Matrix.mulVec_zero]
    exact congrFun h1 j
  rw [this, add_zero]

/-- **C118.** Noise in the input does: with one input, noise orthogonal to the true signal brings the estimate towards zero, by the
share of the noise in the power of the input. -/
theorem C118_attenuated (x ν : ℕ → 𝕜) (N : ℕ) (hx : ∃ n < N, x n ≠ 0) (horth : ∑ n ∈ Finset.range N, star (ν n) * x n = 0)
    (t : 𝕜) (o : Opts) (heap : ℕ → σ) :
    transferFunction [(List.range N).map (fun n => t * x n)] (fun _ : Fin 1 => (List.range N).map (fun n => x n + ν n))
      [none] none .none o heap =
      (.ok [(some (fun _ => t * ((∑ n ∈ Finset.range N, ‖x n‖ ^ 2) /
        (∑ n ∈ Finset.range N, ‖x n‖ ^ 2 + ∑ n ∈ Finset.range N, ‖ν n‖ ^ 2) : ℝ)), [])], heap) := by
  set a := ∑ n ∈ Finset.range N, ‖x n‖ ^ 2 with ha
  set b := ∑ n ∈ Finset.range N, ‖ν n‖ ^ 2 with hb
  have ha0 : 0 < a := by
    obtain ⟨n, hn, h⟩ := hx
    exact Finset.sum_pos' (fun _ _ => by positivity) ⟨n, Finset.mem_range.2 hn, by positivity⟩
  have hb0 : 0 ≤ b := Finset.sum_nonneg (fun _ _ => by positivity)
  have horth' : ∑ n ∈ Finset.range N, star (x n) * ν n = 0 := by
    have := congrArg star horth
    simpa [star_sum, mul_comm] using this
  have e1 : ∀ z : 𝕜, ((‖z‖ : ℝ) : 𝕜) ^ 2 = star z * z := fun z => (RCLike.conj_mul z).symm
  have hsum : ∑ n ∈ Finset.range N, star (x n + ν n) * (x n + ν n) = ((a + b : ℝ) : 𝕜) := by
    simp only [ha, hb]
    push_cast
    simp only [e1, star_add, add_mul, mul_add, Finset.sum_add_distrib, horth, horth']
    ring
  have hxs : ∑ n ∈ Finset.range N, star (x n + ν n) * x n = (a : 𝕜) := by
    simp only [ha]
    push_cast
    simp only [e1, star_add, add_mul, Finset.sum_add_distrib, horth, add_zero]
  have hab : ((a + b : ℝ) : 𝕜) ≠ 0 := by
    have : a + b ≠ 0 := by linarith
    exact_mod_cast this
  have hind : InputsIndependent (fun _ : Fin 1 => (List.range N).map (fun n => x n + ν n)) N [] := by
    intro d h
    funext j
    obtain rfl : j = 0 := Subsingleton.elim _ _
    by_contra hd
    apply hab
    rw [← hsum]
    refine Finset.sum_eq_zero (fun n hn => ?_)
    have hn' := Finset.mem_range.1 hn
    have := h n hn' (by simp)
    simp only [Finset.univ_unique, Fin.default_eq_zero, Finset.sum_singleton, List.getD_eq_getElem?_getD, List.getElem?_map,
      List.getElem?_range hn', Option.map_some, Option.getD_some, mul_eq_zero] at this
    rcases this with h1 | h1
    · exact absurd h1 hd
    · rw [h1, mul_zero]
  set c : 𝕜 := t * ((a / (a + b) : ℝ) : 𝕜) with hc
  have h := C118_orthogonal (σ := σ) (fun _ : Fin 1 => (List.range N).map (fun n => x n + ν n)) N (by simp) (by simp) hind 1 (by simp)
    (fun _ _ => c) (fun _ n => t * x n - c * (x n + ν n)) (by
      intro _ _ _
      have e : ∀ n ∈ Finset.range N, star (((List.range N).map (fun n => x n + ν n)).getD n 0) * (t * x n - c * (x n + ν n)) =
          t * (star (x n + ν n) * x n) - c * (star (x n + ν n) * (x n + ν n)) := by
        intro n hn
        rw [List.getD_eq_getElem?_getD, List.getElem?_map, List.getElem?_range (Finset.mem_range.1 hn)]
        simp only [Option.map_some, Option.getD_some]
        ring
      rw [Finset.sum_congr rfl e, Finset.sum_sub_distrib, ← Finset.mul_sum, ← Finset.mul_sum, hsum, hxs, hc]
      push_cast at hab ⊢
      field_simp
      ring) o heap
  have hnoisy : noisy (fun _ : Fin 1 => (List.range N).map (fun n => x n + ν n)) N (fun _ _ => c) (fun _ n => t * x n - c * (x n + ν n)) 1 =
      [(List.range N).map (fun n => t * x n)] := by
    simp only [noisy, List.range_one, List.map_cons, List.map_nil]
    congr 1
    refine List.map_congr_left (fun n hn => ?_)
    simp [List.mem_range.1 hn]
  rw [hnoisy] at h
  exact h

/-! Samples left aside. -/

theorem oneOutput_ls (b : List (Fin q → 𝕜)) (y : List 𝕜) (hb : y.length = b.length) (v : List ℕ) (hv : ∀ i ∈ v, i < y.length)
    (hs : v.Pairwise (· < ·)) (hne : (without y v).length ≠ 0) (Z : Fin q → 𝕜) (hw : wlse (without y v) (without b v) none = .ok Z)
    (o : Opts) (heap : ℕ → σ) : oneOutput o [none] b y none v heap = (.ok (some Z, v), heap) := by
  have hl := length_without v hb
  obtain ⟨m, hm, hsm, hmem, -⟩ := C43_merge [v, []] y.length (by
    refine ⟨by simpa using hv, by simp, trivial⟩)
  have hmv : m = v := by
    refine List.Perm.eq_of_pairwise' hsm hs ((List.perm_ext_iff_of_nodup (hsm.imp (fun h => h.ne)) (hs.imp (fun h => h.ne))).2 ?_)
    intro i
    rw [hmem i]
    simp only [withoutAll, without_nil, without_range, List.mem_filter, List.mem_range, decide_eq_true_eq, not_and, not_not]
    exact ⟨fun h => h.2 h.1, fun h => ⟨hv i h, fun _ => h⟩⟩
  subst hmv
  unfold oneOutput
  rw [chainLoop, eliminate_ok.2 ⟨hv, rfl⟩, eliminate_ok.2 ⟨by rw [← hb]; exact hv, rfl⟩]
  simp only [hne, if_false]
  have hc : callEstimate (without y m) (without b m) none (none : Option (ℕ × WFun σ 𝕜 q)) o heap = (.ok (Z, []), heap) := by
    unfold callEstimate
    simp only
    rw [C46_least_squares _ _ hl _ [] (by simp), without_nil, without_nil, hw]
    rfl
  rw [hc]
  simp only [chainLoop, List.map_cons, List.map_nil, hm, List.getLast?_singleton]

/-- **C118.** With samples declared invalid, one input and white noise, the mean of the estimate is still the truth, but the mean of the
square of the error reported is the mean square distance to the truth times a factor which depends on the power of the input on the
valid samples, as the error is computed with all the samples. -/
theorem C118_invalid {Ω : Type} [MeasurableSpace Ω] (P : Measure Ω) [IsProbabilityMeasure P] (x : ℕ → 𝕜) (N : ℕ) (hN : 1 < N)
    (v : List ℕ) (hv : ∀ i ∈ v, i < N) (hs : v.Pairwise (· < ·)) (hx : ∃ n < N, n ∉ v ∧ x n ≠ 0) (t : 𝕜) (s : ℝ) (ε : Ω → ℕ → 𝕜)
    (hε : White P N s ε) (o : Opts) (heap : ℕ → σ) :
    ∃ (Z : Ω → 𝕜) (e : Ω → ℝ),
      (∀ ω, transferFunction [(List.range N).map (fun n => t * x n + ε ω n)] (fun _ : Fin 1 => (List.range N).map x) [none] none
        (.each [v]) o heap = (.ok [(some (fun _ => Z ω), v)], heap)) ∧
      (∀ ω, transferError [(List.range N).map (fun n => t * x n + ε ω n)] (fun _ : Fin 1 => (List.range N).map x) [fun _ => Z ω] [v] =
        .ok [fun _ => .fin (e ω)]) ∧
      ∫ ω, Z ω ∂P = t ∧ ∫ ω, ‖Z ω - t‖ ^ 2 ∂P = s / ∑ n ∈ (Finset.range N).filter (· ∉ v), ‖x n‖ ^ 2 ∧
      ∫ ω, e ω ^ 2 ∂P = (∫ ω, ‖Z ω - t‖ ^ 2 ∂P) * (N ^ 2 / ((N - v.length) ^ 2 * (N - 1)) *
        ((N - 2) * ((∑ n ∈ (Finset.range N).filter (· ∉ v), ‖x n‖ ^ 2) / ∑ n ∈ Finset.range N, ‖x n‖ ^ 2) + 1)) := by
  classical
  set V := (Finset.range N).filter (· ∉ v) with hV
  set av := ∑ n ∈ V, ‖x n‖ ^ 2 with hav
  set a := ∑ n ∈ Finset.range N, ‖x n‖ ^ 2 with ha
  obtain ⟨n0, hn0, hnv, hxn⟩ := hx
  have hav0 : 0 < av := Finset.sum_pos' (fun _ _ => by positivity) ⟨n0, by simp [hV, hn0, hnv], by positivity⟩
  have hle : av ≤ a := Finset.sum_le_sum_of_subset_of_nonneg (Finset.filter_subset _ _) (fun _ _ _ => by positivity)
  have ha0 : 0 < a := by linarith
  let c : ℕ → 𝕜 := fun n => if n ∈ v then 0 else star (x n) / (av : 𝕜)
  have havk : (av : 𝕜) ≠ 0 := by exact_mod_cast hav0.ne'
  have hsq : ∀ z : 𝕜, star z * z = ((‖z‖ ^ 2 : ℝ) : 𝕜) := fun z => by rw [RCLike.star_def, RCLike.conj_mul]; push_cast; rfl
  have hfold : ∀ f : ℕ → 𝕜, ∑ n ∈ Finset.range N, c n * f n = (∑ n ∈ V, star (x n) * f n) / (av : 𝕜) := by
    intro f
    rw [hV, Finset.sum_filter, Finset.sum_div]
    refine Finset.sum_congr rfl (fun n _ => ?_)
    by_cases h : n ∈ v
    · simp [c, h]
    · simp only [c, h, if_false, not_false_eq_true, if_true]
      ring
  have hcx : ∑ n ∈ Finset.range N, c n * x n = 1 := by
    rw [hfold]
    simp only [hsq]
    rw [← RCLike.ofReal_sum, ← hav, div_self havk]
  have hcc : ∑ n ∈ Finset.range N, ‖c n‖ ^ 2 = 1 / av := by
    have : ∀ n ∈ Finset.range N, ‖c n‖ ^ 2 = if n ∉ v then ‖x n‖ ^ 2 / av ^ 2 else 0 := by
      intro n _
      by_cases h : n ∈ v
      · simp [c, h]
      · simp only [c, h, if_false, not_false_eq_true, if_true, norm_div, norm_star, RCLike.norm_ofReal, abs_of_pos hav0, div_pow]
    rw [Finset.sum_congr rfl this, ← Finset.sum_filter, ← Finset.sum_div, ← hV, ← hav]
    field_simp
  -- the estimate
  have hrows : rowsOf (fun _ : Fin 1 => (List.range N).map x) N = (List.range N).map (fun n _ => x n) := by
    unfold rowsOf
    refine List.map_congr_left (fun n hn => ?_)
    funext j
    simp [List.mem_range.1 hn]
  have hgram : ∀ j k : Fin 1, gram (without ((List.range N).map (fun n (_ : Fin 1) => x n)) v) none j k = (av : 𝕜) := by
    intro j k
    rw [without_map, without_range]
    have h := gram_list ((List.range N).filter (fun i => decide (i ∉ v))) (fun n (_ : Fin 1) => x n) none
    rw [Option.map_none] at h
    rw [h]
    simp only [Matrix.of_apply, Option.map_none, Option.getD_none, one_smul, hsq]
    rw [hav, RCLike.ofReal_sum]
    rfl
  have hwl : ∀ f : ℕ → 𝕜, wlse (without ((List.range N).map f) v) (without ((List.range N).map (fun n (_ : Fin 1) => x n)) v) none =
      .ok (fun _ => ∑ n ∈ Finset.range N, c n * f n) := by
    intro f
    have hdet : (gram (without ((List.range N).map (fun n (_ : Fin 1) => x n)) v) none).det ≠ 0 := by
      rw [Matrix.det_unique, hgram]
      exact havk
    simp only [wlse]
    rw [if_neg hdet]
    congr 1
    have hr : rhs (without ((List.range N).map f) v) (without ((List.range N).map (fun n (_ : Fin 1) => x n)) v) none =
        (gram (without ((List.range N).map (fun n (_ : Fin 1) => x n)) v) none).mulVec (fun _ => ∑ n ∈ Finset.range N, c n * f n) := by
      have h := rhs_list ((List.range N).filter (fun i => decide (i ∉ v))) f (fun n (_ : Fin 1) => x n) none
      rw [Option.map_none, ← without_range, ← without_map, ← without_map] at h
      rw [h]
      funext j
      have e : (gram (without ((List.range N).map (fun n (_ : Fin 1) => x n)) v) none).mulVec
          (fun _ => ∑ n ∈ Finset.range N, c n * f n) j = (av : 𝕜) * ∑ n ∈ Finset.range N, c n * f n := by
        rw [Matrix.mulVec, dotProduct, Finset.univ_unique, Finset.sum_singleton, hgram]
      rw [e, hfold, mul_div_cancel₀ _ havk, without_range]
      simp only [Option.map_none, Option.getD_none, one_smul]
      rfl
    rw [hr, Matrix.mulVec_mulVec, Matrix.nonsing_inv_mul _ (isUnit_iff_ne_zero.2 hdet), Matrix.one_mulVec]
  have hest : ∀ ω, ∑ n ∈ Finset.range N, c n * (t * x n + ε ω n) = t + ∑ n : Fin N, c n * ε ω n := by
    intro ω
    have : ∀ n ∈ Finset.range N, c n * (t * x n + ε ω n) = t * (c n * x n) + c n * ε ω n := fun n _ => by ring
    rw [Finset.sum_congr rfl this, Finset.sum_add_distrib, ← Finset.mul_sum, hcx, mul_one, ← Finset.sum_range (fun n => c n * ε ω n)]
  have hN1 : (0 : ℝ) < (N : ℝ) - 1 := by
    have : (1 : ℝ) < N := by exact_mod_cast hN
    linarith
  have hvN : v.length < N := by
    have h1 : v.toFinset ⊂ Finset.range N := by
      rw [Finset.ssubset_iff_of_subset (fun i hi => by simpa using hv i (by simpa using hi))]
      exact ⟨n0, by simpa using hn0, by simpa using hnv⟩
    have h2 := Finset.card_lt_card h1
    rwa [List.toFinset_card_of_nodup (hs.imp (fun h => h.ne)), Finset.card_range] at h2
  have hvN1 : (0 : ℝ) < (N : ℝ) - v.length := by
    have : (v.length : ℝ) < N := by exact_mod_cast hvN
    linarith
  let R : Fin N → Fin N → 𝕜 := fun n m => (if n = m then 1 else 0) - x n * c m
  have hres : ∀ ω (n : Fin N), (t * x n + ε ω n) - x n * (t + ∑ m : Fin N, c m * ε ω m) = ∑ m, R n m * ε ω m := by
    intro ω n
    simp only [R, sub_mul, Finset.sum_sub_distrib, ite_mul, one_mul, zero_mul, Finset.sum_ite_eq, Finset.mem_univ, if_true, mul_add,
      Finset.mul_sum, mul_assoc]
    ring
  have hR : ∑ n, ∑ m, ‖R n m‖ ^ 2 = (N : ℝ) - 2 + a / av := by
    have hcx' : ∑ n : Fin N, RCLike.re (x n * c n) = 1 := by
      rw [← map_sum, ← Finset.sum_range (fun n => x n * c n)]
      simp only [mul_comm (x _)]
      rw [hcx, RCLike.one_re]
    have e : ∀ n m : Fin N, ‖R n m‖ ^ 2 = (if n = m then 1 - 2 * RCLike.re (x n * c n) else 0) + ‖x n‖ ^ 2 * ‖c m‖ ^ 2 := by
      intro n m
      by_cases h : n = m
      · subst h
        simp only [R, if_true]
        rw [RCLike.norm_sq_eq_def, ← mul_pow, ← norm_mul, RCLike.norm_sq_eq_def]
        simp only [map_sub, RCLike.one_re, RCLike.one_im]
        ring
      · simp only [R, h, if_false, zero_sub, norm_neg, norm_mul, mul_pow, zero_add]
    simp only [e, Finset.sum_add_distrib, Finset.sum_ite_eq, Finset.mem_univ, if_true, ← Finset.mul_sum, Finset.sum_sub_distrib, hcx',
      ← Finset.sum_mul, Finset.sum_const, Finset.card_univ, Fintype.card_fin, nsmul_eq_mul, mul_one]
    rw [← Finset.sum_range (fun n => ‖x n‖ ^ 2), ← Finset.sum_range (fun n => ‖c n‖ ^ 2), hcc, ← ha]
    ring
  refine ⟨fun ω => ∑ n ∈ Finset.range N, c n * (t * x n + ε ω n),
    fun ω => Real.sqrt (∑ n : Fin N, ‖∑ m, R n m * ε ω m‖ ^ 2) * (N / Real.sqrt (N - 1)) / (N - v.length) * Real.sqrt (1 / a), ?_, ?_, ?_, ?_, ?_⟩
  · intro ω
    rw [transferFunction_plain _ _ N (by simp) (by simp) (by simp) (by simp) (.each [v]) [v] rfl, if_neg (by simp), hrows]
    simp only [List.zip_cons_cons, List.zip_nil_right, List.map_cons, List.map_nil, outputsLoop]
    rw [oneOutput_ls _ _ (by simp) v (by simpa using hv) hs ?_ _ (hwl (fun n => t * x n + ε ω n))]
    rw [without_map, without_range, List.length_map]
    intro h0
    have : n0 ∈ (List.range N).filter (fun i => decide (i ∉ v)) := by simp [hn0, hnv]
    rw [List.length_eq_zero_iff.1 h0] at this
    simp at this
  · intro ω
    obtain ⟨E, hE⟩ := (C50_succeeds_iff [(List.range N).map (fun n => t * x n + ε ω n)] (fun _ : Fin 1 => (List.range N).map x)
      [fun _ => ∑ n ∈ Finset.range N, c n * (t * x n + ε ω n)] [v]).2 ⟨by simp, by simp, by simp, N, by simp, by simp, by
        intro d hd
        funext j
        obtain rfl : j = 0 := Subsingleton.elim _ _
        have := hd n0 hn0
        simpa [hn0, hxn] using this⟩
    obtain ⟨N', g1, g2, -, hEe⟩ := transferError_ok hE
    have hEl : E.length = 1 := by rw [hEe]; simp
    obtain ⟨row, rfl⟩ := List.length_eq_one_iff.1 hEl
    rw [hE]
    congr 2
    funext j
    have hval := C50_value _ _ _ _ _ hE N (Matrix.of fun _ _ => ((1 / a : ℝ) : 𝕜)) (by
      intro j k
      have : ∀ n ∈ Finset.range N, ((List.range N).map x).getD n 0 * star (((List.range N).map x).getD n 0) = ((‖x n‖ ^ 2 : ℝ) : 𝕜) := by
        intro n hn
        rw [← hsq, mul_comm]
        simp [Finset.mem_range.1 hn]
      simp only [Matrix.of_apply, Finset.univ_unique, Finset.sum_singleton, Finset.sum_congr rfl this, ← RCLike.ofReal_sum, ← ha,
        Subsingleton.elim j k, if_true]
      rw [← RCLike.ofReal_mul, one_div, inv_mul_cancel₀ ha0.ne', RCLike.ofReal_one]) 0 _ _ v row rfl (by simp) rfl rfl rfl hN hvN j
    rw [hval]
    congr 1
    have e1 : ∀ n ∈ Finset.range N, ‖((List.range N).map (fun n => t * x n + ε ω n)).getD n 0 -
        ∑ _k : Fin 1, ((List.range N).map x).getD n 0 * ∑ n ∈ Finset.range N, c n * (t * x n + ε ω n)‖ ^ 2 =
        ‖(t * x n + ε ω n) - x n * (t + ∑ m : Fin N, c m * ε ω m)‖ ^ 2 := by
      intro n hn
      rw [hest]
      simp [Finset.mem_range.1 hn]
    rw [Finset.sum_congr rfl e1, Finset.sum_range]
    simp only [hres, Matrix.of_apply, RCLike.norm_ofReal, abs_of_pos (one_div_pos.2 ha0), Nat.cast_one]
  · simp only [hest]
    have hint : Integrable (fun ω => ∑ n : Fin N, c n * ε ω n) P := integrable_finsetSum _ (fun n _ => (white_int hε n.2).const_mul _)
    rw [integral_add (integrable_const _) hint, white_mean hε (fun n => c n)]
    simp
  · simp only [hest, add_sub_cancel_left]
    rw [white_square hε (fun n => c n), ← Finset.sum_range (fun n => ‖c n‖ ^ 2), hcc]
    ring
  · simp only [hest, add_sub_cancel_left]
    rw [white_square hε (fun n => c n), ← Finset.sum_range (fun n => ‖c n‖ ^ 2), hcc]
    have e2 : ∀ ω, (Real.sqrt (∑ n : Fin N, ‖∑ m, R n m * ε ω m‖ ^ 2) * (N / Real.sqrt (N - 1)) / (N - v.length) * Real.sqrt (1 / a)) ^ 2 =
        (N ^ 2 / ((N - v.length) ^ 2 * (N - 1)) / a) * ∑ n : Fin N, ‖∑ m, R n m * ε ω m‖ ^ 2 := by
      intro ω
      rw [mul_pow, div_pow, mul_pow, div_pow, Real.sq_sqrt (Finset.sum_nonneg (fun _ _ => by positivity)), Real.sq_sqrt hN1.le,
        Real.sq_sqrt (by positivity)]
      field_simp
    simp only [e2]
    rw [integral_const_mul, integral_finsetSum _ (fun n _ => white_square_int hε (R n)),
      Finset.sum_congr rfl (fun n _ => white_square hε (R n)), ← Finset.mul_sum, hR]
    field_simp

/-- **C118.** In particular the error reported is too large in the mean if the input has the same modulus everywhere and some samples are
invalid. -/
theorem C118_reports_more {Ω : Type} [MeasurableSpace Ω] (P : Measure Ω) [IsProbabilityMeasure P] (x : ℕ → 𝕜) (N : ℕ) (hN : 1 < N)
    (v : List ℕ) (hv : ∀ i ∈ v, i < N) (hs : v.Pairwise (· < ·)) (hv0 : v ≠ []) (hvl : v.length < N) (r : ℝ) (hr : 0 < r)
    (hx : ∀ n < N, ‖x n‖ = r) (t : 𝕜) (s : ℝ) (hs0 : 0 < s) (ε : Ω → ℕ → 𝕜) (hε : White P N s ε) (o : Opts) (heap : ℕ → σ)
    (Z : Ω → 𝕜) (e : Ω → ℝ)
    (hZ : ∀ ω, transferFunction [(List.range N).map (fun n => t * x n + ε ω n)] (fun _ : Fin 1 => (List.range N).map x) [none] none
        (.each [v]) o heap = (.ok [(some (fun _ => Z ω), v)], heap))
    (he : ∀ ω, transferError [(List.range N).map (fun n => t * x n + ε ω n)] (fun _ : Fin 1 => (List.range N).map x) [fun _ => Z ω] [v] =
        .ok [fun _ => .fin (e ω)]) :
    ∫ ω, ‖Z ω - t‖ ^ 2 ∂P < ∫ ω, e ω ^ 2 ∂P := by
  classical
  have hnd : v.Nodup := hs.imp (fun h => h.ne)
  have hsub : v.toFinset ⊆ Finset.range N := fun i hi => by simpa using hv i (by simpa using hi)
  have hV : (Finset.range N).filter (· ∉ v) = Finset.range N \ v.toFinset := by ext; simp
  have hcard : ((Finset.range N).filter (· ∉ v)).card = N - v.length := by
    rw [hV, Finset.card_sdiff_of_subset hsub, Finset.card_range, List.toFinset_card_of_nodup hnd]
  obtain ⟨n0, hn0⟩ : ((Finset.range N).filter (· ∉ v)).Nonempty := by
    rw [← Finset.card_pos, hcard]
    omega
  rw [Finset.mem_filter, Finset.mem_range] at hn0
  obtain ⟨Z', e', h1, h2, -, h4, h5⟩ := C118_invalid P x N hN v hv hs ⟨n0, hn0.1, hn0.2, by
    intro h0
    have := hx n0 hn0.1
    rw [h0, norm_zero] at this
    linarith⟩ t s ε hε o heap
  have hZZ : Z = Z' := by
    funext ω
    have := (hZ ω).symm.trans (h1 ω)
    simp only [Prod.mk.injEq, Except.ok.injEq, List.cons.injEq, Option.some.injEq, and_true] at this
    exact congrFun this (0 : Fin 1)
  subst hZZ
  have hee : e = e' := by
    funext ω
    have := (he ω).symm.trans (h2 ω)
    simp only [Except.ok.injEq, List.cons.injEq, and_true] at this
    have := congrFun this (0 : Fin 1)
    simpa using this
  subst hee
  have hk : ((N - v.length : ℕ) : ℝ) = (N : ℝ) - v.length := by push_cast [Nat.cast_sub hvl.le]; ring
  have e1 : ∑ n ∈ (Finset.range N).filter (· ∉ v), ‖x n‖ ^ 2 = ((N : ℝ) - v.length) * r ^ 2 := by
    rw [Finset.sum_congr rfl (fun n hn => by rw [hx n (Finset.mem_range.1 (Finset.mem_filter.1 hn).1)]), Finset.sum_const, hcard, nsmul_eq_mul, hk]
  have e2 : ∑ n ∈ Finset.range N, ‖x n‖ ^ 2 = (N : ℝ) * r ^ 2 := by
    rw [Finset.sum_congr rfl (fun n hn => by rw [hx n (Finset.mem_range.1 hn)]), Finset.sum_const, Finset.card_range, nsmul_eq_mul]
  rw [e1, e2] at h5
  rw [e1] at h4
  have hN1 : (1 : ℝ) < N := by exact_mod_cast hN
  have hl0 : (0 : ℝ) < v.length := by exact_mod_cast List.length_pos_iff.2 hv0
  have hl1 : (0 : ℝ) < (N : ℝ) - v.length := by
    have : (v.length : ℝ) < N := by exact_mod_cast hvl
    linarith
  have hpos : 0 < ∫ ω, ‖Z ω - t‖ ^ 2 ∂P := by rw [h4]; positivity
  rw [h5]
  refine lt_mul_of_one_lt_right hpos ?_
  set k : ℝ := (N : ℝ) - v.length with hkdef
  have hkN : k < N := by linarith
  have e3 : (N : ℝ) ^ 2 / (k ^ 2 * (N - 1)) * ((N - 2) * (k * r ^ 2 / (N * r ^ 2)) + 1) =
      (N * (N - 2) * k + N ^ 2) / (k ^ 2 * (N - 1)) := by
    field_simp
  rw [e3, one_lt_div (mul_pos (by positivity) (by linarith))]
  nlinarith [mul_pos (sub_pos.2 hkN) hl1, mul_pos (mul_pos (sub_pos.2 hkN) hl1) (sub_pos.2 hN1)]

/-! White noise on any number of samples: plus or minus one on one of the samples, all cases having the same probability. -/

/-- All cases have the same probability. -/
noncomputable def exLaw (N : ℕ) : Measure (Fin N × Bool) := ((2 * N : ENNReal))⁻¹ • Measure.count

/-- Plus or minus one on one sample. -/
def exSign {N : ℕ} (ω : Fin N × Bool) (n : ℕ) : ℝ := if ω.1 = n then (if ω.2 then 1 else -1) else 0

theorem exIntegral {N : ℕ} (f : Fin N × Bool → ℝ) : ∫ ω, f ω ∂(exLaw N) = (∑ n, (f (n, true) + f (n, false))) / (2 * N) := by
  rw [exLaw, integral_smul_measure, integral_count, Fintype.sum_prod_type]
  simp only [Fintype.sum_bool, smul_eq_mul]
  rw [ENNReal.toReal_inv, ENNReal.toReal_mul, ENNReal.toReal_ofNat, ENNReal.toReal_natCast]
  ring

theorem exProb {N : ℕ} (hN : N ≠ 0) : IsProbabilityMeasure (exLaw N) := by
  constructor
  rw [exLaw, Measure.smul_apply, Measure.count_univ]
  simp only [ENat.card_eq_coe_fintype_card, Fintype.card_prod, Fintype.card_fin, Fintype.card_bool, smul_eq_mul]
  have : (((N * 2 : ℕ) : ℕ∞) : ENNReal) = 2 * N := by push_cast; rw [mul_comm]
  rw [this]
  exact ENNReal.inv_mul_cancel (by simp [hN]) (ENNReal.mul_ne_top (by simp) (by simp))

theorem exWhite {N : ℕ} (hN : N ≠ 0) : White (exLaw N) N (1 / N) (𝕜 := ℝ) exSign where
  square n _ := by
    have := exProb hN
    exact MemLp.of_discrete
  mean n _ := by
    rw [exIntegral]
    rw [Finset.sum_eq_zero, zero_div]
    intro k _
    by_cases hk : (k : ℕ) = n <;> simp [exSign, hk]
  power n hn m hm := by
    rw [exIntegral]
    have hN' : (N : ℝ) ≠ 0 := by exact_mod_cast hN
    by_cases h : n = m
    · subst h
      have : ∀ k : Fin N, exSign (k, true) n * star (exSign (k, true) n) + exSign (k, false) n * star (exSign (k, false) n) =
          if k = ⟨n, hn⟩ then (2 : ℝ) else 0 := by
        intro k
        by_cases hk : (k : ℕ) = n <;> norm_num [exSign, hk, Fin.ext_iff]
      simp only [this, Finset.sum_ite_eq', Finset.mem_univ, if_true]
      simp only [RCLike.ofReal_real_eq_id, id]
      field_simp
    · rw [if_neg h, Finset.sum_eq_zero, zero_div]
      intro k _
      by_cases hk : (k : ℕ) = n
      · have : ¬ (k : ℕ) = m := by omega
        simp [exSign, this]
      · simp [exSign, hk]

/-! One input, equal to one on two samples. -/

theorem exOnes : InputsIndependent (fun _ : Fin 1 => [(1 : ℝ), 1]) 2 [] := by
  intro d h
  funext j
  obtain rfl : j = 0 := Subsingleton.elim _ _
  simpa using h 0 (by norm_num) (by simp)

instance : IsProbabilityMeasure (exLaw 2) := exProb (by norm_num)

instance : IsProbabilityMeasure (exLaw 4) := exProb (by norm_num)

example : ∃ Z : Fin 2 × Bool → Fin 1 → ℝ, (∀ ω, transferFunction (noisy (fun _ : Fin 1 => [(1 : ℝ), 1]) 2 (fun _ _ => 5) (fun _ => exSign ω) 1)
    (fun _ : Fin 1 => [(1 : ℝ), 1]) [none] none .none {} (fun _ => ()) = (.ok [(some (Z ω), [])], fun _ => ())) ∧
    ∫ ω, Z ω 0 ∂(exLaw 2) = 5 := by
  obtain ⟨Z, _e, h1, -, h2⟩ := C118_unbiased (σ := Unit) (exLaw 2) (fun _ : Fin 1 => [(1 : ℝ), 1]) 2
    (by norm_num) (by norm_num) (by simp) exOnes 1 (by norm_num) (fun _ _ => 5) (fun _ => 1 / (2 : ℕ)) (fun ω _ => exSign ω) (fun _ _ => exWhite (by norm_num)) {}
    (fun _ => ())
  exact ⟨fun ω => Z ω 0, h1, (h2 0 (by norm_num) 0).2.1⟩

/-- The mean of the two samples is no worse than the first sample. -/
example (Z : Fin 2 × Bool → ℕ → Fin 1 → ℝ) (inv : Fin 2 × Bool → ℕ → List ℕ)
    (hZ : ∀ ω, (transferFunction (noisy (fun _ : Fin 1 => [(1 : ℝ), 1]) 2 (fun _ _ => 5) (fun _ => exSign ω) 1)
      (fun _ : Fin 1 => [(1 : ℝ), 1]) [none] none .none {} (fun _ => ())).1 = .ok ((List.range 1).map (fun i => (some (Z ω i), inv ω i)))) :=
  C118_best (σ := Unit) (exLaw 2) (fun _ : Fin 1 => [(1 : ℝ), 1]) 2 (by norm_num)
    (by simp) exOnes 1 (fun _ _ => 5) (fun _ => 1 / (2 : ℕ)) (by norm_num) (fun ω _ => exSign ω) (fun _ _ => exWhite (by norm_num)) {} (fun _ => ()) Z inv hZ 0
    (fun n => if n = 0 then 1 else 0) (by intro t; simp) 0 (by norm_num)

/-- Noise `(1, -1)` on the output. -/
example : transferFunction (σ := Unit) (noisy (fun _ : Fin 1 => [(1 : ℝ), 1]) 2 (fun _ _ => 5) (fun _ n => if n = 0 then 1 else -1) 1)
    (fun _ : Fin 1 => [(1 : ℝ), 1]) [none] none .none {} (fun _ => ()) = (.ok [(some (fun _ => 5), [])], fun _ => ()) :=
  C118_orthogonal _ 2 (by norm_num) (by simp) exOnes 1 (by norm_num) (fun _ _ => 5) _ (by
    intro i _ j
    simp [Finset.sum_range_succ]) {} _

/-- The same noise on the input: half of the truth. -/
example : transferFunction (σ := Unit) (𝕜 := ℝ) [(List.range 2).map (fun _ => 5 * 1)]
    (fun _ : Fin 1 => (List.range 2).map (fun n => 1 + if n = 0 then 1 else -1)) [none] none .none {} (fun _ => ()) =
    (.ok [(some (fun _ => 5 * (1 / 2)), [])], fun _ => ()) := by
  rw [C118_attenuated (σ := Unit) (fun _ => (1 : ℝ)) (fun n => if n = 0 then 1 else -1) 2 ⟨0, by norm_num, by norm_num⟩
    (by simp [Finset.sum_range_succ]) 5 {} (fun _ => ())]
  norm_num [Finset.sum_range_succ]

/-- Four samples, the last of which, three times as large as the others, is invalid: the error reported is too small in the mean. -/
example : ∃ (Z : Fin 4 × Bool → ℝ) (e : Fin 4 × Bool → ℝ),
    (∀ ω, transferFunction [(List.range 4).map (fun n => 5 * (if n = 3 then 3 else 1) + exSign ω n)]
      (fun _ : Fin 1 => (List.range 4).map (fun n => if n = 3 then 3 else 1)) [none] none (.each [[3]]) {} (fun _ => ()) =
      (.ok [(some (fun _ => Z ω), [3])], fun _ => ())) ∧
    (∀ ω, transferError [(List.range 4).map (fun n => 5 * (if n = 3 then 3 else 1) + exSign ω n)]
      (fun _ : Fin 1 => (List.range 4).map (fun n => if n = 3 then 3 else 1)) [fun _ => Z ω] [[3]] = .ok [fun _ => .fin (e ω)]) ∧
    ∫ ω, e ω ^ 2 ∂(exLaw 4) = 8 / 9 * ∫ ω, ‖Z ω - 5‖ ^ 2 ∂(exLaw 4) := by
  obtain ⟨Z, e, h1, h2, -, -, h5⟩ := C118_invalid (σ := Unit) (exLaw 4) (fun n => if n = 3 then (3 : ℝ) else 1) 4 (by norm_num) [3] (by simp)
    (by simp) ⟨0, by norm_num, by simp, by norm_num⟩ 5 (1 / (4 : ℕ)) exSign (exWhite (by norm_num)) {} (fun _ => ())
  refine ⟨Z, e, h1, h2, ?_⟩
  rw [h5, mul_comm]
  congr 1
  have : (Finset.range 4).filter (· ∉ [3]) = Finset.range 3 := by decide
  rw [this]
  norm_num [Finset.sum_range_succ]

/-- Two samples, one of them invalid. -/
example : ∃ (Z : Fin 2 × Bool → ℝ) (e : Fin 2 × Bool → ℝ),
    (∀ ω, transferError [(List.range 2).map (fun n => 5 * 1 + exSign ω n)] (fun _ : Fin 1 => (List.range 2).map (fun _ => 1)) [fun _ => Z ω] [[1]] =
      .ok [fun _ => .fin (e ω)]) ∧
    ∫ ω, ‖Z ω - 5‖ ^ 2 ∂(exLaw 2) < ∫ ω, e ω ^ 2 ∂(exLaw 2) := by
  obtain ⟨Z, e, h1, h2, -⟩ := C118_invalid (σ := Unit) (exLaw 2) (fun _ => (1 : ℝ)) 2 (by norm_num) [1] (by simp)
    (by simp) ⟨0, by norm_num, by simp, by norm_num⟩ 5 (1 / (2 : ℕ)) exSign (exWhite (by norm_num)) {} (fun _ => ())
  exact ⟨Z, e, h2, C118_reports_more (exLaw 2) (fun _ => (1 : ℝ)) 2 (by norm_num) [1] (by simp) (by simp) (by simp) (by simp) 1 (by norm_num)
    (by simp) 5 (1 / (2 : ℕ)) (by norm_num) exSign (exWhite (by norm_num)) {} (fun _ => ()) Z e h1 h2⟩

end Razorback.Props
