/-
Property C121: what happens as recordings get longer.
-/
import Mathlib.Topology.Instances.Matrix
import Mathlib.Probability.StrongLaw
import Mathlib.Probability.HasLawExists
import Verif.Props.Unbiased
import Verif.Props.Remote

namespace Razorback.Props
open Razorback Razorback.Spec Razorback.MEst Razorback.Windows Razorback.Impedance Razorback.Fourier Razorback.Prefilter
open scoped Matrix ComplexOrder Topology
open MeasureTheory Filter ProbabilityTheory

section limits
variable {𝕜 : Type} [RCLike 𝕜] {a b c : ℕ}

theorem tendsto_mat {A : ℕ → Matrix (Fin a) (Fin b) 𝕜} {A0 : Matrix (Fin a) (Fin b) 𝕜} :
    Tendsto A atTop (𝓝 A0) ↔ ∀ i j, Tendsto (fun n => A n i j) atTop (𝓝 (A0 i j)) :=
  ⟨fun h i j => tendsto_pi_nhds.1 (tendsto_pi_nhds.1 h i) j, fun h => tendsto_pi_nhds.2 (fun i => tendsto_pi_nhds.2 (h i))⟩

theorem tendsto_matMul {A : ℕ → Matrix (Fin a) (Fin b) 𝕜} {B : ℕ → Matrix (Fin b) (Fin c) 𝕜} {A0 : Matrix (Fin a) (Fin b) 𝕜}
    {B0 : Matrix (Fin b) (Fin c) 𝕜} (hA : Tendsto A atTop (𝓝 A0)) (hB : Tendsto B atTop (𝓝 B0)) :
    Tendsto (fun n => A n * B n) atTop (𝓝 (A0 * B0)) := by
  rw [tendsto_mat] at hA hB ⊢
  intro i j
  simp only [Matrix.mul_apply]
  exact tendsto_finsetSum _ (fun k _ => (hA i k).mul (hB k j))

theorem tendsto_matH {A : ℕ → Matrix (Fin a) (Fin b) 𝕜} {A0 : Matrix (Fin a) (Fin b) 𝕜} (hA : Tendsto A atTop (𝓝 A0)) :
    Tendsto (fun n => (A n)ᴴ) atTop (𝓝 A0ᴴ) :=
  ((continuous_id.matrix_conjTranspose).tendsto A0).comp hA

theorem tendsto_matDet {A : ℕ → Matrix (Fin a) (Fin a) 𝕜} {A0 : Matrix (Fin a) (Fin a) 𝕜} (hA : Tendsto A atTop (𝓝 A0)) :
    Tendsto (fun n => (A n).det) atTop (𝓝 A0.det) :=
  ((continuous_id.matrix_det).tendsto A0).comp hA

theorem tendsto_matInv {A : ℕ → Matrix (Fin a) (Fin a) 𝕜} {A0 : Matrix (Fin a) (Fin a) 𝕜} (hA : Tendsto A atTop (𝓝 A0)) (h0 : A0.det ≠ 0) :
    Tendsto (fun n => (A n)⁻¹) atTop (𝓝 A0⁻¹) := by
  simp only [Matrix.inv_def, Ring.inverse_eq_inv']
  exact ((tendsto_matDet hA).inv₀ h0).smul (((continuous_id.matrix_adjugate).tendsto A0).comp hA)

theorem eventually_det {A : ℕ → Matrix (Fin a) (Fin a) 𝕜} {A0 : Matrix (Fin a) (Fin a) 𝕜} (hA : Tendsto A atTop (𝓝 A0)) (h0 : A0.det ≠ 0) :
    ∀ᶠ n in atTop, (A n).det ≠ 0 :=
  (tendsto_matDet hA).eventually_ne h0

end limits

section transfer
variable {𝕜 : Type} [RCLike 𝕜] {q : ℕ} {σ : Type}

/-- The call with the `N` first samples. -/
noncomputable def firstSamples (x : ℕ → Fin q → 𝕜) (y : ℕ → ℕ → 𝕜) (p N : ℕ) (o : Opts) (heap : ℕ → σ) :
    Except Err (List (Option (Fin q → 𝕜) × List ℕ)) × (ℕ → σ) :=
  transferFunction ((List.range p).map (fun i => (List.range N).map (y i))) (fun j => (List.range N).map (fun n => x n j))
    [none] none .none o heap

/-- The mean of a product over the `N` first samples. -/
noncomputable def meanProduct (u v : ℕ → 𝕜) (N : ℕ) : 𝕜 := (N : 𝕜)⁻¹ * ∑ n ∈ Finset.range N, star (u n) * v n

/-- **C121.** Least squares on more and more samples: if the mean products of the inputs have a regular limit, and `T` leaves a residual
whose mean products with the inputs tend to zero, the estimates exist from some number of samples on and tend to `T`. -/
theorem C121_consistent (hq : q ≠ 0) (x : ℕ → Fin q → 𝕜) (y : ℕ → ℕ → 𝕜) (p : ℕ) (hp : p ≠ 0) (T : ℕ → Fin q → 𝕜)
    (G : Matrix (Fin q) (Fin q) 𝕜) (hG : ∀ j k, Tendsto (meanProduct (fun n => x n j) (fun n => x n k)) atTop (𝓝 (G j k))) (hdet : G.det ≠ 0)
    (hr : ∀ i < p, ∀ j, Tendsto (meanProduct (fun n => x n j) (fun n => y i n - ∑ k, T i k * x n k)) atTop (𝓝 0)) (o : Opts) (heap : ℕ → σ) :
    ∃ Z : ℕ → ℕ → Fin q → 𝕜,
      (∀ᶠ N in atTop, firstSamples x y p N o heap = (.ok ((List.range p).map (fun i => (some (Z N i), []))), heap)) ∧
      ∀ i < p, ∀ j, Tendsto (fun N => Z N i j) atTop (𝓝 (T i j)) := by
  set inputs : ℕ → Fin q → List 𝕜 := fun N j => (List.range N).map (fun n => x n j) with hinp
  set X : (N : ℕ) → Matrix (Fin N) (Fin q) 𝕜 := fun N => design (inputs N) N with hX
  have hXe : ∀ N (n : Fin N) j, X N n j = x n j := by
    intro N n j
    simp [hX, hinp, design]
  set A : ℕ → Matrix (Fin q) (Fin q) 𝕜 := fun N => (N : 𝕜)⁻¹ • ((X N)ᴴ * X N) with hA
  have hAe : ∀ N j k, A N j k = meanProduct (fun n => x n j) (fun n => x n k) N := by
    intro N j k
    simp only [hA, Matrix.smul_apply, Matrix.mul_apply, Matrix.conjTranspose_apply, hXe, smul_eq_mul, meanProduct, Finset.sum_range]
  have hAt : Tendsto A atTop (𝓝 G) := by
    rw [tendsto_mat]
    intro j k
    simp only [hAe]
    exact hG j k
  have hunit : ∀ N, (A N).det ≠ 0 → InputsIndependent (inputs N) N [] := by
    intro N hN d hd
    have h1 : (X N).mulVec d = 0 := by
      funext n
      have := hd n n.2 (by simp)
      simp only [Matrix.mulVec, dotProduct, hX, design, Matrix.of_apply, Pi.zero_apply]
      simpa only [mul_comm] using this
    have h2 : (A N).mulVec d = 0 := by
      simp only [hA, Matrix.smul_mulVec, ← Matrix.mulVec_mulVec, h1, Matrix.mulVec_zero, smul_zero]
    by_contra hne
    exact hN (Matrix.exists_mulVec_eq_zero_iff.1 ⟨d, hne, h2⟩)
  refine ⟨fun N i => (lsCoef (X N)).mulVec (fun n => y i n), ?_, ?_⟩
  · filter_upwards [eventually_det hAt hdet] with N hN
    exact transferFunction_ls hq (by simp [hinp]) (hunit N hN) p hp y o heap
  · intro i hi j
    set C : ℕ → Fin q → 𝕜 := fun N j => meanProduct (fun n => x n j) (fun n => y i n - ∑ k, T i k * x n k) N with hC
    have hCt : ∀ j, Tendsto (fun N => C N j) atTop (𝓝 0) := fun j => hr i hi j
    have hkey : ∀ᶠ N in atTop, (lsCoef (X N)).mulVec (fun n => y i n) j = T i j + ((A N)⁻¹.mulVec (C N)) j := by
      filter_upwards [eventually_det hAt hdet] with N hN
      have hu := design_unit (hunit N hN)
      have h1 : (A N).mulVec ((lsCoef (X N)).mulVec (fun n : Fin N => y i n) - T i) = C N := by
        have e1 : ((X N)ᴴ * X N).mulVec ((lsCoef (X N)).mulVec (fun n : Fin N => y i n)) = (X N)ᴴ.mulVec (fun n : Fin N => y i n) := by
          rw [Matrix.mulVec_mulVec, lsCoef, ← Matrix.mul_assoc, Matrix.mul_nonsing_inv _ hu, Matrix.one_mul]
        have e2 : (X N)ᴴ.mulVec (fun n : Fin N => y i n) - ((X N)ᴴ * X N).mulVec (T i) =
            (X N)ᴴ.mulVec (fun n : Fin N => y i n - ∑ k, T i k * x n k) := by
          rw [← Matrix.mulVec_mulVec, ← Matrix.mulVec_sub]
          congr 1
          funext n
          simp only [Pi.sub_apply, Matrix.mulVec, dotProduct, hXe]
          congr 1
          exact Finset.sum_congr rfl (fun k _ => mul_comm _ _)
        rw [hA]
        simp only
        rw [Matrix.smul_mulVec, Matrix.mulVec_sub, e1, e2]
        funext j
        simp only [Pi.smul_apply, Matrix.mulVec, dotProduct, Matrix.conjTranspose_apply, hXe, smul_eq_mul, hC, meanProduct, Finset.sum_range]
      have h2 : (lsCoef (X N)).mulVec (fun n : Fin N => y i n) - T i = (A N)⁻¹.mulVec (C N) := by
        rw [← h1, Matrix.mulVec_mulVec, Matrix.nonsing_inv_mul _ (isUnit_iff_ne_zero.2 hN), Matrix.one_mulVec]
      have := congrFun h2 j
      rw [Pi.sub_apply] at this
      rw [← this]
      ring
    have hlim : Tendsto (fun N => T i j + ((A N)⁻¹.mulVec (C N)) j) atTop (𝓝 (T i j + 0)) := by
      refine tendsto_const_nhds.add ?_
      simp only [Matrix.mulVec, dotProduct]
      have : (0 : 𝕜) = ∑ k, G⁻¹ j k * 0 := by simp
      rw [this]
      refine tendsto_finsetSum _ (fun k _ => Tendsto.mul ?_ (hCt k))
      exact tendsto_mat.1 (tendsto_matInv hAt hdet) j k
    rw [add_zero] at hlim
    exact hlim.congr' (hkey.mono (fun N h => h.symm))

theorem meanProduct_add_left (u u' v : ℕ → 𝕜) (N : ℕ) :
    meanProduct (fun n => u n + u' n) v N = meanProduct u v N + meanProduct u' v N := by
  simp only [meanProduct, star_add, add_mul, Finset.sum_add_distrib, mul_add]

theorem meanProduct_add_right (u v v' : ℕ → 𝕜) (N : ℕ) :
    meanProduct u (fun n => v n + v' n) N = meanProduct u v N + meanProduct u v' N := by
  simp only [meanProduct, mul_add, Finset.sum_add_distrib]

theorem meanProduct_sub_right (u v v' : ℕ → 𝕜) (N : ℕ) :
    meanProduct u (fun n => v n - v' n) N = meanProduct u v N - meanProduct u v' N := by
  simp only [meanProduct, mul_sub, Finset.sum_sub_distrib]

theorem meanProduct_sum_right (u : ℕ → 𝕜) (t : Fin q → 𝕜) (v : ℕ → Fin q → 𝕜) (N : ℕ) :
    meanProduct u (fun n => ∑ k, t k * v n k) N = ∑ k, t k * meanProduct u (fun n => v n k) N := by
  simp only [meanProduct, Finset.mul_sum]
  rw [Finset.sum_comm]
  refine Finset.sum_congr rfl (fun k _ => Finset.sum_congr rfl (fun n _ => by ring))

theorem meanProduct_star (u v : ℕ → 𝕜) (N : ℕ) : meanProduct v u N = star (meanProduct u v N) := by
  simp only [meanProduct, star_mul', star_sum, star_star, star_inv₀, star_natCast, mul_comm]

/-- **C121.** Noise in the inputs: whatever the number of samples, the estimates tend to something else, `T'`, which the true transfer
function `T` and the mean products of the signals, `G`, and of the noise, `S`, determine by `(G + S) T' = G T`. -/
theorem C121_biased (hq : q ≠ 0) (u ν : ℕ → Fin q → 𝕜) (η : ℕ → ℕ → 𝕜) (p : ℕ) (hp : p ≠ 0) (T T' : ℕ → Fin q → 𝕜)
    (G S : Matrix (Fin q) (Fin q) 𝕜) (hG : ∀ j k, Tendsto (meanProduct (fun n => u n j) (fun n => u n k)) atTop (𝓝 (G j k)))
    (hS : ∀ j k, Tendsto (meanProduct (fun n => ν n j) (fun n => ν n k)) atTop (𝓝 (S j k)))
    (huν : ∀ j k, Tendsto (meanProduct (fun n => u n j) (fun n => ν n k)) atTop (𝓝 0))
    (huη : ∀ i < p, ∀ j, Tendsto (meanProduct (fun n => u n j) (η i)) atTop (𝓝 0))
    (hνη : ∀ i < p, ∀ j, Tendsto (meanProduct (fun n => ν n j) (η i)) atTop (𝓝 0)) (hdet : (G + S).det ≠ 0)
    (hT' : ∀ i < p, (G + S).mulVec (T' i) = G.mulVec (T i)) (o : Opts) (heap : ℕ → σ) :
    ∃ Z : ℕ → ℕ → Fin q → 𝕜,
      (∀ᶠ N in atTop, firstSamples (fun n j => u n j + ν n j) (fun i n => ∑ k, T i k * u n k + η i n) p N o heap =
        (.ok ((List.range p).map (fun i => (some (Z N i), []))), heap)) ∧
      ∀ i < p, ∀ j, Tendsto (fun N => Z N i j) atTop (𝓝 (T' i j)) := by
  have hνu : ∀ j k, Tendsto (meanProduct (fun n => ν n j) (fun n => u n k)) atTop (𝓝 0) := by
    intro j k
    have := (huν k j).star
    rw [star_zero] at this
    exact this.congr (fun N => (meanProduct_star _ _ N).symm)
  refine C121_consistent hq _ _ p hp T' (G + S) ?_ hdet ?_ o heap
  · intro j k
    have h := ((hG j k).add (huν j k)).add ((hνu j k).add (hS j k))
    rw [add_zero, zero_add] at h
    refine h.congr (fun N => ?_)
    rw [meanProduct_add_left, meanProduct_add_right, meanProduct_add_right]
  · intro i hi j
    have h1 : Tendsto (fun N => (∑ k, T i k * (meanProduct (fun n => u n j) (fun n => u n k) N + meanProduct (fun n => ν n j) (fun n => u n k) N) +
        (meanProduct (fun n => u n j) (η i) N + meanProduct (fun n => ν n j) (η i) N)) -
        ∑ k, T' i k * ((meanProduct (fun n => u n j) (fun n => u n k) N + meanProduct (fun n => u n j) (fun n => ν n k) N) +
          (meanProduct (fun n => ν n j) (fun n => u n k) N + meanProduct (fun n => ν n j) (fun n => ν n k) N))) atTop
        (𝓝 ((∑ k, T i k * (G j k + 0) + (0 + 0)) - ∑ k, T' i k * ((G j k + 0) + (0 + S j k)))) :=
      ((tendsto_finsetSum _ (fun k _ => ((hG j k).add (hνu j k)).const_mul _)).add ((huη i hi j).add (hνη i hi j))).sub
        (tendsto_finsetSum _ (fun k _ => (((hG j k).add (huν j k)).add ((hνu j k).add (hS j k))).const_mul _))
    have h2 : (∑ k, T i k * (G j k + 0) + (0 + 0)) - ∑ k, T' i k * ((G j k + 0) + (0 + S j k)) = 0 := by
      have := congrFun (hT' i hi) j
      simp only [Matrix.mulVec, dotProduct, Matrix.add_apply] at this
      simp only [add_zero, zero_add]
      rw [sub_eq_zero]
      simp only [mul_comm (T i _), mul_comm (T' i _)]
      exact this.symm
    rw [h2] at h1
    refine h1.congr (fun N => ?_)
    rw [meanProduct_sub_right, meanProduct_add_right, meanProduct_sum_right, meanProduct_sum_right]
    simp only [meanProduct_add_left, meanProduct_add_right]
    simp only [mul_add, Finset.sum_add_distrib]
    ring

/-- **C121.** With one input of power `g` and noise of power `s` in it, the estimates tend to the true value times `g / (g + s)`. -/
theorem C121_attenuated (u ν η : ℕ → 𝕜) (t : 𝕜) (g s : ℝ) (hg : 0 < g) (hs : 0 ≤ s) (hG : Tendsto (meanProduct u u) atTop (𝓝 (g : 𝕜)))
    (hS : Tendsto (meanProduct ν ν) atTop (𝓝 (s : 𝕜))) (huν : Tendsto (meanProduct u ν) atTop (𝓝 0))
    (huη : Tendsto (meanProduct u η) atTop (𝓝 0)) (hνη : Tendsto (meanProduct ν η) atTop (𝓝 0)) (o : Opts) (heap : ℕ → σ) :
    ∃ Z : ℕ → 𝕜,
      (∀ᶠ N in atTop, transferFunction [(List.range N).map (fun n => t * u n + η n)]
        (fun _ : Fin 1 => (List.range N).map (fun n => u n + ν n)) [none] none .none o heap = (.ok [(some (fun _ => Z N), [])], heap)) ∧
      Tendsto Z atTop (𝓝 (t * ((g / (g + s) : ℝ) : 𝕜))) := by
  have hgs : ((g : 𝕜) + (s : 𝕜)) ≠ 0 := by
    have : ((g + s : ℝ) : 𝕜) ≠ 0 := by
      rw [Ne, RCLike.ofReal_eq_zero]
      positivity
    simpa using this
  obtain ⟨Z, h1, h2⟩ := C121_biased (q := 1) (σ := σ) (by norm_num) (fun n _ => u n) (fun n _ => ν n) (fun _ => η) 1 (by norm_num) (fun _ _ => t)
    (fun _ _ => t * ((g / (g + s) : ℝ) : 𝕜)) (Matrix.of fun _ _ => (g : 𝕜)) (Matrix.of fun _ _ => (s : 𝕜)) (fun _ _ => hG) (fun _ _ => hS) (fun _ _ => huν)
    (fun _ _ _ => huη) (fun _ _ _ => hνη) (by
      rw [Matrix.det_fin_one, Matrix.add_apply]
      exact hgs) (by
      intro i _
      funext j
      simp only [Matrix.mulVec, dotProduct, Fin.sum_univ_one, Matrix.add_apply, Matrix.of_apply, RCLike.ofReal_div, RCLike.ofReal_add]
      field_simp) o heap
  refine ⟨fun N => Z N 0 0, ?_, h2 0 (by norm_num) 0⟩
  filter_upwards [h1] with N hN
  simp only [firstSamples, Fin.sum_univ_one, List.range_one, List.map_cons, List.map_nil] at hN
  rw [hN]
  have hz : Z N 0 = fun _ => Z N 0 0 := funext (fun j => by rw [Subsingleton.elim j 0])
  rw [← hz]

end transfer

section random
variable {q : ℕ} {σ : Type}

/-- **C121.** Samples drawn independently, with the same law, of inputs whose second moments are finite and regular and of noise
uncorrelated with them: with probability one, the estimates tend to the true transfer function. -/
theorem C121_almost_surely {Ω : Type} [MeasurableSpace Ω] (P : Measure Ω) [IsProbabilityMeasure P] (hq : q ≠ 0)
    (x : ℕ → Ω → Fin q → ℂ) (ε : ℕ → Ω → ℕ → ℂ) (p : ℕ) (hp : p ≠ 0) (T : ℕ → Fin q → ℂ)
    (hind : ∀ m n, m ≠ n → IndepFun (fun ω => (x m ω, ε m ω)) (fun ω => (x n ω, ε n ω)) P) (hid : ∀ n, IdentDistrib (fun ω => (x n ω, ε n ω)) (fun ω => (x 0 ω, ε 0 ω)) P P)
    (hx : ∀ j k, Integrable (fun ω => star (x 0 ω j) * x 0 ω k) P) (hε : ∀ i < p, ∀ j, Integrable (fun ω => star (x 0 ω j) * ε 0 ω i) P)
    (hunc : ∀ i < p, ∀ j, ∫ ω, star (x 0 ω j) * ε 0 ω i ∂P = 0)
    (hdet : (Matrix.of (fun j k => ∫ ω, star (x 0 ω j) * x 0 ω k ∂P)).det ≠ 0) (o : Opts) (heap : ℕ → σ) :
    ∀ᵐ ω ∂P, ∃ Z : ℕ → ℕ → Fin q → ℂ,
      (∀ᶠ N in atTop, firstSamples (fun n => x n ω) (fun i n => ∑ k, T i k * x n ω k + ε n ω i) p N o heap =
        (.ok ((List.range p).map (fun i => (some (Z N i), []))), heap)) ∧
      ∀ i < p, ∀ j, Tendsto (fun N => Z N i j) atTop (𝓝 (T i j)) := by
  have law : ∀ f : (Fin q → ℂ) × (ℕ → ℂ) → ℂ, Measurable f → Integrable (fun ω => f (x 0 ω, ε 0 ω)) P →
      ∀ᵐ ω ∂P, Tendsto (fun N : ℕ => ((N : ℂ))⁻¹ * ∑ n ∈ Finset.range N, f (x n ω, ε n ω)) atTop (𝓝 (∫ ω, f (x 0 ω, ε 0 ω) ∂P)) := by
    intro f hf hint
    have h := strong_law_ae (μ := P) (fun n ω => f (x n ω, ε n ω)) hint (fun i j hij => (hind i j hij).comp hf hf) (fun n => (hid n).comp hf)
    filter_upwards [h] with ω hω
    refine hω.congr (fun N => ?_)
    rw [Complex.real_smul]
    push_cast
    rfl
  have h1 : ∀ᵐ ω ∂P, ∀ j k, Tendsto (meanProduct (fun n => x n ω j) (fun n => x n ω k)) atTop
      (𝓝 (Matrix.of (fun j k => ∫ ω, star (x 0 ω j) * x 0 ω k ∂P) j k)) := by
    rw [ae_all_iff]
    intro j
    rw [ae_all_iff]
    intro k
    exact law (fun p => star (p.1 j) * p.1 k) (by fun_prop) (hx j k)
  have h2 : ∀ᵐ ω ∂P, ∀ i < p, ∀ j, Tendsto (meanProduct (fun n => x n ω j) (fun n => ε n ω i)) atTop (𝓝 0) := by
    rw [ae_all_iff]
    intro i
    by_cases hi : i < p
    · simp only [hi, true_imp_iff]
      rw [ae_all_iff]
      intro j
      have := law (fun p => star (p.1 j) * p.2 i) (by fun_prop) (hε i hi j)
      simp only [hunc i hi j] at this
      exact this
    · simp [hi]
  filter_upwards [h1, h2] with ω g1 g2
  refine C121_consistent hq _ _ p hp T _ g1 hdet ?_ o heap
  intro i hi j
  simpa only [add_sub_cancel_left] using g2 i hi j

end random

section remote
variable {κ σ : Type}

/-- **C121.** Remote reference with least squares on longer and longer recordings: if the mean cross spectra of the noise with the remote
channels tend to zero, and those of the magnetic field and of the remote channels themselves have regular limits, the impedances exist
from some recording on and tend to the true one, noise in the magnetic channels or not, for any number of remote channels. -/
theorem C121_remote [One κ] (cal : κ → ℚ → Option ℂ) (S : ℕ → SigSet ℂ κ) (hS : ∀ n, Reach (S n)) (freq : ℚ) (o : Impedance.Opts σ)
    (hw : o.weights = [none]) (hrw : firstWeights o = [none]) (hp : o.prefilter = none) (hrpre : firstPrefilter o = none)
    (hrp : o.realPb = false) (E B R : List ℕ) (hc : ∀ n, Channels (S n) o E B (some R)) (co : ℕ → List (List ℂ))
    (w : ℕ → List ℕ × List ℕ × List ℕ) (hf : ∀ n, setCoeffs cal (S n) freq o.nper o.overlap o.win = .ok (co n, w n)) (heap : ℕ → σ)
    (Z : Matrix (Fin E.length) (Fin B.length) ℂ) (b0 nb : ∀ n, Matrix (Fin B.length) (Fin (w n).1.sum) ℂ)
    (ne : ∀ n, Matrix (Fin E.length) (Fin (w n).1.sum) ℂ) (r : ∀ n, Matrix (Fin R.length) (Fin (w n).1.sum) ℂ)
    (hr : ∀ n, r n = chanMatrix (co n) R (w n).1.sum) (hb : ∀ n, chanMatrix (co n) B (w n).1.sum = b0 n + nb n)
    (he : ∀ n, chanMatrix (co n) E (w n).1.sum = Z * b0 n + ne n) (G : Matrix (Fin B.length) (Fin R.length) ℂ)
    (Γ : Matrix (Fin R.length) (Fin R.length) ℂ)
    (hnb : Tendsto (fun n => ((w n).1.sum : ℂ)⁻¹ • (nb n * (r n)ᴴ)) atTop (𝓝 0))
    (hne : Tendsto (fun n => ((w n).1.sum : ℂ)⁻¹ • (ne n * (r n)ᴴ)) atTop (𝓝 0))
    (hG : Tendsto (fun n => ((w n).1.sum : ℂ)⁻¹ • (b0 n * (r n)ᴴ)) atTop (𝓝 G))
    (hΓ : Tendsto (fun n => ((w n).1.sum : ℂ)⁻¹ • (r n * (r n)ᴴ)) atTop (𝓝 Γ)) (hreg : RowsIndependent G) (hdet : Γ.det ≠ 0) :
    ∃ Zs : ℕ → Matrix (Fin E.length) (Fin B.length) ℂ,
      (∀ᶠ n in atTop, ∃ res, oneFreq cal (S n) freq o heap = (.ok res, heap) ∧ res.impedance = asRows (Zs n)) ∧
      ∀ i j, Tendsto (fun n => Zs n i j) atTop (𝓝 (Z i j)) := by
  classical
  set k : ℕ → ℂ := fun n => ((w n).1.sum : ℂ)⁻¹ with hk
  set X : ℕ → Matrix (Fin B.length) (Fin R.length) ℂ := fun n => k n • ((b0 n + nb n) * (r n)ᴴ) with hX
  set Y : ℕ → Matrix (Fin R.length) (Fin R.length) ℂ := fun n => k n • (r n * (r n)ᴴ) with hY
  have hXt : Tendsto X atTop (𝓝 G) := by
    have := hG.add hnb
    rw [add_zero] at this
    refine this.congr (fun n => ?_)
    simp only [hX, Matrix.add_mul, smul_add, hk]
  have hpsd : Γ.PosSemidef := by
    have h1 : ∀ n, (Y n).PosSemidef := by
      intro n
      have h0 : (0 : ℂ) ≤ k n := by
        simp only [hk]
        have : (0 : ℂ) ≤ ((w n).1.sum : ℂ) := by exact_mod_cast Nat.zero_le _
        exact inv_nonneg.2 this
      exact (Matrix.posSemidef_self_mul_conjTranspose (r n)).smul h0
    refine Matrix.PosSemidef.of_dotProduct_mulVec_nonneg ?_ (fun v => ?_)
    · refine tendsto_nhds_unique (tendsto_matH hΓ) (hΓ.congr (fun n => ?_))
      exact (h1 n).1.symm
    · have hv : Tendsto (fun n => star v ⬝ᵥ (Y n *ᵥ v)) atTop (𝓝 (star v ⬝ᵥ (Γ *ᵥ v))) := by
        have hc : Continuous (fun A : Matrix (Fin R.length) (Fin R.length) ℂ => star v ⬝ᵥ (A *ᵥ v)) := by fun_prop
        exact (hc.tendsto Γ).comp hΓ
      exact ge_of_tendsto' hv (fun n => (h1 n).dotProduct_mulVec_nonneg v)
  have hY1 : ∀ᶠ n in atTop, (Y n).det ≠ 0 := eventually_det hΓ hdet
  -- the limit of the normal matrix of the second stage
  set M : Matrix (Fin B.length) (Fin B.length) ℂ := G * (G * Γ⁻¹)ᴴ with hM
  have hMdet : M.det ≠ 0 := by
    have hpd : Γ.PosDef := hpsd.posDef_iff_isUnit.2 ((Matrix.isUnit_iff_isUnit_det _).2 (isUnit_iff_ne_zero.2 hdet))
    have hinj : Function.Injective (G.vecMul) := by
      intro u v huv
      have := hreg (u - v) (by rw [Matrix.sub_vecMul, sub_eq_zero]; exact huv)
      exact sub_eq_zero.1 this
    have hM' : M = G * Γ⁻¹ * Gᴴ := by
      rw [hM, Matrix.conjTranspose_mul, hpd.inv.1.eq, Matrix.mul_assoc]
    rw [hM']
    exact (Matrix.PosDef.det_pos (hpd.inv.mul_mul_conjTranspose_same hinj)).ne'
  have hMt : Tendsto (fun n => X n * (X n * (Y n)⁻¹)ᴴ) atTop (𝓝 M) :=
    tendsto_matMul hXt (tendsto_matH (tendsto_matMul hXt (tendsto_matInv hΓ hdet)))
  have hM1 : ∀ᶠ n in atTop, (X n * (X n * (Y n)⁻¹)ᴴ).det ≠ 0 := eventually_det hMt hMdet
  have hok : ∀ n, ∃ Zn : Matrix (Fin E.length) (Fin B.length) ℂ, (Y n).det ≠ 0 → (X n * (X n * (Y n)⁻¹)ᴴ).det ≠ 0 →
      (∃ res, oneFreq cal (S n) freq o heap = (.ok res, heap) ∧ res.impedance = asRows Zn) ∧
      (Zn - Z) * (X n * (X n * (Y n)⁻¹)ᴴ) = (k n • (ne n * (r n)ᴴ) - Z * (k n • (nb n * (r n)ᴴ))) * (X n * (Y n)⁻¹)ᴴ := by
    intro n
    by_cases h1 : (Y n).det ≠ 0
    · by_cases h2 : (X n * (X n * (Y n)⁻¹)ᴴ).det ≠ 0
      · have hrows : RowsIndependent (r n) := by
          intro v hv
          refine (det_ne_of_rows.1 h1) v ?_
          simp only [hY, Matrix.vecMul_smul, ← Matrix.vecMul_vecMul, hv, Matrix.zero_vecMul, smul_zero]
        have hcross : RowsIndependent ((b0 n + nb n) * (r n)ᴴ) := by
          intro v hv
          refine (det_ne_of_rows.1 h2) v ?_
          rw [← Matrix.vecMul_vecMul]
          simp only [hX, Matrix.vecMul_smul, hv, smul_zero, Matrix.zero_vecMul]
        obtain ⟨res, Zn, T, g1, g2, -, g4, g5, -⟩ := (C94_instruments cal (S n) (hS n) freq o hw hrw hp hrpre hrp E B R (hc n) (co n) (w n) (hf n)
          heap _ (he n).symm _ (hb n).symm _ (hr n)).1 ⟨hrows, hcross⟩
        refine ⟨Zn, fun _ _ => ⟨⟨res, g1, g2⟩, ?_⟩⟩
        have hT : T = X n * (Y n)⁻¹ := by
          have : T * Y n = X n := by
            rw [Matrix.sub_mul, sub_eq_zero] at g4
            simp only [hX, hY]
            rw [g4, Matrix.mul_smul, Matrix.mul_assoc]
          rw [← this, Matrix.mul_assoc, Matrix.mul_nonsing_inv _ (isUnit_iff_ne_zero.2 h1), Matrix.mul_one]
        rw [← hT]
        have h5 : (Z * b0 n + ne n - Zn * (b0 n + nb n)) * (r n)ᴴ * Tᴴ = 0 := by
          rw [Matrix.mul_assoc, ← Matrix.conjTranspose_mul]
          exact g5
        have h6 : k n • ((Z * b0 n + ne n - Zn * (b0 n + nb n)) * (r n)ᴴ * Tᴴ) = 0 := by rw [h5, smul_zero]
        rw [← sub_eq_zero, ← neg_eq_zero, ← h6]
        simp only [hX, Matrix.mul_add, Matrix.add_mul, Matrix.sub_mul, Matrix.smul_mul, Matrix.mul_smul, Matrix.mul_assoc, smul_add, smul_sub]
        abel
      · exact ⟨0, fun _ h => absurd h h2⟩
    · exact ⟨0, fun h => absurd h h1⟩
  choose Zs hZs using hok
  refine ⟨Zs, ?_, ?_⟩
  · filter_upwards [hY1, hM1] with n h1 h2
    exact (hZs n h1 h2).1
  · have hlim : Tendsto (fun n => Z + (k n • (ne n * (r n)ᴴ) - Z * (k n • (nb n * (r n)ᴴ))) * (X n * (Y n)⁻¹)ᴴ *
        (X n * (X n * (Y n)⁻¹)ᴴ)⁻¹) atTop (𝓝 (Z + ((0 : Matrix (Fin E.length) (Fin R.length) ℂ) - Z * (0 : Matrix (Fin B.length) (Fin R.length) ℂ)) * (G * Γ⁻¹)ᴴ * M⁻¹)) :=
      tendsto_const_nhds.add (tendsto_matMul (tendsto_matMul (hne.sub (tendsto_matMul tendsto_const_nhds hnb))
        (tendsto_matH (tendsto_matMul hXt (tendsto_matInv hΓ hdet)))) (tendsto_matInv hMt hMdet))
    rw [Matrix.mul_zero, sub_zero, Matrix.zero_mul, Matrix.zero_mul, add_zero] at hlim
    rw [← tendsto_mat]
    refine hlim.congr' ?_
    filter_upwards [hY1, hM1] with n h1 h2
    rw [← (hZs n h1 h2).2, Matrix.mul_assoc, Matrix.mul_nonsing_inv _ (isUnit_iff_ne_zero.2 h2), Matrix.mul_one]
    abel

end remote

section examples

/-- The mean of `1, -1, 1, -1, …` tends to zero. -/
theorem alternating_mean : Tendsto (meanProduct (fun _ => (1 : ℝ)) (fun n => (-1) ^ n)) atTop (𝓝 0) := by
  refine squeeze_zero_norm (a := fun N : ℕ => ((N : ℝ))⁻¹) (fun N => ?_) tendsto_inv_atTop_nhds_zero_nat
  simp only [meanProduct, star_one, one_mul, norm_mul]
  have h1 : ‖∑ n ∈ Finset.range N, (-1 : ℝ) ^ n‖ ≤ 1 := by
    rw [neg_one_geom_sum]
    split <;> simp
  have h2 : ‖((N : ℝ))⁻¹‖ = ((N : ℝ))⁻¹ := by
    rw [Real.norm_eq_abs, abs_of_nonneg (by positivity)]
  calc _ ≤ ‖((N : ℝ))⁻¹‖ * 1 := mul_le_mul_of_nonneg_left h1 (norm_nonneg _)
    _ = _ := by rw [h2, mul_one]

theorem constant_mean (u v : ℕ → ℝ) (h : ∀ n, star (u n) * v n = 1) : Tendsto (meanProduct u v) atTop (𝓝 1) := by
  refine tendsto_const_nhds.congr' ?_
  filter_upwards [eventually_ne_atTop 0] with N hN
  simp only [meanProduct, h, Finset.sum_const, Finset.card_range, nsmul_eq_mul, mul_one]
  rw [inv_mul_cancel₀]
  exact_mod_cast hN

/-- A constant input, and an output that oscillates around its double: the estimates tend to two. -/
example : ∃ Z : ℕ → ℕ → Fin 1 → ℝ,
    (∀ᶠ N in atTop, firstSamples (fun _ _ => 1) (fun _ n => 2 + (-1) ^ n) 1 N {} (fun _ => ()) =
      (.ok [(some (Z N 0), [])], fun _ => ())) ∧ Tendsto (fun N => Z N 0 0) atTop (𝓝 2) := by
  obtain ⟨Z, h1, h2⟩ := C121_consistent (𝕜 := ℝ) (q := 1) (by norm_num) (fun _ _ => 1) (fun _ n => 2 + (-1) ^ n) 1 (by norm_num) (fun _ _ => 2)
    (Matrix.of fun _ _ => 1) (fun _ _ => constant_mean _ _ (by simp)) (by simp) (fun i _ j => by
      simpa using alternating_mean) {} (fun _ => ())
  exact ⟨Z, h1, h2 0 (by norm_num) 0⟩

/-- Noise in the input as strong as the signal: the estimates of the transfer function 2 tend to 1. -/
example : ∃ Z : ℕ → ℝ,
    (∀ᶠ N in atTop, transferFunction [(List.range N).map (fun _ => 2 * 1 + 0)] (fun _ : Fin 1 => (List.range N).map (fun n => 1 + (-1) ^ n)) [none]
      none .none {} (fun _ => ()) = (.ok [(some (fun _ => Z N), [])], fun _ => ())) ∧ Tendsto Z atTop (𝓝 1) := by
  have h0 : ∀ u : ℕ → ℝ, Tendsto (meanProduct u (fun _ => 0)) atTop (𝓝 0) := by
    intro u
    have : meanProduct u (fun _ => 0) = fun _ => 0 := by funext N; simp [meanProduct]
    rw [this]
    exact tendsto_const_nhds
  obtain ⟨Z, h1, h2⟩ := C121_attenuated (𝕜 := ℝ) (fun _ => 1) (fun n => (-1) ^ n) (fun _ => 0) 2 1 1 (by norm_num) (by norm_num)
    (constant_mean _ _ (by simp)) (constant_mean _ _ (by intro n; simp [← mul_pow])) alternating_mean (h0 _) (h0 _) {} (fun _ => ())
  refine ⟨Z, h1, ?_⟩
  have : (2 : ℝ) * ((1 / (1 + 1) : ℝ) : ℝ) = 1 := by norm_num
  rw [← this]
  exact h2

/-- A fair coin. -/
noncomputable def coin : Measure Bool := (2 : ENNReal)⁻¹ • (Measure.dirac true + Measure.dirac false)

instance : IsProbabilityMeasure coin := ⟨by
  simp only [coin, Measure.smul_apply, Measure.add_apply, measure_univ, smul_eq_mul]
  rw [one_add_one_eq_two, ENNReal.inv_mul_cancel (by norm_num) (by norm_num)]⟩

/-- Noise drawn by independent tosses of a coin: with probability one, the estimates tend to the transfer function, three. -/
example : ∃ (Ω : Type) (_ : MeasurableSpace Ω) (P : Measure Ω) (ε : ℕ → Ω → ℂ), (∀ n ω, ε n ω = 1 ∨ ε n ω = -1) ∧
    ∀ᵐ ω ∂P, ∃ Z : ℕ → ℕ → Fin 1 → ℂ,
      (∀ᶠ N in atTop, firstSamples (fun _ _ => 1) (fun _ n => ∑ _k : Fin 1, 3 * 1 + ε n ω) 1 N {} (fun _ => ()) =
        (.ok [(some (Z N 0), [])], fun _ => ())) ∧ Tendsto (fun N => Z N 0 0) atTop (𝓝 3) := by
  obtain ⟨Ω, mΩ, P, X, hm, hl, hi, hP⟩ := exists_iid ℕ coin
  let f : Bool → ℂ := fun b => if b then 1 else -1
  have hf : Measurable f := measurable_of_finite _
  have hg : Measurable (fun b => ((fun _ => 1, fun _ => f b) : (Fin 1 → ℂ) × (ℕ → ℂ))) :=
    Measurable.prodMk measurable_const (measurable_pi_lambda _ (fun _ => hf))
  refine ⟨Ω, mΩ, P, fun n ω => f (X n ω), fun n ω => ?_, ?_⟩
  · simp only [f]
    split <;> simp
  · have hb : ∀ n, Integrable (fun ω => f (X n ω)) P := by
      intro n
      refine Integrable.of_bound ((hf.comp (hm n)).aestronglyMeasurable) 1 (Eventually.of_forall (fun ω => ?_))
      simp only [f]
      split <;> simp
    have h := C121_almost_surely P (q := 1) (by norm_num) (fun _ _ _ => 1) (fun n ω _ => f (X n ω)) 1 (by norm_num) (fun _ _ => 3)
      (fun m n hmn => (hi.indepFun hmn).comp hg hg)
      (fun n => (IdentDistrib.mk (hm n).aemeasurable (hm 0).aemeasurable ((hl n).map_eq.trans (hl 0).map_eq.symm)).comp hg)
      (fun _ _ => by simp) (fun i _ j => by simpa using hb 0) (fun i _ j => by
        simp only [star_one, one_mul]
        have := (hl 0).integral_comp (f := f) hf.aestronglyMeasurable
        simp only [Function.comp_def] at this
        rw [this]
        have hd : ∀ b, Integrable f (Measure.dirac b) := fun b => integrable_dirac (by simp)
        simp only [coin]
        rw [integral_smul_measure, integral_add_measure (hd _) (hd _)]
        simp [f]) (by simp) {} (fun _ => ())
    filter_upwards [h] with ω hω
    obtain ⟨Z, h1, h2⟩ := hω
    exact ⟨Z, h1, h2 0 (by norm_num) 0⟩

/-- Remote reference, with noise in the electric and in the magnetic channel: the hypotheses hold (here for the same recording again and
again). -/
example : ∃ Zs : ℕ → Matrix (Fin 1) (Fin 1) ℂ,
    (∀ᶠ n in atTop, ∃ res, oneFreq (fun _ _ => some 1) exNoise (1 / 4) exOpts (fun _ => ()) = (.ok res, fun _ => ()) ∧
      res.impedance = asRows (Zs n)) ∧ ∀ i j, Tendsto (fun n => Zs n i j) atTop (𝓝 ((!![2] : Matrix (Fin 1) (Fin 1) ℂ) i j)) := by
  have hE : (chanMatrix [[11 / 2, 1 / 2], [2, 1], [1 / 2, 1 / 2]] [0] 2 : Matrix (Fin 1) (Fin 2) ℂ) =
      (!![2] : Matrix (Fin 1) (Fin 1) ℂ) * (!![3 / 2, 3 / 2] : Matrix (Fin 1) (Fin 2) ℂ) + !![5 / 2, - 5 / 2] := by
    ext i n
    fin_cases i; fin_cases n <;> simp [chanMatrix] <;> norm_num
  have hB : (chanMatrix [[11 / 2, 1 / 2], [2, 1], [1 / 2, 1 / 2]] [1] 2 : Matrix (Fin 1) (Fin 2) ℂ) =
      !![3 / 2, 3 / 2] + !![1 / 2, - 1 / 2] := by
    ext i n
    fin_cases i; fin_cases n <;> simp [chanMatrix] <;> norm_num
  have hR : (chanMatrix [[11 / 2, 1 / 2], [2, 1], [1 / 2, 1 / 2]] [2] 2 : Matrix (Fin 1) (Fin 2) ℂ) = !![1 / 2, 1 / 2] := by
    ext i n
    fin_cases i; fin_cases n <;> simp [chanMatrix]
  have hn : ∀ a : ℂ, !![a / 2, - a / 2] * (!![1 / 2, 1 / 2] : Matrix (Fin 1) (Fin 2) ℂ)ᴴ = 0 := by
    intro a
    ext i n
    fin_cases i; fin_cases n
    simp [Matrix.mul_apply, Fin.sum_univ_two]
    ring
  have hp : ∀ a b : ℂ, (!![a, a] : Matrix (Fin 1) (Fin 2) ℂ) * (!![b, b] : Matrix (Fin 1) (Fin 2) ℂ)ᴴ = !![2 * (a * star b)] := by
    intro a b
    ext i n
    fin_cases i; fin_cases n
    simp [Matrix.mul_apply, Fin.sum_univ_two]
    ring
  have hz : ∀ a : ℂ, ((2 : ℕ) : ℂ)⁻¹ • (!![a / 2, - a / 2] * (!![1 / 2, 1 / 2] : Matrix (Fin 1) (Fin 2) ℂ)ᴴ) = 0 := fun a => by rw [hn a, smul_zero]
  have hs : ∀ a : ℂ, ((2 : ℕ) : ℂ)⁻¹ • (!![a, a] * (!![1 / 2, 1 / 2] : Matrix (Fin 1) (Fin 2) ℂ)ᴴ) = !![a / 2] := by
    intro a
    rw [hp]
    ext i n
    fin_cases i; fin_cases n
    simp
    ring
  have t1 : Tendsto (fun _ : ℕ => ((2 : ℕ) : ℂ)⁻¹ • ((!![1 / 2, - 1 / 2] : Matrix (Fin 1) (Fin 2) ℂ) * (!![1 / 2, 1 / 2] : Matrix (Fin 1) (Fin 2) ℂ)ᴴ)) atTop (𝓝 0) := by
    rw [hz 1]; exact tendsto_const_nhds
  have t2 : Tendsto (fun _ : ℕ => ((2 : ℕ) : ℂ)⁻¹ • ((!![5 / 2, - 5 / 2] : Matrix (Fin 1) (Fin 2) ℂ) * (!![1 / 2, 1 / 2] : Matrix (Fin 1) (Fin 2) ℂ)ᴴ)) atTop (𝓝 0) := by
    rw [hz 5]; exact tendsto_const_nhds
  have t3 : ∀ a : ℂ, Tendsto (fun _ : ℕ => ((2 : ℕ) : ℂ)⁻¹ • (!![a, a] * (!![1 / 2, 1 / 2] : Matrix (Fin 1) (Fin 2) ℂ)ᴴ)) atTop
      (𝓝 (!![a / 2] : Matrix (Fin 1) (Fin 1) ℂ)) := by
    intro a
    rw [hs a]; exact tendsto_const_nhds
  have hd : ∀ a : ℂ, a ≠ 0 → (!![a / 2] : Matrix (Fin 1) (Fin 1) ℂ).det ≠ 0 := by
    intro a ha
    simpa using ha
  exact C121_remote (fun _ _ => some 1) (fun _ => exNoise) (fun _ => exNoise_reach) (1 / 4) exOpts rfl rfl rfl rfl rfl [0] [1] [2]
    (fun _ => ⟨rfl, rfl, .inr ⟨"R", [2], rfl, by decide, rfl, rfl⟩⟩) _ _ (fun _ => exNoise_coeffs) (fun _ => ()) !![2]
    (fun _ => !![3 / 2, 3 / 2]) (fun _ => !![1 / 2, - 1 / 2]) (fun _ => !![5 / 2, - 5 / 2]) (fun _ => !![1 / 2, 1 / 2])
    (fun _ => hR.symm) (fun _ => hB) (fun _ => hE) !![3 / 2 / 2] !![1 / 2 / 2] t1 t2 (t3 (3 / 2)) (t3 (1 / 2))
    (det_ne_of_rows.1 (hd _ (by norm_num))) (hd _ (by norm_num))

end examples

end Razorback.Props
