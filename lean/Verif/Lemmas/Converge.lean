/-
Iterations with a fixed loss settle down (C127).
-/
import Verif.Lemmas.Descent
import Mathlib.Topology.UniformSpace.HeineCantor
import Mathlib.Topology.Order.MonotoneConvergence

namespace Razorback.MEst
open Razorback Razorback.Spec Razorback.MEst Filter Topology

variable {𝕜 : Type} [RCLike 𝕜]

/-- A decreasing sequence of non-negative numbers: the steps tend to zero. -/
theorem steps_tendsto {M : ℕ → ℝ} (h0 : ∀ k, 0 ≤ M k) (hM : ∀ k, M (k + 1) ≤ M k) : Tendsto (fun k => M k - M (k + 1)) atTop (𝓝 0) := by
  have ha : Antitone M := antitone_nat_of_succ_le hM
  have h1 := tendsto_atTop_ciInf ha ⟨0, by rintro _ ⟨k, rfl⟩; exact h0 k⟩
  have h2 := h1.comp (tendsto_add_atTop_nat 1)
  simpa using h1.sub h2

/-- A function continuous on `[0, X]`, along a sequence whose steps tend to zero. -/
theorem continuous_steps {G : ℝ × ℝ → ℝ} {X : ℝ} (hG : ContinuousOn G (Set.Icc 0 X ×ˢ Set.Icc 0 X)) {a : ℕ → ℝ} (ha : ∀ k, a k ∈ Set.Icc 0 X)
    (hstep : Tendsto (fun k => a (k + 1) - a k) atTop (𝓝 0)) :
    Tendsto (fun k => G (a (k + 1), a (k + 2)) - G (a k, a (k + 1))) atTop (𝓝 0) := by
  have hu := (isCompact_Icc.prod isCompact_Icc).uniformContinuousOn_of_continuous hG
  rw [Metric.uniformContinuousOn_iff] at hu
  rw [Metric.tendsto_atTop]
  intro ε hε
  obtain ⟨δ, hδ, h⟩ := hu ε hε
  obtain ⟨K, hK⟩ := Metric.tendsto_atTop.1 hstep δ hδ
  refine ⟨K, fun k hk => ?_⟩
  have h1 := hK k hk
  have h2 := hK (k + 1) (by omega)
  rw [Real.dist_eq, sub_zero] at h1 h2
  have := h (a (k + 1), a (k + 2)) ⟨ha _, ha _⟩ (a k, a (k + 1)) ⟨ha _, ha _⟩ (by
    rw [Prod.dist_eq, Real.dist_eq, Real.dist_eq]
    exact max_lt h1 h2)
  rw [Real.dist_eq] at this ⊢
  simpa using this

/-- The iteration in terms of the residuals `r k i` of sample `i` before pass `k` and of the sets `J k` of the samples rejected before it. -/
theorem energy_settles {N : ℕ} {W : ℝ → ℝ} (hW : AntitoneOn W (Set.Ici 0)) (hc : ContinuousOn W (Set.Ici 0)) (h0 : ∀ x, 0 ≤ x → 0 ≤ W x)
    {eps : ℝ} (heps : 0 < eps) (r : ℕ → Fin N → 𝕜) (J : ℕ → Finset (Fin N)) (hJ : ∀ k, J k ⊆ J (k + 1))
    (hkeep : ∀ k i, i ∉ J (k + 1) → eps < W ‖r k i‖) (w : ℕ → Fin N → ℝ) (hw : ∀ k i, w k i = if i ∈ J k then 0 else W ‖r k i‖)
    (hpyth : ∀ k l, ∑ i, w k i * ‖r l i‖ ^ 2 = ∑ i, w k i * ‖r (k + 1) i‖ ^ 2 + ∑ i, w k i * ‖r (k + 1) i - r l i‖ ^ 2)
    (E : ℕ → ℝ) (hE : ∀ k, E k = ∑ i, w k i * ‖r (k + 1) i‖ ^ 2) (hpos : ∀ k, E k ≠ 0) {tol : ℝ} (htol : 0 < tol) :
    ∃ k, |E (k + 1) - E k| < tol * E k := by
  have hw0 : ∀ k i, 0 ≤ w k i := by
    intro k i
    rw [hw]
    split
    · exact le_rfl
    · exact h0 _ (norm_nonneg _)
  have hWle : ∀ k i, w k i ≤ W 0 := by
    intro k i
    rw [hw]
    split
    · exact h0 0 le_rfl
    · exact hW (Set.mem_Ici.2 le_rfl) (Set.mem_Ici.2 (norm_nonneg _)) (norm_nonneg _)
  have hmin : ∀ k l, E k ≤ ∑ i, w k i * ‖r l i‖ ^ 2 := by
    intro k l
    rw [hpyth k l, hE]
    have : 0 ≤ ∑ i, w k i * ‖r (k + 1) i - r l i‖ ^ 2 := Finset.sum_nonneg (fun i _ => mul_nonneg (hw0 k i) (by positivity))
    linarith
  have hE0 : ∀ k, 0 < E k := by
    intro k
    refine lt_of_le_of_ne ?_ (Ne.symm (hpos k))
    rw [hE]
    exact Finset.sum_nonneg (fun i _ => mul_nonneg (hw0 k i) (by positivity))
  -- the rejected samples settle
  obtain ⟨K, hK⟩ : ∃ K, ∀ k, K ≤ k → J k = J K := by
    have hm : Monotone J := monotone_nat_of_le_succ hJ
    obtain ⟨K, hK⟩ := WellFoundedGT.monotone_chain_condition ⟨J, hm⟩
    exact ⟨K, fun k hk => (hK k hk).symm⟩
  have hW0 : 0 < W 0 := by
    by_contra hno
    have : ∀ i, w K i = 0 := fun i => le_antisymm ((hWle K i).trans (not_lt.1 hno)) (hw0 K i)
    have h := hE0 K
    rw [hE] at h
    simp [this] at h
  have hwK : ∀ k, K ≤ k → ∀ i, i ∉ J K → eps ≤ w k i ∧ w k i = W ‖r k i‖ := by
    intro k hk i hi
    have h1 := hkeep k i (by rw [hK (k + 1) (by omega)]; exact hi)
    rw [hw, hK k hk, if_neg hi]
    exact ⟨h1.le, rfl⟩
  have hwJ : ∀ k, K ≤ k → ∀ i, i ∈ J K → w k i = 0 := by
    intro k hk i hi
    rw [hw, hK k hk, if_pos hi]
  -- bounded below
  have hlow : ∀ k, K ≤ k → eps / W 0 * E K ≤ E k := by
    intro k hk
    have h1 := hmin K (k + 1)
    have h2 : eps / W 0 * ∑ i, w K i * ‖r (k + 1) i‖ ^ 2 ≤ E k := by
      rw [hE, Finset.mul_sum]
      refine Finset.sum_le_sum (fun i _ => ?_)
      by_cases hi : i ∈ J K
      · rw [hwJ K le_rfl i hi, hwJ k hk i hi]; simp
      · have a1 := (hwK k hk i hi).1
        have a2 := hWle K i
        rw [← mul_assoc]
        refine mul_le_mul_of_nonneg_right ?_ (by positivity)
        calc eps / W 0 * w K i ≤ eps / W 0 * W 0 := mul_le_mul_of_nonneg_left a2 (by positivity)
          _ = eps := by field_simp
          _ ≤ w k i := a1
    exact (mul_le_mul_of_nonneg_left h1 (by positivity)).trans h2
  -- bounded residuals
  set B := W 0 * ∑ i, ‖r K i‖ ^ 2 with hB
  have hEB : ∀ k, E k ≤ B := by
    intro k
    refine (hmin k K).trans ?_
    rw [hB, Finset.mul_sum]
    exact Finset.sum_le_sum (fun i _ => mul_le_mul_of_nonneg_right (hWle k i) (by positivity))
  set X := Real.sqrt (B / eps) with hX
  have hbd : ∀ k, K ≤ k → ∀ i, i ∉ J K → ‖r (k + 1) i‖ ≤ X := by
    intro k hk i hi
    refine Real.le_sqrt_of_sq_le ?_
    rw [le_div_iff₀ heps]
    have h1 : w k i * ‖r (k + 1) i‖ ^ 2 ≤ E k := by
      rw [hE]
      exact Finset.single_le_sum (f := fun i => w k i * ‖r (k + 1) i‖ ^ 2) (fun i _ => mul_nonneg (hw0 k i) (by positivity)) (Finset.mem_univ i)
    have h2 := mul_le_mul_of_nonneg_right (hwK k hk i hi).1 (by positivity : (0 : ℝ) ≤ ‖r (k + 1) i‖ ^ 2)
    have := hEB k
    linarith
  -- the loss decreases
  set M : ℕ → ℝ := fun k => ∑ i, if i ∈ J K then 0 else loss W ‖r (K + k) i‖ with hM
  have hM0 : ∀ k, 0 ≤ M k := by
    intro k
    refine Finset.sum_nonneg (fun i _ => ?_)
    split
    · exact le_rfl
    · exact loss_nonneg h0 (norm_nonneg _)
  have hdec : ∀ k, (∑ i, w (K + k) i * ‖r (K + k + 1) i - r (K + k) i‖ ^ 2) / 2 ≤ M k - M (k + 1) := by
    intro k
    have h1 : M (k + 1) - M k ≤ ∑ i, w (K + k) i * (‖r (K + k + 1) i‖ ^ 2 - ‖r (K + k) i‖ ^ 2) / 2 := by
      rw [hM]
      simp only
      rw [← Finset.sum_sub_distrib]
      refine Finset.sum_le_sum (fun i _ => ?_)
      by_cases hi : i ∈ J K
      · simp [hi, hwJ (K + k) (by omega) i hi]
      · simp only [hi, if_false]
        rw [(hwK (K + k) (by omega) i hi).2]
        exact loss_le hW (norm_nonneg _) (norm_nonneg _)
    have h2 : ∑ i, w (K + k) i * (‖r (K + k + 1) i‖ ^ 2 - ‖r (K + k) i‖ ^ 2) / 2 =
        (∑ i, w (K + k) i * ‖r (K + k + 1) i‖ ^ 2 - ∑ i, w (K + k) i * ‖r (K + k) i‖ ^ 2) / 2 := by
      rw [← Finset.sum_div, ← Finset.sum_sub_distrib]
      simp only [mul_sub]
    have h3 := hpyth (K + k) (K + k)
    rw [h2] at h1
    linarith
  have hMd : ∀ k, M (k + 1) ≤ M k := by
    intro k
    have := hdec k
    have h0 : 0 ≤ ∑ i, w (K + k) i * ‖r (K + k + 1) i - r (K + k) i‖ ^ 2 := Finset.sum_nonneg (fun i _ => mul_nonneg (hw0 _ i) (by positivity))
    linarith
  have hMt := steps_tendsto hM0 hMd
  -- the residuals settle
  have hstep : ∀ i, i ∉ J K → Tendsto (fun k => ‖r (K + 1 + (k + 1)) i‖ - ‖r (K + 1 + k) i‖) atTop (𝓝 0) := by
    intro i hi
    have hle : ∀ k, (‖r (K + 1 + (k + 1)) i‖ - ‖r (K + 1 + k) i‖) ^ 2 ≤ 2 / eps * (M (k + 1) - M (k + 2)) := by
      intro k
      have h1 := hdec (k + 1)
      have h2 : w (K + (k + 1)) i * ‖r (K + (k + 1) + 1) i - r (K + (k + 1)) i‖ ^ 2 ≤
          ∑ i, w (K + (k + 1)) i * ‖r (K + (k + 1) + 1) i - r (K + (k + 1)) i‖ ^ 2 :=
        Finset.single_le_sum (f := fun i => w (K + (k + 1)) i * ‖r (K + (k + 1) + 1) i - r (K + (k + 1)) i‖ ^ 2)
          (fun i _ => mul_nonneg (hw0 _ i) (by positivity)) (Finset.mem_univ i)
      have h3 := mul_le_mul_of_nonneg_right (hwK (K + (k + 1)) (by omega) i hi).1
        (by positivity : (0 : ℝ) ≤ ‖r (K + (k + 1) + 1) i - r (K + (k + 1)) i‖ ^ 2)
      have h4 : (‖r (K + (k + 1) + 1) i‖ - ‖r (K + (k + 1)) i‖) ^ 2 ≤ ‖r (K + (k + 1) + 1) i - r (K + (k + 1)) i‖ ^ 2 :=
        sq_le_sq' (by have := norm_sub_norm_le (r (K + (k + 1)) i) (r (K + (k + 1) + 1) i); rw [norm_sub_rev] at this; linarith)
          (norm_sub_norm_le _ _)
      have e1 : K + 1 + (k + 1) = K + (k + 1) + 1 := by omega
      have e2 : K + 1 + k = K + (k + 1) := by omega
      rw [e1, e2, div_mul_eq_mul_div, le_div_iff₀ heps]
      have h5 := mul_le_mul_of_nonneg_left h4 heps.le
      linarith
    have ht : Tendsto (fun k => 2 / eps * (M (k + 1) - M (k + 2))) atTop (𝓝 0) := by
      have := (hMt.comp (tendsto_add_atTop_nat 1)).const_mul (2 / eps)
      simpa using this
    have hsq := squeeze_zero (fun k => sq_nonneg _) hle ht
    have := (Real.continuous_sqrt.tendsto 0).comp hsq
    simp only [Real.sqrt_zero] at this
    refine tendsto_zero_iff_abs_tendsto_zero _ |>.2 (this.congr (fun k => ?_))
    simp [Real.sqrt_sq_eq_abs]
  have hterm : ∀ i, Tendsto (fun k => w (K + 1 + (k + 1)) i * ‖r (K + 1 + (k + 2)) i‖ ^ 2 - w (K + 1 + k) i * ‖r (K + 1 + (k + 1)) i‖ ^ 2) atTop (𝓝 0) := by
    intro i
    by_cases hi : i ∈ J K
    · have : ∀ k, w (K + 1 + k) i = 0 := fun k => hwJ _ (by omega) i hi
      simp [this]
    · have hG : ContinuousOn (fun p : ℝ × ℝ => W p.1 * p.2 ^ 2) (Set.Icc 0 X ×ˢ Set.Icc 0 X) := by
        refine ContinuousOn.mul (hc.comp continuousOn_fst ?_) (continuousOn_snd.pow 2)
        intro p hp
        exact hp.1.1
      have := continuous_steps hG (a := fun k => ‖r (K + 1 + k) i‖) (fun k => ⟨norm_nonneg _, by
        have := hbd (K + k) (by omega) i hi
        rwa [show K + k + 1 = K + 1 + k by omega] at this⟩) (hstep i hi)
      refine this.congr (fun k => ?_)
      rw [(hwK (K + 1 + (k + 1)) (by omega) i hi).2, (hwK (K + 1 + k) (by omega) i hi).2]
  have hEt : Tendsto (fun k => E (K + 1 + (k + 1)) - E (K + 1 + k)) atTop (𝓝 0) := by
    have := tendsto_finset_sum (Finset.univ : Finset (Fin N)) (fun i _ => hterm i)
    simp only [Finset.sum_const_zero, Finset.sum_sub_distrib] at this
    refine this.congr (fun k => ?_)
    rw [hE, hE]
    rfl
  have hlim := Metric.tendsto_atTop.1 hEt (tol * (eps / W 0 * E K)) (by have := hE0 K; positivity)
  obtain ⟨k, hk⟩ := hlim
  have := hk k le_rfl
  rw [Real.dist_eq, sub_zero] at this
  refine ⟨K + 1 + k, lt_of_lt_of_le this ?_⟩
  exact mul_le_mul_of_nonneg_left (hlow _ (by omega)) htol.le

end Razorback.MEst
