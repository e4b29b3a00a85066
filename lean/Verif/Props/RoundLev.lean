/-
Property C129: leverages computed in floating point arithmetic tend to the exact ones, and are not negative in the end.
-/
import Verif.Props.RoundWeights

namespace Razorback.Props
open Razorback Razorback.Spec Razorback.MEst Razorback.Weights Razorback.Approx Filter Topology

variable {𝕜 : Type} [RCLike 𝕜] {q : ℕ} {σ ι : Type} {F : Filter ι} {u : ι → ℝ}

open scoped Matrix

/-- Factors of a sample which are positive in the limit. -/
theorem levOf_pos {b : List (Fin q → 𝕜)} {w : List ℝ} (hw : w.length = b.length) (hpos : ∀ v ∈ w, 0 ≤ v) (hdet : (gram b (some w)).det ≠ 0) {r : Fin q → 𝕜} (hr : r ≠ 0) :
    0 < RCLike.re (levOf b (some w) r) := by
  have hu : IsUnit (gram b (some w)).det := isUnit_iff_ne_zero.2 hdet
  obtain ⟨e, he⟩ : ∃ e : List 𝕜, e.length = b.length := ⟨List.replicate b.length 0, by simp⟩
  set x := (gram b (some w))⁻¹ *ᵥ (fun j => star (r j)) with hx
  have hAx : gram b (some w) *ᵥ x = fun j => star (r j) := by
    rw [hx, Matrix.mulVec_mulVec, Matrix.mul_nonsing_inv _ hu, Matrix.one_mulVec]
  have hq := quad_form (obs e b w) x
  have hg : ∀ j, (gram b (some w) *ᵥ x) j = ((obs e b w).map (fun t => star (t.y j) * (t.w • (t.y ⬝ᵥ x)))).sum := fun j => gram_mulVec (w := some w) he hw x j
  simp only [← hg, hAx] at hq
  have hlev : levOf b (some w) r = ((((obs e b w).map (fun t => t.w * ‖t.y ⬝ᵥ x‖ ^ 2)).sum : ℝ) : 𝕜) := by
    have h1 : levOf b (some w) r = star (∑ j, star (x j) * star (r j)) := by
      simp only [levOf, star_sum, star_mul', star_star]
      rfl
    rw [h1, hq]
    exact RCLike.conj_ofReal _
  rw [hlev, RCLike.ofReal_re]
  have hnn : ∀ a ∈ (obs e b w).map (fun t => t.w * ‖t.y ⬝ᵥ x‖ ^ 2), 0 ≤ a := by
    intro a ha
    obtain ⟨t, ht, rfl⟩ := List.mem_map.1 ha
    have : 0 ≤ t.w := by
      obtain ⟨i, hi, rfl⟩ := List.getElem_of_mem ht
      simp only [obs, List.getElem_zipWith]
      exact hpos _ (List.getElem_mem _)
    positivity
  refine lt_of_le_of_ne (List.sum_nonneg hnn) (fun h0 => hr ?_)
  have hz : ∀ t ∈ obs e b w, t.w * ‖t.y ⬝ᵥ x‖ ^ 2 = 0 := by
    intro t ht
    have := List.single_le_sum hnn _ (List.mem_map.2 ⟨t, ht, rfl⟩)
    rw [← h0] at this
    exact le_antisymm this (hnn _ (List.mem_map.2 ⟨t, ht, rfl⟩))
  funext j
  have h2 := congrFun hAx j
  rw [hg] at h2
  have : ((obs e b w).map (fun t => star (t.y j) * (t.w • (t.y ⬝ᵥ x)))).sum = 0 := by
    refine List.sum_eq_zero (fun a ha => ?_)
    obtain ⟨t, ht, rfl⟩ := List.mem_map.1 ha
    rcases mul_eq_zero.1 (hz t ht) with h | h
    · rw [h]; simp
    · have : t.y ⬝ᵥ x = 0 := by simpa using h
      rw [this]; simp
  rw [this] at h2
  simpa using h2.symm

/-- The quadratic form of the leverages is bounded below. -/
theorem levOf_bound {b : List (Fin q → 𝕜)} {w : List ℝ} (hw : w.length = b.length) (hpos : ∀ v ∈ w, 0 ≤ v) (hdet : (gram b (some w)).det ≠ 0) :
    ∃ m : ℝ, 0 < m ∧ ∀ r : Fin q → 𝕜, m * ‖r‖ ^ 2 ≤ RCLike.re (levOf b (some w) r) := by
  have hcont : Continuous (fun r : Fin q → 𝕜 => RCLike.re (levOf b (some w) r)) := by
    unfold levOf
    refine RCLike.continuous_re.comp ?_
    simp only [Matrix.mulVec, dotProduct]
    fun_prop
  have hscale : ∀ (t : ℝ) (r : Fin q → 𝕜), RCLike.re (levOf b (some w) (fun j => (t : 𝕜) * r j)) = t ^ 2 * RCLike.re (levOf b (some w) r) := by
    intro t r
    have h1 : levOf b (some w) (fun j => (t : 𝕜) * r j) = ((t ^ 2 : ℝ) : 𝕜) * levOf b (some w) r := by
      simp only [levOf, Matrix.mulVec, dotProduct, Finset.mul_sum, Finset.sum_mul]
      refine Finset.sum_congr rfl (fun j _ => Finset.sum_congr rfl (fun k _ => ?_))
      simp only [star_mul', RCLike.star_def, RCLike.conj_ofReal]
      push_cast
      ring
    rw [h1, RCLike.re_ofReal_mul]
  by_cases hne : (Metric.sphere (0 : Fin q → 𝕜) 1).Nonempty
  · obtain ⟨r0, hr0, hmin⟩ := (isCompact_sphere (0 : Fin q → 𝕜) 1).exists_isMinOn hne hcont.continuousOn
    have hr0n : r0 ≠ 0 := by
      rintro rfl
      simp at hr0
    refine ⟨_, levOf_pos hw hpos hdet hr0n, fun r => ?_⟩
    by_cases hr : r = 0
    · subst hr
      simp [levOf]
    have hn : 0 < ‖r‖ := norm_pos_iff.2 hr
    have h1 : (fun j => ((‖r‖⁻¹ : ℝ) : 𝕜) * r j) ∈ Metric.sphere (0 : Fin q → 𝕜) 1 := by
      have : (fun j => ((‖r‖⁻¹ : ℝ) : 𝕜) * r j) = ((‖r‖⁻¹ : ℝ) : 𝕜) • r := rfl
      rw [mem_sphere_zero_iff_norm, this, norm_smul]
      simp [hn.ne']
    have h2 := isMinOn_iff.1 hmin _ h1
    simp only [hscale] at h2
    calc _ ≤ (‖r‖⁻¹ ^ 2 * RCLike.re (levOf b (some w) r)) * ‖r‖ ^ 2 := by gcongr
      _ = _ := by field_simp
  · refine ⟨1, one_pos, fun r => ?_⟩
    have hr : r = 0 := by
      by_contra hr
      have hn : 0 < ‖r‖ := norm_pos_iff.2 hr
      refine hne ⟨((‖r‖⁻¹ : ℝ) : 𝕜) • r, ?_⟩
      rw [mem_sphere_zero_iff_norm, norm_smul]
      simp [hn.ne']
    subst hr
    simp [levOf]

open scoped Matrix.Norms.Operator in
/-- One leverage: it tends to the exact one, and is not negative in the end. -/
theorem flev_entry (hu0 : ∀ᶠ k in F, 0 ≤ u k) (hu : Tendsto u F (𝓝 0)) {b0 : List (Fin q → 𝕜)} {w0 : List ℝ} (hw : w0.length = b0.length) (hpos : ∀ v ∈ w0, 0 ≤ v)
    (hdet : (gram b0 (some w0)).det ≠ 0) {M : ι → Matrix (Fin q) (Fin q) 𝕜} (hM : Tendsto M F (𝓝 (gram b0 (some w0)))) {r : ι → Fin q → 𝕜} {r0 : Fin q → 𝕜}
    (hr : Tendsto r F (𝓝 r0)) {x : ι → Fin q → 𝕜} (hx : ∀ᶠ k in F, M k *ᵥ x k = fun j => star (r k j)) {s : ι → 𝕜}
    (hs : ∀ᶠ k in F, FDot (u k) (List.ofFn (x k)) (List.ofFn (r k)) (s k)) :
    Tendsto (fun k => RCLike.re (s k)) F (𝓝 (RCLike.re (levOf b0 (some w0) r0))) ∧ ∀ᶠ k in F, 0 ≤ RCLike.re (s k) := by
  have hd : Tendsto (fun k => (M k).det) F (𝓝 (gram b0 (some w0)).det) := ((continuous_id.matrix_det).tendsto _).comp hM
  have hinv : Tendsto (fun k => (M k)⁻¹) F (𝓝 (gram b0 (some w0))⁻¹) := by
    simp only [Matrix.inv_def, Ring.inverse_eq_inv']
    exact (hd.inv₀ hdet).smul (((continuous_id.matrix_adjugate).tendsto _).comp hM)
  have hxe : ∀ᶠ k in F, x k = (M k)⁻¹ *ᵥ (fun j => star (r k j)) := by
    filter_upwards [hx, hd.eventually_ne hdet] with k h1 h2
    rw [← h1, Matrix.mulVec_mulVec, Matrix.nonsing_inv_mul _ (isUnit_iff_ne_zero.2 h2), Matrix.one_mulVec]
  have hstar : Tendsto (fun k => fun j => star (r k j)) F (𝓝 fun j => star (r0 j)) := tendsto_pi_nhds.2 (fun j => ((tendsto_pi_nhds.1 hr) j).star)
  have hc : Continuous (fun p : Matrix (Fin q) (Fin q) 𝕜 × (Fin q → 𝕜) => p.1 *ᵥ p.2) := by fun_prop
  have hxt : Tendsto x F (𝓝 ((gram b0 (some w0))⁻¹ *ᵥ (fun j => star (r0 j)))) := by
    refine ((hc.tendsto _).comp (hinv.prodMk_nhds hstar)).congr' ?_
    filter_upwards [hxe] with k hk
    rw [hk]; rfl
  have hsum : ∀ (x r : Fin q → 𝕜), (List.zipWith (· * ·) (List.ofFn x) (List.ofFn r)).sum = ∑ j, x j * r j := by
    intro x r
    rw [← List.sum_ofFn]
    congr 1
    exact List.ext_getElem (by simp) (fun n h1 h2 => by simp)
  constructor
  · have h1 := tendsto_fdot hu0 hu (tends_ofFn (fun j => (tendsto_pi_nhds.1 hxt) j)) (tends_ofFn (fun j => (tendsto_pi_nhds.1 hr) j)) hs
    rw [hsum] at h1
    exact (RCLike.continuous_re.tendsto _).comp h1
  obtain ⟨m, hm, hb⟩ := levOf_bound hw hpos hdet
  have hprod : ∀ (y r : Fin q → 𝕜), ∑ j, ‖y j * r j‖ ≤ q * ‖y‖ * ‖r‖ := by
    intro y r
    calc ∑ j, ‖y j * r j‖ ≤ ∑ _j : Fin q, ‖y‖ * ‖r‖ := by
          refine Finset.sum_le_sum (fun j _ => ?_)
          rw [norm_mul]
          gcongr
          · exact norm_le_pi_norm y j
          · exact norm_le_pi_norm r j
      _ = _ := by simp [mul_assoc]
  have hcoef : Tendsto (fun k => m - q * ‖(M k)⁻¹ - (gram b0 (some w0))⁻¹‖ - ((1 + u k) ^ q - 1) * (q * ‖(M k)⁻¹‖)) F (𝓝 m) := by
    have h1 : Tendsto (fun k => ‖(M k)⁻¹ - (gram b0 (some w0))⁻¹‖) F (𝓝 0) := by
      have := (hinv.sub_const ((gram b0 (some w0))⁻¹)).norm
      simpa using this
    have h2 : Tendsto (fun k => (1 + u k) ^ q - 1) F (𝓝 0) := by
      have := ((tendsto_const_nhds (x := (1 : ℝ))).add hu).pow q
      simpa using this.sub (tendsto_const_nhds (x := (1 : ℝ)))
    have h3 := ((tendsto_const_nhds (x := m)).sub (h1.const_mul (q : ℝ))).sub (h2.mul (hinv.norm.const_mul (q : ℝ)))
    simpa using h3
  filter_upwards [hcoef.eventually (lt_mem_nhds hm), hxe, hs, hu0] with k h1 h2 h3 h4
  have hns : ‖(fun j => star (r k j))‖ = ‖r k‖ := by
    simp only [Pi.norm_def, nnnorm_star]
  have e1 : ‖s k - ∑ j, x k j * r k j‖ ≤ ((1 + u k) ^ q - 1) * (q * ‖(M k)⁻¹‖) * ‖r k‖ ^ 2 := by
    have h5 := h3.error (v := 0) h4 (List.forall₂_same.2 (fun a _ => Near.refl le_rfl a))
    rw [hsum, add_zero, one_mul] at h5
    have h6 : ((List.zipWith (· * ·) (List.ofFn (x k)) (List.ofFn (r k))).map (fun x => ‖x‖)).sum = ∑ j, ‖x k j * r k j‖ := by
      rw [← List.sum_ofFn]
      congr 1
      exact List.ext_getElem (by simp) (fun n h1 h2 => by simp)
    have h7 : (List.zipWith (· * ·) (List.ofFn (x k)) (List.ofFn (r k))).length = q := by simp
    rw [h6, h7] at h5
    have h8 : ‖x k‖ ≤ ‖(M k)⁻¹‖ * ‖r k‖ := by
      rw [h2, ← hns]
      exact Matrix.linfty_opNorm_mulVec _ _
    have h9 : 0 ≤ (1 + u k) ^ q - 1 := by
      have := one_le_pow₀ (show (1 : ℝ) ≤ 1 + u k by linarith) (n := q)
      linarith
    calc _ ≤ _ := h5
      _ ≤ ((1 + u k) ^ q - 1) * (q * (‖(M k)⁻¹‖ * ‖r k‖) * ‖r k‖) := by
          gcongr
          refine (hprod _ _).trans ?_
          gcongr
      _ = _ := by ring
  have e2 : ‖∑ j, x k j * r k j - levOf b0 (some w0) (r k)‖ ≤ q * ‖(M k)⁻¹ - (gram b0 (some w0))⁻¹‖ * ‖r k‖ ^ 2 := by
    have h5 : ∑ j, x k j * r k j - levOf b0 (some w0) (r k) = ∑ j, (((M k)⁻¹ - (gram b0 (some w0))⁻¹) *ᵥ (fun j => star (r k j))) j * r k j := by
      rw [levOf, ← Finset.sum_sub_distrib, h2]
      refine Finset.sum_congr rfl (fun j _ => ?_)
      rw [Matrix.sub_mulVec, Pi.sub_apply, sub_mul]
    rw [h5]
    refine (norm_sum_le _ _).trans ((hprod _ _).trans ?_)
    have h8 := Matrix.linfty_opNorm_mulVec ((M k)⁻¹ - (gram b0 (some w0))⁻¹) (fun j => star (r k j))
    rw [hns] at h8
    calc _ ≤ (q : ℝ) * (‖(M k)⁻¹ - (gram b0 (some w0))⁻¹‖ * ‖r k‖) * ‖r k‖ := by gcongr
      _ = _ := by ring
  have e3 := (RCLike.abs_re_le_norm (s k - ∑ j, x k j * r k j)).trans e1
  have e4 := (RCLike.abs_re_le_norm (∑ j, x k j * r k j - levOf b0 (some w0) (r k))).trans e2
  rw [map_sub, abs_le] at e3 e4
  have e5 := hb (r k)
  have e6 : 0 ≤ (m - q * ‖(M k)⁻¹ - (gram b0 (some w0))⁻¹‖ - ((1 + u k) ^ q - 1) * (q * ‖(M k)⁻¹‖)) * ‖r k‖ ^ 2 := by
    exact mul_nonneg h1.le (sq_nonneg _)
  linarith [e3.1, e4.1]

end Razorback.Props
