/-
Operations with small rounding errors tend to the exact ones, for lists which tend to a list entry by entry (C129).
-/
import Verif.Model.ApproxMEst
import Verif.Lemmas.ApproxLS
import Verif.Lemmas.Stable

namespace Razorback.Approx
open Razorback Razorback.MEst Filter Topology

variable {𝕜 : Type} [RCLike 𝕜] {q : ℕ} {σ ι : Type} {F : Filter ι} {u : ι → ℝ}

/-- A choice in the cases which matter in the end. -/
theorem eventually_choose {β : Type*} [Nonempty β] {P : ι → β → Prop} (h : ∀ᶠ k in F, ∃ y, P k y) : ∃ f : ι → β, ∀ᶠ k in F, P k (f k) := by
  classical
  refine ⟨fun k => if hk : ∃ y, P k y then hk.choose else Classical.arbitrary β, ?_⟩
  filter_upwards [h] with k hk
  rw [dif_pos hk]
  exact hk.choose_spec

theorem tendsto_near (hu : Tendsto u F (𝓝 0)) {x y : ι → 𝕜} {x0 : 𝕜} (hx : Tendsto x F (𝓝 x0)) (h : ∀ᶠ k in F, Near (u k) (x k) (y k)) :
    Tendsto y F (𝓝 x0) := by
  have h0 : Tendsto (fun k => y k - x k) F (𝓝 0) := by
    refine squeeze_zero_norm' h ?_
    simpa using hu.mul hx.norm
  simpa using h0.add hx

theorem tends_near (hu : Tendsto u F (𝓝 0)) {l m : ι → List 𝕜} {l0 : List 𝕜} (hl : Tends F l l0) (h : ∀ᶠ k in F, List.Forall₂ (Near (u k)) (l k) (m k)) :
    Tends F m l0 := by
  refine ⟨?_, fun i x0 hx => ?_⟩
  · filter_upwards [hl.1, h] with k h1 h2
    rw [← h2.length_eq, h1]
  · refine tendsto_near hu (hl.2 i x0 hx) ?_
    have hi : i < l0.length := (List.getElem?_eq_some_iff.1 hx).1
    filter_upwards [hl.1, h] with k h1 h2
    rw [List.getElem?_eq_getElem (by omega), List.getElem?_eq_getElem (by rw [← h2.length_eq]; omega)]
    exact h2.get (by omega) (by rw [← h2.length_eq]; omega)

theorem tendsto_fsum (hu0 : ∀ᶠ k in F, 0 ≤ u k) (hu : Tendsto u F (𝓝 0)) {l : ι → List 𝕜} {l0 : List 𝕜} (hl : Tends F l l0) {c : ι → 𝕜}
    (h : ∀ᶠ k in F, FSum (u k) (l k) (c k)) : Tendsto c F (𝓝 l0.sum) := by
  have h0 : Tendsto (fun k => c k - (l k).sum) F (𝓝 0) := by
    refine squeeze_zero_norm' (a := fun k => ((1 + u k) ^ (l0.length - 1) - 1) * ((l k).map (fun x => ‖x‖)).sum) ?_ ?_
    · filter_upwards [h, hl.1, hu0] with k h1 h2 h3
      rw [← h2]
      exact h1.error h3
    · have h1 : Tendsto (fun k => (1 + u k) ^ (l0.length - 1) - 1) F (𝓝 0) := by
        have := ((tendsto_const_nhds (x := (1 : ℝ))).add hu).pow (l0.length - 1)
        simpa using this.sub (tendsto_const_nhds (x := (1 : ℝ)))
      have h2 := (hl.map (f := fun _ x => ‖x‖) (f0 := fun x => ‖x‖) (fun x0 _ x hx => hx.norm)).sum
      simpa using h1.mul h2
  simpa using h0.add hl.sum

theorem tendsto_fdot (hu0 : ∀ᶠ k in F, 0 ≤ u k) (hu : Tendsto u F (𝓝 0)) {x y : ι → List 𝕜} {x0 y0 : List 𝕜} (hx : Tends F x x0) (hy : Tends F y y0)
    {c : ι → 𝕜} (h : ∀ᶠ k in F, FDot (u k) (x k) (y k) (c k)) : Tendsto c F (𝓝 (List.zipWith (· * ·) x0 y0).sum) := by
  obtain ⟨p, hp⟩ := eventually_choose h
  exact tendsto_fsum hu0 hu (tends_near hu (hx.zipWith hy (f := (· * ·)) (by fun_prop)) (hp.mono fun _ h => h.1)) (hp.mono fun _ h => h.2)

theorem tends_fdiag (hu : Tendsto u F (𝓝 0)) {x m : ι → List 𝕜} {x0 : List 𝕜} (hx : Tends F x x0) {w : ι → List ℝ} {w0 : List ℝ} (hw : Tends F w w0)
    (h : ∀ᶠ k in F, FDiag (u k) (some (w k)) (x k) (m k)) : Tends F m (dotdiag (some w0) x0) :=
  tends_near hu (hw.zipWith hx continuous_smul) h

open scoped Matrix.Norms.Operator Matrix in
theorem tendsto_fwlse {c : ℝ} (hu0 : ∀ᶠ k in F, 0 ≤ u k) (hu : Tendsto u F (𝓝 0)) {e : ι → List 𝕜} {e0 : List 𝕜} (he : Tends F e e0)
    {b : ι → List (Fin q → 𝕜)} {b0 : List (Fin q → 𝕜)} (hb : Tends F b b0) {w : ι → Option (List ℝ)} {w0 : Option (List ℝ)}
    (hw : (w0 = none ∧ ∀ k, w k = none) ∨ ∃ v v0, w0 = some v0 ∧ (∀ k, w k = some (v k)) ∧ Tends F v v0)
    (hdet : (gram b0 w0).det ≠ 0) {z : ι → Fin q → 𝕜} (h : ∀ᶠ k in F, FWlse (u k) c (e k) (b k) (w k) (z k)) :
    Tendsto z F (𝓝 ((gram b0 w0)⁻¹ *ᵥ rhs e0 b0 w0)) := by
  have hdiag : ∀ {x m : ι → List 𝕜} {x0 : List 𝕜}, Tends F x x0 → (∀ᶠ k in F, FDiag (u k) (w k) (x k) (m k)) → Tends F m (dotdiag w0 x0) := by
    intro x m x0 hx hm
    rcases hw with ⟨rfl, hn⟩ | ⟨v, v0, rfl, hv, ht⟩
    · refine hx.congr ?_
      filter_upwards [hm] with k hk
      rw [hn] at hk
      exact hk.symm
    · simp only [hv] at hm
      exact tends_fdiag hu hx ht hm
  have h' : ∀ᶠ k in F, ∃ t : List 𝕜 × (Fin q → List 𝕜) × Matrix (Fin q) (Fin q) 𝕜 × Matrix (Fin q) (Fin q) 𝕜 × (Fin q → 𝕜),
      FDiag (u k) (w k) (e k) t.1 ∧ (∀ j, FDiag (u k) (w k) ((b k).map (fun r => r j)) (t.2.1 j)) ∧
      (∀ i j, FDot (u k) ((b k).map (fun r => star (r i))) (t.2.1 j) (t.2.2.1 i j)) ∧ (∀ j, FDot (u k) ((b k).map (fun r => star (r j))) t.1 (t.2.2.2.2 j)) ∧
      ‖t.2.2.2.1‖ ≤ c * u k * ‖t.2.2.1‖ ∧ (t.2.2.1 + t.2.2.2.1) *ᵥ z k = t.2.2.2.2 := by
    filter_upwards [h] with k hk
    obtain ⟨-, -, xw, yw, A, E, v, hk⟩ := hk
    exact ⟨(xw, yw, A, E, v), hk⟩
  obtain ⟨t, ht⟩ := eventually_choose h'
  have hcol : ∀ j, Tends F (fun k => (b k).map (fun r => r j)) (b0.map (fun r => r j)) := fun j => hb.map (fun x0 _ x hx => (tendsto_pi_nhds.1 hx) j)
  have hstar : ∀ j, Tends F (fun k => (b k).map (fun r => star (r j))) (b0.map (fun r => star (r j))) := fun j =>
    hb.map (fun x0 _ x hx => ((tendsto_pi_nhds.1 hx) j).star)
  have hdd : ∀ j, dotdiag w0 (b0.map (fun r => r j)) = (dotdiag w0 b0).map (fun r => r j) := by
    intro j
    cases w0 with
    | none => rfl
    | some v => simp [dotdiag, List.map_zipWith, List.zipWith_map_right]
  have hA : Tendsto (fun k => (t k).2.2.1) F (𝓝 (gram b0 w0)) := by
    refine tendsto_pi_nhds.2 (fun i => tendsto_pi_nhds.2 (fun j => ?_))
    have h1 := hdiag (hcol j) (ht.mono fun _ h => h.2.1 j)
    have h2 := tendsto_fdot hu0 hu (hstar i) h1 (ht.mono fun _ h => h.2.2.1 i j)
    rw [hdd, List.zipWith_map] at h2
    exact h2
  have hv : Tendsto (fun k => (t k).2.2.2.2) F (𝓝 (rhs e0 b0 w0)) := by
    refine tendsto_pi_nhds.2 (fun j => ?_)
    have h1 := hdiag he (ht.mono fun _ h => h.1)
    have h2 := tendsto_fdot hu0 hu (hstar j) h1 (ht.mono fun _ h => h.2.2.2.1 j)
    rw [List.zipWith_map_left] at h2
    exact h2
  have hE : Tendsto (fun k => (t k).2.2.2.1) F (𝓝 0) := by
    refine squeeze_zero_norm' (ht.mono fun _ h => h.2.2.2.2.1) ?_
    simpa using (hu.const_mul c).mul hA.norm
  have hAE : Tendsto (fun k => (t k).2.2.1 + (t k).2.2.2.1) F (𝓝 (gram b0 w0)) := by simpa using hA.add hE
  have hd : Tendsto (fun k => ((t k).2.2.1 + (t k).2.2.2.1).det) F (𝓝 (gram b0 w0).det) := ((continuous_id.matrix_det).tendsto _).comp hAE
  have hinv : Tendsto (fun k => ((t k).2.2.1 + (t k).2.2.2.1)⁻¹) F (𝓝 (gram b0 w0)⁻¹) := by
    simp only [Matrix.inv_def, Ring.inverse_eq_inv']
    exact (hd.inv₀ hdet).smul (((continuous_id.matrix_adjugate).tendsto _).comp hAE)
  have hc : Continuous (fun p : Matrix (Fin q) (Fin q) 𝕜 × (Fin q → 𝕜) => p.1 *ᵥ p.2) := by fun_prop
  refine ((hc.tendsto _).comp (hinv.prodMk_nhds hv)).congr' ?_
  filter_upwards [ht, hd.eventually_ne hdet] with k h1 h2
  simp only [Function.comp_apply]
  rw [← h1.2.2.2.2.2, Matrix.mulVec_mulVec, Matrix.nonsing_inv_mul _ (isUnit_iff_ne_zero.2 h2), Matrix.one_mulVec]

end Razorback.Approx
