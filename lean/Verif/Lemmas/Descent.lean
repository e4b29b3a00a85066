/-
A weighted least squares step decreases the loss (C100).
-/
import Verif.Spec.Descent
import Verif.Lemmas.MEst
import Verif.Props.MEst
import Mathlib.Analysis.SpecialFunctions.Integrals.Basic

namespace Razorback.MEst
open Razorback Razorback.Spec Razorback.MEst MeasureTheory

theorem loss_integrable {W : ℝ → ℝ} (hW : AntitoneOn W (Set.Ici 0)) {x y : ℝ} (hx : 0 ≤ x) (hy : 0 ≤ y) :
    IntervalIntegrable (fun t => t * W t) volume x y := by
  refine IntervalIntegrable.continuousOn_mul (f := W) ?_ continuousOn_id
  refine AntitoneOn.intervalIntegrable (hW.mono ?_)
  intro t ht
  rcases Set.mem_uIcc.1 ht with h | h
  · exact hx.trans h.1
  · exact hy.trans h.1

/-- The loss is below the parabola touching it. -/
theorem loss_le {W : ℝ → ℝ} (hW : AntitoneOn W (Set.Ici 0)) {x y : ℝ} (hx : 0 ≤ x) (hy : 0 ≤ y) :
    loss W y - loss W x ≤ W x * (y ^ 2 - x ^ 2) / 2 := by
  have e : loss W y - loss W x = ∫ t in x..y, t * W t := by
    unfold loss
    rw [intervalIntegral.integral_interval_sub_left (loss_integrable hW le_rfl hy) (loss_integrable hW le_rfl hx)]
  have e2 : W x * (y ^ 2 - x ^ 2) / 2 = ∫ t in x..y, t * W x := by
    rw [intervalIntegral.integral_mul_const, integral_id]
    ring
  have hc : ∀ u v : ℝ, IntervalIntegrable (fun t => t * W x) volume u v := fun u v =>
    (Continuous.intervalIntegrable (by fun_prop) _ _)
  rw [e, e2]
  rcases le_total x y with h | h
  · refine intervalIntegral.integral_mono_on h (loss_integrable hW hx hy) (hc _ _) ?_
    intro t ht
    exact mul_le_mul_of_nonneg_left (hW hx (hx.trans ht.1) ht.1) (hx.trans ht.1)
  · rw [intervalIntegral.integral_symm y x, intervalIntegral.integral_symm y x]
    refine neg_le_neg (intervalIntegral.integral_mono_on h (hc _ _) (loss_integrable hW hy hx) ?_)
    intro t ht
    exact mul_le_mul_of_nonneg_left (hW (hy.trans ht.1) hx ht.2) (hy.trans ht.1)

theorem loss_nonneg {W : ℝ → ℝ} (h0 : ∀ x, 0 ≤ x → 0 ≤ W x) {x : ℝ} (hx : 0 ≤ x) : 0 ≤ loss W x :=
  intervalIntegral.integral_nonneg hx (fun t ht => mul_nonneg ht.1 (h0 t ht.1))

variable {𝕜 : Type} [RCLike 𝕜] {q : ℕ}

theorem cost_resid : ∀ (e : List 𝕜) (b : List (Fin q → 𝕜)) (ws : List ℝ) (z : Fin q → 𝕜),
    cost (obs e b ws) z = (List.zipWith (fun w r => w * ‖r‖ ^ 2) ws (resid e b z)).sum
  | [], b, ws, z => by simp [cost, obs, resid]
  | x :: e, [], ws, z => by simp [cost, obs, resid]
  | x :: e, y :: b, [], z => by simp [cost, obs, resid]
  | x :: e, y :: b, w :: ws, z => by
    have := cost_resid e b ws z
    simp only [cost, obs, resid] at this
    simp only [cost, obs, resid, List.zip_cons_cons, List.zipWith_cons_cons, List.map_cons, List.sum_cons, this]
    rfl

/-- Summing the parabolas. -/
theorem losses_le {W : ℝ → ℝ} (hW : AntitoneOn W (Set.Ici 0)) (inv : List ℕ) :
    ∀ (k : ℕ) (r r' : List 𝕜) (ws : List ℝ), r'.length = r.length → ws.length = r.length →
      (∀ i (w : ℝ) (x : 𝕜), ws[i]? = some w → r[i]? = some x → w = if k + i ∈ inv then 0 else W ‖x‖) →
      ((((r'.zipIdx k).filter (fun p => p.2 ∉ inv)).map Prod.fst).map (fun r => loss W ‖r‖)).sum -
        ((((r.zipIdx k).filter (fun p => p.2 ∉ inv)).map Prod.fst).map (fun r => loss W ‖r‖)).sum ≤
      ((List.zipWith (fun w r => w * ‖r‖ ^ 2) ws r').sum - (List.zipWith (fun w r => w * ‖r‖ ^ 2) ws r).sum) / 2
  | k, [], [], ws, _, _, _ => by simp
  | k, [], _ :: _, ws, h, _, _ => by simp at h
  | k, x :: r, [], ws, h, _, _ => by simp at h
  | k, x :: r, x' :: r', [], _, h, _ => by simp at h
  | k, x :: r, x' :: r', w :: ws, h1, h2, h => by
    have ih := losses_le hW inv (k + 1) r r' ws (by simpa using h1) (by simpa using h2) (by
      intro i w' x hw hx
      have := h (i + 1) w' x (by simpa using hw) (by simpa using hx)
      rw [this]
      simp only [show k + (i + 1) = k + 1 + i by omega])
    have hw := h 0 w x (by simp) (by simp)
    simp only [Nat.add_zero] at hw
    simp only [List.zipIdx_cons, List.filter_cons, List.zipWith_cons_cons, List.sum_cons]
    by_cases hk : k ∈ inv
    · simp only [hk, if_true] at hw
      simp only [hk, not_true, decide_false, Bool.false_eq_true, if_false, hw, zero_mul, zero_add]
      exact ih
    · simp only [hk, if_false] at hw
      simp only [hk, not_false_iff, decide_true, if_true, List.map_cons, List.sum_cons]
      have := loss_le hW (norm_nonneg x) (norm_nonneg x')
      rw [← hw] at this
      linarith

theorem misfit_mono {W : ℝ → ℝ} (h0 : ∀ x, 0 ≤ x → 0 ≤ W x) (e : List 𝕜) (b : List (Fin q → 𝕜)) {inv inv' : List ℕ}
    (h : ∀ i ∈ inv, i < e.length → i ∈ inv') (hb : e.length = b.length) (z : Fin q → 𝕜) : misfit W e b inv' z ≤ misfit W e b inv z := by
  have hlen : (resid e b z).length = e.length := length_resid hb z
  unfold misfit without
  have key : ∀ (r : List 𝕜) (k : ℕ), k + r.length ≤ e.length →
      ((((r.zipIdx k).filter (fun p => p.2 ∉ inv')).map Prod.fst).map (fun r => loss W ‖r‖)).sum ≤
      ((((r.zipIdx k).filter (fun p => p.2 ∉ inv)).map Prod.fst).map (fun r => loss W ‖r‖)).sum := by
    intro r
    induction r with
    | nil => simp
    | cons x r ih =>
      intro k hk
      simp only [List.length_cons] at hk
      have ih := ih (k + 1) (by omega)
      have hx := loss_nonneg h0 (norm_nonneg x)
      simp only [List.zipIdx_cons, List.filter_cons]
      by_cases h1 : k ∈ inv
      · have h2 := h k h1 (by omega)
        simp only [h1, h2, not_true, decide_false, Bool.false_eq_true, if_false]
        exact ih
      · by_cases h2 : k ∈ inv'
        · simp only [h1, h2, not_true, not_false_iff, decide_true, decide_false, Bool.false_eq_true, if_false, if_true, List.map_cons,
            List.sum_cons]
          linarith
        · simp only [h1, h2, not_false_iff, decide_true, if_true, List.map_cons, List.sum_cons]
          linarith
  exact key _ 0 (by rw [hlen]; omega)

end Razorback.MEst
