/-
The loss function that belongs to a weight function of the size of a residual (C100).
-/
import Verif.Spec.Weights
import Mathlib.MeasureTheory.Integral.IntervalIntegral.Basic

namespace Razorback.Spec
open Razorback

/-- The loss of a residual of size `x`, if residuals of size `t` have weight `W t`: for `W = 1` it is `x ^ 2 / 2`. -/
noncomputable def loss (W : ℝ → ℝ) (x : ℝ) : ℝ := ∫ t in (0 : ℝ)..x, t * W t

variable {𝕜 : Type} [RCLike 𝕜] {q : ℕ}

/-- The total loss of the estimate `z` on the samples which are not rejected. -/
noncomputable def misfit (W : ℝ → ℝ) (e : List 𝕜) (b : List (Fin q → 𝕜)) (rejected : List ℕ) (z : Fin q → 𝕜) : ℝ :=
  ((without (resid e b z) rejected).map (fun r => loss W ‖r‖)).sum

/-- The weight of a residual of size `x` in the Thomson function of parameter `a`, for the scale `s`. -/
noncomputable def thomsonWeight (s a x : ℝ) : ℝ := Real.exp (Real.exp (-a ^ 2) - Real.exp (a * (x / s - a)))

/-- The weight of a residual of size `x` in the Huber function of parameter `a`, for the scale `s`. -/
noncomputable def huberWeight (s a x : ℝ) : ℝ := if x ≤ a * s then 1 else a * s / x

/-- The size beyond which a residual is rejected by a Thomson stage of parameter `a`, for the scale `s` and the option `eps`. -/
noncomputable def rejectionSize (eps s a : ℝ) : ℝ := s * (a + Real.log (Real.exp (-a ^ 2) - Real.log eps) / a)

end Razorback.Spec
