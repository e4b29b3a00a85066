/-
Weight functions supplied by the user which apply a function to each residual.
-/
import Verif.Model.Weights
import Mathlib.Analysis.RCLike.Basic

namespace Razorback.Spec
open Razorback Razorback.MEst Razorback.Weights

variable {𝕜 : Type} [RCLike 𝕜] {q : ℕ} {σ : Type}

/-- The weight function `lambda it, residual, *args: f(it, residual)` with an elementwise `f`, for example `1 / (1 + abs(residual)**2)`; the NaN of an
invalid sample gives NaN. -/
def elementwise (f : ℕ → 𝕜 → ℝ) : WFun σ 𝕜 q := fun st it r _ _ _ =>
  (.ok (some (r.map (fun v => match v with
    | none => Flt.nan
    | some x => Flt.fin (f it x)))), st)

/-- The weights of a bounded influence step over a function: the function is not negative, and the bounds are sensible. -/
def SensibleStep (f : ℕ → 𝕜 → ℝ) (lower khi : ℝ) : Prop := (∀ it x, 0 ≤ f it x) ∧ 0 < lower ∧ lower < 1 ∧ 0 < khi

/-- A weight function supplied by the user: a continuous function of each residual, or a bounded influence step over one. -/
def UserWeight (wf : ∀ q, WFun Mem 𝕜 q) : Prop := ∃ f : ℕ → 𝕜 → ℝ, (∀ it, Continuous (f it)) ∧
  ((∀ q, wf q = elementwise f) ∨ ∃ lower khi, SensibleStep f lower khi ∧ ∀ q, wf q = bis (elementwise f) lower khi)

end Razorback.Spec
