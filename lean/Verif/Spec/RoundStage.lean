/-
Specification vocabulary for impedances in floating point arithmetic (C129).
-/
import Verif.Spec.StableStage
import Verif.Model.ApproxImp

namespace Razorback.Spec
open Razorback

/-- There is no prefilter, or the filter by coefficients of determination, and on the outputs `e` and the inputs `b` each coefficient is a number
which is not exactly at a limit (limits which never reject anything are no limits), and not rejected if it is zero: its root may be NaN in
floating point arithmetic, which is never rejected. -/
def ClearRounding (pre : Option Approx.FPre) (e b : List (List ℂ)) : Prop :=
  match pre with
  | none => True
  | some (.user _) => False
  | some (.cod codMin codMax size) => ∀ c ∈ e, ∀ vs, Prefilter.value size c (Impedance.rows b) = .ok vs → ∀ x ∈ vs,
      ∃ v, x = .fin v ∧ (0 < codMin → v ≠ codMin) ∧ (codMax < 1 → v ≠ codMax) ∧ (v = 0 → codMin ≤ 0 ∧ 0 ≤ codMax)

end Razorback.Spec
