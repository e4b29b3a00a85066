/-
Specification vocabulary for the stability of impedances (C128).
-/
import Verif.Spec.Stable
import Verif.Model.Impedance

namespace Razorback.Spec
open Razorback

/-- There is no prefilter, or the filter by coefficients of determination, and on the outputs `e` and the inputs `b` each coefficient is a number
which is not exactly at a limit (limits which never reject anything are no limits). -/
def ClearFilter (pre : Option Impedance.Pre) (e b : List (List ℂ)) : Prop :=
  pre = none ∨ ∃ codMin codMax size, pre = some (fun _ => Prefilter.call codMin codMax size) ∧
    ∀ c ∈ e, ∀ vs, Prefilter.value size c (Impedance.rows b) = .ok vs → ∀ x ∈ vs, ∃ v, x = .fin v ∧ (0 < codMin → v ≠ codMin) ∧ (codMax < 1 → v ≠ codMax)

/-- No decision is a close call when the outputs `e` are estimated from the inputs `b`: neither of the prefilter, nor of the estimations without
the windows which it rejects and those of `iv`. -/
def ClearStage {σ : Type} (o : MEst.Opts) (ws : Impedance.Weights σ) (pre : Option Impedance.Pre) (e b : List (List ℂ)) (iv : MEst.InvArg) : Prop :=
  ClearFilter pre e b ∧ ∀ inv, Prefilter.applyPrefilter e (Impedance.rows b) (pre.map (fun p => p b.length)) iv = .ok inv →
    ∀ (p : ℕ) c l, e[p]? = some c → inv[p]? = some l → ∀ heap : ℕ → σ,
      ClearChain o (ws.at b.length) c (MEst.rowsOf (Impedance.cols b) c.length) none l heap

/-- Errors which differ by less than `ε`, entry by entry, where the second is a number. -/
def WithinNumbers (ε : ℝ) (A A0 : List (List Flt)) : Prop :=
  List.Forall₂ (List.Forall₂ (fun x x0 => ∀ a0, x0 = .fin a0 → ∃ a, x = .fin a ∧ |a - a0| < ε)) A A0

end Razorback.Spec
