/-
Specification vocabulary for the stability of estimations (C128).
-/
import Verif.Spec.MEst
import Verif.Model.SigSet

namespace Razorback.Spec
open Razorback

variable {𝕜 : Type} [RCLike 𝕜] {q : ℕ} {σ : Type}

/-- No weight of a pass is exactly at the limit `eps` of rejection. -/
def OffLimit (eps : ℝ) (p : Pass σ 𝕜 q) : Prop := ∀ w, p.w = some w → ∀ v, Flt.fin v ∈ w → |v| ≠ eps

/-- The change from one pass to the next is not exactly at the tolerance. -/
def OffTolerance (e : List 𝕜) (b : List (Fin q → 𝕜)) (tol : ℝ) (p p' : Pass σ 𝕜 q) : Prop :=
  ∀ c c', EnergyIs e b p c → EnergyIs e b p' c' → |c' - c| ≠ tol * c

/-- No decision of the estimation of `e = b z` from `z0` is a close call, in any of the passes which it goes through: those before the first
small change. -/
def NoCloseCall (wf : MEst.WFun σ 𝕜 q) (e : List 𝕜) (b : List (Fin q → 𝕜)) (o : MEst.Opts) (z0 : Fin q → 𝕜) (inv : List ℕ) (st : σ) : Prop :=
  ∀ ps, Passes wf e b o.eps 0 (resid e b z0) inv st ps → ps.dropLast.IsChain (fun p p' => ¬ SmallChange e b o.tol p p') →
    (∀ p ∈ ps, OffLimit o.eps p) ∧ ps.IsChain (OffTolerance e b o.tol)

/-- No decision of a chain of estimations is a close call: whatever the first weight functions `ws1` of the chain give, the estimation with the
next one is clear cut, on the samples they keep and from the last estimate. -/
def ClearChain (o : MEst.Opts) (ws : MEst.Weighting σ 𝕜 q) (e : List 𝕜) (b : List (Fin q → 𝕜)) (z0 : Option (Fin q → 𝕜)) (inv : List ℕ)
    (heap : ℕ → σ) : Prop :=
  ∀ ws1 i wf ws2, ws = ws1 ++ some (i, wf) :: ws2 → ∀ l, (MEst.chainLoop o ws1 e b z0 (some inv) heap).1 = .ok l →
    ∀ z, ((l.map (fun p => some p.1)).getLast?.getD z0) = some z → ∀ st,
      NoCloseCall wf (withoutAll e (inv :: l.map Prod.snd)) (withoutAll b (inv :: l.map Prod.snd)) o z [] st

/-- Estimates which differ by less than `ε`; none and none. -/
def CloseTo (ε : ℝ) : Option (Fin q → 𝕜) → Option (Fin q → 𝕜) → Prop
  | none, none => True
  | some z, some z' => ∀ j, ‖z j - z' j‖ < ε
  | _, _ => False

/-- The starting value given for output number `p`, if any. -/
def startOf (init : Option (List (Fin q → 𝕜))) (p : ℕ) : Option (Fin q → 𝕜) := init.bind (fun l => l[p]?)

/-- The invalid indices given for output number `p`. -/
def invalidOf (inv : MEst.InvArg) (p : ℕ) : List ℕ :=
  match inv with
  | .none => []
  | .flat l => l
  | .each l => (l[p]?).getD []

/-- Recordings which only differ by their samples, by at most `δ`: same names, clocks, lengths and calibrations. -/
def Perturbed {κ : Type} (δ : ℝ) (S S0 : SigSet ℂ κ) : Prop :=
  S.tags = S0.tags ∧ List.Forall₂ (fun s s0 : Sync ℂ κ => s.rate = s0.rate ∧ s.start = s0.start ∧ s.size = s0.size ∧ s.cals = s0.cals ∧
    List.Forall₂ (List.Forall₂ (fun x x0 : ℂ => ‖x - x0‖ ≤ δ)) s.data s0.data) S.runs S0.runs

/-- Results which differ by less than `ε`, entry by entry, without NaN. -/
def Within (ε : ℝ) (Z Z0 : List (List (Option ℂ))) : Prop :=
  List.Forall₂ (List.Forall₂ (fun x x0 => ∃ a a0 : ℂ, x = some a ∧ x0 = some a0 ∧ ‖a - a0‖ < ε)) Z Z0

end Razorback.Spec
