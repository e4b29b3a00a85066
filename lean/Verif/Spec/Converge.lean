/-
Specification vocabulary for the convergence of estimations (C127).
-/
import Verif.Spec.MEst

namespace Razorback.Spec
open Razorback

variable {𝕜 : Type} [RCLike 𝕜] {q : ℕ}

/-- The samples which are not rejected are fitted by `z` without any error, and their inputs determine `z`. -/
def FitsExactly (e : List 𝕜) (b : List (Fin q → 𝕜)) (rejected : List ℕ) (z : Fin q → 𝕜) : Prop :=
  (∀ (i : ℕ) x, (resid e b z)[i]? = some x → i ∉ rejected → x = 0) ∧
    ∀ d : Fin q → 𝕜, (∀ (i : ℕ) y, b[i]? = some y → i ∉ rejected → y ⬝ᵥ d = 0) → d = 0

variable {σ : Type}

/-- With ever larger numbers of iterations an estimation `F` comes to a result, or to an exception other than the one of convergence,
which does not change any more. -/
def Settles {α : Type} (F : ℕ → Except Err α × σ) : Prop :=
  ∃ M R, R.1 ≠ .error .nonConv ∧ ∀ m, M ≤ m → F m = R

/-- Some pass of the estimation of `e = b z` with weight function `wf` fits exactly the samples it keeps, and these determine the
estimate. -/
def PassFits (wf : MEst.WFun σ 𝕜 q) (e : List 𝕜) (b : List (Fin q → 𝕜)) (eps : ℝ) (z0 : Fin q → 𝕜) (inv : List ℕ) (st : σ) : Prop :=
  ∃ ps p, Passes wf e b eps 0 (resid e b z0) inv st (ps ++ [p]) ∧ FitsExactly e b p.rejected p.z

/-- A weight function whose estimations settle, except when a pass fits exactly what it keeps. -/
def Settling (wf : MEst.WFun σ 𝕜 q) (o : MEst.Opts) : Prop :=
  ∀ (e : List 𝕜) (b : List (Fin q → 𝕜)), e.length = b.length → ∀ z0 inv st,
    Settles (fun m => MEst.mEstimate e b (some z0) (some wf) inv { o with maxit := m } st) ∨ PassFits wf e b o.eps z0 inv st

end Razorback.Spec
