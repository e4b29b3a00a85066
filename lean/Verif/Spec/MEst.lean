/-
Specification vocabulary for the M-estimator, independent of the code's helpers.
-/
import Verif.Model.MEst

namespace Razorback.Spec
open Razorback

/-- A list without the elements at the given positions. -/
def without {β : Type _} (l : List β) (idx : List ℕ) : List β :=
  (l.zipIdx.filter (fun p => p.2 ∉ idx)).map Prod.fst

/-- Remove positions again and again, each list of positions referring to what the previous ones left. -/
def withoutAll {β : Type _} : List β → List (List ℕ) → List β
  | l, [] => l
  | l, idx :: ls => withoutAll (without l idx) ls

/-- All the positions exist when they are removed. -/
def ValidSteps {β : Type _} : List β → List (List ℕ) → Prop
  | _, [] => True
  | l, idx :: ls => (∀ i ∈ idx, i < l.length) ∧ ValidSteps (without l idx) ls

/-- The weights `w` given to an estimation of `N` samples are the real numbers `ws`; `None` means all ones. -/
def WeightsAre (w : Option (List Flt)) (N : ℕ) (ws : List ℝ) : Prop :=
  ws.length = N ∧ ((w = none ∧ ws = List.replicate N 1) ∨ w = some (ws.map Flt.fin))

/-- A sample with its weight: weight, output, inputs. -/
structure Obs (𝕜 : Type) (q : ℕ) where
  w : ℝ
  x : 𝕜
  y : Fin q → 𝕜

/-- The observations of output `x`, inputs `y` and weights `w`. -/
def obs {𝕜 : Type} {q : ℕ} (x : List 𝕜) (y : List (Fin q → 𝕜)) (w : List ℝ) : List (Obs 𝕜 q) :=
  List.zipWith (fun a p => ⟨a, p.1, p.2⟩) w (x.zip y)

section
variable {𝕜 : Type} [RCLike 𝕜] {q : ℕ}

open scoped Matrix

/-- `z` solves the weighted normal equations: the weighted residual is orthogonal to every input. -/
def NormalEq (l : List (Obs 𝕜 q)) (z : Fin q → 𝕜) : Prop :=
  ∀ j, (l.map (fun t => star (t.y j) * (t.w • (t.x - t.y ⬝ᵥ z)))).sum = 0

/-- Weighted sum of squares of the residuals. -/
noncomputable def cost (l : List (Obs 𝕜 q)) (z : Fin q → 𝕜) : ℝ :=
  (l.map (fun t => t.w * ‖t.x - t.y ⬝ᵥ z‖ ^ 2)).sum

/-- The inputs with non-zero weight determine `z`: weighted normal equations have at most one solution. -/
def Independent (l : List (Obs 𝕜 q)) : Prop :=
  ∀ d : Fin q → 𝕜, (∀ j, (l.map (fun t => star (t.y j) * (t.w • (t.y ⬝ᵥ d)))).sum = 0) → d = 0

/-- The residuals `x - y z`. -/
def resid (x : List 𝕜) (y : List (Fin q → 𝕜)) (z : Fin q → 𝕜) : List 𝕜 :=
  List.zipWith (fun a r => a - ∑ j, r j * z j) x y

/-- One pass of an iterative estimation: the weights used, the positions rejected after it, the new estimate and the
new state of the weight function. -/
structure Pass (σ 𝕜 : Type) (q : ℕ) where
  w : Option (List Flt)
  rejected : List ℕ
  z : Fin q → 𝕜
  st : σ

variable {σ : Type}

/-- Pass number `it` of the estimation of `e = b z`, from residuals `r`, rejected positions `inv` and state `st`.
The weight function sees the residuals with NaN at the rejected positions.  If it returns weights, those at rejected
positions are put to zero, and the rejected positions are afterwards, in increasing order, those of weight at most `eps`
in absolute value; if it returns nothing the weights are all ones and no position is added.  The new estimate is the
weighted least squares estimate. -/
structure IsPass (wf : MEst.WFun σ 𝕜 q) (e : List 𝕜) (b : List (Fin q → 𝕜)) (eps : ℝ) (it : ℕ) (r : List 𝕜) (inv : List ℕ)
    (st : σ) (p : Pass σ 𝕜 q) : Prop where
  inside : ∀ i ∈ inv, i < e.length
  eval : ∃ shown raw, wf st it shown e b inv = (.ok raw, p.st) ∧
    shown.length = r.length ∧ (∀ i x, r[i]? = some x → shown[i]? = some (if i ∈ inv then none else some x)) ∧
    ((raw = none ∧ p.w = none ∧ p.rejected = inv) ∨
      ∃ w0 w, raw = some w0 ∧ p.w = some w ∧ w0.length = e.length ∧ w.length = e.length ∧
        (∀ i v, w0[i]? = some v → w[i]? = some (if i ∈ inv then .fin 0 else v)) ∧
        p.rejected.Pairwise (· < ·) ∧ ∀ i : ℕ, i ∈ p.rejected ↔ ∃ v, w[i]? = some (.fin v) ∧ |v| ≤ eps)
  weights : ∃ ws, WeightsAre p.w e.length ws ∧ Independent (obs e b ws) ∧ NormalEq (obs e b ws) p.z

/-- Successive passes, each from the residuals, rejected positions and state of the previous one. -/
inductive Passes (wf : MEst.WFun σ 𝕜 q) (e : List 𝕜) (b : List (Fin q → 𝕜)) (eps : ℝ) :
    ℕ → List 𝕜 → List ℕ → σ → List (Pass σ 𝕜 q) → Prop
  | nil (it : ℕ) (r : List 𝕜) (inv : List ℕ) (st : σ) : Passes wf e b eps it r inv st []
  | cons {it : ℕ} {r : List 𝕜} {inv : List ℕ} {st : σ} {p : Pass σ 𝕜 q} {ps : List (Pass σ 𝕜 q)} :
      IsPass wf e b eps it r inv st p → Passes wf e b eps (it + 1) (resid e b p.z) p.rejected p.st ps →
      Passes wf e b eps it r inv st (p :: ps)

/-- The weighted residual square sum of a pass is `c`. -/
def EnergyIs (e : List 𝕜) (b : List (Fin q → 𝕜)) (p : Pass σ 𝕜 q) (c : ℝ) : Prop :=
  ∃ ws, WeightsAre p.w e.length ws ∧ c = |cost (obs e b ws) p.z|

/-- From pass `p` to pass `p'` the weighted residual square sum changed, relatively, by less than `tol`. -/
def SmallChange (e : List 𝕜) (b : List (Fin q → 𝕜)) (tol : ℝ) (p p' : Pass σ 𝕜 q) : Prop :=
  ∃ c c', EnergyIs e b p c ∧ EnergyIs e b p' c' ∧ c ≠ 0 ∧ |c' - c| < tol * c

/-- One call of a weight function: iteration, residuals, outputs, inputs, invalid indices. -/
structure Call (𝕜 : Type) (q : ℕ) where
  it : ℕ
  r : List (Option 𝕜)
  e : List 𝕜
  b : List (Fin q → 𝕜)
  inv : List ℕ

/-- Successive calls of one weight function object: what each of them gives. -/
def results (wf : MEst.WFun σ 𝕜 q) : σ → List (Call 𝕜 q) → List (Except Err (Option (List Flt)))
  | _, [] => []
  | st, c :: l => (wf st c.it c.r c.e c.b c.inv).1 :: results wf (wf st c.it c.r c.e c.b c.inv).2 l

/-- The state of a weight function object after successive calls. -/
def after (wf : MEst.WFun σ 𝕜 q) : σ → List (Call 𝕜 q) → σ
  | st, [] => st
  | st, c :: l => after wf (wf st c.it c.r c.e c.b c.inv).2 l

/-- A weight function starts afresh with every estimation: from a call with iteration number 0 on, what it gives does not
depend on its state. -/
def Resets (wf : MEst.WFun σ 𝕜 q) : Prop :=
  ∀ (st st' : σ) (c : Call 𝕜 q) (l : List (Call 𝕜 q)), c.it = 0 → results wf st (c :: l) = results wf st' (c :: l)

end

end Razorback.Spec
