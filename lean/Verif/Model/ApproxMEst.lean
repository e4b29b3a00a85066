/-
Floating point arithmetic in the estimations of mestimator.py: every elementary operation may be off by a relative error of at
most `u`, those of the weight functions (Model/ApproxWeights.lean) too.
As in Model/Approx.lean a program is a relation between its arguments and its possible results that are no exceptions.
Simplifications: no overflow, no underflow, no NaN but those of the weight functions.
-/
import Verif.Model.ApproxWeights

namespace Razorback.Approx
open Razorback Razorback.MEst

variable {𝕜 : Type} [RCLike 𝕜] {q : ℕ} {σ : Type}

/-- `_eval_weight`, mestimator.py:248-255; comparisons are exact. -/
def FEval (u : ℝ) (wf : FW σ 𝕜 q) (it : ℕ) (r e : List 𝕜) (b : List (Fin q → 𝕜)) (inv : List ℕ) (eps : ℝ) (st : σ)
    (w : Option (List Flt)) (inv' : List ℕ) (st' : σ) : Prop :=
  (∀ i ∈ inv, i < r.length) ∧ ∃ raw, wf.fl u st it (mask r inv) e b inv raw st' ∧
    ((raw = none ∧ w = none ∧ inv' = inv) ∨
      ∃ w1, raw = some w1 ∧ w1.length = r.length ∧ w = some (zeroAt w1 inv) ∧ inv' = negligible eps (zeroAt w1 inv))

/-- `wlse`, mestimator.py:284-305, with weights which may be NaN or infinite; then it raises. -/
def FSolve (u c : ℝ) (e : List 𝕜) (b : List (Fin q → 𝕜)) (w : Option (List Flt)) (z : Fin q → 𝕜) : Prop :=
  (w = none ∧ FWlse u c e b none z) ∨ ∃ ws : List ℝ, w = some (ws.map Flt.fin) ∧ FWlse u c e b (some ws) z

/-- `e - b.dot(z)`, mestimator.py:225 and 233. -/
def FResid (u : ℝ) (e : List 𝕜) (b : List (Fin q → 𝕜)) (z : Fin q → 𝕜) (r : List 𝕜) : Prop :=
  e.length = b.length ∧ List.Forall₂ (fun (p : 𝕜 × (Fin q → 𝕜)) v => ∃ d, FDot u (List.ofFn p.2) (List.ofFn z) d ∧ Near u (p.1 - d) v) (e.zip b) r

/-- `np.max(abs(H(residual).dot(dotdiag(weight, residual))))`, mestimator.py:236-237. -/
def FEnergy (u : ℝ) (w : Option (List Flt)) (r : List 𝕜) (cur : ℝ) : Prop :=
  ∃ (rw : List 𝕜) (s : 𝕜), FDiag u (realWeights w) r rw ∧ FDot u (r.map star) rw s ∧ Near u ‖s‖ cur

/-- `change < tol`, mestimator.py:238-240: a difference, a quotient and an exact comparison; dividing by zero gives NaN or an
infinity, never below `tol`. -/
def FConverged (u tol : ℝ) (prev : Option ℝ) (cur : ℝ) (stop : Prop) : Prop :=
  match prev with
  | none => ¬ stop
  | some p => ∃ d t : ℝ, Near u (cur - p) d ∧ Near u (d / p) t ∧ (stop ↔ p ≠ 0 ∧ |t| < tol)

/-- The loop of `m_estimate`, mestimator.py:228-243: `n` iterations are left. -/
def FLoop (u c : ℝ) (wf : FW σ 𝕜 q) (e : List 𝕜) (b : List (Fin q → 𝕜)) (o : Opts) :
    ℕ → ℕ → List 𝕜 → List ℕ → Option ℝ → σ → (Fin q → 𝕜) × List ℕ → σ → Prop
  | 0, _, _, _, _, _, _, _ => False
  | n + 1, it, r, inv, prev, st, res, st' =>
    ∃ (w : Option (List Flt)) (inv1 : List ℕ) (st1 : σ) (z : Fin q → 𝕜) (r1 : List 𝕜) (cur : ℝ) (stop : Prop),
      FEval u wf it r e b inv o.eps st w inv1 st1 ∧ FSolve u c e b w z ∧ FResid u e b z r1 ∧ FEnergy u w r1 cur ∧
      FConverged u o.tol prev cur stop ∧
      ((stop ∧ res = (z, inv1) ∧ st' = st1) ∨ (¬ stop ∧ FLoop u c wf e b o n (it + 1) r1 inv1 (some cur) st1 res st'))

/-- `m_estimate`, mestimator.py:177-245. -/
def FEstimate (u c : ℝ) (e : List 𝕜) (b : List (Fin q → 𝕜)) (z0 : Option (Fin q → 𝕜)) (wf : Option (FW σ 𝕜 q)) (inv : List ℕ)
    (o : Opts) (st : σ) (res : (Fin q → 𝕜) × List ℕ) (st' : σ) : Prop :=
  match wf with
  | none => (∀ i ∈ inv, i < e.length) ∧ st' = st ∧ res.2 = inv ∧
      FSolve u c e b (if inv.length = 0 then none else some (zeroAt (List.replicate e.length (.fin 1)) inv)) res.1
  | some wf => ∃ z r, z0 = some z ∧ FResid u e b z r ∧ FLoop u c wf e b o o.maxit 0 r inv none st res st'

/-- One call with the object's own state, taken from and put back to the heap, mestimator.py:163-166. -/
def FCall (u c : ℝ) (e : List 𝕜) (b : List (Fin q → 𝕜)) (z : Option (Fin q → 𝕜)) (w : Option (ℕ × FW σ 𝕜 q)) (o : Opts)
    (heap : ℕ → σ) (res : (Fin q → 𝕜) × List ℕ) (heap' : ℕ → σ) : Prop :=
  match w with
  | none => FEstimate (σ := Unit) u c e b z none [] o () res () ∧ heap' = heap
  | some (i, wf) => ∃ st', FEstimate u c e b z (some wf) [] o (heap i) res st' ∧ heap' = Function.update heap i st'

/-- The loop of `chain_m_estimate`, mestimator.py:154-174; the pairs yielded after the first one. -/
def FChain (u c : ℝ) (o : Opts) : List (Option (ℕ × FW σ 𝕜 q)) → List 𝕜 → List (Fin q → 𝕜) → Option (Fin q → 𝕜) → Option (List ℕ) →
    (ℕ → σ) → List ((Fin q → 𝕜) × List ℕ) → (ℕ → σ) → Prop
  | [], _, _, _, _, heap, res, heap' => res = [] ∧ heap' = heap
  | w :: ws, e, b, z, ii, heap, res, heap' => ∃ e1 b1 p heap1 l, eliminate e ii = .ok e1 ∧ eliminate b ii = .ok b1 ∧ e1.length ≠ 0 ∧
      FCall u c e1 b1 z w o heap p heap1 ∧ FChain u c o ws e1 b1 (some p.1) (some p.2) heap1 l heap' ∧ res = p :: l

/-- The body of the loop of `transfer_function`, mestimator.py:109-114, for one output. -/
def FOutput (u c : ℝ) (o : Opts) (ws : List (Option (ℕ × FW σ 𝕜 q))) (b : List (Fin q → 𝕜)) (line : List 𝕜) (z0 : Option (Fin q → 𝕜))
    (inv : List ℕ) (heap : ℕ → σ) (res : Option (Fin q → 𝕜) × List ℕ) (heap' : ℕ → σ) : Prop :=
  ∃ l, FChain u c o ws line b z0 (some inv) heap l heap' ∧ mergeInvalid (inv :: l.map Prod.snd) = .ok res.2 ∧
    res.1 = (match l.getLast? with
      | none => z0
      | some p => some p.1)

/-- The loop over the outputs, mestimator.py:109-114. -/
def FOutputs (u c : ℝ) (o : Opts) (ws : List (Option (ℕ × FW σ 𝕜 q))) (b : List (Fin q → 𝕜)) :
    List (List 𝕜 × Option (Fin q → 𝕜) × List ℕ) → (ℕ → σ) → List (Option (Fin q → 𝕜) × List ℕ) → (ℕ → σ) → Prop
  | [], heap, res, heap' => res = [] ∧ heap' = heap
  | (line, z0, inv) :: l, heap, res, heap' => ∃ p ps heap1, FOutput u c o ws b line z0 inv heap p heap1 ∧
      FOutputs u c o ws b l heap1 ps heap' ∧ res = p :: ps

/-- `transfer_function`, mestimator.py:51-117. -/
def FTransfer (u c : ℝ) (outputs : List (List 𝕜)) (inputs : Fin q → List 𝕜) (ws : List (Option (ℕ × FW σ 𝕜 q))) (init : Option (List (Fin q → 𝕜)))
    (inv : InvArg) (o : Opts) (heap : ℕ → σ) (res : List (Option (Fin q → 𝕜) × List ℕ)) (heap' : ℕ → σ) : Prop :=
  ∃ invs y rest, inv.norm outputs.length = .ok invs ∧ outputs = y :: rest ∧ q ≠ 0 ∧ (∀ j, (inputs j).length = y.length) ∧
    (∀ l ∈ outputs, l.length = y.length) ∧ invs.length = outputs.length ∧ (∀ l, init = some l → l.length = outputs.length) ∧
    FOutputs u c o ws (rowsOf inputs y.length) (outputs.zip ((match init with
      | none => List.replicate outputs.length none
      | some l => l.map some).zip invs)) heap res heap'

end Razorback.Approx
