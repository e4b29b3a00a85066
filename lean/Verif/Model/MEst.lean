/-
Model of mestimator.py.
Samples are in `𝕜`, the reals or the complex numbers, without rounding and finite; a NaN put in by the code itself
is `none`.  Indices are natural numbers: for negative indices, which numpy counts from the end, see Model/Negative.lean.
-/
import Mathlib.Analysis.RCLike.Basic
import Mathlib.LinearAlgebra.Matrix.NonsingularInverse
import Mathlib.LinearAlgebra.Matrix.ConjTranspose
import Verif.Model.Flt
import Verif.Model.Py

namespace Razorback.MEst

/-- `np.delete(arr, idx, axis=0)`: repeated indices count once, an index out of bounds raises. -/
def delete {β : Type _} (l : List β) (idx : List ℕ) : Except Err (List β) :=
  if idx.any (fun i => decide (l.length ≤ i)) then .error .index
  else .ok ((l.zipIdx.filter (fun p => !idx.contains p.2)).map Prod.fst)

/-- `eliminate`, mestimator.py:258-262. -/
def eliminate {β : Type _} (l : List β) (idx : Option (List ℕ)) : Except Err (List β) :=
  match idx with
  | none => .ok l
  | some idx => if idx.length = 0 then .ok l else delete l idx

/-- `max(it) if len(it) else 0`, mestimator.py:121. -/
def maxOr0 (l : List ℕ) : ℕ := l.foldl max 0

/-- `merge_invalid_indices`, mestimator.py:120-126. -/
def mergeInvalid (ls : List (List ℕ)) : Except Err (List ℕ) :=
  let n := (ls.map maxOr0).sum + ls.length
  match foldE delete (List.range n) ls with
  | .error e => .error e
  | .ok keep => delete (List.range n) keep

noncomputable section

open scoped Matrix

variable {𝕜 : Type} [RCLike 𝕜] {q : ℕ} {σ : Type}

/-- `dotdiag`, mestimator.py:270-281, for a one dimensional `d` or `None`. -/
def dotdiag {M : Type _} [SMul ℝ M] (w : Option (List ℝ)) (x : List M) : List M :=
  match w with
  | none => x
  | some w => List.zipWith (fun a v => a • v) w x

/-- `A = H(y).dot(dotdiag(weight, y))`, mestimator.py:303. -/
def gram (y : List (Fin q → 𝕜)) (w : Option (List ℝ)) : Matrix (Fin q) (Fin q) 𝕜 :=
  Matrix.of fun j k => (List.zipWith (fun r v => star (r j) * v k) y (dotdiag w y)).sum

/-- `rhs = H(y).dot(dotdiag(weight, x))`, mestimator.py:304. -/
def rhs (x : List 𝕜) (y : List (Fin q → 𝕜)) (w : Option (List ℝ)) : Fin q → 𝕜 :=
  fun j => (List.zipWith (fun r v => star (r j) * v) y (dotdiag w x)).sum

open Classical in
/-- `wlse`, mestimator.py:284-305.  `linalg.solve` raises LinAlgError on a singular matrix, and ValueError if there
is a non-finite entry, which here can only come from the weights.
Simplification: a weight array of the wrong length raises (numpy broadcasts an array of length one). -/
def wlse (x : List 𝕜) (y : List (Fin q → 𝕜)) (w : Option (List Flt)) : Except Err (Fin q → 𝕜) :=
  let go (w : Option (List ℝ)) : Except Err (Fin q → 𝕜) :=
    if (gram y w).det = 0 then .error .linAlg
    else .ok ((gram y w)⁻¹.mulVec (rhs x y w))
  match w with
  | none => go none
  | some w =>
    if w.length ≠ y.length then .error .value
    else match w.mapM Flt.val? with
      | none => .error .value
      | some w => go (some w)

/-- `e - b.dot(z)`, mestimator.py:225 and 233. -/
def residual (e : List 𝕜) (b : List (Fin q → 𝕜)) (z : Fin q → 𝕜) : List 𝕜 :=
  List.zipWith (fun x r => x - r ⬝ᵥ z) e b

/-- A weight function object: `weight_func(it, residual, e, b, invalid_idx)`, reading and updating its own state.
The state is updated even if the call raises. -/
abbrev WFun (σ : Type) (𝕜 : Type) (q : ℕ) :=
  σ → ℕ → List (Option 𝕜) → List 𝕜 → List (Fin q → 𝕜) → List ℕ → Except Err (Option (List Flt)) × σ

/-- `residual[invalid_idx] = np.nan`, mestimator.py:249. -/
def mask (r : List 𝕜) (inv : List ℕ) : List (Option 𝕜) :=
  r.zipIdx.map (fun p => if inv.contains p.2 then none else some p.1)

/-- `weight[invalid_idx] = 0.`, mestimator.py:253. -/
def zeroAt (w : List Flt) (inv : List ℕ) : List Flt :=
  w.zipIdx.map (fun p => if inv.contains p.2 then Flt.fin 0 else p.1)

open Classical in
/-- `np.nonzero(np.isclose(0, weight, 0, eps))`, mestimator.py:254. -/
def negligible (eps : ℝ) (w : List Flt) : List ℕ :=
  (w.zipIdx.filter (fun p => decide (p.1.close0 eps))).map Prod.snd

/-- `_eval_weight`, mestimator.py:248-255.  Simplification: the weight function is supposed to return as many
weights as there are samples, otherwise ValueError. -/
def evalWeight (wf : WFun σ 𝕜 q) (it : ℕ) (r : List 𝕜) (e : List 𝕜) (b : List (Fin q → 𝕜)) (inv : List ℕ) (eps : ℝ)
    (st : σ) : Except Err (Option (List Flt) × List ℕ) × σ :=
  if inv.any (fun i => decide (r.length ≤ i)) then (.error .index, st)
  else match wf st it (mask r inv) e b inv with
    | (.error x, st) => (.error x, st)
    | (.ok none, st) => (.ok (none, inv), st)
    | (.ok (some w), st) =>
      if w.length ≠ r.length then (.error .value, st)
      else (.ok (some (zeroAt w inv), negligible eps (zeroAt w inv)), st)

/-- The finite weights as reals, for `dotdiag(weight, residual)`; only used once `wlse` has accepted them. -/
def realWeights (w : Option (List Flt)) : Option (List ℝ) :=
  w.map (fun w => w.map (fun x => x.val?.getD 0))

/-- `np.max(abs(H(residual).dot(dotdiag(weight, residual))))`, mestimator.py:236-237: the product is a scalar. -/
def wresid (w : Option (List Flt)) (r : List 𝕜) : ℝ :=
  ‖(List.zipWith (fun a v => star a * v) r (dotdiag (realWeights w) r)).sum‖

open Classical in
/-- `change < tol`, mestimator.py:238-240; dividing by zero gives NaN or an infinity, never below `tol`. -/
def converged (tol : ℝ) (prev : Option ℝ) (cur : ℝ) : Bool :=
  match prev with
  | none => false
  | some p => decide (p ≠ 0 ∧ |(cur - p) / p| < tol)

/-- The options `tol`, `maxit`, `eps` of `m_estimate`, mestimator.py:179. -/
structure Opts where
  tol : ℝ := 1 / 100
  maxit : ℕ := 100
  eps : ℝ := 1 / 10 ^ 14

/-- The loop of `m_estimate`, mestimator.py:228-243: `n` iterations are left. -/
def loop (wf : WFun σ 𝕜 q) (e : List 𝕜) (b : List (Fin q → 𝕜)) (o : Opts) :
    ℕ → ℕ → List 𝕜 → List ℕ → Option ℝ → σ → Except Err ((Fin q → 𝕜) × List ℕ) × σ
  | 0, _, _, _, _, st => (.error .nonConv, st)
  | n + 1, it, r, inv, prev, st =>
    match evalWeight wf it r e b inv o.eps st with
    | (.error x, st) => (.error x, st)
    | (.ok (w, inv), st) =>
      match wlse e b w with
      | .error x => (.error x, st)
      | .ok z =>
        let r := residual e b z
        let cur := wresid w r
        if converged o.tol prev cur then (.ok (z, inv), st)
        else loop wf e b o n (it + 1) r inv (some cur) st

/-- `m_estimate`, mestimator.py:177-245.  Without starting value `b.dot(None)` raises TypeError. -/
def mEstimate (e : List 𝕜) (b : List (Fin q → 𝕜)) (z0 : Option (Fin q → 𝕜)) (wf : Option (WFun σ 𝕜 q))
    (inv : List ℕ) (o : Opts) (st : σ) : Except Err ((Fin q → 𝕜) × List ℕ) × σ :=
  match wf with
  | none =>
    if inv.any (fun i => decide (e.length ≤ i)) then (.error .index, st)
    else
      let w := if inv.length = 0 then none else some (zeroAt (List.replicate e.length (.fin 1)) inv)
      match wlse e b w with
      | .error x => (.error x, st)
      | .ok z => (.ok (z, inv), st)
  | some wf =>
    match z0 with
    | none => (.error .type, st)
    | some z => loop wf e b o o.maxit 0 (residual e b z) inv none st

/-- A sequence of weight functions: `None` or an object with its identity, under which its state is stored. -/
abbrev Weighting (σ : Type) (𝕜 : Type) (q : ℕ) := List (Option (ℕ × WFun σ 𝕜 q))

/-- One call with the object's own state, taken from and put back to the heap. -/
def callEstimate (e : List 𝕜) (b : List (Fin q → 𝕜)) (z : Option (Fin q → 𝕜)) (w : Option (ℕ × WFun σ 𝕜 q)) (o : Opts)
    (heap : ℕ → σ) : Except Err ((Fin q → 𝕜) × List ℕ) × (ℕ → σ) :=
  match w with
  | none => ((mEstimate (σ := Unit) e b z none [] o ()).1, heap)
  | some (i, wf) =>
    let r := mEstimate e b z (some wf) [] o (heap i)
    (r.1, Function.update heap i r.2)

/-- The loop of `chain_m_estimate`, mestimator.py:154-174; the pairs yielded after the first one. -/
def chainLoop (o : Opts) : Weighting σ 𝕜 q → List 𝕜 → List (Fin q → 𝕜) → Option (Fin q → 𝕜) → Option (List ℕ) →
    (ℕ → σ) → Except Err (List ((Fin q → 𝕜) × List ℕ)) × (ℕ → σ)
  | [], _, _, _, _, heap => (.ok [], heap)
  | w :: ws, e, b, z, ii, heap =>
    match eliminate e ii with
    | .error x => (.error x, heap)
    | .ok e =>
      match eliminate b ii with
      | .error x => (.error x, heap)
      | .ok b =>
        if e.length = 0 then (.error .value, heap)
        else match callEstimate e b z w o heap with
          | (.error x, heap) => (.error x, heap)
          | (.ok (z, ii), heap) =>
            match chainLoop o ws e b (some z) (some ii) heap with
            | (.error x, heap) => (.error x, heap)
            | (.ok l, heap) => (.ok ((z, ii) :: l), heap)

/-- The body of the loop of `transfer_function`, mestimator.py:109-114, for one output: the last estimate yielded
and the merged lists of invalid indices. -/
def oneOutput (o : Opts) (ws : Weighting σ 𝕜 q) (b : List (Fin q → 𝕜)) (line : List 𝕜) (z0 : Option (Fin q → 𝕜))
    (inv : List ℕ) (heap : ℕ → σ) : Except Err (Option (Fin q → 𝕜) × List ℕ) × (ℕ → σ) :=
  match chainLoop o ws line b z0 (some inv) heap with
  | (.error x, heap) => (.error x, heap)
  | (.ok l, heap) =>
    match mergeInvalid (inv :: l.map Prod.snd) with
    | .error x => (.error x, heap)
    | .ok m => (.ok (match l.getLast? with
        | none => z0
        | some p => some p.1, m), heap)

/-- The loop over the outputs, mestimator.py:109-114. -/
def outputsLoop (o : Opts) (ws : Weighting σ 𝕜 q) (b : List (Fin q → 𝕜)) :
    List (List 𝕜 × Option (Fin q → 𝕜) × List ℕ) → (ℕ → σ) → Except Err (List (Option (Fin q → 𝕜) × List ℕ)) × (ℕ → σ)
  | [], heap => (.ok [], heap)
  | (line, z0, inv) :: l, heap =>
    match oneOutput o ws b line z0 inv heap with
    | (.error x, heap) => (.error x, heap)
    | (.ok p, heap) =>
      match outputsLoop o ws b l heap with
      | (.error x, heap) => (.error x, heap)
      | (.ok ps, heap) => (.ok (p :: ps), heap)

/-- The argument `invalid_idx`: nothing, a flat sequence of integers, or one sequence per output. -/
inductive InvArg
  | none
  | flat (l : List ℕ)
  | each (l : List (List ℕ))

/-- The normalisation of `invalid_idx`, mestimator.py:91-94: `None` or an empty sequence becomes `[()] * P`, and
element 0 is inspected (IndexError if there is no output). -/
def InvArg.norm (P : ℕ) : InvArg → Except Err (List (List ℕ))
  | .none | .flat [] | .each [] => if P = 0 then .error .index else .ok (List.replicate P [])
  | .flat l => .ok (List.replicate P l)
  | .each l => .ok l

/-- `inputs.T` as rows. -/
def rowsOf (inputs : Fin q → List 𝕜) (N : ℕ) : List (Fin q → 𝕜) :=
  (List.range N).map (fun n : ℕ => fun j => (inputs j).getD n 0)

/-- `transfer_function`, mestimator.py:51-117: for each output the transfer row (`none` if there is no weight function
and no starting value) and the invalid indices.  Simplification: ragged inputs or outputs raise an AssertionError
(recent numpy already raises ValueError in `np.array`). -/
def transferFunction (outputs : List (List 𝕜)) (inputs : Fin q → List 𝕜) (ws : Weighting σ 𝕜 q)
    (init : Option (List (Fin q → 𝕜))) (inv : InvArg) (o : Opts) (heap : ℕ → σ) :
    Except Err (List (Option (Fin q → 𝕜) × List ℕ)) × (ℕ → σ) :=
  match inv.norm outputs.length with
  | .error x => (.error x, heap)
  | .ok inv =>
    match outputs with
    | [] => (.error .assertion, heap)
    | y :: _ =>
      if q = 0 ∨ (∃ j, (inputs j).length ≠ y.length) ∨ outputs.any (fun l => decide (l.length ≠ y.length)) then
        (.error .assertion, heap)
      else if inv.length ≠ outputs.length then (.error .assertion, heap)
      else
        let init := match init with
          | none => List.replicate outputs.length none
          | some l => l.map some
        if init.length ≠ outputs.length then (.error .assertion, heap)
        else outputsLoop o ws (rowsOf inputs y.length) (outputs.zip (init.zip inv)) heap

/-- `transfer_function` with `invalid_idx` a one-dimensional array of integers, mestimator.py:91-117.  Numpy scalars have
`__getitem__`, so that line 93 takes the array for a sequence of sequences; the first thing done with one of its elements is `len`,
which raises TypeError (mestimator.py:253 if there is a weight function, else :119). -/
def transferFunctionArray (outputs : List (List 𝕜)) (inputs : Fin q → List 𝕜) (ws : Weighting σ 𝕜 q)
    (init : Option (List (Fin q → 𝕜))) (inv : List ℕ) (o : Opts) (heap : ℕ → σ) :
    Except Err (List (Option (Fin q → 𝕜) × List ℕ)) × (ℕ → σ) :=
  if inv.isEmpty then transferFunction outputs inputs ws init .none o heap
  else
    match outputs with
    | [] => (.error .assertion, heap)
    | y :: _ =>
      if q = 0 ∨ (∃ j, (inputs j).length ≠ y.length) ∨ outputs.any (fun l => decide (l.length ≠ y.length)) then
        (.error .assertion, heap)
      else if inv.length ≠ outputs.length then (.error .assertion, heap)
      else if (match init with
          | none => outputs.length
          | some l => l.length) ≠ outputs.length then (.error .assertion, heap)
      else (.error .type, heap)

/-- `transfer_error`, mestimator.py:34-46, for one output.  `numpy.linalg.inv` raises on a singular matrix, see below; dividing by
zero gives an infinity or NaN. -/
def errorRow (b : List (Fin q → 𝕜)) (line : List 𝕜) (T : Fin q → 𝕜) (ninv : ℕ) : Fin q → Flt :=
  let n : ℝ := line.length
  let r := Flt.div (Flt.sqrt (.fin (n - q))) (.fin n)
  let nres := Real.sqrt ((residual line b T).map (fun x => ‖x‖ ^ 2)).sum
  -- `inputs.dot(inputs.conj().T)` is the transpose of `gram`
  fun j => Flt.mul (Flt.div (Flt.div (.fin nres) r) (.fin (n - ninv))) (.fin (Real.sqrt ‖(gram b none)ᵀ⁻¹ j j‖))

open Classical in
/-- `transfer_error`, mestimator.py:21-48. -/
def transferError (outputs : List (List 𝕜)) (inputs : Fin q → List 𝕜) (transfer : List (Fin q → 𝕜))
    (inv : List (List ℕ)) : Except Err (List (Fin q → Flt)) :=
  match outputs with
  | [] => .error .assertion
  | y :: _ =>
    if q = 0 ∨ (∃ j, (inputs j).length ≠ y.length) ∨ outputs.any (fun l => decide (l.length ≠ y.length)) then
      .error .assertion
    else if inv.length ≠ outputs.length then .error .assertion
    else
      let b := rowsOf inputs y.length
      if (gram b none)ᵀ.det = 0 then .error .linAlg
      else .ok ((outputs.zip (transfer.zip inv)).map (fun t => errorRow b t.1 t.2.1 t.2.2.length))

end

end Razorback.MEst
