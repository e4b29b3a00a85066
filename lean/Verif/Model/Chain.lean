/-
Model of `chain_m_estimate` as the generator it is: every `next` runs one estimation to its end, and whatever else
the program does with the weight objects may happen between two of them.
-/
import Verif.Model.MEst

namespace Razorback.Chain
open Razorback Razorback.MEst

noncomputable section

variable {𝕜 : Type} [RCLike 𝕜] {q : ℕ} {σ : Type}

/-- A generator returned by `chain_m_estimate(e, b, weightings, z0, invalid_idx, ...)`, mestimator.py:128-174: not
started, suspended at a `yield` with step number `it` to come, or finished. -/
inductive Gen (σ 𝕜 : Type) (q : ℕ)
  | fresh (ws : Weighting σ 𝕜 q) (e : List 𝕜) (b : List (Fin q → 𝕜)) (z : Option (Fin q → 𝕜)) (ii : Option (List ℕ))
  | suspended (it : ℕ) (ws : Weighting σ 𝕜 q) (e : List 𝕜) (b : List (Fin q → 𝕜)) (z : Option (Fin q → 𝕜))
      (ii : Option (List ℕ))
  | finished

/-- What a `next` gives: a pair, StopIteration, or an exception, with the step number its message names, if any
(mestimator.py:158-163, 166-171). -/
inductive Event (𝕜 : Type) (q : ℕ)
  | yielded (z : Option (Fin q → 𝕜)) (ii : Option (List ℕ))
  | raised (x : Err) (step : Option ℕ)
  | stopped

/-- `next(gen)`, mestimator.py:149-174.  A generator that raised is finished.  `heap` holds the memories of the
weight objects. -/
def next (o : Opts) : Gen σ 𝕜 q → (ℕ → σ) → Event 𝕜 q × Gen σ 𝕜 q × (ℕ → σ)
  | .fresh ws e b z ii, heap => (.yielded z ii, .suspended 1 ws e b z ii, heap)
  | .finished, heap => (.stopped, .finished, heap)
  | .suspended _ [] _ _ _ _, heap => (.stopped, .finished, heap)
  | .suspended it (w :: ws) e b z ii, heap =>
    match eliminate e ii with
    | .error x => (.raised x none, .finished, heap)
    | .ok e =>
      match eliminate b ii with
      | .error x => (.raised x none, .finished, heap)
      | .ok b =>
        if e.length = 0 then (.raised .value (some it), .finished, heap)
        else match callEstimate e b z w o heap with
          | (.error .nonConv, heap) => (.raised .nonConv (some it), .finished, heap)
          | (.error x, heap) => (.raised x none, .finished, heap)
          | (.ok (z, ii), heap) => (.yielded (some z) (some ii), .suspended (it + 1) ws e b (some z) (some ii), heap)

/-- `n` calls of `next` on one generator, nothing else happening: what they give. -/
def alone (o : Opts) : ℕ → Gen σ 𝕜 q → (ℕ → σ) → List (Event 𝕜 q)
  | 0, _, _ => []
  | n + 1, g, heap => (next o g heap).1 :: alone o n (next o g heap).2.1 (next o g heap).2.2

/-- One of several estimations of a program, with its number of inputs and options. -/
structure Task (σ 𝕜 : Type) where
  q : ℕ
  o : Opts
  gen : Gen σ 𝕜 q

/-- What a program does: advance task `i`, or anything else that may change the memories of the weight objects (other
estimations with them, also failing or abandoned ones). -/
inductive Action (σ : Type)
  | advance (i : ℕ)
  | other (f : (ℕ → σ) → (ℕ → σ))

/-- The run of a program over several chains of estimations: the events, with the task they belong to. -/
def run : List (Action σ) → (ℕ → Task σ 𝕜) → (ℕ → σ) → List (ℕ × (Σ q, Event 𝕜 q))
  | [], _, _ => []
  | .other f :: l, g, heap => run l g (f heap)
  | .advance i :: l, g, heap =>
    let r := next (g i).o (g i).gen heap
    (i, ⟨(g i).q, r.1⟩) :: run l (Function.update g i ⟨(g i).q, (g i).o, r.2.1⟩) r.2.2

end

end Razorback.Chain
