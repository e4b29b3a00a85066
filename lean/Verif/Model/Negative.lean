/-
Model of `transfer_function` with invalid indices that may be negative: numpy counts them from the end.  Only the indices given by the
caller can be: those found later are natural numbers.
-/
import Verif.Model.MEst

namespace Razorback.MEst

/-- The position meant by a possibly negative index of a sequence of length `n`. -/
def wrap (n : ℕ) (i : ℤ) : ℕ := (if i < 0 then n + i else i).toNat

/-- `np.delete(arr, idx, axis=0)` with possibly negative indices: below `-n` or not below `n` raises IndexError. -/
def deleteZ {β : Type _} (l : List β) (idx : List ℤ) : Except Err (List β) :=
  if idx.any (fun i => decide (i < -(l.length : ℤ))) then .error .index else delete l (idx.map (wrap l.length))

/-- `eliminate`, mestimator.py:258-262. -/
def eliminateZ {β : Type _} (l : List β) (idx : List ℤ) : Except Err (List β) :=
  if idx.length = 0 then .ok l else deleteZ l idx

/-- `max(it) if len(it) else 0`, mestimator.py:121. -/
def maxZ : List ℤ → ℤ
  | [] => 0
  | a :: l => l.foldl max a

/-- `merge_invalid_indices`, mestimator.py:120-126; `np.arange` of a negative number is empty. -/
def mergeInvalidZ (ls : List (List ℤ)) : Except Err (List ℕ) :=
  let n := ((ls.map maxZ).sum + ls.length).toNat
  match foldE deleteZ (List.range n) ls with
  | .error e => .error e
  | .ok keep => delete (List.range n) keep

noncomputable section

variable {𝕜 : Type} [RCLike 𝕜] {q : ℕ} {σ : Type}

/-- `chain_m_estimate`, mestimator.py:151-174, for invalid indices given by the caller: the first step of the loop eliminates them, the
rest is as in `chainLoop`. -/
def chainZ (o : Opts) (ws : Weighting σ 𝕜 q) (e : List 𝕜) (b : List (Fin q → 𝕜)) (z0 : Option (Fin q → 𝕜)) (inv : List ℤ)
    (heap : ℕ → σ) : Except Err (List ((Fin q → 𝕜) × List ℕ)) × (ℕ → σ) :=
  match ws with
  | [] => (.ok [], heap)
  | w :: ws =>
    match eliminateZ e inv with
    | .error x => (.error x, heap)
    | .ok e =>
      match eliminateZ b inv with
      | .error x => (.error x, heap)
      | .ok b => chainLoop o (w :: ws) e b z0 none heap

/-- The body of the loop of `transfer_function`, mestimator.py:109-114, for one output. -/
def oneOutputZ (o : Opts) (ws : Weighting σ 𝕜 q) (b : List (Fin q → 𝕜)) (line : List 𝕜) (z0 : Option (Fin q → 𝕜))
    (inv : List ℤ) (heap : ℕ → σ) : Except Err (Option (Fin q → 𝕜) × List ℕ) × (ℕ → σ) :=
  match chainZ o ws line b z0 inv heap with
  | (.error x, heap) => (.error x, heap)
  | (.ok l, heap) =>
    match mergeInvalidZ (inv :: l.map (fun p => p.2.map Int.ofNat)) with
    | .error x => (.error x, heap)
    | .ok m => (.ok (match l.getLast? with
        | none => z0
        | some p => some p.1, m), heap)

/-- The loop over the outputs, mestimator.py:109-114. -/
def outputsLoopZ (o : Opts) (ws : Weighting σ 𝕜 q) (b : List (Fin q → 𝕜)) :
    List (List 𝕜 × Option (Fin q → 𝕜) × List ℤ) → (ℕ → σ) → Except Err (List (Option (Fin q → 𝕜) × List ℕ)) × (ℕ → σ)
  | [], heap => (.ok [], heap)
  | (line, z0, inv) :: l, heap =>
    match oneOutputZ o ws b line z0 inv heap with
    | (.error x, heap) => (.error x, heap)
    | (.ok p, heap) =>
      match outputsLoopZ o ws b l heap with
      | (.error x, heap) => (.error x, heap)
      | (.ok ps, heap) => (.ok (p :: ps), heap)

/-- `transfer_function`, mestimator.py:51-117, with one sequence of invalid indices per output; with the simplification of
`transferFunction`. -/
def transferFunctionZ (outputs : List (List 𝕜)) (inputs : Fin q → List 𝕜) (ws : Weighting σ 𝕜 q)
    (init : Option (List (Fin q → 𝕜))) (inv : List (List ℤ)) (o : Opts) (heap : ℕ → σ) :
    Except Err (List (Option (Fin q → 𝕜) × List ℕ)) × (ℕ → σ) :=
  match (if inv = [] then if outputs.length = 0 then .error .index else .ok (List.replicate outputs.length []) else .ok inv :
      Except Err (List (List ℤ))) with
  | .error x => (.error x, heap)
  | .ok inv =>
    match outputs with
    | [] => (.error .assertion, heap)
    | y :: _ =>
      if q = 0 ∨ (∃ j, (inputs j).length ≠ y.length) ∨ outputs.any (fun l => decide (l.length ≠ y.length)) then
        (.error .assertion, heap)
      else if inv.length ≠ outputs.length then (.error .assertion, heap)
      else
        let init := match init with
          | none => List.replicate outputs.length none
          | some l => l.map some
        if init.length ≠ outputs.length then (.error .assertion, heap)
        else outputsLoopZ o ws (rowsOf inputs y.length) (outputs.zip (init.zip inv)) heap

end

end Razorback.MEst
