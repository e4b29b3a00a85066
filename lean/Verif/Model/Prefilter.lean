/-
Model of prefilters.py and of `apply_prefilter` in utils.py.
-/
import Mathlib.Data.Real.Sqrt
import Mathlib.Data.List.Sort
import Mathlib.Data.List.Dedup
import Verif.Model.MEst

namespace Razorback.Prefilter
open Razorback.MEst

/-- `breshape`, prefilters.py:29-31: the complete blocks of `size` consecutive items. -/
def breshape {β : Type _} (size : ℕ) (arr : List β) : List (List β) :=
  (List.range (arr.length / size)).map (fun i : ℕ => (arr.drop (i * size)).take size)

/-- `arr[-n:]` for positive `n`. -/
def lastN {β : Type _} (n : ℕ) (arr : List β) : List β := arr.drop (arr.length - n)

noncomputable section

variable {𝕜 : Type} [RCLike 𝕜] {q : ℕ}

/-- `np.sqrt(x)` -/
def sqrt : Flt → Flt
  | .fin r => if r < 0 then .nan else .fin (Real.sqrt r)
  | .pinf => .pinf
  | .ninf => .nan
  | .nan => .nan

/-- `norm2`, prefilters.py:45. -/
def norm2 (arr : List 𝕜) : ℝ := (arr.map (fun x => ‖x‖ ^ 2)).sum

open scoped Matrix
open Classical in
/-- `coeff_determination`, prefilters.py:39-47, for one block.  The two `einsum` of lines 41-42 are the unweighted
normal equations; `np.linalg.solve` raises LinAlgError on a singular matrix.  (As of numpy 1: numpy 2 would take the
stacked right hand sides for a matrix.) -/
def coeffDetermination (x : List 𝕜) (y : List (Fin q → 𝕜)) : Except Err Flt :=
  let A : Matrix (Fin q) (Fin q) 𝕜 := Matrix.of fun j k => (y.map (fun r => star (r j) * r k)).sum
  let b : Fin q → 𝕜 := fun j => (List.zipWith (fun r v => star (r j) * v) y x).sum
  if A.det = 0 then .error .linAlg
  else
    let z := A⁻¹ *ᵥ b
    let residual := List.zipWith (fun r v => r ⬝ᵥ z - v) y x
    .ok (sqrt (Flt.sub (.fin 1) (Flt.div (.fin (norm2 residual)) (.fin (norm2 x)))))

/-- `CoefficientOfDeterminationFilter.value`, prefilters.py:26-37.  `cod` starts as zeros; the complete blocks but the
last are written first, then the last `queue` entries.
Simplification: outputs and inputs of different lengths raise ValueError (numpy may broadcast or mix blocks). -/
def value (size : ℕ) (e : List 𝕜) (b : List (Fin q → 𝕜)) : Except Err (List Flt) :=
  if e.length ≠ b.length then .error .value
  else if size = 0 then .error .zeroDiv
  else
    let cod := List.replicate e.length (Flt.fin 0)
    let queue := size + e.length % size
    match mapE (fun p => coeffDetermination p.1 p.2) ((breshape size e).dropLast.zip (breshape size b).dropLast) with
    | .error x => .error x
    | .ok tmp =>
      let cod := tmp.flatMap (fun v => List.replicate size v) ++ cod.drop (tmp.length * size)
      match coeffDetermination (lastN queue e) (lastN queue b) with
      | .error x => .error x
      | .ok v => .ok (cod.take (cod.length - queue) ++ List.replicate (lastN queue cod).length v)

open Classical in
/-- `x < a` for a float `x`: false for NaN. -/
def below (x : Flt) (a : ℝ) : Bool :=
  match x with
  | .fin r => decide (r < a)
  | .ninf => true
  | _ => false

open Classical in
/-- `x > a` for a float `x`: false for NaN. -/
def above (x : Flt) (a : ℝ) : Bool :=
  match x with
  | .fin r => decide (a < r)
  | .pinf => true
  | _ => false

/-- `CoefficientOfDeterminationFilter.__call__`, prefilters.py:21-24. -/
def call (codMin codMax : ℝ) (size : ℕ) (e : List 𝕜) (b : List (Fin q → 𝕜)) : Except Err (List ℕ) :=
  match value size e b with
  | .error x => .error x
  | .ok cod => .ok ((cod.zipIdx.filter (fun p => below p.1 codMin || above p.1 codMax)).map Prod.snd)

end

/-- `np.union1d(a, b)` -/
def union1d (a b : List ℕ) : List ℕ := ((a ++ b).dedup).insertionSort (· ≤ ·)

/-- `apply_prefilter`, utils.py:376-392.  The inputs are already transposed; indices are natural numbers. -/
def applyPrefilter {α β : Type _} (outputs : List α) (inputs : β) (prefilter : Option (α → β → Except Err (List ℕ)))
    (inv : InvArg) : Except Err (List (List ℕ)) :=
  match inv.norm outputs.length with
  | .error x => .error x
  | .ok inv =>
    if inv.length ≠ outputs.length then .error .assertion
    else match prefilter with
      | none => .ok inv
      | some f => mapE (fun p => match f p.1 inputs with
        | .error x => .error x
        | .ok l => .ok (union1d p.2 l)) (outputs.zip inv)

end Razorback.Prefilter
