/-
Specification for C67-C69: numpy indexing, and the array a file holds.
-/
import Mathlib.Data.Rat.Floor

namespace Razorback.Spec

/-- Where a bound of a slice falls: counted from the end if negative, then brought into `[lo, hi]`. -/
def sliceBound (dim : Nat) (default lo hi : Int) (i : Option Int) : Int :=
  match i with
  | none => default
  | some i => max lo (min hi (if i < 0 then i + dim else i))

/-- The positions `start:stop:step` selects among `0, .., dim - 1`, in order. -/
def slicePositions (dim : Nat) (start stop : Option Int) (step : Int) : List Nat :=
  if 0 < step then
    let a := sliceBound dim 0 0 dim start
    let b := sliceBound dim dim 0 dim stop
    (List.range dim).filter (fun p : Nat => a ≤ p ∧ p < b ∧ (p - a) % step = 0)
  else
    let a := sliceBound dim (dim - 1) (-1) (dim - 1) start
    let b := sliceBound dim (-1) (-1) (dim - 1) stop
    ((List.range dim).filter (fun p : Nat => b < p ∧ p ≤ a ∧ (a - p) % (-step) = 0)).reverse

/-- The position an integer selects. -/
def intPosition (dim : Nat) (i : Int) : Option Nat :=
  if 0 ≤ i ∧ i < dim then some i.toNat
  else if i < 0 ∧ 0 ≤ i + dim then some (i + dim).toNat
  else none

/-- `size` items of `w` bytes from position `offset`. -/
def items {ν : Type _} (w : Nat) (dec : List UInt8 → ν) (bytes : List UInt8) (offset size : Nat) : List ν :=
  (List.range size).map (fun i => dec ((bytes.drop (offset + w * i)).take w))

/-- The elements at some positions. -/
def pick {ν : Type _} (l : List ν) (positions : List Nat) : List ν := positions.filterMap (fun p => l[p]?)

end Razorback.Spec
