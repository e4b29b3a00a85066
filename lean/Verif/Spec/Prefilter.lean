/-
Specification vocabulary for prefilters, independent of the code's helpers.
-/
import Verif.Model.Prefilter
import Verif.Spec.MEst

namespace Razorback.Spec
open Razorback

section
variable {𝕜 : Type} [RCLike 𝕜] {q : ℕ}

/-- A block of consecutive samples: outputs, inputs and the coefficient given to all its samples. -/
structure Block (𝕜 : Type) (q : ℕ) where
  x : List 𝕜
  y : List (Fin q → 𝕜)
  cod : Flt

/-- The samples of a block, with weight one. -/
def Block.obs (t : Block 𝕜 q) : List (Obs 𝕜 q) := Spec.obs t.x t.y (List.replicate t.x.length 1)

/-- Sum of squares of the outputs. -/
noncomputable def Block.energy (t : Block 𝕜 q) : ℝ := (t.x.map (fun v => ‖v‖ ^ 2)).sum

open scoped Matrix

/-- The coefficient is the coefficient of determination of the block: the root of the part of the energy of the outputs
explained by the least squares fit; NaN for outputs that are all zero. -/
def IsCod (t : Block 𝕜 q) : Prop :=
  Independent t.obs ∧ ∃ z, NormalEq t.obs z ∧
    ((t.energy = 0 ∧ t.cod = .nan) ∨ (t.energy ≠ 0 ∧ t.cod = .fin (Real.sqrt (1 - cost t.obs z / t.energy))))

/-- The blocks cut the samples `e`, `b`: in order, without rest; all but the last have `size` samples, the last has at
least `size` and less than `2 * size` samples, or is the only one if there are fewer than `size` samples. -/
structure Cut (size : ℕ) (e : List 𝕜) (b : List (Fin q → 𝕜)) (ts : List (Block 𝕜 q)) : Prop where
  outputs : e = ts.flatMap (·.x)
  inputs : b = ts.flatMap (·.y)
  aligned : ∀ t ∈ ts, t.x.length = t.y.length
  regular : ∀ t ∈ ts.dropLast, t.x.length = size
  last : ∃ t, ts.getLast? = some t ∧ t.x.length < 2 * size ∧ (t.x.length < size → ts.length = 1)

end

end Razorback.Spec
