/-
Specification vocabulary for weight functions, independent of the code's helpers.
-/
import Verif.Model.Weights
import Verif.Spec.MEst

namespace Razorback.Spec
open Razorback

/-- The entries that are not NaN. -/
def valid {β : Type _} (l : List (Option β)) : List β := l.filterMap id

/-- `m` is the median of `l`: in the list sorted increasingly, the middle element, or the mean of the two middle
ones. -/
def IsMedian (l : List ℝ) (m : ℝ) : Prop :=
  ∃ s : List ℝ, s.Perm l ∧ s.Pairwise (· ≤ ·) ∧
    ((∃ k : ℕ, s.length = 2 * k + 1 ∧ s[k]? = some m) ∨
      ∃ (k : ℕ) (u v : ℝ), s.length = 2 * (k + 1) ∧ s[k]? = some u ∧ s[k + 1]? = some v ∧ m = (u + v) / 2)

/-- `s` is the scale of the absolute values `x`: the median of the distances to the median, divided by 0.44845. -/
def IsScale (x : List ℝ) (s : ℝ) : Prop :=
  ∃ med dev, IsMedian x med ∧ IsMedian (x.map (fun v => |v - med|)) dev ∧ s = dev / 0.44845

section
variable {𝕜 : Type} [RCLike 𝕜] {q : ℕ} {σ : Type}

/-- The absolute values of the residuals that are not NaN. -/
noncomputable def sizes (r : List (Option 𝕜)) : List ℝ := (valid r).map (fun v => ‖v‖)

open scoped Matrix

/-- The leverage of sample `n` in a weighted least squares estimation with inputs `b` and weights `ws`: the predicted
output for this sample, if its output is one and all others are zero. -/
def IsLeverage (b : List (Fin q → 𝕜)) (ws : List ℝ) (n : ℕ) (h : ℝ) : Prop :=
  ∃ z r, NormalEq (obs ((List.range b.length).map (fun i => if i = n then 1 else 0)) b ws) z ∧ b[n]? = some r ∧
    r ⬝ᵥ z = (h : 𝕜)

/-- The factor by which a bounded influence step reduces a sample of relative leverage `y`. -/
noncomputable def influence (lower khi y : ℝ) : ℝ :=
  if y = 0 then 0
  else Real.exp (Real.exp (-khi ^ 2) - Real.exp (khi * (y - khi))) *
    Real.exp (Real.exp (-Real.log lower ^ 2) - Real.exp (Real.log lower * (Real.log y - Real.log lower)))

/-- What a bounded influence step remembers when iteration `it` comes, on `N` samples: the weights `bi` it gave and the
factors `hat` it has accumulated, all ones for iteration 0. -/
def Remembered (prev : Option Weights.Prev) (it N : ℕ) (bi hat : List ℝ) : Prop :=
  bi.length = N ∧ hat.length = N ∧
    ((it = 0 ∧ bi = List.replicate N 1 ∧ hat = List.replicate N 1) ∨
      (it ≠ 0 ∧ ∃ p, prev = some p ∧ p.it + 1 = it ∧ p.bi = some (bi.map Flt.fin) ∧ p.trace = .fin bi.sum ∧
        p.hat = some (hat.map Flt.fin)))

end

end Razorback.Spec
