/-
Specification vocabulary for the Fourier coefficients.
-/
import Mathlib.Analysis.SpecialFunctions.Trigonometric.Basic
import Verif.Model.Fourier

namespace Razorback.Spec

/-- Weight `j` of a window function, 1 everywhere without window function. -/
noncomputable def winAt (w : Option (List ℂ)) (j : ℕ) : ℂ :=
  match w with
  | none => 1
  | some w => w.getD j 0

/-- The Fourier coefficient, at normalised frequency `nf`, of the `L` samples of `y` from position `m`, weighted
by `w`: twice the mean of `y[m + j] w[j] exp(-2 i pi nf j)`. -/
noncomputable def fourierAt (nf : ℚ) (L : ℕ) (w : Option (List ℂ)) (y : List ℂ) (m : ℕ) : ℂ :=
  2 / (L : ℂ) * ∑ j ∈ Finset.range L,
    winAt w j * Complex.exp (-(2 * Real.pi * Complex.I * (nf : ℂ) * (j : ℂ))) * y.getD (m + j) 0

/-- The coefficients `raw` of channel `c` of run `s`, each divided by the calibration of this channel of this run at
the frequency. -/
noncomputable def calibrated {κ : Type _} (cal : κ → ℚ → Option ℂ) (freq : ℚ) (s : Sync ℂ κ) (raw : List (List ℂ))
    (c : ℕ) : List ℂ :=
  match s.cals[c]?.bind (fun k => cal k freq), raw[c]? with
  | some v, some l => l.map (fun z => z / v)
  | _, _ => []

/-- The value at `x` of the broken line through `(0, r 0), (1, r 1), ..., (n - 1, r (n - 1))`, constant after the
last point. -/
def brokenLine {K : Type _} [Field K] [LinearOrder K] [IsStrictOrderedRing K] [FloorRing K] (r : ℕ → K) (n : ℕ) (x : K) : K :=
  if ⌊x⌋₊ + 1 < n then r ⌊x⌋₊ + (x - ⌊x⌋₊) * (r (⌊x⌋₊ + 1) - r ⌊x⌋₊) else r (n - 1)

end Razorback.Spec
