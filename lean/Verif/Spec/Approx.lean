/-
The Fourier coefficients of a signal set in physical units, on given windows, without rounding.
-/
import Verif.Spec.Fourier
import Verif.Spec.Units

namespace Razorback.Spec
open Razorback

variable {κ : Type}

/-- Coefficients of channel `i` of a run in physical units.  `d`: the number of windows, their length and the number of samples from one to
the next. -/
noncomputable def runCoeffs (cal : κ → ℚ → Option ℂ) (freq : ℚ) (win : Fourier.Win) (s : Sync ℂ κ) (d : ℕ × ℕ × ℕ) (i : ℕ) : List ℂ :=
  (List.range d.1).map (fun m => fourierAt (freq / s.rate) d.2.1 (win.eval d.2.1) ((List.range s.size).map (physical cal freq s i)) (m * d.2.2))

/-- Coefficients of channel `i` of all the runs, one after the other. -/
noncomputable def exactCoeffs (cal : κ → ℚ → Option ℂ) (freq : ℚ) (win : Fourier.Win) (runs : List (Sync ℂ κ)) (ds : List (ℕ × ℕ × ℕ)) (i : ℕ) : List ℂ :=
  ((runs.zip ds).map (fun p => runCoeffs cal freq win p.1 p.2 i)).flatten

end Razorback.Spec
