/-
Specification vocabulary for time extraction.
-/
import Verif.Spec.SigSet

namespace Razorback.Spec
open Razorback
variable {α κ : Type _}

/-- Number of samples of run `s` whose time satisfies `P`. -/
def countIn (P : ℚ → Bool) (s : Sync α κ) : Nat :=
  ((List.range s.size).filter (fun i => P (sampleTime s.rate s.start i))).length

/-- `r` is the part of run `s` at the times satisfying `P`: same rate, and on every channel exactly the
samples at those times, with their times and the calibration of the channel. -/
structure Piece (P : ℚ → Bool) (r s : Sync α κ) : Prop where
  rate : r.rate = s.rate
  channels : channels r = (channels s).map (fun c => (c.1.filter (fun p => P p.1), c.2))

/-- Runs of `l` with at least two samples at the times satisfying `P`. -/
def keepers (P : ℚ → Bool) (l : List (Sync α κ)) : List (Sync α κ) :=
  l.filter (fun s => decide (2 ≤ countIn P s))

/-- The closed window `[a, b]`. -/
def window (a b : ℚ) (t : ℚ) : Bool := decide (a ≤ t) && decide (t ≤ b)

end Razorback.Spec
