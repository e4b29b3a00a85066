/-
Specification vocabulary for signals: what a run *is*, as timed samples.
-/
import Verif.Model.Sync

namespace Razorback.Spec
open Razorback
variable {α κ : Type _}

/-- Time of sample `i` of a recording that starts at `start` with `rate` samples per second. -/
def sampleTime (rate start : ℚ) (i : Nat) : ℚ := start + i / rate

/-- A channel as the list of its (time, value) pairs. -/
def timed (rate start : ℚ) (d : List α) : List (ℚ × α) :=
  d.zipIdx.map (fun p => (sampleTime rate start p.2, p.1))

/-- All channels of a signal as timed samples, each with its calibration. -/
def channels (s : Sync α κ) : List (List (ℚ × α) × κ) :=
  (s.data.map (timed s.rate s.start)).zip s.cals

/-- The samples of a timed channel inside the closed window `[a, b]`. -/
def inWindow (a b : ℚ) (c : List (ℚ × α)) : List (ℚ × α) :=
  c.filter (fun p => decide (a ≤ p.1) && decide (p.1 ≤ b))

/-- Well-formed signals: at least one channel, all of the announced size, one calibration each. -/
structure WF (s : Sync α κ) : Prop where
  nonempty : s.data ≠ []
  cals : s.cals.length = s.data.length
  rect : ∀ d ∈ s.data, d.length = s.size

/-- Time of the last sample of a (positive rate, non-empty) signal. -/
def lastTime (s : Sync α κ) : ℚ := s.start + ((s.size : ℚ) - 1) / s.rate

end Razorback.Spec
