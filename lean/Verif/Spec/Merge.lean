/-
Specification vocabulary for `merge`.
-/
import Verif.Spec.Extract

namespace Razorback.Spec
open Razorback
variable {α κ : Type _}

/-- One run per operand. -/
def Choice (c : List (Sync α κ)) (seqs : List (SigSet α κ)) : Prop :=
  List.Forall₂ (fun s S => s ∈ S.runs) c seqs

/-- `[a, b]` is the intersection of the time intervals of the runs of `c`, and it has a non-empty interior:
`a` is the latest start, `b` the earliest end. -/
structure Overlap (c : List (Sync α κ)) (a b : ℚ) : Prop where
  lo : ∃ s ∈ c, s.start = a
  lo_le : ∀ s ∈ c, s.start ≤ a
  hi : ∃ s ∈ c, lastTime s = b
  le_hi : ∀ s ∈ c, b ≤ lastTime s
  lt : a < b

/-- All the runs of `c` have rate `rate`. -/
def SameRate (c : List (Sync α κ)) (rate : ℚ) : Prop := ∀ s ∈ c, s.rate = rate

/-- Run `s` has a sample at time `t`. -/
def SampledAt (s : Sync α κ) (t : ℚ) : Prop := ∃ i, i < s.size ∧ sampleTime s.rate s.start i = t

/-- A channel restricted to the times satisfying `P`. -/
def cutChannel (P : ℚ → Bool) (c : List (ℚ × α) × κ) : List (ℚ × α) × κ := (c.1.filter (fun p => P p.1), c.2)

/-- `r` is the merged run of the choice `c` with overlap `[a, b]`: it starts at `a`, has the common rate, and its
channels are those of the runs of `c`, in order, each restricted to the samples in `[a, b]` with their times
and calibration. -/
structure Merged (r : Sync α κ) (c : List (Sync α κ)) (a b : ℚ) : Prop where
  start : r.start = a
  rate : SameRate c r.rate
  channels : channels r = c.flatMap (fun s => (channels s).map (cutChannel (window a b)))

end Razorback.Spec
