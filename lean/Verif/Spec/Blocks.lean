/-
Specification vocabulary: consecutive samples of a run.
-/
import Verif.Spec.Merge

namespace Razorback.Spec
open Razorback
variable {α κ : Type _}

/-- Run `r` consists of consecutive samples of run `s`, the same ones on every channel, with the channels, the
calibrations and the sampling rate of `s`. -/
def SampleBlock (s r : Sync α κ) : Prop :=
  ∃ k m, k + m ≤ s.size ∧ r.size = m ∧ r.data = s.data.map (fun d => (d.drop k).take m) ∧ r.cals = s.cals ∧
    r.rate = s.rate

/-- Run `r` has side by side the channels of the runs `bs`, which have the same clock. -/
structure SideBySide (r : Sync α κ) (bs : List (Sync α κ)) : Prop where
  data : r.data = bs.flatMap (fun b => b.data)
  cals : r.cals = bs.flatMap (fun b => b.cals)
  clock : ∀ b ∈ bs, b.rate = r.rate ∧ b.start = r.start ∧ b.size = r.size

end Razorback.Spec

namespace Razorback.Spec
open Razorback
variable {α κ : Type _}

/-- Run `r` is run `s` restricted to the window `[a, b]` up to half a sample period: consecutive samples of `s`, all of
them in the window enlarged by half a period, among them all those that are in the window shortened by half a period (the last
sample of `s` may be missing), and the start of `r` is the time of the first of them up to half a period. -/
def Near (a b : ℚ) (s r : Sync α κ) : Prop :=
  ∃ k j : Nat, k ≤ s.size ∧ j ≤ s.size ∧ r.data = s.data.map (fun d => (d.drop k).take (j - k)) ∧ r.size = j - k ∧
    r.cals = s.cals ∧ r.rate = s.rate ∧ |r.start - sampleTime s.rate s.start k| ≤ 1 / (2 * s.rate) ∧
    (1 < r.size → ∀ i, k ≤ i → i < j → a - 1 / (2 * s.rate) ≤ sampleTime s.rate s.start i ∧
      sampleTime s.rate s.start i ≤ b + 1 / (2 * s.rate)) ∧
    ∀ i, i + 1 < s.size → a + 1 / (2 * s.rate) ≤ sampleTime s.rate s.start i →
      sampleTime s.rate s.start i ≤ b - 1 / (2 * s.rate) → k ≤ i ∧ i < j

end Razorback.Spec
