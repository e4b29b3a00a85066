/-
Specification vocabulary for merging consecutive runs.
-/
import Verif.Spec.SigSet

namespace Razorback.Spec
open Razorback
variable {α κ : Type _}

/-- Time between the last sample of a run and the first sample of the next one. -/
def gap (a b : Sync α κ) : ℚ := b.start - lastTime a

/-- Run `b` continues run `a`: same rate, and the gap is one sample period, with the default tolerances of
`numpy.isclose(1/rate, gap)`: 1e-8 absolute plus 1e-5 of the gap. -/
def Continues (a b : Sync α κ) : Prop :=
  a.rate = b.rate ∧ |1 / a.rate - gap a b| ≤ 1 / 10 ^ 8 + 1 / 10 ^ 5 * |gap a b|

/-- The same gap when times are computed with roundings. -/
def gapAs [Rnd] (a b : Sync α κ) : ℚ := Rnd.rnd (b.start - Rnd.rnd (a.start + Rnd.rnd (Rnd.rnd ((a.size : ℚ) - 1) / a.rate)))

/-- Run `b` continues run `a`, as computed with roundings. -/
def ContinuesAs [Rnd] (a b : Sync α κ) : Prop :=
  a.rate = b.rate ∧ |Rnd.rnd (Rnd.rnd (1 / a.rate) - gapAs a b)| ≤ Rnd.rnd (Rnd.rnd (1 / 10 ^ 8) + Rnd.rnd (Rnd.rnd (1 / 10 ^ 5) * |gapAs a b|))

/-- `gs` cuts the sequence `l` into its maximal chains of runs in relation `R` with the previous one. -/
structure ChainsBy (R : Sync α κ → Sync α κ → Prop) (gs : List (List (Sync α κ))) (l : List (Sync α κ)) : Prop where
  all : gs.flatten = l
  nonempty : [] ∉ gs
  chain : ∀ g ∈ gs, g.IsChain R
  maximal : gs.IsChain (fun g g' => ∀ a ∈ g.getLast?, ∀ b ∈ g'.head?, ¬ R a b)

/-- `gs` cuts the sequence `l` into its maximal chains of continuing runs. -/
abbrev Chains (gs : List (List (Sync α κ))) (l : List (Sync α κ)) : Prop := ChainsBy Continues gs l

/-- Run `r` is the concatenation of the runs `g`: clock and calibrations of the first one, and the samples of
all of them, channel by channel. -/
structure Fused (r : Sync α κ) (g : List (Sync α κ)) : Prop where
  rate : ∀ a ∈ g.head?, r.rate = a.rate
  start : ∀ a ∈ g.head?, r.start = a.start
  cals : ∀ a ∈ g.head?, r.cals = a.cals
  size : r.size = (g.map (fun a => a.size)).sum
  count : ∀ a ∈ g, r.data.length = a.data.length
  data : ∀ c : Nat, (r.data[c]?).getD [] = g.flatMap (fun a => (a.data[c]?).getD [])

/-- All samples of channel `c`, run after run. -/
def samplesOf (runs : List (Sync α κ)) (c : Nat) : List α := runs.flatMap (fun a => (a.data[c]?).getD [])

/-- How much the gaps of a chain differ from a sample period, all together. -/
def mismatch : List (Sync α κ) → ℚ
  | a :: b :: l => |gap a b - 1 / a.rate| + mismatch (b :: l)
  | _ => 0

end Razorback.Spec
