/-
Specification vocabulary for inventories.
-/
import Verif.Model.Inventory
import Verif.Spec.Merge
import Verif.Spec.Consecutive

namespace Razorback.Spec
open Razorback
variable {α κ : Type _}

/-- An enumeration order lists every element of the set exactly once. -/
structure SetOrder.OK (o : SetOrder) : Prop where
  names : ∀ l, (o.names l).Perm l
  rates : ∀ l, (o.rates l).Perm l

/-- Operations that change an inventory in place. -/
inductive InvOp (α κ : Type _)
  | append (x : InvObj α κ)
  | extend (l : List (InvObj α κ))

/-- The signal sets before the first object that is not one. -/
def validPrefix : List (InvObj α κ) → List (SigSet α κ)
  | .set S :: l => S :: validPrefix l
  | _ => []

/-- What an operation is expected to add. -/
def InvOp.added : InvOp α κ → List (SigSet α κ)
  | .append x => validPrefix [x]
  | .extend l => validPrefix l

/-- One operation on the real object, whatever exception it raises. -/
def InvOp.apply (I : Inventory α κ) : InvOp α κ → Inventory α κ × Option Err
  | .append x => I.append x
  | .extend l => I.extend l

/-- A name among the tags of a set. -/
def HasTag (S : SigSet α κ) (k : String) : Prop := ∃ v, S.tags.getItem k = .ok v

/-- A name that matches one of the shell patterns. -/
def MatchesOne (patterns : List String) (k : String) : Prop := ∃ p ∈ patterns, Fnmatch.fnmatch k p = true

/-- Every channel designated in `S` is, with its calibration and the times of its samples, part of a channel
designated by the same tag position in a run with the same rate of one of the sets `src`; and every run of `S`
has the rate of a run of `src` and starts on its sampling grid. -/
structure Traced (src : List (SigSet α κ)) (S : SigSet α κ) : Prop where
  rate : ∀ r ∈ S.runs, ∃ T ∈ src, ∃ s ∈ T.runs, s.rate = r.rate ∧ ∃ i : Nat, r.start = sampleTime s.rate s.start i
  chan : ∀ r ∈ S.runs, ∀ k j c, designated S.tags r k j = some c →
    ∃ T ∈ src, ∃ s ∈ T.runs, s.rate = r.rate ∧ ∃ c', designated T.tags s k j = some c' ∧
      c.1.Sublist c'.1 ∧ c.2 = c'.2

/-- What the packing theorems ask of the signal sets of an inventory: obtained by the public operations, no tag
named like an attribute of the implementation, positive rates, at least two samples per run. -/
structure Regular [One κ] (S : SigSet α κ) : Prop where
  reach : Reach S
  plain : Plain S.tags
  rate : ∀ r ∈ S.runs, 0 < r.rate
  size : ∀ r ∈ S.runs, 2 ≤ r.size

/-- The recordings are synchronised: two runs with the same rate start a whole number of samples apart. -/
def Synchronised (I : List (SigSet α κ)) : Prop :=
  ∀ S ∈ I, ∀ s ∈ S.runs, ∀ S' ∈ I, ∀ s' ∈ S'.runs, s.rate = s'.rate → ∃ n : ℤ, (s.start - s'.start) * s.rate = n

/-- All the channels tag `k` designates in run `r`, in the order of the tag. -/
def tagChannels (t : Tags) (r : Sync α κ) (k : String) : List (Option (List (ℚ × α) × κ)) :=
  match t.getItem k with
  | .ok v => v.map (fun i => (channels r)[i]?)
  | .error _ => []

end Razorback.Spec
