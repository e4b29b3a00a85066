/-
C103: what an estimation looks at in a signal set.
-/
import Mathlib.Data.Complex.Basic
import Verif.Spec.SigSet

namespace Razorback.Spec
open Razorback
variable {α κ : Type _}

/-- The two sets cannot be told apart by the given names: each is in both or in none, for as many channels, and run by run the clocks,
and the timed samples and the calibrations under these names, are the same. -/
structure SameFor (ks : List String) (S T : SigSet α κ) : Prop where
  names : ∀ k ∈ ks, ∀ n, (∃ v, S.tags.getItem k = .ok v ∧ v.length = n) ↔ ∃ v, T.tags.getItem k = .ok v ∧ v.length = n
  runs : List.Forall₂ (fun r r' => clock r = clock r' ∧ ∀ k ∈ ks, ∀ j, designated S.tags r k j = designated T.tags r' k j) S.runs T.runs

/-- Run by run, the calibrations of all the channels of one set have a value at a frequency if and only if those of the other have. -/
def SameKnown (cal : κ → ℚ → Option ℂ) (f : ℚ) (S T : SigSet α κ) : Prop :=
  List.Forall₂ (fun r r' : Sync α κ => (∀ k ∈ r.cals, cal k f ≠ none) ↔ ∀ k ∈ r'.cals, cal k f ≠ none) S.runs T.runs

end Razorback.Spec
