/-
C102: two signal sets with the same content.
-/
import Verif.Spec.SigSet

namespace Razorback.Spec
open Razorback
variable {α κ : Type _}

/-- The two sets cannot be told apart by names: the same names, each for as many channels, and run by run the same clocks, the same
timed samples and the same calibrations under every name and position.  (The numbering of the channels may differ.) -/
structure SameSet (S T : SigSet α κ) : Prop where
  names : ∀ k n, (∃ v, S.tags.getItem k = .ok v ∧ v.length = n) ↔ ∃ v, T.tags.getItem k = .ok v ∧ v.length = n
  runs : List.Forall₂ (fun r r' => SameRun S.tags r T.tags r') S.runs T.runs

end Razorback.Spec
