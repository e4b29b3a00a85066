/-
Specification vocabulary for packing with rounded times.
-/
import Verif.Spec.Inventory

namespace Razorback.Spec
open Razorback
variable {α κ : Type _}

/-- `p` is made of consecutive sample values of a channel with calibration `cal`, designated by tag `k`, position `j` in a
run of rate `ρ` of one of the sets `src`. -/
def PieceOf (src : List (SigSet α κ)) (ρ : ℚ) (k : String) (j : Nat) (p : List α) (cal : κ) : Prop :=
  ∃ S ∈ src, ∃ s ∈ S.runs, s.rate = ρ ∧ ∃ c, designated S.tags s k j = some c ∧ p <:+: c.1.map Prod.snd ∧ c.2 = cal

end Razorback.Spec
