/-
C99: when the channels of a set can be renumbered after another `Tags`.
-/
import Verif.Spec.SigSet

namespace Razorback.Spec
open Razorback

/-- The channels called by names in `t'` can be called by the same names in `t`: the names are the same, each with as many
channels, and what is one channel in `t` is one channel in `t'`. -/
def Renumbers (t t' : Tags) : Prop :=
  (∀ k, (∃ v, t.getItem k = .ok v) ↔ ∃ w, t'.getItem k = .ok w) ∧
  (∀ k v w, t.getItem k = .ok v → t'.getItem k = .ok w → v.length = w.length) ∧
  ∀ k v w k' v' w' (j j' c : ℕ), t.getItem k = .ok v → t'.getItem k = .ok w → t.getItem k' = .ok v' → t'.getItem k' = .ok w' →
    v[j]? = some c → v'[j']? = some c → w[j]? = w'[j']?

/-- Each of the first `n` channels has a name in `t`. -/
def AllTagged (t : Tags) (n : ℕ) : Prop := ∀ c < n, ∃ k v, t.getItem k = .ok v ∧ c ∈ v

end Razorback.Spec
