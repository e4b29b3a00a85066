/-
Specification vocabulary for the selection of channels and runs.
-/
import Verif.Spec.SigSet

namespace Razorback.Spec
open Razorback

/-- Python's rule for slices `[a:b:c]` on a sequence of length `n` (language reference, "sequence types"):
position `i` is selected. Negative bounds count from the end. -/
def InSlice (n : Nat) (a b c : Option Int) (i : Nat) : Prop :=
  let k := c.getD 1
  let norm := fun x : Int => if x < 0 then x + n else x
  i < n ∧
  (0 < k → (∀ x, a = some x → norm x ≤ i) ∧ (∀ x, b = some x → (i : Int) < norm x) ∧
    k ∣ (i : Int) - max 0 (norm (a.getD 0))) ∧
  (k < 0 → (∀ x, a = some x → (i : Int) ≤ norm x) ∧ (∀ x, b = some x → norm x < (i : Int)) ∧
    k ∣ min ((n : Int) - 1) (norm (a.getD (n - 1))) - (i : Int))

/-- A channel identifier that exists in a set with tags `t` and `n` channels. -/
def Known (t : Tags) (n : Nat) : ChanId → Prop
  | .name k => ∃ v, t.getItem k = .ok v
  | .idx i => 0 ≤ i ∧ i < n

/-- Channel `i` is designated by the identifier. -/
def Desig (t : Tags) : ChanId → Nat → Prop
  | .name k, i => ∃ v, t.getItem k = .ok v ∧ i ∈ v
  | .idx j, i => j = i

/-- The argument of `select_channels` only contains existing identifiers (a slice has a non-zero step). -/
def SelKnown (t : Tags) (n : Nat) : ChanSel → Prop
  | .one c => Known t n c
  | .many l => ∀ c ∈ l, Known t n c
  | .slice _ _ c => c ≠ some 0

/-- Channel `i` is designated by the argument of `select_channels`. -/
def SelDesig (t : Tags) (n : Nat) : ChanSel → Nat → Prop
  | .one c, i => Desig t c i
  | .many l, i => ∃ c ∈ l, Desig t c i
  | .slice a b c, i => InSlice n a b c i

/-- A run index that numpy accepts on `n` runs. -/
def RunOK (n : Nat) : RunIdx → Prop
  | .int j => -(n : Int) ≤ j ∧ j < n
  | .list l => ∀ j ∈ l, -(n : Int) ≤ j ∧ j < n
  | .slice _ _ c => c ≠ some 0
  | .mask m => m.length = n

/-- Integer `j` designates position `i` of `n`: directly or from the end. -/
def At (n : Nat) (j : Int) (i : Nat) : Prop := i < n ∧ (j = i ∨ j = (i : Int) - n)

/-- Run `i` (of `n`) is designated by the index. -/
def RunPick (n : Nat) : RunIdx → Nat → Prop
  | .int j, i => At n j i
  | .list l, i => ∃ j ∈ l, At n j i
  | .slice a b c, i => InSlice n a b c i
  | .mask m, i => m[i]? = some true

end Razorback.Spec
