/-
Signals recorded otherwise: other values for the samples, other calibrations, another origin and another unit for times.
-/
import Verif.Model.Inventory

namespace Razorback.Spec

/-- A way of recording signals otherwise: a sample `x` becomes `value x`, a calibration `c` becomes `cal c`, a time `t`
becomes `unit * t + origin` and so a sampling rate `r` becomes `r / unit`. -/
structure Recode (α β κ κ' : Type _) where
  value : α → β
  cal : κ → κ'
  unit : ℚ
  origin : ℚ

namespace Recode
variable {α β κ κ' : Type _} (k : Recode α β κ κ')

/-- A time with the other origin and unit. -/
def time (t : ℚ) : ℚ := k.unit * t + k.origin

/-- A rate (or a frequency) with the other unit. -/
def rate (r : ℚ) : ℚ := r / k.unit

/-- A synchronous signal recorded otherwise. -/
def sync (s : Sync α κ) : Sync β κ' :=
  ⟨s.data.map (fun y => y.map k.value), s.cals.map k.cal, k.rate s.rate, k.time s.start, s.size⟩

/-- A signal set recorded otherwise: each run, under the same tags. -/
def set (S : SigSet α κ) : SigSet β κ' := ⟨S.runs.map k.sync, S.tags⟩

/-- An argument of `SignalSet` or `join` recorded otherwise. -/
def arg : SigArg α κ → SigArg β κ'
  | .sync s => .sync (k.sync s)
  | .set S => .set (k.set S)

/-- An inventory recorded otherwise. -/
def inventory (I : Inventory α κ) : Inventory β κ' := I.map k.set

/-- Times keep their order, and the default calibration stays the default one. -/
structure Proper [One κ] [One κ'] : Prop where
  pos : 0 < k.unit
  one : k.cal 1 = 1

end Recode

/-- A signal set without the values of its samples: tags, clocks, calibrations and numbers of samples. -/
def shape {α κ : Type _} (S : SigSet α κ) : SigSet Unit κ :=
  ⟨S.runs.map (fun s => ⟨s.data.map (fun y => List.replicate y.length ()), s.cals, s.rate, s.start, s.size⟩), S.tags⟩

end Razorback.Spec
