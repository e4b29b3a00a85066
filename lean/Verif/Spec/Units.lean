/-
Specification vocabulary for changes of units and of axes.
-/
import Verif.Model.Impedance
import Verif.Spec.MEst

namespace Razorback.Spec
open Razorback

section
variable {𝕜 : Type} [RCLike 𝕜] {q : ℕ} {σ : Type}

/-- The same call of a weight function in other units and axes: residuals and output are multiplied by `c`, and input
`j` is replaced by the combination of the inputs with the coefficients of row `j` of `A`. -/
def Call.change (c : 𝕜) (A : Matrix (Fin q) (Fin q) 𝕜) (k : Call 𝕜 q) : Call 𝕜 q :=
  ⟨k.it, k.r.map (fun v => v.map (fun v => c * v)), k.e.map (fun v => c * v), k.b.map (fun r j => ∑ i, A j i * r i), k.inv⟩

/-- A weight function ignores units and axes: from a call with iteration number 0 on, it gives the same in other units
of the output and for other axes of the inputs. -/
def UnitFree (wf : MEst.WFun σ 𝕜 q) : Prop :=
  ∀ (c : 𝕜) (A : Matrix (Fin q) (Fin q) 𝕜), c ≠ 0 → A.det ≠ 0 → ∀ (st st' : σ) (k : Call 𝕜 q) (l : List (Call 𝕜 q)),
    k.it = 0 → results wf st' ((k :: l).map (Call.change c A)) = results wf st (k :: l)

/-- A prefilter ignores units and axes. -/
def UnitFreePre (p : List 𝕜 → List (Fin q → 𝕜) → Except Err (List ℕ)) : Prop :=
  ∀ (c : 𝕜) (A : Matrix (Fin q) (Fin q) 𝕜), c ≠ 0 → A.det ≠ 0 → ∀ (e : List 𝕜) (b : List (Fin q → 𝕜)),
    p (e.map (fun v => c * v)) (b.map (fun r j => ∑ i, A j i * r i)) = p e b

/-- Input `j` of `inputs'` is the combination of the inputs, of `N` samples each, with row `j` of `A`. -/
def Mixed (A : Matrix (Fin q) (Fin q) 𝕜) (N : ℕ) (inputs inputs' : Fin q → List 𝕜) : Prop :=
  ∀ j, (inputs j).length = N ∧ (inputs' j).length = N ∧
    ∀ n < N, (inputs' j).getD n 0 = ∑ i, A j i * (inputs i).getD n 0

/-- The coefficients `z` of an output in other units, multiplied by `c`, for other axes of the inputs. -/
noncomputable def converted (c : 𝕜) (A : Matrix (Fin q) (Fin q) 𝕜) (z : Fin q → 𝕜) : Fin q → 𝕜 :=
  fun j => c * ∑ i, z i * A⁻¹ i j

end

/-- Sample `n` of channel `i` of a run divided by the value of its calibration at the frequency: in physical units.  Zero if
there is no such channel or sample. -/
noncomputable def physical {κ : Type} (cal : κ → ℚ → Option ℂ) (freq : ℚ) (s : Sync ℂ κ) (i n : ℕ) : ℂ :=
  (s.data.getD i []).getD n 0 / ((s.cals[i]?.bind (fun k => cal k freq)).getD 1)

/-- Two runs over the same samples: same clock, same length, same channels, and the calibrations of the one have values at
the frequency if and only if those of the other have. -/
structure SameClock {κ : Type} (cal : κ → ℚ → Option ℂ) (freq : ℚ) (s s' : Sync ℂ κ) : Prop where
  rate : s'.rate = s.rate
  start : s'.start = s.start
  size : s'.size = s.size
  chans : s'.data.length = s.data.length
  cals : (∀ k ∈ s.cals, cal k freq ≠ none) ↔ ∀ k ∈ s'.cals, cal k freq ≠ none

/-- The weight functions ignore units and axes, whatever the number of inputs. -/
def AllUnitFree {σ : Type} (ws : Impedance.Weights σ) : Prop := ∀ i wf, some (i, wf) ∈ ws → ∀ q, UnitFree (wf q)

/-- The prefilter, if there is one, ignores units and axes, whatever the number of inputs. -/
def PreUnitFree (pre : Option Impedance.Pre) : Prop := ∀ p, pre = some p → ∀ q, UnitFreePre (p q)

/-- Every entry multiplied by its own factor; NaN stays. -/
def rescale {β : Type} [Mul β] (f : ℕ → ℕ → β) (m : List (List (Option β))) : List (List (Option β)) :=
  m.mapIdx (fun i row => row.mapIdx (fun j x => x.map (fun v => f i j * v)))

/-- Every error multiplied by its own factor. -/
noncomputable def rescaleErrors (f : ℕ → ℕ → ℝ) (m : List (List Flt)) : List (List Flt) :=
  m.mapIdx (fun i row => row.mapIdx (fun j x => Flt.mul (.fin (f i j)) x))

/-- A result in other units: `u i` is the factor of channel `i`; the electric, magnetic and remote channels are `E`, `B`
and `R`. -/
noncomputable def inUnits (u : ℕ → ℂ) (E B R : List ℕ) (r : Impedance.Result) : Impedance.Result where
  impedance := rescale (fun i j => u (E.getD i 0) / u (B.getD j 0)) r.impedance
  invalidTime := r.invalidTime
  error := rescaleErrors (fun i j => ‖u (E.getD i 0)‖ / ‖u (B.getD j 0)‖) r.error
  transferMag := rescale (fun i j => u (B.getD i 0) / u (R.getD j 0)) r.transferMag

/-- The rows of `m'` are those of `m` for other axes, `A`, of the inputs. -/
def AxesChanged {q : ℕ} (A : Matrix (Fin q) (Fin q) ℂ) (m m' : List (List (Option ℂ))) : Prop :=
  m'.length = m.length ∧
    ∀ (i : ℕ) (z : Fin q → ℂ), m[i]? = some ((List.ofFn z).map some) → m'[i]? = some ((List.ofFn (converted 1 A z)).map some)

end Razorback.Spec
