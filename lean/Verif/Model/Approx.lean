/-
Floating point arithmetic on samples and coefficients: `time_to_freq` (fourier_transform.py) and least squares
(mestimator.py), where every elementary operation may be off by a relative error of at most `u`.
A program is here a relation between its arguments and its possible results, so that nothing is supposed of the order
in which numpy, dask and BLAS add, nor of fused operations; operations without error are included.
Simplifications: no overflow, no underflow, no NaN.  (Double precision: `u = 2^-53` for real numbers; a product of complex
numbers is off by at most `sqrt 5 * 2^-53`, and sine and cosine by a small multiple of `2^-53`.)
-/
import Mathlib.Analysis.RCLike.Basic
import Mathlib.Analysis.Matrix.Normed
import Verif.Model.Fourier
import Verif.Model.MEst
import Verif.Model.Impedance

namespace Razorback.Approx
open Razorback Razorback.Fourier Razorback.MEst

section
variable {𝕜 : Type} [RCLike 𝕜]

/-- `y` is a possible result of an operation whose exact result is `x` (no function of razorback: this is the standard
model of floating point arithmetic). -/
def Near (u : ℝ) (x y : 𝕜) : Prop := ‖y - x‖ ≤ u * ‖x‖

/-- `y` is a possible sum of the numbers of a list, added in any order and any grouping (`np.dot`, `da.dot`: arrays are
cut into blocks).  Adding zero is exact, so that no operation has an empty operand. -/
inductive FSum (u : ℝ) : List 𝕜 → 𝕜 → Prop
  | nil : FSum u [] 0
  | one (x : 𝕜) : FSum u [x] x
  | add {l l₁ l₂ : List 𝕜} {a b c : 𝕜} (hp : l.Perm (l₁ ++ l₂)) (h₁ : l₁ ≠ []) (h₂ : l₂ ≠ []) (ha : FSum u l₁ a) (hb : FSum u l₂ b)
      (hc : Near u (a + b) c) : FSum u l c

/-- `c` is a possible dot product of `x` and `y`. -/
def FDot (u : ℝ) (x y : List 𝕜) (c : 𝕜) : Prop :=
  ∃ p, List.Forall₂ (Near u) (List.zipWith (· * ·) x y) p ∧ FSum u p c

end

section fourier
variable [Rnd]

/-- Element `j` of the vector `x` of `time_to_freq`, fourier_transform.py:72-75, given `pulsation` and `2/Lw`:
`np.exp((-1j * pulsation) * j) * (2/Lw)`, times the value `w` of the window function if there is one. -/
def FElem (u pulsation scale : ℝ) (j : ℕ) (w : Option ℂ) (x : ℂ) : Prop :=
  ∃ (a : ℝ) (e x0 : ℂ), Near u (pulsation * j) a ∧ Near u (Complex.exp (-Complex.I * a)) e ∧ Near u (e * scale) x0 ∧
    match w with
    | none => x = x0
    | some w => Near u (x0 * w) x

/-- The vector `x` of `time_to_freq`, fourier_transform.py:71-75; `nf` is already rounded. -/
def FKernel (u : ℝ) (nf : ℚ) (L : ℕ) (w : Option (List ℂ)) (x : List ℂ) : Prop :=
  ∃ twoPi pulsation scale : ℝ, Near u (2 * Real.pi) twoPi ∧ Near u (twoPi * nf) pulsation ∧ Near u (2 / (L : ℝ)) scale ∧
    x.length = L ∧ ∀ (j : ℕ) v, x[j]? = some v → FElem u pulsation scale j (w.map (fun w => w.getD j 0)) v

/-- `time_to_freq`, fourier_transform.py:24-84: a possible result that is no exception.  The parameters of the windows are
computed with the rounding `Rnd`, as in `discreteWindow`. -/
def FTimeToFreq (u : ℝ) (data : List (List ℂ)) (fs freq nper overlap : ℚ) (win : Win) (res : List (List ℂ)) (d : ℕ × ℕ × ℕ) : Prop :=
  ∃ (N n L shift : ℕ) (x : List ℂ), commonLength data = some N ∧
    discreteWindow N (Rnd.rnd (freq / fs)) nper overlap = .ok (n, L, shift) ∧
    (∀ w, win.eval L = some w → w.length = L) ∧ FKernel u (Rnd.rnd (freq / fs)) L (win.eval L) x ∧
    List.Forall₂ (fun y r => List.Forall₂ (FDot u x) (strided (slidingView y L) shift) r) data res ∧
    ∃ Nw, commonLength res = some Nw ∧ d = (Nw, L, shift)

end fourier

section leastSquares
variable {𝕜 : Type} [RCLike 𝕜] {q : ℕ}
open scoped Matrix Matrix.Norms.Operator

/-- `dotdiag(weight, x)`, mestimator.py:270-281, one column: one product for each element, none without weights. -/
def FDiag (u : ℝ) (w : Option (List ℝ)) (x xw : List 𝕜) : Prop :=
  match w with
  | none => xw = x
  | some w => List.Forall₂ (Near u) (dotdiag (some w) x) xw

/-- `wlse`, mestimator.py:284-305: a possible result that is no exception.  `linalg.solve` (Gaussian elimination with partial
pivoting) gives the exact solution for a matrix which differs from its argument by at most `c u` times its size; `c` depends on the
number of unknowns.  The size of a matrix is the largest sum of absolute values of a row.
Simplification: the right hand side is not changed by `linalg.solve` (the error is put into the matrix). -/
def FWlse (u c : ℝ) (x : List 𝕜) (y : List (Fin q → 𝕜)) (w : Option (List ℝ)) (z : Fin q → 𝕜) : Prop :=
  x.length = y.length ∧ (∀ ws, w = some ws → ws.length = y.length) ∧
  ∃ (xw : List 𝕜) (yw : Fin q → List 𝕜) (A E : Matrix (Fin q) (Fin q) 𝕜) (b : Fin q → 𝕜),
    FDiag u w x xw ∧ (∀ k, FDiag u w (y.map (fun r => r k)) (yw k)) ∧
    (∀ j k, FDot u (y.map (fun r => star (r j))) (yw k) (A j k)) ∧ (∀ j, FDot u (y.map (fun r => star (r j))) xw (b j)) ∧
    ‖E‖ ≤ c * u * ‖A‖ ∧ (A + E) *ᵥ z = b

end leastSquares

section impedance
variable [Rnd] {κ σ : Type}

/-- `SyncSignal.fourier_coefficients`, signalset.py:866-872: a possible result that is no exception.  The values of the calibrations are
what they are (`cal`); a zero among them would give NaN or infinities, which are excluded here. -/
def FSyncCoeffs (u : ℝ) (cal : κ → ℚ → Option ℂ) (s : Sync ℂ κ) (freq nper overlap : ℚ) (win : Win) (res : List (List ℂ)) (d : ℕ × ℕ × ℕ) : Prop :=
  ∃ (vs : List ℂ) (co : List (List ℂ)), s.cals.map (fun k => cal k freq) = vs.map some ∧ (∀ v ∈ vs, v ≠ 0) ∧
    FTimeToFreq u s.data s.rate freq nper overlap win co d ∧
    List.Forall₂ (fun (p : List ℂ × ℂ) r => List.Forall₂ (fun z z' => Near u (z / p.2) z') p.1 r) (co.zip vs) res

/-- `SignalSet.fourier_coefficients`, signalset.py:595-606: a possible result that is no exception.
Simplification: the parameters of the windows are one triple for each run, instead of a triple of lists. -/
def FSetCoeffs (u : ℝ) (cal : κ → ℚ → Option ℂ) (S : SigSet ℂ κ) (freq nper overlap : ℚ) (win : Win) (res : List (List ℂ))
    (ds : List (ℕ × ℕ × ℕ)) : Prop :=
  S.runs ≠ [] ∧ ∃ l : List (List (List ℂ) × (ℕ × ℕ × ℕ)), List.Forall₂ (fun s p => FSyncCoeffs u cal s freq nper overlap win p.1 p.2) S.runs l ∧
    res = (zipStar (l.map Prod.fst)).map List.flatten ∧ ds = l.map Prod.snd

/-- `_impedance`, utils.py:189-296, without weight function, prefilter and remote reference: a possible impedance which is not NaN, with
the parameters of the windows of each run.  `transfer_function` calls `wlse` once for each electric channel (mestimator.py:97-124). -/
def FImpedance (u c : ℝ) (cal : κ → ℚ → Option ℂ) (S : SigSet ℂ κ) (freq : ℚ) (o : Impedance.Opts σ) (Z : List (List ℂ))
    (ds : List (ℕ × ℕ × ℕ)) : Prop :=
  ∃ (E B : List ℕ) (co e b : List (List ℂ)), S.tags.getItem o.tagElec = .ok E ∧ S.tags.getItem o.tagMag = .ok B ∧
    FSetCoeffs u cal S freq o.nper o.overlap o.win co ds ∧ Impedance.pick co E = .ok e ∧ Impedance.pick co B = .ok b ∧
    List.Forall₂ (fun y z => ∃ v : Fin b.length → ℂ, FWlse u c y (rowsOf (Impedance.cols b) y.length) none v ∧ z = List.ofFn v) e Z

/-- One row of `T.dot(br)`, utils.py:245. -/
def FPredict (u : ℝ) (br : List (List ℂ)) (t x : List ℂ) : Prop :=
  x.length = Impedance.width br ∧ ∀ (n : ℕ) v, x[n]? = some v → FDot u t (br.map (fun y => y.getD n 0)) v

/-- `_impedance`, utils.py:189-296, with remote reference, without weight functions and prefilters: a possible impedance `Z` and transfer
function `T` between the remote and the magnetic channels which are not NaN, with the parameters of the windows of each run. -/
def FRemote (u c : ℝ) (cal : κ → ℚ → Option ℂ) (S : SigSet ℂ κ) (freq : ℚ) (o : Impedance.Opts σ) (T Z : List (List ℂ))
    (ds : List (ℕ × ℕ × ℕ)) : Prop :=
  ∃ (E B R : List ℕ) (co e b br be : List (List ℂ)), S.tags.getItem o.tagElec = .ok E ∧ S.tags.getItem o.tagMag = .ok B ∧
    Impedance.remoteChannels S o = .ok (some R) ∧ FSetCoeffs u cal S freq o.nper o.overlap o.win co ds ∧
    Impedance.pick co E = .ok e ∧ Impedance.pick co B = .ok b ∧ Impedance.pick co R = .ok br ∧
    List.Forall₂ (fun y t => ∃ v : Fin br.length → ℂ, FWlse u c y (rowsOf (Impedance.cols br) y.length) none v ∧ t = List.ofFn v) b T ∧
    List.Forall₂ (FPredict u br) T be ∧
    List.Forall₂ (fun y z => ∃ v : Fin be.length → ℂ, FWlse u c y (rowsOf (Impedance.cols be) y.length) none v ∧ z = List.ofFn v) e Z

end impedance

end Razorback.Approx
