/-
Floating point arithmetic in `impedance` (utils.py) with weight functions, prefilters and remote reference.
As in Model/Approx.lean a program is a relation between its arguments and its possible results that are no exceptions and not NaN.
Simplifications: those of Model/Approx.lean and Model/ApproxMEst.lean; a prefilter supplied by the user is computed without
rounding from the rounded coefficients; the times of the rejected windows are left out.
-/
import Verif.Model.ApproxMEst

namespace Razorback.Approx
open Razorback Razorback.MEst Razorback.Prefilter

section prefilter
variable {𝕜 : Type} [RCLike 𝕜] {q : ℕ}

/-- `norm2`, prefilters.py:45: absolute values, squares and their sum. -/
def FNorm2 (u : ℝ) (arr : List 𝕜) (s : ℝ) : Prop :=
  ∃ l : List ℝ, List.Forall₂ (fun x n => ∃ a, Near u ‖x‖ a ∧ Near u (a ^ 2) n) arr l ∧ FSum u l s

/-- `np.sqrt(1 - a / b)`, prefilters.py:46.  Dividing by zero gives NaN or an infinity, and in the end NaN.  Differences and roots which are not
greater than 1 are not rounded to more than 1, and roots not below 0, as 0 and 1 are numbers without rounding. -/
def FRoot (u a b : ℝ) (v : Flt) : Prop :=
  (b = 0 ∧ v = .nan) ∨ (b ≠ 0 ∧ ∃ t d, Near u (a / b) t ∧ Near u (1 - t) d ∧ (0 ≤ t → d ≤ 1) ∧
    ((d < 0 ∧ v = .nan) ∨ (0 ≤ d ∧ ∃ s, Near u (Real.sqrt d) s ∧ 0 ≤ s ∧ (d ≤ 1 → s ≤ 1) ∧ v = .fin s)))

/-- `coeff_determination`, prefilters.py:39-47, for one block: normal equations and their solution as in `FWlse`, `y.dot(z) - x`, norms and root. -/
def FCod (u c : ℝ) (x : List 𝕜) (y : List (Fin q → 𝕜)) (v : Flt) : Prop :=
  ∃ (z : Fin q → 𝕜) (r : List 𝕜) (a b : ℝ), FWlse u c x y none z ∧
    List.Forall₂ (fun (p : 𝕜 × (Fin q → 𝕜)) w => ∃ d, FDot u (List.ofFn p.2) (List.ofFn z) d ∧ Near u (d - p.1) w) (x.zip y) r ∧
    FNorm2 u r a ∧ FNorm2 u x b ∧ FRoot u a b v

/-- `CoefficientOfDeterminationFilter.value`, prefilters.py:26-37; see `Prefilter.value`. -/
def FValue (u c : ℝ) (size : ℕ) (e : List 𝕜) (b : List (Fin q → 𝕜)) (vs : List Flt) : Prop :=
  e.length = b.length ∧ size ≠ 0 ∧ ∃ (tmp : List Flt) (v : Flt),
    List.Forall₂ (fun p => FCod u c p.1 p.2) ((breshape size e).dropLast.zip (breshape size b).dropLast) tmp ∧
    FCod u c (lastN (size + e.length % size) e) (lastN (size + e.length % size) b) v ∧
    vs = (let cod := tmp.flatMap (fun v => List.replicate size v) ++ (List.replicate e.length (Flt.fin 0)).drop (tmp.length * size)
      cod.take (cod.length - (size + e.length % size)) ++ List.replicate (lastN (size + e.length % size) cod).length v)

/-- `CoefficientOfDeterminationFilter.__call__`, prefilters.py:21-24; comparisons are exact. -/
def FFilter (u c codMin codMax : ℝ) (size : ℕ) (e : List 𝕜) (b : List (Fin q → 𝕜)) (l : List ℕ) : Prop :=
  ∃ vs, FValue u c size e b vs ∧ l = (vs.zipIdx.filter (fun p => below p.1 codMin || above p.1 codMax)).map Prod.snd

end prefilter

/-- A prefilter, supplied by the user or by the library, prefilters.py:12-19. -/
inductive FPre
  | user (p : Impedance.Pre)
  | cod (codMin codMax : ℝ) (size : ℕ)

/-- What a prefilter computes without rounding, prefilters.py:21-24. -/
noncomputable def FPre.exact : FPre → Impedance.Pre
  | .user p => p
  | .cod codMin codMax size => fun _ => Prefilter.call codMin codMax size

/-- What a prefilter may compute with rounding, prefilters.py:21-24. -/
def FPre.FCall (u c : ℝ) {q : ℕ} : FPre → List ℂ → List (Fin q → ℂ) → List ℕ → Prop
  | .user p, e, b, l => p q e b = .ok l
  | .cod codMin codMax size, e, b, l => FFilter u c codMin codMax size e b l

/-- `apply_prefilter`, utils.py:376-392. -/
def FApply (u c : ℝ) {q : ℕ} (outputs : List (List ℂ)) (inputs : List (Fin q → ℂ)) (pre : Option FPre) (iv : InvArg) (inv : List (List ℕ)) : Prop :=
  ∃ ivs, iv.norm outputs.length = .ok ivs ∧ ivs.length = outputs.length ∧
    match pre with
    | none => inv = ivs
    | some f => List.Forall₂ (fun p l => ∃ l1, f.FCall u c p.1 inputs l1 ∧ l = union1d p.2 l1) (outputs.zip ivs) inv

section stage
variable {σ : Type}

/-- Weight functions for `impedance`, for any number of inputs, with rounding; see `Impedance.Weights`, utils.py:198-204. -/
abbrev FWs (σ : Type) := List (Option (ℕ × ((q : ℕ) → FW σ ℂ q)))

/-- The weight functions for `q` inputs, utils.py:253-266. -/
def FWs.at (ws : FWs σ) (q : ℕ) : List (Option (ℕ × FW σ ℂ q)) := ws.map (fun w => w.map (fun p => (p.1, p.2 q)))

/-- The weight functions without rounding, utils.py:253-266. -/
def FWs.exact (ws : FWs σ) : Impedance.Weights σ := ws.map (fun w => w.map (fun p => (p.1, fun q => (p.2 q).exact)))

/-- Prefilter and `transfer_function` of one stage, utils.py:234-243 and 253-266: the estimates row by row and the invalid indices. -/
def FStage (u c : ℝ) (ws : FWs σ) (pre : Option FPre) (o : MEst.Opts) (e b : List (List ℂ)) (iv : InvArg) (heap : ℕ → σ)
    (z : List (List ℂ)) (ivid : List (List ℕ)) (heap' : ℕ → σ) : Prop :=
  ∃ inv res, FApply u c e (Impedance.rows b) pre iv inv ∧
    FTransfer u c e (Impedance.cols b) (ws.at b.length) none (.each inv) o heap res heap' ∧
    res.map (fun p => p.1.map List.ofFn) = z.map some ∧ ivid = res.map Prod.snd

end stage

section errors
variable {𝕜 : Type} [RCLike 𝕜] {q : ℕ}
open scoped Matrix Matrix.Norms.Operator

/-- `iiinv`, mestimator.py:36-38.  `np.linalg.inv` solves one system of equations for each column; each solution is the exact one for a matrix which
differs from its argument by at most `c u` times its size, as in `FWlse`. -/
def FInvDiag (u c : ℝ) (b : List (Fin q → 𝕜)) (g : Fin q → ℝ) : Prop :=
  ∃ A X : Matrix (Fin q) (Fin q) 𝕜, (∀ j k, FDot u (b.map (fun r => r j)) (b.map (fun r => star (r k))) (A j k)) ∧
    (∀ k, ∃ E : Matrix (Fin q) (Fin q) 𝕜, ‖E‖ ≤ c * u * ‖A‖ ∧ (A + E) *ᵥ (fun j => X j k) = Pi.single k 1) ∧
    ∀ j, ∃ d, Near u ‖X j j‖ d ∧ Near u (Real.sqrt d) (g j)

/-- `transfer_error`, mestimator.py:34-35 and 42-44, for one output.  Simplifications: `np.linalg.norm` is the root of the sum of the squares of the absolute
values; `r` is computed again for each output; where `n` is not above `p` or no sample is left the result is NaN or an infinity, whichever. -/
def FErrorRow (u : ℝ) (b : List (Fin q → 𝕜)) (g : Fin q → ℝ) (line : List 𝕜) (T : Fin q → 𝕜) (ninv : ℕ) (v : Fin q → Flt) : Prop :=
  (q < line.length ∧ line.length ≠ ninv ∧ ∃ (res : List 𝕜) (s nres t r a d : ℝ), FResid u line b T res ∧ FNorm2 u res s ∧ Near u (Real.sqrt s) nres ∧
    Near u (Real.sqrt ((line.length : ℝ) - q)) t ∧ Near u (t / line.length) r ∧ Near u (nres / r) a ∧ Near u (a / ((line.length : ℝ) - ninv)) d ∧
    ∀ j, ∃ w, Near u (d * g j) w ∧ v j = .fin w) ∨
  ((line.length ≤ q ∨ line.length = ninv) ∧ ∀ j w, v j ≠ .fin w)

/-- `transfer_error`, mestimator.py:21-48: a possible result that is no exception. -/
def FTransferError (u c : ℝ) (outputs : List (List 𝕜)) (inputs : Fin q → List 𝕜) (transfer : List (Fin q → 𝕜)) (inv : List (List ℕ))
    (E : List (Fin q → Flt)) : Prop :=
  ∃ (N : ℕ) (g : Fin q → ℝ), outputs ≠ [] ∧ 0 < q ∧ (∀ y ∈ outputs, y.length = N) ∧ (∀ j, (inputs j).length = N) ∧ inv.length = outputs.length ∧
    FInvDiag u c (rowsOf inputs N) g ∧
    List.Forall₂ (fun t v => FErrorRow u (rowsOf inputs N) g t.1 t.2.1 t.2.2.length v) (outputs.zip (transfer.zip inv)) E

end errors

/-- The errors of `_impedance`, utils.py:288-294, row by row. -/
def FErrors (u c : ℝ) (e b Z : List (List ℂ)) (ivid : List (List ℕ)) (err : List (List Flt)) : Prop :=
  ∃ E : List (Fin b.length → Flt), FTransferError u c e (Impedance.cols b) (Z.map (fun z j => z.getD j 0)) ivid E ∧ err = E.map List.ofFn

variable [Rnd] {κ σ : Type}

/-- `_impedance`, utils.py:189-296: a possible impedance `Z`, transfer function `T` from the remote, errors `err`, and indices `ivid` of the windows
which are left out, one list for each electric channel, with the parameters `ds` of the windows of each run.  The weight
functions and the prefilters of the options are `rws` and `rpre` for the remote, `ws` and `pre` for the impedance. -/
def FRobust (u c : ℝ) (cal : κ → ℚ → Option ℂ) (S : SigSet ℂ κ) (freq : ℚ) (o : Impedance.Opts σ) (rws ws : FWs σ) (rpre pre : Option FPre) (heap : ℕ → σ) (T Z : List (List ℂ))
    (ivid : List (List ℕ)) (err : List (List Flt)) (ds : List (ℕ × ℕ × ℕ)) (heap' : ℕ → σ) : Prop :=
  ∃ (E B : List ℕ) (co e b : List (List ℂ)), S.tags.getItem o.tagElec = .ok E ∧ S.tags.getItem o.tagMag = .ok B ∧ o.realPb = false ∧
    o.orWeights = rws.exact ∧ o.weights = ws.exact ∧ o.orPrefilter = rpre.map FPre.exact ∧ o.prefilter = pre.map FPre.exact ∧
    FSetCoeffs u cal S freq o.nper o.overlap o.win co ds ∧ Impedance.pick co E = .ok e ∧ Impedance.pick co B = .ok b ∧
    ((Impedance.remoteChannels S o = .ok none ∧ T = b.map (fun _ => []) ∧ FStage u c ws pre o.mest e b .none heap Z ivid heap' ∧
        FErrors u c e b Z ivid err) ∨
      ∃ (R : List ℕ) (br be : List (List ℂ)) (ivT : List (List ℕ)) (heap1 : ℕ → σ), Impedance.remoteChannels S o = .ok (some R) ∧
        Impedance.pick co R = .ok br ∧ FStage u c rws rpre o.mest b br .none heap T ivT heap1 ∧
        List.Forall₂ (FPredict u br) T be ∧
        FStage u c ws pre o.mest e be (.each (List.replicate e.length (ivT.foldl union1d []))) heap1 Z ivid heap' ∧ FErrors u c e be Z ivid err)

end Razorback.Approx
