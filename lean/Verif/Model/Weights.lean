/-
Model of weights.py.  Real arithmetic without rounding; NaN and infinities are explicit (`Flt`).
Residuals are finite or NaN (`none`): the estimation only hands out finite residuals, with NaN at rejected positions.
-/
import Mathlib.Data.List.Sort
import Mathlib.Analysis.SpecialFunctions.Log.Basic
import Verif.Model.MEst

namespace Razorback.Weights
open Razorback Razorback.MEst

noncomputable section

variable {𝕜 : Type} [RCLike 𝕜] {q : ℕ} {σ : Type}

/-- `vnorm(x)`, weights.py:179-202, of a one dimensional array: absolute values. -/
def vnorm (x : List (Option 𝕜)) : List (Option ℝ) := x.map (fun v => v.map (fun v => ‖v‖))

/-- NaN for `none`. -/
def flt : Option ℝ → Flt
  | none => .nan
  | some x => .fin x

open Classical in
/-- `np.median` of a non-empty array without NaN. -/
def median (l : List ℝ) : ℝ :=
  let s := l.insertionSort (· ≤ ·)
  if s.length % 2 = 1 then s.getD (s.length / 2) 0
  else (s.getD (s.length / 2 - 1) 0 + s.getD (s.length / 2) 0) / 2

/-- `np.nanmedian`: NaN entries are ignored; NaN if there is nothing else. -/
def nanmedian (l : List (Option ℝ)) : Option ℝ :=
  let v := l.filterMap id
  if v.isEmpty then none else some (median v)

/-- `median_absolute_deviation(arr, is_absolute=True)`, weights.py:156-162. -/
def madAbs (arr : List (Option ℝ)) : Option ℝ :=
  match nanmedian arr with
  | none => none
  | some med => nanmedian (arr.map (fun v => v.map (fun v => |v - med|)))

/-- `median_absolute_deviation(arr)`, weights.py:156-162. -/
def mad (arr : List (Option 𝕜)) : Option ℝ := madAbs (vnorm arr)

/-- `mad_scale(residual, is_absolute=True)` with the default `sigma_mad`, weights.py:150-153. -/
def madScaleAbs (x : List (Option ℝ)) : Option ℝ := (madAbs x).map (fun m => m / 0.44845)

/-- `mad_scale(residual, is_absolute)` with the default `sigma_mad`, weights.py:150-153: absolute values are taken
here, and again in `median_absolute_deviation`. -/
def madScale (x : List (Option 𝕜)) : Option ℝ := (mad (vnorm x)).map (fun m => m / 0.44845)

/-- `expexp(x, a)`, weights.py:165-169, for a number `a`. -/
def expexp (x : Flt) (a : ℝ) : Flt :=
  Flt.exp (Flt.sub (.fin (Real.exp (-a ^ 2))) (Flt.exp (Flt.mul (.fin a) (Flt.sub x (.fin a)))))

/-- `Huber.__call__`, weights.py:52-57. -/
def huber (alpha : ℝ) : WFun σ 𝕜 q := fun st _ residual _ _ _ =>
  let x := vnorm residual
  let scale := madScaleAbs x
  (.ok (some (x.map (fun v => Flt.min1 (Flt.div (Flt.mul (.fin alpha) (flt scale)) (flt v))))), st)

/-- `xi` of `Thomson`, weights.py:72-74.  Simplification: an empty residual, for which numpy gives infinity, gives 0;
the estimation never calls weight functions without samples. -/
def thomsonXi (xi : Option ℝ) (n : ℕ) : ℝ :=
  match xi with
  | some xi => xi
  | none => Real.sqrt (2 * Real.log (2 * n))

/-- `Thomson.__call__`, weights.py:71-82.  The state is `_data.get('scale')`. -/
def thomson (xi : Option ℝ) : WFun (Option Flt) 𝕜 q := fun st it residual _ _ _ =>
  let a := thomsonXi xi residual.length
  let x := vnorm residual
  if it = 0 then
    let scale := flt (madScaleAbs x)
    (.ok (some (x.map (fun v => expexp (Flt.div (flt v) scale) a))), some scale)
  else match st with
    | none => (.error .key, st)
    | some scale => (.ok (some (x.map (fun v => expexp (Flt.div (flt v) scale) a))), some scale)

/-- The dictionary `_prev` of `BoundedInfluenceStep` once filled; `none` for the number `1.`. -/
structure Prev where
  it : ℤ
  bi : Option (List Flt)
  trace : Flt
  hat : Option (List Flt)

/-- Product of two arrays, or with the number `1.` -/
def timesArr (a : Option (List Flt)) (b : List Flt) : List Flt :=
  match a with
  | none => b
  | some a => List.zipWith Flt.mul a b

open scoped Matrix
open Classical in
/-- `np.sum(linalg.solve(A, H(b)) * b.T, axis=0).real` with `A = H(b).dot(dotdiag(bi_weight, b))`, weights.py:116-117.
`linalg.solve` raises ValueError on non-finite entries and LinAlgError on a singular matrix.
Simplification: a previous weight array of the wrong length raises ValueError. -/
def leverage (b : List (Fin q → 𝕜)) (bi : Option (List Flt)) : Except Err (List ℝ) :=
  let go (w : Option (List ℝ)) : Except Err (List ℝ) :=
    if (gram b w).det = 0 then .error .linAlg
    else .ok (b.map (fun r => RCLike.re (∑ j, ((gram b w)⁻¹ *ᵥ (fun j => star (r j))) j * r j)))
  match bi with
  | none => go none
  | some w =>
    if w.length ≠ b.length then .error .value
    else match w.mapM Flt.val? with
      | none => .error .value
      | some w => go (some w)

/-- `BoundedInfluenceStep.__call__`, weights.py:102-129.  The weights returned are also those kept for the next
iteration; as the caller puts those at invalid positions to zero in place, so does this function. -/
def bis (inner : WFun σ 𝕜 q) (lower khi : ℝ) : WFun (Option Prev × σ) 𝕜 q := fun st it residual e b inv =>
  let prev := if it = 0 then some ⟨-1, none, .fin b.length, none⟩ else st.1
  match prev with
  | none => (.error .assertion, st)
  | some p =>
    if (it : ℤ) ≠ 1 + p.it then (.error .assertion, (some p, st.2))
    else match inner st.2 it residual e b inv with
      | (.error x, s) => (.error x, (some p, s))
      | (.ok none, s) => (.error .type, (some p, s))
      | (.ok (some w), s) =>
        let weight := zeroAt w inv
        match leverage b p.bi with
        | .error x => (.error x, (some p, s))
        | .ok h =>
          let y := (timesArr p.bi (h.map .fin)).map (fun h => Flt.div (Flt.mul p.trace h) (.fin q))
          let hat := timesArr (some (timesArr p.hat (y.map (fun v => expexp v khi))))
            (y.map (fun v => expexp (Flt.log v) (Real.log lower)))
          let bi := zeroAt (timesArr (some weight) hat) inv
          (.ok (some bi), (some ⟨it, some bi, Flt.sum (timesArr (some weight) hat), some hat⟩, s))

/-- A weight function without memory, or a Thomson one. -/
inductive Base
  | huber (alpha : ℝ := 1.5)
  | thomson (xi : Option ℝ := none)

/-- The weight objects of the library. -/
inductive Obj
  | base (w : Base)
  | bis (w : Base) (lower khi : ℝ)

/-- The memory of a weight object: `_data` of the (inner) Thomson, `_prev` of the bounded influence step. -/
abbrev Mem := Option Prev × Option Flt

/-- Calling a weight object. -/
def Base.call : Base → WFun (Option Flt) 𝕜 q
  | .huber a => Weights.huber a
  | .thomson xi => Weights.thomson xi

/-- Calling a weight object. -/
def Obj.call : Obj → WFun Mem 𝕜 q
  | .base w => fun st it r e b inv =>
    let res := w.call st.2 it r e b inv
    (res.1, (st.1, res.2))
  | .bis w lower khi => Weights.bis w.call lower khi

/-- `mest_weights`, weights.py:85. -/
def mestWeights : List (Option Obj) := [none, some (.base (.huber 1.5)), some (.base (.thomson none))]

/-- `least_square`, weights.py:86. -/
def leastSquare : List (Option Obj) := [none]

/-- `bi_weights(reject_prob, n_step, dim)`, weights.py:132-147; `gii` is scipy's `gammaincinv`. -/
def biWeights (gii : ℝ → ℝ → ℝ) (p : ℝ) (n : ℕ) (dim : ℕ := 2) : List (Option Obj) :=
  let lower := gii dim (0.5 * p) / dim
  let upper := gii dim (1 - 0.5 * p) / dim
  let res := (List.range n).map (fun i : ℕ => some (Obj.bis (.huber 1.5) (lower * 2 ^ (-(i : ℤ))) (upper * 2 ^ i)))
  ([none] ++ res.reverse) ++ [some (.bis (.thomson none) lower upper)]

/-- The sequence of weight functions for `transfer_function`: every object has its own memory, kept under its
position. -/
def weighting (l : List (Option Obj)) : Weighting Mem 𝕜 q :=
  l.zipIdx.map (fun p => p.1.map (fun w => (p.2, w.call)))

end

end Razorback.Weights
