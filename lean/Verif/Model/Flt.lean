/-
Floating point values without rounding: exact reals plus the two infinities and NaN.
Nothing here models razorback itself; these are the numpy scalar operations the weights are written with.
Simplifications: no rounding, no overflow of finite values, one zero (taken as +0).
-/
import Mathlib.Analysis.SpecialFunctions.Log.Basic

namespace Razorback

inductive Flt
  | nan
  | ninf
  | fin (r : ℝ)
  | pinf

namespace Flt

noncomputable section

/-- `np.isfinite(x)` -/
def val? : Flt → Option ℝ
  | fin r => some r
  | _ => none

/-- `abs(x)` -/
def abs : Flt → Flt
  | nan => nan
  | ninf => pinf
  | fin r => fin |r|
  | pinf => pinf

def neg : Flt → Flt
  | nan => nan
  | ninf => pinf
  | fin r => fin (-r)
  | pinf => ninf

/-- `x + y` -/
def add : Flt → Flt → Flt
  | nan, _ => nan
  | _, nan => nan
  | fin a, fin b => fin (a + b)
  | fin _, y => y
  | x, fin _ => x
  | pinf, pinf => pinf
  | ninf, ninf => ninf
  | pinf, ninf => nan
  | ninf, pinf => nan

/-- `x - y` -/
def sub (x y : Flt) : Flt := add x (neg y)

/-- An infinity with the sign of a finite factor. -/
def infTimes (pos : Bool) (r : ℝ) : Flt :=
  if r = 0 then nan
  else if (0 < r) = (pos = true) then pinf
  else ninf

/-- `x * y` -/
def mul : Flt → Flt → Flt
  | nan, _ => nan
  | _, nan => nan
  | fin a, fin b => fin (a * b)
  | fin a, pinf => infTimes true a
  | fin a, ninf => infTimes false a
  | pinf, fin b => infTimes true b
  | ninf, fin b => infTimes false b
  | pinf, pinf => pinf
  | ninf, ninf => pinf
  | pinf, ninf => ninf
  | ninf, pinf => ninf

/-- `x / y`, zero counting as `+0`. -/
def div : Flt → Flt → Flt
  | nan, _ => nan
  | _, nan => nan
  | fin a, fin b => if b = 0 then (if a = 0 then nan else if 0 < a then pinf else ninf) else fin (a / b)
  | fin _, _ => fin 0
  | pinf, fin b => if b < 0 then ninf else pinf
  | ninf, fin b => if b < 0 then pinf else ninf
  | _, _ => nan

/-- `np.exp(x)` -/
def exp : Flt → Flt
  | nan => nan
  | ninf => fin 0
  | fin r => fin (Real.exp r)
  | pinf => pinf

/-- `np.sqrt(x)` -/
def sqrt : Flt → Flt
  | nan => nan
  | ninf => nan
  | fin r => if r < 0 then nan else fin (Real.sqrt r)
  | pinf => pinf

/-- `np.log(x)` -/
def log : Flt → Flt
  | nan => nan
  | ninf => nan
  | fin r => if r < 0 then nan else if r = 0 then ninf else fin (Real.log r)
  | pinf => pinf

/-- `np.minimum(1, x)`, which propagates NaN. -/
def min1 : Flt → Flt
  | nan => nan
  | ninf => ninf
  | fin r => fin (min 1 r)
  | pinf => fin 1

/-- `np.sum(l)` -/
def sum (l : List Flt) : Flt := l.foldl add (fin 0)

/-- `np.isclose(0, x, 0, eps)`: `|x| <= eps` for finite `x`, false otherwise. -/
def close0 (eps : ℝ) : Flt → Prop
  | fin r => |r| ≤ eps
  | _ => False

end

end Flt

end Razorback
