/-
Specification for C70-C71: IEEE 754 numbers in single and double precision.
-/
import Verif.Model.Ats

namespace Razorback.Spec
open Razorback.Io

/-- The number with the bits of `k`: one for the sign, eight for the exponent, 23 for the fraction. -/
def single754 (k : Nat) : FVal :=
  let negative := k / 2 ^ 31 % 2 = 1
  let sign : ℚ := if negative then -1 else 1
  let exponent : Nat := k / 2 ^ 23 % 2 ^ 8
  let fraction : ℚ := ((k % 2 ^ 23 : Nat) : ℚ) / 2 ^ 23
  if exponent = 255 then (if fraction = 0 then .inf negative else .nan)
  else if exponent = 0 then .fin (sign * fraction * 2 ^ (-126 : Int))
  else .fin (sign * (1 + fraction) * 2 ^ ((exponent : Int) - 127))

/-- The number with the bits of `k`: one for the sign, eleven for the exponent, 52 for the fraction. -/
def double754 (k : Nat) : FVal :=
  let negative := k / 2 ^ 63 % 2 = 1
  let sign : ℚ := if negative then -1 else 1
  let exponent : Nat := k / 2 ^ 52 % 2 ^ 11
  let fraction : ℚ := ((k % 2 ^ 52 : Nat) : ℚ) / 2 ^ 52
  if exponent = 2047 then (if fraction = 0 then .inf negative else .nan)
  else if exponent = 0 then .fin (sign * fraction * 2 ^ (-1022 : Int))
  else .fin (sign * (1 + fraction) * 2 ^ ((exponent : Int) - 1023))

end Razorback.Spec
