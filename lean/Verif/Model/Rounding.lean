/-
Floating point times: IEEE 754 double precision arithmetic on times and rates, for the operations of
`Model/Sync.lean` and `Model/SigSet.lean` (signalset.py) and for `discrete_window` (fourier_transform.py), which
round the result of every operation through `Rnd.rnd`.
Overflow (2^1024 and above), underflow (below 2^-1022), infinities and NaN are not modelled.
-/
import Verif.Model.Fourier

namespace Razorback

/-- `2 ^ e`. -/
def pow2 (e : Int) : ℚ := if 0 ≤ e then 2 ^ e.toNat else 1 / 2 ^ (-e).toNat

/-- The exponent of a nonzero number: `2 ^ e ≤ |x| < 2 ^ (e + 1)`. -/
def expo (x : ℚ) : Int :=
  let e : Int := (Nat.log2 x.num.natAbs : Int) - Nat.log2 x.den
  if pow2 e ≤ |x| then e else e - 1

/-- Rounding to the nearest whole number, ties to the even one. -/
def roundEven (x : ℚ) : Int :=
  let f := ⌊x⌋
  if x - f < 1 / 2 then f
  else if 1 / 2 < x - f then f + 1
  else if f % 2 = 0 then f
  else f + 1

/-- Rounding to double precision (53 significant bits, nearest, ties to even): the result of each operation
(`+`, `-`, `*`, `/`, conversion of an integer) on Python floats and numpy float64. -/
def fl (x : ℚ) : ℚ :=
  if x = 0 then 0 else roundEven (x / pow2 (expo x - 52)) * pow2 (expo x - 52)

/-- Double precision rounding of the times. -/
@[reducible] def Rnd.double : Rnd := ⟨fl⟩

theorem Rnd.rnd_double (x : ℚ) : Rnd.double.rnd x = fl x := rfl

end Razorback

/-! The methods of signalset.py and `discrete_window`, computed in double precision. -/
namespace Razorback.Dbl
open Razorback
variable {α κ : Type _}

/-- `SyncSignal.stop`, signalset.py:759-762. -/
abbrev stop (s : Sync α κ) : Except Err ℚ := @Sync.stop _ _ Rnd.double s

/-- `SyncSignal._index_to_time`, signalset.py:786-790. -/
abbrev indexToTime (s : Sync α κ) (i : Int) : Except Err ℚ := @Sync.indexToTime _ _ Rnd.double s i

/-- `SyncSignal._time_to_index`, signalset.py:778-784. -/
abbrev timeToIndex (s : Sync α κ) (t : ℚ) (r : Sync.Round) : Int := @Sync.timeToIndex _ _ Rnd.double s t r

/-- `SyncSignal.extract_i`, signalset.py:792-810. -/
abbrev syncExtractI [One κ] (s : Sync α κ) (i j : Option Int) (strict : Bool := true) (last : Bool := false) :
    Except Err (Sync α κ) := @Sync.extractI _ _ Rnd.double _ s i j strict last

/-- `SyncSignal.extract_t`, signalset.py:812-828. -/
abbrev syncExtractT [One κ] (s : Sync α κ) (a b : ℚ) (strict : Bool := false) : Except Err (Sync α κ) :=
  @Sync.extractT _ _ Rnd.double _ s a b strict

/-- `SignalSet(tags, *signals)`, signalset.py:236-250. -/
abbrev new [One κ] (tags : TagsArg) (args : List (SigArg α κ)) : Except Err (SigSet α κ) :=
  @SigSet.new _ _ Rnd.double _ tags args

/-- `SignalSet.join`, signalset.py:463-475. -/
abbrev join [One κ] (S : SigSet α κ) (args : List (SigArg α κ)) : Except Err (SigSet α κ) :=
  @SigSet.join _ _ Rnd.double _ S args

/-- `SignalSet.select_channels`, signalset.py:414-450. -/
abbrev selectChannels [One κ] (S : SigSet α κ) (sel : ChanSel) : Except Err (SigSet α κ) :=
  @SigSet.selectChannels _ _ Rnd.double _ S sel

/-- `SignalSet.select_runs`, signalset.py:452-461. -/
abbrev selectRuns (S : SigSet α κ) (r : RunIdx) : Except Err (SigSet α κ) := @SigSet.selectRuns _ _ Rnd.double S r

/-- `SignalSet.extract_t`, signalset.py:542-556. -/
abbrev extractT [One κ] (S : SigSet α κ) (a b : ℚ) (exclude : Bool := false) : Except Err (SigSet α κ) :=
  @SigSet.extractT _ _ Rnd.double _ S a b exclude

/-- `SignalSet.merge`, signalset.py:479-538. -/
abbrev merge [One κ] (S : SigSet α κ) (others : List (SigSet α κ)) : Except Err (SigSet α κ) :=
  @SigSet.merge _ _ Rnd.double _ S others

/-- `SignalSet.merge_consecutive_runs`, signalset.py:608-631. -/
abbrev mergeConsecutive [One κ] (S : SigSet α κ) : Except Err (SigSet α κ) :=
  @SigSet.mergeConsecutive _ _ Rnd.double _ S

/-- `discrete_window`, fourier_transform.py:87-109. -/
abbrev discreteWindow (size : ℕ) (nf nper overlap : ℚ) : Except Err (ℕ × ℕ × ℕ) :=
  @Fourier.discreteWindow Rnd.double size nf nper overlap

end Razorback.Dbl
