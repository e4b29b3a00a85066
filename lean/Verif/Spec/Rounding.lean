/-
Specification vocabulary for floating point times.
-/
import Verif.Spec.Consecutive
import Verif.Model.Rounding
import Mathlib.Algebra.Order.Field.Rat

namespace Razorback.Spec
open Razorback
variable {α κ : Type _}

/-- Numbers with at most 53 significant bits (the doubles, apart from the bounds on the exponent). -/
def IsDouble (x : ℚ) : Prop := ∃ m k : ℤ, |m| ≤ 2 ^ 53 ∧ x = m * 2 ^ k

/-- `x` is a whole number of ticks of `2 ^ (-g)` seconds. -/
def Tick (g : ℤ) (x : ℚ) : Prop := ∃ m : ℤ, x = m * 2 ^ (-g)

/-- A binary clock: times between `lo` and `hi`, counted in ticks of `2 ^ (-g)` seconds; the counts and their
differences do not exceed 2^53. -/
structure Clock where
  g : ℤ
  lo : ℚ
  hi : ℚ
  lo_le : |lo| ≤ 2 ^ (53 - g)
  hi_le : |hi| ≤ 2 ^ (53 - g)
  span : hi - lo ≤ 2 ^ (53 - g)

/-- The run is recorded on the clock: its rate is a power of two, at most one sample per tick, it starts on a
tick, and starts and stops within the bounds of the clock. -/
structure OnClock (C : Clock) (s : Sync α κ) : Prop where
  rate : ∃ k : ℤ, k ≤ C.g ∧ s.rate = 2 ^ k
  tick : Tick C.g s.start
  start_lo : C.lo ≤ s.start
  start_hi : s.start ≤ C.hi
  last_lo : C.lo ≤ lastTime s
  last_hi : lastTime s ≤ C.hi

/-- There is no doubt whether run `b` continues run `a`: the gap is exactly a sample period, or it differs from it
by at least twice the tolerances. -/
def ClearCut (a b : Sync α κ) : Prop :=
  a.rate = b.rate → gap a b = 1 / a.rate ∨ 2 * (1 / 10 ^ 8 + 1 / 10 ^ 5 * |gap a b|) ≤ |1 / a.rate - gap a b|

/-- Signal sets built by a program that computes in double precision, from well-formed signals recorded on the
clock, cutting them at ticks of the clock and merging consecutive runs only when there is no doubt. -/
inductive Session [One κ] (C : Clock) : SigSet α κ → Prop
  | new {S : SigSet α κ} (tags : TagsArg) (args : List (SigArg α κ)) (hs : ∀ s, .sync s ∈ args → WF s ∧ OnClock C s)
      (hS : ∀ T, .set T ∈ args → Session C T) (h : Dbl.new tags args = .ok S) : Session C S
  | join {T S : SigSet α κ} (args : List (SigArg α κ)) (hT : Session C T)
      (hs : ∀ s, .sync s ∈ args → WF s ∧ OnClock C s) (hS : ∀ T, .set T ∈ args → Session C T)
      (h : Dbl.join T args = .ok S) : Session C S
  | merge {T S : SigSet α κ} (others : List (SigSet α κ)) (hT : Session C T) (hS : ∀ T ∈ others, Session C T)
      (h : Dbl.merge T others = .ok S) : Session C S
  | selectChannels {T S : SigSet α κ} (sel : ChanSel) (hT : Session C T) (h : Dbl.selectChannels T sel = .ok S) :
      Session C S
  | selectRuns {T S : SigSet α κ} (r : RunIdx) (hT : Session C T) (h : Dbl.selectRuns T r = .ok S) : Session C S
  | extractT {T S : SigSet α κ} (a b : ℚ) (exclude : Bool) (ha : Tick C.g a) (hb : Tick C.g b) (hT : Session C T)
      (h : Dbl.extractT T a b exclude = .ok S) : Session C S
  | mergeConsecutive {T S : SigSet α κ} (hT : Session C T) (hp : Plain T.tags) (hc : T.runs.IsChain ClearCut)
      (h : Dbl.mergeConsecutive T = .ok S) : Session C S
  | setTags {T S : SigSet α κ} (v : TagsArg) (hT : Session C T) (h : T.setTags v = .ok S) : Session C S
  | editTags {T : SigSet α κ} (ops : List Tags.Op) (hT : Session C T) : Session C { T with tags := T.tags.run ops }

/-- The times of the run, counted in sample periods, stay below 2^49: at present-day timestamps (seconds since
1970) this allows sampling rates up to 131072 Hz. -/
structure Room (s : Sync α κ) : Prop where
  rate : 0 < s.rate
  size : 0 < s.size
  room : (|s.start| + |lastTime s|) * s.rate ≤ 2 ^ 49

end Razorback.Spec
