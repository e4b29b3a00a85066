/-
Model of `SyncSignal` (src/razorback/signalset.py:654-872).
Times and rates are rationals; the result of each floating point operation on them goes through `Rnd.rnd`: the
identity by default (`Rnd.exact`, exact arithmetic), rounding to double precision in `Model/Rounding.lean`.  NaN and
infinite times are not modelled.
Samples are an arbitrary type `α`; calibration functions are an arbitrary type `κ` with a `1` (the constant
function 1 when `κ` is a type of functions).
-/
import Verif.Model.Py
import Mathlib.Data.Rat.Floor

namespace Razorback

/-- How the result of a floating point operation on times and rates is rounded (a modelling device: the code
has no such parameter). -/
class Rnd where
  rnd : ℚ → ℚ

/-- No rounding: what every theorem uses unless it says otherwise. -/
instance Rnd.exact : Rnd := ⟨fun x => x⟩

@[simp] theorem Rnd.rnd_exact (x : ℚ) : Rnd.exact.rnd x = x := rfl

open Rnd (rnd)

/-- Python slice `l[i:j]` with integer bounds and step 1: negative bounds count from the end, then both are
clamped to `[0, len]`. -/
def pyBound (n : Nat) (i : Int) : Nat :=
  if i < 0 then (i + n).toNat else min i.toNat n

/-- `l[i:j]`. -/
def pySlice {α : Type _} (l : List α) (i j : Int) : List α :=
  (l.drop (pyBound l.length i)).take (pyBound l.length j - pyBound l.length i)

/-- `l[i]` on a list or tuple with an integer (negative from the end, IndexError out of range). -/
def pyGet {α : Type _} (l : List α) (i : Int) : Except Err α :=
  let j := if i < 0 then i + l.length else i
  if j < 0 then .error .index
  else match l[j.toNat]? with
    | some a => .ok a
    | none => .error .index

/-- A calibration as given by the user: a number or a callable (signalset.py:683-686). -/
inductive CalArg (F V : Type _)
  | num (v : V)
  | fn (f : F → V)

/-- `cal if callable(cal) else (lambda cc: (lambda f: cc))(cal)`, signalset.py:683-686. -/
def CalArg.toFn {F V : Type _} : CalArg F V → F → V
  | .num v => fun _ => v
  | .fn f => f

/-- State of a `SyncSignal`, signalset.py:693-697. -/
structure Sync (α κ : Type _) where
  data : List (List α)
  cals : List κ
  rate : ℚ
  start : ℚ
  size : Nat
deriving DecidableEq, Repr

namespace Sync
variable {α κ : Type _}

/-- `SyncSignal.__init__`, signalset.py:677-697, with calibrations already functions: an empty list means
constant 1 everywhere; two assertions. -/
def new [One κ] (data : List (List α)) (rate start : ℚ) (cals : List κ) : Except Err (Sync α κ) :=
  let cals := match cals with
    | [] => List.replicate data.length 1
    | c :: cs => c :: cs
  if data.length = cals.length then
    match dedup (data.map List.length) with
    | [n] => .ok { data := data, cals := cals, rate := rate, start := start, size := n }
    | _ => .error .assertion
  else .error .assertion

/-- `SyncSignal(data, sampling_rate, start=0., calibrations=None)`, signalset.py:677-697; `None` and an
empty list are the same. -/
def init {F V : Type _} [One V] (data : List (List α)) (rate : ℚ) (start : ℚ := 0)
    (cals : Option (List (CalArg F V)) := none) : Except Err (Sync α (F → V)) :=
  new data rate start ((cals.getD []).map CalArg.toFn)

/-- `_index_to_time`, signalset.py:786-790; dividing by a zero rate raises ZeroDivisionError. -/
def indexToTime [Rnd] (s : Sync α κ) (i : Int) : Except Err ℚ :=
  let i := if i < 0 then i + s.size else i
  if s.rate = 0 then .error .zeroDiv else .ok (rnd (s.start + rnd (rnd i / s.rate)))

/-- Property `stop`, signalset.py:759-762. -/
def stop [Rnd] (s : Sync α κ) : Except Err ℚ := s.indexToTime (s.size - 1)

/-- Property `interval`, signalset.py:764-767. -/
def interval [Rnd] (s : Sync α κ) : Except Err (ℚ × ℚ) :=
  match s.stop with
  | .error e => .error e
  | .ok t => .ok (s.start, t)

/-- The accepted values of `round_to` (signalset.py:780-782, case-insensitive; others raise). -/
inductive Round | left | right
deriving DecidableEq, Repr

/-- `_time_to_index`, signalset.py:778-784. -/
def timeToIndex [Rnd] (s : Sync α κ) (t : ℚ) : Round → Int
  | .right => ⌈rnd (rnd (t - s.start) * s.rate)⌉
  | .left => ⌊rnd (rnd (t - s.start) * s.rate)⌋

/-- `select(*indices)`, signalset.py:769-776.  (The list of channels is read before that of calibrations.) -/
def select [One κ] (s : Sync α κ) (indices : List Int) : Except Err (Sync α κ) :=
  match mapE (pyGet s.data) indices with
  | .error e => .error e
  | .ok data =>
    match mapE (pyGet s.cals) indices with
    | .error e => .error e
    | .ok cals => new data s.rate s.start cals

/-- `extract_i`, signalset.py:792-810. -/
def extractI [Rnd] [One κ] (s : Sync α κ) (iStart iStop : Option Int) (strict : Bool := true)
    (includeLast : Bool := false) : Except Err (Sync α κ) :=
  let i := iStart.getD 0
  let j := (iStop.map (fun j => if includeLast then j + 1 else j)).getD s.size
  if strict && !(decide (0 ≤ i) && decide (i < s.size) && decide (0 ≤ j) && decide (j ≤ s.size)) then
    .error .assertion
  else
    match s.indexToTime i with
    | .error e => .error e
    | .ok t => new (s.data.map (fun e => pySlice e i j)) s.rate t s.cals

/-- `extract_t`, signalset.py:812-828. -/
def extractT [Rnd] [One κ] (s : Sync α κ) (start stop : ℚ) (strict : Bool := false) : Except Err (Sync α κ) :=
  match s.stop with
  | .error e => .error e
  | .ok sstop =>
    if strict && !(decide (s.start ≤ start) && decide (start ≤ sstop)
        && decide (s.start ≤ stop) && decide (stop ≤ sstop)) then .error .assertion
    else
      let start' := if strict then start else min sstop (max s.start start)
      let stop' := if strict then stop else min sstop (max s.start stop)
      s.extractI (some (s.timeToIndex start' .right)) (some (s.timeToIndex stop' .left)) strict true

end Sync
end Razorback
