/-
Model of the dates by which `SignalSet.__str__` and `SyncSignal.__str__` show times, and of these texts.
-/
import Verif.Model.Text
import Verif.Model.Rounding

namespace Razorback.Dates
open Razorback Razorback.Text

/-- A `datetime.datetime` of whole seconds. -/
structure DateTime where
  year : Nat
  month : Nat
  day : Nat
  hour : Nat
  minute : Nat
  second : Nat
deriving DecidableEq, Repr

/-- `calendar.isleap` -/
def isLeap (y : Nat) : Bool := y % 4 == 0 && (y % 100 != 0 || y % 400 == 0)

/-- Number of days of a year. -/
def yearLen (y : Nat) : Nat := if isLeap y then 366 else 365

/-- Numbers of days of the months. -/
def monthLens (y : Nat) : List Nat := [31, if isLeap y then 29 else 28, 31, 30, 31, 30, 31, 31, 30, 31, 30, 31]

/-- The year and the day of the year (from 0) of day `n` after the beginning of year `y`, if among the `k` years from there. -/
def findYear : Nat → Nat → Nat → Option (Nat × Nat)
  | 0, _, _ => none
  | k + 1, y, n => if n < yearLen y then some (y, n) else findYear k (y + 1) (n - yearLen y)

/-- The month and the day of the month (from 0) of day `n` after the beginning of month `m`, given the lengths of the months. -/
def findMonth : List Nat → Nat → Nat → Nat × Nat
  | [], m, n => (m, n)
  | l :: r, m, n => if n < l then (m, n) else findMonth r (m + 1) (n - l)

/-- `datetime.utcfromtimestamp(t)` for a whole number of seconds, used in signalset.py:257, 700 (standard library): the date in the years
1 to 9999, else ValueError (numbers of seconds beyond the 64 bits of `time_t` raise OverflowError, not modelled). -/
def utcfromtimestamp (t : Int) : Except Err DateTime :=
  if t + 62135596800 < 0 then .error .value
  else
    let n := (t + 62135596800).toNat
    match findYear 9999 1 (n / 86400) with
    | none => .error .value
    | some (y, d) =>
      let md := findMonth (monthLens y) 1 d
      .ok ⟨y, md.1, md.2 + 1, n % 86400 / 3600, n % 3600 / 60, n % 60⟩

/-- `'%0kd' % n` for a number of at most `k` digits. -/
def padded : Nat → Nat → Txt
  | 0, _ => []
  | k + 1, n => padded k (n / 10) ++ [Nat.digitChar (n % 10)]

/-- `str` of a datetime of whole seconds (standard library). -/
def dateText (d : DateTime) : Txt :=
  padded 4 d.year ++ ['-'] ++ padded 2 d.month ++ ['-'] ++ padded 2 d.day ++ [' '] ++
    padded 2 d.hour ++ [':'] ++ padded 2 d.minute ++ [':'] ++ padded 2 d.second

/-- `'%s' % datetime.utcfromtimestamp(np.round(sec))`, signalset.py:257, 700; `np.round` rounds halves to even. -/
def date (sec : ℚ) : Except Err Txt :=
  match utcfromtimestamp (roundEven sec) with
  | .error e => .error e
  | .ok d => .ok (dateText d)

/-- `w.rjust(n)` -/
def rjust (n : Nat) (w : Txt) : Txt := List.replicate (n - w.length) ' ' ++ w

section
variable {α κ : Type _} [Rnd]

/-- The line of a run in `SignalSet.__str__`, signalset.py:262-263; `rate` is the conversion `'%10.5g'`. -/
def runLine (rate : ℚ → Txt) (s : Sync α κ) : Except Err Txt :=
  match date s.start with
  | .error e => .error e
  | .ok a =>
    match s.stop with
    | .error e => .error e
    | .ok t =>
      match date t with
      | .error e => .error e
      | .ok b => .ok (join [' ', ' '] [rjust 10 (rate s.rate), rjust 19 a, rjust 19 b])

/-- The title of the table, signalset.py:254-261. -/
def titleLine : Txt := join [' ', ' '] [rjust 10 "sampling".toList, rjust 19 "start".toList, rjust 19 "stop".toList]

/-- The lines around the table, signalset.py:264. -/
def ruleLine : Txt := join [' ', ' '] [List.replicate 10 '-', List.replicate 19 '-', List.replicate 19 '-']

/-- `SignalSet.__str__`, signalset.py:252-286. -/
def setStr (rate : ℚ → Txt) (S : SigSet α κ) : Except Err Txt :=
  match mapE (runLine rate) S.runs with
  | .error e => .error e
  | .ok sigs =>
    let sig := join ['\n'] ([ruleLine, titleLine] ++ sigs ++ [ruleLine])
    match tagsBlock S.tags with
    | .error e => .error e
    | .ok tags => .ok (firstLine S.nbChannels S.runs.length ++ ['\n'] ++ tags ++ ['\n'] ++ sig)

/-- One line of `SyncSignal.__str__` after the first, signalset.py:709-711: the name in 14 characters, a colon, the value. -/
def item (name value : Txt) : Txt := "\n  - ".toList ++ name ++ List.replicate (14 - name.length) ' ' ++ " :   ".toList ++ value

/-- `SyncSignal.__str__`, signalset.py:699-718; `rate` is the conversion `str` of a float. -/
def syncStr (rate : ℚ → Txt) (s : Sync α κ) : Except Err Txt :=
  match date s.start with
  | .error e => .error e
  | .ok a =>
    match s.stop with
    | .error e => .error e
    | .ok t =>
      match date t with
      | .error e => .error e
      | .ok b => .ok ("SyncSignal".toList ++ item "nb of channels".toList (nat s.data.length) ++ item "signal size".toList (nat s.size) ++
          item "sampling rate".toList (rate s.rate ++ " Hz".toList) ++ item "start".toList a ++ item "stop".toList b)

end

end Razorback.Dates
