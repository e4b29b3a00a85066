/-
The Gregorian calendar, second by second, for C124.
-/
import Verif.Model.Dates

namespace Razorback.Spec
open Razorback Razorback.Dates

/-- Leap years: those divisible by 4, except the centuries not divisible by 400. -/
def LeapYear (y : ℕ) : Prop := 4 ∣ y ∧ (100 ∣ y → 400 ∣ y)

instance (y : ℕ) : Decidable (LeapYear y) := inferInstanceAs (Decidable (_ ∧ _))

/-- Number of days of a month. -/
def monthDays (y m : ℕ) : ℕ :=
  if m = 2 then (if LeapYear y then 29 else 28)
  else if m = 4 ∨ m = 6 ∨ m = 9 ∨ m = 11 then 30
  else 31

/-- A date that exists. -/
structure Exists (d : DateTime) : Prop where
  year : 1 ≤ d.year ∧ d.year ≤ 9999
  month : 1 ≤ d.month ∧ d.month ≤ 12
  day : 1 ≤ d.day ∧ d.day ≤ monthDays d.year d.month
  hour : d.hour < 24
  minute : d.minute < 60
  second : d.second < 60

/-- One second later. -/
def tick (d : DateTime) : DateTime :=
  if d.second < 59 then { d with second := d.second + 1 }
  else if d.minute < 59 then { d with minute := d.minute + 1, second := 0 }
  else if d.hour < 23 then { d with hour := d.hour + 1, minute := 0, second := 0 }
  else if d.day < monthDays d.year d.month then { d with day := d.day + 1, hour := 0, minute := 0, second := 0 }
  else if d.month < 12 then { d with month := d.month + 1, day := 1, hour := 0, minute := 0, second := 0 }
  else ⟨d.year + 1, 1, 1, 0, 0, 0⟩

end Razorback.Spec
