/-
Floating point values multiplied and divided by numbers.
-/
import Verif.Model.Flt
import Mathlib.Tactic.FieldSimp
import Mathlib.Tactic.Ring
import Mathlib.Tactic.Positivity

namespace Razorback.Flt

theorem div_scaled {c x r : ℝ} (hc : 0 ≤ c) (hx : 0 ≤ x) : div (fin (c * x)) (fin r) = mul (fin c) (div (fin x) (fin r)) := by
  simp only [div]
  by_cases hr : r = 0
  · simp only [hr, if_true]
    rcases hc.eq_or_lt with rfl | hc
    · by_cases h : x = 0
      · simp [h, mul]
      · simp [h, mul, infTimes, lt_of_le_of_ne hx (Ne.symm h)]
    · by_cases h : x = 0
      · simp [h, mul]
      · have hx' := lt_of_le_of_ne hx (Ne.symm h)
        simp [h, mul, infTimes, hx', hc, hc.ne', mul_pos hc hx']
  · simp only [hr, if_false, mul, fin.injEq]
    ring

theorem div_scaled_nan {c x : ℝ} : div (fin (c * x)) nan = mul (fin c) (div (fin x) nan) := rfl

theorem mul_scaled_div {c m : ℝ} (hc : 0 ≤ c) (v : Flt) : div (mul (fin c) v) (fin m) = mul (fin c) (div v (fin m)) := by
  rcases hc.eq_or_lt with rfl | hc
  · cases v with
    | nan => rfl
    | ninf => by_cases hm : m < 0 <;> simp [mul, infTimes, div, hm]
    | pinf => by_cases hm : m < 0 <;> simp [mul, infTimes, div, hm]
    | fin x =>
      by_cases hm : m = 0
      · simp only [mul, div, hm, zero_mul, if_true]
        split_ifs <;> simp [mul, infTimes]
      · simp [mul, div, hm]
  · cases v with
    | nan => rfl
    | ninf => simp only [mul, infTimes, hc.ne', hc, div]; by_cases hm : m < 0 <;> simp [mul, infTimes, hm, hc, hc.ne', div]
    | pinf => simp only [mul, infTimes, hc.ne', hc, div]; by_cases hm : m < 0 <;> simp [mul, infTimes, hm, hc, hc.ne', div]
    | fin x =>
      by_cases hm : m = 0
      · simp only [mul, div, hm, if_true]
        by_cases h : x = 0
        · simp [h, mul]
        · by_cases h' : 0 < x
          · simp [h, h', hc.ne', mul, infTimes, hc]
          · have h'' : x < 0 := lt_of_le_of_ne (not_lt.1 h') h
            simp [h, h', hc.ne', mul, infTimes, hc, mul_pos_iff, not_lt.2 hc.le]
      · simp only [mul, div, hm, if_false, fin.injEq]
        ring

theorem mul_scaled_mul {c s : ℝ} (hc : 0 ≤ c) (v : Flt) : mul (mul (fin c) v) (fin s) = mul (fin c) (mul v (fin s)) := by
  rcases hc.eq_or_lt with rfl | hc
  · cases v with
    | nan => rfl
    | ninf => simp only [mul, infTimes]; split_ifs <;> simp [mul, infTimes]
    | pinf => simp only [mul, infTimes]; split_ifs <;> simp [mul, infTimes]
    | fin x => simp [mul]
  · cases v with
    | nan => rfl
    | ninf => 
      by_cases h : s = 0
      · simp [mul, infTimes, hc, hc.ne', h]
      · by_cases h' : 0 < s <;> simp [mul, infTimes, hc, hc.ne', h, h']
    | pinf =>
      by_cases h : s = 0
      · simp [mul, infTimes, hc, hc.ne', h]
      · by_cases h' : 0 < s <;> simp [mul, infTimes, hc, hc.ne', h, h']
    | fin x => simp only [mul, fin.injEq]; ring

theorem mul_div_pos {s d : ℝ} (hd : 0 < d) (v : Flt) : mul v (fin (s / d)) = div (mul v (fin s)) (fin d) := by
  have hd' : ¬ d < 0 := not_lt.2 hd.le
  cases v with
  | nan => rfl
  | ninf =>
    by_cases h : s = 0
    · simp [mul, infTimes, h, div]
    · by_cases h' : 0 < s
      · simp [mul, infTimes, h, h', hd, hd.ne', hd', div]
      · have : ¬ 0 < s / d := by rw [div_pos_iff_of_pos_right hd]; exact h'
        simp [mul, infTimes, h, h', hd.ne', hd', div, this]
  | pinf =>
    by_cases h : s = 0
    · simp [mul, infTimes, h, div]
    · by_cases h' : 0 < s
      · simp [mul, infTimes, h, h', hd, hd.ne', hd', div]
      · have : ¬ 0 < s / d := by rw [div_pos_iff_of_pos_right hd]; exact h'
        simp [mul, infTimes, h, h', hd.ne', hd', div, this]
  | fin x => simp only [mul, div, hd.ne', if_false, fin.injEq]; ring

/-- Multiplying by a factor and dividing by a number is multiplying by the quotient. -/
theorem mul_div_eq {a d : ℝ} (ha : 0 ≤ a) (hd : 0 < d) (v : Flt) : mul (fin a) (div v (fin d)) = mul (fin (a / d)) v := by
  have hd' : ¬ d < 0 := not_lt.2 hd.le
  rcases ha.eq_or_lt with rfl | ha
  · cases v <;> simp [mul, div, infTimes, hd', hd.ne']
  · have : 0 < a / d := div_pos ha hd
    cases v with
    | nan => rfl
    | ninf => simp [mul, div, infTimes, hd', this, this.ne', ha, ha.ne', hd.ne', hd]
    | pinf => simp [mul, div, infTimes, hd', this, this.ne', ha, ha.ne', hd.ne', hd]
    | fin x => simp only [mul, div, hd.ne', if_false, fin.injEq]; ring

theorem one_mul' (v : Flt) : mul (fin 1) v = v := by
  cases v <;> simp [mul, infTimes]

end Razorback.Flt
