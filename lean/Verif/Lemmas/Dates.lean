/-
Lemmas about dates and their texts.
-/
import Verif.Spec.Calendar
import Verif.Lemmas.Rounding
import Mathlib.Data.List.Lex
import Mathlib.Data.Char
import Mathlib.Tactic.IntervalCases

namespace Razorback.Dates
open Razorback Razorback.Spec Razorback.Text

/-- Number of days of the years 1 to `y`. -/
def yearsDays (y : ℕ) : ℕ := 365 * y + y / 4 - y / 100 + y / 400

theorem isLeap_iff (y : ℕ) : isLeap y = true ↔ LeapYear y := by
  simp only [isLeap, LeapYear, Bool.and_eq_true, Bool.or_eq_true, beq_iff_eq, bne_iff_ne, Nat.dvd_iff_mod_eq_zero]
  constructor
  · rintro ⟨h1, h2⟩
    exact ⟨h1, fun h => h2.resolve_left (by simp [h])⟩
  · rintro ⟨h1, h2⟩
    by_cases h : y % 100 = 0
    · exact ⟨h1, .inr (h2 h)⟩
    · exact ⟨h1, .inl h⟩

theorem yearsDays_succ (y : ℕ) : yearsDays (y + 1) = yearsDays y + yearLen (y + 1) := by
  have h4 : (y + 1) / 4 = y / 4 + (if (y + 1) % 4 = 0 then 1 else 0) := by split <;> omega
  have h100 : (y + 1) / 100 = y / 100 + (if (y + 1) % 100 = 0 then 1 else 0) := by split <;> omega
  have h400 : (y + 1) / 400 = y / 400 + (if (y + 1) % 400 = 0 then 1 else 0) := by split <;> omega
  have hle : y / 100 ≤ y / 4 := by omega
  have hle' : (y + 1) / 100 ≤ (y + 1) / 4 := by omega
  have hy : yearLen (y + 1) = 365 + (if (y + 1) % 4 = 0 ∧ ((y + 1) % 100 ≠ 0 ∨ (y + 1) % 400 = 0) then 1 else 0) := by
    simp only [yearLen, isLeap, Bool.and_eq_true, Bool.or_eq_true, beq_iff_eq, bne_iff_ne]
    split <;> rfl
  rw [hy]
  unfold yearsDays
  rw [h400]
  have c1 : (y + 1) % 100 = 0 → (y + 1) % 4 = 0 := by omega
  have c2 : (y + 1) % 400 = 0 → (y + 1) % 100 = 0 := by omega
  generalize (y + 1) % 4 = a, (y + 1) % 100 = b, (y + 1) % 400 = c at *
  generalize y / 4 = p, y / 100 = q, y / 400 = r, (y + 1) / 4 = p', (y + 1) / 100 = q' at *
  by_cases ha : a = 0 <;> by_cases hb : b = 0 <;> by_cases hc : c = 0 <;> simp_all <;> omega

theorem yearLen_pos (y : ℕ) : 0 < yearLen y := by unfold yearLen; split <;> omega

theorem yearsDays_mono {a b : ℕ} (h : a ≤ b) : yearsDays a ≤ yearsDays b := by
  induction b, h using Nat.le_induction with
  | base => exact le_rfl
  | succ b _ ih => rw [yearsDays_succ]; omega

theorem findYear_iff (k y n y' r : ℕ) : findYear k (y + 1) n = some (y' + 1, r) ↔
    y ≤ y' ∧ y' < y + k ∧ n + yearsDays y = yearsDays y' + r ∧ r < yearLen (y' + 1) := by
  induction k generalizing y n with
  | zero =>
    simp only [findYear, reduceCtorEq, false_iff]
    omega
  | succ k ih =>
    rw [findYear]
    have hs := yearsDays_succ y
    split
    · rename_i h
      simp only [Option.some.injEq, Prod.mk.injEq, Nat.add_right_cancel_iff]
      constructor
      · rintro ⟨rfl, rfl⟩
        exact ⟨le_rfl, by omega, by omega, h⟩
      · rintro ⟨h1, h2, h3, h4⟩
        rcases Nat.eq_or_lt_of_le h1 with rfl | hlt
        · exact ⟨rfl, by omega⟩
        · have := yearsDays_mono (show y + 1 ≤ y' from hlt)
          omega
    · rename_i h
      rw [ih]
      constructor
      · rintro ⟨h1, h2, h3, h4⟩
        exact ⟨by omega, by omega, by omega, h4⟩
      · rintro ⟨h1, h2, h3, h4⟩
        have hne : y ≠ y' := by
          rintro rfl
          omega
        exact ⟨by omega, by omega, by omega, h4⟩

theorem findYear_none (k y n : ℕ) : findYear k (y + 1) n = none ↔ yearsDays (y + k) ≤ n + yearsDays y := by
  induction k generalizing y n with
  | zero => simp [findYear]
  | succ k ih =>
    have hs := yearsDays_succ y
    have hm := yearsDays_mono (show y + 1 ≤ y + (k + 1) by omega)
    rw [findYear]
    split
    · simp only [reduceCtorEq, false_iff]
      omega
    · rw [ih, show y + 1 + k = y + (k + 1) by omega]
      omega

theorem findYear_pos {k y n y' r : ℕ} (h : findYear k (y + 1) n = some (y', r)) : ∃ y'', y' = y'' + 1 := by
  induction k generalizing y n with
  | zero => simp [findYear] at h
  | succ k ih =>
    rw [findYear] at h
    split at h
    · simp only [Option.some.injEq, Prod.mk.injEq] at h
      exact ⟨y, h.1.symm⟩
    · exact ih h

theorem findYear_next {n y r : ℕ} (h : findYear 9999 1 n = some (y, r)) : (1 ≤ y ∧ y ≤ 9999) ∧ r < yearLen y ∧
    (r + 1 < yearLen y → findYear 9999 1 (n + 1) = some (y, r + 1)) ∧
    (r + 1 = yearLen y → y < 9999 → findYear 9999 1 (n + 1) = some (y + 1, 0)) ∧
    (r + 1 = yearLen y → y = 9999 → findYear 9999 1 (n + 1) = none) := by
  obtain ⟨y, rfl⟩ := findYear_pos (y := 0) h
  obtain ⟨h1, h2, h3, h4⟩ := (findYear_iff 9999 0 n y r).1 h
  have hs := yearsDays_succ y
  refine ⟨⟨by omega, by omega⟩, h4, fun h5 => ?_, fun h5 h6 => ?_, fun h5 h6 => ?_⟩
  · exact (findYear_iff 9999 0 _ y _).2 ⟨h1, h2, by omega, h5⟩
  · exact (findYear_iff 9999 0 _ (y + 1) 0).2 ⟨by omega, by omega, by omega, yearLen_pos _⟩
  · refine (findYear_none 9999 0 _).2 ?_
    have : y + 1 = 9999 := h6
    rw [zero_add, ← this]
    omega

/-- The months of a year, by its days: all of them. -/
theorem findMonth_next' : ∀ leap : Bool, ∀ n < (if leap then 366 else 365),
    let lens := [31, if leap then 29 else 28, 31, 30, 31, 30, 31, 31, 30, 31, 30, 31]
    let md := findMonth lens 1 n
    1 ≤ md.1 ∧ md.1 ≤ 12 ∧ md.2 < lens.getD (md.1 - 1) 0 ∧
      (n + 1 < (if leap then 366 else 365) → findMonth lens 1 (n + 1) =
        if md.2 + 1 < lens.getD (md.1 - 1) 0 then (md.1, md.2 + 1) else (md.1 + 1, 0)) ∧
      (n + 1 < (if leap then 366 else 365) → ¬ md.2 + 1 < lens.getD (md.1 - 1) 0 → md.1 < 12) ∧
      (n + 1 = (if leap then 366 else 365) → md = (12, 30)) := by decide +kernel

theorem monthLens_days (y m : ℕ) (h : 1 ≤ m) (h' : m ≤ 12) : (monthLens y).getD (m - 1) 0 = monthDays y m := by
  unfold monthLens monthDays
  have hl := isLeap_iff y
  by_cases hly : LeapYear y
  · rw [hl.2 hly]
    simp only [hly, if_true]
    interval_cases m <;> rfl
  · have : isLeap y = false := by
      rw [← Bool.not_eq_true, hl]
      exact hly
    simp only [this, hly, if_false]
    interval_cases m <;> rfl

theorem findMonth_next (y n : ℕ) (hn : n < yearLen y) :
    let md := findMonth (monthLens y) 1 n
    1 ≤ md.1 ∧ md.1 ≤ 12 ∧ md.2 < monthDays y md.1 ∧
      (n + 1 < yearLen y → findMonth (monthLens y) 1 (n + 1) = if md.2 + 1 < monthDays y md.1 then (md.1, md.2 + 1) else (md.1 + 1, 0)) ∧
      (n + 1 < yearLen y → ¬ md.2 + 1 < monthDays y md.1 → md.1 < 12) ∧
      (n + 1 = yearLen y → md = (12, 30)) := by
  have := findMonth_next' (isLeap y) n hn
  dsimp only at this ⊢
  change 1 ≤ (findMonth (monthLens y) 1 n).1 ∧ (findMonth (monthLens y) 1 n).1 ≤ 12 ∧
    (findMonth (monthLens y) 1 n).2 < (monthLens y).getD ((findMonth (monthLens y) 1 n).1 - 1) 0 ∧
    (n + 1 < yearLen y → findMonth (monthLens y) 1 (n + 1) = if (findMonth (monthLens y) 1 n).2 + 1 < (monthLens y).getD ((findMonth (monthLens y) 1 n).1 - 1) 0 then
      ((findMonth (monthLens y) 1 n).1, (findMonth (monthLens y) 1 n).2 + 1) else ((findMonth (monthLens y) 1 n).1 + 1, 0)) ∧
    (n + 1 < yearLen y → ¬ (findMonth (monthLens y) 1 n).2 + 1 < (monthLens y).getD ((findMonth (monthLens y) 1 n).1 - 1) 0 → (findMonth (monthLens y) 1 n).1 < 12) ∧
    (n + 1 = yearLen y → findMonth (monthLens y) 1 n = (12, 30)) at this
  rw [monthLens_days y _ this.1 this.2.1] at this
  exact this

theorem findMonth_first (y : ℕ) : findMonth (monthLens y) 1 0 = (1, 0) := by
  simp [monthLens, findMonth]

/-- The range of dates. -/
theorem utc_ok (t : ℤ) : (∃ d, utcfromtimestamp t = .ok d) ↔ -62135596800 ≤ t ∧ t < 253402300800 := by
  unfold utcfromtimestamp
  have hd : yearsDays 9999 = 3652059 := by decide
  split
  · simp only [reduceCtorEq, exists_false, false_iff]
    omega
  · have hN := findYear_none 9999 0 ((t + 62135596800).toNat / 86400)
    rw [zero_add, hd, show yearsDays 0 = 0 by decide] at hN
    cases hf : findYear 9999 1 ((t + 62135596800).toNat / 86400) with
    | none =>
      have := hN.1 hf
      simp only [hf, reduceCtorEq, exists_false, false_iff]
      omega
    | some p =>
      have : ¬ 3652059 ≤ (t + 62135596800).toNat / 86400 + 0 := by
        intro h
        rw [hN.2 h] at hf
        cases hf
      simp only [hf, Except.ok.injEq, exists_eq', true_iff]
      omega

theorem utc_error {t : ℤ} {e : Err} (h : utcfromtimestamp t = .error e) : e = .value := by
  unfold utcfromtimestamp at h
  split at h
  · simpa using h.symm
  · dsimp only at h
    split at h
    · simpa using h.symm
    · cases h

/-- One second later. -/
theorem utc_next {t : ℤ} {d : DateTime} (h : utcfromtimestamp t = .ok d) : Exists d ∧
    ((d ≠ ⟨9999, 12, 31, 23, 59, 59⟩ → utcfromtimestamp (t + 1) = .ok (tick d)) ∧
      (d = ⟨9999, 12, 31, 23, 59, 59⟩ → utcfromtimestamp (t + 1) = .error .value)) := by
  unfold utcfromtimestamp at h
  split at h
  · cases h
  rename_i h0
  obtain ⟨n, hn⟩ : ∃ n : ℕ, t + 62135596800 = n := ⟨(t + 62135596800).toNat, by omega⟩
  have hn' : t + 1 + 62135596800 = ((n + 1 : ℕ) : ℤ) := by push_cast; omega
  simp only [hn, Int.toNat_natCast] at h
  have hu : utcfromtimestamp (t + 1) = match findYear 9999 1 ((n + 1) / 86400) with
    | none => .error .value
    | some (y, d) => .ok ⟨y, (findMonth (monthLens y) 1 d).1, (findMonth (monthLens y) 1 d).2 + 1, (n + 1) % 86400 / 3600, (n + 1) % 3600 / 60, (n + 1) % 60⟩ := by
    unfold utcfromtimestamp
    rw [hn', if_neg (by omega), Int.toNat_natCast]
    rfl
  cases hf : findYear 9999 1 (n / 86400) with
  | none => rw [hf] at h; cases h
  | some p =>
    obtain ⟨y, r⟩ := p
    rw [hf] at h
    simp only [Except.ok.injEq] at h
    obtain ⟨hy, hr, f1, f2, f3⟩ := findYear_next hf
    obtain ⟨m1, m2, m3, m4, m5, m6⟩ := findMonth_next y r hr
    obtain ⟨⟨m, dd⟩, hmd⟩ : ∃ md, findMonth (monthLens y) 1 r = md := ⟨_, rfl⟩
    rw [hmd] at h m1 m2 m3 m4 m5 m6
    dsimp only at *
    subst h
    refine ⟨⟨hy, ⟨m1, m2⟩, ⟨by simp, m3⟩, by dsimp only; omega, by dsimp only; omega, by dsimp only; omega⟩, ?_⟩
    by_cases hday : (n + 1) / 86400 = n / 86400
    · have hne : (⟨y, m, dd + 1, n % 86400 / 3600, n % 3600 / 60, n % 60⟩ : DateTime) ≠ ⟨9999, 12, 31, 23, 59, 59⟩ := by
        intro h
        simp only [DateTime.mk.injEq] at h
        omega
      refine ⟨fun _ => ?_, fun h => absurd h hne⟩
      rw [hu, hday, hf]
      simp only [Except.ok.injEq, hmd]
      unfold tick
      dsimp only
      by_cases hs : n % 60 < 59
      · rw [if_pos hs]
        simp only [DateTime.mk.injEq, true_and]
        omega
      rw [if_neg hs]
      by_cases hm : n % 3600 / 60 < 59
      · rw [if_pos hm]
        simp only [DateTime.mk.injEq, true_and]
        omega
      rw [if_neg hm, if_pos (by omega)]
      simp only [DateTime.mk.injEq, true_and]
      omega
    · have e1 : (n + 1) / 86400 = n / 86400 + 1 := by omega
      have e2 : (n + 1) % 86400 / 3600 = 0 := by omega
      have e3 : (n + 1) % 3600 / 60 = 0 := by omega
      have e4 : (n + 1) % 60 = 0 := by omega
      have e5 : n % 86400 / 3600 = 23 := by omega
      have e6 : n % 3600 / 60 = 59 := by omega
      have e7 : n % 60 = 59 := by omega
      rw [hu, e1, e2, e3, e4, e5, e6, e7]
      unfold tick
      simp only [lt_irrefl, if_false]
      by_cases hlast : r + 1 < yearLen y
      · rw [f1 hlast]
        simp only [m4 hlast]
        have h12 := m5 hlast
        refine ⟨fun _ => ?_, fun h => ?_⟩
        · by_cases hd : dd + 1 < monthDays y m
          · rw [if_pos hd, if_pos hd]
          · rw [if_neg hd, if_neg hd, if_pos (h12 hd)]
        · exfalso
          simp only [DateTime.mk.injEq, and_true] at h
          obtain ⟨-, rfl, hd⟩ := h
          have : monthDays y 12 = 31 := rfl
          omega
      · have hlast : r + 1 = yearLen y := by omega
        have := m6 hlast
        simp only [Prod.mk.injEq] at this
        obtain ⟨rfl, rfl⟩ := this
        have h31 : monthDays y 12 = 31 := rfl
        rw [h31]
        simp only [lt_irrefl, if_false]
        refine ⟨fun h => ?_, fun h => ?_⟩
        · have hy' : y < 9999 := by
            rcases Nat.lt_or_ge y 9999 with h' | h'
            · exact h'
            · exact absurd (by rw [show y = 9999 by omega]) h
          rw [f2 hlast hy']
          simp only [findMonth_first]
        · simp only [DateTime.mk.injEq, and_true] at h
          rw [f3 hlast h]

theorem append_lt_left (p : Txt) {a b : Txt} (h : a < b) : p ++ a < p ++ b := by
  induction p with
  | nil => exact h
  | cons c p ih => exact List.cons_lt_cons_iff.2 (.inr ⟨rfl, ih⟩)

theorem append_lt_of_lt {a b : Txt} (h : a < b) (hl : a.length = b.length) (x y : Txt) : a ++ x < b ++ y := by
  induction a generalizing b with
  | nil =>
    cases b with
    | nil => exact absurd h (lt_irrefl _)
    | cons c b => simp at hl
  | cons c a ih =>
    cases b with
    | nil => simp at hl
    | cons c' b =>
      rcases List.cons_lt_cons_iff.1 h with h1 | ⟨rfl, h1⟩
      · exact List.cons_lt_cons_iff.2 (.inl h1)
      · exact List.cons_lt_cons_iff.2 (.inr ⟨rfl, ih h1 (by simpa using hl)⟩)

theorem padded_length (k n : ℕ) : (padded k n).length = k := by
  induction k generalizing n with
  | zero => rfl
  | succ k ih => simp [padded, ih]

theorem digitChar_lt : ∀ b < 10, ∀ a < b, Nat.digitChar a < Nat.digitChar b := by decide

theorem padded_lt (k : ℕ) {n n' : ℕ} (h : n < n') (h' : n' < 10 ^ k) : padded k n < padded k n' := by
  induction k generalizing n n' with
  | zero => simp at h'; omega
  | succ k ih =>
    rw [padded, padded]
    by_cases hd : n / 10 = n' / 10
    · rw [hd]
      refine append_lt_left _ (List.cons_lt_cons_iff.2 (.inl (digitChar_lt _ (Nat.mod_lt _ (by norm_num)) _ (by omega))))
    · exact append_lt_of_lt (ih (by omega) (by rw [pow_succ] at h'; omega)) (by simp [padded_length]) _ _

theorem dateText_length (d : DateTime) : (dateText d).length = 19 := by
  simp [dateText, padded_length]

/-- One date before another. -/
def Before (d d' : DateTime) : Prop := d.year < d'.year ∨ d.year = d'.year ∧ (d.month < d'.month ∨ d.month = d'.month ∧ (d.day < d'.day ∨ d.day = d'.day ∧
  (d.hour < d'.hour ∨ d.hour = d'.hour ∧ (d.minute < d'.minute ∨ d.minute = d'.minute ∧ d.second < d'.second))))

theorem monthDays_le (y m : ℕ) : monthDays y m ≤ 31 := by
  unfold monthDays
  split
  · split <;> omega
  · split <;> omega

theorem dateText_lt {d d' : DateTime} (hy : d'.year ≤ 9999) (h2 : d'.month < 100) (h3 : d'.day < 100) (h4 : d'.hour < 100) (h5 : d'.minute < 100)
    (h6 : d'.second < 100) (h : Before d d') : dateText d < dateText d' := by
  have hlen : ∀ k n n', (padded k n).length = (padded k n').length := fun k n n' => by rw [padded_length, padded_length]
  unfold dateText
  simp only [List.append_assoc]
  rcases h with h | ⟨e, h⟩
  · exact append_lt_of_lt (padded_lt 4 h (by omega)) (hlen _ _ _) _ _
  rw [e]
  refine append_lt_left _ (append_lt_left _ ?_)
  rcases h with h | ⟨e, h⟩
  · exact append_lt_of_lt (padded_lt 2 h (by omega)) (hlen _ _ _) _ _
  rw [e]
  refine append_lt_left _ (append_lt_left _ ?_)
  rcases h with h | ⟨e, h⟩
  · exact append_lt_of_lt (padded_lt 2 h (by omega)) (hlen _ _ _) _ _
  rw [e]
  refine append_lt_left _ (append_lt_left _ ?_)
  rcases h with h | ⟨e, h⟩
  · exact append_lt_of_lt (padded_lt 2 h (by omega)) (hlen _ _ _) _ _
  rw [e]
  refine append_lt_left _ (append_lt_left _ ?_)
  rcases h with h | ⟨e, h⟩
  · exact append_lt_of_lt (padded_lt 2 h (by omega)) (hlen _ _ _) _ _
  rw [e]
  exact append_lt_left _ (append_lt_left _ (padded_lt 2 h (by omega)))

theorem before_tick (d : DateTime) : Before d (tick d) := by
  unfold tick Before
  split_ifs <;> simp

theorem text_next {t : ℤ} {d d' : DateTime} (h : utcfromtimestamp t = .ok d) (h' : utcfromtimestamp (t + 1) = .ok d') : dateText d < dateText d' := by
  obtain ⟨-, h1, h2⟩ := utc_next h
  have hd : d' = tick d := by
    by_cases he : d = ⟨9999, 12, 31, 23, 59, 59⟩
    · rw [h2 he] at h'
      cases h'
    · rw [h1 he] at h'
      exact (Except.ok.inj h').symm
  have hx := (utc_next h').1
  have := monthDays_le d'.year d'.month
  refine dateText_lt hx.year.2 (by have := hx.month.2; omega) (by have := hx.day.2; omega) (by have := hx.hour; omega) (by have := hx.minute; omega)
    (by have := hx.second; omega) ?_
  rw [hd]
  exact before_tick d

/-- Texts of dates are in the order of the dates. -/
theorem text_lt {t t' : ℤ} {d d' : DateTime} (h : utcfromtimestamp t = .ok d) (h' : utcfromtimestamp t' = .ok d') (ht : t < t') : dateText d < dateText d' := by
  obtain ⟨k, rfl⟩ : ∃ k : ℕ, t' = t + k + 1 := ⟨(t' - t - 1).toNat, by omega⟩
  clear ht
  induction k generalizing d' with
  | zero => exact text_next h (by simpa using h')
  | succ k ih =>
    have r1 := (utc_ok t).1 ⟨d, h⟩
    have r2 := (utc_ok _).1 ⟨d', h'⟩
    obtain ⟨d2, h2⟩ := (utc_ok (t + k + 1)).2 ⟨by omega, by push_cast at r2; omega⟩
    refine lt_trans (ih h2) (text_next h2 ?_)
    rw [← h']
    congr 1
    push_cast
    omega

theorem roundEven_mono {a b : ℚ} (h : a ≤ b) : roundEven a ≤ roundEven b := by
  by_contra hc
  push Not at hc
  have h1 := abs_le.1 (roundEven_spec a)
  have h2 := abs_le.1 (roundEven_spec b)
  have h3 : (roundEven b : ℚ) + 1 ≤ roundEven a := by exact_mod_cast hc
  have : a = b := by linarith [h1.1, h1.2, h2.1, h2.2]
  rw [this] at hc
  exact lt_irrefl _ hc

end Razorback.Dates
