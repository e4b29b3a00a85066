/-
Rounding errors of times and indices, for any sampling rate.
-/
import Verif.Lemmas.DoubleSet

namespace Razorback
open Spec
variable {α κ : Type _}

theorem fl_nonpos {x : ℚ} (h : x ≤ 0) : fl x ≤ 0 := by
  have := (abs_le.1 (fl_err x)).2
  rw [abs_of_nonpos h] at this
  have h2 : -x / 2 ^ 53 ≤ -x := div_le_self (by linarith) (by norm_num)
  linarith

theorem fl_abs_le (x : ℚ) : |fl x| ≤ |x| * (1 + 1 / 2 ^ 53) := by
  have h1 := fl_err x
  have h2 : |fl x| ≤ |x| + |fl x - x| := by
    calc |fl x| = |x + (fl x - x)| := by ring_nf
      _ ≤ _ := abs_add_le _ _
  linarith [mul_add |x| 1 (1 / 2 ^ 53), (mul_one_div |x| (2 ^ 53))]

namespace RoundErr
variable {s : Sync α κ}

theorem span_eq (hr : 0 < s.rate) : (lastTime s - s.start) * s.rate = (s.size : ℚ) - 1 := by
  unfold lastTime
  field_simp
  ring

theorem span_le (h : Room s) : (s.size : ℚ) - 1 ≤ 2 ^ 49 := by
  rw [← span_eq h.rate]
  refine le_trans (mul_le_mul_of_nonneg_right ?_ h.rate.le) h.room
  linarith [le_abs_self (lastTime s), neg_abs_le s.start]

/-- Error on a time computed from an index. -/
theorem time_err_at {x0 rate : ℚ} {i : Nat} (hr : 0 < rate) (hi : (i : ℚ) ≤ 2 ^ 53) :
    |fl (x0 + fl (fl ((i : ℤ) : ℚ) / rate)) - sampleTime rate x0 i| * rate ≤ (|x0| * rate + 3 * i) / 2 ^ 53 := by
  have hi0 : (0 : ℚ) ≤ i := by positivity
  have hd : fl ((i : ℤ) : ℚ) = (i : ℤ) := by
    refine fl_of_double (isDouble_int ?_)
    have h1 : (|(i : ℤ)| : ℤ) = i := abs_of_nonneg (by omega)
    rw [h1]
    exact_mod_cast hi
  rw [hd]
  unfold sampleTime
  push_cast
  generalize hx : (i : ℚ) / rate = x
  have hx0 : 0 ≤ x := by rw [← hx]; exact div_nonneg hi0 hr.le
  have hxr : x * rate = i := by rw [← hx]; field_simp
  have e1 := fl_err x
  rw [abs_of_nonneg hx0] at e1
  have e2 := fl_err (x0 + fl x)
  have e3 : fl x ≤ 2 * x := by
    have := (abs_le.1 e1).2
    have : x / 2 ^ 53 ≤ x := div_le_self hx0 (by norm_num)
    linarith
  have e4 : |x0 + fl x| ≤ |x0| + 2 * x := by
    refine (abs_add_le _ _).trans ?_
    rw [abs_of_nonneg (SigSet.fl_nonneg hx0)]
    linarith
  have e5 : |fl (x0 + fl x) - (x0 + x)| ≤ (|x0| + 3 * x) / 2 ^ 53 := by
    have : |fl (x0 + fl x) - (x0 + x)| ≤ |fl (x0 + fl x) - (x0 + fl x)| + |fl x - x| := by
      calc _ = |(fl (x0 + fl x) - (x0 + fl x)) + (fl x - x)| := by ring_nf
        _ ≤ _ := abs_add_le _ _
    have h2 : |x0 + fl x| / 2 ^ 53 ≤ (|x0| + 2 * x) / 2 ^ 53 := by gcongr
    have : (|x0| + 3 * x) / 2 ^ 53 = (|x0| + 2 * x) / 2 ^ 53 + x / 2 ^ 53 := by ring
    linarith
  refine (mul_le_mul_of_nonneg_right e5 hr.le).trans ?_
  rw [show (|x0| + 3 * x) / 2 ^ 53 * rate = (|x0| * rate + 3 * (x * rate)) / 2 ^ 53 by ring, hxr]

theorem start_room (h : Room s) : |s.start| * s.rate ≤ 2 ^ 49 := by
  refine (mul_le_mul_of_nonneg_right ?_ h.rate.le).trans h.room
  linarith [abs_nonneg (lastTime s)]

/-- Error on the time of a sample. -/
theorem time_err (h : Room s) {i : Nat} (hi : i ≤ s.size) :
    |fl (s.start + fl (fl ((i : ℤ) : ℚ) / s.rate)) - sampleTime s.rate s.start i| * s.rate ≤ 13 / 50 := by
  have hr := h.rate
  have hsp := span_le h
  have hi' : (i : ℚ) ≤ s.size := by exact_mod_cast hi
  refine (time_err_at hr (by linarith)).trans ?_
  have := start_room h
  rw [div_le_iff₀ (by norm_num)]
  linarith

theorem half_of {x rate : ℚ} (hr : 0 < rate) (h : x * rate ≤ 13 / 50) : x ≤ 1 / (2 * rate) := by
  have h3 : (1 : ℚ) / (2 * rate) = 1 / 2 / rate := by rw [div_div]
  rw [h3, le_div_iff₀ hr]
  linarith

/-- Error on the index of a time. -/
theorem index_err {t : ℚ} (hr : 0 < s.rate) (ht : |t - s.start| * s.rate ≤ 2 ^ 49 + 1) :
    |fl (fl (t - s.start) * s.rate) - (t - s.start) * s.rate| ≤ 13 / 100 := by
  generalize hd : t - s.start = d at *
  have e1 := fl_err d
  have e2 := fl_err (fl d * s.rate)
  have e3 := fl_abs_le d
  have h1 : |fl (fl d * s.rate) - d * s.rate| ≤ |fl (fl d * s.rate) - fl d * s.rate| + |fl d - d| * s.rate := by
    rw [← abs_of_pos hr, ← abs_mul, abs_of_pos hr]
    calc _ = |(fl (fl d * s.rate) - fl d * s.rate) + (fl d - d) * s.rate| := by ring_nf
      _ ≤ _ := abs_add_le _ _
  have h2 : |fl d * s.rate| ≤ |d| * s.rate * (1 + 1 / 2 ^ 53) := by
    rw [abs_mul, abs_of_pos hr]
    nlinarith
  have h3 : |fl d - d| * s.rate ≤ |d| * s.rate / 2 ^ 53 := by
    have := mul_le_mul_of_nonneg_right e1 hr.le
    calc _ ≤ |d| / 2 ^ 53 * s.rate := this
      _ = _ := by ring
  have h4 : |fl d * s.rate| / 2 ^ 53 ≤ |d| * s.rate * (1 + 1 / 2 ^ 53) / 2 ^ 53 := by gcongr
  have h5 : 0 ≤ |d| * s.rate := mul_nonneg (abs_nonneg _) hr.le
  norm_num at *
  linarith

/-- The window clipped to the computed interval. -/
theorem clip_err (h : Room s) {T' : ℚ} (hT : |T' - lastTime s| * s.rate ≤ 13 / 50) (a : ℚ) :
    |min T' (max s.start a) - s.start| * s.rate ≤ 2 ^ 49 + 1 := by
  have hr := h.rate
  have hsp := span_le h
  have hse := span_eq hr
  have hle := Sync.start_le_lastTime hr h.size
  have h1 : |T' - s.start| * s.rate ≤ 2 ^ 49 + 13 / 50 := by
    have : |T' - s.start| ≤ |T' - lastTime s| + (lastTime s - s.start) := by
      rw [← abs_of_nonneg (by linarith : 0 ≤ lastTime s - s.start)]
      calc _ = |(T' - lastTime s) + (lastTime s - s.start)| := by ring_nf
        _ ≤ _ := abs_add_le _ _
    have := mul_le_mul_of_nonneg_right this hr.le
    rw [add_mul, hse] at this
    linarith
  have h2 : |min T' (max s.start a) - s.start| ≤ |T' - s.start| := by
    rw [abs_le]
    constructor
    · rcases min_choice T' (max s.start a) with hm | hm <;> rw [hm]
      · exact neg_abs_le _
      · have := le_max_left s.start a
        linarith [abs_nonneg (T' - s.start)]
    · have := min_le_left T' (max s.start a)
      linarith [le_abs_self (T' - s.start)]
  have := mul_le_mul_of_nonneg_right h2 hr.le
  linarith

/-- `extract_t` in double precision: all samples but the last one at half a period or more from the bounds
are treated as they should. -/
theorem extractT_err [One κ] (hw : WF s) (h : Room s) (a b : ℚ) :
    ∃ (r : Sync α κ) (k j : Nat), Dbl.syncExtractT s a b = .ok r ∧ k ≤ s.size ∧ j ≤ s.size ∧
      r.data = s.data.map (fun d => (d.drop k).take (j - k)) ∧ r.cals = s.cals ∧ r.rate = s.rate ∧ r.size = j - k ∧
      |r.start - sampleTime s.rate s.start k| * s.rate ≤ 13 / 50 ∧
      (∀ i, k ≤ i → min (lastTime s) a - 1 / (2 * s.rate) ≤ sampleTime s.rate s.start i) ∧
      (∀ i, i < j → sampleTime s.rate s.start i ≤ max s.start b + 1 / (2 * s.rate)) ∧
      (∀ i, a + 1 / (2 * s.rate) ≤ sampleTime s.rate s.start i → k ≤ i) ∧
      (∀ i, i + 1 < s.size → sampleTime s.rate s.start i ≤ b - 1 / (2 * s.rate) → i < j) := by
  have hr := h.rate
  have hstop := time_err h (i := s.size - 1) (by omega)
  generalize hT' : fl (s.start + fl (fl (((s.size - 1 : ℕ) : ℤ) : ℚ) / s.rate)) = T' at hstop
  have hlt : sampleTime s.rate s.start (s.size - 1) = lastTime s := (Sync.lastTime_eq h.size).symm
  rw [hlt] at hstop
  have hst : Dbl.stop s = .ok T' := by
    unfold Dbl.stop Sync.stop Sync.indexToTime
    have hs := h.size
    have e : ((s.size : ℤ) - 1) = ((s.size - 1 : ℕ) : ℤ) := by omega
    simp only [Rnd.rnd_double, hr.ne', if_false, e]
    rw [if_neg (by omega), hT']
  have ca := index_err hr (clip_err h hstop a)
  have cb := index_err hr (clip_err h hstop b)
  have hse := span_eq hr
  have hle := Sync.start_le_lastTime hr h.size
  -- in sample periods
  have hT1 : (s.size : ℚ) - 1 - 13 / 50 ≤ (T' - s.start) * s.rate := by
    have h1 := mul_le_mul_of_nonneg_right (neg_abs_le (T' - lastTime s)) hr.le
    have e : (T' - s.start) * s.rate = (T' - lastTime s) * s.rate + (lastTime s - s.start) * s.rate := by ring
    rw [e, hse]
    linarith
  have hT2 : (T' - s.start) * s.rate ≤ (s.size : ℚ) - 1 + 13 / 50 := by
    have h1 := mul_le_mul_of_nonneg_right (le_abs_self (T' - lastTime s)) hr.le
    have e : (T' - s.start) * s.rate = (T' - lastTime s) * s.rate + (lastTime s - s.start) * s.rate := by ring
    rw [e, hse]
    linarith
  have hs1 : (1 : ℚ) ≤ s.size := by exact_mod_cast h.size
  have hmin : ∀ c : ℚ, -(13 / 50) ≤ (min T' (max s.start c) - s.start) * s.rate ∧
      (min T' (max s.start c) - s.start) * s.rate ≤ (s.size : ℚ) - 1 + 13 / 50 := by
    intro c
    constructor
    · rcases min_choice T' (max s.start c) with hm | hm <;> rw [hm]
      · linarith
      · have : 0 ≤ (max s.start c - s.start) * s.rate := mul_nonneg (by linarith [le_max_left s.start c]) hr.le
        linarith
    · have : (min T' (max s.start c) - s.start) * s.rate ≤ (T' - s.start) * s.rate :=
        mul_le_mul_of_nonneg_right (by linarith [min_le_left T' (max s.start c)]) hr.le
      linarith
  generalize hA : min T' (max s.start a) = A at *
  generalize hB : min T' (max s.start b) = B at *
  have mA := hmin a
  have mB := hmin b
  rw [hA] at mA
  rw [hB] at mB
  generalize hEa : fl (fl (A - s.start) * s.rate) = Ea at *
  generalize hEb : fl (fl (B - s.start) * s.rate) = Eb at *
  have ca1 := (abs_le.1 ca).1
  have ca2 := (abs_le.1 ca).2
  have cb1 := (abs_le.1 cb).1
  have cb2 := (abs_le.1 cb).2
  have hk0 : 0 ≤ ⌈Ea⌉ := by
    have : (-1 : ℤ) < ⌈Ea⌉ := by rw [Int.lt_ceil]; push_cast; linarith
    omega
  have hk1 : ⌈Ea⌉ ≤ s.size := by rw [Int.ceil_le]; push_cast; linarith
  have hj0 : 0 ≤ ⌊Eb⌋ + 1 := by
    have : (-1 : ℤ) ≤ ⌊Eb⌋ := by rw [Int.le_floor]; push_cast; linarith
    omega
  have hj1 : ⌊Eb⌋ + 1 ≤ s.size := by
    have : ⌊Eb⌋ < (s.size : ℤ) := by rw [Int.floor_lt]; push_cast; linarith
    omega
  obtain ⟨k, hk⟩ := Int.eq_ofNat_of_zero_le hk0
  obtain ⟨j, hj⟩ := Int.eq_ofNat_of_zero_le hj0
  have hkn : k ≤ s.size := by omega
  have hjn : j ≤ s.size := by omega
  have hte := time_err h hkn
  -- a sample index in terms of its time
  have htime : ∀ i : Nat, (sampleTime s.rate s.start i - s.start) * s.rate = i := by
    intro i; unfold sampleTime; field_simp; ring
  have hp : ∀ x y : ℚ, (x - s.start) * s.rate ≤ (y - s.start) * s.rate + 1 / 2 → x ≤ y + 1 / (2 * s.rate) := by
    intro x y hxy
    have h1 : (x - y) * s.rate ≤ 1 / 2 := by linarith [sub_mul x s.start s.rate, sub_mul y s.start s.rate, sub_mul x y s.rate]
    have h2 : x - y ≤ 1 / 2 / s.rate := by rwa [le_div_iff₀ hr]
    have h3 : (1 : ℚ) / 2 / s.rate = 1 / (2 * s.rate) := by rw [div_div]
    linarith
  have hq : ∀ x y : ℚ, x + 1 / (2 * s.rate) ≤ y → (x - s.start) * s.rate + 1 / 2 ≤ (y - s.start) * s.rate := by
    intro x y hxy
    have h3 : (1 : ℚ) / (2 * s.rate) * s.rate = 1 / 2 := by field_simp
    have := mul_le_mul_of_nonneg_right hxy hr.le
    rw [add_mul, h3] at this
    linarith [sub_mul x s.start s.rate, sub_mul y s.start s.rate]
  have hkE : ∀ i : Nat, k ≤ i ↔ Ea ≤ i := by
    intro i
    have : (i : ℚ) = ((i : ℤ) : ℚ) := by push_cast; rfl
    rw [this, ← Int.ceil_le]
    omega
  have hjE : ∀ i : Nat, i < j ↔ (i : ℚ) ≤ Eb := by
    intro i
    have : (i : ℚ) = ((i : ℤ) : ℚ) := by push_cast; rfl
    rw [this, ← Int.le_floor]
    omega
  refine ⟨⟨s.data.map (fun d => (d.drop k).take (j - k)), s.cals, s.rate,
    fl (s.start + fl (fl ((k : ℤ) : ℚ) / s.rate)), j - k⟩, k, j, ?_, hkn, hjn, rfl, rfl, rfl, rfl, ?_, ?_, ?_, ?_, ?_⟩
  · unfold Dbl.stop at hst
    unfold Dbl.syncExtractT Sync.extractT
    rw [hst]
    simp only [Bool.false_and, Bool.false_eq_true, if_false, hA, hB]
    unfold Sync.extractI Sync.indexToTime Sync.timeToIndex
    simp only [Rnd.rnd_double, hEa, hEb, Option.getD_some, Option.map_some, if_true, Bool.false_and, Bool.false_eq_true,
      if_false, hr.ne', hk, hj]
    rw [if_neg (by omega)]
    have hdata : s.data.map (fun e => pySlice e (k : ℤ) (j : ℤ)) = s.data.map (fun d => (d.drop k).take (j - k)) := by
      refine List.map_congr_left ?_
      intro d hd
      have hl := hw.rect d hd
      rw [pySlice_nat, hl, Nat.min_eq_left hkn, Nat.min_eq_left hjn]
    rw [hdata]
    refine Sync.new_eq (by simpa using hw.nonempty) ?_ (by simpa using hw.cals)
    intro d hd
    obtain ⟨e, he, rfl⟩ := List.mem_map.1 hd
    simp [hw.rect e he]
    omega
  · exact hte
  · intro i hi
    have h1 := (hkE i).1 hi
    have h2 : min (lastTime s) a ≤ sampleTime s.rate s.start i + 1 / (2 * s.rate) := by
      refine hp _ _ ?_
      rw [htime]
      have h3 : (min (lastTime s) a - s.start) * s.rate - 13 / 50 ≤ (A - s.start) * s.rate := by
        rw [← hA]
        rcases min_choice T' (max s.start a) with hm | hm <;> rw [hm]
        · have : (min (lastTime s) a - s.start) * s.rate ≤ (lastTime s - s.start) * s.rate :=
            mul_le_mul_of_nonneg_right (by linarith [min_le_left (lastTime s) a]) hr.le
          linarith
        · have : (min (lastTime s) a - s.start) * s.rate ≤ (max s.start a - s.start) * s.rate :=
            mul_le_mul_of_nonneg_right (by linarith [le_max_right s.start a, min_le_right (lastTime s) a]) hr.le
          linarith
      linarith
    linarith
  · intro i hi
    have h1 := (hjE i).1 hi
    refine hp _ _ ?_
    rw [htime]
    have h3 : (B - s.start) * s.rate ≤ (max s.start b - s.start) * s.rate := by
      refine mul_le_mul_of_nonneg_right ?_ hr.le
      have := min_le_right T' (max s.start b)
      rw [hB] at this
      linarith
    linarith
  · intro i hi
    rw [hkE]
    have h1 := hq _ _ hi
    rw [htime] at h1
    by_cases hc : s.start ≤ a
    · have h3 : (A - s.start) * s.rate ≤ (a - s.start) * s.rate := by
        refine mul_le_mul_of_nonneg_right ?_ hr.le
        have := min_le_right T' (max s.start a)
        rw [hA, max_eq_right hc] at this
        linarith
      linarith
    · have h3 : A - s.start ≤ 0 := by
        have := min_le_right T' (max s.start a)
        rw [hA, max_eq_left (by linarith)] at this
        linarith
      have : Ea ≤ 0 := by
        rw [← hEa]
        exact fl_nonpos (mul_nonpos_of_nonpos_of_nonneg (fl_nonpos h3) hr.le)
      have h0 : (0 : ℚ) ≤ i := by positivity
      linarith
  · intro i hi1 hi
    rw [hjE]
    have h1 := hq (sampleTime s.rate s.start i) b (by linarith)
    rw [htime] at h1
    have hi2 : (i : ℚ) + 1 ≤ (s.size : ℚ) - 1 := by
      have : ((i + 1 + 1 : ℕ) : ℚ) ≤ s.size := by exact_mod_cast hi1
      push_cast at this; linarith
    have h3 : (i : ℚ) + 1 / 2 ≤ (B - s.start) * s.rate := by
      rw [← hB]
      rcases min_choice T' (max s.start b) with hm | hm <;> rw [hm]
      · linarith
      · have : (b - s.start) * s.rate ≤ (max s.start b - s.start) * s.rate :=
          mul_le_mul_of_nonneg_right (by linarith [le_max_right s.start b]) hr.le
        linarith
    linarith

end RoundErr

/-! Nothing to merge, whatever the arithmetic. -/
namespace SigSet
variable [Rnd]

theorem build_len {tags : TagsArg} {runs : List (Sync α κ)} {S : SigSet α κ} (h : build tags runs = .ok S) :
    S.runs.length = runs.length := by
  unfold build at h
  split at h
  · simp at h
  split at h
  · simp at h
  split at h
  · dsimp only at h
    split at h
    · simp at h
    · simp only [Except.ok.injEq] at h
      subst h
      exact (sortRuns_perm runs).length_eq
  · simp at h

theorem reorder_len [One κ] {tags : TagsArg} {S S' : SigSet α κ} (h : S.reorder tags = .ok S') :
    S'.runs.length = S.runs.length := by
  unfold reorder at h
  split at h
  · simp at h
  · simp only [Except.ok.injEq] at h; rw [← h]
  · split at h
    · simp at h
    · rename_i he
      rw [build_len h, mapE_length he]

theorem groups_false {bs : List Bool} (h : ∀ b ∈ bs, b = false) : groupIndices bs = [] := by
  unfold groupIndices
  generalize 0 = n
  induction bs generalizing n with
  | nil => rfl
  | cons b bs ih =>
    rw [h b (by simp)]
    simp only [groupIndices.go]
    exact ih (fun b hb => h b (by simp [hb])) _

theorem mergeConsecutive_none [One κ] {S R : SigSet α κ} (hf : ∀ rate, ∀ b ∈ isConsecutive rate S.runs, b = false)
    (h : S.mergeConsecutive = .ok R) : R.runs.length = S.runs.length := by
  unfold mergeConsecutive at h
  split at h
  · simp at h
  rename_i res0 h0
  have hr0 : res0.runs.length = 0 := by
    unfold new at h0
    simp only [mapE] at h0
    rw [build_len h0]
    simp
  dsimp only at h
  generalize sortBy (fun a b : ℚ => decide (a ≤ b)) (dedup (S.runs.map (fun s => s.rate))) = rates at h
  have hfold : ∀ st : SigSet α κ × List Nat,
      foldE (fun st rate => foldE (fuseStep S rate) st (groupIndices (isConsecutive rate S.runs))) st rates = .ok st := by
    intro st
    induction rates with
    | nil => rfl
    | cons rate rates ih =>
      simp only [foldE, groups_false (hf rate)]
      exact ih (by
        refine Eq.trans ?_ h
        simp only [foldE, groups_false (hf rate)])
  rw [hfold] at h
  simp only at h
  split at h
  · simp at h
  rename_i rest hs
  have hrest : rest.runs.length = S.runs.length := by
    unfold selectRuns at hs
    split at hs
    · simp at hs
    · rename_i idx hidx
      rw [build_len hs]
      simp only [RunIdx.resolve, List.not_mem_nil, not_false_eq_true, decide_true, List.filter_true] at hidx
      have hl := mapE_length hidx
      simp only [List.length_map, List.length_range] at hl
      rw [List.filterMap_length_eq_length.2, hl]
      intro i hi
      obtain ⟨j, hj, hij⟩ := mapE_ok_exists hidx i hi
      have : i < S.runs.length := by
        unfold npIndex at hij
        simp only at hij
        split at hij
        all_goals
          split at hij
          · simp only [Except.ok.injEq] at hij
            omega
          · simp at hij
      rw [List.getElem?_eq_getElem this]
      rfl
  unfold join new at h
  split at h
  · simp at h
  · rename_i rss hm
    rw [build_len h]
    simp only [mapE, argRuns] at hm
    cases h1 : res0.reorder (.tags res0.tags) with
    | error e => rw [h1] at hm; simp at hm
    | ok A =>
      cases h2 : rest.reorder (.tags res0.tags) with
      | error e => rw [h1, h2] at hm; simp at hm
      | ok B =>
        rw [h1, h2] at hm
        simp only [Except.ok.injEq] at hm
        subst hm
        simp only [List.flatten_cons, List.flatten_nil, List.length_append, List.length_nil]
        rw [reorder_len h1, reorder_len h2, hr0, hrest]
        omega

end SigSet
end Razorback
