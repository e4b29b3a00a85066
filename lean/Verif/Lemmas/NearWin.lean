/-
Extraction from a set of runs in double precision.
-/
import Verif.Lemmas.RoundErr
import Verif.Lemmas.AnyRound

namespace Razorback
open Spec Props
variable {α κ : Type _}

namespace RoundErr
variable {s : Sync α κ}

/-- Extraction in double precision: always possible, near the window; bounds on the clock of the result. -/
theorem near [One κ] (hw : WF s) (h : Room s) (a b : ℚ) :
    ∃ r, Dbl.syncExtractT s a b = .ok r ∧ Near a b s r ∧
      (0 < r.size → (s.start - r.start) * s.rate ≤ 13 / 50 ∧ (r.start - lastTime s) * s.rate ≤ 13 / 50 ∧
        ∃ t, Dbl.stop r = .ok t ∧ (t - lastTime s) * s.rate ≤ 3 / 5) := by
  have hr := h.rate
  obtain ⟨r, k, j, e0, hk, hj, e1, e2, e3, e4, e5, e6, e7, e8, e9⟩ := extractT_err hw h a b
  have htime : ∀ i : Nat, (sampleTime s.rate s.start i - s.start) * s.rate = i := by
    intro i; unfold sampleTime; field_simp; ring
  have hhalf : (1 : ℚ) / (2 * s.rate) * s.rate = 1 / 2 := by field_simp
  have hse := span_eq hr
  refine ⟨r, e0, ⟨k, j, hk, hj, e1, e4, e2, e3, half_of hr e5, ?_, fun i hi h1 h2 => ⟨e8 i h1, e9 i hi h2⟩⟩, ?_⟩
  · intro hsz i hi1 hi2
    rw [e4] at hsz
    -- two samples: the window meets the run
    have ha : a ≤ lastTime s := by
      by_contra hc
      have h1 := e6 k le_rfl
      rw [min_eq_left (not_le.1 hc).le] at h1
      have h2 := mul_le_mul_of_nonneg_right h1 hr.le
      have h3 := htime k
      have h4 : (k : ℚ) + 2 ≤ s.size := by
        have : k + 2 ≤ s.size := by omega
        exact_mod_cast this
      rw [sub_mul] at h2 h3 hse
      linarith
    have hb : s.start ≤ b := by
      by_contra hc
      have h1 := e7 (k + 1) (by omega)
      rw [max_eq_left (not_le.1 hc).le] at h1
      have h2 := mul_le_mul_of_nonneg_right h1 hr.le
      have h3 := htime (k + 1)
      rw [add_mul] at h2
      rw [sub_mul] at h3
      push_cast at h3
      have h4 : (0 : ℚ) ≤ k := by positivity
      linarith
    exact ⟨by simpa [min_eq_right ha] using e6 i hi1, by simpa [max_eq_right hb] using e7 i hi2⟩
  · intro hsz
    rw [e4] at hsz
    have b1 := mul_le_mul_of_nonneg_right (neg_abs_le (r.start - sampleTime s.rate s.start k)) hr.le
    have b2 := mul_le_mul_of_nonneg_right (le_abs_self (r.start - sampleTime s.rate s.start k)) hr.le
    have hkt := htime k
    have hk0 : (0 : ℚ) ≤ k := by positivity
    have hkj : (k : ℚ) + ((j - k : ℕ) : ℚ) ≤ s.size := by
      have : k + (j - k) ≤ s.size := by omega
      exact_mod_cast this
    have hm1 : (1 : ℚ) ≤ ((j - k : ℕ) : ℚ) := by exact_mod_cast hsz
    have hm : ((j - k - 1 : ℕ) : ℚ) = ((j - k : ℕ) : ℚ) - 1 := by
      rw [Nat.cast_sub (by omega)]; simp
    have hsp := span_le h
    have hst := start_room h
    refine ⟨?_, ?_, ?_⟩
    · linarith [sub_mul s.start r.start s.rate, sub_mul r.start (sampleTime s.rate s.start k) s.rate, sub_mul (sampleTime s.rate s.start k) s.start s.rate]
    · linarith [sub_mul r.start (lastTime s) s.rate, sub_mul r.start (sampleTime s.rate s.start k) s.rate, sub_mul (sampleTime s.rate s.start k) s.start s.rate,
        sub_mul (lastTime s) s.start s.rate]
    · have hxa : |r.start| * s.rate ≤ 2 ^ 50 + 2 := by
        rw [← abs_of_pos hr, ← abs_mul, abs_le]
        have s1 := mul_le_mul_of_nonneg_right (neg_abs_le s.start) hr.le
        have s2 := mul_le_mul_of_nonneg_right (le_abs_self s.start) hr.le
        constructor <;>
        linarith [sub_mul r.start (sampleTime s.rate s.start k) s.rate, sub_mul (sampleTime s.rate s.start k) s.start s.rate, neg_mul |s.start| s.rate]
      have te := time_err_at (x0 := r.start) (i := j - k - 1) hr (by rw [hm]; linarith)
      refine ⟨fl (r.start + fl (fl (((j - k - 1 : ℕ) : ℤ) : ℚ) / s.rate)), ?_, ?_⟩
      · unfold Dbl.stop Sync.stop Sync.indexToTime
        simp only [Rnd.rnd_double, e3, hr.ne', if_false]
        rw [if_neg (by omega), e4, show (((j - k : ℕ) : ℤ) - 1) = ((j - k - 1 : ℕ) : ℤ) by omega]
      · generalize fl (r.start + fl (fl (((j - k - 1 : ℕ) : ℤ) : ℚ) / s.rate)) = t at te
        have b3 := mul_le_mul_of_nonneg_right (le_abs_self (t - sampleTime s.rate r.start (j - k - 1))) hr.le
        have hxt : (sampleTime s.rate r.start (j - k - 1) - r.start) * s.rate = (j - k - 1 : ℕ) := by
          unfold sampleTime; field_simp; ring
        have te2 : (|r.start| * s.rate + 3 * ((j - k - 1 : ℕ) : ℚ)) / 2 ^ 53 ≤ 33 / 100 := by
          rw [div_le_iff₀ (by norm_num), hm]
          linarith
        rw [hm] at hxt
        linarith [sub_mul t (sampleTime s.rate r.start (j - k - 1)) s.rate, sub_mul (sampleTime s.rate r.start (j - k - 1)) r.start s.rate,
          sub_mul t (lastTime s) s.rate, sub_mul r.start (sampleTime s.rate s.start k) s.rate, sub_mul (sampleTime s.rate s.start k) s.start s.rate,
          sub_mul (lastTime s) s.start s.rate]

end RoundErr
end Razorback
