/-
Lemmas on rounding to double precision.
-/
import Verif.Model.Rounding
import Verif.Spec.Rounding
import Verif.Lemmas.Sync
import Mathlib.Tactic.Linarith
import Mathlib.Tactic.FieldSimp
import Mathlib.Tactic.Ring
import Mathlib.Tactic.Positivity
import Mathlib.Algebra.Order.Floor.Ring

namespace Razorback
open Spec

theorem pow2_eq (e : Int) : pow2 e = (2 : ℚ) ^ e := by
  unfold pow2
  split
  · rename_i h
    conv_rhs => rw [← Int.toNat_of_nonneg h]
    rw [zpow_natCast]
  · rename_i h
    have h' : e = -((-e).toNat : Int) := by omega
    conv_rhs => rw [h']
    rw [zpow_neg, zpow_natCast, one_div]

theorem two_zpow_pos (e : Int) : (0 : ℚ) < 2 ^ e := by positivity

theorem expo_spec {x : ℚ} (hx : x ≠ 0) : (2 : ℚ) ^ expo x ≤ |x| ∧ |x| < 2 ^ (expo x + 1) := by
  have ha : x.num.natAbs ≠ 0 := by simpa using hx
  have hb : x.den ≠ 0 := x.den_nz
  have habs : |x| = (x.num.natAbs : ℚ) / x.den := by
    conv_lhs => rw [← Rat.num_div_den x]
    rw [abs_div, Nat.abs_cast]
    congr 1
    rw [← Int.cast_abs, Nat.cast_natAbs]
  have a1 : ((2 : ℚ) ^ (Nat.log2 x.num.natAbs)) ≤ x.num.natAbs := by exact_mod_cast Nat.log2_self_le ha
  have a2 : (x.num.natAbs : ℚ) < 2 ^ (Nat.log2 x.num.natAbs + 1) := by exact_mod_cast Nat.lt_log2_self
  have b1 : ((2 : ℚ) ^ (Nat.log2 x.den)) ≤ x.den := by exact_mod_cast Nat.log2_self_le hb
  have b2 : (x.den : ℚ) < 2 ^ (Nat.log2 x.den + 1) := by exact_mod_cast Nat.lt_log2_self
  have hd : (0 : ℚ) < x.den := by exact_mod_cast Nat.pos_of_ne_zero hb
  unfold expo
  simp only [pow2_eq]
  generalize Nat.log2 x.num.natAbs = la at *
  generalize Nat.log2 x.den = lb at *
  have up : |x| < 2 ^ ((la : Int) - lb + 1) := by
    rw [habs, div_lt_iff₀ hd]
    calc (x.num.natAbs : ℚ) < 2 ^ (la + 1) := a2
      _ = 2 ^ ((la : Int) - lb + 1) * 2 ^ lb := by
        rw [← zpow_natCast (2 : ℚ) lb, ← zpow_add₀ two_ne_zero, ← zpow_natCast]
        congr 1; push_cast; ring
      _ ≤ _ := mul_le_mul_of_nonneg_left b1 (two_zpow_pos _).le
  have low : (2 : ℚ) ^ ((la : Int) - lb - 1) ≤ |x| := by
    rw [habs, le_div_iff₀ hd]
    calc (2 : ℚ) ^ ((la : Int) - lb - 1) * x.den ≤ 2 ^ ((la : Int) - lb - 1) * 2 ^ (lb + 1) :=
          mul_le_mul_of_nonneg_left b2.le (two_zpow_pos _).le
      _ = 2 ^ la := by
        rw [← zpow_natCast (2 : ℚ) (lb + 1), ← zpow_add₀ two_ne_zero, ← zpow_natCast]
        congr 1; push_cast; ring
      _ ≤ _ := a1
  split
  · exact ⟨‹_›, up⟩
  · rename_i h
    push Not at h
    refine ⟨low, ?_⟩
    rw [sub_add_cancel]
    exact h

theorem expo_neg (x : ℚ) : expo (-x) = expo x := by
  unfold expo
  simp

theorem roundEven_spec (x : ℚ) : |(roundEven x : ℚ) - x| ≤ 1 / 2 := by
  have h1 := Int.floor_le x
  have h2 := Int.lt_floor_add_one x
  unfold roundEven
  dsimp only
  rw [abs_le]
  split
  · constructor <;> linarith
  · split
    · push_cast; constructor <;> linarith
    · split
      · constructor <;> linarith
      · push_cast; constructor <;> linarith

theorem roundEven_nearest (x : ℚ) (n : ℤ) : |(roundEven x : ℚ) - x| ≤ |(n : ℚ) - x| := by
  have h := roundEven_spec x
  by_cases hn : roundEven x = n
  · rw [hn]
  · have h2 : (1 : ℚ) ≤ |(n : ℚ) - roundEven x| := by
      have : (1 : ℤ) ≤ |n - roundEven x| := Int.one_le_abs (sub_ne_zero.2 (Ne.symm hn))
      exact_mod_cast this
    have h3 : |(n : ℚ) - roundEven x| ≤ |(n : ℚ) - x| + |(roundEven x : ℚ) - x| := by
      rw [abs_sub_comm (roundEven x : ℚ) x]
      exact abs_sub_le _ _ _
    linarith

theorem roundEven_int (n : ℤ) : roundEven (n : ℚ) = n := by
  have h := roundEven_nearest (n : ℚ) n
  simp only [sub_self, abs_zero, abs_nonpos_iff] at h
  exact_mod_cast sub_eq_zero.1 h

/-- Ties go to the even neighbour. -/
theorem roundEven_tie {x : ℚ} (h : |(roundEven x : ℚ) - x| = 1 / 2) : roundEven x % 2 = 0 := by
  have h1 := Int.floor_le x
  have h2 := Int.lt_floor_add_one x
  unfold roundEven at h ⊢
  dsimp only at h ⊢
  split at h
  · rename_i h3
    rw [abs_of_nonpos (by linarith)] at h
    linarith
  · rename_i h3
    rw [if_neg h3]
    split at h
    · rename_i h4
      push_cast at h
      rw [abs_of_nonneg (by linarith)] at h
      linarith
    · rename_i h4
      rw [if_neg h4]
      split
      · assumption
      · omega

/-- What `fl` computes: a multiple of the unit in the last place, the nearest one. -/
theorem fl_eq {x : ℚ} (hx : x ≠ 0) : ∃ n : ℤ, fl x = n * 2 ^ (expo x - 52) ∧
    (∀ m : ℤ, |fl x - x| ≤ |m * 2 ^ (expo x - 52) - x|) ∧ |fl x - x| ≤ 2 ^ (expo x - 53) ∧
    (|fl x - x| = 2 ^ (expo x - 53) → n % 2 = 0) := by
  unfold fl
  rw [if_neg hx, pow2_eq]
  have hu := two_zpow_pos (expo x - 52)
  have key : ∀ m : ℤ, |(m : ℚ) * 2 ^ (expo x - 52) - x| = |(m : ℚ) - x / 2 ^ (expo x - 52)| * 2 ^ (expo x - 52) := by
    intro m
    rw [← abs_of_pos hu, ← abs_mul, abs_of_pos hu, sub_mul, div_mul_cancel₀ _ hu.ne']
  have hhalf : (2 : ℚ) ^ (expo x - 53) = 1 / 2 * 2 ^ (expo x - 52) := by
    rw [show expo x - 52 = (expo x - 53) + 1 by ring, zpow_add₀ two_ne_zero]
    ring
  refine ⟨_, rfl, ?_, ?_, ?_⟩
  · intro m
    rw [key, key]
    exact mul_le_mul_of_nonneg_right (roundEven_nearest _ m) hu.le
  · rw [key, hhalf]
    exact mul_le_mul_of_nonneg_right (roundEven_spec _) hu.le
  · rw [key, hhalf]
    intro h
    exact roundEven_tie (mul_right_cancel₀ hu.ne' h)

theorem fl_zero : fl 0 = 0 := if_pos rfl

/-- Relative error of one rounding. -/
theorem fl_err (x : ℚ) : |fl x - x| ≤ |x| / 2 ^ 53 := by
  by_cases hx : x = 0
  · subst hx; simp [fl_zero]
  · obtain ⟨n, -, -, h, -⟩ := fl_eq hx
    refine h.trans ?_
    rw [zpow_sub₀ two_ne_zero]
    have := (expo_spec hx).1
    have e : (2 : ℚ) ^ (53 : ℤ) = 2 ^ 53 := by norm_num
    rw [e]
    gcongr

theorem zpow_mul_int {a b : ℤ} (h : a ≤ b) : ∃ n : ℤ, (2 : ℚ) ^ b = n * 2 ^ a := by
  refine ⟨2 ^ (b - a).toNat, ?_⟩
  push_cast
  rw [← zpow_natCast, Int.toNat_of_nonneg (by omega), ← zpow_add₀ two_ne_zero]
  congr 1; ring

/-- A double at least as large as `2 ^ E` is a multiple of `2 ^ (E - 52)`. -/
theorem isDouble_grid {y : ℚ} (hy : IsDouble y) {E : ℤ} (h : (2 : ℚ) ^ E ≤ |y|) :
    ∃ n : ℤ, y = n * 2 ^ (E - 52) := by
  obtain ⟨m, k, hm, rfl⟩ := hy
  have hm' : |(m : ℚ)| ≤ 2 ^ 53 := by exact_mod_cast hm
  have hk := two_zpow_pos k
  rw [abs_mul, abs_of_pos hk] at h
  by_cases hkE : E - 52 ≤ k
  · obtain ⟨n, hn⟩ := zpow_mul_int hkE
    refine ⟨m * n, ?_⟩
    rw [hn]; push_cast; ring
  · have h3 : (2 : ℚ) ^ E ≤ 2 ^ (53 + k) := by
      refine h.trans ?_
      rw [zpow_add₀ two_ne_zero]
      have e : (2 : ℚ) ^ (53 : ℤ) = 2 ^ 53 := by norm_num
      rw [e]
      gcongr
    have h4 : E ≤ 53 + k := (zpow_le_zpow_iff_right₀ one_lt_two).1 h3
    have h5 : k = E - 53 := by omega
    subst h5
    have h6 : (2 : ℚ) ^ 53 ≤ |(m : ℚ)| := by
      have e : (2 : ℚ) ^ E = 2 ^ 53 * 2 ^ (E - 53) := by
        rw [zpow_sub₀ two_ne_zero]; norm_num
        field_simp
      rw [e] at h
      exact le_of_mul_le_mul_right h hk
    have h7 : |(m : ℚ)| = 2 ^ 53 := le_antisymm hm' h6
    have h8 : |m| = 2 ^ 53 := by exact_mod_cast h7
    obtain ⟨n, hn⟩ : ∃ n : ℤ, m = n * 2 := by
      rcases abs_eq (by norm_num : (0 : ℤ) ≤ 2 ^ 53) |>.1 h8 with h9 | h9
      · exact ⟨2 ^ 52, by rw [h9]; norm_num⟩
      · exact ⟨-2 ^ 52, by rw [h9]; norm_num⟩
    refine ⟨n, ?_⟩
    rw [hn, show E - 52 = (E - 53) + 1 by ring, zpow_add₀ two_ne_zero]
    push_cast; ring

/-- `fl` is the identity on doubles. -/
theorem fl_of_double {x : ℚ} (h : IsDouble x) : fl x = x := by
  by_cases hx : x = 0
  · subst hx; exact fl_zero
  · obtain ⟨n, hn⟩ := isDouble_grid h (expo_spec hx).1
    obtain ⟨-, -, h2, -, -⟩ := fl_eq hx
    have := h2 n
    rw [← hn, sub_self, abs_zero, abs_nonpos_iff, sub_eq_zero] at this
    exact this

/-- The result of `fl` is a double. -/
theorem fl_double (x : ℚ) : IsDouble (fl x) := by
  by_cases hx : x = 0
  · subst hx; rw [fl_zero]; exact ⟨0, 0, by norm_num, by simp⟩
  · obtain ⟨n, hn, h2, -, -⟩ := fl_eq hx
    refine ⟨n, expo x - 52, ?_, hn⟩
    have hu := two_zpow_pos (expo x - 52)
    have hlt : |x| < 2 ^ 53 * 2 ^ (expo x - 52) := by
      have := (expo_spec hx).2
      rw [show expo x + 1 = 53 + (expo x - 52) by ring, zpow_add₀ two_ne_zero] at this
      exact_mod_cast this
    by_contra hc
    push Not at hc
    have hc' : (2 ^ 53 + 1 : ℚ) ≤ |(n : ℚ)| := by exact_mod_cast hc
    have h3 : |x| + 2 ^ (expo x - 52) < |fl x| := by
      rw [hn, abs_mul, abs_of_pos hu]
      calc |x| + 2 ^ (expo x - 52) < 2 ^ 53 * 2 ^ (expo x - 52) + 2 ^ (expo x - 52) := by linarith
        _ = (2 ^ 53 + 1) * 2 ^ (expo x - 52) := by ring
        _ ≤ _ := by gcongr
    obtain ⟨-, -, -, h4, -⟩ := fl_eq hx
    have h5 : (2 : ℚ) ^ (expo x - 53) ≤ 2 ^ (expo x - 52) := by
      apply zpow_le_zpow_right₀ one_le_two; omega
    have h6 : |fl x| ≤ |x| + |fl x - x| := by
      calc |fl x| = |x + (fl x - x)| := by ring_nf
        _ ≤ _ := abs_add_le _ _
    linarith

/-- `fl x` is a double nearest to `x`. -/
theorem fl_nearest (x : ℚ) {y : ℚ} (hy : IsDouble y) : |fl x - x| ≤ |y - x| := by
  by_cases hx : x = 0
  · subst hx; simp [fl_zero]
  · obtain ⟨-, -, h2, -, -⟩ := fl_eq hx
    obtain ⟨e1, e2⟩ := expo_spec hx
    obtain ⟨p, hp⟩ := zpow_mul_int (show expo x - 52 ≤ expo x by omega)
    by_cases hE : (2 : ℚ) ^ expo x ≤ |y|
    · obtain ⟨n, hn⟩ := isDouble_grid hy hE
      rw [hn]; exact h2 n
    · push Not at hE
      rcases lt_or_gt_of_ne hx with hneg | hpos
      · rw [abs_of_neg hneg] at e1
        have h3 := h2 (-p)
        push_cast at h3
        rw [neg_mul, ← hp, abs_of_nonneg (by linarith : (0 : ℚ) ≤ -2 ^ expo x - x)] at h3
        have h4 := (abs_lt.1 hE).1
        refine h3.trans (le_trans ?_ (le_abs_self _))
        linarith
      · rw [abs_of_pos hpos] at e1
        have h3 := h2 p
        rw [← hp, abs_sub_comm (2 ^ expo x) x, abs_of_nonneg (by linarith : (0 : ℚ) ≤ x - 2 ^ expo x)] at h3
        have h4 := (abs_lt.1 hE).2
        rw [abs_sub_comm y x]
        linarith [le_abs_self (x - y)]

/-! Ticks -/

theorem tick_add {g : ℤ} {x y : ℚ} (hx : Tick g x) (hy : Tick g y) : Tick g (x + y) := by
  obtain ⟨m, rfl⟩ := hx
  obtain ⟨n, rfl⟩ := hy
  exact ⟨m + n, by push_cast; ring⟩

theorem tick_sub {g : ℤ} {x y : ℚ} (hx : Tick g x) (hy : Tick g y) : Tick g (x - y) := by
  obtain ⟨m, rfl⟩ := hx
  obtain ⟨n, rfl⟩ := hy
  exact ⟨m - n, by push_cast; ring⟩

theorem tick_div {g k : ℤ} (hk : k ≤ g) (i : ℤ) : Tick g ((i : ℚ) / 2 ^ k) := by
  obtain ⟨n, hn⟩ := zpow_mul_int (show -g ≤ -k by omega)
  refine ⟨i * n, ?_⟩
  rw [div_eq_mul_inv, ← zpow_neg, hn]
  push_cast; ring

theorem tick_double {g : ℤ} {x : ℚ} (hx : Tick g x) (hb : |x| ≤ 2 ^ (53 - g)) : IsDouble x := by
  obtain ⟨m, rfl⟩ := hx
  refine ⟨m, -g, ?_, rfl⟩
  have hg := two_zpow_pos (-g)
  rw [abs_mul, abs_of_pos hg, show 53 - g = 53 + -g by ring, zpow_add₀ two_ne_zero] at hb
  have := le_of_mul_le_mul_right hb hg
  exact_mod_cast this

theorem isDouble_scale {x : ℚ} (k : ℤ) (hx : IsDouble x) : IsDouble (x * 2 ^ k) := by
  obtain ⟨m, j, hm, rfl⟩ := hx
  exact ⟨m, j + k, hm, by rw [zpow_add₀ two_ne_zero]; ring⟩

theorem isDouble_int {i : ℤ} (h : |i| ≤ 2 ^ 53) : IsDouble (i : ℚ) := ⟨i, 0, h, by simp⟩

theorem isDouble_div {i : ℤ} (h : |i| ≤ 2 ^ 53) (k : ℤ) : IsDouble ((i : ℚ) / 2 ^ k) :=
  ⟨i, -k, h, by rw [div_eq_mul_inv, ← zpow_neg]⟩

namespace OnClockLemmas
variable {α κ : Type _} {C : Clock} {s : Sync α κ}

theorem abs_le_of_mem {x : ℚ} (h1 : C.lo ≤ x) (h2 : x ≤ C.hi) : |x| ≤ 2 ^ (53 - C.g) := by
  have h3 := (abs_le.1 C.lo_le).1
  have h4 := (abs_le.1 C.hi_le).2
  rw [abs_le]; constructor <;> linarith

theorem double_of_mem {x : ℚ} (ht : Tick C.g x) (h1 : C.lo ≤ x) (h2 : x ≤ C.hi) : IsDouble x :=
  tick_double ht (abs_le_of_mem h1 h2)

theorem double_sub {x y : ℚ} (hx : Tick C.g x) (hy : Tick C.g y) (h1 : C.lo ≤ x) (h2 : x ≤ C.hi) (h3 : C.lo ≤ y)
    (h4 : y ≤ C.hi) : IsDouble (x - y) := by
  refine tick_double (tick_sub hx hy) ?_
  have := C.span
  rw [abs_le]; constructor <;> linarith

/-- Sample counts that fit between the bounds of the clock are exact. -/
theorem index_le {k i : ℤ} {x : ℚ} (hk : k ≤ C.g) (h1 : C.lo ≤ x) (h2 : x ≤ C.hi) (h3 : C.lo ≤ x + i / 2 ^ k)
    (h4 : x + i / 2 ^ k ≤ C.hi) : |i| ≤ 2 ^ 53 := by
  have hs := C.span
  have hp := two_zpow_pos k
  have h5 : |(i : ℚ) / 2 ^ k| ≤ 2 ^ (53 - C.g) := by rw [abs_le]; constructor <;> linarith
  rw [abs_div, abs_of_pos hp, div_le_iff₀ hp, ← zpow_add₀ two_ne_zero] at h5
  have h6 : (2 : ℚ) ^ (53 - C.g + k) ≤ 2 ^ (53 : ℤ) := zpow_le_zpow_right₀ one_le_two (by omega)
  have h7 := h5.trans h6
  exact_mod_cast h7

theorem rate_pos (h : OnClock C s) : 0 < s.rate := by
  obtain ⟨k, -, hk⟩ := h.rate
  rw [hk]; exact two_zpow_pos k

/-- The time of a sample, computed in double precision. -/
theorem time_eq (h : OnClock C s) (i : ℤ) (h1 : C.lo ≤ s.start + i / s.rate) (h2 : s.start + i / s.rate ≤ C.hi) :
    fl (s.start + fl (fl i / s.rate)) = s.start + i / s.rate ∧ Tick C.g (s.start + i / s.rate) := by
  obtain ⟨k, hk, hr⟩ := h.rate
  rw [hr] at h1 h2 ⊢
  have hi := index_le hk h.start_lo h.start_hi h1 h2
  have ht := tick_add h.tick (tick_div hk i)
  rw [fl_of_double (isDouble_int hi), fl_of_double (isDouble_div hi k), fl_of_double (double_of_mem ht h1 h2)]
  exact ⟨rfl, ht⟩

theorem indexToTime_eq (h : OnClock C s) (i : ℤ)
    (h1 : C.lo ≤ s.start + ((if i < 0 then i + s.size else i : ℤ) : ℚ) / s.rate)
    (h2 : s.start + ((if i < 0 then i + s.size else i : ℤ) : ℚ) / s.rate ≤ C.hi) :
    Dbl.indexToTime s i = s.indexToTime i := by
  have := (time_eq h _ h1 h2).1
  unfold Dbl.indexToTime Sync.indexToTime
  simp only [Rnd.rnd_double, this, Rnd.rnd_exact]

theorem lastTime_tick (h : OnClock C s) : Tick C.g (lastTime s) := by
  obtain ⟨k, hk, hr⟩ := h.rate
  have := tick_add h.tick (tick_div hk ((s.size : ℤ) - 1))
  unfold lastTime
  rw [hr]
  exact_mod_cast this

theorem stop_eq (h : OnClock C s) : Dbl.stop s = s.stop := by
  have hl : s.start + (((s.size : ℤ) - 1 : ℤ) : ℚ) / s.rate = lastTime s := by unfold lastTime; push_cast; rfl
  have e : (if ((s.size : ℤ) - 1) < 0 then ((s.size : ℤ) - 1) + s.size else ((s.size : ℤ) - 1)) = (s.size : ℤ) - 1 := by
    split <;> omega
  refine indexToTime_eq h _ ?_ ?_
  · rw [e, hl]; exact h.last_lo
  · rw [e, hl]; exact h.last_hi

theorem interval_eq (h : OnClock C s) : @Sync.interval _ _ Rnd.double s = s.interval := by
  have := stop_eq h
  unfold Dbl.stop at this
  unfold Sync.interval
  rw [this]

theorem timeToIndex_eq (h : OnClock C s) {t : ℚ} (ht : Tick C.g t) (h1 : C.lo ≤ t) (h2 : t ≤ C.hi) (r : Sync.Round) :
    Dbl.timeToIndex s t r = s.timeToIndex t r := by
  obtain ⟨k, hk, hr⟩ := h.rate
  have hd := double_sub ht h.tick h1 h2 h.start_lo h.start_hi
  have h3 : fl (fl (t - s.start) * s.rate) = (t - s.start) * s.rate := by
    rw [fl_of_double hd, hr, fl_of_double (isDouble_scale k hd)]
  cases r
  all_goals
    unfold Dbl.timeToIndex Sync.timeToIndex
    simp only [Rnd.rnd_double, h3, Rnd.rnd_exact]

theorem extractI_eq [One κ] {i j : Option Int} {strict last : Bool}
    (h : Dbl.indexToTime s (i.getD 0) = s.indexToTime (i.getD 0)) :
    Dbl.syncExtractI s i j strict last = s.extractI i j strict last := by
  unfold Dbl.indexToTime at h
  unfold Dbl.syncExtractI Sync.extractI
  dsimp only
  rw [h]

/-- A time of the interval of the run, converted to an index, designates a time between the bounds. -/
theorem index_mem (h : OnClock C s) {t : ℚ} (h1 : min (lastTime s) s.start ≤ t) (h2 : t ≤ lastTime s) :
    C.lo ≤ s.start + ((if s.timeToIndex t .right < 0 then s.timeToIndex t .right + s.size
      else s.timeToIndex t .right : ℤ) : ℚ) / s.rate ∧
    s.start + ((if s.timeToIndex t .right < 0 then s.timeToIndex t .right + s.size
      else s.timeToIndex t .right : ℤ) : ℚ) / s.rate ≤ C.hi := by
  have hr := rate_pos h
  have hl : s.start + (((s.size : ℤ) - 1 : ℤ) : ℚ) / s.rate = lastTime s := by unfold lastTime; push_cast; rfl
  have h3 : s.timeToIndex t .right ≤ (s.size : ℤ) - 1 := (Sync.ceil_le_iff hr _ _).2 (by rw [hl]; exact h2)
  have key : ∀ i : ℤ, (i = -1 ∧ s.size = 0 ∨ 0 ≤ i ∧ i ≤ (s.size : ℤ) - 1) →
      C.lo ≤ s.start + (i : ℚ) / s.rate ∧ s.start + (i : ℚ) / s.rate ≤ C.hi := by
    rintro i (⟨rfl, h0⟩ | ⟨h4, h5⟩)
    · have e : (-1 : ℤ) = (s.size : ℤ) - 1 := by omega
      rw [e, hl]
      exact ⟨h.last_lo, h.last_hi⟩
    · have h6 : (0 : ℚ) ≤ (i : ℚ) / s.rate := div_nonneg (by exact_mod_cast h4) hr.le
      have h7 : (i : ℚ) / s.rate ≤ (((s.size : ℤ) - 1 : ℤ) : ℚ) / s.rate := by
        gcongr
      have := h.start_lo
      have := h.last_hi
      constructor <;> linarith
  apply key
  rcases Nat.eq_zero_or_pos s.size with h0 | h0
  · left
    have hlt : lastTime s ≤ s.start := by
      unfold lastTime; rw [h0]
      have : (0 : ℚ) < 1 / s.rate := by positivity
      have e : (((0 : ℕ) : ℚ) - 1) / s.rate = -(1 / s.rate) := by push_cast; ring
      rw [e]; linarith
    rw [min_eq_left hlt] at h1
    have ht : t = lastTime s := le_antisymm h2 h1
    have h4 : s.timeToIndex t .right = -1 := by
      refine le_antisymm (by omega) ?_
      by_contra hc
      have h5 : s.timeToIndex t .right ≤ -2 := by omega
      rw [Sync.ceil_le_iff hr, ht, ← hl, h0] at h5
      push_cast at h5
      have : (-1 : ℚ) / s.rate ≤ -2 / s.rate := by
        linarith
      rw [div_le_div_iff_of_pos_right hr] at this
      norm_num at this
    rw [h4, h0]
    simp
  · right
    have hle := Sync.start_le_lastTime hr h0
    rw [min_eq_right hle] at h1
    have h4 : 0 ≤ s.timeToIndex t .right := by
      unfold Sync.timeToIndex
      rw [Rnd.rnd_exact, Rnd.rnd_exact]
      exact Int.ceil_nonneg (mul_nonneg (by linarith) hr.le)
    rw [if_neg (by omega)]
    exact ⟨h4, h3⟩

/-- `extract_t` in double precision is exact on the clock. -/
theorem extractT_eq [One κ] (h : OnClock C s) {a b : ℚ} (strict : Bool)
    (ha : s.start ≤ a → a ≤ lastTime s → Tick C.g a) (hb : s.start ≤ b → b ≤ lastTime s → Tick C.g b) :
    Dbl.syncExtractT s a b strict = s.extractT a b strict := by
  have hr := rate_pos h
  have hstop := stop_eq h
  unfold Dbl.stop at hstop
  unfold Dbl.syncExtractT Sync.extractT
  rw [hstop, Sync.stop_eq s hr.ne']
  dsimp only
  split
  · rfl
  · rename_i hc
    have hc' : strict = true → (s.start ≤ a ∧ a ≤ lastTime s) ∧ s.start ≤ b ∧ b ≤ lastTime s := by
      intro hs
      by_contra hx
      apply hc
      rw [hs, Bool.true_and, Bool.not_eq_true']
      by_contra hy
      simp only [Bool.not_eq_false, Bool.and_eq_true, decide_eq_true_eq] at hy
      exact hx ⟨hy.1.1, hy.1.2, hy.2⟩
    have clamp : ∀ t : ℚ, (s.start ≤ t → t ≤ lastTime s → Tick C.g t) → Tick C.g (min (lastTime s) (max s.start t)) := by
      intro t ht
      rcases le_total (lastTime s) (max s.start t) with h1 | h1
      · rw [min_eq_left h1]; exact lastTime_tick h
      · rw [min_eq_right h1]
        rcases le_total s.start t with h2 | h2
        · rw [max_eq_right h2] at h1 ⊢; exact ht h2 h1
        · rw [max_eq_left h2]; exact h.tick
    have mem : ∀ t : ℚ, min (lastTime s) s.start ≤ min (lastTime s) (max s.start t) ∧
        min (lastTime s) (max s.start t) ≤ lastTime s :=
      fun t => ⟨min_le_min_left _ (le_max_left _ _), min_le_left _ _⟩
    have hA : (if strict = true then a else min (lastTime s) (max s.start a)) = min (lastTime s) (max s.start a) := by
      cases strict
      · rfl
      · rw [if_pos rfl, max_eq_right (hc' rfl).1.1, min_eq_right (hc' rfl).1.2]
    have hB : (if strict = true then b else min (lastTime s) (max s.start b)) = min (lastTime s) (max s.start b) := by
      cases strict
      · rfl
      · rw [if_pos rfl, max_eq_right (hc' rfl).2.1, min_eq_right (hc' rfl).2.2]
    rw [hA, hB]
    have lo : ∀ t : ℚ, C.lo ≤ min (lastTime s) (max s.start t) := fun t =>
      le_trans (le_min h.last_lo h.start_lo) (mem t).1
    have hi : ∀ t : ℚ, min (lastTime s) (max s.start t) ≤ C.hi := fun t => (mem t).2.trans h.last_hi
    have e1 := timeToIndex_eq h (clamp a ha) (lo a) (hi a) .right
    have e2 := timeToIndex_eq h (clamp b hb) (lo b) (hi b) .left
    unfold Dbl.timeToIndex at e1 e2
    rw [e1, e2]
    apply extractI_eq
    obtain ⟨m1, m2⟩ := index_mem h (mem a).1 (mem a).2
    exact indexToTime_eq h _ m1 m2

end OnClockLemmas
end Razorback
