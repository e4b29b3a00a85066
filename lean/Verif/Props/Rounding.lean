/-
Properties C82-C84: floating point times.
-/
import Verif.Lemmas.RoundErr
import Verif.Lemmas.Fourier

namespace Razorback.Props
open Razorback Razorback.Spec Razorback.SigSet Razorback.Fourier
variable {α κ : Type _}

/-! C82 -/

/-- **C82.** The rounding used below is the IEEE one: the result is a double, no double is closer, doubles are
kept, the relative error is at most 2^-53, and when two doubles are equally close the result is the one with the
even significand. -/
theorem C82_correctly_rounded (x : ℚ) :
    IsDouble (fl x) ∧ (∀ y, IsDouble y → |fl x - x| ≤ |y - x|) ∧ (IsDouble x → fl x = x) ∧ |fl x - x| ≤ |x| / 2 ^ 53 ∧
    ∀ y, IsDouble y → |y - x| = |fl x - x| → y ≠ fl x →
      ∃ m k : ℤ, fl x = 2 * m * 2 ^ k ∧ |y - fl x| = 2 ^ k := by
  refine ⟨fl_double x, fun y hy => fl_nearest x hy, fl_of_double, fl_err x, ?_⟩
  intro y hy he hne
  by_cases hx : x = 0
  · subst hx
    rw [fl_zero] at he hne
    simp only [sub_zero, abs_zero, abs_eq_zero] at he
    exact absurd he hne
  obtain ⟨n, hn, h2, h3, h4⟩ := fl_eq hx
  obtain ⟨e1, e2⟩ := expo_spec hx
  have hu := two_zpow_pos (expo x - 52)
  have hu53 := two_zpow_pos (expo x - 53)
  have hhalf : (2 : ℚ) ^ (expo x - 52) = 2 * 2 ^ (expo x - 53) := by
    rw [show expo x - 52 = (expo x - 53) + 1 by ring, zpow_add₀ two_ne_zero]; ring
  -- the other neighbour is on the same grid
  have hrefl : y - x = -(fl x - x) := by
    rcases abs_eq_abs.1 he with h | h
    · exact absurd (by linarith) hne
    · exact h
  have hgrid : ∃ m : ℤ, y = m * 2 ^ (expo x - 52) := by
    by_cases hE : (2 : ℚ) ^ expo x ≤ |y|
    · exact isDouble_grid hy hE
    · exfalso
      push Not at hE
      obtain ⟨p, hp⟩ := zpow_mul_int (show expo x - 52 ≤ expo x by omega)
      have key : ∀ z w v : ℚ, 2 ^ expo x ≤ z → v < 2 ^ expo x → w = 2 * z - v → (∃ m : ℤ, w = m * 2 ^ (expo x - 52)) →
          w - z ≤ 2 ^ (expo x - 53) → False := by
        rintro z w v hz hv hw ⟨m, hm⟩ hd
        have h5 : (2 : ℚ) ^ expo x < w := by linarith
        have h6 : (2 : ℚ) ^ expo x + 2 ^ (expo x - 52) ≤ w := by
          rw [hm, hp] at h5
          have : p < m := by
            have := lt_of_mul_lt_mul_right h5 hu.le
            exact_mod_cast this
          have h7 : (p : ℚ) + 1 ≤ m := by exact_mod_cast this
          rw [hm, hp]
          calc (p : ℚ) * 2 ^ (expo x - 52) + 2 ^ (expo x - 52) = (p + 1) * 2 ^ (expo x - 52) := by ring
            _ ≤ _ := mul_le_mul_of_nonneg_right h7 hu.le
        linarith
      rcases lt_or_gt_of_ne hx with hneg | hpos
      · rw [abs_of_neg hneg] at e1
        refine key (-x) (-fl x) (-y) e1 ?_ (by linarith) ⟨-n, by rw [hn]; push_cast; ring⟩ ?_
        · linarith [neg_abs_le y]
        · have := (abs_le.1 h3).1; linarith
      · rw [abs_of_pos hpos] at e1
        refine key x (fl x) y e1 ?_ (by linarith) ⟨n, hn⟩ ?_
        · linarith [le_abs_self y]
        · have := (abs_le.1 h3).2; linarith
  obtain ⟨m, hm⟩ := hgrid
  have hmn : m ≠ n := by
    rintro rfl
    exact hne (hm.trans hn.symm)
  have hge : (1 : ℚ) ≤ |(m : ℚ) - n| := by
    have : (1 : ℤ) ≤ |m - n| := Int.one_le_abs (sub_ne_zero.2 hmn)
    exact_mod_cast this
  have hyf : |y - fl x| = 2 * |fl x - x| := by
    have : y - fl x = -2 * (fl x - x) := by linarith
    rw [this, abs_mul]; norm_num
  have hyg : |y - fl x| = |(m : ℚ) - n| * 2 ^ (expo x - 52) := by
    rw [hm, hn, ← sub_mul, abs_mul, abs_of_pos hu]
  have hdist : |fl x - x| = 2 ^ (expo x - 53) := by
    refine le_antisymm h3 ?_
    have : (2 : ℚ) ^ (expo x - 52) ≤ |(m : ℚ) - n| * 2 ^ (expo x - 52) := le_mul_of_one_le_left hu.le hge
    linarith
  have hev := h4 hdist
  refine ⟨n / 2, expo x - 52, ?_, ?_⟩
  · rw [hn]
    have : n = 2 * (n / 2) := by omega
    conv_lhs => rw [this]
    push_cast; ring
  · rw [hyf, hdist, hhalf]

example : fl (1 / 10) = 3602879701896397 / 2 ^ 55 ∧ fl (2 ^ 53 + 1) = 2 ^ 53 ∧ fl (2 ^ 53 + 3) = 2 ^ 53 + 4 := by
  decide +kernel

/-- **C82.** A signal recorded on a binary clock: the end, the times of the samples, the index of a time and the
extraction of a window computed in double precision are the exact ones. -/
theorem C82_sync [One κ] (C : Clock) (s : Sync α κ) (h : OnClock C s) (hs : 0 < s.size) :
    Dbl.stop s = s.stop ∧
    (∀ i : Nat, i < s.size → Dbl.indexToTime s i = .ok (sampleTime s.rate s.start i)) ∧
    (∀ t, Tick C.g t → C.lo ≤ t → t ≤ C.hi → ∀ r, Dbl.timeToIndex s t r = s.timeToIndex t r) ∧
    ∀ a b strict, Tick C.g a → Tick C.g b → Dbl.syncExtractT s a b strict = s.extractT a b strict := by
  have hr := OnClockLemmas.rate_pos h
  refine ⟨OnClockLemmas.stop_eq h, ?_, fun t ht h1 h2 r => OnClockLemmas.timeToIndex_eq h ht h1 h2 r,
    fun a b strict ha hb => OnClockLemmas.extractT_eq h strict (fun _ _ => ha) (fun _ _ => hb)⟩
  intro i hi
  have e : (if (i : ℤ) < 0 then (i : ℤ) + s.size else i) = i := if_neg (by omega)
  have h1 : C.lo ≤ sampleTime s.rate s.start i := h.start_lo.trans (Sync.start_le_sampleTime hr i)
  have h2 : sampleTime s.rate s.start i ≤ C.hi := (Sync.sampleTime_le_last hr hi).trans h.last_hi
  rw [OnClockLemmas.indexToTime_eq h i (by rw [e]; exact_mod_cast h1) (by rw [e]; exact_mod_cast h2),
    Sync.indexToTime_nat hr.ne']

theorem session_on [One κ] {C : Clock} {S : SigSet α κ} (h : Session C S) :
    Reach S ∧ ∀ r ∈ S.runs, RunOn C r := by
  have args_on : ∀ {args : List (SigArg α κ)}, (∀ s, .sync s ∈ args → WF s ∧ OnClock C s) →
      (∀ T, .set T ∈ args → Reach T ∧ ∀ r ∈ T.runs, RunOn C r) → ∀ a ∈ args, ArgOn C a := by
    intro args h1 h2 a ha r hr
    cases a with
    | sync s => simp only [operandRuns, List.mem_singleton] at hr; rw [hr]; exact h1 s ha
    | set T => exact (h2 T ha).2 r hr
  induction h with
  | new tags args hs _ h ih =>
    have ha := args_on hs ih
    rw [new_dbl ha] at h
    exact ⟨.new tags args (fun s hm => (hs s hm).1) (fun T hm => (ih T hm).1) h, new_on ha h⟩
  | join args _ hs _ h ihT ih =>
    have ha := args_on hs ih
    rw [join_dbl ihT.2 ha] at h
    exact ⟨.join args ihT.1 (fun s hm => (hs s hm).1) (fun T hm => (ih T hm).1) h, join_on ihT.2 ha h⟩
  | merge others _ _ h ihT ih =>
    obtain ⟨h1, h2⟩ := merge_dbl ihT.2 (fun T hT => (ih T hT).2)
    rw [h1] at h
    exact ⟨.merge others ihT.1 (fun T hT => (ih T hT).1) h, h2 _ h⟩
  | selectChannels sel _ h ihT =>
    obtain ⟨h1, h2⟩ := selectChannels_dbl ihT.2 sel
    rw [h1] at h
    exact ⟨.selectChannels sel ihT.1 h, h2 _ h⟩
  | selectRuns r _ h ihT =>
    obtain ⟨h1, h2⟩ := selectRuns_dbl ihT.2 r
    rw [h1] at h
    exact ⟨.selectRuns r ihT.1 h, h2 _ h⟩
  | extractT a b exclude ha hb _ h ihT =>
    obtain ⟨h1, h2⟩ := extractT_dbl ihT.2 (fun _ _ _ _ => ha) (fun _ _ _ _ => hb) exclude
    rw [h1] at h
    exact ⟨.extractT a b exclude ihT.1 h, h2 _ h⟩
  | mergeConsecutive _ hp hc h ihT =>
    obtain ⟨h1, h2⟩ := mergeConsecutive_dbl (reach_sinv ihT.1) hp ihT.2 hc
    rw [h1] at h
    exact ⟨.mergeConsecutive ihT.1 h, h2 _ h⟩
  | setTags v _ h ihT =>
    refine ⟨.setTags v ihT.1 h, ?_⟩
    unfold SigSet.setTags at h
    split at h
    · simp at h
    · simp only [Except.ok.injEq] at h
      rw [← h]
      exact ihT.2
  | editTags ops _ ihT => exact ⟨.editTags ops ihT.1, ihT.2⟩

/-- **C82.** Every signal set that a program computing in double precision builds from signals recorded on a
binary clock is one that exact arithmetic builds too, and its runs are on the clock again. -/
theorem C82_session [One κ] (C : Clock) (S : SigSet α κ) (h : Session C S) :
    Reach S ∧ ∀ r ∈ S.runs, OnClock C r := ⟨(session_on h).1, fun r hr => ((session_on h).2 r hr).2⟩

/-- **C82.** On those sets every operation gives the same result, or raises the same exception, in double
precision as in exact arithmetic. -/
theorem C82_operations [One κ] (C : Clock) (S : SigSet α κ) (h : Session C S) :
    (∀ args, (∀ s, .sync s ∈ args → WF s ∧ OnClock C s) → (∀ T, .set T ∈ args → Session C T) →
      Dbl.join S args = S.join args) ∧
    (∀ others, (∀ T ∈ others, Session C T) → Dbl.merge S others = S.merge others) ∧
    (∀ sel, Dbl.selectChannels S sel = S.selectChannels sel) ∧ (∀ r, Dbl.selectRuns S r = S.selectRuns r) ∧
    (∀ a b exclude, (∀ r ∈ S.runs, r.start ≤ a → a ≤ lastTime r → Tick C.g a) →
      (∀ r ∈ S.runs, r.start ≤ b → b ≤ lastTime r → Tick C.g b) →
      Dbl.extractT S a b exclude = S.extractT a b exclude) ∧
    (Plain S.tags → S.runs.IsChain ClearCut → Dbl.mergeConsecutive S = S.mergeConsecutive) := by
  obtain ⟨hR, hS⟩ := session_on h
  refine ⟨?_, fun others ho => (merge_dbl hS (fun T hT => (session_on (ho T hT)).2)).1,
    fun sel => (selectChannels_dbl hS sel).1, fun r => (selectRuns_dbl hS r).1,
    fun a b exclude ha hb => (extractT_dbl hS ha hb exclude).1,
    fun hp hc => (mergeConsecutive_dbl (reach_sinv hR) hp hS hc).1⟩
  intro args h1 h2
  refine join_dbl hS ?_
  intro a ha r hr
  cases a with
  | sync s => simp only [operandRuns, List.mem_singleton] at hr; rw [hr]; exact h1 s ha
  | set T => exact (session_on (h2 T ha)).2 r hr

/-- Present-day timestamps: from 2004-01-10 to 2038-01-19, in seconds since 1970. -/
def epoch : Clock := ⟨22, 2 ^ 30, 2 ^ 31, by norm_num, by norm_num, by norm_num⟩

/-- **C82.** Every double between 2^30 and 2^31 is a tick of the clock of present-day timestamps, so the
hypotheses on starts and windows hold by themselves: any sampling rate that is a power of two up to 4 MHz is
exact. -/
theorem C82_epoch (t : ℚ) (hd : IsDouble t) (h1 : 2 ^ 30 ≤ t) (_h2 : t ≤ 2 ^ 31) : Tick epoch.g t := by
  have : (2 : ℚ) ^ (30 : ℤ) ≤ |t| := by
    rw [abs_of_nonneg (by linarith [show (0 : ℚ) < 2 ^ 30 by norm_num])]
    exact_mod_cast h1
  obtain ⟨n, hn⟩ := isDouble_grid hd this
  exact ⟨n, hn⟩

/-- **C82.** On the clock of present-day timestamps consecutive runs are never in doubt when the gap is exactly a
sample period or at least half a period away from it. -/
theorem C82_clear_cut (a b : Sync α κ) (h : OnClock epoch a)
    (hg : a.rate = b.rate → gap a b = 1 / a.rate ∨ 1 / (2 * a.rate) ≤ |1 / a.rate - gap a b|) : ClearCut a b := by
  intro hr
  rcases hg hr with h1 | h1
  · exact .inl h1
  · right
    obtain ⟨k, hk, hrate⟩ := h.rate
    have hpos := OnClockLemmas.rate_pos h
    have hle : a.rate ≤ 2 ^ 22 := by
      rw [hrate]
      have : (2 : ℚ) ^ k ≤ 2 ^ (22 : ℤ) := zpow_le_zpow_right₀ one_le_two hk
      exact_mod_cast this
    have hp : 1 / 2 ^ 23 ≤ 1 / (2 * a.rate) := by
      apply one_div_le_one_div_of_le (by linarith)
      linarith
    have h2 : |gap a b| ≤ 1 / a.rate + |1 / a.rate - gap a b| := by
      have h3 : 0 < 1 / a.rate := by positivity
      calc |gap a b| = |1 / a.rate - (1 / a.rate - gap a b)| := by ring_nf
        _ ≤ |1 / a.rate| + |1 / a.rate - gap a b| := abs_sub _ _
        _ = _ := by rw [abs_of_pos h3]
    have h4 : 1 / a.rate = 2 * (1 / (2 * a.rate)) := by field_simp
    norm_num at *
    linarith

/-- Two runs of two samples at 128 Hz, one after the other, in November 2014. -/
def exTick (n : ℚ) : Sync ℤ ℚ := ⟨[[1, 2]], [1], 128, 1415000000 + n / 64, 2⟩

theorem exTick_on (n : ℕ) (hn : n ≤ 1) : WF (exTick n) ∧ OnClock epoch (exTick n) := by
  refine ⟨⟨by simp [exTick], by simp [exTick], by simp [exTick]⟩, ⟨⟨7, by decide, by norm_num [exTick]⟩, ?_, ?_, ?_, ?_, ?_⟩⟩
  · refine ⟨1415000000 * 2 ^ 22 + n * 2 ^ 16, ?_⟩
    simp only [exTick, epoch]
    push_cast
    norm_num
    ring
  all_goals
    have h0 : (0 : ℚ) ≤ n := by positivity
    have h1 : (n : ℚ) ≤ 1 := by exact_mod_cast hn
    simp only [exTick, epoch, lastTime]
    norm_num
    linarith

/-- The two runs make a set, which is found to be one run, and can be cut anywhere. -/
example : ∃ S R : SigSet ℤ ℚ, Dbl.new (.dict [("E", .int 0)]) [.sync (exTick 0), .sync (exTick 1)] = .ok S ∧ Session epoch S ∧
    Plain S.tags ∧ S.runs.IsChain ClearCut ∧ Dbl.mergeConsecutive S = .ok R ∧ R.runs.map (fun s => s.data) = [[[1, 2, 1, 2]]] ∧
    Session epoch R := by
  have hS : Dbl.new (.dict [("E", .int 0)]) [.sync (exTick 0), .sync (exTick 1)] = .ok (⟨[exTick 0, exTick 1], ⟨1, [("E", [0])]⟩⟩ : SigSet ℤ ℚ) := by
    decide +kernel
  have hR : Dbl.mergeConsecutive (⟨[exTick 0, exTick 1], ⟨1, [("E", [0])]⟩⟩ : SigSet ℤ ℚ) =
      .ok ⟨[⟨[[1, 2, 1, 2]], [1], 128, 1415000000, 4⟩], ⟨1, [("E", [0])]⟩⟩ := by decide +kernel
  have hs : Session epoch (⟨[exTick 0, exTick 1], ⟨1, [("E", [0])]⟩⟩ : SigSet ℤ ℚ) := by
    refine .new _ _ ?_ (by simp) hS
    intro s hs
    simp only [List.mem_cons, SigArg.sync.injEq, List.not_mem_nil, or_false] at hs
    rcases hs with rfl | rfl
    · exact_mod_cast exTick_on 0 (by simp)
    · exact_mod_cast exTick_on 1 (by simp)
  have hp : Plain (⟨1, [("E", [0])]⟩ : Tags) := by unfold Plain; decide
  have hc : [exTick 0, exTick 1].IsChain ClearCut := by
    refine List.isChain_cons_cons.2 ⟨?_, List.isChain_singleton _⟩
    intro _
    left
    norm_num [gap, lastTime, exTick]
  exact ⟨_, _, hS, hs, hp, hc, hR, rfl, .mergeConsecutive hs hp hc hR⟩

/-! C83 -/

/-- **C83.** Any sampling rate: `extract_t(a, b)` in double precision always succeeds, and the only samples in
doubt are those within half a sample period of `a` or `b`, and the last sample of the signal.  The other samples
are kept exactly when they are in the window; the kept samples are contiguous and the start of the result is the
time of the first of them up to half a period. -/
theorem C83_extract_close [One κ] (s : Sync α κ) (hw : WF s) (h : Room s) (a b : ℚ) (ha : a ≤ lastTime s)
    (hb : s.start ≤ b) :
    ∃ (r : Sync α κ) (k j : Nat), Dbl.syncExtractT s a b = .ok r ∧ k ≤ s.size ∧ j ≤ s.size ∧
      r.data = s.data.map (fun d => (d.drop k).take (j - k)) ∧ r.size = j - k ∧ r.cals = s.cals ∧ r.rate = s.rate ∧
      |r.start - sampleTime s.rate s.start k| ≤ 1 / (2 * s.rate) ∧
      (∀ i, k ≤ i ∧ i < j → a - 1 / (2 * s.rate) ≤ sampleTime s.rate s.start i ∧
        sampleTime s.rate s.start i ≤ b + 1 / (2 * s.rate)) ∧
      (∀ i, i + 1 < s.size → a + 1 / (2 * s.rate) ≤ sampleTime s.rate s.start i →
        sampleTime s.rate s.start i ≤ b - 1 / (2 * s.rate) → k ≤ i ∧ i < j) := by
  obtain ⟨r, k, j, e0, hk, hj, e1, e2, e3, e4, e5, e6, e7, e8, e9⟩ := RoundErr.extractT_err hw h a b
  exact ⟨r, k, j, e0, hk, hj, e1, e4, e2, e3, RoundErr.half_of h.rate e5, fun i hi => ⟨by simpa [min_eq_right ha] using e6 i hi.1, by simpa [max_eq_right hb] using e7 i hi.2⟩,
    fun i hi h1 h2 => ⟨e8 i h1, e9 i hi h2⟩⟩

/-- **C83.** Between the times of two samples, as the program computes them: at most the two samples at the ends
are lost, and none is added. -/
theorem C83_sample_bounds [One κ] (s : Sync α κ) (hw : WF s) (h : Room s) (i j : Nat) (hij : i ≤ j) (hj : j < s.size) :
    ∃ (a b : ℚ) (r : Sync α κ) (k m : Nat), Dbl.indexToTime s i = .ok a ∧ Dbl.indexToTime s j = .ok b ∧
      Dbl.syncExtractT s a b = .ok r ∧ r.data = s.data.map (fun d => (d.drop k).take (m - k)) ∧
      (k = i ∨ k = i + 1) ∧ (m = j ∨ m = j + 1) := by
  have hr := h.rate
  have hx : ∀ i : Nat, Dbl.indexToTime s i = .ok (fl (s.start + fl (fl ((i : ℤ) : ℚ) / s.rate))) := by
    intro i
    unfold Dbl.indexToTime Sync.indexToTime
    simp only [Rnd.rnd_double, hr.ne', if_false]
    rw [if_neg (by omega)]
  have ti := RoundErr.time_err h (i := i) (by omega)
  have tj := RoundErr.time_err h (i := j) (by omega)
  generalize ha : fl (s.start + fl (fl ((i : ℤ) : ℚ) / s.rate)) = a at *
  generalize hb : fl (s.start + fl (fl ((j : ℤ) : ℚ) / s.rate)) = b at *
  obtain ⟨r, k, m, e0, hk, hm, e1, e2, e3, e4, e5, e6, e7, e8, e9⟩ := RoundErr.extractT_err hw h a b
  have ht : ∀ x y : Nat, (sampleTime s.rate s.start x - sampleTime s.rate s.start y) * s.rate = (x : ℚ) - y := by
    intro x y; unfold sampleTime; field_simp; ring
  have hhalf : (1 : ℚ) / (2 * s.rate) * s.rate = 1 / 2 := by field_simp
  have ai := mul_le_mul_of_nonneg_right (neg_abs_le (a - sampleTime s.rate s.start i)) hr.le
  have ai' := mul_le_mul_of_nonneg_right (le_abs_self (a - sampleTime s.rate s.start i)) hr.le
  have bj := mul_le_mul_of_nonneg_right (neg_abs_le (b - sampleTime s.rate s.start j)) hr.le
  have bj' := mul_le_mul_of_nonneg_right (le_abs_self (b - sampleTime s.rate s.start j)) hr.le
  -- times of samples compared through their indices
  have lt_of : ∀ x y : Nat, (sampleTime s.rate s.start x - sampleTime s.rate s.start y) * s.rate < 1 → x ≤ y := by
    intro x y hxy
    rw [ht] at hxy
    have : (x : ℚ) < y + 1 := by linarith
    have : x < y + 1 := by exact_mod_cast this
    omega
  have hk1 : i ≤ k := by
    refine lt_of _ _ ?_
    have h1 := e6 k le_rfl
    have h2 := mul_le_mul_of_nonneg_right h1 hr.le
    rw [sub_mul, hhalf] at h2
    have h3 : sampleTime s.rate s.start i * s.rate - 13 / 50 ≤ min (lastTime s) a * s.rate := by
      rcases min_choice (lastTime s) a with hm | hm <;> rw [hm]
      · have := mul_le_mul_of_nonneg_right (Sync.sampleTime_le_last hr (show i < s.size by omega)) hr.le
        linarith
      · linarith
    rw [sub_mul]; linarith
  have hk2 : k ≤ i + 1 := by
    refine e8 (i + 1) ?_
    have h1 := ht (i + 1) i
    have : (a + 1 / (2 * s.rate)) * s.rate ≤ sampleTime s.rate s.start (i + 1) * s.rate := by
      rw [add_mul, hhalf]
      push_cast at h1
      linarith
    exact le_of_mul_le_mul_right this hr
  have hm1 : m ≤ j + 1 := by
    by_contra hc
    push Not at hc
    have h1 := e7 (j + 1) (by omega)
    have h2 := mul_le_mul_of_nonneg_right h1 hr.le
    rw [add_mul, hhalf] at h2
    have h3 : max s.start b * s.rate ≤ sampleTime s.rate s.start j * s.rate + 13 / 50 := by
      rcases max_choice s.start b with hm | hm <;> rw [hm]
      · have := mul_le_mul_of_nonneg_right (Sync.start_le_sampleTime (s := s) hr j) hr.le
        linarith
      · linarith
    have := ht (j + 1) j
    push_cast at this
    linarith
  have hm2 : j ≤ m := by
    by_contra hc
    push Not at hc
    obtain ⟨j', rfl⟩ : ∃ j', j = j' + 1 := ⟨j - 1, by omega⟩
    have h1 : j' < m := by
      refine e9 j' (by omega) ?_
      have h1 := ht (j' + 1) j'
      have : sampleTime s.rate s.start j' * s.rate ≤ (b - 1 / (2 * s.rate)) * s.rate := by
        rw [sub_mul, hhalf]
        push_cast at h1
        linarith
      exact le_of_mul_le_mul_right this hr
    omega
  exact ⟨a, b, r, k, m, by rw [hx, ha], by rw [hx, hb], e0, e1, by omega, by omega⟩

/-- The hypotheses are met by a recording of November 2014 at 15 Hz. -/
example : WF (⟨[[1, 2, 3, 4]], [1], 15, 1415000000, 4⟩ : Sync ℤ ℚ) ∧ Room (⟨[[1, 2, 3, 4]], [1], 15, 1415000000, 4⟩ : Sync ℤ ℚ) :=
  ⟨⟨by simp, by simp, by simp⟩, ⟨by norm_num, by norm_num, by norm_num [lastTime]⟩⟩

/-- Two samples at 15 Hz. -/
def exLost : Sync ℤ ℚ := ⟨[[1, 2]], [1], 15, 1400000000, 2⟩

/-- **C83.** The loss happens: `s.extract_t(s.start, s.stop)` may drop the last sample of the signal.  In exact
arithmetic it is the whole signal. -/
theorem C83_last_sample_lost : ∃ s : Sync ℤ ℚ, WF s ∧ Room s ∧ ∃ t r, Dbl.stop s = .ok t ∧
    Dbl.syncExtractT s s.start t = .ok r ∧ r.data = [[1]] ∧ s.data = [[1, 2]] ∧ s.extractT s.start (lastTime s) = .ok s := by
  refine ⟨exLost, ⟨by simp [exLost], by simp [exLost], by simp [exLost]⟩,
    ⟨by norm_num [exLost], by norm_num [exLost], by norm_num [lastTime, exLost]⟩,
    fl (1400000000 + fl (1 / 15)), ⟨[[1]], [1], 15, 1400000000, 1⟩, ?_, ?_, rfl, rfl, ?_⟩ <;> decide +kernel

/-- **C83.** Then merging two recordings made at the same times raises AssertionError, although their intervals
are the same; in exact arithmetic the merge has both channels. -/
theorem C83_merge_raises : ∃ S T : SigSet ℤ ℚ, Dbl.new (.dict [("E", .int 0)]) [.sync exLost] = .ok S ∧
    Dbl.new (.dict [("B", .int 0)]) [.sync exLost] = .ok T ∧ Dbl.merge S [T] = .error .assertion ∧
    S.merge [T] = .ok ⟨[⟨[[1, 2], [1, 2]], [1, 1], 15, 1400000000, 2⟩], ⟨2, [("E", [0]), ("B", [1])]⟩⟩ := by
  refine ⟨⟨[exLost], ⟨1, [("E", [0])]⟩⟩, ⟨[exLost], ⟨1, [("B", [0])]⟩⟩, ?_, ?_, ?_, ?_⟩ <;> decide +kernel

/-- Runs whose starts and stops, as the program computes them, are doubles of present-day timestamps. -/
def Dated (s : Sync α κ) : Prop := IsDouble s.start ∧ (2 ^ 30 ≤ s.start ∧ s.start ≤ 2 ^ 31) ∧
  ∃ t, Dbl.stop s = .ok t ∧ 2 ^ 30 ≤ t ∧ t ≤ 2 ^ 31

theorem never_close {rate : ℚ} (hq : 0 ≤ fl (1 / rate))
    (hm : ∀ m : ℤ, 3 * (1 / 10 ^ 8 + 1 / 10 ^ 5 * fl (1 / rate)) ≤ |fl (1 / rate) - m / 2 ^ 22|)
    {runs : List (Sync α κ)} (h : ∀ r ∈ runs, Dated r) (hr : ∀ r ∈ runs, r.rate = rate) (ρ : ℚ) :
    ∀ b ∈ @isConsecutive _ _ Rnd.double ρ runs, b = false := by
  induction runs with
  | nil => intro b hb; simp [isConsecutive] at hb
  | cons x l ih =>
    cases l with
    | nil => intro b hb; simp [isConsecutive] at hb
    | cons y l =>
      intro b hb
      simp only [isConsecutive, List.mem_cons] at hb
      rcases hb with hb | hb
      swap
      · exact ih (fun r hr' => h r (by simp [hr'])) (fun r hr' => hr r (by simp [hr'])) b hb
      by_cases hρ : x.rate = ρ
      swap
      · rw [hb, beq_eq_false_iff_ne.2 hρ]; simp
      obtain ⟨-, -, t, ht, h1, h2⟩ := h x (by simp)
      obtain ⟨hd, ⟨h3, h4⟩, -⟩ := h y (by simp)
      have hx := hr x (by simp)
      have ht' : fl (x.start + fl (fl ((x.size : ℚ) - 1) / x.rate)) = t := by
        unfold Dbl.stop Sync.stop Sync.indexToTime at ht
        simp only [Rnd.rnd_double] at ht
        split at ht
        · simp at ht
        · simp only [Except.ok.injEq] at ht
          rw [← ht]
          have e' : (if ((x.size : ℤ) - 1) < 0 then ((x.size : ℤ) - 1) + x.size else ((x.size : ℤ) - 1)) =
              (x.size : ℤ) - 1 := by split <;> omega
          rw [e']
          push_cast
          rfl
      have htd : IsDouble t := by rw [← ht']; exact fl_double _
      obtain ⟨m, hm1⟩ := C82_epoch t htd h1 h2
      obtain ⟨n, hn1⟩ := C82_epoch y.start hd h3 h4
      have hdiff : y.start - t = ((n - m : ℤ) : ℚ) / 2 ^ 22 := by
        have e : ((2 : ℚ) ^ (-epoch.g)) = 1 / 2 ^ 22 := by
          show ((2 : ℚ) ^ (-22 : ℤ)) = _
          rw [zpow_neg]; norm_num
        rw [hm1, hn1, e]; push_cast; ring
      have hfl : fl (y.start - t) = y.start - t := by
        refine fl_of_double (tick_double (g := 22) ⟨n - m, ?_⟩ ?_)
        · rw [hdiff, zpow_neg]; norm_num; ring
        · rw [abs_le]
          norm_num at *
          constructor <;> linarith
      simp only [Rnd.rnd_double] at hb
      rw [ht', hfl, ← hρ, hx, isclose_dbl_far] at hb
      · rw [hb]
        have : isclose (fl (1 / rate)) (y.start - t) = false := by
          unfold isclose
          simp only [Rnd.rnd_exact]
          rw [decide_eq_false_iff_not, not_le, hdiff]
          have h5 := hm (n - m)
          generalize fl (1 / rate) = q at *
          generalize ((n - m : ℤ) : ℚ) / 2 ^ 22 = g at *
          have h6 : |g| ≤ q + |q - g| := by
            calc |g| = |q - (q - g)| := by ring_nf
              _ ≤ |q| + |q - g| := abs_sub _ _
              _ = _ := by rw [abs_of_nonneg hq]
          norm_num at *
          linarith
        rw [this]; simp
      · rw [hdiff]
        have h5 := hm (n - m)
        generalize fl (1 / rate) = q at *
        generalize ((n - m : ℤ) : ℚ) / 2 ^ 22 = g at *
        have h6 : |g| ≤ q + |q - g| := by
          calc |g| = |q - (q - g)| := by ring_nf
            _ ≤ |q| + |q - g| := abs_sub _ _
            _ = _ := by rw [abs_of_nonneg hq]
        norm_num at *
        linarith

/-- Distance of a number to the multiples of 2^-22. -/
theorem tick_dist {q d : ℚ} (k : ℤ) (h1 : k / 2 ^ 22 + d ≤ q) (h2 : q + d ≤ (k + 1) / 2 ^ 22) (m : ℤ) :
    d ≤ |q - m / 2 ^ 22| := by
  have h3 : (m : ℚ) ≤ k ∨ (k : ℚ) + 1 ≤ m := by
    rcases le_or_gt m k with h | h
    · exact .inl (by exact_mod_cast h)
    · exact .inr (by exact_mod_cast h)
  rw [le_abs]
  rcases h3 with h | h
  · left; linarith
  · right; linarith

/-- **C83.** At 1000 Hz, or at 2400 Hz, runs dated with present-day timestamps are never found to be consecutive,
whatever their starts: `merge_consecutive_runs` then leaves as many runs as there were. -/
theorem C83_never_consecutive [One κ] (S R : SigSet α κ) (hd : ∀ r ∈ S.runs, Dated r)
    (hr : (∀ r ∈ S.runs, r.rate = 1000) ∨ ∀ r ∈ S.runs, r.rate = 2400) (h : Dbl.mergeConsecutive S = .ok R) :
    R.runs.length = S.runs.length := by
  refine @mergeConsecutive_none _ _ Rnd.double _ _ _ ?_ h
  intro ρ
  rcases hr with hr | hr
  · have hv : fl (1 / 1000) = 1152921504606847 / 2 ^ 60 := by decide +kernel
    refine never_close (rate := 1000) (by rw [hv]; norm_num) (fun m => ?_) hd hr ρ
    rw [hv]
    exact tick_dist 4194 (by norm_num) (by norm_num) m
  · have hv : fl (1 / 2400) = 7686143364045647 / 2 ^ 64 := by decide +kernel
    refine never_close (rate := 2400) (by rw [hv]; norm_num) (fun m => ?_) hd hr ρ
    rw [hv]
    exact tick_dist 1747 (by norm_num) (by norm_num) m

/-- Two runs at 1000 Hz, the second one at the double nearest to the time of its first sample. -/
example : ∃ S R : SigSet ℤ ℚ, Dbl.new (.dict [("E", .int 0)]) [.sync ⟨[[1, 2]], [1], 1000, 1400000000, 2⟩,
    .sync ⟨[[3, 4]], [1], 1000, fl (1400000000 + 2 / 1000), 2⟩] = .ok S ∧ (∀ r ∈ S.runs, Dated r) ∧
    (∀ r ∈ S.runs, r.rate = 1000) ∧ Dbl.mergeConsecutive S = .ok R ∧ R.runs.length = 2 := by
  refine ⟨⟨[⟨[[1, 2]], [1], 1000, 1400000000, 2⟩, ⟨[[3, 4]], [1], 1000, fl (1400000000 + 2 / 1000), 2⟩], ⟨1, [("E", [0])]⟩⟩,
    ⟨[⟨[[1, 2]], [1], 1000, 1400000000, 2⟩, ⟨[[3, 4]], [1], 1000, fl (1400000000 + 2 / 1000), 2⟩], ⟨1, [("E", [0])]⟩⟩,
    by decide +kernel, ?_, by simp, by decide +kernel, rfl⟩
  intro r hr
  simp only [List.mem_cons, List.not_mem_nil, or_false] at hr
  rcases hr with rfl | rfl
  · refine ⟨⟨1400000000, 0, by norm_num, by norm_num⟩, by norm_num, fl (1400000000 + fl (1 / 1000)), ?_, ?_, ?_⟩ <;>
      decide +kernel
  · refine ⟨fl_double _, ?_, fl (fl (1400000000 + 2 / 1000) + fl (1 / 1000)), ?_, ?_, ?_⟩ <;> decide +kernel

/-! C84 -/

theorem fl_le_double {x y : ℚ} (hy : IsDouble y) (h : x ≤ y) : fl x ≤ y := by
  by_contra hc
  push Not at hc
  have := fl_nearest x hy
  rw [abs_of_nonneg (by linarith), abs_of_nonneg (by linarith)] at this
  linarith

/-- **C84.** What `discrete_window` returns in double precision: the windows fit in the data and one more would
not, as in exact arithmetic; the length and the shift are those of C37 up to the rounding of `nper / nf` and of
`Lw (1 - overlap)`, so that each may be off by one, never by more. -/
theorem C84_discrete_window (size : ℕ) (nf nper overlap : ℚ) (Nw Lw shift : ℕ) (hL : nper / nf ≤ 2 ^ 50)
    (h : Dbl.discreteWindow size nf nper overlap = .ok (Nw, Lw, shift)) :
    (0 ≤ overlap ∧ overlap ≤ 1) ∧ (0 < nf ∧ nf ≤ 1 / 2) ∧
    (nper / nf ≤ Lw + 1 / 4 ∧ (Lw : ℚ) < nper / nf + 1 + 1 / 4) ∧
    (shift ≤ Lw * (1 - overlap) + 1 / 2 ∧ Lw * (1 - overlap) < shift + 1 + 1 / 2) ∧
    1 ≤ shift ∧ shift ≤ Lw ∧ 1 ≤ Nw ∧ Lw + Nw * shift ≤ size ∧ size < Lw + (Nw + 1) * shift := by
  unfold Dbl.discreteWindow Fourier.discreteWindow at h
  split at h
  · simp at h
  rename_i h1
  split at h
  · simp at h
  rename_i h2
  rw [not_not] at h1 h2
  simp only [Rnd.rnd_double] at h
  have c1 := Int.le_ceil (fl (nper / nf))
  have c2 := Int.ceil_lt_add_one (fl (nper / nf))
  have e1 := fl_err (nper / nf)
  generalize ⌈fl (nper / nf)⌉ = L at *
  have o0 := fl_nonneg (show 0 ≤ 1 - overlap by linarith [h1.2])
  have o1 : fl (1 - overlap) ≤ 1 := fl_le_double (isDouble_int (i := 1) (by norm_num)) (by push_cast; linarith [h1.1])
  have e2 := fl_err (1 - overlap)
  rw [abs_of_nonneg (show 0 ≤ 1 - overlap by linarith [h1.2])] at e2
  have e3 := fl_err (L * fl (1 - overlap))
  have hneg : L < 0 → Fourier.truncInt (fl (L * fl (1 - overlap))) ≤ 0 := by
    intro hL
    have hL' : (L : ℚ) ≤ 0 := by exact_mod_cast hL.le
    have := fl_nonpos (mul_nonpos_of_nonpos_of_nonneg hL' o0)
    unfold Fourier.truncInt
    split
    · rename_i h0
      have : fl (L * fl (1 - overlap)) = 0 := le_antisymm this h0
      rw [this]; simp
    · exact Int.ceil_le.2 (by simpa using this)
  have hpos : 0 ≤ L → Fourier.truncInt (fl (L * fl (1 - overlap))) = ⌊fl (L * fl (1 - overlap))⌋ := by
    intro hL
    have hL' : (0 : ℚ) ≤ L := by exact_mod_cast hL
    exact if_pos (fl_nonneg (mul_nonneg hL' o0))
  split at h
  · split at h <;> simp at h
  rename_i hs0
  split at h
  · simp at h
  rename_i hN
  simp only [Except.ok.injEq, Prod.mk.injEq] at h
  obtain ⟨f1, f2, f3⟩ := h
  have hLpos : 0 ≤ L := by
    by_contra hc
    push Not at hc
    have h5 := hneg hc
    apply hN
    have : Fourier.truncInt (fl (L * fl (1 - overlap))) < 0 := by omega
    have h6 := Int.fdiv_nonpos_of_nonneg_of_nonpos (show 0 ≤ (size : ℤ) - L by omega) this.le
    omega
  rw [hpos hLpos] at *
  clear hneg hpos
  have hLq : (0 : ℚ) ≤ L := by exact_mod_cast hLpos
  -- the quotient is not negative, or there would be no window
  have p1 := Int.floor_le (fl (L * fl (1 - overlap)))
  have p2 := Int.lt_floor_add_one (fl (L * fl (1 - overlap)))
  have p0 : 0 ≤ ⌊fl (L * fl (1 - overlap))⌋ := Int.floor_nonneg.2 (fl_nonneg (mul_nonneg hLq o0))
  generalize ⌊fl (L * fl (1 - overlap))⌋ = s at *
  have hs : 1 ≤ s := by omega
  have hLw : ((Lw : ℕ) : ℤ) = L := by omega
  have hsw : ((shift : ℕ) : ℤ) = s := by omega
  rw [Int.fdiv_eq_ediv_of_nonneg _ (by omega)] at f1 hN
  have hNw : ((Nw : ℕ) : ℤ) = ((size : ℤ) - L) / s := by omega
  have hLwq : ((Lw : ℕ) : ℚ) = (L : ℚ) := by exact_mod_cast hLw
  have hswq : ((shift : ℕ) : ℚ) = (s : ℚ) := by exact_mod_cast hsw
  have m1 := Int.ediv_mul_le ((size : ℤ) - L) (show s ≠ 0 by omega)
  have m2 := Int.lt_ediv_add_one_mul_self ((size : ℤ) - L) (show 0 < s by omega)
  rw [← hNw, ← hsw, ← hLw] at m1 m2
  have hL1 : (1 : ℚ) ≤ L := by
    have : L ≠ 0 := by
      rintro rfl
      simp only [Int.cast_zero, zero_mul, fl_zero] at p1
      have : (1 : ℚ) ≤ s := by exact_mod_cast hs
      linarith
    have : 1 ≤ L := by omega
    exact_mod_cast this
  have hq0 : 0 ≤ nper / nf := by
    by_contra hc
    push Not at hc
    have := fl_nonpos hc.le
    have h7 : (0 : ℚ) < fl (nper / nf) := by linarith
    linarith
  rw [abs_of_nonneg hq0] at e1
  have hq1 : nper / nf / 2 ^ 53 ≤ 1 / 8 := by
    rw [div_le_iff₀ (by norm_num)]; norm_num at *; linarith
  have e1a := (abs_le.1 e1).1
  have e1b := (abs_le.1 e1).2
  have hLle : (L : ℚ) ≤ 2 ^ 50 + 2 := by linarith
  have hLd : IsDouble (L : ℚ) := by
    refine isDouble_int ?_
    rw [abs_of_nonneg hLpos]
    have : (L : ℚ) ≤ 2 ^ 53 := by norm_num at *; linarith
    exact_mod_cast this
  have e3' : |fl (L * fl (1 - overlap)) - L * fl (1 - overlap)| ≤ 3 / 16 := by
    refine e3.trans ?_
    rw [abs_of_nonneg (mul_nonneg hLq o0), div_le_iff₀ (by norm_num)]
    have : L * fl (1 - overlap) ≤ L := mul_le_of_le_one_right hLq o1
    norm_num at *
    linarith
  have e2' : |L * fl (1 - overlap) - L * (1 - overlap)| ≤ 3 / 16 := by
    rw [← mul_sub, abs_mul, abs_of_nonneg hLq]
    have h8 : |fl (1 - overlap) - (1 - overlap)| ≤ 1 / 2 ^ 53 := by
      refine e2.trans ?_
      gcongr
      linarith [h1.1]
    have := mul_le_mul_of_nonneg_left h8 hLq
    refine this.trans ?_
    norm_num at *
    linarith
  have a1 := abs_le.1 e3'
  have a2 := abs_le.1 e2'
  refine ⟨h1, h2, ⟨by rw [hLwq]; linarith, by rw [hLwq]; linarith⟩,
    ⟨by rw [hLwq, hswq]; linarith [a1.2, a2.2], by rw [hLwq, hswq]; linarith [a1.1, a2.1]⟩, by omega, ?_, by omega, ?_, ?_⟩
  · have h9 : fl (L * fl (1 - overlap)) ≤ L := fl_le_double hLd (mul_le_of_le_one_right hLq o1)
    have : (s : ℚ) ≤ L := by linarith
    have : s ≤ L := by exact_mod_cast this
    omega
  · have : (Lw : ℤ) + Nw * shift ≤ size := by linarith
    exact_mod_cast this
  · have : (size : ℤ) < Lw + (Nw + 1) * shift := by linarith
    exact_mod_cast this

example : Dbl.discreteWindow 1000 (fl (1 / 10)) 8 (fl (71 / 100)) = .ok (40, 80, 23) := by decide +kernel

/-- **C84.** A window one sample too long: three periods of 2.4 Hz at 24 Hz are 30 samples, the program takes 31,
which is not a whole number of periods. -/
theorem C84_one_too_long : Dbl.discreteWindow 1000 (fl (fl (24 / 10) / 24)) 3 0 = .ok (31, 31, 31) ∧
    discreteWindow 1000 (24 / 10 / 24) 3 0 = .ok (32, 30, 30) := by decide +kernel

/-- **C84.** Windows of ten samples with an overlap of 0.9 should move by one sample: the program computes a zero
shift and raises OverflowError. -/
theorem C84_zero_shift : Dbl.discreteWindow 1000 (fl (1 / 10)) 1 (fl (9 / 10)) = .error .overflow ∧
    discreteWindow 1000 (1 / 10) 1 (9 / 10) = .ok (990, 10, 1) := by decide +kernel

end Razorback.Props
