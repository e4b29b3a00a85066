/-
Properties C07-C11: synchronous signals.
-/
import Verif.Lemmas.Sync

namespace Razorback.Props
open Razorback Razorback.Spec
variable {α κ : Type _}

/-! C07 -/

/-- **C07.** `SyncSignal(data, rate, start, calibrations)` is accepted exactly for non-empty rectangular
data with no calibrations or one per channel; otherwise the exception is an AssertionError. -/
theorem C07_construction_iff {F V : Type _} [One V] (data : List (List α)) (rate start : ℚ)
    (cals : Option (List (CalArg F V))) :
    ((∃ s, Sync.init data rate start cals = .ok s) ↔
      data ≠ [] ∧ (∃ n, ∀ d ∈ data, d.length = n) ∧
        ∀ cs, cals = some cs → cs ≠ [] → cs.length = data.length) ∧
    ∀ e, Sync.init data rate start cals = .error e → e = .assertion := by
  refine ⟨⟨?_, ?_⟩, ?_⟩
  · rintro ⟨s, h⟩
    obtain ⟨h1, h2, h3, h4, h5, h6⟩ := Sync.new_ok h
    rw [← h2]
    refine ⟨h1.nonempty, ⟨s.size, h1.rect⟩, ?_⟩
    rintro cs rfl hne
    rw [h2]
    rcases h6 with h6 | h6
    · simp at h6; exact absurd h6 hne
    · simpa using h6
  · rintro ⟨h1, ⟨n, h2⟩, h3⟩
    unfold Sync.init
    by_cases hc : cals.getD [] = []
    · rw [hc]; exact ⟨_, Sync.new_nil_eq h1 h2⟩
    · cases cals with
      | none => simp at hc
      | some cs =>
        simp only [Option.getD_some] at hc ⊢
        exact ⟨_, Sync.new_eq h1 h2 (by simpa using h3 cs rfl hc)⟩
  · intro e h
    exact Sync.new_error h

/-- **C07.** What the accepted object exposes. -/
theorem C07_construction_fields {F V : Type _} [One V] (data : List (List α)) (rate start : ℚ)
    (cals : Option (List (CalArg F V))) (s : Sync α (F → V)) (h : Sync.init data rate start cals = .ok s) :
    s.data = data ∧ s.rate = rate ∧ s.start = start ∧ (∀ d ∈ data, d.length = s.size) ∧
      s.cals.length = data.length ∧
      ((cals = none ∨ cals = some []) → ∀ c ∈ s.cals, c = fun _ => 1) ∧
      (∀ cs, cals = some cs → cs ≠ [] → s.cals = cs.map CalArg.toFn) := by
  obtain ⟨h1, h2, h3, h4, h5, h6⟩ := Sync.new_ok h
  refine ⟨h2, h3, h4, by rw [← h2]; exact h1.rect, by rw [← h2]; exact h1.cals, ?_, ?_⟩
  · intro hc c hcs
    have : (cals.getD []).map CalArg.toFn = [] := by rcases hc with rfl | rfl <;> rfl
    rw [if_pos this] at h5
    rw [h5, List.mem_replicate] at hcs
    exact hcs.2
  · rintro cs rfl hne
    rw [if_neg (by simpa using hne)] at h5
    simpa using h5

example : ∃ s, Sync.init [[1, 2, 3], [4, 5, (6 : Int)]] 2 10 (some [CalArg.num (3 : ℚ), CalArg.fn fun f : ℚ => f]) = .ok s
    ∧ s.size = 3 := ⟨_, rfl, rfl⟩

/-- **C07.** Without a start nor calibrations the signal starts at time 0 with every calibration constant 1. -/
theorem C07_defaults {F V : Type _} [One V] (data : List (List α)) (rate : ℚ) (s : Sync α (F → V))
    (h : Sync.init data rate = .ok s) : s.start = 0 ∧ ∀ c ∈ s.cals, c = fun _ => 1 :=
  let h' := C07_construction_fields data rate 0 none s h
  ⟨h'.2.2.1, h'.2.2.2.2.2.1 (.inl rfl)⟩

example : ∃ s, Sync.init (F := ℚ) (V := ℚ) [[1, 2, 3], [4, 5, (6 : Int)]] 2 = .ok s ∧ s.start = 0 := ⟨_, rfl, rfl⟩

/-- Every constructed signal is well-formed (the hypothesis `WF` below). -/
theorem C07_wellformed [One κ] (data : List (List α)) (rate start : ℚ) (cals : List κ) (s : Sync α κ)
    (h : Sync.new data rate start cals = .ok s) : WF s := (Sync.new_ok h).1

/-! C08 -/

/-- **C08.** Index → time → index is the identity, whichever rounding. -/
theorem C08_time_index_inverse (s : Sync α κ) (hr : 0 < s.rate) (i : Nat) (r : Sync.Round) :
    ∃ t, s.indexToTime i = .ok t ∧ t = sampleTime s.rate s.start i ∧ s.timeToIndex t r = i := by
  refine ⟨_, Sync.indexToTime_nat hr.ne' i, rfl, ?_⟩
  have : (sampleTime s.rate s.start i - s.start) * s.rate = ((i : Int) : ℚ) := by
    unfold sampleTime; push_cast
    field_simp
    ring
  cases r <;> unfold Sync.timeToIndex <;> simp only [Rnd.rnd_exact, this]
  · exact Int.floor_intCast _
  · exact Int.ceil_intCast _

/-- **C08.** Rounding right is the first index at or after `t`, rounding left the last one at or before. -/
theorem C08_rounding (s : Sync α κ) (hr : 0 < s.rate) (t : ℚ) :
    (t ≤ s.start + s.timeToIndex t .right / s.rate ∧
      ∀ i : Int, t ≤ s.start + i / s.rate → s.timeToIndex t .right ≤ i) ∧
    (s.start + s.timeToIndex t .left / s.rate ≤ t ∧
      ∀ i : Int, s.start + i / s.rate ≤ t → i ≤ s.timeToIndex t .left) :=
  ⟨⟨(Sync.ceil_le_iff hr t _).1 le_rfl, fun i h => (Sync.ceil_le_iff hr t i).2 h⟩,
    ⟨(Sync.le_floor_iff hr t _).1 le_rfl, fun i h => (Sync.le_floor_iff hr t i).2 h⟩⟩

/-- **C08.** `stop` is the time of the last sample; it raises exactly for a zero rate.  (A signal without
samples has `stop` one period before `start`.) -/
theorem C08_stop (s : Sync α κ) :
    (s.rate = 0 ↔ s.stop = .error .zeroDiv) ∧
    (s.rate ≠ 0 → 0 < s.size → s.stop = .ok (sampleTime s.rate s.start (s.size - 1))) ∧
    (s.rate ≠ 0 → s.size = 0 → s.stop = .ok (s.start - 1 / s.rate)) := by
  refine ⟨?_, ?_, ?_⟩
  · constructor
    · intro h; simp [Sync.stop, Sync.indexToTime, h]
    · intro h
      by_contra hr
      rw [Sync.stop_eq s hr] at h; simp at h
  · intro hr hs; rw [Sync.stop_eq s hr, Sync.lastTime_eq hs]
  · intro hr hs; rw [Sync.stop_eq s hr, lastTime, hs]; simp; ring

example : ∃ s : Sync Int ℚ, Sync.new [[1, 2, 3]] 4 10 [] = .ok s ∧ (0 : ℚ) < s.rate ∧ s.stop = .ok (21 / 2) ∧
    s.timeToIndex (41 / 4) .left = 1 ∧ s.timeToIndex (31 / 3) .right = 2 :=
  ⟨_, rfl, by norm_num, by simp [Sync.stop, Sync.indexToTime]; norm_num,
    by simp [Sync.timeToIndex]; rw [Int.floor_eq_iff]; norm_num,
    by simp [Sync.timeToIndex]; rw [Int.ceil_eq_iff]; norm_num⟩

/-! C09 -/

/-- **C09.** If the window `[a, b]` meets the interval of the signal, `extract_t(a, b)` contains, on every
channel, exactly the samples of that channel whose time is in the window, in order, with their times and
the calibration of the channel. -/
theorem C09_extract_t_exact [One κ] (s : Sync α κ) (hw : WF s) (hr : 0 < s.rate) (hs : 0 < s.size) (a b : ℚ)
    (ha : a ≤ lastTime s) (hb : s.start ≤ b) :
    ∃ r, s.extractT a b = .ok r ∧ WF r ∧ r.rate = s.rate ∧
      channels r = (channels s).map (fun c => (inWindow a b c.1, c.2)) := by
  obtain ⟨k, m, hk, hm, he, h1, h2⟩ := Sync.extractT_cut hw hr hs a b
  refine ⟨_, he, Sync.cut_wf hw (by omega), rfl, ?_⟩
  refine Sync.channels_filter_cut hw (fun t => decide (a ≤ t) && decide (t ≤ b)) k (m + 1 - k) ?_
  intro i hi
  have h3 := h1 i
  have h4 := h2 i
  have h5 := Sync.start_le_sampleTime hr i (s := s)
  have h6 := Sync.sampleTime_le_last hr hi
  have e1 : (k ≤ i) ↔ a ≤ sampleTime s.rate s.start i := by
    rw [h3, min_le_iff, max_le_iff]
    constructor
    · rintro (h | h)
      · exact ha.trans h
      · exact h.2
    · intro h; exact Or.inr ⟨h5, h⟩
  have e2 : (i ≤ m) ↔ sampleTime s.rate s.start i ≤ b := by
    rw [h4, le_min_iff, le_max_iff]
    constructor
    · rintro ⟨_, h | h⟩
      · exact h.trans hb
      · exact h
    · intro h; exact ⟨h6, Or.inr h⟩
  simp only [Bool.and_eq_true, decide_eq_true_eq, ← e1, ← e2]
  omega

/-- **C09.** A window disjoint from the signal's interval yields the single nearest end sample. -/
theorem C09_extract_t_disjoint [One κ] (s : Sync α κ) (hw : WF s) (hr : 0 < s.rate) (hs : 0 < s.size) (a b : ℚ)
    (hab : a ≤ b) :
    (lastTime s < a → ∃ r, s.extractT a b = .ok r ∧ r.size = 1 ∧ r.start = lastTime s ∧
      channels r = (channels s).map (fun c => (inWindow (lastTime s) (lastTime s) c.1, c.2))) ∧
    (b < s.start → ∃ r, s.extractT a b = .ok r ∧ r.size = 1 ∧ r.start = s.start ∧
      channels r = (channels s).map (fun c => (inWindow s.start s.start c.1, c.2))) := by
  have hle := Sync.start_le_lastTime hr hs
  obtain ⟨k, m, hk, hm, he, h1, h2⟩ := Sync.extractT_cut hw hr hs a b
  constructor
  · intro ha
    have hA : min (lastTime s) (max s.start a) = lastTime s :=
      min_eq_left (le_trans ha.le (le_max_right _ _))
    have hB : min (lastTime s) (max s.start b) = lastTime s :=
      min_eq_left (le_trans (ha.le.trans hab) (le_max_right _ _))
    rw [hA] at h1
    rw [hB] at h2
    rw [Sync.lastTime_eq hs] at h1 h2
    have hk' : k = s.size - 1 := by
      have e1 := (h1 (s.size - 1)).2 le_rfl
      have e2 := (h1 k).1 le_rfl
      rw [sampleTime_mono hr] at e2; omega
    have hm' : m = s.size - 1 := by
      have e1 := (h2 (s.size - 1)).2 le_rfl
      omega
    refine ⟨_, he, by simp [Sync.cut]; omega, ?_, ?_⟩
    · rw [Sync.lastTime_eq hs, Sync.cut, hk']
    · refine Sync.channels_filter_cut hw (fun t => decide (lastTime s ≤ t) && decide (t ≤ lastTime s)) k _ ?_
      intro i hi
      simp only [Sync.lastTime_eq hs, Bool.and_eq_true, decide_eq_true_eq, sampleTime_mono hr]
      omega
  · intro hb
    have hA : min (lastTime s) (max s.start a) = s.start := by
      rw [max_eq_left (hab.trans hb.le), min_eq_right hle]
    have hB : min (lastTime s) (max s.start b) = s.start := by
      rw [max_eq_left hb.le, min_eq_right hle]
    have h0 : s.start = sampleTime s.rate s.start 0 := by simp [sampleTime]
    rw [hA, h0] at h1
    rw [hB] at h2
    rw [h0] at h2
    have hst : ∀ i : Nat, sampleTime s.rate (sampleTime s.rate s.start 0) i = sampleTime s.rate s.start i := by
      intro i; rw [sampleTime_add]; simp
    have hk' : k = 0 := by
      have e1 := (h1 0).2 (by rw [hst])
      omega
    have hm' : m = 0 := by
      have e1 := (h2 m).1 le_rfl
      rw [hst, sampleTime_mono hr] at e1; omega
    refine ⟨_, he, by simp [Sync.cut]; omega, ?_, ?_⟩
    · rw [Sync.cut, hk', ← h0]
    · refine Sync.channels_filter_cut hw (fun t => decide (s.start ≤ t) && decide (t ≤ s.start)) k _ ?_
      intro i hi
      have e : (sampleTime s.rate s.start i ≤ s.start) ↔ i = 0 := by
        conv_lhs => rhs; rw [h0]
        rw [sampleTime_mono hr]; omega
      have e3 := Sync.start_le_sampleTime hr i (s := s)
      rw [Bool.and_eq_true, decide_eq_true_eq, decide_eq_true_eq, e]
      exact ⟨fun h => by have := h.2; omega, fun h => ⟨e3, by omega⟩⟩

/-- **C09.** With `strict=True` the window is accepted exactly when both bounds lie in the signal's interval
(otherwise AssertionError), and the result is then that of the default mode. -/
theorem C09_extract_t_strict [One κ] (s : Sync α κ) (hw : WF s) (hr : 0 < s.rate) (hs : 0 < s.size) (a b : ℚ) :
    ((s.start ≤ a ∧ a ≤ lastTime s) ∧ (s.start ≤ b ∧ b ≤ lastTime s) →
      s.extractT a b true = s.extractT a b false) ∧
    (¬ ((s.start ≤ a ∧ a ≤ lastTime s) ∧ (s.start ≤ b ∧ b ≤ lastTime s)) →
      s.extractT a b true = .error .assertion) := by
  constructor
  · rintro ⟨⟨h1, h2⟩, h3, h4⟩
    obtain ⟨k, m, hk, hm, he, e1, e2⟩ := Sync.extractT_cut hw hr hs a b
    rw [he]
    rw [max_eq_right h1, min_eq_right h2] at e1
    rw [max_eq_right h3, min_eq_right h4] at e2
    have hk0 : 0 ≤ s.timeToIndex a .right := by
      unfold Sync.timeToIndex
      rw [Rnd.rnd_exact, Rnd.rnd_exact]
      exact Int.ceil_nonneg (mul_nonneg (by linarith) hr.le)
    have hm0 : 0 ≤ s.timeToIndex b .left := by
      rw [Sync.le_floor_iff hr]; simpa using h3
    have ek : s.timeToIndex a .right = k := by
      have key : ∀ i : Nat, s.timeToIndex a .right ≤ i ↔ k ≤ i := by
        intro i
        rw [Sync.ceil_le_iff hr, e1 i]
        unfold sampleTime; push_cast; exact Iff.rfl
      have k1 := (key k).2 le_rfl
      have k2 := (key (s.timeToIndex a .right).toNat).1 (Int.self_le_toNat _)
      omega
    have em : s.timeToIndex b .left = m := by
      have key : ∀ i : Nat, i ≤ s.timeToIndex b .left ↔ i ≤ m := by
        intro i
        rw [Sync.le_floor_iff hr, e2 i]
        unfold sampleTime; push_cast; exact Iff.rfl
      have k1 := (key m).2 le_rfl
      have k2 := (key (s.timeToIndex b .left).toNat).1 (by omega)
      omega
    unfold Sync.extractT
    rw [Sync.stop_eq s hr.ne']
    simp only [h1, h2, h3, h4]
    have := Sync.extractI_strict hw hr.ne' (i := (k : Int)) (j := (m : Int) + 1) (by omega) (by omega)
      (by omega) (by omega)
    have e : ((m : Int) + 1).toNat = m + 1 := by omega
    rw [e, Int.toNat_natCast] at this
    rw [← this]
    unfold Sync.extractI
    simp [ek, em]
  · intro h
    unfold Sync.extractT
    rw [Sync.stop_eq s hr.ne']
    have : (decide (s.start ≤ a) && decide (a ≤ lastTime s) && decide (s.start ≤ b) && decide (b ≤ lastTime s)) = false := by
      by_contra hc
      simp only [Bool.not_eq_false, Bool.and_eq_true, decide_eq_true_eq] at hc
      exact h ⟨hc.1.1, hc.1.2, hc.2⟩
    simp [this]

example : ∃ s : Sync Int ℚ, Sync.new [[1, 2, 3, 4], [5, 6, 7, 8]] 2 10 [] = .ok s ∧ WF s ∧ (0 : ℚ) < s.rate ∧ 0 < s.size ∧
    (41 / 4 : ℚ) ≤ lastTime s ∧ s.start ≤ 11 :=
  ⟨_, rfl, ⟨by simp, by simp, by simp⟩, by norm_num, by norm_num, by norm_num [lastTime], by norm_num⟩

/-! C10 -/

/-- **C10.** Strict `extract_i(i, j)`: accepted exactly in range; sample `k` of each channel of the result is
sample `i + k` of that channel, at the same time, for the indices below `j`. -/
theorem C10_extract_i_strict [One κ] (s : Sync α κ) (hw : WF s) (hr : s.rate ≠ 0) (i j : Int) :
    ((∃ r, s.extractI (some i) (some j) = .ok r) ↔ (0 ≤ i ∧ i < s.size ∧ 0 ≤ j ∧ j ≤ s.size)) ∧
    ∀ r, s.extractI (some i) (some j) = .ok r →
      WF r ∧ r.rate = s.rate ∧ (r.size : Int) = max 0 (j - i) ∧
      channels r = (channels s).map (fun c => ((c.1.drop i.toNat).take (j - i).toNat, c.2)) ∧
      r.start = s.start + i / s.rate := by
  have key : ∀ r, s.extractI (some i) (some j) = .ok r → (0 ≤ i ∧ i < s.size ∧ 0 ≤ j ∧ j ≤ s.size) := by
    intro r h
    by_contra hc
    have : (decide (0 ≤ i) && decide (i < s.size) && decide (0 ≤ j) && decide (j ≤ s.size)) = false := by
      by_contra hc'
      simp only [Bool.not_eq_false, Bool.and_eq_true, decide_eq_true_eq] at hc'
      exact hc ⟨hc'.1.1.1, hc'.1.1.2, hc'.1.2, hc'.2⟩
    unfold Sync.extractI at h
    simp [this] at h
  refine ⟨⟨fun ⟨r, h⟩ => key r h, ?_⟩, ?_⟩
  · rintro ⟨h1, h2, h3, h4⟩
    exact ⟨_, Sync.extractI_strict hw hr h1 h2 h3 h4⟩
  · intro r h
    obtain ⟨h1, h2, h3, h4⟩ := key r h
    rw [Sync.extractI_strict hw hr h1 h2 h3 h4] at h
    simp only [Except.ok.injEq] at h
    subst h
    refine ⟨Sync.cut_wf hw (by omega), rfl, by simp [Sync.cut]; omega, ?_, ?_⟩
    · rw [Sync.channels_cut]
      have : (j - i).toNat = j.toNat - i.toNat := by omega
      rw [this]
    · have : ((i.toNat : Nat) : ℚ) = (i : ℚ) := by
        rw [← Int.cast_natCast, Int.toNat_of_nonneg h1]
      simp [Sync.cut, sampleTime, this]

/-- The position an index of a sequence of length `n` designates when counted from the end if negative and
clipped to the sequence. -/
def clip (n : Nat) (i : Int) : Nat := ((if i < 0 then i + n else i) ⊓ n).toNat

/-- **C10.** `extract_i(i, j, strict=False)` is accepted for all indices.  Negative ones count from the end.  The
channels are the samples from `i` to `j` as for Python sequences, *with their times*, unless `i` is below
`-size`: then the samples start with the first one but all their times are too early, by `-(i + size)`
samples. -/
theorem C10_extract_i_lenient [One κ] (s : Sync α κ) (hw : WF s) (hr : s.rate ≠ 0) (i j : Int) :
    ∃ r, s.extractI (some i) (some j) false = .ok r ∧ WF r ∧ r.rate = s.rate ∧ r.cals = s.cals ∧
      r.data = s.data.map (fun d => (d.drop (clip s.size i)).take (clip s.size j - clip s.size i)) ∧
      (-(s.size : Int) ≤ i → channels r =
        (channels s).map (fun c => ((c.1.drop (clip s.size i)).take (clip s.size j - clip s.size i), c.2))) ∧
      (i < -(s.size : Int) → channels r = (channels s).map (fun c =>
        ((c.1.take (clip s.size j)).map (fun p => (p.1 + (i + s.size : Int) / s.rate, p.2)), c.2))) := by
  have hb : ∀ k : Int, pyBound s.size k = clip s.size k := by
    intro k; unfold pyBound clip; split <;> omega
  have hd : s.data.map (fun e => pySlice e i j) =
      s.data.map (fun d => (d.drop (clip s.size i)).take (clip s.size j - clip s.size i)) := by
    refine List.map_congr_left ?_
    intro d hd
    unfold pySlice
    rw [hw.rect d hd, hb, hb]
  have hle : ∀ k, clip s.size k ≤ s.size := by intro k; unfold clip; omega
  have hl : ∀ d ∈ s.data.map (fun d => (d.drop (clip s.size i)).take (clip s.size j - clip s.size i)),
      d.length = clip s.size j - clip s.size i := by
    intro d hd
    obtain ⟨e, he, rfl⟩ := List.mem_map.1 hd
    have := hle j
    simp [hw.rect e he]; omega
  have hne : s.data.map (fun d => (d.drop (clip s.size i)).take (clip s.size j - clip s.size i)) ≠ [] := by
    simpa using hw.nonempty
  set t : ℚ := s.start + ((if i < 0 then i + s.size else i : Int) : ℚ) / s.rate with ht
  have hi : s.indexToTime i = .ok t := by
    unfold Sync.indexToTime
    simp [hr, ht]
  have hn := Sync.new_eq (κ := κ) (rate := s.rate) (start := t) hne hl (cals := s.cals) (by simpa using hw.cals)
  refine ⟨{ data := s.data.map (fun d => (d.drop (clip s.size i)).take (clip s.size j - clip s.size i)), cals := s.cals,
            rate := s.rate, start := t, size := clip s.size j - clip s.size i }, ?_, ⟨hne, by simpa using hw.cals, hl⟩, rfl, rfl,
    rfl, ?_, ?_⟩
  · unfold Sync.extractI
    simp only [Bool.false_and, Bool.false_eq_true, if_false, Option.getD_some, Option.map_some, hi]
    rw [hd, hn]
  · intro h
    by_cases hbig : i ≤ s.size
    · have et : t = sampleTime s.rate s.start (clip s.size i) := by
        have : (if i < 0 then i + s.size else i : Int) = (clip s.size i : Int) := by unfold clip; split <;> omega
        rw [ht, this]
        simp [sampleTime]
      have := Sync.channels_cut s (clip s.size i) (clip s.size j - clip s.size i)
      rw [← this, et]
      rfl
    · have e0 : clip s.size j - clip s.size i = 0 := by
        have := hle j
        have : clip s.size i = s.size := by unfold clip; split <;> omega
        omega
      rw [e0]
      unfold channels
      rw [show (fun c : List (ℚ × α) × κ => ((c.1.drop (clip s.size i)).take 0, c.2)) =
        Prod.map (fun c => (c.drop (clip s.size i)).take 0) id from rfl, ← List.zip_map_left, List.map_map, List.map_map]
      congr 1
  · intro h
    have e0 : clip s.size i = 0 := by unfold clip; split <;> omega
    rw [e0]
    unfold channels
    simp only [List.drop_zero, Nat.sub_zero]
    rw [show (fun c : List (ℚ × α) × κ => ((c.1.take (clip s.size j)).map
        (fun p => (p.1 + (i + s.size : Int) / s.rate, p.2)), c.2)) =
      Prod.map (fun c => (c.take (clip s.size j)).map (fun p => (p.1 + (i + s.size : Int) / s.rate, p.2))) id from rfl,
      ← List.zip_map_left, List.map_map, List.map_map]
    congr 1
    refine List.map_congr_left ?_
    intro d _
    have hneg : i < 0 := by omega
    apply List.ext_getElem?
    intro k
    simp only [Function.comp_apply, getElem?_timed, List.getElem?_map, List.getElem?_take]
    split
    · simp only [getElem?_timed, Option.map_map]
      congr 1
      funext x
      simp only [Function.comp_apply, Prod.mk.injEq, and_true]
      rw [ht, if_pos hneg]
      unfold sampleTime
      ring
    · simp

/-- **C10.** With `include_last=True` the last index is included, with one exception: the index -1, which
designates the last sample, gives no sample at all. -/
theorem C10_extract_i_include_last [One κ] (s : Sync α κ) (hw : WF s) (hr : s.rate ≠ 0) (i j : Int) (strict : Bool) :
    s.extractI (some i) (some j) strict true = s.extractI (some i) (some (j + 1)) strict ∧
    ∃ r, s.extractI (some i) (some (-1)) false true = .ok r ∧ r.size = 0 := by
  have e : ∀ (j : Int) strict, s.extractI (some i) (some j) strict true = s.extractI (some i) (some (j + 1)) strict := by
    intro j strict
    unfold Sync.extractI
    simp
  refine ⟨e j strict, ?_⟩
  obtain ⟨r, hr1, hwf, -, -, hd, -⟩ := C10_extract_i_lenient s hw hr i (-1 + 1)
  refine ⟨r, by rw [e]; exact hr1, ?_⟩
  obtain ⟨d, hd'⟩ := List.exists_mem_of_ne_nil _ hwf.nonempty
  rw [← hwf.rect d hd']
  rw [hd] at hd'
  obtain ⟨e', -, rfl⟩ := List.mem_map.1 hd'
  simp [clip]

example : ∃ s r r' : Sync Int ℚ, Sync.new [[1, 2, 3, 4], [5, 6, 7, 8]] 2 10 [] = .ok s ∧
    s.extractI (some (-3)) (some 9) false = .ok r ∧ r.data = [[2, 3, 4], [6, 7, 8]] ∧ r.start = 21 / 2 ∧
    s.extractI (some (-6)) (some 2) false = .ok r' ∧ r'.data = [[1, 2], [5, 6]] ∧ r'.start = 9 :=
  ⟨_, _, _, rfl, rfl, rfl, by decide +kernel, rfl, rfl, by decide +kernel⟩

/-- **C10.** Extracts compose. -/
theorem C10_extract_i_compose [One κ] (s r r' : Sync α κ) (hw : WF s) (hr : s.rate ≠ 0) (i j i' j' : Int)
    (h : s.extractI (some i) (some j) = .ok r) (h' : r.extractI (some i') (some j') = .ok r') :
    s.extractI (some (i + i')) (some (i + j')) = .ok r' := by
  obtain ⟨h1, h2, h3, h4⟩ := (C10_extract_i_strict s hw hr i j).1.1 ⟨r, h⟩
  obtain ⟨e1, e2, e3, e4, _⟩ := (C10_extract_i_strict s hw hr i j).2 r h
  have hr' : r.rate ≠ 0 := by rw [e2]; exact hr
  obtain ⟨k1, k2, k3, k4⟩ := (C10_extract_i_strict r e1 hr' i' j').1.1 ⟨r', h'⟩
  rw [Sync.extractI_strict hw hr h1 h2 h3 h4] at h
  simp only [Except.ok.injEq] at h
  subst h
  rw [Sync.extractI_strict e1 hr' k1 k2 k3 k4] at h'
  simp only [Except.ok.injEq] at h'
  subst h'
  rw [Sync.extractI_strict hw hr (by omega) (by omega) (by omega) (by omega)]
  simp only [Except.ok.injEq, Sync.cut, Sync.mk.injEq, List.map_map, true_and]
  refine ⟨?_, ?_, by omega⟩
  · refine List.map_congr_left ?_
    intro d _
    simp only [Function.comp_apply, List.drop_take, List.drop_drop, List.take_take]
    congr 1
    · omega
    · congr 1; omega
  · rw [sampleTime_add]; congr 1; omega

/-- **C10.** `extract_i(None, None)` is the whole signal (when it has a sample). -/
theorem C10_extract_i_whole [One κ] (s : Sync α κ) (hw : WF s) (hr : s.rate ≠ 0) (hs : 0 < s.size) :
    s.extractI none none = .ok s := by
  have h := Sync.extractI_strict hw hr (i := 0) (j := s.size) (by omega) (by omega) (by omega) (by omega)
  have e : s.extractI none none = s.extractI (some 0) (some (s.size : Int)) true false := by
    unfold Sync.extractI; simp
  rw [e, h]
  simp only [Sync.cut, sampleTime, Int.toNat_zero, List.drop_zero, Int.toNat_natCast, Nat.sub_zero,
    Nat.cast_zero, zero_div, add_zero]
  have : s.data.map (fun d => d.take s.size) = s.data := by
    conv_rhs => rw [← List.map_id s.data]
    refine List.map_congr_left ?_
    intro d hd
    rw [← hw.rect d hd]; simp
  rw [this]

example : ∃ s r : Sync Int ℚ, Sync.new [[1, 2, 3, 4], [5, 6, 7, 8]] 2 10 [] = .ok s ∧
    s.extractI (some 1) (some 4) = .ok r ∧ r.data = [[2, 3, 4], [6, 7, 8]] ∧
    ∃ r', r.extractI (some 1) (some 2) = .ok r' := ⟨_, _, rfl, rfl, rfl, _, rfl⟩

/-! C11 -/

/-- **C11.** `select(i0, i1, ...)`: channel `p` of the result carries the data and the calibration of channel
`i_p` (counted from the end if negative), with the same rate, start and size. -/
theorem C11_select_channels_together [One κ] (s r : Sync α κ) (hw : WF s) (indices : List Int)
    (h : s.select indices = .ok r) :
    r.rate = s.rate ∧ r.start = s.start ∧ r.size = s.size ∧ WF r ∧ (channels r).length = indices.length ∧
    ∀ p, (hp : p < indices.length) → ∃ k : Nat, k < (channels s).length ∧
      (indices[p] = k ∨ indices[p] = (k : Int) - (channels s).length) ∧ (channels r)[p]? = (channels s)[k]? := by
  unfold Sync.select at h
  split at h
  · simp at h
  · rename_i data hd
    split at h
    · simp at h
    · rename_i cals hc
      obtain ⟨h1, h2, h3, h4, h5, h6⟩ := Sync.new_ok h
      have ld := mapE_length hd
      have lc := mapE_length hc
      have hne : cals ≠ [] := by
        rintro rfl
        apply h1.nonempty
        rw [h2]
        apply List.eq_nil_of_length_eq_zero
        rw [ld, ← lc]; rfl
      rw [if_neg hne] at h5
      have lch : (channels s).length = s.data.length := by
        simp [channels, hw.cals]
      have lcr : (channels r).length = indices.length := by
        simp [channels, h1.cals, h2, ld]
      have hsz : r.size = s.size := by
        have hdne := h1.nonempty
        obtain ⟨d, hdm⟩ := List.exists_mem_of_ne_nil _ hdne
        rw [← h1.rect d hdm]
        rw [h2] at hdm
        obtain ⟨i, hi, hgi⟩ := mapE_ok_exists hd d hdm
        obtain ⟨k, _, hk⟩ := pyGet_ok.1 hgi
        exact hw.rect d (List.mem_of_getElem? hk)
      refine ⟨h3, h4, hsz, h1, lcr, ?_⟩
      intro p hp
      have gd := mapE_getElem hd p hp (by omega)
      have gc := mapE_getElem hc p hp (by omega)
      obtain ⟨k, hk1, hk2⟩ := pyGet_ok.1 gd
      obtain ⟨k', hk1', hk2'⟩ := pyGet_ok.1 gc
      have hklt : k < s.data.length := by
        by_contra hcon
        rw [List.getElem?_eq_none (by omega)] at hk2; simp at hk2
      have hk'lt : k' < s.cals.length := by
        by_contra hcon
        rw [List.getElem?_eq_none (by omega)] at hk2'; simp at hk2'
      have hcl := hw.cals
      have hkk : k' = k := by omega
      subst hkk
      refine ⟨k', by omega, by rw [lch]; exact hk1, ?_⟩
      unfold channels
      have z1 : ((r.data.map (timed r.rate r.start)).zip r.cals)[p]? =
          some (timed s.rate s.start data[p], cals[p]) := by
        refine List.getElem?_zip_eq_some.2 ⟨?_, ?_⟩
        · simp only [List.getElem?_map, h2, h3, h4]
          rw [List.getElem?_eq_getElem (by omega)]; rfl
        · simp only [h5]
          rw [List.getElem?_eq_getElem (by omega)]
      have z2 : ((s.data.map (timed s.rate s.start)).zip s.cals)[k']? =
          some (timed s.rate s.start data[p], cals[p]) := by
        refine List.getElem?_zip_eq_some.2 ⟨?_, hk2'⟩
        simp [List.getElem?_map, hk2]
      rw [z1, z2]

/-- **C11.** `select` is accepted exactly for a non-empty list of existing channels. -/
theorem C11_select_accepts [One κ] (s : Sync α κ) (hw : WF s) (indices : List Int) :
    (∃ r, s.select indices = .ok r) ↔
      indices ≠ [] ∧ ∀ i ∈ indices, -(s.data.length : Int) ≤ i ∧ i < s.data.length := by
  constructor
  · rintro ⟨r, h⟩
    obtain ⟨_, _, _, h1, h2, h3⟩ := C11_select_channels_together s r hw indices h
    have lch : (channels s).length = s.data.length := by
      simp [channels, hw.cals]
    constructor
    · rintro rfl
      have : (channels r).length = r.data.length := by simp [channels, h1.cals]
      apply h1.nonempty
      apply List.eq_nil_of_length_eq_zero
      rw [← this, h2]; rfl
    · intro i hi
      obtain ⟨p, hp, rfl⟩ := List.getElem_of_mem hi
      obtain ⟨k, hk, hk', _⟩ := h3 p hp
      omega
  · rintro ⟨hne, hall⟩
    obtain ⟨data, hd⟩ := mapE_pyGet (l := s.data) rfl hall
    obtain ⟨cals, hc⟩ := mapE_pyGet hw.cals hall
    unfold Sync.select
    simp only [hd, hc]
    refine ⟨_, Sync.new_eq (n := s.size) ?_ ?_ ?_⟩
    · intro h0
      have := mapE_length hd
      rw [h0] at this
      exact hne (List.eq_nil_of_length_eq_zero this.symm)
    · intro d hd'
      obtain ⟨i, hi, hgi⟩ := mapE_ok_exists hd d hd'
      obtain ⟨k, _, hk⟩ := pyGet_ok.1 hgi
      exact hw.rect d (List.mem_of_getElem? hk)
    · rw [mapE_length hd, mapE_length hc]

example : ∃ s r : Sync Int ℚ, Sync.new [[1, 2], [3, 4], [5, 6]] 2 10 [7, 8, 9] = .ok s ∧
    s.select [2, -3] = .ok r ∧ r.data = [[5, 6], [1, 2]] ∧ r.cals = [9, 7] := ⟨_, _, rfl, rfl, rfl, rfl⟩

end Razorback.Props
