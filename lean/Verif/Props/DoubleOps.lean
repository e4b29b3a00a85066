/- C83, C86: extraction from sets of runs and merging in double precision. -/
import Verif.Lemmas.NearWin
import Verif.Props.Rounding
import Verif.Props.AnyRounding

namespace Razorback.Props
open Razorback Spec SigSet
variable {α κ : Type _}

/-- **C83.** Any sampling rates: when each run starts at least a sample period after the end of the previous one,
`extract_t(a, b)` on the set succeeds in double precision, keeps the tags, and gives each run restricted to the
window up to half a sample period (without those left with fewer than two samples), in order. -/
theorem C83_set [One κ] (S : SigSet α κ) (hS : @Reach _ _ Rnd.double _ S) (hp : Plain S.tags)
    (hr : ∀ s ∈ S.runs, Room s)
    (hg : S.runs.Pairwise (fun s s' => lastTime s + 1 / s.rate ≤ s'.start ∧ lastTime s + 1 / s'.rate ≤ s'.start)) (a b : ℚ) :
    ∃ R rs, Dbl.extractT S a b = .ok R ∧ SameTags R.tags S.tags ∧ List.Forall₂ (Near a b) S.runs rs ∧
      R.runs = rs.filter (fun r => decide (1 < r.size)) := by
  letI : Rnd := Rnd.double
  have hI : @SInv _ _ Rnd.double S := @reach_sinv _ _ Rnd.double _ _ hS
  -- the extracted runs
  have hex : ∀ (l : List (Sync α κ)), (∀ s ∈ l, WF s ∧ Room s) →
      l.Pairwise (fun s s' => lastTime s + 1 / s.rate ≤ s'.start ∧ lastTime s + 1 / s'.rate ≤ s'.start) →
      ∃ rs, mapE (fun s : Sync α κ => Dbl.syncExtractT s a b) l = .ok rs ∧ List.Forall₂ (Near a b) l rs ∧
        List.Forall₂ (fun s r => 0 < r.size → (s.start - r.start) * s.rate ≤ 13 / 50 ∧
          (r.start - lastTime s) * s.rate ≤ 13 / 50 ∧ ∃ t, Dbl.stop r = .ok t ∧ (t - lastTime s) * s.rate ≤ 3 / 5) l rs := by
    intro l
    induction l with
    | nil => intro _ _; exact ⟨[], rfl, .nil, .nil⟩
    | cons s l ih =>
      intro h1 h2
      obtain ⟨rs, i1, i2, i3⟩ := ih (fun s hs => h1 s (by simp [hs])) (List.pairwise_cons.1 h2).2
      obtain ⟨r, e1, e2, e3⟩ := RoundErr.near (h1 s (by simp)).1 (h1 s (by simp)).2 a b
      refine ⟨r :: rs, ?_, .cons e2 i2, .cons e3 i3⟩
      rw [mapE, e1, i1]
  obtain ⟨rs, r1, r2, r3⟩ := hex S.runs (fun s hs => ⟨hI.okAs.wf s hs, hr s hs⟩) hg
  -- they are in order
  have hord : ∀ (l rs : List (Sync α κ)), (∀ s ∈ l, 0 < s.rate) →
      l.Pairwise (fun s s' => lastTime s + 1 / s.rate ≤ s'.start ∧ lastTime s + 1 / s'.rate ≤ s'.start) →
      List.Forall₂ (fun s r => 0 < r.size → (s.start - r.start) * s.rate ≤ 13 / 50 ∧
          (r.start - lastTime s) * s.rate ≤ 13 / 50 ∧ ∃ t, Dbl.stop r = .ok t ∧ (t - lastTime s) * s.rate ≤ 3 / 5) l rs →
      (rs.filter (fun r => decide (1 < r.size))).Pairwise (fun r r' => r.start ≤ r'.start ∧ ∃ t, Dbl.stop r = .ok t ∧ t ≤ r'.start) := by
    intro l rs hpos hpw hf
    induction hf with
    | nil => simp
    | @cons s r l rs h1 h2 ih =>
      obtain ⟨g1, g2⟩ := List.pairwise_cons.1 hpw
      have ih' := ih (fun s hs => hpos s (by simp [hs])) g2
      rw [List.filter_cons]
      split
      · rename_i hsz
        simp only [decide_eq_true_eq] at hsz
        refine List.pairwise_cons.2 ⟨?_, ih'⟩
        intro r' hr'
        obtain ⟨m1, m2⟩ := List.mem_filter.1 hr'
        obtain ⟨s', hs', hb⟩ := forall₂_right h2 r' m1
        obtain ⟨x1, x2, t, x3, x4⟩ := h1 (by omega)
        obtain ⟨y1, _⟩ := hb (by have := of_decide_eq_true m2; omega)
        obtain ⟨z1, z2⟩ := g1 s' hs'
        have p1 := hpos s (by simp)
        have p2 := hpos s' (by simp [hs'])
        have q1 : r.start - lastTime s ≤ 13 / 50 * (1 / s.rate) := by rw [mul_one_div, le_div_iff₀ p1]; exact x2
        have q2 : t - lastTime s ≤ 3 / 5 * (1 / s.rate) := by rw [mul_one_div, le_div_iff₀ p1]; exact x4
        have q3 : s'.start - r'.start ≤ 13 / 50 * (1 / s'.rate) := by rw [mul_one_div, le_div_iff₀ p2]; exact y1
        have q4 : 0 < 1 / s.rate := by positivity
        have q5 : 0 < 1 / s'.rate := by positivity
        exact ⟨by linarith, t, x3, by linarith⟩
      · exact ih'
  have hpw := hord _ _ (fun s hs => (hr s hs).rate) hg r3
  have hsrc : ∀ r ∈ rs.filter (fun r => decide (1 < r.size)), ∃ s ∈ S.runs, r.rate = s.rate ∧ r.data.length = s.data.length := by
    intro r hr'
    obtain ⟨s, hs, hn⟩ := forall₂_right r2 r (List.mem_filter.1 hr').1
    obtain ⟨_, _, _, _, e1, _, _, e2, _⟩ := hn
    exact ⟨s, hs, e2, by rw [e1, List.length_map]⟩
  obtain ⟨m, hm, _⟩ := build_of_as hI.inv hp (n := S.tags.n) (hpw.imp (fun h => h.1)) (hpw.imp (fun h => h.2))
    (by
      intro r hr'
      obtain ⟨s, hs, e1, _⟩ := hsrc r hr'
      rw [e1]; exact (hr s hs).rate.ne')
    (by
      intro r hr'
      obtain ⟨s, hs, _, e2⟩ := hsrc r hr'
      rw [e2, hI.n s hs])
    (by
      intro hne
      obtain ⟨r, hr'⟩ := List.exists_mem_of_ne_nil _ hne
      obtain ⟨s, hs, _⟩ := hsrc r hr'
      refine ⟨?_, le_rfl⟩
      rw [hI.n s hs]
      simpa using (hI.okAs.wf s hs).nonempty)
  refine ⟨⟨rs.filter (fun r => decide (1 < r.size)), ⟨m, S.tags.tags⟩⟩, rs, ?_, fun k => rfl, r2, rfl⟩
  unfold Dbl.extractT SigSet.extractT SigSet.extractIn
  unfold Dbl.syncExtractT at r1
  simp only [Bool.false_eq_true, if_false]
  rw [r1]
  exact hm

/-- **C86.** A merged run in double precision: one run per operand with the same rate, and for each an offset such that
sample `n` of the merged run has on the channels of this operand the sample `offset + n` of its run, whose time is that of
the merged sample up to 0.26 sample periods.  Hence on two channels the samples at one position are of instants at most 0.52
sample periods apart, and when the runs were sampled at the same instants they are of exactly the same instant. -/
theorem C86_alignment [One κ] (S R : SigSet α κ) (others : List (SigSet α κ))
    (hR : ∀ T ∈ S :: others, @Reach _ _ Rnd.double _ T) (hp : ∀ T ∈ S :: others, Plain T.tags)
    (hr : ∀ T ∈ S :: others, ∀ s ∈ T.runs, Room s) (h : Dbl.merge S others = .ok R) :
    ∀ r ∈ R.runs, ∃ src : List (Sync α κ × Nat), Choice (src.map Prod.fst) (S :: others) ∧
      r.data = src.flatMap (fun p => p.1.data.map (fun d => (d.drop p.2).take r.size)) ∧
      r.cals = src.flatMap (fun p => p.1.cals) ∧
      (∀ p ∈ src, p.1.rate = r.rate ∧ p.2 + r.size ≤ p.1.size ∧
        ∀ n : Nat, |sampleTime p.1.rate p.1.start (p.2 + n) - sampleTime r.rate r.start n| ≤ 26 / 100 * (1 / r.rate)) ∧
      ∀ p ∈ src, ∀ q ∈ src, ∀ n : Nat,
        |sampleTime p.1.rate p.1.start (p.2 + n) - sampleTime q.1.rate q.1.start (q.2 + n)| ≤ 52 / 100 * (1 / r.rate) ∧
        ((∃ z : ℤ, (p.1.start - q.1.start) * r.rate = z) →
          sampleTime p.1.rate p.1.start (p.2 + n) = sampleTime q.1.rate q.1.start (q.2 + n)) := by
  letI : Rnd := Rnd.double
  have hI : ∀ T ∈ S :: others, @SInv _ _ Rnd.double T := fun T hT => @reach_sinv _ _ Rnd.double _ _ (hR T hT)
  obtain ⟨q1, _, _⟩ := @merge_blocks _ _ Rnd.double _ _ _ _ hI hp h
  intro r hr'
  obtain ⟨c, bs, x, y, c1, c2, c3, _⟩ := q1 r hr'
  have hc : ∀ s ∈ c, WF s ∧ Room s := by
    intro s hs
    obtain ⟨T, hT, hsT⟩ := choice_mem c1 s hs
    exact ⟨(hI T hT).okAs.wf s hsT, hr T hT s hsT⟩
  -- the offsets
  have key : ∀ c bs : List (Sync α κ), List.Forall₂ (fun s r => Dbl.syncExtractT s x y = .ok r) c bs →
      (∀ s ∈ c, WF s ∧ Room s) → (∀ b ∈ bs, b.rate = r.rate ∧ b.start = r.start ∧ b.size = r.size) →
      ∃ src : List (Sync α κ × Nat), src.map Prod.fst = c ∧
        bs.flatMap (fun b => b.data) = src.flatMap (fun p => p.1.data.map (fun d => (d.drop p.2).take r.size)) ∧
        bs.flatMap (fun b => b.cals) = src.flatMap (fun p => p.1.cals) ∧
        ∀ p ∈ src, p.1.rate = r.rate ∧ 0 < r.rate ∧ p.2 + r.size ≤ p.1.size ∧ |r.start - sampleTime p.1.rate p.1.start p.2| * r.rate ≤ 13 / 50 := by
    intro c bs hf
    induction hf with
    | nil => intro _ _; exact ⟨[], rfl, rfl, rfl, by simp⟩
    | @cons s b c bs h1 h2 ih =>
      intro hc hb
      obtain ⟨src, s1, s2, s3, s4⟩ := ih (fun s hs => hc s (by simp [hs])) (fun b hb' => hb b (by simp [hb']))
      obtain ⟨b', k, j, e0, hk, hj, e1, e2, e3, e4, e5, _⟩ := RoundErr.extractT_err (hc s (by simp)).1 (hc s (by simp)).2 x y
      rw [h1] at e0
      simp only [Except.ok.injEq] at e0
      subst e0
      obtain ⟨f1, f2, f3⟩ := hb b (by simp)
      refine ⟨(s, k) :: src, by simp [s1], ?_, ?_, ?_⟩
      · simp only [List.flatMap_cons, s2, e1]
        rw [← e4, f3]
      · simp only [List.flatMap_cons, s3, e2]
      · intro p hp'
        rcases List.mem_cons.1 hp' with rfl | hp'
        · refine ⟨by rw [← e3, f1], by rw [← f1, e3]; exact (hc _ (by simp)).2.rate, by simp only; omega, ?_⟩
          rw [← f2, ← f1, e3]; exact e5
        · exact s4 p hp'
  obtain ⟨src, s1, s2, s3, s4⟩ := key c bs c2 hc c3.clock
  have hnear : ∀ p ∈ src, ∀ n : Nat, |sampleTime p.1.rate p.1.start (p.2 + n) - sampleTime r.rate r.start n| ≤ 26 / 100 * (1 / r.rate) := by
    intro p hp' n
    obtain ⟨t1, t0, t2, t3⟩ := s4 p hp'
    have e : sampleTime p.1.rate p.1.start (p.2 + n) - sampleTime r.rate r.start n = -(r.start - sampleTime p.1.rate p.1.start p.2) := by
      unfold sampleTime
      rw [t1]; push_cast; ring
    rw [e, abs_neg, mul_one_div, le_div_iff₀ t0]
    linarith
  refine ⟨src, by rw [s1]; exact c1, by rw [c3.data, s2], by rw [c3.cals, s3], fun p hp' => ⟨(s4 p hp').1, (s4 p hp').2.2.1, hnear p hp'⟩, ?_⟩
  intro p hp' q hq n
  obtain ⟨t1, t0, _, _⟩ := s4 p hp'
  obtain ⟨u1, _, _, _⟩ := s4 q hq
  have hd : |sampleTime p.1.rate p.1.start (p.2 + n) - sampleTime q.1.rate q.1.start (q.2 + n)| ≤ 52 / 100 * (1 / r.rate) := by
    have h1 := hnear p hp' n
    have h2 := hnear q hq n
    rw [abs_le] at h1 h2 ⊢
    constructor <;> linarith [h1.1, h1.2, h2.1, h2.2]
  refine ⟨hd, ?_⟩
  rintro ⟨z, hz⟩
  have e : (sampleTime p.1.rate p.1.start (p.2 + n) - sampleTime q.1.rate q.1.start (q.2 + n)) * r.rate = ((z + (p.2 : ℤ) - (q.2 : ℤ) : ℤ) : ℚ) := by
    unfold sampleTime
    rw [t1, u1]
    push_cast
    have := t0.ne'
    rw [← hz]
    field_simp
    ring
  have h0 : |((z + (p.2 : ℤ) - (q.2 : ℤ) : ℤ) : ℚ)| < 1 := by
    rw [← e, abs_mul, abs_of_pos t0]
    calc _ ≤ 52 / 100 * (1 / r.rate) * r.rate := mul_le_mul_of_nonneg_right hd t0.le
      _ = 52 / 100 := by field_simp
      _ < 1 := by norm_num
  have h1 : z + (p.2 : ℤ) - (q.2 : ℤ) = 0 := by
    have : |z + (p.2 : ℤ) - (q.2 : ℤ)| < 1 := by exact_mod_cast h0
    exact Int.abs_lt_one_iff.1 this
  rw [h1, Int.cast_zero] at e
  rcases mul_eq_zero.1 e with h2 | h2
  · linarith
  · exact absurd h2 t0.ne'

/-- A set with one channel and one run. -/
def exOne (name : String) (s : Sync ℤ ℚ) : SigSet ℤ ℚ := ⟨[s], ⟨1, [(name, [0])]⟩⟩

theorem exOne_reach (name : String) (s : Sync ℤ ℚ) (hs : WF s) (h : Dbl.new (.dict [(name, .int 0)]) [.sync s] = .ok (exOne name s)) :
    @Reach _ _ Rnd.double _ (exOne name s) :=
  @Reach.new _ _ Rnd.double _ _ (.dict [(name, .int 0)]) [.sync s] (by simp; exact hs) (by simp) h

/-- Six samples at 10 Hz from 0.1 s on. -/
def exTenth : Sync ℤ ℚ := ⟨[[1, 2, 3, 4, 5, 6]], [1], 10, fl (1 / 10), 6⟩

/-- Four samples at 10 Hz from 0.2 s on. -/
def exFifth : Sync ℤ ℚ := ⟨[[7, 8, 9, 10]], [2], 10, fl (2 / 10), 4⟩

theorem exTenth_reach : @Reach _ _ Rnd.double _ (exOne "E" exTenth) :=
  exOne_reach _ _ ⟨by simp [exTenth], by simp [exTenth], by simp [exTenth]⟩ (by decide +kernel)

theorem exFifth_reach : @Reach _ _ Rnd.double _ (exOne "H" exFifth) :=
  exOne_reach _ _ ⟨by simp [exFifth], by simp [exFifth], by simp [exFifth]⟩ (by decide +kernel)

theorem exTenth_room : Room exTenth := by
  have e : fl (1 / 10) = 3602879701896397 / 2 ^ 55 := by decide +kernel
  refine ⟨by norm_num [exTenth], ?_, ?_⟩ <;> norm_num [exTenth, lastTime, e]

theorem exFifth_room : Room exFifth := by
  have e : fl (1 / 5) = 3602879701896397 / 2 ^ 54 := by decide +kernel
  refine ⟨by norm_num [exFifth], ?_, ?_⟩ <;> norm_num [exFifth, lastTime, e]

-- C83_set: the hypotheses are met, with a window inside the recording
example : @Reach _ _ Rnd.double _ (exOne "E" exTenth) ∧ Plain (exOne "E" exTenth).tags ∧
    (∀ s ∈ (exOne "E" exTenth).runs, Room s) ∧
    (exOne "E" exTenth).runs.Pairwise (fun s s' => lastTime s + 1 / s.rate ≤ s'.start ∧ lastTime s + 1 / s'.rate ≤ s'.start) ∧
    Dbl.extractT (exOne "E" exTenth) (fl (2 / 10)) (fl (45 / 100)) =
      .ok (exOne "E" ⟨[[2, 3, 4]], [1], 10, fl (2 / 10), 3⟩) :=
  ⟨exTenth_reach, by unfold Plain exOne; decide, by intro s hs; simp only [exOne, List.mem_singleton] at hs; rw [hs]; exact exTenth_room,
    by simp [exOne], by decide +kernel⟩

-- C86_alignment, C85_merge: the hypotheses are met
example : (∀ T ∈ exOne "E" exTenth :: [exOne "H" exFifth], @Reach _ _ Rnd.double _ T ∧ Plain T.tags ∧ ∀ s ∈ T.runs, Room s) ∧
    Dbl.merge (exOne "E" exTenth) [exOne "H" exFifth] =
      .ok ⟨[⟨[[2, 3, 4, 5], [7, 8, 9, 10]], [1, 2], 10, fl (2 / 10), 4⟩], ⟨2, [("E", [0]), ("H", [1])]⟩⟩ := by
  refine ⟨?_, by decide +kernel⟩
  intro T hT
  simp only [List.mem_cons, List.not_mem_nil, or_false] at hT
  rcases hT with rfl | rfl
  · exact ⟨exTenth_reach, by unfold Plain exOne; decide, by intro s hs; simp only [exOne, List.mem_singleton] at hs; rw [hs]; exact exTenth_room⟩
  · exact ⟨exFifth_reach, by unfold Plain exOne; decide, by intro s hs; simp only [exOne, List.mem_singleton] at hs; rw [hs]; exact exFifth_room⟩

-- C85_extract, C85_exclude: the hypotheses are met in double precision
example : @Reach _ _ Rnd.double _ (exOne "E" exTenth) ∧
    Dbl.extractT (exOne "E" exTenth) (fl (2 / 10)) (fl (45 / 100)) =
      .ok (exOne "E" ⟨[[2, 3, 4]], [1], 10, fl (2 / 10), 3⟩) ∧
    (Dbl.extractT (exOne "E" exTenth) (fl (3 / 10)) (fl (45 / 100)) true).map (fun R => R.runs.map (fun r => r.data)) =
      .ok [[[1, 2]], [[5, 6]]] :=
  ⟨exTenth_reach, by decide +kernel, by decide +kernel⟩

-- C85_sync: the hypotheses are met
example : WF exTenth ∧ ∃ r, Dbl.syncExtractT exTenth (fl (2 / 10)) (fl (45 / 100)) = .ok r ∧ r.data = [[2, 3, 4]] :=
  ⟨⟨by simp [exTenth], by simp [exTenth], by simp [exTenth]⟩, ⟨[[2, 3, 4]], [1], 10, fl (2 / 10), 3⟩, by decide +kernel, rfl⟩

-- C26_samples, C27_any_rounding: the hypotheses are met in double precision
example : @Reach _ _ Rnd.double _ (⟨[exTenth, ⟨[[7, 8]], [1], 10, fl (fl (1 / 10) + fl (6 / 10)), 2⟩], ⟨1, [("E", [0])]⟩⟩ : SigSet ℤ ℚ) ∧
    Dbl.mergeConsecutive (⟨[exTenth, ⟨[[7, 8]], [1], 10, fl (fl (1 / 10) + fl (6 / 10)), 2⟩], ⟨1, [("E", [0])]⟩⟩ : SigSet ℤ ℚ) =
      .ok (exOne "E" ⟨[[1, 2, 3, 4, 5, 6, 7, 8]], [1], 10, fl (1 / 10), 8⟩) := by
  refine ⟨@Reach.new _ _ Rnd.double _ _ (.dict [("E", .int 0)])
    [.sync exTenth, .sync ⟨[[7, 8]], [1], 10, fl (fl (1 / 10) + fl (6 / 10)), 2⟩] ?_ (by simp) (by decide +kernel), by decide +kernel⟩
  intro s hs
  simp only [List.mem_cons, SigArg.sync.injEq, List.not_mem_nil, or_false] at hs
  rcases hs with rfl | rfl <;> exact ⟨by simp [exTenth], by simp [exTenth], by simp [exTenth]⟩

/-- **C86.** Merging two recordings with the same clock may lose the last sample of both.  In exact arithmetic nothing
is lost. -/
theorem C86_last_sample_lost : ∃ S T : SigSet ℤ ℚ, @Reach _ _ Rnd.double _ S ∧ @Reach _ _ Rnd.double _ T ∧
    (∀ s ∈ S.runs ++ T.runs, Room s ∧ s.rate = 10 ∧ s.start = 1415000000 ∧ s.size = 4) ∧
    (Dbl.merge S [T]).map (fun R => R.runs.map (fun r => r.data)) = .ok [[[1, 2, 3], [7, 8, 9]]] ∧
    (S.merge [T]).map (fun R => R.runs.map (fun r => r.data)) = .ok [[[1, 2, 3, 4], [7, 8, 9, 10]]] := by
  refine ⟨exOne "E" ⟨[[1, 2, 3, 4]], [1], 10, 1415000000, 4⟩, exOne "H" ⟨[[7, 8, 9, 10]], [2], 10, 1415000000, 4⟩,
    exOne_reach _ _ ⟨by simp, by simp, by simp⟩ (by decide +kernel), exOne_reach _ _ ⟨by simp, by simp, by simp⟩ (by decide +kernel),
    ?_, by decide +kernel, by decide +kernel⟩
  intro s hs
  simp only [exOne, List.cons_append, List.nil_append, List.mem_cons, List.not_mem_nil, or_false] at hs
  rcases hs with rfl | rfl <;> exact ⟨⟨by norm_num, by norm_num, by norm_num [lastTime]⟩, rfl, rfl, rfl⟩

/-- **C86.** Merging two recordings that start together at the same rate may be refused with an AssertionError.  In exact
arithmetic it succeeds. -/
theorem C86_merge_refused : ∃ S T : SigSet ℤ ℚ, @Reach _ _ Rnd.double _ S ∧ @Reach _ _ Rnd.double _ T ∧
    (∀ s ∈ S.runs ++ T.runs, Room s ∧ s.rate = 10 ∧ s.start = 1415000000) ∧
    Dbl.merge S [T] = .error .assertion ∧
    (S.merge [T]).map (fun R => R.runs.map (fun r => r.data)) = .ok [[[0, 1], [7, 8]]] := by
  refine ⟨exOne "E" ⟨[[0, 1, 2, 3, 4, 5, 6, 7, 8, 9, 10]], [1], 10, 1415000000, 11⟩, exOne "H" ⟨[[7, 8]], [2], 10, 1415000000, 2⟩,
    exOne_reach _ _ ⟨by simp, by simp, by simp⟩ (by decide +kernel), exOne_reach _ _ ⟨by simp, by simp, by simp⟩ (by decide +kernel),
    ?_, by decide +kernel, by decide +kernel⟩
  intro s hs
  simp only [exOne, List.cons_append, List.nil_append, List.mem_cons, List.not_mem_nil, or_false] at hs
  rcases hs with rfl | rfl <;> exact ⟨⟨by norm_num, by norm_num, by norm_num [lastTime]⟩, rfl, rfl⟩

end Razorback.Props
