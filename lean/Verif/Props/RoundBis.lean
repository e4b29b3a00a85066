/-
Property C129: bounded influence steps computed in floating point arithmetic tend to the exact ones.
-/
import Verif.Props.RoundLev

namespace Razorback.Props
open Razorback Razorback.Spec Razorback.MEst Razorback.Weights Razorback.Approx Filter Topology

variable {𝕜 : Type} [RCLike 𝕜] {q : ℕ} {σ ι : Type} {F : Filter ι} {u : ι → ℝ}

/-- Numbers which tend to a number and are not negative in the end. -/
def FinPos (F : Filter ι) (x : ι → Flt) (a : ℝ) : Prop := FinTo F x a ∧ ∀ᶠ k in F, ∀ v, x k = .fin v → 0 ≤ v

theorem near_nonneg {v a b : ℝ} (hv : v ≤ 1) (ha : 0 ≤ a) (h : Near v a b) : 0 ≤ b := by
  unfold Near at h
  rw [Real.norm_eq_abs, Real.norm_eq_abs, abs_of_nonneg ha, abs_le] at h
  nlinarith [h.1]

theorem nearWeight_nonneg {v : ℝ} {x y : Flt} (hv : v ≤ 1) (hx : ∀ a, x = .fin a → 0 ≤ a) (h : NearWeight v x y) : ∀ b, y = .fin b → 0 ≤ b := by
  intro b hb
  rcases h with h | ⟨a, c, h1, h2, h3⟩
  · exact hx b (h.trans hb)
  · rw [hb, Flt.fin.injEq] at h2
    subst h2
    exact near_nonneg hv (hx a h1) h3

theorem eventually_le_one (hu : Tendsto u F (𝓝 0)) : ∀ᶠ k in F, u k ≤ 1 := (hu.eventually (gt_mem_nhds one_pos)).mono fun _ h => h.le

theorem FinPos.nonneg {x : ι → Flt} {a : ℝ} [F.NeBot] (h : FinPos F x a) : 0 ≤ a := by
  obtain ⟨⟨s, h1, h2⟩, h3⟩ := h
  refine ge_of_tendsto h1 ?_
  filter_upwards [h2, h3] with k g1 g2
  exact g2 _ g1

theorem FinPos.near (hu0 : ∀ᶠ k in F, 0 ≤ u k) (hu : Tendsto u F (𝓝 0)) {x y : ι → Flt} {a : ℝ} (h : FinPos F x a) (hn : ∀ᶠ k in F, NearWeight (u k) (x k) (y k)) :
    FinPos F y a := by
  refine ⟨h.1.near hu0 hu hn, ?_⟩
  filter_upwards [h.2, hn, eventually_le_one hu] with k g1 g2 g3
  exact nearWeight_nonneg g3 g1 g2

theorem FinPos.mul {x y : ι → Flt} {a b : ℝ} (hx : FinPos F x a) (hy : FinPos F y b) : FinPos F (fun k => Flt.mul (x k) (y k)) (a * b) := by
  refine ⟨hx.1.mul hy.1, ?_⟩
  obtain ⟨⟨s, h1, h2⟩, h3⟩ := hx
  obtain ⟨⟨t, h4, h5⟩, h6⟩ := hy
  filter_upwards [h2, h3, h5, h6] with k g1 g2 g3 g4
  intro v hv
  rw [g1, g3, Flt.mul, Flt.fin.injEq] at hv
  rw [← hv]
  exact mul_nonneg (g2 _ g1) (g4 _ g3)

theorem FinPos.divc {x : ι → Flt} {a c : ℝ} (hx : FinPos F x a) (hc : 0 < c) : FinPos F (fun k => Flt.div (x k) (.fin c)) (a / c) := by
  refine ⟨hx.1.div (.of (tendsto_const_nhds (x := c))) hc.ne', ?_⟩
  obtain ⟨⟨s, h1, h2⟩, h3⟩ := hx
  filter_upwards [h2, h3] with k g1 g2
  intro v hv
  simp only [g1, Flt.div, hc.ne', if_false, Flt.fin.injEq] at hv
  rw [← hv]
  exact div_nonneg (g2 _ g1) hc.le

/-- Arrays which tend to a list of numbers, entry by entry, and are not negative in the end. -/
def ListTo (F : Filter ι) (w : ι → List Flt) (w0 : List ℝ) : Prop :=
  (∀ᶠ k in F, (w k).length = w0.length) ∧ ∀ (i : ℕ) a, w0[i]? = some a → FinPos F (fun k => ((w k)[i]?).getD .nan) a

theorem ListTo.reals {w : ι → List Flt} {w0 : List ℝ} (h : ListTo F w w0) :
    ∃ s : ι → List ℝ, Tends F s w0 ∧ ∀ᶠ k in F, (∀ v ∈ s k, 0 ≤ v) ∧ w k = (s k).map Flt.fin := by
  have hall : ∀ᶠ k in F, ∀ i : Fin w0.length, ∃ v : ℝ, 0 ≤ v ∧ ((w k)[i.1]?).getD .nan = .fin v := by
    refine eventually_all.2 (fun i => ?_)
    obtain ⟨⟨s, -, h2⟩, h3⟩ := h.2 i.1 _ (List.getElem?_eq_getElem i.2)
    filter_upwards [h2, h3] with k g1 g2
    exact ⟨_, g2 _ g1, g1⟩
  have hw : ∀ᶠ k in F, ∀ x ∈ w k, ∃ v : ℝ, 0 ≤ v ∧ x = .fin v := by
    filter_upwards [hall, h.1] with k g1 g2 x hx
    obtain ⟨i, hi, rfl⟩ := List.getElem_of_mem hx
    obtain ⟨v, h1, h2⟩ := g1 ⟨i, by omega⟩
    refine ⟨v, h1, ?_⟩
    simpa [List.getElem?_eq_getElem hi] using h2
  refine ⟨fun k => (w k).map (fun x => x.val?.getD 0), ⟨?_, fun i a ha => ?_⟩, ?_⟩
  · filter_upwards [h.1] with k g
    simpa using g
  · obtain ⟨⟨s, h1, h2⟩, -⟩ := h.2 i a ha
    refine h1.congr' ?_
    have hi : i < w0.length := (List.getElem?_eq_some_iff.1 ha).1
    filter_upwards [h2, h.1] with k g1 g2
    rw [List.getElem?_map, List.getElem?_eq_getElem (by omega)]
    rw [List.getElem?_eq_getElem (by omega), Option.getD_some] at g1
    simp [g1, Flt.val?]
  · filter_upwards [hw] with k g
    constructor
    · intro v hv
      obtain ⟨x, hx, rfl⟩ := List.mem_map.1 hv
      obtain ⟨v, hv0, rfl⟩ := g x hx
      exact hv0
    · rw [List.map_map]
      conv_lhs => rw [← List.map_id (w k)]
      refine List.map_congr_left (fun x hx => ?_)
      obtain ⟨v, -, rfl⟩ := g x hx
      rfl

theorem ListTo.of_reals {s : ι → List ℝ} {s0 : List ℝ} (h : Tends F s s0) (hn : ∀ᶠ k in F, ∀ v ∈ s k, 0 ≤ v) : ListTo F (fun k => (s k).map Flt.fin) s0 := by
  refine ⟨by filter_upwards [h.1] with k g; simpa using g, fun i a ha => ?_⟩
  have hi : i < s0.length := (List.getElem?_eq_some_iff.1 ha).1
  refine ⟨⟨_, h.2 i a ha, ?_⟩, ?_⟩
  · filter_upwards [h.1] with k g
    simp [List.getElem?_eq_getElem (show i < (s k).length by omega)]
  · filter_upwards [h.1, hn] with k g g1 v hv
    have hk : i < (s k).length := by omega
    simp only [List.getElem?_map, List.getElem?_eq_getElem hk, Option.map_some, Option.getD_some, Flt.fin.injEq] at hv
    rw [← hv]
    exact g1 _ (List.getElem_mem _)

theorem ListTo.congr {w w' : ι → List Flt} {w0 : List ℝ} (h : ListTo F w w0) (he : ∀ᶠ k in F, w k = w' k) : ListTo F w' w0 := by
  refine ⟨by filter_upwards [h.1, he] with k g1 g2; rw [← g2, g1], fun i a ha => ⟨(h.2 i a ha).1.congr ?_, ?_⟩⟩
  · filter_upwards [he] with k g; rw [g]
  · filter_upwards [he, (h.2 i a ha).2] with k g g1; rw [← g]; exact g1

theorem ListTo.forall₂ {P : ι → Flt → Flt → Prop} {x y : ι → List Flt} {x0 : List ℝ} {g : ℝ → ℝ} (hx : ListTo F x x0)
    (h : ∀ᶠ k in F, List.Forall₂ (P k) (x k) (y k))
    (hP : ∀ (a b : ι → Flt) a0, a0 ∈ x0 → FinPos F a a0 → (∀ᶠ k in F, P k (a k) (b k)) → FinPos F b (g a0)) : ListTo F y (x0.map g) := by
  refine ⟨by filter_upwards [hx.1, h] with k g1 g2; rw [← g2.length_eq, g1, List.length_map], fun i a ha => ?_⟩
  rw [List.getElem?_map, Option.map_eq_some_iff] at ha
  obtain ⟨a0, ha0, rfl⟩ := ha
  refine hP _ _ a0 (List.mem_of_getElem? ha0) (hx.2 i a0 ha0) ?_
  have hi : i < x0.length := (List.getElem?_eq_some_iff.1 ha0).1
  filter_upwards [hx.1, h] with k g1 g2
  have h1 : i < (x k).length := by omega
  have h2 : i < (y k).length := by rw [← g2.length_eq]; omega
  simp only [List.getElem?_eq_getElem h1, List.getElem?_eq_getElem h2, Option.getD_some]
  exact g2.get h1 h2

theorem ListTo.mul {a b : ι → List Flt} {a0 b0 : List ℝ} (ha : ListTo F a a0) (hb : ListTo F b b0) :
    ListTo F (fun k => List.zipWith Flt.mul (a k) (b k)) (List.zipWith (· * ·) a0 b0) := by
  obtain ⟨s, h1, h2⟩ := ha.reals
  obtain ⟨t, h3, h4⟩ := hb.reals
  refine (ListTo.of_reals (h1.zipWith h3 (f := (· * ·)) (by fun_prop)) ?_).congr ?_
  · filter_upwards [h2, h4] with k g1 g2 v hv
    obtain ⟨n, hn, rfl⟩ := List.getElem_of_mem hv
    rw [List.getElem_zipWith]
    exact mul_nonneg (g1.1 _ (List.getElem_mem _)) (g2.1 _ (List.getElem_mem _))
  · filter_upwards [h2, h4] with k g1 g2
    rw [g1.2, g2.2]
    exact (timesArr_fin _ _).symm

theorem ListTo.near (hu0 : ∀ᶠ k in F, 0 ≤ u k) (hu : Tendsto u F (𝓝 0)) {x y : ι → List Flt} {x0 : List ℝ} (hx : ListTo F x x0)
    (h : ∀ᶠ k in F, List.Forall₂ (NearWeight (u k)) (x k) (y k)) : ListTo F y x0 := by
  have := hx.forall₂ (g := id) h (fun a b a0 _ ha hb => ha.near hu0 hu hb)
  simpa using this

/-- An array, or the number 1 for ones. -/
def ArrTo (F : Filter ι) (a : ι → Option (List Flt)) (a0 : List ℝ) : Prop :=
  ((∀ᶠ k in F, a k = none) ∧ a0 = List.replicate a0.length 1) ∨ ∃ l, (∀ᶠ k in F, a k = some (l k)) ∧ ListTo F l a0

theorem listTo_ftimes (hu0 : ∀ᶠ k in F, 0 ≤ u k) (hu : Tendsto u F (𝓝 0)) {a : ι → Option (List Flt)} {b c : ι → List Flt} {a0 b0 : List ℝ} (ha : ArrTo F a a0)
    (hb : ListTo F b b0) (hl : a0.length = b0.length) (h : ∀ᶠ k in F, FTimes (u k) (a k) (b k) (c k)) : ListTo F c (List.zipWith (· * ·) a0 b0) := by
  rcases ha with ⟨h1, h2⟩ | ⟨l, h1, h2⟩
  · rw [h2, hl, zipWith_ones]
    refine hb.congr ?_
    filter_upwards [h, h1] with k g1 g2
    rw [g2] at g1
    exact g1.symm
  · refine (h2.mul hb).near hu0 hu ?_
    filter_upwards [h, h1] with k g1 g2
    rw [g2] at g1
    exact g1

theorem fsum_nonneg {v : ℝ} (hv : v ≤ 1) {l : List ℝ} {c : ℝ} (h : FSum v l c) : (∀ x ∈ l, 0 ≤ x) → 0 ≤ c := by
  induction h with
  | nil => intro _; exact le_rfl
  | one x => intro h; exact h x List.mem_cons_self
  | add hp _ _ _ _ hc ha hb =>
    intro h
    refine near_nonneg hv (add_nonneg (ha fun x hx => h x (hp.mem_iff.2 (List.mem_append_left _ hx))) (hb fun x hx => h x (hp.mem_iff.2 (List.mem_append_right _ hx)))) hc

theorem finPos_fsumArr (hu0 : ∀ᶠ k in F, 0 ≤ u k) (hu : Tendsto u F (𝓝 0)) {b : ι → List Flt} {b0 : List ℝ} (hb : ListTo F b b0) {t : ι → Flt}
    (h : ∀ᶠ k in F, FSumArr (u k) (b k) (t k)) : FinPos F t b0.sum := by
  obtain ⟨s, h1, h2⟩ := hb.reals
  have h' : ∀ᶠ k in F, ∃ c : ℝ, FSum (u k) (s k) c ∧ t k = .fin c := by
    filter_upwards [h, h2] with k g1 g2
    rcases g1 with ⟨ws, c, g3, g4, g5⟩ | ⟨g3, -⟩
    · rw [g2.2] at g3
      rw [List.map_injective_iff.2 (fun a b h => Flt.fin.inj h) g3]
      exact ⟨c, g4, g5⟩
    · exact absurd g2.2 (g3 _)
  obtain ⟨c, hc⟩ := eventually_choose h'
  refine ⟨⟨c, tendsto_fsum hu0 hu h1 (hc.mono fun _ h => h.1), hc.mono fun _ h => h.2⟩, ?_⟩
  filter_upwards [hc, h2, eventually_le_one hu] with k g1 g2 g3 v hv
  rw [g1.2, Flt.fin.injEq] at hv
  rw [← hv]
  exact fsum_nonneg g3 g1.1 g2.1

theorem fexpexp_nonneg {v a : ℝ} (hv : v ≤ 1) {x w : Flt} (h : FExpexp v x a w) : ∀ b, w = .fin b → 0 ≤ b := by
  obtain ⟨s, C, d, m, E, t, -, -, -, -, -, -, h⟩ := h
  refine nearWeight_nonneg hv (fun b hb => ?_) h
  cases t <;> simp [Flt.exp] at hb <;> rw [← hb]
  exact (Real.exp_pos _).le

theorem finPos_fexpexp (hu0 : ∀ᶠ k in F, 0 ≤ u k) (hu : Tendsto u F (𝓝 0)) {x w : ι → Flt} {x0 : ℝ} (hx : FinTo F x x0) {a : ι → ℝ} {a0 : ℝ} (ha : Tendsto a F (𝓝 a0))
    (h : ∀ᶠ k in F, FExpexp (u k) (x k) (a k) (w k)) : FinPos F w (Real.exp (Real.exp (-a0 ^ 2) - Real.exp (a0 * (x0 - a0)))) := by
  refine ⟨finTo_fexpexp hu0 hu hx ha h, ?_⟩
  filter_upwards [h, eventually_le_one hu] with k g1 g2
  exact fexpexp_nonneg g2 g1

theorem nearWeight_of_fin {v x : ℝ} {y : Flt} (hv : 0 ≤ v) (h : NearWeight v (.fin x) y) : ∃ b, y = .fin b ∧ Near v x b := by
  rcases h with h | ⟨a, c, h1, h2, h3⟩
  · exact ⟨x, h.symm, Near.refl hv _⟩
  · rw [Flt.fin.injEq] at h1
    subst h1
    exact ⟨c, h2, h3⟩

theorem nearWeight_inf {v : ℝ} {x y : Flt} (h : NearWeight v x y) (hx : ∀ a, x ≠ .fin a) : y = x := by
  rcases h with h | ⟨a, c, h1, h2, h3⟩
  · exact h.symm
  · exact absurd h1 (hx a)

theorem near_atTop (hu : Tendsto u F (𝓝 0)) {x y : ι → ℝ} (hx : Tendsto x F atTop) (h : ∀ᶠ k in F, Near (u k) (x k) (y k)) : Tendsto y F atTop := by
  refine tendsto_atTop_mono' F ?_ (hx.atTop_mul_const (show (0 : ℝ) < 1 / 2 by norm_num))
  filter_upwards [h, hx.eventually_ge_atTop 0, hu.eventually (gt_mem_nhds (show (0 : ℝ) < 1 / 2 by norm_num))] with k g1 g2 g3
  unfold Near at g1
  rw [Real.norm_eq_abs, Real.norm_eq_abs, abs_of_nonneg g2, abs_le] at g1
  nlinarith [g1.1]

theorem near_atBot (hu : Tendsto u F (𝓝 0)) {x y : ι → ℝ} (hx : Tendsto x F atBot) (h : ∀ᶠ k in F, Near (u k) (x k) (y k)) : Tendsto y F atBot := by
  have h1 : Tendsto (fun k => -y k) F atTop := by
    refine near_atTop hu (tendsto_neg_atBot_atTop.comp hx) ?_
    filter_upwards [h] with k g
    unfold Near at g ⊢
    simp only [Function.comp_apply]
    rw [norm_neg, show -y k - -x k = -(y k - x k) by ring, norm_neg]
    exact g
  simpa [Function.comp_def] using tendsto_neg_atTop_atBot.comp h1

/-- A leverage of zero. -/
theorem fexpexp_ninf {v a : ℝ} (ha : a < 0) {w : Flt} (h : FExpexp v .ninf a w) : w = .fin 0 := by
  obtain ⟨s, C, d, m, E, t, -, -, h1, h2, h3, h4, h5⟩ := h
  obtain rfl : d = .ninf := nearWeight_inf h1 (by intro x; simp [Flt.sub, Flt.neg, Flt.add])
  have e2 : Flt.mul (.fin a) .ninf = .pinf := by simp [Flt.mul, Flt.infTimes, ha.ne, not_lt.2 ha.le]
  rw [e2] at h2
  obtain rfl : m = .pinf := nearWeight_inf h2 (by simp)
  obtain rfl : E = .pinf := nearWeight_inf h3 (by simp [Flt.exp])
  have e4 : Flt.sub (.fin C) .pinf = .ninf := by simp [Flt.sub, Flt.neg, Flt.add]
  rw [e4] at h4
  obtain rfl : t = .ninf := nearWeight_inf h4 (by simp)
  rcases h5 with h | ⟨x, y, g1, g2, g3⟩
  · exact h.symm
  · rw [Flt.exp, Flt.fin.injEq] at g1
    subst g1
    have : y = 0 := by simpa [Near] using g3
    rw [g2, this]

/-- Leverages which tend to zero from above. -/
theorem finTo_small (hu0 : ∀ᶠ k in F, 0 ≤ u k) (hu : Tendsto u F (𝓝 0)) {s : ι → ℝ} (hs : Tendsto s F (𝓝 0)) (hp : ∀ᶠ k in F, 0 < s k) {a : ι → ℝ} {a0 : ℝ} (ha0 : a0 < 0)
    (ha : Tendsto a F (𝓝 a0)) {w : ι → Flt} (h : ∀ᶠ k in F, ∃ l, NearWeight (u k) (Flt.log (.fin (s k))) l ∧ FExpexp (u k) l (a k) (w k)) : FinTo F w 0 := by
  have h' : ∀ᶠ k in F, ∃ t : ℝ × ℝ × ℝ × ℝ × ℝ × ℝ × ℝ × ℝ, Near (u k) (Real.log (s k)) t.1 ∧ Near (u k) (a k ^ 2) t.2.1 ∧ Near (u k) (Real.exp (-t.2.1)) t.2.2.1 ∧
      Near (u k) (t.1 - a k) t.2.2.2.1 ∧ Near (u k) (a k * t.2.2.2.1) t.2.2.2.2.1 ∧ Near (u k) (Real.exp t.2.2.2.2.1) t.2.2.2.2.2.1 ∧
      Near (u k) (t.2.2.1 - t.2.2.2.2.2.1) t.2.2.2.2.2.2.1 ∧ Near (u k) (Real.exp t.2.2.2.2.2.2.1) t.2.2.2.2.2.2.2 ∧ w k = .fin t.2.2.2.2.2.2.2 := by
    filter_upwards [h, hp, hu0] with k g1 g2 g3
    obtain ⟨l, hl, S, C, d, m, E, t, k1, k2, k3, k4, k5, k6, k7⟩ := g1
    rw [Flt.log, if_neg (not_lt.2 g2.le), if_neg g2.ne'] at hl
    obtain ⟨L, rfl, hL⟩ := nearWeight_of_fin g3 hl
    simp only [Flt.sub, Flt.neg, Flt.add, ← sub_eq_add_neg] at k3
    obtain ⟨D, rfl, hD⟩ := nearWeight_of_fin g3 k3
    rw [Flt.mul] at k4
    obtain ⟨M, rfl, hM⟩ := nearWeight_of_fin g3 k4
    rw [Flt.exp] at k5
    obtain ⟨E, rfl, hE⟩ := nearWeight_of_fin g3 k5
    simp only [Flt.sub, Flt.neg, Flt.add, ← sub_eq_add_neg] at k6
    obtain ⟨T, rfl, hT⟩ := nearWeight_of_fin g3 k6
    rw [Flt.exp] at k7
    obtain ⟨V, hV, hV'⟩ := nearWeight_of_fin g3 k7
    exact ⟨(L, S, C, D, M, E, T, V), hL, k1, k2, hD, hM, hE, hT, hV', hV⟩
  obtain ⟨t, ht⟩ := eventually_choose h'
  have hlog : Tendsto (fun k => Real.log (s k)) F atBot :=
    Real.tendsto_log_nhdsGT_zero.comp (tendsto_nhdsWithin_iff.2 ⟨hs, hp⟩)
  have h1 := near_atBot hu hlog (ht.mono fun _ h => h.1)
  have h2 : Tendsto (fun k => (t k).2.1) F (𝓝 (a0 ^ 2)) := tendsto_near hu (ha.pow 2) (ht.mono fun _ h => h.2.1)
  have h3 : Tendsto (fun k => (t k).2.2.1) F (𝓝 (Real.exp (-a0 ^ 2))) :=
    tendsto_near hu ((Real.continuous_exp.tendsto _).comp h2.neg) (ht.mono fun _ h => h.2.2.1)
  have h4 : Tendsto (fun k => (t k).1 - a k) F atBot := by
    simp only [sub_eq_add_neg]
    exact h1.atBot_add ha.neg
  have h5 := near_atBot hu h4 (ht.mono fun _ h => h.2.2.2.1)
  have h6 := near_atTop hu (ha.neg_mul_atBot ha0 h5) (ht.mono fun _ h => h.2.2.2.2.1)
  have h7 := near_atTop hu (Real.tendsto_exp_atTop.comp h6) (ht.mono fun _ h => h.2.2.2.2.2.1)
  have h8 : Tendsto (fun k => (t k).2.2.1 - (t k).2.2.2.2.2.1) F atBot := by
    simp only [sub_eq_add_neg]
    exact h3.add_atBot (tendsto_neg_atTop_atBot.comp h7)
  have h9 := near_atBot hu h8 (ht.mono fun _ h => h.2.2.2.2.2.2.1)
  exact ⟨_, tendsto_near hu (Real.tendsto_exp_atBot.comp h9) (ht.mono fun _ h => h.2.2.2.2.2.2.2.1), ht.mono fun _ h => h.2.2.2.2.2.2.2.2⟩

theorem finPos_flog (hu0 : ∀ᶠ k in F, 0 ≤ u k) (hu : Tendsto u F (𝓝 0)) {y : ι → Flt} {y0 : ℝ} (hy : FinPos F y y0) (hy0 : 0 ≤ y0) {a : ι → ℝ} {a0 : ℝ} (ha0 : a0 < 0)
    (ha : Tendsto a F (𝓝 a0)) {w : ι → Flt} (h : ∀ᶠ k in F, ∃ l, NearWeight (u k) (Flt.log (y k)) l ∧ FExpexp (u k) l (a k) (w k)) :
    FinPos F w (if y0 = 0 then 0 else Real.exp (Real.exp (-a0 ^ 2) - Real.exp (a0 * (Real.log y0 - a0)))) := by
  constructor
  swap
  · filter_upwards [h, eventually_le_one hu] with k g1 g2
    obtain ⟨l, -, g1⟩ := g1
    exact fexpexp_nonneg g2 g1
  obtain ⟨⟨s, h1, h2⟩, h3⟩ := hy
  have hs0 : ∀ᶠ k in F, 0 ≤ s k := by
    filter_upwards [h2, h3] with k g1 g2
    exact g2 _ g1
  split
  · rename_i hz
    subst hz
    have hG : ∀ {P : ι → Prop}, (∀ᶠ k in F, P k) → ∀ᶠ k in F ⊓ 𝓟 {k | 0 < s k}, P k := fun hP => hP.filter_mono inf_le_left
    obtain ⟨v, h4, h5⟩ := finTo_small (F := F ⊓ 𝓟 {k | 0 < s k}) (u := u) (s := s) (a := a) (w := w) (hG hu0) (hu.mono_left inf_le_left) (h1.mono_left inf_le_left)
      (eventually_inf_principal.2 (.of_forall fun _ h => h)) ha0 (ha.mono_left inf_le_left) (hG (by
        filter_upwards [h, h2] with k g1 g2
        rw [g2] at g1
        exact g1))
    have hzero : ∀ᶠ k in F, s k = 0 → w k = .fin 0 := by
      filter_upwards [h, h2, ha.eventually (gt_mem_nhds ha0)] with k g1 g2 g3 g4
      obtain ⟨l, g5, g6⟩ := g1
      rw [g2, g4] at g5
      simp only [Flt.log, lt_irrefl, if_false, if_true] at g5
      rw [nearWeight_inf g5 (by simp)] at g6
      exact fexpexp_ninf g3 g6
    refine ⟨fun k => (w k).val?.getD 0, ?_, ?_⟩
    · refine tendsto_def.2 (fun N hN => ?_)
      have h6 := eventually_inf_principal.1 ((h4.eventually hN).and h5)
      change ∀ᶠ k in F, (w k).val?.getD 0 ∈ N
      filter_upwards [h6, hzero, hs0] with k g1 g2 g3
      rcases g3.eq_or_lt with g4 | g4
      · rw [g2 g4.symm]
        exact mem_of_mem_nhds hN
      · obtain ⟨g5, g6⟩ := g1 g4
        rw [g6]
        exact g5
    · have h6 := eventually_inf_principal.1 h5
      filter_upwards [h6, hzero, hs0] with k g1 g2 g3
      rcases g3.eq_or_lt with g4 | g4
      · rw [g2 g4.symm]; rfl
      · rw [g1 g4]; rfl
  · rename_i hz
    have hpos : 0 < y0 := lt_of_le_of_ne hy0 (Ne.symm hz)
    haveI : Nonempty Flt := ⟨.nan⟩
    obtain ⟨l, hl⟩ := eventually_choose h
    have h4 : FinTo F (fun k => Flt.log (y k)) (Real.log y0) := by
      refine ⟨_, h1.log hz, ?_⟩
      filter_upwards [h2, h1.eventually (lt_mem_nhds hpos)] with k g1 g2
      rw [g1, Flt.log, if_neg (not_lt.2 g2.le), if_neg g2.ne']
    exact finTo_fexpexp hu0 hu (h4.near hu0 hu (hl.mono fun _ h => h.1)) ha (hl.mono fun _ h => h.2)

open scoped Matrix.Norms.Operator Matrix in
theorem listTo_flev {c : ℝ} (hu0 : ∀ᶠ k in F, 0 ≤ u k) (hu : Tendsto u F (𝓝 0)) {b : ι → List (Fin q → 𝕜)} {b0 : List (Fin q → 𝕜)} (hb : Tends F b b0)
    {bi : ι → Option (List Flt)} {bi0 : List ℝ} (hl : bi0.length = b0.length) (hpos : ∀ v ∈ bi0, 0 ≤ v) (hdet : (gram b0 (some bi0)).det ≠ 0) (hbi : ArrTo F bi bi0)
    {h : ι → List ℝ} (hh : ∀ᶠ k in F, FLeverage (u k) c (b k) (bi k) (h k)) :
    ListTo F (fun k => (h k).map Flt.fin) (b0.map (fun r => RCLike.re (levOf b0 (some bi0) r))) := by
  have h' : ∀ᶠ k in F, ∃ t : Option (List ℝ) × (Fin q → List 𝕜) × Matrix (Fin q) (Fin q) 𝕜, bi k = t.1.map (List.map .fin) ∧
      (∀ j, FDiag (u k) t.1 ((b k).map (fun r => r j)) (t.2.1 j)) ∧ (∀ i j, FDot (u k) ((b k).map (fun r => star (r i))) (t.2.1 j) (t.2.2 i j)) ∧
      List.Forall₂ (fun r v => ∃ (E : Matrix (Fin q) (Fin q) 𝕜) (x : Fin q → 𝕜) (s : 𝕜), ‖E‖ ≤ c * u k * ‖t.2.2‖ ∧ (t.2.2 + E) *ᵥ x = (fun j => star (r j)) ∧
        FDot (u k) (List.ofFn x) (List.ofFn r) s ∧ v = RCLike.re s) (b k) (h k) := by
    filter_upwards [hh] with k hk
    obtain ⟨ws, yw, A, k1, -, k2, k3, k4⟩ := hk
    exact ⟨(ws, yw, A), k1, k2, k3, k4⟩
  obtain ⟨t, ht⟩ := eventually_choose h'
  have hcol : ∀ j, Tends F (fun k => (b k).map (fun r => r j)) (b0.map (fun r => r j)) := fun j => hb.map (fun x0 _ x hx => (tendsto_pi_nhds.1 hx) j)
  have hstar : ∀ j, Tends F (fun k => (b k).map (fun r => star (r j))) (b0.map (fun r => star (r j))) := fun j =>
    hb.map (fun x0 _ x hx => ((tendsto_pi_nhds.1 hx) j).star)
  have hyw : ∀ j, Tends F (fun k => (t k).2.1 j) (dotdiag (some bi0) (b0.map (fun r => r j))) := by
    intro j
    rcases hbi with ⟨g1, g2⟩ | ⟨l, g1, g2⟩
    · have h1 : dotdiag (some bi0) (b0.map (fun r => r j)) = b0.map (fun r => r j) := by
        rw [g2, dotdiag]
        refine List.ext_getElem (by simp [hl]) (fun n h1 h2 => by simp)
      rw [h1]
      refine (hcol j).congr ?_
      filter_upwards [ht, g1] with k k1 k2
      have h2 : (t k).1 = none := by
        have := k1.1
        rw [k2] at this
        simpa using this.symm
      have := k1.2.1 j
      rw [h2] at this
      exact this.symm
    · obtain ⟨s, g3, g4⟩ := g2.reals
      refine tends_fdiag hu (hcol j) g3 ?_
      filter_upwards [ht, g1, g4] with k k1 k2 k3
      have h2 : (t k).1 = some (s k) := by
        have := k1.1
        rw [k2, k3.2] at this
        obtain ⟨w, hw, hw2⟩ := Option.map_eq_some_iff.1 this.symm
        rw [hw, List.map_injective_iff.2 (fun a b h => Flt.fin.inj h) hw2]
      have := k1.2.1 j
      rw [h2] at this
      exact this
  have hdd : ∀ j, dotdiag (some bi0) (b0.map (fun r => r j)) = (dotdiag (some bi0) b0).map (fun r => r j) := by
    intro j
    simp [dotdiag, List.map_zipWith, List.zipWith_map_right]
  have hA : Tendsto (fun k => (t k).2.2) F (𝓝 (gram b0 (some bi0))) := by
    refine tendsto_pi_nhds.2 (fun i => tendsto_pi_nhds.2 (fun j => ?_))
    have h2 := tendsto_fdot hu0 hu (hstar i) (hyw j) (ht.mono fun _ h => h.2.2.1 i j)
    rw [hdd, List.zipWith_map] at h2
    exact h2
  have hlen : ∀ᶠ k in F, (h k).length = b0.length := by
    filter_upwards [ht, hb.1] with k k1 k2
    rw [← k1.2.2.2.length_eq, k2]
  refine ⟨by filter_upwards [hlen] with k g; simpa using g, fun i a ha => ?_⟩
  rw [List.getElem?_map, Option.map_eq_some_iff] at ha
  obtain ⟨r0, hr0, rfl⟩ := ha
  have hi : i < b0.length := (List.getElem?_eq_some_iff.1 hr0).1
  have h2 : ∀ᶠ k in F, ∃ p : Matrix (Fin q) (Fin q) 𝕜 × (Fin q → 𝕜) × 𝕜, ‖p.1‖ ≤ c * u k * ‖(t k).2.2‖ ∧
      ((t k).2.2 + p.1) *ᵥ p.2.1 = (fun j => star (((b k)[i]?).getD r0 j)) ∧ FDot (u k) (List.ofFn p.2.1) (List.ofFn (((b k)[i]?).getD r0)) p.2.2 ∧
      (((h k).map Flt.fin)[i]?).getD .nan = .fin (RCLike.re p.2.2) := by
    filter_upwards [ht, hb.1, hlen] with k k1 k2 k3
    have i1 : i < (b k).length := by omega
    have i2 : i < (h k).length := by omega
    obtain ⟨E, x, s, m1, m2, m3, m4⟩ := k1.2.2.2.get i1 i2
    refine ⟨(E, x, s), m1, ?_, ?_, ?_⟩
    · rw [List.getElem?_eq_getElem i1, Option.getD_some]; exact m2
    · rw [List.getElem?_eq_getElem i1, Option.getD_some]; exact m3
    · rw [List.getElem?_map, List.getElem?_eq_getElem i2, Option.map_some, Option.getD_some]
      exact congrArg Flt.fin m4
  obtain ⟨p, hp⟩ := eventually_choose h2
  have hE : Tendsto (fun k => (p k).1) F (𝓝 0) := by
    refine squeeze_zero_norm' (hp.mono fun _ h => h.1) ?_
    simpa using (hu.const_mul c).mul hA.norm
  have hAE : Tendsto (fun k => (t k).2.2 + (p k).1) F (𝓝 (gram b0 (some bi0))) := by simpa using hA.add hE
  obtain ⟨m1, m2⟩ := flev_entry hu0 hu hl hpos hdet hAE (hb.2 i r0 hr0) (hp.mono fun _ h => h.2.1) (hp.mono fun _ h => h.2.2.1)
  refine ⟨⟨_, m1, hp.mono fun _ h => h.2.2.2⟩, ?_⟩
  filter_upwards [hp, m2] with k k1 k2 v hv
  rw [k1.2.2.2, Flt.fin.injEq] at hv
  rw [← hv]
  exact k2

/-- A weight function whose weights with rounding are not negative. -/
def FSound (f : FW σ 𝕜 q) : Prop := ∀ v, 0 ≤ v → v ≤ 1 → ∀ st it r e b inv w st', f.fl v st it r e b inv (some w) st' → ∀ x, Flt.fin x ∈ w → 0 ≤ x

theorem zeroAt_zeroAt (w : List Flt) (inv : List ℕ) : zeroAt (zeroAt w inv) inv = zeroAt w inv := by
  refine List.ext_getElem? (fun i => ?_)
  simp only [zeroAt_getElem?]
  cases w[i]? with
  | none => rfl
  | some x => by_cases h : i ∈ inv <;> simp [h]

/-- C129: bounded influence steps with rounding. -/
theorem fstable_bis (hq : 0 < q) (c : ℝ) (hu0 : ∀ᶠ k in F, 0 ≤ u k) (hu : Tendsto u F (𝓝 0)) {inner : FW σ 𝕜 q} (hin : FStable F u inner) (hs : Sound inner.exact)
    (hsf : FSound inner) {lower khi : ℝ} (hlo : 0 < lower) (hlo1 : lower < 1) (hk : 0 < khi) :
    FStable F u (⟨bis inner.exact lower khi, fun v => FBis v c (inner.fl v) lower khi⟩ : FW (Option Prev × σ) 𝕜 q) := by
  obtain ⟨R, hR⟩ := hin
  refine ⟨fun st st0 => R (fun k => (st k).2) st0.2 ∧ ∃ (m : ℕ) (P : ι → Prev) (bi0 hat0 : List ℝ),
    (∀ v ∈ bi0, 0 ≤ v) ∧ (∀ v ∈ hat0, 0 ≤ v) ∧ Remembered st0.1 (m + 1) bi0.length bi0 hat0 ∧ (∀ᶠ k in F, (st k).1 = some (P k)) ∧
    ArrTo F (fun k => (P k).bi) bi0 ∧ ArrTo F (fun k => (P k).hat) hat0 ∧ FinPos F (fun k => (P k).trace) bi0.sum, ?_⟩
  intro e e0 b b0 hb hl r z0 hr it inv eps st st0 p0 hst hp raw st1 hfl
  replace hp : IsPass (bis inner.exact lower khi) e0 b0 eps it (resid e0 b0 z0) inv st0 p0 := hp
  have hr0 : (resid e0 b0 z0).length = e0.length := length_resid hl z0
  obtain ⟨h1, h2⟩ := (isPass_iff hl hr0).1 hp
  unfold evalWeight at h1
  have hinside : ¬ (inv.any (fun i => decide ((resid e0 b0 z0).length ≤ i)) = true) := by
    simp only [List.any_eq_true, decide_eq_true_eq, not_exists, not_and, not_le, hr0]; exact hp.inside
  rw [if_neg hinside] at h1
  cases hbis : bis inner.exact lower khi st0 it (mask (resid e0 b0 z0) inv) e0 b0 inv with
  | mk res sb =>
  rw [hbis] at h1
  cases res with
  | error x => simp at h1
  | ok raw =>
  obtain ⟨p, w0, lev, hatF, hprev, hit, hinn, hlev, rfl⟩ := bis_ok hbis
  simp only at h1
  split at h1
  · simp at h1
  rename_i hlen
  simp only [Prod.mk.injEq, Except.ok.injEq] at h1
  obtain ⟨⟨hpw, hrej⟩, hpst⟩ := h1
  obtain ⟨hw0l, hw0n⟩ := hs _ _ _ _ _ _ _ _ hinn
  -- the previous weights and factors
  obtain ⟨P, bi0, hat0, hbi0, hhat0, hrem0, hP, aBi, aHat, aTr⟩ : ∃ (P : ι → Prev) (bi0 hat0 : List ℝ),
      (∀ v ∈ bi0, 0 ≤ v) ∧ (∀ v ∈ hat0, 0 ≤ v) ∧ Remembered st0.1 it b0.length bi0 hat0 ∧
      (∀ᶠ k in F, (if it = 0 then some ⟨-1, none, .fin (b k).length, none⟩ else (st k).1 : Option Prev) = some (P k)) ∧
      ArrTo F (fun k => (P k).bi) bi0 ∧ ArrTo F (fun k => (P k).hat) hat0 ∧ FinPos F (fun k => (P k).trace) bi0.sum := by
    by_cases h0 : it = 0
    · have hone : ∀ v ∈ List.replicate b0.length (1 : ℝ), 0 ≤ v := by
        intro v hv; rw [List.eq_of_mem_replicate hv]; exact zero_le_one
      refine ⟨fun k => ⟨-1, none, .fin (b k).length, none⟩, _, _, hone, hone, ⟨by simp, by simp, .inl ⟨h0, rfl, rfl⟩⟩, .of_forall (fun k => by rw [if_pos h0]),
        .inl ⟨.of_forall fun _ => rfl, by simp⟩, .inl ⟨.of_forall fun _ => rfl, by simp⟩, ⟨⟨fun _ => b0.length, ?_, ?_⟩, ?_⟩⟩
      · simp only [List.sum_replicate, smul_eq_mul, nsmul_eq_mul, mul_one]
        exact tendsto_const_nhds
      · filter_upwards [hb.1] with k g
        rw [g]
      · refine .of_forall (fun k v hv => ?_)
        rw [← Flt.fin.inj hv]
        positivity
    · obtain ⟨-, m, P, bi0, hat0, a1, a2, a3, a4, a5, a6, a7⟩ := hst.resolve_left h0
      rw [if_neg h0] at hprev
      have hm : m + 1 = it ∧ bi0.length = b0.length := by
        obtain ⟨-, -, ⟨h, -⟩ | ⟨-, p', hp', b1, b2, -, -⟩⟩ := a3
        · simp at h
        · rw [hprev, Option.some.injEq] at hp'
          subst hp'
          refine ⟨by push_cast at b1; omega, ?_⟩
          rw [b2] at hlev
          simp only [leverage] at hlev
          split at hlev
          · simp at hlev
          · rename_i h; simpa using h
      rw [hm.1, hm.2] at a3
      exact ⟨P, bi0, hat0, a1, a2, a3, by filter_upwards [a4] with k g; rw [if_neg h0, g], a5, a6, a7⟩
  have hind0 : Independent (obs e0 b0 bi0) := by
    by_contra hno
    have := C78_singular inner.exact lower khi st0 ⟨it, mask (resid e0 b0 z0) inv, e0, b0, inv⟩ hl bi0 hat0 hrem0 hno w0 _ hinn
    simp only [hbis] at this
    simp at this
  have hdet0 : (gram b0 (some bi0)).det ≠ 0 := (independent_iff (w := some bi0) hl hrem0.1).1 hind0
  -- the weights of the inner function
  obtain ⟨wf0, hwf0⟩ : ∃ wf0 : List ℝ, zeroAt w0 inv = wf0.map Flt.fin := by
    have hfin : ∀ x ∈ zeroAt w0 inv, ∃ u, x = Flt.fin u := by
      intro x hx
      obtain ⟨i, hi, rfl⟩ := List.getElem_of_mem hx
      rw [← hpw] at h2
      obtain ⟨wsF, hwF⟩ := weightsAre_of_ok h2
      rcases hwF.2 with ⟨h, -⟩ | h
      · simp at h
      rw [Option.some.injEq] at h
      have hi : i < w0.length := by rw [length_zeroAt] at hi; exact hi
      rw [length_zeroAt] at hlen
      have hi2 : i < (timesArr (some (zeroAt w0 inv)) hatF).length := by omega
      have hi3 : i < wsF.length := by rw [hwF.1]; omega
      by_cases hc : i ∈ inv
      · refine ⟨0, ?_⟩
        have := zeroAt_getElem? w0 inv i
        rw [List.getElem?_eq_getElem (by rw [length_zeroAt]; exact hi), List.getElem?_eq_getElem hi] at this
        simpa [hc] using this
      · have h3 := congrArg (fun l => l[i]?) h
        simp only [zeroAt_getElem?, List.getElem?_map, List.getElem?_eq_getElem hi3, List.getElem?_eq_getElem hi2, Option.map_some, hc, if_false, Option.some.injEq] at h3
        simp only [timesArr, List.getElem_zipWith] at h3
        exact fin_of_mul h3
    refine ⟨(zeroAt w0 inv).map (fun x => x.val?.getD 0), ?_⟩
    rw [List.map_map]
    conv_lhs => rw [← List.map_id (zeroAt w0 inv)]
    refine List.map_congr_left (fun x hx => ?_)
    obtain ⟨u, rfl⟩ := hfin x hx
    rfl
  have hwfl : wf0.length = b0.length := by
    have := congrArg List.length hwf0
    rw [length_zeroAt, List.length_map] at this
    omega
  have hnn : ∀ {w : List Flt} {ws : List ℝ}, zeroAt w inv = ws.map Flt.fin → (∀ v, Flt.fin v ∈ w → 0 ≤ v) → (∀ v ∈ ws, 0 ≤ v) := by
    intro w ws h hv v hvm
    obtain ⟨i, hi, rfl⟩ := List.getElem_of_mem hvm
    have := congrArg (fun l => l[i]?) h
    simp only [zeroAt_getElem?, List.getElem?_map, List.getElem?_eq_getElem hi, Option.map_some] at this
    cases hx : w[i]? with
    | none => rw [hx] at this; simp at this
    | some x =>
      rw [hx] at this
      simp only [Option.map_some, Option.some.injEq] at this
      split at this
      · rw [← Flt.fin.inj this]
      · subst this; exact hv _ (List.mem_of_getElem? hx)
  have hat' : ∀ {w : List Flt} {ws : List ℝ}, zeroAt w inv = ws.map Flt.fin → ∀ (i : ℕ) v, ws[i]? = some v → (i ∈ inv → v = 0) ∧ (i ∉ inv → w[i]? = some (.fin v)) := by
    intro w ws h i v hv
    have := congrArg (fun l => l[i]?) h
    simp only [zeroAt_getElem?, List.getElem?_map, hv, Option.map_some] at this
    cases hx : w[i]? with
    | none => rw [hx] at this; simp at this
    | some x =>
      rw [hx] at this
      simp only [Option.map_some, Option.some.injEq] at this
      refine ⟨fun hi => ?_, fun hi => ?_⟩
      · rw [if_pos hi] at this; exact (Flt.fin.inj this).symm
      · rw [if_neg hi] at this; rw [this]
  have hwf0n := hnn hwf0 hw0n
  -- the step at the limit
  have hstep0 := bis_step inner.exact lower khi hlo hlo1 hq.ne' st0 ⟨it, mask (resid e0 b0 z0) inv, e0, b0, inv⟩ hl bi0 hat0 hrem0 hbi0 hind0 w0 _ hinn wf0
    (by simp only; omega) hwfl (hat' hwf0) _ _ _ rfl rfl rfl
  simp only at hstep0
  generalize hh0 : List.zipWith (fun v r => v * RCLike.re (levOf b0 (some bi0) r)) bi0 b0 = h0 at hstep0
  generalize hhat1 : List.zipWith (fun a v => a * influence lower khi (bi0.sum * v / q)) hat0 h0 = hat1 at hstep0
  generalize hbi1 : List.zipWith (fun x1 x2 => x1 * x2) wf0 hat1 = bi1 at hstep0
  obtain ⟨c1, c2, c3, c4, c5, c6⟩ := hstep0
  have hzero : ∀ {ws hat : List ℝ}, (∀ (i : ℕ) v, ws[i]? = some v → i ∈ inv → v = 0) →
      zeroAt ((List.zipWith (fun x1 x2 => x1 * x2) ws hat).map Flt.fin) inv = (List.zipWith (fun x1 x2 => x1 * x2) ws hat).map Flt.fin := by
    intro ws hat hz
    refine List.ext_getElem? (fun i => ?_)
    rw [zeroAt_getElem?]
    simp only [List.getElem?_map, List.getElem?_zipWith]
    cases hx : ws[i]? with
    | none => simp
    | some x =>
      cases hat[i]? with
      | none => simp
      | some y =>
        by_cases hi : i ∈ inv
        · simp [hi, hz i x hx hi]
        · simp [hi]
  have hpw' : p0.w = some (bi1.map Flt.fin) := by
    rw [hbis] at c1
    simp only [Prod.mk.injEq, Except.ok.injEq, Option.some.injEq] at c1
    rw [← hpw, c1.1, ← hbi1, hzero (fun i v hv => (hat' hwf0 i v hv).1)]
  have hst1 : p0.st = (some ⟨it, some (bi1.map Flt.fin), .fin bi1.sum, some (hat1.map Flt.fin)⟩, sb.2) := by
    rw [hbis] at c1
    rw [← hpst]
    exact (Prod.mk.inj c1).2
  have hh0n : ∀ v ∈ h0, 0 ≤ v := by
    intro v hv
    obtain ⟨n, hn, rfl⟩ := List.getElem_of_mem hv
    exact (c3 n _ (List.getElem?_eq_getElem hn)).2.1
  have hind1 : Independent (obs e0 b0 wf0) := by
    refine independent_mul (hat := hat1) hl hwfl c5 hwf0n ?_
    rw [hbi1]
    obtain ⟨ws, ⟨hwl, hwc⟩, hi, -⟩ := hp.weights
    rcases hwc with ⟨h, -⟩ | h
    · rw [hpw'] at h; simp at h
    · rw [hpw', Option.some.injEq] at h
      rw [List.map_injective_iff.2 (fun a b h => Flt.fin.inj h) h]
      exact hi
  obtain ⟨zI, hzI⟩ : ∃ zI, wlse e0 b0 (some (wf0.map Flt.fin)) = .ok zI := by
    rw [wlse_fin hwfl]
    unfold solveLS
    rw [if_neg ((independent_iff (w := some wf0) hl hwfl).1 hind1)]
    exact ⟨_, rfl⟩
  have hpI : IsPass inner.exact e0 b0 eps it (resid e0 b0 z0) inv st0.2 ⟨some (zeroAt w0 inv), negligible eps (zeroAt w0 inv), zI, sb.2⟩ := by
    refine (isPass_iff hl hr0).2 ⟨?_, by rw [hwf0]; exact hzI⟩
    unfold evalWeight
    rw [if_neg hinside, hinn]
    simp only
    rw [if_neg (by omega)]
  -- the step with rounding
  have hfl' : ∀ᶠ k in F, ∃ t : List Flt × List ℝ × List Flt × List Flt × List Flt × List Flt × List Flt × List Flt × List Flt × ℝ × Flt,
      inner.fl (u k) (st k).2 it (mask (r k) inv) (e k) (b k) inv (some t.1) (st1 k).2 ∧ FLeverage (u k) c (b k) (P k).bi t.2.1 ∧
      FTimes (u k) (P k).bi (t.2.1.map .fin) t.2.2.1 ∧
      List.Forall₂ (fun v y => ∃ m, NearWeight (u k) (Flt.mul (P k).trace v) m ∧ NearWeight (u k) (Flt.div m (.fin q)) y) t.2.2.1 t.2.2.2.1 ∧
      List.Forall₂ (fun y f => FExpexp (u k) y khi f) t.2.2.2.1 t.2.2.2.2.1 ∧ FTimes (u k) (P k).hat t.2.2.2.2.1 t.2.2.2.2.2.1 ∧
      Near (u k) (Real.log lower) t.2.2.2.2.2.2.2.2.2.1 ∧
      List.Forall₂ (fun y f => ∃ l, NearWeight (u k) (Flt.log y) l ∧ FExpexp (u k) l t.2.2.2.2.2.2.2.2.2.1 f) t.2.2.2.1 t.2.2.2.2.2.2.1 ∧
      FTimes (u k) (some t.2.2.2.2.2.1) t.2.2.2.2.2.2.1 t.2.2.2.2.2.2.2.1 ∧ FTimes (u k) (some (zeroAt t.1 inv)) t.2.2.2.2.2.2.2.1 t.2.2.2.2.2.2.2.2.1 ∧
      FSumArr (u k) t.2.2.2.2.2.2.2.2.1 t.2.2.2.2.2.2.2.2.2.2 ∧ raw k = some (zeroAt t.2.2.2.2.2.2.2.2.1 inv) ∧
      (st1 k).1 = some ⟨it, some (zeroAt t.2.2.2.2.2.2.2.2.1 inv), t.2.2.2.2.2.2.2.2.2.2, some t.2.2.2.2.2.2.2.1⟩ := by
    filter_upwards [hfl, hP] with k g1 g2
    obtain ⟨p', w, h, hb', y, f1, g, f2, hat, bi, a, tr, k1, k2, k3⟩ := g1
    obtain rfl : p' = P k := Option.some.inj (k1.symm.trans g2)
    exact ⟨(w, h, hb', y, f1, g, f2, hat, bi, a, tr), k3⟩
  haveI : Nonempty Flt := ⟨.nan⟩
  obtain ⟨t, ht⟩ := eventually_choose hfl'
  clear hfl hfl'
  obtain ⟨ws, ws0, stI, d1, d2, d3, d4, d5⟩ := hR e e0 b b0 hb hl r z0 hr it inv eps (fun k => (st k).2) st0.2 _ (hst.imp id And.left) hpI (fun k => some (t k).1)
    (fun k => (st1 k).2) (ht.mono fun _ h => h.1)
  have hws0 : ws0 = wf0 := by
    simp only [hwf0, Option.some.injEq] at d3
    exact (List.map_injective_iff.2 (fun a b h => Flt.fin.inj h) d3).symm
  subst hws0
  have d5' : ∀ᶠ k in F, (st1 k).2 = stI k ∧ zeroAt (t k).1 inv = (ws k).map Flt.fin := by
    filter_upwards [d5] with k hk
    obtain ⟨g1, w, g2, g3⟩ := hk
    rw [Option.some.injEq] at g2
    exact ⟨g1, g2 ▸ g3⟩
  have tW : ListTo F (fun k => zeroAt (t k).1 inv) ws0 := by
    refine (ListTo.of_reals d1 ?_).congr (d5'.mono fun _ h => h.2.symm)
    filter_upwards [d5', ht, hu0, eventually_le_one hu] with k g1 g2 g3 g4
    exact hnn g1.2 (hsf _ g3 g4 _ _ _ _ _ _ _ _ g2.1)
  have lbi : bi0.length = b0.length := hrem0.1
  have lhat : hat0.length = b0.length := hrem0.2.1
  have tL := listTo_flev hu0 hu hb lbi hbi0 hdet0 aBi (ht.mono fun _ h => h.2.1)
  have tH := listTo_ftimes hu0 hu aBi tL (by simp [lbi]) (ht.mono fun _ h => h.2.2.1)
  rw [List.zipWith_map_right, hh0] at tH
  have hq' : (0 : ℝ) < q := by exact_mod_cast hq
  have tY := tH.forall₂ (g := fun v => bi0.sum * v / q) (ht.mono fun _ h => h.2.2.2.1) (by
    intro a y a0 _ ha h
    obtain ⟨m, hm⟩ := eventually_choose h
    exact ((((aTr.mul ha).near hu0 hu (hm.mono fun _ h => h.1))).divc hq').near hu0 hu (hm.mono fun _ h => h.2))
  have hsum0 := List.sum_nonneg hbi0
  have hy0 : ∀ v ∈ h0.map (fun v => bi0.sum * v / q), 0 ≤ v := by
    intro v hv
    obtain ⟨x, hx, rfl⟩ := List.mem_map.1 hv
    have := hh0n x hx
    positivity
  have hlog : Real.log lower < 0 := Real.log_neg hlo hlo1
  have tA : Tendsto (fun k => (t k).2.2.2.2.2.2.2.2.2.1) F (𝓝 (Real.log lower)) := tendsto_near hu tendsto_const_nhds (ht.mono fun _ h => h.2.2.2.2.2.2.1)
  have tF1 := tY.forall₂ (g := fun y => Real.exp (Real.exp (-khi ^ 2) - Real.exp (khi * (y - khi)))) (ht.mono fun _ h => h.2.2.2.2.1) (by
    intro a y a0 _ ha h
    exact finPos_fexpexp hu0 hu ha.1 tendsto_const_nhds h)
  have tF2 := tY.forall₂ (g := fun y => if y = 0 then 0 else Real.exp (Real.exp (-Real.log lower ^ 2) - Real.exp (Real.log lower * (Real.log y - Real.log lower))))
    (ht.mono fun _ h => h.2.2.2.2.2.2.2.1) (by
    intro a y a0 ha0 ha h
    exact finPos_flog hu0 hu ha (hy0 _ ha0) hlog tA h)
  have lh0 : h0.length = b0.length := c2
  have tG := listTo_ftimes hu0 hu aHat tF1 (by simp [lhat, lh0]) (ht.mono fun _ h => h.2.2.2.2.2.1)
  have tHat := listTo_ftimes hu0 hu (.inr ⟨_, .of_forall fun _ => rfl, tG⟩) tF2 (by simp [lhat, lh0]) (ht.mono fun _ h => h.2.2.2.2.2.2.2.2.1)
  have ehat : List.zipWith (· * ·) (List.zipWith (· * ·) hat0 ((h0.map (fun v => bi0.sum * v / q)).map (fun y => Real.exp (Real.exp (-khi ^ 2) - Real.exp (khi * (y - khi))))))
      ((h0.map (fun v => bi0.sum * v / q)).map (fun y => if y = 0 then 0 else Real.exp (Real.exp (-Real.log lower ^ 2) -
        Real.exp (Real.log lower * (Real.log y - Real.log lower))))) = hat1 := by
    rw [← hhat1]
    refine List.ext_getElem (by simp) (fun i h1 h2 => ?_)
    simp only [List.getElem_zipWith, List.getElem_map, influence]
    split <;> ring
  rw [ehat] at tHat
  have tBi := listTo_ftimes hu0 hu (.inr ⟨_, .of_forall fun _ => rfl, tW⟩) tHat (by omega) (ht.mono fun _ h => h.2.2.2.2.2.2.2.2.2.1)
  rw [show List.zipWith (· * ·) ws0 hat1 = bi1 from hbi1] at tBi
  have tTr := finPos_fsumArr hu0 hu tBi (ht.mono fun _ h => h.2.2.2.2.2.2.2.2.2.2.1)
  have tZ : ListTo F (fun k => zeroAt (t k).2.2.2.2.2.2.2.2.1 inv) bi1 := by
    refine ⟨by filter_upwards [tBi.1] with k g; rw [length_zeroAt, g], fun i a ha => ?_⟩
    by_cases hi : i ∈ inv
    · have h1 : a = 0 := by
        rw [← hbi1, List.getElem?_zipWith] at ha
        cases hx : ws0[i]? with
        | none => rw [hx] at ha; simp at ha
        | some x =>
          cases hy : hat1[i]? with
          | none => rw [hx, hy] at ha; simp at ha
          | some y =>
            rw [hx, hy] at ha
            simp only [Option.some.injEq] at ha
            rw [← ha, (hat' hwf0 i x hx).1 hi, zero_mul]
      have h2 : ∀ᶠ k in F, ((zeroAt (t k).2.2.2.2.2.2.2.2.1 inv)[i]?).getD .nan = .fin 0 := by
        have h3 : i < bi1.length := (List.getElem?_eq_some_iff.1 ha).1
        filter_upwards [tBi.1] with k g
        rw [zeroAt_getElem?, List.getElem?_eq_getElem (by omega)]
        simp [hi]
      rw [h1]
      refine ⟨⟨fun _ => 0, tendsto_const_nhds, h2⟩, ?_⟩
      filter_upwards [h2] with k g v hv
      rw [g, Flt.fin.injEq] at hv
      exact hv.le
    · have h2 : ∀ k, ((zeroAt (t k).2.2.2.2.2.2.2.2.1 inv)[i]?).getD .nan = (((t k).2.2.2.2.2.2.2.2.1)[i]?).getD .nan := by
        intro k
        rw [zeroAt_getElem?]
        cases ((t k).2.2.2.2.2.2.2.2.1)[i]? <;> simp [hi]
      simp only [h2]
      exact tBi.2 i a ha
  obtain ⟨wsN, n1, n2⟩ := tZ.reals
  have hinf : ∀ y, 0 ≤ influence lower khi y := by
    intro y
    unfold influence
    split <;> positivity
  have hhat1n : ∀ v ∈ hat1, 0 ≤ v := by
    rw [← hhat1]
    intro v hv
    obtain ⟨n, hn, rfl⟩ := List.getElem_of_mem hv
    rw [List.getElem_zipWith]
    exact mul_nonneg (hhat0 _ (List.getElem_mem _)) (hinf _)
  have hbi1n : ∀ v ∈ bi1, 0 ≤ v := by
    rw [← hbi1]
    intro x hx
    obtain ⟨n, hn, rfl⟩ := List.getElem_of_mem hx
    rw [List.getElem_zipWith]
    exact mul_nonneg (hwf0n _ (List.getElem_mem _)) (hhat1n _ (List.getElem_mem _))
  refine ⟨wsN, bi1, fun k => (some ⟨it, some (zeroAt (t k).2.2.2.2.2.2.2.2.1 inv), (t k).2.2.2.2.2.2.2.2.2.2, some (t k).2.2.2.2.2.2.2.1⟩, stI k), n1, by omega, hpw',
    ⟨?_, it, _, bi1, hat1, hbi1n, hhat1n, ?_, .of_forall fun _ => rfl, .inr ⟨_, .of_forall fun _ => rfl, tZ⟩, .inr ⟨_, .of_forall fun _ => rfl, tHat⟩, tTr⟩, ?_⟩
  · rw [hst1]; exact d4
  · rw [hst1]
    exact ⟨rfl, by omega, .inr ⟨by omega, _, rfl, by simp, rfl, rfl, rfl⟩⟩
  · filter_upwards [ht, d5', n2] with k k1 k2 k3
    refine ⟨Prod.ext k1.2.2.2.2.2.2.2.2.2.2.2.2 k2.1, _, k1.2.2.2.2.2.2.2.2.2.2.2.1, ?_⟩
    rw [zeroAt_zeroAt, k3.2]

theorem fmedian_nonneg {v : ℝ} (hv : v ≤ 1) {l : List ℝ} {m : ℝ} (hl : ∀ x ∈ l, 0 ≤ x) (hne : l ≠ []) (h : FMedian v l m) : 0 ≤ m := by
  have h0 : 0 ≤ median l := isMedian_nonneg hl (isMedian_median hne)
  rcases h with ⟨-, rfl⟩ | ⟨-, s, h1, h2⟩
  · exact h0
  · exact near_nonneg hv (div_nonneg (near_nonneg hv (by positivity) h1) zero_le_two) h2

theorem fscale_nonneg {v : ℝ} (hv : v ≤ 1) {x : List (Option ℝ)} {s : Flt} (h : FScale v x s) : s = .nan ∨ ∃ t, s = .fin t ∧ 0 ≤ t := by
  rcases h with ⟨-, h⟩ | ⟨hne, med, ds, m, t, -, h2, h3, h4, rfl⟩
  · exact .inl h
  · refine .inr ⟨t, rfl, near_nonneg hv (div_nonneg (fmedian_nonneg hv ?_ ?_ h3) (by norm_num)) h4⟩
    · obtain ⟨ys, -, rfl⟩ := fdeviations h2
      intro x hx
      obtain ⟨y, -, rfl⟩ := List.mem_map.1 hx
      exact abs_nonneg _
    · rintro rfl
      exact hne (List.length_eq_zero_iff.1 (by simpa using h2.length_eq))

theorem fsound_base {w : Base} (hw : Usual w) : FSound (⟨w.call, fun v => FBase v w⟩ : FW (Option Flt) 𝕜 q) := by
  intro v hv0 hv1 st it r e b inv ws st' h x hx
  obtain ⟨i, hi, hxi⟩ := List.getElem_of_mem hx
  cases w with
  | thomson xi =>
    obtain ⟨y, a, s, w', -, -, -, h1, h2, -⟩ := h
    obtain rfl := Option.some.inj h2
    obtain ⟨t, -, ht⟩ := h1.get (by rw [h1.length_eq]; exact hi) hi
    exact fexpexp_nonneg hv1 ht x hxi
  | huber alpha =>
    obtain ⟨y, s, p, w', k1, k2, k3, h1, h2, -⟩ := h
    obtain rfl := Option.some.inj h2
    have hiy : i < y.length := by rw [h1.length_eq]; exact hi
    obtain ⟨t, ht, ht2⟩ := h1.get hiy hi
    simp only [List.get_eq_getElem] at ht ht2
    have hp : p = .nan ∨ ∃ a, p = .fin a ∧ 0 ≤ a := by
      rcases fscale_nonneg hv1 k2 with rfl | ⟨sc, rfl, hsc⟩
      · exact .inl (nearWeight_inf k3 (by simp [Flt.mul]))
      · rw [Flt.mul] at k3
        obtain ⟨a, rfl, ha⟩ := nearWeight_of_fin hv0 k3
        exact .inr ⟨a, rfl, near_nonneg hv1 (mul_nonneg (le_of_lt hw) hsc) ha⟩
    have hyi : y[i] = none ∨ ∃ c, y[i] = some c ∧ 0 ≤ c := by
      have hir : i < r.length := by rw [List.Forall₂.length_eq k1]; exact hiy
      rcases List.Forall₂.get k1 hir hiy with ⟨-, g⟩ | ⟨z, c, -, g1, g2⟩
      · exact .inl g
      · exact .inr ⟨c, g1, near_nonneg hv1 (norm_nonneg _) g2⟩
    have hnn : ∀ a, t = .fin a → 0 ≤ a := by
      refine nearWeight_nonneg hv1 (fun a ha => ?_) ht
      rcases hp with rfl | ⟨c, rfl, hc⟩
      · simp [Flt.div] at ha
      · rcases hyi with g | ⟨d, g, hd⟩
        · rw [g] at ha; simp [flt, Flt.div] at ha
        · rw [g] at ha
          simp only [flt, Flt.div] at ha
          split at ha
          · split at ha
            · simp at ha
            · split at ha <;> simp at ha
          · rw [← Flt.fin.inj ha]; exact div_nonneg hc hd
    rw [hxi] at ht2
    cases t with
    | nan => simp [Flt.min1] at ht2
    | ninf => simp [Flt.min1] at ht2
    | pinf => simp [Flt.min1] at ht2; rw [ht2]; exact zero_le_one
    | fin a =>
      simp only [Flt.min1, Flt.fin.injEq] at ht2
      rw [ht2]
      exact le_min zero_le_one (hnn a rfl)

/-- C129: the weight objects of the library with rounding. -/
theorem fstable_obj (hq : 0 < q) (hu0 : ∀ᶠ k in F, 0 ≤ u k) (hu : Tendsto u F (𝓝 0)) (c : ℝ) {w : Obj} (hw : UsualObj w) : FStable F u (FW.obj c w : FW Mem 𝕜 q) := by
  cases w with
  | base w =>
    obtain ⟨R, hR⟩ := fstable_base (F := F) (u := u) (𝕜 := 𝕜) hq hu0 hu hw
    refine ⟨fun st st0 => R (fun k => (st k).2) st0.2, ?_⟩
    intro e e0 b b0 hb hl r z0 hr it inv eps st st0 p0 hst hp raw st1 hfl
    have hp' : IsPass (w.call : WFun (Option Flt) 𝕜 q) e0 b0 eps it (resid e0 b0 z0) inv st0.2 ⟨p0.w, p0.rejected, p0.z, p0.st.2⟩ := by
      refine ⟨hp.inside, ?_, hp.weights⟩
      obtain ⟨shown, raw, hev, hrest⟩ := hp.eval
      refine ⟨shown, raw, ?_, hrest⟩
      simp only [FW.obj, Obj.call, Prod.mk.injEq] at hev
      refine Prod.ext hev.1 ?_
      simp [← hev.2]
    obtain ⟨ws, ws0, st', h1, h2, h3, h4, h5⟩ := hR e e0 b b0 hb hl r z0 hr it inv eps (fun k => (st k).2) st0.2 _ hst hp' raw (fun k => (st1 k).2)
      (hfl.mono fun _ h => h.1)
    refine ⟨ws, ws0, fun k => ((st k).1, st' k), h1, h2, h3, h4, ?_⟩
    filter_upwards [h5, hfl] with k g1 g2
    exact ⟨Prod.ext g2.2 g1.1, g1.2⟩
  | bis w lower khi =>
    exact fstable_bis (inner := ⟨w.call, fun v => FBase v w⟩) hq c hu0 hu (fstable_base hq hu0 hu hw.1) (sound_base hw.1) (fsound_base hw.1) hw.2.1 hw.2.2.1 hw.2.2.2

end Razorback.Props
