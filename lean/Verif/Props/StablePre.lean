/-
Small changes of the data change neither the rejections of the prefilter, nor by much the errors (C128).
-/
import Verif.Props.Stable
import Verif.Props.Prefilter

namespace Razorback.Props
open Razorback Razorback.Spec Razorback.MEst Razorback.Prefilter Filter Topology

variable {𝕜 : Type} [RCLike 𝕜] {q : ℕ} {ι : Type} {F : Filter ι}

theorem cost_resid (x : List 𝕜) (y : List (Fin q → 𝕜)) (h : x.length = y.length) (z : Fin q → 𝕜) :
    cost (obs x y (List.replicate x.length 1)) z = ((resid x y z).map (fun v => ‖v‖ ^ 2)).sum := by
  rw [← cost_ones x y h, norm2, Spec.resid, List.map_zipWith, List.map_zipWith, List.zipWith_comm]
  congr 2
  funext a r
  rw [norm_sub_rev]
  rfl

theorem tendsto_energy {x : ι → List 𝕜} {x0 : List 𝕜} (hx : Tends F x x0) :
    Tendsto (fun k => ((x k).map (fun v => ‖v‖ ^ 2)).sum) F (𝓝 (x0.map (fun v => ‖v‖ ^ 2)).sum) :=
  (hx.map (f := fun _ v => ‖v‖ ^ 2) (fun _ _ _ h => h.norm.pow 2)).sum

/-- The coefficient of determination depends continuously on the samples, where it is a number. -/
theorem tendsto_cod {x : ι → List 𝕜} {x0 : List 𝕜} (hx : Tends F x x0) {y : ι → List (Fin q → 𝕜)} {y0 : List (Fin q → 𝕜)} (hy : Tends F y y0)
    (hl : x0.length = y0.length) {v0 : ℝ} (h : coeffDetermination x0 y0 = .ok (.fin v0)) :
    ∃ v : ι → ℝ, Tendsto v F (𝓝 v0) ∧ (∀ k, 0 ≤ v k ∧ v k ≤ 1) ∧ ∀ᶠ k in F, coeffDetermination (x k) (y k) = .ok (.fin (v k)) := by
  have gen : ∀ (x : List 𝕜) (y : List (Fin q → 𝕜)) z, x.length = y.length → solveLS x y none = .ok z →
      ((x.map (fun v => ‖v‖ ^ 2)).sum = 0 → coeffDetermination x y = .ok .nan) ∧
      ((x.map (fun v => ‖v‖ ^ 2)).sum ≠ 0 → coeffDetermination x y =
        .ok (.fin (Real.sqrt (1 - ((resid x y z).map (fun v => ‖v‖ ^ 2)).sum / (x.map (fun v => ‖v‖ ^ 2)).sum)))) := by
    intro x y z hl hz
    have hw : (eff none y.length).length = y.length := by simp [eff]
    obtain ⟨h1, h2⟩ := (solveLS_ok hl hw).1 hz
    have ho : obs x y (eff none y.length) = obs x y (List.replicate x.length 1) := by simp [eff, hl]
    rw [ho] at h1 h2
    refine ⟨fun h0 => coeffDetermination_ok ⟨x, y, .nan⟩ hl ⟨h1, z, h2, .inl ⟨h0, rfl⟩⟩, fun h0 => ?_⟩
    have := coeffDetermination_ok ⟨x, y, .fin (Real.sqrt (1 - cost (obs x y (List.replicate x.length 1)) z / (x.map (fun v => ‖v‖ ^ 2)).sum))⟩ hl
      ⟨h1, z, h2, .inr ⟨h0, rfl⟩⟩
    rw [cost_resid x y hl] at this
    exact this
  have hz0 : ∃ z0, solveLS x0 y0 none = .ok z0 := by
    unfold coeffDetermination at h
    simp only [gram_none] at h
    split at h
    · simp at h
    · rename_i hd
      unfold solveLS
      rw [if_neg hd]
      exact ⟨_, rfl⟩
  obtain ⟨z0, hz0⟩ := hz0
  obtain ⟨z, hz, hzk⟩ := tendsto_solveLS hx hy (w := fun _ => none) (.inl ⟨rfl, fun _ => rfl⟩) hz0
  obtain ⟨g1, g2⟩ := gen x0 y0 z0 hl hz0
  have hne : (x0.map (fun v => ‖v‖ ^ 2)).sum ≠ 0 := by
    intro h0
    rw [g1 h0] at h
    simp at h
  have hv := g2 hne
  rw [h] at hv
  simp only [Except.ok.injEq, Flt.fin.injEq] at hv
  have hE := tendsto_energy hx
  refine ⟨fun k => Real.sqrt (1 - ((resid (x k) (y k) (z k)).map (fun v => ‖v‖ ^ 2)).sum / ((x k).map (fun v => ‖v‖ ^ 2)).sum), ?_, ?_, ?_⟩
  · rw [hv]
    exact (tendsto_const_nhds.sub ((tendsto_energy (Tends.resid hx hy hz)).div hE hne)).sqrt
  · intro k
    refine ⟨Real.sqrt_nonneg _, Real.sqrt_le_one.2 ?_⟩
    have := div_nonneg (sum_sq_nonneg (resid (x k) (y k) (z k))) (sum_sq_nonneg (x k))
    linarith
  · filter_upwards [hzk, hE.eventually_ne hne, hx.1, hy.1] with k h1 h2 h3 h4
    exact (gen _ _ _ (by omega) h1).2 h2

theorem Tends.drop {β : Type} [TopologicalSpace β] {l : ι → List β} {l0 : List β} (h : Tends F l l0) (n : ℕ) : Tends F (fun k => (l k).drop n) (l0.drop n) := by
  refine ⟨?_, fun i x0 hx => ?_⟩
  · filter_upwards [h.1] with k h1
    simp [h1]
  · rw [List.getElem?_drop] at hx
    simpa only [List.getElem?_drop] using h.2 (n + i) x0 hx

theorem Tends.take {β : Type} [TopologicalSpace β] {l : ι → List β} {l0 : List β} (h : Tends F l l0) (n : ℕ) : Tends F (fun k => (l k).take n) (l0.take n) := by
  refine ⟨?_, fun i x0 hx => ?_⟩
  · filter_upwards [h.1] with k h1
    simp [h1]
  · have hi : i < n := by
      by_contra hn
      rw [List.getElem?_take, if_neg hn] at hx
      simp at hx
    rw [List.getElem?_take, if_pos hi] at hx
    simpa only [List.getElem?_take, if_pos hi] using h.2 i x0 hx

/-- Blocks which tend to a cut. -/
theorem cut_tends (size : ℕ) (hs : 0 < size) : ∀ (n : ℕ) (e : ι → List 𝕜) (e0 : List 𝕜), e0.length = n → Tends F e e0 → ∀ (b : ι → List (Fin q → 𝕜)) b0,
    Tends F b b0 → e0.length = b0.length → (∀ k, (e k).length = e0.length ∧ (b k).length = b0.length) →
    ∃ ts : List ((ι → Block 𝕜 q) × Block 𝕜 q), Cut size e0 b0 (ts.map Prod.snd) ∧ (∀ k, Cut size (e k) (b k) (ts.map (fun t => t.1 k))) ∧
      ∀ t ∈ ts, Tends F (fun k => (t.1 k).x) t.2.x ∧ Tends F (fun k => (t.1 k).y) t.2.y ∧ (∀ k, (t.1 k).x.length = t.2.x.length) ∧ (e0 ≠ [] → t.2.x ≠ []) := by
  intro n
  induction n using Nat.strong_induction_on with
  | _ n ih =>
    intro e e0 hn he b b0 hb hl hlk
    by_cases h2 : e0.length < 2 * size
    · refine ⟨[(fun k => ⟨e k, b k, .nan⟩, ⟨e0, b0, .nan⟩)], ?_, fun k => ?_, ?_⟩
      · exact ⟨by simp, by simp, by simpa using hl, by simp, ⟨_, rfl, h2, fun _ => rfl⟩⟩
      · exact ⟨by simp, by simp, by simp [hlk k, hl], by simp, ⟨_, rfl, by simpa [hlk k] using h2, fun _ => rfl⟩⟩
      · simp only [List.mem_singleton, forall_eq]
        exact ⟨he, hb, fun k => (hlk k).1, id⟩
    · obtain ⟨ts, c0, ck, hts⟩ := ih (e0.length - size) (by omega) (fun k => (e k).drop size) (e0.drop size) (by simp) (Tends.drop he size)
        (fun k => (b k).drop size) (b0.drop size) (Tends.drop hb size) (by simp [hl]) (fun k => by simp [hlk k])
      have step : ∀ (e : List 𝕜) (b : List (Fin q → 𝕜)) (us : List (Block 𝕜 q)), e.length = b.length → ¬ e.length < 2 * size →
          Cut size (e.drop size) (b.drop size) us → Cut size e b (⟨e.take size, b.take size, .nan⟩ :: us) := by
        intro e b us hl h2 hc
        obtain ⟨c1, c2, c3, c4, t, c5, c6, c7⟩ := hc
        have hne : us ≠ [] := by rintro rfl; simp at c5
        refine ⟨?_, ?_, ?_, ?_, t, ?_, c6, ?_⟩
        · simp only [List.flatMap_cons, ← c1, List.take_append_drop]
        · simp only [List.flatMap_cons, ← c2, List.take_append_drop]
        · intro u hu
          rcases List.mem_cons.1 hu with rfl | hu
          · simp [hl]
          · exact c3 u hu
        · intro u hu
          rw [List.dropLast_cons_of_ne_nil hne] at hu
          rcases List.mem_cons.1 hu with rfl | hu
          · simp; omega
          · exact c4 u hu
        · rw [List.getLast?_cons_of_ne_nil hne, c5]
        · intro h
          have h1 := c7 h
          obtain ⟨u, rfl⟩ := List.length_eq_one_iff.1 h1
          simp only [List.getLast?_singleton, Option.some.injEq] at c5
          subst c5
          have := congrArg List.length c1
          simp at this
          omega
      refine ⟨(fun k => ⟨(e k).take size, (b k).take size, .nan⟩, ⟨e0.take size, b0.take size, .nan⟩) :: ts, ?_, fun k => ?_, ?_⟩
      · exact step e0 b0 _ hl h2 c0
      · exact step (e k) (b k) _ (by rw [(hlk k).1, (hlk k).2, hl]) (by rw [(hlk k).1]; exact h2) (ck k)
      · intro t ht
        rcases List.mem_cons.1 ht with rfl | ht
        · refine ⟨Tends.take he size, Tends.take hb size, fun k => by simp [hlk k], fun _ h => ?_⟩
          have := congrArg List.length h
          simp at this
          rcases this with h | h
          · omega
          · simp [h] at h2; omega
        · obtain ⟨t1, t2, t3, t4⟩ := hts t ht
          refine ⟨t1, t2, t3, fun _ => t4 (fun h => ?_)⟩
          have := congrArg List.length h
          simp at this
          omega

theorem value_blocks {size : ℕ} (hs : 0 < size) {e : List 𝕜} {b : List (Fin q → 𝕜)} {ts : List (Block 𝕜 q)} (hc : Cut size e b ts) (c : Block 𝕜 q → Flt)
    (h : ∀ t ∈ ts, coeffDetermination t.x t.y = .ok (c t)) : value size e b = .ok (ts.flatMap (fun t => List.replicate t.x.length (c t))) := by
  obtain ⟨init, t, rfl, hl, hl2, hv⟩ := value_cut size e b ts hs hc
  rw [hv, mapE_of_forall (g := c) (fun u hu => h u (by simp [hu])), h t (by simp)]
  simp only [List.flatMap_append, List.flatMap_cons, List.flatMap_nil, List.append_nil, List.flatMap_map]
  congr 2
  apply List.flatMap_congr
  intro u hu
  rw [hc.regular u (by simpa using hu)]

theorem value_ok {size : ℕ} (hs : 0 < size) {e : List 𝕜} {b : List (Fin q → 𝕜)} {ts : List (Block 𝕜 q)} (hc : Cut size e b ts) {vs : List Flt}
    (h : value size e b = .ok vs) : ∀ t ∈ ts, ∃ c, coeffDetermination t.x t.y = .ok c := by
  obtain ⟨init, t, rfl, hl, hl2, hv⟩ := value_cut size e b ts hs hc
  rw [hv] at h
  cases hm : mapE (fun p : Block 𝕜 q => coeffDetermination p.x p.y) init with
  | error x => rw [hm] at h; simp at h
  | ok tmp =>
    rw [hm] at h
    simp only at h
    cases ht : coeffDetermination t.x t.y with
    | error x => rw [ht] at h; simp at h
    | ok v =>
      intro u hu
      rcases List.mem_append.1 hu with hu | hu
      · obtain ⟨c, -, hc⟩ := mapE_ok_forall hm u hu
        exact ⟨c, hc⟩
      · rw [List.mem_singleton.1 hu]
        exact ⟨v, ht⟩

theorem eventually_list {α : Type} {P : ι → α → Prop} : ∀ {l : List α}, (∀ a ∈ l, ∀ᶠ k in F, P k a) → ∀ᶠ k in F, ∀ a ∈ l, P k a
  | [], _ => by simp
  | a :: l, h => by
    filter_upwards [h a (by simp), eventually_list (l := l) (fun a ha => h a (by simp [ha]))] with k h1 h2
    intro x hx
    rcases List.mem_cons.1 hx with rfl | hx
    · exact h1
    · exact h2 x hx

/-- The positions where a list of flags is set. -/
theorem flags_filter {α : Type} (f : α → Bool) (l : List α) (n : ℕ) : ((l.zipIdx n).filter (fun p => f p.1)).map Prod.snd =
    (((l.map f).zipIdx n).filter (fun p => p.1)).map Prod.snd := by
  induction l generalizing n with
  | nil => rfl
  | cons a l ih =>
    simp only [List.zipIdx_cons, List.map_cons, List.filter_cons]
    split_ifs <;> simp [ih]

/-- The filter by coefficients of determination rejects the same samples for data which are close, if no coefficient is at a limit. -/
theorem call_stable {codMin codMax : ℝ} {size : ℕ} {e : ι → List 𝕜} {e0 : List 𝕜} (he : Tends F e e0) {b : ι → List (Fin q → 𝕜)} {b0 : List (Fin q → 𝕜)}
    (hb : Tends F b b0) (hlk : ∀ k, (e k).length = e0.length ∧ (b k).length = b0.length) {vs : List Flt} (h : value size e0 b0 = .ok vs)
    (hoff : ∀ x ∈ vs, ∃ v, x = .fin v ∧ (0 < codMin → v ≠ codMin) ∧ (codMax < 1 → v ≠ codMax)) :
    ∀ᶠ k in F, call codMin codMax size (e k) (b k) = call codMin codMax size e0 b0 := by
  classical
  rcases F.eq_or_neBot with rfl | hF
  · simp
  have h1 : e0.length = b0.length ∧ 0 < size := by
    unfold value at h
    split at h
    · simp at h
    · split at h
      · simp at h
      · exact ⟨by tauto, by omega⟩
  obtain ⟨hl, hs⟩ := h1
  by_cases hnil : e0 = []
  · subst hnil
    have : b0 = [] := List.length_eq_zero_iff.1 hl.symm
    subst this
    refine .of_forall (fun k => ?_)
    rw [List.length_eq_zero_iff.1 (hlk k).1, List.length_eq_zero_iff.1 (hlk k).2]
  obtain ⟨ts, c0, ck, hts⟩ := cut_tends size hs e0.length e e0 rfl he b b0 hb hl hlk
  set c : Block 𝕜 q → Flt := fun t => match coeffDetermination t.x t.y with
    | .ok c => c
    | .error _ => .nan with hcdef
  have hval0 : ∀ t ∈ ts, coeffDetermination t.2.x t.2.y = .ok (c t.2) := by
    intro t ht
    obtain ⟨d, hd⟩ := value_ok hs c0 h t.2 (List.mem_map_of_mem ht)
    simp only [hcdef, hd]
  have hv0 := value_blocks hs c0 c (by
    intro t ht
    obtain ⟨u, hu, rfl⟩ := List.mem_map.1 ht
    exact hval0 u hu)
  rw [h] at hv0
  simp only [Except.ok.injEq] at hv0
  have hnum : ∀ t ∈ ts, ∃ v, c t.2 = .fin v ∧ (0 < codMin → v ≠ codMin) ∧ (codMax < 1 → v ≠ codMax) := by
    intro t ht
    refine hoff _ ?_
    rw [hv0, List.mem_flatMap]
    refine ⟨t.2, List.mem_map_of_mem ht, List.mem_replicate.2 ⟨?_, rfl⟩⟩
    have := (hts t ht).2.2.2 hnil
    simpa [List.length_eq_zero_iff] using this
  have hev : ∀ᶠ k in F, ∀ t ∈ ts, coeffDetermination (t.1 k).x (t.1 k).y = .ok (c (t.1 k)) ∧
      (below (c (t.1 k)) codMin || above (c (t.1 k)) codMax) = (below (c t.2) codMin || above (c t.2) codMax) := by
    refine eventually_list (fun t ht => ?_)
    obtain ⟨v0, hv, hne1, hne2⟩ := hnum t ht
    have h3 := hval0 t ht
    rw [hv] at h3
    obtain ⟨v, hlim, h01, hk⟩ := tendsto_cod (hts t ht).1 (hts t ht).2.1 (c0.aligned _ (List.mem_map_of_mem ht)) h3
    have hmin : ∀ᶠ k in F, (v k < codMin ↔ v0 < codMin) := by
      rcases le_or_gt codMin 0 with h0 | h0
      · have hb0 := ge_of_tendsto' hlim (fun k => (h01 k).1)
        exact .of_forall (fun k => ⟨fun h => absurd h (not_lt.2 (h0.trans (h01 k).1)), fun h => absurd h (not_lt.2 (h0.trans hb0))⟩)
      rcases lt_or_gt_of_ne (hne1 h0) with hlt | hgt
      · filter_upwards [hlim.eventually_lt_const hlt] with k hk
        exact ⟨fun _ => hlt, fun _ => hk⟩
      · filter_upwards [hlim.eventually_const_lt hgt] with k hk
        exact ⟨fun h => absurd h (not_lt.2 hk.le), fun h => absurd h (not_lt.2 hgt.le)⟩
    have hmax : ∀ᶠ k in F, (codMax < v k ↔ codMax < v0) := by
      rcases le_or_gt 1 codMax with h0 | h0
      · have hb0 := le_of_tendsto' hlim (fun k => (h01 k).2)
        exact .of_forall (fun k => ⟨fun h => absurd h (not_lt.2 ((h01 k).2.trans h0)), fun h => absurd h (not_lt.2 (hb0.trans h0))⟩)
      rcases lt_or_gt_of_ne (hne2 h0) with hlt | hgt
      · filter_upwards [hlim.eventually_lt_const hlt] with k hk
        exact ⟨fun h => absurd h (not_lt.2 hk.le), fun h => absurd h (not_lt.2 hlt.le)⟩
      · filter_upwards [hlim.eventually_const_lt hgt] with k hk
        exact ⟨fun _ => hgt, fun _ => hk⟩
    filter_upwards [hk, hmin, hmax] with k h4 h5 h6
    have h7 : c (t.1 k) = .fin (v k) := by simp only [hcdef, h4]
    refine ⟨by rw [h4, h7], ?_⟩
    rw [h7, hv]
    simp only [below, above, h5, h6]
  filter_upwards [hev] with k hk
  have hvk := value_blocks hs (ck k) c (by
    intro t ht
    obtain ⟨u, hu, rfl⟩ := List.mem_map.1 ht
    exact (hk u hu).1)
  unfold call
  rw [h, hvk, hv0]
  simp only [Except.ok.injEq]
  rw [flags_filter (fun x => below x codMin || above x codMax), flags_filter (fun x => below x codMin || above x codMax)]
  congr 3
  simp only [List.map_flatMap, List.flatMap_map, List.map_replicate]
  refine List.flatMap_congr (fun t ht => ?_)
  rw [(hk t ht).2, (hts t ht).2.2.1 k]

theorem tendsto_gram_inv {b : ι → List (Fin q → 𝕜)} {b0 : List (Fin q → 𝕜)} (hb : Tends F b b0) (hd : (gram b0 none).det ≠ 0) :
    Tendsto (fun k => (gram (b k) none)⁻¹) F (𝓝 (gram b0 none)⁻¹) := by
  have hG : Tendsto (fun k => gram (b k) none) F (𝓝 (gram b0 none)) := by
    refine tendsto_pi_nhds.2 (fun j => tendsto_pi_nhds.2 (fun l => ?_))
    exact (hb.zipWith hb (f := fun r v => star (r j) * v l) (by fun_prop)).sum
  have hdet : Tendsto (fun k => (gram (b k) none).det) F (𝓝 (gram b0 none).det) := ((continuous_id.matrix_det).tendsto _).comp hG
  simp only [Matrix.inv_def, Ring.inverse_eq_inv']
  exact (hdet.inv₀ hd).smul (((continuous_id.matrix_adjugate).tendsto _).comp hG)

/-- What an error is where it is a number. -/
theorem errorRow_number {b : List (Fin q → 𝕜)} {y : List 𝕜} {T : Fin q → 𝕜} {ninv : ℕ} {j : Fin q} {v : ℝ} :
    errorRow b y T ninv j = .fin v ↔ q < y.length ∧ y.length ≠ ninv ∧
      v = Real.sqrt ((resid y b T).map (fun x => ‖x‖ ^ 2)).sum / (Real.sqrt ((y.length : ℝ) - q) / y.length) / ((y.length : ℝ) - ninv) *
        Real.sqrt ‖(gram b none)⁻¹ j j‖ := by
  have hq : 0 < q := j.pos
  unfold errorRow
  simp only [residual_eq, ← Matrix.transpose_nonsing_inv, Matrix.transpose_apply]
  generalize hS : Real.sqrt ((resid y b T).map (fun x => ‖x‖ ^ 2)).sum = s
  generalize Real.sqrt ‖(gram b none)⁻¹ j j‖ = g
  by_cases h1 : (y.length : ℝ) - q < 0
  · have : ¬ q < y.length := by
      intro h
      have : (q : ℝ) < y.length := by exact_mod_cast h
      linarith
    simp [Flt.sqrt, h1, Flt.div, Flt.mul, this]
  have hn : (y.length : ℝ) ≠ 0 := by
    have : (0 : ℝ) < q := by exact_mod_cast hq
    intro h
    rw [h] at h1
    exact h1 (by linarith)
  simp only [Flt.sqrt, if_neg h1, Flt.div, if_neg hn]
  by_cases h2 : Real.sqrt ((y.length : ℝ) - q) / y.length = 0
  · have : ¬ q < y.length := by
      intro h
      have : (q : ℝ) < y.length := by exact_mod_cast h
      rw [div_eq_zero_iff, or_iff_left hn, Real.sqrt_eq_zero (by linarith)] at h2
      linarith
    rw [if_pos h2]
    constructor
    · intro h
      exfalso
      revert h
      split_ifs <;> simp only [Flt.div, Flt.mul, Flt.infTimes, reduceCtorEq, false_implies] <;> split_ifs <;>
        simp only [Flt.div, Flt.mul, Flt.infTimes, reduceCtorEq, false_implies] <;> (try split_ifs) <;> simp
    · exact fun h => absurd h.1 this
  · have hlt : q < y.length := by
      by_contra h
      have : (y.length : ℝ) ≤ q := by exact_mod_cast not_lt.1 h
      have h0 : (y.length : ℝ) - q = 0 := by linarith
      exact h2 (by rw [h0]; simp)
    rw [if_neg h2]
    by_cases h3 : (y.length : ℝ) - ninv = 0
    · have hc : y.length = ninv := by
        have : (y.length : ℝ) = ninv := by linarith
        exact_mod_cast this
      simp only [Flt.div, if_pos h3]
      constructor
      · intro h
        exfalso
        revert h
        split_ifs <;> simp only [Flt.mul, Flt.infTimes, reduceCtorEq, false_implies] <;> (try split_ifs) <;> simp
      · exact fun h => absurd hc h.2.1
    · have hc : y.length ≠ ninv := fun h => h3 (by rw [h]; simp)
      simp only [Flt.div, if_neg h3, Flt.mul, Flt.fin.injEq, hlt, hc, ne_eq, not_false_eq_true, true_and]
      exact eq_comm

/-- The errors depend continuously on the data, where they are numbers. -/
theorem errorRow_tends {b : ι → List (Fin q → 𝕜)} {b0 : List (Fin q → 𝕜)} (hb : Tends F b b0) {y : ι → List 𝕜} {y0 : List 𝕜} (hy : Tends F y y0)
    {T : ι → Fin q → 𝕜} {T0 : Fin q → 𝕜} (hT : Tendsto T F (𝓝 T0)) (ninv : ℕ) (hd : (gram b0 none).det ≠ 0) (j : Fin q) {v0 : ℝ}
    (h : errorRow b0 y0 T0 ninv j = .fin v0) :
    ∃ v : ι → ℝ, Tendsto v F (𝓝 v0) ∧ ∀ᶠ k in F, errorRow (b k) (y k) (T k) ninv j = .fin (v k) := by
  obtain ⟨h1, h2, rfl⟩ := errorRow_number.1 h
  refine ⟨fun k => Real.sqrt ((resid (y k) (b k) (T k)).map (fun x => ‖x‖ ^ 2)).sum / (Real.sqrt ((y0.length : ℝ) - q) / y0.length) / ((y0.length : ℝ) - ninv) *
        Real.sqrt ‖(gram (b k) none)⁻¹ j j‖, ?_, ?_⟩
  · exact (((tendsto_energy (Tends.resid hy hb hT)).sqrt.div_const _).div_const _).mul
      (tendsto_pi_nhds.1 (tendsto_pi_nhds.1 (tendsto_gram_inv hb hd) j) j).norm.sqrt
  · filter_upwards [hy.1] with k hk
    rw [errorRow_number, hk]
    exact ⟨h1, h2, rfl⟩

end Razorback.Props
