/-
Property C129: weight functions computed in floating point arithmetic tend to the exact ones.
-/
import Verif.Lemmas.StableRound
import Verif.Props.Stable

namespace Razorback.Props
open Razorback Razorback.Spec Razorback.MEst Razorback.Weights Razorback.Approx Filter Topology

variable {𝕜 : Type} [RCLike 𝕜] {q : ℕ} {σ ι : Type} {F : Filter ι} {u : ι → ℝ}

/-- A weight function which only looks at the residuals and at the inputs. -/
def IgnoresData (wf : WFun σ 𝕜 q) : Prop := ∀ st it r e e' b inv, wf st it r e b inv = wf st it r e' b inv

/-- A weight function whose possible weights tend to the exact ones, at every pass which succeeds without rounding. -/
def FStable (F : Filter ι) (u : ι → ℝ) (f : FW σ 𝕜 q) : Prop :=
  ∃ R : (ι → σ) → σ → Prop, ∀ (e : ι → List 𝕜) (e0 : List 𝕜) (b : ι → List (Fin q → 𝕜)) b0, Tends F b b0 → e0.length = b0.length →
    ∀ (r : ι → List 𝕜) (z0 : Fin q → 𝕜), Tends F r (resid e0 b0 z0) → ∀ it inv eps (st : ι → σ) st0 p0, (it = 0 ∨ R st st0) →
      IsPass f.exact e0 b0 eps it (resid e0 b0 z0) inv st0 p0 → ∀ (raw : ι → Option (List Flt)) (st1 : ι → σ),
      (∀ᶠ k in F, f.fl (u k) (st k) it (mask (r k) inv) (e k) (b k) inv (raw k) (st1 k)) →
      ∃ (ws : ι → List ℝ) (ws0 : List ℝ) (st' : ι → σ), Tends F ws ws0 ∧ ws0.length = e0.length ∧ p0.w = some (ws0.map Flt.fin) ∧ R st' p0.st ∧
        ∀ᶠ k in F, st1 k = st' k ∧ ∃ w, raw k = some w ∧ zeroAt w inv = (ws k).map Flt.fin

theorem nearWeight_fin {v : ℝ} (hv : 0 ≤ v) {w1 w2 : List Flt} (h : List.Forall₂ (NearWeight v) w1 w2) (inv : List ℕ) {ws : List ℝ} (hw : zeroAt w1 inv = ws.map Flt.fin) :
    ∃ ws2 : List ℝ, zeroAt w2 inv = ws2.map Flt.fin ∧ List.Forall₂ (Near v) ws ws2 := by
  have key : ∀ (n : ℕ) (w1 w2 : List Flt), List.Forall₂ (NearWeight v) w1 w2 → ∀ ws : List ℝ,
      (w1.zipIdx n).map (fun p => if inv.contains p.2 then Flt.fin 0 else p.1) = ws.map Flt.fin →
      ∃ ws2 : List ℝ, (w2.zipIdx n).map (fun p => if inv.contains p.2 then Flt.fin 0 else p.1) = ws2.map Flt.fin ∧ List.Forall₂ (Near v) ws ws2 := by
    intro n w1 w2 h
    induction h generalizing n with
    | nil =>
      intro ws hw
      have : ws = [] := by simpa using hw.symm
      exact ⟨[], by simp, by rw [this]; exact .nil⟩
    | @cons x y l1 l2 hxy hl ih =>
      intro ws hw
      cases ws with
      | nil => simp at hw
      | cons a ws =>
        simp only [List.zipIdx_cons, List.map_cons, List.cons.injEq] at hw ⊢
        obtain ⟨ws2, h1, h2⟩ := ih (n + 1) ws hw.2
        by_cases hn : inv.contains n = true
        · rw [if_pos hn, Flt.fin.injEq] at hw
          refine ⟨0 :: ws2, by simp only [if_pos hn, h1, List.map_cons], .cons ?_ h2⟩
          rw [← hw.1]
          exact Near.refl hv _
        · rw [if_neg hn] at hw
          rcases hxy with rfl | ⟨a', c, rfl, rfl, hn'⟩
          · exact ⟨a :: ws2, by simp only [if_neg hn, hw.1, h1, List.map_cons], .cons (Near.refl hv _) h2⟩
          · obtain rfl : a' = a := by simpa using hw.1
            exact ⟨c :: ws2, by simp only [if_neg hn, h1, List.map_cons], .cons hn' h2⟩
  exact key 0 w1 w2 h ws hw

theorem tends_shifted {r : ι → List 𝕜} {e0 : List 𝕜} {b : ι → List (Fin q → 𝕜)} {b0 : List (Fin q → 𝕜)} {z0 : Fin q → 𝕜} (hr : Tends F r (resid e0 b0 z0))
    (hb : Tends F b b0) (hl : e0.length = b0.length) :
    Tends F (fun k => List.zipWith (fun x s => x + ∑ j, s j * z0 j) (r k) (b k)) e0 ∧
      ∀ᶠ k in F, resid (List.zipWith (fun x s => x + ∑ j, s j * z0 j) (r k) (b k)) (b k) z0 = r k := by
  constructor
  · have h1 := hr.zipWith hb (f := fun x s => x + ∑ j, s j * z0 j) (by fun_prop)
    have h2 : List.zipWith (fun x s => x + ∑ j, s j * z0 j) (resid e0 b0 z0) b0 = e0 := by
      refine List.ext_getElem (by rw [List.length_zipWith, length_resid hl]; omega) (fun i h1 h2 => ?_)
      simp only [resid, List.getElem_zipWith]
      ring
    rwa [h2] at h1
  · filter_upwards [hr.1, hb.1] with k h1 h2
    rw [length_resid hl] at h1
    refine List.ext_getElem ?_ (fun i h1 h2 => ?_)
    · rw [length_resid (by rw [List.length_zipWith]; omega), List.length_zipWith]; omega
    · simp only [resid, List.getElem_zipWith]
      ring

/-- A weight function with relative errors of its weights. -/
theorem fstable_summed (hu0 : ∀ᶠ k in F, 0 ≤ u k) (hu : Tendsto u F (𝓝 0)) {wf : WFun σ 𝕜 q} (hs : Stable F wf) (hig : IgnoresData wf) :
    FStable F u (FW.user wf) := by
  obtain ⟨R, hR⟩ := hs
  refine ⟨R, ?_⟩
  intro e e0 b b0 hb hl r z0 hr it inv eps st st0 p0 hst hp raw st1 hfl
  obtain ⟨he', hres⟩ := tends_shifted hr hb hl
  obtain ⟨ws, ws0, st', hws, hlen, hw0, hst', hev⟩ := hR _ e0 he' b b0 hb hl (fun _ => z0) z0 tendsto_const_nhds it inv eps st st0 p0 hst hp
  have hkey : ∀ᶠ k in F, ∃ ws2 : List ℝ, List.Forall₂ (Near (u k)) (ws k) ws2 ∧ st1 k = st' k ∧ ∃ w, raw k = some w ∧ zeroAt w inv = ws2.map Flt.fin := by
    filter_upwards [hfl, hev, hres, hu0] with k g1 g2 g3 g4
    obtain ⟨w', g5, g6, g7⟩ := g2
    rw [g3] at g5 g6
    obtain ⟨raw0, g8, g9⟩ := g1
    rw [hig _ _ _ _ (e k), g8] at g5
    simp only [Prod.mk.injEq, Except.ok.injEq] at g5
    obtain ⟨rfl, hs⟩ := g5
    rcases g9 with ⟨g, -⟩ | ⟨w1, w2, g10, g11, g12⟩
    · simp at g
    · injection g10 with g10
      subst g10
      obtain ⟨ws2, g14, g15⟩ := nearWeight_fin g4 g11 inv g7
      exact ⟨ws2, g15, hs, w2, g12, g14⟩
  obtain ⟨ws2, hws2⟩ := eventually_choose hkey
  exact ⟨ws2, ws0, st', tends_near hu hws (hws2.mono fun _ h => h.1), hlen, hw0, hst', hws2.mono fun _ h => h.2⟩

/-! Numbers which are finite in the end, and tend to a real number -/

/-- Finite in the end, and tending to a real number. -/
def FinTo (F : Filter ι) (x : ι → Flt) (a : ℝ) : Prop := ∃ s : ι → ℝ, Tendsto s F (𝓝 a) ∧ ∀ᶠ k in F, x k = .fin (s k)

theorem FinTo.congr {x y : ι → Flt} {a : ℝ} (h : FinTo F x a) (he : ∀ᶠ k in F, x k = y k) : FinTo F y a := by
  obtain ⟨s, h1, h2⟩ := h
  refine ⟨s, h1, ?_⟩
  filter_upwards [h2, he] with k h3 h4
  rw [← h4, h3]

theorem FinTo.near (hu0 : ∀ᶠ k in F, 0 ≤ u k) (hu : Tendsto u F (𝓝 0)) {x y : ι → Flt} {a : ℝ} (h : FinTo F x a) (hn : ∀ᶠ k in F, NearWeight (u k) (x k) (y k)) :
    FinTo F y a := by
  obtain ⟨s, h1, h2⟩ := h
  have h3 : ∀ᶠ k in F, ∃ t : ℝ, Near (u k) (s k) t ∧ y k = .fin t := by
    filter_upwards [h2, hn, hu0] with k g1 g2 g3
    rcases g2 with g2 | ⟨a, c, g4, g5, g6⟩
    · exact ⟨s k, Near.refl g3 _, by rw [← g2, g1]⟩
    · rw [g1, Flt.fin.injEq] at g4
      exact ⟨c, g4 ▸ g6, g5⟩
  obtain ⟨t, ht⟩ := eventually_choose h3
  exact ⟨t, tendsto_near hu h1 (ht.mono fun _ h => h.1), ht.mono fun _ h => h.2⟩

theorem FinTo.of {s : ι → ℝ} {a : ℝ} (h : Tendsto s F (𝓝 a)) : FinTo F (fun k => .fin (s k)) a := ⟨s, h, .of_forall fun _ => rfl⟩

theorem FinTo.sub {x y : ι → Flt} {a b : ℝ} (hx : FinTo F x a) (hy : FinTo F y b) : FinTo F (fun k => Flt.sub (x k) (y k)) (a - b) := by
  obtain ⟨s, h1, h2⟩ := hx
  obtain ⟨t, h3, h4⟩ := hy
  refine ⟨_, h1.sub h3, ?_⟩
  filter_upwards [h2, h4] with k g1 g2
  simp [g1, g2, Flt.sub, Flt.neg, Flt.add, sub_eq_add_neg]

theorem FinTo.mul {x y : ι → Flt} {a b : ℝ} (hx : FinTo F x a) (hy : FinTo F y b) : FinTo F (fun k => Flt.mul (x k) (y k)) (a * b) := by
  obtain ⟨s, h1, h2⟩ := hx
  obtain ⟨t, h3, h4⟩ := hy
  refine ⟨_, h1.mul h3, ?_⟩
  filter_upwards [h2, h4] with k g1 g2
  simp [g1, g2, Flt.mul]

theorem FinTo.div {x y : ι → Flt} {a b : ℝ} (hx : FinTo F x a) (hy : FinTo F y b) (hb : b ≠ 0) : FinTo F (fun k => Flt.div (x k) (y k)) (a / b) := by
  obtain ⟨s, h1, h2⟩ := hx
  obtain ⟨t, h3, h4⟩ := hy
  refine ⟨_, h1.div h3 hb, ?_⟩
  filter_upwards [h2, h4, h3.eventually_ne hb] with k g1 g2 g3
  simp [g1, g2, Flt.div, g3]

theorem FinTo.exp {x : ι → Flt} {a : ℝ} (hx : FinTo F x a) : FinTo F (fun k => Flt.exp (x k)) (Real.exp a) := by
  obtain ⟨s, h1, h2⟩ := hx
  refine ⟨_, (Real.continuous_exp.tendsto a).comp h1, ?_⟩
  filter_upwards [h2] with k g1
  simp [g1, Flt.exp]

/-- `expexp` of finite arguments. -/
theorem finTo_fexpexp (hu0 : ∀ᶠ k in F, 0 ≤ u k) (hu : Tendsto u F (𝓝 0)) {x w : ι → Flt} {x0 : ℝ} (hx : FinTo F x x0) {a : ι → ℝ} {a0 : ℝ} (ha : Tendsto a F (𝓝 a0))
    (h : ∀ᶠ k in F, FExpexp (u k) (x k) (a k) (w k)) : FinTo F w (Real.exp (Real.exp (-a0 ^ 2) - Real.exp (a0 * (x0 - a0)))) := by
  have h' : ∀ᶠ k in F, ∃ v : ℝ × ℝ × Flt × Flt × Flt × Flt, Near (u k) (a k ^ 2) v.1 ∧ Near (u k) (Real.exp (-v.1)) v.2.1 ∧
      NearWeight (u k) (Flt.sub (x k) (.fin (a k))) v.2.2.1 ∧ NearWeight (u k) (Flt.mul (.fin (a k)) v.2.2.1) v.2.2.2.1 ∧
      NearWeight (u k) (Flt.exp v.2.2.2.1) v.2.2.2.2.1 ∧ NearWeight (u k) (Flt.sub (.fin v.2.1) v.2.2.2.2.1) v.2.2.2.2.2 ∧
      NearWeight (u k) (Flt.exp v.2.2.2.2.2) (w k) := by
    filter_upwards [h] with k g
    obtain ⟨s, C, d, m, E, t, g⟩ := g
    exact ⟨(s, C, d, m, E, t), g⟩
  haveI : Nonempty Flt := ⟨.nan⟩
  obtain ⟨v, hv⟩ := eventually_choose h'
  have h1 := tendsto_near hu (ha.pow 2) (hv.mono fun _ h => h.1)
  have h2 := tendsto_near hu ((Real.continuous_exp.tendsto _).comp h1.neg) (hv.mono fun _ h => h.2.1)
  have h3 := (hx.sub (.of ha)).near hu0 hu (hv.mono fun _ h => h.2.2.1)
  have h4 := ((FinTo.of ha).mul h3).near hu0 hu (hv.mono fun _ h => h.2.2.2.1)
  have h5 := h4.exp.near hu0 hu (hv.mono fun _ h => h.2.2.2.2.1)
  have h6 := ((FinTo.of h2).sub h5).near hu0 hu (hv.mono fun _ h => h.2.2.2.2.2.1)
  exact h6.exp.near hu0 hu (hv.mono fun _ h => h.2.2.2.2.2.2)

theorem tendsto_fmedian (hu0 : ∀ᶠ k in F, 0 ≤ u k) (hu : Tendsto u F (𝓝 0)) {l : ι → List ℝ} {l0 : List ℝ} (hl : Tends F l l0) (hne : l0 ≠ []) {m : ι → ℝ}
    (h : ∀ᶠ k in F, FMedian (u k) (l k) (m k)) : Tendsto m F (𝓝 (median l0)) := by
  have h' : ∀ᶠ k in F, ∃ s : ℝ, Near (u k) (2 * median (l k)) s ∧ Near (u k) (s / 2) (m k) := by
    filter_upwards [h, hu0] with k g g0
    rcases g with ⟨-, g⟩ | ⟨-, g⟩
    · refine ⟨2 * median (l k), Near.refl g0 _, ?_⟩
      rw [g, mul_div_cancel_left₀ _ two_ne_zero]
      exact Near.refl g0 _
    · exact g
  obtain ⟨s, hs⟩ := eventually_choose h'
  have h1 := tendsto_near hu ((hl.median hne).const_mul 2) (hs.mono fun _ h => h.1)
  have h2 := tendsto_near hu (h1.div_const 2) (hs.mono fun _ h => h.2)
  rwa [mul_div_cancel_left₀ _ two_ne_zero] at h2

theorem fvnorm_sizes {v : ℝ} {r : List (Option 𝕜)} {x : List (Option ℝ)} (h : FVnorm v r x) : List.Forall₂ (Near v) (sizes r) (x.filterMap id) := by
  unfold FVnorm at h
  induction h with
  | nil => exact .nil
  | cons h1 _ ih =>
    rcases h1 with ⟨rfl, rfl⟩ | ⟨y, t, rfl, rfl, h1⟩
    · simpa [sizes, valid] using ih
    · have : List.Forall₂ (Near v) (‖y‖ :: sizes _) (t :: _) := .cons h1 ih
      simpa [sizes, valid] using this

theorem fdeviations {v med : ℝ} {l ds : List ℝ} (h : List.Forall₂ (fun a d => ∃ y, Near v (a - med) y ∧ d = |y|) l ds) :
    ∃ ys : List ℝ, List.Forall₂ (Near v) (l.map (fun a => a - med)) ys ∧ ds = ys.map (fun y => |y|) := by
  induction h with
  | nil => exact ⟨[], .nil, rfl⟩
  | cons k1 _ ih =>
    obtain ⟨y, k2, rfl⟩ := k1
    obtain ⟨ys, k3, rfl⟩ := ih
    exact ⟨y :: ys, .cons k2 k3, rfl⟩

theorem finTo_fscale (hu0 : ∀ᶠ k in F, 0 ≤ u k) (hu : Tendsto u F (𝓝 0)) {x : ι → List (Option ℝ)} {v0 : List ℝ} (hx : Tends F (fun k => (x k).filterMap id) v0)
    (hne : v0 ≠ []) {s : ι → Flt} (h : ∀ᶠ k in F, FScale (u k) (x k) (s k)) : FinTo F s (scaleOf v0) := by
  have h' : ∀ᶠ k in F, ∃ t : ℝ × List ℝ × ℝ × ℝ, FMedian (u k) ((x k).filterMap id) t.1 ∧
      List.Forall₂ (Near (u k)) (((x k).filterMap id).map (fun v => v - t.1)) t.2.1 ∧ FMedian (u k) (t.2.1.map (fun y => |y|)) t.2.2.1 ∧
      Near (u k) (t.2.2.1 / 0.44845) t.2.2.2 ∧ s k = .fin t.2.2.2 := by
    filter_upwards [h, hx.1] with k g g1
    rcases g with ⟨g, -⟩ | ⟨-, med, ds, m, t, g2, g3, g4, g5, g6⟩
    · rw [g] at g1
      exact absurd (List.length_eq_zero_iff.1 g1.symm) hne
    · obtain ⟨ys, k1, k2⟩ : ∃ ys : List ℝ, List.Forall₂ (Near (u k)) (((x k).filterMap id).map (fun v => v - med)) ys ∧ ds = ys.map (fun y => |y|) := by
        exact fdeviations g3
      subst k2
      exact ⟨(med, ys, m, t), g2, k1, g4, g5, g6⟩
  obtain ⟨t, ht⟩ := eventually_choose h'
  have h1 := tendsto_fmedian hu0 hu hx hne (ht.mono fun _ h => h.1)
  have h2 := tends_near hu (hx.map (f := fun k v => v - (t k).1) (fun x0 _ x hx => hx.sub h1)) (ht.mono fun _ h => h.2.1)
  have h3 := tendsto_fmedian hu0 hu (h2.map (f := fun _ y => |y|) (f0 := fun y => |y|) (fun x0 _ x hx => hx.abs)) (by simpa using hne) (ht.mono fun _ h => h.2.2.1)
  have h4 := tendsto_near hu (h3.div_const 0.44845) (ht.mono fun _ h => h.2.2.2.1)
  refine ⟨_, ?_, ht.mono fun _ h => h.2.2.2.2⟩
  rw [List.map_map] at h4
  exact h4

/-- The absolute values of the residuals, with rounding. -/
theorem tends_sizes (hu : Tendsto u F (𝓝 0)) {r : ι → List 𝕜} {r0 : List 𝕜} (hr : Tends F r r0) {inv : List ℕ} {x : ι → List (Option ℝ)}
    (h : ∀ᶠ k in F, FVnorm (u k) (mask (r k) inv) (x k)) : Tends F (fun k => (x k).filterMap id) ((without r0 inv).map (fun x => ‖x‖)) := by
  refine tends_near hu ((hr.without inv).map (f := fun _ x => ‖x‖) (fun x0 _ x hx => hx.norm)) ?_
  filter_upwards [h] with k g
  have := fvnorm_sizes g
  rwa [sizes_mask] at this

/-- One of them. -/
theorem tendsto_size (hu : Tendsto u F (𝓝 0)) {r : ι → List 𝕜} {r0 : List 𝕜} (hr : Tends F r r0) {inv : List ℕ} {x : ι → List (Option ℝ)}
    (h : ∀ᶠ k in F, FVnorm (u k) (mask (r k) inv) (x k)) {i : ℕ} {x0 : 𝕜} (hx : r0[i]? = some x0) (hi : i ∉ inv) :
    ∃ t : ι → ℝ, Tendsto t F (𝓝 ‖x0‖) ∧ (∀ᶠ k in F, 0 ≤ t k) ∧ ∀ᶠ k in F, (x k)[i]? = some (some (t k)) := by
  have hi0 : i < r0.length := (List.getElem?_eq_some_iff.1 hx).1
  have h' : ∀ᶠ k in F, ∃ t : ℝ, Near (u k) ‖((r k)[i]?).getD x0‖ t ∧ (x k)[i]? = some (some t) := by
    filter_upwards [h, hr.1] with k g1 g2
    have hl : (x k).length = (r k).length := by rw [← g1.length_eq]; simp [mask]
    have h1 : i < (mask (r k) inv).length := by simp [mask]; omega
    have := g1.get (i := i) h1 (by omega)
    simp only [List.get_eq_getElem] at this
    have hm : (mask (r k) inv)[i] = some (r k)[i] := by
      have := mask_getElem? (r k) inv i
      rw [List.getElem?_eq_getElem h1, List.getElem?_eq_getElem (show i < (r k).length by omega)] at this
      simpa [hi] using this
    rw [hm] at this
    rcases this with ⟨g, -⟩ | ⟨y, t, g3, g4, g5⟩
    · simp at g
    · rw [Option.some.injEq] at g3
      refine ⟨t, ?_, by rw [List.getElem?_eq_getElem (by omega), g4]⟩
      rw [List.getElem?_eq_getElem (by omega), Option.getD_some, g3]
      exact g5
  obtain ⟨t, ht⟩ := eventually_choose h'
  refine ⟨t, tendsto_near hu (hr.2 i x0 hx).norm (ht.mono fun _ h => h.1), ?_, ht.mono fun _ h => h.2⟩
  filter_upwards [ht, hu.eventually_lt_const one_pos] with k g1 g2
  have := g1.1
  unfold Near at this
  rw [norm_norm, Real.norm_eq_abs] at this
  have h1 := (abs_le.1 this).1
  have h2 := norm_nonneg (((r k)[i]?).getD x0)
  nlinarith

/-- Weights which tend to given ones position by position. -/
theorem tends_positions {β : Type} {r0 : List β} {w : ι → List Flt} {inv : List ℕ} {g : β → ℝ} (hlen : ∀ᶠ k in F, (w k).length = r0.length)
    (h : ∀ i x0, r0[i]? = some x0 → i ∉ inv → FinTo F (fun k => ((w k)[i]?).getD .nan) (g x0)) :
    ∃ ws : ι → List ℝ, Tends F ws (r0.zipIdx.map (fun p => if p.2 ∈ inv then 0 else g p.1)) ∧ ∀ᶠ k in F, zeroAt (w k) inv = (ws k).map Flt.fin := by
  classical
  have hs : ∀ i : Fin r0.length, ∃ s : ι → ℝ, i.1 ∉ inv → Tendsto s F (𝓝 (g r0[i])) ∧ ∀ᶠ k in F, ((w k)[i.1]?).getD .nan = .fin (s k) := by
    intro i
    by_cases hi : i.1 ∈ inv
    · exact ⟨fun _ => 0, fun h => absurd hi h⟩
    · obtain ⟨s, h1, h2⟩ := h i _ (List.getElem?_eq_getElem i.2) hi
      exact ⟨s, fun _ => ⟨h1, h2⟩⟩
  choose s hs using hs
  refine ⟨fun k => List.ofFn (fun i : Fin r0.length => if i.1 ∈ inv then 0 else s i k), ?_, ?_⟩
  · have h0 : r0.zipIdx.map (fun p => if p.2 ∈ inv then 0 else g p.1) = List.ofFn (fun i : Fin r0.length => if i.1 ∈ inv then 0 else g r0[i]) := by
      refine List.ext_getElem (by simp) (fun i h1 h2 => by simp)
    rw [h0]
    refine ⟨.of_forall fun k => by simp, fun i x0 hx => ?_⟩
    rw [List.getElem?_ofFn] at hx
    split at hx
    · rename_i hi
      simp only [Option.some.injEq] at hx
      simp only [List.getElem?_ofFn, hi, dif_pos, Option.getD_some]
      by_cases hm : i ∈ inv
      · simp only [hm, if_true] at hx ⊢
        rw [← hx]; exact tendsto_const_nhds
      · simp only [hm, if_false] at hx ⊢
        rw [← hx]; exact (hs ⟨i, hi⟩ hm).1
    · simp at hx
  · have hall : ∀ᶠ k in F, ∀ i : Fin r0.length, i.1 ∉ inv → ((w k)[i.1]?).getD .nan = .fin (s i k) := by
      refine eventually_all.2 (fun i => ?_)
      by_cases hi : i.1 ∈ inv
      · exact .of_forall fun k h => absurd hi h
      · exact (hs i hi).2.mono fun k h _ => h
    filter_upwards [hall, hlen] with k g1 g2
    refine List.ext_getElem? (fun i => ?_)
    rw [zeroAt_getElem?, List.getElem?_map, List.getElem?_ofFn]
    by_cases hi : i < r0.length
    · rw [dif_pos hi, List.getElem?_eq_getElem (by omega)]
      by_cases hm : i ∈ inv
      · simp [hm]
      · have := g1 ⟨i, hi⟩ hm
        rw [List.getElem?_eq_getElem (by omega)] at this
        simpa [hm] using this
    · rw [dif_neg hi, List.getElem?_eq_none (by omega)]
      rfl

/-- Huber's quotient: where the residual tends to zero the weight is one in the end, be it by a quotient above one or by an infinity. -/
theorem finTo_huber (hu0 : ∀ᶠ k in F, 0 ≤ u k) (hu : Tendsto u F (𝓝 0)) {p : ι → Flt} {c : ℝ} (hc : 0 < c) (hp : FinTo F p c) {t : ι → ℝ} {x0 : ℝ} (hx0 : 0 ≤ x0)
    (ht : Tendsto t F (𝓝 x0)) (ht0 : ∀ᶠ k in F, 0 ≤ t k) {w : ι → Flt}
    (h : ∀ᶠ k in F, ∃ y, NearWeight (u k) (Flt.div (p k) (.fin (t k))) y ∧ w k = Flt.min1 y) : FinTo F w (c / max c x0) := by
  haveI : Nonempty Flt := ⟨.nan⟩
  obtain ⟨y, hy⟩ := eventually_choose h
  rcases hx0.eq_or_lt with h0 | h0
  · refine ⟨fun _ => 1, ?_, ?_⟩
    · rw [← h0, max_eq_left hc.le, div_self hc.ne']
      exact tendsto_const_nhds
    · obtain ⟨s, hs, hps⟩ := hp
      filter_upwards [hy, hps, ht0, hs.eventually_const_lt (show c / 2 < c by linarith), ht.eventually_lt_const (show x0 < c / 4 by linarith),
        hu.eventually_lt_const (show (0 : ℝ) < 1 / 2 by norm_num), hu0] with k g1 g2 g3 g4 g5 g6 g7
      rw [g1.2]
      have hn := g1.1
      rw [g2] at hn
      by_cases hz : t k = 0
      · simp only [Flt.div, hz, if_true, if_neg (show s k ≠ 0 by linarith), if_pos (show 0 < s k by linarith)] at hn
        rcases hn with hn | ⟨a, b, hn, -⟩
        · rw [← hn]; rfl
        · simp at hn
      · simp only [Flt.div, hz, if_false] at hn
        have htp : 0 < t k := lt_of_le_of_ne g3 (Ne.symm hz)
        have hbig : 2 ≤ s k / t k := by rw [le_div_iff₀ htp]; linarith
        rcases hn with hn | ⟨a, b, hn, hb, hnear⟩
        · rw [← hn]
          simp only [Flt.min1, Flt.fin.injEq]
          exact min_eq_left (by linarith)
        · rw [Flt.fin.injEq] at hn
          rw [hb]
          simp only [Flt.min1, Flt.fin.injEq]
          refine min_eq_left ?_
          unfold Near at hnear
          rw [← hn, Real.norm_eq_abs, Real.norm_eq_abs, abs_of_nonneg (by linarith : 0 ≤ s k / t k)] at hnear
          have := (abs_le.1 hnear).1
          nlinarith
  · have h1 : FinTo F y (c / x0) := (hp.div (.of ht) h0.ne').near hu0 hu (hy.mono fun _ h => h.1)
    obtain ⟨s, hs, hys⟩ := h1
    have h2 : min 1 (c / x0) = c / max c x0 := by
      rcases le_total c x0 with h1 | h1
      · rw [max_eq_right h1, min_eq_right ((div_le_one h0).2 h1)]
      · rw [max_eq_left h1, div_self hc.ne', min_eq_left ((one_le_div h0).2 h1)]
    refine ⟨fun k => min 1 (s k), h2 ▸ tendsto_const_nhds.min hs, ?_⟩
    filter_upwards [hy, hys] with k g1 g2
    rw [g1.2, g2]; rfl

theorem length_fvnorm {v : ℝ} {r : List 𝕜} {inv : List ℕ} {x : List (Option ℝ)} (h : FVnorm v (mask r inv) x) : x.length = r.length := by
  rw [← List.Forall₂.length_eq h]; simp [mask]

/-- C129: Huber weights with rounding. -/
theorem fstable_huber (hq : 0 < q) (hu0 : ∀ᶠ k in F, 0 ≤ u k) (hu : Tendsto u F (𝓝 0)) {alpha : ℝ} (ha : 0 < alpha) :
    FStable F u (⟨huber alpha, fun v => FHuber v alpha⟩ : FW σ 𝕜 q) := by
  refine ⟨fun _ _ => True, ?_⟩
  intro e e0 b b0 hb hl r z0 hr it inv eps st st0 p0 _ hp raw st1 hfl
  have hr0 : (resid e0 b0 z0).length = e0.length := length_resid hl z0
  obtain ⟨i, x, a, hx, hi, hw, ha0⟩ := IsPass.weight_ne hq hr0 hp (w0 := (vnorm (mask (resid e0 b0 z0) inv)).map (fun v => Flt.min1 (Flt.div (Flt.mul (.fin alpha)
    (flt (madScaleAbs (vnorm (mask (resid e0 b0 z0) inv))))) (flt v)))) rfl
  have hne := scale_pos hx hi
  have hsc := madScale_mask hne
  have hpos : 0 < scaleOf ((without (resid e0 b0 z0) inv).map (fun x => ‖x‖)) := by
    refine lt_of_le_of_ne (scaleOf_nonneg hne) (fun h => ?_)
    rw [hsc, ← h] at hw
    simp only [vnorm, List.getElem?_map, mask_getElem?, hx, hi, Option.map_some, if_false, flt, Flt.mul, mul_zero, Flt.div, if_true, Option.some.injEq] at hw
    split at hw
    · simp [Flt.min1] at hw
    · simp [Flt.min1] at hw
      exact ha0 hw.symm
  have h' : ∀ᶠ k in F, ∃ v : List (Option ℝ) × Flt × Flt × List Flt, FVnorm (u k) (mask (r k) inv) v.1 ∧ FScale (u k) v.1 v.2.1 ∧
      NearWeight (u k) (Flt.mul (.fin alpha) v.2.1) v.2.2.1 ∧
      List.Forall₂ (fun x y => ∃ t, NearWeight (u k) (Flt.div v.2.2.1 (flt x)) t ∧ y = Flt.min1 t) v.1 v.2.2.2 ∧ raw k = some v.2.2.2 ∧ st1 k = st k := by
    filter_upwards [hfl] with k g
    obtain ⟨x, s, p, w, g⟩ := g
    exact ⟨(x, s, p, w), g⟩
  haveI : Nonempty Flt := ⟨.nan⟩
  obtain ⟨v, hv⟩ := eventually_choose h'
  have hvn : ∀ᶠ k in F, FVnorm (u k) (mask (r k) inv) (v k).1 := hv.mono fun _ h => h.1
  have h1 := finTo_fscale hu0 hu (tends_sizes hu hr hvn) hne (hv.mono fun _ h => h.2.1)
  generalize hs0 : scaleOf ((without (resid e0 b0 z0) inv).map (fun x => ‖x‖)) = s0 at *
  have h2 : FinTo F (fun k => (v k).2.2.1) (alpha * s0) := ((FinTo.of tendsto_const_nhds).mul h1).near hu0 hu (hv.mono fun _ h => h.2.2.1)
  obtain ⟨ws, h3, h4⟩ := tends_positions (F := F) (r0 := resid e0 b0 z0) (w := fun k => (v k).2.2.2) (inv := inv) (g := fun x => (alpha * s0) / max (alpha * s0) ‖x‖)
    (by
      filter_upwards [hv, hr.1] with k g1 g2
      rw [← g1.2.2.2.1.length_eq, length_fvnorm g1.1, g2]) (by
      intro i x0 hx hi
      obtain ⟨t, ht, ht0, hti⟩ := tendsto_size hu hr hvn hx hi
      refine finTo_huber hu0 hu (by positivity) h2 (norm_nonneg _) ht ht0 ?_
      filter_upwards [hv, hti] with k g1 g2
      have hi1 : i < (v k).1.length := (List.getElem?_eq_some_iff.1 g2).1
      have hi2 : i < (v k).2.2.2.length := by rw [← g1.2.2.2.1.length_eq]; exact hi1
      have := g1.2.2.2.1.get hi1 hi2
      simp only [List.get_eq_getElem] at this
      rw [(List.getElem?_eq_some_iff.1 g2).2] at this
      rw [List.getElem?_eq_getElem hi2]
      exact this)
  refine ⟨ws, _, st, h3, by simp [hr0], ?_, trivial, ?_⟩
  · obtain ⟨h1, h2⟩ := (isPass_iff hl hr0).1 hp
    unfold evalWeight at h1
    rw [if_neg (by simp only [List.any_eq_true, decide_eq_true_eq, not_exists, not_and, not_le, hr0]; exact hp.inside)] at h1
    simp only [huber, hsc, List.length_map] at h1
    split at h1
    · simp at h1
    simp only [Prod.mk.injEq, Except.ok.injEq] at h1
    rw [← h1.1.1]
    congr 1
    exact zeroAt_weights (f := fun v => Flt.min1 (Flt.div (Flt.mul (.fin alpha) (flt (some s0))) (flt v))) (g := fun x => (alpha * s0) / max (alpha * s0) x)
      (fun x hx => huber_quotient (by positivity) hx) _ inv
  · filter_upwards [hv, h4] with k g1 g2
    exact ⟨g1.2.2.2.2.2, _, g1.2.2.2.2.1, g2⟩

theorem tendsto_fxi (hu : Tendsto u F (𝓝 0)) {xi : Option ℝ} {n : ι → ℕ} {n0 : ℕ} (hn : ∀ᶠ k in F, n k = n0) {a : ι → ℝ}
    (h : ∀ᶠ k in F, FXi (u k) xi (n k) (a k)) : Tendsto a F (𝓝 (thomsonXi xi n0)) := by
  cases xi with
  | some xi =>
    refine tendsto_const_nhds.congr' ?_
    filter_upwards [h] with k g
    exact g.symm
  | none =>
    have h' : ∀ᶠ k in F, ∃ t : ℝ × ℝ, Near (u k) (Real.log (2 * n0)) t.1 ∧ Near (u k) (2 * t.1) t.2 ∧ Near (u k) (Real.sqrt t.2) (a k) := by
      filter_upwards [h, hn] with k g g1
      obtain ⟨l, p, g⟩ := g
      rw [g1] at g
      exact ⟨(l, p), g⟩
    obtain ⟨t, ht⟩ := eventually_choose h'
    have h1 := tendsto_near hu tendsto_const_nhds (ht.mono fun _ h => h.1)
    have h2 := tendsto_near hu (h1.const_mul 2) (ht.mono fun _ h => h.2.1)
    exact tendsto_near hu ((Real.continuous_sqrt.tendsto _).comp h2) (ht.mono fun _ h => h.2.2)

/-- C129: Thomson weights with rounding; the scale remembered is a rounded one. -/
theorem fstable_thomson (hq : 0 < q) (hu0 : ∀ᶠ k in F, 0 ≤ u k) (hu : Tendsto u F (𝓝 0)) {xi : Option ℝ} (hxi : ∀ x, xi = some x → 0 < x) :
    FStable F u (⟨thomson xi, fun v => FThomson v xi⟩ : FW (Option Flt) 𝕜 q) := by
  refine ⟨fun st st0 => ∃ (s : ι → Flt) (s0 : ℝ), 0 < s0 ∧ FinTo F s s0 ∧ st0 = some (.fin s0) ∧ ∀ᶠ k in F, st k = some (s k), ?_⟩
  intro e e0 b b0 hb hl r z0 hr it inv eps st st0 p0 hst hp raw st1 hfl
  replace hp : IsPass (thomson xi) e0 b0 eps it (resid e0 b0 z0) inv st0 p0 := hp
  have hr0 : (resid e0 b0 z0).length = e0.length := length_resid hl z0
  have hlen0 : (mask (resid e0 b0 z0) inv).length = e0.length := by simp [mask, hr0]
  have hlen : ∀ᶠ k in F, (mask (r k) inv).length = e0.length := by
    filter_upwards [hr.1] with k h
    rw [← hr0, ← h]; simp [mask]
  have h' : ∀ᶠ k in F, ∃ v : List (Option ℝ) × ℝ × Flt × List Flt, FVnorm (u k) (mask (r k) inv) v.1 ∧ FXi (u k) xi (mask (r k) inv).length v.2.1 ∧
      ((it = 0 ∧ FScale (u k) v.1 v.2.2.1) ∨ (it ≠ 0 ∧ st k = some v.2.2.1)) ∧
      List.Forall₂ (fun x y => ∃ t, NearWeight (u k) (Flt.div (flt x) v.2.2.1) t ∧ FExpexp (u k) t v.2.1 y) v.1 v.2.2.2 ∧ raw k = some v.2.2.2 ∧
      st1 k = some v.2.2.1 := by
    filter_upwards [hfl] with k g
    obtain ⟨x, a, s, w, g⟩ := g
    exact ⟨(x, a, s, w), g⟩
  haveI : Nonempty Flt := ⟨.nan⟩
  obtain ⟨v, hv⟩ := eventually_choose h'
  have hvn : ∀ᶠ k in F, FVnorm (u k) (mask (r k) inv) (v k).1 := hv.mono fun _ h => h.1
  have hxi' := tendsto_fxi hu hlen (hv.mono fun _ h => h.2.1)
  -- the scale in use
  obtain ⟨s0, hpos, hs, hcall0⟩ : ∃ s0 : ℝ, 0 < s0 ∧ FinTo F (fun k => (v k).2.2.1) s0 ∧
      thomson xi st0 it (mask (resid e0 b0 z0) inv) e0 b0 inv =
        (.ok (some ((vnorm (mask (resid e0 b0 z0) inv)).map (fun v => expexp (Flt.div (flt v) (.fin s0)) (thomsonXi xi e0.length)))), some (.fin s0)) := by
    by_cases hit : it = 0
    · subst hit
      obtain ⟨-, s0, hsc, hpos⟩ := C100_scale xi hxi hq e0 b0 hl eps z0 inv st0 p0 hp
      have hne : (without (resid e0 b0 z0) inv).map (fun x => ‖x‖) ≠ [] := by
        obtain ⟨med, dev, hm, -⟩ := hsc
        exact isMedian_ne_nil hm
      have hs0 : scaleOf ((without (resid e0 b0 z0) inv).map (fun x => ‖x‖)) = s0 := by
        have h3 := madScale_mask hne
        have h4 := madScale_some.2 (by rw [sizes_mask]; exact hsc : IsScale (sizes (mask (resid e0 b0 z0) inv)) s0)
        rw [h3] at h4
        simpa using h4
      refine ⟨s0, hpos, hs0 ▸ finTo_fscale hu0 hu (tends_sizes hu hr hvn) hne ?_, ?_⟩
      · filter_upwards [hv] with k g
        rcases g.2.2.1 with ⟨-, g⟩ | ⟨g, -⟩
        · exact g
        · exact absurd rfl g
      · simp only [thomson, if_true, hlen0, madScale_mask hne, hs0, flt]
    · obtain ⟨s, s0, hpos, hs, h0, hk⟩ := hst.resolve_left hit
      refine ⟨s0, hpos, hs.congr ?_, ?_⟩
      · filter_upwards [hk, hv] with k h3 h4
        rcases h4.2.2.1 with ⟨g, -⟩ | ⟨-, g⟩
        · exact absurd g hit
        · rw [h3] at g
          simpa using g
      · simp only [thomson, hit, if_false, hlen0, h0]
  have hval : ∀ x : ℝ, 0 ≤ x → expexp (Flt.div (flt (some x)) (.fin s0)) (thomsonXi xi e0.length) =
      .fin (thomsonWeight s0 (thomsonXi xi e0.length) x) := by
    intro x _
    simp only [flt, Flt.div, hpos.ne', if_false, expexp_fin, thomsonWeight]
  obtain ⟨ws, h3, h4⟩ := tends_positions (F := F) (r0 := resid e0 b0 z0) (w := fun k => (v k).2.2.2) (inv := inv)
    (g := fun x => thomsonWeight s0 (thomsonXi xi e0.length) ‖x‖)
    (by
      filter_upwards [hv, hr.1] with k g1 g2
      rw [← g1.2.2.2.1.length_eq, length_fvnorm g1.1, g2]) (by
      intro i x0 hx hi
      obtain ⟨t, ht, ht0, hti⟩ := tendsto_size hu hr hvn hx hi
      have hy : ∀ᶠ k in F, ∃ y, NearWeight (u k) (Flt.div (.fin (t k)) (v k).2.2.1) y ∧ FExpexp (u k) y (v k).2.1 (((v k).2.2.2[i]?).getD .nan) := by
        filter_upwards [hv, hti] with k g1 g2
        have hi1 : i < (v k).1.length := (List.getElem?_eq_some_iff.1 g2).1
        have hi2 : i < (v k).2.2.2.length := by rw [← g1.2.2.2.1.length_eq]; exact hi1
        have := g1.2.2.2.1.get hi1 hi2
        simp only [List.get_eq_getElem] at this
        rw [(List.getElem?_eq_some_iff.1 g2).2] at this
        rw [List.getElem?_eq_getElem hi2]
        exact this
      obtain ⟨y, hy⟩ := eventually_choose hy
      exact finTo_fexpexp hu0 hu (((FinTo.of ht).div hs hpos.ne').near hu0 hu (hy.mono fun _ h => h.1)) hxi' (hy.mono fun _ h => h.2))
  obtain ⟨h1, h2⟩ := (isPass_iff hl hr0).1 hp
  unfold evalWeight at h1
  rw [if_neg (by simp only [List.any_eq_true, decide_eq_true_eq, not_exists, not_and, not_le, hr0]; exact hp.inside), hcall0] at h1
  simp only at h1
  split at h1
  · simp at h1
  simp only [Prod.mk.injEq, Except.ok.injEq] at h1
  refine ⟨ws, _, fun k => some (v k).2.2.1, h3, by simp [hr0], ?_, ⟨_, s0, hpos, hs, h1.2.symm, .of_forall (fun _ => rfl)⟩, ?_⟩
  · rw [← h1.1.1]
    congr 1
    exact zeroAt_weights (f := fun v => expexp (Flt.div (flt v) (.fin s0)) (thomsonXi xi e0.length)) hval _ inv
  · filter_upwards [hv, h4] with k g1 g2
    exact ⟨g1.2.2.2.2.2, _, g1.2.2.2.2.1, g2⟩

theorem ignores_base (w : Base) : IgnoresData (w.call : WFun (Option Flt) 𝕜 q) := by
  intro st it r e e' b inv
  cases w <;> rfl

theorem ignores_obj (w : Obj) : IgnoresData (w.call : WFun Mem 𝕜 q) := by
  intro st it r e e' b inv
  cases w with
  | base w => simp only [Obj.call, ignores_base w _ _ _ e e']
  | bis w lower khi => simp only [Obj.call, bis, ignores_base w _ _ _ e e']

theorem fstable_base (hq : 0 < q) (hu0 : ∀ᶠ k in F, 0 ≤ u k) (hu : Tendsto u F (𝓝 0)) {w : Base} (hw : Usual w) :
    FStable F u (⟨w.call, fun v => FBase v w⟩ : FW (Option Flt) 𝕜 q) := by
  cases w with
  | huber alpha => exact fstable_huber hq hu0 hu hw
  | thomson xi => exact fstable_thomson hq hu0 hu hw

end Razorback.Props
