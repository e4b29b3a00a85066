/-
The filter by coefficients of determination in floating point arithmetic (C129).
-/
import Verif.Props.StableRound
import Verif.Props.StableImp
import Verif.Props.RoundExact
import Verif.Spec.RoundStage

namespace Razorback.Props
open Razorback Razorback.Spec Razorback.MEst Razorback.Prefilter Razorback.Impedance Razorback.Approx Filter Topology

variable {𝕜 : Type} [RCLike 𝕜] {q : ℕ} {ι : Type} {F : Filter ι} {u : ι → ℝ}

/-- What holds in the end of every choice holds in the end of all values. -/
theorem eventually_forall {β : Type*} {P Q : ι → β → Prop}
    (h : ∀ G ≤ F, ∀ f : ι → β, (∀ᶠ k in G, P k (f k)) → ∀ᶠ k in G, Q k (f k)) : ∀ᶠ k in F, ∀ y, P k y → Q k y := by
  classical
  by_cases hn : Nonempty β
  · have h1 : ∀ᶠ k in F ⊓ 𝓟 {k | ¬ ∀ y, P k y → Q k y}, ∃ y, P k y ∧ ¬ Q k y := by
      filter_upwards [mem_inf_of_right (mem_principal_self _)] with k hk
      simpa using hk
    obtain ⟨f, hf⟩ := eventually_choose h1
    have h2 := h _ inf_le_left f (hf.mono fun _ h => h.1)
    have h3 : ∀ᶠ k in F ⊓ 𝓟 {k | ¬ ∀ y, P k y → Q k y}, False := by
      filter_upwards [hf, h2] with k a1 a2
      exact a1.2 a2
    rw [eventually_inf_principal] at h3
    filter_upwards [h3] with k hk
    by_contra hc
    exact hk hc
  · exact .of_forall (fun k y => absurd ⟨y⟩ hn)

theorem Tends.mono {β : Type} [TopologicalSpace β] {l : ι → List β} {l0 : List β} (h : Tends F l l0) {G : Filter ι} (hG : G ≤ F) : Tends G l l0 :=
  ⟨h.1.filter_mono hG, fun i x0 hx => (h.2 i x0 hx).mono_left hG⟩

theorem fnorm2_nonneg {v : ℝ} (hv : v ≤ 1) {x : List 𝕜} {s : ℝ} (h : FNorm2 v x s) : 0 ≤ s := by
  obtain ⟨l, h1, h2⟩ := h
  refine fsum_nonneg hv h2 (fun n hn => ?_)
  obtain ⟨i, hi, rfl⟩ := List.mem_iff_getElem.1 hn
  obtain ⟨a, -, ha⟩ := h1.get (by rw [h1.length_eq]; exact hi) hi
  exact near_nonneg hv (sq_nonneg a) ha

theorem tendsto_fnorm2 (hu0 : ∀ᶠ k in F, 0 ≤ u k) (hu : Tendsto u F (𝓝 0)) {x : ι → List 𝕜} {x0 : List 𝕜} (hx : Tends F x x0) {s : ι → ℝ}
    (h : ∀ᶠ k in F, FNorm2 (u k) (x k) (s k)) : Tendsto s F (𝓝 (x0.map (fun v => ‖v‖ ^ 2)).sum) := by
  have split : ∀ (v : ℝ) (arr : List 𝕜) (l : List ℝ), List.Forall₂ (fun x n => ∃ a, Approx.Near v ‖x‖ a ∧ Approx.Near v (a ^ 2) n) arr l →
      ∃ as : List ℝ, List.Forall₂ (Approx.Near v) (arr.map (fun x => ‖x‖)) as ∧ List.Forall₂ (Approx.Near v) (as.map (fun a => a ^ 2)) l := by
    intro v arr l h
    induction h with
    | nil => exact ⟨[], .nil, .nil⟩
    | cons h _ ih =>
      obtain ⟨a, h1, h2⟩ := h
      obtain ⟨as, h3, h4⟩ := ih
      exact ⟨a :: as, .cons h1 h3, .cons h2 h4⟩
  have h' : ∀ᶠ k in F, ∃ t : List ℝ × List ℝ, List.Forall₂ (Approx.Near (u k)) ((x k).map (fun x => ‖x‖)) t.1 ∧
      List.Forall₂ (Approx.Near (u k)) (t.1.map (fun a => a ^ 2)) t.2 ∧ FSum (u k) t.2 (s k) := by
    filter_upwards [h] with k hk
    obtain ⟨l, h1, h2⟩ := hk
    obtain ⟨as, h3, h4⟩ := split _ _ _ h1
    exact ⟨(as, l), h3, h4, h2⟩
  obtain ⟨t, ht⟩ := eventually_choose h'
  have h1 : Tends F (fun k => (t k).1) (x0.map (fun x => ‖x‖)) :=
    tends_near hu (hx.map (f := fun _ x => ‖x‖) (f0 := fun x => ‖x‖) (fun _ _ _ h => h.norm)) (ht.mono fun _ h => h.1)
  have h2 : Tends F (fun k => (t k).2) ((x0.map (fun x => ‖x‖)).map (fun a => a ^ 2)) :=
    tends_near hu (h1.map (f := fun _ a => a ^ 2) (f0 := fun a => a ^ 2) (fun _ _ _ h => h.pow 2)) (ht.mono fun _ h => h.2.1)
  have := tendsto_fsum hu0 hu h2 (ht.mono fun _ h => h.2.2)
  simpa [List.map_map, Function.comp_def] using this

theorem tendsto_froot (hu0 : ∀ᶠ k in F, 0 ≤ u k) (hu : Tendsto u F (𝓝 0)) {a b : ι → ℝ} {a0 b0 : ℝ} (ha : Tendsto a F (𝓝 a0)) (hb : Tendsto b F (𝓝 b0))
    (hb0 : b0 ≠ 0) (hpa : ∀ᶠ k in F, 0 ≤ a k) (hpb : ∀ᶠ k in F, 0 ≤ b k) {v : ι → Flt} (h : ∀ᶠ k in F, FRoot (u k) (a k) (b k) (v k)) :
    ∃ s : ι → ℝ, Tendsto s F (𝓝 (Real.sqrt (1 - a0 / b0))) ∧
      ∀ᶠ k in F, (v k = .fin (s k) ∧ 0 ≤ s k ∧ s k ≤ 1) ∨ (v k = .nan ∧ ¬ 0 < 1 - a0 / b0) := by
  have hu1 : ∀ᶠ k in F, u k ≤ 1 := hu.eventually_le_const one_pos
  have h' : ∀ᶠ k in F, ∃ t : ℝ × ℝ × ℝ, Approx.Near (u k) (a k / b k) t.1 ∧ Approx.Near (u k) (1 - t.1) t.2.1 ∧ Approx.Near (u k) (Real.sqrt t.2.1) t.2.2 ∧
      ((t.2.1 < 0 ∧ v k = .nan) ∨ (v k = .fin t.2.2 ∧ 0 ≤ t.2.2 ∧ t.2.2 ≤ 1)) := by
    filter_upwards [h, hb.eventually_ne hb0, hu0, hpa, hpb, hu1] with k h1 h2 h3 h4 h5 h6
    rcases h1 with ⟨h1, -⟩ | ⟨-, t, d, g1, g2, g3, g4⟩
    · exact absurd h1 h2
    have ht := near_nonneg h6 (div_nonneg h4 h5) g1
    rcases g4 with ⟨g4, g5⟩ | ⟨g4, s, g5, g6, g7, g8⟩
    · exact ⟨(t, d, Real.sqrt d), g1, g2, Approx.Near.refl h3 _, .inl ⟨g4, g5⟩⟩
    · exact ⟨(t, d, s), g1, g2, g5, .inr ⟨g8, g6, g7 (g3 ht)⟩⟩
  obtain ⟨t, ht⟩ := eventually_choose h'
  have h1 : Tendsto (fun k => (t k).1) F (𝓝 (a0 / b0)) := tendsto_near hu (ha.div hb hb0) (ht.mono fun _ h => h.1)
  have h2 : Tendsto (fun k => (t k).2.1) F (𝓝 (1 - a0 / b0)) := tendsto_near hu (tendsto_const_nhds.sub h1) (ht.mono fun _ h => h.2.1)
  refine ⟨fun k => (t k).2.2, tendsto_near hu h2.sqrt (ht.mono fun _ h => h.2.2.1), ?_⟩
  by_cases hp : 0 < 1 - a0 / b0
  · filter_upwards [ht, h2.eventually_const_lt hp] with k hk hlt
    rcases hk.2.2.2 with ⟨h3, -⟩ | h3
    · exact absurd h3 (not_lt.2 hlt.le)
    · exact .inl h3
  · filter_upwards [ht] with k hk
    rcases hk.2.2.2 with ⟨-, h3⟩ | h3
    · exact .inr ⟨h3, hp⟩
    · exact .inl h3

open scoped Matrix in
/-- The coefficient of determination of a block whose inputs are independent. -/
theorem cod_eq {x : List 𝕜} {y : List (Fin q → 𝕜)} (hl : x.length = y.length) {v : Flt} (h : coeffDetermination x y = .ok v) :
    (gram y none).det ≠ 0 ∧ v = Prefilter.sqrt (Flt.sub (.fin 1) (Flt.div (.fin ((resid x y ((gram y none)⁻¹ *ᵥ rhs x y none)).map (fun v => ‖v‖ ^ 2)).sum)
      (.fin (x.map (fun v => ‖v‖ ^ 2)).sum))) := by
  unfold coeffDetermination at h
  simp only [gram_none] at h
  split at h
  · simp at h
  rename_i hd
  simp only [Except.ok.injEq] at h
  refine ⟨hd, ?_⟩
  rw [← h, ← cost_resid x y hl, ← cost_ones x y hl]
  rfl

theorem cod_number {x : List 𝕜} {y : List (Fin q → 𝕜)} (hl : x.length = y.length) {v : ℝ} (h : coeffDetermination x y = .ok (.fin v)) :
    (x.map (fun v => ‖v‖ ^ 2)).sum ≠ 0 ∧
      v = Real.sqrt (1 - ((resid x y (((gram y none)⁻¹).mulVec (rhs x y none))).map (fun v => ‖v‖ ^ 2)).sum / (x.map (fun v => ‖v‖ ^ 2)).sum) := by
  have h1 := (cod_eq hl h).2
  by_cases h0 : (x.map (fun v => ‖v‖ ^ 2)).sum = 0
  · rw [h0] at h1
    exfalso
    revert h1
    simp only [Flt.div, if_true]
    split_ifs <;> simp [Flt.sub, Flt.add, Flt.neg, Prefilter.sqrt]
  refine ⟨h0, ?_⟩
  simp only [Flt.div, if_neg h0, Flt.sub, Flt.add, Flt.neg, Prefilter.sqrt, ← sub_eq_add_neg] at h1
  split_ifs at h1
  simpa using h1

/-- A coefficient of determination which is a number, in floating point arithmetic. -/
theorem tendsto_fcod {c : ℝ} (hu0 : ∀ᶠ k in F, 0 ≤ u k) (hu : Tendsto u F (𝓝 0)) {x : ι → List 𝕜} {x0 : List 𝕜} (hx : Tends F x x0)
    {y : ι → List (Fin q → 𝕜)} {y0 : List (Fin q → 𝕜)} (hy : Tends F y y0) (hl : x0.length = y0.length) {v0 : ℝ}
    (h : coeffDetermination x0 y0 = .ok (.fin v0)) {v : ι → Flt} (hF : ∀ᶠ k in F, FCod (u k) c (x k) (y k) (v k)) :
    ∃ s : ι → ℝ, Tendsto s F (𝓝 v0) ∧ ∀ᶠ k in F, (v k = .fin (s k) ∧ 0 ≤ s k ∧ s k ≤ 1) ∨ (v k = .nan ∧ v0 = 0) := by
  have h' : ∀ᶠ k in F, ∃ t : (Fin q → 𝕜) × List 𝕜 × ℝ × ℝ, FWlse (u k) c (x k) (y k) none t.1 ∧ FResid (u k) (x k) (y k) t.1 t.2.1 ∧
      FNorm2 (u k) t.2.1 t.2.2.1 ∧ FNorm2 (u k) (x k) t.2.2.2 ∧ FRoot (u k) t.2.2.1 t.2.2.2 (v k) := by
    filter_upwards [hF] with k hk
    obtain ⟨z, r, a, b, h1, h2, h3, h4, h5⟩ := hk
    refine ⟨(z, r.map (fun w => -w), a, b), h1, ⟨h1.1, ?_⟩, ?_, h4, h5⟩
    · rw [List.forall₂_map_right_iff]
      refine h2.imp (fun p w ⟨d, g1, g2⟩ => ⟨d, g1, ?_⟩)
      unfold Approx.Near at g2 ⊢
      rw [show -w - (p.1 - d) = -(w - (d - p.1)) by ring, norm_neg, norm_sub_rev p.1]
      exact g2
    · obtain ⟨l, g1, g2⟩ := h3
      refine ⟨l, ?_, g2⟩
      rw [List.forall₂_map_left_iff]
      simpa only [norm_neg] using g1
  obtain ⟨t, ht⟩ := eventually_choose h'
  have hu1 : ∀ᶠ k in F, u k ≤ 1 := hu.eventually_le_const one_pos
  obtain ⟨hd, -⟩ := cod_eq hl h
  obtain ⟨hne, rfl⟩ := cod_number hl h
  have hz := tendsto_fwlse hu0 hu hx hy (w := fun _ => none) (.inl ⟨rfl, fun _ => rfl⟩) hd (ht.mono fun _ h => h.1)
  have hr := tends_fresid hu0 hu hx hy hl hz (ht.mono fun _ h => h.2.1)
  have ha := tendsto_fnorm2 hu0 hu hr (ht.mono fun _ h => h.2.2.1)
  have hb := tendsto_fnorm2 hu0 hu hx (ht.mono fun _ h => h.2.2.2.1)
  obtain ⟨s, hs, hk⟩ := tendsto_froot hu0 hu ha hb hne (by filter_upwards [ht, hu1] with k h1 h2; exact fnorm2_nonneg h2 h1.2.2.1)
    (by filter_upwards [ht, hu1] with k h1 h2; exact fnorm2_nonneg h2 h1.2.2.2.1) (ht.mono fun _ h => h.2.2.2.2)
  refine ⟨s, hs, hk.mono fun k hk => hk.imp id (fun h => ⟨h.1, Real.sqrt_eq_zero_of_nonpos (not_lt.1 h.2)⟩)⟩

/-- Whether a block is rejected is decided in the end. -/
theorem fcod_flag {c : ℝ} (hu0 : ∀ᶠ k in F, 0 ≤ u k) (hu : Tendsto u F (𝓝 0)) {x : ι → List 𝕜} {x0 : List 𝕜} (hx : Tends F x x0)
    {y : ι → List (Fin q → 𝕜)} {y0 : List (Fin q → 𝕜)} (hy : Tends F y y0) (hl : x0.length = y0.length) {v0 codMin codMax : ℝ}
    (h : coeffDetermination x0 y0 = .ok (.fin v0)) (h1 : 0 < codMin → v0 ≠ codMin) (h2 : codMax < 1 → v0 ≠ codMax) (h3 : v0 = 0 → codMin ≤ 0 ∧ 0 ≤ codMax) :
    ∀ᶠ k in F, ∀ v, FCod (u k) c (x k) (y k) v →
      (below v codMin || above v codMax) = (below (.fin v0) codMin || above (.fin v0) codMax) := by
  have h01 : 0 ≤ v0 ∧ v0 ≤ 1 := by
    obtain ⟨-, rfl⟩ := cod_number hl h
    refine ⟨Real.sqrt_nonneg _, Real.sqrt_le_one.2 ?_⟩
    have := div_nonneg (sum_sq_nonneg (resid x0 y0 (((gram y0 none)⁻¹).mulVec (rhs x0 y0 none)))) (sum_sq_nonneg x0)
    linarith
  refine eventually_forall (fun G hG v hv => ?_)
  obtain ⟨s, hs, hk⟩ := tendsto_fcod (hu0.filter_mono hG) (hu.mono_left hG) (Tends.mono hx hG) (Tends.mono hy hG) hl h hv
  have hmin : ∀ᶠ k in G, 0 ≤ s k → (s k < codMin ↔ v0 < codMin) := by
    rcases le_or_gt codMin 0 with h0 | h0
    · exact .of_forall (fun k hp => ⟨fun h => absurd h (not_lt.2 (h0.trans hp)), fun h => absurd h (not_lt.2 (h0.trans h01.1))⟩)
    rcases lt_or_gt_of_ne (h1 h0) with hlt | hgt
    · filter_upwards [hs.eventually_lt_const hlt] with k hk _
      exact ⟨fun _ => hlt, fun _ => hk⟩
    · filter_upwards [hs.eventually_const_lt hgt] with k hk _
      exact ⟨fun h => absurd h (not_lt.2 hk.le), fun h => absurd h (not_lt.2 hgt.le)⟩
  have hmax : ∀ᶠ k in G, s k ≤ 1 → (codMax < s k ↔ codMax < v0) := by
    rcases le_or_gt 1 codMax with h0 | h0
    · exact .of_forall (fun k hp => ⟨fun h => absurd h (not_lt.2 (hp.trans h0)), fun h => absurd h (not_lt.2 (h01.2.trans h0))⟩)
    rcases lt_or_gt_of_ne (h2 h0) with hlt | hgt
    · filter_upwards [hs.eventually_lt_const hlt] with k hk _
      exact ⟨fun h => absurd h (not_lt.2 hk.le), fun h => absurd h (not_lt.2 hlt.le)⟩
    · filter_upwards [hs.eventually_const_lt hgt] with k hk _
      exact ⟨fun _ => hgt, fun _ => hk⟩
  filter_upwards [hk, hmin, hmax] with k h4 h5 h6
  rcases h4 with ⟨h4, h7, h8⟩ | ⟨h4, h7⟩
  · rw [h4]
    simp only [below, above, h5 h7, h6 h8]
  · obtain ⟨h8, h9⟩ := h3 h7
    rw [h4, h7]
    simp [below, above, not_lt.2 h8, not_lt.2 h9]

/-- What `value` may give on a cut. -/
theorem fvalue_cut {v c : ℝ} {size : ℕ} {e : List 𝕜} {b : List (Fin q → 𝕜)} {ts : List (Block 𝕜 q)} (hs : 0 < size) (hc : Cut size e b ts) {vs : List Flt} :
    FValue v c size e b vs ↔ ∃ cs, List.Forall₂ (fun t : Block 𝕜 q => FCod v c t.x t.y) ts cs ∧
      vs = (ts.zip cs).flatMap (fun p => List.replicate p.1.x.length p.2) := by
  obtain ⟨he, hb, ha, hr, t, ht, hl, hl'⟩ := hc
  have hts : ts = ts.dropLast ++ [t] := by
    have hne : ts ≠ [] := by rintro rfl; simp at ht
    have := List.dropLast_append_getLast hne
    rw [List.getLast?_eq_some_getLast hne] at ht
    rw [← Option.some.inj ht, this]
  set init := ts.dropLast with hinit
  have hai : ∀ u ∈ init, u.y.length = size := by
    intro u hu
    rw [← ha u (by rw [hts]; simp [hu]), hr u hu]
  have hat : t.x.length = t.y.length := ha t (by rw [hts]; simp)
  have hone : t.x.length < size → init = [] := by
    intro h
    have := hl' h
    rw [hts] at this
    simpa using this
  have e1 : e = init.flatMap (·.x) ++ t.x := by rw [he, hts]; simp
  have b1 : b = init.flatMap (·.y) ++ t.y := by rw [hb, hts]; simp
  have hE := breshape_cut (·.x) size init hr t.x hl hone
  have hB := breshape_cut (·.y) size init hai t.y (by omega) (by rw [← hat]; exact hone)
  rw [← e1] at hE
  rw [← b1] at hB
  have hlen : e.length = b.length := by
    rw [e1, b1, List.length_append, List.length_append, length_flatMap_const _ _ _ hr, length_flatMap_const _ _ _ hai, hat]
  have hlen2 : e.length = init.length * size + t.x.length := by
    conv_lhs => rw [e1]
    rw [List.length_append, length_flatMap_const _ _ _ hr]
  have hBl := hB.2.2.1
  rw [← hlen] at hBl
  have hz : ∀ tmp : List Flt, List.Forall₂ (fun p : List 𝕜 × List (Fin q → 𝕜) => FCod v c p.1 p.2) ((init.map (·.x)).zip (init.map (·.y))) tmp ↔
      List.Forall₂ (fun t : Block 𝕜 q => FCod v c t.x t.y) init tmp := by
    intro tmp
    rw [List.zip_map', List.forall₂_map_left_iff]
  have hval : ∀ (tmp : List Flt) w, tmp.length = init.length →
      (let cod := tmp.flatMap (fun v => List.replicate size v) ++ (List.replicate e.length (Flt.fin 0)).drop (tmp.length * size)
      cod.take (cod.length - (size + e.length % size)) ++ List.replicate (lastN (size + e.length % size) cod).length w) =
      ((init ++ [t]).zip (tmp ++ [w])).flatMap (fun p => List.replicate p.1.x.length p.2) := by
    intro tmp w htl
    have hfl : (tmp.flatMap (fun v => List.replicate size v)).length = init.length * size := by
      rw [length_flatMap_const _ size _ (by simp), htl]
    have hcl : (tmp.flatMap (fun v => List.replicate size v) ++ (List.replicate e.length (Flt.fin 0)).drop (tmp.length * size)).length
        = e.length := by
      rw [List.length_append, hfl, List.length_drop, List.length_replicate, htl, hlen2]
      omega
    simp only [lastN, List.length_drop]
    rw [hcl, hE.2.2.2, ← hfl, List.take_left, hfl, List.zip_append htl.symm, List.flatMap_append]
    have h1 : tmp.flatMap (fun v => List.replicate size v) = (init.zip tmp).flatMap (fun p => List.replicate p.1.x.length p.2) := by
      clear hcl hfl hz hE hB hBl hlen2 e1 b1 hone hai hinit hts
      clear_value init
      induction init generalizing tmp with
      | nil => obtain rfl := List.length_eq_zero_iff.1 htl; rfl
      | cons a l ih =>
        cases tmp with
        | nil => simp at htl
        | cons w tmp =>
          simp only [List.flatMap_cons, List.zip_cons_cons, hr a (by simp)]
          rw [ih (fun t ht => hr t (by simp [ht])) tmp (by simpa using htl)]
    rw [h1]
    congr 1
    simp only [List.zip_cons_cons, List.zip_nil_right, List.flatMap_cons, List.flatMap_nil, List.append_nil]
    congr 1
    omega
  unfold FValue
  rw [hE.1, hB.1, hE.2.2.1, hBl, hts]
  constructor
  · rintro ⟨-, -, tmp, w, h1, h2, h3⟩
    rw [hz] at h1
    refine ⟨tmp ++ [w], List.rel_append h1 (.cons h2 .nil), ?_⟩
    rw [h3, hval tmp w h1.length_eq.symm]
  · rintro ⟨cs, h1, h2⟩
    obtain ⟨tmp, l2, h3, h4, rfl⟩ : ∃ a b, List.Forall₂ (fun t : Block 𝕜 q => FCod v c t.x t.y) init a ∧
        List.Forall₂ (fun t : Block 𝕜 q => FCod v c t.x t.y) [t] b ∧ cs = a ++ b := by
      exact ⟨_, _, (List.forall₂_take_append _ _ _ h1.flip).flip, (List.forall₂_drop_append _ _ _ h1.flip).flip, (List.take_append_drop _ _).symm⟩
    cases h4 with
    | cons h4 h5 =>
      cases h5
      exact ⟨hlen, hs.ne', tmp, _, (hz tmp).2 h3, h4, by rw [h2, hval tmp _ h3.length_eq.symm]⟩

/-- The filter by coefficients of determination in floating point arithmetic rejects the same samples, if no coefficient is at a limit. -/
theorem ffilter_stable {c codMin codMax : ℝ} (hu0 : ∀ᶠ k in F, 0 ≤ u k) (hu : Tendsto u F (𝓝 0)) {size : ℕ} {e : ι → List 𝕜} {e0 : List 𝕜} (he : Tends F e e0)
    {b : ι → List (Fin q → 𝕜)} {b0 : List (Fin q → 𝕜)} (hb : Tends F b b0) (hlk : ∀ k, (e k).length = e0.length ∧ (b k).length = b0.length) {vs : List Flt}
    (h : value size e0 b0 = .ok vs)
    (hoff : ∀ x ∈ vs, ∃ v, x = .fin v ∧ (0 < codMin → v ≠ codMin) ∧ (codMax < 1 → v ≠ codMax) ∧ (v = 0 → codMin ≤ 0 ∧ 0 ≤ codMax)) :
    ∀ᶠ k in F, ∀ l, FFilter (u k) c codMin codMax size (e k) (b k) l → call codMin codMax size e0 b0 = .ok l := by
  classical
  have h1 : e0.length = b0.length ∧ 0 < size := by
    unfold value at h
    split at h
    · simp at h
    · split at h
      · simp at h
      · exact ⟨by tauto, by omega⟩
  obtain ⟨hl, hs⟩ := h1
  obtain ⟨ts, c0, ck, hts⟩ := cut_tends size hs e0.length e e0 rfl he b b0 hb hl hlk
  set d : Block 𝕜 q → Flt := fun t => match coeffDetermination t.x t.y with
    | .ok c => c
    | .error _ => .nan with hcdef
  have hval0 : ∀ t ∈ ts, coeffDetermination t.2.x t.2.y = .ok (d t.2) := by
    intro t ht
    obtain ⟨d, hd⟩ := value_ok hs c0 h t.2 (List.mem_map_of_mem ht)
    simp only [hcdef, hd]
  have hv0 := value_blocks hs c0 d (by
    intro t ht
    obtain ⟨u, hu, rfl⟩ := List.mem_map.1 ht
    exact hval0 u hu)
  rw [h] at hv0
  simp only [Except.ok.injEq] at hv0
  have hev : ∀ᶠ k in F, ∀ t ∈ ts, t.2.x ≠ [] → ∀ v, FCod (u k) c (t.1 k).x (t.1 k).y v →
      (below v codMin || above v codMax) = (below (d t.2) codMin || above (d t.2) codMax) := by
    refine eventually_list (fun t ht => ?_)
    by_cases hn : t.2.x = []
    · exact .of_forall (fun k h => absurd hn h)
    obtain ⟨v, hv, g1, g2, g3⟩ := hoff (d t.2) (by
      rw [hv0, List.mem_flatMap]
      refine ⟨t.2, List.mem_map_of_mem ht, List.mem_replicate.2 ⟨?_, rfl⟩⟩
      simpa [List.length_eq_zero_iff] using hn)
    have h3 := hval0 t ht
    rw [hv] at h3
    filter_upwards [fcod_flag hu0 hu (hts t ht).1 (hts t ht).2.1 (c0.aligned _ (List.mem_map_of_mem ht)) h3 g1 g2 g3 (c := c)] with k hk _ w hw
    rw [hk w hw, hv]
  filter_upwards [hev] with k hk l hF
  obtain ⟨ws, hF, rfl⟩ := hF
  obtain ⟨cs, hcs, rfl⟩ := (fvalue_cut hs (ck k)).1 hF
  unfold call
  rw [h, hv0]
  simp only [Except.ok.injEq]
  rw [flags_filter (fun x => below x codMin || above x codMax), flags_filter (fun x => below x codMin || above x codMax)]
  congr 3
  rw [List.forall₂_map_left_iff] at hcs
  have hlen : ∀ t ∈ ts, (t.1 k).x.length = t.2.x.length := fun t ht => (hts t ht).2.2.1 k
  clear hF hv0 hval0 hts c0 ck hev
  induction hcs with
  | nil => rfl
  | @cons t w ts cs h1 _ ih =>
    simp only [List.map_cons, List.flatMap_cons, List.map_append, List.zip_cons_cons, List.map_replicate]
    rw [ih (fun t ht => hk t (by simp [ht])) (fun t ht => hlen t (by simp [ht])), hlen t (by simp)]
    congr 1
    by_cases hn : t.2.x = []
    · simp [hn]
    · rw [hk t (by simp) hn w h1]

theorem ffilter_rows {v c codMin codMax : ℝ} {size q : ℕ} {e : List ℂ} {b : List (List ℂ)} (hb : b.length = q) {l : List ℕ} :
    FFilter v c codMin codMax size e (rows b) l ↔ FFilter v c codMin codMax size e (rowsOf (fun j : Fin q => b.getD j []) (width b)) l := by
  subst hb
  have hc : cols b = fun j : Fin b.length => b.getD j [] := by
    funext j
    simp [cols]
  rw [rows, hc]

/-- The prefilter in floating point arithmetic, on coefficients which tend to others. -/
theorem fapply_stable {c : ℝ} (hu0 : ∀ᶠ k in F, 0 ≤ u k) (hu : Tendsto u F (𝓝 0)) {pre : Option FPre} {e b : ι → List (List ℂ)} {e0 b0 : List (List ℂ)}
    (he : LTends F e e0) (hb : LTends F b b0) (hp : ClearRounding pre e0 b0) {iv : InvArg} {inv : List (List ℕ)}
    (h : Prefilter.applyPrefilter e0 (rows b0) ((pre.map FPre.exact).map (fun p => p b0.length)) iv = .ok inv) :
    ∀ᶠ k in F, ∀ inv', FApply (u k) c (e k) (rows (b k)) pre iv inv' → inv' = inv := by
  unfold Prefilter.applyPrefilter at h
  cases hn : iv.norm e0.length with
  | error x => rw [hn] at h; simp at h
  | ok ivs =>
  rw [hn] at h
  simp only at h
  split_ifs at h with hl
  rw [ne_eq, not_not] at hl
  cases pre with
  | none =>
    simp only [Option.map_none, Except.ok.injEq] at h
    subst h
    refine .of_forall (fun k inv' ⟨ivs', h1, h2, h3⟩ => ?_)
    rw [he.length, hn, Except.ok.injEq] at h1
    rw [h3, h1]
  | some f =>
  cases f with
  | user p => exact hp.elim
  | cod codMin codMax size =>
    simp only [Option.map_some, FPre.exact] at h
    have hz : ∀ m : List (List ℂ), m.length = e0.length → m.zip ivs = (List.range e0.length).map (fun p => (m.getD p [], ivs.getD p [])) := by
      intro m hm
      refine List.ext_getElem (by simp [hm, hl]) (fun i h1 h2 => ?_)
      have hi : i < e0.length := by simpa using h2
      simp [List.getD_eq_getElem?_getD, hm ▸ hi, hl ▸ hi, hm, hl, hi]
    rw [hz e0 rfl, mapE_map] at h
    have hev : ∀ᶠ k in F, ∀ p ∈ List.range e0.length, ∀ l, FFilter (u k) c codMin codMax size ((e k).getD p []) (rows (b k)) l →
        Prefilter.call codMin codMax size (e0.getD p []) (rows b0) = .ok l := by
      refine eventually_list (fun p hpr => ?_)
      have hp' : p < e0.length := List.mem_range.1 hpr
      obtain ⟨l, -, hl⟩ := mapE_ok_forall h p hpr
      cases hv : Prefilter.value size (e0.getD p []) (rows b0) with
      | error x => simp only [Prefilter.call, hv, reduceCtorEq] at hl
      | ok vs =>
      have hm : e0.getD p [] ∈ e0 := by
        rw [List.getD_eq_getElem?_getD, List.getElem?_eq_getElem hp']; exact List.getElem_mem hp'
      have hrows : Tends F (fun k => rowsOf (fun j : Fin b0.length => (b k).getD j []) (width b0)) (rowsOf (fun j : Fin b0.length => b0.getD j []) (width b0)) :=
        Tends.over _ (fun n _ => tendsto_pi_nhds.2 (fun j => hb.entry j n))
      have hr0 : rows b0 = rowsOf (fun j : Fin b0.length => b0.getD j []) (width b0) := by
        rw [rows]
        congr 1
        funext j
        simp [cols]
      have := ffilter_stable (c := c) hu0 hu (he.row p) hrows (fun k => ⟨he.lengths k p, by simp [rowsOf]⟩) (hr0 ▸ hv) (hp _ hm vs hv)
      filter_upwards [this] with k hk l hF
      rw [hr0]
      refine hk l ?_
      rw [ffilter_rows (hb.length k), hb.same_width] at hF
      exact hF
    filter_upwards [hev] with k hk inv' hF
    obtain ⟨ivs', h1, h2, h3⟩ := hF
    rw [he.length, hn, Except.ok.injEq] at h1
    subst h1
    simp only at h3
    rw [hz _ (he.length _), List.forall₂_map_left_iff] at h3
    have h4 := mapE_ok.1 h
    refine (List.forall₂_eq_eq_eq ▸ ?_ : List.Forall₂ (· = ·) inv' inv) |> (fun h => by rwa [List.forall₂_eq_eq_eq] at h)
    rw [List.forall₂_iff_get] at h3 h4 ⊢
    refine ⟨by rw [← h3.1, h4.1], fun i a1 a2 => ?_⟩
    obtain ⟨l1, g1, g2⟩ := h3.2 i (by rw [h3.1]; exact a1) a1
    have g3 := h4.2 i (by rw [h4.1]; exact a2) a2
    rw [hk _ (List.get_mem _ _) l1 g1] at g3
    rw [g2]
    simpa using g3

section exact
variable {v c : ℝ}

theorem fnorm2_exact (hv : 0 ≤ v) (x : List 𝕜) : FNorm2 v x (x.map (fun v => ‖v‖ ^ 2)).sum := by
  refine ⟨x.map (fun v => ‖v‖ ^ 2), ?_, fsum_exact hv _⟩
  rw [List.forall₂_map_right_iff, List.forall₂_same]
  exact fun a _ => ⟨‖a‖, Approx.Near.refl hv _, Approx.Near.refl hv _⟩

theorem froot_exact (hv : 0 ≤ v) (a b : ℝ) (ha : 0 ≤ a) (hb : 0 ≤ b) : FRoot v a b (Prefilter.sqrt (Flt.sub (.fin 1) (Flt.div (.fin a) (.fin b)))) := by
  by_cases h0 : b = 0
  · refine .inl ⟨h0, ?_⟩
    simp only [Flt.div, if_pos h0]
    split_ifs with h1 h2
    · rfl
    · rfl
    · exact absurd (lt_of_le_of_ne ha (Ne.symm h1)) h2
  · refine .inr ⟨h0, a / b, 1 - a / b, Approx.Near.refl hv _, Approx.Near.refl hv _, fun h => by linarith, ?_⟩
    simp only [Flt.div, if_neg h0, Flt.sub, Flt.add, Flt.neg, Prefilter.sqrt, ← sub_eq_add_neg]
    split_ifs with h1
    · exact .inl ⟨h1, rfl⟩
    · exact .inr ⟨not_lt.1 h1, _, Approx.Near.refl hv _, Real.sqrt_nonneg _, fun h => Real.sqrt_le_one.2 h, rfl⟩

theorem fcod_exact (hv : 0 ≤ v) (hc : 0 ≤ c) {x : List 𝕜} {y : List (Fin q → 𝕜)} (hl : x.length = y.length) {w : Flt} (h : coeffDetermination x y = .ok w) :
    FCod v c x y w := by
  obtain ⟨hd, rfl⟩ := cod_eq hl h
  set z := ((gram y none)⁻¹).mulVec (rhs x y none) with hz
  refine ⟨z, (resid x y z).map (fun w => -w), _, _, FWlse.of_normal hv hc hl ?_ (by simp), ?_, ?_, fnorm2_exact hv x,
    froot_exact hv _ _ (sum_sq_nonneg _) (sum_sq_nonneg _)⟩
  · rw [hz, Matrix.mulVec_mulVec, Matrix.mul_nonsing_inv _ (isUnit_iff_ne_zero.2 hd), Matrix.one_mulVec]
  · have := (fresid_exact hv hl z).2
    rw [residual_eq] at this
    rw [List.forall₂_map_right_iff]
    refine this.imp (fun p w ⟨d, g1, g2⟩ => ⟨d, g1, ?_⟩)
    unfold Approx.Near at g2 ⊢
    rw [show -w - (d - p.1) = -(w - (p.1 - d)) by ring, norm_neg, norm_sub_rev d]
    exact g2
  · have := fnorm2_exact hv ((resid x y z).map (fun w => -w))
    simpa [List.map_map, Function.comp_def] using this

theorem ffilter_exact (hv : 0 ≤ v) (hc : 0 ≤ c) {codMin codMax : ℝ} {size : ℕ} {e : List 𝕜} {b : List (Fin q → 𝕜)} {l : List ℕ}
    (h : call codMin codMax size e b = .ok l) : FFilter v c codMin codMax size e b l := by
  unfold call at h
  cases hvs : value size e b with
  | error x => rw [hvs] at h; simp at h
  | ok vs =>
  rw [hvs] at h
  simp only [Except.ok.injEq] at h
  refine ⟨vs, ?_, h.symm⟩
  have h1 : e.length = b.length ∧ 0 < size := by
    unfold value at hvs
    split at hvs
    · simp at hvs
    · split at hvs
      · simp at hvs
      · exact ⟨by tauto, by omega⟩
  obtain ⟨hl, hs⟩ := h1
  obtain ⟨ts, hcut, -⟩ := C56_cut size hs e b hl
  have hok := value_ok hs hcut hvs
  haveI : Nonempty Flt := ⟨.nan⟩
  choose! g hg using hok
  rw [value_blocks hs hcut g hg, Except.ok.injEq] at hvs
  refine (fvalue_cut hs hcut).2 ⟨ts.map g, ?_, ?_⟩
  · rw [List.forall₂_map_right_iff, List.forall₂_same]
    exact fun t ht => fcod_exact hv hc (hcut.aligned t ht) (hg t ht)
  · rw [← hvs]
    clear * -
    induction ts with
    | nil => rfl
    | cons a l ih => simp [ih]

theorem fapply_exact (hv : 0 ≤ v) (hc : 0 ≤ c) {pre : Option FPre} {e b : List (List ℂ)} {iv : InvArg} {inv : List (List ℕ)}
    (h : Prefilter.applyPrefilter e (rows b) ((pre.map FPre.exact).map (fun p => p b.length)) iv = .ok inv) : FApply v c e (rows b) pre iv inv := by
  unfold Prefilter.applyPrefilter at h
  cases hn : iv.norm e.length with
  | error x => rw [hn] at h; simp at h
  | ok ivs =>
  rw [hn] at h
  simp only at h
  split_ifs at h with hl
  rw [ne_eq, not_not] at hl
  refine ⟨ivs, hn, hl, ?_⟩
  cases pre with
  | none => simpa using h.symm
  | some f =>
    simp only [Option.map_some] at h ⊢
    refine (mapE_ok.1 h).imp (fun p l hp => ?_)
    cases hf : f.exact b.length p.1 (rows b) with
    | error x => rw [hf] at hp; simp at hp
    | ok l1 =>
      rw [hf] at hp
      simp only [Except.ok.injEq] at hp
      refine ⟨l1, ?_, hp.symm⟩
      cases f with
      | user p => exact hf
      | cod codMin codMax size => exact ffilter_exact hv hc hf

end exact

/-- C129: why a rejected coefficient must not be zero.  The electric field `1, -1` is not explained at all by the magnetic field `1, 1`: its coefficient of
determination is 0, and both windows are rejected; with any rounding at all the root may be NaN, and both windows are kept. -/
theorem C129_zero_coefficient (u c : ℝ) (hu : 0 < u) (hc : 0 ≤ c) :
    call (1 / 2) 1 2 [(1 : ℂ), -1] [![1], ![1]] = .ok [0, 1] ∧ FFilter u c (1 / 2) 1 2 [(1 : ℂ), -1] [![1], ![1]] [] := by
  have hcut : Cut 2 [(1 : ℂ), -1] [![1], ![1]] [⟨[1, -1], [![1], ![1]], .nan⟩] :=
    ⟨rfl, rfl, by simp, by simp, _, rfl, by simp, by simp⟩
  have hcod : coeffDetermination [(1 : ℂ), -1] [![1], ![1]] = .ok (.fin 0) := by
    unfold coeffDetermination
    simp [Matrix.mulVec, dotProduct, norm2, Flt.div, Flt.sub, Flt.add, Flt.neg, Prefilter.sqrt]
  constructor
  · have := value_blocks (by norm_num) hcut (fun _ => .fin 0) (by simpa using hcod)
    unfold call
    rw [this]
    simp only [List.flatMap_cons, List.flatMap_nil, List.append_nil, List.length_cons, List.length_nil, List.replicate, List.zipIdx_cons, List.zipIdx_nil]
    norm_num [below, above]
  · refine ⟨[.nan, .nan], (fvalue_cut (by norm_num) hcut).2 ⟨[.nan], .cons ?_ .nil, by simp⟩, by simp [below, above]⟩
    refine ⟨0, [-1, 1], 2, 2, FWlse.of_normal hu.le hc rfl ?_ (by simp), ?_, ?_, ?_, .inr ⟨by norm_num, 1 + u, -u, ?_, ?_, fun _ => by linarith, .inl ⟨by linarith, rfl⟩⟩⟩
    · rw [Matrix.mulVec_zero]
      funext j
      fin_cases j
      simp [rhs, dotdiag]
    · refine .cons ⟨0, ?_, ?_⟩ (.cons ⟨0, ?_, ?_⟩ .nil)
      · simpa using fdot_exact hu.le (List.ofFn ![(1 : ℂ)]) (List.ofFn (0 : Fin 1 → ℂ))
      · simpa using Approx.Near.refl hu.le (-1 : ℂ)
      · simpa using fdot_exact hu.le (List.ofFn ![(1 : ℂ)]) (List.ofFn (0 : Fin 1 → ℂ))
      · simpa using Approx.Near.refl hu.le (1 : ℂ)
    · have := fnorm2_exact hu.le [(-1 : ℂ), 1]
      norm_num at this
      exact this
    · have := fnorm2_exact hu.le [(1 : ℂ), -1]
      norm_num at this
      exact this
    · unfold Approx.Near
      rw [div_self two_ne_zero, add_sub_cancel_left, norm_one, mul_one, Real.norm_of_nonneg hu.le]
    · simpa using Approx.Near.refl hu.le (-u)

end Razorback.Props
