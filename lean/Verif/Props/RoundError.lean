/-
`transfer_error` in floating point arithmetic (C129).
-/
import Verif.Props.RoundPre

namespace Razorback.Props
open Razorback Razorback.Spec Razorback.MEst Razorback.Impedance Razorback.Approx Filter Topology

variable {𝕜 : Type} [RCLike 𝕜] {q : ℕ} {ι : Type} {F : Filter ι} {u : ι → ℝ}

open scoped Matrix.Norms.Operator Matrix in
theorem tendsto_finvDiag {c : ℝ} (hu0 : ∀ᶠ k in F, 0 ≤ u k) (hu : Tendsto u F (𝓝 0)) {b : ι → List (Fin q → 𝕜)} {b0 : List (Fin q → 𝕜)} (hb : Tends F b b0)
    (hdet : (gram b0 none).det ≠ 0) {g : ι → Fin q → ℝ} (h : ∀ᶠ k in F, FInvDiag (u k) c (b k) (g k)) (j : Fin q) :
    Tendsto (fun k => g k j) F (𝓝 (Real.sqrt ‖(gram b0 none)⁻¹ j j‖)) := by
  have h' : ∀ᶠ k in F, ∃ t : Matrix (Fin q) (Fin q) 𝕜 × Matrix (Fin q) (Fin q) 𝕜 × (Fin q → 𝕜) × ℝ,
      (∀ i l, FDot (u k) ((b k).map (fun r => r i)) ((b k).map (fun r => star (r l))) (t.1 i l)) ∧ ‖t.2.1‖ ≤ c * u k * ‖t.1‖ ∧
      (t.1 + t.2.1) *ᵥ t.2.2.1 = Pi.single j 1 ∧ Approx.Near (u k) ‖t.2.2.1 j‖ t.2.2.2 ∧ Approx.Near (u k) (Real.sqrt t.2.2.2) (g k j) := by
    filter_upwards [h] with k hk
    obtain ⟨A, X, h1, h2, h3⟩ := hk
    obtain ⟨E, h4, h5⟩ := h2 j
    obtain ⟨d, h6, h7⟩ := h3 j
    exact ⟨(A, E, fun i => X i j, d), h1, h4, h5, h6, h7⟩
  obtain ⟨t, ht⟩ := eventually_choose h'
  have hcol : ∀ j, Tends F (fun k => (b k).map (fun r => r j)) (b0.map (fun r => r j)) := fun j => hb.map (fun x0 _ x hx => (tendsto_pi_nhds.1 hx) j)
  have hstar : ∀ j, Tends F (fun k => (b k).map (fun r => star (r j))) (b0.map (fun r => star (r j))) := fun j =>
    hb.map (fun x0 _ x hx => ((tendsto_pi_nhds.1 hx) j).star)
  have hA : Tendsto (fun k => (t k).1) F (𝓝 (gram b0 none)ᵀ) := by
    refine tendsto_pi_nhds.2 (fun i => tendsto_pi_nhds.2 (fun l => ?_))
    have h2 := tendsto_fdot hu0 hu (hcol i) (hstar l) (ht.mono fun _ h => h.1 i l)
    rw [List.zipWith_map] at h2
    refine h2.congr' ?_ |>.trans ?_
    · exact .of_forall fun _ => rfl
    · refine le_of_eq ?_
      congr 1
      simp only [Matrix.transpose_apply, gram, Matrix.of_apply, dotdiag]
      congr 1
      simp only [List.zipWith_self, mul_comm]
  have hE : Tendsto (fun k => (t k).2.1) F (𝓝 0) := by
    refine squeeze_zero_norm' (ht.mono fun _ h => h.2.1) ?_
    simpa using (hu.const_mul c).mul hA.norm
  have hAE : Tendsto (fun k => (t k).1 + (t k).2.1) F (𝓝 (gram b0 none)ᵀ) := by simpa using hA.add hE
  have hdet' : (gram b0 none)ᵀ.det ≠ 0 := by rwa [Matrix.det_transpose]
  have hd : Tendsto (fun k => ((t k).1 + (t k).2.1).det) F (𝓝 (gram b0 none)ᵀ.det) := ((continuous_id.matrix_det).tendsto _).comp hAE
  have hinv : Tendsto (fun k => ((t k).1 + (t k).2.1)⁻¹) F (𝓝 (gram b0 none)ᵀ⁻¹) := by
    simp only [Matrix.inv_def, Ring.inverse_eq_inv']
    exact (hd.inv₀ hdet').smul (((continuous_id.matrix_adjugate).tendsto _).comp hAE)
  have hx : Tendsto (fun k => (t k).2.2.1 j) F (𝓝 ((gram b0 none)⁻¹ j j)) := by
    have h1 := tendsto_pi_nhds.1 (tendsto_pi_nhds.1 hinv j) j
    rw [← Matrix.transpose_nonsing_inv, Matrix.transpose_apply] at h1
    refine h1.congr' ?_
    filter_upwards [ht, hd.eventually_ne hdet'] with k h1 h2
    have h3 : ((t k).1 + (t k).2.1)⁻¹ *ᵥ Pi.single j 1 = (t k).2.2.1 := by
      rw [← h1.2.2.1, Matrix.mulVec_mulVec, Matrix.nonsing_inv_mul _ (isUnit_iff_ne_zero.2 h2), Matrix.one_mulVec]
    rw [← h3]
    simp
  exact tendsto_near hu (tendsto_near hu hx.norm (ht.mono fun _ h => h.2.2.2.1)).sqrt (ht.mono fun _ h => h.2.2.2.2)

/-- An error which is a number, in floating point arithmetic. -/
theorem ferrorRow_tends (hu0 : ∀ᶠ k in F, 0 ≤ u k) (hu : Tendsto u F (𝓝 0)) {b : ι → List (Fin q → 𝕜)} {b0 : List (Fin q → 𝕜)} (hb : Tends F b b0)
    {y : ι → List 𝕜} {y0 : List 𝕜} (hy : Tends F y y0) (hl : y0.length = b0.length) {T : ι → Fin q → 𝕜} {T0 : Fin q → 𝕜} (hT : Tendsto T F (𝓝 T0)) (ninv : ℕ)
    (j : Fin q) {g : ι → Fin q → ℝ} (hg : Tendsto (fun k => g k j) F (𝓝 (Real.sqrt ‖(gram b0 none)⁻¹ j j‖))) {v0 : ℝ} (h : errorRow b0 y0 T0 ninv j = .fin v0)
    {v : ι → Fin q → Flt} (hF : ∀ᶠ k in F, FErrorRow (u k) (b k) (g k) (y k) (T k) ninv (v k)) :
    ∃ w : ι → ℝ, Tendsto w F (𝓝 v0) ∧ ∀ᶠ k in F, v k j = .fin (w k) := by
  obtain ⟨h1, h2, rfl⟩ := errorRow_number.1 h
  have h' : ∀ᶠ k in F, ∃ t : List 𝕜 × ℝ × ℝ × ℝ × ℝ × ℝ × ℝ × ℝ, FResid (u k) (y k) (b k) (T k) t.1 ∧ FNorm2 (u k) t.1 t.2.1 ∧
      Approx.Near (u k) (Real.sqrt t.2.1) t.2.2.1 ∧ Approx.Near (u k) (Real.sqrt ((y0.length : ℝ) - q)) t.2.2.2.1 ∧
      Approx.Near (u k) (t.2.2.2.1 / y0.length) t.2.2.2.2.1 ∧ Approx.Near (u k) (t.2.2.1 / t.2.2.2.2.1) t.2.2.2.2.2.1 ∧
      Approx.Near (u k) (t.2.2.2.2.2.1 / ((y0.length : ℝ) - ninv)) t.2.2.2.2.2.2.1 ∧
      Approx.Near (u k) (t.2.2.2.2.2.2.1 * g k j) t.2.2.2.2.2.2.2 ∧ v k j = .fin t.2.2.2.2.2.2.2 := by
    filter_upwards [hF, hy.1] with k hk hlen
    rcases hk with ⟨-, -, res, s, nres, t, r, a, d, g1, g2, g3, g4, g5, g6, g7, g8⟩ | ⟨g1, -⟩
    · obtain ⟨w, g9, g10⟩ := g8 j
      rw [hlen] at g4 g5 g7
      exact ⟨(res, s, nres, t, r, a, d, w), g1, g2, g3, g4, g5, g6, g7, g9, g10⟩
    · rw [hlen] at g1
      rcases g1 with g1 | g1
      · omega
      · exact absurd g1 h2
  obtain ⟨t, ht⟩ := eventually_choose h'
  have hq : 0 < q := j.pos
  have hn : (y0.length : ℝ) ≠ 0 := by
    have : 0 < y0.length := by omega
    exact_mod_cast this.ne'
  have hr0 : Real.sqrt ((y0.length : ℝ) - q) / y0.length ≠ 0 := by
    have : (q : ℝ) < y0.length := by exact_mod_cast h1
    exact div_ne_zero (Real.sqrt_ne_zero'.2 (by linarith)) hn
  have hres := tends_fresid hu0 hu hy hb hl hT (ht.mono fun _ h => h.1)
  have hs := tendsto_fnorm2 hu0 hu hres (ht.mono fun _ h => h.2.1)
  have hnres := tendsto_near hu hs.sqrt (ht.mono fun _ h => h.2.2.1)
  have hr1 := tendsto_near hu (tendsto_const_nhds (x := Real.sqrt ((y0.length : ℝ) - q))) (ht.mono fun _ h => h.2.2.2.1)
  have hr := tendsto_near hu (hr1.div_const (y0.length : ℝ)) (ht.mono fun _ h => h.2.2.2.2.1)
  have ha := tendsto_near hu (hnres.div hr hr0) (ht.mono fun _ h => h.2.2.2.2.2.1)
  have hd := tendsto_near hu (ha.div_const ((y0.length : ℝ) - ninv)) (ht.mono fun _ h => h.2.2.2.2.2.2.1)
  exact ⟨_, tendsto_near hu (hd.mul hg) (ht.mono fun _ h => h.2.2.2.2.2.2.2.1), ht.mono fun _ h => h.2.2.2.2.2.2.2.2⟩

theorem ferrors_cols {v c : ℝ} (e b Z : List (List ℂ)) (hb : b.length = q) (ivid : List (List ℕ)) (err : List (List Flt)) :
    FErrors v c e b Z ivid err ↔ ∃ E : List (Fin q → Flt), FTransferError v c e (fun j : Fin q => b.getD j []) (Z.map (fun z j => z.getD j 0)) ivid E ∧
      err = E.map List.ofFn := by
  subst hb
  have hc : cols b = fun j : Fin b.length => b.getD j [] := by
    funext j
    simp [cols]
  unfold FErrors
  rw [hc]

/-- The errors of an impedance in floating point arithmetic, where they are numbers. -/
theorem ferrors_tends {c : ℝ} (hu0 : ∀ᶠ k in F, 0 ≤ u k) (hu : Tendsto u F (𝓝 0)) {e b Z : ι → List (List ℂ)} {e0 b0 : List (List ℂ)} (he : LTends F e e0)
    (hb : LTends F b b0) {z0 : List (Fin b0.length → ℂ)} (hZ : LTends F Z (z0.map List.ofFn)) {iv0 : List (List ℕ)} {ivid : ι → List (List ℕ)}
    (hiv : ∀ᶠ k in F, ivid k = iv0) {E0 : List (Fin b0.length → Flt)} (h : transferError e0 (cols b0) z0 iv0 = .ok E0) {err : ι → List (List Flt)}
    (hF : ∀ᶠ k in F, FErrors (u k) c (e k) (b k) (Z k) (ivid k) (err k)) {ε : ℝ} (hε : 0 < ε) :
    ∀ᶠ k in F, WithinNumbers ε (err k) (E0.map List.ofFn) := by
  obtain ⟨hc1, hc2⟩ := (error_cols e0 b0 rfl z0 iv0).1 ⟨E0, h⟩
  set N := headLen (e0.map List.length) with hN
  push Not at hc1
  obtain ⟨c1, c2, c3, c4, c5⟩ := hc1
  have hrows : Tends F (fun k => rowsOf (fun j : Fin b0.length => (b k).getD j []) N) (rowsOf (fun j : Fin b0.length => b0.getD j []) N) :=
    Tends.over _ (fun n _ => tendsto_pi_nhds.2 (fun j => hb.entry j n))
  have h' : ∀ᶠ k in F, ∃ t : (Fin b0.length → ℝ) × List (Fin b0.length → Flt), FInvDiag (u k) c (rowsOf (fun j : Fin b0.length => (b k).getD j []) N) t.1 ∧
      List.Forall₂ (fun s v => FErrorRow (u k) (rowsOf (fun j : Fin b0.length => (b k).getD j []) N) t.1 s.1 s.2.1 s.2.2.length v)
        ((e k).zip (((Z k).map (fun z (j : Fin b0.length) => z.getD j 0)).zip iv0)) t.2 ∧ err k = t.2.map List.ofFn := by
    filter_upwards [hF, hiv] with k h1 h2
    obtain ⟨E, ⟨M, g, g1, g2, g3, g4, g5, g6, g7⟩, g8⟩ := (ferrors_cols _ _ _ (hb.length k) _ _).1 h1
    obtain rfl : M = N := by
      have hne : e k ≠ [] := g1
      rw [hN, ← he.shape k, headLen_of hne g3]
    rw [h2] at g7
    exact ⟨(g, E), g6, g7, g8⟩
  obtain ⟨t, ht⟩ := eventually_choose h'
  have herrs : ∀ᶠ k in F, ∀ i : Fin e0.length, ∀ n : Fin iv0.length, ∀ j : Fin b0.length, ∀ a0,
      errorRow (rowsOf (fun j : Fin b0.length => b0.getD j []) N) (e0.getD i []) (fun j => ((z0.map List.ofFn).getD i []).getD j 0) iv0[n].length j = .fin a0 →
      ∀ v, FErrorRow (u k) (rowsOf (fun j : Fin b0.length => (b k).getD j []) N) (t k).1 ((e k).getD i []) (fun j => ((Z k).getD i []).getD j 0) iv0[n].length v →
      ∃ a, v j = .fin a ∧ |a - a0| < ε := by
    refine eventually_all.2 (fun i => eventually_all.2 (fun n => eventually_all.2 (fun j => ?_)))
    by_cases hex : ∃ a0, errorRow (rowsOf (fun j : Fin b0.length => b0.getD j []) N) (e0.getD i [])
        (fun j => ((z0.map List.ofFn).getD i []).getD j 0) iv0[n].length j = .fin a0
    · obtain ⟨a0, ha0⟩ := hex
      have := eventually_forall (F := F) (P := fun k v => FErrorRow (u k) (rowsOf (fun j : Fin b0.length => (b k).getD j []) N) (t k).1 ((e k).getD i [])
        (fun j => ((Z k).getD i []).getD j 0) iv0[n].length v) (Q := fun k v => ∃ a, v j = .fin a ∧ |a - a0| < ε) (by
        intro G hG v hv
        obtain ⟨w, hw, hk⟩ := ferrorRow_tends (hu0.filter_mono hG) (hu.mono_left hG) (Tends.mono hrows hG) (Tends.mono (he.row i) hG) (by
            rw [rowsOf, List.length_map, List.length_range]
            refine (c4 _ ?_).symm ▸ rfl
            refine List.mem_map.2 ⟨e0.getD i [], ?_, rfl⟩
            rw [List.getD_eq_getElem?_getD, List.getElem?_eq_getElem i.2]
            exact List.getElem_mem _) (T := fun k (j : Fin b0.length) => ((Z k).getD i []).getD j 0)
          (T0 := fun j => ((z0.map List.ofFn).getD i []).getD j 0) ((tendsto_pi_nhds.2 (fun (j : Fin b0.length) => hZ.entry i j)).mono_left hG) _ j
          (tendsto_finvDiag (hu0.filter_mono hG) (hu.mono_left hG) (Tends.mono hrows hG) hc2 ((ht.filter_mono hG).mono fun _ h => h.1) j) ha0 hv
        filter_upwards [hk, Metric.tendsto_nhds.1 hw ε hε] with k h1 h2
        exact ⟨w k, h1, h2⟩)
      filter_upwards [this] with k hk a1 ha1 v hv
      rw [ha0, Flt.fin.injEq] at ha1
      exact ha1 ▸ hk v hv
    · exact .of_forall (fun k a0 ha0 => absurd ⟨a0, ha0⟩ hex)
  filter_upwards [ht, herrs] with k hk herrs
  obtain ⟨-, hk1, hk2⟩ := hk
  rw [hk2, error_rows _ _ rfl _ _ h]
  have hlen := hk1.length_eq
  simp only [List.length_zip, List.length_map, he.length, hZ.length] at hlen
  refine List.forall₂_iff_get.2 ⟨by simp [← hlen], fun i h1 h2 => ?_⟩
  simp only [List.length_map, List.length_zip, lt_min_iff] at h2
  simp only [List.get_eq_getElem, List.getElem_map, List.getElem_zip]
  refine List.forall₂_iff_get.2 ⟨by simp, fun j h3 h4 => ?_⟩
  have hj : j < b0.length := by simpa using h4
  have key := herrs ⟨i, h2.1⟩ ⟨i, h2.2.2⟩ ⟨j, hj⟩
  have hrow := hk1.get (i := i) (by simp [he.length, hZ.length]; exact h2) (by simpa using h1)
  have e1 : (e k).getD i [] = (e k)[i]'(by rw [he.length]; exact h2.1) := by
    rw [List.getD_eq_getElem?_getD, List.getElem?_eq_getElem (by rw [he.length]; exact h2.1)]; rfl
  have e2 : e0.getD i [] = e0[i]'h2.1 := by
    rw [List.getD_eq_getElem?_getD, List.getElem?_eq_getElem h2.1]; rfl
  have hz1 : i < (Z k).length := by rw [hZ.length, List.length_map]; exact h2.2.1
  have e3 : (Z k).getD i [] = (Z k)[i]'hz1 := by
    rw [List.getD_eq_getElem?_getD, List.getElem?_eq_getElem hz1]; rfl
  have e4 : (z0.map List.ofFn).getD i [] = (z0.map List.ofFn)[i]'(by simpa using h2.2.1) := by
    rw [List.getD_eq_getElem?_getD, List.getElem?_eq_getElem (by simpa using h2.2.1)]; rfl
  simp only [List.get_eq_getElem, List.getElem_zip, List.getElem_map] at hrow
  simp only [List.get_eq_getElem, List.getElem_ofFn]
  intro a0 ha0
  simp only [e1, e2, e3, e4, Fin.getElem_fin] at key
  exact key a0 (by simpa using ha0) _ hrow

open scoped Matrix.Norms.Operator in
theorem finvDiag_exact {v c : ℝ} (hv : 0 ≤ v) (hc : 0 ≤ c) {b : List (Fin q → 𝕜)} (hd : (gram b none).det ≠ 0) :
    FInvDiag v c b (fun j => Real.sqrt ‖(gram b none)⁻¹ j j‖) := by
  refine ⟨(gram b none).transpose, ((gram b none).transpose)⁻¹, fun j k => ?_, fun k => ⟨0, ?_, ?_⟩, fun j => ⟨_, Approx.Near.refl hv _, ?_⟩⟩
  · have := fdot_exact hv (b.map (fun r => r j)) (b.map (fun r => star (r k)))
    rw [List.zipWith_map] at this
    simp only [Matrix.transpose_apply, gram, Matrix.of_apply, dotdiag]
    simpa only [List.zipWith_self, mul_comm] using this
  · rw [norm_zero]
    exact mul_nonneg (mul_nonneg hc hv) (norm_nonneg _)
  · have h1 := Matrix.mul_nonsing_inv (gram b none).transpose (by rw [Matrix.det_transpose]; exact isUnit_iff_ne_zero.2 hd)
    rw [add_zero]
    have : (fun j => ((gram b none).transpose)⁻¹ j k) = ((gram b none).transpose)⁻¹.mulVec (Pi.single k 1) := by
      funext j
      simp
    rw [this, Matrix.mulVec_mulVec, h1, Matrix.one_mulVec]
  · rw [← Matrix.transpose_nonsing_inv, Matrix.transpose_apply]
    exact Approx.Near.refl hv _

theorem ferrorRow_exact {v : ℝ} (hv : 0 ≤ v) {b : List (Fin q → 𝕜)} {y : List 𝕜} (hl : y.length = b.length) (T : Fin q → 𝕜) (ninv : ℕ) :
    FErrorRow v b (fun j => Real.sqrt ‖(gram b none)⁻¹ j j‖) y T ninv (errorRow b y T ninv) := by
  by_cases h : q < y.length ∧ y.length ≠ ninv
  · refine .inl ⟨h.1, h.2, _, _, _, _, _, _, _, fresid_exact hv hl T, fnorm2_exact hv _, Approx.Near.refl hv _, Approx.Near.refl hv _, Approx.Near.refl hv _,
      Approx.Near.refl hv _, Approx.Near.refl hv _, fun j => ⟨_, Approx.Near.refl hv _, ?_⟩⟩
    rw [errorRow_number, residual_eq]
    exact ⟨h.1, h.2, rfl⟩
  · refine .inr ⟨?_, fun j w hw => ?_⟩
    · by_contra hn
      push Not at hn
      exact h hn
    · exact h ⟨(errorRow_number.1 hw).1, (errorRow_number.1 hw).2.1⟩

/-- The exact errors are possible ones in floating point arithmetic. -/
theorem ferrors_exact {v c : ℝ} (hv : 0 ≤ v) (hc : 0 ≤ c) {e b : List (List ℂ)} {z : List (Fin b.length → ℂ)} {inv : List (List ℕ)} {E : List (Fin b.length → Flt)}
    (h : transferError e (cols b) z inv = .ok E) : FErrors v c e b (z.map List.ofFn) inv (E.map List.ofFn) := by
  refine ⟨E, ?_, rfl⟩
  have hz : (z.map List.ofFn).map (fun z (j : Fin b.length) => z.getD j 0) = z := by
    rw [List.map_map]
    conv_rhs => rw [← List.map_id z]
    refine List.map_congr_left (fun a _ => ?_)
    funext j
    simp
  rw [hz]
  obtain ⟨h1, h2⟩ := (error_cols e b rfl z inv).1 ⟨E, h⟩
  push Not at h1
  obtain ⟨c1, c2, c3, c4, c5⟩ := h1
  have hcols : cols b = fun j : Fin b.length => b.getD j [] := by
    funext j
    simp [cols]
  rw [hcols] at h ⊢
  refine ⟨headLen (e.map List.length), _, by rintro rfl; simp at c1, by omega, fun y hy => c4 _ (List.mem_map_of_mem hy), c3, c5, finvDiag_exact hv hc h2, ?_⟩
  have hE : E = (e.zip (z.zip inv)).map (fun t => errorRow (rowsOf (fun j : Fin b.length => b.getD j []) (headLen (e.map List.length))) t.1 t.2.1 t.2.2.length) := by
    unfold transferError at h
    cases e with
    | nil => simp at h
    | cons y l =>
      simp only [headLen, List.map_cons, List.headD_cons] at h ⊢
      split_ifs at h
      simpa using h.symm
  rw [hE, List.forall₂_map_right_iff, List.forall₂_same]
  intro t ht
  refine ferrorRow_exact hv ?_ _ _
  rw [c4 _ (List.mem_map_of_mem (List.of_mem_zip ht).1)]
  simp [rowsOf]

end Razorback.Props
