/-
Property C126: least squares and the impedance in floating point.
-/
import Verif.Props.Approx
import Verif.Lemmas.ApproxLS
import Verif.Spec.Approx
import Verif.Props.Recordings

namespace Razorback.Props
open Razorback Razorback.Fourier Razorback.MEst Razorback.Spec Razorback.Approx
open scoped Matrix Matrix.Norms.Operator

section wlse
variable {𝕜 : Type} [RCLike 𝕜] {q : ℕ}

/-- What `wlse` returns solves the normal equations. -/
theorem wlse_normal {x : List 𝕜} {y : List (Fin q → 𝕜)} {w : Option (List ℝ)} {z : Fin q → 𝕜} (hz : wlse x y (w.map (List.map Flt.fin)) = .ok z) :
    (gram y w).det ≠ 0 ∧ gram y w *ᵥ z = rhs x y w ∧ ∀ ws, w = some ws → ws.length = y.length := by
  have hgo : ∀ z : Fin q → 𝕜, (gram y w).det ≠ 0 → (gram y w)⁻¹ *ᵥ rhs x y w = z → gram y w *ᵥ z = rhs x y w := by
    intro z hd hz
    rw [← hz, Matrix.mulVec_mulVec, Matrix.mul_nonsing_inv _ (isUnit_iff_ne_zero.2 hd), Matrix.one_mulVec]
  cases w with
  | none =>
    simp only [Option.map_none, wlse] at hz
    split at hz
    · simp at hz
    · rename_i hd
      exact ⟨hd, hgo z hd (Except.ok.inj hz), by simp⟩
  | some ws =>
    simp only [Option.map_some, wlse, mapM_val.2 rfl] at hz
    split at hz
    · simp at hz
    rename_i hl
    split at hz
    · simp at hz
    · rename_i hd
      refine ⟨hd, hgo z hd (Except.ok.inj hz), ?_⟩
      rintro _ ⟨⟩
      simpa using hl

/-- **C126.** Weighted least squares in floating point, on data off by `τ` times the bounds `B` and `X` of the inputs and of the output:
the estimate is off by an explicit quantity, proportional to the norm `K` of the inverse of the normal matrix times the sum of the
weights. -/
theorem C126_least_squares (u c τ : ℝ) (hu : 0 ≤ u) (hc : 0 ≤ c) (hτ : 0 ≤ τ) (N : ℕ) (x x' : List 𝕜) (y y' : List (Fin q → 𝕜)) (w : Option (List ℝ))
    (hx : x.length = N) (hy : y.length = N) (hx' : x'.length = N) (hy' : y'.length = N) (hw : ∀ ws, w = some ws → ∀ a ∈ ws, 0 ≤ a)
    (B X : ℝ) (hB : 0 ≤ B) (hX : 0 ≤ X) (hyB : ∀ n < N, ∀ j, ‖y.getD n 0 j‖ ≤ B ∧ ‖y'.getD n 0 j - y.getD n 0 j‖ ≤ τ * B)
    (hxX : ∀ n < N, ‖x.getD n 0‖ ≤ X ∧ ‖x'.getD n 0 - x.getD n 0‖ ≤ τ * X) (z z' : Fin q → 𝕜)
    (hz : wlse x y (w.map (List.map Flt.fin)) = .ok z) (hz' : FWlse u c x' y' w z')
    (K : ℝ) (hK : K = ‖(gram y w)⁻¹‖ * ∑ n ∈ Finset.range N, weightAt w n) (hlt : K * B ^ 2 * matErr u c τ N q < 1) (j : Fin q) :
    ‖z' j - z j‖ ≤ K * (sumErr u τ N * (B * X) + matErr u c τ N q * B ^ 2 * ‖z‖) / (1 - K * B ^ 2 * matErr u c τ N q) := by
  obtain ⟨hd, hn, -⟩ := wlse_normal hz
  have hw0 : ∀ n < N, 0 ≤ weightAt w n := by
    intro n _
    cases w with
    | none => simp [weightAt]
    | some ws =>
      simp only [weightAt]
      rw [List.getD_eq_getElem?_getD]
      cases h : ws[n]? with
      | none => simp
      | some a => exact hw ws rfl a (List.mem_of_getElem? h)
  exact (norm_le_pi_norm (z' - z) j).trans (hz'.near hu hc hτ hx hx' hy hy' hw0 hB hX hyB hxX hd hn hK hlt)

/-- A solution of the normal equations is a possible result. -/
theorem FWlse.of_normal {u c : ℝ} (hu : 0 ≤ u) (hc : 0 ≤ c) {x : List 𝕜} {y : List (Fin q → 𝕜)} {w : Option (List ℝ)} (hx : x.length = y.length)
    {z : Fin q → 𝕜} (hn : gram y w *ᵥ z = rhs x y w) (hw : ∀ ws, w = some ws → ws.length = y.length) : FWlse u c x y w z := by
  have hdiag : ∀ v : List 𝕜, FDiag u w v (dotdiag w v) := by
    intro v
    cases w with
    | none => rfl
    | some ws => exact List.forall₂_same.2 (fun a _ => Near.refl hu a)
  have hdot : ∀ a b : List 𝕜, FDot u a b (List.zipWith (· * ·) a b).sum := fun a b =>
    ⟨_, List.forall₂_same.2 (fun a _ => Near.refl hu a), fsum_exact hu _⟩
  refine ⟨hx, hw, dotdiag w x, fun k => dotdiag w (y.map (fun r => r k)), gram y w, 0, rhs x y w, hdiag _, fun k => hdiag _, ?_, ?_, ?_, by rwa [add_zero]⟩
  · intro j k
    have := hdot (y.map (fun r => star (r j))) (dotdiag w (y.map (fun r => r k)))
    convert this using 1
    simp only [gram, Matrix.of_apply]
    congr 1
    cases w with
    | none => simp [dotdiag, List.zipWith_map_left, List.zipWith_map_right]
    | some ws =>
      simp only [dotdiag, List.zipWith_map_left, List.zipWith_map_right]
      apply List.ext_getElem
      · simp
      · intro n h1 h2
        simp
  · intro j
    have := hdot (y.map (fun r => star (r j))) (dotdiag w x)
    convert this using 1
    simp only [rhs]
    congr 1
    rw [List.zipWith_map_left]
  · rw [norm_zero]; positivity

/-- **C126.** The exact computation is one of the possible ones. -/
theorem C126_exact_wlse (u c : ℝ) (hu : 0 ≤ u) (hc : 0 ≤ c) (x : List 𝕜) (y : List (Fin q → 𝕜)) (w : Option (List ℝ)) (hx : x.length = y.length)
    (z : Fin q → 𝕜) (hz : wlse x y (w.map (List.map Flt.fin)) = .ok z) : FWlse u c x y w z := by
  obtain ⟨-, hn, hw⟩ := wlse_normal hz
  exact FWlse.of_normal hu hc hx hn hw

theorem continuous_sumErr (N : ℕ) : Continuous (fun p : ℝ × ℝ => sumErr p.1 p.2 N) := by
  unfold sumErr; fun_prop

theorem continuous_matErr (c : ℝ) (N q : ℕ) : Continuous (fun p : ℝ × ℝ => matErr p.1 c p.2 N q) := by
  unfold matErr
  have := continuous_sumErr N
  fun_prop

/-- The bounds vanish with the errors. -/
theorem errors_vanish (c a b d : ℝ) (N q : ℕ) {ε : ℝ} (hε : 0 < ε) : ∃ δ > 0, ∀ u τ : ℝ, 0 ≤ u → u ≤ δ → 0 ≤ τ → τ ≤ δ →
    a * matErr u c τ N q < 1 ∧ (b * sumErr u τ N + d * matErr u c τ N q) / (1 - a * matErr u c τ N q) < ε := by
  have c1 := continuous_sumErr N
  have c2 := continuous_matErr c N q
  have z1 : sumErr 0 0 N = 0 := by simp [sumErr]
  have z2 : matErr 0 c 0 N q = 0 := by simp [matErr, z1]
  have e1 : ∀ᶠ p : ℝ × ℝ in nhds (0, 0), a * matErr p.1 c p.2 N q < 1 := by
    have : Continuous (fun p : ℝ × ℝ => a * matErr p.1 c p.2 N q) := continuous_const.mul c2
    exact (this.tendsto (0, 0)).eventually (gt_mem_nhds (by simp [z2]))
  have e2 : ∀ᶠ p : ℝ × ℝ in nhds (0, 0), (b * sumErr p.1 p.2 N + d * matErr p.1 c p.2 N q) / (1 - a * matErr p.1 c p.2 N q) < ε := by
    have hc : ContinuousAt (fun p : ℝ × ℝ => (b * sumErr p.1 p.2 N + d * matErr p.1 c p.2 N q) / (1 - a * matErr p.1 c p.2 N q)) (0, 0) := by
      refine ContinuousAt.div ?_ ?_ (by simp [z2])
      · exact ((continuous_const.mul c1).add (continuous_const.mul c2)).continuousAt
      · exact (continuous_const.sub (continuous_const.mul c2)).continuousAt
    refine hc.tendsto.eventually (gt_mem_nhds ?_)
    simp [z1, z2, hε]
  obtain ⟨δ, hδ, hball⟩ := Metric.eventually_nhds_iff.1 (e1.and e2)
  refine ⟨δ / 2, by positivity, ?_⟩
  intro u τ hu hu' hτ hτ'
  refine hball (y := (u, τ)) ?_
  rw [Prod.dist_eq, max_lt_iff]
  simp only [Real.dist_eq, sub_zero, abs_of_nonneg hu, abs_of_nonneg hτ]
  exact ⟨by linarith, by linarith⟩

/-- **C126.** As the errors of the operations and of the data vanish, the estimate tends to the exact one. -/
theorem C126_limit (c : ℝ) (hc : 0 ≤ c) (x : List 𝕜) (y : List (Fin q → 𝕜)) (w : Option (List ℝ)) (hx : x.length = y.length)
    (hw : ∀ ws, w = some ws → ∀ a ∈ ws, 0 ≤ a) (z : Fin q → 𝕜) (hz : wlse x y (w.map (List.map Flt.fin)) = .ok z) (ε : ℝ) (hε : 0 < ε) :
    ∃ δ > 0, ∀ u τ : ℝ, 0 ≤ u → u ≤ δ → 0 ≤ τ → τ ≤ δ → ∀ (x' : List 𝕜) (y' : List (Fin q → 𝕜)), List.Forall₂ (fun a a' => ‖a' - a‖ ≤ τ) x x' →
      List.Forall₂ (fun a a' => ∀ j, ‖a' j - a j‖ ≤ τ) y y' → ∀ z', FWlse u c x' y' w z' → ∀ j, ‖z' j - z j‖ ≤ ε := by
  obtain ⟨M, hM1, hMy, hMx⟩ : ∃ M : ℝ, 1 ≤ M ∧ (∀ r ∈ y, ∀ j, ‖r j‖ ≤ M) ∧ ∀ a ∈ x, ‖a‖ ≤ M := by
    refine ⟨1 + (y.map (fun r => ‖r‖)).sum + (x.map (fun a => ‖a‖)).sum, ?_, ?_, ?_⟩
    · have h1 : 0 ≤ (y.map (fun r => ‖r‖)).sum := List.sum_nonneg (by simp)
      have h2 : 0 ≤ (x.map (fun a => ‖a‖)).sum := List.sum_nonneg (by simp)
      linarith
    · intro r hr j
      have h2 : 0 ≤ (x.map (fun a => ‖a‖)).sum := List.sum_nonneg (by simp)
      have h3 : ‖r‖ ≤ (y.map (fun r => ‖r‖)).sum := List.single_le_sum (by simp) _ (List.mem_map.2 ⟨r, hr, rfl⟩)
      have := norm_le_pi_norm r j
      linarith
    · intro a ha
      have h1 : 0 ≤ (y.map (fun r => ‖r‖)).sum := List.sum_nonneg (by simp)
      have h3 : ‖a‖ ≤ (x.map (fun a => ‖a‖)).sum := List.single_le_sum (by simp) _ (List.mem_map.2 ⟨a, ha, rfl⟩)
      linarith
  set N := y.length with hN
  set K := ‖(gram y w)⁻¹‖ * ∑ n ∈ Finset.range N, weightAt w n with hK
  obtain ⟨δ, hδ, hall⟩ := errors_vanish c (K * M ^ 2) (K * (M * M)) (K * M ^ 2 * ‖z‖) N q hε
  refine ⟨δ, hδ, ?_⟩
  intro u τ hu huδ hτ hτδ x' y' hx' hy' z' hz' j
  obtain ⟨hlt, hb⟩ := hall u τ hu huδ hτ hτδ
  have hτM : τ ≤ τ * M := le_mul_of_one_le_right hτ hM1
  have main := C126_least_squares u c τ hu hc hτ N x x' y y' w hx rfl (hx'.length_eq.symm.trans hx) (hy'.length_eq.symm) hw M M (by linarith) (by linarith)
    (fun n hn j => by
      have hn' : n < y'.length := by rw [← hy'.length_eq]; exact hn
      rw [getD_at hn, getD_at hn']
      exact ⟨hMy _ (List.getElem_mem hn) j, ((hy'.get hn hn') j).trans hτM⟩)
    (fun n hn => by
      have h1 : n < x.length := by rw [hx]; exact hn
      have hn' : n < x'.length := by rw [← hx'.length_eq]; exact h1
      rw [getD_at h1, getD_at hn']
      exact ⟨hMx _ (List.getElem_mem h1), (hx'.get h1 hn').trans hτM⟩) z z' hz hz' K hK hlt j
  refine main.trans (le_trans (le_of_eq ?_) hb.le)
  congr 1
  ring

end wlse

section coeffs
variable {κ : Type} [Rnd]

theorem fourierAt_norm (nf : ℚ) (L : ℕ) (w : Option (List ℂ)) (y : List ℂ) (m : ℕ) :
    ‖fourierAt nf L w y m‖ ≤ 2 / L * ∑ j ∈ Finset.range L, ‖winAt w j‖ * ‖y.getD (m + j) 0‖ := by
  unfold fourierAt
  rw [norm_mul]
  have h2 : ‖(2 / (L : ℂ) : ℂ)‖ = 2 / L := by simp
  rw [h2]
  refine mul_le_mul_of_nonneg_left ((norm_sum_le _ _).trans (Finset.sum_le_sum (fun j _ => ?_))) (by positivity)
  rw [norm_mul, norm_mul]
  have : ‖Complex.exp (-(2 * Real.pi * Complex.I * (nf : ℂ) * (j : ℂ)))‖ = 1 := by
    have e : -(2 * Real.pi * Complex.I * (nf : ℂ) * (j : ℂ)) = ((-(2 * Real.pi * nf * j) : ℝ) : ℂ) * Complex.I := by
      push_cast; ring
    rw [e, Complex.norm_exp_ofReal_mul_I]
  rw [this, mul_one]

theorem fourierErr_nonneg {u : ℝ} (hu : 0 ≤ u) {nf : ℚ} (hnf : 0 ≤ nf) (L : ℕ) : 0 ≤ fourierErr u nf L := by
  have hnfR : (0 : ℝ) ≤ nf := by exact_mod_cast hnf
  have h4 : 1 ≤ (1 + u) ^ 4 := one_le_pow₀ (by linarith)
  have hL4 : 1 ≤ (1 + u) ^ (L + 4) := one_le_pow₀ (by linarith)
  have hp : 0 ≤ 2 * Real.pi * nf * L * ((1 + u) ^ 4 - 1) := mul_nonneg (by positivity) (by linarith)
  unfold fourierErr
  nlinarith

/-- `z'` is off by at most `τ * M` from `z`, whose absolute value is at most `M`. -/
def Within (τ M : ℝ) (z' z : ℂ) : Prop := ‖z‖ ≤ M ∧ ‖z' - z‖ ≤ τ * M

theorem FSyncCoeffs.near {u : ℝ} (hu : 0 ≤ u) (hu1 : u < 1) (hR : RoundsWithin u) {cal : κ → ℚ → Option ℂ} {s : Sync ℂ κ} (hs : WF s)
    {freq nper overlap : ℚ} {win : Win} {res : List (List ℂ)} {d : ℕ × ℕ × ℕ} (h : FSyncCoeffs u cal s freq nper overlap win res d)
    {W : ℝ} (hW : ∑ j ∈ Finset.range d.2.1, ‖winAt (win.eval d.2.1) j‖ ≤ W * d.2.1)
    {r : ℝ} (hr : fourierErr u (freq / s.rate) d.2.1 ≤ r) :
    res.length = s.data.length ∧ (∀ m < d.1, m * d.2.2 + d.2.1 ≤ s.size) ∧ 1 ≤ d.1 ∧
    ∀ i < s.data.length, ∀ M : ℝ, (∀ n < s.size, ‖physical cal freq s i n‖ ≤ M) → ∃ ri, res[i]? = some ri ∧
      List.Forall₂ (Within ((1 + u) * (1 + r) - 1) (2 * W * M)) ri (runCoeffs cal freq win s d i) := by
  obtain ⟨vs, co, hvs, hv0, hco, hres⟩ := h
  obtain ⟨Nw, L, sh⟩ := d
  simp only at hW hr
  obtain ⟨hl, hL, hsh, hall⟩ := C125_fourier u hu hu1 hR _ _ _ _ _ _ _ _ _ _ hco
  have hvl : vs.length = s.data.length := by
    have := congrArg List.length hvs
    simp only [List.length_map] at this
    rw [← this, hs.cals]
  have hrl : res.length = s.data.length := by
    rw [← hres.length_eq, List.length_zip, hl, hvl, min_self]
  have hsize : ∀ i (hi : i < s.data.length), (s.data[i]).length = s.size := fun i hi => hs.rect _ (List.getElem_mem hi)
  have h0 : 0 < s.data.length := List.length_pos_iff.2 hs.nonempty
  have hnw : ∀ k : ℕ, k < Nw ↔ k * sh + L ≤ s.size := by
    intro k
    have := (hall 0 _ (List.getElem?_eq_getElem h0)).1 k
    rwa [hsize 0 h0] at this
  have hnfpos : 0 ≤ freq / s.rate ∧ 1 ≤ Nw := by
    obtain ⟨N, n, L', shift', x, hN, hd, hw, hx, hres', Nw', hNw, he⟩ := hco
    obtain ⟨hnf', hfit⟩ := discreteWindow_fits hu1 hR hd
    refine ⟨((rnd_sign hu1 hR _).2.2 hnf').le, ?_⟩
    simp only [Prod.mk.injEq] at he
    obtain ⟨rfl, rfl, rfl⟩ := he
    have hNs : N = s.size := by
      have := (Razorback.Fourier.commonLength_some.1 hN).2 _ (List.getElem_mem h0)
      rw [← this, hsize 0 h0]
    rw [Nat.one_le_iff_ne_zero, ← Nat.pos_iff_ne_zero, hnw, ← hNs]
    omega
  have hr0 : 0 ≤ r := (fourierErr_nonneg hu hnfpos.1 L).trans hr
  refine ⟨hrl, fun m hm => (hnw m).1 hm, hnfpos.2, ?_⟩
  intro i hi M hM
  obtain ⟨-, ri, hri, hril, herr⟩ := hall i _ (List.getElem?_eq_getElem hi)
  have hic : i < co.length := by rw [hl]; exact hi
  obtain rfl : co[i] = ri := by rw [List.getElem?_eq_getElem hic] at hri; exact Option.some.inj hri
  have hiv : i < vs.length := by rw [hvl]; exact hi
  have hir : i < res.length := by rw [hrl]; exact hi
  have hdiv := hres.get (i := i) (by simp [hl, hvl, hi]) hir
  simp only [List.get_eq_getElem, List.getElem_zip] at hdiv
  refine ⟨res[i], List.getElem?_eq_getElem hir, ?_⟩
  have hdl := hdiv.length_eq
  have hk : i < s.cals.length := by rw [hs.cals]; exact hi
  have hcal : cal s.cals[i] freq = some vs[i] := by
    have := congrArg (fun l => l[i]?) hvs
    simp only [List.getElem?_map, List.getElem?_eq_getElem hk, List.getElem?_eq_getElem hiv, Option.map_some, Option.some.injEq] at this
    exact this
  have hphys : ∀ m, physical cal freq s i m = s.data[i].getD m 0 / vs[i] := by
    intro m
    simp only [physical, List.getElem?_eq_getElem hk, Option.bind_some, hcal, Option.getD_some]
    rw [List.getD_eq_getElem?_getD (l := s.data), List.getElem?_eq_getElem hi, Option.getD_some]
  rw [List.forall₂_iff_get]
  refine ⟨by simp [runCoeffs, ← hdl, hril], ?_⟩
  intro k h1 h2
  have hkN : k < Nw := by simpa [runCoeffs] using h2
  have hkc : k < (co[i]).length := by rw [hril]; exact hkN
  have hfit := (hnw k).1 hkN
  have hz := herr k _ (List.getElem?_eq_getElem hkc)
  have hnear := hdiv.get (i := k) hkc h1
  simp only [List.get_eq_getElem] at hnear ⊢
  simp only [runCoeffs, List.getElem_map, List.getElem_range]
  set P := (List.range s.size).map (physical cal freq s i) with hP
  have hPget : ∀ j < L, P.getD (k * sh + j) 0 = s.data[i].getD (k * sh + j) 0 / vs[i] := by
    intro j hj
    have : k * sh + j < s.size := by omega
    rw [hP, List.getD_eq_getElem?_getD, List.getElem?_map, List.getElem?_range this, Option.map_some, Option.getD_some, hphys]
  have hF : fourierAt (freq / s.rate) L (win.eval L) P (k * sh) = fourierAt (freq / s.rate) L (win.eval L) s.data[i] (k * sh) / vs[i] := by
    unfold fourierAt
    rw [mul_div_assoc, Finset.sum_div]
    congr 1
    refine Finset.sum_congr rfl (fun j hj => ?_)
    rw [hPget j (Finset.mem_range.1 hj), mul_div_assoc]
  have hv : vs[i] ≠ 0 := hv0 _ (List.getElem_mem hiv)
  have hvn : 0 < ‖vs[i]‖ := norm_pos_iff.2 hv
  have hL0 : (0 : ℝ) < L := by exact_mod_cast hL
  have hsum : 2 / L * ∑ j ∈ Finset.range L, ‖winAt (win.eval L) j‖ * ‖P.getD (k * sh + j) 0‖ ≤ 2 * W * M := by
    have hb : ∑ j ∈ Finset.range L, ‖winAt (win.eval L) j‖ * ‖P.getD (k * sh + j) 0‖ ≤ (W * L) * M := by
      have hM0 : 0 ≤ M := (norm_nonneg _).trans (hM (k * sh) (by omega))
      refine le_trans ?_ (mul_le_mul_of_nonneg_right hW hM0)
      rw [Finset.sum_mul]
      refine Finset.sum_le_sum (fun j hj => mul_le_mul_of_nonneg_left ?_ (norm_nonneg _))
      have hj' := Finset.mem_range.1 hj
      rw [hPget j hj', ← hphys]
      exact hM _ (by omega)
    calc _ ≤ 2 / (L : ℝ) * ((W * L) * M) := mul_le_mul_of_nonneg_left hb (by positivity)
      _ = _ := by field_simp
  have hF1 := (fourierAt_norm (freq / s.rate) L (win.eval L) P (k * sh)).trans hsum
  have hM0 : 0 ≤ 2 * W * M := (norm_nonneg _).trans hF1
  refine ⟨hF1, ?_⟩
  have hd : ‖(co[i])[k] / vs[i] - fourierAt (freq / s.rate) L (win.eval L) P (k * sh)‖ ≤ r * (2 * W * M) := by
    rw [hF, ← sub_div, norm_div, div_le_iff₀ hvn]
    refine hz.trans ?_
    have e : (2 / L * ∑ j ∈ Finset.range L, ‖winAt (win.eval L) j‖ * ‖s.data[i].getD (k * sh + j) 0‖ : ℝ) =
        (2 / L * ∑ j ∈ Finset.range L, ‖winAt (win.eval L) j‖ * ‖P.getD (k * sh + j) 0‖) * ‖vs[i]‖ := by
      rw [mul_assoc, Finset.sum_mul]
      congr 1
      refine Finset.sum_congr rfl (fun j hj => ?_)
      rw [hPget j (Finset.mem_range.1 hj), norm_div]
      field_simp
    rw [e, ← mul_assoc]
    refine mul_le_mul_of_nonneg_right ?_ hvn.le
    exact mul_le_mul hr hsum (by positivity) hr0
  have hn : ‖(co[i])[k] / vs[i]‖ ≤ (1 + r) * (2 * W * M) := by
    have := norm_le_norm_add_norm_sub' ((co[i])[k] / vs[i]) (fourierAt (freq / s.rate) L (win.eval L) P (k * sh))
    linarith
  have hnear' : ‖(res[i])[k] - (co[i])[k] / vs[i]‖ ≤ u * ((1 + r) * (2 * W * M)) := le_trans hnear (mul_le_mul_of_nonneg_left hn hu)
  have htri : ‖(res[i])[k] - fourierAt (freq / s.rate) L (win.eval L) P (k * sh)‖ ≤ ‖(res[i])[k] - (co[i])[k] / vs[i]‖ +
      ‖(co[i])[k] / vs[i] - fourierAt (freq / s.rate) L (win.eval L) P (k * sh)‖ := norm_sub_le_norm_sub_add_norm_sub _ _ _
  calc _ ≤ _ := htri
    _ ≤ _ := add_le_add hnear' hd
    _ = _ := by ring

theorem FSetCoeffs.near {u : ℝ} (hu : 0 ≤ u) (hu1 : u < 1) (hR : RoundsWithin u) {cal : κ → ℚ → Option ℂ} {S : SigSet ℂ κ} {n : ℕ}
    (hS : ∀ s ∈ S.runs, WF s ∧ s.data.length = n) {freq nper overlap : ℚ} {win : Win} {co : List (List ℂ)} {ds : List (ℕ × ℕ × ℕ)}
    (h : FSetCoeffs u cal S freq nper overlap win co ds)
    {W : ℝ} (hW : ∀ d ∈ ds, ∑ j ∈ Finset.range d.2.1, ‖winAt (win.eval d.2.1) j‖ ≤ W * d.2.1)
    {r : ℝ} (hr : ∀ p ∈ S.runs.zip ds, fourierErr u (freq / p.1.rate) p.2.2.1 ≤ r) :
    co.length = n ∧ ds.length = S.runs.length ∧ 1 ≤ (ds.map Prod.fst).sum ∧
      ∀ i < n, ∀ M : ℝ, (∀ s ∈ S.runs, ∀ m < s.size, ‖physical cal freq s i m‖ ≤ M) → ∃ ci, co[i]? = some ci ∧
      List.Forall₂ (Within ((1 + u) * (1 + r) - 1) (2 * W * M)) ci (exactCoeffs cal freq win S.runs ds i) := by
  obtain ⟨hne, l, hl, rfl, rfl⟩ := h
  have hrun : ∀ s ∈ S.runs, WF s ∧ s.data.length = n := hS
  have hlne : l.map Prod.fst ≠ [] := by
    intro h0
    have := hl.length_eq
    rw [List.map_eq_nil_iff.1 h0] at this
    exact hne (List.length_eq_zero_iff.1 this)
  have key : ∀ p ∈ S.runs.zip l, p.2.1.length = n ∧ 1 ≤ p.2.2.1 ∧
      ∀ i < n, ∀ M : ℝ, (∀ m < p.1.size, ‖physical cal freq p.1 i m‖ ≤ M) → ∃ ri, p.2.1[i]? = some ri ∧
      List.Forall₂ (Within ((1 + u) * (1 + r) - 1) (2 * W * M)) ri (runCoeffs cal freq win p.1 p.2.2 i) := by
    intro p hp
    obtain ⟨k, hk, rfl⟩ := List.getElem_of_mem hp
    have hk' : k < S.runs.length ∧ k < l.length := by simpa [List.length_zip] using hk
    have hF := hl.get hk'.1 hk'.2
    simp only [List.get_eq_getElem] at hF
    simp only [List.getElem_zip]
    obtain ⟨hwf, hn⟩ := hrun _ (List.getElem_mem hk'.1)
    have hpz : (S.runs[k], (l[k]).2) ∈ S.runs.zip (l.map Prod.snd) := by
      refine List.mem_iff_getElem.2 ⟨k, by simp [List.length_zip, hk'.1, hk'.2], by simp⟩
    have hr' : fourierErr u (freq / (S.runs[k]).rate) (l[k]).2.2.1 ≤ r := by
      have hr1 := hr (S.runs[k], (l[k]).2) hpz
      dsimp only at hr1
      exact hr1
    have hW' := hW (l[k]).2 (List.mem_map_of_mem (List.getElem_mem hk'.2))
    obtain ⟨h1, -, h3, h4⟩ := FSyncCoeffs.near hu hu1 hR hwf hF hW' hr'
    rw [hn] at h1 h4
    exact ⟨h1, h3, h4⟩
  have hall : ∀ x ∈ l.map Prod.fst, x.length = n := by
    intro x hx
    obtain ⟨p, hp, rfl⟩ := List.mem_map.1 hx
    obtain ⟨k, hk, rfl⟩ := List.getElem_of_mem hp
    have hk2 : k < S.runs.length := by rw [hl.length_eq]; exact hk
    exact (key (S.runs[k], l[k]) (List.mem_iff_getElem.2 ⟨k, by simp [hk, hk2], by simp⟩)).1
  obtain ⟨hz1, hz2⟩ := zipStar_eq hlne hall
  refine ⟨by rw [List.length_map, hz1], by rw [List.length_map, hl.length_eq], ?_, ?_⟩
  · obtain ⟨p, l', hpl⟩ := List.exists_cons_of_ne_nil (l := l) (by intro h0; simp [h0] at hlne)
    obtain ⟨s, runs, hsr⟩ := List.exists_cons_of_ne_nil hne
    have := (key (s, p) (by rw [hpl, hsr]; simp)).2.1
    rw [hpl]
    simp only [List.map_cons, List.sum_cons] at this ⊢
    omega
  · intro i hi M hM
    refine ⟨_, by rw [List.getElem?_map, hz2 i hi, Option.map_some], ?_⟩
    clear hz1 hz2 hall hlne hW hr hne hrun hS
    unfold exactCoeffs
    generalize S.runs = runs at *
    induction hl with
    | nil => exact .nil
    | @cons s p runs l hsp _ ih =>
      obtain ⟨ri, hri, hF⟩ := (key (s, p) (by simp)).2.2 i hi M (hM s (by simp))
      simp only [List.map_cons, List.filterMap_cons, hri, List.flatten_cons, List.zip_cons_cons]
      exact List.rel_append hF (ih (fun p hp => key p (by simp only [List.zip_cons_cons, List.mem_cons]; exact .inr hp))
        (fun s hs => hM s (by simp [hs])))

/-- The exact coefficients are as many as the windows, whatever the channel. -/
theorem exactCoeffs_length (cal : κ → ℚ → Option ℂ) (freq : ℚ) (win : Win) (runs : List (Sync ℂ κ)) (ds : List (ℕ × ℕ × ℕ)) (h : ds.length = runs.length)
    (i : ℕ) : (exactCoeffs cal freq win runs ds i).length = (ds.map Prod.fst).sum := by
  unfold exactCoeffs
  induction runs generalizing ds with
  | nil => simp at h; simp [h]
  | cons s runs ih =>
    cases ds with
    | nil => simp at h
    | cons d ds =>
      simp only [List.zip_cons_cons, List.map_cons, List.flatten_cons, List.length_append, List.sum_cons]
      rw [ih ds (by simpa using h)]
      simp [runCoeffs]

/-- The exact coefficients of a combination of channels. -/
theorem exactCoeffs_comb {q : ℕ} (cal : κ → ℚ → Option ℂ) (freq : ℚ) (win : Win) (runs : List (Sync ℂ κ)) (ds : List (ℕ × ℕ × ℕ)) (h : ds.length = runs.length)
    (i : ℕ) (c : Fin q → ℕ) (T : Fin q → ℂ) (hT : ∀ s ∈ runs, ∀ n < s.size, physical cal freq s i n = ∑ j, T j * physical cal freq s (c j) n) (n : ℕ) :
    (exactCoeffs cal freq win runs ds i).getD n 0 = ∑ j, T j * (exactCoeffs cal freq win runs ds (c j)).getD n 0 := by
  unfold exactCoeffs
  induction runs generalizing ds n with
  | nil => simp
  | cons s runs ih =>
    cases ds with
    | nil => simp
    | cons d ds =>
      simp only [List.zip_cons_cons, List.map_cons, List.flatten_cons]
      have hlen : ∀ i, (runCoeffs cal freq win s d i).length = d.1 := fun i => by simp [runCoeffs]
      by_cases hn : n < d.1
      · have hleft : ∀ i (l : List ℂ), (runCoeffs cal freq win s d i ++ l).getD n 0 =
            fourierAt (freq / s.rate) d.2.1 (win.eval d.2.1) ((List.range s.size).map (physical cal freq s i)) (n * d.2.2) := by
          intro i l
          rw [List.getD_eq_getElem?_getD, List.getElem?_append_left (by rw [hlen]; exact hn), ← List.getD_eq_getElem?_getD]
          unfold runCoeffs
          rw [List.getD_eq_getElem?_getD, List.getElem?_map, List.getElem?_range hn, Option.map_some, Option.getD_some]
        simp only [hleft]
        unfold fourierAt
        simp only [Finset.mul_sum]
        rw [Finset.sum_comm]
        refine Finset.sum_congr rfl (fun k _ => ?_)
        have hp : ∀ i, ((List.range s.size).map (physical cal freq s i)).getD (n * d.2.2 + k) 0 =
            if n * d.2.2 + k < s.size then physical cal freq s i (n * d.2.2 + k) else 0 := by
          intro i
          rw [List.getD_eq_getElem?_getD, List.getElem?_map]
          split
          · rename_i h; rw [List.getElem?_range h, Option.map_some, Option.getD_some]
          · rename_i h; rw [List.getElem?_eq_none (by simpa using h)]; rfl
        simp only [hp]
        split
        · rename_i hlt
          rw [hT s (by simp) _ hlt, Finset.mul_sum, Finset.mul_sum]
          exact Finset.sum_congr rfl (fun j _ => by ring)
        · simp
      · have hright : ∀ i (l : List ℂ), (runCoeffs cal freq win s d i ++ l).getD n 0 = l.getD (n - d.1) 0 := by
          intro i l
          rw [List.getD_eq_getElem?_getD, List.getElem?_append_right (by rw [hlen]; omega), hlen, ← List.getD_eq_getElem?_getD]
        simp only [hright]
        exact ih ds (by simpa using h) (fun s hs => hT s (by simp [hs])) _

end coeffs

section impedance
variable {κ σ : Type}

theorem within_get {τ M : ℝ} {l' l : List ℂ} (h : List.Forall₂ (Within τ M) l' l) {n : ℕ} (hn : n < l.length) : Within τ M (l'.getD n 0) (l.getD n 0) := by
  have hl := h.length_eq
  have := h.get (i := n) (by omega) hn
  simp only [List.get_eq_getElem] at this
  rw [getD_at (by omega), getD_at hn]
  exact this

/-- Least squares on perturbed channels which fit exactly without the perturbation. -/
theorem FWlse.exact_fit {u c τ : ℝ} (hu : 0 ≤ u) (hc : 0 ≤ c) (hτ : 0 ≤ τ) {q N : ℕ} {b : List (List ℂ)} (hq : b.length = q) {xin : Fin q → List ℂ}
    {M t : ℝ} (hM : 0 ≤ M) (ht : 0 ≤ t) (hN : ∀ j, (xin j).length = N) (hb : ∀ j : Fin q, List.Forall₂ (Within τ M) (b[j]'(by omega)) (xin j)) {y y' : List ℂ}
    (hyN : y.length = N) (hy : List.Forall₂ (Within τ (M * t)) y' y) {T : Fin q → ℂ} (hT : ‖T‖ ≤ t) (hfit : ∀ n < N, y.getD n 0 = ∑ j, T j * (xin j).getD n 0)
    (hdet : ((design xin N)ᴴ * design xin N).det ≠ 0) {v : Fin b.length → ℂ} (h : FWlse u c y' (rowsOf (Impedance.cols b) y'.length) none v)
    {K : ℝ} (hK : K = ‖((design xin N)ᴴ * design xin N)⁻¹‖ * N * M ^ 2) (hlt : K * matErr u c τ N q < 1) (j : Fin q) :
    ‖v (Fin.cast hq.symm j) - T j‖ ≤ K * (sumErr u τ N + matErr u c τ N q) * t / (1 - K * matErr u c τ N q) := by
  subst hq
  have hyl : y'.length = N := by rw [hy.length_eq, hyN]
  rw [hyl] at h
  have hrow : ∀ (f : Fin b.length → List ℂ) (n : ℕ), n < N → (rowsOf f N).getD n 0 = fun j => (f j).getD n 0 := by
    intro f n hn
    rw [List.getD_eq_getElem?_getD]
    simp [rowsOf, List.getElem?_range hn]
  have hgd := gram_design xin N
  rw [← hgd] at hdet hK
  have hS : ∑ n ∈ Finset.range N, weightAt none n = (N : ℝ) := by simp [weightAt]
  have hnormal : gram (rowsOf xin N) none *ᵥ T = rhs y (rowsOf xin N) none := by
    funext j
    rw [rhs_sum y _ none hyN (by simp [rowsOf]) (by simp), Matrix.mulVec, dotProduct]
    simp only [gram_sum (rowsOf xin N) none (N := N) (by simp [rowsOf]) (by simp), weightAt, RCLike.ofReal_one, one_mul, Finset.sum_mul]
    rw [Finset.sum_comm]
    refine Finset.sum_congr rfl (fun n hn => ?_)
    rw [hfit n (Finset.mem_range.1 hn), Finset.mul_sum]
    refine Finset.sum_congr rfl (fun k _ => ?_)
    rw [hrow xin n (Finset.mem_range.1 hn)]
    ring
  have hm0 : 0 ≤ matErr u c τ N b.length := by
    have := sumErr_nonneg hu hτ N
    unfold matErr; positivity
  have hg0 := sumErr_nonneg hu hτ N
  have main := FWlse.near hu hc hτ hyN hyl (y := rowsOf xin N) (y' := rowsOf (Impedance.cols b) N) (by simp [rowsOf]) (by simp [rowsOf])
    (w := none) (fun n _ => by simp [weightAt]) hM (mul_nonneg hM ht)
    (fun n hn j => by
      rw [hrow _ n hn, hrow _ n hn]
      exact within_get (hb j) (by rw [hN]; exact hn))
    (fun n hn => within_get hy (by rw [hyN]; exact hn)) hdet hnormal h (K := ‖(gram (rowsOf xin N) none)⁻¹‖ * N) (by rw [hS]) (by rw [← hK]; exact hlt)
  rw [← hK] at main
  refine (norm_le_pi_norm (v - T) j).trans (main.trans ?_)
  refine div_le_div_of_nonneg_right ?_ (by linarith)
  calc _ ≤ ‖(gram (rowsOf xin N) none)⁻¹‖ * N * (sumErr u τ N * (M * (M * t)) + matErr u c τ N b.length * M ^ 2 * t) := by gcongr
    _ = _ := by rw [hK]; ring

/-- **C126.** Noise free recordings, from the samples to the impedance in floating point.  If in physical units each electric channel is at
every sample the combination of the magnetic channels with coefficients `z`, every result of `impedance` (least squares, no remote
reference, no prefilter) differs from `z` by at most a relative error which is explicit in the error `u` of the operations, the error `r` of
the Fourier coefficients, the number `N` of windows and the condition `K` of the magnetic channels. -/
theorem C126_impedance [One κ] [Rnd] (u c : ℝ) (hu : 0 ≤ u) (hu1 : u < 1) (hc : 0 ≤ c) (hR : RoundsWithin u) (cal : κ → ℚ → Option ℂ) (S : SigSet ℂ κ)
    (hS : Reach S) (freq : ℚ) (o : Impedance.Opts σ) (E B : List ℕ) (hch : Channels S o E B none) (Z : List (List ℂ)) (ds : List (ℕ × ℕ × ℕ))
    (h : FImpedance u c cal S freq o Z ds) (z : ℕ → ℕ → ℂ)
    (hz : ∀ s ∈ S.runs, ∀ i (hi : i < E.length), ∀ n < s.size, physical cal freq s E[i] n = ∑ j : Fin B.length, z i j * physical cal freq s B[j] n)
    (M : ℝ) (hM0 : 0 ≤ M) (hM : ∀ s ∈ S.runs, ∀ k ∈ B, ∀ n < s.size, ‖physical cal freq s k n‖ ≤ M)
    (W : ℝ) (hW : ∀ d ∈ ds, ∑ j ∈ Finset.range d.2.1, ‖winAt (o.win.eval d.2.1) j‖ ≤ W * d.2.1)
    (r : ℝ) (hr0 : 0 ≤ r) (hr : ∀ p ∈ S.runs.zip ds, fourierErr u (freq / p.1.rate) p.2.2.1 ≤ r)
    (N : ℕ) (hN : N = (ds.map Prod.fst).sum) (D : Matrix (Fin N) (Fin B.length) ℂ)
    (hD : ∀ n j, D n j = (exactCoeffs cal freq o.win S.runs ds B[j]).getD n 0) (hdet : (Dᴴ * D).det ≠ 0)
    (K τ : ℝ) (hK : K = ‖(Dᴴ * D)⁻¹‖ * N * (2 * W * M) ^ 2) (hτ : τ = (1 + u) * (1 + r) - 1) (hlt : K * matErr u c τ N B.length < 1) :
    Z.length = E.length ∧ ∀ i (_ : i < E.length) (l : List ℂ), Z[i]? = some l → l.length = B.length ∧ ∀ j (_ : j < B.length) (v : ℂ), l[j]? = some v →
      ‖v - z i j‖ ≤ K * (sumErr u τ N + matErr u c τ N B.length) * (∑ j ∈ Finset.range B.length, ‖z i j‖) / (1 - K * matErr u c τ N B.length) := by
  obtain ⟨E', B', co, e, b, hE', hB', hco, he, hb, hZ⟩ := h
  obtain rfl : E' = E := by have := hch.elec; rw [hE'] at this; exact Except.ok.inj this
  obtain rfl : B' = B := by have := hch.mag; rw [hB'] at this; exact Except.ok.inj this
  have hinv := reach_sinv hS
  obtain ⟨hcol, hdl, hN1, hnear⟩ := FSetCoeffs.near hu hu1 hR (n := S.tags.n)
    (fun s hs => ⟨hinv.okAs.wf s hs, (hinv.n s hs).symm⟩) hco hW hr
  have heq := picked_eq (Impedance.pick_ok.1 he)
  have hbq := picked_eq (Impedance.pick_ok.1 hb)
  have hτ0 : 0 ≤ τ := by rw [hτ]; nlinarith
  have hbl : b.length = B'.length := by rw [hbq.1]; simp
  have hxlen : ∀ k, (exactCoeffs cal freq o.win S.runs ds k).length = N := by
    intro k; rw [exactCoeffs_length cal freq o.win S.runs ds hdl, hN]
  obtain ⟨-, l0, hl0, -, hds⟩ := hco
  have hdsne : ds ≠ [] := by
    intro h0
    rw [h0] at hN1
    simp at hN1
  obtain ⟨d0, hd0⟩ := List.exists_mem_of_ne_nil _ hdsne
  have hW0 : 0 ≤ W := by
    by_contra hneg
    obtain ⟨p, hp, rfl⟩ := List.mem_map.1 (hds ▸ hd0)
    obtain ⟨s, hs, hF⟩ := forall₂_right hl0 p hp
    obtain ⟨vs, co', -, -, hft, -⟩ := hF
    obtain ⟨-, hL, -⟩ := C125_fourier u hu hu1 hR _ _ _ _ _ _ _ p.2.1 p.2.2.1 p.2.2.2 hft
    have h1 := hW _ hd0
    have h2 : (0 : ℝ) ≤ ∑ j ∈ Finset.range p.2.2.1, ‖winAt (o.win.eval p.2.2.1) j‖ := Finset.sum_nonneg (fun _ _ => norm_nonneg _)
    have h3 : (0 : ℝ) < p.2.2.1 := by exact_mod_cast hL
    have h4 : W * p.2.2.1 < 0 := mul_neg_of_neg_of_pos (not_le.1 hneg) h3
    linarith
  have hZl : Z.length = E'.length := by rw [← hZ.length_eq, heq.1]; simp
  refine ⟨hZl, ?_⟩
  intro i hi l hl
  have hiZ : i < Z.length := by omega
  obtain rfl : Z[i] = l := by rw [List.getElem?_eq_getElem hiZ] at hl; exact Option.some.inj hl
  have hie : i < e.length := by rw [heq.1]; simpa using hi
  obtain ⟨v, hv, hvZ⟩ := hZ.get hie hiZ
  simp only [List.get_eq_getElem] at hv hvZ
  rw [hvZ]
  refine ⟨by simp [hbl], ?_⟩
  intro j hj w hw
  obtain rfl : v ⟨j, by omega⟩ = w := by
    rw [List.getElem?_ofFn, dif_pos (by omega)] at hw
    exact Option.some.inj hw
  set t := ∑ j ∈ Finset.range B'.length, ‖z i j‖ with ht
  have ht0 : 0 ≤ t := Finset.sum_nonneg (fun _ _ => norm_nonneg _)
  have htF : t = ∑ j : Fin B'.length, ‖z i j‖ := by rw [ht, Finset.sum_range]
  set xin : Fin B'.length → List ℂ := fun j => exactCoeffs cal freq o.win S.runs ds B'[j] with hxin
  have hDd : D = design xin N := by
    ext n j
    rw [hD]
    rfl
  have hnB : ∀ k ∈ B', k < S.tags.n := fun k hk => by rw [← hcol]; exact (hbq.2 k hk).2
  have hnE : ∀ k ∈ E', k < S.tags.n := fun k hk => by rw [← hcol]; exact (heq.2 k hk).2
  have hbj : ∀ j : Fin B'.length, List.Forall₂ (Within τ (2 * W * M)) (b[j]'(by omega)) (xin j) := by
    intro j
    obtain ⟨ci, hci, hF⟩ := hnear B'[j] (hnB _ (List.getElem_mem _)) M (fun s hs m hm => hM s hs _ (List.getElem_mem _) m hm)
    have : b[j]'(by omega) = ci := by
      simp only [hbq.1, Fin.getElem_fin, List.getElem_map]
      rw [List.getD_eq_getElem?_getD]
      simp only [Fin.getElem_fin] at hci
      rw [hci, Option.getD_some]
    rw [this, hτ]
    exact hF
  have hye : List.Forall₂ (Within τ (2 * W * M * t)) e[i] (exactCoeffs cal freq o.win S.runs ds E'[i]) := by
    obtain ⟨ci, hci, hF⟩ := hnear E'[i] (hnE _ (List.getElem_mem _)) (M * t) (by
      intro s hs m hm
      rw [hz s hs i hi m hm, htF, Finset.mul_sum]
      refine (norm_sum_le _ _).trans (Finset.sum_le_sum (fun j _ => ?_))
      rw [norm_mul, mul_comm]
      exact mul_le_mul_of_nonneg_right (hM s hs _ (List.getElem_mem _) m hm) (norm_nonneg _))
    have : e[i] = ci := by
      simp only [heq.1, List.getElem_map]
      rw [List.getD_eq_getElem?_getD, hci, Option.getD_some]
    rw [this, hτ, mul_assoc (2 * W)]
    exact hF
  have hTn : ‖(fun j : Fin B'.length => z i j)‖ ≤ t := by
    rw [pi_norm_le_iff_of_nonneg ht0]
    intro j
    rw [htF]
    exact Finset.single_le_sum (f := fun j : Fin B'.length => ‖z i j‖) (fun _ _ => norm_nonneg _) (Finset.mem_univ j)
  rw [hDd] at hdet hK
  exact FWlse.exact_fit hu hc hτ0 hbl (by positivity) ht0 (fun j => hxlen _) hbj (hxlen _) hye hTn
    (fun n _ => exactCoeffs_comb cal freq o.win S.runs ds hdl E'[i] (fun j : Fin B'.length => B'[j]) (fun j => z i j) (fun s hs n hn => hz s hs i hi n hn) n)
    hdet hv hK hlt ⟨j, hj⟩

/-- The exact coefficients are possible ones. -/
theorem FSetCoeffs.of_exact {u : ℝ} (hu : 0 ≤ u) {cal : κ → ℚ → Option ℂ} {S : SigSet ℂ κ} {freq nper overlap : ℚ} {win : Win}
    {co : List (List ℂ)} {w : List ℕ × List ℕ × List ℕ} (hf : setCoeffs cal S freq nper overlap win = .ok (co, w))
    (hcal : ∀ s ∈ S.runs, ∀ k ∈ s.cals, cal k freq ≠ some 0) :
    ∃ ds, FSetCoeffs u cal S freq nper overlap win co ds ∧ w = (ds.map (fun d => d.1), ds.map (fun d => d.2.1), ds.map (fun d => d.2.2)) := by
  unfold setCoeffs at hf
  cases hm : mapE (fun s => syncCoeffs cal s freq nper overlap win) S.runs with
  | error x => rw [hm] at hf; simp at hf
  | ok l =>
    rw [hm] at hf
    have hne : l ≠ [] := by rintro rfl; simp at hf
    obtain ⟨hco, hwd⟩ : co = (zipStar (l.map Prod.fst)).map List.flatten ∧
        w = ((l.map Prod.snd).map (fun d => d.1), (l.map Prod.snd).map (fun d => d.2.1), (l.map Prod.snd).map (fun d => d.2.2)) := by
      obtain ⟨p, l', rfl⟩ := List.exists_cons_of_ne_nil hne
      simp only [Except.ok.injEq, Prod.mk.injEq] at hf
      refine ⟨hf.1.symm, ?_⟩
      rw [← hf.2]
      simp [List.map_map, Function.comp_def]
    have hF := mapE_ok.1 hm
    refine ⟨l.map Prod.snd, ⟨?_, l, ?_, hco, rfl⟩, hwd⟩
    · intro h0
      have := hF.length_eq
      rw [h0] at this
      exact hne (List.length_eq_zero_iff.1 this.symm)
    · have hF' : List.Forall₂ (fun s p => s ∈ S.runs ∧ syncCoeffs cal s freq nper overlap win = .ok p) S.runs l := by
        rw [List.forall₂_iff_get] at hF ⊢
        exact ⟨hF.1, fun i h1 h2 => ⟨List.get_mem _ _, hF.2 i h1 h2⟩⟩
      refine hF'.imp ?_
      rintro s ⟨p, d⟩ ⟨hs, hsp⟩
      obtain ⟨hn, raw, hraw, rfl⟩ := syncCoeffs_ok.1 hsp
      refine ⟨s.cals.map (fun k => (cal k freq).getD 1), raw, ?_, ?_, C125_exact u hu _ _ _ _ _ _ _ _ hraw, ?_⟩
      · rw [List.map_map]
        refine List.map_congr_left (fun k hk => ?_)
        obtain ⟨v, hv⟩ := Option.ne_none_iff_exists'.1 (hn k hk)
        simp [hv]
      · intro v hv
        obtain ⟨k, hk, rfl⟩ := List.mem_map.1 hv
        obtain ⟨v, hv'⟩ := Option.ne_none_iff_exists'.1 (hn k hk)
        have := hcal s hs k hk
        rw [hv'] at this ⊢
        simpa using this
      · rw [List.forall₂_iff_get]
        refine ⟨by simp, ?_⟩
        intro i h3 h4
        simp only [List.get_eq_getElem, List.getElem_zip, List.getElem_zipWith, List.getElem_map]
        rw [List.forall₂_map_right_iff, List.forall₂_same]
        exact fun a _ => Near.refl hu _

/-- **C126.** The exact computation of `impedance` is one of the possible ones. -/
theorem C126_exact [One κ] (u c : ℝ) (hu : 0 ≤ u) (hc : 0 ≤ c) (cal : κ → ℚ → Option ℂ) (S : SigSet ℂ κ) (hS : Reach S) (freq : ℚ)
    (o : Impedance.Opts σ) (hw : o.weights = [none]) (hp : o.prefilter = none) (hrp : o.realPb = false) (E B : List ℕ) (hch : Channels S o E B none)
    (co : List (List ℂ)) (w : List ℕ × List ℕ × List ℕ) (hf : setCoeffs cal S freq o.nper o.overlap o.win = .ok (co, w))
    (hcal : ∀ s ∈ S.runs, ∀ k ∈ s.cals, cal k freq ≠ some 0)
    (hind : ChansIndependent (B.map (fun i => co.getD i [])) w.1.sum []) (heap : ℕ → σ) :
    ∃ r Z ds, Impedance.oneFreq cal S freq o heap = (.ok r, heap) ∧ r.impedance = Z.map (List.map some) ∧ FImpedance u c cal S freq o Z ds ∧
      w = (ds.map (fun d => d.1), ds.map (fun d => d.2.1), ds.map (fun d => d.2.2)) := by
  obtain ⟨e, b, br, he, hb, -, hene, hbne, heN, hbN⟩ := Impedance.reach_chans hS hch hf
  have heq := picked_eq he
  have hbq := picked_eq hb
  set N := w.1.sum with hN
  have hb0 : b.length ≠ 0 := by simpa using hbne
  have hind' : InputsIndependent (Impedance.cols b) N [] := by
    rw [← hbq.1] at hind
    intro d hd
    have := hind (List.ofFn d) (by simp) (by
      intro n hn _
      rw [combine_ofFn]
      exact hd n hn (by simp))
    funext j
    exact this (d j) (List.mem_ofFn.2 ⟨j, rfl⟩)
  have hin : ∀ j, (Impedance.cols b j).length = N := fun j => hbN _ (List.getElem_mem _)
  set f : ℕ → ℕ → ℂ := fun i n => (e.getD i []).getD n 0 with hfd
  have hee : e = (List.range e.length).map (fun i => (List.range N).map (f i)) := by
    apply List.ext_getElem
    · simp
    · intro i h1 h2
      rw [List.getElem_map, List.getElem_range]
      apply List.ext_getElem
      · rw [heN _ (List.getElem_mem h1)]; simp
      · intro n h3 h4
        rw [List.getElem_map, List.getElem_range]
        simp only [hfd]
        rw [getD_at h1, getD_at h3]
  set z : ℕ → Fin b.length → ℂ := fun i => (lsCoef (design (Impedance.cols b) N)).mulVec (fun n => f i n) with hz
  have hTF := transferFunction_ls (σ := σ) hb0 hin hind' e.length (by simpa using hene) f o.mest heap
  rw [← hee] at hTF
  obtain ⟨err, herr⟩ := (C50_succeeds_iff e (Impedance.cols b) ((List.range e.length).map z)
    (List.replicate ((List.range e.length).map z).length [])).2 ⟨hene, hb0, by simp, N, heN, hin, by
      intro d hd
      exact hind' d (fun n hn _ => by simpa only [mul_comm] using hd n hn)⟩
  obtain ⟨r, h1, h2, -⟩ := oneFreq_plain hw hp hrp hch hf he hb hene hb0 heN hbN heap (zz := (List.range e.length).map z)
    (by rw [hTF, List.map_map]; rfl) herr
  obtain ⟨ds, hds, hwd⟩ := FSetCoeffs.of_exact hu hf hcal
  refine ⟨r, ((List.range e.length).map z).map List.ofFn, ds, h1, ?_, ⟨E, B, co, e, b, hch.elec, hch.mag, hds, Impedance.pick_ok.2 he, Impedance.pick_ok.2 hb, ?_⟩, hwd⟩
  · rw [h2]; simp [List.map_map, Function.comp_def]
  · rw [List.map_map]
    conv => arg 2; rw [hee]
    rw [List.forall₂_map_left_iff, List.forall₂_map_right_iff, List.forall₂_same]
    intro i _
    refine ⟨z i, ?_, rfl⟩
    have := C126_exact_wlse u c hu hc ((List.range N).map (f i)) (rowsOf (Impedance.cols b) N) none (by simp [rowsOf]) (z i) (wlse_design hind' (f i))
    simpa using this

/-- **C126.** For given windows, as the precision increases, the impedance of noise free recordings tends to the true one. -/
theorem C126_precision [One κ] (c : ℝ) (hc : 0 ≤ c) (cal : κ → ℚ → Option ℂ) (S : SigSet ℂ κ) (freq : ℚ) (o : Impedance.Opts σ) (E B : List ℕ)
    (hch : Channels S o E B none) (ds : List (ℕ × ℕ × ℕ)) (z : ℕ → ℕ → ℂ)
    (hz : ∀ s ∈ S.runs, ∀ i (hi : i < E.length), ∀ n < s.size, physical cal freq s E[i] n = ∑ j : Fin B.length, z i j * physical cal freq s B[j] n)
    (hdet : ((design (fun j : Fin B.length => exactCoeffs cal freq o.win S.runs ds B[j]) (ds.map Prod.fst).sum)ᴴ *
      design (fun j : Fin B.length => exactCoeffs cal freq o.win S.runs ds B[j]) (ds.map Prod.fst).sum).det ≠ 0) (ε : ℝ) (hε : 0 < ε) :
    ∃ δ > 0, ∀ u : ℝ, 0 ≤ u → u ≤ δ → ∀ [Rnd], RoundsWithin u → Reach S → ∀ Z, FImpedance u c cal S freq o Z ds →
      ∀ (i j : ℕ) l v, Z[i]? = some l → l[j]? = some v → ‖v - z i j‖ ≤ ε := by
  obtain ⟨M, hM0, hM⟩ : ∃ M : ℝ, 0 ≤ M ∧ ∀ s ∈ S.runs, ∀ k ∈ B, ∀ n < s.size, ‖physical cal freq s k n‖ ≤ M := by
    have hb : ∀ s : Sync ℂ κ, ∀ k : ℕ, ∃ M : ℝ, 0 ≤ M ∧ ∀ n < s.size, ‖physical cal freq s k n‖ ≤ M := by
      intro s k
      refine ⟨∑ n ∈ Finset.range s.size, ‖physical cal freq s k n‖, Finset.sum_nonneg (fun _ _ => norm_nonneg _), ?_⟩
      intro n hn
      exact Finset.single_le_sum (f := fun n => ‖physical cal freq s k n‖) (fun _ _ => norm_nonneg _) (Finset.mem_range.2 hn)
    have hfin : ∀ (α : Type) (l : List α) (g : α → ℝ → Prop), (∀ a x y, x ≤ y → g a x → g a y) → (∀ a ∈ l, ∃ x : ℝ, 0 ≤ x ∧ g a x) →
        ∃ x : ℝ, 0 ≤ x ∧ ∀ a ∈ l, g a x := by
      intro α l g hmono
      induction l with
      | nil => intro _; exact ⟨0, le_rfl, by simp⟩
      | cons a l ih =>
        intro h
        obtain ⟨x, hx, h1⟩ := ih (fun a ha => h a (by simp [ha]))
        obtain ⟨y, hy, h2⟩ := h a (by simp)
        refine ⟨max x y, hx.trans (le_max_left _ _), ?_⟩
        intro a' ha'
        rcases List.mem_cons.1 ha' with rfl | ha'
        · exact hmono _ _ _ (le_max_right _ _) h2
        · exact hmono _ _ _ (le_max_left _ _) (h1 _ ha')
    refine hfin _ S.runs (fun s M => ∀ k ∈ B, ∀ n < s.size, ‖physical cal freq s k n‖ ≤ M) (fun s x y hxy h k hk n hn => (h k hk n hn).trans hxy) ?_
    intro s _
    exact hfin _ B (fun k M => ∀ n < s.size, ‖physical cal freq s k n‖ ≤ M) (fun k x y hxy h n hn => (h n hn).trans hxy) (fun k _ => hb s k)
  set W := (ds.map (fun d => ∑ j ∈ Finset.range d.2.1, ‖winAt (o.win.eval d.2.1) j‖)).sum with hW
  have hWd : ∀ d ∈ ds, ∑ j ∈ Finset.range d.2.1, ‖winAt (o.win.eval d.2.1) j‖ ≤ W * d.2.1 := by
    intro d hd
    have h1 : ∑ j ∈ Finset.range d.2.1, ‖winAt (o.win.eval d.2.1) j‖ ≤ W := List.single_le_sum (by
      intro x hx
      obtain ⟨d, -, rfl⟩ := List.mem_map.1 hx
      exact Finset.sum_nonneg (fun _ _ => norm_nonneg _)) _ (List.mem_map.2 ⟨d, hd, rfl⟩)
    rcases Nat.eq_zero_or_pos d.2.1 with h0 | h0
    · simp [h0]
    · refine h1.trans (le_mul_of_one_le_right ((Finset.sum_nonneg (fun _ _ => norm_nonneg _)).trans h1) ?_)
      exact_mod_cast h0
  set N := (ds.map Prod.fst).sum with hN
  set D := design (fun j : Fin B.length => exactCoeffs cal freq o.win S.runs ds B[j]) N with hD
  set K := ‖(Dᴴ * D)⁻¹‖ * N * (2 * W * M) ^ 2 with hK
  have hrow : ∀ i, ∃ δ > 0, ∀ u τ : ℝ, 0 ≤ u → u ≤ δ → 0 ≤ τ → τ ≤ δ → K * matErr u c τ N B.length < 1 ∧
      K * (sumErr u τ N + matErr u c τ N B.length) * (∑ j ∈ Finset.range B.length, ‖z i j‖) / (1 - K * matErr u c τ N B.length) < ε := by
    intro i
    set t := ∑ j ∈ Finset.range B.length, ‖z i j‖ with ht
    obtain ⟨δ, hδ, h⟩ := errors_vanish c K (K * t) (K * t) N B.length hε
    refine ⟨δ, hδ, fun u τ h1 h2 h3 h4 => ?_⟩
    obtain ⟨h5, h6⟩ := h u τ h1 h2 h3 h4
    refine ⟨h5, ?_⟩
    rwa [show K * (sumErr u τ N + matErr u c τ N B.length) * t = K * t * sumErr u τ N + K * t * matErr u c τ N B.length by ring]
  obtain ⟨δ1, hδ1, hall⟩ : ∃ δ > 0, ∀ i < E.length, ∀ u τ : ℝ, 0 ≤ u → u ≤ δ → 0 ≤ τ → τ ≤ δ → K * matErr u c τ N B.length < 1 ∧
      K * (sumErr u τ N + matErr u c τ N B.length) * (∑ j ∈ Finset.range B.length, ‖z i j‖) / (1 - K * matErr u c τ N B.length) < ε := by
    have : ∀ m, ∃ δ > 0, ∀ i < m, ∀ u τ : ℝ, 0 ≤ u → u ≤ δ → 0 ≤ τ → τ ≤ δ → K * matErr u c τ N B.length < 1 ∧
        K * (sumErr u τ N + matErr u c τ N B.length) * (∑ j ∈ Finset.range B.length, ‖z i j‖) / (1 - K * matErr u c τ N B.length) < ε := by
      intro m
      induction m with
      | zero => exact ⟨1, one_pos, by simp⟩
      | succ m ih =>
        obtain ⟨δ, hδ, h⟩ := ih
        obtain ⟨δ', hδ', h'⟩ := hrow m
        refine ⟨min δ δ', lt_min hδ hδ', ?_⟩
        intro i hi u τ h1 h2 h3 h4
        rcases Nat.lt_succ_iff_lt_or_eq.1 hi with hi | rfl
        · exact h i hi u τ h1 (h2.trans (min_le_left _ _)) h3 (h4.trans (min_le_left _ _))
        · exact h' u τ h1 (h2.trans (min_le_right _ _)) h3 (h4.trans (min_le_right _ _))
    exact this E.length
  -- the errors of the coefficients
  set ρ : ℝ → ℝ := fun u => ((S.runs.zip ds).map (fun p => |fourierErr u (freq / p.1.rate) p.2.2.1|)).sum with hρ
  have hρc : Continuous (fun u => (1 + u) * (1 + ρ u) - 1) := by
    have : Continuous ρ := by
      simp only [hρ]
      generalize S.runs.zip ds = L
      induction L with
      | nil => simpa using continuous_const
      | cons p L ih =>
        simp only [List.map_cons, List.sum_cons]
        refine Continuous.add (Continuous.abs ?_) ih
        unfold fourierErr
        fun_prop
    fun_prop
  have hρ0 : ρ 0 = 0 := by
    simp only [hρ]
    have : ∀ p : Sync ℂ κ × (ℕ × ℕ × ℕ), |fourierErr 0 (freq / p.1.rate) p.2.2.1| = 0 := fun p => by simp [fourierErr]
    simp [this]
  obtain ⟨δ2, hδ2, hsm⟩ := Metric.eventually_nhds_iff.1 ((hρc.tendsto 0).eventually_lt_const (u := δ1) (by simpa [hρ0] using hδ1))
  refine ⟨min (min δ1 (δ2 / 2)) (1 / 2), by positivity, ?_⟩
  intro u hu huδ inst hR hS Z hF i j l v hl hv
  have hu1 : u < 1 := lt_of_le_of_lt (huδ.trans (min_le_right _ _)) (by norm_num)
  have hud1 : u ≤ δ1 := huδ.trans ((min_le_left _ _).trans (min_le_left _ _))
  have hud2 : u < δ2 := lt_of_le_of_lt (huδ.trans ((min_le_left _ _).trans (min_le_right _ _))) (by linarith)
  have hr0 : 0 ≤ ρ u := List.sum_nonneg (by
    intro x hx
    obtain ⟨p, -, rfl⟩ := List.mem_map.1 hx
    exact abs_nonneg _)
  have hr : ∀ p ∈ S.runs.zip ds, fourierErr u (freq / p.1.rate) p.2.2.1 ≤ ρ u := by
    intro p hp
    refine (le_abs_self _).trans (List.single_le_sum (by
      intro x hx
      obtain ⟨p, -, rfl⟩ := List.mem_map.1 hx
      exact abs_nonneg _) _ (List.mem_map.2 ⟨p, hp, rfl⟩))
  have hτ0 : 0 ≤ (1 + u) * (1 + ρ u) - 1 := by nlinarith
  have hτ1 : (1 + u) * (1 + ρ u) - 1 ≤ δ1 := (hsm (y := u) (by rw [Real.dist_eq, sub_zero, abs_of_nonneg hu]; exact hud2)).le
  have hmain := fun hlt => C126_impedance u c hu hu1 hc hR cal S hS freq o E B hch Z ds hF z hz M hM0 hM W hWd (ρ u) hr0 hr N hN D (fun n j => rfl) hdet K _ hK rfl hlt
  have hElen : 0 < E.length ∨ E.length = 0 := by omega
  have hZlen : Z.length = E.length := by
    obtain ⟨E', B', co, e, b, hE', hB', -, he, -, hZ⟩ := hF
    obtain rfl : E' = E := by have := hch.elec; rw [hE'] at this; exact Except.ok.inj this
    rw [← hZ.length_eq, (picked_eq (Impedance.pick_ok.1 he)).1]; simp
  have hi : i < E.length := by rw [← hZlen]; exact (List.getElem?_eq_some_iff.1 hl).1
  obtain ⟨hlt, hb⟩ := hall i hi u _ hu hud1 hτ0 hτ1
  obtain ⟨hll, hfin⟩ := (hmain hlt).2 i hi l hl
  exact (hfin j (by rw [← hll]; exact (List.getElem?_eq_some_iff.1 hv).1) v hv).trans hb.le

/-- **C126.** Double precision: up to a million windows of up to a million samples and a hundred periods, up to three magnetic channels, and
a condition `K` of at most a million. -/
theorem C126_double [One κ] (c : ℝ) (hc : 0 ≤ c) (hc' : c ≤ 100) (cal : κ → ℚ → Option ℂ) (S : SigSet ℂ κ) (freq : ℚ)
    (o : Impedance.Opts σ) (E B : List ℕ) (hch : Channels S o E B none) (hB3 : B.length ≤ 3) (Z : List (List ℂ)) (ds : List (ℕ × ℕ × ℕ))
    (z : ℕ → ℕ → ℂ)
    (hz : ∀ s ∈ S.runs, ∀ i (hi : i < E.length), ∀ n < s.size, physical cal freq s E[i] n = ∑ j : Fin B.length, z i j * physical cal freq s B[j] n)
    (M : ℝ) (hM0 : 0 ≤ M) (hM : ∀ s ∈ S.runs, ∀ k ∈ B, ∀ n < s.size, ‖physical cal freq s k n‖ ≤ M)
    (W : ℝ) (hW : ∀ d ∈ ds, ∑ j ∈ Finset.range d.2.1, ‖winAt (o.win.eval d.2.1) j‖ ≤ W * d.2.1)
    (hr : ∀ p ∈ S.runs.zip ds, 0 ≤ freq / p.1.rate ∧ p.2.2.1 ≤ 1000000 ∧ freq / p.1.rate * p.2.2.1 ≤ 100)
    (N : ℕ) (hN : N = (ds.map Prod.fst).sum) (hN' : N < 1000000) (D : Matrix (Fin N) (Fin B.length) ℂ)
    (hD : ∀ n j, D n j = (exactCoeffs cal freq o.win S.runs ds B[j]).getD n 0) (hdet : (Dᴴ * D).det ≠ 0)
    (K : ℝ) (hK : K = ‖(Dᴴ * D)⁻¹‖ * N * (2 * W * M) ^ 2) (hK' : K ≤ 1000000) :
    letI := Rnd.double
    Reach S → FImpedance (1 / 2 ^ 50) c cal S freq o Z ds →
    ∀ (i j : ℕ) l v, Z[i]? = some l → l[j]? = some v → ‖v - z i j‖ ≤ 2 / 10 ^ 7 * K * ∑ j ∈ Finset.range B.length, ‖z i j‖ := by
  letI := Rnd.double
  intro hS hF i j l v hl hv
  set u : ℝ := 1 / 2 ^ 50 with hu
  set τ : ℝ := (1 + u) * (1 + 1 / 10 ^ 8) - 1 with hτ
  clear_value τ u
  have hR : RoundsWithin u := by
    intro x
    refine (C125_double.1 x).trans ?_
    have : (1 / 2 ^ 53 : ℝ) ≤ u := by rw [hu]; norm_num
    gcongr
  have hu0 : 0 ≤ u := by rw [hu]; positivity
  have hK0 : 0 ≤ K := by rw [hK]; positivity
  have hτ0 : 0 ≤ τ := by rw [hτ, hu]; norm_num
  have hpow : (1 + u) ^ (N + 1) ≤ 1 + 1 / 10 ^ 8 := by
    have h1 : (1 + u) ^ (N + 1) ≤ Real.exp u ^ (N + 1) := by
      have := Real.add_one_le_exp u
      gcongr
      linarith
    have h2 : Real.exp u ^ (N + 1) = Real.exp ((N + 1 : ℕ) * u) := (Real.exp_nat_mul u (N + 1)).symm
    have h3 : ((N + 1 : ℕ) : ℝ) * u ≤ 1 / 10 ^ 9 := by
      have : ((N + 1 : ℕ) : ℝ) ≤ 1000000 := by exact_mod_cast hN'
      rw [hu]
      linarith
    have h4 : Real.exp (((N + 1 : ℕ) : ℝ) * u) ≤ Real.exp (1 / 10 ^ 9) := Real.exp_le_exp.2 h3
    have h5 : Real.exp (1 / 10 ^ 9 : ℝ) ≤ 1 + 1 / 10 ^ 8 := by
      have := Real.abs_exp_sub_one_le (x := 1 / 10 ^ 9) (by norm_num)
      rw [abs_le] at this
      have h := this.2
      rw [abs_of_nonneg (by norm_num : (0 : ℝ) ≤ 1 / 10 ^ 9)] at h
      linarith
    exact h1.trans (h2.le.trans (h4.trans h5))
  have hs : sumErr u τ N ≤ 4 / 10 ^ 8 := by
    unfold sumErr
    have h1 : (1 + τ) ^ 2 ≤ 1 + 21 / 10 ^ 9 := by rw [hτ, hu]; norm_num
    have h0 : 0 ≤ (1 + τ) ^ 2 := by positivity
    have h2 : (1 + u) ^ (N + 1) * (1 + τ) ^ 2 ≤ (1 + 1 / 10 ^ 8) * (1 + 21 / 10 ^ 9) := by gcongr
    linarith
  have hs0 := sumErr_nonneg hu0 hτ0 N
  have hm : matErr u c τ N B.length ≤ 13 / 10 ^ 8 := by
    unfold matErr
    have h1 : sumErr u τ N + c * u * (1 + sumErr u τ N) ≤ 41 / 10 ^ 9 := by
      have h2 : c * u ≤ 1 / 10 ^ 12 := by
        calc c * u ≤ 100 * u := by gcongr
          _ ≤ 1 / 10 ^ 12 := by rw [hu]; norm_num
      have h3 : c * u * (1 + sumErr u τ N) ≤ 1 / 10 ^ 12 * 2 := by
        gcongr
        linarith
      linarith
    have h2 : (B.length : ℝ) ≤ 3 := by exact_mod_cast hB3
    have h3 : 0 ≤ sumErr u τ N + c * u * (1 + sumErr u τ N) := by positivity
    calc (B.length : ℝ) * (sumErr u τ N + c * u * (1 + sumErr u τ N)) ≤ 3 * (41 / 10 ^ 9) := by gcongr
      _ ≤ _ := by norm_num
  have hKm : K * matErr u c τ N B.length ≤ 13 / 100 := by
    calc K * matErr u c τ N B.length ≤ K * (13 / 10 ^ 8) := by gcongr
      _ ≤ 1000000 * (13 / 10 ^ 8) := by gcongr
      _ = _ := by norm_num
  obtain ⟨hZl, hmain⟩ := C126_impedance u c hu0 (by rw [hu]; norm_num) hc hR cal S hS freq o E B hch Z ds hF z hz M hM0 hM W hW (1 / 10 ^ 8) (by norm_num)
    (fun p hp => hu ▸ C125_double.2 _ _ (hr p hp).1 (hr p hp).2.1 (hr p hp).2.2) N hN D hD hdet K τ hK hτ (by linarith)
  have hi : i < E.length := by rw [← hZl]; exact (List.getElem?_eq_some_iff.1 hl).1
  obtain ⟨hll, hfin⟩ := hmain i hi l hl
  refine (hfin j (by rw [← hll]; exact (List.getElem?_eq_some_iff.1 hv).1) v hv).trans ?_
  set t := ∑ j ∈ Finset.range B.length, ‖z i j‖ with ht
  have ht0 : 0 ≤ t := Finset.sum_nonneg (fun _ _ => norm_nonneg _)
  rw [div_le_iff₀ (by linarith)]
  calc K * (sumErr u τ N + matErr u c τ N B.length) * t ≤ K * (17 / 10 ^ 8) * t := by
        gcongr
        linarith
    _ ≤ 2 / 10 ^ 7 * K * t * (1 - 13 / 100) := by nlinarith [mul_nonneg hK0 ht0]
    _ ≤ _ := by gcongr

end impedance

section examples

local instance instOneApproxLS : One Unit := ⟨()⟩

/-- The impulses of `exRecording`, without noise. -/
noncomputable def exClean : SigSet ℂ Unit :=
  ⟨[⟨[exImpulses 2 2, exImpulses 1 1], [(), ()], 1, 0, 8⟩], ⟨2, [("E", [0]), ("B", [1])]⟩⟩

theorem exClean_coeffs : exactCoeffs (fun _ _ => some 1) (1 / 4) .none exClean.runs [(2, 4, 4)] 1 = [1 / 2, 1 / 2] := by
  have e : List.range 2 = [0, 1] := rfl
  have e8 : List.range 8 = [0, 1, 2, 3, 4, 5, 6, 7] := rfl
  simp [exactCoeffs, exClean, runCoeffs, e, e8, fourierAt, exImpulses, Win.eval, winAt, Finset.sum_range_succ, physical]
  norm_num

/-- The exact computation of noisy recordings is a possible one. -/
example (ω : Fin 8 × Bool) : ∃ Z ds, FImpedance (1 / 2 ^ 50) 10 (fun _ _ => some 1) (exRecording ω) (1 / 4) { exOpts with remote := none } Z ds ∧
    ds = [(2, 4, 4)] := by
  obtain ⟨c, hc⟩ := exRecording_coeffs ω
  have hone : ChansIndependent [[(1 / 2 : ℂ), 1 / 2]] 2 [] := by
    intro t ht hn x hx
    match t, ht with
    | [y], _ =>
      have := hn 0 (by norm_num) (by simp)
      simp only [combine, List.zipWith_cons_cons, List.zipWith_nil_left, List.sum_cons, List.sum_nil,
        add_zero, List.getD_cons_zero, mul_eq_zero] at this
      rw [List.mem_singleton.1 hx]
      exact this.resolve_right (by norm_num)
  obtain ⟨r, Z, ds, -, -, h, hw⟩ := C126_exact (1 / 2 ^ 50) 10 (by positivity) (by positivity) (fun _ _ => some 1) (exRecording ω) (exRecording_reach ω) (1 / 4)
    { exOpts with remote := none } rfl rfl rfl [0] [1] ⟨rfl, rfl, .inl ⟨.inl rfl, rfl⟩⟩ _ _ hc (by simp) hone (fun _ => ())
  refine ⟨Z, ds, h, ?_⟩
  simp only [Prod.mk.injEq] at hw
  match ds, hw with
  | [⟨a, b, c⟩], hw => simpa [eq_comm] using hw
  | [], hw => simp at hw
  | _ :: _ :: _, hw => simp at hw

/-- The hypotheses of C126_precision hold for recordings without noise. -/
example : ∃ δ > 0, ∀ u : ℝ, 0 ≤ u → u ≤ δ → ∀ [Rnd], RoundsWithin u → Reach exClean → ∀ Z,
    FImpedance u 10 (fun _ _ => some 1) exClean (1 / 4) { exOpts with remote := none } Z [(2, 4, 4)] →
      ∀ (i j : ℕ) l v, Z[i]? = some l → l[j]? = some v → ‖v - 2‖ ≤ 1 / 1000 := by
  refine C126_precision 10 (by norm_num) (fun _ _ => some 1) exClean (1 / 4) { exOpts with remote := none } [0] [1] ⟨rfl, rfl, .inl ⟨.inl rfl, rfl⟩⟩
    [(2, 4, 4)] (fun _ _ => 2) ?_ ?_ (1 / 1000) (by norm_num)
  · intro s hs i hi n hn
    obtain rfl : s = ⟨[exImpulses 2 2, exImpulses 1 1], [(), ()], 1, 0, 8⟩ := by simpa [exClean] using hs
    obtain rfl : i = 0 := by simpa using hi
    have hn' : n < 8 := hn
    interval_cases n <;> simp [physical, exImpulses]
  · have hD : ∀ n : Fin ([(2, 4, 4)].map (Prod.fst : ℕ × ℕ × ℕ → ℕ)).sum, (exactCoeffs (fun _ _ => some 1) (1 / 4) .none exClean.runs [(2, 4, 4)] 1).getD n 0 = 1 / 2 := by
      rw [exClean_coeffs]
      intro n
      have hn : (n : ℕ) < 2 := n.2
      interval_cases (n : ℕ) <;> rfl
    have hD' : ∀ n (j : Fin 1), (design (fun j : Fin 1 => exactCoeffs (fun _ _ => some 1) (1 / 4) exOpts.win exClean.runs [(2, 4, 4)] [1][j])
        ([(2, 4, 4)].map (Prod.fst : ℕ × ℕ × ℕ → ℕ)).sum) n j = 1 / 2 := by
      intro n j
      obtain rfl : j = 0 := Subsingleton.elim _ _
      exact hD n
    change ((design (fun j : Fin 1 => exactCoeffs (fun _ _ => some 1) (1 / 4) exOpts.win exClean.runs [(2, 4, 4)] [1][j])
      ([(2, 4, 4)].map (Prod.fst : ℕ × ℕ × ℕ → ℕ)).sum)ᴴ * _).det ≠ 0
    rw [Matrix.det_fin_one, Matrix.mul_apply]
    refine ne_of_eq_of_ne (Finset.sum_congr rfl (fun n _ => congrArg₂ (· * ·) (congrArg star (hD' n 0)) (hD' n 0))) ?_
    simp

/-- The hypotheses of C126_limit hold. -/
example : ∃ δ > 0, ∀ u τ : ℝ, 0 ≤ u → u ≤ δ → 0 ≤ τ → τ ≤ δ → ∀ (x' : List ℝ) (y' : List (Fin 1 → ℝ)), List.Forall₂ (fun a a' => ‖a' - a‖ ≤ τ) [2, 4, 6] x' →
    List.Forall₂ (fun a a' => ∀ j, ‖a' j - a j‖ ≤ τ) [fun _ => 1, fun _ => 2, fun _ => 3] y' → ∀ z', FWlse u 10 x' y' (some [1, 0, 3]) z' →
      ∀ j, ‖z' j - 2‖ ≤ 1 / 100 := by
  refine C126_limit 10 (by norm_num) [2, 4, 6] [fun _ => 1, fun _ => 2, fun _ => 3] (some [1, 0, 3]) rfl ?_ (fun _ => 2) ?_ (1 / 100) (by norm_num)
  · rintro ws ⟨⟩ a ha
    simp only [List.mem_cons, List.not_mem_nil, or_false] at ha
    rcases ha with rfl | rfl | rfl <;> norm_num
  · have hw : WeightsAre (some [.fin 1, .fin 0, .fin 3]) 3 [1, 0, 3] := ⟨rfl, .inr rfl⟩
    refine (C44_normal_equations _ _ _ [1, 0, 3] rfl hw _).2 ⟨?_, ?_⟩
    · refine (C44_independent _ ?_).2 ?_
      · simp [obs]
      · intro d hd
        have := hd ⟨1, 2, fun _ => 1⟩ (by simp [obs]) (by norm_num)
        funext j
        fin_cases j
        simpa [dotProduct] using this
    · intro j
      simp [obs, dotProduct]
      norm_num

end examples

end Razorback.Props
