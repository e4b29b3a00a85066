/-
Lemmas on least squares with rounding errors and perturbed data (Model/Approx.lean).
-/
import Verif.Lemmas.Approx
import Verif.Lemmas.MEst
namespace Razorback.Approx
open Razorback Razorback.Fourier Razorback.MEst Razorback.Spec
open scoped Matrix Matrix.Norms.Operator

variable {𝕜 : Type} [RCLike 𝕜] {q : ℕ} {u v τ c : ℝ}

/-- The weight of sample `n`; without weights all are 1. -/
def weightAt (w : Option (List ℝ)) (n : ℕ) : ℝ :=
  match w with
  | none => 1
  | some w => w.getD n 0

theorem getD_at {β : Type} {l : List β} {d : β} {n : ℕ} (h : n < l.length) : l.getD n d = l[n] := by
  rw [List.getD_eq_getElem?_getD, List.getElem?_eq_getElem h, Option.getD_some]

theorem sum_zipWith_range {α β M : Type} [AddCommMonoid M] (f : α → β → M) (a : List α) (b : List β) (da : α) (db : β) {N : ℕ} (ha : a.length = N) (hb : b.length = N) :
    (List.zipWith f a b).sum = ∑ n ∈ Finset.range N, f (a.getD n da) (b.getD n db) := by
  have : List.zipWith f a b = (List.range N).map (fun n => f (a.getD n da) (b.getD n db)) := by
    apply List.ext_getElem
    · simp [ha, hb]
    · intro n h1 h2
      have hn : n < N := by simpa using h2
      rw [List.getElem_zipWith, List.getElem_map, List.getElem_range, getD_at (by omega), getD_at (by omega)]
  rw [this]
  rfl

theorem FDiag.at (hu : 0 ≤ u) {w : Option (List ℝ)} {x xw : List 𝕜} {N : ℕ} (hx : x.length = N) (hw : ∀ ws, w = some ws → ws.length = N)
    (h : FDiag u w x xw) : xw.length = N ∧ ∀ n < N, Near u ((weightAt w n : 𝕜) * x.getD n 0) (xw.getD n 0) := by
  cases w with
  | none =>
    obtain rfl : xw = x := h
    refine ⟨hx, fun n _ => ?_⟩
    simp only [weightAt, RCLike.ofReal_one, one_mul]
    exact Near.refl hu _
  | some ws =>
    have hl := hw ws rfl
    have h' : List.Forall₂ (Near u) (List.zipWith (fun a v => a • v) ws x) xw := h
    have hlen := h'.length_eq
    simp only [List.length_zipWith, hl, hx, min_self] at hlen
    refine ⟨hlen.symm, fun n hn => ?_⟩
    have := h'.get (i := n) (by simp [hl, hx, hn]) (by omega)
    simp only [List.get_eq_getElem, List.getElem_zipWith] at this
    rw [getD_at (by omega), getD_at (by omega), weightAt, getD_at (by omega), ← RCLike.real_smul_eq_coe_mul]
    exact this

/-- The products with the weights and the sum, on perturbed data. -/
theorem dot_bound (hu : 0 ≤ u) (hτ : 0 ≤ τ) {N : ℕ} {a b : List 𝕜} {α β β' : ℕ → 𝕜} {ω : ℕ → ℝ} {P Q : ℝ} (hP : 0 ≤ P) (ha : a.length = N)
    (hb : b.length = N) (hω : ∀ n < N, 0 ≤ ω n) (h1 : ∀ n < N, ‖α n‖ ≤ P ∧ ‖a.getD n 0 - α n‖ ≤ τ * P)
    (h2 : ∀ n < N, ‖β n‖ ≤ Q ∧ ‖β' n - β n‖ ≤ τ * Q) (h3 : ∀ n < N, Near u ((ω n : 𝕜) * β' n) (b.getD n 0)) {d : 𝕜} (hd : FDot u a b d) :
    ‖d - ∑ n ∈ Finset.range N, α n * ((ω n : 𝕜) * β n)‖ ≤ ((1 + u) ^ (N + 1) * (1 + τ) ^ 2 - 1) * (P * Q * ∑ n ∈ Finset.range N, ω n) := by
  set A := fun n => a.getD n 0 with hA
  set b' := fun n => b.getD n 0 with hb'
  have nA : ∀ n < N, ‖A n‖ ≤ (1 + τ) * P := by
    intro n hn
    have := norm_le_norm_add_norm_sub' (A n) (α n)
    have g := h1 n hn
    simp only [hA] at *
    linarith [g.1, g.2]
  have nβ : ∀ n < N, ‖β' n‖ ≤ (1 + τ) * Q := by
    intro n hn
    have := norm_le_norm_add_norm_sub' (β' n) (β n)
    have g := h2 n hn
    linarith [g.1, g.2]
  have nω : ∀ n < N, ‖(ω n : 𝕜)‖ = ω n := fun n hn => by rw [RCLike.norm_ofReal, abs_of_nonneg (hω n hn)]
  have nb : ∀ n < N, ‖b' n‖ ≤ (1 + u) * (ω n * ((1 + τ) * Q)) := by
    intro n hn
    refine (h3 n hn).norm_le.trans ?_
    rw [norm_mul, nω n hn]
    exact mul_le_mul_of_nonneg_left (mul_le_mul_of_nonneg_left (nβ n hn) (hω n hn)) (by linarith)
  have np : ∀ n < N, ‖A n * b' n‖ ≤ (1 + u) * (1 + τ) ^ 2 * (P * Q) * ω n := by
    intro n hn
    rw [norm_mul]
    calc _ ≤ ((1 + τ) * P) * ((1 + u) * (ω n * ((1 + τ) * Q))) := mul_le_mul (nA n hn) (nb n hn) (norm_nonneg _) (by positivity)
      _ = _ := by ring
  have nd : ∀ n < N, ‖A n * b' n - α n * ((ω n : 𝕜) * β n)‖ ≤ ((1 + u) * (1 + τ) ^ 2 - 1) * (P * Q) * ω n := by
    intro n hn
    have e : A n * b' n - α n * ((ω n : 𝕜) * β n) = A n * (b' n - (ω n : 𝕜) * β' n) + (A n - α n) * ((ω n : 𝕜) * β' n) + α n * ((ω n : 𝕜) * (β' n - β n)) := by ring
    rw [e]
    have g1 : ‖A n * (b' n - (ω n : 𝕜) * β' n)‖ ≤ ((1 + τ) * P) * (u * (ω n * ((1 + τ) * Q))) := by
      rw [norm_mul]
      refine mul_le_mul (nA n hn) (le_trans (show _ ≤ _ from h3 n hn) ?_) (norm_nonneg _) (by positivity)
      rw [norm_mul, nω n hn]
      exact mul_le_mul_of_nonneg_left (mul_le_mul_of_nonneg_left (nβ n hn) (hω n hn)) hu
    have g2 : ‖(A n - α n) * ((ω n : 𝕜) * β' n)‖ ≤ (τ * P) * (ω n * ((1 + τ) * Q)) := by
      rw [norm_mul, norm_mul, nω n hn]
      exact mul_le_mul (h1 n hn).2 (mul_le_mul_of_nonneg_left (nβ n hn) (hω n hn)) (mul_nonneg (hω n hn) (norm_nonneg _)) (by positivity)
    have g3 : ‖α n * ((ω n : 𝕜) * (β' n - β n))‖ ≤ P * (ω n * (τ * Q)) := by
      rw [norm_mul, norm_mul, nω n hn]
      exact mul_le_mul (h1 n hn).1 (mul_le_mul_of_nonneg_left (h2 n hn).2 (hω n hn)) (mul_nonneg (hω n hn) (norm_nonneg _)) hP
    refine (norm_add₃_le).trans ?_
    calc _ ≤ _ := add_le_add (add_le_add g1 g2) g3
      _ = _ := by ring
  have hsum : (List.zipWith (· * ·) a b).sum = ∑ n ∈ Finset.range N, A n * b' n := sum_zipWith_range _ a b 0 0 ha hb
  have hfd := FDot.error (v := 0) hu (List.forall₂_same.2 (fun x _ => Near.refl le_rfl x)) hd
  have hlen : (List.zipWith (· * ·) a b).length = N := by simp [ha, hb]
  have hmap : ((List.zipWith (· * ·) a b).map (fun x => ‖x‖)).sum = ∑ n ∈ Finset.range N, ‖A n * b' n‖ := by
    rw [List.map_zipWith]
    exact sum_zipWith_range (fun x y => ‖x * y‖) a b 0 0 ha hb
  rw [hlen, hsum, hmap, add_zero, one_mul] at hfd
  have hS1 : ∑ n ∈ Finset.range N, ‖A n * b' n‖ ≤ (1 + u) * (1 + τ) ^ 2 * (P * Q) * ∑ n ∈ Finset.range N, ω n := by
    rw [Finset.mul_sum]
    exact Finset.sum_le_sum (fun n hn => np n (Finset.mem_range.1 hn))
  have hS2 : ‖∑ n ∈ Finset.range N, A n * b' n - ∑ n ∈ Finset.range N, α n * ((ω n : 𝕜) * β n)‖ ≤ ((1 + u) * (1 + τ) ^ 2 - 1) * (P * Q) * ∑ n ∈ Finset.range N, ω n := by
    rw [← Finset.sum_sub_distrib, Finset.mul_sum]
    exact (norm_sum_le _ _).trans (Finset.sum_le_sum (fun n hn => nd n (Finset.mem_range.1 hn)))
  have hpow : 0 ≤ (1 + u) ^ N - 1 := by
    have : 1 ≤ (1 + u) ^ N := one_le_pow₀ (by linarith)
    linarith
  have htri : ‖d - ∑ n ∈ Finset.range N, α n * ((ω n : 𝕜) * β n)‖ ≤ ‖d - ∑ n ∈ Finset.range N, A n * b' n‖ +
      ‖∑ n ∈ Finset.range N, A n * b' n - ∑ n ∈ Finset.range N, α n * ((ω n : 𝕜) * β n)‖ := norm_sub_le_norm_sub_add_norm_sub _ _ _
  have hm := mul_le_mul_of_nonneg_left hS1 hpow
  calc _ ≤ _ := htri
    _ ≤ ((1 + u) ^ N - 1) * ((1 + u) * (1 + τ) ^ 2 * (P * Q) * ∑ n ∈ Finset.range N, ω n) + ((1 + u) * (1 + τ) ^ 2 - 1) * (P * Q) * ∑ n ∈ Finset.range N, ω n :=
        add_le_add (hfd.trans hm) hS2
    _ = _ := by ring

/-- Solutions of neighbouring systems. -/
theorem solve_near {A D : Matrix (Fin q) (Fin q) 𝕜} {z z' b b' : Fin q → 𝕜} (hA : IsUnit A.det) (hz : A *ᵥ z = b) (hz' : (A + D) *ᵥ z' = b')
    (hlt : ‖A⁻¹‖ * ‖D‖ < 1) : ‖z' - z‖ ≤ ‖A⁻¹‖ * (‖b' - b‖ + ‖D‖ * ‖z‖) / (1 - ‖A⁻¹‖ * ‖D‖) := by
  have e : z' - z = A⁻¹ *ᵥ ((b' - b) - D *ᵥ z') := by
    have : A *ᵥ (z' - z) = (b' - b) - D *ᵥ z' := by
      rw [Matrix.mulVec_sub, hz, ← hz', Matrix.add_mulVec]
      abel
    rw [← this, Matrix.mulVec_mulVec, Matrix.nonsing_inv_mul _ hA, Matrix.one_mulVec]
  have h1 : ‖z' - z‖ ≤ ‖A⁻¹‖ * (‖b' - b‖ + ‖D‖ * ‖z'‖) := by
    rw [e]
    refine (Matrix.linfty_opNorm_mulVec _ _).trans (mul_le_mul_of_nonneg_left ?_ (norm_nonneg _))
    refine (norm_sub_le _ _).trans (add_le_add le_rfl (Matrix.linfty_opNorm_mulVec _ _))
  have h2 : ‖z'‖ ≤ ‖z‖ + ‖z' - z‖ := norm_le_norm_add_norm_sub' z' z
  rw [le_div_iff₀ (by linarith)]
  have h3 : ‖A⁻¹‖ * (‖b' - b‖ + ‖D‖ * ‖z'‖) ≤ ‖A⁻¹‖ * (‖b' - b‖ + ‖D‖ * (‖z‖ + ‖z' - z‖)) := by gcongr
  nlinarith

theorem opNorm_le {A : Matrix (Fin q) (Fin q) 𝕜} {M : ℝ} (h : ∀ j k, ‖A j k‖ ≤ M) (hM : 0 ≤ M) : ‖A‖ ≤ q * M := by
  rw [Matrix.linfty_opNorm_def]
  have hs : (Finset.univ : Finset (Fin q)).sup (fun i => ∑ j, ‖A i j‖₊) ≤ ((q : NNReal) * ⟨M, hM⟩ : NNReal) := by
    refine Finset.sup_le (fun i _ => ?_)
    have h1 : ∑ j, ‖A i j‖₊ ≤ ∑ _j : Fin q, (⟨M, hM⟩ : NNReal) := Finset.sum_le_sum (fun j _ => h i j)
    rw [Finset.sum_const, Finset.card_univ, Fintype.card_fin, nsmul_eq_mul] at h1
    exact h1
  have : (((Finset.univ : Finset (Fin q)).sup (fun i => ∑ j, ‖A i j‖₊) : NNReal) : ℝ) ≤ (((q : NNReal) * ⟨M, hM⟩ : NNReal) : ℝ) := hs
  refine this.trans (le_of_eq ?_)
  rfl

/-- The relative error of the sums of products. -/
noncomputable def sumErr (u τ : ℝ) (N : ℕ) : ℝ := (1 + u) ^ (N + 1) * (1 + τ) ^ 2 - 1

/-- The relative error of the normal equations with `q` unknowns. -/
noncomputable def matErr (u c τ : ℝ) (N q : ℕ) : ℝ := q * (sumErr u τ N + c * u * (1 + sumErr u τ N))

theorem sumErr_nonneg (hu : 0 ≤ u) (hτ : 0 ≤ τ) (N : ℕ) : 0 ≤ sumErr u τ N := by
  have h1 : 1 ≤ (1 + u) ^ (N + 1) := one_le_pow₀ (by linarith)
  have h2 : 1 ≤ (1 + τ) ^ 2 := one_le_pow₀ (by linarith)
  unfold sumErr
  nlinarith

theorem gram_sum (y : List (Fin q → 𝕜)) (w : Option (List ℝ)) {N : ℕ} (hy : y.length = N) (hw : ∀ ws, w = some ws → ws.length = N) (j k : Fin q) :
    gram y w j k = ∑ n ∈ Finset.range N, star (y.getD n 0 j) * ((weightAt w n : 𝕜) * y.getD n 0 k) := by
  simp only [gram, Matrix.of_apply]
  cases w with
  | none =>
    simp only [dotdiag, weightAt, RCLike.ofReal_one, one_mul]
    exact sum_zipWith_range _ y y 0 0 hy hy
  | some ws =>
    have hl := hw ws rfl
    simp only [dotdiag, weightAt]
    rw [sum_zipWith_range _ y _ 0 0 hy (by simp [hl, hy])]
    refine Finset.sum_congr rfl (fun n hn => ?_)
    have hn' := Finset.mem_range.1 hn
    rw [getD_at (l := List.zipWith _ ws y) (by simp [hl, hy, hn']), List.getElem_zipWith, getD_at (l := ws) (by omega), getD_at (by omega), Pi.smul_apply,
      RCLike.real_smul_eq_coe_mul]

theorem rhs_sum (x : List 𝕜) (y : List (Fin q → 𝕜)) (w : Option (List ℝ)) {N : ℕ} (hx : x.length = N) (hy : y.length = N) (hw : ∀ ws, w = some ws → ws.length = N) (j : Fin q) :
    rhs x y w j = ∑ n ∈ Finset.range N, star (y.getD n 0 j) * ((weightAt w n : 𝕜) * x.getD n 0) := by
  simp only [rhs]
  cases w with
  | none =>
    simp only [dotdiag, weightAt, RCLike.ofReal_one, one_mul]
    exact sum_zipWith_range (fun (r : Fin q → 𝕜) v => star (r j) * v) y x 0 0 hy hx
  | some ws =>
    have hl := hw ws rfl
    simp only [dotdiag, weightAt]
    rw [sum_zipWith_range (fun (r : Fin q → 𝕜) v => star (r j) * v) y _ 0 0 hy (by simp [hl, hx])]
    refine Finset.sum_congr rfl (fun n hn => ?_)
    have hn' := Finset.mem_range.1 hn
    rw [getD_at (l := List.zipWith _ ws x) (by simp [hl, hx, hn']), List.getElem_zipWith, getD_at (l := ws) (by omega), getD_at (l := x) (by omega),
      RCLike.real_smul_eq_coe_mul]

/-- Least squares on perturbed data, in terms of the normal equations. -/
theorem FWlse.near (hu : 0 ≤ u) (hc : 0 ≤ c) (hτ : 0 ≤ τ) {N : ℕ} {x x' : List 𝕜} {y y' : List (Fin q → 𝕜)} {w : Option (List ℝ)} (hx : x.length = N)
    (hx' : x'.length = N) (hy : y.length = N) (hy' : y'.length = N) (hw : ∀ n < N, 0 ≤ weightAt w n) {B X : ℝ} (hB : 0 ≤ B) (hX : 0 ≤ X)
    (hyB : ∀ n < N, ∀ j, ‖y.getD n 0 j‖ ≤ B ∧ ‖y'.getD n 0 j - y.getD n 0 j‖ ≤ τ * B)
    (hxX : ∀ n < N, ‖x.getD n 0‖ ≤ X ∧ ‖x'.getD n 0 - x.getD n 0‖ ≤ τ * X) {z z' : Fin q → 𝕜} (hdet : (gram y w).det ≠ 0)
    (hz : gram y w *ᵥ z = rhs x y w) (h : FWlse u c x' y' w z') {K : ℝ} (hK : K = ‖(gram y w)⁻¹‖ * ∑ n ∈ Finset.range N, weightAt w n)
    (hlt : K * B ^ 2 * matErr u c τ N q < 1) :
    ‖z' - z‖ ≤ K * (sumErr u τ N * (B * X) + matErr u c τ N q * B ^ 2 * ‖z‖) / (1 - K * B ^ 2 * matErr u c τ N q) := by
  obtain ⟨-, hwl, xw, yw, A, E, b, hxw, hyw, hA, hb, hE, hsol⟩ := h
  rw [hy'] at hwl
  set S := ∑ n ∈ Finset.range N, weightAt w n with hS
  have hS0 : 0 ≤ S := Finset.sum_nonneg (fun n hn => hw n (Finset.mem_range.1 hn))
  have hg := sumErr_nonneg hu hτ N
  set g := sumErr u τ N with hgd
  obtain ⟨hxl, hxn⟩ := hxw.at hu hx' hwl
  have hcol : ∀ k, (yw k).length = N ∧ ∀ n < N, Near u ((weightAt w n : 𝕜) * y'.getD n 0 k) ((yw k).getD n 0) := by
    intro k
    obtain ⟨h1, h2⟩ := (hyw k).at hu (by simp [hy']) hwl
    refine ⟨h1, fun n hn => ?_⟩
    have := h2 n hn
    rw [getD_at (by simp [hy', hn]), List.getElem_map] at this
    rwa [getD_at (l := y') (by omega)]
  have hstar : ∀ j, ∀ n < N, ‖star (y.getD n 0 j)‖ ≤ B ∧ ‖(y'.map (fun r => star (r j))).getD n 0 - star (y.getD n 0 j)‖ ≤ τ * B := by
    intro j n hn
    obtain ⟨h1, h2⟩ := hyB n hn j
    refine ⟨by rw [norm_star]; exact h1, ?_⟩
    rw [getD_at (by simp [hy', hn]), List.getElem_map, ← star_sub, norm_star]
    rwa [getD_at (l := y') (by omega)] at h2
  have hAn : ∀ j k, ‖(A - gram y w) j k‖ ≤ g * (B * B * S) := by
    intro j k
    rw [Matrix.sub_apply, gram_sum y w hy hwl]
    exact dot_bound hu hτ hB (by simp [hy']) (hcol k).1 hw (hstar j) (fun n hn => hyB n hn k) (hcol k).2 (hA j k)
  have hbn : ∀ j, ‖(b - rhs x y w) j‖ ≤ g * (B * X * S) := by
    intro j
    rw [Pi.sub_apply, rhs_sum x y w hx hy hwl]
    exact dot_bound hu hτ hB (by simp [hy']) hxl hw (hstar j) hxX hxn (hb j)
  have hGn : ∀ j k, ‖gram y w j k‖ ≤ B * B * S := by
    intro j k
    rw [gram_sum y w hy hwl, hS, Finset.mul_sum]
    refine (norm_sum_le _ _).trans (Finset.sum_le_sum (fun n hn => ?_))
    have hn' := Finset.mem_range.1 hn
    rw [norm_mul, norm_mul, RCLike.norm_ofReal, abs_of_nonneg (hw n hn')]
    have h1 := (hstar j n hn').1
    have h2 := (hyB n hn' k).1
    calc _ ≤ B * (weightAt w n * B) := mul_le_mul h1 (mul_le_mul_of_nonneg_left h2 (hw n hn')) (mul_nonneg (hw n hn') (norm_nonneg _)) hB
      _ = _ := by ring
  have hAA : ∀ j k, ‖A j k‖ ≤ (1 + g) * (B * B * S) := by
    intro j k
    have h1 := hAn j k
    have h2 := hGn j k
    have h3 := norm_le_norm_add_norm_sub' (A j k) (gram y w j k)
    rw [Matrix.sub_apply] at h1
    linarith
  have hBS : 0 ≤ B * B * S := by positivity
  have hAN : ‖A‖ ≤ q * ((1 + g) * (B * B * S)) := opNorm_le hAA (by positivity)
  have hDN : ‖A - gram y w + E‖ ≤ matErr u c τ N q * (B ^ 2 * S) := by
    refine (norm_add_le _ _).trans ?_
    have h1 : ‖A - gram y w‖ ≤ q * (g * (B * B * S)) := opNorm_le hAn (by positivity)
    have h2 : ‖E‖ ≤ c * u * (q * ((1 + g) * (B * B * S))) := hE.trans (mul_le_mul_of_nonneg_left hAN (by positivity))
    calc _ ≤ _ := add_le_add h1 h2
      _ = _ := by rw [matErr]; ring
  have hbN : ‖b - rhs x y w‖ ≤ g * (B * X * S) := (pi_norm_le_iff_of_nonneg (by positivity)).2 hbn
  have hm0 : 0 ≤ matErr u c τ N q := by unfold matErr; positivity
  have hKD : ‖(gram y w)⁻¹‖ * ‖A - gram y w + E‖ ≤ K * B ^ 2 * matErr u c τ N q := by
    calc _ ≤ ‖(gram y w)⁻¹‖ * (matErr u c τ N q * (B ^ 2 * S)) := mul_le_mul_of_nonneg_left hDN (norm_nonneg _)
      _ = _ := by rw [hK]; ring
  have key := solve_near (isUnit_iff_ne_zero.2 hdet) hz (D := A - gram y w + E) (z' := z') (b' := b) (by
    rw [← hsol]; congr 1; abel) (hKD.trans_lt hlt)
  refine key.trans (div_le_div₀ ?_ ?_ (by linarith) (by linarith))
  · rw [hK]; positivity
  · calc _ ≤ ‖(gram y w)⁻¹‖ * (g * (B * X * S) + matErr u c τ N q * (B ^ 2 * S) * ‖z‖) := by gcongr
      _ = _ := by rw [hK]; ring

/-- The exact sum is a possible one. -/
theorem fsum_exact (hu : 0 ≤ u) (l : List 𝕜) : FSum u l l.sum := by
  induction l with
  | nil => exact .nil
  | cons x l ih =>
    cases l with
    | nil => simpa using FSum.one x
    | cons y l => exact .add (l₁ := [x]) (.refl _) (by simp) (by simp) (.one x) ih (by simpa using Near.refl hu _)

end Razorback.Approx
