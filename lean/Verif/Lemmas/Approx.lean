/-
Lemmas on floating point arithmetic with relative errors (Model/Approx.lean).
-/
import Mathlib.Analysis.SpecialFunctions.Trigonometric.Bounds
import Mathlib.Analysis.Complex.Exponential
import Verif.Model.Approx
import Verif.Lemmas.Fourier
import Verif.Spec.Fourier

namespace Razorback.Approx
open Razorback Razorback.Fourier Razorback.MEst Razorback.Spec

section
variable {𝕜 : Type} [RCLike 𝕜] {u v : ℝ}

theorem Near.norm_le {x y : 𝕜} (h : Near u x y) : ‖y‖ ≤ (1 + u) * ‖x‖ := by
  have : ‖y‖ ≤ ‖x‖ + ‖y - x‖ := by
    calc ‖y‖ = ‖x + (y - x)‖ := by congr 1; ring
      _ ≤ _ := norm_add_le _ _
  unfold Near at h
  linarith

theorem Near.refl (hu : 0 ≤ u) (x : 𝕜) : Near u x x := by
  simp only [Near, sub_self, norm_zero]; positivity

theorem Near.mono {x y : 𝕜} (h : Near u x y) (huv : u ≤ v) : Near v x y :=
  h.trans (mul_le_mul_of_nonneg_right huv (norm_nonneg _))

theorem Near.trans {x y z : 𝕜} (hv : 0 ≤ v) (h : Near u x y) (h' : Near v y z) : Near ((1 + u) * (1 + v) - 1) x z := by
  have h1 := h.norm_le
  unfold Near at *
  have : ‖z - x‖ ≤ ‖z - y‖ + ‖y - x‖ := by
    calc ‖z - x‖ = ‖(z - y) + (y - x)‖ := by congr 1; ring
      _ ≤ _ := norm_add_le _ _
  have := mul_le_mul_of_nonneg_left h1 hv
  linarith

theorem Near.mul_right {x y : 𝕜} (h : Near u x y) (a : 𝕜) : Near u (x * a) (y * a) := by
  unfold Near at *
  rw [← sub_mul, norm_mul, norm_mul, ← mul_assoc]
  exact mul_le_mul_of_nonneg_right h (norm_nonneg _)

theorem Near.mul_left {x y : 𝕜} (h : Near u x y) (a : 𝕜) : Near u (a * x) (a * y) := by
  rw [mul_comm a, mul_comm a]; exact h.mul_right a

theorem FSum.error {l : List 𝕜} {c : 𝕜} (hu : 0 ≤ u) (h : FSum u l c) :
    ‖c - l.sum‖ ≤ ((1 + u) ^ (l.length - 1) - 1) * (l.map (fun x => ‖x‖)).sum := by
  induction h with
  | nil => simp
  | one x => simp
  | @add l l₁ l₂ a b c hp h₁ h₂ ha hb hc iha ihb =>
    have hT : ∀ l : List 𝕜, 0 ≤ (l.map (fun x => ‖x‖)).sum ∧ ‖l.sum‖ ≤ (l.map (fun x => ‖x‖)).sum := by
      intro l
      induction l with
      | nil => simp
      | cons x l ih =>
        simp only [List.map_cons, List.sum_cons]
        exact ⟨add_nonneg (norm_nonneg _) ih.1, (norm_add_le _ _).trans (by linarith [ih.2])⟩
    have hs : l.sum = l₁.sum + l₂.sum := by rw [hp.sum_eq, List.sum_append]
    have hm : (l.map (fun x => ‖x‖)).sum = (l₁.map (fun x => ‖x‖)).sum + (l₂.map (fun x => ‖x‖)).sum := by
      rw [(hp.map _).sum_eq, List.map_append, List.sum_append]
    obtain ⟨t1, s1⟩ := hT l₁
    obtain ⟨t2, s2⟩ := hT l₂
    have n1 : 1 ≤ l₁.length := List.length_pos_iff.2 h₁
    have n2 : 1 ≤ l₂.length := List.length_pos_iff.2 h₂
    have hl : l.length = l₁.length + l₂.length := by rw [hp.length_eq, List.length_append]
    have p1 : (1 + u) ^ (l₁.length - 1) * (1 + u) ≤ (1 + u) ^ (l.length - 1) := by
      rw [← pow_succ]; exact pow_le_pow_right₀ (by linarith) (by omega)
    have p2 : (1 + u) ^ (l₂.length - 1) * (1 + u) ≤ (1 + u) ^ (l.length - 1) := by
      rw [← pow_succ]; exact pow_le_pow_right₀ (by linarith) (by omega)
    have na : ‖a‖ ≤ (1 + u) ^ (l₁.length - 1) * (l₁.map (fun x => ‖x‖)).sum := by
      have : ‖a‖ ≤ ‖l₁.sum‖ + ‖a - l₁.sum‖ := by
        calc ‖a‖ = ‖l₁.sum + (a - l₁.sum)‖ := by congr 1; ring
          _ ≤ _ := norm_add_le _ _
      linarith
    have nb : ‖b‖ ≤ (1 + u) ^ (l₂.length - 1) * (l₂.map (fun x => ‖x‖)).sum := by
      have : ‖b‖ ≤ ‖l₂.sum‖ + ‖b - l₂.sum‖ := by
        calc ‖b‖ = ‖l₂.sum + (b - l₂.sum)‖ := by congr 1; ring
          _ ≤ _ := norm_add_le _ _
      linarith
    have hab : ‖a + b‖ ≤ ‖a‖ + ‖b‖ := norm_add_le _ _
    have tri : ‖c - (l₁.sum + l₂.sum)‖ ≤ ‖c - (a + b)‖ + ‖a - l₁.sum‖ + ‖b - l₂.sum‖ := by
      calc ‖c - (l₁.sum + l₂.sum)‖ = ‖(c - (a + b)) + (a - l₁.sum) + (b - l₂.sum)‖ := by congr 1; ring
        _ ≤ _ := norm_add₃_le
    unfold Near at hc
    rw [hs, hm]
    have q1 := mul_le_mul_of_nonneg_right p1 t1
    have q2 := mul_le_mul_of_nonneg_right p2 t2
    have q3 : u * ‖a + b‖ ≤ u * ((1 + u) ^ (l₁.length - 1) * (l₁.map (fun x => ‖x‖)).sum + (1 + u) ^ (l₂.length - 1) * (l₂.map (fun x => ‖x‖)).sum) :=
      mul_le_mul_of_nonneg_left (by linarith) hu
    nlinarith

/-- Adding numbers that are themselves off by a relative error. -/
theorem FSum.error_near {t p : List 𝕜} {c : 𝕜} (hu : 0 ≤ u) (h : List.Forall₂ (Near v) t p) (hc : FSum u p c) :
    ‖c - t.sum‖ ≤ ((1 + v) * (1 + u) ^ (t.length - 1) - 1) * (t.map (fun x => ‖x‖)).sum := by
  have h1 := hc.error hu
  have h2 : (p.map (fun x => ‖x‖)).sum ≤ (1 + v) * (t.map (fun x => ‖x‖)).sum ∧ ‖p.sum - t.sum‖ ≤ v * (t.map (fun x => ‖x‖)).sum := by
    clear hc h1
    induction h with
    | nil => simp
    | @cons x y t p hxy _ ih =>
      simp only [List.map_cons, List.sum_cons]
      refine ⟨by linarith [hxy.norm_le, ih.1], ?_⟩
      have : ‖y + p.sum - (x + t.sum)‖ ≤ ‖y - x‖ + ‖p.sum - t.sum‖ := by
        calc _ = ‖(y - x) + (p.sum - t.sum)‖ := by congr 1; ring
          _ ≤ _ := norm_add_le _ _
      unfold Near at hxy
      linarith [ih.2]
  have tri : ‖c - t.sum‖ ≤ ‖c - p.sum‖ + ‖p.sum - t.sum‖ := by
    calc _ = ‖(c - p.sum) + (p.sum - t.sum)‖ := by congr 1; ring
      _ ≤ _ := norm_add_le _ _
  have hpow : 0 ≤ (1 + u) ^ (p.length - 1) - 1 := by
    have : 1 ≤ (1 + u) ^ (p.length - 1) := one_le_pow₀ (by linarith)
    linarith
  have h3 := mul_le_mul_of_nonneg_left h2.1 hpow
  rw [← h.length_eq] at h3 h1
  nlinarith [h2.2]

/-- A dot product with a vector that is off by a relative error. -/
theorem FDot.error {x x' y : List 𝕜} {c : 𝕜} (hu : 0 ≤ u) (h : List.Forall₂ (Near v) x x') (hc : FDot u x' y c) :
    ‖c - (List.zipWith (· * ·) x y).sum‖ ≤
      ((1 + v) * (1 + u) ^ (List.zipWith (· * ·) x y).length - 1) * ((List.zipWith (· * ·) x y).map (fun x => ‖x‖)).sum := by
  obtain ⟨p, hp, hs⟩ := hc
  have hz : List.Forall₂ (Near v) (List.zipWith (· * ·) x y) (List.zipWith (· * ·) x' y) := by
    clear hp hs
    induction h generalizing y with
    | nil => simp
    | @cons a b x x' hab _ ih =>
      cases y with
      | nil => simp
      | cons c y => exact .cons (hab.mul_right c) ih
  have hzp : List.Forall₂ (Near ((1 + v) * (1 + u) - 1)) (List.zipWith (· * ·) x y) p := by
    generalize List.zipWith (· * ·) x y = a at hz
    generalize List.zipWith (· * ·) x' y = b at hz hp
    clear hs
    induction hz generalizing p with
    | nil => cases hp; exact .nil
    | cons h1 _ ih =>
      cases hp with
      | cons h2 h3 => exact .cons (h1.trans hu h2) (ih _ h3)
  have := FSum.error_near hu hzp hs
  refine this.trans ?_
  cases hn : (List.zipWith (· * ·) x y).length with
  | zero =>
    have : List.zipWith (· * ·) x y = [] := List.length_eq_zero_iff.1 hn
    rw [this]; simp
  | succ n =>
    apply le_of_eq
    simp only [Nat.add_sub_cancel]
    ring

end

section
variable {u : ℝ}

theorem exp_near (a b : ℝ) : ‖Complex.exp (-Complex.I * a) - Complex.exp (-Complex.I * b)‖ ≤ |a - b| := by
  have e : Complex.exp (-Complex.I * a) - Complex.exp (-Complex.I * b) =
      Complex.exp (-Complex.I * b) * (Complex.exp (Complex.I * ((b - a : ℝ) : ℂ)) - 1) := by
    rw [mul_sub, ← Complex.exp_add, mul_one]
    congr 2
    push_cast; ring
  rw [e, norm_mul]
  have h1 : ‖Complex.exp (-Complex.I * b)‖ = 1 := by
    rw [show -Complex.I * (b : ℂ) = ((-b : ℝ) : ℂ) * Complex.I by push_cast; ring]
    exact Complex.norm_exp_ofReal_mul_I _
  rw [h1, one_mul, abs_sub_comm]
  exact Real.norm_exp_I_mul_ofReal_sub_one_le

theorem norm_expI (b : ℝ) : ‖Complex.exp (-Complex.I * b)‖ = 1 := by
  rw [show -Complex.I * (b : ℂ) = ((-b : ℝ) : ℂ) * Complex.I by push_cast; ring]
  exact Complex.norm_exp_ofReal_mul_I _

/-- The vector of `time_to_freq`: `θ` bounds the error of the phases. -/
theorem FKernel.near (hu : 0 ≤ u) {nf nf' : ℚ} {L : ℕ} {w : Option (List ℂ)} {x : List ℂ} (hL : 0 < L) (hnf : 0 ≤ nf)
    (hn : |((nf' : ℝ)) - nf| ≤ u * nf) (hx : FKernel u nf' L w x) (j : ℕ) (v : ℂ) (hv : x[j]? = some v) :
    j < L ∧ Near ((1 + 2 * Real.pi * nf * L * ((1 + u) ^ 4 - 1)) * (1 + u) ^ 4 - 1)
      (2 / (L : ℂ) * (winAt w j * Complex.exp (-(2 * Real.pi * Complex.I * (nf : ℂ) * (j : ℂ))))) v := by
  obtain ⟨tp, p, s, h1, h2, h3, hl, h4⟩ := hx
  obtain ⟨a, e, x0, g1, g2, g3, g4⟩ := h4 j v hv
  have hj : j < L := by rw [← hl]; exact (List.getElem?_eq_some_iff.1 hv).1
  refine ⟨hj, ?_⟩
  have hnfR : (0 : ℝ) ≤ nf := by exact_mod_cast hnf
  -- the phase
  have k1 : Near u ((nf : ℝ)) (nf' : ℝ) := by
    unfold Near; rw [Real.norm_eq_abs, Real.norm_eq_abs, abs_of_nonneg hnfR]; exact hn
  have k2 : Near ((1 + u) * (1 + u) - 1) ((2 * Real.pi) * (nf : ℝ)) (tp * nf') :=
    by
      have a1 := h1.mul_right (nf : ℝ)
      have a2 := k1.mul_left tp
      exact a1.trans hu a2
  have k3 : Near ((1 + u) ^ 3 - 1) ((2 * Real.pi) * (nf : ℝ)) p := by
    have := k2.trans hu h2
    refine this.mono (le_of_eq (by ring))
  have k4 : Near ((1 + u) ^ 4 - 1) ((2 * Real.pi) * (nf : ℝ) * j) a := by
    have := (k3.mul_right (j : ℝ)).trans hu g1
    refine this.mono (le_of_eq (by ring))
  have hp4 : 0 ≤ (1 + u) ^ 4 - 1 := by
    have : 1 ≤ (1 + u) ^ 4 := one_le_pow₀ (by linarith)
    linarith
  have k5 : |a - (2 * Real.pi) * (nf : ℝ) * j| ≤ 2 * Real.pi * nf * L * ((1 + u) ^ 4 - 1) := by
    have k := k4
    unfold Near at k
    rw [Real.norm_eq_abs, Real.norm_eq_abs, abs_of_nonneg (a := (2 * Real.pi) * (nf : ℝ) * j) (by positivity)] at k
    refine k.trans ?_
    have : (2 * Real.pi) * (nf : ℝ) * j ≤ 2 * Real.pi * nf * L := by
      have : (j : ℝ) ≤ L := by exact_mod_cast hj.le
      gcongr
    nlinarith
  have k6 : Near (2 * Real.pi * nf * L * ((1 + u) ^ 4 - 1)) (Complex.exp (-Complex.I * ((2 * Real.pi) * (nf : ℝ) * j : ℝ))) (Complex.exp (-Complex.I * a)) := by
    unfold Near
    rw [norm_expI, mul_one]
    exact (exp_near _ _).trans k5
  have k7 := k6.trans hu g2
  have k8 := (k7.mul_right (s : ℂ))
  have h3' : Near u (2 / (L : ℂ)) (s : ℂ) := by
    unfold Near at h3 ⊢
    have e1 : ((s : ℂ) - 2 / (L : ℂ)) = ((s - 2 / (L : ℝ) : ℝ) : ℂ) := by push_cast; ring
    have e2 : (2 / (L : ℂ)) = ((2 / (L : ℝ) : ℝ) : ℂ) := by push_cast; ring
    rw [e1, e2, Complex.norm_real, Complex.norm_real]
    exact h3
  have k9 := (h3'.mul_left (Complex.exp (-Complex.I * ((2 * Real.pi) * (nf : ℝ) * j : ℝ))))
  have hθ : 0 ≤ 2 * Real.pi * nf * L * ((1 + u) ^ 4 - 1) := by positivity
  have hθ' : 0 ≤ (1 + 2 * Real.pi * nf * L * ((1 + u) ^ 4 - 1)) * (1 + u) - 1 := by nlinarith
  have k10 := k9.trans hθ' k8
  have k11 := k10.trans hu g3
  have ephase : Complex.exp (-Complex.I * ((2 * Real.pi) * (nf : ℝ) * j : ℝ)) =
      Complex.exp (-(2 * Real.pi * Complex.I * (nf : ℂ) * (j : ℂ))) := by
    congr 1; push_cast; ring
  rw [ephase] at k11
  cases w with
  | none =>
    simp only [Option.map_none] at g4
    subst g4
    have e : 2 / (L : ℂ) * (winAt none j * Complex.exp (-(2 * Real.pi * Complex.I * (nf : ℂ) * (j : ℂ)))) =
        Complex.exp (-(2 * Real.pi * Complex.I * (nf : ℂ) * (j : ℂ))) * (2 / (L : ℂ)) := by
      simp only [winAt]; ring
    rw [e]
    refine k11.mono ?_
    have : (1 + u) ^ 3 ≤ (1 + u) ^ 4 := pow_le_pow_right₀ (by linarith) (by norm_num)
    nlinarith
  | some w =>
    simp only [Option.map_some] at g4
    have k12 := (k11.mul_right (w.getD j 0)).trans hu g4
    have e : 2 / (L : ℂ) * (winAt (some w) j * Complex.exp (-(2 * Real.pi * Complex.I * (nf : ℂ) * (j : ℂ)))) =
        Complex.exp (-(2 * Real.pi * Complex.I * (nf : ℂ) * (j : ℂ))) * (2 / (L : ℂ)) * w.getD j 0 := by
      simp only [winAt]; ring
    rw [e]
    exact k12.mono (le_of_eq (by ring))

end

end Razorback.Approx
