/-
Property C104: outliers have a bounded influence, or none.
-/
import Mathlib.Analysis.Complex.ExponentialBounds
import Verif.Props.Descent

namespace Razorback.Props
open Razorback Razorback.Spec Razorback.MEst Razorback.Weights

variable {𝕜 : Type} [RCLike 𝕜] {q : ℕ} {σ : Type}

theorem count_two (P Q : ℝ → Bool) (hPQ : ∀ v, P v = true → Q v = false) : ∀ l : List ℝ, l.countP P + l.countP Q ≤ l.length
  | [] => by simp
  | a :: l => by
    have ih := count_two P Q hPQ l
    simp only [List.countP_cons, List.length_cons]
    by_cases h : P a = true
    · simp only [h, if_true, hPQ a h, Bool.false_eq_true, if_false]; omega
    · simp only [h, Bool.false_eq_true, if_false]
      split_ifs <;> omega

theorem median_le {l : List ℝ} {m M : ℝ} (h : IsMedian l m) (hM : l.length < 2 * l.countP (fun v => decide (v ≤ M))) : m ≤ M := by
  by_contra hlt
  push Not at hlt
  have h1 := (C55_median l m h).2
  have h2 := count_two (fun v => decide (v ≤ M)) (fun v => decide (m ≤ v)) (by
    intro v hv
    simp only [decide_eq_true_eq, decide_eq_false_iff_not, not_le] at hv ⊢
    linarith) l
  omega

theorem le_median {l : List ℝ} {m M : ℝ} (h : IsMedian l m) (hM : l.length < 2 * l.countP (fun v => decide (M ≤ v))) : M ≤ m := by
  by_contra hlt
  push Not at hlt
  have h1 := (C55_median l m h).1
  have h2 := count_two (fun v => decide (M ≤ v)) (fun v => decide (v ≤ m)) (by
    intro v hv
    simp only [decide_eq_true_eq, decide_eq_false_iff_not, not_le] at hv ⊢
    linarith) l
  omega

/-- **C104.** Breakdown point of the scale: if more than half of the residuals are at most `M` in size, the scale is at most
`M / 0.44845`, whatever the other residuals. -/
theorem C104_scale_bounded (x : List ℝ) (hx : ∀ v ∈ x, 0 ≤ v) (M s : ℝ) (hs : IsScale x s)
    (hM : x.length < 2 * x.countP (fun v => decide (v ≤ M))) : s ≤ M / 0.44845 := by
  obtain ⟨med, dev, hmed, hdev, rfl⟩ := hs
  have h1 : med ≤ M := median_le hmed hM
  have h0 : 0 ≤ med := by
    apply le_median hmed
    have hall : x.countP (fun v => decide ((0 : ℝ) ≤ v)) = x.length := by
      rw [List.countP_eq_length]
      intro v hv
      simpa using hx v hv
    have := List.length_pos_iff.2 (isMedian_ne_nil hmed)
    omega
  have h2 : dev ≤ M := by
    apply median_le hdev
    rw [List.length_map, List.countP_map]
    refine lt_of_lt_of_le hM (Nat.mul_le_mul_left 2 (List.countP_mono_left ?_))
    intro v hv hvM
    simp only [decide_eq_true_eq, Function.comp] at hvM ⊢
    have := hx v hv
    rw [abs_le]
    constructor <;> linarith
  have : (0 : ℝ) < 0.44845 := by norm_num
  gcongr

/-- **C104.** The scale is zero if more than half of the residuals have the same size, and only if half of them at least have. -/
theorem C104_scale_zero (x : List ℝ) :
    (∀ c, x.length < 2 * x.countP (fun v => decide (v = c)) → IsScale x 0) ∧
    (IsScale x 0 → ∃ c, x.length ≤ 2 * x.countP (fun v => decide (v = c))) := by
  constructor
  · intro c hc
    have hne : x ≠ [] := by rintro rfl; simp at hc
    have hm := isMedian_median hne
    have hcm : median x = c := by
      apply le_antisymm
      · apply median_le hm
        refine lt_of_lt_of_le hc (Nat.mul_le_mul_left 2 (List.countP_mono_left ?_))
        intro v _ h
        simp only [decide_eq_true_eq] at h ⊢
        exact h.le
      · apply le_median hm
        refine lt_of_lt_of_le hc (Nat.mul_le_mul_left 2 (List.countP_mono_left ?_))
        intro v _ h
        simp only [decide_eq_true_eq] at h ⊢
        exact h.ge
    rw [hcm] at hm
    have hd := isMedian_median (l := x.map (fun v => |v - c|)) (by simpa using hne)
    have hd0 : median (x.map (fun v => |v - c|)) = 0 := by
      apply le_antisymm
      · apply median_le hd
        rw [List.length_map, List.countP_map]
        refine lt_of_lt_of_le hc (Nat.mul_le_mul_left 2 (List.countP_mono_left ?_))
        intro v _ h
        simp only [decide_eq_true_eq, Function.comp] at h ⊢
        simp [h]
      · apply le_median hd
        rw [List.length_map, List.countP_map]
        refine lt_of_lt_of_le hc (Nat.mul_le_mul_left 2 (List.countP_mono_left ?_))
        intro v _ _
        simp
    rw [hd0] at hd
    exact ⟨c, 0, hm, hd, by simp⟩
  · rintro ⟨med, dev, -, hdev, h⟩
    have hd : dev = 0 := by
      have : (0.44845 : ℝ) ≠ 0 := by norm_num
      have := (div_eq_zero_iff.1 h.symm).resolve_right this
      exact this
    subst hd
    refine ⟨med, ?_⟩
    have := (C55_median _ _ hdev).1
    rw [List.length_map, List.countP_map] at this
    refine le_trans this (Nat.mul_le_mul_left 2 (List.countP_mono_left ?_))
    intro v _ h
    simp only [decide_eq_true_eq, Function.comp] at h ⊢
    have := abs_eq_zero.1 (le_antisymm h (abs_nonneg _))
    linarith

theorem sizes_pass {wf : WFun σ 𝕜 q} {e : List 𝕜} {b : List (Fin q → 𝕜)} {eps : ℝ} {it : ℕ} {r : List 𝕜} {inv : List ℕ} {st : σ}
    {p : Pass σ 𝕜 q} (hp : IsPass wf e b eps it r inv st p) :
    ∃ shown raw, wf st it shown e b inv = (.ok raw, p.st) ∧ shown.length = r.length ∧
      sizes shown = (without r inv).map (fun x => ‖x‖) ∧
      (∀ i x, r[i]? = some x → shown[i]? = some (if i ∈ inv then none else some x)) ∧
      ∀ w0, raw = some w0 → ∃ (w : List Flt) (ws : List ℝ), p.w = some w ∧ w = ws.map Flt.fin ∧ w.length = e.length ∧ w0.length = e.length ∧
        (∀ i v, w0[i]? = some v → w[i]? = some (if i ∈ inv then .fin 0 else v)) ∧
        (∀ i : ℕ, i ∈ p.rejected ↔ ∃ v, w[i]? = some (.fin v) ∧ |v| ≤ eps) := by
  obtain ⟨shown, raw, hev, hsl, hsh, hcase⟩ := hp.eval
  obtain ⟨ws, ⟨hwl, hwc⟩, -, -⟩ := hp.weights
  refine ⟨shown, raw, hev, hsl, sizes_shown inv 0 r shown hsl (by simpa using hsh), hsh, ?_⟩
  intro w0 hw0
  rcases hcase with ⟨h, -⟩ | ⟨w0', w, h1, h2, h3, h4, h5, -, h6⟩
  · rw [hw0] at h; simp at h
  · rw [hw0] at h1
    injection h1 with h1
    subst h1
    refine ⟨w, ws, h2, ?_, h4, h3, h5, h6⟩
    rcases hwc with ⟨h, -⟩ | h
    · rw [h2] at h; simp at h
    · rw [h2] at h; simpa using h

/-- **C104.** In every pass of a Huber stage, the weighted size of a residual, by which it pulls the estimate, is at most `alpha`
times the scale. -/
theorem C104_huber (alpha : ℝ) (ha : 0 < alpha) (e : List 𝕜) (b : List (Fin q → 𝕜)) (eps : ℝ)
    (it : ℕ) (r : List 𝕜) (hr : r.length = e.length) (inv : List ℕ) (st : σ) (p : Pass σ 𝕜 q)
    (hp : IsPass (huber alpha) e b eps it r inv st p) :
    ∃ ws : List ℝ, p.w = some (ws.map Flt.fin) ∧ ws.length = e.length ∧
      ∀ s, IsScale ((without r inv).map (fun x => ‖x‖)) s → ∀ (i : ℕ) x w, r[i]? = some x → ws[i]? = some w →
        0 ≤ w ∧ w ≤ 1 ∧ w * ‖x‖ ≤ alpha * s := by
  obtain ⟨shown, raw, hev, hsl, hsz, hsh, hw⟩ := sizes_pass hp
  obtain ⟨w0, hraw⟩ : ∃ w0, raw = some w0 := by
    have h := congrArg Prod.fst hev
    simp only [huber] at h
    injection h with h
    exact ⟨_, h.symm⟩
  obtain ⟨w, ws, hpw, rfl, hwl, hw0l, hww, -⟩ := hw w0 hraw
  refine ⟨ws, hpw, by simpa using hwl, ?_⟩
  intro s hs i x wi hx hwi
  have hss : 0 ≤ s := C55_nonneg shown s (by
    rw [madScale_eq, madScale_some, hsz]
    exact hs)
  have hsx := hsh i x hx
  have hi : i < w0.length := by
    have := (List.getElem?_eq_some_iff.1 hx).1
    omega
  have hwi' := hww i _ (List.getElem?_eq_getElem hi)
  rw [List.getElem?_map, hwi] at hwi'
  simp only [Option.map_some, Option.some.injEq] at hwi'
  by_cases hin : i ∈ inv
  · rw [if_pos hin] at hwi'
    injection hwi' with hwi'
    subst hwi'
    refine ⟨le_refl _, zero_le_one, ?_⟩
    rw [zero_mul]
    positivity
  rw [if_neg hin] at hwi'
  rw [if_neg hin] at hsx
  rw [← hsz] at hs
  rcases hss.eq_or_lt with h0 | hpos
  · rw [← h0] at hs
    obtain ⟨w', h1, h2⟩ := C51_zero_scale alpha shown hs st it e b inv
    rw [h1] at hev
    have : w' = w0 := by
      have h := congrArg Prod.fst hev
      rw [hraw] at h
      simpa using h
    subst this
    have h3 := h2 i x hsx
    rw [List.getElem?_eq_getElem hi, ← hwi'] at h3
    simp only [Option.some.injEq] at h3
    by_cases hx0 : x = 0
    · simp [hx0] at h3
    · simp only [hx0, if_false, Flt.fin.injEq] at h3
      rw [h3, ← h0]
      simp
  · obtain ⟨w', h1, h2, h3, h4, h5⟩ := C51_huber alpha ha shown s hs hpos st it e b inv
    rw [h1] at hev
    have : w' = w0 := by
      have h := congrArg Prod.fst hev
      rw [hraw] at h
      simpa using h
    subst this
    obtain ⟨v, hv1, hv2, hv3, hv4, hv5⟩ := h4 i x hsx
    rw [List.getElem?_eq_getElem hi, ← hwi'] at hv1
    simp only [Option.some.injEq, Flt.fin.injEq] at hv1
    subst hv1
    refine ⟨hv2.le, hv3, ?_⟩
    rcases le_total ‖x‖ (alpha * s) with h | h
    · rw [hv4.2 h, one_mul]
      exact h
    · exact (hv5 h).le

/-- **C104.** If more than half of the residuals shown to a Huber stage are at most `M` in size, no residual, however large,
pulls the estimate by more than `alpha * M / 0.44845`. -/
theorem C104_huber_bounded (alpha : ℝ) (ha : 0 < alpha) (e : List 𝕜) (b : List (Fin q → 𝕜)) (eps : ℝ)
    (it : ℕ) (r : List 𝕜) (hr : r.length = e.length) (inv : List ℕ) (st : σ) (p : Pass σ 𝕜 q)
    (hp : IsPass (huber alpha) e b eps it r inv st p) (M : ℝ)
    (hM : (without r inv).length < 2 * (without r inv).countP (fun x => decide (‖x‖ ≤ M))) :
    ∃ ws : List ℝ, p.w = some (ws.map Flt.fin) ∧ ∀ (i : ℕ) x w, r[i]? = some x → ws[i]? = some w → w * ‖x‖ ≤ alpha * (M / 0.44845) := by
  obtain ⟨ws, h1, -, h2⟩ := C104_huber alpha ha e b eps it r hr inv st p hp
  refine ⟨ws, h1, ?_⟩
  intro i x w hx hw
  have hne : without r inv ≠ [] := by intro h; simp [h] at hM
  obtain ⟨s, hs⟩ : ∃ s, IsScale ((without r inv).map (fun x => ‖x‖)) s := by
    have hm := isMedian_median (l := (without r inv).map (fun x => ‖x‖)) (by simpa using hne)
    have hd := isMedian_median (l := ((without r inv).map (fun x => ‖x‖)).map
      (fun v => |v - median ((without r inv).map (fun x => ‖x‖))|)) (by simpa using hne)
    exact ⟨_, _, _, hm, hd, rfl⟩
  have hb := C104_scale_bounded _ (by
    intro v hv
    obtain ⟨x, -, rfl⟩ := List.mem_map.1 hv
    exact norm_nonneg x) M s hs (by
    rw [List.length_map, List.countP_map]
    exact hM)
  exact (h2 s hs i x w hx hw).2.2.trans (by gcongr)

theorem thomsonWeight_le_iff {eps s a : ℝ} (h0 : 0 < eps) (h1 : eps ≤ 1) (hs : 0 < s) (ha : 0 < a) (x : ℝ) :
    |thomsonWeight s a x| ≤ eps ↔ rejectionSize eps s a ≤ x := by
  have hlog : Real.log eps ≤ 0 := Real.log_nonpos h0.le h1
  have hC : 0 < Real.exp (-a ^ 2) - Real.log eps := by
    have := Real.exp_pos (-a ^ 2)
    linarith
  have hle : ∀ u v w : ℝ, u - v ≤ w ↔ u - w ≤ v := fun u v w => by constructor <;> intro h <;> linarith
  rw [thomsonWeight, abs_of_pos (Real.exp_pos _), ← Real.le_log_iff_exp_le h0, hle, ← Real.log_le_iff_le_exp hC, rejectionSize]
  constructor
  · intro h
    have h2 : Real.log (Real.exp (-a ^ 2) - Real.log eps) / a ≤ x / s - a := by
      rw [div_le_iff₀ ha]; linarith
    have h3 : a + Real.log (Real.exp (-a ^ 2) - Real.log eps) / a ≤ x / s := by linarith
    rw [le_div_iff₀ hs] at h3
    linarith
  · intro h
    have h3 : a + Real.log (Real.exp (-a ^ 2) - Real.log eps) / a ≤ x / s := by
      rw [le_div_iff₀ hs]; linarith
    have h2 : Real.log (Real.exp (-a ^ 2) - Real.log eps) / a ≤ x / s - a := by linarith
    rw [div_le_iff₀ ha] at h2
    linarith

/-- **C104.** Exactly what a Thomson stage rejects: after each pass, what was rejected before, and the samples whose residual before
the pass reaches `scale * (xi + log (exp (-xi ^ 2) - log eps) / xi)`. -/
theorem C104_thomson (xi : Option ℝ) (hxi : ∀ x, xi = some x → 0 < x) (e : List 𝕜) (b : List (Fin q → 𝕜))
    (hb : e.length = b.length) (eps : ℝ) (h0 : 0 < eps) (h1 : eps ≤ 1) (z0 : Fin q → 𝕜) (inv : List ℕ) (st : Option Flt)
    (ps : List (Pass (Option Flt) 𝕜 q)) (hps : Passes (thomson xi) e b eps 0 (resid e b z0) inv st ps) (s : ℝ)
    (hs : IsScale ((without (resid e b z0) inv).map (fun x => ‖x‖)) s) (hpos : 0 < s) (T : ℝ)
    (hT : T = rejectionSize eps s (xi.getD (Real.sqrt (2 * Real.log (2 * e.length))))) :
    ((z0, inv) :: ps.map (fun p => (p.z, p.rejected))).IsChain (fun before after =>
      ∀ (i : ℕ) x, (resid e b before.1)[i]? = some x → (i ∈ after.2 ↔ i ∈ before.2 ∨ T ≤ ‖x‖)) := by
  have hT' : T = rejectionSize eps s (thomsonXi xi e.length) := by
    rw [hT]; cases xi <;> rfl
  -- one pass, from the weights
  have hone : ∀ (it : ℕ) (z : Fin q → 𝕜) (inv : List ℕ) (st : Option Flt) (p : Pass (Option Flt) 𝕜 q),
      IsPass (thomson xi) e b eps it (resid e b z) inv st p →
      (∀ shown : List (Option 𝕜), sizes shown = (without (resid e b z) inv).map (fun x => ‖x‖) →
        thomson (q := q) xi st it shown e b inv = (.ok (some ((vnorm shown).map
            (fun v => expexp (Flt.div (flt v) (.fin s)) (thomsonXi xi shown.length)))), some (.fin s))) →
      (∀ (i : ℕ) x, (resid e b z)[i]? = some x → (i ∈ p.rejected ↔ i ∈ inv ∨ T ≤ ‖x‖)) ∧ p.st = some (.fin s) := by
    intro it z inv st p hp hcall
    obtain ⟨shown, raw, hev, hsl, hsz, hsh, hw⟩ := sizes_pass hp
    rw [hcall shown hsz] at hev
    have hst := (Prod.mk.injEq _ _ _ _ ▸ hev).2
    have hraw := (Prod.mk.injEq _ _ _ _ ▸ hev).1
    injection hraw with hraw
    obtain ⟨w, ws, -, -, hwl, hw0l, hww, hrej⟩ := hw _ hraw.symm
    refine ⟨?_, hst.symm⟩
    intro i x hx
    have hsx := hsh i x hx
    rw [hrej]
    have hi : i < e.length := by
      have := (List.getElem?_eq_some_iff.1 hx).1
      rw [length_resid hb] at this
      exact this
    have hn : 0 < e.length := by omega
    have hlen : shown.length = e.length := by rw [hsl, length_resid hb]
    by_cases hin : i ∈ inv
    · have := hww i _ (List.getElem?_eq_getElem (by omega))
      rw [if_pos hin] at this
      rw [this]
      simp only [hin, true_or, iff_true]
      exact ⟨0, rfl, by simpa using h0.le⟩
    · rw [if_neg hin] at hsx
      have := hww i _ (thomson_weights s _ hpos shown i x hsx)
      rw [if_neg hin] at this
      rw [this]
      simp only [hin, false_or, Option.some.injEq, Flt.fin.injEq]
      rw [hT', ← thomsonWeight_le_iff h0 h1 hpos (thomsonXi_pos hxi hn), hlen]
      constructor
      · rintro ⟨v, rfl, hv⟩; exact hv
      · intro hv; exact ⟨_, rfl, hv⟩
  have hlater : ∀ (ps : List (Pass (Option Flt) 𝕜 q)) (it : ℕ) (z : Fin q → 𝕜) (inv : List ℕ), it ≠ 0 →
      Passes (thomson xi) e b eps it (resid e b z) inv (some (.fin s)) ps →
      ((z, inv) :: ps.map (fun p => (p.z, p.rejected))).IsChain (fun before after =>
        ∀ (i : ℕ) x, (resid e b before.1)[i]? = some x → (i ∈ after.2 ↔ i ∈ before.2 ∨ T ≤ ‖x‖)) := by
    intro ps
    induction ps with
    | nil => intros; simp
    | cons p ps ih =>
      intro it z inv hit h
      cases h with
      | cons hp hrest =>
        obtain ⟨h2, h3⟩ := hone it z inv _ p hp (by
          intro shown _
          simp only [thomson, hit, if_false])
        rw [h3] at hrest
        simp only [List.map_cons, List.isChain_cons_cons]
        exact ⟨h2, ih (it + 1) p.z p.rejected (by omega) hrest⟩
  cases hps with
  | nil => simp
  | cons hp hrest =>
    rename_i p ps
    obtain ⟨h2, h3⟩ := hone 0 z0 inv _ p hp (by
      intro shown hsz
      have : madScaleAbs (vnorm shown) = some s := by
        rw [madScale_some, hsz]
        exact hs
      simp only [thomson, if_true, this]
      rfl)
    rw [h3] at hrest
    simp only [List.map_cons, List.isChain_cons_cons]
    exact ⟨h2, hlater ps 1 p.z p.rejected (by omega) hrest⟩

/-- **C104.** Far outliers never enter the estimate of a Thomson stage.  If more than half of the samples not yet rejected have residuals
of size at most `M` for the estimate the stage starts from, every sample whose residual is beyond
`M / 0.44845 * (xi + log (exp (-xi ^ 2) - log eps) / xi)` is rejected, whatever its size. -/
theorem C104_far_rejected (xi : Option ℝ) (hxi : ∀ x, xi = some x → 0 < x) (hq : 0 < q) (e : List 𝕜) (b : List (Fin q → 𝕜))
    (hb : e.length = b.length) (z0 : Fin q → 𝕜) (inv : List ℕ) (o : Opts) (h0 : 0 < o.eps) (h1 : o.eps ≤ 1 / 3) (st st' : Option Flt)
    (z : Fin q → 𝕜) (inv' : List ℕ) (h : mEstimate e b (some z0) (some (thomson xi)) inv o st = (.ok (z, inv'), st')) (M : ℝ)
    (hM : (without (resid e b z0) inv).length < 2 * (without (resid e b z0) inv).countP (fun x => decide (‖x‖ ≤ M)))
    (i : ℕ) (x : 𝕜) (hx : (resid e b z0)[i]? = some x)
    (hfar : rejectionSize o.eps (M / 0.44845) (xi.getD (Real.sqrt (2 * Real.log (2 * e.length)))) ≤ ‖x‖) : i ∈ inv' := by
  obtain ⟨ps, p, p', -, hps, rfl, rfl, -, -, -⟩ := C46_converged _ e b hb z0 inv o st st' z inv' h
  obtain ⟨p0, rest, hl⟩ : ∃ p0 rest, ps ++ [p, p'] = p0 :: rest := by
    cases ps with
    | nil => exact ⟨_, _, rfl⟩
    | cons a l => exact ⟨_, _, rfl⟩
  have hp' : p' ∈ p0 :: rest := by rw [← hl]; simp
  rw [hl] at hps
  have hfirst : IsPass (thomson xi) e b o.eps 0 (resid e b z0) inv st p0 := by
    cases hps with
    | cons h _ => exact h
  obtain ⟨he, s, hs, hpos⟩ := C100_scale xi hxi hq e b hb o.eps z0 inv st p0 hfirst
  have hch := C104_thomson xi hxi e b hb o.eps h0 (by linarith) z0 inv st _ hps s hs hpos _ rfl
  simp only [List.map_cons, List.isChain_cons_cons] at hch
  have hi0 : i ∈ p0.rejected := by
    rw [hch.1 i x hx]
    right
    refine le_trans ?_ hfar
    have hb := C104_scale_bounded _ (by
      intro v hv
      obtain ⟨x, -, rfl⟩ := List.mem_map.1 hv
      exact norm_nonneg x) M s hs (by
      rw [List.length_map, List.countP_map]
      exact hM)
    have hapos : 0 < xi.getD (Real.sqrt (2 * Real.log (2 * e.length))) := by
      have := thomsonXi_pos hxi (List.length_pos_iff.2 he)
      cases xi <;> exact this
    generalize xi.getD (Real.sqrt (2 * Real.log (2 * e.length))) = a at hapos
    unfold rejectionSize
    apply mul_le_mul_of_nonneg_right hb
    have hlog : 0 ≤ Real.log (Real.exp (-a ^ 2) - Real.log o.eps) := by
      apply Real.log_nonneg
      have h3 : Real.log o.eps ≤ -1 := by
        have h4 : Real.exp 1 < 3 := by
          have := Real.exp_one_lt_d9
          linarith
        have h5 : o.eps ≤ Real.exp (-1) := by
          rw [Real.exp_neg]
          refine h1.trans ?_
          rw [one_div]
          exact inv_anti₀ (Real.exp_pos 1) h4.le
        calc Real.log o.eps ≤ Real.log (Real.exp (-1)) := Real.log_le_log h0 h5
          _ = -1 := Real.log_exp _
      have := Real.exp_pos (-a ^ 2)
      linarith
    positivity
  have hmono := (C47_never_readmitted (thomson xi) e b o.eps h0.le 0 _ inv st _ hps).2
  rw [List.pairwise_cons] at hmono
  rcases List.mem_cons.1 hp' with h | h
  · rw [h]; exact hi0
  · exact hmono.1 p' h hi0

/-- Four samples 1, -1, 2, -2 of a constant, and two outliers. -/
def exO : List ℝ := [1, -1, 2, -2, 1000, -1000]

def exOb : List (Fin 1 → ℝ) := List.replicate 6 (fun _ => 1)

theorem exO_residual : MEst.residual exO exOb (fun _ => 0) = exO := by simp [MEst.residual, exO, exOb, List.replicate]

theorem exO_scale : IsScale [1, 1, 2, 2, 1000, 1000] (1 / 0.44845) := by
  have hmed : IsMedian [1, 1, 2, 2, 1000, 1000] 2 := ⟨_, .refl _, by norm_num, .inr ⟨2, 2, 2, rfl, rfl, rfl, by norm_num⟩⟩
  have hdev : IsMedian (([1, 1, 2, 2, 1000, 1000] : List ℝ).map (fun v => |v - 2|)) 1 := by
    have : ([1, 1, 2, 2, 1000, 1000] : List ℝ).map (fun v => |v - 2|) = [1, 1, 0, 0, 998, 998] := by
      simp only [List.map_cons, List.map_nil]
      norm_num
    rw [this]
    refine ⟨[0, 0, 1, 1, 998, 998], ?_, by norm_num, .inr ⟨2, 1, 1, rfl, rfl, rfl, by norm_num⟩⟩
    exact List.Perm.append_right (l₁ := [0, 0, 1, 1]) (l₂ := [1, 1, 0, 0]) [998, 998] (List.perm_append_comm (l₁ := [0, 0]) (l₂ := [1, 1]))
  exact ⟨_, _, hmed, hdev, rfl⟩

theorem exO_far {m : ℝ} (h0 : 0 ≤ m) (h1 : m ≤ 2) : rejectionSize (1 / 10 ^ 14) (m / 0.44845) 3 ≤ 1000 := by
  have hl : Real.log (Real.exp (-3 ^ 2) - Real.log (1 / 10 ^ 14)) ≤ 126 := by
    have h10 : Real.log 10 ≤ 9 := by
      have := Real.log_le_sub_one_of_pos (show (0 : ℝ) < 10 by norm_num)
      linarith
    have hlog : Real.log (1 / 10 ^ 14 : ℝ) = -(14 * Real.log 10) := by
      rw [one_div, Real.log_inv, Real.log_pow]
      norm_num
    have hp : 0 ≤ Real.log 10 := Real.log_nonneg (by norm_num)
    have he : Real.exp (-3 ^ 2) ≤ 1 := by
      rw [Real.exp_le_one_iff]; norm_num
    have hpos := Real.exp_pos (-3 ^ 2)
    rw [hlog]
    have := Real.log_le_sub_one_of_pos (show 0 < Real.exp (-3 ^ 2) - -(14 * Real.log 10) by linarith)
    linarith
  unfold rejectionSize
  have h2 : 3 + Real.log (Real.exp (-3 ^ 2) - Real.log (1 / 10 ^ 14)) / 3 ≤ 45 := by linarith
  have h3 : m / 0.44845 ≤ 5 := by
    rw [div_le_iff₀ (by norm_num)]
    linarith
  have h4 : 0 ≤ m / 0.44845 := by positivity
  calc _ ≤ m / 0.44845 * 45 := by gcongr
    _ ≤ 5 * 45 := by gcongr
    _ ≤ 1000 := by norm_num

/-- From 0 on the stage succeeds, and rejects the outliers. -/
theorem exO_ok : ∃ st', mEstimate exO exOb (some fun _ => 0) (some (thomson (some 3))) [] {} none =
    (.ok (fun _ => 0, [4, 5]), st') := by
  obtain ⟨s, hs⟩ : ∃ s, s = (1 : ℝ) / 0.44845 := ⟨_, rfl⟩
  have hpos : 0 < s := by rw [hs]; norm_num
  have hsc : madScaleAbs (vnorm (mask exO [])) = some s := by
    rw [madScale_some]
    have : sizes (mask exO []) = [1, 1, 2, 2, 1000, 1000] := by simp [sizes, valid, mask, exO]
    rw [this, hs]
    exact exO_scale
  have hlow : ∀ x : ℝ, x ≤ 2 → 1 / 3 ≤ thomsonWeight s 3 x := by
    intro x hx
    have h1 : Real.exp (3 * (x / s - 3)) ≤ 1 := by
      rw [Real.exp_le_one_iff]
      have : x / s ≤ 2 / s := by gcongr
      have h2 : 2 / s ≤ 3 := by rw [hs]; norm_num
      linarith
    have h2 : Real.exp (-1) ≤ thomsonWeight s 3 x := by
      unfold thomsonWeight
      apply Real.exp_le_exp.2
      have h3 : 0 < Real.exp (-(3 : ℝ) ^ 2) := Real.exp_pos _
      generalize Real.exp (-(3 : ℝ) ^ 2) = A at h3 ⊢
      generalize Real.exp (3 * (x / s - 3)) = B at h1 ⊢
      linarith
    refine le_trans ?_ h2
    rw [Real.exp_neg, one_div]
    have := Real.exp_one_lt_d9
    exact inv_anti₀ (Real.exp_pos 1) (by linarith)
  have hfar := exO_far (m := 1) (by norm_num) (by norm_num)
  rw [← hs, ← thomsonWeight_le_iff (by norm_num) (by norm_num) hpos (by norm_num)] at hfar
  obtain ⟨u, hu⟩ : ∃ u, u = thomsonWeight s 3 1 := ⟨_, rfl⟩
  obtain ⟨v, hv⟩ : ∃ v, v = thomsonWeight s 3 2 := ⟨_, rfl⟩
  obtain ⟨t, ht⟩ : ∃ t, t = thomsonWeight s 3 1000 := ⟨_, rfl⟩
  have hu0 : 1 / 3 ≤ u := by rw [hu]; exact hlow 1 (by norm_num)
  have hv0 : 1 / 3 ≤ v := by rw [hv]; exact hlow 2 (by norm_num)
  have ht0 : 0 < t := by rw [ht]; exact Real.exp_pos _
  have ht1 : t ≤ 1 / 10 ^ 14 := by
    rw [ht]
    exact (le_abs_self _).trans hfar
  have hcall0 : thomson (q := 1) (some 3) none 0 (mask exO []) exO exOb [] =
      (.ok (some [.fin u, .fin u, .fin v, .fin v, .fin t, .fin t]), some (.fin s)) := by
    have hl : (mask exO []).length = 6 := by simp [mask, exO]
    simp only [thomson, if_true, hsc, hl, flt]
    simp only [mask, vnorm, exO, List.zipIdx_cons, List.zipIdx_nil, List.map_cons, List.map_nil, flt, Flt.div, hpos.ne', if_false,
      expexp_fin, hu, hv, ht, thomsonWeight, thomsonXi, List.contains_nil, Bool.false_eq_true, Option.map_some, norm_neg,
      Real.norm_eq_abs, abs_one, abs_two, abs_neg, abs_of_pos (show (0 : ℝ) < 1000 by norm_num)]
  have hcall1 : thomson (q := 1) (some 3) (some (.fin s)) 1 (mask exO [4, 5]) exO exOb [4, 5] =
      (.ok (some [.fin u, .fin u, .fin v, .fin v, .nan, .nan]), some (.fin s)) := by
    have hm : mask exO [4, 5] = [some 1, some (-1), some 2, some (-2), none, none] := by
      simp [mask, exO, List.contains_cons]
    simp only [thomson, one_ne_zero, if_false, hm]
    simp only [vnorm, List.map_cons, List.map_nil, flt, Flt.div, hpos.ne', if_false,
      expexp_fin, expexp_nan, hu, hv, thomsonWeight, thomsonXi, Option.map_some, Option.map_none, norm_neg, Real.norm_eq_abs,
      abs_one, abs_two, abs_neg]
  have hu1 : ¬ |u| ≤ 1 / 10 ^ 14 := by
    rw [abs_of_pos (by linarith), not_le]
    refine lt_of_lt_of_le ?_ hu0
    norm_num
  have hv1 : ¬ |v| ≤ 1 / 10 ^ 14 := by
    rw [abs_of_pos (by linarith), not_le]
    refine lt_of_lt_of_le ?_ hv0
    norm_num
  have hev0 : evalWeight (thomson (some 3)) 0 exO exO exOb [] (1 / 10 ^ 14) none =
      (.ok (some ([u, u, v, v, t, t].map .fin), [4, 5]), some (.fin s)) := by
    unfold evalWeight
    rw [hcall0]
    simp only [List.any_nil, Bool.false_eq_true, if_false]
    rw [if_neg (by simp [exO])]
    have hz : zeroAt [.fin u, .fin u, .fin v, .fin v, .fin t, .fin t] [] = [u, u, v, v, t, t].map .fin := by simp [zeroAt]
    rw [hz]
    simp only [negligible, List.map_cons, List.map_nil, List.zipIdx_cons, List.zipIdx_nil, List.filter_cons, List.filter_nil,
      Flt.close0, hu1, hv1, abs_of_pos ht0, ht1, decide_true, decide_false, if_true, if_false, Bool.false_eq_true, zero_add,
      Nat.reduceAdd]
  have hev1 : evalWeight (thomson (some 3)) 1 exO exO exOb [4, 5] (1 / 10 ^ 14) (some (.fin s)) =
      (.ok (some ([u, u, v, v, 0, 0].map .fin), [4, 5]), some (.fin s)) := by
    unfold evalWeight
    rw [if_neg (by simp [exO]), hcall1]
    simp only
    rw [if_neg (by simp [exO])]
    have hz : zeroAt [.fin u, .fin u, .fin v, .fin v, .nan, .nan] [4, 5] = [u, u, v, v, 0, 0].map .fin := by
      simp [zeroAt, List.contains_cons]
    rw [hz]
    have h0 : |(0 : ℝ)| ≤ 1 / 10 ^ 14 := by norm_num
    simp only [negligible, List.map_cons, List.map_nil, List.zipIdx_cons, List.zipIdx_nil, List.filter_cons, List.filter_nil,
      Flt.close0, hu1, hv1, h0, decide_true, decide_false, if_true, if_false, Bool.false_eq_true, zero_add, Nat.reduceAdd]
  have hwlse : ∀ a : ℝ, 0 ≤ a → wlse exO exOb (some ([u, u, v, v, a, a].map .fin)) = .ok (fun _ => 0) ∧
      wresid (some ([u, u, v, v, a, a].map .fin)) exO = 2 * u + 8 * v + 2000000 * a := by
    intro a ha
    have hw : WeightsAre (some ([u, u, v, v, a, a].map .fin)) 6 [u, u, v, v, a, a] := ⟨rfl, .inr rfl⟩
    refine ⟨(wlse_ok (ws := [u, u, v, v, a, a]) rfl hw).2 ⟨?_, ?_⟩, ?_⟩
    · rw [C44_independent _ (by
        have hu2 : 0 ≤ u := by linarith
        have hv2 : 0 ≤ v := by linarith
        simp [obs, exO, exOb, List.replicate, hu2, hv2, ha])]
      intro d hd
      have := hd ⟨u, 1, fun _ => 1⟩ (by simp [obs, exO, exOb, List.replicate]) (by
        simp only
        linarith)
      simp [dotProduct] at this
      funext j
      rw [Fin.fin_one_eq_zero j, this]; rfl
    · intro j
      simp [obs, dotProduct, exO, exOb, List.replicate]
    · rw [← exO_residual, wresid_eq (ws := [u, u, v, v, a, a]) rfl hw]
      have : cost (obs exO exOb [u, u, v, v, a, a]) (fun _ => (0 : ℝ)) = 2 * u + 8 * v + 2000000 * a := by
        simp [cost, obs, dotProduct, exO, exOb, List.replicate]
        ring
      rw [this, abs_of_nonneg (by linarith)]
  obtain ⟨a1, a2⟩ := hwlse t ht0.le
  obtain ⟨b1, b2⟩ := hwlse 0 le_rfl
  refine ⟨some (.fin s), ?_⟩
  show MEst.loop (thomson (some 3)) exO exOb {} (98 + 1 + 1) 0 (MEst.residual exO exOb (fun _ => 0)) [] none none = _
  rw [exO_residual, MEst.loop, hev0]
  simp only [a1, converged, Bool.false_eq_true, if_false]
  rw [MEst.loop, exO_residual, hev1]
  simp only [b1]
  rw [if_pos]
  unfold converged
  simp only [decide_eq_true_eq]
  rw [exO_residual, a2, b2]
  have hd : 0 < 2 * u + 8 * v + 2000000 * t := by linarith
  refine ⟨hd.ne', ?_⟩
  rw [abs_div, abs_of_pos hd, div_lt_iff₀ hd, show 2 * u + 8 * v + 2000000 * 0 - (2 * u + 8 * v + 2000000 * t) = -(2000000 * t) by ring,
    abs_neg, abs_of_pos (by linarith)]
  have : 2000000 * t ≤ 2000000 * (1 / 10 ^ 14) := by gcongr
  have h5 : 2000000 * t ≤ 1 / 1000 := this.trans (by norm_num)
  linarith

theorem exO_resid : resid exO exOb (fun _ => 0) = exO := by simp [resid, exO, exOb, List.replicate]

/-- The outlier -1000 meets the hypotheses. -/
example : 5 ∈ [4, 5] := by
  obtain ⟨st', h⟩ := exO_ok
  refine C104_far_rejected (some 3) (by simp) Nat.one_pos exO exOb rfl (fun _ => 0) [] {} (by norm_num) (by norm_num) none st' _ _ h 2 ?_
    5 (-1000) (by rw [exO_resid]; rfl) ?_
  · rw [exO_resid]
    simp only [without, exO, List.zipIdx_cons, List.zipIdx_nil, List.not_mem_nil, not_false_eq_true, decide_true, List.filter_true,
      List.map_cons, List.map_nil, List.countP_cons, List.countP_nil, norm_neg, Real.norm_eq_abs, abs_one, abs_two,
      abs_of_pos (show (0 : ℝ) < 1000 by norm_num)]
    norm_num
  · have := exO_far (m := 2) (by norm_num) le_rfl
    simpa using this

end Razorback.Props
