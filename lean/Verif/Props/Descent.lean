/-
Property C100: the iterations of an estimation do not increase the loss.
-/
import Verif.Lemmas.Descent
import Verif.Props.Estimate
import Verif.Props.Weights

namespace Razorback.Props
open Razorback Razorback.Spec Razorback.MEst Razorback.Weights

variable {𝕜 : Type} [RCLike 𝕜] {q : ℕ} {σ : Type}

/-- **C100.** If the weight of a residual is a non-negative, non-increasing function of its size, the new estimate of a pass
has no more loss than the one before, on the samples not rejected before the pass, and all the more on those not rejected
after it. -/
theorem C100_pass (wf : WFun σ 𝕜 q) (e : List 𝕜) (b : List (Fin q → 𝕜)) (hb : e.length = b.length) (eps : ℝ) (heps : 0 ≤ eps)
    (it : ℕ) (z0 : Fin q → 𝕜) (inv : List ℕ) (st : σ) (p : Pass σ 𝕜 q)
    (hp : IsPass wf e b eps it (resid e b z0) inv st p) (W : ℝ → ℝ) (hW : AntitoneOn W (Set.Ici 0))
    (h0 : ∀ x, 0 ≤ x → 0 ≤ W x)
    (hw : ∀ shown : List (Option 𝕜), shown.length = e.length →
      (∀ (i : ℕ) x, (resid e b z0)[i]? = some x → shown[i]? = some (if i ∈ inv then none else some x)) →
      ∃ w0, (wf st it shown e b inv).1 = .ok (some w0) ∧
        ∀ (i : ℕ) x, shown[i]? = some (some x) → w0[i]? = some (.fin (W ‖x‖))) :
    misfit W e b inv p.z ≤ misfit W e b inv z0 ∧ misfit W e b p.rejected p.z ≤ misfit W e b inv p.z := by
  obtain ⟨shown, raw, hev, hsl, hsh, hcase⟩ := hp.eval
  have hrl : (resid e b z0).length = e.length := length_resid hb z0
  obtain ⟨w0', hok, hwts⟩ := hw shown (by rw [hsl, hrl]) hsh
  rw [hev] at hok
  simp only [Except.ok.injEq] at hok
  subst hok
  rcases hcase with ⟨h, -⟩ | ⟨w0, w, h1, h2, h3, h4, h5, h6, h7⟩
  · simp at h
  injection h1 with h1
  subst h1
  obtain ⟨ws, hws, -, hn⟩ := hp.weights
  obtain ⟨hwl, hwc⟩ := hws
  have hww : w = ws.map Flt.fin := by
    rcases hwc with ⟨h, -⟩ | h
    · rw [h2] at h; simp at h
    · rw [h2] at h; simpa using h
  have hval : ∀ (i : ℕ) (a : ℝ) (x : 𝕜), ws[i]? = some a → (resid e b z0)[i]? = some x →
      a = if i ∈ inv then 0 else W ‖x‖ := by
    intro i a x ha hx
    have hi : i < e.length := by
      have := (List.getElem?_eq_some_iff.1 hx).1
      omega
    have hwi : w[i]? = some (.fin a) := by rw [hww, List.getElem?_map, ha]; rfl
    obtain ⟨v, hv⟩ : ∃ v, w0'[i]? = some v := ⟨_, List.getElem?_eq_getElem (by omega)⟩
    have h5' := h5 i v hv
    rw [hwi] at h5'
    simp only [Option.some.injEq] at h5'
    by_cases hin : i ∈ inv
    · simp only [hin, if_true] at h5' ⊢
      injection h5'
    · simp only [hin, if_false] at h5' ⊢
      have hs := hsh i x hx
      simp only [hin, if_false] at hs
      have := hwts i x hs
      rw [hv, ← h5'] at this
      simpa using this
  have hpos : ∀ a ∈ ws, 0 ≤ a := by
    intro a ha
    obtain ⟨i, hi, rfl⟩ := List.getElem_of_mem ha
    have hi' : i < (resid e b z0).length := by omega
    rw [hval i _ _ (List.getElem?_eq_getElem hi) (List.getElem?_eq_getElem hi')]
    split
    · exact le_rfl
    · exact h0 _ (norm_nonneg _)
  have hmin : cost (obs e b ws) p.z ≤ cost (obs e b ws) z0 := by
    have e1 : z0 = p.z + (z0 - p.z) := by simp
    rw [e1, cost_add _ _ _ hn]
    have : 0 ≤ ((obs e b ws).map (fun t => t.w * ‖dotProduct t.y (z0 - p.z)‖ ^ 2)).sum := by
      apply List.sum_nonneg
      intro a ha
      obtain ⟨t, ht, rfl⟩ := List.mem_map.1 ha
      have : 0 ≤ t.w := by
        obtain ⟨i, hi, rfl⟩ := List.getElem_of_mem ht
        simp only [obs, List.getElem_zipWith]
        exact hpos _ (List.getElem_mem _)
      positivity
    linarith
  constructor
  · rw [cost_resid, cost_resid] at hmin
    have := losses_le hW inv 0 (resid e b z0) (resid e b p.z) ws (by rw [length_resid hb, length_resid hb])
      (by omega) (by simpa using hval)
    unfold misfit without
    linarith
  · refine misfit_mono h0 e b ?_ hb _
    intro i hi hlt
    rw [h7]
    obtain ⟨v, hv⟩ : ∃ v, w0'[i]? = some v := ⟨_, List.getElem?_eq_getElem (by omega)⟩
    have := h5 i v hv
    simp only [hi, if_true] at this
    exact ⟨0, this, by simpa using heps⟩

theorem sizes_shown : ∀ (inv : List ℕ) (k : ℕ) (r : List 𝕜) (shown : List (Option 𝕜)), shown.length = r.length →
    (∀ (i : ℕ) x, r[i]? = some x → shown[i]? = some (if k + i ∈ inv then none else some x)) →
    sizes shown = ((((r.zipIdx k).filter (fun p => p.2 ∉ inv)).map Prod.fst).map (fun x => ‖x‖))
  | inv, k, [], [], _, _ => by simp [sizes, valid]
  | inv, k, [], _ :: _, h, _ => by simp at h
  | inv, k, _ :: _, [], h, _ => by simp at h
  | inv, k, x :: r, v :: shown, hl, h => by
    have ih := sizes_shown inv (k + 1) r shown (by simpa using hl) (by
      intro i y hy
      have := h (i + 1) y (by simpa using hy)
      simp only [List.getElem?_cons_succ] at this
      rw [this]
      simp only [show k + (i + 1) = k + 1 + i by omega])
    have hv := h 0 x (by simp)
    simp only [List.getElem?_cons_zero, Nat.add_zero, Option.some.injEq] at hv
    simp only [List.zipIdx_cons, List.filter_cons]
    unfold sizes valid at ih ⊢
    by_cases hk : k ∈ inv
    · simp only [hk, if_true] at hv
      subst hv
      simp only [hk, not_true, decide_false, Bool.false_eq_true, if_false, ← ih, List.filterMap_cons, id]
    · simp only [hk, if_false] at hv
      subst hv
      simp only [hk, not_false_iff, decide_true, if_true, ← ih, List.filterMap_cons, id, List.map_cons]

theorem thomsonWeight_anti {s a : ℝ} (hs : 0 < s) (ha : 0 < a) : Antitone (thomsonWeight s a) := by
  intro x y h
  unfold thomsonWeight
  rw [Real.exp_le_exp]
  have : Real.exp (a * (x / s - a)) ≤ Real.exp (a * (y / s - a)) := by
    rw [Real.exp_le_exp]
    have : x / s ≤ y / s := by gcongr
    nlinarith
  linarith

/-- The parameter of a Thomson function for `n` samples. -/
theorem thomsonXi_pos {xi : Option ℝ} (hxi : ∀ x, xi = some x → 0 < x) {n : ℕ} (hn : 0 < n) : 0 < thomsonXi xi n := by
  unfold thomsonXi
  cases xi with
  | some x => exact hxi x rfl
  | none =>
    apply Real.sqrt_pos.2
    have : (1 : ℝ) ≤ n := by exact_mod_cast hn
    have := Real.log_pos (x := 2 * (n : ℝ)) (by linarith)
    linarith

theorem thomson_weights (s a : ℝ) (hs : 0 < s) (shown : List (Option 𝕜)) (i : ℕ) (x : 𝕜) (h : shown[i]? = some (some x)) :
    ((vnorm shown).map (fun v => expexp (Flt.div (flt v) (.fin s)) a))[i]? = some (.fin (thomsonWeight s a ‖x‖)) := by
  simp only [vnorm, List.getElem?_map, h, Option.map_some, flt, Flt.div, hs.ne', if_false, expexp_fin, thomsonWeight]

/-- **C100.** In a Thomson stage the loss never increases from pass to pass.  The loss is the one of the Thomson function for the
scale of the residuals at the start. -/
theorem C100_thomson_passes (xi : Option ℝ) (hxi : ∀ x, xi = some x → 0 < x) (e : List 𝕜) (b : List (Fin q → 𝕜))
    (hb : e.length = b.length) (he : e ≠ []) (eps : ℝ) (heps : 0 ≤ eps) (z0 : Fin q → 𝕜) (inv : List ℕ) (st : Option Flt)
    (ps : List (Pass (Option Flt) 𝕜 q)) (hps : Passes (thomson xi) e b eps 0 (resid e b z0) inv st ps) (s : ℝ)
    (hs : IsScale ((without (resid e b z0) inv).map (fun x => ‖x‖)) s) (hpos : 0 < s) (W : ℝ → ℝ)
    (hW : W = thomsonWeight s (match xi with
      | some x => x
      | none => Real.sqrt (2 * Real.log (2 * e.length)))) :
    (misfit W e b inv z0 :: ps.map (fun p => misfit W e b p.rejected p.z)).Pairwise (· ≥ ·) := by
  have hn : 0 < e.length := List.length_pos_iff.2 he
  have hWx : W = thomsonWeight s (thomsonXi xi e.length) := by
    rw [hW]; cases xi <;> rfl
  have ha := thomsonXi_pos hxi hn
  have hanti : AntitoneOn W (Set.Ici 0) := by
    rw [hWx]
    exact (thomsonWeight_anti hpos ha).antitoneOn _
  have h0 : ∀ x, 0 ≤ x → 0 ≤ W x := by
    intro x _
    rw [hWx]
    exact (Real.exp_pos _).le
  -- one pass with the scale known
  have hlater : ∀ (ps : List (Pass (Option Flt) 𝕜 q)) (it : ℕ) (z : Fin q → 𝕜) (inv : List ℕ), it ≠ 0 →
      Passes (thomson xi) e b eps it (resid e b z) inv (some (.fin s)) ps →
      (misfit W e b inv z :: ps.map (fun p => misfit W e b p.rejected p.z)).IsChain (· ≥ ·) := by
    intro ps
    induction ps with
    | nil => intros; simp
    | cons p ps ih =>
      intro it z inv hit h
      cases h with
      | cons hp hrest =>
        have hcall : ∀ shown : List (Option 𝕜), thomson (q := q) xi (some (.fin s)) it shown e b inv = (.ok (some ((vnorm shown).map
            (fun v => expexp (Flt.div (flt v) (.fin s)) (thomsonXi xi shown.length)))), some (.fin s)) := by
          intro shown
          simp only [thomson, hit, if_false]
        have hst : p.st = some (.fin s) := by
          obtain ⟨shown, raw, hev, -⟩ := hp.eval
          rw [hcall] at hev
          exact (Prod.mk.injEq _ _ _ _ ▸ hev).2.symm
        obtain ⟨h1, h2⟩ := C100_pass _ e b hb eps heps it z inv _ p hp W hanti h0 (by
          intro shown hsl hsh
          rw [hcall]
          refine ⟨_, rfl, ?_⟩
          intro i x hx
          rw [hsl, hWx]
          exact thomson_weights s _ hpos shown i x hx)
        rw [hst] at hrest
        have := ih (it + 1) p.z p.rejected (by omega) hrest
        simp only [List.map_cons, List.isChain_cons_cons]
        exact ⟨h2.trans h1, this⟩
  rw [← List.isChain_iff_pairwise]
  cases hps with
  | nil => simp
  | cons hp hrest =>
    rename_i p ps
    have hsc : ∀ shown : List (Option 𝕜), shown.length = e.length →
        (∀ (i : ℕ) x, (resid e b z0)[i]? = some x → shown[i]? = some (if i ∈ inv then none else some x)) →
        thomson (q := q) xi st 0 shown e b inv = (.ok (some ((vnorm shown).map
            (fun v => expexp (Flt.div (flt v) (.fin s)) (thomsonXi xi shown.length)))), some (.fin s)) := by
      intro shown hsl hsh
      have hsz := sizes_shown inv 0 (resid e b z0) shown (by rw [hsl, length_resid hb]) (by simpa using hsh)
      have : madScaleAbs (vnorm shown) = some s := by
        rw [madScale_some, hsz]
        exact hs
      simp only [thomson, if_true, this]
      rfl
    have hst : p.st = some (.fin s) := by
      obtain ⟨shown, raw, hev, hsl, hsh, -⟩ := hp.eval
      rw [hsc shown (by rw [hsl, length_resid hb]) hsh] at hev
      exact (Prod.mk.injEq _ _ _ _ ▸ hev).2.symm
    obtain ⟨h1, h2⟩ := C100_pass _ e b hb eps heps 0 z0 inv _ p hp W hanti h0 (by
      intro shown hsl hsh
      rw [hsc shown hsl hsh]
      refine ⟨_, rfl, ?_⟩
      intro i x hx
      rw [hsl, hWx]
      exact thomson_weights s _ hpos shown i x hx)
    rw [hst] at hrest
    have := hlater ps 1 p.z p.rejected (by omega) hrest
    simp only [List.map_cons, List.isChain_cons_cons]
    exact ⟨h2.trans h1, this⟩

/-- **C100.** A Thomson stage which succeeds has used a scale which is not zero. -/
theorem C100_scale (xi : Option ℝ) (hxi : ∀ x, xi = some x → 0 < x) (hq : 0 < q) (e : List 𝕜) (b : List (Fin q → 𝕜))
    (hb : e.length = b.length) (eps : ℝ) (z0 : Fin q → 𝕜) (inv : List ℕ) (st : Option Flt)
    (p : Pass (Option Flt) 𝕜 q) (hp : IsPass (thomson xi) e b eps 0 (resid e b z0) inv st p) :
    e ≠ [] ∧ ∃ s, IsScale ((without (resid e b z0) inv).map (fun x => ‖x‖)) s ∧ 0 < s := by
  obtain ⟨shown, raw, hev, hsl, hsh, hcase⟩ := hp.eval
  have hrl : (resid e b z0).length = e.length := length_resid hb z0
  have hsz : sizes shown = (without (resid e b z0) inv).map (fun x => ‖x‖) :=
    sizes_shown inv 0 (resid e b z0) shown hsl (by simpa using hsh)
  obtain ⟨ws, ⟨hwl, hwc⟩, hind, -⟩ := hp.weights
  -- a weight which is not zero
  obtain ⟨i, hi, hwi⟩ : ∃ i, ∃ hi : i < ws.length, ws[i] ≠ 0 := by
    by_contra hno
    push Not at hno
    have := hind (fun _ => 1) (by
      intro j
      apply List.sum_eq_zero
      intro a ha
      obtain ⟨t, ht, rfl⟩ := List.mem_map.1 ha
      have : t.w = 0 := by
        obtain ⟨i, hi, rfl⟩ := List.getElem_of_mem ht
        simp only [obs, List.getElem_zipWith]
        exact hno i _
      simp [this])
    have := congrFun this ⟨0, hq⟩
    simp at this
  have hie : i < e.length := by omega
  refine ⟨by intro h; simp [h] at hie, ?_⟩
  have hn : 0 < e.length := by omega
  have hraw : raw = some ((vnorm shown).map (fun v => expexp (Flt.div (flt v) (flt (madScaleAbs (vnorm shown))))
      (thomsonXi xi shown.length))) := by
    have := congrArg Prod.fst hev
    simpa [thomson] using this.symm
  rcases hcase with ⟨h, -⟩ | ⟨w0, w, h1, h2, h3, h4, h5, -, -⟩
  · rw [hraw] at h; simp at h
  have hww : w = ws.map Flt.fin := by
    rcases hwc with ⟨h, -⟩ | h
    · rw [h2] at h; simp at h
    · rw [h2] at h; simpa using h
  rw [hraw] at h1
  injection h1 with h1
  obtain ⟨x, hx⟩ : ∃ x, (resid e b z0)[i]? = some x := ⟨_, List.getElem?_eq_getElem (by omega)⟩
  have hs := hsh i x hx
  have hwv : w[i]? = some (.fin ws[i]) := by rw [hww, List.getElem?_map, List.getElem?_eq_getElem hi]; rfl
  obtain ⟨v, hv⟩ : ∃ v, w0[i]? = some v := ⟨_, List.getElem?_eq_getElem (by omega)⟩
  have h5' := h5 i v hv
  rw [hwv] at h5'
  by_cases hin : i ∈ inv
  · simp only [hin, if_true, Option.some.injEq, Flt.fin.injEq] at h5'
    exact absurd h5' hwi
  simp only [hin, if_false, Option.some.injEq] at h5' hs
  rw [← h1] at hv
  simp only [vnorm, List.getElem?_map, hs, Option.map_some, Option.some.injEq] at hv
  cases hsc : madScaleAbs (vnorm shown) with
  | none =>
    rw [madScaleAbs_none, valid_vnorm] at hsc
    have : ‖x‖ ∈ sizes shown := by
      unfold sizes valid
      exact List.mem_map.2 ⟨x, List.mem_filterMap.2 ⟨some x, List.mem_of_getElem? hs, rfl⟩, rfl⟩
    rw [hsc] at this
    simp at this
  | some s =>
    have hsc' := madScale_some.1 hsc
    refine ⟨s, hsz ▸ hsc', ?_⟩
    have hge : 0 ≤ s := C55_nonneg shown s (by rw [madScale_eq]; exact hsc)
    rcases hge.eq_or_lt with h | h
    · exfalso
      have hsc2 : madScaleAbs (List.map (fun v => Option.map (fun v => ‖v‖) v) shown) = some s := hsc
      rw [hsc2, ← h] at hv
      rw [← h5'] at hv
      by_cases hx0 : x = 0
      · simp [flt, Flt.div, hx0, expexp_nan] at hv
      · have hpos : 0 < ‖x‖ := norm_pos_iff.2 hx0
        simp only [flt, Flt.div, if_true, hpos.ne', if_false, hpos] at hv
        rw [expexp_pinf (thomsonXi_pos hxi (by omega))] at hv
        injection hv with hv
        exact hwi hv.symm
    · exact h

/-- **C100.** The estimate of a Thomson stage has no more loss than the estimate it started from, on the samples it has kept. -/
theorem C100_thomson (xi : Option ℝ) (hxi : ∀ x, xi = some x → 0 < x) (hq : 0 < q) (e : List 𝕜) (b : List (Fin q → 𝕜))
    (hb : e.length = b.length) (z0 : Fin q → 𝕜) (inv : List ℕ) (o : Opts) (ho : 0 ≤ o.eps) (st st' : Option Flt) (z : Fin q → 𝕜)
    (inv' : List ℕ) (h : mEstimate e b (some z0) (some (thomson xi)) inv o st = (.ok (z, inv'), st')) :
    ∃ s, IsScale ((without (resid e b z0) inv).map (fun x => ‖x‖)) s ∧ 0 < s ∧
      ∀ W, W = thomsonWeight s (match xi with
        | some x => x
        | none => Real.sqrt (2 * Real.log (2 * e.length))) →
        misfit W e b inv' z ≤ misfit W e b inv z0 := by
  obtain ⟨ps, p, p', -, hps, rfl, rfl, -, -, -⟩ := C46_converged _ e b hb z0 inv o st st' z inv' h
  obtain ⟨p0, rest, hl⟩ : ∃ p0 rest, ps ++ [p, p'] = p0 :: rest := by
    cases ps with
    | nil => exact ⟨_, _, rfl⟩
    | cons a l => exact ⟨_, _, rfl⟩
  have hfirst : IsPass (thomson xi) e b o.eps 0 (resid e b z0) inv st p0 := by
    rw [hl] at hps
    cases hps with
    | cons h _ => exact h
  obtain ⟨he, s, hs, hpos⟩ := C100_scale xi hxi hq e b hb o.eps z0 inv st p0 hfirst
  refine ⟨s, hs, hpos, ?_⟩
  intro W hW
  have := C100_thomson_passes xi hxi e b hb he o.eps ho z0 inv st _ hps s hs hpos W hW
  rw [List.pairwise_cons] at this
  exact this.1 _ (List.mem_map.2 ⟨p', by simp, rfl⟩)

theorem huberWeight_anti {s a : ℝ} (hs : 0 < s) (ha : 0 < a) : Antitone (huberWeight s a) := by
  have hp : 0 < a * s := mul_pos ha hs
  intro x y h
  unfold huberWeight
  by_cases hy : y ≤ a * s
  · rw [if_pos hy, if_pos (h.trans hy)]
  · push Not at hy
    rw [if_neg (not_le.2 hy)]
    by_cases hx : x ≤ a * s
    · rw [if_pos hx, div_le_one (by linarith)]
      exact hy.le
    · rw [if_neg hx]
      push Not at hx
      gcongr
      linarith

/-- **C100.** A pass of a Huber stage does not increase the loss of the Huber function for the scale of the residuals at the
beginning of the pass. -/
theorem C100_huber (alpha : ℝ) (ha : 0 < alpha) (e : List 𝕜) (b : List (Fin q → 𝕜)) (hb : e.length = b.length) (eps : ℝ)
    (heps : 0 ≤ eps) (it : ℕ) (z0 : Fin q → 𝕜) (inv : List ℕ) (st : σ) (p : Pass σ 𝕜 q)
    (hp : IsPass (huber alpha) e b eps it (resid e b z0) inv st p) (s : ℝ)
    (hs : IsScale ((without (resid e b z0) inv).map (fun x => ‖x‖)) s) (hpos : 0 < s) :
    misfit (huberWeight s alpha) e b inv p.z ≤ misfit (huberWeight s alpha) e b inv z0 ∧
      misfit (huberWeight s alpha) e b p.rejected p.z ≤ misfit (huberWeight s alpha) e b inv p.z := by
  refine C100_pass _ e b hb eps heps it z0 inv st p hp _ ((huberWeight_anti hpos ha).antitoneOn _) ?_ ?_
  · intro x hx
    unfold huberWeight
    split
    · exact zero_le_one
    · positivity
  · intro shown hsl hsh
    have hsz : sizes shown = (without (resid e b z0) inv).map (fun x => ‖x‖) :=
      sizes_shown inv 0 (resid e b z0) shown (by rw [hsl, length_resid hb]) (by simpa using hsh)
    have hsc : madScaleAbs (vnorm shown) = some s := by
      rw [madScale_some, hsz]
      exact hs
    refine ⟨_, rfl, ?_⟩
    intro i x hx
    have hp : 0 < alpha * s := mul_pos ha hpos
    rw [hsc]
    simp only [flt, vnorm, List.getElem?_map, hx, Option.map_some, Option.some.injEq, Flt.mul, Flt.div]
    unfold huberWeight
    by_cases h0 : ‖x‖ = 0
    · simp [h0, hp, hp.ne', hp.le, Flt.min1]
    · rw [if_neg h0]
      have hx0 : 0 < ‖x‖ := lt_of_le_of_ne (norm_nonneg _) (Ne.symm h0)
      simp only [Flt.min1, Flt.fin.injEq]
      split
      · rw [min_eq_left]
        rw [le_div_iff₀ hx0]
        linarith
      · rw [min_eq_right]
        rw [div_le_one hx0]
        linarith

/-- Four samples 1, -1, 2, -2 of a constant. -/
def exT : List ℝ := [1, -1, 2, -2]

def exTb : List (Fin 1 → ℝ) := [fun _ => 1, fun _ => 1, fun _ => 1, fun _ => 1]

theorem exT_residual : MEst.residual exT exTb (fun _ => 0) = exT := by simp [MEst.residual, exT, exTb]

theorem exT_call : ∃ u v s : ℝ, 0 < u ∧ 0 < v ∧ 0 < s ∧ ∀ it st, (it = 0 ∨ st = some (.fin s)) →
    thomson (q := 1) (some 3) st it (mask exT []) exT exTb [] = (.ok (some [.fin u, .fin u, .fin v, .fin v]), some (.fin s)) := by
  have hmed : IsMedian [1, 1, 2, 2] (3 / 2) := ⟨_, .refl _, by norm_num, .inr ⟨1, 1, 2, rfl, rfl, rfl, by norm_num⟩⟩
  have hdev : IsMedian (([1, 1, 2, 2] : List ℝ).map (fun v => |v - 3 / 2|)) (1 / 2) := by
    have : ([1, 1, 2, 2] : List ℝ).map (fun v => |v - 3 / 2|) = [1 / 2, 1 / 2, 1 / 2, 1 / 2] := by
      simp only [List.map_cons, List.map_nil]
      norm_num
    rw [this]
    exact ⟨_, .refl _, by norm_num, .inr ⟨1, 1 / 2, 1 / 2, rfl, rfl, rfl, by norm_num⟩⟩
  obtain ⟨s, hs⟩ : ∃ s, s = (1 / 2 : ℝ) / 0.44845 := ⟨_, rfl⟩
  have hpos : 0 < s := by rw [hs]; norm_num
  have hsc : madScaleAbs (vnorm (mask exT [])) = some s := by
    rw [madScale_some]
    have : sizes (mask exT []) = [1, 1, 2, 2] := by simp [sizes, valid, mask, exT]
    rw [this]
    exact ⟨_, _, hmed, hdev, hs⟩
  obtain ⟨u, hu, hu0⟩ : ∃ u, u = thomsonWeight s 3 1 ∧ 0 < u := ⟨_, rfl, Real.exp_pos _⟩
  obtain ⟨v, hv, hv0⟩ : ∃ v, v = thomsonWeight s 3 2 ∧ 0 < v := ⟨_, rfl, Real.exp_pos _⟩
  have hmap : (vnorm (mask exT [])).map (fun v => expexp (Flt.div (flt v) (.fin s)) (thomsonXi (some 3) 4)) =
      [.fin u, .fin u, .fin v, .fin v] := by
    simp only [mask, vnorm, exT, List.zipIdx_cons, List.zipIdx_nil, List.map_cons, List.map_nil, flt, Flt.div, hpos.ne', if_false,
      expexp_fin, hu, hv, thomsonWeight, thomsonXi, List.contains_nil, Bool.false_eq_true, Option.map_some, norm_neg, Real.norm_eq_abs,
      abs_one, abs_two, abs_neg]
  refine ⟨u, v, s, hu0, hv0, hpos, ?_⟩
  intro it st h
  have hl : (mask exT []).length = 4 := by simp [mask, exT]
  by_cases h0 : it = 0
  · simp only [thomson, h0, if_true, hsc, hl, flt]
    rw [← hmap]
    rfl
  · have h := h.resolve_left h0
    simp only [thomson, h0, if_false, h, hl]
    rw [← hmap]

theorem exT_wlse {u v : ℝ} (hu0 : 0 < u) (hv0 : 0 < v) :
    wlse exT exTb (some [.fin u, .fin u, .fin v, .fin v]) = .ok (fun _ => 0) ∧
      wresid (some [.fin u, .fin u, .fin v, .fin v]) exT ≠ 0 ∧
      negligible 0 (zeroAt [.fin u, .fin u, .fin v, .fin v] []) = [] ∧
      zeroAt [.fin u, .fin u, .fin v, .fin v] [] = [.fin u, .fin u, .fin v, .fin v] := by
  have hw : WeightsAre (some [.fin u, .fin u, .fin v, .fin v]) 4 [u, u, v, v] := ⟨rfl, .inr rfl⟩
  refine ⟨?_, ?_, ?_, by simp [zeroAt]⟩
  · refine (wlse_ok (ws := [u, u, v, v]) rfl hw).2 ⟨?_, ?_⟩
    · rw [C44_independent _ (by simp [obs, exT, exTb, hu0.le, hv0.le])]
      intro d hd
      have := hd ⟨u, 1, fun _ => 1⟩ (by simp [obs, exT, exTb]) hu0.ne'
      simp [dotProduct] at this
      funext j
      rw [Fin.fin_one_eq_zero j, this]; rfl
    · intro j
      simp [obs, dotProduct, exT, exTb]
  · rw [← exT_residual, wresid_eq (ws := [u, u, v, v]) rfl hw]
    have : cost (obs exT exTb [u, u, v, v]) (fun _ => (0 : ℝ)) = 2 * u + 8 * v := by
      simp [cost, obs, dotProduct, exT, exTb]
      ring
    rw [this]
    positivity
  · simp [negligible, zeroAt, Flt.close0, hu0.ne', hv0.ne']

/-- From 0 on the stage succeeds. -/
theorem exT_ok (st0 : Option Flt) : ∃ st', mEstimate exT exTb (some fun _ => 0) (some (thomson (some 3))) [] { eps := 0 } st0 =
    (.ok (fun _ => 0, []), st') := by
  obtain ⟨u, v, s, hu0, hv0, hpos, hcall⟩ := exT_call
  obtain ⟨hl, hwr, hneg, hzero⟩ := exT_wlse hu0 hv0
  have hev : ∀ it st, (it = 0 ∨ st = some (.fin s)) → evalWeight (thomson (some 3)) it exT exT exTb [] 0 st =
      (.ok (some [.fin u, .fin u, .fin v, .fin v], []), some (.fin s)) := by
    intro it st h
    unfold evalWeight
    rw [hcall it st h]
    simp only [List.any_nil, Bool.false_eq_true, if_false]
    rw [if_neg (by simp [exT]), hneg, hzero]
  refine ⟨some (.fin s), ?_⟩
  show MEst.loop (thomson (some 3)) exT exTb { eps := 0 } (98 + 1 + 1) 0 (MEst.residual exT exTb (fun _ => 0)) [] none st0 = _
  rw [exT_residual, MEst.loop, hev 0 _ (.inl rfl)]
  simp only [hl, converged, Bool.false_eq_true, if_false]
  rw [MEst.loop, exT_residual, hev 1 _ (.inr rfl)]
  simp only [hl]
  rw [if_pos]
  unfold converged
  simp only [decide_eq_true_eq]
  refine ⟨hwr, ?_⟩
  rw [exT_residual]
  norm_num

example : ∃ s, IsScale ((without (resid exT exTb (fun _ => 0)) []).map (fun x => ‖x‖)) s ∧ 0 < s := by
  obtain ⟨st', h⟩ := exT_ok none
  obtain ⟨s, h1, h2, -⟩ := C100_thomson (some 3) (by simp) Nat.one_pos exT exTb rfl (fun _ => 0) [] { eps := 0 } le_rfl none st' _ _ h
  exact ⟨s, h1, h2⟩

end Razorback.Props
