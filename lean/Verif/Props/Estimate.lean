/-
Properties C46-C47: the iteration of m_estimate.
-/
import Verif.Props.MEst

namespace Razorback.Props
open Razorback Razorback.Spec Razorback.MEst
open scoped Matrix

variable {𝕜 : Type} [RCLike 𝕜] {q : ℕ} {σ : Type}

/-! C46 -/

/-- **C46.** With a weight function, `m_estimate` returns only after at least two and at most `maxit` passes, with the
estimate and the rejected positions of the last one, as soon as the weighted residual changes by less than `tol`. -/
theorem C46_converged (wf : WFun σ 𝕜 q) (e : List 𝕜) (b : List (Fin q → 𝕜)) (hb : e.length = b.length) (z0 : Fin q → 𝕜)
    (inv : List ℕ) (o : Opts) (st st' : σ) (z : Fin q → 𝕜) (inv' : List ℕ)
    (h : mEstimate e b (some z0) (some wf) inv o st = (.ok (z, inv'), st')) :
    ∃ (ps : List (Pass σ 𝕜 q)) (p p' : Pass σ 𝕜 q), ps.length + 2 ≤ o.maxit ∧
      Passes wf e b o.eps 0 (resid e b z0) inv st (ps ++ [p, p']) ∧
      p'.z = z ∧ p'.rejected = inv' ∧ p'.st = st' ∧ SmallChange e b o.tol p p' ∧
      (ps ++ [p]).IsChain (fun p p' => ¬ SmallChange e b o.tol p p') := by
  simp only [mEstimate] at h
  obtain ⟨ps, p', h1, h2, h3, h4, h5, h6, p, h7, h8⟩ :=
    loop_ok (p? := none) hb (length_resid hb z0) rfl h
  simp only [Option.toList_none, List.nil_append] at h6 h7
  obtain ⟨qs, rfl⟩ := List.getLast?_eq_some_iff.1 h7
  exact ⟨qs, p, p', by simp only [List.length_append, List.length_singleton] at h1; omega, by simpa using h2, h3, h4, h5, h8, h6⟩

/-- **C46.** The estimate returned minimises, among all, the squared residuals weighted by the weights of the last pass
(if these are not negative). -/
theorem C46_estimate (wf : WFun σ 𝕜 q) (e : List 𝕜) (b : List (Fin q → 𝕜)) (hb : e.length = b.length) (z0 : Fin q → 𝕜)
    (inv : List ℕ) (o : Opts) (st st' : σ) (z : Fin q → 𝕜) (inv' : List ℕ)
    (h : mEstimate e b (some z0) (some wf) inv o st = (.ok (z, inv'), st')) :
    ∃ it shown inv0 st0 raw w ws, 1 ≤ it ∧ it < o.maxit ∧ wf st0 it shown e b inv0 = (.ok raw, st') ∧
      (raw = none ∧ w = none ∨ ∃ w0 w1, raw = some w0 ∧ w = some w1 ∧ w1.length = w0.length ∧
        ∀ (i : ℕ) v, w0[i]? = some v → w1[i]? = some (if i ∈ inv0 then .fin 0 else v)) ∧
      WeightsAre w e.length ws ∧ NormalEq (obs e b ws) z ∧
      ((∀ a ∈ ws, 0 ≤ a) → ∀ z', cost (obs e b ws) z ≤ cost (obs e b ws) z') := by
  obtain ⟨ps, p, p', h1, h2, rfl, rfl, rfl, _, _⟩ := C46_converged wf e b hb z0 inv o st st' z inv' h
  have key : ∀ (ps : List (Pass σ 𝕜 q)) (it : ℕ) r inv st, Passes wf e b o.eps it r inv st (ps ++ [p']) →
      ∃ r' inv0 st0, IsPass wf e b o.eps (it + ps.length) r' inv0 st0 p' := by
    intro ps
    induction ps with
    | nil => intro it r inv st h; cases h with | cons h _ => exact ⟨r, inv, st, h⟩
    | cons a ps ih =>
      intro it r inv st h
      cases h with
      | cons _ h =>
        obtain ⟨r', i', s', h'⟩ := ih _ _ _ _ h
        exact ⟨r', i', s', by rwa [show it + (a :: ps).length = it + 1 + ps.length by simp; omega]⟩
  obtain ⟨r', inv0, st0, hp⟩ := key (ps ++ [p]) 0 _ _ _ (by simpa using h2)
  obtain ⟨shown, raw, e1, e2, e3, e4⟩ := hp.eval
  obtain ⟨ws, hws, hi, hn⟩ := hp.weights
  refine ⟨0 + (ps ++ [p]).length, shown, inv0, st0, raw, p'.w, ws, by simp, by simp; omega, e1, ?_, hws, hn, ?_⟩
  · rcases e4 with ⟨a, b, _⟩ | ⟨w0, w, a, b, c, d, f, _⟩
    · exact .inl ⟨a, b⟩
    · exact .inr ⟨w0, w, a, b, by omega, f⟩
  · intro hpos
    have hws' : WeightsAre p'.w b.length ws := by rw [← hb]; exact hws
    exact C44_minimises e b p'.w ws hb hws' hpos p'.z ((wlse_ok hb hws').2 ⟨hi, hn⟩)

/-- **C46.** If `maxit` passes go by without a small change, NonConvergence is raised. -/
theorem C46_nonconvergence (wf : WFun σ 𝕜 q) (e : List 𝕜) (b : List (Fin q → 𝕜)) (hb : e.length = b.length) (z0 : Fin q → 𝕜)
    (inv : List ℕ) (o : Opts) (st : σ) (ps : List (Pass σ 𝕜 q)) (hps : Passes wf e b o.eps 0 (resid e b z0) inv st ps)
    (hn : ps.length = o.maxit) (hno : ps.IsChain (fun p p' => ¬ SmallChange e b o.tol p p')) :
    (mEstimate e b (some z0) (some wf) inv o st).1 = .error .nonConv :=
  loop_nonConv (p? := none) hb (length_resid hb z0) rfl hps hn hno

/-- **C46.** Conversely NonConvergence means this, and any other exception comes from a weight function that raised or
gave unusable weights: none, or not finite, or not determining the estimate. -/
theorem C46_raises (wf : WFun σ 𝕜 q) (hwf : ∀ st it r e b inv, (wf st it r e b inv).1 ≠ .error .nonConv)
    (e : List 𝕜) (b : List (Fin q → 𝕜)) (hb : e.length = b.length) (z0 : Fin q → 𝕜)
    (inv : List ℕ) (o : Opts) (st : σ) (x : Err) (h : (mEstimate e b (some z0) (some wf) inv o st).1 = .error x) :
    (x = .nonConv → ∃ ps, Passes wf e b o.eps 0 (resid e b z0) inv st ps ∧ ps.length = o.maxit ∧
      ps.IsChain (fun p p' => ¬ SmallChange e b o.tol p p')) ∧
    (x ≠ .nonConv → (∃ st it r inv, (wf st it r e b inv).1 = .error x) ∨ x = .index ∨ x = .value ∨ x = .linAlg) := by
  have hev : ∀ it r inv st s, evalWeight wf it r e b inv o.eps st = (.error x, s) →
      (∃ st it r inv, (wf st it r e b inv).1 = .error x) ∨ x = .index ∨ x = .value := by
    intro it r inv st s h
    unfold evalWeight at h
    split at h
    · simp only [Prod.mk.injEq, Except.error.injEq] at h; exact .inr (.inl h.1.symm)
    · split at h
      · rename_i hw
        simp only [Prod.mk.injEq, Except.error.injEq] at h
        obtain ⟨rfl, _⟩ := h
        exact .inl ⟨_, _, _, _, by rw [hw]⟩
      · simp at h
      · split at h
        · simp only [Prod.mk.injEq, Except.error.injEq] at h; exact .inr (.inr h.1.symm)
        · simp at h
  have hls : ∀ w, wlse e b w = .error x → x = .value ∨ x = .linAlg := by
    intro w h
    cases w with
    | none =>
      simp only [wlse] at h
      split at h
      · simp only [Except.error.injEq] at h; exact .inr h.symm
      · simp at h
    | some w =>
      simp only [wlse] at h
      split at h
      · simp only [Except.error.injEq] at h; exact .inl h.symm
      · split at h
        · simp only [Except.error.injEq] at h; exact .inl h.symm
        · split at h
          · simp only [Except.error.injEq] at h; exact .inr h.symm
          · simp at h
  simp only [mEstimate] at h
  obtain ⟨ps, h1, h2, h3⟩ := loop_error (p? := none) (st' := (loop wf e b o o.maxit 0 (residual e b z0) inv none st).2)
    hb (length_resid hb z0) rfl (Prod.ext h rfl)
  simp only [Option.toList_none, List.nil_append] at h2
  rcases h3 with ⟨rfl, h3⟩ | ⟨_, r', inv', st0, _, ⟨s, h3⟩ | ⟨w, h3⟩⟩
  · exact ⟨fun _ => ⟨ps, h1, h3, h2⟩, fun hc => absurd rfl hc⟩
  · have := hev _ _ _ _ _ h3
    constructor
    · rintro rfl
      rcases this with ⟨a, b, c, d, h⟩ | h | h
      · exact absurd h (hwf _ _ _ _ _ _)
      · cases h
      · cases h
    · intro _; rcases this with h | h | h
      exacts [.inl h, .inr (.inl h), .inr (.inr (.inl h))]
  · have := hls _ h3
    constructor
    · rintro rfl
      rcases this with h | h <;> cases h
    · intro _; tauto

/-- **C46.** In particular at least two iterations have to be allowed. -/
theorem C46_maxit (wf : WFun σ 𝕜 q) (e : List 𝕜) (b : List (Fin q → 𝕜)) (hb : e.length = b.length) (z0 : Fin q → 𝕜)
    (inv : List ℕ) (o : Opts) (ho : o.maxit ≤ 1) (st : σ) :
    ∃ x, (mEstimate e b (some z0) (some wf) inv o st).1 = .error x := by
  cases h : mEstimate e b (some z0) (some wf) inv o st with
  | mk r st' =>
    cases r with
    | error x => exact ⟨x, rfl⟩
    | ok r =>
      obtain ⟨z, inv'⟩ := r
      obtain ⟨ps, _, _, h1, _⟩ := C46_converged wf e b hb z0 inv o st st' z inv' h
      omega

/-- **C46.** Without weight function, `m_estimate` is the least squares estimate of the samples that are not invalid,
and the invalid indices are returned as given. -/
theorem C46_least_squares (e : List 𝕜) (b : List (Fin q → 𝕜)) (hb : e.length = b.length) (z0 : Option (Fin q → 𝕜))
    (inv : List ℕ) (hi : ∀ i ∈ inv, i < e.length) (o : Opts) (st : σ) :
    mEstimate e b z0 (none : Option (WFun σ 𝕜 q)) inv o st =
      ((wlse (without e inv) (without b inv) none).map (fun z => (z, inv)), st) := by
  simp only [mEstimate]
  rw [if_neg (by simp only [List.any_eq_true, decide_eq_true_eq, not_exists, not_and, not_le]; exact hi)]
  have hw : wlse e b (if inv.length = 0 then none else some (zeroAt (List.replicate e.length (.fin 1)) inv)) =
      wlse (without e inv) (without b inv) none := by
    split
    · rename_i h
      have := List.length_eq_zero_iff.1 h
      subst this
      rw [without_nil, without_nil]
    · let ws : List ℝ := (List.range e.length).map (fun i => if i ∈ inv then 0 else 1)
      have hz : zeroAt (List.replicate e.length (.fin 1)) inv = ws.map Flt.fin := by
        apply List.ext_getElem?
        intro i
        rw [zeroAt_getElem?]
        by_cases hlt : i < e.length
        · simp only [List.getElem?_replicate, hlt, if_true, Option.map_some, ws, List.map_map, List.getElem?_map,
            List.getElem?_range hlt, Function.comp]
          split <;> rfl
        · rw [List.getElem?_eq_none (by simp; omega), List.getElem?_eq_none (by simp [ws]; omega)]; rfl
      rw [hz, C45_zero_weight e b ws hb (by simp [ws, hb]) inv (fun i hi' => by
        simp only [ws, List.getElem?_map, List.getElem?_range (hi i hi'), Option.map_some, hi', if_true])]
      have hlen : ∀ {α β : Type} (a : List α) (b : List β), a.length = b.length →
          (without a inv).length = (without b inv).length := by
        intro α β a b hab
        have hu : ∀ {α : Type} (a : List α), (without a inv).length = (without (a.map (fun _ => ())) inv).length := by
          intro α a; rw [without_map, List.length_map]
        have e : ∀ {α : Type} (a : List α), a.map (fun _ => ()) = List.replicate a.length () := by
          intro α a; simp
        rw [hu a, hu b, e, e, hab]
      have h1 : without ws inv = List.replicate (without b inv).length 1 := by
        have hws : ws = (List.range e.length).map (fun i => if i ∈ inv then (0 : ℝ) else 1) := rfl
        rw [hws, without_map, without_range]
        have : (without b inv).length = ((List.range e.length).filter (fun i => decide (i ∉ inv))).length := by
          rw [← without_range]; exact hlen _ _ (by simp [hb])
        rw [this, List.eq_replicate_iff]
        refine ⟨by simp, ?_⟩
        intro a ha
        obtain ⟨i, hi', rfl⟩ := List.mem_map.1 ha
        have := (List.mem_filter.1 hi').2
        simp only [decide_eq_true_eq] at this
        rw [if_neg this]
      rw [h1]
      have hl := hlen _ _ hb
      have hA : WeightsAre (some ((List.replicate (without b inv).length (1 : ℝ)).map Flt.fin)) (without b inv).length
          (List.replicate (without b inv).length 1) := ⟨by simp, .inr rfl⟩
      have hB : WeightsAre none (without b inv).length (List.replicate (without b inv).length 1) := ⟨by simp, .inl ⟨rfl, rfl⟩⟩
      by_cases hind : Independent (obs (without e inv) (without b inv) (List.replicate (without b inv).length 1))
      · obtain ⟨z, hz⟩ := (C44_singular_raises _ _ _ _ hl hA).2 hind
        rw [hz, (wlse_ok hl hB).2 ((wlse_ok hl hA).1 hz)]
      · rw [(C44_singular_raises _ _ _ _ hl hA).1 hind, (C44_singular_raises _ _ _ _ hl hB).1 hind]
  rw [hw]
  cases wlse (without e inv) (without b inv) none <;> rfl

/-- Two samples 1 and 3 of a constant, no weights: the mean 2 is found in two passes. -/
example : (mEstimate (𝕜 := ℝ) (q := 1) [1, 3] [fun _ => 1, fun _ => 1] (some fun _ => 0)
    (some fun st _ _ _ _ _ => (.ok none, st)) [] {} ()).1 = .ok (fun _ => 2, []) := by
  have hw : WeightsAre none 2 [1, 1] := ⟨rfl, .inl ⟨rfl, rfl⟩⟩
  have hl : wlse (𝕜 := ℝ) (q := 1) [1, 3] [fun _ => 1, fun _ => 1] none = .ok (fun _ => 2) := by
    refine (wlse_ok (ws := [1, 1]) rfl hw).2 ⟨?_, ?_⟩
    · rw [C44_independent _ (by simp [obs])]
      intro d hd
      have := hd ⟨1, 1, fun _ => 1⟩ (by simp [obs]) (by simp)
      simp [dotProduct] at this
      funext j
      rw [Fin.fin_one_eq_zero j, this]; rfl
    · intro j
      simp [obs, dotProduct]
      norm_num
  have h2 : ∀ r : List ℝ, evalWeight (σ := Unit) (𝕜 := ℝ) (q := 1) (fun st _ _ _ _ _ => (.ok none, st)) 0 r [1, 3]
      [fun _ => 1, fun _ => 1] [] (1 / 10 ^ 14) () = (.ok (none, []), ()) := fun _ => rfl
  have h3 : ∀ r : List ℝ, evalWeight (σ := Unit) (𝕜 := ℝ) (q := 1) (fun st _ _ _ _ _ => (.ok none, st)) 1 r [1, 3]
      [fun _ => 1, fun _ => 1] [] (1 / 10 ^ 14) () = (.ok (none, []), ()) := fun _ => rfl
  have h4 : wresid (𝕜 := ℝ) none (MEst.residual (q := 1) [1, 3] [fun _ => 1, fun _ => 1] (fun _ => 2)) = 2 := by
    rw [wresid_eq (ws := [1, 1]) rfl hw]
    simp [cost, obs, dotProduct]
    norm_num
  show (MEst.loop _ _ _ _ (98 + 1 + 1) 0 _ _ _ _).1 = _
  rw [MEst.loop, h2]
  simp only [hl, converged, Bool.false_eq_true, if_false]
  rw [MEst.loop, h3]
  simp only [hl, h4, converged]
  norm_num

/-! C47 -/

/-- **C47.** If the last weights are an array, the invalid indices returned are, in increasing order, the positions where
the last weight is at most `eps` in absolute value. -/
theorem C47_rejected (wf : WFun σ 𝕜 q) (e : List 𝕜) (b : List (Fin q → 𝕜)) (hb : e.length = b.length) (z0 : Fin q → 𝕜)
    (inv : List ℕ) (o : Opts) (st st' : σ) (z : Fin q → 𝕜) (inv' : List ℕ)
    (h : mEstimate e b (some z0) (some wf) inv o st = (.ok (z, inv'), st')) :
    ∃ ps p, Passes wf e b o.eps 0 (resid e b z0) inv st (ps ++ [p]) ∧ p.z = z ∧ p.rejected = inv' ∧
      ∀ w, p.w = some w → inv'.Pairwise (· < ·) ∧ ∀ i : ℕ, i ∈ inv' ↔ ∃ v, w[i]? = some (.fin v) ∧ |v| ≤ o.eps := by
  obtain ⟨ps, p, p', h1, h2, rfl, rfl, rfl, _, _⟩ := C46_converged wf e b hb z0 inv o st st' z inv' h
  refine ⟨ps ++ [p], p', by simpa using h2, rfl, rfl, ?_⟩
  have key : ∀ (ps : List (Pass σ 𝕜 q)) (it : ℕ) r inv st, Passes wf e b o.eps it r inv st ps →
      ∀ p ∈ ps, ∃ it r inv st, IsPass wf e b o.eps it r inv st p := by
    intro ps it r inv st h
    induction h with
    | nil => simp
    | cons hp _ ih =>
      intro p hmem
      rcases List.mem_cons.1 hmem with rfl | hmem
      · exact ⟨_, _, _, _, hp⟩
      · exact ih p hmem
  obtain ⟨_, _, _, _, hp⟩ := key _ _ _ _ _ h2 p' (by simp)
  intro w hw
  obtain ⟨shown, raw, e1, e2, e3, e4⟩ := hp.eval
  rcases e4 with ⟨_, hb, _⟩ | ⟨w0, w', a, hb, c, d, f, g, h⟩
  · rw [hb] at hw; cases hw
  · rw [hw, Option.some.injEq] at hb
    subst hb
    exact ⟨g, h⟩

/-- **C47.** A position rejected at some pass, or invalid from the start, is never re-admitted. -/
theorem C47_never_readmitted (wf : WFun σ 𝕜 q) (e : List 𝕜) (b : List (Fin q → 𝕜)) (eps : ℝ) (heps : 0 ≤ eps) (it : ℕ)
    (r : List 𝕜) (inv : List ℕ) (st : σ) (ps : List (Pass σ 𝕜 q)) (h : Passes wf e b eps it r inv st ps) :
    (∀ p ∈ ps, inv ⊆ p.rejected) ∧ ps.Pairwise (fun p p' => p.rejected ⊆ p'.rejected) := by
  induction h with
  | nil => simp
  | @cons it r inv st p ps hp hrest ih =>
    have h1 : inv ⊆ p.rejected := by
      intro i hi
      obtain ⟨shown, raw, e1, e2, e3, e4⟩ := hp.eval
      rcases e4 with ⟨_, _, h⟩ | ⟨w0, w, a, hb, c, d, f, g, h⟩
      · rw [h]; exact hi
      · rw [h i]
        have hlt := hp.inside i hi
        have := f i _ (List.getElem?_eq_getElem (by omega : i < w0.length))
        rw [if_pos hi] at this
        exact ⟨0, this, by simpa using heps⟩
    refine ⟨?_, List.pairwise_cons.2 ⟨ih.1, ih.2⟩⟩
    intro p' hp'
    rcases List.mem_cons.1 hp' with rfl | hp'
    · exact h1
    · exact List.Subset.trans h1 (ih.1 p' hp')

/-- **C47.** All positions returned exist. -/
theorem C47_inside (wf : Option (WFun σ 𝕜 q)) (e : List 𝕜) (b : List (Fin q → 𝕜)) (hb : e.length = b.length)
    (z0 : Option (Fin q → 𝕜)) (inv : List ℕ) (o : Opts) (st : σ) (z : Fin q → 𝕜) (inv' : List ℕ)
    (h : (mEstimate e b z0 wf inv o st).1 = .ok (z, inv')) : ∀ i ∈ inv', i < e.length := by
  cases wf with
  | none =>
    simp only [mEstimate] at h
    split at h
    · simp at h
    · rename_i hi
      simp only [List.any_eq_true, decide_eq_true_eq, not_exists, not_and, not_le] at hi
      split at h
      · simp at h
      · simp only [Except.ok.injEq, Prod.mk.injEq] at h
        rw [← h.2]; exact hi
  | some wf =>
    cases z0 with
    | none => simp [mEstimate] at h
    | some z0 =>
      obtain ⟨ps, p, p', h1, h2, h3, h4, _⟩ := C46_converged wf e b hb z0 inv o st _ z inv' (Prod.ext h rfl)
      have key : ∀ (ps : List (Pass σ 𝕜 q)) (it : ℕ) r inv st, Passes wf e b o.eps it r inv st ps →
          ∀ p ∈ ps, ∀ i ∈ p.rejected, i < e.length := by
        intro ps it r inv st h
        induction h with
        | nil => simp
        | @cons it r inv st p ps hp _ ih =>
          intro p'' hmem i hi
          rcases List.mem_cons.1 hmem with rfl | hmem
          · obtain ⟨shown, raw, e1, e2, e3, e4⟩ := hp.eval
            rcases e4 with ⟨_, _, h⟩ | ⟨w0, w, a, hb, c, d, f, g, h⟩
            · rw [h] at hi; exact hp.inside i hi
            · obtain ⟨v, hv, _⟩ := (h i).1 hi
              have := (List.getElem?_eq_some_iff.1 hv).1
              omega
          · exact ih p'' hmem i hi
      subst h4
      exact key _ _ _ _ _ h2 p' (by simp)

end Razorback.Props
