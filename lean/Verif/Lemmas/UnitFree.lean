/-
The weight functions and prefilters of the library ignore units and axes.
-/
import Verif.Lemmas.Units
import Verif.Props.Weights
import Verif.Props.Prefilter

namespace Razorback
open Razorback.Spec Razorback.MEst Razorback.Weights Razorback.Props
open scoped Matrix

variable {𝕜 : Type} [RCLike 𝕜] {q : ℕ} {σ : Type}

/-- If related states give the same results in other units and stay related, and calls of iteration 0 relate any two
states. -/
theorem unitFree_of_rel {wf : WFun σ 𝕜 q}
    (h : ∀ (c : 𝕜) (A : Matrix (Fin q) (Fin q) 𝕜), c ≠ 0 → A.det ≠ 0 → ∃ R : σ → σ → Prop, ∀ st st' (k : Call 𝕜 q),
      k.it = 0 ∨ R st st' →
      (wf st' k.it (k.change c A).r (k.change c A).e (k.change c A).b k.inv).1 = (wf st k.it k.r k.e k.b k.inv).1 ∧
      R (wf st k.it k.r k.e k.b k.inv).2 (wf st' k.it (k.change c A).r (k.change c A).e (k.change c A).b k.inv).2) :
    UnitFree wf := by
  intro c A hc hA
  obtain ⟨R, hR⟩ := h c A hc hA
  have key : ∀ (l : List (Call 𝕜 q)) st st', R st st' → results wf st' (l.map (Call.change c A)) = results wf st l := by
    intro l
    induction l with
    | nil => intros; rfl
    | cons k l ih =>
      intro st st' h
      obtain ⟨e1, e2⟩ := hR st st' k (.inr h)
      rw [List.map_cons, results, results]
      exact congrArg₂ List.cons e1 (ih _ _ e2)
  intro st st' k l hk
  obtain ⟨e1, e2⟩ := hR st st' k (.inl hk)
  rw [List.map_cons, results, results]
  exact congrArg₂ List.cons e1 (key l _ _ e2)

theorem flt_scale (k : ℝ) (m : Option ℝ) : flt (m.map (fun s => k * s)) = Flt.mul (.fin k) (flt m) := by
  cases m <;> rfl

theorem Flt.div_scale {k : ℝ} (hk : 0 < k) (v : Option ℝ) (s : Flt) :
    Flt.div (flt (v.map (fun v => k * v))) (Flt.mul (.fin k) s) = Flt.div (flt v) s := by
  cases v with
  | none => cases s <;> simp [flt, Flt.div]
  | some v =>
    cases s with
    | nan => rfl
    | pinf => simp [flt, Flt.mul, Flt.infTimes, hk.ne', hk, Flt.div]
    | ninf => simp [flt, Flt.mul, Flt.infTimes, hk.ne', hk, Flt.div]
    | fin s =>
      simp only [Option.map_some, flt, Flt.mul, Flt.div, mul_eq_zero, hk.ne', false_or, mul_pos_iff_of_pos_left hk]
      rw [mul_div_mul_left _ _ hk.ne']

theorem vnorm_scale (c : 𝕜) (r : List (Option 𝕜)) :
    vnorm (r.map (fun v => v.map (fun v => c * v))) = (vnorm r).map (fun v => v.map (fun v => ‖c‖ * v)) := by
  simp only [vnorm, List.map_map]
  apply List.map_congr_left
  intro v _
  cases v <;> simp

theorem base_unitFree (w : Base) (c : 𝕜) (A : Matrix (Fin q) (Fin q) 𝕜) (hc : c ≠ 0) :
    ∃ R : Option Flt → Option Flt → Prop, ∀ st st' (k : Call 𝕜 q), k.it = 0 ∨ R st st' →
      (w.call st' k.it (k.change c A).r (k.change c A).e (k.change c A).b k.inv).1 = (w.call st k.it k.r k.e k.b k.inv).1 ∧
      R (w.call st k.it k.r k.e k.b k.inv).2 (w.call st' k.it (k.change c A).r (k.change c A).e (k.change c A).b k.inv).2 := by
  have hk : 0 < ‖c‖ := norm_pos_iff.2 hc
  cases w with
  | huber a =>
    refine ⟨fun _ _ => True, fun st st' k _ => ⟨?_, trivial⟩⟩
    have := C51_scale_invariant (σ := Option Flt) a k.r c hc st' k.it k.e k.b k.inv
    have h1 := congrArg Prod.fst this
    exact h1
  | thomson xi =>
    refine ⟨fun st st' => st' = st.map (Flt.mul (.fin ‖c‖)), ?_⟩
    intro st st' k h
    simp only [Base.call, thomson, Call.change, List.length_map]
    have hs : flt (madScaleAbs (vnorm (k.r.map (fun v => v.map (fun v => c * v))))) = Flt.mul (.fin ‖c‖) (flt (madScaleAbs (vnorm k.r))) := by
      rw [madScale_scale, flt_scale]
    simp only [hs]
    by_cases h0 : k.it = 0
    · simp only [h0, if_true, vnorm_scale, List.map_map, Function.comp_def, Flt.div_scale hk, Option.map_some, and_self]
    · obtain rfl := h.resolve_left h0
      simp only [h0, if_false]
      cases st with
      | none => exact ⟨rfl, rfl⟩
      | some s =>
        simp only [Option.map_some, vnorm_scale, List.map_map, Function.comp_def, Flt.div_scale hk, and_self]

theorem leverage_mix (A : Matrix (Fin q) (Fin q) 𝕜) (hA : A.det ≠ 0) (b : List (Fin q → 𝕜)) (bi : Option (List Flt)) :
    leverage (b.map (fun r j => ∑ i, A j i * r i)) bi = leverage b bi := by
  have hu : IsUnit A.det := isUnit_iff_ne_zero.2 hA
  have hs : IsUnit (A.map star).det := by rw [det_map_star]; exact isUnit_iff_ne_zero.2 (star_ne_zero.2 hA)
  have hh : ∀ (w : Option (List ℝ)), (b.map (fun r j => ∑ i, A j i * r i)).map (fun r => RCLike.re
        (∑ j, ((gram (b.map (fun r j => ∑ i, A j i * r i)) w)⁻¹ *ᵥ (fun j => star (r j))) j * r j)) =
      b.map (fun r => RCLike.re (∑ j, ((gram b w)⁻¹ *ᵥ (fun j => star (r j))) j * r j)) := by
    intro w
    rw [List.map_map]
    apply List.map_congr_left
    intro r _
    simp only [Function.comp]
    congr 1
    have h1 : (fun j => star (∑ i, A j i * r i)) = A.map star *ᵥ (fun j => star (r j)) := by
      funext j
      simp [Matrix.mulVec, dotProduct, star_sum, star_mul']
    have h2 : (fun j => ∑ i, A j i * r i) = A *ᵥ r := rfl
    have h3 : ∑ j, ((gram (b.map (fun r j => ∑ i, A j i * r i)) w)⁻¹ *ᵥ (fun j => star (∑ i, A j i * r i))) j * ∑ i, A j i * r i =
        ((gram (b.map (fun r j => ∑ i, A j i * r i)) w)⁻¹ *ᵥ (fun j => star (∑ i, A j i * r i))) ⬝ᵥ (A *ᵥ r) := rfl
    have h4 : ∑ j, ((gram b w)⁻¹ *ᵥ (fun j => star (r j))) j * r j = ((gram b w)⁻¹ *ᵥ (fun j => star (r j))) ⬝ᵥ r := rfl
    rw [h3, h4, h1, gram_mix, Matrix.mul_inv_rev, Matrix.mul_inv_rev, Matrix.mulVec_mulVec, Matrix.mul_assoc, Matrix.mul_assoc,
      Matrix.nonsing_inv_mul _ hs, Matrix.mul_one, ← Matrix.mulVec_mulVec, ← Matrix.transpose_nonsing_inv,
      Matrix.mulVec_transpose, ← Matrix.dotProduct_mulVec, Matrix.mulVec_mulVec, Matrix.nonsing_inv_mul _ hu, Matrix.one_mulVec]
  unfold leverage
  cases bi with
  | none => simp only [gram_mix_det A hA, hh]
  | some w => simp only [gram_mix_det A hA, hh, List.length_map]

theorem obj_unitFree (w : Obj) : UnitFree (𝕜 := 𝕜) (q := q) w.call := by
  apply unitFree_of_rel
  intro c A hc hA
  cases w with
  | base w =>
    obtain ⟨R, h⟩ := base_unitFree w c A hc
    exact ⟨fun st st' => R st.2 st'.2, fun st st' k hk => h st.2 st'.2 k hk⟩
  | bis w lower khi =>
    obtain ⟨R, h⟩ := base_unitFree w c A hc
    refine ⟨fun st st' => st.1 = st'.1 ∧ R st.2 st'.2, ?_⟩
    intro st st' k hk
    have hin := h st.2 st'.2 k (hk.imp_right And.right)
    have hprev : (if k.it = 0 then some ⟨-1, none, .fin k.b.length, none⟩ else st'.1 : Option Prev) =
        if k.it = 0 then some ⟨-1, none, .fin k.b.length, none⟩ else st.1 := by
      split
      · rfl
      · exact ((hk.resolve_left (by assumption)).1).symm
    have hlev : ∀ bi, leverage (k.change c A).b bi = leverage k.b bi := leverage_mix A hA k.b
    have hlen : (k.change c A).b.length = k.b.length := by simp [Call.change]
    simp only [Obj.call, bis, hlen, hprev, hlev]
    cases hp : (if k.it = 0 then some ⟨-1, none, .fin k.b.length, none⟩ else st.1 : Option Prev) with
    | none =>
      have h0 : k.it ≠ 0 := by
        intro h0
        simp [h0] at hp
      exact ⟨rfl, hk.resolve_left h0⟩
    | some p =>
      simp only
      by_cases hit : (k.it : ℤ) ≠ 1 + p.it
      · rw [if_pos hit, if_pos hit]
        refine ⟨rfl, rfl, ?_⟩
        by_cases h0 : k.it = 0
        · exfalso
          rw [if_pos h0] at hp
          obtain rfl := Option.some.inj hp
          simp [h0] at hit
        · exact (hk.resolve_left h0).2
      · rw [if_neg hit, if_neg hit]
        generalize w.call st'.2 k.it (k.change c A).r (k.change c A).e (k.change c A).b k.inv = x' at hin ⊢
        generalize w.call st.2 k.it k.r k.e k.b k.inv = x at hin ⊢
        obtain ⟨x, s⟩ := x
        obtain ⟨x', s'⟩ := x'
        obtain ⟨h1, h2⟩ := hin
        simp only at h1 h2
        subst h1
        cases x' with
        | error x => exact ⟨rfl, rfl, h2⟩
        | ok x =>
          cases x with
          | none => exact ⟨rfl, rfl, h2⟩
          | some x =>
            simp only
            cases leverage k.b p.bi with
            | error y => exact ⟨rfl, rfl, h2⟩
            | ok y => exact ⟨rfl, rfl, h2⟩

theorem coeffDetermination_mix (c : 𝕜) (hc : c ≠ 0) (A : Matrix (Fin q) (Fin q) 𝕜) (hA : A.det ≠ 0) (x : List 𝕜) (b : List (Fin q → 𝕜)) :
    Prefilter.coeffDetermination (x.map (fun v => c * v)) (b.map (fun r j => ∑ i, A j i * r i)) =
      Prefilter.coeffDetermination x b := by
  have hg : ∀ b : List (Fin q → 𝕜), (Matrix.of fun j k => (b.map (fun r => star (r j) * r k)).sum) = gram b none := by
    intro b
    ext j k
    simp only [gram, dotdiag, Matrix.of_apply]
    congr 1
    induction b with
    | nil => rfl
    | cons r b ih => simp [ih]
  have hr : ∀ (x : List 𝕜) (b : List (Fin q → 𝕜)), (fun j => (List.zipWith (fun r v => star (r j) * v) b x).sum) = MEst.rhs x b none := by
    intro x b
    rfl
  have hn : ∀ l : List 𝕜, Prefilter.norm2 (l.map (fun v => c * v)) = ‖c‖ ^ 2 * Prefilter.norm2 l := by
    intro l
    simp only [Prefilter.norm2, List.map_map, Function.comp_def, norm_mul, mul_pow]
    rw [← List.sum_map_mul_left]
  have hz : ∀ z : Fin q → 𝕜, List.zipWith (fun r v => r ⬝ᵥ converted c A z - v) (b.map (fun r j => ∑ i, A j i * r i)) (x.map (fun v => c * v)) =
      (List.zipWith (fun r v => r ⬝ᵥ z - v) b x).map (fun v => c * v) := by
    intro z
    simp only [List.zipWith_map_left, List.zipWith_map_right, List.map_zipWith, converted_dot c A hA, mul_sub]
  have hk : 0 < ‖c‖ ^ 2 := pow_pos (norm_pos_iff.2 hc) 2
  have hdiv : ∀ u v : ℝ, Flt.div (.fin (‖c‖ ^ 2 * u)) (.fin (‖c‖ ^ 2 * v)) = Flt.div (.fin u) (.fin v) :=
    fun u v => Flt.div_scale hk (some u) (.fin v)
  unfold Prefilter.coeffDetermination
  simp only [hg, hr, gram_mix_det A hA, solve_mix c A hA, hz, hn, hdiv]

theorem breshape_map {β γ : Type} (f : β → γ) (size : ℕ) (l : List β) :
    Prefilter.breshape size (l.map f) = (Prefilter.breshape size l).map (List.map f) := by
  simp [Prefilter.breshape, List.map_take, List.map_drop, Function.comp_def]

theorem mapE_map {β γ δ : Type} (f : γ → Except Err δ) (g : β → γ) (l : List β) : mapE f (l.map g) = mapE (fun x => f (g x)) l := by
  induction l with
  | nil => rfl
  | cons a l ih => simp only [List.map_cons, mapE, ih]

theorem value_mix (c : 𝕜) (hc : c ≠ 0) (A : Matrix (Fin q) (Fin q) 𝕜) (hA : A.det ≠ 0) (size : ℕ) (e : List 𝕜) (b : List (Fin q → 𝕜)) :
    Prefilter.value size (e.map (fun v => c * v)) (b.map (fun r j => ∑ i, A j i * r i)) = Prefilter.value size e b := by
  have hl : ∀ {β γ : Type} (f : β → γ) (n : ℕ) (l : List β), Prefilter.lastN n (l.map f) = (Prefilter.lastN n l).map f := by
    intro β γ f n l
    simp [Prefilter.lastN, List.map_drop]
  unfold Prefilter.value
  simp only [List.length_map, breshape_map, ← List.map_dropLast, List.zip_map, mapE_map, Prod.map_fst, Prod.map_snd,
    coeffDetermination_mix c hc A hA, hl]

theorem cod_unitFree (codMin codMax : ℝ) (size : ℕ) : UnitFreePre (𝕜 := 𝕜) (q := q) (Prefilter.call codMin codMax size) := by
  intro c A hc hA e b
  unfold Prefilter.call
  rw [value_mix c hc A hA]

end Razorback
