/-
The weight functions of the library treat all windows alike; the coefficient of determination does not see phases.
-/
import Verif.Lemmas.Windows
import Verif.Props.Weights
import Verif.Props.Prefilter
import Verif.Lemmas.UnitFree

namespace Razorback.Windows
open Razorback Razorback.Spec Razorback.MEst Razorback.Weights Razorback.Props
open scoped Matrix

variable {𝕜 : Type} [RCLike 𝕜] {q : ℕ} {σ : Type}

theorem vnorm_list (T : List ℕ) (r : ℕ → Option 𝕜) : vnorm (T.map r) = T.map (fun t => (r t).map (fun v => ‖v‖)) := by
  simp [vnorm, Function.comp_def]

theorem vnorm_turn (T : List ℕ) {c : Bool} {u : ℕ → 𝕜} (hu : ∀ t, ‖u t‖ = 1) (r : ℕ → Option 𝕜) :
    vnorm (T.map (fun t => (r t).map (fun v => u t * mirror c v))) = T.map (fun t => (r t).map (fun v => ‖v‖)) := by
  rw [vnorm_list]
  apply List.map_congr_left
  intro t _
  cases r t with
  | none => rfl
  | some v => simp [hu, ← τ_apply, norm_τ]

theorem madScaleAbs_perm {l l' : List (Option ℝ)} (h : l'.Perm l) : madScaleAbs l' = madScaleAbs l := by
  have hv : (valid l').Perm (valid l) := h.filterMap _
  cases hs : madScaleAbs l with
  | none =>
    rw [madScaleAbs_none] at hs ⊢
    rw [hs] at hv
    exact hv.eq_nil
  | some s =>
    rw [madScaleAbs_some] at hs ⊢
    exact isScale_perm hv.symm hs

theorem base_alike (w : Base) {T T' : List ℕ} (hp : T'.Perm T) {c : Bool} {u : ℕ → 𝕜} (hu : ∀ t, ‖u t‖ = 1) :
    ∃ R, SameWeights (q := q) w.call T T' c u R := by
  cases w with
  | huber alpha =>
    refine ⟨fun _ _ => True, ?_⟩
    intro st st' it r x y bad inv inv' hst h1 h2 a a' ha ha'
    subst ha ha'
    have hs : madScaleAbs (T'.map (fun t => (r t).map (fun v => ‖v‖))) = madScaleAbs (T.map (fun t => (r t).map (fun v => ‖v‖))) :=
      madScaleAbs_perm (hp.map _)
    refine .inr (.inr ⟨fun t => Flt.min1 (Flt.div (Flt.mul (.fin alpha) (flt (madScaleAbs (T.map (fun t => (r t).map (fun v => ‖v‖))))))
      (flt ((r t).map (fun v => ‖v‖)))), ?_, ?_, trivial⟩)
    · simp only [Base.call, huber, vnorm_list, List.map_map, Function.comp_def]
    · simp only [Base.call, huber, vnorm_turn _ hu, hs, List.map_map, Function.comp_def]
  | thomson xi =>
    refine ⟨fun st st' => st' = st, ?_⟩
    intro st st' it r x y bad inv inv' hst h1 h2 a a' ha ha'
    subst ha ha'
    have hs : madScaleAbs (T'.map (fun t => (r t).map (fun v => ‖v‖))) = madScaleAbs (T.map (fun t => (r t).map (fun v => ‖v‖))) :=
      madScaleAbs_perm (hp.map _)
    have key : ∀ s : Flt, (T'.map (fun t => (r t).map (fun v => ‖v‖))).map (fun v => expexp (Flt.div (flt v) s) (thomsonXi xi T.length)) =
        T'.map (fun t => expexp (Flt.div (flt ((r t).map (fun v => ‖v‖))) s) (thomsonXi xi T.length)) := by
      intro s
      simp [Function.comp_def]
    have key' : ∀ s : Flt, (T.map (fun t => (r t).map (fun v => ‖v‖))).map (fun v => expexp (Flt.div (flt v) s) (thomsonXi xi T.length)) =
        T.map (fun t => expexp (Flt.div (flt ((r t).map (fun v => ‖v‖))) s) (thomsonXi xi T.length)) := by
      intro s
      simp [Function.comp_def]
    simp only [Base.call, thomson, vnorm_turn _ hu, hs, List.length_map, hp.length_eq]
    simp only [vnorm_list]
    by_cases h0 : it = 0
    · simp only [h0, if_true]
      exact .inr (.inr ⟨_, congrArg (fun l => Except.ok (some l)) (key' _), congrArg (fun l => Except.ok (some l)) (key _), trivial⟩)
    · obtain rfl := hst.resolve_left h0
      simp only [h0, if_false]
      cases st' with
      | none => exact .inl ⟨_, rfl, rfl⟩
      | some s => exact .inr (.inr ⟨_, congrArg (fun l => Except.ok (some l)) (key' _), congrArg (fun l => Except.ok (some l)) (key _), rfl⟩)

theorem leverage_alike {T T' : List ℕ} (hp : T'.Perm T) {c : Bool} {u : ℕ → 𝕜} (hu : ∀ t, ‖u t‖ = 1) (y : ℕ → Fin q → 𝕜)
    (w : Option (ℕ → Flt)) :
    (∃ e, leverage (T.map y) (w.map (fun w => T.map w)) = .error e ∧
      leverage (T'.map (fun t j => u t * mirror c (y t j))) (w.map (fun w => T'.map w)) = .error e) ∨
    ∃ h : ℕ → ℝ, leverage (T.map y) (w.map (fun w => T.map w)) = .ok (T.map h) ∧
      leverage (T'.map (fun t j => u t * mirror c (y t j))) (w.map (fun w => T'.map w)) = .ok (T'.map h) := by
  simp only [← τ_apply]
  have go : ∀ w : Option (ℕ → ℝ), ((gram (T.map y) (w.map (fun w => T.map w))).det = 0 ∧
        (gram (T'.map (fun t j => u t * τ c (y t j))) (w.map (fun w => T'.map w))).det = 0) ∨
      ((gram (T.map y) (w.map (fun w => T.map w))).det ≠ 0 ∧
        (gram (T'.map (fun t j => u t * τ c (y t j))) (w.map (fun w => T'.map w))).det ≠ 0 ∧
        ∀ t, RCLike.re (∑ j, ((gram (T'.map (fun t j => u t * τ c (y t j))) (w.map (fun w => T'.map w)))⁻¹ *ᵥ
            (fun j => star (u t * τ c (y t j)))) j * (u t * τ c (y t j))) =
          RCLike.re (∑ j, ((gram (T.map y) (w.map (fun w => T.map w)))⁻¹ *ᵥ (fun j => star (y t j))) j * y t j)) := by
    intro w
    by_cases hd : (gram (T.map y) (w.map (fun w => T.map w))).det = 0
    · refine .inl ⟨hd, ?_⟩
      rw [gram_alike hp hu, det_τ, τ_inj]
      exact hd
    · refine .inr ⟨hd, ?_, ?_⟩
      · rw [gram_alike hp hu, det_τ, Ne, τ_inj]
        exact hd
      · intro t
        rw [gram_alike hp hu, solve_τ _ hd]
        have hv : (fun j => star (u t * τ c (y t j))) = star (u t) • (τ c ∘ (fun j => star (y t j))) := by
          funext j
          simp only [Pi.smul_apply, Function.comp, smul_eq_mul, star_mul', star_τ]
        rw [hv, Matrix.mulVec_smul, mulVec_τ]
        refine Eq.trans ?_ (re_τ c _)
        congr 1
        rw [map_sum]
        apply Finset.sum_congr rfl
        intro j _
        simp only [Pi.smul_apply, Function.comp, smul_eq_mul, map_mul]
        linear_combination (τ c (((gram (T.map y) (w.map (fun w => T.map w)))⁻¹ *ᵥ (fun j => star (y t j))) j) * τ c (y t j)) * unit_mul (hu t)
  unfold leverage
  cases w with
  | none =>
    rcases go none with ⟨h1, h2⟩ | ⟨h1, h2, h3⟩
    · simp only [Option.map_none] at h1 h2
      exact .inl ⟨.linAlg, by simp [h1], by simp [h2]⟩
    · simp only [Option.map_none] at h1 h2 h3
      refine .inr ⟨fun t => RCLike.re (∑ j, ((gram (T.map y) none)⁻¹ *ᵥ (fun j => star (y t j))) j * y t j), ?_, ?_⟩
      · simp only [Option.map_none, h1, if_false, List.map_map, Function.comp_def]
      · simp only [Option.map_none, h2, if_false, List.map_map, Function.comp_def, h3]
  | some w =>
    simp only [Option.map_some, List.length_map, ne_eq, not_true_eq_false, if_false]
    rcases vals_list T w with ⟨v1, v2⟩ | ⟨⟨t, ht, v1⟩, v2⟩
    · rcases vals_list T' w with ⟨-, v2'⟩ | ⟨⟨t, ht, v1'⟩, -⟩
      · rw [v2, v2']
        rcases go (some (fun t => (w t).val?.getD 0)) with ⟨h1, h2⟩ | ⟨h1, h2, h3⟩
        · simp only [Option.map_some] at h1 h2
          exact .inl ⟨.linAlg, by simp [h1], by simp [h2]⟩
        · simp only [Option.map_some] at h1 h2 h3
          refine .inr ⟨fun t => RCLike.re (∑ j, ((gram (T.map y) (some (T.map (fun t => (w t).val?.getD 0))))⁻¹ *ᵥ
            (fun j => star (y t j))) j * y t j), ?_, ?_⟩
          · simp only [h1, if_false, List.map_map, Function.comp_def]
          · simp only [h2, if_false, List.map_map, Function.comp_def, h3]
      · exact absurd v1' (v1 t (hp.mem_iff.1 ht))
    · rcases vals_list T' w with ⟨v1', -⟩ | ⟨-, v2'⟩
      · exact absurd v1 (v1' t (hp.mem_iff.2 ht))
      · rw [v2, v2']
        exact .inl ⟨_, rfl, rfl⟩

theorem Flt.add_right_comm (a b c : Flt) : Flt.add (Flt.add a b) c = Flt.add (Flt.add a c) b := by
  cases a <;> cases b <;> cases c <;> simp [Flt.add, _root_.add_right_comm]

theorem Flt.sum_perm {l l' : List Flt} (h : l'.Perm l) : Flt.sum l' = Flt.sum l := by
  unfold Flt.sum
  haveI : RightCommutative Flt.add := ⟨Flt.add_right_comm⟩
  exact h.foldl_eq _

theorem timesArr_list (T : List ℕ) (a : Option (ℕ → Flt)) (b : ℕ → Flt) :
    timesArr (a.map (fun a => T.map a)) (T.map b) = T.map (fun t => (a.map (fun a => Flt.mul (a t) (b t))).getD (b t)) := by
  cases a with
  | none => rfl
  | some a => simp only [Option.map_some, timesArr, List.zipWith_map, List.zipWith_self, Option.getD_some]

/-- What a bounded influence step remembers, for the same windows. -/
def SamePrev (T T' : List ℕ) (p p' : Option Prev) : Prop :=
  (p = none ∧ p' = none) ∨ ∃ (it : ℤ) (tr : Flt) (bi hat : Option (ℕ → Flt)),
    p = some ⟨it, bi.map (fun w => T.map w), tr, hat.map (fun w => T.map w)⟩ ∧
    p' = some ⟨it, bi.map (fun w => T'.map w), tr, hat.map (fun w => T'.map w)⟩

theorem obj_alike (w : Obj) : Alike (𝕜 := 𝕜) (q := q) w.call := by
  intro T T' hn hp c u hu
  cases w with
  | base w =>
    obtain ⟨R, hR⟩ := base_alike (q := q) w hp hu (c := c)
    refine ⟨fun st st' => R st.2 st'.2, ?_⟩
    intro st st' it r x y bad inv inv' hst h1 h2 a a' ha ha'
    subst ha ha'
    exact hR st.2 st'.2 it r x y bad inv inv' hst h1 h2 _ _ rfl rfl
  | bis w lower khi =>
    obtain ⟨R, hR⟩ := base_alike (q := q) w hp hu (c := c)
    refine ⟨fun st st' => SamePrev T T' st.1 st'.1 ∧ R st.2 st'.2, ?_⟩
    intro st st' it r x y bad inv inv' hst h1 h2 a a' ha ha'
    subst ha ha'
    have hin := hR st.2 st'.2 it r x y bad inv inv' (hst.imp_right And.right) h1 h2 _ _ rfl rfl
    have hprev : SamePrev T T' (if it = 0 then some ⟨-1, none, .fin (T.map y).length, none⟩ else st.1)
        (if it = 0 then some ⟨-1, none, .fin (T'.map (fun t j => u t * mirror c (y t j))).length, none⟩ else st'.1) := by
      by_cases h0 : it = 0
      · rw [if_pos h0, if_pos h0]
        refine .inr ⟨-1, .fin T.length, none, none, ?_, ?_⟩
        · simp
        · simp [hp.length_eq]
      · rw [if_neg h0, if_neg h0]
        exact (hst.resolve_left h0).1
    simp only [Obj.call, bis]
    generalize (if it = 0 then some ⟨-1, none, .fin (T.map y).length, none⟩ else st.1 : Option Prev) = P at hprev ⊢
    generalize (if it = 0 then some ⟨-1, none, .fin (T'.map (fun t j => u t * mirror c (y t j))).length, none⟩ else st'.1 : Option Prev) = P' at hprev ⊢
    rcases hprev with ⟨rfl, rfl⟩ | ⟨it0, tr, bi, hat, rfl, rfl⟩
    · exact .inl ⟨_, rfl, rfl⟩
    · simp only
      by_cases hit : (it : ℤ) ≠ 1 + it0
      · simp only [if_pos hit]
        exact .inl ⟨_, rfl, rfl⟩
      · simp only [if_neg hit]
        generalize w.call st'.2 it (T'.map (fun t => (r t).map (fun v => u t * mirror c v))) _ _ inv' = b' at hin ⊢
        generalize w.call st.2 it (T.map r) _ _ inv = b at hin ⊢
        obtain ⟨b, s⟩ := b
        obtain ⟨b', s'⟩ := b'
        rcases hin with ⟨e, k1, k2⟩ | ⟨k1, k2, k3⟩ | ⟨wt, k1, k2, k3⟩
        · simp only at k1 k2
          subst k1 k2
          exact .inl ⟨_, rfl, rfl⟩
        · simp only at k1 k2
          subst k1 k2
          exact .inl ⟨_, rfl, rfl⟩
        · simp only at k1 k2 k3
          subst k1 k2
          simp only [zeroAt_marks h1, zeroAt_marks h2]
          rcases leverage_alike (𝕜 := 𝕜) hp hu (c := c) y bi with ⟨e, l1, l2⟩ | ⟨h, l1, l2⟩
          · simp only [l1, l2]
            exact .inl ⟨_, rfl, rfl⟩
          · simp only [l1, l2]
            have o1 : ∀ (T : List ℕ) (a b : ℕ → Flt), timesArr (some (T.map a)) (T.map b) = T.map (fun t => Flt.mul (a t) (b t)) := by
              intro T a b
              exact timesArr_list T (some a) b
            simp only [List.map_map, Function.comp_def, timesArr_list, o1, zeroAt_marks h1, zeroAt_marks h2]
            refine .inr (.inr ⟨_, rfl, rfl, .inr ⟨it, _, some _, some _, rfl, ?_⟩, k3⟩)
            rw [Flt.sum_perm (hp.map _)]
            rfl

end Razorback.Windows
