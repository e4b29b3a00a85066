/-
The estimation does not depend on the order of the windows, nor on their phases.
-/
import Verif.Spec.Windows
import Verif.Lemmas.Weights
import Verif.Props.Transfer

namespace Razorback.Windows
open Razorback Razorback.Spec Razorback.MEst Razorback.Weights Razorback.Props
open scoped Matrix

variable {𝕜 : Type} [RCLike 𝕜] {q : ℕ} {σ : Type}

section mirror

/-- `mirror` as a ring homomorphism. -/
noncomputable def τ (c : Bool) : 𝕜 →+* 𝕜 := if c then starRingEnd 𝕜 else RingHom.id 𝕜

theorem τ_apply (c : Bool) (x : 𝕜) : τ c x = mirror c x := by cases c <;> rfl

theorem norm_τ (c : Bool) (x : 𝕜) : ‖τ c x‖ = ‖x‖ := by cases c <;> simp [τ]

theorem star_τ (c : Bool) (x : 𝕜) : star (τ c x) = τ c (star x) := by cases c <;> simp [τ]

theorem re_τ (c : Bool) (x : 𝕜) : RCLike.re (τ c x) = RCLike.re x := by cases c <;> simp [τ]

theorem smul_τ (c : Bool) (a : ℝ) (x : 𝕜) : a • τ c x = τ c (a • x) := by
  cases c
  · simp [τ]
  · simp [τ, RCLike.real_smul_eq_coe_mul]

theorem τ_inj (c : Bool) (x : 𝕜) : τ c x = 0 ↔ x = 0 := map_eq_zero _

theorem unit_mul {u : 𝕜} (hu : ‖u‖ = 1) : star u * u = 1 := by
  have := RCLike.conj_mul u
  rw [hu] at this
  simpa using this

/-- The product of a conjugate with another value of the same window. -/
theorem pair_τ (c : Bool) {u : 𝕜} (hu : ‖u‖ = 1) (a b : 𝕜) : star (u * τ c a) * (u * τ c b) = τ c (star a * b) := by
  rw [star_mul', star_τ, map_mul]
  linear_combination (τ c (star a) * τ c b) * unit_mul hu

end mirror

section marks

variable {T : List ℕ} {inv : List ℕ} {bad : ℕ → Prop}

theorem marks_any {β : Type} {f : ℕ → β} (h : Marks T inv bad) : inv.any (fun i => decide ((T.map f).length ≤ i)) = false := by
  simp only [List.any_eq_false, decide_eq_true_eq, List.length_map, not_le]
  exact h.1

open Classical in
theorem mask_marks (h : Marks T inv bad) (r : ℕ → 𝕜) : mask (T.map r) inv = T.map (fun t => if bad t then none else some (r t)) := by
  apply List.ext_getElem?
  intro i
  rw [mask_getElem?, List.getElem?_map, List.getElem?_map]
  by_cases hi : i < T.length
  · simp only [List.getElem?_eq_getElem hi, Option.map_some, h.2 i hi]
  · simp [List.getElem?_eq_none (not_lt.1 hi)]

open Classical in
theorem zeroAt_marks (h : Marks T inv bad) (w : ℕ → Flt) : zeroAt (T.map w) inv = T.map (fun t => if bad t then .fin 0 else w t) := by
  apply List.ext_getElem?
  intro i
  rw [zeroAt_getElem?, List.getElem?_map, List.getElem?_map]
  by_cases hi : i < T.length
  · simp only [List.getElem?_eq_getElem hi, Option.map_some, h.2 i hi]
  · simp [List.getElem?_eq_none (not_lt.1 hi)]

theorem negligible_marks (eps : ℝ) (w : ℕ → Flt) : Marks T (negligible eps (T.map w)) (fun t => (w t).close0 eps) := by
  have key : ∀ i, i ∈ negligible eps (T.map w) ↔ ∃ h : i < T.length, (w T[i]).close0 eps := by
    intro i
    classical
    simp only [negligible, List.mem_map, List.mem_filter, decide_eq_true_eq]
    constructor
    · rintro ⟨⟨v, j⟩, ⟨h1, h2⟩, rfl⟩
      obtain ⟨hj, h3⟩ := List.mem_zipIdx' h1
      simp only [List.length_map] at hj
      refine ⟨hj, ?_⟩
      rw [h3] at h2
      simpa using h2
    · rintro ⟨h1, h2⟩
      refine ⟨(w T[i], i), ⟨?_, h2⟩, rfl⟩
      rw [List.mem_zipIdx_iff_getElem?]
      simp [List.getElem?_eq_getElem h1]
  refine ⟨fun i hi => ((key i).1 hi).1, fun i hi => ?_⟩
  rw [key]
  exact ⟨fun h => h.2, fun h => ⟨hi, h⟩⟩

open Classical in
theorem without_marks (h : Marks T inv bad) : without T inv = T.filter (fun t => ¬ bad t) := by
  unfold without
  have : T.zipIdx.filter (fun p => p.2 ∉ inv) = T.zipIdx.filter ((fun t => decide (¬ bad t)) ∘ Prod.fst) := by
    apply List.filter_congr
    rintro ⟨t, i⟩ hm
    obtain ⟨h1, h2⟩ := List.mem_zipIdx' hm
    simp only [Function.comp, decide_eq_decide, h2]
    rw [h.2 i h1]
  rw [this, ← List.filter_map]
  congr 1
  simp

open Classical in
theorem eliminate_marks (h : Marks T inv bad) {β : Type} (f : ℕ → β) :
    eliminate (T.map f) (some inv) = .ok ((T.filter (fun t => ¬ bad t)).map f) := by
  rw [eliminate_ok]
  refine ⟨by simpa using h.1, ?_⟩
  rw [without_map, without_marks h]

end marks

section sums

variable {T T' : List ℕ} (hp : T'.Perm T) {c : Bool} {u : ℕ → 𝕜} (hu : ∀ t, ‖u t‖ = 1)

theorem gram_list (T : List ℕ) (y : ℕ → Fin q → 𝕜) (w : Option (ℕ → ℝ)) :
    gram (T.map y) (w.map (fun w => T.map w)) = Matrix.of fun j k => (T.map (fun t => star (y t j) * ((w.map (fun w => w t)).getD 1 • y t k))).sum := by
  ext j k
  cases w with
  | none =>
    simp only [gram, dotdiag, Option.map_none, Option.getD_none, one_smul, Matrix.of_apply, List.zipWith_map, List.zipWith_self, List.map_map,
      Function.comp_def]
  | some w =>
    simp only [gram, dotdiag, Option.map_some, Option.getD_some, Matrix.of_apply, List.zipWith_map, List.zipWith_self, Pi.smul_apply]

theorem rhs_list (T : List ℕ) (x : ℕ → 𝕜) (y : ℕ → Fin q → 𝕜) (w : Option (ℕ → ℝ)) :
    MEst.rhs (T.map x) (T.map y) (w.map (fun w => T.map w)) =
      fun j => (T.map (fun t => star (y t j) * ((w.map (fun w => w t)).getD 1 • x t))).sum := by
  funext j
  cases w with
  | none =>
    simp only [MEst.rhs, dotdiag, Option.map_none, Option.getD_none, one_smul, List.zipWith_map, List.zipWith_self]
  | some w =>
    simp only [MEst.rhs, dotdiag, Option.map_some, Option.getD_some, List.zipWith_map, List.zipWith_self]

include hu in
theorem pair_smul (t : ℕ) (a : ℝ) (v v' : 𝕜) :
    star (u t * τ c v) * (a • (u t * τ c v')) = τ c (star v * (a • v')) := by
  rw [← mul_smul_comm, smul_τ, pair_τ c (hu t)]

include hp hu in
theorem gram_alike (y : ℕ → Fin q → 𝕜) (w : Option (ℕ → ℝ)) :
    gram (T'.map (fun t j => u t * τ c (y t j))) (w.map (fun w => T'.map w)) = (gram (T.map y) (w.map (fun w => T.map w))).map (τ c) := by
  ext j k
  rw [gram_list, gram_list]
  simp only [Matrix.of_apply, Matrix.map_apply, pair_smul hu, map_list_sum, List.map_map]
  exact (hp.map _).sum_eq

include hp hu in
theorem rhs_alike (x : ℕ → 𝕜) (y : ℕ → Fin q → 𝕜) (w : Option (ℕ → ℝ)) :
    MEst.rhs (T'.map (fun t => u t * τ c (x t))) (T'.map (fun t j => u t * τ c (y t j))) (w.map (fun w => T'.map w)) =
      τ c ∘ MEst.rhs (T.map x) (T.map y) (w.map (fun w => T.map w)) := by
  funext j
  rw [rhs_list, rhs_list]
  simp only [Function.comp, pair_smul hu, map_list_sum, List.map_map]
  exact (hp.map _).sum_eq

theorem det_τ (A : Matrix (Fin q) (Fin q) 𝕜) : (A.map (τ c)).det = τ c A.det := ((τ c).map_det A).symm

theorem solve_τ (A : Matrix (Fin q) (Fin q) 𝕜) (hA : A.det ≠ 0) : (A.map (τ c))⁻¹ = A⁻¹.map (τ c) := by
  apply Matrix.inv_eq_right_inv
  rw [← Matrix.map_mul, Matrix.mul_nonsing_inv _ (isUnit_iff_ne_zero.2 hA)]
  simp

theorem mulVec_τ (A : Matrix (Fin q) (Fin q) 𝕜) (v : Fin q → 𝕜) : A.map (τ c) *ᵥ (τ c ∘ v) = τ c ∘ (A *ᵥ v) := by
  funext i
  exact ((τ c).map_mulVec A v i).symm

theorem vals_list (T : List ℕ) (w : ℕ → Flt) :
    ((∀ t ∈ T, (w t).val? ≠ none) ∧ (T.map w).mapM Flt.val? = some (T.map (fun t => (w t).val?.getD 0))) ∨
      ((∃ t ∈ T, (w t).val? = none) ∧ (T.map w).mapM Flt.val? = none) := by
  induction T with
  | nil => exact .inl ⟨by simp, rfl⟩
  | cons t T ih =>
    cases h : (w t).val? with
    | none => exact .inr ⟨⟨t, by simp, h⟩, by simp [h]⟩
    | some v =>
      rcases ih with ⟨h1, h2⟩ | ⟨⟨s, hs, h1⟩, h2⟩
      · exact .inl ⟨by simpa [h] using h1, by simp [h, h2]⟩
      · exact .inr ⟨⟨s, by simp [hs], h1⟩, by simp [h, h2]⟩

include hp hu in
theorem wlse_alike (x : ℕ → 𝕜) (y : ℕ → Fin q → 𝕜) (w : Option (ℕ → Flt)) :
    wlse (T'.map (fun t => u t * τ c (x t))) (T'.map (fun t j => u t * τ c (y t j))) (w.map (fun w => T'.map w)) =
      (wlse (T.map x) (T.map y) (w.map (fun w => T.map w))).map (fun z => τ c ∘ z) := by
  have go : ∀ w : Option (ℕ → ℝ),
      (if (gram (T'.map (fun t j => u t * τ c (y t j))) (w.map (fun w => T'.map w))).det = 0 then (.error .linAlg : Except Err (Fin q → 𝕜))
        else .ok ((gram (T'.map (fun t j => u t * τ c (y t j))) (w.map (fun w => T'.map w)))⁻¹.mulVec
          (MEst.rhs (T'.map (fun t => u t * τ c (x t))) (T'.map (fun t j => u t * τ c (y t j))) (w.map (fun w => T'.map w))))) =
      (if (gram (T.map y) (w.map (fun w => T.map w))).det = 0 then (.error .linAlg : Except Err (Fin q → 𝕜))
        else .ok ((gram (T.map y) (w.map (fun w => T.map w)))⁻¹.mulVec
          (MEst.rhs (T.map x) (T.map y) (w.map (fun w => T.map w))))).map (fun z => τ c ∘ z) := by
    intro w
    simp only [gram_alike hp hu, rhs_alike hp hu, det_τ, τ_inj]
    split
    · rfl
    · rename_i hd
      rw [solve_τ _ hd, mulVec_τ]
      rfl
  unfold wlse
  cases w with
  | none => exact go none
  | some w =>
    simp only [Option.map_some, List.length_map, ne_eq, not_true_eq_false, if_false]
    rcases vals_list T w with ⟨h1, h2⟩ | ⟨⟨t, ht, h1⟩, h2⟩
    · rcases vals_list T' w with ⟨-, h2'⟩ | ⟨⟨t, ht, h1'⟩, -⟩
      · rw [h2, h2']
        exact go (some _)
      · exact absurd h1' (h1 t (hp.mem_iff.1 ht))
    · rcases vals_list T' w with ⟨h1', -⟩ | ⟨-, h2'⟩
      · exact absurd h1 (h1' t (hp.mem_iff.2 ht))
      · rw [h2, h2']
        rfl

theorem residual_alike (T : List ℕ) (x : ℕ → 𝕜) (y : ℕ → Fin q → 𝕜) (z : Fin q → 𝕜) :
    MEst.residual (T.map (fun t => u t * τ c (x t))) (T.map (fun t j => u t * τ c (y t j))) (τ c ∘ z) =
      T.map (fun t => u t * τ c (x t - y t ⬝ᵥ z)) := by
  simp only [MEst.residual, List.zipWith_map, List.zipWith_self]
  apply List.map_congr_left
  intro t _
  simp only [dotProduct, map_sub, map_sum, map_mul, mul_sub, Finset.mul_sum, Function.comp, mul_assoc]

theorem residual_list (T : List ℕ) (x : ℕ → 𝕜) (y : ℕ → Fin q → 𝕜) (z : Fin q → 𝕜) :
    MEst.residual (T.map x) (T.map y) z = T.map (fun t => x t - y t ⬝ᵥ z) := by
  simp only [MEst.residual, List.zipWith_map, List.zipWith_self]

include hp hu in
theorem wresid_alike (w : Option (ℕ → Flt)) (r : ℕ → 𝕜) :
    wresid (w.map (fun w => T'.map w)) (T'.map (fun t => u t * τ c (r t))) = wresid (w.map (fun w => T.map w)) (T.map r) := by
  have h : ∀ (T : List ℕ) (r : ℕ → 𝕜), (List.zipWith (fun a v => star a * v) (T.map r) (dotdiag (realWeights (w.map (fun w => T.map w))) (T.map r))) =
      T.map (fun t => star (r t) * ((w.map (fun w => (w t).val?.getD 0)).getD 1 • r t)) := by
    intro T r
    cases w with
    | none =>
      simp only [realWeights, dotdiag, Option.map_none, Option.getD_none, one_smul, List.zipWith_map, List.zipWith_self, List.map_map,
        Function.comp_def]
    | some w =>
      simp only [realWeights, dotdiag, Option.map_some, Option.getD_some, List.map_map, List.zipWith_map, List.zipWith_self, Function.comp]
  unfold wresid
  rw [h, h]
  simp only [pair_smul hu]
  refine Eq.trans ?_ (norm_τ c _)
  rw [map_list_sum, List.map_map]
  congr 1
  exact (hp.map _).sum_eq

end sums

section estimation

variable {T T' : List ℕ} (hp : T'.Perm T) {c : Bool} {u : ℕ → 𝕜} (hu : ∀ t, ‖u t‖ = 1)

include hp in
theorem evalWeight_alike {wf : WFun σ 𝕜 q} {R : σ → σ → Prop} (hR : SameWeights wf T T' c u R) {st st' : σ} {it : ℕ} (r x : ℕ → 𝕜)
    (y : ℕ → Fin q → 𝕜) {inv inv' : List ℕ} (eps : ℝ) (hst : it = 0 ∨ R st st') (hi : SameBad T T' inv inv') {a a'}
    (ha : evalWeight wf it (T.map r) (T.map x) (T.map y) inv eps st = a)
    (ha' : evalWeight wf it (T'.map (fun t => u t * τ c (r t))) (T'.map (fun t => u t * τ c (x t)))
      (T'.map (fun t j => u t * τ c (y t j))) inv' eps st' = a') :
    (∃ e, a.1 = .error e ∧ a'.1 = .error e) ∨
      ∃ (w : Option (ℕ → Flt)) (ii ii' : List ℕ), a.1 = .ok (w.map (fun w => T.map w), ii) ∧ a'.1 = .ok (w.map (fun w => T'.map w), ii') ∧
        SameBad T T' ii ii' ∧ R a.2 a'.2 := by
  classical
  obtain ⟨bad, h1, h2⟩ := hi
  subst ha ha'
  unfold evalWeight
  rw [marks_any h1, marks_any h2, mask_marks h1, mask_marks h2]
  have key := hR st st' it (fun t => if bad t then none else some (r t)) x y bad inv inv' hst h1 h2 _ _ rfl rfl
  have hm : (T'.map (fun t => if bad t then none else some (u t * τ c (r t)))) =
      T'.map (fun t => ((fun t => if bad t then none else some (r t)) t).map (fun v => u t * mirror c v)) := by
    apply List.map_congr_left
    intro t _
    simp only [τ_apply]
    split <;> rfl
  rw [hm]
  simp only [← τ_apply] at key ⊢
  simp only [Bool.false_eq_true, if_false]
  generalize wf st' it _ _ _ inv' = b' at key ⊢
  generalize wf st it _ _ _ inv = b at key ⊢
  obtain ⟨b, s⟩ := b
  obtain ⟨b', s'⟩ := b'
  rcases key with ⟨e, k1, k2⟩ | ⟨k1, k2, k3⟩ | ⟨w, k1, k2, k3⟩
  · simp only at k1 k2
    subst k1 k2
    exact .inl ⟨e, rfl, rfl⟩
  · simp only at k1 k2
    subst k1 k2
    exact .inr ⟨none, inv, inv', rfl, rfl, ⟨bad, h1, h2⟩, k3⟩
  · simp only at k1 k2
    subst k1 k2
    simp only [List.length_map, ne_eq, not_true_eq_false, if_false, zeroAt_marks h1, zeroAt_marks h2]
    exact .inr ⟨some (fun t => if bad t then .fin 0 else w t), _, _, rfl, rfl, ⟨_, negligible_marks _ _, negligible_marks _ _⟩, k3⟩

/-- The estimates agree, and the positions rejected are those of the same windows. -/
def SameStep (c : Bool) (T T' : List ℕ) (p p' : (Fin q → 𝕜) × List ℕ) : Prop := p'.1 = τ c ∘ p.1 ∧ SameBad T T' p.2 p'.2

include hp hu in
theorem loop_alike {wf : WFun σ 𝕜 q} {R : σ → σ → Prop} (hR : SameWeights wf T T' c u R) (x : ℕ → 𝕜) (y : ℕ → Fin q → 𝕜) (o : Opts)
    (n it : ℕ) (r : ℕ → 𝕜) (inv inv' : List ℕ) (prev : Option ℝ) (st st' : σ) (hst : it = 0 ∨ R st st') (hi : SameBad T T' inv inv') :
    Agree (SameStep c T T') (MEst.loop wf (T.map x) (T.map y) o n it (T.map r) inv prev st).1
      (MEst.loop wf (T'.map (fun t => u t * τ c (x t))) (T'.map (fun t j => u t * τ c (y t j))) o n it
        (T'.map (fun t => u t * τ c (r t))) inv' prev st').1 := by
  induction n generalizing it r inv inv' prev st st' with
  | zero => exact .raised _
  | succ n ih =>
    rw [MEst.loop, MEst.loop]
    have key := evalWeight_alike hp hR r x y o.eps hst hi rfl rfl
    generalize evalWeight wf it (T'.map _) _ _ inv' o.eps st' = b' at key ⊢
    generalize evalWeight wf it (T.map _) _ _ inv o.eps st = b at key ⊢
    obtain ⟨b, s⟩ := b
    obtain ⟨b', s'⟩ := b'
    rcases key with ⟨e, k1, k2⟩ | ⟨w, ii, ii', k1, k2, k3, k4⟩
    · simp only at k1 k2
      subst k1 k2
      exact .raised _
    · simp only at k1 k2 k4
      subst k1 k2
      simp only [wlse_alike hp hu]
      cases wlse (T.map x) (T.map y) (w.map (fun w => T.map w)) with
      | error e => exact .raised _
      | ok z =>
        simp only [Except.map, residual_alike]
        simp only [residual_list, wresid_alike hp hu]
        split
        · exact .done ⟨rfl, k3⟩
        · exact ih _ _ _ _ _ _ _ (.inr k4) k3

theorem sameBad_nil (T T' : List ℕ) : SameBad T T' [] [] :=
  ⟨fun _ => False, ⟨by simp, by simp⟩, ⟨by simp, by simp⟩⟩

include hp hu in
theorem callEstimate_alike (hn : T.Nodup) {w : Option (ℕ × WFun σ 𝕜 q)} (hw : ∀ i wf, w = some (i, wf) → Alike wf) (x : ℕ → 𝕜)
    (y : ℕ → Fin q → 𝕜) (z : Option (Fin q → 𝕜)) (o : Opts) (heap heap' : ℕ → σ) :
    Agree (SameStep c T T') (callEstimate (T.map x) (T.map y) z w o heap).1
      (callEstimate (T'.map (fun t => u t * τ c (x t))) (T'.map (fun t j => u t * τ c (y t j))) (z.map (fun z => τ c ∘ z)) w o heap').1 := by
  cases w with
  | none =>
    simp only [callEstimate, mEstimate, List.any_nil, Bool.false_eq_true, if_false, List.length_nil, if_true]
    have := wlse_alike hp hu (c := c) x y none
    simp only [Option.map_none] at this
    rw [this]
    cases wlse (T.map x) (T.map y) none with
    | error e => exact .raised _
    | ok z => exact .done ⟨rfl, sameBad_nil _ _⟩
  | some w =>
    obtain ⟨i, wf⟩ := w
    obtain ⟨R, hR⟩ := hw i wf rfl T T' hn hp c u hu
    cases z with
    | none => exact .raised _
    | some z =>
      simp only [callEstimate, mEstimate, Option.map_some, residual_alike]
      simp only [residual_list]
      exact loop_alike hp hu hR x y o _ 0 _ [] [] none _ _ (.inl rfl) (sameBad_nil _ _)

/-- The windows that are left. -/
inductive SameChain (c : Bool) : List ℕ → List ℕ → List ((Fin q → 𝕜) × List ℕ) → List ((Fin q → 𝕜) × List ℕ) → Prop
  | nil (T T' : List ℕ) : SameChain c T T' [] []
  | cons {T T' : List ℕ} {p p' : (Fin q → 𝕜) × List ℕ} {l l' : List ((Fin q → 𝕜) × List ℕ)} :
      SameStep c T T' p p' → SameChain c (without T p.2) (without T' p'.2) l l' → SameChain c T T' (p :: l) (p' :: l')

theorem sameBad_without {inv inv' : List ℕ} (hp : T'.Perm T) (h : SameBad T T' inv inv') : (without T' inv').Perm (without T inv) := by
  obtain ⟨bad, h1, h2⟩ := h
  rw [without_marks h1, without_marks h2]
  exact hp.filter _

theorem sameBad_valid {inv inv' : List ℕ} (h : SameBad T T' inv inv') : (∀ i ∈ inv, i < T.length) ∧ ∀ i ∈ inv', i < T'.length := by
  obtain ⟨bad, h1, h2⟩ := h
  exact ⟨h1.1, h2.1⟩

include hu in
theorem chainLoop_alike {o : Opts} {ws : Weighting σ 𝕜 q} (hws : ∀ i wf, some (i, wf) ∈ ws → Alike wf) (T T' : List ℕ) (hp : T'.Perm T)
    (hn : T.Nodup) (x : ℕ → 𝕜) (y : ℕ → Fin q → 𝕜) (z : Option (Fin q → 𝕜)) (inv inv' : List ℕ) (hi : SameBad T T' inv inv')
    (heap heap' : ℕ → σ) :
    Agree (SameChain c (without T inv) (without T' inv')) (chainLoop o ws (T.map x) (T.map y) z (some inv) heap).1
      (chainLoop o ws (T'.map (fun t => u t * τ c (x t))) (T'.map (fun t j => u t * τ c (y t j))) (z.map (fun z => τ c ∘ z)) (some inv')
        heap').1 := by
  induction ws generalizing T T' z inv inv' heap heap' with
  | nil => exact .done (.nil _ _)
  | cons w ws ih =>
    rw [chainLoop, chainLoop]
    obtain ⟨v1, v2⟩ := sameBad_valid hi
    have h1 : ∀ {β : Type} (f : ℕ → β), eliminate (T.map f) (some inv) = .ok ((without T inv).map f) := by
      intro β f
      rw [eliminate_ok, without_map]
      exact ⟨by simpa using v1, rfl⟩
    have h2 : ∀ {β : Type} (f : ℕ → β), eliminate (T'.map f) (some inv') = .ok ((without T' inv').map f) := by
      intro β f
      rw [eliminate_ok, without_map]
      exact ⟨by simpa using v2, rfl⟩
    have hp1 := sameBad_without hp hi
    have hn1 : (without T inv).Nodup := hn.sublist (without_sublist _ _)
    simp only [h1, h2, List.length_map, hp1.length_eq]
    split
    · exact .raised _
    · have key := callEstimate_alike hp1 hu (c := c) hn1 (w := w) (fun i wf h => hws i wf (by simp [h])) x y z o heap heap'
      generalize callEstimate ((without T' inv').map _) _ _ w o heap' = b' at key ⊢
      generalize callEstimate ((without T inv).map _) _ _ w o heap = b at key ⊢
      obtain ⟨b, s⟩ := b
      obtain ⟨b', s'⟩ := b'
      simp only at key
      cases key with
      | raised e => exact .raised _
      | @done p p' hstep =>
        obtain ⟨z1, i1⟩ := p
        obtain ⟨z2, i2⟩ := p'
        obtain rfl : z2 = τ c ∘ z1 := hstep.1
        simp only
        have := ih (fun i wf h => hws i wf (by simp [h])) _ _ hp1 hn1 (some z1) i1 i2 hstep.2 s s'
        simp only [Option.map_some] at this
        generalize chainLoop o ws ((without T' inv').map _) _ _ _ s' = d' at this ⊢
        generalize chainLoop o ws ((without T inv).map _) _ _ _ s = d at this ⊢
        obtain ⟨d, g⟩ := d
        obtain ⟨d', g'⟩ := d'
        simp only at this
        cases this with
        | raised e => exact .raised _
        | done hc => exact .done (.cons hstep hc)

theorem sameChain_valid {l l' : List ((Fin q → 𝕜) × List ℕ)} (h : SameChain c T T' l l') :
    ValidSteps T (l.map Prod.snd) ∧ ValidSteps T' (l'.map Prod.snd) := by
  induction h with
  | nil => exact ⟨trivial, trivial⟩
  | cons h1 _ ih =>
    obtain ⟨v1, v2⟩ := sameBad_valid h1.2
    exact ⟨⟨v1, ih.1⟩, v2, ih.2⟩

theorem sameChain_perm {l l' : List ((Fin q → 𝕜) × List ℕ)} (h : SameChain c T T' l l') (hp : T'.Perm T) :
    (withoutAll T' (l'.map Prod.snd)).Perm (withoutAll T (l.map Prod.snd)) := by
  induction h with
  | nil => exact hp
  | cons h1 _ ih => exact ih (sameBad_without hp h1.2)

theorem marks_merge {ls : List (List ℕ)} (hn : T.Nodup) (hv : ValidSteps T ls) :
    ∃ m, mergeInvalid ls = .ok m ∧ m.Pairwise (· < ·) ∧ Marks T m (fun t => t ∉ withoutAll T ls) := by
  have hv' : ValidSteps (List.range T.length) ls := by
    have := validSteps_map (fun i => T.getD i 0) (List.range T.length) ls
    rw [← this]
    convert hv
    apply List.ext_getElem
    · simp
    · intro i h1 h2
      simp [h2]
  obtain ⟨m, h1, h2, h3, h4⟩ := C43_merge ls T.length hv'
  refine ⟨m, h1, h2, fun i hi => ((h3 i).1 hi).1, ?_⟩
  intro i hi
  rw [h4 ℕ T rfl]
  unfold without
  simp only [List.mem_map, List.mem_filter, decide_eq_true_eq, Prod.exists, exists_and_right, exists_eq_right, not_exists, not_and,
    not_not]
  constructor
  · intro hm j hj
    obtain ⟨hl, he⟩ := List.mem_zipIdx' hj
    have := (hn.getElem_inj_iff).1 he
    rwa [← this]
  · intro h
    apply h
    rw [List.mem_zipIdx_iff_getElem?]
    simp

theorem sameBad_merge {inv inv' : List ℕ} {l l' : List ((Fin q → 𝕜) × List ℕ)} (hp : T'.Perm T) (hn : T.Nodup)
    (hi : SameBad T T' inv inv') (h : SameChain c (without T inv) (without T' inv') l l') :
    ∃ m m', mergeInvalid (inv :: l.map Prod.snd) = .ok m ∧ mergeInvalid (inv' :: l'.map Prod.snd) = .ok m' ∧ SameBad T T' m m' ∧
      m.Pairwise (· < ·) ∧ m'.Pairwise (· < ·) := by
  obtain ⟨v1, v2⟩ := sameBad_valid hi
  obtain ⟨w1, w2⟩ := sameChain_valid h
  obtain ⟨m, a1, a2, a3⟩ := marks_merge (ls := inv :: l.map Prod.snd) hn ⟨v1, w1⟩
  obtain ⟨m', b1, b2, b3⟩ := marks_merge (ls := inv' :: l'.map Prod.snd) (hp.nodup_iff.2 hn) ⟨v2, w2⟩
  refine ⟨m, m', a1, b1, ⟨_, a3, ?_⟩, a2, b2⟩
  have := sameChain_perm h (sameBad_without hp hi)
  refine ⟨b3.1, fun i hi => ?_⟩
  rw [b3.2 i hi]
  exact not_congr this.mem_iff

theorem sameChain_last {l l' : List ((Fin q → 𝕜) × List ℕ)} (h : SameChain c T T' l l') :
    l'.getLast?.map Prod.fst = (l.getLast?.map Prod.fst).map (fun z => τ c ∘ z) := by
  induction h with
  | nil => rfl
  | @cons T T' p p' l l' h1 h2 ih =>
    cases h2 with
    | nil => simp [h1.1]
    | cons h3 h4 =>
      rw [List.getLast?_cons_cons, List.getLast?_cons_cons]
      exact ih

/-- The estimates agree, and the positions rejected, in increasing order, are those of the same windows. -/
def SameOut (c : Bool) (T T' : List ℕ) (p p' : Option (Fin q → 𝕜) × List ℕ) : Prop :=
  p'.1 = p.1.map (fun z => τ c ∘ z) ∧ SameBad T T' p.2 p'.2 ∧ p.2.Pairwise (· < ·) ∧ p'.2.Pairwise (· < ·)

include hp hu in
theorem oneOutput_alike {o : Opts} {ws : Weighting σ 𝕜 q} (hws : ∀ i wf, some (i, wf) ∈ ws → Alike wf)
    (hn : T.Nodup) (x : ℕ → 𝕜) (y : ℕ → Fin q → 𝕜) (z : Option (Fin q → 𝕜)) (inv inv' : List ℕ) (hi : SameBad T T' inv inv')
    (heap heap' : ℕ → σ) :
    Agree (SameOut c T T') (oneOutput o ws (T.map y) (T.map x) z inv heap).1
      (oneOutput o ws (T'.map (fun t j => u t * τ c (y t j))) (T'.map (fun t => u t * τ c (x t))) (z.map (fun z => τ c ∘ z)) inv'
        heap').1 := by
  unfold oneOutput
  have key := chainLoop_alike hu (c := c) (o := o) hws T T' hp hn x y z inv inv' hi heap heap'
  generalize chainLoop o ws (T'.map _) _ _ _ heap' = d' at key ⊢
  generalize chainLoop o ws (T.map _) _ _ _ heap = d at key ⊢
  obtain ⟨d, g⟩ := d
  obtain ⟨d', g'⟩ := d'
  simp only at key
  cases key with
  | raised e => exact .raised _
  | @done l l' hc =>
    obtain ⟨m, m', h1, h2, h3, h4, h5⟩ := sameBad_merge hp hn hi hc
    have hl := sameChain_last hc
    simp only [h1, h2]
    refine .done ⟨?_, h3, h4, h5⟩
    cases hl1 : l.getLast? with
    | none =>
      rw [hl1] at hl
      simp only [Option.map_none, Option.map_eq_none_iff] at hl
      simp only [hl]
    | some p =>
      rw [hl1] at hl
      simp only [Option.map_some, Option.map_eq_some_iff] at hl
      obtain ⟨p', h6, h7⟩ := hl
      simp only [h6, h7, Option.map_some]

include hp hu in
theorem outputsLoop_alike {o : Opts} {ws : Weighting σ 𝕜 q} (hws : ∀ i wf, some (i, wf) ∈ ws → Alike wf)
    (hn : T.Nodup) (y : ℕ → Fin q → 𝕜) (l : List ((ℕ → 𝕜) × Option (Fin q → 𝕜) × List ℕ × List ℕ))
    (hl : ∀ t ∈ l, SameBad T T' t.2.2.1 t.2.2.2) (heap heap' : ℕ → σ) :
    Agree (List.Forall₂ (SameOut c T T'))
      (outputsLoop o ws (T.map y) (l.map (fun t => (T.map t.1, t.2.1, t.2.2.1))) heap).1
      (outputsLoop o ws (T'.map (fun t j => u t * τ c (y t j)))
        (l.map (fun t => (T'.map (fun s => u s * τ c (t.1 s)), t.2.1.map (fun z => τ c ∘ z), t.2.2.2))) heap').1 := by
  induction l generalizing heap heap' with
  | nil => exact .done .nil
  | cons t l ih =>
    simp only [List.map_cons]
    rw [outputsLoop, outputsLoop]
    have key := oneOutput_alike hp hu (c := c) (o := o) hws hn t.1 y t.2.1 t.2.2.1 t.2.2.2 (hl t (by simp)) heap heap'
    generalize oneOutput o ws (T'.map _) _ _ _ heap' = d' at key ⊢
    generalize oneOutput o ws (T.map _) _ _ _ heap = d at key ⊢
    obtain ⟨d, g⟩ := d
    obtain ⟨d', g'⟩ := d'
    simp only at key
    cases key with
    | raised e => exact .raised _
    | @done p p' hc =>
      simp only
      have := ih (fun t ht => hl t (by simp [ht])) g g'
      generalize outputsLoop o ws (T'.map _) _ g' = d' at this ⊢
      generalize outputsLoop o ws (T.map _) _ g = d at this ⊢
      obtain ⟨d, g⟩ := d
      obtain ⟨d', g'⟩ := d'
      simp only at this
      cases this with
      | raised e => exact .raised _
      | done h => exact .done (.cons hc h)

theorem rowsOf_list (T : List ℕ) (y : ℕ → Fin q → 𝕜) : rowsOf (fun j => T.map (fun t => y t j)) T.length = T.map y := by
  unfold rowsOf
  apply List.ext_getElem
  · simp
  · intro i h1 h2
    simp only [List.length_map] at h2
    rw [List.getElem_map, List.getElem_map, List.getElem_range]
    funext j
    simp [h2]

theorem sameBad_empty {l l' : List ℕ} (hp : T'.Perm T) (h : SameBad T T' l l') : l = [] ↔ l' = [] := by
  obtain ⟨bad, h1, h2⟩ := h
  have key : ∀ {T l}, Marks T l bad → (l = [] ↔ ∀ t ∈ T, ¬ bad t) := by
    intro T l h
    constructor
    · rintro rfl t ht hb
      obtain ⟨i, hi, rfl⟩ := List.getElem_of_mem ht
      simpa using (h.2 i hi).2 hb
    · intro hb
      rw [List.eq_nil_iff_forall_not_mem]
      intro i hi
      have hl := h.1 i hi
      exact hb _ (List.getElem_mem hl) ((h.2 i hl).1 hi)
  rw [key h1, key h2]
  exact forall_congr' (fun t => by rw [hp.mem_iff])

theorem forall₂_replicate {β γ : Type} {P : β → γ → Prop} {a : β} {b : γ} (h : P a b) (n : ℕ) :
    List.Forall₂ P (List.replicate n a) (List.replicate n b) := by
  induction n with
  | zero => exact .nil
  | succ n ih => exact .cons h ih

theorem norm_alike (hp : T'.Perm T) {a a' : InvArg} (h : SameInv T T' a a') (P : ℕ) :
    Agree (List.Forall₂ (SameBad T T')) (a.norm P) (a'.norm P) := by
  have h0 : Agree (List.Forall₂ (SameBad T T')) (InvArg.none.norm P) (InvArg.none.norm P) := by
    simp only [InvArg.norm]
    split
    · exact .raised _
    · exact .done (forall₂_replicate (sameBad_nil _ _) _)
  cases h with
  | none => exact h0
  | @flat l l' h =>
    have he := sameBad_empty hp h
    cases l with
    | nil =>
      obtain rfl := he.1 rfl
      exact h0
    | cons i l =>
      cases l' with
      | nil => simp at he
      | cons i' l' => exact .done (forall₂_replicate h _)
  | each h =>
    cases h with
    | nil => exact h0
    | cons h1 h2 => exact .done (.cons h1 h2)

include hp hu in
theorem transferFunction_alike {ws : Weighting σ 𝕜 q} (hws : ∀ i wf, some (i, wf) ∈ ws → Alike wf) (hn : T.Nodup)
    (xs : List (ℕ → 𝕜)) (y : ℕ → Fin q → 𝕜) (init : Option (List (Fin q → 𝕜))) {inv inv' : InvArg} (hi : SameInv T T' inv inv') (o : Opts)
    (heap heap' : ℕ → σ) :
    Agree (List.Forall₂ (SameOut c T T'))
      (transferFunction (xs.map (fun x => T.map x)) (fun j => T.map (fun t => y t j)) ws init inv o heap).1
      (transferFunction (xs.map (fun x => T'.map (fun t => u t * τ c (x t)))) (fun j => T'.map (fun t => u t * τ c (y t j))) ws
        (init.map (fun l => l.map (fun z => τ c ∘ z))) inv' o heap').1 := by
  unfold transferFunction
  have hN := norm_alike hp hi xs.length
  rw [List.length_map, List.length_map]
  generalize inv.norm xs.length = d at hN ⊢
  generalize inv'.norm xs.length = d' at hN ⊢
  cases hN with
  | raised e => exact .raised _
  | @done iv iv' hiv =>
    cases xs with
    | nil => exact .raised _
    | cons x xs =>
      have e1 : ((x :: xs).map (fun x => T.map x)).any (fun l => decide (l.length ≠ (T.map x).length)) = false := by
        simp
      have e2 : ((x :: xs).map (fun x => T'.map (fun t => u t * τ c (x t)))).any
          (fun l => decide (l.length ≠ (T'.map (fun t => u t * τ c (x t))).length)) = false := by
        simp
      rw [List.map_cons] at e1 e2
      simp only [List.map_cons, e1, e2]
      have h1 : ∀ (T : List ℕ) (x : ℕ → 𝕜) (y : ℕ → Fin q → 𝕜), (∃ j, (T.map (fun t => y t j)).length ≠ (T.map x).length) ↔ False := by
        intro T x y
        simp
      have h2 : ∀ (T : List ℕ) (x : ℕ → 𝕜) (y : ℕ → Fin q → 𝕜), rowsOf (fun j => T.map (fun t => y t j)) (T.map x).length = T.map y := by
        intro T x y
        rw [List.length_map, rowsOf_list]
      rw [h2 T x y, h2 T' _ (fun t j => u t * τ c (y t j))]
      simp only [h1, h1 T' (fun t => u t * τ c (x t)) (fun t j => u t * τ c (y t j)), Bool.false_eq_true, or_false, false_or]
      split
      · exact .raised _
      · rw [← hiv.length_eq]
        split
        · exact .raised _
        · rename_i hlen
          push Not at hlen
          have key : ∀ zs : List (Option (Fin q → 𝕜)), zs.length = (x :: xs).length →
              Agree (List.Forall₂ (SameOut c T T'))
                (outputsLoop o ws (T.map y) (((x :: xs).map (fun x => T.map x)).zip (zs.zip iv)) heap).1
                (outputsLoop o ws (T'.map (fun t j => u t * τ c (y t j))) (((x :: xs).map (fun x => T'.map (fun t => u t * τ c (x t)))).zip
                  ((zs.map (fun z => z.map (fun z => τ c ∘ z))).zip iv')) heap').1 := by
            intro zs hzs
            have := outputsLoop_alike hp hu (c := c) (o := o) hws hn y ((x :: xs).zip (zs.zip (iv.zip iv'))) (by
              intro t ht
              have h1 := List.of_mem_zip ht
              have h2 := List.of_mem_zip h1.2
              have h3 := h2.2
              exact (List.forall₂_iff_zip.1 hiv).2 h3) heap heap'
            have hl := hiv.length_eq
            have z1 : ∀ (A : List (ℕ → 𝕜)) (B : List (Option (Fin q → 𝕜))) (C C' : List (List ℕ)), C.length = C'.length →
                (A.map (fun x => T.map x)).zip (B.zip C) = (A.zip (B.zip (C.zip C'))).map (fun t => (T.map t.1, t.2.1, t.2.2.1)) := by
              intro A
              induction A with
              | nil => intros; rfl
              | cons a A ih =>
                intro B C C' h
                cases B with
                | nil => simp
                | cons b B =>
                  cases C with
                  | nil => simp
                  | cons c0 C =>
                    cases C' with
                    | nil => simp at h
                    | cons c' C' => simp [ih B C C' (by simpa using h)]
            have z2 : ∀ (A : List (ℕ → 𝕜)) (B : List (Option (Fin q → 𝕜))) (C C' : List (List ℕ)), C.length = C'.length →
                (A.map (fun x => T'.map (fun t => u t * τ c (x t)))).zip ((B.map (fun z => z.map (fun z => τ c ∘ z))).zip C') =
                  (A.zip (B.zip (C.zip C'))).map (fun t => (T'.map (fun s => u s * τ c (t.1 s)), t.2.1.map (fun z => τ c ∘ z), t.2.2.2)) := by
              intro A
              induction A with
              | nil => intros; rfl
              | cons a A ih =>
                intro B C C' h
                cases B with
                | nil => simp
                | cons b B =>
                  cases C with
                  | nil =>
                    cases C' with
                    | nil => simp
                    | cons c' C' => simp at h
                  | cons c0 C =>
                    cases C' with
                    | nil => simp at h
                    | cons c' C' => simp [ih B C C' (by simpa using h)]
            rw [z1 _ _ _ _ hl, z2 _ _ _ _ hl]
            exact this
          cases init with
          | none =>
            simp only [Option.map_none, List.length_cons, List.length_map, List.length_replicate, ne_eq, not_true_eq_false, if_false]
            have := key (List.replicate (xs.length + 1) none) (by simp)
            simpa using this
          | some l =>
            simp only [Option.map_some, List.length_cons, List.length_map, ne_eq]
            split
            · exact .raised _
            · rename_i hll
              have := key (l.map some) (by simpa using hll)
              simpa [Function.comp_def] using this

end estimation

end Razorback.Windows
