/-
Changes of units and axes in the estimation.
-/
import Verif.Spec.Units
import Verif.Lemmas.Weights
import Verif.Props.Transfer

namespace Razorback
open Razorback.Spec Razorback.MEst Razorback.Weights Razorback.Props
open scoped Matrix

variable {𝕜 : Type} [RCLike 𝕜] {q : ℕ} {σ : Type}

theorem gram_mix (A : Matrix (Fin q) (Fin q) 𝕜) (b : List (Fin q → 𝕜)) (w : Option (List ℝ)) :
    gram (b.map (fun r j => ∑ i, A j i * r i)) w = A.map star * gram b w * Aᵀ := by
  have key : ∀ (b b' : List (Fin q → 𝕜)),
      (Matrix.of fun j k => (List.zipWith (fun (r v : Fin q → 𝕜) => star (r j) * v k) (b.map (fun r j => ∑ i, A j i * r i))
        (b'.map (fun r j => ∑ i, A j i * r i))).sum) =
      A.map star * (Matrix.of fun j k => (List.zipWith (fun (r v : Fin q → 𝕜) => star (r j) * v k) b b').sum) * Aᵀ := by
    intro b
    induction b with
    | nil => intro b'; ext j k; simp [Matrix.mul_apply]
    | cons r b ih =>
      intro b'
      cases b' with
      | nil => ext j k; simp [Matrix.mul_apply]
      | cons r' b' =>
        have := ih b'
        ext j k
        have h2 := congrFun (congrFun this j) k
        simp only [Matrix.of_apply, Matrix.mul_apply, Matrix.map_apply, Matrix.transpose_apply] at h2
        simp only [List.map_cons, List.zipWith_cons_cons, List.sum_cons, Matrix.of_apply, Matrix.mul_apply,
          Matrix.map_apply, Matrix.transpose_apply, h2, mul_add, add_mul, Finset.sum_add_distrib, star_sum, star_mul']
        congr 1
        simp only [Finset.sum_mul, Finset.mul_sum]
        refine Finset.sum_congr rfl (fun x _ => Finset.sum_congr rfl (fun y _ => ?_))
        ring
  have hd : dotdiag w (b.map (fun r j => ∑ i, A j i * r i)) = (dotdiag w b).map (fun r j => ∑ i, A j i * r i) := by
    cases w with
    | none => rfl
    | some w =>
      simp only [dotdiag, List.zipWith_map_right, List.map_zipWith]
      congr 1
      funext a r j
      simp only [Pi.smul_apply, Finset.smul_sum, mul_smul_comm]
  unfold gram
  rw [hd]
  exact key b _

theorem rhs_mix (c : 𝕜) (A : Matrix (Fin q) (Fin q) 𝕜) (x : List 𝕜) (b : List (Fin q → 𝕜)) (w : Option (List ℝ)) :
    MEst.rhs (x.map (fun v => c * v)) (b.map (fun r j => ∑ i, A j i * r i)) w = c • (A.map star *ᵥ MEst.rhs x b w) := by
  have key : ∀ (b : List (Fin q → 𝕜)) (x : List 𝕜),
      (fun j => (List.zipWith (fun (r : Fin q → 𝕜) v => star (r j) * v) (b.map (fun r j => ∑ i, A j i * r i))
        (x.map (fun v => c * v))).sum) =
      c • (A.map star *ᵥ (fun j => (List.zipWith (fun (r : Fin q → 𝕜) v => star (r j) * v) b x).sum)) := by
    intro b
    induction b with
    | nil => intro x; funext j; simp [Matrix.mulVec, dotProduct]
    | cons r b ih =>
      intro x
      cases x with
      | nil => funext j; simp [Matrix.mulVec, dotProduct]
      | cons v x =>
        funext j
        have h2 := congrFun (ih x) j
        simp only [Pi.smul_apply, Matrix.mulVec, dotProduct, Matrix.map_apply, smul_eq_mul] at h2
        simp only [List.map_cons, List.zipWith_cons_cons, List.sum_cons, Pi.smul_apply, Matrix.mulVec, dotProduct,
          Matrix.map_apply, smul_eq_mul, h2, mul_add, Finset.sum_add_distrib, star_sum, star_mul']
        congr 1
        simp only [Finset.sum_mul, Finset.mul_sum]
        refine Finset.sum_congr rfl (fun y _ => ?_)
        ring
  have hd : dotdiag w (x.map (fun v => c * v)) = (dotdiag w x).map (fun v => c * v) := by
    cases w with
    | none => rfl
    | some w =>
      simp only [dotdiag, List.zipWith_map_right, List.map_zipWith]
      congr 1
      funext a r
      simp only [mul_smul_comm]
  unfold MEst.rhs
  rw [hd]
  exact key b _

theorem det_map_star (A : Matrix (Fin q) (Fin q) 𝕜) : (A.map star).det = star A.det := by
  have : A.map star = Aᴴᵀ := by ext; simp
  rw [this, Matrix.det_transpose, Matrix.det_conjTranspose]

theorem gram_mix_det (A : Matrix (Fin q) (Fin q) 𝕜) (hA : A.det ≠ 0) (b : List (Fin q → 𝕜)) (w : Option (List ℝ)) :
    (gram (b.map (fun r j => ∑ i, A j i * r i)) w).det = 0 ↔ (gram b w).det = 0 := by
  rw [gram_mix, Matrix.det_mul, Matrix.det_mul, det_map_star, Matrix.det_transpose, mul_eq_zero, mul_eq_zero]
  have := star_ne_zero.2 hA
  tauto

theorem converted_eq (c : 𝕜) (A : Matrix (Fin q) (Fin q) 𝕜) (z : Fin q → 𝕜) : converted c A z = c • (A⁻¹ᵀ *ᵥ z) := by
  funext j
  simp only [converted, Pi.smul_apply, Matrix.mulVec, dotProduct, Matrix.transpose_apply, smul_eq_mul]
  congr 1
  exact Finset.sum_congr rfl (fun i _ => mul_comm _ _)

theorem converted_dot (c : 𝕜) (A : Matrix (Fin q) (Fin q) 𝕜) (hA : A.det ≠ 0) (z r : Fin q → 𝕜) :
    (fun j => ∑ i, A j i * r i) ⬝ᵥ converted c A z = c * (r ⬝ᵥ z) := by
  have h1 : (fun j => ∑ i, A j i * r i) = A *ᵥ r := rfl
  rw [h1, converted_eq, dotProduct_smul, smul_eq_mul, Matrix.mulVec_transpose, dotProduct_comm, ← Matrix.dotProduct_mulVec,
    Matrix.mulVec_mulVec, Matrix.nonsing_inv_mul _ (isUnit_iff_ne_zero.2 hA), Matrix.one_mulVec, dotProduct_comm]

theorem solve_mix (c : 𝕜) (A : Matrix (Fin q) (Fin q) 𝕜) (hA : A.det ≠ 0) (x : List 𝕜) (b : List (Fin q → 𝕜))
    (w : Option (List ℝ)) :
    (gram (b.map (fun r j => ∑ i, A j i * r i)) w)⁻¹ *ᵥ MEst.rhs (x.map (fun v => c * v)) (b.map (fun r j => ∑ i, A j i * r i)) w =
      converted c A ((gram b w)⁻¹ *ᵥ MEst.rhs x b w) := by
  have hs : IsUnit (A.map star).det := by rw [det_map_star]; exact isUnit_iff_ne_zero.2 (star_ne_zero.2 hA)
  rw [gram_mix, rhs_mix, converted_eq, Matrix.mul_inv_rev, Matrix.mul_inv_rev, Matrix.mulVec_smul, Matrix.mulVec_mulVec,
    Matrix.mulVec_mulVec, Matrix.mul_assoc, Matrix.mul_assoc, Matrix.nonsing_inv_mul _ hs, Matrix.mul_one,
    Matrix.transpose_nonsing_inv]

theorem wlse_mix (c : 𝕜) (A : Matrix (Fin q) (Fin q) 𝕜) (hA : A.det ≠ 0) (x : List 𝕜) (b : List (Fin q → 𝕜))
    (w : Option (List Flt)) :
    wlse (x.map (fun v => c * v)) (b.map (fun r j => ∑ i, A j i * r i)) w = (wlse x b w).map (converted c A) := by
  unfold wlse
  cases w with
  | none =>
    simp only [gram_mix_det A hA, solve_mix c A hA]
    split <;> rfl
  | some w =>
    simp only [List.length_map]
    split
    · rfl
    · cases w.mapM Flt.val? with
      | none => rfl
      | some w =>
        simp only [gram_mix_det A hA, solve_mix c A hA]
        split <;> rfl

theorem residual_mix (c : 𝕜) (A : Matrix (Fin q) (Fin q) 𝕜) (hA : A.det ≠ 0) (x : List 𝕜) (b : List (Fin q → 𝕜)) (z : Fin q → 𝕜) :
    MEst.residual (x.map (fun v => c * v)) (b.map (fun r j => ∑ i, A j i * r i)) (converted c A z) =
      (MEst.residual x b z).map (fun v => c * v) := by
  simp only [MEst.residual, List.zipWith_map_left, List.zipWith_map_right, List.map_zipWith, converted_dot c A hA, mul_sub]

theorem mask_mix (c : 𝕜) (r : List 𝕜) (inv : List ℕ) :
    mask (r.map (fun v => c * v)) inv = (mask r inv).map (fun v => v.map (fun v => c * v)) := by
  simp only [mask, List.zipIdx_map, List.map_map]
  apply List.map_congr_left
  rintro ⟨v, i⟩ _
  simp only [Function.comp, Prod.map_fst, Prod.map_snd, id]
  split <;> rfl

theorem wresid_mix (c : 𝕜) (w : Option (List Flt)) (r : List 𝕜) :
    wresid w (r.map (fun v => c * v)) = ‖c‖ ^ 2 * wresid w r := by
  have hd : dotdiag (realWeights w) (r.map (fun v => c * v)) = (dotdiag (realWeights w) r).map (fun v => c * v) := by
    cases realWeights w with
    | none => rfl
    | some w =>
      simp only [dotdiag, List.zipWith_map_right, List.map_zipWith, mul_smul_comm]
  unfold wresid
  rw [hd]
  have : ∀ (r r' : List 𝕜), (List.zipWith (fun a v => star a * v) (r.map (fun v => c * v)) (r'.map (fun v => c * v))).sum =
      (star c * c) * (List.zipWith (fun a v => star a * v) r r').sum := by
    intro r
    induction r with
    | nil => intro r'; simp
    | cons a r ih =>
      intro r'
      cases r' with
      | nil => simp
      | cons a' r' =>
        simp only [List.map_cons, List.zipWith_cons_cons, List.sum_cons, ih, star_mul']
        ring
  rw [this, norm_mul, norm_mul, norm_star]
  ring

theorem converged_mix (tol : ℝ) (k : ℝ) (hk : k ≠ 0) (prev : Option ℝ) (cur : ℝ) :
    converged tol (prev.map (fun p => k * p)) (k * cur) = converged tol prev cur := by
  cases prev with
  | none => rfl
  | some p =>
    simp only [Option.map_some, converged, ne_eq, mul_eq_zero, hk, false_or]
    by_cases hp : p = 0
    · simp [hp]
    · have : (k * cur - k * p) / (k * p) = (cur - p) / p := by field_simp
      rw [this]

/-- The weights are the same, and so is what the weight function gives next. -/
theorem evalWeight_mix {wf : WFun σ 𝕜 q} {c : 𝕜} {A : Matrix (Fin q) (Fin q) 𝕜} {st st' : σ} {it : ℕ} {r e : List 𝕜}
    {b : List (Fin q → 𝕜)} {inv : List ℕ} {eps : ℝ}
    (h : ∀ l, results wf st' (((⟨it, mask r inv, e, b, inv⟩ : Call 𝕜 q) :: l).map (Call.change c A)) =
      results wf st (⟨it, mask r inv, e, b, inv⟩ :: l)) :
    (evalWeight wf it (r.map (fun v => c * v)) (e.map (fun v => c * v)) (b.map (fun r j => ∑ i, A j i * r i)) inv eps st').1 =
      (evalWeight wf it r e b inv eps st).1 ∧
    ((∃ p, (evalWeight wf it r e b inv eps st).1 = .ok p) → ∀ l : List (Call 𝕜 q),
      results wf (evalWeight wf it (r.map (fun v => c * v)) (e.map (fun v => c * v)) (b.map (fun r j => ∑ i, A j i * r i)) inv eps st').2
        (l.map (Call.change c A)) = results wf (evalWeight wf it r e b inv eps st).2 l) := by
  unfold evalWeight
  rw [List.length_map, mask_mix]
  split
  · simp
  · simp only [List.map_cons, results, Call.change, List.cons.injEq] at h
    have h1 := (h []).1
    have h2 := fun l => (h l).2
    clear h
    generalize wf st' it _ _ _ inv = x' at h1 h2 ⊢
    generalize wf st it (mask r inv) e b inv = x at h1 h2 ⊢
    obtain ⟨x, s⟩ := x
    obtain ⟨x', s'⟩ := x'
    simp only at h1 h2
    subst h1
    cases x' with
    | error x => simp
    | ok w =>
      cases w with
      | none => exact ⟨rfl, fun _ l => h2 l⟩
      | some w =>
        simp only
        split
        · simp
        · exact ⟨rfl, fun _ l => h2 l⟩

theorem loop_mix {wf : WFun σ 𝕜 q} {c : 𝕜} (hc : c ≠ 0) {A : Matrix (Fin q) (Fin q) 𝕜} (hA : A.det ≠ 0) {e : List 𝕜}
    {b : List (Fin q → 𝕜)} {o : Opts} (n it : ℕ) (r : List 𝕜) (inv : List ℕ) (prev : Option ℝ) (st st' : σ)
    (h : ∀ l : List (Call 𝕜 q), (∀ k, l.head? = some k → k.it = it) → results wf st' (l.map (Call.change c A)) = results wf st l) :
    (MEst.loop wf (e.map (fun v => c * v)) (b.map (fun r j => ∑ i, A j i * r i)) o n it (r.map (fun v => c * v)) inv
        (prev.map (fun p => ‖c‖ ^ 2 * p)) st').1 =
      (MEst.loop wf e b o n it r inv prev st).1.map (fun p => (converted c A p.1, p.2)) := by
  induction n generalizing it r inv prev st st' with
  | zero => rfl
  | succ n ih =>
    obtain ⟨h1, h2⟩ := evalWeight_mix (eps := o.eps) (r := r) (e := e) (b := b) (inv := inv) (it := it) (st := st) (st' := st')
      (A := A) (c := c) (wf := wf) (fun l => h _ (by simp))
    rw [MEst.loop, MEst.loop]
    generalize evalWeight wf it _ _ _ inv o.eps st' = x' at h1 h2 ⊢
    generalize evalWeight wf it r e b inv o.eps st = x at h1 h2 ⊢
    obtain ⟨x, s⟩ := x
    obtain ⟨x', s'⟩ := x'
    simp only at h1 h2
    subst h1
    cases x' with
    | error x => rfl
    | ok p =>
      obtain ⟨w, inv'⟩ := p
      simp only [wlse_mix c A hA]
      cases wlse e b w with
      | error x => rfl
      | ok z =>
        simp only [Except.map, residual_mix c A hA, wresid_mix, converged_mix o.tol (‖c‖ ^ 2) (pow_ne_zero 2 (norm_ne_zero_iff.2 hc))]
        split
        · rfl
        · have := ih (it + 1) (MEst.residual e b z) inv' (some (wresid w (MEst.residual e b z))) s s'
            (fun l _ => h2 ⟨_, rfl⟩ l)
          exact this

theorem mEstimate_mix {c : 𝕜} (hc : c ≠ 0) {A : Matrix (Fin q) (Fin q) 𝕜} (hA : A.det ≠ 0) {wf : Option (WFun σ 𝕜 q)}
    (hwf : ∀ f, wf = some f → UnitFree f) (e : List 𝕜) (b : List (Fin q → 𝕜)) (z : Option (Fin q → 𝕜)) (inv : List ℕ) (o : Opts)
    (st st' : σ) :
    (mEstimate (e.map (fun v => c * v)) (b.map (fun r j => ∑ i, A j i * r i)) (z.map (converted c A)) wf inv o st').1 =
      (mEstimate e b z wf inv o st).1.map (fun p => (converted c A p.1, p.2)) := by
  cases wf with
  | none =>
    simp only [mEstimate, List.length_map]
    split
    · rfl
    · simp only [wlse_mix c A hA]
      split <;> split <;> simp_all [Except.map]
  | some f =>
    cases z with
    | none => rfl
    | some z =>
      simp only [mEstimate, Option.map_some, residual_mix c A hA]
      refine loop_mix hc hA o.maxit 0 _ inv none st st' ?_
      intro l hl
      cases l with
      | nil => rfl
      | cons k l => exact hwf f rfl c A hc hA st st' k l (hl k rfl)

theorem eliminate_map {β γ : Type} (f : β → γ) (l : List β) (ii : Option (List ℕ)) :
    eliminate (l.map f) ii = (eliminate l ii).map (List.map f) := by
  cases ii with
  | none => rfl
  | some idx =>
    simp only [eliminate, delete, List.length_map]
    split
    · rfl
    · split
      · rfl
      · simp only [Except.map, Except.ok.injEq, List.zipIdx_map, List.filter_map, List.map_map]
        rfl

theorem chainLoop_mix {c : 𝕜} (hc : c ≠ 0) {A : Matrix (Fin q) (Fin q) 𝕜} (hA : A.det ≠ 0) {o : Opts} {ws : Weighting σ 𝕜 q}
    (hws : ∀ i wf, some (i, wf) ∈ ws → UnitFree wf) (e : List 𝕜)
    (b : List (Fin q → 𝕜)) (z : Option (Fin q → 𝕜)) (ii : Option (List ℕ)) (heap heap' : ℕ → σ) :
    (chainLoop o ws (e.map (fun v => c * v)) (b.map (fun r j => ∑ i, A j i * r i)) (z.map (converted c A)) ii heap').1 =
      (chainLoop o ws e b z ii heap).1.map (fun l => l.map (fun p => (converted c A p.1, p.2))) := by
  induction ws generalizing e b z ii heap heap' with
  | nil => rfl
  | cons w ws ih =>
    rw [chainLoop, chainLoop, eliminate_map, eliminate_map]
    cases eliminate e ii with
    | error x => rfl
    | ok e1 =>
    cases eliminate b ii with
    | error x => rfl
    | ok b1 =>
    simp only [Except.map, List.length_map]
    split
    · rfl
    · have hcall : (callEstimate (e1.map (fun v => c * v)) (b1.map (fun r j => ∑ i, A j i * r i)) (z.map (converted c A)) w o heap').1 =
          (callEstimate e1 b1 z w o heap).1.map (fun p => (converted c A p.1, p.2)) := by
        cases w with
        | none => exact mEstimate_mix (σ := Unit) hc hA (wf := none) (fun f h => by simp at h) _ _ _ _ _ _ _
        | some w =>
          obtain ⟨i, wf⟩ := w
          exact mEstimate_mix hc hA (wf := some wf) (fun f h => by obtain rfl := Option.some.inj h; exact hws i _ (by simp)) _ _ _ _ _ _ _
      generalize callEstimate (e1.map _) _ _ w o heap' = x' at hcall ⊢
      generalize callEstimate e1 b1 z w o heap = x at hcall ⊢
      obtain ⟨x, g⟩ := x
      obtain ⟨x', g'⟩ := x'
      simp only at hcall
      subst hcall
      cases x with
      | error x => rfl
      | ok p =>
      obtain ⟨z1, ii1⟩ := p
      simp only [Except.map]
      have hr := ih (fun i wf h => hws i wf (by simp [h])) e1 b1 (some z1) (some ii1) g g'
      simp only [Option.map_some] at hr
      generalize chainLoop o ws (e1.map _) _ _ _ g' = y' at hr ⊢
      generalize chainLoop o ws e1 b1 _ _ g = y at hr ⊢
      obtain ⟨y, k⟩ := y
      obtain ⟨y', k'⟩ := y'
      simp only at hr
      subst hr
      cases y <;> rfl

theorem oneOutput_mix {c : 𝕜} (hc : c ≠ 0) {A : Matrix (Fin q) (Fin q) 𝕜} (hA : A.det ≠ 0) {o : Opts} {ws : Weighting σ 𝕜 q}
    (hws : ∀ i wf, some (i, wf) ∈ ws → UnitFree wf) (b : List (Fin q → 𝕜)) (line : List 𝕜) (z : Option (Fin q → 𝕜)) (inv : List ℕ)
    (heap heap' : ℕ → σ) :
    (oneOutput o ws (b.map (fun r j => ∑ i, A j i * r i)) (line.map (fun v => c * v)) (z.map (converted c A)) inv heap').1 =
      (oneOutput o ws b line z inv heap).1.map (fun p => (p.1.map (converted c A), p.2)) := by
  unfold oneOutput
  have hr := chainLoop_mix hc hA (o := o) hws line b z (some inv) heap heap'
  generalize chainLoop o ws (line.map _) _ _ _ heap' = y' at hr ⊢
  generalize chainLoop o ws line b _ _ heap = y at hr ⊢
  obtain ⟨y, k⟩ := y
  obtain ⟨y', k'⟩ := y'
  simp only at hr
  subst hr
  cases y with
  | error x => rfl
  | ok l =>
    have : (l.map (fun p => (converted c A p.1, p.2))).map Prod.snd = l.map Prod.snd := by simp [List.map_map, Function.comp_def]
    simp only [Except.map, this]
    cases mergeInvalid (inv :: l.map Prod.snd) with
    | error x => rfl
    | ok m =>
      simp only [List.getLast?_map]
      cases l.getLast? <;> rfl

theorem outputsLoop_mix {A : Matrix (Fin q) (Fin q) 𝕜} (hA : A.det ≠ 0) {o : Opts} {ws : Weighting σ 𝕜 q}
    (hws : ∀ i wf, some (i, wf) ∈ ws → UnitFree wf) (b : List (Fin q → 𝕜))
    (l : List (𝕜 × List 𝕜 × Option (Fin q → 𝕜) × List ℕ)) (hl : ∀ t ∈ l, t.1 ≠ 0) (heap heap' : ℕ → σ) :
    (outputsLoop o ws (b.map (fun r j => ∑ i, A j i * r i))
        (l.map (fun t => (t.2.1.map (fun v => t.1 * v), t.2.2.1.map (converted t.1 A), t.2.2.2))) heap').1 =
      (outputsLoop o ws b (l.map Prod.snd) heap).1.map
        (fun res => List.zipWith (fun c p => (p.1.map (converted c A), p.2)) (l.map Prod.fst) res) := by
  induction l generalizing heap heap' with
  | nil => rfl
  | cons t l ih =>
    obtain ⟨c, line, z0, inv⟩ := t
    simp only [List.map_cons]
    rw [outputsLoop, outputsLoop]
    have hr := oneOutput_mix (hl (c, line, z0, inv) (by simp)) hA (o := o) hws b line z0 inv heap heap'
    simp only at hr
    generalize oneOutput o ws (b.map _) _ _ _ heap' = y' at hr ⊢
    generalize oneOutput o ws b _ _ _ heap = y at hr ⊢
    obtain ⟨y, k⟩ := y
    obtain ⟨y', k'⟩ := y'
    simp only at hr
    subst hr
    cases y with
    | error x => rfl
    | ok p =>
      simp only [Except.map]
      have hr := ih (fun t h => hl t (by simp [h])) k k'
      generalize outputsLoop o ws (b.map _) _ k' = y' at hr ⊢
      generalize outputsLoop o ws b _ k = y at hr ⊢
      obtain ⟨y, k⟩ := y
      obtain ⟨y', k'⟩ := y'
      simp only at hr
      subst hr
      cases y <;> rfl

theorem rowsOf_mix {A : Matrix (Fin q) (Fin q) 𝕜} {N : ℕ} {inputs inputs' : Fin q → List 𝕜} (h : Mixed A N inputs inputs') :
    rowsOf inputs' N = (rowsOf inputs N).map (fun r j => ∑ i, A j i * r i) := by
  simp only [rowsOf, List.map_map]
  apply List.map_congr_left
  intro n hn
  funext j
  exact (h j).2.2 n (List.mem_range.1 hn)

theorem transferFunction_mix {A : Matrix (Fin q) (Fin q) 𝕜} (hA : A.det ≠ 0) {ws : Weighting σ 𝕜 q}
    (hws : ∀ i wf, some (i, wf) ∈ ws → UnitFree wf) (outputs : List (List 𝕜)) (cs : List 𝕜) (hcs : cs.length = outputs.length)
    (hc : ∀ c ∈ cs, c ≠ 0) {N : ℕ} {inputs inputs' : Fin q → List 𝕜} (hin : Mixed A N inputs inputs')
    (init : Option (List (Fin q → 𝕜))) (hi : ∀ l, init = some l → l.length = outputs.length) (inv : InvArg) (o : Opts) (heap heap' : ℕ → σ) :
    (transferFunction (List.zipWith (fun c y => y.map (fun v => c * v)) cs outputs) inputs' ws
        (init.map (fun l => List.zipWith (fun c z => converted c A z) cs l)) inv o heap').1 =
      (transferFunction outputs inputs ws init inv o heap).1.map
        (fun res => List.zipWith (fun c p => (p.1.map (converted c A), p.2)) cs res) := by
  have hl : (List.zipWith (fun c y => y.map (fun v => c * v)) cs outputs).length = outputs.length := by simp [hcs]
  unfold transferFunction
  rw [hl]
  cases inv.norm outputs.length with
  | error x => rfl
  | ok invs =>
    cases outputs with
    | nil =>
      cases cs with
      | nil => rfl
      | cons c cs => simp at hcs
    | cons y l =>
      cases cs with
      | nil => simp at hcs
      | cons c cs =>
        simp only [List.length_cons, Nat.add_right_cancel_iff] at hcs
        have h1 : (∃ j, (inputs' j).length ≠ y.length) ↔ ∃ j, (inputs j).length ≠ y.length := by
          simp only [(hin _).1, (hin _).2.1]
        have h2 : (List.zipWith (fun c (y : List 𝕜) => y.map (fun v => c * v)) (c :: cs) (y :: l)).any (fun l => decide (l.length ≠ y.length)) =
            (y :: l).any (fun l => decide (l.length ≠ y.length)) := by
          have : ∀ (cs : List 𝕜) (l : List (List 𝕜)), cs.length = l.length →
              (List.zipWith (fun c (y : List 𝕜) => y.map (fun v => c * v)) cs l).map List.length = l.map List.length := by
            intro cs l h
            apply List.ext_getElem
            · simp [h]
            · intro i h1 h2
              simp
          have h3 := congrArg (fun m : List ℕ => m.any (fun n => decide (n ≠ y.length))) (this (c :: cs) (y :: l) (by simp [hcs]))
          simpa only [List.any_map, Function.comp_def] using h3
        rw [List.zipWith_cons_cons] at h2 ⊢
        simp only [List.length_map, h1, h2]
        split
        · rfl
        · rename_i hbad
          split
          · rfl
          · rename_i hlen
            push Not at hlen
            have key : ∀ (zs : List (Option (Fin q → 𝕜))), zs.length = (y :: l).length →
                (outputsLoop o ws (rowsOf inputs' y.length) ((List.map (fun v => c * v) y ::
                  List.zipWith (fun c y => List.map (fun v => c * v) y) cs l).zip
                    ((List.zipWith (fun c z => z.map (converted c A)) (c :: cs) zs).zip invs)) heap').1 =
                (outputsLoop o ws (rowsOf inputs y.length) ((y :: l).zip (zs.zip invs)) heap).1.map
                  (fun res => List.zipWith (fun c p => (p.1.map (converted c A), p.2)) (c :: cs) res) := by
              intro zs hzs
              by_cases hq : q = 0
              · exact absurd (.inl hq) hbad
              have hN : N = y.length := by
                push Not at hbad
                have := hbad.2.1 ⟨0, Nat.pos_of_ne_zero hq⟩
                rw [← this, (hin _).1]
              subst hN
              rw [rowsOf_mix hin]
              have := outputsLoop_mix hA (o := o) hws (rowsOf inputs y.length) ((c :: cs).zip ((y :: l).zip (zs.zip invs))) (by
                rintro ⟨c', t⟩ ht
                exact hc c' (List.of_mem_zip ht).1) heap heap'
              have e1 : ((c :: cs).zip ((y :: l).zip (zs.zip invs))).map Prod.snd = (y :: l).zip (zs.zip invs) := by
                rw [List.map_snd_zip]
                simp at hlen hzs ⊢
                omega
              have e2 : ((c :: cs).zip ((y :: l).zip (zs.zip invs))).map Prod.fst = c :: cs := by
                rw [List.map_fst_zip]
                simp at hlen hzs ⊢
                omega
              rw [e1, e2] at this
              rw [← this]
              congr 2
              rw [← List.zipWith_cons_cons (f := fun c (y : List 𝕜) => List.map (fun v => c * v) y)]
              apply List.ext_getElem
              · simp at hlen hzs ⊢
                omega
              · intro i h1 h2
                simp only [List.getElem_zip, List.getElem_zipWith, List.getElem_map]
            cases init with
            | none =>
              simp only [Option.map_none]
              split
              · rfl
              · have := key (List.replicate (l.length + 1) none) (by simp)
                have e : List.zipWith (fun c z => Option.map (converted c A) z) (c :: cs) (List.replicate (l.length + 1) none) =
                    List.replicate (l.length + 1) none := by
                  apply List.ext_getElem
                  · simp [hcs]
                  · intro i h1 h2
                    simp
                rw [e] at this
                exact this
            | some zs =>
              have hzs := hi zs rfl
              simp only [Option.map_some, List.length_map, List.length_zipWith, List.length_cons, hzs, hcs, min_self, ne_eq,
                not_true_eq_false, if_false]
              have := key (zs.map some) (by simpa using hzs)
              have e : List.zipWith (fun c z => Option.map (converted c A) z) (c :: cs) (zs.map some) =
                  (List.zipWith (fun c z => converted c A z) (c :: cs) zs).map some := by
                rw [List.zipWith_map_right, List.map_zipWith]
                rfl
              rw [e] at this
              exact this

end Razorback
