import Verif.Spec.MEst
import Verif.Lemmas.Py
import Mathlib.Tactic.Linarith
import Mathlib.Tactic.Ring
import Mathlib.LinearAlgebra.Matrix.ToLinearEquiv

namespace Razorback.MEst
open Razorback Razorback.Spec

/-! Removing positions -/

theorem delete_ok {β : Type _} {l r : List β} {idx : List ℕ} :
    delete l idx = .ok r ↔ (∀ i ∈ idx, i < l.length) ∧ r = without l idx := by
  unfold delete
  split
  · rename_i h
    simp only [List.any_eq_true, decide_eq_true_eq] at h
    obtain ⟨i, hi, hl⟩ := h
    simp only [reduceCtorEq, false_iff, not_and]
    intro h; have := h i hi; omega
  · rename_i h
    simp only [List.any_eq_true, decide_eq_true_eq, not_exists, not_and, not_le] at h
    simp only [Except.ok.injEq, without]
    have : ∀ (l : List (β × ℕ)), l.filter (fun p => !idx.contains p.2) = l.filter (fun p => decide (p.2 ∉ idx)) := by
      intro l; apply List.filter_congr; intro p _; simp
    rw [this]
    constructor
    · rintro rfl; exact ⟨h, rfl⟩
    · rintro ⟨_, rfl⟩; rfl

theorem without_nil {β : Type _} (l : List β) : without l [] = l := by
  simp [without]

theorem eliminate_ok {β : Type _} {l r : List β} {idx : List ℕ} :
    eliminate l (some idx) = .ok r ↔ (∀ i ∈ idx, i < l.length) ∧ r = without l idx := by
  unfold eliminate
  simp only
  split
  · rename_i h
    have := List.length_eq_zero_iff.1 h
    subst this
    simp [without_nil, eq_comm]
  · exact delete_ok

theorem eliminate_error {β : Type _} {l : List β} {idx : List ℕ} {e : Err} (h : eliminate l (some idx) = .error e) :
    e = .index ∧ ∃ i ∈ idx, l.length ≤ i := by
  unfold eliminate at h
  simp only at h
  split at h
  · simp at h
  · unfold delete at h
    split at h
    · rename_i h'
      simp only [List.any_eq_true, decide_eq_true_eq] at h'
      simp only [Except.error.injEq] at h
      exact ⟨h.symm, h'⟩
    · simp at h

theorem without_map {β γ : Type _} (f : β → γ) (l : List β) (idx : List ℕ) :
    without (l.map f) idx = (without l idx).map f := by
  simp only [without, List.zipIdx_map, List.filter_map, List.map_map]
  rfl

theorem withoutAll_map {β γ : Type _} (f : β → γ) (l : List β) (ls : List (List ℕ)) :
    withoutAll (l.map f) ls = (withoutAll l ls).map f := by
  induction ls generalizing l with
  | nil => rfl
  | cons a ls ih => simp only [withoutAll, without_map, ih]

theorem validSteps_map {β γ : Type _} (f : β → γ) (l : List β) (ls : List (List ℕ)) :
    ValidSteps (l.map f) ls ↔ ValidSteps l ls := by
  induction ls generalizing l with
  | nil => rfl
  | cons a ls ih => simp only [ValidSteps, without_map, ih, List.length_map]

theorem without_append {β : Type _} (l l' : List β) (idx : List ℕ) (h : ∀ i ∈ idx, i < l.length) :
    without (l ++ l') idx = without l idx ++ l' := by
  simp only [without, List.zipIdx_append, List.filter_append, List.map_append]
  congr 1
  rw [List.filter_eq_self.2]
  · simp
  · rintro ⟨a, i⟩ hp
    have := List.le_snd_of_mem_zipIdx hp
    simp only [decide_eq_true_eq]
    intro hc
    have := h i hc
    simp at *
    omega

theorem withoutAll_append {β : Type _} (l l' : List β) (ls : List (List ℕ)) (h : ValidSteps l ls) :
    withoutAll (l ++ l') ls = withoutAll l ls ++ l' ∧ ValidSteps (l ++ l') ls := by
  induction ls generalizing l with
  | nil => exact ⟨rfl, trivial⟩
  | cons a ls ih =>
    obtain ⟨h1, h2⟩ := h
    simp only [withoutAll, ValidSteps, without_append _ _ _ h1]
    refine ⟨(ih _ h2).1, ?_, (ih _ h2).2⟩
    intro i hi; have := h1 i hi; simp; omega

theorem without_sublist {β : Type _} (l : List β) (idx : List ℕ) : (without l idx).Sublist l := by
  have h := (List.filter_sublist (p := fun p : β × ℕ => decide (p.2 ∉ idx)) (l := l.zipIdx)).map Prod.fst
  simpa [without, List.zipIdx_map_fst] using h

theorem withoutAll_sublist {β : Type _} (l : List β) (ls : List (List ℕ)) : (withoutAll l ls).Sublist l := by
  induction ls generalizing l with
  | nil => exact List.Sublist.refl _
  | cons a ls ih => exact (ih _).trans (without_sublist l a)

theorem foldE_delete {β : Type _} {l r : List β} {ls : List (List ℕ)} :
    foldE delete l ls = .ok r ↔ ValidSteps l ls ∧ r = withoutAll l ls := by
  induction ls generalizing l with
  | nil => simp [foldE, ValidSteps, withoutAll, eq_comm]
  | cons a ls ih =>
    simp only [foldE, ValidSteps, withoutAll]
    cases hd : delete l a with
    | error e =>
      simp only [reduceCtorEq, false_iff, not_and]
      rintro ⟨h1, _⟩
      have := (delete_ok (r := without l a)).2 ⟨h1, rfl⟩
      rw [hd] at this; simp at this
    | ok s =>
      obtain ⟨h1, rfl⟩ := delete_ok.1 hd
      simp only [ih]
      tauto

theorem le_maxOr0 {l : List ℕ} {i : ℕ} (h : i ∈ l) : i ≤ maxOr0 l := by
  have key : ∀ (l : List ℕ) (m : ℕ), m ≤ l.foldl max m ∧ ∀ i ∈ l, i ≤ l.foldl max m := by
    intro l
    induction l with
    | nil => intro m; simp
    | cons a l ih =>
      intro m
      rw [List.foldl_cons]
      obtain ⟨h1, h2⟩ := ih (max m a)
      refine ⟨by omega, ?_⟩
      intro i hi
      rcases List.mem_cons.1 hi with rfl | hi
      · omega
      · exact h2 i hi
  exact (key l 0).2 i h

theorem validSteps_long {β : Type _} (l : List β) (ls : List (List ℕ))
    (h : (ls.map maxOr0).sum + ls.length ≤ l.length) : ValidSteps l ls := by
  induction ls generalizing l with
  | nil => trivial
  | cons a ls ih =>
    simp only [List.map_cons, List.sum_cons, List.length_cons] at h
    refine ⟨fun i hi => ?_, ih _ ?_⟩
    · have := le_maxOr0 hi; omega
    · have hsplit : l = l.take (maxOr0 a + 1) ++ l.drop (maxOr0 a + 1) := by simp
      rw [hsplit, without_append _ _ _ (by
        intro i hi; have := le_maxOr0 hi; simp; omega)]
      simp
      omega

theorem without_range (N : ℕ) (idx : List ℕ) :
    without (List.range N) idx = (List.range N).filter (fun i => decide (i ∉ idx)) := by
  unfold without
  have hz : (List.range N).zipIdx = (List.range N).map (fun i => (i, i)) := by
    apply List.ext_getElem <;> simp
  rw [hz, List.filter_map, List.map_map]
  simp [Function.comp_def]

theorem eq_filter_of_sublist {l s : List ℕ} (hs : s.Sublist l) (hl : l.Pairwise (· < ·)) :
    s = l.filter (fun i => decide (i ∈ s)) := by
  have h2 : (l.filter (fun i => decide (i ∈ s))).Pairwise (· < ·) := hl.sublist List.filter_sublist
  have h1 : s.Pairwise (· < ·) := hl.sublist hs
  refine List.Perm.eq_of_pairwise (le := (· < ·)) (fun a b _ _ h1 h2 => by omega) h1 h2 ?_
  rw [List.perm_ext_iff_of_nodup (h1.imp (fun h => by omega)) (h2.imp (fun h => by omega))]
  intro i
  simp only [List.mem_filter, decide_eq_true_eq]
  exact ⟨fun h => ⟨hs.subset h, h⟩, fun h => h.2⟩

theorem mergeInvalid_spec (ls : List (List ℕ)) :
    ∃ m, mergeInvalid ls = .ok m ∧ m.Pairwise (· < ·) ∧
      ∀ N, ValidSteps (List.range N) ls → ∀ i, i ∈ m ↔ i < N ∧ i ∉ withoutAll (List.range N) ls := by
  generalize hn : (ls.map maxOr0).sum + ls.length = n
  have hv : ValidSteps (List.range n) ls := validSteps_long _ _ (by simp [hn])
  have hsub := withoutAll_sublist (List.range n) ls
  have hfold := foldE_delete.2 ⟨hv, rfl⟩
  have hdel : delete (List.range n) (withoutAll (List.range n) ls) =
      .ok (without (List.range n) (withoutAll (List.range n) ls)) :=
    delete_ok.2 ⟨fun i hi => by simpa using hsub.subset hi, rfl⟩
  refine ⟨without (List.range n) (withoutAll (List.range n) ls), ?_, ?_, ?_⟩
  · unfold mergeInvalid
    simp only [hn, hfold]
    exact hdel
  · rw [without_range]
    exact List.pairwise_lt_range.sublist List.filter_sublist
  · intro N hN i
    rw [without_range]
    simp only [List.mem_filter, List.mem_range, decide_eq_true_eq]
    rcases Nat.le_total N n with hle | hle
    · obtain ⟨k, rfl⟩ := Nat.exists_eq_add_of_le hle
      rw [List.range_add, (withoutAll_append _ _ _ hN).1]
      simp only [List.mem_append, not_or, List.mem_map, List.mem_range, not_exists, not_and]
      constructor
      · rintro ⟨h1, h2, h3⟩
        refine ⟨?_, h2⟩
        by_contra hc
        exact h3 (i - N) (by omega) (by omega)
      · rintro ⟨h1, h2⟩
        exact ⟨by omega, h2, fun x _ => by omega⟩
    · obtain ⟨k, rfl⟩ := Nat.exists_eq_add_of_le hle
      rw [List.range_add, (withoutAll_append _ _ _ hv).1]
      simp only [List.mem_append, not_or, List.mem_map, List.mem_range, not_exists, not_and]
      constructor
      · rintro ⟨h1, h2⟩
        exact ⟨by omega, h2, fun x _ => by omega⟩
      · rintro ⟨h1, h2, h3⟩
        refine ⟨?_, h2⟩
        by_contra hc
        exact h3 (i - n) (by omega) (by omega)

theorem eq_map_range {β : Type _} (xs : List β) : ∃ f : Fin xs.length → β, xs = (List.finRange xs.length).map f :=
  ⟨xs.get, by simp⟩

theorem without_eq_of_range {N : ℕ} {idx : List ℕ} {ls : List (List ℕ)}
    (h : withoutAll (List.range N) ls = without (List.range N) idx) {β : Type _} (xs : List β) (hx : xs.length = N) :
    withoutAll xs ls = without xs idx := by
  have hxs : xs.map some = (List.range N).map (fun i => xs[i]?) := by
    apply List.ext_getElem
    · simp [hx]
    · intro i h1 h2
      simp at h1
      simp [h1]
  have : (withoutAll xs ls).map some = (without xs idx).map some := by
    rw [← withoutAll_map, ← without_map, hxs, withoutAll_map, without_map, h]
  exact (List.map_inj_right (fun a b h => Option.some.inj h)).1 this

/-! Weighted least squares -/

section
open scoped Matrix
variable {𝕜 : Type} [RCLike 𝕜] {q : ℕ}

/-- The weights that `dotdiag` applies. -/
def eff (w : Option (List ℝ)) (N : ℕ) : List ℝ :=
  match w with
  | none => List.replicate N 1
  | some l => l

theorem dotdiag_eff {M : Type _} [MulAction ℝ M] (w : Option (List ℝ)) (x : List M) :
    dotdiag w x = List.zipWith (fun a v => a • v) (eff w x.length) x := by
  cases w with
  | none =>
    simp only [dotdiag, eff]
    induction x with
    | nil => rfl
    | cons a x ih => simp only [List.length_cons, List.replicate_succ, List.zipWith_cons_cons, one_smul, ← ih]
  | some l => rfl

theorem gram_obs {x : List 𝕜} {y : List (Fin q → 𝕜)} {w : Option (List ℝ)} (hx : x.length = y.length)
    (hw : (eff w y.length).length = y.length) (j k : Fin q) :
    gram y w j k = ((obs x y (eff w y.length)).map (fun t => star (t.y j) * (t.w • t.y k))).sum := by
  simp only [gram, Matrix.of_apply, dotdiag_eff]
  generalize eff w y.length = ws at *
  induction y generalizing x ws with
  | nil => simp [obs]
  | cons a y ih =>
    cases x with
    | nil => simp at hx
    | cons c x =>
      cases ws with
      | nil => simp at hw
      | cons v ws =>
        simp only [List.length_cons, Nat.add_right_cancel_iff] at hx hw
        have := ih hx ws hw
        simp only [obs] at this ⊢
        simp only [List.zipWith_cons_cons, List.zip_cons_cons, List.map_cons, List.sum_cons, this, Pi.smul_apply]

theorem rhs_obs {x : List 𝕜} {y : List (Fin q → 𝕜)} {w : Option (List ℝ)} (hx : x.length = y.length)
    (hw : (eff w y.length).length = y.length) (j : Fin q) :
    rhs x y w j = ((obs x y (eff w y.length)).map (fun t => star (t.y j) * (t.w • t.x))).sum := by
  simp only [rhs, dotdiag_eff, hx]
  generalize eff w y.length = ws at *
  induction y generalizing x ws with
  | nil => simp [obs]
  | cons a y ih =>
    cases x with
    | nil => simp at hx
    | cons c x =>
      cases ws with
      | nil => simp at hw
      | cons v ws =>
        simp only [List.length_cons, Nat.add_right_cancel_iff] at hx hw
        have := ih hx ws hw
        simp only [obs] at this ⊢
        simp only [List.zipWith_cons_cons, List.zip_cons_cons, List.map_cons, List.sum_cons, this]

theorem sum_dot (l : List (Obs 𝕜 q)) (j : Fin q) (z : Fin q → 𝕜) :
    ∑ k, (l.map (fun t => star (t.y j) * (t.w • t.y k))).sum * z k =
      (l.map (fun t => star (t.y j) * (t.w • (t.y ⬝ᵥ z)))).sum := by
  induction l with
  | nil => simp
  | cons t l ih =>
    simp only [List.map_cons, List.sum_cons, add_mul, Finset.sum_add_distrib, ih]
    congr 1
    simp only [dotProduct, Finset.smul_sum, Finset.mul_sum]
    refine Finset.sum_congr rfl (fun k _ => ?_)
    simp only [RCLike.real_smul_eq_coe_mul]
    ring

theorem gram_mulVec {x : List 𝕜} {y : List (Fin q → 𝕜)} {w : Option (List ℝ)} (hx : x.length = y.length)
    (hw : (eff w y.length).length = y.length) (z : Fin q → 𝕜) (j : Fin q) :
    (gram y w *ᵥ z) j = ((obs x y (eff w y.length)).map (fun t => star (t.y j) * (t.w • (t.y ⬝ᵥ z)))).sum := by
  rw [← sum_dot]
  simp only [Matrix.mulVec, dotProduct, gram_obs hx hw]

theorem normalEq_iff {x : List 𝕜} {y : List (Fin q → 𝕜)} {w : Option (List ℝ)} (hx : x.length = y.length)
    (hw : (eff w y.length).length = y.length) (z : Fin q → 𝕜) :
    NormalEq (obs x y (eff w y.length)) z ↔ gram y w *ᵥ z = rhs x y w := by
  have key : ∀ (l : List (Obs 𝕜 q)) (j : Fin q), (l.map (fun t => star (t.y j) * (t.w • (t.x - t.y ⬝ᵥ z)))).sum =
      (l.map (fun t => star (t.y j) * (t.w • t.x))).sum - (l.map (fun t => star (t.y j) * (t.w • (t.y ⬝ᵥ z)))).sum := by
    intro l j
    induction l with
    | nil => simp
    | cons t l ih =>
      rw [List.map_cons, List.map_cons, List.map_cons, List.sum_cons, List.sum_cons, List.sum_cons, ih, smul_sub, mul_sub]
      ring
  constructor
  · intro h
    funext j
    have := h j
    rw [key, sub_eq_zero] at this
    rw [gram_mulVec hx hw, rhs_obs hx hw, this]
  · intro h j
    rw [key, ← gram_mulVec hx hw, ← rhs_obs hx hw, h, sub_self]

theorem independent_iff {x : List 𝕜} {y : List (Fin q → 𝕜)} {w : Option (List ℝ)} (hx : x.length = y.length)
    (hw : (eff w y.length).length = y.length) :
    Independent (obs x y (eff w y.length)) ↔ (gram y w).det ≠ 0 := by
  unfold Independent
  rw [Ne, ← Matrix.exists_mulVec_eq_zero_iff]
  push Not
  constructor
  · intro h v hv h0
    apply hv
    apply h v
    intro j
    rw [← gram_mulVec hx hw, h0]; rfl
  · intro h d hd
    by_contra hc
    apply h d hc
    funext j
    rw [gram_mulVec hx hw, hd j]; rfl

theorem mapM_val {w : List Flt} {ws : List ℝ} : w.mapM Flt.val? = some ws ↔ w = ws.map Flt.fin := by
  induction w generalizing ws with
  | nil =>
    simp only [List.mapM_nil, Option.pure_def, Option.some.injEq]
    constructor
    · rintro rfl; rfl
    · intro h; cases ws <;> simp_all
  | cons a w ih =>
    rw [List.mapM_cons]
    cases a with
    | fin r =>
      simp only [Flt.val?, Option.bind_eq_bind, Option.bind_some]
      cases hm : w.mapM Flt.val? with
      | none =>
        simp only [Option.bind_none, reduceCtorEq, false_iff]
        intro h
        cases ws with
        | nil => simp at h
        | cons b ws =>
          simp only [List.map_cons, List.cons.injEq] at h
          have := ih.2 h.2
          rw [hm] at this; simp at this
      | some v =>
        have := ih.1 hm
        subst this
        simp only [Option.bind_some, Option.pure_def, Option.some.injEq]
        cases ws with
        | nil => simp
        | cons b ws =>
          simp only [List.cons.injEq, List.map_cons, Flt.fin.injEq]
          constructor
          · rintro ⟨rfl, rfl⟩; exact ⟨rfl, rfl⟩
          · rintro ⟨rfl, h⟩
            refine ⟨rfl, ?_⟩
            exact (List.map_inj_right (fun a b h => Flt.fin.inj h)).1 h
    | nan | ninf | pinf =>
      simp only [Flt.val?, Option.bind_eq_bind, Option.bind_none, reduceCtorEq, false_iff]
      intro h; cases ws <;> simp at h

/-- What `wlse` computes when it accepts the weights. -/
noncomputable def solveLS (x : List 𝕜) (y : List (Fin q → 𝕜)) (w : Option (List ℝ)) : Except Err (Fin q → 𝕜) :=
  open Classical in
  if (gram y w).det = 0 then .error .linAlg else .ok ((gram y w)⁻¹.mulVec (rhs x y w))

theorem wlse_of {x : List 𝕜} {y : List (Fin q → 𝕜)} {w : Option (List Flt)} {ws : List ℝ}
    (hw : WeightsAre w y.length ws) :
    ∃ w', eff w' y.length = ws ∧ wlse x y w = solveLS x y w' := by
  obtain ⟨hl, ⟨rfl, rfl⟩ | rfl⟩ := hw
  · exact ⟨none, rfl, rfl⟩
  · refine ⟨some ws, rfl, ?_⟩
    simp only [wlse, solveLS]
    rw [if_neg (by simp [hl]), mapM_val.2 rfl]

theorem solveLS_ok {x : List 𝕜} {y : List (Fin q → 𝕜)} {w : Option (List ℝ)} (hx : x.length = y.length)
    (hw : (eff w y.length).length = y.length) {z : Fin q → 𝕜} :
    solveLS x y w = .ok z ↔ Independent (obs x y (eff w y.length)) ∧ NormalEq (obs x y (eff w y.length)) z := by
  rw [independent_iff hx hw, normalEq_iff hx hw]
  unfold solveLS
  split
  · rename_i h; simp [h]
  · rename_i h
    have hu : IsUnit (gram y w).det := isUnit_iff_ne_zero.2 h
    simp only [Except.ok.injEq, ne_eq, h, not_false_eq_true, true_and]
    constructor
    · rintro rfl
      rw [Matrix.mulVec_mulVec, Matrix.mul_nonsing_inv _ hu, Matrix.one_mulVec]
    · intro hz
      rw [← hz, Matrix.mulVec_mulVec, Matrix.nonsing_inv_mul _ hu, Matrix.one_mulVec]

theorem wlse_ok {x : List 𝕜} {y : List (Fin q → 𝕜)} {w : Option (List Flt)} {ws : List ℝ} (hx : x.length = y.length)
    (hw : WeightsAre w y.length ws) {z : Fin q → 𝕜} :
    wlse x y w = .ok z ↔ Independent (obs x y ws) ∧ NormalEq (obs x y ws) z := by
  obtain ⟨w', h1, h2⟩ := wlse_of (x := x) hw
  have := hw.1
  rw [h2, solveLS_ok hx (by rw [h1, this]), h1]

theorem wlse_singular {x : List 𝕜} {y : List (Fin q → 𝕜)} {w : Option (List Flt)} {ws : List ℝ} (hx : x.length = y.length)
    (hw : WeightsAre w y.length ws) : wlse x y w = .error .linAlg ↔ ¬ Independent (obs x y ws) := by
  obtain ⟨w', h1, h2⟩ := wlse_of (x := x) hw
  have := hw.1
  rw [h2, ← h1, independent_iff hx (by rw [h1, this])]
  unfold solveLS
  split
  · rename_i h; simp [h]
  · rename_i h; simp [h]

theorem weightsAre_of_ok {x : List 𝕜} {y : List (Fin q → 𝕜)} {w : Option (List Flt)} {z : Fin q → 𝕜}
    (h : wlse x y w = .ok z) : ∃ ws, WeightsAre w y.length ws := by
  cases w with
  | none => exact ⟨_, by simp, .inl ⟨rfl, rfl⟩⟩
  | some w =>
    simp only [wlse] at h
    split at h
    · simp at h
    · rename_i hl
      split at h
      · simp at h
      · rename_i ws hm
        have := mapM_val.1 hm
        subst this
        refine ⟨ws, by simpa using hl, .inr rfl⟩

/-! Passes of the iteration -/

variable {σ : Type}

theorem residual_eq (e : List 𝕜) (b : List (Fin q → 𝕜)) (z : Fin q → 𝕜) : residual e b z = resid e b z := rfl

theorem length_resid {e : List 𝕜} {b : List (Fin q → 𝕜)} (h : e.length = b.length) (z : Fin q → 𝕜) :
    (resid e b z).length = e.length := by simp [resid, h]

theorem mask_getElem? (r : List 𝕜) (inv : List ℕ) (i : ℕ) :
    (mask r inv)[i]? = (r[i]?).map (fun x => if i ∈ inv then none else some x) := by
  simp only [mask, List.getElem?_map, List.getElem?_zipIdx, Option.map_map, Nat.zero_add]
  cases r[i]? <;> simp

theorem zeroAt_getElem? (w : List Flt) (inv : List ℕ) (i : ℕ) :
    (zeroAt w inv)[i]? = (w[i]?).map (fun x => if i ∈ inv then .fin 0 else x) := by
  simp only [zeroAt, List.getElem?_map, List.getElem?_zipIdx, Option.map_map, Nat.zero_add]
  cases w[i]? <;> simp

theorem length_zeroAt (w : List Flt) (inv : List ℕ) : (zeroAt w inv).length = w.length := by simp [zeroAt]

theorem mem_negligible (eps : ℝ) (w : List Flt) (i : ℕ) :
    i ∈ negligible eps w ↔ ∃ v, w[i]? = some (.fin v) ∧ |v| ≤ eps := by
  simp only [negligible, List.mem_map, List.mem_filter, decide_eq_true_eq, Prod.exists, exists_eq_right,
    List.mem_zipIdx_iff_getElem?]
  constructor
  · rintro ⟨v, h, hc⟩
    cases v with
    | fin v => exact ⟨v, h, hc⟩
    | nan | pinf | ninf => exact hc.elim
  · rintro ⟨v, h, hc⟩
    exact ⟨.fin v, h, hc⟩

theorem negligible_sorted (eps : ℝ) (w : List Flt) : (negligible eps w).Pairwise (· < ·) := by
  have h : (w.zipIdx.map Prod.snd).Pairwise (· < ·) := by
    rw [List.zipIdx_map_snd]
    exact List.pairwise_lt_range'
  exact h.sublist (List.filter_sublist.map Prod.snd)

theorem sorted_ext {l l' : List ℕ} (h : l.Pairwise (· < ·)) (h' : l'.Pairwise (· < ·)) (hm : ∀ i, i ∈ l ↔ i ∈ l') : l = l' := by
  refine List.Perm.eq_of_pairwise (le := (· < ·)) (fun a b _ _ h1 h2 => by omega) h h' ?_
  rw [List.perm_ext_iff_of_nodup (h.imp (fun h => by omega)) (h'.imp (fun h => by omega))]
  exact hm

theorem isPass_iff {wf : WFun σ 𝕜 q} {e : List 𝕜} {b : List (Fin q → 𝕜)} {eps : ℝ} {it : ℕ} {r : List 𝕜} {inv : List ℕ}
    {st : σ} {p : Pass σ 𝕜 q} (hb : e.length = b.length) (hr : r.length = e.length) :
    IsPass wf e b eps it r inv st p ↔
      evalWeight wf it r e b inv eps st = (.ok (p.w, p.rejected), p.st) ∧ wlse e b p.w = .ok p.z := by
  constructor
  · rintro ⟨h1, ⟨shown, raw, h2, h3, h4, h5⟩, ws, h6, h7⟩
    have hsh : shown = mask r inv := by
      apply List.ext_getElem?
      intro i
      rw [mask_getElem?]
      cases hx : r[i]? with
      | none =>
        have : r.length ≤ i := by simpa using hx
        simp; omega
      | some x => exact h4 i x hx
    subst hsh
    refine ⟨?_, (wlse_ok hb (by rw [← hb]; exact h6)).2 h7⟩
    unfold evalWeight
    rw [if_neg (by simp only [List.any_eq_true, decide_eq_true_eq, not_exists, not_and, not_le, hr]; exact h1), h2]
    rcases h5 with ⟨rfl, e1, e2⟩ | ⟨w0, w, rfl, e1, e2, e3, e4, e5, e6⟩
    · rw [e1, e2]
    · have hw : w = zeroAt w0 inv := by
        apply List.ext_getElem?
        intro i
        rw [zeroAt_getElem?]
        cases hx : w0[i]? with
        | none =>
          have : w0.length ≤ i := by simpa using hx
          simp; omega
        | some x => exact e4 i x hx
      subst hw
      simp only
      rw [if_neg (by omega), e1, sorted_ext e5 (negligible_sorted eps (zeroAt w0 inv))
        (fun i => (e6 i).trans (mem_negligible _ _ _).symm)]
  · rintro ⟨h1, h2⟩
    obtain ⟨ws, hws⟩ := weightsAre_of_ok h2
    refine ⟨?_, ?_, ws, by rw [hb]; exact hws, (wlse_ok hb hws).1 h2⟩
    · unfold evalWeight at h1
      split at h1
      · simp at h1
      · rename_i h
        simpa only [List.any_eq_true, decide_eq_true_eq, not_exists, not_and, not_le, hr] using h
    · unfold evalWeight at h1
      split at h1
      · simp at h1
      · refine ⟨mask r inv, ?_⟩
        cases hf : wf st it (mask r inv) e b inv with
        | mk res st1 =>
        rw [hf] at h1
        cases res with
        | error x => simp at h1
        | ok raw =>
        refine ⟨raw, ?_⟩
        have hmask : (mask r inv).length = r.length ∧
            ∀ i x, r[i]? = some x → (mask r inv)[i]? = some (if i ∈ inv then none else some x) :=
          ⟨by simp [mask], fun i x hx => by rw [mask_getElem?, hx]; rfl⟩
        cases raw with
        | none =>
          simp only [Prod.mk.injEq, Except.ok.injEq] at h1
          obtain ⟨⟨e1, e2⟩, e3⟩ := h1
          exact ⟨by rw [e3], hmask.1, hmask.2, .inl ⟨rfl, e1.symm, e2.symm⟩⟩
        | some w0 =>
          simp only at h1
          split at h1
          · simp at h1
          · rename_i hl
            simp only [Prod.mk.injEq, Except.ok.injEq] at h1
            obtain ⟨⟨e1, e2⟩, e3⟩ := h1
            refine ⟨by rw [e3], hmask.1, hmask.2, .inr ⟨w0, zeroAt w0 inv, rfl, e1.symm, by omega, by
              rw [length_zeroAt]; omega, ?_, ?_, ?_⟩⟩
            · intro i v hv; rw [zeroAt_getElem?, hv]; rfl
            · rw [← e2]; exact negligible_sorted _ _
            · intro i; rw [← e2]; exact mem_negligible _ _ _

theorem wresid_eq {w : Option (List Flt)} {e : List 𝕜} {b : List (Fin q → 𝕜)} {ws : List ℝ} (hb : e.length = b.length)
    (hw : WeightsAre w e.length ws) (z : Fin q → 𝕜) : wresid w (residual e b z) = |cost (obs e b ws) z| := by
  obtain ⟨hl, hw⟩ := hw
  have hd : dotdiag (realWeights w) (residual e b z) = List.zipWith (fun a v => a • v) ws (residual e b z) := by
    rcases hw with ⟨rfl, rfl⟩ | rfl
    · have : realWeights none = none := rfl
      rw [this, dotdiag_eff, residual_eq, length_resid hb]
      rfl
    · have : realWeights (some (ws.map Flt.fin)) = some ws := by
        simp [realWeights, Function.comp_def, Flt.val?]
      rw [this]
      rfl
  unfold wresid
  rw [hd]
  have key : (List.zipWith (fun a v => star a * v) (residual e b z)
      (List.zipWith (fun a v => a • v) ws (residual e b z))).sum = ((cost (obs e b ws) z : ℝ) : 𝕜) := by
    clear hd hw
    unfold cost obs residual
    induction e generalizing b ws with
    | nil => cases ws <;> simp
    | cons x e ih =>
      cases b with
      | nil => simp at hb
      | cons y b =>
        cases ws with
        | nil => simp at hl
        | cons a ws =>
          simp only [List.length_cons, Nat.add_right_cancel_iff] at hb hl
          simp only [List.zipWith_cons_cons, List.sum_cons, List.zip_cons_cons, List.map_cons]
          rw [ih hb hl]
          push_cast
          congr 1
          have : star (x - y ⬝ᵥ z) = starRingEnd 𝕜 (x - y ⬝ᵥ z) := rfl
          rw [this, mul_smul_comm, RCLike.conj_mul, RCLike.real_smul_eq_coe_mul]
  rw [key, RCLike.norm_ofReal]

theorem weightsAre_inj {w : Option (List Flt)} {N : ℕ} {ws ws' : List ℝ} (h : WeightsAre w N ws) (h' : WeightsAre w N ws') :
    ws = ws' := by
  obtain ⟨_, ⟨rfl, rfl⟩ | rfl⟩ := h
  · obtain ⟨_, ⟨_, rfl⟩ | h⟩ := h'
    · rfl
    · simp at h
  · obtain ⟨_, ⟨h, _⟩ | h⟩ := h'
    · simp at h
    · simp only [Option.some.injEq] at h
      exact (List.map_inj_right (fun a b h => Flt.fin.inj h)).1 h

theorem converged_iff {e : List 𝕜} {b : List (Fin q → 𝕜)} {tol : ℝ} {p p' : Pass σ 𝕜 q} (hb : e.length = b.length)
    {ws ws' : List ℝ} (hw : WeightsAre p.w e.length ws) (hw' : WeightsAre p'.w e.length ws') :
    converged tol (some (wresid p.w (residual e b p.z))) (wresid p'.w (residual e b p'.z)) = true ↔
      SmallChange e b tol p p' := by
  rw [wresid_eq hb hw, wresid_eq hb hw']
  simp only [converged, decide_eq_true_eq]
  have hdiv : ∀ c c' : ℝ, 0 ≤ c → ((c ≠ 0 ∧ |(c' - c) / c| < tol) ↔ (c ≠ 0 ∧ |c' - c| < tol * c)) := by
    intro c c' hc
    refine and_congr_right (fun h => ?_)
    have hcp : 0 < c := lt_of_le_of_ne hc (Ne.symm h)
    rw [abs_div, abs_of_pos hcp, div_lt_iff₀ hcp]
  rw [hdiv _ _ (abs_nonneg _)]
  constructor
  · rintro ⟨h1, h2⟩
    exact ⟨_, _, ⟨ws, hw, rfl⟩, ⟨ws', hw', rfl⟩, h1, h2⟩
  · rintro ⟨c, c', ⟨us, hu, rfl⟩, ⟨us', hu', rfl⟩, h1, h2⟩
    rw [weightsAre_inj hw hu, weightsAre_inj hw' hu']
    exact ⟨h1, h2⟩

/-- The energy the loop remembers is that of pass `p`, if any. -/
def Remembers (e : List 𝕜) (b : List (Fin q → 𝕜)) (prev : Option ℝ) (p? : Option (Pass σ 𝕜 q)) : Prop :=
  match p? with
  | none => prev = none
  | some p => prev = some (wresid p.w (residual e b p.z)) ∧ ∃ ws, WeightsAre p.w e.length ws

/-- No two consecutive passes, starting from `p?`, are close. -/
def NoSmall (e : List 𝕜) (b : List (Fin q → 𝕜)) (tol : ℝ) (l : List (Pass σ 𝕜 q)) : Prop :=
  l.IsChain (fun p p' => ¬ SmallChange e b tol p p')

theorem loop_ok {wf : WFun σ 𝕜 q} {e : List 𝕜} {b : List (Fin q → 𝕜)} {o : Opts} (hb : e.length = b.length) {n it : ℕ}
    {r : List 𝕜} {inv : List ℕ} {prev : Option ℝ} {p? : Option (Pass σ 𝕜 q)} {st st' : σ} {z : Fin q → 𝕜} {inv' : List ℕ}
    (hr : r.length = e.length) (hp : Remembers e b prev p?)
    (h : loop wf e b o n it r inv prev st = (.ok (z, inv'), st')) :
    ∃ ps p, ps.length + 1 ≤ n ∧ Passes wf e b o.eps it r inv st (ps ++ [p]) ∧ p.z = z ∧ p.rejected = inv' ∧ p.st = st' ∧
      NoSmall e b o.tol (p?.toList ++ ps) ∧ ∃ p', (p?.toList ++ ps).getLast? = some p' ∧ SmallChange e b o.tol p' p := by
  induction n generalizing it r inv prev p? st with
  | zero => simp [loop] at h
  | succ n ih =>
    rw [loop] at h
    cases hev : evalWeight wf it r e b inv o.eps st with
    | mk res st1 =>
    rw [hev] at h
    cases res with
    | error x => simp at h
    | ok wi =>
    obtain ⟨w, inv1⟩ := wi
    simp only at h
    cases hl : wlse e b w with
    | error x => rw [hl] at h; simp at h
    | ok z1 =>
    rw [hl] at h
    simp only at h
    let p1 : Pass σ 𝕜 q := ⟨w, inv1, z1, st1⟩
    have hpass : IsPass wf e b o.eps it r inv st p1 := (isPass_iff hb hr).2 ⟨hev, hl⟩
    obtain ⟨ws1, hws1, _⟩ := hpass.weights
    split at h
    · rename_i hc
      simp only [Prod.mk.injEq, Except.ok.injEq] at h
      obtain ⟨⟨rfl, rfl⟩, rfl⟩ := h
      cases p? with
      | none => rw [hp] at hc; simp [converged] at hc
      | some p0 =>
        obtain ⟨hp, ws0, hws0⟩ := hp
        rw [hp] at hc
        refine ⟨[], p1, by simp, .cons hpass (.nil _ _ _ _), rfl, rfl, rfl, by simp [NoSmall], p0, rfl, ?_⟩
        exact (converged_iff hb hws0 hws1).1 hc
    · rename_i hc
      obtain ⟨ps, p, h1, h2, h3, h4, h5, h6, h7⟩ := ih (p? := some p1) (length_resid hb z1) ⟨rfl, ws1, hws1⟩ h
      refine ⟨p1 :: ps, p, by simp; omega, .cons hpass h2, h3, h4, h5, ?_, ?_⟩
      · cases p? with
        | none => exact h6
        | some p0 =>
          obtain ⟨hp, ws0, hws0⟩ := hp
          refine List.isChain_cons_cons.2 ⟨?_, h6⟩
          intro hs
          rw [hp] at hc
          exact hc ((converged_iff hb hws0 hws1).2 hs)
      · obtain ⟨p', h7, h8⟩ := h7
        refine ⟨p', ?_, h8⟩
        rw [← h7]
        cases p? <;> simp

theorem loop_nonConv {wf : WFun σ 𝕜 q} {e : List 𝕜} {b : List (Fin q → 𝕜)} {o : Opts} (hb : e.length = b.length) {n it : ℕ}
    {r : List 𝕜} {inv : List ℕ} {prev : Option ℝ} {p? : Option (Pass σ 𝕜 q)} {st : σ} {ps : List (Pass σ 𝕜 q)}
    (hr : r.length = e.length) (hp : Remembers e b prev p?) (hps : Passes wf e b o.eps it r inv st ps) (hn : ps.length = n)
    (hno : NoSmall e b o.tol (p?.toList ++ ps)) :
    (loop wf e b o n it r inv prev st).1 = .error .nonConv := by
  induction n generalizing it r inv prev p? st ps with
  | zero => rfl
  | succ n ih =>
    cases hps with
    | nil => simp at hn
    | @cons _ _ _ _ p1 ps hpass hrest =>
      obtain ⟨h1, h2⟩ := (isPass_iff hb hr).1 hpass
      obtain ⟨ws1, hws1, _⟩ := hpass.weights
      rw [loop, h1]
      simp only [h2]
      rw [if_neg]
      · refine ih (p? := some p1) (length_resid hb _) ⟨rfl, ws1, hws1⟩ hrest (by simpa using hn) ?_
        cases p? with
        | none => exact hno
        | some p0 => exact (List.isChain_cons_cons.1 hno).2
      · intro hc
        cases p? with
        | none => rw [hp] at hc; simp [converged] at hc
        | some p0 =>
          obtain ⟨hp, ws0, hws0⟩ := hp
          rw [hp] at hc
          exact (List.isChain_cons_cons.1 hno).1 ((converged_iff hb hws0 hws1).1 hc)

theorem loop_error {wf : WFun σ 𝕜 q} {e : List 𝕜} {b : List (Fin q → 𝕜)} {o : Opts} (hb : e.length = b.length) {n it : ℕ}
    {r : List 𝕜} {inv : List ℕ} {prev : Option ℝ} {p? : Option (Pass σ 𝕜 q)} {st st' : σ} {x : Err}
    (hr : r.length = e.length) (hp : Remembers e b prev p?)
    (h : loop wf e b o n it r inv prev st = (.error x, st')) :
    ∃ ps, Passes wf e b o.eps it r inv st ps ∧ NoSmall e b o.tol (p?.toList ++ ps) ∧
      ((x = .nonConv ∧ ps.length = n) ∨
       (ps.length < n ∧ ∃ r' inv' st0, r'.length = e.length ∧
        ((∃ s, evalWeight wf (it + ps.length) r' e b inv' o.eps st0 = (.error x, s)) ∨ ∃ w, wlse e b w = .error x))) := by
  induction n generalizing it r inv prev p? st with
  | zero =>
    simp only [loop, Prod.mk.injEq, Except.error.injEq] at h
    refine ⟨[], .nil _ _ _ _, ?_, .inl ⟨h.1.symm, rfl⟩⟩
    cases p? <;> simp [NoSmall]
  | succ n ih =>
    have hnil : NoSmall e b o.tol (p?.toList ++ []) := by cases p? <;> simp [NoSmall]
    rw [loop] at h
    cases hev : evalWeight wf it r e b inv o.eps st with
    | mk res st1 =>
    rw [hev] at h
    cases res with
    | error y =>
      simp only [Prod.mk.injEq, Except.error.injEq] at h
      obtain ⟨rfl, rfl⟩ := h
      exact ⟨[], .nil _ _ _ _, hnil, .inr ⟨by simp, r, inv, st, hr, .inl ⟨_, hev⟩⟩⟩
    | ok wi =>
    obtain ⟨w, inv1⟩ := wi
    simp only at h
    cases hl : wlse e b w with
    | error y =>
      rw [hl] at h
      simp only [Prod.mk.injEq, Except.error.injEq] at h
      obtain ⟨rfl, rfl⟩ := h
      exact ⟨[], .nil _ _ _ _, hnil, .inr ⟨by simp, r, inv, st, hr, .inr ⟨w, hl⟩⟩⟩
    | ok z1 =>
    rw [hl] at h
    simp only at h
    let p1 : Pass σ 𝕜 q := ⟨w, inv1, z1, st1⟩
    have hpass : IsPass wf e b o.eps it r inv st p1 := (isPass_iff hb hr).2 ⟨hev, hl⟩
    obtain ⟨ws1, hws1, _⟩ := hpass.weights
    split at h
    · simp at h
    · rename_i hc
      obtain ⟨ps, h2, h6, h7⟩ := ih (p? := some p1) (length_resid hb z1) ⟨rfl, ws1, hws1⟩ h
      refine ⟨p1 :: ps, .cons hpass h2, ?_, ?_⟩
      · cases p? with
        | none => exact h6
        | some p0 =>
          obtain ⟨hp, ws0, hws0⟩ := hp
          refine List.isChain_cons_cons.2 ⟨?_, h6⟩
          intro hs
          rw [hp] at hc
          exact hc ((converged_iff hb hws0 hws1).2 hs)
      · rcases h7 with ⟨e1, e2⟩ | ⟨e1, e2⟩
        · exact .inl ⟨e1, by simp [e2]⟩
        · refine .inr ⟨by simp; omega, ?_⟩
          rwa [show it + (p1 :: ps).length = it + 1 + ps.length by simp; omega]

end

end Razorback.MEst
