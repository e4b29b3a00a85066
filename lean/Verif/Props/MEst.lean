/-
Properties C43-C45: merging of invalid indices, weighted least squares.
-/
import Verif.Lemmas.MEst
import Mathlib.Analysis.Complex.Basic
import Mathlib.Tactic.FinCases

namespace Razorback.Props
open Razorback Razorback.Spec Razorback.MEst

/-! C43 -/

/-- **C43.** If lists of positions are eliminated one after the other from a series, `merge_invalid_indices` returns the
increasing list of the original positions that are gone, and removing it at once from any series of this length gives
what the successive eliminations leave. -/
theorem C43_merge (ls : List (List ℕ)) (N : ℕ) (hv : ValidSteps (List.range N) ls) :
    ∃ m, mergeInvalid ls = .ok m ∧ m.Pairwise (· < ·) ∧
      (∀ i, i ∈ m ↔ i < N ∧ i ∉ withoutAll (List.range N) ls) ∧
      ∀ (β : Type) (xs : List β), xs.length = N → withoutAll xs ls = without xs m := by
  obtain ⟨m, h1, h2, h3⟩ := mergeInvalid_spec ls
  refine ⟨m, h1, h2, h3 N hv, ?_⟩
  intro β xs hx
  apply without_eq_of_range _ xs hx
  rw [without_range]
  have hs := withoutAll_sublist (List.range N) ls
  rw [eq_filter_of_sublist hs List.pairwise_lt_range]
  apply List.filter_congr
  intro i hi
  have hiff := h3 N hv i
  have hi := List.mem_range.1 hi
  by_cases hc : i ∈ m
  · simp [hc, (hiff.1 hc).2]
  · simp only [hc, not_false_eq_true, decide_true, decide_eq_true_eq]
    by_contra hn
    exact hc (hiff.2 ⟨hi, hn⟩)

/-- **C43.** `merge_invalid_indices` never raises, whatever the lists. -/
theorem C43_total (ls : List (List ℕ)) : ∃ m, mergeInvalid ls = .ok m := by
  obtain ⟨m, h, _⟩ := mergeInvalid_spec ls
  exact ⟨m, h⟩

/-- **C43.** The code's successive eliminations are these removals, and raise exactly if a position does not exist. -/
theorem C43_eliminate {β : Type} (l : List β) (idx : List ℕ) :
    ((∀ i ∈ idx, i < l.length) → eliminate l (some idx) = .ok (without l idx)) ∧
    ((∃ i ∈ idx, l.length ≤ i) → eliminate l (some idx) = .error .index) := by
  refine ⟨fun h => eliminate_ok.2 ⟨h, rfl⟩, ?_⟩
  rintro ⟨i, hi, hl⟩
  cases he : eliminate l (some idx) with
  | ok r => have := (eliminate_ok.1 he).1 i hi; omega
  | error e => rw [(eliminate_error he).1]

example : ValidSteps (List.range 6) [[1, 3], [0, 2], []] ∧ mergeInvalid [[1, 3], [0, 2], []] = .ok [0, 1, 3, 4] ∧
    withoutAll (List.range 6) [[1, 3], [0, 2], []] = [2, 5] := by
  refine ⟨?_, by decide, by decide⟩
  simp [ValidSteps, without, List.zipIdx_cons, List.range_succ]

/-! C44 -/

section
open scoped Matrix
variable {𝕜 : Type} [RCLike 𝕜] {q : ℕ}

/-- **C44.** `wlse` returns `z` exactly when the normal equations have at most one solution and `z` solves them. -/
theorem C44_normal_equations (x : List 𝕜) (y : List (Fin q → 𝕜)) (w : Option (List Flt)) (ws : List ℝ)
    (hx : x.length = y.length) (hw : WeightsAre w y.length ws) (z : Fin q → 𝕜) :
    wlse x y w = .ok z ↔ Independent (obs x y ws) ∧ NormalEq (obs x y ws) z :=
  wlse_ok hx hw

/-- **C44.** It raises LinAlgError exactly when the weighted normal equations do not determine `z`. -/
theorem C44_singular_raises (x : List 𝕜) (y : List (Fin q → 𝕜)) (w : Option (List Flt)) (ws : List ℝ)
    (hx : x.length = y.length) (hw : WeightsAre w y.length ws) :
    (¬ Independent (obs x y ws) → wlse x y w = .error .linAlg) ∧
    (Independent (obs x y ws) → ∃ z, wlse x y w = .ok z) := by
  refine ⟨(wlse_singular hx hw).2, ?_⟩
  intro h
  cases hc : wlse x y w with
  | ok z => exact ⟨z, rfl⟩
  | error e =>
    obtain ⟨w', h1, h2⟩ := wlse_of (x := x) hw
    rw [h2] at hc
    unfold solveLS at hc
    split at hc
    · rename_i hd
      rw [← h1] at h
      exact absurd hd ((independent_iff hx (by rw [h1, hw.1])).1 h)
    · simp at hc

/-- **C44.** A weight that is not a finite number, or a weight array of the wrong length, raises ValueError. -/
theorem C44_bad_weights_raise (x : List 𝕜) (y : List (Fin q → 𝕜)) (w : List Flt)
    (h : w.length ≠ y.length ∨ ∃ v ∈ w, v.val? = none) : wlse x y (some w) = .error .value := by
  simp only [wlse]
  split
  · rfl
  · rename_i hl
    rcases h with h | ⟨v, hv, hn⟩
    · exact absurd h hl
    · have : w.mapM Flt.val? = none := by
        cases hm : w.mapM Flt.val? with
        | none => rfl
        | some ws =>
          have := mapM_val.1 hm
          subst this
          obtain ⟨r, _, rfl⟩ := List.mem_map.1 hv
          simp [Flt.val?] at hn
      rw [this]

theorem cross_term (l : List (Obs 𝕜 q)) (z d : Fin q → 𝕜) :
    (l.map (fun t => star (t.y ⬝ᵥ d) * (t.w • (t.x - t.y ⬝ᵥ z)))).sum =
      ∑ j, star (d j) * (l.map (fun t => star (t.y j) * (t.w • (t.x - t.y ⬝ᵥ z)))).sum := by
  induction l with
  | nil => simp
  | cons t l ih =>
    rw [List.map_cons, List.sum_cons, ih]
    simp only [List.map_cons, List.sum_cons, mul_add, Finset.sum_add_distrib]
    congr 1
    simp only [dotProduct, star_sum, Finset.sum_mul, star_mul]
    refine Finset.sum_congr rfl (fun j _ => ?_)
    ring

theorem cost_add (l : List (Obs 𝕜 q)) (z d : Fin q → 𝕜) (hz : NormalEq l z) :
    cost l (z + d) = cost l z + (l.map (fun t => t.w * ‖t.y ⬝ᵥ d‖ ^ 2)).sum := by
  have key : ∀ l : List (Obs 𝕜 q), cost l (z + d) = cost l z + (l.map (fun t => t.w * ‖t.y ⬝ᵥ d‖ ^ 2)).sum -
      2 * RCLike.re (l.map (fun t => star (t.y ⬝ᵥ d) * (t.w • (t.x - t.y ⬝ᵥ z)))).sum := by
    intro l
    induction l with
    | nil => simp [cost]
    | cons t l ih =>
      simp only [cost, List.map_cons, List.sum_cons] at ih ⊢
      rw [ih, map_add]
      have h1 : t.x - t.y ⬝ᵥ (z + d) = (t.x - t.y ⬝ᵥ z) - t.y ⬝ᵥ d := by
        rw [dotProduct_add]; ring
      have h2 : ∀ a b : 𝕜, ‖a - b‖ ^ 2 = ‖a‖ ^ 2 + ‖b‖ ^ 2 - 2 * RCLike.re (star b * a) := by
        intro a b
        rw [← RCLike.normSq_eq_def', ← RCLike.normSq_eq_def', ← RCLike.normSq_eq_def', RCLike.normSq_sub]
        have : star b = starRingEnd 𝕜 b := rfl
        rw [this, mul_comm (starRingEnd 𝕜 b) a]
      rw [h1, h2]
      have h3 : RCLike.re (star (t.y ⬝ᵥ d) * (t.w • (t.x - t.y ⬝ᵥ z))) =
          t.w * RCLike.re (star (t.y ⬝ᵥ d) * (t.x - t.y ⬝ᵥ z)) := by
        rw [mul_smul_comm, RCLike.smul_re]
      rw [h3]
      ring
  rw [key, cross_term]
  have : ∑ j, star (d j) * (l.map (fun t => star (t.y j) * (t.w • (t.x - t.y ⬝ᵥ z)))).sum = 0 :=
    Finset.sum_eq_zero (fun j _ => by rw [hz j, mul_zero])
  rw [this]
  simp

/-- **C44.** With non-negative weights the estimate minimises the weighted sum of squared residuals. -/
theorem C44_minimises (x : List 𝕜) (y : List (Fin q → 𝕜)) (w : Option (List Flt)) (ws : List ℝ)
    (hx : x.length = y.length) (hw : WeightsAre w y.length ws) (hpos : ∀ a ∈ ws, 0 ≤ a) (z : Fin q → 𝕜)
    (h : wlse x y w = .ok z) : ∀ z', cost (obs x y ws) z ≤ cost (obs x y ws) z' := by
  intro z'
  obtain ⟨_, hn⟩ := (wlse_ok hx hw).1 h
  have e : z' = z + (z' - z) := by simp
  rw [e, cost_add _ _ _ hn]
  have : 0 ≤ ((obs x y ws).map (fun t => t.w * ‖t.y ⬝ᵥ (z' - z)‖ ^ 2)).sum := by
    apply List.sum_nonneg
    intro a ha
    obtain ⟨t, ht, rfl⟩ := List.mem_map.1 ha
    have : 0 ≤ t.w := by
      obtain ⟨i, hi, rfl⟩ := List.getElem_of_mem ht
      simp only [obs, List.getElem_zipWith]
      exact hpos _ (List.getElem_mem _)
    positivity
  linarith

/-- **C44.** With non-negative weights the estimate is determined exactly when no non-zero combination of the inputs
vanishes on all samples of non-zero weight. -/
theorem C44_independent (l : List (Obs 𝕜 q)) (hpos : ∀ t ∈ l, 0 ≤ t.w) :
    Independent l ↔ ∀ d : Fin q → 𝕜, (∀ t ∈ l, t.w ≠ 0 → t.y ⬝ᵥ d = 0) → d = 0 := by
  constructor
  · intro h d hd
    apply h d
    intro j
    apply List.sum_eq_zero
    intro a ha
    obtain ⟨t, ht, rfl⟩ := List.mem_map.1 ha
    by_cases hw : t.w = 0
    · simp [hw]
    · simp [hd t ht hw]
  · intro h d hd
    apply h d
    have key : ∀ l : List (Obs 𝕜 q), (l.map (fun t => t.w * ‖t.y ⬝ᵥ d‖ ^ 2)).sum =
        RCLike.re (∑ j, star (d j) * (l.map (fun t => star (t.y j) * (t.w • (t.y ⬝ᵥ d)))).sum) := by
      intro l
      induction l with
      | nil => simp
      | cons t l ih =>
        simp only [List.map_cons, List.sum_cons, mul_add, Finset.sum_add_distrib, map_add]
        rw [ih]
        congr 1
        have : ∑ j, star (d j) * (star (t.y j) * (t.w • (t.y ⬝ᵥ d))) = t.w • (star (t.y ⬝ᵥ d) * (t.y ⬝ᵥ d)) := by
          rw [show star (t.y ⬝ᵥ d) = ∑ j, star (d j) * star (t.y j) by
            simp only [dotProduct, star_sum, star_mul]]
          rw [Finset.sum_mul, Finset.smul_sum]
          refine Finset.sum_congr rfl (fun j _ => ?_)
          rw [mul_smul_comm, mul_smul_comm, mul_assoc]
        rw [this, RCLike.smul_re]
        congr 1
        have : star (t.y ⬝ᵥ d) = starRingEnd 𝕜 (t.y ⬝ᵥ d) := rfl
        rw [this, RCLike.conj_mul, ← RCLike.ofReal_pow, RCLike.ofReal_re]
    have h0 : (l.map (fun t => t.w * ‖t.y ⬝ᵥ d‖ ^ 2)).sum = 0 := by
      rw [key, Finset.sum_eq_zero (fun j _ => by rw [hd j, mul_zero]), map_zero]
    intro t ht hw
    have hz : t.w * ‖t.y ⬝ᵥ d‖ ^ 2 = 0 := by
      by_contra hc
      have hp : ∀ a ∈ l.map (fun t => t.w * ‖t.y ⬝ᵥ d‖ ^ 2), 0 ≤ a := by
        intro a ha
        obtain ⟨s, hs, rfl⟩ := List.mem_map.1 ha
        have := hpos s hs
        positivity
      have := List.single_le_sum hp _ (List.mem_map.2 ⟨t, ht, rfl⟩)
      have h1 := hp _ (List.mem_map.2 ⟨t, ht, rfl⟩)
      exact hc (le_antisymm (by linarith) h1)
    rcases mul_eq_zero.1 hz with h | h
    · exact absurd h hw
    · exact norm_eq_zero.1 (by simpa using h)

/-- **C44.** If the outputs are exactly `y z0` on the samples of non-zero weight, the estimate is `z0`. -/
theorem C44_exact (x : List 𝕜) (y : List (Fin q → 𝕜)) (w : Option (List Flt)) (ws : List ℝ)
    (hx : x.length = y.length) (hw : WeightsAre w y.length ws) (hi : Independent (obs x y ws)) (z0 : Fin q → 𝕜)
    (hz : ∀ t ∈ obs x y ws, t.w ≠ 0 → t.x = t.y ⬝ᵥ z0) : wlse x y w = .ok z0 := by
  refine (wlse_ok hx hw).2 ⟨hi, ?_⟩
  intro j
  apply List.sum_eq_zero
  intro a ha
  obtain ⟨t, ht, rfl⟩ := List.mem_map.1 ha
  by_cases h0 : t.w = 0
  · simp [h0]
  · simp [← hz t ht h0]

/-! C45 -/

/-- **C45.** The estimate is that of the samples of non-zero weight alone, whatever the others are. -/
theorem C45_zero_weight (x : List 𝕜) (y : List (Fin q → 𝕜)) (w : List ℝ) (hx : x.length = y.length) (hw : w.length = y.length)
    (idx : List ℕ) (hidx : ∀ i ∈ idx, w[i]? = some 0) :
    wlse x y (some (w.map .fin)) = wlse (without x idx) (without y idx) (some ((without w idx).map .fin)) := by
  have hzip : ∀ {α β γ : Type} (f : α → β → γ) (a : List α) (b : List β), a.length = b.length →
      List.zipWith f (without a idx) (without b idx) = without (List.zipWith f a b) idx := by
    intro α β γ f a b hab
    unfold without
    have key : ∀ (n : ℕ), List.zipWith f (((a.zipIdx n).filter (fun p => decide (p.2 ∉ idx))).map Prod.fst)
        (((b.zipIdx n).filter (fun p => decide (p.2 ∉ idx))).map Prod.fst) =
        (((List.zipWith f a b).zipIdx n).filter (fun p => decide (p.2 ∉ idx))).map Prod.fst := by
      induction a generalizing b with
      | nil => intro n; simp
      | cons u a ih =>
        intro n
        cases b with
        | nil => simp at hab
        | cons v b =>
          simp only [List.zipIdx_cons, List.zipWith_cons_cons, List.filter_cons]
          by_cases hn : n ∈ idx
          · simp only [hn, not_true_eq_false, decide_false, Bool.false_eq_true, if_false]
            exact ih b (by simpa using hab) (n + 1)
          · simp only [hn, not_false_eq_true, decide_true, if_true, List.map_cons, List.zipWith_cons_cons]
            rw [ih b (by simpa using hab) (n + 1)]
    exact key 0
  have hlen : ∀ {α β : Type} (a : List α) (b : List β), a.length = b.length →
      (without a idx).length = (without b idx).length := by
    intro α β a b hab
    have := congrArg List.length (hzip (fun (_ : α) (_ : β) => ()) a b hab)
    have h2 := congrArg List.length (hzip (fun (_ : β) (_ : α) => ()) b a hab.symm)
    have hu : ∀ {α : Type} (a : List α), (without a idx).length = (without (a.map (fun _ => ())) idx).length := by
      intro α a; rw [without_map, List.length_map]
    rw [hu a, hu b]
    have e : ∀ {α : Type} (a : List α), a.map (fun _ => ()) = List.replicate a.length () := by
      intro α a; simp
    rw [e, e, hab]
  have hobs : obs (without x idx) (without y idx) (without w idx) = without (obs x y w) idx := by
    unfold obs
    have e : List.zip (without x idx) (without y idx) = without (List.zip x y) idx := hzip Prod.mk x y hx
    rw [e, hzip _ w (x.zip y) (by simp [hx, hw])]
  have hsum : ∀ {M : Type} [AddCommMonoid M] (g : Obs 𝕜 q → M), (∀ t : Obs 𝕜 q, t.w = 0 → g t = 0) →
      ((without (obs x y w) idx).map g).sum = ((obs x y w).map g).sum := by
    intro M _ g hg
    have key : ∀ (l : List (Obs 𝕜 q)) (n : ℕ), (∀ i (t : Obs 𝕜 q), l[i]? = some t → n + i ∈ idx → t.w = 0) →
        ((((l.zipIdx n).filter (fun p => decide (p.2 ∉ idx))).map Prod.fst).map g).sum = (l.map g).sum := by
      intro l
      induction l with
      | nil => intro n _; simp
      | cons t l ih =>
        intro n h
        have h' := ih (n + 1) (fun i s hs hi => h (i + 1) s (by simpa using hs) (by rwa [show n + (i + 1) = n + 1 + i by omega]))
        simp only [List.zipIdx_cons, List.filter_cons]
        by_cases hn : n ∈ idx
        · simp only [hn, not_true_eq_false, decide_false, Bool.false_eq_true, if_false]
          rw [h', List.map_cons, List.sum_cons, hg t (h 0 t rfl (by simpa using hn)), zero_add]
        · simp only [hn, not_false_eq_true, decide_true, if_true, List.map_cons, List.sum_cons]
          rw [h']
    refine key (obs x y w) 0 ?_
    intro i t ht hi
    have hwi := hidx i (by simpa using hi)
    simp only [obs, List.getElem?_zipWith, hwi] at ht
    cases hz : (x.zip y)[i]? with
    | none => simp [hz] at ht
    | some p => simp only [hz, Option.some.injEq] at ht; rw [← ht]
  have hA : WeightsAre (some (w.map .fin)) y.length w := ⟨hw, .inr rfl⟩
  have hB : WeightsAre (some ((without w idx).map .fin)) (without y idx).length (without w idx) :=
    ⟨hlen _ _ hw, .inr rfl⟩
  have hI : Independent (obs (without x idx) (without y idx) (without w idx)) ↔ Independent (obs x y w) := by
    rw [hobs]
    unfold Independent
    simp only [fun (d : Fin q → 𝕜) (j : Fin q) =>
      hsum (fun t => star (t.y j) * (t.w • (t.y ⬝ᵥ d))) (fun t ht => by simp [ht])]
  have hN : ∀ z, NormalEq (obs (without x idx) (without y idx) (without w idx)) z ↔ NormalEq (obs x y w) z := by
    intro z
    rw [hobs]
    unfold NormalEq
    simp only [fun (j : Fin q) =>
      hsum (fun t => star (t.y j) * (t.w • (t.x - t.y ⬝ᵥ z))) (fun t ht => by simp [ht])]
  by_cases hi : Independent (obs x y w)
  · obtain ⟨z, hz⟩ := (C44_singular_raises x y _ w hx hA).2 hi
    rw [hz]
    have := (wlse_ok hx hA).1 hz
    rw [(wlse_ok (hlen _ _ hx) hB).2 ⟨hI.2 this.1, (hN z).2 this.2⟩]
  · rw [(C44_singular_raises x y _ w hx hA).1 hi, (C44_singular_raises _ _ _ _ (hlen _ _ hx) hB).1 (fun h => hi (hI.1 h))]

/-- **C45.** In particular the values of a sample of weight zero do not matter. -/
theorem C45_values_irrelevant (x x' : List 𝕜) (y y' : List (Fin q → 𝕜)) (w : List ℝ) (hx : x.length = y.length)
    (hx' : x'.length = y'.length) (hw : w.length = y.length) (hw' : w.length = y'.length)
    (h : ∀ i : ℕ, w[i]? ≠ some 0 → x[i]? = x'[i]? ∧ y[i]? = y'[i]?) :
    wlse x y (some (w.map .fin)) = wlse x' y' (some (w.map .fin)) := by
  classical
  let idx := (List.range w.length).filter (fun i => decide (w[i]? = some 0))
  have hidx : ∀ i ∈ idx, w[i]? = some 0 := by
    intro i hi; simpa [idx] using (List.mem_filter.1 hi).2
  have hwo : ∀ {β : Type} (a b : List β), a.length = b.length → (∀ i : ℕ, i ∉ idx → a[i]? = b[i]?) →
      without a idx = without b idx := by
    intro β a b hab hn
    unfold without
    have key : ∀ n : ℕ, (∀ i : ℕ, n + i ∉ idx → a[i]? = b[i]?) →
        (((a.zipIdx n).filter (fun p => decide (p.2 ∉ idx))).map Prod.fst) =
        (((b.zipIdx n).filter (fun p => decide (p.2 ∉ idx))).map Prod.fst) := by
      clear hn
      induction a generalizing b with
      | nil => intro n _; have : b = [] := by simpa using hab.symm
               subst this; rfl
      | cons u a ih =>
        cases b with
        | nil => simp at hab
        | cons v b =>
          intro n h
          have h' := ih b (by simpa using hab) (n + 1) (fun i hi => by
            have := h (i + 1) (by rwa [show n + (i + 1) = n + 1 + i by omega])
            simpa using this)
          simp only [List.zipIdx_cons, List.filter_cons]
          by_cases hn : n ∈ idx
          · simp only [hn, not_true_eq_false, decide_false, Bool.false_eq_true, if_false]
            exact h'
          · simp only [hn, not_false_eq_true, decide_true, if_true, List.map_cons, h']
            have := h 0 (by simpa using hn)
            simp at this
            rw [this]
    exact key 0 (by simpa using hn)
  have hout : ∀ i : ℕ, i ∉ idx → w[i]? ≠ some 0 := by
    intro i hi hc
    apply hi
    refine List.mem_filter.2 ⟨List.mem_range.2 (List.getElem?_eq_some_iff.1 hc).1, by simpa using hc⟩
  rw [C45_zero_weight x y w hx hw idx hidx, C45_zero_weight x' y' w hx' hw' idx hidx,
    hwo x x' (by omega) (fun i hi => (h i (hout i hi)).1), hwo y y' (by omega) (fun i hi => (h i (hout i hi)).2)]

/-- Three samples of `2 y` with one input, the second one spoilt but of weight zero. -/
example : wlse (𝕜 := ℝ) (q := 1) [2, 77, 6] [fun _ => 1, fun _ => 5, fun _ => 3] (some [.fin 1, .fin 0, .fin (1/2)]) =
    .ok (fun _ => 2) := by
  have hw : WeightsAre (some [.fin 1, .fin 0, .fin (1/2)]) 3 [1, 0, 1/2] := ⟨rfl, .inr rfl⟩
  refine C44_exact _ _ _ _ rfl hw ?_ _ ?_
  · rw [C44_independent _ (by simp [obs])]
    intro d hd
    have := hd ⟨1, 2, fun _ => 1⟩ (by simp [obs]) (by simp)
    simp [dotProduct] at this
    funext j
    rw [Fin.fin_one_eq_zero j, this]; rfl
  · simp [obs, dotProduct]
    norm_num

end

end Razorback.Props
