/-
The two stages of the impedance estimation with least squares and no prefilter, as products of matrices.
-/
import Mathlib.LinearAlgebra.Matrix.NonsingularInverse
import Mathlib.LinearAlgebra.Matrix.ToLinearEquiv
import Verif.Props.Units
import Verif.Props.RealProb

namespace Razorback
open Razorback.Spec Razorback.MEst Razorback.Prefilter Razorback.Props Razorback.Impedance
open scoped Matrix

variable {σ : Type}

noncomputable section

/-- Channels as the rows of a matrix. -/
def colMat {q : ℕ} (c : Fin q → List ℂ) (N : ℕ) : Matrix (Fin q) (Fin N) ℂ := Matrix.of (fun j n => (c j).getD n 0)

theorem obs_ones {q : ℕ} (y : List ℂ) (c : Fin q → List ℂ) (N : ℕ) (hy : y.length = N) :
    obs y (rowsOf c N) (List.replicate N 1) =
      (List.finRange N).map (fun n => ⟨1, y.getD n 0, fun j => colMat c N j n⟩) := by
  apply List.ext_getElem
  · simp [obs, rowsOf, hy]
  · intro i h1 h2
    simp only [List.length_map, List.length_finRange] at h2
    simp [obs, rowsOf, colMat, List.getElem?_eq_getElem (show i < y.length by omega)]

theorem sum_obs {q : ℕ} (N : ℕ) (y : Fin N → ℂ) (C : Matrix (Fin q) (Fin N) ℂ) (f : Obs ℂ q → ℂ) :
    ((((List.finRange N).map (fun n => (⟨1, y n, fun j => C j n⟩ : Obs ℂ q)))).map f).sum =
      ∑ n, f ⟨1, y n, fun j => C j n⟩ := by
  rw [List.map_map, ← List.ofFn_eq_map, List.sum_ofFn]
  rfl

theorem independent_mat {q : ℕ} (y : List ℂ) (c : Fin q → List ℂ) (N : ℕ) (hy : y.length = N) :
    Independent (obs y (rowsOf c N) (List.replicate N 1)) ↔ (colMat c N * (colMat c N)ᴴ).det ≠ 0 := by
  rw [obs_ones y c N hy, Independent, Ne, ← Matrix.exists_vecMul_eq_zero_iff]
  push Not
  have key : ∀ d : Fin q → ℂ, (∀ j, (((List.finRange N).map (fun n : Fin N => (⟨1, y.getD n 0, fun j => colMat c N j n⟩ : Obs ℂ q))).map
      (fun t => star (t.y j) * (t.w • (t.y ⬝ᵥ d)))).sum = 0) ↔ d ᵥ* (colMat c N * (colMat c N)ᴴ) = 0 := by
    intro d
    rw [funext_iff]
    apply forall_congr'
    intro j
    rw [sum_obs N (fun n => y.getD n 0) (colMat c N)]
    simp only [one_smul, ← Matrix.vecMul_vecMul, Pi.zero_apply]
    rw [show ((d ᵥ* colMat c N) ᵥ* (colMat c N)ᴴ) j = ∑ n, star (colMat c N j n) * ((fun j => colMat c N j n) ⬝ᵥ d) from ?_]
    simp only [Matrix.vecMul, dotProduct, Matrix.conjTranspose_apply]
    apply Finset.sum_congr rfl
    intro n _
    rw [mul_comm]
    congr 1
    apply Finset.sum_congr rfl
    intro k _
    rw [mul_comm]
  constructor
  · intro h v hv hv0
    exact hv (h v ((key v).2 hv0))
  · intro h d hd
    by_contra hne
    exact h d hne ((key d).1 hd)

theorem normalEq_mat {q : ℕ} (y : List ℂ) (c : Fin q → List ℂ) (N : ℕ) (hy : y.length = N) (z : Fin q → ℂ) :
    NormalEq (obs y (rowsOf c N) (List.replicate N 1)) z ↔
      z ᵥ* (colMat c N * (colMat c N)ᴴ) = (fun n : Fin N => y.getD n 0) ᵥ* (colMat c N)ᴴ := by
  rw [obs_ones y c N hy, NormalEq, funext_iff]
  apply forall_congr'
  intro j
  rw [sum_obs N (fun n => y.getD n 0) (colMat c N)]
  simp only [one_smul, ← Matrix.vecMul_vecMul]
  rw [show ((z ᵥ* colMat c N) ᵥ* (colMat c N)ᴴ) j = ∑ n, star (colMat c N j n) * ((fun j => colMat c N j n) ⬝ᵥ z) from ?_,
    show ((fun n : Fin N => y.getD n 0) ᵥ* (colMat c N)ᴴ) j = ∑ n : Fin N, star (colMat c N j n) * y.getD n 0 from ?_]
  · simp only [mul_sub, Finset.sum_sub_distrib, sub_eq_zero]
    exact eq_comm
  · simp only [Matrix.vecMul, dotProduct, Matrix.conjTranspose_apply]
    exact Finset.sum_congr rfl (fun n _ => mul_comm _ _)
  · simp only [Matrix.vecMul, dotProduct, Matrix.conjTranspose_apply]
    apply Finset.sum_congr rfl
    intro n _
    rw [mul_comm]
    congr 1
    exact Finset.sum_congr rfl (fun k _ => mul_comm _ _)

/-- Least squares without weights. -/
theorem wlse_mat {q : ℕ} (y : List ℂ) (c : Fin q → List ℂ) (N : ℕ) (hy : y.length = N) :
    ((colMat c N * (colMat c N)ᴴ).det = 0 → wlse y (rowsOf c N) none = .error .linAlg) ∧
    ((colMat c N * (colMat c N)ᴴ).det ≠ 0 → wlse y (rowsOf c N) none =
      .ok ((fun n : Fin N => y.getD n 0) ᵥ* ((colMat c N)ᴴ * (colMat c N * (colMat c N)ᴴ)⁻¹))) := by
  have hr : (rowsOf c N).length = N := by simp [rowsOf]
  have hx : y.length = (rowsOf c N).length := by rw [hy, hr]
  have hw : WeightsAre none (rowsOf c N).length (List.replicate N 1) := ⟨by simp [hr], .inl ⟨rfl, by rw [hr]⟩⟩
  have hi := independent_mat y c N hy
  constructor
  · intro h
    exact (C44_singular_raises y (rowsOf c N) none _ hx hw).1 (fun hc => hi.1 hc h)
  · intro h
    rw [C44_normal_equations y (rowsOf c N) none _ hx hw]
    refine ⟨hi.2 h, (normalEq_mat y c N hy _).2 ?_⟩
    rw [Matrix.vecMul_vecMul, Matrix.mul_assoc, Matrix.nonsing_inv_mul _ (isUnit_iff_ne_zero.2 h), Matrix.mul_one]

theorem oneOutput_plain {q : ℕ} (o : MEst.Opts) (b : List (Fin q → ℂ)) (line : List ℂ) (hb : line.length = b.length) (heap : ℕ → σ) :
    (line.length = 0 → oneOutput o [none] b line none [] heap = (.error .value, heap)) ∧
    (line.length ≠ 0 → oneOutput o [none] b line none [] heap = match wlse line b none with
      | .error x => (.error x, heap)
      | .ok z => (.ok (some z, []), heap)) := by
  have he : ∀ {β : Type} (l : List β), eliminate l (some []) = .ok l := by
    intro β l
    rw [eliminate_ok.2 ⟨by simp, rfl⟩, without_nil]
  constructor
  · intro h
    unfold oneOutput
    rw [chainLoop, he, he]
    simp [h]
  · intro h
    unfold oneOutput
    rw [chainLoop, he, he]
    simp only [h, if_false]
    have hc : callEstimate line b none (none : Option (ℕ × WFun σ ℂ q)) o heap =
        (match wlse line b none with
        | .error x => .error x
        | .ok z => .ok (z, []), heap) := by
      unfold callEstimate
      simp only
      rw [C46_least_squares _ _ hb _ [] (by simp), without_nil, without_nil]
      cases wlse line b none <;> rfl
    rw [hc]
    cases wlse line b none with
    | error x => rfl
    | ok z =>
      obtain ⟨m, hm, hs, hmem, -⟩ := C43_merge [[], []] line.length (by
        exact ⟨by simp, by simp, trivial⟩)
      have : m = [] := by
        apply List.eq_nil_iff_forall_not_mem.2
        intro i hi
        rw [hmem i] at hi
        simp only [withoutAll, without_nil, List.mem_range, not_lt] at hi
        omega
      subst this
      simp only [chainLoop, List.map_cons, List.map_nil, hm, List.getLast?_singleton]

theorem outputsLoop_plain {q : ℕ} (o : MEst.Opts) (c : Fin q → List ℂ) (N : ℕ) (hN : N ≠ 0) (heap : ℕ → σ) (outputs : List (List ℂ))
    (ho : ∀ y ∈ outputs, y.length = N) (h : (colMat c N * (colMat c N)ᴴ).det ≠ 0) :
    outputsLoop o [none] (rowsOf c N) (outputs.map (fun y => (y, none, []))) heap =
      (.ok (outputs.map (fun y => (some ((fun n : Fin N => y.getD n 0) ᵥ* ((colMat c N)ᴴ * (colMat c N * (colMat c N)ᴴ)⁻¹)), []))),
        heap) := by
  induction outputs with
  | nil => rfl
  | cons y l ih =>
    have hy := ho y (by simp)
    rw [List.map_cons, outputsLoop, (oneOutput_plain o _ y (by rw [hy]; simp [rowsOf]) heap).2 (by rw [hy]; exact hN),
      (wlse_mat y c N hy).2 h]
    simp only [ih (fun y h => ho y (by simp [h])), List.map_cons]

/-- Least squares of every output, without rejections. -/
theorem estimateQ_mat {q : ℕ} (hq : q ≠ 0) (o : MEst.Opts) (outputs : List (List ℂ)) (hne : outputs ≠ []) (c : Fin q → List ℂ) (N : ℕ)
    (ho : ∀ y ∈ outputs, y.length = N) (hc : ∀ j, (c j).length = N) (heap : ℕ → σ) :
    ((colMat c N * (colMat c N)ᴴ).det = 0 → ∃ x,
      estimateQ false ([none] : Impedance.Weights σ) o outputs q c (List.replicate outputs.length []) heap = (.error x, heap)) ∧
    ((colMat c N * (colMat c N)ᴴ).det ≠ 0 →
      estimateQ false ([none] : Impedance.Weights σ) o outputs q c (List.replicate outputs.length []) heap =
        (.ok (outputs.map (fun y => (fun n : Fin N => y.getD n 0) ᵥ* ((colMat c N)ᴴ * (colMat c N * (colMat c N)ᴴ)⁻¹)),
          List.replicate outputs.length []), heap)) := by
  have hnorm : (InvArg.each (List.replicate outputs.length [])).norm outputs.length = .ok (List.replicate outputs.length []) := by
    obtain ⟨y, l, rfl⟩ := List.exists_cons_of_ne_nil hne
    rfl
  have hz : (outputs.zip (List.replicate outputs.length ([] : List ℕ))).map
      (fun p => (p.1, (none : Option (Fin q → ℂ)), p.2)) = outputs.map (fun y => (y, none, [])) := by
    apply List.ext_getElem
    · simp
    · intro i h1 h2
      simp
  have htf : transferFunction outputs c (Weights.at ([none] : Impedance.Weights σ) q) none
      (.each (List.replicate outputs.length [])) o heap =
      outputsLoop o [none] (rowsOf c N) (outputs.map (fun y => (y, none, []))) heap := by
    have : Weights.at ([none] : Impedance.Weights σ) q = [none] := rfl
    rw [this, transferFunction_plain outputs c N hq hne ho hc _ _ hnorm, if_neg (by simp), hz]
  constructor
  · intro h
    obtain ⟨y, l, rfl⟩ := List.exists_cons_of_ne_nil hne
    have hy := ho y (by simp)
    have h1 : ∃ x, outputsLoop o [none] (rowsOf c N) ((y :: l).map (fun y => (y, none, []))) heap = (.error x, heap) := by
      rw [List.map_cons, outputsLoop]
      by_cases hN : N = 0
      · rw [(oneOutput_plain o _ y (by rw [hy]; simp [rowsOf]) heap).1 (by rw [hy]; exact hN)]
        exact ⟨_, rfl⟩
      · rw [(oneOutput_plain o _ y (by rw [hy]; simp [rowsOf]) heap).2 (by rw [hy]; exact hN), (wlse_mat y c N hy).1 h]
        exact ⟨_, rfl⟩
    obtain ⟨x, hx⟩ := h1
    refine ⟨x, ?_⟩
    unfold estimateQ
    simp only [Bool.false_eq_true, if_false]
    rw [htf, hx]
  · intro h
    have hN : N ≠ 0 := by
      rintro rfl
      have hz : colMat c 0 * (colMat c 0)ᴴ = 0 := by
        ext i j
        simp [Matrix.mul_apply]
      rw [hz] at h
      have : Nonempty (Fin q) := ⟨⟨0, Nat.pos_of_ne_zero hq⟩⟩
      exact h Matrix.det_zero
    unfold estimateQ
    simp only [Bool.false_eq_true, if_false]
    rw [htf, outputsLoop_plain o c N hN heap outputs ho h]
    simp only
    rw [(mapM_some_iff (r := outputs.map (fun y => (fun n : Fin N => y.getD n 0) ᵥ* ((colMat c N)ᴴ * (colMat c N * (colMat c N)ᴴ)⁻¹)))).2]
    · simp only [List.map_map]
      congr 3
      apply List.ext_getElem
      · simp
      · intro i h1 h2
        simp
    · rw [List.forall₂_map_left_iff, List.forall₂_map_right_iff]
      exact List.forall₂_same.2 (fun _ _ => rfl)

/-- A matrix of numbers as in a result. -/
theorem asRows_eq {m q N : ℕ} (e : List (List ℂ)) (hm : e.length = m) (Em : Matrix (Fin m) (Fin N) ℂ)
    (hE : ∀ i : Fin m, ∀ n : Fin N, Em i n = (e.getD i []).getD n 0) (A : Matrix (Fin N) (Fin q) ℂ) :
    (e.map (fun y => (fun n : Fin N => y.getD n 0) ᵥ* A)).map (fun r => (List.ofFn r).map some) = asRows (Em * A) := by
  subst hm
  apply List.ext_getElem
  · simp [asRows]
  · intro i h1 h2
    simp only [List.length_map] at h1
    simp only [asRows, List.getElem_map, List.getElem_ofFn, List.map_ofFn]
    congr 1
    funext j
    simp only [Function.comp, Matrix.mul_apply, Matrix.vecMul, dotProduct, hE]
    congr 1
    apply Finset.sum_congr rfl
    intro n _
    rw [getD_get h1]

theorem applyPrefilter_none {q : ℕ} {outputs : List (List ℂ)} {b : List (Fin q → ℂ)} (inv : InvArg) (given : List (List ℕ))
    (h : inv.norm outputs.length = .ok given) (hl : given.length = outputs.length) :
    applyPrefilter outputs b (none : Option (List ℂ → List (Fin q → ℂ) → Except Err (List ℕ))) inv = .ok given := by
  simp [applyPrefilter, h, hl]

theorem secondStage_mat {o : Impedance.Opts σ} (hw : o.weights = [none]) (hp : o.prefilter = none) (hrp : o.realPb = false)
    (wins : List ((ℚ × ℚ) × ℕ × ℕ × ℕ)) {e be : List (List ℂ)} (he : e ≠ []) (hb : be ≠ []) {N : ℕ}
    (heN : ∀ y ∈ e, y.length = N) (hbN : ∀ y ∈ be, y.length = N) {ivid1 : InvArg}
    (hiv : ivid1.norm e.length = .ok (List.replicate e.length [])) (T : List (List (Option ℂ))) (failed : Result) (heap : ℕ → σ)
    {m q : ℕ} (hm : e.length = m) (hq : be.length = q) (Em : Matrix (Fin m) (Fin N) ℂ) (H : Matrix (Fin q) (Fin N) ℂ)
    (hE : ∀ i : Fin m, ∀ n : Fin N, Em i n = (e.getD i []).getD n 0) (hH : ∀ j : Fin q, ∀ n : Fin N, H j n = (be.getD j []).getD n 0) :
    ((H * Hᴴ).det = 0 → (o.silentFail = true ∧ secondStage o wins e be ivid1 T failed heap = (.ok failed, heap)) ∨
      (o.silentFail = false ∧ ∃ x, secondStage o wins e be ivid1 T failed heap = (.error x, heap))) ∧
    ((H * Hᴴ).det ≠ 0 → ∃ r, secondStage o wins e be ivid1 T failed heap = (.ok r, heap) ∧
      r.impedance = asRows (Em * (Hᴴ * (H * Hᴴ)⁻¹)) ∧ r.transferMag = T) := by
  subst hq
  have hq0 : be.length ≠ 0 := by simpa using hb
  have hcol : colMat (cols be) N = H := by
    ext j n
    rw [hH]
    simp only [colMat, cols, Matrix.of_apply, getD_get j.2]
    rfl
  obtain ⟨h1, h2⟩ := estimateQ_mat (σ := σ) hq0 o.mest e he (cols be) N heN (fun j => hbN _ (List.getElem_mem _)) heap
  rw [hcol] at h1 h2
  have hpre : applyPrefilter e (rows be) (o.prefilter.map (fun p => p be.length)) ivid1 = .ok (List.replicate e.length []) := by
    rw [hp]
    exact applyPrefilter_none _ _ hiv (by simp)
  rcases secondStage_cases (wins := wins) (T := T) (failed := failed) (heap := heap) hpre with
    ⟨x, heap', h4, h5⟩ | ⟨z, iv', N', err, heap', h4, -, -, -, h5⟩
  · rw [hw, hrp, estimate_eqQ] at h4
    constructor
    · intro h
      obtain ⟨x', hx'⟩ := h1 h
      rw [hx'] at h4
      simp only [Prod.mk.injEq] at h4
      obtain ⟨-, rfl⟩ := h4
      cases hs : o.silentFail with
      | true => exact .inl ⟨rfl, by rw [h5, hs]; rfl⟩
      | false => exact .inr ⟨rfl, x, by rw [h5, hs]; rfl⟩
    · intro h
      rw [h2 h] at h4
      simp at h4
  · rw [hw, hrp, estimate_eqQ] at h4
    constructor
    · intro h
      obtain ⟨x', hx'⟩ := h1 h
      rw [hx'] at h4
      simp at h4
    · intro h
      rw [h2 h] at h4
      simp only [Prod.mk.injEq, Except.ok.injEq] at h4
      obtain ⟨⟨rfl, -⟩, rfl⟩ := h4
      exact ⟨_, h5, asRows_eq e hm Em hE _, rfl⟩

/-- The two stages: the transfer of the first one is `Bm Cᴴ (C Cᴴ)⁻¹`, the predicted field is that times `C`. -/
theorem remoteStages_mat {o : Impedance.Opts σ} (hw : o.weights = [none]) (hrw : firstWeights o = [none]) (hp : o.prefilter = none)
    (hrpre : firstPrefilter o = none) (hrp : o.realPb = false)
    (wins : List ((ℚ × ℚ) × ℕ × ℕ × ℕ)) {e b : List (List ℂ)} (he : e ≠ []) (hb : b ≠ []) {N : ℕ}
    (heN : ∀ y ∈ e, y.length = N) (hbN : ∀ y ∈ b, y.length = N) {r : ℕ} (hr : r ≠ 0) (c : Fin r → List ℂ) (hc : ∀ j, (c j).length = N)
    (failed : Result) (heap : ℕ → σ)
    {m q : ℕ} (hm : e.length = m) (hq : b.length = q) (Em : Matrix (Fin m) (Fin N) ℂ) (Bm : Matrix (Fin q) (Fin N) ℂ)
    (C : Matrix (Fin r) (Fin N) ℂ)
    (hE : ∀ i : Fin m, ∀ n : Fin N, Em i n = (e.getD i []).getD n 0) (hB : ∀ j : Fin q, ∀ n : Fin N, Bm j n = (b.getD j []).getD n 0)
    (hC : ∀ j : Fin r, ∀ n : Fin N, C j n = (c j).getD n 0)
    (T : Matrix (Fin q) (Fin r) ℂ) (hT : T = Bm * (Cᴴ * (C * Cᴴ)⁻¹)) :
    ((C * Cᴴ).det = 0 ∨ ((T * C) * (T * C)ᴴ).det = 0 →
      (o.silentFail = true ∧ remoteStages o wins e b r c N failed heap = (.ok failed, heap)) ∨
      (o.silentFail = false ∧ ∃ x, remoteStages o wins e b r c N failed heap = (.error x, heap))) ∧
    ((C * Cᴴ).det ≠ 0 → ((T * C) * (T * C)ᴴ).det ≠ 0 → ∃ res, remoteStages o wins e b r c N failed heap = (.ok res, heap) ∧
      res.impedance = asRows (Em * ((T * C)ᴴ * ((T * C) * (T * C)ᴴ)⁻¹)) ∧ res.transferMag = asRows T) := by
  have hcol : colMat c N = C := by
    ext j n
    rw [hC]
    rfl
  obtain ⟨h1, h2⟩ := estimateQ_mat (σ := σ) hr o.mest b hb c N hbN hc heap
  rw [hcol] at h1 h2
  have hpre : applyPrefilter b (rowsOf c N) ((firstPrefilter o).map (fun p => p r)) .none = .ok (List.replicate b.length []) := by
    rw [hrpre]
    refine applyPrefilter_none _ _ ?_ (by simp)
    have : b.length ≠ 0 := by simpa using hb
    simp [InvArg.norm, this]
  by_cases hd : (C * Cᴴ).det = 0
  · refine ⟨fun _ => ?_, fun h => absurd hd h⟩
    obtain ⟨x, hx⟩ := h1 hd
    unfold remoteStages firstStageQ
    rw [hpre, hrw, hrp]
    simp only [hx]
    cases hs : o.silentFail with
    | true => exact .inl ⟨rfl, rfl⟩
    | false => exact .inr ⟨rfl, x, rfl⟩
  · have h2 := h2 hd
    set be := (b.map (fun y => (fun n : Fin N => y.getD n 0) ᵥ* (Cᴴ * (C * Cᴴ)⁻¹))).map
      (fun t => (List.range N).map (fun n : ℕ => ∑ j, t j * (c j).getD n 0)) with hbe
    have hun : (List.replicate b.length ([] : List ℕ)).foldl union1d [] = [] := by
      apply List.eq_nil_iff_forall_not_mem.2
      intro i hi
      rw [mem_foldl_union1d] at hi
      simp at hi
    have hst : remoteStages o wins e b r c N failed heap =
        secondStage o wins e be (.each (List.replicate e.length [])) (asRows T) failed heap := by
      unfold remoteStages firstStageQ
      rw [hpre, hrw, hrp]
      simp only [h2]
      rw [hun, asRows_eq b hq Bm hB, ← hT]
    have hbeN : ∀ y ∈ be, y.length = N := by
      intro y hy
      obtain ⟨t, -, rfl⟩ := List.mem_map.1 hy
      simp
    obtain ⟨s1, s2⟩ := secondStage_mat (o := o) hw hp hrp wins he (be := be) (by simpa [hbe] using hb) heN hbeN
      (ivid1 := .each (List.replicate e.length [])) (by
        obtain ⟨y, l, rfl⟩ := List.exists_cons_of_ne_nil he
        rfl) (asRows T) failed heap hm (q := q) (by simp [hbe, hq]) Em (T * C) hE (by
        intro j n
        have hj : (j : ℕ) < be.length := by
          have := j.2
          simp [hbe, hq]
        rw [getD_get hj]
        have hjb : (j : ℕ) < b.length := by rw [hq]; exact j.2
        simp only [hbe, List.getElem_map, Matrix.mul_apply, hC]
        rw [List.getD_eq_getElem?_getD, List.getElem?_map, List.getElem?_range n.2]
        simp only [Option.map_some, Option.getD_some]
        apply Finset.sum_congr rfl
        intro k _
        congr 1
        rw [hT]
        simp only [Matrix.mul_apply, Matrix.vecMul, dotProduct, hB, getD_get hjb])
    rw [hst]
    refine ⟨?_, fun _ h => s2 h⟩
    rintro (h | h)
    · exact absurd h hd
    · exact s1 h

end

end Razorback
