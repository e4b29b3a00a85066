/-
C66: the real formulation of the estimation problem.
-/
import Verif.Model.RealProb
import Verif.Props.Transfer
import Mathlib.Logic.Equiv.Fin.Basic

namespace Razorback.Props
open Razorback Razorback.Spec Razorback.MEst Razorback.RealProb
open scoped Matrix

variable {q : ℕ} {σ : Type}

/-- The two real equations for position `i`. -/
def twice (v : List ℕ) : List ℕ := v.flatMap (fun i => [2 * i, 2 * i + 1])

/-- Real and imaginary parts in turn. -/
def realVec (z : Fin q → ℂ) (j : Fin (q * 2)) : ℝ := if j.1 % 2 = 0 then (z (half j)).re else (z (half j)).im

/-- The two real equations for one row. -/
def rowRe (r : Fin q → ℂ) (j : Fin (q * 2)) : ℝ := if j.1 % 2 = 0 then (r (half j)).re else -(r (half j)).im
def rowIm (r : Fin q → ℂ) (j : Fin (q * 2)) : ℝ := if j.1 % 2 = 0 then (r (half j)).im else (r (half j)).re

theorem half_even (k : Fin q) (h : 2 * k.1 < q * 2) : half (⟨2 * k.1, h⟩ : Fin (q * 2)) = k := by
  apply Fin.ext
  simp [half]

theorem half_odd (k : Fin q) (h : 2 * k.1 + 1 < q * 2) : half (⟨2 * k.1 + 1, h⟩ : Fin (q * 2)) = k := by
  apply Fin.ext
  simp only [half]
  omega

theorem complexRow_realVec (z : Fin q → ℂ) : complexRow (realVec z) = z := by
  funext k
  apply Complex.ext
  · simp [complexRow, realVec, half_even]
  · simp only [complexRow, realVec, half_odd]
    rw [if_neg (by omega)]

theorem realVec_complexRow (d : Fin (q * 2) → ℝ) : realVec (complexRow d) = d := by
  funext j
  unfold realVec complexRow half
  split
  · simp only
    congr 1
    apply Fin.ext
    simp only
    omega
  · simp only
    congr 1
    apply Fin.ext
    simp only
    omega

theorem sum_pairs (f : Fin (q * 2) → ℝ) : ∑ j, f j =
    ∑ k : Fin q, (f ⟨2 * k.1, by have := k.2; omega⟩ + f ⟨2 * k.1 + 1, by have := k.2; omega⟩) := by
  rw [← Equiv.sum_comp finProdFinEquiv, Fintype.sum_prod_type]
  apply Finset.sum_congr rfl
  intro k _
  rw [Fin.sum_univ_two]
  congr 2
  · apply Fin.ext; simp [finProdFinEquiv]
  · apply Fin.ext; simp [finProdFinEquiv]; omega

theorem rowRe_dot (r z : Fin q → ℂ) : rowRe r ⬝ᵥ realVec z = (r ⬝ᵥ z).re := by
  simp only [dotProduct]
  rw [sum_pairs, Complex.re_sum]
  apply Finset.sum_congr rfl
  intro k _
  simp only [rowRe, realVec, half_even, half_odd, Complex.mul_re]
  rw [if_pos (by omega), if_pos (by omega), if_neg (by omega), if_neg (by omega)]
  ring

theorem rowIm_dot (r z : Fin q → ℂ) : rowIm r ⬝ᵥ realVec z = (r ⬝ᵥ z).im := by
  simp only [dotProduct]
  rw [sum_pairs, Complex.im_sum]
  apply Finset.sum_congr rfl
  intro k _
  simp only [rowIm, realVec, half_even, half_odd, Complex.mul_im]
  rw [if_pos (by omega), if_pos (by omega), if_neg (by omega), if_neg (by omega)]
  ring

/-- The real observations. -/
theorem obs_real (x : List ℂ) (y : List (Fin q → ℂ)) :
    obs (interleave Complex.re Complex.im x) (interleave rowRe rowIm y) (List.replicate (interleave rowRe rowIm y).length 1) =
      (obs x y (List.replicate y.length 1)).flatMap (fun t => [⟨1, t.x.re, rowRe t.y⟩, ⟨1, t.x.im, rowIm t.y⟩]) := by
  induction x generalizing y with
  | nil => simp [obs, interleave]
  | cons a x ih =>
    cases y with
    | nil => simp [obs, interleave]
    | cons r y =>
      have := ih y
      simp only [obs, interleave, List.flatMap_cons, List.length_cons, List.cons_append, List.nil_append,
        List.replicate_succ, List.zip_cons_cons, List.zipWith_cons_cons] at this ⊢
      rw [this]

/-- Sums over pairs of equations are real and imaginary parts of the complex sums. -/
theorem sums_real (l : List (Obs ℂ q)) (f : Obs ℂ q → ℂ) (hw : ∀ t ∈ l, t.w = 1) :
    (∀ j : Fin (q * 2), (l.map (fun t => rowRe t.y j * (f t).re + rowIm t.y j * (f t).im)).sum = 0) ↔
      ∀ k, (l.map (fun t => star (t.y k) * (t.w • f t))).sum = 0 := by
  have hre : ∀ k : Fin q, (l.map (fun t => star (t.y k) * (t.w • f t))).sum =
      ⟨(l.map (fun t => rowRe t.y ⟨2 * k.1, by have := k.2; omega⟩ * (f t).re +
          rowIm t.y ⟨2 * k.1, by have := k.2; omega⟩ * (f t).im)).sum,
        (l.map (fun t => rowRe t.y ⟨2 * k.1 + 1, by have := k.2; omega⟩ * (f t).re +
          rowIm t.y ⟨2 * k.1 + 1, by have := k.2; omega⟩ * (f t).im)).sum⟩ := by
    intro k
    induction l with
    | nil => rfl
    | cons t l ih =>
      rw [List.map_cons, List.sum_cons, ih (fun t ht => hw t (by simp [ht])), hw t (by simp)]
      apply Complex.ext
      · simp only [List.map_cons, List.sum_cons, rowRe, rowIm, half_even, Complex.add_re]
        rw [if_pos (by omega), if_pos (by omega)]
        simp
      · simp only [List.map_cons, List.sum_cons, rowRe, rowIm, half_odd, Complex.add_im]
        rw [if_neg (by omega), if_neg (by omega)]
        simp
        ring
  constructor
  · intro h k
    rw [hre, h, h]
    rfl
  · intro h j
    have hk := h (half j)
    rw [hre] at hk
    rcases Nat.mod_two_eq_zero_or_one j.1 with hj | hj
    · have : j = ⟨2 * (half j).1, by have := (half j).2; omega⟩ := by
        apply Fin.ext
        simp only [half]
        omega
      rw [this]
      exact congrArg Complex.re hk
    · have : j = ⟨2 * (half j).1 + 1, by have := (half j).2; omega⟩ := by
        apply Fin.ext
        simp only [half]
        omega
      rw [this]
      exact congrArg Complex.im hk

theorem sum_flatMap_two {α : Type _} (l : List α) (f g : α → ℝ) : (l.flatMap (fun a => [f a, g a])).sum =
    (l.map (fun a => f a + g a)).sum := by
  induction l with
  | nil => rfl
  | cons a l ih =>
    simp only [List.flatMap_cons, List.cons_append, List.nil_append, List.sum_cons, List.map_cons, ih]
    ring

/-- Least squares on the real equations is least squares on the complex ones. -/
theorem wlse_real (x : List ℂ) (y : List (Fin q → ℂ)) (hx : x.length = y.length) :
    wlse (interleave Complex.re Complex.im x) (interleave rowRe rowIm y) none =
      match wlse x y none with
      | .error e => .error e
      | .ok z => .ok (realVec z) := by
  have hx' : (interleave Complex.re Complex.im x).length = (interleave (rowRe (q := q)) rowIm y).length := by
    simp [interleave, List.length_flatMap, hx]
  have hw : WeightsAre none y.length (List.replicate y.length 1) := ⟨by simp, .inl ⟨rfl, rfl⟩⟩
  have hw' : WeightsAre none (interleave (rowRe (q := q)) rowIm y).length
      (List.replicate (interleave (rowRe (q := q)) rowIm y).length 1) := ⟨by simp, .inl ⟨rfl, rfl⟩⟩
  set l := obs x y (List.replicate y.length 1) with hl
  have hone : ∀ t ∈ l, t.w = 1 := by
    intro t ht
    rw [hl] at ht
    unfold obs at ht
    obtain ⟨i, hi, rfl⟩ := List.getElem_of_mem ht
    simp
  have hN : ∀ z : Fin q → ℂ, NormalEq (obs (interleave Complex.re Complex.im x) (interleave rowRe rowIm y)
      (List.replicate (interleave rowRe rowIm y).length 1)) (realVec z) ↔ NormalEq l z := by
    intro z
    unfold NormalEq
    rw [← sums_real l (fun t => t.x - t.y ⬝ᵥ z) hone, obs_real]
    simp only [List.map_flatMap, List.map_cons, List.map_nil, rowRe_dot, rowIm_dot, one_smul, star_trivial]
    simp only [sum_flatMap_two, Complex.sub_re, Complex.sub_im]
    rfl
  have hI : Independent (obs (interleave Complex.re Complex.im x) (interleave rowRe rowIm y)
      (List.replicate (interleave rowRe rowIm y).length 1)) ↔ Independent l := by
    unfold Independent
    have key : ∀ z : Fin q → ℂ, (∀ j : Fin (q * 2), ((obs (interleave Complex.re Complex.im x) (interleave rowRe rowIm y)
      (List.replicate (interleave rowRe rowIm y).length 1)).map (fun t => star (t.y j) * (t.w • (t.y ⬝ᵥ realVec z)))).sum = 0) ↔
        ∀ k, (l.map (fun t => star (t.y k) * (t.w • (t.y ⬝ᵥ z)))).sum = 0 := by
      intro z
      rw [← sums_real l (fun t => t.y ⬝ᵥ z) hone, obs_real]
      simp only [List.map_flatMap, List.map_cons, List.map_nil, rowRe_dot, rowIm_dot, one_smul, star_trivial]
      simp only [sum_flatMap_two]
      rfl
    constructor
    · intro h d hd
      have := h (realVec d) ((key d).2 hd)
      rw [← complexRow_realVec d, this]
      funext k
      rfl
    · intro h d hd
      have h1 : realVec (complexRow d) = d := realVec_complexRow d
      rw [← h1] at hd ⊢
      rw [h _ ((key _).1 hd)]
      funext j
      simp [realVec]
  cases h : wlse x y none with
  | ok z =>
    obtain ⟨h1, h2⟩ := (wlse_ok hx hw).1 h
    simp only
    exact (wlse_ok hx' hw').2 ⟨hI.2 h1, (hN z).2 h2⟩
  | error e =>
    have hni : ¬ Independent l := by
      intro hi
      obtain ⟨z, hz⟩ := (C44_singular_raises x y none _ hx hw).2 hi
      rw [h] at hz
      simp at hz
    have h1 := (C44_singular_raises x y none _ hx hw).1 hni
    rw [h] at h1
    simp only
    rw [(C44_singular_raises _ _ none _ hx' hw').1 (fun hi => hni (hI.1 hi))]
    rw [Except.error.inj h1]


section
variable {α β : Type}

theorem interleave_length (f g : α → β) (l : List α) : (interleave f g l).length = 2 * l.length := by
  induction l with
  | nil => rfl
  | cons a l ih =>
    simp only [interleave, List.flatMap_cons, List.cons_append, List.nil_append, List.length_cons] at ih ⊢
    omega

theorem interleave_even (f g : α → β) (l : List α) (i : ℕ) : (interleave f g l)[2 * i]? = l[i]?.map f := by
  induction l generalizing i with
  | nil => simp [interleave]
  | cons a l ih =>
    cases i with
    | zero => simp [interleave]
    | succ i =>
      have := ih i
      simp only [interleave, List.flatMap_cons, List.cons_append, List.nil_append] at this ⊢
      rw [show 2 * (i + 1) = 2 * i + 1 + 1 by ring]
      simpa using this

theorem interleave_odd (f g : α → β) (l : List α) (i : ℕ) : (interleave f g l)[2 * i + 1]? = l[i]?.map g := by
  induction l generalizing i with
  | nil => simp [interleave]
  | cons a l ih =>
    cases i with
    | zero => simp [interleave]
    | succ i =>
      have := ih i
      simp only [interleave, List.flatMap_cons, List.cons_append, List.nil_append] at this ⊢
      rw [show 2 * (i + 1) + 1 = 2 * i + 1 + 1 + 1 by ring]
      simpa using this

theorem mem_twice {v : List ℕ} {n : ℕ} : n ∈ twice v ↔ n / 2 ∈ v := by
  simp only [twice, List.mem_flatMap, List.mem_cons, List.not_mem_nil, or_false]
  constructor
  · rintro ⟨i, hi, h | h⟩
    · rw [h]; simpa using hi
    · have : n / 2 = i := by omega
      rwa [this]
  · intro h
    exact ⟨n / 2, h, by omega⟩

/-- Removing pairs of real equations. -/
theorem without_interleave (f g : α → β) (l : List α) (v : List ℕ) :
    without (interleave f g l) (twice v) = interleave f g (without l v) := by
  have key : ∀ (l : List α) (k : ℕ),
      (((interleave f g l).zipIdx (2 * k)).filter (fun p => p.2 ∉ twice v)).map Prod.fst =
        interleave f g (((l.zipIdx k).filter (fun p => p.2 ∉ v)).map Prod.fst) := by
    intro l
    induction l with
    | nil => intro k; rfl
    | cons a l ih =>
      intro k
      have := ih (k + 1)
      have e1 : (2 * k) / 2 = k := by omega
      have e2 : (2 * k + 1) / 2 = k := by omega
      simp only [interleave, List.flatMap_cons, List.cons_append, List.nil_append, List.zipIdx_cons] at this ⊢
      rw [show 2 * (k + 1) = 2 * k + 1 + 1 by ring] at this
      by_cases hk : k ∈ v
      · rw [List.filter_cons_of_neg (by simp [mem_twice, e1, hk]), List.filter_cons_of_neg (by simp [mem_twice, e2, hk]),
          List.filter_cons_of_neg (by simp [hk])]
        exact this
      · rw [List.filter_cons_of_pos (by simp [mem_twice, e1, hk]), List.filter_cons_of_pos (by simp [mem_twice, e2, hk]),
          List.filter_cons_of_pos (by simp [hk])]
        simp only [List.map_cons, List.flatMap_cons, List.cons_append, List.nil_append]
        rw [this]
  exact key l 0

end

theorem sorted_twice {m : List ℕ} (h : m.Pairwise (· < ·)) : (twice m).Pairwise (· < ·) := by
  induction m with
  | nil => exact List.Pairwise.nil
  | cons a m ih =>
    obtain ⟨h1, h2⟩ := List.pairwise_cons.1 h
    simp only [twice, List.flatMap_cons, List.cons_append, List.nil_append]
    have hlt : ∀ n ∈ twice m, 2 * a + 1 < n := by
      intro n hn
      have := h1 _ (mem_twice.1 hn)
      omega
    refine List.pairwise_cons.2 ⟨?_, List.pairwise_cons.2 ⟨fun n hn => hlt n hn, ih h2⟩⟩
    intro n hn
    rcases List.mem_cons.1 hn with rfl | hn
    · omega
    · have := hlt n hn
      omega

theorem sorted_ext {a b : List ℕ} (ha : a.Pairwise (· < ·)) (hb : b.Pairwise (· < ·)) (h : ∀ i, i ∈ a ↔ i ∈ b) : a = b := by
  apply List.Perm.eq_of_pairwise (le := (· < ·)) (fun x y _ _ h1 h2 => by omega) ha hb
  exact (List.perm_ext_iff_of_nodup (ha.imp (fun h => ne_of_lt h)) (hb.imp (fun h => ne_of_lt h))).2 h

/-- The indices reported when nothing more is rejected. -/
theorem merge_plain (v : List ℕ) : ∃ m, mergeInvalid [v, []] = .ok m ∧ m.Pairwise (· < ·) ∧ ∀ i, i ∈ m ↔ i ∈ v := by
  have hlt : ∀ i ∈ v, i < maxOr0 v + 1 := by
    intro i hi
    have := le_maxOr0 hi
    omega
  obtain ⟨m, hm, hs, hmem, -⟩ := C43_merge [v, []] (maxOr0 v + 1) ⟨by simpa using hlt, by simp, trivial⟩
  refine ⟨m, hm, hs, ?_⟩
  intro i
  rw [hmem i]
  simp only [withoutAll, without_nil, without_range, List.mem_filter, List.mem_range, decide_eq_true_eq, not_and, not_not]
  exact ⟨fun h => h.2 h.1, fun h => ⟨hlt i h, fun _ => h⟩⟩

theorem merge_twice (v : List ℕ) {m : List ℕ} (h : mergeInvalid [v, []] = .ok m) :
    mergeInvalid [twice v, []] = .ok (twice m) := by
  obtain ⟨m1, h1, s1, e1⟩ := merge_plain v
  obtain ⟨m2, h2, s2, e2⟩ := merge_plain (twice v)
  rw [h] at h1
  injection h1 with h1
  subst h1
  rw [h2, sorted_ext s2 (sorted_twice s1) (fun i => by rw [e2, mem_twice, mem_twice, e1])]

/-- The real result for a complex result. -/
def realRes : Except Err (Option (Fin q → ℂ) × List ℕ) → Except Err (Option (Fin (q * 2) → ℝ) × List ℕ)
  | .error x => .error x
  | .ok (z, m) => .ok (z.map realVec, twice m)

theorem callEstimate_plain {𝕜 : Type} [RCLike 𝕜] {q : ℕ} (e : List 𝕜) (b : List (Fin q → 𝕜)) (hl : e.length = b.length)
    (z0 : Option (Fin q → 𝕜)) (o : Opts) (heap : ℕ → σ) :
    callEstimate e b z0 (none : Option (ℕ × WFun σ 𝕜 q)) o heap = (match wlse e b none with
      | .error x => .error x
      | .ok z => .ok (z, []), heap) := by
  unfold callEstimate
  simp only
  rw [C46_least_squares _ _ hl _ [] (by simp), without_nil, without_nil]
  cases wlse e b none <;> rfl

theorem oneOutput_real (o : Opts) (b : List (Fin q → ℂ)) (line : List ℂ) (hb : line.length = b.length) (inv : List ℕ)
    (heap : ℕ → σ) :
    oneOutput o [none] (interleave rowRe rowIm b) (interleave Complex.re Complex.im line) none (twice inv) heap =
      (realRes (oneOutput o [none] b line none inv heap).1, heap) := by
  unfold oneOutput
  rw [chainLoop, chainLoop]
  by_cases hv : ∀ i ∈ inv, i < line.length
  · have hv2 : ∀ i ∈ twice inv, i < 2 * line.length := by
      intro i hi
      have := hv _ (mem_twice.1 hi)
      omega
    have hl := length_without inv hb
    rw [(C43_eliminate line inv).1 hv, (C43_eliminate b inv).1 (by rw [← hb]; exact hv),
      (C43_eliminate (interleave Complex.re Complex.im line) (twice inv)).1 (by rw [interleave_length]; exact hv2),
      (C43_eliminate (interleave rowRe rowIm b) (twice inv)).1 (by rw [interleave_length, ← hb]; exact hv2)]
    simp only [without_interleave, interleave_length]
    by_cases h0 : (without line inv).length = 0
    · simp only [h0, if_true, Nat.mul_zero]
      rfl
    · rw [if_neg h0, if_neg (by omega), callEstimate_plain _ _ hl,
        callEstimate_plain _ _ (by rw [interleave_length, interleave_length, hl]), wlse_real _ _ hl]
      cases wlse (without line inv) (without b inv) none with
      | error x => rfl
      | ok z =>
        obtain ⟨m, hm, -⟩ := merge_plain inv
        simp only [chainLoop, List.map_cons, List.map_nil, hm, merge_twice inv hm, List.getLast?_singleton, realRes,
          Option.map_some]
  · push Not at hv
    obtain ⟨i, hi, hlt⟩ := hv
    rw [(C43_eliminate _ _).2 ⟨i, hi, hlt⟩, (C43_eliminate _ _).2 ⟨2 * i, mem_twice.2 (by simpa using hi), by
      rw [interleave_length]; omega⟩]
    rfl

theorem rowsOf_real (inputs : Fin q → List ℂ) (N : ℕ) (hin : ∀ j, (inputs j).length = N) :
    rowsOf (realInputs inputs) (2 * N) = interleave rowRe rowIm (rowsOf inputs N) := by
  apply List.ext_getElem?
  intro i
  have hr : ∀ k, k < N → (rowsOf inputs N)[k]? = some (fun j => (inputs j).getD k 0) := by
    intro k hk
    simp [rowsOf, hk]
  by_cases hi : i < 2 * N
  · have hl : (rowsOf (realInputs inputs) (2 * N))[i]? = some (fun j => (realInputs inputs j).getD i 0) := by
      simp [rowsOf, hi]
    rw [hl]
    have hk : i / 2 < N := by omega
    have hget : ∀ j, (inputs j)[i / 2]? = some ((inputs j).getD (i / 2) 0) := by
      intro j
      have : i / 2 < (inputs j).length := by rw [hin]; exact hk
      rw [List.getD_eq_getElem?_getD, List.getElem?_eq_getElem this]
      rfl
    rcases Nat.mod_two_eq_zero_or_one i with h | h
    · have e : i = 2 * (i / 2) := by omega
      conv_rhs => rw [e]
      rw [interleave_even, hr _ hk]
      simp only [Option.map_some, Option.some.injEq]
      funext j
      rw [List.getD_eq_getElem?_getD]
      conv_lhs => rw [e]
      unfold realInputs rowRe
      split
      · rw [interleave_even, hget]; rfl
      · rw [interleave_even, hget]; rfl
    · have e : i = 2 * (i / 2) + 1 := by omega
      conv_rhs => rw [e]
      rw [interleave_odd, hr _ hk]
      simp only [Option.map_some, Option.some.injEq]
      funext j
      rw [List.getD_eq_getElem?_getD]
      conv_lhs => rw [e]
      unfold realInputs rowIm
      split
      · rw [interleave_odd, hget]; rfl
      · rw [interleave_odd, hget]; rfl
  · rw [List.getElem?_eq_none (by simp [rowsOf]; omega), List.getElem?_eq_none (by simp [interleave_length, rowsOf]; omega)]

theorem outputsLoop_real (o : Opts) (b : List (Fin q → ℂ)) (heap : ℕ → σ) (l : List (List ℂ × List ℕ))
    (hl : ∀ p ∈ l, p.1.length = b.length) :
    outputsLoop o [none] (interleave rowRe rowIm b)
      (l.map (fun p => (interleave Complex.re Complex.im p.1, none, twice p.2))) heap =
      (match outputsLoop o [none] b (l.map (fun p => (p.1, none, p.2))) heap with
      | (.error x, _) => .error x
      | (.ok r, _) => .ok (r.map (fun p => (p.1.map realVec, twice p.2))), heap) := by
  induction l with
  | nil => rfl
  | cons p l ih =>
    have hone : ∀ (inv : List ℕ) (line : List ℂ), line.length = b.length →
        (oneOutput o ([none] : Weighting σ ℂ q) b line none inv heap).2 = heap := by
      intro inv line hb
      unfold oneOutput
      rw [chainLoop]
      cases h1 : eliminate line (some inv) with
      | error x => rfl
      | ok e =>
      cases h2 : eliminate b (some inv) with
      | error x => rfl
      | ok b' =>
      obtain ⟨_, rfl⟩ := eliminate_ok.1 h1
      obtain ⟨_, rfl⟩ := eliminate_ok.1 h2
      simp only
      by_cases h0 : (without line inv).length = 0
      · rw [if_pos h0]
      · rw [if_neg h0, callEstimate_plain _ _ (length_without inv hb)]
        cases wlse (without line inv) (without b inv) none with
        | error x => rfl
        | ok z =>
          obtain ⟨m, hm, -⟩ := merge_plain inv
          simp only [chainLoop, List.map_cons, List.map_nil, hm]
    simp only [List.map_cons, outputsLoop]
    rw [oneOutput_real o b p.1 (hl p (by simp)) p.2 heap]
    have h2 := hone p.2 p.1 (hl p (by simp))
    have ih := ih (fun p hp => hl p (by simp [hp]))
    cases hr : oneOutput o ([none] : Weighting σ ℂ q) b p.1 none p.2 heap with
    | mk r heap1 =>
    rw [hr] at h2
    simp only at h2
    subst h2
    cases r with
    | error x => rfl
    | ok t =>
      obtain ⟨z, m⟩ := t
      simp only [realRes]
      rw [ih]
      cases outputsLoop o ([none] : Weighting σ ℂ q) b (l.map (fun p => (p.1, none, p.2))) heap1 with
      | mk r2 heap2 => cases r2 <;> rfl

theorem outputsLoop_some (o : Opts) (b : List (Fin q → ℂ)) (heap heap' : ℕ → σ) (l : List (List ℂ × List ℕ))
    (r : List (Option (Fin q → ℂ) × List ℕ))
    (h : outputsLoop o [none] b (l.map (fun p => (p.1, none, p.2))) heap = (.ok r, heap'))
    (hl : ∀ p ∈ l, p.1.length = b.length) : ∀ p ∈ r, ∃ z, p.1 = some z := by
  obtain ⟨h1, h2⟩ := outputsLoop_ok h
  intro p hp
  obtain ⟨i, hi, rfl⟩ := List.getElem_of_mem hp
  rw [h1, List.length_map] at hi
  obtain ⟨p', hp', e1, e2⟩ := h2 i (l[i].1, none, l[i].2) (by simp [hi])
  rw [List.getElem?_eq_getElem (by rw [h1, List.length_map]; exact hi)] at e1
  injection e1 with e1
  rw [← e1] at e2
  have e2' : oneOutput o ([none] : Weighting σ ℂ q) b l[i].1 none l[i].2 hp' = (.ok (r[i].1, r[i].2), (oneOutput o ([none] : Weighting σ ℂ q) b l[i].1 none l[i].2 hp').2) :=
    Prod.ext e2 rfl
  obtain ⟨steps, s1, -, s3, -⟩ := C48_chain o _ (by simp) b l[i].1 (hl _ (List.getElem_mem hi)) none l[i].2 hp' _ r[i].1 r[i].2 e2'
  cases steps with
  | nil => simp at s1
  | cons a s =>
    rw [s3, List.getLast?_eq_getLast_of_ne_nil (by simp)]
    exact ⟨_, rfl⟩

theorem zip_none {α β γ : Type} (a : List α) (b : List β) (h : a.length = b.length) :
    a.zip ((List.replicate a.length (none : Option γ)).zip b) = (a.zip b).map (fun p => (p.1, none, p.2)) := by
  induction a generalizing b with
  | nil => rfl
  | cons x a ih =>
    cases b with
    | nil => simp at h
    | cons y b => simp [List.replicate_succ, ih b (by simpa using h)]

theorem transferFunction_plain {𝕜 : Type} [RCLike 𝕜] {q : ℕ} (outputs : List (List 𝕜)) (inputs : Fin q → List 𝕜) (N : ℕ)
    (hq : q ≠ 0) (hne : outputs ≠ []) (hN : ∀ y ∈ outputs, y.length = N) (hin : ∀ j, (inputs j).length = N) (inv : InvArg)
    (iv : List (List ℕ)) (hiv : inv.norm outputs.length = .ok iv) (o : Opts) (heap : ℕ → σ) :
    transferFunction outputs inputs [none] none inv o heap = if iv.length ≠ outputs.length then (.error .assertion, heap) else
      outputsLoop o [none] (rowsOf inputs N) ((outputs.zip iv).map (fun p => (p.1, none, p.2))) heap := by
  unfold transferFunction
  rw [hiv]
  cases outputs with
  | nil => exact absurd rfl hne
  | cons y ys =>
    have hy := hN y (by simp)
    simp only [hy]
    rw [if_neg]
    · by_cases hlen : iv.length = (y :: ys).length
      · rw [if_neg (by simpa using hlen), if_neg (by simp), if_neg (by simpa using hlen), zip_none _ _ hlen.symm]
      · rw [if_pos hlen, if_pos hlen]
    · push Not
      refine ⟨hq, hin, ?_⟩
      rw [Ne, Bool.not_eq_true, List.any_eq_false]
      intro y hy
      simp [hN y hy]

/-- **C66.** With least squares, the real formulation with `2 q` real unknowns gives the results of the complex
formulation: it raises the same errors and returns the same rows, provided both real equations of each invalid sample
are declared invalid; the invalid indices it returns are those of the real equations. -/
theorem C66_least_squares (outputs : List (List ℂ)) (inputs : Fin q → List ℂ) (N : ℕ) (hq : q ≠ 0) (hne : outputs ≠ [])
    (hN : ∀ y ∈ outputs, y.length = N) (hin : ∀ j, (inputs j).length = N) (invs : List (List ℕ)) (o : Opts) (heap : ℕ → σ) :
    (∃ l : List ((Fin q → ℂ) × List ℕ),
      (transferFunction outputs inputs [none] none (.each invs) o heap).1 = .ok (l.map (fun p => (some p.1, p.2))) ∧
      (realProb outputs inputs [none] none (.each (invs.map twice)) o heap).1 = .ok (l.map (fun p => (p.1, twice p.2)))) ∨
    (∃ x, (transferFunction outputs inputs [none] none (.each invs) o heap).1 = .error x ∧
      (realProb outputs inputs [none] none (.each (invs.map twice)) o heap).1 = .error x) := by
  have htw : (fun i : List ℕ => twice i) [] = [] := rfl
  obtain ⟨n, hn⟩ : ∃ n, outputs.length = n + 1 := by
    cases outputs with
    | nil => exact absurd rfl hne
    | cons y ys => exact ⟨_, rfl⟩
  obtain ⟨iv, hiv, hiv2⟩ : ∃ iv, (InvArg.each invs).norm outputs.length = .ok iv ∧
      (InvArg.each (invs.map twice)).norm outputs.length = .ok (iv.map twice) := by
    cases invs with
    | nil => exact ⟨List.replicate outputs.length [], by simp [InvArg.norm, hn], by
        simp only [InvArg.norm, List.map_nil, hn, List.map_replicate]
        rfl⟩
    | cons v vs => exact ⟨_, rfl, rfl⟩
  have hout : mapE (realOutput (inputs ⟨0, Nat.pos_of_ne_zero hq⟩).length) outputs =
      .ok (outputs.map (interleave Complex.re Complex.im)) := by
    apply mapE_of_forall
    intro y hy
    unfold realOutput
    rw [if_pos (by rw [hin, hN y hy])]
  have hin2 : ∀ j, (realInputs inputs j).length = 2 * N := by
    intro j
    unfold realInputs
    split <;> rw [interleave_length, hin]
  have hne2 : outputs.map (interleave Complex.re Complex.im) ≠ [] := by simpa using hne
  have hN2 : ∀ y ∈ outputs.map (interleave Complex.re Complex.im), y.length = 2 * N := by
    intro y hy
    obtain ⟨y', hy', rfl⟩ := List.mem_map.1 hy
    rw [interleave_length, hN y' hy']
  have hC := transferFunction_plain (σ := σ) outputs inputs N hq hne hN hin (.each invs) iv hiv o heap
  have hR := transferFunction_plain (σ := σ) (outputs.map (interleave Complex.re Complex.im)) (realInputs inputs) (2 * N) (by omega)
    hne2 hN2 hin2 (.each (invs.map twice)) (iv.map twice) (by rw [List.length_map]; exact hiv2) o heap
  unfold realProb
  rw [dif_neg hq, hout]
  simp only
  rw [hC, hR, List.length_map, List.length_map]
  by_cases hlen : iv.length = outputs.length
  · rw [if_neg (by simpa using hlen), if_neg (by simpa using hlen), List.zip_map, List.map_map, rowsOf_real inputs N hin]
    have hll : ∀ p ∈ outputs.zip iv, p.1.length = (rowsOf inputs N).length := by
      intro p hp
      rw [hN _ (List.of_mem_zip hp).1]
      simp [rowsOf]
    have hloop := outputsLoop_real o (rowsOf inputs N) heap (outputs.zip iv) hll
    have hfun : ((fun p : List ℝ × List ℕ => ((p.1, none, p.2) : List ℝ × Option (Fin (q * 2) → ℝ) × List ℕ)) ∘
        Prod.map (interleave Complex.re Complex.im) twice) =
        (fun p : List ℂ × List ℕ => (interleave Complex.re Complex.im p.1, none, twice p.2)) := by
      funext p
      rfl
    rw [hfun, hloop]
    cases hr : outputsLoop o ([none] : Weighting σ ℂ q) (rowsOf inputs N) ((outputs.zip iv).map (fun p => (p.1, none, p.2))) heap with
    | mk r heap' =>
    cases r with
    | error x => exact .inr ⟨x, rfl, rfl⟩
    | ok r =>
      have hs := outputsLoop_some o (rowsOf inputs N) heap heap' (outputs.zip iv) r hr hll
      obtain ⟨l, rfl⟩ : ∃ l : List ((Fin q → ℂ) × List ℕ), r = l.map (fun p => (some p.1, p.2)) := by
        clear hr
        induction r with
        | nil => exact ⟨[], rfl⟩
        | cons p r ih =>
          obtain ⟨l, rfl⟩ := ih (fun p hp => hs p (by simp [hp]))
          obtain ⟨z, hz⟩ := hs p (by simp)
          exact ⟨(z, p.2) :: l, by simp [← hz]⟩
      refine .inl ⟨l, rfl, ?_⟩
      simp only [List.map_map]
      have hm : (l.map ((fun p : Option (Fin q → ℂ) × List ℕ => (p.1.map realVec, twice p.2)) ∘ fun p => (some p.1, p.2))).mapM
          (fun p => p.1.map (fun d => (complexRow d, p.2))) = some (l.map (fun p => (p.1, twice p.2))) := by
        clear hs hr
        induction l with
        | nil => rfl
        | cons p l ih =>
          rw [List.map_cons, List.mapM_cons, ih]
          simp [complexRow_realVec]
      rw [hm]
  · rw [if_pos hlen, if_pos hlen]
    exact .inr ⟨_, rfl, rfl⟩

/-- **C66.** Without any input, or if an output has neither the length of the inputs nor length one, ValueError is raised. -/
theorem C66_shapes_raise (outputs : List (List ℂ)) (inputs : Fin q → List ℂ) (ws : Weighting σ ℝ (q * 2))
    (init : Option (List (Fin (q * 2) → ℝ))) (inv : InvArg) (o : Opts) (heap : ℕ → σ)
    (h : ∀ hq : 0 < q, ∃ y ∈ outputs, y.length ≠ (inputs ⟨0, hq⟩).length ∧ y.length ≠ 1) :
    realProb outputs inputs ws init inv o heap = (.error .value, heap) := by
  unfold realProb
  split
  · rfl
  · rename_i hq
    obtain ⟨y, hy, h1, h2⟩ := h (Nat.pos_of_ne_zero hq)
    have : mapE (realOutput (inputs ⟨0, Nat.pos_of_ne_zero hq⟩).length) outputs = .error .value := by
      clear h
      induction outputs with
      | nil => simp at hy
      | cons a l ih =>
        rw [mapE]
        rcases List.mem_cons.1 hy with rfl | hy
        · have : realOutput (inputs ⟨0, Nat.pos_of_ne_zero hq⟩).length y = .error .value := by
            unfold realOutput
            rw [if_neg h1, if_neg h2]
          rw [this]
        · rw [ih hy]
          by_cases c1 : a.length = (inputs ⟨0, Nat.pos_of_ne_zero hq⟩).length
          · simp only [realOutput, if_pos c1]
          · by_cases c2 : a.length = 1
            · simp only [realOutput, if_neg c1, if_pos c2]
            · simp only [realOutput, if_neg c1, if_neg c2]
    rw [this]

/-- **C66.** An output of length one stands for an output with this value for every sample. -/
theorem C66_constant_output (before after : List (List ℂ)) (c : ℂ) (inputs : Fin q → List ℂ) (n : ℕ) (hin : ∀ j, (inputs j).length = n)
    (ws : Weighting σ ℝ (q * 2)) (init : Option (List (Fin (q * 2) → ℝ))) (inv : InvArg) (o : Opts) (heap : ℕ → σ) :
    realProb (before ++ [c] :: after) inputs ws init inv o heap =
      realProb (before ++ List.replicate n c :: after) inputs ws init inv o heap := by
  unfold realProb
  split
  · rfl
  · rename_i hq
    have hc : realOutput (inputs ⟨0, Nat.pos_of_ne_zero hq⟩).length [c] =
        realOutput (inputs ⟨0, Nat.pos_of_ne_zero hq⟩).length (List.replicate n c) := by
      unfold realOutput
      rw [hin, List.length_replicate, if_pos rfl]
      by_cases h1 : n = 1
      · subst h1
        rw [if_pos (by rfl)]
        rfl
      · rw [if_neg (by simpa using fun h => h1 h.symm), if_pos (by rfl)]
        rfl
    have hm : mapE (realOutput (inputs ⟨0, Nat.pos_of_ne_zero hq⟩).length) (before ++ [c] :: after) =
        mapE (realOutput (inputs ⟨0, Nat.pos_of_ne_zero hq⟩).length) (before ++ List.replicate n c :: after) := by
      induction before with
      | nil => rw [List.nil_append, List.nil_append, mapE, mapE, hc]
      | cons y ys ih => rw [List.cons_append, List.cons_append, mapE, mapE, ih]
    rw [hm]

example (heap : ℕ → Unit) : (realProb [[2 * Complex.I, -2, 7]] (fun _ : Fin 1 => [1, Complex.I, 5]) [none] none
    (.each [[4, 5]]) {} heap).1 = .ok [(fun _ => 2 * Complex.I, [4, 5])] := by
  have hex := C49_exact (σ := Unit) [[2 * Complex.I, -2, 7]] (fun _ : Fin 1 => [1, Complex.I, 5]) 3 (by simp) (by simp) (by simp)
    (by simp) (.each [[2]]) [[2]] rfl (by simp) (by simp) (fun _ _ => 2 * Complex.I) (by
      intro i y v h1 h2
      have hi : i = 0 := by
        by_contra h0
        rw [List.getElem?_eq_none (by simp; omega)] at h1
        simp at h1
      subst hi
      simp only [List.getElem?_cons_zero, Option.some.injEq] at h1 h2
      subst h1 h2
      constructor
      · intro d hd
        funext j
        have := hd 0 (by simp) (by simp)
        simpa [Subsingleton.elim j 0] using this
      · intro n hn hni
        have h3 : n < 3 := by simpa using hn
        interval_cases n
        · simp
        · simp only [Finset.univ_unique, Finset.sum_singleton]
          simp [mul_assoc]
        · simp at hni) {} heap
  obtain ⟨res, r1, r2, r3⟩ := hex
  obtain ⟨m, m1, m2, m3⟩ := r3 0 [2] rfl
  have hm : m = [2] := sorted_ext m2 (by simp) m3
  subst hm
  have hres : res = [(some (fun _ => 2 * Complex.I), [2])] := by
    cases res with
    | nil => simp at r2
    | cons a t =>
      cases t with
      | nil => simpa using m1
      | cons b t => simp at r2
  rcases C66_least_squares (σ := Unit) [[2 * Complex.I, -2, 7]] (fun _ : Fin 1 => [1, Complex.I, 5]) 3 (by simp) (by simp) (by simp)
    (by simp) [[2]] {} heap with ⟨l, h1, h2⟩ | ⟨x, h1, h2⟩
  · rw [r1, hres] at h1
    injection h1 with h1
    have hl : l = [(fun _ => 2 * Complex.I, [2])] := by
      cases l with
      | nil => simp at h1
      | cons a t =>
        cases t with
        | nil =>
          obtain ⟨a1, a2⟩ := a
          simp only [List.map_cons, List.map_nil, List.cons.injEq, Prod.mk.injEq, Option.some.injEq, and_true] at h1
          rw [← h1.1, ← h1.2]
        | cons b t => simp at h1
    rw [hl] at h2
    exact h2
  · rw [r1] at h1
    simp at h1

end Razorback.Props
