/-
Properties C51-C55: weight functions.
-/
import Verif.Lemmas.Weights
import Verif.Props.Transfer

namespace Razorback.Props
open Razorback Razorback.Spec Razorback.MEst Razorback.Weights

variable {𝕜 : Type} [RCLike 𝕜] {q : ℕ} {σ : Type}

/-! C55 -/

/-- **C55.** `mad_scale` is the median of the distances of the absolute values to their median, divided by 0.44845,
ignoring NaN; it is NaN exactly if all residuals are. -/
theorem C55_value (r : List (Option 𝕜)) :
    (∀ s, madScale r = some s ↔ IsScale (sizes r) s) ∧ (madScale r = none ↔ valid r = []) := by
  rw [madScale_eq]
  refine ⟨fun s => madScale_some, ?_⟩
  rw [madScaleAbs_none, valid_vnorm, sizes, List.map_eq_nil_iff]

/-- **C55.** The scale is not negative. -/
theorem C55_nonneg (r : List (Option 𝕜)) (s : ℝ) (h : madScale r = some s) : 0 ≤ s := by
  rw [madScale_eq, madScale_some] at h
  obtain ⟨med, dev, h1, h2, rfl⟩ := h
  have := isMedian_nonneg (by simp) h2
  positivity

/-- **C55.** Multiplying the residuals by `c` multiplies the scale by `|c|`. -/
theorem C55_equivariant (r : List (Option 𝕜)) (c : 𝕜) :
    madScale (r.map (fun v => v.map (fun v => c * v))) = (madScale r).map (fun s => ‖c‖ * s) := by
  rw [madScale_eq, madScale_eq, madScale_scale]

/-- **C55.** The scale depends only on the residuals that are not NaN, whatever their order. -/
theorem C55_order_nan (r r' : List (Option 𝕜)) (h : (valid r).Perm (valid r')) : madScale r = madScale r' := by
  rw [madScale_eq, madScale_eq]
  have hp : (sizes r).Perm (sizes r') := h.map _
  cases hs : madScaleAbs (vnorm r) with
  | none =>
    rw [madScaleAbs_none, valid_vnorm] at hs
    rw [hs] at hp
    exact (madScaleAbs_none.2 (by rw [valid_vnorm]; exact hp.nil_eq.symm)).symm
  | some s => exact (madScale_some.2 (isScale_perm hp (madScale_some.1 hs))).symm

/-- **C55.** Half of the values at least are on either side of a median. -/
theorem C55_median (l : List ℝ) (m : ℝ) (h : IsMedian l m) :
    l.length ≤ 2 * l.countP (fun v => decide (v ≤ m)) ∧ l.length ≤ 2 * l.countP (fun v => decide (m ≤ v)) := by
  obtain ⟨s, p, o, h⟩ := h
  rw [← p.countP_eq, ← p.countP_eq, ← p.length_eq]
  have hcount : ∀ (P : ℝ → Bool) (t : List ℝ), t.Sublist s → (∀ v ∈ t, P v = true) → t.length ≤ s.countP P := by
    intro P t ht hP
    rw [← List.countP_eq_length.2 hP]
    exact ht.countP_le
  have hord : ∀ (i j : ℕ) u v, i ≤ j → s[i]? = some u → s[j]? = some v → u ≤ v := by
    intro i j u v hij hi hj
    rcases Nat.lt_or_ge i j with hlt | hge
    · obtain ⟨hi', rfl⟩ := List.getElem?_eq_some_iff.1 hi
      obtain ⟨hj', rfl⟩ := List.getElem?_eq_some_iff.1 hj
      exact List.pairwise_iff_getElem.1 o i j hi' hj' hlt
    · have : i = j := by omega
      subst this
      rw [hi] at hj
      simp only [Option.some.injEq] at hj
      exact hj.le
  have hmem_take : ∀ (n : ℕ) v, v ∈ s.take n → ∃ i < n, s[i]? = some v := by
    intro n v hv
    obtain ⟨i, hi, rfl⟩ := List.getElem_of_mem hv
    have hi' : i < n ∧ i < s.length := by simpa [Nat.lt_min] using hi
    exact ⟨i, hi'.1, by rw [List.getElem_take, List.getElem?_eq_getElem hi'.2]⟩
  have hmem_drop : ∀ (n : ℕ) v, v ∈ s.drop n → ∃ i ≥ n, s[i]? = some v := by
    intro n v hv
    obtain ⟨i, hi, rfl⟩ := List.getElem_of_mem hv
    have hi' : n + i < s.length := by simp at hi; omega
    exact ⟨n + i, by omega, by rw [List.getElem_drop, List.getElem?_eq_getElem hi']⟩
  rcases h with ⟨k, hk, e⟩ | ⟨k, u, v, hk, e1, e2, e3⟩
  · have a := hcount (fun v => decide (v ≤ m)) (s.take (k + 1)) (List.take_sublist _ _) (by
      intro v hv
      obtain ⟨i, hi, hv⟩ := hmem_take _ _ hv
      simpa using hord i k v m (by omega) hv e)
    have b := hcount (fun v => decide (m ≤ v)) (s.drop k) (List.drop_sublist _ _) (by
      intro v hv
      obtain ⟨i, hi, hv⟩ := hmem_drop _ _ hv
      simpa using hord k i m v hi e hv)
    simp only [List.length_take, List.length_drop] at a b
    omega
  · have huv := hord k (k + 1) u v (by omega) e1 e2
    have a := hcount (fun v => decide (v ≤ m)) (s.take (k + 1)) (List.take_sublist _ _) (by
      intro w hw
      obtain ⟨i, hi, hw⟩ := hmem_take _ _ hw
      have := hord i k w u (by omega) hw e1
      simp only [decide_eq_true_eq, e3]
      linarith)
    have b := hcount (fun v => decide (m ≤ v)) (s.drop (k + 1)) (List.drop_sublist _ _) (by
      intro w hw
      obtain ⟨i, hi, hw⟩ := hmem_drop _ _ hw
      have := hord (k + 1) i v w hi e2 hw
      simp only [decide_eq_true_eq, e3]
      linarith)
    simp only [List.length_take, List.length_drop] at a b
    omega

/-- The scale of the residuals `1, -2, NaN, 4` is `1 / 0.44845`. -/
theorem exScale : IsScale (sizes (𝕜 := ℝ) [some 1, some (-2), none, some 4]) (1 / 0.44845) := by
  refine ⟨2, 1, ⟨[1, 2, 4], ?_, ?_, .inl ⟨1, rfl, rfl⟩⟩, ⟨[0, 1, 2], ?_, ?_, .inl ⟨1, rfl, rfl⟩⟩, rfl⟩
  · simp [sizes, valid]
  · norm_num
  · simp only [sizes, valid, List.filterMap_cons, id, List.filterMap_nil, List.map_cons, List.map_nil]
    norm_num
    exact List.Perm.swap _ _ _
  · norm_num

example : madScale (𝕜 := ℝ) [some 1, some (-2), none, some 4] = some (1 / 0.44845) := (C55_value _).1 _ |>.2 exScale

/-! C51 -/

/-- **C51.** Huber weights, for a positive scale and `alpha`: one per residual; NaN for a NaN residual; otherwise in
`(0, 1]`, equal to one exactly if `|r| <= alpha * scale`, equal to `alpha * scale / |r|` beyond, and larger residuals
never get larger weights. -/
theorem C51_huber (alpha : ℝ) (ha : 0 < alpha) (r : List (Option 𝕜)) (s : ℝ) (hs : IsScale (sizes r) s) (hpos : 0 < s)
    (st : σ) (it : ℕ) (e : List 𝕜) (b : List (Fin q → 𝕜)) (inv : List ℕ) :
    ∃ w, huber alpha st it r e b inv = (.ok (some w), st) ∧ w.length = r.length ∧
      (∀ i : ℕ, r[i]? = some none → w[i]? = some .nan) ∧
      (∀ (i : ℕ) v, r[i]? = some (some v) → ∃ x, w[i]? = some (.fin x) ∧ 0 < x ∧ x ≤ 1 ∧ (x = 1 ↔ ‖v‖ ≤ alpha * s) ∧
        (alpha * s ≤ ‖v‖ → x * ‖v‖ = alpha * s)) ∧
      (∀ (i j : ℕ) v v' x x', r[i]? = some (some v) → r[j]? = some (some v') → w[i]? = some (.fin x) → w[j]? = some (.fin x') →
        ‖v‖ ≤ ‖v'‖ → x' ≤ x) := by
  have hsc := madScale_some.2 hs
  have hap : 0 < alpha * s := by positivity
  have hval : ∀ v : 𝕜, Flt.min1 (Flt.div (Flt.mul (.fin alpha) (flt (some s))) (flt (some ‖v‖))) =
      .fin (if v = 0 then 1 else min 1 (alpha * s / ‖v‖)) := by
    intro v
    simp only [flt, Flt.mul, Flt.div, norm_eq_zero]
    split
    · simp [hap, hap.ne', Flt.min1]
    · simp [Flt.min1]
  have hw : ∀ (i : ℕ) v, r[i]? = some (some v) → ((vnorm r).map (fun v => Flt.min1 (Flt.div (Flt.mul (.fin alpha)
      (flt (some s))) (flt v))))[i]? = some (.fin (if v = 0 then 1 else min 1 (alpha * s / ‖v‖))) := by
    intro i v hv
    simp only [vnorm, List.getElem?_map, hv, Option.map_some, hval]
  refine ⟨_, rfl, by simp [vnorm], ?_, ?_, ?_⟩
  · intro i hi
    simp only [vnorm, List.getElem?_map, hi, Option.map_some, Option.map_none, flt]
    cases Flt.mul (.fin alpha) _ <;> rfl
  · rw [hsc]
    intro i v hv
    refine ⟨_, hw i v hv, ?_, ?_, ?_, ?_⟩
    · split
      · norm_num
      · rename_i h0
        have := norm_pos_iff.2 h0
        exact lt_min one_pos (by positivity)
    · split
      · exact le_refl _
      · exact min_le_left _ _
    · split
      · rename_i h0
        simp [h0, hap.le]
      · rename_i h0
        have := norm_pos_iff.2 h0
        rw [min_eq_left_iff, one_le_div this]
    · intro h
      have hv0 : v ≠ 0 := by rintro rfl; simp at h; linarith
      have := norm_pos_iff.2 hv0
      rw [if_neg hv0, min_eq_right (by rwa [div_le_one this])]
      field_simp
  · rw [hsc]
    intro i j v v' x x' hi hj hx hx' hle
    rw [hw i v hi] at hx
    rw [hw j v' hj] at hx'
    simp only [Option.some.injEq, Flt.fin.injEq] at hx hx'
    subst hx hx'
    by_cases h0 : v = 0
    · rw [if_pos h0]
      split
      · exact le_refl _
      · exact min_le_left _ _
    · have hp := norm_pos_iff.2 h0
      have hp' : 0 < ‖v'‖ := lt_of_lt_of_le hp hle
      have h0' : v' ≠ 0 := norm_pos_iff.1 hp'
      rw [if_neg h0, if_neg h0']
      exact min_le_min_left _ (div_le_div_of_nonneg_left hap.le hp hle)

/-- **C51.** Huber weights do not change if all residuals are multiplied by a non-zero constant. -/
theorem C51_scale_invariant (alpha : ℝ) (r : List (Option 𝕜)) (c : 𝕜) (hc : c ≠ 0) (st : σ) (it : ℕ) (e : List 𝕜)
    (b : List (Fin q → 𝕜)) (inv : List ℕ) :
    huber alpha st it (r.map (fun v => v.map (fun v => c * v))) e b inv = huber alpha st it r e b inv := by
  have hc' : 0 < ‖c‖ := norm_pos_iff.2 hc
  unfold huber
  simp only [madScale_scale]
  congr 3
  simp only [vnorm, List.map_map]
  apply List.map_congr_left
  intro v _
  cases v with
  | none => cases madScaleAbs (List.map (fun v => Option.map (fun v => ‖v‖) v) r) <;> rfl
  | some v =>
    cases madScaleAbs (List.map (fun v => Option.map (fun v => ‖v‖) v) r) with
    | none => rfl
    | some s =>
      simp only [Function.comp, Option.map_some, flt, Flt.mul, Flt.div, norm_mul, mul_eq_zero, hc'.ne', false_or]
      congr 1
      have h1 : alpha * (‖c‖ * s) = 0 ↔ alpha * s = 0 := by simp [hc]
      have h2 : 0 < alpha * (‖c‖ * s) ↔ 0 < alpha * s := by
        rw [show alpha * (‖c‖ * s) = ‖c‖ * (alpha * s) by ring]
        exact mul_pos_iff_of_pos_left hc'
      simp only [← mul_eq_zero, h1, h2]
      split
      · rfl
      · congr 1
        field_simp

/-- **C51.** Limit of the property: if the scale is zero, which happens when more than half of the residuals have the
same absolute value, non-zero residuals have weight zero and zero residuals weight NaN. -/
theorem C51_zero_scale (alpha : ℝ) (r : List (Option 𝕜)) (hs : IsScale (sizes r) 0) (st : σ) (it : ℕ) (e : List 𝕜)
    (b : List (Fin q → 𝕜)) (inv : List ℕ) :
    ∃ w, huber alpha st it r e b inv = (.ok (some w), st) ∧
      ∀ (i : ℕ) v, r[i]? = some (some v) → w[i]? = some (if v = 0 then .nan else .fin 0) := by
  have hsc := madScale_some.2 hs
  refine ⟨_, rfl, ?_⟩
  rw [hsc]
  intro i v hv
  simp only [vnorm, List.getElem?_map, hv, Option.map_some, flt, Flt.mul, Flt.div, mul_zero, norm_eq_zero, if_true]
  by_cases h0 : v = 0
  · simp [h0, Flt.min1]
  · simp [h0, Flt.min1]

/-- Huber weights of the residuals `1, -2, NaN, 4`. -/
example : ∃ w, huber (σ := Unit) (𝕜 := ℝ) (q := 1) 1.5 () 0 [some 1, some (-2), none, some 4] [] [] [] = (.ok (some w), ()) ∧
    w[0]? = some (.fin 1) ∧ w[2]? = some .nan ∧ ∃ x, w[3]? = some (.fin x) ∧ x < 1 := by
  obtain ⟨w, h1, _, h2, h3, _⟩ := C51_huber (σ := Unit) (𝕜 := ℝ) (q := 1) 1.5 (by norm_num) [some 1, some (-2), none, some 4] _
    exScale (by norm_num) () 0 [] [] []
  refine ⟨w, h1, ?_, h2 2 rfl, ?_⟩
  · obtain ⟨x, hx, _, _, h, _⟩ := h3 0 1 rfl
    rw [hx, h.2 (by norm_num)]
  · obtain ⟨x, hx, _, hle, h, _⟩ := h3 3 4 rfl
    refine ⟨x, hx, lt_of_le_of_ne hle (fun hc => ?_)⟩
    have := h.1 hc
    norm_num at this

/-- `1, 1, 3`: two of three residuals have the same size, and the scale is zero. -/
example : IsScale (sizes (𝕜 := ℝ) [some 1, some 1, some 3]) 0 := by
  refine ⟨1, 0, ⟨[1, 1, 3], ?_, ?_, .inl ⟨1, rfl, rfl⟩⟩, ⟨[0, 0, 2], ?_, ?_, .inl ⟨1, rfl, rfl⟩⟩, by norm_num⟩
  · simp [sizes, valid]
  · norm_num
  · simp only [sizes, valid, List.filterMap_cons, id, List.filterMap_nil, List.map_cons, List.map_nil]
    norm_num
  · norm_num

/-! C52 -/

/-- **C52.** `expexp(0, a) = 1`. -/
theorem C52_zero (a : ℝ) : expexp (.fin 0) a = .fin 1 := by
  rw [expexp_fin, show a * (0 - a) = -a ^ 2 by ring]
  simp

/-- **C52.** For `a > 0`, `expexp` is finite, in `[0, 1]` for `x >= 0`, strictly decreasing, zero at infinity and NaN at
NaN. -/
theorem C52_expexp (a : ℝ) (ha : 0 < a) : ∃ f : ℝ → ℝ, (∀ x, expexp (.fin x) a = .fin (f x)) ∧ StrictAnti f ∧ f 0 = 1 ∧
    (∀ x, 0 < f x) ∧ (∀ x, 0 ≤ x → f x ≤ 1) ∧ expexp .pinf a = .fin 0 ∧ expexp .nan a = .nan := by
  have hanti : StrictAnti (fun x : ℝ => Real.exp (Real.exp (-a ^ 2) - Real.exp (a * (x - a)))) := by
    intro x y hxy
    simp only
    rw [Real.exp_lt_exp]
    have : Real.exp (a * (x - a)) < Real.exp (a * (y - a)) := by
      rw [Real.exp_lt_exp]
      exact mul_lt_mul_of_pos_left (by linarith) ha
    linarith
  have h0 : (fun x : ℝ => Real.exp (Real.exp (-a ^ 2) - Real.exp (a * (x - a)))) 0 = 1 := by
    have := C52_zero a
    rw [expexp_fin] at this
    simpa using this
  refine ⟨_, fun x => expexp_fin x a, hanti, h0, fun x => Real.exp_pos _, ?_, expexp_pinf ha, expexp_nan a⟩
  intro x hx
  have := hanti.antitone hx
  simp only at h0 this
  rw [h0] at this
  exact this

/-- **C52.** In an estimation, iteration 0 first, every Thomson weight is `expexp(|r| / scale, xi)` with the scale of
the residuals of iteration 0, `xi` being `sqrt(2 log(2 n))` unless given; NaN residuals have weight NaN.  Whatever was
computed before does not matter. -/
theorem C52_thomson (xi : Option ℝ) (st : Option Flt) (c : Call 𝕜 q) (hc : c.it = 0) (l : List (Call 𝕜 q))
    (hl : ∀ d ∈ l, d.it ≠ 0) (s : ℝ) (hs : IsScale (sizes c.r) s) (hpos : 0 < s) (k : ℕ) (d : Call 𝕜 q)
    (hk : (c :: l)[k]? = some d) :
    ∃ w, (results (thomson xi) st (c :: l))[k]? = some (.ok (some w)) ∧ w.length = d.r.length ∧
      ∀ (i : ℕ) v, d.r[i]? = some v → w[i]? = some (match v with
        | none => .nan
        | some v => expexp (.fin (‖v‖ / s)) (match xi with
          | some a => a
          | none => Real.sqrt (2 * Real.log (2 * d.r.length)))) := by
  have hw : ∀ (r : List (Option 𝕜)) (i : ℕ) v, r[i]? = some v →
      ((vnorm r).map (fun v => expexp (Flt.div (flt v) (.fin s)) (thomsonXi xi r.length)))[i]? = some (match v with
        | none => .nan
        | some v => expexp (.fin (‖v‖ / s)) (match xi with
          | some a => a
          | none => Real.sqrt (2 * Real.log (2 * r.length)))) := by
    intro r i v hv
    simp only [vnorm, List.getElem?_map, hv, Option.map_some, Option.some.injEq]
    cases v with
    | none => simp only [Option.map_none, flt, Flt.div, expexp_nan]
    | some v =>
      simp only [Option.map_some, flt, Flt.div, hpos.ne', if_false]
      cases xi <;> rfl
  have hsc := madScale_some.2 hs
  have hlater : ∀ (l : List (Call 𝕜 q)), (∀ d ∈ l, d.it ≠ 0) → ∀ (k : ℕ) d, l[k]? = some d →
      (results (thomson xi) (some (.fin s)) l)[k]? = some (.ok (some ((vnorm d.r).map (fun v =>
        expexp (Flt.div (flt v) (.fin s)) (thomsonXi xi d.r.length))))) := by
    intro l
    induction l with
    | nil => simp
    | cons a l ih =>
      intro h k d hk
      have ha : a.it ≠ 0 := h a (by simp)
      cases k with
      | zero =>
        simp only [List.getElem?_cons_zero, Option.some.injEq] at hk
        subst hk
        simp [results, thomson, ha]
      | succ k =>
        have := ih (fun d hd => h d (by simp [hd])) k d (by simpa using hk)
        simpa [results, thomson, ha] using this
  have h0 : thomson xi st c.it c.r c.e c.b c.inv = (.ok (some ((vnorm c.r).map (fun v =>
      expexp (Flt.div (flt v) (.fin s)) (thomsonXi xi c.r.length)))), some (.fin s)) := by
    simp only [thomson, hc, if_true, hsc]
    rfl
  refine ⟨(vnorm d.r).map (fun v => expexp (Flt.div (flt v) (.fin s)) (thomsonXi xi d.r.length)), ?_, by simp [vnorm],
    hw d.r⟩
  simp only [results, h0]
  cases k with
  | zero =>
    simp only [List.getElem?_cons_zero, Option.some.injEq] at hk
    subst hk
    rfl
  | succ k => exact hlater l hl k d (by simpa using hk)

/-- The second call of an estimation uses the scale of the first. -/
example : ∃ w, (results (𝕜 := ℝ) (q := 1) (thomson (some 3)) none [⟨0, [some 1, some (-2), none, some 4], [], [], []⟩,
    ⟨1, [some 7, none], [], [], []⟩])[1]? = some (.ok (some w)) ∧ w.length = 2 := by
  obtain ⟨w, h1, h2, _⟩ := C52_thomson (𝕜 := ℝ) (q := 1) (some 3) none ⟨0, [some 1, some (-2), none, some 4], [], [], []⟩ rfl
    [⟨1, [some 7, none], [], [], []⟩] (by simp) _ exScale (by norm_num) 1 _ rfl
  exact ⟨w, h1, h2⟩

/-! C53 -/

/-- If related states give the same results and stay related, and calls of iteration 0 relate any two states. -/
theorem resets_of_rel {wf : WFun σ 𝕜 q} (R : σ → σ → Prop)
    (h0 : ∀ st st' (c : Call 𝕜 q), c.it = 0 → (wf st c.it c.r c.e c.b c.inv).1 = (wf st' c.it c.r c.e c.b c.inv).1 ∧
      R (wf st c.it c.r c.e c.b c.inv).2 (wf st' c.it c.r c.e c.b c.inv).2)
    (h1 : ∀ st st' (c : Call 𝕜 q), R st st' → (wf st c.it c.r c.e c.b c.inv).1 = (wf st' c.it c.r c.e c.b c.inv).1 ∧
      R (wf st c.it c.r c.e c.b c.inv).2 (wf st' c.it c.r c.e c.b c.inv).2) : Resets wf := by
  have key : ∀ (l : List (Call 𝕜 q)) st st', R st st' → results wf st l = results wf st' l := by
    intro l
    induction l with
    | nil => intros; rfl
    | cons c l ih =>
      intro st st' h
      obtain ⟨e1, e2⟩ := h1 st st' c h
      rw [results, results, e1, ih _ _ e2]
  intro st st' c l hc
  obtain ⟨e1, e2⟩ := h0 st st' c hc
  rw [results, results, e1, key l _ _ e2]

/-- **C53.** Every weight object of the library starts afresh at iteration 0: what it gives from then on does not depend
on anything it was called with before. -/
theorem C53_resets (w : Obj) : Resets (𝕜 := 𝕜) (q := q) w.call := by
  have hbase : ∀ (w : Base), ∃ R : Option Flt → Option Flt → Prop,
      (∀ st st' (c : Call 𝕜 q), c.it = 0 → (w.call st c.it c.r c.e c.b c.inv).1 = (w.call st' c.it c.r c.e c.b c.inv).1 ∧
        R (w.call st c.it c.r c.e c.b c.inv).2 (w.call st' c.it c.r c.e c.b c.inv).2) ∧
      (∀ st st' (c : Call 𝕜 q), R st st' → (w.call st c.it c.r c.e c.b c.inv).1 = (w.call st' c.it c.r c.e c.b c.inv).1 ∧
        R (w.call st c.it c.r c.e c.b c.inv).2 (w.call st' c.it c.r c.e c.b c.inv).2) := by
    intro w
    cases w with
    | huber a => exact ⟨fun _ _ => True, fun _ _ _ _ => ⟨rfl, trivial⟩, fun _ _ _ _ => ⟨rfl, trivial⟩⟩
    | thomson xi =>
      refine ⟨Eq, ?_, ?_⟩
      · intro st st' c hc
        simp only [Base.call, thomson, hc, if_true, and_self]
      · rintro st _ c rfl
        exact ⟨rfl, rfl⟩
  cases w with
  | base w =>
    obtain ⟨R, h0, h1⟩ := hbase w
    exact resets_of_rel (fun st st' => R st.2 st'.2) (fun st st' c hc => h0 st.2 st'.2 c hc)
      (fun st st' c h => h1 st.2 st'.2 c h)
  | bis w lower khi =>
    obtain ⟨R, h0, h1⟩ := hbase w
    have key : ∀ (p : Prev) (s s' : Option Flt) (c : Call 𝕜 q),
        ((w.call s c.it c.r c.e c.b c.inv).1 = (w.call s' c.it c.r c.e c.b c.inv).1 ∧
          R (w.call s c.it c.r c.e c.b c.inv).2 (w.call s' c.it c.r c.e c.b c.inv).2) →
        ∀ (st st' : Option Prev × Option Flt), st.2 = s → st'.2 = s' →
        (if c.it = 0 then some ⟨-1, none, .fin c.b.length, none⟩ else st.1) = some p →
        (if c.it = 0 then some ⟨-1, none, .fin c.b.length, none⟩ else st'.1) = some p → ((c.it : ℤ) = 1 + p.it) →
        (bis (𝕜 := 𝕜) (q := q) w.call lower khi st c.it c.r c.e c.b c.inv).1 =
          (bis w.call lower khi st' c.it c.r c.e c.b c.inv).1 ∧
        (bis (𝕜 := 𝕜) (q := q) w.call lower khi st c.it c.r c.e c.b c.inv).2.1 =
          (bis w.call lower khi st' c.it c.r c.e c.b c.inv).2.1 ∧
        R (bis (𝕜 := 𝕜) (q := q) w.call lower khi st c.it c.r c.e c.b c.inv).2.2
          (bis w.call lower khi st' c.it c.r c.e c.b c.inv).2.2 := by
      intro p s s' c hin st st' hs hs' hp hp' hit
      subst hs hs'
      unfold bis
      simp only [hp, hp', hit, ne_eq, not_true_eq_false, if_false]
      cases e1 : w.call st.2 c.it c.r c.e c.b c.inv with
      | mk x u =>
      cases e2 : w.call st'.2 c.it c.r c.e c.b c.inv with
      | mk x' u' =>
      rw [e1, e2] at hin
      simp only at hin
      obtain ⟨rfl, hR⟩ := hin
      cases x with
      | error x => exact ⟨rfl, rfl, hR⟩
      | ok x =>
        cases x with
        | none => exact ⟨rfl, rfl, hR⟩
        | some x =>
          simp only
          cases leverage c.b p.bi with
          | error y => exact ⟨rfl, rfl, hR⟩
          | ok h => exact ⟨rfl, rfl, hR⟩
    refine resets_of_rel (fun st st' => st.1 = st'.1 ∧ R st.2 st'.2) ?_ ?_
    · intro st st' c hc
      exact key ⟨-1, none, .fin c.b.length, none⟩ st.2 st'.2 c (h0 _ _ c hc) st st' rfl rfl (by simp [hc]) (by simp [hc])
        (by simp [hc])
    · rintro st st' c ⟨h, hR⟩
      cases hp : (if c.it = 0 then some ⟨-1, none, .fin c.b.length, none⟩ else st.1 : Option Prev) with
      | none =>
        have hp' : (if c.it = 0 then some ⟨-1, none, .fin c.b.length, none⟩ else st'.1 : Option Prev) = none := by rw [← h]; exact hp
        simp only [Obj.call, bis, hp, hp']
        exact ⟨trivial, h, hR⟩
      | some p =>
        have hp' : (if c.it = 0 then some ⟨-1, none, .fin c.b.length, none⟩ else st'.1 : Option Prev) = some p := by rw [← h]; exact hp
        by_cases hit : (c.it : ℤ) = 1 + p.it
        · exact key p st.2 st'.2 c (h1 _ _ c hR) st st' rfl rfl hp hp' hit
        · simp only [Obj.call, bis, hp, hp', hit, ne_eq, not_false_eq_true, if_true]
          exact ⟨trivial, trivial, hR⟩

/-- **C53.** With weight objects of the library, `transfer_function` gives the same whatever these objects were used for
before: their memories at the start, also those left by an estimation that failed half way, do not matter. -/
theorem C53_history (l : List (Option Obj)) (outputs : List (List 𝕜)) (inputs : Fin q → List 𝕜)
    (init : Option (List (Fin q → 𝕜))) (inv : InvArg) (o : Opts) (heap heap' : ℕ → Mem) :
    (transferFunction outputs inputs (weighting l) init inv o heap).1 =
      (transferFunction outputs inputs (weighting l) init inv o heap').1 := by
  apply transferFunction_resets
  intro i wf h
  unfold weighting at h
  obtain ⟨⟨w, j⟩, _, he⟩ := List.mem_map.1 h
  cases w with
  | none => simp at he
  | some w =>
    simp only [Option.map_some, Option.some.injEq, Prod.mk.injEq] at he
    rw [← he.2]
    exact C53_resets w

/-- **C53.** Nor does it matter which of the weight functions are one and the same object: a sequence such as
`[None, w, w]`, whose second and third steps share a memory, gives the same as one with distinct objects. -/
theorem C53_shared (l : List (Option Obj)) (ids : ℕ → ℕ) (outputs : List (List 𝕜)) (inputs : Fin q → List 𝕜)
    (init : Option (List (Fin q → 𝕜))) (inv : InvArg) (o : Opts) (heap heap' : ℕ → Mem) :
    (transferFunction outputs inputs (l.zipIdx.map (fun p => p.1.map (fun w => (ids p.2, w.call)))) init inv o heap).1 =
      (transferFunction outputs inputs (weighting l) init inv o heap').1 := by
  apply transferFunction_shared
  · intro i wf h
    obtain ⟨⟨w, j⟩, _, he⟩ := List.mem_map.1 h
    cases w with
    | none => simp at he
    | some w =>
      simp only [Option.map_some, Option.some.injEq, Prod.mk.injEq] at he
      rw [← he.2]
      exact C53_resets w
  · unfold weighting
    simp only [List.map_map, Function.comp_def, Option.map_map]

/-- **C53.** A bounded influence step called out of order (not at iteration 0, nor right after the previous one)
raises AssertionError, and so it does if it was never called; Thomson then raises KeyError. -/
theorem C53_out_of_order (inner : WFun σ 𝕜 q) (lower khi : ℝ) (st : Option Prev × σ) (c : Call 𝕜 q) (h0 : c.it ≠ 0)
    (h : ∀ p, st.1 = some p → (c.it : ℤ) ≠ p.it + 1) :
    (bis inner lower khi st c.it c.r c.e c.b c.inv).1 = .error .assertion ∧
    ∀ xi, (thomson (𝕜 := 𝕜) (q := q) xi none c.it c.r c.e c.b c.inv).1 = .error .key := by
  constructor
  · unfold bis
    simp only [h0, if_false]
    cases hs : st.1 with
    | none => rfl
    | some p =>
      have := h p hs
      simp only [ne_eq, show ¬ ((c.it : ℤ) = 1 + p.it) by omega, not_false_eq_true, if_true]
  · intro xi
    simp [thomson, h0]

/-- **C53.** The iteration remembered by a bounded influence step is that of its last successful call. -/
theorem C53_in_order (inner : WFun σ 𝕜 q) (lower khi : ℝ) (st st' : Option Prev × σ) (c : Call 𝕜 q) (w : Option (List Flt))
    (h : bis inner lower khi st c.it c.r c.e c.b c.inv = (.ok w, st')) :
    ∃ p, st'.1 = some p ∧ p.it = c.it ∧ p.bi = w := by
  unfold bis at h
  simp only at h
  split at h
  · simp at h
  · split at h
    · simp at h
    · split at h
      · simp at h
      · simp at h
      · split at h
        · simp at h
        · simp only [Prod.mk.injEq, Except.ok.injEq] at h
          obtain ⟨rfl, rfl⟩ := h
          exact ⟨_, rfl, rfl, rfl⟩

/-! C54 -/

/-- **C54.** `bi_weights(p, n)` has `n + 2` entries: none (least squares) first, Thomson with the nominal bounds last; the
`k`-th in between is a Huber step, the last one with the nominal bounds, each with twice the lower bound and half the
upper bound of the one before. -/
theorem C54_steps (gii : ℝ → ℝ → ℝ) (p : ℝ) (n dim : ℕ) : ∃ (lo hi : ℕ → ℝ),
    (biWeights gii p n dim).length = n + 2 ∧ (biWeights gii p n dim)[0]? = some none ∧
    (∀ k < n, (biWeights gii p n dim)[k + 1]? = some (some (.bis (.huber (3 / 2)) (lo k) (hi k)))) ∧
    (biWeights gii p n dim)[n + 1]? = some (some (.bis (.thomson none) (gii dim (p / 2) / dim) (gii dim (1 - p / 2) / dim))) ∧
    (∀ k, k + 1 < n → lo (k + 1) = 2 * lo k ∧ hi (k + 1) = hi k / 2) ∧
    (0 < n → lo (n - 1) = gii dim (p / 2) / dim ∧ hi (n - 1) = gii dim (1 - p / 2) / dim) := by
  have e1 : (0.5 : ℝ) * p = p / 2 := by norm_num; ring
  have e2 : (1.5 : ℝ) = 3 / 2 := by norm_num
  refine ⟨fun k => gii dim (p / 2) / dim * 2 ^ (-((n - 1 - k : ℕ) : ℤ)), fun k => gii dim (1 - p / 2) / dim * 2 ^ (n - 1 - k), ?_, ?_,
    ?_, ?_, ?_, ?_⟩
  · simp [biWeights]
  · simp [biWeights]
  · intro k hk
    simp only [biWeights, e1, e2]
    rw [List.getElem?_append_left (by simp; omega), List.singleton_append, List.getElem?_cons_succ,
      List.getElem?_reverse (by simp; omega)]
    simp only [List.length_map, List.length_range, List.getElem?_map]
    rw [List.getElem?_range (by omega)]
    rfl
  · simp only [biWeights, e1]
    rw [List.getElem?_append_right (by simp)]
    simp
  · intro k hk
    have : n - 1 - k = (n - 1 - (k + 1)) + 1 := by omega
    simp only [this]
    refine ⟨?_, ?_⟩
    · rw [show (-(((n - 1 - (k + 1)) + 1 : ℕ) : ℤ)) = -((n - 1 - (k + 1) : ℕ) : ℤ) - 1 by push_cast; ring,
        zpow_sub_one₀ (by norm_num)]
      ring
    · rw [pow_succ]
      ring
  · intro hn
    simp

/-- Two intermediate steps. -/
example (gii : ℝ → ℝ → ℝ) : (biWeights gii 0.1 2).length = 4 := by simp [biWeights]

end Razorback.Props
