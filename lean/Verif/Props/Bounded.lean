/-
Property C78: bounded influence weights.
-/
import Verif.Props.Weights

namespace Razorback.Props
open Razorback Razorback.Spec Razorback.MEst Razorback.Weights
open scoped Matrix

variable {𝕜 : Type} [RCLike 𝕜] {q : ℕ} {σ : Type}

theorem quad_form (l : List (Obs 𝕜 q)) (d : Fin q → 𝕜) :
    ∑ j, star (d j) * (l.map (fun t => star (t.y j) * (t.w • (t.y ⬝ᵥ d)))).sum =
      (((l.map (fun t => t.w * ‖t.y ⬝ᵥ d‖ ^ 2)).sum : ℝ) : 𝕜) := by
  induction l with
  | nil => simp
  | cons t l ih =>
    simp only [List.map_cons, List.sum_cons, mul_add, Finset.sum_add_distrib, ih, RCLike.ofReal_add]
    congr 1
    have : ∑ j, star (d j) * (star (t.y j) * (t.w • (t.y ⬝ᵥ d))) = t.w • (star (t.y ⬝ᵥ d) * (t.y ⬝ᵥ d)) := by
      rw [show star (t.y ⬝ᵥ d) = ∑ j, star (d j) * star (t.y j) by
        simp only [dotProduct, star_sum, star_mul']; exact Finset.sum_congr rfl (fun j _ => mul_comm _ _)]
      rw [Finset.sum_mul, Finset.smul_sum]
      refine Finset.sum_congr rfl (fun j _ => ?_)
      rw [mul_smul_comm, mul_smul_comm, mul_assoc]
    rw [this]
    have : star (t.y ⬝ᵥ d) = starRingEnd 𝕜 (t.y ⬝ᵥ d) := rfl
    rw [this, RCLike.conj_mul, RCLike.real_smul_eq_coe_mul]
    simp

theorem rhs_unit (b : List (Fin q → 𝕜)) (ws : List ℝ) (hl : ws.length = b.length) (n : ℕ) (r : Fin q → 𝕜) (v : ℝ)
    (hr : b[n]? = some r) (hv : ws[n]? = some v) (j : Fin q) :
    ((obs ((List.range b.length).map (fun i => if i = n then 1 else 0)) b ws).map (fun t => star (t.y j) * (t.w • t.x))).sum =
      star (r j) * (v : 𝕜) := by
  have key : ∀ (b : List (Fin q → 𝕜)) (ws : List ℝ) (m : ℕ), ws.length = b.length →
      ((obs ((List.range' m b.length).map (fun i => if i = n then (1 : 𝕜) else 0)) b ws).map
        (fun t => star (t.y j) * (t.w • t.x))).sum =
      if m ≤ n then (match b[n - m]?, ws[n - m]? with
        | some r, some v => star (r j) * (v : 𝕜)
        | _, _ => 0) else 0 := by
    intro b
    induction b with
    | nil => intro ws m h; simp [obs]
    | cons a b ih =>
      intro ws m h
      cases ws with
      | nil => simp at h
      | cons u ws =>
        have := ih ws (m + 1) (by simpa using h)
        simp only [obs, List.length_cons, List.range'_succ, List.map_cons, List.zip_cons_cons, List.zipWith_cons_cons,
          List.sum_cons] at this ⊢
        rw [this]
        by_cases hmn : m = n
        · subst hmn
          simp [RCLike.real_smul_eq_coe_mul]
        · by_cases hle : m ≤ n
          · have : n - m = (n - (m + 1)) + 1 := by omega
            simp [hmn, hle, this, show m + 1 ≤ n by omega]
          · simp [hmn, hle, show ¬ m + 1 ≤ n by omega]
  have := key b ws 0 hl
  simp only [Nat.sub_zero, Nat.zero_le, if_true, hr, hv] at this
  rw [List.range_eq_range']
  exact this

/-- `b_n A^{-1} b_n^*` -/
noncomputable def levOf (b : List (Fin q → 𝕜)) (w : Option (List ℝ)) (r : Fin q → 𝕜) : 𝕜 :=
  ∑ j, ((gram b w)⁻¹ *ᵥ (fun j => star (r j))) j * r j

theorem levOf_props (b : List (Fin q → 𝕜)) (w : Option (List ℝ)) (hw : (eff w b.length).length = b.length)
    (hdet : (gram b w).det ≠ 0) (hpos : ∀ v ∈ eff w b.length, 0 ≤ v) (n : ℕ) (r : Fin q → 𝕜) (v : ℝ)
    (hr : b[n]? = some r) (hv : (eff w b.length)[n]? = some v) :
    ∃ S : ℝ, levOf b w r = (S : 𝕜) ∧ 0 ≤ S ∧ v * S ≤ 1 ∧ IsLeverage b (eff w b.length) n (v * S) := by
  have hu : IsUnit (gram b w).det := isUnit_iff_ne_zero.2 hdet
  let x := (gram b w)⁻¹ *ᵥ (fun j => star (r j))
  have hAx : gram b w *ᵥ x = fun j => star (r j) := by
    simp only [x, Matrix.mulVec_mulVec, Matrix.mul_nonsing_inv _ hu, Matrix.one_mulVec]
  let e : List 𝕜 := (List.range b.length).map (fun i => if i = n then 1 else 0)
  have he : e.length = b.length := by simp [e]
  have hq := quad_form (obs e b (eff w b.length)) x
  simp only [← gram_mulVec he hw, hAx] at hq
  let S := ((obs e b (eff w b.length)).map (fun t => t.w * ‖t.y ⬝ᵥ x‖ ^ 2)).sum
  have hlev : levOf b w r = (S : 𝕜) := by
    have h1 : levOf b w r = star (∑ j, star (x j) * star (r j)) := by
      simp only [levOf, star_sum, star_mul', star_star]
      rfl
    rw [h1, hq]
    exact RCLike.conj_ofReal _
  have hterm : ∀ a ∈ (obs e b (eff w b.length)).map (fun t => t.w * ‖t.y ⬝ᵥ x‖ ^ 2), 0 ≤ a := by
    intro a ha
    obtain ⟨t, ht, rfl⟩ := List.mem_map.1 ha
    have : 0 ≤ t.w := by
      obtain ⟨i, hi, rfl⟩ := List.getElem_of_mem ht
      simp only [obs, List.getElem_zipWith]
      exact hpos _ (List.getElem_mem _)
    positivity
  have hS : 0 ≤ S := List.sum_nonneg hterm
  have hrx : r ⬝ᵥ x = (S : 𝕜) := by
    rw [← hlev]
    simp only [levOf, dotProduct]
    exact Finset.sum_congr rfl (fun j _ => mul_comm _ _)
  have hn : n < b.length := (List.getElem?_eq_some_iff.1 hr).1
  have hmem : (⟨v, e.getD n 0, r⟩ : Obs 𝕜 q) ∈ obs e b (eff w b.length) := by
    apply List.mem_of_getElem? (i := n)
    simp only [obs, List.getElem?_zipWith, hv, List.zip, hr]
    rw [List.getElem?_eq_getElem (by rw [he]; exact hn)]
    simp [List.getElem?_eq_getElem (show n < e.length by rw [he]; exact hn)]
  have hge : v * S ^ 2 ≤ S := by
    have := List.single_le_sum hterm _ (List.mem_map.2 ⟨_, hmem, rfl⟩)
    simp only [hrx, RCLike.norm_ofReal, sq_abs] at this
    exact this
  refine ⟨S, hlev, hS, ?_, ?_⟩
  · rcases hS.eq_or_lt with h0 | h0
    · rw [← h0]; simp
    · have : v * S * S ≤ 1 * S := by nlinarith
      exact le_of_mul_le_mul_right this h0
  · refine ⟨fun j => (v : 𝕜) * x j, r, ?_, hr, ?_⟩
    · rw [normalEq_iff he hw]
      funext j
      rw [rhs_obs he hw, rhs_unit b _ hw n r v hr hv j]
      have : (gram b w *ᵥ fun j => (v : 𝕜) * x j) = (v : 𝕜) • (gram b w *ᵥ x) := by
        rw [← Matrix.mulVec_smul]; rfl
      rw [this, hAx]
      simp [mul_comm]
    · have : (r ⬝ᵥ fun j => (v : 𝕜) * x j) = (v : 𝕜) * (r ⬝ᵥ x) := by
        simp only [dotProduct, Finset.mul_sum]
        exact Finset.sum_congr rfl (fun j _ => by ring)
      rw [this, hrx]
      simp

theorem levOf_sum (b : List (Fin q → 𝕜)) (w : Option (List ℝ)) (hw : (eff w b.length).length = b.length)
    (hdet : (gram b w).det ≠ 0) :
    (List.zipWith (fun v r => v * RCLike.re (levOf b w r)) (eff w b.length) b).sum = q := by
  have hu : IsUnit (gram b w).det := isUnit_iff_ne_zero.2 hdet
  have key : ∀ (M : Matrix (Fin q) (Fin q) 𝕜) (ws : List ℝ) (b : List (Fin q → 𝕜)), ws.length = b.length →
      (List.zipWith (fun v r => v • ∑ j, (M *ᵥ (fun j => star (r j))) j * r j) ws b).sum =
        ∑ j, ∑ k, M j k * (List.zipWith (fun r v => star (r k) * v j) b (List.zipWith (fun (a : ℝ) v => a • v) ws b)).sum := by
    intro M ws b
    induction b generalizing ws with
    | nil => simp
    | cons a b ih =>
      intro h
      cases ws with
      | nil => simp at h
      | cons u ws =>
        simp only [List.zipWith_cons_cons, List.sum_cons, mul_add, Finset.sum_add_distrib]
        rw [ih ws (by simpa using h)]
        congr 1
        rw [Finset.smul_sum]
        refine Finset.sum_congr rfl (fun j _ => ?_)
        simp only [Matrix.mulVec, dotProduct, Finset.sum_mul, Finset.smul_sum, Pi.smul_apply, RCLike.real_smul_eq_coe_mul]
        exact Finset.sum_congr rfl (fun k _ => by ring)
  have h1 : (List.zipWith (fun v r => v • levOf b w r) (eff w b.length) b).sum = (q : 𝕜) := by
    simp only [levOf]
    rw [key _ _ _ hw]
    have h2 : ∀ j k, (List.zipWith (fun r v => star (r k) * v j) b (List.zipWith (fun (a : ℝ) v => a • v) (eff w b.length) b)).sum =
        gram b w k j := by
      intro j k
      simp only [gram, Matrix.of_apply, dotdiag_eff]
    simp only [h2]
    have h3 : ∀ j, ∑ k, (gram b w)⁻¹ j k * gram b w k j = 1 := by
      intro j
      have := congrFun (congrFun (Matrix.nonsing_inv_mul _ hu) j) j
      simpa [Matrix.mul_apply] using this
    simp [h3]
  have h4 : ∀ (ws : List ℝ) (b' : List (Fin q → 𝕜)), (List.zipWith (fun v r => v * RCLike.re (levOf b w r)) ws b').sum =
      RCLike.re (List.zipWith (fun v r => v • levOf b w r) ws b').sum := by
    intro ws b'
    induction b' generalizing ws with
    | nil => simp
    | cons a b' ih =>
      cases ws with
      | nil => simp
      | cons u ws => simp only [List.zipWith_cons_cons, List.sum_cons, map_add, RCLike.smul_re, ih]
  rw [h4, h1]
  simp

theorem timesArr_fin (a b : List ℝ) : timesArr (some (a.map Flt.fin)) (b.map Flt.fin) = (List.zipWith (· * ·) a b).map Flt.fin := by
  simp only [timesArr, List.zipWith_map_left, List.zipWith_map_right, List.map_zipWith, Flt.mul]

theorem zipWith_ones (b : List ℝ) : List.zipWith (· * ·) (List.replicate b.length (1 : ℝ)) b = b := by
  induction b with
  | nil => rfl
  | cons a b ih => simp only [List.length_cons, List.replicate_succ, List.zipWith_cons_cons, one_mul, ih]

theorem influence_eq {lower khi y : ℝ} (h1 : 0 < lower) (h2 : lower < 1) (hy : 0 ≤ y) :
    Flt.mul (expexp (.fin y) khi) (expexp (Flt.log (.fin y)) (Real.log lower)) = .fin (influence lower khi y) := by
  have hl : Real.log lower < 0 := Real.log_neg h1 h2
  unfold influence
  by_cases h0 : y = 0
  · subst h0
    rw [if_pos rfl]
    simp only [Flt.log, lt_irrefl, if_false, if_true]
    have : expexp .ninf (Real.log lower) = .fin 0 := by
      simp [expexp, Flt.sub, Flt.neg, Flt.add, Flt.mul, Flt.infTimes, Flt.exp, hl.ne, hl.le, not_lt.2 hl.le]
    rw [this, expexp_fin]
    simp [Flt.mul]
  · rw [if_neg h0]
    have hp : 0 < y := lt_of_le_of_ne hy (Ne.symm h0)
    simp only [Flt.log, not_lt.2 hy, if_false, h0, expexp_fin, Flt.mul]

theorem sum_fin (l : List ℝ) : Flt.sum (l.map Flt.fin) = .fin l.sum := by
  have key : ∀ (l : List ℝ) (a : ℝ), (l.map Flt.fin).foldl Flt.add (.fin a) = .fin (a + l.sum) := by
    intro l
    induction l with
    | nil => simp
    | cons b l ih => intro a; simp only [List.map_cons, List.foldl_cons, Flt.add, ih, List.sum_cons]; congr 1; ring
  rw [Flt.sum, key]
  simp

theorem gram_eff (b : List (Fin q → 𝕜)) (w : Option (List ℝ)) : gram b (some (eff w b.length)) = gram b w := by
  ext j k
  simp only [gram, Matrix.of_apply, dotdiag_eff w b]
  rfl

/-- A step, with its formulas. -/
theorem bis_step (inner : WFun σ 𝕜 q) (lower khi : ℝ) (hlo : 0 < lower) (hlo1 : lower < 1) (hq : q ≠ 0)
    (st : Option Prev × σ) (c : Call 𝕜 q) (heb : c.e.length = c.b.length) (bi hat : List ℝ)
    (hm : Remembered st.1 c.it c.b.length bi hat) (hpos : ∀ v ∈ bi, 0 ≤ v) (hind : Independent (obs c.e c.b bi))
    (w0 : List Flt) (s : σ) (hin : inner st.2 c.it c.r c.e c.b c.inv = (.ok (some w0), s)) (ws : List ℝ)
    (hwl : w0.length = c.b.length) (hws : ws.length = c.b.length)
    (hw : ∀ (i : ℕ) v, ws[i]? = some v → (i ∈ c.inv → v = 0) ∧ (i ∉ c.inv → w0[i]? = some (.fin v))) :
    ∀ h hat' bi' : List ℝ, h = List.zipWith (fun v r => v * RCLike.re (levOf c.b (some bi) r)) bi c.b →
      hat' = List.zipWith (fun a v => a * influence lower khi (bi.sum * v / q)) hat h → bi' = List.zipWith (· * ·) ws hat' →
      bis inner lower khi st c.it c.r c.e c.b c.inv = (.ok (some (bi'.map Flt.fin)), (some ⟨c.it, some (bi'.map Flt.fin), .fin bi'.sum, some (hat'.map Flt.fin)⟩, s)) ∧
      h.length = c.b.length ∧ (∀ (n : ℕ) v, h[n]? = some v → IsLeverage c.b bi n v ∧ 0 ≤ v ∧ v ≤ 1) ∧ h.sum = (q : ℝ) ∧
      hat'.length = c.b.length ∧ bi'.length = c.b.length := by
  obtain ⟨hbl, hhl, hm⟩ := hm
  -- the record read by the call
  obtain ⟨p, hp, hit, hbi, htr, hhat⟩ : ∃ p : Prev,
      (if c.it = 0 then some ⟨-1, none, .fin c.b.length, none⟩ else st.1 : Option Prev) = some p ∧ (c.it : ℤ) = 1 + p.it ∧
      WeightsAre p.bi c.b.length bi ∧ p.trace = .fin bi.sum ∧ WeightsAre p.hat c.b.length hat := by
    rcases hm with ⟨h0, rfl, rfl⟩ | ⟨h0, p, hp, hit, h1, h2, h3⟩
    · refine ⟨_, by rw [if_pos h0], by simp [h0], ⟨by simp, .inl ⟨rfl, rfl⟩⟩, by simp, ⟨by simp, .inl ⟨rfl, rfl⟩⟩⟩
    · exact ⟨p, by rw [if_neg h0, hp], by omega, ⟨hbl, .inr h1⟩, h2, ⟨hhl, .inr h3⟩⟩
  obtain ⟨w, hw1, hw2⟩ : ∃ w : Option (List ℝ), eff w c.b.length = bi ∧
      (leverage c.b p.bi = if (gram c.b w).det = 0 then .error .linAlg else .ok (c.b.map (fun r => RCLike.re (levOf c.b w r)))) := by
    obtain ⟨hl, ⟨h1, h2⟩ | h1⟩ := hbi
    · exact ⟨none, h2.symm, by rw [h1]; rfl⟩
    · refine ⟨some bi, rfl, ?_⟩
      rw [h1]
      simp only [leverage]
      rw [if_neg (by simp [hbl]), mapM_val.2 rfl]
      rfl
  have hwl' : (eff w c.b.length).length = c.b.length := by rw [hw1, hbl]
  have hdet : (gram c.b w).det ≠ 0 := (independent_iff heb hwl').1 (by rw [hw1]; exact hind)
  have hlev : leverage c.b p.bi = .ok (c.b.map (fun r => RCLike.re (levOf c.b w r))) := by rw [hw2, if_neg hdet]
  intro h hat' bi' hhd hhat'd hbi'd
  have hlo' : ∀ r, levOf c.b (some bi) r = levOf c.b w r := by
    intro r; simp only [levOf, ← hw1, gram_eff]
  simp only [hlo'] at hhd
  have hh : h.length = c.b.length := by simp [hhd, hbl]
  have hprop : ∀ (n : ℕ) v, h[n]? = some v → IsLeverage c.b bi n v ∧ 0 ≤ v ∧ v ≤ 1 := by
    intro n v hv
    have hn : n < c.b.length := by rw [← hh]; exact (List.getElem?_eq_some_iff.1 hv).1
    have hr := List.getElem?_eq_getElem hn
    have hb := List.getElem?_eq_getElem (show n < bi.length by omega)
    simp only [hhd, List.getElem?_zipWith, hr, hb, Option.some.injEq] at hv
    obtain ⟨S, e1, e2, e3, e4⟩ := levOf_props c.b w hwl' hdet (by rw [hw1]; exact hpos) n _ _ hr (by rw [hw1]; exact hb)
    rw [e1, RCLike.ofReal_re] at hv
    rw [hw1] at e4
    have := hpos _ (List.mem_of_getElem? hb)
    rw [← hv]
    exact ⟨e4, by positivity, e3⟩
  have hsum : h.sum = q := by
    have := levOf_sum c.b w hwl' hdet
    rw [hw1] at this
    rw [hhd]
    exact this
  have hbsum : 0 ≤ bi.sum := List.sum_nonneg hpos
  have hh0 : ∀ v ∈ h, 0 ≤ v := by
    intro v hv
    obtain ⟨n, hn, rfl⟩ := List.getElem_of_mem hv
    exact (hprop n _ (List.getElem?_eq_getElem hn)).2.1
  have hhat' : hat'.length = c.b.length := by simp [hhat'd, hhl, hh]
  have hbi' : bi'.length = c.b.length := by simp [hbi'd, hws, hhat']
  have hq' : (q : ℝ) ≠ 0 := by exact_mod_cast hq
  -- the relative leverages
  have hT : timesArr p.bi ((c.b.map (fun r => RCLike.re (levOf c.b w r))).map Flt.fin) = h.map Flt.fin := by
    have e0 : h = List.zipWith (· * ·) bi (c.b.map (fun r => RCLike.re (levOf c.b w r))) := by
      simp only [hhd, List.zipWith_map_right]
    obtain ⟨hl, ⟨h1, h2⟩ | h1⟩ := hbi
    · rw [h1, e0, h2]
      have := zipWith_ones (c.b.map (fun r => RCLike.re (levOf c.b w r)))
      rw [List.length_map] at this
      rw [this, timesArr]
    · rw [h1, timesArr_fin, e0]
  have hY : (h.map Flt.fin).map (fun h => Flt.div (Flt.mul p.trace h) (.fin q)) = (h.map (fun v => bi.sum * v / q)).map Flt.fin := by
    simp only [List.map_map]
    refine List.map_congr_left (fun v _ => ?_)
    simp [htr, Flt.mul, Flt.div, hq']
  let y := h.map (fun v => bi.sum * v / q)
  have hy0 : ∀ v ∈ y, 0 ≤ v := by
    intro v hv
    obtain ⟨u, hu, rfl⟩ := List.mem_map.1 hv
    have := hh0 u hu
    positivity
  have hH : timesArr (some (timesArr p.hat ((y.map Flt.fin).map (fun v => expexp v khi))))
      ((y.map Flt.fin).map (fun v => expexp (Flt.log v) (Real.log lower))) = hat'.map Flt.fin := by
    have e1 : timesArr p.hat ((y.map Flt.fin).map (fun v => expexp v khi)) =
        List.zipWith (fun a v => Flt.mul (.fin a) (expexp (.fin v) khi)) hat y := by
      obtain ⟨hl, ⟨h1, h2⟩ | h1⟩ := hhat
      · rw [h1, h2, timesArr]
        have hyl : y.length = c.b.length := by simp [y, hh]
        rw [← hyl]
        clear_value y
        clear * -
        induction y with
        | nil => rfl
        | cons a y ih =>
          simp only [List.map_cons, List.length_cons, List.replicate_succ, List.zipWith_cons_cons, ← ih]
          simp only [expexp_fin, Flt.mul, one_mul]
      · rw [h1]
        simp only [timesArr, List.map_map, List.zipWith_map_left, List.zipWith_map_right, Function.comp_def]
    rw [e1]
    have e2 : hat' = List.zipWith (fun a v => a * influence lower khi v) hat y := by
      simp only [hhat'd, y, List.zipWith_map_right]
    rw [e2]
    clear_value y
    clear * - hy0 hlo hlo1
    induction y generalizing hat with
    | nil => simp [timesArr]
    | cons a y ih =>
      cases hat with
      | nil => simp [timesArr]
      | cons u hat =>
        have := ih hat (fun v hv => hy0 v (List.mem_cons_of_mem _ hv))
        simp only [timesArr] at this
        simp only [timesArr, List.map_cons, List.zipWith_cons_cons, this]
        congr 1
        have := influence_eq (khi := khi) hlo hlo1 (hy0 a (List.mem_cons_self ..))
        rw [expexp_fin] at this ⊢
        simp only [Flt.mul] at this ⊢
        cases hx : expexp (Flt.log (.fin a)) (Real.log lower) with
        | fin x => rw [hx] at this; simp only [Flt.fin.injEq] at this ⊢; rw [← this]; ring
        | nan => rw [hx] at this; simp at this
        | pinf => rw [hx] at this; simp [Flt.infTimes] at this; grind
        | ninf => rw [hx] at this; simp [Flt.infTimes] at this; grind
  have hz : zeroAt w0 c.inv = ws.map Flt.fin := by
    apply List.ext_getElem (by simp [zeroAt, hwl, hws])
    intro i h1 h2
    have hi : i < ws.length := by simpa using h2
    have := hw i _ (List.getElem?_eq_getElem hi)
    simp only [zeroAt, List.getElem_map, List.getElem_zipIdx, Nat.zero_add]
    by_cases hc : i ∈ c.inv
    · rw [if_pos (by simpa using hc), this.1 hc]
    · have e := this.2 hc
      rw [List.getElem?_eq_getElem (by omega)] at e
      rw [if_neg (by simpa using hc)]
      exact Option.some.inj e
  have hB : timesArr (some (ws.map Flt.fin)) (hat'.map Flt.fin) = bi'.map Flt.fin := by rw [hbi'd]; exact timesArr_fin _ _
  have hZ : zeroAt (bi'.map Flt.fin) c.inv = bi'.map Flt.fin := by
    apply List.ext_getElem (by simp [zeroAt])
    intro i h1 h2
    have hi : i < ws.length := by simp [hbi', hws] at h2 ⊢; exact h2
    simp only [zeroAt, List.getElem_map, List.getElem_zipIdx, Nat.zero_add]
    by_cases hc : i ∈ c.inv
    · rw [if_pos (by simpa using hc)]
      simp only [hbi'd, List.getElem_zipWith]
      rw [(hw i _ (List.getElem?_eq_getElem hi)).1 hc, zero_mul]
    · rw [if_neg (by simpa using hc)]
  refine ⟨?_, hh, hprop, hsum, hhat', hbi'⟩
  unfold bis
  simp only [hp]
  rw [if_neg (by omega)]
  simp only [hin, hlev, hz, hT, hY]
  simp only [y] at hH
  simp only [hH, hB, hZ, sum_fin]

/-- **C78.** A bounded influence step multiplies the weights of its inner function by factors accumulated over the
iterations: at each iteration, the factor of sample `n` is multiplied by the influence function of its leverage with
respect to the previous weights, times their sum, over the number of inputs.  The leverages (times the weights) are
between 0 and 1 and their sum is the number of inputs.  Invalid positions have weight zero, and weights and factors are
remembered for the next iteration. -/
theorem C78_step (inner : WFun σ 𝕜 q) (lower khi : ℝ) (hlo : 0 < lower) (hlo1 : lower < 1) (hq : q ≠ 0)
    (st : Option Prev × σ) (c : Call 𝕜 q) (heb : c.e.length = c.b.length) (bi hat : List ℝ)
    (hm : Remembered st.1 c.it c.b.length bi hat) (hpos : ∀ v ∈ bi, 0 ≤ v) (hind : Independent (obs c.e c.b bi))
    (w0 : List Flt) (s : σ) (hin : inner st.2 c.it c.r c.e c.b c.inv = (.ok (some w0), s)) (ws : List ℝ)
    (hwl : w0.length = c.b.length) (hws : ws.length = c.b.length)
    (hw : ∀ (i : ℕ) v, ws[i]? = some v → (i ∈ c.inv → v = 0) ∧ (i ∉ c.inv → w0[i]? = some (.fin v))) :
    ∃ (h hat' bi' : List ℝ) (st' : Option Prev × σ), bis inner lower khi st c.it c.r c.e c.b c.inv = (.ok (some (bi'.map Flt.fin)), st') ∧ st'.2 = s ∧
      h.length = c.b.length ∧ (∀ (n : ℕ) v, h[n]? = some v → IsLeverage c.b bi n v ∧ 0 ≤ v ∧ v ≤ 1) ∧ h.sum = (q : ℝ) ∧
      hat' = List.zipWith (fun a v => a * influence lower khi (bi.sum * v / q)) hat h ∧
      bi' = List.zipWith (· * ·) ws hat' ∧ Remembered st'.1 (c.it + 1) c.b.length bi' hat' := by
  obtain ⟨h1, h2, h3, h4, h5, h6⟩ := bis_step inner lower khi hlo hlo1 hq st c heb bi hat hm hpos hind w0 s hin ws hwl hws hw _ _ _ rfl rfl rfl
  exact ⟨_, _, _, _, h1, rfl, h2, h3, h4, rfl, rfl, h6, h5, .inr ⟨by omega, _, rfl, by simp, rfl, rfl, rfl⟩⟩

/-- **C78.** With nonnegative inner weights, the weights stay nonnegative. -/
theorem C78_nonneg (lower khi : ℝ) (ws hat h : List ℝ) (hws : ∀ v ∈ ws, 0 ≤ v) (hhat : ∀ v ∈ hat, 0 ≤ v) (c : ℝ) :
    (∀ v ∈ List.zipWith (fun a v => a * influence lower khi (c * v)) hat h, 0 ≤ v) ∧
    ∀ v ∈ List.zipWith (· * ·) ws (List.zipWith (fun a v => a * influence lower khi (c * v)) hat h), 0 ≤ v := by
  have h0 : ∀ y, 0 ≤ influence lower khi y := by
    intro y
    unfold influence
    split <;> positivity
  have h1 : ∀ v ∈ List.zipWith (fun a v => a * influence lower khi (c * v)) hat h, 0 ≤ v := by
    intro v hv
    obtain ⟨n, hn, rfl⟩ := List.getElem_of_mem hv
    simp only [List.getElem_zipWith]
    exact mul_nonneg (hhat _ (List.getElem_mem _)) (h0 _)
  refine ⟨h1, fun v hv => ?_⟩
  obtain ⟨n, hn, rfl⟩ := List.getElem_of_mem hv
  rw [List.getElem_zipWith]
  exact mul_nonneg (hws _ (List.getElem_mem _)) (h1 _ (List.getElem_mem _))

theorem first_le {khi y : ℝ} (hk : 0 ≤ khi) (hy : 0 ≤ y) : Real.exp (-khi ^ 2) - Real.exp (khi * (y - khi)) ≤ 0 := by
  have : -khi ^ 2 ≤ khi * (y - khi) := by nlinarith [mul_nonneg hk hy]
  linarith [Real.exp_le_exp.2 this]

/-- **C78.** The factor is nonnegative and bounded, and samples of extreme relative leverage, very large or very small,
get a factor near zero. -/
theorem C78_factor (lower khi : ℝ) (hlo : 0 < lower) (hlo1 : lower < 1) (hk : 0 < khi) :
    (∀ y, 0 ≤ y → 0 ≤ influence lower khi y ∧ influence lower khi y ≤ Real.exp (Real.exp (-Real.log lower ^ 2))) ∧
    Filter.Tendsto (influence lower khi) Filter.atTop (nhds 0) ∧
    Filter.Tendsto (influence lower khi) (nhdsWithin 0 (Set.Ici 0)) (nhds 0) := by
  have h0 : ∀ y, 0 ≤ influence lower khi y := by
    intro y
    unfold influence
    split <;> positivity
  have hl : Real.log lower < 0 := Real.log_neg hlo hlo1
  have hsecond : ∀ x : ℝ, Real.exp (Real.exp (-Real.log lower ^ 2) - Real.exp x) ≤ Real.exp (Real.exp (-Real.log lower ^ 2)) :=
    fun x => Real.exp_le_exp.2 (by linarith [Real.exp_pos x])
  refine ⟨fun y hy => ⟨h0 y, ?_⟩, ?_, ?_⟩
  · unfold influence
    split
    · positivity
    · have := Real.exp_le_one_iff.2 (first_le hk.le hy)
      calc _ ≤ 1 * Real.exp (Real.exp (-Real.log lower ^ 2)) := mul_le_mul this (hsecond _) (Real.exp_pos _).le zero_le_one
        _ = _ := one_mul _
  · have hlim : Filter.Tendsto (fun y => Real.exp (Real.exp (-khi ^ 2) - Real.exp (khi * (y - khi))) *
        Real.exp (Real.exp (-Real.log lower ^ 2))) Filter.atTop (nhds 0) := by
      rw [← zero_mul (Real.exp (Real.exp (-Real.log lower ^ 2)))]
      refine Filter.Tendsto.mul_const _ (Real.tendsto_exp_atBot.comp ?_)
      refine Filter.tendsto_atBot_add_const_left _ _ (Filter.tendsto_neg_atTop_atBot.comp (Real.tendsto_exp_atTop.comp ?_))
      exact (Filter.tendsto_atTop_add_const_right _ (-khi) Filter.tendsto_id).const_mul_atTop hk
    refine squeeze_zero' (Filter.Eventually.of_forall h0) ?_ hlim
    filter_upwards [Filter.eventually_gt_atTop 0] with y hy
    unfold influence
    rw [if_neg hy.ne']
    exact mul_le_mul_of_nonneg_left (hsecond _) (Real.exp_pos _).le
  · rw [show (Set.Ici (0 : ℝ)) = insert 0 (Set.Ioi 0) by rw [Set.Ioi_insert], nhdsWithin_insert]
    refine Filter.Tendsto.sup ?_ ?_
    · rw [Filter.tendsto_pure_left]
      intro s hs
      simpa [influence] using mem_of_mem_nhds hs
    · have hlim : Filter.Tendsto (fun y => Real.exp (Real.exp (-Real.log lower ^ 2) -
          Real.exp (Real.log lower * (Real.log y - Real.log lower)))) (nhdsWithin 0 (Set.Ioi 0)) (nhds 0) := by
        refine Real.tendsto_exp_atBot.comp ?_
        refine Filter.tendsto_atBot_add_const_left _ _ (Filter.tendsto_neg_atTop_atBot.comp (Real.tendsto_exp_atTop.comp ?_))
        refine Filter.Tendsto.const_mul_atBot_of_neg hl ?_
        exact Filter.tendsto_atBot_add_const_right _ (-Real.log lower) Real.tendsto_log_nhdsGT_zero
      refine squeeze_zero' (Filter.Eventually.of_forall h0) ?_ hlim
      filter_upwards [self_mem_nhdsWithin] with y hy
      have hy : 0 < y := hy
      unfold influence
      rw [if_neg hy.ne']
      have := Real.exp_le_one_iff.2 (first_le hk.le hy.le)
      calc _ ≤ 1 * _ := mul_le_mul_of_nonneg_right this (Real.exp_pos _).le
        _ = _ := one_mul _

/-- **C78.** Yet a factor may exceed one: a bounded influence step may increase weights. -/
theorem C78_exceeds_one : ∃ lower khi y : ℝ, 0 < lower ∧ lower < 1 ∧ 1 < khi ∧ 0 < y ∧ 1 < influence lower khi y := by
  refine ⟨Real.exp (-1), 3, 2, Real.exp_pos _, by rw [Real.exp_lt_one_iff]; norm_num, by norm_num, by norm_num, ?_⟩
  unfold influence
  rw [if_neg (by norm_num), Real.log_exp, ← Real.exp_add]
  apply Real.one_lt_exp_iff.2
  have h1 : Real.exp (-1 * (Real.log 2 - -1)) = Real.exp (-1) / 2 := by
    rw [show -1 * (Real.log 2 - -1) = -1 - Real.log 2 by ring, Real.exp_sub, Real.exp_log (by norm_num)]
  have h2 : Real.exp (3 * (2 - 3)) = Real.exp (-1) * Real.exp (-2) := by rw [← Real.exp_add]; norm_num
  have h3 : Real.exp (-2) < 1 / 2 := by
    rw [Real.exp_neg, one_div]
    apply inv_strictAnti₀ (by norm_num)
    have := Real.add_one_lt_exp (show (2 : ℝ) ≠ 0 by norm_num)
    linarith
  have h4 : Real.exp (-(-1) ^ 2) = Real.exp (-1) := by norm_num
  rw [h1, h2, h4]
  have h5 := mul_lt_mul_of_pos_left h3 (Real.exp_pos (-1))
  have h6 : ∀ a : ℝ, 0 < Real.exp a := Real.exp_pos
  generalize Real.exp (-1) * Real.exp (-2) = u at *
  generalize Real.exp (-1) = v at *
  have := h6 (-3 ^ 2)
  generalize Real.exp (-3 ^ 2) = t at *
  linarith

/-- **C78.** If the inputs, with the previous weights, do not determine the estimate, the step raises LinAlgError. -/
theorem C78_singular (inner : WFun σ 𝕜 q) (lower khi : ℝ) (st : Option Prev × σ) (c : Call 𝕜 q)
    (heb : c.e.length = c.b.length) (bi hat : List ℝ) (hm : Remembered st.1 c.it c.b.length bi hat)
    (hind : ¬ Independent (obs c.e c.b bi)) (w0 : List Flt) (s : σ)
    (hin : inner st.2 c.it c.r c.e c.b c.inv = (.ok (some w0), s)) :
    (bis inner lower khi st c.it c.r c.e c.b c.inv).1 = .error .linAlg := by
  obtain ⟨hbl, hhl, hm⟩ := hm
  have hdet : ∀ w : Option (List ℝ), eff w c.b.length = bi → (gram c.b w).det = 0 := by
    intro w hw
    by_contra h
    exact hind (by rw [← hw]; exact (independent_iff heb (by rw [hw, hbl])).2 h)
  rcases hm with ⟨h0, rfl, rfl⟩ | ⟨h0, p, hp, hit, h1, h2, h3⟩
  · have : leverage c.b none = .error .linAlg := by
      simp only [leverage]
      rw [if_pos (hdet none rfl)]
    simp only [h0] at hin
    simp [bis, h0, hin, this]
  · have : leverage c.b p.bi = .error .linAlg := by
      rw [h1]
      simp only [leverage]
      rw [if_neg (by simp [hbl]), mapM_val.2 rfl]
      simp only
      rw [if_pos (hdet (some bi) rfl)]
    unfold bis
    simp only [if_neg h0, hp]
    rw [if_neg (by omega)]
    simp only [hin, this]

/-- The hypotheses of `C78_step` are met: one input equal to 1 on two samples, the first iteration, with Huber
weights. -/
example : ∃ (c : Call ℂ 1) (bi hat : List ℝ) (w0 : List Flt) (ws : List ℝ),
    c.e.length = c.b.length ∧ Remembered none c.it c.b.length bi hat ∧ (∀ v ∈ bi, 0 ≤ v) ∧ Independent (obs c.e c.b bi) ∧
    (fun (_ : Unit) (_ : ℕ) (_ : List (Option ℂ)) (_ : List ℂ) (_ : List (Fin 1 → ℂ)) (_ : List ℕ) =>
      ((.ok (some [.fin 1, .nan]), ()) : Except Err (Option (List Flt)) × Unit)) () c.it c.r c.e c.b c.inv = (.ok (some w0), ()) ∧
    w0.length = c.b.length ∧ ws.length = c.b.length ∧
    (∀ (i : ℕ) v, ws[i]? = some v → (i ∈ c.inv → v = 0) ∧ (i ∉ c.inv → w0[i]? = some (.fin v))) := by
  refine ⟨⟨0, [some 1, none], [1, 2], [fun _ => 1, fun _ => 1], [1]⟩, [1, 1], [1, 1], [.fin 1, .nan], [1, 0], rfl,
    ⟨rfl, rfl, .inl ⟨rfl, rfl, rfl⟩⟩, by simp, ?_, rfl, rfl, rfl, ?_⟩
  · intro d hd
    have := hd 0
    simp [obs, dotProduct] at this
    funext j
    fin_cases j
    simpa using this
  · intro i v hv
    match i with
    | 0 => simp at hv ⊢; exact hv
    | 1 => simp at hv ⊢; exact hv.symm
    | n + 2 => simp at hv

end Razorback.Props
