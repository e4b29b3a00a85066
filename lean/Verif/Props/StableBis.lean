/-
A concrete estimation with a bounded influence step which is stable (C128).
-/
import Verif.Props.Stable

namespace Razorback.Props
open Razorback Razorback.Spec Razorback.MEst Razorback.Weights Filter Topology

/-- One step on the samples 1, -1, 2, -2 of a constant. -/
theorem exB_step {u v s a c a' c' : ℝ} (ha' : 0 < a') (hc' : 0 < c') {st : Mem} {it : ℕ}
    (hcall : thomson (q := 1) (some 3) st.2 it (mask exT []) exT exTb [] = (.ok (some [.fin u, .fin u, .fin v, .fin v]), some (.fin s)))
    (hm : Remembered st.1 it 4 [a', a', c', c'] [a, a, c, c]) :
    bis (q := 1) (thomson (some 3)) (1 / 2) 2 st it (mask exT []) exT exTb [] =
      (.ok (some ([u * (a * influence (1 / 2) 2 a'), u * (a * influence (1 / 2) 2 a'), v * (c * influence (1 / 2) 2 c'), v * (c * influence (1 / 2) 2 c')].map Flt.fin)),
        (some ⟨it, some ([u * (a * influence (1 / 2) 2 a'), u * (a * influence (1 / 2) 2 a'), v * (c * influence (1 / 2) 2 c'), v * (c * influence (1 / 2) 2 c')].map Flt.fin),
          .fin [u * (a * influence (1 / 2) 2 a'), u * (a * influence (1 / 2) 2 a'), v * (c * influence (1 / 2) 2 c'), v * (c * influence (1 / 2) 2 c')].sum,
          some ([a * influence (1 / 2) 2 a', a * influence (1 / 2) 2 a', c * influence (1 / 2) 2 c', c * influence (1 / 2) 2 c'].map Flt.fin)⟩, some (.fin s))) := by
  have hind : Independent (obs exT exTb [a', a', c', c']) := by
    rw [C44_independent _ (by simp [obs, exT, exTb, ha'.le, hc'.le])]
    intro d hd
    have := hd ⟨a', 1, fun _ => 1⟩ (by simp [obs, exT, exTb]) ha'.ne'
    simp [dotProduct] at this
    funext j
    rw [Fin.fin_one_eq_zero j, this]; rfl
  obtain ⟨h1, h2, h3, h4, h5, h6⟩ := bis_step (thomson (some 3)) (1 / 2) 2 (by norm_num) (by norm_num) one_ne_zero st ⟨it, mask exT [], exT, exTb, []⟩ rfl
    [a', a', c', c'] [a, a, c, c] hm (by simp [ha'.le, hc'.le]) hind _ _ hcall [u, u, v, v] rfl rfl (by
      intro i x hx
      refine ⟨by simp, fun _ => ?_⟩
      have : (([u, u, v, v] : List ℝ).map Flt.fin)[i]? = some (.fin x) := by rw [List.getElem?_map, hx]; rfl
      exact this) _ _ _ rfl rfl rfl
  obtain ⟨L, hL⟩ : ∃ L, L = RCLike.re (levOf exTb (some [a', a', c', c']) (fun _ => (1 : ℝ))) := ⟨_, rfl⟩
  have hh : List.zipWith (fun v r => v * RCLike.re (levOf exTb (some [a', a', c', c']) r)) [a', a', c', c'] exTb = [a' * L, a' * L, c' * L, c' * L] := by
    simp [exTb, hL]
  simp only [hh] at h1 h4
  have hsum : (2 * a' + 2 * c') * L = 1 := by
    simp only [List.sum_cons, List.sum_nil, Nat.cast_one] at h4
    linarith
  have hrel : ∀ x : ℝ, [a', a', c', c'].sum * (x * L) / ((1 : ℕ) : ℝ) = x := by
    intro x
    simp only [List.sum_cons, List.sum_nil, Nat.cast_one, div_one]
    calc _ = x * ((2 * a' + 2 * c') * L) := by ring
      _ = x := by rw [hsum, mul_one]
  simp only [List.zipWith_cons_cons, List.zipWith_nil_left, hrel] at h1
  exact h1

theorem influence_pos {y : ℝ} (hy : 0 < y) : 0 < influence (1 / 2) 2 y := by
  unfold influence
  rw [if_neg hy.ne']
  positivity

theorem influence_lt {y : ℝ} (hy : 0 < y) : influence (1 / 2) 2 y < 3 := by
  refine lt_of_le_of_lt ((C78_factor (1 / 2) 2 (by norm_num) (by norm_num) (by norm_num)).1 y hy.le).2 ?_
  calc Real.exp (Real.exp (-Real.log (1 / 2) ^ 2)) ≤ Real.exp 1 := Real.exp_le_exp.2 (by
        rw [← Real.exp_zero]
        exact Real.exp_le_exp.2 (by nlinarith [sq_nonneg (Real.log (1 / 2))]))
    _ < 3 := by linarith [Real.exp_one_lt_d9]

theorem exB_energy {u v : ℝ} (hu : 0 < u) (hv : 0 < v) : wresid (some [.fin u, .fin u, .fin v, .fin v]) exT = 2 * u + 8 * v := by
  simp only [wresid, realWeights, dotdiag, exT, Option.map_some, List.map_cons, List.map_nil, Flt.val?, Option.getD_some, List.zipWith_cons_cons, List.zipWith_nil_left,
    List.sum_cons, List.sum_nil, star_trivial, smul_eq_mul]
  rw [Real.norm_eq_abs]
  have : (1 : ℝ) * (u * 1) + (-1 * (u * -1) + (2 * (v * 2) + (-2 * (v * -2) + 0))) = 2 * u + 8 * v := by ring
  rw [this, abs_of_pos (by positivity)]

/-- Two passes of the step on these data, which end the estimation if the tolerance is 10, as the factors are between 0 and 3. -/
theorem exB_passes : ∃ (u v u' v' : ℝ) (s1 s2 : Mem), 0 < u ∧ 0 < v ∧ 0 < u' ∧ 0 < v' ∧ u' < 3 * u ∧ v' < 3 * v ∧
    (∀ st, evalWeight (Obj.bis (.thomson (some 3)) (1 / 2) 2).call 0 exT exT exTb [] 0 st = (.ok (some [.fin u, .fin u, .fin v, .fin v], []), s1)) ∧
    evalWeight (Obj.bis (.thomson (some 3)) (1 / 2) 2).call 1 exT exT exTb [] 0 s1 = (.ok (some [.fin u', .fin u', .fin v', .fin v'], []), s2) := by
  obtain ⟨u, v, s, hu, hv, hs, hcall⟩ := exT_call
  have f1 := influence_pos one_pos
  have hU : 0 < u * (1 * influence (1 / 2) 2 1) := by positivity
  have hV : 0 < v * (1 * influence (1 / 2) 2 1) := by positivity
  have step0 := fun st : Mem => exB_step (u := u) (v := v) (s := s) (a := 1) (c := 1) (a' := 1) (c' := 1) one_pos one_pos (st := st) (it := 0) (hcall 0 st.2 (.inl rfl))
    ⟨rfl, rfl, .inl ⟨rfl, rfl, rfl⟩⟩
  generalize hst1 : ((some ⟨((0 : ℕ) : ℤ), some ([u * (1 * influence (1 / 2) 2 1), u * (1 * influence (1 / 2) 2 1), v * (1 * influence (1 / 2) 2 1), v * (1 * influence (1 / 2) 2 1)].map Flt.fin),
          .fin [u * (1 * influence (1 / 2) 2 1), u * (1 * influence (1 / 2) 2 1), v * (1 * influence (1 / 2) 2 1), v * (1 * influence (1 / 2) 2 1)].sum,
          some ([1 * influence (1 / 2) 2 1, 1 * influence (1 / 2) 2 1, 1 * influence (1 / 2) 2 1, 1 * influence (1 / 2) 2 1].map Flt.fin)⟩, some (.fin s)) : Mem) = s1 at step0
  have f2 := influence_pos hU
  have f3 := influence_pos hV
  have step1 := exB_step (u := u) (v := v) (s := s) hU hV (st := s1) (it := 1) (hcall 1 s1.2 (.inr (by rw [← hst1])))
    ⟨rfl, rfl, .inr ⟨one_ne_zero, _, by rw [← hst1], rfl, rfl, rfl, rfl⟩⟩
  have hl : ∀ {a c : ℝ} {st st' : Mem} {it : ℕ}, 0 < a → 0 < c →
      bis (q := 1) (thomson (some 3)) (1 / 2) 2 st it (mask exT []) exT exTb [] = (.ok (some ([a, a, c, c].map Flt.fin)), st') →
      evalWeight (Obj.bis (.thomson (some 3)) (1 / 2) 2).call it exT exT exTb [] 0 st = (.ok (some [.fin a, .fin a, .fin c, .fin c], []), st') := by
    intro a c st st' it ha hc h
    obtain ⟨-, -, hneg, hzero⟩ := exT_wlse ha hc
    unfold evalWeight
    have h' : (Obj.bis (.thomson (some 3)) (1 / 2) 2).call st it (mask exT []) exT exTb [] = (.ok (some [.fin a, .fin a, .fin c, .fin c]), st') := h
    rw [h']
    simp only [List.any_nil, Bool.false_eq_true, if_false]
    rw [if_neg (by simp [exT]), hneg, hzero]
  refine ⟨_, _, _, _, s1, _, hU, hV, ?_, ?_, ?_, ?_, fun st => hl hU hV (step0 st), hl ?_ ?_ step1⟩
  · positivity
  · positivity
  · have := influence_lt hU
    nlinarith
  · have := influence_lt hV
    nlinarith
  · positivity
  · positivity

/-- The estimation gives 0. -/
theorem exB_ok (st : Mem) : ∃ st', mEstimate exT exTb (some fun _ => 0) (some (Obj.bis (.thomson (some 3)) (1 / 2) 2).call) [] { eps := 0, tol := 10 } st =
    (.ok (fun _ => 0, []), st') := by
  obtain ⟨u, v, u', v', s1, s2, hu, hv, hu', hv', hu3, hv3, h0, h1⟩ := exB_passes
  refine ⟨s2, ?_⟩
  show MEst.loop _ exT exTb { eps := 0, tol := 10 } (98 + 1 + 1) 0 (MEst.residual exT exTb (fun _ => 0)) [] none st = _
  rw [exT_residual, MEst.loop, h0 st]
  simp only
  rw [(exT_wlse hu hv).1]
  simp only [exT_residual]
  rw [if_neg (by simp [converged]), MEst.loop, zero_add, h1]
  simp only
  rw [(exT_wlse hu' hv').1]
  simp only [exT_residual]
  rw [if_pos]
  rw [exB_energy hu hv, exB_energy hu' hv', converged_lt (by positivity), abs_lt]
  constructor <;> linarith

/-- No decision of this estimation is a close call. -/
theorem exB_clear (st : Mem) : NoCloseCall (Obj.bis (.thomson (some 3)) (1 / 2) 2).call exT exTb { eps := 0, tol := 10 } (fun _ => 0) [] st := by
  obtain ⟨u, v, u', v', s1, s2, hu, hv, hu', hv', hu3, hv3, h0, h1⟩ := exB_passes
  have hpass : ∀ {it st p st' a c}, 0 < a → 0 < c → evalWeight (Obj.bis (.thomson (some 3)) (1 / 2) 2).call it exT exT exTb [] 0 st =
      (.ok (some [.fin a, .fin a, .fin c, .fin c], []), st') →
      IsPass (Obj.bis (.thomson (some 3)) (1 / 2) 2).call exT exTb 0 it exT [] st p → p = ⟨some [.fin a, .fin a, .fin c, .fin c], [], fun _ => 0, st'⟩ := by
    intro it st p st' a c ha hc he hp
    obtain ⟨h3, h4⟩ := (isPass_iff rfl rfl).1 hp
    rw [he] at h3
    obtain ⟨pw, pr, pz, pst⟩ := p
    simp only [Prod.mk.injEq, Except.ok.injEq] at h3 h4
    obtain ⟨⟨rfl, rfl⟩, rfl⟩ := h3
    rw [(exT_wlse ha hc).1, Except.ok.injEq] at h4
    rw [h4]
  have henergy : ∀ {a c st' x}, 0 < a → 0 < c → EnergyIs exT exTb (⟨some [.fin a, .fin a, .fin c, .fin c], [], fun _ => 0, st'⟩ : Pass Mem ℝ 1) x → x = 2 * a + 8 * c := by
    rintro a c st' x ha hc ⟨ws, hws, rfl⟩
    have : ws = [a, a, c, c] := by
      rcases hws.2 with h | h
      · simp at h
      · simp only [Option.some.injEq] at h
        exact (List.map_injective_iff.2 (fun a b h => Flt.fin.inj h) (a₁ := [a, a, c, c]) (a₂ := ws) (by simpa using h)).symm
    rw [this]
    have hcost : cost (obs exT exTb [a, a, c, c]) (fun _ => (0 : ℝ)) = 2 * a + 8 * c := by
      simp [cost, obs, dotProduct, exT, exTb]
      ring
    rw [hcost, abs_of_pos (by positivity)]
  have hoff : ∀ {a c st'}, 0 < a → 0 < c → OffLimit 0 (⟨some [.fin a, .fin a, .fin c, .fin c], [], fun _ => 0, st'⟩ : Pass Mem ℝ 1) := by
    intro a c st' ha hc w hw x hx
    simp only [Option.some.injEq] at hw
    subst hw
    simp only [List.mem_cons, Flt.fin.injEq, List.not_mem_nil, or_false] at hx
    rcases hx with rfl | rfl | rfl | rfl <;> simp [ha.ne', hc.ne']
  intro ps hps hch
  have hres : resid exT exTb (fun _ => 0) = exT := exT_residual
  rw [hres] at hps
  cases hps with
  | nil => exact ⟨by simp, by simp⟩
  | cons g1 g2 =>
    rename_i p ps
    have := hpass hu hv (h0 st) g1
    subst this
    simp only [hres] at g2
    cases g2 with
    | nil => exact ⟨by simpa using hoff hu hv, by simp⟩
    | cons g3 g4 =>
      rename_i p ps
      have := hpass hu' hv' h1 g3
      subst this
      have hsmall : SmallChange exT exTb 10 (⟨some [.fin u, .fin u, .fin v, .fin v], [], fun _ => 0, s1⟩ : Pass Mem ℝ 1)
          ⟨some [.fin u', .fin u', .fin v', .fin v'], [], fun _ => 0, s2⟩ := by
        have hE : ∀ {a c : ℝ} {st' : Mem}, 0 < a → 0 < c → EnergyIs exT exTb (⟨some [.fin a, .fin a, .fin c, .fin c], [], fun _ => 0, st'⟩ : Pass Mem ℝ 1) (2 * a + 8 * c) := by
          intro a c st' ha hc
          refine ⟨[a, a, c, c], ⟨rfl, .inr rfl⟩, ?_⟩
          have hcost : cost (obs exT exTb [a, a, c, c]) (fun _ => (0 : ℝ)) = 2 * a + 8 * c := by
            simp [cost, obs, dotProduct, exT, exTb]
            ring
          rw [hcost, abs_of_pos (by positivity)]
        refine ⟨_, _, hE hu hv, hE hu' hv', by positivity, ?_⟩
        rw [abs_lt]; constructor <;> linarith
      cases ps with
      | nil =>
        refine ⟨by simpa using ⟨hoff hu hv, hoff hu' hv'⟩, ?_⟩
        refine List.isChain_cons_cons.2 ⟨?_, by simp⟩
        intro x y hx hy
        rw [henergy hu hv hx, henergy hu' hv' hy]
        have : |2 * u' + 8 * v' - (2 * u + 8 * v)| < 10 * (2 * u + 8 * v) := by rw [abs_lt]; constructor <;> linarith
        exact this.ne
      | cons p ps =>
        simp only [List.dropLast_cons_cons] at hch
        exact absurd hsmall (List.isChain_cons_cons.1 hch).1

/-- With a bounded influence step over Thomson weights the estimate from nearly 1, -1, 2, -2 is nearly 0. -/
example (ε : ℝ) (hε : 0 < ε) : ∀ᶠ e : Fin 4 → ℝ in 𝓝 ![1, -1, 2, -2], ∃ z,
    (mEstimate (List.ofFn e) exTb (some fun _ => 0) (some (Obj.bis (.thomson (some 3)) (1 / 2) 2).call) [] { eps := 0, tol := 10 } (none, none)).1 = .ok (z, []) ∧
      |z 0| < ε := by
  obtain ⟨st', h⟩ := exB_ok (none, none)
  have he : exT = List.ofFn ![1, -1, 2, -2] := by simp [exT, List.ofFn_succ]
  have hb : exTb = List.ofFn (fun (_ : Fin 4) (_ : Fin 1) => (1 : ℝ)) := by simp [exTb, List.ofFn_succ]
  have hc := exB_clear (none, none)
  rw [he, hb] at h hc
  have key := C128_estimate (w := .bis (.thomson (some 3)) (1 / 2) 2) Nat.one_pos ⟨by intro x hx; cases hx; norm_num, by norm_num, by norm_num, by norm_num⟩
    _ _ _ _ _ _ _ _ _ h hc ε hε
  have hcont : Tendsto (fun e : Fin 4 → ℝ => (e, (fun (_ : Fin 4) (_ : Fin 1) => (1 : ℝ)), (fun _ : Fin 1 => (0 : ℝ)))) (𝓝 ![1, -1, 2, -2])
      (𝓝 (![1, -1, 2, -2], (fun (_ : Fin 4) (_ : Fin 1) => (1 : ℝ)), (fun _ : Fin 1 => (0 : ℝ)))) :=
    (show Continuous fun e : Fin 4 → ℝ => (e, (fun (_ : Fin 4) (_ : Fin 1) => (1 : ℝ)), (fun _ : Fin 1 => (0 : ℝ))) by fun_prop).tendsto _
  filter_upwards [hcont.eventually key] with e h
  obtain ⟨z, h1, h2⟩ := h (none, none)
  refine ⟨z, ?_, by simpa using h2 0⟩
  rw [hb]
  exact h1

end Razorback.Props
