/-
A concrete recording on which a robust impedance is stable (C128).
-/
import Verif.Props.StableImp

namespace Razorback.Props
open Razorback Razorback.Spec Razorback.MEst Razorback.Weights Razorback.Impedance Razorback.Fourier Filter Topology

/-- Four samples 1, -1, 2, -2 of a constant. -/
noncomputable def exThom : List ℂ := [1, -1, 2, -2]

noncomputable def exThomb : List (Fin 1 → ℂ) := [fun _ => 1, fun _ => 1, fun _ => 1, fun _ => 1]

theorem exThom_residual : MEst.residual exThom exThomb (fun _ => 0) = exThom := by simp [MEst.residual, exThom, exThomb]

theorem exThom_call : ∃ u v s : ℝ, 0 < u ∧ 0 < v ∧ 0 < s ∧ ∀ it st, (it = 0 ∨ st = some (.fin s)) →
    thomson (q := 1) (some 3) st it (mask exThom []) exThom exThomb [] = (.ok (some [.fin u, .fin u, .fin v, .fin v]), some (.fin s)) := by
  have hmed : IsMedian [1, 1, 2, 2] (3 / 2) := ⟨_, .refl _, by norm_num, .inr ⟨1, 1, 2, rfl, rfl, rfl, by norm_num⟩⟩
  have hdev : IsMedian (([1, 1, 2, 2] : List ℝ).map (fun v => |v - 3 / 2|)) (1 / 2) := by
    have : ([1, 1, 2, 2] : List ℝ).map (fun v => |v - 3 / 2|) = [1 / 2, 1 / 2, 1 / 2, 1 / 2] := by
      simp only [List.map_cons, List.map_nil]
      norm_num
    rw [this]
    exact ⟨_, .refl _, by norm_num, .inr ⟨1, 1 / 2, 1 / 2, rfl, rfl, rfl, by norm_num⟩⟩
  obtain ⟨s, hs⟩ : ∃ s, s = (1 / 2 : ℝ) / 0.44845 := ⟨_, rfl⟩
  have hpos : 0 < s := by rw [hs]; norm_num
  have hsc : madScaleAbs (vnorm (mask exThom [])) = some s := by
    rw [madScale_some]
    have : sizes (mask exThom []) = [1, 1, 2, 2] := by simp [sizes, valid, mask, exThom]
    rw [this]
    exact ⟨_, _, hmed, hdev, hs⟩
  obtain ⟨u, hu, hu0⟩ : ∃ u, u = thomsonWeight s 3 1 ∧ 0 < u := ⟨_, rfl, Real.exp_pos _⟩
  obtain ⟨v, hv, hv0⟩ : ∃ v, v = thomsonWeight s 3 2 ∧ 0 < v := ⟨_, rfl, Real.exp_pos _⟩
  have hmap : (vnorm (mask exThom [])).map (fun v => expexp (Flt.div (flt v) (.fin s)) (thomsonXi (some 3) 4)) =
      [.fin u, .fin u, .fin v, .fin v] := by
    simp only [mask, vnorm, exThom, List.zipIdx_cons, List.zipIdx_nil, List.map_cons, List.map_nil, flt, Flt.div, hpos.ne', if_false,
      expexp_fin, hu, hv, thomsonWeight, thomsonXi, List.contains_nil, Bool.false_eq_true, Option.map_some, norm_neg, norm_one, Complex.norm_ofNat,
      abs_one, abs_two, abs_neg]
  refine ⟨u, v, s, hu0, hv0, hpos, ?_⟩
  intro it st h
  have hl : (mask exThom []).length = 4 := by simp [mask, exThom]
  by_cases h0 : it = 0
  · simp only [thomson, h0, if_true, hsc, hl, flt]
    rw [← hmap]
    rfl
  · have h := h.resolve_left h0
    simp only [thomson, h0, if_false, h, hl]
    rw [← hmap]

theorem exThom_wlse {u v : ℝ} (hu0 : 0 < u) (hv0 : 0 < v) :
    wlse exThom exThomb (some [.fin u, .fin u, .fin v, .fin v]) = .ok (fun _ => 0) ∧
      wresid (some [.fin u, .fin u, .fin v, .fin v]) exThom ≠ 0 ∧
      negligible 0 (zeroAt [.fin u, .fin u, .fin v, .fin v] []) = [] ∧
      zeroAt [.fin u, .fin u, .fin v, .fin v] [] = [.fin u, .fin u, .fin v, .fin v] := by
  have hw : WeightsAre (some [.fin u, .fin u, .fin v, .fin v]) 4 [u, u, v, v] := ⟨rfl, .inr rfl⟩
  refine ⟨?_, ?_, ?_, by simp [zeroAt]⟩
  · refine (wlse_ok (ws := [u, u, v, v]) rfl hw).2 ⟨?_, ?_⟩
    · rw [C44_independent _ (by simp [obs, exThom, exThomb, hu0.le, hv0.le])]
      intro d hd
      have := hd ⟨u, 1, fun _ => 1⟩ (by simp [obs, exThom, exThomb]) hu0.ne'
      simp [dotProduct] at this
      funext j
      rw [Fin.fin_one_eq_zero j, this]; rfl
    · intro j
      simp [obs, dotProduct, exThom, exThomb]
  · rw [← exThom_residual, wresid_eq (ws := [u, u, v, v]) rfl hw]
    have : cost (obs exThom exThomb [u, u, v, v]) (fun _ => (0 : ℂ)) = 2 * u + 8 * v := by
      simp [cost, obs, dotProduct, exThom, exThomb]
      ring
    rw [this]
    positivity
  · simp [negligible, zeroAt, Flt.close0, hu0.ne', hv0.ne']

/-- From 0 on the stage succeeds. -/
theorem exThom_ok (st0 : Option Flt) : ∃ st', mEstimate exThom exThomb (some fun _ => 0) (some (thomson (some 3))) [] { eps := 0 } st0 =
    (.ok (fun _ => 0, []), st') := by
  obtain ⟨u, v, s, hu0, hv0, hpos, hcall⟩ := exThom_call
  obtain ⟨hl, hwr, hneg, hzero⟩ := exThom_wlse hu0 hv0
  have hev : ∀ it st, (it = 0 ∨ st = some (.fin s)) → evalWeight (thomson (some 3)) it exThom exThom exThomb [] 0 st =
      (.ok (some [.fin u, .fin u, .fin v, .fin v], []), some (.fin s)) := by
    intro it st h
    unfold evalWeight
    rw [hcall it st h]
    simp only [List.any_nil, Bool.false_eq_true, if_false]
    rw [if_neg (by simp [exThom]), hneg, hzero]
  refine ⟨some (.fin s), ?_⟩
  show MEst.loop (thomson (some 3)) exThom exThomb { eps := 0 } (98 + 1 + 1) 0 (MEst.residual exThom exThomb (fun _ => 0)) [] none st0 = _
  rw [exThom_residual, MEst.loop, hev 0 _ (.inl rfl)]
  simp only [hl, converged, Bool.false_eq_true, if_false]
  rw [MEst.loop, exThom_residual, hev 1 _ (.inr rfl)]
  simp only [hl]
  rw [if_pos]
  unfold converged
  simp only [decide_eq_true_eq]
  refine ⟨hwr, ?_⟩
  rw [exThom_residual]
  norm_num

/-- The estimation of the constant behind 1, -1, 2, -2 from 0, with Thomson weights, is clear cut. -/
theorem exThom_clear (st : Option Flt) : NoCloseCall (thomson (some 3)) exThom exThomb { eps := 0 } (fun _ => 0) [] st := by
  obtain ⟨u, v, s, hu0, hv0, hpos, hcall⟩ := exThom_call
  obtain ⟨hl, hwr, hneg, hzero⟩ := exThom_wlse hu0 hv0
  have hev : ∀ it st, (it = 0 ∨ st = some (.fin s)) → evalWeight (thomson (some 3)) it exThom exThom exThomb [] 0 st =
      (.ok (some [.fin u, .fin u, .fin v, .fin v], []), some (.fin s)) := by
    intro it st h
    unfold evalWeight
    rw [hcall it st h]
    simp only [List.any_nil, Bool.false_eq_true, if_false]
    rw [if_neg (by simp [exThom]), hneg, hzero]
  have key : ∀ ps it st, (it = 0 ∨ st = some (.fin s)) → Passes (thomson (some 3)) exThom exThomb 0 it exThom [] st ps →
      ∀ p ∈ ps, p = ⟨some [.fin u, .fin u, .fin v, .fin v], [], fun _ => 0, some (.fin s)⟩ := by
    intro ps
    induction ps with
    | nil => simp
    | cons p ps ih =>
      intro it st hst hp
      cases hp with
      | cons h1 h2 =>
        rw [isPass_iff rfl rfl, hev it st hst] at h1
        obtain ⟨h1, h3⟩ := h1
        obtain ⟨pw, pr, pz, pst⟩ := p
        simp only [Prod.mk.injEq, Except.ok.injEq] at h1 h3
        obtain ⟨⟨rfl, rfl⟩, rfl⟩ := h1
        rw [hl, Except.ok.injEq] at h3
        subst h3
        have hres : resid exThom exThomb (fun _ => 0) = exThom := exThom_residual
        rw [hres] at h2
        intro p hp
        rcases List.mem_cons.1 hp with rfl | hp
        · rfl
        · exact ih (it + 1) (some (.fin s)) (.inr rfl) h2 p hp
  intro ps hps _
  have hres : resid exThom exThomb (fun _ => 0) = exThom := exThom_residual
  rw [hres] at hps
  have hall := key ps 0 st (.inl rfl) hps
  have hcost : cost (obs exThom exThomb [u, u, v, v]) (fun _ => (0 : ℂ)) = 2 * u + 8 * v := by
    simp [cost, obs, dotProduct, exThom, exThomb]
    ring
  refine ⟨fun p hp => ?_, ?_⟩
  · rw [hall p hp]
    intro w hw x hx
    simp only [Option.some.injEq] at hw
    subst hw
    simp only [List.mem_cons, Flt.fin.injEq, List.not_mem_nil, or_false] at hx
    rcases hx with rfl | rfl | rfl | rfl <;> simp [hu0.ne', hv0.ne']
  · refine List.Pairwise.isChain (List.pairwise_of_forall_mem_list (fun p hp p' hp' => ?_))
    rw [hall p hp, hall p' hp']
    have hc : ∀ c, EnergyIs exThom exThomb (⟨some [.fin u, .fin u, .fin v, .fin v], [], fun _ => 0, some (.fin s)⟩ : Pass (Option Flt) ℂ 1) c → c = 2 * u + 8 * v := by
      rintro c ⟨ws, hws, rfl⟩
      have : ws = [u, u, v, v] := by
        rcases hws.2 with h | h
        · simp at h
        · simp only [Option.some.injEq] at h
          have := List.map_injective_iff.2 (fun a b h => Flt.fin.inj h) (a₁ := [u, u, v, v]) (a₂ := ws) (by simpa using h)
          exact this.symm
      rw [this, hcost, abs_of_pos (by positivity)]
    intro c c' h1 h2
    rw [hc c h1, hc c' h2, sub_self, abs_zero]
    have : (0 : ℝ) < 2 * u + 8 * v := by positivity
    norm_num
    exact this.ne'

theorem exThom_ls : (mEstimate (σ := Unit) exThom exThomb none none [] { eps := 0 } ()).1 = .ok (fun _ => 0, []) := by
  have : wlse exThom exThomb none = .ok (fun _ => 0) := by
    refine (wlse_ok (ws := [1, 1, 1, 1]) rfl ⟨rfl, .inl ⟨rfl, rfl⟩⟩).2 ⟨?_, ?_⟩
    · rw [C44_independent _ (by simp [obs, exThom, exThomb])]
      intro d hd
      have := hd ⟨1, 1, fun _ => 1⟩ (by simp [obs, exThom, exThomb]) one_ne_zero
      simp [dotProduct] at this
      funext j
      rw [Fin.fin_one_eq_zero j, this]; rfl
    · intro j
      simp [obs, dotProduct, exThom, exThomb]
  simp [mEstimate, this]

/-- No decision of least squares followed by Thomson weights is a close call on these data. -/
theorem exThom_clear_chain (heap : ℕ → Mem) :
    ClearChain { eps := 0 } (weighting ([none, some (.thomson (some 3))].map (Option.map Obj.base))) exThom exThomb none [] heap := by
  intro ws1 i wf ws2 h l hl z hz st
  simp only [weighting, List.map_cons, List.map_nil, Option.map_none, Option.map_some, List.zipIdx_cons, List.zipIdx_nil] at h
  rcases ws1 with _ | ⟨x, ws1⟩
  · simp at h
  rw [List.cons_append, List.cons.injEq] at h
  obtain ⟨rfl, h⟩ := h
  rcases ws1 with _ | ⟨y, ws1⟩
  · simp only [List.nil_append, List.cons.injEq, Option.some.injEq, Prod.mk.injEq] at h
    obtain ⟨⟨rfl, rfl⟩, -⟩ := h
    have hne : ∀ {β : Type} (l : List β), eliminate l (some []) = .ok l := fun l => by
      rw [eliminate_ok]; exact ⟨by simp, (without_nil l).symm⟩
    simp only [chainLoop, hne, callEstimate, exThom_ls] at hl
    rw [if_neg (by simp [exThom])] at hl
    simp only [Except.ok.injEq] at hl
    subst hl
    simp only [List.map_cons, List.map_nil, List.getLast?_singleton, Option.getD_some, Option.some.injEq] at hz
    subst hz
    simp only [List.map_cons, List.map_nil, withoutAll, without_nil]
    exact NoCloseCall.obj (exThom_clear st.2)
  · have := congrArg List.length h
    simp at this

/-- Least squares followed by Thomson weights succeed on these data. -/
theorem exThom_transfer (heap : ℕ → Mem) : ∃ heap', transferFunction [exThom] (fun _ : Fin 1 => [1, 1, 1, 1])
    (weighting ([none, some (.thomson (some 3))].map (Option.map Obj.base))) none .none { eps := 0 } heap = (.ok [(some fun _ => 0, [])], heap') := by
  obtain ⟨st', h⟩ := exThom_ok (heap 1).2
  have hne : ∀ {β : Type} (l : List β), eliminate l (some []) = .ok l := fun l => by
    rw [eliminate_ok]; exact ⟨by simp, (without_nil l).symm⟩
  have hcall : mEstimate exThom exThomb (some fun _ => 0) (some (Obj.base (.thomson (some 3))).call) [] { eps := 0 } (heap 1) = (.ok (fun _ => 0, []), ((heap 1).1, st')) := by
    show MEst.loop _ _ _ _ _ _ _ _ _ _ = _
    rw [loop_obj]
    have h' : MEst.loop (Base.thomson (some 3)).call exThom exThomb { eps := 0 } 100 0 (MEst.residual exThom exThomb fun _ => 0) [] none (heap 1).2 = _ := h
    rw [h']
  have hrows : rowsOf (fun _ : Fin 1 => ([1, 1, 1, 1] : List ℂ)) 4 = exThomb := by
    simp [rowsOf, exThomb, List.range_succ]
  refine ⟨Function.update heap 1 ((heap 1).1, st'), ?_⟩
  unfold transferFunction
  simp only [InvArg.norm, List.length_singleton, one_ne_zero, if_false]
  rw [if_neg (by simp [exThom])]
  simp only [List.length_replicate, ne_eq, not_true_eq_false, if_false, List.replicate_one, List.zip_cons_cons, List.zip_nil_right]
  have hl : exThom.length = 4 := rfl
  rw [hl, hrows]
  simp only [outputsLoop, oneOutput, weighting, List.map_cons, List.map_nil, Option.map_none, Option.map_some, List.zipIdx_cons, List.zipIdx_nil,
    chainLoop, hne, hl, callEstimate, exThom_ls, zero_add, hcall]
  have hm : mergeInvalid [[], [], []] = .ok [] := by decide +kernel
  simp [hm]

local instance instOneStableEx : One Unit := ⟨()⟩

/-- Four periods of an electric channel with amplitudes 1, -1, 2, -2. -/
def exAmplitudes : List ℂ := [1, 0, -1, 0, -1, 0, 1, 0, 2, 0, -2, 0, -2, 0, 2, 0]

/-- Four periods of a magnetic channel. -/
def exPeriods : List ℂ := [1, 0, -1, 0, 1, 0, -1, 0, 1, 0, -1, 0, 1, 0, -1, 0]

/-- The recording. -/
def exRobust : SigSet ℂ Unit := ⟨[⟨[exAmplitudes, exPeriods], [(), ()], 1, 0, 16⟩], ⟨2, [("E", [0]), ("B", [1])]⟩⟩

theorem exRobust_reach : Reach exRobust := by
  refine Reach.new (.dict [("E", .int 0), ("B", .int 1)]) [.sync ⟨[exAmplitudes, exPeriods], [(), ()], 1, 0, 16⟩] ?_ (by simp) ?_
  · simp only [List.mem_singleton, SigArg.sync.injEq, forall_eq]
    exact ⟨by simp, by simp, by simp [exAmplitudes, exPeriods]⟩
  · with_unfolding_all rfl

theorem fourier_four (y : List ℂ) (m : ℕ) (h1 : y.getD (m + 1) 0 = 0) (h3 : y.getD (m + 3) 0 = 0) (h2 : y.getD (m + 2) 0 = -y.getD m 0) :
    fourierAt (1 / 4 / 1) 4 (Win.eval .none 4) y m = y.getD m 0 := by
  have hpi : Complex.exp (-(2 * Real.pi * Complex.I * (1 / 4 : ℂ) * 2)) = -1 := by
    rw [show -(2 * Real.pi * Complex.I * (1 / 4 : ℂ) * 2) = -(Real.pi * Complex.I) by ring, Complex.exp_neg, Complex.exp_pi_mul_I]
    norm_num
  unfold fourierAt
  simp only [Finset.sum_range_succ, Finset.sum_range_zero, Win.eval, winAt, Nat.cast_zero, Nat.cast_one, Nat.cast_ofNat, add_zero, h1, h2, h3, mul_zero, neg_zero,
    Complex.exp_zero, zero_add]
  push_cast
  rw [show ((1 : ℂ) / 4 / 1) = 1 / 4 by norm_num, hpi]
  ring

theorem exRobust_coeffs : setCoeffs (fun _ _ => some 1) exRobust (1 / 4) 1 0 .none = .ok ([exThom, [1, 1, 1, 1]], ([4], [4], [4])) := by
  obtain ⟨r, h⟩ := timeToFreq_of (data := [exAmplitudes, exPeriods]) (fs := 1)
    (freq := 1 / 4) (nper := 1) (overlap := 0) (N := 16) (win := .none) (n := 3) (L := 4) (s := 4) (by simp)
    (by simp [exAmplitudes, exPeriods]) (by decide +kernel) (by simp [Win.eval])
  obtain ⟨N, -, -, -, -, hr⟩ := timeToFreq_ok h
  have hr : r = [exThom, [1, 1, 1, 1]] := by
    rw [hr]
    have e : List.range (3 + 1) = [0, 1, 2, 3] := rfl
    simp only [e, List.map_cons, List.map_nil]
    rw [fourier_four exAmplitudes (0 * 4) (by simp [exAmplitudes]) (by simp [exAmplitudes]) (by simp [exAmplitudes]),
      fourier_four exAmplitudes (1 * 4) (by simp [exAmplitudes]) (by simp [exAmplitudes]) (by simp [exAmplitudes]),
      fourier_four exAmplitudes (2 * 4) (by simp [exAmplitudes]) (by simp [exAmplitudes]) (by simp [exAmplitudes]),
      fourier_four exAmplitudes (3 * 4) (by simp [exAmplitudes]) (by simp [exAmplitudes]) (by simp [exAmplitudes]),
      fourier_four exPeriods (0 * 4) (by simp [exPeriods]) (by simp [exPeriods]) (by simp [exPeriods]),
      fourier_four exPeriods (1 * 4) (by simp [exPeriods]) (by simp [exPeriods]) (by simp [exPeriods]),
      fourier_four exPeriods (2 * 4) (by simp [exPeriods]) (by simp [exPeriods]) (by simp [exPeriods]),
      fourier_four exPeriods (3 * 4) (by simp [exPeriods]) (by simp [exPeriods]) (by simp [exPeriods])]
    simp [exAmplitudes, exPeriods, exThom]
  subst hr
  unfold setCoeffs
  have hm : mapE (fun s => syncCoeffs (fun (_ : Unit) (_ : ℚ) => some 1) s (1/4) 1 0 .none) exRobust.runs =
      .ok [([exThom, [1, 1, 1, 1]], 4, 4, 4)] := by
    refine mapE_ok.2 (.cons (syncCoeffs_ok.2 ⟨by simp, _, h, ?_⟩) .nil)
    simp [exRobust]
  rw [hm]
  simp [zipStar]
  rfl

/-- Least squares, then Thomson weights. -/
noncomputable def exRobustOpts : Impedance.Opts Mem :=
  { weights := [none, some (1, fun _ => (Obj.base (.thomson (some 3))).call)], nper := 1, overlap := 0, win := .none, remote := none,
    mest := { eps := 0 }, silentFail := false, keepInvalidTimes := true }

theorem exRobust_channels : Channels exRobust exRobustOpts [0] [1] none := ⟨rfl, rfl, .inl ⟨.inl rfl, rfl⟩⟩

theorem exRobust_result (heap : ℕ → Mem) : ∃ r heap1, oneFreq (fun _ _ => some 1) exRobust (1 / 4) exRobustOpts heap = (.ok r, heap1) ∧
    r.impedance = [[some 0]] := by
  have h1 := oneFreq_stages (heap := heap) exRobust_channels exRobust_coeffs (e := [exThom]) (b := [[1, 1, 1, 1]]) (.cons rfl .nil) (.cons rfl .nil)
    (br := none) (.inl ⟨rfl, rfl⟩)
  obtain ⟨heap', h2⟩ := exThom_transfer heap
  have h3 : estimate exRobustOpts.realPb exRobustOpts.weights exRobustOpts.mest [exThom] [[1, 1, 1, 1]] [[]] heap = (.ok ([fun _ => 0], [[]]), heap') := by
    unfold estimate
    rw [if_neg (by simp [exRobustOpts])]
    have h4 : transferFunction [exThom] (cols [[1, 1, 1, 1]]) (exRobustOpts.weights.at [[(1 : ℂ), 1, 1, 1]].length) none (.each [[]]) exRobustOpts.mest heap =
        (.ok [(some fun _ => 0, [])], heap') := by
      refine Eq.trans ?_ h2
      have : cols [[(1 : ℂ), 1, 1, 1]] = fun _ : Fin 1 => [1, 1, 1, 1] := by
        funext j
        simp [cols]
      rw [this]
      rfl
    rw [h4]
    rfl
  obtain ⟨err, h5⟩ := (error_cols [exThom] [[1, 1, 1, 1]] rfl [fun _ => 0] [[]]).2 (by
    refine ⟨by simp [exThom, headLen], ?_⟩
    rw [Matrix.det_fin_one]
    simp [gram, dotdiag, rowsOf, headLen, exThom, List.range_succ]
    try norm_num)
  rw [h1]
  simp only [stages, secondStage]
  have h6 : Prefilter.applyPrefilter [exThom] (rows [[1, 1, 1, 1]]) (exRobustOpts.prefilter.map (fun p => p [[(1 : ℂ), 1, 1, 1]].length)) .none = .ok [[]] := by
    rfl
  rw [h6]
  simp only [h3, h5]
  exact ⟨_, _, rfl, by simp⟩

/-- The hypotheses are met by this recording and a robust estimation: whatever changes the samples by little leaves the impedance close to 0. -/
example (ε : ℝ) (hε : 0 < ε) : ∃ δ : ℝ, 0 < δ ∧ ∀ S, Reach S → Perturbed δ S exRobust → ∀ heap, ∃ r,
    (oneFreq (fun _ _ => some 1) S (1 / 4) exRobustOpts heap).1 = .ok r ∧ Within ε r.impedance [[some 0]] := by
  obtain ⟨r0, heap1, h0, h1⟩ := exRobust_result (fun _ => (none, none))
  obtain ⟨δ, hδ, h⟩ := C128_impedance (fun _ _ => some 1) (1 / 4) exRobust exRobust_reach exRobustOpts (by
      intro i wf h
      simp only [exRobustOpts, List.mem_cons, reduceCtorEq, Option.some.injEq, Prod.mk.injEq, List.not_mem_nil, or_false, false_or] at h
      obtain ⟨-, rfl⟩ := h
      exact .inl ⟨.base (.thomson (some 3)), by intro x hx; cases hx; norm_num, fun _ => rfl⟩)
    rfl [0] [1] exRobust_channels _ _ _ h0 (by rw [h1]; simp) (by
      intro co w e b hco he hb
      refine ⟨.inl rfl, fun inv hinv p c l hc hl heap => ?_⟩
      have hco : co = [exThom, [1, 1, 1, 1]] := by
        have := hco.symm.trans exRobust_coeffs
        simp only [Except.ok.injEq, Prod.mk.injEq] at this
        exact this.1
      subst hco
      obtain rfl := (picked_eq he).1
      obtain rfl := (picked_eq hb).1
      obtain rfl : inv = [[]] := by
        have : Prefilter.applyPrefilter ([0].map (fun i => [exThom, [1, 1, 1, 1]].getD i [])) (rows ([1].map (fun i => [exThom, [1, 1, 1, 1]].getD i [])))
          (exRobustOpts.prefilter.map (fun p => p ([1].map (fun i => [exThom, [1, 1, 1, 1]].getD i [])).length)) .none = .ok [[]] := rfl
        rw [this] at hinv
        exact (Except.ok.inj hinv).symm
      obtain rfl : p = 0 := by
        have := (List.getElem?_eq_some_iff.1 hl).1
        simpa using this
      simp only [List.map_cons, List.map_nil, List.getElem?_cons_zero, Option.some.injEq] at hc hl
      subst hl
      have hc' : c = exThom := by rw [← hc]; rfl
      subst hc'
      have hrows : rowsOf (cols ([1].map (fun i => [exThom, [1, 1, 1, 1]].getD i []))) exThom.length = exThomb := by
        simp [rowsOf, exThomb, exThom, List.range_succ, cols]
        rfl
      exact hrows ▸ exThom_clear_chain heap) ε hε
  refine ⟨δ, hδ, fun S hS hp heap => ?_⟩
  obtain ⟨r, h3, h4, -⟩ := h S hS hp heap
  exact ⟨r, h3, h1 ▸ h4⟩

end Razorback.Props
