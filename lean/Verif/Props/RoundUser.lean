/-
Property C129 of weight functions supplied by the user.
-/
import Verif.Props.RoundExact
import Verif.Props.StableRoundImp

namespace Razorback.Props
open Razorback Razorback.Spec Razorback.MEst Razorback.Weights Razorback.Approx Filter Topology

variable {𝕜 : Type} [RCLike 𝕜] {q : ℕ} {σ ι : Type} {F : Filter ι}

/-- C129: an estimation with a weight function supplied by the user, a continuous function of the residuals computed with a relative error of at most `u`,
or a bounded influence step over one. -/
theorem C129_user {N : ℕ} (c : ℝ) {wf : ∀ q, FW Mem 𝕜 q} (hwf : FUserWeight c wf) (hq : 0 < q) (e : Fin N → 𝕜) (b : Fin N → Fin q → 𝕜) (z0 : Fin q → 𝕜) (inv : List ℕ)
    (o : MEst.Opts) (st st' : Mem) (z : Fin q → 𝕜) (inv' : List ℕ)
    (h : mEstimate (List.ofFn e) (List.ofFn b) (some z0) (some (wf q).exact) inv o st = (.ok (z, inv'), st'))
    (hclear : NoCloseCall (wf q).exact (List.ofFn e) (List.ofFn b) o z0 inv st) (ε : ℝ) (hε : 0 < ε) :
    ∃ δ : ℝ, 0 < δ ∧ ∀ u, 0 ≤ u → u ≤ δ → ∀ (e' : Fin N → 𝕜) (b' : Fin N → Fin q → 𝕜) (z0' : Fin q → 𝕜), (∀ n, ‖e' n - e n‖ ≤ δ) →
      (∀ n j, ‖b' n j - b n j‖ ≤ δ) → (∀ j, ‖z0' j - z0 j‖ ≤ δ) → ∀ (s : Mem) res s',
      FEstimate u c (List.ofFn e') (List.ofFn b') (some z0') (some (wf q)) inv o s res s' → res.2 = inv' ∧ ∀ j, ‖res.1 j - z j‖ < ε := by
  obtain ⟨δ, hδ, key⟩ := small_of_tends (D := (Fin N → 𝕜) × (Fin N → Fin q → 𝕜) × (Fin q → 𝕜)) (K := Mem × ((Fin q → 𝕜) × List ℕ) × Mem) (d0 := (e, b, z0))
    (A := fun u d k => FEstimate u c (List.ofFn d.1) (List.ofFn d.2.1) (some d.2.2) (some (wf q)) inv o k.1 k.2.1 k.2.2)
    (B := fun u d k => k.2.1.2 = inv' ∧ ∀ j, ‖k.2.1.1 j - z j‖ < ε) (by
      intro ι F u d k hu0 hu hd hA
      have he : Tends F (fun i => List.ofFn (d i).1) (List.ofFn e) :=
        tends_ofFn (fun n => (((continuous_apply n).comp continuous_fst).tendsto (e, b, z0)).comp hd)
      have hb : Tends F (fun i => List.ofFn (d i).2.1) (List.ofFn b) :=
        tends_ofFn (fun n => (((continuous_apply n).comp (continuous_fst.comp continuous_snd)).tendsto (e, b, z0)).comp hd)
      have hz : Tendsto (fun i => (d i).2.2) F (𝓝 z0) := ((continuous_snd.comp continuous_snd).tendsto (e, b, z0)).comp hd
      have hA' : ∀ᶠ i in F, ∃ r : List 𝕜, FResid (u i) (List.ofFn (d i).1) (List.ofFn (d i).2.1) (d i).2.2 r ∧
          FLoop (u i) c (wf q) (List.ofFn (d i).1) (List.ofFn (d i).2.1) o o.maxit 0 r inv none (k i).1 (k i).2.1 (k i).2.2 := by
        filter_upwards [hA] with i g
        obtain ⟨y, r, g1, g2, g3⟩ := g
        rw [Option.some.injEq] at g1
        subst g1
        exact ⟨r, g2, g3⟩
      obtain ⟨r, hr⟩ := eventually_choose hA'
      obtain ⟨h1, h2⟩ := floop (hwf.stable hu0 hu hq) hu0 hu he hb (by simp) (tends_fresid hu0 hu he hb (by simp) hz (hr.mono fun _ h => h.1)) hclear h
        (hr.mono fun _ h => h.2)
      have h3 : ∀ᶠ i in F, ∀ j, dist ((k i).2.1.1 j) (z j) < ε := eventually_all.2 (fun j => Metric.tendsto_nhds.1 ((tendsto_pi_nhds.1 h1) j) ε hε)
      filter_upwards [h2, h3] with i g1 g2
      exact ⟨g1, fun j => by rw [← dist_eq_norm]; exact g2 j⟩)
  refine ⟨δ, hδ, fun u hu0 hu e' b' z0' h1 h2 h3 s res s' hF => key u hu0 hu (e', b', z0') ?_ (s, res, s') hF⟩
  simp only [Prod.dist_eq, max_le_iff, dist_pi_le_iff hδ.le]
  simp only [dist_eq_norm]
  exact ⟨h1, h2, h3⟩

/-- C129: so does `transfer_function` with a chain of least squares, weight objects and such functions. -/
theorem C129_user_transfer {P N : ℕ} (c : ℝ) {ws : List (Option (ℕ × FW Mem 𝕜 q))}
    (hw : ∀ i wf, some (i, wf) ∈ ws → (∃ w : Obj, UsualObj w ∧ wf = FW.obj c w) ∨ ∃ g : ∀ q, FW Mem 𝕜 q, FUserWeight c g ∧ wf = g q)
    (outputs : Fin P → Fin N → 𝕜) (inputs : Fin q → Fin N → 𝕜) (init : Option (List (Fin q → 𝕜))) (inv : InvArg) (o : MEst.Opts) (heap heap' : ℕ → Mem)
    (res : List (Option (Fin q → 𝕜) × List ℕ))
    (h : transferFunction (List.ofFn fun p => List.ofFn (outputs p)) (fun j => List.ofFn (inputs j)) (exactW ws) init inv o heap = (.ok res, heap'))
    (hclear : ∀ p heap, ClearChain o (exactW ws) (List.ofFn (outputs p)) (List.ofFn fun n j => inputs j n) (startOf init p) (invalidOf inv p) heap)
    (ε : ℝ) (hε : 0 < ε) :
    ∃ δ : ℝ, 0 < δ ∧ ∀ u, 0 ≤ u → u ≤ δ → ∀ (outputs' : Fin P → Fin N → 𝕜) (inputs' : Fin q → Fin N → 𝕜), (∀ p n, ‖outputs' p n - outputs p n‖ ≤ δ) →
      (∀ j n, ‖inputs' j n - inputs j n‖ ≤ δ) → ∀ s res' s',
      FTransfer u c (List.ofFn fun p => List.ofFn (outputs' p)) (fun j => List.ofFn (inputs' j)) ws init inv o s res' s' →
      List.Forall₂ (fun a' a => a'.2 = a.2 ∧ CloseTo ε a'.1 a.1) res' res := by
  refine ftransfer_stable c (fun F u hu0 hu hq i wf hm => ?_) outputs inputs init inv o heap heap' res h hclear ε hε
  rcases hw i wf hm with ⟨w, hw, rfl⟩ | ⟨g, hg, rfl⟩
  · exact fstable_obj hq hu0 hu c hw
  · exact hg.stable hu0 hu hq

/-- The weights `1 / (1 + residual**2)`. -/
noncomputable def cauchy : ℕ → ℝ → ℝ := fun _ x => 1 / (1 + x ^ 2)

theorem continuous_cauchy (it : ℕ) : Continuous (cauchy it) := by
  unfold cauchy
  exact continuous_const.div (by fun_prop) (fun x => by positivity)

theorem exC_eval {u v : ℝ} (hu : u = 1 / 2) (hv : v = 1 / 5) (it : ℕ) (st : σ) : evalWeight (elementwise cauchy) it exT exT exTb [] 0 st =
    (.ok (some [.fin u, .fin u, .fin v, .fin v], []), st) := by
  obtain ⟨hl, hwr, hneg, hzero⟩ := exT_wlse (show 0 < u by rw [hu]; norm_num) (show 0 < v by rw [hv]; norm_num)
  have hcall : (elementwise cauchy : WFun σ ℝ 1) st it (mask exT []) exT exTb [] = (.ok (some [.fin u, .fin u, .fin v, .fin v]), st) := by
    simp [elementwise, mask, exT, cauchy, hu, hv]
    norm_num
  unfold evalWeight
  rw [hcall]
  simp only [List.any_nil, Bool.false_eq_true, if_false]
  rw [if_neg (by simp [exT]), hneg, hzero]

/-- The estimation of the constant behind 1, -1, 2, -2 from 0, with these weights, succeeds. -/
theorem exC_ok (st : σ) : mEstimate exT exTb (some fun _ => 0) (some (elementwise cauchy)) [] { eps := 0 } st = (.ok (fun _ => 0, []), st) := by
  obtain ⟨hl, hwr, hneg, hzero⟩ := exT_wlse (show (0 : ℝ) < 1 / 2 by norm_num) (show (0 : ℝ) < 1 / 5 by norm_num)
  show MEst.loop (elementwise cauchy) exT exTb { eps := 0 } (98 + 1 + 1) 0 (MEst.residual exT exTb (fun _ => 0)) [] none st = _
  rw [exT_residual, MEst.loop, exC_eval rfl rfl 0]
  simp only [hl, converged, Bool.false_eq_true, if_false]
  rw [MEst.loop, exT_residual, exC_eval rfl rfl 1]
  simp only [hl]
  rw [if_pos]
  unfold converged
  simp only [decide_eq_true_eq]
  refine ⟨hwr, ?_⟩
  rw [exT_residual]
  norm_num

/-- It is clear cut. -/
theorem exC_clear (st : σ) : NoCloseCall (elementwise cauchy) exT exTb { eps := 0 } (fun _ => 0) [] st := by
  obtain ⟨u, hu⟩ : ∃ u : ℝ, u = 1 / 2 := ⟨_, rfl⟩
  obtain ⟨v, hv⟩ : ∃ v : ℝ, v = 1 / 5 := ⟨_, rfl⟩
  have hu0 : 0 < u := by rw [hu]; norm_num
  have hv0 : 0 < v := by rw [hv]; norm_num
  obtain ⟨hl, hwr, hneg, hzero⟩ := exT_wlse hu0 hv0
  have hev := exC_eval (σ := σ) hu hv
  have key : ∀ ps it, Passes (elementwise cauchy) exT exTb 0 it exT [] st ps →
      ∀ p ∈ ps, p = ⟨some [.fin u, .fin u, .fin v, .fin v], [], fun _ => 0, st⟩ := by
    intro ps
    induction ps with
    | nil => simp
    | cons p ps ih =>
      intro it hp
      cases hp with
      | cons h1 h2 =>
        rw [isPass_iff rfl rfl, hev it st] at h1
        obtain ⟨h1, h3⟩ := h1
        obtain ⟨pw, pr, pz, pst⟩ := p
        simp only [Prod.mk.injEq, Except.ok.injEq] at h1 h3
        obtain ⟨⟨rfl, rfl⟩, h4⟩ := h1
        subst h4
        rw [hl, Except.ok.injEq] at h3
        subst h3
        have hres : resid exT exTb (fun _ => 0) = exT := exT_residual
        rw [hres] at h2
        intro p hp
        rcases List.mem_cons.1 hp with rfl | hp
        · rfl
        · exact ih (it + 1) h2 p hp
  intro ps hps _
  have hres : resid exT exTb (fun _ => 0) = exT := exT_residual
  rw [hres] at hps
  have hall := key ps 0 hps
  have hcost : cost (obs exT exTb [u, u, v, v]) (fun _ => (0 : ℝ)) = 2 * u + 8 * v := by
    simp [cost, obs, dotProduct, exT, exTb]
    ring
  refine ⟨fun p hp => ?_, ?_⟩
  · rw [hall p hp]
    intro w hw x hx
    simp only [Option.some.injEq] at hw
    subst hw
    simp only [List.mem_cons, Flt.fin.injEq, List.not_mem_nil, or_false] at hx
    rcases hx with rfl | rfl | rfl | rfl <;> simp [hu0.ne', hv0.ne']
  · refine List.Pairwise.isChain (List.pairwise_of_forall_mem_list (fun p hp p' hp' => ?_))
    rw [hall p hp, hall p' hp']
    have hc : ∀ c, EnergyIs exT exTb (⟨some [.fin u, .fin u, .fin v, .fin v], [], fun _ => 0, st⟩ : Pass σ ℝ 1) c → c = 2 * u + 8 * v := by
      rintro c ⟨ws, hws, rfl⟩
      have : ws = [u, u, v, v] := by
        rcases hws.2 with h | h
        · simp at h
        · simp only [Option.some.injEq] at h
          have := List.map_injective_iff.2 (fun a b h => Flt.fin.inj h) (a₁ := [u, u, v, v]) (a₂ := ws) (by simpa using h)
          exact this.symm
      rw [this, hcost, abs_of_pos (by positivity)]
    intro c c' h1 h2
    rw [hc c h1, hc c' h2, sub_self, abs_zero]
    have : (0 : ℝ) < 2 * u + 8 * v := by positivity
    norm_num
    exact this.ne'

theorem cauchy_user (c : ℝ) : FUserWeight c (fun q => (FW.user (elementwise cauchy) : FW Mem ℝ q)) := ⟨cauchy, continuous_cauchy, .inl fun _ => rfl⟩

/-- A bounded influence step over these weights is covered, too. -/
example (c : ℝ) : FUserWeight c (fun q => (FW.bis c (FW.user (elementwise cauchy)) (1 / 2) 2 : FW Mem ℝ q)) :=
  ⟨cauchy, continuous_cauchy, .inr ⟨1 / 2, 2, ⟨fun _ x => by unfold cauchy; positivity, by norm_num, by norm_num, by norm_num⟩, fun _ => rfl⟩⟩

/-- With these weights, too, the estimate from 1, -1, 2, -2 in floating point arithmetic is nearly 0, and there is one. -/
example (c : ℝ) (hc : 0 ≤ c) (ε : ℝ) (hε : 0 < ε) : ∃ δ : ℝ, 0 < δ ∧ ∀ u, 0 ≤ u → u ≤ δ →
    (∃ res st', FEstimate u c exT exTb (some fun _ => 0) (some (FW.user (elementwise cauchy))) [] { eps := 0 } ((none, none) : Mem) res st') ∧
    ∀ res st', FEstimate u c exT exTb (some fun _ => 0) (some (FW.user (elementwise cauchy))) [] { eps := 0 } ((none, none) : Mem) res st' → res.2 = [] ∧ |res.1 0| < ε := by
  have h := exC_ok ((none, none) : Mem)
  have he : exT = List.ofFn ![1, -1, 2, -2] := by simp [exT, List.ofFn_succ]
  have hb : exTb = List.ofFn (fun (_ : Fin 4) (_ : Fin 1) => (1 : ℝ)) := by simp [exTb, List.ofFn_succ]
  have hcl := exC_clear ((none, none) : Mem)
  rw [he, hb] at h hcl
  obtain ⟨δ, hδ, key⟩ := C129_user c (cauchy_user c) Nat.one_pos _ _ _ _ _ _ _ _ _ h hcl ε hε
  refine ⟨δ, hδ, fun u hu0 hu => ⟨⟨_, _, festimate_exact hu0 hc (by simp [exT, exTb]) (by intro f hf; cases hf; exact exactIn_user _) (exC_ok ((none, none) : Mem))⟩, fun res st' hF => ?_⟩⟩
  have := key u hu0 hu ![1, -1, 2, -2] (fun _ _ => 1) (fun _ => 0) (by simp [hδ.le]) (by simp [hδ.le]) (by simp [hδ.le]) (none, none) res st' (by rw [← he, ← hb]; exact hF)
  exact ⟨this.1, by simpa using this.2 0⟩

/-- So with the function as the last of a chain, from given values. -/
theorem exC_transfer (heap : ℕ → Mem) : transferFunction [exT] (fun _ : Fin 1 => [1, 1, 1, 1]) [some (0, elementwise cauchy)] (some [fun _ => 0]) .none { eps := 0 } heap =
    (.ok [(some fun _ => 0, [])], heap) := by
  have hne : ∀ {β : Type} (l : List β), eliminate l (some []) = .ok l := fun l => by
    rw [eliminate_ok]; exact ⟨by simp, (without_nil l).symm⟩
  have hrows : rowsOf (fun _ : Fin 1 => ([1, 1, 1, 1] : List ℝ)) 4 = exTb := by
    simp [rowsOf, exTb, List.range_succ]
  unfold transferFunction
  simp only [InvArg.norm, List.length_singleton, one_ne_zero, if_false]
  rw [if_neg (by simp [exT])]
  simp only [List.length_replicate, ne_eq, not_true_eq_false, if_false, List.replicate_one, List.zip_cons_cons, List.zip_nil_right, List.map_cons, List.map_nil,
    List.length_singleton]
  have hl : exT.length = 4 := rfl
  rw [hl, hrows]
  simp only [outputsLoop, oneOutput, chainLoop, hne, hl, callEstimate, exC_ok]
  have hm : mergeInvalid [[], []] = .ok [] := by decide +kernel
  simp [hm]

theorem exC_clear_chain (heap : ℕ → Mem) : ClearChain { eps := 0 } [some (0, elementwise cauchy)] exT exTb (some fun _ => 0) [] heap := by
  intro ws1 i wf ws2 h l hl z hz st
  rcases ws1 with _ | ⟨x, ws1⟩
  · simp only [List.nil_append, List.cons.injEq, Option.some.injEq, Prod.mk.injEq] at h
    obtain ⟨⟨rfl, rfl⟩, -⟩ := h
    simp only [chainLoop, Except.ok.injEq] at hl
    subst hl
    simp only [List.map_nil, List.getLast?_nil, Option.getD_none, Option.some.injEq] at hz
    subst hz
    simp only [List.map_nil, withoutAll, without_nil]
    exact exC_clear st
  · have := congrArg List.length h
    simp at this

example (c : ℝ) (hc : 0 ≤ c) (ε : ℝ) (hε : 0 < ε) : ∃ δ : ℝ, 0 < δ ∧ ∀ u, 0 ≤ u → u ≤ δ →
    (∃ res heap', FTransfer u c [exT] (fun _ : Fin 1 => [1, 1, 1, 1]) [some (0, FW.user (elementwise cauchy))] (some [fun _ => 0]) .none { eps := 0 }
      (fun _ => ((none, none) : Mem)) res heap') ∧
    ∀ res heap', FTransfer u c [exT] (fun _ : Fin 1 => [1, 1, 1, 1]) [some (0, FW.user (elementwise cauchy))] (some [fun _ => 0]) .none { eps := 0 }
      (fun _ => ((none, none) : Mem)) res heap' → List.Forall₂ (fun a' a => a'.2 = a.2 ∧ CloseTo ε a'.1 a.1) res [(some fun _ => 0, [])] := by
  have h := exC_transfer (fun _ => (none, none))
  have he : List.ofFn (![1, -1, 2, -2] : Fin 4 → ℝ) = exT := by simp [exT, List.ofFn_succ]
  have hrow : (List.ofFn fun (n : Fin 4) (j : Fin 1) => ((fun _ _ => 1) : Fin 1 → Fin 4 → ℝ) j n) = exTb := by
    simp [exTb, List.ofFn_succ]
  have h1 : (List.ofFn fun p : Fin 1 => List.ofFn ((![![1, -1, 2, -2]] : Fin 1 → Fin 4 → ℝ) p)) = [exT] := by
    rw [List.ofFn_succ, List.ofFn_zero]; simp only [Matrix.cons_val_zero, he]
  have h2 : (fun j : Fin 1 => List.ofFn (((fun _ _ => 1) : Fin 1 → Fin 4 → ℝ) j)) = fun _ => [1, 1, 1, 1] := by
    funext j; simp [List.ofFn_succ]
  have hmem : ∀ i wf, some (i, wf) ∈ [some (0, (FW.user (elementwise cauchy) : FW Mem ℝ 1))] → wf = FW.user (elementwise cauchy) := by
    intro i wf hm
    simp only [List.mem_singleton, Option.some.injEq, Prod.mk.injEq] at hm
    exact hm.2
  obtain ⟨δ, hδ, key⟩ := C129_user_transfer c (ws := [some (0, FW.user (elementwise cauchy))]) (fun i wf hm => .inr ⟨_, cauchy_user c, hmem i wf hm⟩)
    (![![1, -1, 2, -2]] : Fin 1 → Fin 4 → ℝ) ((fun _ _ => 1) : Fin 1 → Fin 4 → ℝ) (some [fun _ => 0]) .none { eps := 0 }
      (fun _ => (none, none)) _ [(some fun _ => 0, [])] (by rw [h1, h2]; exact h) (by
      intro p heap
      rw [Fin.fin_one_eq_zero p, hrow]
      simp only [Matrix.cons_val_zero, he]
      exact exC_clear_chain heap) ε hε
  refine ⟨δ, hδ, fun u hu0 hu => ⟨⟨_, _, C129_exact hu0 hc _ _ _ (fun i wf hm => by rw [hmem i wf hm]; exact exactIn_user _) _ _ _ _ _ _ h⟩, fun res heap' hF => ?_⟩⟩
  exact key u hu0 hu ![![1, -1, 2, -2]] (fun _ _ => 1) (by simp [hδ.le]) (by simp [hδ.le]) _ res heap' (by rw [h1, h2]; exact hF)

/-- In exact arithmetic, the estimate from nearly 1, -1, 2, -2 with these weights is nearly 0. -/
example (ε : ℝ) (hε : 0 < ε) : ∀ᶠ d : (Fin 4 → ℝ) × (Fin 4 → Fin 1 → ℝ) × (Fin 1 → ℝ) in 𝓝 (![1, -1, 2, -2], fun _ _ => 1, fun _ => 0), ∃ z,
    (mEstimate (List.ofFn d.1) (List.ofFn d.2.1) (some d.2.2) (some (elementwise cauchy)) [] { eps := 0 } ((none, none) : Mem)).1 = .ok (z, []) ∧ |z 0| < ε := by
  have h := exC_ok ((none, none) : Mem)
  have he : exT = List.ofFn ![1, -1, 2, -2] := by simp [exT, List.ofFn_succ]
  have hb : exTb = List.ofFn (fun (_ : Fin 4) (_ : Fin 1) => (1 : ℝ)) := by simp [exTb, List.ofFn_succ]
  have hcl := exC_clear ((none, none) : Mem)
  rw [he, hb] at h hcl
  filter_upwards [C128_user (wf := fun _ => elementwise cauchy) ⟨cauchy, continuous_cauchy, .inl fun _ => rfl⟩ Nat.one_pos _ _ _ _ _ _ _ _ _ h hcl ε hε] with d hd
  obtain ⟨z, h1, h2⟩ := hd (none, none)
  exact ⟨z, h1, by simpa using h2 0⟩

end Razorback.Props
