/-
The impedance computed in floating point arithmetic, with weight functions, prefilters and remote (C129).
-/
import Verif.Props.RoundUserStable
import Verif.Props.StableRound
import Verif.Props.StableImp
import Verif.Props.ApproxRemote
import Verif.Props.RoundError

namespace Razorback.Props
open Razorback Razorback.Spec Razorback.MEst Razorback.Weights Razorback.Impedance Razorback.Fourier Razorback.Approx Filter Topology

variable {σ ι κ : Type} {F : Filter ι} {u : ι → ℝ}

/-- The coefficients in floating point arithmetic are close to the exact ones with the same windows. -/
theorem fcoeffs_near {cal : κ → ℚ → Option ℂ} {freq nper overlap : ℚ} {win : Win} {S : SigSet ℂ κ} {N : ℕ}
    (hwf : ∀ s ∈ S.runs, WF s ∧ s.data.length = N) {u : ℝ} (hu : 0 ≤ u) (hu1 : u < 1)
    [R : Rnd] (hR : RoundsWithin u) {co co' : List (List ℂ)} {w : List ℕ × List ℕ × List ℕ} {ds : List (ℕ × ℕ × ℕ)}
    (h' : setCoeffs cal S freq nper overlap win = .ok (co', w)) (hw : w = (ds.map (fun d => d.1), ds.map (fun d => d.2.1), ds.map (fun d => d.2.2)))
    (h : FSetCoeffs u cal S freq nper overlap win co ds) {W r : ℝ} {M : ℕ → ℝ}
    (hW : ∀ d ∈ ds, ∑ j ∈ Finset.range d.2.1, ‖winAt (win.eval d.2.1) j‖ ≤ W * d.2.1) (hr : ∀ p ∈ S.runs.zip ds, fourierErr u (freq / p.1.rate) p.2.2.1 ≤ r)
    (hM : ∀ i, ∀ s ∈ S.runs, ∀ m < s.size, ‖physical cal freq s i m‖ ≤ M i) (hτ : ∀ i, 0 ≤ ((1 + u) * (1 + r) - 1) * (2 * W * M i)) :
    co.map List.length = co'.map List.length ∧
      ∀ i n, ‖(co.getD i []).getD n 0 - (co'.getD i []).getD n 0‖ ≤ ((1 + u) * (1 + r) - 1) * (2 * W * M i) := by
  obtain ⟨hl, hdl, -, hnear⟩ := FSetCoeffs.near hu hu1 hR hwf h hW hr
  have hcal : ∀ s ∈ S.runs, ∀ k ∈ s.cals, cal k freq ≠ some 0 := by
    obtain ⟨-, l, hf, -, -⟩ := h
    intro s hs k hk h0
    obtain ⟨p, hp, hp'⟩ : ∃ p ∈ l, FSyncCoeffs u cal s freq nper overlap win p.1 p.2 := by
      obtain ⟨i, hi⟩ := List.mem_iff_getElem?.1 hs
      have hl := (List.getElem?_eq_some_iff.1 hi).1
      refine ⟨l[i]'(by rw [← hf.length_eq]; exact hl), List.getElem_mem _, ?_⟩
      have := hf.get hl (by rw [← hf.length_eq]; exact hl)
      rw [List.get_eq_getElem, (List.getElem?_eq_some_iff.1 hi).2] at this
      exact this
    obtain ⟨vs, _, h1, h2, -⟩ := hp'
    have : some (0 : ℂ) ∈ vs.map some := by
      rw [← h1, ← h0]
      exact List.mem_map_of_mem hk
    obtain ⟨v, hv, hv0⟩ := List.mem_map.1 this
    exact h2 v hv (Option.some.inj hv0)
  obtain ⟨ds', hex, hw'⟩ := FSetCoeffs.of_exact (le_refl (0 : ℝ)) h' hcal
  have hdd : ds' = ds := by
    rw [hw] at hw'
    simp only [Prod.mk.injEq] at hw'
    obtain ⟨a1, a2, a3⟩ := hw'
    have hlen : ds'.length = ds.length := by simpa using (congrArg List.length a1).symm
    refine List.ext_getElem hlen (fun i g1 g2 => ?_)
    have b1 := congrArg (fun l => l[i]?) a1
    have b2 := congrArg (fun l => l[i]?) a2
    have b3 := congrArg (fun l => l[i]?) a3
    simp only [List.getElem?_map, List.getElem?_eq_getElem g1, List.getElem?_eq_getElem g2, Option.map_some, Option.some.injEq] at b1 b2 b3
    exact Prod.ext b1.symm (Prod.ext b2.symm b3.symm)
  subst hdd
  obtain ⟨hl', -, -, hnear'⟩ := @FSetCoeffs.near κ Rnd.exact 0 le_rfl one_pos (fun x => by simp) cal S _ hwf freq nper overlap win co' ds' hex W hW 0
    (fun p _ => by simp [fourierErr])
  have hrow : ∀ i < N, ∃ c c', co[i]? = some c ∧ co'[i]? = some c' ∧ List.Forall₂ (Within ((1 + u) * (1 + r) - 1) (2 * W * M i)) c c' := by
    intro i hi
    obtain ⟨c, hc, hcn⟩ := hnear i hi (M i) (hM i)
    obtain ⟨c', hc', hcn'⟩ := hnear' i hi (M i) (hM i)
    refine ⟨c, c', hc, hc', ?_⟩
    have : c' = exactCoeffs cal freq win S.runs ds' i := by
      rw [← List.forall₂_eq_eq_eq]
      refine hcn'.imp (fun a b hab => ?_)
      have := hab.2
      simp only [add_zero, mul_one, sub_self, zero_mul] at this
      exact sub_eq_zero.1 (norm_le_zero_iff.1 this)
    rw [this]
    exact hcn
  refine ⟨List.ext_getElem? (fun i => ?_), fun i n => ?_⟩
  · simp only [List.getElem?_map]
    by_cases hi : i < N
    · obtain ⟨c, c', h1, h2, h3⟩ := hrow i hi
      rw [h1, h2, Option.map_some, Option.map_some, h3.length_eq]
    · rw [List.getElem?_eq_none (by omega), List.getElem?_eq_none (by omega)]
  · by_cases hi : i < N
    · obtain ⟨c, c', h1, h2, h3⟩ := hrow i hi
      rw [List.getD_eq_getElem?_getD (l := co), List.getD_eq_getElem?_getD (l := co'), h1, h2, Option.getD_some, Option.getD_some]
      by_cases hn : n < c'.length
      · exact (within_get h3 hn).2
      · have := h3.length_eq
        rw [List.getD_eq_getElem?_getD, List.getD_eq_getElem?_getD, List.getElem?_eq_none (by omega), List.getElem?_eq_none (by omega)]
        simpa using hτ i
    · rw [List.getD_eq_getElem?_getD (l := co), List.getD_eq_getElem?_getD (l := co'), List.getElem?_eq_none (l := co) (by omega),
        List.getElem?_eq_none (l := co') (by omega)]
      simpa using hτ i

/-- The coefficients in floating point arithmetic of recordings which tend to others, with more and more precision. -/
theorem fcoeffs_tends [One κ] {cal : κ → ℚ → Option ℂ} {freq : ℚ} {S : ι → SigSet ℂ κ} {S0 : SigSet ℂ κ} (h : STends F cal freq S S0)
    (hS : ∀ k, Reach (S k)) (hS0 : Reach S0) (hu0 : ∀ k, 0 ≤ u k) (hu1 : ∀ k, u k < 1) (hu : Tendsto u F (𝓝 0)) (R : ι → Rnd)
    (hR : ∀ k, @RoundsWithin (u k) (R k)) {nper overlap : ℚ} {win : Win} {co0 : List (List ℂ)} {w : List ℕ × List ℕ × List ℕ}
    (h0 : setCoeffs cal S0 freq nper overlap win = .ok (co0, w)) {ds : List (ℕ × ℕ × ℕ)}
    (hw : w = (ds.map (fun d => d.1), ds.map (fun d => d.2.1), ds.map (fun d => d.2.2))) {co : ι → List (List ℂ)}
    (hF : ∀ k, @FSetCoeffs (R k) κ (u k) cal (S k) freq nper overlap win (co k) ds) : LTends F co co0 := by
  obtain ⟨co', hk, hlim⟩ := coeffs_stable h hS hS0 h0
  set W := (ds.map (fun d => ∑ j ∈ Finset.range d.2.1, ‖winAt (win.eval d.2.1) j‖)).sum with hW
  have hW0 : 0 ≤ W := List.sum_nonneg (by
    intro x hx
    obtain ⟨d, -, rfl⟩ := List.mem_map.1 hx
    exact Finset.sum_nonneg (fun _ _ => norm_nonneg _))
  have hWd : ∀ d ∈ ds, ∑ j ∈ Finset.range d.2.1, ‖winAt (win.eval d.2.1) j‖ ≤ W * d.2.1 := by
    intro d hd
    have h1 : ∑ j ∈ Finset.range d.2.1, ‖winAt (win.eval d.2.1) j‖ ≤ W := List.single_le_sum (by
      intro x hx
      obtain ⟨d, -, rfl⟩ := List.mem_map.1 hx
      exact Finset.sum_nonneg (fun _ _ => norm_nonneg _)) _ (List.mem_map.2 ⟨d, hd, rfl⟩)
    rcases Nat.eq_zero_or_pos d.2.1 with h0 | h0
    · simp [h0]
    · refine h1.trans (le_mul_of_one_le_right hW0 ?_)
      exact_mod_cast h0
  set ρ : ℝ → ℝ := fun u => ((S0.runs.zip ds).map (fun p => |fourierErr u (freq / p.1.rate) p.2.2.1|)).sum with hρ
  have hρc : Continuous ρ := by
    simp only [hρ]
    generalize S0.runs.zip ds = L
    induction L with
    | nil => simpa using continuous_const
    | cons p L ih =>
      simp only [List.map_cons, List.sum_cons]
      refine Continuous.add (Continuous.abs ?_) ih
      unfold fourierErr
      fun_prop
  have hρ0 : ρ 0 = 0 := by
    simp only [hρ]
    have : ∀ p : Sync ℂ κ × (ℕ × ℕ × ℕ), |fourierErr 0 (freq / p.1.rate) p.2.2.1| = 0 := fun p => by simp [fourierErr]
    simp [this]
  have hρn : ∀ u, 0 ≤ ρ u := fun u => List.sum_nonneg (by
    intro x hx
    obtain ⟨p, -, rfl⟩ := List.mem_map.1 hx
    exact abs_nonneg _)
  have hruns : ∀ (k : ι) (m : ℕ) (s : Sync ℂ κ), (S k).runs[m]? = some s → ∃ s0, S0.runs[m]? = some s0 ∧ SameClock cal freq s0 s := by
    intro k m s hs
    have := getElem?_rel (h.clock k) m
    rw [hs] at this
    cases hs0 : S0.runs[m]? with
    | none => rw [hs0] at this; simp at this
    | some s0 => rw [hs0] at this; exact ⟨s0, rfl, by simpa using this⟩
  set M : ι → ℕ → ℝ := fun k i => ∑ m ∈ Finset.range S0.runs.length, ∑ n ∈ Finset.range ((S0.runs[m]?).elim 0 (fun s => s.size)),
    ‖((S k).runs[m]?).elim 0 (fun s => physical cal freq s i n)‖ with hM
  have hM0 : ∀ k i, 0 ≤ M k i := fun k i => Finset.sum_nonneg (fun _ _ => Finset.sum_nonneg (fun _ _ => norm_nonneg _))
  have hMlim : ∀ i, ∃ m, Tendsto (fun k => M k i) F (𝓝 m) := fun i =>
    ⟨_, tendsto_finsetSum _ (fun m _ => tendsto_finsetSum _ (fun n _ => (h.entry i m n).norm))⟩
  have hMs : ∀ k i, ∀ s ∈ (S k).runs, ∀ n < s.size, ‖physical cal freq s i n‖ ≤ M k i := by
    intro k i s hs n hn
    obtain ⟨m, hm⟩ := List.mem_iff_getElem?.1 hs
    obtain ⟨s0, hs0, hcl⟩ := hruns k m s hm
    have hm0 : m < S0.runs.length := (List.getElem?_eq_some_iff.1 hs0).1
    have hn0 : n < s0.size := by rw [← hcl.size]; exact hn
    have e1 : ∑ n ∈ Finset.range ((S0.runs[m]?).elim 0 (fun s => s.size)), ‖((S k).runs[m]?).elim 0 (fun s => physical cal freq s i n)‖ =
        ∑ n ∈ Finset.range s0.size, ‖physical cal freq s i n‖ := by rw [hs0, hm]; rfl
    have e2 : ∑ n ∈ Finset.range ((S0.runs[m]?).elim 0 (fun s => s.size)), ‖((S k).runs[m]?).elim 0 (fun s => physical cal freq s i n)‖ ≤ M k i :=
      Finset.single_le_sum (f := fun m => ∑ n ∈ Finset.range ((S0.runs[m]?).elim 0 (fun s => s.size)),
        ‖((S k).runs[m]?).elim 0 (fun s => physical cal freq s i n)‖) (fun _ _ => Finset.sum_nonneg (fun _ _ => norm_nonneg _)) (Finset.mem_range.2 hm0)
    have e3 : ‖physical cal freq s i n‖ ≤ ∑ n ∈ Finset.range s0.size, ‖physical cal freq s i n‖ :=
      Finset.single_le_sum (f := fun n => ‖physical cal freq s i n‖) (fun _ _ => norm_nonneg _) (Finset.mem_range.2 hn0)
    exact e3.trans (e1 ▸ e2)
  have hr : ∀ k, ∀ p ∈ (S k).runs.zip ds, fourierErr (u k) (freq / p.1.rate) p.2.2.1 ≤ ρ (u k) := by
    intro k p hp
    obtain ⟨m, hm⟩ := List.mem_iff_getElem?.1 hp
    rw [List.getElem?_zip_eq_some] at hm
    obtain ⟨s0, hs0, hcl⟩ := hruns k m _ hm.1
    have hmem : (s0, p.2) ∈ S0.runs.zip ds := List.mem_iff_getElem?.2 ⟨m, List.getElem?_zip_eq_some.2 ⟨hs0, hm.2⟩⟩
    rw [hcl.rate]
    refine (le_abs_self _).trans (List.single_le_sum (by
      intro x hx
      obtain ⟨p, -, rfl⟩ := List.mem_map.1 hx
      exact abs_nonneg _) _ (List.mem_map.2 ⟨_, hmem, rfl⟩))
  have hτ : ∀ k, 0 ≤ (1 + u k) * (1 + ρ (u k)) - 1 := fun k => by nlinarith [hu0 k, hρn (u k), mul_nonneg (hu0 k) (hρn (u k))]
  have hwf : ∀ k, ∀ s ∈ (S k).runs, WF s ∧ s.data.length = (S k).tags.n := fun k s hs =>
    ⟨(reach_sinv (hS k)).okAs.wf s hs, ((reach_sinv (hS k)).n s hs).symm⟩
  have key := fun k => @fcoeffs_near κ cal freq nper overlap win (S k) _ (hwf k) (u k) (hu0 k) (hu1 k) (R k) (hR k) (co k) (co' k) w ds (hk k).1 hw (hF k) W (ρ (u k)) (M k)
    hWd (hr k) (hMs k) (fun i => mul_nonneg (hτ k) (mul_nonneg (mul_nonneg zero_le_two hW0) (hM0 k i)))
  refine ⟨fun k => (key k).1.trans (hlim.shape k), fun i n => ?_⟩
  obtain ⟨m, hm⟩ := hMlim i
  have hz : Tendsto (fun k => ((co k).getD i []).getD n 0 - ((co' k).getD i []).getD n 0) F (𝓝 0) := by
    refine squeeze_zero_norm (fun k => (key k).2 i n) ?_
    have h1 : Tendsto (fun k => (1 + u k) * (1 + ρ (u k)) - 1) F (𝓝 0) := by
      have : Continuous (fun u => (1 + u) * (1 + ρ u) - 1) := by fun_prop
      simpa [hρ0, Function.comp_def] using (this.tendsto 0).comp hu
    simpa using h1.mul (hm.const_mul (2 * W))
  simpa using hz.add (hlim.entry i n)

theorem foutputs_length {𝕜 : Type} [RCLike 𝕜] {q : ℕ} {u c : ℝ} {o : MEst.Opts} {ws : List (Option (ℕ × FW σ 𝕜 q))} {b : List (Fin q → 𝕜)} :
    ∀ {l : List (List 𝕜 × Option (Fin q → 𝕜) × List ℕ)} {heap heap' : ℕ → σ} {res : List (Option (Fin q → 𝕜) × List ℕ)},
    FOutputs u c o ws b l heap res heap' → res.length = l.length
  | [], _, _, _, h => by simp [h.1]
  | (_, _, _) :: l, _, _, _, h => by
    obtain ⟨p, ps, _, -, h1, rfl⟩ := h
    simp [foutputs_length h1]

/-- `transfer_function` in floating point arithmetic on data which tend to others. -/
theorem ftransfer_tends {𝕜 : Type} [RCLike 𝕜] {q : ℕ} {o : MEst.Opts} {cc : ℝ} (hu0 : ∀ᶠ k in F, 0 ≤ u k) (hu : Tendsto u F (𝓝 0)) {ws : List (Option (ℕ × FW σ 𝕜 q))}
    (hws : ∀ i wf, some (i, wf) ∈ ws → FStable F u wf) {e : ι → List (List 𝕜)} {e0 : List (List 𝕜)}
    (hel : ∀ k, (e k).map List.length = e0.map List.length) (he : ∀ p, Tends F (fun k => (e k).getD p []) (e0.getD p []))
    {c : ι → Fin q → List 𝕜} {c0 : Fin q → List 𝕜}
    (hc : ∀ j n, Tendsto (fun k => (c k j).getD n 0) F (𝓝 ((c0 j).getD n 0))) {inv : InvArg} {heap heapF : ι → ℕ → σ} {heap0 heap1 : ℕ → σ}
    {res0 : List (Option (Fin q → 𝕜) × List ℕ)} (h : transferFunction e0 c0 (exactW ws) none inv o heap0 = (.ok res0, heap1))
    (hclear : ∀ p < e0.length, ∀ heap, ClearChain o (exactW ws) (e0.getD p []) (rowsOf c0 (headLen (e0.map List.length))) none (invalidOf inv p) heap)
    {ε : ℝ} (hε : 0 < ε) {res : ι → List (Option (Fin q → 𝕜) × List ℕ)}
    (hF : ∀ᶠ k in F, FTransfer (u k) cc (e k) (c k) ws none inv o (heap k) (res k) (heapF k)) :
    ∀ᶠ k in F, List.Forall₂ (fun a a0 => a.2 = a0.2 ∧ CloseTo ε a.1 a0.1) (res k) res0 := by
  have hlen : ∀ k, (e k).length = e0.length := fun k => by simpa using congrArg List.length (hel k)
  rw [transfer_unfold] at h
  cases hn : inv.norm e0.length with
  | error x => simp [hn] at h
  | ok ivs =>
  simp only [hn] at h
  split_ifs at h with hcond
  · simp at h
  push Not at hcond
  obtain ⟨h1, h2, h3, h4, h5⟩ := hcond
  have hb : Tends F (fun k => rowsOf (c k) (headLen (e0.map List.length))) (rowsOf c0 (headLen (e0.map List.length))) :=
    Tends.over _ (fun n _ => tendsto_pi_nhds.2 (fun j => hc j n))
  have hz0 := zip_range e0 (List.replicate e0.length (none : Option (Fin q → 𝕜))) ivs [] none [] (by simp) h5
  have hz : ∀ k, (e k).zip ((List.replicate e0.length (none : Option (Fin q → 𝕜))).zip ivs) = (List.range e0.length).map (fun p =>
      ((e k).getD p [], (List.replicate e0.length (none : Option (Fin q → 𝕜))).getD p none, ivs.getD p [])) := fun k => by
    have := zip_range (e k) (List.replicate e0.length (none : Option (Fin q → 𝕜))) ivs [] none [] (by simp [hlen]) (by rw [hlen, h5])
    rw [this, hlen]
  rw [hz0] at h
  refine foutputs (c := cc) hu0 hu hws hb hε ((List.range e0.length).map (fun p => ((fun k => (e k).getD p []), e0.getD p [],
    (List.replicate e0.length (none : Option (Fin q → 𝕜))).getD p none, ivs.getD p []))) (by
      intro t ht
      obtain ⟨p, hp, rfl⟩ := List.mem_map.1 ht
      rw [List.mem_range] at hp
      refine ⟨he p, ?_, fun heap => ?_⟩
      · have := h4 (e0.getD p []).length (by
          refine List.mem_map_of_mem ?_
          rw [List.getD_eq_getElem?_getD, List.getElem?_eq_getElem hp]
          exact List.getElem_mem hp)
        simpa [rowsOf] using this
      · have hi : ivs.getD p [] = invalidOf inv p := by
          have := norm_getElem hn h5 ⟨p, hp⟩
          rw [List.getD_eq_getElem?_getD, this]; rfl
        have hr : (List.replicate e0.length (none : Option (Fin q → 𝕜))).getD p none = none := by
          rw [List.getD_eq_getElem?_getD, List.getElem?_replicate]
          split <;> rfl
        simp only [hi, hr]
        exact hclear p hp heap) (heap := heap) (heapF := heapF) (heap0 := heap0) (heap1 := heap1) (res0 := res0) (by
      rw [List.map_map]; exact h) ?_
  filter_upwards [hF] with k g
  obtain ⟨ivs', y, rest, g1, g2, -, -, -, -, -, g3⟩ := g
  rw [hlen] at g1
  rw [hn, Except.ok.injEq] at g1
  subst g1
  have hy : y.length = headLen (e0.map List.length) := by
    rw [← hel k, g2]
    rfl
  rw [hy, hlen, hz] at g3
  rw [List.map_map]
  exact g3

theorem exact_at (ws : FWs σ) (q : ℕ) : ws.exact.at q = exactW (ws.at q) := by
  simp only [FWs.exact, Weights.at, exactW, FWs.at, List.map_map]
  refine List.map_congr_left (fun p _ => ?_)
  cases p <;> rfl

theorem fstage_cols {u c : ℝ} {ws : FWs σ} {pre : Option FPre} {o : MEst.Opts} {e b : List (List ℂ)} {iv : InvArg} {heap heap' : ℕ → σ} {z : List (List ℂ)}
    {ivid : List (List ℕ)} (h : FStage u c ws pre o e b iv heap z ivid heap') {q : ℕ} (hb : b.length = q) :
    ∃ (inv : List (List ℕ)) (res : List (Option (Fin q → ℂ) × List ℕ)), FApply u c e (rows b) pre iv inv ∧
      FTransfer u c e (fun j : Fin q => b.getD j []) (ws.at q) none (.each inv) o heap res heap' ∧ res.map (fun p => p.1.map List.ofFn) = z.map some ∧
      ivid = res.map Prod.snd := by
  subst hb
  have hc : cols b = fun j : Fin b.length => b.getD j [] := by
    funext j
    simp [cols]
  obtain ⟨inv, res, h1, h2, h3, h4⟩ := h
  rw [hc] at h2
  exact ⟨inv, res, h1, h2, h3, h4⟩

theorem fstage_shape {u c : ℝ} {ws : FWs σ} {pre : Option FPre} {o : MEst.Opts} {e b : List (List ℂ)} {iv : InvArg} {heap heap' : ℕ → σ} {z : List (List ℂ)}
    {ivid : List (List ℕ)} (h : FStage u c ws pre o e b iv heap z ivid heap') : z.map List.length = List.replicate e.length b.length := by
  obtain ⟨inv, res, h1, h2, h3, -⟩ := h
  obtain ⟨ivs, y, rest, -, -, -, -, -, g4, -, g5⟩ := h2
  have hl := foutputs_length g5
  simp only [List.length_zip, List.length_replicate, g4, min_self] at hl
  have hzl : z.length = e.length := by
    rw [← hl]
    simpa using (congrArg List.length h3).symm
  refine List.ext_getElem (by simp [hzl]) (fun i a1 a2 => ?_)
  simp only [List.length_map] at a1
  rw [List.getElem_map, List.getElem_replicate]
  have := congrArg (fun l => l[i]?) h3
  simp only [List.getElem?_map, List.getElem?_eq_getElem a1, List.getElem?_eq_getElem (show i < res.length by omega), Option.map_some, Option.some.injEq] at this
  obtain ⟨v, -, hv⟩ := Option.map_eq_some_iff.1 this
  rw [← hv, List.length_ofFn]

/-- A stage of `impedance` in floating point arithmetic, on coefficients which tend to others. -/
theorem fstage_tends [F.NeBot] {c : ℝ} (hu0 : ∀ᶠ k in F, 0 ≤ u k) (hu : Tendsto u F (𝓝 0)) {ws : FWs σ}
    (hws : ∀ i wf, some (i, wf) ∈ ws → ∀ q, 0 < q → FStable F u (wf q)) {pre : Option FPre} {o : MEst.Opts} {e b : ι → List (List ℂ)}
    {e0 b0 : List (List ℂ)} (he : LTends F e e0) (hb : LTends F b b0) {iv : InvArg} {inv : List (List ℕ)}
    (hpre : Prefilter.applyPrefilter e0 (rows b0) ((pre.map FPre.exact).map (fun p => p b0.length)) iv = .ok inv) {heap0 heap1 : ℕ → σ}
    {z0 : List (Fin b0.length → ℂ)} {iv0 : List (List ℕ)} (h : estimate false ws.exact o e0 b0 inv heap0 = (.ok (z0, iv0), heap1))
    (hne : e0 ≠ []) {N : ℕ} (hN : ∀ c ∈ e0, c.length = N) (hclear : ClearStage o ws.exact (pre.map FPre.exact) e0 b0 iv)
    (hround : ClearRounding pre e0 b0) {heap heapF : ι → ℕ → σ} {Z : ι → List (List ℂ)}
    {ivid : ι → List (List ℕ)} (hF : ∀ᶠ k in F, FStage (u k) c ws pre o (e k) (b k) iv (heap k) (Z k) (ivid k) (heapF k))
    (hshape : ∀ k, (Z k).map List.length = List.replicate (e k).length (b k).length) :
    LTends F Z (z0.map List.ofFn) ∧ ∀ᶠ k in F, ivid k = iv0 := by
  have hcols : cols b0 = fun j : Fin b0.length => b0.getD j [] := by
    funext j
    simp [cols]
  have h0 := estimate_cols (ws := ws.exact) (o := o) e0 b0 rfl inv heap0
  rw [h] at h0
  simp only [rowsOut] at h0
  cases ht : transferFunction e0 (fun j : Fin b0.length => b0.getD j []) (ws.exact.at b0.length) none (.each inv) o heap0 with
  | mk r s =>
  rw [ht] at h0
  cases r with
  | error x => simp at h0
  | ok res0 =>
  simp only at h0
  cases hm : res0.mapM (fun p => p.1) with
  | none => rw [hm] at h0; simp at h0
  | some z1 =>
  rw [hm] at h0
  simp only [Except.ok.injEq, Prod.mk.injEq] at h0
  have hz1 : z0 = z1 := List.map_injective_iff.2 List.ofFn_injective h0.1
  subst hz1
  obtain ⟨-, rfl⟩ := h0
  have hq : 0 < b0.length := by
    rw [transfer_unfold] at ht
    cases hn : InvArg.norm e0.length (.each inv) with
    | error x => rw [hn] at ht; simp at ht
    | ok ivs =>
      rw [hn] at ht
      simp only at ht
      split_ifs at ht with hc
      · simp at ht
      · push Not at hc
        exact Nat.pos_of_ne_zero hc.2.1
  have hws' : ∀ i wf, some (i, wf) ∈ (ws.at b0.length) → FStable F u wf := by
    intro i wf hmem
    simp only [FWs.at, List.mem_map, Option.map_eq_some_iff, Prod.mk.injEq] at hmem
    obtain ⟨x, hx, ⟨a1, a2⟩, rfl, rfl, rfl⟩ := hmem
    exact hws _ _ hx _ hq
  have hclear' : ∀ p < e0.length, ∀ heap, ClearChain o (ws.exact.at b0.length) (e0.getD p [])
      (rowsOf (fun j : Fin b0.length => b0.getD j []) (headLen (e0.map List.length))) none (invalidOf (.each inv) p) heap := by
    rw [← hcols, headLen_of hne hN]
    exact clearStage_at hclear hN hpre
  rw [exact_at] at ht hclear'
  have hFt : ∀ᶠ k in F, ∃ res : List (Option (Fin b0.length → ℂ) × List ℕ),
      FTransfer (u k) c (e k) (fun j : Fin b0.length => (b k).getD j []) (ws.at b0.length) none (.each inv) o (heap k) res (heapF k) ∧
      res.map (fun p => p.1.map List.ofFn) = (Z k).map some ∧ ivid k = res.map Prod.snd := by
    filter_upwards [hF, fapply_stable hu0 hu he hb hround hpre] with k g1 g2
    obtain ⟨inv', res, a1, a2, a3, a4⟩ := fstage_cols g1 (hb.length k)
    obtain rfl := g2 _ a1
    exact ⟨res, a2, a3, a4⟩
  obtain ⟨res, hres⟩ := eventually_choose hFt
  have key : ∀ ε > 0, ∀ᶠ k in F, ivid k = res0.map Prod.snd ∧ (Z k).map List.length = (z0.map List.ofFn).map List.length ∧
      ∀ i n, ‖((Z k).getD i []).getD n 0 - ((z0.map List.ofFn).getD i []).getD n 0‖ < ε := by
    intro ε hε
    have k1 := ftransfer_tends hu0 hu hws' he.shape he.row (c := fun k (j : Fin b0.length) => (b k).getD j []) (c0 := fun j => b0.getD j [])
      (fun j n => hb.entry j n) (heap := heap) (heapF := heapF) ht hclear' hε (hres.mono fun _ h => h.1)
    filter_upwards [k1, hres] with k hr2 hk
    obtain ⟨-, hk1, hk2⟩ := hk
    obtain ⟨hs, hmz⟩ := mapM_close hr2
    obtain ⟨z, hz, hclose⟩ := hmz _ hm
    have hZ : Z k = z.map List.ofFn := by
      have hzz : (res k).map (fun p => p.1) = z.map some := by
        clear hk1 hr2 hmz hclose hs hk2
        generalize res k = l at hz
        induction l generalizing z with
        | nil => simp at hz; subst hz; rfl
        | cons a l ih =>
          simp only [List.mapM_cons, Option.bind_eq_bind, Option.pure_def, Option.bind_eq_some_iff, Option.some.injEq] at hz
          obtain ⟨y, hy, l', hl', rfl⟩ := hz
          simp [hy, ih _ hl']
      have : (Z k).map some = (z.map List.ofFn).map some := by
        rw [← hk1, show (res k).map (fun p => p.1.map List.ofFn) = ((res k).map (fun p => p.1)).map (Option.map List.ofFn) by
          rw [List.map_map]; rfl, hzz]
        simp [List.map_map, Function.comp_def]
      exact List.map_injective_iff.2 (Option.some_injective _) this
    refine ⟨by rw [hk2, hs], ?_, ?_⟩
    · have := hclose.length_eq
      simp only [hZ, List.map_map, Function.comp_def, List.length_ofFn, List.map_const', this]
    · intro i n
      have hlen := hclose.length_eq
      simp only [hZ, List.getD_eq_getElem?_getD, List.getElem?_map]
      by_cases hi : i < z0.length
      · rw [List.getElem?_eq_getElem (l := z) (by omega), List.getElem?_eq_getElem hi]
        simp only [Option.map_some, Option.getD_some, List.getElem?_ofFn]
        split
        · exact hclose.get (by omega) hi _
        · simpa using hε
      · rw [List.getElem?_eq_none (l := z) (by omega), List.getElem?_eq_none (l := z0) (by omega)]
        simpa using hε
  refine ⟨⟨fun k => ?_, fun i n => ?_⟩, (key 1 one_pos).mono fun k h => h.1⟩
  · obtain ⟨k', hk'⟩ := (key 1 one_pos).exists
    rw [← hk'.2.1, hshape, hshape, he.length, he.length, hb.length, hb.length]
  · rw [Metric.tendsto_nhds]
    intro ε hε
    filter_upwards [key ε hε] with k hk
    rw [dist_eq_norm]
    exact hk.2.2 i n

/-- `T.dot(br)` in floating point arithmetic. -/
theorem fpredict_tends (hu0 : ∀ᶠ k in F, 0 ≤ u k) (hu : Tendsto u F (𝓝 0)) {br T be : ι → List (List ℂ)} {br0 T0 : List (List ℂ)}
    (hb : LTends F br br0) (hT : LTends F T T0) (hl : ∀ t ∈ T0, t.length = br0.length) (h : ∀ k, List.Forall₂ (FPredict (u k) (br k)) (T k) (be k)) :
    LTends F be (predictRows br0 T0) := by
  have hw := fun k => hb.same_width k
  have hrow : ∀ k i, i < T0.length → FPredict (u k) (br k) ((T k).getD i []) ((be k).getD i []) := by
    intro k i hi
    have h1 := (h k).length_eq
    have h2 := hT.length k
    rw [List.getD_eq_getElem?_getD, List.getD_eq_getElem?_getD, List.getElem?_eq_getElem (by omega), List.getElem?_eq_getElem (by omega)]
    exact (h k).get _ _
  have hbl : ∀ k, (be k).length = T0.length := fun k => by rw [← (h k).length_eq, hT.length]
  refine ⟨fun k => ?_, fun i n => ?_⟩
  · refine List.ext_getElem (by simp [hbl, predictRows]) (fun i h1 h2 => ?_)
    have hi : i < T0.length := by simpa [predictRows] using h2
    have := (hrow k i hi).1
    rw [List.getD_eq_getElem?_getD, List.getElem?_eq_getElem (by rw [hbl]; exact hi), Option.getD_some] at this
    simp [predictRows, this, hw]
  · by_cases hi : i < T0.length
    · by_cases hn : n < width br0
      · have hcol : Tends F (fun k => (br k).map (fun y => y.getD n 0)) (br0.map (fun y => y.getD n 0)) := by
          refine ⟨.of_forall (fun k => by simp [hb.length]), fun j x0 hx => ?_⟩
          have hj : j < br0.length := by simpa using (List.getElem?_eq_some_iff.1 hx).1
          have hx0 : x0 = (br0.getD j []).getD n 0 := by
            rw [List.getElem?_map, List.getElem?_eq_getElem hj, Option.map_some, Option.some.injEq] at hx
            rw [← hx, List.getD_eq_getElem?_getD (l := br0), List.getElem?_eq_getElem hj]; rfl
          rw [hx0]
          refine (hb.entry j n).congr (fun k => ?_)
          rw [List.getElem?_map, List.getElem?_eq_getElem (by rw [hb.length]; exact hj), List.getD_eq_getElem?_getD (l := br k),
            List.getElem?_eq_getElem (by rw [hb.length]; exact hj)]
          rfl
        have hval : ((predictRows br0 T0).getD i []).getD n 0 = (List.zipWith (· * ·) (T0.getD i []) (br0.map (fun y => y.getD n 0))).sum := by
          have hti : (T0.getD i []).length = br0.length := by
            rw [List.getD_eq_getElem?_getD, List.getElem?_eq_getElem hi]
            exact hl _ (List.getElem_mem hi)
          have hp : ((predictRows br0 T0).getD i []).getD n 0 = ∑ j ∈ Finset.range br0.length, (T0.getD i []).getD j 0 * (br0.getD j []).getD n 0 := by
            simp [predictRows, List.getD_eq_getElem?_getD, List.getElem?_map, List.getElem?_eq_getElem hi, hn]
          rw [hp]
          have hz : List.zipWith (· * ·) (T0.getD i []) (br0.map (fun y => y.getD n 0)) = (List.range br0.length).map (fun j =>
              (T0.getD i []).getD j 0 * (br0.getD j []).getD n 0) := by
            refine List.ext_getElem (by simp only [List.length_zipWith, List.length_map, List.length_range, hti, min_self]) (fun j a1 a2 => ?_)
            have hj : j < br0.length := by simpa using a2
            rw [List.getElem_zipWith, List.getElem_map, List.getElem_map, List.getElem_range, List.getD_eq_getElem?_getD (l := T0.getD i []),
              List.getElem?_eq_getElem (by rw [hti]; exact hj), List.getD_eq_getElem?_getD (l := br0), List.getElem?_eq_getElem hj]
            rfl
          rw [hz]
          rfl
        rw [hval]
        refine tendsto_fdot hu0 hu (hT.row i) hcol (.of_forall fun k => ?_)
        obtain ⟨h1, h2⟩ := hrow k i hi
        refine h2 n _ ?_
        have hn' : n < ((be k).getD i []).length := by rw [h1, hw]; exact hn
        rw [List.getD_eq_getElem?_getD (l := (be k).getD i []), List.getElem?_eq_getElem hn']
        rfl
      · have h1 : ∀ k, ((be k).getD i []).getD n 0 = 0 := fun k => by
          have := (hrow k i hi).1
          rw [List.getD_eq_getElem?_getD, List.getElem?_eq_none (by rw [this, hw]; omega)]; rfl
        have h2 : ((predictRows br0 T0).getD i []).getD n 0 = 0 := by
          simp [predictRows, List.getD_eq_getElem?_getD, List.getElem?_map, List.getElem?_eq_getElem hi, hn]
        simp only [h1, h2]
        exact tendsto_const_nhds
    · have h1 : ∀ k, ((be k).getD i []).getD n 0 = 0 := fun k => by
        rw [List.getD_eq_getElem?_getD (l := be k), List.getElem?_eq_none (l := be k) (by rw [hbl]; omega)]; rfl
      have h2 : ((predictRows br0 T0).getD i []).getD n 0 = 0 := by
        rw [List.getD_eq_getElem?_getD (l := predictRows br0 T0), List.getElem?_eq_none (l := predictRows br0 T0) (by simp [predictRows]; omega)]; rfl
      simp only [h1, h2]
      exact tendsto_const_nhds

theorem secondStage_ok {o : Impedance.Opts σ} {wins : List ((ℚ × ℚ) × ℕ × ℕ × ℕ)} {e be : List (List ℂ)} {iv : InvArg} {T : List (List (Option ℂ))}
    {failed r0 : Result} {heap heap1 : ℕ → σ} (h : secondStage o wins e be iv T failed heap = (.ok r0, heap1)) (hf : r0.impedance ≠ failed.impedance) :
    ∃ inv z iv0 heap', Prefilter.applyPrefilter e (rows be) (o.prefilter.map (fun p => p be.length)) iv = .ok inv ∧
      estimate o.realPb o.weights o.mest e be inv heap = (.ok (z, iv0), heap') ∧ r0.impedance = (z.map List.ofFn).map (List.map some) ∧
      r0.invalidTime = (if o.keepInvalidTimes then iv0.map (timesLine wins) else iv0.map (fun _ => [])) ∧ r0.transferMag = T ∧
      ∃ E0, transferError e (cols be) z iv0 = .ok E0 ∧ r0.error = E0.map List.ofFn := by
  unfold secondStage at h
  cases hpre : Prefilter.applyPrefilter e (rows be) (o.prefilter.map (fun p => p be.length)) iv with
  | error x => rw [hpre] at h; simp at h
  | ok inv =>
  rw [hpre] at h
  simp only at h
  cases hest : estimate o.realPb o.weights o.mest e be inv heap with
  | mk x s =>
  rw [hest] at h
  cases x with
  | error x =>
    simp only at h
    split_ifs at h
    · simp only [Prod.mk.injEq, Except.ok.injEq] at h
      exact absurd (by rw [← h.1]) hf
    · simp at h
  | ok x =>
  obtain ⟨z0, iv0⟩ := x
  simp only at h
  cases herr : transferError e (cols be) z0 iv0 with
  | error x => rw [herr] at h; simp at h
  | ok E0 =>
  rw [herr] at h
  simp only [Prod.mk.injEq, Except.ok.injEq] at h
  obtain ⟨rfl, -⟩ := h
  exact ⟨inv, z0, iv0, s, rfl, hest, by simp [List.map_map, Function.comp_def], rfl, rfl, E0, herr, rfl⟩

theorem firstStage_ok {o : Impedance.Opts σ} {b br : List (List ℂ)} {heap heap1 : ℕ → σ} {T : List (Fin br.length → ℂ)} {be : List (List ℂ)} {iv : List ℕ}
    (h : firstStage o b br heap = (.ok (some (T, be, iv)), heap1)) :
    ∃ inv ivT, Prefilter.applyPrefilter b (rows br) ((firstPrefilter o).map (fun p => p br.length)) .none = .ok inv ∧
      estimate o.realPb (firstWeights o) o.mest b br inv heap = (.ok (T, ivT), heap1) ∧ be = predictRows br (T.map List.ofFn) ∧
      iv = ivT.foldl Prefilter.union1d [] := by
  unfold firstStage at h
  rw [orPrefilter_eq, orWeights_eq] at h
  cases hpre : Prefilter.applyPrefilter b (rows br) ((firstPrefilter o).map (fun p => p br.length)) .none with
  | error x => rw [hpre] at h; simp at h
  | ok inv =>
  rw [hpre] at h
  simp only at h
  cases hest : estimate o.realPb (firstWeights o) o.mest b br inv heap with
  | mk x s =>
  rw [hest] at h
  cases x with
  | error x =>
    simp only at h
    split_ifs at h <;> simp at h
  | ok x =>
  obtain ⟨z0, iv0⟩ := x
  simp only [Prod.mk.injEq, Except.ok.injEq, Option.some.injEq] at h
  obtain ⟨⟨rfl, rfl, rfl⟩, rfl⟩ := h
  exact ⟨inv, iv0, rfl, hest, predict_rows _ _, rfl⟩

/-- Weight objects of the library, and functions supplied by the user, with rounding. -/
def FUsualWeights (c : ℝ) (ws : FWs Mem) : Prop := ∀ i f, some (i, f) ∈ ws → (∃ w : Obj, UsualObj w ∧ ∀ q, f q = FW.obj c w) ∨ FUserWeight c f

theorem FUsualWeights.stable (hu0 : ∀ᶠ k in F, 0 ≤ u k) (hu : Tendsto u F (𝓝 0)) {c : ℝ} {ws : FWs Mem} (h : FUsualWeights c ws) :
    ∀ i wf, some (i, wf) ∈ ws → ∀ q, 0 < q → FStable F u (wf q) := by
  intro i wf hi q hq
  rcases h i wf hi with ⟨w, hw, heq⟩ | hg
  · rw [heq q]
    exact fstable_obj hq hu0 hu c hw
  · exact hg.stable hu0 hu hq

/-- C129: an impedance none of whose decisions is a close call.  Computed in floating point arithmetic of enough precision, with the same windows, from
recordings close enough, it cannot but be nearly the same and leave out the same windows, if it is not NaN. -/
theorem C129_impedance [One κ] (c : ℝ) (cal : κ → ℚ → Option ℂ) (freq : ℚ) (S0 : SigSet ℂ κ) (hS0 : Reach S0) (o : Impedance.Opts Mem)
    (rws ws : FWs Mem) (hw : FUsualWeights c ws) (rpre pre : Option FPre) (E B : List ℕ) (hc : Channels S0 o E B none)
    (heap0 heap1 : ℕ → Mem) (r0 : Result) (h0 : oneFreq cal S0 freq o heap0 = (.ok r0, heap1)) (hnum : ∀ row ∈ r0.impedance, none ∉ row)
    (co : List (List ℂ)) (w : List ℕ × List ℕ × List ℕ) (hco : setCoeffs cal S0 freq o.nper o.overlap o.win = .ok (co, w))
    (hclear : ∀ e b, Picked co E e → Picked co B b → ClearStage o.mest o.weights o.prefilter e b .none ∧ ClearRounding pre e b) (ε : ℝ) (hε : 0 < ε) :
    ∃ δ : ℝ, 0 < δ ∧ ∀ S, Reach S → Perturbed δ S S0 → ∀ u, 0 ≤ u → u ≤ δ → ∀ [Rnd], RoundsWithin u → ∀ heap T Z ivid err ds heap',
      FRobust u c cal S freq o rws ws rpre pre heap T Z ivid err ds heap' → w = (ds.map (fun d => d.1), ds.map (fun d => d.2.1), ds.map (fun d => d.2.2)) →
      Spec.Within ε (Z.map (List.map some)) r0.impedance ∧ WithinNumbers ε err r0.error ∧
      (o.keepInvalidTimes = true → r0.invalidTime = ivid.map (timesLine (windows S0 w))) := by
  by_contra hcon
  push Not at hcon
  have hcon' := fun n : ℕ => hcon (1 / ((n : ℝ) + 2)) (by positivity)
  choose S hS hpert u hu0 hul R hR heap T Z ivid err ds heap' hF hds hbad using hcon'
  have hlim0 : Tendsto (fun n : ℕ => 1 / ((n : ℝ) + 2)) atTop (𝓝 0) := by
    have := (tendsto_one_div_add_atTop_nhds_zero_nat (𝕜 := ℝ)).comp (tendsto_add_atTop_nat 1)
    refine this.congr (fun n => ?_)
    simp only [Function.comp_apply]
    push_cast
    ring
  have hu : Tendsto u atTop (𝓝 0) := squeeze_zero hu0 hul hlim0
  have hu1 : ∀ n, u n < 1 := fun n => lt_of_le_of_lt (hul n) (by
    rw [div_lt_one (by positivity)]
    have : (0 : ℝ) ≤ n := Nat.cast_nonneg n
    linarith)
  have hST := perturbed_tends cal freq (F := atTop) (fun n => by positivity) hlim0 hpert
  obtain ⟨co0, w', -, hco', -, g1, g2, -⟩ := oneFreq_tends hST hS hS0 hc h0 hnum
  rw [hco, Except.ok.injEq, Prod.mk.injEq] at hco'
  obtain ⟨rfl, rfl⟩ := hco'
  obtain ⟨pE, neE, lE⟩ := g1 E (.inl rfl)
  obtain ⟨pB, neB, lB⟩ := g1 B (.inr (.inl rfl))
  have h1 := h0
  rw [g2] at h1
  simp only [stages, Option.map_none] at h1
  have hdd : ∀ n, ds n = ds 0 := by
    intro n
    have := (hds n).symm.trans (hds 0)
    simp only [Prod.mk.injEq] at this
    obtain ⟨a1, a2, a3⟩ := this
    refine List.ext_getElem (by simpa using congrArg List.length a1) (fun i q1 q2 => ?_)
    have b1 := congrArg (fun l => l[i]?) a1
    have b2 := congrArg (fun l => l[i]?) a2
    have b3 := congrArg (fun l => l[i]?) a3
    simp only [List.getElem?_map, List.getElem?_eq_getElem q1, List.getElem?_eq_getElem q2, Option.map_some, Option.some.injEq] at b1 b2 b3
    exact Prod.ext b1 (Prod.ext b2 b3)
  have hFx : ∀ n, ∃ cof : List (List ℂ), o.realPb = false ∧ o.weights = ws.exact ∧ o.prefilter = pre.map FPre.exact ∧ @FSetCoeffs (R n) κ (u n) cal (S n) freq o.nper o.overlap o.win cof (ds 0) ∧
      FStage (u n) c ws pre o.mest (E.map (fun i => cof.getD i [])) (B.map (fun i => cof.getD i [])) .none (heap n) (Z n) (ivid n) (heap' n) ∧
      FErrors (u n) c (E.map (fun i => cof.getD i [])) (B.map (fun i => cof.getD i [])) (Z n) (ivid n) (err n) := by
    intro n
    obtain ⟨E', B', cof, e, b, k1, k2, k3, o1, o2, p1, p2, k4, k5, k6, k7⟩ := hF n
    rw [(hpert n).1, hc.elec, Except.ok.injEq] at k1
    rw [(hpert n).1, hc.mag, Except.ok.injEq] at k2
    subst k1 k2
    obtain rfl := (picked_eq (pick_ok.1 k5)).1
    obtain rfl := (picked_eq (pick_ok.1 k6)).1
    rw [hdd] at k4
    have hrem := channels_remote (S := S n) (o := o) (E := E) (B := B) (R := none) ⟨by rw [(hpert n).1]; exact hc.elec, by rw [(hpert n).1]; exact hc.mag,
      by rw [(hpert n).1]; exact hc.remote⟩
    rcases k7 with ⟨-, -, k7, k8⟩ | ⟨R', br, be, ivT, hp1, k7, -⟩
    · exact ⟨cof, k3, o2, p2, k4, k7, k8⟩
    · rw [hrem] at k7; simp at k7
  choose cof hr hww hpp hcof hst her using hFx
  have hlim := fcoeffs_tends hST hS hS0 hu0 hu1 hu R hR hco (hds 0) hcof
  obtain ⟨inv, z0, iv0, hp', q1, q2, q3, q4, -, E0, q6, q7⟩ := secondStage_ok h1 (number_not_nans hnum (by simpa using neE) (by simpa using neB))
  rw [hr 0, hww 0] at q2
  obtain ⟨hcl, hrd⟩ := hclear _ _ pE pB
  rw [hpp 0] at q1 hcl
  rw [hww 0] at hcl
  obtain ⟨hZ, hiv⟩ := fstage_tends (.of_forall hu0) hu (hw.stable (.of_forall hu0) hu) (hlim.picked E) (hlim.picked B) q1 q2 neE lE hcl hrd
    (.of_forall hst) (fun n => fstage_shape (hst n))
  have herr := ferrors_tends (.of_forall hu0) hu (hlim.picked E) (hlim.picked B) hZ hiv q6 (.of_forall her) hε
  obtain ⟨n, ⟨hn1, hn2⟩, hn3⟩ := ((hiv.and (hZ.within hε)).and herr).exists
  rw [← q3] at hn2
  rw [← q7] at hn3
  obtain ⟨hk, hk'⟩ := hbad n hn2 hn3
  refine hk' ?_
  rw [q4, if_pos hk, hn1]

/-- C129: so must an impedance computed with a remote and the transfer from the remote. -/
theorem C129_remote [One κ] (c : ℝ) (cal : κ → ℚ → Option ℂ) (freq : ℚ) (S0 : SigSet ℂ κ) (hS0 : Reach S0) (o : Impedance.Opts Mem)
    (rws ws : FWs Mem) (hw : FUsualWeights c ws) (hw1 : FUsualWeights c rws) (rpre pre : Option FPre) (E B R : List ℕ) (hc : Channels S0 o E B (some R))
    (heap0 heap1 : ℕ → Mem) (r0 : Result) (h0 : oneFreq cal S0 freq o heap0 = (.ok r0, heap1)) (hnum : ∀ row ∈ r0.impedance, none ∉ row)
    (co : List (List ℂ)) (w : List ℕ × List ℕ × List ℕ) (hco : setCoeffs cal S0 freq o.nper o.overlap o.win = .ok (co, w))
    (hclear1 : ∀ b br, Picked co B b → Picked co R br → ClearStage o.mest (firstWeights o) (firstPrefilter o) b br .none ∧ ClearRounding rpre b br)
    (hclear2 : ∀ e b br, Picked co E e → Picked co B b → Picked co R br →
      ∀ heap T be iv heap', firstStage o b br heap = (.ok (some (T, be, iv)), heap') →
      ClearStage o.mest o.weights o.prefilter e be (.each (List.replicate e.length iv)) ∧ ClearRounding pre e be) (ε : ℝ) (hε : 0 < ε) :
    ∃ δ : ℝ, 0 < δ ∧ ∀ S, Reach S → Perturbed δ S S0 → ∀ u, 0 ≤ u → u ≤ δ → ∀ [Rnd], RoundsWithin u → ∀ heap T Z ivid err ds heap',
      FRobust u c cal S freq o rws ws rpre pre heap T Z ivid err ds heap' → w = (ds.map (fun d => d.1), ds.map (fun d => d.2.1), ds.map (fun d => d.2.2)) →
      Spec.Within ε (Z.map (List.map some)) r0.impedance ∧ Spec.Within ε (T.map (List.map some)) r0.transferMag ∧ WithinNumbers ε err r0.error ∧
      (o.keepInvalidTimes = true → r0.invalidTime = ivid.map (timesLine (windows S0 w))) := by
  by_contra hcon
  push Not at hcon
  have hcon' := fun n : ℕ => hcon (1 / ((n : ℝ) + 2)) (by positivity)
  choose S hS hpert u hu0 hul Q hQ heap T Z ivid err ds heap' hF hds hbad using hcon'
  have hlim0 : Tendsto (fun n : ℕ => 1 / ((n : ℝ) + 2)) atTop (𝓝 0) := by
    have := (tendsto_one_div_add_atTop_nhds_zero_nat (𝕜 := ℝ)).comp (tendsto_add_atTop_nat 1)
    refine this.congr (fun n => ?_)
    simp only [Function.comp_apply]
    push_cast
    ring
  have hu : Tendsto u atTop (𝓝 0) := squeeze_zero hu0 hul hlim0
  have hu1 : ∀ n, u n < 1 := fun n => lt_of_le_of_lt (hul n) (by
    rw [div_lt_one (by positivity)]
    have : (0 : ℝ) ≤ n := Nat.cast_nonneg n
    linarith)
  have hST := perturbed_tends cal freq (F := atTop) (fun n => by positivity) hlim0 hpert
  obtain ⟨co0, w', -, hco', -, g1, g2, -⟩ := oneFreq_tends hST hS hS0 hc h0 hnum
  rw [hco, Except.ok.injEq, Prod.mk.injEq] at hco'
  obtain ⟨rfl, rfl⟩ := hco'
  obtain ⟨pE, neE, lE⟩ := g1 E (.inl rfl)
  obtain ⟨pB, neB, lB⟩ := g1 B (.inr (.inl rfl))
  obtain ⟨pR, neR, lR⟩ := g1 R (.inr (.inr rfl))
  have h1 := h0
  rw [g2] at h1
  simp only [stages, Option.map_some] at h1
  have hdd : ∀ n, ds n = ds 0 := by
    intro n
    have := (hds n).symm.trans (hds 0)
    simp only [Prod.mk.injEq] at this
    obtain ⟨a1, a2, a3⟩ := this
    refine List.ext_getElem (by simpa using congrArg List.length a1) (fun i q1 q2 => ?_)
    have b1 := congrArg (fun l => l[i]?) a1
    have b2 := congrArg (fun l => l[i]?) a2
    have b3 := congrArg (fun l => l[i]?) a3
    simp only [List.getElem?_map, List.getElem?_eq_getElem q1, List.getElem?_eq_getElem q2, Option.map_some, Option.some.injEq] at b1 b2 b3
    exact Prod.ext b1 (Prod.ext b2 b3)
  have hFx : ∀ n, ∃ (cof be : List (List ℂ)) (ivT : List (List ℕ)) (hp1 : ℕ → Mem), o.realPb = false ∧ firstWeights o = rws.exact ∧ o.weights = ws.exact ∧ firstPrefilter o = rpre.map FPre.exact ∧ o.prefilter = pre.map FPre.exact ∧
      @FSetCoeffs (Q n) κ (u n) cal (S n) freq o.nper o.overlap o.win cof (ds 0) ∧
      FStage (u n) c rws rpre o.mest (B.map (fun i => cof.getD i [])) (R.map (fun i => cof.getD i [])) .none (heap n) (T n) ivT hp1 ∧
      List.Forall₂ (FPredict (u n) (R.map (fun i => cof.getD i []))) (T n) be ∧
      FStage (u n) c ws pre o.mest (E.map (fun i => cof.getD i [])) be
        (.each (List.replicate E.length (ivT.foldl Prefilter.union1d []))) hp1 (Z n) (ivid n) (heap' n) ∧
      FErrors (u n) c (E.map (fun i => cof.getD i [])) be (Z n) (ivid n) (err n) := by
    intro n
    obtain ⟨E', B', cof, e, b, k1, k2, k3, o1, o2, p1, p2, k4, k5, k6, k7⟩ := hF n
    rw [(hpert n).1, hc.elec, Except.ok.injEq] at k1
    rw [(hpert n).1, hc.mag, Except.ok.injEq] at k2
    subst k1 k2
    obtain rfl := (picked_eq (pick_ok.1 k5)).1
    obtain rfl := (picked_eq (pick_ok.1 k6)).1
    rw [hdd] at k4
    have hrem := channels_remote (S := S n) (o := o) (E := E) (B := B) (R := some R) ⟨by rw [(hpert n).1]; exact hc.elec, by rw [(hpert n).1]; exact hc.mag,
      by rw [(hpert n).1]; exact hc.remote⟩
    rcases k7 with ⟨k7, -⟩ | ⟨R', br, be, ivT, hp1, k7, k8, k9, k10, k11, k12⟩
    · rw [hrem] at k7; simp at k7
    · rw [hrem, Except.ok.injEq, Option.some.injEq] at k7
      subst k7
      obtain rfl := (picked_eq (pick_ok.1 k8)).1
      rw [orWeights_eq] at o1
      rw [orPrefilter_eq] at p1
      rw [List.length_map] at k11
      exact ⟨cof, be, ivT, hp1, k3, o1, o2, p1, p2, k4, k9, k10, k11, k12⟩
  choose cof be ivT hp1 hr hww1 hww hpp1 hpp hcof hst1 hpr hst2 her using hFx
  have hlim := fcoeffs_tends hST hS hS0 hu0 hu1 hu Q hQ hco (hds 0) hcof
  cases hf : firstStage o (B.map (fun i => co.getD i [])) (R.map (fun i => co.getD i [])) heap0 with
  | mk x s =>
  rw [hf] at h1
  cases x with
  | error x => simp at h1
  | ok x =>
  cases x with
  | none =>
    simp only [Prod.mk.injEq, Except.ok.injEq] at h1
    obtain ⟨rfl, -⟩ := h1
    exact absurd rfl (number_not_nans hnum (by simpa using neE) (by simpa using neB))
  | some x =>
  obtain ⟨T0, be0, iv⟩ := x
  simp only at h1
  obtain ⟨inv1, ivT0, m1, m2, m3, m4⟩ := firstStage_ok hf
  rw [hr 0, hww1 0] at m2
  obtain ⟨hcl1, hrd1⟩ := hclear1 _ _ pB pR
  rw [hpp1 0] at m1 hcl1
  rw [hww1 0] at hcl1
  obtain ⟨hT, hivT⟩ := fstage_tends (.of_forall hu0) hu (hw1.stable (.of_forall hu0) hu) (hlim.picked B) (hlim.picked R) m1 m2 neB lB hcl1 hrd1
    (.of_forall hst1) (fun n => fstage_shape (hst1 n))
  have hbe := fpredict_tends (.of_forall hu0) hu (hlim.picked R) hT (by
    intro t ht
    obtain ⟨v, -, rfl⟩ := List.mem_map.1 ht
    simp) hpr
  rw [← m3] at hbe
  obtain ⟨inv, z0, iv0, hp', q1, q2, q3, q4, q5, E0, q6, q7⟩ := secondStage_ok h1 (number_not_nans hnum (by simpa using neE) (by simpa using neB))
  rw [hr 0, hww 0] at q2
  obtain ⟨hcl2, hrd2⟩ := hclear2 _ _ _ pE pB pR _ _ _ _ _ hf
  rw [hpp 0] at q1 hcl2
  rw [hww 0] at hcl2
  obtain ⟨hZ, hiv⟩ := fstage_tends (.of_forall hu0) hu (hw.stable (.of_forall hu0) hu) (hlim.picked E) hbe q1 q2 neE lE hcl2 hrd2
    (heap := hp1) (heapF := heap') (ivid := ivid) (c := c) (by
      filter_upwards [hivT] with n hn
      have := hst2 n
      rw [hn, ← m4] at this
      simpa using this) (fun n => fstage_shape (hst2 n))
  have herr := ferrors_tends (.of_forall hu0) hu (hlim.picked E) hbe hZ hiv q6 (.of_forall her) hε
  obtain ⟨n, ⟨⟨hn1, hn2⟩, hn3⟩, hn4⟩ := (((hiv.and (hZ.within hε)).and (hT.within hε)).and herr).exists
  rw [← q3] at hn2
  rw [← q7] at hn4
  have hT0 : r0.transferMag = (T0.map List.ofFn).map (List.map some) := by
    rw [q5]
    simp [List.map_map, Function.comp_def]
  rw [← hT0] at hn3
  obtain ⟨hk, hk'⟩ := hbad n hn2 hn3 hn4
  refine hk' ?_
  rw [q4, if_pos hk, hn1]

end Razorback.Props
