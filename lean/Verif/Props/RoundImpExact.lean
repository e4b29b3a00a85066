/-
The exact computation of an impedance is one of the possible ones in floating point arithmetic (C129).
-/
import Verif.Props.StableRoundImp
import Verif.Props.RoundExact
import Verif.Props.StableEx

namespace Razorback.Props
open Razorback Razorback.Spec Razorback.MEst Razorback.Weights Razorback.Impedance Razorback.Fourier Razorback.Approx Filter Topology

variable {σ κ : Type} {u c : ℝ}

theorem exactIn_at {ws : FWs σ} (hws : ∀ i f, some (i, f) ∈ ws → ∀ q, ExactIn (f q)) (q : ℕ) : ∀ i f, some (i, f) ∈ ws.at q → ExactIn f := by
  intro i f h
  simp only [FWs.at, List.mem_map, Option.map_eq_some_iff, Prod.mk.injEq] at h
  obtain ⟨_, hm, ⟨j, g⟩, rfl, -, rfl⟩ := h
  exact hws j g hm q

theorem fstage_exact (hu : 0 ≤ u) (hc : 0 ≤ c) {ws : FWs σ} (hws : ∀ i f, some (i, f) ∈ ws → ∀ q, ExactIn (f q)) {pre : Option FPre} {o : MEst.Opts} {e b : List (List ℂ)} {iv : InvArg} {inv : List (List ℕ)}
    (hpre : Prefilter.applyPrefilter e (rows b) ((pre.map FPre.exact).map (fun p => p b.length)) iv = .ok inv) {rp : Bool} {heap heap' : ℕ → σ} {z : List (Fin b.length → ℂ)}
    {ivid : List (List ℕ)} (h : estimate rp ws.exact o e b inv heap = (.ok (z, ivid), heap')) :
    rp = false ∧ FStage u c ws pre o e b iv heap (z.map List.ofFn) ivid heap' := by
  unfold estimate at h
  split_ifs at h with hr
  · simp at h
  refine ⟨by simpa using hr, ?_⟩
  cases ht : transferFunction e (cols b) (ws.exact.at b.length) none (.each inv) o heap with
  | mk r s =>
  rw [ht] at h
  cases r with
  | error x => simp at h
  | ok l =>
  simp only at h
  cases hm : l.mapM (fun p => p.1) with
  | none => rw [hm] at h; simp at h
  | some z1 =>
  rw [hm] at h
  simp only [Prod.mk.injEq, Except.ok.injEq] at h
  obtain ⟨⟨rfl, rfl⟩, rfl⟩ := h
  refine ⟨inv, l, fapply_exact hu hc hpre, C129_exact hu hc _ _ _ (exactIn_at hws _) _ _ _ _ _ _ (by rw [← exact_at]; exact ht), ?_, rfl⟩
  have hzz : l.map (fun p => p.1) = z1.map some := by
    clear ht
    induction l generalizing z1 with
    | nil => simp at hm; subst hm; rfl
    | cons a l ih =>
      simp only [List.mapM_cons, Option.bind_eq_bind, Option.pure_def, Option.bind_eq_some_iff, Option.some.injEq] at hm
      obtain ⟨y, hy, l', hl', rfl⟩ := hm
      simp [hy, ih _ hl']
  rw [show l.map (fun p => p.1.map List.ofFn) = (l.map (fun p => p.1)).map (Option.map List.ofFn) by rw [List.map_map]; rfl, hzz]
  simp [List.map_map, Function.comp_def]

theorem fpredict_exact (hu : 0 ≤ u) (br : List (List ℂ)) (T : List (List ℂ)) (hT : ∀ t ∈ T, t.length = br.length) :
    List.Forall₂ (FPredict u br) T (predictRows br T) := by
  unfold predictRows
  rw [List.forall₂_map_right_iff, List.forall₂_same]
  intro t ht
  refine ⟨by simp, fun n v hv => ?_⟩
  rw [List.getElem?_map, Option.map_eq_some_iff] at hv
  obtain ⟨m, hm, rfl⟩ := hv
  obtain ⟨hm1, hm2⟩ := List.getElem?_eq_some_iff.1 hm
  rw [List.getElem_range] at hm2
  subst hm2
  have hz : List.zipWith (· * ·) t (br.map (fun y => y.getD n 0)) = (List.range br.length).map (fun j => t.getD j 0 * (br.getD j []).getD n 0) := by
    refine List.ext_getElem (by simp only [List.length_zipWith, List.length_map, List.length_range, hT t ht, min_self]) (fun j a1 a2 => ?_)
    have hj : j < br.length := by simpa using a2
    rw [List.getElem_zipWith, List.getElem_map, List.getElem_map, List.getElem_range, List.getD_eq_getElem?_getD (l := t),
      List.getElem?_eq_getElem (by rw [hT t ht]; exact hj), List.getD_eq_getElem?_getD (l := br), List.getElem?_eq_getElem hj]
    rfl
  have := fdot_exact hu t (br.map (fun y => y.getD n 0))
  rw [hz] at this
  exact this

/-- C129: the exact computation of an impedance which is not NaN is one of the possible ones in floating point arithmetic. -/
theorem C129_exact_impedance [One κ] (hu : 0 ≤ u) (hc : 0 ≤ c) (cal : κ → ℚ → Option ℂ) (freq : ℚ) (S : SigSet ℂ κ) (hS : Reach S) (o : Impedance.Opts σ)
    (rws ws : FWs σ) (hrws : firstWeights o = rws.exact) (hws : o.weights = ws.exact) (hrex : ∀ i f, some (i, f) ∈ rws → ∀ q, ExactIn (f q))
    (hex : ∀ i f, some (i, f) ∈ ws → ∀ q, ExactIn (f q)) (rpre pre : Option FPre) (hrpre : firstPrefilter o = rpre.map FPre.exact) (hpre : o.prefilter = pre.map FPre.exact) (E B : List ℕ) (R : Option (List ℕ)) (hch : Channels S o E B R) (heap heap' : ℕ → σ) (r : Result) (h : oneFreq cal S freq o heap = (.ok r, heap'))
    (hnum : ∀ row ∈ r.impedance, none ∉ row) (hcal : ∀ s ∈ S.runs, ∀ k ∈ s.cals, cal k freq ≠ some 0) :
    ∃ T Z ivid ds heap'' co w, FRobust u c cal S freq o rws ws rpre pre heap T Z ivid r.error ds heap'' ∧ r.impedance = Z.map (List.map some) ∧
      r.transferMag = T.map (List.map some) ∧ setCoeffs cal S freq o.nper o.overlap o.win = .ok (co, w) ∧
      w = (ds.map (fun d => d.1), ds.map (fun d => d.2.1), ds.map (fun d => d.2.2)) ∧
      (o.keepInvalidTimes = true → r.invalidTime = ivid.map (timesLine (windows S w))) := by
  have hST : STends (ι := Unit) ⊤ cal freq (fun _ => S) S := ⟨fun _ => rfl, fun _ => List.forall₂_same.2 (fun s _ => ⟨rfl, rfl, rfl, rfl, Iff.rfl⟩),
    fun _ _ _ => tendsto_const_nhds⟩
  obtain ⟨co, w, -, hco, -, g1, g2, -⟩ := oneFreq_tends hST (fun _ => hS) hS hch h hnum
  obtain ⟨ds, hds, hw⟩ := FSetCoeffs.of_exact hu hco hcal
  obtain ⟨pE, neE, lE⟩ := g1 E (.inl rfl)
  obtain ⟨pB, neB, lB⟩ := g1 B (.inr (.inl rfl))
  have h1 := h
  rw [g2] at h1
  have hrem := channels_remote hch
  cases R with
  | none =>
    simp only [stages, Option.map_none] at h1
    obtain ⟨inv, z, iv0, hp', q1, q2, q3, q4, q5, E0, q6, q7⟩ := secondStage_ok h1 (number_not_nans hnum (by simpa using neE) (by simpa using neB))
    rw [hpre] at q1
    rw [hws] at q2
    obtain ⟨hr, hst⟩ := fstage_exact hu hc hex q1 q2
    refine ⟨_, _, iv0, ds, hp', co, w, ⟨E, B, co, _, _, hch.elec, hch.mag, hr, by rw [orWeights_eq, hrws], hws, by rw [orPrefilter_eq, hrpre], hpre, hds, pick_ok.2 pE, pick_ok.2 pB, .inl ⟨hrem, rfl, hst, q7 ▸ ferrors_exact hu hc q6⟩⟩, q3, ?_, hco, hw, ?_⟩
    · rw [q5]
      simp [List.map_map, Function.comp_def, List.map_const']
    · intro hk
      rw [q4, if_pos hk]
  | some R =>
    obtain ⟨pR, neR, lR⟩ := g1 R (.inr (.inr rfl))
    simp only [stages, Option.map_some] at h1
    cases hf : firstStage o (B.map (fun i => co.getD i [])) (R.map (fun i => co.getD i [])) heap with
    | mk x s =>
    rw [hf] at h1
    cases x with
    | error x => simp at h1
    | ok x =>
    cases x with
    | none =>
      simp only [Prod.mk.injEq, Except.ok.injEq] at h1
      obtain ⟨rfl, -⟩ := h1
      exact absurd rfl (number_not_nans hnum (by simpa using neE) (by simpa using neB))
    | some x =>
    obtain ⟨T0, be0, iv⟩ := x
    simp only at h1
    obtain ⟨inv1, ivT0, m1, m2, m3, m4⟩ := firstStage_ok hf
    rw [hrpre] at m1
    rw [hrws] at m2
    obtain ⟨hr, hst1⟩ := fstage_exact hu hc hrex m1 m2
    obtain ⟨inv, z, iv0, hp', q1, q2, q3, q4, q5, E0, q6, q7⟩ := secondStage_ok h1 (number_not_nans hnum (by simpa using neE) (by simpa using neB))
    rw [hpre] at q1
    rw [hws] at q2
    obtain ⟨-, hst2⟩ := fstage_exact hu hc hex q1 q2
    rw [m4] at hst2
    refine ⟨T0.map List.ofFn, _, iv0, ds, hp', co, w, ⟨E, B, co, _, _, hch.elec, hch.mag, hr, by rw [orWeights_eq, hrws], hws, by rw [orPrefilter_eq, hrpre], hpre, hds, pick_ok.2 pE, pick_ok.2 pB,
      .inr ⟨R, _, be0, ivT0, s, hrem, pick_ok.2 pR, hst1, ?_, hst2, q7 ▸ ferrors_exact hu hc q6⟩⟩, q3, ?_, hco, hw, ?_⟩
    · rw [m3]
      refine fpredict_exact hu _ _ (fun t ht => ?_)
      obtain ⟨v, -, rfl⟩ := List.mem_map.1 ht
      simp
    · rw [q5]
      simp [List.map_map, Function.comp_def]
    · intro hk
      rw [q4, if_pos hk]

local instance instOneRound : One Unit := ⟨()⟩

/-- The weight functions of `exRobustOpts`. -/
noncomputable def exRobustWeights (c : ℝ) : FWs Mem := [none, some (1, fun _ => FW.obj c (.base (.thomson (some 3))))]

theorem exRobustWeights_library (c : ℝ) : FUsualWeights c (exRobustWeights c) := by
  intro i f h
  simp only [exRobustWeights, List.mem_cons, reduceCtorEq, Option.some.injEq, Prod.mk.injEq, List.not_mem_nil, or_false, false_or] at h
  obtain ⟨-, rfl⟩ := h
  exact .inl ⟨.base (.thomson (some 3)), by intro x hx; cases hx; norm_num, fun _ => rfl⟩

theorem exRobustWeights_exact {c : ℝ} (hc : 0 ≤ c) : ∀ i f, some (i, f) ∈ exRobustWeights c → ∀ q, ExactIn (f q) := by
  intro i f h q
  rcases exRobustWeights_library c i f h with ⟨w, -, hw⟩ | ⟨g, -, hw | ⟨lower, khi, -, hw⟩⟩
  · rw [hw q]
    exact exactIn_obj hc w
  · rw [hw q]
    exact exactIn_user _
  · rw [hw q]
    exact exactIn_bis hc (exactIn_user _) lower khi

/-- The hypotheses are met by a recording and a robust estimation: in floating point arithmetic of enough precision, whatever the rounding errors, the
impedance is close to 0; and there is such a computation. -/
example (c : ℝ) (hc : 0 ≤ c) (ε : ℝ) (hε : 0 < ε) : ∃ δ : ℝ, 0 < δ ∧ (∀ S, Reach S → Perturbed δ S exRobust → ∀ u, 0 ≤ u → u ≤ δ → ∀ [Rnd], RoundsWithin u →
    ∀ heap T Z ivid err heap', FRobust u c (fun _ _ => some 1) S (1 / 4) exRobustOpts (exRobustWeights c) (exRobustWeights c) none none heap T Z ivid err [(4, 4, 4)] heap' →
    Spec.Within ε (Z.map (List.map some)) [[some 0]]) ∧
    ∃ heap T Z ivid err heap', FRobust δ c (fun _ _ => some 1) exRobust (1 / 4) exRobustOpts (exRobustWeights c) (exRobustWeights c) none none heap T Z ivid err [(4, 4, 4)] heap' := by
  obtain ⟨r0, heap1, h0, h1⟩ := exRobust_result (fun _ => (none, none))
  obtain ⟨δ, hδ, h⟩ := C129_impedance c (fun _ _ => some 1) (1 / 4) exRobust exRobust_reach exRobustOpts (exRobustWeights c) (exRobustWeights c) (exRobustWeights_library c)
    none none [0] [1] exRobust_channels _ _ _ h0 (by rw [h1]; simp) _ _ exRobust_coeffs (by
      intro e b he hb
      refine ⟨⟨.inl rfl, fun inv hinv p c l hc hl heap => ?_⟩, trivial⟩
      obtain rfl := (picked_eq he).1
      obtain rfl := (picked_eq hb).1
      obtain rfl : inv = [[]] := by
        have : Prefilter.applyPrefilter ([0].map (fun i => [exThom, [1, 1, 1, 1]].getD i [])) (rows ([1].map (fun i => [exThom, [1, 1, 1, 1]].getD i [])))
          (exRobustOpts.prefilter.map (fun p => p ([1].map (fun i => [exThom, [1, 1, 1, 1]].getD i [])).length)) .none = .ok [[]] := rfl
        rw [this] at hinv
        exact (Except.ok.inj hinv).symm
      obtain rfl : p = 0 := by
        have := (List.getElem?_eq_some_iff.1 hl).1
        simpa using this
      simp only [List.map_cons, List.map_nil, List.getElem?_cons_zero, Option.some.injEq] at hc hl
      subst hl
      have hc' : c = exThom := by rw [← hc]; rfl
      subst hc'
      have hrows : rowsOf (cols ([1].map (fun i => [exThom, [1, 1, 1, 1]].getD i []))) exThom.length = exThomb := by
        simp [rowsOf, exThomb, exThom, List.range_succ, cols]
        rfl
      exact hrows ▸ exThom_clear_chain heap) ε hε
  refine ⟨δ, hδ, fun S hS hp u hu hul _ hR heap T Z ivid err heap' hF => h1 ▸ (h S hS hp u hu hul hR heap T Z ivid err _ heap' hF rfl).1, ?_⟩
  obtain ⟨T, Z, ivid, ds, hp, co, w, a1, -, -, a4, a5, -⟩ := C129_exact_impedance hδ.le hc (fun _ _ => some 1) (1 / 4) exRobust exRobust_reach exRobustOpts
    (exRobustWeights c) (exRobustWeights c) rfl rfl (exRobustWeights_exact hc) (exRobustWeights_exact hc) none none rfl rfl [0] [1] none exRobust_channels _ _ r0 h0 (by rw [h1]; simp) (by simp)
  have hw := exRobust_coeffs.symm.trans a4
  rw [a5] at hw
  simp only [Except.ok.injEq, Prod.mk.injEq] at hw
  obtain ⟨-, b1, b2, b3⟩ := hw
  obtain rfl : ds = [(4, 4, 4)] := by
    obtain ⟨⟨x, y, z⟩, rfl⟩ : ∃ d, ds = [d] := List.length_eq_one_iff.1 (by simpa using (congrArg List.length b1).symm)
    simp only [List.map_cons, List.map_nil, List.cons.injEq, and_true] at b1 b2 b3
    rw [← b1, ← b2, ← b3]
  exact ⟨_, T, Z, ivid, _, hp, a1⟩

/-- With the remote: the tones, with a filter by coefficients of determination in the first stage. -/
example (c : ℝ) (ε : ℝ) (hε : 0 < ε) : ∃ δ : ℝ, 0 < δ ∧ ∀ S, Reach S → Perturbed δ S exTones → ∀ u, 0 ≤ u → u ≤ δ → ∀ [Rnd], RoundsWithin u →
    ∀ heap T Z ivid err heap', FRobust u c (fun _ _ => some 1) S (1 / 4) exOptsMem [none] [none] (some (.cod (1 / 2) 1 10)) none heap T Z ivid err [(2, 4, 4)] heap' →
    Spec.Within ε (Z.map (List.map some)) [[some 2]] ∧ Spec.Within ε (T.map (List.map some)) [[some 3]] := by
  obtain ⟨r0, heap1, h0, h1, h2⟩ := exTones_mem (fun _ => (none, none))
  obtain ⟨δ, hδ, h⟩ := C129_remote c (fun _ _ => some 1) (1 / 4) exTones exTones_reach exOptsMem [none] [none] (by intro i wf h; simp at h)
    (by intro i wf h; simp at h) (some (.cod (1 / 2) 1 10)) none [0] [1] [2] ⟨rfl, rfl, .inr ⟨"R", [2], rfl, by decide, rfl, rfl⟩⟩ _ _ _ h0
    (by rw [h1]; simp) _ _ exTones_coeffs (by
      intro b br hb hbr
      obtain rfl := (picked_eq hb).1
      obtain rfl := (picked_eq hbr).1
      refine ⟨⟨.inr ⟨1 / 2, 1, 10, rfl, ?_⟩, fun _ _ _ _ _ _ _ _ => clear_none _ _ _ _ _⟩, ?_⟩
      all_goals
        intro c hc vs hvs x hx
        rw [List.mem_singleton.1 hc] at hvs
        have := hvs.symm.trans exTones_cod
        simp only [Except.ok.injEq] at this
        subst this
      · exact ⟨1, by simpa using hx, by norm_num, by norm_num⟩
      · exact ⟨1, by simpa using hx, by norm_num, by norm_num, by norm_num⟩)
    (fun _ _ _ _ _ _ _ _ _ _ _ _ => ⟨⟨.inl rfl, fun _ _ _ _ _ _ _ _ => clear_none _ _ _ _ _⟩, trivial⟩) ε hε
  refine ⟨δ, hδ, fun S hS hp u hu hul _ hR heap T Z ivid err heap' hF => ?_⟩
  obtain ⟨h3, h4, -⟩ := h S hS hp u hu hul hR heap T Z ivid err _ heap' hF rfl
  exact ⟨h1 ▸ h3, h2 ▸ h4⟩

end Razorback.Props
