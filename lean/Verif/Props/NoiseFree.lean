/-
C114: estimations on noise free data.
-/
import Verif.Props.Units
namespace Razorback.Spec
open Razorback
variable {𝕜 : Type} [RCLike 𝕜] {q : ℕ}
open scoped Matrix

/-- Each output is exactly the combination of its inputs with the coefficients `z`. -/
def NoiseFree (e : List 𝕜) (b : List (Fin q → 𝕜)) (z : Fin q → 𝕜) : Prop :=
  e.length = b.length ∧ ∀ p ∈ e.zip b, p.1 = p.2 ⬝ᵥ z

end Razorback.Spec

namespace Razorback.Props
open Razorback Razorback.SigSet Razorback.Spec Razorback.Impedance Razorback.Fourier Razorback.MEst Razorback.Prefilter
open scoped Matrix

section
variable {𝕜 : Type} [RCLike 𝕜] {q : ℕ} {σ : Type}

theorem weightsAre_of_ok {x : List 𝕜} {y : List (Fin q → 𝕜)} {w : Option (List Flt)} {z : Fin q → 𝕜} (h : wlse x y w = .ok z) :
    ∃ ws, WeightsAre w y.length ws := by
  cases w with
  | none => exact ⟨_, by simp, .inl ⟨rfl, rfl⟩⟩
  | some w =>
    by_cases hb : w.length ≠ y.length ∨ ∃ v ∈ w, v.val? = none
    · rw [C44_bad_weights_raise x y w hb] at h; simp at h
    · push Not at hb
      cases hm : w.mapM Flt.val? with
      | none => simp [wlse, hb.1, hm] at h
      | some ws =>
        have := mapM_val.1 hm
        exact ⟨ws, by rw [← hb.1, this, List.length_map], .inr (by rw [this])⟩

/-- **C114.** Weighted least squares on noise free data: any result is the exact one, whatever the weights. -/
theorem C114_weighted (e : List 𝕜) (b : List (Fin q → 𝕜)) (z : Fin q → 𝕜) (hz : NoiseFree e b z) (w : Option (List Flt))
    (z' : Fin q → 𝕜) (h : wlse e b w = .ok z') : z' = z := by
  obtain ⟨ws, hws⟩ := weightsAre_of_ok h
  have h1 := ((wlse_ok hz.1 hws).1 h).1
  rw [C44_exact e b w ws hz.1 hws h1 z (by
    intro t ht _
    obtain ⟨i, hi, rfl⟩ := List.getElem_of_mem ht
    simp only [obs, List.getElem_zipWith]
    exact hz.2 _ (List.getElem_mem _))] at h
  exact (Except.ok.inj h).symm

theorem noiseFree_residual {e : List 𝕜} {b : List (Fin q → 𝕜)} {z : Fin q → 𝕜} (hz : NoiseFree e b z) :
    MEst.residual e b z = List.replicate e.length 0 := by
  rw [List.eq_replicate_iff]
  refine ⟨by simp [MEst.residual, hz.1], ?_⟩
  intro v hv
  obtain ⟨i, hi, rfl⟩ := List.getElem_of_mem hv
  simp only [MEst.residual, List.length_zipWith] at hi
  simp only [MEst.residual, List.getElem_zipWith]
  have := hz.2 (e[i]'(by omega), b[i]'(by omega)) (List.mem_iff_getElem.2 ⟨i, by simpa using hi, by simp⟩)
  exact sub_eq_zero.2 this

theorem wresid_zero (w : Option (List Flt)) (n : ℕ) : wresid w (List.replicate n (0 : 𝕜)) = 0 := by
  unfold wresid
  rw [norm_eq_zero]
  apply List.sum_eq_zero
  intro a ha
  rw [List.mem_iff_getElem] at ha
  obtain ⟨i, hi, rfl⟩ := ha
  simp

/-- **C114.** A weight function on noise free data: the estimation never succeeds.  The first residual is zero, so that the change
of the weighted residual, relative to the previous one, is never a number. -/
theorem C114_never_converges (e : List 𝕜) (b : List (Fin q → 𝕜)) (z : Fin q → 𝕜) (hz : NoiseFree e b z) (z0 : Option (Fin q → 𝕜))
    (wf : WFun σ 𝕜 q) (inv : List ℕ) (o : MEst.Opts) (st : σ) : ∃ x, (mEstimate e b z0 (some wf) inv o st).1 = .error x := by
  have key : ∀ (n it : ℕ) (r : List 𝕜) (inv : List ℕ) (prev : Option ℝ) (st : σ), prev = none ∨ prev = some 0 →
      ∃ x, (loop wf e b o n it r inv prev st).1 = .error x := by
    intro n
    induction n with
    | zero => intro it r inv prev st _; exact ⟨_, rfl⟩
    | succ n ih =>
      intro it r inv prev st hp
      unfold loop
      rcases evalWeight wf it r e b inv o.eps st with ⟨x | ⟨w, inv'⟩, st'⟩
      · exact ⟨x, rfl⟩
      · simp only
        cases hw : wlse e b w with
        | error x => exact ⟨x, rfl⟩
        | ok z' =>
          obtain rfl := C114_weighted e b z hz w z' hw
          simp only [noiseFree_residual hz, wresid_zero]
          have hc : converged o.tol prev 0 = false := by
            unfold converged
            rcases hp with rfl | rfl <;> simp
          rw [hc]
          exact ih _ _ _ _ _ (.inr rfl)
  unfold mEstimate
  cases z0 with
  | none => exact ⟨_, rfl⟩
  | some z0 => exact key _ _ _ _ _ _ (.inl rfl)

theorem noiseFree_without {e : List 𝕜} {b : List (Fin q → 𝕜)} {z : Fin q → 𝕜} (hz : NoiseFree e b z) (v : List ℕ) :
    NoiseFree (without e v) (without b v) z := by
  refine ⟨length_without v hz.1, ?_⟩
  intro p hp
  rw [List.zip, without_zip _ _ _ _ hz.1] at hp
  obtain ⟨n, h1, _⟩ := mem_without.1 hp
  exact hz.2 p (List.mem_of_getElem? h1)

theorem noiseFree_of_fit {inputs : Fin q → List 𝕜} {y : List 𝕜} {v : List ℕ} {T : Fin q → 𝕜} (h : ExactFit inputs y v T) :
    NoiseFree (without y v) (without (rowsOf inputs y.length) v) T := by
  have hrl : (rowsOf inputs y.length).length = y.length := by simp [rowsOf]
  refine ⟨length_without v hrl.symm, ?_⟩
  intro p hp
  rw [List.zip, without_zip _ _ _ _ hrl.symm] at hp
  obtain ⟨n, h1, h2⟩ := mem_without.1 hp
  rw [List.getElem?_zipWith_eq_some] at h1
  obtain ⟨a, r, ha, hr, rfl⟩ := h1
  have hn := (List.getElem?_eq_some_iff.1 ha).1
  simp only [rowsOf, List.getElem?_map, List.getElem?_range hn, Option.map_some, Option.some.injEq] at hr
  subst hr
  have := h n hn h2
  rw [List.getD_eq_getElem?_getD, ha] at this
  simp only [Option.getD_some] at this
  simp only [this, dotProduct, mul_comm]

/-- A step of the chain on noise free data. -/
theorem callEstimate_noiseFree {e : List 𝕜} {b : List (Fin q → 𝕜)} {z : Fin q → 𝕜} (hz : NoiseFree e b z) {z0 : Option (Fin q → 𝕜)}
    {w : Option (ℕ × WFun σ 𝕜 q)} {o : MEst.Opts} {heap heap' : ℕ → σ} {z' : Fin q → 𝕜} {ii : List ℕ}
    (h : callEstimate e b z0 w o heap = (.ok (z', ii), heap')) : w = none ∧ z' = z ∧ ii = [] := by
  cases w with
  | none =>
    refine ⟨rfl, ?_⟩
    simp only [callEstimate, mEstimate, List.any_nil, Bool.false_eq_true, if_false, List.length_nil, if_true] at h
    cases hw : wlse e b none with
    | error x => rw [hw] at h; simp at h
    | ok z1 =>
      rw [hw] at h
      simp only [Prod.mk.injEq, Except.ok.injEq] at h
      exact ⟨h.1.1 ▸ C114_weighted e b z hz none z1 hw, h.1.2.symm⟩
  | some p =>
    obtain ⟨x, hx⟩ := C114_never_converges e b z hz z0 p.2 [] o (heap p.1)
    simp only [callEstimate, Prod.mk.injEq] at h
    rw [hx] at h
    simp at h

theorem chainLoop_noiseFree {o : MEst.Opts} {z : Fin q → 𝕜} (ws : Weighting σ 𝕜 q) (e : List 𝕜) (b : List (Fin q → 𝕜)) (v : List ℕ)
    (hz : NoiseFree (without e v) (without b v) z) (z0 : Option (Fin q → 𝕜)) (heap heap' : ℕ → σ) (l : List ((Fin q → 𝕜) × List ℕ))
    (h : chainLoop o ws e b z0 (some v) heap = (.ok l, heap')) : (∀ w ∈ ws, w = none) ∧ l = List.replicate ws.length (z, []) := by
  induction ws generalizing e b v z0 heap heap' l with
  | nil =>
    simp only [chainLoop, Prod.mk.injEq, Except.ok.injEq] at h
    exact ⟨by simp, h.1.symm⟩
  | cons w ws ih =>
    unfold chainLoop at h
    cases h1 : eliminate e (some v) with
    | error x => rw [h1] at h; simp at h
    | ok e1 =>
    cases h2 : eliminate b (some v) with
    | error x => rw [h1, h2] at h; simp at h
    | ok b1 =>
    rw [h1, h2] at h
    obtain rfl := (eliminate_ok.1 h1).2
    obtain rfl := (eliminate_ok.1 h2).2
    simp only at h
    split at h
    · simp at h
    cases h3 : callEstimate (without e v) (without b v) z0 w o heap with
    | mk r heap1 =>
    rw [h3] at h
    cases r with
    | error x => simp at h
    | ok p =>
      obtain ⟨z', ii⟩ := p
      obtain ⟨rfl, rfl, rfl⟩ := callEstimate_noiseFree hz h3
      simp only at h
      cases h4 : chainLoop o ws (without e v) (without b v) (some z') (some []) heap1 with
      | mk r heap2 =>
      rw [h4] at h
      cases r with
      | error x => simp at h
      | ok l' =>
        simp only [Prod.mk.injEq, Except.ok.injEq] at h
        obtain ⟨rfl, _⟩ := h
        obtain ⟨g1, g2⟩ := ih _ _ [] (noiseFree_without hz []) _ _ _ _ h4
        exact ⟨by simpa using g1, by rw [g2]; rfl⟩

/-- **C114.** `transfer_function` on outputs which are exact combinations of the inputs, on their valid samples: whenever it
succeeds the coefficients are exact, and only least squares was used. -/
theorem C114_transfer (outputs : List (List 𝕜)) (inputs : Fin q → List 𝕜) (ws : Weighting σ 𝕜 q) (hws : ws ≠ [])
    (init : Option (List (Fin q → 𝕜))) (inv : InvArg) (invs : List (List ℕ)) (hinv : inv.norm outputs.length = .ok invs)
    (T : ℕ → Fin q → 𝕜) (hex : ∀ (i : ℕ) y v, outputs[i]? = some y → invs[i]? = some v → ExactFit inputs y v (T i))
    (o : MEst.Opts) (heap heap' : ℕ → σ) (res : List (Option (Fin q → 𝕜) × List ℕ))
    (h : transferFunction outputs inputs ws init inv o heap = (.ok res, heap')) :
    (∀ w ∈ ws, w = none) ∧ res.map Prod.fst = (List.range outputs.length).map (fun i => some (T i)) := by
  obtain ⟨h1, invs', h2, h3, h4⟩ := C49_rows outputs inputs ws init inv o heap heap' res h
  rw [hinv] at h2
  obtain rfl := Except.ok.inj h2
  have key : ∀ i < outputs.length, (∀ w ∈ ws, w = none) ∧ ∃ p, res[i]? = some p ∧ p.1 = some (T i) := by
    intro i hi
    have hy := List.getElem?_eq_getElem hi
    have hv := List.getElem?_eq_getElem (l := invs) (i := i) (by omega)
    obtain ⟨p, hp, h5, h6⟩ := h4 i _ _ hy hv
    unfold oneOutput at h6
    cases h7 : chainLoop o ws outputs[i] (rowsOf inputs (outputs[i]).length) (init.bind (fun l => l[i]?)) (some (invs[i]'(by omega))) hp with
    | mk r heap1 =>
    rw [h7] at h6
    cases r with
    | error x => simp at h6
    | ok l =>
      obtain ⟨g1, g2⟩ := chainLoop_noiseFree ws _ _ _ (noiseFree_of_fit (hex i _ _ hy hv)) _ _ _ _ h7
      refine ⟨g1, p, h5, ?_⟩
      simp only at h6
      cases h8 : mergeInvalid ((invs[i]'(by omega)) :: l.map Prod.snd) with
      | error x => rw [h8] at h6; simp at h6
      | ok m =>
        rw [h8] at h6
        simp only [Except.ok.injEq] at h6
        obtain ⟨w, ws', rfl⟩ := List.exists_cons_of_ne_nil hws
        rw [← h6, g2, List.length_cons, List.getLast?_replicate]
        simp
  have hne : outputs ≠ [] := by
    rintro rfl
    unfold transferFunction at h
    rw [hinv] at h
    simp at h
  refine ⟨(key 0 (List.length_pos_of_ne_nil hne)).1, ?_⟩
  apply List.ext_getElem?
  intro i
  rw [List.getElem?_map, List.getElem?_map]
  by_cases hi : i < outputs.length
  · obtain ⟨_, p, g1, g2⟩ := key i hi
    rw [g1, List.getElem?_range hi]
    simp [g2]
  · rw [List.getElem?_eq_none (by omega), List.getElem?_eq_none (by simpa using hi)]
    rfl

/-- **C114.** With a weight function, `transfer_function` raises on such outputs. -/
theorem C114_raises (outputs : List (List 𝕜)) (inputs : Fin q → List 𝕜) (ws : Weighting σ 𝕜 q) (hws : ∃ w ∈ ws, w ≠ none)
    (init : Option (List (Fin q → 𝕜))) (inv : InvArg) (invs : List (List ℕ)) (hinv : inv.norm outputs.length = .ok invs)
    (T : ℕ → Fin q → 𝕜) (hex : ∀ (i : ℕ) y v, outputs[i]? = some y → invs[i]? = some v → ExactFit inputs y v (T i))
    (o : MEst.Opts) (heap : ℕ → σ) : ∃ x, (transferFunction outputs inputs ws init inv o heap).1 = .error x := by
  obtain ⟨w, hw, hne⟩ := hws
  cases h : transferFunction outputs inputs ws init inv o heap with
  | mk r heap' =>
  cases r with
  | error x => exact ⟨x, rfl⟩
  | ok res =>
    exact absurd ((C114_transfer outputs inputs ws (List.ne_nil_of_mem hw) init inv invs hinv T hex o heap heap' res h).1 w hw) hne

end

section
variable {κ σ : Type}

theorem estimate_noiseFree {rp : Bool} {ws : Weights σ} {o : MEst.Opts} {outputs inputs : List (List ℂ)} {N : ℕ}
    (hoN : ∀ y ∈ outputs, y.length = N) {inv : List (List ℕ)}
    {t : List (List ℂ)} (htl : t.length = outputs.length) (ht : ∀ c ∈ t, c.length = inputs.length)
    (hex : ∀ (i : ℕ) y c, outputs[i]? = some y → t[i]? = some c → ∀ n < N, y.getD n 0 = combine inputs c n) {heap heap' : ℕ → σ}
    {z : List (Fin inputs.length → ℂ)} {iv : List (List ℕ)} (h : estimate rp ws o outputs inputs inv heap = (.ok (z, iv), heap')) :
    (∀ w ∈ ws, w = none) ∧ z.map List.ofFn = t := by
  unfold estimate at h
  split at h
  · simp at h
  cases h1 : transferFunction outputs (cols inputs) (ws.at inputs.length) none (.each inv) o heap with
  | mk r heap1 =>
  rw [h1] at h
  cases r with
  | error x => simp at h
  | ok res =>
    simp only at h
    obtain ⟨invs, hinv⟩ : ∃ invs, (InvArg.each inv).norm outputs.length = .ok invs := by
      obtain ⟨_, invs, g, _⟩ := C49_rows _ _ _ _ _ _ _ _ _ h1
      exact ⟨invs, g⟩
    have hne : outputs ≠ [] := by
      rintro rfl
      unfold transferFunction at h1
      rw [hinv] at h1
      simp at h1
    by_cases hws : ws = []
    · exfalso
      subst hws
      obtain ⟨g0, invs', g1, g2, g3⟩ := C49_rows _ _ _ _ _ _ _ _ _ h1
      have h0 : 0 < outputs.length := List.length_pos_of_ne_nil hne
      obtain ⟨p, hp, g4, g5⟩ := g3 0 _ _ (List.getElem?_eq_getElem h0) (List.getElem?_eq_getElem (by omega))
      have hpn : p.1 = none := by
        unfold oneOutput at g5
        simp only [Weights.at, List.map_nil, chainLoop] at g5
        cases hm : mergeInvalid [invs'[0]'(by omega)] with
        | error x => rw [hm] at g5; simp at g5
        | ok m =>
          rw [hm] at g5
          simp only [Except.ok.injEq] at g5
          rw [← g5]
          rfl
      cases hm : res.mapM (fun p => p.1) with
      | none => rw [hm] at h; simp at h
      | some z1 =>
        have := congrArg (fun l => l[0]?) (mapM_fst.1 hm)
        simp only [List.getElem?_map, g4, Option.map_some, hpn] at this
        cases z1[0]? <;> simp at this
    · obtain ⟨g1, g2⟩ := C114_transfer outputs (cols inputs) (ws.at inputs.length) (by simpa [Weights.at] using hws) none (.each inv) invs hinv
        (fun i => asFn inputs.length (t.getD i [])) (by
          intro i y v hy _ n hn _
          rw [hoN y (List.mem_of_getElem? hy)] at hn
          have hi' := (List.getElem?_eq_some_iff.1 hy).1
          have hc := List.getElem?_eq_getElem (l := t) (i := i) (by omega)
          rw [hex i y _ hy hc n hn, ← combine_ofFn, ofFn_asFn]
          · rw [List.getD_eq_getElem?_getD, hc]; rfl
          · rw [List.getD_eq_getElem?_getD, hc]
            exact ht _ (List.getElem_mem _)) o heap heap1 res h1
      refine ⟨?_, ?_⟩
      · intro w hw
        cases w with
        | none => rfl
        | some p =>
          exfalso
          have := g1 (some (p.1, p.2 inputs.length)) (List.mem_map.2 ⟨some p, hw, rfl⟩)
          simp at this
      · have hm : res.mapM (fun p => p.1) = some (t.map (asFn inputs.length)) := by
          rw [mapM_fst, g2]
          apply List.ext_getElem?
          intro i
          simp only [List.getElem?_map]
          by_cases hi : i < outputs.length
          · rw [List.getElem?_range hi, List.getElem?_eq_getElem (by omega)]
            simp only [Option.map_some, List.getD_eq_getElem?_getD, List.getElem?_eq_getElem (l := t) (i := i) (by omega), Option.getD_some]
          · rw [List.getElem?_eq_none (by simpa using hi), List.getElem?_eq_none (by omega)]
            rfl
        rw [hm] at h
        simp only [Prod.mk.injEq, Except.ok.injEq] at h
        rw [← h.1.1, List.map_map]
        conv_rhs => rw [← List.map_id t]
        apply List.map_congr_left
        intro c hc
        exact ofFn_asFn (ht c hc)

/-- **C114.** `impedance` without remote, on data where each electric channel is, sample by sample and in physical units, the
combination of the magnetic channels with the coefficients of a row of `z`: for all weights and prefilters, any result
that is not NaN is exactly `z`, and was obtained by least squares alone. -/
theorem C114_impedance [One κ] (cal : κ → ℚ → Option ℂ) (S : SigSet ℂ κ) (hS : Reach S) (freq : ℚ) (o : Impedance.Opts σ)
    (E B : List ℕ) (hc : Channels S o E B none) (z : List (List ℂ)) (hzl : z.length = E.length) (hz : ∀ c ∈ z, c.length = B.length)
    (hex : ∀ s ∈ S.runs, ∀ (i : ℕ) c, z[i]? = some c → ∀ n, physical cal freq s (E.getD i 0) n =
      ∑ k : Fin B.length, c.getD k 0 * physical cal freq s B[k] n) (heap : ℕ → σ)
    (r : Result) (hr : (oneFreq cal S freq o heap).1 = .ok r) :
    (∀ row ∈ r.impedance, ∀ v ∈ row, v = none) ∨ (r.impedance = z.map (fun row => row.map some) ∧ ∀ w ∈ o.weights, w = none) := by
  have hnan : ∀ (n m : ℕ), ∀ row ∈ nans (β := ℂ) n m, ∀ v ∈ row, v = none := by
    intro n m row hrow v hv
    rw [nans] at hrow
    rw [List.eq_of_mem_replicate hrow] at hv
    exact List.eq_of_mem_replicate hv
  cases hf : setCoeffs cal S freq o.nper o.overlap o.win with
  | error x =>
    rw [oneFreq_fourier hc hf] at hr
    obtain rfl := Except.ok.inj hr
    exact .inl (hnan _ _)
  | ok p =>
  obtain ⟨co, w⟩ := p
  obtain ⟨e, b, br, he, hb, -, h1, h2, hle, hlb⟩ := reach_chans hS hc hf
  rw [oneFreq_stages hc hf he hb (.inl ⟨rfl, rfl⟩)] at hr
  obtain ⟨he1, he2⟩ := picked_eq he
  obtain ⟨hb1, hb2⟩ := picked_eq hb
  have hself : List.Forall₂ (SameClock cal freq) S.runs S.runs := List.forall₂_same.2 (fun s _ => ⟨rfl, rfl, rfl, rfl, Iff.rfl⟩)
  obtain ⟨co', h', -, -, hlink⟩ := setCoeffs_linked hS hS hself hf
  rw [hf] at h'
  simp only [Except.ok.injEq, Prod.mk.injEq, and_true] at h'
  subst h'
  have hrel : ∀ (i : ℕ) y c, e[i]? = some y → z[i]? = some c → ∀ n < w.1.sum, y.getD n 0 = combine b c n := by
    intro i y c hy hci n _
    have hi : i < E.length := by
      have := (List.getElem?_eq_some_iff.1 hci).1
      omega
    have hEi : E.getD i 0 = E[i] := getD_get hi
    have hym : co[E[i]]? = some y := by
      rw [(he2 E[i] (List.getElem_mem hi)).1, ← hy, he1, List.getElem?_map, List.getElem?_eq_getElem hi]
      rfl
    rw [hlink E[i] y hym Finset.univ (fun k : Fin B.length => c.getD k 0) (fun k => B[k])
      (fun k _ => (hb2 _ (List.getElem_mem _)).2)
      (List.forall₂_same.2 (fun s hs n => by rw [← hEi]; exact hex s hs i c hci n)) n, hb1,
      combine_eq_sum co B c (hz c (List.mem_of_getElem? hci)) n]
  simp only [stages] at hr
  cases hp : applyPrefilter e (rows b) (o.prefilter.map (fun p => p b.length)) .none with
  | error x => rw [secondStage, hp] at hr; simp at hr
  | ok inv =>
  rcases secondStage_cases (wins := windows S w) (T := List.replicate b.length []) (failed := failedResult e b 0) (heap := heap) hp with
    ⟨x, heap', h4, h5⟩ | ⟨z', iv, N', err, heap', h4, -, -, -, h5⟩
  · rw [h5] at hr
    simp only at hr
    split at hr
    · obtain rfl := Except.ok.inj hr
      exact .inl (hnan _ _)
    · simp at hr
  · rw [h5] at hr
    obtain rfl := Except.ok.inj hr
    obtain ⟨g1, g2⟩ := estimate_noiseFree hle (by rw [hzl, he1, List.length_map]) (by rw [hb1, List.length_map]; exact hz) hrel h4
    refine .inr ⟨?_, g1⟩
    simp only
    rw [← g2, List.map_map]
    rfl

/-- **C114.** With a weight function, `impedance` without remote never returns numbers on such data: it raises or, with
`silent_fail`, returns NaN. -/
theorem C114_robust_fails [One κ] (cal : κ → ℚ → Option ℂ) (S : SigSet ℂ κ) (hS : Reach S) (freq : ℚ) (o : Impedance.Opts σ)
    (hw : ∃ w ∈ o.weights, w ≠ none)
    (E B : List ℕ) (hc : Channels S o E B none) (z : List (List ℂ)) (hzl : z.length = E.length) (hz : ∀ c ∈ z, c.length = B.length)
    (hex : ∀ s ∈ S.runs, ∀ (i : ℕ) c, z[i]? = some c → ∀ n, physical cal freq s (E.getD i 0) n =
      ∑ k : Fin B.length, c.getD k 0 * physical cal freq s B[k] n) (heap : ℕ → σ) :
    (∃ x, (oneFreq cal S freq o heap).1 = .error x) ∨
      ∃ r, (oneFreq cal S freq o heap).1 = .ok r ∧ ∀ row ∈ r.impedance, ∀ v ∈ row, v = none := by
  cases h : (oneFreq cal S freq o heap).1 with
  | error x => exact .inl ⟨x, rfl⟩
  | ok r =>
    refine .inr ⟨r, rfl, ?_⟩
    rcases C114_impedance cal S hS freq o E B hc z hzl hz hex heap r h with h1 | ⟨_, h1⟩
    · exact h1
    · obtain ⟨w, hw1, hw2⟩ := hw
      exact absurd (h1 w hw1) hw2

end

/-! Concrete cases. -/

/-- Three samples, the output being twice the input: least squares with weights 1, 0, 3 gives 2, and any M-estimation raises. -/
example : (∃ z, wlse (𝕜 := ℝ) (q := 1) [2, 4, 6] [fun _ => 1, fun _ => 2, fun _ => 3] (some [.fin 1, .fin 0, .fin 3]) = .ok z ∧ z = fun _ => 2) ∧
    ∀ (wf : WFun Unit ℝ 1) z0, ∃ x, (mEstimate [2, 4, 6] [fun _ => 1, fun _ => 2, fun _ => 3] z0 (some wf) [] {} ()).1 = .error x := by
  have h : NoiseFree (𝕜 := ℝ) (q := 1) [2, 4, 6] [fun _ => 1, fun _ => 2, fun _ => 3] (fun _ => 2) := by
    refine ⟨rfl, ?_⟩
    intro p hp
    simp only [List.zip_cons_cons, List.zip_nil_right, List.mem_cons, List.not_mem_nil, or_false] at hp
    rcases hp with rfl | rfl | rfl <;> simp [dotProduct] <;> norm_num
  refine ⟨?_, fun wf z0 => C114_never_converges _ _ _ h z0 wf [] {} ()⟩
  have hw : WeightsAre (some [.fin 1, .fin 0, .fin 3]) 3 [1, 0, 3] := ⟨rfl, .inr rfl⟩
  refine ⟨fun _ => 2, (C44_normal_equations _ _ _ [1, 0, 3] rfl hw _).2 ⟨?_, ?_⟩, rfl⟩
  · refine (C44_independent _ ?_).2 ?_
    · simp [obs]
    · intro d hd
      have := hd ⟨1, 2, fun _ => 1⟩ (by simp [obs]) (by norm_num)
      funext j
      fin_cases j
      simpa [dotProduct] using this
  · intro j
    simp [obs, dotProduct]
    norm_num

local instance instOneNoise : One Unit := ⟨()⟩

/-- The tones with a weight function that always returns `None`: only NaN. -/
example : (∃ x, (oneFreq (fun _ _ => some 1) exTones (1 / 4)
      { exOpts with remote := none, weights := [none, some (0, fun _ st _ _ _ _ _ => (.ok none, st))] } (fun _ => ())).1 = .error x) ∨
    ∃ r, (oneFreq (fun _ _ => some 1) exTones (1 / 4)
      { exOpts with remote := none, weights := [none, some (0, fun _ st _ _ _ _ _ => (.ok none, st))] } (fun _ => ())).1 = .ok r ∧
      ∀ row ∈ r.impedance, ∀ v ∈ row, v = none :=
  C114_robust_fails (fun _ _ => some 1) exTones exTones_reach (1 / 4)
    { exOpts with remote := none, weights := [none, some (0, fun _ st _ _ _ _ _ => (.ok none, st))] } ⟨some (0, fun _ st _ _ _ _ _ => (.ok none, st)), by simp, by simp⟩
    [0] [1] ⟨rfl, rfl, .inl ⟨.inl rfl, rfl⟩⟩ [[2]] rfl (by simp) (by
      intro s hs i c hc n
      have hi := (List.getElem?_eq_some_iff.1 hc).1
      simp only [List.length_singleton, Nat.lt_one_iff] at hi
      subst hi
      simp only [List.getElem?_cons_zero, Option.some.injEq] at hc
      subst hc
      simp only [exTones, List.mem_singleton] at hs
      subst hs
      simp only [List.length_singleton, Finset.univ_unique, Finset.sum_singleton, physical, tone]
      simp [List.getD_eq_getElem?_getD]
      by_cases hn : n < 8
      · simp [hn]
        ring
      · simp [hn]) (fun _ => ())

end Razorback.Props
