/-
Property C119: the options of the iteration.
-/
import Verif.Props.Impedance
import Verif.Props.Outliers

namespace Razorback.Props
open Razorback Razorback.Spec Razorback.MEst Razorback.Impedance Razorback.Prefilter Razorback.Fourier Razorback.Weights

variable {𝕜 : Type} [RCLike 𝕜] {q : ℕ} {σ κ : Type}

theorem loop_more {wf : WFun σ 𝕜 q} {e : List 𝕜} {b : List (Fin q → 𝕜)} {o o' : MEst.Opts} (ht : o'.tol = o.tol) (he : o'.eps = o.eps)
    (n k it : ℕ) (r : List 𝕜) (inv : List ℕ) (prev : Option ℝ) (st : σ) (h : (loop wf e b o n it r inv prev st).1 ≠ .error .nonConv) :
    loop wf e b o' (n + k) it r inv prev st = loop wf e b o n it r inv prev st := by
  induction n generalizing it r inv prev st with
  | zero => exact absurd rfl h
  | succ n ih =>
    rw [Nat.add_right_comm, loop, loop, he, ht]
    rw [loop] at h
    cases h1 : evalWeight wf it r e b inv o.eps st with
    | mk w st1 =>
    rw [h1] at h
    cases w with
    | error x => rfl
    | ok w =>
    simp only at h ⊢
    cases h2 : wlse e b w.1 with
    | error x => rfl
    | ok z =>
    rw [h2] at h
    simp only at h ⊢
    split
    · rfl
    · rename_i hc
      rw [if_neg hc] at h
      exact ih _ _ _ _ _ h

/-- **C119.** Allowing more iterations changes nothing, except where there were not enough. -/
theorem C119_maxit (e : List 𝕜) (b : List (Fin q → 𝕜)) (z0 : Option (Fin q → 𝕜)) (wf : Option (WFun σ 𝕜 q)) (inv : List ℕ)
    (o : MEst.Opts) (m : ℕ) (hm : o.maxit ≤ m) (st : σ) (h : (mEstimate e b z0 wf inv o st).1 ≠ .error .nonConv) :
    mEstimate e b z0 wf inv { o with maxit := m } st = mEstimate e b z0 wf inv o st := by
  obtain ⟨k, rfl⟩ := Nat.exists_eq_add_of_le hm
  cases wf with
  | none => rfl
  | some wf =>
    cases z0 with
    | none => rfl
    | some z =>
      simp only [mEstimate] at h ⊢
      exact loop_more (by rfl) (by rfl) _ _ _ _ _ _ _ h

theorem callEstimate_more {e : List 𝕜} {b : List (Fin q → 𝕜)} {z : Option (Fin q → 𝕜)} {w : Option (ℕ × WFun σ 𝕜 q)} {o : MEst.Opts} {m : ℕ}
    (hm : o.maxit ≤ m) {heap : ℕ → σ} (h : (callEstimate e b z w o heap).1 ≠ .error .nonConv) :
    callEstimate e b z w { o with maxit := m } heap = callEstimate e b z w o heap := by
  cases w with
  | none => rfl
  | some p =>
    simp only [callEstimate] at h ⊢
    rw [C119_maxit _ _ _ _ _ _ _ hm _ h]

theorem chainLoop_more {o : MEst.Opts} {m : ℕ} (hm : o.maxit ≤ m) (ws : Weighting σ 𝕜 q) (e : List 𝕜) (b : List (Fin q → 𝕜))
    (z : Option (Fin q → 𝕜)) (ii : Option (List ℕ)) (heap : ℕ → σ) (h : (chainLoop o ws e b z ii heap).1 ≠ .error .nonConv) :
    chainLoop { o with maxit := m } ws e b z ii heap = chainLoop o ws e b z ii heap := by
  induction ws generalizing e b z ii heap with
  | nil => rfl
  | cons w ws ih =>
    rw [chainLoop, chainLoop]
    rw [chainLoop] at h
    cases h1 : eliminate e ii with
    | error x => rfl
    | ok e1 =>
    rw [h1] at h
    cases h2 : eliminate b ii with
    | error x => rfl
    | ok b1 =>
    rw [h2] at h
    simp only at h ⊢
    split
    · rfl
    · rename_i h0
      rw [if_neg h0] at h
      cases h3 : callEstimate e1 b1 z w o heap with
      | mk r hp =>
      rw [h3] at h
      rw [callEstimate_more hm (by
        rw [h3]
        intro hc
        simp only at hc
        subst hc
        exact h rfl), h3]
      cases r with
      | error x => rfl
      | ok p =>
        simp only at h ⊢
        cases h4 : chainLoop o ws e1 b1 (some p.1) (some p.2) hp with
        | mk r2 hp2 =>
        rw [h4] at h
        rw [ih _ _ _ _ _ (by
          rw [h4]
          intro hc
          simp only at hc
          subst hc
          exact h rfl), h4]

theorem oneOutput_more {o : MEst.Opts} {m : ℕ} (hm : o.maxit ≤ m) (ws : Weighting σ 𝕜 q) (b : List (Fin q → 𝕜)) (line : List 𝕜)
    (z0 : Option (Fin q → 𝕜)) (inv : List ℕ) (heap : ℕ → σ) (h : (oneOutput o ws b line z0 inv heap).1 ≠ .error .nonConv) :
    oneOutput { o with maxit := m } ws b line z0 inv heap = oneOutput o ws b line z0 inv heap := by
  unfold oneOutput at h ⊢
  cases h1 : chainLoop o ws line b z0 (some inv) heap with
  | mk r hp =>
  rw [h1] at h
  rw [chainLoop_more hm _ _ _ _ _ _ (by
    rw [h1]
    intro hc
    simp only at hc
    subst hc
    exact h rfl), h1]

theorem outputsLoop_more {o : MEst.Opts} {m : ℕ} (hm : o.maxit ≤ m) (ws : Weighting σ 𝕜 q) (b : List (Fin q → 𝕜))
    (l : List (List 𝕜 × Option (Fin q → 𝕜) × List ℕ)) (heap : ℕ → σ) (h : (outputsLoop o ws b l heap).1 ≠ .error .nonConv) :
    outputsLoop { o with maxit := m } ws b l heap = outputsLoop o ws b l heap := by
  induction l generalizing heap with
  | nil => rfl
  | cons t l ih =>
    obtain ⟨line, z0, inv⟩ := t
    rw [outputsLoop, outputsLoop]
    rw [outputsLoop] at h
    cases h1 : oneOutput o ws b line z0 inv heap with
    | mk r hp =>
    rw [h1] at h
    rw [oneOutput_more hm _ _ _ _ _ _ (by
      rw [h1]
      intro hc
      simp only at hc
      subst hc
      exact h rfl), h1]
    cases r with
    | error x => rfl
    | ok p =>
      simp only at h ⊢
      cases h2 : outputsLoop o ws b l hp with
      | mk r2 hp2 =>
      rw [h2] at h
      rw [ih _ (by
        rw [h2]
        intro hc
        simp only at hc
        subst hc
        exact h rfl), h2]

/-- **C119.** The same holds of `transfer_function`: same estimates, same invalid indices, same exceptions other than NonConvergence, and
the weight objects are left in the same state. -/
theorem C119_transfer (outputs : List (List 𝕜)) (inputs : Fin q → List 𝕜) (ws : Weighting σ 𝕜 q) (init : Option (List (Fin q → 𝕜)))
    (inv : InvArg) (o : MEst.Opts) (m : ℕ) (hm : o.maxit ≤ m) (heap : ℕ → σ)
    (h : (transferFunction outputs inputs ws init inv o heap).1 ≠ .error .nonConv) :
    transferFunction outputs inputs ws init inv { o with maxit := m } heap = transferFunction outputs inputs ws init inv o heap := by
  unfold transferFunction at h ⊢
  generalize inv.norm outputs.length = iv at h ⊢
  cases iv with
  | error x => rfl
  | ok iv =>
    cases outputs with
    | nil => rfl
    | cons y ys =>
      simp only at h ⊢
      by_cases h1 : q = 0 ∨ (∃ j, (inputs j).length ≠ y.length) ∨ (y :: ys).any (fun l => decide (l.length ≠ y.length)) = true
      · simp only [if_pos h1]
      · simp only [if_neg h1] at h ⊢
        by_cases h2 : iv.length ≠ (y :: ys).length
        · simp only [if_pos h2]
        · simp only [if_neg h2] at h ⊢
          cases init <;> simp only at h ⊢ <;> split <;> first
            | rfl
            | (rename_i h3
               rw [if_neg h3] at h
               exact outputsLoop_more hm _ _ _ _ h)

theorem estimate_more {rp : Bool} {ws : Weights σ} {o : MEst.Opts} {m : ℕ} (hm : o.maxit ≤ m) {outputs inputs : List (List ℂ)}
    {inv : List (List ℕ)} {heap : ℕ → σ} (h : (estimate rp ws o outputs inputs inv heap).1 ≠ .error .nonConv) :
    estimate rp ws { o with maxit := m } outputs inputs inv heap = estimate rp ws o outputs inputs inv heap := by
  unfold estimate at h ⊢
  by_cases hr : rp = true
  · simp only [if_pos hr]
  · simp only [if_neg hr] at h ⊢
    rw [C119_transfer _ _ _ _ _ _ _ hm]
    intro hc
    apply h
    cases h1 : transferFunction outputs (cols inputs) (ws.at inputs.length) none (.each inv) o heap with
    | mk r hp =>
    rw [h1] at hc
    simp only at hc
    subst hc
    rfl

/-- The options with another number of iterations. -/
def withMaxit (o : Impedance.Opts σ) (m : ℕ) : Impedance.Opts σ := { o with mest := { o.mest with maxit := m } }

theorem secondStage_more {o : Impedance.Opts σ} {m : ℕ} (hm : o.mest.maxit ≤ m) (hs : o.silentFail = false)
    {wins : List ((ℚ × ℚ) × ℕ × ℕ × ℕ)} {e be : List (List ℂ)} {ivid1 : InvArg} {T : List (List (Option ℂ))} {failed : Result} {heap : ℕ → σ}
    (h : (secondStage o wins e be ivid1 T failed heap).1 ≠ .error .nonConv) :
    secondStage (withMaxit o m) wins e be ivid1 T failed heap = secondStage o wins e be ivid1 T failed heap := by
  unfold secondStage at h ⊢
  simp only [withMaxit] at h ⊢
  cases h0 : applyPrefilter e (rows be) (o.prefilter.map (fun p => p be.length)) ivid1 with
  | error x => rfl
  | ok inv =>
    rw [h0] at h
    simp only at h ⊢
    have hc : (estimate o.realPb o.weights o.mest e be inv heap).1 ≠ .error .nonConv := by
      intro hc
      apply h
      cases h1 : estimate o.realPb o.weights o.mest e be inv heap with
      | mk r hp =>
      rw [h1] at hc
      simp only at hc
      subst hc
      simp [hs]
    rw [estimate_more hm hc]
    rfl

theorem firstStage_more {o : Impedance.Opts σ} {m : ℕ} (hm : o.mest.maxit ≤ m) (hs : o.silentFail = false)
    {b br : List (List ℂ)} {heap : ℕ → σ} (h : (firstStage o b br heap).1 ≠ .error .nonConv) :
    firstStage (withMaxit o m) b br heap = firstStage o b br heap := by
  unfold firstStage at h ⊢
  have e1 : (withMaxit o m).orPrefilter = o.orPrefilter := rfl
  have e2 : (withMaxit o m).orWeights = o.orWeights := rfl
  rw [e1, e2]
  simp only [withMaxit] at h ⊢
  cases h0 : applyPrefilter b (rows br) (o.orPrefilter.map (fun p => p br.length)) .none with
  | error x => rfl
  | ok inv =>
    rw [h0] at h
    simp only at h ⊢
    have hc : (estimate o.realPb o.orWeights o.mest b br inv heap).1 ≠ .error .nonConv := by
      intro hc
      apply h
      cases h1 : estimate o.realPb o.orWeights o.mest b br inv heap with
      | mk r hp =>
      rw [h1] at hc
      simp only at hc
      subst hc
      simp [hs]
    rw [estimate_more hm hc]
    rfl

theorem oneFreq_more {o : Impedance.Opts σ} {m : ℕ} (hm : o.mest.maxit ≤ m) (hs : o.silentFail = false)
    (cal : κ → ℚ → Option ℂ) (S : SigSet ℂ κ) (freq : ℚ) (heap : ℕ → σ) (h : (oneFreq cal S freq o heap).1 ≠ .error .nonConv) :
    oneFreq cal S freq (withMaxit o m) heap = oneFreq cal S freq o heap := by
  unfold oneFreq at h ⊢
  have e1 : remoteChannels S (withMaxit o m) = remoteChannels S o := rfl
  have e2 : (withMaxit o m).tagElec = o.tagElec := rfl
  have e3 : (withMaxit o m).tagMag = o.tagMag := rfl
  have e4 : setCoeffs cal S freq (withMaxit o m).nper (withMaxit o m).overlap (withMaxit o m).win = setCoeffs cal S freq o.nper o.overlap o.win := rfl
  simp only [e1, e2, e3, e4] at h ⊢
  generalize S.tags.getItem o.tagElec = xx at h ⊢
  cases xx with
  | error x => rfl
  | ok E =>
  generalize S.tags.getItem o.tagMag = xx at h ⊢
  cases xx with
  | error x => rfl
  | ok B =>
  simp only at h ⊢
  generalize remoteChannels S o = xx at h ⊢
  cases xx with
  | error x => rfl
  | ok R =>
  simp only at h ⊢
  generalize setCoeffs cal S freq o.nper o.overlap o.win = xx at h ⊢
  cases xx with
  | error x => rfl
  | ok p =>
  obtain ⟨coeffs, w⟩ := p
  simp only at h ⊢
  generalize pick coeffs E = xx at h ⊢
  cases xx with
  | error x => rfl
  | ok e =>
  generalize pick coeffs B = xx at h ⊢
  cases xx with
  | error x => rfl
  | ok b =>
  cases R with
  | none => exact secondStage_more hm hs h
  | some R =>
    simp only at h ⊢
    generalize pick coeffs R = xx at h ⊢
    cases xx with
    | error x => rfl
    | ok br =>
      simp only at h ⊢
      cases h1 : firstStage o b br heap with
      | mk r1 g1 =>
      rw [h1] at h
      rw [firstStage_more hm hs (by
        rw [h1]
        intro hc
        simp only at hc
        subst hc
        exact h rfl), h1]
      cases r1 with
      | error x => rfl
      | ok l =>
        cases l with
        | none => rfl
        | some t => exact secondStage_more hm hs h

/-- **C119.** The same holds of `impedance` without `silent_fail`. -/
theorem C119_impedance (cal : κ → ℚ → Option ℂ) (S : SigSet ℂ κ) (o : Impedance.Opts σ) (hs : o.silentFail = false) (m : ℕ)
    (hm : o.mest.maxit ≤ m) (freqs : List ℚ) (heap : ℕ → σ) (h : (impedance cal S o freqs heap).1 ≠ .error .nonConv) :
    impedance cal S { o with mest := { o.mest with maxit := m } } freqs heap = impedance cal S o freqs heap := by
  have key : ∀ (freqs : List ℚ) (heap : ℕ → σ), (eachFreq cal S o freqs heap).1 ≠ .error .nonConv →
      eachFreq cal S (withMaxit o m) freqs heap = eachFreq cal S o freqs heap := by
    intro freqs
    induction freqs with
    | nil => intro _ _; rfl
    | cons f l ih =>
      intro heap h
      rw [eachFreq, eachFreq]
      rw [eachFreq] at h
      cases h1 : oneFreq cal S f o heap with
      | mk r hp =>
      rw [h1] at h
      rw [oneFreq_more hm hs cal S f heap (by
        rw [h1]
        intro hc
        simp only at hc
        subst hc
        exact h rfl), h1]
      cases r with
      | error x => rfl
      | ok p =>
        simp only at h ⊢
        cases h2 : eachFreq cal S o l hp with
        | mk r2 hp2 =>
        rw [h2] at h
        rw [ih _ (by
          rw [h2]
          intro hc
          simp only at hc
          subst hc
          exact h rfl), h2]
  change impedance cal S (withMaxit o m) freqs heap = _
  unfold impedance at h ⊢
  rw [key]
  intro hc
  apply h
  cases h1 : eachFreq cal S o freqs heap with
  | mk r hp =>
  rw [h1] at hc
  simp only at hc
  subst hc
  rfl

/-! With `silent_fail`. -/

theorem estimate_or {rp : Bool} {ws : Weights σ} (hws : AllReset ws) {o : MEst.Opts} {m : ℕ} (hm : o.maxit ≤ m) {outputs inputs : List (List ℂ)}
    {inv : List (List ℕ)} (heap heap' : ℕ → σ) : (∃ x, (estimate rp ws o outputs inputs inv heap).1 = .error x) ∨
      (estimate rp ws { o with maxit := m } outputs inputs inv heap').1 = (estimate rp ws o outputs inputs inv heap).1 := by
  by_cases h : (estimate rp ws o outputs inputs inv heap).1 = .error .nonConv
  · exact .inl ⟨_, h⟩
  · rw [estimate_resets hws heap' heap, estimate_more hm h]
    exact .inr rfl

theorem secondStage_or {o : Impedance.Opts σ} (hws : AllReset o.weights) {m : ℕ} (hm : o.mest.maxit ≤ m) (hs : o.silentFail = true)
    {wins : List ((ℚ × ℚ) × ℕ × ℕ × ℕ)} {e be : List (List ℂ)} {ivid1 : InvArg} {T : List (List (Option ℂ))} {failed : Result} (heap heap' : ℕ → σ) :
    (secondStage o wins e be ivid1 T failed heap).1 = .ok failed ∨
      (secondStage (withMaxit o m) wins e be ivid1 T failed heap').1 = (secondStage o wins e be ivid1 T failed heap).1 := by
  unfold secondStage
  simp only [withMaxit]
  cases h0 : applyPrefilter e (rows be) (o.prefilter.map (fun p => p be.length)) ivid1 with
  | error x => exact .inr rfl
  | ok inv =>
    simp only
    rcases estimate_or (rp := o.realPb) hws hm (outputs := e) (inputs := be) (inv := inv) heap heap' with ⟨x, hx⟩ | hx
    · left
      cases h1 : estimate o.realPb o.weights o.mest e be inv heap with
      | mk r hp =>
      rw [h1] at hx
      simp only at hx
      subst hx
      simp [hs]
    · right
      cases h1 : estimate o.realPb o.weights o.mest e be inv heap with
      | mk r hp =>
      cases h2 : estimate o.realPb o.weights { o.mest with maxit := m } e be inv heap' with
      | mk r' hp' =>
      rw [h1, h2] at hx
      simp only at hx
      subst hx
      cases r' with
      | error x => simp [hs]
      | ok p =>
        simp only
        cases transferError e (cols be) p.1 p.2 <;> rfl

theorem firstStage_or {o : Impedance.Opts σ} (hws : AllReset (firstWeights o)) {m : ℕ} (hm : o.mest.maxit ≤ m) (hs : o.silentFail = true)
    {b br : List (List ℂ)} (heap heap' : ℕ → σ) :
    (firstStage o b br heap).1 = .ok none ∨ (firstStage (withMaxit o m) b br heap').1 = (firstStage o b br heap).1 := by
  rw [firstStage_eq, firstStage_eq]
  have e1 : firstPrefilter (withMaxit o m) = firstPrefilter o := rfl
  have e2 : firstWeights (withMaxit o m) = firstWeights o := rfl
  rw [e1, e2]
  simp only [withMaxit]
  cases h0 : applyPrefilter b (rows br) ((firstPrefilter o).map (fun p => p br.length)) .none with
  | error x => exact .inr rfl
  | ok inv =>
    simp only
    rcases estimate_or (rp := o.realPb) hws hm (outputs := b) (inputs := br) (inv := inv) heap heap' with ⟨x, hx⟩ | hx
    · left
      cases h1 : estimate o.realPb (firstWeights o) o.mest b br inv heap with
      | mk r hp =>
      rw [h1] at hx
      simp only at hx
      subst hx
      simp [hs]
    · right
      cases h1 : estimate o.realPb (firstWeights o) o.mest b br inv heap with
      | mk r hp =>
      cases h2 : estimate o.realPb (firstWeights o) { o.mest with maxit := m } b br inv heap' with
      | mk r' hp' =>
      rw [h1, h2] at hx
      simp only at hx
      subst hx
      cases r' with
      | error x => simp [hs]
      | ok p => rfl

/-- No number in the impedance. -/
def NoNumber (r : Result) : Prop := ∀ row ∈ r.impedance, ∀ x ∈ row, x = none

theorem noNumber_nans (n k : ℕ) (t : List (List (Option ℚ))) (err : List (List Flt)) (T : List (List (Option ℂ))) : NoNumber ⟨nans n k, t, err, T⟩ := by
  intro row hr x hx
  simp only [nans] at hr
  rw [List.eq_of_mem_replicate hr] at hx
  exact List.eq_of_mem_replicate hx

theorem oneFreq_or {o : Impedance.Opts σ} (hws : AllReset o.weights) (hwr : AllReset (firstWeights o)) {m : ℕ} (hm : o.mest.maxit ≤ m)
    (hs : o.silentFail = true) (cal : κ → ℚ → Option ℂ) (S : SigSet ℂ κ) (freq : ℚ) (heap heap' : ℕ → σ) :
    (∃ r, (oneFreq cal S freq o heap).1 = .ok r ∧ NoNumber r) ∨
      (oneFreq cal S freq (withMaxit o m) heap').1 = (oneFreq cal S freq o heap).1 := by
  unfold oneFreq
  have e1 : remoteChannels S (withMaxit o m) = remoteChannels S o := rfl
  have e2 : (withMaxit o m).tagElec = o.tagElec := rfl
  have e3 : (withMaxit o m).tagMag = o.tagMag := rfl
  have e4 : setCoeffs cal S freq (withMaxit o m).nper (withMaxit o m).overlap (withMaxit o m).win = setCoeffs cal S freq o.nper o.overlap o.win := rfl
  simp only [e1, e2, e3, e4]
  cases S.tags.getItem o.tagElec with
  | error x => exact .inr rfl
  | ok E =>
  cases S.tags.getItem o.tagMag with
  | error x => exact .inr rfl
  | ok B =>
  simp only
  cases remoteChannels S o with
  | error x => exact .inr rfl
  | ok R =>
  simp only
  cases setCoeffs cal S freq o.nper o.overlap o.win with
  | error x => exact .inr rfl
  | ok p =>
  obtain ⟨coeffs, w⟩ := p
  simp only
  cases pick coeffs E with
  | error x => exact .inr rfl
  | ok e =>
  cases pick coeffs B with
  | error x => exact .inr rfl
  | ok b =>
  cases R with
  | none =>
    rcases secondStage_or hws hm hs (wins := windows S w) (e := e) (be := b) (ivid1 := .none) (T := List.replicate b.length [])
      (failed := ⟨nans e.length b.length, [], nanErrors e.length b.length, nans b.length (((none : Option (List ℕ)).map List.length).getD 0)⟩)
      heap heap' with h | h
    · exact .inl ⟨_, h, noNumber_nans _ _ _ _ _⟩
    · exact .inr h
  | some R =>
    simp only
    cases pick coeffs R with
    | error x => exact .inr rfl
    | ok br =>
      simp only
      rcases firstStage_or hwr hm hs (b := b) (br := br) heap heap' with hf | hf
      · cases h1 : firstStage o b br heap with
        | mk r1 g1 =>
        rw [h1] at hf
        simp only at hf
        subst hf
        exact .inl ⟨_, rfl, noNumber_nans _ _ _ _ _⟩
      · cases h1 : firstStage o b br heap with
        | mk r1 g1 =>
        cases h2 : firstStage (withMaxit o m) b br heap' with
        | mk r2 g2 =>
        rw [h1, h2] at hf
        simp only at hf
        subst hf
        cases r2 with
        | error x => exact .inr rfl
        | ok l =>
          cases l with
          | none => exact .inr rfl
          | some t =>
            simp only
            rcases secondStage_or hws hm hs (wins := windows S w) (e := e) (be := t.2.1) (ivid1 := .each (List.replicate e.length t.2.2))
              (T := t.1.map (fun r => (List.ofFn r).map some))
              (failed := ⟨nans e.length b.length, [], nanErrors e.length b.length, nans b.length ((Option.map List.length (some R)).getD 0)⟩)
              g1 g2 with h | h
            · exact .inl ⟨_, h, noNumber_nans _ _ _ _ _⟩
            · exact .inr h

/-- **C119.** With `silent_fail`, and weight objects which start afresh at iteration 0, like those of the library: at every frequency, more
iterations give the same result, unless it was NaN. -/
theorem C119_silent (cal : κ → ℚ → Option ℂ) (S : SigSet ℂ κ) (o : Impedance.Opts σ) (hws : AllReset o.weights)
    (hwr : AllReset (firstWeights o)) (hs : o.silentFail = true) (m : ℕ) (hm : o.mest.maxit ≤ m) (freqs : List ℚ) (heap heap' : ℕ → σ)
    (rs rs' : List Result) (h : (impedance cal S o freqs heap).1 = .ok rs)
    (h' : (impedance cal S { o with mest := { o.mest with maxit := m } } freqs heap').1 = .ok rs') :
    List.Forall₂ (fun r r' => r' = r ∨ NoNumber r) rs rs' := by
  have hst : ∀ (l l' : List Result), stack l = .ok l' → l' = l := by
    intro l l' hl
    cases l with
    | nil => simp only [stack, Except.ok.injEq] at hl; exact hl.symm
    | cons a l =>
      simp only [stack] at hl
      split at hl
      · simp only [Except.ok.injEq] at hl; exact hl.symm
      · simp at hl
  have himp : ∀ (o : Impedance.Opts σ) (hp : ℕ → σ) rs, (impedance cal S o freqs hp).1 = .ok rs → (eachFreq cal S o freqs hp).1 = .ok rs := by
    intro o hp rs h
    unfold impedance at h
    cases h1 : eachFreq cal S o freqs hp with
    | mk r g =>
    rw [h1] at h
    cases r with
    | error x => simp at h
    | ok l =>
      simp only at h ⊢
      rw [hst _ _ h]
  have h1 := eachFreq_each _ _ _ _ _ _ (himp _ _ _ h)
  have h2 := eachFreq_each _ _ _ _ _ _ (himp _ _ _ h')
  clear h h' himp
  induction h1 generalizing rs' with
  | nil =>
    cases h2
    exact .nil
  | cons ha _ ih =>
    cases h2 with
    | cons hb h2 =>
    refine .cons ?_ (ih _ h2)
    obtain ⟨hp, ha⟩ := ha
    obtain ⟨hp', hb⟩ := hb
    rcases oneFreq_or hws hwr hm hs cal S _ hp hp' with ⟨r, h3, h4⟩ | h3
    · rw [ha] at h3
      cases h3
      exact .inr h4
    · rw [ha] at h3
      have := h3.symm.trans hb
      simp only [Except.ok.injEq] at this
      exact .inl this.symm

/-! Tolerance. -/

theorem loop_tol {wf : WFun σ 𝕜 q} {e : List 𝕜} {b : List (Fin q → 𝕜)} {o o' : MEst.Opts} (ht : o.tol ≤ o'.tol) (he : o'.eps = o.eps)
    (n it : ℕ) (r : List 𝕜) (inv : List ℕ) (prev : Option ℝ) (st : σ) {p : (Fin q → 𝕜) × List ℕ}
    (h : (loop wf e b o n it r inv prev st).1 = .ok p) : ∃ p', (loop wf e b o' n it r inv prev st).1 = .ok p' := by
  induction n generalizing it r inv prev st with
  | zero => simp [loop] at h
  | succ n ih =>
    rw [loop] at h ⊢
    rw [he]
    cases h1 : evalWeight wf it r e b inv o.eps st with
    | mk w st1 =>
    rw [h1] at h
    cases w with
    | error x => simp at h
    | ok w =>
    simp only at h ⊢
    cases h2 : wlse e b w.1 with
    | error x => rw [h2] at h; simp at h
    | ok z =>
    rw [h2] at h
    simp only at h ⊢
    by_cases hc' : converged o'.tol prev (wresid w.1 (MEst.residual e b z)) = true
    · rw [if_pos hc']
      exact ⟨_, rfl⟩
    · rw [if_neg hc']
      have hc : ¬ converged o.tol prev (wresid w.1 (MEst.residual e b z)) = true := by
        intro hc
        apply hc'
        cases prev with
        | none => simp [converged] at hc
        | some a =>
          simp only [converged, decide_eq_true_eq] at hc ⊢
          exact ⟨hc.1, lt_of_lt_of_le hc.2 ht⟩
      rw [if_neg hc] at h
      exact ih _ _ _ _ _ h

/-- **C119.** An estimation which succeeds with a tolerance succeeds with a larger one. -/
theorem C119_tolerance (e : List 𝕜) (b : List (Fin q → 𝕜)) (z0 : Option (Fin q → 𝕜)) (wf : Option (WFun σ 𝕜 q)) (inv : List ℕ)
    (o : MEst.Opts) (tol : ℝ) (ht : o.tol ≤ tol) (st : σ) (p : (Fin q → 𝕜) × List ℕ) (h : (mEstimate e b z0 wf inv o st).1 = .ok p) :
    ∃ p', (mEstimate e b z0 wf inv { o with tol := tol } st).1 = .ok p' := by
  cases wf with
  | none => exact ⟨p, h⟩
  | some wf =>
    cases z0 with
    | none => exact ⟨p, h⟩
    | some z =>
      simp only [mEstimate] at h ⊢
      exact loop_tol ht (by rfl) _ _ _ _ _ _ h

/-- **C119.** Least squares does not depend on the options. -/
theorem C119_least_squares (outputs : List (List 𝕜)) (inputs : Fin q → List 𝕜) (ws : Weighting σ 𝕜 q) (hws : ∀ w ∈ ws, w = none)
    (init : Option (List (Fin q → 𝕜))) (inv : InvArg) (o o' : MEst.Opts) (heap : ℕ → σ) :
    transferFunction outputs inputs ws init inv o heap = transferFunction outputs inputs ws init inv o' heap := by
  have hchain : ∀ (ws : Weighting σ 𝕜 q), (∀ w ∈ ws, w = none) → ∀ (e : List 𝕜) (b : List (Fin q → 𝕜)) (z : Option (Fin q → 𝕜)) (ii : Option (List ℕ))
      (heap : ℕ → σ), chainLoop o ws e b z ii heap = chainLoop o' ws e b z ii heap := by
    intro ws
    induction ws with
    | nil => intros; rfl
    | cons w ws ih =>
      intro hw e b z ii heap
      obtain rfl := hw w (by simp)
      rw [chainLoop, chainLoop]
      have hc : ∀ (e : List 𝕜) (b : List (Fin q → 𝕜)), callEstimate e b z (none : Option (ℕ × WFun σ 𝕜 q)) o heap = callEstimate e b z none o' heap :=
        fun _ _ => rfl
      simp only [hc, ih (fun w h => hw w (by simp [h]))]
  have hout : ∀ (b : List (Fin q → 𝕜)) l (heap : ℕ → σ), outputsLoop o ws b l heap = outputsLoop o' ws b l heap := by
    intro b l
    induction l with
    | nil => intros; rfl
    | cons t l ih =>
      obtain ⟨line, z0, inv⟩ := t
      intro heap
      rw [outputsLoop, outputsLoop]
      have ho : oneOutput o ws b line z0 inv heap = oneOutput o' ws b line z0 inv heap := by
        unfold oneOutput
        rw [hchain ws hws]
      simp only [ho, ih]
  unfold transferFunction
  simp only [hout]

/-- Thomson's weights and two outliers: the result with one hundred iterations is that with a thousand, and with ten times the
tolerance there is one. -/
example : mEstimate exO exOb (some fun _ => 0) (some (thomson (some 3))) [] { maxit := 1000 } none =
    mEstimate exO exOb (some fun _ => 0) (some (thomson (some 3))) [] {} none ∧
    ∃ p', (mEstimate exO exOb (some fun _ => 0) (some (thomson (some 3))) [] { tol := 1 / 10 } none).1 = .ok p' := by
  obtain ⟨st', h⟩ := exO_ok
  exact ⟨C119_maxit _ _ _ _ _ {} 1000 (by norm_num) _ (by rw [h]; simp),
    C119_tolerance _ _ _ _ _ {} (1 / 10) (by norm_num) _ _ (by rw [h])⟩

/-- Impedances with a remote reference, two frequencies of which the second cannot be used. -/
example : impedance (fun _ _ => some 1) exTones { exOpts with mest := { maxit := 1000 } } [1 / 4] (fun _ => ()) =
    impedance (fun _ _ => some 1) exTones exOpts [1 / 4] (fun _ => ()) ∧
    ∃ rs rs', (impedance (fun _ _ => some 1) exTones { exOpts with silentFail := true } [1 / 4, 1] (fun _ => ())).1 = .ok rs ∧
      (impedance (fun _ _ => some 1) exTones { exOpts with silentFail := true, mest := { maxit := 1000 } } [1 / 4, 1] (fun _ => ())).1 = .ok rs' ∧
      rs.length = 2 ∧ List.Forall₂ (fun r r' => r' = r ∨ NoNumber r) rs rs' := by
  have hmax : exOpts.mest.maxit ≤ 1000 := by simp [exOpts]
  constructor
  · obtain ⟨r, h1, -⟩ := exTones_result
    refine C119_impedance (fun _ _ => some 1) exTones exOpts rfl 1000 hmax [1 / 4] (fun _ => ()) ?_
    simp only [impedance, eachFreq, h1, stack]
    simp
  · obtain ⟨rs, h1, h2⟩ := C61_call_never_raises (fun _ _ => some 1) exTones exTones_reach { exOpts with silentFail := true } rfl
      (by simp [PrefiltersTotal, exOpts]) [0] [1] (some [2]) ⟨exTones_channels.1, exTones_channels.2, exTones_channels.3⟩ [1 / 4, 1] (.inl rfl)
      (fun _ => ())
    obtain ⟨rs', h1', -⟩ := C61_call_never_raises (fun _ _ => some 1) exTones exTones_reach
      { exOpts with silentFail := true, mest := { maxit := 1000 } } rfl
      (by simp [PrefiltersTotal, exOpts]) [0] [1] (some [2]) ⟨exTones_channels.1, exTones_channels.2, exTones_channels.3⟩ [1 / 4, 1] (.inl rfl)
      (fun _ => ())
    exact ⟨rs, rs', h1, h1', h2, C119_silent (fun _ _ => some 1) exTones { exOpts with silentFail := true } (by simp [AllReset, exOpts])
      (by simp [AllReset, exOpts, firstWeights]) rfl 1000 hmax _ _ _ _ _ h1 h1'⟩

end Razorback.Props
