/-
Properties C48-C50: chains of estimations, transfer functions and their errors.
-/
import Verif.Lemmas.FltScale
import Verif.Props.Estimate

namespace Razorback.MEst
open Razorback Razorback.Spec

theorem map_unit {α : Type _} (a : List α) : a.map (fun _ => ()) = List.replicate a.length () := by simp

theorem length_without_unit {α : Type _} (a : List α) (idx : List ℕ) :
    (without a idx).length = (without (List.replicate a.length ()) idx).length := by
  rw [← map_unit, without_map, List.length_map]

theorem length_without {α β : Type _} {a : List α} {b : List β} (idx : List ℕ) (hab : a.length = b.length) :
    (without a idx).length = (without b idx).length := by
  rw [length_without_unit a, length_without_unit b, hab]

theorem validSteps_congr {α β : Type _} {a : List α} {b : List β} (ls : List (List ℕ)) (hab : a.length = b.length) :
    ValidSteps a ls ↔ ValidSteps b ls := by
  rw [← validSteps_map (fun _ => ()) a, ← validSteps_map (fun _ => ()) b, map_unit, map_unit, hab]

theorem mem_without {β : Type _} {l : List β} {idx : List ℕ} {x : β} :
    x ∈ without l idx ↔ ∃ j : ℕ, l[j]? = some x ∧ j ∉ idx := by
  unfold without
  constructor
  · intro h
    obtain ⟨⟨y, j⟩, hp, rfl⟩ := List.mem_map.1 h
    obtain ⟨h1, h2⟩ := List.mem_filter.1 hp
    exact ⟨j, by simpa [List.mem_zipIdx_iff_getElem?] using h1, by simpa using h2⟩
  · rintro ⟨j, h1, h2⟩
    exact List.mem_map.2 ⟨(x, j), List.mem_filter.2 ⟨by simpa [List.mem_zipIdx_iff_getElem?] using h1, by simpa using h2⟩, rfl⟩

end Razorback.MEst

namespace Razorback.Props
open Razorback Razorback.Spec Razorback.MEst
open scoped Matrix

variable {𝕜 : Type} [RCLike 𝕜] {q : ℕ} {σ : Type}

/-! C48 -/

theorem callEstimate_inside {e : List 𝕜} {b : List (Fin q → 𝕜)} (hb : e.length = b.length) {z : Option (Fin q → 𝕜)}
    {w : Option (ℕ × WFun σ 𝕜 q)} {o : Opts} {heap : ℕ → σ} {z' : Fin q → 𝕜} {ii : List ℕ}
    (h : (callEstimate e b z w o heap).1 = .ok (z', ii)) : ∀ i ∈ ii, i < e.length := by
  cases w with
  | none => exact C47_inside (σ := Unit) none e b hb z [] o () z' ii h
  | some w => exact C47_inside (some w.2) e b hb z [] o (heap w.1) z' ii h

theorem chainLoop_ok {o : Opts} {ws : Weighting σ 𝕜 q} {e : List 𝕜} {b : List (Fin q → 𝕜)} (hb : e.length = b.length)
    {z : Option (Fin q → 𝕜)} {ii : List ℕ} {heap heap' : ℕ → σ} {steps : List ((Fin q → 𝕜) × List ℕ)}
    (h : chainLoop o ws e b z (some ii) heap = (.ok steps, heap')) :
    steps.length = ws.length ∧
    (∀ (k : ℕ) w, ws[k]? = some w → ∃ p hk, steps[k]? = some p ∧
      (callEstimate (withoutAll e (ii :: (steps.take k).map Prod.snd)) (withoutAll b (ii :: (steps.take k).map Prod.snd))
        ((z :: steps.map (fun p => some p.1)).getD k none) w o hk).1 = .ok p ∧
      withoutAll e (ii :: (steps.take k).map Prod.snd) ≠ []) ∧
    (ws ≠ [] → ValidSteps e (ii :: steps.map Prod.snd)) := by
  induction ws generalizing e b z ii heap steps with
  | nil =>
    simp only [chainLoop, Prod.mk.injEq, Except.ok.injEq] at h
    obtain ⟨rfl, _⟩ := h
    simp
  | cons w ws ih =>
    rw [chainLoop] at h
    cases he : eliminate e (some ii) with
    | error x => rw [he] at h; simp at h
    | ok e1 =>
    cases hbb : eliminate b (some ii) with
    | error x => rw [he, hbb] at h; simp at h
    | ok b1 =>
    rw [he, hbb] at h
    obtain ⟨hv, rfl⟩ := eliminate_ok.1 he
    obtain ⟨_, rfl⟩ := eliminate_ok.1 hbb
    simp only at h
    split at h
    · simp at h
    · rename_i hne
      have hb1 := length_without ii hb
      cases hc : callEstimate (without e ii) (without b ii) z w o heap with
      | mk res heap1 =>
      rw [hc] at h
      cases res with
      | error x => simp at h
      | ok p =>
      obtain ⟨z1, ii1⟩ := p
      simp only at h
      cases hr : chainLoop o ws (without e ii) (without b ii) (some z1) (some ii1) heap1 with
      | mk res2 heap2 =>
      rw [hr] at h
      cases res2 with
      | error x => simp at h
      | ok l =>
      simp only [Prod.mk.injEq, Except.ok.injEq] at h
      obtain ⟨rfl, rfl⟩ := h
      obtain ⟨i1, i2, i3⟩ := ih hb1 hr
      have hins := callEstimate_inside hb1 (by rw [hc])
      refine ⟨by simp [i1], ?_, ?_⟩
      · intro k w' hk
        cases k with
        | zero =>
          simp only [List.getElem?_cons_zero, Option.some.injEq] at hk
          subst hk
          refine ⟨(z1, ii1), heap, rfl, ?_, ?_⟩
          · simp only [List.take_zero, List.map_nil, withoutAll, List.getD_cons_zero, hc]
          · simp only [List.take_zero, List.map_nil, withoutAll]
            intro h0; rw [h0] at hne; simp at hne
        | succ k =>
          obtain ⟨p, hk', j1, j2, j3⟩ := i2 k w' (by simpa using hk)
          exact ⟨p, hk', by simpa using j1, by simpa [withoutAll] using j2, by simpa [withoutAll] using j3⟩
      · intro _
        refine ⟨hv, ?_⟩
        cases ws with
        | nil =>
          have : l = [] := List.length_eq_zero_iff.1 (by simpa using i1)
          subst this
          exact ⟨hins, trivial⟩
        | cons a ws => exact i3 (by simp)

/-- **C48.** For one output: step `k` of the chain is an estimation on the original rows minus all those rejected so far
(at least one is left), started from the previous estimate; the result is the last estimate, and the invalid indices
are, in increasing order, the original positions of all rows rejected, initially or by any step. -/
theorem C48_chain (o : Opts) (ws : Weighting σ 𝕜 q) (hws : ws ≠ []) (b : List (Fin q → 𝕜)) (line : List 𝕜)
    (hb : line.length = b.length) (z0 : Option (Fin q → 𝕜)) (inv : List ℕ) (heap heap' : ℕ → σ)
    (z : Option (Fin q → 𝕜)) (m : List ℕ) (h : oneOutput o ws b line z0 inv heap = (.ok (z, m), heap')) :
    ∃ steps : List ((Fin q → 𝕜) × List ℕ), steps.length = ws.length ∧
      (∀ (k : ℕ) w, ws[k]? = some w → ∃ p hk, steps[k]? = some p ∧
        (callEstimate (withoutAll line (inv :: (steps.take k).map Prod.snd))
          (withoutAll b (inv :: (steps.take k).map Prod.snd))
          ((z0 :: steps.map (fun p => some p.1)).getD k none) w o hk).1 = .ok p ∧
        withoutAll line (inv :: (steps.take k).map Prod.snd) ≠ []) ∧
      z = (steps.getLast?).map Prod.fst ∧ m.Pairwise (· < ·) ∧
      (∀ i, i ∈ m ↔ i < line.length ∧ i ∉ withoutAll (List.range line.length) (inv :: steps.map Prod.snd)) ∧
      without line m = withoutAll line (inv :: steps.map Prod.snd) := by
  unfold oneOutput at h
  cases hc : chainLoop o ws line b z0 (some inv) heap with
  | mk res heap1 =>
  rw [hc] at h
  cases res with
  | error x => simp at h
  | ok steps =>
  simp only at h
  obtain ⟨h1, h2, h3⟩ := chainLoop_ok hb hc
  have hv := (validSteps_congr (b := List.range line.length) _ (by simp)).1 (h3 hws)
  obtain ⟨m', hm, hs, hmem, hall⟩ := C43_merge _ _ hv
  rw [hm] at h
  simp only [Prod.mk.injEq, Except.ok.injEq] at h
  obtain ⟨⟨rfl, rfl⟩, rfl⟩ := h
  refine ⟨steps, h1, h2, ?_, hs, hmem, (hall _ line rfl).symm⟩
  have hne : steps ≠ [] := by
    intro h0
    rw [h0] at h1
    exact hws (List.length_eq_zero_iff.1 h1.symm)
  rw [List.getLast?_eq_getLast_of_ne_nil hne]
  rfl

/-- **C48.** If no row is left for a step, ValueError is raised: here at the first step (for a later one see C110_exhausted). -/
theorem C48_empty_raises (o : Opts) (w : Option (ℕ × WFun σ 𝕜 q)) (ws : Weighting σ 𝕜 q) (b : List (Fin q → 𝕜)) (line : List 𝕜)
    (hb : line.length = b.length) (z0 : Option (Fin q → 𝕜)) (inv : List ℕ) (hi : ∀ i ∈ inv, i < line.length)
    (hall : ∀ i < line.length, i ∈ inv) (heap : ℕ → σ) : oneOutput o (w :: ws) b line z0 inv heap = (.error .value, heap) := by
  have h0 : (without line inv).length = 0 := by
    rw [length_without (b := List.range line.length) inv (by simp), without_range]
    rw [List.length_eq_zero_iff, List.filter_eq_nil_iff]
    intro i hi'
    simp [hall i (List.mem_range.1 hi')]
  unfold oneOutput
  rw [chainLoop, eliminate_ok.2 ⟨hi, rfl⟩, eliminate_ok.2 ⟨by rw [← hb]; exact hi, rfl⟩]
  simp only [h0, if_true]

/-! C49 -/

theorem evalWeight_same {wf : WFun σ 𝕜 q} {st st' : σ} {it : ℕ} {r e : List 𝕜} {b : List (Fin q → 𝕜)} {inv : List ℕ} {eps : ℝ}
    (h : (wf st it (mask r inv) e b inv).1 = (wf st' it (mask r inv) e b inv).1) :
    (evalWeight wf it r e b inv eps st).1 = (evalWeight wf it r e b inv eps st').1 ∧
    (inv.any (fun i => decide (r.length ≤ i)) = false → (evalWeight wf it r e b inv eps st).2 = (wf st it (mask r inv) e b inv).2) := by
  unfold evalWeight
  split
  · rename_i hc; simp [hc]
  · cases h1 : wf st it (mask r inv) e b inv with
    | mk x s =>
    cases h2 : wf st' it (mask r inv) e b inv with
    | mk x' s' =>
    rw [h1, h2] at h
    simp only at h
    subst h
    cases x with
    | error x => simp
    | ok w =>
      cases w with
      | none => simp
      | some w => simp only; split <;> simp

theorem loop_same {wf : WFun σ 𝕜 q} {e : List 𝕜} {b : List (Fin q → 𝕜)} {o : Opts} (n it : ℕ) (r : List 𝕜) (inv : List ℕ)
    (prev : Option ℝ) (st st' : σ) (h : ∀ l : List (Call 𝕜 q), (∀ c, l.head? = some c → c.it = it) → results wf st l = results wf st' l) :
    (MEst.loop wf e b o n it r inv prev st).1 = (MEst.loop wf e b o n it r inv prev st').1 := by
  induction n generalizing it r inv prev st st' with
  | zero => rfl
  | succ n ih =>
    have hcall := h [⟨it, mask r inv, e, b, inv⟩] (by simp)
    simp only [results, List.cons.injEq, and_true] at hcall
    obtain ⟨h1, h2⟩ := evalWeight_same (eps := o.eps) (r := r) hcall
    obtain ⟨_, h2'⟩ := evalWeight_same (eps := o.eps) (r := r) hcall.symm
    rw [MEst.loop, MEst.loop]
    by_cases hany : inv.any (fun i => decide (r.length ≤ i)) = true
    · simp only [evalWeight, hany, if_true]
    · have h2 := h2 (by simpa using hany)
      have h2' := h2' (by simpa using hany)
      cases e1 : evalWeight wf it r e b inv o.eps st with
      | mk x s =>
      cases e2 : evalWeight wf it r e b inv o.eps st' with
      | mk x' s' =>
      rw [e1] at h1 h2
      rw [e2] at h1 h2'
      simp only at h1 h2 h2'
      subst h1 h2 h2'
      cases x with
      | error x => rfl
      | ok p =>
        obtain ⟨w, inv'⟩ := p
        simp only
        cases wlse e b w with
        | error x => rfl
        | ok z =>
          simp only
          split
          · rfl
          · apply ih
            intro l _
            have := h (⟨it, mask r inv, e, b, inv⟩ :: l) (by simp)
            simp only [results, List.cons.injEq] at this
            exact this.2

theorem mEstimate_resets {wf : WFun σ 𝕜 q} (hwf : Resets wf) (e : List 𝕜) (b : List (Fin q → 𝕜)) (z : Option (Fin q → 𝕜))
    (inv : List ℕ) (o : Opts) (st st' : σ) :
    (mEstimate e b z (some wf) inv o st).1 = (mEstimate e b z (some wf) inv o st').1 := by
  cases z with
  | none => rfl
  | some z =>
    simp only [mEstimate]
    apply loop_same
    intro l hl
    cases l with
    | nil => rfl
    | cons c l => exact hwf st st' c l (hl c rfl)

theorem callEstimate_resets {w w' : Option (ℕ × WFun σ 𝕜 q)} (hw : ∀ i wf, w = some (i, wf) → Resets wf)
    (hs : w.map Prod.snd = w'.map Prod.snd) (e : List 𝕜)
    (b : List (Fin q → 𝕜)) (z : Option (Fin q → 𝕜)) (o : Opts) (heap heap' : ℕ → σ) :
    (callEstimate e b z w o heap).1 = (callEstimate e b z w' o heap').1 := by
  cases w with
  | none =>
    cases w' with
    | none => rfl
    | some w' => simp at hs
  | some w =>
    cases w' with
    | none => simp at hs
    | some w' =>
      obtain ⟨i, wf⟩ := w
      obtain ⟨i', wf'⟩ := w'
      simp only [Option.map_some, Option.some.injEq] at hs
      subst hs
      exact mEstimate_resets (hw i wf rfl) _ _ _ _ _ _ _

theorem chainLoop_resets {o : Opts} {ws ws' : Weighting σ 𝕜 q} (hws : ∀ i wf, some (i, wf) ∈ ws → Resets wf)
    (hs : ws.map (Option.map Prod.snd) = ws'.map (Option.map Prod.snd)) (e : List 𝕜)
    (b : List (Fin q → 𝕜)) (z : Option (Fin q → 𝕜)) (ii : Option (List ℕ)) (heap heap' : ℕ → σ) :
    (chainLoop o ws e b z ii heap).1 = (chainLoop o ws' e b z ii heap').1 := by
  induction ws generalizing ws' e b z ii heap heap' with
  | nil =>
    simp only [List.map_nil] at hs
    rw [List.map_eq_nil_iff.1 hs.symm]
    rfl
  | cons w ws ih =>
    obtain ⟨w', ws', rfl, hw, hs⟩ := List.map_eq_cons_iff.1 hs.symm
    rw [chainLoop, chainLoop]
    cases eliminate e ii with
    | error x => rfl
    | ok e1 =>
    cases eliminate b ii with
    | error x => rfl
    | ok b1 =>
    simp only
    split
    · rfl
    · have hc := callEstimate_resets (w := w) (fun i wf h => hws i wf (by simp [h])) hw.symm e1 b1 z o heap heap'
      cases h1 : callEstimate e1 b1 z w o heap with
      | mk r1 g1 =>
      cases h2 : callEstimate e1 b1 z w' o heap' with
      | mk r2 g2 =>
      rw [h1, h2] at hc
      simp only at hc
      subst hc
      cases r1 with
      | error x => rfl
      | ok p =>
      obtain ⟨z1, ii1⟩ := p
      simp only
      have hr := ih (fun i wf h => hws i wf (by simp [h])) hs.symm e1 b1 (some z1) (some ii1) g1 g2
      cases h3 : chainLoop o ws e1 b1 (some z1) (some ii1) g1 with
      | mk r3 g3 =>
      cases h4 : chainLoop o ws' e1 b1 (some z1) (some ii1) g2 with
      | mk r4 g4 =>
      rw [h3, h4] at hr
      simp only at hr
      subst hr
      cases r3 <;> rfl

theorem oneOutput_resets {o : Opts} {ws ws' : Weighting σ 𝕜 q} (hws : ∀ i wf, some (i, wf) ∈ ws → Resets wf)
    (hs : ws.map (Option.map Prod.snd) = ws'.map (Option.map Prod.snd))
    (b : List (Fin q → 𝕜)) (line : List 𝕜) (z : Option (Fin q → 𝕜)) (inv : List ℕ) (heap heap' : ℕ → σ) :
    (oneOutput o ws b line z inv heap).1 = (oneOutput o ws' b line z inv heap').1 := by
  unfold oneOutput
  have hr := chainLoop_resets (o := o) hws hs line b z (some inv) heap heap'
  cases h3 : chainLoop o ws line b z (some inv) heap with
  | mk r3 g3 =>
  cases h4 : chainLoop o ws' line b z (some inv) heap' with
  | mk r4 g4 =>
  rw [h3, h4] at hr
  simp only at hr
  subst hr
  cases r3 with
  | error x => rfl
  | ok l =>
    simp only
    cases mergeInvalid (inv :: l.map Prod.snd) <;> rfl

theorem outputsLoop_ok {o : Opts} {ws : Weighting σ 𝕜 q} {b : List (Fin q → 𝕜)}
    {l : List (List 𝕜 × Option (Fin q → 𝕜) × List ℕ)} {heap heap' : ℕ → σ} {res : List (Option (Fin q → 𝕜) × List ℕ)}
    (h : outputsLoop o ws b l heap = (.ok res, heap')) :
    res.length = l.length ∧ ∀ (i : ℕ) t, l[i]? = some t → ∃ p hp, res[i]? = some p ∧
      (oneOutput o ws b t.1 t.2.1 t.2.2 hp).1 = .ok p := by
  induction l generalizing heap res with
  | nil =>
    simp only [outputsLoop, Prod.mk.injEq, Except.ok.injEq] at h
    obtain ⟨rfl, _⟩ := h
    simp
  | cons t l ih =>
    obtain ⟨line, z0, inv⟩ := t
    rw [outputsLoop] at h
    cases hc : oneOutput o ws b line z0 inv heap with
    | mk r heap1 =>
    rw [hc] at h
    cases r with
    | error x => simp at h
    | ok p =>
    simp only at h
    cases hr : outputsLoop o ws b l heap1 with
    | mk r2 heap2 =>
    rw [hr] at h
    cases r2 with
    | error x => simp at h
    | ok ps =>
    simp only [Prod.mk.injEq, Except.ok.injEq] at h
    obtain ⟨rfl, rfl⟩ := h
    obtain ⟨i1, i2⟩ := ih hr
    refine ⟨by simp [i1], ?_⟩
    intro i t ht
    cases i with
    | zero =>
      simp only [List.getElem?_cons_zero, Option.some.injEq] at ht
      subst ht
      exact ⟨p, heap, rfl, by rw [hc]⟩
    | succ i => exact i2 i t (by simpa using ht)

theorem outputsLoop_resets {o : Opts} {ws ws' : Weighting σ 𝕜 q} (hws : ∀ i wf, some (i, wf) ∈ ws → Resets wf)
    (hs : ws.map (Option.map Prod.snd) = ws'.map (Option.map Prod.snd))
    {b : List (Fin q → 𝕜)} (l : List (List 𝕜 × Option (Fin q → 𝕜) × List ℕ)) (heap heap' : ℕ → σ) :
    (outputsLoop o ws b l heap).1 = (outputsLoop o ws' b l heap').1 := by
  induction l generalizing heap heap' with
  | nil => rfl
  | cons t l ih =>
    obtain ⟨line, z0, inv⟩ := t
    rw [outputsLoop, outputsLoop]
    have hr := oneOutput_resets (o := o) hws hs b line z0 inv heap heap'
    cases h3 : oneOutput o ws b line z0 inv heap with
    | mk r3 g3 =>
    cases h4 : oneOutput o ws' b line z0 inv heap' with
    | mk r4 g4 =>
    rw [h3, h4] at hr
    simp only at hr
    subst hr
    cases r3 with
    | error x => rfl
    | ok p =>
      simp only
      have hr := ih g3 g4
      cases h5 : outputsLoop o ws b l g3 with
      | mk r5 g5 =>
      cases h6 : outputsLoop o ws' b l g4 with
      | mk r6 g6 =>
      rw [h5, h6] at hr
      simp only at hr
      subst hr
      cases r5 <;> rfl

theorem transferFunction_shared (outputs : List (List 𝕜)) (inputs : Fin q → List 𝕜) (ws ws' : Weighting σ 𝕜 q)
    (hws : ∀ i wf, some (i, wf) ∈ ws → Resets wf)
    (hs : ws.map (Option.map Prod.snd) = ws'.map (Option.map Prod.snd)) (init : Option (List (Fin q → 𝕜))) (inv : InvArg) (o : Opts)
    (heap heap' : ℕ → σ) :
    (transferFunction outputs inputs ws init inv o heap).1 = (transferFunction outputs inputs ws' init inv o heap').1 := by
  unfold transferFunction
  cases inv.norm outputs.length with
  | error x => rfl
  | ok invs =>
    cases outputs with
    | nil => rfl
    | cons y l =>
      simp only
      split
      · rfl
      · split
        · rfl
        · cases init with
          | none =>
            simp only
            split
            · rfl
            · exact outputsLoop_resets hws hs _ _ _
          | some l' =>
            simp only
            split
            · rfl
            · exact outputsLoop_resets hws hs _ _ _

theorem transferFunction_resets (outputs : List (List 𝕜)) (inputs : Fin q → List 𝕜) (ws : Weighting σ 𝕜 q)
    (hws : ∀ i wf, some (i, wf) ∈ ws → Resets wf) (init : Option (List (Fin q → 𝕜))) (inv : InvArg) (o : Opts)
    (heap heap' : ℕ → σ) :
    (transferFunction outputs inputs ws init inv o heap).1 = (transferFunction outputs inputs ws init inv o heap').1 :=
  transferFunction_shared outputs inputs ws ws hws rfl init inv o heap heap'

/-- What `transfer_function` accepts, with the number of samples and the invalid indices and starting values of each
output. -/
theorem transferFunction_ok {outputs : List (List 𝕜)} {inputs : Fin q → List 𝕜} {ws : Weighting σ 𝕜 q}
    {init : Option (List (Fin q → 𝕜))} {inv : InvArg} {o : Opts} {heap heap' : ℕ → σ}
    {res : List (Option (Fin q → 𝕜) × List ℕ)}
    (h : transferFunction outputs inputs ws init inv o heap = (.ok res, heap')) :
    ∃ N invs zs, inv.norm outputs.length = .ok invs ∧ invs.length = outputs.length ∧ zs.length = outputs.length ∧
      zs = (match init with | none => List.replicate outputs.length none | some l => l.map some) ∧
      (∀ y ∈ outputs, y.length = N) ∧ (∀ j, (inputs j).length = N) ∧
      outputsLoop o ws (rowsOf inputs N) (outputs.zip (zs.zip invs)) heap = (.ok res, heap') := by
  unfold transferFunction at h
  cases hn : inv.norm outputs.length with
  | error x => rw [hn] at h; simp at h
  | ok invs =>
  rw [hn] at h
  cases outputs with
  | nil => simp at h
  | cons y l =>
  simp only at h
  split at h
  · simp at h
  · rename_i hbad
    split at h
    · simp at h
    · rename_i hlen
      by_cases hlen2 : (match init with | none => List.replicate (y :: l).length none | some l => l.map some).length ≠
          (y :: l).length
      · exfalso
        cases init with
        | none => simp at hlen2
        | some l' =>
          simp only [List.length_map, List.length_cons] at hlen2
          simp [hlen2] at h
      · have h : outputsLoop o ws (rowsOf inputs y.length) ((y :: l).zip ((match init with
            | none => List.replicate (y :: l).length none | some l => l.map some).zip invs)) heap = (.ok res, heap') := by
          cases init with
          | none => simpa using h
          | some l' => simpa only [hlen2, if_false] using h
        push Not at hbad hlen hlen2
        obtain ⟨_, hin, hout⟩ := hbad
        refine ⟨y.length, invs, _, rfl, hlen, hlen2, rfl, ?_, hin, h⟩
        intro y' hy'
        by_contra hc
        exact hout (List.any_eq_true.2 ⟨y', hy', by simpa using hc⟩)

/-- **C49.** One transfer row and one list of invalid indices per output, each being those of a chain of estimations on
this output alone. -/
theorem C49_rows (outputs : List (List 𝕜)) (inputs : Fin q → List 𝕜) (ws : Weighting σ 𝕜 q)
    (init : Option (List (Fin q → 𝕜))) (inv : InvArg) (o : Opts) (heap heap' : ℕ → σ)
    (res : List (Option (Fin q → 𝕜) × List ℕ))
    (h : transferFunction outputs inputs ws init inv o heap = (.ok res, heap')) :
    res.length = outputs.length ∧ ∃ invs, inv.norm outputs.length = .ok invs ∧ invs.length = outputs.length ∧
      ∀ (i : ℕ) y v, outputs[i]? = some y → invs[i]? = some v → ∃ p hp, res[i]? = some p ∧
        (oneOutput o ws (rowsOf inputs y.length) y (init.bind (fun l => l[i]?)) v hp).1 = .ok p := by
  obtain ⟨N, invs, zs, h1, h2, h3, h4, h5, h6, h7⟩ := transferFunction_ok h
  obtain ⟨i1, i2⟩ := outputsLoop_ok h7
  refine ⟨by simp [i1, h2, h3], invs, h1, h2, ?_⟩
  intro i y v hy hv
  have hz : zs[i]? = some (init.bind (fun l => l[i]?)) := by
    have hi : i < zs.length := by rw [h3]; exact (List.getElem?_eq_some_iff.1 hy).1
    subst h4
    cases init with
    | none => simp at hi ⊢; simp [List.getElem?_replicate, hi]
    | some l => simp at hi ⊢; simp [hi]
  have hzip : (outputs.zip (zs.zip invs))[i]? = some (y, init.bind (fun l => l[i]?), v) := by
    rw [List.getElem?_zip_eq_some, List.getElem?_zip_eq_some]
    exact ⟨hy, hz, hv⟩
  obtain ⟨p, hp, j1, j2⟩ := i2 i _ hzip
  refine ⟨p, hp, j1, ?_⟩
  rwa [h5 y (List.mem_of_getElem? hy)]

/-- **C49.** The result for an output depends only on this output, the inputs, its own invalid indices and starting value:
not on the other outputs, nor on its place among them, nor on what the weight functions were used for before (those of
the library reset themselves, C53). -/
theorem C49_independent (outputs outputs' : List (List 𝕜)) (inputs : Fin q → List 𝕜) (ws : Weighting σ 𝕜 q)
    (hws : ∀ i wf, some (i, wf) ∈ ws → Resets wf)
    (init init' : Option (List (Fin q → 𝕜))) (inv inv' : InvArg) (o : Opts) (heap heap' : ℕ → σ)
    (res res' : List (Option (Fin q → 𝕜) × List ℕ))
    (h : (transferFunction outputs inputs ws init inv o heap).1 = .ok res)
    (h' : (transferFunction outputs' inputs ws init' inv' o heap').1 = .ok res')
    (invs invs' : List (List ℕ)) (hn : inv.norm outputs.length = .ok invs) (hn' : inv'.norm outputs'.length = .ok invs')
    (i i' : ℕ) (y : List 𝕜) (hy : outputs[i]? = some y) (hy' : outputs'[i']? = some y)
    (hv : invs[i]? = invs'[i']?) (hz : init.bind (fun l => l[i]?) = init'.bind (fun l => l[i']?)) :
    res[i]? = res'[i']? := by
  obtain ⟨_, vs, e1, e2, e3⟩ := C49_rows outputs inputs ws init inv o heap _ res (Prod.ext h rfl)
  obtain ⟨_, vs', e1', e2', e3'⟩ := C49_rows outputs' inputs ws init' inv' o heap' _ res' (Prod.ext h' rfl)
  rw [hn] at e1; rw [hn'] at e1'
  simp only [Except.ok.injEq] at e1 e1'
  subst e1 e1'
  have hi : i < invs.length := by rw [e2]; exact (List.getElem?_eq_some_iff.1 hy).1
  have hv1 := List.getElem?_eq_getElem hi
  obtain ⟨p, hp, j1, j2⟩ := e3 i y _ hy hv1
  obtain ⟨p', hp', j1', j2'⟩ := e3' i' y _ hy' (by rw [← hv]; exact hv1)
  rw [oneOutput_resets hws rfl _ _ _ _ _ hp', hz, j2'] at j2
  simp only [Except.ok.injEq] at j2
  rw [j1, j1', j2]

/-- **C49.** A flat list of invalid indices applies to every output, and none is the same as an empty one. -/
theorem C49_flat (outputs : List (List 𝕜)) (inputs : Fin q → List 𝕜) (ws : Weighting σ 𝕜 q)
    (init : Option (List (Fin q → 𝕜))) (l : List ℕ) (hne : outputs ≠ []) (o : Opts) (heap : ℕ → σ) :
    transferFunction outputs inputs ws init (.flat l) o heap =
      transferFunction outputs inputs ws init (.each (List.replicate outputs.length l)) o heap ∧
    transferFunction outputs inputs ws init .none o heap = transferFunction outputs inputs ws init (.flat []) o heap := by
  have hl : outputs.length ≠ 0 := by simpa using hne
  refine ⟨?_, ?_⟩
  · have : (InvArg.flat l).norm outputs.length = (InvArg.each (List.replicate outputs.length l)).norm outputs.length := by
      obtain ⟨n, hn⟩ := Nat.exists_eq_succ_of_ne_zero hl
      rw [hn]
      cases l <;> simp [InvArg.norm, List.replicate_succ]
    unfold transferFunction
    rw [this]
  · unfold transferFunction
    rfl

/-- **C49.** Channels of different lengths, or no input channel, raise AssertionError before any estimation. -/
theorem C49_bad_shapes (outputs : List (List 𝕜)) (inputs : Fin q → List 𝕜) (ws : Weighting σ 𝕜 q)
    (init : Option (List (Fin q → 𝕜))) (inv : InvArg) (o : Opts) (heap : ℕ → σ) (hne : outputs ≠ [])
    (h : q = 0 ∨ (∃ j, ∃ y ∈ outputs, (inputs j).length ≠ y.length) ∨ ∃ y ∈ outputs, ∃ y' ∈ outputs, y.length ≠ y'.length) :
    transferFunction outputs inputs ws init inv o heap = (.error .assertion, heap) := by
  unfold transferFunction
  have hn : ∃ l, inv.norm outputs.length = .ok l := by
    unfold InvArg.norm
    split
    · rw [if_neg (by simpa using hne)]; exact ⟨_, rfl⟩
    · rw [if_neg (by simpa using hne)]; exact ⟨_, rfl⟩
    · rw [if_neg (by simpa using hne)]; exact ⟨_, rfl⟩
    · exact ⟨_, rfl⟩
    · exact ⟨_, rfl⟩
  obtain ⟨l, hl⟩ := hn
  rw [hl]
  dsimp only
  split
  · exact absurd rfl hne
  · rename_i y rest
    rw [if_pos]
    by_cases hall : ∀ y' ∈ y :: rest, y'.length = y.length
    · rcases h with h | ⟨j, y', hy', hj⟩ | ⟨y1, h1, y2, h2, h12⟩
      · exact .inl h
      · exact .inr (.inl ⟨j, by rw [← hall y' hy']; exact hj⟩)
      · exact absurd ((hall y1 h1).trans (hall y2 h2).symm) h12
    · right; right
      push Not at hall
      obtain ⟨y', hy', hd⟩ := hall
      exact List.any_eq_true.2 ⟨y', hy', by simpa using hd⟩

/-- **C49.** Without outputs: IndexError, or AssertionError if invalid indices are given. -/
theorem C49_no_output (inputs : Fin q → List 𝕜) (ws : Weighting σ 𝕜 q) (init : Option (List (Fin q → 𝕜))) (o : Opts) (heap : ℕ → σ) :
    transferFunction [] inputs ws init .none o heap = (.error .index, heap) ∧
    ∀ (a : List ℕ) (l : List (List ℕ)), transferFunction [] inputs ws init (.each (a :: l)) o heap = (.error .assertion, heap) :=
  ⟨rfl, fun _ _ => rfl⟩

/-- **C49.** A wrong number of starting values, or of lists of invalid indices, raises AssertionError. -/
theorem C49_bad_lengths (outputs : List (List 𝕜)) (inputs : Fin q → List 𝕜) (ws : Weighting σ 𝕜 q)
    (init : Option (List (Fin q → 𝕜))) (inv : InvArg) (o : Opts) (heap : ℕ → σ) (hne : outputs ≠ [])
    (h : (∃ z, init = some z ∧ z.length ≠ outputs.length) ∨ ∃ a l, inv = .each (a :: l) ∧ l.length + 1 ≠ outputs.length) :
    transferFunction outputs inputs ws init inv o heap = (.error .assertion, heap) := by
  have hn : ∃ l, inv.norm outputs.length = .ok l := by
    unfold InvArg.norm
    split
    · rw [if_neg (by simpa using hne)]; exact ⟨_, rfl⟩
    · rw [if_neg (by simpa using hne)]; exact ⟨_, rfl⟩
    · rw [if_neg (by simpa using hne)]; exact ⟨_, rfl⟩
    · exact ⟨_, rfl⟩
    · exact ⟨_, rfl⟩
  obtain ⟨l, hl⟩ := hn
  unfold transferFunction
  rw [hl]
  dsimp only
  split
  · exact absurd rfl hne
  · rename_i y rest
    split
    · rfl
    · split
      · rfl
      · rename_i hlen
        rw [if_pos]
        rcases h with ⟨z, rfl, hz⟩ | ⟨a, l', rfl, hl'⟩
        · simpa using hz
        · simp only [InvArg.norm, Except.ok.injEq] at hl
          subst hl
          simp at hlen hl'
          omega

/-- **C49.** Invalid indices given as a one-dimensional array, as the documentation says, are never accepted: AssertionError, or
TypeError if there are as many of them as outputs. -/
theorem C49_array_raises (outputs : List (List 𝕜)) (inputs : Fin q → List 𝕜) (ws : Weighting σ 𝕜 q)
    (init : Option (List (Fin q → 𝕜))) (l : List ℕ) (o : Opts) (heap : ℕ → σ) (hl : l ≠ []) :
    (l.length ≠ outputs.length → transferFunctionArray outputs inputs ws init l o heap = (.error .assertion, heap)) ∧
    (∀ N, q ≠ 0 → (∀ j, (inputs j).length = N) → (∀ y ∈ outputs, y.length = N) → init = none → l.length = outputs.length →
      transferFunctionArray outputs inputs ws init l o heap = (.error .type, heap)) ∧
    ∃ e, transferFunctionArray outputs inputs ws init l o heap = (.error e, heap) := by
  have he : l.isEmpty = false := by simpa using hl
  unfold transferFunctionArray
  rw [he]
  simp only [Bool.false_eq_true, if_false]
  cases outputs with
  | nil =>
    refine ⟨fun _ => rfl, ?_, ⟨_, rfl⟩⟩
    intro N _ _ _ _ h
    exact absurd (List.length_eq_zero_iff.1 h) hl
  | cons y rest =>
    dsimp only
    refine ⟨?_, ?_, ?_⟩
    · intro h
      split_ifs <;> rfl
    · intro N hq hin hout hi h
      subst hi
      rw [if_neg, if_neg (by simpa using h), if_neg (by simp)]
      rintro (h0 | ⟨j, hj⟩ | h0)
      · exact hq h0
      · exact hj (by rw [hin j, hout y (by simp)])
      · obtain ⟨y', hy', hd⟩ := List.any_eq_true.1 h0
        simp only [ne_eq, decide_not, Bool.not_eq_eq_eq_not, Bool.not_true, decide_eq_false_iff_not] at hd
        exact hd (by rw [hout y' hy', hout y (by simp)])
    · split_ifs <;> exact ⟨_, rfl⟩

/-- One output, and the second sample given as invalid by an array. -/
example (heap : ℕ → Unit) : transferFunctionArray (𝕜 := ℝ) (q := 1) [[2, 77, 6]] (fun _ => [1, 5, 3]) [none] none [1] {} heap =
    (.error .type, heap) :=
  (C49_array_raises [[2, 77, 6]] (fun _ => [1, 5, 3]) [none] none [1] {} heap (by simp)).2.1 3 (by simp) (by simp) (by simp) rfl rfl

theorem without_zip {α β γ : Type} (f : α → β → γ) (a : List α) (b : List β) (idx : List ℕ) (hab : a.length = b.length) :
    List.zipWith f (without a idx) (without b idx) = without (List.zipWith f a b) idx := by
  unfold without
  have key : ∀ (n : ℕ), List.zipWith f (((a.zipIdx n).filter (fun p => decide (p.2 ∉ idx))).map Prod.fst)
      (((b.zipIdx n).filter (fun p => decide (p.2 ∉ idx))).map Prod.fst) =
      (((List.zipWith f a b).zipIdx n).filter (fun p => decide (p.2 ∉ idx))).map Prod.fst := by
    induction a generalizing b with
    | nil => intro n; simp
    | cons u a ih =>
      intro n
      cases b with
      | nil => simp at hab
      | cons v b =>
        simp only [List.zipIdx_cons, List.zipWith_cons_cons, List.filter_cons]
        by_cases hn : n ∈ idx
        · simp only [hn, not_true_eq_false, decide_false, Bool.false_eq_true, if_false]
          exact ih b (by simpa using hab) (n + 1)
        · simp only [hn, not_false_eq_true, decide_true, if_true, List.map_cons, List.zipWith_cons_cons]
          rw [ih b (by simpa using hab) (n + 1)]
  exact key 0

/-- The valid samples of the inputs are linearly independent. -/
def InputsIndependent (inputs : Fin q → List 𝕜) (N : ℕ) (inv : List ℕ) : Prop :=
  ∀ d : Fin q → 𝕜, (∀ n < N, n ∉ inv → ∑ j, d j * (inputs j).getD n 0 = 0) → d = 0

/-- On the valid samples `y` is the combination of the inputs with coefficients `T`. -/
def ExactFit (inputs : Fin q → List 𝕜) (y : List 𝕜) (inv : List ℕ) (T : Fin q → 𝕜) : Prop :=
  ∀ n < y.length, n ∉ inv → y.getD n 0 = ∑ j, T j * (inputs j).getD n 0

theorem wlse_exact (inputs : Fin q → List 𝕜) (y : List 𝕜) (inv : List ℕ) (T : Fin q → 𝕜)
    (hind : InputsIndependent inputs y.length inv) (hex : ExactFit inputs y inv T) :
    wlse (without y inv) (without (rowsOf inputs y.length) inv) none = .ok T := by
  have hrl : (rowsOf inputs y.length).length = y.length := by simp [rowsOf]
  have hl := length_without inv hrl.symm
  have hmem : ∀ t ∈ obs (without y inv) (without (rowsOf inputs y.length) inv)
      (List.replicate (without (rowsOf inputs y.length) inv).length 1),
      t.w = 1 ∧ ∃ n < y.length, n ∉ inv ∧ t.x = y.getD n 0 ∧ t.y = fun j => (inputs j).getD n 0 := by
    intro t ht
    unfold obs at ht
    rw [List.zip, without_zip _ _ _ _ hrl.symm] at ht
    obtain ⟨i, hi, rfl⟩ := List.getElem_of_mem ht
    simp only [List.getElem_zipWith, List.getElem_replicate, true_and]
    obtain ⟨n, h1, h2⟩ := mem_without.1 (List.getElem_mem (l := without (List.zipWith Prod.mk y (rowsOf inputs y.length)) inv) (n := i)
      (by simp only [List.length_zipWith] at hi; omega))
    rw [List.getElem?_zipWith_eq_some] at h1
    obtain ⟨u, v, hu, hv, huv⟩ := h1
    have hn := (List.getElem?_eq_some_iff.1 hu).1
    refine ⟨n, hn, h2, ?_, ?_⟩
    · rw [← huv]; simp [hu]
    · rw [← huv]
      simp only [rowsOf, List.getElem?_map, List.getElem?_range hn, Option.map_some, Option.some.injEq] at hv
      exact hv.symm
  have hback : ∀ n < y.length, n ∉ inv → ∃ t ∈ obs (without y inv) (without (rowsOf inputs y.length) inv)
      (List.replicate (without (rowsOf inputs y.length) inv).length 1), t.w ≠ 0 ∧ t.y = fun j => (inputs j).getD n 0 := by
    intro n hn hni
    have : (y[n], fun j => (inputs j).getD n 0) ∈ without (List.zipWith Prod.mk y (rowsOf inputs y.length)) inv := by
      refine mem_without.2 ⟨n, ?_, hni⟩
      rw [List.getElem?_zipWith_eq_some]
      exact ⟨_, _, List.getElem?_eq_getElem hn, by simp only [rowsOf, List.getElem?_map, List.getElem?_range hn, Option.map_some], rfl⟩
    obtain ⟨i, hi, he⟩ := List.getElem_of_mem this
    rw [← without_zip _ _ _ _ hrl.symm] at hi
    have hlt : i < (obs (without y inv) (without (rowsOf inputs y.length) inv)
      (List.replicate (without (rowsOf inputs y.length) inv).length 1)).length := by
      simp only [obs, List.length_zipWith, List.length_replicate, List.zip] at hi ⊢
      omega
    refine ⟨_, List.getElem_mem hlt, ?_, ?_⟩
    · simp [obs]
    · simp only [obs, List.getElem_zipWith, List.zip, without_zip _ _ _ _ hrl.symm, he]
  refine C44_exact _ _ _ _ hl ⟨by simp, .inl ⟨rfl, rfl⟩⟩ ?_ T ?_
  · rw [C44_independent _ (fun t ht => by rw [(hmem t ht).1]; norm_num)]
    intro d hd
    apply hind
    intro n hn hni
    obtain ⟨t, ht, h1, h2⟩ := hback n hn hni
    have := hd t ht h1
    rw [h2] at this
    rw [dotProduct] at this
    simpa only [mul_comm] using this
  · intro t ht _
    obtain ⟨_, n, hn, hni, h1, h2⟩ := hmem t ht
    rw [h1, h2, hex n hn hni]
    simp only [dotProduct, mul_comm]

theorem oneOutput_exact (hq : q ≠ 0) (inputs : Fin q → List 𝕜) (y : List 𝕜) (v : List ℕ) (hv : ∀ i ∈ v, i < y.length)
    (T : Fin q → 𝕜) (hind : InputsIndependent inputs y.length v) (hex : ExactFit inputs y v T) (o : Opts)
    (z0 : Option (Fin q → 𝕜)) (heap : ℕ → σ) : ∃ m, m.Pairwise (· < ·) ∧ (∀ i, i ∈ m ↔ i ∈ v) ∧
      oneOutput o [none] (rowsOf inputs y.length) y z0 v heap = (.ok (some T, m), heap) := by
  have hrl : (rowsOf inputs y.length).length = y.length := by simp [rowsOf]
  have hl := length_without v hrl.symm
  have hw := wlse_exact inputs y v T hind hex
  have hne : (without y v).length ≠ 0 := by
    intro h0
    have : without y v = [] := List.length_eq_zero_iff.1 h0
    have hd : (fun _ => 1 : Fin q → 𝕜) = 0 := hind _ (by
      intro n hn hni
      exfalso
      have hm := mem_without.2 ⟨n, List.getElem?_eq_getElem hn, hni⟩
      rw [this] at hm
      simp at hm)
    have := congrFun hd ⟨0, Nat.pos_of_ne_zero hq⟩
    simp at this
  obtain ⟨m, hm, hs, hmem, -⟩ := C43_merge [v, []] y.length (by
    refine ⟨by simpa using hv, by simp, trivial⟩)
  refine ⟨m, hs, ?_, ?_⟩
  · intro i
    rw [hmem i]
    simp only [withoutAll, without_nil, without_range, List.mem_filter, List.mem_range, decide_eq_true_eq, not_and, not_not]
    exact ⟨fun h => h.2 h.1, fun h => ⟨hv i h, fun _ => h⟩⟩
  · unfold oneOutput
    rw [chainLoop, eliminate_ok.2 ⟨hv, rfl⟩, eliminate_ok.2 ⟨by rw [hrl]; exact hv, rfl⟩]
    simp only [hne, if_false]
    have hc : callEstimate (without y v) (without (rowsOf inputs y.length) v) z0 (none : Option (ℕ × WFun σ 𝕜 q)) o heap =
        (.ok (T, []), heap) := by
      unfold callEstimate
      simp only
      rw [C46_least_squares _ _ hl _ [] (by simp), without_nil, without_nil, hw]
      rfl
    rw [hc]
    simp only [chainLoop, List.map_cons, List.map_nil, hm, List.getLast?_singleton]

/-- **C49.** If every output is an exact linear combination of the inputs on its valid samples, and those samples of
the inputs are linearly independent, least squares succeeds and returns exactly the coefficients, together with the
invalid indices it was given, in increasing order. -/
theorem C49_exact (outputs : List (List 𝕜)) (inputs : Fin q → List 𝕜) (N : ℕ) (hq : q ≠ 0) (hne : outputs ≠ [])
    (hN : ∀ y ∈ outputs, y.length = N) (hin : ∀ j, (inputs j).length = N) (inv : InvArg) (invs : List (List ℕ))
    (hinv : inv.norm outputs.length = .ok invs) (hlen : invs.length = outputs.length)
    (hv : ∀ v ∈ invs, ∀ i ∈ v, i < N) (T : ℕ → Fin q → 𝕜)
    (hex : ∀ (i : ℕ) y v, outputs[i]? = some y → invs[i]? = some v → InputsIndependent inputs N v ∧ ExactFit inputs y v (T i))
    (o : Opts) (heap : ℕ → σ) :
    ∃ res, transferFunction outputs inputs [none] none inv o heap = (.ok res, heap) ∧ res.length = outputs.length ∧
      ∀ (i : ℕ) v, invs[i]? = some v → ∃ m, res[i]? = some (some (T i), m) ∧ m.Pairwise (· < ·) ∧ ∀ k, k ∈ m ↔ k ∈ v := by
  have key : ∀ (outputs : List (List 𝕜)) (invs : List (List ℕ)) (T : ℕ → Fin q → 𝕜), invs.length = outputs.length →
      (∀ y ∈ outputs, y.length = N) → (∀ v ∈ invs, ∀ i ∈ v, i < N) →
      (∀ (i : ℕ) y v, outputs[i]? = some y → invs[i]? = some v → InputsIndependent inputs N v ∧ ExactFit inputs y v (T i)) →
      ∃ res, outputsLoop o [none] (rowsOf inputs N) (outputs.zip ((List.replicate outputs.length none).zip invs)) heap =
        (.ok res, heap) ∧ res.length = outputs.length ∧
      ∀ (i : ℕ) v, invs[i]? = some v → ∃ m, res[i]? = some (some (T i), m) ∧ m.Pairwise (· < ·) ∧ ∀ k, k ∈ m ↔ k ∈ v := by
    intro outputs
    induction outputs with
    | nil =>
      intro invs T hl _ _ _
      have : invs = [] := List.length_eq_zero_iff.1 hl
      subst this
      exact ⟨[], rfl, rfl, by simp⟩
    | cons y ys ih =>
      intro invs T hl hN hv hex
      cases invs with
      | nil => simp at hl
      | cons v vs =>
      obtain ⟨res, r1, r2, r3⟩ := ih vs (fun i => T (i + 1)) (by simpa using hl) (fun y hy => hN y (by simp [hy]))
        (fun v h => hv v (by simp [h])) (fun i y v h h' => hex (i + 1) y v (by simpa using h) (by simpa using h'))
      have hy := hN y (by simp)
      obtain ⟨h1, h2⟩ := hex 0 y v rfl rfl
      obtain ⟨m, m1, m2, m3⟩ := oneOutput_exact hq inputs y v (by rw [hy]; exact hv v (by simp)) (T 0) (by rw [hy]; exact h1)
        h2 o none heap
      rw [hy] at m3
      refine ⟨(some (T 0), m) :: res, ?_, by simp [r2], ?_⟩
      · simp only [List.length_cons, List.replicate_succ, List.zip_cons_cons, outputsLoop, m3, r1]
      · intro i w hw
        cases i with
        | zero =>
          simp only [List.getElem?_cons_zero, Option.some.injEq] at hw
          subst hw
          exact ⟨m, rfl, m1, m2⟩
        | succ i => exact r3 i w (by simpa using hw)
  obtain ⟨res, r1, r2, r3⟩ := key outputs invs T hlen hN hv hex
  refine ⟨res, ?_, r2, r3⟩
  unfold transferFunction
  rw [hinv]
  cases outputs with
  | nil => exact absurd rfl hne
  | cons y ys =>
    have hy := hN y (by simp)
    simp only
    rw [if_neg, if_neg (by simpa using hlen), if_neg (by simp)]
    · rw [hy]; exact r1
    · rw [hy]
      push Not
      refine ⟨hq, hin, ?_⟩
      intro hc
      obtain ⟨l, hl, hc⟩ := List.any_eq_true.1 hc
      simp [hN l hl] at hc

/-! C50 -/

theorem transferError_ok {outputs : List (List 𝕜)} {inputs : Fin q → List 𝕜} {transfer : List (Fin q → 𝕜)}
    {inv : List (List ℕ)} {E : List (Fin q → Flt)} (h : transferError outputs inputs transfer inv = .ok E) :
    ∃ N, (∀ y ∈ outputs, y.length = N) ∧ (∀ j, (inputs j).length = N) ∧ inv.length = outputs.length ∧
      E = (outputs.zip (transfer.zip inv)).map (fun t => errorRow (rowsOf inputs N) t.1 t.2.1 t.2.2.length) := by
  unfold transferError at h
  cases outputs with
  | nil => simp at h
  | cons y l =>
  simp only at h
  split at h
  · simp at h
  · rename_i hbad
    split at h
    · simp at h
    · rename_i hlen
      split at h
      · simp at h
      · push Not at hbad hlen
        obtain ⟨_, hin, hout⟩ := hbad
        simp only [Except.ok.injEq] at h
        refine ⟨y.length, ?_, hin, hlen, h.symm⟩
        intro y' hy'
        by_contra hc
        exact hout (List.any_eq_true.2 ⟨y', hy', by simpa using hc⟩)

theorem errorRow_fin (b : List (Fin q → 𝕜)) (y : List 𝕜) (T : Fin q → 𝕜) (n : ℕ) (hq : q < y.length) (hn : n < y.length) (j : Fin q) :
    errorRow b y T n j = .fin (Real.sqrt ((MEst.residual y b T).map (fun x => ‖x‖ ^ 2)).sum /
      (Real.sqrt (y.length - q) / y.length) / (y.length - n) * Real.sqrt ‖(gram b none)ᵀ⁻¹ j j‖) := by
  have h1 : (q : ℝ) < y.length := by exact_mod_cast hq
  have h2 : (n : ℝ) < y.length := by exact_mod_cast hn
  have h3 : (0 : ℝ) < y.length := lt_of_le_of_lt (Nat.cast_nonneg _) h2
  have h4 : Real.sqrt ((y.length : ℝ) - q) / y.length ≠ 0 := (div_pos (Real.sqrt_pos.2 (by linarith)) h3).ne'
  have h5 : (y.length : ℝ) - n ≠ 0 := by linarith
  have h6 : ¬ (y.length : ℝ) - q < 0 := by linarith
  simp only [errorRow, Flt.sqrt, h6, if_false, Flt.div, h3.ne', h4, h5, Flt.mul]

/-- **C50.** One row of errors per output, all finite and non-negative with more samples than inputs, and fewer invalid indices
than samples. -/
theorem C50_nonneg (outputs : List (List 𝕜)) (inputs : Fin q → List 𝕜) (transfer : List (Fin q → 𝕜))
    (inv : List (List ℕ)) (E : List (Fin q → Flt)) (h : transferError outputs inputs transfer inv = .ok E)
    (ht : transfer.length = outputs.length) (hv : ∀ y ∈ outputs, ∀ v ∈ inv, v.length < y.length)
    (hq : ∀ y ∈ outputs, q < y.length) :
    E.length = outputs.length ∧ ∀ row ∈ E, ∀ j, ∃ x : ℝ, row j = .fin x ∧ 0 ≤ x := by
  obtain ⟨N, h1, h2, h3, rfl⟩ := transferError_ok h
  refine ⟨by simp [ht, h3], ?_⟩
  intro row hrow j
  obtain ⟨⟨y, T, v⟩, hm, rfl⟩ := List.mem_map.1 hrow
  have hy := (List.of_mem_zip hm).1
  have hvm := (List.of_mem_zip (List.of_mem_zip hm).2).2
  have : (v.length : ℝ) ≤ y.length := by exact_mod_cast (hv y hy v hvm).le
  have h4 : (0 : ℝ) ≤ (y.length : ℝ) - v.length := by linarith
  refine ⟨_, errorRow_fin _ _ _ _ (hq y hy) (hv y hy v hvm) j, ?_⟩
  positivity

theorem nres_exact {inputs : Fin q → List 𝕜} {y : List 𝕜} {T : Fin q → 𝕜} (N : ℕ)
    (hfit : ExactFit inputs y [] T) : ((MEst.residual y (rowsOf inputs N) T).map (fun x => ‖x‖ ^ 2)).sum = 0 := by
  have hz : ∀ x ∈ MEst.residual y (rowsOf inputs N) T, x = 0 := by
    intro x hx
    obtain ⟨n, hn, rfl⟩ := List.getElem_of_mem hx
    have hn' : n < y.length := by simp only [MEst.residual, List.length_zipWith] at hn; omega
    have := hfit n hn' (by simp)
    simp only [MEst.residual, List.getElem_zipWith, rowsOf, List.getElem_map, List.getElem_range]
    rw [List.getD_eq_getElem?_getD, List.getElem?_eq_getElem hn'] at this
    simp only [Option.getD_some] at this
    rw [this, dotProduct, sub_eq_zero]
    exact Finset.sum_congr rfl (fun j _ => by ring)
  apply List.sum_eq_zero
  intro a ha
  obtain ⟨x, hx, rfl⟩ := List.mem_map.1 ha
  simp [hz x hx]

/-- **C50.** The errors of an output vanish if the transfer reproduces it exactly, with more samples than inputs and a valid
sample. -/
theorem C50_exact_fit (outputs : List (List 𝕜)) (inputs : Fin q → List 𝕜) (transfer : List (Fin q → 𝕜))
    (inv : List (List ℕ)) (E : List (Fin q → Flt)) (h : transferError outputs inputs transfer inv = .ok E)
    (i : ℕ) (y : List 𝕜) (T : Fin q → 𝕜) (v : List ℕ) (row : Fin q → Flt) (hy : outputs[i]? = some y) (hT : transfer[i]? = some T)
    (hv : inv[i]? = some v) (hE : E[i]? = some row) (hq : q < y.length) (hvl : v.length < y.length) (hfit : ExactFit inputs y [] T) :
    row = fun _ => .fin 0 := by
  obtain ⟨N, h1, h2, h3, rfl⟩ := transferError_ok h
  rw [List.getElem?_map, Option.map_eq_some_iff] at hE
  obtain ⟨⟨y', T', v'⟩, hm, rfl⟩ := hE
  rw [List.getElem?_zip_eq_some, List.getElem?_zip_eq_some] at hm
  obtain ⟨a, b, c⟩ := hm
  rw [hy] at a; rw [hT] at b; rw [hv] at c
  simp only [Option.some.injEq] at a b c
  subst a b c
  funext j
  simp only
  rw [errorRow_fin _ _ _ _ hq hvl, nres_exact N hfit]
  simp

/-- **C50.** With as many samples as inputs, or when all the samples are invalid, the errors of an output which is reproduced
exactly are NaN, not zero. -/
theorem C50_exact_fit_nan (outputs : List (List 𝕜)) (inputs : Fin q → List 𝕜) (transfer : List (Fin q → 𝕜))
    (inv : List (List ℕ)) (E : List (Fin q → Flt)) (h : transferError outputs inputs transfer inv = .ok E)
    (i : ℕ) (y : List 𝕜) (T : Fin q → 𝕜) (v : List ℕ) (row : Fin q → Flt) (hy : outputs[i]? = some y) (hT : transfer[i]? = some T)
    (hv : inv[i]? = some v) (hE : E[i]? = some row) (hN : y.length = q ∨ v.length = y.length) (hfit : ExactFit inputs y [] T) :
    row = fun _ => .nan := by
  obtain ⟨N, h1, h2, h3, rfl⟩ := transferError_ok h
  rw [List.getElem?_map, Option.map_eq_some_iff] at hE
  obtain ⟨⟨y', T', v'⟩, hm, rfl⟩ := hE
  rw [List.getElem?_zip_eq_some, List.getElem?_zip_eq_some] at hm
  obtain ⟨a, b, c⟩ := hm
  rw [hy] at a; rw [hT] at b; rw [hv] at c
  simp only [Option.some.injEq] at a b c
  subst a b c
  funext j
  simp only [errorRow, nres_exact N hfit, Real.sqrt_zero]
  rcases hN with hN | hN
  · have : Flt.div (Flt.sqrt (.fin ((y.length : ℝ) - q))) (.fin y.length) = .nan ∨
        Flt.div (Flt.sqrt (.fin ((y.length : ℝ) - q))) (.fin y.length) = .fin 0 := by
      rw [hN, sub_self]
      by_cases h0 : (q : ℝ) = 0 <;> simp [Flt.sqrt, Flt.div, h0]
    rcases this with h0 | h0 <;> rw [h0] <;> simp [Flt.div, Flt.mul]
  · have hd : ∀ r, ∃ x, Flt.div (.fin 0) r = x ∧ (x = .nan ∨ x = .fin 0) := by
      intro r
      cases r with
      | fin r => by_cases h0 : r = 0 <;> simp [Flt.div, h0]
      | _ => simp [Flt.div]
    obtain ⟨x, h0, h5⟩ := hd (Flt.div (Flt.sqrt (.fin ((y.length : ℝ) - q))) (.fin y.length))
    rw [h0, hN, sub_self]
    rcases h5 with rfl | rfl <;> simp [Flt.div, Flt.mul]

theorem errorRow_outputs (b : List (Fin q → 𝕜)) (y : List 𝕜) (T : Fin q → 𝕜) (n : ℕ) (c : 𝕜) :
    errorRow b (y.map (fun x => c * x)) (fun j => c * T j) n = fun j => Flt.mul (.fin ‖c‖) (errorRow b y T n j) := by
  have hr : MEst.residual (y.map (fun x => c * x)) b (fun j => c * T j) = (MEst.residual y b T).map (fun x => c * x) := by
    simp only [MEst.residual, List.zipWith_map_left, List.map_zipWith]
    congr 1
    funext a r
    rw [mul_sub, dotProduct, dotProduct, Finset.mul_sum]
    congr 1
    exact Finset.sum_congr rfl (fun j _ => by ring)
  have hs : ∀ l : List 𝕜, Real.sqrt ((l.map (fun x => c * x)).map (fun x => ‖x‖ ^ 2)).sum =
      ‖c‖ * Real.sqrt (l.map (fun x => ‖x‖ ^ 2)).sum := by
    intro l
    have : ((l.map (fun x => c * x)).map (fun x => ‖x‖ ^ 2)).sum = ‖c‖ ^ 2 * (l.map (fun x => ‖x‖ ^ 2)).sum := by
      induction l with
      | nil => simp
      | cons a l ih => simp only [List.map_cons, List.sum_cons, ih, norm_mul]; ring
    rw [this, Real.sqrt_mul (by positivity), Real.sqrt_sq (by positivity)]
  funext j
  unfold errorRow
  simp only [hr, hs, List.length_map]
  have hd : ∀ r : Flt, (r = .nan ∨ ∃ x, r = .fin x) → ∀ a : ℝ, 0 ≤ a → Flt.div (.fin (‖c‖ * a)) r = Flt.mul (.fin ‖c‖) (Flt.div (.fin a) r) := by
    rintro r (rfl | ⟨x, rfl⟩) a ha
    · rfl
    · exact Flt.div_scaled (norm_nonneg c) ha
  rw [hd _ _ _ (Real.sqrt_nonneg _), Flt.mul_scaled_div (norm_nonneg c), Flt.mul_scaled_mul (norm_nonneg c)]
  by_cases h0 : (y.length : ℝ) - q < 0
  · exact .inl (by simp only [Flt.sqrt, h0, if_true]; rfl)
  · by_cases h1 : (y.length : ℝ) = 0
    · left
      have hq : (q : ℝ) ≤ 0 := by linarith
      have hq' : (q : ℝ) = 0 := le_antisymm hq (Nat.cast_nonneg q)
      simp [Flt.sqrt, Flt.div, h1, hq']
    · right
      simp only [Flt.sqrt, h0, if_false, Flt.div, h1]
      exact ⟨_, rfl⟩

/-- **C50.** Multiplying outputs and transfer by `c` multiplies the errors by `|c|`. -/
theorem C50_scale_outputs (outputs : List (List 𝕜)) (inputs : Fin q → List 𝕜) (transfer : List (Fin q → 𝕜))
    (inv : List (List ℕ)) (c : 𝕜) :
    transferError (outputs.map (fun y => y.map (fun x => c * x))) inputs (transfer.map (fun T j => c * T j)) inv =
      (transferError outputs inputs transfer inv).map (fun E => E.map (fun row j => Flt.mul (.fin ‖c‖) (row j))) := by
  unfold transferError
  cases outputs with
  | nil => rfl
  | cons y l =>
    simp only [List.map_cons, List.length_map, List.any_cons, List.length_cons, List.any_map, Function.comp_def]
    split
    · rfl
    · split
      · rfl
      · split
        · rfl
        · simp only [Except.map, Except.ok.injEq]
          rw [← List.map_cons (f := fun y : List 𝕜 => y.map (fun x => c * x)), List.zip_map_left, List.zip_map_left,
            List.zip_map_right, List.map_map, List.map_map, List.map_map]
          apply List.map_congr_left
          rintro ⟨y', T, v⟩ _
          exact errorRow_outputs _ _ _ _ _

theorem gram_scale (b : List (Fin q → 𝕜)) (c : Fin q → 𝕜) :
    (gram (b.map (fun r j => c j * r j)) none)ᵀ = Matrix.diagonal c * (gram b none)ᵀ * Matrix.diagonal (fun j => star (c j)) := by
  ext j k
  simp only [Matrix.transpose_apply, Matrix.mul_diagonal, Matrix.diagonal_mul, gram, dotdiag, Matrix.of_apply]
  induction b with
  | nil => simp
  | cons r b ih =>
    simp only [List.map_cons, List.zipWith_cons_cons, List.sum_cons, ih, star_mul']
    ring

theorem gram_scale_inv (b : List (Fin q → 𝕜)) (c : Fin q → 𝕜) (hc : ∀ j, c j ≠ 0) (j : Fin q) :
    ‖((gram (b.map (fun r j => c j * r j)) none)ᵀ)⁻¹ j j‖ = ‖((gram b none)ᵀ)⁻¹ j j‖ / ‖c j‖ ^ 2 := by
  have hu : ∀ j, c j * (c j)⁻¹ = 1 := fun j => mul_inv_cancel₀ (hc j)
  have h1 : (Matrix.diagonal c)⁻¹ = Matrix.diagonal (fun j => (c j)⁻¹) :=
    Matrix.inv_eq_right_inv (by rw [Matrix.diagonal_mul_diagonal]; simp only [hu]; exact Matrix.diagonal_one)
  have h2 : (Matrix.diagonal (fun j => star (c j)))⁻¹ = Matrix.diagonal (fun j => (star (c j))⁻¹) :=
    Matrix.inv_eq_right_inv (by
      rw [Matrix.diagonal_mul_diagonal]
      simp only [mul_inv_cancel₀ (star_ne_zero.2 (hc _))]
      exact Matrix.diagonal_one)
  rw [gram_scale, Matrix.mul_inv_rev, Matrix.mul_inv_rev, h1, h2, ← Matrix.mul_assoc, Matrix.mul_diagonal, Matrix.diagonal_mul]
  rw [norm_mul, norm_mul, norm_inv, norm_inv, norm_star]
  have := norm_ne_zero_iff.2 (hc j)
  field_simp

theorem errorRow_inputs (b : List (Fin q → 𝕜)) (y : List 𝕜) (T : Fin q → 𝕜) (n : ℕ) (c : Fin q → 𝕜) (hc : ∀ j, c j ≠ 0) :
    errorRow (b.map (fun r j => c j * r j)) y (fun j => T j / c j) n = fun j => Flt.div (errorRow b y T n j) (.fin ‖c j‖) := by
  have hr : MEst.residual y (b.map (fun r j => c j * r j)) (fun j => T j / c j) = MEst.residual y b T := by
    simp only [MEst.residual, List.zipWith_map_right]
    congr 1
    funext a r
    rw [dotProduct, dotProduct]
    congr 1
    refine Finset.sum_congr rfl (fun j _ => ?_)
    have := hc j
    field_simp
  funext j
  unfold errorRow
  simp only [hr, gram_scale_inv b c hc j]
  rw [Real.sqrt_div (norm_nonneg _), Real.sqrt_sq (norm_nonneg _), Flt.mul_div_pos (norm_pos_iff.2 (hc j))]

/-- **C50.** Multiplying each input by a non-zero constant, and dividing the transfer accordingly, divides the error of
each coefficient by the modulus of its constant. -/
theorem C50_scale_inputs (outputs : List (List 𝕜)) (inputs : Fin q → List 𝕜) (transfer : List (Fin q → 𝕜))
    (inv : List (List ℕ)) (c : Fin q → 𝕜) (hc : ∀ j, c j ≠ 0) :
    transferError outputs (fun j => (inputs j).map (fun x => c j * x)) (transfer.map (fun T j => T j / c j)) inv =
      (transferError outputs inputs transfer inv).map (fun E => E.map (fun row j => Flt.div (row j) (.fin ‖c j‖))) := by
  have hrows : ∀ N, rowsOf (fun j => (inputs j).map (fun x => c j * x)) N = (rowsOf inputs N).map (fun r j => c j * r j) := by
    intro N
    simp only [rowsOf, List.map_map]
    apply List.map_congr_left
    intro n _
    funext j
    simp only [Function.comp, List.getD_eq_getElem?_getD, List.getElem?_map]
    cases (inputs j)[n]? <;> simp
  have hdet : ∀ N, (gram (rowsOf (fun j => (inputs j).map (fun x => c j * x)) N) none)ᵀ.det = 0 ↔
      (gram (rowsOf inputs N) none)ᵀ.det = 0 := by
    intro N
    rw [hrows, gram_scale, Matrix.det_mul, Matrix.det_mul, Matrix.det_diagonal, Matrix.det_diagonal, mul_eq_zero, mul_eq_zero]
    have p1 : ∏ j, c j ≠ 0 := Finset.prod_ne_zero_iff.2 (fun j _ => hc j)
    have p2 : ∏ j, star (c j) ≠ 0 := Finset.prod_ne_zero_iff.2 (fun j _ => star_ne_zero.2 (hc j))
    tauto
  unfold transferError
  cases outputs with
  | nil => rfl
  | cons y l =>
    simp only [List.length_map, hdet]
    simp only [hrows]
    split
    · rfl
    · split
      · rfl
      · split
        · rfl
        · simp only [Except.map, Except.ok.injEq]
          rw [List.zip_map_left, List.zip_map_right, List.map_map, List.map_map]
          apply List.map_congr_left
          rintro ⟨y', T, v⟩ _
          exact errorRow_inputs _ _ _ _ _ hc

/-- Output `2 x` for the input `[1, 5, 3]` but for a spoilt sample, declared invalid: the coefficient is found. -/
example : ∃ res, transferFunction (σ := Unit) (𝕜 := ℝ) (q := 1) [[2, 77, 6]] (fun _ => [1, 5, 3]) [none] none (.flat [1]) {}
    (fun _ => ()) = (.ok res, fun _ => ()) ∧ ∃ m, res[0]? = some (some (fun _ => 2), m) := by
  obtain ⟨res, h1, _, h2⟩ := C49_exact (σ := Unit) (𝕜 := ℝ) (q := 1) [[2, 77, 6]] (fun _ => [1, 5, 3]) 3 (by simp) (by simp)
    (by simp) (by simp) (.flat [1]) [[1]] rfl rfl (by simp) (fun _ _ => 2) (by
      intro i y v hy hv
      cases i with
      | succ i => simp at hy
      | zero =>
        simp at hy hv
        subst hy hv
        constructor
        · intro d hd
          have := hd 0 (by norm_num) (by simp)
          simp at this
          funext j
          rw [Fin.fin_one_eq_zero j, this]; rfl
        · intro n hn hni
          simp at hn hni
          obtain rfl | rfl : n = 0 ∨ n = 2 := by omega
          · simp
          · simp; norm_num) {} (fun _ => ())
  obtain ⟨m, h3, _⟩ := h2 0 [1] rfl
  exact ⟨res, h1, m, h3⟩

/-- Two samples 1 and 3 of a constant estimated by 2: an error estimate exists. -/
example : ∃ E, transferError (𝕜 := ℝ) (q := 1) [[1, 3]] (fun _ => [1, 1]) [fun _ => 2] [[]] = .ok E := by
  unfold transferError
  simp [gram, dotdiag, rowsOf, List.range_succ]

/-- A chain of two least squares steps on `[2, 77, 6]` against `[1, 5, 3]`, the second sample declared invalid. -/
theorem exOutput : oneOutput (σ := Unit) (𝕜 := ℝ) (q := 1) {} [none, none] [fun _ => 1, fun _ => 5, fun _ => 3] [2, 77, 6] none [1]
    (fun _ => ()) = (.ok (some (fun _ => 2), [1]), fun _ => ()) := by
  have hw : wlse (𝕜 := ℝ) (q := 1) [2, 6] [fun _ => 1, fun _ => 3] none = .ok (fun _ => 2) := by
    refine C44_exact (ws := [1, 1]) _ _ _ rfl ⟨rfl, .inl ⟨rfl, rfl⟩⟩ ?_ _ ?_
    · rw [C44_independent _ (by simp [obs])]
      intro d hd
      have := hd ⟨1, 2, fun _ => 1⟩ (by simp [obs]) (by simp)
      simp [dotProduct] at this
      funext j
      rw [Fin.fin_one_eq_zero j, this]; rfl
    · simp [obs, dotProduct]
      norm_num
  have hc : ∀ z0, callEstimate (σ := Unit) (𝕜 := ℝ) (q := 1) [2, 6] [fun _ => 1, fun _ => 3] z0 none {} (fun _ => ()) =
      (.ok (fun _ => 2, []), fun _ => ()) := by
    intro z0
    simp only [callEstimate, mEstimate, List.any_nil, Bool.false_eq_true, if_false, List.length_nil, if_true, hw]
  have he : ∀ {β : Type} (x y z : β), eliminate [x, y, z] (some [1]) = .ok [x, z] := fun _ _ _ => rfl
  have he2 : ∀ {β : Type} (x z : β), eliminate [x, z] (some []) = .ok [x, z] := fun _ _ => rfl
  have hm : mergeInvalid [[1], [], []] = .ok [1] := by decide
  simp only [oneOutput, chainLoop, he, he2, hc, List.length_cons, List.length_nil, List.map_cons, List.map_nil]
  simp [hm]

end Razorback.Props
