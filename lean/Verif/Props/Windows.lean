/-
C97, C98: the order, the dates and the phases of the windows.
-/
import Verif.Lemmas.WindowsSets
import Verif.Lemmas.WindowsLib

namespace Razorback.Props
open Razorback Razorback.Spec Razorback.MEst Razorback.Prefilter Razorback.Impedance Razorback.Fourier Razorback.Windows

variable {𝕜 : Type} [RCLike 𝕜] {q : ℕ} {σ κ : Type}

theorem turn_list (u : ℕ → 𝕜) {l : List 𝕜} {N : ℕ} (h : l.length = N) : turn u l = (List.range N).map (fun t => u t * l.getD t 0) := by
  subst h
  unfold turn
  apply List.ext_getElem
  · simp
  · intro n h1 h2
    simp only [List.length_mapIdx] at h1
    simp [h1]

theorem chan_list {l : List 𝕜} {N : ℕ} (h : l.length = N) : (List.range N).map (fun t => l.getD t 0) = l := by
  subst h
  apply List.ext_getElem
  · simp
  · intro n h1 h2
    simp [h2]

theorem inRange_same {N : ℕ} {inv : InvArg} (h : InRange N inv) : SameInv (List.range N) (List.range N) inv inv := by
  have key : ∀ l : List ℕ, (∀ i ∈ l, i < N) → SameBad (List.range N) (List.range N) l l :=
    fun l hl => sameBad_self List.nodup_range (by simpa using hl)
  cases inv with
  | none => exact .none
  | flat l => exact .flat (key l h)
  | each ls =>
    refine .each (List.forall₂_same.2 ?_)
    intro l hl
    exact key l (h l hl)

/-- The data of the windows as functions of the window. -/
theorem outputs_list {outputs : List (List 𝕜)} {N : ℕ} (h : ∀ l ∈ outputs, l.length = N) {f : List 𝕜 → List 𝕜} {T : List ℕ} {g : ℕ → 𝕜 → 𝕜}
    (hf : ∀ l : List 𝕜, l.length = N → f l = T.map (fun t => g t (l.getD t 0))) :
    outputs.map f = (outputs.map (fun l t => l.getD t 0)).map (fun x => T.map (fun t => g t (x t))) := by
  rw [List.map_map]
  apply List.map_congr_left
  intro l hl
  exact hf l (h l hl)

/-- **C97.** If all outputs and inputs of window `n` are multiplied by the same number of absolute value one, `transfer_function`
gives the same transfers and rejects the same windows, for weight functions that treat all windows alike; and if the data are
conjugated the transfers are conjugated and the rejected windows are the same.  If the one raises, the other raises the same
error. -/
theorem C97_transfer (N : ℕ) (outputs : List (List 𝕜)) (inputs : Fin q → List 𝕜) (ho : ∀ l ∈ outputs, l.length = N)
    (hi : ∀ j, (inputs j).length = N) (ws : Weighting σ 𝕜 q) (hws : ∀ i wf, some (i, wf) ∈ ws → Alike wf)
    (init : Option (List (Fin q → 𝕜))) (inv : InvArg) (hinv : InRange N inv) (o : MEst.Opts) (heap heap' : ℕ → σ)
    (c : Bool) (u : ℕ → 𝕜) (hu : ∀ n, ‖u n‖ = 1) :
    (transferFunction (outputs.map (fun l => turn u (l.map (mirror c)))) (fun j => turn u ((inputs j).map (mirror c))) ws
      (init.map (fun l => l.map (fun z j => mirror c (z j)))) inv o heap').1 =
      (transferFunction outputs inputs ws init inv o heap).1.map
        (fun rs => rs.map (fun p => (p.1.map (fun z j => mirror c (z j)), p.2))) := by
  have key := transferFunction_alike (List.Perm.refl (List.range N)) hu (c := c) hws List.nodup_range
    (outputs.map (fun l t => l.getD t 0)) (fun t j => (inputs j).getD t 0) init (inRange_same hinv) o heap heap'
  have e1 : (outputs.map (fun l t => l.getD t 0)).map (fun x => (List.range N).map x) = outputs := by
    rw [← outputs_list (f := id) (g := fun _ v => v) ho (fun l hl => (chan_list hl).symm), List.map_id]
  have e2 : (fun j => (List.range N).map (fun t => (inputs j).getD t 0)) = inputs := by
    funext j
    exact chan_list (hi j)
  have hm : ∀ l : List 𝕜, l.length = N → turn u (l.map (mirror c)) = (List.range N).map (fun t => u t * τ c (l.getD t 0)) := by
    intro l hl
    rw [turn_list u (by rw [List.length_map, hl])]
    apply List.map_congr_left
    intro t ht
    have : t < l.length := by rw [hl]; simpa using ht
    simp [this, τ_apply]
  have e3 : (outputs.map (fun l t => l.getD t 0)).map (fun x => (List.range N).map (fun t => u t * τ c (x t))) =
      outputs.map (fun l => turn u (l.map (mirror c))) := (outputs_list (g := fun t v => u t * τ c v) ho hm).symm
  have e4 : (fun j => (List.range N).map (fun t => u t * τ c ((inputs j).getD t 0))) = fun j => turn u ((inputs j).map (mirror c)) := by
    funext j
    exact (hm _ (hi j)).symm
  have e0 : (fun z : Fin q → 𝕜 => (τ c : 𝕜 →+* 𝕜) ∘ z) = fun z j => mirror c (z j) := by
    funext z j
    exact τ_apply _ _
  have e5 : (init.map (fun l => l.map (fun z => τ c ∘ z))) = init.map (fun l => l.map (fun z j => mirror c (z j))) := by
    rw [e0]
  rw [e1, e2, e3, e4, e5] at key
  generalize (transferFunction outputs inputs ws init inv o heap).1 = a at key ⊢
  generalize (transferFunction _ _ ws _ inv o heap').1 = b at key ⊢
  cases key with
  | raised e => rfl
  | @done l l' h =>
    simp only [Except.map, Except.ok.injEq]
    induction h with
    | nil => rfl
    | @cons p p' l l' h1 _ ih =>
      rw [List.map_cons, ih]
      congr 1
      obtain ⟨h2, h3⟩ := h1
      have := sameRej_self h3
      obtain ⟨p1, p2⟩ := p'
      simp only at h2 this
      rw [h2, this, e0]

/-- **C98.** If the windows of all outputs and inputs are taken in another order, `transfer_function` gives the same transfers
and rejects the same windows, at their new positions.  If the one raises, the other raises the same error. -/
theorem C98_transfer (N : ℕ) (outputs : List (List 𝕜)) (inputs : Fin q → List 𝕜) (ho : ∀ l ∈ outputs, l.length = N)
    (hi : ∀ j, (inputs j).length = N) (ws : Weighting σ 𝕜 q) (hws : ∀ i wf, some (i, wf) ∈ ws → Alike wf)
    (init : Option (List (Fin q → 𝕜))) (p : List ℕ) (hp : p.Perm (List.range N)) (inv inv' : InvArg)
    (hinv : SameInv (List.range N) p inv inv') (o : MEst.Opts) (heap heap' : ℕ → σ) :
    Agree (List.Forall₂ (fun a a' => a'.1 = a.1 ∧ (∀ i ∈ a'.2, i < N) ∧ ∀ (i : ℕ) (h : i < p.length), i ∈ a'.2 ↔ p[i] ∈ a.2))
      (transferFunction outputs inputs ws init inv o heap).1
      (transferFunction (outputs.map (reorder p)) (fun j => reorder p (inputs j)) ws init inv' o heap').1 := by
  have key := transferFunction_alike hp (u := fun _ => (1 : 𝕜)) (by simp) (c := false) hws List.nodup_range
    (outputs.map (fun l t => l.getD t 0)) (fun t j => (inputs j).getD t 0) init hinv o heap heap'
  have e1 : (outputs.map (fun l t => l.getD t 0)).map (fun x => (List.range N).map x) = outputs := by
    rw [← outputs_list (f := id) (g := fun _ v => v) ho (fun l hl => (chan_list hl).symm), List.map_id]
  have e2 : (fun j => (List.range N).map (fun t => (inputs j).getD t 0)) = inputs := by
    funext j
    exact chan_list (hi j)
  have hτ : ∀ x : 𝕜, τ false x = x := fun x => rfl
  simp only [hτ, one_mul] at key
  have e3 : (outputs.map (fun l t => l.getD t 0)).map (fun x => p.map (fun t => x t)) = outputs.map (reorder p) :=
    (outputs_list (g := fun _ v => v) ho (fun l _ => rfl)).symm
  have e5 : (init.map (fun l => l.map (fun z => τ false ∘ z))) = init := by
    have : (fun z : Fin q → 𝕜 => (τ false : 𝕜 →+* 𝕜) ∘ z) = id := rfl
    cases init with
    | none => rfl
    | some l => simp only [Option.map_some, this, List.map_id]
  rw [e1, e2, e3, e5] at key
  have e4 : (fun j => p.map (fun t => (inputs j).getD t 0)) = fun j => reorder p (inputs j) := rfl
  rw [e4] at key
  generalize (transferFunction outputs inputs ws init inv o heap).1 = a at key ⊢
  generalize (transferFunction _ _ ws _ inv' o heap').1 = b at key ⊢
  cases key with
  | raised e => exact .raised e
  | done h =>
    refine .done (h.imp ?_)
    rintro a a' ⟨h1, ⟨bad, h2, h3⟩, -⟩
    refine ⟨?_, ?_, ?_⟩
    · rw [h1]
      have : (fun z : Fin q → 𝕜 => (τ false : 𝕜 →+* 𝕜) ∘ z) = id := rfl
      rw [this, Option.map_id]
      rfl
    · intro i hi
      have := h3.1 i hi
      rwa [hp.length_eq, List.length_range] at this
    · intro i hi
      rw [h3.2 i hi]
      have hlt : p[i] < (List.range N).length := by
        have := hp.mem_iff.1 (List.getElem_mem hi)
        simpa using this
      rw [h2.2 p[i] hlt, List.getElem_range]

/-- **C97, C98.** The weight functions of the library (Huber, Thomson, bounded influence) treat all windows alike. -/
theorem C97_library (ws : Impedance.Weights Weights.Mem)
    (h : ∀ i wf, some (i, wf) ∈ ws → ∃ w : Weights.Obj, ∀ q, wf q = w.call) : AllAlike ws := by
  intro i wf hm q
  obtain ⟨w, hw⟩ := h i wf hm
  rw [hw]
  exact obj_alike w

/-- One frequency, for two sets with the same runs. -/
theorem oneFreq_alike [One κ] (cal : κ → ℚ → Option ℂ) (S S' : SigSet ℂ κ) (hS : Reach S) (hS' : Reach S')
    (htags : S'.tags = S.tags) (freq : ℚ) (l : List (Sync ℂ κ)) (hl : l.Perm S.runs) (ht : List.Forall₂ (Turned cal freq) l S'.runs)
    (o : Impedance.Opts σ) (hws : AllAlike o.weights) (hwr : AllAlike (firstWeights o))
    (hpre : ∀ (N : ℕ) (T' : List ℕ), T'.Perm (List.range N) → (l = S.runs → T' = List.range N) →
      PreAlike o.prefilter (List.range N) T' ∧ PreAlike (firstPrefilter o) (List.range N) T') (heap heap' : ℕ → σ) :
    Agree (SameValues (o.keepInvalidTimes = false ∨ (l = S.runs ∧ List.Forall₂ (SameClock cal freq) S.runs S'.runs)))
      (oneFreq cal S freq o heap).1 (oneFreq cal S' freq o heap').1 := by
  have hrem : remoteChannels S' o = remoteChannels S o := by unfold remoteChannels; rw [htags]
  cases hE : S.tags.getItem o.tagElec with
  | error x =>
    simp only [oneFreq, htags, hE]
    exact .raised _
  | ok E =>
  cases hB : S.tags.getItem o.tagMag with
  | error x =>
    simp only [oneFreq, htags, hE, hB]
    exact .raised _
  | ok B =>
  cases hR : remoteChannels S o with
  | error x =>
    simp only [oneFreq, htags, hE, hB, hrem, hR]
    exact .raised _
  | ok R =>
  have hc : Channels S o E B R := by
    refine ⟨hE, hB, ?_⟩
    unfold remoteChannels at hR
    split at hR
    · rename_i h0
      exact .inl ⟨.inl h0, by simpa using hR.symm⟩
    · rename_i r h0
      split at hR
      · rename_i h1
        exact .inl ⟨.inr (by rw [h0]; simpa using h1), by simpa using hR.symm⟩
      · rename_i h1
        split at hR
        · simp at hR
        · rename_i m h2
          exact .inr ⟨r, m, h0, by simpa using h1, h2, by simpa using hR.symm⟩
  have hc' : Channels S' o E B R := ⟨by rw [htags]; exact hc.elec, by rw [htags]; exact hc.mag, by rw [htags]; exact hc.remote⟩
  cases h : setCoeffs cal S freq o.nper o.overlap o.win with
  | error x =>
    obtain ⟨x', h'⟩ := sameRuns_error hS hS' ⟨l, hl, ht⟩ h
    rw [oneFreq_fourier hc h, oneFreq_fourier hc' h']
    exact .done (sameValues_rfl _)
  | ok p =>
    obtain ⟨co, w⟩ := p
    obtain ⟨⟨co', w'⟩, h'⟩ := sameRuns_ok hS hS' ⟨l, hl, ht⟩ ⟨_, h⟩
    obtain ⟨T', u, hT, hTr, hu, hN', hco⟩ := sameRuns_coeffs hS hS' hl ht h h'
    have hwins : l = S.runs → List.Forall₂ (SameClock cal freq) S.runs S'.runs → T' = List.range w.1.sum ∧ windows S' w' = windows S w := by
      intro h0 hcl
      refine ⟨hTr h0, ?_⟩
      obtain ⟨co2, k1, -, k2, -⟩ := setCoeffs_linked hS hS' hcl h
      rw [h'] at k1
      simp only [Except.ok.injEq, Prod.mk.injEq] at k1
      rw [k1.2, k2]
    obtain ⟨hp1, hp2⟩ := hpre _ _ hT hTr
    have hN : w.1.sum = (List.range w.1.sum).length := by simp
    have mono : ∀ {a b : Except Err Result},
        Agree (SameValues (o.keepInvalidTimes = false ∨ (T' = List.range w.1.sum ∧ windows S' w' = windows S w))) a b →
        Agree (SameValues (o.keepInvalidTimes = false ∨ (l = S.runs ∧ List.Forall₂ (SameClock cal freq) S.runs S'.runs))) a b := by
      intro a b hab
      cases hab with
      | raised e => exact .raised e
      | done h =>
        refine .done ⟨h.1, h.2.1, h.2.2.1, ?_⟩
        rintro (h0 | ⟨h0, h1⟩)
        · exact h.2.2.2 (.inl h0)
        · exact h.2.2.2 (.inr (hwins h0 h1))
    cases R with
    | none =>
      obtain ⟨hch, failed, hf, h1⟩ := oneFreq_local hS hc h heap
      obtain ⟨hch', failed', hf', h1'⟩ := oneFreq_local hS' hc' h' heap'
      have hff : failed' = failed := by rw [hf, hf']
      have hi := fun i hi => hco i (hch i hi).2.1 (hch' i hi).2.1
      have e1 : E.map (fun i => co.getD i []) = (E.map (fun i t => (co.getD i []).getD t 0)).map (fun x => (List.range w.1.sum).map x) := by
        rw [List.map_map]
        exact List.map_congr_left (fun i h => (hi i (.inl h)).1)
      have e2 : (fun j : Fin B.length => co.getD B[j] []) = fun j => (List.range w.1.sum).map (fun t => (co.getD B[j] []).getD t 0) := by
        funext j
        exact (hi _ (.inr (List.getElem_mem _))).1
      have e3 : E.map (fun i => co'.getD i []) =
          (E.map (fun i t => (co.getD i []).getD t 0)).map (fun x => T'.map (fun t => u t * x t)) := by
        rw [List.map_map]
        exact List.map_congr_left (fun i h => (hi i (.inl h)).2)
      have e4 : (fun j : Fin B.length => co'.getD B[j] []) = fun j => T'.map (fun t => u t * (co.getD B[j] []).getD t 0) := by
        funext j
        exact (hi _ (.inr (List.getElem_mem _))).2
      rw [h1, h1', hff, e1, e2, e3, e4, hN']
      have := secondStageQ_alike hT List.nodup_range hu hws hp1 (E.map (fun i t => (co.getD i []).getD t 0))
        (fun t (j : Fin B.length) => (co.getD B[j] []).getD t 0) (windows S w) (windows S' w') .none
        (List.replicate B.length []) failed heap heap'
      rw [← hN] at this
      exact mono this
    | some R =>
      obtain ⟨hch, hB0, failed, hf, h1⟩ := oneFreq_remote hS hc h heap
      obtain ⟨hch', -, failed', hf', h1'⟩ := oneFreq_remote hS' hc' h' heap'
      have hff : failed' = failed := by rw [hf, hf']
      have hi := fun i hi => hco i (hch i hi).2.1 (hch' i hi).2.1
      have e1 : ∀ L : List ℕ, (∀ i ∈ L, i ∈ E ∨ i ∈ B ∨ i ∈ R) →
          L.map (fun i => co.getD i []) = (L.map (fun i t => (co.getD i []).getD t 0)).map (fun x => (List.range w.1.sum).map x) := by
        intro L hL
        rw [List.map_map]
        exact List.map_congr_left (fun i h => (hi i (hL i h)).1)
      have e2 : (fun j : Fin R.length => co.getD R[j] []) = fun j => (List.range w.1.sum).map (fun t => (co.getD R[j] []).getD t 0) := by
        funext j
        exact (hi _ (.inr (.inr (List.getElem_mem _)))).1
      have e3 : ∀ L : List ℕ, (∀ i ∈ L, i ∈ E ∨ i ∈ B ∨ i ∈ R) → L.map (fun i => co'.getD i []) =
          (L.map (fun i t => (co.getD i []).getD t 0)).map (fun x => T'.map (fun t => u t * x t)) := by
        intro L hL
        rw [List.map_map]
        exact List.map_congr_left (fun i h => (hi i (hL i h)).2)
      have e4 : (fun j : Fin R.length => co'.getD R[j] []) = fun j => T'.map (fun t => u t * (co.getD R[j] []).getD t 0) := by
        funext j
        exact (hi _ (.inr (.inr (List.getElem_mem _)))).2
      rw [h1, h1', hff, e1 E (fun i h => .inl h), e1 B (fun i h => .inr (.inl h)), e2, e3 E (fun i h => .inl h),
        e3 B (fun i h => .inr (.inl h)), e4, hN']
      have := remoteStages_alike hT List.nodup_range hu hws hwr hp1 hp2 (E.map (fun i t => (co.getD i []).getD t 0))
        (B.map (fun i t => (co.getD i []).getD t 0)) (by simpa using hB0)
        (fun t (j : Fin R.length) => (co.getD R[j] []).getD t 0) (windows S w) (windows S' w') failed heap heap'
      rw [← hN] at this
      exact mono this

/-- All frequencies. -/
theorem eachFreq_agree {cal : κ → ℚ → Option ℂ} {S S' : SigSet ℂ κ} {o : Impedance.Opts σ} {P : Result → Result → Prop} {freqs : List ℚ}
    (h : ∀ f ∈ freqs, ∀ heap heap', Agree P (oneFreq cal S f o heap).1 (oneFreq cal S' f o heap').1) (heap heap' : ℕ → σ) :
    Agree (List.Forall₂ P) (eachFreq cal S o freqs heap).1 (eachFreq cal S' o freqs heap').1 := by
  induction freqs generalizing heap heap' with
  | nil => exact .done .nil
  | cons f l ih =>
    have h1 := h f (by simp) heap heap'
    simp only [eachFreq]
    generalize oneFreq cal S f o heap = y at h1 ⊢
    generalize oneFreq cal S' f o heap' = y' at h1 ⊢
    obtain ⟨y, g⟩ := y
    obtain ⟨y', g'⟩ := y'
    simp only at h1
    cases h1 with
    | raised e => exact .raised _
    | done hr =>
      simp only
      have h2 := ih (fun f hf => h f (by simp [hf])) g g'
      generalize eachFreq cal S o l g = y at h2 ⊢
      generalize eachFreq cal S' o l g' = y' at h2 ⊢
      obtain ⟨y, k⟩ := y
      obtain ⟨y', k'⟩ := y'
      simp only at h2
      cases h2 with
      | raised e => exact .raised _
      | done hrs => exact .done (.cons hr hrs)

theorem stack_agree {P : Result → Result → Prop} (hP : ∀ r r', P r r' → r'.shape = r.shape) {rs rs' : List Result}
    (h : List.Forall₂ P rs rs') : Agree (List.Forall₂ P) (stack rs) (stack rs') := by
  cases h with
  | nil => exact .done .nil
  | @cons r r' l l' h1 h2 =>
    have : l'.all (fun a => decide (a.shape = r'.shape)) = l.all (fun a => decide (a.shape = r.shape)) := by
      rw [hP r r' h1]
      clear h1
      induction h2 with
      | nil => rfl
      | @cons a a' m m' h3 _ ih => rw [List.all_cons, List.all_cons, ih, hP a a' h3]
    simp only [stack, this]
    split
    · exact .done (.cons h1 h2)
    · exact .raised _

theorem impedance_agree {cal : κ → ℚ → Option ℂ} {S S' : SigSet ℂ κ} {o : Impedance.Opts σ} {P : Result → Result → Prop} {freqs : List ℚ}
    (hP : ∀ r r', P r r' → r'.shape = r.shape)
    (h : ∀ f ∈ freqs, ∀ heap heap', Agree P (oneFreq cal S f o heap).1 (oneFreq cal S' f o heap').1) (heap heap' : ℕ → σ) :
    Agree (List.Forall₂ P) (impedance cal S o freqs heap).1 (impedance cal S' o freqs heap').1 := by
  have h2 := eachFreq_agree h heap heap'
  unfold impedance
  generalize eachFreq cal S o freqs heap = y at h2 ⊢
  generalize eachFreq cal S' o freqs heap' = y' at h2 ⊢
  obtain ⟨y, k⟩ := y
  obtain ⟨y', k'⟩ := y'
  simp only at h2
  cases h2 with
  | raised e => exact .raised _
  | done hrs => exact stack_agree hP hrs

theorem sameValues_shape {times : Prop} {r r' : Result} (h : SameValues times r r') : r'.shape = r.shape := by
  unfold Result.shape
  rw [h.1, h.2.1, h.2.2.1]

/-- **C97.** Reversing the polarity of all the channels of a run, or turning all of them by the same phase, changes nothing:
if for each run the samples in physical units are those of the other set multiplied by a number of absolute value one common
to all the channels, all results are the same, with coefficient of determination prefilters and rejected times too. -/
theorem C97_impedance [One κ] (cal : κ → ℚ → Option ℂ) (S S' : SigSet ℂ κ) (hS : Reach S) (hS' : Reach S')
    (htags : S'.tags = S.tags) (freqs : List ℚ)
    (hclock : ∀ f ∈ freqs, List.Forall₂ (SameClock cal f) S.runs S'.runs)
    (hphys : ∀ f ∈ freqs, List.Forall₂ (fun s s' => ∃ v : ℂ, ‖v‖ = 1 ∧ ∀ i n, physical cal f s' i n = v * physical cal f s i n)
      S.runs S'.runs)
    (o : Impedance.Opts σ) (hws : AllAlike o.weights) (hwr : AllAlike (firstWeights o))
    (hpre : ∀ p, o.prefilter = some p ∨ firstPrefilter o = some p →
      ∃ (codMin codMax : ℝ) (size : ℕ), ∀ q, p q = Prefilter.call codMin codMax size) (heap heap' : ℕ → σ) :
    (impedance cal S' o freqs heap').1 = (impedance cal S o freqs heap).1 := by
  have key : Agree (List.Forall₂ Eq) (impedance cal S o freqs heap).1 (impedance cal S' o freqs heap').1 := by
    refine impedance_agree (fun r r' h => by rw [h]) ?_ heap heap'
    intro f hf heap heap'
    have ht : List.Forall₂ (Turned cal f) S.runs S'.runs :=
      (forall₂_both (hclock f hf) (hphys f hf)).imp (fun s s' h => ⟨h.1.rate, h.1.size, h.1.chans, h.1.cals, h.2⟩)
    have h1 := oneFreq_alike cal S S' hS hS' htags f S.runs (List.Perm.refl _) ht o hws hwr (by
      intro N T' _ h
      rw [h rfl]
      exact ⟨preAlike_cod (fun p hp => hpre p (.inl hp)) List.nodup_range, preAlike_cod (fun p hp => hpre p (.inr hp)) List.nodup_range⟩)
      heap heap'
    generalize (oneFreq cal S f o heap).1 = y at h1 ⊢
    generalize (oneFreq cal S' f o heap').1 = y' at h1 ⊢
    cases h1 with
    | raised e => exact .raised e
    | @done r r' h =>
      refine .done ?_
      obtain ⟨h1, h2, h3, h4⟩ := h
      have h4 := h4 (.inr ⟨rfl, hclock f hf⟩)
      cases r
      cases r'
      simp only at h1 h2 h3 h4
      rw [h1, h2, h3, h4]
  generalize (impedance cal S o freqs heap).1 = y at key ⊢
  generalize (impedance cal S' o freqs heap').1 = y' at key ⊢
  cases key with
  | raised e => rfl
  | done h => rw [List.forall₂_eq_eq_eq] at h; rw [h]

/-- **C98.** Impedance, error and transfer to the remote do not depend on the dates and the order of the runs, without prefilter:
they are the same for a set made of the same runs at other dates, and the rejected times are the same too if they are not kept. -/
theorem C98_dates [One κ] (cal : κ → ℚ → Option ℂ) (S S' : SigSet ℂ κ) (hS : Reach S) (hS' : Reach S')
    (htags : S'.tags = S.tags) (freqs : List ℚ) (hruns : ∀ f ∈ freqs, SameRuns cal f S S')
    (o : Impedance.Opts σ) (hws : AllAlike o.weights) (hwr : AllAlike (firstWeights o))
    (hpre : o.prefilter = none) (hprer : firstPrefilter o = none) (heap heap' : ℕ → σ) :
    Agree (List.Forall₂ (SameValues (o.keepInvalidTimes = false)))
      (impedance cal S o freqs heap).1 (impedance cal S' o freqs heap').1 := by
  refine impedance_agree (fun r r' => sameValues_shape) ?_ heap heap'
  intro f hf heap heap'
  obtain ⟨l, hl, ht⟩ := hruns f hf
  have h1 := oneFreq_alike cal S S' hS hS' htags f l hl ht o hws hwr (by
    intro N T' _ _
    rw [hpre, hprer]
    exact ⟨preAlike_none _ _, preAlike_none _ _⟩) heap heap'
  generalize (oneFreq cal S f o heap).1 = y at h1 ⊢
  generalize (oneFreq cal S' f o heap').1 = y' at h1 ⊢
  cases h1 with
  | raised e => exact .raised e
  | done h => exact .done ⟨h.1, h.2.1, h.2.2.1, fun h0 => h.2.2.2 (.inl h0)⟩

/-- **C98.** With coefficient of determination prefilters too, if the dates change but not the order of the runs. -/
theorem C98_dates_in_order [One κ] (cal : κ → ℚ → Option ℂ) (S S' : SigSet ℂ κ) (hS : Reach S) (hS' : Reach S')
    (htags : S'.tags = S.tags) (freqs : List ℚ) (hruns : ∀ f ∈ freqs, List.Forall₂ (Turned cal f) S.runs S'.runs)
    (o : Impedance.Opts σ) (hws : AllAlike o.weights) (hwr : AllAlike (firstWeights o))
    (hpre : ∀ p, o.prefilter = some p ∨ firstPrefilter o = some p →
      ∃ (codMin codMax : ℝ) (size : ℕ), ∀ q, p q = Prefilter.call codMin codMax size) (heap heap' : ℕ → σ) :
    Agree (List.Forall₂ (SameValues (o.keepInvalidTimes = false)))
      (impedance cal S o freqs heap).1 (impedance cal S' o freqs heap').1 := by
  refine impedance_agree (fun r r' => sameValues_shape) ?_ heap heap'
  intro f hf heap heap'
  have h1 := oneFreq_alike cal S S' hS hS' htags f S.runs (List.Perm.refl _) (hruns f hf) o hws hwr (by
    intro N T' _ h
    rw [h rfl]
    exact ⟨preAlike_cod (fun p hp => hpre p (.inl hp)) List.nodup_range, preAlike_cod (fun p hp => hpre p (.inr hp)) List.nodup_range⟩)
    heap heap'
  generalize (oneFreq cal S f o heap).1 = y at h1 ⊢
  generalize (oneFreq cal S' f o heap').1 = y' at h1 ⊢
  cases h1 with
  | raised e => exact .raised e
  | done h => exact .done ⟨h.1, h.2.1, h.2.2.1, fun h0 => h.2.2.2 (.inl h0)⟩

/-! Concrete cases. -/

local instance instOneWindows : One Unit := ⟨()⟩

/-- The weight functions of the library treat all windows alike. -/
example : AllAlike exLibrary := by
  refine C97_library exLibrary ?_
  intro i wf h
  simp only [exLibrary, List.mem_cons, reduceCtorEq, Option.some.injEq, Prod.mk.injEq, List.not_mem_nil, or_false, false_or] at h
  rcases h with ⟨-, rfl⟩ | ⟨-, rfl⟩
  · exact ⟨_, fun _ => rfl⟩
  · exact ⟨_, fun _ => rfl⟩

/-- The hypotheses of C97 are met by one output and one input over three windows, the second one turned. -/
example : (∀ l ∈ ([[1, 2, 3]] : List (List ℂ)), l.length = 3) ∧ InRange 3 (.flat [1]) ∧
    turn (fun n => if n = 1 then Complex.I else 1) ([1, 2, 3] : List ℂ) = [1, Complex.I * 2, 3] ∧
    ∀ n : ℕ, ‖(if n = 1 then Complex.I else 1 : ℂ)‖ = 1 := by
  refine ⟨by simp, by simp [InRange], by simp [turn], ?_⟩
  intro n
  split <;> simp

/-- The windows 0, 1, 2 in the order 2, 0, 1; window 1 is at position 2. -/
example : [2, 0, 1].Perm (List.range 3) ∧ reorder [2, 0, 1] ([10, 20, 30] : List ℂ) = [30, 10, 20] ∧
    SameInv (List.range 3) [2, 0, 1] (.flat [1]) (.flat [2]) := by
  refine ⟨by decide, by simp [reorder], .flat ⟨fun t => t = 1, ⟨by simp, ?_⟩, ⟨by simp, ?_⟩⟩⟩
  · intro i h
    simp
  · intro i h
    simp only [List.length_cons, List.length_nil, Nat.zero_add, Nat.reduceAdd] at h
    interval_cases i <;> simp

/-- The tones with the polarity of all channels reversed. -/
noncomputable def exReversed : SigSet ℂ Unit :=
  ⟨[⟨[(tone 6 0 (1 / 4) 8).map (fun v => -1 * v), (tone 3 0 (1 / 4) 8).map (fun v => -1 * v), (tone 1 0 (1 / 4) 8).map (fun v => -1 * v)],
    [(), (), ()], 1, 0, 8⟩], ⟨3, [("E", [0]), ("B", [1]), ("R", [2])]⟩⟩

theorem exReversed_reach : Reach exReversed := by
  refine Reach.new (.dict [("E", .int 0), ("B", .int 1), ("R", .int 2)])
    [.sync ⟨[(tone 6 0 (1 / 4) 8).map (fun v => -1 * v), (tone 3 0 (1 / 4) 8).map (fun v => -1 * v),
      (tone 1 0 (1 / 4) 8).map (fun v => -1 * v)], [(), (), ()], 1, 0, 8⟩] ?_ (by simp) ?_
  · simp only [List.mem_singleton, SigArg.sync.injEq, forall_eq]
    exact ⟨by simp, by simp, by simp [tone]⟩
  · with_unfolding_all rfl

theorem exReversed_physical : ∀ i n, physical (fun (_ : Unit) _ => some 1) (1 / 4) (exReversed.runs.getD 0 ⟨[], [], 0, 0, 0⟩) i n =
    -1 * physical (fun (_ : Unit) _ => some 1) (1 / 4) (exTones.runs.getD 0 ⟨[], [], 0, 0, 0⟩) i n := by
  intro i n
  match i with
  | 0 => simpa [physical, exReversed, exTones] using getD_scaled (-1) (tone 6 0 (1 / 4) 8) n
  | 1 => simpa [physical, exReversed, exTones] using getD_scaled (-1) (tone 3 0 (1 / 4) 8) n
  | 2 => simpa [physical, exReversed, exTones] using getD_scaled (-1) (tone 1 0 (1 / 4) 8) n
  | (k + 3) => simp [physical, exReversed, exTones]

/-- The hypotheses of C97 are met: the impedance 2 and the transfer 3 are found again. -/
example : ∃ r, (impedance (fun _ _ => some 1) exReversed exOpts [1 / 4] (fun _ => ())).1 = .ok [r] ∧
    r.impedance = [[some 2]] ∧ r.transferMag = [[some 3]] := by
  obtain ⟨r, h1, h2, h3⟩ := exTones_result
  have h := C97_impedance (fun _ _ => some 1) exTones exReversed exTones_reach exReversed_reach rfl [1 / 4]
    (by intro f _; exact .cons ⟨rfl, rfl, rfl, rfl, by simp⟩ .nil)
    (by
      intro f hf
      rw [List.mem_singleton.1 hf]
      exact .cons ⟨-1, by simp, exReversed_physical⟩ .nil)
    exOpts (by simp [AllAlike, exOpts]) (by simp [AllAlike, exOpts, firstWeights]) (by simp [exOpts, firstPrefilter]) (fun _ => ()) (fun _ => ())
  refine ⟨r, ?_, h2, h3⟩
  rw [h]
  simp only [impedance, eachFreq, h1, stack, List.all_nil, if_true]

/-- Two runs of three channels. -/
def exRun (k : ℚ) (start : ℚ) (n : ℕ) : Sync ℂ Unit :=
  ⟨[List.replicate n (k : ℂ), List.replicate n (k : ℂ), List.replicate n (k : ℂ)], [(), (), ()], 1, start, n⟩

/-- The first one then the second one. -/
def exDates : SigSet ℂ Unit := ⟨[exRun 5 0 4, exRun 7 100 8], ⟨3, [("E", [0]), ("B", [1]), ("R", [2])]⟩⟩

/-- The second one then the first one. -/
def exDates' : SigSet ℂ Unit := ⟨[exRun 7 (-50) 8, exRun 5 1000 4], ⟨3, [("E", [0]), ("B", [1]), ("R", [2])]⟩⟩

/-- The hypotheses of C98 are met by two runs whose dates are exchanged. -/
example : SameRuns (fun _ _ => some 1) (1 / 4) exDates exDates' := by
  refine ⟨[exRun 7 100 8, exRun 5 0 4], List.Perm.swap _ _ _, ?_⟩
  exact .cons ⟨rfl, rfl, rfl, by simp, 1, by simp, fun i n => by rw [one_mul]; rfl⟩
    (.cons ⟨rfl, rfl, rfl, by simp, 1, by simp, fun i n => by rw [one_mul]; rfl⟩ .nil)

example : Reach exDates ∧ Reach exDates' := by
  refine ⟨Reach.new (.dict [("E", .int 0), ("B", .int 1), ("R", .int 2)]) [.sync (exRun 5 0 4), .sync (exRun 7 100 8)] ?_ (by simp) ?_,
    Reach.new (.dict [("E", .int 0), ("B", .int 1), ("R", .int 2)]) [.sync (exRun 5 1000 4), .sync (exRun 7 (-50) 8)] ?_ (by simp) ?_⟩
  · intro s hs
    simp only [List.mem_cons, SigArg.sync.injEq, List.not_mem_nil, or_false] at hs
    rcases hs with rfl | rfl <;> exact ⟨by simp [exRun], by simp [exRun], by simp [exRun]⟩
  · with_unfolding_all rfl
  · intro s hs
    simp only [List.mem_cons, SigArg.sync.injEq, List.not_mem_nil, or_false] at hs
    rcases hs with rfl | rfl <;> exact ⟨by simp [exRun], by simp [exRun], by simp [exRun]⟩
  · with_unfolding_all rfl

end Razorback.Props
