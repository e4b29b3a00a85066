/-
Property C128 of weight functions supplied by the user.
-/
import Verif.Props.Stable
import Verif.Spec.UserWeights

namespace Razorback.Props
open Razorback Razorback.Spec Razorback.MEst Razorback.Weights Filter Topology

variable {𝕜 : Type} [RCLike 𝕜] {q : ℕ} {σ ι : Type} {F : Filter ι}

theorem zeroAt_elementwise (g : 𝕜 → ℝ) (r : List 𝕜) (inv : List ℕ) :
    zeroAt ((mask r inv).map (fun v => match v with | none => Flt.nan | some x => Flt.fin (g x))) inv =
      (r.zipIdx.map (fun p => if p.2 ∈ inv then 0 else g p.1)).map Flt.fin := by
  refine List.ext_getElem? (fun i => ?_)
  rw [zeroAt_getElem?]
  simp only [List.getElem?_map, mask_getElem?, List.getElem?_zipIdx, Nat.zero_add]
  cases r[i]? with
  | none => rfl
  | some x => by_cases hi : i ∈ inv <;> simp [hi]

theorem stable_elementwise {f : ℕ → 𝕜 → ℝ} (hf : ∀ it, Continuous (f it)) : Stable F (elementwise f : WFun σ 𝕜 q) := by
  refine ⟨fun _ _ => True, ?_⟩
  intro e e0 he b b0 hb hl z z0 hz it inv eps st st0 p0 _ hp
  have hr := Tends.resid he hb hz
  have hr0 : (resid e0 b0 z0).length = e0.length := length_resid hl z0
  refine ⟨fun k => (resid (e k) (b k) (z k)).zipIdx.map (fun p => if p.2 ∈ inv then 0 else f it p.1), _, st,
    hr.zipIdx (f := fun _ p => if p.2 ∈ inv then 0 else f it p.1) (f0 := fun p => if p.2 ∈ inv then 0 else f it p.1) (fun i x0 _ x hx => ?_), by simp [hr0], ?_, trivial, .of_forall fun k => ?_⟩
  · simp only
    by_cases hi : i ∈ inv
    · simp only [hi, if_true]; exact tendsto_const_nhds
    · simp only [hi, if_false]
      exact ((hf it).tendsto x0).comp hx
  · obtain ⟨h1, h2⟩ := (isPass_iff hl hr0).1 hp
    unfold evalWeight at h1
    rw [if_neg (by simp only [List.any_eq_true, decide_eq_true_eq, not_exists, not_and, not_le, hr0]; exact hp.inside)] at h1
    simp only [elementwise, List.length_map] at h1
    split at h1
    · simp at h1
    simp only [Prod.mk.injEq, Except.ok.injEq] at h1
    rw [← h1.1.1]
    congr 1
    exact zeroAt_elementwise (f it) _ inv
  · exact ⟨_, rfl, by simp [mask], zeroAt_elementwise (f it) _ inv⟩

theorem sound_elementwise {f : ℕ → 𝕜 → ℝ} (hf : ∀ it x, 0 ≤ f it x) : Sound (elementwise f : WFun σ 𝕜 q) := by
  intro st it r inv e b w s h
  simp only [elementwise, Prod.mk.injEq, Except.ok.injEq, Option.some.injEq] at h
  obtain ⟨rfl, -⟩ := h
  refine ⟨by simp [mask], fun v hv => ?_⟩
  obtain ⟨y, -, hy⟩ := List.mem_map.1 hv
  cases y with
  | none => simp at hy
  | some y => rw [← Flt.fin.inj hy]; exact hf it y

theorem userWeight_stable {wf : ∀ q, WFun Mem 𝕜 q} (h : UserWeight wf) (hq : 0 < q) : Stable F (wf q) := by
  obtain ⟨f, hf, h | ⟨lower, khi, ⟨h0, h1, h2, h3⟩, h⟩⟩ := h
  · rw [h q]
    exact stable_elementwise hf
  · rw [h q]
    exact stable_bis hq (stable_elementwise hf) (sound_elementwise h0) h1 h2 h3

/-- C128: an estimation with a weight function supplied by the user, a continuous function of the residuals or a bounded influence step over one. -/
theorem C128_user {N : ℕ} {wf : ∀ q, WFun Mem 𝕜 q} (hwf : UserWeight wf) (hq : 0 < q) (e : Fin N → 𝕜) (b : Fin N → Fin q → 𝕜) (z0 : Fin q → 𝕜) (inv : List ℕ)
    (o : MEst.Opts) (st st' : Mem) (z : Fin q → 𝕜) (inv' : List ℕ)
    (h : mEstimate (List.ofFn e) (List.ofFn b) (some z0) (some (wf q)) inv o st = (.ok (z, inv'), st'))
    (hclear : NoCloseCall (wf q) (List.ofFn e) (List.ofFn b) o z0 inv st) (ε : ℝ) (hε : 0 < ε) :
    ∀ᶠ d : (Fin N → 𝕜) × (Fin N → Fin q → 𝕜) × (Fin q → 𝕜) in 𝓝 (e, b, z0), ∀ s : Mem, ∃ z',
      (mEstimate (List.ofFn d.1) (List.ofFn d.2.1) (some d.2.2) (some (wf q)) inv o s).1 = .ok (z', inv') ∧ ∀ j, ‖z' j - z j‖ < ε := by
  let F : Filter (((Fin N → 𝕜) × (Fin N → Fin q → 𝕜) × (Fin q → 𝕜)) × Mem) := 𝓝 (e, b, z0) ×ˢ 𝓟 Set.univ
  have hfst : Tendsto (fun k : ((Fin N → 𝕜) × (Fin N → Fin q → 𝕜) × (Fin q → 𝕜)) × Mem => k.1) F (𝓝 (e, b, z0)) := tendsto_fst
  have he : Tends F (fun k => List.ofFn k.1.1) (List.ofFn e) :=
    tends_ofFn (fun n => (((continuous_apply n).comp continuous_fst).tendsto (e, b, z0)).comp hfst)
  have hb : Tends F (fun k => List.ofFn k.1.2.1) (List.ofFn b) :=
    tends_ofFn (fun n => (((continuous_apply n).comp (continuous_fst.comp continuous_snd)).tendsto (e, b, z0)).comp hfst)
  have hz : Tendsto (fun k : ((Fin N → 𝕜) × (Fin N → Fin q → 𝕜) × (Fin q → 𝕜)) × Mem => k.1.2.2) F (𝓝 z0) :=
    ((continuous_snd.comp continuous_snd).tendsto (e, b, z0)).comp hfst
  obtain ⟨ζ, h1, h2⟩ := (userWeight_stable hwf hq).loop he hb (by simp) hz (st := fun k => k.2) hclear h
  have h3 : ∀ᶠ k in F, ∀ j, dist (ζ k j) (z j) < ε := eventually_all.2 (fun j => Metric.tendsto_nhds.1 ((tendsto_pi_nhds.1 h1) j) ε hε)
  have h4 := h2.and h3
  rw [eventually_prod_principal_iff] at h4
  filter_upwards [h4] with d h4 s
  obtain ⟨h5, h6⟩ := h4 s (Set.mem_univ _)
  exact ⟨ζ (d, s), h5, fun j => by rw [← dist_eq_norm]; exact h6 j⟩

/-- C128: so does `transfer_function` with a chain of least squares, weight objects and such functions. -/
theorem C128_user_transfer {P N : ℕ} {ws : Weighting Mem 𝕜 q}
    (hw : ∀ i wf, some (i, wf) ∈ ws → (∃ w : Obj, UsualObj w ∧ wf = w.call) ∨ ∃ g : ∀ q, WFun Mem 𝕜 q, UserWeight g ∧ wf = g q)
    (outputs : Fin P → Fin N → 𝕜) (inputs : Fin q → Fin N → 𝕜) (init : Option (List (Fin q → 𝕜))) (inv : InvArg) (o : MEst.Opts) (heap heap' : ℕ → Mem)
    (res : List (Option (Fin q → 𝕜) × List ℕ))
    (h : transferFunction (List.ofFn fun p => List.ofFn (outputs p)) (fun j => List.ofFn (inputs j)) ws init inv o heap = (.ok res, heap'))
    (hclear : ∀ p heap, ClearChain o ws (List.ofFn (outputs p)) (List.ofFn fun n j => inputs j n) (startOf init p) (invalidOf inv p) heap) (ε : ℝ) (hε : 0 < ε) :
    ∀ᶠ d : (Fin P → Fin N → 𝕜) × (Fin q → Fin N → 𝕜) in 𝓝 (outputs, inputs), ∀ heap, ∃ res',
      (transferFunction (List.ofFn fun p => List.ofFn (d.1 p)) (fun j => List.ofFn (d.2 j)) ws init inv o heap).1 = .ok res' ∧
      List.Forall₂ (fun a' a => a'.2 = a.2 ∧ CloseTo ε a'.1 a.1) res' res := by
  refine transfer_of_stable (fun F hq i wf hm => ?_) outputs inputs init inv o heap heap' res h hclear ε hε
  rcases hw i wf hm with ⟨w, hw, rfl⟩ | ⟨g, hg, rfl⟩
  · exact stable_obj hq hw
  · exact userWeight_stable hg hq

end Razorback.Props
