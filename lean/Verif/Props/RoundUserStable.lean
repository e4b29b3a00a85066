/-
Property C129: weight functions supplied by the user, with rounding errors.
-/
import Verif.Props.RoundBis
import Verif.Props.StableUser

namespace Razorback.Props
open Razorback Razorback.Spec Razorback.MEst Razorback.Weights Razorback.Approx Filter Topology

variable {𝕜 : Type} [RCLike 𝕜] {q : ℕ} {σ ι : Type} {F : Filter ι} {u : ι → ℝ}

/-- A weight function supplied by the user, with rounding errors: those of the function itself are known by their size only. -/
def FUserWeight (c : ℝ) (wf : ∀ q, FW Mem 𝕜 q) : Prop := ∃ f : ℕ → 𝕜 → ℝ, (∀ it, Continuous (f it)) ∧
  ((∀ q, wf q = FW.user (elementwise f)) ∨ ∃ lower khi, SensibleStep f lower khi ∧ ∀ q, wf q = FW.bis c (FW.user (elementwise f)) lower khi)

theorem ignores_elementwise (f : ℕ → 𝕜 → ℝ) : IgnoresData (elementwise f : WFun σ 𝕜 q) := fun _ _ _ _ _ _ _ => rfl

theorem fsound_elementwise {f : ℕ → 𝕜 → ℝ} (hf : ∀ it x, 0 ≤ f it x) : FSound (FW.user (elementwise f) : FW σ 𝕜 q) := by
  intro v hv0 hv1 st it r e b inv w st' h x hx
  obtain ⟨raw0, h1, h2⟩ := h
  simp only [elementwise, Prod.mk.injEq, Except.ok.injEq] at h1
  obtain ⟨rfl, -⟩ := h1
  rcases h2 with ⟨h2, -⟩ | ⟨w1, w2, h2, h3, h4⟩
  · simp at h2
  obtain rfl := Option.some.inj h2
  obtain rfl := Option.some.inj h4
  obtain ⟨i, hi, hxi⟩ := List.getElem_of_mem hx
  have hi1 := hi
  rw [← h3.length_eq] at hi1
  refine nearWeight_nonneg hv1 (fun a ha => ?_) (h3.get hi1 hi) x hxi
  simp only [List.get_eq_getElem, List.getElem_map] at ha
  split at ha
  · simp at ha
  · rw [← Flt.fin.inj ha]; exact hf _ _

theorem FUserWeight.stable (hu0 : ∀ᶠ k in F, 0 ≤ u k) (hu : Tendsto u F (𝓝 0)) {c : ℝ} {wf : ∀ q, FW Mem 𝕜 q} (h : FUserWeight c wf) (hq : 0 < q) :
    FStable F u (wf q) := by
  obtain ⟨f, hf, h | ⟨lower, khi, ⟨h0, h1, h2, h3⟩, h⟩⟩ := h
  · rw [h q]
    exact fstable_summed hu0 hu (stable_elementwise hf) (ignores_elementwise f)
  · rw [h q]
    exact fstable_bis (inner := FW.user (elementwise f)) hq c hu0 hu (fstable_summed hu0 hu (stable_elementwise hf) (ignores_elementwise f)) (sound_elementwise h0)
      (fsound_elementwise h0) h1 h2 h3

end Razorback.Props
