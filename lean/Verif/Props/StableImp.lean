/-
Small changes of the recordings make small changes of the impedance (C128).
-/
import Verif.Props.StableUser
import Verif.Props.StablePre
import Verif.Spec.StableStage
import Verif.Props.Units

namespace Razorback.Props
open Razorback Razorback.Spec Razorback.MEst Razorback.Weights Razorback.Impedance Razorback.Fourier Filter Topology

section general
variable {𝕜 : Type} [RCLike 𝕜] {q : ℕ} {σ ι : Type} {F : Filter ι}

/-- The common length of the channels, if they have one. -/
def headLen (l : List ℕ) : ℕ := l.headD 0

theorem transfer_unfold (e : List (List 𝕜)) (c : Fin q → List 𝕜) (ws : Weighting σ 𝕜 q) (inv : InvArg) (o : MEst.Opts) (heap : ℕ → σ) :
    transferFunction e c ws none inv o heap =
      match inv.norm e.length with
      | .error x => (.error x, heap)
      | .ok ivs => if e.length = 0 ∨ q = 0 ∨ (∃ j, (c j).length ≠ headLen (e.map List.length)) ∨ (∃ n ∈ e.map List.length, n ≠ headLen (e.map List.length)) ∨
          ivs.length ≠ e.length then (.error .assertion, heap)
        else outputsLoop o ws (rowsOf c (headLen (e.map List.length))) (e.zip ((List.replicate e.length none).zip ivs)) heap := by
  unfold transferFunction
  cases inv.norm e.length with
  | error x => rfl
  | ok ivs =>
    cases e with
    | nil => simp
    | cons y l =>
      simp only [headLen, List.map_cons, List.headD_cons]
      by_cases h1 : q = 0 ∨ (∃ j, (c j).length ≠ y.length) ∨ (y :: l).any (fun x => decide (x.length ≠ y.length))
      · rw [if_pos h1, if_pos]
        right
        rcases h1 with h1 | h1 | h1
        · exact .inl h1
        · exact .inr (.inl h1)
        · refine .inr (.inr (.inl ?_))
          rw [List.any_eq_true] at h1
          obtain ⟨x, hx, hx'⟩ := h1
          exact ⟨x.length, by rw [← List.map_cons]; exact List.mem_map_of_mem hx, by simpa using hx'⟩
      · rw [if_neg h1]
        by_cases h2 : ivs.length ≠ (y :: l).length
        · rw [if_pos h2, if_pos]
          exact .inr (.inr (.inr (.inr h2)))
        · rw [if_neg h2, if_neg (by simp), if_neg]
          push Not at h1 ⊢
          refine ⟨by simp, h1.1, h1.2.1, ?_, not_not.1 h2⟩
          intro n hn
          rw [← List.map_cons] at hn
          obtain ⟨x, hx, rfl⟩ := List.mem_map.1 hn
          have h3 := h1.2.2
          rw [← Bool.eq_false_iff, List.any_eq_false] at h3
          simpa using h3 x hx

theorem zip_range {α β γ : Type} (A : List α) (B : List β) (C : List γ) (a : α) (b : β) (c : γ) (hB : B.length = A.length) (hC : C.length = A.length) :
    A.zip (B.zip C) = (List.range A.length).map (fun p => (A.getD p a, B.getD p b, C.getD p c)) := by
  refine List.ext_getElem (by simp [hB, hC]) (fun i h1 h2 => ?_)
  have hi : i < A.length := by simpa using h2
  simp [List.getD_eq_getElem?_getD, hi, hB ▸ hi, hC ▸ hi, hB, hC]

/-- `transfer_function` on data which tend to others. -/
theorem transfer_stable {o : MEst.Opts} {ws : Weighting σ 𝕜 q} (hws : ∀ i wf, some (i, wf) ∈ ws → Stable F wf) {e : ι → List (List 𝕜)} {e0 : List (List 𝕜)}
    (hel : ∀ k, (e k).map List.length = e0.map List.length) (he : ∀ p, Tends F (fun k => (e k).getD p []) (e0.getD p []))
    {c : ι → Fin q → List 𝕜} {c0 : Fin q → List 𝕜} (hcl : ∀ k j, (c k j).length = (c0 j).length)
    (hc : ∀ j n, Tendsto (fun k => (c k j).getD n 0) F (𝓝 ((c0 j).getD n 0))) {inv : InvArg} {heap : ι → ℕ → σ} {heap0 heap1 : ℕ → σ}
    {res0 : List (Option (Fin q → 𝕜) × List ℕ)} (h : transferFunction e0 c0 ws none inv o heap0 = (.ok res0, heap1))
    (hclear : ∀ p < e0.length, ∀ heap, ClearChain o ws (e0.getD p []) (rowsOf c0 (headLen (e0.map List.length))) none (invalidOf inv p) heap)
    {ε : ℝ} (hε : 0 < ε) :
    ∀ᶠ k in F, ∃ res, (transferFunction (e k) (c k) ws none inv o (heap k)).1 = .ok res ∧
      List.Forall₂ (fun a a0 => a.2 = a0.2 ∧ CloseTo ε a.1 a0.1) res res0 := by
  have hlen : ∀ k, (e k).length = e0.length := fun k => by simpa using congrArg List.length (hel k)
  rw [transfer_unfold] at h
  simp only [transfer_unfold, hel, hlen, hcl]
  cases hn : inv.norm e0.length with
  | error x => simp [hn] at h
  | ok ivs =>
  simp only [hn] at h
  split_ifs at h with hcond
  · simp at h
  simp only [if_neg hcond]
  push Not at hcond
  obtain ⟨h1, h2, h3, h4, h5⟩ := hcond
  have hb : Tends F (fun k => rowsOf (c k) (headLen (e0.map List.length))) (rowsOf c0 (headLen (e0.map List.length))) :=
    Tends.over _ (fun n _ => tendsto_pi_nhds.2 (fun j => hc j n))
  have hz0 := zip_range e0 (List.replicate e0.length (none : Option (Fin q → 𝕜))) ivs [] none [] (by simp) h5
  have hz : ∀ k, (e k).zip ((List.replicate e0.length (none : Option (Fin q → 𝕜))).zip ivs) = (List.range e0.length).map (fun p =>
      ((e k).getD p [], (List.replicate e0.length (none : Option (Fin q → 𝕜))).getD p none, ivs.getD p [])) := fun k => by
    have := zip_range (e k) (List.replicate e0.length (none : Option (Fin q → 𝕜))) ivs [] none [] (by simp [hlen]) (by rw [hlen, h5])
    rw [this, hlen]
  simp only [hz]
  rw [hz0] at h
  have key := outputs_stable hws hb hε ((List.range e0.length).map (fun p => ((fun k => (e k).getD p []), e0.getD p [],
    (List.replicate e0.length (none : Option (Fin q → 𝕜))).getD p none, ivs.getD p []))) (by
      intro t ht
      obtain ⟨p, hp, rfl⟩ := List.mem_map.1 ht
      rw [List.mem_range] at hp
      refine ⟨he p, ?_, fun heap => ?_⟩
      · have := h4 (e0.getD p []).length (by
          refine List.mem_map_of_mem ?_
          rw [List.getD_eq_getElem?_getD, List.getElem?_eq_getElem hp]
          exact List.getElem_mem hp)
        simpa [rowsOf] using this
      · have hi : ivs.getD p [] = invalidOf inv p := by
          have := norm_getElem hn h5 ⟨p, hp⟩
          rw [List.getD_eq_getElem?_getD, this]; rfl
        have hr : (List.replicate e0.length (none : Option (Fin q → 𝕜))).getD p none = none := by
          rw [List.getD_eq_getElem?_getD, List.getElem?_replicate]
          split <;> rfl
        simp only [hi, hr]
        exact hclear p hp heap) (heap := heap) (heap0 := heap0) (heap1 := heap1) (res0 := res0) (by
      rw [List.map_map]; exact h)
  filter_upwards [key] with k hk
  rw [List.map_map] at hk
  exact hk

theorem mapM_close {ε : ℝ} {res res0 : List (Option (Fin q → 𝕜) × List ℕ)} (h : List.Forall₂ (fun a a0 => a.2 = a0.2 ∧ CloseTo ε a.1 a0.1) res res0) :
    res.map Prod.snd = res0.map Prod.snd ∧ ∀ z0, res0.mapM (fun p => p.1) = some z0 →
      ∃ z, res.mapM (fun p => p.1) = some z ∧ List.Forall₂ (fun z z0 => ∀ j, ‖z j - z0 j‖ < ε) z z0 := by
  induction h with
  | nil => exact ⟨rfl, fun z0 h => ⟨[], rfl, by simp at h; subst h; exact .nil⟩⟩
  | @cons a a0 l l0 h1 h2 ih =>
    obtain ⟨ih1, ih2⟩ := ih
    refine ⟨by simp [h1.1, ih1], fun z0 h => ?_⟩
    simp only [List.mapM_cons, Option.bind_eq_bind, Option.pure_def, Option.bind_eq_some_iff, Option.some.injEq] at h ⊢
    obtain ⟨y0, hy0, l1, hl1, rfl⟩ := h
    obtain ⟨z, hz, hz'⟩ := ih2 _ hl1
    have hc := h1.2
    rw [hy0] at hc
    cases ha : a.1 with
    | none => rw [ha] at hc; exact hc.elim
    | some y =>
      rw [ha] at hc
      exact ⟨y :: z, ⟨y, rfl, z, hz, rfl⟩, .cons hc hz'⟩

end general

variable {σ ι κ : Type} {F : Filter ι}

/-- Arrays of channels which tend to another one of the same shape. -/
structure LTends (F : Filter ι) (l : ι → List (List ℂ)) (l0 : List (List ℂ)) : Prop where
  shape : ∀ k, (l k).map List.length = l0.map List.length
  entry : ∀ i n, Tendsto (fun k => ((l k).getD i []).getD n 0) F (𝓝 ((l0.getD i []).getD n 0))

theorem LTends.length {l : ι → List (List ℂ)} {l0 : List (List ℂ)} (h : LTends F l l0) (k : ι) : (l k).length = l0.length := by
  simpa using congrArg List.length (h.shape k)

theorem LTends.lengths {l : ι → List (List ℂ)} {l0 : List (List ℂ)} (h : LTends F l l0) (k : ι) (i : ℕ) : ((l k).getD i []).length = (l0.getD i []).length := by
  have := congrArg (fun m => m.getD i 0) (h.shape k)
  simp only [List.getD_eq_getElem?_getD, List.getElem?_map] at this ⊢
  have h1 := h.length k
  by_cases hi : i < l0.length
  · rw [List.getElem?_eq_getElem (by omega), List.getElem?_eq_getElem hi] at this ⊢
    simpa using this
  · rw [List.getElem?_eq_none (by omega), List.getElem?_eq_none (by omega)]

theorem LTends.row {l : ι → List (List ℂ)} {l0 : List (List ℂ)} (h : LTends F l l0) (i : ℕ) : Tends F (fun k => (l k).getD i []) (l0.getD i []) := by
  refine ⟨.of_forall (fun k => h.lengths k i), fun n x0 hx => ?_⟩
  have h1 := h.entry i n
  have hn : n < (l0.getD i []).length := (List.getElem?_eq_some_iff.1 hx).1
  rw [List.getD_eq_getElem?_getD (l := l0.getD i []), hx, Option.getD_some] at h1
  refine h1.congr (fun k => ?_)
  rw [List.getD_eq_getElem?_getD (l := (l k).getD i []), List.getElem?_eq_getElem (by rw [h.lengths]; exact hn)]
  rfl

/-- The outcome of an estimation, with the rows of the estimate as lists. -/
noncomputable def rowsOut {q : ℕ} (r : Except Err (List (Fin q → ℂ) × List (List ℕ))) : Except Err (List (List ℂ) × List (List ℕ)) :=
  match r with
  | .error x => .error x
  | .ok p => .ok (p.1.map List.ofFn, p.2)

theorem estimate_cols {ws : Weights σ} {o : MEst.Opts} {q : ℕ} (e b : List (List ℂ)) (hb : b.length = q) (inv : List (List ℕ)) (heap : ℕ → σ) :
    rowsOut (estimate false ws o e b inv heap).1 =
      match (transferFunction e (fun j : Fin q => b.getD j []) (ws.at q) none (.each inv) o heap).1 with
      | .error x => .error x
      | .ok l => match l.mapM (fun p => p.1) with
        | none => .error .type
        | some z => .ok (z.map List.ofFn, l.map Prod.snd) := by
  subst hb
  have hc : cols b = fun j : Fin b.length => b.getD j [] := by
    funext j
    simp [cols]
  unfold estimate
  rw [if_neg (by simp), hc]
  cases transferFunction e (fun j : Fin b.length => b.getD j []) (ws.at b.length) none (.each inv) o heap with
  | mk r s =>
    cases r with
    | error x => rfl
    | ok l =>
      simp only
      cases l.mapM (fun p => p.1) <;> rfl

theorem estimate_stable {ws : Weights σ} (hws : ∀ i wf, some (i, wf) ∈ ws → ∀ q, 0 < q → Stable F (wf q)) {o : MEst.Opts} {e b : ι → List (List ℂ)}
    {e0 b0 : List (List ℂ)} (he : LTends F e e0) (hb : LTends F b b0) {inv : List (List ℕ)} {heap : ι → ℕ → σ} {heap0 heap1 : ℕ → σ}
    {z0 : List (Fin b0.length → ℂ)} {iv0 : List (List ℕ)} (h : estimate false ws o e0 b0 inv heap0 = (.ok (z0, iv0), heap1))
    (hclear : ∀ p < e0.length, ∀ heap, ClearChain o (ws.at b0.length) (e0.getD p []) (rowsOf (cols b0) (headLen (e0.map List.length))) none
      (invalidOf (.each inv) p) heap) :
    ∃ Z : ι → List (List ℂ), LTends F Z (z0.map List.ofFn) ∧
      ∀ᶠ k in F, rowsOut (estimate false ws o (e k) (b k) inv (heap k)).1 = .ok (Z k, iv0) := by
  classical
  have hcols : cols b0 = fun j : Fin b0.length => b0.getD j [] := by
    funext j
    simp [cols]
  have h0 := estimate_cols (ws := ws) (o := o) e0 b0 rfl inv heap0
  rw [h] at h0
  simp only [rowsOut] at h0
  cases ht : transferFunction e0 (fun j : Fin b0.length => b0.getD j []) (ws.at b0.length) none (.each inv) o heap0 with
  | mk r s =>
  rw [ht] at h0
  cases r with
  | error x => simp at h0
  | ok res0 =>
  simp only at h0
  cases hm : res0.mapM (fun p => p.1) with
  | none => rw [hm] at h0; simp at h0
  | some z1 =>
  rw [hm] at h0
  simp only [Except.ok.injEq, Prod.mk.injEq] at h0
  have hz1 : z0 = z1 := List.map_injective_iff.2 List.ofFn_injective h0.1
  subst hz1
  obtain ⟨-, rfl⟩ := h0
  have hq : 0 < b0.length := by
    rw [transfer_unfold] at ht
    cases hn : InvArg.norm e0.length (.each inv) with
    | error x => rw [hn] at ht; simp at ht
    | ok ivs =>
      rw [hn] at ht
      simp only at ht
      split_ifs at ht with hc
      · simp at ht
      · push Not at hc
        exact Nat.pos_of_ne_zero hc.2.1
  have hws' : ∀ i wf, some (i, wf) ∈ (ws.at b0.length) → Stable F wf := by
    intro i wf hmem
    simp only [Weights.at, List.mem_map, Option.map_eq_some_iff, Prod.mk.injEq] at hmem
    obtain ⟨x, hx, ⟨a1, a2⟩, rfl, rfl, rfl⟩ := hmem
    exact hws _ _ hx _ hq
  have hclear' : ∀ p < e0.length, ∀ heap, ClearChain o (ws.at b0.length) (e0.getD p [])
      (rowsOf (fun j : Fin b0.length => b0.getD j []) (headLen (e0.map List.length))) none (invalidOf (.each inv) p) heap := by
    rw [← hcols]; exact hclear
  have key : ∀ ε > 0, ∀ᶠ k in F, ∃ zs, rowsOut (estimate false ws o (e k) (b k) inv (heap k)).1 = .ok (zs, res0.map Prod.snd) ∧
      zs.map List.length = (z0.map List.ofFn).map List.length ∧ ∀ i n, ‖(zs.getD i []).getD n 0 - ((z0.map List.ofFn).getD i []).getD n 0‖ < ε := by
    intro ε hε
    have k1 := transfer_stable hws' he.shape he.row (c := fun k (j : Fin b0.length) => (b k).getD j []) (c0 := fun j => b0.getD j [])
      (fun k j => hb.lengths k j) (fun j n => hb.entry j n) (heap := heap) ht hclear' hε
    filter_upwards [k1] with k hk
    obtain ⟨res, hr1, hr2⟩ := hk
    obtain ⟨hs, hmz⟩ := mapM_close hr2
    obtain ⟨z, hz, hclose⟩ := hmz _ hm
    refine ⟨z.map List.ofFn, ?_, ?_, ?_⟩
    · rw [estimate_cols (q := b0.length) _ _ (hb.length k), hr1]
      simp only [hz, hs]
    · have := hclose.length_eq
      simp only [List.map_map, Function.comp_def, List.length_ofFn, List.map_const', this]
    · intro i n
      have hlen := hclose.length_eq
      simp only [List.getD_eq_getElem?_getD, List.getElem?_map]
      by_cases hi : i < z0.length
      · rw [List.getElem?_eq_getElem (l := z) (by omega), List.getElem?_eq_getElem hi]
        simp only [Option.map_some, Option.getD_some, List.getElem?_ofFn]
        split
        · exact hclose.get (by omega) hi _
        · simpa using hε
      · rw [List.getElem?_eq_none (l := z) (by omega), List.getElem?_eq_none (l := z0) (by omega)]
        simpa using hε
  refine ⟨fun k => if hk : ∃ zs, rowsOut (estimate false ws o (e k) (b k) inv (heap k)).1 = .ok (zs, res0.map Prod.snd) ∧
      zs.map List.length = (z0.map List.ofFn).map List.length then hk.choose else z0.map List.ofFn, ⟨?_, ?_⟩, ?_⟩
  · intro k
    split
    · rename_i hk; exact hk.choose_spec.2
    · rfl
  · intro i n
    rw [Metric.tendsto_nhds]
    intro ε hε
    filter_upwards [key ε hε] with k hk
    obtain ⟨zs, h1, h2, h3⟩ := hk
    have hex : ∃ zs, rowsOut (estimate false ws o (e k) (b k) inv (heap k)).1 = .ok (zs, res0.map Prod.snd) ∧
      zs.map List.length = (z0.map List.ofFn).map List.length := ⟨zs, h1, h2⟩
    rw [dif_pos hex]
    have : hex.choose = zs := by
      have := h1.symm.trans hex.choose_spec.1
      simp only [Except.ok.injEq, Prod.mk.injEq] at this
      exact this.1.symm
    rw [this, dist_eq_norm]
    exact h3 i n
  · filter_upwards [key 1 one_pos] with k hk
    obtain ⟨zs, h1, h2, -⟩ := hk
    rw [dif_pos ⟨zs, h1, h2⟩]
    exact (⟨zs, h1, h2⟩ : ∃ zs, rowsOut (estimate false ws o (e k) (b k) inv (heap k)).1 = .ok (zs, res0.map Prod.snd) ∧
      zs.map List.length = (z0.map List.ofFn).map List.length).choose_spec.1

theorem error_cols {q : ℕ} (e b : List (List ℂ)) (hb : b.length = q) (z : List (Fin b.length → ℂ)) (inv : List (List ℕ)) :
    (∃ E, transferError e (cols b) z inv = .ok E) ↔ ¬ (e.length = 0 ∨ q = 0 ∨ (∃ j : Fin q, (b.getD j []).length ≠ headLen (e.map List.length)) ∨
      (∃ n ∈ e.map List.length, n ≠ headLen (e.map List.length)) ∨ inv.length ≠ e.length) ∧
      (gram (rowsOf (fun j : Fin q => b.getD j []) (headLen (e.map List.length))) none).det ≠ 0 := by
  subst hb
  have hc : cols b = fun j : Fin b.length => b.getD j [] := by
    funext j
    simp [cols]
  rw [hc]
  unfold transferError
  cases e with
  | nil => simp
  | cons y l =>
    simp only [headLen, List.map_cons, List.headD_cons, Matrix.det_transpose]
    have hany : ((y :: l).any (fun x => decide (x.length ≠ y.length)) = true) ↔ ∃ n ∈ y.length :: l.map List.length, n ≠ y.length := by
      rw [List.any_eq_true, ← List.map_cons]
      constructor
      · rintro ⟨x, hx, h⟩; exact ⟨x.length, List.mem_map_of_mem hx, by simpa using h⟩
      · rintro ⟨n, hn, h⟩
        obtain ⟨x, hx, rfl⟩ := List.mem_map.1 hn
        exact ⟨x, hx, by simpa using h⟩
    split_ifs with h1 h2 h3 <;> rw [hany] at h1
    · simp only [reduceCtorEq, exists_false, false_iff, not_and]
      intro h; exact absurd (.inr (h1.imp_right (fun h => h.imp_right .inl))) h
    · simp only [reduceCtorEq, exists_false, false_iff, not_and]
      intro h; exact absurd (.inr (.inr (.inr (.inr h2)))) h
    · simp only [reduceCtorEq, exists_false, false_iff, not_and]
      exact fun _ h => h h3
    · simp only [Except.ok.injEq, exists_eq', true_iff]
      refine ⟨?_, h3⟩
      rintro (h | h | h | h | h)
      · simp at h
      · exact h1 (.inl h)
      · exact h1 (.inr (.inl h))
      · exact h1 (.inr (.inr h))
      · exact h2 h

theorem headLen_of {e : List (List ℂ)} {N : ℕ} (hne : e ≠ []) (h : ∀ c ∈ e, c.length = N) : headLen (e.map List.length) = N := by
  cases e with
  | nil => exact absurd rfl hne
  | cons c l => exact h c (by simp)

theorem error_rows {q : ℕ} (e b : List (List ℂ)) (hb : b.length = q) (z : List (Fin b.length → ℂ)) (inv : List (List ℕ)) {E : List (Fin b.length → Flt)}
    (h : transferError e (cols b) z inv = .ok E) :
    E.map List.ofFn = (e.zip ((z.map List.ofFn).zip inv)).map (fun t => List.ofFn (errorRow (rowsOf (fun j : Fin q => b.getD j []) (headLen (e.map List.length)))
      t.1 (fun j => t.2.1.getD j 0) t.2.2.length)) := by
  subst hb
  have hc : cols b = fun j : Fin b.length => b.getD j [] := by
    funext j
    simp [cols]
  rw [hc] at h
  unfold transferError at h
  cases e with
  | nil => simp at h
  | cons y l =>
    simp only [headLen, List.map_cons, List.headD_cons] at h ⊢
    split_ifs at h
    simp only [Except.ok.injEq] at h
    rw [← h, List.map_map]
    refine List.ext_getElem (by simp) (fun i h1 h2 => ?_)
    simp only [List.getElem_map, List.getElem_zip, Function.comp_apply]
    congr 2
    funext j
    simp

theorem call_rows {codMin codMax : ℝ} {size q : ℕ} (c : List ℂ) (b : List (List ℂ)) (hb : b.length = q) :
    Prefilter.call codMin codMax size c (rows b) = Prefilter.call codMin codMax size c (rowsOf (fun j : Fin q => b.getD j []) (width b)) := by
  subst hb
  have hc : cols b = fun j : Fin b.length => b.getD j [] := by
    funext j
    simp [cols]
  rw [rows, hc]

theorem LTends.same_width {b : ι → List (List ℂ)} {b0 : List (List ℂ)} (hb : LTends F b b0) (k : ι) : width (b k) = width b0 := by
  have h1 := congrArg List.head? (hb.shape k)
  rw [List.head?_map, List.head?_map] at h1
  unfold width
  rw [h1]

theorem mapE_same_on {α β : Type _} {f g : α → Except Err β} {l : List α} (h : ∀ a ∈ l, f a = g a) : mapE f l = mapE g l := by
  induction l with
  | nil => rfl
  | cons a l ih => simp only [mapE, h a (by simp), ih (fun a ha => h a (by simp [ha]))]

/-- The prefilter on coefficients which tend to others. -/
theorem prefilter_stable {pre : Option Pre} {e b : ι → List (List ℂ)} {e0 b0 : List (List ℂ)} (he : LTends F e e0) (hb : LTends F b b0)
    (hp : ClearFilter pre e0 b0) {iv : InvArg} {inv : List (List ℕ)}
    (h : Prefilter.applyPrefilter e0 (rows b0) (pre.map (fun p => p b0.length)) iv = .ok inv) :
    ∀ᶠ k in F, Prefilter.applyPrefilter (e k) (rows (b k)) (pre.map (fun p => p (b k).length)) iv = .ok inv := by
  rcases hp with rfl | ⟨codMin, codMax, size, rfl, hoff⟩
  · refine .of_forall (fun k => ?_)
    rw [← h]
    unfold Prefilter.applyPrefilter
    rw [he.length]
    rfl
  · simp only [Option.map_some] at h ⊢
    unfold Prefilter.applyPrefilter at h ⊢
    simp only [he.length]
    cases hn : iv.norm e0.length with
    | error x => rw [hn] at h; simp at h
    | ok ivs =>
    rw [hn] at h
    simp only at h ⊢
    split_ifs at h with hl
    simp only [if_neg hl]
    rw [ne_eq, not_not] at hl
    have hz : ∀ m : List (List ℂ), m.length = e0.length → m.zip ivs = (List.range e0.length).map (fun p => (m.getD p [], ivs.getD p [])) := by
      intro m hm
      refine List.ext_getElem (by simp [hm, hl]) (fun i h1 h2 => ?_)
      have hi : i < e0.length := by simpa using h2
      simp [List.getD_eq_getElem?_getD, hm ▸ hi, hl ▸ hi, hm, hl, hi]
    simp only [hz _ (he.length _), mapE_map]
    rw [hz e0 rfl, mapE_map] at h
    have hev : ∀ᶠ k in F, ∀ p ∈ List.range e0.length, Prefilter.call codMin codMax size ((e k).getD p []) (rows (b k)) =
        Prefilter.call codMin codMax size (e0.getD p []) (rows b0) := by
      refine eventually_list (fun p hp => ?_)
      have hp' : p < e0.length := List.mem_range.1 hp
      obtain ⟨l, -, hl⟩ := mapE_ok_forall h p hp
      cases hv : Prefilter.value size (e0.getD p []) (rows b0) with
      | error x => simp only [Prefilter.call, hv, reduceCtorEq] at hl
      | ok vs =>
      have hm : e0.getD p [] ∈ e0 := by
        rw [List.getD_eq_getElem?_getD, List.getElem?_eq_getElem hp']; exact List.getElem_mem hp'
      have hrows : Tends F (fun k => rowsOf (fun j : Fin b0.length => (b k).getD j []) (width b0)) (rowsOf (fun j : Fin b0.length => b0.getD j []) (width b0)) :=
        Tends.over _ (fun n _ => tendsto_pi_nhds.2 (fun j => hb.entry j n))
      have hr0 : rows b0 = rowsOf (fun j : Fin b0.length => b0.getD j []) (width b0) := by
        rw [rows]
        congr 1
        funext j
        simp [cols]
      have := call_stable (codMin := codMin) (codMax := codMax) (he.row p) hrows (fun k => ⟨he.lengths k p, by simp [rowsOf]⟩) (hr0 ▸ hv) (hoff _ hm vs hv)
      filter_upwards [this] with k hk
      rw [call_rows _ _ (hb.length k), hb.same_width, hk, hr0]
    filter_upwards [hev] with k hk
    rw [← h]
    refine mapE_same_on (fun p hp => ?_)
    simp only [hk p hp]

theorem prefilter_length {α β : Type} {outputs : List α} {inputs : β} {pre : Option (α → β → Except Err (List ℕ))} {iv : InvArg} {inv : List (List ℕ)}
    (h : Prefilter.applyPrefilter outputs inputs pre iv = .ok inv) : inv.length = outputs.length := by
  unfold Prefilter.applyPrefilter at h
  cases hn : iv.norm outputs.length with
  | error x => rw [hn] at h; simp at h
  | ok ivs =>
  rw [hn] at h
  simp only at h
  split_ifs at h with hl
  rw [ne_eq, not_not] at hl
  cases pre with
  | none =>
    simp only [Except.ok.injEq] at h
    rw [← h, hl]
  | some f =>
    have := mapE_length h
    simp [hl] at this
    exact this

theorem clearStage_at {o : MEst.Opts} {ws : Weights σ} {pre : Option Pre} {e b : List (List ℂ)} {iv : InvArg} (h : ClearStage o ws pre e b iv) {N : ℕ}
    (hN : ∀ c ∈ e, c.length = N) {inv : List (List ℕ)} (hi : Prefilter.applyPrefilter e (rows b) (pre.map (fun p => p b.length)) iv = .ok inv) :
    ∀ p < e.length, ∀ heap, ClearChain o (ws.at b.length) (e.getD p []) (rowsOf (cols b) N) none (invalidOf (.each inv) p) heap := by
  intro p hp heap
  have hl := prefilter_length hi
  have he : e[p]? = some (e.getD p []) := by rw [List.getD_eq_getElem?_getD, List.getElem?_eq_getElem hp]; rfl
  have h1 := h.2 inv hi p (e.getD p []) (invalidOf (.each inv) p) he (by
    simp only [invalidOf]
    rw [List.getElem?_eq_getElem (by omega)]
    rfl) heap
  rwa [hN _ (List.mem_of_getElem? he)] at h1

/-- The estimation of `impedance` on coefficients which tend to others. -/
theorem secondStage_stable {o : Impedance.Opts σ} (hws : ∀ i wf, some (i, wf) ∈ o.weights → ∀ q, 0 < q → Stable F (wf q))
    (hr : o.realPb = false) {e be : ι → List (List ℂ)} {e0 be0 : List (List ℂ)} (he : LTends F e e0) (hb : LTends F be be0)
    {wins : List ((ℚ × ℚ) × ℕ × ℕ × ℕ)} {iv : InvArg} {T : ι → List (List (Option ℂ))} {T0 : List (List (Option ℂ))} {failed : ι → Result} {failed0 r0 : Result}
    {heap : ι → ℕ → σ} {heap0 heap1 : ℕ → σ} (h : secondStage o wins e0 be0 iv T0 failed0 heap0 = (.ok r0, heap1)) (hf : r0.impedance ≠ failed0.impedance)
    (hne : e0 ≠ []) {N : ℕ} (hN : ∀ c ∈ e0, c.length = N) (hclear : ClearStage o.mest o.weights o.prefilter e0 be0 iv) {ε : ℝ} (hε : 0 < ε) :
    ∃ (Z : ι → List (List ℂ)) (Z0 : List (List ℂ)), LTends F Z Z0 ∧ r0.impedance = Z0.map (List.map some) ∧
      ∀ᶠ k in F, ∃ r, (secondStage o wins (e k) (be k) iv (T k) (failed k) (heap k)).1 = .ok r ∧ r.impedance = (Z k).map (List.map some) ∧
        r.invalidTime = r0.invalidTime ∧ r.transferMag = T k ∧ WithinNumbers ε r.error r0.error := by
  have hq : o.realPb = false := hr
  unfold secondStage at h
  cases hpre : Prefilter.applyPrefilter e0 (rows be0) (o.prefilter.map (fun p => p be0.length)) iv with
  | error x => rw [hpre] at h; simp at h
  | ok inv =>
  rw [hpre] at h
  simp only at h
  have hpre' := prefilter_stable he hb hclear.1 hpre
  rw [hq] at h
  cases hest : estimate false o.weights o.mest e0 be0 inv heap0 with
  | mk x s =>
  rw [hest] at h
  cases x with
  | error x =>
    simp only at h
    split_ifs at h
    · simp only [Prod.mk.injEq, Except.ok.injEq] at h
      exact absurd (by rw [← h.1]) hf
    · simp at h
  | ok x =>
  obtain ⟨z0, iv0⟩ := x
  simp only at h
  cases herr : transferError e0 (cols be0) z0 iv0 with
  | error x => rw [herr] at h; simp at h
  | ok E0 =>
  rw [herr] at h
  simp only [Prod.mk.injEq, Except.ok.injEq] at h
  obtain ⟨hr0, -⟩ := h
  obtain ⟨Z, hZ, hev⟩ := estimate_stable hws he hb (heap := heap) hest (by rw [headLen_of hne hN]; exact clearStage_at hclear hN hpre)
  obtain ⟨hc1, hc2⟩ := (error_cols e0 be0 rfl z0 iv0).1 ⟨E0, herr⟩
  have hrows : Tends F (fun k => rowsOf (fun j : Fin be0.length => (be k).getD j []) (headLen (e0.map List.length)))
      (rowsOf (fun j : Fin be0.length => be0.getD j []) (headLen (e0.map List.length))) :=
    Tends.over _ (fun n _ => tendsto_pi_nhds.2 (fun j => hb.entry j n))
  have hdet : ∀ᶠ k in F, (gram (rowsOf (fun j : Fin be0.length => (be k).getD j []) (headLen (e0.map List.length))) none).det ≠ 0 := by
    have hG : Tendsto (fun k => gram (rowsOf (fun j : Fin be0.length => (be k).getD j []) (headLen (e0.map List.length))) none) F
        (𝓝 (gram (rowsOf (fun j : Fin be0.length => be0.getD j []) (headLen (e0.map List.length))) none)) := by
      refine tendsto_pi_nhds.2 (fun j => tendsto_pi_nhds.2 (fun l => ?_))
      exact (hrows.zipWith hrows (f := fun r v => star (r j) * v l) (by fun_prop)).sum
    exact (((continuous_id.matrix_det).tendsto _).comp hG).eventually_ne hc2
  have herrs : ∀ᶠ k in F, ∀ i : Fin e0.length, ∀ n : Fin iv0.length, ∀ j : Fin be0.length, ∀ a0,
      errorRow (rowsOf (fun j : Fin be0.length => be0.getD j []) (headLen (e0.map List.length))) (e0.getD i [])
        (fun j => ((z0.map List.ofFn).getD i []).getD j 0) iv0[n].length j = .fin a0 →
      ∃ a, errorRow (rowsOf (fun j : Fin be0.length => (be k).getD j []) (headLen (e0.map List.length))) ((e k).getD i [])
        (fun j => ((Z k).getD i []).getD j 0) iv0[n].length j = .fin a ∧ |a - a0| < ε := by
    refine eventually_all.2 (fun i => eventually_all.2 (fun n => eventually_all.2 (fun j => ?_)))
    by_cases hex : ∃ a0, errorRow (rowsOf (fun j : Fin be0.length => be0.getD j []) (headLen (e0.map List.length))) (e0.getD i [])
        (fun j => ((z0.map List.ofFn).getD i []).getD j 0) iv0[n].length j = .fin a0
    · obtain ⟨a0, ha0⟩ := hex
      obtain ⟨v, hv, hk⟩ := errorRow_tends hrows (he.row i) (T := fun k (j : Fin be0.length) => ((Z k).getD i []).getD j 0)
        (tendsto_pi_nhds.2 (fun j => hZ.entry i j)) _ hc2 j ha0
      filter_upwards [hk, Metric.tendsto_nhds.1 hv ε hε] with k h1 h2 a1 ha1
      rw [ha0, Flt.fin.injEq] at ha1
      exact ⟨v k, h1, by rw [← ha1]; exact h2⟩
    · exact .of_forall (fun k a0 ha0 => absurd ⟨a0, ha0⟩ hex)
  refine ⟨Z, z0.map List.ofFn, hZ, ?_, ?_⟩
  · rw [← hr0]
    simp [List.map_map, Function.comp_def]
  filter_upwards [hev, hdet, hpre', herrs] with k hk hd hpre' herrs
  unfold secondStage
  rw [hq]
  simp only [hpre']
  revert hk
  cases estimate false o.weights o.mest (e k) (be k) inv (heap k) with
  | mk x s =>
  cases x with
  | error x => intro hk; simp [rowsOut] at hk
  | ok x =>
  obtain ⟨z, iv'⟩ := x
  intro hk
  simp only [rowsOut, Except.ok.injEq, Prod.mk.injEq] at hk
  obtain ⟨hk1, rfl⟩ := hk
  obtain ⟨E, hE⟩ := (error_cols (e k) (be k) (hb.length k) z iv').2 (by
    rw [he.shape, he.length]
    refine ⟨?_, hd⟩
    simpa only [hb.lengths] using hc1)
  simp only [hE]
  refine ⟨_, rfl, ?_, ?_, rfl, ?_⟩
  · rw [← hk1]
    simp [List.map_map, Function.comp_def]
  · rw [← hr0]
  · rw [← hr0]
    simp only
    rw [error_rows _ _ (hb.length k) _ _ hE, error_rows _ _ rfl _ _ herr, hk1, he.shape]
    refine List.forall₂_iff_get.2 ⟨by simp [he.length, hZ.length], fun i h1 h2 => ?_⟩
    simp only [List.length_map, List.length_zip, he.length, hZ.length, lt_min_iff] at h1
    simp only [List.get_eq_getElem, List.getElem_map, List.getElem_zip]
    refine List.forall₂_iff_get.2 ⟨by simp, fun j h3 h4 => ?_⟩
    have hj : j < be0.length := by simpa using h4
    have key := herrs ⟨i, h1.1⟩ ⟨i, h1.2.2⟩ ⟨j, hj⟩
    have e1 : (e k).getD i [] = (e k)[i]'(by rw [he.length]; exact h1.1) := by
      rw [List.getD_eq_getElem?_getD, List.getElem?_eq_getElem (by rw [he.length]; exact h1.1)]; rfl
    have e2 : e0.getD i [] = e0[i]'h1.1 := by
      rw [List.getD_eq_getElem?_getD, List.getElem?_eq_getElem h1.1]; rfl
    have hz1 : i < (Z k).length := by rw [hZ.length]; simpa using h1.2.1
    have e3 : (Z k).getD i [] = (Z k)[i]'hz1 := by
      rw [List.getD_eq_getElem?_getD, List.getElem?_eq_getElem hz1]; rfl
    have hz2 : i < (z0.map List.ofFn).length := by simpa using h1.2.1
    have e4 : (z0.map List.ofFn).getD i [] = (z0.map List.ofFn)[i]'hz2 := by
      rw [List.getD_eq_getElem?_getD, List.getElem?_eq_getElem hz2]; rfl
    simp only [e1, e2, e3, e4] at key
    simpa using key

/-- `predict` with the rows of the transfer as lists. -/
noncomputable def predictRows (br : List (List ℂ)) (R : List (List ℂ)) : List (List ℂ) :=
  R.map (fun t => (List.range (width br)).map (fun n : ℕ => ∑ j ∈ Finset.range br.length, t.getD j 0 * (br.getD j []).getD n 0))

theorem predict_rows (br : List (List ℂ)) (T : List (Fin br.length → ℂ)) : predict br T = predictRows br (T.map List.ofFn) := by
  unfold predict predictRows
  rw [List.map_map]
  refine List.map_congr_left (fun t _ => List.map_congr_left (fun n _ => ?_))
  rw [Finset.sum_range]
  refine Finset.sum_congr rfl (fun j _ => ?_)
  simp [cols]

theorem LTends.predictRows {br R : ι → List (List ℂ)} {br0 R0 : List (List ℂ)} (hb : LTends F br br0) (hR : LTends F R R0) :
    LTends F (fun k => predictRows (br k) (R k)) (predictRows br0 R0) := by
  have hw : ∀ k, width (br k) = width br0 := by
    intro k
    have h1 := congrArg List.head? (hb.shape k)
    rw [List.head?_map, List.head?_map] at h1
    unfold width
    rw [h1]
  refine ⟨fun k => ?_, fun i n => ?_⟩
  · simp only [Props.predictRows, List.map_map, Function.comp_def, List.length_map, List.length_range, List.map_const', hw, hR.length]
  · have hval : ∀ (b r : List (List ℂ)), ((Props.predictRows b r).getD i []).getD n 0 =
        if i < r.length ∧ n < width b then ∑ j ∈ Finset.range b.length, (r.getD i []).getD j 0 * (b.getD j []).getD n 0 else 0 := by
      intro b r
      simp only [Props.predictRows, List.getD_eq_getElem?_getD, List.getElem?_map]
      by_cases hi : i < r.length
      · rw [List.getElem?_eq_getElem hi]
        by_cases hn : n < width b
        · simp [hi, hn]
        · simp [hi, hn]
      · rw [List.getElem?_eq_none (l := r) (by omega)]
        simp [hi]
    simp only [hval, hw, hR.length, hb.length]
    split_ifs
    · exact tendsto_finsetSum _ (fun j _ => (hR.entry i j).mul (hb.entry j n))
    · exact tendsto_const_nhds

theorem orWeights_eq (o : Impedance.Opts σ) : o.orWeights = firstWeights o := by
  unfold Impedance.Opts.orWeights firstWeights
  cases o.remoteWeights with
  | none => rfl
  | some l => cases l <;> rfl

theorem orPrefilter_eq (o : Impedance.Opts σ) : o.orPrefilter = firstPrefilter o := by
  unfold Impedance.Opts.orPrefilter firstPrefilter
  cases o.remotePrefilter <;> rfl

theorem firstStage_stable {o : Impedance.Opts σ} (hws : ∀ i wf, some (i, wf) ∈ firstWeights o → ∀ q, 0 < q → Stable F (wf q))
    (hr : o.realPb = false) {b br : ι → List (List ℂ)} {b0 br0 : List (List ℂ)} (hb : LTends F b b0) (hbr : LTends F br br0)
    {heap : ι → ℕ → σ} {heap0 heap1 : ℕ → σ} {T0 : List (Fin br0.length → ℂ)} {be0 : List (List ℂ)} {iv : List ℕ}
    (h : firstStage o b0 br0 heap0 = (.ok (some (T0, be0, iv)), heap1)) (hne : b0 ≠ []) {N : ℕ} (hN : ∀ c ∈ b0, c.length = N)
    (hclear : ClearStage o.mest (firstWeights o) (firstPrefilter o) b0 br0 .none) :
    ∃ R : ι → List (List ℂ), LTends F R (T0.map List.ofFn) ∧ be0 = predictRows br0 (T0.map List.ofFn) ∧
      ∀ᶠ k in F, ∃ T, (firstStage o (b k) (br k) (heap k)).1 = .ok (some (T, predictRows (br k) (R k), iv)) ∧ T.map List.ofFn = R k := by
  unfold firstStage at h
  rw [orPrefilter_eq, orWeights_eq, hr] at h
  cases hpre : Prefilter.applyPrefilter b0 (rows br0) ((firstPrefilter o).map (fun p => p br0.length)) .none with
  | error x => rw [hpre] at h; simp at h
  | ok inv =>
  rw [hpre] at h
  simp only at h
  have hpre' := prefilter_stable hb hbr hclear.1 hpre
  cases hest : estimate false (firstWeights o) o.mest b0 br0 inv heap0 with
  | mk x s =>
  rw [hest] at h
  cases x with
  | error x =>
    simp only at h
    split_ifs at h <;> simp at h
  | ok x =>
  obtain ⟨z0, iv0⟩ := x
  simp only [Prod.mk.injEq, Except.ok.injEq, Option.some.injEq] at h
  obtain ⟨⟨rfl, rfl, rfl⟩, -⟩ := h
  obtain ⟨R, hR, hev⟩ := estimate_stable hws hb hbr (heap := heap) hest (by rw [headLen_of hne hN]; exact clearStage_at hclear hN hpre)
  refine ⟨R, hR, predict_rows _ _, ?_⟩
  filter_upwards [hev, hpre'] with k hk hpre'
  unfold firstStage
  rw [orPrefilter_eq, orWeights_eq, hr]
  simp only [hpre']
  revert hk
  cases estimate false (firstWeights o) o.mest (b k) (br k) inv (heap k) with
  | mk x s =>
  cases x with
  | error x => intro hk; simp [rowsOut] at hk
  | ok x =>
  obtain ⟨z, iv'⟩ := x
  intro hk
  simp only [rowsOut, Except.ok.injEq, Prod.mk.injEq] at hk
  obtain ⟨hk1, rfl⟩ := hk
  exact ⟨z, by simp only [predict_rows, hk1], hk1⟩

theorem forms_tends (cal : κ → ℚ → Option ℂ) (freq nper overlap : ℚ) (win : Win) (i : ℕ) : ∀ (runs0 : List (Sync ℂ κ)) (runs : ι → List (Sync ℂ κ)),
    (∀ k, List.Forall₂ (SameClock cal freq) runs0 (runs k)) →
    (∀ m n : ℕ, Tendsto (fun k => ((runs k)[m]?).elim 0 (fun s => physical cal freq s i n)) F (𝓝 ((runs0[m]?).elim 0 (fun s => physical cal freq s i n)))) →
    (∀ k, ((runs k).flatMap (fun s => (runForms s.rate s.size freq nper overlap win).map (fun φ => φ (physical cal freq s i)))).length =
      (runs0.flatMap (fun s => (runForms s.rate s.size freq nper overlap win).map (fun φ => φ (physical cal freq s i)))).length) ∧
    ∀ n, Tendsto (fun k => ((runs k).flatMap (fun s => (runForms s.rate s.size freq nper overlap win).map (fun φ => φ (physical cal freq s i)))).getD n 0) F
      (𝓝 ((runs0.flatMap (fun s => (runForms s.rate s.size freq nper overlap win).map (fun φ => φ (physical cal freq s i)))).getD n 0))
  | [], runs, h, _ => by
    have : ∀ k, runs k = [] := fun k => List.forall₂_nil_left_iff.1 (h k)
    simp [this, tendsto_const_nhds]
  | s0 :: runs0, runs, h, hp => by
    have hex : ∀ k, ∃ s l, runs k = s :: l ∧ SameClock cal freq s0 s ∧ List.Forall₂ (SameClock cal freq) runs0 l := by
      intro k
      obtain ⟨s, l, h1, h2, h3⟩ := List.forall₂_cons_left_iff.1 (h k)
      exact ⟨s, l, h3, h1, h2⟩
    choose s l h1 h2 h3 using hex
    obtain ⟨ih1, ih2⟩ := forms_tends cal freq nper overlap win i runs0 l h3 (fun m n => by
      have := hp (m + 1) n
      simpa [h1] using this)
    have hs : ∀ n, Tendsto (fun k => physical cal freq (s k) i n) F (𝓝 (physical cal freq s0 i n)) := fun n => by
      have := hp 0 n
      simpa [h1] using this
    have hforms : ∀ k, runForms (s k).rate (s k).size freq nper overlap win = runForms s0.rate s0.size freq nper overlap win := fun k => by
      rw [(h2 k).rate, (h2 k).size]
    simp only [h1, List.flatMap_cons, hforms]
    refine ⟨fun k => by simp [ih1 k], fun n => ?_⟩
    by_cases hn : n < (runForms s0.rate s0.size freq nper overlap win).length
    · have hget : ∀ (x : ℕ → ℂ) (t : List ℂ), ((runForms s0.rate s0.size freq nper overlap win).map (fun φ => φ x) ++ t).getD n 0 =
          (runForms s0.rate s0.size freq nper overlap win)[n] x := by
        intro x t
        rw [List.getD_eq_getElem?_getD, List.getElem?_append_left (by simpa using hn), List.getElem?_map, List.getElem?_eq_getElem hn]
        rfl
      simp only [hget]
      have hmem := List.getElem_mem hn
      unfold runForms at hmem hn
      generalize hφ : (runForms s0.rate s0.size freq nper overlap win)[n] = φ
      have hm2 : φ ∈ runForms s0.rate s0.size freq nper overlap win := by rw [← hφ]; exact List.getElem_mem _
      unfold runForms at hm2
      split at hm2
      · simp at hm2
      · obtain ⟨m, -, rfl⟩ := List.mem_map.1 hm2
        exact tendsto_const_nhds.mul (tendsto_finsetSum _ (fun j _ => tendsto_const_nhds.mul (hs _)))
    · have hget : ∀ (x : ℕ → ℂ) (t : List ℂ), ((runForms s0.rate s0.size freq nper overlap win).map (fun φ => φ x) ++ t).getD n 0 =
          t.getD (n - (runForms s0.rate s0.size freq nper overlap win).length) 0 := by
        intro x t
        rw [List.getD_eq_getElem?_getD, List.getElem?_append_right (by simpa using hn), List.getD_eq_getElem?_getD, List.length_map]
      simp only [hget]
      exact ih2 _

/-- Sets of signals which tend to another one by their samples. -/
structure STends (F : Filter ι) (cal : κ → ℚ → Option ℂ) (freq : ℚ) (S : ι → SigSet ℂ κ) (S0 : SigSet ℂ κ) : Prop where
  tags : ∀ k, (S k).tags = S0.tags
  clock : ∀ k, List.Forall₂ (SameClock cal freq) S0.runs (S k).runs
  entry : ∀ i m n : ℕ, Tendsto (fun k => ((S k).runs[m]?).elim 0 (fun s => physical cal freq s i n)) F (𝓝 ((S0.runs[m]?).elim 0 (fun s => physical cal freq s i n)))

theorem coeffs_stable [One κ] {cal : κ → ℚ → Option ℂ} {freq : ℚ} {S : ι → SigSet ℂ κ} {S0 : SigSet ℂ κ} (h : STends F cal freq S S0)
    (hS : ∀ k, Reach (S k)) (hS0 : Reach S0) {nper overlap : ℚ} {win : Win} {co0 : List (List ℂ)} {w : List ℕ × List ℕ × List ℕ}
    (h0 : setCoeffs cal S0 freq nper overlap win = .ok (co0, w)) :
    ∃ co : ι → List (List ℂ), (∀ k, setCoeffs cal (S k) freq nper overlap win = .ok (co k, w) ∧ windows (S k) w = windows S0 w) ∧ LTends F co co0 := by
  have hex : ∀ k, ∃ co, (setCoeffs cal (S k) freq nper overlap win = .ok (co, w) ∧ windows (S k) w = windows S0 w) ∧ co.length = co0.length := by
    intro k
    obtain ⟨co, h1, h2, h3, -⟩ := setCoeffs_linked hS0 (hS k) (h.clock k) h0
    exact ⟨co, ⟨h1, h3⟩, h2⟩
  choose co h1 h2 using hex
  obtain ⟨-, hf0, -⟩ := setCoeffs_forms hS0 h0
  have hf : ∀ k, ∀ i < co0.length, (co k)[i]? = some ((forms (S k) freq nper overlap win).map (fun p => p.2 (physical cal freq p.1 i))) := fun k i hi =>
    (setCoeffs_forms (hS k) (h1 k).1).2.1 i (by rw [h2]; exact hi)
  have hform : ∀ (T : SigSet ℂ κ) i, (forms T freq nper overlap win).map (fun p => p.2 (physical cal freq p.1 i)) =
      T.runs.flatMap (fun s => (runForms s.rate s.size freq nper overlap win).map (fun φ => φ (physical cal freq s i))) := by
    intro T i
    simp only [forms, List.map_flatMap, List.map_map, Function.comp_def]
  refine ⟨co, h1, ⟨fun k => ?_, fun i n => ?_⟩⟩
  · refine List.ext_getElem? (fun i => ?_)
    rw [List.getElem?_map, List.getElem?_map]
    by_cases hi : i < co0.length
    · rw [hf k i hi, hf0 i hi, hform, hform]
      simp only [Option.map_some, Option.some.injEq]
      exact (forms_tends (F := F) cal freq nper overlap win i S0.runs (fun k => (S k).runs) h.clock (h.entry i)).1 k
    · rw [List.getElem?_eq_none (by rw [h2]; omega), List.getElem?_eq_none (by omega)]
  · by_cases hi : i < co0.length
    · simp only [List.getD_eq_getElem?_getD, hf _ i hi, hf0 i hi, hform, Option.getD_some]
      simpa only [List.getD_eq_getElem?_getD] using
        (forms_tends (F := F) cal freq nper overlap win i S0.runs (fun k => (S k).runs) h.clock (h.entry i)).2 n
    · have h3 : ∀ k, (co k).getD i [] = [] := fun k => by
        rw [List.getD_eq_getElem?_getD, List.getElem?_eq_none (by rw [h2]; omega)]; rfl
      have h4 : co0.getD i [] = [] := by rw [List.getD_eq_getElem?_getD, List.getElem?_eq_none (by omega)]; rfl
      simp only [h3, h4]
      exact tendsto_const_nhds

theorem LTends.picked {co : ι → List (List ℂ)} {co0 : List (List ℂ)} (h : LTends F co co0) (I : List ℕ) :
    LTends F (fun k => I.map (fun i => (co k).getD i [])) (I.map (fun i => co0.getD i [])) := by
  refine ⟨fun k => ?_, fun p n => ?_⟩
  · simp only [List.map_map, Function.comp_def, h.lengths]
  · simp only [List.getD_eq_getElem?_getD (l := List.map _ I), List.getElem?_map]
    cases I[p]? with
    | none => exact tendsto_const_nhds
    | some i => exact h.entry i n

theorem getD_close {δ : ℝ} (hδ : 0 ≤ δ) {l l0 : List ℂ} (h : List.Forall₂ (fun x x0 : ℂ => ‖x - x0‖ ≤ δ) l l0) (n : ℕ) :
    ‖l.getD n 0 - l0.getD n 0‖ ≤ δ := by
  induction h generalizing n with
  | nil => simpa using hδ
  | cons h _ ih =>
    cases n with
    | zero => simpa using h
    | succ n => simpa using ih n

theorem getD_rel {α β : Type} {r : α → β → Prop} {l : List α} {l0 : List β} (h : List.Forall₂ r l l0) {a : α} {b : β} (hab : r a b) (n : ℕ) :
    r (l.getD n a) (l0.getD n b) := by
  induction h generalizing n with
  | nil => simpa using hab
  | cons h _ ih =>
    cases n with
    | zero => simpa using h
    | succ n => simpa using ih n

theorem getElem?_rel {α β : Type} {r : α → β → Prop} {l : List α} {l0 : List β} (h : List.Forall₂ r l l0) (n : ℕ) :
    (l[n]? = none ∧ l0[n]? = none) ∨ ∃ a b, l[n]? = some a ∧ l0[n]? = some b ∧ r a b := by
  induction h generalizing n with
  | nil => left; simp
  | cons h _ ih =>
    cases n with
    | zero => right; exact ⟨_, _, by simp, by simp, h⟩
    | succ n => simpa using ih n

theorem perturbed_tends (cal : κ → ℚ → Option ℂ) (freq : ℚ) {δ : ι → ℝ} (hδ : ∀ k, 0 ≤ δ k) (hlim : Tendsto δ F (𝓝 0)) {S : ι → SigSet ℂ κ}
    {S0 : SigSet ℂ κ} (h : ∀ k, Perturbed (δ k) (S k) S0) : STends F cal freq S S0 := by
  refine ⟨fun k => (h k).1, fun k => ?_, fun i m n => ?_⟩
  · refine ((h k).2.flip).imp (fun s0 s hs => ?_)
    obtain ⟨h1, h2, h3, h4, h5⟩ := hs
    exact ⟨h1, h2, h3, h5.length_eq, by rw [h4]⟩
  · cases hm : S0.runs[m]? with
    | none =>
      have : ∀ k, (S k).runs[m]? = none := fun k => by
        rcases getElem?_rel (h k).2 m with h1 | ⟨a, b, h1, h2, -⟩
        · exact h1.1
        · rw [hm] at h2; simp at h2
      simp only [this, Option.elim]
      exact tendsto_const_nhds
    | some s0 =>
      have hex : ∀ k, ∃ s, (S k).runs[m]? = some s ∧ s.cals = s0.cals ∧ List.Forall₂ (List.Forall₂ (fun x x0 : ℂ => ‖x - x0‖ ≤ δ k)) s.data s0.data := fun k => by
        rcases getElem?_rel (h k).2 m with h1 | ⟨a, b, h1, h2, h3⟩
        · rw [hm] at h1; simp at h1
        · rw [hm] at h2
          obtain rfl := Option.some.inj h2
          exact ⟨a, h1, h3.2.2.2.1, h3.2.2.2.2⟩
      choose s h1 h2 h3 using hex
      simp only [h1, Option.elim, physical, h2]
      refine Tendsto.div_const ?_ _
      rw [tendsto_iff_norm_sub_tendsto_zero]
      exact squeeze_zero (fun k => norm_nonneg _) (fun k => getD_close (hδ k) (getD_rel (h3 k) List.Forall₂.nil i) n) hlim

theorem LTends.within {Z : ι → List (List ℂ)} {Z0 : List (List ℂ)} (h : LTends F Z Z0) {ε : ℝ} (hε : 0 < ε) :
    ∀ᶠ k in F, Within ε ((Z k).map (List.map some)) (Z0.map (List.map some)) := by
  have h1 : ∀ᶠ k in F, ∀ i : Fin Z0.length, ∀ n : Fin (Z0.getD i []).length, dist (((Z k).getD i []).getD n 0) ((Z0.getD i []).getD n 0) < ε :=
    eventually_all.2 (fun i => eventually_all.2 (fun n => Metric.tendsto_nhds.1 (h.entry i n) ε hε))
  filter_upwards [h1] with k hk
  have hl := h.length k
  refine List.forall₂_iff_get.2 ⟨by simpa using hl, fun i h2 h3 => ?_⟩
  have hi : i < Z0.length := by simpa using h3
  have hi' : i < (Z k).length := by omega
  have hll := h.lengths k i
  have e0 : Z0.getD i [] = Z0[i] := by simp [List.getD_eq_getElem?_getD, hi]
  have e1 : (Z k).getD i [] = (Z k)[i] := by simp [List.getD_eq_getElem?_getD, hi']
  rw [e0, e1] at hll
  refine List.forall₂_iff_get.2 ⟨by simpa using hll, fun n h4 h5 => ?_⟩
  have hn : n < Z0[i].length := by simpa using h5
  have hn' : n < (Z k)[i].length := by omega
  refine ⟨(Z k)[i][n], Z0[i][n], by simp, by simp, ?_⟩
  have := hk ⟨i, hi⟩ ⟨n, by simp only [e0]; exact hn⟩
  simpa [e0, e1, List.getD_eq_getElem?_getD, hn, hn', hi, hi', dist_eq_norm] using this

theorem number_not_nans {Z : List (List (Option ℂ))} (hZ : ∀ row ∈ Z, none ∉ row) {n m : ℕ} (hn : n ≠ 0) (hm : m ≠ 0) : Z ≠ nans n m := by
  rintro rfl
  exact hZ (List.replicate m none) (List.mem_replicate.2 ⟨hn, rfl⟩) (List.mem_replicate.2 ⟨hm, rfl⟩)

/-- What the stages have on recordings which tend to others. -/
theorem oneFreq_tends [One κ] {cal : κ → ℚ → Option ℂ} {freq : ℚ} {S : ι → SigSet ℂ κ} {S0 : SigSet ℂ κ} (h : STends F cal freq S S0)
    (hS : ∀ k, Reach (S k)) (hS0 : Reach S0) {o : Impedance.Opts σ} {E B : List ℕ} {R : Option (List ℕ)} (hc : Channels S0 o E B R)
    {heap0 heap1 : ℕ → σ} {r0 : Result} (h0 : oneFreq cal S0 freq o heap0 = (.ok r0, heap1)) (hnum : ∀ row ∈ r0.impedance, none ∉ row) :
    ∃ (co0 : List (List ℂ)) (w : List ℕ × List ℕ × List ℕ) (co : ι → List (List ℂ)), setCoeffs cal S0 freq o.nper o.overlap o.win = .ok (co0, w) ∧
      LTends F co co0 ∧
      (let pk (l : List (List ℂ)) (I : List ℕ) := I.map (fun i => l.getD i [])
       (∀ I, (I = E ∨ I = B ∨ some I = R) → Picked co0 I (pk co0 I) ∧ pk co0 I ≠ [] ∧ ∀ c ∈ pk co0 I, c.length = w.1.sum) ∧
       (∀ heap, oneFreq cal S0 freq o heap = stages o (windows S0 w) (pk co0 E) (pk co0 B) (R.map (pk co0)) heap) ∧
       ∀ k heap, oneFreq cal (S k) freq o heap = stages o (windows S0 w) (pk (co k) E) (pk (co k) B) (R.map (pk (co k))) heap) := by
  have hok := (reach_sinv hS0).ok
  cases hco : setCoeffs cal S0 freq o.nper o.overlap o.win with
  | error x =>
    rw [oneFreq_fourier hc hco] at h0
    simp only [Prod.mk.injEq, Except.ok.injEq] at h0
    obtain ⟨rfl, -⟩ := h0
    obtain ⟨-, hE, -⟩ := hok.tags _ _ hc.elec
    obtain ⟨-, hB, -⟩ := hok.tags _ _ hc.mag
    exact absurd rfl (number_not_nans hnum (by simpa using hB) (by simpa using hE))
  | ok x =>
  obtain ⟨co0, w⟩ := x
  obtain ⟨co, hk, hlim⟩ := coeffs_stable h hS hS0 hco
  have hck : ∀ k, Channels (S k) o E B R := fun k => ⟨by rw [h.tags]; exact hc.elec, by rw [h.tags]; exact hc.mag, by rw [h.tags]; exact hc.remote⟩
  have gen : ∀ (T : SigSet ℂ κ) (co : List (List ℂ)), Reach T → Channels T o E B R → setCoeffs cal T freq o.nper o.overlap o.win = .ok (co, w) →
      (∀ I, (I = E ∨ I = B ∨ some I = R) → Picked co I (I.map (fun i => co.getD i [])) ∧ I.map (fun i => co.getD i []) ≠ [] ∧
        ∀ c ∈ I.map (fun i => co.getD i []), c.length = w.1.sum) ∧
      ∀ heap, oneFreq cal T freq o heap = stages o (windows T w) (E.map (fun i => co.getD i [])) (B.map (fun i => co.getD i []))
        (R.map (fun I => I.map (fun i => co.getD i []))) heap := by
    intro T co hT hcT hcoT
    obtain ⟨e, b, br, p1, p2, p3, q1, q2, q3, q4⟩ := reach_chans hT hcT hcoT
    obtain rfl := (picked_eq p1).1
    obtain rfl := (picked_eq p2).1
    rcases p3 with ⟨rfl, rfl⟩ | ⟨r, l, rfl, rfl, p4, p5, p6⟩
    · refine ⟨?_, fun heap => oneFreq_stages hcT hcoT p1 p2 (.inl ⟨rfl, rfl⟩)⟩
      rintro I (rfl | rfl | h)
      · exact ⟨p1, q1, q3⟩
      · exact ⟨p2, q2, q4⟩
      · simp at h
    · obtain rfl := (picked_eq p4).1
      refine ⟨?_, fun heap => oneFreq_stages hcT hcoT p1 p2 (.inr ⟨_, _, rfl, rfl, p4⟩)⟩
      rintro I (rfl | rfl | h)
      · exact ⟨p1, q1, q3⟩
      · exact ⟨p2, q2, q4⟩
      · obtain rfl := Option.some.inj h
        exact ⟨p4, p5, p6⟩
  obtain ⟨g1, g2⟩ := gen S0 co0 hS0 hc hco
  refine ⟨co0, w, co, rfl, hlim, g1, g2, fun k heap => ?_⟩
  rw [(gen (S k) (co k) (hS k) (hck k) (hk k).1).2 heap, (hk k).2]

/-- The weights are weight objects of the library, with sensible parameters, functions supplied by the user, and least squares. -/
def UsualWeights (ws : Impedance.Weights Mem) : Prop :=
  ∀ i wf, some (i, wf) ∈ ws → (∃ w : Obj, UsualObj w ∧ ∀ q, wf q = w.call) ∨ UserWeight wf

theorem UsualWeights.stable {ws : Impedance.Weights Mem} (h : UsualWeights ws) : ∀ i wf, some (i, wf) ∈ ws → ∀ q, 0 < q → Stable F (wf q) := by
  intro i wf hi q hq
  rcases h i wf hi with ⟨w, hw, heq⟩ | hu
  · rw [heq q]
    exact stable_obj hq hw
  · exact userWeight_stable hu hq

theorem impedance_tends [One κ] {cal : κ → ℚ → Option ℂ} {freq : ℚ} {S : ι → SigSet ℂ κ} {S0 : SigSet ℂ κ} (h : STends F cal freq S S0)
    (hS : ∀ k, Reach (S k)) (hS0 : Reach S0) {o : Impedance.Opts Mem} (hw : UsualWeights o.weights) (hr : o.realPb = false)
    {E B : List ℕ} (hc : Channels S0 o E B none)
    {heap0 heap1 : ℕ → Mem} {r0 : Result} (h0 : oneFreq cal S0 freq o heap0 = (.ok r0, heap1)) (hnum : ∀ row ∈ r0.impedance, none ∉ row)
    (hclear : ∀ co w e b, setCoeffs cal S0 freq o.nper o.overlap o.win = .ok (co, w) → Picked co E e → Picked co B b →
      ClearStage o.mest o.weights o.prefilter e b .none)
    (heap : ι → ℕ → Mem) {ε : ℝ} (hε : 0 < ε) :
    ∀ᶠ k in F, ∃ r, (oneFreq cal (S k) freq o (heap k)).1 = .ok r ∧ Within ε r.impedance r0.impedance ∧ r.invalidTime = r0.invalidTime ∧
      WithinNumbers ε r.error r0.error := by
  obtain ⟨co0, w, co, hco, hlim, g1, g2, g3⟩ := oneFreq_tends h hS hS0 hc h0 hnum
  obtain ⟨pE, neE, lE⟩ := g1 E (.inl rfl)
  obtain ⟨pB, neB, lB⟩ := g1 B (.inr (.inl rfl))
  have h1 := h0
  rw [g2] at h1
  simp only [stages, Option.map_none] at h1
  obtain ⟨Z, Z0, hZ, hZ0, hev⟩ := secondStage_stable (heap := heap) (T := fun k => List.replicate (B.map (fun i => (co k).getD i [])).length [])
    (failed := fun k => failedResult (E.map (fun i => (co k).getD i [])) (B.map (fun i => (co k).getD i [])) 0)
    hw.stable hr (hlim.picked E) (hlim.picked B) h1
    (number_not_nans hnum (by simpa using neE) (by simpa using neB)) neE lE (hclear _ _ _ _ hco pE pB) hε
  filter_upwards [hev, hZ.within hε] with k hk hz
  obtain ⟨r, h2, h3, h4, -, h5⟩ := hk
  exact ⟨r, by rw [g3]; exact h2, by rw [h3, hZ0]; exact hz, h4, h5⟩

theorem remote_tends [One κ] {cal : κ → ℚ → Option ℂ} {freq : ℚ} {S : ι → SigSet ℂ κ} {S0 : SigSet ℂ κ} (h : STends F cal freq S S0)
    (hS : ∀ k, Reach (S k)) (hS0 : Reach S0) {o : Impedance.Opts Mem} (hw : UsualWeights o.weights) (hw1 : UsualWeights (firstWeights o))
    (hr : o.realPb = false)
    {E B R : List ℕ} (hc : Channels S0 o E B (some R))
    {heap0 heap1 : ℕ → Mem} {r0 : Result} (h0 : oneFreq cal S0 freq o heap0 = (.ok r0, heap1)) (hnum : ∀ row ∈ r0.impedance, none ∉ row)
    (hclear1 : ∀ co w b br, setCoeffs cal S0 freq o.nper o.overlap o.win = .ok (co, w) → Picked co B b → Picked co R br →
      ClearStage o.mest (firstWeights o) (firstPrefilter o) b br .none)
    (hclear2 : ∀ co w e b br, setCoeffs cal S0 freq o.nper o.overlap o.win = .ok (co, w) → Picked co E e → Picked co B b → Picked co R br →
      ∀ heap T be iv heap', firstStage o b br heap = (.ok (some (T, be, iv)), heap') →
      ClearStage o.mest o.weights o.prefilter e be (.each (List.replicate e.length iv)))
    (heap : ι → ℕ → Mem) {ε : ℝ} (hε : 0 < ε) :
    ∀ᶠ k in F, ∃ r, (oneFreq cal (S k) freq o (heap k)).1 = .ok r ∧ Within ε r.impedance r0.impedance ∧ r.invalidTime = r0.invalidTime ∧
      Within ε r.transferMag r0.transferMag ∧ WithinNumbers ε r.error r0.error := by
  obtain ⟨co0, w, co, hco, hlim, g1, g2, g3⟩ := oneFreq_tends h hS hS0 hc h0 hnum
  obtain ⟨pE, neE, lE⟩ := g1 E (.inl rfl)
  obtain ⟨pB, neB, lB⟩ := g1 B (.inr (.inl rfl))
  obtain ⟨pR, neR, lR⟩ := g1 R (.inr (.inr rfl))
  have h1 := h0
  rw [g2] at h1
  simp only [stages, Option.map_some] at h1
  cases hf : firstStage o (B.map (fun i => co0.getD i [])) (R.map (fun i => co0.getD i [])) heap0 with
  | mk x s =>
  rw [hf] at h1
  cases x with
  | error x => simp at h1
  | ok x =>
  cases x with
  | none =>
    simp only [Prod.mk.injEq, Except.ok.injEq] at h1
    obtain ⟨rfl, -⟩ := h1
    exact absurd rfl (number_not_nans hnum (by simpa using neE) (by simpa using neB))
  | some x =>
  obtain ⟨T0, be0, iv⟩ := x
  simp only at h1
  obtain ⟨Q, hQ, hbe, hev1⟩ := firstStage_stable (heap := heap) hw1.stable hr (hlim.picked B) (hlim.picked R) hf neB lB (hclear1 _ _ _ _ hco pB pR)
  subst hbe
  have hlen : ∀ k, (E.map (fun i => (co k).getD i [])).length = E.length := fun k => by simp
  have hlen0 : (E.map (fun i => co0.getD i [])).length = E.length := by simp
  obtain ⟨Z, Z0, hZ, hZ0, hev⟩ := secondStage_stable
    (heap := fun k => (firstStage o (B.map (fun i => (co k).getD i [])) (R.map (fun i => (co k).getD i [])) (heap k)).2) (T := fun k => (Q k).map (List.map some))
    (failed := fun k => failedResult (E.map (fun i => (co k).getD i [])) (B.map (fun i => (co k).getD i [])) (R.map (fun i => (co k).getD i [])).length)
    hw.stable hr (hlim.picked E) (LTends.predictRows (hlim.picked R) hQ) h1
    (number_not_nans hnum (by simpa using neE) (by simpa using neB)) neE lE (hclear2 _ _ _ _ _ hco pE pB pR _ _ _ _ _ hf) hε
  have hT0 : r0.transferMag = (T0.map List.ofFn).map (List.map some) := by
    unfold secondStage at h1
    revert h1
    split
    · simp
    · split
      · split_ifs
        · intro h1
          simp only [Prod.mk.injEq, Except.ok.injEq] at h1
          obtain ⟨rfl, -⟩ := h1
          exact absurd rfl (number_not_nans hnum (by simpa using neE) (by simpa using neB))
        · simp
      · simp only
        split
        · simp
        · intro h1
          simp only [Prod.mk.injEq, Except.ok.injEq] at h1
          obtain ⟨rfl, -⟩ := h1
          simp [List.map_map, Function.comp_def]
  filter_upwards [hev1, hev, hZ.within hε, hQ.within hε] with k hk1 hk hz hq
  obtain ⟨T, h2, h3⟩ := hk1
  obtain ⟨r, h4, h5, h6, h7, h8⟩ := hk
  refine ⟨r, ?_, by rw [h5, hZ0]; exact hz, h6, by rw [h7, hT0]; exact hq, h8⟩
  rw [g3]
  simp only [stages, Option.map_some]
  revert h2 h4
  cases firstStage o (B.map (fun i => (co k).getD i [])) (R.map (fun i => (co k).getD i [])) (heap k) with
  | mk x s =>
  intro h2 h4
  simp only at h2 h4
  subst h2
  simp only
  rw [← h3, hlen0] at h4
  rw [hlen]
  simpa [List.map_map, Function.comp_def, ← h3] using h4

/-- C128: without remote and real-valued problem, an impedance estimated with the weights and the prefilter of the library depends
continuously on the samples if no decision of the prefilter and of the estimation is a close call: small changes of the samples change it and
its errors by little, and reject the same windows. -/
theorem C128_impedance [One κ] (cal : κ → ℚ → Option ℂ) (freq : ℚ) (S0 : SigSet ℂ κ) (hS0 : Reach S0) (o : Impedance.Opts Mem)
    (hw : UsualWeights o.weights) (hr : o.realPb = false) (E B : List ℕ) (hc : Channels S0 o E B none)
    (heap0 heap1 : ℕ → Mem) (r0 : Result) (h0 : oneFreq cal S0 freq o heap0 = (.ok r0, heap1)) (hnum : ∀ row ∈ r0.impedance, none ∉ row)
    (hclear : ∀ co w e b, setCoeffs cal S0 freq o.nper o.overlap o.win = .ok (co, w) → Picked co E e → Picked co B b →
      ClearStage o.mest o.weights o.prefilter e b .none) (ε : ℝ) (hε : 0 < ε) :
    ∃ δ : ℝ, 0 < δ ∧ ∀ S, Reach S → Perturbed δ S S0 → ∀ heap, ∃ r, (oneFreq cal S freq o heap).1 = .ok r ∧
      Within ε r.impedance r0.impedance ∧ r.invalidTime = r0.invalidTime ∧ WithinNumbers ε r.error r0.error := by
  by_contra hcon
  push Not at hcon
  have hcon' : ∀ n : ℕ, ∃ S, Reach S ∧ Perturbed (1 / ((n : ℝ) + 1)) S S0 ∧ ∃ heap, ∀ r, (oneFreq cal S freq o heap).1 = .ok r →
      Within ε r.impedance r0.impedance → r.invalidTime = r0.invalidTime → ¬ WithinNumbers ε r.error r0.error := fun n => hcon _ (by positivity)
  choose S hS hpert heap hbad using hcon'
  have hev := impedance_tends (perturbed_tends cal freq (F := atTop) (fun n => by positivity) tendsto_one_div_add_atTop_nhds_zero_nat hpert)
    hS hS0 hw hr hc h0 hnum hclear heap hε
  obtain ⟨n, r, h1, h2, h3, h4⟩ := hev.exists
  exact hbad n r h1 h2 h3 h4

/-- C128: so do an impedance estimated with a remote and the transfer from the remote. -/
theorem C128_remote [One κ] (cal : κ → ℚ → Option ℂ) (freq : ℚ) (S0 : SigSet ℂ κ) (hS0 : Reach S0) (o : Impedance.Opts Mem)
    (hw : UsualWeights o.weights) (hw1 : UsualWeights (firstWeights o)) (hr : o.realPb = false)
    (E B R : List ℕ) (hc : Channels S0 o E B (some R))
    (heap0 heap1 : ℕ → Mem) (r0 : Result) (h0 : oneFreq cal S0 freq o heap0 = (.ok r0, heap1)) (hnum : ∀ row ∈ r0.impedance, none ∉ row)
    (hclear1 : ∀ co w b br, setCoeffs cal S0 freq o.nper o.overlap o.win = .ok (co, w) → Picked co B b → Picked co R br →
      ClearStage o.mest (firstWeights o) (firstPrefilter o) b br .none)
    (hclear2 : ∀ co w e b br, setCoeffs cal S0 freq o.nper o.overlap o.win = .ok (co, w) → Picked co E e → Picked co B b → Picked co R br →
      ∀ heap T be iv heap', firstStage o b br heap = (.ok (some (T, be, iv)), heap') →
      ClearStage o.mest o.weights o.prefilter e be (.each (List.replicate e.length iv))) (ε : ℝ) (hε : 0 < ε) :
    ∃ δ : ℝ, 0 < δ ∧ ∀ S, Reach S → Perturbed δ S S0 → ∀ heap, ∃ r, (oneFreq cal S freq o heap).1 = .ok r ∧
      Within ε r.impedance r0.impedance ∧ r.invalidTime = r0.invalidTime ∧ Within ε r.transferMag r0.transferMag ∧
      WithinNumbers ε r.error r0.error := by
  by_contra hcon
  push Not at hcon
  have hcon' : ∀ n : ℕ, ∃ S, Reach S ∧ Perturbed (1 / ((n : ℝ) + 1)) S S0 ∧ ∃ heap, ∀ r, (oneFreq cal S freq o heap).1 = .ok r →
      Within ε r.impedance r0.impedance → r.invalidTime = r0.invalidTime → Within ε r.transferMag r0.transferMag →
      ¬ WithinNumbers ε r.error r0.error := fun n => hcon _ (by positivity)
  choose S hS hpert heap hbad using hcon'
  have hev := remote_tends (perturbed_tends cal freq (F := atTop) (fun n => by positivity) tendsto_one_div_add_atTop_nhds_zero_nat hpert)
    hS hS0 hw hw1 hr hc h0 hnum hclear1 hclear2 heap hε
  obtain ⟨n, r, h1, h2, h3, h4, h5⟩ := hev.exists
  exact hbad n r h1 h2 h3 h4 h5

local instance instOneStable : One Unit := ⟨()⟩

/-- Least squares with remote, with memories of weight functions; the first stage has a filter by coefficients of determination, at least 1/2, in
blocks of 10 windows. -/
noncomputable def exOptsMem : Impedance.Opts Mem :=
  { weights := [none], nper := 1, overlap := 0, win := .none, remote := some "R", silentFail := false, keepInvalidTimes := true,
    remotePrefilter := some (fun _ => Prefilter.call (1 / 2) 1 10) }

/-- The coefficients of determination of an exact fit are 1. -/
theorem exTones_cod : Prefilter.value 10 [3 * exUnit 0, 3 * exUnit 1] (rows [[exUnit 0, exUnit 1]]) = .ok [.fin 1, .fin 1] := by
  have hrows : rows [[exUnit 0, exUnit 1]] = [fun _ => exUnit 0, fun _ => exUnit 1] := by
    simp only [rows, rowsOf, width, List.head?_cons, Option.map_some, Option.getD_some, List.length_cons, List.length_nil, Nat.zero_add,
      List.range_succ, List.range_zero, List.nil_append, List.map_append, List.map_cons, List.map_nil, List.cons_append]
    simp [cols]
  rw [hrows]
  set t : Block ℂ 1 := ⟨[3 * exUnit 0, 3 * exUnit 1], [fun _ => exUnit 0, fun _ => exUnit 1], .fin 1⟩ with ht
  have hobs : t.obs = [⟨1, 3 * exUnit 0, fun _ => exUnit 0⟩, ⟨1, 3 * exUnit 1, fun _ => exUnit 1⟩] := rfl
  have hres : ∀ o ∈ t.obs, o.x = dotProduct o.y (fun _ => 3) := by
    rw [hobs]
    simp [dotProduct, mul_comm]
  have hcod : IsCod t := by
    refine ⟨?_, fun _ => 3, ?_, .inr ⟨?_, ?_⟩⟩
    · rw [C44_independent _ (by simp [hobs])]
      intro d hd
      have := hd ⟨1, 3 * exUnit 0, fun _ => exUnit 0⟩ (by simp [hobs]) one_ne_zero
      funext j
      simpa [dotProduct, exUnit_ne, Subsingleton.elim j 0] using this
    · intro j
      refine List.sum_eq_zero (fun x hx => ?_)
      obtain ⟨o, ho, rfl⟩ := List.mem_map.1 hx
      rw [hres o ho]
      simp
    · have : 0 < ‖3 * exUnit 0‖ := norm_pos_iff.2 (mul_ne_zero (by norm_num) (exUnit_ne 0))
      simp only [Block.energy, ht, List.map_cons, List.map_nil, List.sum_cons, List.sum_nil]
      positivity
    · have : cost t.obs (fun _ => 3) = 0 := by
        refine List.sum_eq_zero (fun x hx => ?_)
        obtain ⟨o, ho, rfl⟩ := List.mem_map.1 hx
        rw [hres o ho]
        simp
      rw [this]
      simp [ht]
  exact C56_value 10 (by norm_num) _ _ [t] ⟨rfl, rfl, by simp [ht], by simp, ⟨t, rfl, by simp [ht], fun _ => rfl⟩⟩ (by simpa using hcod)

theorem exTones_call : Prefilter.call (1 / 2) 1 10 [3 * exUnit 0, 3 * exUnit 1] (rows [[exUnit 0, exUnit 1]]) = .ok [] := by
  unfold Prefilter.call
  rw [exTones_cod]
  simp [Prefilter.below, Prefilter.above]
  norm_num

theorem exTones_mem (heap : ℕ → Mem) : ∃ r heap1, oneFreq (fun _ _ => some 1) exTones (1 / 4) exOptsMem heap = (.ok r, heap1) ∧
    r.impedance = [[some 2]] ∧ r.transferMag = [[some 3]] := by
  obtain ⟨r, h1, h2, h3⟩ := exTones_result
  have hind : ∀ (a : ℂ), a ≠ 0 → ChansIndependent [[a * exUnit 0, a * exUnit 1]] 2 [] := by
    intro a ha t ht hn x hx
    match t, ht with
    | [y], _ =>
      have := hn 0 (by norm_num) (by simp)
      simp only [combine, List.zipWith_cons_cons, List.zipWith_nil_left, List.sum_cons, List.sum_nil, add_zero,
        List.getD_cons_zero, mul_eq_zero, ha, exUnit_ne, or_false] at this
      rw [List.mem_singleton.1 hx, this]
  have hind1 : ChansIndependent [[exUnit 0, exUnit 1]] 2 [] := by simpa using hind 1 one_ne_zero
  obtain ⟨r, h1, h2, h3⟩ := C62_remote_exact (fun _ _ => some 1) exTones exTones_reach (1 / 4) exOptsMem rfl rfl rfl [0] [1] [2]
    ⟨rfl, rfl, .inr ⟨"R", [2], rfl, by decide, rfl, rfl⟩⟩ _ _ exTones_coeffs [[6 * exUnit 0, 6 * exUnit 1]] [[3 * exUnit 0, 3 * exUnit 1]] [[exUnit 0, exUnit 1]]
    (.cons rfl .nil) (.cons rfl .nil) (.cons rfl .nil)
    [[]] (.cons exTones_call .nil) (by simp) [[3]] rfl (by simp) (by simpa using hind1)
    (by
      intro i y c l hy hc hl n hn _
      have hi := (List.getElem?_eq_some_iff.1 hy).1
      simp only [List.length_singleton, Nat.lt_one_iff] at hi
      subst hi
      simp only [List.getElem?_cons_zero, Option.some.injEq] at hy hc
      subst hy hc
      simp only [List.sum_cons, List.sum_nil, add_zero] at hn
      interval_cases n <;> simp [combine])
    [[]] (.cons rfl .nil) (by simp) [[2]] rfl (by simp) (by simpa using hind 3 (by norm_num))
    (by
      intro i y c l hy hc hl n hn _ _
      have hi := (List.getElem?_eq_some_iff.1 hy).1
      simp only [List.length_singleton, Nat.lt_one_iff] at hi
      subst hi
      simp only [List.getElem?_cons_zero, Option.some.injEq] at hy hc
      subst hy hc
      simp only [List.sum_cons, List.sum_nil, add_zero] at hn
      interval_cases n <;> simp [combine] <;> ring) heap
  exact ⟨r, _, h1, by simpa using h2, by simpa using h3⟩

theorem clear_none {q : ℕ} (o : MEst.Opts) (e : List ℂ) (b : List (Fin q → ℂ)) (inv : List ℕ) (heap : ℕ → Mem) :
    ClearChain o (Impedance.Weights.at [none] q) e b none inv heap := by
  intro ws1 i wf ws2 h
  have : (some (i, wf) : Option (ℕ × WFun Mem ℂ q)) ∈ Impedance.Weights.at [none] q := by rw [h]; simp
  simp [Impedance.Weights.at] at this

/-- The hypotheses of the remote version are met by the tones: whatever changes them by little changes the impedance 2 and the transfer 3 by
little. -/
example (ε : ℝ) (hε : 0 < ε) : ∃ δ : ℝ, 0 < δ ∧ ∀ S, Reach S → Perturbed δ S exTones → ∀ heap, ∃ r,
    (oneFreq (fun _ _ => some 1) S (1 / 4) exOptsMem heap).1 = .ok r ∧ Within ε r.impedance [[some 2]] ∧ Within ε r.transferMag [[some 3]] := by
  obtain ⟨r0, heap1, h0, h1, h2⟩ := exTones_mem (fun _ => (none, none))
  obtain ⟨δ, hδ, h⟩ := C128_remote (fun _ _ => some 1) (1 / 4) exTones exTones_reach exOptsMem (by intro i wf h; simp [exOptsMem] at h)
    (by intro i wf h; simp [exOptsMem, firstWeights] at h) rfl [0] [1] [2] ⟨rfl, rfl, .inr ⟨"R", [2], rfl, by decide, rfl, rfl⟩⟩ _ _ _ h0
    (by rw [h1]; simp) (by
      intro co w b br hco hb hbr
      have hco' := hco.symm.trans exTones_coeffs
      simp only [Except.ok.injEq, Prod.mk.injEq] at hco'
      obtain ⟨rfl, -⟩ := hco'
      obtain rfl := (picked_eq hb).1
      obtain rfl := (picked_eq hbr).1
      refine ⟨.inr ⟨1 / 2, 1, 10, rfl, ?_⟩, fun _ _ _ _ _ _ _ _ => clear_none _ _ _ _ _⟩
      intro c hc vs hvs x hx
      rw [List.mem_singleton.1 hc] at hvs
      have := hvs.symm.trans exTones_cod
      simp only [Except.ok.injEq] at this
      subst this
      refine ⟨1, by simpa using hx, by norm_num, by norm_num⟩)
    (fun _ _ _ _ _ _ _ _ _ _ _ _ _ _ _ => ⟨.inl rfl, fun _ _ _ _ _ _ _ _ => clear_none _ _ _ _ _⟩) ε hε
  refine ⟨δ, hδ, fun S hS hp heap => ?_⟩
  obtain ⟨r, h3, h4, -, h5, -⟩ := h S hS hp heap
  exact ⟨r, h3, h1 ▸ h4, h2 ▸ h5⟩

end Razorback.Props
