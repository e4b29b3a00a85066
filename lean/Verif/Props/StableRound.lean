/-
Property C129: robust estimations in floating point arithmetic tend to the exact ones.
-/
import Verif.Props.RoundBis
import Verif.Props.StableBis

namespace Razorback.Props
open Razorback Razorback.Spec Razorback.MEst Razorback.Weights Razorback.Approx Filter Topology

variable {𝕜 : Type} [RCLike 𝕜] {q : ℕ} {σ ι : Type} {F : Filter ι} {u : ι → ℝ}

theorem tends_fresid (hu0 : ∀ᶠ k in F, 0 ≤ u k) (hu : Tendsto u F (𝓝 0)) {e : ι → List 𝕜} {e0 : List 𝕜} (he : Tends F e e0) {b : ι → List (Fin q → 𝕜)}
    {b0 : List (Fin q → 𝕜)} (hb : Tends F b b0) (hl : e0.length = b0.length) {z : ι → Fin q → 𝕜} {z0 : Fin q → 𝕜} (hz : Tendsto z F (𝓝 z0)) {r : ι → List 𝕜}
    (h : ∀ᶠ k in F, FResid (u k) (e k) (b k) (z k) (r k)) : Tends F r (resid e0 b0 z0) := by
  refine ⟨?_, fun i x0 hx => ?_⟩
  · filter_upwards [h, he.1, hb.1] with k h1 h2 h3
    rw [← h1.2.length_eq, length_resid hl, List.length_zip]
    omega
  · have hi : i < e0.length := by
      have := (List.getElem?_eq_some_iff.1 hx).1
      rwa [length_resid hl] at this
    have hx0 : x0 = e0[i] - ∑ j, b0[i] j * z0 j := by
      simp only [resid, List.getElem?_zipWith, List.getElem?_eq_getElem hi, List.getElem?_eq_getElem (show i < b0.length by omega), Option.some.injEq] at hx
      exact hx.symm
    have h' : ∀ᶠ k in F, ∃ d, FDot (u k) (List.ofFn (((b k)[i]?).getD b0[i])) (List.ofFn (z k)) d ∧
        Near (u k) (((e k)[i]?).getD e0[i] - d) (((r k)[i]?).getD x0) := by
      filter_upwards [h, he.1, hb.1] with k h1 h2 h3
      have hr : (r k).length = e0.length := by rw [← h1.2.length_eq, List.length_zip]; omega
      have := h1.2.get (i := i) (by rw [List.length_zip]; omega) (by omega)
      simp only [List.get_eq_getElem, List.getElem_zip] at this
      rw [List.getElem?_eq_getElem (l := b k) (by omega), List.getElem?_eq_getElem (l := e k) (by omega), List.getElem?_eq_getElem (l := r k) (by omega)]
      exact this
    obtain ⟨d, hd⟩ := eventually_choose h'
    have hd1 := tendsto_fdot hu0 hu (x0 := List.ofFn b0[i]) (y0 := List.ofFn z0)
      (tends_ofFn (fun n => (tendsto_pi_nhds.1 (hb.2 i b0[i] (List.getElem?_eq_getElem _))) n))
      (tends_ofFn (fun n => (tendsto_pi_nhds.1 hz) n)) (hd.mono fun _ h => h.1)
    have hsum : (List.zipWith (· * ·) (List.ofFn b0[i]) (List.ofFn z0)).sum = ∑ j, b0[i] j * z0 j := by
      rw [← List.sum_ofFn]
      congr 1
      refine List.ext_getElem (by simp) (fun n h1 h2 => by simp)
    rw [hsum] at hd1
    rw [hx0] at *
    exact tendsto_near hu ((he.2 i e0[i] (List.getElem?_eq_getElem hi)).sub hd1) (hd.mono fun _ h => h.2)

theorem tendsto_fenergy (hu0 : ∀ᶠ k in F, 0 ≤ u k) (hu : Tendsto u F (𝓝 0)) {r : ι → List 𝕜} {r0 : List 𝕜} (hr : Tends F r r0) {ws : ι → List ℝ} {ws0 : List ℝ}
    (hw : Tends F ws ws0) {cur : ι → ℝ} (h : ∀ᶠ k in F, FEnergy (u k) (some ((ws k).map Flt.fin)) (r k) (cur k)) :
    Tendsto cur F (𝓝 (wresid (some (ws0.map Flt.fin)) r0)) := by
  have hreal : ∀ l : List ℝ, realWeights (some (l.map Flt.fin)) = some l := by
    intro l; simp [realWeights, Function.comp_def, Flt.val?]
  have h' : ∀ᶠ k in F, ∃ t : List 𝕜 × 𝕜, FDiag (u k) (some (ws k)) (r k) t.1 ∧ FDot (u k) ((r k).map star) t.1 t.2 ∧ Near (u k) ‖t.2‖ (cur k) := by
    filter_upwards [h] with k hk
    obtain ⟨rw, s, h1, h2, h3⟩ := hk
    rw [hreal] at h1
    exact ⟨(rw, s), h1, h2, h3⟩
  obtain ⟨t, ht⟩ := eventually_choose h'
  have h1 := tends_fdiag hu hr hw (ht.mono fun _ h => h.1)
  have h2 := tendsto_fdot hu0 hu (hr.map (f := fun _ x => star x) (f0 := star) (fun x0 _ x hx => hx.star)) h1 (ht.mono fun _ h => h.2.1)
  simp only [wresid, hreal]
  rw [List.zipWith_map_left] at h2
  exact tendsto_near hu h2.norm (ht.mono fun _ h => h.2.2)

/-- The decision to stop is the exact one, in the end. -/
theorem fconverged (hu0 : ∀ᶠ k in F, 0 ≤ u k) (hu : Tendsto u F (𝓝 0)) {tol : ℝ} {prev cur : ι → ℝ} {p0 c0 : ℝ} (hp : Tendsto prev F (𝓝 p0)) (hp0 : 0 ≤ p0)
    (hc : Tendsto cur F (𝓝 c0)) (hne : |c0 - p0| ≠ tol * p0) {stop : ι → Prop} (h : ∀ᶠ k in F, FConverged (u k) tol (some (prev k)) (cur k) (stop k)) :
    ∀ᶠ k in F, (stop k ↔ converged tol (some p0) c0 = true) := by
  have h' : ∀ᶠ k in F, ∃ t : ℝ × ℝ, Near (u k) (cur k - prev k) t.1 ∧ Near (u k) (t.1 / prev k) t.2 ∧ (stop k ↔ prev k ≠ 0 ∧ |t.2| < tol) := by
    filter_upwards [h] with k hk
    obtain ⟨d, t, hk⟩ := hk
    exact ⟨(d, t), hk⟩
  obtain ⟨t, ht⟩ := eventually_choose h'
  have hd : Tendsto (fun k => (t k).1) F (𝓝 (c0 - p0)) := tendsto_near hu (hc.sub hp) (ht.mono fun _ h => h.1)
  -- multiply by the previous energy
  have hT : Tendsto (fun k => if prev k = 0 then (t k).1 else (t k).2 * prev k) F (𝓝 (c0 - p0)) := by
    refine tendsto_near hu hd ?_
    filter_upwards [ht, hu0] with k h1 h2
    by_cases hk : prev k = 0
    · rw [if_pos hk]; exact Near.refl h2 _
    · rw [if_neg hk]
      have := h1.2.1.mul_right (prev k)
      rwa [div_mul_cancel₀ _ hk] at this
  rw [converged_lt hp0]
  have h1 := hT.abs
  have h2 := hp.abs.const_mul tol
  rw [abs_of_nonneg hp0] at h2
  have hiff : ∀ k, prev k ≠ 0 → (|(t k).2| < tol ↔ |(t k).2 * prev k| < tol * |prev k|) := by
    intro k hk
    rw [abs_mul, mul_lt_mul_iff_left₀ (abs_pos.2 hk)]
  rcases lt_or_gt_of_ne hne with hlt | hgt
  · filter_upwards [h1.eventually_lt h2 hlt, ht] with k h3 h4
    have hk : prev k ≠ 0 := by
      intro hk
      rw [hk, abs_zero, mul_zero tol] at h3
      exact absurd h3 (not_lt.2 (abs_nonneg _))
    rw [if_neg hk] at h3
    exact ⟨fun _ => hlt, fun _ => h4.2.2.2 ⟨hk, (hiff k hk).2 h3⟩⟩
  · filter_upwards [h2.eventually_lt h1 hgt, ht] with k h3 h4
    refine ⟨fun hs => ?_, fun hs => absurd hs (not_lt.2 hgt.le)⟩
    obtain ⟨hk, hlt⟩ := h4.2.2.1 hs
    rw [if_neg hk] at h3
    exact absurd ((hiff k hk).1 hlt) (not_lt.2 h3.le)

/-- One pass. -/
theorem fpass {wf : FW σ 𝕜 q} {R : (ι → σ) → σ → Prop} (hR : ∀ (e : ι → List 𝕜) (e0 : List 𝕜) (b : ι → List (Fin q → 𝕜)) b0, Tends F b b0 → e0.length = b0.length →
    ∀ (r : ι → List 𝕜) (z0 : Fin q → 𝕜), Tends F r (resid e0 b0 z0) → ∀ it inv eps (st : ι → σ) st0 p0, (it = 0 ∨ R st st0) →
      IsPass wf.exact e0 b0 eps it (resid e0 b0 z0) inv st0 p0 → ∀ (raw : ι → Option (List Flt)) (st1 : ι → σ),
      (∀ᶠ k in F, wf.fl (u k) (st k) it (mask (r k) inv) (e k) (b k) inv (raw k) (st1 k)) →
      ∃ (ws : ι → List ℝ) (ws0 : List ℝ) (st' : ι → σ), Tends F ws ws0 ∧ ws0.length = e0.length ∧ p0.w = some (ws0.map Flt.fin) ∧ R st' p0.st ∧
        ∀ᶠ k in F, st1 k = st' k ∧ ∃ w, raw k = some w ∧ zeroAt w inv = (ws k).map Flt.fin)
    (hu0 : ∀ᶠ k in F, 0 ≤ u k) (hu : Tendsto u F (𝓝 0)) {c : ℝ}
    {e : ι → List 𝕜} {e0 : List 𝕜} (he : Tends F e e0) {b : ι → List (Fin q → 𝕜)} {b0 : List (Fin q → 𝕜)} (hb : Tends F b b0) (hl : e0.length = b0.length)
    {r : ι → List 𝕜} {z0 : Fin q → 𝕜} (hr : Tends F r (resid e0 b0 z0)) {it : ℕ} {inv : List ℕ} {eps : ℝ} {st : ι → σ} {st0 : σ} {p0 : Pass σ 𝕜 q}
    (hst : it = 0 ∨ R st st0) (hp : IsPass wf.exact e0 b0 eps it (resid e0 b0 z0) inv st0 p0) (hoff : OffLimit eps p0)
    {w : ι → Option (List Flt)} {inv1 : ι → List ℕ} {st1 : ι → σ} {ζ : ι → Fin q → 𝕜} {r1 : ι → List 𝕜} {cur : ι → ℝ}
    (h1 : ∀ᶠ k in F, FEval (u k) wf it (r k) (e k) (b k) inv eps (st k) (w k) (inv1 k) (st1 k)) (h2 : ∀ᶠ k in F, FSolve (u k) c (e k) (b k) (w k) (ζ k))
    (h3 : ∀ᶠ k in F, FResid (u k) (e k) (b k) (ζ k) (r1 k)) (h4 : ∀ᶠ k in F, FEnergy (u k) (w k) (r1 k) (cur k)) :
    Tendsto ζ F (𝓝 p0.z) ∧ (∃ st', R st' p0.st ∧ ∀ᶠ k in F, st1 k = st' k) ∧ (∀ᶠ k in F, inv1 k = p0.rejected) ∧ Tends F r1 (resid e0 b0 p0.z) ∧
      Tendsto cur F (𝓝 (wresid p0.w (MEst.residual e0 b0 p0.z))) := by
  obtain ⟨raw, hraw⟩ := eventually_choose (h1.mono fun _ h => h.2)
  obtain ⟨ws2, ws0, st', ht2, hlen, hw0, hst', hev⟩ := hR e e0 b b0 hb hl r z0 hr it inv eps st st0 p0 hst hp raw st1 (hraw.mono fun _ h => h.1)
  obtain ⟨h5, h6⟩ := (isPass_iff hl (length_resid hl z0)).1 hp
  rw [hw0] at h6
  have hrej : p0.rejected = negligible eps (ws0.map Flt.fin) := by
    obtain ⟨shown, raw, -, -, -, hcase⟩ := hp.eval
    rcases hcase with ⟨-, h, -⟩ | ⟨w1, w, -, hw, -, -, -, hs, hm⟩
    · rw [hw0] at h; simp at h
    · rw [hw0] at hw
      injection hw with hw
      subst hw
      exact sorted_ext hs (negligible_sorted _ _) (fun i => (hm i).trans (mem_negligible _ _ _).symm)
  have hws2 : ∀ᶠ k in F, w k = some ((ws2 k).map Flt.fin) ∧ inv1 k = negligible eps ((ws2 k).map Flt.fin) := by
    filter_upwards [hraw, hev] with k g1 g2
    obtain ⟨-, w', g3, g4⟩ := g2
    rcases g1.2 with ⟨g, -⟩ | ⟨w1, g5, -, g6, g7⟩
    · rw [g3] at g; simp at g
    · rw [g3, Option.some.injEq] at g5
      rw [← g5, g4] at g6 g7
      exact ⟨g6, g7⟩
  have hζ : Tendsto ζ F (𝓝 p0.z) := by
    rw [wlse_fin (by omega)] at h6
    unfold solveLS at h6
    split at h6
    · simp at h6
    rename_i hd
    simp only [Except.ok.injEq] at h6
    rw [← h6]
    refine tendsto_fwlse (c := c) hu0 hu he hb (w := fun k => some (ws2 k)) (.inr ⟨ws2, ws0, rfl, fun _ => rfl, ht2⟩) hd ?_
    filter_upwards [h2, hws2] with k g1 g2
    rcases g1 with ⟨g, -⟩ | ⟨v, g, g3⟩
    · rw [g2.1] at g; simp at g
    · rw [g2.1, Option.some.injEq] at g
      have : ws2 k = v := List.map_injective_iff.2 (fun a b h => by simpa using h) g
      rw [this]; exact g3
  have hr1 := tends_fresid hu0 hu he hb hl hζ h3
  refine ⟨hζ, ⟨st', hst', hev.mono fun _ h => h.1⟩, ?_, hr1, ?_⟩
  · filter_upwards [hws2, tendsto_negligible ht2 (eps := eps) (fun v hv => hoff _ hw0 v (List.mem_map.2 ⟨v, hv, rfl⟩))] with k g1 g2
    rw [g1.2, g2, hrej]
  · rw [hw0]
    refine tendsto_fenergy hu0 hu hr1 ht2 ?_
    filter_upwards [h4, hws2] with k g1 g2
    rw [g2.1] at g1
    exact g1

theorem floop {wf : FW σ 𝕜 q} (hwf : FStable F u wf) (hu0 : ∀ᶠ k in F, 0 ≤ u k) (hu : Tendsto u F (𝓝 0)) {c : ℝ}
    {e : ι → List 𝕜} {e0 : List 𝕜} (he : Tends F e e0) {b : ι → List (Fin q → 𝕜)}
    {b0 : List (Fin q → 𝕜)} (hb : Tends F b b0) (hl : e0.length = b0.length) {r : ι → List 𝕜} {z0 : Fin q → 𝕜} (hr : Tends F r (resid e0 b0 z0))
    {inv : List ℕ} {o : MEst.Opts} {st : ι → σ} {st0 st' : σ} (hclear : NoCloseCall wf.exact e0 b0 o z0 inv st0) {z' : Fin q → 𝕜} {inv' : List ℕ}
    (h : MEst.loop wf.exact e0 b0 o o.maxit 0 (MEst.residual e0 b0 z0) inv none st0 = (.ok (z', inv'), st'))
    {res : ι → (Fin q → 𝕜) × List ℕ} {stF : ι → σ} (hF : ∀ᶠ k in F, FLoop (u k) c wf (e k) (b k) o o.maxit 0 (r k) inv none (st k) (res k) (stF k)) :
    Tendsto (fun k => (res k).1) F (𝓝 z') ∧ ∀ᶠ k in F, (res k).2 = inv' := by
  obtain ⟨R, hR⟩ := hwf
  have key : ∀ (n it : ℕ) (r : ι → List 𝕜) (z0 : Fin q → 𝕜), Tends F r (resid e0 b0 z0) → ∀ (inv : List ℕ) (prev : ι → Option ℝ) (prev0 : Option ℝ) (p? : Option (Pass σ 𝕜 q))
      (st : ι → σ) (st0 : σ), (it = 0 ∨ R st st0) →
      ((prev0 = none ∧ ∀ k, prev k = none) ∨ ∃ (c : ι → ℝ) (c0 : ℝ), prev0 = some c0 ∧ (∀ k, prev k = some (c k)) ∧ Tendsto c F (𝓝 c0)) →
      Remembers e0 b0 prev0 p? →
      (∀ ps, Passes wf.exact e0 b0 o.eps it (resid e0 b0 z0) inv st0 ps → (p?.toList ++ ps).dropLast.IsChain (fun p p' => ¬ SmallChange e0 b0 o.tol p p') →
        (∀ p ∈ ps, OffLimit o.eps p) ∧ (p?.toList ++ ps).IsChain (OffTolerance e0 b0 o.tol)) →
      MEst.loop wf.exact e0 b0 o n it (resid e0 b0 z0) inv prev0 st0 = (.ok (z', inv'), st') →
      (∀ᶠ k in F, FLoop (u k) c wf (e k) (b k) o n it (r k) inv (prev k) (st k) (res k) (stF k)) →
      Tendsto (fun k => (res k).1) F (𝓝 z') ∧ ∀ᶠ k in F, (res k).2 = inv' := by
    intro n
    induction n with
    | zero => intro it r z0 hr inv prev prev0 p? st st0 hst hprev hrem hcl h hF; simp [MEst.loop] at h
    | succ n ih =>
      intro it r z0 hr inv prev prev0 p? st st0 hst hprev hrem hcl h hF
      rw [MEst.loop] at h
      cases hev : evalWeight wf.exact it (resid e0 b0 z0) e0 b0 inv o.eps st0 with
      | mk rs st1 =>
      rw [hev] at h
      cases rs with
      | error x => simp at h
      | ok wi =>
      obtain ⟨w, inv1⟩ := wi
      simp only at h
      cases hls : wlse e0 b0 w with
      | error x => rw [hls] at h; simp at h
      | ok z1 =>
      rw [hls] at h
      simp only at h
      have hpass : IsPass wf.exact e0 b0 o.eps it (resid e0 b0 z0) inv st0 ⟨w, inv1, z1, st1⟩ := (isPass_iff hl (length_resid hl z0)).2 ⟨hev, hls⟩
      obtain ⟨ws1, hws1, -⟩ := hpass.weights
      have hone := hcl [⟨w, inv1, z1, st1⟩] (.cons hpass (.nil _ _ _ _)) (by cases p? <;> simp)
      have hoff : OffLimit o.eps (⟨w, inv1, z1, st1⟩ : Pass σ 𝕜 q) := hone.1 _ (by simp)
      have hF' : ∀ᶠ k in F, ∃ t : Option (List Flt) × List ℕ × σ × (Fin q → 𝕜) × List 𝕜 × ℝ × Prop,
          FEval (u k) wf it (r k) (e k) (b k) inv o.eps (st k) t.1 t.2.1 t.2.2.1 ∧ FSolve (u k) c (e k) (b k) t.1 t.2.2.2.1 ∧
          FResid (u k) (e k) (b k) t.2.2.2.1 t.2.2.2.2.1 ∧ FEnergy (u k) t.1 t.2.2.2.2.1 t.2.2.2.2.2.1 ∧
          FConverged (u k) o.tol (prev k) t.2.2.2.2.2.1 t.2.2.2.2.2.2 ∧
          ((t.2.2.2.2.2.2 ∧ res k = (t.2.2.2.1, t.2.1) ∧ stF k = t.2.2.1) ∨
            (¬ t.2.2.2.2.2.2 ∧ FLoop (u k) c wf (e k) (b k) o n (it + 1) t.2.2.2.2.1 t.2.1 (some t.2.2.2.2.2.1) t.2.2.1 (res k) (stF k))) := by
        filter_upwards [hF] with k hk
        obtain ⟨w, i, s, z, r, cur, stop, hk⟩ := hk
        exact ⟨(w, i, s, z, r, cur, stop), hk⟩
      haveI : Nonempty σ := ⟨st0⟩
      obtain ⟨t, ht⟩ := eventually_choose hF'
      obtain ⟨hζ, ⟨stk, hstk, hsteq⟩, hinv, hr1, hcur⟩ := fpass hR hu0 hu he hb hl hr hst hpass hoff (ht.mono fun _ h => h.1) (ht.mono fun _ h => h.2.1)
        (ht.mono fun _ h => h.2.2.1) (ht.mono fun _ h => h.2.2.2.1)
      simp only at hζ hstk hinv hr1 hcur
      -- the decision to stop
      have hdec : ∀ᶠ k in F, ((t k).2.2.2.2.2.2 ↔ converged o.tol prev0 (wresid w (MEst.residual e0 b0 z1)) = true) := by
        rcases hprev with ⟨h0, hk⟩ | ⟨c1, c0, h0, hk, hc⟩
        · filter_upwards [ht] with k g
          have := g.2.2.2.2.1
          rw [hk] at this
          rw [h0]
          exact ⟨fun h => absurd h this, fun h => by simp [converged] at h⟩
        · cases p? with
          | none => rw [show prev0 = none from hrem] at h0; simp at h0
          | some p =>
            obtain ⟨hr1', hr2⟩ := hrem
            have hc0 : c0 = wresid p.w (MEst.residual e0 b0 p.z) := by rw [hr1'] at h0; simpa using h0.symm
            have hne := (List.isChain_cons_cons.1 hone.2).1 c0 (wresid w (MEst.residual e0 b0 z1)) (by rw [hc0]; exact energyIs_wresid hl hr2)
              (energyIs_wresid hl ⟨ws1, hws1⟩)
            have hc0n : 0 ≤ c0 := by rw [hc0]; exact wresid_nonneg _ _
            rw [h0]
            refine fconverged hu0 hu hc hc0n hcur hne ?_
            filter_upwards [ht] with k g
            have := g.2.2.2.2.1
            rwa [hk] at this
      by_cases hconv : converged o.tol prev0 (wresid w (MEst.residual e0 b0 z1)) = true
      · rw [if_pos hconv] at h
        simp only [Prod.mk.injEq, Except.ok.injEq] at h
        have hres : ∀ᶠ k in F, res k = ((t k).2.2.2.1, (t k).2.1) := by
          filter_upwards [ht, hdec] with k g1 g2
          rcases g1.2.2.2.2.2 with ⟨-, g, -⟩ | ⟨g, -⟩
          · exact g
          · exact absurd (g2.2 hconv) g
        rw [← h.1.1, ← h.1.2]
        refine ⟨hζ.congr' (hres.mono fun k g => by simp only [g]), ?_⟩
        filter_upwards [hres, hinv] with k g1 g2
        rw [g1, g2]
      · rw [if_neg hconv] at h
        have hcl' : ∀ ps, Passes wf.exact e0 b0 o.eps (it + 1) (resid e0 b0 z1) inv1 st1 ps →
            ((⟨w, inv1, z1, st1⟩ : Pass σ 𝕜 q) :: ps).dropLast.IsChain (fun p p' => ¬ SmallChange e0 b0 o.tol p p') →
            (∀ p ∈ ps, OffLimit o.eps p) ∧ ((⟨w, inv1, z1, st1⟩ : Pass σ 𝕜 q) :: ps).IsChain (OffTolerance e0 b0 o.tol) := by
          intro ps hps hch
          have := hcl (⟨w, inv1, z1, st1⟩ :: ps) (.cons hpass hps) (by
            cases p? with
            | none => exact hch
            | some p =>
              rw [Option.toList_some, List.singleton_append, List.dropLast_cons_of_ne_nil (by simp)]
              cases ps with
              | nil => simp
              | cons p' ps =>
                rw [List.dropLast_cons_of_ne_nil (by simp)] at hch ⊢
                refine List.isChain_cons_cons.2 ⟨fun hs => hconv ?_, hch⟩
                obtain ⟨hr1, wsp, hr2⟩ := hrem
                rw [hr1]
                exact (converged_iff (p' := ⟨w, inv1, z1, st1⟩) hl hr2 hws1).2 hs)
          refine ⟨fun p hp => this.1 p (List.mem_cons_of_mem _ hp), ?_⟩
          cases p? with
          | none => exact this.2
          | some p => exact (List.isChain_cons_cons.1 this.2).2
        refine ih (it + 1) (fun k => (t k).2.2.2.2.1) z1 hr1 inv1 (fun k => some (t k).2.2.2.2.2.1) _ (some ⟨w, inv1, z1, st1⟩) stk st1
          (.inr hstk) (.inr ⟨_, _, rfl, fun _ => rfl, hcur⟩) ⟨rfl, ws1, hws1⟩ hcl' h ?_
        filter_upwards [ht, hdec, hinv, hsteq] with k g1 g2 g3 g4
        rcases g1.2.2.2.2.2 with ⟨g, -⟩ | ⟨-, g⟩
        · exact absurd (g2.1 g) hconv
        · rw [g3, g4] at g
          exact g
  exact key o.maxit 0 r z0 hr inv (fun _ => none) none none st st0 (.inl rfl) (.inl ⟨rfl, fun _ => rfl⟩) rfl (fun ps h1 h2 => hclear ps h1 h2) h hF

theorem without_length {α β : Type} {e : List α} {b : List β} (hl : e.length = b.length) (idx : List ℕ) : (without e idx).length = (without b idx).length := by
  have := without_map (fun _ => ()) e idx
  have h' := without_map (fun _ => ()) b idx
  have heq : e.map (fun _ => ()) = b.map (fun _ => ()) := by
    rw [List.map_const', List.map_const', hl]
  rw [heq, h'] at this
  have := congrArg List.length this
  simpa using this.symm

theorem fchain {o : MEst.Opts} {c : ℝ} (hu0 : ∀ᶠ k in F, 0 ≤ u k) (hu : Tendsto u F (𝓝 0)) : ∀ (ws : List (Option (ℕ × FW σ 𝕜 q))), (∀ i wf, some (i, wf) ∈ ws → FStable F u wf) →
    ∀ {e : ι → List 𝕜} {e0 : List 𝕜}, Tends F e e0 →
    ∀ {b : ι → List (Fin q → 𝕜)} {b0 : List (Fin q → 𝕜)}, Tends F b b0 → e0.length = b0.length → ∀ {z : ι → Option (Fin q → 𝕜)} {z0 : Option (Fin q → 𝕜)},
    ((z0 = none ∧ ∀ k, z k = none) ∨ ∃ (y : ι → Fin q → 𝕜) (y0 : Fin q → 𝕜), z0 = some y0 ∧ (∀ k, z k = some (y k)) ∧ Tendsto y F (𝓝 y0)) →
    ∀ {idx : List ℕ} {heap heapF : ι → ℕ → σ} {heap0 heap1 : ℕ → σ} {l0 : List ((Fin q → 𝕜) × List ℕ)}, ClearChain o (exactW ws) e0 b0 z0 idx heap0 →
    chainLoop o (exactW ws) e0 b0 z0 (some idx) heap0 = (.ok l0, heap1) → ∀ {l : ι → List ((Fin q → 𝕜) × List ℕ)},
    (∀ᶠ k in F, FChain (u k) c o ws (e k) (b k) (z k) (some idx) (heap k) (l k) (heapF k)) →
    Tends F (fun k => (l k).map Prod.fst) (l0.map Prod.fst) ∧ ∀ᶠ k in F, (l k).map Prod.snd = l0.map Prod.snd
  | [], _, e, e0, _, b, b0, _, _, z, z0, _, idx, heap, heapF, heap0, heap1, l0, _, h, l, hF => by
    rw [show exactW ([] : List (Option (ℕ × FW σ 𝕜 q))) = [] from rfl] at h
    simp only [chainLoop, Prod.mk.injEq, Except.ok.injEq] at h
    obtain rfl := h.1
    refine ⟨(Tends.const []).congr ?_, ?_⟩ <;> filter_upwards [hF] with k g <;> simp [FChain] at g <;> simp [g.1]
  | w :: ws, hws, e, e0, he, b, b0, hb, hl, z, z0, hz, idx, heap, heapF, heap0, heap1, l0, hcl, h, l, hF => by
    have hex : exactW (w :: ws) = w.map (fun p => (p.1, p.2.exact)) :: exactW ws := rfl
    rw [hex, chainLoop] at h
    cases h1 : eliminate e0 (some idx) with
    | error x => rw [h1] at h; simp at h
    | ok e1 =>
    rw [h1] at h
    simp only at h
    cases h2 : eliminate b0 (some idx) with
    | error x => rw [h2] at h; simp at h
    | ok b1 =>
    rw [h2] at h
    simp only at h
    obtain ⟨hin, rfl⟩ := eliminate_ok.1 h1
    obtain ⟨hin', rfl⟩ := eliminate_ok.1 h2
    by_cases hlen : (without e0 idx).length = 0
    · rw [if_pos hlen] at h; simp at h
    rw [if_neg hlen] at h
    have he' := he.without idx
    have hb' := hb.without idx
    have hl' := without_length hl idx
    -- the estimation with the first weight function
    cases hc : callEstimate (without e0 idx) (without b0 idx) z0 (w.map (fun p => (p.1, p.2.exact))) o heap0 with
    | mk res hp =>
    rw [hc] at h
    cases res with
    | error x => simp at h
    | ok zi =>
    obtain ⟨z1, ii⟩ := zi
    simp only at h
    cases hr : chainLoop o (exactW ws) (without e0 idx) (without b0 idx) (some z1) (some ii) hp with
    | mk res hp2 =>
    rw [hr] at h
    cases res with
    | error x => simp at h
    | ok l1 =>
    simp only [Prod.mk.injEq, Except.ok.injEq] at h
    obtain ⟨rfl, rfl⟩ := h
    have hF' : ∀ᶠ k in F, ∃ t : ((Fin q → 𝕜) × List ℕ) × (ℕ → σ) × List ((Fin q → 𝕜) × List ℕ),
        FCall (u k) c (without (e k) idx) (without (b k) idx) (z k) w o (heap k) t.1 t.2.1 ∧
        FChain (u k) c o ws (without (e k) idx) (without (b k) idx) (some t.1.1) (some t.1.2) t.2.1 t.2.2 (heapF k) ∧ l k = t.1 :: t.2.2 := by
      filter_upwards [hF] with k g
      obtain ⟨e1, b1, p, hp1, l1, g1, g2, -, g3, g4, g5⟩ := g
      obtain ⟨-, rfl⟩ := eliminate_ok.1 g1
      obtain ⟨-, rfl⟩ := eliminate_ok.1 g2
      exact ⟨(p, hp1, l1), g3, g4, g5⟩
    haveI : Nonempty (ℕ → σ) := ⟨heap0⟩
    obtain ⟨t, ht⟩ := eventually_choose hF'
    obtain ⟨hζ, hii⟩ : Tendsto (fun k => (t k).1.1) F (𝓝 z1) ∧ ∀ᶠ k in F, (t k).1.2 = ii := by
      cases w with
      | none =>
        simp only [Option.map_none, Option.map_some, callEstimate, mEstimate, List.any_nil, Bool.false_eq_true, if_false, List.length_nil, if_true, Prod.mk.injEq] at hc
        cases hw : wlse (without e0 idx) (without b0 idx) none with
        | error x => rw [hw] at hc; simp at hc
        | ok z2 =>
          rw [hw] at hc
          simp only [Except.ok.injEq, Prod.mk.injEq] at hc
          obtain ⟨⟨rfl, rfl⟩, -⟩ := hc
          have hw' : solveLS (without e0 idx) (without b0 idx) none = .ok z2 := hw
          unfold solveLS at hw'
          split at hw'
          · simp at hw'
          rename_i hd
          simp only [Except.ok.injEq] at hw'
          refine ⟨?_, ?_⟩
          · rw [← hw']
            refine tendsto_fwlse (c := c) hu0 hu he' hb' (w := fun _ => none) (.inl ⟨rfl, fun _ => rfl⟩) hd ?_
            filter_upwards [ht] with k g
            have := g.1.1.2.2.2
            simp only [List.length_nil, if_true] at this
            rcases this with ⟨-, g⟩ | ⟨v, g, -⟩
            · exact g
            · simp at g
          · filter_upwards [ht] with k g
            exact g.1.1.2.2.1
      | some p =>
        obtain ⟨i, wf⟩ := p
        simp only [Option.map_none, Option.map_some, callEstimate, Prod.mk.injEq] at hc
        rcases hz with ⟨rfl, hz⟩ | ⟨y, y0, rfl, hz, hy⟩
        · simp [mEstimate] at hc
        · simp only [mEstimate] at hc
          have hclear : NoCloseCall wf.exact (without e0 idx) (without b0 idx) o y0 [] (heap0 i) :=
            hcl [] i wf.exact (exactW ws) rfl [] rfl y0 rfl (heap0 i)
          cases hlp : MEst.loop wf.exact (without e0 idx) (without b0 idx) o o.maxit 0 (MEst.residual (without e0 idx) (without b0 idx) y0) [] none (heap0 i) with
          | mk r s =>
          rw [hlp] at hc
          simp only at hc
          rw [hc.1] at hlp
          have hg : ∀ᶠ k in F, ∃ v : σ × List 𝕜, FResid (u k) (without (e k) idx) (without (b k) idx) (y k) v.2 ∧
              FLoop (u k) c wf (without (e k) idx) (without (b k) idx) o o.maxit 0 v.2 [] none (heap k i) (t k).1 v.1 := by
            filter_upwards [ht] with k g
            obtain ⟨⟨st', ⟨y1, r, g1, g2, g3⟩, -⟩, -⟩ := g
            rw [hz, Option.some.injEq] at g1
            subst g1
            exact ⟨(st', r), g2, g3⟩
          haveI : Nonempty σ := ⟨s⟩
          obtain ⟨v, hv⟩ := eventually_choose hg
          exact floop (hws i wf (by simp)) hu0 hu he' hb' hl' (tends_fresid hu0 hu he' hb' hl' hy (hv.mono fun _ h => h.1)) (st := fun k => heap k i) hclear hlp
            (hv.mono fun _ h => h.2)
    have hcl' : ClearChain o (exactW ws) (without e0 idx) (without b0 idx) (some z1) ii hp := by
      intro ws1 i wf ws2 hs l hl1 y hy st
      have := hcl (w.map (fun p => (p.1, p.2.exact)) :: ws1) i wf ws2 (by rw [hex, hs]; rfl) ((z1, ii) :: l) (by
        rw [chainLoop, h1]
        simp only
        rw [h2]
        simp only
        rw [if_neg hlen, hc]
        simp only
        revert hl1
        cases chainLoop o ws1 (without e0 idx) (without b0 idx) (some z1) (some ii) hp with
        | mk r s => intro hl1; cases hl1; rfl) y (by
          rw [← hy]
          cases hl2 : l.getLast? with
          | none => rw [List.getLast?_eq_none_iff.1 hl2]; rfl
          | some p => simp [List.getLast?_cons, hl2]) st
      exact this
    obtain ⟨h3, h4⟩ := fchain (o := o) (c := c) hu0 hu ws (fun i wf hm => hws i wf (List.mem_cons_of_mem _ hm)) he' hb' hl' (z := fun k => some (t k).1.1)
      (.inr ⟨fun k => (t k).1.1, z1, rfl, fun _ => rfl, hζ⟩) (idx := ii) (heap := fun k => (t k).2.1) (heapF := heapF) hcl' hr (l := fun k => (t k).2.2) (by
        filter_upwards [ht, hii] with k g1 g2
        rw [← g2]
        exact g1.2.1)
    refine ⟨?_, ?_⟩
    · have hcons : Tends F (fun k => (t k).1.1 :: (t k).2.2.map Prod.fst) (z1 :: l1.map Prod.fst) := by
        refine ⟨?_, fun i x0 hx => ?_⟩
        · filter_upwards [h3.1] with k h6
          simpa using h6
        · cases i with
          | zero =>
            simp only [List.getElem?_cons_zero, Option.some.injEq] at hx
            subst hx
            simpa using hζ
          | succ i =>
            simp only [List.getElem?_cons_succ] at hx ⊢
            exact h3.2 i x0 hx
      refine hcons.congr ?_
      filter_upwards [ht] with k g
      rw [g.2.2]; rfl
    · filter_upwards [ht, hii, h4] with k g1 g2 g3
      rw [g1.2.2, List.map_cons, g2, g3]; rfl

theorem foutput {o : MEst.Opts} {c : ℝ} (hu0 : ∀ᶠ k in F, 0 ≤ u k) (hu : Tendsto u F (𝓝 0)) {ws : List (Option (ℕ × FW σ 𝕜 q))}
    (hws : ∀ i wf, some (i, wf) ∈ ws → FStable F u wf) {e : ι → List 𝕜} {e0 : List 𝕜} (he : Tends F e e0)
    {b : ι → List (Fin q → 𝕜)} {b0 : List (Fin q → 𝕜)} (hb : Tends F b b0) (hl : e0.length = b0.length) {z0 : Option (Fin q → 𝕜)} {idx : List ℕ}
    {heap heapF : ι → ℕ → σ} {heap0 heap1 : ℕ → σ} {a0 : Option (Fin q → 𝕜) × List ℕ} (hcl : ClearChain o (exactW ws) e0 b0 z0 idx heap0)
    (h : oneOutput o (exactW ws) b0 e0 z0 idx heap0 = (.ok a0, heap1)) {ε : ℝ} (hε : 0 < ε) {a : ι → Option (Fin q → 𝕜) × List ℕ}
    (hF : ∀ᶠ k in F, FOutput (u k) c o ws (b k) (e k) z0 idx (heap k) (a k) (heapF k)) :
    ∀ᶠ k in F, (a k).2 = a0.2 ∧ CloseTo ε (a k).1 a0.1 := by
  unfold oneOutput at h
  cases hc : chainLoop o (exactW ws) e0 b0 z0 (some idx) heap0 with
  | mk res hp =>
  rw [hc] at h
  cases res with
  | error x => simp at h
  | ok l0 =>
  simp only at h
  cases hm : mergeInvalid (idx :: l0.map Prod.snd) with
  | error x => rw [hm] at h; simp at h
  | ok m =>
  rw [hm] at h
  simp only [Prod.mk.injEq, Except.ok.injEq] at h
  obtain ⟨rfl, -⟩ := h
  obtain ⟨l, hl2⟩ := eventually_choose hF
  obtain ⟨h1, h2⟩ := fchain hu0 hu ws hws he hb hl (z := fun _ => z0) (z0 := z0) (by
    cases z0 with
    | none => exact .inl ⟨rfl, fun _ => rfl⟩
    | some y => exact .inr ⟨fun _ => y, y, rfl, fun _ => rfl, tendsto_const_nhds⟩) (heap := heap) hcl hc (hl2.mono fun _ h => h.1)
  filter_upwards [hl2, h2, near_of_tends h1 hε z0] with k g1 g2 g3
  obtain ⟨-, g4, g5⟩ := g1
  rw [g2, hm, Except.ok.injEq] at g4
  refine ⟨g4.symm, ?_⟩
  rw [g5]
  simp only [List.getLast?_map] at g3
  cases h6 : (l k).getLast? <;> cases h7 : l0.getLast? <;> simp only [h6, h7, Option.map_none, Option.map_some] at g3 ⊢ <;> exact g3

theorem foutputs {o : MEst.Opts} {c : ℝ} (hu0 : ∀ᶠ k in F, 0 ≤ u k) (hu : Tendsto u F (𝓝 0)) {ws : List (Option (ℕ × FW σ 𝕜 q))}
    (hws : ∀ i wf, some (i, wf) ∈ ws → FStable F u wf) {b : ι → List (Fin q → 𝕜)} {b0 : List (Fin q → 𝕜)} (hb : Tends F b b0) {ε : ℝ} (hε : 0 < ε) :
    ∀ (T : List ((ι → List 𝕜) × List 𝕜 × Option (Fin q → 𝕜) × List ℕ)), (∀ t ∈ T, Tends F t.1 t.2.1 ∧ t.2.1.length = b0.length ∧
      ∀ heap, ClearChain o (exactW ws) t.2.1 b0 t.2.2.1 t.2.2.2 heap) → ∀ {heap heapF : ι → ℕ → σ} {heap0 heap1 : ℕ → σ} {res0 : List (Option (Fin q → 𝕜) × List ℕ)},
      outputsLoop o (exactW ws) b0 (T.map (fun t => t.2)) heap0 = (.ok res0, heap1) → ∀ {res : ι → List (Option (Fin q → 𝕜) × List ℕ)},
      (∀ᶠ k in F, FOutputs (u k) c o ws (b k) (T.map (fun t => (t.1 k, t.2.2))) (heap k) (res k) (heapF k)) →
      ∀ᶠ k in F, List.Forall₂ (fun a a0 => a.2 = a0.2 ∧ CloseTo ε a.1 a0.1) (res k) res0
  | [], _, heap, heapF, heap0, heap1, res0, h, res, hF => by
    simp only [List.map_nil, outputsLoop, Prod.mk.injEq, Except.ok.injEq] at h
    obtain rfl := h.1
    filter_upwards [hF] with k g
    rw [g.1]
    exact .nil
  | (f, line, z0, idx) :: T, hT, heap, heapF, heap0, heap1, res0, h, res, hF => by
    rw [List.map_cons, outputsLoop] at h
    cases h1 : oneOutput o (exactW ws) b0 line z0 idx heap0 with
    | mk r hp =>
    simp only [h1] at h
    cases r with
    | error x => simp at h
    | ok a0 =>
    simp only at h
    cases h2 : outputsLoop o (exactW ws) b0 (T.map (fun t => t.2)) hp with
    | mk r hp2 =>
    simp only [h2] at h
    cases r with
    | error x => simp at h
    | ok res1 =>
    simp only [Prod.mk.injEq, Except.ok.injEq] at h
    obtain ⟨rfl, -⟩ := h
    obtain ⟨ht1, ht2, ht3⟩ := hT _ List.mem_cons_self
    have hF' : ∀ᶠ k in F, ∃ t : (Option (Fin q → 𝕜) × List ℕ) × List (Option (Fin q → 𝕜) × List ℕ) × (ℕ → σ),
        FOutput (u k) c o ws (b k) (f k) z0 idx (heap k) t.1 t.2.2 ∧
        FOutputs (u k) c o ws (b k) (T.map (fun t => (t.1 k, t.2.2))) t.2.2 t.2.1 (heapF k) ∧ res k = t.1 :: t.2.1 := by
      filter_upwards [hF] with k g
      obtain ⟨p, ps, hp, g⟩ := g
      exact ⟨(p, ps, hp), g⟩
    haveI : Nonempty (ℕ → σ) := ⟨heap0⟩
    obtain ⟨t, ht⟩ := eventually_choose hF'
    have k1 := foutput hu0 hu hws ht1 hb ht2 (heap := heap) (ht3 heap0) h1 hε (ht.mono fun _ h => h.1)
    have k2 := foutputs hu0 hu hws hb hε T (fun t ht => hT t (List.mem_cons_of_mem _ ht)) h2 (ht.mono fun _ h => h.2.1)
    filter_upwards [ht, k1, k2] with k g1 g2 g3
    rw [g1.2.2]
    exact .cons g2 g3

theorem small_of_eventually {D : Type} [PseudoMetricSpace D] {d0 : D} {P : ℝ → D → Prop} (h : ∀ᶠ t in 𝓝[≥] (0 : ℝ) ×ˢ 𝓝 d0, P t.1 t.2) :
    ∃ δ : ℝ, 0 < δ ∧ ∀ u, 0 ≤ u → u ≤ δ → ∀ d, dist d d0 ≤ δ → P u d := by
  obtain ⟨p1, h1, p2, h2, h3⟩ := eventually_prod_iff.1 h
  obtain ⟨δ1, hδ1, h4⟩ := (mem_nhdsGE_iff_exists_Ico_subset' (show (0 : ℝ) < 1 by norm_num)).1 h1
  obtain ⟨δ2, hδ2, h5⟩ := Metric.eventually_nhds_iff.1 h2
  have hδ1 : 0 < δ1 := hδ1
  refine ⟨min δ1 δ2 / 2, by positivity, fun u hu0 hu d hd => h3 (h4 ⟨hu0, ?_⟩) (h5 ?_)⟩
  · have := min_le_left δ1 δ2
    linarith
  · have := min_le_right δ1 δ2
    linarith

/-- Computations in floating point arithmetic on data close to given ones. -/
theorem small_of_tends {D K : Type} [PseudoMetricSpace D] {d0 : D} {A B : ℝ → D → K → Prop}
    (h : ∀ (ι : Type) (F : Filter ι) (u : ι → ℝ) (d : ι → D) (k : ι → K), (∀ᶠ i in F, 0 ≤ u i) → Tendsto u F (𝓝 0) → Tendsto d F (𝓝 d0) →
      (∀ᶠ i in F, A (u i) (d i) (k i)) → ∀ᶠ i in F, B (u i) (d i) (k i)) :
    ∃ δ : ℝ, 0 < δ ∧ ∀ u, 0 ≤ u → u ≤ δ → ∀ d, dist d d0 ≤ δ → ∀ k, A u d k → B u d k := by
  refine small_of_eventually (P := fun u d => ∀ k, A u d k → B u d k) ?_
  let F : Filter ((ℝ × D) × K) := (𝓝[≥] (0 : ℝ) ×ˢ 𝓝 d0) ×ˢ 𝓟 Set.univ
  have hp : Tendsto (fun i : (ℝ × D) × K => i.1) (F ⊓ 𝓟 {i | A i.1.1 i.1.2 i.2}) (𝓝[≥] (0 : ℝ) ×ˢ 𝓝 d0) := tendsto_fst.mono_left inf_le_left
  have h1 : Tendsto (fun i : (ℝ × D) × K => i.1.1) (F ⊓ 𝓟 {i | A i.1.1 i.1.2 i.2}) (𝓝[≥] (0 : ℝ)) := tendsto_fst.comp hp
  have h2 := h _ (F ⊓ 𝓟 {i | A i.1.1 i.1.2 i.2}) (fun i => i.1.1) (fun i => i.1.2) (fun i => i.2) (h1.eventually eventually_mem_nhdsWithin)
    (h1.mono_right nhdsWithin_le_nhds) (tendsto_snd.comp hp) (eventually_inf_principal.2 (.of_forall fun _ h => h))
  rw [eventually_inf_principal, eventually_prod_principal_iff] at h2
  filter_upwards [h2] with t h2 k hk
  exact h2 k (Set.mem_univ _) hk

/-- C129: an estimation with a weight object of the library, no decision of which is a close call.  Made in floating point arithmetic of enough precision,
on data close enough, it cannot but have the same invalid indices and nearly the same estimate, if it does not raise. -/
theorem C129_estimate {N : ℕ} (hq : 0 < q) (c : ℝ) {w : Obj} (hw : UsualObj w) (e : Fin N → 𝕜) (b : Fin N → Fin q → 𝕜) (z0 : Fin q → 𝕜) (inv : List ℕ)
    (o : MEst.Opts) (st st' : Mem) (z : Fin q → 𝕜) (inv' : List ℕ)
    (h : mEstimate (List.ofFn e) (List.ofFn b) (some z0) (some w.call) inv o st = (.ok (z, inv'), st'))
    (hclear : NoCloseCall w.call (List.ofFn e) (List.ofFn b) o z0 inv st) (ε : ℝ) (hε : 0 < ε) :
    ∃ δ : ℝ, 0 < δ ∧ ∀ u, 0 ≤ u → u ≤ δ → ∀ (e' : Fin N → 𝕜) (b' : Fin N → Fin q → 𝕜) (z0' : Fin q → 𝕜), (∀ n, ‖e' n - e n‖ ≤ δ) →
      (∀ n j, ‖b' n j - b n j‖ ≤ δ) → (∀ j, ‖z0' j - z0 j‖ ≤ δ) → ∀ s res s',
      FEstimate u c (List.ofFn e') (List.ofFn b') (some z0') (some (FW.obj c w)) inv o s res s' → res.2 = inv' ∧ ∀ j, ‖res.1 j - z j‖ < ε := by
  obtain ⟨δ, hδ, key⟩ := small_of_tends (D := (Fin N → 𝕜) × (Fin N → Fin q → 𝕜) × (Fin q → 𝕜)) (K := Mem × ((Fin q → 𝕜) × List ℕ) × Mem) (d0 := (e, b, z0))
    (A := fun u d k => FEstimate u c (List.ofFn d.1) (List.ofFn d.2.1) (some d.2.2) (some (FW.obj c w)) inv o k.1 k.2.1 k.2.2)
    (B := fun u d k => k.2.1.2 = inv' ∧ ∀ j, ‖k.2.1.1 j - z j‖ < ε) (by
      intro ι F u d k hu0 hu hd hA
      have he : Tends F (fun i => List.ofFn (d i).1) (List.ofFn e) :=
        tends_ofFn (fun n => (((continuous_apply n).comp continuous_fst).tendsto (e, b, z0)).comp hd)
      have hb : Tends F (fun i => List.ofFn (d i).2.1) (List.ofFn b) :=
        tends_ofFn (fun n => (((continuous_apply n).comp (continuous_fst.comp continuous_snd)).tendsto (e, b, z0)).comp hd)
      have hz : Tendsto (fun i => (d i).2.2) F (𝓝 z0) := ((continuous_snd.comp continuous_snd).tendsto (e, b, z0)).comp hd
      have hA' : ∀ᶠ i in F, ∃ r : List 𝕜, FResid (u i) (List.ofFn (d i).1) (List.ofFn (d i).2.1) (d i).2.2 r ∧
          FLoop (u i) c (FW.obj c w) (List.ofFn (d i).1) (List.ofFn (d i).2.1) o o.maxit 0 r inv none (k i).1 (k i).2.1 (k i).2.2 := by
        filter_upwards [hA] with i g
        obtain ⟨y, r, g1, g2, g3⟩ := g
        rw [Option.some.injEq] at g1
        subst g1
        exact ⟨r, g2, g3⟩
      obtain ⟨r, hr⟩ := eventually_choose hA'
      obtain ⟨h1, h2⟩ := floop (fstable_obj hq hu0 hu c hw) hu0 hu he hb (by simp) (tends_fresid hu0 hu he hb (by simp) hz (hr.mono fun _ h => h.1)) hclear h
        (hr.mono fun _ h => h.2)
      have h3 : ∀ᶠ i in F, ∀ j, dist ((k i).2.1.1 j) (z j) < ε := eventually_all.2 (fun j => Metric.tendsto_nhds.1 ((tendsto_pi_nhds.1 h1) j) ε hε)
      filter_upwards [h2, h3] with i g1 g2
      exact ⟨g1, fun j => by rw [← dist_eq_norm]; exact g2 j⟩)
  refine ⟨δ, hδ, fun u hu0 hu e' b' z0' h1 h2 h3 s res s' hF => key u hu0 hu (e', b', z0') ?_ (s, res, s') hF⟩
  simp only [Prod.dist_eq, max_le_iff, dist_pi_le_iff hδ.le]
  simp only [dist_eq_norm]
  exact ⟨h1, h2, h3⟩

theorem exactW_fweighting (c : ℝ) (l : List (Option Obj)) : exactW (fweighting c l : List (Option (ℕ × FW Mem 𝕜 q))) = weighting l := by
  simp only [exactW, fweighting, weighting, List.map_map]
  refine List.map_congr_left (fun p _ => ?_)
  simp only [Function.comp_apply, Option.map_map]
  rfl

theorem ftransfer_stable {P N : ℕ} (c : ℝ) {ws : List (Option (ℕ × FW σ 𝕜 q))} (hst : ∀ {ι : Type} (F : Filter ι) (u : ι → ℝ), (∀ᶠ k in F, 0 ≤ u k) → Tendsto u F (𝓝 0) → 0 < q →
      ∀ i wf, some (i, wf) ∈ ws → FStable F u wf) (outputs : Fin P → Fin N → 𝕜)
    (inputs : Fin q → Fin N → 𝕜) (init : Option (List (Fin q → 𝕜))) (inv : InvArg) (o : MEst.Opts) (heap heap' : ℕ → σ)
    (res : List (Option (Fin q → 𝕜) × List ℕ))
    (h : transferFunction (List.ofFn fun p => List.ofFn (outputs p)) (fun j => List.ofFn (inputs j)) (exactW ws)
      init inv o heap = (.ok res, heap'))
    (hclear : ∀ p heap, ClearChain o (exactW ws) (List.ofFn (outputs p)) (List.ofFn fun n j => inputs j n)
      (startOf init p) (invalidOf inv p) heap) (ε : ℝ) (hε : 0 < ε) :
    ∃ δ : ℝ, 0 < δ ∧ ∀ u, 0 ≤ u → u ≤ δ → ∀ (outputs' : Fin P → Fin N → 𝕜) (inputs' : Fin q → Fin N → 𝕜), (∀ p n, ‖outputs' p n - outputs p n‖ ≤ δ) →
      (∀ j n, ‖inputs' j n - inputs j n‖ ≤ δ) → ∀ (s : ℕ → σ) res' s',
      FTransfer u c (List.ofFn fun p => List.ofFn (outputs' p)) (fun j => List.ofFn (inputs' j)) ws init inv o s res' s' →
      List.Forall₂ (fun a' a => a'.2 = a.2 ∧ CloseTo ε a'.1 a.1) res' res := by
  have hrows : ∀ i : Fin q → Fin N → 𝕜, rowsOf (fun j => List.ofFn (i j)) N = List.ofFn fun n j => i j n := by
    intro i
    refine List.ext_getElem (by simp [rowsOf]) (fun n h1 h2 => ?_)
    have hn : n < N := by simpa using h2
    simp only [rowsOf, List.getElem_map, List.getElem_range, List.getElem_ofFn]
    funext j
    simp [List.getD_eq_getElem?_getD, List.getElem?_ofFn, hn]
  -- the shape of the exact computation
  obtain ⟨ivs, hn, hq0, hl1, hl2, hP, hout⟩ : ∃ ivs, inv.norm P = .ok ivs ∧ q ≠ 0 ∧ ivs.length = P ∧ (match init with
      | none => List.replicate P none
      | some l => l.map some).length = P ∧ P ≠ 0 ∧
      outputsLoop o (exactW ws) (List.ofFn fun n j => inputs j n) ((List.ofFn fun p => List.ofFn (outputs p)).zip ((match init with
        | none => List.replicate P none
        | some l => l.map some).zip ivs)) heap = (.ok res, heap') := by
    unfold transferFunction at h
    rw [List.length_ofFn] at h
    cases hn : inv.norm P with
    | error x => rw [hn] at h; simp at h
    | ok ivs =>
    rw [hn] at h
    simp only at h
    cases P with
    | zero => simp at h
    | succ P =>
    have hc : (List.ofFn fun p => List.ofFn (outputs p)) = List.ofFn (outputs 0) :: List.ofFn (fun p : Fin P => List.ofFn (outputs p.succ)) := List.ofFn_succ
    rw [hc] at h
    simp only at h
    rw [← hc] at h
    simp only [List.length_ofFn, hrows] at h
    split_ifs at h with g1 g2 g3
    · simp at h
    · simp at h
    · simp at h
    · refine ⟨ivs, rfl, fun g => g1 (.inl g), not_not.1 g2, ?_, by omega, ?_⟩
      · cases init <;> exact not_not.1 g3
      · rw [← h]; cases init <;> rfl
  have hini : ∀ p : Fin P, (match init with
      | none => List.replicate P none
      | some l => l.map some)[(p : ℕ)]? = some (startOf init p) := by
    intro p
    cases init with
    | none => simp only [List.getElem?_replicate, p.2, if_true]; rfl
    | some l =>
      have hlp : (p : ℕ) < l.length := by
        have : l.length = P := by simpa using hl2
        rw [this]; exact p.2
      simp [startOf, List.getElem?_eq_getElem hlp]
  have hz : ∀ d : Fin P → Fin N → 𝕜, (List.ofFn fun p => List.ofFn (d p)).zip ((match init with
      | none => List.replicate P none
      | some l => l.map some).zip ivs) = (List.finRange P).map (fun p => (List.ofFn (d p), startOf init p, invalidOf inv p)) := fun d =>
    zip_ofFn _ _ _ _ _ hl2 hl1 hini (norm_getElem hn hl1)
  rw [hz outputs] at hout
  obtain ⟨δ, hδ, key⟩ := small_of_tends (D := (Fin P → Fin N → 𝕜) × (Fin q → Fin N → 𝕜)) (K := (ℕ → σ) × List (Option (Fin q → 𝕜) × List ℕ) × (ℕ → σ))
    (d0 := (outputs, inputs))
    (A := fun u d k => FTransfer u c (List.ofFn fun p => List.ofFn (d.1 p)) (fun j => List.ofFn (d.2 j)) ws init inv o k.1 k.2.1 k.2.2)
    (B := fun u d k => List.Forall₂ (fun a' a => a'.2 = a.2 ∧ CloseTo ε a'.1 a.1) k.2.1 res) (by
      intro ι F u d k hu0 hu hd hA
      have hws := hst F u hu0 hu (Nat.pos_of_ne_zero hq0)
      have hb : Tends F (fun i => List.ofFn fun n j => (d i).2 j n) (List.ofFn fun n j => inputs j n) :=
        tends_ofFn (fun n => tendsto_pi_nhds.2 (fun j =>
          ((show Continuous fun d : (Fin P → Fin N → 𝕜) × (Fin q → Fin N → 𝕜) => d.2 j n by fun_prop).tendsto (outputs, inputs)).comp hd))
      refine foutputs (c := c) hu0 hu hws hb hε ((List.finRange P).map (fun p => ((fun i => List.ofFn ((d i).1 p)),
        List.ofFn (outputs p), startOf init p, invalidOf inv p))) (by
          intro t ht
          obtain ⟨p, -, rfl⟩ := List.mem_map.1 ht
          refine ⟨tends_ofFn (fun n => ((show Continuous fun d : (Fin P → Fin N → 𝕜) × (Fin q → Fin N → 𝕜) => d.1 p n by fun_prop).tendsto (outputs, inputs)).comp hd),
            by simp, fun heap => hclear p heap⟩) (heap := fun i => (k i).1) (heapF := fun i => (k i).2.2) (heap0 := heap) (heap1 := heap') (by
          rw [List.map_map]; exact hout) ?_
      filter_upwards [hA] with i g
      obtain ⟨ivs', y, rest, g1, g2, -, -, -, -, -, g3⟩ := g
      rw [List.length_ofFn] at g1 g3
      rw [hn, Except.ok.injEq] at g1
      subst g1
      have hy : y.length = N := by
        have : y ∈ List.ofFn fun p => List.ofFn ((d i).1 p) := by rw [g2]; simp
        obtain ⟨p, rfl⟩ := (List.mem_ofFn' _ _).1 this
        simp
      rw [hy, hrows] at g3
      rw [List.map_map]
      have := hz (d i).1
      rw [show (List.map ((fun t : (ι → List 𝕜) × List 𝕜 × Option (Fin q → 𝕜) × List ℕ => (t.1 i, t.2.2)) ∘ fun p =>
        ((fun i => List.ofFn ((d i).1 p)), List.ofFn (outputs p), startOf init p, invalidOf inv p)) (List.finRange P)) =
          (List.finRange P).map (fun p => (List.ofFn ((d i).1 p), startOf init p, invalidOf inv p)) from rfl, ← this]
      cases init <;> exact g3)
  refine ⟨δ, hδ, fun u hu0 hu o' i' h1 h2 s r s' hF => key u hu0 hu (o', i') ?_ (s, r, s') hF⟩
  simp only [Prod.dist_eq, max_le_iff, dist_pi_le_iff hδ.le]
  simp only [dist_eq_norm]
  exact ⟨h1, h2⟩

/-- C129: so is `transfer_function` with a chain of weight objects and least squares. -/
theorem C129_transfer {P N : ℕ} (c : ℝ) {ws : List (Option Obj)} (hw : ∀ w, some w ∈ ws → UsualObj w) (outputs : Fin P → Fin N → 𝕜)
    (inputs : Fin q → Fin N → 𝕜) (init : Option (List (Fin q → 𝕜))) (inv : InvArg) (o : MEst.Opts) (heap heap' : ℕ → Mem)
    (res : List (Option (Fin q → 𝕜) × List ℕ))
    (h : transferFunction (List.ofFn fun p => List.ofFn (outputs p)) (fun j => List.ofFn (inputs j)) (weighting ws)
      init inv o heap = (.ok res, heap'))
    (hclear : ∀ p heap, ClearChain o (weighting ws) (List.ofFn (outputs p)) (List.ofFn fun n j => inputs j n)
      (startOf init p) (invalidOf inv p) heap) (ε : ℝ) (hε : 0 < ε) :
    ∃ δ : ℝ, 0 < δ ∧ ∀ u, 0 ≤ u → u ≤ δ → ∀ (outputs' : Fin P → Fin N → 𝕜) (inputs' : Fin q → Fin N → 𝕜), (∀ p n, ‖outputs' p n - outputs p n‖ ≤ δ) →
      (∀ j n, ‖inputs' j n - inputs j n‖ ≤ δ) → ∀ s res' s',
      FTransfer u c (List.ofFn fun p => List.ofFn (outputs' p)) (fun j => List.ofFn (inputs' j)) (fweighting c ws) init inv o s res' s' →
      List.Forall₂ (fun a' a => a'.2 = a.2 ∧ CloseTo ε a'.1 a.1) res' res := by
  rw [← exactW_fweighting c] at h
  simp only [← exactW_fweighting c] at hclear
  refine ftransfer_stable c (fun F u hu0 hu hq i wf hm => ?_) outputs inputs init inv o heap heap' res h hclear ε hε
  simp only [fweighting, List.mem_map, Option.map_eq_some_iff, Prod.mk.injEq] at hm
  obtain ⟨⟨w, n⟩, hmem, w', hw', rfl, rfl⟩ := hm
  simp only at hw'
  subst hw'
  exact fstable_obj hq hu0 hu c (hw _ (List.fst_mem_of_mem_zipIdx hmem))

end Razorback.Props
