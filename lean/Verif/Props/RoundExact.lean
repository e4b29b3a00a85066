/-
Property C129: the exact estimations are among the possible ones in floating point arithmetic.
-/
import Verif.Props.StableRound
import Verif.Props.StableEx
import Verif.Props.ApproxLS

namespace Razorback.Props
open Razorback Razorback.Spec Razorback.MEst Razorback.Weights Razorback.Approx Filter Topology

variable {𝕜 : Type} [RCLike 𝕜] {q : ℕ} {σ : Type} {u c : ℝ}

/-- What a weight function returns without rounding is among the results with rounding. -/
def ExactIn (f : FW σ 𝕜 q) : Prop := ∀ u, 0 ≤ u → ∀ st it r e b inv raw st', f.exact st it r e b inv = (.ok raw, st') → f.fl u st it r e b inv raw st'

theorem nearWeight_refl (u : ℝ) (x : Flt) : NearWeight u x x := .inl rfl

theorem fsummed_exact {wf : WFun σ 𝕜 q} {st st' : σ} {it : ℕ} {r : List (Option 𝕜)} {e : List 𝕜} {b : List (Fin q → 𝕜)} {inv : List ℕ} {raw : Option (List Flt)}
    (h : wf st it r e b inv = (.ok raw, st')) : FSummed u wf st it r e b inv raw st' := by
  cases raw with
  | none => exact ⟨none, h, .inl ⟨rfl, rfl⟩⟩
  | some w => exact ⟨some w, h, .inr ⟨w, w, rfl, List.forall₂_same.2 (fun _ _ => .inl rfl), rfl⟩⟩

theorem exactIn_user (wf : WFun σ 𝕜 q) : ExactIn (FW.user wf) := fun _ _ _ _ _ _ _ _ _ _ h => fsummed_exact h

theorem fvnorm_exact (hu : 0 ≤ u) (r : List (Option 𝕜)) : FVnorm u r (vnorm r) := by
  unfold vnorm
  unfold FVnorm
  rw [List.forall₂_map_right_iff, List.forall₂_same]
  intro x _
  cases x with
  | none => exact .inl ⟨rfl, rfl⟩
  | some y => exact .inr ⟨y, _, rfl, rfl, Near.refl hu _⟩

theorem fmedian_exact (hu : 0 ≤ u) (l : List ℝ) : FMedian u l (median l) := by
  rcases Nat.mod_two_eq_zero_or_one l.length with h | h
  · refine .inr ⟨h, 2 * median l, Near.refl hu _, ?_⟩
    rw [mul_div_cancel_left₀ _ two_ne_zero]
    exact Near.refl hu _
  · exact .inl ⟨h, rfl⟩

theorem fscale_exact (hu : 0 ≤ u) (x : List (Option ℝ)) : FScale u x (flt (madScaleAbs x)) := by
  unfold FScale
  by_cases hx : x.filterMap id = []
  · refine .inl ⟨hx, ?_⟩
    have h1 : nanmedian x = none := by rw [nanmedian, hx]; rfl
    rw [madScaleAbs, madAbs, h1]
    rfl
  · refine .inr ⟨hx, median (x.filterMap id), (x.filterMap id).map (fun v => |v - median (x.filterMap id)|), _, _, fmedian_exact hu _, ?_, fmedian_exact hu _,
      Near.refl hu _, ?_⟩
    · rw [List.forall₂_map_right_iff, List.forall₂_same]
      exact fun v _ => ⟨_, Near.refl hu _, rfl⟩
    · have hf : (x.map (fun v => v.map (fun v => |v - median (x.filterMap id)|))).filterMap id =
          (x.filterMap id).map (fun v => |v - median (x.filterMap id)|) := by
        rw [List.filterMap_map, List.map_filterMap]
        rfl
      have hne : (x.filterMap id).map (fun v => |v - median (x.filterMap id)|) ≠ [] := by simpa using hx
      simp only [madScaleAbs, madAbs, nanmedian, List.isEmpty_iff, hx, if_false, hf, hne, Option.map_some, flt]

theorem fexpexp_exact (hu : 0 ≤ u) (x : Flt) (a : ℝ) : FExpexp u x a (expexp x a) :=
  ⟨_, _, _, _, _, _, Near.refl hu _, Near.refl hu _, nearWeight_refl _ _, nearWeight_refl _ _, nearWeight_refl _ _, nearWeight_refl _ _, nearWeight_refl _ _⟩

theorem fxi_exact (hu : 0 ≤ u) (xi : Option ℝ) (n : ℕ) : FXi u xi n (thomsonXi xi n) := by
  cases xi with
  | none => exact ⟨_, _, Near.refl hu _, Near.refl hu _, Near.refl hu _⟩
  | some xi => rfl

theorem fbase_exact (hu : 0 ≤ u) (w : Base) {st st' : Option Flt} {it : ℕ} {r : List (Option 𝕜)} {e : List 𝕜} {b : List (Fin q → 𝕜)} {inv : List ℕ}
    {raw : Option (List Flt)} (h : w.call st it r e b inv = (.ok raw, st')) : FBase u w st it r e b inv raw st' := by
  cases w with
  | huber a =>
    simp only [Base.call, huber, Prod.mk.injEq, Except.ok.injEq] at h
    obtain ⟨rfl, rfl⟩ := h
    refine ⟨_, _, _, _, fvnorm_exact hu r, fscale_exact hu _, nearWeight_refl _ _, ?_, rfl, rfl⟩
    rw [List.forall₂_map_right_iff, List.forall₂_same]
    exact fun v _ => ⟨_, nearWeight_refl _ _, rfl⟩
  | thomson xi =>
    have hrow : ∀ s, List.Forall₂ (fun v y => ∃ t, NearWeight u (Flt.div (flt v) s) t ∧ FExpexp u t (thomsonXi xi r.length) y) (vnorm r)
        ((vnorm r).map (fun v => expexp (Flt.div (flt v) s) (thomsonXi xi r.length))) := by
      intro s
      rw [List.forall₂_map_right_iff, List.forall₂_same]
      exact fun v _ => ⟨_, nearWeight_refl _ _, fexpexp_exact hu _ _⟩
    simp only [Base.call, thomson] at h
    split at h
    · rename_i hit
      simp only [Prod.mk.injEq, Except.ok.injEq] at h
      obtain ⟨rfl, rfl⟩ := h
      exact ⟨_, _, _, _, fvnorm_exact hu r, fxi_exact hu _ _, .inl ⟨hit, fscale_exact hu _⟩, hrow _, rfl, rfl⟩
    · rename_i hit
      cases st with
      | none => simp at h
      | some s =>
        simp only [Prod.mk.injEq, Except.ok.injEq] at h
        obtain ⟨rfl, rfl⟩ := h
        exact ⟨_, _, _, _, fvnorm_exact hu r, fxi_exact hu _ _, .inr ⟨hit, rfl⟩, hrow _, rfl, rfl⟩

theorem feval_exact (hu : 0 ≤ u) {wf : FW σ 𝕜 q} (hwf : ExactIn wf) {it : ℕ} {r e : List 𝕜} {b : List (Fin q → 𝕜)} {inv inv' : List ℕ} {eps : ℝ} {st st' : σ} {w : Option (List Flt)}
    (h : evalWeight wf.exact it r e b inv eps st = (.ok (w, inv'), st')) : FEval u wf it r e b inv eps st w inv' st' := by
  unfold evalWeight at h
  split at h
  · simp at h
  rename_i hin
  refine ⟨by simpa using hin, ?_⟩
  cases hw : wf.exact st it (mask r inv) e b inv with
  | mk res s =>
  rw [hw] at h
  cases res with
  | error x => simp at h
  | ok raw =>
  cases raw with
  | none =>
    simp only [Prod.mk.injEq, Except.ok.injEq] at h
    obtain ⟨⟨rfl, rfl⟩, rfl⟩ := h
    exact ⟨none, hwf u hu _ _ _ _ _ _ _ _ hw, .inl ⟨rfl, rfl, rfl⟩⟩
  | some w1 =>
    simp only at h
    split at h
    · simp at h
    rename_i hl
    simp only [Prod.mk.injEq, Except.ok.injEq] at h
    obtain ⟨⟨rfl, rfl⟩, rfl⟩ := h
    exact ⟨some w1, hwf u hu _ _ _ _ _ _ _ _ hw, .inr ⟨w1, rfl, not_not.1 hl, rfl, rfl⟩⟩

theorem fsolve_exact (hu : 0 ≤ u) (hc : 0 ≤ c) {e : List 𝕜} {b : List (Fin q → 𝕜)} (hl : e.length = b.length) {w : Option (List Flt)} {z : Fin q → 𝕜}
    (h : wlse e b w = .ok z) : FSolve u c e b w z := by
  cases w with
  | none => exact .inl ⟨rfl, C126_exact_wlse u c hu hc e b none hl z h⟩
  | some w =>
    have hw : ∃ ws : List ℝ, w = ws.map Flt.fin := by
      simp only [wlse] at h
      split at h
      · simp at h
      cases hm : w.mapM Flt.val? with
      | none => rw [hm] at h; simp at h
      | some ws => exact ⟨ws, mapM_val.1 hm⟩
    obtain ⟨ws, rfl⟩ := hw
    exact .inr ⟨ws, rfl, C126_exact_wlse u c hu hc e b (some ws) hl z h⟩

theorem fdot_exact (hu : 0 ≤ u) (a b : List 𝕜) : FDot u a b (List.zipWith (· * ·) a b).sum :=
  ⟨_, List.forall₂_same.2 (fun a _ => Near.refl hu a), fsum_exact hu _⟩

open scoped Matrix Matrix.Norms.Operator in
theorem flev_go (hu : 0 ≤ u) (hc : 0 ≤ c) {b : List (Fin q → 𝕜)} {ws : Option (List ℝ)} (hl : ∀ w, ws = some w → w.length = b.length) (hd : (gram b ws).det ≠ 0) :
    FLeverage u c b (ws.map (List.map .fin)) (b.map (fun r => RCLike.re (∑ j, ((gram b ws)⁻¹ *ᵥ (fun j => star (r j))) j * r j))) := by
  refine ⟨ws, fun k => (dotdiag ws b).map (fun r => r k), gram b ws, rfl, hl, fun k => ?_, fun j k => ?_, ?_⟩
  · cases ws with
    | none => rfl
    | some w =>
      have h1 : (dotdiag (some w) b).map (fun r => r k) = dotdiag (some w) (b.map (fun r => r k)) := by
        simp only [dotdiag, List.map_zipWith, List.zipWith_map_right, Pi.smul_apply]
      unfold FDiag
      simp only [h1]
      exact List.forall₂_same.2 (fun _ _ => Near.refl hu _)
  · have := fdot_exact hu (b.map (fun r => star (r j))) ((dotdiag ws b).map (fun r => r k))
    rw [List.zipWith_map] at this
    exact this
  · rw [List.forall₂_map_right_iff, List.forall₂_same]
    intro r _
    refine ⟨0, (gram b ws)⁻¹ *ᵥ (fun j => star (r j)), _, by simp only [norm_zero]; positivity, ?_, ?_, rfl⟩
    · rw [add_zero, Matrix.mulVec_mulVec, Matrix.mul_nonsing_inv _ (isUnit_iff_ne_zero.2 hd), Matrix.one_mulVec]
    · have := fdot_exact hu (List.ofFn ((gram b ws)⁻¹ *ᵥ (fun j => star (r j)))) (List.ofFn r)
      have hz : List.zipWith (· * ·) (List.ofFn ((gram b ws)⁻¹ *ᵥ (fun j => star (r j)))) (List.ofFn r) = List.ofFn (fun j => ((gram b ws)⁻¹ *ᵥ (fun j => star (r j))) j * r j) := by
        apply List.ext_getElem <;> simp
      rw [hz, List.sum_ofFn] at this
      exact this

theorem flev_exact (hu : 0 ≤ u) (hc : 0 ≤ c) {b : List (Fin q → 𝕜)} {bi : Option (List Flt)} {h : List ℝ} (hk : leverage b bi = .ok h) : FLeverage u c b bi h := by
  unfold leverage at hk
  simp only at hk
  cases bi with
  | none =>
    simp only at hk
    split at hk
    · simp at hk
    rename_i hd
    rw [← Except.ok.inj hk]
    exact flev_go (ws := none) hu hc (by simp) hd
  | some w =>
    simp only at hk
    split at hk
    · simp at hk
    rename_i hl
    cases hm : w.mapM Flt.val? with
    | none => rw [hm] at hk; simp at hk
    | some ws =>
      rw [hm] at hk
      simp only at hk
      split at hk
      · simp at hk
      rename_i hd
      rw [← Except.ok.inj hk]
      obtain rfl := mapM_val.1 hm
      refine flev_go (ws := some ws) hu hc ?_ hd
      rintro _ ⟨⟩
      simpa using hl

theorem ftimes_exact (a : Option (List Flt)) (b : List Flt) : FTimes u a b (timesArr a b) := by
  cases a with
  | none => rfl
  | some a => exact List.forall₂_same.2 (fun _ _ => nearWeight_refl _ _)

theorem fsumArr_exact (hu : 0 ≤ u) (l : List Flt) : FSumArr u l (Flt.sum l) := by
  by_cases h : ∃ ws : List ℝ, l = ws.map .fin
  · obtain ⟨ws, rfl⟩ := h
    exact .inl ⟨ws, _, rfl, fsum_exact hu ws, sum_fin ws⟩
  · exact .inr ⟨fun ws hw => h ⟨ws, hw⟩, rfl⟩

theorem exactIn_bis (hc : 0 ≤ c) {inner : FW σ 𝕜 q} (hin : ExactIn inner) (lower khi : ℝ) :
    ExactIn (⟨bis inner.exact lower khi, fun v => FBis v c (inner.fl v) lower khi⟩ : FW (Option Prev × σ) 𝕜 q) := by
  intro u hu st it r e b inv raw st' h
  change bis inner.exact lower khi st it r e b inv = _ at h
  unfold bis at h
  simp only at h
  split at h
  · simp at h
  rename_i p hp
  split at h
  · simp at h
  rename_i hit
  cases hi : inner.exact st.2 it r e b inv with
  | mk res s =>
  rw [hi] at h
  cases res with
  | error x => simp at h
  | ok w =>
  cases w with
  | none => simp at h
  | some w0 =>
  simp only at h
  cases hlev : leverage b p.bi with
  | error x => rw [hlev] at h; simp at h
  | ok lev =>
  rw [hlev] at h
  simp only [Prod.mk.injEq, Except.ok.injEq] at h
  obtain ⟨rfl, rfl⟩ := h
  refine ⟨p, w0, lev, _, (timesArr p.bi (lev.map .fin)).map (fun h => Flt.div (Flt.mul p.trace h) (.fin q)), _, _, _, _, _, _, _, hp, not_not.1 hit,
    hin u hu _ _ _ _ _ _ _ _ hi, flev_exact hu hc hlev, ftimes_exact _ _, ?_, ?_, ftimes_exact _ _, Near.refl hu _, ?_, ftimes_exact _ _, ftimes_exact _ _,
    fsumArr_exact hu _, rfl, rfl⟩
  · rw [List.forall₂_map_right_iff, List.forall₂_same]
    exact fun v _ => ⟨_, nearWeight_refl _ _, nearWeight_refl _ _⟩
  · rw [List.forall₂_map_right_iff, List.forall₂_same]
    exact fun v _ => fexpexp_exact hu _ _
  · rw [List.forall₂_map_right_iff, List.forall₂_same]
    exact fun v _ => ⟨_, nearWeight_refl _ _, fexpexp_exact hu _ _⟩

theorem exactIn_obj (hc : 0 ≤ c) (w : Obj) : ExactIn (FW.obj c w : FW Mem 𝕜 q) := by
  cases w with
  | base w =>
    intro u hu st it r e b inv raw st' h
    change Obj.call (.base w) st it r e b inv = _ at h
    simp only [Obj.call] at h
    cases hb : w.call st.2 it r e b inv with
    | mk res s =>
    rw [hb] at h
    simp only [Prod.mk.injEq] at h
    obtain ⟨rfl, rfl⟩ := h
    exact ⟨fbase_exact hu w hb, rfl⟩
  | bis w lower khi =>
    exact exactIn_bis (inner := ⟨w.call, fun v => FBase v w⟩) hc (fun u hu st it r e b inv raw st' h => fbase_exact hu w h) lower khi

theorem fresid_exact (hu : 0 ≤ u) {e : List 𝕜} {b : List (Fin q → 𝕜)} (hl : e.length = b.length) (z : Fin q → 𝕜) : FResid u e b z (MEst.residual e b z) := by
  refine ⟨hl, ?_⟩
  rw [List.forall₂_iff_get]
  refine ⟨by simp [MEst.residual], fun i h1 h2 => ⟨_, fdot_exact hu _ _, ?_⟩⟩
  have hsum : (List.zipWith (· * ·) (List.ofFn ((e.zip b).get ⟨i, h1⟩).2) (List.ofFn z)).sum = ((e.zip b).get ⟨i, h1⟩).2 ⬝ᵥ z := by
    rw [dotProduct, ← List.sum_ofFn]
    congr 1
    refine List.ext_getElem (by simp) (fun n h1 h2 => by simp)
  rw [hsum]
  simp only [MEst.residual, List.get_eq_getElem, List.getElem_zip, List.getElem_zipWith]
  exact Near.refl hu _

theorem fenergy_exact (hu : 0 ≤ u) (w : Option (List Flt)) (r : List 𝕜) : FEnergy u w r (wresid w r) := by
  refine ⟨dotdiag (realWeights w) r, _, ?_, fdot_exact hu _ _, ?_⟩
  · cases realWeights w with
    | none => rfl
    | some ws => exact List.forall₂_same.2 (fun a _ => Near.refl hu a)
  · rw [wresid, List.zipWith_map_left]
    exact Near.refl hu _

theorem floop_exact (hu : 0 ≤ u) (hc : 0 ≤ c) {wf : FW σ 𝕜 q} (hwf : ExactIn wf) {e : List 𝕜} {b : List (Fin q → 𝕜)} (hl : e.length = b.length) {o : MEst.Opts} :
    ∀ (n it : ℕ) (r : List 𝕜) (inv : List ℕ) (prev : Option ℝ) (st st' : σ) (res : (Fin q → 𝕜) × List ℕ),
      MEst.loop wf.exact e b o n it r inv prev st = (.ok res, st') → FLoop u c wf e b o n it r inv prev st res st' := by
  intro n
  induction n with
  | zero => intro it r inv prev st st' res h; simp [MEst.loop] at h
  | succ n ih =>
    intro it r inv prev st st' res h
    rw [MEst.loop] at h
    cases hev : evalWeight wf.exact it r e b inv o.eps st with
    | mk rs st1 =>
    rw [hev] at h
    cases rs with
    | error x => simp at h
    | ok wi =>
    obtain ⟨w, inv1⟩ := wi
    simp only at h
    cases hls : wlse e b w with
    | error x => rw [hls] at h; simp at h
    | ok z1 =>
    rw [hls] at h
    simp only at h
    refine ⟨w, inv1, st1, z1, MEst.residual e b z1, wresid w (MEst.residual e b z1), converged o.tol prev (wresid w (MEst.residual e b z1)) = true,
      feval_exact hu hwf hev, fsolve_exact hu hc hl hls, fresid_exact hu hl _, fenergy_exact hu _ _, ?_, ?_⟩
    · cases prev with
      | none => simp [FConverged, converged]
      | some p =>
        refine ⟨_, _, Near.refl hu _, Near.refl hu _, ?_⟩
        simp [converged]
    · split at h
      · rename_i hcv
        simp only [Prod.mk.injEq, Except.ok.injEq] at h
        exact .inl ⟨hcv, h.1.symm, h.2.symm⟩
      · rename_i hcv
        exact .inr ⟨hcv, ih _ _ _ _ _ _ _ h⟩

theorem festimate_exact (hu : 0 ≤ u) (hc : 0 ≤ c) {e : List 𝕜} {b : List (Fin q → 𝕜)} (hl : e.length = b.length) {o : MEst.Opts} {z0 : Option (Fin q → 𝕜)}
    {wf : Option (FW σ 𝕜 q)} (hwf : ∀ f, wf = some f → ExactIn f) {inv : List ℕ} {st st' : σ} {res : (Fin q → 𝕜) × List ℕ} (h : mEstimate e b z0 (wf.map FW.exact) inv o st = (.ok res, st')) :
    FEstimate u c e b z0 wf inv o st res st' := by
  cases wf with
  | none =>
    simp only [mEstimate, Option.map_none] at h
    split at h
    · simp at h
    rename_i hin
    split at h
    · simp at h
    rename_i z hz
    simp only [Prod.mk.injEq, Except.ok.injEq] at h
    obtain ⟨rfl, rfl⟩ := h
    exact ⟨by simpa using hin, rfl, rfl, fsolve_exact hu hc hl hz⟩
  | some wf =>
    cases z0 with
    | none => simp [mEstimate] at h
    | some z => exact ⟨z, _, rfl, fresid_exact hu hl z, floop_exact hu hc (hwf _ rfl) hl _ _ _ _ _ _ _ _ h⟩

theorem fchain_exact (hu : 0 ≤ u) (hc : 0 ≤ c) {o : MEst.Opts} : ∀ (ws : List (Option (ℕ × FW σ 𝕜 q))) (_ : ∀ i f, some (i, f) ∈ ws → ExactIn f) (e : List 𝕜) (b : List (Fin q → 𝕜)), e.length = b.length →
    ∀ (z : Option (Fin q → 𝕜)) (ii : List ℕ) (heap heap' : ℕ → σ) (l : List ((Fin q → 𝕜) × List ℕ)),
      chainLoop o (exactW ws) e b z (some ii) heap = (.ok l, heap') → FChain u c o ws e b z (some ii) heap l heap'
  | [], _, e, b, _, z, ii, heap, heap', l, h => by
    rw [show exactW ([] : List (Option (ℕ × FW σ 𝕜 q))) = [] from rfl] at h
    simp only [chainLoop, Prod.mk.injEq, Except.ok.injEq] at h
    exact ⟨h.1.symm, h.2.symm⟩
  | w :: ws, hws, e, b, hl, z, ii, heap, heap', l, h => by
    rw [show exactW (w :: ws) = (w.map (fun p => (p.1, p.2.exact))) :: exactW ws from rfl, chainLoop] at h
    cases h1 : eliminate e (some ii) with
    | error x => rw [h1] at h; simp at h
    | ok e1 =>
    rw [h1] at h
    simp only at h
    cases h2 : eliminate b (some ii) with
    | error x => rw [h2] at h; simp at h
    | ok b1 =>
    rw [h2] at h
    simp only at h
    split at h
    · simp at h
    rename_i hne
    have hl1 : e1.length = b1.length := by
      obtain ⟨-, rfl⟩ := eliminate_ok.1 h1
      obtain ⟨-, rfl⟩ := eliminate_ok.1 h2
      exact without_length hl ii
    cases h3 : callEstimate e1 b1 z (w.map (fun p => (p.1, p.2.exact))) o heap with
    | mk res hp =>
    rw [h3] at h
    cases res with
    | error x => simp at h
    | ok p =>
    obtain ⟨z1, i1⟩ := p
    simp only at h
    cases h4 : chainLoop o (exactW ws) e1 b1 (some z1) (some i1) hp with
    | mk res hp2 =>
    rw [h4] at h
    cases res with
    | error x => simp at h
    | ok l1 =>
    simp only [Prod.mk.injEq, Except.ok.injEq] at h
    obtain ⟨rfl, rfl⟩ := h
    refine ⟨e1, b1, (z1, i1), hp, l1, h1, h2, hne, ?_, fchain_exact hu hc ws (fun i f h => hws i f (List.mem_cons_of_mem _ h)) e1 b1 hl1 _ _ _ _ _ h4, rfl⟩
    cases w with
    | none =>
      simp only [callEstimate, Option.map_none, Prod.mk.injEq] at h3
      refine ⟨festimate_exact hu hc hl1 (by simp) (Prod.ext h3.1 rfl), h3.2.symm⟩
    | some iw =>
      obtain ⟨i, wf⟩ := iw
      simp only [callEstimate, Option.map_some, Prod.mk.injEq] at h3
      exact ⟨_, festimate_exact hu hc hl1 (fun f hf => hws i f (by cases hf; exact List.mem_cons_self)) (Prod.ext h3.1 rfl), h3.2.symm⟩

theorem foutputs_exact (hu : 0 ≤ u) (hc : 0 ≤ c) {o : MEst.Opts} {ws : List (Option (ℕ × FW σ 𝕜 q))} (hws : ∀ i f, some (i, f) ∈ ws → ExactIn f) {b : List (Fin q → 𝕜)} :
    ∀ (l : List (List 𝕜 × Option (Fin q → 𝕜) × List ℕ)), (∀ t ∈ l, t.1.length = b.length) → ∀ (heap heap' : ℕ → σ) (res : List (Option (Fin q → 𝕜) × List ℕ)),
      outputsLoop o (exactW ws) b l heap = (.ok res, heap') → FOutputs u c o ws b l heap res heap'
  | [], _, heap, heap', res, h => by
    simp only [outputsLoop, Prod.mk.injEq, Except.ok.injEq] at h
    exact ⟨h.1.symm, h.2.symm⟩
  | (line, z0, inv) :: l, hl, heap, heap', res, h => by
    rw [outputsLoop] at h
    cases h1 : oneOutput o (exactW ws) b line z0 inv heap with
    | mk r hp =>
    rw [h1] at h
    cases r with
    | error x => simp at h
    | ok p =>
    simp only at h
    cases h2 : outputsLoop o (exactW ws) b l hp with
    | mk r hp2 =>
    rw [h2] at h
    cases r with
    | error x => simp at h
    | ok ps =>
    simp only [Prod.mk.injEq, Except.ok.injEq] at h
    obtain ⟨rfl, rfl⟩ := h
    refine ⟨p, ps, hp, ?_, foutputs_exact hu hc hws l (fun t ht => hl t (List.mem_cons_of_mem _ ht)) _ _ _ h2, rfl⟩
    unfold oneOutput at h1
    cases h3 : chainLoop o (exactW ws) line b z0 (some inv) heap with
    | mk r hp3 =>
    rw [h3] at h1
    cases r with
    | error x => simp at h1
    | ok l1 =>
    simp only at h1
    cases h4 : mergeInvalid (inv :: l1.map Prod.snd) with
    | error x => rw [h4] at h1; simp at h1
    | ok m =>
    rw [h4] at h1
    simp only [Prod.mk.injEq, Except.ok.injEq] at h1
    obtain ⟨rfl, rfl⟩ := h1
    exact ⟨l1, fchain_exact hu hc ws hws line b (hl _ List.mem_cons_self) _ _ _ _ _ h3, h4, rfl⟩

/-- C129: the exact result of `transfer_function` is a possible one, whatever the precision. -/
theorem C129_exact (hu : 0 ≤ u) (hc : 0 ≤ c) (outputs : List (List 𝕜)) (inputs : Fin q → List 𝕜) (ws : List (Option (ℕ × FW σ 𝕜 q)))
    (hws : ∀ i f, some (i, f) ∈ ws → ExactIn f)
    (init : Option (List (Fin q → 𝕜))) (inv : InvArg) (o : MEst.Opts) (heap heap' : ℕ → σ) (res : List (Option (Fin q → 𝕜) × List ℕ))
    (h : transferFunction outputs inputs (exactW ws) init inv o heap = (.ok res, heap')) : FTransfer u c outputs inputs ws init inv o heap res heap' := by
  unfold transferFunction at h
  cases hn : inv.norm outputs.length with
  | error x => rw [hn] at h; simp at h
  | ok invs =>
  rw [hn] at h
  cases outputs with
  | nil => simp at h
  | cons y rest =>
  simp only at h
  split at h
  · simp at h
  rename_i h1
  split at h
  · simp at h
  rename_i h2
  push Not at h1
  have hall : ∀ l ∈ y :: rest, l.length = y.length := by
    have := h1.2.2
    simpa using this
  have hrow : ∀ t ∈ (y :: rest).zip ((match init with
      | none => List.replicate (y :: rest).length none
      | some l => l.map some).zip invs), t.1.length = (rowsOf inputs y.length).length := by
    intro t ht
    rw [hall _ (List.of_mem_zip ht).1]
    simp [rowsOf]
  refine ⟨invs, y, rest, hn, rfl, h1.1, h1.2.1, hall, not_not.1 h2, ?_, ?_⟩
  · intro l hl
    subst hl
    by_contra hne
    rw [if_pos (by simpa using hne)] at h
    simp at h
  · refine foutputs_exact hu hc hws _ hrow _ _ _ ?_
    cases init with
    | none => simpa using h
    | some l =>
      simp only at h
      split at h
      · simp at h
      · exact h

theorem exactIn_fweighting (hc : 0 ≤ c) {l : List (Option Obj)} : ∀ i f, some (i, f) ∈ (fweighting c l : List (Option (ℕ × FW Mem 𝕜 q))) → ExactIn f := by
  intro i f h
  simp only [fweighting, List.mem_map, Option.map_eq_some_iff, Prod.mk.injEq] at h
  obtain ⟨p, -, w, -, -, rfl⟩ := h
  exact exactIn_obj hc w

/-- In floating point arithmetic, too, the estimate from 1, -1, 2, -2 with Thomson weights is nearly 0, and there is one. -/
example (c : ℝ) (hc : 0 ≤ c) (ε : ℝ) (hε : 0 < ε) : ∃ δ : ℝ, 0 < δ ∧ ∀ u, 0 ≤ u → u ≤ δ →
    (∃ res st', FEstimate u c exT exTb (some fun _ => 0) (some (FW.obj c (.base (.thomson (some 3))))) [] { eps := 0 } (none, none) res st') ∧
    ∀ res st', FEstimate u c exT exTb (some fun _ => 0) (some (FW.obj c (.base (.thomson (some 3))))) [] { eps := 0 } (none, none) res st' → res.2 = [] ∧ |res.1 0| < ε := by
  obtain ⟨st', h⟩ := exT_obj (none, none)
  have he : exT = List.ofFn ![1, -1, 2, -2] := by simp [exT, List.ofFn_succ]
  have hb : exTb = List.ofFn (fun (_ : Fin 4) (_ : Fin 1) => (1 : ℝ)) := by simp [exTb, List.ofFn_succ]
  have h' := h
  have hcl : NoCloseCall (Obj.base (.thomson (some 3))).call exT exTb { eps := 0 } (fun _ => 0) [] (none, none) := NoCloseCall.obj (exT_clear none)
  rw [he, hb] at h hcl
  obtain ⟨δ, hδ, key⟩ := C129_estimate (w := .base (.thomson (some 3))) Nat.one_pos c (by intro x hx; cases hx; norm_num) _ _ _ _ _ _ _ _ _ h hcl ε hε
  refine ⟨δ, hδ, fun u hu0 hu => ⟨⟨_, _, festimate_exact hu0 hc (by simp [exT, exTb]) (by intro f hf; cases hf; exact exactIn_obj hc _) h'⟩, fun res st' hF => ?_⟩⟩
  have := key u hu0 hu ![1, -1, 2, -2] (fun _ _ => 1) (fun _ => 0) (by simp [hδ.le]) (by simp [hδ.le]) (by simp [hδ.le]) (none, none) res st' (by rw [← he, ← hb]; exact hF)
  exact ⟨this.1, by simpa using this.2 0⟩

/-- So is the estimate with a bounded influence step, and there is one. -/
example (c : ℝ) (hc : 0 ≤ c) (ε : ℝ) (hε : 0 < ε) : ∃ δ : ℝ, 0 < δ ∧ ∀ u, 0 ≤ u → u ≤ δ →
    (∃ res st', FEstimate u c exT exTb (some fun _ => 0) (some (FW.obj c (.bis (.thomson (some 3)) (1 / 2) 2))) [] { eps := 0, tol := 10 } (none, none) res st') ∧
    ∀ res st', FEstimate u c exT exTb (some fun _ => 0) (some (FW.obj c (.bis (.thomson (some 3)) (1 / 2) 2))) [] { eps := 0, tol := 10 } (none, none) res st' →
      res.2 = [] ∧ |res.1 0| < ε := by
  obtain ⟨st', h⟩ := exB_ok (none, none)
  have he : exT = List.ofFn ![1, -1, 2, -2] := by simp [exT, List.ofFn_succ]
  have hb : exTb = List.ofFn (fun (_ : Fin 4) (_ : Fin 1) => (1 : ℝ)) := by simp [exTb, List.ofFn_succ]
  have hcl := exB_clear (none, none)
  have h' := h
  rw [he, hb] at h hcl
  obtain ⟨δ, hδ, key⟩ := C129_estimate (w := .bis (.thomson (some 3)) (1 / 2) 2) Nat.one_pos c
    ⟨by intro x hx; cases hx; norm_num, by norm_num, by norm_num, by norm_num⟩ _ _ _ _ _ _ _ _ _ h hcl ε hε
  refine ⟨δ, hδ, fun u hu0 hu => ⟨⟨_, _, festimate_exact hu0 hc (by simp [exT, exTb]) (by intro f hf; cases hf; exact exactIn_obj hc _) h'⟩, fun res st' hF => ?_⟩⟩
  have := key u hu0 hu ![1, -1, 2, -2] (fun _ _ => 1) (fun _ => 0) (by simp [hδ.le]) (by simp [hδ.le]) (by simp [hδ.le]) (none, none) res st' (by rw [← he, ← hb]; exact hF)
  exact ⟨this.1, by simpa using this.2 0⟩

/-- Least squares followed by Thomson weights, in floating point arithmetic. -/
example (c : ℝ) (hc : 0 ≤ c) (ε : ℝ) (hε : 0 < ε) : ∃ δ : ℝ, 0 < δ ∧ ∀ u, 0 ≤ u → u ≤ δ →
    (∃ res heap', FTransfer u c [exT] (fun _ : Fin 1 => [1, 1, 1, 1]) (fweighting c [none, some (.base (.thomson (some 3)))]) none .none { eps := 0 }
      (fun _ => (none, none)) res heap') ∧
    ∀ res heap', FTransfer u c [exT] (fun _ : Fin 1 => [1, 1, 1, 1]) (fweighting c [none, some (.base (.thomson (some 3)))]) none .none { eps := 0 }
      (fun _ => (none, none)) res heap' → ∃ z, res = [(some z, [])] ∧ |z 0| < ε := by
  obtain ⟨heap', h⟩ := exT_transfer (fun _ => (none, none))
  have he : List.ofFn (![1, -1, 2, -2] : Fin 4 → ℝ) = exT := by simp [exT, List.ofFn_succ]
  have hrow : (List.ofFn fun (n : Fin 4) (j : Fin 1) => ((fun _ _ => 1) : Fin 1 → Fin 4 → ℝ) j n) = exTb := by
    simp [exTb, List.ofFn_succ]
  have h1 : (List.ofFn fun p : Fin 1 => List.ofFn ((![![1, -1, 2, -2]] : Fin 1 → Fin 4 → ℝ) p)) = [exT] := by
    rw [List.ofFn_succ, List.ofFn_zero]; simp only [Matrix.cons_val_zero, he]
  have h2 : (fun j : Fin 1 => List.ofFn (((fun _ _ => 1) : Fin 1 → Fin 4 → ℝ) j)) = fun _ => [1, 1, 1, 1] := by
    funext j; simp [List.ofFn_succ]
  obtain ⟨δ, hδ, key⟩ := C129_transfer c (ws := [none, some (.base (.thomson (some 3)))]) (by
    intro w hw
    simp only [List.mem_cons, reduceCtorEq, Option.some.injEq, List.not_mem_nil, or_false, false_or] at hw
    subst hw
    intro x hx; cases hx; norm_num) (![![1, -1, 2, -2]] : Fin 1 → Fin 4 → ℝ) ((fun _ _ => 1) : Fin 1 → Fin 4 → ℝ) none .none { eps := 0 }
      (fun _ => (none, none)) heap' [(some fun _ => 0, [])] (by rw [h1, h2]; exact h) (by
      intro p heap
      rw [Fin.fin_one_eq_zero p, hrow]
      simp only [Matrix.cons_val_zero, he]
      exact exT_clear_chain heap) ε hε
  refine ⟨δ, hδ, fun u hu0 hu => ⟨⟨_, _, C129_exact hu0 hc _ _ _ (exactIn_fweighting hc) _ _ _ _ _ _ (by rw [exactW_fweighting]; exact h)⟩, fun res heap' hF => ?_⟩⟩
  have := key u hu0 hu ![![1, -1, 2, -2]] (fun _ _ => 1) (by simp [hδ.le]) (by simp [hδ.le]) _ res heap' (by rw [h1, h2]; exact hF)
  cases this with
  | cons h3 h4 =>
    cases h4
    rename_i a
    obtain ⟨az, ai⟩ := a
    obtain ⟨h5, h6⟩ := h3
    simp only at h5 h6
    subst h5
    cases az with
    | none => exact h6.elim
    | some z => exact ⟨z, rfl, by simpa using h6 0⟩

end Razorback.Props
