/-
Property C127: Huber weights may oscillate for ever.
-/
import Verif.Props.Converge

namespace Razorback.Props
open Razorback Razorback.Spec Razorback.MEst Razorback.Weights

variable {σ : Type}

/-- Three samples of a constant. -/
def exH : List ℝ := [0, 9, -4]

def exHb : List (Fin 1 → ℝ) := [fun _ => 1, fun _ => 1, fun _ => 1]

/-- The mean of the samples, and the other estimate of the cycle. -/
noncomputable def exHz (first : Bool) : Fin 1 → ℝ := fun _ => if first then 5 / 3 else 4875000 / 4602203

/-- The weights found at these estimates. -/
noncomputable def exHw (first : Bool) : List ℝ := if first then [1, 75000 / 98659, 150000 / 152473] else [1, 1, 1]

theorem exH_resid (z : Fin 1 → ℝ) : residual exH exHb z = [- z 0, 9 - z 0, -4 - z 0] := by
  simp [MEst.residual, exH, exHb, dotProduct]

theorem median3 {l : List ℝ} {a b c : ℝ} (hp : [a, b, c].Perm l) (h1 : a ≤ b) (h2 : b ≤ c) : IsMedian l b :=
  ⟨[a, b, c], hp, by simp [h1, h2, h1.trans h2], .inl ⟨1, rfl, rfl⟩⟩

/-- One call of the weight function. -/
theorem exH_call (first : Bool) (it : ℕ) (st : σ) : huber (3 / 2) st it (mask (residual exH exHb (exHz first)) []) exH exHb [] =
    (.ok (some ((exHw first).map Flt.fin)), st) := by
  have hm : mask (residual exH exHb (exHz first)) [] = [some (- exHz first 0), some (9 - exHz first 0), some (-4 - exHz first 0)] := by
    rw [exH_resid]
    simp [mask]
  rw [hm]
  cases first with
  | true =>
    have hz : exHz true 0 = 5 / 3 := by simp [exHz]
    rw [hz]
    have hv : vnorm [some (-(5 / 3) : ℝ), some (9 - 5 / 3), some (-4 - 5 / 3)] = [some (5 / 3), some (22 / 3), some (17 / 3)] := by
      simp only [vnorm, List.map_cons, List.map_nil, Option.map_some, Real.norm_eq_abs]
      norm_num [abs_of_pos, abs_of_neg]
    have hs : sizes [some (-(5 / 3) : ℝ), some (9 - 5 / 3), some (-4 - 5 / 3)] = [5 / 3, 22 / 3, 17 / 3] := by
      simp only [sizes, valid, List.filterMap_cons, List.filterMap_nil, id, List.map_cons, List.map_nil, Real.norm_eq_abs]
      norm_num [abs_of_pos, abs_of_neg]
    have hsc : madScaleAbs (vnorm [some (-(5 / 3) : ℝ), some (9 - 5 / 3), some (-4 - 5 / 3)]) = some ((5 / 3) / 0.44845) := by
      rw [madScale_some, hs]
      refine ⟨17 / 3, 5 / 3, median3 (a := 5 / 3) (c := 22 / 3) ?_ (by norm_num) (by norm_num), ?_, rfl⟩
      · exact .cons _ (.swap _ _ _)
      · have : ([5 / 3, 22 / 3, 17 / 3] : List ℝ).map (fun v => |v - 17 / 3|) = [4, 5 / 3, 0] := by
          simp only [List.map_cons, List.map_nil]
          norm_num [abs_of_pos, abs_of_neg]
        rw [this]
        refine median3 (a := 0) (c := 4) ?_ (by norm_num) (by norm_num)
        exact (List.reverse_perm [4, 5 / 3, 0])
    simp only [huber]
    rw [hsc, hv]
    simp only [flt, Flt.mul, Flt.div, List.map_cons, List.map_nil, exHw, if_true]
    norm_num [Flt.min1]
  | false =>
    have hz : exHz false 0 = 4875000 / 4602203 := by simp [exHz]
    rw [hz]
    have hv : vnorm [some (-(4875000 / 4602203) : ℝ), some (9 - 4875000 / 4602203), some (-4 - 4875000 / 4602203)] =
        [some (4875000 / 4602203), some (36544827 / 4602203), some (23283812 / 4602203)] := by
      simp only [vnorm, List.map_cons, List.map_nil, Option.map_some, Real.norm_eq_abs]
      norm_num [abs_of_pos, abs_of_neg]
    have hs : sizes [some (-(4875000 / 4602203) : ℝ), some (9 - 4875000 / 4602203), some (-4 - 4875000 / 4602203)] =
        [4875000 / 4602203, 36544827 / 4602203, 23283812 / 4602203] := by
      simp only [sizes, valid, List.filterMap_cons, List.filterMap_nil, id, List.map_cons, List.map_nil, Real.norm_eq_abs]
      norm_num [abs_of_pos, abs_of_neg]
    have hsc : madScaleAbs (vnorm [some (-(4875000 / 4602203) : ℝ), some (9 - 4875000 / 4602203), some (-4 - 4875000 / 4602203)]) =
        some ((13261015 / 4602203) / 0.44845) := by
      rw [madScale_some, hs]
      refine ⟨23283812 / 4602203, 13261015 / 4602203, median3 (a := 4875000 / 4602203) (c := 36544827 / 4602203) ?_ (by norm_num) (by norm_num), ?_, rfl⟩
      · exact .cons _ (.swap _ _ _)
      · have : ([4875000 / 4602203, 36544827 / 4602203, 23283812 / 4602203] : List ℝ).map (fun v => |v - 23283812 / 4602203|) = [4, 13261015 / 4602203, 0] := by
          simp only [List.map_cons, List.map_nil]
          norm_num [abs_of_pos, abs_of_neg]
        rw [this]
        refine median3 (a := 0) (c := 4) ?_ (by norm_num) (by norm_num)
        exact (List.reverse_perm [4, 13261015 / 4602203, 0])
    simp only [huber]
    rw [hsc, hv]
    simp only [flt, Flt.mul, Flt.div, List.map_cons, List.map_nil, exHw, if_false, Bool.false_eq_true]
    norm_num [Flt.min1]

/-- One pass. -/
theorem exH_eval (first : Bool) {eps : ℝ} (h : eps < 3 / 4) (it : ℕ) (st : σ) :
    evalWeight (huber (3 / 2)) it (MEst.residual exH exHb (exHz first)) exH exHb [] eps st = (.ok (some ((exHw first).map Flt.fin), []), st) := by
  unfold evalWeight
  rw [exH_call first it st]
  have hl : ((exHw first).map Flt.fin).length = (MEst.residual exH exHb (exHz first)).length := by
    rw [exH_resid]; cases first <;> simp [exHw]
  have hz : zeroAt ((exHw first).map Flt.fin) [] = (exHw first).map Flt.fin := by cases first <;> simp [exHw, zeroAt]
  have hn : negligible eps ((exHw first).map Flt.fin) = [] := by
    have h1 : ¬ |(1 : ℝ)| ≤ eps := by rw [abs_one]; linarith
    have h2 : ¬ |(75000 / 98659 : ℝ)| ≤ eps := by rw [abs_of_pos (by norm_num)]; have : (3 / 4 : ℝ) < 75000 / 98659 := by norm_num
                                                  linarith
    have h3 : ¬ |(150000 / 152473 : ℝ)| ≤ eps := by rw [abs_of_pos (by norm_num)]; have : (3 / 4 : ℝ) < 150000 / 152473 := by norm_num
                                                    linarith
    cases first
    · simp only [negligible, exHw, Bool.false_eq_true, if_false, List.map_cons, List.map_nil, List.zipIdx_cons, List.zipIdx_nil, List.filter_cons, Flt.close0, h1,
        decide_false, List.filter_nil]
    · simp only [negligible, exHw, if_true, List.map_cons, List.map_nil, List.zipIdx_cons, List.zipIdx_nil, List.filter_cons, Flt.close0, h1, h2, h3,
        decide_false, Bool.false_eq_true, if_false, List.filter_nil]
  simp only [List.any_nil, Bool.false_eq_true, if_false, hl, ne_eq, not_true_eq_false, hz, hn]

theorem exH_wlse (first : Bool) : wlse exH exHb (some ((exHw first).map Flt.fin)) = .ok (exHz !first) := by
  have hw : WeightsAre (some ((exHw first).map Flt.fin)) 3 (exHw first) := ⟨by cases first <;> simp [exHw], .inr rfl⟩
  refine (wlse_ok (x := exH) (y := exHb) rfl hw).2 ⟨?_, ?_⟩
  · rw [C44_independent _ (by cases first <;> simp [obs, exH, exHb, exHw] <;> norm_num)]
    intro d hd
    have := hd ⟨1, 0, fun _ => 1⟩ (by cases first <;> simp [obs, exH, exHb, exHw]) one_ne_zero
    simp [dotProduct] at this
    funext j
    rw [Fin.fin_one_eq_zero j, this]; rfl
  · intro j
    cases first
    · simp [obs, dotProduct, exH, exHb, exHw, exHz]; norm_num
    · simp [obs, dotProduct, exH, exHb, exHw, exHz]; norm_num

/-- The weighted sum of squares after the pass. -/
noncomputable def exHc (first : Bool) : ℝ := if first then 3064305075000 / 41277158707 else 266 / 3

theorem exH_wresid (first : Bool) : wresid (some ((exHw first).map Flt.fin)) (MEst.residual exH exHb (exHz !first)) = exHc first := by
  have hw : WeightsAre (some ((exHw first).map Flt.fin)) 3 (exHw first) := ⟨by cases first <;> simp [exHw], .inr rfl⟩
  rw [wresid_eq (e := exH) (b := exHb) rfl hw]
  cases first
  · simp [cost, obs, dotProduct, exH, exHb, exHw, exHz, exHc]; norm_num
  · simp [cost, obs, dotProduct, exH, exHb, exHw, exHz, exHc]; norm_num

theorem exH_change {tol : ℝ} (h : tol ≤ 1 / 10) (first : Bool) : converged tol (some (exHc !first)) (exHc first) = false := by
  simp only [converged, decide_eq_false_iff_not, not_and, not_lt]
  intro _
  refine h.trans ?_
  cases first
  · simp only [exHc, Bool.not_false, if_true, Bool.false_eq_true, if_false]
    rw [abs_of_pos (by norm_num)]; norm_num
  · simp only [exHc, Bool.not_true, if_true, Bool.false_eq_true, if_false]
    rw [abs_of_neg (by norm_num)]; norm_num

theorem exH_loop {o : MEst.Opts} (htol : o.tol ≤ 1 / 10) (heps : o.eps < 3 / 4) (st : σ) : ∀ (n : ℕ) (first : Bool) (it : ℕ) (prev : Option ℝ),
    (prev = none ∨ prev = some (exHc !first)) →
    loop (huber (3 / 2)) exH exHb o n it (MEst.residual exH exHb (exHz first)) [] prev st = (.error .nonConv, st)
  | 0, _, _, _, _ => rfl
  | n + 1, first, it, prev, hp => by
    have hc : converged o.tol prev (exHc first) = false := by
      rcases hp with rfl | rfl
      · rfl
      · exact exH_change htol first
    simp only [loop, exH_eval first heps, exH_wlse, exH_wresid, hc, Bool.false_eq_true, if_false]
    exact exH_loop htol heps st n (!first) (it + 1) _ (.inr (by rw [Bool.not_not]))

/-- **C127.** Not so Huber's weights, whose scale is found anew by every pass: three samples of a constant, 0, 9 and -4, never converge from
their mean, whatever the number of iterations, with the default constant and any tolerance up to 1/10. -/
theorem C127_huber_cycle (o : MEst.Opts) (htol : o.tol ≤ 1 / 10) (heps : o.eps < 3 / 4) (m : ℕ) (st : σ) :
    mEstimate [0, 9, -4] [fun _ => 1, fun _ => 1, fun _ => 1] (some fun _ : Fin 1 => (5 / 3 : ℝ)) (some (huber (3 / 2))) [] { o with maxit := m } st =
      (.error .nonConv, st) := by
  have := exH_loop (o := { o with maxit := m }) htol heps st m true 0 none (.inl rfl)
  have hz : exHz true = fun _ => 5 / 3 := by funext; simp [exHz]
  rw [hz] at this
  exact this

/-- **C127.** And so `transfer_function` with the default weights `mest_weights` raises NonConvergence on these samples, for every number of
iterations: least squares find their mean, and from there Huber's weights oscillate. -/
theorem C127_default (o : MEst.Opts) (htol : o.tol ≤ 1 / 10) (heps : o.eps < 3 / 4) (m : ℕ) (heap : ℕ → Mem) :
    (transferFunction [[0, 9, -4]] (fun _ : Fin 1 => ([1, 1, 1] : List ℝ)) (weighting mestWeights) none .none { o with maxit := m } heap).1 =
      .error .nonConv := by
  have hrows : rowsOf (fun _ : Fin 1 => ([1, 1, 1] : List ℝ)) 3 = exHb := by
    simp [rowsOf, exHb, List.range_succ]
  have hls : wlse exH exHb none = .ok (exHz true) := by
    refine (wlse_ok (x := exH) (y := exHb) (ws := [1, 1, 1]) rfl ⟨rfl, .inl ⟨rfl, rfl⟩⟩).2 ⟨?_, ?_⟩
    · rw [C44_independent _ (by simp [obs, exH, exHb])]
      intro d hd
      have := hd ⟨1, 0, fun _ => 1⟩ (by simp [obs, exH, exHb]) one_ne_zero
      simp [dotProduct] at this
      funext j
      rw [Fin.fin_one_eq_zero j, this]; rfl
    · intro j
      simp [obs, dotProduct, exH, exHb, exHz]; norm_num
  have hel : ∀ {β : Type} (l : List β), eliminate l (some []) = .ok l := fun _ => by rfl
  have hwt : (weighting mestWeights : Weighting Mem ℝ 1) =
      [none, some (1, huber (3 / 2)), some (2, (Obj.base (.thomson none)).call)] := by
    have : (Obj.base (.huber 1.5)).call = (huber (3 / 2) : WFun Mem ℝ 1) := by
      rw [show (1.5 : ℝ) = 3 / 2 by norm_num]; rfl
    rw [← this]
    rfl
  have hH := exH_loop (o := { o with maxit := m }) htol heps (heap 1) m true 0 none (.inl rfl)
  have hlen : exH.length ≠ 0 := by simp [exH]
  have hch : (chainLoop { o with maxit := m } (weighting mestWeights) exH exHb none (some []) heap).1 = .error .nonConv := by
    rw [hwt]
    simp only [chainLoop, hel, if_neg hlen, callEstimate, mEstimate, List.any_nil, Bool.false_eq_true, if_false, List.length_nil, if_true, hls, hH]
  have hone : (oneOutput { o with maxit := m } (weighting mestWeights) exHb exH none [] heap).1 = .error .nonConv := by
    unfold oneOutput
    revert hch
    cases chainLoop { o with maxit := m } (weighting mestWeights) exH exHb none (some []) heap with
    | mk r h => intro hch; cases hch; rfl
  have hout : (outputsLoop { o with maxit := m } (weighting mestWeights) exHb [(exH, none, [])] heap).1 = .error .nonConv := by
    unfold outputsLoop
    revert hone
    cases oneOutput { o with maxit := m } (weighting mestWeights) exHb exH none [] heap with
    | mk r h => intro hch; cases hch; rfl
  rw [← hrows] at hout
  rw [← hout]
  simp [transferFunction, InvArg.norm, exH]

/-- Weight 1 for every sample: a fixed loss. -/
def exUnitW : WFun Unit ℝ 1 := fun st _ _ e _ _ => (.ok (some (List.replicate e.length (.fin 1))), st)

theorem exUnitW_fixed {e : List ℝ} {b : List (Fin 1 → ℝ)} (st : Unit) (it : ℕ) (inv : List ℕ) (shown : List (Option ℝ)) (h : shown.length = e.length) :
    ∃ w0, (exUnitW st it shown e b inv).1 = .ok (some w0) ∧ ∀ (i : ℕ) x, shown[i]? = some (some x) → w0[i]? = some (.fin ((fun _ => (1 : ℝ)) ‖x‖)) := by
  refine ⟨_, rfl, fun i x hx => ?_⟩
  have : i < e.length := by
    rw [← h]; exact (List.getElem?_eq_some_iff.1 hx).1
  simp [this]

/-- The hypotheses of `C127_fixed` are met by these weights, on the samples on which Huber's weights oscillate. -/
example (z0 : Fin 1 → ℝ) : Settles (fun m => mEstimate exH exHb (some z0) (some exUnitW) [] { maxit := m } ()) ∨
    PassFits exUnitW exH exHb (1 / 10 ^ 14) z0 [] () :=
  C127_fixed exUnitW (by intro _ _ _ _ _ _; simp [exUnitW]) (fun _ => 1) (fun _ _ _ _ _ => le_rfl) continuousOn_const (fun _ _ => zero_le_one) exH exHb rfl
    exUnitW_fixed z0 [] {} (by norm_num) (by norm_num) ()

theorem exUnitW_rejected {e : List ℝ} {b : List (Fin 1 → ℝ)} {eps : ℝ} (h : eps < 1) : ∀ {ps : List (Pass Unit ℝ 1)} {it : ℕ} {r : List ℝ} {st : Unit},
    Passes exUnitW e b eps it r [] st ps → ∀ p ∈ ps, p.rejected = []
  | [], _, _, _, _, _, hp => by simp at hp
  | a :: ps, _, _, _, .cons h1 h2, p, hp => by
    have ha : a.rejected = [] := by
      obtain ⟨shown, raw, hev, -, -, hcase⟩ := h1.eval
      simp only [exUnitW, Prod.mk.injEq, Except.ok.injEq] at hev
      rw [← hev.1] at hcase
      rcases hcase with ⟨h, -⟩ | ⟨w0, w, hw0, -, -, hwl, hw, -, hrej⟩
      · simp at h
      · simp only [Option.some.injEq] at hw0
        refine List.eq_nil_iff_forall_not_mem.2 (fun i hi => ?_)
        obtain ⟨v, hv, hle⟩ := (hrej i).1 hi
        have hil : i < e.length := by
          rw [← hwl]; exact (List.getElem?_eq_some_iff.1 hv).1
        have := hw i (.fin 1) (by rw [← hw0]; simp [hil])
        rw [hv] at this
        simp only [List.not_mem_nil, if_false, Option.some.injEq, Flt.fin.injEq] at this
        rw [this, abs_one] at hle
        linarith
    rcases List.mem_cons.1 hp with rfl | hp
    · exact ha
    · rw [ha] at h2
      exact exUnitW_rejected h h2 p hp

/-- There no pass fits exactly, so that the estimation settles. -/
example (z0 : Fin 1 → ℝ) : Settles (fun m => mEstimate exH exHb (some z0) (some exUnitW) [] { maxit := m } ()) := by
  rcases C127_fixed exUnitW (by intro _ _ _ _ _ _; simp [exUnitW]) (fun _ => 1) (fun _ _ _ _ _ => le_rfl) continuousOn_const (fun _ _ => zero_le_one) exH exHb rfl
    exUnitW_fixed z0 [] {} (by norm_num) (by norm_num) () with h | ⟨ps, p, hp, hfit, -⟩
  · exact h
  · have hrej := exUnitW_rejected (by norm_num) hp p (by simp)
    rw [hrej] at hfit
    have hr : resid exH exHb p.z = [- p.z 0, 9 - p.z 0, -4 - p.z 0] := exH_resid p.z
    rw [hr] at hfit
    have h0 := hfit 0 _ rfl (by simp)
    have h1 := hfit 1 _ rfl (by simp)
    linarith

/-- **C127.** The exception is real: samples fitted exactly have a weighted sum of squares of zero, of which no relative change is small, and raise
NonConvergence for every number of iterations. -/
theorem C127_exact (o : MEst.Opts) (heps : o.eps < 1) (m : ℕ) :
    mEstimate [2, 2] [fun _ => 1, fun _ => 1] (some fun _ : Fin 1 => (0 : ℝ)) (some exUnitW) [] { o with maxit := m } () = (.error .nonConv, ()) := by
  have hone : ¬ |(1 : ℝ)| ≤ o.eps := by rw [abs_one]; linarith
  have hw : WeightsAre (some ([1, 1].map Flt.fin)) 2 [1, 1] := ⟨rfl, .inr rfl⟩
  have hwl : wlse [2, 2] [fun _ => 1, fun _ => 1] (some [.fin 1, .fin 1]) = .ok (fun _ : Fin 1 => (2 : ℝ)) := by
    refine (wlse_ok (x := ([2, 2] : List ℝ)) (y := [fun _ : Fin 1 => (1 : ℝ), fun _ => 1]) rfl hw).2 ⟨?_, ?_⟩
    · rw [C44_independent _ (by simp [obs])]
      intro d hd
      have := hd ⟨1, 2, fun _ => 1⟩ (by simp [obs]) one_ne_zero
      simp [dotProduct] at this
      funext j
      rw [Fin.fin_one_eq_zero j, this]; rfl
    · intro j
      simp [obs, dotProduct]
  have hwr : wresid (some [.fin 1, .fin 1]) (MEst.residual [2, 2] [fun _ => 1, fun _ => 1] (fun _ : Fin 1 => (2 : ℝ))) = 0 := by
    have := wresid_eq (e := ([2, 2] : List ℝ)) (b := [fun _ : Fin 1 => (1 : ℝ), fun _ => 1]) rfl hw (fun _ => 2)
    simp only [List.map_cons, List.map_nil] at this
    rw [this]
    simp [cost, obs, dotProduct]
  have hev : ∀ it (z : Fin 1 → ℝ), evalWeight exUnitW it (MEst.residual [2, 2] [fun _ => 1, fun _ => 1] z) [2, 2] [fun _ => 1, fun _ => 1] [] o.eps () =
      (.ok (some [.fin 1, .fin 1], []), ()) := by
    intro it z
    unfold evalWeight
    simp [exUnitW, MEst.residual, zeroAt, negligible, Flt.close0, heps, List.replicate_succ, List.zipIdx_cons]
  have key : ∀ n it (z : Fin 1 → ℝ) prev, (prev = none ∨ prev = some 0) → loop exUnitW [2, 2] [fun _ => 1, fun _ => 1] { o with maxit := m } n it
      (MEst.residual [2, 2] [fun _ => 1, fun _ => 1] z) [] prev () = (.error .nonConv, ()) := by
    intro n
    induction n with
    | zero => intro it z prev _; rfl
    | succ n ih =>
      intro it z prev hp
      have hc : converged o.tol prev 0 = false := by
        rcases hp with rfl | rfl
        · rfl
        · simp [converged]
      simp only [loop, hev, hwl, hwr, hc, Bool.false_eq_true, if_false]
      exact ih _ _ _ (.inr rfl)
  exact key m 0 _ none (.inl rfl)

/-- Thomson's weights qualify for `C127_transfer`, here after least squares. -/
example (outputs : List (List ℂ)) (inputs : Fin 2 → List ℂ) (heap : ℕ → Option Flt) :
    Settles (fun m => transferFunction outputs inputs [none, some (0, thomson none)] none .none { maxit := m } heap) ∨
      ∃ line ∈ outputs, ∃ removed z0 st, PassFits (thomson none) (withoutAll line removed) (withoutAll (rowsOf inputs line.length) removed) (1 / 10 ^ 14) z0 [] st := by
  rcases C127_transfer outputs inputs [none, some (0, thomson none)] {} (by
    intro i wf h
    simp only [List.mem_cons, reduceCtorEq, Option.some.injEq, Prod.mk.injEq, List.not_mem_nil, or_false, false_or] at h
    rw [h.2]
    exact C127_thomson none (by simp) (by norm_num) _ (by norm_num) (by norm_num)) none .none heap with h | ⟨i, wf, hm, line, hl, removed, z0, st, h⟩
  · exact .inl h
  · simp only [List.mem_cons, reduceCtorEq, Option.some.injEq, Prod.mk.injEq, List.not_mem_nil, or_false, false_or] at hm
    rw [hm.2] at h
    exact .inr ⟨line, hl, removed, z0, st, h⟩

end Razorback.Props
