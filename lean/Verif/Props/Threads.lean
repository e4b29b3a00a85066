/-
Property C101: estimations in several threads.
-/
import Verif.Lemmas.Threads
import Verif.Props.Descent

namespace Razorback.Props
open Razorback Razorback.Spec Razorback.MEst Razorback.Weights Razorback.Threads

variable {𝕜 : Type} [RCLike 𝕜] {σ : Type}

/-- A turn of a thread about to call a weight object. -/
theorem step_call {𝕜 : Type} [RCLike 𝕜] {σ : Type} {R : ℕ → Type} {obj : Objects σ 𝕜} {t : ℕ} {s : (∀ t, Prog 𝕜 (R t)) × (ℕ → σ)}
    {i q : ℕ} {c : Call 𝕜 q} {k : Except Err (Option (List Flt)) → Prog 𝕜 (R t)} (h : s.1 t = .call i q c k) :
    step obj t s = (Function.update s.1 t (k (obj i q (s.2 i) c.it c.r c.e c.b c.inv).1),
      Function.update s.2 i (obj i q (s.2 i) c.it c.r c.e c.b c.inv).2) := by
  unfold step
  rw [h]

/-- Two turns of thread 0 with a turn of thread 1 in between, all calling object 0. -/
theorem three_turns {𝕜 : Type} [RCLike 𝕜] {σ : Type} {R : ℕ → Type} {obj : Objects σ 𝕜} {ps : ∀ t, Prog 𝕜 (R t)} (heap : ℕ → σ) {q : ℕ}
    {c0 c1 c2 : Call 𝕜 q} {k0 k2 : Except Err (Option (List Flt)) → Prog 𝕜 (R 0)}
    {k1 : Except Err (Option (List Flt)) → Prog 𝕜 (R 1)} (h0 : ps 0 = .call 0 q c0 k0) (h1 : ps 1 = .call 0 q c1 k1)
    (h2 : k0 (obj 0 q (heap 0) c0.it c0.r c0.e c0.b c0.inv).1 = .call 0 q c2 k2) :
    (interleave obj [0, 1, 0] (ps, heap)).1 0 =
      k2 (obj 0 q (obj 0 q (obj 0 q (heap 0) c0.it c0.r c0.e c0.b c0.inv).2 c1.it c1.r c1.e c1.b c1.inv).2
        c2.it c2.r c2.e c2.b c2.inv).1 := by
  simp only [interleave, List.foldl_cons, List.foldl_nil]
  rw [step_call (t := 0) (s := (ps, heap)) h0, h2]
  have h3 : (Function.update ps 0 (Prog.call 0 q c2 k2)) 1 = .call 0 q c1 k1 := by rw [Function.update_of_ne (by decide), h1]
  rw [step_call (t := 1) (s := (Function.update ps 0 (Prog.call 0 q c2 k2), _)) h3]
  have h4 : ∀ p, (Function.update (Function.update ps 0 (Prog.call 0 q c2 k2)) 1 p) 0 = .call 0 q c2 k2 := fun p => by
    rw [Function.update_of_ne (by decide), Function.update_self]
  generalize k1 _ = p
  rw [step_call (t := 0) (s := (Function.update (Function.update ps 0 (Prog.call 0 q c2 k2)) 1 p, _)) (h4 p)]
  simp only [Function.update_self]

/-- The arguments of a call of `transfer_function`; the weight objects are given by their numbers. -/
structure Job (𝕜 : Type) where
  q : ℕ
  outputs : List (List 𝕜)
  inputs : Fin q → List 𝕜
  weights : List (Option ℕ)
  init : Option (List (Fin q → 𝕜))
  invalid : InvArg
  opts : Opts

/-- **C101.** Calls of `transfer_function` running at the same time, in any order of their calls of weight objects, each give
what they would give alone, if no two of them have a weight object in common: a thread which has had enough turns is finished,
with that result. -/
theorem C101_separate (obj : Objects σ 𝕜) (jobs : ℕ → Job 𝕜)
    (hsep : ∀ t t' i, some i ∈ (jobs t).weights → some i ∈ (jobs t').weights → t = t') (heap : ℕ → σ) (t : ℕ) :
    ∃ n, ∀ order : List ℕ, n ≤ order.count t →
      (interleave obj order (fun t => Threads.transferFunction (jobs t).outputs (jobs t).inputs (jobs t).weights (jobs t).init
        (jobs t).invalid (jobs t).opts, heap)).1 t =
      .done (MEst.transferFunction (jobs t).outputs (jobs t).inputs
        ((jobs t).weights.map (Option.map (fun i => (i, obj i (jobs t).q)))) (jobs t).init (jobs t).invalid (jobs t).opts heap).1 := by
  obtain ⟨n, hn⟩ := calls_done obj (Threads.transferFunction (jobs t).outputs (jobs t).inputs (jobs t).weights (jobs t).init
        (jobs t).invalid (jobs t).opts) heap
  refine ⟨n, fun order ho => ?_⟩
  have := (interleave_own obj (fun t i => some i ∈ (jobs t).weights) hsep order
    (fun t => Threads.transferFunction (jobs t).outputs (jobs t).inputs (jobs t).weights (jobs t).init
        (jobs t).invalid (jobs t).opts, heap)
    (fun t => within_transferFunction _ _ _ (fun i hi => hi) _ _ _) t heap (fun _ _ => rfl)).1
  rw [this, hn _ ho, alone_transferFunction]
  rfl

/-- **C101.** With the weight objects of the library it does not matter either what they were used for before. -/
theorem C101_library (obj : ℕ → Obj) (jobs : ℕ → Job 𝕜)
    (hsep : ∀ t t' i, some i ∈ (jobs t).weights → some i ∈ (jobs t').weights → t = t') (heap heap' : ℕ → Mem) (t : ℕ) :
    ∃ n, ∀ order : List ℕ, n ≤ order.count t →
      (interleave (fun i q => (obj i).call (q := q)) order (fun t => Threads.transferFunction (jobs t).outputs (jobs t).inputs
        (jobs t).weights (jobs t).init (jobs t).invalid (jobs t).opts, heap)).1 t =
      .done (MEst.transferFunction (jobs t).outputs (jobs t).inputs
        ((jobs t).weights.map (Option.map (fun i => (i, (obj i).call)))) (jobs t).init (jobs t).invalid (jobs t).opts heap').1 := by
  obtain ⟨n, hn⟩ := C101_separate (fun i q => (obj i).call (q := q)) jobs hsep heap t
  refine ⟨n, fun order ho => ?_⟩
  rw [hn order ho]
  congr 1
  apply transferFunction_resets
  intro i wf h
  obtain ⟨w, -, he⟩ := List.mem_map.1 h
  cases w with
  | none => simp at he
  | some j =>
    simp only [Option.map_some, Option.some.injEq, Prod.mk.injEq] at he
    rw [← he.2]
    exact C53_resets _

/-- The hypothesis of C101: thread `t` estimates with a Huber object and then a Thomson object of its own. -/
example : ∀ t t' i : ℕ, some i ∈ ([none, some (2 * t), some (2 * t + 1)] : List (Option ℕ)) →
    some i ∈ ([none, some (2 * t'), some (2 * t' + 1)] : List (Option ℕ)) → t = t' := by
  intro t t' i h h'
  simp only [List.mem_cons, reduceCtorEq, Option.some.injEq, List.not_mem_nil, or_false, false_or] at h h'
  omega

/-- **C101.** Sharing a Thomson object is not safe: an estimation which succeeds alone may raise LinAlgError if another one,
of another thread, starts with the same object while it is running. -/
theorem C101_shared : ∃ (order : List ℕ) (e e' : List ℝ) (b b' : List (Fin 1 → ℝ)) (z z' : Fin 1 → ℝ) (o : Opts),
    ∀ heap : ℕ → Mem,
    (callEstimate e b (some z) (some (0, (Obj.base (.thomson (some 3))).call)) o heap).1 = .ok (z, []) ∧
    (interleave (R := fun _ => (Fin 1 → ℝ) × List ℕ) (fun _ q => (Obj.base (.thomson (some 3))).call (q := q)) order
      (fun t => if t = 0 then estimate e b (some z) (some 0) o else estimate e' b' (some z') (some 0) o, heap)).1 0 =
      .done (.error .linAlg) := by
  obtain ⟨u, v, s, hu0, hv0, hpos, hcall⟩ := exT_call
  obtain ⟨hl, hwr, hneg, hzero⟩ := exT_wlse hu0 hv0
  refine ⟨[0, 1, 0], exT, [1, 1], exTb, [fun _ => 1, fun _ => 1], fun _ => 0, fun _ => 0, { eps := 0 }, fun heap => ⟨?_, ?_⟩⟩
  · have hev : ∀ it (st : Mem), (it = 0 ∨ st.2 = some (.fin s)) →
        evalWeight (Obj.base (.thomson (some 3))).call it exT exT exTb [] 0 st =
          (.ok (some [.fin u, .fin u, .fin v, .fin v], []), (st.1, some (.fin s))) := by
      intro it st h
      unfold evalWeight
      simp only [Obj.call, Base.call, hcall it st.2 h]
      simp only [List.any_nil, Bool.false_eq_true, if_false]
      rw [if_neg (by simp [exT]), hneg, hzero]
    show (MEst.loop _ exT exTb { eps := 0 } (98 + 1 + 1) 0 (MEst.residual exT exTb (fun _ => 0)) [] none (heap 0)).1 = _
    rw [exT_residual, MEst.loop, hev 0 _ (.inl rfl)]
    simp only [hl, converged, Bool.false_eq_true, if_false]
    rw [MEst.loop, exT_residual, hev 1 _ (.inr rfl)]
    simp only [hl]
    rw [if_pos]
    unfold converged
    simp only [decide_eq_true_eq]
    refine ⟨hwr, ?_⟩
    rw [exT_residual]
    norm_num
  · -- the scale of the other residuals
    have hres' : MEst.residual (𝕜 := ℝ) (q := 1) [1, 1] [fun _ => 1, fun _ => 1] (fun _ => 0) = [1, 1] := by simp [MEst.residual]
    have hsc : madScaleAbs (vnorm (mask ([1, 1] : List ℝ) [])) = some 0 := by
      rw [madScale_some]
      have : sizes (mask ([1, 1] : List ℝ) []) = [1, 1] := by simp [sizes, valid, mask]
      rw [this]
      refine ⟨1, 0, ⟨_, .refl _, by norm_num, .inr ⟨0, 1, 1, rfl, rfl, rfl, by norm_num⟩⟩, ?_, by norm_num⟩
      have : ([1, 1] : List ℝ).map (fun v => |v - 1|) = [0, 0] := by norm_num
      rw [this]
      exact ⟨_, .refl _, by norm_num, .inr ⟨0, 0, 0, rfl, rfl, rfl, by norm_num⟩⟩
    have hother : ∀ st, (thomson (q := 1) (some 3) st 0 (mask ([1, 1] : List ℝ) []) [1, 1] [fun _ => 1, fun _ => 1] []).2 =
        some (.fin 0) := by
      intro st
      simp only [thomson, if_true, hsc]
      rfl
    have hdead : thomson (q := 1) (some 3) (some (.fin 0)) 1 (mask exT []) exT exTb [] =
        (.ok (some [.fin 0, .fin 0, .fin 0, .fin 0]), some (.fin 0)) := by
      simp only [thomson, mask, vnorm, exT, List.zipIdx_cons, List.zipIdx_nil, List.map_cons, List.map_nil, flt, Flt.div, if_true,
        List.contains_nil, Bool.false_eq_true, Option.map_some, thomsonXi, one_ne_zero, if_false]
      norm_num [expexp_pinf]
    have hsing : wlse exT exTb (some [.fin 0, .fin 0, .fin 0, .fin 0]) = .error .linAlg := by
      refine (wlse_singular (ws := [0, 0, 0, 0]) rfl ⟨rfl, .inr rfl⟩).2 ?_
      intro h
      have := h (fun _ => 1) (by intro j; simp [obs, exT, exTb])
      have := congrFun this 0
      simp at this
    have hz0 : zeroAt [.fin 0, .fin 0, .fin 0, .fin 0] [] = [.fin 0, .fin 0, .fin 0, .fin 0] := by simp [zeroAt]
    have hfirst : (estimate exT exTb (some fun _ => 0) (some 0) { eps := 0 } : Prog ℝ _) =
        Threads.loop 0 exT exTb { eps := 0 } (98 + 1 + 1) 0 exT [] none := by
      show Threads.loop 0 exT exTb { eps := 0 } (98 + 1 + 1) 0 (MEst.residual exT exTb (fun _ => 0)) [] none = _
      rw [exT_residual]
    have hsecond : (estimate ([1, 1] : List ℝ) [fun _ => 1, fun _ => 1] (some fun _ => 0) (some 0) { eps := 0 } :
        Prog ℝ ((Fin 1 → ℝ) × List ℕ)) =
        Threads.loop 0 [1, 1] [fun _ => 1, fun _ => 1] { eps := 0 } (99 + 1) 0 [1, 1] [] none := by
      show Threads.loop 0 [1, 1] [fun _ => 1, fun _ => 1] { eps := 0 } (99 + 1) 0 (MEst.residual [1, 1] [fun _ => 1, fun _ => 1]
        (fun _ => 0)) [] none = _
      rw [hres']
    rw [hfirst, hsecond]
    have hl1 : ∀ n it prev, (Threads.loop 0 exT exTb { eps := 0 } (n + 1) it exT [] prev : Prog ℝ _) =
        .call 0 1 ⟨it, mask exT [], exT, exTb, []⟩ _ := fun n it prev => by
      rw [Threads.loop, if_neg (by simp)]
    have hl2 : ∀ n, (Threads.loop 0 ([1, 1] : List ℝ) [fun _ => 1, fun _ => 1] { eps := 0 } (n + 1) 0 [1, 1] [] none :
        Prog ℝ ((Fin 1 → ℝ) × List ℕ)) =
        .call 0 1 ⟨0, mask [1, 1] [], [1, 1], [fun _ => 1, fun _ => 1], []⟩ _ := fun n => by
      rw [Threads.loop, if_neg (by simp)]
    have ht0 : ∀ st : Mem, (Obj.base (.thomson (some 3))).call (q := 1) st 0 (mask exT []) exT exTb [] =
        (.ok (some [.fin u, .fin u, .fin v, .fin v]), (st.1, some (.fin s))) := fun st => by
      simp only [Obj.call, Base.call, hcall 0 st.2 (.inl rfl)]
    have ht1 : ∀ st : Mem, ((Obj.base (.thomson (some 3))).call (q := 1) st 0 (mask ([1, 1] : List ℝ) []) [1, 1]
        [fun _ => 1, fun _ => 1] []).2 = (st.1, some (.fin 0)) := fun st => by
      simp only [Obj.call, Base.call, hother]
    have ht2 : ∀ st : Mem, st.2 = some (.fin 0) → (Obj.base (.thomson (some 3))).call (q := 1) st 1 (mask exT []) exT exTb [] =
        (.ok (some [.fin 0, .fin 0, .fin 0, .fin 0]), (st.1, some (.fin 0))) := fun st h => by
      simp only [Obj.call, Base.call, h, hdead]
    refine (three_turns (R := fun _ => (Fin 1 → ℝ) × List ℕ) heap (hl1 _ _ _) (hl2 _)
      (Eq.trans (b := Threads.loop 0 exT exTb { eps := 0 } (98 + 1) 1 exT []
        (some (wresid (some [.fin u, .fin u, .fin v, .fin v]) exT))) ?_ (hl1 _ _ _))).trans ?_
    · simp only [ht0]
      rw [if_neg (by simp [exT])]
      simp only [hzero, hneg, hl, converged, Bool.false_eq_true, if_false, exT_residual]
      rw [hzero] at hneg
      rw [hneg]
    · simp only [ht0, ht1]
      rw [ht2 _ rfl]
      simp only
      rw [if_neg (by simp [exT])]
      simp only [hz0, hsing]

end Razorback.Props
