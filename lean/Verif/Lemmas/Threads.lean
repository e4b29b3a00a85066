/-
Threads: computations interrupted at calls are the estimations, and separate ones do not disturb one another.
-/
import Verif.Model.Threads

namespace Razorback.Threads
open Razorback Razorback.MEst Razorback.Spec

variable {𝕜 : Type} [RCLike 𝕜] {q : ℕ} {σ : Type} {R S : Type}

theorem alone_bind (obj : Objects σ 𝕜) (p : Prog 𝕜 R) (f : R → Prog 𝕜 S) (heap : ℕ → σ) :
    alone obj (p.bind f) heap = match alone obj p heap with
      | (.error x, heap) => (.error x, heap)
      | (.ok r, heap) => alone obj (f r) heap := by
  induction p generalizing heap with
  | done r => cases r <;> rfl
  | call i q c k ih => exact ih _ _

/-- The weight functions as given to the estimations. -/
def asWeighting (obj : Objects σ 𝕜) (ws : List (Option ℕ)) : Weighting σ 𝕜 q := ws.map (Option.map (fun i => (i, obj i q)))

theorem alone_loop (obj : Objects σ 𝕜) (i : ℕ) (e : List 𝕜) (b : List (Fin q → 𝕜)) (o : Opts) (n it : ℕ) (r : List 𝕜) (inv : List ℕ)
    (prev : Option ℝ) (heap : ℕ → σ) :
    alone obj (loop i e b o n it r inv prev) heap =
      ((MEst.loop (obj i q) e b o n it r inv prev (heap i)).1,
        Function.update heap i (MEst.loop (obj i q) e b o n it r inv prev (heap i)).2) := by
  induction n generalizing it r inv prev heap with
  | zero => simp [loop, MEst.loop, alone]
  | succ n ih =>
    have hnext : ∀ (w : Option (List Flt)) (inv : List ℕ) (st : σ),
        alone obj (match wlse e b w with
          | .error x => .done (.error x)
          | .ok z => if converged o.tol prev (wresid w (residual e b z)) then .done (.ok (z, inv))
            else loop i e b o n (it + 1) (residual e b z) inv (some (wresid w (residual e b z)))) (Function.update heap i st) =
        ((match wlse e b w with
          | .error x => (.error x, st)
          | .ok z => if converged o.tol prev (wresid w (residual e b z)) then (.ok (z, inv), st)
            else MEst.loop (obj i q) e b o n (it + 1) (residual e b z) inv (some (wresid w (residual e b z))) st :
              Except Err ((Fin q → 𝕜) × List ℕ) × σ).1,
          Function.update heap i (match wlse e b w with
          | .error x => (.error x, st)
          | .ok z => if converged o.tol prev (wresid w (residual e b z)) then (.ok (z, inv), st)
            else MEst.loop (obj i q) e b o n (it + 1) (residual e b z) inv (some (wresid w (residual e b z))) st :
              Except Err ((Fin q → 𝕜) × List ℕ) × σ).2) := by
      intro w inv st
      cases wlse e b w with
      | error x => rfl
      | ok z =>
        dsimp only
        by_cases hc : converged o.tol prev (wresid w (residual e b z)) = true
        · simp only [hc, if_true]
          rfl
        · simp only [hc]
          rw [if_neg (by simp), if_neg (by simp), ih]
          simp
    rw [loop, MEst.loop, evalWeight]
    by_cases hany : inv.any (fun i => decide (r.length ≤ i)) = true
    · simp only [hany, if_true]
      simp [alone]
    · simp only [hany]
      rw [if_neg (by simp), if_neg (by simp), alone]
      dsimp only
      cases hcall : obj i q (heap i) it (mask r inv) e b inv with
      | mk x st =>
        dsimp only
        cases x with
        | error x => rfl
        | ok w =>
          cases w with
          | none => exact hnext none inv st
          | some w =>
            dsimp only
            by_cases hl : w.length ≠ r.length
            · rw [if_pos hl, if_pos hl]
              rfl
            · rw [if_neg hl, if_neg hl]
              exact hnext _ _ st

theorem alone_estimate (obj : Objects σ 𝕜) (e : List 𝕜) (b : List (Fin q → 𝕜)) (z0 : Option (Fin q → 𝕜)) (w : Option ℕ) (o : Opts)
    (heap : ℕ → σ) :
    alone obj (estimate e b z0 w o) heap = callEstimate e b z0 (w.map (fun i => (i, obj i q))) o heap := by
  cases w with
  | none => rfl
  | some i =>
    cases z0 with
    | none => simp [estimate, callEstimate, mEstimate, alone]
    | some z =>
      simp only [estimate, callEstimate, mEstimate, Option.map_some]
      exact alone_loop obj i e b o _ _ _ _ _ heap

theorem alone_chain (obj : Objects σ 𝕜) (o : Opts) (ws : List (Option ℕ)) (e : List 𝕜) (b : List (Fin q → 𝕜))
    (z : Option (Fin q → 𝕜)) (ii : Option (List ℕ)) (heap : ℕ → σ) :
    alone obj (chain o ws e b z ii) heap = chainLoop o (asWeighting obj ws) e b z ii heap := by
  induction ws generalizing e b z ii heap with
  | nil => rfl
  | cons w ws ih =>
    simp only [asWeighting, List.map_cons]
    rw [chain, chainLoop]
    cases eliminate e ii with
    | error x => rfl
    | ok e =>
      dsimp only
      cases eliminate b ii with
      | error x => rfl
      | ok b =>
        dsimp only
        by_cases h0 : e.length = 0
        · rw [if_pos h0, if_pos h0]; rfl
        · rw [if_neg h0, if_neg h0, alone_bind, alone_estimate]
          cases callEstimate e b z (w.map (fun i => (i, obj i q))) o heap with
          | mk x heap =>
            cases x with
            | error x => rfl
            | ok p =>
              dsimp only
              rw [alone_bind, ih]
              unfold asWeighting
              cases chainLoop o (ws.map (Option.map (fun i => (i, obj i q)))) e b (some p.1) (some p.2) heap with
              | mk y heap => cases y <;> rfl

theorem alone_oneOutput (obj : Objects σ 𝕜) (o : Opts) (ws : List (Option ℕ)) (b : List (Fin q → 𝕜)) (line : List 𝕜)
    (z0 : Option (Fin q → 𝕜)) (inv : List ℕ) (heap : ℕ → σ) :
    alone obj (oneOutput o ws b line z0 inv) heap = MEst.oneOutput o (asWeighting obj ws) b line z0 inv heap := by
  unfold oneOutput MEst.oneOutput
  rw [alone_bind, alone_chain]
  cases chainLoop o (asWeighting obj ws) line b z0 (some inv) heap with
  | mk x heap =>
    cases x with
    | error x => rfl
    | ok l =>
      dsimp only
      cases mergeInvalid (inv :: l.map Prod.snd) <;> rfl

theorem alone_outputsLoop (obj : Objects σ 𝕜) (o : Opts) (ws : List (Option ℕ)) (b : List (Fin q → 𝕜))
    (l : List (List 𝕜 × Option (Fin q → 𝕜) × List ℕ)) (heap : ℕ → σ) :
    alone obj (outputsLoop o ws b l) heap = MEst.outputsLoop o (asWeighting obj ws) b l heap := by
  induction l generalizing heap with
  | nil => rfl
  | cons t l ih =>
    obtain ⟨line, z0, inv⟩ := t
    rw [outputsLoop, MEst.outputsLoop, alone_bind, alone_oneOutput]
    cases MEst.oneOutput o (asWeighting obj ws) b line z0 inv heap with
    | mk x heap =>
      cases x with
      | error x => rfl
      | ok p =>
        dsimp only
        rw [alone_bind, ih]
        cases MEst.outputsLoop o (asWeighting obj ws) b l heap with
        | mk y heap => cases y <;> rfl

theorem alone_transferFunction (obj : Objects σ 𝕜) (outputs : List (List 𝕜)) (inputs : Fin q → List 𝕜) (ws : List (Option ℕ))
    (init : Option (List (Fin q → 𝕜))) (inv : InvArg) (o : Opts) (heap : ℕ → σ) :
    alone obj (transferFunction outputs inputs ws init inv o) heap =
      MEst.transferFunction outputs inputs (asWeighting obj ws) init inv o heap := by
  unfold transferFunction MEst.transferFunction
  cases inv.norm outputs.length with
  | error x => rfl
  | ok inv =>
    cases outputs with
    | nil => rfl
    | cons y ys =>
      cases init with
      | none =>
        dsimp only
        split_ifs with h1 h2 h3
        · rfl
        · rfl
        · rfl
        · exact alone_outputsLoop obj o ws _ _ heap
      | some init =>
        dsimp only
        split_ifs with h1 h2 h3
        · rfl
        · rfl
        · rfl
        · exact alone_outputsLoop obj o ws _ _ heap

/-! Which objects a computation may call -/

/-- The computation only calls objects in `own`. -/
def Within (own : ℕ → Prop) : Prog 𝕜 R → Prop
  | .done _ => True
  | .call i _ _ k => own i ∧ ∀ x, Within own (k x)

theorem within_bind {own : ℕ → Prop} {p : Prog 𝕜 R} {f : R → Prog 𝕜 S} (hp : Within own p) (hf : ∀ r, Within own (f r)) :
    Within own (p.bind f) := by
  induction p with
  | done r =>
    cases r with
    | error x => trivial
    | ok r => exact hf r
  | call i q c k ih => exact ⟨hp.1, fun x => ih x (hp.2 x)⟩

theorem within_loop {own : ℕ → Prop} (i : ℕ) (hi : own i) (e : List 𝕜) (b : List (Fin q → 𝕜)) (o : Opts) (n it : ℕ) (r : List 𝕜)
    (inv : List ℕ) (prev : Option ℝ) : Within own (loop i e b o n it r inv prev) := by
  induction n generalizing it r inv prev with
  | zero => trivial
  | succ n ih =>
    rw [loop]
    split
    · trivial
    · refine ⟨hi, fun x => ?_⟩
      dsimp only
      split
      · trivial
      · split
        · trivial
        · split
          · trivial
          · exact ih _ _ _ _
      · split
        · trivial
        · split
          · trivial
          · split
            · trivial
            · exact ih _ _ _ _

theorem within_chain {own : ℕ → Prop} (o : Opts) (ws : List (Option ℕ)) (hws : ∀ i, some i ∈ ws → own i) (e : List 𝕜)
    (b : List (Fin q → 𝕜)) (z : Option (Fin q → 𝕜)) (ii : Option (List ℕ)) : Within own (chain o ws e b z ii) := by
  induction ws generalizing e b z ii with
  | nil => trivial
  | cons w ws ih =>
    rw [chain]
    split
    · trivial
    · split
      · trivial
      · split
        · trivial
        · refine within_bind ?_ (fun p => within_bind (ih (fun i hi => hws i (by simp [hi])) _ _ _ _) (fun l => trivial))
          unfold estimate
          split
          · trivial
          · split
            · trivial
            · exact within_loop _ (hws _ (by simp)) _ _ _ _ _ _ _ _

theorem within_transferFunction {own : ℕ → Prop} (outputs : List (List 𝕜)) (inputs : Fin q → List 𝕜) (ws : List (Option ℕ))
    (hws : ∀ i, some i ∈ ws → own i) (init : Option (List (Fin q → 𝕜))) (inv : InvArg) (o : Opts) :
    Within own (transferFunction outputs inputs ws init inv o) := by
  have hloop : ∀ (b : List (Fin q → 𝕜)) (l : List (List 𝕜 × Option (Fin q → 𝕜) × List ℕ)), Within own (outputsLoop o ws b l) := by
    intro b l
    induction l with
    | nil => trivial
    | cons t l ih =>
      obtain ⟨line, z0, inv⟩ := t
      rw [outputsLoop]
      refine within_bind (within_bind (within_chain o ws hws _ _ _ _) (fun l => ?_)) (fun p => within_bind ih (fun ps => trivial))
      split <;> trivial
  unfold transferFunction
  split
  · trivial
  · split
    · trivial
    · dsimp only
      split
      · trivial
      · split
        · trivial
        · split_ifs
          · trivial
          · exact hloop _ _

/-! Running a number of calls -/

/-- `n` calls of a computation on its own. -/
def calls (obj : Objects σ 𝕜) : ℕ → Prog 𝕜 R → (ℕ → σ) → Prog 𝕜 R × (ℕ → σ)
  | 0, p, heap => (p, heap)
  | _ + 1, .done r, heap => (.done r, heap)
  | n + 1, .call i q c k, heap =>
    let res := obj i q (heap i) c.it c.r c.e c.b c.inv
    calls obj n (k res.1) (Function.update heap i res.2)

theorem calls_done (obj : Objects σ 𝕜) (p : Prog 𝕜 R) (heap : ℕ → σ) :
    ∃ n, ∀ m, n ≤ m → calls obj m p heap = (.done (alone obj p heap).1, (alone obj p heap).2) := by
  induction p generalizing heap with
  | done r =>
    refine ⟨0, fun m _ => ?_⟩
    cases m <;> rfl
  | call i q c k ih =>
    obtain ⟨n, hn⟩ := ih (obj i q (heap i) c.it c.r c.e c.b c.inv).1
      (Function.update heap i (obj i q (heap i) c.it c.r c.e c.b c.inv).2)
    refine ⟨n + 1, fun m hm => ?_⟩
    obtain ⟨m, rfl⟩ : ∃ k, m = k + 1 := ⟨m - 1, by omega⟩
    exact hn m (by omega)

variable {R : ℕ → Type}

/-- What a thread has done, and the memories of its objects, only depend on how often it was its turn. -/
theorem interleave_own (obj : Objects σ 𝕜) (own : ℕ → ℕ → Prop) (hsep : ∀ t t' i, own t i → own t' i → t = t') (order : List ℕ)
    (s : (∀ t, Prog 𝕜 (R t)) × (ℕ → σ)) (hs : ∀ t, Within (own t) (s.1 t)) (t : ℕ) (heap : ℕ → σ) (hh : ∀ i, own t i → heap i = s.2 i) :
    (interleave obj order s).1 t = (calls obj (order.count t) (s.1 t) heap).1 ∧
      ∀ i, own t i → (interleave obj order s).2 i = (calls obj (order.count t) (s.1 t) heap).2 i := by
  induction order generalizing s heap with
  | nil => exact ⟨rfl, fun i hi => (hh i hi).symm⟩
  | cons a order ih =>
    simp only [interleave, List.foldl_cons]
    have hcase : ∀ (p : Prog 𝕜 (R a)), s.1 a = p → (interleave obj order (step obj a s)).1 t =
        (calls obj ((a :: order).count t) (s.1 t) heap).1 ∧
      ∀ i, own t i → (interleave obj order (step obj a s)).2 i = (calls obj ((a :: order).count t) (s.1 t) heap).2 i := by
      intro p hp
      cases p with
      | done r =>
        have hst : step obj a s = s := by unfold step; rw [hp]
        rw [hst]
        have := ih s hs heap hh
        by_cases hat : a = t
        · subst hat
          rw [List.count_cons_self]
          rw [hp] at this ⊢
          cases hn : order.count a with
          | zero => rw [hn] at this; exact this
          | succ n => rw [hn] at this; exact this
        · rw [List.count_cons_of_ne hat]
          exact this
      | call i q c k =>
        have hst : step obj a s = (Function.update s.1 a (k (obj i q (s.2 i) c.it c.r c.e c.b c.inv).1),
            Function.update s.2 i (obj i q (s.2 i) c.it c.r c.e c.b c.inv).2) := by
          unfold step; rw [hp]
        have hw := hs a
        rw [hp] at hw
        obtain ⟨hi, hk⟩ := hw
        have hs' : ∀ t, Within (own t) ((step obj a s).1 t) := by
          intro t'
          rw [hst]
          by_cases h : t' = a
          · subst h; simpa using hk _
          · simpa [Function.update_of_ne h] using hs t'
        by_cases hat : a = t
        · subst hat
          have := ih (step obj a s) hs' (Function.update heap i (obj i q (heap i) c.it c.r c.e c.b c.inv).2) (by
            intro j hj
            rw [hst, hh i hi]
            by_cases h : j = i
            · subst h; simp
            · simp [Function.update_of_ne h, hh j hj])
          rw [List.count_cons_self, hp, calls]
          rw [hst] at this ⊢
          simp only [Function.update_self] at this
          rw [hh i hi] at this ⊢
          exact this
        · have := ih (step obj a s) hs' heap (by
            intro j hj
            rw [hst]
            have : j ≠ i := fun h => hat (hsep a t i hi (h ▸ hj))
            simp [Function.update_of_ne this, hh j hj])
          rw [List.count_cons_of_ne hat]
          rw [hst] at this ⊢
          simp only [Function.update_of_ne (Ne.symm hat)] at this
          exact this
    exact hcase _ rfl

end Razorback.Threads
