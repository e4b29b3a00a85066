/-
Estimations running in several threads.
An estimation is the same computation as in `Verif.Model.MEst`, but interrupted at each call of a weight object: what it
does next depends on what the call gives.  Simplification: the calls themselves are not interrupted, and threads share
nothing but weight objects.
-/
import Verif.Model.MEst
import Verif.Spec.MEst

namespace Razorback.Threads
open Razorback Razorback.MEst Razorback.Spec

variable {𝕜 : Type} [RCLike 𝕜] {q : ℕ} {σ : Type} {R S : Type}

/-- A computation calling weight objects: finished, or about to call object `i`. -/
inductive Prog (𝕜 : Type) (R : Type) : Type
  | done (r : Except Err R)
  | call (i : ℕ) (q : ℕ) (c : Call 𝕜 q) (k : Except Err (Option (List Flt)) → Prog 𝕜 R)

/-- One computation after the other; an exception stops it. -/
def Prog.bind : Prog 𝕜 R → (R → Prog 𝕜 S) → Prog 𝕜 S
  | .done (.ok r), f => f r
  | .done (.error x), _ => .done (.error x)
  | .call i q c k, f => .call i q c (fun x => (k x).bind f)

noncomputable section

/-- The rest of the loop of `m_estimate` and `_eval_weight`, mestimator.py:228-255, `n` iterations being left. -/
def loop (i : ℕ) (e : List 𝕜) (b : List (Fin q → 𝕜)) (o : Opts) :
    ℕ → ℕ → List 𝕜 → List ℕ → Option ℝ → Prog 𝕜 ((Fin q → 𝕜) × List ℕ)
  | 0, _, _, _, _ => .done (.error .nonConv)
  | n + 1, it, r, inv, prev =>
    if inv.any (fun i => decide (r.length ≤ i)) then .done (.error .index)
    else .call i q ⟨it, mask r inv, e, b, inv⟩ (fun x =>
      let next (w : Option (List Flt)) (inv : List ℕ) : Prog 𝕜 ((Fin q → 𝕜) × List ℕ) :=
        match wlse e b w with
        | .error x => .done (.error x)
        | .ok z =>
          let r := residual e b z
          let cur := wresid w r
          if converged o.tol prev cur then .done (.ok (z, inv))
          else loop i e b o n (it + 1) r inv (some cur)
      match x with
      | .error x => .done (.error x)
      | .ok none => next none inv
      | .ok (some w) =>
        if w.length ≠ r.length then .done (.error .value)
        else next (some (zeroAt w inv)) (negligible o.eps (zeroAt w inv)))

/-- `m_estimate` without invalid indices, mestimator.py:177-245, with the weight object `i` or without weights. -/
def estimate (e : List 𝕜) (b : List (Fin q → 𝕜)) (z0 : Option (Fin q → 𝕜)) (w : Option ℕ) (o : Opts) :
    Prog 𝕜 ((Fin q → 𝕜) × List ℕ) :=
  match w with
  | none => .done (mEstimate (σ := Unit) e b z0 none [] o ()).1
  | some i =>
    match z0 with
    | none => .done (.error .type)
    | some z => loop i e b o o.maxit 0 (residual e b z) [] none

/-- `chain_m_estimate`, mestimator.py:154-174. -/
def chain (o : Opts) : List (Option ℕ) → List 𝕜 → List (Fin q → 𝕜) → Option (Fin q → 𝕜) → Option (List ℕ) →
    Prog 𝕜 (List ((Fin q → 𝕜) × List ℕ))
  | [], _, _, _, _ => .done (.ok [])
  | w :: ws, e, b, z, ii =>
    match eliminate e ii with
    | .error x => .done (.error x)
    | .ok e =>
      match eliminate b ii with
      | .error x => .done (.error x)
      | .ok b =>
        if e.length = 0 then .done (.error .value)
        else (estimate e b z w o).bind (fun p =>
          (chain o ws e b (some p.1) (some p.2)).bind (fun l => .done (.ok (p :: l))))

/-- The body of the loop of `transfer_function`, mestimator.py:109-114. -/
def oneOutput (o : Opts) (ws : List (Option ℕ)) (b : List (Fin q → 𝕜)) (line : List 𝕜) (z0 : Option (Fin q → 𝕜))
    (inv : List ℕ) : Prog 𝕜 (Option (Fin q → 𝕜) × List ℕ) :=
  (chain o ws line b z0 (some inv)).bind (fun l =>
    match mergeInvalid (inv :: l.map Prod.snd) with
    | .error x => .done (.error x)
    | .ok m => .done (.ok (match l.getLast? with
        | none => z0
        | some p => some p.1, m)))

/-- The loop over the outputs, mestimator.py:109-114. -/
def outputsLoop (o : Opts) (ws : List (Option ℕ)) (b : List (Fin q → 𝕜)) :
    List (List 𝕜 × Option (Fin q → 𝕜) × List ℕ) → Prog 𝕜 (List (Option (Fin q → 𝕜) × List ℕ))
  | [] => .done (.ok [])
  | (line, z0, inv) :: l =>
    (oneOutput o ws b line z0 inv).bind (fun p => (outputsLoop o ws b l).bind (fun ps => .done (.ok (p :: ps))))

open Classical in
/-- `transfer_function`, mestimator.py:51-117. -/
def transferFunction (outputs : List (List 𝕜)) (inputs : Fin q → List 𝕜) (ws : List (Option ℕ))
    (init : Option (List (Fin q → 𝕜))) (inv : InvArg) (o : Opts) : Prog 𝕜 (List (Option (Fin q → 𝕜) × List ℕ)) :=
  match inv.norm outputs.length with
  | .error x => .done (.error x)
  | .ok inv =>
    match outputs with
    | [] => .done (.error .assertion)
    | y :: _ =>
      if q = 0 ∨ (∃ j, (inputs j).length ≠ y.length) ∨ outputs.any (fun l => decide (l.length ≠ y.length)) then
        .done (.error .assertion)
      else if inv.length ≠ outputs.length then .done (.error .assertion)
      else
        let init := match init with
          | none => List.replicate outputs.length none
          | some l => l.map some
        if init.length ≠ outputs.length then .done (.error .assertion)
        else outputsLoop o ws (rowsOf inputs y.length) (outputs.zip (init.zip inv))

end

/-- The weight objects: what a call of object `i` gives, and its memory afterwards. -/
abbrev Objects (σ 𝕜 : Type) := ∀ (_i q : ℕ), WFun σ 𝕜 q

/-- Running a computation on its own. -/
def alone (obj : Objects σ 𝕜) : Prog 𝕜 R → (ℕ → σ) → Except Err R × (ℕ → σ)
  | .done r, heap => (r, heap)
  | .call i q c k, heap =>
    let res := obj i q (heap i) c.it c.r c.e c.b c.inv
    alone obj (k res.1) (Function.update heap i res.2)

/-- Thread `t` goes on up to its next call of a weight object, included.  The threads may have results of different types. -/
def step {R : ℕ → Type} (obj : Objects σ 𝕜) (t : ℕ) (s : (∀ t, Prog 𝕜 (R t)) × (ℕ → σ)) : (∀ t, Prog 𝕜 (R t)) × (ℕ → σ) :=
  match s.1 t with
  | .done _ => s
  | .call i q c k =>
    let res := obj i q (s.2 i) c.it c.r c.e c.b c.inv
    (Function.update s.1 t (k res.1), Function.update s.2 i res.2)

/-- Running the threads in the order given. -/
def interleave {R : ℕ → Type} (obj : Objects σ 𝕜) (order : List ℕ) (s : (∀ t, Prog 𝕜 (R t)) × (ℕ → σ)) :
    (∀ t, Prog 𝕜 (R t)) × (ℕ → σ) :=
  order.foldl (fun s t => step obj t s) s

end Razorback.Threads
