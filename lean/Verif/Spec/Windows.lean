/-
Specification vocabulary for the order and the phase of the windows.
-/
import Verif.Spec.Units
import Verif.Model.Impedance
import Verif.Spec.MEst

namespace Razorback.Spec
open Razorback

variable {𝕜 : Type} [RCLike 𝕜] {q : ℕ} {σ : Type}

/-- Both raise the same error, or both succeed with results that are related. -/
inductive Agree {α β : Type _} (P : α → β → Prop) : Except Err α → Except Err β → Prop
  | raised (e : Err) : Agree P (.error e) (.error e)
  | done {a : α} {b : β} : P a b → Agree P (.ok a) (.ok b)

/-- The number itself, or its conjugate. -/
def mirror (c : Bool) (x : 𝕜) : 𝕜 := if c then star x else x

/-- The positions `inv` in the list of windows `T` are those of the windows that are `bad`. -/
def Marks (T : List ℕ) (inv : List ℕ) (bad : ℕ → Prop) : Prop :=
  (∀ i ∈ inv, i < T.length) ∧ ∀ (i : ℕ) (h : i < T.length), i ∈ inv ↔ bad T[i]

/-- Positions in the two lists of windows are those of the same windows. -/
def SameBad (T T' : List ℕ) (inv inv' : List ℕ) : Prop := ∃ bad, Marks T inv bad ∧ Marks T' inv' bad

/-- The invalid positions given by the caller are those of the same windows. -/
inductive SameInv (T T' : List ℕ) : MEst.InvArg → MEst.InvArg → Prop
  | none : SameInv T T' .none .none
  | flat {l l' : List ℕ} : SameBad T T' l l' → SameInv T T' (.flat l) (.flat l')
  | each {l l' : List (List ℕ)} : List.Forall₂ (SameBad T T') l l' → SameInv T T' (.each l) (.each l')

/-- The invalid positions given by the caller are positions of windows. -/
def InRange (N : ℕ) : MEst.InvArg → Prop
  | .none => True
  | .flat l => ∀ i ∈ l, i < N
  | .each ls => ∀ l ∈ ls, ∀ i ∈ l, i < N

/-- The values of a channel with window `n` multiplied by `u n`. -/
def turn (u : ℕ → 𝕜) (l : List 𝕜) : List 𝕜 := l.mapIdx (fun n v => u n * v)

/-- The values of a channel with the windows in the order `p`. -/
def reorder (p : List ℕ) (l : List 𝕜) : List 𝕜 := p.map (fun n => l.getD n 0)

/-- Calls for the same windows, listed in the order `T` and in the order `T'`, give the same weight to the same window, and
relate the memories by `R`.  In the second list window `t` is multiplied, in all channels, by `u t`, and everything may be
replaced by its conjugate. -/
def SameWeights (wf : MEst.WFun σ 𝕜 q) (T T' : List ℕ) (c : Bool) (u : ℕ → 𝕜) (R : σ → σ → Prop) : Prop :=
  ∀ (st st' : σ) (it : ℕ) (r : ℕ → Option 𝕜) (x : ℕ → 𝕜) (y : ℕ → Fin q → 𝕜) (bad : ℕ → Prop) (inv inv' : List ℕ),
    it = 0 ∨ R st st' → Marks T inv bad → Marks T' inv' bad →
    ∀ a a', wf st it (T.map r) (T.map x) (T.map y) inv = a →
      wf st' it (T'.map (fun t => (r t).map (fun v => u t * mirror c v))) (T'.map (fun t => u t * mirror c (x t)))
        (T'.map (fun t j => u t * mirror c (y t j))) inv' = a' →
      (∃ e, a.1 = .error e ∧ a'.1 = .error e) ∨ (a.1 = .ok none ∧ a'.1 = .ok none ∧ R a.2 a'.2) ∨
        ∃ w : ℕ → Flt, a.1 = .ok (some (T.map w)) ∧ a'.1 = .ok (some (T'.map w)) ∧ R a.2 a'.2

/-- A weight function treats all windows alike: in every estimation it gives the same weight to the same window, whatever the
order of the windows and their phases, even if everything is replaced by its conjugate.  What it remembers from previous
estimations does not matter. -/
def Alike (wf : MEst.WFun σ 𝕜 q) : Prop :=
  ∀ (T T' : List ℕ), T.Nodup → T'.Perm T → ∀ (c : Bool) (u : ℕ → 𝕜), (∀ t, ‖u t‖ = 1) → ∃ R, SameWeights wf T T' c u R

/-- The weight functions treat all windows alike, whatever the number of inputs. -/
def AllAlike (ws : Impedance.Weights σ) : Prop := ∀ i wf, some (i, wf) ∈ ws → ∀ q, Alike (wf q)

/-- The prefilter, if there is one, rejects the same windows when they are listed in the order `T'`, window `t` multiplied by
a number `u t` of absolute value one. -/
def PreAlike (pre : Option Impedance.Pre) (T T' : List ℕ) : Prop :=
  ∀ p, pre = some p → ∀ (q : ℕ) (u : ℕ → ℂ), (∀ t, ‖u t‖ = 1) → ∀ (x : ℕ → ℂ) (y : ℕ → Fin q → ℂ),
    Agree (SameBad T T') (p q (T.map x) (T.map y)) (p q (T'.map (fun t => u t * x t)) (T'.map (fun t j => u t * y t j)))

/-- Results with the same values: impedance, error and transfer to the remote; and the same rejected times if `times`. -/
def SameValues (times : Prop) (r r' : Impedance.Result) : Prop :=
  r'.impedance = r.impedance ∧ r'.error = r.error ∧ r'.transferMag = r.transferMag ∧ (times → r'.invalidTime = r.invalidTime)

/-- Two runs with the same samples in physical units up to a number of absolute value one common to all the channels,
whatever their dates. -/
structure Turned {κ : Type} (cal : κ → ℚ → Option ℂ) (freq : ℚ) (s s' : Sync ℂ κ) : Prop where
  rate : s'.rate = s.rate
  size : s'.size = s.size
  chans : s'.data.length = s.data.length
  cals : (∀ k ∈ s.cals, cal k freq ≠ none) ↔ ∀ k ∈ s'.cals, cal k freq ≠ none
  phase : ∃ v : ℂ, ‖v‖ = 1 ∧ ∀ i n, physical cal freq s' i n = v * physical cal freq s i n

/-- The runs of `S'` are those of `S`, in some order. -/
def SameRuns {κ : Type} (cal : κ → ℚ → Option ℂ) (freq : ℚ) (S S' : SigSet ℂ κ) : Prop :=
  ∃ l : List (Sync ℂ κ), l.Perm S.runs ∧ List.Forall₂ (Turned cal freq) l S'.runs

end Razorback.Spec
