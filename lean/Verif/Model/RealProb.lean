/-
Model of `transfer_function_real_prob`, src/razorback/utils.py:395-417.
-/
import Verif.Model.MEst

namespace Razorback.RealProb
open MEst

noncomputable section
variable {q : ℕ} {σ : Type}

/-- An array filled at the even and odd positions, utils.py:400-403 and 408-410. -/
def interleave {α β : Type _} (f g : α → β) (l : List α) : List β := l.flatMap (fun z => [f z, g z])

/-- `k` for the positions `2 k` and `2 k + 1`. -/
def half (j : Fin (q * 2)) : Fin q := ⟨j.1 / 2, by have := j.2; omega⟩

/-- `new_in`, utils.py:398-403. -/
def realInputs (inputs : Fin q → List ℂ) (j : Fin (q * 2)) : List ℝ :=
  if j.1 % 2 = 0 then interleave Complex.re Complex.im (inputs (half j))
  else interleave (fun z => -z.im) Complex.re (inputs (half j))

/-- An output line as an array of length `n`, utils.py:407-410: a line of length one is broadcast. -/
def realOutput (n : ℕ) (line : List ℂ) : Except Err (List ℝ) :=
  if line.length = n then .ok (interleave Complex.re Complex.im line)
  else if line.length = 1 then .ok (interleave Complex.re Complex.im (List.replicate n (line.headD 0)))
  else .error .value

/-- `new_z[..., 0::2] + 1j * new_z[..., 1::2]`, utils.py:415, for one row. -/
def complexRow (d : Fin (q * 2) → ℝ) (k : Fin q) : ℂ :=
  ⟨d ⟨2 * k.1, by have := k.2; omega⟩, d ⟨2 * k.1 + 1, by have := k.2; omega⟩⟩

/-- `transfer_function_real_prob(outputs, inputs, weights=.., init=.., invalid_idx=.., **options)`, utils.py:395-417:
the rows and the invalid indices, which both here and in the argument `invalid_idx` count the real equations.
Simplifications: inputs of different lengths raise an AssertionError in `transfer_function` (recent numpy raises ValueError
in `np.shape`); without any weight function nor starting value TypeError is raised (for a single output, the slices of `array([None])`
broadcast to an empty array instead: not modelled). -/
def realProb (outputs : List (List ℂ)) (inputs : Fin q → List ℂ) (ws : Weighting σ ℝ (q * 2))
    (init : Option (List (Fin (q * 2) → ℝ))) (inv : InvArg) (o : Opts) (heap : ℕ → σ) :
    Except Err (List ((Fin q → ℂ) × List ℕ)) × (ℕ → σ) :=
  if h : q = 0 then (.error .value, heap)
  else match mapE (realOutput (inputs ⟨0, Nat.pos_of_ne_zero h⟩).length) outputs with
    | .error x => (.error x, heap)
    | .ok outs =>
      match transferFunction outs (realInputs inputs) ws init inv o heap with
      | (.error x, heap) => (.error x, heap)
      | (.ok l, heap) =>
        match l.mapM (fun p => p.1.map (fun d => (complexRow d, p.2))) with
        | none => (.error .type, heap)
        | some r => (.ok r, heap)

end

end Razorback.RealProb
