/-
Model of the texts of the exceptions raised by chains of estimations, and of what `impedance` and the mass processing print.
-/
import Verif.Model.Chain
import Verif.Model.Text
import Verif.Model.Impedance

namespace Razorback.Messages
open Razorback Razorback.Text Razorback.MEst Razorback.Chain Razorback.Impedance Razorback.Fourier Razorback.Prefilter

noncomputable section

/-- `NonConvergence.__str__`, errors.py:6-7: the arguments of the exception separated by spaces. -/
def nonConvStr (args : List Txt) : Txt := join [' '] args

/-- `"failed to converge (maxit=%d)." % maxit`, mestimator.py:243. -/
def maxitMsg (maxit : ℕ) : Txt := "failed to converge (maxit=".toList ++ nat maxit ++ ").".toList

/-- `"while processing step %d (weighting=%s)." % (it, name)`, mestimator.py:168-169.  `name` is the attribute `func_name` of
the weight function, '1' without one: neither functions (since Python 3) nor the weight objects of the library have it, so that
it is always '1' here. -/
def stepMsg (it : ℕ) : Txt := "while processing step ".toList ++ nat it ++ " (weighting=1).".toList

/-- The message of the ValueError of mestimator.py:158-163. -/
def emptyMsg (it : ℕ) : Txt := "All indices have been excluded, step ".toList ++ nat it ++ " cannot be processed.".toList

/-- `str(ex)` of an exception raised by `chain_m_estimate`, mestimator.py:128-174.  `other` gives the texts of the exceptions
coming from numpy, scipy or the weight functions. -/
def text (o : MEst.Opts) (other : Err → Txt) (x : Err) (step : Option ℕ) : Txt :=
  match step with
  | none => other x
  | some it =>
    if x = .nonConv then nonConvStr [maxitMsg o.maxit, stepMsg it]
    else if x = .value then emptyMsg it
    else other x

/-- The text of what a chain raises when it is asked for a result (see `Chain.Event`), mestimator.py:128-174. -/
def message {𝕜 : Type} {q : ℕ} (o : MEst.Opts) (other : Err → Txt) : Event 𝕜 q → Option Txt
  | .raised x step => some (text o other x step)
  | _ => none

/-- What is printed: `print(f"starting frequency {freq:g}")`, utils.py:223, `print(ex)`, utils.py:240 and 264, and
`print('%.1f%%' % ...)`, utils.py:107, with the number before its formatting. -/
inductive Line
  | start (freq : ℚ)
  | failure (x : Err)
  | progress (percent : ℚ)
  deriving DecidableEq

variable {κ σ : Type}

/-- What the second stage of `_impedance` prints, utils.py:258-264. -/
def secondLog (o : Opts σ) (e be : List (List ℂ)) (ivid1 : InvArg) (heap : ℕ → σ) : List Line :=
  match applyPrefilter e (rows be) (o.prefilter.map (fun p => p be.length)) ivid1 with
  | .error _ => []
  | .ok inv =>
    match (estimate o.realPb o.weights o.mest e be inv heap).1 with
    | .error x => [.failure x]
    | .ok _ => []

/-- What `_impedance` prints, utils.py:189-296: the frequency once the tags are found, then the exception of the stage that
failed, if any. -/
def oneFreqLog (cal : κ → ℚ → Option ℂ) (data : SigSet ℂ κ) (freq : ℚ) (o : Opts σ) (heap : ℕ → σ) : List Line :=
  match data.tags.getItem o.tagElec with
  | .error _ => []
  | .ok E =>
    match data.tags.getItem o.tagMag with
    | .error _ => []
    | .ok B =>
      match remoteChannels data o with
      | .error _ => []
      | .ok R =>
        .start freq ::
        match setCoeffs cal data freq o.nper o.overlap o.win with
        | .error _ => []
        | .ok (coeffs, _) =>
          match pick coeffs E with
          | .error _ => []
          | .ok e =>
            match pick coeffs B with
            | .error _ => []
            | .ok b =>
              match R with
              | none => secondLog o e b .none heap
              | some R =>
                match pick coeffs R with
                | .error _ => []
                | .ok br =>
                  match applyPrefilter b (rows br) (o.orPrefilter.map (fun p => p br.length)) .none with
                  | .error _ => []
                  | .ok inv =>
                    match estimate o.realPb o.orWeights o.mest b br inv heap with
                    | (.error x, _) => [.failure x]
                    | (.ok (T, ivT), heap) =>
                      secondLog o e (predict br T) (.each (List.replicate e.length (ivT.foldl union1d []))) heap

/-- What `impedance` prints, utils.py:168-184. -/
def impedanceLog (cal : κ → ℚ → Option ℂ) (data : SigSet ℂ κ) (o : Opts σ) : List ℚ → (ℕ → σ) → List Line
  | [], _ => []
  | f :: l, heap =>
    oneFreqLog cal data f o heap ++
      match oneFreq cal data f o heap with
      | (.error _, _) => []
      | (.ok _, heap) => impedanceLog cal data o l heap

/-- The percentages printed by `impedance_mass_proc`, utils.py:90-107, for `n` combinations and `m` intervals, if nothing is
raised (`prefilter_values_mass_proc`, utils.py:349-364, prints the same). -/
def progress (n m : ℕ) : List Line :=
  (List.range n).flatMap (fun k : ℕ => (List.range m).map (fun i : ℕ => .progress (100 * ((k : ℚ) * m + i) / ((n : ℚ) * m))))

end

end Razorback.Messages
