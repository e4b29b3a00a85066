/-
Specification vocabulary for the impedance estimation.
-/
import Verif.Model.Impedance
import Verif.Spec.MEst

namespace Razorback.Spec
open Razorback Razorback.Impedance

/-- `t` is the centre time of window `i` of the concatenated runs: the windows of run `k` come after those of the runs
before it, window `j` of a run begins `shift j` samples after its start and has `len` samples.
`N`, `len`, `shift` are the numbers of windows, lengths and shifts of the runs. -/
def IsCentre {κ : Type} (runs : List (Sync ℂ κ)) (N len shift : List ℕ) (i : ℕ) (t : ℚ) : Prop :=
  ∃ (k j : ℕ) (s : Sync ℂ κ) (n L d : ℕ), runs[k]? = some s ∧ N[k]? = some n ∧ len[k]? = some L ∧ shift[k]? = some d ∧
    j < n ∧ i = (N.take k).sum + j ∧ t = s.start + (d * j + L / 2) / s.rate

/-- Every entry is NaN, in `n` rows of `m`. -/
def AllNaN {β : Type} (l : List (List (Option β))) (n m : ℕ) : Prop :=
  l.length = n ∧ ∀ row ∈ l, row.length = m ∧ ∀ x ∈ row, x = none

/-- Every entry is a number, in `n` rows of `m`. -/
def AllNumbers {β : Type} (l : List (List (Option β))) (n m : ℕ) : Prop :=
  l.length = n ∧ ∀ row ∈ l, row.length = m ∧ ∀ x ∈ row, x ≠ none

/-- Every error is NaN, in `n` rows of `m`. -/
def AllNaNErrors (l : List (List Flt)) (n m : ℕ) : Prop :=
  l.length = n ∧ ∀ row ∈ l, row.length = m ∧ ∀ x ∈ row, x = .nan

/-- The result of a failure: NaN impedance and error with `n` rows of `m`, no invalid times, NaN transfer with `p` rows of
`r`. -/
def IsFailure (res : Result) (n m p r : ℕ) : Prop :=
  AllNaN res.impedance n m ∧ AllNaNErrors res.error n m ∧ res.invalidTime = [] ∧ AllNaN res.transferMag p r

/-- The arrays of two results have the same numbers of rows and columns. -/
def SameShape (r r' : Result) : Prop :=
  List.Forall₂ (fun a b => a.length = b.length) r.impedance r'.impedance ∧
  List.Forall₂ (fun a b => a.length = b.length) r.error r'.error ∧
  List.Forall₂ (fun a b => a.length = b.length) r.transferMag r'.transferMag

/-- The weight functions restart with every estimation, whatever the number of inputs. -/
def AllReset {σ : Type} (ws : Weights σ) : Prop :=
  ∀ i wf, some (i, wf) ∈ ws → ∀ q, Resets (wf q)

/-- Channels as columns: the combination of the channels with coefficients `t`, sample by sample. -/
noncomputable def combine (chans : List (List ℂ)) (t : List ℂ) (n : ℕ) : ℂ :=
  (List.zipWith (fun a c => a * c.getD n 0) t chans).sum

/-- The channels are linearly independent on the samples `n < N` not in `inv`. -/
def ChansIndependent (chans : List (List ℂ)) (N : ℕ) (inv : List ℕ) : Prop :=
  ∀ t : List ℂ, t.length = chans.length → (∀ n < N, n ∉ inv → combine chans t n = 0) → ∀ x ∈ t, x = 0

/-- What a prefilter rejects for an output and inputs; nothing without prefilter. -/
def Rejects (pre : Option Pre) (line : List ℂ) (chans : List (List ℂ)) (l : List ℕ) : Prop :=
  match pre with
  | none => l = []
  | some p => p chans.length line (rows chans) = .ok l

/-- The channels of the tags used by an estimation; `R` is `none` without remote (an empty name means no remote). -/
structure Channels {κ σ : Type} (S : SigSet ℂ κ) (o : Opts σ) (E B : List ℕ) (R : Option (List ℕ)) : Prop where
  elec : S.tags.getItem o.tagElec = .ok E
  mag : S.tags.getItem o.tagMag = .ok B
  remote : ((o.remote = none ∨ o.remote = some "") ∧ R = none) ∨
    ∃ name l, o.remote = some name ∧ name ≠ "" ∧ S.tags.getItem name = .ok l ∧ R = some l

/-- The channels with the given positions. -/
def Picked (coeffs : List (List ℂ)) (idx : List ℕ) (l : List (List ℂ)) : Prop :=
  List.Forall₂ (fun i c => coeffs[i]? = some c) idx l

/-- Number of remote channels. -/
def remoteCount (R : Option (List ℕ)) : ℕ := (R.map List.length).getD 0

/-- The prefilters never raise. -/
def PrefiltersTotal {σ : Type} (o : Opts σ) : Prop :=
  ∀ pre, o.prefilter = some pre ∨ o.remotePrefilter = some pre → ∀ q line rows, ∃ l, pre q line rows = .ok l

/-- The weights of the first stage: the remote ones, or the usual ones if they are missing or empty. -/
def firstWeights {σ : Type} (o : Opts σ) : Weights σ :=
  if (o.remoteWeights.getD []).isEmpty then o.weights else o.remoteWeights.getD []

/-- The prefilter of the first stage: the remote one, or the usual one if it is missing. -/
def firstPrefilter {σ : Type} (o : Opts σ) : Option Pre := o.remotePrefilter.or o.prefilter

/-- A matrix of numbers as the rows of a result. -/
def asRows {m q : ℕ} (Z : Matrix (Fin m) (Fin q) ℂ) : List (List (Option ℂ)) := List.ofFn (fun i => List.ofFn (fun j => some (Z i j)))

/-- The Fourier coefficients of the channels `I`: one row per channel, one column per window. -/
def chanMatrix (coeffs : List (List ℂ)) (I : List ℕ) (N : ℕ) : Matrix (Fin I.length) (Fin N) ℂ :=
  fun i n => (coeffs.getD I[i] []).getD n 0

/-- The rows of a matrix are linearly independent: an equation `Z X = Y` has at most one solution. -/
def RowsIndependent {m n : Type} [Fintype m] (X : Matrix m n ℂ) : Prop := ∀ v : m → ℂ, Matrix.vecMul v X = 0 → v = 0

/-- The elements of a list at the positions in a set, in order. -/
def selected {β : Type} (l : List β) (P : ℕ → Bool) : List β := (l.zipIdx.filter (fun p => P p.2)).map Prod.fst

end Razorback.Spec
