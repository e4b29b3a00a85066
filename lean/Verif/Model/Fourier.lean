/-
Model of fourier_transform.py and of the Fourier methods of signalset.py.
Frequencies and rates are exact rationals; samples and coefficients are complex numbers (a real signal is a
complex one with real samples), and floating point rounding is not modelled.
-/
import Mathlib.Analysis.SpecialFunctions.Trigonometric.Basic
import Mathlib.Data.Rat.Floor
import Verif.Model.SigSet

namespace Razorback.Fourier

/-- Python's `int(x)` on a float: truncation toward zero. -/
def truncInt (q : ℚ) : ℤ := if 0 ≤ q then ⌊q⌋ else ⌈q⌉

/-- `discrete_window`, fourier_transform.py:87-109.  With a zero shift the (numpy) division gives infinity or
NaN instead of raising: then `int(Nw)` raises OverflowError or ValueError, or the test `Nw < 1` holds.
Differences and quotients of whole numbers (`size - Lw`, `divmod`) are exact. -/
def discreteWindow [Rnd] (size : ℕ) (nf nper overlap : ℚ) : Except Err (ℕ × ℕ × ℕ) :=
  if ¬ (0 ≤ overlap ∧ overlap ≤ 1) then .error .assertion
  else if ¬ (0 < nf ∧ nf ≤ 1 / 2) then .error .assertion
  else
    let Lw : ℤ := ⌈Rnd.rnd (nper / nf)⌉
    let shift : ℤ := truncInt (Rnd.rnd (Lw * Rnd.rnd (1 - overlap)))
    if shift = 0 then (if Lw < size then .error .overflow else .error .value)
    else
      let Nw : ℤ := Int.fdiv (size - Lw) shift
      if Nw < 1 then .error .value
      else .ok (Nw.toNat, Lw.toNat, shift.toNat)

/-- `sliding_window_view(y, L)` (dask/numpy), for `L ≤ len(y)`: the windows at every position. -/
def slidingView {β : Type _} (y : List β) (L : ℕ) : List (List β) :=
  (List.range (y.length - L + 1)).map (fun i => (y.drop i).take L)

/-- `l[::s]` for `s > 0`. -/
def strided {β : Type _} (l : List β) (s : ℕ) : List β :=
  (List.range ((l.length + s - 1) / s)).filterMap (fun k => l[k * s]?)

/-- The `window` argument: nothing, an array, or a function of the length. -/
inductive Win
  | none
  | arr (w : List ℂ)
  | fn (f : ℕ → Option (List ℂ))

/-- `if callable(window): window = window(Lw)`, fourier_transform.py:63-64. -/
def Win.eval : Win → ℕ → Option (List ℂ)
  | .none, _ => Option.none
  | .arr w, _ => some w
  | .fn f, L => f L

/-- The vector `x`, fourier_transform.py:72-75. -/
noncomputable def kernel (nf : ℚ) (L : ℕ) (w : Option (List ℂ)) : List ℂ :=
  let x := (List.range L).map (fun j : ℕ => Complex.exp (-Complex.I * (2 * Real.pi * (nf : ℂ)) * (j : ℂ)) * (2 / (L : ℂ)))
  match w with
  | none => x
  | some w => List.zipWith (· * ·) x w

/-- Dot product of two vectors of the same length. -/
noncomputable def dot (x y : List ℂ) : ℂ := (List.zipWith (· * ·) x y).sum

/-- All lists have the same length: that length (`set(len(e) for e in l)` of size one). -/
def commonLength {β : Type _} : List (List β) → Option ℕ
  | [] => none
  | y :: l => if l.all (fun z => z.length == y.length) then some y.length else none

/-- `time_to_freq`, fourier_transform.py:24-84.  `sampling_freq = 0` gives an infinite or NaN normalised
frequency, rejected by the assertion of `discrete_window`; here `freq / 0 = 0` is rejected by the same one. -/
noncomputable def timeToFreq (data : List (List ℂ)) (fs freq nper overlap : ℚ) (win : Win) :
    Except Err (List (List ℂ) × (ℕ × ℕ × ℕ)) :=
  match commonLength data with
  | none => .error .assertion
  | some N =>
    match discreteWindow N (freq / fs) nper overlap with
    | .error e => .error e
    | .ok (_, Lw, shift) =>
      let w := win.eval Lw
      if w.any (fun w => w.length != Lw) then .error .assertion
      else
        let x := kernel (freq / fs) Lw w
        let result := data.map (fun y => (strided (slidingView y Lw) shift).map (dot x))
        match commonLength result with
        | none => .error .assertion
        | some Nw => .ok (result, (Nw, Lw, shift))

/-- `sliding_window`, fourier_transform.py:155-177: `as_strided` views. -/
def slidingWindow {β : Type _} (y : List β) (nw L shift : ℕ) : Except Err (List (List β)) :=
  if (y.length : ℤ) < ((nw : ℤ) - 1) * shift + L then .error .assertion
  else .ok ((List.range nw).map (fun k => (List.range L).filterMap (fun j => y[k * shift + j]?)))

/-- `ft`, fourier_transform.py:180-194, applied to one window: `x.dot(y) / N * 2`. -/
noncomputable def ft (y : List ℂ) (freq fs : ℚ) (w : Option (List ℂ)) : ℂ :=
  let x := (List.range y.length).map (fun j : ℕ => Complex.exp (-Complex.I * (2 * Real.pi * (freq : ℂ) / (fs : ℂ)) * (j : ℂ)))
  let x := match w with
    | none => x
    | some w => List.zipWith (· * ·) x w
  dot x y / (y.length : ℂ) * 2

/-- `time_to_freq_old`, fourier_transform.py:135-152. -/
noncomputable def timeToFreqOld (data : List (List ℂ)) (fs freq nper overlap : ℚ) (win : Win) :
    Except Err (List (List ℂ) × (ℕ × ℕ × ℕ)) :=
  match commonLength data with
  | none => .error .assertion
  | some N =>
    match discreteWindow N (freq / fs) nper overlap with
    | .error e => .error e
    | .ok (Nw, Lw, shift) =>
      let w := win.eval Lw
      if w.any (fun w => w.length != Lw) then .error .assertion
      else
        match mapE (fun y => slidingWindow y Nw Lw shift) data with
        | .error e => .error e
        | .ok views => .ok (views.map (fun v => v.map (fun y => ft y freq fs w)), (Nw, Lw, shift))

/-- `SyncSignal.fourier_coefficients`, signalset.py:866-872.  `cal k f` is the value of calibration `k` at
frequency `f`, `none` for Python's `None`.  Simplification: a zero calibration value makes numpy produce
infinities or NaN; here division by zero gives zero (the theorems assume non-zero values). -/
noncomputable def syncCoeffs {κ : Type _} (cal : κ → ℚ → Option ℂ) (s : Sync ℂ κ) (freq nper overlap : ℚ) (win : Win) :
    Except Err (List (List ℂ) × (ℕ × ℕ × ℕ)) :=
  let cs := s.cals.map (fun k => cal k freq)
  if cs.any (fun v => v.isNone) then .error .assertion
  else
    match timeToFreq s.data s.rate freq nper overlap win with
    | .error e => .error e
    | .ok (coeffs, d) => .ok (List.zipWith (fun c v => c.map (fun z => z / v.getD 1)) coeffs cs, d)

/-- `zip(*ls)` as lists, for a non-empty `ls`: stops at the shortest. -/
def zipStar {β : Type _} (ls : List (List β)) : List (List β) :=
  match ls with
  | [] => []
  | l :: r => (List.range (r.foldl (fun m l => min m l.length) l.length)).map (fun i => ls.filterMap (fun l => l[i]?))

/-- `SignalSet.fourier_coefficients`, signalset.py:595-606: unpacking an empty `zip` raises ValueError. -/
noncomputable def setCoeffs {κ : Type _} (cal : κ → ℚ → Option ℂ) (S : SigSet ℂ κ) (freq nper overlap : ℚ) (win : Win) :
    Except Err (List (List ℂ) × (List ℕ × List ℕ × List ℕ)) :=
  match mapE (fun s => syncCoeffs cal s freq nper overlap win) S.runs with
  | .error e => .error e
  | .ok [] => .error .value
  | .ok (r :: l) =>
    .ok ((zipStar ((r :: l).map (fun p => p.1))).map List.flatten,
      ((r :: l).map (fun p => p.2.1), (r :: l).map (fun p => p.2.2.1), (r :: l).map (fun p => p.2.2.2)))

section slepian
variable {K : Type _} [Field K] [LinearOrder K]

/-- `res.mean()` -/
def mean (l : List K) : K := l.sum / (l.length : K)

/-- `np.interp(x, xp, fp)` for one `x` and increasing `xp`, `pts = zip(xp, fp)`. -/
def interp : List (K × K) → K → K
  | [], _ => 0
  | [p], _ => p.2
  | p :: q :: l, x =>
    if x ≤ p.1 then p.2
    else if x < q.1 then p.2 + (q.2 - p.2) / (q.1 - p.1) * (x - p.1)
    else interp (q :: l) x

/-- The case `N <= N_MAX`, fourier_transform.py:125-127. `dpss n` is `scipy.signal.windows.dpss(n, tau)`. -/
def slepianSmall (dpss : ℕ → List K) (N : ℕ) : List K := (dpss N).map (fun v => v / mean (dpss N))

/-- The other case, fourier_transform.py:129-131, given the reference window. -/
def stretch (N NMAX : ℕ) (ref : List K) : List K :=
  let a : K := (N : K) / (NMAX : K)
  (List.range N).map (fun n : ℕ => interp (((List.range NMAX).map (fun i : ℕ => a * (i : K))).zip ref) (n : K))

/-- `slepian(N, tau)` with the default `N_MAX=1000`, fourier_transform.py:111-132. -/
def slepianDefault (dpss : ℕ → List K) (N : ℕ) : List K :=
  if N ≤ 1000 then slepianSmall dpss N else stretch N 1000 (slepianSmall dpss 1000)

/-- `slepian(N, tau, N_MAX)`, fourier_transform.py:111-132: the reference is `slepian(N_MAX, tau)`, whose own limit
is the default. -/
def slepian (dpss : ℕ → List K) (N NMAX : ℕ) : List K :=
  if N ≤ NMAX then slepianSmall dpss N else stretch N NMAX (slepianDefault dpss NMAX)

end slepian

end Razorback.Fourier
