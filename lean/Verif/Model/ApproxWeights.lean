/-
Floating point arithmetic in weights.py: every elementary operation may be off by a relative error of at most `u`.
As in Model/Approx.lean a program is a relation between its arguments and its possible results that are no exceptions.
Simplifications: no overflow, no underflow; the constants (0.44845, `alpha`, a given `xi`, `lower`, `khi`) are numbers without rounding; absolute values,
exponentials, logarithms and roots are elementary operations.  The rounding errors inside a weight function supplied by the user are summed up
by relative errors of its weights, and it remembers what it would without rounding.
-/
import Verif.Model.Approx
import Verif.Model.Weights

namespace Razorback.Approx
open Razorback Razorback.MEst Razorback.Weights

variable {𝕜 : Type} [RCLike 𝕜] {q : ℕ} {σ : Type}

/-- A possible result of an operation on floating point numbers whose exact result is `x`, weights.py:35-129; NaN and infinities are not rounded. -/
def NearWeight (u : ℝ) (x y : Flt) : Prop := x = y ∨ ∃ a b : ℝ, x = .fin a ∧ y = .fin b ∧ Near u a b

/-- What a weight function may return, and remember, weights.py:35-49: its memory, the iteration, residual, outputs, inputs, invalid indices,
weights and new memory. -/
abbrev FWRel (σ : Type) (𝕜 : Type) (q : ℕ) :=
  σ → ℕ → List (Option 𝕜) → List 𝕜 → List (Fin q → 𝕜) → List ℕ → Option (List Flt) → σ → Prop

/-- A weight function without rounding, and what it may return with rounding errors up to `u`, weights.py:35-49. -/
structure FW (σ : Type) (𝕜 : Type) (q : ℕ) where
  exact : WFun σ 𝕜 q
  fl : ℝ → FWRel σ 𝕜 q

/-- A result up to relative errors of the weights, weights.py:35-49. -/
def FSummed (u : ℝ) (wf : WFun σ 𝕜 q) : FWRel σ 𝕜 q := fun st it r e b inv raw st' =>
  ∃ raw0, wf st it r e b inv = (.ok raw0, st') ∧
    ((raw0 = none ∧ raw = none) ∨ ∃ w1 w2, raw0 = some w1 ∧ List.Forall₂ (NearWeight u) w1 w2 ∧ raw = some w2)

/-- A weight function supplied by the user, mestimator.py:248-255: nothing is known about its rounding errors but their size. -/
def FW.user (wf : WFun σ 𝕜 q) : FW σ 𝕜 q := ⟨wf, fun u => FSummed u wf⟩

/-- `vnorm(x)`, weights.py:179-202, of a one dimensional array: absolute values, NaN for NaN. -/
def FVnorm (u : ℝ) (r : List (Option 𝕜)) (x : List (Option ℝ)) : Prop :=
  List.Forall₂ (fun v a => (v = none ∧ a = none) ∨ ∃ y t, v = some y ∧ a = some t ∧ Near u ‖y‖ t) r x

/-- `np.median` of a non-empty array without NaN, weights.py:160-162: one of its values, or the sum of two values divided by 2. -/
def FMedian (u : ℝ) (l : List ℝ) (m : ℝ) : Prop :=
  (l.length % 2 = 1 ∧ m = median l) ∨ (l.length % 2 = 0 ∧ ∃ s, Near u (2 * median l) s ∧ Near u (s / 2) m)

/-- `mad_scale(residual, is_absolute=True)`, weights.py:150-162; NaN if all entries are. -/
def FScale (u : ℝ) (x : List (Option ℝ)) (s : Flt) : Prop :=
  (x.filterMap id = [] ∧ s = .nan) ∨ (x.filterMap id ≠ [] ∧ ∃ (med : ℝ) (ds : List ℝ) (m t : ℝ), FMedian u (x.filterMap id) med ∧
    List.Forall₂ (fun v d => ∃ y, Near u (v - med) y ∧ d = |y|) (x.filterMap id) ds ∧ FMedian u ds m ∧ Near u (m / 0.44845) t ∧ s = .fin t)

/-- `Huber.__call__`, weights.py:52-57: `np.minimum(1., (alpha * scale) / x)`. -/
def FHuber (u alpha : ℝ) : FWRel σ 𝕜 q := fun st _ r _ _ _ raw st' =>
  ∃ (x : List (Option ℝ)) (s p : Flt) (w : List Flt), FVnorm u r x ∧ FScale u x s ∧ NearWeight u (Flt.mul (.fin alpha) s) p ∧
    List.Forall₂ (fun v y => ∃ t, NearWeight u (Flt.div p (flt v)) t ∧ y = Flt.min1 t) x w ∧ raw = some w ∧ st' = st

/-- `expexp(x, a)`, weights.py:165-169. -/
def FExpexp (u : ℝ) (x : Flt) (a : ℝ) (w : Flt) : Prop :=
  ∃ (s C : ℝ) (d m E t : Flt), Near u (a ^ 2) s ∧ Near u (Real.exp (-s)) C ∧ NearWeight u (Flt.sub x (.fin a)) d ∧ NearWeight u (Flt.mul (.fin a) d) m ∧
    NearWeight u (Flt.exp m) E ∧ NearWeight u (Flt.sub (.fin C) E) t ∧ NearWeight u (Flt.exp t) w

/-- `xi` of `Thomson`, weights.py:72-74; see `thomsonXi`. -/
def FXi (u : ℝ) (xi : Option ℝ) (n : ℕ) (a : ℝ) : Prop :=
  match xi with
  | some xi => a = xi
  | none => ∃ l p, Near u (Real.log (2 * n)) l ∧ Near u (2 * l) p ∧ Near u (Real.sqrt p) a

/-- `Thomson.__call__`, weights.py:71-82: the scale remembered is the rounded one. -/
def FThomson (u : ℝ) (xi : Option ℝ) : FWRel (Option Flt) 𝕜 q := fun st it r _ _ _ raw st' =>
  ∃ (x : List (Option ℝ)) (a : ℝ) (s : Flt) (w : List Flt), FVnorm u r x ∧ FXi u xi r.length a ∧
    ((it = 0 ∧ FScale u x s) ∨ (it ≠ 0 ∧ st = some s)) ∧
    List.Forall₂ (fun v y => ∃ t, NearWeight u (Flt.div (flt v) s) t ∧ FExpexp u t a y) x w ∧ raw = some w ∧ st' = some s

/-- Calling a weight object with rounding, weights.py:52-82. -/
def FBase (u : ℝ) : Base → FWRel (Option Flt) 𝕜 q
  | .huber a => FHuber u a
  | .thomson xi => FThomson u xi

/-- A product of two arrays, or of the number `1.` and an array, weights.py:117-122. -/
def FTimes (u : ℝ) (a : Option (List Flt)) (b c : List Flt) : Prop :=
  match a with
  | none => c = b
  | some a => List.Forall₂ (NearWeight u) (List.zipWith Flt.mul a b) c

/-- `np.sum` of an array, weights.py:126. -/
def FSumArr (u : ℝ) (l : List Flt) (t : Flt) : Prop :=
  (∃ (ws : List ℝ) (c : ℝ), l = ws.map .fin ∧ FSum u ws c ∧ t = .fin c) ∨ ((∀ ws : List ℝ, l ≠ ws.map .fin) ∧ t = Flt.sum l)

open scoped Matrix.Norms.Operator Matrix in
/-- `np.sum(linalg.solve(A, H(b)) * b.T, axis=0).real` with `A = H(b).dot(dotdiag(bi_weight, b))`, weights.py:116-117; see `leverage`.
`linalg.solve` solves one system of equations for each sample; each solution is the exact one for a matrix which differs from its argument by at
most `c u` times its size, as in `FWlse`. -/
def FLeverage (u c : ℝ) (b : List (Fin q → 𝕜)) (bi : Option (List Flt)) (h : List ℝ) : Prop :=
  ∃ (ws : Option (List ℝ)) (yw : Fin q → List 𝕜) (A : Matrix (Fin q) (Fin q) 𝕜), bi = ws.map (List.map .fin) ∧ (∀ w, ws = some w → w.length = b.length) ∧
    (∀ k, FDiag u ws (b.map (fun r => r k)) (yw k)) ∧ (∀ j k, FDot u (b.map (fun r => star (r j))) (yw k) (A j k)) ∧
    List.Forall₂ (fun r v => ∃ (E : Matrix (Fin q) (Fin q) 𝕜) (x : Fin q → 𝕜) (s : 𝕜), ‖E‖ ≤ c * u * ‖A‖ ∧ (A + E) *ᵥ x = (fun j => star (r j)) ∧
      FDot u (List.ofFn x) (List.ofFn r) s ∧ v = RCLike.re s) b h

/-- `BoundedInfluenceStep.__call__`, weights.py:102-129; see `bis`. -/
def FBis (u c : ℝ) (inner : FWRel σ 𝕜 q) (lower khi : ℝ) : FWRel (Option Prev × σ) 𝕜 q := fun st it r e b inv raw st' =>
  ∃ (p : Prev) (w : List Flt) (h : List ℝ) (hb y f1 g f2 hat bi : List Flt) (a : ℝ) (tr : Flt),
    (if it = 0 then some ⟨-1, none, .fin b.length, none⟩ else st.1 : Option Prev) = some p ∧ (it : ℤ) = 1 + p.it ∧
    inner st.2 it r e b inv (some w) st'.2 ∧ FLeverage u c b p.bi h ∧ FTimes u p.bi (h.map .fin) hb ∧
    List.Forall₂ (fun v y => ∃ m, NearWeight u (Flt.mul p.trace v) m ∧ NearWeight u (Flt.div m (.fin q)) y) hb y ∧
    List.Forall₂ (fun y f => FExpexp u y khi f) y f1 ∧ FTimes u p.hat f1 g ∧ Near u (Real.log lower) a ∧
    List.Forall₂ (fun y f => ∃ l, NearWeight u (Flt.log y) l ∧ FExpexp u l a f) y f2 ∧ FTimes u (some g) f2 hat ∧
    FTimes u (some (zeroAt w inv)) hat bi ∧ FSumArr u bi tr ∧ raw = some (zeroAt bi inv) ∧
    st'.1 = some ⟨it, some (zeroAt bi inv), tr, some hat⟩

/-- A bounded influence step over a weight function, weights.py:85-129. -/
noncomputable def FW.bis (c : ℝ) (inner : FW σ 𝕜 q) (lower khi : ℝ) : FW (Option Prev × σ) 𝕜 q :=
  ⟨Weights.bis inner.exact lower khi, fun v => FBis v c (inner.fl v) lower khi⟩

/-- Calling a weight object with rounding, weights.py:52-129; `c` is the constant of `linalg.solve`. -/
def FObj (u c : ℝ) : Obj → FWRel Mem 𝕜 q
  | .base w => fun st it r e b inv raw st' => FBase u w st.2 it r e b inv raw st'.2 ∧ st'.1 = st.1
  | .bis w lower khi => FBis u c (FBase u w) lower khi

/-- A weight object of the library, weights.py:52-129. -/
noncomputable def FW.obj (c : ℝ) (w : Obj) : FW Mem 𝕜 q := ⟨w.call, fun u => FObj u c w⟩

/-- The sequence of weight functions for `transfer_function`; see `weighting`, mestimator.py:154-166. -/
noncomputable def fweighting (c : ℝ) (l : List (Option Obj)) : List (Option (ℕ × FW Mem 𝕜 q)) :=
  l.zipIdx.map (fun p => p.1.map (fun w => (p.2, FW.obj c w)))

/-- The weight functions without rounding, mestimator.py:154-166. -/
def exactW (l : List (Option (ℕ × FW σ 𝕜 q))) : Weighting σ 𝕜 q := l.map (fun w => w.map (fun p => (p.1, p.2.exact)))

end Razorback.Approx
