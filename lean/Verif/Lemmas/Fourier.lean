/-
Lemmas on the Fourier model.
-/
import Mathlib.Algebra.Order.Floor.Ring
import Mathlib.Algebra.BigOperators.Fin
import Mathlib.Algebra.BigOperators.Ring.Finset
import Mathlib.Algebra.Field.GeomSum
import Mathlib.Tactic.Linarith
import Mathlib.Tactic.Ring
import Mathlib.Tactic.FieldSimp
import Mathlib.Tactic.Positivity
import Verif.Spec.Fourier
import Verif.Lemmas.Py

namespace Razorback.Fourier
open Razorback Razorback.Spec

theorem truncInt_nonneg {q : ℚ} (h : 0 ≤ q) : truncInt q = ⌊q⌋ := if_pos h

/-- The result of `discrete_window`, when the parameters are valid and a shift is at least one sample. -/
theorem discreteWindow_eq {size : ℕ} {nf nper overlap : ℚ} (h1 : 0 ≤ overlap ∧ overlap ≤ 1) (h2 : 0 < nf ∧ nf ≤ 1 / 2)
    (hs : 1 ≤ (⌈nper / nf⌉ : ℚ) * (1 - overlap)) :
    discreteWindow size nf nper overlap =
      if ((size : ℤ) - ⌈nper / nf⌉) / ⌊(⌈nper / nf⌉ : ℚ) * (1 - overlap)⌋ < 1 then .error .value
      else .ok ((((size : ℤ) - ⌈nper / nf⌉) / ⌊(⌈nper / nf⌉ : ℚ) * (1 - overlap)⌋).toNat, ⌈nper / nf⌉.toNat,
        ⌊(⌈nper / nf⌉ : ℚ) * (1 - overlap)⌋.toNat) := by
  unfold discreteWindow
  rw [if_neg (by simpa using h1), if_neg (by simpa using h2)]
  simp only [Rnd.rnd_exact]
  generalize ⌈nper / nf⌉ = L at *
  have h0 : (0 : ℚ) ≤ (L : ℚ) * (1 - overlap) := le_trans zero_le_one hs
  rw [truncInt_nonneg h0]
  have hf : 1 ≤ ⌊(L : ℚ) * (1 - overlap)⌋ := Int.le_floor.2 (by simpa using hs)
  generalize ⌊(L : ℚ) * (1 - overlap)⌋ = s at *
  rw [if_neg (by omega), Int.fdiv_eq_ediv_of_nonneg _ (by omega)]

theorem discreteWindow_small {size : ℕ} {nf nper overlap : ℚ}
    (hs : (⌈nper / nf⌉ : ℚ) * (1 - overlap) < 1) : ∃ e, discreteWindow size nf nper overlap = .error e := by
  unfold discreteWindow
  split
  · exact ⟨_, rfl⟩
  · rename_i h1
    split
    · exact ⟨_, rfl⟩
    · simp only [Rnd.rnd_exact]
      generalize ⌈nper / nf⌉ = L at *
      split
      · split <;> exact ⟨_, rfl⟩
      · rename_i h0
        rw [not_not] at h1
        have hneg : (L : ℚ) * (1 - overlap) < 0 := by
          by_contra hc
          push Not at hc
          apply h0
          rw [truncInt_nonneg hc, Int.floor_eq_zero_iff]
          exact ⟨hc, hs⟩
        have hL : L < 0 := by
          have h3 : (0 : ℚ) ≤ 1 - overlap := by linarith [h1.2]
          have : (L : ℚ) < 0 := by
            by_contra hc
            push Not at hc
            exact absurd (mul_nonneg hc h3) (not_le.2 hneg)
          exact_mod_cast this
        have ht : truncInt ((L : ℚ) * (1 - overlap)) ≤ 0 := by
          unfold truncInt
          rw [if_neg (not_le.2 hneg)]
          exact Int.ceil_le.2 (by simpa using hneg.le)
        have := Int.fdiv_nonpos_of_nonneg_of_nonpos (a := (size : ℤ) - L) (b := truncInt ((L : ℚ) * (1 - overlap)))
          (by omega) ht
        rw [if_pos (by omega)]
        exact ⟨_, rfl⟩

theorem length_slidingView {β : Type _} (y : List β) (L : ℕ) : (slidingView y L).length = y.length - L + 1 := by
  simp [slidingView]

theorem filterMap_total {β γ : Type _} {f : β → Option γ} (l : List β) (h : ∀ a ∈ l, (f a).isSome) :
    (l.filterMap f).length = l.length ∧ ∀ k : ℕ, (l.filterMap f)[k]? = (l[k]?).bind f := by
  induction l with
  | nil => simp
  | cons a l ih =>
    obtain ⟨b, hb⟩ := Option.isSome_iff_exists.1 (h a (by simp))
    obtain ⟨h1, h2⟩ := ih (fun a ha => h a (by simp [ha]))
    rw [List.filterMap_cons, hb]
    refine ⟨by simp [h1], ?_⟩
    intro k
    cases k with
    | zero => simp [hb]
    | succ k => simpa using h2 k

theorem strided_eq {β : Type _} (l : List β) {s : ℕ} (hs : 0 < s) :
    (strided l s).length = (l.length + s - 1) / s ∧ ∀ k : ℕ, k < (l.length + s - 1) / s → (strided l s)[k]? = l[k * s]? := by
  have hlt : ∀ k, k < (l.length + s - 1) / s → k * s < l.length := by
    intro k hk
    have := (Nat.le_div_iff_mul_le hs).1 (Nat.succ_le_of_lt hk)
    rw [Nat.succ_eq_add_one, Nat.add_mul, Nat.one_mul] at this
    omega
  obtain ⟨h1, h2⟩ := filterMap_total (f := fun k => l[k * s]?) (List.range ((l.length + s - 1) / s)) (by
    intro k hk
    have := hlt k (List.mem_range.1 hk)
    simp [List.getElem?_eq_getElem this])
  refine ⟨by unfold strided; rw [h1]; simp, ?_⟩
  intro k hk
  unfold strided
  rw [h2, List.getElem?_range hk]
  rfl

/-- The windows: how many, and which samples. -/
theorem windows_eq {β : Type _} (y : List β) {L s : ℕ} (hs : 0 < s) (hL : L ≤ y.length) :
    (strided (slidingView y L) s).length = (y.length - L) / s + 1 ∧
    ∀ k : ℕ, k < (y.length - L) / s + 1 → (strided (slidingView y L) s)[k]? = some ((y.drop (k * s)).take L) ∧
      k * s + L ≤ y.length := by
  obtain ⟨h1, h2⟩ := strided_eq (slidingView y L) hs
  rw [length_slidingView] at h1 h2
  have e : (y.length - L + 1 + s - 1) / s = (y.length - L) / s + 1 := by
    have : y.length - L + 1 + s - 1 = y.length - L + s := by omega
    rw [this, Nat.add_div_right _ hs]
  rw [e] at h1 h2
  refine ⟨h1, ?_⟩
  intro k hk
  have hle : k * s ≤ y.length - L := (Nat.le_div_iff_mul_le hs).1 (by omega)
  refine ⟨?_, by omega⟩
  rw [h2 k hk]
  unfold slidingView
  rw [List.getElem?_map, List.getElem?_range (by omega)]
  rfl

theorem dot_eq_sum {x y : List ℂ} {L : ℕ} (hx : x.length = L) (hy : y.length = L) :
    dot x y = ∑ j ∈ Finset.range L, x.getD j 0 * y.getD j 0 := by
  unfold dot
  induction x generalizing y L with
  | nil => simp at hx; subst hx; simp
  | cons a x ih =>
    cases y with
    | nil => simp at hx hy; omega
    | cons b y =>
      cases L with
      | zero => simp at hx
      | succ L =>
        rw [Finset.sum_range_succ']
        simp only [List.zipWith_cons_cons, List.sum_cons, List.getD_cons_succ, List.getD_cons_zero]
        rw [ih (L := L) (by simpa using hx) (by simpa using hy), add_comm]

theorem length_kernel {nf : ℚ} {L : ℕ} {w : Option (List ℂ)} (hw : ∀ v, w = some v → v.length = L) :
    (kernel nf L w).length = L := by
  unfold kernel
  cases w with
  | none => simp
  | some v => simp [hw v rfl]

theorem kernel_getD {nf : ℚ} {L : ℕ} {w : Option (List ℂ)} (hw : ∀ v, w = some v → v.length = L) {j : ℕ} (hj : j < L) :
    (kernel nf L w).getD j 0 =
      2 / (L : ℂ) * (winAt w j * Complex.exp (-(2 * Real.pi * Complex.I * (nf : ℂ) * (j : ℂ)))) := by
  have e : Complex.exp (-Complex.I * (2 * Real.pi * (nf : ℂ)) * (j : ℂ)) =
      Complex.exp (-(2 * Real.pi * Complex.I * (nf : ℂ) * (j : ℂ))) := by congr 1; ring
  unfold kernel
  cases w with
  | none =>
    simp only [List.getD_eq_getElem?_getD, List.getElem?_map, List.getElem?_range hj, Option.map_some, Option.getD_some, e,
      winAt]
    ring
  | some v =>
    have hv := hw v rfl
    simp only [winAt, List.getD_eq_getElem?_getD, List.getElem?_zipWith, List.getElem?_map, List.getElem?_range hj,
      Option.map_some, e]
    rw [List.getElem?_eq_getElem (by omega)]
    simp only [Option.getD_some]
    ring

/-- A window's dot product is the coefficient. -/
theorem dot_window {nf : ℚ} {L : ℕ} {w : Option (List ℂ)} (hw : ∀ v, w = some v → v.length = L) {y : List ℂ} {m : ℕ}
    (hm : m + L ≤ y.length) : dot (kernel nf L w) ((y.drop m).take L) = fourierAt nf L w y m := by
  rw [dot_eq_sum (L := L) (length_kernel hw) (by simp; omega)]
  unfold fourierAt
  rw [Finset.mul_sum]
  refine Finset.sum_congr rfl (fun j hj => ?_)
  have hj := Finset.mem_range.1 hj
  rw [kernel_getD hw hj]
  have : ((y.drop m).take L).getD j 0 = y.getD (m + j) 0 := by
    simp only [List.getD_eq_getElem?_getD]
    rw [List.getElem?_take_of_lt hj, List.getElem?_drop]
  rw [this]
  ring

theorem commonLength_some {β : Type _} {l : List (List β)} {N : ℕ} :
    commonLength l = some N ↔ l ≠ [] ∧ ∀ y ∈ l, y.length = N := by
  cases l with
  | nil => simp [commonLength]
  | cons y l =>
    simp only [commonLength]
    constructor
    · intro h
      split at h
      · rename_i ha
        simp at h; subst h
        refine ⟨by simp, ?_⟩
        intro z hz
        rcases List.mem_cons.1 hz with rfl | hz
        · rfl
        · simpa using List.all_eq_true.1 ha z hz
      · simp at h
    · rintro ⟨_, h⟩
      rw [if_pos]
      · rw [h y (by simp)]
      · rw [List.all_eq_true]
        intro z hz
        simp [h z (by simp [hz]), h y (by simp)]

end Razorback.Fourier
