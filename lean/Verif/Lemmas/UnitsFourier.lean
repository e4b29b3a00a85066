/-
Fourier coefficients as functions of the samples in physical units.
-/
import Verif.Spec.Units
import Verif.Props.Fourier
import Verif.Lemmas.AnyRound

namespace Razorback
open Razorback.Spec Razorback.Fourier Razorback.Props

variable {κ : Type}

/-- The coefficients of one run, as functions of the samples. -/
noncomputable def runForms (rate : ℚ) (size : ℕ) (freq nper overlap : ℚ) (win : Win) : List ((ℕ → ℂ) → ℂ) :=
  match discreteWindow size (freq / rate) nper overlap with
  | .error _ => []
  | .ok (n, L, s) => (List.range (n + 1)).map (fun k x => 2 / (L : ℂ) * ∑ j ∈ Finset.range L,
      winAt (win.eval L) j * Complex.exp (-(2 * Real.pi * Complex.I * ((freq / rate : ℚ) : ℂ) * (j : ℂ))) * x (k * s + j))

theorem runForms_linear {rate : ℚ} {size : ℕ} {freq nper overlap : ℚ} {win : Win} {φ : (ℕ → ℂ) → ℂ}
    (h : φ ∈ runForms rate size freq nper overlap win) {ι : Type} (t : Finset ι) (a : ι → ℂ) (x : ι → ℕ → ℂ) :
    φ (fun n => ∑ i ∈ t, a i * x i n) = ∑ i ∈ t, a i * φ (x i) := by
  unfold runForms at h
  split at h
  · simp at h
  · obtain ⟨k, _, rfl⟩ := List.mem_map.1 h
    simp only [Finset.mul_sum]
    rw [Finset.sum_comm]
    refine Finset.sum_congr rfl (fun i _ => Finset.sum_congr rfl (fun j _ => ?_))
    ring

/-- The runs with the functions giving their coefficients. -/
noncomputable def forms (S : SigSet ℂ κ) (freq nper overlap : ℚ) (win : Win) : List (Sync ℂ κ × ((ℕ → ℂ) → ℂ)) :=
  S.runs.flatMap (fun s => (runForms s.rate s.size freq nper overlap win).map (fun φ => (s, φ)))

theorem setCoeffs_forms [One κ] {cal : κ → ℚ → Option ℂ} {S : SigSet ℂ κ} (hS : Reach S) {freq nper overlap : ℚ} {win : Win}
    {coeffs : List (List ℂ)} {w : List ℕ × List ℕ × List ℕ} (h : setCoeffs cal S freq nper overlap win = .ok (coeffs, w)) :
    (∀ s ∈ S.runs, coeffs.length = s.data.length) ∧
    (∀ i < coeffs.length, coeffs[i]? = some ((forms S freq nper overlap win).map (fun p => p.2 (physical cal freq p.1 i)))) ∧
    List.Forall₂ (fun s d => discreteWindow s.size (freq / s.rate) nper overlap = .ok (d.1 - 1, d.2)) S.runs (w.1.zip (w.2.1.zip w.2.2)) ∧
    w.1.length = S.runs.length ∧ w.2.1.length = S.runs.length ∧ w.2.2.length = S.runs.length ∧ ∀ n ∈ w.1, 1 ≤ n := by
  obtain ⟨lN, lL, lS⟩ := w
  have hok := (reach_sinv hS).ok
  obtain ⟨raws, h1, h2, h3, h4, h5, h6⟩ := C41_concatenation cal S hS freq nper overlap win coeffs lN lL lS h
  have hwf := hok.wf
  refine ⟨fun s hs => (h5 s hs).1, ?_, ?_, ?_⟩
  · intro i hi
    rw [(h6 i hi).1]
    congr 1
    have hcal := fun s hs => (h5 s hs).2
    have hlen := fun s hs => (h5 s hs).1
    clear h6 h5 h2 h3 h4 h hok
    unfold forms
    generalize S.runs = runs at *
    induction h1 with
    | nil => rfl
    | @cons s r runs raws hr _ ih =>
      obtain ⟨raw, Nw, L, sh⟩ := r
      rw [List.zipWith_cons_cons, List.flatten_cons, List.flatMap_cons, List.map_append,
        ih (fun r hr => hwf r (by simp [hr])) (fun s hs => hcal s (by simp [hs])) (fun s hs => hlen s (by simp [hs]))]
      congr 1
      obtain ⟨N, hne, hN, ⟨n, hd, rfl⟩, hwin, hraw⟩ := timeToFreq_ok hr
      have hs := hwf s (by simp)
      have hi' : i < s.data.length := by rw [← hlen s (by simp)]; exact hi
      have hNs : N = s.size := by
        rw [← hN _ (List.getElem_mem hi'), hs.rect _ (List.getElem_mem hi')]
      subst hNs
      have hk : i < s.cals.length := by rw [hs.cals]; exact hi'
      obtain ⟨v, hv⟩ := hcal s (by simp) _ (List.getElem_mem hk)
      have hphys : ∀ m, physical cal freq s i m = s.data[i].getD m 0 / v := by
        intro m
        simp only [physical, List.getElem?_eq_getElem hk, Option.bind_some, hv, Option.getD_some]
        rw [List.getD_eq_getElem?_getD (l := s.data), List.getElem?_eq_getElem hi', Option.getD_some]
      subst hraw
      simp only [calibrated, List.getElem?_eq_getElem hk, Option.bind_some, hv, List.getElem?_map, List.getElem?_eq_getElem hi',
        Option.map_some, runForms, hd, List.map_map]
      apply List.map_congr_left
      intro k _
      simp only [Function.comp, fourierAt, hphys, div_eq_mul_inv, ← mul_assoc]
      rw [← Finset.sum_mul]
      ring
  · subst h2 h3 h4
    rw [List.zip_map', List.zip_map']
    clear h6 h5 h
    clear hok
    generalize S.runs = runs at *
    induction h1 with
    | nil => exact .nil
    | @cons s r runs raws hr _ ih =>
      obtain ⟨raw, Nw, L, sh⟩ := r
      simp only [List.zip_cons_cons, List.map_cons]
      refine .cons ?_ (ih (fun r hr => hwf r (by simp [hr])))
      have hs := hwf s (by simp)
      obtain ⟨N, hne, hN, ⟨n, hd, rfl⟩, hwin, hraw⟩ := timeToFreq_ok hr
      obtain ⟨y, hy⟩ := List.exists_mem_of_ne_nil _ hne
      rw [← hs.rect _ hy, hN _ hy]
      simpa using hd
  · have := h1.length_eq
    subst h2 h3 h4
    refine ⟨by simp [this], by simp [this], by simp [this], ?_⟩
    intro n hn
    obtain ⟨r, hr, rfl⟩ := List.mem_map.1 hn
    obtain ⟨s, _, hs⟩ := forall₂_right h1 r hr
    obtain ⟨raw, Nw, L, sh⟩ := r
    have := (C38_time_to_freq _ _ _ _ _ _ _ _ _ _ hs).2.2.2.1
    simp only
    omega

end Razorback
