/-
Fourier coefficients of two signal sets over the same clock.
-/
import Verif.Lemmas.UnitsFourier
import Verif.Lemmas.UnitsStages

namespace Razorback
open Razorback.Spec Razorback.Fourier Razorback.Props Razorback.Impedance

variable {κ : Type} [One κ]

theorem forall₂_both {α β : Type} {P Q : α → β → Prop} {l : List α} {l' : List β} (h : List.Forall₂ P l l')
    (h' : List.Forall₂ Q l l') : List.Forall₂ (fun a b => P a b ∧ Q a b) l l' := by
  induction h with
  | nil => exact .nil
  | cons h1 _ ih =>
    rw [List.forall₂_cons] at h'
    exact .cons ⟨h1, h'.1⟩ (ih h'.2)

theorem sameClock_succeeds {cal : κ → ℚ → Option ℂ} {freq nper overlap : ℚ} {win : Win} {s s' : Sync ℂ κ} (hw : WF s) (hw' : WF s')
    (h : SameClock cal freq s s') (hok : ∃ r, timeToFreq s.data s.rate freq nper overlap win = .ok r) :
    ∃ r, timeToFreq s'.data s'.rate freq nper overlap win = .ok r := by
  rw [C38_succeeds_iff] at hok ⊢
  obtain ⟨N, n, L, sh, h1, h2, h3, h4⟩ := hok
  refine ⟨N, n, L, sh, ?_, ?_, ?_, h4⟩
  · intro h0
    have := h.chans
    rw [h0] at this
    exact h1 (List.length_eq_zero_iff.1 this.symm)
  · obtain ⟨y, hy⟩ := List.exists_mem_of_ne_nil _ h1
    have hN : s.size = N := by rw [← h2 y hy, hw.rect y hy]
    intro y' hy'
    rw [hw'.rect y' hy', h.size, hN]
  · rw [h.rate]; exact h3

theorem setCoeffs_ok_of {cal : κ → ℚ → Option ℂ} {S S' : SigSet ℂ κ} (hS : Reach S) (hS' : Reach S') {freq nper overlap : ℚ} {win : Win}
    (hc : List.Forall₂ (SameClock cal freq) S.runs S'.runs) (h : ∃ r, setCoeffs cal S freq nper overlap win = .ok r) :
    ∃ r, setCoeffs cal S' freq nper overlap win = .ok r := by
  have hno : ¬ ∃ e, setCoeffs cal S freq nper overlap win = .error e := by
    rintro ⟨e, he⟩
    obtain ⟨r, hr⟩ := h
    rw [he] at hr
    simp at hr
  rw [C41_raises_iff] at hno
  push Not at hno
  cases h' : setCoeffs cal S' freq nper overlap win with
  | ok r => exact ⟨r, rfl⟩
  | error e =>
    exfalso
    rcases (C41_raises_iff cal S' freq nper overlap win).1 ⟨e, h'⟩ with h0 | ⟨s', hs', hbad⟩
    · rw [h0] at hc
      exact hno.1 (List.forall₂_nil_right_iff.1 hc)
    · obtain ⟨s, hs, hss⟩ := forall₂_right hc s' hs'
      obtain ⟨n1, n2⟩ := hno.2 s hs
      rcases hbad with ⟨k, hk, hk0⟩ | ⟨e, he⟩
      · exact hss.cals.1 n1 k hk hk0
      · have hok : ∃ r, timeToFreq s.data s.rate freq nper overlap win = .ok r := by
          cases hh : timeToFreq s.data s.rate freq nper overlap win with
          | ok r => exact ⟨r, rfl⟩
          | error x => exact absurd hh (n2 x)
        obtain ⟨r, hr⟩ := sameClock_succeeds ((reach_sinv hS).ok.wf s hs) ((reach_sinv hS').ok.wf s' hs') hss hok
        rw [he] at hr
        simp at hr

theorem sameClock_symm {cal : κ → ℚ → Option ℂ} {freq : ℚ} {s s' : Sync ℂ κ} (h : SameClock cal freq s s') : SameClock cal freq s' s :=
  ⟨h.rate.symm, h.start.symm, h.size.symm, h.chans.symm, h.cals.symm⟩

theorem sameClock_flip {cal : κ → ℚ → Option ℂ} {freq : ℚ} {l l' : List (Sync ℂ κ)} (h : List.Forall₂ (SameClock cal freq) l l') :
    List.Forall₂ (SameClock cal freq) l' l := by
  induction h with
  | nil => exact .nil
  | cons h1 _ ih => exact .cons (sameClock_symm h1) ih

theorem setCoeffs_error_of {cal : κ → ℚ → Option ℂ} {S S' : SigSet ℂ κ} (hS : Reach S) (hS' : Reach S') {freq nper overlap : ℚ} {win : Win}
    (hc : List.Forall₂ (SameClock cal freq) S.runs S'.runs) {x : Err} (h : setCoeffs cal S freq nper overlap win = .error x) :
    ∃ x', setCoeffs cal S' freq nper overlap win = .error x' := by
  cases h' : setCoeffs cal S' freq nper overlap win with
  | error x' => exact ⟨x', rfl⟩
  | ok r =>
    obtain ⟨r, hr⟩ := setCoeffs_ok_of hS' hS (sameClock_flip hc) ⟨r, h'⟩
    rw [h] at hr
    simp at hr

theorem forms_linked {freq nper overlap : ℚ} {win : Win} {l l' : List (Sync ℂ κ)} {P : Sync ℂ κ → Sync ℂ κ → Prop}
    (h : List.Forall₂ (fun s s' => s'.rate = s.rate ∧ s'.size = s.size ∧ P s s') l l') :
    List.Forall₂ (fun p p' => p'.2 = p.2 ∧ P p.1 p'.1 ∧ ∃ s : Sync ℂ κ, p.2 ∈ runForms s.rate s.size freq nper overlap win)
      (l.flatMap (fun s => (runForms s.rate s.size freq nper overlap win).map (fun φ => (s, φ))))
      (l'.flatMap (fun s => (runForms s.rate s.size freq nper overlap win).map (fun φ => (s, φ)))) := by
  induction h with
  | nil => exact .nil
  | @cons s s' l l' h1 _ ih =>
    rw [List.flatMap_cons, List.flatMap_cons]
    refine List.rel_append ?_ ih
    rw [h1.1, h1.2.1, List.forall₂_map_left_iff, List.forall₂_map_right_iff, List.forall₂_same]
    intro φ hφ
    exact ⟨rfl, h1.2.2, s, hφ⟩

/-- The coefficients of a set over the same clock: same windows, and a channel whose samples are a combination of those of
the other set has the same combination of coefficients. -/
theorem setCoeffs_linked {cal : κ → ℚ → Option ℂ} {S S' : SigSet ℂ κ} (hS : Reach S) (hS' : Reach S') {freq nper overlap : ℚ} {win : Win}
    (hc : List.Forall₂ (SameClock cal freq) S.runs S'.runs)
    {co : List (List ℂ)} {w : List ℕ × List ℕ × List ℕ} (h : setCoeffs cal S freq nper overlap win = .ok (co, w)) :
    ∃ co', setCoeffs cal S' freq nper overlap win = .ok (co', w) ∧ co'.length = co.length ∧ windows S' w = windows S w ∧
      ∀ (i : ℕ) (l' : List ℂ), co'[i]? = some l' → ∀ {ι : Type} (t : Finset ι) (a : ι → ℂ) (idx : ι → ℕ), (∀ k ∈ t, idx k < co.length) →
        List.Forall₂ (fun s s' => ∀ n, physical cal freq s' i n = ∑ k ∈ t, a k * physical cal freq s (idx k) n) S.runs S'.runs →
        ∀ n, l'.getD n 0 = ∑ k ∈ t, a k * (co.getD (idx k) []).getD n 0 := by
  obtain ⟨⟨co', w'⟩, h'⟩ := setCoeffs_ok_of hS hS' hc ⟨_, h⟩
  obtain ⟨a1, a2, a3, a4, a5, a6, a7⟩ := setCoeffs_forms hS h
  obtain ⟨b1, b2, b3, b4, b5, b6, b7⟩ := setCoeffs_forms hS' h'
  have hrl := hc.length_eq
  have hne : S.runs ≠ [] := by
    intro h0
    obtain ⟨x, hx⟩ := (C41_raises_iff cal S freq nper overlap win).2 (.inl h0)
    rw [h] at hx
    simp at hx
  have hlen : co'.length = co.length := by
    obtain ⟨s, hs⟩ := List.exists_mem_of_ne_nil _ hne
    obtain ⟨s', hs', hss⟩ := forall₂_right (sameClock_flip hc) s hs
    rw [a1 s hs, b1 s' hs', ← hss.chans]
  have hww : w' = w := by
    have key : ∀ k : ℕ, k < S.runs.length → w'.1[k]? = w.1[k]? ∧ w'.2.1[k]? = w.2.1[k]? ∧ w'.2.2[k]? = w.2.2[k]? := by
      intro k hk
      have g1 := a3.get hk (by simp [a4, a5, a6, hk])
      have g2 := b3.get (i := k) (by rw [← hrl]; exact hk) (by simp [b4, b5, b6, ← hrl, hk])
      have g3 := hc.get hk (by rw [← hrl]; exact hk)
      simp only [List.get_eq_getElem, List.getElem_zip] at g1 g2 g3
      rw [g3.size, g3.rate, g1] at g2
      simp only [Except.ok.injEq, Prod.mk.injEq] at g2
      have p1 := a7 _ (List.getElem_mem (l := w.1) (n := k) (by rw [a4]; exact hk))
      have p2 := b7 _ (List.getElem_mem (l := w'.1) (n := k) (by rw [b4, ← hrl]; exact hk))
      rw [List.getElem?_eq_getElem (by rw [b4, ← hrl]; exact hk), List.getElem?_eq_getElem (by rw [a4]; exact hk),
        List.getElem?_eq_getElem (by rw [b5, ← hrl]; exact hk), List.getElem?_eq_getElem (by rw [a5]; exact hk),
        List.getElem?_eq_getElem (by rw [b6, ← hrl]; exact hk), List.getElem?_eq_getElem (by rw [a6]; exact hk)]
      simp only [Option.some.injEq]
      refine ⟨by omega, g2.2.1.symm, g2.2.2.symm⟩
    have ext : ∀ (l l' : List ℕ), l.length = S.runs.length → l'.length = S.runs.length →
        (∀ k < S.runs.length, l'[k]? = l[k]?) → l' = l := by
      intro l l' hl hl' hh
      apply List.ext_getElem? 
      intro k
      by_cases hk : k < S.runs.length
      · exact hh k hk
      · rw [List.getElem?_eq_none (by omega), List.getElem?_eq_none (by omega)]
    obtain ⟨w1, w2, w3⟩ := w
    obtain ⟨v1, v2, v3⟩ := w'
    simp only at *
    rw [ext w1 v1 a4 (by rw [b4, hrl]) (fun k hk => (key k hk).1), ext w2 v2 a5 (by rw [b5, hrl]) (fun k hk => (key k hk).2.1),
      ext w3 v3 a6 (by rw [b6, hrl]) (fun k hk => (key k hk).2.2)]
  subst hww
  refine ⟨co', h', hlen, ?_, ?_⟩
  · unfold windows
    congr 1
    symm
    rw [← List.forall₂_eq_eq_eq, List.forall₂_map_left_iff, List.forall₂_map_right_iff]
    exact hc.imp (fun s s' h => by rw [h.rate, h.start])
  · intro i l' hl' ι t a idx hidx hphys n
    have hi : i < co'.length := (List.getElem?_eq_some_iff.1 hl').1
    have hl := b2 i hi
    rw [hl'] at hl
    have hl := Option.some.inj hl
    have hf := forms_linked (freq := freq) (nper := nper) (overlap := overlap) (win := win)
      (P := fun s s' => ∀ n, physical cal freq s' i n = ∑ k ∈ t, a k * physical cal freq s (idx k) n)
      ((forall₂_both hc hphys).imp (fun s s' h => ⟨h.1.rate, h.1.size, h.2⟩))
    have hco : ∀ k ∈ t, co.getD (idx k) [] = (forms S freq nper overlap win).map (fun p => p.2 (physical cal freq p.1 (idx k))) := by
      intro k hk
      rw [List.getD_eq_getElem?_getD, a2 _ (hidx k hk), Option.getD_some]
    rw [Finset.sum_congr rfl (fun k hk => by rw [hco k hk]), hl]
    change List.Forall₂ _ (forms S freq nper overlap win) (forms S' freq nper overlap win) at hf
    clear hco hl hl' hidx hphys b2 a2
    generalize forms S freq nper overlap win = F at hf ⊢
    generalize forms S' freq nper overlap win = F' at hf ⊢
    induction hf generalizing n with
    | nil => simp
    | @cons p p' F F' hp _ ih =>
      cases n with
      | zero =>
        obtain ⟨h1, h2, s, h3⟩ := hp
        simp only [List.map_cons, List.getD_cons_zero]
        rw [h1, show physical cal freq p'.1 i = fun n => ∑ k ∈ t, a k * physical cal freq p.1 (idx k) n from funext h2,
          runForms_linear h3]
      | succ n =>
        simp only [List.map_cons, List.getD_cons_succ]
        exact ih n

end Razorback
