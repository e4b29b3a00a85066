/-
The windows of two sets with the same runs up to order and phase.
-/
import Verif.Lemmas.WindowsStages
import Verif.Lemmas.UnitsSets

namespace Razorback.Windows
open Razorback Razorback.Spec Razorback.MEst Razorback.Prefilter Razorback.Props Razorback.Impedance Razorback.Fourier
open scoped Matrix

variable {σ κ : Type}

open Classical in
theorem perm_index {β : Type} {l m : List β} (h : l.Perm m) (d : β) :
    ∃ p : List ℕ, p.Perm (List.range m.length) ∧ l = p.map (fun t => m.getD t d) ∧ (l = m → p = List.range m.length) := by
  have hm : m = (List.range m.length).map (fun t => m.getD t d) := by
    apply List.ext_getElem
    · simp
    · intro i h1 h2
      simp [h1]
  by_cases hl : l = m
  · exact ⟨_, List.Perm.refl _, by rw [hl]; exact hm, fun _ => rfl⟩
  · rw [hm] at h
    have : Relation.Comp (· = List.map (fun t => m.getD t d) ·) List.Perm l (List.range m.length) := by
      rw [List.eq_map_comp_perm]
      exact h
    obtain ⟨p, h1, h2⟩ := this
    exact ⟨p, h2, h1, fun h => absurd h hl⟩

theorem turned_succeeds {cal : κ → ℚ → Option ℂ} {freq nper overlap : ℚ} {win : Win} {s s' : Sync ℂ κ} (hw : WF s) (hw' : WF s')
    (h : Turned cal freq s s') (hok : ∃ r, timeToFreq s.data s.rate freq nper overlap win = .ok r) :
    ∃ r, timeToFreq s'.data s'.rate freq nper overlap win = .ok r := by
  rw [C38_succeeds_iff] at hok ⊢
  obtain ⟨N, n, L, sh, h1, h2, h3, h4⟩ := hok
  refine ⟨N, n, L, sh, ?_, ?_, ?_, h4⟩
  · intro h0
    have := h.chans
    rw [h0] at this
    exact h1 (List.length_eq_zero_iff.1 this.symm)
  · obtain ⟨y, hy⟩ := List.exists_mem_of_ne_nil _ h1
    have hN : s.size = N := by rw [← h2 y hy, hw.rect y hy]
    intro y' hy'
    rw [hw'.rect y' hy', h.size, hN]
  · rw [h.rate]; exact h3

theorem turned_flip {cal : κ → ℚ → Option ℂ} {freq : ℚ} {s s' : Sync ℂ κ} (h : Turned cal freq s s') : Turned cal freq s' s := by
  obtain ⟨v, hv, hp⟩ := h.phase
  have hv0 : v ≠ 0 := by
    rintro rfl
    simp at hv
  refine ⟨h.rate.symm, h.size.symm, h.chans.symm, h.cals.symm, v⁻¹, by simp [hv], ?_⟩
  intro i n
  rw [hp i n, inv_mul_cancel_left₀ hv0]

theorem sameRuns_flip {cal : κ → ℚ → Option ℂ} {freq : ℚ} {S S' : SigSet ℂ κ} (h : SameRuns cal freq S S') : SameRuns cal freq S' S := by
  obtain ⟨l, h1, h2⟩ := h
  have h3 : List.Forall₂ (Turned cal freq) S'.runs l := h2.flip.imp (fun a b h => turned_flip h)
  have : Relation.Comp (List.Forall₂ (Turned cal freq)) List.Perm S'.runs S.runs := ⟨l, h3, h1⟩
  rw [List.forall₂_comp_perm_eq_perm_comp_forall₂] at this
  obtain ⟨m, h4, h5⟩ := this
  exact ⟨m, h4.symm, h5⟩

theorem sameRuns_ok {cal : κ → ℚ → Option ℂ} {S S' : SigSet ℂ κ} [One κ] (hS : Reach S) (hS' : Reach S') {freq nper overlap : ℚ} {win : Win}
    (hr : SameRuns cal freq S S') (h : ∃ r, setCoeffs cal S freq nper overlap win = .ok r) :
    ∃ r, setCoeffs cal S' freq nper overlap win = .ok r := by
  obtain ⟨l, hl, hc⟩ := hr
  have hno : ¬ ∃ e, setCoeffs cal S freq nper overlap win = .error e := by
    rintro ⟨e, he⟩
    obtain ⟨r, hr⟩ := h
    rw [he] at hr
    simp at hr
  rw [C41_raises_iff] at hno
  push Not at hno
  cases h' : setCoeffs cal S' freq nper overlap win with
  | ok r => exact ⟨r, rfl⟩
  | error e =>
    exfalso
    rcases (C41_raises_iff cal S' freq nper overlap win).1 ⟨e, h'⟩ with h0 | ⟨s', hs', hbad⟩
    · rw [h0] at hc
      rw [List.forall₂_nil_right_iff.1 hc] at hl
      exact hno.1 (List.nil_perm.1 hl)
    · obtain ⟨s, hs, hss⟩ := forall₂_right hc s' hs'
      have hs := hl.mem_iff.1 hs
      obtain ⟨n1, n2⟩ := hno.2 s hs
      rcases hbad with ⟨k, hk, hk0⟩ | ⟨e, he⟩
      · exact hss.cals.1 n1 k hk hk0
      · have hok : ∃ r, timeToFreq s.data s.rate freq nper overlap win = .ok r := by
          cases hh : timeToFreq s.data s.rate freq nper overlap win with
          | ok r => exact ⟨r, rfl⟩
          | error e => exact absurd hh (n2 e)
        obtain ⟨r, hr⟩ := turned_succeeds ((reach_sinv hS).ok.wf s hs) ((reach_sinv hS').ok.wf s' hs') hss hok
        rw [he] at hr
        simp at hr

theorem sameRuns_error {cal : κ → ℚ → Option ℂ} {S S' : SigSet ℂ κ} [One κ] (hS : Reach S) (hS' : Reach S') {freq nper overlap : ℚ} {win : Win}
    (hr : SameRuns cal freq S S') {x : Err} (h : setCoeffs cal S freq nper overlap win = .error x) :
    ∃ x', setCoeffs cal S' freq nper overlap win = .error x' := by
  cases h' : setCoeffs cal S' freq nper overlap win with
  | error x' => exact ⟨x', rfl⟩
  | ok r =>
    obtain ⟨r, hr⟩ := sameRuns_ok hS' hS (sameRuns_flip hr) ⟨r, h'⟩
    rw [h] at hr
    simp at hr

theorem forms_length {runs : List (Sync ℂ κ)} {freq nper overlap : ℚ} {win : Win} {ds : List (ℕ × ℕ × ℕ)}
    (h : List.Forall₂ (fun s d => discreteWindow s.size (freq / s.rate) nper overlap = .ok (d.1 - 1, d.2)) runs ds) (h1 : ∀ d ∈ ds, 1 ≤ d.1) :
    (runs.flatMap (fun s => (runForms s.rate s.size freq nper overlap win).map (fun φ => (s, φ)))).length = (ds.map Prod.fst).sum := by
  induction h with
  | nil => rfl
  | @cons s d runs ds hd _ ih =>
    obtain ⟨n, L, sh⟩ := d
    have := h1 (n, L, sh) (by simp)
    rw [List.flatMap_cons, List.length_append, ih (fun d hd => h1 d (by simp [hd])), List.map_cons, List.sum_cons]
    congr 1
    simp only at hd this
    simp only [runForms, hd, List.length_map, List.length_range]
    omega

/-- Numbers of absolute value one along two lists. -/
theorem choose_phases {β γ : Type} {Q : ℂ → β → γ → Prop} {p : List ℕ} (hn : p.Nodup) {f : ℕ → β} {m : List γ}
    (h : List.Forall₂ (fun b c => ∃ v : ℂ, ‖v‖ = 1 ∧ Q v b c) (p.map f) m) :
    ∃ u : ℕ → ℂ, (∀ t, ‖u t‖ = 1) ∧ List.Forall₂ (fun t c => Q (u t) (f t) c) p m := by
  induction p generalizing m with
  | nil =>
    rw [List.map_nil, List.forall₂_nil_left_iff] at h
    subst h
    exact ⟨fun _ => 1, by simp, .nil⟩
  | cons t p ih =>
    rw [List.map_cons, List.forall₂_cons_left_iff] at h
    obtain ⟨c, m, ⟨v, hv, hq⟩, h, rfl⟩ := h
    obtain ⟨ht, hn⟩ := List.nodup_cons.1 hn
    obtain ⟨u, hu, h⟩ := ih hn h
    refine ⟨Function.update u t v, ?_, .cons ?_ ?_⟩
    · intro s
      by_cases hs : s = t
      · subst hs; simpa using hv
      · simpa [Function.update_of_ne hs] using hu s
    · simpa using hq
    · have : ∀ (p : List ℕ) (m : List γ), t ∉ p → List.Forall₂ (fun t c => Q (u t) (f t) c) p m →
          List.Forall₂ (fun s c => Q (Function.update u t v s) (f s) c) p m := by
        intro p m hp h
        induction h with
        | nil => exact .nil
        | @cons a b _ _ h1 _ ih =>
          rw [List.mem_cons, not_or] at hp
          refine .cons ?_ (ih hp.2)
          rw [Function.update_of_ne (Ne.symm hp.1)]
          exact h1
      exact this p m ht h

theorem forall₂_mem {β γ : Type} {P : β → γ → Prop} {l : List β} {m : List γ} (h : List.Forall₂ P l m) :
    List.Forall₂ (fun a b => a ∈ l ∧ P a b) l m := by
  induction h with
  | nil => exact .nil
  | cons h1 _ ih => exact .cons ⟨by simp, h1⟩ (ih.imp (fun a b h => ⟨by simp [h.1], h.2⟩))

theorem list_range {l : List ℂ} {N : ℕ} (h : l.length = N) : l = (List.range N).map (fun t => l.getD t 0) := by
  subst h
  apply List.ext_getElem
  · simp
  · intro n h1 h2
    simp [h1]

/-- The coefficients of a set with the same runs: the same windows in another order, each turned. -/
theorem sameRuns_coeffs {cal : κ → ℚ → Option ℂ} {S S' : SigSet ℂ κ} [One κ] (hS : Reach S) (hS' : Reach S') {freq nper overlap : ℚ} {win : Win}
    {l : List (Sync ℂ κ)} (hl : l.Perm S.runs) (hc : List.Forall₂ (Turned cal freq) l S'.runs)
    {co co' : List (List ℂ)} {w w' : List ℕ × List ℕ × List ℕ} (h : setCoeffs cal S freq nper overlap win = .ok (co, w))
    (h' : setCoeffs cal S' freq nper overlap win = .ok (co', w')) :
    ∃ (T' : List ℕ) (u : ℕ → ℂ), T'.Perm (List.range w.1.sum) ∧ (l = S.runs → T' = List.range w.1.sum) ∧ (∀ t, ‖u t‖ = 1) ∧
      w'.1.sum = T'.length ∧ ∀ i, i < co.length → i < co'.length →
        co.getD i [] = (List.range w.1.sum).map (fun t => (co.getD i []).getD t 0) ∧
        co'.getD i [] = T'.map (fun t => u t * (co.getD i []).getD t 0) := by
  obtain ⟨a1, a2, a3, a4, a5, a6, a7⟩ := setCoeffs_forms hS h
  obtain ⟨b1, b2, b3, b4, b5, b6, b7⟩ := setCoeffs_forms hS' h'
  let G := fun l : List (Sync ℂ κ) => l.flatMap (fun s => (runForms s.rate s.size freq nper overlap win).map (fun φ => (s, φ)))
  have hzip : ∀ (w : List ℕ × List ℕ × List ℕ) (n : ℕ), w.1.length = n → w.2.1.length = n → w.2.2.length = n →
      (w.1.zip (w.2.1.zip w.2.2)).map Prod.fst = w.1 := by
    intro w n h1 h2 h3
    rw [List.map_fst_zip (by simp [h1, h2, h3])]
  have hmem : ∀ (w : List ℕ × List ℕ × List ℕ), (∀ n ∈ w.1, 1 ≤ n) → ∀ d ∈ w.1.zip (w.2.1.zip w.2.2), 1 ≤ d.1 := by
    intro w h d hd
    exact h _ (List.of_mem_zip (a := d.1) (b := d.2) hd).1
  have hN : (G S.runs).length = w.1.sum := by
    have := forms_length (win := win) a3 (hmem w a7)
    rw [hzip w _ a4 a5 a6] at this
    exact this
  have hN' : (G S'.runs).length = w'.1.sum := by
    have := forms_length (win := win) b3 (hmem w' b7)
    rw [hzip w' _ b4 b5 b6] at this
    exact this
  have hperm : (G l).Perm (G S.runs) := hl.flatMap_right _
  let d : Sync ℂ κ × ((ℕ → ℂ) → ℂ) := (⟨[], [], 0, 0, 0⟩, fun _ => 0)
  obtain ⟨T', hT, hGl, hT2⟩ := perm_index hperm d
  rw [hN] at hT hT2
  have hnd : T'.Nodup := hT.nodup_iff.2 List.nodup_range
  have hf : List.Forall₂ (fun p p' => ∃ v : ℂ, ‖v‖ = 1 ∧ ∀ i, p'.2 (physical cal freq p'.1 i) = v * p.2 (physical cal freq p.1 i))
      (G l) (G S'.runs) := by
    have hf := forms_linked (freq := freq) (nper := nper) (overlap := overlap) (win := win)
      (P := fun s s' => ∃ v : ℂ, ‖v‖ = 1 ∧ ∀ i n, physical cal freq s' i n = v * physical cal freq s i n)
      (hc.imp (fun s s' h => ⟨h.rate, h.size, h.phase⟩))
    refine hf.imp ?_
    rintro p p' ⟨h1, ⟨v, hv, h2⟩, s, h3⟩
    refine ⟨v, hv, ?_⟩
    intro i
    have := runForms_linear h3 (Finset.univ : Finset Unit) (fun _ => v) (fun _ => physical cal freq p.1 i)
    simp only [Finset.univ_unique, Finset.sum_singleton] at this
    have h4 : physical cal freq p'.1 i = fun n => v * physical cal freq p.1 i n := funext (h2 i)
    rw [h1, ← this, h4]
  rw [hGl] at hf
  obtain ⟨u, hu, hf⟩ := choose_phases (Q := fun v (p p' : Sync ℂ κ × ((ℕ → ℂ) → ℂ)) =>
    ∀ i, p'.2 (physical cal freq p'.1 i) = v * p.2 (physical cal freq p.1 i)) hnd hf
  refine ⟨T', u, hT, ?_, hu, ?_, ?_⟩
  · intro h0
    exact hT2 (by rw [h0])
  · rw [← hN', ← hf.length_eq]
  · intro i hi hi'
    have e1 : co.getD i [] = (G S.runs).map (fun p => p.2 (physical cal freq p.1 i)) := by
      rw [List.getD_eq_getElem?_getD, a2 i hi, Option.getD_some]
      rfl
    have e2 : co'.getD i [] = (G S'.runs).map (fun p => p.2 (physical cal freq p.1 i)) := by
      rw [List.getD_eq_getElem?_getD, b2 i hi', Option.getD_some]
      rfl
    refine ⟨?_, ?_⟩
    · exact list_range (by rw [e1, List.length_map, hN])
    · rw [e2]
      have hlt : ∀ t ∈ T', t < (G S.runs).length := by
        intro t ht
        have := hT.mem_iff.1 ht
        rw [hN]
        simpa using this
      symm
      rw [← List.forall₂_eq_eq_eq, List.forall₂_map_left_iff, List.forall₂_map_right_iff]
      refine (forall₂_mem hf).imp ?_
      rintro t p ⟨h2, h1⟩
      rw [h1 i, e1]
      congr 1
      have := hlt t h2
      simp [this]

end Razorback.Windows
