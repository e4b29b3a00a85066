/- Lemmas about `merge`. -/
import Verif.Lemmas.Extract
import Verif.Spec.Merge

namespace Razorback
open Spec
variable {α β κ : Type _}

namespace SigSet

theorem mem_go {seq : List (List (ℚ × ℚ))} {k : ℚ → ℚ → List (ℚ × ℚ)} {ivs : List (ℚ × ℚ)}
    (hs : ivs.Pairwise (fun i j => i.1 ≤ j.1)) (d f : ℚ) (x : ℚ × ℚ) :
    x ∈ common.go seq k ivs d f ↔ ∃ i ∈ ivs, d < i.2 ∧ i.1 < f ∧ x ∈ k (max d i.1) (min f i.2) := by
  induction ivs with
  | nil => simp [common.go]
  | cons i ivs ih =>
    obtain ⟨dh, fh⟩ := i
    obtain ⟨h1, h2⟩ := List.pairwise_cons.1 hs
    have ih' := ih h2
    simp only [common.go]
    split
    · rename_i h
      rw [ih']
      constructor
      · rintro ⟨i, hi, h3⟩; exact ⟨i, by simp [hi], h3⟩
      · rintro ⟨i, hi, h3⟩
        rcases List.mem_cons.1 hi with rfl | hi
        · exact absurd h3.1 (not_lt.2 h)
        · exact ⟨i, hi, h3⟩
    · rename_i h
      push Not at h
      split
      · rename_i hf
        constructor
        · intro hx; simp at hx
        · rintro ⟨i, hi, h3⟩
          exfalso
          rcases List.mem_cons.1 hi with rfl | hi
          · exact absurd h3.2.1 (not_lt.2 hf)
          · exact absurd h3.2.1 (not_lt.2 (hf.trans (h1 i hi)))
      · rename_i hf
        push Not at hf
        rw [List.mem_append, ih']
        constructor
        · rintro (hx | ⟨i, hi, h3⟩)
          · exact ⟨(dh, fh), by simp, h, hf, hx⟩
          · exact ⟨i, by simp [hi], h3⟩
        · rintro ⟨i, hi, h3⟩
          rcases List.mem_cons.1 hi with rfl | hi
          · exact Or.inl h3.2.2
          · exact Or.inr ⟨i, hi, h3⟩

/-- Latest start / earliest end of a list of intervals, from `d` and `f`. -/
def loOf (d : ℚ) (c : List (ℚ × ℚ)) : ℚ := c.foldl (fun a i => max a i.1) d
def hiOf (f : ℚ) (c : List (ℚ × ℚ)) : ℚ := c.foldl (fun a i => min a i.2) f

theorem loOf_spec (c : List (ℚ × ℚ)) (d : ℚ) : d ≤ loOf d c ∧ (∀ i ∈ c, i.1 ≤ loOf d c) ∧
    (loOf d c = d ∨ ∃ i ∈ c, i.1 = loOf d c) := by
  induction c generalizing d with
  | nil => simp [loOf]
  | cons i c ih =>
    obtain ⟨h1, h2, h3⟩ := ih (max d i.1)
    have e : loOf d (i :: c) = loOf (max d i.1) c := rfl
    rw [e]
    refine ⟨(le_max_left _ _).trans h1, ?_, ?_⟩
    · intro j hj
      rcases List.mem_cons.1 hj with rfl | hj
      · exact (le_max_right _ _).trans h1
      · exact h2 j hj
    · rcases h3 with h3 | ⟨j, hj, h3⟩
      · rcases le_total d i.1 with h | h
        · right; exact ⟨i, by simp, by rw [h3, max_eq_right h]⟩
        · left; rw [h3, max_eq_left h]
      · right; exact ⟨j, by simp [hj], h3⟩

theorem hiOf_spec (c : List (ℚ × ℚ)) (f : ℚ) : hiOf f c ≤ f ∧ (∀ i ∈ c, hiOf f c ≤ i.2) ∧
    (hiOf f c = f ∨ ∃ i ∈ c, i.2 = hiOf f c) := by
  induction c generalizing f with
  | nil => simp [hiOf]
  | cons i c ih =>
    obtain ⟨h1, h2, h3⟩ := ih (min f i.2)
    have e : hiOf f (i :: c) = hiOf (min f i.2) c := rfl
    rw [e]
    refine ⟨h1.trans (min_le_left _ _), ?_, ?_⟩
    · intro j hj
      rcases List.mem_cons.1 hj with rfl | hj
      · exact h1.trans (min_le_right _ _)
      · exact h2 j hj
    · rcases h3 with h3 | ⟨j, hj, h3⟩
      · rcases le_total f i.2 with h | h
        · left; rw [h3, min_eq_left h]
        · right; exact ⟨i, by simp, by rw [h3, min_eq_right h]⟩
      · right; exact ⟨j, by simp [hj], h3⟩

theorem mem_common_imp {ivss : List (List (ℚ × ℚ))} (hs : ∀ ivs ∈ ivss, ivs.Pairwise (fun i j => i.1 ≤ j.1))
    {d f : ℚ} {x : ℚ × ℚ} (hx : x ∈ common ivss d f) :
    ∃ c, List.Forall₂ (fun i ivs => i ∈ ivs) c ivss ∧ x = (loOf d c, hiOf f c) := by
  induction ivss generalizing d f with
  | nil => simp [common] at hx; exact ⟨[], .nil, hx⟩
  | cons ivs ivss ih =>
    simp only [common] at hx
    obtain ⟨i, hi, _, _, h3⟩ := (mem_go (hs ivs (by simp)) d f x).1 hx
    obtain ⟨c, hc, rfl⟩ := ih (fun ivs h => hs ivs (by simp [h])) h3
    exact ⟨i :: c, .cons hi hc, rfl⟩

theorem mem_common_of {ivss : List (List (ℚ × ℚ))} (hs : ∀ ivs ∈ ivss, ivs.Pairwise (fun i j => i.1 ≤ j.1))
    {d f : ℚ} {c : List (ℚ × ℚ)} (hc : List.Forall₂ (fun i ivs => i ∈ ivs) c ivss)
    (h : loOf d c < hiOf f c) : (loOf d c, hiOf f c) ∈ common ivss d f := by
  induction hc generalizing d f with
  | nil => simp [common, loOf, hiOf]
  | @cons i ivs c ivss hi hc ih =>
    simp only [common]
    rw [mem_go (hs ivs (by simp))]
    have e1 : loOf d (i :: c) = loOf (max d i.1) c := rfl
    have e2 : hiOf f (i :: c) = hiOf (min f i.2) c := rfl
    rw [e1, e2] at h ⊢
    have h1 := (loOf_spec c (max d i.1)).1
    have h2 := (hiOf_spec c (min f i.2)).1
    have h3 : max d i.1 < min f i.2 := by linarith
    rw [max_lt_iff, lt_min_iff, lt_min_iff] at h3
    exact ⟨i, hi, h3.1.2, h3.2.1, ih (fun ivs h => hs ivs (by simp [h])) h⟩

/-- With proper intervals every explored interval is proper. -/
theorem common_lt {ivss : List (List (ℚ × ℚ))} (hs : ∀ ivs ∈ ivss, ivs.Pairwise (fun i j => i.1 ≤ j.1))
    (hlt : ∀ ivs ∈ ivss, ∀ i ∈ ivs, i.1 < i.2)
    {d f : ℚ} (hdf : d < f) {x : ℚ × ℚ} (hx : x ∈ common ivss d f) : x.1 < x.2 := by
  induction ivss generalizing d f with
  | nil => simp [common] at hx; rw [hx]; exact hdf
  | cons ivs ivss ih =>
    simp only [common] at hx
    obtain ⟨i, hi, h1, h2, h3⟩ := (mem_go (hs ivs (by simp)) d f x).1 hx
    refine ih (fun ivs h => hs ivs (by simp [h])) (fun ivs h => hlt ivs (by simp [h])) ?_ h3
    have := hlt ivs (by simp) i hi
    rw [max_lt_iff, lt_min_iff, lt_min_iff]
    exact ⟨⟨hdf, h1⟩, h2, this⟩

theorem common_bounds {ivss : List (List (ℚ × ℚ))} (hs : ∀ ivs ∈ ivss, ivs.Pairwise (fun i j => i.1 ≤ j.1))
    {d f : ℚ} {x : ℚ × ℚ} (hx : x ∈ common ivss d f) : d ≤ x.1 ∧ x.2 ≤ f := by
  obtain ⟨c, _, rfl⟩ := mem_common_imp hs hx
  exact ⟨(loOf_spec c d).1, (hiOf_spec c f).1⟩

theorem common_pairwise {ivss : List (List (ℚ × ℚ))} (hs : ∀ ivs ∈ ivss, ivs.Pairwise (fun i j => i.1 ≤ j.1))
    (hd : ∀ ivs ∈ ivss, ivs.Pairwise (fun i j => i.2 ≤ j.1)) (d f : ℚ) :
    (common ivss d f).Pairwise (fun i j => i.2 ≤ j.1) := by
  induction ivss generalizing d f with
  | nil => simp [common]
  | cons ivs ivss ih =>
    simp only [common]
    have ih' := ih (fun ivs h => hs ivs (by simp [h])) (fun ivs h => hd ivs (by simp [h]))
    have hb : ∀ {d f : ℚ} {x : ℚ × ℚ}, x ∈ common ivss d f → d ≤ x.1 ∧ x.2 ≤ f :=
      fun hx => common_bounds (fun ivs h => hs ivs (by simp [h])) hx
    have hs' := hs ivs (by simp)
    have hd' := hd ivs (by simp)
    clear hs hd ih
    induction ivs with
    | nil => simp [common.go]
    | cons i ivs ih2 =>
      obtain ⟨dh, fh⟩ := i
      obtain ⟨h1, h2⟩ := List.pairwise_cons.1 hs'
      obtain ⟨h3, h4⟩ := List.pairwise_cons.1 hd'
      have ih2' := ih2 h2 h4
      simp only [common.go]
      split
      · exact ih2'
      · split
        · simp
        · refine List.pairwise_append.2 ⟨ih' _ _, ih2', ?_⟩
          intro x hx y hy
          obtain ⟨j, hj, _, _, h5⟩ := (mem_go h2 d f y).1 hy
          have a1 := (hb hx).2
          have a2 := (hb h5).1
          have a3 := h3 j hj
          exact (a1.trans (min_le_right _ _)).trans (a3.trans ((le_max_right _ _).trans a2))

/-- Interval of a run. -/
def iv (s : Sync α κ) : ℚ × ℚ := (s.start, lastTime s)

theorem npMin_spec {l : List ℚ} {m : ℚ} (h : npMin l = .ok m) : m ∈ l ∧ ∀ x ∈ l, m ≤ x := by
  cases l with
  | nil => simp [npMin] at h
  | cons a l =>
    simp only [npMin, Except.ok.injEq] at h
    subst h
    have : ∀ (l : List ℚ) (a : ℚ), l.foldl min a ∈ a :: l ∧ ∀ x ∈ a :: l, l.foldl min a ≤ x := by
      intro l
      induction l with
      | nil => simp
      | cons b l ih =>
        intro a
        obtain ⟨h1, h2⟩ := ih (min a b)
        simp only [List.foldl_cons]
        refine ⟨?_, ?_⟩
        · rcases List.mem_cons.1 h1 with h1 | h1
          · rw [h1]
            rcases le_total a b with h | h
            · rw [min_eq_left h]; simp
            · rw [min_eq_right h]; simp
          · simp [h1]
        · have h3 := h2 (min a b) (by simp)
          intro x hx
          simp only [List.mem_cons] at hx
          rcases hx with rfl | rfl | hx
          · exact h3.trans (min_le_left _ _)
          · exact h3.trans (min_le_right _ _)
          · exact h2 x (by simp [hx])
    exact this l a

theorem npMax_spec {l : List ℚ} {m : ℚ} (h : npMax l = .ok m) : m ∈ l ∧ ∀ x ∈ l, x ≤ m := by
  cases l with
  | nil => simp [npMax] at h
  | cons a l =>
    simp only [npMax, Except.ok.injEq] at h
    subst h
    have : ∀ (l : List ℚ) (a : ℚ), l.foldl max a ∈ a :: l ∧ ∀ x ∈ a :: l, x ≤ l.foldl max a := by
      intro l
      induction l with
      | nil => simp
      | cons b l ih =>
        intro a
        obtain ⟨h1, h2⟩ := ih (max a b)
        simp only [List.foldl_cons]
        refine ⟨?_, ?_⟩
        · rcases List.mem_cons.1 h1 with h1 | h1
          · rw [h1]
            rcases le_total a b with h | h
            · rw [max_eq_right h]; simp
            · rw [max_eq_left h]; simp
          · simp [h1]
        · have h3 := h2 (max a b) (by simp)
          intro x hx
          simp only [List.mem_cons] at hx
          rcases hx with rfl | rfl | hx
          · exact (le_max_left _ _).trans h3
          · exact (le_max_right _ _).trans h3
          · exact h2 x (by simp [hx])
    exact this l a

theorem npMin_ok_of {l : List ℚ} (h : l ≠ []) : ∃ m, npMin l = .ok m := by
  cases l with
  | nil => exact absurd rfl h
  | cons a l => exact ⟨_, rfl⟩

theorem npMax_ok_of {l : List ℚ} (h : l ≠ []) : ∃ m, npMax l = .ok m := by
  cases l with
  | nil => exact absurd rfl h
  | cons a l => exact ⟨_, rfl⟩

/-- `mergeIntervals` on non-empty sets: `common` from bounds enclosing everything. -/
theorem mergeIntervals_eq {seqs : List (SigSet α κ)} (hne : seqs ≠ []) (hS : ∀ S ∈ seqs, S.runs ≠ [])
    (hr : ∀ S ∈ seqs, ∀ s ∈ S.runs, s.rate ≠ 0) :
    ∃ d f, mergeIntervals seqs = .ok (common (seqs.map (fun S => S.runs.map iv)) d f) ∧
      (∀ S ∈ seqs, ∀ s ∈ S.runs, d ≤ s.start ∧ lastTime s ≤ f) := by
  have h1 : mapE (fun S : SigSet α κ => mapE Sync.interval S.runs) seqs = .ok (seqs.map (fun S => S.runs.map iv)) :=
    mapE_of_forall (fun S hS' => interval_map_eq (hr S hS'))
  have hb : ∀ S ∈ seqs, ∀ s ∈ S.runs, s.start ∈ bounds (S.runs.map iv) ∧ lastTime s ∈ bounds (S.runs.map iv) := by
    intro S hS' s hs
    unfold bounds
    constructor <;> refine List.mem_flatMap.2 ⟨iv s, List.mem_map.2 ⟨s, hs, rfl⟩, by simp [iv]⟩
  have hbne : ∀ ivs ∈ seqs.map (fun S : SigSet α κ => S.runs.map iv), bounds ivs ≠ [] := by
    intro ivs hivs
    obtain ⟨S, hS', rfl⟩ := List.mem_map.1 hivs
    obtain ⟨s, hs⟩ := List.exists_mem_of_ne_nil _ (hS S hS')
    exact List.ne_nil_of_mem (hb S hS' s hs).1
  have h2 : ∃ mins, mapE (fun ivs => npMin (bounds ivs)) (seqs.map (fun S : SigSet α κ => S.runs.map iv)) = .ok mins := by
    cases h : mapE (fun ivs => npMin (bounds ivs)) (seqs.map (fun S : SigSet α κ => S.runs.map iv)) with
    | ok m => exact ⟨m, rfl⟩
    | error e =>
      obtain ⟨ivs, h3, h4⟩ := mapE_error h
      obtain ⟨m, hm⟩ := npMin_ok_of (hbne ivs h3)
      rw [hm] at h4; simp at h4
  have h3 : ∃ maxs, mapE (fun ivs => npMax (bounds ivs)) (seqs.map (fun S : SigSet α κ => S.runs.map iv)) = .ok maxs := by
    cases h : mapE (fun ivs => npMax (bounds ivs)) (seqs.map (fun S : SigSet α κ => S.runs.map iv)) with
    | ok m => exact ⟨m, rfl⟩
    | error e =>
      obtain ⟨ivs, h3, h4⟩ := mapE_error h
      obtain ⟨m, hm⟩ := npMax_ok_of (hbne ivs h3)
      rw [hm] at h4; simp at h4
  obtain ⟨mins, hmins⟩ := h2
  obtain ⟨maxs, hmaxs⟩ := h3
  have l1 := mapE_length hmins
  have l2 := mapE_length hmaxs
  have n1 : mins ≠ [] := by intro h; rw [h] at l1; simp at l1; exact hne (by simpa using l1.symm)
  have n2 : maxs ≠ [] := by intro h; rw [h] at l2; simp at l2; exact hne (by simpa using l2.symm)
  obtain ⟨d, hd⟩ := npMin_ok_of n1
  obtain ⟨f, hf⟩ := npMax_ok_of n2
  refine ⟨d, f, ?_, ?_⟩
  · unfold mergeIntervals
    simp only [h1, hmins, hmaxs, hd, hf]
  · intro S hS' s hs
    obtain ⟨m1, hm1, e1⟩ := mapE_ok_forall hmins _ (List.mem_map.2 ⟨S, hS', rfl⟩)
    obtain ⟨m2, hm2, e2⟩ := mapE_ok_forall hmaxs _ (List.mem_map.2 ⟨S, hS', rfl⟩)
    obtain ⟨b1, b2⟩ := hb S hS' s hs
    exact ⟨((npMin_spec hd).2 m1 hm1).trans ((npMin_spec e1).2 _ b1),
      ((npMax_spec e2).2 _ b2).trans ((npMax_spec hf).2 m2 hm2)⟩

theorem mergeIntervals_empty {seqs : List (SigSet α κ)} (hS : ∃ S ∈ seqs, S.runs = [])
    (hr : ∀ S ∈ seqs, ∀ s ∈ S.runs, s.rate ≠ 0) : mergeIntervals seqs = .error .value := by
  have h1 : mapE (fun S : SigSet α κ => mapE Sync.interval S.runs) seqs = .ok (seqs.map (fun S => S.runs.map iv)) :=
    mapE_of_forall (fun S hS' => interval_map_eq (hr S hS'))
  unfold mergeIntervals
  simp only [h1]
  obtain ⟨S, hS', he⟩ := hS
  cases h : mapE (fun ivs => npMin (bounds ivs)) (seqs.map (fun S : SigSet α κ => S.runs.map iv)) with
  | error e =>
    simp only
    obtain ⟨ivs, _, h4⟩ := mapE_error h
    cases hb : bounds ivs with
    | nil => rw [hb] at h4; simp [npMin] at h4; rw [h4]
    | cons a l => rw [hb] at h4; simp [npMin] at h4
  | ok m =>
    exfalso
    obtain ⟨b, _, hb⟩ := mapE_ok_forall h _ (List.mem_map.2 ⟨S, hS', rfl⟩)
    rw [he] at hb
    simp [bounds, npMin] at hb

/-- A choice of intervals is a choice of runs. -/
theorem choice_iv {seqs : List (SigSet α κ)} {c : List (ℚ × ℚ)}
    (h : List.Forall₂ (fun i ivs => i ∈ ivs) c (seqs.map (fun S => S.runs.map iv))) :
    ∃ r, Choice r seqs ∧ c = r.map iv := by
  induction seqs generalizing c with
  | nil => simp at h; subst h; exact ⟨[], .nil, rfl⟩
  | cons S seqs ih =>
    simp only [List.map_cons] at h
    cases h with
    | cons h1 h2 =>
      obtain ⟨r, hr, rfl⟩ := ih h2
      obtain ⟨s, hs, rfl⟩ := List.mem_map.1 h1
      exact ⟨s :: r, .cons hs hr, rfl⟩

theorem choice_map {seqs : List (SigSet α κ)} {r : List (Sync α κ)} (h : Choice r seqs) :
    List.Forall₂ (fun i ivs => i ∈ ivs) (r.map iv) (seqs.map (fun S => S.runs.map iv)) := by
  unfold Choice at h
  induction h with
  | nil => exact .nil
  | cons h1 _ ih => exact .cons (List.mem_map.2 ⟨_, h1, rfl⟩) ih

theorem choice_mem {seqs : List (SigSet α κ)} {r : List (Sync α κ)} (h : Choice r seqs) :
    ∀ s ∈ r, ∃ S ∈ seqs, s ∈ S.runs := by
  unfold Choice at h
  induction h with
  | nil => simp
  | @cons a S _ _ h1 _ ih =>
    intro s hs
    rcases List.mem_cons.1 hs with rfl | hs
    · exact ⟨S, by simp, h1⟩
    · obtain ⟨S', h3, h4⟩ := ih s hs; exact ⟨S', by simp [h3], h4⟩

theorem loOf_overlap {c : List (Sync α κ)} (hc : c ≠ []) {d : ℚ} (hd : ∀ s ∈ c, d ≤ s.start) :
    (∃ s ∈ c, s.start = loOf d (c.map iv)) ∧ ∀ s ∈ c, s.start ≤ loOf d (c.map iv) := by
  obtain ⟨h1, h2, h3⟩ := loOf_spec (c.map iv) d
  have h4 : ∀ s ∈ c, s.start ≤ loOf d (c.map iv) := fun s hs => h2 (iv s) (List.mem_map.2 ⟨s, hs, rfl⟩)
  refine ⟨?_, h4⟩
  rcases h3 with h3 | ⟨i, hi, h3⟩
  · obtain ⟨s, hs⟩ := List.exists_mem_of_ne_nil _ hc
    exact ⟨s, hs, le_antisymm (h4 s hs) (by rw [h3]; exact hd s hs)⟩
  · obtain ⟨s, hs, rfl⟩ := List.mem_map.1 hi
    exact ⟨s, hs, h3⟩

theorem hiOf_overlap {c : List (Sync α κ)} (hc : c ≠ []) {f : ℚ} (hf : ∀ s ∈ c, lastTime s ≤ f) :
    (∃ s ∈ c, lastTime s = hiOf f (c.map iv)) ∧ ∀ s ∈ c, hiOf f (c.map iv) ≤ lastTime s := by
  obtain ⟨h1, h2, h3⟩ := hiOf_spec (c.map iv) f
  have h4 : ∀ s ∈ c, hiOf f (c.map iv) ≤ lastTime s := fun s hs => h2 (iv s) (List.mem_map.2 ⟨s, hs, rfl⟩)
  refine ⟨?_, h4⟩
  rcases h3 with h3 | ⟨i, hi, h3⟩
  · obtain ⟨s, hs⟩ := List.exists_mem_of_ne_nil _ hc
    exact ⟨s, hs, le_antisymm (by rw [h3]; exact hf s hs) (h4 s hs)⟩
  · obtain ⟨s, hs, rfl⟩ := List.mem_map.1 hi
    exact ⟨s, hs, h3⟩

theorem Overlap.unique {c : List (Sync α κ)} {a b a' b' : ℚ} (h : Overlap c a b) (h' : Overlap c a' b') :
    a = a' ∧ b = b' := by
  obtain ⟨s, hs, rfl⟩ := h.lo
  obtain ⟨s', hs', rfl⟩ := h'.lo
  obtain ⟨u, hu, rfl⟩ := h.hi
  obtain ⟨u', hu', rfl⟩ := h'.hi
  exact ⟨le_antisymm (h'.lo_le s hs) (h.lo_le s' hs'), le_antisymm (h.le_hi u' hu') (h'.le_hi u hu)⟩

/-- What is common to `common` on the intervals of sets. -/
theorem mem_common_runs {seqs : List (SigSet α κ)} (hne : seqs ≠ []) (hI : ∀ S ∈ seqs, SInv S) {d f : ℚ}
    (hb : ∀ S ∈ seqs, ∀ s ∈ S.runs, d ≤ s.start ∧ lastTime s ≤ f) :
    (∀ x ∈ common (seqs.map (fun S => S.runs.map iv)) d f, ∃ c, Choice c seqs ∧
      (∃ s ∈ c, s.start = x.1) ∧ (∀ s ∈ c, s.start ≤ x.1) ∧ (∃ s ∈ c, lastTime s = x.2) ∧
      (∀ s ∈ c, x.2 ≤ lastTime s)) ∧
    (∀ c a b, Choice c seqs → Overlap c a b → (a, b) ∈ common (seqs.map (fun S => S.runs.map iv)) d f) := by
  have hs : ∀ ivs ∈ seqs.map (fun S : SigSet α κ => S.runs.map iv), ivs.Pairwise (fun i j => i.1 ≤ j.1) := by
    intro ivs hivs
    obtain ⟨S, hS, rfl⟩ := List.mem_map.1 hivs
    rw [List.pairwise_map]
    exact (hI S hS).ok.sorted
  have hcne : ∀ c : List (Sync α κ), Choice c seqs → c ≠ [] := by
    intro c hc h
    subst h
    cases hc
    exact hne rfl
  have hcb : ∀ c : List (Sync α κ), Choice c seqs → (∀ s ∈ c, d ≤ s.start) ∧ ∀ s ∈ c, lastTime s ≤ f := by
    intro c hc
    constructor <;> intro s hs <;> obtain ⟨S, hS, hsS⟩ := choice_mem hc s hs
    · exact (hb S hS s hsS).1
    · exact (hb S hS s hsS).2
  refine ⟨?_, ?_⟩
  · intro x hx
    obtain ⟨c, hc, rfl⟩ := mem_common_imp hs hx
    obtain ⟨r, hr, rfl⟩ := choice_iv hc
    obtain ⟨b1, b2⟩ := hcb r hr
    obtain ⟨l1, l2⟩ := loOf_overlap (hcne r hr) b1
    obtain ⟨l3, l4⟩ := hiOf_overlap (hcne r hr) b2
    exact ⟨r, hr, l1, l2, l3, l4⟩
  · intro c a b hc ho
    obtain ⟨b1, b2⟩ := hcb c hc
    obtain ⟨⟨s, hs', l1⟩, l2⟩ := loOf_overlap (hcne c hc) b1
    obtain ⟨⟨u, hu, l3⟩, l4⟩ := hiOf_overlap (hcne c hc) b2
    obtain ⟨s', hs'', ha⟩ := ho.lo
    obtain ⟨u', hu', hb'⟩ := ho.hi
    have e1 : loOf d (c.map iv) = a := le_antisymm (by rw [← l1]; exact ho.lo_le s hs') (by rw [← ha]; exact l2 s' hs'')
    have e2 : hiOf f (c.map iv) = b := le_antisymm (by rw [← hb']; exact l4 u' hu') (by rw [← l3]; exact ho.le_hi u hu)
    have := mem_common_of hs (choice_map hc) (d := d) (f := f) (by rw [e1, e2]; exact ho.lt)
    rwa [e1, e2] at this

/-- At most the run containing the interval has two samples in it. -/
theorem winRuns_single {S : SigSet α κ} (hI : SInv S) (hr : ∀ s ∈ S.runs, 0 < s.rate) {s : Sync α κ} (hs : s ∈ S.runs)
    {a b : ℚ} (ha : s.start ≤ a) (hb : b ≤ lastTime s) :
    winRuns a b S.runs = if 1 < (s.win a b).size then [s.win a b] else [] := by
  have key : ∀ s' ∈ S.runs, (lastTime s' ≤ a ∨ b ≤ s'.start) → ¬ 1 < (s'.win a b).size := by
    intro s' hs' hor hlt
    have hsz : (s'.win a b).size = s'.iHi b - s'.iLo a := rfl
    rw [hsz] at hlt
    have hr' := hr s' hs'
    have h1 := (Sync.iLo_le hr' a (s'.iLo a)).1 le_rfl
    have h2 := (Sync.lt_iHi hr' b (s'.iLo a + 1)).1 (by omega)
    have h3 := (sampleTime_strictMono hr' s'.start (i := s'.iLo a) (j := s'.iLo a + 1)).2 (by omega)
    rcases hor with h | h
    · have h4 := Sync.sampleTime_le_last hr' h2.1
      linarith
    · have h4 := Sync.start_le_sampleTime hr' (s'.iLo a)
      have h5 := h2.2
      linarith
  obtain ⟨l1, l2, hl⟩ := List.append_of_mem hs
  have hd := hI.ok.disjoint
  rw [hl] at hd key ⊢
  obtain ⟨_, d2, d3⟩ := List.pairwise_append.1 hd
  obtain ⟨d4, _⟩ := List.pairwise_cons.1 d2
  unfold winRuns
  rw [List.map_append, List.filter_append, List.map_cons, List.filter_cons]
  have f1 : (l1.map (fun s => s.win a b)).filter (fun s => decide (1 < s.size)) = [] := by
    rw [List.filter_eq_nil_iff]
    intro r hr'
    obtain ⟨s', hs', rfl⟩ := List.mem_map.1 hr'
    simp only [decide_eq_true_eq]
    exact key s' (by simp [hs']) (Or.inl ((d3 s' hs' s (by simp)).trans ha))
  have f2 : (l2.map (fun s => s.win a b)).filter (fun s => decide (1 < s.size)) = [] := by
    rw [List.filter_eq_nil_iff]
    intro r hr'
    obtain ⟨s', hs', rfl⟩ := List.mem_map.1 hr'
    simp only [decide_eq_true_eq]
    exact key s' (by simp [hs']) (Or.inr (hb.trans (d4 s' hs')))
  rw [f1, f2]
  by_cases h : 1 < (s.win a b).size <;> simp [h]

/-- The parts of `mergeOne` for an explored interval. -/
theorem mergeOne_sets [One κ] {seqs : List (SigSet α κ)} (hI : ∀ S ∈ seqs, SInv S) (hp : ∀ S ∈ seqs, Plain S.tags)
    (hr : ∀ S ∈ seqs, ∀ s ∈ S.runs, 0 < s.rate) {c : List (Sync α κ)} (hc : Choice c seqs) {a b : ℚ}
    (ha : ∀ s ∈ c, s.start ≤ a) (hb : ∀ s ∈ c, b ≤ lastTime s) :
    ∃ sets, mapE (fun S : SigSet α κ => S.extractIn a b) seqs = .ok sets ∧
      sets.map (fun S => S.runs) = c.map (fun s => if 1 < (s.win a b).size then [s.win a b] else []) := by
  unfold Choice at hc
  induction hc with
  | nil => exact ⟨[], rfl, rfl⟩
  | @cons s S c seqs h1 h2 ih =>
    obtain ⟨sets, e1, e2⟩ := ih (fun S h => hI S (by simp [h])) (fun S h => hp S (by simp [h]))
      (fun S h => hr S (by simp [h])) (fun s h => ha s (by simp [h])) (fun s h => hb s (by simp [h]))
    obtain ⟨m, e3, _⟩ := extractIn_ok (hI S (by simp)) (hp S (by simp)) (hr S (by simp)) a b
    refine ⟨⟨winRuns a b S.runs, ⟨m, S.tags.tags⟩⟩ :: sets, ?_, ?_⟩
    · simp only [mapE, e3, e1]
    · simp only [List.map_cons, e2]
      rw [winRuns_single (hI S (by simp)) (hr S (by simp)) h1 (ha s (by simp)) (hb s (by simp))]

theorem _root_.Razorback.Sync.win_start_iff {s : Sync α κ} (hr : 0 < s.rate) {a b : ℚ} (ha : s.start ≤ a)
    (h : 0 < (s.win a b).size) : (s.win a b).start = a ↔ SampledAt s a := by
  have hsz : (s.win a b).size = s.iHi b - s.iLo a := rfl
  have hst : (s.win a b).start = sampleTime s.rate s.start (s.iLo a) := rfl
  rw [hsz] at h
  have h2 := (Sync.lt_iHi hr b (s.iLo a)).1 (by omega)
  rw [hst]
  constructor
  · intro h3; exact ⟨s.iLo a, h2.1, h3⟩
  · rintro ⟨i, hi, h3⟩
    have h4 : s.iLo a ≤ i := (Sync.iLo_le hr a i).2 h3.ge
    have h5 := (Sync.iLo_le hr a (s.iLo a)).1 le_rfl
    have h6 := (sampleTime_mono hr s.start (i := s.iLo a) (j := i)).2 h4
    linarith

/-- Sampled at `a`, still running at `b`: the window has `⌊(b - a) * rate⌋ + 1` samples. -/
theorem _root_.Razorback.Sync.win_size {s : Sync α κ} (hr : 0 < s.rate) {a b : ℚ} (ha : s.start ≤ a)
    (hb : b ≤ lastTime s) (h : 1 < (s.win a b).size) (hat : SampledAt s a) :
    (s.win a b).size = (⌊(b - a) * s.rate⌋ + 1).toNat := by
  have hsz : (s.win a b).size = s.iHi b - s.iLo a := rfl
  have hst : (s.win a b).start = a := (Sync.win_start_iff hr ha (by omega)).2 hat
  have hst' : sampleTime s.rate s.start (s.iLo a) = a := hst
  rw [hsz] at h
  have hle := Sync.iHi_le (s := s) b
  have key : ∀ i : Nat, i < s.iHi b - s.iLo a ↔ (i : ℚ) / s.rate + a ≤ b := by
    intro i
    have e1 : sampleTime s.rate s.start (s.iLo a + i) = (i : ℚ) / s.rate + a := by
      rw [← sampleTime_add, hst']; unfold sampleTime; ring
    rw [← e1]
    have e2 := Sync.lt_iHi hr b (s.iLo a + i)
    constructor
    · intro h3; exact (e2.1 (by omega)).2
    · intro h3
      have : s.iLo a + i < s.size := by
        by_contra hcon
        have h4 := (sampleTime_strictMono hr s.start (i := s.size - 1) (j := s.iLo a + i)).2 (by omega)
        rw [← Sync.lastTime_eq (by omega)] at h4
        linarith
      have := e2.2 ⟨this, h3⟩
      omega
  have key2 : ∀ i : Nat, i < s.iHi b - s.iLo a ↔ (i : Int) ≤ ⌊(b - a) * s.rate⌋ := by
    intro i
    rw [key, Int.le_floor, ← le_sub_iff_add_le, div_le_iff₀ hr]
    push_cast; rfl
  rw [hsz]
  have k1 := key2 (s.iHi b - s.iLo a)
  have k2 := key2 (⌊(b - a) * s.rate⌋ + 1).toNat
  have k3 := key2 ((⌊(b - a) * s.rate⌋ + 1).toNat - 1)
  omega

theorem map_win_of {c : List (Sync α κ)} {a b : ℚ} (hsz : ∀ s ∈ c, 1 < (s.win a b).size) :
    c.map (fun s => if 1 < (s.win a b).size then [s.win a b] else []) = c.map (fun s => [s.win a b]) :=
  List.map_congr_left (fun s hs => if_pos (hsz s hs))

section one
variable [One κ] {seqs : List (SigSet α κ)} (hI : ∀ S ∈ seqs, SInv S) (hp : ∀ S ∈ seqs, Plain S.tags)
    (hr : ∀ S ∈ seqs, ∀ s ∈ S.runs, 0 < s.rate) {c : List (Sync α κ)} (hc : Choice c seqs) {a b : ℚ}
    (ha : ∀ s ∈ c, s.start ≤ a) (hb : ∀ s ∈ c, b ≤ lastTime s)
include hI hp hr hc ha hb

theorem mergeOne_short (h : ∃ s ∈ c, (s.win a b).size ≤ 1) : mergeOne seqs a b = .error .assertion := by
  obtain ⟨sets, e1, e2⟩ := mergeOne_sets hI hp hr hc ha hb
  unfold mergeOne
  simp only [e1]
  rw [if_neg]
  intro hall
  obtain ⟨s, hs, hle⟩ := h
  have : (if 1 < (s.win a b).size then [s.win a b] else []) ∈ sets.map (fun S => S.runs) := by
    rw [e2]; exact List.mem_map.2 ⟨s, hs, rfl⟩
  rw [if_neg (by omega)] at this
  obtain ⟨S, hS, hSr⟩ := List.mem_map.1 this
  have := List.all_eq_true.1 hall S hS
  rw [hSr] at this
  simp at this

/-- When every operand has two samples in the interval. -/
theorem mergeOne_long (hsz : ∀ s ∈ c, 1 < (s.win a b).size) :
    mergeOne seqs a b =
      match dedup (c.map (fun s => s.rate)) with
      | [rate] =>
        if c.all (fun s => (s.win a b).start == a) then
          match Sync.new (c.flatMap (fun s => (s.win a b).data)) rate a (c.flatMap (fun s => s.cals)) with
          | .error e => .error e
          | .ok s => .ok (some s)
        else .error .assertion
      | _ => .ok none := by
  obtain ⟨sets, e1, e2⟩ := mergeOne_sets hI hp hr hc ha hb
  rw [map_win_of hsz] at e2
  have hss : sets.flatMap (fun S => S.runs) = c.map (fun s => s.win a b) := by
    rw [List.flatMap_def, e2, ← List.flatMap_def]
    exact List.map_eq_flatMap.symm
  unfold mergeOne
  simp only [e1]
  rw [if_pos]
  · simp only [hss, List.map_map, List.flatMap_map, List.all_map]
    rfl
  · rw [List.all_eq_true]
    intro S hS
    have : S.runs ∈ sets.map (fun S => S.runs) := List.mem_map.2 ⟨S, hS, rfl⟩
    rw [e2] at this
    obtain ⟨s, _, hs⟩ := List.mem_map.1 this
    rw [← hs]; rfl

theorem mergeOne_rates (hsz : ∀ s ∈ c, 1 < (s.win a b).size) (h : ¬ ∃ rate, SameRate c rate) :
    mergeOne seqs a b = .ok none := by
  rw [mergeOne_long hI hp hr hc ha hb hsz]
  split
  · rename_i rate hd
    exfalso
    apply h
    refine ⟨rate, ?_⟩
    intro s hs
    have := (dedup_eq_singleton.1 hd).2 s.rate (List.mem_map.2 ⟨s, hs, rfl⟩)
    exact this
  · rfl

theorem mergeOne_unsync (hne : c ≠ []) (hsz : ∀ s ∈ c, 1 < (s.win a b).size) {rate : ℚ} (h : SameRate c rate)
    (hun : ∃ s ∈ c, ¬ SampledAt s a) : mergeOne seqs a b = .error .assertion := by
  rw [mergeOne_long hI hp hr hc ha hb hsz]
  have : dedup (c.map (fun s => s.rate)) = [rate] := by
    rw [dedup_eq_singleton]
    refine ⟨by simpa using hne, ?_⟩
    intro x hx
    obtain ⟨s, hs, rfl⟩ := List.mem_map.1 hx
    exact h s hs
  rw [this]
  simp only
  rw [if_neg]
  intro hall
  obtain ⟨s, hs, hn⟩ := hun
  have h1 := List.all_eq_true.1 hall s hs
  simp only [beq_iff_eq] at h1
  obtain ⟨S, hS, hsS⟩ := choice_mem hc s hs
  exact hn ((Sync.win_start_iff (hr S hS s hsS) (ha s hs) (by have := hsz s hs; omega)).1 h1)

theorem mergeOne_ok (hne : c ≠ []) (hsz : ∀ s ∈ c, 1 < (s.win a b).size) {rate : ℚ} (h : SameRate c rate)
    (hat : ∀ s ∈ c, SampledAt s a) :
    mergeOne seqs a b = .ok (some ⟨c.flatMap (fun s => (s.win a b).data), c.flatMap (fun s => s.cals), rate, a,
      (⌊(b - a) * rate⌋ + 1).toNat⟩) := by
  rw [mergeOne_long hI hp hr hc ha hb hsz]
  have h1 : dedup (c.map (fun s => s.rate)) = [rate] := by
    rw [dedup_eq_singleton]
    refine ⟨by simpa using hne, ?_⟩
    intro x hx
    obtain ⟨s, hs, rfl⟩ := List.mem_map.1 hx
    exact h s hs
  rw [h1]
  simp only
  have hwf : ∀ s ∈ c, WF s ∧ 0 < s.rate := by
    intro s hs
    obtain ⟨S, hS, hsS⟩ := choice_mem hc s hs
    exact ⟨(hI S hS).ok.wf s hsS, hr S hS s hsS⟩
  rw [if_pos]
  · have hsize : ∀ s ∈ c, (s.win a b).size = (⌊(b - a) * rate⌋ + 1).toNat := by
      intro s hs
      rw [Sync.win_size (hwf s hs).2 (ha s hs) (hb s hs) (hsz s hs) (hat s hs), h s hs]
    have hww : ∀ s ∈ c, WF (s.win a b) := by
      intro s hs
      apply Sync.win_wf (hwf s hs).1
      have h2 := hsz s hs
      have : (s.win a b).size = s.iHi b - s.iLo a := rfl
      omega
    rw [Sync.new_eq (n := (⌊(b - a) * rate⌋ + 1).toNat)]
    · obtain ⟨s, hs⟩ := List.exists_mem_of_ne_nil _ hne
      have := (hww s hs).nonempty
      intro hc0
      rw [List.flatMap_eq_nil_iff] at hc0
      exact this (hc0 s hs)
    · intro d hd
      obtain ⟨s, hs, hd'⟩ := List.mem_flatMap.1 hd
      rw [(hww s hs).rect d hd', hsize s hs]
    · simp only [List.length_flatMap]
      congr 1
      apply List.map_congr_left
      intro s hs
      exact (hww s hs).cals
  · rw [List.all_eq_true]
    intro s hs
    simp only [beq_iff_eq]
    exact (Sync.win_start_iff (hwf s hs).2 (ha s hs) (by have := hsz s hs; omega)).2 (hat s hs)

theorem mergeOne_error {e : Err} (h : mergeOne seqs a b = .error e) : e = .assertion := by
  by_cases hne : c = []
  · subst hne
    cases hc
    simp [mergeOne, mapE, dedup] at h
  by_cases h1 : ∃ s ∈ c, (s.win a b).size ≤ 1
  · rw [mergeOne_short hI hp hr hc ha hb h1] at h; simpa using h.symm
  · push Not at h1
    by_cases h2 : ∃ rate, SameRate c rate
    · obtain ⟨rate, h2⟩ := h2
      by_cases h3 : ∃ s ∈ c, ¬ SampledAt s a
      · rw [mergeOne_unsync hI hp hr hc ha hb hne h1 h2 h3] at h; simpa using h.symm
      · push Not at h3
        rw [mergeOne_ok hI hp hr hc ha hb hne h1 h2 h3] at h; simp at h
    · rw [mergeOne_rates hI hp hr hc ha hb h1 h2] at h; simp at h

/-- A successful merge of one interval. -/
theorem mergeOne_inv (hne : c ≠ []) {o : Option (Sync α κ)} (h : mergeOne seqs a b = .ok o) :
    (∀ s ∈ c, 1 < (s.win a b).size) ∧
    ((o = none ∧ ¬ ∃ rate, SameRate c rate) ∨
      ∃ rate, SameRate c rate ∧ (∀ s ∈ c, SampledAt s a) ∧
        o = some ⟨c.flatMap (fun s => (s.win a b).data), c.flatMap (fun s => s.cals), rate, a,
          (⌊(b - a) * rate⌋ + 1).toNat⟩) := by
  by_cases h1 : ∃ s ∈ c, (s.win a b).size ≤ 1
  · rw [mergeOne_short hI hp hr hc ha hb h1] at h; simp at h
  · push Not at h1
    refine ⟨h1, ?_⟩
    by_cases h2 : ∃ rate, SameRate c rate
    · obtain ⟨rate, h2⟩ := h2
      by_cases h3 : ∃ s ∈ c, ¬ SampledAt s a
      · rw [mergeOne_unsync hI hp hr hc ha hb hne h1 h2 h3] at h; simp at h
      · push Not at h3
        rw [mergeOne_ok hI hp hr hc ha hb hne h1 h2 h3] at h
        right; exact ⟨rate, h2, h3, by simpa using h.symm⟩
    · rw [mergeOne_rates hI hp hr hc ha hb h1 h2] at h
      left; exact ⟨by simpa using h.symm, h2⟩

end one

/-- The channels of the merged run. -/
theorem merged_channels {c : List (Sync α κ)} {a b rate : ℚ} {n : Nat} (hw : ∀ s ∈ c, WF s ∧ 0 < s.rate)
    (hsz : ∀ s ∈ c, 0 < (s.win a b).size) (ha : ∀ s ∈ c, s.start ≤ a)
    (h : SameRate c rate) (hat : ∀ s ∈ c, SampledAt s a) :
    channels (⟨c.flatMap (fun s => (s.win a b).data), c.flatMap (fun s => s.cals), rate, a, n⟩ : Sync α κ) =
      c.flatMap (fun s => (channels s).map (cutChannel (window a b))) := by
  unfold channels
  simp only
  induction c with
  | nil => rfl
  | cons s c ih =>
    simp only [List.flatMap_cons, List.map_append]
    rw [List.zip_append]
    · congr 1
      · have hp := (Sync.piece_win (hw s (by simp)).1 (hw s (by simp)).2 a b).channels
        unfold channels at hp
        have e1 : (s.win a b).start = a :=
          (Sync.win_start_iff (hw s (by simp)).2 (ha s (by simp)) (hsz s (by simp))).2 (hat s (by simp))
        have e2 : (s.win a b).rate = rate := h s (by simp)
        rw [e1, e2] at hp
        exact hp
      · exact ih (fun s h => hw s (by simp [h])) (fun s h => hsz s (by simp [h]))
          (fun s h => ha s (by simp [h])) (fun s' h' => h s' (by simp [h'])) (fun s h => hat s (by simp [h]))
    · simp only [List.length_map]
      have := (hw s (by simp)).1.cals
      simp [Sync.win, Sync.cut, this]

/-! ### Merged tags -/

theorem shifts_eq (c : Nat) (seqs : List (SigSet α κ)) (i : Nat) (hi : i < seqs.length) :
    (shifts c seqs)[i]? = some (c + ((seqs.take i).map nbChannels).sum) := by
  induction seqs generalizing c i with
  | nil => simp at hi
  | cons S seqs ih =>
    cases i with
    | zero => simp [shifts]
    | succ i =>
      simp only [shifts, List.getElem?_cons_succ, List.take_succ_cons, List.map_cons, List.sum_cons]
      rw [ih _ _ (by simpa using hi)]
      congr 1; omega

theorem shifts_length (c : Nat) (seqs : List (SigSet α κ)) : (shifts c seqs).length = seqs.length := by
  induction seqs generalizing c with
  | nil => rfl
  | cons S seqs ih => simp [shifts, ih]

/-- Entries of the merged dictionary. -/
def mergedEntries (c : Nat) : List (SigSet α κ) → Dict (List Nat)
  | [] => []
  | S :: seqs => S.tags.tags.map (fun e => (e.1, e.2.map (· + c))) ++ mergedEntries (c + S.nbChannels) seqs

theorem mergedEntries_keys (c : Nat) (seqs : List (SigSet α κ)) :
    (mergedEntries c seqs).keys = seqs.flatMap (fun S => S.tags.tags.keys) := by
  induction seqs generalizing c with
  | nil => rfl
  | cons S seqs ih =>
    have := ih (c + S.nbChannels)
    simp only [Dict.keys, mergedEntries, List.map_append, List.map_map, List.flatMap_cons] at this ⊢
    rw [this]; rfl

theorem mem_mergedEntries {c : Nat} {seqs : List (SigSet α κ)} {k : String} {w : List Nat} :
    (k, w) ∈ mergedEntries c seqs ↔ ∃ (i : Nat) (S : SigSet α κ) (v : List Nat), seqs[i]? = some S ∧ (k, v) ∈ S.tags.tags ∧
      w = v.map (· + (c + ((seqs.take i).map nbChannels).sum)) := by
  induction seqs generalizing c with
  | nil => simp [mergedEntries]
  | cons S seqs ih =>
    simp only [mergedEntries, List.mem_append, List.mem_map, Prod.mk.injEq, ih]
    constructor
    · rintro (⟨⟨k', v⟩, h1, rfl, rfl⟩ | ⟨i, S', v, h1, h2, h3⟩)
      · exact ⟨0, S, v, by simp, h1, by simp⟩
      · refine ⟨i + 1, S', v, by simpa using h1, h2, ?_⟩
        rw [h3]; simp only [List.take_succ_cons, List.map_cons, List.sum_cons, Nat.add_assoc]
    · rintro ⟨i, S', v, h1, h2, h3⟩
      cases i with
      | zero =>
        simp at h1; subst h1
        left; exact ⟨(k, v), h2, rfl, by rw [h3]; simp⟩
      | succ i =>
        right
        refine ⟨i, S', v, by simpa using h1, h2, ?_⟩
        rw [h3]; simp only [List.take_succ_cons, List.map_cons, List.sum_cons, Nat.add_assoc]

theorem mergeTags_eq [Rnd] {seqs : List (SigSet α κ)} (hI : ∀ S ∈ seqs, SInv S) (hp : ∀ S ∈ seqs, Plain S.tags)
    (hnd : (seqs.flatMap (fun S => S.tags.tags.keys)).Nodup) :
    mergeTags seqs = .ok ⟨(seqs.map nbChannels).sum, mergedEntries 0 seqs⟩ := by
  have h1 : mapE (fun S : SigSet α κ => S.tags.callMethod "keys") seqs = .ok (seqs.map (fun _ => ())) :=
    mapE_of_forall (fun S hS => plain_call (hp S hS) (by simp [reserved]))
  have h2 : mapE (fun S : SigSet α κ => S.tags.items) seqs = .ok (seqs.map (fun S => S.tags.tags)) :=
    mapE_of_forall (fun S hS => by
      unfold Tags.items; rw [plain_call (hp S hS) (by simp [reserved])])
  unfold mergeTags
  rw [h1, h2]
  simp only [hnd, not_true_eq_false, if_false]
  have hd : ∀ (c : Nat) (seqs : List (SigSet α κ)),
      ((shifts c seqs).zip (seqs.map (fun S => S.tags.tags))).flatMap
        (fun p => p.2.map (fun e => (e.1, TagVal.lst (e.2.map (fun i : Nat => (i : Int) + p.1))))) =
      (mergedEntries c seqs).map (fun e => (e.1, TagVal.lst (e.2.map Int.ofNat))) := by
    intro c seqs
    induction seqs generalizing c with
    | nil => rfl
    | cons S seqs ih =>
      simp only [shifts, List.map_cons, List.zip_cons_cons, List.flatMap_cons, mergedEntries, List.map_append,
        List.map_map, ih]
      congr 1
      apply List.map_congr_left
      intro e _
      simp only [Function.comp, Prod.mk.injEq, true_and, TagVal.lst.injEq, List.map_map]
      apply List.map_congr_left
      intro i _
      simp
  rw [hd]
  rw [Tags.new_some_eq]
  · simp only [List.map_map, Function.comp_def, tupleit, Int.ofNat_eq_natCast, Int.toNat_natCast, Prod.mk.eta,
      List.map_id']
  · rw [List.map_map]
    have : ((fun x : String × TagVal => x.1) ∘ fun e : String × List Nat => (e.1, TagVal.lst (e.2.map Int.ofNat))) =
      (fun e => e.1) := rfl
    rw [this]
    change (mergedEntries 0 seqs).keys.Nodup
    rw [mergedEntries_keys]; exact hnd
  · intro k hk hmem
    rw [List.map_map] at hmem
    change k ∈ (mergedEntries 0 seqs).keys at hmem
    rw [mergedEntries_keys] at hmem
    obtain ⟨S, hS, hkS⟩ := List.mem_flatMap.1 hmem
    refine plain_not_mem (hp S hS) ?_ hkS
    simp only [reserved]; simp at hk ⊢; tauto
  · intro e he
    obtain ⟨⟨k, w⟩, hkw, rfl⟩ := List.mem_map.1 he
    obtain ⟨i, S, v, h3, h4, _⟩ := mem_mergedEntries.1 hkw
    have hS := List.mem_of_getElem? h3
    exact ((hI S hS).inv.legal k v (Dict.get?_of_mem (hI S hS).inv.nodup h4)).1
  · intro e he
    obtain ⟨⟨k, w⟩, hkw, rfl⟩ := List.mem_map.1 he
    obtain ⟨i, S, v, h3, h4, h5⟩ := mem_mergedEntries.1 hkw
    have hS := List.mem_of_getElem? h3
    have := ((hI S hS).inv.legal k v (Dict.get?_of_mem (hI S hS).inv.nodup h4)).2.1
    simp [tupleit, h5, this]
  · intro e he x hx
    obtain ⟨⟨k, w⟩, hkw, rfl⟩ := List.mem_map.1 he
    obtain ⟨i, S, v, h3, h4, h5⟩ := mem_mergedEntries.1 hkw
    have hS := List.mem_of_getElem? h3
    have hl := ((hI S hS).inv.legal k v (Dict.get?_of_mem (hI S hS).inv.nodup h4)).2.2
    simp only [tupleit, h5, List.map_map, List.mem_map, Function.comp] at hx
    obtain ⟨j, hj, rfl⟩ := hx
    have hj' := hl j hj
    rw [← nbChannels_tags (hI S hS) (hp S hS)] at hj'
    have hle : ((seqs.take i).map nbChannels).sum + S.nbChannels ≤ (seqs.map nbChannels).sum := by
      obtain ⟨hlt, hget⟩ := List.getElem?_eq_some_iff.1 h3
      have : seqs = seqs.take i ++ S :: seqs.drop (i + 1) := by
        rw [← hget, List.getElem_cons_drop, List.take_append_drop]
      conv_rhs => rw [this]
      simp only [List.map_append, List.map_cons, List.sum_append, List.sum_cons]
      omega
    simp only [Int.ofNat_eq_natCast]
    omega

theorem mergeTags_conflict {seqs : List (SigSet α κ)} (hp : ∀ S ∈ seqs, Plain S.tags)
    (hnd : ¬ (seqs.flatMap (fun S => S.tags.tags.keys)).Nodup) : mergeTags seqs = .error .assertion := by
  have h1 : mapE (fun S : SigSet α κ => S.tags.callMethod "keys") seqs = .ok (seqs.map (fun _ => ())) :=
    mapE_of_forall (fun S hS => plain_call (hp S hS) (by simp [reserved]))
  unfold mergeTags
  rw [h1]
  simp only [hnd, not_false_eq_true, if_true]

/-- Position in a concatenation. -/
theorem getElem?_flatten {L : List (List β)} {i x : Nat} {l : List β} (hi : L[i]? = some l) (hx : x < l.length) :
    L.flatten[((L.take i).map List.length).sum + x]? = l[x]? := by
  induction L generalizing i with
  | nil => simp at hi
  | cons l0 L ih =>
    cases i with
    | zero =>
      simp at hi; subst hi
      simp [List.getElem?_append_left hx]
    | succ i =>
      simp only [List.getElem?_cons_succ] at hi
      simp only [List.flatten_cons, List.take_succ_cons, List.map_cons, List.sum_cons]
      rw [List.getElem?_append_right (by omega), ← ih hi]
      congr 1; omega

end SigSet
end Razorback
