/-
Lemmas for C103: the Fourier coefficients of two sets which are the same under some names.
-/
import Verif.Spec.SameFor
import Verif.Props.Fourier
import Verif.Lemmas.Impedance

namespace Razorback
open Spec SigSet Fourier Props Impedance
variable {κ : Type _}

/-- The Fourier step treats channels separately, in a way that depends on their size only. -/
theorem timeToFreq_same (N : ℕ) (fs freq nper overlap : ℚ) (win : Win) :
    (∃ e, ∀ data : List (List ℂ), data ≠ [] → (∀ y ∈ data, y.length = N) → timeToFreq data fs freq nper overlap win = .error e) ∨
    ∃ (F : List ℂ → List ℂ) (d : ℕ × ℕ × ℕ), ∀ data : List (List ℂ), data ≠ [] → (∀ y ∈ data, y.length = N) →
      timeToFreq data fs freq nper overlap win = .ok (data.map F, d) := by
  cases hd : discreteWindow N (freq / fs) nper overlap with
  | error e =>
    refine .inl ⟨e, fun data h1 h2 => ?_⟩
    unfold timeToFreq
    rw [commonLength_some.2 ⟨h1, h2⟩]
    simp only [hd]
  | ok p =>
    obtain ⟨n, L, s⟩ := p
    by_cases hw : ∀ v, win.eval L = some v → v.length = L
    · refine .inr ⟨fun y => (List.range (n + 1)).map (fun k => fourierAt (freq / fs) L (win.eval L) y (k * s)), (n + 1, L, s),
        fun data h1 h2 => ?_⟩
      obtain ⟨res, hres⟩ := timeToFreq_of h1 h2 hd hw
      rw [hres]
      obtain ⟨_, _, _, _, _, h3⟩ := timeToFreq_ok hres
      rw [h3]
    · refine .inl ⟨.assertion, fun data h1 h2 => ?_⟩
      unfold timeToFreq
      rw [commonLength_some.2 ⟨h1, h2⟩]
      simp only [hd]
      push Not at hw
      obtain ⟨v, hv, hne⟩ := hw
      rw [hv, if_pos (by simpa using hne)]

/-- The calibrated coefficients of a channel. -/
noncomputable def chanCoeffs (cal : κ → ℚ → Option ℂ) (freq : ℚ) (F : List ℂ → List ℂ) (c : Option (List (ℚ × ℂ) × κ)) : List ℂ :=
  match c with
  | none => []
  | some c =>
    match cal c.2 freq with
    | none => []
    | some v => (F (c.1.map Prod.snd)).map (fun z => z / v)

theorem timed_snd {α : Type _} (rate start : ℚ) (d : List α) : (timed rate start d).map Prod.snd = d := by
  unfold timed
  rw [List.map_map]
  have : (Prod.snd ∘ fun p : α × ℕ => (sampleTime rate start p.2, p.1)) = Prod.fst := rfl
  rw [this, List.zipIdx_map_fst]

theorem calibrated_chan (cal : κ → ℚ → Option ℂ) (freq : ℚ) (F : List ℂ → List ℂ) (s : Sync ℂ κ) (hw : WF s) (c : ℕ) :
    calibrated cal freq s (s.data.map F) c = chanCoeffs cal freq F (channels s)[c]? := by
  unfold calibrated chanCoeffs channels
  by_cases hc : c < s.data.length
  · have hc' : c < s.cals.length := by rw [hw.cals]; exact hc
    rw [List.getElem?_eq_getElem hc', List.getElem?_eq_getElem (by simpa using hc),
      List.getElem?_eq_getElem (by simp; exact ⟨hc, hc'⟩)]
    simp only [Option.bind_some, List.getElem_map, List.getElem_zip, timed_snd]
    cases cal s.cals[c] freq <;> rfl
  · have hc' : ¬ c < s.cals.length := by rw [hw.cals]; exact hc
    rw [List.getElem?_eq_none (by omega), List.getElem?_eq_none (by simp; omega), List.getElem?_eq_none (by simp; omega)]
    rfl

/-- One run in each set. -/
theorem syncCoeffs_same (cal : κ → ℚ → Option ℂ) (freq nper overlap : ℚ) (win : Win) {r r' : Sync ℂ κ} (hw : WF r) (hw' : WF r')
    (hc : clock r = clock r') (hk : (∀ k ∈ r.cals, cal k freq ≠ none) ↔ ∀ k ∈ r'.cals, cal k freq ≠ none) :
    (∃ e, syncCoeffs cal r freq nper overlap win = .error e ∧ syncCoeffs cal r' freq nper overlap win = .error e) ∨
    ∃ F d p p', syncCoeffs cal r freq nper overlap win = .ok (p, d) ∧ syncCoeffs cal r' freq nper overlap win = .ok (p', d) ∧
      timeToFreq r.data r.rate freq nper overlap win = .ok (r.data.map F, d) ∧
      timeToFreq r'.data r'.rate freq nper overlap win = .ok (r'.data.map F, d) := by
  simp only [clock, Prod.mk.injEq] at hc
  obtain ⟨h1, h2, h3⟩ := hc
  by_cases ha : ∀ k ∈ r.cals, cal k freq ≠ none
  · have ha' := hk.1 ha
    rcases timeToFreq_same r.size r.rate freq nper overlap win with ⟨e, he⟩ | ⟨F, d, hF⟩
    · left
      refine ⟨e, ?_, ?_⟩
      · unfold syncCoeffs
        dsimp only
        rw [if_neg (by simpa using ha), he _ hw.nonempty hw.rect]
      · unfold syncCoeffs
        dsimp only
        rw [if_neg (by simpa using ha'), ← h1, he _ hw'.nonempty (by rw [h3]; exact hw'.rect)]
    · right
      have e1 := hF _ hw.nonempty hw.rect
      have e2 := hF _ hw'.nonempty (by rw [h3]; exact hw'.rect)
      rw [h1] at e2
      exact ⟨F, d, _, _, syncCoeffs_ok.2 ⟨ha, _, e1, rfl⟩, syncCoeffs_ok.2 ⟨ha', _, e2, rfl⟩, e1, e2⟩
  · left
    have ha' := mt hk.2 ha
    refine ⟨.assertion, ?_, ?_⟩
    · unfold syncCoeffs
      dsimp only
      rw [if_pos (by push Not at ha; simpa using ha)]
    · unfold syncCoeffs
      dsimp only
      rw [if_pos (by push Not at ha'; simpa using ha')]

/-- `mapE` on corresponding lists. -/
theorem mapE_same {A B C D : Type _} {f : A → Except Err C} {g : B → Except Err D} {P : C → D → Prop} {l : List A} {l' : List B}
    (h : List.Forall₂ (fun a b => (∃ e, f a = .error e ∧ g b = .error e) ∨ ∃ x y, f a = .ok x ∧ g b = .ok y ∧ P x y) l l') :
    (∃ e, mapE f l = .error e ∧ mapE g l' = .error e) ∨ ∃ x y, mapE f l = .ok x ∧ mapE g l' = .ok y ∧ List.Forall₂ P x y := by
  induction h with
  | nil => exact .inr ⟨[], [], rfl, rfl, .nil⟩
  | cons h _ ih =>
    rcases h with ⟨e, h1, h2⟩ | ⟨x, y, h1, h2, h3⟩
    · left; exact ⟨e, by simp [mapE, h1], by simp [mapE, h2]⟩
    · rcases ih with ⟨e, i1, i2⟩ | ⟨xs, ys, i1, i2, i3⟩
      · left; exact ⟨e, by simp [mapE, h1, i1], by simp [mapE, h2, i2]⟩
      · right; exact ⟨x :: xs, y :: ys, by simp [mapE, h1, i1], by simp [mapE, h2, i2], .cons h3 i3⟩

variable [One κ]

/-- The coefficients of two sets which are the same under `names`. -/
theorem setCoeffs_same (cal : κ → ℚ → Option ℂ) (freq nper overlap : ℚ) (win : Win) {names : List String} {S T : SigSet ℂ κ}
    (hS : Reach S) (hT : Reach T) (h : SameFor names S T) (hk : SameKnown cal freq S T) :
    (∃ e, setCoeffs cal S freq nper overlap win = .error e ∧ setCoeffs cal T freq nper overlap win = .error e) ∨
    ∃ co co' w, setCoeffs cal S freq nper overlap win = .ok (co, w) ∧ setCoeffs cal T freq nper overlap win = .ok (co', w) ∧
      windows S w = windows T w ∧
      ∀ k ∈ names, ∀ v v', S.tags.getItem k = .ok v → T.tags.getItem k = .ok v' → pick co v = pick co' v' := by
  have hI := (reach_sinv hS).ok
  have hI' := (reach_sinv hT).ok
  have hpair : List.Forall₂ (fun r r' : Sync ℂ κ => WF r ∧ WF r' ∧ clock r = clock r' ∧
      (∀ k ∈ names, ∀ j, designated S.tags r k j = designated T.tags r' k j) ∧
      ((∀ k ∈ r.cals, cal k freq ≠ none) ↔ ∀ k ∈ r'.cals, cal k freq ≠ none)) S.runs T.runs := by
    have h1 := h.runs
    unfold SameKnown at hk
    rw [List.forall₂_iff_get] at h1 hk ⊢
    refine ⟨h1.1, fun i a b => ⟨hI.wf _ (List.getElem_mem a), hI'.wf _ (List.getElem_mem b), (h1.2 i a b).1, (h1.2 i a b).2, hk.2 i a b⟩⟩
  have hwin : ∀ w, windows S w = windows T w := by
    intro w
    unfold windows
    congr 1
    clear hk h hI hI'
    generalize S.runs = l at *
    generalize T.runs = l' at *
    induction hpair with
    | nil => rfl
    | cons h _ ih =>
      obtain ⟨-, -, hc, -⟩ := h
      simp only [clock, Prod.mk.injEq] at hc
      simp only [List.map_cons, ih, hc.1, hc.2.1]
  have hm := mapE_same (f := fun s => syncCoeffs cal s freq nper overlap win) (g := fun s => syncCoeffs cal s freq nper overlap win)
    (P := fun x y => x.2 = y.2) (l := S.runs) (l' := T.runs) (hpair.imp (fun r r' hr => by
      rcases syncCoeffs_same cal freq nper overlap win hr.1 hr.2.1 hr.2.2.1 hr.2.2.2.2 with he | ⟨F, d, p, p', a, b, -, -⟩
      · exact .inl he
      · exact .inr ⟨_, _, a, b, rfl⟩))
  rcases hm with ⟨e, h1, h2⟩ | ⟨x, y, h1, h2, h3⟩
  · left
    exact ⟨e, by unfold setCoeffs; rw [h1], by unfold setCoeffs; rw [h2]⟩
  cases h3 with
  | nil => left; exact ⟨.value, by unfold setCoeffs; rw [h1], by unfold setCoeffs; rw [h2]⟩
  | @cons a b x y hab hxy =>
  right
  have hw' : ∀ (g : ℕ × ℕ × ℕ → ℕ), (a :: x).map (fun p => g p.2) = (b :: y).map (fun p => g p.2) := by
    intro g
    have : List.Forall₂ (fun (p q : List (List ℂ) × ℕ × ℕ × ℕ) => p.2 = q.2) (a :: x) (b :: y) := .cons hab hxy
    generalize a :: x = l at *
    generalize b :: y = l' at *
    clear h1 h2 hxy
    induction this with
    | nil => rfl
    | cons h _ ih => simp only [List.map_cons, h, ih]
  have e1 : setCoeffs cal S freq nper overlap win = .ok ((zipStar ((a :: x).map (fun p => p.1))).map List.flatten,
      ((a :: x).map (fun p => p.2.1), (a :: x).map (fun p => p.2.2.1), (a :: x).map (fun p => p.2.2.2))) := by
    unfold setCoeffs; rw [h1]
  have e2 : setCoeffs cal T freq nper overlap win = .ok ((zipStar ((b :: y).map (fun p => p.1))).map List.flatten,
      ((a :: x).map (fun p => p.2.1), (a :: x).map (fun p => p.2.2.1), (a :: x).map (fun p => p.2.2.2))) := by
    unfold setCoeffs; rw [h2]; simp only [hw' Prod.fst, hw' (fun p => p.2.1), hw' (fun p => p.2.2)]
  refine ⟨_, _, _, e1, e2, hwin _, ?_⟩
  obtain ⟨raws, f1, -, -, -, f2, f3⟩ := C41_concatenation cal S hS freq nper overlap win _ _ _ _ e1
  obtain ⟨raws', g1, -, -, -, g2, g3⟩ := C41_concatenation cal T hT freq nper overlap win _ _ _ _ e2
  generalize (zipStar ((a :: x).map (fun p => p.1))).map List.flatten = co at *
  generalize (zipStar ((b :: y).map (fun p => p.1))).map List.flatten = co' at *
  have hne : S.runs ≠ [] := by
    intro h0; rw [h0] at h1; simp [mapE] at h1
  have hne' : T.runs ≠ [] := by
    intro h0; rw [h0] at h2; simp [mapE] at h2
  intro k hkn v v' hv hv'
  have hlen : v.length = v'.length := by
    obtain ⟨u, hu, hl⟩ := (h.names k hkn v.length).1 ⟨v, hv, rfl⟩
    rw [hv'] at hu
    cases hu
    exact hl.symm
  have hrow : ∀ j (hj : j < v.length) (hj' : j < v'.length), co[v[j]]? = co'[v'[j]]? ∧ co[v[j]]? ≠ none := by
    intro j hj hj'
    obtain ⟨r0, hr0⟩ := List.exists_mem_of_ne_nil _ hne
    obtain ⟨r0', hr0'⟩ := List.exists_mem_of_ne_nil _ hne'
    have b1 : v[j] < co.length := by
      rw [(f2 r0 hr0).1]; exact (hI.tags k v hv).2.2 r0 hr0 _ (List.getElem_mem hj)
    have b2 : v'[j] < co'.length := by
      rw [(g2 r0' hr0').1]; exact (hI'.tags k v' hv').2.2 r0' hr0' _ (List.getElem_mem hj')
    rw [(f3 _ b1).1, (g3 _ b2).1]
    refine ⟨?_, by simp⟩
    congr 2
    have hall : List.Forall₂ (fun r r' : Sync ℂ κ => (WF r ∧ WF r' ∧ clock r = clock r' ∧
        ((∀ k ∈ r.cals, cal k freq ≠ none) ↔ ∀ k ∈ r'.cals, cal k freq ≠ none)) ∧
        (channels r)[v[j]]? = (channels r')[v'[j]]? ∧ ∀ k ∈ r.cals, cal k freq ≠ none) S.runs T.runs := by
      rw [List.forall₂_iff_get] at hpair ⊢
      refine ⟨hpair.1, fun i a b => ?_⟩
      obtain ⟨q1, q2, q3, q4, q5⟩ := hpair.2 i a b
      refine ⟨⟨q1, q2, q3, q5⟩, ?_, ?_⟩
      · have := q4 k hkn j
        unfold designated at this
        rw [hv, hv'] at this
        simpa [List.getElem?_eq_getElem hj, List.getElem?_eq_getElem hj'] using this
      · intro c hc hn
        obtain ⟨u, hu⟩ := (f2 _ (List.getElem_mem a)).2 c hc
        rw [hn] at hu; cases hu
    clear b1 b2 hr0 hr0' f2 f3 g2 g3 hpair hne hne' hI hI' h hk h1 h2 e1 e2 hwin
    generalize hl : S.runs = l at *
    generalize hl' : T.runs = l' at *
    clear hl hl'
    induction hall generalizing raws raws' with
    | nil => cases f1; cases g1; rfl
    | cons hr _ ih =>
      cases f1 with
      | cons a1 a2 =>
      cases g1 with
      | cons b1' b2' =>
      rw [List.zipWith_cons_cons, List.zipWith_cons_cons, ih _ _ a2 b2']
      congr 1
      obtain ⟨⟨q1, q2, q3, q4⟩, q5, q6⟩ := hr
      rcases syncCoeffs_same cal freq nper overlap win q1 q2 q3 q4 with ⟨e, he, -⟩ | ⟨F, d, p, p', -, -, t1, t2⟩
      · exact absurd (syncCoeffs_ok.2 ⟨q6, _, a1, rfl⟩) (by rw [he]; simp)
      · rw [t1] at a1
        rw [t2] at b1'
        cases a1; cases b1'
        rw [calibrated_chan _ _ _ _ q1, calibrated_chan _ _ _ _ q2, q5]
  have hget : ∀ l, Picked co v l ↔ Picked co' v' l := by
    intro l
    unfold Picked
    rw [List.forall₂_iff_get, List.forall₂_iff_get]
    constructor
    · rintro ⟨p, q⟩
      refine ⟨hlen ▸ p, fun i a b => ?_⟩
      rw [List.get_eq_getElem, ← (hrow i (hlen ▸ a) a).1]
      exact q i _ _
    · rintro ⟨p, q⟩
      refine ⟨hlen.symm ▸ p, fun i a b => ?_⟩
      rw [List.get_eq_getElem, (hrow i a (hlen ▸ a)).1]
      exact q i _ _
  obtain ⟨l, hl⟩ := picked_exists (coeffs := co) (idx := v) (fun i hi => by
    obtain ⟨j, hj, rfl⟩ := List.getElem_of_mem hi
    have := (hrow j hj (hlen ▸ hj)).2
    rw [Ne, List.getElem?_eq_none_iff] at this
    omega)
  rw [pick_ok.2 hl, pick_ok.2 ((hget l).1 hl)]

end Razorback
