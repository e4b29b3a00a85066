/-
Property C123: recordings with noise, from the samples of the runs to the impedance and its error.
-/
import Verif.Props.Spectral
import Verif.Props.Remote
import Verif.Lemmas.UnitsSets

namespace Razorback.Props
open Razorback Razorback.Spec Razorback.MEst Razorback.Windows Razorback.Fourier Razorback.Impedance
open scoped Matrix ComplexOrder
open MeasureTheory

section windows
variable {κ : Type}

/-- A window: its length, the numbers that multiply its samples, and where it is: the run and the first sample. -/
structure Place where
  len : ℕ
  taps : ℕ → ℂ
  run : ℕ
  first : ℕ

/-- The windows of run number `r`. -/
noncomputable def runPlaces (freq nper overlap : ℚ) (win : Win) (r : ℕ) (rate : ℚ) (size : ℕ) : List Place :=
  match discreteWindow size (freq / rate) nper overlap with
  | .error _ => []
  | .ok (n, L, sh) => (List.range (n + 1)).map (fun m => ⟨L, tap (freq / rate) L (win.eval L), r, m * sh⟩)

/-- The windows of runs numbered from `c`. -/
noncomputable def places (freq nper overlap : ℚ) (win : Win) (runs : List (Sync ℂ κ)) (c : ℕ) : List Place :=
  (runs.zipIdx c).flatMap (fun p => runPlaces freq nper overlap win p.2 p.1.rate p.1.size)

theorem places_cons (freq nper overlap : ℚ) (win : Win) (s : Sync ℂ κ) (runs : List (Sync ℂ κ)) (c : ℕ) :
    places freq nper overlap win (s :: runs) c = runPlaces freq nper overlap win c s.rate s.size ++ places freq nper overlap win runs (c + 1) := by
  simp [places, List.zipIdx_cons]

theorem places_clock {cal : κ → ℚ → Option ℂ} {freq nper overlap : ℚ} {win : Win} {runs runs' : List (Sync ℂ κ)}
    (h : List.Forall₂ (SameClock cal freq) runs runs') (c : ℕ) :
    places freq nper overlap win runs' c = places freq nper overlap win runs c := by
  induction h generalizing c with
  | nil => rfl
  | cons h1 _ ih => rw [places_cons, places_cons, ih, h1.rate, h1.size]

theorem mem_runPlaces {freq nper overlap : ℚ} {win : Win} {r : ℕ} {rate : ℚ} {size : ℕ} {v : Place}
    (h : v ∈ runPlaces freq nper overlap win r rate size) : v.run = r ∧ v.first + v.len ≤ size := by
  unfold runPlaces at h
  split at h
  · simp at h
  · rename_i n L sh hd
    obtain ⟨m, hm, rfl⟩ := List.mem_map.1 h
    obtain ⟨-, -, -, -, -, -, -, hfit, -⟩ := C37_discrete_window _ _ _ _ _ _ _ hd
    have hmn : m ≤ n := by have := List.mem_range.1 hm; omega
    have := Nat.mul_le_mul_right sh hmn
    exact ⟨rfl, by simp only; omega⟩

/-- The coefficients as functions of the samples and the windows, one by one. -/
theorem forms_places {freq nper overlap : ℚ} {win : Win} (runs : List (Sync ℂ κ)) (c : ℕ) :
    List.Forall₂ (fun p (v : Place) => runs[v.run - c]? = some p.1 ∧ c ≤ v.run ∧ v.first + v.len ≤ p.1.size ∧
        ∀ x : ℕ → ℂ, p.2 x = ∑ j ∈ Finset.range v.len, v.taps j * x (v.first + j))
      (runs.flatMap (fun s => (runForms s.rate s.size freq nper overlap win).map (fun φ => (s, φ))))
      (places freq nper overlap win runs c) := by
  induction runs generalizing c with
  | nil => exact .nil
  | cons s runs ih =>
    rw [List.flatMap_cons, places_cons]
    refine List.rel_append ?_ ((ih (c + 1)).imp ?_)
    · have hm : ∀ v ∈ runPlaces freq nper overlap win c s.rate s.size, v.run = c ∧ v.first + v.len ≤ s.size := fun v => mem_runPlaces
      unfold runForms
      unfold runPlaces at hm ⊢
      cases hd : discreteWindow s.size (freq / s.rate) nper overlap with
      | error e => exact .nil
      | ok d =>
        obtain ⟨n, L, sh⟩ := d
        rw [hd] at hm
        simp only at hm ⊢
        rw [List.map_map, List.forall₂_map_left_iff, List.forall₂_map_right_iff, List.forall₂_same]
        intro m hmm
        refine ⟨by simp, le_refl _, (hm _ (List.mem_map.2 ⟨m, hmm, rfl⟩)).2, fun x => ?_⟩
        simp only [Function.comp, Finset.mul_sum, tap]
        exact Finset.sum_congr rfl (fun j _ => by ring)
    · rintro p v ⟨h1, h2, h3, h4⟩
      refine ⟨?_, by omega, h3, h4⟩
      rw [show v.run - c = (v.run - (c + 1)) + 1 by omega]
      simpa using h1

/-- Sample `n` of channel `i` of run number `r`, in physical units. -/
noncomputable def sampleOf (cal : κ → ℚ → Option ℂ) (freq : ℚ) (S : SigSet ℂ κ) (i : ℕ) (p : ℕ × ℕ) : ℂ :=
  (S.runs[p.1]?.map (fun s => physical cal freq s i p.2)).getD 0

/-- The coefficients in terms of the samples. -/
theorem setCoeffs_places [One κ] {cal : κ → ℚ → Option ℂ} {S : SigSet ℂ κ} (hS : Reach S) {freq nper overlap : ℚ} {win : Win}
    {co : List (List ℂ)} {w : List ℕ × List ℕ × List ℕ} (h : setCoeffs cal S freq nper overlap win = .ok (co, w)) :
    (∀ v ∈ places freq nper overlap win S.runs 0, ∃ s, S.runs[v.run]? = some s ∧ v.first + v.len ≤ s.size) ∧
    ∀ i < co.length, (co.getD i []).length = (places freq nper overlap win S.runs 0).length ∧
      ∀ (k : ℕ) v, (places freq nper overlap win S.runs 0)[k]? = some v →
        (co.getD i []).getD k 0 = ∑ j ∈ Finset.range v.len, v.taps j * sampleOf cal freq S i (v.run, v.first + j) := by
  obtain ⟨-, a2, -⟩ := setCoeffs_forms hS h
  have hF := forms_places (freq := freq) (nper := nper) (overlap := overlap) (win := win) S.runs 0
  refine ⟨?_, ?_⟩
  · intro v hv
    obtain ⟨p, -, h1, -, h3, -⟩ := forall₂_right hF v hv
    exact ⟨p.1, h1, h3⟩
  · intro i hi
    have hl := hF.length_eq
    rw [List.getD_eq_getElem?_getD, a2 i hi, Option.getD_some]
    refine ⟨by rw [List.length_map]; exact hl, ?_⟩
    intro k v hv
    obtain ⟨hk, rfl⟩ := List.getElem?_eq_some_iff.1 hv
    have hk' : k < (forms S freq nper overlap win).length := by
      have : (forms S freq nper overlap win).length = (places freq nper overlap win S.runs 0).length := hl
      omega
    obtain ⟨h1, -, -, h4⟩ := hF.get hk' hk
    simp only [List.get_eq_getElem] at h1 h4
    rw [List.getD_eq_getElem?_getD, List.getElem?_map, List.getElem?_eq_getElem hk', Option.map_some, Option.getD_some]
    change ((forms S freq nper overlap win)[k]).2 _ = _
    refine (h4 _).trans (Finset.sum_congr rfl (fun j _ => ?_))
    simp only [sampleOf, Nat.sub_zero] at h1 ⊢
    rw [h1]
    rfl

/-- Without overlap and with a single sampling rate: all windows are alike and no two share a sample. -/
theorem places_apart {freq nper ρ : ℚ} {win : Win} (runs : List (Sync ℂ κ)) (hρ : ∀ s ∈ runs, s.rate = ρ) (c : ℕ) :
    (∀ v ∈ places freq nper 0 win runs c, ∃ size n sh, discreteWindow size (freq / ρ) nper 0 = .ok (n, v.len, sh) ∧
      v.taps = tap (freq / ρ) v.len (win.eval v.len) ∧ c ≤ v.run) ∧
    (places freq nper 0 win runs c).Pairwise (fun v v' => v.run = v'.run → v.first + v.len ≤ v'.first) := by
  induction runs generalizing c with
  | nil => simp [places]
  | cons s runs ih =>
    obtain ⟨i1, i2⟩ := ih (fun s hs => hρ s (List.mem_cons_of_mem _ hs)) (c + 1)
    rw [places_cons, hρ s (by simp)]
    refine ⟨?_, ?_⟩
    · intro v hv
      rcases List.mem_append.1 hv with hv | hv
      · have hr := (mem_runPlaces hv).1
        unfold runPlaces at hv
        split at hv
        · simp at hv
        · rename_i n L sh hd
          obtain ⟨m, -, rfl⟩ := List.mem_map.1 hv
          exact ⟨_, n, sh, hd, rfl, hr.ge⟩
      · obtain ⟨size, n, sh, h1, h2, h3⟩ := i1 v hv
        exact ⟨size, n, sh, h1, h2, by omega⟩
    · rw [List.pairwise_append]
      refine ⟨?_, i2, ?_⟩
      · unfold runPlaces
        split
        · exact .nil
        · rename_i n L sh hd
          obtain rfl := no_overlap_shift hd
          rw [List.pairwise_map]
          refine List.pairwise_lt_range.imp ?_
          intro a b hab _
          have := Nat.mul_le_mul_right sh (Nat.succ_le_of_lt hab)
          simp only [Nat.succ_mul] at this ⊢
          exact this
      · intro v hv v' hv' he
        have h1 := (mem_runPlaces hv).1
        obtain ⟨-, -, -, -, -, h3⟩ := i1 v' hv'
        omega

theorem discreteWindow_len {a b : ℕ} {nf nper overlap : ℚ} {n L sh n' L' sh' : ℕ} (h : discreteWindow a nf nper overlap = .ok (n, L, sh))
    (h' : discreteWindow b nf nper overlap = .ok (n', L', sh')) : L = L' := by
  obtain ⟨-, -, ⟨h1, h2⟩, -⟩ := C37_discrete_window _ _ _ _ _ _ _ h
  obtain ⟨-, -, ⟨h3, h4⟩, -⟩ := C37_discrete_window _ _ _ _ _ _ _ h'
  exact le_antisymm (h2 _ h3) (h4 _ h1)

end windows

/-- Noise at the places `I`: zero mean, the same power `s` everywhere, uncorrelated from one place to another. -/
structure WhiteOn {Ω ι : Type} [MeasurableSpace Ω] [DecidableEq ι] (P : Measure Ω) (I : Set ι) (s : ℝ) (η : Ω → ι → ℂ) : Prop where
  square : ∀ i ∈ I, MemLp (fun ω => η ω i) 2 P
  mean : ∀ i ∈ I, ∫ ω, η ω i ∂P = 0
  power : ∀ i ∈ I, ∀ j ∈ I, ∫ ω, η ω i * star (η ω j) ∂P = if i = j then (s : ℂ) else 0

section noise
variable {Ω : Type} [MeasurableSpace Ω] {P : Measure Ω}

theorem whiteOn_product {ι : Type} [DecidableEq ι] {I : Set ι} {s : ℝ} {η : Ω → ι → ℂ} (hη : WhiteOn P I s η) (L : ℕ) (α β : ℕ → ℂ) (p q : ℕ → ι)
    (hp : ∀ j < L, p j ∈ I) (hq : ∀ j < L, q j ∈ I) :
    ∫ ω, (∑ j ∈ Finset.range L, α j * η ω (p j)) * star (∑ i ∈ Finset.range L, β i * η ω (q i)) ∂P =
      ∑ j ∈ Finset.range L, ∑ i ∈ Finset.range L, α j * star (β i) * (if p j = q i then (s : ℂ) else 0) := by
  have hint : ∀ j ∈ Finset.range L, ∀ i ∈ Finset.range L, Integrable (fun ω => α j * star (β i) * (η ω (p j) * star (η ω (q i)))) P := by
    intro j hj i hi
    have h2 : MemLp (fun ω => star (η ω (q i))) 2 P := (hη.square _ (hq i (Finset.mem_range.1 hi))).star
    exact ((hη.square _ (hp j (Finset.mem_range.1 hj))).integrable_mul h2).const_mul _
  have e : ∀ ω, (∑ j ∈ Finset.range L, α j * η ω (p j)) * star (∑ i ∈ Finset.range L, β i * η ω (q i)) =
      ∑ j ∈ Finset.range L, ∑ i ∈ Finset.range L, α j * star (β i) * (η ω (p j) * star (η ω (q i))) := by
    intro ω
    rw [star_sum, Finset.sum_mul_sum]
    refine Finset.sum_congr rfl (fun j _ => Finset.sum_congr rfl (fun i _ => ?_))
    rw [star_mul']
    ring
  simp only [e]
  rw [integral_finsetSum _ (fun j hj => integrable_finsetSum _ (fun i hi => hint j hj i hi))]
  refine Finset.sum_congr rfl (fun j hj => ?_)
  rw [integral_finsetSum _ (fun i hi => hint j hj i hi)]
  refine Finset.sum_congr rfl (fun i hi => ?_)
  rw [integral_const_mul, hη.power _ (hp j (Finset.mem_range.1 hj)) _ (hq i (Finset.mem_range.1 hi))]

/-- The coefficient of a function of the samples in window number `k`. -/
noncomputable def windowOf (V : List Place) (x : ℕ × ℕ → ℂ) (k : ℕ) : ℂ :=
  (V[k]?.map (fun v => ∑ j ∈ Finset.range v.len, v.taps j * x (v.run, v.first + j))).getD 0

theorem windowOf_get {V : List Place} {x : ℕ × ℕ → ℂ} {k : ℕ} {v : Place} (h : V[k]? = some v) :
    windowOf V x k = ∑ j ∈ Finset.range v.len, v.taps j * x (v.run, v.first + j) := by
  rw [windowOf, h]; rfl

/-- Noise of zero mean has coefficients of zero mean. -/
theorem windowOf_mean {V : List Place} {η : Ω → ℕ × ℕ → ℂ} {I : Set (ℕ × ℕ)} (hI : ∀ v ∈ V, ∀ j < v.len, (v.run, v.first + j) ∈ I)
    (hint : ∀ i ∈ I, Integrable (fun ω => η ω i) P) (hmean : ∀ i ∈ I, ∫ ω, η ω i ∂P = 0) (k : ℕ) :
    Integrable (fun ω => windowOf V (η ω) k) P ∧ ∫ ω, windowOf V (η ω) k ∂P = 0 := by
  unfold windowOf
  cases h : V[k]? with
  | none => simp
  | some v =>
    have hv := List.mem_of_getElem? h
    simp only [Option.map_some, Option.getD_some]
    have hi : ∀ j ∈ Finset.range v.len, Integrable (fun ω => v.taps j * η ω (v.run, v.first + j)) P :=
      fun j hj => (hint _ (hI v hv j (Finset.mem_range.1 hj))).const_mul _
    refine ⟨integrable_finsetSum _ hi, ?_⟩
    rw [integral_finsetSum _ hi]
    refine Finset.sum_eq_zero (fun j hj => ?_)
    rw [integral_const_mul, hmean _ (hI v hv j (Finset.mem_range.1 hj)), mul_zero]

/-- White noise has white coefficients over windows that are alike and share no samples. -/
theorem windowOf_white {V : List Place} {η : Ω → ℕ × ℕ → ℂ} {I : Set (ℕ × ℕ)} {s : ℝ} (hη : WhiteOn P I s η)
    (hI : ∀ v ∈ V, ∀ j < v.len, (v.run, v.first + j) ∈ I) [IsProbabilityMeasure P] {L : ℕ} {α : ℕ → ℂ} (hV : ∀ v ∈ V, v.len = L ∧ v.taps = α)
    (hap : V.Pairwise (fun v v' => v.run = v'.run → v.first + v.len ≤ v'.first)) :
    White P V.length (s * ∑ j ∈ Finset.range L, ‖α j‖ ^ 2) (fun ω k => windowOf V (η ω) k) := by
  have get : ∀ k (hk : k < V.length) (x : ℕ × ℕ → ℂ), windowOf V x k = ∑ j ∈ Finset.range L, α j * x ((V[k]).run, (V[k]).first + j) := by
    intro k hk x
    rw [windowOf_get (List.getElem?_eq_getElem hk), (hV _ (List.getElem_mem hk)).1, (hV _ (List.getElem_mem hk)).2]
  have hIk : ∀ k (hk : k < V.length), ∀ j < L, ((V[k]).run, (V[k]).first + j) ∈ I := by
    intro k hk j hj
    exact hI _ (List.getElem_mem hk) j (by rw [(hV _ (List.getElem_mem hk)).1]; exact hj)
  have hint : ∀ i ∈ I, Integrable (fun ω => η ω i) P := fun i hi => (hη.square i hi).integrable (by norm_num)
  refine ⟨fun k hk => ?_, fun k hk => (windowOf_mean hI hint hη.mean k).2, fun k hk l hl => ?_⟩
  · simp only [get k hk]
    exact memLp_finsetSum _ (fun j hj => (hη.square _ (hIk k hk j (Finset.mem_range.1 hj))).const_mul _)
  · simp only [get k hk, get l hl]
    rw [whiteOn_product hη L α α (fun j => ((V[k]).run, (V[k]).first + j)) (fun j => ((V[l]).run, (V[l]).first + j)) (hIk k hk) (hIk l hl)]
    by_cases hkl : k = l
    · subst hkl
      rw [if_pos rfl]
      have : ∀ j ∈ Finset.range L, ∑ i ∈ Finset.range L, α j * star (α i) *
          (if ((V[k]).run, (V[k]).first + j) = ((V[k]).run, (V[k]).first + i) then (s : ℂ) else 0) = ((s * ‖α j‖ ^ 2 : ℝ) : ℂ) := by
        intro j hj
        rw [Finset.sum_eq_single j]
        · rw [if_pos rfl, RCLike.star_def, RCLike.mul_conj]
          push_cast
          exact mul_comm _ _
        · intro i _ hij
          rw [if_neg (by simp only [Prod.mk.injEq, true_and]; omega), mul_zero]
        · intro hn
          exact absurd hj hn
      rw [Finset.sum_congr rfl this, ← Complex.ofReal_sum, ← Finset.mul_sum]
      rfl
    · rw [if_neg hkl]
      refine Finset.sum_eq_zero (fun j hj => Finset.sum_eq_zero (fun i hi => ?_))
      have hj' := Finset.mem_range.1 hj
      have hi' := Finset.mem_range.1 hi
      rw [if_neg, mul_zero]
      intro he
      simp only [Prod.mk.injEq] at he
      rcases Nat.lt_or_gt_of_ne hkl with h | h
      · have h1 := (List.pairwise_iff_getElem.1 hap) k l hk hl h he.1
        rw [(hV _ (List.getElem_mem hk)).1] at h1
        omega
      · have h1 := (List.pairwise_iff_getElem.1 hap) l k hl hk h he.1.symm
        rw [(hV _ (List.getElem_mem hl)).1] at h1
        omega

end noise

section impedance
variable {κ σ Ω : Type}

/-- Recordings made again and again at the same times: the magnetic channels `B` are always the same, and each electric channel is, in
physical units, the combination of the magnetic ones with the coefficients of row `i` of `z`, plus the noise `η`, a function of the run
and of the sample. -/
structure Repeated [One κ] (cal : κ → ℚ → Option ℂ) (freq : ℚ) (S : Ω → SigSet ℂ κ) (E B : List ℕ) (z : ℕ → ℕ → ℂ)
    (η : Ω → ℕ → ℕ × ℕ → ℂ) : Prop where
  reach : ∀ ω, Reach (S ω)
  clock : ∀ ω ω', List.Forall₂ (SameClock cal freq) (S ω).runs (S ω').runs
  mag : ∀ ω ω' (r : ℕ) s s', (S ω).runs[r]? = some s → (S ω').runs[r]? = some s' →
    ∀ k ∈ B, ∀ n < s.size, physical cal freq s' k n = physical cal freq s k n
  elec : ∀ ω (r : ℕ) s, (S ω).runs[r]? = some s → ∀ i (hi : i < E.length), ∀ n < s.size,
    physical cal freq s E[i] n = ∑ j : Fin B.length, z i j * physical cal freq s B[j] n + η ω i (r, n)

/-- The places of the samples of a set: run and sample numbers. -/
def samplesOf (S : SigSet ℂ κ) : Set (ℕ × ℕ) := {p | ∃ s, S.runs[p.1]? = some s ∧ p.2 < s.size}

/-- The table of the values of a function. -/
def table {β : Type} (p q : ℕ) (f : ℕ → ℕ → β) : List (List β) := (List.range p).map (fun i => (List.range q).map (f i))

theorem ofFn_range {β : Type} {n : ℕ} (f : ℕ → β) : List.ofFn (fun j : Fin n => f j) = (List.range n).map f := by
  apply List.ext_getElem
  · simp
  · intro i h1 h2
    simp

/-- The coefficients of repeated recordings. -/
theorem repeated_coeffs [One κ] {cal : κ → ℚ → Option ℂ} {freq nper overlap : ℚ} {win : Win} {S : Ω → SigSet ℂ κ} {E B : List ℕ} {z : ℕ → ℕ → ℂ}
    {η : Ω → ℕ → ℕ × ℕ → ℂ} (hR : Repeated cal freq S E B z η) {co : Ω → List (List ℂ)} {w : List ℕ × List ℕ × List ℕ}
    (hf : ∀ ω, setCoeffs cal (S ω) freq nper overlap win = .ok (co ω, w))
    (hE : ∀ ω, ∀ i ∈ E, i < (co ω).length) (hB : ∀ ω, ∀ i ∈ B, i < (co ω).length)
    (hlen : ∀ ω, ∀ i ∈ B, ((co ω).getD i []).length = w.1.sum) (hlen' : ∀ ω, ∀ i ∈ E, ((co ω).getD i []).length = w.1.sum) (hBne : B ≠ []) (ω0 : Ω) :
    ∃ V : List Place, V = places freq nper overlap win (S ω0).runs 0 ∧ V.length = w.1.sum ∧
      (∀ v ∈ V, ∀ j < v.len, (v.run, v.first + j) ∈ samplesOf (S ω0)) ∧
      (∀ ω, ∀ i ∈ B, (co ω).getD i [] = (co ω0).getD i []) ∧
      ∀ ω i (hi : i < E.length), (co ω).getD E[i] [] = (List.range w.1.sum).map (fun n => ∑ j : Fin B.length, z i j * ((co ω0).getD B[j] []).getD n 0 +
        windowOf V (η ω i) n) := by
  have hVω : ∀ ω, places freq nper overlap win (S ω).runs 0 = places freq nper overlap win (S ω0).runs 0 := fun ω => places_clock (hR.clock ω0 ω) 0
  have hVl : (places freq nper overlap win (S ω0).runs 0).length = w.1.sum := by
    obtain ⟨i, hi⟩ := List.exists_mem_of_ne_nil _ hBne
    rw [← ((setCoeffs_places (hR.reach ω0) (hf ω0)).2 i (hB ω0 i hi)).1, hlen ω0 i hi]
  have hmem : ∀ ω, ∀ v ∈ places freq nper overlap win (S ω0).runs 0, ∃ s, (S ω).runs[v.run]? = some s ∧ v.first + v.len ≤ s.size := by
    intro ω v hv
    exact (setCoeffs_places (hR.reach ω) (hf ω)).1 v (by rw [hVω]; exact hv)
  have hval : ∀ ω, ∀ i < (co ω).length, ∀ (k : ℕ) v, (places freq nper overlap win (S ω0).runs 0)[k]? = some v →
      ((co ω).getD i []).getD k 0 = ∑ j ∈ Finset.range v.len, v.taps j * sampleOf cal freq (S ω) i (v.run, v.first + j) := by
    intro ω i hi k v hv
    exact ((setCoeffs_places (hR.reach ω) (hf ω)).2 i hi).2 k v (by rw [hVω]; exact hv)
  have hmagc : ∀ ω, ∀ i ∈ B, (co ω).getD i [] = (co ω0).getD i [] := by
    intro ω i hi
    apply List.ext_getElem
    · rw [hlen ω i hi, hlen ω0 i hi]
    · intro k h1 h2
      have hk : k < (places freq nper overlap win (S ω0).runs 0).length := by rw [hVl, ← hlen ω i hi]; exact h1
      have e1 := hval ω i (hB ω i hi) k _ (List.getElem?_eq_getElem hk)
      have e2 := hval ω0 i (hB ω0 i hi) k _ (List.getElem?_eq_getElem hk)
      rw [getD_get h1] at e1
      rw [getD_get h2] at e2
      rw [e1, e2]
      refine Finset.sum_congr rfl (fun j hj => ?_)
      obtain ⟨s, hs, hfit⟩ := hmem ω0 _ (List.getElem_mem hk)
      obtain ⟨s', hs', -⟩ := hmem ω _ (List.getElem_mem hk)
      have hj' := Finset.mem_range.1 hj
      simp only [sampleOf, hs, hs', Option.map_some, Option.getD_some]
      rw [hR.mag ω0 ω _ s s' hs hs' i hi _ (by omega)]
  refine ⟨_, rfl, hVl, ?_, hmagc, ?_⟩
  · intro v hv j hj
    obtain ⟨s, hs, hfit⟩ := hmem ω0 v hv
    exact ⟨s, hs, by simp only; omega⟩
  · intro ω i hi
    have hEm : E[i] ∈ E := List.getElem_mem hi
    apply List.ext_getElem
    · rw [hlen' ω _ hEm]; simp
    · intro k h1 h2
      have hkW : k < w.1.sum := by simpa using h2
      have hk : k < (places freq nper overlap win (S ω0).runs 0).length := by rw [hVl]; exact hkW
      have e1 := hval ω E[i] (hE ω _ hEm) k _ (List.getElem?_eq_getElem hk)
      rw [getD_get h1] at e1
      rw [e1, List.getElem_map, List.getElem_range, windowOf_get (List.getElem?_eq_getElem hk)]
      have e2 : ∀ j : Fin B.length, ((co ω0).getD B[j] []).getD k 0 = ∑ l ∈ Finset.range ((places freq nper overlap win (S ω0).runs 0)[k]).len,
          ((places freq nper overlap win (S ω0).runs 0)[k]).taps l * sampleOf cal freq (S ω) B[j] (((places freq nper overlap win (S ω0).runs 0)[k]).run,
            ((places freq nper overlap win (S ω0).runs 0)[k]).first + l) := by
        intro j
        have hm : B[j] ∈ B := List.getElem_mem j.2
        rw [← hmagc ω B[j] hm]
        exact hval ω _ (hB ω _ hm) k _ (List.getElem?_eq_getElem hk)
      simp only [e2, Finset.mul_sum]
      rw [Finset.sum_comm, ← Finset.sum_add_distrib]
      refine Finset.sum_congr rfl (fun l hl => ?_)
      obtain ⟨s, hs, hfit⟩ := hmem ω _ (List.getElem_mem hk)
      have hl' := Finset.mem_range.1 hl
      simp only [sampleOf, hs, Option.map_some, Option.getD_some]
      rw [hR.elec ω _ s hs i hi _ (by omega), mul_add, Finset.mul_sum]
      congr 1
      exact Finset.sum_congr rfl (fun j _ => by ring)

/-- One frequency without remote, by least squares: the result in terms of the estimation. -/
theorem oneFreq_plain [One κ] {cal : κ → ℚ → Option ℂ} {S : SigSet ℂ κ} {freq : ℚ} {o : Impedance.Opts σ}
    (hw : o.weights = [none]) (hp : o.prefilter = none) (hrp : o.realPb = false) {E B : List ℕ} (hc : Channels S o E B none)
    {co : List (List ℂ)} {w : List ℕ × List ℕ × List ℕ} (hf : setCoeffs cal S freq o.nper o.overlap o.win = .ok (co, w)) {e b : List (List ℂ)}
    (he : Picked co E e) (hb : Picked co B b) (hene : e ≠ []) (hb0 : b.length ≠ 0) {N : ℕ} (heN : ∀ y ∈ e, y.length = N) (hbN : ∀ y ∈ b, y.length = N)
    (heap : ℕ → σ) {zz : List (Fin b.length → ℂ)}
    (hz : transferFunction e (cols b) [none] none .none o.mest heap = (.ok (zz.map (fun v => (some v, []))), heap)) {err : List (Fin b.length → Flt)}
    (herr : transferError e (cols b) zz (List.replicate zz.length []) = .ok err) :
    ∃ r, oneFreq cal S freq o heap = (.ok r, heap) ∧ r.impedance = zz.map (fun v => (List.ofFn v).map some) ∧ r.error = err.map List.ofFn := by
  rw [oneFreq_stages hc hf he hb (.inl ⟨rfl, rfl⟩)]
  simp only [stages]
  unfold secondStage
  have hnorm : InvArg.none.norm e.length = .ok (List.replicate e.length []) := by
    have : e.length ≠ 0 := by simpa using hene
    simp [InvArg.norm, this]
  have hnorm' : (InvArg.each (List.replicate e.length [])).norm e.length = .ok (List.replicate e.length []) := by
    obtain ⟨y, l, rfl⟩ := List.exists_cons_of_ne_nil hene
    rfl
  rw [hp]
  simp only [Option.map_none]
  rw [applyPrefilter_none _ _ hnorm (by simp)]
  simp only
  have hest : estimate o.realPb o.weights o.mest e b (List.replicate e.length []) heap = (.ok (zz, List.replicate zz.length []), heap) := by
    unfold estimate
    rw [hrp, hw]
    simp only [Bool.false_eq_true, if_false, Weights.at, List.map_cons, List.map_nil, Option.map_none]
    have := transferFunction_plain (σ := σ) e (cols b) N hb0 hene heN (fun j => hbN _ (List.getElem_mem _))
    rw [this .none _ hnorm] at hz
    rw [this (.each (List.replicate e.length [])) _ hnorm', hz]
    have hm : (zz.map (fun v => ((some v : Option (Fin b.length → ℂ)), ([] : List ℕ)))).mapM (fun p => p.1) = some zz := by
      rw [mapM_fst, List.map_map]
      rfl
    simp only [hm, List.map_map]
    congr 3
    apply List.ext_getElem
    · simp
    · intro i h1 h2
      simp
  rw [hest]
  simp only [herr]
  exact ⟨_, rfl, rfl, rfl⟩

/-- **C123.** The recordings are made at the same times, of the same magnetic field, with noise of zero mean in the electric channels.  Then
`impedance` by least squares, without remote, gives numbers whose means are the true impedance, whatever the overlap, the window and the
rates of the runs. -/
theorem C123_unbiased [One κ] [MeasurableSpace Ω] (P : Measure Ω) [IsProbabilityMeasure P] (cal : κ → ℚ → Option ℂ) (freq : ℚ) (S : Ω → SigSet ℂ κ)
    (o : Impedance.Opts σ) (hw : o.weights = [none]) (hp : o.prefilter = none) (hrp : o.realPb = false)
    (E B : List ℕ) (hc : ∀ ω, Channels (S ω) o E B none) (z : ℕ → ℕ → ℂ) (η : Ω → ℕ → ℕ × ℕ → ℂ) (hR : Repeated cal freq S E B z η)
    (co : Ω → List (List ℂ)) (w : List ℕ × List ℕ × List ℕ) (hf : ∀ ω, setCoeffs cal (S ω) freq o.nper o.overlap o.win = .ok (co ω, w))
    (hind : ∀ ω, ChansIndependent (B.map (fun i => (co ω).getD i [])) w.1.sum [])
    (hint : ∀ ω0, ∀ i < E.length, ∀ p ∈ samplesOf (S ω0), Integrable (fun ω => η ω i p) P ∧ ∫ ω, η ω i p ∂P = 0) (heap : ℕ → σ) :
    ∃ (Z : Ω → ℕ → ℕ → ℂ) (err : Ω → ℕ → ℕ → Flt),
      (∀ ω, ∃ r, oneFreq cal (S ω) freq o heap = (.ok r, heap) ∧ r.impedance = table E.length B.length (fun i j => some (Z ω i j)) ∧
        r.error = table E.length B.length (err ω)) ∧
      (∀ i < E.length, ∀ j < B.length, Integrable (fun ω => Z ω i j) P ∧ ∫ ω, Z ω i j ∂P = z i j) ∧
      ∀ s : ℕ → ℝ, (∀ ω0, ∀ i < E.length, WhiteOn P (samplesOf (S ω0)) (s i) (fun ω => η ω i)) → o.overlap = 0 →
        (∀ ω, ∀ r ∈ (S ω).runs, ∀ ω', ∀ r' ∈ (S ω').runs, r'.rate = r.rate) → B.length < w.1.sum →
        ∃ e : Ω → ℕ → ℕ → ℝ, ∀ i < E.length, ∀ j < B.length, (∀ ω, err ω i j = .fin (e ω i j)) ∧
          Integrable (fun ω => ‖Z ω i j - z i j‖ ^ 2) P ∧ Integrable (fun ω => e ω i j ^ 2) P ∧
          ∫ ω, e ω i j ^ 2 ∂P = ∫ ω, ‖Z ω i j - z i j‖ ^ 2 ∂P := by
  rcases isEmpty_or_nonempty Ω with he | ⟨⟨ω0⟩⟩
  · exact absurd (measure_univ (μ := P)) (by rw [Set.univ_eq_empty_iff.2 he]; simp)
  have hch := fun ω => reach_chans (hR.reach ω) (hc ω) (hf ω)
  choose e' b' br' he' hb' _ hene' hbne' heN' hbN' using hch
  have heq := fun ω => picked_eq (he' ω)
  have hbq := fun ω => picked_eq (hb' ω)
  have hEne : E.length ≠ 0 := by
    have := hene' ω0
    rw [(heq ω0).1] at this
    simpa using this
  have hBne : B ≠ [] := by
    have := hbne' ω0
    rw [(hbq ω0).1] at this
    simpa using this
  obtain ⟨V, hV, hVl, hVI, hmag, helec⟩ := repeated_coeffs hR hf (fun ω i hi => ((heq ω).2 i hi).2) (fun ω i hi => ((hbq ω).2 i hi).2)
    (fun ω i hi => hbN' ω _ (by rw [(hbq ω).1]; exact List.mem_map.2 ⟨i, hi, rfl⟩))
    (fun ω i hi => heN' ω _ (by rw [(heq ω).1]; exact List.mem_map.2 ⟨i, hi, rfl⟩)) hBne ω0
  set N := w.1.sum with hN
  set b : List (List ℂ) := B.map (fun i => (co ω0).getD i []) with hb
  have hbω : ∀ ω, b' ω = b := by
    intro ω
    rw [(hbq ω).1]
    exact List.map_congr_left (fun i hi => hmag ω i hi)
  have hbl : b.length = B.length := by simp [hb]
  have hb0 : b.length ≠ 0 := by rw [hbl]; simpa using hBne
  have hbN : ∀ y ∈ b, y.length = N := by rw [← hbω ω0]; exact hbN' ω0
  have hcol : ∀ j : Fin b.length, cols b j = (co ω0).getD (B[(j : ℕ)]'(by rw [← hbl]; exact j.2)) [] := by
    intro j
    simp [cols, hb]
  set T : ℕ → Fin b.length → ℂ := fun i j => z i j with hT
  set ε : Ω → ℕ → ℕ → ℂ := fun ω i n => windowOf V (η ω i) n with hε
  have hsum : ∀ i n, ∑ j : Fin B.length, z i j * ((co ω0).getD B[j] []).getD n 0 = ∑ j : Fin b.length, T i j * (cols b j).getD n 0 := by
    intro i n
    refine Fintype.sum_equiv (finCongr hbl.symm) _ _ (fun j => ?_)
    rw [hcol]
    rfl
  have heω : ∀ ω, e' ω = noisy (cols b) N T (ε ω) E.length := by
    intro ω
    rw [(heq ω).1, noisy]
    apply List.ext_getElem
    · simp
    · intro i h1 h2
      have hi : i < E.length := by simpa using h1
      rw [List.getElem_map, List.getElem_map, List.getElem_range, helec ω i hi]
      exact List.map_congr_left (fun n _ => by rw [hsum])
  have hindX : InputsIndependent (cols b) N [] := by
    intro d hd
    have := hind ω0 (List.ofFn d) (by simp [hb]) (by
      intro n hn _
      change combine b (List.ofFn d) n = 0
      rw [combine_ofFn]
      exact hd n hn (by simp))
    funext j
    exact this (d j) (List.mem_ofFn.2 ⟨j, rfl⟩)
  have hin : ∀ j, (cols b j).length = N := fun j => hbN _ (List.getElem_mem _)
  set Z : Ω → ℕ → Fin b.length → ℂ := fun ω i => (lsCoef (design (cols b) N)).mulVec (fun n : Fin N => ∑ j, T i j * (cols b j).getD n 0 + ε ω i n) with hZ
  have hTF : ∀ ω, transferFunction (noisy (cols b) N T (ε ω) E.length) (cols b) [none] none .none o.mest heap =
      (.ok (((List.range E.length).map (Z ω)).map (fun v => (some v, []))), heap) := by
    intro ω
    rw [List.map_map]
    exact transferFunction_ls hb0 hin hindX E.length hEne _ o.mest heap
  have hTE : ∀ ω, ∃ err, transferError (noisy (cols b) N T (ε ω) E.length) (cols b) ((List.range E.length).map (Z ω))
      (List.replicate ((List.range E.length).map (Z ω)).length []) = .ok err ∧ err.length = E.length := by
    intro ω
    obtain ⟨err, herr⟩ := (C50_succeeds_iff (noisy (cols b) N T (ε ω) E.length) (cols b) ((List.range E.length).map (Z ω))
      (List.replicate ((List.range E.length).map (Z ω)).length [])).2
      ⟨by simpa [noisy] using hEne, hb0, by simp [noisy], N, by simp [noisy], hin, by
        intro d hd
        exact hindX d (fun n hn _ => by simpa only [mul_comm] using hd n hn)⟩
    refine ⟨err, herr, ?_⟩
    obtain ⟨N', -, -, g3, rfl⟩ := transferError_ok herr
    simp [noisy]
  choose err herr herrl using hTE
  set Zn : Ω → ℕ → ℕ → ℂ := fun ω i j => if h : j < b.length then Z ω i ⟨j, h⟩ else 0 with hZn
  set en : Ω → ℕ → ℕ → Flt := fun ω i j => if h : j < b.length then ((err ω).getD i (fun _ => .nan)) ⟨j, h⟩ else .nan with hen
  have hZj : ∀ ω i j (h : j < B.length), Zn ω i j = Z ω i ⟨j, by rw [hbl]; exact h⟩ := by
    intro ω i j h
    simp only [hZn]
    rw [dif_pos]
  refine ⟨Zn, en, ?_, ?_, ?_⟩
  · intro ω
    obtain ⟨r, h1, h2, h3⟩ := oneFreq_plain hw hp hrp (hc ω) (hf ω) (he' ω) (by rw [← hbω ω]; exact hb' ω) (hene' ω) hb0 (heN' ω) hbN heap
      (zz := (List.range E.length).map (Z ω)) (by rw [heω ω]; exact hTF ω) (err := err ω) (by rw [heω ω]; exact herr ω)
    refine ⟨r, h1, ?_, ?_⟩
    · rw [h2, List.map_map, table]
      refine List.map_congr_left (fun i _ => ?_)
      simp only [Function.comp]
      rw [← hbl, ← ofFn_range, List.map_ofFn]
      congr 1
      funext j
      simp [hZn]
    · rw [h3, table]
      apply List.ext_getElem
      · simp [herrl ω]
      · intro i h4 h5
        rw [List.getElem_map, List.getElem_map, List.getElem_range, ← hbl, ← ofFn_range]
        congr 1
        funext j
        have h4' : i < (err ω).length := by simpa using h4
        simp only [hen, dif_pos j.2, getD_get h4']
  · intro i hi j hj
    simp only [hZj _ i j hj, hZ, ls_noisy hindX]
    have hm := windowOf_mean (P := P) (V := V) (η := fun ω => η ω i) hVI (fun p hp => (hint ω0 i hi p hp).1) (fun p hp => (hint ω0 i hi p hp).2)
    have hint' : ∀ k : Fin N, Integrable (fun ω => lsCoef (design (cols b) N) ⟨j, by rw [hbl]; exact hj⟩ k * ε ω i k) P :=
      fun k => (hm k).1.const_mul _
    refine ⟨(integrable_const _).add (integrable_finsetSum _ (fun k _ => hint' k)), ?_⟩
    rw [integral_add (integrable_const _) (integrable_finsetSum _ (fun k _ => hint' k)), integral_finsetSum _ (fun k _ => hint' k)]
    rw [Finset.sum_eq_zero]
    · simp [hT]
    · intro k _
      rw [integral_const_mul, (hm k).2, mul_zero]
  · intro s hs hov hrate hBN
    obtain ⟨ρ, hρ⟩ : ∃ ρ, ∀ r ∈ (S ω0).runs, r.rate = ρ := by
      cases hr : (S ω0).runs with
      | nil => exact ⟨0, by simp⟩
      | cons a l =>
        refine ⟨a.rate, fun r h => ?_⟩
        rw [← hr] at h
        exact hrate ω0 a (by rw [hr]; simp) ω0 r h
    rw [hov] at hV
    obtain ⟨p1, p2⟩ := places_apart (freq := freq) (nper := o.nper) (win := o.win) (S ω0).runs hρ 0
    rw [← hV] at p1 p2
    have hVne : V ≠ [] := by
      intro h0
      rw [h0] at hVl
      simp at hVl
      omega
    obtain ⟨v0, hv0⟩ := List.exists_mem_of_ne_nil _ hVne
    have halike : ∀ v ∈ V, v.len = v0.len ∧ v.taps = v0.taps := by
      intro v hv
      obtain ⟨_, _, _, d1, t1, -⟩ := p1 v hv
      obtain ⟨_, _, _, d2, t2, -⟩ := p1 v0 hv0
      have := discreteWindow_len d1 d2
      exact ⟨this, by rw [t1, t2, this]⟩
    have hwhite : ∀ i < E.length, White P N (s i * ∑ j ∈ Finset.range v0.len, ‖v0.taps j‖ ^ 2) (fun ω => ε ω i) := by
      intro i hi
      have := windowOf_white (hs ω0 i hi) hVI halike p2
      rw [hVl] at this
      exact this
    obtain ⟨Z', e, g1, g2, g3⟩ := C118_unbiased P (cols b) N hb0 (by rw [hbl]; exact hBN) hin hindX E.length hEne T _ ε hwhite o.mest heap
    have hZZ : ∀ ω, ∀ i < E.length, Z' ω i = Z ω i := by
      intro ω i hi
      have e1 := hTF ω
      rw [g1 ω] at e1
      simp only [Prod.mk.injEq, Except.ok.injEq, and_true, List.map_map] at e1
      have := congrArg (fun l => l[i]?) e1
      simpa [hi] using this
    have herr2 : ∀ ω, err ω = (List.range E.length).map (fun i j => .fin (e ω i j)) := by
      intro ω
      have h1 := g2 ω
      rw [List.map_congr_left (fun i hi => hZZ ω i (List.mem_range.1 hi))] at h1
      have h2 := herr ω
      have hl : ((List.range E.length).map (Z ω)).length = E.length := by simp
      rw [hl, h1] at h2
      exact (Except.ok.inj h2).symm
    refine ⟨fun ω i j => if h : j < b.length then e ω i ⟨j, h⟩ else 0, ?_⟩
    intro i hi j hj
    have hj' : j < b.length := by rw [hbl]; exact hj
    obtain ⟨-, -, a1, a2, a3⟩ := g3 i hi ⟨j, hj'⟩
    simp only [hZZ _ i hi] at a1 a3
    simp only [hZj _ i j hj, dif_pos hj']
    refine ⟨?_, a1, a2, a3⟩
    intro ω
    simp [hen, herr2 ω, hj', hi]

end impedance
section examples

local instance instOneRecordings : One Unit := ⟨()⟩

/-- The magnetic channel has an impulse at the beginning of each of two windows; the electric channel is twice that plus the noise. -/
noncomputable def exRecording (ω : Fin 8 × Bool) : SigSet ℂ Unit :=
  ⟨[⟨[(List.range 8).map (fun n => 2 * (exImpulses 1 1).getD n 0 + ((exSign ω n : ℝ) : ℂ)), exImpulses 1 1], [(), ()], 1, 0, 8⟩],
    ⟨2, [("E", [0]), ("B", [1])]⟩⟩

theorem exRecording_reach (ω : Fin 8 × Bool) : Reach (exRecording ω) := by
  refine Reach.new (.dict [("E", .int 0), ("B", .int 1)])
    [.sync ⟨[(List.range 8).map (fun n => 2 * (exImpulses 1 1).getD n 0 + ((exSign ω n : ℝ) : ℂ)), exImpulses 1 1], [(), ()], 1, 0, 8⟩] ?_ (by simp) ?_
  · simp only [List.mem_singleton, SigArg.sync.injEq, forall_eq]
    exact ⟨by simp, by simp, by simp [exImpulses]⟩
  · with_unfolding_all rfl

theorem exRecording_coeffs (ω : Fin 8 × Bool) : ∃ c, setCoeffs (fun _ _ => some 1) (exRecording ω) (1 / 4) 1 0 .none = .ok ([c, [1 / 2, 1 / 2]], ([2], [4], [4])) := by
  obtain ⟨r, h⟩ := timeToFreq_of (data := [(List.range 8).map (fun n => 2 * (exImpulses 1 1).getD n 0 + ((exSign ω n : ℝ) : ℂ)), exImpulses 1 1]) (fs := 1)
    (freq := 1 / 4) (nper := 1) (overlap := 0) (N := 8) (win := .none) (n := 1) (L := 4) (s := 4) (by simp)
    (by simp [exImpulses]) exDW (by simp [Win.eval])
  obtain ⟨N, -, -, -, -, hr⟩ := timeToFreq_ok h
  have ht0 : ∀ u v : ℂ, fourierAt (1 / 4 / 1) 4 (Win.eval .none 4) (exImpulses u v) (0 * 4) = u / 2 := by
    intro u v
    simp [fourierAt, exImpulses, Win.eval, winAt, Finset.sum_range_succ]
    ring
  have ht1 : ∀ u v : ℂ, fourierAt (1 / 4 / 1) 4 (Win.eval .none 4) (exImpulses u v) (1 * 4) = v / 2 := by
    intro u v
    simp [fourierAt, exImpulses, Win.eval, winAt, Finset.sum_range_succ]
    ring
  obtain ⟨x, y, hr⟩ : ∃ x y, r = [[x, y], [1 / 2, 1 / 2]] := by
    rw [hr]
    have e : List.range (1 + 1) = [0, 1] := rfl
    simp only [e, List.map_cons, List.map_nil]
    simp only [ht0, ht1]
    exact ⟨_, _, rfl⟩
  subst hr
  refine ⟨[x, y], ?_⟩
  unfold setCoeffs
  have hm : mapE (fun s => syncCoeffs (fun (_ : Unit) (_ : ℚ) => some 1) s (1/4) 1 0 .none) (exRecording ω).runs =
      .ok [([[x, y], [1 / 2, 1 / 2]], 2, 4, 4)] := by
    refine mapE_ok.2 (.cons (syncCoeffs_ok.2 ⟨by simp, _, h, ?_⟩) .nil)
    simp
  rw [hm]
  simp [zipStar]
  rfl

theorem exRecording_repeated : Repeated (fun (_ : Unit) (_ : ℚ) => some 1) (1 / 4) exRecording [0] [1] (fun _ _ => 2) (fun ω _ p => ((exSign ω p.2 : ℝ) : ℂ)) where
  reach := exRecording_reach
  clock ω ω' := by
    refine .cons ⟨rfl, rfl, rfl, rfl, ?_⟩ .nil
    simp
  mag ω ω' r s s' h h' k hk n hn := by
    match r, h, h' with
    | 0, h, h' =>
      simp only [exRecording, List.getElem?_cons_zero, Option.some.injEq] at h h'
      subst h h'
      rw [List.mem_singleton.1 hk]
      rfl
  elec ω r s h i hi n hn := by
    match r, h, i, hi with
    | 0, h, 0, hi =>
      simp only [exRecording, List.getElem?_cons_zero, Option.some.injEq] at h
      subst h
      simp only at hn
      simp [physical, hn]

theorem exRecording_white (ω0 : Fin 8 × Bool) : WhiteOn (exLaw 8) (samplesOf (exRecording ω0)) (1 / 8) (fun ω (p : ℕ × ℕ) => ((exSign ω p.2 : ℝ) : ℂ)) := by
  have hI : ∀ p ∈ samplesOf (exRecording ω0), p.1 = 0 ∧ p.2 < 8 := by
    rintro ⟨r, n⟩ ⟨s, h, hn⟩
    match r, h with
    | 0, h =>
      simp only [exRecording, List.getElem?_cons_zero, Option.some.injEq] at h
      subst h
      exact ⟨rfl, hn⟩
  refine ⟨fun p hp => exNoise8.square _ (hI p hp).2, fun p hp => exNoise8.mean _ (hI p hp).2, ?_⟩
  rintro ⟨r, n⟩ hp ⟨r', n'⟩ hq
  obtain ⟨h1, h2⟩ := hI _ hp
  obtain ⟨h3, h4⟩ := hI _ hq
  simp only at h1 h2 h3 h4
  subst h1 h3
  have := exNoise8.power n h2 n' h4
  simp only [Prod.mk.injEq, true_and]
  exact this

/-- The hypotheses of C123 hold: the impedance is right in the mean, and so is the square of its error. -/
example : ∃ (Z : Fin 8 × Bool → ℂ) (e : Fin 8 × Bool → ℝ),
    (∀ ω, ∃ r, oneFreq (fun _ _ => some 1) (exRecording ω) (1 / 4) { exOpts with remote := none } (fun _ => ()) = (.ok r, fun _ => ()) ∧
      r.impedance = [[some (Z ω)]] ∧ r.error = [[.fin (e ω)]]) ∧
    ∫ ω, Z ω ∂(exLaw 8) = 2 ∧ ∫ ω, e ω ^ 2 ∂(exLaw 8) = ∫ ω, ‖Z ω - 2‖ ^ 2 ∂(exLaw 8) := by
  choose c hc using exRecording_coeffs
  have hone : ChansIndependent [[(1 / 2 : ℂ), 1 / 2]] 2 [] := by
    intro t ht hn x hx
    match t, ht with
    | [y], _ =>
      have := hn 0 (by norm_num) (by simp)
      simp only [combine, List.zipWith_cons_cons, List.zipWith_nil_left, List.sum_cons, List.sum_nil,
        add_zero, List.getD_cons_zero, mul_eq_zero] at this
      rw [List.mem_singleton.1 hx]
      exact this.resolve_right (by norm_num)
  obtain ⟨Z, err, h1, h2, h3⟩ := C123_unbiased (exLaw 8) (fun _ _ => some 1) (1 / 4) exRecording { exOpts with remote := none } rfl rfl rfl [0] [1]
    (fun ω => ⟨rfl, rfl, .inl ⟨.inl rfl, rfl⟩⟩) _ _ exRecording_repeated _ _ hc (fun ω => hone)
    (fun ω0 i _ p hp => ⟨((exRecording_white ω0).square p hp).integrable (by norm_num), (exRecording_white ω0).mean p hp⟩) (fun _ => ())
  obtain ⟨e, h4⟩ := h3 (fun _ => 1 / 8) (fun ω0 _ _ => exRecording_white ω0) rfl (by simp [exRecording]) (by simp)
  obtain ⟨g1, g2, g3, g4⟩ := h4 0 (by simp) 0 (by simp)
  refine ⟨fun ω => Z ω 0 0, fun ω => e ω 0 0, fun ω => ?_, (h2 0 (by simp) 0 (by simp)).2, g4⟩
  obtain ⟨r, a1, a2, a3⟩ := h1 ω
  exact ⟨r, a1, a2, by rw [a3, ← g1 ω]; rfl⟩

end examples

end Razorback.Props
