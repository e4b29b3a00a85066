/-
Theorems C89 (units), C90 (axes) and C91 (exact impedance of the samples).
-/
import Verif.Lemmas.UnitsSets
import Verif.Lemmas.UnitFree
import Verif.Props.Impedance

namespace Razorback.Props
open Razorback.Spec Razorback.MEst Razorback.Fourier Razorback.Impedance

variable {κ σ : Type}

/-! Channels of two sets over the same clock. -/

theorem getD_get {β : Type} {l : List β} {n : ℕ} {d : β} (h : n < l.length) : l.getD n d = l[n] := by
  simp [List.getD_eq_getElem?_getD, h]

theorem picked_eq {co : List (List ℂ)} {idx : List ℕ} {l : List (List ℂ)} (h : Picked co idx l) :
    l = idx.map (fun i => co.getD i []) ∧ ∀ i ∈ idx, co[i]? = some (co.getD i []) ∧ i < co.length := by
  induction h with
  | nil => simp
  | cons h1 _ ih =>
    refine ⟨?_, ?_⟩
    · rw [List.map_cons, ← ih.1, List.getD_eq_getElem?_getD, h1, Option.getD_some]
    · intro i hi
      rcases List.mem_cons.1 hi with rfl | hi
      · refine ⟨by rw [List.getD_eq_getElem?_getD, h1, Option.getD_some], (List.getElem?_eq_some_iff.1 h1).1⟩
      · exact ih.2 i hi

/-- What `oneFreq` does on the coefficients: the channels as functions of their rank in the tags. -/
theorem oneFreq_local [One κ] {cal : κ → ℚ → Option ℂ} {S : SigSet ℂ κ} (hS : Reach S) {freq : ℚ} {o : Impedance.Opts σ}
    {E B : List ℕ} (hc : Channels S o E B none) {co : List (List ℂ)} {w : List ℕ × List ℕ × List ℕ}
    (h : setCoeffs cal S freq o.nper o.overlap o.win = .ok (co, w)) (heap : ℕ → σ) :
    (∀ i, i ∈ E ∨ i ∈ B → co[i]? = some (co.getD i []) ∧ i < co.length ∧ (co.getD i []).length = w.1.sum) ∧
    ∃ failed, failed = ⟨nans E.length B.length, [], nanErrors E.length B.length, nans B.length 0⟩ ∧
    oneFreq cal S freq o heap = secondStageQ o (windows S w) (E.map (fun i => co.getD i [])) B.length
      (fun j => co.getD B[j] []) w.1.sum .none (List.replicate B.length []) failed heap := by
  obtain ⟨e, b, br, he, hb, hr, hne, hnb, hle, hlb⟩ := reach_chans hS hc h
  rcases hr with ⟨-, rfl⟩ | ⟨r, l, h0, -⟩
  swap
  · simp at h0
  have hs := oneFreq_stages (heap := heap) hc h he hb (.inl ⟨rfl, rfl⟩)
  obtain ⟨he1, he2⟩ := picked_eq he
  obtain ⟨hb1, hb2⟩ := picked_eq hb
  refine ⟨?_, ⟨_, rfl, ?_⟩⟩
  · rintro i (hi | hi)
    · exact ⟨(he2 i hi).1, (he2 i hi).2, hle _ (by rw [he1]; exact List.mem_map_of_mem hi)⟩
    · exact ⟨(hb2 i hi).1, (hb2 i hi).2, hlb _ (by rw [hb1]; exact List.mem_map_of_mem hi)⟩
  · have hw : width b = w.1.sum := by
      cases b with
      | nil => exact absurd rfl hnb
      | cons y b => exact hlb y (by simp)
    have hbl : B.length = b.length := by rw [hb1, List.length_map]
    have : (fun j : Fin B.length => cols b (Fin.cast hbl j)) = fun j => co.getD B[j] [] := by
      funext j
      simp [cols, hb1]
    rw [hs, stages, secondStage_eqQ, hw, secondStageQ_cast hbl, this, ← hbl, he1]
    simp [failedResult, hbl, ← hb1]

/-- The two stages with a remote, for remote channels given as a function. -/
noncomputable def remoteStages (o : Impedance.Opts σ) (wins : List ((ℚ × ℚ) × ℕ × ℕ × ℕ)) (e b : List (List ℂ)) (q : ℕ)
    (c : Fin q → List ℂ) (N : ℕ) (failed : Result) (heap : ℕ → σ) : Except Err Result × (ℕ → σ) :=
  match firstStageQ o b q c N heap with
  | (.error x, heap) => (.error x, heap)
  | (.ok none, heap) => (.ok failed, heap)
  | (.ok (some (T, be, ivT)), heap) =>
    secondStage o wins e be (.each (List.replicate e.length ivT)) T failed heap

/-- Electric and magnetic channels in other units, and other remote axes. -/
theorem remoteStages_mix {o : Impedance.Opts σ} (hws : AllUnitFree o.weights) (hwr : AllUnitFree (firstWeights o))
    (hpre : PreUnitFree o.prefilter) (hprer : PreUnitFree (firstPrefilter o)) {q : ℕ} {A : Matrix (Fin q) (Fin q) ℂ} (hA : A.det ≠ 0)
    {e b : List (List ℂ)} {ce cb : List ℂ} (hce : ce.length = e.length) (hcb : cb.length = b.length) (hce0 : ∀ c ∈ ce, c ≠ 0)
    (hcb0 : ∀ c ∈ cb, c ≠ 0) (hb0 : b ≠ []) {N : ℕ} {c c' : Fin q → List ℂ} (hin : Mixed A N c c')
    (wins : List ((ℚ × ℚ) × ℕ × ℕ × ℕ)) (failed : Result) (heap heap' : ℕ → σ) :
    (∃ x, (remoteStages o wins e b q c N failed heap).1 = .error x ∧
      (remoteStages o wins (scaleAll ce e) (scaleAll cb b) q c' N failed heap').1 = .error x) ∨
    ((remoteStages o wins e b q c N failed heap).1 = .ok failed ∧
      (remoteStages o wins (scaleAll ce e) (scaleAll cb b) q c' N failed heap').1 = .ok failed) ∨
    ∃ (z : List (Fin cb.length → ℂ)) (iv : List (List (Option ℚ))) (err : List (Fin cb.length → Flt)) (T : List (Fin q → ℂ)),
      z.length = e.length ∧ err.length = e.length ∧ T.length = b.length ∧
      (remoteStages o wins e b q c N failed heap).1 =
        .ok ⟨z.map (fun r => (List.ofFn r).map some), iv, err.map List.ofFn,
          T.map (fun r => (List.ofFn r).map some)⟩ ∧
      (remoteStages o wins (scaleAll ce e) (scaleAll cb b) q c' N failed heap').1 =
        .ok ⟨(List.zipWith (fun c z j => c * (z j / cb[j])) ce z).map (fun r => (List.ofFn r).map some), iv,
          (List.zipWith (fun c z j => Flt.mul (.fin ‖c‖) (Flt.div (z j) (.fin ‖cb[j]‖))) ce err).map List.ofFn,
          (List.zipWith (fun c z => converted c A z) cb T).map (fun r => (List.ofFn r).map some)⟩ := by
  unfold remoteStages
  have hel : (scaleAll ce e).length = e.length := by simp [scaleAll, hce]
  rcases firstStageQ_mix hwr hprer hA hcb hcb0 hin heap heap' with ⟨x, g1, g2⟩ | ⟨g1, g2⟩ | ⟨T, be, iv, hT, hbe, hbl, g1, g2⟩
  all_goals
    generalize firstStageQ o b q c N heap = y at g1 ⊢
    generalize firstStageQ o (scaleAll cb b) q c' N heap' = y' at g2 ⊢
    obtain ⟨y, k⟩ := y
    obtain ⟨y', k'⟩ := y'
    simp only at g1 g2
    subst g1 g2
  · exact .inl ⟨x, rfl, rfl⟩
  · exact .inr (.inl ⟨rfl, rfl⟩)
  · simp only [hel]
    have hq : cb.length = be.length := by rw [hcb, hbe]
    have hq' : cb.length = (scaleAll cb be).length := by simp [scaleAll, hq]
    have hne : be ≠ [] := by
      intro h0
      rw [h0] at hbe
      exact hb0 (List.length_eq_zero_iff.1 hbe.symm)
    have hw : width be = N := by
      cases be with
      | nil => exact absurd rfl hne
      | cons y b => exact hbl y (by simp)
    have hcol : (fun j : Fin cb.length => cols (scaleAll cb be) (Fin.cast hq' j)) =
        fun j : Fin cb.length => (cols be (Fin.cast hq j)).map (fun v => cb[j] * v) := by
      funext j
      simp [cols, scaleAll]
      rfl
    have hcl : ∀ j, (cols be (Fin.cast hq j)).length = N := fun j => hbl _ (List.getElem_mem _)
    have hw' : width (scaleAll cb be) = N := by
      have h0 : 0 < cb.length := by
        rw [hq]
        exact List.length_pos_of_ne_nil hne
      have := congrArg List.length (congrFun hcol ⟨0, h0⟩)
      rw [List.length_map, hcl] at this
      rw [← this]
      unfold width cols
      clear hcol this
      generalize scaleAll cb be = L at hq'
      cases L with
      | nil => exact absurd h0 (by rw [hq']; simp)
      | cons y l => rfl
    rw [secondStage_eqQ, secondStage_eqQ, hw, hw', secondStageQ_cast hq, secondStageQ_cast hq', hcol]
    have hcb1 : ∀ j : Fin cb.length, cb[j] ≠ 0 := fun j => hcb0 _ (List.getElem_mem _)
    have hdet : (Matrix.diagonal (fun j : Fin cb.length => cb[j])).det ≠ 0 := by
      rw [Matrix.det_diagonal]
      exact Finset.prod_ne_zero_iff.2 (fun j _ => hcb1 j)
    have hmix := mixed_diagonal (fun j : Fin cb.length => cb[j]) hcl
    rcases secondStageQ_mix hws hpre hdet hce hce0 hmix wins (.each (List.replicate e.length iv))
      (T.map (fun r => (List.ofFn r).map some))
      ((List.zipWith (fun c z => converted c A z) cb T).map (fun r => (List.ofFn r).map some)) failed failed k k' with
      ⟨x, g1, g2⟩ | ⟨g1, g2⟩ | ⟨z, iv, err, err', g0, g1, g2, g3⟩
    · exact .inl ⟨x, g1, g2⟩
    · exact .inr (.inl ⟨g1, g2⟩)
    · obtain ⟨g4, g5⟩ := g3 _ hcb1 rfl rfl
      refine .inr (.inr ⟨z, iv, err, T, g0, g4, hT, g1, ?_⟩)
      rw [g2, g5]
      simp only [converted_diagonal _ hcb1]

/-- The same with a remote. -/
theorem oneFreq_remote [One κ] {cal : κ → ℚ → Option ℂ} {S : SigSet ℂ κ} (hS : Reach S) {freq : ℚ} {o : Impedance.Opts σ}
    {E B R : List ℕ} (hc : Channels S o E B (some R)) {co : List (List ℂ)} {w : List ℕ × List ℕ × List ℕ}
    (h : setCoeffs cal S freq o.nper o.overlap o.win = .ok (co, w)) (heap : ℕ → σ) :
    (∀ i, i ∈ E ∨ i ∈ B ∨ i ∈ R → co[i]? = some (co.getD i []) ∧ i < co.length ∧ (co.getD i []).length = w.1.sum) ∧ B ≠ [] ∧
    ∃ failed, failed = ⟨nans E.length B.length, [], nanErrors E.length B.length, nans B.length R.length⟩ ∧
    oneFreq cal S freq o heap =
      remoteStages o (windows S w) (E.map (fun i => co.getD i [])) (B.map (fun i => co.getD i [])) R.length
        (fun j => co.getD R[j] []) w.1.sum failed heap := by
  obtain ⟨e, b, br, he, hb, hr, hne, hnb, hle, hlb⟩ := reach_chans hS hc h
  rcases hr with ⟨h0, -⟩ | ⟨r, l, h0, rfl, hl, hnl, hll⟩
  · simp at h0
  obtain rfl := Option.some.inj h0
  have hs := oneFreq_stages (heap := heap) hc h he hb (.inr ⟨_, _, rfl, rfl, hl⟩)
  obtain ⟨he1, he2⟩ := picked_eq he
  obtain ⟨hb1, hb2⟩ := picked_eq hb
  obtain ⟨hl1, hl2⟩ := picked_eq hl
  refine ⟨?_, ?_, ⟨_, rfl, ?_⟩⟩
  · rintro i (hi | hi | hi)
    · exact ⟨(he2 i hi).1, (he2 i hi).2, hle _ (by rw [he1]; exact List.mem_map_of_mem hi)⟩
    · exact ⟨(hb2 i hi).1, (hb2 i hi).2, hlb _ (by rw [hb1]; exact List.mem_map_of_mem hi)⟩
    · exact ⟨(hl2 i hi).1, (hl2 i hi).2, hll _ (by rw [hl1]; exact List.mem_map_of_mem hi)⟩
  · rintro rfl
    exact hnb (by simpa using hb1)
  · have hw : width l = w.1.sum := by
      cases l with
      | nil => exact absurd rfl hnl
      | cons y b => exact hll y (by simp)
    have hbl : B.length = b.length := by rw [hb1, List.length_map]
    have hrl : R.length = l.length := by rw [hl1, List.length_map]
    have hel : E.length = e.length := by rw [he1, List.length_map]
    have : (fun j : Fin R.length => cols l (Fin.cast hrl j)) = fun j => co.getD R[j] [] := by
      funext j
      simp [cols, hl1]
    rw [hs, stages_eqQ, hw, firstStageQ_cast hrl, this, ← hrl, ← hb1, ← he1]
    simp only [failedResult, hbl, hel, remoteStages]
    rcases firstStageQ o b R.length (fun j => co.getD R[j] []) w.1.sum heap with ⟨_ | (_ | _), _⟩ <;> rfl

/-- A channel multiplied by a constant. -/
theorem chan_scaled {l l' : List ℂ} {N : ℕ} (hl : l.length = N) (hl' : l'.length = N) {c : ℂ}
    (h : ∀ n, l'.getD n 0 = c * l.getD n 0) : l' = l.map (fun v => c * v) := by
  apply List.ext_getElem
  · simp [hl, hl']
  · intro n h1 h2
    have := h n
    rw [getD_get h1, getD_get (by omega)] at this
    rw [this, List.getElem_map]

theorem scaleAll_map (u : ℕ → ℂ) (E : List ℕ) (f f' : ℕ → List ℂ) (h : ∀ i ∈ E, f' i = (f i).map (fun v => u i * v)) :
    E.map f' = scaleAll (E.map u) (E.map f) := by
  unfold scaleAll
  rw [List.zipWith_map, List.zipWith_self]
  exact List.map_congr_left h

theorem rescale_nans {β : Type} [Mul β] (f : ℕ → ℕ → β) (n m : ℕ) : rescale f (nans n m) = nans n m := by
  unfold rescale nans
  apply List.ext_getElem
  · simp
  · intro i h1 h2
    simp only [List.getElem_mapIdx, List.getElem_replicate]
    apply List.ext_getElem
    · simp
    · intro j h3 h4
      simp

theorem rescaleErrors_nan (f : ℕ → ℕ → ℝ) (n m : ℕ) : rescaleErrors f (nanErrors n m) = nanErrors n m := by
  unfold rescaleErrors nanErrors
  apply List.ext_getElem
  · simp
  · intro i h1 h2
    simp only [List.getElem_mapIdx, List.getElem_replicate]
    apply List.ext_getElem
    · simp
    · intro j h3 h4
      simp [Flt.mul]

theorem rescaleErrors_rows {q : ℕ} (f : ℕ → ℕ → ℝ) (g : ℂ → Fin q → Flt → Flt) (cs : List ℂ) (zs : List (Fin q → Flt))
    (hl : cs.length = zs.length) (h : ∀ (i : ℕ) (hi : i < cs.length) (j : Fin q) (v : Flt), g cs[i] j v = Flt.mul (.fin (f i j)) v) :
    (List.zipWith (fun c z j => g c j (z j)) cs zs).map List.ofFn = rescaleErrors f (zs.map List.ofFn) := by
  unfold rescaleErrors
  apply List.ext_getElem
  · simp [hl]
  · intro i h1 h2
    have hi : i < cs.length := by simpa [hl] using h2
    simp only [List.getElem_map, List.getElem_zipWith, List.getElem_mapIdx]
    apply List.ext_getElem
    · simp
    · intro j h3 h4
      simp only [List.getElem_ofFn, List.getElem_mapIdx]
      exact h i hi _ _

theorem rescale_empty {β : Type} [Mul β] (f : ℕ → ℕ → β) (n : ℕ) : rescale f (List.replicate n []) = List.replicate n [] := by
  unfold rescale
  apply List.ext_getElem
  · simp
  · intro i h1 h2
    simp

theorem rescale_rows {β : Type} [Mul β] {q : ℕ} (f : ℕ → ℕ → β) (g : ℂ → Fin q → β → β) (cs : List ℂ) (zs : List (Fin q → β))
    (hl : cs.length = zs.length) (h : ∀ (i : ℕ) (hi : i < cs.length) (j : Fin q) (v : β), g cs[i] j v = f i j * v) :
    (List.zipWith (fun c z j => g c j (z j)) cs zs).map (fun r => (List.ofFn r).map some) =
      rescale f (zs.map (fun r => (List.ofFn r).map some)) := by
  unfold rescale
  apply List.ext_getElem
  · simp [hl]
  · intro i h1 h2
    have hi : i < cs.length := by simpa [hl] using h2
    simp only [List.getElem_map, List.getElem_zipWith, List.getElem_mapIdx]
    apply List.ext_getElem
    · simp
    · intro j h3 h4
      simp only [List.getElem_map, List.getElem_ofFn, List.getElem_mapIdx, Option.map_some, Option.some.injEq]
      exact h i hi _ _

/-! C89 -/

/-- **C89.** One frequency: multiplying the physical samples of every channel `i` by a non-zero constant `u i` (by changing
samples or calibrations) multiplies impedance, error and transfer by the corresponding quotients and changes nothing else:
the same times are rejected, the same failures give NaN or raise the same error. -/
theorem C89_one_frequency [One κ] (cal : κ → ℚ → Option ℂ) (S S' : SigSet ℂ κ) (hS : Reach S) (hS' : Reach S')
    (htags : S'.tags = S.tags) (freq : ℚ) (u : ℕ → ℂ) (hu : ∀ i, u i ≠ 0)
    (hclock : List.Forall₂ (SameClock cal freq) S.runs S'.runs)
    (hphys : List.Forall₂ (fun s s' => ∀ i n, physical cal freq s' i n = u i * physical cal freq s i n) S.runs S'.runs)
    (o : Impedance.Opts σ) (hws : AllUnitFree o.weights) (hwr : AllUnitFree (firstWeights o)) (hpre : PreUnitFree o.prefilter)
    (hprer : PreUnitFree (firstPrefilter o)) (E B : List ℕ) (R : Option (List ℕ)) (hc : Channels S o E B R) (heap heap' : ℕ → σ) :
    (oneFreq cal S' freq o heap').1 = (oneFreq cal S freq o heap).1.map (inUnits u E B (R.getD [])) := by
  have hc' : Channels S' o E B R := ⟨by rw [htags]; exact hc.elec, by rw [htags]; exact hc.mag, by rw [htags]; exact hc.remote⟩
  cases h : setCoeffs cal S freq o.nper o.overlap o.win with
  | error x =>
    obtain ⟨x', h'⟩ := setCoeffs_error_of hS hS' hclock h
    rw [oneFreq_fourier hc h, oneFreq_fourier hc' h']
    simp only [Except.map, inUnits, rescale_nans, rescaleErrors_nan]
  | ok p =>
    obtain ⟨co, w⟩ := p
    obtain ⟨co', h', hlen, hwin, hlink⟩ := setCoeffs_linked hS hS' hclock h
    have hscale : ∀ i, co[i]? = some (co.getD i []) → co'[i]? = some (co'.getD i []) → (co.getD i []).length = w.1.sum →
        (co'.getD i []).length = w.1.sum → co'.getD i [] = (co.getD i []).map (fun v => u i * v) := by
      intro i h1 h2 h3 h4
      refine chan_scaled h3 h4 ?_
      intro n
      have hi := (List.getElem?_eq_some_iff.1 h1).1
      have := hlink i _ h2 (ι := Unit) Finset.univ (fun _ => u i) (fun _ => i) (fun _ _ => hi)
        (hphys.imp (fun s s' h n => by simpa using h i n)) n
      simpa using this
    have hcs : ∀ l : List ℕ, ∀ c ∈ l.map u, c ≠ 0 := by
      intro l c hc
      obtain ⟨i, -, rfl⟩ := List.mem_map.1 hc
      exact hu i
    have hEi : ∀ (i : ℕ) (hi : i < (E.map u).length), (E.map u)[i] = u (E.getD i 0) := by
      intro i hi
      rw [List.getElem_map, getD_get (by simpa using hi)]
    have hBi : ∀ (i : ℕ) (hi : i < (B.map u).length), (B.map u)[i] = u (B.getD i 0) := by
      intro i hi
      rw [List.getElem_map, getD_get (by simpa using hi)]
    have hBj : ∀ (j : Fin B.length), u B[j] = u (B.getD j 0) := by
      intro j
      rw [getD_get j.isLt]
      rfl
    cases R with
    | none =>
      obtain ⟨hch, failed, hf, h1⟩ := oneFreq_local hS hc h heap
      obtain ⟨hch', failed', hf', h1'⟩ := oneFreq_local hS' hc' h' heap'
      have hsc := fun i hi => hscale i (hch i hi).1 (hch' i hi).1 (hch i hi).2.2 (hch' i hi).2.2
      have hcol : (fun j : Fin B.length => co'.getD B[j] []) = fun j => (co.getD B[j] []).map (fun v => u B[j] * v) := by
        funext j
        exact hsc _ (.inr (List.getElem_mem _))
      have hmix : Mixed (Matrix.diagonal (fun j : Fin B.length => u B[j])) w.1.sum (fun j => co.getD B[j] [])
          (fun j => co'.getD B[j] []) := by
        rw [hcol]
        exact mixed_diagonal _ (fun j => (hch _ (.inr (List.getElem_mem _))).2.2)
      have hdet : (Matrix.diagonal (fun j : Fin B.length => u B[j])).det ≠ 0 := by
        rw [Matrix.det_diagonal]
        exact Finset.prod_ne_zero_iff.2 (fun j _ => hu _)
      rw [h1, h1', hwin, scaleAll_map u E (fun i => co.getD i []) (fun i => co'.getD i []) (fun i hi => hsc i (.inl hi)), hf', ← hf]
      rcases secondStageQ_mix hws hpre hdet (e := E.map (fun i => co.getD i [])) (cs := E.map u) (by simp) (hcs E) hmix (windows S w) .none
        (List.replicate B.length []) (List.replicate B.length []) failed failed heap heap' with
        ⟨x, g1, g2⟩ | ⟨g1, g2⟩ | ⟨z, iv, err, err', g0, g1, g2, g3⟩
      · rw [g1, g2]; rfl
      · rw [g1, g2, hf]
        simp only [Except.map, inUnits, rescale_nans, rescaleErrors_nan]
      · obtain ⟨g4, g5⟩ := g3 _ (fun j => hu _) rfl hcol
        rw [g1, g2, g5]
        simp only [Except.map, inUnits, rescale_empty, Except.ok.injEq, Result.mk.injEq, true_and, and_true]
        simp only [converted_diagonal _ (fun j : Fin B.length => hu B[j])]
        refine ⟨?_, ?_⟩
        · refine rescale_rows _ (fun c j v => c * (v / u B[j])) (E.map u) z (by simpa using g0.symm) ?_
          intro i hi j v
          rw [hEi i hi, hBj]
          ring
        · refine rescaleErrors_rows _ (fun c j v => Flt.mul (.fin ‖c‖) (Flt.div v (.fin ‖u B[j]‖))) (E.map u) err (by simpa using g4.symm) ?_
          intro i hi j v
          rw [hEi i hi, hBj]
          exact Flt.mul_div_eq (norm_nonneg _) (norm_pos_iff.2 (hu _)) v
    | some R =>
      obtain ⟨hch, hB0, failed, hf, h1⟩ := oneFreq_remote hS hc h heap
      obtain ⟨hch', -, failed', hf', h1'⟩ := oneFreq_remote hS' hc' h' heap'
      have hsc := fun i hi => hscale i (hch i hi).1 (hch' i hi).1 (hch i hi).2.2 (hch' i hi).2.2
      have hRj : ∀ (j : Fin R.length), u R[j] = u (R.getD j 0) := by
        intro j
        rw [getD_get j.isLt]
        rfl
      have hcol : (fun j : Fin R.length => co'.getD R[j] []) = fun j => (co.getD R[j] []).map (fun v => u R[j] * v) := by
        funext j
        exact hsc _ (.inr (.inr (List.getElem_mem _)))
      have hmix : Mixed (Matrix.diagonal (fun j : Fin R.length => u R[j])) w.1.sum (fun j => co.getD R[j] [])
          (fun j => co'.getD R[j] []) := by
        rw [hcol]
        exact mixed_diagonal _ (fun j => (hch _ (.inr (.inr (List.getElem_mem _)))).2.2)
      have hdet : (Matrix.diagonal (fun j : Fin R.length => u R[j])).det ≠ 0 := by
        rw [Matrix.det_diagonal]
        exact Finset.prod_ne_zero_iff.2 (fun j _ => hu _)
      rw [h1, h1', hwin, scaleAll_map u E (fun i => co.getD i []) (fun i => co'.getD i []) (fun i hi => hsc i (.inl hi)),
        scaleAll_map u B (fun i => co.getD i []) (fun i => co'.getD i []) (fun i hi => hsc i (.inr (.inl hi))), hf', ← hf]
      rcases remoteStages_mix hws hwr hpre hprer hdet (e := E.map (fun i => co.getD i [])) (b := B.map (fun i => co.getD i []))
        (ce := E.map u) (cb := B.map u) (by simp) (by simp) (hcs E) (hcs B) (by simpa using hB0) hmix (windows S w) failed heap heap' with
        ⟨x, g1, g2⟩ | ⟨g1, g2⟩ | ⟨z, iv, err, T, g0, g3, g4, g1, g2⟩
      · rw [g1, g2]; rfl
      · rw [g1, g2, hf]
        simp only [Except.map, inUnits, rescale_nans, rescaleErrors_nan]
      · rw [g1, g2]
        simp only [Except.map, inUnits, Except.ok.injEq, Result.mk.injEq, true_and, Option.getD_some]
        simp only [converted_diagonal _ (fun j : Fin R.length => hu R[j])]
        refine ⟨?_, ?_, ?_⟩
        · refine rescale_rows _ (fun c (j : Fin (B.map u).length) v => c * (v / (B.map u)[j])) (E.map u) z (by simpa using g0.symm) ?_
          intro i hi j v
          rw [hEi i hi, Fin.getElem_fin, hBi]
          ring
        · refine rescaleErrors_rows _ (fun c (j : Fin (B.map u).length) v => Flt.mul (.fin ‖c‖) (Flt.div v (.fin ‖(B.map u)[j]‖))) (E.map u) err
            (by simpa using g3.symm) ?_
          intro i hi j v
          rw [hEi i hi, Fin.getElem_fin, hBi]
          exact Flt.mul_div_eq (norm_nonneg _) (norm_pos_iff.2 (hu _)) v
        · refine rescale_rows _ (fun c j v => c * (v / u R[j])) (B.map u) T (by simpa using g4.symm) ?_
          intro i hi j v
          rw [hBi i hi, hRj]
          ring

theorem eachFreq_units [One κ] (cal : κ → ℚ → Option ℂ) (S S' : SigSet ℂ κ) (hS : Reach S) (hS' : Reach S')
    (htags : S'.tags = S.tags) (freqs : List ℚ) (u : ℚ → ℕ → ℂ) (hu : ∀ f i, u f i ≠ 0)
    (hclock : ∀ f ∈ freqs, List.Forall₂ (SameClock cal f) S.runs S'.runs)
    (hphys : ∀ f ∈ freqs, List.Forall₂ (fun s s' => ∀ i n, physical cal f s' i n = u f i * physical cal f s i n) S.runs S'.runs)
    (o : Impedance.Opts σ) (hws : AllUnitFree o.weights) (hwr : AllUnitFree (firstWeights o)) (hpre : PreUnitFree o.prefilter)
    (hprer : PreUnitFree (firstPrefilter o)) (E B : List ℕ) (R : Option (List ℕ)) (hc : Channels S o E B R) (heap heap' : ℕ → σ) :
    (eachFreq cal S' o freqs heap').1 =
      (eachFreq cal S o freqs heap).1.map (fun rs => List.zipWith (fun f r => inUnits (u f) E B (R.getD []) r) freqs rs) := by
  induction freqs generalizing heap heap' with
  | nil => rfl
  | cons f l ih =>
    have h1 := C89_one_frequency cal S S' hS hS' htags f (u f) (hu f) (hclock f (by simp)) (hphys f (by simp)) o hws hwr hpre hprer
      E B R hc heap heap'
    simp only [eachFreq]
    generalize oneFreq cal S f o heap = y at h1 ⊢
    generalize oneFreq cal S' f o heap' = y' at h1 ⊢
    obtain ⟨y, g⟩ := y
    obtain ⟨y', g'⟩ := y'
    simp only at h1
    subst h1
    cases y with
    | error x => rfl
    | ok r =>
      simp only [Except.map]
      have h2 := ih (fun f hf => hclock f (by simp [hf])) (fun f hf => hphys f (by simp [hf])) g g'
      generalize eachFreq cal S o l g = y at h2 ⊢
      generalize eachFreq cal S' o l g' = y' at h2 ⊢
      obtain ⟨y, k⟩ := y
      obtain ⟨y', k'⟩ := y'
      simp only at h2
      subst h2
      cases y <;> rfl

theorem rescale_shape {β : Type} [Mul β] (f : ℕ → ℕ → β) (m : List (List (Option β))) :
    (rescale f m).map List.length = m.map List.length := by
  apply List.ext_getElem
  · simp [rescale]
  · simp [rescale]

theorem inUnits_shape (u : ℕ → ℂ) (E B R : List ℕ) (r : Result) : (inUnits u E B R r).shape = r.shape := by
  have : ∀ (f : ℕ → ℕ → ℝ) (m : List (List Flt)), (rescaleErrors f m).map List.length = m.map List.length := by
    intro f m
    apply List.ext_getElem
    · simp [rescaleErrors]
    · simp [rescaleErrors]
  simp only [inUnits, Result.shape, rescale_shape, this]

theorem stack_units {g : ℚ → Result → Result} (hg : ∀ f r, (g f r).shape = r.shape) {freqs : List ℚ} {rs : List Result}
    (hl : freqs.length = rs.length) : stack (List.zipWith g freqs rs) = (stack rs).map (List.zipWith g freqs) := by
  cases rs with
  | nil => simp [stack, Except.map]
  | cons r l =>
    cases freqs with
    | nil => simp at hl
    | cons f fs =>
      simp only [List.zipWith_cons_cons, stack, hg]
      have : (List.zipWith g fs l).all (fun r' => decide (r'.shape = r.shape)) = l.all (fun r' => decide (r'.shape = r.shape)) := by
        simp only [List.length_cons, Nat.add_right_cancel_iff] at hl
        clear f
        induction l generalizing fs with
        | nil => simp
        | cons a l ih =>
          cases fs with
          | nil => simp at hl
          | cons f fs =>
            simp only [List.zipWith_cons_cons, List.all_cons, hg]
            rw [ih fs (by simpa using hl)]
      rw [this]
      split <;> simp [Except.map]

/-- **C89.** All frequencies; the factors may depend on the frequency, as calibrations do. -/
theorem C89_impedance [One κ] (cal : κ → ℚ → Option ℂ) (S S' : SigSet ℂ κ) (hS : Reach S) (hS' : Reach S')
    (htags : S'.tags = S.tags) (freqs : List ℚ) (u : ℚ → ℕ → ℂ) (hu : ∀ f i, u f i ≠ 0)
    (hclock : ∀ f ∈ freqs, List.Forall₂ (SameClock cal f) S.runs S'.runs)
    (hphys : ∀ f ∈ freqs, List.Forall₂ (fun s s' => ∀ i n, physical cal f s' i n = u f i * physical cal f s i n) S.runs S'.runs)
    (o : Impedance.Opts σ) (hws : AllUnitFree o.weights) (hwr : AllUnitFree (firstWeights o)) (hpre : PreUnitFree o.prefilter)
    (hprer : PreUnitFree (firstPrefilter o)) (E B : List ℕ) (R : Option (List ℕ)) (hc : Channels S o E B R) (heap heap' : ℕ → σ) :
    (impedance cal S' o freqs heap').1 =
      (impedance cal S o freqs heap).1.map (fun rs => List.zipWith (fun f r => inUnits (u f) E B (R.getD []) r) freqs rs) := by
  have h1 := eachFreq_units cal S S' hS hS' htags freqs u hu hclock hphys o hws hwr hpre hprer E B R hc heap heap'
  have hl := eachFreq_each cal S o freqs heap
  unfold impedance
  generalize eachFreq cal S o freqs heap = y at h1 hl ⊢
  generalize eachFreq cal S' o freqs heap' = y' at h1 ⊢
  obtain ⟨y, k⟩ := y
  obtain ⟨y', k'⟩ := y'
  simp only at h1
  subst h1
  cases y with
  | error x => rfl
  | ok rs =>
    simp only [Except.map]
    exact stack_units (g := fun f r => inUnits (u f) E B (R.getD []) r) (fun f r => inUnits_shape _ _ _ _ _) (hl rs rfl).length_eq

/-- **C89.** The weight functions and the prefilter of the library ignore units and axes. -/
theorem C89_library :
    (∀ (ws : Impedance.Weights Weights.Mem),
      (∀ i wf, some (i, wf) ∈ ws → ∃ w : Weights.Obj, ∀ q, wf q = w.call) → AllUnitFree ws) ∧
    ∀ (pre : Option Pre), (∀ p, pre = some p → ∃ (codMin codMax : ℝ) (size : ℕ), ∀ q, p q = Prefilter.call codMin codMax size) →
      PreUnitFree pre := by
  refine ⟨?_, ?_⟩
  · intro ws h i wf hm q
    obtain ⟨w, hw⟩ := h i wf hm
    rw [hw]
    exact obj_unitFree w
  · intro pre h p hp q
    obtain ⟨a, b, n, hp⟩ := h p hp
    rw [hp]
    exact cod_unitFree a b n

/-- **C89.** Only the physical samples matter: with the same samples once divided by the calibrations, all results are the
same, for any weight functions and prefilters. -/
theorem C89_physical_only [One κ] (cal : κ → ℚ → Option ℂ) (S S' : SigSet ℂ κ) (hS : Reach S) (hS' : Reach S')
    (htags : S'.tags = S.tags) (freqs : List ℚ)
    (hclock : ∀ f ∈ freqs, List.Forall₂ (SameClock cal f) S.runs S'.runs)
    (hphys : ∀ f ∈ freqs, List.Forall₂ (fun s s' => ∀ i n, physical cal f s' i n = physical cal f s i n) S.runs S'.runs)
    (o : Impedance.Opts σ) (heap : ℕ → σ) : impedance cal S' o freqs heap = impedance cal S o freqs heap := by
  have key : ∀ f ∈ freqs, ∀ heap, oneFreq cal S' f o heap = oneFreq cal S f o heap := by
    intro f hf heap
    have hrem : remoteChannels S' o = remoteChannels S o := by unfold remoteChannels; rw [htags]
    unfold oneFreq
    rw [htags, hrem]
    cases h : setCoeffs cal S f o.nper o.overlap o.win with
    | error x =>
      obtain ⟨x', h'⟩ := setCoeffs_error_of hS hS' (hclock f hf) h
      rw [h']
    | ok p =>
      obtain ⟨co, w⟩ := p
      obtain ⟨co', h', hlen, hwin, hlink⟩ := setCoeffs_linked hS hS' (hclock f hf) h
      obtain ⟨-, a2, -⟩ := setCoeffs_forms hS h
      obtain ⟨-, b2, -⟩ := setCoeffs_forms hS' h'
      have hF : (forms S' f o.nper o.overlap o.win).length = (forms S f o.nper o.overlap o.win).length := by
        have := forms_linked (freq := f) (nper := o.nper) (overlap := o.overlap) (win := o.win) (P := fun _ _ => True)
          ((hclock f hf).imp (fun s s' h => ⟨h.rate, h.size, trivial⟩))
        exact this.length_eq.symm
      have hco : co' = co := by
        apply List.ext_getElem?
        intro i
        by_cases hi : i < co.length
        · have hi' : i < co'.length := by rw [hlen]; exact hi
          rw [List.getElem?_eq_getElem hi, List.getElem?_eq_getElem hi', Option.some.injEq]
          have h1 := a2 i hi
          have h2 := b2 i hi'
          rw [List.getElem?_eq_getElem hi, Option.some.injEq] at h1
          rw [List.getElem?_eq_getElem hi', Option.some.injEq] at h2
          have h3 := chan_scaled (l := co[i]) (l' := co'[i]) (N := (forms S f o.nper o.overlap o.win).length) (c := 1)
            (by rw [h1, List.length_map]) (by rw [h2, List.length_map, hF]) (by
              intro n
              have := hlink i _ (List.getElem?_eq_getElem hi') (ι := Unit) Finset.univ (fun _ => 1) (fun _ => i) (fun _ _ => hi)
                ((hphys f hf).imp (fun s s' h n => by simpa using h i n)) n
              rw [this]
              simp [hi])
          rw [h3]
          simp
        · rw [List.getElem?_eq_none (by omega), List.getElem?_eq_none (by omega)]
      rw [h', hco]
      simp only [hwin]
  clear hclock hphys
  suffices h : eachFreq cal S' o freqs heap = eachFreq cal S o freqs heap by unfold impedance; rw [h]
  induction freqs generalizing heap with
  | nil => rfl
  | cons f l ih =>
    simp only [eachFreq]
    rw [key f (by simp) heap]
    rcases oneFreq cal S f o heap with ⟨x | r, g⟩
    · rfl
    · simp only
      rw [ih g (fun f hf => key f (by simp [hf]))]

/-! C90 -/

/-- **C90.** `transfer_function` with the weight functions of the library: in other units of the outputs (each multiplied by
its own non-zero constant) and for other axes of the inputs (input `j` replaced by the combination of the inputs with row `j`
of an invertible matrix), the result is the one converted, the same indices are rejected, and the same errors are raised.  An
initial guess is converted in the same way. -/
theorem C90_transfer_function {𝕜 : Type} [RCLike 𝕜] {q : ℕ} (A : Matrix (Fin q) (Fin q) 𝕜) (hA : A.det ≠ 0)
    (l : List (Option Weights.Obj)) (outputs : List (List 𝕜)) (cs : List 𝕜) (hcs : cs.length = outputs.length)
    (hc : ∀ c ∈ cs, c ≠ 0) (N : ℕ) (inputs inputs' : Fin q → List 𝕜) (hin : Mixed A N inputs inputs')
    (init : Option (List (Fin q → 𝕜))) (hinit : ∀ z, init = some z → z.length = outputs.length) (inv : InvArg) (o : MEst.Opts)
    (heap heap' : ℕ → Weights.Mem) :
    (transferFunction (List.zipWith (fun c y => y.map (fun v => c * v)) cs outputs) inputs' (Weights.weighting l)
        (init.map (fun z => List.zipWith (fun c t => converted c A t) cs z)) inv o heap').1 =
      (transferFunction outputs inputs (Weights.weighting l) init inv o heap).1.map (fun res =>
        List.zipWith (fun c p => (p.1.map (converted c A), p.2)) cs res) := by
  refine transferFunction_mix hA ?_ outputs cs hcs hc hin init hinit inv o heap heap'
  intro i wf hm
  unfold Weights.weighting at hm
  obtain ⟨p, -, hp⟩ := List.mem_map.1 hm
  obtain ⟨w, -, hw⟩ := Option.map_eq_some_iff.1 hp
  simp only [Prod.mk.injEq] at hw
  obtain ⟨-, rfl⟩ := hw
  exact obj_unitFree w

theorem axesChanged_nans {q n m : ℕ} (A : Matrix (Fin q) (Fin q) ℂ) : AxesChanged A (nans n m) (nans n m) := by
  refine ⟨rfl, ?_⟩
  intro i z h
  rcases Nat.eq_zero_or_pos q with rfl | hq
  · simpa using h
  · exfalso
    have hi := (List.getElem?_eq_some_iff.1 h).1
    rw [List.getElem?_eq_getElem hi, Option.some.injEq] at h
    simp only [nans, List.getElem_replicate] at h
    have h2 := congrArg List.length h
    simp only [List.length_replicate, List.length_map, List.length_ofFn] at h2
    have h3 := congrArg (fun l => l[0]?) h
    simp [h2, hq] at h3

theorem axesChanged_rows {q : ℕ} (A : Matrix (Fin q) (Fin q) ℂ) (zs : List (Fin q → ℂ)) :
    AxesChanged A (zs.map (fun r => (List.ofFn r).map some)) ((zs.map (converted 1 A)).map (fun r => (List.ofFn r).map some)) := by
  refine ⟨by simp, ?_⟩
  intro i z h
  rw [List.getElem?_map, Option.map_eq_some_iff] at h
  obtain ⟨z', hz', h⟩ := h
  have : z' = z := by
    have h2 := List.map_injective_iff.2 (Option.some_injective _) h
    exact List.ofFn_injective h2
  subst this
  rw [List.getElem?_map, List.getElem?_map, hz']
  rfl

theorem zipWith_unit {β : Type} (f : ℂ → β → β) (idx : List ℕ) (l : List β) (hl : l.length = idx.length) :
    List.zipWith f (idx.map (fun _ => (1 : ℂ))) l = l.map (f 1) := by
  apply List.ext_getElem
  · simp [hl]
  · intro i h1 h2
    simp

theorem rows_no_nan {β : Type} {q : ℕ} (zs : List (Fin q → β)) : ¬ ∃ row ∈ zs.map (fun r => (List.ofFn r).map some), none ∈ row := by
  rintro ⟨row, hr, hn⟩
  obtain ⟨z, -, rfl⟩ := List.mem_map.1 hr
  simp at hn

/-- **C90.** Other magnetic axes, without remote: if magnetic channel `j` is replaced by the combination of the magnetic
channels with row `j` of an invertible matrix, in physical units, the impedance is the same tensor for the new axes (its rows
multiplied by the inverse), the same times are rejected, and the same failures give NaN or raise the same error. -/
theorem C90_axes [One κ] (cal : κ → ℚ → Option ℂ) (S S' : SigSet ℂ κ) (hS : Reach S) (hS' : Reach S')
    (htags : S'.tags = S.tags) (freq : ℚ) (o : Impedance.Opts σ) (E B : List ℕ) (hc : Channels S o E B none)
    (A : Matrix (Fin B.length) (Fin B.length) ℂ) (hA : A.det ≠ 0)
    (hclock : List.Forall₂ (SameClock cal freq) S.runs S'.runs)
    (hE : List.Forall₂ (fun s s' => ∀ i ∈ E, ∀ n, physical cal freq s' i n = physical cal freq s i n) S.runs S'.runs)
    (hB : List.Forall₂ (fun s s' => ∀ j n, physical cal freq s' B[j] n = ∑ k, A j k * physical cal freq s B[k] n) S.runs S'.runs)
    (hws : AllUnitFree o.weights) (hpre : PreUnitFree o.prefilter) (heap heap' : ℕ → σ) :
    (∃ x, (oneFreq cal S freq o heap).1 = .error x ∧ (oneFreq cal S' freq o heap').1 = .error x) ∨
    ∃ r r', (oneFreq cal S freq o heap).1 = .ok r ∧ (oneFreq cal S' freq o heap').1 = .ok r' ∧
      AxesChanged A r.impedance r'.impedance ∧ r'.invalidTime = r.invalidTime ∧
      ((∃ row ∈ r.impedance, none ∈ row) → r' = r) := by
  have hc' : Channels S' o E B none := ⟨by rw [htags]; exact hc.elec, by rw [htags]; exact hc.mag, by rw [htags]; exact hc.remote⟩
  cases h : setCoeffs cal S freq o.nper o.overlap o.win with
  | error x =>
    obtain ⟨x', h'⟩ := setCoeffs_error_of hS hS' hclock h
    rw [oneFreq_fourier hc h, oneFreq_fourier hc' h']
    exact .inr ⟨_, _, rfl, rfl, axesChanged_nans A, rfl, fun _ => rfl⟩
  | ok p =>
    obtain ⟨co, w⟩ := p
    obtain ⟨co', h', hlen, hwin, hlink⟩ := setCoeffs_linked hS hS' hclock h
    obtain ⟨hch, failed, hf, h1⟩ := oneFreq_local hS hc h heap
    obtain ⟨hch', failed', hf', h1'⟩ := oneFreq_local hS' hc' h' heap'
    have hsc : ∀ i ∈ E, co'.getD i [] = (co.getD i []).map (fun v => (1 : ℂ) * v) := by
      intro i hi
      refine chan_scaled (hch i (.inl hi)).2.2 (hch' i (.inl hi)).2.2 ?_
      intro n
      have := hlink i _ (hch' i (.inl hi)).1 (ι := Unit) Finset.univ (fun _ => 1) (fun _ => i) (fun _ _ => (hch i (.inl hi)).2.1)
        (hE.imp (fun s s' h n => by simpa using h i hi n)) n
      simpa using this
    have hmix : Mixed A w.1.sum (fun j => co.getD B[j] []) (fun j => co'.getD B[j] []) := by
      intro j
      have hj := hch B[j] (.inr (List.getElem_mem _))
      have hj' := hch' B[j] (.inr (List.getElem_mem _))
      refine ⟨hj.2.2, hj'.2.2, ?_⟩
      intro n hn
      exact hlink B[j] _ hj'.1 Finset.univ (A j) (fun k : Fin B.length => B[k])
        (fun k _ => (hch B[k] (.inr (List.getElem_mem _))).2.1) (hB.imp (fun s s' h n => h j n)) n
    rw [h1, h1', hwin, scaleAll_map (fun _ => (1 : ℂ)) E (fun i => co.getD i []) (fun i => co'.getD i []) hsc, hf', ← hf]
    rcases secondStageQ_mix hws hpre hA (e := E.map (fun i => co.getD i [])) (cs := E.map (fun _ => (1 : ℂ))) (by simp) (by simp)
      hmix (windows S w) .none (List.replicate B.length []) (List.replicate B.length []) failed failed heap heap' with
      ⟨x, g1, g2⟩ | ⟨g1, g2⟩ | ⟨z, iv, err, err', g0, g1, g2, -⟩
    · exact .inl ⟨x, g1, g2⟩
    · refine .inr ⟨_, _, g1, g2, ?_, rfl, fun _ => rfl⟩
      rw [hf]
      exact axesChanged_nans A
    · refine .inr ⟨_, _, g1, g2, ?_, rfl, fun h => absurd h (rows_no_nan z)⟩
      simp only
      rw [zipWith_unit (fun c z => converted c A z) E z (by simpa using g0)]
      exact axesChanged_rows A z

/-- **C90.** Other remote axes: if remote channel `j` is replaced by the combination of the remote channels with row `j` of
an invertible matrix, in physical units, impedance, error and rejected times are the same; only the transfer to the remote
changes, to the new axes. -/
theorem C90_remote_axes [One κ] (cal : κ → ℚ → Option ℂ) (S S' : SigSet ℂ κ) (hS : Reach S) (hS' : Reach S')
    (htags : S'.tags = S.tags) (freq : ℚ) (o : Impedance.Opts σ) (E B R : List ℕ) (hc : Channels S o E B (some R))
    (A : Matrix (Fin R.length) (Fin R.length) ℂ) (hA : A.det ≠ 0)
    (hclock : List.Forall₂ (SameClock cal freq) S.runs S'.runs)
    (hEB : List.Forall₂ (fun s s' => ∀ i, i ∈ E ∨ i ∈ B → ∀ n, physical cal freq s' i n = physical cal freq s i n) S.runs S'.runs)
    (hR : List.Forall₂ (fun s s' => ∀ j n, physical cal freq s' R[j] n = ∑ k, A j k * physical cal freq s R[k] n) S.runs S'.runs)
    (hws : AllUnitFree o.weights) (hwr : AllUnitFree (firstWeights o)) (hpre : PreUnitFree o.prefilter)
    (hprer : PreUnitFree (firstPrefilter o)) (heap heap' : ℕ → σ) :
    (∃ x, (oneFreq cal S freq o heap).1 = .error x ∧ (oneFreq cal S' freq o heap').1 = .error x) ∨
    ∃ r r', (oneFreq cal S freq o heap).1 = .ok r ∧ (oneFreq cal S' freq o heap').1 = .ok r' ∧
      r'.impedance = r.impedance ∧ r'.error = r.error ∧ r'.invalidTime = r.invalidTime ∧
      AxesChanged A r.transferMag r'.transferMag ∧ ((∃ row ∈ r.impedance, none ∈ row) → r' = r) := by
  have hc' : Channels S' o E B (some R) :=
    ⟨by rw [htags]; exact hc.elec, by rw [htags]; exact hc.mag, by rw [htags]; exact hc.remote⟩
  cases h : setCoeffs cal S freq o.nper o.overlap o.win with
  | error x =>
    obtain ⟨x', h'⟩ := setCoeffs_error_of hS hS' hclock h
    rw [oneFreq_fourier hc h, oneFreq_fourier hc' h']
    exact .inr ⟨_, _, rfl, rfl, rfl, rfl, rfl, axesChanged_nans A, fun _ => rfl⟩
  | ok p =>
    obtain ⟨co, w⟩ := p
    obtain ⟨co', h', hlen, hwin, hlink⟩ := setCoeffs_linked hS hS' hclock h
    obtain ⟨hch, hB0, failed, hf, h1⟩ := oneFreq_remote hS hc h heap
    obtain ⟨hch', -, failed', hf', h1'⟩ := oneFreq_remote hS' hc' h' heap'
    have hsc : ∀ i, i ∈ E ∨ i ∈ B → co'.getD i [] = (co.getD i []).map (fun v => (1 : ℂ) * v) := by
      intro i hi
      have hi3 : i ∈ E ∨ i ∈ B ∨ i ∈ R := by tauto
      refine chan_scaled (hch i hi3).2.2 (hch' i hi3).2.2 ?_
      intro n
      have := hlink i _ (hch' i hi3).1 (ι := Unit) Finset.univ (fun _ => 1) (fun _ => i) (fun _ _ => (hch i hi3).2.1)
        (hEB.imp (fun s s' h n => by simpa using h i hi n)) n
      simpa using this
    have hmix : Mixed A w.1.sum (fun j => co.getD R[j] []) (fun j => co'.getD R[j] []) := by
      intro j
      have hj := hch R[j] (.inr (.inr (List.getElem_mem _)))
      have hj' := hch' R[j] (.inr (.inr (List.getElem_mem _)))
      refine ⟨hj.2.2, hj'.2.2, ?_⟩
      intro n hn
      exact hlink R[j] _ hj'.1 Finset.univ (A j) (fun k : Fin R.length => R[k])
        (fun k _ => (hch R[k] (.inr (.inr (List.getElem_mem _)))).2.1) (hR.imp (fun s s' h n => h j n)) n
    rw [h1, h1', hwin, scaleAll_map (fun _ => (1 : ℂ)) E (fun i => co.getD i []) (fun i => co'.getD i []) (fun i hi => hsc i (.inl hi)),
      scaleAll_map (fun _ => (1 : ℂ)) B (fun i => co.getD i []) (fun i => co'.getD i []) (fun i hi => hsc i (.inr hi)), hf', ← hf]
    rcases remoteStages_mix hws hwr hpre hprer hA (e := E.map (fun i => co.getD i [])) (b := B.map (fun i => co.getD i []))
      (ce := E.map (fun _ => (1 : ℂ))) (cb := B.map (fun _ => (1 : ℂ))) (by simp) (by simp) (by simp) (by simp) (by simpa using hB0)
      hmix (windows S w) failed heap heap' with ⟨x, g1, g2⟩ | ⟨g1, g2⟩ | ⟨z, iv, err, T, g0, g3, g4, g1, g2⟩
    · exact .inl ⟨x, g1, g2⟩
    · refine .inr ⟨_, _, g1, g2, rfl, rfl, rfl, ?_, fun _ => rfl⟩
      rw [hf]
      exact axesChanged_nans A
    · refine .inr ⟨_, _, g1, g2, ?_, ?_, rfl, ?_, fun h => absurd h (rows_no_nan z)⟩
      · simp only
        rw [zipWith_unit (fun c (z : Fin (B.map (fun _ => (1 : ℂ))).length → ℂ) j => c * (z j / (B.map (fun _ => (1 : ℂ)))[j])) E z
          (by simpa using g0)]
        simp
      · simp only
        rw [zipWith_unit (fun c (z : Fin (B.map (fun _ => (1 : ℂ))).length → Flt) j => Flt.mul (.fin ‖c‖) (Flt.div (z j) (.fin ‖(B.map (fun _ => (1 : ℂ)))[j]‖))) E err
          (by simpa using g3)]
        simp [Flt.mul_div_eq, Flt.one_mul']
      · simp only
        rw [zipWith_unit (fun c z => converted c A z) B T (by simpa using g4)]
        exact axesChanged_rows A T

/-! C91 -/

theorem combine_eq_sum (co : List (List ℂ)) (B : List ℕ) (c : List ℂ) (hc : c.length = B.length) (n : ℕ) :
    combine (B.map (fun i => co.getD i [])) c n = ∑ k : Fin B.length, c.getD k 0 * (co.getD B[k] []).getD n 0 := by
  unfold combine
  rw [List.zipWith_map_right]
  induction B generalizing c with
  | nil => simp
  | cons b B ih =>
    cases c with
    | nil => simp at hc
    | cons a c =>
      rw [List.zipWith_cons_cons, List.sum_cons, ih c (by simpa using hc)]
      exact (Fin.sum_univ_succ (n := B.length)
        (fun k => (a :: c).getD k 0 * (co.getD ((b :: B)[k]) []).getD n 0)).symm

/-- **C91.** Without remote: if in every run each electric channel is, sample by sample and in physical units, the
combination of the magnetic channels with the coefficients of a row of `z`, least squares returns exactly `z`, at every
frequency where the coefficients exist and those of the magnetic channels are independent on the windows kept by the
prefilter. -/
theorem C91_exact_from_samples [One κ] (cal : κ → ℚ → Option ℂ) (S : SigSet ℂ κ) (hS : Reach S) (freq : ℚ) (o : Impedance.Opts σ)
    (hw : o.weights = [none]) (hrp : o.realPb = false) (E B : List ℕ) (hc : Channels S o E B none)
    (z : List (List ℂ)) (hzl : z.length = E.length) (hz : ∀ c ∈ z, c.length = B.length)
    (hex : ∀ s ∈ S.runs, ∀ (i : ℕ) c, z[i]? = some c → ∀ n, physical cal freq s (E.getD i 0) n =
      ∑ k : Fin B.length, c.getD k 0 * physical cal freq s B[k] n)
    (co : List (List ℂ)) (w : List ℕ × List ℕ × List ℕ) (hf : setCoeffs cal S freq o.nper o.overlap o.win = .ok (co, w))
    (rej : List (List ℕ))
    (hr : List.Forall₂ (fun line l => Rejects o.prefilter line (B.map (fun i => co.getD i [])) l) (E.map (fun i => co.getD i [])) rej)
    (hrN : ∀ l ∈ rej, ∀ i ∈ l, i < w.1.sum)
    (hind : ∀ l ∈ rej, ChansIndependent (B.map (fun i => co.getD i [])) w.1.sum l) (heap : ℕ → σ) :
    ∃ r, oneFreq cal S freq o heap = (.ok r, heap) ∧ r.impedance = z.map (fun row => row.map some) := by
  obtain ⟨e, b, br, he, hb, -, -, -, hle, hlb⟩ := reach_chans hS hc hf
  obtain ⟨he1, he2⟩ := picked_eq he
  obtain ⟨hb1, hb2⟩ := picked_eq hb
  have hself : List.Forall₂ (SameClock cal freq) S.runs S.runs := List.forall₂_same.2 (fun s _ => ⟨rfl, rfl, rfl, rfl, Iff.rfl⟩)
  obtain ⟨co', h', -, -, hlink⟩ := setCoeffs_linked hS hS hself hf
  rw [hf] at h'
  simp only [Except.ok.injEq, Prod.mk.injEq, and_true] at h'
  subst h'
  rw [← he1, ← hb1] at hr
  rw [← hb1] at hind
  refine C62_local_exact cal S hS freq o hw hrp E B hc co w hf e b he hb rej hr hrN z (by rw [hzl, he1, List.length_map])
    (by rw [hb1, List.length_map]; exact hz) hind ?_ heap
  intro i y c l hy hci _ n _ _
  have hi : i < E.length := by
    have := (List.getElem?_eq_some_iff.1 hci).1
    omega
  have hEi : E.getD i 0 = E[i] := getD_get hi
  have hym : co[E[i]]? = some y := by
    rw [(he2 E[i] (List.getElem_mem hi)).1, ← hy, he1, List.getElem?_map, List.getElem?_eq_getElem hi]
    rfl
  rw [hlink E[i] y hym Finset.univ (fun k : Fin B.length => c.getD k 0) (fun k => B[k])
    (fun k _ => (hb2 _ (List.getElem_mem _)).2)
    (List.forall₂_same.2 (fun s hs n => by rw [← hEi]; exact hex s hs i c hci n)) n, hb1,
    combine_eq_sum co B c (hz c (List.mem_of_getElem? hci)) n]

/-! Concrete cases. -/

local instance instOneUnits : One Unit := ⟨()⟩

/-- The tones with another unit of the electric channel, and the magnetic one divided by 2. -/
noncomputable def exTones' : SigSet ℂ Unit :=
  ⟨[⟨[(tone 6 0 (1 / 4) 8).map (fun v => 1000 * v), (tone 3 0 (1 / 4) 8).map (fun v => 1 / 2 * v), tone 1 0 (1 / 4) 8],
    [(), (), ()], 1, 0, 8⟩], ⟨3, [("E", [0]), ("B", [1]), ("R", [2])]⟩⟩

theorem exTones'_reach : Reach exTones' := by
  refine Reach.new (.dict [("E", .int 0), ("B", .int 1), ("R", .int 2)])
    [.sync ⟨[(tone 6 0 (1 / 4) 8).map (fun v => 1000 * v), (tone 3 0 (1 / 4) 8).map (fun v => 1 / 2 * v), tone 1 0 (1 / 4) 8],
      [(), (), ()], 1, 0, 8⟩] ?_ (by simp) ?_
  · simp only [List.mem_singleton, SigArg.sync.injEq, forall_eq]
    exact ⟨by simp, by simp, by simp [tone]⟩
  · with_unfolding_all rfl

/-- The factors. -/
noncomputable def exFactors (i : ℕ) : ℂ := if i = 0 then 1000 else if i = 1 then 1 / 2 else 1

theorem getD_scaled (c : ℂ) (l : List ℂ) (n : ℕ) : (l.map (fun v => c * v)).getD n 0 = c * l.getD n 0 := by
  simp only [List.getD_eq_getElem?_getD, List.getElem?_map]
  cases l[n]? <;> simp

theorem exTones'_physical : List.Forall₂ (fun s s' => ∀ i n, physical (fun (_ : Unit) _ => some 1) (1 / 4) s' i n =
    exFactors i * physical (fun (_ : Unit) _ => some 1) (1 / 4) s i n) exTones.runs exTones'.runs := by
  refine .cons ?_ .nil
  intro i n
  match i with
  | 0 =>
    have := getD_scaled 1000 (tone 6 0 (1 / 4) 8) n
    simpa [physical, exFactors] using this
  | 1 =>
    have := getD_scaled (1 / 2) (tone 3 0 (1 / 4) 8) n
    simpa [physical, exFactors] using this
  | 2 => simp [physical, exFactors]
  | i + 3 => simp [physical]

/-- The hypotheses of C89 are met; the impedance 2 becomes 4000, the transfer 3 becomes 3/2. -/
example : ∃ r, (oneFreq (fun _ _ => some 1) exTones' (1 / 4) exOpts (fun _ => ())).1 = .ok r ∧
    r.impedance = [[some 4000]] ∧ r.transferMag = [[some (3 / 2)]] := by
  obtain ⟨r, h1, h2, h3⟩ := exTones_result
  have hu : ∀ i, exFactors i ≠ 0 := by
    intro i
    unfold exFactors
    split
    · norm_num
    · split <;> norm_num
  have h := C89_one_frequency (fun _ _ => some 1) exTones exTones' exTones_reach exTones'_reach rfl (1 / 4) exFactors hu
    (.cons ⟨rfl, rfl, rfl, rfl, by simp⟩ .nil) exTones'_physical exOpts (by simp [AllUnitFree, exOpts])
    (by simp [AllUnitFree, exOpts, firstWeights]) (by simp [PreUnitFree, exOpts]) (by simp [PreUnitFree, exOpts, firstPrefilter])
    [0] [1] (some [2]) exTones_channels (fun _ => ()) (fun _ => ())
  rw [h1] at h
  refine ⟨_, h, ?_, ?_⟩
  · simp [inUnits, h2, rescale, exFactors]
    norm_num
  · simp [inUnits, h3, rescale, exFactors]
    norm_num

/-- Weight functions of the library: least squares, then Huber, then bounded influence with Thomson. -/
noncomputable def exLibrary : Impedance.Weights Weights.Mem :=
  [none, some (0, fun _ => (Weights.Obj.base (.huber 1.5)).call), some (1, fun _ => (Weights.Obj.bis (.thomson none) 1 2).call)]

example : AllUnitFree exLibrary := by
  refine C89_library.1 exLibrary ?_
  intro i wf h
  simp only [exLibrary, List.mem_cons, reduceCtorEq, Option.some.injEq, Prod.mk.injEq, List.not_mem_nil, or_false, false_or] at h
  rcases h with ⟨-, rfl⟩ | ⟨-, rfl⟩
  · exact ⟨_, fun _ => rfl⟩
  · exact ⟨_, fun _ => rfl⟩

example : PreUnitFree (some (fun _ => Prefilter.call 0.8 1 5)) :=
  C89_library.2 _ (fun p hp => ⟨0.8, 1, 5, fun q => by rw [← Option.some.inj hp]⟩)

/-- Two magnetic and two remote channels. -/
noncomputable def exAxes : SigSet ℂ Unit :=
  ⟨[⟨[[1, 2, 3, 4], [5, 6, 7, 8], [9, 10, 11, 13], [1, 0, 1, 0], [0, 1, 0, 1]], [(), (), (), (), ()], 1, 0, 4⟩],
    ⟨5, [("E", [0]), ("B", [1, 2]), ("R", [3, 4])]⟩⟩

/-- The magnetic channels exchanged. -/
noncomputable def exAxesB : SigSet ℂ Unit :=
  ⟨[⟨[[1, 2, 3, 4], [9, 10, 11, 13], [5, 6, 7, 8], [1, 0, 1, 0], [0, 1, 0, 1]], [(), (), (), (), ()], 1, 0, 4⟩],
    ⟨5, [("E", [0]), ("B", [1, 2]), ("R", [3, 4])]⟩⟩

/-- The remote channels replaced by their sum and difference. -/
noncomputable def exAxesR : SigSet ℂ Unit :=
  ⟨[⟨[[1, 2, 3, 4], [5, 6, 7, 8], [9, 10, 11, 13], [1, 1, 1, 1], [1, -1, 1, -1]], [(), (), (), (), ()], 1, 0, 4⟩],
    ⟨5, [("E", [0]), ("B", [1, 2]), ("R", [3, 4])]⟩⟩

theorem exAxes_new (l : List (List ℂ)) (hl : l.length = 5) (h4 : ∀ y ∈ l, y.length = 4) :
    Reach (κ := Unit) ⟨[⟨l, [(), (), (), (), ()], 1, 0, 4⟩], ⟨5, [("E", [0]), ("B", [1, 2]), ("R", [3, 4])]⟩⟩ := by
  refine Reach.new (.dict [("E", .int 0), ("B", .tup [1, 2]), ("R", .tup [3, 4])])
    [.sync ⟨l, [(), (), (), (), ()], 1, 0, 4⟩] ?_ (by simp) ?_
  · simp only [List.mem_singleton, SigArg.sync.injEq, forall_eq]
    exact ⟨by intro h; have h : l = [] := h; rw [h] at hl; exact absurd hl (by decide), by rw [hl]; rfl, h4⟩
  · match l, hl with
    | [a, b, c, d, e], _ => with_unfolding_all rfl

/-- The hypotheses of C90 are met by exchanging the magnetic channels, or replacing the remote ones by sum and
difference. -/
example : (Reach exAxes ∧ Reach exAxesB ∧ Channels exAxes { exOpts with remote := none } [0] [1, 2] none ∧
      !![(0 : ℂ), 1; 1, 0].det ≠ 0 ∧
      List.Forall₂ (fun s s' => ∀ (j : Fin 2) n, physical (fun (_ : Unit) _ => some 1) (1 / 4) s' ([1, 2][j]) n =
        ∑ k : Fin 2, !![(0 : ℂ), 1; 1, 0] j k * physical (fun (_ : Unit) _ => some 1) (1 / 4) s ([1, 2][k]) n) exAxes.runs exAxesB.runs) ∧
    Reach exAxesR ∧ Channels exAxes exOpts [0] [1, 2] (some [3, 4]) ∧ !![(1 : ℂ), 1; 1, -1].det ≠ 0 ∧
      List.Forall₂ (fun s s' => ∀ (j : Fin 2) n, physical (fun (_ : Unit) _ => some 1) (1 / 4) s' ([3, 4][j]) n =
        ∑ k : Fin 2, !![(1 : ℂ), 1; 1, -1] j k * physical (fun (_ : Unit) _ => some 1) (1 / 4) s ([3, 4][k]) n) exAxes.runs exAxesR.runs := by
  refine ⟨⟨exAxes_new _ rfl (by simp), exAxes_new _ rfl (by simp), ⟨rfl, rfl, .inl ⟨.inl rfl, rfl⟩⟩, ?_, ?_⟩, exAxes_new _ rfl (by simp),
    ⟨rfl, rfl, .inr ⟨"R", [3, 4], rfl, by decide, rfl, rfl⟩⟩, ?_, ?_⟩
  · simp
  · refine .cons ?_ .nil
    intro j n
    fin_cases j <;> simp [physical]
  · rw [Matrix.det_fin_two_of]; norm_num
  · refine .cons ?_ .nil
    intro j n
    match n with
    | 0 | 1 | 2 | 3 => fin_cases j <;> simp [physical]
    | n + 4 => fin_cases j <;> simp [physical]

/-- The hypotheses of C91 are met by the tones: the electric channel is twice the magnetic one. -/
example : ∃ r, oneFreq (fun _ _ => some 1) exTones (1 / 4) { exOpts with remote := none } (fun _ => ()) = (.ok r, fun _ => ()) ∧
    r.impedance = [[some 2]] := by
  obtain ⟨r, h1, h2⟩ := C91_exact_from_samples (fun _ _ => some 1) exTones exTones_reach (1 / 4) { exOpts with remote := none } rfl rfl
    [0] [1] ⟨rfl, rfl, .inl ⟨.inl rfl, rfl⟩⟩ [[2]] rfl (by simp) (by
      intro s hs i c hc n
      have hi := (List.getElem?_eq_some_iff.1 hc).1
      simp only [List.length_singleton, Nat.lt_one_iff] at hi
      subst hi
      simp only [List.getElem?_cons_zero, Option.some.injEq] at hc
      subst hc
      simp only [exTones, List.mem_singleton] at hs
      subst hs
      simp only [List.length_singleton, Finset.univ_unique, Finset.sum_singleton, physical, tone]
      simp [List.getD_eq_getElem?_getD]
      by_cases hn : n < 8
      · simp [hn]
        ring
      · simp [hn]) _ _ exTones_coeffs [[]] (.cons rfl .nil) (by simp) (by
      intro l hl
      rw [List.mem_singleton.1 hl]
      intro t ht hn x hx
      match t, ht with
      | [y], _ =>
        have := hn 0 (by norm_num) (by simp)
        simp only [combine, List.map_cons, List.map_nil, List.zipWith_cons_cons, List.zipWith_nil_left, List.sum_cons, List.sum_nil,
          add_zero, List.getD_cons_zero, List.getD_cons_succ, mul_eq_zero, exUnit_ne, or_false] at this
        rw [List.mem_singleton.1 hx]
        rcases this with h | h
        · exact h
        · norm_num at h) (fun _ => ())
  exact ⟨r, h1, by simpa using h2⟩

end Razorback.Props
