/-
Changes of units and axes in the two stages of the impedance estimation.
-/
import Verif.Lemmas.Units
import Verif.Lemmas.Impedance

namespace Razorback
open Razorback.Spec Razorback.MEst Razorback.Prefilter Razorback.Props Razorback.Impedance

variable {σ : Type}

/-- Every output multiplied by its own constant. -/
noncomputable def scaleAll (cs : List ℂ) (l : List (List ℂ)) : List (List ℂ) := List.zipWith (fun c y => y.map (fun v => c * v)) cs l

noncomputable section

/-- `estimate` for inputs given as a function. -/
def estimateQ (realPb : Bool) (ws : Impedance.Weights σ) (o : MEst.Opts) (outputs : List (List ℂ)) (q : ℕ) (c : Fin q → List ℂ)
    (inv : List (List ℕ)) (heap : ℕ → σ) : Except Err (List (Fin q → ℂ) × List (List ℕ)) × (ℕ → σ) :=
  if realPb then (.error .type, heap)
  else match transferFunction outputs c (ws.at q) none (.each inv) o heap with
    | (.error x, heap) => (.error x, heap)
    | (.ok l, heap) =>
      match l.mapM (fun p => p.1) with
      | none => (.error .type, heap)
      | some z => (.ok (z, l.map Prod.snd), heap)

/-- `secondStage` for inputs given as a function. -/
def secondStageQ (o : Impedance.Opts σ) (wins : List ((ℚ × ℚ) × ℕ × ℕ × ℕ)) (e : List (List ℂ)) (q : ℕ) (c : Fin q → List ℂ) (N : ℕ)
    (ivid1 : InvArg) (T : List (List (Option ℂ))) (failed : Result) (heap : ℕ → σ) : Except Err Result × (ℕ → σ) :=
  match applyPrefilter e (rowsOf c N) (o.prefilter.map (fun p => p q)) ivid1 with
  | .error x => (.error x, heap)
  | .ok inv =>
    match estimateQ o.realPb o.weights o.mest e q c inv heap with
    | (.error x, heap) => if o.silentFail then (.ok failed, heap) else (.error x, heap)
    | (.ok (z, ivid), heap) =>
      let ivt := if o.keepInvalidTimes then ivid.map (timesLine wins) else ivid.map (fun _ => [])
      match transferError e c z ivid with
      | .error x => (.error x, heap)
      | .ok err => (.ok ⟨z.map (fun r => (List.ofFn r).map some), ivt, err.map List.ofFn, T⟩, heap)

theorem estimate_eqQ (realPb : Bool) (ws : Impedance.Weights σ) (o : MEst.Opts) (outputs inputs : List (List ℂ))
    (inv : List (List ℕ)) (heap : ℕ → σ) :
    estimate realPb ws o outputs inputs inv heap = estimateQ realPb ws o outputs inputs.length (cols inputs) inv heap := by
  unfold estimate estimateQ
  cases realPb with
  | true => rfl
  | false =>
    rcases transferFunction outputs (cols inputs) (ws.at inputs.length) none (.each inv) o heap with ⟨x | l, g⟩
    · rfl
    · simp only [Bool.false_eq_true, if_false]
      cases l.mapM (fun p => p.1) <;> rfl

theorem secondStage_eqQ (o : Impedance.Opts σ) (wins : List ((ℚ × ℚ) × ℕ × ℕ × ℕ)) (e be : List (List ℂ))
    (ivid1 : InvArg) (T : List (List (Option ℂ))) (failed : Result) (heap : ℕ → σ) :
    secondStage o wins e be ivid1 T failed heap = secondStageQ o wins e be.length (cols be) (width be) ivid1 T failed heap := by
  unfold secondStage secondStageQ
  have : rows be = rowsOf (cols be) (width be) := rfl
  rw [this]
  cases applyPrefilter e (rowsOf (cols be) (width be)) (o.prefilter.map (fun p => p be.length)) ivid1 with
  | error x => rfl
  | ok inv =>
    simp only [estimate_eqQ]
    rcases estimateQ o.realPb o.weights o.mest e be.length (cols be) inv heap with ⟨x | ⟨z, iv⟩, g⟩
    · rfl
    · simp only
      cases transferError e (cols be) z iv <;> rfl

theorem secondStageQ_cast {o : Impedance.Opts σ} {wins : List ((ℚ × ℚ) × ℕ × ℕ × ℕ)} {e : List (List ℂ)} {q q' : ℕ} (h : q = q')
    {c : Fin q' → List ℂ} {N : ℕ} {ivid1 : InvArg} {T : List (List (Option ℂ))} {failed : Result} {heap : ℕ → σ} :
    secondStageQ o wins e q' c N ivid1 T failed heap =
      secondStageQ o wins e q (fun j => c (Fin.cast h j)) N ivid1 T failed heap := by
  subst h
  rfl

/-- `firstStage` for inputs given as a function, with the transfer as lists. -/
def firstStageQ (o : Impedance.Opts σ) (b : List (List ℂ)) (q : ℕ) (c : Fin q → List ℂ) (N : ℕ) (heap : ℕ → σ) :
    Except Err (Option (List (List (Option ℂ)) × List (List ℂ) × List ℕ)) × (ℕ → σ) :=
  match applyPrefilter b (rowsOf c N) ((firstPrefilter o).map (fun p => p q)) .none with
  | .error x => (.error x, heap)
  | .ok inv =>
    match estimateQ o.realPb (firstWeights o) o.mest b q c inv heap with
    | (.error x, heap) => if o.silentFail then (.ok none, heap) else (.error x, heap)
    | (.ok (T, ivT), heap) => (.ok (some (T.map (fun r => (List.ofFn r).map some),
        T.map (fun t => (List.range N).map (fun n : ℕ => ∑ j, t j * (c j).getD n 0)), ivT.foldl union1d [])), heap)

theorem firstStageQ_cast {o : Impedance.Opts σ} {b : List (List ℂ)} {q q' : ℕ} (h : q = q')
    {c : Fin q' → List ℂ} {N : ℕ} {heap : ℕ → σ} :
    firstStageQ o b q' c N heap = firstStageQ o b q (fun j => c (Fin.cast h j)) N heap := by
  subst h
  rfl

theorem stages_eqQ (o : Impedance.Opts σ) (wins : List ((ℚ × ℚ) × ℕ × ℕ × ℕ)) (e b br : List (List ℂ)) (heap : ℕ → σ) :
    stages o wins e b (some br) heap = match firstStageQ o b br.length (cols br) (width br) heap with
      | (.error x, heap) => (.error x, heap)
      | (.ok none, heap) => (.ok (failedResult e b br.length), heap)
      | (.ok (some (T, be, ivT)), heap) =>
        secondStage o wins e be (.each (List.replicate e.length ivT)) T (failedResult e b br.length) heap := by
  simp only [stages, firstStage_eq, firstStageQ]
  have : rows br = rowsOf (cols br) (width br) := rfl
  rw [this]
  cases applyPrefilter b (rowsOf (cols br) (width br)) ((firstPrefilter o).map (fun p => p br.length)) .none with
  | error x => rfl
  | ok inv =>
    simp only
    have h2 : estimateQ o.realPb (firstWeights o) o.mest b br.length (cols br) inv heap =
      estimate o.realPb (firstWeights o) o.mest b br inv heap := (estimate_eqQ _ _ _ _ _ _ _).symm
    rw [h2]
    rcases estimate o.realPb (firstWeights o) o.mest b br inv heap with ⟨x | ⟨T, ivT⟩, g⟩
    · cases o.silentFail <;> rfl
    · rfl

end

theorem allUnitFree_at {ws : Impedance.Weights σ} (h : AllUnitFree ws) (q : ℕ) : ∀ i wf, some (i, wf) ∈ ws.at q → UnitFree wf := by
  intro i wf hm
  obtain ⟨w, hw, hw'⟩ := List.mem_map.1 hm
  obtain ⟨⟨i', wf'⟩, rfl, hp⟩ := Option.map_eq_some_iff.1 hw'
  simp only [Prod.mk.injEq] at hp
  obtain ⟨rfl, rfl⟩ := hp
  exact h i' wf' hw _

theorem mapM_some_iff {β γ : Type} {f : β → Option γ} {l : List β} {r : List γ} :
    l.mapM f = some r ↔ List.Forall₂ (fun a b => f a = some b) l r := by
  induction l generalizing r with
  | nil =>
    simp only [List.mapM_nil, List.forall₂_nil_left_iff]
    exact ⟨fun h => (Option.some.inj h).symm, fun h => by rw [h]; rfl⟩
  | cons a l ih =>
    rw [List.mapM_cons, List.forall₂_cons_left_iff]
    constructor
    · intro h
      cases ha : f a with
      | none => rw [ha] at h; simp at h
      | some b =>
        cases hl : l.mapM f with
        | none => rw [ha, hl] at h; simp at h
        | some r' =>
          rw [ha, hl] at h
          exact ⟨b, r', rfl, ih.1 hl, by simpa using h.symm⟩
    · rintro ⟨b, r', hb, hr, rfl⟩
      rw [hb, ih.2 hr]
      rfl

theorem estimateQ_mix {ws : Impedance.Weights σ} (hws : AllUnitFree ws) {q : ℕ} {A : Matrix (Fin q) (Fin q) ℂ} (hA : A.det ≠ 0)
    {rp : Bool} {o : MEst.Opts} {outputs : List (List ℂ)} {cs : List ℂ} (hcs : cs.length = outputs.length) (hc : ∀ c ∈ cs, c ≠ 0)
    {N : ℕ} {c c' : Fin q → List ℂ} (hin : Mixed A N c c') {inv : List (List ℕ)} (heap heap' : ℕ → σ) :
    (estimateQ rp ws o (scaleAll cs outputs) q c' inv heap').1 =
      (estimateQ rp ws o outputs q c inv heap).1.map (fun p => (List.zipWith (fun c z => converted c A z) cs p.1, p.2)) ∧
    ∀ p, (estimateQ rp ws o outputs q c inv heap).1 = .ok p → p.1.length = outputs.length ∧ p.2.length = outputs.length := by
  unfold estimateQ
  by_cases hrp : rp = true
  · rw [if_pos hrp, if_pos hrp]; exact ⟨rfl, fun p h => by simp at h⟩
  rw [if_neg hrp, if_neg hrp]
  have ht := transferFunction_mix hA (allUnitFree_at hws q) outputs cs hcs hc hin none (by simp) (.each inv) o heap heap'
  rw [Option.map_none] at ht
  unfold scaleAll
  cases h1 : transferFunction outputs c (ws.at q) none (.each inv) o heap with
  | mk r1 g1 =>
  cases h2 : transferFunction (List.zipWith (fun c y => y.map (fun v => c * v)) cs outputs) c' (ws.at q) none (.each inv) o heap' with
  | mk r2 g2 =>
  rw [h1, h2] at ht
  simp only at ht
  subst ht
  cases r1 with
  | error x => exact ⟨rfl, fun p h => by simp at h⟩
  | ok l =>
    obtain ⟨N', invs, zs, -, hl2, hl3, -, -, -, hloop⟩ := transferFunction_ok h1
    have hl0 := (outputsLoop_ok hloop).1
    have hl : l.length = outputs.length := by
      rw [hl0]
      simp [hl2, hl3]
    have hsnd : (List.zipWith (fun c (p : Option (Fin q → ℂ) × List ℕ) => (Option.map (converted c A) p.1, p.2)) cs l).map Prod.snd = l.map Prod.snd := by
      apply List.ext_getElem
      · simp [hl, hcs]
      · intro i h1 h2
        simp
    have hm : (List.zipWith (fun c (p : Option (Fin q → ℂ) × List ℕ) => (Option.map (converted c A) p.1, p.2)) cs l).mapM (fun p => p.1) =
        Option.map (fun z => List.zipWith (fun c z => converted c A z) cs z) (l.mapM (fun p => p.1)) := by
      have : cs.length = l.length := by rw [hl, hcs]
      clear h1 h2 hl hl0 hcs hloop hsnd hc
      induction l generalizing cs with
      | nil => cases cs <;> rfl
      | cons p l ih =>
        cases cs with
        | nil => simp at this
        | cons c cs =>
          rw [List.zipWith_cons_cons, List.mapM_cons, List.mapM_cons, ih (by simpa using this)]
          cases p.1 with
          | none => rfl
          | some z =>
            cases l.mapM (fun p : Option (Fin q → ℂ) × List ℕ => p.1) <;> rfl
    simp only [Except.map, hm, hsnd]
    cases hz : l.mapM (fun p => p.1) with
    | none => exact ⟨rfl, fun p h => by simp at h⟩
    | some z =>
      refine ⟨rfl, ?_⟩
      intro p h
      simp only [Except.ok.injEq] at h
      subst h
      exact ⟨by rw [← (mapM_some_iff.1 hz).length_eq, hl], by simp [hl]⟩

theorem applyPrefilter_mix {pre : Option Pre} (hp : PreUnitFree pre) {q : ℕ} {A : Matrix (Fin q) (Fin q) ℂ} (hA : A.det ≠ 0)
    {outputs : List (List ℂ)} {cs : List ℂ} (hcs : cs.length = outputs.length) (hc : ∀ c ∈ cs, c ≠ 0)
    {N : ℕ} {c c' : Fin q → List ℂ} (hin : Mixed A N c c') {inv : InvArg} :
    applyPrefilter (scaleAll cs outputs) (rowsOf c' N) (pre.map (fun p => p q)) inv =
      applyPrefilter outputs (rowsOf c N) (pre.map (fun p => p q)) inv := by
  have hl : (scaleAll cs outputs).length = outputs.length := by simp [scaleAll, hcs]
  unfold applyPrefilter
  rw [hl]
  cases inv.norm outputs.length with
  | error x => rfl
  | ok invs =>
    simp only
    split
    · rfl
    · rename_i hinv
      cases pre with
      | none => rfl
      | some p =>
        have hp := hp p rfl q
        simp only [Option.map_some]
        clear hl
        unfold scaleAll
        induction outputs generalizing cs invs with
        | nil => cases cs <;> rfl
        | cons y l ih =>
          cases cs with
          | nil => simp at hcs
          | cons a cs =>
            cases invs with
            | nil => rfl
            | cons v invs =>
              rw [List.zipWith_cons_cons, List.zip_cons_cons, List.zip_cons_cons, mapE, mapE, rowsOf_mix hin]
              rw [hp a A (hc a (by simp)) hA]
              have := ih (by simpa using hcs) (fun c h => hc c (by simp [h])) invs (by simpa using hinv)
              rw [rowsOf_mix hin] at this
              rw [this]

theorem firstStageQ_mix {o : Impedance.Opts σ} (hws : AllUnitFree (firstWeights o)) (hpre : PreUnitFree (firstPrefilter o)) {q : ℕ}
    {A : Matrix (Fin q) (Fin q) ℂ} (hA : A.det ≠ 0)
    {b : List (List ℂ)} {cs : List ℂ} (hcs : cs.length = b.length) (hc : ∀ c ∈ cs, c ≠ 0)
    {N : ℕ} {c c' : Fin q → List ℂ} (hin : Mixed A N c c') (heap heap' : ℕ → σ) :
    (∃ x, (firstStageQ o b q c N heap).1 = .error x ∧ (firstStageQ o (scaleAll cs b) q c' N heap').1 = .error x) ∨
    ((firstStageQ o b q c N heap).1 = .ok none ∧ (firstStageQ o (scaleAll cs b) q c' N heap').1 = .ok none) ∨
    ∃ (T : List (Fin q → ℂ)) (be : List (List ℂ)) (iv : List ℕ), T.length = b.length ∧ be.length = b.length ∧ (∀ y ∈ be, y.length = N) ∧
      (firstStageQ o b q c N heap).1 = .ok (some (T.map (fun r => (List.ofFn r).map some), be, iv)) ∧
      (firstStageQ o (scaleAll cs b) q c' N heap').1 =
        .ok (some ((List.zipWith (fun c z => converted c A z) cs T).map (fun r => (List.ofFn r).map some), scaleAll cs be, iv)) := by
  unfold firstStageQ
  rw [applyPrefilter_mix hpre hA hcs hc hin]
  cases applyPrefilter b (rowsOf c N) ((firstPrefilter o).map (fun p => p q)) .none with
  | error x => exact .inl ⟨x, rfl, rfl⟩
  | ok inv =>
    simp only
    obtain ⟨h, hlen⟩ := estimateQ_mix hws hA (rp := o.realPb) (o := o.mest) hcs hc hin (inv := inv) heap heap'
    generalize estimateQ o.realPb (firstWeights o) o.mest b q c inv heap = y at h hlen ⊢
    generalize estimateQ o.realPb (firstWeights o) o.mest (scaleAll cs b) q c' inv heap' = y' at h ⊢
    obtain ⟨y, g⟩ := y
    obtain ⟨y', g'⟩ := y'
    simp only at h hlen
    subst h
    cases y with
    | error x =>
      simp only [Except.map]
      cases o.silentFail
      · exact .inl ⟨x, rfl, rfl⟩
      · exact .inr (.inl ⟨rfl, rfl⟩)
    | ok p =>
      obtain ⟨T, iv⟩ := p
      obtain ⟨hl, -⟩ := hlen _ rfl
      refine .inr (.inr ⟨T, _, _, hl, ?_, ?_, rfl, ?_⟩)
      · simpa using hl
      · intro y hy
        obtain ⟨t, -, rfl⟩ := List.mem_map.1 hy
        simp
      · simp only [Except.map, Except.ok.injEq, Option.some.injEq, Prod.mk.injEq, true_and, and_true]
        unfold scaleAll
        rw [List.map_zipWith, List.zipWith_map_right]
        congr 1
        funext a t
        rw [List.map_map]
        apply List.map_congr_left
        intro n hn
        have hn := List.mem_range.1 hn
        have := converted_dot a A hA t (fun j => (c j).getD n 0)
        simp only [dotProduct] at this
        simp only [Function.comp, (hin _).2.2 n hn]
        rw [show (∑ x, t x * (c x).getD n 0) = ∑ i, (c i).getD n 0 * t i from Finset.sum_congr rfl (fun i _ => mul_comm _ _),
          ← this]
        exact Finset.sum_congr rfl (fun i _ => mul_comm _ _)

/-- The inputs multiplied by their own constants. -/
theorem mixed_diagonal {q : ℕ} (a : Fin q → ℂ) {N : ℕ} {c : Fin q → List ℂ} (hc : ∀ j, (c j).length = N) :
    Mixed (Matrix.diagonal a) N c (fun j => (c j).map (fun v => a j * v)) := by
  intro j
  refine ⟨hc j, by simp [hc j], ?_⟩
  intro n hn
  rw [Finset.sum_eq_single j]
  · simp only [Matrix.diagonal_apply_eq, List.getD_eq_getElem?_getD, List.getElem?_map]
    rw [List.getElem?_eq_getElem (by rw [hc j]; exact hn)]
    rfl
  · intro i _ hij
    rw [Matrix.diagonal_apply_ne _ hij.symm, zero_mul]
  · simp

theorem converted_diagonal {q : ℕ} (a : Fin q → ℂ) (ha : ∀ j, a j ≠ 0) (c : ℂ) (z : Fin q → ℂ) :
    converted c (Matrix.diagonal a) z = fun j => c * (z j / a j) := by
  have h1 : (Matrix.diagonal a)⁻¹ = Matrix.diagonal (fun j => (a j)⁻¹) :=
    Matrix.inv_eq_right_inv (by
      rw [Matrix.diagonal_mul_diagonal]
      simp only [mul_inv_cancel₀ (ha _)]
      exact Matrix.diagonal_one)
  funext j
  simp only [converted, h1]
  congr 1
  rw [Finset.sum_eq_single j]
  · rw [Matrix.diagonal_apply_eq, div_eq_mul_inv]
  · intro i _ hij
    rw [Matrix.diagonal_apply_ne _ hij, mul_zero]
  · simp

theorem transferError_units {q : ℕ} (outputs : List (List ℂ)) (inputs : Fin q → List ℂ) (transfer : List (Fin q → ℂ))
    (inv : List (List ℕ)) (cs : List ℂ) (hcs : cs.length = outputs.length) (a : Fin q → ℂ) (ha : ∀ j, a j ≠ 0) :
    transferError (scaleAll cs outputs) (fun j => (inputs j).map (fun x => a j * x))
        (List.zipWith (fun c T j => c * (T j / a j)) cs transfer) inv =
      (transferError outputs inputs transfer inv).map (fun E => List.zipWith (fun c row j => Flt.mul (.fin ‖c‖) (Flt.div (row j) (.fin ‖a j‖))) cs E) := by
  have hrows : ∀ N, rowsOf (fun j => (inputs j).map (fun x => a j * x)) N = (rowsOf inputs N).map (fun r j => a j * r j) := by
    intro N
    simp only [rowsOf, List.map_map]
    apply List.map_congr_left
    intro n _
    funext j
    simp only [Function.comp, List.getD_eq_getElem?_getD, List.getElem?_map]
    cases (inputs j)[n]? <;> simp
  have hdet : ∀ N, (gram (rowsOf (fun j => (inputs j).map (fun x => a j * x)) N) none).transpose.det = 0 ↔
      (gram (rowsOf inputs N) none).transpose.det = 0 := by
    intro N
    rw [hrows, gram_scale, Matrix.det_mul, Matrix.det_mul, Matrix.det_diagonal, Matrix.det_diagonal, mul_eq_zero, mul_eq_zero]
    have p1 : ∏ j, a j ≠ 0 := Finset.prod_ne_zero_iff.2 (fun j _ => ha j)
    have p2 : ∏ j, star (a j) ≠ 0 := Finset.prod_ne_zero_iff.2 (fun j _ => star_ne_zero.2 (ha j))
    tauto
  have hany : ∀ n, (scaleAll cs outputs).any (fun l => decide (l.length ≠ n)) = outputs.any (fun l => decide (l.length ≠ n)) := by
    intro n
    have : (scaleAll cs outputs).map List.length = outputs.map List.length := by
      unfold scaleAll
      apply List.ext_getElem
      · simp [hcs]
      · intro i h1 h2
        simp
    have h3 := congrArg (fun m : List ℕ => m.any (fun k => decide (k ≠ n))) this
    simpa only [List.any_map, Function.comp_def] using h3
  have hlen : (scaleAll cs outputs).length = outputs.length := by simp [scaleAll, hcs]
  have hmap : (scaleAll cs outputs).zip ((List.zipWith (fun c T j => c * (T j / a j)) cs transfer).zip inv) =
      (List.zipWith (fun c t => (t.1.map (fun v => c * v), (fun j => c * (t.2.1 j / a j)), t.2.2)) cs (outputs.zip (transfer.zip inv))) := by
    unfold scaleAll
    apply List.ext_getElem
    · simp
      omega
    · intro i h1 h2
      simp only [List.getElem_zip, List.getElem_zipWith]
  unfold transferError
  cases outputs with
  | nil =>
    cases cs with
    | nil => rfl
    | cons c cs => simp at hcs
  | cons y l =>
    cases cs with
    | nil => simp at hcs
    | cons c cs =>
      generalize hout : y :: l = outputs at *
      generalize hcc : c :: cs = cs' at *
      have hs : scaleAll cs' outputs = y.map (fun v => c * v) :: scaleAll cs l := by rw [← hout, ← hcc]; rfl
      rw [hs] at hany hlen hmap ⊢
      simp only [List.length_map, hany, hlen, hdet]
      simp only [← hout]
      simp only [hout]
      split
      · rfl
      · split
        · rfl
        · split
          · rfl
          · simp only [Except.map, Except.ok.injEq]
            rw [hmap, hrows, List.map_zipWith, List.zipWith_map_right]
            congr 1
            funext c t
            have e1 := errorRow_inputs (rowsOf inputs y.length) (t.1.map (fun v => c * v)) (fun j => c * t.2.1 j) t.2.2.length a ha
            have e2 := errorRow_outputs (rowsOf inputs y.length) t.1 t.2.1 t.2.2.length c
            simp only [mul_div_assoc] at e1
            rw [e1, e2]
            funext j
            exact Flt.mul_scaled_div (norm_nonneg c) _

/-- Success and errors of `transfer_error` do not depend on units and axes. -/
theorem transferError_mix {q : ℕ} {A : Matrix (Fin q) (Fin q) ℂ} (hA : A.det ≠ 0) {outputs : List (List ℂ)} {cs : List ℂ}
    (hcs : cs.length = outputs.length) {N : ℕ} {c c' : Fin q → List ℂ} (hin : Mixed A N c c') (z z' : List (Fin q → ℂ))
    (inv : List (List ℕ)) :
    (∃ x, transferError outputs c z inv = .error x ∧ transferError (scaleAll cs outputs) c' z' inv = .error x) ∨
    ∃ err err', transferError outputs c z inv = .ok err ∧ transferError (scaleAll cs outputs) c' z' inv = .ok err' := by
  have hlens : (scaleAll cs outputs).map List.length = outputs.map List.length := by
    unfold scaleAll
    apply List.ext_getElem
    · simp [hcs]
    · intro i h1 h2
      simp
  have hany : ∀ n, (scaleAll cs outputs).any (fun l => decide (l.length ≠ n)) = outputs.any (fun l => decide (l.length ≠ n)) := by
    intro n
    have h3 := congrArg (fun m : List ℕ => m.any (fun k => decide (k ≠ n))) hlens
    simpa only [List.any_map, Function.comp_def] using h3
  have hlen : (scaleAll cs outputs).length = outputs.length := by simp [scaleAll, hcs]
  unfold transferError
  cases outputs with
  | nil =>
    cases cs with
    | nil => exact .inl ⟨_, rfl, rfl⟩
    | cons c cs => simp at hcs
  | cons y l =>
    cases cs with
    | nil => simp at hcs
    | cons a cs =>
      have hs : scaleAll (a :: cs) (y :: l) = y.map (fun v => a * v) :: scaleAll cs l := rfl
      rw [hs] at hany hlen ⊢
      have hcl : (∃ j, (c' j).length ≠ y.length) ↔ ∃ j, (c j).length ≠ y.length := by
        simp only [(hin _).1, (hin _).2.1]
      simp only [List.length_map, hany, hlen, hcl]
      by_cases h1 : q = 0 ∨ (∃ j, (c j).length ≠ y.length) ∨ (y :: l).any (fun l => decide (l.length ≠ y.length)) = true
      · rw [if_pos h1, if_pos h1]; exact .inl ⟨_, rfl, rfl⟩
      rw [if_neg h1, if_neg h1]
      by_cases h2 : inv.length ≠ (y :: l).length
      · rw [if_pos h2, if_pos h2]; exact .inl ⟨_, rfl, rfl⟩
      rw [if_neg h2, if_neg h2]
      have hN : y.length = N := by
        push Not at h1
        have hq : 0 < q := Nat.pos_of_ne_zero h1.1
        rw [← h1.2.1 ⟨0, hq⟩, (hin _).1]
      rw [hN]
      have hdet : (gram (rowsOf c' N) none).transpose.det = 0 ↔ (gram (rowsOf c N) none).transpose.det = 0 := by
        rw [Matrix.det_transpose, Matrix.det_transpose, rowsOf_mix hin, gram_mix_det A hA]
      by_cases h3 : (gram (rowsOf c N) none).transpose.det = 0
      · rw [if_pos h3, if_pos (hdet.2 h3)]; exact .inl ⟨_, rfl, rfl⟩
      · rw [if_neg h3, if_neg (fun h => h3 (hdet.1 h))]; exact .inr ⟨_, _, rfl, rfl⟩

theorem secondStageQ_mix {o : Impedance.Opts σ} (hws : AllUnitFree o.weights) (hpre : PreUnitFree o.prefilter) {q : ℕ}
    {A : Matrix (Fin q) (Fin q) ℂ} (hA : A.det ≠ 0)
    {e : List (List ℂ)} {cs : List ℂ} (hcs : cs.length = e.length) (hc : ∀ c ∈ cs, c ≠ 0)
    {N : ℕ} {c c' : Fin q → List ℂ} (hin : Mixed A N c c') (wins : List ((ℚ × ℚ) × ℕ × ℕ × ℕ)) (inv : InvArg)
    (T T' : List (List (Option ℂ))) (failed failed' : Result) (heap heap' : ℕ → σ) :
    (∃ x, (secondStageQ o wins e q c N inv T failed heap).1 = .error x ∧
      (secondStageQ o wins (scaleAll cs e) q c' N inv T' failed' heap').1 = .error x) ∨
    ((secondStageQ o wins e q c N inv T failed heap).1 = .ok failed ∧
      (secondStageQ o wins (scaleAll cs e) q c' N inv T' failed' heap').1 = .ok failed') ∨
    ∃ (z : List (Fin q → ℂ)) (iv : List (List (Option ℚ))) (err err' : List (Fin q → Flt)), z.length = e.length ∧
      (secondStageQ o wins e q c N inv T failed heap).1 =
        .ok ⟨z.map (fun r => (List.ofFn r).map some), iv, err.map List.ofFn, T⟩ ∧
      (secondStageQ o wins (scaleAll cs e) q c' N inv T' failed' heap').1 =
        .ok ⟨(List.zipWith (fun c z => converted c A z) cs z).map (fun r => (List.ofFn r).map some), iv,
          err'.map List.ofFn, T'⟩ ∧
      ∀ a : Fin q → ℂ, (∀ j, a j ≠ 0) → A = Matrix.diagonal a → (c' = fun j => (c j).map (fun v => a j * v)) →
        err.length = e.length ∧ err' = List.zipWith (fun c row j => Flt.mul (.fin ‖c‖) (Flt.div (row j) (.fin ‖a j‖))) cs err := by
  unfold secondStageQ
  rw [applyPrefilter_mix hpre hA hcs hc hin]
  cases applyPrefilter e (rowsOf c N) (o.prefilter.map (fun p => p q)) inv with
  | error x => exact .inl ⟨x, rfl, rfl⟩
  | ok inv =>
    simp only
    obtain ⟨h, hlen⟩ := estimateQ_mix hws hA (rp := o.realPb) (o := o.mest) hcs hc hin (inv := inv) heap heap'
    generalize estimateQ o.realPb o.weights o.mest e q c inv heap = y at h hlen ⊢
    generalize estimateQ o.realPb o.weights o.mest (scaleAll cs e) q c' inv heap' = y' at h ⊢
    obtain ⟨y, g⟩ := y
    obtain ⟨y', g'⟩ := y'
    simp only at h hlen
    subst h
    cases y with
    | error x =>
      simp only [Except.map]
      cases o.silentFail
      · exact .inl ⟨x, rfl, rfl⟩
      · exact .inr (.inl ⟨rfl, rfl⟩)
    | ok p =>
      obtain ⟨z, iv⟩ := p
      obtain ⟨hl, hiv⟩ := hlen _ rfl
      simp only [Except.map]
      rcases transferError_mix hA hcs hin z (List.zipWith (fun c z => converted c A z) cs z) iv with
        ⟨x, h1, h2⟩ | ⟨err, err', h1, h2⟩
      · rw [h1, h2]; exact .inl ⟨x, rfl, rfl⟩
      · rw [h1, h2]
        refine .inr (.inr ⟨z, _, err, err', hl, rfl, rfl, ?_⟩)
        intro a ha hAa hca
        have h3 := transferError_units e c z iv cs hcs a ha
        subst hca
        rw [show List.zipWith (fun c z => converted c A z) cs z = List.zipWith (fun c (T : Fin q → ℂ) j => c * (T j / a j)) cs z from by
          congr 1
          funext c z
          rw [hAa, converted_diagonal a ha], h3, h1] at h2
        refine ⟨?_, ?_⟩
        · have hh := h1
          unfold transferError at hh
          cases e with
          | nil => simp at hh
          | cons y l =>
            simp only at hh
            split at hh
            · simp at hh
            · split at hh
              · simp at hh
              · split at hh
                · simp at hh
                · simp only [Except.ok.injEq] at hh
                  rw [← hh]
                  simp only [List.length_map, List.length_zip, hl, hiv, List.length_cons]
                  omega
        · simp only [Except.map, Except.ok.injEq] at h2
          exact h2.symm

end Razorback
