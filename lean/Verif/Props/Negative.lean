/-
Property C120: invalid indices counted from the end.
-/
import Verif.Model.Negative
import Verif.Props.Transfer

namespace Razorback.Props
open Razorback Razorback.Spec Razorback.MEst

theorem wrap_ofNat (n i : ℕ) : wrap n (Int.ofNat i) = i := by
  have : ¬ (Int.ofNat i < 0) := by simp
  simp only [wrap, if_neg this]
  rfl

theorem map_wrap_ofNat (n : ℕ) (l : List ℕ) : (l.map Int.ofNat).map (wrap n) = l := by
  rw [List.map_map]
  conv_rhs => rw [← List.map_id l]
  apply List.map_congr_left
  intro i _
  exact wrap_ofNat n i

theorem deleteZ_ofNat {β : Type _} (l : List β) (idx : List ℕ) : deleteZ l (idx.map Int.ofNat) = delete l idx := by
  have h : (idx.map Int.ofNat).any (fun i => decide (i < -(l.length : ℤ))) = false := by
    simp only [List.any_eq_false, List.mem_map, decide_eq_true_eq, forall_exists_index, and_imp, forall_apply_eq_imp_iff₂]
    intro i _ h
    have : (0 : ℤ) ≤ Int.ofNat i := Int.natCast_nonneg i
    omega
  unfold deleteZ
  rw [h, map_wrap_ofNat]
  rfl

theorem eliminateZ_ofNat {β : Type _} (l : List β) (idx : List ℕ) : eliminateZ l (idx.map Int.ofNat) = eliminate l (some idx) := by
  simp only [eliminateZ, eliminate, List.length_map, deleteZ_ofNat]

theorem maxZ_ofNat (l : List ℕ) : maxZ (l.map Int.ofNat) = maxOr0 l := by
  have key : ∀ (l : List ℕ) (a : ℕ), (l.map Int.ofNat).foldl max (Int.ofNat a) = Int.ofNat (l.foldl max a) := by
    intro l
    induction l with
    | nil => intro a; rfl
    | cons b l ih =>
      intro a
      simp only [List.map_cons, List.foldl_cons]
      rw [← ih]
      congr 1
      simp
  cases l with
  | nil => rfl
  | cons a l =>
    simp only [List.map_cons, maxZ, maxOr0, List.foldl_cons, key, Nat.zero_max]
    rfl

theorem foldE_deleteZ_ofNat {β : Type _} (l : List β) (ls : List (List ℕ)) :
    foldE deleteZ l (ls.map (fun v => v.map Int.ofNat)) = foldE delete l ls := by
  induction ls generalizing l with
  | nil => rfl
  | cons v ls ih =>
    simp only [List.map_cons, foldE, deleteZ_ofNat]
    cases delete l v with
    | error x => rfl
    | ok r => exact ih r

theorem mergeInvalidZ_ofNat (ls : List (List ℕ)) : mergeInvalidZ (ls.map (fun v => v.map Int.ofNat)) = mergeInvalid ls := by
  have h : (((ls.map (fun v => v.map Int.ofNat)).map maxZ).sum + ((ls.map (fun v => v.map Int.ofNat)).length : ℤ)).toNat =
      (ls.map maxOr0).sum + ls.length := by
    have : ((ls.map (fun v => v.map Int.ofNat)).map maxZ).sum = ((ls.map maxOr0).sum : ℤ) := by
      induction ls with
      | nil => rfl
      | cons v ls ih => simp only [List.map_cons, List.sum_cons, ih, maxZ_ofNat, Nat.cast_add]
    rw [this, List.length_map]
    omega
  unfold mergeInvalidZ mergeInvalid
  simp only [h, foldE_deleteZ_ofNat]
  rfl

variable {𝕜 : Type} [RCLike 𝕜] {q : ℕ} {σ : Type}

/-- The chain is that of the positions that are meant. -/
theorem chainZ_ok {o : MEst.Opts} {ws : Weighting σ 𝕜 q} {e : List 𝕜} {b : List (Fin q → 𝕜)} {z0 : Option (Fin q → 𝕜)} {inv : List ℤ}
    {heap heap' : ℕ → σ} {l : List ((Fin q → 𝕜) × List ℕ)} (hb : b.length = e.length) (h : chainZ o ws e b z0 inv heap = (.ok l, heap')) :
    chainLoop o ws e b z0 (some (inv.map (wrap e.length))) heap = (.ok l, heap') := by
  have hel : ∀ {β : Type} {x y : List β}, eliminateZ x inv = .ok y → eliminate x (some (inv.map (wrap x.length))) = .ok y := by
    intro β x y h
    unfold eliminateZ deleteZ at h
    unfold eliminate
    simp only [List.length_map]
    split at h
    · rename_i h0
      rw [if_pos h0]
      exact h
    · rename_i h0
      rw [if_neg h0]
      split at h
      · simp at h
      · exact h
  cases ws with
  | nil => exact h
  | cons w ws =>
    unfold chainZ at h
    simp only at h
    cases h1 : eliminateZ e inv with
    | error x => rw [h1] at h; simp at h
    | ok e' =>
    rw [h1] at h
    simp only at h
    cases h2 : eliminateZ b inv with
    | error x => rw [h2] at h; simp at h
    | ok b' =>
    rw [h2] at h
    simp only at h
    have h2' := hel h2
    rw [hb] at h2'
    rw [chainLoop] at h ⊢
    rw [hel h1, h2']
    simpa only [eliminate] using h

theorem oneOutputZ_ok {o : MEst.Opts} {ws : Weighting σ 𝕜 q} {line : List 𝕜} {b : List (Fin q → 𝕜)} {z0 : Option (Fin q → 𝕜)} {inv : List ℤ}
    {heap heap' : ℕ → σ} {p : Option (Fin q → 𝕜) × List ℕ} (hb : b.length = line.length)
    (h : oneOutputZ o ws b line z0 inv heap = (.ok p, heap')) :
    ∃ m, oneOutput o ws b line z0 (inv.map (wrap line.length)) heap = (.ok (p.1, m), heap') := by
  unfold oneOutputZ at h
  unfold oneOutput
  cases h1 : chainZ o ws line b z0 inv heap with
  | mk r hp =>
  rw [h1] at h
  cases r with
  | error x => simp at h
  | ok l =>
  rw [chainZ_ok hb h1]
  simp only at h ⊢
  obtain ⟨m, hm⟩ := C43_total (inv.map (wrap line.length) :: l.map Prod.snd)
  rw [hm]
  cases h2 : mergeInvalidZ (inv :: l.map (fun p => p.2.map Int.ofNat)) with
  | error x => rw [h2] at h; simp at h
  | ok m' =>
    rw [h2] at h
    simp only [Prod.mk.injEq, Except.ok.injEq] at h
    obtain ⟨rfl, rfl⟩ := h
    exact ⟨m, rfl⟩

theorem oneOutputZ_ofNat (o : MEst.Opts) (ws : Weighting σ 𝕜 q) (line : List 𝕜) (b : List (Fin q → 𝕜)) (z0 : Option (Fin q → 𝕜)) (inv : List ℕ)
    (heap : ℕ → σ) : oneOutputZ o ws b line z0 (inv.map Int.ofNat) heap = oneOutput o ws b line z0 inv heap := by
  have hc : chainZ o ws line b z0 (inv.map Int.ofNat) heap = chainLoop o ws line b z0 (some inv) heap := by
    cases ws with
    | nil => rfl
    | cons w ws =>
      rw [chainLoop]
      unfold chainZ
      simp only [eliminateZ_ofNat]
      cases eliminate line (some inv) with
      | error x => rfl
      | ok e =>
      cases eliminate b (some inv) with
      | error x => rfl
      | ok b =>
      simp only
      rw [chainLoop]
      simp only [eliminate]
  unfold oneOutputZ oneOutput
  rw [hc]
  cases chainLoop o ws line b z0 (some inv) heap with
  | mk r hp =>
  cases r with
  | error x => rfl
  | ok l =>
    simp only
    have := mergeInvalidZ_ofNat (inv :: l.map Prod.snd)
    rw [List.map_cons, List.map_map] at this
    rw [← this]
    rfl

theorem outputsLoopZ_ofNat (o : MEst.Opts) (ws : Weighting σ 𝕜 q) (b : List (Fin q → 𝕜)) (l : List (List 𝕜 × Option (Fin q → 𝕜) × List ℕ))
    (heap : ℕ → σ) : outputsLoopZ o ws b (l.map (fun t => (t.1, t.2.1, t.2.2.map Int.ofNat))) heap = outputsLoop o ws b l heap := by
  induction l generalizing heap with
  | nil => rfl
  | cons t l ih =>
    obtain ⟨line, z0, inv⟩ := t
    simp only [List.map_cons, outputsLoopZ, outputsLoop, oneOutputZ_ofNat, ih]
    rfl

/-- **C120.** With indices counted from the start, this is the `transfer_function` of the other properties. -/
theorem C120_nonnegative (outputs : List (List 𝕜)) (inputs : Fin q → List 𝕜) (ws : Weighting σ 𝕜 q) (init : Option (List (Fin q → 𝕜)))
    (inv : List (List ℕ)) (o : MEst.Opts) (heap : ℕ → σ) :
    transferFunctionZ outputs inputs ws init (inv.map (fun l => l.map Int.ofNat)) o heap =
      transferFunction outputs inputs ws init (.each inv) o heap := by
  have hzip : ∀ (outputs : List (List 𝕜)) (i : List (Option (Fin q → 𝕜))) (inv : List (List ℕ)),
      outputs.zip (i.zip (inv.map (fun l => l.map Int.ofNat))) =
        (outputs.zip (i.zip inv)).map (fun t => (t.1, t.2.1, t.2.2.map Int.ofNat)) := by
    intro outputs i inv
    induction outputs generalizing i inv with
    | nil => rfl
    | cons y l ih =>
      cases i with
      | nil => rfl
      | cons a i =>
        cases inv with
        | nil => rfl
        | cons v inv => simp [ih]
  unfold transferFunctionZ transferFunction
  cases inv with
  | nil =>
    cases outputs with
    | nil => rfl
    | cons y ys =>
      have h0 := fun i => hzip (y :: ys) i (List.replicate (y :: ys).length [])
      simp only [List.map_replicate, List.map_nil] at h0
      have e2 : (if ([] : List (List ℕ)).map (fun l => l.map Int.ofNat) = [] then if (y :: ys).length = 0 then .error .index
          else .ok (List.replicate (y :: ys).length []) else .ok (([] : List (List ℕ)).map (fun l => l.map Int.ofNat)) :
            Except Err (List (List ℤ))) = .ok (List.replicate (y :: ys).length []) := by simp
      have e3 : (InvArg.each []).norm (y :: ys).length = .ok (List.replicate (y :: ys).length []) := by simp [InvArg.norm]
      rw [e2, e3]
      simp only [List.length_replicate, h0, outputsLoopZ_ofNat]
      rfl
  | cons v inv =>
    have e1 : (if (v :: inv).map (fun l => l.map Int.ofNat) = [] then if outputs.length = 0 then .error .index
        else .ok (List.replicate outputs.length []) else .ok ((v :: inv).map (fun l => l.map Int.ofNat)) : Except Err (List (List ℤ))) =
        .ok ((v :: inv).map (fun l => l.map Int.ofNat)) := by simp
    rw [e1]
    cases outputs with
    | nil => rfl
    | cons y ys =>
      simp only [InvArg.norm, List.length_map, hzip, outputsLoopZ_ofNat]
      rfl

theorem outputsLoopZ_ok {o : MEst.Opts} {ws : Weighting σ 𝕜 q} {b : List (Fin q → 𝕜)} {n : ℕ} (hb : b.length = n)
    (l : List (List 𝕜 × Option (Fin q → 𝕜) × List ℤ)) (hl : ∀ t ∈ l, t.1.length = n) {heap heap' : ℕ → σ}
    {rs : List (Option (Fin q → 𝕜) × List ℕ)} (h : outputsLoopZ o ws b l heap = (.ok rs, heap')) :
    ∃ rs', outputsLoop o ws b (l.map (fun t => (t.1, t.2.1, t.2.2.map (wrap n)))) heap = (.ok rs', heap') ∧
      rs'.map Prod.fst = rs.map Prod.fst := by
  induction l generalizing heap rs with
  | nil =>
    simp only [outputsLoopZ, Prod.mk.injEq, Except.ok.injEq] at h
    obtain ⟨rfl, rfl⟩ := h
    exact ⟨[], rfl, rfl⟩
  | cons t l ih =>
    obtain ⟨line, z0, inv⟩ := t
    rw [outputsLoopZ] at h
    cases h1 : oneOutputZ o ws b line z0 inv heap with
    | mk r hp =>
    rw [h1] at h
    cases r with
    | error x => simp at h
    | ok p =>
    simp only at h
    cases h2 : outputsLoopZ o ws b l hp with
    | mk r hp2 =>
    rw [h2] at h
    cases r with
    | error x => simp at h
    | ok ps =>
    simp only [Prod.mk.injEq, Except.ok.injEq] at h
    obtain ⟨rfl, rfl⟩ := h
    have hlen : line.length = n := hl (line, z0, inv) (by simp)
    obtain ⟨m, hm⟩ := oneOutputZ_ok (by rw [hb, hlen]) h1
    obtain ⟨rs', h3, h4⟩ := ih (fun t ht => hl t (by simp [ht])) h2
    rw [hlen] at hm
    refine ⟨(p.1, m) :: rs', ?_, by simp [h4]⟩
    simp only [List.map_cons, outputsLoop, hm, h3]

/-- **C120.** Negative indices are excluded like the positions they mean: whenever the call returns, its transfer functions are those
of the call with these positions. -/
theorem C120_transfer (outputs : List (List 𝕜)) (N : ℕ) (hN : ∀ y ∈ outputs, y.length = N) (inputs : Fin q → List 𝕜) (ws : Weighting σ 𝕜 q)
    (init : Option (List (Fin q → 𝕜))) (inv : List (List ℤ)) (o : MEst.Opts) (heap heap' : ℕ → σ)
    (rs : List (Option (Fin q → 𝕜) × List ℕ)) (h : transferFunctionZ outputs inputs ws init inv o heap = (.ok rs, heap')) :
    ∃ rs', transferFunction outputs inputs ws init
        (.each (inv.map (fun l => l.map (fun i : ℤ => (if i < 0 then N + i else i).toNat)))) o heap = (.ok rs', heap') ∧
      rs'.map Prod.fst = rs.map Prod.fst := by
  have hzip : ∀ (outputs : List (List 𝕜)) (i : List (Option (Fin q → 𝕜))) (inv : List (List ℤ)),
      outputs.zip (i.zip (inv.map (fun l => l.map (wrap N)))) =
        (outputs.zip (i.zip inv)).map (fun t => (t.1, t.2.1, t.2.2.map (wrap N))) := by
    clear hN h
    intro outputs i inv
    induction outputs generalizing i inv with
    | nil => rfl
    | cons y l ih =>
      cases i with
      | nil => rfl
      | cons a i =>
        cases inv with
        | nil => rfl
        | cons v inv => simp [ih]
  change ∃ rs', transferFunction outputs inputs ws init (.each (inv.map (fun l => l.map (wrap N)))) o heap = (.ok rs', heap') ∧
      rs'.map Prod.fst = rs.map Prod.fst
  cases inv with
  | nil =>
    have := C120_nonnegative outputs inputs ws init [] o heap
    rw [List.map_nil] at this
    rw [this] at h
    exact ⟨rs, h, rfl⟩
  | cons v inv =>
    unfold transferFunctionZ at h
    unfold transferFunction
    simp only [List.cons_ne_nil, if_false] at h
    simp only [List.map_cons, InvArg.norm]
    cases outputs with
    | nil => simp at h
    | cons y ys =>
      simp only at h ⊢
      have hy := hN y (by simp)
      by_cases h1 : q = 0 ∨ (∃ j, (inputs j).length ≠ y.length) ∨ (y :: ys).any (fun l => decide (l.length ≠ y.length)) = true
      · rw [if_pos h1] at h
        simp at h
      · rw [if_neg h1] at h ⊢
        by_cases h2 : (v :: inv).length ≠ (y :: ys).length
        · rw [if_pos h2] at h
          simp at h
        · rw [if_neg h2] at h
          rw [if_neg (by simpa using h2)]
          have hgen : ∀ i : List (Option (Fin q → 𝕜)), (if i.length ≠ (y :: ys).length then (.error .assertion, heap) else
              outputsLoopZ o ws (rowsOf inputs y.length) ((y :: ys).zip (i.zip (v :: inv))) heap) = (.ok rs, heap') →
              ∃ rs', (if i.length ≠ (y :: ys).length then (.error .assertion, heap) else
                outputsLoop o ws (rowsOf inputs y.length) ((y :: ys).zip (i.zip (v.map (wrap N) :: inv.map (fun l => l.map (wrap N))))) heap) =
                (.ok rs', heap') ∧ rs'.map Prod.fst = rs.map Prod.fst := by
            intro i h
            by_cases h3 : i.length ≠ (y :: ys).length
            · rw [if_pos h3] at h
              simp at h
            · rw [if_neg h3] at h ⊢
              have := hzip (y :: ys) i (v :: inv)
              rw [List.map_cons] at this
              rw [this]
              refine outputsLoopZ_ok (by simp [rowsOf, hy]) _ ?_ h
              intro t ht
              exact hN _ (List.of_mem_zip ht).1
          cases init with
          | none => exact hgen _ h
          | some l => exact hgen _ h

/-! What is reported. -/

theorem mergeInvalidZ_plain {v : List ℤ} {m : List ℕ} (h : mergeInvalidZ [v, []] = .ok m) :
    (∀ i ∈ v, -((maxZ v + 2).toNat : ℤ) ≤ i) ∧ m.Pairwise (· < ·) ∧
      ∀ i, i ∈ m ↔ ∃ j ∈ v, wrap (maxZ v + 2).toNat j = i := by
  have hn : (([v, []].map maxZ).sum + ([v, []].length : ℤ)).toNat = (maxZ v + 2).toNat := by
    simp [maxZ]
  unfold mergeInvalidZ at h
  simp only [hn] at h
  generalize (maxZ v + 2).toNat = M at h ⊢
  simp only [foldE] at h
  cases h1 : deleteZ (List.range M) v with
  | error x => rw [h1] at h; simp at h
  | ok r =>
  rw [h1] at h
  have h2 : deleteZ r [] = .ok r := by
    have := deleteZ_ofNat r []
    rw [List.map_nil] at this
    rw [this, delete_ok]
    exact ⟨by simp, (without_nil r).symm⟩
  simp only [h2] at h
  rw [delete_ok, without_range] at h
  unfold deleteZ at h1
  split at h1
  · simp at h1
  · rename_i h0
    simp only [List.length_range] at h0 h1
    rw [delete_ok, without_range] at h1
    obtain ⟨h3, rfl⟩ := h1
    obtain ⟨-, rfl⟩ := h
    simp only [List.any_eq_true, decide_eq_true_eq, not_exists, not_and, not_lt] at h0
    refine ⟨fun i hi => h0 i hi, List.pairwise_lt_range.sublist List.filter_sublist, ?_⟩
    intro i
    simp only [List.mem_filter, List.mem_range, List.mem_map, decide_eq_true_eq, not_and, not_not]
    constructor
    · rintro ⟨h4, h5⟩
      exact h5 h4
    · rintro ⟨j, hj, rfl⟩
      refine ⟨?_, fun _ => ⟨j, hj, rfl⟩⟩
      have := h3 (wrap M j) (List.mem_map.2 ⟨j, hj, rfl⟩)
      simpa using this

theorem outputsLoopZ_each {o : MEst.Opts} {ws : Weighting σ 𝕜 q} {b : List (Fin q → 𝕜)} (l : List (List 𝕜 × Option (Fin q → 𝕜) × List ℤ))
    {heap : ℕ → σ} {rs : List (Option (Fin q → 𝕜) × List ℕ)} (h : (outputsLoopZ o ws b l heap).1 = .ok rs) :
    List.Forall₂ (fun t r => ∃ heap, (oneOutputZ o ws b t.1 t.2.1 t.2.2 heap).1 = .ok r) l rs := by
  induction l generalizing heap rs with
  | nil =>
    simp only [outputsLoopZ, Except.ok.injEq] at h
    subst h
    exact .nil
  | cons t l ih =>
    obtain ⟨line, z0, inv⟩ := t
    rw [outputsLoopZ] at h
    cases h1 : oneOutputZ o ws b line z0 inv heap with
    | mk r hp =>
    rw [h1] at h
    cases r with
    | error x => simp at h
    | ok p =>
    simp only at h
    cases h2 : outputsLoopZ o ws b l hp with
    | mk r hp2 =>
    rw [h2] at h
    cases r with
    | error x => simp at h
    | ok ps =>
    simp only [Except.ok.injEq] at h
    subst h
    exact .cons ⟨heap, by rw [h1]⟩ (ih (by rw [h2]))

theorem transferFunctionZ_each {outputs : List (List 𝕜)} {inputs : Fin q → List 𝕜} {ws : Weighting σ 𝕜 q}
    {init : Option (List (Fin q → 𝕜))} {inv : List (List ℤ)} {o : MEst.Opts} {heap : ℕ → σ}
    {rs : List (Option (Fin q → 𝕜) × List ℕ)} (h : (transferFunctionZ outputs inputs ws init inv o heap).1 = .ok rs)
    {k : ℕ} {v : List ℤ} {r : Option (Fin q → 𝕜) × List ℕ} (hv : inv[k]? = some v) (hr : rs[k]? = some r) :
    ∃ line b z0 heap, outputs[k]? = some line ∧ b.length = line.length ∧ (oneOutputZ o ws b line z0 v heap).1 = .ok r := by
  cases inv with
  | nil => simp at hv
  | cons v0 inv =>
    unfold transferFunctionZ at h
    simp only [List.cons_ne_nil, if_false] at h
    cases outputs with
    | nil => simp at h
    | cons y ys =>
      simp only at h
      by_cases h1 : q = 0 ∨ (∃ j, (inputs j).length ≠ y.length) ∨ (y :: ys).any (fun l => decide (l.length ≠ y.length)) = true
      · rw [if_pos h1] at h
        simp at h
      · rw [if_neg h1] at h
        by_cases h2 : (v0 :: inv).length ≠ (y :: ys).length
        · rw [if_pos h2] at h
          simp at h
        · rw [if_neg h2] at h
          obtain ⟨i, h⟩ : ∃ i : List (Option (Fin q → 𝕜)), (if i.length ≠ (y :: ys).length then (.error .assertion, heap) else
              outputsLoopZ o ws (rowsOf inputs y.length) ((y :: ys).zip (i.zip (v0 :: inv))) heap).1 = .ok rs := by
            cases init with
            | none => exact ⟨_, h⟩
            | some l => exact ⟨_, h⟩
          by_cases h3 : i.length ≠ (y :: ys).length
          · rw [if_pos h3] at h
            simp at h
          · rw [if_neg h3] at h
            have hf := outputsLoopZ_each _ h
            have hk : k < rs.length := (List.getElem?_eq_some_iff.1 hr).1
            have hl := hf.length_eq
            have hk' : k < ((y :: ys).zip (i.zip (v0 :: inv))).length := by omega
            have hg := hf.get (i := k) hk' hk
            simp only [List.get_eq_getElem, List.getElem_zip] at hg
            obtain ⟨hp, hg⟩ := hg
            have e1 : rs[k] = r := (List.getElem?_eq_some_iff.1 hr).2
            have hkv : k < (v0 :: inv).length := (List.getElem?_eq_some_iff.1 hv).1
            have e2 : (v0 :: inv)[k] = v := (List.getElem?_eq_some_iff.1 hv).2
            have hky : k < (y :: ys).length := by omega
            have hlen : (y :: ys)[k].length = y.length := by
              by_contra hc
              apply h1
              right; right
              rw [List.any_eq_true]
              exact ⟨_, List.getElem_mem hky, by simpa using hc⟩
            refine ⟨(y :: ys)[k], rowsOf inputs y.length, i[k]'(by omega), hp, List.getElem?_eq_getElem hky, by rw [hlen]; simp [rowsOf], ?_⟩
            rw [e1, e2] at hg
            exact hg

theorem oneOutputZ_plain {o : MEst.Opts} {line : List 𝕜} {b : List (Fin q → 𝕜)} {z0 : Option (Fin q → 𝕜)} {v : List ℤ}
    {hp : ℕ → σ} {t : Option (Fin q → 𝕜)} {m : List ℕ} (h1 : (oneOutputZ o [none] b line z0 v hp).1 = .ok (t, m)) :
    mergeInvalidZ [v, []] = .ok m ∧ ∃ e, eliminateZ line v = .ok e ∧ e ≠ [] := by
  unfold oneOutputZ at h1
  cases h3 : chainZ o [none] line b z0 v hp with
  | mk r hp' =>
  rw [h3] at h1
  cases r with
  | error x => simp at h1
  | ok l =>
  simp only at h1
  have hl : (∃ z, l = [(z, [])]) ∧ ∃ e, eliminateZ line v = .ok e ∧ e ≠ [] := by
    unfold chainZ at h3
    simp only at h3
    cases h4 : eliminateZ line v with
    | error x => rw [h4] at h3; simp at h3
    | ok e =>
    rw [h4] at h3
    cases h5 : eliminateZ b v with
    | error x => rw [h5] at h3; simp at h3
    | ok b' =>
    rw [h5] at h3
    simp only [chainLoop, eliminate] at h3
    split at h3
    · simp at h3
    · rename_i h7
      simp only [callEstimate, mEstimate, List.any_nil, Bool.false_eq_true, if_false, List.length_nil, if_true] at h3
      cases h6 : wlse e b' none with
      | error x => rw [h6] at h3; simp at h3
      | ok z =>
        rw [h6] at h3
        simp only [Prod.mk.injEq, Except.ok.injEq] at h3
        exact ⟨⟨z, h3.1.symm⟩, e, rfl, by rintro rfl; simp at h7⟩
  obtain ⟨⟨z, rfl⟩, he⟩ := hl
  simp only [List.map_cons, List.map_nil] at h1
  cases h4 : mergeInvalidZ [v, []] with
  | error x => rw [h4] at h1; simp at h1
  | ok m' =>
    rw [h4] at h1
    simp only [Except.ok.injEq, Prod.mk.injEq] at h1
    exact ⟨by rw [h1.2], he⟩

/-- **C120.** What least squares reports as invalid: the positions that the indices mean in a sequence whose length is the largest
index plus two, not the number of samples. -/
theorem C120_reports (outputs : List (List 𝕜)) (inputs : Fin q → List 𝕜) (init : Option (List (Fin q → 𝕜))) (inv : List (List ℤ))
    (o : MEst.Opts) (heap : ℕ → σ) (rs : List (Option (Fin q → 𝕜) × List ℕ))
    (h : (transferFunctionZ outputs inputs [none] init inv o heap).1 = .ok rs) (k : ℕ) (v : List ℤ) (t : Option (Fin q → 𝕜)) (m : List ℕ)
    (hv : inv[k]? = some v) (hr : rs[k]? = some (t, m)) (top : ℤ) (htop : top ∈ v) (hmax : ∀ i ∈ v, i ≤ top) :
    (∀ i ∈ v, -(top + 2) ≤ i) ∧ m.Pairwise (· < ·) ∧ ∀ i : ℕ, i ∈ m ↔ (i : ℤ) ∈ v ∨ ∃ j ∈ v, j < 0 ∧ (i : ℤ) = top + 2 + j := by
  obtain ⟨line, b, z0, hp, -, -, h1⟩ := transferFunctionZ_each h hv hr
  have hmx : maxZ v = top := by
    have key : ∀ (l : List ℤ) (a : ℤ), a ≤ l.foldl max a ∧ (∀ i ∈ l, i ≤ l.foldl max a) ∧ (l.foldl max a = a ∨ l.foldl max a ∈ l) := by
      intro l
      induction l with
      | nil => intro a; simp
      | cons c l ih =>
        intro a
        obtain ⟨h1, h2, h3⟩ := ih (max a c)
        simp only [List.foldl_cons, List.mem_cons, forall_eq_or_imp]
        refine ⟨le_trans (le_max_left _ _) h1, ⟨le_trans (le_max_right _ _) h1, h2⟩, ?_⟩
        rcases h3 with h3 | h3
        · rcases le_total a c with h4 | h4
          · rw [max_eq_right h4] at h3 ⊢
            exact .inr (.inl h3)
          · rw [max_eq_left h4] at h3 ⊢
            exact .inl h3
        · exact .inr (.inr h3)
    cases v with
    | nil => simp at htop
    | cons a l =>
      obtain ⟨h1, h2, h3⟩ := key l a
      simp only [maxZ]
      apply le_antisymm
      · rcases h3 with h3 | h3
        · rw [h3]; exact hmax a (by simp)
        · exact hmax _ (by simp [h3])
      · rcases List.mem_cons.1 htop with rfl | h4
        · exact h1
        · exact h2 _ h4
  have h2 := (oneOutputZ_plain h1).1
  obtain ⟨h3, h4, h5⟩ := mergeInvalidZ_plain h2
  rw [hmx] at h3
  have htop2 := h3 top htop
  refine ⟨fun i hi => by have := h3 i hi; omega, h4, ?_⟩
  intro i
  rw [h5 i, hmx]
  constructor
  · rintro ⟨j, hj, rfl⟩
    have := h3 j hj
    have := hmax j hj
    by_cases hj0 : j < 0
    · refine .inr ⟨j, hj, hj0, ?_⟩
      simp only [wrap, if_pos hj0]
      omega
    · left
      have : ((wrap (top + 2).toNat j : ℕ) : ℤ) = j := by
        simp only [wrap, if_neg hj0]
        omega
      rw [this]
      exact hj
  · rintro (hi | ⟨j, hj, hj0, hi⟩)
    · refine ⟨i, hi, ?_⟩
      have : ¬ ((i : ℤ) < 0) := by omega
      simp only [wrap, if_neg this]
      omega
    · refine ⟨j, hj, ?_⟩
      have := h3 j hj
      simp only [wrap, if_pos hj0]
      omega

/-- **C120.** When all the indices are negative, least squares never reports them: the call raises, or the last sample was the one
excluded and the first one is reported. -/
theorem C120_from_the_end (outputs : List (List 𝕜)) (inputs : Fin q → List 𝕜) (init : Option (List (Fin q → 𝕜))) (inv : List (List ℤ))
    (o : MEst.Opts) (heap : ℕ → σ) (rs : List (Option (Fin q → 𝕜) × List ℕ))
    (h : (transferFunctionZ outputs inputs [none] init inv o heap).1 = .ok rs) (k : ℕ) (v : List ℤ) (line : List 𝕜) (t : Option (Fin q → 𝕜))
    (m : List ℕ) (hv : inv[k]? = some v) (hl : outputs[k]? = some line) (hr : rs[k]? = some (t, m)) (hne : v ≠ [])
    (hneg : ∀ i ∈ v, i < 0) : (∀ i ∈ v, i = -1) ∧ m = [0] ∧ 1 < line.length := by
  obtain ⟨top, htop, hmax⟩ : ∃ top ∈ v, ∀ i ∈ v, i ≤ top := by
    obtain ⟨top, h1, h2⟩ := Finset.exists_max_image v.toFinset id (by simpa using hne)
    exact ⟨top, by simpa using h1, fun i hi => h2 i (by simpa using hi)⟩
  obtain ⟨h1, h2, h3⟩ := C120_reports outputs inputs init inv o heap rs h k v t m hv hr top htop hmax
  have h4 := h1 top htop
  have h5 := hneg top htop
  have hall : ∀ i ∈ v, i = -1 := by
    intro i hi
    have := h1 i hi
    have := hmax i hi
    omega
  have htop' := hall top htop
  subst htop'
  refine ⟨hall, ?_, ?_⟩
  · refine List.Perm.eq_of_pairwise (le := (· < ·)) (fun x y _ _ h1 h2 => by omega) h2 (List.pairwise_singleton _ _) ?_
    refine (List.perm_ext_iff_of_nodup (h2.imp (fun h => ne_of_lt h)) (List.nodup_singleton 0)).2 ?_
    intro i
    rw [h3 i, List.mem_singleton]
    constructor
    · rintro (hi | ⟨j, hj, -, hi⟩)
      · have := hneg _ hi
        omega
      · have := hall j hj
        omega
    · rintro rfl
      exact .inr ⟨-1, htop, by omega, by norm_num⟩
  · obtain ⟨line', b, z0, hp, h6, -, h7⟩ := transferFunctionZ_each h hv hr
    rw [hl] at h6
    cases h6
    obtain ⟨-, e, he, hne'⟩ := oneOutputZ_plain h7
    by_contra hc
    unfold eliminateZ at he
    rw [if_neg (by simpa using hne)] at he
    unfold deleteZ at he
    split at he
    · simp at he
    · rename_i h8
      simp only [List.any_eq_true, decide_eq_true_eq, not_exists, not_and, not_lt] at h8
      have h9 := h8 _ htop
      have h10 : line.length = 1 := by omega
      rw [delete_ok] at he
      obtain ⟨x, rfl⟩ := List.length_eq_one_iff.1 h10
      apply hne'
      rw [he.2]
      simp only [without, List.length_singleton, List.zipIdx_singleton, List.mem_map, not_exists, not_and]
      have : ∃ x ∈ v, wrap 1 x = 0 := ⟨-1, htop, rfl⟩
      simp [this]

/-- `[2, 77, 6, 99]` against `[1, 5, 3, 7]`, the second and the last sample declared invalid by `[1, -1]`: the estimate is right, but
the samples reported are the second and the third one. -/
example : transferFunctionZ (σ := Unit) (𝕜 := ℝ) (q := 1) [[2, 77, 6, 99]] (fun _ => [1, 5, 3, 7]) [none] none [[1, -1]] {} (fun _ => ()) =
    (.ok [(some (fun _ => 2), [1, 2])], fun _ => ()) := by
  have hw : wlse (𝕜 := ℝ) (q := 1) [2, 6] [fun _ => 1, fun _ => 3] none = .ok (fun _ => 2) := by
    refine C44_exact (ws := [1, 1]) _ _ _ rfl ⟨rfl, .inl ⟨rfl, rfl⟩⟩ ?_ _ ?_
    · rw [C44_independent _ (by simp [obs])]
      intro d hd
      have := hd ⟨1, 2, fun _ => 1⟩ (by simp [obs]) (by simp)
      simp [dotProduct] at this
      funext j
      rw [Fin.fin_one_eq_zero j, this]; rfl
    · simp [obs, dotProduct]
      norm_num
  have he : ∀ {β : Type} (x y z w : β), eliminateZ [x, y, z, w] [1, -1] = .ok [x, z] := fun _ _ _ _ => rfl
  have hm : mergeInvalidZ [[1, -1], []] = .ok [1, 2] := by decide
  have hr : rowsOf (𝕜 := ℝ) (q := 1) (fun _ => [1, 5, 3, 7]) 4 = [fun _ => 1, fun _ => 5, fun _ => 3, fun _ => 7] := by
    simp [rowsOf, List.range_succ]
  have ho : oneOutputZ (σ := Unit) (𝕜 := ℝ) (q := 1) {} [none] [fun _ => 1, fun _ => 5, fun _ => 3, fun _ => 7] [2, 77, 6, 99] none [1, -1]
      (fun _ => ()) = (.ok (some (fun _ => 2), [1, 2]), fun _ => ()) := by
    simp only [oneOutputZ, chainZ, he, chainLoop, eliminate, callEstimate, mEstimate, List.any_nil, Bool.false_eq_true, if_false, List.length_nil,
      if_true, hw, List.length_cons]
    simp [hm]
  have hol : ∀ o, o = ({} : MEst.Opts) → oneOutputZ (σ := Unit) (𝕜 := ℝ) (q := 1) o [none] [fun _ => 1, fun _ => 5, fun _ => 3, fun _ => 7]
      [2, 77, 6, 99] none [1, -1] (fun _ => ()) = (.ok (some (fun _ => 2), [1, 2]), fun _ => ()) := by
    rintro _ rfl
    exact ho
  generalize ho' : ({} : MEst.Opts) = o
  simp [transferFunctionZ, hr, outputsLoopZ, hol o ho'.symm]

/-- With `[-1]` alone the first sample is reported, with `[-2]` alone merging fails. -/
example : mergeInvalidZ [[-1], []] = .ok [0] ∧ mergeInvalidZ [[-2], []] = .error .index := by decide

end Razorback.Props
