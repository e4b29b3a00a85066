/-
C110: an estimation can be split, and resumed from what was returned.
-/
import Verif.Props.Transfer
import Verif.Props.Weights

namespace Razorback.Props
open Razorback Razorback.Spec Razorback.MEst
open scoped Matrix

variable {𝕜 : Type} [RCLike 𝕜] {q : ℕ} {σ : Type}

/-- A chain depends on the samples and the invalid positions only through what is left of the samples. -/
theorem chainLoop_left {o : Opts} (ws : Weighting σ 𝕜 q) {e e' : List 𝕜} {b b' : List (Fin q → 𝕜)} (hb : e.length = b.length)
    (hb' : e'.length = b'.length) (z : Option (Fin q → 𝕜)) {ii ii' : List ℕ} (hi : ∀ i ∈ ii, i < e.length)
    (hi' : ∀ i ∈ ii', i < e'.length) (he : without e ii = without e' ii') (hbb : without b ii = without b' ii') (heap : ℕ → σ) :
    chainLoop o ws e b z (some ii) heap = chainLoop o ws e' b' z (some ii') heap := by
  cases ws with
  | nil => rfl
  | cons w ws =>
    rw [chainLoop, chainLoop, eliminate_ok.2 ⟨hi, rfl⟩, eliminate_ok.2 ⟨by rwa [← hb], rfl⟩, eliminate_ok.2 ⟨hi', rfl⟩,
      eliminate_ok.2 ⟨by rwa [← hb'], rfl⟩, he, hbb]

/-- The last estimate of a chain started with `z`. -/
def lastOf (z : Option (Fin q → 𝕜)) (steps : List ((Fin q → 𝕜) × List ℕ)) : Option (Fin q → 𝕜) :=
  match steps.getLast? with
  | none => z
  | some p => some p.1

theorem lastOf_cons (z : Option (Fin q → 𝕜)) (p : (Fin q → 𝕜) × List ℕ) (l : List ((Fin q → 𝕜) × List ℕ)) :
    lastOf z (p :: l) = lastOf (some p.1) l := by
  unfold lastOf
  rw [List.getLast?_cons]
  cases l.getLast? <;> rfl

theorem lastOf_append (z : Option (Fin q → 𝕜)) (l l' : List ((Fin q → 𝕜) × List ℕ)) :
    lastOf z (l ++ l') = lastOf (lastOf z l) l' := by
  induction l generalizing z with
  | nil => rfl
  | cons p l ih => rw [List.cons_append, lastOf_cons, lastOf_cons, ih]

theorem chainLoop_append {o : Opts} (ws ws' : Weighting σ 𝕜 q) {e : List 𝕜} {b : List (Fin q → 𝕜)} (hb : e.length = b.length)
    (z : Option (Fin q → 𝕜)) {ii : List ℕ} (hi : ∀ i ∈ ii, i < e.length) (heap : ℕ → σ) :
    chainLoop o (ws ++ ws') e b z (some ii) heap =
      match chainLoop o ws e b z (some ii) heap with
      | (.error x, h) => (.error x, h)
      | (.ok steps, h) =>
        match chainLoop o ws' (withoutAll e (ii :: steps.map Prod.snd)) (withoutAll b (ii :: steps.map Prod.snd))
            (lastOf z steps) (some []) h with
        | (.error x, h) => (.error x, h)
        | (.ok l, h) => (.ok (steps ++ l), h) := by
  induction ws generalizing e b z ii heap with
  | nil =>
    have hb1 := length_without ii hb
    rw [List.nil_append, chainLoop_left ws' hb hb1 z hi (ii' := []) (by simp) (without_nil _).symm (without_nil _).symm heap]
    simp only [chainLoop, List.map_nil, withoutAll, lastOf, List.getLast?_nil]
    cases chainLoop o ws' (without e ii) (without b ii) z (some []) heap with
    | mk r h => cases r <;> rfl
  | cons w ws ih =>
    have hb1 := length_without ii hb
    rw [List.cons_append, chainLoop, chainLoop, eliminate_ok.2 ⟨hi, rfl⟩, eliminate_ok.2 ⟨by rwa [← hb], rfl⟩]
    dsimp only
    by_cases h0 : (without e ii).length = 0
    · rw [if_pos h0, if_pos h0]
    · rw [if_neg h0, if_neg h0]
      cases hc : callEstimate (without e ii) (without b ii) z w o heap with
      | mk r h =>
      cases r with
      | error x => rfl
      | ok p =>
        obtain ⟨z1, ii1⟩ := p
        dsimp only
        rw [ih hb1 (some z1) (callEstimate_inside hb1 (by rw [hc])) h]
        cases chainLoop o ws (without e ii) (without b ii) (some z1) (some ii1) h with
        | mk r2 h2 =>
        cases r2 with
        | error x => rfl
        | ok steps =>
          simp only [List.map_cons, lastOf_cons]
          rw [show withoutAll e (ii :: ii1 :: steps.map Prod.snd) = withoutAll (without e ii) (ii1 :: steps.map Prod.snd) from rfl,
            show withoutAll b (ii :: ii1 :: steps.map Prod.snd) = withoutAll (without b ii) (ii1 :: steps.map Prod.snd) from rfl]
          cases chainLoop o ws' (withoutAll (without e ii) (ii1 :: steps.map Prod.snd))
            (withoutAll (without b ii) (ii1 :: steps.map Prod.snd)) (lastOf (some z1) steps) (some []) h2 with
          | mk r3 h3 => cases r3 <;> rfl

theorem withoutAll_append_right {β : Type _} (l : List β) (a c : List (List ℕ)) :
    withoutAll l (a ++ c) = withoutAll (withoutAll l a) c := by
  induction a generalizing l with
  | nil => rfl
  | cons i a ih => exact ih _

theorem validSteps_append_right {β : Type _} (l : List β) (a c : List (List ℕ)) :
    ValidSteps l (a ++ c) ↔ ValidSteps l a ∧ ValidSteps (withoutAll l a) c := by
  induction a generalizing l with
  | nil => simp [ValidSteps, withoutAll]
  | cons i a ih => simp only [List.cons_append, ValidSteps, withoutAll, ih, and_assoc]

/-- **C110.** A chain of weightings applied to one output is the same as its first part followed by the second part started from
the estimate and the invalid positions returned by the first. -/
theorem C110_one_output (o : Opts) (ws ws' : Weighting σ 𝕜 q) (b : List (Fin q → 𝕜)) (line : List 𝕜)
    (hb : line.length = b.length) (z0 : Option (Fin q → 𝕜)) (inv : List ℕ) (hi : ws ≠ [] ∨ ∀ i ∈ inv, i < line.length) (heap : ℕ → σ) :
    oneOutput o (ws ++ ws') b line z0 inv heap =
      match oneOutput o ws b line z0 inv heap with
      | (.error x, heap) => (.error x, heap)
      | (.ok (z, m), heap) => oneOutput o ws' b line z m heap := by
  by_cases hout : ∃ i ∈ inv, line.length ≤ i
  · have hne : ws ≠ [] := by
      rcases hi with hi | hi
      · exact hi
      · obtain ⟨i, h, h'⟩ := hout
        have := hi i h
        omega
    obtain ⟨w, ws, rfl⟩ := List.exists_cons_of_ne_nil hne
    unfold oneOutput
    rw [List.cons_append, chainLoop, chainLoop, (C43_eliminate line inv).2 hout]
  have hin : ∀ i ∈ inv, i < line.length := by
    intro i h
    by_contra hc
    exact hout ⟨i, h, by omega⟩
  unfold oneOutput
  rw [chainLoop_append ws ws' hb z0 hin heap]
  cases hc : chainLoop o ws line b z0 (some inv) heap with
  | mk r h =>
  cases r with
  | error x => rfl
  | ok steps =>
  dsimp only
  have hv : ValidSteps line (inv :: steps.map Prod.snd) := by
    by_cases hws : ws = []
    · subst hws
      simp only [chainLoop, Prod.mk.injEq, Except.ok.injEq] at hc
      rw [← hc.1]
      exact ⟨hin, trivial⟩
    · exact (chainLoop_ok hb hc).2.2 hws
  have hvN := (validSteps_congr (b := List.range line.length) _ (by simp)).1 hv
  obtain ⟨m, hm, hs, hmem, hall⟩ := C43_merge _ _ hvN
  rw [hm]
  dsimp only
  have hmi : ∀ i ∈ m, i < line.length := fun i h => ((hmem i).1 h).1
  have e1 : without line m = withoutAll line (inv :: steps.map Prod.snd) := (hall _ line rfl).symm
  have e2 : without b m = withoutAll b (inv :: steps.map Prod.snd) := (hall _ b hb.symm).symm
  have e3 : without (List.range line.length) m = withoutAll (List.range line.length) (inv :: steps.map Prod.snd) :=
    (hall _ _ (by simp)).symm
  have hb2 := length_without m hb
  have hch : chainLoop o ws' (withoutAll line (inv :: steps.map Prod.snd)) (withoutAll b (inv :: steps.map Prod.snd))
      (lastOf z0 steps) (some []) h = chainLoop o ws' line b (lastOf z0 steps) (some m) h := by
    rw [← e1, ← e2]
    exact chainLoop_left ws' hb2 hb _ (by simp) hmi (without_nil _) (without_nil _) h
  rw [hch]
  show _ = match chainLoop o ws' line b (lastOf z0 steps) (some m) h with
    | (.error x, heap) => ((Except.error x : Except Err (Option (Fin q → 𝕜) × List ℕ)), heap)
    | (.ok l, heap) =>
      match mergeInvalid (m :: l.map Prod.snd) with
      | .error x => (Except.error x, heap)
      | .ok m' => (Except.ok (lastOf (lastOf z0 steps) l, m'), heap)
  cases hc2 : chainLoop o ws' line b (lastOf z0 steps) (some m) h with
  | mk r2 h2 =>
  cases r2 with
  | error x => rfl
  | ok l =>
  dsimp only
  have hv2 : ValidSteps line (m :: l.map Prod.snd) := by
    by_cases hws : ws' = []
    · subst hws
      simp only [chainLoop, Prod.mk.injEq, Except.ok.injEq] at hc2
      rw [← hc2.1]
      exact ⟨hmi, trivial⟩
    · exact (chainLoop_ok hb hc2).2.2 hws
  have hv2N := (validSteps_congr (b := List.range line.length) _ (by simp)).1 hv2
  have hv3N : ValidSteps (List.range line.length) (inv :: (steps ++ l).map Prod.snd) := by
    rw [List.map_append, ← List.cons_append, validSteps_append_right]
    refine ⟨hvN, ?_⟩
    rw [← e3]
    exact hv2N.2
  obtain ⟨m2, hm2, hs2, hmem2, -⟩ := C43_merge _ _ hv2N
  obtain ⟨m3, hm3, hs3, hmem3, -⟩ := C43_merge _ _ hv3N
  rw [hm2, hm3]
  have : m3 = m2 := by
    refine sorted_ext hs3 hs2 (fun i => ?_)
    rw [hmem2, hmem3, List.map_append, ← List.cons_append, withoutAll_append_right, ← e3]
    rfl
  subst this
  dsimp only
  show (Except.ok (lastOf z0 (steps ++ l), m3), h2) = _
  rw [lastOf_append]

/-- **C110.** If the first part of a chain rejects all the samples, the chain raises ValueError at the next weighting. -/
theorem C110_exhausted (o : Opts) (ws ws' : Weighting σ 𝕜 q) (w : Option (ℕ × WFun σ 𝕜 q)) (b : List (Fin q → 𝕜)) (line : List 𝕜)
    (hb : line.length = b.length) (z0 : Option (Fin q → 𝕜)) (inv : List ℕ) (hi : ∀ i ∈ inv, i < line.length) (heap heap' : ℕ → σ)
    (z : Option (Fin q → 𝕜)) (m : List ℕ) (h : oneOutput o ws b line z0 inv heap = (.ok (z, m), heap'))
    (hall : ∀ i < line.length, i ∈ m) : oneOutput o (ws ++ w :: ws') b line z0 inv heap = (.error .value, heap') := by
  rw [C110_one_output o ws _ b line hb z0 inv (.inr hi) heap, h]
  dsimp only
  refine C48_empty_raises o w ws' b line hb z m ?_ hall heap'
  by_cases hws : ws = []
  · subst hws
    have hvN : ValidSteps (List.range line.length) [inv] := ⟨by simpa using hi, trivial⟩
    obtain ⟨m', hm', -, hmem, -⟩ := C43_merge _ _ hvN
    simp only [oneOutput, chainLoop, List.map_nil, hm', List.getLast?_nil, Prod.mk.injEq, Except.ok.injEq] at h
    rw [← h.1.2]
    exact fun i h => ((hmem i).1 h).1
  · obtain ⟨steps, -, -, -, -, hmem, -⟩ := C48_chain o ws hws b line hb z0 inv heap heap' z m h
    exact fun i h => ((hmem i).1 h).1

theorem outputsLoop_iff {o : Opts} {ws : Weighting σ 𝕜 q} (hws : ∀ i wf, some (i, wf) ∈ ws → Resets wf)
    {b : List (Fin q → 𝕜)} {l : List (List 𝕜 × Option (Fin q → 𝕜) × List ℕ)} (heap : ℕ → σ) {res : List (Option (Fin q → 𝕜) × List ℕ)} :
    (outputsLoop o ws b l heap).1 = .ok res ↔
      List.Forall₂ (fun t p => ∀ hp, (oneOutput o ws b t.1 t.2.1 t.2.2 hp).1 = .ok p) l res := by
  induction l generalizing heap res with
  | nil => simp [outputsLoop, eq_comm]
  | cons t l ih =>
    obtain ⟨line, z0, inv⟩ := t
    rw [outputsLoop]
    have hr := oneOutput_resets (o := o) hws rfl b line z0 inv
    cases hc : oneOutput o ws b line z0 inv heap with
    | mk r heap1 =>
    cases r with
    | error x =>
      simp only [reduceCtorEq, false_iff]
      intro h
      cases h with
      | cons h1 h2 =>
        have := h1 heap
        rw [hc] at this
        simp at this
    | ok p =>
      dsimp only
      cases h2 : outputsLoop o ws b l heap1 with
      | mk r2 heap2 =>
      have e2 : (outputsLoop o ws b l heap1).1 = r2 := by rw [h2]
      cases r2 with
      | error x =>
        simp only [reduceCtorEq, false_iff]
        intro h
        cases h with
        | cons h1 h3 =>
          rw [(ih heap1).2 h3] at e2
          simp at e2
      | ok ps =>
        simp only [Except.ok.injEq]
        constructor
        · rintro rfl
          refine .cons (fun hp => ?_) ((ih heap1).1 e2)
          rw [hr hp heap, hc]
        · intro h
          cases h with
          | cons h1 h3 =>
            have := h1 heap
            rw [hc] at this
            simp only [Except.ok.injEq] at this
            rw [(ih heap1).2 h3] at e2
            simp only [Except.ok.injEq] at e2
            rw [this, e2]

/-- The starting values of the outputs. -/
def startOf (P : ℕ) (init : Option (List (Fin q → 𝕜))) : List (Option (Fin q → 𝕜)) :=
  match init with
  | none => List.replicate P none
  | some l => l.map some

/-- When `transfer_function` succeeds, the weight functions starting afresh. -/
theorem transferFunction_iff {outputs : List (List 𝕜)} {inputs : Fin q → List 𝕜} {ws : Weighting σ 𝕜 q}
    (hws : ∀ i wf, some (i, wf) ∈ ws → Resets wf) {init : Option (List (Fin q → 𝕜))} {inv : InvArg} {o : Opts} (heap : ℕ → σ)
    {res : List (Option (Fin q → 𝕜) × List ℕ)} :
    (transferFunction outputs inputs ws init inv o heap).1 = .ok res ↔
    outputs ≠ [] ∧ q ≠ 0 ∧ ∃ N invs zs, inv.norm outputs.length = .ok invs ∧ invs.length = outputs.length ∧ zs.length = outputs.length ∧
      zs = startOf outputs.length init ∧
      (∀ y ∈ outputs, y.length = N) ∧ (∀ j, (inputs j).length = N) ∧
      List.Forall₂ (fun t p => ∀ hp, (oneOutput o ws (rowsOf inputs N) t.1 t.2.1 t.2.2 hp).1 = .ok p) (outputs.zip (zs.zip invs)) res := by
  constructor
  · intro h
    have hne : outputs ≠ [] := by
      rintro rfl
      unfold transferFunction at h
      cases hn : inv.norm ([] : List (List 𝕜)).length <;> rw [hn] at h <;> simp at h
    have hq : q ≠ 0 := by
      intro h0
      rw [C49_bad_shapes outputs inputs ws init inv o heap hne (.inl h0)] at h
      simp at h
    obtain ⟨N, invs, zs, h1, h2, h3, h4, h5, h6, h7⟩ := transferFunction_ok (Prod.ext h rfl : _ = (Except.ok res, _))
    exact ⟨hne, hq, N, invs, zs, h1, h2, h3, h4, h5, h6, (outputsLoop_iff hws heap).1 (by rw [h7])⟩
  · rintro ⟨hne, hq, N, invs, zs, h1, h2, h3, h4, h5, h6, h7⟩
    unfold transferFunction
    rw [h1]
    obtain ⟨y, l, rfl⟩ := List.exists_cons_of_ne_nil hne
    have hy : y.length = N := h5 y (by simp)
    dsimp only
    rw [if_neg, if_neg (by simpa using h2)]
    · have h8 := (outputsLoop_iff hws heap).2 h7
      rw [← hy] at h8
      cases init with
      | none =>
        subst h4
        dsimp only
        rw [if_neg (by simp)]
        exact h8
      | some l' =>
        subst h4
        dsimp only
        rw [if_neg (by simpa [startOf] using h3)]
        exact h8
    · push Not
      refine ⟨hq, fun j => by rw [h6, hy], ?_⟩
      intro hany
      obtain ⟨y', hy', hc⟩ := List.any_eq_true.1 hany
      simp [h5 y' hy', hy] at hc

theorem rowsOf_length (inputs : Fin q → List 𝕜) (N : ℕ) : (rowsOf inputs N).length = N := by simp [rowsOf]

theorem split_all {o : Opts} {ws ws' : Weighting σ 𝕜 q} (hne : ws ≠ []) (hws : ∀ i wf, some (i, wf) ∈ ws → Resets wf)
    (hws' : ∀ i wf, some (i, wf) ∈ ws' → Resets wf) {b : List (Fin q → 𝕜)}
    {l : List (List 𝕜 × Option (Fin q → 𝕜) × List ℕ)} (hl : ∀ t ∈ l, t.1.length = b.length) [Nonempty σ]
    {res : List (Option (Fin q → 𝕜) × List ℕ)} :
    List.Forall₂ (fun t p => ∀ hp, (oneOutput o (ws ++ ws') b t.1 t.2.1 t.2.2 hp).1 = .ok p) l res ↔
    ∃ (T : List (Fin q → 𝕜)) (V : List (List ℕ)), T.length = l.length ∧ V.length = l.length ∧
      List.Forall₂ (fun t p => ∀ hp, (oneOutput o ws b t.1 t.2.1 t.2.2 hp).1 = .ok p) l ((T.map some).zip V) ∧
      List.Forall₂ (fun t p => ∀ hp, (oneOutput o ws' b t.1 t.2.1 t.2.2 hp).1 = .ok p) ((l.map Prod.fst).zip ((T.map some).zip V)) res := by
  induction l generalizing res with
  | nil =>
    simp only [List.forall₂_nil_left_iff, List.length_nil, List.map_nil, List.zip_nil_left]
    constructor
    · rintro rfl
      exact ⟨[], [], rfl, rfl, rfl, rfl⟩
    · rintro ⟨_, _, _, _, _, rfl⟩
      rfl
  | cons t l ih =>
    obtain ⟨line, z0, inv⟩ := t
    have hb := hl (line, z0, inv) (by simp)
    have ih := @ih (fun t ht => hl t (by simp [ht]))
    have hsplit := fun hp => C110_one_output o ws ws' b line hb z0 inv (.inl hne) hp
    have h1 := oneOutput_resets (o := o) hws rfl b line z0 inv
    constructor
    · intro h
      cases h with
      | @cons _ p _ ps hp hps =>
      obtain ⟨T, V, hT, hV, f1, f2⟩ := ih.1 hps
      let heap0 : ℕ → σ := fun _ => Classical.arbitrary σ
      have e := hp heap0
      dsimp only at e
      rw [hsplit heap0] at e
      cases hc : oneOutput o ws b line z0 inv heap0 with
      | mk r heap1 =>
      rw [hc] at e
      cases r with
      | error x => simp at e
      | ok zm =>
      obtain ⟨z, m⟩ := zm
      dsimp only at e
      obtain ⟨steps, s1, s2, s3, -⟩ := C48_chain o ws hne b line hb z0 inv heap0 heap1 z m hc
      obtain ⟨w, wl, rfl⟩ := List.exists_cons_of_ne_nil hne
      obtain ⟨z', hz'⟩ : ∃ z', z = some z' := by
        rw [s3]
        cases hg : steps.getLast? with
        | none =>
          rw [List.getLast?_eq_none_iff.1 hg] at s1
          simp at s1
        | some p => exact ⟨p.1, rfl⟩
      subst hz'
      refine ⟨z' :: T, m :: V, by simp [hT], by simp [hV], ?_, ?_⟩
      · refine .cons (fun hp => ?_) f1
        rw [h1 hp heap0, hc]
      · refine .cons (fun hp => ?_) f2
        dsimp only
        rw [oneOutput_resets (o := o) hws' rfl b line (some z') m hp heap1, e]
    · rintro ⟨T, V, hT, hV, f1, f2⟩
      cases T with
      | nil => simp at hT
      | cons z T =>
      cases V with
      | nil => simp at hV
      | cons m V =>
      simp only [List.map_cons, List.zip_cons_cons] at f1 f2
      cases f1 with
      | cons g1 f1 =>
      cases f2 with
      | cons g2 f2 =>
      refine .cons (fun hp => ?_) (ih.2 ⟨T, V, by simpa using hT, by simpa using hV, f1, f2⟩)
      dsimp only
      rw [hsplit hp]
      have e1 := g1 hp
      dsimp only at e1 g2
      cases hc : oneOutput o ws b line z0 inv hp with
      | mk r heap1 =>
      rw [hc] at e1
      dsimp only at e1
      subst e1
      dsimp only
      exact g2 heap1

/-- **C110.** An estimation with a sequence of weightings gives the same as two calls in a row, the second one with the remaining
weightings, started from the transfer and the invalid indices returned by the first; the first part has at least one weighting, and
the weight functions start afresh at each estimation, as those of the library do (C53). -/
theorem C110_resume (outputs : List (List 𝕜)) (inputs : Fin q → List 𝕜) (ws ws' : Weighting σ 𝕜 q) (hne : ws ≠ [])
    (hws : ∀ i wf, some (i, wf) ∈ ws ++ ws' → Resets wf) (init : Option (List (Fin q → 𝕜))) (inv : InvArg) (o : Opts)
    (heap heap1 heap2 : ℕ → σ) (res : List (Option (Fin q → 𝕜) × List ℕ)) :
    (transferFunction outputs inputs (ws ++ ws') init inv o heap).1 = .ok res ↔
      ∃ (T : List (Fin q → 𝕜)) (V : List (List ℕ)), T.length = V.length ∧
        (transferFunction outputs inputs ws init inv o heap1).1 = .ok ((T.map some).zip V) ∧
        (transferFunction outputs inputs ws' (some T) (.each V) o heap2).1 = .ok res := by
  have h1 : ∀ i wf, some (i, wf) ∈ ws → Resets wf := fun i wf h => hws i wf (by simp [h])
  have h2 : ∀ i wf, some (i, wf) ∈ ws' → Resets wf := fun i wf h => hws i wf (by simp [h])
  have : Nonempty σ := ⟨heap 0⟩
  rw [transferFunction_iff hws heap]
  constructor
  · rintro ⟨hout, hq, N, invs, zs, k1, k2, k3, k4, k5, k6, k7⟩
    have hl : ∀ t ∈ outputs.zip (zs.zip invs), t.1.length = (rowsOf inputs N).length := by
      intro t ht
      rw [rowsOf_length]
      exact k5 _ (List.of_mem_zip ht).1
    have hlen : (outputs.zip (zs.zip invs)).length = outputs.length := by simp [k2, k3]
    obtain ⟨T, V, hT, hV, f1, f2⟩ := (split_all hne h1 h2 hl).1 k7
    rw [hlen] at hT hV
    refine ⟨T, V, by rw [hT, hV], (transferFunction_iff h1 heap1).2 ⟨hout, hq, N, invs, zs, k1, k2, k3, k4, k5, k6, f1⟩,
      (transferFunction_iff h2 heap2).2 ⟨hout, hq, N, V, T.map some, ?_, hV, by simp [hT], rfl, k5, k6, ?_⟩⟩
    · cases V with
      | nil => exact absurd (List.length_eq_zero_iff.1 hV.symm) hout
      | cons v V => rfl
    · have e : (outputs.zip (zs.zip invs)).map Prod.fst = outputs := by
        rw [List.map_fst_zip]
        simp [k2, k3]
      rwa [e] at f2
  · rintro ⟨T, V, hTV, t1, t2⟩
    obtain ⟨hout, hq, N, invs, zs, k1, k2, k3, k4, k5, k6, k7⟩ := (transferFunction_iff h1 heap1).1 t1
    obtain ⟨-, -, N', invs', zs', m1, m2, m3, m4, m5, m6, m7⟩ := (transferFunction_iff h2 heap2).1 t2
    have hl : ∀ t ∈ outputs.zip (zs.zip invs), t.1.length = (rowsOf inputs N).length := by
      intro t ht
      rw [rowsOf_length]
      exact k5 _ (List.of_mem_zip ht).1
    have hlen : (outputs.zip (zs.zip invs)).length = outputs.length := by simp [k2, k3]
    unfold startOf at m4
    dsimp only at m4
    subst m4
    have hT : T.length = outputs.length := by simpa using m3
    have hV : V.length = outputs.length := by rw [← hTV, hT]
    have hVn : invs' = V := by
      cases V with
      | nil => exact absurd (List.length_eq_zero_iff.1 hV.symm) hout
      | cons v V => simpa [InvArg.norm] using m1.symm
    subst hVn
    have hN : N' = N := by
      obtain ⟨y, l, rfl⟩ := List.exists_cons_of_ne_nil hout
      rw [← k5 y (by simp), m5 y (by simp)]
    subst hN
    refine ⟨hout, hq, _, invs, zs, k1, k2, k3, k4, k5, k6, (split_all hne h1 h2 hl).2 ⟨T, invs', by rw [hlen, hT], by rw [hlen, hV], k7, ?_⟩⟩
    have e : (outputs.zip (zs.zip invs)).map Prod.fst = outputs := by
      rw [List.map_fst_zip]
      simp [k2, k3]
    rwa [e]

open Razorback.Weights in
/-- **C110.** With the weight objects of the library nothing else is needed: calling with the first weightings, then with the others
on what was returned, gives what one call with all of them does. -/
theorem C110_library (l l' : List (Option Obj)) (hne : l ≠ []) (outputs : List (List 𝕜)) (inputs : Fin q → List 𝕜)
    (init : Option (List (Fin q → 𝕜))) (inv : InvArg) (o : Opts) (heap heap1 heap2 : ℕ → Mem)
    (res : List (Option (Fin q → 𝕜) × List ℕ)) :
    (transferFunction outputs inputs (weighting (l ++ l')) init inv o heap).1 = .ok res ↔
      ∃ (T : List (Fin q → 𝕜)) (V : List (List ℕ)), T.length = V.length ∧
        (transferFunction outputs inputs (weighting l) init inv o heap1).1 = .ok ((T.map some).zip V) ∧
        (transferFunction outputs inputs (weighting l') (some T) (.each V) o heap2).1 = .ok res := by
  have hr : ∀ (m : List (Option Obj)) i wf, some (i, wf) ∈ weighting (𝕜 := 𝕜) (q := q) m → Resets wf := by
    intro m i wf h
    obtain ⟨p, -, hp⟩ := List.mem_map.1 h
    obtain ⟨w, -, hw⟩ := Option.map_eq_some_iff.1 hp
    simp only [Prod.mk.injEq] at hw
    rw [← hw.2]
    exact C53_resets w
  have hs : (weighting (𝕜 := 𝕜) (q := q) (l ++ l')).map (Option.map Prod.snd) =
      (weighting (𝕜 := 𝕜) (q := q) l ++ weighting (𝕜 := 𝕜) (q := q) l').map (Option.map Prod.snd) := by
    have hm : ∀ (m : List (Option Obj)), (weighting (𝕜 := 𝕜) (q := q) m).map (Option.map Prod.snd) = m.map (Option.map Obj.call) := by
      intro m
      unfold weighting
      rw [List.map_map]
      conv_rhs => rw [← List.zipIdx_map_fst 0 m, List.map_map]
      apply List.map_congr_left
      rintro ⟨w, k⟩ -
      cases w <;> rfl
    rw [List.map_append, hm, hm, hm, List.map_append]
  rw [transferFunction_shared outputs inputs _ _ (hr (l ++ l')) hs init inv o heap heap]
  refine C110_resume outputs inputs (weighting l) (weighting l') ?_ ?_ init inv o heap heap1 heap2 res
  · intro h
    apply hne
    have := congrArg List.length h
    exact List.length_eq_zero_iff.1 (by simpa [weighting] using this)
  · intro i wf h
    rcases List.mem_append.1 h with h | h
    · exact hr l i wf h
    · exact hr l' i wf h

/-- Two least squares steps on `[2, 77, 6]` against `[1, 5, 3]`, the second sample being invalid: both calls succeed. -/
example : ∃ (T : List (Fin 1 → ℝ)) (V : List (List ℕ)), T.length = V.length ∧
    (transferFunction (σ := Unit) (𝕜 := ℝ) (q := 1) [[2, 77, 6]] (fun _ => [1, 5, 3]) [none] none (.flat [1]) {} (fun _ => ())).1 =
      .ok ((T.map some).zip V) ∧
    (transferFunction (σ := Unit) [[2, 77, 6]] (fun _ => [1, 5, 3]) [none] (some T) (.each V) {} (fun _ => ())).1 =
      .ok [(some (fun _ => 2), [1])] := by
  refine (C110_resume (σ := Unit) (𝕜 := ℝ) (q := 1) [[2, 77, 6]] (fun _ => [1, 5, 3]) [none] [none] (by simp) (by simp) none (.flat [1])
    {} (fun _ => ()) _ _ _).1 ?_
  have hx := exOutput
  revert hx
  generalize ({} : Opts) = o
  intro hx
  have hr : rowsOf (𝕜 := ℝ) (q := 1) (fun _ => [1, 5, 3]) 3 = [fun _ => 1, fun _ => 5, fun _ => 3] := rfl
  simp [transferFunction, InvArg.norm, outputsLoop, hr, hx]

end Razorback.Props
