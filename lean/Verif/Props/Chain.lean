/-
Property C92: chains of estimations as generators, advanced in any order, sharing weight objects.
-/
import Verif.Model.Chain
import Verif.Props.Weights

namespace Razorback.Chain
open Razorback Razorback.Spec Razorback.MEst Razorback.Props

variable {𝕜 : Type} [RCLike 𝕜] {q : ℕ} {σ : Type}

/-- The weightings still to be used. -/
def Gen.ws : Gen σ 𝕜 q → Weighting σ 𝕜 q
  | .fresh ws _ _ _ _ => ws
  | .suspended _ ws _ _ _ _ => ws
  | .finished => []

theorem next_ws (o : Opts) (g : Gen σ 𝕜 q) (heap : ℕ → σ) : ∀ w ∈ (next o g heap).2.1.ws, w ∈ g.ws := by
  intro w hw
  unfold next at hw
  split at hw
  · exact hw
  · exact hw
  · simp [Gen.ws] at hw
  · split at hw
    · simp [Gen.ws] at hw
    · split at hw
      · simp [Gen.ws] at hw
      · split at hw
        · simp [Gen.ws] at hw
        · split at hw
          · simp [Gen.ws] at hw
          · simp [Gen.ws] at hw
          · exact List.mem_cons_of_mem _ hw

theorem next_resets (o : Opts) (g : Gen σ 𝕜 q) (hg : ∀ i wf, some (i, wf) ∈ g.ws → Resets wf) (heap heap' : ℕ → σ) :
    (next o g heap).1 = (next o g heap').1 ∧ (next o g heap).2.1 = (next o g heap').2.1 := by
  cases g with
  | fresh => exact ⟨rfl, rfl⟩
  | finished => exact ⟨rfl, rfl⟩
  | suspended it ws e b z ii =>
    cases ws with
    | nil => exact ⟨rfl, rfl⟩
    | cons w ws =>
      simp only [next]
      cases eliminate e ii with
      | error x => exact ⟨rfl, rfl⟩
      | ok e1 =>
      cases eliminate b ii with
      | error x => exact ⟨rfl, rfl⟩
      | ok b1 =>
      simp only
      split
      · exact ⟨rfl, rfl⟩
      · have hc := callEstimate_resets (w := w) (fun i wf h => hg i wf (by simp [Gen.ws, h])) rfl e1 b1 z o heap heap'
        cases h1 : callEstimate e1 b1 z w o heap with
        | mk r1 g1 =>
        cases h2 : callEstimate e1 b1 z w o heap' with
        | mk r2 g2 =>
        rw [h1, h2] at hc
        simp only at hc
        subst hc
        cases r1 with
        | error x => cases x <;> exact ⟨rfl, rfl⟩
        | ok p => exact ⟨rfl, rfl⟩

theorem alone_resets (o : Opts) (n : ℕ) (g : Gen σ 𝕜 q) (hg : ∀ i wf, some (i, wf) ∈ g.ws → Resets wf) (heap heap' : ℕ → σ) :
    alone o n g heap = alone o n g heap' := by
  induction n generalizing g heap heap' with
  | zero => rfl
  | succ n ih =>
    rw [alone, alone, (next_resets o g hg heap heap').1, (next_resets o g hg heap heap').2]
    rw [ih _ (fun i wf h => hg i wf (next_ws o g heap' _ h))]

end Razorback.Chain

namespace Razorback.Props
open Razorback Razorback.Spec Razorback.MEst Razorback.Chain

variable {𝕜 : Type} [RCLike 𝕜] {q : ℕ} {σ : Type}

/-- How often task `i` is advanced. -/
def advances (i : ℕ) : List (Action σ) → ℕ
  | [] => 0
  | .advance j :: l => (if j = i then 1 else 0) + advances i l
  | .other _ :: l => advances i l

/-- What task `i` gave, in order. -/
def given (i : ℕ) (l : List (ℕ × (Σ q, Event 𝕜 q))) : List (Σ q, Event 𝕜 q) :=
  l.filterMap (fun p => if p.1 = i then some p.2 else none)

/-- Every weight function of a task starts afresh at iteration 0. -/
def Fresh (t : Task σ 𝕜) : Prop := ∀ k wf, some (k, wf) ∈ t.gen.ws → Resets wf

/-- **C92.** Several chains of estimations may be advanced in any order, sharing weight objects, while other parts of the
program use or spoil the memories of these objects in between: if every weight function starts afresh at iteration 0,
what each chain gives is what it gives when it is consumed alone, whatever the memories were at the start. -/
theorem C92_interleaved (l : List (Action σ)) (g : ℕ → Task σ 𝕜) (hg : ∀ i, Fresh (g i)) (heap heap' : ℕ → σ) (i : ℕ) :
    given i (run l g heap) = (alone (g i).o (advances i l) (g i).gen heap').map (fun ev => ⟨(g i).q, ev⟩) := by
  induction l generalizing g heap heap' with
  | nil => rfl
  | cons a l ih =>
    cases a with
    | other f => exact ih g hg _ _
    | advance j =>
      have hg' : ∀ i, Fresh ((Function.update g j ⟨(g j).q, (g j).o, (next (g j).o (g j).gen heap).2.1⟩) i) := by
        intro i
        rw [Function.update_apply]
        split
        · intro k wf h
          exact hg j k wf (next_ws _ _ _ _ h)
        · exact hg i
      have := ih _ hg' (next (g j).o (g j).gen heap).2.2 (next (g i).o (g i).gen heap').2.2
      simp only [run, given, List.filterMap_cons, advances]
      simp only [given] at this
      by_cases hij : j = i
      · subst hij
        let F : Task σ 𝕜 → List (Σ q, Event 𝕜 q) := fun t =>
          (alone t.o (advances j l) t.gen (next (g j).o (g j).gen heap').2.2).map (fun ev => ⟨t.q, ev⟩)
        have hF := congrArg F (Function.update_self (f := g) j ⟨(g j).q, (g j).o, (next (g j).o (g j).gen heap).2.1⟩)
        rw [this.trans hF]
        simp only [if_true, Nat.add_comm 1, alone, List.map_cons, F]
        rw [(next_resets _ _ (hg j) heap heap').1, (next_resets _ _ (hg j) heap heap').2]
      · rw [if_neg hij, if_neg hij, Nat.zero_add]
        simp only
        rw [this, Function.update_of_ne (Ne.symm hij), alone_resets _ _ _ (hg i) _ heap']

/-- The `n`-th answer (from 0) of a chain consumed alone. -/
noncomputable def answer (o : Opts) (g : Gen σ 𝕜 q) (heap : ℕ → σ) (n : ℕ) : Option (Event 𝕜 q) :=
  (alone o (n + 1) g heap)[n]?

theorem answer_zero (o : Opts) (g : Gen σ 𝕜 q) (heap : ℕ → σ) : answer o g heap 0 = some (next o g heap).1 := rfl

theorem answer_succ (o : Opts) (g : Gen σ 𝕜 q) (heap : ℕ → σ) (n : ℕ) :
    answer o g heap (n + 1) = answer o (next o g heap).2.1 (next o g heap).2.2 n := rfl

theorem answer_finished (o : Opts) (heap : ℕ → σ) (n : ℕ) : answer (q := q) (𝕜 := 𝕜) o .finished heap n = some .stopped := by
  induction n generalizing heap with
  | zero => rfl
  | succ n ih => exact ih heap

/-- The answers are the pairs of `l`, then `last`, then StopIteration for ever. -/
def Answers (o : Opts) (g : Gen σ 𝕜 q) (heap : ℕ → σ) (l : List (Option (Fin q → 𝕜) × Option (List ℕ))) (last : Event 𝕜 q) : Prop :=
  (∀ n z ii, l[n]? = some (z, ii) → answer o g heap n = some (.yielded z ii)) ∧ answer o g heap l.length = some last ∧
    ∀ n, l.length < n → answer o g heap n = some .stopped

theorem Answers.cons {o : Opts} {g : Gen σ 𝕜 q} {heap : ℕ → σ} {l : List (Option (Fin q → 𝕜) × Option (List ℕ))}
    {last : Event 𝕜 q} {z : Option (Fin q → 𝕜)} {ii : Option (List ℕ)} (h1 : (next o g heap).1 = .yielded z ii)
    (h : Answers o (next o g heap).2.1 (next o g heap).2.2 l last) : Answers o g heap ((z, ii) :: l) last := by
  refine ⟨fun n z' ii' hn => ?_, ?_, fun n hn => ?_⟩
  · cases n with
    | zero =>
      simp only [List.getElem?_cons_zero, Option.some.injEq, Prod.mk.injEq] at hn
      rw [answer_zero, h1, hn.1, hn.2]
    | succ n => rw [answer_succ]; exact h.1 n z' ii' (by simpa using hn)
  · rw [List.length_cons, answer_succ]; exact h.2.1
  · cases n with
    | zero => simp at hn
    | succ n => rw [answer_succ]; exact h.2.2 n (by simpa using hn)

theorem Answers.last {o : Opts} {g : Gen σ 𝕜 q} {heap : ℕ → σ} {last : Event 𝕜 q} (h1 : (next o g heap).1 = last)
    (h2 : (next o g heap).2.1 = .finished) : Answers o g heap [] last := by
  refine ⟨fun n z ii hn => by simp at hn, by rw [List.length_nil, answer_zero, h1], fun n hn => ?_⟩
  cases n with
  | zero => simp at hn
  | succ n => rw [answer_succ, h2, answer_finished]

/-- The pairs yielded after the first. -/
def later (l : List ((Fin q → 𝕜) × List ℕ)) : List (Option (Fin q → 𝕜) × Option (List ℕ)) :=
  l.map (fun p => (some p.1, some p.2))

theorem eliminate_nonConv {β : Type _} (l : List β) (ii : Option (List ℕ)) : eliminate l ii ≠ .error .nonConv := by
  unfold eliminate delete
  grind

theorem suspended_answers (o : Opts) (it : ℕ) (ws : Weighting σ 𝕜 q) (e : List 𝕜) (b : List (Fin q → 𝕜))
    (z : Option (Fin q → 𝕜)) (ii : Option (List ℕ)) (heap : ℕ → σ) :
    (∀ l, (chainLoop o ws e b z ii heap).1 = .ok l → l.length = ws.length ∧ Answers o (.suspended it ws e b z ii) heap (later l) .stopped) ∧
    (∀ x, (chainLoop o ws e b z ii heap).1 = .error x → ∃ l step, l.length < ws.length ∧
      Answers o (.suspended it ws e b z ii) heap (later l) (.raised x step) ∧ (∀ k, step = some k → k = it + l.length) ∧
      (x = .nonConv → step ≠ none)) := by
  induction ws generalizing it e b z ii heap with
  | nil =>
    refine ⟨fun l h => ?_, fun x h => by simp [chainLoop] at h⟩
    simp only [chainLoop, Except.ok.injEq] at h
    subst h
    exact ⟨rfl, Answers.last rfl rfl⟩
  | cons w ws ih =>
    have key : ∀ x step, (chainLoop o (w :: ws) e b z ii heap).1 = .error x →
        (next o (.suspended it (w :: ws) e b z ii) heap).1 = .raised x step →
        (next o (.suspended it (w :: ws) e b z ii) heap).2.1 = .finished →
        (∀ k, step = some k → k = it) → (x = .nonConv → step ≠ none) →
        (∀ l, (chainLoop o (w :: ws) e b z ii heap).1 = .ok l → l.length = (w :: ws).length ∧
          Answers o (.suspended it (w :: ws) e b z ii) heap (later l) .stopped) ∧
        (∀ x, (chainLoop o (w :: ws) e b z ii heap).1 = .error x → ∃ l step, l.length < (w :: ws).length ∧
          Answers o (.suspended it (w :: ws) e b z ii) heap (later l) (.raised x step) ∧
          (∀ k, step = some k → k = it + l.length) ∧ (x = .nonConv → step ≠ none)) := by
      intro x step h0 h1 h2 h3 h4
      refine ⟨fun l h => by rw [h0] at h; simp at h, fun x' h => ?_⟩
      rw [h0] at h
      simp only [Except.error.injEq] at h
      subst h
      exact ⟨[], step, by simp, Answers.last h1 h2, fun k hk => by simpa using h3 k hk, h4⟩
    cases he : eliminate e ii with
    | error x => exact key x none (by simp [chainLoop, he]) (by simp [next, he]) (by simp [next, he]) (by simp) (by
        rintro rfl
        exact absurd he (eliminate_nonConv _ _))
    | ok e1 =>
    cases hb : eliminate b ii with
    | error x => exact key x none (by simp [chainLoop, he, hb]) (by simp [next, he, hb]) (by simp [next, he, hb]) (by simp) (by
        rintro rfl
        exact absurd hb (eliminate_nonConv _ _))
    | ok b1 =>
    by_cases h0 : e1.length = 0
    · exact key .value (some it) (by simp [chainLoop, he, hb, h0]) (by simp [next, he, hb, h0]) (by simp [next, he, hb, h0])
        (by simp) (by simp)
    cases hc : callEstimate e1 b1 z w o heap with
    | mk r heap1 =>
    cases r with
    | error x =>
      by_cases hx : x = .nonConv
      · subst hx
        exact key .nonConv (some it) (by simp [chainLoop, he, hb, h0, hc]) (by simp [next, he, hb, h0, hc])
          (by simp [next, he, hb, h0, hc]) (by simp) (by simp)
      · refine key x none (by simp [chainLoop, he, hb, h0, hc]) ?_ ?_ (by simp) (fun h => absurd h hx)
        all_goals
          cases x <;> first | exact absurd rfl hx | simp only [next, he, hb, if_neg h0, hc]
    | ok p =>
      obtain ⟨z1, ii1⟩ := p
      obtain ⟨i1, i2⟩ := ih (it + 1) e1 b1 (some z1) (some ii1) heap1
      have n1 : (next o (.suspended it (w :: ws) e b z ii) heap).1 = .yielded (some z1) (some ii1) := by
        simp [next, he, hb, h0, hc]
      have n2 : (next o (.suspended it (w :: ws) e b z ii) heap).2 = (.suspended (it + 1) ws e1 b1 (some z1) (some ii1), heap1) := by
        simp [next, he, hb, h0, hc]
      have hch : (chainLoop o (w :: ws) e b z ii heap).1 = (match (chainLoop o ws e1 b1 (some z1) (some ii1) heap1).1 with
          | .error x => .error x
          | .ok l => .ok ((z1, ii1) :: l)) := by
        simp only [chainLoop, he, hb, if_neg h0, hc]
        cases chainLoop o ws e1 b1 (some z1) (some ii1) heap1 with
        | mk r h => cases r <;> rfl
      rw [hch]
      cases hr : (chainLoop o ws e1 b1 (some z1) (some ii1) heap1).1 with
      | error x =>
        refine ⟨fun l h => by simp at h, fun x' h => ?_⟩
        simp only [Except.error.injEq] at h
        subst h
        obtain ⟨l, step, j1, j2, j3, j4⟩ := i2 x hr
        refine ⟨(z1, ii1) :: l, step, by simpa using j1, ?_, fun k hk => ?_, j4⟩
        · exact Answers.cons n1 (by rw [n2]; exact j2)
        · rw [j3 k hk, List.length_cons]; omega
      | ok l =>
        refine ⟨fun l' h => ?_, fun x' h => by simp at h⟩
        simp only [Except.ok.injEq] at h
        subst h
        obtain ⟨j1, j2⟩ := i1 l hr
        exact ⟨by simpa using j1, Answers.cons n1 (by rw [n2]; exact j2)⟩

/-- **C92.** The chain first gives back its starting values, then one pair per weighting, those of the estimation in one go
(`transfer_function`), then stops. -/
theorem C92_consumed (o : Opts) (ws : Weighting σ 𝕜 q) (e : List 𝕜) (b : List (Fin q → 𝕜)) (z : Option (Fin q → 𝕜))
    (ii : Option (List ℕ)) (heap : ℕ → σ) (l : List ((Fin q → 𝕜) × List ℕ)) (h : (chainLoop o ws e b z ii heap).1 = .ok l) :
    l.length = ws.length ∧ Answers o (.fresh ws e b z ii) heap ((z, ii) :: later l) .stopped :=
  ⟨((suspended_answers o 1 ws e b z ii heap).1 l h).1, Answers.cons rfl ((suspended_answers o 1 ws e b z ii heap).1 l h).2⟩

/-- **C92.** If the estimation fails, the chain gives the pairs of the steps that succeeded before it raises that same
exception; a step number in the message is that of the failing step, counted from 1, and NonConvergence always names
it; afterwards the chain is finished. -/
theorem C92_failed (o : Opts) (ws : Weighting σ 𝕜 q) (e : List 𝕜) (b : List (Fin q → 𝕜)) (z : Option (Fin q → 𝕜))
    (ii : Option (List ℕ)) (heap : ℕ → σ) (x : Err) (h : (chainLoop o ws e b z ii heap).1 = .error x) :
    ∃ l step, l.length < ws.length ∧ Answers o (.fresh ws e b z ii) heap ((z, ii) :: later l) (.raised x step) ∧
      (∀ k, step = some k → k = l.length + 1) ∧ (x = .nonConv → step = some (l.length + 1)) := by
  obtain ⟨l, step, h1, h2, h3, h4⟩ := (suspended_answers o 1 ws e b z ii heap).2 x h
  refine ⟨l, step, h1, Answers.cons rfl h2, fun k hk => by rw [h3 k hk]; omega, fun hx => ?_⟩
  cases step with
  | none => exact absurd rfl (h4 hx)
  | some k => rw [h3 k rfl, Nat.add_comm]

/-- **C92.** `transfer_function` gives for an output the last estimate of the chain, and the rejected positions of all the
steps together. -/
theorem C92_transfer (o : Opts) (ws : Weighting σ 𝕜 q) (b : List (Fin q → 𝕜)) (line : List 𝕜) (z0 z : Option (Fin q → 𝕜))
    (inv m : List ℕ) (heap : ℕ → σ) (h : (oneOutput o ws b line z0 inv heap).1 = .ok (z, m)) :
    ∃ l : List ((Fin q → 𝕜) × List ℕ), Answers o (.fresh ws line b z0 (some inv)) heap ((z0, some inv) :: later l) .stopped ∧
      ((z0, some inv) :: later l).getLast?.map Prod.fst = some z ∧ mergeInvalid (inv :: l.map Prod.snd) = .ok m := by
  unfold oneOutput at h
  cases hc : chainLoop o ws line b z0 (some inv) heap with
  | mk r heap1 =>
  rw [hc] at h
  cases r with
  | error x => simp at h
  | ok l =>
    simp only at h
    cases hm : mergeInvalid (inv :: l.map Prod.snd) with
    | error x => rw [hm] at h; simp at h
    | ok m' =>
      rw [hm] at h
      simp only [Except.ok.injEq, Prod.mk.injEq] at h
      obtain ⟨rfl, rfl⟩ := h
      refine ⟨l, (C92_consumed o ws line b z0 (some inv) heap l (by rw [hc])).2, ?_, hm⟩
      cases hl : l.getLast? with
      | none => rw [List.getLast?_eq_none_iff.1 hl]; rfl
      | some p =>
        rw [List.getLast?_cons, later, List.getLast?_map, hl]
        rfl

open Razorback.Weights

/-- **C92.** The weight objects of the library qualify, whichever chains they are shared by and whichever steps are one and
the same object: so chains over `mest_weights`, `bi_weights(...)` or any sequence of such objects, advanced in any order,
do not disturb one another. -/
theorem C92_library (l : List (Action Mem)) (q : ℕ → ℕ) (o : ℕ → Opts) (ws : ℕ → List (Option (ℕ × Obj))) (e : ℕ → List 𝕜)
    (b : ∀ i, List (Fin (q i) → 𝕜)) (z : ∀ i, Option (Fin (q i) → 𝕜)) (ii : ℕ → Option (List ℕ)) (heap heap' : ℕ → Mem) (i : ℕ) :
    given i (run l (fun i => ⟨q i, o i, .fresh ((ws i).map (Option.map (fun p => (p.1, p.2.call)))) (e i) (b i) (z i) (ii i)⟩) heap) =
      (alone (o i) (advances i l) (.fresh ((ws i).map (Option.map (fun p => (p.1, p.2.call)))) (e i) (b i) (z i) (ii i)) heap').map
        (fun ev => ⟨q i, ev⟩) := by
  refine C92_interleaved l _ (fun i => ?_) heap heap' i
  intro k wf h
  obtain ⟨w, _, he⟩ := List.mem_map.1 h
  cases w with
  | none => simp at he
  | some w =>
    simp only [Option.map_some, Option.some.injEq, Prod.mk.injEq] at he
    rw [← he.2]
    exact C53_resets w.2

theorem exScale2 : IsScale (sizes (𝕜 := ℝ) [some 2, some (-4), none, some 8]) (2 / 0.44845) := by
  refine ((C55_value _).1 _).1 ?_
  have h := C55_equivariant (𝕜 := ℝ) [some 1, some (-2), none, some 4] 2
  rw [((C55_value _).1 _).2 exScale] at h
  convert h using 1
  · norm_num
  · norm_num

theorem results_base (w : Base) (st : Mem) (l : List (Call 𝕜 q)) : results (Obj.base w).call st l = results w.call st.2 l := by
  induction l generalizing st with
  | nil => rfl
  | cons c l ih => rw [results, results, ih]; rfl

/-- **C92 (not thread safe).** This is for chains advanced one at a time: if two estimations running at once share a
Thomson object, so that its calls are interleaved, the second call of one uses the scale of the other and its weights
are not those it would get alone. -/
theorem C92_not_concurrent : ∃ A0 B0 A1 : Call ℝ 1, A0.it = 0 ∧ B0.it = 0 ∧ A1.it = 1 ∧
    (results (Obj.base (.thomson (some 3))).call (none, none) [A0, B0, A1])[2]? ≠
      (results (Obj.base (.thomson (some 3))).call (none, none) [A0, A1])[1]? := by
  refine ⟨⟨0, [some 1, some (-2), none, some 4], [], [], []⟩, ⟨0, [some 2, some (-4), none, some 8], [], [], []⟩,
    ⟨1, [some 1], [], [], []⟩, rfl, rfl, rfl, ?_⟩
  intro h
  rw [results_base, results_base] at h
  obtain ⟨w1, h1, _, k1⟩ := C52_thomson (𝕜 := ℝ) (q := 1) (some 3) none ⟨0, [some 1, some (-2), none, some 4], [], [], []⟩ rfl
    [⟨1, [some 1], [], [], []⟩] (by simp) _ exScale (by norm_num) 1 _ rfl
  obtain ⟨w2, h2, _, k2⟩ := C52_thomson (𝕜 := ℝ) (q := 1) (some 3) (thomson (𝕜 := ℝ) (q := 1) (some 3) none 0
      [some 1, some (-2), none, some 4] [] [] []).2 ⟨0, [some 2, some (-4), none, some 8], [], [], []⟩ rfl
    [⟨1, [some 1], [], [], []⟩] (by simp) _ exScale2 (by norm_num) 1 _ rfl
  change (results (thomson (some 3)) none _)[1]? = _ at h1
  have h' := (h2.symm.trans h).trans h1
  simp only [Option.some.injEq, Except.ok.injEq] at h'
  subst h'
  have e := (k2 0 (some 1) rfl).symm.trans (k1 0 (some 1) rfl)
  obtain ⟨f, hf, anti, _⟩ := C52_expexp 3 (by norm_num)
  simp only [hf, Option.some.injEq, Flt.fin.injEq] at e
  exact absurd (anti.injective e) (by norm_num)

/-- Two chains over one sequence of weight objects, the second abandoned after its first pair. -/
example (heap : ℕ → Mem) : let ws : List (Option (ℕ × Obj)) := [none, some (0, .base (.huber 1.5)), some (1, .base (.thomson none))]
    let g : ℕ → Task Mem ℝ := fun i => ⟨1, {}, .fresh (ws.map (Option.map (fun p => (p.1, p.2.call)))) [i, 2, 6] [fun _ => 1, fun _ => 1, fun _ => 3]
      none none⟩
    given 0 (run [.advance 0, .advance 1, .advance 0, .advance 1, .other (fun h => Function.update h 1 (none, none)), .advance 0] g heap) =
      (alone {} 3 (g 0).gen heap).map (fun ev => ⟨1, ev⟩) :=
  C92_library (𝕜 := ℝ) [.advance 0, .advance 1, .advance 0, .advance 1, .other (fun h => Function.update h 1 (none, none)), .advance 0]
    (fun _ => 1) (fun _ => {}) (fun _ => [none, some (0, .base (.huber 1.5)), some (1, .base (.thomson none))]) (fun i => [i, 2, 6])
    (fun _ => [fun _ => 1, fun _ => 1, fun _ => 3]) (fun _ => none) (fun _ => none) heap heap 0

/-- A chain that fails at its first step: all the positions are excluded. -/
example (heap : ℕ → Mem) : ∃ l step, l.length < 1 ∧ Answers (𝕜 := ℝ) (q := 1) {} (.fresh [none] [5] [fun _ => 1] none (some [0])) heap
    ((none, some [0]) :: later l) (.raised .value step) := by
  obtain ⟨l, step, h1, h2, _⟩ := C92_failed (𝕜 := ℝ) (q := 1) {} [none] [5] [fun _ => 1] none (some [0]) heap .value (by
    simp [chainLoop, eliminate, delete])
  exact ⟨l, step, h1, h2⟩

end Razorback.Props
