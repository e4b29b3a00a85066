/-
Lemmas about the model of the impedance estimation.
-/
import Verif.Spec.Impedance
import Verif.Props.Transfer
import Verif.Props.Prefilter
import Verif.Props.Fourier

namespace Razorback.Impedance
open Razorback Razorback.Spec Razorback.MEst Razorback.Prefilter Razorback.Fourier Razorback.Props
open scoped Matrix

section
variable {𝕜 : Type} [RCLike 𝕜] {q : ℕ} {σ : Type}

/-- The rows determine the coefficients. -/
def Trivial (b : List (Fin q → 𝕜)) : Prop := ∀ d : Fin q → 𝕜, (∀ r ∈ b, r ⬝ᵥ d = 0) → d = 0

theorem wlse_trivial {x : List 𝕜} {y : List (Fin q → 𝕜)} {w : Option (List Flt)} {z : Fin q → 𝕜} (hx : x.length = y.length)
    (h : wlse x y w = .ok z) : Trivial y := by
  obtain ⟨ws, hw⟩ := weightsAre_of_ok h
  intro d hd
  apply ((wlse_ok hx hw).1 h).1 d
  intro j
  apply List.sum_eq_zero
  intro a ha
  obtain ⟨t, ht, rfl⟩ := List.mem_map.1 ha
  have hy : t.y ∈ y := by
    unfold obs at ht
    rw [List.mem_iff_getElem] at ht
    obtain ⟨i, hi, rfl⟩ := ht
    simp
  rw [hd _ hy]
  simp

theorem loop_trivial {wf : WFun σ 𝕜 q} {e : List 𝕜} {b : List (Fin q → 𝕜)} {o : MEst.Opts} (hb : e.length = b.length)
    {n it : ℕ} {r : List 𝕜} {inv : List ℕ} {prev : Option ℝ} {st : σ} {p : (Fin q → 𝕜) × List ℕ}
    (h : (MEst.loop wf e b o n it r inv prev st).1 = .ok p) : Trivial b := by
  cases n with
  | zero => simp [MEst.loop] at h
  | succ n =>
    rw [MEst.loop] at h
    cases hev : evalWeight wf it r e b inv o.eps st with
    | mk res st1 =>
    rw [hev] at h
    cases res with
    | error x => simp at h
    | ok wi =>
    obtain ⟨w, inv1⟩ := wi
    simp only at h
    cases hw : wlse e b w with
    | error x => rw [hw] at h; simp at h
    | ok z => exact wlse_trivial hb hw

theorem callEstimate_trivial {e : List 𝕜} {b : List (Fin q → 𝕜)} (hb : e.length = b.length) {z : Option (Fin q → 𝕜)}
    {w : Option (ℕ × WFun σ 𝕜 q)} {o : MEst.Opts} {heap : ℕ → σ} {p : (Fin q → 𝕜) × List ℕ}
    (h : (callEstimate e b z w o heap).1 = .ok p) : Trivial b := by
  cases w with
  | none =>
    simp only [callEstimate, mEstimate, List.any_nil, Bool.false_eq_true, if_false, List.length_nil, if_true] at h
    cases hw : wlse e b none with
    | error x => rw [hw] at h; simp at h
    | ok z => exact wlse_trivial hb hw
  | some w =>
    simp only [callEstimate, mEstimate] at h
    cases z with
    | none => simp at h
    | some z => exact loop_trivial hb h

theorem withoutAll_mem {β : Type} {l : List β} {ls : List (List ℕ)} {x : β} (h : x ∈ withoutAll l ls) : x ∈ l := by
  induction ls generalizing l with
  | nil => exact h
  | cons a ls ih =>
    have := ih h
    obtain ⟨j, hj, -⟩ := mem_without.1 this
    exact List.mem_of_getElem? hj

theorem length_withoutAll {α β : Type} {a : List α} {b : List β} (ls : List (List ℕ)) (h : a.length = b.length) :
    (withoutAll a ls).length = (withoutAll b ls).length := by
  induction ls generalizing a b with
  | nil => exact h
  | cons l ls ih => exact ih (length_without l h)

/-- An estimation that succeeds shows that the rows determine the coefficients, and its rejected positions are sorted
and exist. -/
theorem oneOutput_info {o : MEst.Opts} {ws : Weighting σ 𝕜 q} (hws : ws ≠ []) {b : List (Fin q → 𝕜)} {line : List 𝕜}
    (hb : line.length = b.length) {z0 : Option (Fin q → 𝕜)} {inv : List ℕ} {heap : ℕ → σ}
    {p : Option (Fin q → 𝕜) × List ℕ} (h : (oneOutput o ws b line z0 inv heap).1 = .ok p) :
    Trivial b ∧ p.2.Pairwise (· < ·) ∧ (∀ i ∈ p.2, i < line.length) ∧ (∀ i ∈ inv, i ∈ p.2) ∧ p.1 ≠ none := by
  obtain ⟨z, m⟩ := p
  have h' : oneOutput o ws b line z0 inv heap = (.ok (z, m), (oneOutput o ws b line z0 inv heap).2) := by
    rw [← h]
  have hin : ∀ i ∈ inv, i < line.length := by
    unfold oneOutput at h
    cases hc : chainLoop o ws line b z0 (some inv) heap with
    | mk res heap1 =>
    rw [hc] at h
    cases res with
    | error x => simp at h
    | ok steps => exact ((chainLoop_ok hb hc).2.2 hws).1
  obtain ⟨steps, h1, h2, h3, h4, h5, -⟩ := C48_chain o ws hws b line hb z0 inv heap _ z m h'
  refine ⟨?_, h4, fun i hi => ((h5 i).1 hi).1, ?_, ?_⟩
  · obtain ⟨w, ws', rfl⟩ := List.exists_cons_of_ne_nil hws
    obtain ⟨p, hk, -, hc, -⟩ := h2 0 w rfl
    have := callEstimate_trivial (length_withoutAll _ hb) hc
    intro d hd
    exact this d (fun r hr => hd r (withoutAll_mem hr))
  · intro i hi
    refine (h5 i).2 ⟨hin i hi, ?_⟩
    intro hc
    have : i ∈ without (List.range line.length) inv := withoutAll_mem (ls := steps.map Prod.snd) hc
    rw [without_range] at this
    simp [hi] at this
  · rw [h3]
    have hne : steps ≠ [] := by
      intro h0
      rw [h0] at h1
      exact hws (List.length_eq_zero_iff.1 h1.symm)
    rw [List.getLast?_eq_getLast_of_ne_nil hne]
    simp

theorem transferError_total {outputs : List (List 𝕜)} {inputs : Fin q → List 𝕜} {N : ℕ} (hne : outputs ≠ []) (hq : q ≠ 0)
    (hN : ∀ y ∈ outputs, y.length = N) (hin : ∀ j, (inputs j).length = N) (ht : Trivial (rowsOf inputs N))
    (z : List (Fin q → 𝕜)) (inv : List (List ℕ)) (hl : inv.length = outputs.length) :
    ∃ E, transferError outputs inputs z inv = .ok E ∧ E = (outputs.zip (z.zip inv)).map (fun t =>
      errorRow (rowsOf inputs N) t.1 t.2.1 t.2.2.length) := by
  have hdet : (gram (rowsOf inputs N) none)ᵀ.det ≠ 0 := by
    rw [Matrix.det_transpose]
    have hx : (List.replicate (rowsOf inputs N).length (0 : 𝕜)).length = (rowsOf inputs N).length := by simp
    have := (independent_iff (w := none) hx (by simp [eff])).1 ?_
    · exact this
    · rw [C44_independent]
      · intro d hd
        apply ht d
        intro r hr
        obtain ⟨i, hi, rfl⟩ := List.mem_iff_getElem.1 hr
        refine hd ⟨1, 0, (rowsOf inputs N)[i]⟩ ?_ (by simp)
        unfold obs
        rw [List.mem_iff_getElem]
        exact ⟨i, by simpa [eff] using hi, by simp [eff]⟩
      · intro t ht
        unfold obs at ht
        rw [List.mem_iff_getElem] at ht
        obtain ⟨i, hi, rfl⟩ := ht
        simp [eff]
  unfold transferError
  cases outputs with
  | nil => exact absurd rfl hne
  | cons y l =>
    have hy := hN y (by simp)
    simp only
    rw [if_neg, if_neg (by simpa using hl)]
    · rw [hy, if_neg hdet]
      exact ⟨_, rfl, rfl⟩
    · rw [hy]
      push Not
      refine ⟨hq, hin, ?_⟩
      intro hc
      obtain ⟨l, hl, hc⟩ := List.any_eq_true.1 hc
      simp [hN l hl] at hc

end

variable {σ κ : Type}

theorem mapM_fst {β γ : Type} {l : List (Option β × γ)} {z : List β} : l.mapM (fun p => p.1) = some z ↔ l.map Prod.fst = z.map some := by
  induction l generalizing z with
  | nil => cases z <;> simp
  | cons p l ih =>
    simp only [List.mapM_cons, Option.pure_def, Option.bind_eq_bind, List.map_cons]
    cases hp : p.1 with
    | none => cases z <;> simp
    | some a =>
      cases z with
      | nil => cases hm : l.mapM (fun p => p.1) <;> simp
      | cons b z =>
        simp only [Option.bind_some, List.map_cons, List.cons.injEq, Option.some.injEq]
        rw [← ih]
        cases hm : l.mapM (fun p => p.1) <;> simp

theorem width_eq {l : List (List ℂ)} {N : ℕ} (hne : l ≠ []) (hN : ∀ c ∈ l, c.length = N) : width l = N := by
  cases l with
  | nil => exact absurd rfl hne
  | cons c l => simp [width, hN c (by simp)]

/-- What a successful estimation shows. -/
structure EstInfo (outputs inputs : List (List ℂ)) (inv : List (List ℕ)) (z : List (Fin inputs.length → ℂ))
    (iv : List (List ℕ)) (N : ℕ) : Prop where
  outs : outputs ≠ []
  ins : inputs ≠ []
  outsN : ∀ y ∈ outputs, y.length = N
  insN : ∀ y ∈ inputs, y.length = N
  lenZ : z.length = outputs.length
  lenI : iv.length = outputs.length
  lenV : (inv = [] ∨ inv.length = outputs.length)
  triv : Trivial (rowsOf (cols inputs) N)
  sorted : ∀ v ∈ iv, v.Pairwise (· < ·) ∧ ∀ i ∈ v, i < N
  kept : ∀ (k : ℕ) g v, inv[k]? = some g → iv[k]? = some v → ∀ i ∈ g, i ∈ v

theorem estimate_info {rp : Bool} {ws : Weights σ} {o : MEst.Opts} {outputs inputs : List (List ℂ)} {inv : List (List ℕ)}
    {heap heap' : ℕ → σ} {z : List (Fin inputs.length → ℂ)} {iv : List (List ℕ)}
    (h : estimate rp ws o outputs inputs inv heap = (.ok (z, iv), heap')) :
    ∃ N, EstInfo outputs inputs inv z iv N := by
  unfold estimate at h
  split at h
  · simp at h
  cases ht : transferFunction outputs (cols inputs) (ws.at inputs.length) none (.each inv) o heap with
  | mk res heap1 =>
  rw [ht] at h
  cases res with
  | error x => simp at h
  | ok l =>
  simp only at h
  cases hm : l.mapM (fun p => p.1) with
  | none => rw [hm] at h; simp at h
  | some z' =>
  rw [hm] at h
  simp only [Prod.mk.injEq, Except.ok.injEq] at h
  obtain ⟨⟨rfl, rfl⟩, rfl⟩ := h
  have hq : inputs ≠ [] ∧ outputs ≠ [] := by
    unfold transferFunction at ht
    constructor
    · rintro rfl
      cases hn : (InvArg.each inv).norm outputs.length with
      | error x => rw [hn] at ht; simp at ht
      | ok invs =>
        rw [hn] at ht
        cases outputs <;> simp at ht
    · rintro rfl
      cases hn : (InvArg.each inv).norm 0 with
      | error x => simp [hn] at ht
      | ok invs => simp [hn] at ht
  obtain ⟨N, invs, zs, h1, h2, h3, h4, h5, h6, h7⟩ := transferFunction_ok ht
  obtain ⟨h8, h9⟩ := outputsLoop_ok h7
  have hlen : l.length = outputs.length := by simp [h8, h2, h3]
  rw [mapM_fst] at hm
  have hz : z'.length = l.length := by have := congrArg List.length hm; simpa using this.symm
  have hall : ∀ (i : ℕ) p, l[i]? = some p → ∃ y v hp, outputs[i]? = some y ∧ invs[i]? = some v ∧
      (oneOutput o (ws.at inputs.length) (rowsOf (cols inputs) N) y none v hp).1 = .ok p := by
    intro i p hp
    have hi : i < l.length := (List.getElem?_eq_some_iff.1 hp).1
    have hzz : zs[i]? = some none := by
      rw [h4]
      simp only
      rw [List.getElem?_replicate, if_pos (by omega)]
    have hy := List.getElem?_eq_getElem (l := outputs) (i := i) (by omega)
    have hv := List.getElem?_eq_getElem (l := invs) (i := i) (by omega)
    obtain ⟨p', hpp, hr, ho⟩ := h9 i (outputs[i]'(by omega), none, invs[i]'(by omega)) (by
      rw [List.getElem?_zip_eq_some, List.getElem?_zip_eq_some]
      exact ⟨hy, hzz, hv⟩)
    rw [hp] at hr
    obtain rfl := Option.some.inj hr
    exact ⟨_, _, hpp, hy, hv, ho⟩
  have hws : ws.at inputs.length ≠ [] := by
    intro h0
    obtain ⟨p, l', rfl⟩ := List.exists_cons_of_ne_nil (l := l) (by
      rintro rfl
      exact hq.2 (List.length_eq_zero_iff.1 hlen.symm))
    obtain ⟨y, v, hp, -, -, ho⟩ := hall 0 p rfl
    rw [h0] at ho
    obtain ⟨a, z'', rfl⟩ := List.exists_cons_of_ne_nil (l := z') (by rintro rfl; simp at hz)
    simp only [oneOutput, chainLoop] at ho
    split at ho
    · simp at ho
    · simp only [List.getLast?_nil, Except.ok.injEq] at ho
      rw [← ho] at hm
      simp at hm
  have hinfo : ∀ (i : ℕ) p, l[i]? = some p → ∃ v, invs[i]? = some v ∧ Trivial (rowsOf (cols inputs) N) ∧
      p.2.Pairwise (· < ·) ∧ (∀ i ∈ p.2, i < N) ∧ (∀ i ∈ v, i ∈ p.2) := by
    intro i p hp
    obtain ⟨y, v, hpp, hy, hv, ho⟩ := hall i p hp
    have hyN := h5 y (List.mem_of_getElem? hy)
    obtain ⟨a, b, c, d, -⟩ := oneOutput_info hws (by simp [rowsOf, hyN]) ho
    exact ⟨v, hv, a, b, by rw [← hyN]; exact c, d⟩
  refine ⟨N, hq.2, hq.1, h5, ?_, ?_, by simpa using hlen, ?_, ?_, ?_, ?_⟩
  · intro y hy
    obtain ⟨j, hj, rfl⟩ := List.mem_iff_getElem.1 hy
    exact h6 ⟨j, hj⟩
  · rw [hz, hlen]
  · cases inv with
    | nil => exact .inl rfl
    | cons a inv =>
      simp only [InvArg.norm, Except.ok.injEq] at h1
      subst h1
      exact .inr h2
  · obtain ⟨p, l', rfl⟩ := List.exists_cons_of_ne_nil (l := l) (by
      rintro rfl
      exact hq.2 (List.length_eq_zero_iff.1 hlen.symm))
    obtain ⟨v, -, a, -⟩ := hinfo 0 p rfl
    exact a
  · intro v hv
    obtain ⟨p, hp, rfl⟩ := List.mem_map.1 hv
    obtain ⟨i, hi⟩ := List.getElem?_of_mem hp
    obtain ⟨v, -, -, b, c, -⟩ := hinfo i p hi
    exact ⟨b, c⟩
  · intro k g v hg hv i hi
    rw [List.getElem?_map, Option.map_eq_some_iff] at hv
    obtain ⟨p, hp, rfl⟩ := hv
    obtain ⟨v', hv', -, -, -, d⟩ := hinfo k p hp
    cases inv with
    | nil => simp at hg
    | cons a inv =>
      simp only [InvArg.norm, Except.ok.injEq] at h1
      subst h1
      rw [hg] at hv'
      obtain rfl := Option.some.inj hv'
      exact d i hi

theorem pick_ok {coeffs : List (List ℂ)} {idx : List ℕ} {l : List (List ℂ)} : pick coeffs idx = .ok l ↔ Picked coeffs idx l := by
  unfold pick Picked
  rw [mapE_ok]
  constructor <;> intro h <;> refine h.imp (fun i c hc => ?_)
  · cases hi : coeffs[i]? with
    | none => rw [hi] at hc; simp at hc
    | some a => rw [hi] at hc; simpa using hc
  · rw [hc]

theorem picked_exists {coeffs : List (List ℂ)} {idx : List ℕ} (h : ∀ i ∈ idx, i < coeffs.length) : ∃ l, Picked coeffs idx l := by
  induction idx with
  | nil => exact ⟨[], .nil⟩
  | cons i idx ih =>
    obtain ⟨l, hl⟩ := ih (fun i hi => h i (by simp [hi]))
    exact ⟨coeffs[i]'(h i (by simp)) :: l, .cons (List.getElem?_eq_getElem _) hl⟩

theorem picked_mem {coeffs : List (List ℂ)} {idx : List ℕ} {l : List (List ℂ)} (h : Picked coeffs idx l) :
    l.length = idx.length ∧ ∀ c ∈ l, c ∈ coeffs := by
  induction h with
  | nil => simp
  | cons h1 _ ih =>
    refine ⟨by simp [ih.1], ?_⟩
    intro c hc
    rcases List.mem_cons.1 hc with rfl | hc
    · exact List.mem_of_getElem? h1
    · exact ih.2 c hc

/-- The failure result. -/
noncomputable def failedResult (e b : List (List ℂ)) (nr : ℕ) : Result :=
  ⟨nans e.length b.length, [], nanErrors e.length b.length, nans b.length nr⟩

theorem nans_allNaN {β : Type} (n m : ℕ) : AllNaN (nans (β := β) n m) n m := by
  refine ⟨by simp [nans], ?_⟩
  intro row hrow
  obtain ⟨_, rfl⟩ := List.mem_replicate.1 hrow
  refine ⟨by simp, fun x hx => (List.mem_replicate.1 hx).2⟩

theorem nanErrors_allNaN (n m : ℕ) : AllNaNErrors (nanErrors n m) n m := by
  refine ⟨by simp [nanErrors], ?_⟩
  intro row hrow
  obtain ⟨_, rfl⟩ := List.mem_replicate.1 hrow
  refine ⟨by simp, fun x hx => (List.mem_replicate.1 hx).2⟩

theorem failedResult_isFailure (e b : List (List ℂ)) (nr : ℕ) :
    IsFailure (failedResult e b nr) e.length b.length b.length nr :=
  ⟨nans_allNaN _ _, nanErrors_allNaN _ _, rfl, nans_allNaN _ _⟩

/-- After the Fourier step. -/
noncomputable def stages (o : Opts σ) (wins : List ((ℚ × ℚ) × ℕ × ℕ × ℕ)) (e b : List (List ℂ)) (br : Option (List (List ℂ)))
    (heap : ℕ → σ) : Except Err Result × (ℕ → σ) :=
  match br with
  | none => secondStage o wins e b .none (List.replicate b.length []) (failedResult e b 0) heap
  | some br =>
    match firstStage o b br heap with
    | (.error x, heap) => (.error x, heap)
    | (.ok none, heap) => (.ok (failedResult e b br.length), heap)
    | (.ok (some (T, be, ivT)), heap) =>
      secondStage o wins e be (.each (List.replicate e.length ivT)) (T.map (fun r => (List.ofFn r).map some))
        (failedResult e b br.length) heap

theorem remoteChannels_eq {S : SigSet ℂ κ} {o : Opts σ} {E B : List ℕ} {R : Option (List ℕ)} (hc : Channels S o E B R) :
    remoteChannels S o = .ok R := by
  unfold remoteChannels
  rcases hc.remote with ⟨h3 | h3, rfl⟩ | ⟨name, l, h3, h4, h5, rfl⟩
  · rw [h3]
  · rw [h3]; rfl
  · rw [h3]
    simp only
    rw [if_neg (by simpa using h4), h5]

theorem oneFreq_fourier {cal : κ → ℚ → Option ℂ} {S : SigSet ℂ κ} {freq : ℚ} {o : Opts σ} {heap : ℕ → σ} {E B : List ℕ}
    {R : Option (List ℕ)} (hc : Channels S o E B R) {x : Err} (h : setCoeffs cal S freq o.nper o.overlap o.win = .error x) :
    oneFreq cal S freq o heap = (.ok ⟨nans B.length E.length, [], nanErrors B.length E.length, nans B.length (remoteCount R)⟩, heap) := by
  unfold oneFreq
  rw [hc.elec, hc.mag, remoteChannels_eq hc]
  simp only [h, remoteCount]

theorem oneFreq_stages {cal : κ → ℚ → Option ℂ} {S : SigSet ℂ κ} {freq : ℚ} {o : Opts σ} {heap : ℕ → σ} {E B : List ℕ}
    {R : Option (List ℕ)} (hc : Channels S o E B R) {coeffs : List (List ℂ)} {w : List ℕ × List ℕ × List ℕ}
    (h : setCoeffs cal S freq o.nper o.overlap o.win = .ok (coeffs, w)) {e b : List (List ℂ)} (he : Picked coeffs E e)
    (hb : Picked coeffs B b) {br : Option (List (List ℂ))}
    (hr : (R = none ∧ br = none) ∨ ∃ r l, R = some r ∧ br = some l ∧ Picked coeffs r l) :
    oneFreq cal S freq o heap = stages o (windows S w) e b br heap := by
  unfold oneFreq
  rw [hc.elec, hc.mag, remoteChannels_eq hc]
  rw [← pick_ok] at he hb
  rcases hr with ⟨rfl, rfl⟩ | ⟨r, l, rfl, rfl, hl⟩
  · simp only [h, he, hb, stages, failedResult, Option.map_none, Option.getD_none]
  · have hlen := (picked_mem hl).1
    rw [← pick_ok] at hl
    simp only [h, he, hb, hl, stages, failedResult, Option.map_some, Option.getD_some, ← hlen]
    rcases firstStage o b l heap with ⟨_ | (_ | _), _⟩ <;> rfl

theorem reach_chans [One κ] {cal : κ → ℚ → Option ℂ} {S : SigSet ℂ κ} (hS : Reach S) {freq : ℚ} {o : Opts σ} {E B : List ℕ}
    {R : Option (List ℕ)} (hc : Channels S o E B R) {coeffs : List (List ℂ)} {w : List ℕ × List ℕ × List ℕ}
    (h : setCoeffs cal S freq o.nper o.overlap o.win = .ok (coeffs, w)) :
    ∃ e b br, Picked coeffs E e ∧ Picked coeffs B b ∧
      ((R = none ∧ br = none) ∨ ∃ r l, R = some r ∧ br = some l ∧ Picked coeffs r l ∧ l ≠ [] ∧ ∀ c ∈ l, c.length = w.1.sum) ∧
      e ≠ [] ∧ b ≠ [] ∧ (∀ c ∈ e, c.length = w.1.sum) ∧ (∀ c ∈ b, c.length = w.1.sum) := by
  obtain ⟨lN, lL, lS⟩ := w
  have hok := (reach_sinv hS).ok
  obtain ⟨raws, h1, h2, h3, h4, h5, h6⟩ := C41_concatenation cal S hS freq o.nper o.overlap o.win coeffs lN lL lS h
  have hne : S.runs ≠ [] := by
    intro h0
    obtain ⟨x, hx⟩ := (C41_raises_iff cal S freq o.nper o.overlap o.win).2 (.inl h0)
    rw [hx] at h
    simp at h
  obtain ⟨s, runs, hs⟩ := List.exists_cons_of_ne_nil hne
  have hlen := (h5 s (by rw [hs]; simp)).1
  have key : ∀ (name : String) (l : List ℕ), S.tags.getItem name = .ok l →
      ∃ p, Picked coeffs l p ∧ p ≠ [] ∧ ∀ c ∈ p, c.length = lN.sum := by
    intro name l hl
    obtain ⟨-, hne, hi⟩ := hok.tags name l hl
    obtain ⟨p, hp⟩ := picked_exists (coeffs := coeffs) (idx := l) (fun i hi' => by rw [hlen]; exact hi s (by rw [hs]; simp) i hi')
    obtain ⟨hp1, hp2⟩ := picked_mem hp
    refine ⟨p, hp, ?_, ?_⟩
    · rintro rfl; exact hne (List.length_eq_zero_iff.1 hp1.symm)
    · intro c hc
      obtain ⟨i, hi⟩ := List.getElem?_of_mem (hp2 c hc)
      exact (h6 i (List.getElem?_eq_some_iff.1 hi).1).2 c hi
  obtain ⟨e, e1, e2, e3⟩ := key _ _ hc.elec
  obtain ⟨b, b1, b2, b3⟩ := key _ _ hc.mag
  obtain ⟨-, hR⟩ | ⟨name, l, -, -, hl, hR⟩ := hc.remote
  · exact ⟨e, b, none, e1, b1, .inl ⟨hR, rfl⟩, e2, b2, e3, b3⟩
  · obtain ⟨p, p1, p2, p3⟩ := key _ _ hl
    exact ⟨e, b, some p, e1, b1, .inr ⟨l, p, hR, rfl, p1, p2, p3⟩, e2, b2, e3, b3⟩

theorem applyPrefilter_total {outputs : List (List ℂ)} {β : Type} {inputs : β}
    {pre : Option (List ℂ → β → Except Err (List ℕ))} {inv : InvArg} {given : List (List ℕ)}
    (hg : inv.norm outputs.length = .ok given) (hl : given.length = outputs.length)
    (hp : ∀ f, pre = some f → ∀ line rows, ∃ l, f line rows = .ok l) :
    ∃ res, applyPrefilter outputs inputs pre inv = .ok res := by
  cases pre with
  | none => exact ⟨given, by simp [applyPrefilter, hg, hl]⟩
  | some f =>
    have : ∃ rej, List.Forall₂ (fun x l => f x inputs = .ok l) outputs rej := by
      clear hg hl
      induction outputs with
      | nil => exact ⟨[], .nil⟩
      | cons y ys ih =>
        obtain ⟨l, hl⟩ := hp f rfl y inputs
        obtain ⟨rej, hr⟩ := ih
        exact ⟨l :: rej, .cons hl hr⟩
    obtain ⟨rej, hr⟩ := this
    obtain ⟨res, h, -⟩ := C58_union outputs inputs f inv given hg hl rej hr
    exact ⟨res, h⟩

/-- A second stage whose prefilter works. -/
theorem secondStage_cases {o : Opts σ} {wins : List ((ℚ × ℚ) × ℕ × ℕ × ℕ)} {e be : List (List ℂ)} {ivid1 : InvArg}
    {T : List (List (Option ℂ))} {failed : Result} {heap : ℕ → σ} {inv : List (List ℕ)}
    (hp : applyPrefilter e (rows be) (o.prefilter.map (fun p => p be.length)) ivid1 = .ok inv) :
    (∃ x heap', estimate o.realPb o.weights o.mest e be inv heap = (.error x, heap') ∧
      secondStage o wins e be ivid1 T failed heap = (if o.silentFail then .ok failed else .error x, heap')) ∨
    ∃ z iv N err heap', estimate o.realPb o.weights o.mest e be inv heap = (.ok (z, iv), heap') ∧ EstInfo e be inv z iv N ∧
      transferError e (cols be) z iv = .ok err ∧ err.length = e.length ∧
      secondStage o wins e be ivid1 T failed heap = (.ok ⟨z.map (fun r => (List.ofFn r).map some),
        if o.keepInvalidTimes then iv.map (timesLine wins) else iv.map (fun _ => []),
        err.map List.ofFn, T⟩, heap') := by
  cases he : estimate o.realPb o.weights o.mest e be inv heap with
  | mk res heap' =>
  cases res with
  | error x =>
    refine .inl ⟨x, heap', rfl, ?_⟩
    unfold secondStage
    rw [hp]
    simp only [he]
    split <;> rfl
  | ok p =>
    obtain ⟨z, iv⟩ := p
    obtain ⟨N, hi⟩ := estimate_info he
    have hins : be.length ≠ 0 := fun h0 => hi.ins (List.length_eq_zero_iff.1 h0)
    obtain ⟨err, herr, hE⟩ := transferError_total (inputs := cols be) hi.outs hins hi.outsN
      (fun j => hi.insN _ (List.getElem_mem _)) hi.triv z iv hi.lenI
    refine .inr ⟨z, iv, N, err, heap', rfl, hi, herr, ?_, ?_⟩
    · rw [hE]; simp [hi.lenZ, hi.lenI]
    · unfold secondStage
      rw [hp]
      simp only [he, herr]

theorem firstStage_eq (o : Opts σ) (b br : List (List ℂ)) (heap : ℕ → σ) : firstStage o b br heap =
    match applyPrefilter b (rows br) ((firstPrefilter o).map (fun p => p br.length)) .none with
    | .error x => (.error x, heap)
    | .ok inv =>
      match estimate o.realPb (firstWeights o) o.mest b br inv heap with
      | (.error x, heap) => if o.silentFail then (.ok none, heap) else (.error x, heap)
      | (.ok (T, ivT), heap) => (.ok (some (T, predict br T, ivT.foldl union1d [])), heap) := by
  have hw : o.orWeights = firstWeights o := by
    unfold firstWeights Opts.orWeights
    cases o.remoteWeights with
    | none => simp
    | some l => cases l <;> simp
  have hp : o.orPrefilter = firstPrefilter o := by
    unfold firstPrefilter Opts.orPrefilter
    cases o.remotePrefilter <;> simp
  unfold firstStage
  rw [hw, hp]
  cases applyPrefilter b (rows br) ((firstPrefilter o).map (fun p => p br.length)) .none with
  | error x => rfl
  | ok inv =>
    simp only
    rcases estimate o.realPb (firstWeights o) o.mest b br inv heap with ⟨_ | _, _⟩ <;> rfl

theorem firstStage_cases {o : Opts σ} {b br : List (List ℂ)} {heap : ℕ → σ} {inv : List (List ℕ)}
    (hp : applyPrefilter b (rows br) ((firstPrefilter o).map (fun p => p br.length)) .none = .ok inv) :
    (∃ x heap', estimate o.realPb (firstWeights o) o.mest b br inv heap = (.error x, heap') ∧
      firstStage o b br heap = (if o.silentFail then .ok none else .error x, heap')) ∨
    ∃ T iv N heap', estimate o.realPb (firstWeights o) o.mest b br inv heap = (.ok (T, iv), heap') ∧ EstInfo b br inv T iv N ∧
      firstStage o b br heap = (.ok (some (T, predict br T, iv.foldl union1d [])), heap') := by
  rw [firstStage_eq, hp]
  simp only
  cases he : estimate o.realPb (firstWeights o) o.mest b br inv heap with
  | mk res heap' =>
  cases res with
  | error x =>
    refine .inl ⟨x, heap', rfl, ?_⟩
    simp only
    split <;> rfl
  | ok p =>
    obtain ⟨T, iv⟩ := p
    obtain ⟨N, hi⟩ := estimate_info he
    exact .inr ⟨T, iv, N, heap', rfl, hi, rfl⟩

section
variable {κ σ : Type}

theorem forall₂_length_iff {α β : Type} {l : List (List α)} {l' : List (List β)} :
    List.Forall₂ (fun a b => a.length = b.length) l l' ↔ l.map List.length = l'.map List.length := by
  induction l generalizing l' with
  | nil => cases l' <;> simp
  | cons a l ih => cases l' <;> simp [ih]

theorem sameShape_iff {r r' : Result} : SameShape r r' ↔ r.shape = r'.shape := by
  simp only [SameShape, forall₂_length_iff, Result.shape, Prod.mk.injEq]

theorem stack_eq (rs : List Result) : (stack rs = .ok rs ∧ ∀ r ∈ rs, ∀ r' ∈ rs, SameShape r r') ∨
    stack rs = .error .value ∧ ∃ r ∈ rs, ∃ r' ∈ rs, ¬ SameShape r r' := by
  simp only [sameShape_iff]
  cases rs with
  | nil => simp [stack]
  | cons r l =>
    by_cases h : l.all (fun r' => decide (r'.shape = r.shape)) = true
    · refine .inl ⟨if_pos h, ?_⟩
      have h1 : ∀ a ∈ r :: l, a.shape = r.shape := by
        intro a ha
        rcases List.mem_cons.1 ha with rfl | ha
        · rfl
        · simpa using List.all_eq_true.1 h a ha
      intro a ha b hb
      rw [h1 a ha, h1 b hb]
    · refine .inr ⟨if_neg h, ?_⟩
      rw [List.all_eq_true] at h
      push Not at h
      obtain ⟨a, ha, h⟩ := h
      exact ⟨a, by simp [ha], r, by simp, by simpa using h⟩

theorem impedance_ok {cal : κ → ℚ → Option ℂ} {S : SigSet ℂ κ} {o : Impedance.Opts σ} {freqs : List ℚ} {heap : ℕ → σ}
    {rs : List Result} : (impedance cal S o freqs heap).1 = .ok rs ↔
      (eachFreq cal S o freqs heap).1 = .ok rs ∧ ∀ r ∈ rs, ∀ r' ∈ rs, SameShape r r' := by
  unfold impedance
  generalize eachFreq cal S o freqs heap = y
  obtain ⟨x | rs', heap⟩ := y
  · simp
  · simp only [Except.ok.injEq]
    rcases stack_eq rs' with ⟨h1, h2⟩ | ⟨h1, h2⟩
    · rw [h1]
      simp only [Except.ok.injEq]
      exact ⟨fun h => ⟨h, h ▸ h2⟩, fun h => h.1⟩
    · rw [h1]
      simp only [reduceCtorEq, false_iff]
      rintro ⟨rfl, h3⟩
      obtain ⟨r, hr, r', hr', h⟩ := h2
      exact h (h3 r hr r' hr')

theorem impedance_error {cal : κ → ℚ → Option ℂ} {S : SigSet ℂ κ} {o : Impedance.Opts σ} {freqs : List ℚ} {heap : ℕ → σ}
    {x : Err} : (impedance cal S o freqs heap).1 = .error x ↔ (eachFreq cal S o freqs heap).1 = .error x ∨
      x = .value ∧ ∃ rs, (eachFreq cal S o freqs heap).1 = .ok rs ∧ ∃ r ∈ rs, ∃ r' ∈ rs, ¬ SameShape r r' := by
  unfold impedance
  generalize eachFreq cal S o freqs heap = y
  obtain ⟨y | rs', heap⟩ := y
  · simp
  · simp only [reduceCtorEq, Except.ok.injEq, false_or, exists_eq_left']
    rcases stack_eq rs' with ⟨h1, h2⟩ | ⟨h1, h2⟩
    · rw [h1]
      simp only [reduceCtorEq, false_iff]
      rintro ⟨-, r, hr, r', hr', h⟩
      exact h (h2 r hr r' hr')
    · rw [h1]
      simp only [Except.error.injEq]
      exact ⟨fun h => ⟨h.symm, h2⟩, fun h => h.1.symm⟩

theorem impedance_snd (cal : κ → ℚ → Option ℂ) (S : SigSet ℂ κ) (o : Impedance.Opts σ) (freqs : List ℚ) (heap : ℕ → σ) :
    (impedance cal S o freqs heap).2 = (eachFreq cal S o freqs heap).2 := by
  unfold impedance
  generalize eachFreq cal S o freqs heap = y
  obtain ⟨x | rs', heap⟩ := y <;> rfl

end

end Razorback.Impedance
