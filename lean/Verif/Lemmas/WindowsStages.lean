/-
The two stages of the impedance estimation do not depend on the order and the phases of the windows.
-/
import Verif.Lemmas.Windows
import Verif.Props.Units

namespace Razorback.Windows
open Razorback Razorback.Spec Razorback.MEst Razorback.Prefilter Razorback.Props Razorback.Impedance
open scoped Matrix

variable {σ : Type}

section
variable {T T' : List ℕ} (hp : T'.Perm T) (hn : T.Nodup) {u : ℕ → ℂ} (hu : ∀ t, ‖u t‖ = 1)

theorem τ_false (x : ℂ) : τ false x = x := rfl

theorem allAlike_at {ws : Impedance.Weights σ} (h : AllAlike ws) (q : ℕ) : ∀ i wf, some (i, wf) ∈ ws.at q → Alike wf := by
  intro i wf hm
  obtain ⟨p, h1, h2⟩ := List.mem_map.1 hm
  obtain ⟨⟨j, f⟩, rfl, h3⟩ := Option.map_eq_some_iff.1 h2
  simp only [Prod.mk.injEq] at h3
  obtain ⟨rfl, rfl⟩ := h3
  exact h _ f h1 q

/-- Lists of positions of the same windows, in increasing order. -/
def SameRej (T T' : List ℕ) (a b : List ℕ) : Prop := SameBad T T' a b ∧ a.Pairwise (· < ·) ∧ b.Pairwise (· < ·)

theorem sameRej_self {a b : List ℕ} (h : SameRej T T a b) : b = a := by
  obtain ⟨⟨bad, h1, h2⟩, h3, h4⟩ := h
  apply sorted_ext h4 h3
  intro i
  constructor
  · intro hi
    have hl := h2.1 i hi
    rw [h1.2 i hl]
    exact (h2.2 i hl).1 hi
  · intro hi
    have hl := h1.1 i hi
    rw [h2.2 i hl]
    exact (h1.2 i hl).1 hi

open Classical in
theorem marks_length {a : List ℕ} {bad : ℕ → Prop} (h : Marks T a bad) (hs : a.Pairwise (· < ·)) : a.length = T.countP (fun t => decide (bad t)) := by
  have h1 : a = (List.range T.length).filter (fun i => decide (bad (T.getD i 0))) := by
    apply sorted_ext hs (List.pairwise_lt_range.filter _)
    intro i
    simp only [List.mem_filter, List.mem_range, decide_eq_true_eq]
    constructor
    · intro hi
      have hl := h.1 i hi
      refine ⟨hl, ?_⟩
      rw [getD_get hl]
      exact (h.2 i hl).1 hi
    · rintro ⟨hl, hb⟩
      rw [getD_get hl] at hb
      exact (h.2 i hl).2 hb
  have h2 : T = (List.range T.length).map (fun i => T.getD i 0) := by
    apply List.ext_getElem
    · simp
    · intro i h1 h2
      simp [h1]
  rw [h1, ← List.countP_eq_length_filter]
  conv_rhs => rw [h2]
  rw [List.countP_map]
  rfl

include hp in
theorem sameRej_length {a b : List ℕ} (h : SameRej T T' a b) : b.length = a.length := by
  obtain ⟨⟨bad, h1, h2⟩, h3, h4⟩ := h
  rw [marks_length h1 h3, marks_length h2 h4]
  exact hp.countP_eq _

include hp hn hu in
theorem estimateQ_alike {ws : Impedance.Weights σ} (hws : AllAlike ws) {rp : Bool} {o : MEst.Opts} (xs : List (ℕ → ℂ)) {q : ℕ}
    (y : ℕ → Fin q → ℂ) {inv inv' : List (List ℕ)} (hi : List.Forall₂ (SameBad T T') inv inv') (heap heap' : ℕ → σ) :
    Agree (fun p p' => p'.1 = p.1 ∧ List.Forall₂ (SameRej T T') p.2 p'.2)
      (estimateQ rp ws o (xs.map (fun x => T.map x)) q (fun j => T.map (fun t => y t j)) inv heap).1
      (estimateQ rp ws o (xs.map (fun x => T'.map (fun t => u t * x t))) q (fun j => T'.map (fun t => u t * y t j)) inv' heap').1 := by
  unfold estimateQ
  by_cases hrp : rp = true
  · rw [if_pos hrp, if_pos hrp]
    exact .raised _
  rw [if_neg hrp, if_neg hrp]
  have key := transferFunction_alike hp hu (c := false) (allAlike_at hws q) hn xs y none (.each hi) o heap heap'
  simp only [τ_false, Option.map_none] at key
  generalize transferFunction (xs.map (fun x => T'.map _)) _ (ws.at q) none (.each inv') o heap' = d' at key ⊢
  generalize transferFunction (xs.map (fun x => T.map x)) _ (ws.at q) none (.each inv) o heap = d at key ⊢
  obtain ⟨d, g⟩ := d
  obtain ⟨d', g'⟩ := d'
  simp only at key
  cases key with
  | raised e => exact .raised _
  | @done l l' h =>
    simp only
    have hm : l'.mapM (fun p => p.1) = l.mapM (fun p => p.1) := by
      induction h with
      | nil => rfl
      | cons h1 _ ih =>
        rw [List.mapM_cons, List.mapM_cons, ih, h1.1]
        congr 1
        cases (Prod.fst _ : Option (Fin q → ℂ)) <;> rfl
    rw [hm]
    cases l.mapM (fun p => p.1) with
    | none => exact .raised _
    | some z =>
      refine .done ⟨rfl, ?_⟩
      rw [List.forall₂_map_left_iff, List.forall₂_map_right_iff]
      exact h.imp (fun p p' h => h.2)

theorem marks_union {a b : List ℕ} {bad bad' : ℕ → Prop} (h1 : Marks T a bad) (h2 : Marks T b bad') :
    Marks T (union1d a b) (fun t => bad t ∨ bad' t) := by
  refine ⟨?_, ?_⟩
  · intro i hi
    rw [mem_union1d] at hi
    exact hi.elim (h1.1 i) (h2.1 i)
  · intro i hi
    rw [mem_union1d, h1.2 i hi, h2.2 i hi]

theorem sameBad_union {a b a' b' : List ℕ} (h1 : SameBad T T' a a') (h2 : SameBad T T' b b') :
    SameBad T T' (union1d a b) (union1d a' b') := by
  obtain ⟨bad, k1, k2⟩ := h1
  obtain ⟨bad', k3, k4⟩ := h2
  exact ⟨_, marks_union k1 k3, marks_union k2 k4⟩

include hu hp in
theorem applyPrefilter_alike {pre : Option Pre} (hpre : PreAlike pre T T') (xs : List (ℕ → ℂ)) {q : ℕ} (y : ℕ → Fin q → ℂ)
    {inv inv' : InvArg} (hi : SameInv T T' inv inv') :
    Agree (List.Forall₂ (SameBad T T'))
      (applyPrefilter (xs.map (fun x => T.map x)) (T.map y) (pre.map (fun p => p q)) inv)
      (applyPrefilter (xs.map (fun x => T'.map (fun t => u t * x t))) (T'.map (fun t j => u t * y t j)) (pre.map (fun p => p q)) inv') := by
  unfold applyPrefilter
  have hN := norm_alike hp hi xs.length
  rw [List.length_map, List.length_map]
  generalize inv.norm xs.length = d at hN ⊢
  generalize inv'.norm xs.length = d' at hN ⊢
  cases hN with
  | raised e => exact .raised _
  | @done iv iv' hiv =>
    simp only [← hiv.length_eq]
    split
    · exact .raised _
    · cases pre with
      | none => exact .done hiv
      | some p =>
        simp only [Option.map_some]
        rename_i hlen
        clear hlen hi inv inv'
        induction hiv generalizing xs with
        | nil => simp only [List.zip_nil_right, mapE]; exact .done .nil
        | @cons a a' l l' h1 _ ih =>
          cases xs with
          | nil => exact .done .nil
          | cons x xs =>
            simp only [List.map_cons, List.zip_cons_cons, mapE]
            have hx := hpre p rfl q u hu x y
            generalize p q (T.map x) (T.map y) = b at hx ⊢
            generalize p q (T'.map _) _ = b' at hx ⊢
            cases hx with
            | raised e => exact .raised _
            | done h2 =>
              simp only
              have := ih xs
              generalize mapE _ ((xs.map (fun x => T.map x)).zip l) = d at this ⊢
              generalize mapE _ ((xs.map (fun x => T'.map _)).zip l') = d' at this ⊢
              cases this with
              | raised e => exact .raised _
              | done h3 => exact .done (.cons (sameBad_union h1 h2) h3)

include hp hu in
theorem errorRow_alike {q : ℕ} (x : ℕ → ℂ) (y : ℕ → Fin q → ℂ) (z : Fin q → ℂ) (n : ℕ) :
    errorRow (T'.map (fun t j => u t * y t j)) (T'.map (fun t => u t * x t)) z n = errorRow (T.map y) (T.map x) z n := by
  funext j
  have hg := gram_alike hp hu (c := false) y none
  have hr := residual_alike (c := false) (u := u) T' x y z
  have hz : τ false ∘ z = z := rfl
  simp only [τ_false, Option.map_none, hz] at hg hr
  have hg' : gram (T'.map (fun t j => u t * y t j)) none = gram (T.map y) none := by
    rw [hg]
    ext i k
    rfl
  simp only [errorRow, List.length_map, hp.length_eq, hg', hr, residual_list, List.map_map, Function.comp_def, norm_mul, hu, one_mul]
  rw [(hp.map (fun t => ‖x t - y t ⬝ᵥ z‖ ^ 2)).sum_eq]

include hp hu in
theorem transferError_alike {q : ℕ} (xs : List (ℕ → ℂ)) (y : ℕ → Fin q → ℂ) (zs : List (Fin q → ℂ)) {iv iv' : List (List ℕ)}
    (hi : List.Forall₂ (SameRej T T') iv iv') :
    transferError (xs.map (fun x => T'.map (fun t => u t * x t))) (fun j => T'.map (fun t => u t * y t j)) zs iv' =
      transferError (xs.map (fun x => T.map x)) (fun j => T.map (fun t => y t j)) zs iv := by
  unfold transferError
  cases xs with
  | nil => rfl
  | cons x xs =>
    have e1 : ((x :: xs).map (fun x => T.map x)).any (fun l => decide (l.length ≠ (T.map x).length)) = false := by
      simp
    have e2 : ((x :: xs).map (fun x => T'.map (fun t => u t * x t))).any
        (fun l => decide (l.length ≠ (T'.map (fun t => u t * x t)).length)) = false := by
      simp
    rw [List.map_cons] at e1 e2
    simp only [List.map_cons, e1, e2]
    have h2 : ∀ (T : List ℕ) (x : ℕ → ℂ) (y : ℕ → Fin q → ℂ), rowsOf (fun j => T.map (fun t => y t j)) (T.map x).length = T.map y := by
      intro T x y
      rw [List.length_map, rowsOf_list]
    have hg : gram (T'.map (fun t j => u t * y t j)) none = gram (T.map y) none := by
      have hg := gram_alike hp hu (c := false) y none
      simp only [τ_false, Option.map_none] at hg
      rw [hg]
      ext i k
      rfl
    rw [h2 T x y, h2 T' _ (fun t j => u t * y t j), hg]
    have key : ∀ (X : List (ℕ → ℂ)), ((X.map (fun x => T'.map (fun t => u t * x t))).zip (zs.zip iv')).map
        (fun t => errorRow (T'.map (fun t j => u t * y t j)) t.1 t.2.1 t.2.2.length) =
        ((X.map (fun x => T.map x)).zip (zs.zip iv)).map (fun t => errorRow (T.map y) t.1 t.2.1 t.2.2.length) := by
      intro X
      clear e1 e2 hg h2
      induction hi generalizing X zs with
      | nil => simp
      | cons a b ih =>
        cases X with
        | nil => rfl
        | cons x X =>
          cases zs with
          | nil => rfl
          | cons z zs =>
            simp only [List.map_cons, List.zip_cons_cons, errorRow_alike hp hu, sameRej_length hp a, ih]
    simp only [List.length_cons, List.length_map, hi.length_eq, ne_eq, not_true_eq_false, exists_false]
    split
    · rfl
    · split
      · rfl
      · split
        · rfl
        · congr 1
          have := key (x :: xs)
          simpa using this

theorem estimateQ_length {ws : Impedance.Weights σ} {rp : Bool} {o : MEst.Opts} {outputs : List (List ℂ)} {q : ℕ} {c : Fin q → List ℂ}
    {inv : List (List ℕ)} {heap : ℕ → σ} {p : List (Fin q → ℂ) × List (List ℕ)} (h : (estimateQ rp ws o outputs q c inv heap).1 = .ok p) :
    p.1.length = outputs.length ∧ p.2.length = outputs.length := by
  unfold estimateQ at h
  by_cases hrp : rp = true
  · simp [hrp] at h
  rw [if_neg hrp] at h
  cases h1 : transferFunction outputs c (ws.at q) none (.each inv) o heap with
  | mk r1 g1 =>
  rw [h1] at h
  cases r1 with
  | error x => simp at h
  | ok l =>
    obtain ⟨N', invs, zs, -, hl2, hl3, -, -, -, hloop⟩ := transferFunction_ok h1
    have hl0 := (outputsLoop_ok hloop).1
    have hl : l.length = outputs.length := by
      rw [hl0]
      simp [hl2, hl3]
    simp only at h
    cases hz : l.mapM (fun p => p.1) with
    | none => simp [hz] at h
    | some z =>
      rw [hz] at h
      simp only [Except.ok.injEq] at h
      subst h
      exact ⟨by rw [← (mapM_some_iff.1 hz).length_eq, hl], by simp [hl]⟩

theorem sameValues_rfl {times : Prop} (r : Result) : SameValues times r r := ⟨rfl, rfl, rfl, fun _ => rfl⟩

include hp hn hu in
theorem secondStageQ_alike {o : Impedance.Opts σ} (hws : AllAlike o.weights) (hpre : PreAlike o.prefilter T T')
    (xs : List (ℕ → ℂ)) {q : ℕ} (y : ℕ → Fin q → ℂ) (wins wins' : List ((ℚ × ℚ) × ℕ × ℕ × ℕ)) {inv inv' : InvArg}
    (hi : SameInv T T' inv inv') (tr : List (List (Option ℂ))) (failed : Result) (heap heap' : ℕ → σ) :
    Agree (SameValues (o.keepInvalidTimes = false ∨ (T' = T ∧ wins' = wins)))
      (secondStageQ o wins (xs.map (fun x => T.map x)) q (fun j => T.map (fun t => y t j)) T.length inv tr failed heap).1
      (secondStageQ o wins' (xs.map (fun x => T'.map (fun t => u t * x t))) q (fun j => T'.map (fun t => u t * y t j)) T'.length inv' tr
        failed heap').1 := by
  unfold secondStageQ
  rw [rowsOf_list, rowsOf_list]
  have h1 := applyPrefilter_alike hp hu hpre xs y hi
  generalize applyPrefilter (xs.map (fun x => T.map x)) _ _ inv = d at h1 ⊢
  generalize applyPrefilter (xs.map (fun x => T'.map _)) _ _ inv' = d' at h1 ⊢
  cases h1 with
  | raised e => exact .raised _
  | @done iv iv' h1 =>
    simp only
    have h2 := estimateQ_alike hp hn hu hws (rp := o.realPb) (o := o.mest) xs y h1 heap heap'
    generalize estimateQ o.realPb o.weights o.mest (xs.map (fun x => T.map x)) q _ iv heap = d at h2 ⊢
    generalize estimateQ o.realPb o.weights o.mest (xs.map (fun x => T'.map _)) q _ iv' heap' = d' at h2 ⊢
    obtain ⟨d, g⟩ := d
    obtain ⟨d', g'⟩ := d'
    simp only at h2
    cases h2 with
    | raised e =>
      simp only
      split
      · exact .done (sameValues_rfl _)
      · exact .raised _
    | @done a a' h =>
      obtain ⟨z, r⟩ := a
      obtain ⟨z', r'⟩ := a'
      obtain ⟨h3, h4⟩ := h
      simp only at h3 h4
      subst h3
      simp only
      rw [transferError_alike hp hu xs y _ h4]
      cases transferError (xs.map (fun x => T.map x)) _ z' r with
      | error e => exact .raised _
      | ok err =>
        refine .done ⟨rfl, rfl, rfl, ?_⟩
        intro h
        simp only
        rcases h with h | ⟨h, hw⟩
        · rw [h]
          simp [List.map_const', h4.length_eq]
        · subst h hw
          have : r' = r := by
            clear * - h4
            induction h4 with
            | nil => rfl
            | cons a _ ih => rw [ih, sameRej_self a]
          rw [this]

/-- The first stage of both: nothing, or the same transfers. -/
def SameFirst (T T' : List ℕ) (u : ℕ → ℂ) (n : ℕ) : Option (List (List (Option ℂ)) × List (List ℂ) × List ℕ) →
    Option (List (List (Option ℂ)) × List (List ℂ) × List ℕ) → Prop
  | none, none => True
  | some (tr, be, iv), some (tr', be', iv') => tr' = tr ∧ SameBad T T' iv iv' ∧
      ∃ b : List (ℕ → ℂ), b.length = n ∧ be = b.map (fun x => T.map x) ∧ be' = b.map (fun x => T'.map (fun t => u t * x t))
  | _, _ => False

theorem sameBad_foldl {l l' : List (List ℕ)} (h : List.Forall₂ (SameRej T T') l l') {a a' : List ℕ} (ha : SameBad T T' a a') :
    SameBad T T' (l.foldl union1d a) (l'.foldl union1d a') := by
  induction h generalizing a a' with
  | nil => exact ha
  | cons h _ ih =>
    rw [List.foldl_cons, List.foldl_cons]
    exact ih (sameBad_union ha h.1)

theorem predicted_list {q : ℕ} (T : List ℕ) (y : ℕ → Fin q → ℂ) (z : Fin q → ℂ) :
    (List.range T.length).map (fun n : ℕ => ∑ j, z j * (T.map (fun t => y t j)).getD n 0) = T.map (fun t => ∑ j, z j * y t j) := by
  apply List.ext_getElem
  · simp
  · intro n h1 h2
    simp only [List.length_map, List.length_range] at h1
    simp [h1]

include hp hn hu in
theorem firstStageQ_alike {o : Impedance.Opts σ} (hws : AllAlike (firstWeights o)) (hpre : PreAlike (firstPrefilter o) T T')
    (xs : List (ℕ → ℂ)) {q : ℕ} (y : ℕ → Fin q → ℂ) (heap heap' : ℕ → σ) :
    Agree (SameFirst T T' u xs.length)
      (firstStageQ o (xs.map (fun x => T.map x)) q (fun j => T.map (fun t => y t j)) T.length heap).1
      (firstStageQ o (xs.map (fun x => T'.map (fun t => u t * x t))) q (fun j => T'.map (fun t => u t * y t j)) T'.length heap').1 := by
  unfold firstStageQ
  rw [rowsOf_list, rowsOf_list]
  have h1 := applyPrefilter_alike hp hu hpre xs y .none
  generalize applyPrefilter (xs.map (fun x => T.map x)) _ _ .none = d at h1 ⊢
  generalize applyPrefilter (xs.map (fun x => T'.map _)) _ _ .none = d' at h1 ⊢
  cases h1 with
  | raised e => exact .raised _
  | @done iv iv' h1 =>
    simp only
    have h2 := estimateQ_alike hp hn hu hws (rp := o.realPb) (o := o.mest) xs y h1 heap heap'
    have hlen := fun p => estimateQ_length (rp := o.realPb) (ws := firstWeights o) (o := o.mest) (outputs := xs.map (fun x => T.map x))
      (c := fun j => T.map (fun t => y t j)) (inv := iv) (heap := heap) (p := p)
    generalize estimateQ o.realPb (firstWeights o) o.mest (xs.map (fun x => T.map x)) q _ iv heap = d at h2 hlen ⊢
    generalize estimateQ o.realPb (firstWeights o) o.mest (xs.map (fun x => T'.map _)) q _ iv' heap' = d' at h2 ⊢
    obtain ⟨d, g⟩ := d
    obtain ⟨d', g'⟩ := d'
    simp only at h2
    cases h2 with
    | raised e =>
      simp only
      split
      · exact .done trivial
      · exact .raised _
    | @done a a' h =>
      have hlen := (hlen a rfl).1
      obtain ⟨z, r⟩ := a
      obtain ⟨z', r'⟩ := a'
      obtain ⟨h3, h4⟩ := h
      simp only at h3 h4 hlen
      subst h3
      refine .done ⟨rfl, sameBad_foldl h4 (sameBad_nil _ _), z'.map (fun z t => ∑ j, z j * y t j), by simpa using hlen, ?_, ?_⟩
      · rw [List.map_map]
        apply List.map_congr_left
        intro z _
        exact predicted_list T y z
      · rw [List.map_map]
        apply List.map_congr_left
        intro z _
        rw [predicted_list T' (fun t j => u t * y t j) z]
        apply List.map_congr_left
        intro t _
        rw [Finset.mul_sum]
        exact Finset.sum_congr rfl (fun j _ => by ring)

theorem secondStage_list (o : Impedance.Opts σ) (wins : List ((ℚ × ℚ) × ℕ × ℕ × ℕ)) (e : List (List ℂ)) (T : List ℕ) {b : List (ℕ → ℂ)}
    (hb : b ≠ []) (inv : InvArg) (tr : List (List (Option ℂ))) (failed : Result) (heap : ℕ → σ) :
    secondStage o wins e (b.map (fun x => T.map x)) inv tr failed heap =
      secondStageQ o wins e b.length (fun j => T.map (fun t => b[j] t)) T.length inv tr failed heap := by
  have h1 : b.length = (b.map (fun x => T.map x)).length := by simp
  rw [secondStage_eqQ, secondStageQ_cast h1]
  have hw : width (b.map (fun x => T.map x)) = T.length := by
    cases b with
    | nil => exact absurd rfl hb
    | cons x b => simp [width]
  rw [hw]
  congr 1
  funext j
  simp [cols]

include hp hn hu in
theorem remoteStages_alike {o : Impedance.Opts σ} (hws : AllAlike o.weights) (hwr : AllAlike (firstWeights o))
    (hpre : PreAlike o.prefilter T T') (hprer : PreAlike (firstPrefilter o) T T')
    (es bs : List (ℕ → ℂ)) (hbs : bs ≠ []) {q : ℕ} (y : ℕ → Fin q → ℂ) (wins wins' : List ((ℚ × ℚ) × ℕ × ℕ × ℕ))
    (failed : Result) (heap heap' : ℕ → σ) :
    Agree (SameValues (o.keepInvalidTimes = false ∨ (T' = T ∧ wins' = wins)))
      (remoteStages o wins (es.map (fun x => T.map x)) (bs.map (fun x => T.map x)) q (fun j => T.map (fun t => y t j)) T.length failed heap).1
      (remoteStages o wins' (es.map (fun x => T'.map (fun t => u t * x t))) (bs.map (fun x => T'.map (fun t => u t * x t))) q
        (fun j => T'.map (fun t => u t * y t j)) T'.length failed heap').1 := by
  unfold remoteStages
  have h1 := firstStageQ_alike hp hn hu hwr hprer bs y heap heap'
  generalize firstStageQ o (bs.map (fun x => T.map x)) q _ T.length heap = d at h1 ⊢
  generalize firstStageQ o (bs.map (fun x => T'.map _)) q _ T'.length heap' = d' at h1 ⊢
  obtain ⟨d, g⟩ := d
  obtain ⟨d', g'⟩ := d'
  simp only at h1
  cases h1 with
  | raised e => exact .raised _
  | @done a a' h =>
    cases a with
    | none =>
      cases a' with
      | none => exact .done (sameValues_rfl _)
      | some _ => exact h.elim
    | some a =>
      cases a' with
      | none => exact h.elim
      | some a' =>
        obtain ⟨tr, be, iv⟩ := a
        obtain ⟨tr', be', iv'⟩ := a'
        obtain ⟨rfl, h2, b, hb, rfl, rfl⟩ := h
        simp only [List.length_map]
        have hb0 : b ≠ [] := by
          rintro rfl
          exact hbs (List.length_eq_zero_iff.1 hb.symm)
        rw [secondStage_list o wins _ T hb0]
        have := secondStage_list o wins' (es.map (fun x => T'.map (fun t => u t * x t))) T' (b := b.map (fun x t => u t * x t))
          (by simpa using hb0) (.each (List.replicate es.length iv')) tr' failed g'
        rw [List.map_map] at this
        have e1 : (fun x => List.map x T') ∘ (fun (x : ℕ → ℂ) t => u t * x t) = fun x => T'.map (fun t => u t * x t) := rfl
        rw [e1] at this
        rw [this, secondStageQ_cast (List.length_map _ : (b.map (fun (x : ℕ → ℂ) t => u t * x t)).length = b.length).symm]
        have e2 : (fun j : Fin b.length => T'.map (fun t => (b.map (fun (x : ℕ → ℂ) t => u t * x t))[Fin.cast
            (List.length_map _ : (b.map (fun (x : ℕ → ℂ) t => u t * x t)).length = b.length).symm j] t)) =
            fun j => T'.map (fun t => u t * b[j] t) := by
          funext j
          simp
        rw [e2]
        exact secondStageQ_alike hp hn hu hws hpre es (fun t (j : Fin b.length) => b[j] t) wins wins'
          (.each (forall₂_replicate h2 _)) tr' failed g g'

end

theorem cod_phase {u : ℕ → ℂ} (hu : ∀ t, ‖u t‖ = 1) (T : List ℕ) (x : ℕ → ℂ) {q : ℕ} (y : ℕ → Fin q → ℂ) :
    coeffDetermination (T.map (fun t => u t * x t)) (T.map (fun t j => u t * y t j)) = coeffDetermination (T.map x) (T.map y) := by
  have hg : ∀ b : List (Fin q → ℂ), (Matrix.of fun j k => (b.map (fun r => star (r j) * r k)).sum) = gram b none := by
    intro b
    ext j k
    simp only [gram, dotdiag, Matrix.of_apply]
    congr 1
    induction b with
    | nil => rfl
    | cons r b ih => simp
  have hr : ∀ (x : List ℂ) (b : List (Fin q → ℂ)), (fun j => (List.zipWith (fun r v => star (r j) * v) b x).sum) = MEst.rhs x b none := by
    intro x b
    rfl
  have h1 := gram_alike (List.Perm.refl T) hu (c := false) y none
  have h2 := rhs_alike (List.Perm.refl T) hu (c := false) x y none
  simp only [τ_false, Option.map_none] at h1 h2
  have h1' : gram (T.map (fun t j => u t * y t j)) none = gram (T.map y) none := by
    rw [h1]
    ext i k
    rfl
  have h2' : MEst.rhs (T.map (fun t => u t * x t)) (T.map (fun t j => u t * y t j)) none = MEst.rhs (T.map x) (T.map y) none := by
    rw [h2]
    rfl
  have hn : ∀ f : ℕ → ℂ, norm2 (T.map (fun t => u t * f t)) = norm2 (T.map f) := by
    intro f
    simp [norm2, Function.comp_def, hu]
  have hz : ∀ (T : List ℕ) (x : ℕ → ℂ) (y : ℕ → Fin q → ℂ) (z : Fin q → ℂ),
      List.zipWith (fun r v => r ⬝ᵥ z - v) (T.map y) (T.map x) = T.map (fun t => y t ⬝ᵥ z - x t) := by
    intro T x y z
    rw [List.zipWith_map_left, List.zipWith_map_right, List.zipWith_self]
  have he : ∀ (z : Fin q → ℂ), (fun t => (fun j => u t * y t j) ⬝ᵥ z - u t * x t) = fun t => u t * (y t ⬝ᵥ z - x t) := by
    intro z
    funext t
    simp only [dotProduct, mul_sub, Finset.mul_sum, mul_assoc]
  unfold coeffDetermination
  simp only [hg, hr, h1', h2', hz, he, hn]

theorem value_phase {u : ℕ → ℂ} (hu : ∀ t, ‖u t‖ = 1) (T : List ℕ) (x : ℕ → ℂ) {q : ℕ} (y : ℕ → Fin q → ℂ) (size : ℕ) :
    value size (T.map (fun t => u t * x t)) (T.map (fun t j => u t * y t j)) = value size (T.map x) (T.map y) := by
  have hl : ∀ {β : Type} (f : ℕ → β) (n : ℕ) (l : List ℕ), lastN n (l.map f) = (lastN n l).map f := by
    intro β f n l
    simp [lastN, List.map_drop]
  unfold value
  simp only [List.length_map, breshape_map, ← List.map_dropLast, List.zip_map', mapE_map, cod_phase hu, hl]

theorem cod_length {𝕜 : Type} [RCLike 𝕜] {q : ℕ} {size : ℕ} {e : List 𝕜} {b : List (Fin q → 𝕜)} {v : List Flt} (h : value size e b = .ok v) :
    v.length = e.length := by
  unfold value at h
  split at h
  · simp at h
  split at h
  · simp at h
  simp only at h
  rename_i hb hs
  split at h
  · simp at h
  · rename_i tmp ht
    have htl : tmp.length * size ≤ e.length := by
      have := (mapE_length ht)
      have h2 : tmp.length ≤ e.length / size := by
        rw [this]
        simp [breshape]
      exact le_trans (Nat.mul_le_mul_right _ h2) (Nat.div_mul_le_self _ _)
    split at h
    · simp at h
    · simp only [Except.ok.injEq] at h
      subst h
      simp [lastN, List.length_flatMap]
      omega

theorem preAlike_none (T T' : List ℕ) : PreAlike none T T' := by
  intro p hp
  simp at hp

theorem sameBad_self {T l : List ℕ} (hn : T.Nodup) (hl : ∀ i ∈ l, i < T.length) : SameBad T T l l := by
  have : Marks T l (fun t => ∃ i ∈ l, T[i]? = some t) := by
    refine ⟨hl, ?_⟩
    intro i hi
    constructor
    · intro h
      exact ⟨i, h, List.getElem?_eq_getElem hi⟩
    · rintro ⟨j, hj, h⟩
      have hj' := hl j hj
      rw [List.getElem?_eq_getElem hj', Option.some.injEq] at h
      have := (hn.getElem_inj_iff).1 h
      rwa [← this]
  exact ⟨_, this, this⟩

theorem preAlike_cod {pre : Option Pre}
    (h : ∀ p, pre = some p → ∃ (codMin codMax : ℝ) (size : ℕ), ∀ q, p q = Prefilter.call codMin codMax size) {T : List ℕ} (hn : T.Nodup) :
    PreAlike pre T T := by
  intro p hp q u hu x y
  obtain ⟨a, b, n, hc⟩ := h p hp
  rw [hc, Prefilter.call, Prefilter.call, value_phase hu]
  cases hv : value n (T.map x) (T.map y) with
  | error e => exact .raised _
  | ok v =>
    refine .done (sameBad_self hn ?_)
    intro i hi
    obtain ⟨⟨z, k⟩, hz, rfl⟩ := List.mem_map.1 hi
    have := (List.mem_filter.1 hz).1
    have := List.snd_lt_of_mem_zipIdx this
    have hl := cod_length hv
    simp only [List.length_map] at hl
    simpa [hl] using this

end Razorback.Windows
