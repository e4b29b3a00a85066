/-
`mergeConsecutive` as an accumulation over the maximal chains of runs.
-/
import Verif.Spec.Consecutive
import Verif.Lemmas.Chains
import Verif.Lemmas.Extract
import Verif.Props.Select

namespace Razorback
open Spec Props
variable {α κ : Type _}

namespace SigSet

instance (a b : Sync α κ) : Decidable (Continues a b) := by unfold Continues; infer_instance

instance [Rnd] (a b : Sync α κ) : Decidable (ContinuesAs a b) := by unfold ContinuesAs; infer_instance

/-- Boolean form of `ContinuesAs`. -/
def cont [Rnd] (a b : Sync α κ) : Bool := decide (ContinuesAs a b)

theorem continuesAs_exact {a b : Sync α κ} : ContinuesAs a b ↔ Continues a b := Iff.rfl

/-- The relation used for one rate, on runs with their positions. -/
def contAt [Rnd] (rate : ℚ) (p q : Sync α κ × Nat) : Bool :=
  decide (p.1.rate = rate) && decide (q.1.rate = rate) && cont p.1 q.1

/-- Concatenation of the runs of a chain. -/
def glue : List (Sync α κ) → List (Sync α κ)
  | [] => []
  | s :: l => [⟨(List.range s.data.length).map (fun i => (s :: l).flatMap (fun v => (v.data[i]?).getD [])),
      s.cals, s.rate, s.start, ((s :: l).map (fun v => v.size)).sum⟩]

theorem glue_one {s : Sync α κ} (h : WF s) : glue [s] = [s] := by
  simp only [glue]
  have : (List.range s.data.length).map (fun i => [s].flatMap (fun v => (v.data[i]?).getD [])) = s.data := by
    apply List.ext_getElem
    · simp
    · intro i h1 h2
      simp
      rw [List.getElem?_eq_getElem h2]; rfl
  rw [this]
  simp

theorem isConsecutive_flag [Rnd] {rate : ℚ} {a b : Sync α κ} {i j : Nat} :
    (a.rate == rate && b.rate == rate && isclose (Rnd.rnd (1 / rate))
      (Rnd.rnd (b.start - Rnd.rnd (a.start + Rnd.rnd (Rnd.rnd ((a.size : ℚ) - 1) / a.rate))))) =
      contAt rate (a, i) (b, j) := by
  unfold contAt cont isclose ContinuesAs gapAs
  by_cases h1 : a.rate = rate
  · by_cases h2 : b.rate = rate
    · simp [h1, h2]
    · simp [h2]
  · simp [h1]

/-- Bounds of a chain of positions. -/
def ends (c : List (Sync α κ × Nat)) : Nat × Nat :=
  match c with
  | [] => (0, 0)
  | p :: _ => (p.2, p.2 + c.length)

def long (c : List (Sync α κ × Nat)) : Bool := decide (1 < c.length)

theorem groups_eq [Rnd] (rate : ℚ) (l : List (Sync α κ)) (k N : Nat) (hN : N = k + l.length) :
    (groupIndices.go (isConsecutive rate l) k none).map (fun g => (g.1, g.2.getD N)) =
      ((chains (contAt rate) (l.zipIdx k)).filter long).map ends ∧
    ∀ st, l ≠ [] → ∃ c cs, chains (contAt rate) (l.zipIdx k) = c :: cs ∧
      (groupIndices.go (isConsecutive rate l) k (some st)).map (fun g => (g.1, g.2.getD N)) =
        (st, k + c.length) :: (cs.filter long).map ends := by
  induction l generalizing k with
  | nil => exact ⟨by simp [isConsecutive, groupIndices.go, chains], by simp⟩
  | cons a l ih =>
    cases l with
    | nil =>
      refine ⟨by simp [isConsecutive, groupIndices.go, chains, long], ?_⟩
      intro st _
      refine ⟨[(a, k)], [], by simp [chains], ?_⟩
      simp [isConsecutive, groupIndices.go, hN]
    | cons b l =>
      obtain ⟨ih1, ih2⟩ := ih (k + 1) (by rw [hN]; simp; omega)
      rw [List.zipIdx_cons] at ih1 ih2 ⊢
      rw [List.zipIdx_cons]
      obtain ⟨g, gs, hc⟩ := chains_cons (contAt rate) (b, k + 1) (l.zipIdx (k + 1 + 1))
      rw [hc] at ih1 ih2
      simp only [chains_step _ (a, k) _ _ hc, isConsecutive, Rnd.rnd_exact]
      rw [isConsecutive_flag (i := k) (j := k + 1)]
      cases hf : contAt rate (a, k) (b, k + 1) with
      | true =>
        simp only [if_true, groupIndices.go]
        constructor
        · obtain ⟨c, cs, h1, h2⟩ := ih2 k (by simp)
          simp only [List.cons.injEq] at h1
          obtain ⟨rfl, rfl⟩ := h1
          rw [h2, List.filter_cons]
          have : long ((a, k) :: (b, k + 1) :: g) = true := by simp [long]
          rw [this]
          simp [ends]
          omega
        · intro st _
          obtain ⟨c, cs, h1, h2⟩ := ih2 st (by simp)
          simp only [List.cons.injEq] at h1
          obtain ⟨rfl, rfl⟩ := h1
          refine ⟨_, _, rfl, ?_⟩
          rw [h2]
          simp
          omega
      | false =>
        simp only [Bool.false_eq_true, if_false, groupIndices.go]
        constructor
        · rw [ih1, List.filter_cons (x := [(a, k)])]
          have : long [(a, k)] = false := rfl
          rw [this]; simp
        · intro st _
          refine ⟨_, _, rfl, ?_⟩
          rw [List.map_cons, ih1]
          simp

theorem chains_positions (R : Sync α κ × Nat → Sync α κ × Nat → Bool) (l : List (Sync α κ)) (k : Nat) :
    (∀ c ∈ chains R (l.zipIdx k), ∃ i, c.map Prod.snd = List.range' i c.length) ∧
    ∀ c cs, chains R (l.zipIdx k) = c :: cs → c.map Prod.snd = List.range' k c.length := by
  induction l generalizing k with
  | nil => simp [chains]
  | cons a l ih =>
    cases l with
    | nil => simp [chains]
    | cons b l =>
      obtain ⟨ih1, ih2⟩ := ih (k + 1)
      rw [List.zipIdx_cons] at ih1 ih2 ⊢
      rw [List.zipIdx_cons]
      obtain ⟨g, gs, hc⟩ := chains_cons R (b, k + 1) (l.zipIdx (k + 1 + 1))
      rw [hc] at ih1 ih2
      rw [chains_step _ (a, k) _ _ hc]
      have h0 := ih2 _ _ rfl
      cases hR : R (a, k) (b, k + 1) with
      | true =>
        simp only [if_true]
        have h1 : ((a, k) :: (b, k + 1) :: g).map Prod.snd = List.range' k ((a, k) :: (b, k + 1) :: g).length := by
          rw [List.map_cons, h0]
          simp [List.range'_succ]
        constructor
        · intro c hcm
          rcases List.mem_cons.1 hcm with rfl | hcm
          · exact ⟨k, h1⟩
          · exact ih1 c (by simp [hcm])
        · intro c cs hcs
          simp only [List.cons.injEq] at hcs
          rw [← hcs.1]; exact h1
      | false =>
        simp only [Bool.false_eq_true, if_false]
        constructor
        · intro c hcm
          rcases List.mem_cons.1 hcm with rfl | hcm
          · exact ⟨k, by simp⟩
          · exact ih1 c hcm
        · intro c cs hcs
          simp only [List.cons.injEq] at hcs
          rw [← hcs.1]; simp

theorem foldE_map {σ β γ : Type _} {f : σ → β → Except Err σ} {f' : σ → γ → Except Err σ} {g : β → γ}
    {l : List β} (h : ∀ s, ∀ a ∈ l, f s a = f' s (g a)) (s : σ) : foldE f s l = foldE f' s (l.map g) := by
  induction l generalizing s with
  | nil => rfl
  | cons a l ih =>
    simp only [List.map_cons, foldE]
    rw [h s a (by simp)]
    split
    · rfl
    · exact ih (fun s a ha => h s a (by simp [ha])) _

theorem foldE_append {σ β : Type _} {f : σ → β → Except Err σ} {l l' : List β} (s : σ) :
    foldE f s (l ++ l') = (match foldE f s l with | .error e => .error e | .ok s' => foldE f s' l') := by
  induction l generalizing s with
  | nil => rfl
  | cons a l ih =>
    simp only [List.cons_append, foldE]
    split
    · rfl
    · exact ih _

theorem foldE_flatMap {σ β γ : Type _} {f : σ → β → Except Err σ} {g : γ → List β} {ks : List γ} (s : σ) :
    foldE (fun s k => foldE f s (g k)) s ks = foldE f s (ks.flatMap g) := by
  induction ks generalizing s with
  | nil => rfl
  | cons k ks ih =>
    rw [List.flatMap_cons, foldE_append]
    simp only [foldE]
    split
    · rename_i h; rw [h]
    · rename_i h; rw [h]; exact ih _

/-- Congruence of folds under an invariant of the state. -/
theorem foldE_congr_inv {σ β : Type _} {P : σ → Prop} {f f' : σ → β → Except Err σ} {l : List β}
    (h : ∀ s, P s → ∀ a ∈ l, f s a = f' s a) (hP : ∀ s, P s → ∀ a ∈ l, ∀ s', f' s a = .ok s' → P s') {s : σ}
    (hs : P s) : foldE f s l = foldE f' s l := by
  induction l generalizing s with
  | nil => rfl
  | cons a l ih =>
    simp only [foldE]
    rw [h s hs a (by simp)]
    split
    · rfl
    · rename_i s' he
      exact ih (fun s hs a ha => h s hs a (by simp [ha])) (fun s hs a ha => hP s hs a (by simp [ha]))
        (hP s hs a (by simp) s' he)

theorem pick_zipIdx {l : List (Sync α κ)} {c : List (Sync α κ × Nat)} (h : ∀ p ∈ c, p ∈ l.zipIdx) :
    pick l (c.map Prod.snd) = c.map Prod.fst := by
  induction c with
  | nil => rfl
  | cons p c ih =>
    have hp := List.mem_zipIdx_iff_getElem?.1 (h p (by simp))
    simp only [List.map_cons, pick, List.filterMap_cons, hp]
    congr 1
    exact ih (fun q hq => h q (by simp [hq]))

/-- The selection of a slice of runs. -/
theorem selectRuns_slice [Rnd] [One κ] {S : SigSet α κ} (hI : SInv S) (hp : Plain S.tags) (a : Nat) (b : Option Nat)
    (hb : b.getD S.runs.length ≤ S.runs.length) :
    ∃ m, S.selectRuns (.slice (some a) (b.map Int.ofNat) none) =
      .ok ⟨pick S.runs (List.range' a (b.getD S.runs.length - a)),
        ⟨m, S.tags.tags⟩⟩ := by
  obtain ⟨idx, h1, h2, h3⟩ := resolve_ok (n := S.runs.length) (r := .slice (some (a : Int)) (b.map Int.ofNat) none) (by simp [RunOK])
  have h4 : idx.Pairwise (· < ·) := by
    simp only [RunIdx.resolve] at h1
    exact (sliceIndices_mem h1).2.2.1 (by simp)
  have h5 : idx = List.range' a (b.getD S.runs.length - a) := by
    refine strict_ext h4 List.pairwise_lt_range' ?_
    intro i
    rw [h2]
    simp only [RunPick, InSlice, List.mem_range'_1]
    have e1 : ¬ ((1 : Int) < 0) := by omega
    simp only [Option.getD_none, e1, false_imp_iff, and_true, Option.some.injEq, forall_eq', Option.getD_some, one_dvd]
    have e2 : (if (a : Int) < 0 then (a : Int) + S.runs.length else a) = a := by rw [if_neg (by omega)]
    simp only [e2]
    cases b with
    | none =>
      simp only [Option.map_none, Option.getD_none]
      constructor
      · rintro ⟨h, h'⟩
        have := (h' (by omega)).1
        omega
      · rintro ⟨h, h'⟩
        exact ⟨by omega, fun _ => ⟨by omega, by simp⟩⟩
    | some b =>
      simp only [Option.getD_some] at hb
      simp only [Option.map_some, Option.getD_some, Option.some.injEq, forall_eq']
      have e3 : (if Int.ofNat b < 0 then Int.ofNat b + S.runs.length else Int.ofNat b) = (b : Int) := by
        rw [if_neg (by simp)]; rfl
      simp only [e3]
      constructor
      · rintro ⟨h, h'⟩
        have := h' (by omega)
        omega
      · rintro ⟨h, h'⟩
        exact ⟨by omega, fun _ => ⟨by omega, by omega⟩⟩
  obtain ⟨m, h6, _⟩ := build_pick hI hp h4 h3
  refine ⟨m, ?_⟩
  unfold selectRuns
  rw [h1, ← h5]
  exact h6

/-- One accumulation step, on a chain of positioned runs. -/
def accStep [Rnd] (st : SigSet α κ × List Nat) (c : List (Sync α κ × Nat)) : Except Err (SigSet α κ × List Nat) :=
  match build (.tags st.1.tags) (st.1.runs ++ glue (c.map Prod.fst)) with
  | .error e => .error e
  | .ok res => .ok (res, st.2 ++ c.map Prod.snd)

theorem length_flatMap_rect {l : List (Sync α κ)} {i : Nat} (h : ∀ s ∈ l, WF s) (hi : ∀ s ∈ l, i < s.data.length) :
    (l.flatMap (fun v => (v.data[i]?).getD [])).length = (l.map (fun v => v.size)).sum := by
  induction l with
  | nil => rfl
  | cons s l ih =>
    rw [List.flatMap_cons, List.length_append, ih (fun s hs => h s (by simp [hs])) (fun s hs => hi s (by simp [hs])),
      List.map_cons, List.sum_cons, List.getElem?_eq_getElem (hi s (by simp))]
    congr 1
    exact (h s (by simp)).rect _ (List.getElem_mem _)

theorem glue_wf {l : List (Sync α κ)} (h : ∀ s ∈ l, WF s) (hc : ∀ s ∈ l, ∀ s' ∈ l, s.data.length = s'.data.length) :
    ∀ r ∈ glue l, WF r := by
  cases l with
  | nil => simp [glue]
  | cons s l =>
    intro r hr
    simp only [glue, List.mem_singleton] at hr
    subst hr
    have hw := h s (by simp)
    refine ⟨?_, ?_, ?_⟩
    · simpa using hw.nonempty
    · simpa using hw.cals
    · intro d hd
      simp only [List.mem_map, List.mem_range] at hd
      obtain ⟨i, hi, rfl⟩ := hd
      exact length_flatMap_rect h (fun s' hs' => by rw [← hc s (by simp) s' hs']; exact hi)

theorem fuse_glue [One κ] {G : SigSet α κ} {rate : ℚ} (h : ∀ s ∈ G.runs, WF s)
    (hc : ∀ s ∈ G.runs, ∀ s' ∈ G.runs, s.data.length = s'.data.length) (hr : ∀ s ∈ G.runs.head?, s.rate = rate)
    (hne : G.runs ≠ []) : ∃ s, fuse rate G = .ok s ∧ glue G.runs = [s] := by
  cases hG : G.runs with
  | nil => exact absurd hG hne
  | cons s l =>
    refine ⟨_, ?_, rfl⟩
    have hw := glue_wf h hc
    rw [hG] at hw hr h hc
    have hw := hw _ (by simp only [glue, List.mem_singleton]; rfl)
    unfold fuse nbChannels
    rw [hG]
    have hrs := hr s (by simp)
    rw [← hrs]
    exact Sync.new_eq hw.nonempty hw.rect hw.cals

theorem mem_chains {R : Sync α κ × Nat → Sync α κ × Nat → Bool} {l : List (Sync α κ)} {c : List (Sync α κ × Nat)}
    (hc : c ∈ chains R l.zipIdx) : ∀ p ∈ c, p ∈ l.zipIdx := by
  intro p hp
  rw [← chains_flatten R l.zipIdx]
  exact List.mem_flatten.2 ⟨c, hc, hp⟩

/-- What one step selects and fuses. -/
theorem fuseStep_parts [Rnd] [One κ] {S : SigSet α κ} (hI : SInv S) (hp : Plain S.tags) {rate : ℚ}
    {c : List (Sync α κ × Nat)} (hc : c ∈ chains (contAt rate) S.runs.zipIdx) (hl : long c = true)
    {g : Nat × Option Nat} (hg : (g.1, g.2.getD S.runs.length) = ends c) :
    ∃ m s, S.selectRuns (.slice (some g.1) (g.2.map Int.ofNat) none) = .ok ⟨c.map Prod.fst, ⟨m, S.tags.tags⟩⟩ ∧
      fuse rate (⟨c.map Prod.fst, ⟨m, S.tags.tags⟩⟩ : SigSet α κ) = .ok s ∧ glue (c.map Prod.fst) = [s] ∧
      (List.range S.runs.length).filter
        (fun i => decide (g.1 ≤ i) && decide (i < g.2.getD S.runs.length)) = c.map Prod.snd := by
  have hmem := mem_chains hc
  obtain ⟨i, hi⟩ := (chains_positions (contAt rate) S.runs 0).1 c hc
  have hlen : 1 < c.length := by simpa [long] using hl
  have hrate : ∀ s ∈ (c.map Prod.fst).head?, s.rate = rate := by
    have := chains_chain (contAt rate) S.runs.zipIdx c hc
    match c, hlen, this with
    | p :: q :: _, _, h =>
      have := (List.isChain_cons_cons.1 h).1
      simp [contAt] at this
      simp [this.1.1]
  have hends : ends c = (i, i + c.length) := by
    match c, hlen, hi with
    | p :: c', _, hi =>
      simp only [List.map_cons, List.length_cons, List.range'_succ, List.cons.injEq] at hi
      simp [ends, hi.1]
  rw [hends] at hg
  have hb : i + c.length ≤ S.runs.length := by
    have h1 : i + c.length - 1 ∈ c.map Prod.snd := by rw [hi, List.mem_range'_1]; omega
    obtain ⟨p, hpc, hp2⟩ := List.mem_map.1 h1
    have := List.mem_zipIdx_iff_getElem?.1 (hmem p hpc)
    have := (List.getElem?_eq_some_iff.1 this).1
    omega
  obtain ⟨g1, g2⟩ := g
  simp only [Prod.mk.injEq] at hg
  obtain ⟨hg1, hg2⟩ := hg
  subst hg1
  obtain ⟨m, hsel⟩ := selectRuns_slice hI hp g1 g2 (by omega)
  rw [hg2, Nat.add_sub_cancel_left, ← hi, pick_zipIdx hmem] at hsel
  have hsub : ∀ s ∈ c.map Prod.fst, s ∈ S.runs := by
    intro s hs
    obtain ⟨p, hpc, rfl⟩ := List.mem_map.1 hs
    exact List.mem_of_getElem? (List.mem_zipIdx_iff_getElem?.1 (hmem p hpc))
  obtain ⟨s, hs1, hs2⟩ := fuse_glue (G := ⟨c.map Prod.fst, ⟨m, S.tags.tags⟩⟩) (rate := rate)
    (fun s hs => hI.okAs.wf s (hsub s hs)) (fun s hs s' hs' => hI.okAs.chans s (hsub s hs) s' (hsub s' hs')) hrate
    (by simp only [ne_eq, List.map_eq_nil_iff]; intro h; rw [h] at hlen; simp at hlen)
  have hidx : (List.range S.runs.length).filter
      (fun i => decide (g1 ≤ i) && decide (i < g2.getD S.runs.length)) = c.map Prod.snd := by
    rw [hi, hg2]
    refine strict_ext (List.Pairwise.filter _ List.pairwise_lt_range) List.pairwise_lt_range' ?_
    intro j
    simp only [List.mem_filter, List.mem_range, Bool.and_eq_true, decide_eq_true_eq, List.mem_range'_1]
    omega
  exact ⟨m, s, hsel, hs1, hs2, hidx⟩

theorem fuseStep_eq [Rnd] [One κ] {S : SigSet α κ} (hI : SInv S) (hp : Plain S.tags) {rate : ℚ}
    {c : List (Sync α κ × Nat)} (hc : c ∈ chains (contAt rate) S.runs.zipIdx) (hl : long c = true)
    {st : SigSet α κ × List Nat} (hst : st.1.tags.Inv) (hst' : Plain st.1.tags) {g : Nat × Option Nat}
    (hg : (g.1, g.2.getD S.runs.length) = ends c) : fuseStep S rate st g = accStep st c := by
  obtain ⟨m, s, hsel, hs1, hs2, hidx⟩ := fuseStep_parts hI hp hc hl hg
  unfold fuseStep accStep
  rw [hsel]
  simp only
  rw [hs1]
  simp only
  rw [join_sync hst hst', hs2, hidx]
  cases build (.tags st.1.tags) (st.1.runs ++ [s]) <;> rfl

/-- `Plain` depends on the entries only. -/
theorem plain_same {t t' : Tags} (h : t.tags = t'.tags) (hp : Plain t) : Plain t' := by
  intro k hk
  have := hp k hk
  unfold Tags.getItem at this ⊢
  rw [← h]; exact this

theorem accStep_inv [Rnd] {st st' : SigSet α κ × List Nat} {c : List (Sync α κ × Nat)} (hi : st.1.tags.Inv)
    (h : accStep st c = .ok st') : st'.1.tags.Inv ∧ st'.1.tags.tags = st.1.tags.tags ∧
      st'.1.runs.Perm (st.1.runs ++ glue (c.map Prod.fst)) ∧ st'.2 = st.2 ++ c.map Prod.snd := by
  unfold accStep at h
  split at h
  · simp at h
  · rename_i res hb
    simp only [Except.ok.injEq] at h
    subst h
    obtain ⟨h1, h2, h3, h4, h5⟩ := build_as.1 hb
    refine ⟨(mkTags_inv h5).1, mkTags_tags h5 hi, ?_, rfl⟩
    simp only
    rw [h4]; exact sortRuns_perm _

/-- Long chains of all rates, in the order in which the program treats them. -/
def treated [Rnd] (S : SigSet α κ) : List (List (Sync α κ × Nat)) :=
  (sortBy (fun a b => decide (a ≤ b)) (dedup (S.runs.map (fun s => s.rate)))).flatMap
    (fun rate => (chains (contAt rate) S.runs.zipIdx).filter long)

theorem mergeConsecutive_acc [Rnd] [One κ] {S : SigSet α κ} (hI : SInv S) (hp : Plain S.tags) :
    S.mergeConsecutive =
      match foldE accStep ((⟨[], ⟨Tags.inferN (S.tags.tags.map (fun e => (e.1, Tags.toVal e.2))), S.tags.tags⟩⟩, []) : SigSet α κ × List Nat)
        (treated S) with
      | .error e => .error e
      | .ok (res, added) =>
        match S.selectRuns (.list (((List.range S.runs.length).filter (fun i => decide (i ∉ added))).map Int.ofNat)) with
        | .error e => .error e
        | .ok rest => res.join [.set rest] := by
  have h0 : new (.tags S.tags) ([] : List (SigArg α κ)) =
      .ok ⟨[], ⟨Tags.inferN (S.tags.tags.map (fun e => (e.1, Tags.toVal e.2))), S.tags.tags⟩⟩ := by
    unfold new
    simp only [mapE]
    exact build_nil hI.inv hp
  have hres0 := new_sinv h0 (by simp) (by simp)
  unfold mergeConsecutive
  rw [h0]
  simp only
  have hfold : foldE (fun st rate => foldE (fuseStep S rate) st (groupIndices (isConsecutive rate S.runs)))
      (⟨[], ⟨Tags.inferN (S.tags.tags.map (fun e => (e.1, Tags.toVal e.2))), S.tags.tags⟩⟩, [])
      (sortBy (fun a b => decide (a ≤ b)) (dedup (S.runs.map (fun s => s.rate)))) =
      foldE accStep (⟨[], ⟨Tags.inferN (S.tags.tags.map (fun e => (e.1, Tags.toVal e.2))), S.tags.tags⟩⟩, [])
        (treated S) := by
    unfold treated
    rw [← foldE_flatMap]
    have hinner : ∀ (st : SigSet α κ × List Nat), (st.1.tags.Inv ∧ st.1.tags.tags = S.tags.tags) → ∀ (rate : ℚ),
        foldE (fuseStep S rate) st (groupIndices (isConsecutive rate S.runs)) =
        foldE accStep st ((chains (contAt rate) S.runs.zipIdx).filter long) := by
      intro st hst rate
      have hgr := (groups_eq rate S.runs 0 S.runs.length (by simp)).1
      -- pair each slice with its chain
      have hz : ∀ (gl : List (Nat × Option Nat)) (cl : List (List (Sync α κ × Nat))),
          gl.map (fun g => (g.1, g.2.getD S.runs.length)) = cl.map ends →
          (∀ c ∈ cl, c ∈ chains (contAt rate) S.runs.zipIdx ∧ long c = true) →
          ∀ st : SigSet α κ × List Nat, (st.1.tags.Inv ∧ st.1.tags.tags = S.tags.tags) →
            foldE (fuseStep S rate) st gl = foldE accStep st cl := by
        intro gl
        induction gl with
        | nil =>
          intro cl hcl _ st _
          simp at hcl
          rw [hcl]; rfl
        | cons g gl ih =>
          intro cl hcl hall st hst
          cases cl with
          | nil => simp at hcl
          | cons c cl =>
            simp only [List.map_cons, List.cons.injEq] at hcl
            simp only [foldE]
            rw [fuseStep_eq hI hp (hall c (by simp)).1 (hall c (by simp)).2 hst.1 (plain_same hst.2.symm hp) hcl.1]
            split
            · rfl
            · rename_i st' hst'
              have := accStep_inv hst.1 hst'
              exact ih cl hcl.2 (fun c hc => hall c (by simp [hc])) st' ⟨this.1, this.2.1.trans hst.2⟩
      exact hz _ _ hgr (fun c hc => by rw [List.mem_filter] at hc; exact hc) st hst
    refine foldE_congr_inv (P := fun st : SigSet α κ × List Nat => st.1.tags.Inv ∧ st.1.tags.tags = S.tags.tags)
      (fun st hst rate _ => hinner st hst rate) ?_ ⟨hres0.inv, rfl⟩
    intro st hst rate _ st' h
    refine foldE_induct (P := fun st : SigSet α κ × List Nat => st.1.tags.Inv ∧ st.1.tags.tags = S.tags.tags) ?_ hst h
    intro s a s' hs hs'
    have := accStep_inv hs.1 hs'
    exact ⟨this.1, this.2.1.trans hs.2⟩
  rw [hfold]
  generalize foldE accStep _ _ = x
  rcases x with e | ⟨res, added⟩
  · rfl
  · simp only
    cases S.selectRuns _ <;> rfl

/-! ### the accumulated runs are the glued chains -/

theorem chains_map {β γ : Type _} (R : γ → γ → Bool) (f : β → γ) (l : List β) :
    chains R (l.map f) = (chains (fun a b => R (f a) (f b)) l).map (List.map f) := by
  induction l with
  | nil => rfl
  | cons a l ih =>
    cases l with
    | nil => rfl
    | cons b l =>
      obtain ⟨g, gs, h⟩ := chains_cons (fun a b => R (f a) (f b)) b l
      rw [chains_step _ a b l h]
      rw [h] at ih
      simp only [List.map_cons] at ih ⊢
      rw [chains_step R (f a) (f b) _ ih]
      cases R (f a) (f b) <;> simp

/-- The chains of the runs with their positions. -/
def posChains [Rnd] (S : SigSet α κ) : List (List (Sync α κ × Nat)) :=
  chains (fun p q : Sync α κ × Nat => cont p.1 q.1) S.runs.zipIdx

/-- The runs of the result. -/
def glued [Rnd] (S : SigSet α κ) : List (Sync α κ) := (chains cont S.runs).flatMap glue

theorem posChains_fst [Rnd] (S : SigSet α κ) : (posChains S).map (List.map Prod.fst) = chains cont S.runs := by
  unfold posChains
  rw [← chains_map cont Prod.fst, List.zipIdx_map_fst]

theorem glued_pos [Rnd] (S : SigSet α κ) : glued S = (posChains S).flatMap (fun c => glue (c.map Prod.fst)) := by
  unfold glued
  rw [← posChains_fst, List.flatMap_map]

theorem treated_perm [Rnd] (S : SigSet α κ) : (treated S).Perm ((posChains S).filter long) := by
  unfold treated
  have h1 : (fun rate => (chains (contAt rate) S.runs.zipIdx).filter long) =
      (fun rate => ((posChains S).filter long).filter (fun c => c.head?.map (fun p => p.1.rate) == some rate)) := by
    funext rate
    exact chains_key (fun p q : Sync α κ × Nat => cont p.1 q.1) (fun p => p.1.rate)
      (fun a b h => by simp only [cont, decide_eq_true_eq] at h; exact h.1) rate S.runs.zipIdx
  rw [h1]
  have := flatMap_key_perm (fun c : List (Sync α κ × Nat) => c.head?.map (fun p => p.1.rate))
    ((sortBy (fun a b => decide (a ≤ b)) (dedup (S.runs.map (fun s => s.rate)))).map some)
    (((sortBy_perm _).nodup_iff.2 (nodup_dedup _)).map (Option.some_injective _)) ((posChains S).filter long) ?_
  · rw [List.flatMap_map] at this
    exact this
  · intro c hc
    have hc' := (List.mem_filter.1 hc).1
    cases c with
    | nil => exact absurd hc' (chains_ne _ _)
    | cons p c =>
      have hp := mem_chains hc' p (by simp)
      simp only [List.head?_cons, Option.map_some, List.mem_map, Option.some.injEq, exists_eq_right, mem_sortBy, mem_dedup]
      exact ⟨p.1, List.mem_of_getElem? (List.mem_zipIdx_iff_getElem?.1 hp), rfl⟩

/-- Positions that belong to no long chain. -/
def restIdx [Rnd] (S : SigSet α κ) : List Nat :=
  (List.range S.runs.length).filter (fun i => decide (i ∉ (((posChains S).filter long).flatten).map Prod.snd))

theorem pick_filter (l : List (Sync α κ)) (P : Nat → Bool) :
    pick l ((List.range l.length).filter P) = (l.zipIdx.filter (fun p => P p.2)).map Prod.fst := by
  have h : (l.zipIdx.filter (fun p => P p.2)).map Prod.snd = (List.range l.length).filter P := by
    have : (fun p : Sync α κ × Nat => P p.2) = P ∘ Prod.snd := rfl
    rw [this, ← List.filter_map, List.zipIdx_map_snd, List.range_eq_range']
  rw [← h]
  exact pick_zipIdx (fun p hp => (List.mem_filter.1 hp).1)

theorem rest_pick [Rnd] {S : SigSet α κ} (hI : SInv S) :
    pick S.runs (restIdx S) = ((posChains S).filter (fun c => !long c)).flatMap (fun c => glue (c.map Prod.fst)) := by
  unfold restIdx
  rw [pick_filter]
  have hfl : (posChains S).flatten = S.runs.zipIdx := chains_flatten _ _
  have hb := filter_flatten_blocks (fun p : Sync α κ × Nat => p.2) (posChains S) long (by
    rw [hfl, show (fun p : Sync α κ × Nat => p.2) = Prod.snd from rfl, List.zipIdx_map_snd]
    exact List.nodup_range')
  rw [hfl] at hb
  have h2 : (((posChains S).filter (fun c => !long c)).flatten).map Prod.fst =
      ((posChains S).filter (fun c => !long c)).flatMap (fun c => glue (c.map Prod.fst)) := by
    rw [List.map_flatten, ← List.flatMap_def]
    apply List.flatMap_congr
    intro c hc
    obtain ⟨hc1, hc2⟩ := List.mem_filter.1 hc
    have hmem := mem_chains hc1
    match c, hc1, hc2 with
    | [], hc1, _ => exact absurd hc1 (chains_ne _ _)
    | [p], _, _ =>
      have hw := hI.okAs.wf p.1 (List.mem_of_getElem? (List.mem_zipIdx_iff_getElem?.1 (hmem p (by simp))))
      simp [glue_one hw]
    | p :: q :: c, _, hc2 => simp [long] at hc2
  rw [← h2, ← hb]

theorem runs_perm [Rnd] {S : SigSet α κ} (hI : SInv S) :
    ((treated S).flatMap (fun c => glue (c.map Prod.fst)) ++ pick S.runs (restIdx S)).Perm (glued S) := by
  rw [rest_pick hI, glued_pos]
  refine (List.Perm.append_right _ ((treated_perm S).flatMap_right _)).trans ?_
  rw [← List.flatMap_append]
  exact (List.filter_append_perm long (posChains S)).flatMap_right _

theorem acc_ok [Rnd] {cl : List (List (Sync α κ × Nat))} {st st' : SigSet α κ × List Nat} (hi : st.1.tags.Inv)
    (h : foldE accStep st cl = .ok st') :
    st'.1.tags.Inv ∧ st'.1.tags.tags = st.1.tags.tags ∧
      st'.1.runs.Perm (st.1.runs ++ cl.flatMap (fun c => glue (c.map Prod.fst))) ∧
      st'.2 = st.2 ++ cl.flatMap (List.map Prod.snd) := by
  induction cl generalizing st with
  | nil =>
    simp only [foldE, Except.ok.injEq] at h
    subst h
    simp [hi]
  | cons c cl ih =>
    simp only [foldE] at h
    split at h
    · simp at h
    · rename_i st1 h1
      obtain ⟨a1, a2, a3, a4⟩ := accStep_inv hi h1
      obtain ⟨b1, b2, b3, b4⟩ := ih a1 h
      refine ⟨b1, b2.trans a2, ?_, ?_⟩
      · rw [List.flatMap_cons, ← List.append_assoc]
        exact b3.trans (a3.append_right _)
      · rw [b4, a4, List.flatMap_cons, List.append_assoc]

theorem added_rest [Rnd] {S : SigSet α κ} {added : List Nat} (h : added = (treated S).flatMap (List.map Prod.snd)) :
    (List.range S.runs.length).filter (fun i => decide (i ∉ added)) = restIdx S := by
  unfold restIdx
  apply List.filter_congr
  intro i _
  have : i ∈ added ↔ i ∈ (((posChains S).filter long).flatten).map Prod.snd := by
    rw [h, List.map_flatten, ← List.flatMap_def]
    exact ((treated_perm S).flatMap_right _).mem_iff
  simp only [this]

theorem restIdx_lt [Rnd] (S : SigSet α κ) : (restIdx S).Pairwise (· < ·) ∧ ∀ i ∈ restIdx S, i < S.runs.length := by
  unfold restIdx
  refine ⟨List.Pairwise.filter _ List.pairwise_lt_range, ?_⟩
  intro i hi
  exact List.mem_range.1 (List.mem_filter.1 hi).1

theorem selectRuns_list [Rnd] {S : SigSet α κ} {idx : List Nat} (h : ∀ i ∈ idx, i < S.runs.length) :
    S.selectRuns (.list (idx.map Int.ofNat)) = build (.tags S.tags) (pick S.runs idx) := by
  have : mapE (npIndex S.runs.length) (idx.map Int.ofNat) = .ok idx := by
    rw [mapE_ok, List.forall₂_map_left_iff, List.forall₂_same]
    intro i hi
    rw [npIndex_ok]
    exact ⟨h i hi, Or.inl rfl⟩
  unfold selectRuns
  simp only [RunIdx.resolve, this]
  rfl

/-- Starts of the glued runs are starts of runs, in order. -/
theorem glued_starts [Rnd] (S : SigSet α κ) :
    ((glued S).map (fun r => r.start)).Sublist (S.runs.map (fun r => r.start)) := by
  unfold glued
  conv => rhs; rw [← chains_flatten cont S.runs]
  induction chains cont S.runs with
  | nil => simp
  | cons c C ih =>
    rw [List.flatMap_cons, List.flatten_cons, List.map_append, List.map_append]
    refine List.Sublist.append ?_ ih
    cases c with
    | nil => simp [glue]
    | cons s l => simp [glue]

theorem glued_strict [Rnd] {S : SigSet α κ} (hI : SInv S) (hd : S.runs.Pairwise (fun a b => a.start ≠ b.start)) :
    (glued S).Pairwise (fun a b => a.start < b.start) := by
  have h := (hI.okAs.sorted.and hd).imp (fun h => lt_of_le_of_ne h.1 h.2)
  have h2 : (S.runs.map (fun r => r.start)).Pairwise (· < ·) := List.pairwise_map.2 h
  exact List.pairwise_map.1 (h2.sublist (glued_starts S))

theorem sortRuns_glued [Rnd] {S : SigSet α κ} (hI : SInv S) (hd : S.runs.Pairwise (fun a b => a.start ≠ b.start))
    {l : List (Sync α κ)} (hl : l.Perm (glued S)) : sortRuns l = glued S := by
  have hs := glued_strict hI hd
  have hl' : l.Pairwise (fun a b => a.start ≠ b.start) :=
    (hl.symm.pairwise_iff (R := fun a b : Sync α κ => a.start ≠ b.start) (fun h => Ne.symm h)).1 (hs.imp (fun h => h.ne))
  exact perm_eq_of_pairwise (r := fun a b : Sync α κ => a.start < b.start) (fun a b h h' => lt_asymm h h')
    ((sortRuns_perm l).trans hl) (sortRuns_strict hl') hs

end SigSet
end Razorback

namespace Razorback
open Spec Props
variable {α κ : Type _}
namespace SigSet

theorem mem_glued [Rnd] {S : SigSet α κ} {r : Sync α κ} (h : r ∈ glued S) :
    ∃ g ∈ chains cont S.runs, glue g = [r] ∧ g ≠ [] ∧ ∀ s ∈ g, s ∈ S.runs := by
  unfold glued at h
  obtain ⟨g, hg, hr⟩ := List.mem_flatMap.1 h
  refine ⟨g, hg, ?_, ?_, ?_⟩
  · cases g with
    | nil => simp [glue] at hr
    | cons s l => simp only [glue, List.mem_singleton] at hr ⊢; rw [hr]
  · rintro rfl; simp [glue] at hr
  · intro s hs
    rw [← chains_flatten cont S.runs]
    exact List.mem_flatten.2 ⟨g, hg, hs⟩

theorem glued_wf [Rnd] {S : SigSet α κ} (hI : SInv S) : ∀ r ∈ glued S, WF r ∧ r.data.length = S.tags.n ∧ r.rate ≠ 0 := by
  intro r hr
  obtain ⟨g, hg, hgr, hne, hsub⟩ := mem_glued hr
  have hw := glue_wf (fun s hs => hI.okAs.wf s (hsub s hs)) (fun s hs s' hs' => hI.okAs.chans s (hsub s hs) s' (hsub s' hs'))
    r (by rw [hgr]; simp)
  refine ⟨hw, ?_⟩
  cases g with
  | nil => exact absurd rfl hne
  | cons s l =>
    simp only [glue, List.cons.injEq, and_true] at hgr
    rw [← hgr]
    simp only [List.length_map, List.length_range]
    exact ⟨(hI.n s (hsub s (by simp))).symm, hI.okAs.rate s (hsub s (by simp))⟩

theorem glued_ne [Rnd] {S : SigSet α κ} (h : S.runs ≠ []) : glued S ≠ [] := by
  cases hs : S.runs with
  | nil => exact absurd hs h
  | cons s l =>
    unfold glued
    rw [hs]
    obtain ⟨g, gs, hc⟩ := chains_cons cont s l
    rw [hc]
    simp [glue]

/-- There is nothing to accumulate exactly when no run continues the previous one. -/
theorem treated_nil [Rnd] {S : SigSet α κ} : treated S = [] ↔ S.runs.IsChain (fun a b => ¬ ContinuesAs a b) := by
  have h1 : treated S = [] ↔ (posChains S).filter long = [] := by
    constructor
    · intro h; have := treated_perm S; rw [h] at this; exact this.symm.eq_nil
    · intro h; have := treated_perm S; rw [h] at this; exact this.eq_nil
  have h2 : (posChains S).filter long = [] ↔ ∀ g ∈ chains cont S.runs, ¬ 1 < g.length := by
    rw [List.filter_eq_nil_iff, ← posChains_fst]
    simp [long]
  rw [h1, h2]
  constructor
  · intro h
    have hm := chains_maximal cont S.runs
    have hfl := chains_flatten cont S.runs
    have hne := chains_ne cont S.runs
    generalize chains cont S.runs = C at h hm hfl hne
    rw [← hfl]
    clear hfl h1 h2
    induction C with
    | nil => simp
    | cons c C ih =>
      have hc := h c (by simp)
      have ih := ih (fun g hg => h g (by simp [hg])) hm.tail (fun hh => hne (by simp [hh]))
      match c, hc with
      | [], _ => exact absurd hne (by simp)
      | [s], _ =>
        rw [List.flatten_cons, List.singleton_append]
        cases C with
        | nil => simp
        | cons c' C =>
          cases c' with
          | nil => exact absurd hne (by simp)
          | cons s' l' =>
            rw [List.flatten_cons, List.cons_append] at ih ⊢
            refine List.isChain_cons_cons.2 ⟨?_, ih⟩
            have := (List.isChain_cons_cons.1 hm).1 s (by simp) s' (by simp)
            simpa [cont] using this
      | _ :: _ :: _, hc => simp at hc
  · intro h
    rw [chains_none cont S.runs (h.imp (fun a b h => by simpa [cont] using h))]
    simp

theorem mergeConsecutive_final [Rnd] [One κ] {S : SigSet α κ} (hI : SInv S) (hp : Plain S.tags)
    {res : SigSet α κ} {added : List Nat}
    (h : foldE accStep ((⟨[], ⟨Tags.inferN (S.tags.tags.map (fun e => (e.1, Tags.toVal e.2))), S.tags.tags⟩⟩, []) : SigSet α κ × List Nat)
        (treated S) = .ok (res, added)) :
    res.tags.Inv ∧ res.tags.tags = S.tags.tags ∧
    res.runs.Perm ((treated S).flatMap (fun c => glue (c.map Prod.fst))) ∧
    (treated S ≠ [] → res.tags.n = S.tags.n) ∧
    (treated S = [] → res = ⟨[], ⟨Tags.inferN (S.tags.tags.map (fun e => (e.1, Tags.toVal e.2))), S.tags.tags⟩⟩) ∧
    ∃ m, (pick S.runs (restIdx S) ≠ [] → m = S.tags.n) ∧
      S.mergeConsecutive = res.join [.set ⟨pick S.runs (restIdx S), ⟨m, S.tags.tags⟩⟩] := by
  have h0 : build (.tags S.tags) ([] : List (Sync α κ)) =
      .ok ⟨[], ⟨Tags.inferN (S.tags.tags.map (fun e => (e.1, Tags.toVal e.2))), S.tags.tags⟩⟩ := build_nil hI.inv hp
  have hi0 := (build_ok_setOK h0 (by simp)).2
  obtain ⟨a1, a2, a3, a4⟩ := acc_ok hi0 h
  simp only [List.nil_append] at a3 a4
  have hwf : ∀ r ∈ (treated S).flatMap (fun c => glue (c.map Prod.fst)), r ∈ glued S := by
    intro r hr
    rw [← (runs_perm hI).mem_iff]
    exact List.mem_append_left _ hr
  refine ⟨a1, a2, a3, ?_, ?_, ?_⟩
  · intro hne
    -- the last step has built a set with runs
    have hP : ∀ cl : List (List (Sync α κ × Nat)), cl ≠ [] → (∀ c ∈ cl, ∀ r ∈ glue (c.map Prod.fst), r ∈ glued S) →
        (∀ c ∈ cl, c ≠ []) →
        ∀ st st' : SigSet α κ × List Nat, (∀ r ∈ st.1.runs, r ∈ glued S) → st.1.tags.Inv → foldE accStep st cl = .ok st' → st'.1.tags.n = S.tags.n := by
      intro cl
      induction cl with
      | nil => simp
      | cons c cl ih =>
        intro _ hin hcne st st' hst hinv hf
        simp only [foldE] at hf
        split at hf
        · simp at hf
        · rename_i st1 h1
          obtain ⟨b1, b2, b3, b4⟩ := accStep_inv hinv h1
          have hmem : ∀ r ∈ st1.1.runs, r ∈ glued S := by
            intro r hr
            rcases List.mem_append.1 (b3.mem_iff.1 hr) with hr | hr
            · exact hst r hr
            · exact hin c (by simp) r hr
          have hn : st1.1.tags.n = S.tags.n := by
            have hcg : ∃ r, r ∈ glue (c.map Prod.fst) := by
              have := hcne c (by simp)
              cases c with
              | nil => exact absurd rfl this
              | cons p c => exact ⟨_, by simp only [List.map_cons, glue, List.mem_singleton]; rfl⟩
            obtain ⟨r, hr⟩ := hcg
            have hr1 : r ∈ st1.1.runs := b3.mem_iff.2 (List.mem_append_right _ hr)
            unfold accStep at h1
            split at h1
            · simp at h1
            · rename_i res' hb
              simp only [Except.ok.injEq] at h1
              subst h1
              have hws : ∀ r ∈ st.1.runs ++ glue (c.map Prod.fst), WF r := by
                intro r hr
                exact (glued_wf hI r (hmem r (b3.mem_iff.2 hr))).1
              rw [build_tags_n hb hws r hr1]
              exact (glued_wf hI r (hmem r hr1)).2.1
          cases cl with
          | nil => simp only [foldE, Except.ok.injEq] at hf; rw [← hf]; exact hn
          | cons c' cl' =>
            exact ih (by simp) (fun c hc => hin c (by simp [hc])) (fun c hc => hcne c (by simp [hc])) st1 st' hmem b1 hf
    refine hP _ hne ?_ ?_ _ _ ?_ hi0 h
    · intro c hc r hr
      exact hwf r (List.mem_flatMap.2 ⟨c, hc, hr⟩)
    · intro c hc h0
      have := (treated_perm S).mem_iff.1 hc
      rw [h0] at this
      simp [long] at this
    · simp
  · intro hnil
    rw [hnil] at h
    simp only [foldE, Except.ok.injEq, Prod.mk.injEq] at h
    exact h.1.symm
  · obtain ⟨hlt1, hlt2⟩ := restIdx_lt S
    obtain ⟨m, hm1, hm2⟩ := build_pick hI hp hlt1 hlt2
    refine ⟨m, hm2, ?_⟩
    rw [mergeConsecutive_acc hI hp, h]
    simp only
    rw [added_rest a4, selectRuns_list hlt2, hm1]

/-- The result is built from the glued runs. -/
theorem mergeConsecutive_build [Rnd] [One κ] {S R : SigSet α κ} (hI : SInv S) (hp : Plain S.tags)
    (h : S.mergeConsecutive = .ok R) :
    (∃ t rs, t.Inv ∧ t.tags = S.tags.tags ∧ rs.Perm (glued S) ∧ build (.tags t) rs = .ok R) ∧
    (S.runs ≠ [] → treated S = [] → Tags.inferN (S.tags.tags.map (fun e => (e.1, Tags.toVal e.2))) = S.tags.n) := by
  cases hf : foldE accStep ((⟨[], ⟨Tags.inferN (S.tags.tags.map (fun e => (e.1, Tags.toVal e.2))), S.tags.tags⟩⟩, []) : SigSet α κ × List Nat)
        (treated S) with
  | error e => rw [mergeConsecutive_acc hI hp, hf] at h; simp at h
  | ok st =>
    obtain ⟨res, added⟩ := st
    obtain ⟨a1, a2, a3, a4, a5, m, hm, hj⟩ := mergeConsecutive_final hI hp hf
    rw [hj] at h
    have hn : treated S = [] → pick S.runs (restIdx S) = S.runs := by
      intro ht
      have h1 : (posChains S).filter long = [] := by
        have := treated_perm S; rw [ht] at this; exact this.symm.eq_nil
      have : restIdx S = List.range S.runs.length := by
        unfold restIdx
        rw [h1]; simp
      rw [this, pick_range]
    have hkey : pick S.runs (restIdx S) ≠ [] → m = res.tags.n := by
      intro hne
      rw [hm hne]
      by_cases ht : treated S = []
      · have hr := a5 ht
        by_contra hc
        have hlt : res.tags.n < S.tags.n := by
          have := inferN_le hI.inv
          rw [hr] at hc ⊢
          simp only at hc ⊢
          omega
        have hrne : S.runs ≠ [] := by rw [hn ht] at hne; exact hne
        have herr : (⟨pick S.runs (restIdx S), ⟨m, S.tags.tags⟩⟩ : SigSet α κ).reorder (.tags res.tags) = .error .key := by
          refine reorder_untagged a1 (plain_same a2.symm hp) a2.symm (by simp only; rw [hm hne]; omega) hne (c := S.tags.n - 1) ?_ ?_
          · obtain ⟨r, hr'⟩ := List.exists_mem_of_ne_nil _ hrne
            have hsub : ∀ r ∈ pick S.runs (restIdx S), r ∈ S.runs := by
              intro r hr
              obtain ⟨i, _, hi⟩ := mem_pick.1 hr
              exact List.mem_of_getElem? hi
            obtain ⟨r0, hr0⟩ := List.exists_mem_of_ne_nil _ hne
            unfold nbChannels
            simp only
            cases hpk : pick S.runs (restIdx S) with
            | nil => exact absurd hpk hne
            | cons r1 rs =>
              have := hI.n r1 (hsub r1 (by rw [hpk]; simp))
              simp only
              omega
          · intro k v hv hmem
            have hv' : S.tags.getItem k = .ok v := by
              unfold Tags.getItem at hv ⊢
              rw [a2] at hv; exact hv
            have hlast : LastTagged S.tags := ⟨k, v, _, hv', hmem, by omega⟩
            have := inferN_lastTagged hI.inv hlast
            rw [hr] at hlt
            simp only at hlt
            omega
        unfold join new at h
        obtain ⟨A', e1, e2⟩ := reorder_same_tags (T := res) a1 (plain_same a2.symm hp) rfl (fun _ => rfl)
        simp only [mapE, argRuns, e1, herr] at h
        simp at h
      · exact (a4 ht).symm
    rw [join_same_tags (B := ⟨pick S.runs (restIdx S), ⟨m, S.tags.tags⟩⟩) a1 (plain_same a2.symm hp) a2.symm hkey] at h
    have hperm : (res.runs ++ pick S.runs (restIdx S)).Perm (glued S) := (a3.append_right _).trans (runs_perm hI)
    refine ⟨⟨_, _, a1, a2, hperm, h⟩, ?_⟩
    intro hne ht
    have hpn := hn ht
    have := hkey (by rw [hpn]; exact hne)
    rw [a5 ht] at this
    simp only at this
    rw [← this]
    exact hm (by rw [hpn]; exact hne)

/-- The result, when there is one. -/
theorem mergeConsecutive_ok [Rnd] [One κ] {S R : SigSet α κ} (hI : SInv S) (hp : Plain S.tags)
    (hd : S.runs.Pairwise (fun a b => a.start ≠ b.start)) (h : S.mergeConsecutive = .ok R) :
    R.runs = glued S ∧ R.tags.tags = S.tags.tags ∧ (S.runs ≠ [] → R.tags.n = S.tags.n) ∧
    (glued S).Pairwise (fun a b => a.stopAs ≤ b.start) ∧
    (S.runs ≠ [] → treated S = [] → Tags.inferN (S.tags.tags.map (fun e => (e.1, Tags.toVal e.2))) = S.tags.n) := by
  obtain ⟨⟨t, rs, a1, a2, hperm, hb⟩, hlast⟩ := mergeConsecutive_build hI hp h
  obtain ⟨h1, h2, h3, h4, h5⟩ := build_as.1 hb
  rw [sortRuns_glued hI hd hperm] at h3 h4
  refine ⟨h4, (mkTags_tags h5 a1).trans a2, ?_, h3, hlast⟩
  intro hne
  obtain ⟨r, hr⟩ := List.exists_mem_of_ne_nil _ (glued_ne hne)
  rw [build_tags_n hb (fun r hr => (glued_wf hI r (hperm.mem_iff.1 hr)).1) r (by rw [h4]; exact hr)]
  exact (glued_wf hI r hr).2.1

/-- The runs of the result are the glued runs, maybe in another order. -/
theorem mergeConsecutive_perm [Rnd] [One κ] {S R : SigSet α κ} (hI : SInv S) (hp : Plain S.tags)
    (h : S.mergeConsecutive = .ok R) : R.runs.Perm (glued S) ∧ R.tags.tags = S.tags.tags := by
  obtain ⟨⟨t, rs, a1, a2, hperm, hb⟩, _⟩ := mergeConsecutive_build hI hp h
  obtain ⟨h1, h2, h3, h4, h5⟩ := build_as.1 hb
  exact ⟨by rw [h4]; exact (sortRuns_perm rs).trans hperm, (mkTags_tags h5 a1).trans a2⟩

/-- Building from some of the glued runs. -/
theorem build_some_glued [Rnd] {S : SigSet α κ} (hI : SInv S) (hd : S.runs.Pairwise (fun a b => a.start ≠ b.start))
    (hdis : (glued S).Pairwise (fun a b => a.stopAs ≤ b.start)) {l l' : List (Sync α κ)} (hl : (l ++ l').Perm (glued S))
    {t : Tags} (hi : t.Inv) (hp : Plain t) (hn : t.n ≤ S.tags.n) :
    ∃ R, build (.tags t) l = .ok R ∧ (l ≠ [] → R.tags.n ≤ S.tags.n) := by
  have hs := glued_strict hI hd
  have hall : (l ++ l').Pairwise (fun a b => a.start ≠ b.start) :=
    (hl.symm.pairwise_iff (R := fun a b : Sync α κ => a.start ≠ b.start) (fun h => Ne.symm h)).1 (hs.imp (fun h => h.ne))
  have hl1 := (List.pairwise_append.1 hall).1
  have hmem : ∀ r ∈ l, r ∈ glued S := fun r hr => hl.mem_iff.1 (List.mem_append_left _ hr)
  have hss := sortRuns_strict hl1
  have hlt : ∀ a ∈ glued S, ∀ b ∈ glued S, a.start < b.start → a.stopAs ≤ b.start := by
    intro a ha b hb hab
    obtain ⟨i, hi, rfl⟩ := List.getElem_of_mem ha
    obtain ⟨j, hj, rfl⟩ := List.getElem_of_mem hb
    rcases lt_trichotomy i j with h | h | h
    · exact List.pairwise_iff_getElem.1 hdis i j hi hj h
    · subst h; exact absurd hab (lt_irrefl _)
    · exact absurd hab (lt_asymm (List.pairwise_iff_getElem.1 hs j i hj hi h))
  obtain ⟨m, hb, hm⟩ := build_of_as hi hp (n := S.tags.n) (runs := sortRuns l) (hss.imp le_of_lt)
    (hss.imp_of_mem (fun {a b} ha hb h => ⟨_, Sync.stop_as (glued_wf hI a (hmem a (mem_sortRuns.1 ha))).2.2, hlt a (hmem a (mem_sortRuns.1 ha)) b (hmem b (mem_sortRuns.1 hb)) h⟩))
    (fun r hr => (glued_wf hI r (hmem r (mem_sortRuns.1 hr))).2.2)
    (fun r hr => (glued_wf hI r (hmem r (mem_sortRuns.1 hr))).2.1)
    (by
      intro hne
      obtain ⟨r, hr⟩ := List.exists_mem_of_ne_nil _ hne
      have := glued_wf hI r (hmem r (mem_sortRuns.1 hr))
      refine ⟨?_, hn⟩
      rw [← this.2.1]
      exact (List.length_pos_iff.2 this.1.nonempty).ne')
  refine ⟨_, (build_perm (sortRuns_perm l).symm ?_).trans hb, ?_⟩
  · exact (sortRuns_of_sorted (sortRuns_sorted l)).symm
  · intro hne
    have : sortRuns l ≠ [] := by
      intro h0
      have := sortRuns_perm l
      rw [h0] at this
      exact hne this.symm.eq_nil
    exact (hm this).le

/-- The operation succeeds when the glued runs do not overlap and the tags determine the channel count (or
something is merged). -/
theorem mergeConsecutive_succeeds [Rnd] [One κ] {S : SigSet α κ} (hI : SInv S) (hp : Plain S.tags)
    (hd : S.runs.Pairwise (fun a b => a.start ≠ b.start))
    (hdis : (glued S).Pairwise (fun a b => a.stopAs ≤ b.start))
    (ht : S.runs ≠ [] → treated S = [] → Tags.inferN (S.tags.tags.map (fun e => (e.1, Tags.toVal e.2))) = S.tags.n) :
    ∃ R, S.mergeConsecutive = .ok R := by
  have h0 : build (.tags S.tags) ([] : List (Sync α κ)) =
      .ok ⟨[], ⟨Tags.inferN (S.tags.tags.map (fun e => (e.1, Tags.toVal e.2))), S.tags.tags⟩⟩ := build_nil hI.inv hp
  have hi0 := (build_ok_setOK h0 (by simp)).2
  have hfold : ∀ (cl : List (List (Sync α κ × Nat))), (∀ c ∈ cl, c ≠ []) → ∀ st : SigSet α κ × List Nat, st.1.tags.Inv →
      st.1.tags.tags = S.tags.tags → st.1.tags.n ≤ S.tags.n →
      (∃ l', (st.1.runs ++ cl.flatMap (fun c => glue (c.map Prod.fst)) ++ l').Perm (glued S)) →
      ∃ st', foldE accStep st cl = .ok st' := by
    intro cl
    induction cl with
    | nil => intro _ st _ _ _ _; exact ⟨st, rfl⟩
    | cons c cl ih =>
      intro hcne st h1 h2 h3 ⟨l', h4⟩
      rw [List.flatMap_cons, ← List.append_assoc] at h4
      have h5 := h4
      rw [List.append_assoc _ _ l'] at h5
      obtain ⟨R, hR, hRn⟩ := build_some_glued hI hd hdis h5 h1 (plain_same h2.symm hp) h3
      have hst : accStep st c = .ok (R, st.2 ++ c.map Prod.snd) := by
        unfold accStep; rw [hR]
      obtain ⟨a1, a2, a3, a4⟩ := accStep_inv h1 hst
      simp only [foldE, hst]
      refine ih (fun c hc => hcne c (by simp [hc])) _ a1 (a2.trans h2) (hRn ?_) ⟨l', ?_⟩
      · have := hcne c (by simp)
        cases c with
        | nil => exact absurd rfl this
        | cons p c => simp [glue]
      · exact (((a3.append_right _).append_right _)).trans h4
  obtain ⟨⟨res, added⟩, hf⟩ := hfold (treated S) (by
      intro c hc h0
      have := (treated_perm S).mem_iff.1 hc
      rw [h0] at this
      simp [long] at this)
    (⟨[], ⟨Tags.inferN (S.tags.tags.map (fun e => (e.1, Tags.toVal e.2))), S.tags.tags⟩⟩, []) hi0 rfl (inferN_le hI.inv)
    ⟨pick S.runs (restIdx S), by simpa using runs_perm hI⟩
  obtain ⟨a1, a2, a3, a4, a5, m, hm, hj⟩ := mergeConsecutive_final hI hp hf
  have hsub : ∀ r ∈ pick S.runs (restIdx S), r ∈ S.runs := by
    intro r hr
    obtain ⟨i, _, hi⟩ := mem_pick.1 hr
    exact List.mem_of_getElem? hi
  have hn : pick S.runs (restIdx S) ≠ [] → m = res.tags.n := by
    intro hne
    rw [hm hne]
    by_cases htn : treated S = []
    · rw [a5 htn]
      refine (ht ?_ htn).symm
      obtain ⟨r, hr⟩ := List.exists_mem_of_ne_nil _ hne
      exact List.ne_nil_of_mem (hsub r hr)
    · exact (a4 htn).symm
  rw [hj, join_same_tags (B := ⟨pick S.runs (restIdx S), ⟨m, S.tags.tags⟩⟩) a1 (plain_same a2.symm hp) a2.symm hn]
  have hle : res.tags.n ≤ S.tags.n := by
    by_cases htn : treated S = []
    · rw [a5 htn]; exact inferN_le hI.inv
    · exact (a4 htn).le
  obtain ⟨R, hR, _⟩ := build_some_glued hI hd hdis (l := res.runs ++ pick S.runs (restIdx S)) (l' := [])
    (by simpa using (a3.append_right _).trans (runs_perm hI)) a1 (plain_same a2.symm hp) hle
  exact ⟨R, hR⟩

end SigSet
end Razorback
