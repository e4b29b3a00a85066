/-
Properties C12, C13, C29: construction and invariant of signal sets.
-/
import Verif.Lemmas.Reach

namespace Razorback.Props
open Razorback Razorback.Spec Razorback.SigSet
variable {α κ : Type _}

/-! C12 -/

theorem reach_sinv [Rnd] [One κ] {S : SigSet α κ} (h : Reach S) : SInv S := by
  induction h with
  | new tags args hs hS h ih => exact new_sinv h hs ih
  | join args hT hs hS h ihT ih => exact join_sinv ihT h hs ih
  | merge others hT hS h ihT ih => exact merge_sinv h
  | selectChannels sel hT h ih => exact selectChannels_sinv h
  | selectRuns r hT h ih => exact selectRuns_sinv ih h
  | extractT a b e hT h ih => exact extractT_sinv h
  | mergeConsecutive hT h ih => exact mergeConsecutive_sinv ih h
  | setTags v hT h ih => exact setTags_sinv ih h
  | editTags ops hT ih => exact editTags_sinv ih ops

/-- **C12.** Every signal set obtained by any finite combination of the public operations satisfies
`Spec.SetOK`: sorted, non-overlapping, well-formed runs over the same channels and tags designating
existing channels. -/
theorem C12_reachable_sets_ok [One κ] (S : SigSet α κ) (h : Reach S) : SetOK S := (reach_sinv h).ok

/-- **C12.** The same if times are computed with roundings, whatever these are: the runs do not overlap according to
their computed `stop`. -/
theorem C12_any_rounding [Rnd] [One κ] (S : SigSet α κ) (h : Reach S) : SetOKAs S := (reach_sinv h).okAs

example : ∃ S : SigSet Int ℚ, Reach S ∧ S.runs.length = 2 := by
  let a : Sync Int ℚ := ⟨[[1, 2], [3, 4]], [1, 1], 1, 10, 2⟩
  let b : Sync Int ℚ := ⟨[[5], [6]], [1, 1], 2, 3, 1⟩
  refine ⟨⟨[b, a], ⟨2, [("a", [0]), ("b", [1])]⟩⟩, Reach.new (.dict [("a", .int 0), ("b", .int 1)])
    [.sync a, .sync b] ?_ (by simp) (by decide +kernel), rfl⟩
  intro s hs
  simp at hs
  rcases hs with rfl | rfl <;> exact ⟨by simp [a, b], by simp [a, b], by simp [a, b]⟩

/-! C13 -/

theorem new_sync [Rnd] [One κ] (tags : TagsArg) (runs : List (Sync α κ)) :
    SigSet.new tags (runs.map .sync) = build tags runs := by
  have : mapE (argRuns tags) (runs.map SigArg.sync) = .ok (runs.map (fun r => [r])) := by
    induction runs with
    | nil => rfl
    | cons r rs ih => simp [mapE, argRuns, ih]
  unfold SigSet.new
  rw [this]
  simp only
  congr 1
  clear this
  induction runs with
  | nil => rfl
  | cons r rs ih => simpa using ih

/-- **C13.** Runs with different channel counts are rejected. -/
theorem C13_rejects_heterogeneous [Rnd] [One κ] (tags : TagsArg) (runs : List (Sync α κ)) (r r' : Sync α κ)
    (hr : r ∈ runs) (hr' : r' ∈ runs) (h : r.data.length ≠ r'.data.length) :
    ∀ S, SigSet.new tags (runs.map .sync) ≠ .ok S := by
  intro S hS
  rw [new_sync] at hS
  exact h ((build_as.1 hS).1 r hr r' hr')

/-- **C13.** Two runs (positions `i < j` of the argument list) that overlap by more than an instant are
rejected, whatever the order. -/
theorem C13_rejects_overlap [One κ] (tags : TagsArg) (runs : List (Sync α κ)) (i j : Nat) (hij : i < j)
    (hj : j < runs.length)
    (h1 : runs[i].start < lastTime runs[j]) (h2 : runs[j].start < lastTime runs[i]) :
    ∀ S, SigSet.new tags (runs.map .sync) ≠ .ok S := by
  intro S hS
  rw [new_sync] at hS
  obtain ⟨_, _, hp, _⟩ := build_iff.1 hS
  have hp' : (sortRuns runs).Pairwise (fun a b => lastTime a ≤ b.start ∨ lastTime b ≤ a.start) :=
    hp.imp (fun h => Or.inl h)
  have hp'' : runs.Pairwise (fun a b => lastTime a ≤ b.start ∨ lastTime b ≤ a.start) :=
    ((sortRuns_perm runs).pairwise_iff (fun h => h.symm)).1 hp'
  rcases List.pairwise_iff_getElem.1 hp'' i j (by omega) hj hij with h | h
  · exact absurd h (not_le.2 h2)
  · exact absurd h (not_le.2 h1)

theorem sortRuns_strict {runs : List (Sync α κ)} (hd : runs.Pairwise (fun a b => a.start ≠ b.start)) :
    (sortRuns runs).Pairwise (fun a b => a.start < b.start) := by
  have h1 := sortRuns_sorted runs
  have h2 := ((sortRuns_perm runs).symm.pairwise_iff (R := fun a b : Sync α κ => a.start ≠ b.start)
    (fun h => Ne.symm h)).1 hd
  exact (h1.and h2).imp (fun h => lt_of_le_of_ne h.1 h.2)

/-- **C13.** For runs with positive rates, samples and pairwise distinct starts, construction with a tag
dictionary succeeds exactly when all have the same number `n` of channels, no two overlap by more than an
instant, and `Tags(n, **d)` is accepted. -/
theorem C13_accepts_iff [One κ] (d : List (String × TagVal)) (runs : List (Sync α κ)) (n : Nat)
    (hne : runs ≠ []) (hw : ∀ r ∈ runs, WF r) (hpos : ∀ r ∈ runs, 0 < r.rate ∧ 0 < r.size)
    (hd : runs.Pairwise (fun a b => a.start ≠ b.start)) (hn : ∀ r, runs.head? = some r → r.data.length = n) :
    (∃ S, SigSet.new (.dict d) (runs.map .sync) = .ok S) ↔
      (∀ r ∈ runs, r.data.length = n) ∧
      (runs.Pairwise (fun a b => lastTime a ≤ b.start ∨ lastTime b ≤ a.start)) ∧
      (∃ t, Tags.new (some n) d = .ok t) := by
  rw [new_sync]
  obtain ⟨r0, hr0⟩ : ∃ r, runs.head? = some r := by
    cases runs with
    | nil => exact absurd rfl hne
    | cons r rs => exact ⟨r, rfl⟩
  have hr0m : r0 ∈ runs := List.mem_of_mem_head? hr0
  have hr0n := hn r0 hr0
  have hn0 : n ≠ 0 := by
    rw [← hr0n]; have := (hw r0 hr0m).nonempty; simpa using this
  have hcount : (∀ r ∈ runs, r.data.length = n) → chanCount (sortRuns runs) = n := by
    intro hall
    cases hs : sortRuns runs with
    | nil =>
      have := (sortRuns_perm runs).length_eq
      rw [hs] at this
      exact absurd (List.eq_nil_of_length_eq_zero this.symm) hne
    | cons r rs => exact hall r (mem_sortRuns.1 (by rw [hs]; simp))
  constructor
  · rintro ⟨S, hS⟩
    obtain ⟨h1, h2, h3, h4, h5⟩ := build_iff.1 hS
    have hall : ∀ r ∈ runs, r.data.length = n := fun r hr => by rw [← hr0n]; exact h1 r hr r0 hr0m
    refine ⟨hall, ?_, ?_⟩
    · exact ((sortRuns_perm runs).pairwise_iff (R := fun a b : Sync α κ => lastTime a ≤ b.start ∨ lastTime b ≤ a.start)
        (fun h => h.symm)).1 (h3.imp (fun h => Or.inl h))
    · rw [hcount hall] at h5
      simp only [mkTags, hn0, if_false] at h5
      exact ⟨_, h5⟩
  · rintro ⟨h1, h2, t, ht⟩
    refine ⟨⟨sortRuns runs, t⟩, build_iff.2 ⟨?_, ?_, ?_, rfl, ?_⟩⟩
    · intro r hr r' hr'; rw [h1 r hr, h1 r' hr']
    · exact fun r hr => (hpos r hr).1.ne'
    · have h3 := ((sortRuns_perm runs).symm.pairwise_iff
        (R := fun a b : Sync α κ => lastTime a ≤ b.start ∨ lastTime b ≤ a.start) (fun h => h.symm)).1 h2
      have h4 := sortRuns_strict hd
      have h5 := (List.pairwise_iff_getElem.1 h3)
      rw [List.pairwise_iff_getElem] at h4 ⊢
      intro i j hi hj hij
      rcases h5 i j hi hj hij with h | h
      · exact h
      · have e1 := h4 i j hi hj hij
        have hm : (sortRuns runs)[j] ∈ runs := mem_sortRuns.1 (List.getElem_mem hj)
        have e2 := Sync.start_le_lastTime (hpos _ hm).1 (hpos _ hm).2
        linarith
    · rw [hcount h1]
      simp only [mkTags, hn0, if_false]
      exact ht

theorem build_perm [Rnd] {tags : TagsArg} {runs runs' : List (Sync α κ)} (hp : runs.Perm runs')
    (hs : sortRuns runs = sortRuns runs') : build tags runs = build tags runs' := by
  have hl : (1 < (dedup (runs.map (fun s => s.data.length))).length) ↔
      (1 < (dedup (runs'.map (fun s => s.data.length))).length) := by
    rw [← not_iff_not, dedup_length_le_one, dedup_length_le_one]
    simp [hp.mem_iff]
  have herr : ∀ (l : List (Sync α κ)) (r : Sync α κ), r ∈ l → r.rate = 0 → mapE Sync.interval l = .error .zeroDiv := by
    intro l r hr h0
    cases hm : mapE Sync.interval l with
    | ok ivs => exact absurd h0 ((interval_map_as hm).1 r hr)
    | error e =>
      obtain ⟨a, _, ha⟩ := mapE_error hm
      unfold Sync.interval at ha
      split at ha
      · rename_i e' he'
        simp at ha; subst ha
        unfold Sync.stop Sync.indexToTime at he'
        dsimp only at he'
        by_cases h1 : a.rate = 0
        · simp [h1] at he'; rw [he']
        · simp [h1] at he'
      · simp at ha
  unfold build
  by_cases h1 : 1 < (dedup (runs.map (fun s => s.data.length))).length
  · rw [if_pos h1, if_pos (hl.1 h1)]
  · rw [if_neg h1, if_neg (fun h => h1 (hl.2 h))]
    by_cases h2 : ∀ r ∈ runs, r.rate ≠ 0
    · have h2' : ∀ r ∈ runs', r.rate ≠ 0 := fun r hr => h2 r (hp.mem_iff.2 hr)
      rw [mapE_of_forall (fun r hr' => Sync.interval_as (h2 r hr')), mapE_of_forall (fun r hr' => Sync.interval_as (h2' r hr'))]
      simp only
      rw [sortBy_map (f := fun r : Sync α κ => (r.start, r.stopAs))
        (le := fun a b => decide (a.start ≤ b.start)) (by intro a b; rfl),
        sortBy_map (f := fun r : Sync α κ => (r.start, r.stopAs))
        (le := fun a b => decide (a.start ≤ b.start)) (by intro a b; rfl)]
      have : sortBy (fun a b : Sync α κ => decide (a.start ≤ b.start)) runs =
        sortBy (fun a b : Sync α κ => decide (a.start ≤ b.start)) runs' := hs
      rw [this]
    · push Not at h2
      obtain ⟨r, hr, h0⟩ := h2
      rw [herr runs r hr h0, herr runs' r (hp.mem_iff.1 hr) h0]

/-- **C13.** With pairwise distinct starts the outcome (result or exception) does not depend on the order of
the arguments. -/
theorem C13_argument_order [Rnd] [One κ] (tags : TagsArg) (runs runs' : List (Sync α κ)) (hp : runs.Perm runs')
    (hd : runs.Pairwise (fun a b => a.start ≠ b.start)) :
    SigSet.new tags (runs.map .sync) = SigSet.new tags (runs'.map .sync) := by
  rw [new_sync, new_sync]
  have hd' := (hp.pairwise_iff (R := fun a b : Sync α κ => a.start ≠ b.start) (fun h => Ne.symm h)).1 hd
  refine build_perm hp ?_
  exact perm_eq_of_pairwise (r := fun a b : Sync α κ => a.start < b.start)
    (fun a b h h' => lt_asymm h h')
    (((sortRuns_perm runs).trans hp).trans (sortRuns_perm runs').symm) (sortRuns_strict hd) (sortRuns_strict hd')

/-- The runs of the result are the given runs, in time order. -/
theorem C13_runs_sorted [Rnd] [One κ] (tags : TagsArg) (runs : List (Sync α κ)) (S : SigSet α κ)
    (h : SigSet.new tags (runs.map .sync) = .ok S) :
    S.runs.Perm runs ∧ S.runs.Pairwise (fun a b => a.start ≤ b.start) := by
  rw [new_sync] at h
  obtain ⟨_, _, _, h4, _⟩ := build_as.1 h
  rw [h4]
  exact ⟨sortRuns_perm runs, sortRuns_sorted runs⟩

section examples
def exLong : Sync Int ℚ := ⟨[[1, 2, 3]], [1], 1, 0, 3⟩
def exInstant : Sync Int ℚ := ⟨[[9]], [1], 1, 0, 1⟩
def exLater : Sync Int ℚ := ⟨[[4, 5]], [1], 1, 2, 2⟩

example : ∃ S, SigSet.new (.dict [("a", .int 0)]) ([exLater, exLong].map .sync) = .ok S ∧
    S.runs = [exLong, exLater] ∧ [exLater, exLong].Pairwise (fun a b => a.start ≠ b.start) :=
  ⟨⟨[exLong, exLater], ⟨1, [("a", [0])]⟩⟩, by decide +kernel, rfl, by simp [exLater, exLong]⟩

/-- Why distinct starts are needed: a run and a single sample at the same start are accepted in one order
and rejected in the other. -/
theorem C13_equal_starts_depend_on_order :
    (∃ S, SigSet.new (.dict [("a", .int 0)]) ([exInstant, exLong].map .sync) = .ok S) ∧
    SigSet.new (.dict [("a", .int 0)]) ([exLong, exInstant].map .sync) = .error .assertion :=
  ⟨⟨⟨[exInstant, exLong], ⟨1, [("a", [0])]⟩⟩, by decide +kernel⟩, by decide +kernel⟩
end examples

/-! C29 -/

/-- **C29.** Assigning a dictionary with distinct, legal, non reserved names and non-empty values: accepted
exactly when all indices are channels; the stored range is the number of channels and the entries are the
given ones. A refused dictionary raises ValueError. -/
theorem C29_assign_dict (S : SigSet α κ) (h0 : S.nbChannels ≠ 0) (d : List (String × TagVal))
    (hnd : (d.map (·.1)).Nodup) (hres : ∀ k ∈ reserved, k ∉ d.map (·.1))
    (hname : ∀ e ∈ d, LegalName e.1) (hne : ∀ e ∈ d, tupleit e.2 ≠ []) :
    ((∀ e ∈ d, ∀ i ∈ tupleit e.2, 0 ≤ i ∧ i < S.nbChannels) →
      ∃ S', S.setTags (.dict d) = .ok S' ∧ S'.runs = S.runs ∧ S'.tags.n = S.nbChannels ∧
        S'.tags.tags = d.map (fun e => (e.1, (tupleit e.2).map Int.toNat))) ∧
    (¬ (∀ e ∈ d, ∀ i ∈ tupleit e.2, 0 ≤ i ∧ i < S.nbChannels) → S.setTags (.dict d) = .error .value) := by
  have hres' : ∀ k ∈ ["indices", "n", "self"], k ∉ d.map (·.1) := by
    intro k hk; exact hres k (by simp only [reserved]; simp at hk ⊢; tauto)
  constructor
  · intro hr
    have := Tags.new_some_eq (n := S.nbChannels) hnd hres' hname hne hr
    unfold setTags
    simp only [mkTags, h0, if_false, this]
    exact ⟨_, rfl, rfl, rfl, rfl⟩
  · intro hr
    have key : ∀ (acc : Dict (List Nat)), acc.get? "indices" = none →
        (Tags.updateLoop { n := S.nbChannels, tags := acc } d).2 = some .value := by
      have hidx : "indices" ∉ d.map (·.1) := hres' "indices" (by simp)
      clear hnd hres hres'
      induction d with
      | nil => exact absurd (by simp) hr
      | cons e d ih =>
        obtain ⟨k, v⟩ := e
        intro acc hacc
        simp only [Tags.updateLoop]
        have hki : k ≠ "indices" := fun h => hidx (by simp [h])
        by_cases hv : ∀ i ∈ tupleit v, 0 ≤ i ∧ i < S.nbChannels
        · have hset : (Tags.mk S.nbChannels acc).setItem k v =
              .ok { n := S.nbChannels, tags := acc.set k ((tupleit v).map Int.toNat) } := by
            rw [Tags.setItem_ok]
            refine ⟨hname (k, v) (by simp), hne (k, v) (by simp), ?_, rfl⟩
            intro i hi
            have := hv i hi
            refine ⟨this.1, ?_⟩
            simp only [Tags.indices, hacc, List.mem_range]; omega
          rw [hset]
          refine ih (fun e he => hname e (by simp [he])) (fun e he => hne e (by simp [he])) ?_ ?_ _ ?_
          · intro hc
            apply hr
            intro e he
            rcases List.mem_cons.1 he with rfl | he
            · exact hv
            · exact hc e he
          · intro hc; exact hidx (by simp at hc ⊢; exact Or.inr hc)
          · rw [Dict.get?_set, if_neg hki]; exact hacc
        · have : (Tags.mk S.nbChannels acc).setItem k v = .error .value := by
            rw [Tags.setItem_error]
            refine Or.inr ⟨hname (k, v) (by simp), hne (k, v) (by simp), ?_, rfl⟩
            intro hc
            apply hv
            intro i hi
            have := hc i hi
            refine ⟨this.1, ?_⟩
            have h2 := this.2
            simp only [Tags.indices, hacc, List.mem_range] at h2
            omega
          rw [this]
    have h1 := key [] rfl
    unfold setTags
    simp only [mkTags, h0, if_false]
    have hk : (d.any (fun e => e.1 == "n" || e.1 == "self")) = false := by
      simp only [List.any_eq_false]
      intro e he
      have e1 : e.1 ≠ "n" := fun h => hres' "n" (by simp) (h ▸ List.mem_map_of_mem he)
      have e2 : e.1 ≠ "self" := fun h => hres' "self" (by simp) (h ▸ List.mem_map_of_mem he)
      simp [e1, e2]
    unfold Tags.new
    simp only [hk, Bool.false_eq_true, if_false]
    generalize hu : Tags.updateLoop { n := S.nbChannels, tags := [] } d = u at h1
    obtain ⟨t, o⟩ := u
    simp only at h1
    subst h1
    rfl

/-- **C29.** Assigning a `Tags` object (without reserved names): accepted exactly when its whole range is
within the channels; the stored range is then the number of channels and the entries are unchanged. -/
theorem C29_assign_tags (S : SigSet α κ) (h0 : S.nbChannels ≠ 0) (t : Tags) (hi : t.Inv) (hp : Plain t) :
    (t.n ≤ S.nbChannels →
      S.setTags (.tags t) = .ok { S with tags := { n := S.nbChannels, tags := t.tags } }) ∧
    (¬ t.n ≤ S.nbChannels → S.setTags (.tags t) = .error .value) := by
  constructor
  · intro h
    unfold setTags
    rw [mkTags_eq hi hp h0 h]
  · intro h
    unfold setTags
    have : mkTags S.nbChannels (.tags t) = .error .value := by
      simp only [mkTags]
      rw [if_pos]
      refine ⟨h0, ?_⟩
      rw [plain_indices hp]
      simp only [List.all_eq_true, List.mem_range, decide_eq_true_eq, not_forall]
      exact ⟨S.nbChannels, by omega, by omega⟩
    rw [this]

/-- **C29.** An assignment only changes the tags. -/
theorem C29_assign_frame (S S' : SigSet α κ) (v : TagsArg) (h : S.setTags v = .ok S') : S'.runs = S.runs := by
  unfold setTags at h
  split at h
  · simp at h
  · simp at h; rw [← h]

example : ∃ S : SigSet Int ℚ, SigSet.new (.dict [("a", .int 0)]) [.sync ⟨[[1, 2], [3, 4]], [1, 1], 1, 10, 2⟩] = .ok S ∧
    S.nbChannels ≠ 0 ∧ (∃ S', S.setTags (.dict [("b", .tup [1, 0])]) = .ok S') ∧
    S.setTags (.dict [("b", .int 2)]) = .error .value :=
  ⟨⟨[⟨[[1, 2], [3, 4]], [1, 1], 1, 10, 2⟩], ⟨2, [("a", [0])]⟩⟩, by decide +kernel, by decide,
    ⟨⟨[⟨[[1, 2], [3, 4]], [1, 1], 1, 10, 2⟩], ⟨2, [("b", [1, 0])]⟩⟩, by decide +kernel⟩, by decide +kernel⟩

end Razorback.Props
