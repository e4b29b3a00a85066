/-
Properties C14, C15: join.
-/
import Verif.Lemmas.Join
import Verif.Props.SigSet

namespace Razorback.Props
open Razorback Razorback.Spec Razorback.SigSet
variable {α κ : Type _}

/-! C14 -/

/-- **C14.** Every run of `S.join(args)` is a run of `S`, of a signal-set operand, or a `SyncSignal`
operand: with the same clock, and such that every tag `k`, position `j` of the result designates in it the
data and calibration that the operand's own `k`, `j` designates.  The tags of the result are those of `S`. -/
theorem C14_join_by_tag [Rnd] [One κ] (S R : SigSet α κ) (args : List (SigArg α κ)) (hS : Reach S)
    (hA : ∀ T, .set T ∈ args → Reach T) (h : S.join args = .ok R) :
    SameTags R.tags S.tags ∧
    ∀ r ∈ R.runs, (∃ s ∈ S.runs, SameRun R.tags r S.tags s) ∨
      (∃ T, .set T ∈ args ∧ ∃ s ∈ T.runs, SameRun R.tags r T.tags s) ∨
      (∃ s, .sync s ∈ args ∧ SameRun R.tags r R.tags s) := by
  obtain ⟨h1, _, h2, rs, h3, h4⟩ := new_same (reach_sinv hS).inv (args := .set S :: args) (R := R) (by
    intro T hT
    rcases List.mem_cons.1 hT with hT | hT
    · simp at hT; rw [hT]; exact reach_sinv hS
    · exact reach_sinv (hA T hT)) h
  refine ⟨h1, ?_⟩
  intro r hr
  obtain ⟨i, hi, rfl⟩ := List.getElem_of_mem (h3.mem_iff.1 hr)
  have hi' : i < ((SigArg.set S :: args).flatMap (sources R.tags)).length := by rw [← h4.length_eq]; exact hi
  have hsame := (List.forall₂_iff_get.1 h4).2 i hi hi'
  simp only [List.get_eq_getElem] at hsame
  have hm := List.getElem_mem hi'
  generalize ((SigArg.set S :: args).flatMap (sources R.tags))[i] = src at hsame hm
  obtain ⟨a, ha, hsrc⟩ := List.mem_flatMap.1 hm
  have hset : ∀ T, a = .set T → ∃ s ∈ T.runs, SameRun R.tags rs[i] T.tags s := by
    rintro T rfl
    simp only [sources, List.mem_map] at hsrc
    obtain ⟨s, hs, rfl⟩ := hsrc
    exact ⟨s, hs, hsame⟩
  rcases List.mem_cons.1 ha with rfl | ha
  · exact Or.inl (hset S rfl)
  · right
    cases a with
    | set T => exact Or.inl ⟨T, ha, hset T rfl⟩
    | sync s =>
      simp only [sources, List.mem_singleton] at hsrc
      subst hsrc
      exact Or.inr ⟨s, ha, hsame⟩

/-- **C14.** and conversely every run of every operand is in the result, so seen through the tags. -/
theorem C14_join_keeps_runs [Rnd] [One κ] (S R : SigSet α κ) (args : List (SigArg α κ)) (hS : Reach S)
    (hA : ∀ T, .set T ∈ args → Reach T) (h : S.join args = .ok R) :
    (∀ s ∈ S.runs, ∃ r ∈ R.runs, SameRun R.tags r S.tags s) ∧
    (∀ T, .set T ∈ args → ∀ s ∈ T.runs, ∃ r ∈ R.runs, SameRun R.tags r T.tags s) ∧
    (∀ s, .sync s ∈ args → ∃ r ∈ R.runs, SameRun R.tags r R.tags s) := by
  obtain ⟨h1, _, h2, rs, h3, h4⟩ := new_same (reach_sinv hS).inv (args := .set S :: args) (R := R) (by
    intro T hT
    rcases List.mem_cons.1 hT with hT | hT
    · simp at hT; rw [hT]; exact reach_sinv hS
    · exact reach_sinv (hA T hT)) h
  have key : ∀ a ∈ SigArg.set S :: args, ∀ src ∈ sources R.tags a, ∃ r ∈ R.runs, SameRun R.tags r src.1 src.2 := by
    intro a ha src hsrc
    have hm : src ∈ (SigArg.set S :: args).flatMap (sources R.tags) := List.mem_flatMap.2 ⟨a, ha, hsrc⟩
    obtain ⟨i, hi, rfl⟩ := List.getElem_of_mem hm
    have hi' : i < rs.length := by rw [h4.length_eq]; exact hi
    exact ⟨rs[i], h3.mem_iff.2 (List.getElem_mem hi'), (List.forall₂_iff_get.1 h4).2 i hi' hi⟩
  refine ⟨?_, ?_, ?_⟩
  · intro s hs
    exact key (.set S) (by simp) (S.tags, s) (by simpa [sources] using hs)
  · intro T hT s hs
    exact key _ (List.mem_cons_of_mem _ hT) (T.tags, s) (by simpa [sources] using hs)
  · intro s hs
    exact key _ (List.mem_cons_of_mem _ hs) (R.tags, s) (by simp [sources])

/-- **C14.** If two tag positions are one channel of `S` but different signals in an operand, no renumbering
is consistent and the join raises. -/
theorem C14_inconsistent_raises [Rnd] [One κ] (S T : SigSet α κ) (args : List (SigArg α κ)) (hS : Reach S)
    (hA : ∀ T, .set T ∈ args → Reach T) (hT : .set T ∈ args) (s : Sync α κ) (hs : s ∈ T.runs)
    (k k' : String) (v v' : List Nat) (j j' : Nat) (hv : S.tags.getItem k = .ok v)
    (hv' : S.tags.getItem k' = .ok v') (hj : v[j]? = v'[j']?)
    (hd : designated T.tags s k j ≠ designated T.tags s k' j') : ∃ e, S.join args = .error e := by
  cases h : S.join args with
  | error e => exact ⟨e, rfl⟩
  | ok R =>
    exfalso
    apply hd
    obtain ⟨r, _, hr⟩ := (C14_join_keeps_runs S R args hS hA h).2.1 T hT s hs
    have h1 := (C14_join_by_tag S R args hS hA h).1
    rw [← hr.chans k j, ← hr.chans k' j']
    unfold designated
    rw [h1 k, h1 k', hv, hv']
    simp only [hj]

/-- **C14.** An operand lacking one of the names, or having another one, makes the join raise. -/
theorem C14_other_names_raise [Rnd] [One κ] (S T : SigSet α κ) (args : List (SigArg α κ)) (hS : Reach S)
    (hA : ∀ T, .set T ∈ args → Reach T) (hT : .set T ∈ args) (k : String)
    (hk : ¬ (S.tags.getItem k = .error .key ↔ T.tags.getItem k = .error .key)) :
    ∃ e, S.join args = .error e := by
  cases h : S.join args with
  | error e => exact ⟨e, rfl⟩
  | ok R =>
    exfalso
    apply hk
    have hi := (reach_sinv hS).inv
    unfold SigSet.join SigSet.new at h
    split at h
    · simp at h
    · rename_i rss hm
      obtain ⟨rs, hrs⟩ := mapE_ok_forall hm (.set T) (by simp [hT])
      simp only [argRuns] at hrs
      split at hrs
      · simp at hrs
      · rename_i T' hT'
        unfold reorder at hT'
        split at hT'
        · simp at hT'
        · rename_i heq
          unfold reorderMap at heq
          split at heq
          · rename_i he
            simp only [tagsEq] at he
            rw [Tags.eq_get (reach_sinv (hA T hT)).inv hi he k]
          · dsimp only at heq
            split at heq
            · split at heq
              · simp at heq
              · split at heq
                · simp at heq
                · split at heq <;> simp at heq
            · simp at heq
        · rename_i pairs heq
          have := (reorderMap_ok (reach_sinv (hA T hT)).inv heq).1 k
          have hent : (TagsArg.tags S.tags).entries.map (·.1) = S.tags.tags.keys := by
            simp [TagsArg.entries, Dict.keys, Function.comp_def]
          rw [hent] at this
          rw [Tags.getItem_error, Tags.getItem_error, this]

section examples
def exA : SigSet Int ℚ := ⟨[⟨[[1, 2], [3, 4]], [1, 1], 1, 0, 2⟩], ⟨2, [("E", [0]), ("B", [1])]⟩⟩
def exB : SigSet Int ℚ := ⟨[⟨[[5, 6], [7, 8]], [2, 3], 1, 10, 2⟩], ⟨2, [("B", [0]), ("E", [1])]⟩⟩

theorem exA_reach : Reach exA := Reach.new (.dict [("E", .int 0), ("B", .int 1)])
  [.sync ⟨[[1, 2], [3, 4]], [1, 1], 1, 0, 2⟩]
  (by intro s hs; simp at hs; subst hs; exact ⟨by simp, by simp, by simp⟩) (by simp) (by decide +kernel)

theorem exB_reach : Reach exB := Reach.new (.dict [("B", .int 0), ("E", .int 1)])
  [.sync ⟨[[5, 6], [7, 8]], [2, 3], 1, 10, 2⟩]
  (by intro s hs; simp at hs; subst hs; exact ⟨by simp, by simp, by simp⟩) (by simp) (by decide +kernel)

/-- The channels of `exB` are swapped to follow the tags of `exA`. -/
example : exA.join [.set exB] = .ok ⟨[⟨[[1, 2], [3, 4]], [1, 1], 1, 0, 2⟩, ⟨[[7, 8], [5, 6]], [3, 2], 1, 10, 2⟩],
    ⟨2, [("E", [0]), ("B", [1])]⟩⟩ := by decide +kernel

example : ∃ e, exA.join [.set ⟨[⟨[[5, 6], [7, 8]], [2, 3], 1, 10, 2⟩], ⟨2, [("B", [0]), ("F", [1])]⟩⟩] = .error e :=
  ⟨.assertion, by decide +kernel⟩
end examples

/-! C15 -/

/-- **C15.** The clocks (rate, start, size) of the runs of a join are those of all operands together, and
the runs are sorted in time. -/
theorem C15_join_union [Rnd] [One κ] (S R : SigSet α κ) (args : List (SigArg α κ)) (hS : Reach S)
    (hA : ∀ T, .set T ∈ args → Reach T) (h : S.join args = .ok R) :
    (R.runs.map clock).Perm ((S.runs ++ args.flatMap operandRuns).map clock) ∧
    R.runs.Pairwise (fun a b => a.start ≤ b.start) := by
  obtain ⟨h1, _, h2, rs, h3, h4⟩ := new_same (reach_sinv hS).inv (args := .set S :: args) (R := R) (by
    intro T hT
    rcases List.mem_cons.1 hT with hT | hT
    · simp at hT; rw [hT]; exact reach_sinv hS
    · exact reach_sinv (hA T hT)) h
  refine ⟨?_, h2⟩
  have e1 : rs.map clock = ((SigArg.set S :: args).flatMap (sources R.tags)).map (fun src => clock src.2) := by
    clear h3
    generalize (SigArg.set S :: args).flatMap (sources R.tags) = srcs at h4
    induction h4 with
    | nil => rfl
    | cons hab _ ih =>
      simp only [List.map_cons, ih]
      congr 1
      simp only [clock, hab.rate, hab.start, hab.size]
  have e2 : ∀ l : List (SigArg α κ), (l.flatMap (sources R.tags)).map (fun src => clock src.2) =
      (l.flatMap operandRuns).map clock := by
    intro l
    induction l with
    | nil => rfl
    | cons a l ih =>
      simp only [List.flatMap_cons, List.map_append, ih]
      congr 1
      cases a <;> simp [sources, operandRuns]
  have : (S.runs ++ args.flatMap operandRuns) = (SigArg.set S :: args).flatMap operandRuns := rfl
  rw [this, ← e2, ← e1]
  exact h3.map _

/-- A sorted list of runs with pairwise distinct starts is determined by its clocks up to permutation. -/
theorem clocks_eq {l l' : List (Sync α κ)} (hp : (l.map clock).Perm (l'.map clock))
    (h : l.Pairwise (fun a b => a.start ≤ b.start)) (h' : l'.Pairwise (fun a b => a.start ≤ b.start))
    (hd : l.Pairwise (fun a b => a.start ≠ b.start)) : l.map clock = l'.map clock := by
  refine perm_eq_of_pairwise (r := fun a b : ℚ × ℚ × Nat => a.2.1 < b.2.1) (fun a b h h' => lt_asymm h h') hp ?_ ?_
  · rw [List.pairwise_map]
    exact (h.and hd).imp (fun hx => lt_of_le_of_ne hx.1 hx.2)
  · have hd' : (l.map clock).Pairwise (fun a b => a.2.1 ≠ b.2.1) := by rw [List.pairwise_map]; exact hd
    have hd2 := (hp.pairwise_iff (R := fun a b : ℚ × ℚ × Nat => a.2.1 ≠ b.2.1) (fun h => Ne.symm h)).1 hd'
    rw [List.pairwise_map] at hd2 ⊢
    exact (h'.and hd2).imp (fun hx => lt_of_le_of_ne hx.1 hx.2)

/-- **C15.** `a.join(b)` and `b.join(a)`, when both succeed, have the same run clocks (as multisets; in the
same order when the starts are distinct). -/
theorem C15_join_comm [Rnd] [One κ] (A B R R' : SigSet α κ) (hA : Reach A) (hB : Reach B)
    (h : A.join [.set B] = .ok R) (h' : B.join [.set A] = .ok R') :
    (R.runs.map clock).Perm (R'.runs.map clock) ∧
    (R.runs.Pairwise (fun a b => a.start ≠ b.start) → R.runs.map clock = R'.runs.map clock) := by
  obtain ⟨p1, s1⟩ := C15_join_union A R _ hA (by simpa using hB) h
  obtain ⟨p2, s2⟩ := C15_join_union B R' _ hB (by simpa using hA) h'
  have hp : (R.runs.map clock).Perm (R'.runs.map clock) := by
    refine p1.trans (List.Perm.trans ?_ p2.symm)
    apply List.Perm.map
    simpa [operandRuns] using List.perm_append_comm
  exact ⟨hp, fun hd => clocks_eq hp s1 s2 hd⟩

/-- **C15.** Associativity on run clocks: `(a.join(b)).join(c)` and `a.join(b.join(c))`. -/
theorem C15_join_assoc [Rnd] [One κ] (A B C AB BC R R' : SigSet α κ) (hA : Reach A) (hB : Reach B) (hC : Reach C)
    (h1 : A.join [.set B] = .ok AB) (h2 : AB.join [.set C] = .ok R)
    (h3 : B.join [.set C] = .ok BC) (h4 : A.join [.set BC] = .ok R') :
    (R.runs.map clock).Perm (R'.runs.map clock) ∧
    (R.runs.Pairwise (fun a b => a.start ≠ b.start) → R.runs.map clock = R'.runs.map clock) := by
  have hAB : Reach AB := Reach.join _ hA (by simp) (by simpa using hB) h1
  have hBC : Reach BC := Reach.join _ hB (by simp) (by simpa using hC) h3
  obtain ⟨p1, _⟩ := C15_join_union A AB _ hA (by simpa using hB) h1
  obtain ⟨p2, s2⟩ := C15_join_union AB R _ hAB (by simpa using hC) h2
  obtain ⟨p3, _⟩ := C15_join_union B BC _ hB (by simpa using hC) h3
  obtain ⟨p4, s4⟩ := C15_join_union A R' _ hA (by simpa using hBC) h4
  simp only [List.flatMap_cons, List.flatMap_nil, List.append_nil, operandRuns, List.map_append] at p1 p2 p3 p4
  have hp : (R.runs.map clock).Perm (R'.runs.map clock) := by
    refine p2.trans (((p1.append_right _)).trans (List.Perm.trans ?_ p4.symm))
    rw [List.append_assoc]
    exact (p3.append_left _).symm
  exact ⟨hp, fun hd => clocks_eq hp s2 s4 hd⟩

example : ∃ R R', exA.join [.set exB] = .ok R ∧ exB.join [.set exA] = .ok R' ∧ R.runs ≠ R'.runs ∧
    R.runs.map clock = [(1, 0, 2), (1, 10, 2)] :=
  ⟨⟨[⟨[[1, 2], [3, 4]], [1, 1], 1, 0, 2⟩, ⟨[[7, 8], [5, 6]], [3, 2], 1, 10, 2⟩], ⟨2, [("E", [0]), ("B", [1])]⟩⟩,
    ⟨[⟨[[3, 4], [1, 2]], [1, 1], 1, 0, 2⟩, ⟨[[5, 6], [7, 8]], [2, 3], 1, 10, 2⟩], ⟨2, [("B", [0]), ("E", [1])]⟩⟩,
    by decide +kernel, by decide +kernel, by decide +kernel, by decide +kernel⟩

end Razorback.Props
