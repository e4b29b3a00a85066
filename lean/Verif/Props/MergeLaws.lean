/-
Laws of `merge` (C102): order and grouping of the operands, and cutting before or after.
-/
import Verif.Lemmas.Laws

namespace Razorback.Props
open Razorback Razorback.SigSet Razorback.Spec
variable {α κ : Type _}

theorem choice_length {c : List (Sync α κ)} {seqs : List (SigSet α κ)} (h : Choice c seqs) : c.length = seqs.length :=
  List.Forall₂.length_eq h

theorem perm_of_zip {c c' : List (Sync α κ)} {seqs seqs' : List (SigSet α κ)} (h : Choice c seqs) (h' : Choice c' seqs')
    (hp : (c.zip seqs).Perm (c'.zip seqs')) : c.Perm c' := by
  have := hp.map Prod.fst
  rwa [List.map_fst_zip (by rw [choice_length h]), List.map_fst_zip (by rw [choice_length h'])] at this

theorem merged_size {r r' : Sync α κ} {c c' : List (Sync α κ)} {a b : ℚ} (hw : WF r) (hw' : WF r') (hm : Merged r c a b)
    (hm' : Merged r' c' a b) (hcc : c.Perm c') : r.size = r'.size := by
  obtain ⟨ch, hch⟩ := Sync.exists_channel hw
  have hch' : ch ∈ channels r' := by
    rw [hm'.channels, ← (hcc.flatMap_right _).mem_iff, ← hm.channels]; exact hch
  obtain ⟨d, _, e1, e2⟩ := Sync.mem_channels hw hch
  obtain ⟨d', _, e3, e4⟩ := Sync.mem_channels hw' hch'
  have hl : ∀ (rate start : ℚ) (d : List α), (timed rate start d).length = d.length := by
    intro rate start d; simp [timed]
  rw [← e2, ← e4, ← hl r.rate r.start d, ← hl r'.rate r'.start d', ← e1, ← e3]

/-- One direction of the correspondence of the runs of two merges of the same operands. -/
theorem merge_perm_run [One κ] {S S' R R' : SigSet α κ} {others others' : List (SigSet α κ)}
    (hperm : (S :: others).Perm (S' :: others')) (hR : ∀ T ∈ S :: others, Reach T) (hp : ∀ T ∈ S :: others, Plain T.tags)
    (hr : ∀ T ∈ S :: others, ∀ s ∈ T.runs, 0 < s.rate) (h : S.merge others = .ok R) (h' : S'.merge others' = .ok R') :
    ∀ r ∈ R.runs, ∃ r' ∈ R'.runs, SameRun R.tags r R'.tags r' ∧ (channels r).Perm (channels r') := by
  have hR' : ∀ T ∈ S' :: others', Reach T := fun T hT => hR T (hperm.mem_iff.2 hT)
  have hp' : ∀ T ∈ S' :: others', Plain T.tags := fun T hT => hp T (hperm.mem_iff.2 hT)
  have hr' : ∀ T ∈ S' :: others', ∀ s ∈ T.runs, 0 < s.rate := fun T hT => hr T (hperm.mem_iff.2 hT)
  obtain ⟨q1, -, -, -⟩ := merge_runs hR hp hr h
  obtain ⟨-, q2, -, -⟩ := merge_runs hR' hp' hr' h'
  intro r hrr
  obtain ⟨c, b, hc, ho, hm⟩ := q1 r hrr
  obtain ⟨c', hc', hzip⟩ := choice_perm hperm hc
  have hcc := perm_of_zip hc hc' hzip
  obtain ⟨r', hr'', hm'⟩ := q2 c' r.start b r.rate hc' (Overlap.congr (fun s => hcc.mem_iff) ho)
    (fun s hs => hm.rate s (hcc.mem_iff.2 hs))
  obtain ⟨s0, hs0, -⟩ := ho.lo
  refine ⟨r', hr'', ⟨?_, ?_, ?_, ?_⟩, by rw [hm.channels, hm'.channels]; exact hcc.flatMap_right _⟩
  · rw [← hm.rate s0 hs0, hm'.rate s0 (hcc.mem_iff.1 hs0)]
  · rw [hm'.start]
  · exact merged_size ((merge_sinv h).ok.wf r hrr) ((merge_sinv h').ok.wf r' hr'') hm hm' hcc
  · intro k j
    by_cases hk : ∃ T ∈ S :: others, ∃ v, T.tags.getItem k = .ok v
    · obtain ⟨T, hT, v, hv⟩ := hk
      obtain ⟨i, hi⟩ := List.mem_iff_getElem?.1 hT
      have hlt : i < c.length := by rw [choice_length hc]; exact (List.getElem?_eq_some_iff.1 hi).1
      have hs : c[i]? = some c[i] := List.getElem?_eq_getElem hlt
      have hz : (c[i], T) ∈ c'.zip (S' :: others') := by
        rw [← hzip.mem_iff]
        exact List.mem_of_getElem? (i := i) (List.getElem?_zip_eq_some.2 ⟨hs, hi⟩)
      obtain ⟨i', hi'⟩ := List.mem_iff_getElem?.1 hz
      obtain ⟨e1, e2⟩ := List.getElem?_zip_eq_some.1 hi'
      rw [(merge_designated hR hp hr h hc hm hi hs hv).2 j, (merge_designated hR' hp' hr' h' hc' hm' e2 e1 hv).2 j]
    · have h1 : ¬ ∃ w, R.tags.getItem k = .ok w := fun hw => hk ((C22_merge_names S R others hR hp hr h k).1 hw)
      have h2 : ¬ ∃ w, R'.tags.getItem k = .ok w := fun hw => hk (by
        obtain ⟨T, hT, hv⟩ := (C22_merge_names S' R' others' hR' hp' hr' h' k).1 hw
        exact ⟨T, hperm.mem_iff.2 hT, hv⟩)
      unfold designated
      cases e1 : R.tags.getItem k with
      | ok w => exact absurd ⟨w, e1⟩ h1
      | error _ =>
        cases e2 : R'.tags.getItem k with
        | ok w => exact absurd ⟨w, e2⟩ h2
        | error _ => rfl

/-- The correspondence of the runs. -/
theorem merge_perm_runs [One κ] {S S' R R' : SigSet α κ} {others others' : List (SigSet α κ)}
    (hperm : (S :: others).Perm (S' :: others')) (hR : ∀ T ∈ S :: others, Reach T) (hp : ∀ T ∈ S :: others, Plain T.tags)
    (hr : ∀ T ∈ S :: others, ∀ s ∈ T.runs, 0 < s.rate) (h : S.merge others = .ok R) (h' : S'.merge others' = .ok R') :
    List.Forall₂ (fun r r' => SameRun R.tags r R'.tags r' ∧ (channels r).Perm (channels r')) R.runs R'.runs := by
  have hR' : ∀ T ∈ S' :: others', Reach T := fun T hT => hR T (hperm.mem_iff.2 hT)
  have hp' : ∀ T ∈ S' :: others', Plain T.tags := fun T hT => hp T (hperm.mem_iff.2 hT)
  have hr' : ∀ T ∈ S' :: others', ∀ s ∈ T.runs, 0 < s.rate := fun T hT => hr T (hperm.mem_iff.2 hT)
  refine forall₂_of_sorted (f := Sync.start) (g := Sync.start) (merge_runs_strict hR hp hr h).1 (merge_runs_strict hR' hp' hr' h').1
    (fun _ _ hs => hs.1.start) (merge_perm_run hperm hR hp hr h h') ?_
  intro r' hr''
  obtain ⟨r, h1, h2, h3⟩ := merge_perm_run hperm.symm hR' hp' hr' h' h r' hr''
  exact ⟨r, h1, ⟨h2.rate.symm, h2.start.symm, h2.size.symm, fun k j => (h2.chans k j).symm⟩, h3.symm⟩

/-- One direction of the correspondence of the names. -/
theorem merge_perm_names [One κ] {S S' R R' : SigSet α κ} {others others' : List (SigSet α κ)}
    (hperm : (S :: others).Perm (S' :: others')) (hR : ∀ T ∈ S :: others, Reach T) (hp : ∀ T ∈ S :: others, Plain T.tags)
    (hr : ∀ T ∈ S :: others, ∀ s ∈ T.runs, 0 < s.rate) (h : S.merge others = .ok R) (h' : S'.merge others' = .ok R')
    (k : String) (n : ℕ) : (∃ v, R.tags.getItem k = .ok v ∧ v.length = n) → ∃ v, R'.tags.getItem k = .ok v ∧ v.length = n := by
  have hR' : ∀ T ∈ S' :: others', Reach T := fun T hT => hR T (hperm.mem_iff.2 hT)
  have hp' : ∀ T ∈ S' :: others', Plain T.tags := fun T hT => hp T (hperm.mem_iff.2 hT)
  have hr' : ∀ T ∈ S' :: others', ∀ s ∈ T.runs, 0 < s.rate := fun T hT => hr T (hperm.mem_iff.2 hT)
  have key : ∀ {S R : SigSet α κ} {others : List (SigSet α κ)}, (∀ T ∈ S :: others, Reach T) → (∀ T ∈ S :: others, Plain T.tags) →
      (∀ T ∈ S :: others, ∀ s ∈ T.runs, 0 < s.rate) → S.merge others = .ok R → ∀ T ∈ S :: others, ∀ v, T.tags.getItem k = .ok v →
      ∃ w, R.tags.getItem k = .ok w ∧ w.length = v.length := by
    intro S R others hR hp hr h T hT v hv
    have hI : ∀ T ∈ S :: others, SInv T := fun T hT => reach_sinv (hR T hT)
    obtain ⟨_, _, q3, q4⟩ := merge_runs hR hp hr h
    have hnd : (mergedEntries 0 (S :: others)).keys.Nodup := by
      rw [mergedEntries_keys]; exact (namesDisjoint_iff hI).2 q4
    obtain ⟨i, hi⟩ := List.mem_iff_getElem?.1 hT
    refine ⟨v.map (· + (0 + ((((S :: others).take i).map nbChannels).sum))), ?_, by simp⟩
    rw [Tags.getItem_ok, q3]
    exact Dict.get?_of_mem hnd (mem_mergedEntries.2 ⟨i, T, v, hi, Dict.mem_of_get? (Tags.getItem_ok.1 hv), rfl⟩)
  rintro ⟨v, hv, hn⟩
  obtain ⟨T, hT, w, hw⟩ := (C22_merge_names S R others hR hp hr h k).1 ⟨v, hv⟩
  obtain ⟨v2, e1, e2⟩ := key hR hp hr h T hT w hw
  obtain ⟨v3, e3, e4⟩ := key hR' hp' hr' h' T (hperm.mem_iff.1 hT) w hw
  rw [hv] at e1
  simp only [Except.ok.injEq] at e1
  exact ⟨v3, e3, by rw [e4, ← e2, ← e1, hn]⟩

/-- **C102.** The order of the operands of a merge does not matter: the results have the same names and, run by run, the same data
and calibrations under each name. -/
theorem C102_merge_order [One κ] (S S' R R' : SigSet α κ) (others others' : List (SigSet α κ))
    (hperm : (S :: others).Perm (S' :: others')) (hR : ∀ T ∈ S :: others, Reach T) (hp : ∀ T ∈ S :: others, Plain T.tags)
    (hr : ∀ T ∈ S :: others, ∀ s ∈ T.runs, 0 < s.rate) (h : S.merge others = .ok R) (h' : S'.merge others' = .ok R') :
    SameSet R R' := by
  have hR' : ∀ T ∈ S' :: others', Reach T := fun T hT => hR T (hperm.mem_iff.2 hT)
  have hp' : ∀ T ∈ S' :: others', Plain T.tags := fun T hT => hp T (hperm.mem_iff.2 hT)
  have hr' : ∀ T ∈ S' :: others', ∀ s ∈ T.runs, 0 < s.rate := fun T hT => hr T (hperm.mem_iff.2 hT)
  exact ⟨fun k n => ⟨merge_perm_names hperm hR hp hr h h' k n, merge_perm_names hperm.symm hR' hp' hr' h' h k n⟩,
    (merge_perm_runs hperm hR hp hr h h').imp (fun _ _ h => h.1)⟩

/-- **C102.** When a merge succeeds, exactly: disjoint names, runs in every operand, at least two samples of each operand in
every overlap, same-rate overlaps with a sample of each operand at their start. -/
theorem C102_merge_iff [One κ] (S : SigSet α κ) (others : List (SigSet α κ))
    (hR : ∀ T ∈ S :: others, Reach T) (hp : ∀ T ∈ S :: others, Plain T.tags)
    (hr : ∀ T ∈ S :: others, ∀ s ∈ T.runs, 0 < s.rate ∧ 2 ≤ s.size) :
    (∃ R, S.merge others = .ok R) ↔
      ((S :: others).Pairwise (fun T U => ∀ k v w, T.tags.getItem k = .ok v → ¬ U.tags.getItem k = .ok w)) ∧
      (∀ T ∈ S :: others, T.runs ≠ []) ∧
      ∀ c a b, Choice c (S :: others) → Overlap c a b →
        (∀ s ∈ c, 2 ≤ countIn (window a b) s) ∧ ∀ rate, SameRate c rate → ∀ s ∈ c, SampledAt s a := by
  have hr1 : ∀ T ∈ S :: others, ∀ s ∈ T.runs, 0 < s.rate := fun T hT s hs => (hr T hT s hs).1
  constructor
  · rintro ⟨R, h⟩
    refine ⟨(merge_runs hR hp hr1 h).2.2.2, ?_, ?_⟩
    · intro T hT he
      obtain ⟨e, h'⟩ := C25_empty_operand_raises S others hR hp hr1 ⟨T, hT, he⟩
      rw [h] at h'; simp at h'
    · intro c a b hc ho
      constructor
      · intro s hs
        by_contra hlt
        have := C25_short_overlap_raises S others hR hp hr1 c a b hc ho ⟨s, hs, by omega⟩
        rw [h] at this; simp at this
      · intro rate hsr s hs
        by_contra hn
        have := C25_unsynchronised_raises S others hR hp hr1 c a b rate hc ho hsr ⟨s, hs, hn⟩
        rw [h] at this; simp at this
  · rintro ⟨h1, h2, h3⟩
    exact C25_succeeds S others hR hp hr1 h1 h2 (fun T hT s hs => (hr T hT s hs).2) (fun c a b hc ho => (h3 c a b hc ho).1)
      (fun c a b rate hc ho hsr => (h3 c a b hc ho).2 rate hsr)

/-- **C102.** In whatever order the operands are given, the merge succeeds, or in none. -/
theorem C102_merge_order_succeeds [One κ] (S S' : SigSet α κ) (others others' : List (SigSet α κ))
    (hperm : (S :: others).Perm (S' :: others')) (hR : ∀ T ∈ S :: others, Reach T) (hp : ∀ T ∈ S :: others, Plain T.tags)
    (hr : ∀ T ∈ S :: others, ∀ s ∈ T.runs, 0 < s.rate ∧ 2 ≤ s.size) :
    (∃ R, S.merge others = .ok R) ↔ ∃ R', S'.merge others' = .ok R' := by
  have key : ∀ (S S' : SigSet α κ) (others others' : List (SigSet α κ)), (S :: others).Perm (S' :: others') →
      (∀ T ∈ S :: others, Reach T) → (∀ T ∈ S :: others, Plain T.tags) →
      (∀ T ∈ S :: others, ∀ s ∈ T.runs, 0 < s.rate ∧ 2 ≤ s.size) → (∃ R, S.merge others = .ok R) → ∃ R', S'.merge others' = .ok R' := by
    intro S S' others others' hperm hR hp hr h
    obtain ⟨h1, h2, h3⟩ := (C102_merge_iff S others hR hp hr).1 h
    refine (C102_merge_iff S' others' (fun T hT => hR T (hperm.mem_iff.2 hT)) (fun T hT => hp T (hperm.mem_iff.2 hT))
      (fun T hT => hr T (hperm.mem_iff.2 hT))).2 ⟨?_, fun T hT => h2 T (hperm.mem_iff.2 hT), ?_⟩
    · exact (hperm.pairwise_iff (fun {T U} h k v w hv hw => h k w v hw hv)).1 h1
    · intro c a b hc ho
      obtain ⟨c', hc', hz⟩ := choice_perm hperm.symm hc
      have hcc := perm_of_zip hc hc' hz
      obtain ⟨e1, e2⟩ := h3 c' a b hc' (Overlap.congr (fun s => hcc.mem_iff) ho)
      exact ⟨fun s hs => e1 s (hcc.mem_iff.1 hs), fun rate hsr s hs =>
        e2 rate (fun s hs => hsr s (hcc.mem_iff.2 hs)) s (hcc.mem_iff.1 hs)⟩
  exact ⟨key S S' others others' hperm hR hp hr, key S' S others' others hperm.symm (fun T hT => hR T (hperm.mem_iff.2 hT))
    (fun T hT => hp T (hperm.mem_iff.2 hT)) (fun T hT => hr T (hperm.mem_iff.2 hT))⟩

section group
variable [One κ] {A M : SigSet α κ} {Bs Cs : List (SigSet α κ)}

theorem choice_append {c c' : List (Sync α κ)} {l l' : List (SigSet α κ)} (h : Choice c l) (h' : Choice c' l') :
    Choice (c ++ c') (l ++ l') := List.rel_append h h'

theorem choice_split {c : List (Sync α κ)} {l l' : List (SigSet α κ)} (h : Choice c (l ++ l')) :
    ∃ c1 c2, c = c1 ++ c2 ∧ Choice c1 l ∧ Choice c2 l' :=
  ⟨c.take l.length, c.drop l.length, (List.take_append_drop _ _).symm, by
    have := List.forall₂_take_append c l l' h
    exact this, List.forall₂_drop_append c l l' h⟩

/-- The sources of a choice that has a merged run for the first operands. -/
theorem group_overlap {m : Sync α κ} {c1 c2 : List (Sync α κ)} {x y : ℚ} (hm : Merged m c1 x y) (hlast : lastTime m = y)
    (ho : Overlap c1 x y) (a b : ℚ) : Overlap (m :: c2) a b ↔ Overlap (c1 ++ c2) a b := by
  have hstart := hm.start
  constructor
  · intro h
    have hm1 := h.lo_le m (by simp)
    have hm2 := h.le_hi m (by simp)
    rw [hstart] at hm1
    rw [hlast] at hm2
    refine ⟨?_, ?_, ?_, ?_, h.lt⟩
    · obtain ⟨s, hs, e⟩ := h.lo
      rcases List.mem_cons.1 hs with rfl | hs
      · obtain ⟨s', hs', e'⟩ := ho.lo
        exact ⟨s', by simp [hs'], by rw [e', ← e, hstart]⟩
      · exact ⟨s, by simp [hs], e⟩
    · intro s hs
      rcases List.mem_append.1 hs with hs | hs
      · exact (ho.lo_le s hs).trans hm1
      · exact h.lo_le s (by simp [hs])
    · obtain ⟨s, hs, e⟩ := h.hi
      rcases List.mem_cons.1 hs with rfl | hs
      · obtain ⟨s', hs', e'⟩ := ho.hi
        exact ⟨s', by simp [hs'], by rw [e', ← e, hlast]⟩
      · exact ⟨s, by simp [hs], e⟩
    · intro s hs
      rcases List.mem_append.1 hs with hs | hs
      · exact hm2.trans (ho.le_hi s hs)
      · exact h.le_hi s (by simp [hs])
  · intro h
    have hx : x ≤ a := by
      obtain ⟨s, hs, e⟩ := ho.lo
      rw [← e]; exact h.lo_le s (by simp [hs])
    have hy : b ≤ y := by
      obtain ⟨s, hs, e⟩ := ho.hi
      rw [← e]; exact h.le_hi s (by simp [hs])
    refine ⟨?_, ?_, ?_, ?_, h.lt⟩
    · obtain ⟨s, hs, e⟩ := h.lo
      rcases List.mem_append.1 hs with hs | hs
      · exact ⟨m, by simp, le_antisymm (by rw [hstart]; exact hx) (by rw [hstart, ← e]; exact ho.lo_le s hs)⟩
      · exact ⟨s, by simp [hs], e⟩
    · intro s hs
      rcases List.mem_cons.1 hs with rfl | hs
      · rw [hstart]; exact hx
      · exact h.lo_le s (by simp [hs])
    · obtain ⟨s, hs, e⟩ := h.hi
      rcases List.mem_append.1 hs with hs | hs
      · exact ⟨m, by simp, le_antisymm (by rw [hlast, ← e]; exact ho.le_hi s hs) (by rw [hlast]; exact hy)⟩
      · exact ⟨s, by simp [hs], e⟩
    · intro s hs
      rcases List.mem_cons.1 hs with rfl | hs
      · rw [hlast]; exact hy
      · exact h.le_hi s (by simp [hs])

/-- Same merged runs. -/
theorem group_merged {m r : Sync α κ} {c1 c2 : List (Sync α κ)} {x y a b : ℚ} (hm : Merged m c1 x y)
    (hne : c1 ≠ []) (h1 : x ≤ a) (h2 : b ≤ y) : Merged r (m :: c2) a b ↔ Merged r (c1 ++ c2) a b := by
  have hch : (m :: c2).flatMap (fun s => (channels s).map (cutChannel (window a b))) =
      (c1 ++ c2).flatMap (fun s => (channels s).map (cutChannel (window a b))) := by
    rw [List.flatMap_cons, List.flatMap_append, hm.channels, List.map_flatMap]
    congr 2
    funext s
    rw [List.map_map]
    congr 1
    funext c
    exact cut_cut h1 h2 c
  have hrate : SameRate (m :: c2) r.rate ↔ SameRate (c1 ++ c2) r.rate := by
    obtain ⟨s0, hs0⟩ := List.exists_mem_of_ne_nil _ hne
    constructor
    · intro h s hs
      rcases List.mem_append.1 hs with hs | hs
      · rw [hm.rate s hs]; exact h m (by simp)
      · exact h s (by simp [hs])
    · intro h s hs
      rcases List.mem_cons.1 hs with rfl | hs
      · rw [← hm.rate s0 hs0]; exact h s0 (by simp [hs0])
      · exact h s (by simp [hs])
  constructor
  · rintro ⟨e1, e2, e3⟩; exact ⟨e1, hrate.1 e2, by rw [e3, hch]⟩
  · rintro ⟨e1, e2, e3⟩; exact ⟨e1, hrate.2 e2, by rw [e3, hch]⟩

end group

/-- The runs of a merge, each with its sources. -/
theorem merge_sources [One κ] {S R : SigSet α κ} {others : List (SigSet α κ)}
    (hR : ∀ T ∈ S :: others, Reach T) (hp : ∀ T ∈ S :: others, Plain T.tags)
    (hr : ∀ T ∈ S :: others, ∀ s ∈ T.runs, 0 < s.rate) (h : S.merge others = .ok R) :
    ∀ r ∈ R.runs, ∃ c b, Choice c (S :: others) ∧ Overlap c r.start b ∧ Merged r c r.start b ∧ lastTime r = b ∧ c ≠ [] ∧
      ∀ s ∈ c, WF s ∧ 0 < s.rate := by
  intro r hr'
  obtain ⟨c, b, hc, ho, hm⟩ := (merge_runs hR hp hr h).1 r hr'
  have hw : ∀ s ∈ c, WF s ∧ 0 < s.rate := by
    intro s hs
    obtain ⟨T, hT, hsT⟩ := choice_mem hc s hs
    exact ⟨(reach_sinv (hR T hT)).ok.wf s hsT, hr T hT s hsT⟩
  refine ⟨c, b, hc, ho, hm, (hm.last ((merge_sinv h).ok.wf r hr') hw ho).1, ?_, hw⟩
  intro he; subst he; cases hc

theorem cons_merge_mem {Cs : List (SigSet α κ)} {M : SigSet α κ} {P : SigSet α κ → Prop} (hM : P M) (hC : ∀ T ∈ Cs, P T) :
    ∀ T ∈ M :: Cs, P T := by
  intro T hT
  rcases List.mem_cons.1 hT with rfl | hT
  · exact hM
  · exact hC T hT

section group
variable [One κ] {A M : SigSet α κ} {Bs Cs : List (SigSet α κ)}
  (hR : ∀ T ∈ A :: (Bs ++ Cs), Reach T) (hp : ∀ T ∈ A :: (Bs ++ Cs), Plain T.tags)
  (hr : ∀ T ∈ A :: (Bs ++ Cs), ∀ s ∈ T.runs, 0 < s.rate) (hM : A.merge Bs = .ok M)
include hR hp hr hM

/-- What the merge of the first operands brings to a further merge. -/
theorem group_facts : (∀ T ∈ M :: Cs, Reach T) ∧ (∀ T ∈ M :: Cs, Plain T.tags) ∧ (∀ T ∈ M :: Cs, ∀ s ∈ T.runs, 0 < s.rate) ∧
    (∀ s ∈ M.runs, 2 ≤ s.size) ∧ mergedEntries 0 (M :: Cs) = mergedEntries 0 (A :: Bs) ++ mergedEntries M.nbChannels Cs ∧
    (M.runs ≠ [] → M.nbChannels = ((A :: Bs).map nbChannels).sum) := by
  have hR1 : ∀ T ∈ A :: Bs, Reach T := fun T hT => hR T (by simp at hT ⊢; tauto)
  have hp1 : ∀ T ∈ A :: Bs, Plain T.tags := fun T hT => hp T (by simp at hT ⊢; tauto)
  have hr1 : ∀ T ∈ A :: Bs, ∀ s ∈ T.runs, 0 < s.rate := fun T hT => hr T (by simp at hT ⊢; tauto)
  have hI : ∀ T ∈ A :: Bs, SInv T := fun T hT => reach_sinv (hR1 T hT)
  have hMR : Reach M := Reach.merge Bs (hR1 A (by simp)) (fun T hT => hR1 T (by simp [hT])) hM
  have hst := merge_runs_strict hR1 hp1 hr1 hM
  obtain ⟨-, -, q3, -⟩ := merge_runs hR1 hp1 hr1 hM
  refine ⟨cons_merge_mem hMR (fun T hT => hR T (by simp [hT])), cons_merge_mem (P := fun T => Plain T.tags) ?_ (fun T hT => hp T (by simp [hT])),
    cons_merge_mem (P := fun T => ∀ s ∈ T.runs, 0 < s.rate) (fun s hs => (hst.2 s hs).2.2) (fun T hT => hr T (by simp [hT])),
    fun s hs => (hst.2 s hs).2.1, ?_, ?_⟩
  · intro k hk
    cases hg : M.tags.getItem k with
    | error e =>
      have : e = .key := by unfold Tags.getItem at hg; split at hg <;> simp_all
      rw [this]
    | ok w =>
      obtain ⟨T, hT, v, hv⟩ := (C22_merge_names A M Bs hR1 hp1 hr1 hM k).1 ⟨w, hg⟩
      rw [hp1 T hT k hk] at hv
      simp at hv
  · rw [mergedEntries, q3]
    simp
  · intro hne
    obtain ⟨m, hm⟩ := List.exists_mem_of_ne_nil _ hne
    obtain ⟨c, b, hc, ho, hmm, -, -, hw⟩ := merge_sources hR1 hp1 hr1 hM m hm
    rw [nbChannels_eq (reach_sinv hMR) hm, ← Sync.channels_length ((merge_sinv hM).ok.wf m hm), hmm.channels]
    rw [List.length_flatMap]
    congr 1
    have : ∀ (c : List (Sync α κ)) (l : List (SigSet α κ)), Choice c l → (∀ T ∈ l, SInv T) →
        c.map (fun s => ((channels s).map (cutChannel (window m.start b))).length) = l.map nbChannels := by
      intro c l hc hI
      unfold Choice at hc
      induction hc with
      | nil => rfl
      | @cons s T c l h1 h2 ih =>
        rw [List.map_cons, List.map_cons, ih (fun T hT => hI T (by simp [hT])), List.length_map,
          nbChannels_eq (hI T (by simp)) h1, Sync.channels_length ((hI T (by simp)).ok.wf s h1)]
    exact this c _ hc hI

/-- Grouped and ungrouped merges have the same runs. -/
theorem group_runs {R R' : SigSet α κ} (hRR : M.merge Cs = .ok R) (hRR' : A.merge (Bs ++ Cs) = .ok R') : R.runs = R'.runs := by
  have hR1 : ∀ T ∈ A :: Bs, Reach T := fun T hT => hR T (by simp at hT ⊢; tauto)
  have hp1 : ∀ T ∈ A :: Bs, Plain T.tags := fun T hT => hp T (by simp at hT ⊢; tauto)
  have hr1 : ∀ T ∈ A :: Bs, ∀ s ∈ T.runs, 0 < s.rate := fun T hT => hr T (by simp at hT ⊢; tauto)
  obtain ⟨f1, f2, f3, f4, f5, f6⟩ := group_facts hR hp hr hM
  obtain ⟨s1, w1⟩ := merge_runs_strict f1 f2 f3 hRR
  obtain ⟨s2, w2⟩ := merge_runs_strict hR hp hr hRR'
  obtain ⟨-, qM, -, -⟩ := merge_runs hR1 hp1 hr1 hM
  obtain ⟨-, qR, -, -⟩ := merge_runs f1 f2 f3 hRR
  obtain ⟨-, qR', -, -⟩ := merge_runs hR hp hr hRR'
  have hw1 : ∀ c : List (Sync α κ), Choice c (A :: Bs) → ∀ s ∈ c, WF s ∧ 0 < s.rate := by
    intro c hc s hs
    obtain ⟨T, hT, hsT⟩ := choice_mem hc s hs
    exact ⟨(reach_sinv (hR1 T hT)).ok.wf s hsT, hr1 T hT s hsT⟩
  have same : ∀ r ∈ R.runs, ∀ r' ∈ R'.runs, ∀ c a b, c ≠ [] → Merged r c a b → Merged r' c a b → r = r' := by
    intro r h1 r' h2 c a b hne m1 m2
    obtain ⟨s, hs⟩ := List.exists_mem_of_ne_nil _ hne
    exact Sync.ext_channels (w1 r h1).1 (w2 r' h2).1 (by rw [← m1.rate s hs, ← m2.rate s hs]) (by have := (w1 r h1).2.1; omega)
      (by rw [m1.channels, m2.channels])
  refine runs_eq s1 s2 ?_ ?_
  · intro r hr'
    obtain ⟨c, b, hc, ho, hm, -, hne, -⟩ := merge_sources f1 f2 f3 hRR r hr'
    obtain ⟨m, c2, hmM, hc2, rfl⟩ := List.forall₂_cons_right_iff.1 hc
    obtain ⟨c1, y, hc1, ho1, hm1, hl1, hne1, -⟩ := merge_sources hR1 hp1 hr1 hM m hmM
    have hx : m.start ≤ r.start := ho.lo_le m (by simp)
    have hy : b ≤ y := by rw [← hl1]; exact ho.le_hi m (by simp)
    have ho' := (group_overlap hm1 hl1 ho1 _ _).1 ho
    have hm' := (group_merged hm1 hne1 hx hy).1 hm
    obtain ⟨r', hr'', hm''⟩ := qR' (c1 ++ c2) r.start b r.rate (choice_append hc1 hc2) ho' hm'.rate
    rw [same r hr' r' hr'' _ _ _ (by simp [hne1]) hm' hm'']
    exact hr''
  · intro r' hr'
    obtain ⟨c, b, hc, ho, hm, -, hne, -⟩ := merge_sources hR hp hr hRR' r' hr'
    obtain ⟨c1, c2, rfl, hc1, hc2⟩ := choice_split (l := A :: Bs) hc
    have hne1 : c1 ≠ [] := by intro he; subst he; cases hc1
    obtain ⟨x, y, ho1, hx, hy⟩ := overlap_exists hne1 ho.lt (fun s hs => ho.lo_le s (by simp [hs])) (fun s hs => ho.le_hi s (by simp [hs]))
    obtain ⟨m, hmM, hm1⟩ := qM c1 x y r'.rate hc1 ho1 (fun s hs => hm.rate s (by simp [hs]))
    have hl1 := (hm1.last ((merge_sinv hM).ok.wf m hmM) (hw1 c1 hc1) ho1).1
    have hm' := (group_merged hm1 hne1 hx hy).2 hm
    obtain ⟨r, hr'', hm''⟩ := qR (m :: c2) r'.start b r'.rate (.cons hmM hc2) ((group_overlap hm1 hl1 ho1 _ _).2 ho) hm'.rate
    rw [← same r hr'' r' hr' _ _ _ (by simp) hm'' hm']
    exact hr''

end group

/-- **C102.** Merging in two steps or in one gives the same set (numbering of the channels included). -/
theorem C102_merge_group [One κ] (A M R R' : SigSet α κ) (Bs Cs : List (SigSet α κ))
    (hR : ∀ T ∈ A :: (Bs ++ Cs), Reach T) (hp : ∀ T ∈ A :: (Bs ++ Cs), Plain T.tags)
    (hr : ∀ T ∈ A :: (Bs ++ Cs), ∀ s ∈ T.runs, 0 < s.rate) (hM : A.merge Bs = .ok M)
    (hRR : M.merge Cs = .ok R) (hRR' : A.merge (Bs ++ Cs) = .ok R') : R = R' := by
  obtain ⟨f1, f2, f3, f4, f5, f6⟩ := group_facts hR hp hr hM
  have hne : M.runs ≠ [] := by
    intro he
    obtain ⟨e, h'⟩ := C25_empty_operand_raises M Cs f1 f2 f3 ⟨M, by simp, he⟩
    rw [hRR] at h'; simp at h'
  refine merge_ext f1 f2 hR hp hRR hRR' (group_runs hR hp hr hM hRR hRR') ?_ ?_
  · have := f6 hne
    simp only [List.map_cons, List.sum_cons, List.map_append, List.sum_append] at this ⊢
    omega
  · rw [f5, f6 hne, show A :: (Bs ++ Cs) = (A :: Bs) ++ Cs from rfl, mergedEntries_append]
    simp

/-- **C102.** If the merge of all the operands succeeds, and that of the first ones succeeds with at least one run, the merge of
its result with the other ones succeeds too, with the same result. -/
theorem C102_merge_group_succeeds [One κ] (A M R' : SigSet α κ) (Bs Cs : List (SigSet α κ))
    (hR : ∀ T ∈ A :: (Bs ++ Cs), Reach T) (hp : ∀ T ∈ A :: (Bs ++ Cs), Plain T.tags)
    (hr : ∀ T ∈ A :: (Bs ++ Cs), ∀ s ∈ T.runs, 0 < s.rate ∧ 2 ≤ s.size) (hM : A.merge Bs = .ok M) (hne : M.runs ≠ [])
    (hRR' : A.merge (Bs ++ Cs) = .ok R') : M.merge Cs = .ok R' := by
  have hr0 : ∀ T ∈ A :: (Bs ++ Cs), ∀ s ∈ T.runs, 0 < s.rate := fun T hT s hs => (hr T hT s hs).1
  have hR1 : ∀ T ∈ A :: Bs, Reach T := fun T hT => hR T (by simp at hT ⊢; tauto)
  have hp1 : ∀ T ∈ A :: Bs, Plain T.tags := fun T hT => hp T (by simp at hT ⊢; tauto)
  have hr1 : ∀ T ∈ A :: Bs, ∀ s ∈ T.runs, 0 < s.rate := fun T hT => hr0 T (by simp at hT ⊢; tauto)
  obtain ⟨f1, f2, f3, f4, f5, f6⟩ := group_facts hR hp hr0 hM
  obtain ⟨g1, g2, g3⟩ := (C102_merge_iff A (Bs ++ Cs) hR hp hr).1 ⟨R', hRR'⟩
  have hok : ∃ R, M.merge Cs = .ok R := by
    refine (C102_merge_iff M Cs f1 f2 ?_).2 ⟨?_, ?_, ?_⟩
    · refine cons_merge_mem (P := fun T => ∀ s ∈ T.runs, 0 < s.rate ∧ 2 ≤ s.size) (fun s hs => ⟨f3 M (by simp) s hs, f4 s hs⟩) ?_
      exact fun T hT => hr T (by simp [hT])
    · rw [show A :: (Bs ++ Cs) = (A :: Bs) ++ Cs from rfl, List.pairwise_append] at g1
      refine List.pairwise_cons.2 ⟨?_, g1.2.1⟩
      intro U hU k v w hv hw
      obtain ⟨T, hT, v', hv'⟩ := (C22_merge_names A M Bs hR1 hp1 hr1 hM k).1 ⟨v, hv⟩
      exact g1.2.2 T hT U hU k v' w hv' hw
    · exact cons_merge_mem hne (fun T hT => g2 T (by simp [hT]))
    · intro c a b hc ho
      obtain ⟨m, c2, hmM, hc2, rfl⟩ := List.forall₂_cons_right_iff.1 hc
      obtain ⟨c1, y, hc1, ho1, hm1, hl1, hne1, hw1⟩ := merge_sources hR1 hp1 hr1 hM m hmM
      obtain ⟨k1, k2⟩ := g3 (c1 ++ c2) a b (choice_append hc1 hc2) ((group_overlap hm1 hl1 ho1 _ _).1 ho)
      obtain ⟨s0, hs0⟩ := List.exists_mem_of_ne_nil _ hne1
      have hx : m.start ≤ a := ho.lo_le m (by simp)
      have hy : b ≤ y := by rw [← hl1]; exact ho.le_hi m (by simp)
      have hsam := fun t => hm1.sampled ((merge_sinv hM).ok.wf m hmM) (fun s hs => (hw1 s hs).1) hs0 t
      constructor
      · intro s hs
        rcases List.mem_cons.1 hs with rfl | hs
        · obtain ⟨t, t', e1, e2, e3, e4, e5⟩ := (two_le_countIn (hw1 s0 hs0).2).1 (k1 s0 (by simp [hs0]))
          refine (two_le_countIn (f3 M (by simp) s hmM)).2 ⟨t, t', e1, ?_, ?_, e4, e5⟩
          · simp only [window, Bool.and_eq_true, decide_eq_true_eq] at e4
            exact (hsam t).2 ⟨e2, by linarith, by linarith⟩
          · simp only [window, Bool.and_eq_true, decide_eq_true_eq] at e5
            exact (hsam t').2 ⟨e3, by linarith, by linarith⟩
        · exact k1 s (by simp [hs])
      · intro rate hsr
        have k3 := k2 rate (by
          intro s hs
          rcases List.mem_append.1 hs with hs | hs
          · rw [hm1.rate s hs]; exact hsr m (by simp)
          · exact hsr s (by simp [hs]))
        intro s hs
        rcases List.mem_cons.1 hs with rfl | hs
        · refine (hsam a).2 ⟨k3 s0 (by simp [hs0]), hx, ?_⟩
          have := ho.lt
          linarith
        · exact k3 s (by simp [hs])
  obtain ⟨R, hRR⟩ := hok
  rw [hRR, C102_merge_group A M R R' Bs Cs hR hp hr0 hM hRR hRR']

/-- A choice among cut runs is a cut choice. -/
theorem choice_win {seqs : List (SigSet α κ)} {Es : List (SigSet α κ)} {a b : ℚ}
    (hE : List.Forall₂ (fun T E : SigSet α κ => E.runs = winRuns a b T.runs) seqs Es) {c' : List (Sync α κ)} (hc' : Choice c' Es) :
    ∃ c, Choice c seqs ∧ c' = c.map (fun s => s.win a b) ∧ ∀ s ∈ c, 1 < (s.win a b).size := by
  unfold Choice at hc'
  induction hE generalizing c' with
  | nil => cases hc'; exact ⟨[], .nil, rfl, by simp⟩
  | @cons T E seqs Es h1 _ ih =>
    obtain ⟨s', c', h3, h4, rfl⟩ := List.forall₂_cons_right_iff.1 hc'
    rw [h1] at h3
    obtain ⟨s, hs, hsz, rfl⟩ := mem_winRuns.1 h3
    obtain ⟨c, k1, rfl, k3⟩ := ih h4
    refine ⟨s :: c, .cons hs k1, rfl, ?_⟩
    intro u hu
    rcases List.mem_cons.1 hu with rfl | hu
    · exact hsz
    · exact k3 u hu

theorem choice_win_of {seqs : List (SigSet α κ)} {Es : List (SigSet α κ)} {a b : ℚ}
    (hE : List.Forall₂ (fun T E : SigSet α κ => E.runs = winRuns a b T.runs) seqs Es) {c : List (Sync α κ)} (hc : Choice c seqs)
    (hsz : ∀ s ∈ c, 1 < (s.win a b).size) : Choice (c.map (fun s => s.win a b)) Es := by
  unfold Choice at hc
  induction hE generalizing c with
  | nil => cases hc; exact .nil
  | @cons T E seqs Es h1 _ ih =>
    obtain ⟨s, c, h3, h4, rfl⟩ := List.forall₂_cons_right_iff.1 hc
    refine .cons ?_ (ih h4 (fun u hu => hsz u (by simp [hu])))
    rw [h1]
    exact mem_winRuns.2 ⟨s, h3, hsz s (by simp), rfl⟩

/-- What cutting the operands does. -/
theorem cut_operands [One κ] {seqs Es : List (SigSet α κ)} {a b : ℚ}
    (hR : ∀ T ∈ seqs, Reach T) (hp : ∀ T ∈ seqs, Plain T.tags) (hr : ∀ T ∈ seqs, ∀ s ∈ T.runs, 0 < s.rate)
    (hE : List.Forall₂ (fun T E : SigSet α κ => T.extractT a b = .ok E) seqs Es) :
    List.Forall₂ (fun T E : SigSet α κ => E.runs = winRuns a b T.runs) seqs Es ∧
    (∀ E ∈ Es, Reach E) ∧ (∀ E ∈ Es, Plain E.tags) ∧ (∀ E ∈ Es, ∀ s ∈ E.runs, 0 < s.rate ∧ 2 ≤ s.size) ∧
    ((∀ E ∈ Es, E.runs ≠ []) → List.Forall₂ (fun T E : SigSet α κ => E.tags = T.tags ∧ E.nbChannels = T.nbChannels) seqs Es) := by
  induction hE with
  | nil => exact ⟨.nil, by simp, by simp, by simp, fun _ => .nil⟩
  | @cons T E seqs Es h1 _ ih =>
    obtain ⟨i1, i2, i3, i4, i5⟩ := ih (fun T hT => hR T (by simp [hT])) (fun T hT => hp T (by simp [hT])) (fun T hT => hr T (by simp [hT]))
    have hI := reach_sinv (hR T (by simp))
    have hpT := hp T (by simp)
    have hrT := hr T (by simp)
    obtain ⟨m, e1, e2⟩ := extractIn_ok hI hpT hrT a b
    have h1' : T.extractIn a b = .ok E := h1
    rw [e1] at h1'
    simp only [Except.ok.injEq] at h1'
    have hEr : Reach E := Reach.extractT a b false (hR T (by simp)) h1
    have hruns : E.runs = winRuns a b T.runs := by rw [← h1']
    have hpE : Plain E.tags := by rw [← h1']; exact hpT
    refine ⟨.cons hruns i1, cons_merge_mem hEr i2, cons_merge_mem (P := fun E => Plain E.tags) hpE i3,
      cons_merge_mem (P := fun E => ∀ s ∈ E.runs, 0 < s.rate ∧ 2 ≤ s.size) ?_ i4, ?_⟩
    · intro r hr'
      rw [hruns] at hr'
      obtain ⟨s, hs, hsz, rfl⟩ := mem_winRuns.1 hr'
      exact ⟨hrT s hs, hsz⟩
    · intro hne
      have hwn : winRuns a b T.runs ≠ [] := by rw [← hruns]; exact hne E (by simp)
      have htags : E.tags = T.tags := by rw [← h1', e2 hwn]
      refine .cons ⟨htags, ?_⟩ (i5 (fun E hE => hne E (by simp [hE])))
      rw [nbChannels_tags (reach_sinv hEr) hpE, nbChannels_tags hI hpT, htags]

theorem mergedEntries_congr {l l' : List (SigSet α κ)}
    (h : List.Forall₂ (fun T E : SigSet α κ => E.tags = T.tags ∧ E.nbChannels = T.nbChannels) l l') (n : ℕ) :
    mergedEntries n l' = mergedEntries n l := by
  induction h generalizing n with
  | nil => rfl
  | cons h1 _ ih => rw [mergedEntries, mergedEntries, ih, h1.1, h1.2]

/-- The tags of a merge with no run. -/
theorem merge_empty [One κ] {S R : SigSet α κ} {others : List (SigSet α κ)}
    (hR : ∀ T ∈ S :: others, Reach T) (hp : ∀ T ∈ S :: others, Plain T.tags)
    (hr : ∀ T ∈ S :: others, ∀ s ∈ T.runs, 0 < s.rate) (h : S.merge others = .ok R) (h0 : R.runs = []) :
    R = ⟨[], ⟨Tags.inferN (R.tags.tags.map (fun e => (e.1, Tags.toVal e.2))), R.tags.tags⟩⟩ := by
  obtain ⟨t, ivs, rs, h1, h2, h3, h4⟩ := merge_parts h
  obtain ⟨_, _, q3, _⟩ := merge_runs hR hp hr h
  obtain ⟨_, _, _, b4, b5⟩ := build_iff.1 h4
  have hnil : rs.filterMap id = [] := by
    have := (sortRuns_perm (rs.filterMap id)).length_eq
    rw [← b4, h0] at this
    exact List.length_eq_zero_iff.1 this.symm
  have ht : R.tags.tags = t.tags := mkTags_tags b5 (mergeTags_inv h1)
  have hpt : Plain t := by
    intro k hk
    have hg : t.getItem k = R.tags.getItem k := by unfold Tags.getItem; rw [ht]
    rw [hg]
    cases hg : R.tags.getItem k with
    | error e =>
      have : e = .key := by unfold Tags.getItem at hg; split at hg <;> simp_all
      rw [this]
    | ok w =>
      obtain ⟨T, hT, v, hv⟩ := (C22_merge_names S R others hR hp hr h k).1 ⟨w, hg⟩
      rw [hp T hT k hk] at hv
      simp at hv
  rw [hnil, build_nil (mergeTags_inv h1) hpt] at h4
  simp only [Except.ok.injEq] at h4
  rw [ht, h4]

/-- **C102.** Cutting in time before or after a merge gives the same set. -/
theorem C102_merge_extract [One κ] (S R E R' : SigSet α κ) (others Es : List (SigSet α κ)) (a b : ℚ)
    (hR : ∀ T ∈ S :: others, Reach T) (hp : ∀ T ∈ S :: others, Plain T.tags)
    (hr : ∀ T ∈ S :: others, ∀ s ∈ T.runs, 0 < s.rate) (h : S.merge others = .ok R)
    (hE : List.Forall₂ (fun T E : SigSet α κ => T.extractT a b = .ok E) (S :: others) (E :: Es)) (h' : E.merge Es = .ok R') :
    R.extractT a b = .ok R' := by
  obtain ⟨c1, c2, c3, c4, c5⟩ := cut_operands hR hp hr hE
  have c4' : ∀ T ∈ E :: Es, ∀ s ∈ T.runs, 0 < s.rate := fun T hT s hs => (c4 T hT s hs).1
  have hne : ∀ E' ∈ E :: Es, E'.runs ≠ [] := by
    intro T hT he
    obtain ⟨e, h''⟩ := C25_empty_operand_raises E Es c2 c3 c4' ⟨T, hT, he⟩
    rw [h'] at h''; simp at h''
  have c6 := c5 hne
  have hI := merge_sinv h
  obtain ⟨s1, w1⟩ := merge_runs_strict hR hp hr h
  obtain ⟨s2, w2⟩ := merge_runs_strict c2 c3 c4' h'
  obtain ⟨-, q2, q3, -⟩ := merge_runs hR hp hr h
  obtain ⟨-, q2', q3', -⟩ := merge_runs c2 c3 c4' h'
  have hcw : ∀ c : List (Sync α κ), Choice c (S :: others) → ∀ s ∈ c, WF s ∧ 0 < s.rate := by
    intro c hc s hs
    obtain ⟨T, hT, hsT⟩ := choice_mem hc s hs
    exact ⟨(reach_sinv (hR T hT)).ok.wf s hsT, hr T hT s hsT⟩
  have hruns : winRuns a b R.runs = R'.runs := by
    refine runs_eq ?_ s2 ?_ ?_
    · refine starts_strict ((pairwise_winRuns (fun s hs => (w1 s hs).2.2) a b hI.ok.disjoint).imp (fun h => h.2)) ?_
      intro r hr'
      obtain ⟨s, hs, hsz, rfl⟩ := mem_winRuns.1 hr'
      have hsr := (w1 s hs).2.2
      rw [lastTime_eq (by omega)]
      have := (sampleTime_strictMono (rate := (s.win a b).rate) hsr (s.win a b).start (i := 0) (j := (s.win a b).size - 1)).2 (by omega)
      simpa [sampleTime] using this
    · intro r0 hr0
      obtain ⟨r, hr', hsz, rfl⟩ := mem_winRuns.1 hr0
      obtain ⟨c, y, hc, ho, hm, -, hne', hw⟩ := merge_sources hR hp hr h r hr'
      obtain ⟨t, t', e1, e2, e3, e4, e5⟩ := (Sync.win_two (w1 r hr').2.2).1 hsz
      have hsam := fun s hs t => hm.sampled (w1 r hr').1 (fun s hs => (hw s hs).1) (s := s) hs t
      have hsz' : ∀ s ∈ c, 1 < (s.win a b).size := fun s hs =>
        (Sync.win_two (hw s hs).2).2 ⟨t, t', e1, ((hsam s hs t).1 e2).1, ((hsam s hs t').1 e3).1, e4, e5⟩
      have hin : ∀ s ∈ c, SampledAt (s.win a b) t ∧ SampledAt (s.win a b) t' := fun s hs =>
        ⟨(Sync.win_sampled (hw s hs).1 (hw s hs).2 (hsz' s hs) t).2 ⟨((hsam s hs t).1 e2).1, e4⟩,
         (Sync.win_sampled (hw s hs).1 (hw s hs).2 (hsz' s hs) t').2 ⟨((hsam s hs t').1 e3).1, e5⟩⟩
      obtain ⟨x', y', ho', -, -⟩ := overlap_exists (c := c.map (fun s => s.win a b)) (by simpa using hne') e1
        (by
          intro s' hs'
          obtain ⟨s, hs, rfl⟩ := List.mem_map.1 hs'
          exact (SampledAt.bounds (s := s.win a b) (hw s hs).2 (hin s hs).1).1)
        (by
          intro s' hs'
          obtain ⟨s, hs, rfl⟩ := List.mem_map.1 hs'
          exact (SampledAt.bounds (s := s.win a b) (hw s hs).2 (hin s hs).2).2)
      obtain ⟨r', hr'', hm'⟩ := q2' _ x' y' r.rate (choice_win_of c1 hc hsz') ho' (by
        intro s' hs'
        obtain ⟨s, hs, rfl⟩ := List.mem_map.1 hs'
        exact hm.rate s hs)
      rw [← win_merged hw hsz' (w1 r hr').1 (w2 r' hr'').1 hm ho hm' ho' hsz]
      exact hr''
    · intro r' hr'
      obtain ⟨c', y', hc', ho', hm', hl', hne', hw'⟩ := merge_sources c2 c3 c4' h' r' hr'
      obtain ⟨c, hc, rfl, hsz⟩ := choice_win c1 hc'
      have hw := hcw c hc
      have hmem : ∀ s ∈ c, s.win a b ∈ c.map (fun s => s.win a b) := fun s hs => List.mem_map.2 ⟨s, hs, rfl⟩
      obtain ⟨x, y, ho, hx, hy⟩ := overlap_exists (c := c) (by simpa using hne') ho'.lt
        (fun s hs => ((Sync.win_ends (hw s hs).1 (hw s hs).2 (hsz s hs)).1).trans (ho'.lo_le _ (hmem s hs)))
        (fun s hs => (ho'.le_hi _ (hmem s hs)).trans (Sync.win_ends (hw s hs).1 (hw s hs).2 (hsz s hs)).2.1)
      obtain ⟨r, hr'', hm⟩ := q2 c x y r'.rate hc ho (fun s hs => hm'.rate (s.win a b) (hmem s hs))
      obtain ⟨s0, hs0⟩ := List.exists_mem_of_ne_nil c (by simpa using hne')
      have hup : ∀ t, SampledAt r' t → SampledAt r t ∧ a ≤ t ∧ t ≤ b := by
        intro t ht
        obtain ⟨g1, g2, g3⟩ := (hm'.sampled (w2 r' hr').1 (fun s hs => (hw' s hs).1) (hmem s0 hs0) t).1 ht
        obtain ⟨g4, g5⟩ := (Sync.win_sampled (hw s0 hs0).1 (hw s0 hs0).2 (hsz s0 hs0) t).1 g1
        exact ⟨(hm.sampled (w1 r hr'').1 (fun s hs => (hw s hs).1) hs0 t).2 ⟨g4, by linarith, by linarith⟩, g5⟩
      have hszr : 1 < (r.win a b).size := by
        have hpos := (w2 r' hr').2.1
        have u1 := hup _ (sampledAt_start (s := r') (by omega))
        have u2 := hup _ (sampledAt_last (s := r') (by omega))
        refine (Sync.win_two (w1 r hr'').2.2).2 ⟨r'.start, lastTime r', ?_, u1.1, u2.1, u1.2, u2.2⟩
        rw [hl']; exact ho'.lt
      exact mem_winRuns.2 ⟨r, hr'', hszr, win_merged hw hsz (w1 r hr'').1 (w2 r' hr').1 hm ho hm' ho' hszr⟩
  have htags : R'.tags.tags = R.tags.tags := by rw [q3, q3', mergedEntries_congr c6]
  have hpR : Plain R.tags := by
    have := (group_facts (Cs := []) (by simpa using hR) (by simpa using hp) (by simpa using hr) h).2.1
    exact this R (by simp)
  obtain ⟨m, e1, e2⟩ := extractIn_ok hI hpR (fun s hs => (w1 s hs).2.2) a b
  show R.extractIn a b = .ok R'
  by_cases h0 : winRuns a b R.runs = []
  · rw [extractIn_eq hI.ok.wf (fun s hs => (w1 s hs).2.2), h0, build_nil hI.inv hpR,
      merge_empty c2 c3 c4' h' (by rw [← hruns, h0]), htags]
  · rw [e1, e2 h0, hruns]
    obtain ⟨r', hr'⟩ := List.exists_mem_of_ne_nil R'.runs (by rw [← hruns]; exact h0)
    have hn : R'.tags.n = R.tags.n := by
      rw [(merge_sinv h').n r' hr']
      rw [← hruns] at hr'
      obtain ⟨r, hr'', -, rfl⟩ := mem_winRuns.1 hr'
      rw [hI.n r hr'']
      simp [Sync.win, Sync.cut]
    cases R' with
    | mk runs tags => cases tags; simp_all

/-- **C102.** and it succeeds before as after, for operands sampled at one rate, if the window leaves a run to each. -/
theorem C102_merge_extract_succeeds [One κ] (S R E : SigSet α κ) (others Es : List (SigSet α κ)) (a b ρ : ℚ)
    (hR : ∀ T ∈ S :: others, Reach T) (hp : ∀ T ∈ S :: others, Plain T.tags) (hρ : 0 < ρ)
    (hr : ∀ T ∈ S :: others, ∀ s ∈ T.runs, s.rate = ρ) (h : S.merge others = .ok R)
    (hE : List.Forall₂ (fun T E : SigSet α κ => T.extractT a b = .ok E) (S :: others) (E :: Es)) (hne : ∀ E' ∈ E :: Es, E'.runs ≠ []) :
    ∃ R', E.merge Es = .ok R' ∧ R.extractT a b = .ok R' := by
  have hr0 : ∀ T ∈ S :: others, ∀ s ∈ T.runs, 0 < s.rate := fun T hT s hs => by rw [hr T hT s hs]; exact hρ
  obtain ⟨c1, c2, c3, c4, c5⟩ := cut_operands hR hp hr0 hE
  obtain ⟨-, q2, -, q4⟩ := merge_runs hR hp hr0 h
  obtain ⟨s1, w1⟩ := merge_runs_strict hR hp hr0 h
  have hok : ∃ R', E.merge Es = .ok R' := by
    refine (C102_merge_iff E Es c2 c3 c4).2 ⟨?_, hne, ?_⟩
    · have c6 := (c5 hne).imp (fun _ _ h => h.1)
      have : ∀ (l l' : List (SigSet α κ)), List.Forall₂ (fun T E : SigSet α κ => E.tags = T.tags) l l' → NamesDisjoint l →
          NamesDisjoint l' := by
        intro l l' hf hd
        unfold NamesDisjoint at *
        induction hf with
        | nil => exact .nil
        | @cons T E l l' h1 h2 ih =>
          obtain ⟨d1, d2⟩ := List.pairwise_cons.1 hd
          refine List.pairwise_cons.2 ⟨?_, ih d2⟩
          intro U hU
          obtain ⟨i, hi, rfl⟩ := List.getElem_of_mem hU
          have hil : i < l.length := by rw [h2.length_eq]; exact hi
          have := (List.forall₂_iff_get.1 h2).2 i hil hi
          simp only [List.get_eq_getElem] at this
          rw [h1, this]
          exact d1 _ (List.getElem_mem hil)
      exact this _ _ c6 q4
    · intro c' x' y' hc' ho'
      obtain ⟨c, hc, rfl, hsz⟩ := choice_win c1 hc'
      have hw : ∀ s ∈ c, WF s ∧ s.rate = ρ := by
        intro s hs
        obtain ⟨T, hT, hsT⟩ := choice_mem hc s hs
        exact ⟨(reach_sinv (hR T hT)).ok.wf s hsT, hr T hT s hsT⟩
      have hw0 : ∀ s ∈ c, WF s ∧ 0 < s.rate := fun s hs => ⟨(hw s hs).1, by rw [(hw s hs).2]; exact hρ⟩
      have hmem : ∀ s ∈ c, s.win a b ∈ c.map (fun s => s.win a b) := fun s hs => List.mem_map.2 ⟨s, hs, rfl⟩
      have hcne : c ≠ [] := by intro he; subst he; cases hc
      obtain ⟨x, y, ho, hx, hy⟩ := overlap_exists hcne ho'.lt
        (fun s hs => ((Sync.win_ends (hw0 s hs).1 (hw0 s hs).2 (hsz s hs)).1).trans (ho'.lo_le _ (hmem s hs)))
        (fun s hs => (ho'.le_hi _ (hmem s hs)).trans (Sync.win_ends (hw0 s hs).1 (hw0 s hs).2 (hsz s hs)).2.1)
      obtain ⟨r, hr', hm⟩ := q2 c x y ρ hc ho (fun s hs => (hw s hs).2)
      have hsam := fun s hs t => hm.sampled (w1 r hr').1 (fun s hs => (hw s hs).1) (s := s) hs t
      have hlt := ho'.lt
      have key : ∀ t u, u ∈ c → SampledAt u t → x' ≤ t → t ≤ y' → a ≤ t → t ≤ b → ∀ s ∈ c, SampledAt (s.win a b) t := by
        intro t u hu hut h1 h2 h3 h4 s hs
        have hrt := (hsam u hu t).2 ⟨hut, by linarith, by linarith⟩
        exact (Sync.win_sampled (hw0 s hs).1 (hw0 s hs).2 (hsz s hs) t).2 ⟨((hsam s hs t).1 hrt).1, h3, h4⟩
      have kx : ∀ s ∈ c, SampledAt (s.win a b) x' := by
        obtain ⟨u', hu', e⟩ := ho'.lo
        obtain ⟨u, hu, rfl⟩ := List.mem_map.1 hu'
        obtain ⟨g1, g2, g3, g4, g5, g6, g7, g8⟩ := Sync.win_ends (hw0 u hu).1 (hw0 u hu).2 (hsz u hu)
        rw [e] at g3 g5 g7
        exact key x' u hu g3 le_rfl hlt.le g5 g7
      have ky : ∀ s ∈ c, SampledAt (s.win a b) y' := by
        obtain ⟨u', hu', e⟩ := ho'.hi
        obtain ⟨u, hu, rfl⟩ := List.mem_map.1 hu'
        obtain ⟨g1, g2, g3, g4, g5, g6, g7, g8⟩ := Sync.win_ends (hw0 u hu).1 (hw0 u hu).2 (hsz u hu)
        rw [e] at g4 g6 g8
        exact key y' u hu g4 hlt.le le_rfl g8 g6
      constructor
      · intro s' hs'
        obtain ⟨s, hs, rfl⟩ := List.mem_map.1 hs'
        refine (two_le_countIn (s := s.win a b) (hw0 s hs).2).2 ⟨x', y', hlt, kx s hs, ky s hs, ?_, ?_⟩
        · simp [window, hlt.le]
        · simp [window, hlt.le]
      · intro rate _ s' hs'
        obtain ⟨s, hs, rfl⟩ := List.mem_map.1 hs'
        exact kx s hs
  obtain ⟨R', hR'⟩ := hok
  exact ⟨R', hR', C102_merge_extract S R E R' others Es a b hR hp hr0 h hE hR'⟩

section examples

/-- A third operand for the examples. -/
def exG3 : SigSet Int ℚ := ⟨[⟨[[7, 8, 9]], [3], 1, 2, 3⟩], ⟨1, [("R", [0])]⟩⟩

theorem exG3_reach : Reach exG3 := Reach.new (.dict [("R", .int 0)]) [.sync ⟨[[7, 8, 9]], [3], 1, 2, 3⟩]
  (by simp; exact ⟨by simp, by simp, by simp⟩) (by simp) (by decide +kernel)

theorem exG3_plain : Plain exG3.tags := by
  intro k hk; simp [reserved] at hk; rcases hk with rfl | rfl | rfl | rfl | rfl <;> decide

/-- The hypotheses on the operands hold for the three of them. -/
example : (∀ T ∈ [exM1, exM2, exG3], Reach T) ∧ (∀ T ∈ [exM1, exM2, exG3], Plain T.tags) ∧
    (∀ T ∈ [exM1, exM2, exG3], ∀ s ∈ T.runs, s.rate = 1 ∧ 2 ≤ s.size) := by
  refine ⟨?_, ?_, ?_⟩
  · simpa using ⟨exM1_reach, exM2_reach, exG3_reach⟩
  · simpa using ⟨exM_plain.1, exM_plain.2, exG3_plain⟩
  · simp [exM1, exM2, exG3]

/-- Both orders succeed, with the channels in another order. -/
example : (∃ R, exM1.merge [exM2] = .ok R) ∧ exM2.merge [exM1] = .ok ⟨[⟨[[10, 20, 30], [0, 0, 1], [2, 3, 4]], [1, 2, 1], 1, 1, 3⟩,
    ⟨[[50, 60], [2, 2], [5, 6]], [1, 2, 1], 1, 5, 2⟩], ⟨3, [("H", [1, 0]), ("E", [2])]⟩⟩ :=
  ⟨⟨⟨[⟨[[2, 3, 4], [10, 20, 30], [0, 0, 1]], [1, 1, 2], 1, 1, 3⟩, ⟨[[5, 6], [50, 60], [2, 2]], [1, 1, 2], 1, 5, 2⟩],
    ⟨3, [("E", [0]), ("H", [2, 1])]⟩⟩, by decide +kernel⟩, by decide +kernel⟩

/-- In two steps or in one. -/
example : (exM1.merge [exM2] >>= fun M => M.merge [exG3]) =
      .ok ⟨[⟨[[3, 4], [20, 30], [0, 1], [7, 8]], [1, 1, 2, 3], 1, 2, 2⟩], ⟨4, [("E", [0]), ("H", [2, 1]), ("R", [3])]⟩⟩ ∧
    exM1.merge [exM2, exG3] =
      .ok ⟨[⟨[[3, 4], [20, 30], [0, 1], [7, 8]], [1, 1, 2, 3], 1, 2, 2⟩], ⟨4, [("E", [0]), ("H", [2, 1]), ("R", [3])]⟩⟩ :=
  ⟨by decide +kernel, by decide +kernel⟩

/-- Cutting before or after. -/
example : (exM1.merge [exM2] >>= fun M => M.extractT 2 6) =
      .ok ⟨[⟨[[3, 4], [20, 30], [0, 1]], [1, 1, 2], 1, 2, 2⟩, ⟨[[5, 6], [50, 60], [2, 2]], [1, 1, 2], 1, 5, 2⟩], ⟨3, [("E", [0]), ("H", [2, 1])]⟩⟩ ∧
    (exM1.extractT 2 6 >>= fun a => exM2.extractT 2 6 >>= fun b => a.merge [b]) =
      .ok ⟨[⟨[[3, 4], [20, 30], [0, 1]], [1, 1, 2], 1, 2, 2⟩, ⟨[[5, 6], [50, 60], [2, 2]], [1, 1, 2], 1, 5, 2⟩], ⟨3, [("E", [0]), ("H", [2, 1])]⟩⟩ :=
  ⟨by decide +kernel, by decide +kernel⟩

/-- The converse of `C102_merge_group_succeeds` fails: merging `A` and `B`, then `C`, succeeds while merging the three of them at once
raises. `A` and `B` have different rates on their first common interval, which their merge drops; the part of it that `C` covers is
shorter than two samples of `A`. -/
theorem C102_merge_group_counterexample : ∃ A B C M R : SigSet Int ℚ,
    (∀ T ∈ [A, B, C], Reach T ∧ Plain T.tags ∧ ∀ s ∈ T.runs, 0 < s.rate ∧ 2 ≤ s.size) ∧
    A.merge [B] = .ok M ∧ M.merge [C] = .ok R ∧ R.runs ≠ [] ∧ A.merge [B, C] = .error .assertion := by
  refine ⟨⟨[⟨[[1, 2, 3]], [1], 1, 1/2, 3⟩, ⟨[[4, 5, 6]], [1], 1, 10, 3⟩], ⟨1, [("E", [0])]⟩⟩,
    ⟨[⟨[[1, 2, 3, 4, 5, 6, 7]], [1], 2, 0, 7⟩, ⟨[[7, 8, 9]], [1], 1, 10, 3⟩], ⟨1, [("H", [0])]⟩⟩,
    ⟨[⟨[[1, 2, 3, 4, 5, 6, 7, 8, 9, 10, 11]], [1], 1, 2, 11⟩], ⟨1, [("R", [0])]⟩⟩,
    ⟨[⟨[[4, 5, 6], [7, 8, 9]], [1, 1], 1, 10, 3⟩], ⟨2, [("E", [0]), ("H", [1])]⟩⟩,
    ⟨[⟨[[4, 5, 6], [7, 8, 9], [9, 10, 11]], [1, 1, 1], 1, 10, 3⟩], ⟨3, [("E", [0]), ("H", [1]), ("R", [2])]⟩⟩,
    ?_, by decide +kernel, by decide +kernel, by decide +kernel, by decide +kernel⟩
  intro T hT
  simp only [List.mem_cons, List.not_mem_nil, or_false] at hT
  rcases hT with rfl | rfl | rfl
  · refine ⟨Reach.new (.dict [("E", .int 0)]) [.sync ⟨[[1, 2, 3]], [1], 1, 1/2, 3⟩, .sync ⟨[[4, 5, 6]], [1], 1, 10, 3⟩]
      (by simp; constructor <;> exact ⟨by simp, by simp, by simp⟩) (by simp) (by decide +kernel), ?_, by simp⟩
    intro k hk; simp [reserved] at hk; rcases hk with rfl | rfl | rfl | rfl | rfl <;> decide
  · refine ⟨Reach.new (.dict [("H", .int 0)]) [.sync ⟨[[1, 2, 3, 4, 5, 6, 7]], [1], 2, 0, 7⟩, .sync ⟨[[7, 8, 9]], [1], 1, 10, 3⟩]
      (by simp; constructor <;> exact ⟨by simp, by simp, by simp⟩) (by simp) (by decide +kernel), ?_, by simp⟩
    intro k hk; simp [reserved] at hk; rcases hk with rfl | rfl | rfl | rfl | rfl <;> decide
  · refine ⟨Reach.new (.dict [("R", .int 0)]) [.sync ⟨[[1, 2, 3, 4, 5, 6, 7, 8, 9, 10, 11]], [1], 1, 2, 11⟩]
      (by simp; exact ⟨by simp, by simp, by simp⟩) (by simp) (by decide +kernel), ?_, by simp⟩
    intro k hk; simp [reserved] at hk; rcases hk with rfl | rfl | rfl | rfl | rfl <;> decide

end examples

end Razorback.Props
