/- C22-C25: merging channels. -/
import Verif.Lemmas.Merge
import Verif.Props.Extract

namespace Razorback.Props
open Razorback Spec SigSet
variable {α κ : Type _}

/-- **C23.** For operands with runs, the intervals explored by `merge` that have a non-empty interior are
exactly the intersections with non-empty interior of one run interval per operand; they come in increasing
order without overlap; an instant is strictly inside one of them exactly when it is strictly inside a run of
every operand.  When every run has at least two samples all explored intervals have a non-empty interior. -/
theorem C23_intervals [One κ] (seqs : List (SigSet α κ)) (hne : seqs ≠ []) (hR : ∀ S ∈ seqs, Reach S)
    (hr : ∀ S ∈ seqs, ∀ s ∈ S.runs, 0 < s.rate) (hruns : ∀ S ∈ seqs, S.runs ≠ []) :
    ∃ ivs, mergeIntervals seqs = .ok ivs ∧
      (∀ a b, a < b → ((a, b) ∈ ivs ↔ ∃ c, Choice c seqs ∧ Overlap c a b)) ∧
      ivs.Pairwise (fun i j => i.2 ≤ j.1) ∧
      (∀ t, (∃ i ∈ ivs, i.1 < t ∧ t < i.2) ↔ ∀ S ∈ seqs, ∃ s ∈ S.runs, s.start < t ∧ t < lastTime s) ∧
      ((∀ S ∈ seqs, ∀ s ∈ S.runs, 2 ≤ s.size) → ∀ i ∈ ivs, i.1 < i.2) := by
  have hI : ∀ S ∈ seqs, SInv S := fun S hS => reach_sinv (hR S hS)
  obtain ⟨d, f, h1, h2⟩ := mergeIntervals_eq hne hruns (fun S hS s hs => (hr S hS s hs).ne')
  obtain ⟨m1, m2⟩ := mem_common_runs hne hI h2
  have hs : ∀ ivs ∈ seqs.map (fun S : SigSet α κ => S.runs.map iv), ivs.Pairwise (fun i j => i.1 ≤ j.1) := by
    intro ivs hivs
    obtain ⟨S, hS, rfl⟩ := List.mem_map.1 hivs
    rw [List.pairwise_map]
    exact (hI S hS).ok.sorted
  have hd : ∀ ivs ∈ seqs.map (fun S : SigSet α κ => S.runs.map iv), ivs.Pairwise (fun i j => i.2 ≤ j.1) := by
    intro ivs hivs
    obtain ⟨S, hS, rfl⟩ := List.mem_map.1 hivs
    rw [List.pairwise_map]
    exact (hI S hS).ok.disjoint
  have key : ∀ a b, a < b → ((a, b) ∈ common (seqs.map (fun S => S.runs.map iv)) d f ↔
      ∃ c, Choice c seqs ∧ Overlap c a b) := by
    intro a b hab
    constructor
    · intro hm
      obtain ⟨c, hc, x1, x2, x3, x4⟩ := m1 _ hm
      exact ⟨c, hc, x1, x2, x3, x4, hab⟩
    · rintro ⟨c, hc, ho⟩; exact m2 c a b hc ho
  refine ⟨_, h1, key, common_pairwise hs hd d f, ?_, ?_⟩
  · intro t
    constructor
    · rintro ⟨⟨a, b⟩, hi, hat, htb⟩ S hS
      obtain ⟨c, hc, _, x2, _, x4⟩ := m1 _ hi
      have : ∀ (c : List (Sync α κ)) (seqs : List (SigSet α κ)), Choice c seqs → S ∈ seqs → ∃ s ∈ c, s ∈ S.runs := by
        intro c seqs hc hS
        unfold Choice at hc
        induction hc with
        | nil => simp at hS
        | @cons s S' _ _ hh _ ih =>
          rcases List.mem_cons.1 hS with rfl | hS
          · exact ⟨s, by simp, hh⟩
          · obtain ⟨s', h3, h4⟩ := ih hS; exact ⟨s', by simp [h3], h4⟩
      obtain ⟨s, hsc, hsS⟩ := this c seqs hc hS
      exact ⟨s, hsS, (x2 s hsc).trans_lt hat, htb.trans_le (x4 s hsc)⟩
    · intro hall
      have : ∀ seqs : List (SigSet α κ), (∀ S ∈ seqs, ∃ s ∈ S.runs, s.start < t ∧ t < lastTime s) →
          ∃ c, Choice c seqs ∧ ∀ s ∈ c, s.start < t ∧ t < lastTime s := by
        intro seqs
        induction seqs with
        | nil => intro _; exact ⟨[], .nil, by simp⟩
        | cons S seqs ih =>
          intro hall
          obtain ⟨c, h3, h4⟩ := ih (fun S hS => hall S (by simp [hS]))
          obtain ⟨s, hs, h5⟩ := hall S (by simp)
          refine ⟨s :: c, .cons hs h3, ?_⟩
          intro s' hs'
          rcases List.mem_cons.1 hs' with rfl | hs'
          · exact h5
          · exact h4 s' hs'
      obtain ⟨c, hc, h3⟩ := this seqs hall
      have hcne : c ≠ [] := by
        intro h; subst h; cases hc; exact hne rfl
      have b1 : ∀ s ∈ c, d ≤ s.start := by
        intro s hs'
        obtain ⟨S, hS, hsS⟩ := choice_mem hc s hs'
        exact (h2 S hS s hsS).1
      have b2 : ∀ s ∈ c, lastTime s ≤ f := by
        intro s hs'
        obtain ⟨S, hS, hsS⟩ := choice_mem hc s hs'
        exact (h2 S hS s hsS).2
      obtain ⟨⟨s, hsc, l1⟩, l2⟩ := loOf_overlap hcne b1
      obtain ⟨⟨u, huc, l3⟩, l4⟩ := hiOf_overlap hcne b2
      have e1 : loOf d (c.map iv) < t := by rw [← l1]; exact (h3 s hsc).1
      have e2 : t < hiOf f (c.map iv) := by rw [← l3]; exact (h3 u huc).2
      exact ⟨_, m2 c _ _ hc ⟨⟨s, hsc, l1⟩, l2, ⟨u, huc, l3⟩, l4, e1.trans e2⟩, e1, e2⟩
  · intro h2' i hi
    have hlt : ∀ S ∈ seqs, ∀ s ∈ S.runs, s.start < lastTime s := by
      intro S hS s hs'
      have := h2' S hS s hs'
      have hr' := hr S hS s hs'
      rw [Sync.lastTime_eq (by omega)]
      have := (sampleTime_strictMono hr' s.start (i := 0) (j := s.size - 1)).2 (by omega)
      simpa [sampleTime] using this
    obtain ⟨S, hS⟩ := List.exists_mem_of_ne_nil _ hne
    obtain ⟨s, hs'⟩ := List.exists_mem_of_ne_nil _ (hruns S hS)
    have hdf : d < f := by
      have := h2 S hS s hs'
      have := hlt S hS s hs'
      linarith [this, (h2 S hS s hs').1, (h2 S hS s hs').2]
    refine common_lt hs ?_ hdf hi
    intro ivs hivs i hi
    obtain ⟨S, hS, rfl⟩ := List.mem_map.1 hivs
    obtain ⟨s, hs', rfl⟩ := List.mem_map.1 hi
    exact hlt S hS s hs'

def exM1 : SigSet Int ℚ := ⟨[⟨[[1, 2, 3, 4]], [1], 1, 0, 4⟩, ⟨[[5, 6, 7]], [1], 1, 5, 3⟩], ⟨1, [("E", [0])]⟩⟩
def exM2 : SigSet Int ℚ := ⟨[⟨[[10, 20, 30, 40, 50, 60], [0, 0, 1, 1, 2, 2]], [1, 2], 1, 1, 6⟩], ⟨2, [("H", [1, 0])]⟩⟩

theorem exM1_reach : Reach exM1 := Reach.new (.dict [("E", .int 0)])
  [.sync ⟨[[1, 2, 3, 4]], [1], 1, 0, 4⟩, .sync ⟨[[5, 6, 7]], [1], 1, 5, 3⟩]
  (by simp; constructor <;> exact ⟨by simp, by simp, by simp⟩) (by simp) (by decide +kernel)

theorem exM2_reach : Reach exM2 := Reach.new (.dict [("H", .tup [1, 0])])
  [.sync ⟨[[10, 20, 30, 40, 50, 60], [0, 0, 1, 1, 2, 2]], [1, 2], 1, 1, 6⟩]
  (by simp; exact ⟨by simp, by simp, by simp⟩) (by simp) (by decide +kernel)

theorem exM_plain : Plain exM1.tags ∧ Plain exM2.tags := by
  constructor <;> intro k hk <;> simp [reserved] at hk <;> rcases hk with rfl | rfl | rfl | rfl | rfl <;> decide

example : mergeIntervals [exM1, exM2] = .ok [(1, 3), (5, 6)] := by decide +kernel

example : exM1.merge [exM2] = .ok ⟨[⟨[[2, 3, 4], [10, 20, 30], [0, 0, 1]], [1, 1, 2], 1, 1, 3⟩,
    ⟨[[5, 6], [50, 60], [2, 2]], [1, 1, 2], 1, 5, 2⟩], ⟨3, [("E", [0]), ("H", [2, 1])]⟩⟩ := by decide +kernel

/-- The stages of a successful merge. -/
theorem merge_parts [One κ] {S R : SigSet α κ} {others : List (SigSet α κ)} (h : S.merge others = .ok R) :
    ∃ t ivs rs, mergeTags (S :: others) = .ok t ∧ mergeIntervals (S :: others) = .ok ivs ∧
      mapE (fun i : ℚ × ℚ => mergeOne (S :: others) i.1 i.2) ivs = .ok rs ∧
      build (.tags t) (rs.filterMap id) = .ok R := by
  unfold SigSet.merge at h
  split at h
  · simp at h
  · rename_i t ht
    split at h
    · simp at h
    · rename_i ivs hivs
      split at h
      · simp at h
      · rename_i rs hrs
        exact ⟨t, ivs, rs, ht, hivs, hrs, h⟩

theorem mergeTags_inv {seqs : List (SigSet α κ)} {t : Tags} (h : mergeTags seqs = .ok t) : t.Inv := by
  unfold mergeTags at h
  split at h
  · simp at h
  · split at h
    · simp at h
    · split at h
      · simp at h
      · exact (Tags.new_inv h).1

/-- The names of the operands are disjoint. -/
def NamesDisjoint (seqs : List (SigSet α κ)) : Prop :=
  seqs.Pairwise (fun S T => ∀ k v w, S.tags.getItem k = .ok v → ¬ T.tags.getItem k = .ok w)

theorem namesDisjoint_iff [Rnd] {seqs : List (SigSet α κ)} (hI : ∀ S ∈ seqs, SInv S) :
    (seqs.flatMap (fun S => S.tags.tags.keys)).Nodup ↔ NamesDisjoint seqs := by
  unfold NamesDisjoint
  rw [List.nodup_flatMap]
  have : (∀ x ∈ seqs, (Tags.tags x.tags).keys.Nodup) := fun S hS => (hI S hS).inv.nodup
  rw [and_iff_right this]
  have hk : ∀ (t : Tags) k, k ∈ t.tags.keys ↔ ∃ v, t.getItem k = .ok v := by
    intro t k
    constructor
    · intro h
      cases hg : t.getItem k with
      | ok v => exact ⟨v, rfl⟩
      | error e =>
        have : e = .key := by unfold Tags.getItem at hg; split at hg <;> simp_all
        subst this
        exact absurd h (Tags.getItem_error.1 hg)
    · rintro ⟨v, hv⟩
      by_contra hc
      rw [Tags.getItem_error.2 hc] at hv; simp at hv
  constructor <;> intro h <;> refine h.imp ?_
  · intro S T hd k v w hv hw
    exact hd ((hk _ _).2 ⟨v, hv⟩) ((hk _ _).2 ⟨w, hw⟩)
  · intro S T hd k hkS hkT
    obtain ⟨v, hv⟩ := (hk _ _).1 hkS
    obtain ⟨w, hw⟩ := (hk _ _).1 hkT
    exact hd k v w hv hw

/-- Every stage known: what a successful merge is made of. -/
theorem merge_runs [One κ] {S R : SigSet α κ} {others : List (SigSet α κ)}
    (hR : ∀ T ∈ S :: others, Reach T) (hp : ∀ T ∈ S :: others, Plain T.tags)
    (hr : ∀ T ∈ S :: others, ∀ s ∈ T.runs, 0 < s.rate) (h : S.merge others = .ok R) :
    (∀ r ∈ R.runs, ∃ c b, Choice c (S :: others) ∧ Overlap c r.start b ∧ Merged r c r.start b) ∧
    (∀ c a b rate, Choice c (S :: others) → Overlap c a b → SameRate c rate →
      ∃ r ∈ R.runs, Merged r c a b) ∧
    R.tags.tags = mergedEntries 0 (S :: others) ∧ NamesDisjoint (S :: others) := by
  have hI : ∀ T ∈ S :: others, SInv T := fun T hT => reach_sinv (hR T hT)
  obtain ⟨t, ivs, rs, h1, h2, h3, h4⟩ := merge_parts h
  have hruns : ∀ T ∈ S :: others, T.runs ≠ [] := by
    intro T hT he
    rw [mergeIntervals_empty ⟨T, hT, he⟩ (fun T hT s hs => (hr T hT s hs).ne')] at h2
    simp at h2
  obtain ⟨d, f, h5, h6⟩ := mergeIntervals_eq (seqs := S :: others) (by simp) hruns (fun T hT s hs => (hr T hT s hs).ne')
  rw [h2] at h5
  simp only [Except.ok.injEq] at h5
  obtain ⟨m1, m2⟩ := mem_common_runs (by simp) hI h6
  rw [← h5] at m1 m2
  have hcne : ∀ c : List (Sync α κ), Choice c (S :: others) → c ≠ [] := by
    intro c hc he; subst he; cases hc
  have hcw : ∀ c : List (Sync α κ), Choice c (S :: others) → ∀ s ∈ c, WF s ∧ 0 < s.rate := by
    intro c hc s hs
    obtain ⟨T, hT, hsT⟩ := choice_mem hc s hs
    exact ⟨(hI T hT).ok.wf s hsT, hr T hT s hsT⟩
  obtain ⟨_, _, _, b4, b5⟩ := build_iff.1 h4
  have hmem : ∀ r, r ∈ R.runs ↔ some r ∈ rs := by
    intro r
    rw [b4, mem_sortRuns, List.mem_filterMap]
    simp
  have hnd : ((S :: others).flatMap (fun S => S.tags.tags.keys)).Nodup := by
    by_contra hc
    rw [mergeTags_conflict hp hc] at h1; simp at h1
  have hmk : ∀ (c : List (Sync α κ)) (a b : ℚ), Choice c (S :: others) → (∀ s ∈ c, s.start ≤ a) →
      (∀ s ∈ c, b ≤ lastTime s) → ∀ r, mergeOne (S :: others) a b = .ok (some r) → Merged r c a b ∧ r.start = a ∧ a < b := by
    intro c a b hc ha hb r hm
    obtain ⟨q1, q2⟩ := mergeOne_inv hI hp hr hc ha hb (hcne c hc) hm
    rcases q2 with ⟨q2, _⟩ | ⟨rate, q2, q3, q4⟩
    · simp at q2
    · simp only [Option.some.injEq] at q4
      subst q4
      refine ⟨⟨rfl, q2, ?_⟩, rfl, ?_⟩
      · exact merged_channels (hcw c hc) (fun s hs => by have := q1 s hs; omega) ha q2 q3
      · obtain ⟨s, hs⟩ := List.exists_mem_of_ne_nil _ (hcne c hc)
        have hr' := (hcw c hc s hs).2
        have hlt := q1 s hs
        have hsz : (s.win a b).size = s.iHi b - s.iLo a := rfl
        rw [hsz] at hlt
        have e1 := (Sync.iLo_le hr' a (s.iLo a)).1 le_rfl
        have e2 := ((Sync.lt_iHi hr' b (s.iLo a + 1)).1 (by omega)).2
        have e3 := (sampleTime_strictMono hr' s.start (i := s.iLo a) (j := s.iLo a + 1)).2 (by omega)
        linarith
  refine ⟨?_, ?_, ?_, (namesDisjoint_iff hI).1 hnd⟩
  · intro r hr'
    obtain ⟨i, hi, hm⟩ := mapE_ok_exists h3 (some r) ((hmem r).1 hr')
    obtain ⟨c, hc, x1, x2, x3, x4⟩ := m1 i hi
    obtain ⟨y1, y2, y3⟩ := hmk c i.1 i.2 hc x2 x4 r hm
    rw [y2]
    exact ⟨c, i.2, hc, ⟨x1, x2, x3, x4, y3⟩, y1⟩
  · intro c a b rate hc ho hsr
    obtain ⟨o, ho1, ho2⟩ := mapE_ok_forall h3 _ (m2 c a b hc ho)
    simp only at ho2
    obtain ⟨q1, q2⟩ := mergeOne_inv hI hp hr hc ho.lo_le ho.le_hi (hcne c hc) ho2
    rcases q2 with ⟨_, q2⟩ | ⟨rate', q2, q3, q4⟩
    · exact absurd ⟨rate, hsr⟩ q2
    · subst q4
      exact ⟨_, (hmem _).2 ho1, (hmk c a b hc ho.lo_le ho.le_hi _ ho2).1⟩
  · have h1' := h1
    rw [mergeTags_eq hI hp hnd] at h1
    simp only [Except.ok.injEq] at h1
    rw [mkTags_tags b5 (mergeTags_inv h1'), ← h1]

/-- Channel `x` of operand `i` in a merged run. -/
theorem merged_getElem {S : SigSet α κ} {others : List (SigSet α κ)} (hI : ∀ T ∈ S :: others, SInv T)
    {c : List (Sync α κ)} (hc : Choice c (S :: others)) {r : Sync α κ} {a b : ℚ} (hm : Merged r c a b)
    {i : Nat} {s : Sync α κ} (hs : c[i]? = some s)
    {x : Nat} (hx : x < s.data.length) :
    (channels r)[x + ((((S :: others).take i).map nbChannels).sum)]? =
      ((channels s)[x]?).map (cutChannel (window a b)) := by
  rw [hm.channels, List.flatMap_def]
  have hwf : ∀ s ∈ c, WF s := by
    intro s hs
    obtain ⟨T, hT, hsT⟩ := choice_mem hc s hs
    exact (hI T hT).ok.wf s hsT
  have hlen : ∀ s ∈ c, (channels s).length = s.data.length := fun s hs => Sync.channels_length (hwf s hs)
  have hsum : (((c.map (fun s => (channels s).map (cutChannel (window a b)))).take i).map List.length).sum =
      ((((S :: others).take i).map nbChannels).sum) := by
    have : ∀ (c : List (Sync α κ)) (seqs : List (SigSet α κ)) (i : Nat), Choice c seqs → (∀ T ∈ seqs, SInv T) →
        (((c.map (fun s => (channels s).map (cutChannel (window a b)))).take i).map List.length).sum =
          (((seqs.take i).map nbChannels).sum) := by
      intro c seqs i hc hI
      unfold Choice at hc
      induction hc generalizing i with
      | nil => simp
      | @cons s T c seqs h1 h2 ih =>
        cases i with
        | zero => simp
        | succ i =>
          simp only [List.map_cons, List.take_succ_cons, List.sum_cons, List.length_map]
          rw [ih i (fun T hT => hI T (by simp [hT])), nbChannels_eq (hI T (by simp)) h1,
            Sync.channels_length ((hI T (by simp)).ok.wf s h1)]
    exact this c _ i hc hI
  rw [Nat.add_comm, ← hsum]
  have hget : (c.map (fun s => (channels s).map (cutChannel (window a b))))[i]? =
      some ((channels s).map (cutChannel (window a b))) := by
    rw [List.getElem?_map, hs]; rfl
  rw [getElem?_flatten hget]
  · rw [List.getElem?_map]
  · rw [List.length_map, hlen s (List.mem_of_getElem? hs)]; exact hx

/-- **C22.** After `R = S.merge(*others)`: each run `r` of `R` comes from one run per operand that overlap from
`r.start` to some `b`; the channels of `r` are those of these runs in operand order, restricted to `[r.start, b]`;
and for every operand, each of its tags is a tag of `R` with as many channels, and designates in `r` the data
and calibrations it designates in the operand's run, restricted to `[r.start, b]`. -/
theorem C22_merge_tags [One κ] (S R : SigSet α κ) (others : List (SigSet α κ))
    (hR : ∀ T ∈ S :: others, Reach T) (hp : ∀ T ∈ S :: others, Plain T.tags)
    (hr : ∀ T ∈ S :: others, ∀ s ∈ T.runs, 0 < s.rate) (h : S.merge others = .ok R) :
    ∀ r ∈ R.runs, ∃ c b, Choice c (S :: others) ∧ Overlap c r.start b ∧ Merged r c r.start b ∧
      ∀ (i : Nat) T s k v, (S :: others)[i]? = some T → c[i]? = some s → T.tags.getItem k = .ok v →
        (∃ w, R.tags.getItem k = .ok w ∧ w.length = v.length) ∧
        ∀ j, designated R.tags r k j = (designated T.tags s k j).map (cutChannel (window r.start b)) := by
  have hI : ∀ T ∈ S :: others, SInv T := fun T hT => reach_sinv (hR T hT)
  obtain ⟨q1, _, q3, q4⟩ := merge_runs hR hp hr h
  intro r hr'
  obtain ⟨c, b, hc, ho, hm⟩ := q1 r hr'
  refine ⟨c, b, hc, ho, hm, ?_⟩
  intro i T s k v hT hs hk
  have hTm := List.mem_of_getElem? hT
  have hTi := (hI T hTm).inv
  have hkm := Dict.mem_of_get? (Tags.getItem_ok.1 hk)
  have hnd : (mergedEntries 0 (S :: others)).keys.Nodup := by
    rw [mergedEntries_keys]; exact (namesDisjoint_iff hI).2 q4
  have hget : R.tags.getItem k = .ok (v.map (· + (0 + ((((S :: others).take i).map nbChannels).sum)))) := by
    rw [Tags.getItem_ok, q3]
    exact Dict.get?_of_mem hnd (mem_mergedEntries.2 ⟨i, T, v, hT, hkm, rfl⟩)
  refine ⟨⟨_, hget, by simp⟩, ?_⟩
  intro j
  unfold designated
  rw [hget, hk]
  simp only [List.getElem?_map, Nat.zero_add]
  cases hv : v[j]? with
  | none => rfl
  | some x =>
    simp only [Option.map_some, Option.bind_some]
    have hsT : s ∈ T.runs := by
      have : ∀ (c : List (Sync α κ)) (seqs : List (SigSet α κ)) (i : Nat), Choice c seqs → c[i]? = some s →
          seqs[i]? = some T → s ∈ T.runs := by
        intro c seqs i hc
        unfold Choice at hc
        induction hc generalizing i with
        | nil => simp
        | cons h1 _ ih =>
          cases i with
          | zero => simp; rintro rfl rfl; exact h1
          | succ i => simpa using ih i
      exact this c _ i hc hs hT
    apply merged_getElem hI hc hm hs
    rw [← (hI T hTm).n s hsT]
    exact (hTi.legal k v (Tags.getItem_ok.1 hk)).2.2 x (List.mem_of_getElem? hv)

/-- **C22.** The tags of the result are exactly those of the operands. -/
theorem C22_merge_names [One κ] (S R : SigSet α κ) (others : List (SigSet α κ))
    (hR : ∀ T ∈ S :: others, Reach T) (hp : ∀ T ∈ S :: others, Plain T.tags)
    (hr : ∀ T ∈ S :: others, ∀ s ∈ T.runs, 0 < s.rate) (h : S.merge others = .ok R) (k : String) :
    (∃ w, R.tags.getItem k = .ok w) ↔ ∃ T ∈ S :: others, ∃ v, T.tags.getItem k = .ok v := by
  have hI : ∀ T ∈ S :: others, SInv T := fun T hT => reach_sinv (hR T hT)
  obtain ⟨_, _, q3, q4⟩ := merge_runs hR hp hr h
  have hnd : (mergedEntries 0 (S :: others)).keys.Nodup := by
    rw [mergedEntries_keys]; exact (namesDisjoint_iff hI).2 q4
  constructor
  · rintro ⟨w, hw⟩
    rw [Tags.getItem_ok, q3] at hw
    obtain ⟨i, T, v, hT, hv, _⟩ := mem_mergedEntries.1 (Dict.mem_of_get? hw)
    have hTm := List.mem_of_getElem? hT
    exact ⟨T, hTm, v, Tags.getItem_ok.2 (Dict.get?_of_mem (hI T hTm).inv.nodup hv)⟩
  · rintro ⟨T, hT, v, hv⟩
    obtain ⟨i, hi⟩ := List.mem_iff_getElem?.1 hT
    exact ⟨_, Tags.getItem_ok.2 (by
      rw [q3]
      exact Dict.get?_of_mem hnd (mem_mergedEntries.2 ⟨i, T, v, hi, Dict.mem_of_get? (Tags.getItem_ok.1 hv), rfl⟩))⟩

/-- **C24.** In every run of a merged set, every sample of every channel is a sample of the run of the
operand that contributed this channel, at exactly the same time (that is `start + k/rate` by definition of
`channels`), on the channel with the same calibration. -/
theorem C24_no_misalignment [One κ] (S R : SigSet α κ) (others : List (SigSet α κ))
    (hR : ∀ T ∈ S :: others, Reach T) (hp : ∀ T ∈ S :: others, Plain T.tags)
    (hr : ∀ T ∈ S :: others, ∀ s ∈ T.runs, 0 < s.rate) (h : S.merge others = .ok R) :
    ∀ r ∈ R.runs, ∃ c : List (Sync α κ), Choice c (S :: others) ∧ SameRate c r.rate ∧
      ∃ src : List (Sync α κ × Nat),
        src = c.flatMap (fun s => (List.range s.data.length).map (fun x => (s, x))) ∧
        src.length = r.data.length ∧
        ∀ (ch : Nat) s x, src[ch]? = some (s, x) → ∀ (k : Nat) y, (r.data[ch]?).bind (·[k]?) = some y →
          ∃ i, (s.data[x]?).bind (·[i]?) = some y ∧ sampleTime s.rate s.start i = sampleTime r.rate r.start k := by
  have hI : ∀ T ∈ S :: others, SInv T := fun T hT => reach_sinv (hR T hT)
  obtain ⟨q1, _, q3, q4⟩ := merge_runs hR hp hr h
  intro r hr'
  obtain ⟨c, b, hc, ho, hm⟩ := q1 r hr'
  refine ⟨c, hc, hm.rate, _, rfl, ?_, ?_⟩
  all_goals
    have hwf : ∀ s ∈ c, WF s := by
      intro s hs
      obtain ⟨T, hT, hsT⟩ := choice_mem hc s hs
      exact (hI T hT).ok.wf s hsT
    have hrw : WF r := (merge_sinv h).ok.wf r hr'
  · have := congrArg List.length hm.channels
    rw [Sync.channels_length hrw] at this
    rw [this]
    simp only [List.length_flatMap, List.length_map, List.length_range]
    congr 1
    apply List.map_congr_left
    intro s hs
    exact (Sync.channels_length (hwf s hs)).symm
  · intro ch s x hsrc k y hy
    -- channel `ch` of `r` is channel `x` of `s`, cut
    have hsc : s ∈ c ∧ x < s.data.length := by
      have := List.mem_of_getElem? hsrc
      obtain ⟨s', hs', hx'⟩ := List.mem_flatMap.1 this
      obtain ⟨x', hx'', he⟩ := List.mem_map.1 hx'
      simp only [Prod.mk.injEq] at he
      obtain ⟨rfl, rfl⟩ := he
      exact ⟨hs', List.mem_range.1 hx''⟩
    have hch : (channels r)[ch]? = ((channels s)[x]?).map (cutChannel (window r.start b)) := by
      rw [hm.channels]
      have gen : ∀ (c : List (Sync α κ)) (ch : Nat), (∀ s ∈ c, WF s) →
          (c.flatMap (fun s => (List.range s.data.length).map (fun x => (s, x))))[ch]? = some (s, x) →
          (c.flatMap (fun s => (channels s).map (cutChannel (window r.start b))))[ch]? =
            ((channels s)[x]?).map (cutChannel (window r.start b)) := by
        intro c
        induction c with
        | nil => intro ch _ h; simp at h
        | cons s0 c ih =>
          intro ch hw h
          have hl := Sync.channels_length (hw s0 (by simp))
          simp only [List.flatMap_cons] at h ⊢
          by_cases hlt : ch < s0.data.length
          · rw [List.getElem?_append_left (by simpa using hlt), List.getElem?_map, List.getElem?_range hlt] at h
            simp only [Option.map_some, Option.some.injEq, Prod.mk.injEq] at h
            obtain ⟨rfl, rfl⟩ := h
            rw [List.getElem?_append_left (by rw [List.length_map, hl]; exact hlt), List.getElem?_map]
          · rw [List.getElem?_append_right (by simp; omega)] at h
            rw [List.getElem?_append_right (by rw [List.length_map, hl]; omega)]
            simp only [List.length_map, List.length_range] at h
            rw [List.length_map, hl]
            exact ih _ (fun s hs => hw s (by simp [hs])) h
      exact gen c ch hwf hsrc
    -- sample k of channel ch
    have hdr : ∃ d cal, r.data[ch]? = some d ∧ d[k]? = some y ∧ (channels r)[ch]? = some (timed r.rate r.start d, cal) := by
      cases hd : r.data[ch]? with
      | none => rw [hd] at hy; simp at hy
      | some d =>
        rw [hd] at hy
        simp only [Option.bind_some] at hy
        have hlt : ch < r.data.length := (List.getElem?_eq_some_iff.1 hd).1
        have hltc : ch < r.cals.length := by rw [hrw.cals]; exact hlt
        refine ⟨d, r.cals[ch], rfl, hy, ?_⟩
        unfold channels
        rw [List.getElem?_zip_eq_some]
        simp [hd, hltc]
    obtain ⟨d, cal, hd, hdk, hcr⟩ := hdr
    have hds : ∃ d' cal', s.data[x]? = some d' ∧ (channels s)[x]? = some (timed s.rate s.start d', cal') := by
      have hltc : x < s.cals.length := by rw [(hwf s hsc.1).cals]; exact hsc.2
      refine ⟨s.data[x], s.cals[x], List.getElem?_eq_getElem hsc.2, ?_⟩
      unfold channels
      rw [List.getElem?_zip_eq_some]
      simp [hsc.2, hltc]
    obtain ⟨d', cal', hd', hcs⟩ := hds
    rw [hcr, hcs] at hch
    simp only [Option.map_some, Option.some.injEq, cutChannel, Prod.mk.injEq] at hch
    have hmem : (sampleTime r.rate r.start k, y) ∈ timed r.rate r.start d := by
      apply List.mem_of_getElem? (i := k)
      rw [getElem?_timed, hdk]; rfl
    rw [hch.1] at hmem
    have hmem' := (List.mem_filter.1 hmem).1
    obtain ⟨i, hi⟩ := List.mem_iff_getElem?.1 hmem'
    rw [getElem?_timed] at hi
    cases hdi : d'[i]? with
    | none => rw [hdi] at hi; simp at hi
    | some y' =>
      rw [hdi] at hi
      simp only [Option.map_some, Option.some.injEq, Prod.mk.injEq] at hi
      refine ⟨i, ?_, hi.1⟩
      rw [hd']
      simp only [Option.bind_some, hdi, hi.2]

/-- **C25.** A tag name that occurs in two operands makes `merge` raise. -/
theorem C25_name_conflict_raises [One κ] (S : SigSet α κ) (others : List (SigSet α κ))
    (hR : ∀ T ∈ S :: others, Reach T) (hp : ∀ T ∈ S :: others, Plain T.tags)
    (i j : Nat) (hij : i < j) (T U : SigSet α κ) (hi : (S :: others)[i]? = some T) (hj : (S :: others)[j]? = some U)
    (k : String) (v w : List Nat) (hv : T.tags.getItem k = .ok v) (hw : U.tags.getItem k = .ok w) :
    S.merge others = .error .assertion := by
  have hI : ∀ T ∈ S :: others, SInv T := fun T hT => reach_sinv (hR T hT)
  have : ¬ NamesDisjoint (S :: others) := by
    unfold NamesDisjoint
    rw [List.pairwise_iff_getElem]
    intro h
    obtain ⟨h1, h2⟩ := List.getElem?_eq_some_iff.1 hi
    obtain ⟨h3, h4⟩ := List.getElem?_eq_some_iff.1 hj
    have := h i j h1 h3 hij k v w
    rw [h2, h4] at this
    exact this hv hw
  unfold SigSet.merge
  rw [mergeTags_conflict hp (fun hc => this ((namesDisjoint_iff hI).1 hc))]

example : exM1.merge [exM1] = .error .assertion := by decide +kernel

/-- If one explored interval fails then `merge` fails with an assertion. -/
theorem merge_fails [One κ] {S : SigSet α κ} {others : List (SigSet α κ)}
    (hR : ∀ T ∈ S :: others, Reach T) (hp : ∀ T ∈ S :: others, Plain T.tags)
    (hr : ∀ T ∈ S :: others, ∀ s ∈ T.runs, 0 < s.rate) {c : List (Sync α κ)} {a b : ℚ} {e : Err}
    (hc : Choice c (S :: others)) (ho : Overlap c a b) (h : mergeOne (S :: others) a b = .error e) :
    S.merge others = .error .assertion := by
  have hI : ∀ T ∈ S :: others, SInv T := fun T hT => reach_sinv (hR T hT)
  unfold SigSet.merge
  by_cases hnd : ((S :: others).flatMap (fun S => S.tags.tags.keys)).Nodup
  · rw [mergeTags_eq hI hp hnd]
    simp only
    have hruns : ∀ T ∈ S :: others, T.runs ≠ [] := by
      intro T hT he
      have : ∀ (c : List (Sync α κ)) (seqs : List (SigSet α κ)), Choice c seqs → T ∈ seqs → ∃ s ∈ c, s ∈ T.runs := by
        intro c seqs hc hS
        unfold Choice at hc
        induction hc with
        | nil => simp at hS
        | @cons s S' _ _ hh _ ih =>
          rcases List.mem_cons.1 hS with rfl | hS
          · exact ⟨s, by simp, hh⟩
          · obtain ⟨s', h3, h4⟩ := ih hS; exact ⟨s', by simp [h3], h4⟩
      obtain ⟨s, _, hs⟩ := this c _ hc hT
      rw [he] at hs; simp at hs
    obtain ⟨d, f, h5, h6⟩ := mergeIntervals_eq (seqs := S :: others) (by simp) hruns
      (fun T hT s hs => (hr T hT s hs).ne')
    obtain ⟨m1, m2⟩ := mem_common_runs (by simp) hI h6
    rw [h5]
    simp only
    cases hm : mapE (fun i : ℚ × ℚ => mergeOne (S :: others) i.1 i.2)
        (common ((S :: others).map (fun S => S.runs.map iv)) d f) with
    | ok rs =>
      obtain ⟨o, _, ho2⟩ := mapE_ok_forall hm _ (m2 c a b hc ho)
      simp only [h] at ho2; simp at ho2
    | error e' =>
      simp only
      obtain ⟨i, hi, he⟩ := mapE_error hm
      obtain ⟨c', hc', _, x2, _, x4⟩ := m1 i hi
      rw [mergeOne_error hI hp hr hc' x2 x4 he]
  · rw [mergeTags_conflict hp hnd]

theorem win_size_eq {s : Sync α κ} (hr : 0 < s.rate) (a b : ℚ) : (s.win a b).size = countIn (window a b) s := by
  rw [Sync.countIn_window hr]; rfl

/-- **C25.** If overlapping runs, one per operand, have the same sampling rate and one of them has no sample at
the start of the overlap, `merge` raises. -/
theorem C25_unsynchronised_raises [One κ] (S : SigSet α κ) (others : List (SigSet α κ))
    (hR : ∀ T ∈ S :: others, Reach T) (hp : ∀ T ∈ S :: others, Plain T.tags)
    (hr : ∀ T ∈ S :: others, ∀ s ∈ T.runs, 0 < s.rate) (c : List (Sync α κ)) (a b rate : ℚ)
    (hc : Choice c (S :: others)) (ho : Overlap c a b) (hsr : SameRate c rate)
    (hun : ∃ s ∈ c, ¬ SampledAt s a) : S.merge others = .error .assertion := by
  have hI : ∀ T ∈ S :: others, SInv T := fun T hT => reach_sinv (hR T hT)
  by_cases h1 : ∃ s ∈ c, (s.win a b).size ≤ 1
  · exact merge_fails hR hp hr hc ho (mergeOne_short hI hp hr hc ho.lo_le ho.le_hi h1)
  · push Not at h1
    refine merge_fails hR hp hr hc ho (mergeOne_unsync hI hp hr hc ho.lo_le ho.le_hi ?_ h1 hsr hun)
    intro he; subst he; cases hc

/-- **C25.** An overlap in which an operand has fewer than two samples makes `merge` raise. -/
theorem C25_short_overlap_raises [One κ] (S : SigSet α κ) (others : List (SigSet α κ))
    (hR : ∀ T ∈ S :: others, Reach T) (hp : ∀ T ∈ S :: others, Plain T.tags)
    (hr : ∀ T ∈ S :: others, ∀ s ∈ T.runs, 0 < s.rate) (c : List (Sync α κ)) (a b : ℚ)
    (hc : Choice c (S :: others)) (ho : Overlap c a b)
    (hsh : ∃ s ∈ c, countIn (window a b) s < 2) : S.merge others = .error .assertion := by
  have hI : ∀ T ∈ S :: others, SInv T := fun T hT => reach_sinv (hR T hT)
  obtain ⟨s, hs, hlt⟩ := hsh
  obtain ⟨T, hT, hsT⟩ := choice_mem hc s hs
  refine merge_fails hR hp hr hc ho (mergeOne_short hI hp hr hc ho.lo_le ho.le_hi ⟨s, hs, ?_⟩)
  rw [win_size_eq (hr T hT s hsT)]; omega

/-- **C25.** An operand without runs makes `merge` raise. -/
theorem C25_empty_operand_raises [One κ] (S : SigSet α κ) (others : List (SigSet α κ))
    (hR : ∀ T ∈ S :: others, Reach T) (hp : ∀ T ∈ S :: others, Plain T.tags)
    (hr : ∀ T ∈ S :: others, ∀ s ∈ T.runs, 0 < s.rate) (he : ∃ T ∈ S :: others, T.runs = []) :
    ∃ e, S.merge others = .error e := by
  have hI : ∀ T ∈ S :: others, SInv T := fun T hT => reach_sinv (hR T hT)
  unfold SigSet.merge
  by_cases hnd : ((S :: others).flatMap (fun S => S.tags.tags.keys)).Nodup
  · rw [mergeTags_eq hI hp hnd]
    simp only
    rw [mergeIntervals_empty he (fun T hT s hs => (hr T hT s hs).ne')]
    exact ⟨_, rfl⟩
  · rw [mergeTags_conflict hp hnd]; exact ⟨_, rfl⟩

/-- **C25.** Overlapping runs with different rates contribute nothing: the runs of the result come from choices
with one rate; and conversely every choice of overlapping runs with one rate contributes a run. -/
theorem C25_rates [One κ] (S R : SigSet α κ) (others : List (SigSet α κ))
    (hR : ∀ T ∈ S :: others, Reach T) (hp : ∀ T ∈ S :: others, Plain T.tags)
    (hr : ∀ T ∈ S :: others, ∀ s ∈ T.runs, 0 < s.rate) (h : S.merge others = .ok R) :
    (∀ r ∈ R.runs, ∃ c b, Choice c (S :: others) ∧ Overlap c r.start b ∧ SameRate c r.rate ∧ Merged r c r.start b) ∧
    (∀ c a b rate, Choice c (S :: others) → Overlap c a b → SameRate c rate → ∃ r ∈ R.runs, Merged r c a b) := by
  obtain ⟨q1, q2, _, _⟩ := merge_runs hR hp hr h
  refine ⟨?_, q2⟩
  intro r hr'
  obtain ⟨c, b, hc, ho, hm⟩ := q1 r hr'
  exact ⟨c, b, hc, ho, hm.rate, hm⟩

/-- **C25.** Nothing else makes `merge` raise: with disjoint names, operands with runs of at least two samples,
at least two samples of each operand in every overlap and same-rate overlaps synchronised at their start,
`merge` succeeds. -/
theorem C25_succeeds [One κ] (S : SigSet α κ) (others : List (SigSet α κ))
    (hR : ∀ T ∈ S :: others, Reach T) (hp : ∀ T ∈ S :: others, Plain T.tags)
    (hr : ∀ T ∈ S :: others, ∀ s ∈ T.runs, 0 < s.rate)
    (hnames : NamesDisjoint (S :: others)) (hruns : ∀ T ∈ S :: others, T.runs ≠ [])
    (hsize : ∀ T ∈ S :: others, ∀ s ∈ T.runs, 2 ≤ s.size)
    (hov : ∀ c a b, Choice c (S :: others) → Overlap c a b → ∀ s ∈ c, 2 ≤ countIn (window a b) s)
    (hsync : ∀ c a b rate, Choice c (S :: others) → Overlap c a b → SameRate c rate → ∀ s ∈ c, SampledAt s a) :
    ∃ R, S.merge others = .ok R := by
  have hI : ∀ T ∈ S :: others, SInv T := fun T hT => reach_sinv (hR T hT)
  have hnd := (namesDisjoint_iff hI).2 hnames
  obtain ⟨ivs, h1, h2, h3, _, h5⟩ := C23_intervals (S :: others) (by simp) hR hr hruns
  have hlt := h5 hsize
  have hcne : ∀ c : List (Sync α κ), Choice c (S :: others) → c ≠ [] := by
    intro c hc he; subst he; cases hc
  have hone : ∀ i ∈ ivs, ∃ o, mergeOne (S :: others) i.1 i.2 = .ok o ∧
      ∀ r, o = some r → r.start = i.1 ∧ lastTime r ≤ i.2 ∧ r.rate ≠ 0 ∧
        r.data.length = ((S :: others).map nbChannels).sum := by
    rintro ⟨a, b⟩ hi
    obtain ⟨c, hc, ho⟩ := (h2 a b (hlt _ hi)).1 hi
    have hcw : ∀ s ∈ c, WF s ∧ 0 < s.rate := by
      intro s hs
      obtain ⟨T, hT, hsT⟩ := choice_mem hc s hs
      exact ⟨(hI T hT).ok.wf s hsT, hr T hT s hsT⟩
    have hsz : ∀ s ∈ c, 1 < (s.win a b).size := by
      intro s hs
      rw [win_size_eq (hcw s hs).2]; exact hov c a b hc ho s hs
    by_cases hsr : ∃ rate, SameRate c rate
    · obtain ⟨rate, hsr⟩ := hsr
      refine ⟨_, mergeOne_ok hI hp hr hc ho.lo_le ho.le_hi (hcne c hc) hsz hsr (hsync c a b rate hc ho hsr), ?_⟩
      intro r hr'
      simp only [Option.some.injEq] at hr'
      subst hr'
      obtain ⟨s, hs⟩ := List.exists_mem_of_ne_nil _ (hcne c hc)
      have hrate : 0 < rate := by rw [← hsr s hs]; exact (hcw s hs).2
      refine ⟨rfl, ?_, hrate.ne', ?_⟩
      · have hab := ho.lt
        have hfl : (0 : Int) ≤ ⌊(b - a) * rate⌋ := by
          rw [Int.floor_nonneg]
          exact mul_nonneg (by linarith) hrate.le
        rw [Sync.lastTime_eq (by simp; omega)]
        unfold sampleTime
        simp only
        have e1 : (((⌊(b - a) * rate⌋ + 1).toNat - 1 : Nat) : ℚ) = (⌊(b - a) * rate⌋ : ℚ) := by
          have : (((⌊(b - a) * rate⌋ + 1).toNat - 1 : Nat) : Int) = ⌊(b - a) * rate⌋ := by omega
          exact_mod_cast this
        rw [e1]
        have e2 : ((⌊(b - a) * rate⌋ : ℚ)) ≤ (b - a) * rate := Int.floor_le _
        have e3 : (⌊(b - a) * rate⌋ : ℚ) / rate ≤ b - a := by rw [div_le_iff₀ hrate]; exact e2
        linarith
      · simp only [List.length_flatMap]
        have : ∀ (c : List (Sync α κ)) (seqs : List (SigSet α κ)), Choice c seqs → (∀ T ∈ seqs, SInv T) →
            (c.map (fun s => (s.win a b).data.length)).sum = (seqs.map nbChannels).sum := by
          intro c seqs hc hI
          unfold Choice at hc
          induction hc with
          | nil => rfl
          | @cons s T c seqs h1 h2 ih =>
            simp only [List.map_cons, List.sum_cons]
            rw [ih (fun T hT => hI T (by simp [hT])), nbChannels_eq (hI T (by simp)) h1]
            simp [Sync.win, Sync.cut]
        exact this c _ hc hI
    · exact ⟨none, mergeOne_rates hI hp hr hc ho.lo_le ho.le_hi hsz hsr, by simp⟩
  -- collect
  have hcol : ∀ ivs' : List (ℚ × ℚ), (∀ i ∈ ivs', i ∈ ivs) → ivs'.Pairwise (fun i j => i.2 ≤ j.1) →
      ∃ rs, mapE (fun i : ℚ × ℚ => mergeOne (S :: others) i.1 i.2) ivs' = .ok rs ∧
        (∀ r ∈ rs.filterMap id, ∃ i ∈ ivs', r.start = i.1 ∧ lastTime r ≤ i.2 ∧ r.rate ≠ 0 ∧
          r.data.length = ((S :: others).map nbChannels).sum) ∧
        (rs.filterMap id).Pairwise (fun a b => a.start ≤ b.start ∧ lastTime a ≤ b.start) := by
    intro ivs'
    induction ivs' with
    | nil => intro _ _; exact ⟨[], rfl, by simp, by simp⟩
    | cons i ivs' ih =>
      intro hmem hpw
      obtain ⟨p1, p2⟩ := List.pairwise_cons.1 hpw
      obtain ⟨rs, e1, e2, e3⟩ := ih (fun i hi => hmem i (by simp [hi])) p2
      obtain ⟨o, o1, o2⟩ := hone i (hmem i (by simp))
      refine ⟨o :: rs, by simp only [mapE, o1, e1], ?_, ?_⟩
      · intro r hr'
        cases o with
        | none =>
          simp only [List.filterMap_cons, id] at hr'
          obtain ⟨i', hi', h6⟩ := e2 r hr'
          exact ⟨i', by simp [hi'], h6⟩
        | some r0 =>
          simp only [List.filterMap_cons, id, List.mem_cons] at hr'
          rcases hr' with rfl | hr'
          · exact ⟨i, by simp, o2 r rfl⟩
          · obtain ⟨i', hi', h6⟩ := e2 r hr'
            exact ⟨i', by simp [hi'], h6⟩
      · cases o with
        | none => simpa using e3
        | some r0 =>
          simp only [List.filterMap_cons, id]
          refine List.pairwise_cons.2 ⟨?_, e3⟩
          intro r hr'
          obtain ⟨i', hi', h6, _⟩ := e2 r hr'
          obtain ⟨q1, q2, _⟩ := o2 r0 rfl
          have := p1 i' hi'
          have := hlt i (hmem i (by simp))
          constructor <;> linarith
  obtain ⟨rs, e1, e2, e3⟩ := hcol ivs (fun i hi => hi) h3
  have hpt : Plain (⟨((S :: others).map nbChannels).sum, mergedEntries 0 (S :: others)⟩ : Tags) := by
    intro k hk
    rw [Tags.getItem_error]
    change k ∉ (mergedEntries 0 (S :: others)).keys
    rw [mergedEntries_keys]
    intro hmem'
    obtain ⟨T, hT, hkT⟩ := List.mem_flatMap.1 hmem'
    exact plain_not_mem (hp T hT) hk hkT
  have hmt := mergeTags_eq hI hp hnd
  have hti := mergeTags_inv hmt
  obtain ⟨m, hb, _⟩ := build_of (n := ((S :: others).map nbChannels).sum) hti hpt
    (e3.imp (fun h => h.1)) (e3.imp (fun h => h.2))
    (fun r hr' => by obtain ⟨_, _, _, _, h6, _⟩ := e2 r hr'; exact h6)
    (fun r hr' => by obtain ⟨_, _, _, _, _, h6⟩ := e2 r hr'; exact h6)
    (fun _ => ⟨by
      obtain ⟨s, hs⟩ := List.exists_mem_of_ne_nil _ (hruns S (by simp))
      have hw := (hI S (by simp)).ok.wf s hs
      have := List.length_pos_iff.2 hw.nonempty
      rw [List.map_cons, List.sum_cons, nbChannels_eq (hI S (by simp)) hs]
      omega, le_rfl⟩)
  refine ⟨⟨rs.filterMap id, ⟨m, mergedEntries 0 (S :: others)⟩⟩, ?_⟩
  unfold SigSet.merge
  rw [hmt, h1]
  simp only [e1]
  exact hb

/-! Cases meeting the hypotheses. -/

theorem choice_exM {c : List (Sync Int ℚ)} (hc : Choice c [exM1, exM2]) :
    ∃ s, s ∈ exM1.runs ∧ c = [s, ⟨[[10, 20, 30, 40, 50, 60], [0, 0, 1, 1, 2, 2]], [1, 2], 1, 1, 6⟩] := by
  unfold Choice at hc
  cases hc with
  | @cons s _ l _ h1 h2 =>
    cases h2 with
    | @cons s' _ l' _ h3 h4 =>
      cases h4
      simp [exM2] at h3
      subst h3
      exact ⟨s, h1, rfl⟩

/-- The hypotheses of `C25_succeeds` hold for `exM1`, `exM2` (whose merge is computed above). -/
example : NamesDisjoint [exM1, exM2] ∧ (∀ T ∈ [exM1, exM2], T.runs ≠ []) ∧
    (∀ T ∈ [exM1, exM2], ∀ s ∈ T.runs, 2 ≤ s.size) ∧
    (∀ c a b, Choice c [exM1, exM2] → Overlap c a b → ∀ s ∈ c, 2 ≤ countIn (window a b) s) ∧
    (∀ c a b rate, Choice c [exM1, exM2] → Overlap c a b → SameRate c rate → ∀ s ∈ c, SampledAt s a) := by
  have key : ∀ c a b, Choice c [exM1, exM2] → Overlap c a b →
      (c = [⟨[[1, 2, 3, 4]], [1], 1, 0, 4⟩, ⟨[[10, 20, 30, 40, 50, 60], [0, 0, 1, 1, 2, 2]], [1, 2], 1, 1, 6⟩] ∧
        a = 1 ∧ b = 3) ∨
      (c = [⟨[[5, 6, 7]], [1], 1, 5, 3⟩, ⟨[[10, 20, 30, 40, 50, 60], [0, 0, 1, 1, 2, 2]], [1, 2], 1, 1, 6⟩] ∧
        a = 5 ∧ b = 6) := by
    intro c a b hc ho
    obtain ⟨s, hs, rfl⟩ := choice_exM hc
    simp only [exM1, List.mem_cons, List.not_mem_nil, or_false] at hs
    rcases hs with rfl | rfl
    · left
      refine ⟨rfl, SigSet.Overlap.unique ho ⟨?_, ?_, ?_, ?_, by norm_num⟩⟩ <;>
        simp [lastTime] <;> norm_num
    · right
      refine ⟨rfl, SigSet.Overlap.unique ho ⟨?_, ?_, ?_, ?_, by norm_num⟩⟩ <;>
        simp [lastTime] <;> norm_num
  refine ⟨?_, by simp [exM1, exM2], by simp [exM1, exM2], ?_, ?_⟩
  · unfold NamesDisjoint
    simp only [List.pairwise_cons, List.mem_cons, List.not_mem_nil, or_false, forall_eq]
    refine ⟨?_, by simp⟩
    intro k v w h1 h2
    have h1' := Dict.mem_of_get? (Tags.getItem_ok.1 h1)
    have h2' := Dict.mem_of_get? (Tags.getItem_ok.1 h2)
    simp [exM1] at h1'
    simp [exM2] at h2'
    exact absurd (h1'.1.symm.trans h2'.1) (by decide)
  · intro c a b hc ho
    rcases key c a b hc ho with ⟨rfl, rfl, rfl⟩ | ⟨rfl, rfl, rfl⟩ <;> decide +kernel
  · intro c a b rate hc ho _
    rcases key c a b hc ho with ⟨rfl, rfl, rfl⟩ | ⟨rfl, rfl, rfl⟩
    · intro s hs
      simp only [List.mem_cons, List.not_mem_nil, or_false] at hs
      rcases hs with rfl | rfl
      · exact ⟨1, by decide, by norm_num [sampleTime]⟩
      · exact ⟨0, by decide, by norm_num [sampleTime]⟩
    · intro s hs
      simp only [List.mem_cons, List.not_mem_nil, or_false] at hs
      rcases hs with rfl | rfl
      · exact ⟨0, by decide, by norm_num [sampleTime]⟩
      · exact ⟨4, by decide, by norm_num [sampleTime]⟩

/-- Same rate, shifted by half a period: the hypotheses of `C25_unsynchronised_raises`. -/
example :
    let u : Sync Int ℚ := ⟨[[10, 20, 30]], [1], 1, 1/2, 3⟩
    let c : List (Sync Int ℚ) := [⟨[[1, 2, 3, 4]], [1], 1, 0, 4⟩, u]
    Choice c [exM1, ⟨[u], ⟨1, [("H", [0])]⟩⟩] ∧ Overlap c (1/2) (5/2) ∧ SameRate c 1 ∧ (∃ s ∈ c, ¬ SampledAt s (1/2)) ∧
    exM1.merge [⟨[u], ⟨1, [("H", [0])]⟩⟩] = .error .assertion := by
  intro u c
  refine ⟨.cons (by simp [exM1]) (.cons (by simp) .nil), ⟨?_, ?_, ?_, ?_, by norm_num⟩, ?_, ?_, by decide +kernel⟩
  · simp [c, u]
  · simp [c, u]
  · simp [c, u, lastTime]; norm_num
  · simp [c, u, lastTime]; norm_num
  · simp [c, u, SameRate]
  · refine ⟨_, List.mem_cons_self, ?_⟩
    rintro ⟨i, _, h⟩
    simp only [sampleTime] at h
    have : (2 * i : ℚ) = 1 := by linarith
    have : 2 * i = 1 := by exact_mod_cast this
    omega

/-- An overlap with one sample: the hypotheses of `C25_short_overlap_raises`. -/
example :
    let u : Sync Int ℚ := ⟨[[10, 20]], [1], 1, 5/2, 2⟩
    let c : List (Sync Int ℚ) := [⟨[[1, 2, 3, 4]], [1], 1, 0, 4⟩, u]
    Overlap c (5/2) 3 ∧ (∃ s ∈ c, countIn (window (5/2) 3) s < 2) ∧
    exM1.merge [⟨[u], ⟨1, [("H", [0])]⟩⟩] = .error .assertion := by
  intro u c
  refine ⟨⟨?_, ?_, ?_, ?_, by norm_num⟩, ⟨_, List.mem_cons_self, by decide +kernel⟩, by decide +kernel⟩
  · simp [c, u]
  · simp [c, u]; norm_num
  · simp [c, u, lastTime]; norm_num
  · simp [c, u, lastTime]; norm_num

/-- Different rates: an empty result, not an error. -/
example : exM1.merge [⟨[⟨[[10, 20, 30, 40, 50, 60, 70]], [1], 2, 0, 7⟩], ⟨1, [("H", [0])]⟩⟩] =
    .ok ⟨[], ⟨2, [("E", [0]), ("H", [1])]⟩⟩ := by decide +kernel

end Razorback.Props
