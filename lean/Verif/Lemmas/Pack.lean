/-
Packing an inventory: provenance of the data.
-/
import Verif.Lemmas.Inventory

namespace Razorback
open Razorback.Spec Razorback.SigSet
variable {α κ : Type _}

theorem Spec.Traced.trans {src mid : List (SigSet α κ)} {S : SigSet α κ} (h : ∀ T ∈ mid, Traced src T)
    (hS : Traced mid S) : Traced src S := by
  constructor
  · intro r hr
    obtain ⟨T, hT, s, hs, e, i, hi⟩ := hS.rate r hr
    obtain ⟨U, hU, u, hu, e', i', hi'⟩ := (h T hT).rate s hs
    refine ⟨U, hU, u, hu, e'.trans e, i + i', ?_⟩
    rw [hi, hi', e']
    unfold sampleTime
    push_cast
    ring
  · intro r hr k j c hc
    obtain ⟨T, hT, s, hs, e, c', hc', h1, h2⟩ := hS.chan r hr k j c hc
    obtain ⟨U, hU, u, hu, e', c2, hc2, h3, h4⟩ := (h T hT).chan s hs k j c' hc'
    exact ⟨U, hU, u, hu, e'.trans e, c2, hc2, h1.trans h3, h2.trans h4⟩

theorem Spec.Traced.mono {src src' : List (SigSet α κ)} {S : SigSet α κ} (h : ∀ T ∈ src, T ∈ src')
    (hS : Traced src S) : Traced src' S := by
  constructor
  · intro r hr
    obtain ⟨T, hT, s, hs, e⟩ := hS.rate r hr
    exact ⟨T, h T hT, s, hs, e⟩
  · intro r hr k j c hc
    obtain ⟨T, hT, rest⟩ := hS.chan r hr k j c hc
    exact ⟨T, h T hT, rest⟩

theorem Spec.Traced.refl {src : List (SigSet α κ)} {S : SigSet α κ} (h : S ∈ src) : Traced src S :=
  ⟨fun r hr => ⟨S, h, r, hr, rfl, 0, by simp [sampleTime]⟩, fun r hr _ _ c hc => ⟨S, h, r, hr, rfl, c, hc, .refl _, rfl⟩⟩

/-- Runs that are runs of `T` under tags that have the same values. -/
theorem Spec.Traced.of_sub {T S : SigSet α κ} (hr : ∀ r ∈ S.runs, r ∈ T.runs) (ht : SameTags S.tags T.tags) :
    Traced [T] S := by
  constructor
  · intro r h; exact ⟨T, by simp, r, hr r h, rfl, 0, by simp [sampleTime]⟩
  · intro r h k j c hc
    refine ⟨T, by simp, r, hr r h, rfl, c, ?_, .refl _, rfl⟩
    unfold designated at hc ⊢
    rw [← ht k]; exact hc

theorem plain_of_names {t t' : Tags} (h : ∀ k, (∃ v, t'.getItem k = .ok v) → ∃ v, t.getItem k = .ok v)
    (hp : Plain t) : Plain t' := by
  intro k hk
  cases hg : t'.getItem k with
  | ok v =>
    obtain ⟨w, hw⟩ := h k ⟨v, hg⟩
    rw [hp k hk] at hw; simp at hw
  | error e =>
    unfold Tags.getItem at hg
    split at hg <;> simp at hg
    rw [← hg]

theorem plain_sameTags {t t' : Tags} (h : SameTags t' t) (hp : Plain t) : Plain t' := by
  intro k hk
  rw [h k]; exact hp k hk

/-- A choice of runs by a mask. -/
theorem regular_selectRuns [One κ] {S R : SigSet α κ} (hS : Regular S) {m : List Bool}
    (h : S.selectRuns (.mask m) = .ok R) :
    Regular R ∧ SameTags R.tags S.tags ∧
      (∀ (r : Sync α κ), r ∈ R.runs ↔ ∃ i : Nat, m[i]? = some true ∧ S.runs[i]? = some r) ∧ (∀ r ∈ R.runs, r ∈ S.runs) := by
  have hok : RunOK S.runs.length (.mask m) := by
    by_contra hn
    rw [Props.C18_rejects S _ hn] at h; simp at h
  obtain ⟨R', idx, h1, h2, h3, h4, h5, h6⟩ := Props.C18_select_runs_increasing S hS.reach hS.plain (.mask m) hok trivial
  rw [h] at h1; simp at h1; subst h1
  have hmem : ∀ r, r ∈ R.runs ↔ ∃ i : Nat, m[i]? = some true ∧ S.runs[i]? = some r := by
    intro r
    rw [h4, List.mem_filterMap]
    constructor
    · rintro ⟨i, hi, e⟩; exact ⟨i, (h3 i).1 hi, e⟩
    · rintro ⟨i, hi, e⟩; exact ⟨i, (h3 i).2 hi, e⟩
  have hsub : ∀ r ∈ R.runs, r ∈ S.runs := by
    intro r hr
    obtain ⟨i, _, hi⟩ := (hmem r).1 hr
    exact List.mem_of_getElem? hi
  exact ⟨⟨.selectRuns _ hS.reach h, plain_sameTags h6 hS.plain, fun r hr => hS.rate r (hsub r hr),
    fun r hr => hS.size r (hsub r hr)⟩, h6, hmem, hsub⟩

theorem forall₂_mem_left {β γ : Type _} {R : β → γ → Prop} {l : List β} {l' : List γ} (h : List.Forall₂ R l l') :
    ∀ b ∈ l, ∃ c ∈ l', R b c := by
  induction h with
  | nil => simp
  | cons h1 _ ih =>
    intro b hb
    rcases List.mem_cons.1 hb with rfl | hb
    · exact ⟨_, by simp, h1⟩
    · obtain ⟨c, hc, hr⟩ := ih b hb
      exact ⟨c, by simp [hc], hr⟩

theorem regular_selectChannels [One κ] {S R : SigSet α κ} (hS : Regular S) {sel : ChanSel}
    (h : S.selectChannels sel = .ok R) :
    Regular R ∧ Traced [S] R ∧ (∀ k, HasTag R k → HasTag S k) := by
  have hk : SelKnown S.tags S.nbChannels sel := by
    by_contra hn
    rw [Props.C16_unknown_raises S hS.reach hS.plain sel hn] at h; simp at h
  have hne : S.runs ≠ [] → ∃ i, SelDesig S.tags S.nbChannels sel i := by
    intro hr
    by_contra hn
    obtain ⟨e, he⟩ := Props.C16_nothing_raises S hS.reach hS.plain sel hr hn
    rw [he] at h; simp at h
  obtain ⟨R', idx, h1, h2, h3, h4, h5, h6⟩ := Props.C16_select_channels S hS.reach hS.plain sel hk hne
  rw [h] at h1; simp at h1; subst h1
  have hnames : ∀ k, HasTag R k → HasTag S k := by
    intro k hk
    obtain ⟨v, hv, _⟩ := (h5 k).1 hk
    exact ⟨v, hv⟩
  have hrun := forall₂_mem_left h4
  refine ⟨⟨.selectChannels _ hS.reach h, plain_of_names hnames hS.plain, ?_, ?_⟩, ⟨?_, ?_⟩, hnames⟩
  · intro r hr
    obtain ⟨s, hs, e, _⟩ := hrun r hr
    rw [e]; exact hS.rate s hs
  · intro r hr
    obtain ⟨s, hs, _, _, e, _⟩ := hrun r hr
    rw [e]; exact hS.size s hs
  · intro r hr
    obtain ⟨s, hs, e, e2, _⟩ := hrun r hr
    exact ⟨S, by simp, s, hs, e.symm, 0, by simp [sampleTime, e2]⟩
  · intro r hr k j c hc
    have hw : ∃ w, R.tags.getItem k = .ok w := by
      unfold designated at hc
      split at hc
      · rename_i v hv; exact ⟨v, hv⟩
      · simp at hc
    obtain ⟨w, hw⟩ := hw
    have hboth : List.Forall₂ (fun r s => r.rate = s.rate ∧ ∀ j, designated R.tags r k j = designated S.tags s k j)
        R.runs S.runs := by
      have a := h6 k w hw
      have h4' := h4
      clear h6 hrun h4
      generalize R.runs = l at a h4'
      generalize S.runs = l' at a h4'
      induction h4' with
      | nil => exact .nil
      | cons hh _ ih => cases a with
        | cons b b' => exact .cons ⟨hh.1, b⟩ (ih b')
    obtain ⟨s, hs, e, hd⟩ := forall₂_mem_left hboth r hr
    exact ⟨S, by simp, s, hs, e.symm, c, by rw [← hd]; exact hc, .refl _, rfl⟩

theorem regular_joinAll [One κ] {l : List (SigSet α κ)} (hl : ∀ S ∈ l, Regular S) {R : SigSet α κ}
    (h : Inventory.joinAll l = .ok R) :
    Regular R ∧ Traced l R ∧ (∀ S ∈ l.head?, SameTags R.tags S.tags) ∧
      (∀ S ∈ l, ∀ s ∈ S.runs, ∃ r ∈ R.runs, SameRun R.tags r S.tags s) := by
  cases l with
  | nil => simp [Inventory.joinAll] at h
  | cons S l =>
    simp only [Inventory.joinAll] at h
    have hS := hl S (by simp)
    have hA : ∀ T, SigArg.set T ∈ l.map (SigArg.set (α := α) (κ := κ)) → Reach T := by
      intro T hT
      simp at hT
      exact (hl T (by simp [hT])).reach
    obtain ⟨ht, hruns⟩ := Props.C14_join_by_tag S R _ hS.reach hA h
    obtain ⟨k1, k2, _⟩ := Props.C14_join_keeps_runs S R _ hS.reach hA h
    have hsrc : ∀ r ∈ R.runs, ∃ T ∈ S :: l, ∃ s ∈ T.runs, SameRun R.tags r T.tags s := by
      intro r hr
      rcases hruns r hr with ⟨s, hs, e⟩ | ⟨T, hT, s, hs, e⟩ | ⟨s, hs, e⟩
      · exact ⟨S, by simp, s, hs, e⟩
      · simp at hT
        exact ⟨T, by simp [hT], s, hs, e⟩
      · simp at hs
    refine ⟨⟨.join _ hS.reach (by simp) hA h, plain_sameTags ht hS.plain, ?_, ?_⟩, ⟨?_, ?_⟩, by simpa using ht, ?_⟩
    · intro r hr
      obtain ⟨T, hT, s, hs, e⟩ := hsrc r hr
      rw [e.rate]; exact (hl T hT).rate s hs
    · intro r hr
      obtain ⟨T, hT, s, hs, e⟩ := hsrc r hr
      rw [e.size]; exact (hl T hT).size s hs
    · intro r hr
      obtain ⟨T, hT, s, hs, e⟩ := hsrc r hr
      exact ⟨T, hT, s, hs, e.rate.symm, 0, by simp [sampleTime, e.start]⟩
    · intro r hr k j c hc
      obtain ⟨T, hT, s, hs, e⟩ := hsrc r hr
      exact ⟨T, hT, s, hs, e.rate.symm, c, by rw [← e.chans]; exact hc, .refl _, rfl⟩
    · intro T hT s hs
      rcases List.mem_cons.1 hT with rfl | hT
      · exact k1 s hs
      · exact k2 T (by simpa using hT) s hs

theorem mergeOne_size [One κ] {seqs : List (SigSet α κ)} {a b : ℚ} {r : Sync α κ}
    (h : mergeOne seqs a b = .ok (some r)) (hne : seqs ≠ []) : 2 ≤ r.size := by
  unfold mergeOne at h
  split at h
  · simp at h
  · rename_i sets hsets
    split at h
    · rename_i hone
      dsimp only at h
      split at h
      · split at h
        · split at h
          · simp at h
          · rename_i s hs
            simp at h; subst h
            cases seqs with
            | nil => exact absurd rfl hne
            | cons S seqs =>
              have hl := mapE_length hsets
              cases sets with
              | nil => simp at hl
              | cons T sets =>
                simp only [List.all_cons, Bool.and_eq_true, beq_iff_eq] at hone
                obtain ⟨t, ht⟩ := List.length_eq_one_iff.1 hone.1
                rw [mapE_ok] at hsets
                cases hsets with
                | cons hT _ =>
                  have htm : t ∈ T.runs := by rw [ht]; simp
                  have hwf : WF t := (extractIn_sinv hT).ok.wf t htm
                  have hsz : 1 < t.size := by
                    unfold extractIn at hT
                    split at hT
                    · simp at hT
                    · rw [(build_iff.1 hT).2.2.2.1, mem_sortRuns, List.mem_filter] at htm
                      simpa using htm.2
                  obtain ⟨d, hd⟩ := List.exists_mem_of_ne_nil _ hwf.nonempty
                  obtain ⟨h1, h2, _⟩ := Sync.new_ok hs
                  have hdr : d ∈ s.data := by
                    rw [h2, List.flatMap_cons, ht]
                    simp [hd]
                  have e1 := h1.rect d hdr
                  have e2 := hwf.rect d hd
                  omega
        · simp at h
      · simp at h
    · simp at h

theorem designated_some {t : Tags} {r : Sync α κ} {k : String} {j : Nat} {c : List (ℚ × α) × κ}
    (h : designated t r k j = some c) : ∃ v, t.getItem k = .ok v := by
  unfold designated at h
  split at h
  · rename_i v hv; exact ⟨v, hv⟩
  · simp at h

theorem regular_merge [One κ] {S R : SigSet α κ} {others : List (SigSet α κ)} (hl : ∀ T ∈ S :: others, Regular T)
    (h : S.merge others = .ok R) :
    Regular R ∧ Traced (S :: others) R ∧ (∀ k, HasTag R k ↔ ∃ T ∈ S :: others, HasTag T k) := by
  have hR := fun T hT => (hl T hT).reach
  have hp := fun T hT => (hl T hT).plain
  have hr := fun T hT => (hl T hT).rate
  have hnames := Props.C22_merge_names S R others hR hp hr h
  have hruns := Props.C22_merge_tags S R others hR hp hr h
  have hrate : ∀ r ∈ R.runs, ∃ T ∈ S :: others, ∃ s ∈ T.runs, s.rate = r.rate ∧
      ∃ i : Nat, r.start = sampleTime s.rate s.start i := by
    intro r hr'
    obtain ⟨c, b, hc, ho, hm, _⟩ := hruns r hr'
    obtain ⟨s, hs, hst⟩ := ho.lo
    obtain ⟨T, hT, hsT⟩ := forall₂_mem_left hc s hs
    exact ⟨T, hT, s, hsT, hm.rate s hs, 0, by simp [sampleTime, hst]⟩
  refine ⟨⟨.merge others (hR S (by simp)) (fun T hT => hR T (by simp [hT])) h, ?_, ?_, ?_⟩, ⟨hrate, ?_⟩, hnames⟩
  · intro k hk
    cases hg : R.tags.getItem k with
    | ok v =>
      obtain ⟨T, hT, w, hw⟩ := (hnames k).1 ⟨v, hg⟩
      rw [hp T hT k hk] at hw; simp at hw
    | error e =>
      unfold Tags.getItem at hg
      split at hg <;> simp at hg
      rw [← hg]
  · intro r hr'
    obtain ⟨T, hT, s, hs, e, _⟩ := hrate r hr'
    rw [← e]; exact hr T hT s hs
  · intro r hr'
    have hm := h
    unfold merge at hm
    split at hm
    · simp at hm
    · split at hm
      · simp at hm
      · split at hm
        · simp at hm
        · rename_i rs hrs
          rw [(build_iff.1 hm).2.2.2.1, mem_sortRuns, List.mem_filterMap] at hr'
          obtain ⟨o, ho, e⟩ := hr'
          obtain ⟨i, _, hi⟩ := mapE_ok_exists hrs o ho
          simp only [id] at e; subst e
          exact mergeOne_size hi (by simp)
  · intro r hr' k j c0 hc0
    obtain ⟨c, b, hc, ho, hm, hd⟩ := hruns r hr'
    obtain ⟨T, hT, v, hv⟩ := (hnames k).1 (designated_some hc0)
    obtain ⟨i, hi⟩ := List.mem_iff_getElem?.1 hT
    have hlen := hc.length_eq
    have hil : i < (S :: others).length := (List.getElem?_eq_some_iff.1 hi).1
    have hci : c[i]? = some c[i] := List.getElem?_eq_getElem (by omega)
    obtain ⟨_, hdj⟩ := hd i T _ k v hi hci hv
    rw [hdj j] at hc0
    have hs : c[i] ∈ T.runs := by
      have := List.Forall₂.get hc (i := i) (by omega) hil
      have hT' : T = (S :: others)[i] := (List.getElem?_eq_some_iff.1 hi).2.symm
      rw [hT']; exact this
    cases hds : designated T.tags c[i] k j with
    | none => rw [hds] at hc0; simp at hc0
    | some c' =>
      rw [hds] at hc0
      simp only [Option.map_some, Option.some.injEq] at hc0
      subst hc0
      exact ⟨T, hT, _, hs, hm.rate _ (List.getElem_mem _), c', hds, List.filter_sublist, rfl⟩

namespace Inventory

theorem selectIn_inv [Rnd] [One κ] {keys : List String} {S : SigSet α κ} {R : SigSet α κ}
    (h : selectIn keys S = .ok (some R)) : ∃ sel, S.selectChannels sel = .ok R := by
  unfold selectIn at h
  split at h
  · simp at h
  · split at h
    · simp at h
    · split at h
      · simp at h
      · rename_i hs
        simp at h; subst h
        exact ⟨_, hs⟩

theorem selectChannels_inv [Rnd] [One κ] {I J : Inventory α κ} {keys : List String} (h : I.selectChannels keys = .ok J) :
    ∀ R ∈ J, ∃ S ∈ I, ∃ sel, S.selectChannels sel = .ok R := by
  unfold selectChannels at h
  split at h
  · simp at h
  · rename_i l hl
    rw [new_set] at h
    simp only [Except.ok.injEq] at h; subst h
    intro R hR
    obtain ⟨o, ho, e⟩ := List.mem_filterMap.1 hR
    have e : o = some R := e
    subst e
    obtain ⟨S, hS, hs⟩ := mapE_ok_exists hl _ ho
    exact ⟨S, hS, selectIn_inv hs⟩

theorem regular_select [One κ] {I J : Inventory α κ} (hI : ∀ S ∈ I, Regular S) {keys : List String}
    (h : I.selectChannels keys = .ok J) :
    ∀ R ∈ J, Regular R ∧ Traced I R ∧ (∀ k, HasTag R k → ∃ S ∈ I, HasTag S k) := by
  intro R hR
  obtain ⟨S, hS, sel, hs⟩ := selectChannels_inv h R hR
  obtain ⟨h1, h2, h3⟩ := regular_selectChannels (hI S hS) hs
  exact ⟨h1, h2.mono (by simpa using hS), fun k hk => ⟨S, hS, h3 k hk⟩⟩

theorem regular_groupSet [One κ] {I : Inventory α κ} (hI : ∀ S ∈ I, Regular S) {keys : List String} {R : SigSet α κ}
    (h : groupSet I keys = .ok R) : Regular R ∧ Traced I R ∧ (∀ k, HasTag R k → ∃ S ∈ I, HasTag S k) := by
  unfold groupSet at h
  split at h
  · simp at h
  · rename_i J hJ
    have hsel := regular_select hI hJ
    obtain ⟨h1, h2, h3, _⟩ := regular_joinAll (fun S hS => (hsel S hS).1) h
    refine ⟨h1, h2.trans (fun S hS => (hsel S hS).2.1), ?_⟩
    intro k hk
    cases J with
    | nil => simp [joinAll] at h
    | cons T J =>
      obtain ⟨v, hv⟩ := hk
      rw [h3 T (by simp) k] at hv
      exact (hsel T (by simp)).2.2 k ⟨v, hv⟩

/-- The empty signal set. -/
theorem new_empty [One κ] : SigSet.new (α := α) (κ := κ) (.dict []) [] = .ok ⟨[], ⟨0, []⟩⟩ := rfl

theorem regular_joinMerge [One κ] {o : SetOrder} {I : Inventory α κ} (hI : ∀ S ∈ I, Regular S) {R : SigSet α κ}
    (h : I.joinMerge o = .ok R) : Regular R ∧ Traced I R ∧ (∀ k, HasTag R k → ∃ S ∈ I, HasTag S k) := by
  unfold joinMerge at h
  split at h
  · rw [new_empty] at h
    simp at h; subst h
    have hr : Reach (⟨[], ⟨0, []⟩⟩ : SigSet α κ) := .new (.dict []) [] (by simp) (by simp) new_empty
    refine ⟨⟨hr, fun k _ => rfl, by simp, by simp⟩, ⟨by simp, by simp⟩, ?_⟩
    rintro k ⟨v, hv⟩
    simp [Tags.getItem, Dict.get?] at hv
  · split at h
    · simp at h
    · simp at h
    · rename_i a ha
      simp at h; subst h
      obtain ⟨g, _, hg⟩ := mapE_ok_exists ha a (by simp)
      exact regular_groupSet hI hg
    · rename_i a others _ ha
      have hall : ∀ T ∈ a :: others, Regular T ∧ Traced I T ∧ (∀ k, HasTag T k → ∃ S ∈ I, HasTag S k) := by
        intro T hT
        obtain ⟨g, _, hg⟩ := mapE_ok_exists ha T hT
        exact regular_groupSet hI hg
      obtain ⟨h1, h2, h3⟩ := regular_merge (fun T hT => (hall T hT).1) h
      refine ⟨h1, h2.trans (fun T hT => (hall T hT).2.1), ?_⟩
      intro k hk
      obtain ⟨T, hT, hk'⟩ := (h3 k).1 hk
      exact (hall T hT).2.2 k hk'

theorem regular_rateSet [One κ] {o : SetOrder} {I : Inventory α κ} (hI : ∀ S ∈ I, Regular S) {f0 : ℚ} {R : SigSet α κ}
    (h : I.rateSet o f0 = .ok R) :
    Regular R ∧ Traced I R ∧ (∀ k, HasTag R k → ∃ S ∈ I, HasTag S k) ∧ ∀ r ∈ R.runs, r.rate = f0 := by
  unfold rateSet at h
  split at h
  · simp at h
  · rename_i J hJ
    have hsel : ∀ T ∈ J, Regular T ∧ Traced I T ∧ (∀ k, HasTag T k → ∃ S ∈ I, HasTag S k) ∧ ∀ r ∈ T.runs, r.rate = f0 := by
      unfold selectRuns at hJ
      split at hJ
      · simp at hJ
      · split at hJ
        · simp at hJ
        · rename_i l hl
          rw [new_set] at hJ
          simp only [Except.ok.injEq] at hJ; subst hJ
          intro T hT
          obtain ⟨p, hp, hs⟩ := mapE_ok_exists hl T (List.mem_filter.1 hT).1
          obtain ⟨i, hi, hpi⟩ := List.mem_iff_getElem.1 hp
          simp at hi
          simp at hpi
          subst hpi
          have hS := hI _ (List.getElem_mem hi)
          obtain ⟨h1, h2, h3, h4⟩ := regular_selectRuns hS hs
          refine ⟨h1, (Traced.of_sub h4 h2).mono (by simp), ?_, ?_⟩
          · rintro k ⟨v, hv⟩
            rw [h2 k] at hv
            exact ⟨_, List.getElem_mem hi, v, hv⟩
          · intro r hr
            obtain ⟨x, hx1, hx2⟩ := (h3 r).1 hr
            rw [List.getElem?_map, hx2] at hx1
            simpa using hx1
    obtain ⟨h1, h2, h3⟩ := regular_joinMerge (fun T hT => (hsel T hT).1) h
    refine ⟨h1, h2.trans (fun T hT => (hsel T hT).2.1), ?_, ?_⟩
    · intro k hk
      obtain ⟨T, hT, hk'⟩ := h3 k hk
      exact (hsel T hT).2.2.1 k hk'
    · intro r hr
      obtain ⟨T, hT, s, hs, e, _⟩ := h2.rate r hr
      rw [← e]; exact (hsel T hT).2.2.2 s hs

theorem mem_names {I : Inventory α κ} {k : String} : k ∈ I.names ↔ ∃ S ∈ I, HasTag S k := by
  unfold names HasTag
  rw [List.mem_flatMap]
  constructor
  · rintro ⟨S, hS, hk⟩
    refine ⟨S, hS, ?_⟩
    rw [← Dict.has_iff, Dict.has, Option.isSome_iff_exists] at hk
    obtain ⟨v, hv⟩ := hk
    exact ⟨v, Tags.getItem_ok.2 hv⟩
  · rintro ⟨S, hS, v, hv⟩
    refine ⟨S, hS, ?_⟩
    rw [← Dict.has_iff, Dict.has, Tags.getItem_ok.1 hv]
    rfl

theorem hasTag_iff {S : SigSet α κ} {k : String} : S.tags.tags.has k = true ↔ HasTag S k := by
  rw [Dict.has, Option.isSome_iff_exists]
  exact exists_congr (fun v => Tags.getItem_ok.symm)

/-- What `pack` does: nothing, or the fusion of a regular set with data from the inventory. -/
theorem packAll_inv [One κ] {o : SetOrder} {I : Inventory α κ} (hI : ∀ S ∈ I, Regular S) {R : SigSet α κ}
    (h : I.packAll o = .ok R) :
    R = ⟨[], ⟨0, []⟩⟩ ∨ ∃ M, Regular M ∧ Traced I M ∧ M.runs ≠ [] ∧ (∀ k, HasTag M k ↔ ∃ S ∈ I, HasTag S k) ∧
      M.mergeConsecutive = .ok R := by
  unfold packAll at h
  split at h
  · simp at h
  · rename_i sigs hsigs
    split at h
    · rw [new_empty] at h; simp at h; exact .inl h.symm
    · rename_i S l hl
      split at h
      · simp at h
      · rename_i M hM
        right
        have hall : ∀ T ∈ S :: l, Regular T ∧ Traced I T ∧ (∀ k, HasTag T k → ∃ U ∈ I, HasTag U k) ∧ T.runs ≠ [] ∧
            ∀ k ∈ I.names, HasTag T k := by
          intro T hT
          rw [← hl, List.mem_filter] at hT
          obtain ⟨f0, _, hf⟩ := mapE_ok_exists hsigs T hT.1
          obtain ⟨h1, h2, h3, _⟩ := regular_rateSet hI hf
          have hb := hT.2
          simp only [Bool.and_eq_true, Bool.not_eq_true', List.isEmpty_eq_false_iff, List.all_eq_true] at hb
          exact ⟨h1, h2, h3, hb.1, fun k hk => hasTag_iff.1 (hb.2 k hk)⟩
        obtain ⟨h1, h2, h3, h4⟩ := regular_joinAll (fun T hT => (hall T hT).1) hM
        obtain ⟨a1, a2, a3, a4, a5⟩ := hall S (by simp)
        have ht := h3 S (by simp)
        refine ⟨M, h1, h2.trans (fun T hT => (hall T hT).2.1), ?_, ?_, h⟩
        · obtain ⟨s, hs⟩ := List.exists_mem_of_ne_nil _ a4
          obtain ⟨r, hr, _⟩ := h4 S (by simp) s hs
          exact List.ne_nil_of_mem hr
        · intro k
          have : HasTag M k ↔ HasTag S k := by unfold HasTag; rw [ht k]
          rw [this]
          exact ⟨a3 k, fun hk => a5 k (mem_names.2 hk)⟩

theorem regular_starts [One κ] {S : SigSet α κ} (hS : Regular S) : S.runs.Pairwise (fun a b => a.start ≠ b.start) :=
  (Props.C18_starts_distinct S hS.reach (fun s hs => ⟨hS.rate s hs, hS.size s hs⟩)).imp (fun h => ne_of_lt h)

end Inventory
end Razorback
