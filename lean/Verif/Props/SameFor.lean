/-
C103: estimations look at the runs only through the names they are given.
-/
import Verif.Lemmas.SameFor
import Verif.Props.Laws
import Verif.Props.MergeLaws
import Verif.Props.Impedance
import Verif.Props.Select
import Verif.Props.Units

namespace Razorback.Props
open Razorback.Impedance Razorback.Fourier Razorback.Spec SigSet

variable {κ σ : Type} [One κ]

/-- A name in the two sets. -/
theorem SameFor.cases {α κ : Type _} {names : List String} {S T : SigSet α κ} (h : SameFor names S T) {k : String} (hk : k ∈ names) :
    (S.tags.getItem k = .error .key ∧ T.tags.getItem k = .error .key) ∨
    ∃ v v', S.tags.getItem k = .ok v ∧ T.tags.getItem k = .ok v' ∧ v.length = v'.length := by
  have herr : ∀ (t : Tags) e, t.getItem k = .error e → e = .key := by
    intro t e he
    unfold Tags.getItem at he
    split at he
    · simp at he
    · simpa using he.symm
  cases hS : S.tags.getItem k with
  | ok v =>
    obtain ⟨v', h1, h2⟩ := (h.names k hk v.length).1 ⟨v, hS, rfl⟩
    exact .inr ⟨v, v', rfl, h1, h2.symm⟩
  | error e =>
    cases hT : T.tags.getItem k with
    | ok v' =>
      obtain ⟨v, h1, h2⟩ := (h.names k hk v'.length).2 ⟨v', hT, rfl⟩
      rw [hS] at h1; cases h1
    | error e' => left; rw [herr _ _ hS, herr _ _ hT]; exact ⟨rfl, rfl⟩

theorem oneFreq_same (cal : κ → ℚ → Option ℂ) {S T : SigSet ℂ κ} (hS : Reach S) (hT : Reach T) (o : Opts σ)
    (h : SameFor (o.tagElec :: o.tagMag :: o.remote.toList) S T) (f : ℚ) (hk : SameKnown cal f S T) (heap : ℕ → σ) :
    oneFreq cal S f o heap = oneFreq cal T f o heap := by
  unfold oneFreq
  rcases SameFor.cases h (k := o.tagElec) (by simp) with ⟨e1, e2⟩ | ⟨E, E', e1, e2, e3⟩
  · rw [e1, e2]
  rcases SameFor.cases h (k := o.tagMag) (by simp) with ⟨b1, b2⟩ | ⟨B, B', b1, b2, b3⟩
  · rw [e1, e2, b1, b2]
  rw [e1, e2, b1, b2]
  dsimp only
  have hrem : (∃ x, remoteChannels S o = .error x ∧ remoteChannels T o = .error x) ∨
      (remoteChannels S o = .ok none ∧ remoteChannels T o = .ok none) ∨
      ∃ k v v', o.remote = some k ∧ S.tags.getItem k = .ok v ∧ T.tags.getItem k = .ok v' ∧ v.length = v'.length ∧
        remoteChannels S o = .ok (some v) ∧ remoteChannels T o = .ok (some v') := by
    unfold remoteChannels
    cases hr : o.remote with
    | none => exact .inr (.inl ⟨rfl, rfl⟩)
    | some k =>
      dsimp only
      by_cases he : k.isEmpty = true
      · rw [if_pos he, if_pos he]; exact .inr (.inl ⟨rfl, rfl⟩)
      · rw [if_neg he, if_neg he]
        rcases SameFor.cases h (k := k) (by simp [hr]) with ⟨r1, r2⟩ | ⟨R, R', r1, r2, r3⟩
        · rw [r1, r2]; exact .inl ⟨_, rfl, rfl⟩
        · rw [r1, r2]; exact .inr (.inr ⟨k, R, R', rfl, r1, r2, r3, rfl, rfl⟩)
  have hco := setCoeffs_same cal f o.nper o.overlap o.win hS hT h hk
  rcases hrem with ⟨x, r1, r2⟩ | ⟨r1, r2⟩ | ⟨k, R, R', hr, q1, q2, q3, r1, r2⟩
  · rw [r1, r2]
  · rw [r1, r2]
    dsimp only
    rcases hco with ⟨x, c1, c2⟩ | ⟨co, co', w, c1, c2, c3, c4⟩
    · rw [c1, c2, e3, b3]
    · rw [c1, c2]
      dsimp only
      rw [c4 _ (by simp) _ _ e1 e2, c4 _ (by simp) _ _ b1 b2, c3]
  · rw [r1, r2]
    dsimp only
    rcases hco with ⟨x, c1, c2⟩ | ⟨co, co', w, c1, c2, c3, c4⟩
    · rw [c1, c2, e3, b3]; simp only [Option.map_some, q3]
    · rw [c1, c2]
      dsimp only
      rw [c4 _ (by simp) _ _ e1 e2, c4 _ (by simp) _ _ b1 b2, c4 k (by simp [hr]) _ _ q1 q2, c3]
      simp only [Option.map_some, q3]

/-- **C103.** Impedance, errors, transfer and rejected times, or the exception, depend on a signal set only through the clocks of its
runs, what the names of the options designate, and on whether the calibrations of all its channels are known at the frequencies. -/
theorem C103_impedance (cal : κ → ℚ → Option ℂ) (S T : SigSet ℂ κ) (hS : Reach S) (hT : Reach T) (o : Opts σ)
    (h : SameFor (o.tagElec :: o.tagMag :: o.remote.toList) S T) (freqs : List ℚ) (hk : ∀ f ∈ freqs, SameKnown cal f S T)
    (heap : ℕ → σ) : impedance cal S o freqs heap = impedance cal T o freqs heap := by
  have key : eachFreq cal S o freqs heap = eachFreq cal T o freqs heap := by
    induction freqs generalizing heap with
    | nil => rfl
    | cons f l ih =>
      unfold eachFreq
      rw [oneFreq_same cal hS hT o h f (hk f (by simp)) heap]
      have := fun heap => ih (fun f hf => hk f (by simp [hf])) heap
      simp only [this]
  unfold impedance
  rw [key]

/-- **C103.** So do the values of prefilters and their times. -/
theorem C103_prefilter_values (cal : κ → ℚ → Option ℂ) (S T : SigSet ℂ κ) (hS : Reach S) (hT : Reach T) (nper overlap : ℚ) (win : Win)
    (tagElec tagMag : String) (value : (q : ℕ) → List ℂ → List (Fin q → ℂ) → Except Err (List Flt))
    (h : SameFor [tagElec, tagMag] S T) (freqs : List ℚ) (hk : ∀ f ∈ freqs, SameKnown cal f S T) :
    prefilterValues cal S nper overlap win tagElec tagMag value freqs =
      prefilterValues cal T nper overlap win tagElec tagMag value freqs := by
  have key : ∀ f ∈ freqs, valuesOne cal S nper overlap win tagElec tagMag value f = valuesOne cal T nper overlap win tagElec tagMag value f := by
    intro f hf
    unfold valuesOne
    rcases setCoeffs_same cal f nper overlap win hS hT h (hk f hf) with ⟨x, c1, c2⟩ | ⟨co, co', w, c1, c2, c3, c4⟩
    · rw [c1, c2]
    rw [c1, c2]
    dsimp only
    rcases SameFor.cases h (k := tagElec) (by simp) with ⟨e1, e2⟩ | ⟨E, E', e1, e2, e3⟩
    · rw [e1, e2]
    rw [e1, e2]
    dsimp only
    rw [c4 _ (by simp) _ _ e1 e2]
    rcases SameFor.cases h (k := tagMag) (by simp) with ⟨b1, b2⟩ | ⟨B, B', b1, b2, b3⟩
    · rw [b1, b2]
    · rw [b1, b2]
      dsimp only
      rw [c4 _ (by simp) _ _ b1 b2, c3]
  unfold prefilterValues
  induction freqs with
  | nil => rfl
  | cons f l ih =>
    simp only [mapE, key f (by simp), ih (fun f hf => hk f (by simp [hf])) (fun f hf => key f (by simp [hf]))]

/-- Sets that cannot be told apart by names at all. -/
theorem SameSet.sameFor {α κ : Type _} {S T : SigSet α κ} (h : SameSet S T) (names : List String) : SameFor names S T :=
  ⟨fun k _ n => h.names k n, h.runs.imp (fun _ _ hr => ⟨by simp [clock, hr.rate, hr.start, hr.size], fun k _ j => hr.chans k j⟩)⟩

/-- The calibrations of the channels. -/
theorem cals_channels {α κ : Type _} {s : Sync α κ} (hw : WF s) : (channels s).map Prod.snd = s.cals := by
  unfold channels
  rw [List.map_snd_zip]
  rw [List.length_map, hw.cals]

theorem sameKnown_of_perm {α : Type _} (cal : κ → ℚ → Option ℂ) (f : ℚ) {S T : SigSet α κ} (hS : Reach S) (hT : Reach T)
    (h : List.Forall₂ (fun r r' : Sync α κ => (channels r).Perm (channels r')) S.runs T.runs) : SameKnown cal f S T := by
  have hI := (reach_sinv hS).ok
  have hI' := (reach_sinv hT).ok
  unfold SameKnown
  rw [List.forall₂_iff_get] at h ⊢
  refine ⟨h.1, fun i a b => ?_⟩
  have hp := (h.2 i a b).map Prod.snd
  rw [List.get_eq_getElem, List.get_eq_getElem, cals_channels (hI.wf _ (List.getElem_mem a)), cals_channels (hI'.wf _ (List.getElem_mem b))] at hp
  constructor <;> intro hk k hm
  · exact hk k (hp.mem_iff.2 hm)
  · exact hk k (hp.mem_iff.1 hm)

/-- A channel with a name has the same calibration in two sets that cannot be told apart. -/
theorem sameKnown_of_tagged {α : Type _} (cal : κ → ℚ → Option ℂ) (f : ℚ) {S T : SigSet α κ} (hS : Reach S) (hT : Reach T)
    (h : SameSet S T) (h1 : AllTagged S.tags S.nbChannels) (h2 : AllTagged T.tags T.nbChannels) : SameKnown cal f S T := by
  have key : ∀ {S T : SigSet α κ}, Reach S → Reach T → SameSet S T → AllTagged S.tags S.nbChannels → ∀ i (a : i < S.runs.length)
      (b : i < T.runs.length), (∀ k ∈ T.runs[i].cals, cal k f ≠ none) → ∀ k ∈ S.runs[i].cals, cal k f ≠ none := by
    intro S T hS hT h h1 i a b hk c hc
    have hI := (reach_sinv hS).ok
    have hI' := (reach_sinv hT).ok
    have hw := hI.wf _ (List.getElem_mem a)
    have hw' := hI'.wf _ (List.getElem_mem b)
    have hn : S.nbChannels = S.runs[i].data.length := by
      have hx := List.getElem_mem a
      generalize S.runs[i] = x at hx
      unfold SigSet.nbChannels
      split
      · rename_i hr; rw [hr] at hx; simp at hx
      · rename_i r l hr; exact hI.chans r (by rw [hr]; simp) x hx
    obtain ⟨j, hj, hjc⟩ := List.getElem_of_mem hc
    obtain ⟨k, v, hv, hjv⟩ := h1 j (by rw [hn, ← hw.cals]; exact hj)
    obtain ⟨m, hm, hmv⟩ := List.getElem_of_mem hjv
    have hd := ((List.forall₂_iff_get.1 h.runs).2 i a b).chans k m
    have hch : (channels S.runs[i])[j]? = some ((channels S.runs[i])[j]'(by
        unfold channels; simp; exact ⟨by rw [← hw.cals]; exact hj, hj⟩)) := List.getElem?_eq_getElem _
    obtain ⟨v', hv', hl'⟩ := (h.names k v.length).1 ⟨v, hv, rfl⟩
    unfold designated at hd
    rw [hv, hv'] at hd
    simp only [List.get_eq_getElem, List.getElem?_eq_getElem hm, Option.bind_some, hmv, hch] at hd
    rw [List.getElem?_eq_getElem (by omega), Option.bind_some] at hd
    have hmem := List.mem_of_getElem? hd.symm
    have : ((channels S.runs[i])[j]'(by unfold channels; simp; exact ⟨by rw [← hw.cals]; exact hj, hj⟩)).2 = c := by
      unfold channels; simp [hjc]
    refine hk c ?_
    rw [← cals_channels hw', ← this]
    exact List.mem_map_of_mem hmem
  have hs : SameSet T S := ⟨fun k n => (h.names k n).symm, by
    have := h.runs.flip
    exact this.imp (fun _ _ hr => ⟨hr.rate.symm, hr.start.symm, hr.size.symm, fun k j => (hr.chans k j).symm⟩)⟩
  unfold SameKnown
  rw [List.forall₂_iff_get]
  refine ⟨h.runs.length_eq, fun i a b => ⟨key hT hS hs h2 i b a, key hS hT h h1 i a b⟩⟩

/-- **C103.** Estimations give the same on two sets that cannot be told apart by names, if every channel has a name. -/
theorem C103_same_set (cal : κ → ℚ → Option ℂ) (S T : SigSet ℂ κ) (hS : Reach S) (hT : Reach T) (h : SameSet S T)
    (h1 : AllTagged S.tags S.nbChannels) (h2 : AllTagged T.tags T.nbChannels) (o : Opts σ) (freqs : List ℚ) (heap : ℕ → σ) :
    impedance cal S o freqs heap = impedance cal T o freqs heap :=
  C103_impedance cal S T hS hT o (SameSet.sameFor h _) freqs (fun f _ => sameKnown_of_tagged cal f hS hT h h1 h2) heap

/-- **C103.** Merging the operands in another order does not change the estimates. -/
theorem C103_merge_order (cal : κ → ℚ → Option ℂ) (S S' R R' : SigSet ℂ κ) (others others' : List (SigSet ℂ κ))
    (hperm : (S :: others).Perm (S' :: others')) (hR : ∀ T ∈ S :: others, Reach T) (hp : ∀ T ∈ S :: others, Plain T.tags)
    (hr : ∀ T ∈ S :: others, ∀ s ∈ T.runs, 0 < s.rate) (h : S.merge others = .ok R) (h' : S'.merge others' = .ok R')
    (o : Opts σ) (freqs : List ℚ) (heap : ℕ → σ) : impedance cal R o freqs heap = impedance cal R' o freqs heap := by
  have hR' : ∀ T ∈ S' :: others', Reach T := fun T hT => hR T (hperm.mem_iff.2 hT)
  have h1 : Reach R := Reach.merge others (hR S (by simp)) (fun T hT => hR T (by simp [hT])) h
  have h2 : Reach R' := Reach.merge others' (hR' S' (by simp)) (fun T hT => hR' T (by simp [hT])) h'
  exact C103_impedance cal R R' h1 h2 o (SameSet.sameFor (C102_merge_order S S' R R' others others' hperm hR hp hr h h') _) freqs
    (fun f _ => sameKnown_of_perm cal f h1 h2 ((merge_perm_runs hperm hR hp hr h h').imp (fun _ _ h => h.2))) heap

/-- **C103.** Channels the options do not name may be dropped before the estimation, if the calibrations of these are known. -/
theorem C103_select_channels (cal : κ → ℚ → Option ℂ) (S R : SigSet ℂ κ) (hS : Reach S) (hp : Plain S.tags) (sel : ChanSel)
    (h : S.selectChannels sel = .ok R) (o : Opts σ)
    (hin : ∀ k ∈ o.tagElec :: o.tagMag :: o.remote.toList, ∀ v, S.tags.getItem k = .ok v → ∃ w, R.tags.getItem k = .ok w)
    (freqs : List ℚ)
    (hk : ∀ f ∈ freqs, ∀ s ∈ S.runs, ∀ i c, s.cals[i]? = some c → ¬ SelDesig S.tags S.nbChannels sel i → cal c f ≠ none)
    (heap : ℕ → σ) : impedance cal S o freqs heap = impedance cal R o freqs heap := by
  have hRR : Reach R := Reach.selectChannels sel hS h
  have hsk : SelKnown S.tags S.nbChannels sel := by
    by_contra hc
    rw [C16_unknown_raises S hS hp sel hc] at h; simp at h
  have hsne : S.runs ≠ [] → ∃ i, SelDesig S.tags S.nbChannels sel i := by
    intro hr
    by_contra hc
    obtain ⟨e, he⟩ := C16_nothing_raises S hS hp sel hr hc
    rw [he] at h; simp at h
  have hlens : ∀ k w, R.tags.getItem k = .ok w → ∃ v, S.tags.getItem k = .ok v ∧ v.length = w.length := by
    have hI := reach_sinv hS
    have hn := nbChannels_tags hI hp
    obtain ⟨idx, h1, h2, h3, h4⟩ := chanIndices_ok hI.inv hp (by rw [← hn]; exact hsk)
    obtain ⟨m, h5, h6⟩ := selectChannels_eq hI hp (sel := sel) (idx := idx) (by rw [hn]; exact h1)
      (by rw [hn]; exact h4) (by
        intro hr h0
        obtain ⟨i, hi⟩ := hsne hr
        rw [hn] at hi
        have := (h3 i).2 hi
        rw [h0] at this; simp at this)
    rw [h] at h5
    simp only [Except.ok.injEq] at h5
    intro k w hw
    rw [h5, Tags.getItem_ok, get?_tagsSel hI.inv] at hw
    obtain ⟨v, hv, -, rfl⟩ := hw
    exact ⟨v, Tags.getItem_ok.2 hv, by simp⟩
  obtain ⟨R0, idx, h1, h2, h3, h4, h5, h6⟩ := C16_select_channels S hS hp sel hsk hsne
  rw [h] at h1
  cases h1
  have hI := (reach_sinv hS).ok
  have hI' := (reach_sinv hRR).ok
  refine C103_impedance cal S R hS hRR o ⟨?_, ?_⟩ freqs ?_ heap
  · intro k hkn n
    constructor
    · rintro ⟨v, hv, rfl⟩
      obtain ⟨w, hw⟩ := hin k hkn v hv
      obtain ⟨v', hv', hl⟩ := hlens k w hw
      rw [hv] at hv'; cases hv'
      exact ⟨w, hw, hl.symm⟩
    · rintro ⟨w, hw, rfl⟩
      exact hlens k w hw
  · have hd : ∀ k ∈ o.tagElec :: o.tagMag :: o.remote.toList,
        List.Forall₂ (fun r s => ∀ j, designated R.tags r k j = designated S.tags s k j) R.runs S.runs := by
      intro k hkn
      cases hw : R.tags.getItem k with
      | ok w => exact h6 k w hw
      | error e =>
        refine h4.imp (fun r s _ j => ?_)
        have : ∀ v, S.tags.getItem k ≠ .ok v := by
          intro v hv
          obtain ⟨w, hw'⟩ := hin k hkn v hv
          rw [hw] at hw'; cases hw'
        unfold designated
        rw [hw]
        cases hv : S.tags.getItem k with
        | ok v => exact absurd hv (this v)
        | error _ => rfl
    rw [List.forall₂_iff_get] at h4 ⊢
    refine ⟨h4.1.symm, fun i a b => ?_⟩
    obtain ⟨c1, c2, c3, -⟩ := h4.2 i b a
    exact ⟨by simp only [clock, Prod.mk.injEq]; exact ⟨c1.symm, c2.symm, c3.symm⟩,
      fun k hkn j => ((List.forall₂_iff_get.1 (hd k hkn)).2 i b a j).symm⟩
  · intro f hf
    unfold SameKnown
    rw [List.forall₂_iff_get] at h4 ⊢
    refine ⟨h4.1.symm, fun i a b => ?_⟩
    obtain ⟨-, -, -, -, hc⟩ := h4.2 i b a
    have hw := hI.wf _ (List.getElem_mem a)
    have hw' := hI'.wf _ (List.getElem_mem b)
    have hcals : R.runs[i].cals = idx.filterMap (fun j => S.runs[i].cals[j]?) := by
      have e := congrArg (List.map Prod.snd) hc
      rw [List.get_eq_getElem, List.get_eq_getElem, cals_channels hw', List.map_filterMap] at e
      rw [e]
      congr 1
      funext j
      rw [← List.getElem?_map, cals_channels hw]
    rw [List.get_eq_getElem, List.get_eq_getElem, hcals]
    constructor
    · intro hall k hm
      obtain ⟨j, -, hj⟩ := List.mem_filterMap.1 hm
      exact hall k (List.mem_of_getElem? hj)
    · intro hall k hm
      obtain ⟨j, hj⟩ := List.mem_iff_getElem?.1 hm
      by_cases hs : SelDesig S.tags S.nbChannels sel j
      · exact hall k (List.mem_filterMap.2 ⟨j, (h3 j).2 hs, hj⟩)
      · exact hk f hf _ (List.getElem_mem a) j k hj hs

/-- The result of a join has as many channels as its first operand. -/
theorem join_nbChannels {α κ : Type _} [One κ] {S R : SigSet α κ} {args : List (SigArg α κ)} (hS : Reach S) (hp : Plain S.tags)
    (hne : S.runs ≠ []) (hR : Reach R) (h : S.join args = .ok R) : R.nbChannels = S.nbChannels := by
  have hI := reach_sinv hS
  have hself : argRuns (.tags S.tags) (.set S) = .ok S.runs := by
    have : S.tags.eq S.tags = true := (tags_eq_iff_plain hI.inv hI.inv hp).2 ⟨fun _ => rfl, rfl⟩
    simp only [argRuns, reorder, reorderMap, tagsEq, this, if_true]
  obtain ⟨s0, hs0⟩ := List.exists_mem_of_ne_nil _ hne
  unfold SigSet.join SigSet.new at h
  split at h
  · simp at h
  · rename_i rss hm
    obtain ⟨rs, hrs, hrs'⟩ := mapE_ok_forall hm (.set S) (by simp)
    rw [hself] at hrs'
    cases hrs'
    obtain ⟨-, -, -, b4, -⟩ := build_as.1 h
    have hs0' : s0 ∈ R.runs := by
      rw [b4, (sortRuns_perm _).mem_iff]
      exact List.mem_flatten.2 ⟨_, hrs, hs0⟩
    rw [nbChannels_eq hI hs0, nbChannels_eq (reach_sinv hR) hs0']

/-- **C103.** Joining the operands in another order does not change the estimates, if every channel has a name. -/
theorem C103_join_order (cal : κ → ℚ → Option ℂ) (S S' R R' : SigSet ℂ κ) (Ts Ts' : List (SigSet ℂ κ)) (hperm : (S :: Ts).Perm (S' :: Ts'))
    (hT : ∀ T ∈ S :: Ts, Reach T) (hp : ∀ T ∈ S :: Ts, Plain T.tags) (hne : ∀ T ∈ S :: Ts, T.runs ≠ [])
    (hr : ∀ T ∈ S :: Ts, ∀ s ∈ T.runs, 0 < s.rate ∧ 1 < s.size)
    (hn : ∀ T ∈ S :: Ts, AllTagged T.tags T.nbChannels) (h : S.join (Ts.map .set) = .ok R) (h' : S'.join (Ts'.map .set) = .ok R')
    (o : Opts σ) (freqs : List ℚ) (heap : ℕ → σ) : impedance cal R o freqs heap = impedance cal R' o freqs heap := by
  have hT' : ∀ T ∈ S' :: Ts', Reach T := fun T h => hT T (hperm.mem_iff.2 h)
  obtain ⟨a0, a1, -⟩ := join_sets (hT S (by simp)) (fun T h => hT T (by simp [h])) h
  obtain ⟨b0, b1, -⟩ := join_sets (hT' S' (by simp)) (fun T h => hT' T (by simp [h])) h'
  have h1 := join_nbChannels (hT S (by simp)) (hp S (by simp)) (hne S (by simp)) a0 h
  have hS' : S' ∈ S :: Ts := hperm.mem_iff.2 (by simp)
  have h2 := join_nbChannels (hT S' hS') (hp S' hS') (hne S' hS') b0 h'
  refine C103_same_set cal R R' a0 b0 (C102_join_order S S' R R' Ts Ts' hperm hT hr h h') ?_ ?_ o freqs heap
  · intro c hc
    rw [h1] at hc
    obtain ⟨k, v, hv, hm⟩ := hn S (by simp) c hc
    exact ⟨k, v, by rw [a1 k]; exact hv, hm⟩
  · intro c hc
    rw [h2] at hc
    obtain ⟨k, v, hv, hm⟩ := hn S' (hperm.mem_iff.2 (by simp)) c hc
    exact ⟨k, v, by rw [b1 k]; exact hv, hm⟩

section examples

/-- Two tones, and a third channel whose calibration is 2. -/
noncomputable def exThird : SigSet ℂ ℚ :=
  ⟨[⟨[tone 6 0 (1 / 4) 8, tone 3 0 (1 / 4) 8, tone 1 0 (1 / 4) 8], [1, 1, 2], 1, 0, 8⟩],
    ⟨3, [("E", [0]), ("B", [1]), ("R", [2])]⟩⟩

/-- The first two channels. -/
noncomputable def exTwo : SigSet ℂ ℚ :=
  ⟨[⟨[tone 6 0 (1 / 4) 8, tone 3 0 (1 / 4) 8], [1, 1], 1, 0, 8⟩], ⟨2, [("E", [0]), ("B", [1])]⟩⟩

/-- A table of calibrations without value for 2. -/
noncomputable def exCal : ℚ → ℚ → Option ℂ := fun k _ => if k = 2 then none else some 1

theorem exThird_reach : Reach exThird := by
  refine Reach.new (.dict [("E", .int 0), ("B", .int 1), ("R", .int 2)])
    [.sync ⟨[tone 6 0 (1 / 4) 8, tone 3 0 (1 / 4) 8, tone 1 0 (1 / 4) 8], [1, 1, 2], 1, 0, 8⟩] ?_ (by simp) ?_
  · simp only [List.mem_singleton, SigArg.sync.injEq, forall_eq]
    exact ⟨by simp, by simp, by simp [tone]⟩
  · with_unfolding_all rfl

theorem exThird_plain : Plain exThird.tags := by
  intro k hk; simp [reserved] at hk; rcases hk with rfl | rfl | rfl | rfl | rfl <;> decide

theorem exThird_select : exThird.selectChannels (.many [.name "E", .name "B"]) = .ok exTwo := by
  with_unfolding_all rfl

theorem exTwo_reach : Reach exTwo := Reach.selectChannels _ exThird_reach exThird_select

theorem exTwo_coeffs : setCoeffs exCal exTwo (1 / 4) 1 0 .none =
    .ok ([[6 * exUnit 0, 6 * exUnit 1], [3 * exUnit 0, 3 * exUnit 1]], ([2], [4], [4])) := by
  obtain ⟨r, h⟩ := timeToFreq_of (data := [tone 6 0 (1 / 4) 8, tone 3 0 (1 / 4) 8]) (fs := 1)
    (freq := 1 / 4) (nper := 1) (overlap := 0) (N := 8) (win := .none) (n := 1) (L := 4) (s := 4) (by simp)
    (by simp [tone]) (by decide +kernel) (by simp [Win.eval])
  obtain ⟨N, -, -, -, -, hr⟩ := timeToFreq_ok h
  have ht : ∀ (a : ℝ) (k : ℕ), k < 2 → fourierAt (1 / 4 / 1) 4 (Win.eval .none 4) (tone a 0 (1 / 4) 8) (k * 4) = a * exUnit k := by
    intro a k hk
    have := fourierAt_tone a 0 (nf := 1 / 4) (by norm_num) (by norm_num) (L := 4) (N := 8) (m := k * 4) (p := 1) (by norm_num)
      (by norm_num) (by omega)
    rw [show (1 / 4 / 1 : ℚ) = 1 / 4 by norm_num]
    exact this
  have hr : r = [[6 * exUnit 0, 6 * exUnit 1], [3 * exUnit 0, 3 * exUnit 1]] := by
    rw [hr]
    have e : List.range (1 + 1) = [0, 1] := rfl
    simp only [e, List.map_cons, List.map_nil]
    rw [ht 6 0 (by norm_num), ht 6 1 (by norm_num), ht 3 0 (by norm_num), ht 3 1 (by norm_num)]
    simp
  subst hr
  unfold setCoeffs
  have hm : mapE (fun s => syncCoeffs exCal s (1/4) 1 0 .none) exTwo.runs =
      .ok [([[6 * exUnit 0, 6 * exUnit 1], [3 * exUnit 0, 3 * exUnit 1]], 2, 4, 4)] := by
    refine mapE_ok.2 (.cons (syncCoeffs_ok.2 ⟨by simp [exCal], _, h, ?_⟩) .nil)
    simp [exCal]
  rw [hm]
  simp [zipStar]
  rfl

/-- **C103.** The calibrations of channels that the options do not name matter: with one of them unknown at the frequency the result
is NaN, while the impedance is found if this channel is dropped first. -/
theorem C103_unnamed_matters : ∃ (S R : SigSet ℂ ℚ) (cal : ℚ → ℚ → Option ℂ) (o : Opts Unit) (r : Result),
    Reach S ∧ S.selectChannels (.many [.name o.tagElec, .name o.tagMag]) = .ok R ∧ o.remote = none ∧
    impedance cal S o [1 / 4] (fun _ => ()) = (.ok [⟨[[none]], [], [[.nan]], [[]]⟩], fun _ => ()) ∧
    impedance cal R o [1 / 4] (fun _ => ()) = (.ok [r], fun _ => ()) ∧ r.impedance = [[some 2]] := by
  obtain ⟨r, h1, h2⟩ := C91_exact_from_samples exCal exTwo exTwo_reach (1 / 4) { exOpts with remote := none } rfl rfl
    [0] [1] ⟨rfl, rfl, .inl ⟨.inl rfl, rfl⟩⟩ [[2]] rfl (by simp) (by
      intro s hs i c hc n
      have hi := (List.getElem?_eq_some_iff.1 hc).1
      simp only [List.length_singleton, Nat.lt_one_iff] at hi
      subst hi
      simp only [List.getElem?_cons_zero, Option.some.injEq] at hc
      subst hc
      simp only [exTwo, List.mem_singleton] at hs
      subst hs
      simp only [List.length_singleton, Finset.univ_unique, Finset.sum_singleton, physical, tone]
      simp [List.getD_eq_getElem?_getD, exCal]
      by_cases hn : n < 8
      · simp [hn]
        ring
      · simp [hn]) _ _ exTwo_coeffs [[]] (.cons rfl .nil) (by simp) (by
      intro l hl
      rw [List.mem_singleton.1 hl]
      intro t ht hn x hx
      match t, ht with
      | [y], _ =>
        have := hn 0 (by norm_num) (by simp)
        simp only [combine, List.map_cons, List.map_nil, List.zipWith_cons_cons, List.zipWith_nil_left, List.sum_cons, List.sum_nil,
          add_zero, List.getD_cons_zero, List.getD_cons_succ, mul_eq_zero, exUnit_ne, or_false] at this
        rw [List.mem_singleton.1 hx]
        rcases this with h | h
        · exact h
        · norm_num at h) (fun _ => ())
  refine ⟨exThird, exTwo, exCal, { exOpts with remote := none }, r, exThird_reach, exThird_select, rfl, ?_, ?_, by simpa using h2⟩
  · obtain ⟨e, he⟩ := (C41_raises_iff exCal exThird (1 / 4) 1 0 .none).2 (.inr ⟨_, List.mem_singleton.2 rfl, .inl ⟨2, by simp, by simp [exCal]⟩⟩)
    simp only [impedance, eachFreq, oneFreq]
    have hE : exThird.tags.getItem "E" = .ok [0] := by decide
    have hB : exThird.tags.getItem "B" = .ok [1] := by decide
    simp only [exOpts, hE, hB, remoteChannels, he]
    rfl
  · simp only [impedance, eachFreq, h1, stack, List.all_nil, if_true]

/-- The hypotheses of `C103_select_channels` hold with calibrations known everywhere. -/
example : exThird.selectChannels (.many [.name "E", .name "B"]) = .ok exTwo ∧
    (∀ k ∈ ["E", "B"], ∃ w, exTwo.tags.getItem k = .ok w) ∧ Plain exThird.tags := by
  refine ⟨exThird_select, ?_, exThird_plain⟩
  intro k hk
  simp at hk
  rcases hk with rfl | rfl
  · exact ⟨[0], by decide⟩
  · exact ⟨[1], by decide⟩

/-- Every channel of the set has a name. -/
example : AllTagged exThird.tags exThird.nbChannels := by
  intro c hc
  have hc : c < 3 := hc
  interval_cases c
  · exact ⟨"E", [0], by decide, by simp⟩
  · exact ⟨"B", [1], by decide, by simp⟩
  · exact ⟨"R", [2], by decide, by simp⟩
end examples

end Razorback.Props
