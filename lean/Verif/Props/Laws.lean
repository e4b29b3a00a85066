/-
Laws of the operations on signal sets (C102): the order of selections, cuts, joins and merges does not matter.
-/
import Verif.Props.Select
import Verif.Props.Extract
import Verif.Props.Join
import Verif.Props.Merge
import Verif.Lemmas.Laws
import Verif.Props.Retag

namespace Razorback.Props
open Razorback Razorback.SigSet Razorback.Spec
variable {α κ : Type _}

theorem win_sel (s : Sync α κ) (idx : List Nat) (a b : ℚ) : (s.sel idx).win a b = (s.win a b).sel idx := by
  simp only [Sync.win, Sync.cut, Sync.sel, Sync.iLo, Sync.iHi, pick_map]

theorem winRuns_sel (runs : List (Sync α κ)) (idx : List Nat) (a b : ℚ) :
    winRuns a b (runs.map (Sync.sel idx)) = (winRuns a b runs).map (Sync.sel idx) := by
  simp only [winRuns, List.map_map, List.filter_map]
  congr 1
  funext s
  exact win_sel s idx a b

/-- Selecting no channel from a set with runs. -/
theorem selectChannels_nothing [Rnd] [One κ] {S : SigSet α κ} (hI : SInv S) (hp : Plain S.tags) {sel : ChanSel}
    (h : chanIndices S.tags S.nbChannels sel = .ok []) (hne : S.runs ≠ []) : S.selectChannels sel = .error .assertion := by
  unfold selectChannels
  rw [h]
  simp only
  rw [selectTags_eq hI.inv hp]
  obtain ⟨r, rs, hr⟩ := List.exists_cons_of_ne_nil hne
  rw [hr]
  simp [mapE, Sync.select, Sync.new, dedup]

/-- The selection of channels succeeds, or the identifiers are wrong, or it selects nothing. -/
theorem chanIndices_cases [Rnd] {S : SigSet α κ} (hI : SInv S) (hp : Plain S.tags) (sel : ChanSel) :
    chanIndices S.tags S.nbChannels sel = .error .value ∨
    ∃ idx, chanIndices S.tags S.nbChannels sel = .ok idx ∧ ∀ i ∈ idx, i < S.nbChannels := by
  rw [nbChannels_tags hI hp]
  by_cases hk : SelKnown S.tags S.tags.n sel
  · obtain ⟨idx, h1, -, -, h4⟩ := chanIndices_ok hI.inv hp hk
    exact .inr ⟨idx, h1, h4⟩
  · exact .inl (chanIndices_error hp hk)

/-- **C102.** Selecting channels and cutting in time commute, whatever the selection: both orders give the same set, or raise the
same exception, if the window keeps a run. -/
theorem C102_select_extract [One κ] (S : SigSet α κ) (hS : Reach S) (hp : Plain S.tags) (hr : ∀ s ∈ S.runs, 0 < s.rate)
    (sel : ChanSel) (a b : ℚ) (hkeep : ∃ s ∈ S.runs, 2 ≤ countIn (window a b) s) :
    (S.selectChannels sel >>= fun R => R.extractT a b) = (S.extractT a b >>= fun E => E.selectChannels sel) := by
  have hI := reach_sinv hS
  obtain ⟨s, hs, hc⟩ := hkeep
  have hw : winRuns a b S.runs ≠ [] := by
    rw [winRuns_eq hr, Ne, List.map_eq_nil_iff]
    intro h0
    have : s ∈ keepers (window a b) S.runs := List.mem_filter.2 ⟨hs, by simpa using hc⟩
    rw [h0] at this
    simp at this
  have hne : S.runs ≠ [] := by
    intro h0
    rw [h0] at hs
    simp at hs
  obtain ⟨m, h1, h2⟩ := extractIn_ok hI hp hr a b
  rw [h2 hw] at h1
  have hE : S.extractT a b = .ok ⟨winRuns a b S.runs, S.tags⟩ := h1
  have hIE : SInv (⟨winRuns a b S.runs, S.tags⟩ : SigSet α κ) := extractIn_sinv h1
  have hnb : (⟨winRuns a b S.runs, S.tags⟩ : SigSet α κ).nbChannels = S.nbChannels := by
    rw [nbChannels_tags hIE hp, nbChannels_tags hI hp]
  rw [hE]
  show _ = SigSet.selectChannels _ sel
  rcases chanIndices_cases hI hp sel with he | ⟨idx, h3, h4⟩
  · have e1 : S.selectChannels sel = .error .value := by unfold selectChannels; rw [he]
    have e2 : (⟨winRuns a b S.runs, S.tags⟩ : SigSet α κ).selectChannels sel = .error .value := by
      unfold selectChannels; rw [hnb, he]
    rw [e1, e2]
    rfl
  · have h3' : chanIndices (⟨winRuns a b S.runs, S.tags⟩ : SigSet α κ).tags (⟨winRuns a b S.runs, S.tags⟩ : SigSet α κ).nbChannels sel = .ok idx := by
      rw [hnb]; exact h3
    by_cases h0 : idx = []
    · subst h0
      rw [selectChannels_nothing hI hp h3 hne, selectChannels_nothing hIE hp h3' hw]
      rfl
    · obtain ⟨m1, e1, f1⟩ := selectChannels_eq hI hp h3 h4 (fun _ => h0)
      obtain ⟨m2, e2, f2⟩ := selectChannels_eq hIE hp h3' (by rw [hnb]; exact h4) (fun _ => h0)
      rw [f1 hne] at e1
      rw [f2 hw] at e2
      rw [e1, e2]
      have hIR := reach_sinv (Reach.selectChannels sel hS e1)
      have hpl := tagsSel_plain hI.inv hp (m := idx.length) (idx := idx)
      obtain ⟨m3, e3, f3⟩ := extractIn_ok hIR hpl (by
        intro r hr'
        obtain ⟨s, hs, rfl⟩ := List.mem_map.1 hr'
        exact hr s hs) a b
      show SigSet.extractIn _ a b = _
      rw [e3]
      simp only [winRuns_sel] at f3 ⊢
      rw [f3 (by simpa using hw)]

/-! Runs and channels -/

theorem sortRuns_map_sel (idx : List Nat) (l : List (Sync α κ)) : sortRuns (l.map (Sync.sel idx)) = (sortRuns l).map (Sync.sel idx) := by
  have hins : ∀ (s : Sync α κ) (l : List (Sync α κ)),
      insertBy (fun a b : Sync α κ => decide (a.start ≤ b.start)) (s.sel idx) (l.map (Sync.sel idx)) =
        (insertBy (fun a b : Sync α κ => decide (a.start ≤ b.start)) s l).map (Sync.sel idx) := by
    intro s l
    induction l with
    | nil => rfl
    | cons x l ih =>
      simp only [List.map_cons, insertBy]
      rw [show (s.sel idx).start = s.start from rfl, show (x.sel idx).start = x.start from rfl]
      split
      · rfl
      · rw [ih]; rfl
  unfold sortRuns
  induction l with
  | nil => rfl
  | cons s l ih =>
    simp only [List.map_cons, sortBy] at ih ⊢
    rw [ih, hins]

/-- **C102.** Selecting runs and selecting channels commute. -/
theorem C102_select_runs_channels [Rnd] [One κ] (S C Q : SigSet α κ) (hS : Reach S) (hp : Plain S.tags) (sel : ChanSel) (r : RunIdx)
    (hC : S.selectChannels sel = .ok C) (hQ : S.selectRuns r = .ok Q) (hne : Q.runs ≠ []) :
    ∃ X, C.selectRuns r = .ok X ∧ Q.selectChannels sel = .ok X := by
  have hI := reach_sinv hS
  have hQr : Reach Q := Reach.selectRuns r hS hQ
  have hIQ := reach_sinv hQr
  unfold selectRuns at hQ
  split at hQ
  · simp at hQ
  rename_i idx0 hres
  obtain ⟨b1, b2, b3, b4, b5⟩ := build_as.1 hQ
  have hsub : ∀ x ∈ Q.runs, x ∈ S.runs := by
    intro x hx
    rw [b4, mem_sortRuns] at hx
    obtain ⟨i, -, hi⟩ := List.mem_filterMap.1 hx
    exact List.mem_of_getElem? hi
  obtain ⟨q, hq⟩ := List.exists_mem_of_ne_nil _ hne
  have hSne : S.runs ≠ [] := by intro h0; have := hsub q hq; rw [h0] at this; simp at this
  have hQt : Q.tags = S.tags := by
    have h1 : Q.tags.tags = S.tags.tags := mkTags_tags b5 hI.inv
    have h2 : Q.tags.n = S.tags.n := by rw [hIQ.n q hq, hI.n q (hsub q hq)]
    cases hQ' : Q.tags; cases hS' : S.tags
    simp_all
  have hpQ : Plain Q.tags := by rw [hQt]; exact hp
  have hnb : Q.nbChannels = S.nbChannels := by rw [nbChannels_tags hIQ hpQ, nbChannels_tags hI hp, hQt]
  rcases chanIndices_cases hI hp sel with he | ⟨idx, h3, h4⟩
  · unfold selectChannels at hC; rw [he] at hC; simp at hC
  have h0 : idx ≠ [] := by
    rintro rfl
    rw [selectChannels_nothing hI hp h3 hSne] at hC; simp at hC
  obtain ⟨m1, e1, f1⟩ := selectChannels_eq hI hp h3 h4 (fun _ => h0)
  rw [e1, f1 hSne] at hC
  simp only [Except.ok.injEq] at hC
  obtain ⟨m2, e2, f2⟩ := selectChannels_eq (sel := sel) hIQ hpQ (by rw [hQt, hnb]; exact h3) (by rw [hnb]; exact h4) (fun _ => h0)
  rw [f2 hne, hQt] at e2
  refine ⟨_, ?_, e2⟩
  rw [← hC]
  unfold selectRuns
  simp only [List.length_map, hres, List.getElem?_map]
  have hpick : idx0.filterMap (fun i => (S.runs[i]?).map (Sync.sel idx)) = (idx0.filterMap (fun i => S.runs[i]?)).map (Sync.sel idx) := by
    rw [List.map_filterMap]
  rw [hpick]
  have hperm : ((idx0.filterMap (fun i => S.runs[i]?)).map (Sync.sel idx)).Perm (Q.runs.map (Sync.sel idx)) := by
    rw [b4]; exact (sortRuns_perm _).symm.map _
  have hbp : build (.tags ⟨idx.length, tagsSel S.tags.tags idx⟩) ((idx0.filterMap (fun i => S.runs[i]?)).map (Sync.sel idx)) =
      build (.tags ⟨idx.length, tagsSel S.tags.tags idx⟩) (Q.runs.map (Sync.sel idx)) := by
    refine build_perm hperm ?_
    rw [sortRuns_map_sel, sortRuns_map_sel, ← b4, sortRuns_of_sorted hIQ.okAs.sorted]
  rw [hbp]
  have hlen : ∀ x ∈ Q.runs, ∀ i ∈ idx, i < x.data.length := by
    intro x hx i hi
    rw [← nbChannels_eq hIQ hx, hnb]; exact h4 i hi
  obtain ⟨m, k1, k2⟩ := build_of_as (tagsSel_inv hI.inv (idx := idx) le_rfl) (tagsSel_plain hI.inv hp (m := idx.length) (idx := idx))
    (runs := Q.runs.map (Sync.sel idx)) (n := idx.length)
    (by rw [List.pairwise_map]; exact hIQ.okAs.sorted) (by rw [List.pairwise_map]; exact hIQ.okAs.disjoint)
    (by
      intro x hx
      obtain ⟨s, hs, rfl⟩ := List.mem_map.1 hx
      exact hIQ.okAs.rate s hs)
    (by
      intro x hx
      obtain ⟨s, hs, rfl⟩ := List.mem_map.1 hx
      exact pick_length (hlen s hs))
    (fun _ => ⟨by simpa using h0, le_rfl⟩)
  rw [k1, k2 (by simpa using hne)]

/-! Joins -/

/-- The names of the operands of a join. -/
theorem join_operand [Rnd] [One κ] {S R T : SigSet α κ} {args : List (SigArg α κ)} (hS : Reach S) (hT : .set T ∈ args)
    (h : S.join args = .ok R) (hRT : Reach T) : SameTags S.tags T.tags ∨ Renumbers S.tags T.tags := by
  have hi := (reach_sinv hS).inv
  by_cases he : T.tags.eq S.tags = true
  · exact .inl (fun k => (Tags.eq_get (reach_sinv hRT).inv hi he k).symm)
  · right
    by_contra hc
    have herr := (reorderMap_tags (t' := T.tags) hi he).2 hc
    unfold SigSet.join SigSet.new at h
    split at h
    · simp at h
    · rename_i rss hm
      obtain ⟨rs, hrs, hrs'⟩ := mapE_ok_forall hm (.set T) (by simp [hT])
      simp only [argRuns, reorder, herr] at hrs'
      simp at hrs'

theorem names_of_renumbers {t t' : Tags} (h : SameTags t t' ∨ Renumbers t t') (k : String) (n : ℕ) :
    (∃ v, t.getItem k = .ok v ∧ v.length = n) ↔ ∃ v, t'.getItem k = .ok v ∧ v.length = n := by
  rcases h with h | ⟨h1, h2, -⟩
  · rw [h k]
  · constructor
    · rintro ⟨v, hv, hn⟩
      obtain ⟨w, hw⟩ := (h1 k).1 ⟨v, hv⟩
      exact ⟨w, hw, by rw [← h2 k v w hv hw, hn]⟩
    · rintro ⟨w, hw, hn⟩
      obtain ⟨v, hv⟩ := (h1 k).2 ⟨w, hw⟩
      exact ⟨v, hv, by rw [h2 k v w hv hw, hn]⟩

theorem SameRun.symm' {t t' : Tags} {r r' : Sync α κ} (h : SameRun t r t' r') : SameRun t' r' t r :=
  ⟨h.rate.symm, h.start.symm, h.size.symm, fun k j => (h.chans k j).symm⟩

theorem SameRun.trans' {t t' t'' : Tags} {r r' r'' : Sync α κ} (h : SameRun t r t' r') (h' : SameRun t' r' t'' r'') : SameRun t r t'' r'' :=
  ⟨h.rate.trans h'.rate, h.start.trans h'.start, h.size.trans h'.size, fun k j => (h.chans k j).trans (h'.chans k j)⟩

/-- Sets sorted in time with strict starts, whose runs correspond. -/
theorem sameSet_of [Rnd] {R R' : SigSet α κ} (hn : ∀ k n, (∃ v, R.tags.getItem k = .ok v ∧ v.length = n) ↔ ∃ v, R'.tags.getItem k = .ok v ∧ v.length = n)
    (h : R.runs.Pairwise (fun a b => a.start < b.start)) (h' : R'.runs.Pairwise (fun a b => a.start < b.start))
    (h1 : ∀ r ∈ R.runs, ∃ r' ∈ R'.runs, SameRun R.tags r R'.tags r') (h2 : ∀ r' ∈ R'.runs, ∃ r ∈ R.runs, SameRun R.tags r R'.tags r') :
    SameSet R R' :=
  ⟨hn, forall₂_of_sorted (f := Sync.start) (g := Sync.start) h h' (fun _ _ hs => hs.start) h1 h2⟩

/-- Runs of two samples or more in a reachable set start one after the other. -/
theorem strict_of_size [One κ] {S : SigSet α κ} (hS : Reach S) (hr : ∀ s ∈ S.runs, 0 < s.rate ∧ 1 < s.size) :
    S.runs.Pairwise (fun a b => a.start < b.start) := C18_starts_distinct S hS hr

/-- The runs of a join of sets. -/
theorem join_sets [One κ] {S R : SigSet α κ} {Ts : List (SigSet α κ)} (hS : Reach S) (hT : ∀ T ∈ Ts, Reach T)
    (h : S.join (Ts.map .set) = .ok R) :
    Reach R ∧ SameTags R.tags S.tags ∧ (∀ r ∈ R.runs, ∃ T ∈ S :: Ts, ∃ s ∈ T.runs, SameRun R.tags r T.tags s) ∧
    (∀ T ∈ S :: Ts, ∀ s ∈ T.runs, ∃ r ∈ R.runs, SameRun R.tags r T.tags s) ∧
    (∀ T ∈ S :: Ts, ∀ k n, (∃ v, R.tags.getItem k = .ok v ∧ v.length = n) ↔ ∃ v, T.tags.getItem k = .ok v ∧ v.length = n) := by
  have hA : ∀ T, SigArg.set T ∈ Ts.map SigArg.set → Reach T := by
    intro T hT'
    obtain ⟨T', h1, h2⟩ := List.mem_map.1 hT'
    cases h2
    exact hT T h1
  have hno : ∀ s : Sync α κ, SigArg.sync s ∉ Ts.map (SigArg.set (α := α) (κ := κ)) := by
    intro s hs
    obtain ⟨T', h1, h2⟩ := List.mem_map.1 hs
    cases h2
  obtain ⟨t1, t2⟩ := C14_join_by_tag S R _ hS hA h
  obtain ⟨k1, k2, -⟩ := C14_join_keeps_runs S R _ hS hA h
  refine ⟨Reach.join _ hS (fun s hs => absurd hs (hno s)) hA h, t1, ?_, ?_, ?_⟩
  · intro r hr
    rcases t2 r hr with ⟨s, hs, hh⟩ | ⟨T, hT', s, hs, hh⟩ | ⟨s, hs, -⟩
    · exact ⟨S, by simp, s, hs, hh⟩
    · obtain ⟨T', h1, h2⟩ := List.mem_map.1 hT'
      cases h2
      exact ⟨T, by simp [h1], s, hs, hh⟩
    · exact absurd hs (hno s)
  · intro T hT' s hs
    rcases List.mem_cons.1 hT' with rfl | hT'
    · exact k1 s hs
    · exact k2 T (List.mem_map.2 ⟨T, hT', rfl⟩) s hs
  · intro T hT' k n
    rw [t1 k]
    rcases List.mem_cons.1 hT' with rfl | hT'
    · exact Iff.rfl
    · exact names_of_renumbers (join_operand hS (List.mem_map.2 ⟨T, hT', rfl⟩) h (hT T hT')) k n

/-- **C102.** The order of the operands of a join does not matter. -/
theorem C102_join_order [One κ] (S S' R R' : SigSet α κ) (Ts Ts' : List (SigSet α κ)) (hperm : (S :: Ts).Perm (S' :: Ts'))
    (hT : ∀ T ∈ S :: Ts, Reach T) (hr : ∀ T ∈ S :: Ts, ∀ s ∈ T.runs, 0 < s.rate ∧ 1 < s.size)
    (h : S.join (Ts.map .set) = .ok R) (h' : S'.join (Ts'.map .set) = .ok R') : SameSet R R' := by
  have hT' : ∀ T ∈ S' :: Ts', Reach T := fun T h => hT T (hperm.mem_iff.2 h)
  obtain ⟨a0, a1, a2, a3, a4⟩ := join_sets (hT S (by simp)) (fun T h => hT T (by simp [h])) h
  obtain ⟨b0, b1, b2, b3, b4⟩ := join_sets (hT' S' (by simp)) (fun T h => hT' T (by simp [h])) h'
  have hrR : ∀ s ∈ R.runs, 0 < s.rate ∧ 1 < s.size := by
    intro s hs
    obtain ⟨T, h1, u, hu, hh⟩ := a2 s hs
    rw [hh.rate, hh.size]; exact hr T h1 u hu
  have hrR' : ∀ s ∈ R'.runs, 0 < s.rate ∧ 1 < s.size := by
    intro s hs
    obtain ⟨T, h1, u, hu, hh⟩ := b2 s hs
    rw [hh.rate, hh.size]; exact hr T (hperm.mem_iff.2 h1) u hu
  refine sameSet_of ?_ (strict_of_size a0 hrR) (strict_of_size b0 hrR') ?_ ?_
  · intro k n
    rw [a4 S (by simp) k n, b4 S (hperm.mem_iff.1 (by simp)) k n]
  · intro r hr'
    obtain ⟨T, h1, s, hs, hh⟩ := a2 r hr'
    obtain ⟨r', h2, hh'⟩ := b3 T (hperm.mem_iff.1 h1) s hs
    exact ⟨r', h2, SameRun.trans' hh (SameRun.symm' hh')⟩
  · intro r' hr'
    obtain ⟨T, h1, s, hs, hh⟩ := b2 r' hr'
    obtain ⟨r, h2, hh'⟩ := a3 T (hperm.mem_iff.2 h1) s hs
    exact ⟨r, h2, SameRun.trans' hh' (SameRun.symm' hh)⟩

/-- **C102.** Nor their grouping. -/
theorem C102_join_group [One κ] (A J R R' : SigSet α κ) (Bs Cs : List (SigSet α κ))
    (hT : ∀ T ∈ A :: (Bs ++ Cs), Reach T) (hr : ∀ T ∈ A :: (Bs ++ Cs), ∀ s ∈ T.runs, 0 < s.rate ∧ 1 < s.size)
    (hJ : A.join (Bs.map .set) = .ok J) (h : J.join (Cs.map .set) = .ok R) (h' : A.join ((Bs ++ Cs).map .set) = .ok R') :
    SameSet R R' := by
  obtain ⟨j0, j1, j2, j3, j4⟩ := join_sets (hT A (by simp)) (fun T h => hT T (by simp [h])) hJ
  obtain ⟨a0, a1, a2, a3, a4⟩ := join_sets j0 (fun T h => hT T (by simp [h])) h
  obtain ⟨b0, b1, b2, b3, b4⟩ := join_sets (hT A (by simp)) (fun T h => hT T (by simp at h ⊢; tauto)) h'
  have hdown : ∀ r ∈ R.runs, ∃ T ∈ A :: (Bs ++ Cs), ∃ s ∈ T.runs, SameRun R.tags r T.tags s := by
    intro r hr'
    obtain ⟨T, h1, s, hs, hh⟩ := a2 r hr'
    rcases List.mem_cons.1 h1 with rfl | h1
    · obtain ⟨T', h2, s', hs', hh'⟩ := j2 s hs
      exact ⟨T', by simp at h2 ⊢; tauto, s', hs', SameRun.trans' hh hh'⟩
    · exact ⟨T, by simp [h1], s, hs, hh⟩
  have hup : ∀ T ∈ A :: (Bs ++ Cs), ∀ s ∈ T.runs, ∃ r ∈ R.runs, SameRun R.tags r T.tags s := by
    intro T h1 s hs
    rw [show A :: (Bs ++ Cs) = (A :: Bs) ++ Cs from rfl] at h1
    rcases List.mem_append.1 h1 with h1 | h1
    · obtain ⟨u, hu, hh⟩ := j3 T h1 s hs
      obtain ⟨r, hr', hh'⟩ := a3 J (by simp) u hu
      exact ⟨r, hr', SameRun.trans' hh' hh⟩
    · exact a3 T (by simp [h1]) s hs
  refine sameSet_of ?_ (strict_of_size a0 ?_) (strict_of_size b0 ?_) ?_ ?_
  · intro k n
    rw [a1 k, j1 k, b1 k]
  · intro s hs
    obtain ⟨T, h1, u, hu, hh⟩ := hdown s hs
    rw [hh.rate, hh.size]; exact hr T h1 u hu
  · intro s hs
    obtain ⟨T, h1, u, hu, hh⟩ := b2 s hs
    rw [hh.rate, hh.size]; exact hr T h1 u hu
  · intro r hr'
    obtain ⟨T, h1, s, hs, hh⟩ := hdown r hr'
    obtain ⟨r', h2, hh'⟩ := b3 T h1 s hs
    exact ⟨r', h2, SameRun.trans' hh (SameRun.symm' hh')⟩
  · intro r' hr'
    obtain ⟨T, h1, s, hs, hh⟩ := b2 r' hr'
    obtain ⟨r, h2, hh'⟩ := hup T h1 s hs
    exact ⟨r, h2, SameRun.trans' hh' (SameRun.symm' hh)⟩

/-- Cutting runs that are seen the same. -/
theorem SameRun.win {t t' : Tags} {r r' : Sync α κ} (hw : WF r) (hw' : WF r') (hr : 0 < r.rate) (h : SameRun t r t' r') (a b : ℚ) :
    SameRun t (r.win a b) t' (r'.win a b) := by
  have hlo : r.iLo a = r'.iLo a := by simp only [Sync.iLo, h.rate, h.start, h.size]
  have hhi : r.iHi b = r'.iHi b := by simp only [Sync.iHi, h.rate, h.start, h.size]
  have hdes : ∀ (t : Tags) (s : Sync α κ), WF s → 0 < s.rate → ∀ k j, designated t (s.win a b) k j = (designated t s k j).map (cutChannel (window a b)) := by
    intro t s hw hr k j
    unfold designated
    rw [Sync.win_channels hw hr]
    cases t.getItem k with
    | error _ => rfl
    | ok v =>
      simp only [List.getElem?_map]
      cases v[j]? <;> simp
  refine ⟨h.rate, ?_, ?_, ?_⟩
  · show sampleTime r.rate r.start (r.iLo a) = sampleTime r'.rate r'.start (r'.iLo a)
    rw [h.rate, h.start, hlo]
  · show r.iHi b - r.iLo a = r'.iHi b - r'.iLo a
    rw [hlo, hhi]
  · intro k j
    rw [hdes t r hw hr, hdes t' r' hw' (h.rate ▸ hr), h.chans]

/-- What an extraction is. -/
theorem extract_facts [One κ] {T E : SigSet α κ} {a b : ℚ} (hT : Reach T) (hp : Plain T.tags) (hr : ∀ s ∈ T.runs, 0 < s.rate)
    (h : T.extractT a b = .ok E) : Reach E ∧ E.runs = winRuns a b T.runs ∧ SameTags E.tags T.tags ∧ Plain E.tags ∧
      (∀ s ∈ E.runs, 0 < s.rate ∧ 1 < s.size) ∧ (E.runs ≠ [] → E.tags = T.tags) := by
  obtain ⟨m, e1, e2⟩ := extractIn_ok (reach_sinv hT) hp hr a b
  have h1' : T.extractIn a b = .ok E := h
  rw [e1] at h1'
  simp only [Except.ok.injEq] at h1'
  have hruns : E.runs = winRuns a b T.runs := by rw [← h1']
  have hst : SameTags E.tags T.tags := by rw [← h1']; exact fun _ => rfl
  refine ⟨Reach.extractT a b false hT h, hruns, hst, fun k hk => by rw [hst k]; exact hp k hk, ?_, ?_⟩
  · intro r hr'
    rw [hruns] at hr'
    obtain ⟨s, hs, hsz, rfl⟩ := mem_winRuns.1 hr'
    exact ⟨hr s hs, hsz⟩
  · intro hne
    rw [hruns] at hne
    rw [← h1', e2 hne]

/-- **C102.** Cutting in time before or after a join gives sets that cannot be told apart. -/
theorem C102_join_extract [One κ] (S R X E Y : SigSet α κ) (Ts Es : List (SigSet α κ)) (a b : ℚ)
    (hT : ∀ T ∈ S :: Ts, Reach T) (hp : ∀ T ∈ S :: Ts, Plain T.tags) (hr : ∀ T ∈ S :: Ts, ∀ s ∈ T.runs, 0 < s.rate)
    (h : S.join (Ts.map .set) = .ok R) (hX : R.extractT a b = .ok X)
    (hE : List.Forall₂ (fun T E : SigSet α κ => T.extractT a b = .ok E) (S :: Ts) (E :: Es)) (hY : E.join (Es.map .set) = .ok Y) :
    SameSet X Y := by
  have hpair : ∀ E' ∈ E :: Es, ∃ T ∈ S :: Ts, T.extractT a b = .ok E' := by
    intro E' hE'
    obtain ⟨i, hi, rfl⟩ := List.getElem_of_mem hE'
    have hil : i < (S :: Ts).length := by rw [hE.length_eq]; exact hi
    exact ⟨_, List.getElem_mem hil, (List.forall₂_iff_get.1 hE).2 i hil hi⟩
  have hpair' : ∀ T ∈ S :: Ts, ∃ E' ∈ E :: Es, T.extractT a b = .ok E' := by
    intro T hT'
    obtain ⟨i, hi, rfl⟩ := List.getElem_of_mem hT'
    have hil : i < (E :: Es).length := by rw [← hE.length_eq]; exact hi
    exact ⟨_, List.getElem_mem hil, (List.forall₂_iff_get.1 hE).2 i hi hil⟩
  have hER : ∀ E' ∈ E :: Es, Reach E' := by
    intro E' hE'
    obtain ⟨T, h1, h2⟩ := hpair E' hE'
    exact (extract_facts (hT T h1) (hp T h1) (hr T h1) h2).1
  obtain ⟨a0, a1, a2, a3, a4⟩ := join_sets (hT S (by simp)) (fun T h => hT T (by simp [h])) h
  obtain ⟨b0, b1, b2, b3, b4⟩ := join_sets (hER E (by simp)) (fun T h => hER T (by simp [h])) hY
  have hrR : ∀ s ∈ R.runs, 0 < s.rate := by
    intro s hs
    obtain ⟨T, h1, u, hu, hh⟩ := a2 s hs
    rw [hh.rate]; exact hr T h1 u hu
  have hpR : Plain R.tags := fun k hk => by rw [a1 k]; exact hp S (by simp) k hk
  obtain ⟨x0, x1, x2, -, x4, -⟩ := extract_facts a0 hpR hrR hX
  have hwR := (reach_sinv a0).ok.wf
  refine sameSet_of ?_ (strict_of_size x0 x4) (strict_of_size b0 ?_) ?_ ?_
  · intro k n
    have hSE : S.extractT a b = .ok E := by cases hE; assumption
    have := (extract_facts (hT S (by simp)) (hp S (by simp)) (hr S (by simp)) hSE).2.2.1
    rw [x2 k, a1 k, b1 k, this k]
  · intro s hs
    obtain ⟨E', h1, u, hu, hh⟩ := b2 s hs
    obtain ⟨T, h2, h3⟩ := hpair E' h1
    rw [hh.rate, hh.size]
    exact (extract_facts (hT T h2) (hp T h2) (hr T h2) h3).2.2.2.2.1 u hu
  · intro x hx
    rw [x1] at hx
    obtain ⟨r, hr', hsz, rfl⟩ := mem_winRuns.1 hx
    obtain ⟨T, h1, s, hs, hh⟩ := a2 r hr'
    have hw := SameRun.win (hwR r hr') ((reach_sinv (hT T h1)).ok.wf s hs) (hrR r hr') hh a b
    obtain ⟨E', h2, h3⟩ := hpair' T h1
    obtain ⟨-, y1, y2, -⟩ := extract_facts (hT T h1) (hp T h1) (hr T h1) h3
    obtain ⟨r', h4, hh'⟩ := b3 E' h2 (s.win a b) (by rw [y1]; exact mem_winRuns.2 ⟨s, hs, by rw [← hw.size]; exact hsz, rfl⟩)
    refine ⟨r', h4, SameRun.trans' (SameRun.congr x2 hw) (SameRun.symm' ?_)⟩
    exact ⟨hh'.rate, hh'.start, hh'.size, fun k j => by rw [hh'.chans k j]; unfold designated; rw [y2 k]⟩
  · intro y hy
    obtain ⟨E', h1, u, hu, hh⟩ := b2 y hy
    obtain ⟨T, h2, h3⟩ := hpair E' h1
    obtain ⟨-, y1, y2, -⟩ := extract_facts (hT T h2) (hp T h2) (hr T h2) h3
    rw [y1] at hu
    obtain ⟨s, hs, hsz, rfl⟩ := mem_winRuns.1 hu
    obtain ⟨r, hr', hh'⟩ := a3 T h2 s hs
    have hw := SameRun.win (hwR r hr') ((reach_sinv (hT T h2)).ok.wf s hs) (hrR r hr') hh' a b
    refine ⟨r.win a b, ?_, ?_⟩
    · rw [x1]; exact mem_winRuns.2 ⟨r, hr', by rw [hw.size]; exact hsz, rfl⟩
    · refine SameRun.trans' (SameRun.congr x2 hw) (SameRun.symm' ?_)
      exact ⟨hh.rate, hh.start, hh.size, fun k j => by rw [hh.chans k j]; unfold designated; rw [y2 k]⟩

theorem operandRuns_sets (Ts : List (SigSet α κ)) : (Ts.map SigArg.set).flatMap operandRuns = Ts.flatMap (fun T => T.runs) := by
  rw [List.flatMap_map]; rfl

theorem winRuns_flatMap (a b : ℚ) {Ts Es : List (SigSet α κ)}
    (h : List.Forall₂ (fun T E : SigSet α κ => E.runs = winRuns a b T.runs) Ts Es) :
    Es.flatMap (fun T => T.runs) = winRuns a b (Ts.flatMap (fun T => T.runs)) := by
  induction h with
  | nil => rfl
  | cons h1 _ ih =>
    rw [List.flatMap_cons, List.flatMap_cons, ih, h1]
    simp only [winRuns, List.map_append, List.filter_append]

theorem pairwise_winRuns_or {runs : List (Sync α κ)} (hr : ∀ s ∈ runs, 0 < s.rate) (a b : ℚ)
    (hd : runs.Pairwise (fun a b => lastTime a ≤ b.start ∨ lastTime b ≤ a.start)) :
    (winRuns a b runs).Pairwise (fun a b => lastTime a ≤ b.start ∨ lastTime b ≤ a.start) := by
  unfold winRuns
  induction runs with
  | nil => simp
  | cons s l ih =>
    obtain ⟨h1, h2⟩ := List.pairwise_cons.1 hd
    have ih' := ih (fun s hs => hr s (by simp [hs])) h2
    simp only [List.map_cons, List.filter_cons]
    split
    · rename_i h0
      refine List.pairwise_cons.2 ⟨?_, ih'⟩
      intro r hr'
      obtain ⟨s', hs', h3, rfl⟩ := mem_winRuns.1 hr'
      simp only [decide_eq_true_eq] at h0
      obtain ⟨a1, a2, a3, _⟩ := Sync.win_bounds (hr s (by simp)) (a := a) (b := b) (by omega)
      obtain ⟨b1, b2, b3, _⟩ := Sync.win_bounds (hr s' (by simp [hs'])) (a := a) (b := b) (by omega)
      rcases h1 s' hs' with h | h
      · left; linarith
      · right; linarith
    · exact ih'

/-- **C102.** and the cut operands can be joined if the window leaves a run to each. -/
theorem C102_join_extract_succeeds [One κ] (S R E : SigSet α κ) (Ts Es : List (SigSet α κ)) (a b : ℚ)
    (hT : ∀ T ∈ S :: Ts, Reach T) (hp : ∀ T ∈ S :: Ts, Plain T.tags) (hr : ∀ T ∈ S :: Ts, ∀ s ∈ T.runs, 0 < s.rate ∧ 1 < s.size)
    (h : S.join (Ts.map .set) = .ok R)
    (hE : List.Forall₂ (fun T E : SigSet α κ => T.extractT a b = .ok E) (S :: Ts) (E :: Es)) (hne : ∀ E' ∈ E :: Es, E'.runs ≠ []) :
    ∃ Y, E.join (Es.map .set) = .ok Y := by
  have hr0 : ∀ T ∈ S :: Ts, ∀ s ∈ T.runs, 0 < s.rate := fun T hT s hs => (hr T hT s hs).1
  have hF : List.Forall₂ (fun T E : SigSet α κ => E.runs = winRuns a b T.runs ∧ E.tags = T.tags ∧ Reach E) (S :: Ts) (E :: Es) := by
    rw [List.forall₂_iff_get] at hE ⊢
    refine ⟨hE.1, ?_⟩
    intro i h1 h2
    have hm := List.getElem_mem h1
    obtain ⟨f1, f2, -, -, -, f6⟩ := extract_facts (hT _ hm) (hp _ hm) (hr0 _ hm) (hE.2 i h1 h2)
    exact ⟨f2, f6 (hne _ (List.getElem_mem h2)), f1⟩
  have hER : ∀ E' ∈ E :: Es, Reach E' := by
    intro E' hE'
    obtain ⟨i, hi, rfl⟩ := List.getElem_of_mem hE'
    exact ((List.forall₂_iff_get.1 hF).2 i (by rw [hF.length_eq]; exact hi) hi).2.2
  have hset : ∀ {P : SigSet α κ → Prop} {Ts : List (SigSet α κ)}, (∀ T ∈ Ts, P T) → ∀ T, SigArg.set T ∈ Ts.map SigArg.set → P T := by
    intro P Ts hP T hT'
    obtain ⟨T', h1, h2⟩ := List.mem_map.1 hT'
    cases h2
    exact hP T h1
  have hall : S.runs ++ (Ts.map SigArg.set).flatMap operandRuns = (S :: Ts).flatMap (fun T => T.runs) := by
    rw [operandRuns_sets, List.flatMap_cons]
  have hallE : E.runs ++ (Es.map SigArg.set).flatMap operandRuns = winRuns a b ((S :: Ts).flatMap (fun T => T.runs)) := by
    rw [operandRuns_sets, ← winRuns_flatMap a b (hF.imp (fun _ _ h => h.1)), List.flatMap_cons]
  have hmem : ∀ r ∈ (S :: Ts).flatMap (fun T => T.runs), 0 < r.rate ∧ 1 < r.size := by
    intro r hr'
    obtain ⟨T, h1, h2⟩ := List.mem_flatMap.1 hr'
    exact hr T h1 r h2
  -- each operand keeps a run, so has one
  have hTne : ∀ T ∈ S :: Ts, T.runs ≠ [] := by
    intro T hT' h0
    obtain ⟨i, hi, rfl⟩ := List.getElem_of_mem hT'
    have hil : i < (E :: Es).length := by rw [← hF.length_eq]; exact hi
    have h1 := ((List.forall₂_iff_get.1 hF).2 i hi hil).1
    simp only [List.get_eq_getElem] at h1
    rw [h0] at h1
    exact hne _ (List.getElem_mem hil) h1
  obtain ⟨a0, a1, a2, a3, a4⟩ := join_sets (hT S (by simp)) (fun T h => hT T (by simp [h])) h
  have hd : (S.runs ++ (Ts.map SigArg.set).flatMap operandRuns).Pairwise (fun a b => a.start ≠ b.start) := by
    have hst : R.runs.Pairwise (fun a b => a.start < b.start) := strict_of_size a0 (by
      intro s hs
      obtain ⟨T, h1, u, hu, hh⟩ := a2 s hs
      rw [hh.rate, hh.size]; exact hr T h1 u hu)
    have hu := (C15_join_union S R (Ts.map .set) (hT S (by simp)) (hset (fun T h => hT T (by simp [h]))) h).1
    have h1 : (R.runs.map clock).Pairwise (fun x y => x.2.1 ≠ y.2.1) := by
      rw [List.pairwise_map]; exact hst.imp (fun h => h.ne)
    have h2 := (hu.pairwise_iff (R := fun x y : ℚ × ℚ × ℕ => x.2.1 ≠ y.2.1) (fun h => Ne.symm h)).1 h1
    rw [List.pairwise_map] at h2
    exact h2
  have hA1 : ∀ T, SigArg.set T ∈ Ts.map SigArg.set → Reach T ∧ T.runs ≠ [] :=
    hset (P := fun T => Reach T ∧ T.runs ≠ []) (Ts := Ts) (fun T h => ⟨hT T (by simp [h]), hTne T (by simp [h])⟩)
  obtain ⟨j1, j2, j3⟩ := (C99_join_iff S (hT S (by simp)) (hp S (by simp)) (hTne S (by simp)) (Ts.map .set) hA1
    (by rw [hall]; exact fun r hr' => ⟨(hmem r hr').1, by have := (hmem r hr').2; omega⟩) hd).1 ⟨R, h⟩
  rw [hall] at j2
  have hpw := pairwise_winRuns_or (fun s hs => (hmem s hs).1) a b j2
  have hmemE : ∀ r ∈ winRuns a b ((S :: Ts).flatMap (fun T => T.runs)), 0 < r.rate ∧ 1 < r.size := by
    intro r hr'
    obtain ⟨s, hs, hsz, rfl⟩ := mem_winRuns.1 hr'
    exact ⟨(hmem s hs).1, hsz⟩
  have hSE : E.runs = winRuns a b S.runs ∧ E.tags = S.tags ∧ Reach E := by cases hF; assumption
  have hpE : Plain E.tags := by rw [hSE.2.1]; exact hp S (by simp)
  have hnb : E.nbChannels = S.nbChannels := by
    rw [nbChannels_tags (reach_sinv hSE.2.2) hpE, nbChannels_tags (reach_sinv (hT S (by simp))) (hp S (by simp)), hSE.2.1]
  have hA2 : ∀ T, SigArg.set T ∈ Es.map SigArg.set → Reach T ∧ T.runs ≠ [] :=
    hset (P := fun T => Reach T ∧ T.runs ≠ []) (Ts := Es) (fun T h => ⟨hER T (by simp [h]), hne T (by simp [h])⟩)
  refine (C99_join_iff E hSE.2.2 hpE (hne E (by simp)) (Es.map .set) hA2
    (by rw [hallE]; exact fun r hr' => ⟨(hmemE r hr').1, by have := (hmemE r hr').2; omega⟩) ?_).2 ⟨?_, ?_, ?_⟩
  · rw [hallE]
    refine hpw.imp_of_mem (fun {x y} hx hy hxy he => ?_)
    have key : ∀ z : Sync α κ, 0 < z.rate ∧ 1 < z.size → z.start < lastTime z := by
      intro z hz
      rw [lastTime_eq (by omega)]
      have := (sampleTime_strictMono hz.1 z.start (i := 0) (j := z.size - 1)).2 (by omega)
      simpa [sampleTime] using this
    have k1 := key x (hmemE x hx)
    have k2 := key y (hmemE y hy)
    rcases hxy with h | h <;> linarith
  · intro r hr'
    rw [operandRuns_sets] at hr' j1
    have hF' : List.Forall₂ (fun T E : SigSet α κ => E.runs = winRuns a b T.runs) Ts Es := by
      have := hF.imp (fun _ _ h => h.1)
      cases this; assumption
    rw [winRuns_flatMap a b hF'] at hr'
    obtain ⟨s, hs, -, rfl⟩ := mem_winRuns.1 hr'
    rw [hnb, ← j1 s hs]
    simp [Sync.win, Sync.cut]
  · rw [hallE]; exact hpw
  · refine hset (P := fun T => SameTags E.tags T.tags ∨ (Renumbers E.tags T.tags ∧ AllTagged E.tags E.nbChannels)) ?_
    intro E' hE'
    have hF' : List.Forall₂ (fun T E : SigSet α κ => E.runs = winRuns a b T.runs ∧ E.tags = T.tags ∧ Reach E) Ts Es := by
      cases hF; assumption
    obtain ⟨i, hi, rfl⟩ := List.getElem_of_mem hE'
    have hil : i < Ts.length := by rw [hF'.length_eq]; exact hi
    have h1 := ((List.forall₂_iff_get.1 hF').2 i hil hi).2.1
    simp only [List.get_eq_getElem] at h1
    rw [h1, hSE.2.1, hnb]
    exact j3 _ (List.mem_map.2 ⟨_, List.getElem_mem hil, rfl⟩)

section examples
open Razorback.Props

/-- Two runs, two channels. -/
def exL : SigSet Int ℚ := ⟨[⟨[[1, 2, 3], [4, 5, 6]], [1, 1], 1, 0, 3⟩, ⟨[[7, 8, 9], [10, 11, 12]], [1, 1], 1, 10, 3⟩], ⟨2, [("E", [0]), ("B", [1])]⟩⟩

theorem exL_reach : Reach exL := Reach.new (.dict [("E", .int 0), ("B", .int 1)])
  [.sync ⟨[[1, 2, 3], [4, 5, 6]], [1, 1], 1, 0, 3⟩, .sync ⟨[[7, 8, 9], [10, 11, 12]], [1, 1], 1, 10, 3⟩]
  (by intro s hs; simp at hs; rcases hs with rfl | rfl <;> exact ⟨by simp, by simp, by simp⟩) (by simp) (by decide +kernel)

example : (∃ s ∈ exL.runs, 2 ≤ countIn (window 1 11) s) ∧
    (exL.selectChannels (.many [.name "B"]) >>= fun R => R.extractT 1 11) =
      .ok ⟨[⟨[[5, 6]], [1], 1, 1, 2⟩, ⟨[[10, 11]], [1], 1, 10, 2⟩], ⟨1, [("B", [0])]⟩⟩ :=
  ⟨⟨_, List.mem_cons_self, by decide +kernel⟩, by decide +kernel⟩

example : ∃ C Q, exL.selectChannels (.many [.name "B"]) = .ok C ∧ exL.selectRuns (.int (-1)) = .ok Q ∧ Q.runs ≠ [] ∧
    C.selectRuns (.int (-1)) = .ok ⟨[⟨[[10, 11, 12]], [1], 1, 10, 3⟩], ⟨1, [("B", [0])]⟩⟩ :=
  ⟨⟨[⟨[[4, 5, 6]], [1], 1, 0, 3⟩, ⟨[[10, 11, 12]], [1], 1, 10, 3⟩], ⟨1, [("B", [0])]⟩⟩,
    ⟨[⟨[[7, 8, 9], [10, 11, 12]], [1, 1], 1, 10, 3⟩], ⟨2, [("E", [0]), ("B", [1])]⟩⟩,
    by decide +kernel, by decide +kernel, by decide +kernel, by decide +kernel⟩
end examples

end Razorback.Props
