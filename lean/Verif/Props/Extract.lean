/- C19-C21: time extraction on signal sets. -/
import Verif.Lemmas.Extract
import Verif.Props.Select

namespace Razorback.Props
open Razorback Spec SigSet
variable {α κ : Type _}

/-- **C19.** For positive rates and any window, `extract_t(a, b)` succeeds; its runs are, in order, the runs
with at least two samples in `[a, b]`, each cut to exactly these samples; every tag is kept. -/
theorem C19_extract_t [One κ] (S : SigSet α κ) (hS : Reach S) (hp : Plain S.tags)
    (hr : ∀ s ∈ S.runs, 0 < s.rate) (a b : ℚ) :
    ∃ R, S.extractT a b = .ok R ∧
      List.Forall₂ (Piece (window a b)) R.runs (keepers (window a b) S.runs) ∧ SameTags R.tags S.tags := by
  have hI := reach_sinv hS
  obtain ⟨m, h, _⟩ := extractIn_ok hI hp hr a b
  refine ⟨_, h, ?_, fun k => rfl⟩
  simp only
  rw [winRuns_eq hr, List.forall₂_map_left_iff, List.forall₂_same]
  intro s hs
  have hs' := (List.mem_filter.1 hs).1
  exact Sync.piece_win (hI.ok.wf s hs') (hr s hs') a b

def exE : SigSet Int ℚ := ⟨[⟨[[1, 2, 3, 4]], [1], 2, 0, 4⟩, ⟨[[5, 6, 7]], [1], 1, 5, 3⟩], ⟨1, [("E", [0])]⟩⟩

theorem exE_reach : Reach exE := Reach.new (.dict [("E", .int 0)])
  [.sync ⟨[[1, 2, 3, 4]], [1], 2, 0, 4⟩, .sync ⟨[[5, 6, 7]], [1], 1, 5, 3⟩]
  (by simp; constructor <;> exact ⟨by simp, by simp, by simp⟩) (by simp) (by decide +kernel)

example : Plain exE.tags ∧ (∀ s ∈ exE.runs, 0 < s.rate) ∧
    exE.extractT (1/2) 5 = .ok ⟨[⟨[[2, 3, 4]], [1], 2, 1/2, 3⟩], ⟨1, [("E", [0])]⟩⟩ := by
  refine ⟨?_, ?_, by decide +kernel⟩
  · intro k hk
    simp [reserved] at hk
    rcases hk with rfl | rfl | rfl | rfl | rfl <;> decide
  · simp [exE]

theorem foldl_min_le (l : List ℚ) (a : ℚ) : l.foldl min a ≤ a ∧ ∀ x ∈ l, l.foldl min a ≤ x := by
  induction l generalizing a with
  | nil => simp
  | cons y l ih =>
    obtain ⟨h1, h2⟩ := ih (min a y)
    simp only [List.foldl_cons]
    refine ⟨h1.trans (min_le_left _ _), ?_⟩
    intro x hx
    rcases List.mem_cons.1 hx with rfl | hx
    · exact h1.trans (min_le_right _ _)
    · exact h2 x hx

theorem le_foldl_maxQ (l : List ℚ) (a : ℚ) : a ≤ l.foldl max a ∧ ∀ x ∈ l, x ≤ l.foldl max a := by
  induction l generalizing a with
  | nil => simp
  | cons y l ih =>
    obtain ⟨h1, h2⟩ := ih (max a y)
    simp only [List.foldl_cons]
    refine ⟨(le_max_left _ _).trans h1, ?_⟩
    intro x hx
    rcases List.mem_cons.1 hx with rfl | hx
    · exact (le_max_right _ _).trans h1
    · exact h2 x hx

theorem npMin_ok {l : List ℚ} (h : l ≠ []) : ∃ m, npMin l = .ok m ∧ ∀ x ∈ l, m ≤ x := by
  cases l with
  | nil => exact absurd rfl h
  | cons a l => exact ⟨_, rfl, by simpa using foldl_min_le l a⟩

theorem npMax_ok {l : List ℚ} (h : l ≠ []) : ∃ m, npMax l = .ok m ∧ ∀ x ∈ l, x ≤ m := by
  cases l with
  | nil => exact absurd rfl h
  | cons a l => exact ⟨_, rfl, by simpa using le_foldl_maxQ l a⟩

theorem countIn_congr {P Q : ℚ → Bool} {s : Sync α κ}
    (h : ∀ i, i < s.size → P (sampleTime s.rate s.start i) = Q (sampleTime s.rate s.start i)) :
    countIn P s = countIn Q s := by
  unfold countIn
  congr 1
  apply List.filter_congr
  intro i hi
  exact h i (List.mem_range.1 hi)

theorem keepers_congr {P Q : ℚ → Bool} {l : List (Sync α κ)}
    (h : ∀ s ∈ l, ∀ i, i < s.size → P (sampleTime s.rate s.start i) = Q (sampleTime s.rate s.start i)) :
    keepers P l = keepers Q l := by
  unfold keepers
  apply List.filter_congr
  intro s hs
  rw [countIn_congr (h s hs)]

theorem piece_congr {P Q : ℚ → Bool} {r s : Sync α κ} (hw : WF s)
    (h : ∀ i, i < s.size → P (sampleTime s.rate s.start i) = Q (sampleTime s.rate s.start i))
    (hp : Piece P r s) : Piece Q r s := by
  refine ⟨hp.rate, ?_⟩
  rw [hp.channels]
  apply List.map_congr_left
  intro c hc
  have hc' : c.1 ∈ s.data.map (timed s.rate s.start) := by
    unfold channels at hc
    exact (List.of_mem_zip hc).1
  obtain ⟨d, hd, hcd⟩ := List.mem_map.1 hc'
  congr 1
  apply List.filter_congr
  intro p hp'
  rw [← hcd] at hp'
  obtain ⟨i, hi, rfl⟩ := List.getElem_of_mem hp'
  have hlen : (timed s.rate s.start d).length = d.length := length_timed _ _ _
  have := getElem?_timed s.rate s.start d i
  rw [List.getElem?_eq_getElem hi, List.getElem?_eq_getElem (by omega)] at this
  simp only [Option.map_some, Option.some.injEq] at this
  rw [this]
  apply h
  rw [hw.rect d hd] at hlen
  omega

/-- What `extract_t(start, stop, exclude=True)` computes before its final join. -/
theorem exclude_parts [One κ] {S : SigSet α κ} (hI : SInv S) (hp : Plain S.tags) (hr : ∀ s ∈ S.runs, 0 < s.rate)
    (hne : S.runs ≠ []) (start stop : ℚ) : ∃ (first last : ℚ) (m m' : Nat),
      S.extractT start stop true = SigSet.join ⟨winRuns first start S.runs, ⟨m, S.tags.tags⟩⟩
        [.set ⟨winRuns stop last S.runs, ⟨m', S.tags.tags⟩⟩] ∧
      S.extractIn first start = .ok ⟨winRuns first start S.runs, ⟨m, S.tags.tags⟩⟩ ∧
      S.extractIn stop last = .ok ⟨winRuns stop last S.runs, ⟨m', S.tags.tags⟩⟩ ∧
      (winRuns first start S.runs ≠ [] → m = S.tags.n) ∧ (winRuns stop last S.runs ≠ [] → m' = S.tags.n) ∧
      (∀ s ∈ S.runs, ∀ i, i < s.size → window first start (sampleTime s.rate s.start i) =
        decide (sampleTime s.rate s.start i ≤ start)) ∧
      (∀ s ∈ S.runs, ∀ i, i < s.size → window stop last (sampleTime s.rate s.start i) =
        decide (stop ≤ sampleTime s.rate s.start i)) := by
  obtain ⟨first, hf, hf'⟩ := npMin_ok (l := S.runs.map (fun s => s.start)) (by simpa using hne)
  obtain ⟨last, hl, hl'⟩ := npMax_ok (l := S.runs.map lastTime) (by simpa using hne)
  have hstops : mapE Sync.stop S.runs = .ok (S.runs.map lastTime) :=
    mapE_of_forall (fun s hs => Sync.stop_eq s (hr s hs).ne')
  obtain ⟨m, e1, e2⟩ := extractIn_ok hI hp hr first start
  obtain ⟨m', e3, e4⟩ := extractIn_ok hI hp hr stop last
  refine ⟨first, last, m, m', ?_, e1, e3, e2, e4, ?_, ?_⟩
  · unfold SigSet.extractT
    simp only [if_true, hf, e1, hstops, hl, e3]
  · intro s hs i hi
    have h1 := hf' s.start (List.mem_map.2 ⟨s, hs, rfl⟩)
    have h2 := Sync.start_le_sampleTime (hr s hs) i
    simp [window, h1.trans h2]
  · intro s hs i hi
    have h1 := hl' (lastTime s) (List.mem_map.2 ⟨s, hs, rfl⟩)
    have h2 := Sync.sampleTime_le_last (hr s hs) hi
    simp [window, h2.trans h1]

/-- **C20.** For `start < stop`, on a non-empty set whose last channel has a tag (or where something remains
before `start`), `extract_t(start, stop, exclude=True)` succeeds; its runs are the samples at or before
`start`, then the samples at or after `stop`, of the runs that have at least two such samples. -/
theorem C20_exclude [One κ] (S : SigSet α κ) (hS : Reach S) (hp : Plain S.tags) (hne : S.runs ≠ [])
    (hr : ∀ s ∈ S.runs, 0 < s.rate) (start stop : ℚ) (hlt : start < stop)
    (hlast : (∃ k v i, S.tags.getItem k = .ok v ∧ i ∈ v ∧ i + 1 = S.nbChannels) ∨
      ∃ s ∈ S.runs, 2 ≤ countIn (fun t => decide (t ≤ start)) s) :
    ∃ R L U, S.extractT start stop true = .ok R ∧ R.runs = L ++ U ∧
      List.Forall₂ (Piece fun t => decide (t ≤ start)) L (keepers (fun t => decide (t ≤ start)) S.runs) ∧
      List.Forall₂ (Piece fun t => decide (stop ≤ t)) U (keepers (fun t => decide (stop ≤ t)) S.runs) ∧
      SameTags R.tags S.tags := by
  have hI := reach_sinv hS
  obtain ⟨first, last, m, m', h0, e1, e3, e2, e4, h1, h2⟩ := exclude_parts hI hp hr hne start stop
  have k1 := keepers_congr (Q := fun t => decide (t ≤ start)) h1
  have k2 := keepers_congr (Q := fun t => decide (stop ≤ t)) h2
  have w1 := winRuns_eq hr first start
  have w2 := winRuns_eq hr stop last
  have inv1 : SInv (⟨winRuns first start S.runs, ⟨m, S.tags.tags⟩⟩ : SigSet α κ) := extractIn_sinv e1
  have hnb : S.nbChannels = S.tags.n := nbChannels_tags hI hp
  have hmle : m ≤ S.tags.n := by
    by_cases hc : winRuns first start S.runs = []
    · have := build_nil (α := α) (κ := κ) hI.inv hp
      rw [extractIn_eq hI.ok.wf hr, hc, this] at e1
      simp only [Except.ok.injEq, SigSet.mk.injEq, Tags.mk.injEq] at e1
      rw [← e1.2.1]
      exact SigSet.inferN_le hI.inv
    · exact (e2 hc).le
  have hm : winRuns stop last S.runs ≠ [] → m' = m := by
    intro hc
    rw [e4 hc]
    rcases hlast with ⟨k, v, i, a1, a2, a3⟩ | ⟨s, hs, hs2⟩
    · by_cases hc : winRuns first start S.runs = []
      · have := build_nil (α := α) (κ := κ) hI.inv hp
        rw [extractIn_eq hI.ok.wf hr, hc, this] at e1
        simp only [Except.ok.injEq, SigSet.mk.injEq, Tags.mk.injEq] at e1
        rw [← e1.2.1]
        exact (inferN_lastTagged hI.inv ⟨k, v, i, a1, a2, by omega⟩).symm
      · exact (e2 hc).symm
    · symm
      apply e2
      rw [w1, k1]
      intro hc
      have : s ∈ keepers (fun t => decide (t ≤ start)) S.runs := List.mem_filter.2 ⟨hs, by simpa using hs2⟩
      rw [List.map_eq_nil_iff.1 hc] at this
      simp at this
  have hplain : Plain (⟨m, S.tags.tags⟩ : Tags) := hp
  have hj := join_same_tags (A := ⟨winRuns first start S.runs, ⟨m, S.tags.tags⟩⟩)
    (B := ⟨winRuns stop last S.runs, ⟨m', S.tags.tags⟩⟩) inv1.inv hplain rfl hm
  have p1 := pairwise_winRuns hr first start hI.ok.disjoint
  have p2 := pairwise_winRuns hr stop last hI.ok.disjoint
  have f1 := winRuns_wf hI.ok.wf first start
  have f2 := winRuns_wf hI.ok.wf stop last
  have hpw : (winRuns first start S.runs ++ winRuns stop last S.runs).Pairwise
      (fun a b => a.start ≤ b.start ∧ lastTime a ≤ b.start) := by
    refine List.pairwise_append.2 ⟨p1, p2, ?_⟩
    intro a ha b hb
    obtain ⟨s, hs, h3, rfl⟩ := mem_winRuns.1 ha
    obtain ⟨s', hs', h4, rfl⟩ := mem_winRuns.1 hb
    obtain ⟨_, _, a3, _, a5, _⟩ := Sync.win_bounds (hr s hs) (a := first) (b := start) (by omega)
    obtain ⟨_, _, _, b4, _, _⟩ := Sync.win_bounds (hr s' hs') (a := stop) (b := last) (by omega)
    constructor <;> linarith
  have hall : ∀ r ∈ winRuns first start S.runs ++ winRuns stop last S.runs,
      ∃ s ∈ S.runs, r.rate = s.rate ∧ r.data.length = s.data.length := by
    intro r hr'
    rcases List.mem_append.1 hr' with h | h
    · obtain ⟨_, s, hs, h3, h4, _⟩ := f1 r h; exact ⟨s, hs, h3, h4⟩
    · obtain ⟨_, s, hs, h3, h4, _⟩ := f2 r h; exact ⟨s, hs, h3, h4⟩
  obtain ⟨mm, hb, _⟩ := build_of (n := S.tags.n) inv1.inv hplain (hpw.imp (fun h => h.1)) (hpw.imp (fun h => h.2))
    (by intro r hr'; obtain ⟨s, hs, h3, _⟩ := hall r hr'; rw [h3]; exact (hr s hs).ne')
    (by intro r hr'; obtain ⟨s, hs, _, h4⟩ := hall r hr'; rw [h4]; exact (hI.n s hs).symm)
    (by
      intro hc
      obtain ⟨r, hr'⟩ := List.exists_mem_of_ne_nil _ hc
      obtain ⟨s, hs, _⟩ := hall r hr'
      refine ⟨?_, hmle⟩
      rw [hI.n s hs]
      simpa using (hI.ok.wf s hs).nonempty)
  refine ⟨⟨winRuns first start S.runs ++ winRuns stop last S.runs, ⟨mm, S.tags.tags⟩⟩,
    winRuns first start S.runs, winRuns stop last S.runs, ?_, rfl, ?_, ?_, fun k => rfl⟩
  · rw [h0, hj, hb]
  · rw [w1, k1, List.forall₂_map_left_iff, List.forall₂_same]
    intro s hs
    have hs' := (List.mem_filter.1 hs).1
    exact piece_congr (hI.ok.wf s hs') (h1 s hs') (Sync.piece_win (hI.ok.wf s hs') (hr s hs') _ _)
  · rw [w2, k2, List.forall₂_map_left_iff, List.forall₂_same]
    intro s hs
    have hs' := (List.mem_filter.1 hs).1
    exact piece_congr (hI.ok.wf s hs') (h2 s hs') (Sync.piece_win (hI.ok.wf s hs') (hr s hs') _ _)

example : (∃ k v i, exE.tags.getItem k = .ok v ∧ i ∈ v ∧ i + 1 = exE.nbChannels) ∧
    exE.extractT (1/2) (11/2) true =
      .ok ⟨[⟨[[1, 2]], [1], 2, 0, 2⟩, ⟨[[6, 7]], [1], 1, 6, 2⟩], ⟨1, [("E", [0])]⟩⟩ :=
  ⟨⟨"E", [0], 0, by decide, by simp, by decide⟩, by decide +kernel⟩

/-- **C20.** Nothing strictly inside the window remains. -/
theorem C20_nothing_inside [One κ] (S R : SigSet α κ) (hS : Reach S) (hp : Plain S.tags) (hne : S.runs ≠ [])
    (hr : ∀ s ∈ S.runs, 0 < s.rate) (start stop : ℚ)
    (h : S.extractT start stop true = .ok R) :
    ∀ r ∈ R.runs, ∀ c ∈ channels r, ∀ p ∈ c.1, p.1 ≤ start ∨ stop ≤ p.1 := by
  have hI := reach_sinv hS
  obtain ⟨first, last, m, m', h0, e1, e3, e2, e4, h1, h2⟩ := exclude_parts hI hp hr hne start stop
  have inv1 : SInv (⟨winRuns first start S.runs, ⟨m, S.tags.tags⟩⟩ : SigSet α κ) := extractIn_sinv e1
  have hplain : Plain (⟨m, S.tags.tags⟩ : Tags) := hp
  -- the join can only succeed when the ranges agree or the right part is empty
  have hm : winRuns stop last S.runs ≠ [] → m' = m := by
    intro hc
    by_contra hmm
    have hnb : (⟨winRuns stop last S.runs, ⟨m', S.tags.tags⟩⟩ : SigSet α κ).nbChannels = m' :=
      nbChannels_tags (extractIn_sinv e3) hp
    have hw : winRuns first start S.runs = [] := by
      by_contra hcw
      exact hmm ((e4 hc).trans (e2 hcw).symm)
    have hle : m < m' := by
      have := build_nil (α := α) (κ := κ) hI.inv hp
      rw [extractIn_eq hI.ok.wf hr, hw, this] at e1
      simp only [Except.ok.injEq, SigSet.mk.injEq, Tags.mk.injEq] at e1
      have h5 := SigSet.inferN_le hI.inv
      rw [e1.2.1, ← e4 hc] at h5
      omega
    have he := reorder_untagged (T := ⟨winRuns stop last S.runs, ⟨m', S.tags.tags⟩⟩) (t := ⟨m, S.tags.tags⟩)
      inv1.inv hplain rfl hmm hc (c := m) (by rw [hnb]; exact hle)
      (by
        intro k v hv hmem
        have := (inv1.inv.legal k v (Tags.getItem_ok.1 hv)).2.2 m hmem
        simp at this)
    rw [h0] at h
    obtain ⟨A', a1, a2⟩ := reorder_same_tags (T := (⟨winRuns first start S.runs, ⟨m, S.tags.tags⟩⟩ : SigSet α κ))
      inv1.inv hplain rfl (fun _ => rfl)
    unfold SigSet.join SigSet.new at h
    simp only [mapE, argRuns, a1, he] at h
    simp at h
  rw [h0, join_same_tags (A := ⟨winRuns first start S.runs, ⟨m, S.tags.tags⟩⟩)
    (B := ⟨winRuns stop last S.runs, ⟨m', S.tags.tags⟩⟩) inv1.inv hplain rfl hm] at h
  obtain ⟨_, _, _, hR, _⟩ := build_iff.1 h
  intro r hr'
  have hr2 : r ∈ winRuns first start S.runs ++ winRuns stop last S.runs := by
    rw [hR] at hr'
    exact (mem_sortRuns).1 hr'
  intro c hc p hp'
  rcases List.mem_append.1 hr2 with hr3 | hr3
  · obtain ⟨s, hs, h4, rfl⟩ := mem_winRuns.1 hr3
    rw [(Sync.piece_win (hI.ok.wf s hs) (hr s hs) first start).channels] at hc
    obtain ⟨c0, _, rfl⟩ := List.mem_map.1 hc
    have := (List.mem_filter.1 hp').2
    simp [window] at this
    exact Or.inl this.2
  · obtain ⟨s, hs, h4, rfl⟩ := mem_winRuns.1 hr3
    rw [(Sync.piece_win (hI.ok.wf s hs) (hr s hs) stop last).channels] at hc
    obtain ⟨c0, _, rfl⟩ := List.mem_map.1 hc
    have := (List.mem_filter.1 hp').2
    simp [window] at this
    exact Or.inr this.1

/-- **C20, negative.** "Never raises" is false without the tag hypothesis of `C20_exclude`: when nothing
remains before `start`, something remains after `stop` and the last channel has no tag, the call raises
KeyError. -/
theorem C20_untagged_raises [One κ] (S : SigSet α κ) (hS : Reach S) (hp : Plain S.tags) (hne : S.runs ≠ [])
    (hr : ∀ s ∈ S.runs, 0 < s.rate) (start stop : ℚ)
    (hleft : ∀ s ∈ S.runs, countIn (fun t => decide (t ≤ start)) s < 2)
    (hright : ∃ s ∈ S.runs, 2 ≤ countIn (fun t => decide (stop ≤ t)) s)
    (hun : ∀ k v i, S.tags.getItem k = .ok v → i ∈ v → i + 1 ≠ S.nbChannels) :
    S.extractT start stop true = .error .key := by
  have hI := reach_sinv hS
  obtain ⟨first, last, m, m', h0, e1, e3, e2, e4, h1, h2⟩ := exclude_parts hI hp hr hne start stop
  have inv1 : SInv (⟨winRuns first start S.runs, ⟨m, S.tags.tags⟩⟩ : SigSet α κ) := extractIn_sinv e1
  have hplain : Plain (⟨m, S.tags.tags⟩ : Tags) := hp
  have hnb0 : S.nbChannels = S.tags.n := nbChannels_tags hI hp
  have hw : winRuns first start S.runs = [] := by
    rw [winRuns_eq hr, keepers_congr (Q := fun t => decide (t ≤ start)) h1, List.map_eq_nil_iff]
    unfold keepers
    rw [List.filter_eq_nil_iff]
    intro s hs
    have := hleft s hs
    simp; omega
  have hc : winRuns stop last S.runs ≠ [] := by
    obtain ⟨s, hs, hs2⟩ := hright
    rw [winRuns_eq hr, keepers_congr (Q := fun t => decide (stop ≤ t)) h2]
    intro hcc
    have : s ∈ keepers (fun t => decide (stop ≤ t)) S.runs := List.mem_filter.2 ⟨hs, by simpa using hs2⟩
    rw [List.map_eq_nil_iff.1 hcc] at this
    simp at this
  have hnpos : 0 < S.tags.n := by
    obtain ⟨s, hs⟩ := List.exists_mem_of_ne_nil _ hne
    rw [hI.n s hs]
    exact List.length_pos_iff.2 (hI.ok.wf s hs).nonempty
  have hm : m < S.tags.n := by
    have := build_nil (α := α) (κ := κ) hI.inv hp
    rw [extractIn_eq hI.ok.wf hr, hw, this] at e1
    simp only [Except.ok.injEq, SigSet.mk.injEq, Tags.mk.injEq] at e1
    rw [← e1.2.1]
    have : Tags.inferN (S.tags.tags.map (fun e => (e.1, Tags.toVal e.2))) ≤ S.tags.n - 1 := by
      rw [Props.inferN_le]
      · intro e he i hi
        obtain ⟨⟨k, v⟩, hkv, rfl⟩ := List.mem_map.1 he
        obtain ⟨j, hj, rfl⟩ := Tags.mem_tupleit_toVal.1 hi
        have hkv' := Dict.get?_of_mem hI.inv.nodup hkv
        have h7 := hun k v j (Tags.getItem_ok.2 hkv') hj
        have h8 := (hI.inv.legal k v hkv').2.2 j hj
        omega
      · intro e he i hi
        obtain ⟨⟨k, v⟩, hkv, rfl⟩ := List.mem_map.1 he
        obtain ⟨j, hj, rfl⟩ := Tags.mem_tupleit_toVal.1 hi
        omega
    omega
  have hnb : (⟨winRuns stop last S.runs, ⟨m', S.tags.tags⟩⟩ : SigSet α κ).nbChannels = m' :=
    nbChannels_tags (extractIn_sinv e3) hp
  have he := reorder_untagged (T := ⟨winRuns stop last S.runs, ⟨m', S.tags.tags⟩⟩) (t := ⟨m, S.tags.tags⟩)
    inv1.inv hplain rfl (by rw [e4 hc]; simp; omega) hc (c := m) (by rw [hnb, e4 hc]; exact hm)
    (by
      intro k v hv hmem
      have := (inv1.inv.legal k v (Tags.getItem_ok.1 hv)).2.2 m hmem
      simp at this)
  obtain ⟨A', a1, a2⟩ := reorder_same_tags (T := (⟨winRuns first start S.runs, ⟨m, S.tags.tags⟩⟩ : SigSet α κ))
    inv1.inv hplain rfl (fun _ => rfl)
  rw [h0]
  unfold SigSet.join SigSet.new
  simp only [mapE, argRuns, a1, he]

def exU : SigSet Int ℚ := ⟨[⟨[[1, 2], [3, 4]], [1, 1], 1, 0, 2⟩], ⟨2, [("E", [0])]⟩⟩

/-- A two-channel set whose second channel has no tag: removing `[-2, -1]`, which touches nothing, raises. -/
example : Reach exU ∧ (∀ s ∈ exU.runs, countIn (fun t => decide (t ≤ (-2 : ℚ))) s < 2) ∧
    (∃ s ∈ exU.runs, 2 ≤ countIn (fun t => decide ((-1 : ℚ) ≤ t)) s) ∧
    exU.extractT (-2) (-1) true = .error .key := by
  refine ⟨Reach.new (.dict [("E", .int 0)]) [.sync ⟨[[1, 2], [3, 4]], [1, 1], 1, 0, 2⟩] ?_ (by simp)
    (by decide +kernel), ?_, ?_, by decide +kernel⟩
  · intro s hs; simp at hs; subst hs; exact ⟨by simp, by simp, by simp⟩
  · decide +kernel
  · decide +kernel

/-- Windows compose. -/
theorem win_win {s : Sync α κ} (hr : 0 < s.rate) (a b c d : ℚ) (h : 1 < (s.win a b).size) :
    (1 < ((s.win a b).win c d).size ↔ 1 < (s.win (max a c) (min b d)).size) ∧
    (1 < ((s.win a b).win c d).size → (s.win a b).win c d = s.win (max a c) (min b d)) := by
  have hsz : (s.win a b).size = s.iHi b - s.iLo a := rfl
  have hst : (s.win a b).start = sampleTime s.rate s.start (s.iLo a) := rfl
  have hrt : (s.win a b).rate = s.rate := rfl
  have hle := Sync.iHi_le (s := s) b
  have hr' : 0 < (s.win a b).rate := hr
  have hlo : s.iLo (max a c) = max (s.iLo a) (s.iLo c) := by
    apply le_antisymm
    · rw [Sync.iLo_le hr, max_le_iff]
      exact ⟨(Sync.iLo_le hr a _).1 (le_max_left _ _), (Sync.iLo_le hr c _).1 (le_max_right _ _)⟩
    · rw [max_le_iff, Sync.iLo_le hr, Sync.iLo_le hr]
      have := (Sync.iLo_le hr (max a c) _).1 le_rfl
      exact ⟨(le_max_left _ _).trans this, (le_max_right _ _).trans this⟩
  have hhi : s.iHi (min b d) = min (s.iHi b) (s.iHi d) := by
    have key : ∀ i, i < s.iHi (min b d) ↔ i < min (s.iHi b) (s.iHi d) := by
      intro i
      rw [lt_min_iff, Sync.lt_iHi hr, Sync.lt_iHi hr, Sync.lt_iHi hr, le_min_iff]
      tauto
    have k1 := key (s.iHi (min b d))
    have k2 := key (min (s.iHi b) (s.iHi d))
    omega
  have hlo2 : (s.win a b).iLo c = s.iLo c - s.iLo a := by
    have key : ∀ i, (s.win a b).iLo c ≤ i ↔ s.iLo c - s.iLo a ≤ i := by
      intro i
      rw [Sync.iLo_le hr', hst, hrt, sampleTime_add, ← Sync.iLo_le hr]
      omega
    have k1 := key ((s.win a b).iLo c)
    have k2 := key (s.iLo c - s.iLo a)
    omega
  have hhi2 : (s.win a b).iHi d = min (s.iHi b) (s.iHi d) - s.iLo a := by
    have key : ∀ i, i < (s.win a b).iHi d ↔ i < min (s.iHi b) (s.iHi d) - s.iLo a := by
      intro i
      rw [Sync.lt_iHi hr', hst, hrt, hsz, sampleTime_add]
      have := Sync.lt_iHi hr d (s.iLo a + i)
      constructor
      · rintro ⟨h1, h2⟩
        have := this.2 ⟨by omega, h2⟩
        omega
      · intro h1
        exact ⟨by omega, (this.1 (by omega)).2⟩
    have k1 := key ((s.win a b).iHi d)
    have k2 := key (min (s.iHi b) (s.iHi d) - s.iLo a)
    omega
  have s1 : ((s.win a b).win c d).size = (s.win a b).iHi d - (s.win a b).iLo c := rfl
  have s2 : (s.win (max a c) (min b d)).size = s.iHi (min b d) - s.iLo (max a c) := rfl
  refine ⟨?_, ?_⟩
  · rw [s1, s2, hlo, hhi, hlo2, hhi2]; omega
  · intro h1
    rw [s1, hlo2, hhi2] at h1
    have e1 : s.iLo (max a c) = s.iLo a + (s.iLo c - s.iLo a) := by rw [hlo]; omega
    have e2 : s.iHi (min b d) - s.iLo (max a c) = (s.win a b).iHi d - (s.win a b).iLo c := by
      rw [hlo, hhi, hlo2, hhi2]; omega
    unfold Sync.win at hlo2 hhi2 e2 ⊢
    rw [e2, e1]
    simp only [hlo2, hhi2]
    unfold Sync.cut
    simp only [Sync.mk.injEq, List.map_map, true_and]
    refine ⟨?_, sampleTime_add _ _ _ _, trivial⟩
    apply List.map_congr_left
    intro d' _
    simp only [Function.comp, List.drop_take, List.take_take, List.drop_drop]
    congr 1
    omega

/-- **C21.** Two successive extractions give the runs of the extraction on the intersection. -/
theorem C21_compose [One κ] (S R R' : SigSet α κ) (hS : Reach S) (hp : Plain S.tags)
    (hr : ∀ s ∈ S.runs, 0 < s.rate) (a b c d : ℚ)
    (h : S.extractT a b = .ok R) (h' : R.extractT c d = .ok R') :
    ∃ T, S.extractT (max a c) (min b d) = .ok T ∧ R'.runs = T.runs ∧ SameTags R'.tags T.tags := by
  have hI := reach_sinv hS
  obtain ⟨m, h1, _⟩ := extractIn_ok hI hp hr a b
  have hR : R = ⟨winRuns a b S.runs, ⟨m, S.tags.tags⟩⟩ := by
    have : S.extractIn a b = .ok R := h
    rw [this] at h1; simpa using h1
  have hIR : SInv R := extractIn_sinv h
  have hpR : Plain R.tags := by rw [hR]; exact hp
  have hrR : ∀ s ∈ R.runs, 0 < s.rate := by
    intro r hr'
    rw [hR] at hr'
    obtain ⟨_, s, hs, h2, _⟩ := winRuns_wf hI.ok.wf a b r hr'
    rw [h2]; exact hr s hs
  obtain ⟨m2, h2, _⟩ := extractIn_ok hIR hpR hrR c d
  have hR' : R' = ⟨winRuns c d R.runs, ⟨m2, R.tags.tags⟩⟩ := by
    have : R.extractIn c d = .ok R' := h'
    rw [this] at h2; simpa using h2
  obtain ⟨m3, h3, _⟩ := extractIn_ok hI hp hr (max a c) (min b d)
  refine ⟨_, h3, ?_, ?_⟩
  · rw [hR', hR]
    simp only
    have key : ∀ l : List (Sync α κ), (∀ s ∈ l, 0 < s.rate) →
        winRuns c d (winRuns a b l) = winRuns (max a c) (min b d) l := by
      intro l
      induction l with
      | nil => intro _; rfl
      | cons s l ih =>
        intro hl
        have ih' := ih (fun s hs => hl s (by simp [hs]))
        have hs := hl s (by simp)
        unfold winRuns at ih' ⊢
        simp only [List.map_cons, List.filter_cons]
        by_cases h0 : 1 < (s.win a b).size
        · obtain ⟨w1, w2⟩ := win_win hs a b c d h0
          rw [if_pos (by simpa using h0)]
          simp only [List.map_cons, List.filter_cons]
          by_cases h1 : 1 < ((s.win a b).win c d).size
          · rw [if_pos (by simpa using h1), if_pos (by simpa using w1.1 h1), ih', w2 h1]
          · rw [if_neg (by simpa using h1), if_neg (by simpa using fun hc => h1 (w1.2 hc)), ih']
        · rw [if_neg (by simpa using h0), if_neg, ih']
          -- a smaller window has fewer samples
          have e1 : s.iHi (min b d) ≤ s.iHi b := by
            by_contra hc
            have := (Sync.lt_iHi hs (min b d) (s.iHi b)).1 (by omega)
            have := (Sync.lt_iHi hs b (s.iHi b)).2 ⟨this.1, this.2.trans (min_le_left _ _)⟩
            omega
          have e2 : s.iLo a ≤ s.iLo (max a c) := by
            rw [Sync.iLo_le hs]
            exact (le_max_left _ _).trans ((Sync.iLo_le hs (max a c) _).1 le_rfl)
          have e3 : (s.win a b).size = s.iHi b - s.iLo a := rfl
          have e4 : (s.win (max a c) (min b d)).size = s.iHi (min b d) - s.iLo (max a c) := rfl
          simp only [decide_eq_true_eq, e4]
          omega
    exact key S.runs hr
  · intro k; rw [hR', hR]; rfl

example : exE.extractT 0 6 = .ok ⟨[⟨[[1, 2, 3, 4]], [1], 2, 0, 4⟩, ⟨[[5, 6]], [1], 1, 5, 2⟩], ⟨1, [("E", [0])]⟩⟩ ∧
    SigSet.extractT (⟨[⟨[[1, 2, 3, 4]], [1], 2, 0, 4⟩, ⟨[[5, 6]], [1], 1, 5, 2⟩], ⟨1, [("E", [0])]⟩⟩ : SigSet Int ℚ)
      (1/2) 9 = .ok ⟨[⟨[[2, 3, 4]], [1], 2, 1/2, 3⟩, ⟨[[5, 6]], [1], 1, 5, 2⟩], ⟨1, [("E", [0])]⟩⟩ := by
  decide +kernel

end Razorback.Props
