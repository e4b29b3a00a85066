/- Lemmas about time extraction on signal sets. -/
import Verif.Lemmas.Select
import Verif.Spec.Extract

namespace Razorback
open Spec
variable {α β κ : Type _}

/-- First sample index at or after time `a`. -/
def Sync.iLo (s : Sync α κ) (a : ℚ) : Nat := ⌈(a - s.start) * s.rate⌉.toNat
/-- One past the last sample index at or before time `b`. -/
def Sync.iHi (s : Sync α κ) (b : ℚ) : Nat := min s.size (⌊(b - s.start) * s.rate⌋ + 1).toNat
/-- The samples in `[a, b]`. -/
def Sync.win (s : Sync α κ) (a b : ℚ) : Sync α κ := s.cut (s.iLo a) (s.iHi b - s.iLo a)

theorem Sync.iLo_le {s : Sync α κ} (hr : 0 < s.rate) (a : ℚ) (i : Nat) :
    s.iLo a ≤ i ↔ a ≤ sampleTime s.rate s.start i := by
  have := Sync.ceil_le_iff hr a (i : Int)
  simp only [Sync.timeToIndex, Rnd.rnd_exact] at this
  unfold Sync.iLo sampleTime
  rw [show (((i : Nat) : Int) : ℚ) = (i : ℚ) from by push_cast; rfl] at this
  rw [← this]; omega

theorem Sync.lt_iHi {s : Sync α κ} (hr : 0 < s.rate) (b : ℚ) (i : Nat) :
    i < s.iHi b ↔ i < s.size ∧ sampleTime s.rate s.start i ≤ b := by
  have := Sync.le_floor_iff hr b (i : Int)
  simp only [Sync.timeToIndex, Rnd.rnd_exact] at this
  unfold Sync.iHi sampleTime
  rw [show (((i : Nat) : Int) : ℚ) = (i : ℚ) from by push_cast; rfl] at this
  rw [← this]; omega

theorem Sync.iHi_le {s : Sync α κ} (b : ℚ) : s.iHi b ≤ s.size := by unfold Sync.iHi; omega

theorem length_filter_interval (n k e : Nat) (he : e ≤ n) :
    ((List.range n).filter (fun i => decide (k ≤ i) && decide (i < e))).length = e - k := by
  rw [filter_eq_cut (List.range n) _ k (e - k)]
  · simp; omega
  · intro i hi
    simp at hi ⊢
    omega

theorem Sync.countIn_window {s : Sync α κ} (hr : 0 < s.rate) (a b : ℚ) :
    countIn (window a b) s = s.iHi b - s.iLo a := by
  unfold countIn
  rw [← length_filter_interval s.size (s.iLo a) (s.iHi b) (Sync.iHi_le b)]
  congr 1
  apply List.filter_congr
  intro i hi
  rw [List.mem_range] at hi
  rw [Bool.eq_iff_iff]
  simp only [window, Bool.and_eq_true, decide_eq_true_eq, Sync.iLo_le hr, Sync.lt_iHi hr]
  tauto

theorem Sync.piece_win {s : Sync α κ} (hw : WF s) (hr : 0 < s.rate) (a b : ℚ) :
    Piece (window a b) (s.win a b) s := by
  refine ⟨rfl, Sync.channels_filter_cut hw (window a b) _ _ ?_⟩
  intro i hi
  have h1 := Sync.iLo_le hr a i
  have h2 := Sync.lt_iHi hr b i
  simp only [window, Bool.and_eq_true, decide_eq_true_eq, ← h1]
  constructor
  · rintro ⟨h3, h4⟩
    have := h2.2 ⟨hi, h4⟩
    omega
  · intro ⟨h3, h4⟩
    exact ⟨h3, (h2.1 (by omega)).2⟩

theorem Sync.win_wf {s : Sync α κ} (hw : WF s) (a b : ℚ) (h : s.iLo a < s.iHi b) : WF (s.win a b) := by
  apply Sync.cut_wf hw
  have := Sync.iHi_le (s := s) b
  omega

/-- `extract_t` of a run: the window when it has two samples or more, otherwise a result with at most one
sample. -/
theorem Sync.extractT_win [One κ] {s : Sync α κ} (hw : WF s) (hr : 0 < s.rate) (a b : ℚ) :
    ∃ r, s.extractT a b = .ok r ∧ ((1 < r.size ↔ 1 < (s.win a b).size) ∧ (1 < r.size → r = s.win a b)) := by
  by_cases hs : 0 < s.size
  · obtain ⟨k, m, hk, hm, he, h1, h2⟩ := Sync.extractT_cut hw hr hs a b
    refine ⟨_, he, ?_⟩
    have hst := Sync.start_le_sampleTime hr (s := s)
    have hlast : ∀ i, i < s.size → sampleTime s.rate s.start i ≤ lastTime s := fun i hi =>
      Sync.sampleTime_le_last hr hi
    have hlt : ∀ {i j : Nat}, sampleTime s.rate s.start i < sampleTime s.rate s.start j ↔ i < j := sampleTime_strictMono hr s.start
    have key : 1 < m + 1 - k ∨ 1 < s.iHi b - s.iLo a → k = s.iLo a ∧ m + 1 = s.iHi b := by
      intro hor
      -- two different indices lie between the bounds
      have hab : a ≤ lastTime s ∧ s.start ≤ b := by
        rcases hor with h | h
        · have e1 := (h1 (k + 1)).1 (by omega)
          have e2 := (h2 (k + 1)).1 (by omega)
          have e3 := (h1 k).1 le_rfl
          have e4 := (h2 k).1 (by omega)
          have e5 := hlast (k + 1) (by omega)
          have e6 : sampleTime s.rate s.start k < sampleTime s.rate s.start (k + 1) := (hlt (i := k) (j := k+1)).2 (by omega)
          have e7 := hst k
          constructor
          · by_contra hc
            push Not at hc
            have : min (lastTime s) (max s.start a) = lastTime s := by
              rw [min_eq_left]; exact le_trans hc.le (le_max_right _ _)
            rw [this] at e3
            linarith
          · by_contra hc
            push Not at hc
            have : max s.start b = s.start := max_eq_left hc.le
            rw [this] at e2
            have := e2.trans (min_le_right _ _)
            linarith
        · have e1 := (Sync.iLo_le hr a (s.iLo a)).1 le_rfl
          have e2 := (Sync.lt_iHi hr b (s.iLo a)).1 (by omega)
          exact ⟨e1.trans (hlast _ e2.1), (hst _).trans e2.2⟩
      have hlo : ∀ i, i < s.size → (k ≤ i ↔ s.iLo a ≤ i) := by
        intro i hi
        rw [h1, Sync.iLo_le hr, min_le_iff, max_le_iff]
        constructor
        · rintro (h | h)
          · exact hab.1.trans h
          · exact h.2
        · intro h; exact Or.inr ⟨hst i, h⟩
      have hhi : ∀ i, i < s.size → (i ≤ m ↔ i < s.iHi b) := by
        intro i hi
        rw [h2, Sync.lt_iHi hr, le_min_iff, le_max_iff]
        constructor
        · rintro ⟨_, h | h⟩
          · exact ⟨hi, h.trans hab.2⟩
          · exact ⟨hi, h⟩
        · rintro ⟨_, h⟩; exact ⟨hlast i hi, Or.inr h⟩
      have hloa : s.iLo a < s.size := by
        have : s.iLo a ≤ s.size - 1 := by
          rw [Sync.iLo_le hr]
          have := Sync.lastTime_eq hs
          rw [← this]; exact hab.1
        omega
      have hble := Sync.iHi_le (s := s) b
      have hbm : s.iHi b ≠ 0 := by
        have := (hhi 0 hs).1 (by omega)
        omega
      have a1 := (hlo k hk).1 le_rfl
      have a2 := (hlo _ hloa).2 le_rfl
      have a3 := (hhi m hm).1 le_rfl
      have a4 := (hhi (s.iHi b - 1) (by omega)).2 (by omega)
      omega
    refine ⟨?_, ?_⟩
    · simp only [Sync.win, Sync.cut]
      constructor
      · intro h; obtain ⟨e1, e2⟩ := key (Or.inl h); omega
      · intro h; obtain ⟨e1, e2⟩ := key (Or.inr h); omega
    · intro h
      simp only [Sync.cut] at h
      obtain ⟨e1, e2⟩ := key (Or.inl h)
      simp only [Sync.win]; rw [e1, e2]
  · have hs0 : s.size = 0 := by omega
    have hsz : (s.win a b).size = 0 := by
      simp [Sync.win, Sync.cut, Sync.iHi, hs0]
    have hd : ∀ d ∈ s.data, d = [] := fun d hd => List.eq_nil_of_length_eq_zero (by rw [hw.rect d hd, hs0])
    have : ∀ (i j : Option Int), ∃ r, s.extractI i j false true = .ok r ∧ r.size = 0 := by
      intro i j
      unfold Sync.extractI
      simp only [Bool.false_and, Bool.false_eq_true, if_false, Sync.indexToTime, hr.ne']
      generalize ((j.map (fun j => if True then j + 1 else j)).getD (s.size : Int)) = J
      refine ⟨_, Sync.new_eq (n := 0) (by simpa using hw.nonempty) ?_ (by simpa using hw.cals), rfl⟩
      simp only [List.mem_map, forall_exists_index, and_imp, forall_apply_eq_imp_iff₂]
      intro d hd'
      rw [hd d hd']
      simp [pySlice]
    obtain ⟨r, hr1, hr2⟩ := this
      (some (s.timeToIndex (min (lastTime s) (max s.start a)) .right))
      (some (s.timeToIndex (min (lastTime s) (max s.start b)) .left))
    refine ⟨r, ?_, ?_⟩
    · unfold Sync.extractT
      rw [Sync.stop_eq s hr.ne']
      simpa using hr1
    · rw [hr2, hsz]; simp

namespace SigSet

/-- Runs with two samples or more in the window. -/
def winRuns (a b : ℚ) (runs : List (Sync α κ)) : List (Sync α κ) :=
  (runs.map (fun s => s.win a b)).filter (fun s => decide (1 < s.size))

theorem winRuns_eq {runs : List (Sync α κ)} (hr : ∀ s ∈ runs, 0 < s.rate) (a b : ℚ) :
    winRuns a b runs = (keepers (window a b) runs).map (fun s => s.win a b) := by
  unfold winRuns keepers
  rw [List.filter_map]
  congr 1
  apply List.filter_congr
  intro s hs
  simp only [Function.comp, Sync.win, Sync.cut, Sync.countIn_window (hr s hs)]
  rfl

theorem extractIn_eq [One κ] {S : SigSet α κ} (hw : ∀ s ∈ S.runs, WF s) (hr : ∀ s ∈ S.runs, 0 < s.rate) (a b : ℚ) :
    S.extractIn a b = build (.tags S.tags) (winRuns a b S.runs) := by
  unfold extractIn winRuns
  have key : ∀ l : List (Sync α κ), (∀ s ∈ l, WF s) → (∀ s ∈ l, 0 < s.rate) →
      ∃ rs, mapE (fun s : Sync α κ => s.extractT a b) l = .ok rs ∧
        rs.filter (fun s => decide (1 < s.size)) = (l.map (fun s => s.win a b)).filter (fun s => decide (1 < s.size)) := by
    intro l
    induction l with
    | nil => intro _ _; exact ⟨[], rfl, rfl⟩
    | cons s l ih =>
      intro h1 h2
      obtain ⟨rs, e1, e2⟩ := ih (fun s hs => h1 s (by simp [hs])) (fun s hs => h2 s (by simp [hs]))
      obtain ⟨r, e3, e4, e5⟩ := Sync.extractT_win (h1 s (by simp)) (h2 s (by simp)) a b
      refine ⟨r :: rs, ?_, ?_⟩
      · simp only [mapE, e3, e1]
      · simp only [List.map_cons, List.filter_cons]
        by_cases h : 1 < r.size
        · rw [if_pos (by simpa using h), if_pos (by simpa using e4.1 h), e2, e5 h]
        · rw [if_neg (by simpa using h), if_neg (by simpa using fun hc => h (e4.2 hc)), e2]
  obtain ⟨rs, e1, e2⟩ := key S.runs hw hr
  rw [e1]
  simp only [e2]

theorem mem_winRuns {a b : ℚ} {runs : List (Sync α κ)} {r : Sync α κ} :
    r ∈ winRuns a b runs ↔ ∃ s ∈ runs, 1 < (s.win a b).size ∧ r = s.win a b := by
  simp only [winRuns, List.mem_filter, List.mem_map, decide_eq_true_eq]
  constructor
  · rintro ⟨⟨s, hs, rfl⟩, h⟩; exact ⟨s, hs, h, rfl⟩
  · rintro ⟨s, hs, h, rfl⟩; exact ⟨⟨s, hs, rfl⟩, h⟩

theorem _root_.Razorback.Sync.win_bounds {s : Sync α κ} (hr : 0 < s.rate) {a b : ℚ} (h : 0 < (s.win a b).size) :
    s.start ≤ (s.win a b).start ∧ lastTime (s.win a b) ≤ lastTime s ∧
    (s.win a b).start ≤ lastTime (s.win a b) ∧
    a ≤ (s.win a b).start ∧ lastTime (s.win a b) ≤ b ∧ s.iLo a < s.iHi b := by
  have hsz : (s.win a b).size = s.iHi b - s.iLo a := rfl
  rw [hsz] at h
  have hst : (s.win a b).start = sampleTime s.rate s.start (s.iLo a) := rfl
  have hle := Sync.iHi_le (s := s) b
  have hlast : lastTime (s.win a b) = sampleTime s.rate s.start (s.iHi b - 1) := by
    rw [Sync.lastTime_eq (by rw [hsz]; exact h)]
    rw [hst, hsz]
    rw [show (s.win a b).rate = s.rate from rfl, sampleTime_add]
    congr 1; omega
  rw [hlast, hst]
  refine ⟨Sync.start_le_sampleTime hr _, Sync.sampleTime_le_last hr (by omega), ?_, ?_, ?_, by omega⟩
  · rw [sampleTime_mono hr]; omega
  · exact (Sync.iLo_le hr a _).1 le_rfl
  · exact ((Sync.lt_iHi hr b (s.iHi b - 1)).1 (by omega)).2

theorem pairwise_winRuns {runs : List (Sync α κ)} (hr : ∀ s ∈ runs, 0 < s.rate) (a b : ℚ)
    (hd : runs.Pairwise (fun a b => lastTime a ≤ b.start)) :
    (winRuns a b runs).Pairwise (fun a b => a.start ≤ b.start ∧ lastTime a ≤ b.start) := by
  unfold winRuns
  induction runs with
  | nil => simp
  | cons s l ih =>
    obtain ⟨h1, h2⟩ := List.pairwise_cons.1 hd
    have ih' := ih (fun s hs => hr s (by simp [hs])) h2
    simp only [List.map_cons, List.filter_cons]
    split
    · rename_i h0
      refine List.pairwise_cons.2 ⟨?_, ih'⟩
      intro r hr'
      obtain ⟨s', hs', h3, rfl⟩ := mem_winRuns.1 hr'
      simp only [decide_eq_true_eq] at h0
      obtain ⟨_, a2, a3, _⟩ := Sync.win_bounds (hr s (by simp)) (a := a) (b := b) (by omega)
      obtain ⟨b1, _, _, _⟩ := Sync.win_bounds (hr s' (by simp [hs'])) (a := a) (b := b) (by omega)
      have := h1 s' hs'
      constructor <;> linarith
    · exact ih'

theorem winRuns_wf {runs : List (Sync α κ)} (hw : ∀ s ∈ runs, WF s) (a b : ℚ) :
    ∀ r ∈ winRuns a b runs, WF r ∧ ∃ s ∈ runs, r.rate = s.rate ∧ r.data.length = s.data.length ∧ 1 < r.size := by
  intro r hr'
  obtain ⟨s, hs, h, rfl⟩ := mem_winRuns.1 hr'
  refine ⟨Sync.win_wf (hw s hs) a b ?_, s, hs, rfl, by simp [Sync.win, Sync.cut], h⟩
  have : (s.win a b).size = s.iHi b - s.iLo a := rfl
  omega

/-- `extract_t` succeeds on reachable sets with plain tags and positive rates. -/
theorem extractIn_ok [One κ] {S : SigSet α κ} (hI : SInv S) (hp : Plain S.tags) (hr : ∀ s ∈ S.runs, 0 < s.rate)
    (a b : ℚ) : ∃ m, S.extractIn a b = .ok ⟨winRuns a b S.runs, ⟨m, S.tags.tags⟩⟩ ∧
      (winRuns a b S.runs ≠ [] → m = S.tags.n) := by
  rw [extractIn_eq hI.ok.wf hr]
  have hpw := pairwise_winRuns hr a b hI.ok.disjoint
  have hwf := winRuns_wf hI.ok.wf a b
  refine build_of hI.inv hp (hpw.imp (fun h => h.1)) (hpw.imp (fun h => h.2)) ?_ ?_ ?_
  · intro r hr'
    obtain ⟨_, s, hs, h1, _⟩ := hwf r hr'
    rw [h1]; exact hI.ok.rate s hs
  · intro r hr'
    obtain ⟨_, s, hs, _, h2, _⟩ := hwf r hr'
    rw [h2]; exact (hI.n s hs).symm
  · intro hne
    obtain ⟨r, hr'⟩ := List.exists_mem_of_ne_nil _ hne
    obtain ⟨_, s, hs, _, h2, _⟩ := hwf r hr'
    refine ⟨?_, le_rfl⟩
    rw [hI.n s hs]
    have := (hI.ok.wf s hs).nonempty
    simpa using this

theorem build_nil [Rnd] {t : Tags} (hi : t.Inv) (hp : Plain t) :
    build (.tags t) ([] : List (Sync α κ)) =
      .ok ⟨[], ⟨Tags.inferN (t.tags.map (fun e => (e.1, Tags.toVal e.2))), t.tags⟩⟩ := by
  rw [build_as]
  refine ⟨by simp, by simp, by simp [sortRuns, sortBy], by simp [sortRuns, sortBy], ?_⟩
  simp only [sortRuns, sortBy, chanCount, mkTags]
  rw [if_neg (by simp), Tags.kwargs, plain_call hp (by simp [reserved])]
  simp only [if_true, Tags.new_none_eq]
  apply Tags.rebuild hi
  · intro k hk
    exact plain_not_mem hp (by simp only [reserved]; simp at hk ⊢; tauto)
  · intro k v hv i hiv
    have hm : (k, Tags.toVal v) ∈ t.tags.map (fun e => (e.1, Tags.toVal e.2)) :=
      List.mem_map.2 ⟨(k, v), Dict.mem_of_get? hv, rfl⟩
    have := Tags.lt_inferN hm (i := (i : Int)) (Tags.mem_tupleit_toVal.2 ⟨i, hiv, rfl⟩) (by omega)
    omega

theorem inferN_le {t : Tags} (hi : t.Inv) : Tags.inferN (t.tags.map (fun e => (e.1, Tags.toVal e.2))) ≤ t.n := by
  unfold Tags.inferN
  cases h : (t.tags.map (fun e => (e.1, Tags.toVal e.2))).flatMap (fun e => tupleit e.2) with
  | nil => simp
  | cons i l =>
    have hall : ∀ x ∈ i :: l, x < (t.n : Int) := by
      intro x hx
      rw [← h] at hx
      obtain ⟨e, he, hxe⟩ := List.mem_flatMap.1 hx
      obtain ⟨⟨k, v⟩, hkv, rfl⟩ := List.mem_map.1 he
      obtain ⟨j, hj, rfl⟩ := Tags.mem_tupleit_toVal.1 hxe
      have := (hi.legal k v (Dict.get?_of_mem hi.nodup hkv)).2.2 j hj
      omega
    have := (foldl_max_lt l i (t.n : Int)).2 ⟨hall i (by simp), fun x hx => hall x (by simp [hx])⟩
    simp only
    omega

/-- The last channel of the range has a tag. -/
def LastTagged (t : Tags) : Prop := ∃ k v i, t.getItem k = .ok v ∧ i ∈ v ∧ i + 1 = t.n

theorem inferN_lastTagged {t : Tags} (hi : t.Inv) (h : LastTagged t) :
    Tags.inferN (t.tags.map (fun e => (e.1, Tags.toVal e.2))) = t.n := by
  obtain ⟨k, v, i, h1, h2, h3⟩ := h
  have hm : (k, Tags.toVal v) ∈ t.tags.map (fun e => (e.1, Tags.toVal e.2)) :=
    List.mem_map.2 ⟨(k, v), Dict.mem_of_get? (Tags.getItem_ok.1 h1), rfl⟩
  have := Tags.lt_inferN hm (i := (i : Int)) (Tags.mem_tupleit_toVal.2 ⟨i, h2, rfl⟩) (by omega)
  have := inferN_le hi
  omega

theorem dictEq_self {t : Tags} (hi : t.Inv) : Tags.dictEq t.tags t.tags = true := by
  unfold Tags.dictEq
  simp only [beq_self_eq_true, Bool.true_and, List.all_eq_true, beq_iff_eq]
  rintro ⟨k, v⟩ he
  exact Dict.get?_of_mem hi.nodup he

theorem tags_eq_same {t t' : Tags} (hi : t.Inv) (hp : Plain t) (h1 : t'.tags = t.tags) :
    t'.eq t = true ↔ t'.n = t.n := by
  unfold Tags.eq
  rw [h1, dictEq_self hi]
  rw [Dict.get?_eq_none.2 (plain_not_mem hp (by simp [reserved]))]
  simp

theorem reorderMap_same {t' t : Tags} (hi : t.Inv) (h : t'.tags = t.tags) (he : ¬ t'.eq t = true) :
    ∃ pairs, reorderMap t' (.tags t) = .ok (some pairs) ∧
      ∀ p ∈ pairs, p.1 = (p.2 : Int) ∧ ∃ k v, t.getItem k = .ok v ∧ p.2 ∈ v := by
  have hent : ∀ e ∈ (TagsArg.tags t).entries, ∃ v, t.tags.get? e.1 = some v ∧ e.2 = Tags.toVal v := by
    intro e he
    obtain ⟨⟨k, v⟩, hkv, rfl⟩ := List.mem_map.1 he
    exact ⟨v, Dict.get?_of_mem hi.nodup hkv, rfl⟩
  unfold reorderMap
  simp only [tagsEq, he, Bool.false_eq_true, if_false]
  rw [if_pos]
  · have h1 : mapE (reorderLen t') (TagsArg.tags t).entries = .ok ((TagsArg.tags t).entries.map (fun _ => ())) := by
      apply mapE_of_forall
      intro e he
      obtain ⟨v, hv, hev⟩ := hent e he
      unfold reorderLen
      rw [hev, h, hv]
      simp [Tags.toVal]
    have h2 : mapE (fun e : String × TagVal => tupleVal e.2) (TagsArg.tags t).entries =
        .ok ((TagsArg.tags t).entries.map (fun e => tupleit e.2)) := by
      apply mapE_of_forall
      intro e he
      obtain ⟨v, hv, hev⟩ := hent e he
      rw [hev]; rfl
    rw [h1, h2]
    simp only
    have hpairs : ∀ p ∈ reorderPairs t' (TagsArg.tags t).entries
        ((TagsArg.tags t).entries.map (fun e => tupleit e.2)),
        p.1 = (p.2 : Int) ∧ ∃ k v, t.getItem k = .ok v ∧ p.2 ∈ v := by
      intro p hp'
      unfold reorderPairs at hp'
      have e1 : (((TagsArg.tags t).entries.map (fun e => tupleit e.2)).flatten) =
          ((TagsArg.tags t).entries.flatMap (fun e => (t'.tags.get? e.1).getD [])).map Int.ofNat := by
        rw [List.flatMap_def, List.map_flatten, List.map_map]
        congr 1
        apply List.map_congr_left
        intro e he
        obtain ⟨v, hv, hev⟩ := hent e he
        simp only [Function.comp, h, hv, hev, Option.getD_some, Tags.toVal, tupleit]
      rw [e1] at hp'
      have hmem : ∀ i ∈ ((TagsArg.tags t).entries.flatMap (fun e => (t'.tags.get? e.1).getD [])),
          ∃ k v, t.getItem k = .ok v ∧ i ∈ v := by
        intro i hi'
        obtain ⟨e, he, hie⟩ := List.mem_flatMap.1 hi'
        obtain ⟨v, hv, _⟩ := hent e he
        rw [h, hv] at hie
        exact ⟨e.1, v, Tags.getItem_ok.2 hv, by simpa using hie⟩
      generalize ((TagsArg.tags t).entries.flatMap (fun e => (t'.tags.get? e.1).getD [])) = l at hp' hmem
      obtain ⟨i, hi1, rfl⟩ := List.getElem_of_mem hp'
      simp only [List.getElem_zip, List.getElem_map]
      exact ⟨rfl, hmem _ (List.getElem_mem _)⟩
    rw [if_pos]
    · exact ⟨_, rfl, hpairs⟩
    · rw [List.all_eq_true]
      intro p hp1
      rw [List.all_eq_true]
      intro q hq1
      have a1 := (hpairs p hp1).1
      have a2 := (hpairs q hq1).1
      by_cases hpq : p.1 = q.1
      · have : p.2 = q.2 := by omega
        simp [this]
      · simp [hpq]
  · rw [Bool.and_eq_true, List.all_eq_true, List.all_eq_true]
    constructor
    · intro e he
      obtain ⟨v, hv, _⟩ := hent e he
      unfold Dict.has
      rw [h, hv]; rfl
    · intro k hk
      rw [h] at hk
      obtain ⟨⟨k', v⟩, hkv, rfl⟩ := List.mem_map.1 hk
      exact List.any_eq_true.2 ⟨(k', Tags.toVal v), List.mem_map.2 ⟨(k', v), hkv, rfl⟩, by simp⟩

/-- Reordering to the same tags. -/
theorem reorder_same_tags [Rnd] [One κ] {T : SigSet α κ} {t : Tags} (hi : t.Inv) (hp : Plain t) (h : T.tags.tags = t.tags)
    (hn : T.runs ≠ [] → T.tags.n = t.n) : ∃ T', T.reorder (.tags t) = .ok T' ∧ T'.runs = T.runs := by
  unfold reorder
  by_cases he : T.tags.eq t = true
  · unfold reorderMap
    simp only [tagsEq, he, if_true]
    exact ⟨T, rfl, rfl⟩
  · have hr : T.runs = [] := by
      by_contra hc
      exact he ((tags_eq_same hi hp h).2 (hn hc))
    obtain ⟨pairs, hpairs, _⟩ := reorderMap_same hi h he
    rw [hpairs, hr]
    simp only [mapE]
    rw [build_nil hi hp]
    exact ⟨_, rfl, rfl⟩

/-- Reordering to the same tags over a smaller range fails when some channel has no tag. -/
theorem reorder_untagged [Rnd] [One κ] {T : SigSet α κ} {t : Tags} (hi : t.Inv) (hp : Plain t) (h : T.tags.tags = t.tags)
    (hn : T.tags.n ≠ t.n) (hr : T.runs ≠ []) {c : Nat} (hc : c < T.nbChannels)
    (hun : ∀ k v, t.getItem k = .ok v → c ∉ v) : T.reorder (.tags t) = .error .key := by
  unfold reorder
  have he : ¬ T.tags.eq t = true := fun he => hn ((tags_eq_same hi hp h).1 he)
  obtain ⟨pairs, hpairs, hp2⟩ := reorderMap_same hi h he
  rw [hpairs]
  simp only
  have h1 : mapE (invGet pairs) (List.range T.nbChannels) = .error .key := by
    cases hm : mapE (invGet pairs) (List.range T.nbChannels) with
    | error e =>
      obtain ⟨i, _, hi'⟩ := mapE_error hm
      unfold invGet at hi'
      split at hi' <;> simp_all
    | ok r =>
      exfalso
      obtain ⟨b, _, hb⟩ := mapE_ok_forall hm c (List.mem_range.2 hc)
      unfold invGet at hb
      split at hb
      · rename_i p hf
        have e1 := List.mem_of_find?_eq_some hf
        have e2 := List.find?_some hf
        simp only [beq_iff_eq] at e2
        obtain ⟨e3, k, v, e4, e5⟩ := hp2 p e1
        have : p.2 = c := by omega
        rw [this] at e5
        exact hun k v e4 e5
      · simp at hb
  have h2 : mapE (reorderRun pairs T.nbChannels) T.runs = .error .key := by
    cases hT : T.runs with
    | nil => exact absurd hT hr
    | cons s l => simp only [mapE, reorderRun, h1]
  rw [h2]

/-- Joining a set and a set/signal over the same tags is building from all the runs. -/
theorem join_same_tags [Rnd] [One κ] {A B : SigSet α κ} (hi : A.tags.Inv) (hp : Plain A.tags)
    (h : B.tags.tags = A.tags.tags) (hn : B.runs ≠ [] → B.tags.n = A.tags.n) :
    A.join [.set B] = build (.tags A.tags) (A.runs ++ B.runs) := by
  obtain ⟨A', a1, a2⟩ := reorder_same_tags (T := A) hi hp rfl (fun _ => rfl)
  obtain ⟨B', b1, b2⟩ := reorder_same_tags (T := B) hi hp h hn
  unfold join new
  simp only [mapE, argRuns, a1, b1, a2, b2]
  simp

theorem join_sync [Rnd] [One κ] {A : SigSet α κ} (hi : A.tags.Inv) (hp : Plain A.tags) (s : Sync α κ) :
    A.join [.sync s] = build (.tags A.tags) (A.runs ++ [s]) := by
  obtain ⟨A', a1, a2⟩ := reorder_same_tags (T := A) hi hp rfl (fun _ => rfl)
  unfold join new
  simp only [mapE, argRuns, a1, a2]
  simp

end SigSet
end Razorback
