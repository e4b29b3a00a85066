/-
Lemmas for C102.
-/
import Verif.Spec.Laws
import Verif.Lemmas.Extract
import Verif.Lemmas.Merge
import Verif.Props.Merge

namespace Razorback
open Spec SigSet
variable {α κ β γ : Type _}

/-- Two lists, strictly sorted by a key, whose elements correspond with the same key. -/
theorem forall₂_of_sorted {f : β → ℚ} {g : γ → ℚ} {Q : β → γ → Prop} {l : List β} {l' : List γ}
    (h : l.Pairwise (fun a b => f a < f b)) (h' : l'.Pairwise (fun a b => g a < g b))
    (hQ : ∀ a b, Q a b → f a = g b) (h1 : ∀ a ∈ l, ∃ b ∈ l', Q a b) (h2 : ∀ b ∈ l', ∃ a ∈ l, Q a b) :
    List.Forall₂ Q l l' := by
  induction l generalizing l' with
  | nil =>
    cases l' with
    | nil => exact .nil
    | cons b l' => obtain ⟨a, ha, _⟩ := h2 b (by simp); simp at ha
  | cons a l ih =>
    cases l' with
    | nil => obtain ⟨b, hb, _⟩ := h1 a (by simp); simp at hb
    | cons b l' =>
      obtain ⟨ha, hl⟩ := List.pairwise_cons.1 h
      obtain ⟨hb, hl'⟩ := List.pairwise_cons.1 h'
      have hab : Q a b := by
        obtain ⟨b', hb', q⟩ := h1 a (by simp)
        rcases List.mem_cons.1 hb' with rfl | hb'
        · exact q
        · obtain ⟨a', ha', q'⟩ := h2 b (by simp)
          rcases List.mem_cons.1 ha' with rfl | ha'
          · exact q'
          · have := ha a' ha'
            have := hb b' hb'
            rw [← hQ _ _ q] at this
            rw [hQ _ _ q'] at *
            linarith
      refine .cons hab (ih hl hl' ?_ ?_)
      · intro x hx
        obtain ⟨y, hy, q⟩ := h1 x (by simp [hx])
        rcases List.mem_cons.1 hy with rfl | hy
        · have := ha x hx
          rw [hQ _ _ q, hQ _ _ hab] at this
          exact absurd this (lt_irrefl _)
        · exact ⟨y, hy, q⟩
      · intro y hy
        obtain ⟨x, hx, q⟩ := h2 y (by simp [hy])
        rcases List.mem_cons.1 hx with rfl | hx
        · have := hb y hy
          rw [← hQ _ _ q, ← hQ _ _ hab] at this
          exact absurd this (lt_irrefl _)
        · exact ⟨x, hx, q⟩

theorem Sync.mem_channels {s : Sync α κ} (hw : WF s) {c : List (ℚ × α) × κ} (hc : c ∈ channels s) :
    ∃ d ∈ s.data, c.1 = timed s.rate s.start d ∧ d.length = s.size := by
  unfold channels at hc
  obtain ⟨h1, h2⟩ := List.of_mem_zip hc
  obtain ⟨d, hd, he⟩ := List.mem_map.1 h1
  exact ⟨d, hd, he.symm, hw.rect d hd⟩

theorem mem_timed {rate start : ℚ} {d : List α} {p : ℚ × α} :
    p ∈ timed rate start d ↔ ∃ i, d[i]? = some p.2 ∧ p.1 = sampleTime rate start i := by
  rw [List.mem_iff_getElem?]
  constructor
  · rintro ⟨i, hi⟩
    rw [getElem?_timed] at hi
    cases hd : d[i]? with
    | none => rw [hd] at hi; simp at hi
    | some y =>
      rw [hd] at hi
      simp only [Option.map_some, Option.some.injEq] at hi
      exact ⟨i, by rw [← hi]; exact hd, by rw [← hi]⟩
  · rintro ⟨i, h1, h2⟩
    refine ⟨i, ?_⟩
    rw [getElem?_timed, h1]
    simp [← h2]

/-- The times of the samples of a channel. -/
theorem Sync.channel_times {s : Sync α κ} (hw : WF s) {c : List (ℚ × α) × κ} (hc : c ∈ channels s) (t : ℚ) :
    (∃ y, (t, y) ∈ c.1) ↔ SampledAt s t := by
  obtain ⟨d, hd, he, hl⟩ := Sync.mem_channels hw hc
  rw [he]
  constructor
  · rintro ⟨y, hy⟩
    obtain ⟨i, h1, h2⟩ := mem_timed.1 hy
    exact ⟨i, by rw [← hl]; exact (List.getElem?_eq_some_iff.1 h1).1, h2.symm⟩
  · rintro ⟨i, h1, h2⟩
    have : i < d.length := by omega
    exact ⟨d[i], mem_timed.2 ⟨i, by simp [this], h2.symm⟩⟩

theorem Sync.exists_channel {s : Sync α κ} (hw : WF s) : ∃ c, c ∈ channels s := by
  have : (channels s).length ≠ 0 := by
    rw [Sync.channels_length hw]
    have := hw.nonempty
    simpa using this
  exact List.exists_mem_of_ne_nil _ (by intro h; rw [h] at this; simp at this)

/-- A run is determined by its rate and its channels. -/
theorem Sync.ext_channels {r r' : Sync α κ} (hw : WF r) (hw' : WF r') (hrate : r.rate = r'.rate) (hsz : 0 < r.size)
    (hc : channels r = channels r') : r = r' := by
  have hlen : r.data.length = r'.data.length := by
    rw [← Sync.channels_length hw, ← Sync.channels_length hw', hc]
  have hcal : r.cals = r'.cals := by
    have h1 : (channels r).map Prod.snd = r.cals := by
      unfold channels; rw [List.map_snd_zip]; simp [hw.cals]
    have h2 : (channels r').map Prod.snd = r'.cals := by
      unfold channels; rw [List.map_snd_zip]; simp [hw'.cals]
    rw [← h1, ← h2, hc]
  have htm : r.data.map (timed r.rate r.start) = r'.data.map (timed r'.rate r'.start) := by
    have h1 : (channels r).map Prod.fst = r.data.map (timed r.rate r.start) := by
      unfold channels; rw [List.map_fst_zip]; simp [hw.cals]
    have h2 : (channels r').map Prod.fst = r'.data.map (timed r'.rate r'.start) := by
      unfold channels; rw [List.map_fst_zip]; simp [hw'.cals]
    rw [← h1, ← h2, hc]
  have hval : ∀ (rate start : ℚ) (d : List α), (timed rate start d).map Prod.snd = d := by
    intro rate start d
    unfold timed
    rw [List.map_map]
    show d.zipIdx.map Prod.fst = d
    exact List.zipIdx_map_fst 0 d
  have hdata : r.data = r'.data := by
    have := congrArg (List.map (List.map Prod.snd)) htm
    simpa only [List.map_map, Function.comp_def, hval, List.map_id'] using this
  have hne := hw.nonempty
  obtain ⟨d, ds, hd⟩ := List.exists_cons_of_ne_nil hne
  have hdl : d.length = r.size := hw.rect d (by rw [hd]; simp)
  have hsize : r.size = r'.size := by rw [← hdl]; exact hw'.rect d (by rw [← hdata, hd]; simp)
  have hstart : r.start = r'.start := by
    rw [← hdata, hd] at htm
    simp only [List.map_cons, List.cons.injEq] at htm
    have h0 := congrArg (fun l => l[0]?) htm.1
    simp only [getElem?_timed] at h0
    have : 0 < d.length := by omega
    simp only [this, List.getElem?_eq_getElem, Option.map_some, Option.some.injEq, Prod.mk.injEq, and_true] at h0
    simpa [sampleTime] using h0
  cases r; cases r'
  simp_all

theorem lastTime_eq {s : Sync α κ} (h : 0 < s.size) : lastTime s = sampleTime s.rate s.start (s.size - 1) := by
  unfold lastTime sampleTime
  rw [Nat.cast_sub (by omega)]
  simp

theorem _root_.Razorback.Spec.SampledAt.bounds {s : Sync α κ} (hr : 0 < s.rate) {t : ℚ} (h : SampledAt s t) : s.start ≤ t ∧ t ≤ lastTime s := by
  obtain ⟨i, hi, rfl⟩ := h
  rw [lastTime_eq (by omega)]
  constructor
  · have := (sampleTime_mono hr s.start (i := 0) (j := i)).2 (by omega)
    simpa [sampleTime] using this
  · exact (sampleTime_mono hr s.start (i := i) (j := s.size - 1)).2 (by omega)

theorem sampledAt_last {s : Sync α κ} (h : 0 < s.size) : SampledAt s (lastTime s) :=
  ⟨s.size - 1, by omega, (lastTime_eq h).symm⟩

theorem sampledAt_start {s : Sync α κ} (h : 0 < s.size) : SampledAt s s.start :=
  ⟨0, h, by simp [sampleTime]⟩

theorem size_of_lt {s : Sync α κ} (hr : 0 < s.rate) (h : s.start < lastTime s) : 2 ≤ s.size := by
  by_contra hc
  unfold lastTime at h
  have h1 : ((s.size : ℚ) - 1) / s.rate ≤ 0 := by
    apply div_nonpos_of_nonpos_of_nonneg _ hr.le
    have : (s.size : ℚ) ≤ 1 := by exact_mod_cast (by omega : s.size ≤ 1)
    linarith
  linarith

/-- The samples of a merged run are those of each of its sources that are in the overlap. -/
theorem _root_.Razorback.Spec.Merged.sampled {r : Sync α κ} {c : List (Sync α κ)} {a b : ℚ} (hw : WF r) (hc : ∀ s ∈ c, WF s)
    (hm : Merged r c a b) {s : Sync α κ} (hs : s ∈ c) (t : ℚ) : SampledAt r t ↔ SampledAt s t ∧ a ≤ t ∧ t ≤ b := by
  obtain ⟨ch, hch⟩ := Sync.exists_channel (hc s hs)
  have hch' : cutChannel (window a b) ch ∈ channels r := by
    rw [hm.channels]
    exact List.mem_flatMap.2 ⟨s, hs, List.mem_map.2 ⟨ch, hch, rfl⟩⟩
  rw [← Sync.channel_times hw hch', ← Sync.channel_times (hc s hs) hch]
  simp only [cutChannel, List.mem_filter, window, Bool.and_eq_true, decide_eq_true_eq]
  constructor
  · rintro ⟨y, h1, h2, h3⟩; exact ⟨⟨y, h1⟩, h2, h3⟩
  · rintro ⟨⟨y, h1⟩, h2, h3⟩; exact ⟨y, h1, h2, h3⟩

/-- A merged run ends at the end of the overlap. -/
theorem _root_.Razorback.Spec.Merged.last {r : Sync α κ} {c : List (Sync α κ)} {a b : ℚ} (hw : WF r) (hc : ∀ s ∈ c, WF s ∧ 0 < s.rate)
    (hm : Merged r c a b) (ho : Overlap c a b) : lastTime r = b ∧ 2 ≤ r.size ∧ 0 < r.rate := by
  obtain ⟨s, hs, hsb⟩ := ho.hi
  have hrate : 0 < r.rate := by rw [← hm.rate s hs]; exact (hc s hs).2
  have hsz : 2 ≤ s.size := size_of_lt (hc s hs).2 (by
    rw [hsb]; exact lt_of_le_of_lt (ho.lo_le s hs) ho.lt)
  have hb : SampledAt r b := (hm.sampled hw (fun s hs => (hc s hs).1) hs b).2
    ⟨hsb ▸ sampledAt_last (by omega), ho.lt.le, le_rfl⟩
  have hpos : 0 < r.size := by obtain ⟨i, hi, _⟩ := hb; omega
  have hl : lastTime r ≤ b := ((hm.sampled hw (fun s hs => (hc s hs).1) hs _).1 (sampledAt_last hpos)).2.2
  have heq : lastTime r = b := le_antisymm hl (SampledAt.bounds hrate hb).2
  exact ⟨heq, size_of_lt hrate (by rw [heq, hm.start]; exact ho.lt), hrate⟩

theorem starts_strict {l : List (Sync α κ)} (h : l.Pairwise (fun a b => lastTime a ≤ b.start))
    (hs : ∀ r ∈ l, r.start < lastTime r) : l.Pairwise (fun a b => a.start < b.start) :=
  h.imp_of_mem (fun {a b} ha _ hab => lt_of_lt_of_le (hs a ha) hab)

/-- The runs of a merge. -/
theorem merge_runs_strict [One κ] {S R : SigSet α κ} {others : List (SigSet α κ)}
    (hR : ∀ T ∈ S :: others, Reach T) (hp : ∀ T ∈ S :: others, Plain T.tags)
    (hr : ∀ T ∈ S :: others, ∀ s ∈ T.runs, 0 < s.rate) (h : S.merge others = .ok R) :
    R.runs.Pairwise (fun a b => a.start < b.start) ∧ ∀ r ∈ R.runs, WF r ∧ 2 ≤ r.size ∧ 0 < r.rate := by
  have hI : ∀ T ∈ S :: others, SInv T := fun T hT => Props.reach_sinv (hR T hT)
  have hIR := merge_sinv h
  obtain ⟨q1, _⟩ := Props.merge_runs hR hp hr h
  have key : ∀ r ∈ R.runs, WF r ∧ (r.start < lastTime r) ∧ 2 ≤ r.size ∧ 0 < r.rate := by
    intro r hr'
    obtain ⟨c, b, hc, ho, hm⟩ := q1 r hr'
    have hw := hIR.ok.wf r hr'
    obtain ⟨e1, e2, e3⟩ := hm.last hw (fun s hs => by
      obtain ⟨T, hT, hsT⟩ := choice_mem hc s hs
      exact ⟨(hI T hT).ok.wf s hsT, hr T hT s hsT⟩) ho
    exact ⟨hw, by rw [e1]; exact ho.lt, e2, e3⟩
  exact ⟨starts_strict hIR.ok.disjoint (fun r hr' => (key r hr').2.1), fun r hr' => ⟨(key r hr').1, (key r hr').2.2⟩⟩

/-- What a name designates in the merged run of a given choice. -/
theorem merge_designated [One κ] {S R : SigSet α κ} {others : List (SigSet α κ)}
    (hR : ∀ T ∈ S :: others, Reach T) (hp : ∀ T ∈ S :: others, Plain T.tags)
    (hr : ∀ T ∈ S :: others, ∀ s ∈ T.runs, 0 < s.rate) (h : S.merge others = .ok R) {r : Sync α κ} {c : List (Sync α κ)} {a b : ℚ}
    (hc : Choice c (S :: others)) (hm : Merged r c a b) {i : Nat} {T : SigSet α κ} {s : Sync α κ} {k : String} {v : List Nat}
    (hT : (S :: others)[i]? = some T) (hs : c[i]? = some s) (hk : T.tags.getItem k = .ok v) :
    (∃ w, R.tags.getItem k = .ok w ∧ w.length = v.length) ∧
    ∀ j, designated R.tags r k j = (designated T.tags s k j).map (cutChannel (window a b)) := by
  have hI : ∀ T ∈ S :: others, SInv T := fun T hT => Props.reach_sinv (hR T hT)
  obtain ⟨_, _, q3, q4⟩ := Props.merge_runs hR hp hr h
  have hTm := List.mem_of_getElem? hT
  have hTi := (hI T hTm).inv
  have hkm := Dict.mem_of_get? (Tags.getItem_ok.1 hk)
  have hnd : (mergedEntries 0 (S :: others)).keys.Nodup := by
    rw [mergedEntries_keys]; exact (Props.namesDisjoint_iff hI).2 q4
  have hget : R.tags.getItem k = .ok (v.map (· + (0 + ((((S :: others).take i).map nbChannels).sum)))) := by
    rw [Tags.getItem_ok, q3]
    exact Dict.get?_of_mem hnd (mem_mergedEntries.2 ⟨i, T, v, hT, hkm, rfl⟩)
  refine ⟨⟨_, hget, by simp⟩, ?_⟩
  intro j
  unfold designated
  rw [hget, hk]
  simp only [List.getElem?_map, Nat.zero_add]
  cases hv : v[j]? with
  | none => rfl
  | some x =>
    simp only [Option.map_some, Option.bind_some]
    have hsT : s ∈ T.runs := by
      have hi := (List.getElem?_eq_some_iff.1 hs)
      have hi' := (List.getElem?_eq_some_iff.1 hT)
      obtain ⟨h1, rfl⟩ := hi
      obtain ⟨h2, rfl⟩ := hi'
      exact (List.forall₂_iff_get.1 hc).2 i h1 h2
    apply Props.merged_getElem hI hc hm hs
    rw [← (hI T hTm).n s hsT]
    exact (hTi.legal k v (Tags.getItem_ok.1 hk)).2.2 x (List.mem_of_getElem? hv)

/-- Choices for permuted operands. -/
theorem choice_perm {seqs seqs' : List (SigSet α κ)} (h : seqs.Perm seqs') : ∀ {c : List (Sync α κ)}, Choice c seqs →
    ∃ c', Choice c' seqs' ∧ (c.zip seqs).Perm (c'.zip seqs') := by
  induction h with
  | nil => intro c hc; exact ⟨c, hc, .refl _⟩
  | cons T _ ih =>
    intro c hc
    obtain ⟨s, c, h1, h2, rfl⟩ := List.forall₂_cons_right_iff.1 hc
    obtain ⟨c', h3, h4⟩ := ih h2
    exact ⟨s :: c', .cons h1 h3, h4.cons _⟩
  | swap T U l =>
    intro c hc
    obtain ⟨s, c, h1, h2, rfl⟩ := List.forall₂_cons_right_iff.1 hc
    obtain ⟨u, c, h3, h4, rfl⟩ := List.forall₂_cons_right_iff.1 h2
    exact ⟨u :: s :: c, .cons h3 (.cons h1 h4), .swap _ _ _⟩
  | trans _ _ ih1 ih2 =>
    intro c hc
    obtain ⟨c', h1, h2⟩ := ih1 hc
    obtain ⟨c'', h3, h4⟩ := ih2 h1
    exact ⟨c'', h3, h2.trans h4⟩

theorem _root_.Razorback.Spec.Overlap.congr {c c' : List (Sync α κ)} {a b : ℚ} (h : ∀ s, s ∈ c ↔ s ∈ c') (ho : Overlap c a b) : Overlap c' a b :=
  ⟨by obtain ⟨s, hs, e⟩ := ho.lo; exact ⟨s, (h s).1 hs, e⟩, fun s hs => ho.lo_le s ((h s).2 hs),
   by obtain ⟨s, hs, e⟩ := ho.hi; exact ⟨s, (h s).1 hs, e⟩, fun s hs => ho.le_hi s ((h s).2 hs), ho.lt⟩

/-- At least two samples at the times that satisfy `P`. -/
theorem two_le_countIn {P : ℚ → Bool} {s : Sync α κ} (hr : 0 < s.rate) :
    2 ≤ countIn P s ↔ ∃ t t', t < t' ∧ SampledAt s t ∧ SampledAt s t' ∧ P t = true ∧ P t' = true := by
  unfold countIn
  have hsorted : ((List.range s.size).filter (fun i => P (sampleTime s.rate s.start i))).Pairwise (· < ·) :=
    List.pairwise_lt_range.sublist List.filter_sublist
  have hmem : ∀ i, i ∈ ((List.range s.size).filter (fun i => P (sampleTime s.rate s.start i))) ↔
      i < s.size ∧ P (sampleTime s.rate s.start i) = true := by intro i; simp
  generalize (List.range s.size).filter (fun i => P (sampleTime s.rate s.start i)) = l at hsorted hmem
  constructor
  · intro h
    match l, h with
    | i :: j :: l, _ =>
      have hij : i < j := by simp at hsorted; omega
      obtain ⟨h1, h2⟩ := (hmem i).1 (by simp)
      obtain ⟨h3, h4⟩ := (hmem j).1 (by simp)
      exact ⟨_, _, (sampleTime_strictMono hr s.start).2 hij, ⟨i, h1, rfl⟩, ⟨j, h3, rfl⟩, h2, h4⟩
  · rintro ⟨t, t', hlt, ⟨i, hi, rfl⟩, ⟨j, hj, rfl⟩, h1, h2⟩
    have hi' := (hmem i).2 ⟨hi, h1⟩
    have hj' := (hmem j).2 ⟨hj, h2⟩
    have hne : i ≠ j := by rintro rfl; exact lt_irrefl _ hlt
    match l, hi', hj' with
    | [x], hi', hj' => simp at hi' hj'; omega
    | x :: y :: l, _, _ => simp

/-- Runs that share an interval have an overlap. -/
theorem overlap_exists {c : List (Sync α κ)} (hne : c ≠ []) {a b : ℚ} (hab : a < b) (h1 : ∀ s ∈ c, s.start ≤ a)
    (h2 : ∀ s ∈ c, b ≤ lastTime s) : ∃ a' b', Overlap c a' b' ∧ a' ≤ a ∧ b ≤ b' := by
  have hlo : ∃ a' ≤ a, (∃ s ∈ c, s.start = a') ∧ ∀ s ∈ c, s.start ≤ a' := by
    clear h2
    induction c with
    | nil => exact absurd rfl hne
    | cons s c ih =>
      by_cases hc : c = []
      · subst hc
        exact ⟨s.start, h1 s (by simp), ⟨s, by simp, rfl⟩, by simp⟩
      · obtain ⟨a', e1, ⟨s', hs', e2⟩, e3⟩ := ih hc (fun s hs => h1 s (by simp [hs]))
        rcases le_total s.start a' with hle | hle
        · refine ⟨a', e1, ⟨s', by simp [hs'], e2⟩, ?_⟩
          intro x hx
          rcases List.mem_cons.1 hx with rfl | hx
          · exact hle
          · exact e3 x hx
        · refine ⟨s.start, h1 s (by simp), ⟨s, by simp, rfl⟩, ?_⟩
          intro x hx
          rcases List.mem_cons.1 hx with rfl | hx
          · exact le_rfl
          · exact (e3 x hx).trans hle
  have hhi : ∃ b', b ≤ b' ∧ (∃ s ∈ c, lastTime s = b') ∧ ∀ s ∈ c, b' ≤ lastTime s := by
    clear h1 hlo
    induction c with
    | nil => exact absurd rfl hne
    | cons s c ih =>
      by_cases hc : c = []
      · subst hc
        exact ⟨lastTime s, h2 s (by simp), ⟨s, by simp, rfl⟩, by simp⟩
      · obtain ⟨b', e1, ⟨s', hs', e2⟩, e3⟩ := ih hc (fun s hs => h2 s (by simp [hs]))
        rcases le_total b' (lastTime s) with hle | hle
        · refine ⟨b', e1, ⟨s', by simp [hs'], e2⟩, ?_⟩
          intro x hx
          rcases List.mem_cons.1 hx with rfl | hx
          · exact hle
          · exact e3 x hx
        · refine ⟨lastTime s, h2 s (by simp), ⟨s, by simp, rfl⟩, ?_⟩
          intro x hx
          rcases List.mem_cons.1 hx with rfl | hx
          · exact le_rfl
          · exact hle.trans (e3 x hx)
  obtain ⟨a', l1, l2, l3⟩ := hlo
  obtain ⟨b', k1, k2, k3⟩ := hhi
  exact ⟨a', b', ⟨l2, l3, k2, k3, by linarith⟩, l1, k1⟩

/-- Two sets of runs strictly sorted in time with the same elements. -/
theorem runs_eq {l l' : List (Sync α κ)} (h : l.Pairwise (fun a b => a.start < b.start))
    (h' : l'.Pairwise (fun a b => a.start < b.start)) (h1 : ∀ r ∈ l, r ∈ l') (h2 : ∀ r ∈ l', r ∈ l) : l = l' := by
  have := forall₂_of_sorted (Q := Eq) (f := Sync.start) (g := Sync.start) h h' (fun a b e => by rw [e])
    (fun r hr => ⟨r, h1 r hr, rfl⟩) (fun r hr => ⟨r, h2 r hr, rfl⟩)
  rwa [List.forall₂_eq_eq_eq] at this

theorem cut_cut {a b a' b' : ℚ} (h1 : a' ≤ a) (h2 : b ≤ b') (c : List (ℚ × α) × κ) :
    cutChannel (window a b) (cutChannel (window a' b') c) = cutChannel (window a b) c := by
  unfold cutChannel
  simp only [List.filter_filter, Prod.mk.injEq, and_true]
  apply List.filter_congr
  intro p _
  rw [Bool.eq_iff_iff]
  simp only [window, Bool.and_eq_true, decide_eq_true_eq]
  constructor
  · exact fun h => h.1
  · rintro ⟨h3, h4⟩
    exact ⟨⟨h3, h4⟩, by linarith, by linarith⟩

theorem mergedEntries_append (n : Nat) (l l' : List (SigSet α κ)) :
    mergedEntries n (l ++ l') = mergedEntries n l ++ mergedEntries (n + (l.map nbChannels).sum) l' := by
  induction l generalizing n with
  | nil => simp [mergedEntries]
  | cons S l ih => simp [mergedEntries, ih, Nat.add_assoc]

/-- A successful merge is determined by its runs, and the names and numbers of channels of its operands. -/
theorem merge_ext [One κ] {S R S' R' : SigSet α κ} {others others' : List (SigSet α κ)}
    (hR : ∀ T ∈ S :: others, Reach T) (hp : ∀ T ∈ S :: others, Plain T.tags)
    (hR' : ∀ T ∈ S' :: others', Reach T) (hp' : ∀ T ∈ S' :: others', Plain T.tags)
    (h : S.merge others = .ok R) (h' : S'.merge others' = .ok R') (hruns : R.runs = R'.runs)
    (hn : ((S :: others).map nbChannels).sum = ((S' :: others').map nbChannels).sum)
    (he : mergedEntries 0 (S :: others) = mergedEntries 0 (S' :: others')) : R = R' := by
  have key : ∀ {S R : SigSet α κ} {others : List (SigSet α κ)}, (∀ T ∈ S :: others, Reach T) → (∀ T ∈ S :: others, Plain T.tags) →
      S.merge others = .ok R →
      mkTags (chanCount R.runs) (.tags ⟨((S :: others).map nbChannels).sum, mergedEntries 0 (S :: others)⟩) = .ok R.tags := by
    intro S R others hR hp h
    have hI : ∀ T ∈ S :: others, SInv T := fun T hT => Props.reach_sinv (hR T hT)
    obtain ⟨t, ivs, rs, h1, h2, h3, h4⟩ := Props.merge_parts h
    obtain ⟨_, _, _, b4, b5⟩ := build_iff.1 h4
    have hnd : ((S :: others).flatMap (fun S => S.tags.tags.keys)).Nodup := by
      by_contra hc
      rw [mergeTags_conflict hp hc] at h1; simp at h1
    rw [mergeTags_eq hI hp hnd] at h1
    simp only [Except.ok.injEq] at h1
    rw [h1, b4]; exact b5
  have e1 := key hR hp h
  have e2 := key hR' hp' h'
  rw [hn, he, hruns, e2] at e1
  cases R; cases R'
  simp_all

theorem _root_.Razorback.Sync.win_wf' {s : Sync α κ} (hw : WF s) {a b : ℚ} (h : 1 < (s.win a b).size) : WF (s.win a b) :=
  Sync.win_wf hw a b (by
    have : (s.win a b).size = s.iHi b - s.iLo a := rfl
    omega)

theorem _root_.Razorback.Sync.win_channels {s : Sync α κ} (hw : WF s) (hr : 0 < s.rate) (a b : ℚ) :
    channels (s.win a b) = (channels s).map (cutChannel (window a b)) := (Sync.piece_win hw hr a b).channels

theorem _root_.Razorback.Sync.win_sampled {s : Sync α κ} (hw : WF s) (hr : 0 < s.rate) {a b : ℚ} (h : 1 < (s.win a b).size) (t : ℚ) :
    SampledAt (s.win a b) t ↔ SampledAt s t ∧ a ≤ t ∧ t ≤ b := by
  obtain ⟨ch, hch⟩ := Sync.exists_channel hw
  have hch' : cutChannel (window a b) ch ∈ channels (s.win a b) := by
    rw [Sync.win_channels hw hr]
    exact List.mem_map.2 ⟨ch, hch, rfl⟩
  rw [← Sync.channel_times (Sync.win_wf' hw h) hch', ← Sync.channel_times hw hch]
  simp only [cutChannel, List.mem_filter, window, Bool.and_eq_true, decide_eq_true_eq]
  constructor
  · rintro ⟨y, h1, h2, h3⟩; exact ⟨⟨y, h1⟩, h2, h3⟩
  · rintro ⟨⟨y, h1⟩, h2, h3⟩; exact ⟨y, h1, h2, h3⟩

theorem _root_.Razorback.Sync.win_two {s : Sync α κ} (hr : 0 < s.rate) {a b : ℚ} :
    1 < (s.win a b).size ↔ ∃ t t', t < t' ∧ SampledAt s t ∧ SampledAt s t' ∧ (a ≤ t ∧ t ≤ b) ∧ a ≤ t' ∧ t' ≤ b := by
  rw [Props.win_size_eq hr]
  have := two_le_countIn (P := window a b) hr
  simp only [window, Bool.and_eq_true, decide_eq_true_eq] at this
  exact this

/-- Ends of a cut run. -/
theorem _root_.Razorback.Sync.win_ends {s : Sync α κ} (hw : WF s) (hr : 0 < s.rate) {a b : ℚ} (h : 1 < (s.win a b).size) :
    s.start ≤ (s.win a b).start ∧ lastTime (s.win a b) ≤ lastTime s ∧ SampledAt s (s.win a b).start ∧
    SampledAt s (lastTime (s.win a b)) ∧ a ≤ (s.win a b).start ∧ lastTime (s.win a b) ≤ b ∧ (s.win a b).start ≤ b ∧
    a ≤ lastTime (s.win a b) := by
  have h1 := (Sync.win_sampled hw hr h _).1 (sampledAt_start (s := s.win a b) (by omega))
  have h2 := (Sync.win_sampled hw hr h _).1 (sampledAt_last (s := s.win a b) (by omega))
  exact ⟨(SampledAt.bounds hr h1.1).1, (SampledAt.bounds hr h2.1).2, h1.1, h2.1, h1.2.1, h2.2.2, h1.2.2, h2.2.1⟩

/-- Cutting a merged run is merging the cut runs. -/
theorem win_merged {c : List (Sync α κ)} {r r' : Sync α κ} {a b x y x' y' : ℚ} (hc : ∀ s ∈ c, WF s ∧ 0 < s.rate)
    (hsz : ∀ s ∈ c, 1 < (s.win a b).size) (hw : WF r) (hw' : WF r') (hm : Merged r c x y) (ho : Overlap c x y)
    (hm' : Merged r' (c.map (fun s => s.win a b)) x' y') (ho' : Overlap (c.map (fun s => s.win a b)) x' y')
    (hrs : 1 < (r.win a b).size) : r' = r.win a b := by
  obtain ⟨s0, hs0, -⟩ := ho.lo
  have hrate : 0 < r.rate := by rw [← hm.rate s0 hs0]; exact (hc s0 hs0).2
  have hcw : ∀ s ∈ c.map (fun s => s.win a b), WF s ∧ 0 < s.rate := by
    intro s' hs'
    obtain ⟨s, hs, rfl⟩ := List.mem_map.1 hs'
    exact ⟨Sync.win_wf' (hc s hs).1 (hsz s hs), (hc s hs).2⟩
  refine Sync.ext_channels hw' (Sync.win_wf' hw hrs) ?_ ?_ ?_
  · show r'.rate = r.rate
    rw [← hm.rate s0 hs0, ← hm'.rate (s0.win a b) (List.mem_map.2 ⟨s0, hs0, rfl⟩)]
    rfl
  · have := (hm'.last hw' hcw ho').2.1
    omega
  · rw [hm'.channels, Sync.win_channels hw hrate, hm.channels, List.flatMap_map, List.map_flatMap]
    rw [List.flatMap_def, List.flatMap_def]
    congr 1
    apply List.map_congr_left
    intro s hs
    rw [Sync.win_channels (hc s hs).1 (hc s hs).2, List.map_map, List.map_map]
    apply List.map_congr_left
    intro ch hch
    simp only [Function.comp_apply, cutChannel, List.filter_filter, Prod.mk.injEq, and_true]
    apply List.filter_congr
    intro p hp
    have hsp : SampledAt s p.1 := (Sync.channel_times (hc s hs).1 hch p.1).1 ⟨p.2, hp⟩
    rw [Bool.eq_iff_iff]
    simp only [window, Bool.and_eq_true, decide_eq_true_eq]
    constructor
    · rintro ⟨⟨h1, h2⟩, h3, h4⟩
      refine ⟨⟨h3, h4⟩, ?_, ?_⟩
      · obtain ⟨u, hu, e⟩ := ho.lo
        have := ho'.lo_le (u.win a b) (List.mem_map.2 ⟨u, hu, rfl⟩)
        have := (Sync.win_ends (hc u hu).1 (hc u hu).2 (hsz u hu)).1
        linarith
      · obtain ⟨u, hu, e⟩ := ho.hi
        have := ho'.le_hi (u.win a b) (List.mem_map.2 ⟨u, hu, rfl⟩)
        have := (Sync.win_ends (hc u hu).1 (hc u hu).2 (hsz u hu)).2.1
        linarith
    · rintro ⟨⟨h1, h2⟩, h3, h4⟩
      have hrp : SampledAt r p.1 := (hm.sampled hw (fun s hs => (hc s hs).1) hs p.1).2 ⟨hsp, h3, h4⟩
      have hall : ∀ u ∈ c, SampledAt (u.win a b) p.1 := by
        intro u hu
        exact (Sync.win_sampled (hc u hu).1 (hc u hu).2 (hsz u hu) _).2
          ⟨((hm.sampled hw (fun s hs => (hc s hs).1) hu p.1).1 hrp).1, h1, h2⟩
      refine ⟨⟨?_, ?_⟩, h1, h2⟩
      · obtain ⟨u', hu', e⟩ := ho'.lo
        obtain ⟨u, hu, rfl⟩ := List.mem_map.1 hu'
        rw [← e]
        exact (SampledAt.bounds (s := u.win a b) (hc u hu).2 (hall u hu)).1
      · obtain ⟨u', hu', e⟩ := ho'.hi
        obtain ⟨u, hu, rfl⟩ := List.mem_map.1 hu'
        rw [← e]
        exact (SampledAt.bounds (s := u.win a b) (hc u hu).2 (hall u hu)).2

end Razorback
