/-
C116: how recordings are cut into runs and files does not matter: the samples determine the signal set.
-/
import Mathlib.Data.List.SplitBy
import Verif.Props.MassExact

namespace Razorback.Spec
open Razorback
variable {α κ : Type _}

/-- Runs in the order of time, without common instants, and none of which continues the previous one: same
sampling rate and exactly one sample period later. -/
structure Separated (l : List (Sync α κ)) : Prop where
  order : l.Pairwise (fun a b => lastTime a < b.start)
  broken : l.IsChain (fun a b => ¬ (a.rate = b.rate ∧ gap a b = 1 / a.rate))

/-- No tag is recorded twice at the same instant: two runs of signal sets with a common tag have no common instant. -/
def NoRepeat (I : List (SigSet α κ)) : Prop :=
  ∀ S ∈ I, ∀ S' ∈ I, ∀ k, HasTag S k → HasTag S' k → ∀ s ∈ S.runs, ∀ s' ∈ S'.runs, ∀ t,
    s.start ≤ t → t ≤ lastTime s → s'.start ≤ t → t ≤ lastTime s' → s = s'

/-- The `j`-th channel of tag `k` has the value `v` at time `t` in a run with rate `ρ`, while every tag of the inventory
is recorded at this rate. -/
def RecordedTogether (I : List (SigSet α κ)) (ρ : ℚ) (k : String) (j : Nat) (t : ℚ) (v : α) : Prop :=
  ∃ a b, a < b ∧ a ≤ t ∧ t ≤ b ∧ AllRecorded I ρ a b ∧ ∃ S ∈ I, ∃ s ∈ S.runs, Lasts s ρ a b ∧ ValueAt S s k j t v

end Razorback.Spec

namespace Razorback.Props
open Razorback Razorback.SigSet Razorback.Spec
variable {α κ : Type _}

/-- The instants of a run, with its rate. -/
def instants (r : Sync α κ) : List (ℚ × ℚ) := (List.range r.size).map (fun i => (r.rate, sampleTime r.rate r.start i))

theorem mem_instants {r : Sync α κ} {x : ℚ × ℚ} : x ∈ instants r ↔ x.1 = r.rate ∧ ∃ i < r.size, x.2 = sampleTime r.rate r.start i := by
  unfold instants
  simp only [List.mem_map, List.mem_range]
  constructor
  · rintro ⟨i, hi, rfl⟩
    exact ⟨rfl, i, hi, rfl⟩
  · rintro ⟨e, i, hi, e2⟩
    exact ⟨i, hi, Prod.ext e.symm e2.symm⟩

theorem sampleTime_lt {ρ s : ℚ} (hρ : 0 < ρ) {i j : ℕ} (h : i < j) : sampleTime ρ s i < sampleTime ρ s j := by
  unfold sampleTime
  have : (i : ℚ) < j := by exact_mod_cast h
  have := div_lt_div_of_pos_right this hρ
  linarith

theorem sampleTime_range {r : Sync α κ} (hr : 0 < r.rate) {i : ℕ} (hi : i < r.size) :
    r.start ≤ sampleTime r.rate r.start i ∧ sampleTime r.rate r.start i ≤ lastTime r := by
  unfold sampleTime lastTime
  have h0 : (0 : ℚ) ≤ i := by positivity
  have h1 : (i : ℚ) ≤ r.size - 1 := by
    have : (i : ℚ) + 1 ≤ r.size := by exact_mod_cast hi
    linarith
  have h2 : 0 ≤ (i : ℚ) / r.rate := div_nonneg h0 hr.le
  have h3 : (i : ℚ) / r.rate ≤ (r.size - 1) / r.rate := div_le_div_of_nonneg_right h1 hr.le
  constructor <;> linarith

/-- The runs of a separated list are what is found by cutting all instants where they do not follow one another. -/
theorem instants_split {l : List (Sync α κ)} (hrate : ∀ r ∈ l, 0 < r.rate) (hsize : ∀ r ∈ l, 1 ≤ r.size) (hl : Separated l) :
    (l.flatMap instants).splitBy (fun x y => decide (x.1 = y.1 ∧ y.2 = x.2 + 1 / x.1)) = l.map instants := by
  rw [List.flatMap]
  refine List.splitBy_flatten ?_ ?_ ?_
  · intro h
    obtain ⟨r, hr, e⟩ := List.mem_map.1 h
    have := congrArg List.length e
    simp only [instants, List.length_map, List.length_range, List.length_nil] at this
    have := hsize r hr
    omega
  · intro m hm
    obtain ⟨r, hr, rfl⟩ := List.mem_map.1 hm
    unfold instants
    rw [List.isChain_map]
    refine (List.isChain_range _ _).2 ?_
    intro i hi
    simp only [decide_eq_true_eq, true_and]
    unfold sampleTime
    push_cast
    ring
  · rw [List.isChain_map]
    have hb : l.IsChain (fun a b => (a ∈ l ∧ b ∈ l) ∧ ¬ (a.rate = b.rate ∧ gap a b = 1 / a.rate)) := by
      have := hl.broken
      rw [List.isChain_iff_getElem] at this ⊢
      intro i hi
      exact ⟨⟨List.getElem_mem _, List.getElem_mem _⟩, this i hi⟩
    refine hb.imp ?_
    rintro a b ⟨⟨ha, hb⟩, hn⟩
    have hsa := hsize a ha
    have hsb := hsize b hb
    refine ⟨?_, ?_, ?_⟩
    · intro e
      have := congrArg List.length e
      simp only [instants, List.length_map, List.length_range, List.length_nil] at this
      omega
    · intro e
      have := congrArg List.length e
      simp only [instants, List.length_map, List.length_range, List.length_nil] at this
      omega
    · rw [decide_eq_false_iff_not]
      have e1 : (instants a).getLast (by
          intro e
          have := congrArg List.length e
          simp only [instants, List.length_map, List.length_range, List.length_nil] at this
          omega) = (a.rate, lastTime a) := by
        rw [List.getLast_eq_getElem]
        simp only [instants, List.getElem_map, List.getElem_range, List.length_map, List.length_range, sampleTime, lastTime]
        rw [Nat.cast_sub hsa, Nat.cast_one]
      have e2 : (instants b).head (by
          intro e
          have := congrArg List.length e
          simp only [instants, List.length_map, List.length_range, List.length_nil] at this
          omega) = (b.rate, b.start) := by
        rw [List.head_eq_getElem]
        simp [instants, sampleTime]
      rw [e1, e2]
      rintro ⟨h1, h2⟩
      refine hn ⟨h1, ?_⟩
      unfold gap
      dsimp only at h2
      rw [h2]
      ring

theorem instants_sorted {l : List (Sync α κ)} (hrate : ∀ r ∈ l, 0 < r.rate) (hl : Separated l) :
    (l.flatMap instants).Pairwise (fun x y => x.2 < y.2) := by
  rw [List.pairwise_flatMap]
  constructor
  · intro r hr
    unfold instants
    rw [List.pairwise_map]
    exact List.pairwise_lt_range.imp (fun h => sampleTime_lt (hrate r hr) h)
  · refine hl.order.imp_of_mem ?_
    intro a b ha hb hab x hx y hy
    obtain ⟨-, i, hi, e⟩ := mem_instants.1 hx
    obtain ⟨-, j, hj, e'⟩ := mem_instants.1 hy
    have h1 := (sampleTime_range (hrate a ha) hi).2
    have h2 := (sampleTime_range (hrate b hb) hj).1
    rw [e, e']
    linarith

theorem forall₂_both {β γ : Type _} {P : β → γ → Prop} {l : List β} {l' : List γ} (h : List.Forall₂ P l l') :
    List.Forall₂ (fun a b => a ∈ l ∧ b ∈ l' ∧ P a b) l l' := by
  induction h with
  | nil => exact .nil
  | cons hab _ ih =>
    exact .cons ⟨by simp, by simp, hab⟩ (ih.imp (fun a b h => ⟨List.mem_cons_of_mem _ h.1, List.mem_cons_of_mem _ h.2.1, h.2.2⟩))

/-- Separated runs with the same instants have the same clocks. -/
theorem separated_clocks {l l' : List (Sync α κ)} (hrate : ∀ r ∈ l, 0 < r.rate) (hsize : ∀ r ∈ l, 1 ≤ r.size) (hl : Separated l)
    (hrate' : ∀ r ∈ l', 0 < r.rate) (hsize' : ∀ r ∈ l', 1 ≤ r.size) (hl' : Separated l')
    (h : ∀ x, x ∈ l.flatMap instants ↔ x ∈ l'.flatMap instants) : List.Forall₂ (fun a b => clock a = clock b) l l' := by
  have s1 := instants_sorted hrate hl
  have s2 := instants_sorted hrate' hl'
  have hp : (l.flatMap instants).Perm (l'.flatMap instants) :=
    (List.perm_ext_iff_of_nodup (s1.imp (fun h e => by rw [e] at h; exact lt_irrefl _ h))
      (s2.imp (fun h e => by rw [e] at h; exact lt_irrefl _ h))).2 h
  have he := perm_eq_of_pairwise (fun a b h h' => lt_asymm h h') hp s1 s2
  have hm := instants_split hrate hsize hl
  rw [he, instants_split hrate' hsize' hl'] at hm
  have h2 : List.Forall₂ (fun a b => instants a = instants b) l l' := by
    have := hm.symm
    rw [← List.forall₂_eq_eq_eq, List.forall₂_map_left_iff, List.forall₂_map_right_iff] at this
    exact this
  have h3 := forall₂_both h2
  refine h3.imp ?_
  rintro a b ⟨ha, hb, e⟩
  have hlen := congrArg List.length e
  simp only [instants, List.length_map, List.length_range] at hlen
  have hsa := hsize a ha
  have h0 : (instants a)[0]? = (instants b)[0]? := by rw [e]
  simp only [instants, List.getElem?_map, List.getElem?_range (show 0 < a.size by omega), List.getElem?_range (show 0 < b.size by omega),
    Option.map_some, Option.some.injEq, Prod.mk.injEq, sampleTime] at h0
  unfold clock
  rw [h0.1, hlen]
  have := h0.2
  simp at this
  rw [this]

theorem separated_unique {l : List (Sync α κ)} (hl : Separated l) {a b : Sync α κ} (ha : a ∈ l) (hb : b ∈ l) {t : ℚ}
    (h1 : a.start ≤ t) (h2 : t ≤ lastTime a) (h3 : b.start ≤ t) (h4 : t ≤ lastTime b) : a = b := by
  by_contra hne
  obtain ⟨i, hi, rfl⟩ := List.getElem_of_mem ha
  obtain ⟨j, hj, rfl⟩ := List.getElem_of_mem hb
  have ho := List.pairwise_iff_getElem.1 hl.order
  rcases lt_trichotomy i j with h | h | h
  · have := ho i j hi hj h; linarith
  · subst h; exact hne rfl
  · have := ho j i hj hi h; linarith

/-- What a name designates in a run. -/
theorem designated_timed {t : Tags} {r : Sync α κ} {k : String} {j : Nat} {c : List (ℚ × α) × κ} (hw : WF r)
    (h : designated t r k j = some c) : ∃ d, d.length = r.size ∧ c.1 = timed r.rate r.start d := by
  unfold designated at h
  split at h
  · rename_i v hv
    cases hj : v[j]? with
    | none => rw [hj] at h; simp at h
    | some i =>
      rw [hj] at h
      simp only [Option.bind_some] at h
      obtain ⟨d, h1, _, h3⟩ := channels_some h
      exact ⟨d, hw.rect d (List.mem_of_getElem? h1), h3⟩
  · simp at h

/-- The instants of a signal set are those of any of its channels. -/
theorem mem_set_instants [One κ] {R : SigSet α κ} (hR : Reach R) {k : String} (hk : HasTag R k) (x : ℚ × ℚ) :
    x ∈ R.runs.flatMap instants ↔ ∃ v, RecordedAt [R] x.1 k 0 x.2 v := by
  have hI := reach_sinv hR
  obtain ⟨v, hv⟩ := hk
  rw [List.mem_flatMap]
  constructor
  · rintro ⟨r, hr, hx⟩
    obtain ⟨e, i, hi, e2⟩ := mem_instants.1 hx
    have hs := (designated_lt hR hr hv 0).2 (List.length_pos_iff.2 (hI.ok.tags k v hv).2.1)
    obtain ⟨c, hc⟩ := Option.isSome_iff_exists.1 hs
    obtain ⟨d, hd, ed⟩ := designated_timed (hI.ok.wf r hr) hc
    refine ⟨d[i], R, by simp, r, hr, e.symm, c, hc, ?_⟩
    rw [ed]
    exact mem_timed.2 ⟨i, List.getElem?_eq_getElem (by omega), e2⟩
  · rintro ⟨y, S, hS, r, hr, e, c, hc, hp⟩
    rw [List.mem_singleton] at hS; subst hS
    obtain ⟨d, hd, ed⟩ := designated_timed (hI.ok.wf r hr) hc
    rw [ed] at hp
    obtain ⟨i, hi, e2⟩ := mem_timed.1 hp
    have := (List.getElem?_eq_some_iff.1 hi).1
    exact ⟨r, hr, mem_instants.2 ⟨e.symm, i, by omega, e2⟩⟩

/-- **C116.** A signal set whose runs do not touch is determined by its samples: two such signal sets with the same
values for the same tags at the same times and sampling rates, and with the same calibrations, have the same names
and the same runs, with the same clocks and channels. -/
theorem C116_canonical [One κ] (R R' : SigSet α κ) (hR : Reach R) (hR' : Reach R') (hrate : ∀ r ∈ R.runs, 0 < r.rate)
    (hrate' : ∀ r ∈ R'.runs, 0 < r.rate) (hsize : ∀ r ∈ R.runs, 1 ≤ r.size) (hsize' : ∀ r ∈ R'.runs, 1 ≤ r.size)
    (hs : Separated R.runs) (hs' : Separated R'.runs) (hne : R.runs ≠ []) (hk : ∃ k, HasTag R k)
    (h : ∀ ρ k j t v, RecordedAt [R] ρ k j t v ↔ RecordedAt [R'] ρ k j t v)
    (calib : String → ℕ → κ) (hcal : CalibratedBy [R] calib) (hcal' : CalibratedBy [R'] calib) : SameSet R R' := by
  have hI := reach_sinv hR
  have hI' := reach_sinv hR'
  -- a channel of one is a channel of the other
  have hchan : ∀ {R R' : SigSet α κ}, Reach R → Reach R' → (∀ r ∈ R.runs, 0 < r.rate) → (∀ r ∈ R.runs, 1 ≤ r.size) →
      (∀ ρ k j t v, RecordedAt [R] ρ k j t v → RecordedAt [R'] ρ k j t v) → ∀ r ∈ R.runs, ∀ k j,
      (designated R.tags r k j).isSome → ∃ r' ∈ R'.runs, ∃ v, R'.tags.getItem k = .ok v ∧ j < v.length := by
    intro R R' hR hR' hrate hsize h r hr k j hj
    obtain ⟨c, hc⟩ := Option.isSome_iff_exists.1 hj
    obtain ⟨d, hd, ed⟩ := designated_timed ((reach_sinv hR).ok.wf r hr) hc
    have h0 : 0 < d.length := by rw [hd]; exact hsize r hr
    obtain ⟨S, hS, r', hr', -, c', hc', -⟩ := h r.rate k j (sampleTime r.rate r.start 0) d[0] ⟨R, by simp, r, hr, rfl, c, hc, by
      rw [ed]; exact mem_timed.2 ⟨0, List.getElem?_eq_getElem h0, rfl⟩⟩
    rw [List.mem_singleton] at hS; subst hS
    obtain ⟨v, hv⟩ := designated_some hc'
    exact ⟨r', hr', v, hv, (designated_lt hR' hr' hv j).1 (by rw [hc']; rfl)⟩
  have hnames : ∀ {R R' : SigSet α κ}, Reach R → Reach R' → (∀ r ∈ R.runs, 0 < r.rate) → (∀ r ∈ R.runs, 1 ≤ r.size) →
      (∀ ρ k j t v, RecordedAt [R] ρ k j t v → RecordedAt [R'] ρ k j t v) → R.runs ≠ [] → ∀ k v, R.tags.getItem k = .ok v →
      ∃ v', R'.tags.getItem k = .ok v' ∧ ∀ j, j < v.length → j < v'.length := by
    intro R R' hR hR' hrate hsize h hne k v hv
    obtain ⟨r, hr⟩ := List.exists_mem_of_ne_nil _ hne
    have hx : ∀ j, j < v.length → ∃ v', R'.tags.getItem k = .ok v' ∧ j < v'.length := by
      intro j hj
      obtain ⟨_, _, v', a, b⟩ := hchan hR hR' hrate hsize h r hr k j ((designated_lt hR hr hv j).2 hj)
      exact ⟨v', a, b⟩
    obtain ⟨v', hv', -⟩ := hx 0 (List.length_pos_iff.2 ((reach_sinv hR).ok.tags k v hv).2.1)
    refine ⟨v', hv', fun j hj => ?_⟩
    obtain ⟨v2, hv2, hl⟩ := hx j hj
    rw [hv'] at hv2
    obtain rfl := Except.ok.inj hv2
    exact hl
  have hne' : R'.runs ≠ [] := by
    obtain ⟨k, v, hv⟩ := hk
    obtain ⟨r, hr⟩ := List.exists_mem_of_ne_nil _ hne
    obtain ⟨r', hr', -⟩ := hchan hR hR' hrate hsize (fun ρ k j t v => (h ρ k j t v).1) r hr k 0
      ((designated_lt hR hr hv 0).2 (List.length_pos_iff.2 (hI.ok.tags k v hv).2.1))
    exact List.ne_nil_of_mem hr'
  have n1 := hnames hR hR' hrate hsize (fun ρ k j t v => (h ρ k j t v).1) hne
  have n2 := hnames hR' hR hrate' hsize' (fun ρ k j t v => (h ρ k j t v).2) hne'
  have hnm : ∀ k v v', R.tags.getItem k = .ok v → R'.tags.getItem k = .ok v' → v.length = v'.length := by
    intro k v v' hv hv'
    obtain ⟨w, hw, e⟩ := n1 k v hv
    obtain ⟨w', hw', e'⟩ := n2 k v' hv'
    rw [hv'] at hw; rw [hv] at hw'
    obtain rfl := Except.ok.inj hw
    obtain rfl := Except.ok.inj hw'
    have a := e v'.length
    have b := e' v.length
    omega
  refine ⟨?_, ?_⟩
  · intro k n
    constructor
    · rintro ⟨v, hv, rfl⟩
      obtain ⟨v', hv', -⟩ := n1 k v hv
      exact ⟨v', hv', (hnm k v v' hv hv').symm⟩
    · rintro ⟨v', hv', rfl⟩
      obtain ⟨v, hv, -⟩ := n2 k v' hv'
      exact ⟨v, hv, hnm k v v' hv hv'⟩
  · have hcl : List.Forall₂ (fun a b => clock a = clock b) R.runs R'.runs := by
      refine separated_clocks hrate hsize hs hrate' hsize' hs' ?_
      obtain ⟨k, v, hv⟩ := hk
      obtain ⟨v', hv', -⟩ := n1 k v hv
      intro x
      rw [mem_set_instants hR ⟨v, hv⟩, mem_set_instants hR' ⟨v', hv'⟩]
      exact exists_congr (fun y => h _ _ _ _ _)
    refine (forall₂_both hcl).imp ?_
    rintro a b ⟨ha, hb, e⟩
    unfold clock at e
    simp only [Prod.mk.injEq] at e
    obtain ⟨e1, e2, e3⟩ := e
    refine ⟨e1, e2, e3, ?_⟩
    intro k j
    have hsome : (designated R.tags a k j).isSome ↔ (designated R'.tags b k j).isSome := by
      constructor
      · intro hj
        obtain ⟨_, _, v', hv', hl⟩ := hchan hR hR' hrate hsize (fun ρ k j t v => (h ρ k j t v).1) a ha k j hj
        exact (designated_lt hR' hb hv' j).2 hl
      · intro hj
        obtain ⟨_, _, v', hv', hl⟩ := hchan hR' hR hrate' hsize' (fun ρ k j t v => (h ρ k j t v).2) b hb k j hj
        exact (designated_lt hR ha hv' j).2 hl
    cases hc : designated R.tags a k j with
    | none =>
      rw [hc] at hsome
      cases hc' : designated R'.tags b k j with
      | none => rfl
      | some c' => rw [hc'] at hsome; simp at hsome
    | some c =>
      rw [hc] at hsome
      obtain ⟨c', hc'⟩ := Option.isSome_iff_exists.1 (hsome.1 rfl)
      rw [hc']
      congr 1
      refine Prod.ext ?_ ?_
      · obtain ⟨d, hd, ed⟩ := designated_timed (hI.ok.wf a ha) hc
        obtain ⟨d', hd', ed'⟩ := designated_timed (hI'.ok.wf b hb) hc'
        rw [ed, ed', e1, e2]
        congr 1
        refine List.ext_getElem (by omega) ?_
        intro n hn hn'
        have hp : (sampleTime a.rate a.start n, d[n]) ∈ c.1 := by
          rw [ed]; exact mem_timed.2 ⟨n, List.getElem?_eq_getElem hn, rfl⟩
        obtain ⟨S, hS, b', hb', er, c2, hc2, hp2⟩ := (h a.rate k j _ _).1 ⟨R, by simp, a, ha, rfl, c, hc, hp⟩
        rw [List.mem_singleton] at hS; subst hS
        have t1 := designated_time (hI'.ok.wf b' hb') (hrate' b' hb') hc2 hp2
        have t2 := sampleTime_range (hrate' b hb) (i := n) (by omega)
        dsimp only at t1
        rw [e1, e2] at t1
        obtain rfl := separated_unique hs' hb' hb t1.1 t1.2 t2.1 t2.2
        rw [hc'] at hc2
        obtain rfl := Option.some.inj hc2
        rw [ed'] at hp2
        obtain ⟨m, hm, em⟩ := mem_timed.1 hp2
        dsimp only at hm em
        rw [e1, e2] at em
        have : n = m := by
          have hr := hrate' b' hb
          rcases lt_trichotomy n m with hlt | heq | hgt
          · have := sampleTime_lt (s := b'.start) hr hlt; rw [em] at this; exact absurd this (lt_irrefl _)
          · exact heq
          · have := sampleTime_lt (s := b'.start) hr hgt; rw [em] at this; exact absurd this (lt_irrefl _)
        subst this
        exact (List.getElem?_eq_some_iff.1 hm).2.symm
      · rw [hcal R (by simp) a ha k j c hc, hcal' R' (by simp) b hb k j c' hc']

/-- Fusing all that follows exactly leaves separated runs. -/
theorem separated_fused [One κ] {M R : SigSet α κ} (hM : Regular M) (h : M.mergeConsecutive = .ok R)
    (he : M.runs.IsChain (fun a b => Continues a b → gap a b = 1 / a.rate))
    (hst : M.runs.Pairwise (fun a b => lastTime a < b.start)) : Separated R.runs := by
  have hI := reach_sinv hM.reach
  have hd := Inventory.regular_starts hM
  rw [(mergeConsecutive_ok hI hM.plain hd h).1]
  have hC := chains_ok M.runs
  have hf := glued_forall₂ hI
  have hmax := hC.maximal
  have hne := hC.nonempty
  have hch := hC.chain
  have hex := exact_chains he
  have hsub : ∀ g ∈ chains cont M.runs, ∀ s ∈ g, s ∈ M.runs := fun g hg => chains_mem hg
  rw [← chains_flatten cont M.runs, List.pairwise_flatten] at hst
  have hst := hst.2
  generalize chains cont M.runs = C at hf hmax hne hch hex hsub hst
  generalize glued M = G at hf
  -- a run and the chain it comes from
  have key : ∀ (r : Sync α κ) (g : List (Sync α κ)), Fused r g → g ∈ C → ∃ a ∈ g.head?, ∃ z ∈ g.getLast?,
      r.start = a.start ∧ r.rate = a.rate ∧ lastTime r = lastTime z ∧ r.rate = z.rate := by
    intro r g f1 hg
    cases hgn : g with
    | nil => rw [hgn] at hg; exact absurd hg hne
    | cons a l =>
      have hz : (a :: l).getLast (by simp) ∈ g.getLast? := by
        rw [hgn]; exact List.getLast?_eq_some_getLast _
      refine ⟨a, by simp, (a :: l).getLast (by simp), List.getLast?_eq_some_getLast _, f1.start a (by simp [hgn]), f1.rate a (by simp [hgn]), ?_, ?_⟩
      · exact fused_lastTime f1 (hch g hg) (hex g hg) (fun a ha => hI.ok.rate a (hsub g hg a ha)) _ hz
      · rw [f1.rate a (by simp [hgn])]
        exact (continues_rate (hch g hg) a (by simp [hgn]) _ (List.mem_of_getLast? hz)).symm
  refine ⟨?_, ?_⟩
  · clear hmax hne hch hex hsub
    induction hf with
    | nil => simp
    | @cons r g G C f1 f2 ih =>
      rw [List.pairwise_cons] at hst ⊢
      refine ⟨?_, ih hst.2 (fun r g f hg => key r g f (by simp [hg]))⟩
      intro r' hr'
      obtain ⟨g', hg', f'⟩ := forall₂_mem_left f2 r' hr'
      obtain ⟨-, -, z, hz, -, -, e1, -⟩ := key r g f1 (by simp)
      obtain ⟨a', ha', -, -, e2, -⟩ := key r' g' f' (by simp [hg'])
      rw [e1, e2]
      exact hst.1 g' hg' z (List.mem_of_getLast? hz) a' (List.mem_of_head? ha')
  · clear hne hch hex hsub hst
    induction hf with
    | nil => simp
    | @cons r g G C f1 f2 ih =>
      have ih2 := ih hmax.tail (fun r g f hg => key r g f (by simp [hg]))
      cases f2 with
      | nil => simp
      | @cons r' g' G C f3 f4 =>
        refine List.isChain_cons_cons.2 ⟨?_, ih2⟩
        have hm := (List.isChain_cons_cons.1 hmax).1
        obtain ⟨-, -, z, hz, -, -, e1, e1'⟩ := key r g f1 (by simp)
        obtain ⟨a', ha', -, -, e2, e2', -⟩ := key r' g' f3 (by simp)
        rintro ⟨c1, c2⟩
        refine hm z hz a' ha' ⟨by rw [← e1', ← e2', c1], ?_⟩
        have : gap z a' = 1 / z.rate := by
          unfold gap at c2 ⊢
          rw [← e1, ← e2, c2, e1']
        rw [this]
        simp
        positivity

/-- The samples after fusing are those before. -/
theorem fused_recorded [One κ] {M R : SigSet α κ} (hM : Regular M) (h : M.mergeConsecutive = .ok R)
    (he : M.runs.IsChain (fun a b => Continues a b → gap a b = 1 / a.rate)) (ρ : ℚ) (k : String) (j : ℕ) (t : ℚ) (v : α) :
    RecordedAt [R] ρ k j t v ↔ RecordedAt [M] ρ k j t v := by
  constructor
  · rintro ⟨S, hS, r, hr, e, c, hc, hp⟩
    rw [List.mem_singleton] at hS; subst hS
    obtain ⟨a, ha, ea, c', hc', p', hp', e1, e2⟩ := fused_sample hM h hr hc hp
    have : p' = (t, v) := Prod.ext (e2 he) e1
    subst this
    exact ⟨M, by simp, a, ha, ea.trans e, c', hc', hp'⟩
  · rintro ⟨S, hS, a, ha, e, c, hc, hp⟩
    rw [List.mem_singleton] at hS; subst hS
    obtain ⟨r, hr, er, hk⟩ := fused_keeps hM h he ha
    obtain ⟨c', hc', hsub⟩ := hk k j c hc
    exact ⟨R, by simp, r, hr, er.trans e, c', hc', hsub _ hp⟩

theorem fused_calibrated [One κ] {M R : SigSet α κ} (hM : Regular M) (h : M.mergeConsecutive = .ok R) {calib : String → ℕ → κ}
    (hc : CalibratedBy [M] calib) : CalibratedBy [R] calib := by
  intro S hS r hr k j c hd
  rw [List.mem_singleton] at hS; subst hS
  obtain ⟨a, ha, c', hc', e⟩ := fused_cal hM h hr hd
  rw [← e]
  exact hc M (by simp) a ha k j c' hc'

theorem regular_fused [One κ] {M R : SigSet α κ} (hM : Regular M) (h : M.mergeConsecutive = .ok R) : Regular R := by
  have hst := Inventory.regular_starts hM
  obtain ⟨-, t1, -⟩ := C26_samples M R hM.reach hM.plain hst h
  obtain ⟨gs, hC, hF⟩ := C27_chains M R hM.reach hM.plain hst h
  have key : ∀ r ∈ R.runs, ∃ g a, a ∈ M.runs ∧ Fused r (a :: g) := by
    intro r hr
    obtain ⟨g, hg, hfu⟩ := (forall₂_mems hF).1 r hr
    cases g with
    | nil => exact absurd hg hC.nonempty
    | cons a g =>
      refine ⟨g, a, ?_, hfu⟩
      rw [← hC.all]
      exact List.mem_flatten.2 ⟨_, hg, by simp⟩
  refine ⟨.mergeConsecutive hM.reach h, ?_, ?_, ?_⟩
  · have := (mergeConsecutive_ok (reach_sinv hM.reach) hM.plain hst h).2.1
    exact plain_same this.symm hM.plain
  · intro r hr
    obtain ⟨g, a, ha, hf⟩ := key r hr
    rw [hf.rate a (by simp)]
    exact hM.rate a ha
  · intro r hr
    obtain ⟨g, a, ha, hf⟩ := key r hr
    rw [hf.size]
    have := hM.size a ha
    simp only [List.map_cons, List.sum_cons]
    omega

/-- **C116.** Two ways to cut the same recordings into runs give the same signal set once consecutive runs are fused
(`merge_consecutive_runs`), if the runs that continue one another do so exactly. -/
theorem C116_merge_consecutive [One κ] (S S' R R' : SigSet α κ) (hS : Regular S) (hS' : Regular S')
    (hst : S.runs.Pairwise (fun a b => lastTime a < b.start)) (hst' : S'.runs.Pairwise (fun a b => lastTime a < b.start))
    (he : S.runs.IsChain (fun a b => Continues a b → gap a b = 1 / a.rate))
    (he' : S'.runs.IsChain (fun a b => Continues a b → gap a b = 1 / a.rate))
    (h : S.mergeConsecutive = .ok R) (h' : S'.mergeConsecutive = .ok R') (hne : S.runs ≠ []) (hk : ∃ k, HasTag S k)
    (hsame : ∀ ρ k j t v, RecordedAt [S] ρ k j t v ↔ RecordedAt [S'] ρ k j t v)
    (calib : String → ℕ → κ) (hcal : CalibratedBy [S] calib) (hcal' : CalibratedBy [S'] calib) : SameSet R R' := by
  have hR := regular_fused hS h
  have hR' := regular_fused hS' h'
  obtain ⟨-, t1, -, t4⟩ := C26_samples S R hS.reach hS.plain (Inventory.regular_starts hS) h
  refine C116_canonical R R' hR.reach hR'.reach hR.rate hR'.rate (fun r hr => by have := hR.size r hr; omega)
    (fun r hr => by have := hR'.size r hr; omega) (separated_fused hS h he hst) (separated_fused hS' h' he' hst') ?_ ?_ ?_ calib
    (fused_calibrated hS h hcal) (fused_calibrated hS' h' hcal')
  · obtain ⟨s, hs⟩ := List.exists_mem_of_ne_nil _ hne
    obtain ⟨r, hr, -⟩ := (t4 s.rate).2 ⟨s, hs, rfl⟩
    exact List.ne_nil_of_mem hr
  · obtain ⟨k, v, hv⟩ := hk
    exact ⟨k, v, by rw [t1 k]; exact hv⟩
  · intro ρ k j t v
    rw [fused_recorded hS h he, fused_recorded hS' h' he', hsame]

/-! Packing. -/

theorem lastTime_gt {r : Sync α κ} (hr : 0 < r.rate) (hs : 2 ≤ r.size) : r.start < lastTime r := by
  unfold lastTime
  have : (1 : ℚ) < r.size := by exact_mod_cast hs
  have : 0 < ((r.size : ℚ) - 1) / r.rate := div_pos (by linarith) hr
  linarith

/-- If no tag is recorded twice at the same instant, the runs that `pack()` finds before fusing have no common
instant. -/
theorem pack_apart [One κ] {I : Inventory α κ} {M : SigSet α κ} (hM : Regular M) (hnr : NoRepeat I)
    (hI : ∀ S ∈ I, Regular S) {k₀ : String} (hk₀ : HasTag M k₀)
    (h4 : ∀ ρ a b, a < b → AllRecorded I ρ a b → ∃ r ∈ M.runs, r.rate = ρ ∧ r.start ≤ a ∧
        ∀ S ∈ I, ∀ s ∈ S.runs, Lasts s ρ a b → ∀ k j c', designated S.tags s k j = some c' →
          ∃ c, designated M.tags r k j = some c ∧ c.2 = c'.2 ∧ ∀ p ∈ c'.1, a ≤ p.1 → p.1 ≤ b → p ∈ c.1)
    (h5 : ∀ r ∈ M.runs, ∃ a b, a < b ∧ AllRecorded I r.rate a b ∧ ∀ k j c, designated M.tags r k j = some c →
        ∃ S ∈ I, ∃ s ∈ S.runs, Lasts s r.rate a b ∧ ∃ c', designated S.tags s k j = some c' ∧ c'.2 = c.2 ∧
          ∀ p ∈ c.1, p ∈ c'.1 ∧ a ≤ p.1 ∧ p.1 ≤ b) :
    M.runs.Pairwise (fun a b => lastTime a < b.start) := by
  have hIM := reach_sinv hM.reach
  have hdis := (hIM.ok.disjoint).and (C18_starts_distinct M hM.reach (fun s hs => ⟨hM.rate s hs, hM.size s hs⟩))
  refine hdis.imp_of_mem ?_
  rintro x y hx hy ⟨hxy, hlt⟩
  refine lt_of_le_of_ne hxy ?_
  intro et
  obtain ⟨v, hv⟩ := hk₀
  have h0 : 0 < v.length := List.length_pos_iff.2 (hIM.ok.tags k₀ v hv).2.1
  -- the first and last samples of a run lie in its interval, for some recording of the tag
  have ends : ∀ x ∈ M.runs, ∀ a b, (∀ k j c, designated M.tags x k j = some c →
        ∃ S ∈ I, ∃ s ∈ S.runs, Lasts s x.rate a b ∧ ∃ c', designated S.tags s k j = some c' ∧ c'.2 = c.2 ∧
          ∀ p ∈ c.1, p ∈ c'.1 ∧ a ≤ p.1 ∧ p.1 ≤ b) → a ≤ x.start ∧ lastTime x ≤ b ∧
        ∃ S ∈ I, ∃ s ∈ S.runs, Lasts s x.rate a b ∧ HasTag S k₀ ∧ ∃ c', designated S.tags s k₀ 0 = some c' ∧
          (∃ w, (x.start, w) ∈ c'.1) ∧ ∃ w, (lastTime x, w) ∈ c'.1 := by
    intro x hx a b hd
    have hs := (designated_lt hM.reach hx hv 0).2 h0
    obtain ⟨c, hc⟩ := Option.isSome_iff_exists.1 hs
    obtain ⟨d, hdl, ed⟩ := designated_timed (hIM.ok.wf x hx) hc
    obtain ⟨S, hS, s, hs, hl, c', hc', -, hp⟩ := hd k₀ 0 c hc
    have h2 := hM.size x hx
    have m1 : (x.start, d[0]'(by omega)) ∈ c.1 := by
      rw [ed]
      exact mem_timed.2 ⟨0, List.getElem?_eq_getElem (by omega), by simp [sampleTime]⟩
    have m2 : (lastTime x, d[x.size - 1]'(by omega)) ∈ c.1 := by
      rw [ed]
      refine mem_timed.2 ⟨x.size - 1, List.getElem?_eq_getElem (by omega), ?_⟩
      unfold sampleTime lastTime
      rw [Nat.cast_sub (by omega), Nat.cast_one]
    exact ⟨(hp _ m1).2.1, (hp _ m2).2.2, S, hS, s, hs, hl, designated_some hc', c', hc', ⟨_, (hp _ m1).1⟩, _, (hp _ m2).1⟩
  obtain ⟨a1, b1, hab1, hrec1, hd1⟩ := h5 x hx
  obtain ⟨a2, b2, hab2, hrec2, hd2⟩ := h5 y hy
  obtain ⟨l1, l2, S1, hS1, s1, hs1, hl1, hk1, c1, hc1, ⟨w1, hw1⟩, ⟨w1', hw1'⟩⟩ := ends x hx a1 b1 hd1
  obtain ⟨l3, l4, S2, hS2, s2, hs2, hl2, hk2, c2, hc2, ⟨w2, hw2⟩, ⟨w2', hw2'⟩⟩ := ends y hy a2 b2 hd2
  have g1 := lastTime_gt (hM.rate x hx) (hM.size x hx)
  have g2 := lastTime_gt (hM.rate y hy) (hM.size y hy)
  have same : ∀ {S S' : SigSet α κ} {s s' : Sync α κ} {k : String}, S ∈ I → S' ∈ I → HasTag S k → HasTag S' k → s ∈ S.runs →
      s' ∈ S'.runs → Lasts s x.rate a1 b1 → Lasts s' y.rate a2 b2 → s = s' := by
    intro S S' s s' k hS hS' h1 h2 hs hs' m1 m2
    refine hnr S hS S' hS' k h1 h2 s hs s' hs' (lastTime x) ?_ ?_ ?_ ?_
    · have := m1.lo; linarith
    · have := m1.hi; linarith
    · have := m2.lo; linarith
    · have := m2.hi; linarith
  have es := same hS1 hS2 hk1 hk2 hs1 hs2 hl1 hl2
  have er : x.rate = y.rate := by rw [← hl1.rate, ← hl2.rate, es]
  have hab : a1 < b2 := by linarith
  have hrec : AllRecorded I x.rate a1 b2 := by
    intro k hk
    obtain ⟨S, hS, hSk, s, hs, hl⟩ := hrec1 k hk
    obtain ⟨S', hS', hSk', s', hs', hl'⟩ := hrec2 k hk
    have e := same hS hS' hSk hSk' hs hs' hl hl'
    subst e
    exact ⟨S, hS, hSk, s, hs, hl.rate, hl.lo, hl'.hi⟩
  obtain ⟨r, hr, -, -, hd⟩ := h4 x.rate a1 b2 hab hrec
  have hl1' : Lasts s1 x.rate a1 b2 := ⟨hl1.rate, hl1.lo, by rw [es]; exact hl2.hi⟩
  obtain ⟨c, hc, -, hp⟩ := hd S1 hS1 s1 hs1 hl1' k₀ 0 c1 hc1
  have q1 := hp _ hw1 l1 (show x.start ≤ b2 by linarith)
  have hl2' : Lasts s2 x.rate a1 b2 := by rw [← es]; exact hl1'
  obtain ⟨c', hc', -, hp'⟩ := hd S2 hS2 s2 hs2 hl2' k₀ 0 c2 hc2
  have q2 := hp' _ hw2' (show a1 ≤ lastTime y by linarith) l4
  have t1 := designated_time (hIM.ok.wf r hr) (hM.rate r hr) hc q1
  have t2 := designated_time (hIM.ok.wf r hr) (hM.rate r hr) hc' q2
  dsimp only at t1 t2
  -- run `r` meets both runs in more than an instant
  have meet : ∀ a ∈ M.runs, ∀ b ∈ M.runs, ∀ u w, u < w → a.start ≤ u → w ≤ lastTime a → b.start ≤ u → w ≤ lastTime b → a = b := by
    intro a ha b hb u w huw k1 k2 k3 k4
    by_contra hne
    obtain ⟨i, hi, rfl⟩ := List.getElem_of_mem ha
    obtain ⟨j, hj, rfl⟩ := List.getElem_of_mem hb
    have ho := List.pairwise_iff_getElem.1 hIM.ok.disjoint
    rcases lt_trichotomy i j with h | h | h
    · have := ho i j hi hj h; linarith
    · subst h; exact hne rfl
    · have := ho j i hj hi h; linarith
  have e1 := meet r hr x hx x.start (lastTime x) g1 t1.1 (by linarith) (le_refl _) (le_refl _)
  have e2 := meet r hr y hy y.start (lastTime y) g2 (by linarith) t2.2 (le_refl _) (le_refl _)
  rw [← e1, ← e2] at hlt
  exact lt_irrefl _ hlt

/-- **C116.** The result of `pack()` depends on what is recorded while all tags are recorded, not on the files and
runs it comes in: for two inventories of synchronised recordings (with rates up to 10 MHz, and in which no tag is
recorded twice at the same instant) with the same values at the same times while all tags are recorded, and the same
calibrations, `pack()` gives the same names and the same runs, with the same clocks and channels. -/
theorem C116_pack [One κ] (o o' : SetOrder) (ho : SetOrder.OK o) (ho' : SetOrder.OK o') (I J : Inventory α κ)
    (hI : ∀ S ∈ I, Regular S) (hJ : ∀ S ∈ J, Regular S) (hIs : Synchronised I) (hJs : Synchronised J)
    (hIr : ∀ S ∈ I, ∀ s ∈ S.runs, s.rate ≤ 10 ^ 7) (hJr : ∀ S ∈ J, ∀ s ∈ S.runs, s.rate ≤ 10 ^ 7)
    (hIn : NoRepeat I) (hJn : NoRepeat J) (hIk : ∃ S ∈ I, ∃ k, HasTag S k) (hJk : ∃ S ∈ J, ∃ k, HasTag S k)
    (calib : String → ℕ → κ) (hIc : CalibratedBy I calib) (hJc : CalibratedBy J calib)
    (hsame : ∀ ρ k j t v, RecordedTogether I ρ k j t v ↔ RecordedTogether J ρ k j t v)
    (R R' : SigSet α κ) (h : I.pack o = .ok R) (h' : J.pack o' = .ok R') : SameSet R R' := by
  have hrec : ∀ ρ k j t v, RecordedAt [R] ρ k j t v ↔ RecordedAt [R'] ρ k j t v := by
    intro ρ k j t v
    have e1 := C112_pack_samples o ho I hI hIs hIr R h ρ k j (t, v)
    have e2 := C112_pack_samples o' ho' J hJ hJs hJr R' h' ρ k j (t, v)
    have e3 := hsame ρ k j t v
    unfold RecordedAt ValueAt
    simp only [List.mem_singleton, exists_eq_left]
    exact e1.trans (e3.trans e2.symm)
  -- the result of `pack` is regular, separated
  have prep : ∀ {o : SetOrder} {I : Inventory α κ} {R : SigSet α κ}, SetOrder.OK o → (∀ S ∈ I, Regular S) → Synchronised I →
      (∀ S ∈ I, ∀ s ∈ S.runs, s.rate ≤ 10 ^ 7) → NoRepeat I → (∃ S ∈ I, ∃ k, HasTag S k) → I.pack o = .ok R → R.runs ≠ [] →
      Separated R.runs ∧ ∃ k, HasTag R k := by
    intro o I R ho hI hIs hIr hIn hIk h hne
    rcases C33_pack_all_or_nothing o I hI R h with ⟨e, -⟩ | ⟨-, htag, -⟩
    · exact absurd e hne
    obtain ⟨M, h1, h2, h3, h4, h5⟩ := C112_pack_complete o ho I hI R h hIk
    rcases h3 with h3 | h3
    · have he := regular_exact h1 h2 hIs hIr
      obtain ⟨S, hS, k, hk⟩ := hIk
      have hRk : HasTag R k := (htag k).2 ⟨S, hS, hk⟩
      obtain ⟨-, t1, -⟩ := C26_samples M R h1.reach h1.plain (Inventory.regular_starts h1) h3
      have hMk : HasTag M k := by
        obtain ⟨v, hv⟩ := hRk
        exact ⟨v, by rw [← t1 k]; exact hv⟩
      exact ⟨separated_fused h1 h3 he (pack_apart h1 hIn hI hMk h4 h5), k, hRk⟩
    · exact absurd h3.2 hne
  have hR := regular_packAll hI (by simpa [Inventory.pack] using h)
  have hR' := regular_packAll hJ (by simpa [Inventory.pack] using h')
  have wit : ∀ {R : SigSet α κ}, Regular R → R.runs ≠ [] → (∃ k, HasTag R k) → ∃ ρ k j t v, RecordedAt [R] ρ k j t v := by
    intro R hR hne hk
    obtain ⟨k, hk⟩ := hk
    obtain ⟨r, hr⟩ := List.exists_mem_of_ne_nil _ hne
    obtain ⟨v, hv⟩ := (mem_set_instants hR.reach hk (r.rate, sampleTime r.rate r.start 0)).1
      (List.mem_flatMap.2 ⟨r, hr, mem_instants.2 ⟨rfl, 0, by have := hR.size r hr; omega, rfl⟩⟩)
    exact ⟨_, _, _, _, _, hv⟩
  have run : ∀ {R : SigSet α κ} {ρ k j t v}, RecordedAt [R] ρ k j t v → R.runs ≠ [] := by
    rintro R ρ k j t v ⟨S, hS, s, hs, -⟩
    rw [List.mem_singleton] at hS; subst hS
    exact List.ne_nil_of_mem hs
  by_cases hne : R.runs = []
  · have hne' : R'.runs = [] := by
      by_contra hn
      obtain ⟨s1, s2⟩ := prep ho' hJ hJs hJr hJn hJk h' hn
      obtain ⟨ρ, k, j, t, v, hv⟩ := wit hR' hn s2
      exact run ((hrec ρ k j t v).2 hv) hne
    have none : ∀ {o : SetOrder} {I : Inventory α κ} {R : SigSet α κ}, (∀ S ∈ I, Regular S) → I.pack o = .ok R → R.runs = [] → ∀ k, ¬ HasTag R k := by
      intro o I R hI h he
      rcases C33_pack_all_or_nothing o I hI R h with ⟨-, e⟩ | ⟨e, -⟩
      · exact e
      · exact absurd he e
    refine ⟨?_, by rw [hne, hne']; exact .nil⟩
    intro k n
    constructor
    · rintro ⟨v, hv, -⟩; exact absurd ⟨v, hv⟩ (none hI h hne k)
    · rintro ⟨v, hv, -⟩; exact absurd ⟨v, hv⟩ (none hJ h' hne' k)
  · obtain ⟨s1, s2⟩ := prep ho hI hIs hIr hIn hIk h hne
    have hne' : R'.runs ≠ [] := by
      obtain ⟨ρ, k, j, t, v, hv⟩ := wit hR hne s2
      exact run ((hrec ρ k j t v).1 hv)
    obtain ⟨s1', -⟩ := prep ho' hJ hJs hJr hJn hJk h' hne'
    exact C116_canonical R R' hR.reach hR'.reach hR.rate hR'.rate (fun r hr => by have := hR.size r hr; omega)
      (fun r hr => by have := hR'.size r hr; omega) s1 s1' hne s2 hrec calib (pack_cal hI h hIc) (pack_cal hJ h' hJc)

/-- When every signal set has all tags, what is recorded is recorded together. -/
theorem recorded_together [One κ] {I : List (SigSet α κ)} (hI : ∀ S ∈ I, Regular S)
    (hall : ∀ S ∈ I, ∀ T ∈ I, ∀ k, HasTag S k → HasTag T k) (ρ : ℚ) (k : String) (j : ℕ) (t : ℚ) (v : α) :
    RecordedTogether I ρ k j t v ↔ RecordedAt I ρ k j t v := by
  constructor
  · rintro ⟨a, b, -, -, -, -, S, hS, s, hs, hl, hv⟩
    exact ⟨S, hS, s, hs, hl.rate, hv⟩
  · rintro ⟨S, hS, s, hs, e, c, hc, hp⟩
    have hw := (reach_sinv (hI S hS).reach).ok.wf s hs
    have ht := designated_time hw ((hI S hS).rate s hs) hc hp
    have hl : Lasts s ρ s.start (lastTime s) := ⟨e, le_refl _, le_refl _⟩
    refine ⟨s.start, lastTime s, lastTime_gt ((hI S hS).rate s hs) ((hI S hS).size s hs), ht.1, ht.2, ?_, S, hS, s, hs, hl, c, hc, hp⟩
    rintro k' ⟨T, hT, hk'⟩
    exact ⟨S, hS, hall T hT S hS k' hk', s, hs, hl⟩

/-- **C116.** How recordings are cut into runs and files does not matter: two inventories, in each of which every
signal set has all tags, with the same recorded values (same tag, position, time, rate) and the same calibrations,
give the same signal set when packed. -/
theorem C116_segments [One κ] (o o' : SetOrder) (ho : SetOrder.OK o) (ho' : SetOrder.OK o') (I J : Inventory α κ)
    (hI : ∀ S ∈ I, Regular S) (hJ : ∀ S ∈ J, Regular S) (hIs : Synchronised I) (hJs : Synchronised J)
    (hIr : ∀ S ∈ I, ∀ s ∈ S.runs, s.rate ≤ 10 ^ 7) (hJr : ∀ S ∈ J, ∀ s ∈ S.runs, s.rate ≤ 10 ^ 7)
    (hIn : NoRepeat I) (hJn : NoRepeat J) (hIk : ∃ S ∈ I, ∃ k, HasTag S k) (hJk : ∃ S ∈ J, ∃ k, HasTag S k)
    (hIa : ∀ S ∈ I, ∀ T ∈ I, ∀ k, HasTag S k → HasTag T k) (hJa : ∀ S ∈ J, ∀ T ∈ J, ∀ k, HasTag S k → HasTag T k)
    (calib : String → ℕ → κ) (hIc : CalibratedBy I calib) (hJc : CalibratedBy J calib)
    (hsame : ∀ ρ k j t v, RecordedAt I ρ k j t v ↔ RecordedAt J ρ k j t v)
    (R R' : SigSet α κ) (h : I.pack o = .ok R) (h' : J.pack o' = .ok R') : SameSet R R' :=
  C116_pack o o' ho ho' I J hI hJ hIs hJs hIr hJr hIn hJn hIk hJk calib hIc hJc
    (fun ρ k j t v => by rw [recorded_together hI hIa, recorded_together hJ hJa, hsame]) R R' h h'

/-- **C116.** So the estimates are the same too. -/
theorem C116_impedance {σ : Type _} [One κ] (cal : κ → ℚ → Option ℂ) (o o' : SetOrder) (ho : SetOrder.OK o) (ho' : SetOrder.OK o')
    (I J : Inventory ℂ κ)
    (hI : ∀ S ∈ I, Regular S) (hJ : ∀ S ∈ J, Regular S) (hIs : Synchronised I) (hJs : Synchronised J)
    (hIr : ∀ S ∈ I, ∀ s ∈ S.runs, s.rate ≤ 10 ^ 7) (hJr : ∀ S ∈ J, ∀ s ∈ S.runs, s.rate ≤ 10 ^ 7)
    (hIn : NoRepeat I) (hJn : NoRepeat J) (hIk : ∃ S ∈ I, ∃ k, HasTag S k) (hJk : ∃ S ∈ J, ∃ k, HasTag S k)
    (calib : String → ℕ → κ) (hIc : CalibratedBy I calib) (hJc : CalibratedBy J calib)
    (hsame : ∀ ρ k j t v, RecordedTogether I ρ k j t v ↔ RecordedTogether J ρ k j t v)
    (R R' : SigSet ℂ κ) (h : I.pack o = .ok R) (h' : J.pack o' = .ok R') (opts : Impedance.Opts σ) (freqs : List ℚ) (heap : ℕ → σ) :
    Impedance.impedance cal R opts freqs heap = Impedance.impedance cal R' opts freqs heap := by
  obtain ⟨n1, r1⟩ := named_pack ho hI h
  obtain ⟨n2, r2⟩ := named_pack ho' hJ h'
  have hs := C116_pack o o' ho ho' I J hI hJ hIs hJs hIr hJr hIn hJn hIk hJk calib hIc hJc hsame R R' h h'
  refine C103_impedance cal R R' r1 r2 opts (SameSet.sameFor hs _) freqs (fun f _ => ?_) heap
  by_cases he : R.runs = []
  · have he' : R'.runs = [] := List.eq_nil_of_length_eq_zero (by rw [← hs.runs.length_eq, he]; rfl)
    unfold SameKnown
    rw [he, he']
    exact .nil
  · have he' : R'.runs ≠ [] := fun e => he (List.eq_nil_of_length_eq_zero (by rw [hs.runs.length_eq, e]; rfl))
    have all : ∀ {R : SigSet ℂ κ}, Named R → Reach R → R.runs ≠ [] → AllTagged R.tags R.nbChannels := by
      intro R n r he
      obtain ⟨s, hs⟩ := List.exists_mem_of_ne_nil _ he
      rw [nbChannels_eq (reach_sinv r) hs]
      exact n s hs
    exact sameKnown_of_tagged cal f r1 r2 hs (all n1 r1 he) (all n2 r2 he')

section examples

/-- Two channels recorded as a whole, or in two files with the channels in another order. -/
def exWhole : SigSet Int ℚ := ⟨[⟨[[1, 2, 3, 4], [5, 6, 7, 8]], [1, 2], 1, 0, 4⟩], ⟨2, [("B", [0]), ("E", [1])]⟩⟩
def exPart1 : SigSet Int ℚ := ⟨[⟨[[1, 2], [5, 6]], [1, 2], 1, 0, 2⟩], ⟨2, [("B", [0]), ("E", [1])]⟩⟩
def exPart2 : SigSet Int ℚ := ⟨[⟨[[7, 8], [3, 4]], [2, 1], 1, 2, 2⟩], ⟨2, [("E", [0]), ("B", [1])]⟩⟩

theorem exWhole_regular : Regular exWhole := by
  refine ⟨Reach.new (.dict [("B", .int 0), ("E", .int 1)]) [.sync ⟨[[1, 2, 3, 4], [5, 6, 7, 8]], [1, 2], 1, 0, 4⟩] ?_ (by simp) (by decide +kernel), ?_, ?_, ?_⟩
  · intro s hs; simp at hs; subst hs; exact ⟨by simp, by simp, by simp⟩
  · intro k hk; simp [reserved] at hk; rcases hk with rfl|rfl|rfl|rfl|rfl <;> decide
  · intro r hr; simp [exWhole] at hr; subst hr; norm_num
  · intro r hr; simp [exWhole] at hr; subst hr; norm_num

theorem exPart1_regular : Regular exPart1 := by
  refine ⟨Reach.new (.dict [("B", .int 0), ("E", .int 1)]) [.sync ⟨[[1, 2], [5, 6]], [1, 2], 1, 0, 2⟩] ?_ (by simp) (by decide +kernel), ?_, ?_, ?_⟩
  · intro s hs; simp at hs; subst hs; exact ⟨by simp, by simp, by simp⟩
  · intro k hk; simp [reserved] at hk; rcases hk with rfl|rfl|rfl|rfl|rfl <;> decide
  · intro r hr; simp [exPart1] at hr; subst hr; norm_num
  · intro r hr; simp [exPart1] at hr; subst hr; norm_num

theorem exPart2_regular : Regular exPart2 := by
  refine ⟨Reach.new (.dict [("E", .int 0), ("B", .int 1)]) [.sync ⟨[[7, 8], [3, 4]], [2, 1], 1, 2, 2⟩] ?_ (by simp) (by decide +kernel), ?_, ?_, ?_⟩
  · intro s hs; simp at hs; subst hs; exact ⟨by simp, by simp, by simp⟩
  · intro k hk; simp [reserved] at hk; rcases hk with rfl|rfl|rfl|rfl|rfl <;> decide
  · intro r hr; simp [exPart2] at hr; subst hr; norm_num
  · intro r hr; simp [exPart2] at hr; subst hr; norm_num

/-- What the names call in these sets. -/
theorem exCut_designated {S : SigSet Int ℚ} (hS : S = exWhole ∨ S = exPart1 ∨ S = exPart2) {s : Sync Int ℚ} (hs : s ∈ S.runs) {k : String} {j : ℕ}
    {c : List (ℚ × Int) × ℚ} (h : designated S.tags s k j = some c) :
    j = 0 ∧ ((k = "B" ∧ designated S.tags s "B" 0 = some c) ∨ (k = "E" ∧ designated S.tags s "E" 0 = some c)) := by
  obtain ⟨v, hv⟩ := designated_some h
  have hm := Dict.mem_of_get? (Tags.getItem_ok.1 hv)
  have hk : k = "B" ∨ k = "E" := by
    rcases hS with rfl | rfl | rfl <;> simp [exWhole, exPart1, exPart2] at hm <;> rcases hm with hm | hm <;> simp [hm.1]
  have hl : v.length = 1 := by
    rcases hS with rfl | rfl | rfl <;> simp [exWhole, exPart1, exPart2] at hm <;> rcases hm with hm | hm <;> simp [hm.2]
  have hj : j = 0 := by
    unfold designated at h
    rw [hv] at h
    simp only at h
    cases j with
    | zero => rfl
    | succ j => rw [List.getElem?_eq_none (by omega)] at h; simp at h
  subst hj
  refine ⟨rfl, ?_⟩
  rcases hk with rfl | rfl
  · exact .inl ⟨rfl, h⟩
  · exact .inr ⟨rfl, h⟩

theorem exWhole_recorded (ρ : ℚ) (k : String) (j : ℕ) (t : ℚ) (v : Int) : RecordedAt [exWhole] ρ k j t v ↔ ρ = 1 ∧ j = 0 ∧
    ((k = "B" ∧ (t, v) ∈ [((0 : ℚ), (1 : Int)), (1, 2), (2, 3), (3, 4)]) ∨ (k = "E" ∧ (t, v) ∈ [((0 : ℚ), (5 : Int)), (1, 6), (2, 7), (3, 8)])) := by
  have dB : designated exWhole.tags ⟨[[1, 2, 3, 4], [5, 6, 7, 8]], [1, 2], 1, 0, 4⟩ "B" 0 = some ([((0 : ℚ), (1 : Int)), (1, 2), (2, 3), (3, 4)], (1 : ℚ)) := by
    decide +kernel
  have dE : designated exWhole.tags ⟨[[1, 2, 3, 4], [5, 6, 7, 8]], [1, 2], 1, 0, 4⟩ "E" 0 = some ([((0 : ℚ), (5 : Int)), (1, 6), (2, 7), (3, 8)], (2 : ℚ)) := by
    decide +kernel
  constructor
  · rintro ⟨S, hS, s, hs, e, c, hc, hp⟩
    rw [List.mem_singleton] at hS; subst hS
    obtain ⟨e0, h⟩ := exCut_designated (.inl rfl) hs hc
    have hs' : s = ⟨[[1, 2, 3, 4], [5, 6, 7, 8]], [1, 2], 1, 0, 4⟩ := by simpa [exWhole] using hs
    subst hs'
    refine ⟨e.symm, e0, ?_⟩
    rcases h with ⟨hk, h⟩ | ⟨hk, h⟩
    · rw [dB] at h; obtain rfl := Option.some.inj h; exact .inl ⟨hk, hp⟩
    · rw [dE] at h; obtain rfl := Option.some.inj h; exact .inr ⟨hk, hp⟩
  · rintro ⟨rfl, rfl, ⟨rfl, h⟩ | ⟨rfl, h⟩⟩
    · exact ⟨exWhole, by simp, _, List.mem_singleton.2 rfl, rfl, _, dB, h⟩
    · exact ⟨exWhole, by simp, _, List.mem_singleton.2 rfl, rfl, _, dE, h⟩

theorem exParts_recorded (ρ : ℚ) (k : String) (j : ℕ) (t : ℚ) (v : Int) : RecordedAt [exPart1, exPart2] ρ k j t v ↔ ρ = 1 ∧ j = 0 ∧
    ((k = "B" ∧ (t, v) ∈ [((0 : ℚ), (1 : Int)), (1, 2), (2, 3), (3, 4)]) ∨ (k = "E" ∧ (t, v) ∈ [((0 : ℚ), (5 : Int)), (1, 6), (2, 7), (3, 8)])) := by
  have dB : designated exPart1.tags ⟨[[1, 2], [5, 6]], [1, 2], 1, 0, 2⟩ "B" 0 = some ([((0 : ℚ), (1 : Int)), (1, 2)], (1 : ℚ)) := by
    decide +kernel
  have dE : designated exPart1.tags ⟨[[1, 2], [5, 6]], [1, 2], 1, 0, 2⟩ "E" 0 = some ([((0 : ℚ), (5 : Int)), (1, 6)], (2 : ℚ)) := by
    decide +kernel
  have dB' : designated exPart2.tags ⟨[[7, 8], [3, 4]], [2, 1], 1, 2, 2⟩ "B" 0 = some ([((2 : ℚ), (3 : Int)), (3, 4)], (1 : ℚ)) := by
    decide +kernel
  have dE' : designated exPart2.tags ⟨[[7, 8], [3, 4]], [2, 1], 1, 2, 2⟩ "E" 0 = some ([((2 : ℚ), (7 : Int)), (3, 8)], (2 : ℚ)) := by
    decide +kernel
  have cut : ∀ {β : Type} (x a b c d : β), x ∈ [a, b, c, d] ↔ x ∈ [a, b] ∨ x ∈ [c, d] := by
    intro β x a b c d; simp only [List.mem_cons, List.not_mem_nil, or_false]; tauto
  constructor
  · rintro ⟨S, hS, s, hs, e, c, hc, hp⟩
    simp only [List.mem_cons, List.not_mem_nil, or_false] at hS
    rcases hS with rfl | rfl
    · obtain ⟨e0, h⟩ := exCut_designated (.inr (.inl rfl)) hs hc
      have hs' : s = ⟨[[1, 2], [5, 6]], [1, 2], 1, 0, 2⟩ := by simpa [exPart1] using hs
      subst hs'
      refine ⟨e.symm, e0, ?_⟩
      rcases h with ⟨hk, h⟩ | ⟨hk, h⟩
      · rw [dB] at h; obtain rfl := Option.some.inj h; exact .inl ⟨hk, (cut ..).2 (.inl hp)⟩
      · rw [dE] at h; obtain rfl := Option.some.inj h; exact .inr ⟨hk, (cut ..).2 (.inl hp)⟩
    · obtain ⟨e0, h⟩ := exCut_designated (.inr (.inr rfl)) hs hc
      have hs' : s = ⟨[[7, 8], [3, 4]], [2, 1], 1, 2, 2⟩ := by simpa [exPart2] using hs
      subst hs'
      refine ⟨e.symm, e0, ?_⟩
      rcases h with ⟨hk, h⟩ | ⟨hk, h⟩
      · rw [dB'] at h; obtain rfl := Option.some.inj h; exact .inl ⟨hk, (cut ..).2 (.inr hp)⟩
      · rw [dE'] at h; obtain rfl := Option.some.inj h; exact .inr ⟨hk, (cut ..).2 (.inr hp)⟩
  · rintro ⟨rfl, rfl, ⟨rfl, h⟩ | ⟨rfl, h⟩⟩
    · rcases (cut ..).1 h with h | h
      · exact ⟨exPart1, by simp, _, List.mem_singleton.2 rfl, rfl, _, dB, h⟩
      · exact ⟨exPart2, by simp, _, List.mem_singleton.2 rfl, rfl, _, dB', h⟩
    · rcases (cut ..).1 h with h | h
      · exact ⟨exPart1, by simp, _, List.mem_singleton.2 rfl, rfl, _, dE, h⟩
      · exact ⟨exPart2, by simp, _, List.mem_singleton.2 rfl, rfl, _, dE', h⟩

theorem exCut_calibrated {I : List (SigSet Int ℚ)} (hI : ∀ S ∈ I, S = exWhole ∨ S = exPart1 ∨ S = exPart2) :
    CalibratedBy I (fun k _ => if k = "B" then 1 else 2) := by
  intro S hS s hs k j c hc
  have hS := hI S hS
  obtain ⟨-, h⟩ := exCut_designated hS hs hc
  rcases hS with rfl | rfl | rfl
  · have hs' : s = ⟨[[1, 2, 3, 4], [5, 6, 7, 8]], [1, 2], 1, 0, 4⟩ := by simpa [exWhole] using hs
    subst hs'
    rcases h with ⟨rfl, h⟩ | ⟨rfl, h⟩ <;> obtain rfl := Option.some.inj h.symm <;> rfl
  · have hs' : s = ⟨[[1, 2], [5, 6]], [1, 2], 1, 0, 2⟩ := by simpa [exPart1] using hs
    subst hs'
    rcases h with ⟨rfl, h⟩ | ⟨rfl, h⟩ <;> obtain rfl := Option.some.inj h.symm <;> rfl
  · have hs' : s = ⟨[[7, 8], [3, 4]], [2, 1], 1, 2, 2⟩ := by simpa [exPart2] using hs
    subst hs'
    rcases h with ⟨rfl, h⟩ | ⟨rfl, h⟩ <;> obtain rfl := Option.some.inj h.symm <;> rfl

theorem exCut_tags {S : SigSet Int ℚ} (hS : S = exWhole ∨ S = exPart1 ∨ S = exPart2) (k : String) : HasTag S k ↔ k = "B" ∨ k = "E" := by
  constructor
  · rintro ⟨v, hv⟩
    have hm := Dict.mem_of_get? (Tags.getItem_ok.1 hv)
    rcases hS with rfl | rfl | rfl <;> simp [exWhole, exPart1, exPart2] at hm <;> rcases hm with hm | hm <;> simp [hm.1]
  · rcases hS with rfl | rfl | rfl <;> rintro (rfl | rfl)
    · exact ⟨[0], by decide⟩
    · exact ⟨[1], by decide⟩
    · exact ⟨[0], by decide⟩
    · exact ⟨[1], by decide⟩
    · exact ⟨[1], by decide⟩
    · exact ⟨[0], by decide⟩

theorem exCut_run {S : SigSet Int ℚ} (hS : S = exWhole ∨ S = exPart1 ∨ S = exPart2) {s : Sync Int ℚ} (hs : s ∈ S.runs) :
    s.rate = 1 ∧ ∃ n : ℤ, s.start = n := by
  rcases hS with rfl | rfl | rfl <;> simp [exWhole, exPart1, exPart2] at hs <;> subst hs
  · exact ⟨rfl, 0, by norm_num⟩
  · exact ⟨rfl, 0, by norm_num⟩
  · exact ⟨rfl, 2, by norm_num⟩

theorem exCut_sync {I : List (SigSet Int ℚ)} (hI : ∀ S ∈ I, S = exWhole ∨ S = exPart1 ∨ S = exPart2) : Synchronised I := by
  intro S hS s hs S' hS' s' hs' _
  obtain ⟨e, n, hn⟩ := exCut_run (hI S hS) hs
  obtain ⟨-, m, hm⟩ := exCut_run (hI S' hS') hs'
  exact ⟨n - m, by rw [e, hn, hm]; push_cast; ring⟩

theorem exParts_apart : NoRepeat [exPart1, exPart2] := by
  intro S hS S' hS' k _ _ s hs s' hs' t h1 h2 h3 h4
  simp only [List.mem_cons, List.not_mem_nil, or_false] at hS hS'
  rcases hS with rfl | rfl <;> rcases hS' with rfl | rfl <;> simp [exPart1, exPart2] at hs hs' <;> subst hs <;> subst hs' <;>
    first
    | rfl
    | (exfalso; norm_num [lastTime] at h1 h2 h3 h4; linarith)

/-- The two files give the same signal set as the whole recording. -/
example : SameSet (⟨[⟨[[1, 2, 3, 4], [5, 6, 7, 8]], [1, 2], 1, 0, 4⟩], ⟨2, [("B", [0]), ("E", [1])]⟩⟩ : SigSet Int ℚ)
    ⟨[⟨[[1, 2, 3, 4], [5, 6, 7, 8]], [1, 2], 1, 0, 4⟩], ⟨2, [("B", [0]), ("E", [1])]⟩⟩ := by
  have a1 : ∀ S ∈ [exWhole], S = exWhole ∨ S = exPart1 ∨ S = exPart2 := by intro S hS; simp at hS; exact .inl hS
  have a2 : ∀ S ∈ [exPart1, exPart2], S = exWhole ∨ S = exPart1 ∨ S = exPart2 := by intro S hS; simp at hS; exact .inr hS
  refine C116_segments exOrd exOrd' exOrd_ok exOrd'_ok [exWhole] [exPart1, exPart2] ?_ ?_ (exCut_sync a1) (exCut_sync a2) ?_ ?_ ?_ exParts_apart
    ⟨exWhole, by simp, "B", [0], by decide⟩ ⟨exPart1, by simp, "B", [0], by decide⟩ ?_ ?_ _ (exCut_calibrated a1) (exCut_calibrated a2) ?_ _ _
    (by decide +kernel) (by decide +kernel)
  · intro S hS; simp at hS; subst hS; exact exWhole_regular
  · intro S hS; simp at hS; rcases hS with rfl | rfl
    · exact exPart1_regular
    · exact exPart2_regular
  · intro S hS s hs; rw [(exCut_run (a1 S hS) hs).1]; norm_num
  · intro S hS s hs; rw [(exCut_run (a2 S hS) hs).1]; norm_num
  · intro S hS S' hS' k _ _ s hs s' hs' t _ _ _ _
    simp at hS hS'; subst hS hS'; simp [exWhole] at hs hs'; rw [hs, hs']
  · intro S hS T hT k hk; exact (exCut_tags (a1 T hT) k).2 ((exCut_tags (a1 S hS) k).1 hk)
  · intro S hS T hT k hk; exact (exCut_tags (a2 T hT) k).2 ((exCut_tags (a2 S hS) k).1 hk)
  · intro ρ k j t v; rw [exWhole_recorded, exParts_recorded]

/-- A recording in two runs and in one. -/
theorem exTwoRuns_merge : (⟨[⟨[[1, 2]], [1], 1, 0, 2⟩, ⟨[[3, 4]], [1], 1, 2, 2⟩], ⟨1, [("E", [0])]⟩⟩ : SigSet Int ℚ).mergeConsecutive =
    .ok ⟨[⟨[[1, 2, 3, 4]], [1], 1, 0, 4⟩], ⟨1, [("E", [0])]⟩⟩ := by decide +kernel

example := C116_merge_consecutive _ _ _ ⟨[⟨[[1, 2, 3, 4]], [1], 1, 0, 4⟩], ⟨1, [("E", [0])]⟩⟩ exTwoRuns_regular (regular_fused exTwoRuns_regular exTwoRuns_merge)
  (by norm_num [lastTime]) (by simp) (by norm_num [gap, lastTime]) (by simp) exTwoRuns_merge (by decide +kernel)
  (by simp) ⟨"E", [0], by decide⟩ (fun ρ k j t v => (fused_recorded exTwoRuns_regular exTwoRuns_merge (by norm_num [gap, lastTime]) ρ k j t v).symm)
  (fun _ _ => 1)
  (by
    intro S hS s hs k j c hc
    rw [List.mem_singleton] at hS; subst hS
    have := designated_some hc
    obtain ⟨v, hv⟩ := this
    have hm := Dict.mem_of_get? (Tags.getItem_ok.1 hv)
    simp only [List.mem_singleton, Prod.mk.injEq] at hm
    obtain ⟨rfl, rfl⟩ := hm
    unfold designated at hc
    rw [hv] at hc
    simp only [List.mem_cons, List.not_mem_nil, or_false] at hs
    cases j with
    | zero => rcases hs with rfl | rfl <;> obtain rfl := Option.some.inj hc.symm <;> rfl
    | succ j => simp at hc)
  (fused_calibrated exTwoRuns_regular exTwoRuns_merge (by
    intro S hS s hs k j c hc
    rw [List.mem_singleton] at hS; subst hS
    have := designated_some hc
    obtain ⟨v, hv⟩ := this
    have hm := Dict.mem_of_get? (Tags.getItem_ok.1 hv)
    simp only [List.mem_singleton, Prod.mk.injEq] at hm
    obtain ⟨rfl, rfl⟩ := hm
    unfold designated at hc
    rw [hv] at hc
    simp only [List.mem_cons, List.not_mem_nil, or_false] at hs
    cases j with
    | zero => rcases hs with rfl | rfl <;> obtain rfl := Option.some.inj hc.symm <;> rfl
    | succ j => simp at hc))

end examples

/-- **C116.** The condition that matters is what is recorded together over an interval.  Here two tags are each
recorded without interruption from 0 to 5, but the one is cut after 1 and the other after 2; `pack()` finds that
they have only the instant 2 in common between, no interval, and this sample is lost. -/
theorem C116_cut_loses :
    let E : SigSet Int ℚ := ⟨[⟨[[0, 1]], [1], 1, 0, 2⟩, ⟨[[2, 3, 4, 5]], [1], 1, 2, 4⟩], ⟨1, [("E", [0])]⟩⟩
    let B : SigSet Int ℚ := ⟨[⟨[[0, 1, 2]], [1], 1, 0, 3⟩, ⟨[[3, 4, 5]], [1], 1, 3, 3⟩], ⟨1, [("B", [0])]⟩⟩
    ∃ R, Inventory.pack exOrd [E, B] = .ok R ∧ (∀ n < 6, ∃ v, RecordedAt [E, B] 1 "E" 0 (n : ℕ) v) ∧
      (∀ n < 6, ∃ v, RecordedAt [E, B] 1 "B" 0 (n : ℕ) v) ∧ R.runs ≠ [] ∧ ∀ ρ k j v, ¬ RecordedAt [R] ρ k j 2 v := by
  intro E B
  refine ⟨⟨[⟨[[0, 1], [0, 1]], [1, 1], 1, 0, 2⟩, ⟨[[3, 4, 5], [3, 4, 5]], [1, 1], 1, 3, 3⟩], ⟨2, [("B", [0]), ("E", [1])]⟩⟩, by decide +kernel, ?_, ?_, by simp, ?_⟩
  · intro n hn
    refine ⟨n, E, by simp, ?_⟩
    by_cases h : n < 2
    · refine ⟨_, List.mem_cons_self .., rfl, ([(0, 0), (1, 1)], 1), by decide +kernel, ?_⟩
      interval_cases n <;> simp
    · refine ⟨_, List.mem_cons_of_mem _ (List.mem_cons_self ..), rfl, ([(2, 2), (3, 3), (4, 4), (5, 5)], 1), by decide +kernel, ?_⟩
      interval_cases n <;> simp_all
  · intro n hn
    refine ⟨n, B, by simp, ?_⟩
    by_cases h : n < 3
    · refine ⟨_, List.mem_cons_self .., rfl, ([(0, 0), (1, 1), (2, 2)], 1), by decide +kernel, ?_⟩
      interval_cases n <;> simp
    · refine ⟨_, List.mem_cons_of_mem _ (List.mem_cons_self ..), rfl, ([(3, 3), (4, 4), (5, 5)], 1), by decide +kernel, ?_⟩
      interval_cases n <;> simp_all
  · rintro ρ k j v ⟨S, hS, s, hs, -, c, hc, hp⟩
    rw [List.mem_singleton] at hS; subst hS
    simp only [List.mem_cons, List.not_mem_nil, or_false] at hs
    have hw : WF s := by rcases hs with rfl | rfl <;> exact ⟨by simp, by simp, by simp⟩
    have ht := designated_time hw (by rcases hs with rfl | rfl <;> norm_num) hc hp
    rcases hs with rfl | rfl <;> norm_num [lastTime] at ht

end Razorback.Props
