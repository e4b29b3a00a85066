/-
C112: `pack()` keeps everything it can: at each sampling rate, all that is recorded while every tag of the
inventory is recorded.
-/
import Verif.Props.PackSucceeds

namespace Razorback.Spec
open Razorback
variable {α κ : Type _}

/-- Run `s` lasts at rate `ρ` from `a` or before to `b` or after. -/
structure Lasts (s : Sync α κ) (ρ a b : ℚ) : Prop where
  rate : s.rate = ρ
  lo : s.start ≤ a
  hi : b ≤ lastTime s

/-- Every tag of the signal sets of `I` is recorded at rate `ρ` from `a` to `b`, by a run of some of them. -/
def AllRecorded (I : List (SigSet α κ)) (ρ a b : ℚ) : Prop :=
  ∀ k, (∃ S ∈ I, HasTag S k) → ∃ S ∈ I, HasTag S k ∧ ∃ s ∈ S.runs, Lasts s ρ a b

end Razorback.Spec

namespace Razorback.Props
open Razorback Razorback.SigSet Razorback.Spec
variable {α κ : Type _}

/-- What the tags of the operands designate in the run merged from a choice. -/
theorem merged_designated [One κ] {S R : SigSet α κ} {others : List (SigSet α κ)}
    (hR : ∀ T ∈ S :: others, Reach T) (hp : ∀ T ∈ S :: others, Plain T.tags)
    (hr : ∀ T ∈ S :: others, ∀ s ∈ T.runs, 0 < s.rate) (h : S.merge others = .ok R)
    {r : Sync α κ} {c : List (Sync α κ)} {a b : ℚ} (hc : Choice c (S :: others)) (hm : Merged r c a b)
    {i : Nat} {T : SigSet α κ} {s : Sync α κ} {k : String} (hT : (S :: others)[i]? = some T) (hs : c[i]? = some s)
    (hk : HasTag T k) (j : Nat) :
    designated R.tags r k j = (designated T.tags s k j).map (cutChannel (window a b)) := by
  have hI : ∀ T ∈ S :: others, SInv T := fun T hT => reach_sinv (hR T hT)
  obtain ⟨_, _, q3, q4⟩ := merge_runs hR hp hr h
  obtain ⟨v, hk⟩ := hk
  have hTm := List.mem_of_getElem? hT
  have hTi := (hI T hTm).inv
  have hkm := Dict.mem_of_get? (Tags.getItem_ok.1 hk)
  have hnd : (mergedEntries 0 (S :: others)).keys.Nodup := by
    rw [mergedEntries_keys]; exact (namesDisjoint_iff hI).2 q4
  have hget : R.tags.getItem k = .ok (v.map (· + (0 + ((((S :: others).take i).map nbChannels).sum)))) := by
    rw [Tags.getItem_ok, q3]
    exact Dict.get?_of_mem hnd (mem_mergedEntries.2 ⟨i, T, v, hT, hkm, rfl⟩)
  unfold designated
  rw [hget, hk]
  simp only [List.getElem?_map, Nat.zero_add]
  cases hv : v[j]? with
  | none => rfl
  | some x =>
    simp only [Option.map_some, Option.bind_some]
    have hsT : s ∈ T.runs := by
      have hil := (List.getElem?_eq_some_iff.1 hs).1
      have hil' := (List.getElem?_eq_some_iff.1 hT).1
      have := List.Forall₂.get hc hil hil'
      have e1 := (List.getElem?_eq_some_iff.1 hs).2
      have e2 := (List.getElem?_eq_some_iff.1 hT).2
      simp only [List.get_eq_getElem] at this
      rw [e1, e2] at this
      exact this
    apply merged_getElem hI hc hm hs
    rw [← (hI T hTm).n s hsT]
    exact (hTi.legal k v (Tags.getItem_ok.1 hk)).2.2 x (List.mem_of_getElem? hv)

/-- A tag called `get` prevents the selection of channels. -/
theorem selectChannels_get [One κ] {I J : Inventory α κ} {k : String} {keys : List String} (h : I.selectChannels (k :: keys) = .ok J) :
    ∀ S ∈ I, S.tags.tags.has "get" = false := by
  intro S hS
  unfold Inventory.selectChannels at h
  split at h
  · simp at h
  · rename_i l hl
    obtain ⟨x, _, hx⟩ := mapE_ok_forall hl S hS
    cases hg : S.tags.tags.has "get" with
    | false => rfl
    | true =>
      unfold Inventory.selectIn at hx
      rw [Inventory.mapE_tagGet_hidden hg] at hx
      simp at hx

/-- The runs of a join come from the operands. -/
theorem joinAll_src [One κ] {l : List (SigSet α κ)} (hl : ∀ S ∈ l, Regular S) {R : SigSet α κ}
    (h : Inventory.joinAll l = .ok R) {r : Sync α κ} (hr : r ∈ R.runs) : ∃ T ∈ l, ∃ s ∈ T.runs, SameRun R.tags r T.tags s := by
  cases l with
  | nil => simp [Inventory.joinAll] at h
  | cons T J =>
    simp only [Inventory.joinAll] at h
    have hA : ∀ U, SigArg.set U ∈ J.map (SigArg.set (α := α) (κ := κ)) → Reach U := by
      intro U hU
      simp at hU
      exact (hl U (by simp [hU])).reach
    obtain ⟨_, hruns⟩ := C14_join_by_tag T R _ (hl T (by simp)).reach hA h
    rcases hruns r hr with ⟨s, hs, e⟩ | ⟨U, hU, s, hs, e⟩ | ⟨s, hs, e⟩
    · exact ⟨T, by simp, s, hs, e⟩
    · simp at hU
      exact ⟨U, by simp [hU], s, hs, e⟩
    · simp at hs

/-- The signal set of a group of tags with the same holders: the runs of the holders, one for one. -/
theorem groupSet_runs [One κ] {o : SetOrder} (ho : SetOrder.OK o) {I : Inventory α κ} (hI : ∀ S ∈ I, Regular S) {g : List String}
    (hg : g ∈ Inventory.groupKeys o I) {A : SigSet α κ} (h : Inventory.groupSet I g = .ok A) :
    (∀ k ∈ g, HasTag A k) ∧
    (∀ S ∈ I, ∀ k ∈ g, HasTag S k → ∀ s ∈ S.runs, ∃ r ∈ A.runs, r.rate = s.rate ∧ r.start = s.start ∧ r.size = s.size ∧
      ∀ k ∈ g, ∀ j, designated A.tags r k j = designated S.tags s k j) ∧
    ∀ r ∈ A.runs, ∃ S ∈ I, (∀ k ∈ g, HasTag S k) ∧ ∃ s ∈ S.runs, r.rate = s.rate ∧ r.start = s.start ∧ r.size = s.size ∧
      ∀ k ∈ g, ∀ j, designated A.tags r k j = designated S.tags s k j := by
  obtain ⟨-, hgr⟩ := C35_groups o ho I
  have hgr := hgr g hg
  obtain ⟨t, ht, ht'⟩ := Inventory.mem_groupKeys ho hg
  have htg : t ∈ g := (ht' t).2 ⟨ht, rfl⟩
  obtain ⟨S0, hS0, hS0t⟩ := Inventory.mem_names.1 ht
  have hreg := (Inventory.regular_groupSet hI h).1
  unfold Inventory.groupSet at h
  cases hJ : I.selectChannels g with
  | error e => rw [hJ] at h; simp at h
  | ok J =>
    rw [hJ] at h
    dsimp only at h
    have hget : ∀ S ∈ I, S.tags.tags.has "get" = false := by
      cases g with
      | nil => simp at htg
      | cons k g => exact selectChannels_get hJ
    have hsel := Inventory.regular_select hI hJ
    obtain ⟨_, _, hhead, hall⟩ := regular_joinAll (fun S hS => (hsel S hS).1) h
    -- what the selection does to one set
    have hone : ∀ S ∈ I, ∀ T, Inventory.selectIn g S = .ok (some T) →
        (∀ k ∈ g, HasTag T k ∧ HasTag S k) ∧ ∃ idx, T.runs = S.runs.map (Sync.sel idx) ∧
          ∀ r ∈ S.runs, ∀ k ∈ g, ∀ j, designated T.tags (r.sel idx) k j = designated S.tags r k j := by
      intro S hS T hT
      rcases selectIn_spec (hI S hS) (hget S hS) g with ⟨e, _⟩ | ⟨T', idx, e1, _, e3, e4, ⟨k0, hk0, hk0'⟩, e6, e7⟩
      · rw [e] at hT; simp at hT
      · rw [hT] at e1; simp only [Except.ok.injEq, Option.some.injEq] at e1; subst e1
        have hS' : ∀ k ∈ g, HasTag S k := fun k hk => (((hgr k0 hk0 k).1 hk).2 S hS).1 hk0'
        have hT' : ∀ k ∈ g, HasTag T k := by
          intro k hk
          obtain ⟨v, hv⟩ := hS' k hk
          exact ⟨_, (e6 k _).2 ⟨v, hv, fun i hi => (e3 i).2 ⟨k, hk, v, hv, hi⟩, rfl⟩⟩
        refine ⟨fun k hk => ⟨hT' k hk, hS' k hk⟩, idx, e4, ?_⟩
        intro r hr k hk j
        obtain ⟨w, hw⟩ := hT' k hk
        exact e7 r hr k w hw j
    have hJmem : ∀ T, T ∈ J ↔ ∃ S ∈ I, Inventory.selectIn g S = .ok (some T) := by
      unfold Inventory.selectChannels at hJ
      split at hJ
      · simp at hJ
      · rename_i l hl
        rw [Inventory.new_set] at hJ
        simp only [Except.ok.injEq] at hJ; subst hJ
        intro T
        rw [List.mem_filterMap]
        constructor
        · rintro ⟨x, hx, e⟩
          have e : x = some T := e
          subst e
          exact mapE_ok_exists hl _ hx
        · rintro ⟨S, hS, e⟩
          obtain ⟨x, hx, hx'⟩ := mapE_ok_forall hl S hS
          rw [e] at hx'; simp only [Except.ok.injEq] at hx'; subst hx'
          exact ⟨_, hx, rfl⟩
    refine ⟨?_, ?_, ?_⟩
    · intro k hk
      cases J with
      | nil => simp [Inventory.joinAll] at h
      | cons T J =>
        obtain ⟨S, hS, e⟩ := (hJmem T).1 (by simp)
        obtain ⟨v, hv⟩ := ((hone S hS T e).1 k hk).1
        exact ⟨v, by rw [hhead T (by simp) k]; exact hv⟩
    · intro S hS k hk hSk s hs
      rcases selectIn_spec (hI S hS) (hget S hS) g with ⟨_, e⟩ | ⟨T, idx, e1, _, _, e4, _, _, e7⟩
      · exact absurd hSk (e k hk)
      · obtain ⟨hn, idx', e4', hd⟩ := hone S hS T e1
        obtain ⟨r, hr, hsame⟩ := hall T ((hJmem T).2 ⟨S, hS, e1⟩) (s.sel idx') (by rw [e4']; exact List.mem_map_of_mem hs)
        exact ⟨r, hr, hsame.rate, hsame.start, hsame.size, fun k hk j => by rw [hsame.chans, hd s hs k hk j]⟩
    · intro r hr
      obtain ⟨T, hT, s', hs', hsame⟩ := joinAll_src (fun S hS => (hsel S hS).1) h hr
      obtain ⟨S, hS, e⟩ := (hJmem T).1 hT
      obtain ⟨hn, idx, e4, hd⟩ := hone S hS T e
      rw [e4, List.mem_map] at hs'
      obtain ⟨s, hs, rfl⟩ := hs'
      exact ⟨S, hS, fun k hk => (hn k hk).2, s, hs, hsame.rate, hsame.start, hsame.size,
        fun k hk j => by rw [hsame.chans, hd s hs k hk j]⟩

theorem lasts_of {r s : Sync α κ} {ρ a b : ℚ} (h : Lasts s ρ a b) (e1 : r.rate = s.rate) (e2 : r.start = s.start) (e3 : r.size = s.size) :
    Lasts r ρ a b := ⟨e1.trans h.rate, by rw [e2]; exact h.lo, by
      have : lastTime r = lastTime s := by unfold lastTime; rw [e1, e2, e3]
      rw [this]; exact h.hi⟩

/-- The samples of a run lie between its first and its last time. -/
theorem designated_time {t : Tags} {r : Sync α κ} (hw : WF r) (hr : 0 < r.rate) {k : String} {j : Nat} {c : List (ℚ × α) × κ}
    (h : designated t r k j = some c) {p : ℚ × α} (hp : p ∈ c.1) : r.start ≤ p.1 ∧ p.1 ≤ lastTime r := by
  unfold designated at h
  split at h
  · rename_i v hv
    cases hj : v[j]? with
    | none => rw [hj] at h; simp at h
    | some i =>
      rw [hj] at h
      simp only [Option.bind_some] at h
      obtain ⟨d, h1, _, h3⟩ := channels_some h
      rw [h3] at hp
      obtain ⟨n, hn, e⟩ := mem_timed.1 hp
      have hn := (List.getElem?_eq_some_iff.1 hn).1
      rw [hw.rect d (List.mem_of_getElem? h1)] at hn
      rw [e]
      unfold sampleTime lastTime
      have h0 : (0 : ℚ) ≤ n := by positivity
      have h1 : (n : ℚ) ≤ r.size - 1 := by
        have : (n : ℚ) + 1 ≤ r.size := by exact_mod_cast hn
        linarith
      have h2 : 0 ≤ (n : ℚ) / r.rate := div_nonneg h0 hr.le
      have h3 : (n : ℚ) / r.rate ≤ (r.size - 1) / r.rate := div_le_div_of_nonneg_right h1 hr.le
      constructor <;> linarith
  · simp at h

/-- Two runs of a signal set that last over a common interval are the same. -/
theorem lasts_unique [One κ] {A : SigSet α κ} (hA : Regular A) {r r' : Sync α κ} (hr : r ∈ A.runs) (hr' : r' ∈ A.runs) {ρ ρ' a b : ℚ}
    (hab : a < b) (h : Lasts r ρ a b) (h' : Lasts r' ρ' a b) : r = r' := by
  have hd := (reach_sinv hA.reach).ok.disjoint
  by_contra hne
  have := List.pairwise_iff_getElem.1 hd
  obtain ⟨i, hi, rfl⟩ := List.mem_iff_getElem.1 hr
  obtain ⟨j, hj, rfl⟩ := List.mem_iff_getElem.1 hr'
  rcases lt_trichotomy i j with hij | rfl | hij
  · have := this i j hi hj hij
    have a1 := h.hi
    have a2 := h'.lo
    linarith
  · exact hne rfl
  · have := this j i hj hi hij
    have a1 := h'.hi
    have a2 := h.lo
    linarith

/-- The overlap of runs that all last from `a` to `b`. -/
theorem exists_overlap {c : List (Sync α κ)} (hne : c ≠ []) {ρ a b : ℚ} (hab : a < b) (h : ∀ s ∈ c, Lasts s ρ a b) :
    ∃ a' b', a' ≤ a ∧ b ≤ b' ∧ Overlap c a' b' := by
  have h1 : ∃ a', (∃ s ∈ c, s.start = a') ∧ ∀ s ∈ c, s.start ≤ a' := by
    clear h
    induction c with
    | nil => simp at hne
    | cons s c ih =>
      cases c with
      | nil => exact ⟨s.start, ⟨s, by simp, rfl⟩, by simp⟩
      | cons t c =>
        obtain ⟨a', ⟨u, hu, e⟩, hm⟩ := ih (by simp)
        rcases le_total s.start a' with hle | hle
        · refine ⟨a', ⟨u, by simp [List.mem_cons.1 hu], e⟩, ?_⟩
          intro x hx
          rcases List.mem_cons.1 hx with rfl | hx
          · exact hle
          · exact hm x hx
        · refine ⟨s.start, ⟨s, by simp, rfl⟩, ?_⟩
          intro x hx
          rcases List.mem_cons.1 hx with rfl | hx
          · exact le_rfl
          · exact (hm x hx).trans hle
  have h2 : ∃ b', (∃ s ∈ c, lastTime s = b') ∧ ∀ s ∈ c, b' ≤ lastTime s := by
    clear h h1
    induction c with
    | nil => simp at hne
    | cons s c ih =>
      cases c with
      | nil => exact ⟨lastTime s, ⟨s, by simp, rfl⟩, by simp⟩
      | cons t c =>
        obtain ⟨a', ⟨u, hu, e⟩, hm⟩ := ih (by simp)
        rcases le_total a' (lastTime s) with hle | hle
        · refine ⟨a', ⟨u, by simp [List.mem_cons.1 hu], e⟩, ?_⟩
          intro x hx
          rcases List.mem_cons.1 hx with rfl | hx
          · exact hle
          · exact hm x hx
        · refine ⟨lastTime s, ⟨s, by simp, rfl⟩, ?_⟩
          intro x hx
          rcases List.mem_cons.1 hx with rfl | hx
          · exact le_rfl
          · exact hle.trans (hm x hx)
  obtain ⟨a', ⟨s, hs, e⟩, hm⟩ := h1
  obtain ⟨b', ⟨s', hs', e'⟩, hm'⟩ := h2
  have ha : a' ≤ a := by rw [← e]; exact (h s hs).lo
  have hb : b ≤ b' := by rw [← e']; exact (h s' hs').hi
  exact ⟨a', b', ha, hb, ⟨s, hs, e⟩, hm, ⟨s', hs', e'⟩, hm', by linarith⟩

/-- Joining then merging: at a rate and over an interval where all tags are recorded, there is a run with all the data. -/
theorem joinMerge_complete [One κ] {o : SetOrder} (ho : SetOrder.OK o) {I : Inventory α κ} (hI : ∀ S ∈ I, Regular S) {R : SigSet α κ}
    (h : I.joinMerge o = .ok R) (hne : I ≠ []) {ρ a b : ℚ} (hab : a < b) (hrec : AllRecorded I ρ a b) :
    (∀ k, (∃ S ∈ I, HasTag S k) → HasTag R k) ∧ ∃ r ∈ R.runs, r.rate = ρ ∧ r.start ≤ a ∧
      ∀ S ∈ I, ∀ s ∈ S.runs, Lasts s ρ a b → ∀ k j c', designated S.tags s k j = some c' →
        ∃ c, designated R.tags r k j = some c ∧ c.2 = c'.2 ∧ ∀ p ∈ c'.1, a ≤ p.1 → p.1 ≤ b → p ∈ c.1 := by
  obtain ⟨hgr1, hgr⟩ := C35_groups o ho I
  unfold Inventory.joinMerge at h
  rw [if_neg (by simpa using hne)] at h
  -- in each group, a run
  have hrun : ∀ g ∈ Inventory.groupKeys o I, ∀ A, Inventory.groupSet I g = .ok A → ∃ r ∈ A.runs, Lasts r ρ a b ∧
      ∀ S ∈ I, ∀ s ∈ S.runs, Lasts s ρ a b → ∀ k ∈ g, HasTag S k → ∀ j, designated A.tags r k j = designated S.tags s k j := by
    intro g hg A hA
    obtain ⟨t, ht, ht'⟩ := Inventory.mem_groupKeys ho hg
    have htg : t ∈ g := (ht' t).2 ⟨ht, rfl⟩
    obtain ⟨_, hin, _⟩ := groupSet_runs ho hI hg hA
    obtain ⟨S, hS, hSt, s, hs, hl⟩ := hrec t (Inventory.mem_names.1 ht)
    obtain ⟨r, hr, e1, e2, e3, _⟩ := hin S hS t htg hSt s hs
    refine ⟨r, hr, lasts_of hl e1 e2 e3, ?_⟩
    intro S' hS' s' hs' hl' k hk hS'k j
    obtain ⟨r', hr', e1', e2', e3', hd⟩ := hin S' hS' k hk hS'k s' hs'
    have := lasts_unique (Inventory.regular_groupSet hI hA).1 hr hr' hab (lasts_of hl e1 e2 e3) (lasts_of hl' e1' e2' e3')
    rw [this, hd k hk j]
  cases hm : mapE (Inventory.groupSet I) (Inventory.groupKeys o I) with
  | error e => rw [hm] at h; simp at h
  | ok l =>
    rw [hm] at h
    have hF := mapE_ok.1 hm
    match l, hm, h, hF with
    | [], _, h, _ => simp at h
    | [A], hm, h, hF =>
      simp only [Except.ok.injEq] at h; subst h
      generalize hgk : Inventory.groupKeys o I = gk at hF
      cases hF with
      | cons hA hnil =>
        rename_i g gs
        cases hnil
        have hg : g ∈ Inventory.groupKeys o I := by rw [hgk]; simp
        have hin : ∀ k, (∃ S ∈ I, HasTag S k) → k ∈ g := by
          intro k hk
          obtain ⟨g', hg', hk'⟩ := (hgr1 k).1 hk
          rw [hgk] at hg'
          simp at hg'
          rwa [hg'] at hk'
        obtain ⟨r, hr, hl, hd⟩ := hrun g hg A hA
        refine ⟨fun k hk => (groupSet_runs ho hI hg hA).1 k (hin k hk), r, hr, hl.rate, hl.lo, ?_⟩
        intro S hS s hs hls k j c' hc'
        have hk : HasTag S k := designated_some hc'
        exact ⟨c', by rw [hd S hS s hs hls k (hin k ⟨S, hS, hk⟩) hk j]; exact hc', rfl, fun p hp _ _ => hp⟩
    | A :: B :: others, hm, h, hF =>
      dsimp only at h
      have hall : ∀ T ∈ A :: B :: others, Regular T := by
        intro T hT
        obtain ⟨g, _, hg⟩ := mapE_ok_exists hm T hT
        exact (Inventory.regular_groupSet hI hg).1
      have hR := fun T hT => (hall T hT).reach
      have hp := fun T hT => (hall T hT).plain
      have hr := fun T hT => (hall T hT).rate
      have hnames := C22_merge_names A R (B :: others) hR hp hr h
      -- the choice
      have hch : ∃ c : List (Sync α κ), Choice c (A :: B :: others) ∧ (∀ s ∈ c, Lasts s ρ a b) ∧
          ∀ (i : Nat) (g : List String) (r : Sync α κ), (Inventory.groupKeys o I)[i]? = some g → c[i]? = some r →
            ∀ S ∈ I, ∀ s ∈ S.runs, Lasts s ρ a b → ∀ k ∈ g, HasTag S k → ∀ T, (A :: B :: others)[i]? = some T →
              ∀ j, designated T.tags r k j = designated S.tags s k j := by
        revert hF
        generalize hgk : Inventory.groupKeys o I = gk
        generalize A :: B :: others = As
        intro hF
        have hmem : ∀ g ∈ gk, g ∈ Inventory.groupKeys o I := by rw [hgk]; exact fun g hg => hg
        clear hgk
        induction hF with
        | nil => exact ⟨[], .nil, by simp, by simp⟩
        | @cons g T gs Ts hA _ ih =>
          obtain ⟨c, h1, h2, h3⟩ := ih (fun g' hg' => hmem g' (by simp [hg']))
          obtain ⟨r, hr, hl, hd⟩ := hrun g (hmem g (by simp)) T hA
          refine ⟨r :: c, .cons hr h1, ?_, ?_⟩
          · intro s hs
            rcases List.mem_cons.1 hs with rfl | hs
            · exact hl
            · exact h2 s hs
          · intro i g' r' hi hr'
            cases i with
            | zero =>
              simp only [List.getElem?_cons_zero, Option.some.injEq] at hi hr'
              subst hi hr'
              intro S hS s hs hls k hk hSk T' hT' j
              simp only [List.getElem?_cons_zero, Option.some.injEq] at hT'
              subst hT'
              exact hd S hS s hs hls k hk hSk j
            | succ i =>
              simp only [List.getElem?_cons_succ] at hi hr' ⊢
              exact h3 i g' r' hi hr'
      obtain ⟨c, hc, hl, hd⟩ := hch
      have hcne : c ≠ [] := by
        intro e; subst e
        have := hc.length_eq
        simp at this
      obtain ⟨a', b', ha, hb, hov⟩ := exists_overlap hcne hab hl
      obtain ⟨_, q⟩ := C25_rates A R (B :: others) hR hp hr h
      obtain ⟨r, hrR, hmg⟩ := q c a' b' ρ hc hov (fun s hs => (hl s hs).rate)
      have hlen1 := hF.length_eq
      have hlen2 := hc.length_eq
      refine ⟨?_, r, hrR, ?_, by rw [hmg.start]; exact ha, ?_⟩
      · intro k hk
        obtain ⟨g, hg, hkg⟩ := (hgr1 k).1 hk
        obtain ⟨T, hT, hTg⟩ := mapE_ok_forall hm g hg
        exact (hnames k).2 ⟨T, hT, (groupSet_runs ho hI hg hTg).1 k hkg⟩
      · obtain ⟨s, hs⟩ := List.exists_mem_of_ne_nil _ hcne
        rw [← hmg.rate s hs, (hl s hs).rate]
      · intro S hS s hs hls k j c' hc'
        have hk : HasTag S k := designated_some hc'
        obtain ⟨g, hg, hkg⟩ := (hgr1 k).1 ⟨S, hS, hk⟩
        obtain ⟨i, hi⟩ := List.mem_iff_getElem?.1 hg
        have hil := (List.getElem?_eq_some_iff.1 hi).1
        have hTi : (A :: B :: others)[i]? = some (A :: B :: others)[i] := List.getElem?_eq_getElem (by omega)
        have hci : c[i]? = some c[i] := List.getElem?_eq_getElem (by omega)
        have hTk : HasTag (A :: B :: others)[i] k := by
          have := List.Forall₂.get hF hil (by omega)
          simp only [List.get_eq_getElem] at this
          refine (groupSet_runs ho hI ?_ this).1 k ?_
          · exact List.getElem_mem _
          · rw [(List.getElem?_eq_some_iff.1 hi).2]; exact hkg
        have e := merged_designated hR hp hr h hc hmg hTi hci hTk j
        rw [hd i g _ hi hci S hS s hs hls k hkg hk _ hTi j, hc'] at e
        refine ⟨_, e, rfl, ?_⟩
        intro p hp h1 h2
        refine List.mem_filter.2 ⟨hp, ?_⟩
        simp only [window, Bool.and_eq_true, decide_eq_true_eq]
        exact ⟨ha.trans h1, h2.trans hb⟩

/-- Joining then merging: every run lasts while all the tags are recorded, and has their data. -/
theorem joinMerge_sound [One κ] {o : SetOrder} (ho : SetOrder.OK o) {I : Inventory α κ} (hI : ∀ S ∈ I, Regular S) {R : SigSet α κ}
    (h : I.joinMerge o = .ok R) {r : Sync α κ} (hr : r ∈ R.runs) :
    ∃ a b, a < b ∧ ∀ k, (∃ S ∈ I, HasTag S k) → ∃ S ∈ I, HasTag S k ∧ ∃ s ∈ S.runs, Lasts s r.rate a b ∧
      ∀ j c, designated R.tags r k j = some c → ∃ c', designated S.tags s k j = some c' ∧ c'.2 = c.2 ∧
        ∀ p ∈ c.1, p ∈ c'.1 ∧ a ≤ p.1 ∧ p.1 ≤ b := by
  obtain ⟨hgr1, hgr⟩ := C35_groups o ho I
  have hregR := (Inventory.regular_joinMerge hI h).1
  unfold Inventory.joinMerge at h
  split at h
  · rw [Inventory.new_empty] at h
    simp at h; subst h
    simp at hr
  · cases hm : mapE (Inventory.groupSet I) (Inventory.groupKeys o I) with
    | error e => rw [hm] at h; simp at h
    | ok l =>
      rw [hm] at h
      have hF := mapE_ok.1 hm
      match l, hm, h, hF with
      | [], _, h, _ => simp at h
      | [A], hm, h, hF =>
        simp only [Except.ok.injEq] at h; subst h
        generalize hgk : Inventory.groupKeys o I = gk at hF
        cases hF with
        | cons hA hnil =>
          rename_i g gs
          cases hnil
          have hg : g ∈ Inventory.groupKeys o I := by rw [hgk]; simp
          have hin : ∀ k, (∃ S ∈ I, HasTag S k) → k ∈ g := by
            intro k hk
            obtain ⟨g', hg', hk'⟩ := (hgr1 k).1 hk
            rw [hgk] at hg'
            simp at hg'
            rwa [hg'] at hk'
          obtain ⟨S, hS, hSg, s, hs, e1, e2, e3, hd⟩ := (groupSet_runs ho hI hg hA).2.2 r hr
          have hsz := hregR.size r hr
          have hrt := hregR.rate r hr
          refine ⟨r.start, lastTime r, ?_, ?_⟩
          · unfold lastTime
            have : (1 : ℚ) < r.size := by exact_mod_cast hsz
            have : 0 < ((r.size : ℚ) - 1) / r.rate := div_pos (by linarith) hrt
            linarith
          · intro k hk
            refine ⟨S, hS, hSg k (hin k hk), s, hs, lasts_of ⟨rfl, le_rfl, le_rfl⟩ e1.symm e2.symm e3.symm, ?_⟩
            intro j c hc
            refine ⟨c, by rw [← hd k (hin k hk) j]; exact hc, rfl, ?_⟩
            intro p hp
            exact ⟨hp, designated_time ((reach_sinv hregR.reach).ok.wf r hr) hrt hc hp⟩
      | A :: B :: others, hm, h, hF =>
        dsimp only at h
        have hall : ∀ T ∈ A :: B :: others, Regular T := by
          intro T hT
          obtain ⟨g, _, hg⟩ := mapE_ok_exists hm T hT
          exact (Inventory.regular_groupSet hI hg).1
        have hR := fun T hT => (hall T hT).reach
        have hp := fun T hT => (hall T hT).plain
        have hrt := fun T hT => (hall T hT).rate
        obtain ⟨q, _⟩ := C25_rates A R (B :: others) hR hp hrt h
        obtain ⟨c, b, hc, hov, hsr, hmg⟩ := q r hr
        have hlen1 := hF.length_eq
        have hlen2 := hc.length_eq
        refine ⟨r.start, b, hov.lt, ?_⟩
        intro k hk
        obtain ⟨g, hg, hkg⟩ := (hgr1 k).1 hk
        obtain ⟨i, hi⟩ := List.mem_iff_getElem?.1 hg
        have hil := (List.getElem?_eq_some_iff.1 hi).1
        have hTi : (A :: B :: others)[i]? = some (A :: B :: others)[i] := List.getElem?_eq_getElem (by omega)
        have hci : c[i]? = some c[i] := List.getElem?_eq_getElem (by omega)
        have hgi := (List.getElem?_eq_some_iff.1 hi).2
        have hTg : Inventory.groupSet I g = .ok (A :: B :: others)[i] := by
          have := List.Forall₂.get hF hil (by omega)
          simp only [List.get_eq_getElem] at this
          rw [hgi] at this; exact this
        have hcT : c[i] ∈ (A :: B :: others)[i].runs := by
          have := List.Forall₂.get hc (i := i) (by omega) (by omega)
          simpa using this
        obtain ⟨t1, _, t3⟩ := groupSet_runs ho hI hg hTg
        obtain ⟨S, hS, hSg, s, hs, e1, e2, e3, hd⟩ := t3 _ hcT
        have hcm : c[i] ∈ c := List.getElem_mem _
        refine ⟨S, hS, hSg k hkg, s, hs, lasts_of ⟨hsr _ hcm, hov.lo_le _ hcm, hov.le_hi _ hcm⟩ e1.symm e2.symm e3.symm, ?_⟩
        intro j c0 hc0
        have e := merged_designated hR hp hrt h hc hmg hTi hci (t1 k hkg) j
        rw [hc0, hd k hkg j] at e
        cases hds : designated S.tags s k j with
        | none => rw [hds] at e; simp at e
        | some c' =>
          rw [hds] at e
          simp only [Option.map_some, Option.some.injEq] at e
          subst e
          refine ⟨c', rfl, rfl, ?_⟩
          intro p hp
          obtain ⟨h1, h2⟩ := List.mem_filter.1 hp
          simp only [window, Bool.and_eq_true, decide_eq_true_eq] at h2
          exact ⟨h1, h2⟩

/-- The runs of one rate in an inventory. -/
theorem rateSet_select [One κ] {I J : Inventory α κ} (hI : ∀ S ∈ I, Regular S) {f0 : ℚ}
    (hJ : I.selectRuns (I.map (fun S => .mask (S.runs.map (fun r => decide (r.rate = f0))))) = .ok J) :
    (∀ T ∈ J, Regular T ∧ ∃ S ∈ I, SameTags T.tags S.tags ∧ ∀ r, r ∈ T.runs ↔ r ∈ S.runs ∧ r.rate = f0) ∧
    ∀ S ∈ I, ∀ s ∈ S.runs, s.rate = f0 → ∃ T ∈ J, SameTags T.tags S.tags ∧ s ∈ T.runs := by
  obtain ⟨l, hl, rfl⟩ := (rate_select I f0 J).1 hJ
  have hone : ∀ S ∈ I, ∀ T, S.selectRuns (.mask (S.runs.map (fun r => decide (r.rate = f0)))) = .ok T →
      Regular T ∧ SameTags T.tags S.tags ∧ ∀ r, r ∈ T.runs ↔ r ∈ S.runs ∧ r.rate = f0 := by
    intro S hS T hT
    obtain ⟨h1, h2, h3, _⟩ := regular_selectRuns (hI S hS) hT
    refine ⟨h1, h2, fun r => ?_⟩
    rw [h3 r]
    constructor
    · rintro ⟨i, hi, hr⟩
      rw [List.getElem?_map, hr] at hi
      exact ⟨List.mem_of_getElem? hr, by simpa using hi⟩
    · rintro ⟨hr, e⟩
      obtain ⟨i, hi⟩ := List.mem_iff_getElem?.1 hr
      exact ⟨i, by rw [List.getElem?_map, hi]; simpa using e, hi⟩
  constructor
  · intro T hT
    obtain ⟨S, hS, hs⟩ := mapE_ok_exists hl T (List.mem_filter.1 hT).1
    obtain ⟨h1, h2, h3⟩ := hone S hS T hs
    exact ⟨h1, S, hS, h2, h3⟩
  · intro S hS s hs e
    obtain ⟨T, hT, h⟩ := mapE_ok_forall hl S hS
    obtain ⟨h1, h2, h3⟩ := hone S hS T h
    have hsT := (h3 s).2 ⟨hs, e⟩
    refine ⟨T, List.mem_filter.2 ⟨hT, ?_⟩, h2, hsT⟩
    simpa using List.ne_nil_of_mem hsT

theorem hasTag_same {T S : SigSet α κ} (h : SameTags T.tags S.tags) (k : String) : HasTag T k ↔ HasTag S k := by
  unfold HasTag; rw [h k]

theorem designated_same {t t' : Tags} (h : SameTags t t') (r : Sync α κ) (k : String) (j : Nat) :
    designated t r k j = designated t' r k j := by
  unfold designated; rw [h k]

/-- **C112.** Let every tag of the inventory be recorded at rate `ρ` from `a` to `b`.  Then the signal set that
`pack()` builds before fusing consecutive runs has a run with rate `ρ` with all that is recorded from `a` to `b`
at this rate: whatever a signal set of the inventory has for tag `k`, position `j` in a run that lasts from `a` to
`b`, this run has for `k`, `j`, with the same times and calibration.  Conversely each run of this signal set has
the data of such an interval and no other. -/
theorem C112_pack_complete [One κ] (o : SetOrder) (ho : SetOrder.OK o) (I : Inventory α κ) (hI : ∀ S ∈ I, Regular S)
    (R : SigSet α κ) (h : I.pack o = .ok R) (hne : ∃ S ∈ I, ∃ k, HasTag S k) :
    ∃ M, Regular M ∧ Traced I M ∧ (M.mergeConsecutive = .ok R ∨ M.runs = [] ∧ R.runs = []) ∧
      (∀ ρ a b, a < b → AllRecorded I ρ a b → ∃ r ∈ M.runs, r.rate = ρ ∧ r.start ≤ a ∧
        ∀ S ∈ I, ∀ s ∈ S.runs, Lasts s ρ a b → ∀ k j c', designated S.tags s k j = some c' →
          ∃ c, designated M.tags r k j = some c ∧ c.2 = c'.2 ∧ ∀ p ∈ c'.1, a ≤ p.1 → p.1 ≤ b → p ∈ c.1) ∧
      ∀ r ∈ M.runs, ∃ a b, a < b ∧ AllRecorded I r.rate a b ∧ ∀ k j c, designated M.tags r k j = some c →
        ∃ S ∈ I, ∃ s ∈ S.runs, Lasts s r.rate a b ∧ ∃ c', designated S.tags s k j = some c' ∧ c'.2 = c.2 ∧
          ∀ p ∈ c.1, p ∈ c'.1 ∧ a ≤ p.1 ∧ p.1 ≤ b := by
  have h : I.packAll o = .ok R := h
  have hinv := Inventory.packAll_inv hI h
  unfold Inventory.packAll at h
  cases hs : mapE (I.rateSet o) (o.rates (dedup I.rates)) with
  | error e => rw [hs] at h; simp at h
  | ok sigs =>
    rw [hs] at h
    dsimp only at h
    -- for one rate and one interval
    have hone : ∀ ρ a b, a < b → AllRecorded I ρ a b →
        ∃ P ∈ sigs.filter (fun S => !S.runs.isEmpty && I.names.all (fun t => S.tags.tags.has t)), ∃ r ∈ P.runs, r.rate = ρ ∧ r.start ≤ a ∧
        ∀ S ∈ I, ∀ s ∈ S.runs, Lasts s ρ a b → ∀ k j c', designated S.tags s k j = some c' →
          ∃ c, designated P.tags r k j = some c ∧ c.2 = c'.2 ∧ ∀ p ∈ c'.1, a ≤ p.1 → p.1 ≤ b → p ∈ c.1 := by
      intro ρ a b hab hrec
      obtain ⟨S0, hS0, k0, hk0⟩ := hne
      obtain ⟨S1, hS1, _, s1, hs1, hl1⟩ := hrec k0 ⟨S0, hS0, hk0⟩
      have hρ : ρ ∈ o.rates (dedup I.rates) := by
        rw [(ho.rates _).mem_iff, mem_dedup]
        unfold Inventory.rates
        exact List.mem_flatMap.2 ⟨S1, hS1, List.mem_map.2 ⟨s1, hs1, hl1.rate⟩⟩
      obtain ⟨P, hP, hPr⟩ := mapE_ok_forall hs ρ hρ
      unfold Inventory.rateSet at hPr
      split at hPr
      · simp at hPr
      · rename_i J hJ
        obtain ⟨q1, q2⟩ := rateSet_select hI hJ
        have hrecJ : AllRecorded J ρ a b := by
          rintro k ⟨T, hT, hk⟩
          obtain ⟨_, S, hS, ht, _⟩ := q1 T hT
          obtain ⟨S', hS', hk', s', hs', hl'⟩ := hrec k ⟨S, hS, (hasTag_same ht k).1 hk⟩
          obtain ⟨T', hT', ht', hsT'⟩ := q2 S' hS' s' hs' hl'.rate
          exact ⟨T', hT', (hasTag_same ht' k).2 hk', s', hsT', hl'⟩
        have hJne : J ≠ [] := by
          obtain ⟨T, hT, _⟩ := q2 S1 hS1 s1 hs1 hl1.rate
          exact List.ne_nil_of_mem hT
        obtain ⟨hn, r, hr, e1, e2, hd⟩ := joinMerge_complete ho (fun T hT => (q1 T hT).1) hPr hJne hab hrecJ
        refine ⟨P, List.mem_filter.2 ⟨hP, ?_⟩, r, hr, e1, e2, ?_⟩
        · simp only [Bool.and_eq_true, Bool.not_eq_true', List.isEmpty_eq_false_iff, List.all_eq_true]
          refine ⟨List.ne_nil_of_mem hr, fun k hk => Inventory.hasTag_iff.2 (hn k ?_)⟩
          obtain ⟨S, hS, hk', s, hs, hl⟩ := hrec k (Inventory.mem_names.1 hk)
          obtain ⟨T, hT, ht, _⟩ := q2 S hS s hs hl.rate
          exact ⟨T, hT, (hasTag_same ht k).2 hk'⟩
        · intro S hS s hs hl k j c' hc'
          obtain ⟨T, hT, ht, hsT⟩ := q2 S hS s hs hl.rate
          exact hd T hT s hsT hl k j c' (by rw [designated_same ht]; exact hc')
    cases hf : sigs.filter (fun S => !S.runs.isEmpty && I.names.all (fun t => S.tags.tags.has t)) with
    | nil =>
      rw [hf] at h hone
      dsimp only at h
      rw [Inventory.new_empty] at h
      simp only [Except.ok.injEq] at h
      subst h
      have hr : Reach (⟨[], ⟨0, []⟩⟩ : SigSet α κ) := .new (.dict []) [] (by simp) (by simp) Inventory.new_empty
      refine ⟨⟨[], ⟨0, []⟩⟩, ⟨hr, fun k _ => rfl, by simp, by simp⟩, ⟨by simp, by simp⟩, .inr ⟨rfl, rfl⟩, ?_, by simp⟩
      intro ρ a b hab hrec
      obtain ⟨P, hP, _⟩ := hone ρ a b hab hrec
      simp at hP
    | cons S l =>
      rw [hf] at h hone
      dsimp only at h
      have hall : ∀ T ∈ S :: l, Regular T ∧ Traced I T := by
        intro T hT
        rw [← hf, List.mem_filter] at hT
        obtain ⟨f0, _, hf'⟩ := mapE_ok_exists hs T hT.1
        obtain ⟨h1, h2, _⟩ := Inventory.regular_rateSet hI hf'
        exact ⟨h1, h2⟩
      cases hM : Inventory.joinAll (S :: l) with
      | error e => rw [hM] at h; simp at h
      | ok M =>
        rw [hM] at h
        dsimp only at h
        obtain ⟨h1, h2, h3, h4⟩ := regular_joinAll (fun T hT => (hall T hT).1) hM
        refine ⟨M, h1, h2.trans (fun T hT => (hall T hT).2), .inl h, ?_, ?_⟩
        · intro ρ a b hab hrec
          obtain ⟨P, hP, r, hr, e1, e2, hd⟩ := hone ρ a b hab hrec
          obtain ⟨r', hr', hsame⟩ := h4 P hP r hr
          refine ⟨r', hr', by rw [hsame.rate, e1], by rw [hsame.start]; exact e2, ?_⟩
          intro S' hS' s hs hl k j c' hc'
          obtain ⟨c, hc, hcal, hp⟩ := hd S' hS' s hs hl k j c' hc'
          exact ⟨c, by rw [hsame.chans]; exact hc, hcal, hp⟩
        · intro r hr
          obtain ⟨P, hP, r', hr', hsame⟩ := joinAll_src (fun T hT => (hall T hT).1) hM hr
          rw [← hf, List.mem_filter] at hP
          obtain ⟨hPs, hPn⟩ := hP
          simp only [Bool.and_eq_true, Bool.not_eq_true', List.isEmpty_eq_false_iff, List.all_eq_true] at hPn
          obtain ⟨f0, _, hPr⟩ := mapE_ok_exists hs P hPs
          have hf0 := (Inventory.regular_rateSet hI hPr).2.2.2 r' hr'
          unfold Inventory.rateSet at hPr
          split at hPr
          · simp at hPr
          · rename_i J hJ
            obtain ⟨q1, q2⟩ := rateSet_select hI hJ
            have hJr := fun T hT => (q1 T hT).1
            obtain ⟨a, b, hab, hsound⟩ := joinMerge_sound ho hJr hPr hr'
            have hPJ := (Inventory.regular_joinMerge hJr hPr).2.2
            have hback : ∀ k, HasTag P k → ∃ S ∈ I, HasTag S k ∧ ∃ s ∈ S.runs, Lasts s r.rate a b ∧
                ∀ j c, designated M.tags r k j = some c → ∃ c', designated S.tags s k j = some c' ∧ c'.2 = c.2 ∧
                  ∀ p ∈ c.1, p ∈ c'.1 ∧ a ≤ p.1 ∧ p.1 ≤ b := by
              intro k hk
              obtain ⟨T, hT, hTk, s, hs', hl, hd⟩ := hsound k (hPJ k hk)
              obtain ⟨_, S', hS', ht, hrs⟩ := q1 T hT
              refine ⟨S', hS', (hasTag_same ht k).1 hTk, s, ((hrs s).1 hs').1, by rw [hsame.rate]; exact hl, ?_⟩
              intro j c hc
              rw [hsame.chans] at hc
              obtain ⟨c', hc', e⟩ := hd j c hc
              exact ⟨c', by rw [← designated_same ht]; exact hc', e⟩
            refine ⟨a, b, hab, ?_, ?_⟩
            · intro k hk
              obtain ⟨S', hS', hk', s, hs', hl, _⟩ := hback k (Inventory.hasTag_iff.1 (hPn.2 k (Inventory.mem_names.2 hk)))
              exact ⟨S', hS', hk', s, hs', hl⟩
            · intro k j c hc
              have hk : HasTag P k := by
                rw [hsame.chans] at hc
                exact designated_some hc
              obtain ⟨S', hS', _, s, hs', hl, hd⟩ := hback k hk
              exact ⟨S', hS', s, hs', hl, hd j c hc⟩

/-- Fusing consecutive runs with exact gaps keeps the samples of a run, in one run. -/
theorem fused_keeps [One κ] {M R : SigSet α κ} (hM : Regular M) (h : M.mergeConsecutive = .ok R)
    (hex : M.runs.IsChain (fun a b => Continues a b → gap a b = 1 / a.rate)) {a : Sync α κ} (ha : a ∈ M.runs) :
    ∃ r ∈ R.runs, r.rate = a.rate ∧ ∀ k j c, designated M.tags a k j = some c →
      ∃ c', designated R.tags r k j = some c' ∧ ∀ p ∈ c.1, p ∈ c'.1 := by
  have hd := Inventory.regular_starts hM
  obtain ⟨gs, hch, hall⟩ := C27_shift M R hM.reach hM.plain hd h
  obtain ⟨_, ht, _⟩ := C26_samples M R hM.reach hM.plain hd h
  have hIM := reach_sinv hM.reach
  rw [← hch.all] at ha
  obtain ⟨g, hg, hag⟩ := List.mem_flatten.1 ha
  have hgM : ∀ a ∈ g, a ∈ M.runs := by
    intro a ha
    rw [← hch.all]; exact List.mem_flatten.2 ⟨g, hg, ha⟩
  obtain ⟨r, hr, hf, hsh⟩ := forall₂_mem_left hall.flip g hg
  have hne : g ≠ [] := fun e => hch.nonempty (e ▸ hg)
  have hRw := (reach_sinv (Reach.mergeConsecutive hM.reach h)).ok.wf r hr
  have hrate : r.rate = a.rate := by
    obtain ⟨b, g', hg'⟩ := List.exists_cons_of_ne_nil hne
    rw [isChain_rate (hch.chain g hg) a hag b (by rw [hg']; simp), hf.rate b (by rw [hg']; simp)]
  refine ⟨r, hr, hrate, ?_⟩
  intro k j c hc
  obtain ⟨v, hv⟩ := designated_some hc
  have hv' : R.tags.getItem k = .ok v := by rw [ht k]; exact hv
  unfold designated at hc
  rw [hv] at hc
  simp only at hc
  cases hj : v[j]? with
  | none => rw [hj] at hc; simp at hc
  | some i =>
    rw [hj] at hc
    simp only [Option.bind_some] at hc
    obtain ⟨d, hd1, hd2, hd3⟩ := channels_some hc
    have hia : i < a.data.length := (List.getElem?_eq_some_iff.1 hd1).1
    have hir : i < r.data.length := by rw [hf.count a hag]; exact hia
    have hci : i < r.cals.length := by rw [hRw.cals]; exact hir
    refine ⟨(timed r.rate r.start r.data[i], r.cals[i]), ?_, ?_⟩
    · unfold designated
      rw [hv']
      simp only [hj, Option.bind_some]
      exact channels_of (List.getElem?_eq_getElem hir) (List.getElem?_eq_getElem hci)
    · intro p hp
      rw [hd3] at hp
      obtain ⟨n, hn1, hn2⟩ := mem_timed.1 hp
      obtain ⟨pre, post, e1⟩ := List.append_of_mem hag
      refine mem_timed.2 ⟨(pre.map (fun s => s.size)).sum + n, ?_, ?_⟩
      · have hdata := hf.data i
        rw [List.getElem?_eq_getElem hir, Option.getD_some, e1, List.flatMap_append, List.flatMap_cons, hd1, Option.getD_some] at hdata
        rw [hdata]
        have hpre : (pre.flatMap (fun a => (a.data[i]?).getD [])).length = (pre.map (fun s => s.size)).sum := by
          rw [List.length_flatMap]
          congr 1
          refine List.map_congr_left ?_
          intro b hb
          have hbg : b ∈ g := by rw [e1]; simp [hb]
          have hib : i < b.data.length := by rw [← hf.count b hbg]; exact hir
          rw [List.getElem?_eq_getElem hib, Option.getD_some]
          exact (hIM.ok.wf b (hgM b hbg)).rect _ (List.getElem_mem _)
        rw [List.getElem?_append_right (by omega), hpre, Nat.add_sub_cancel_left,
          List.getElem?_append_left (List.getElem?_eq_some_iff.1 hn1).1]
        exact hn1
      · have hb := hsh pre a post e1 n
        have hgex : g.IsChain (fun a b => gap a b = 1 / a.rate) := by
          have h1 : g.IsChain (fun a b => Continues a b → gap a b = 1 / a.rate) := by
            obtain ⟨l1, l2, hl⟩ := List.append_of_mem hg
            rw [← hch.all, hl] at hex
            simp only [List.flatten_append, List.flatten_cons] at hex
            exact hex.right_of_append.left_of_append
          exact isChain_mp h1 (hch.chain g hg)
        have hz : ∀ l : List (Sync α κ), l.IsChain (fun a b => gap a b = 1 / a.rate) → mismatch l = 0 := by
          intro l
          induction l with
          | nil => intro _; rfl
          | cons a l ih =>
            intro hl
            cases l with
            | nil => rfl
            | cons b l =>
              rw [List.isChain_cons_cons] at hl
              simp only [mismatch]
              rw [ih hl.2, hl.1]; simp
        have : mismatch (pre ++ [a]) = 0 := by
          refine hz _ ?_
          rw [e1] at hgex
          have : pre ++ a :: post = (pre ++ [a]) ++ post := by simp
          rw [this] at hgex
          exact hgex.left_of_append
        rw [this] at hb
        have hb := abs_nonpos_iff.1 hb
        rw [hn2]
        linarith

/-- **C112.** For synchronised recordings (and rates up to 10 MHz): if every tag of the inventory is recorded at
rate `ρ` from `a` to `b`, the result of `pack()` has a run with rate `ρ` with all that is recorded from `a` to `b`
at this rate, under the same tags and at the same times. -/
theorem C112_pack_keeps [One κ] (o : SetOrder) (ho : SetOrder.OK o) (I : Inventory α κ) (hI : ∀ S ∈ I, Regular S)
    (hsync : Synchronised I) (hrate : ∀ S ∈ I, ∀ s ∈ S.runs, s.rate ≤ 10 ^ 7)
    (R : SigSet α κ) (h : I.pack o = .ok R) (hne : ∃ S ∈ I, ∃ k, HasTag S k)
    (ρ a b : ℚ) (hab : a < b) (hrec : AllRecorded I ρ a b) :
    ∃ r ∈ R.runs, r.rate = ρ ∧ ∀ S ∈ I, ∀ s ∈ S.runs, Lasts s ρ a b → ∀ k j c', designated S.tags s k j = some c' →
      ∃ c, designated R.tags r k j = some c ∧ ∀ p ∈ c'.1, a ≤ p.1 → p.1 ≤ b → p ∈ c.1 := by
  obtain ⟨M, h1, h2, h3, h4, _⟩ := C112_pack_complete o ho I hI R h hne
  obtain ⟨r, hr, e1, e2, hd⟩ := h4 ρ a b hab hrec
  rcases h3 with h3 | h3
  · obtain ⟨r', hr', e', hk⟩ := fused_keeps h1 h3 (regular_exact h1 h2 hsync hrate) hr
    refine ⟨r', hr', by rw [e', e1], ?_⟩
    intro S hS s hs hl k j c' hc'
    obtain ⟨c, hc, _, hp⟩ := hd S hS s hs hl k j c' hc'
    obtain ⟨c2, hc2, hp2⟩ := hk k j c hc
    exact ⟨c2, hc2, fun p hp1 ha hb => hp2 p (hp p hp1 ha hb)⟩
  · rw [h3.1] at hr; simp at hr

/-- **C112.** For synchronised recordings (and rates up to 10 MHz), the samples of the result of `pack()` are
exactly those recorded while every tag of the inventory is recorded at the same rate. -/
theorem C112_pack_samples [One κ] (o : SetOrder) (ho : SetOrder.OK o) (I : Inventory α κ) (hI : ∀ S ∈ I, Regular S)
    (hsync : Synchronised I) (hrate : ∀ S ∈ I, ∀ s ∈ S.runs, s.rate ≤ 10 ^ 7)
    (R : SigSet α κ) (h : I.pack o = .ok R) (ρ : ℚ) (k : String) (j : Nat) (p : ℚ × α) :
    (∃ r ∈ R.runs, r.rate = ρ ∧ ∃ c, designated R.tags r k j = some c ∧ p ∈ c.1) ↔
      ∃ a b, a < b ∧ a ≤ p.1 ∧ p.1 ≤ b ∧ AllRecorded I ρ a b ∧
        ∃ S ∈ I, ∃ s ∈ S.runs, Lasts s ρ a b ∧ ∃ c, designated S.tags s k j = some c ∧ p ∈ c.1 := by
  constructor
  · rintro ⟨r, hr, rfl, c, hc, hp⟩
    have hne : ∃ S ∈ I, ∃ k, HasTag S k := by
      obtain ⟨S, hS, s, _, _, c', hc', _⟩ := C34_samples o I hI R h r hr k j c hc p hp
      exact ⟨S, hS, k, designated_some hc'⟩
    obtain ⟨M, h1, h2, h3, _, h5⟩ := C112_pack_complete o ho I hI R h hne
    rcases h3 with h3 | h3
    · obtain ⟨x, hx, hrx, c', hc', p', hp', e, et⟩ := fused_sample h1 h3 hr hc hp
      have hpp : p' = p := Prod.ext (et (regular_exact h1 h2 hsync hrate)) e
      subst hpp
      obtain ⟨a, b, hab, hrec, hd⟩ := h5 x hx
      obtain ⟨S, hS, s, hs, hl, c2, hc2, _, hp2⟩ := hd k j c' hc'
      obtain ⟨q1, q2, q3⟩ := hp2 p' hp'
      rw [hrx] at hrec hl
      exact ⟨a, b, hab, q2, q3, hrec, S, hS, s, hs, hl, c2, hc2, q1⟩
    · rw [h3.2] at hr; simp at hr
  · rintro ⟨a, b, hab, ha, hb, hrec, S, hS, s, hs, hl, c', hc', hp⟩
    obtain ⟨r, hr, e, hd⟩ := C112_pack_keeps o ho I hI hsync hrate R h ⟨S, hS, k, designated_some hc'⟩ ρ a b hab hrec
    obtain ⟨c, hc, hpc⟩ := hd S hS s hs hl k j c' hc'
    exact ⟨r, hr, e, c, hc, hpc p hp ha hb⟩

/-- **C112.** `pack()` gives runs at rate `ρ` exactly when there is an interval over which every tag is recorded at
rate `ρ`. -/
theorem C112_pack_rates [One κ] (o : SetOrder) (ho : SetOrder.OK o) (I : Inventory α κ) (hI : ∀ S ∈ I, Regular S)
    (R : SigSet α κ) (h : I.pack o = .ok R) (hne : ∃ S ∈ I, ∃ k, HasTag S k) (ρ : ℚ) :
    (∃ r ∈ R.runs, r.rate = ρ) ↔ ∃ a b, a < b ∧ AllRecorded I ρ a b := by
  obtain ⟨M, h1, h2, h3, h4, h5⟩ := C112_pack_complete o ho I hI R h hne
  have hMR : (∃ r ∈ R.runs, r.rate = ρ) ↔ ∃ r ∈ M.runs, r.rate = ρ := by
    rcases h3 with h3 | h3
    · exact (C26_samples M R h1.reach h1.plain (Inventory.regular_starts h1) h3).2.2.2 ρ
    · rw [h3.1, h3.2]
  rw [hMR]
  constructor
  · rintro ⟨r, hr, rfl⟩
    obtain ⟨a, b, hab, hrec, _⟩ := h5 r hr
    exact ⟨a, b, hab, hrec⟩
  · rintro ⟨a, b, hab, hrec⟩
    obtain ⟨r, hr, e, _⟩ := h4 ρ a b hab hrec
    exact ⟨r, hr, e⟩

/-- **C112.** Packing a single signal set keeps all the data of its tags: packing again changes nothing. -/
theorem C112_pack_one [One κ] (o : SetOrder) (ho : SetOrder.OK o) (S : SigSet α κ) (hS : Regular S)
    (hsync : Synchronised [S]) (hrate : ∀ s ∈ S.runs, s.rate ≤ 10 ^ 7)
    (R : SigSet α κ) (h : Inventory.pack o [S] = .ok R) (ρ : ℚ) (k : String) (j : Nat) (p : ℚ × α) :
    (∃ r ∈ R.runs, r.rate = ρ ∧ ∃ c, designated R.tags r k j = some c ∧ p ∈ c.1) ↔
      ∃ s ∈ S.runs, s.rate = ρ ∧ ∃ c, designated S.tags s k j = some c ∧ p ∈ c.1 := by
  have hI : ∀ T ∈ [S], Regular T := by simpa using hS
  rw [C112_pack_samples o ho [S] hI hsync (by simpa using hrate) R h ρ k j p]
  constructor
  · rintro ⟨a, b, _, _, _, _, T, hT, s, hs, hl, c, hc, hp⟩
    rw [List.mem_singleton] at hT; subst hT
    exact ⟨s, hs, hl.rate, c, hc, hp⟩
  · rintro ⟨s, hs, rfl, c, hc, hp⟩
    have hw := (reach_sinv hS.reach).ok.wf s hs
    have hlt : s.start < lastTime s := by
      unfold lastTime
      have : (1 : ℚ) < s.size := by exact_mod_cast hS.size s hs
      have : 0 < ((s.size : ℚ) - 1) / s.rate := div_pos (by linarith) (hS.rate s hs)
      linarith
    obtain ⟨h1, h2⟩ := designated_time hw (hS.rate s hs) hc hp
    refine ⟨s.start, lastTime s, hlt, h1, h2, ?_, S, by simp, s, hs, ⟨rfl, le_rfl, le_rfl⟩, c, hc, hp⟩
    rintro k ⟨T, hT, hk⟩
    rw [List.mem_singleton] at hT; subst hT
    exact ⟨T, by simp, hk, s, hs, rfl, le_rfl, le_rfl⟩

/-- **C112.** More signal sets without more tags: the result of `pack()` has more data, and loses none. -/
theorem C112_pack_more [One κ] (o o' : SetOrder) (ho : SetOrder.OK o) (ho' : SetOrder.OK o') (I I' : Inventory α κ)
    (hI : ∀ S ∈ I', Regular S) (hsub : ∀ S ∈ I, S ∈ I') (htags : ∀ S ∈ I', ∀ k, HasTag S k → ∃ T ∈ I, HasTag T k)
    (hsync : Synchronised I') (hrate : ∀ S ∈ I', ∀ s ∈ S.runs, s.rate ≤ 10 ^ 7)
    (R R' : SigSet α κ) (h : I.pack o = .ok R) (h' : I'.pack o' = .ok R') (ρ : ℚ) (k : String) (j : Nat) (p : ℚ × α)
    (hp : ∃ r ∈ R.runs, r.rate = ρ ∧ ∃ c, designated R.tags r k j = some c ∧ p ∈ c.1) :
    ∃ r ∈ R'.runs, r.rate = ρ ∧ ∃ c, designated R'.tags r k j = some c ∧ p ∈ c.1 := by
  rw [C112_pack_samples o' ho' I' hI hsync hrate R' h']
  rw [C112_pack_samples o ho I (fun S hS => hI S (hsub S hS))
    (fun S hS s hs S' hS' s' hs' => hsync S (hsub S hS) s hs S' (hsub S' hS') s' hs')
    (fun S hS => hrate S (hsub S hS)) R h] at hp
  obtain ⟨a, b, hab, ha, hb, hrec, S, hS, hd⟩ := hp
  refine ⟨a, b, hab, ha, hb, ?_, S, hsub S hS, hd⟩
  rintro k' ⟨T, hT, hk'⟩
  obtain ⟨U, hU, hUk, hUs⟩ := hrec k' (htags T hT k' hk')
  exact ⟨U, hsub U hU, hUk, hUs⟩

section examples

theorem exInv_rate : ∀ S ∈ exInv, ∀ s ∈ S.runs, s.rate ≤ 10 ^ 7 := by
  intro S hS s hs
  simp only [exInv, List.mem_cons, List.not_mem_nil, or_false] at hS
  rcases hS with rfl | rfl | rfl <;> simp [exInvE, exInvB, exInvF] at hs <;> subst hs <;> norm_num

theorem exInv_tag : ∃ S ∈ exInv, ∃ k, HasTag S k := ⟨exInvE, by simp [exInv], "E", [0], by decide⟩

/-- Both tags are recorded at 1 Hz from 1 to 2. -/
theorem exInv_recorded : AllRecorded exInv 1 1 2 := by
  rintro k ⟨S, hS, v, hv⟩
  have hk : k = "E" ∨ k = "B" := by
    have := Dict.mem_of_get? (Tags.getItem_ok.1 hv)
    simp only [exInv, List.mem_cons, List.not_mem_nil, or_false] at hS
    rcases hS with rfl | rfl | rfl <;> simp [exInvE, exInvB, exInvF] at this <;> simp [this.1]
  rcases hk with rfl | rfl
  · exact ⟨exInvE, by simp [exInv], ⟨[0], by decide⟩, _, List.mem_singleton.2 rfl, by norm_num [exInvE], by norm_num [exInvE], by norm_num [exInvE, lastTime]⟩
  · exact ⟨exInvB, by simp [exInv], ⟨[0], by decide⟩, _, List.mem_singleton.2 rfl, by norm_num [exInvB], by norm_num [exInvB], by norm_num [exInvB, lastTime]⟩

example := C112_pack_complete exOrd exOrd_ok exInv exInv_regular exPacked exInv_pack exInv_tag
example := C112_pack_keeps exOrd exOrd_ok exInv exInv_regular exInv_sync exInv_rate exPacked exInv_pack exInv_tag 1 1 2 (by norm_num) exInv_recorded
example := C112_pack_samples exOrd exOrd_ok exInv exInv_regular exInv_sync exInv_rate exPacked exInv_pack 1 "E" 0 (1, 2)
example : ∃ r ∈ exPacked.runs, r.rate = 1 :=
  (C112_pack_rates exOrd exOrd_ok exInv exInv_regular exPacked exInv_pack exInv_tag 1).2 ⟨1, 2, by norm_num, exInv_recorded⟩
/-- At 2 Hz `B` is not recorded. -/
example : ¬ ∃ a b, a < b ∧ AllRecorded exInv 2 a b := by
  rw [← C112_pack_rates exOrd exOrd_ok exInv exInv_regular exPacked exInv_pack exInv_tag 2]
  simp [exPacked]


theorem exTwoRuns_regular : Regular (⟨[⟨[[1, 2]], [1], 1, 0, 2⟩, ⟨[[3, 4]], [1], 1, 2, 2⟩], ⟨1, [("E", [0])]⟩⟩ : SigSet Int ℚ) := by
  refine ⟨Reach.new (.dict [("E", .int 0)]) [.sync ⟨[[1, 2]], [1], 1, 0, 2⟩, .sync ⟨[[3, 4]], [1], 1, 2, 2⟩] ?_ (by simp) (by decide +kernel), ?_, ?_, ?_⟩
  · intro s hs
    simp only [List.mem_cons, List.not_mem_nil, or_false, SigArg.sync.injEq] at hs
    rcases hs with rfl | rfl <;> exact ⟨by simp, by simp, by simp⟩
  · intro k hk; simp [reserved] at hk; rcases hk with rfl|rfl|rfl|rfl|rfl <;> decide
  · intro r hr; simp only [List.mem_cons, List.not_mem_nil, or_false] at hr; rcases hr with rfl | rfl <;> norm_num
  · intro r hr; simp only [List.mem_cons, List.not_mem_nil, or_false] at hr; rcases hr with rfl | rfl <;> norm_num

/-- Two consecutive runs are fused, and nothing is lost. -/
example := C112_pack_one exOrd exOrd_ok _ exTwoRuns_regular
  (by
    intro S hS s hs S' hS' s' hs' _
    simp only [List.mem_singleton] at hS hS'
    subst hS hS'
    simp only [List.mem_cons, List.not_mem_nil, or_false] at hs hs'
    rcases hs with rfl | rfl <;> rcases hs' with rfl | rfl
    · exact ⟨0, by norm_num⟩
    · exact ⟨-2, by norm_num⟩
    · exact ⟨2, by norm_num⟩
    · exact ⟨0, by norm_num⟩)
  (by intro s hs; simp only [List.mem_cons, List.not_mem_nil, or_false] at hs; rcases hs with rfl | rfl <;> norm_num)
  ⟨[⟨[[1, 2, 3, 4]], [1], 1, 0, 4⟩], ⟨1, [("E", [0])]⟩⟩ (by decide +kernel) 1 "E" 0 (2, 3)

/-- `exInvF` brings no new tag. -/
example := C112_pack_more exOrd exOrd' exOrd_ok exOrd'_ok [exInvE, exInvB] exInv exInv_regular
  (by intro S hS; simp only [exInv, List.mem_cons, List.not_mem_nil, or_false] at hS ⊢; tauto)
  (by
    intro S hS k hk
    simp only [exInv, List.mem_cons, List.not_mem_nil, or_false] at hS
    rcases hS with rfl | rfl | rfl
    · exact ⟨exInvE, by simp, hk⟩
    · exact ⟨exInvB, by simp, hk⟩
    · exact ⟨exInvE, by simp, hk⟩)
  exInv_sync exInv_rate exPacked exPacked (by decide +kernel) (by decide +kernel) 1 "E" 0 (1, 2)
  ⟨_, List.mem_singleton.2 rfl, rfl, ([(1, 2), (2, 3)], 1), by decide +kernel, by simp⟩

end examples

end Razorback.Props
