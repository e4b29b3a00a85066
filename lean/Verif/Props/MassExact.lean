/-
C115: noise free recordings, through packing, remote references and intervals.
-/
import Verif.Props.EndToEnd
import Verif.Props.NoiseFree
import Verif.Props.MassOrder
import Verif.Props.Remote

namespace Razorback.Spec
open Razorback
variable {α κ : Type _}

/-- All that `S` has under the names `K` was recorded in `I`: each channel has the calibration of a channel of `I` with the same
name and position, and each of its samples is, with its time, recorded in `I` under this name and position at the same rate;
a name has as many channels as in a recording of `I`; runs start on the sampling grid of a run of `I`. -/
structure From (I : List (SigSet α κ)) (K : String → Prop) (S : SigSet α κ) : Prop where
  cal : ∀ s ∈ S.runs, ∀ k, K k → ∀ j c, designated S.tags s k j = some c →
    ∃ T ∈ I, ∃ s' ∈ T.runs, ∃ c', designated T.tags s' k j = some c' ∧ c.2 = c'.2
  value : ∀ s ∈ S.runs, ∀ k, K k → ∀ j t v, ValueAt S s k j t v → RecordedAt I s.rate k j t v
  count : S.runs ≠ [] → ∀ k, K k → ∀ v, S.tags.getItem k = .ok v →
    ∃ T ∈ I, T.runs ≠ [] ∧ ∃ v', T.tags.getItem k = .ok v' ∧ v'.length = v.length
  grid : ∀ s ∈ S.runs, ∃ T ∈ I, ∃ s' ∈ T.runs, s'.rate = s.rate ∧ ∃ n : ℤ, (s.start - s'.start) * s.rate = n

/-- Fields recorded in the inventory `I` with calibrations `calib`: each of the `p` fields of name `ke` in physical units is, at every
time and rate at which all of them are recorded, the combination of the `q` fields of name `kb` with the coefficients of a row
of `z`. -/
structure Linked {κ : Type} (cal : κ → ℚ → Option ℂ) (I : List (SigSet ℂ κ)) (calib : String → ℕ → κ) (freq : ℚ) (ke kb : String) (p q : ℕ)
    (z : List (List ℂ)) : Prop where
  rows : z.length = p
  columns : ∀ c ∈ z, c.length = q
  out : ∀ S ∈ I, ∀ v, S.tags.getItem ke = .ok v → v.length = p
  inp : ∀ S ∈ I, ∀ v, S.tags.getItem kb = .ok v → v.length = q
  rel : ∀ (i : ℕ) c, z[i]? = some c → ∀ ρ t y (x : ℕ → ℂ), RecordedAt I ρ ke i t y → (∀ k < q, RecordedAt I ρ kb k t (x k)) →
    y / (cal (calib ke i) freq).getD 1 = ∑ k ∈ Finset.range q, c.getD k 0 * (x k / (cal (calib kb k) freq).getD 1)

/-- No number in the impedance. -/
def OnlyNaN (r : Impedance.Result) : Prop := ∀ row ∈ r.impedance, ∀ v ∈ row, v = none

/-- Least squares without prefilter, in both stages. -/
structure LeastSquares {σ : Type} (o : Impedance.Opts σ) : Prop where
  weights : o.weights = [none]
  first : firstWeights o = [none]
  prefilter : o.prefilter = none
  firstPrefilter : firstPrefilter o = none
  complex : o.realPb = false

end Razorback.Spec

namespace Razorback.Props
open Razorback Razorback.SigSet Razorback.Spec Razorback.Impedance Razorback.Fourier Razorback.Prefilter

section provenance
variable {α κ : Type _}

theorem _root_.Razorback.Spec.From.trans {I J : List (SigSet α κ)} {K : String → Prop} (hJ : ∀ T ∈ J, From I K T) {S : SigSet α κ} (h : From J K S) :
    From I K S := by
  refine ⟨?_, ?_, ?_, ?_⟩
  · intro s hs k hk j c hc
    obtain ⟨T, hT, s', hs', c', hc', e⟩ := h.cal s hs k hk j c hc
    obtain ⟨U, hU, u, hu, c2, hc2, e2⟩ := (hJ T hT).cal s' hs' k hk j c' hc'
    exact ⟨U, hU, u, hu, c2, hc2, e.trans e2⟩
  · intro s hs k hk j t v hv
    obtain ⟨T, hT, s', hs', e, hv'⟩ := h.value s hs k hk j t v hv
    rw [← e]
    exact (hJ T hT).value s' hs' k hk j t v hv'
  · intro hne k hk v hv
    obtain ⟨T, hT, hT0, v', hv', e⟩ := h.count hne k hk v hv
    obtain ⟨U, hU, hU0, v2, hv2, e2⟩ := (hJ T hT).count hT0 k hk v' hv'
    exact ⟨U, hU, hU0, v2, hv2, e2.trans e⟩
  · intro s hs
    obtain ⟨T, hT, s', hs', e, n, hn⟩ := h.grid s hs
    obtain ⟨U, hU, u, hu, e2, m, hm⟩ := (hJ T hT).grid s' hs'
    refine ⟨U, hU, u, hu, e2.trans e, n + m, ?_⟩
    rw [e] at hm
    push_cast
    rw [← hn, ← hm]
    ring

theorem _root_.Razorback.Spec.From.weaken {I : List (SigSet α κ)} {K K' : String → Prop} (hK : ∀ k, K' k → K k) {S : SigSet α κ} (h : From I K S) : From I K' S :=
  ⟨fun s hs k hk => h.cal s hs k (hK k hk), fun s hs k hk => h.value s hs k (hK k hk), fun hne k hk => h.count hne k (hK k hk), h.grid⟩

theorem _root_.Razorback.Spec.From.mono {I I' : List (SigSet α κ)} (hI : ∀ T ∈ I, T ∈ I') {K : String → Prop} {S : SigSet α κ} (h : From I K S) : From I' K S := by
  refine ⟨?_, ?_, ?_, ?_⟩
  · intro s hs k hk j c hc
    obtain ⟨T, hT, r⟩ := h.cal s hs k hk j c hc
    exact ⟨T, hI T hT, r⟩
  · intro s hs k hk j t v hv
    obtain ⟨T, hT, r⟩ := h.value s hs k hk j t v hv
    exact ⟨T, hI T hT, r⟩
  · intro hne k hk v hv
    obtain ⟨T, hT, r⟩ := h.count hne k hk v hv
    exact ⟨T, hI T hT, r⟩
  · intro s hs
    obtain ⟨T, hT, r⟩ := h.grid s hs
    exact ⟨T, hI T hT, r⟩

theorem _root_.Razorback.Spec.From.sync {I J : List (SigSet α κ)} {K : String → Prop} (hJ : ∀ T ∈ J, From I K T) (hI : Synchronised I) : Synchronised J := by
  intro S hS s hs S' hS' s' hs' e
  obtain ⟨T, hT, t, ht, e1, n, hn⟩ := (hJ S hS).grid s hs
  obtain ⟨T', hT', t', ht', e1', n', hn'⟩ := (hJ S' hS').grid s' hs'
  obtain ⟨m, hm⟩ := hI T hT t ht T' hT' t' ht' (by rw [e1, e1', e])
  refine ⟨n + m - n', ?_⟩
  rw [e1] at hm
  rw [← e] at hn'
  push_cast
  rw [← hn, ← hm, ← hn']
  ring

theorem _root_.Razorback.Spec.From.rates {I J : List (SigSet α κ)} {K : String → Prop} (hJ : ∀ T ∈ J, From I K T) {ρ : ℚ}
    (hI : ∀ S ∈ I, ∀ s ∈ S.runs, s.rate ≤ ρ) : ∀ S ∈ J, ∀ s ∈ S.runs, s.rate ≤ ρ := by
  intro S hS s hs
  obtain ⟨T, hT, t, ht, e1, -⟩ := (hJ S hS).grid s hs
  rw [← e1]
  exact hI T hT t ht

/-- A name has a channel at exactly the positions below its number of channels. -/
theorem designated_lt [One κ] {S : SigSet α κ} (hS : Reach S) {s : Sync α κ} (hs : s ∈ S.runs) {k : String} {v : List ℕ}
    (hk : S.tags.getItem k = .ok v) (j : ℕ) : (designated S.tags s k j).isSome ↔ j < v.length := by
  have hI := reach_sinv hS
  have hw := hI.ok.wf s hs
  unfold designated
  rw [hk]
  simp only
  constructor
  · intro h
    by_contra hn
    rw [List.getElem?_eq_none (by omega)] at h
    simp at h
  · intro hj
    have hlt : v[j] < s.data.length := (hI.ok.tags k v hk).2.2 s hs v[j] (List.getElem_mem hj)
    have hcl : v[j] < s.cals.length := by rw [hw.cals]; exact hlt
    rw [List.getElem?_eq_getElem hj, Option.bind_some, channels_of (List.getElem?_eq_getElem hlt) (List.getElem?_eq_getElem hcl)]
    rfl

theorem count_eq [One κ] {S T : SigSet α κ} (hS : Reach S) (hT : Reach T) {s t : Sync α κ} (hs : s ∈ S.runs) (ht : t ∈ T.runs) {k : String}
    {v v' : List ℕ} (hv : S.tags.getItem k = .ok v) (hv' : T.tags.getItem k = .ok v')
    (h : ∀ j, (designated S.tags s k j).isSome ↔ (designated T.tags t k j).isSome) : v'.length = v.length := by
  have h2 : ∀ j, j < v.length ↔ j < v'.length := fun j => by rw [← designated_lt hS hs hv, h j, designated_lt hT ht hv']
  have a := h2 v.length
  have b := h2 v'.length
  omega

/-- The names of `S` have as many channels as in one of the recordings. -/
def Counted (I : List (SigSet α κ)) (S : SigSet α κ) : Prop := S.runs ≠ [] → ∀ k v, S.tags.getItem k = .ok v →
  ∃ T ∈ I, T.runs ≠ [] ∧ ∃ v', T.tags.getItem k = .ok v' ∧ v'.length = v.length

theorem Counted.trans {I J : List (SigSet α κ)} (hJ : ∀ T ∈ J, Counted I T) {S : SigSet α κ} (h : Counted J S) : Counted I S := by
  intro hne k v hv
  obtain ⟨T, hT, hT0, v', hv', e⟩ := h hne k v hv
  obtain ⟨U, hU, hU0, v2, hv2, e2⟩ := hJ T hT hT0 k v' hv'
  exact ⟨U, hU, hU0, v2, hv2, e2.trans e⟩

theorem counted_select [One κ] {S R : SigSet α κ} (hS : Regular S) {sel : ChanSel} (h : S.selectChannels sel = .ok R) : Counted [S] R := by
  intro hne k w hw
  have hR := (regular_selectChannels hS h).1.reach
  have hk : SelKnown S.tags S.nbChannels sel := by
    by_contra hn
    rw [C16_unknown_raises S hS.reach hS.plain sel hn] at h; simp at h
  have hne' : S.runs ≠ [] → ∃ i, SelDesig S.tags S.nbChannels sel i := by
    intro hr
    by_contra hn
    obtain ⟨e, he⟩ := C16_nothing_raises S hS.reach hS.plain sel hr hn
    rw [he] at h; simp at h
  obtain ⟨R', idx, h1, h2, h3, h4, h5, h6⟩ := C16_select_channels S hS.reach hS.plain sel hk hne'
  rw [h] at h1; simp at h1; subst h1
  obtain ⟨v, hv, -⟩ := (h5 k).1 ⟨w, hw⟩
  obtain ⟨r, hr⟩ := List.exists_mem_of_ne_nil _ hne
  obtain ⟨s, hs, e⟩ := forall₂_mem_left (h6 k w hw) r hr
  exact ⟨S, by simp, List.ne_nil_of_mem hs, v, hv, count_eq hR hS.reach hr hs hw hv (fun j => by rw [e j])⟩

theorem counted_joinAll [One κ] {l : List (SigSet α κ)} (hl : ∀ S ∈ l, Regular S) {R : SigSet α κ} (h : Inventory.joinAll l = .ok R) :
    Counted l R := by
  intro hne k v hv
  obtain ⟨r, hr⟩ := List.exists_mem_of_ne_nil _ hne
  obtain ⟨T, hT, s, hs, e⟩ := joinAll_src hl h hr
  have hR := (regular_joinAll hl h).1.reach
  have hj : (designated R.tags r k 0).isSome := by
    rw [designated_lt hR hr hv]
    exact List.length_pos_iff.2 ((reach_sinv hR).ok.tags k v hv).2.1
  rw [e.chans, Option.isSome_iff_exists] at hj
  obtain ⟨c, hc⟩ := hj
  obtain ⟨v', hv'⟩ := designated_some hc
  exact ⟨T, hT, List.ne_nil_of_mem hs, v', hv', count_eq hR (hl T hT).reach hr hs hv hv' (fun j => by rw [e.chans])⟩

theorem counted_merge [One κ] {S R : SigSet α κ} {others : List (SigSet α κ)} (hl : ∀ T ∈ S :: others, Regular T)
    (h : S.merge others = .ok R) : Counted (S :: others) R := by
  intro hne k v hv
  obtain ⟨r, hr⟩ := List.exists_mem_of_ne_nil _ hne
  obtain ⟨T, hT, v', hv'⟩ := ((regular_merge hl h).2.2 k).1 ⟨v, hv⟩
  obtain ⟨c, b, hc, -, -, hd⟩ := C22_merge_tags S R others (fun T hT => (hl T hT).reach) (fun T hT => (hl T hT).plain)
    (fun T hT => (hl T hT).rate) h r hr
  obtain ⟨i, hi⟩ := List.mem_iff_getElem?.1 hT
  have hlen := hc.length_eq
  have hil : i < (S :: others).length := (List.getElem?_eq_some_iff.1 hi).1
  obtain ⟨⟨w, hw, e⟩, -⟩ := hd i T _ k v' hi (List.getElem?_eq_getElem (by omega)) hv'
  rw [hv] at hw
  obtain rfl := Except.ok.inj hw
  have hs : c[i] ∈ T.runs := by
    have := List.Forall₂.get hc (i := i) (by omega) hil
    have hT' : T = (S :: others)[i] := (List.getElem?_eq_some_iff.1 hi).2.symm
    rw [hT']; exact this
  exact ⟨T, hT, List.ne_nil_of_mem hs, v', hv', e.symm⟩

theorem Counted.mono {I J : List (SigSet α κ)} (hJ : ∀ T ∈ J, T ∈ I) {S : SigSet α κ} (h : Counted J S) : Counted I S := by
  intro hne k v hv
  obtain ⟨T, hT, r⟩ := h hne k v hv
  exact ⟨T, hJ T hT, r⟩

theorem counted_selectAll [One κ] {I J : Inventory α κ} (hI : ∀ S ∈ I, Regular S) {keys : List String} (h : I.selectChannels keys = .ok J) :
    ∀ R ∈ J, Counted I R := by
  intro R hR
  obtain ⟨S, hS, sel, hs⟩ := Inventory.selectChannels_inv h R hR
  exact (counted_select (hI S hS) hs).mono (by simpa using hS)

theorem counted_groupSet [One κ] {I : Inventory α κ} (hI : ∀ S ∈ I, Regular S) {keys : List String} {R : SigSet α κ}
    (h : Inventory.groupSet I keys = .ok R) : Counted I R := by
  unfold Inventory.groupSet at h
  split at h
  · simp at h
  · rename_i J hJ
    exact (counted_joinAll (fun S hS => (Inventory.regular_select hI hJ S hS).1) h).trans (counted_selectAll hI hJ)

theorem counted_joinMerge [One κ] {o : SetOrder} {I : Inventory α κ} (hI : ∀ S ∈ I, Regular S) {R : SigSet α κ}
    (h : I.joinMerge o = .ok R) : Counted I R := by
  unfold Inventory.joinMerge at h
  split at h
  · rw [Inventory.new_empty] at h
    simp at h; subst h
    intro hne
    exact absurd rfl hne
  · split at h
    · simp at h
    · simp at h
    · rename_i a ha
      simp at h; subst h
      obtain ⟨g, _, hg⟩ := mapE_ok_exists ha a (by simp)
      exact counted_groupSet hI hg
    · rename_i a others _ ha
      refine (counted_merge (fun T hT => ?_) h).trans (fun T hT => ?_)
      · obtain ⟨g, _, hg⟩ := mapE_ok_exists ha T hT
        exact (Inventory.regular_groupSet hI hg).1
      · obtain ⟨g, _, hg⟩ := mapE_ok_exists ha T hT
        exact counted_groupSet hI hg

theorem counted_rateSet [One κ] {o : SetOrder} {I : Inventory α κ} (hI : ∀ S ∈ I, Regular S) {f0 : ℚ} {R : SigSet α κ}
    (h : I.rateSet o f0 = .ok R) : Counted I R := by
  unfold Inventory.rateSet at h
  split at h
  · simp at h
  · rename_i J hJ
    have hsel : ∀ T ∈ J, Regular T ∧ Counted I T := by
      unfold Inventory.selectRuns at hJ
      split at hJ
      · simp at hJ
      · split at hJ
        · simp at hJ
        · rename_i l hl
          rw [Inventory.new_set] at hJ
          simp only [Except.ok.injEq] at hJ; subst hJ
          intro T hT
          obtain ⟨p, hp, hs⟩ := mapE_ok_exists hl T (List.mem_filter.1 hT).1
          obtain ⟨i, hi, hpi⟩ := List.mem_iff_getElem.1 hp
          simp at hi
          simp at hpi
          subst hpi
          obtain ⟨h1, h2, h3, h4⟩ := regular_selectRuns (hI _ (List.getElem_mem hi)) hs
          refine ⟨h1, fun hne k v hv => ⟨_, List.getElem_mem hi, ?_, v, by rw [← h2 k]; exact hv, rfl⟩⟩
          obtain ⟨r, hr⟩ := List.exists_mem_of_ne_nil _ hne
          exact List.ne_nil_of_mem (h4 r hr)
    exact (counted_joinMerge (fun T hT => (hsel T hT).1) h).trans (fun T hT => (hsel T hT).2)

theorem counted_packAll [One κ] {o : SetOrder} {I : Inventory α κ} (hI : ∀ S ∈ I, Regular S) {R : SigSet α κ}
    (h : I.packAll o = .ok R) : Counted I R := by
  unfold Inventory.packAll at h
  split at h
  · simp at h
  · rename_i sigs hsigs
    split at h
    · rw [Inventory.new_empty] at h; simp at h; subst h
      intro hne
      exact absurd rfl hne
    · rename_i S l hl
      split at h
      · simp at h
      · rename_i M hM
        have hall : ∀ T ∈ S :: l, Regular T ∧ Counted I T := by
          intro T hT
          rw [← hl, List.mem_filter] at hT
          obtain ⟨f0, _, hf⟩ := mapE_ok_exists hsigs T hT.1
          exact ⟨(Inventory.regular_rateSet hI hf).1, counted_rateSet hI hf⟩
        have hMr := (regular_joinAll (fun T hT => (hall T hT).1) hM).1
        have hMc : Counted I M := (counted_joinAll (fun T hT => (hall T hT).1) hM).trans (fun T hT => (hall T hT).2)
        have hd := Inventory.regular_starts hMr
        obtain ⟨gs, hch, hall⟩ := C27_chains M R hMr.reach hMr.plain hd h
        obtain ⟨_, ht, _⟩ := C26_samples M R hMr.reach hMr.plain hd h
        intro hne k v hv
        refine hMc ?_ k v (by rw [← ht k]; exact hv)
        obtain ⟨r, hr⟩ := List.exists_mem_of_ne_nil _ hne
        obtain ⟨g, hg, hf⟩ := forall₂_mem_left hall r hr
        intro h0
        rw [h0] at hch
        exact hch.nonempty (by rw [List.flatten_eq_nil_iff.1 hch.all g hg] at hg; exact hg)

theorem traced_grid {I : List (SigSet α κ)} {S : SigSet α κ} (h : Traced I S) (hr : ∀ s ∈ S.runs, 0 < s.rate) :
    ∀ s ∈ S.runs, ∃ T ∈ I, ∃ s' ∈ T.runs, s'.rate = s.rate ∧ ∃ n : ℤ, (s.start - s'.start) * s.rate = n := by
  intro s hs
  obtain ⟨T, hT, s', hs', e, i, hi⟩ := h.rate s hs
  refine ⟨T, hT, s', hs', e, i, ?_⟩
  have := (hr s hs).ne'
  rw [hi, e]
  unfold sampleTime
  push_cast
  field_simp
  ring

theorem from_traced {I : List (SigSet α κ)} {S : SigSet α κ} (h : Traced I S) (hr : ∀ s ∈ S.runs, 0 < s.rate) (hc : Counted I S) :
    From I (fun _ => True) S := by
  refine ⟨?_, ?_, fun hne k _ => hc hne k, traced_grid h hr⟩
  · intro s hs k _ j c hc
    obtain ⟨T, hT, s', hs', -, c', hc', -, e⟩ := h.chan s hs k j c hc
    exact ⟨T, hT, s', hs', c', hc', e⟩
  · rintro s hs k - j t v ⟨c, hc, hv⟩
    obtain ⟨T, hT, s', hs', e1, c', hc', e2, -⟩ := h.chan s hs k j c hc
    exact ⟨T, hT, s', hs', e1, c', hc', e2.subset hv⟩

/-- `filter` keeps data of the inventory. -/
theorem from_filter [One κ] {o : SetOrder} {I J : Inventory α κ} (hI : ∀ S ∈ I, Regular S) {pats : List String}
    (h : I.filter o pats = .ok J) : ∀ S ∈ J, From I (fun _ => True) S := fun S hS =>
  from_traced (Inventory.regular_select hI h S hS).2.1 (Inventory.regular_select hI h S hS).1.rate (counted_selectAll hI h S hS)

/-- `pack()` keeps data of the inventory. -/
theorem from_pack [One κ] {o : SetOrder} {I : Inventory α κ} (hI : ∀ S ∈ I, Regular S) (hsync : Synchronised I)
    (hrate : ∀ S ∈ I, ∀ s ∈ S.runs, s.rate ≤ 10 ^ 7) {P : SigSet α κ} (h : I.pack o = .ok P) : From I (fun _ => True) P := by
  refine ⟨?_, ?_, fun hne k _ => counted_packAll hI h hne k, ?_⟩
  · intro r hr k _ j c hc
    obtain ⟨M, hM, h1, h2⟩ := C34_pack_traced o I hI P h (List.ne_nil_of_mem hr)
    obtain ⟨a, ha, c', hc', e⟩ := fused_cal hM h1 hr hc
    obtain ⟨T, hT, s, hs, _, c2, hc2, _, e2⟩ := h2.chan a ha k j c' hc'
    exact ⟨T, hT, s, hs, c2, hc2, by rw [← e, e2]⟩
  · rintro s hs k - j t v ⟨c, hc, hv⟩
    exact C34_exact_times o I hI hsync hrate P h s hs k j c hc _ hv
  · intro r hr
    obtain ⟨M, hM, h1, h2⟩ := C34_pack_traced o I hI P h (List.ne_nil_of_mem hr)
    obtain ⟨gs, hch, hall⟩ := C27_chains M P hM.reach hM.plain (Inventory.regular_starts hM) h1
    obtain ⟨g, hg, hf⟩ := forall₂_mem_left hall r hr
    have hne : g ≠ [] := fun e => hch.nonempty (e ▸ hg)
    obtain ⟨a, g', hg'⟩ := List.exists_cons_of_ne_nil hne
    have haM : a ∈ M.runs := by rw [← hch.all]; exact List.mem_flatten.2 ⟨g, hg, by rw [hg']; simp⟩
    obtain ⟨T, hT, s, hs, e, n, hn⟩ := traced_grid h2 hM.rate a haM
    have e1 := hf.rate a (by rw [hg']; simp)
    have e2 := hf.start a (by rw [hg']; simp)
    exact ⟨T, hT, s, hs, e.trans e1.symm, n, by rw [e1, e2]; exact hn⟩

/-- `extract_groups` keeps data of the inventory, but for the new name. -/
theorem from_group [One κ] {o : SetOrder} {I : Inventory α κ} (hI : ∀ S ∈ I, Regular S) (hsync : Synchronised I)
    (hrate : ∀ S ∈ I, ∀ s ∈ S.runs, s.rate ≤ 10 ^ 7) {n : String} {olds : List String} {g : Inventory α κ}
    (h : I.extractGroups o [(n, olds)] = .ok g) : ∀ S ∈ g, From I (fun k => k ≠ n) S := by
  intro S hS
  obtain ⟨p, hp, J, P, h1, h2, h3, -, -, h4⟩ := forall₂_mem_left (C36_extract_groups o I g _ h).flip S hS
  rw [List.mem_singleton] at hp
  subst hp
  dsimp only at h1 h4
  have hJ := regular_filter hI h1
  have hJF := from_filter hI h1
  have hP : From I (fun _ => True) P := (from_pack hJ (From.sync hJF hsync) (From.rates hJF hrate) h2).trans hJF
  have hd : ∀ k, k ≠ n → ∀ (s : Sync α κ) j, designated S.tags s k j = designated P.tags s k j := by
    intro k hk s j
    unfold designated
    rw [h4 k hk]
  refine ⟨?_, ?_, ?_, ?_⟩
  · intro s hs k hk j c hc
    rw [h3] at hs
    rw [hd k hk] at hc
    exact hP.cal s hs k trivial j c hc
  · rintro s hs k hk j t v ⟨c, hc, hv⟩
    rw [h3] at hs
    rw [hd k hk] at hc
    exact hP.value s hs k trivial j t v ⟨c, hc, hv⟩
  · intro hne k hk v hv
    rw [h3] at hne
    rw [h4 k hk] at hv
    exact hP.count hne k trivial v hv
  · intro s hs
    rw [h3] at hs
    exact hP.grid s hs

/-- `extract_t` keeps data of the signal set. -/
theorem from_extract [One κ] {S R : SigSet α κ} (hS : Regular S) {a b : ℚ} (h : S.extractT a b = .ok R) :
    Reach R ∧ From [S] (fun _ => True) R := by
  obtain ⟨R', h1, h2, h3⟩ := C19_extract_t S hS.reach hS.plain hS.rate a b
  rw [h] at h1
  obtain rfl := Except.ok.inj h1
  have hR : Reach R := .extractT a b false hS.reach h
  obtain ⟨m, h4, -⟩ := extractIn_ok (reach_sinv hS.reach) hS.plain hS.rate a b
  have h5 : S.extractT a b = .ok ⟨winRuns a b S.runs, ⟨m, S.tags.tags⟩⟩ := h4
  rw [h] at h5
  obtain rfl := Except.ok.inj h5
  have hpiece : ∀ r ∈ winRuns a b S.runs, ∃ s ∈ S.runs, Piece (window a b) r s := by
    intro r hr
    obtain ⟨s, hs, h⟩ := forall₂_mem_left h2 r hr
    exact ⟨s, (List.mem_filter.1 hs).1, h⟩
  have hdes : ∀ {r s : Sync α κ}, Piece (window a b) r s → ∀ k j, designated S.tags r k j =
      (designated S.tags s k j).map (cutChannel (window a b)) := by
    intro r s hp k j
    unfold designated
    split
    · rename_i v _
      cases v[j]? with
      | none => rfl
      | some i => simp only [Option.bind_some]; rw [hp.channels, List.getElem?_map]; rfl
    · rfl
  refine ⟨hR, ?_, ?_, ?_, ?_⟩
  · intro r hr k _ j c hc
    obtain ⟨s, hs, hp⟩ := hpiece r hr
    have hc : designated S.tags r k j = some c := hc
    rw [hdes hp, Option.map_eq_some_iff] at hc
    obtain ⟨c', hc', rfl⟩ := hc
    exact ⟨S, by simp, s, hs, c', hc', rfl⟩
  · rintro r hr k - j t v ⟨c, hc, hv⟩
    obtain ⟨s, hs, hp⟩ := hpiece r hr
    have hc : designated S.tags r k j = some c := hc
    rw [hdes hp, Option.map_eq_some_iff] at hc
    obtain ⟨c', hc', rfl⟩ := hc
    exact ⟨S, by simp, s, hs, hp.rate.symm, c', hc', List.filter_subset' _ hv⟩
  · intro hne k _ v hv
    obtain ⟨r, hr⟩ := List.exists_mem_of_ne_nil _ hne
    obtain ⟨s, hs, -⟩ := hpiece r hr
    exact ⟨S, by simp, List.ne_nil_of_mem hs, v, hv, rfl⟩
  · intro r hr
    obtain ⟨s, hs, hp⟩ := hpiece r hr
    obtain ⟨s1, hs1, hsz, e⟩ := mem_winRuns.1 hr
    have hw := (reach_sinv hR).ok.wf r hr
    have h0 : 0 < r.data.length := List.length_pos_iff.2 hw.nonempty
    have hc0 : 0 < r.cals.length := by rw [hw.cals]; exact h0
    have hsz : 0 < r.size := by rw [e]; omega
    have hch := channels_of (List.getElem?_eq_getElem h0) (List.getElem?_eq_getElem hc0)
    have hdl := hw.rect _ (List.getElem_mem h0)
    have hin : (sampleTime r.rate r.start 0, (r.data[0])[0]'(by omega)) ∈ timed r.rate r.start r.data[0] :=
      mem_timed.2 ⟨0, List.getElem?_eq_getElem (by omega), rfl⟩
    rw [hp.channels, List.getElem?_map, Option.map_eq_some_iff] at hch
    obtain ⟨c', hc', e'⟩ := hch
    rw [← (Prod.mk.inj e').1] at hin
    obtain ⟨d, -, -, hd⟩ := channels_some hc'
    have := List.filter_subset' _ hin
    rw [hd] at this
    obtain ⟨n, -, hn⟩ := mem_timed.1 this
    refine ⟨S, by simp, s, hs, hp.rate.symm, n, ?_⟩
    have hpos := (hS.rate s hs).ne'
    have e0 : r.start = sampleTime s.rate s.start n := by
      rw [← hn]
      simp [sampleTime]
    rw [e0, hp.rate]
    unfold sampleTime
    push_cast
    field_simp
    ring

end provenance

variable {κ σ : Type}

/-- A result comes from channels that exist. -/
theorem oneFreq_channels {cal : κ → ℚ → Option ℂ} {S : SigSet ℂ κ} {freq : ℚ} {o : Impedance.Opts σ} {heap : ℕ → σ} {r : Result}
    (h : (oneFreq cal S freq o heap).1 = .ok r) : ∃ E B R, Channels S o E B R := by
  unfold oneFreq at h
  split at h
  · simp at h
  rename_i E hE
  split at h
  · simp at h
  rename_i B hB
  split at h
  · simp at h
  rename_i R hR
  refine ⟨E, B, R, hE, hB, ?_⟩
  unfold remoteChannels at hR
  split at hR
  · rename_i h0
    exact .inl ⟨.inl h0, (Except.ok.inj hR).symm⟩
  · rename_i n h0
    split at hR
    · rename_i h1
      rw [String.isEmpty_iff] at h1
      exact .inl ⟨.inr (by rw [h0, h1]), (Except.ok.inj hR).symm⟩
    · rename_i h1
      split at hR
      · simp at hR
      · rename_i l hl
        exact .inr ⟨n, l, h0, fun e => h1 (String.isEmpty_iff.2 e), hl, (Except.ok.inj hR).symm⟩

/-- **C114.** Least squares without prefilter and with any remote, on data where each electric channel is, sample by sample and in
physical units, the combination of the magnetic channels with the coefficients of a row of `z`: any result that is not NaN
is exactly `z`. -/
theorem C114_remote [One κ] (cal : κ → ℚ → Option ℂ) (S : SigSet ℂ κ) (hS : Reach S) (freq : ℚ) (o : Impedance.Opts σ)
    (ho : LeastSquares o) (E B R : List ℕ) (hc : Channels S o E B (some R)) (z : List (List ℂ)) (hzl : z.length = E.length)
    (hz : ∀ c ∈ z, c.length = B.length)
    (hex : ∀ s ∈ S.runs, ∀ (i : ℕ) c, z[i]? = some c → ∀ n, physical cal freq s (E.getD i 0) n =
      ∑ k : Fin B.length, c.getD k 0 * physical cal freq s B[k] n) (heap : ℕ → σ)
    (r : Result) (hr : (oneFreq cal S freq o heap).1 = .ok r) : OnlyNaN r ∨ r.impedance = z.map (fun row => row.map some) := by
  cases hf : setCoeffs cal S freq o.nper o.overlap o.win with
  | error x =>
    obtain ⟨r', h1, h2⟩ := C61_fourier_failure cal S freq o E B (some R) hc x hf heap
    rw [h1] at hr
    obtain rfl := Except.ok.inj hr
    exact .inl (fun row hrow => (h2.1.2 row hrow).2)
  | ok p =>
  obtain ⟨co, w⟩ := p
  obtain ⟨e, b, br, he, hb, -, h1, h2, hle, hlb⟩ := reach_chans hS hc hf
  obtain ⟨he1, he2⟩ := picked_eq he
  obtain ⟨hb1, hb2⟩ := picked_eq hb
  have hself : List.Forall₂ (SameClock cal freq) S.runs S.runs := List.forall₂_same.2 (fun s _ => ⟨rfl, rfl, rfl, rfl, Iff.rfl⟩)
  obtain ⟨co', h', -, -, hlink⟩ := setCoeffs_linked hS hS hself hf
  rw [hf] at h'
  simp only [Except.ok.injEq, Prod.mk.injEq, and_true] at h'
  subst h'
  obtain ⟨Z, hZ⟩ : ∃ Z : Matrix (Fin E.length) (Fin B.length) ℂ, Z = fun (i : Fin E.length) (k : Fin B.length) => (z.getD i []).getD k 0 := ⟨_, rfl⟩
  have hrel : chanMatrix co E w.1.sum = Z * chanMatrix co B w.1.sum := by
    funext i n
    have hi : (i : ℕ) < E.length := i.2
    have hci : z[(i : ℕ)]? = some z[(i : ℕ)] := List.getElem?_eq_getElem (by omega)
    rw [Matrix.mul_apply]
    have hEi : E.getD i 0 = E[i] := getD_get hi
    have hlt := (he2 E[i] (List.getElem_mem _)).2
    have hco : co.getD E[i] [] = co[E[i]] := getD_get hlt
    rw [chanMatrix, hco, hlink E[i] _ (List.getElem?_eq_getElem hlt) Finset.univ (fun k : Fin B.length => z[(i : ℕ)].getD k 0) (fun k => B[k])
      (fun k _ => (hb2 _ (List.getElem_mem _)).2)
      (List.forall₂_same.2 (fun s hs n => by rw [← hEi]; exact hex s hs i _ hci n)) n]
    refine Finset.sum_congr rfl (fun k _ => ?_)
    rw [hZ]
    simp only [chanMatrix]
    rw [List.getD_eq_getElem?_getD (l := z), hci, Option.getD_some]
  have hrows : asRows Z = z.map (fun row => row.map some) := by
    rw [hZ]
    unfold asRows
    refine List.ext_getElem (by simp [hzl]) (fun i h1 h2 => ?_)
    rw [List.getElem_ofFn, List.getElem_map]
    have hi : i < z.length := by simpa using h2
    refine List.ext_getElem (by simp [hz _ (List.getElem_mem hi)]) (fun j h3 h4 => ?_)
    rw [List.getElem_ofFn, List.getElem_map]
    have hj : j < z[i].length := by simpa using h4
    simp only
    rw [List.getD_eq_getElem?_getD (l := z), List.getElem?_eq_getElem hi, Option.getD_some, List.getD_eq_getElem?_getD,
      List.getElem?_eq_getElem hj, Option.getD_some]
  by_cases hreg : RowsIndependent (chanMatrix co R w.1.sum) ∧ RowsIndependent (chanMatrix co B w.1.sum * (chanMatrix co R w.1.sum).conjTranspose)
  · obtain ⟨r', h1, h2⟩ := C94_exact cal S hS freq o ho.weights ho.first ho.prefilter ho.firstPrefilter ho.complex E B R hc co w hf heap
      _ rfl _ rfl Z hrel hreg.1 hreg.2
    rw [h1] at hr
    obtain rfl := Except.ok.inj hr
    exact .inr (h2.trans hrows)
  · rcases (C94_instruments cal S hS freq o ho.weights ho.first ho.prefilter ho.firstPrefilter ho.complex E B R hc co w hf heap
      _ rfl _ rfl _ rfl).2 hreg with ⟨-, r', h1, h2⟩ | ⟨-, x, h1⟩
    · rw [h1] at hr
      obtain rfl := Except.ok.inj hr
      exact .inl (fun row hrow => (h2.1.2 row hrow).2)
    · rw [h1] at hr
      simp at hr

/-- The samples of data recorded in an inventory, in physical units. -/
theorem from_physical [One κ] {cal : κ → ℚ → Option ℂ} {I : List (SigSet ℂ κ)} {K : String → Prop} {P : SigSet ℂ κ} (hP : Reach P)
    (hF : From I K P) {calib : String → ℕ → κ} (hcal : CalibratedBy I calib) (freq : ℚ) {s : Sync ℂ κ} (hs : s ∈ P.runs) {k : String}
    (hk : K k) {v : List ℕ} (hv : P.tags.getItem k = .ok v) {j : ℕ} (hj : j < v.length) {n : ℕ} (hn : n < s.size) :
    ∃ x, RecordedAt I s.rate k j (sampleTime s.rate s.start n) x ∧
      physical cal freq s v[j] n = x / (cal (calib k j) freq).getD 1 := by
  obtain ⟨d, x, c, h1, h2, h3, h4, h5⟩ := valueAt_of hP hs hv hj hn
  refine ⟨x, hF.value s hs k hk j _ x h5, ?_⟩
  obtain ⟨T, hT, t, ht, c', hc', e⟩ := hF.cal s hs k hk j _ h4
  have hcc : c = calib k j := e.trans (hcal T hT t ht k j c' hc')
  have hdd : s.data.getD v[j] [] = d := by rw [List.getD_eq_getElem?_getD, h1, Option.getD_some]
  have hxx : d.getD n 0 = x := by rw [List.getD_eq_getElem?_getD, h2, Option.getD_some]
  unfold physical
  rw [hdd, hxx, h3, hcc]
  rfl

theorem physical_beyond [One κ] {cal : κ → ℚ → Option ℂ} {P : SigSet ℂ κ} (hP : Reach P) (freq : ℚ) {s : Sync ℂ κ} (hs : s ∈ P.runs)
    (i : ℕ) {n : ℕ} (hn : s.size ≤ n) : physical cal freq s i n = 0 := by
  have hw := (reach_sinv hP).ok.wf s hs
  have h0 : (s.data.getD i []).getD n 0 = 0 := by
    rw [List.getD_eq_getElem?_getD, List.getElem?_eq_none, Option.getD_none]
    rw [List.getD_eq_getElem?_getD]
    cases h : s.data[i]? with
    | none => simp
    | some d =>
      rw [Option.getD_some, hw.rect d (List.mem_of_getElem? h)]
      exact hn
  unfold physical
  rw [h0, zero_div]

/-- A relation between recorded fields holds for the samples of data recorded in the inventory. -/
theorem from_relation [One κ] {cal : κ → ℚ → Option ℂ} {I : List (SigSet ℂ κ)} {K : String → Prop} {P : SigSet ℂ κ} (hP : Reach P)
    (hF : From I K P) {calib : String → ℕ → κ} (hcal : CalibratedBy I calib) {freq : ℚ} {ke kb : String} (hke : K ke) (hkb : K kb)
    {E B : List ℕ} (hE : P.tags.getItem ke = .ok E) (hB : P.tags.getItem kb = .ok B) {z : List (List ℂ)} (hzl : z.length = E.length)
    (hex : ∀ (i : ℕ) c, z[i]? = some c → ∀ ρ t y (x : ℕ → ℂ), RecordedAt I ρ ke i t y → (∀ k < B.length, RecordedAt I ρ kb k t (x k)) →
      y / (cal (calib ke i) freq).getD 1 = ∑ k ∈ Finset.range B.length, c.getD k 0 * (x k / (cal (calib kb k) freq).getD 1)) :
    ∀ s ∈ P.runs, ∀ (i : ℕ) c, z[i]? = some c → ∀ n, physical cal freq s (E.getD i 0) n =
      ∑ k : Fin B.length, c.getD k 0 * physical cal freq s B[k] n := by
  intro s hs i c hci n
  have hi : i < E.length := by rw [← hzl]; exact (List.getElem?_eq_some_iff.1 hci).1
  have hEi : E.getD i 0 = E[i] := getD_get hi
  rw [hEi]
  by_cases hn : n < s.size
  · obtain ⟨y, hy, ey⟩ := from_physical (cal := cal) hP hF hcal freq hs hke hE hi hn
    have hx : ∀ k : ℕ, ∃ x, ∀ h : k < B.length, RecordedAt I s.rate kb k (sampleTime s.rate s.start n) x ∧
        physical cal freq s B[k] n = x / (cal (calib kb k) freq).getD 1 := by
      intro k
      by_cases h : k < B.length
      · obtain ⟨x, hx⟩ := from_physical (cal := cal) hP hF hcal freq hs hkb hB h hn
        exact ⟨x, fun _ => hx⟩
      · exact ⟨0, fun h' => absurd h' h⟩
    choose x hx using hx
    rw [ey, hex i c hci s.rate _ y x hy (fun k hk => (hx k hk).1), Finset.sum_range]
    exact Finset.sum_congr rfl (fun k _ => by rw [← (hx k k.2).2]; rfl)
  · rw [physical_beyond hP freq hs _ (by omega)]
    symm
    refine Finset.sum_eq_zero (fun k _ => ?_)
    rw [physical_beyond hP freq hs _ (by omega), mul_zero]

/-- **C115.** Whatever has been recorded in an inventory (as the packed inventory, a group or an interval of it has) where the
electric fields are exact combinations of the magnetic ones: without remote, for all weights and prefilters, and with a remote
for least squares without prefilter, any impedance that is not NaN is exactly `z`. -/
theorem C115_recorded [One κ] (cal : κ → ℚ → Option ℂ) (I : List (SigSet ℂ κ)) (K : String → Prop) (P : SigSet ℂ κ) (hP : Reach P)
    (hF : From I K P) (calib : String → ℕ → κ) (hcal : CalibratedBy I calib) (freq : ℚ) (o : Impedance.Opts σ) (hke : K o.tagElec)
    (hkb : K o.tagMag) (p q : ℕ) (z : List (List ℂ)) (hz : Linked cal I calib freq o.tagElec o.tagMag p q z)
    (ho : o.remote = none ∨ LeastSquares o) (heap : ℕ → σ) (r : Result) (hr : (oneFreq cal P freq o heap).1 = .ok r) :
    OnlyNaN r ∨ r.impedance = z.map (fun row => row.map some) := by
  obtain ⟨E, B, R, hc⟩ := oneFreq_channels hr
  by_cases hne : P.runs = []
  · left
    obtain ⟨x, hx⟩ := (C41_raises_iff cal P freq o.nper o.overlap o.win).2 (.inl hne)
    obtain ⟨r', h1, h2⟩ := C61_fourier_failure cal P freq o E B R hc x hx heap
    rw [h1] at hr
    obtain rfl := Except.ok.inj hr
    exact fun row hrow => (h2.1.2 row hrow).2
  obtain ⟨T, hT, -, v, hv, e1⟩ := hF.count hne _ hke E hc.elec
  have hEp : E.length = p := by rw [← e1]; exact hz.out T hT v hv
  obtain ⟨T', hT', -, v', hv', e2⟩ := hF.count hne _ hkb B hc.mag
  have hBq : B.length = q := by rw [← e2]; exact hz.inp T' hT' v' hv'
  subst hEp hBq
  have hrel := from_relation hP hF hcal hke hkb hc.elec hc.mag hz.rows hz.rel
  cases R with
  | none => exact (C114_impedance cal P hP freq o E B hc z hz.rows hz.columns hrel heap r hr).imp id (fun h => h.1)
  | some R =>
    rcases ho with h0 | h0
    · obtain ⟨-, h1⟩ | ⟨n, l, h1, -⟩ := hc.remote
      · simp at h1
      · rw [h0] at h1
        simp at h1
    · exact C114_remote cal P hP freq o h0 E B R hc z hz.rows hz.columns hrel heap r hr

/-- **C115.** From the recordings to the results of `impedance_mass_proc`: if the electric fields "E" recorded in the inventory
are, at each frequency, exact combinations of the magnetic fields "B", then for all combinations of remotes and all intervals
any impedance that is not NaN has exactly the coefficients of these combinations, for least squares without prefilter; for the
combination without any remote this holds whatever the weights and the prefilter. -/
theorem C115_mass_proc [One κ] (cal : κ → ℚ → Option ℂ) (ord : SetOrder) (inv : Inventory ℂ κ) (hI : ∀ S ∈ inv, Regular S)
    (hsync : Synchronised inv) (hrate : ∀ S ∈ inv, ∀ s ∈ S.runs, s.rate ≤ 10 ^ 7) (calib : String → ℕ → κ)
    (hcal : CalibratedBy inv calib) (names : List String) (freqs : List ℚ) (ivs : List (ℚ × ℚ)) (o : Impedance.Opts σ)
    (hoE : o.tagElec = "E") (hoB : o.tagMag = "B") (combine : Bool) (p q : ℕ) (z : ℚ → List (List ℂ))
    (hz : ∀ f ∈ freqs, Linked cal inv calib f "E" "B" p q (z f)) (heap : ℕ → σ)
    (cs : List (List (Option ℕ))) (rs : List (List (List Result)))
    (h : (massProc cal ord inv names freqs ivs o combine heap).1 = .ok (cs, rs)) :
    List.Forall₂ (fun c rc => (∀ i ∈ c, i = none) ∨ LeastSquares o → List.Forall₂ (fun _ ri => List.Forall₂ (fun f r =>
      OnlyNaN r ∨ r.impedance = (z f).map (fun row => row.map some)) freqs ri) ivs rc) cs rs := by
  refine (C63_process cal ord inv names freqs ivs o combine heap cs rs h).2.imp ?_
  rintro c rc ⟨P, loc, data, hc, hl, hcases⟩ hor
  have hlR := regular_filter hI hl
  have hlF := from_filter hI hl
  -- what holds of an interval of data recorded in the inventory
  have key : ∀ {K : String → Prop} (hK : K "E" ∧ K "B") (hDr : Regular data) (hD : From inv K data) (rem : Option String)
      (hrem : rem = none ∨ LeastSquares o) (iv : ℚ × ℚ) (r : List Result),
      (∃ sub hp, data.extractT iv.1 iv.2 = .ok sub ∧ (impedance cal sub { o with remote := rem } freqs hp).1 = .ok r) →
      List.Forall₂ (fun f r => OnlyNaN r ∨ r.impedance = (z f).map (fun row => row.map some)) freqs r := by
    rintro K hK hDr hD rem hrem iv r ⟨sub, hp, h1, h2⟩
    obtain ⟨hsr, hsF⟩ := from_extract hDr h1
    have hF : From inv K sub := (hsF.weaken (fun _ _ => trivial)).trans (by
      intro T hT
      rw [List.mem_singleton] at hT
      subst hT
      exact hD)
    refine forall₂_mem (C59_each cal sub _ freqs hp r h2).1 ?_
    rintro f r hf ⟨hp', h3⟩
    refine C115_recorded cal inv K sub hsr hF calib hcal f { o with remote := rem } (by simpa [hoE] using hK.1) (by simpa [hoB] using hK.2)
      p q (z f) (by simpa [hoE, hoB] using hz f hf) ?_ hp' r h3
    rcases hrem with h | h
    · exact .inl h
    · exact .inr ⟨h.weights, h.first, h.prefilter, h.firstPrefilter, h.complex⟩
  rcases hcases with ⟨-, h1, h2⟩ | ⟨hsel, g, hg, h1, h2⟩
  · have hD := (from_pack hlR (Spec.From.sync hlF hsync) (Spec.From.rates hlF hrate) h1).trans hlF
    exact h2.imp (fun iv r => key ⟨trivial, trivial⟩ (regular_packAll hlR h1) hD none (.inl rfl) iv r)
  · have hls : LeastSquares o := by
      rcases hor with h | h
      · exfalso
        refine hsel ?_
        unfold selected
        rw [List.map_eq_nil_iff, List.filter_eq_nil_iff]
        rintro ⟨n, i⟩ hm hPi
        have hi : i < names.length := by
          have := (List.mem_zipIdx hm).2.1
          omega
        have := h (some i) (by rw [hc, List.mem_map]; exact ⟨i, by simpa using hi, by simp only at hPi; rw [if_pos hPi]⟩)
        simp at this
      · exact h
    have hgF := from_group hI hsync hrate hg
    have hall : ∀ T ∈ loc ++ g, From inv (fun k => k ≠ "Bremote") T := by
      intro T hT
      rcases List.mem_append.1 hT with h | h
      · exact (hlF T h).weaken (fun _ _ => trivial)
      · exact hgF T h
    have hreg : ∀ T ∈ loc ++ g, Regular T := by
      intro T hT
      rcases List.mem_append.1 hT with h | h
      · exact hlR T h
      · unfold Inventory.extractGroups at hg
        split at hg
        · simp at hg
        rename_i l hl'
        rw [Inventory.new_set] at hg
        obtain rfl := Except.ok.inj hg
        obtain ⟨x, hx, e⟩ := mapE_ok_exists hl' T h
        rw [List.mem_singleton] at hx
        subst hx
        exact regular_groupOf hI (by simp [reserved]) e
    have hD := ((from_pack hreg (Spec.From.sync hall hsync) (Spec.From.rates hall hrate) h1).weaken (fun _ _ => trivial)).trans hall
    exact h2.imp (fun iv r => key ⟨by decide, by decide⟩ (regular_packAll hreg h1) hD (some "Bremote") (.inr hls) iv r)

/-! A concrete case: a site with an electric and a magnetic channel, and a remote. -/

local instance instOneMass : One Unit := ⟨()⟩

noncomputable def exNear : SigSet ℂ Unit :=
  ⟨[⟨[exImpulses 8 4, exImpulses 4 2], [(), ()], 1, 0, 8⟩], ⟨2, [("E", [0]), ("B", [1])]⟩⟩
noncomputable def exFar : SigSet ℂ Unit := ⟨[⟨[exImpulses 1 1], [()], 1, 0, 8⟩], ⟨1, [("R", [0])]⟩⟩

theorem exNear_regular : ∀ S ∈ [exNear, exFar], Regular S := by
  intro S hS
  simp only [List.mem_cons, List.not_mem_nil, or_false] at hS
  rcases hS with rfl | rfl
  · refine ⟨Reach.new (.dict [("E", .int 0), ("B", .int 1)]) [.sync ⟨[exImpulses 8 4, exImpulses 4 2], [(), ()], 1, 0, 8⟩] ?_ (by simp)
      (by with_unfolding_all rfl), ?_, ?_, ?_⟩
    · intro s hs; simp at hs; subst hs; exact ⟨by simp, by simp, by simp [exImpulses]⟩
    · intro k hk; simp [reserved] at hk; rcases hk with rfl|rfl|rfl|rfl|rfl <;> rfl
    · intro r hr; simp [exNear] at hr; subst hr; norm_num
    · intro r hr; simp [exNear] at hr; subst hr; norm_num
  · refine ⟨Reach.new (.dict [("R", .int 0)]) [.sync ⟨[exImpulses 1 1], [()], 1, 0, 8⟩] ?_ (by simp)
      (by with_unfolding_all rfl), ?_, ?_, ?_⟩
    · intro s hs; simp at hs; subst hs; exact ⟨by simp, by simp, by simp [exImpulses]⟩
    · intro k hk; simp [reserved] at hk; rcases hk with rfl|rfl|rfl|rfl|rfl <;> rfl
    · intro r hr; simp [exFar] at hr; subst hr; norm_num
    · intro r hr; simp [exFar] at hr; subst hr; norm_num

theorem exNear_local : Inventory.filter ⟨id, id⟩ [exNear, exFar] ["E", "B"] = .ok [exNear] := by
  have hn : Inventory.setOf ⟨id, id⟩ (Inventory.names [exNear, exFar]) = ["E", "B", "R"] := by with_unfolding_all rfl
  have hE : Fnmatch.filter ["E", "B", "R"] "E" = ["E"] := by
    simp [Fnmatch.filter, Fnmatch.fnmatch, Fnmatch.tokens, Fnmatch.matchToks, Fnmatch.Tok.one]
  have hB : Fnmatch.filter ["E", "B", "R"] "B" = ["B"] := by
    simp [Fnmatch.filter, Fnmatch.fnmatch, Fnmatch.tokens, Fnmatch.matchToks, Fnmatch.Tok.one]
  unfold Inventory.filter
  simp only [List.flatMap_cons, List.flatMap_nil, hn, hE, hB]
  with_unfolding_all rfl

/-- The site with the remote under its new name. -/
noncomputable def exBoth : SigSet ℂ Unit :=
  ⟨[⟨[exImpulses 8 4, exImpulses 4 2, exImpulses 1 1], [(), (), ()], 1, 0, 8⟩],
    ⟨3, [("E", [0]), ("B", [1]), ("R", [2]), ("Bremote", [2])]⟩⟩

theorem exNear_data : massData ⟨id, id⟩ [exNear, exFar] [] exOpts = .ok (exNear, { exOpts with remote := none }) := by
  have hp : Inventory.pack ⟨id, id⟩ [exNear] = .ok exNear := by with_unfolding_all rfl
  unfold massData
  rw [exNear_local]
  simp only [List.isEmpty_nil, if_true, hp]

theorem exBoth_data : massData ⟨id, id⟩ [exNear, exFar] ["R"] exOpts = .ok (exBoth, { exOpts with remote := some "Bremote" }) := by
  have hn : Inventory.setOf ⟨id, id⟩ (Inventory.names [exNear, exFar]) = ["E", "B", "R"] := by with_unfolding_all rfl
  have hR : Fnmatch.filter ["E", "B", "R"] "R" = ["R"] := by
    simp [Fnmatch.filter, Fnmatch.fnmatch, Fnmatch.tokens, Fnmatch.matchToks, Fnmatch.Tok.one]
  have hf : Inventory.filter ⟨id, id⟩ [exNear, exFar] ["R"] = .ok [exFar] := by
    unfold Inventory.filter
    simp only [List.flatMap_cons, List.flatMap_nil, hn, hR]
    with_unfolding_all rfl
  have hp : Inventory.pack ⟨id, id⟩ [exFar] = .ok exFar := by with_unfolding_all rfl
  have hg : Inventory.extractGroups ⟨id, id⟩ [exNear, exFar] [("Bremote", ["R"])] =
      .ok [⟨exFar.runs, ⟨1, [("R", [0]), ("Bremote", [0])]⟩⟩] := by
    simp only [Inventory.extractGroups, mapE, Inventory.groupOf, hf, hp]
    with_unfolding_all rfl
  have hp2 : Inventory.pack ⟨id, id⟩ ([exNear] ++ [⟨exFar.runs, ⟨1, [("R", [0]), ("Bremote", [0])]⟩⟩]) = .ok exBoth := by
    with_unfolding_all rfl
  unfold massData
  rw [exNear_local]
  simp only [hg, hp2]
  rfl

theorem exImpulses_coeffs (l : List (ℂ × ℂ)) (hl : l ≠ []) (t : Tags) :
    setCoeffs (fun _ _ => some 1) ⟨[⟨l.map (fun p => exImpulses p.1 p.2), l.map (fun _ => ()), 1, 0, 8⟩], t⟩ (1 / 4) 1 0 .none =
      .ok (l.map (fun p => [p.1 / 2, p.2 / 2]), ([2], [4], [4])) := by
  obtain ⟨r, h⟩ := timeToFreq_of (data := l.map (fun p => exImpulses p.1 p.2)) (fs := 1)
    (freq := 1 / 4) (nper := 1) (overlap := 0) (N := 8) (win := .none) (n := 1) (L := 4) (s := 4) (by simpa using hl)
    (by
      intro y hy
      obtain ⟨p, -, rfl⟩ := List.mem_map.1 hy
      rfl) (by decide +kernel) (by simp [Win.eval])
  obtain ⟨N, -, -, -, -, hr⟩ := timeToFreq_ok h
  have ht0 : ∀ u v : ℂ, fourierAt (1 / 4 / 1) 4 (Win.eval .none 4) (exImpulses u v) (0 * 4) = u / 2 := by
    intro u v
    simp [fourierAt, exImpulses, Win.eval, winAt, Finset.sum_range_succ]
    ring
  have ht1 : ∀ u v : ℂ, fourierAt (1 / 4 / 1) 4 (Win.eval .none 4) (exImpulses u v) (1 * 4) = v / 2 := by
    intro u v
    simp [fourierAt, exImpulses, Win.eval, winAt, Finset.sum_range_succ]
    ring
  have hr : r = l.map (fun p => [p.1 / 2, p.2 / 2]) := by
    rw [hr]
    have e : List.range (1 + 1) = [0, 1] := rfl
    simp only [e, List.map_cons, List.map_nil, List.map_map, Function.comp_def, ht0, ht1]
  subst hr
  unfold setCoeffs
  have hm : mapE (fun s => syncCoeffs (fun (_ : Unit) (_ : ℚ) => some 1) s (1/4) 1 0 .none)
      [⟨l.map (fun p => exImpulses p.1 p.2), l.map (fun _ => ()), 1, 0, 8⟩] = .ok [(l.map (fun p => [p.1 / 2, p.2 / 2]), 2, 4, 4)] := by
    refine mapE_ok.2 (.cons (syncCoeffs_ok.2 ⟨by simp, _, h, ?_⟩) .nil)
    clear h hr hl
    induction l with
    | nil => rfl
    | cons p l ih =>
      simp only [List.map_cons, List.zipWith_cons_cons, ← ih, List.cons.injEq, and_true]
      simp
  rw [hm]
  simp only [zipStar, List.map_cons, List.map_nil, List.foldl_nil, List.length_map]
  congr 2
  refine List.ext_getElem (by simp) ?_
  intro i h1 h2
  simp only [List.length_map, List.length_range] at h1
  simp [List.getElem?_eq_getElem, h1]

theorem exBoth_reach : Reach exBoth := by
  refine Reach.new (.dict [("E", .int 0), ("B", .int 1), ("R", .int 2), ("Bremote", .int 2)])
    [.sync ⟨[exImpulses 8 4, exImpulses 4 2, exImpulses 1 1], [(), (), ()], 1, 0, 8⟩] ?_ (by simp) ?_
  · simp only [List.mem_singleton, SigArg.sync.injEq, forall_eq]
    exact ⟨by simp, by simp, by simp [exImpulses]⟩
  · with_unfolding_all rfl

theorem exNear_one : ∃ r, oneFreq (fun _ _ => some 1) exNear (1 / 4) { exOpts with remote := none } (fun _ => ()) = (.ok r, fun _ => ()) ∧
    r.impedance = [[some 2]] := by
  have hf := exImpulses_coeffs [(8, 4), (4, 2)] (by simp) exNear.tags
  exact C62_local_exact (fun _ _ => some 1) exNear (exNear_regular _ (by simp)).1 (1 / 4) { exOpts with remote := none } rfl rfl [0] [1]
    ⟨rfl, rfl, .inl ⟨.inl rfl, rfl⟩⟩ _ _ hf [[8 / 2, 4 / 2]] [[4 / 2, 2 / 2]] (by simp [Picked]) (by simp [Picked]) [[]] (by simp [Rejects, exOpts]) (by simp) [[2]] rfl
    (by simp) (by
      intro l _ t ht h x hx
      match t, ht with
      | [a], _ =>
        have := h 0 (by simp) (by simp_all)
        simp [combine] at this hx
        rw [hx, this]) (by
      intro i y c l hy hc hl n hn _
      match i with
      | 0 =>
        simp only [List.getElem?_cons_zero, Option.some.injEq] at hy hc
        subst hy hc
        simp only [List.sum_cons, List.sum_nil] at hn
        match n with
        | 0 => simp [combine]; norm_num
        | 1 => simp [combine]; norm_num
      | i + 1 => simp at hy) _

theorem exBoth_one : ∃ r, oneFreq (fun _ _ => some 1) exBoth (1 / 4) { exOpts with remote := some "Bremote" } (fun _ => ()) = (.ok r, fun _ => ()) ∧
    r.impedance = [[some 2]] := by
  have hf := exImpulses_coeffs [(8, 4), (4, 2), (1, 1)] (by simp) exBoth.tags
  have hE : (chanMatrix [[8 / 2, 4 / 2], [4 / 2, 2 / 2], [1 / 2, 1 / 2]] [0] 2 : Matrix (Fin 1) (Fin 2) ℂ) =
      (!![2] : Matrix (Fin 1) (Fin 1) ℂ) * (!![2, 1] : Matrix (Fin 1) (Fin 2) ℂ) := by
    ext i n
    fin_cases i; fin_cases n <;> simp [chanMatrix, Matrix.mul_apply] <;> norm_num
  have hB : (chanMatrix [[8 / 2, 4 / 2], [4 / 2, 2 / 2], [1 / 2, 1 / 2]] [1] 2 : Matrix (Fin 1) (Fin 2) ℂ) = !![2, 1] := by
    ext i n
    fin_cases i; fin_cases n <;> simp [chanMatrix] <;> norm_num
  have hR : (chanMatrix [[8 / 2, 4 / 2], [4 / 2, 2 / 2], [1 / 2, 1 / 2]] [2] 2 : Matrix (Fin 1) (Fin 2) ℂ) = !![1 / 2, 1 / 2] := by
    ext i n
    fin_cases i; fin_cases n <;> simp [chanMatrix]
  have hRi : RowsIndependent (!![1 / 2, 1 / 2] : Matrix (Fin 1) (Fin 2) ℂ) := by
    intro v hv
    have := congrFun hv 0
    funext i
    rw [Subsingleton.elim i 0]
    simpa [Matrix.vecMul, dotProduct] using this
  obtain ⟨res, h1, h2⟩ := C94_exact (fun _ _ => some 1) exBoth exBoth_reach (1 / 4) { exOpts with remote := some "Bremote" } rfl rfl rfl rfl rfl
    [0] [1] [2] ⟨rfl, rfl, .inr ⟨"Bremote", [2], rfl, by decide, rfl, rfl⟩⟩ _ _ hf (fun _ => ()) !![2, 1] hB.symm !![1 / 2, 1 / 2] hR.symm
    !![2] hE hRi
    (exNoise_rows (a := 3 / 2) (by norm_num) (by
      have : (starRingEnd ℂ) 2 = 2 := Complex.conj_ofNat 2
      simp [Matrix.mul_apply, Fin.sum_univ_two, this]; norm_num))
  exact ⟨res, h1, by rw [h2]; rfl⟩

theorem impedance_one {κ σ : Type} [One κ] {cal : κ → ℚ → Option ℂ} {S : SigSet ℂ κ} {o : Impedance.Opts σ} {f : ℚ} {heap : ℕ → σ} {r : Result}
    (h : oneFreq cal S f o heap = (.ok r, heap)) : impedance cal S o [f] heap = (.ok [r], heap) := by
  simp [impedance, eachFreq, h, stack]

/-- Both combinations, without the remote and with it, give the impedance 2. -/
theorem exMass : ∃ r r', (massProc (fun _ _ => some 1) ⟨id, id⟩ [exNear, exFar] ["R"] [1 / 4] [(0, 7)] exOpts true (fun _ => ())).1 =
    .ok ([[none], [some 0]], [[[r]], [[r']]]) ∧ r.impedance = [[some 2]] ∧ r'.impedance = [[some 2]] := by
  obtain ⟨r, h1, h2⟩ := exNear_one
  obtain ⟨r', h3, h4⟩ := exBoth_one
  refine ⟨r, r', ?_, h2, h4⟩
  have hc : combinations 1 true = [[none], [some 0]] := rfl
  have e1 : exNear.extractT 0 7 = .ok exNear := by with_unfolding_all rfl
  have e2 : exBoth.extractT 0 7 = .ok exBoth := by with_unfolding_all rfl
  have t1 : remoteTags ["R"] [none] = [] := rfl
  have t2 : remoteTags ["R"] [some 0] = ["R"] := rfl
  simp only [massProc, List.length_singleton, hc, massLoop, t1, t2, exNear_data, exBoth_data, massIntervals, e1, e2, impedance_one h1,
    impedance_one h3]

/-- The hypotheses of the claim hold of these recordings. -/
example : (∀ S ∈ [exNear, exFar], Regular S) ∧ Synchronised [exNear, exFar] ∧ (∀ S ∈ [exNear, exFar], ∀ s ∈ S.runs, s.rate ≤ 10 ^ 7) ∧
    CalibratedBy [exNear, exFar] (fun _ _ => ()) ∧
    Linked (fun _ _ => some 1) [exNear, exFar] (fun _ _ => ()) (1 / 4) "E" "B" 1 1 [[2]] ∧ LeastSquares exOpts := by
  refine ⟨exNear_regular, ?_, ?_, fun _ _ _ _ _ _ _ _ => rfl, ⟨rfl, by simp, ?_, ?_, ?_⟩, ⟨rfl, rfl, rfl, rfl, rfl⟩⟩
  · intro S hS s hs S' hS' s' hs' _
    simp only [List.mem_cons, List.not_mem_nil, or_false] at hS hS'
    rcases hS with rfl | rfl <;> rcases hS' with rfl | rfl <;> simp [exNear, exFar] at hs hs' <;> subst hs hs' <;> exact ⟨0, by simp⟩
  · intro S hS s hs
    simp only [List.mem_cons, List.not_mem_nil, or_false] at hS
    rcases hS with rfl | rfl <;> simp [exNear, exFar] at hs <;> subst hs <;> norm_num
  · intro S hS v hv
    simp only [List.mem_cons, List.not_mem_nil, or_false] at hS
    rcases hS with rfl | rfl
    · obtain rfl := Except.ok.inj (hv.symm.trans (show exNear.tags.getItem "E" = .ok [0] from rfl)); rfl
    · have : exFar.tags.getItem "E" = .error .key := rfl
      simp [this] at hv
  · intro S hS v hv
    simp only [List.mem_cons, List.not_mem_nil, or_false] at hS
    rcases hS with rfl | rfl
    · obtain rfl := Except.ok.inj (hv.symm.trans (show exNear.tags.getItem "B" = .ok [1] from rfl)); rfl
    · have : exFar.tags.getItem "B" = .error .key := rfl
      simp [this] at hv
  · intro i c hi ρ t y x hE hB
    have key : ∀ k j t v, (k = "E" ∨ k = "B") → RecordedAt [exNear, exFar] ρ k j t v → ∃ c, designated exNear.tags
        ⟨[exImpulses 8 4, exImpulses 4 2], [(), ()], 1, 0, 8⟩ k j = some c ∧ (t, v) ∈ c.1 := by
      rintro k j t v hk ⟨S, hS, s, hs, -, c, hd, hc⟩
      simp only [List.mem_cons, List.not_mem_nil, or_false] at hS
      rcases hS with rfl | rfl
      · simp only [exNear, List.mem_singleton] at hs
        subst hs
        exact ⟨c, hd, hc⟩
      · have : exFar.tags.getItem k = .error .key := by rcases hk with rfl | rfl <;> rfl
        simp [designated, this] at hd
    match i with
    | 0 =>
      simp only [List.getElem?_cons_zero, Option.some.injEq] at hi
      subst hi
      obtain ⟨c1, h1, h2⟩ := key _ _ _ _ (.inl rfl) hE
      obtain ⟨c2, h3, h4⟩ := key _ _ _ _ (.inr rfl) (hB 0 (by decide))
      have e1 : designated exNear.tags ⟨[exImpulses 8 4, exImpulses 4 2], [(), ()], 1, 0, 8⟩ "E" 0 = some
          ([(0, 8), (1, 0), (2, 0), (3, 0), (4, 4), (5, 0), (6, 0), (7, 0)], ()) := by with_unfolding_all rfl
      have e2 : designated exNear.tags ⟨[exImpulses 8 4, exImpulses 4 2], [(), ()], 1, 0, 8⟩ "B" 0 = some
          ([(0, 4), (1, 0), (2, 0), (3, 0), (4, 2), (5, 0), (6, 0), (7, 0)], ()) := by with_unfolding_all rfl
      rw [e1] at h1
      rw [e2] at h3
      obtain rfl := Option.some.inj h1
      obtain rfl := Option.some.inj h3
      simp only [List.mem_cons, Prod.mk.injEq, List.not_mem_nil, or_false] at h2 h4
      simp only [Finset.sum_range_one, Option.getD_some, div_one, List.getD_cons_zero]
      rcases h2 with ⟨rfl, rfl⟩ | ⟨rfl, rfl⟩ | ⟨rfl, rfl⟩ | ⟨rfl, rfl⟩ | ⟨rfl, rfl⟩ | ⟨rfl, rfl⟩ | ⟨rfl, rfl⟩ | ⟨rfl, rfl⟩ <;>
        norm_num at h4 <;> rw [h4] <;> norm_num
    | i + 1 => simp at hi

end Razorback.Props
