/-
Every channel of a packed set has a name (used by C109).
-/
import Verif.Props.PackSingle
import Verif.Props.Laws
import Verif.Props.MergeLaws
import Verif.Props.SameFor

namespace Razorback.Props
open Razorback Razorback.SigSet Razorback.Spec
variable {α κ : Type _}

/-- Every channel of every run has a name. -/
def Named (S : SigSet α κ) : Prop := ∀ r ∈ S.runs, AllTagged S.tags r.data.length

theorem named_selectIn [One κ] {S T : SigSet α κ} (hS : Regular S) {keys : List String}
    (h : Inventory.selectIn keys S = .ok (some T)) : Named T ∧ (S.runs ≠ [] → T.runs ≠ []) := by
  have hI := reach_sinv hS.reach
  have hp := hS.plain
  have hn := nbChannels_tags hI hp
  unfold Inventory.selectIn at h
  split at h
  · simp at h
  rename_i l hl
  split at h
  · simp at h
  rename_i hne
  split at h
  · simp at h
  rename_i R hR
  simp only [Except.ok.injEq, Option.some.injEq] at h
  subst h
  have hmem : ∀ i, i ∈ l.flatten ↔ ∃ k ∈ keys, ∃ v, S.tags.getItem k = .ok v ∧ i ∈ v := by
    intro i
    rw [List.mem_flatten]
    constructor
    · rintro ⟨v, hv, hi⟩
      obtain ⟨k, hk, e⟩ := mapE_ok_exists hl v hv
      unfold Inventory.tagGet at e
      split at e
      · simp at e
      simp only [Except.ok.injEq] at e
      cases hg : S.tags.tags.get? k with
      | none => rw [hg] at e; subst e; simp at hi
      | some w => rw [hg] at e; subst e; exact ⟨k, hk, w, Tags.getItem_ok.2 hg, hi⟩
    · rintro ⟨k, hk, v, hv, hi⟩
      obtain ⟨w, hw, e⟩ := mapE_ok_forall hl k hk
      unfold Inventory.tagGet at e
      split at e
      · simp at e
      rw [Tags.getItem_ok.1 hv] at e
      simp only [Option.getD_some, Except.ok.injEq] at e
      exact ⟨w, hw, e ▸ hi⟩
  have hlt : ∀ i ∈ l.flatten, i < S.tags.n := by
    intro i hi
    obtain ⟨k, _, v, hv, hiv⟩ := (hmem i).1 hi
    exact (hI.inv.legal k v (Tags.getItem_ok.1 hv)).2.2 i hiv
  have hk : SelKnown S.tags S.tags.n (.many ((dedup l.flatten).map (fun i : Nat => .idx (i : Int)))) := by
    intro c hc
    obtain ⟨i, hi, rfl⟩ := List.mem_map.1 hc
    rw [mem_dedup] at hi
    have := hlt i hi
    exact ⟨by omega, by omega⟩
  have hdes : ∀ i, SelDesig S.tags S.tags.n (.many ((dedup l.flatten).map (fun i : Nat => .idx (i : Int)))) i ↔ i ∈ l.flatten := by
    intro i
    simp only [SelDesig, List.mem_map]
    constructor
    · rintro ⟨c, ⟨j, hj, rfl⟩, hc⟩
      rw [mem_dedup] at hj
      simp only [Desig, Nat.cast_inj] at hc
      exact hc ▸ hj
    · intro hi
      exact ⟨_, ⟨i, mem_dedup.2 hi, rfl⟩, rfl⟩
  obtain ⟨idx, h1, h2, h3, h4⟩ := chanIndices_ok hI.inv hp hk
  have hnn : idx ≠ [] := by
    intro h0
    apply hne
    rw [List.isEmpty_iff, List.eq_nil_iff_forall_not_mem]
    intro i hi
    have := (h3 i).2 ((hdes i).2 hi)
    rw [h0] at this
    simp at this
  obtain ⟨m, h5, h6⟩ := selectChannels_eq hI hp (idx := idx) (by rw [hn]; exact h1) (by rw [hn]; exact h4) (fun _ => hnn)
  rw [hR] at h5
  simp only [Except.ok.injEq] at h5
  subst h5
  refine ⟨?_, fun hr => by simpa using hr⟩
  intro r hr c hc
  obtain ⟨s, hs, rfl⟩ := List.mem_map.1 hr
  have hlen : (Sync.sel idx s).data.length = idx.length := by
    change (pick s.data idx).length = _
    rw [pick_length]
    intro i hi
    rw [← hI.n s hs]; exact h4 i hi
  rw [hlen] at hc
  have hi : idx[c] ∈ idx := List.getElem_mem hc
  obtain ⟨k, hk', v, hv, hiv⟩ := (hmem _).1 ((hdes _).1 ((h3 _).1 hi))
  have hsub : ∀ i ∈ v, i ∈ idx := fun i hi => (h3 i).2 ((hdes i).2 ((hmem i).2 ⟨k, hk', v, hv, hi⟩))
  refine ⟨k, v.map (fun i => idx.idxOf i), Tags.getItem_ok.2 ((get?_tagsSel hI.inv).2 ⟨v, Tags.getItem_ok.1 hv, hsub, rfl⟩), ?_⟩
  refine List.mem_map.2 ⟨_, hiv, ?_⟩
  exact List.Nodup.idxOf_getElem (h2.imp (fun h => by omega)) c hc

theorem named_select [One κ] {I J : Inventory α κ} (hI : ∀ S ∈ I, Regular S) {keys : List String}
    (h : I.selectChannels keys = .ok J) : ∀ T ∈ J, Named T ∧ ((∀ S ∈ I, S.runs ≠ []) → T.runs ≠ []) := by
  unfold Inventory.selectChannels at h
  split at h
  · simp at h
  rename_i l hl
  rw [Inventory.new_set] at h
  simp only [Except.ok.injEq] at h
  subst h
  intro T hT
  obtain ⟨o, ho, e⟩ := List.mem_filterMap.1 hT
  have e : o = some T := e
  subst e
  obtain ⟨S, hS, hs⟩ := mapE_ok_exists hl _ ho
  obtain ⟨h1, h2⟩ := named_selectIn (hI S hS) hs
  exact ⟨h1, fun h => h2 (h S hS)⟩

theorem named_joinAll [One κ] {l : List (SigSet α κ)} (hl : ∀ S ∈ l, Regular S) (hn : ∀ S ∈ l, Named S ∧ S.runs ≠ []) {R : SigSet α κ}
    (h : Inventory.joinAll l = .ok R) : Named R := by
  cases l with
  | nil => simp [Inventory.joinAll] at h
  | cons S l =>
    have hr := (regular_joinAll hl h).1
    have ht := (regular_joinAll hl h).2.2.1 S (by simp)
    have hS := hl S (by simp)
    obtain ⟨h1, h2⟩ := hn S (by simp)
    have hc := join_nbChannels hS.reach hS.plain h2 hr.reach h
    intro r hr' c hc'
    rw [← nbChannels_eq (reach_sinv hr.reach) hr', hc] at hc'
    obtain ⟨s, hs⟩ := List.exists_mem_of_ne_nil _ h2
    rw [nbChannels_eq (reach_sinv hS.reach) hs] at hc'
    obtain ⟨k, v, hv, hm⟩ := h1 s hs c hc'
    exact ⟨k, v, by rw [ht k]; exact hv, hm⟩

theorem named_merge [One κ] {S R : SigSet α κ} {others : List (SigSet α κ)} (hR : ∀ T ∈ S :: others, Regular T)
    (hn : ∀ T ∈ S :: others, Named T) (h : S.merge others = .ok R) : Named R := by
  have hR1 := fun T hT => (hR T hT).reach
  have hp1 := fun T hT => (hR T hT).plain
  have hr1 := fun T hT => (hR T hT).rate
  have hI : ∀ T ∈ S :: others, SInv T := fun T hT => reach_sinv (hR1 T hT)
  obtain ⟨-, -, q3, q4⟩ := merge_runs hR1 hp1 hr1 h
  have hIR := merge_sinv h
  obtain ⟨-, -, -, -, -, hnb⟩ := group_facts (Cs := []) (A := S) (Bs := others) (M := R) (by simpa using hR1) (by simpa using hp1)
    (by simpa using hr1) h
  intro r hr c hc
  obtain ⟨c0, b, hc0, -⟩ := merge_sources hR1 hp1 hr1 h r hr
  rw [← nbChannels_eq hIR hr, hnb (List.ne_nil_of_mem hr)] at hc
  have hnd : (mergedEntries 0 (S :: others)).keys.Nodup := by
    rw [mergedEntries_keys]; exact (namesDisjoint_iff hI).2 q4
  have key : ∀ (l : List (SigSet α κ)) (c0 : List (Sync α κ)) (m : ℕ), Choice c0 l → (∀ T ∈ l, SInv T) → (∀ T ∈ l, Named T) →
      ∀ c < (l.map nbChannels).sum, ∃ k w, (k, w) ∈ mergedEntries m l ∧ c + m ∈ w := by
    intro l c0 m hc0 hI hn
    unfold Choice at hc0
    induction hc0 generalizing m with
    | nil => simp
    | @cons s T c0 l h1 h2 ih =>
      intro c hc
      rw [List.map_cons, List.sum_cons] at hc
      by_cases hlt : c < T.nbChannels
      · rw [nbChannels_eq (hI T (by simp)) h1] at hlt
        obtain ⟨k, v, hv, hm⟩ := hn T (by simp) s h1 c hlt
        refine ⟨k, v.map (· + m), ?_, List.mem_map.2 ⟨c, hm, rfl⟩⟩
        rw [mergedEntries, List.mem_append]
        exact .inl (List.mem_map.2 ⟨(k, v), Dict.mem_of_get? (Tags.getItem_ok.1 hv), rfl⟩)
      · obtain ⟨k, w, hw, hm⟩ := ih (m + T.nbChannels) (fun T hT => hI T (by simp [hT])) (fun T hT => hn T (by simp [hT]))
          (c - T.nbChannels) (by omega)
        refine ⟨k, w, ?_, by rw [show c + m = c - T.nbChannels + (m + T.nbChannels) from by omega]; exact hm⟩
        rw [mergedEntries, List.mem_append]
        exact .inr hw
  obtain ⟨k, w, hw, hm⟩ := key _ c0 0 hc0 hI hn c hc
  exact ⟨k, w, Tags.getItem_ok.2 (by rw [q3]; exact Dict.get?_of_mem hnd hw), hm⟩

theorem named_fuse [One κ] {M R : SigSet α κ} (hM : Regular M) (hn : Named M) (h : M.mergeConsecutive = .ok R) : Named R := by
  have hI := reach_sinv hM.reach
  obtain ⟨h1, h2, -⟩ := mergeConsecutive_ok hI hM.plain (Inventory.regular_starts hM) h
  intro r hr c hc
  rw [h1] at hr
  obtain ⟨-, h3, -⟩ := glued_wf hI r hr
  obtain ⟨g, hg, hgr, hne, hsub⟩ := mem_glued hr
  obtain ⟨s, hs⟩ := List.exists_mem_of_ne_nil _ hne
  have hs := hsub s hs
  rw [h3, hI.n s hs] at hc
  obtain ⟨k, v, hv, hm⟩ := hn s hs c hc
  exact ⟨k, v, Tags.getItem_ok.2 (by rw [h2]; exact Tags.getItem_ok.1 hv), hm⟩

theorem named_joinMerge [One κ] {o : SetOrder} {I : Inventory α κ} (hI : ∀ S ∈ I, Regular S) (hne : ∀ S ∈ I, S.runs ≠ [])
    {R : SigSet α κ} (h : I.joinMerge o = .ok R) : Named R := by
  unfold Inventory.joinMerge at h
  split at h
  · rw [Inventory.new_empty] at h
    simp only [Except.ok.injEq] at h
    subst h
    intro r hr
    simp at hr
  split at h
  · simp at h
  · simp at h
  · rename_i S hl
    simp only [Except.ok.injEq] at h
    subst h
    obtain ⟨g, _, hg⟩ := mapE_ok_exists hl S (by simp)
    unfold Inventory.groupSet at hg
    split at hg
    · simp at hg
    rename_i J hJ
    exact named_joinAll (fun T hT => (Inventory.regular_select hI hJ T hT).1)
      (fun T hT => ⟨(named_select hI hJ T hT).1, (named_select hI hJ T hT).2 hne⟩) hg
  · rename_i S others _ hl
    refine named_merge ?_ ?_ h
    · intro T hT
      obtain ⟨g, _, hg⟩ := mapE_ok_exists hl T hT
      exact (Inventory.regular_groupSet hI hg).1
    · intro T hT
      obtain ⟨g, _, hg⟩ := mapE_ok_exists hl T hT
      unfold Inventory.groupSet at hg
      split at hg
      · simp at hg
      rename_i J hJ
      exact named_joinAll (fun T hT => (Inventory.regular_select hI hJ T hT).1)
        (fun T hT => ⟨(named_select hI hJ T hT).1, (named_select hI hJ T hT).2 hne⟩) hg

theorem named_packAll [One κ] {o : SetOrder} {I : Inventory α κ} (hI : ∀ S ∈ I, Regular S) {R : SigSet α κ} (h : I.packAll o = .ok R) :
    Named R ∧ Reach R := by
  unfold Inventory.packAll at h
  split at h
  · simp at h
  rename_i sigs hsigs
  have hreg : ∀ T ∈ sigs, Regular T ∧ Named T := by
    intro T hT
    obtain ⟨f, _, e⟩ := mapE_ok_exists hsigs T hT
    refine ⟨(Inventory.regular_rateSet hI e).1, ?_⟩
    unfold Inventory.rateSet at e
    split at e
    · simp at e
    rename_i J hJ
    have hJ' := hJ
    unfold Inventory.selectRuns at hJ
    rw [if_neg (by simp)] at hJ
    split at hJ
    · simp at hJ
    rename_i l hl
    rw [Inventory.new_set] at hJ
    simp only [Except.ok.injEq] at hJ
    refine named_joinMerge (o := o) ?_ ?_ e
    · intro S hS
      rw [← hJ, List.mem_filter] at hS
      obtain ⟨⟨S0, m⟩, hm, hs⟩ := mapE_ok_exists hl S hS.1
      have h0 := (List.of_mem_zip hm)
      obtain ⟨S1, _, rfl⟩ := List.mem_map.1 h0.2
      exact (regular_selectRuns (hI S0 h0.1) hs).1
    · intro S hS
      rw [← hJ, List.mem_filter] at hS
      simpa using hS.2
  split at h
  · rename_i hf
    rw [Inventory.new_empty] at h
    simp only [Except.ok.injEq] at h
    subst h
    refine ⟨?_, .new (.dict []) [] (by simp) (by simp) Inventory.new_empty⟩
    intro r hr
    simp at hr
  · rename_i S Ts hf
    split at h
    · simp at h
    rename_i M hM
    have hmem : ∀ T ∈ S :: Ts, (Regular T ∧ Named T) ∧ T.runs ≠ [] := by
      intro T hT
      rw [← hf, List.mem_filter] at hT
      refine ⟨hreg T hT.1, ?_⟩
      have := hT.2
      simp only [Bool.and_eq_true, Bool.not_eq_true', List.isEmpty_eq_false_iff] at this
      exact this.1
    have hMr := (regular_joinAll (l := S :: Ts) (fun T hT => (hmem T hT).1.1) hM).1
    refine ⟨named_fuse hMr ?_ h, .mergeConsecutive hMr.reach h⟩
    exact named_joinAll (fun T hT => (hmem T hT).1.1) (fun T hT => ⟨(hmem T hT).1.2, (hmem T hT).2⟩) hM

/-- Every channel of the result of `pack` has a name. -/
theorem named_pack [One κ] {o : SetOrder} (ho : SetOrder.OK o) {I : Inventory α κ} (hI : ∀ S ∈ I, Regular S) {keep : Bool} {R : SigSet α κ}
    (h : I.pack o keep = .ok R) : Named R ∧ Reach R := by
  cases keep with
  | true => exact named_packAll hI (by simpa [Inventory.pack] using h)
  | false =>
    obtain ⟨ts, l, _, _, h3, h4⟩ := pack_single_inv ho hI h
    refine named_packAll ?_ h4
    intro T hT
    obtain ⟨t, _, S, hS, _, hs⟩ := (pack_single_mem h3 T).1 hT
    exact (regular_selectChannels (hI S hS) hs).1

end Razorback.Props
