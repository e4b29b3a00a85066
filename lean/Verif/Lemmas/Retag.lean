/-
Renumbering the channels of a set after other tags: exactly when it succeeds.
-/
import Verif.Spec.Retag
import Verif.Lemmas.Extract
import Verif.Lemmas.Select

namespace Razorback
open Spec
namespace SigSet
variable {α κ : Type _}

theorem zip_flatten_mem {β γ δ : Type _} {es : List γ} {f : γ → List β} {g : γ → List δ}
    (hl : ∀ e ∈ es, (f e).length = (g e).length) (p : β × δ) :
    p ∈ (es.map f).flatten.zip (es.flatMap g) ↔ ∃ e ∈ es, p ∈ (f e).zip (g e) := by
  induction es with
  | nil => simp
  | cons e es ih =>
    have h1 := ih (fun e he => hl e (List.mem_cons_of_mem _ he))
    simp only [List.map_cons, List.flatten_cons, List.flatMap_cons]
    rw [List.zip_append (hl e (by simp)), List.mem_append, h1]
    simp

/-- Construction from acceptable runs fails as the tags do. -/
theorem build_tags_error [Rnd] {tags : TagsArg} {runs : List (Sync α κ)} {e : Err}
    (h1 : ∀ r ∈ runs, ∀ r' ∈ runs, r.data.length = r'.data.length) (h2 : ∀ r ∈ runs, r.rate ≠ 0)
    (h3 : (sortRuns runs).Pairwise (fun a b => a.stopAs ≤ b.start)) (h : mkTags (chanCount (sortRuns runs)) tags = .error e) :
    build tags runs = .error e := by
  have hsorted := sortRuns_sorted runs
  have hl : ¬ (1 < (dedup (runs.map (fun s => s.data.length))).length) ↔
      ∀ r ∈ runs, ∀ r' ∈ runs, r.data.length = r'.data.length := by
    rw [dedup_length_le_one]; simp
  have hov : noOverlap (sortBy (fun a b => decide (a.1 ≤ b.1)) (runs.map (fun r => (r.start, r.stopAs)))) = true ↔
      (sortRuns runs).Pairwise (fun a b => a.stopAs ≤ b.start) := by
    rw [sortBy_map (f := fun r : Sync α κ => (r.start, r.stopAs))
      (le := fun a b => decide (a.start ≤ b.start)) (by intro a b; rfl), noOverlap_iff]
    · rw [List.pairwise_map]; exact Iff.rfl
    · rw [List.pairwise_map]; exact hsorted
  unfold build
  rw [if_neg (hl.2 h1), mapE_of_forall (fun r hr' => Sync.interval_as (h2 r hr'))]
  simp only [hov.2 h3, if_true]
  have : sortBy (fun a b : Sync α κ => decide (a.start ≤ b.start)) runs = sortRuns runs := rfl
  rw [this, h]

theorem reorderMap_tags {t t' : Tags} (hi : t.Inv) (he : ¬ t'.eq t = true) :
    (Renumbers t t' → ∃ pairs, reorderMap t' (.tags t) = .ok (some pairs) ∧ ∀ p, p ∈ pairs ↔
      ∃ k v w, ∃ j a b : ℕ, t.getItem k = .ok v ∧ t'.getItem k = .ok w ∧ v[j]? = some a ∧ w[j]? = some b ∧ p = ((a : Int), b)) ∧
    (¬ Renumbers t t' → reorderMap t' (.tags t) = .error .assertion) := by
  have hent : ∀ e ∈ (TagsArg.tags t).entries, ∃ v, t.getItem e.1 = .ok v ∧ e.2 = Tags.toVal v := by
    intro e he
    obtain ⟨⟨k, v⟩, hkv, rfl⟩ := List.mem_map.1 he
    exact ⟨v, Tags.getItem_ok.2 (Dict.get?_of_mem hi.nodup hkv), rfl⟩
  have hent' : ∀ k v, t.getItem k = .ok v → (k, Tags.toVal v) ∈ (TagsArg.tags t).entries := by
    intro k v hv
    exact List.mem_map.2 ⟨(k, v), Dict.mem_of_get? (Tags.getItem_ok.1 hv), rfl⟩
  have hkeys : ((TagsArg.tags t).entries.all (fun e => t'.tags.has e.1) &&
      t'.tags.keys.all (fun k => (TagsArg.tags t).entries.any (fun e => e.1 == k))) = true ↔
      ∀ k, (∃ v, t.getItem k = .ok v) ↔ ∃ w, t'.getItem k = .ok w := by
    rw [Bool.and_eq_true, List.all_eq_true, List.all_eq_true]
    have hhas : ∀ k, t'.tags.has k = true ↔ ∃ w, t'.getItem k = .ok w := by
      intro k
      unfold Dict.has
      rw [Option.isSome_iff_exists]
      exact exists_congr (fun w => Tags.getItem_ok.symm)
    constructor
    · rintro ⟨h1, h2⟩ k
      constructor
      · rintro ⟨v, hv⟩
        exact (hhas k).1 (h1 _ (hent' k v hv))
      · intro hw
        have := h2 k (Dict.has_iff.1 ((hhas k).2 hw))
        obtain ⟨e, he, hek⟩ := List.any_eq_true.1 this
        obtain ⟨v, hv, -⟩ := hent e he
        simp only [beq_iff_eq] at hek
        exact ⟨v, by rw [← hek]; exact hv⟩
    · intro h
      constructor
      · intro e he
        obtain ⟨v, hv, -⟩ := hent e he
        exact (hhas _).2 ((h _).1 ⟨v, hv⟩)
      · intro k hk
        obtain ⟨v, hv⟩ := (h k).2 ((hhas k).1 (Dict.has_iff.2 hk))
        exact List.any_eq_true.2 ⟨_, hent' k v hv, by simp⟩
  unfold reorderMap
  simp only [tagsEq, he, Bool.false_eq_true, if_false]
  by_cases hn : ∀ k, (∃ v, t.getItem k = .ok v) ↔ ∃ w, t'.getItem k = .ok w
  · rw [if_pos (hkeys.2 hn)]
    by_cases hlen : ∀ k v w, t.getItem k = .ok v → t'.getItem k = .ok w → v.length = w.length
    · have h1 : mapE (reorderLen t') (TagsArg.tags t).entries = .ok ((TagsArg.tags t).entries.map (fun _ => ())) := by
        apply mapE_of_forall
        intro e he
        obtain ⟨v, hv, hev⟩ := hent e he
        obtain ⟨w, hw⟩ := (hn e.1).1 ⟨v, hv⟩
        unfold reorderLen
        rw [hev, Tags.getItem_ok.1 hw]
        simp [Tags.toVal, hlen _ _ _ hv hw]
      have h2 : mapE (fun e : String × TagVal => tupleVal e.2) (TagsArg.tags t).entries =
          .ok ((TagsArg.tags t).entries.map (fun e => tupleit e.2)) := by
        apply mapE_of_forall
        intro e he
        obtain ⟨v, hv, hev⟩ := hent e he
        rw [hev]; rfl
      rw [h1, h2]
      simp only
      have hpairs : ∀ p, p ∈ reorderPairs t' (TagsArg.tags t).entries
          ((TagsArg.tags t).entries.map (fun e => tupleit e.2)) ↔
          ∃ k v w, ∃ j a b : ℕ, t.getItem k = .ok v ∧ t'.getItem k = .ok w ∧ v[j]? = some a ∧ w[j]? = some b ∧ p = ((a : Int), b) := by
        intro p
        unfold reorderPairs
        rw [zip_flatten_mem]
        · constructor
          · rintro ⟨e, he, hp⟩
            obtain ⟨v, hv, hev⟩ := hent e he
            obtain ⟨w, hw⟩ := (hn e.1).1 ⟨v, hv⟩
            rw [hev, Tags.getItem_ok.1 hw] at hp
            obtain ⟨j, hj⟩ := List.mem_iff_getElem?.1 hp
            obtain ⟨a, b⟩ := p
            rw [List.getElem?_zip_eq_some] at hj
            simp only [Tags.toVal, tupleit, List.getElem?_map, Option.map_eq_some_iff, Option.getD_some] at hj
            obtain ⟨⟨c, hc, rfl⟩, hb⟩ := hj
            exact ⟨e.1, v, w, j, c, b, hv, hw, hc, hb, rfl⟩
          · rintro ⟨k, v, w, j, a, b, hv, hw, ha, hb, rfl⟩
            refine ⟨_, hent' k v hv, ?_⟩
            rw [List.mem_iff_getElem?]
            refine ⟨j, ?_⟩
            rw [List.getElem?_zip_eq_some]
            simp [Tags.toVal, tupleit, ha, Tags.getItem_ok.1 hw, hb]
        · intro e he
          obtain ⟨v, hv, hev⟩ := hent e he
          obtain ⟨w, hw⟩ := (hn e.1).1 ⟨v, hv⟩
          rw [hev, Tags.getItem_ok.1 hw]
          simp [Tags.toVal, tupleit, hlen _ _ _ hv hw]
      generalize reorderPairs t' (TagsArg.tags t).entries ((TagsArg.tags t).entries.map (fun e => tupleit e.2)) = pairs at hpairs
      have hfun : (pairs.all (fun p => pairs.all (fun q => p.1 != q.1 || p.2 == q.2))) = true ↔
          ∀ p ∈ pairs, ∀ q ∈ pairs, p.1 = q.1 → p.2 = q.2 := by
        simp only [List.all_eq_true, Bool.or_eq_true, bne_iff_ne, beq_iff_eq]
        constructor
        · intro h p hp q hq he
          exact (h p hp q hq).resolve_left (fun hc => hc he)
        · intro h p hp q hq
          by_cases he : p.1 = q.1
          · exact Or.inr (h p hp q hq he)
          · exact Or.inl he
      constructor
      · rintro ⟨-, -, hf⟩
        rw [if_pos]
        · exact ⟨_, rfl, hpairs⟩
        · rw [hfun]
          intro p hp q hq hpq
          obtain ⟨k, v, w, j, a, b, e1, e2, e3, e4, rfl⟩ := (hpairs p).1 hp
          obtain ⟨k', v', w', j', a', b', e1', e2', e3', e4', rfl⟩ := (hpairs q).1 hq
          simp only at hpq ⊢
          obtain rfl : a = a' := by omega
          have := hf k v w k' v' w' j j' a e1 e2 e1' e2' e3 e3'
          rw [e4, e4'] at this
          simpa using this
      · intro hnot
        rw [if_neg]
        rw [hfun]
        intro hf
        apply hnot
        refine ⟨hn, hlen, ?_⟩
        intro k v w k' v' w' j j' c e1 e2 e1' e2' e3 e3'
        have hj : j < w.length := by
          rw [← hlen k v w e1 e2]
          exact (List.getElem?_eq_some_iff.1 e3).1
        have hj' : j' < w'.length := by
          rw [← hlen k' v' w' e1' e2']
          exact (List.getElem?_eq_some_iff.1 e3').1
        have := hf ((c : Int), w[j]) ((hpairs _).2 ⟨k, v, w, j, c, _, e1, e2, e3, List.getElem?_eq_getElem hj, rfl⟩)
          ((c : Int), w'[j']) ((hpairs _).2 ⟨k', v', w', j', c, _, e1', e2', e3', List.getElem?_eq_getElem hj', rfl⟩) rfl
        rw [List.getElem?_eq_getElem hj, List.getElem?_eq_getElem hj']
        simpa using this
    · have hbad : mapE (reorderLen t') (TagsArg.tags t).entries = .error .assertion := by
        cases hm : mapE (reorderLen t') (TagsArg.tags t).entries with
        | error e =>
          obtain ⟨x, hx, hxe⟩ := mapE_error hm
          obtain ⟨v, hv, hev⟩ := hent x hx
          unfold reorderLen at hxe
          rw [hev] at hxe
          simp only [Tags.toVal] at hxe
          split at hxe
          · simp at hxe
          · simp only [Except.error.injEq] at hxe
            rw [← hxe]
        | ok us =>
          exfalso
          apply hlen
          intro k v w hv hw
          obtain ⟨u, -, hu⟩ := mapE_ok_forall hm _ (hent' k v hv)
          unfold reorderLen at hu
          simp only [Tags.toVal, Tags.getItem_ok.1 hw, Option.getD_some, List.length_map] at hu
          split at hu
          · assumption
          · simp at hu
      rw [hbad]
      exact ⟨fun h => absurd h.2.1 hlen, fun _ => rfl⟩
  · rw [if_neg (fun h => hn (hkeys.1 h))]
    exact ⟨fun h => absurd h.1 hn, fun _ => rfl⟩

/-- The outcome of renumbering a set with runs whose tags differ. -/
theorem reorder_tags [Rnd] [One κ] {T : SigSet α κ} {t : Tags} (hi : t.Inv) (hp : Plain t) (hT : SInv T) (hr : T.runs ≠ [])
    (he : ¬ T.tags.eq t = true) :
    (¬ Renumbers t T.tags → T.reorder (.tags t) = .error .assertion) ∧
    (Renumbers t T.tags → ¬ AllTagged t T.nbChannels → T.reorder (.tags t) = .error .key) ∧
    (Renumbers t T.tags → AllTagged t T.nbChannels → T.nbChannels < t.n → T.reorder (.tags t) = .error .value) ∧
    (Renumbers t T.tags → AllTagged t T.nbChannels → t.n ≤ T.nbChannels → ∃ T', T.reorder (.tags t) = .ok T') := by
  obtain ⟨h1, h2⟩ := reorderMap_tags (t' := T.tags) hi he
  obtain ⟨s0, hs0⟩ : ∃ s, s ∈ T.runs := List.exists_mem_of_ne_nil _ hr
  have hn0 := nbChannels_eq hT hs0
  refine ⟨fun h => by unfold reorder; rw [h2 h], ?_, ?_⟩
  · intro h hun
    obtain ⟨pairs, hm, hpairs⟩ := h1 h
    unfold reorder
    rw [hm]
    simp only
    have h3 : mapE (invGet pairs) (List.range T.nbChannels) = .error .key := by
      cases hm : mapE (invGet pairs) (List.range T.nbChannels) with
      | error e =>
        obtain ⟨i, _, hi'⟩ := mapE_error hm
        unfold invGet at hi'
        split at hi' <;> simp_all
      | ok r =>
        exfalso
        apply hun
        intro c hc
        obtain ⟨b, _, hb⟩ := mapE_ok_forall hm c (List.mem_range.2 hc)
        unfold invGet at hb
        split at hb
        · rename_i p hf
          have e1 := List.mem_of_find?_eq_some hf
          have e2 := List.find?_some hf
          obtain ⟨k, v, w, j, a, b, g1, g2, g3, g4, rfl⟩ := (hpairs p).1 e1
          simp only [beq_iff_eq] at e2
          obtain rfl : a = c := by omega
          exact ⟨k, v, g1, List.mem_of_getElem? g3⟩
        · simp at hb
    have h4 : mapE (reorderRun pairs T.nbChannels) T.runs = .error .key := by
      cases hT : T.runs with
      | nil => exact absurd hT hr
      | cons s l => simp only [mapE, reorderRun, h3]
    rw [h4]
  · have key : Renumbers t T.tags → AllTagged t T.nbChannels → ∃ f : Sync α κ → Sync α κ,
        T.reorder (.tags t) = build (.tags t) (T.runs.map f) ∧ ∀ s ∈ T.runs,
          (f s).rate = s.rate ∧ (f s).start = s.start ∧ (f s).size = s.size ∧ (f s).data.length = T.nbChannels := by
      intro h hcov
      obtain ⟨pairs, hm, hpairs⟩ := h1 h
      have hfun : ∀ p ∈ pairs, ∀ q ∈ pairs, p.1 = q.1 → p.2 = q.2 := (reorderMap_ok hT.inv hm).2.1
      have hinv : ∀ c < T.nbChannels, ∃ b, invGet pairs c = .ok b ∧ b < T.nbChannels := by
        intro c hc
        obtain ⟨k, v, hv, hcv⟩ := hcov c hc
        obtain ⟨j, hj⟩ := List.mem_iff_getElem?.1 hcv
        obtain ⟨w, hw⟩ := (h.1 k).1 ⟨v, hv⟩
        have hjw : j < w.length := by
          rw [← h.2.1 k v w hv hw]
          exact (List.getElem?_eq_some_iff.1 hj).1
        refine ⟨w[j], invGet_eq hfun ((hpairs _).2 ⟨k, v, w, j, c, _, hv, hw, hj, List.getElem?_eq_getElem hjw, rfl⟩), ?_⟩
        rw [hn0]
        exact (hT.okAs.tags k w hw).2.2 s0 hs0 _ (List.getElem_mem hjw)
      obtain ⟨idx, hidx⟩ : ∃ idx, mapE (invGet pairs) (List.range T.nbChannels) = .ok idx := by
        cases hm : mapE (invGet pairs) (List.range T.nbChannels) with
        | ok r => exact ⟨r, rfl⟩
        | error e =>
          obtain ⟨i, hi, hi'⟩ := mapE_error hm
          obtain ⟨b, hb, -⟩ := hinv i (List.mem_range.1 hi)
          rw [hb] at hi'
          simp at hi'
      have hidl := mapE_length hidx
      rw [List.length_range] at hidl
      have hidlt : ∀ i ∈ idx, i < T.nbChannels := by
        intro i hi
        obtain ⟨c, hc, hci⟩ := mapE_ok_exists hidx i hi
        obtain ⟨b, hb, hlt⟩ := hinv c (List.mem_range.1 hc)
        rw [hb] at hci
        simp only [Except.ok.injEq] at hci
        omega
      have hpos : 0 < T.nbChannels := by
        rw [hn0]
        exact List.length_pos_iff.2 (hT.okAs.wf s0 hs0).nonempty
      have hrun : mapE (reorderRun pairs T.nbChannels) T.runs = .ok (T.runs.map (fun s => s.sel idx)) := by
        apply mapE_of_forall
        intro s hs
        unfold reorderRun
        rw [hidx]
        refine Sync.select_eq (hT.okAs.wf s hs) ?_ (by intro h0; rw [h0] at hidl; simp at hidl; omega)
        intro i hi
        rw [← nbChannels_eq hT hs]
        exact hidlt i hi
      refine ⟨fun s => s.sel idx, ?_, ?_⟩
      · unfold reorder
        rw [hm]
        simp only [hrun]
      · intro s hs
        have hlt : ∀ i ∈ idx, i < s.data.length := fun i hi => by rw [← nbChannels_eq hT hs]; exact hidlt i hi
        have := Sync.select_nat (hT.okAs.wf s hs) (Sync.select_eq (hT.okAs.wf s hs) hlt (by
          intro h0; rw [h0] at hidl; simp at hidl; omega))
        exact ⟨this.1, this.2.1, this.2.2.1, by rw [this.2.2.2.2.1, hidl]⟩
    have fin : ∀ f : Sync α κ → Sync α κ, (∀ s ∈ T.runs,
          (f s).rate = s.rate ∧ (f s).start = s.start ∧ (f s).size = s.size ∧ (f s).data.length = T.nbChannels) →
        (∀ r ∈ T.runs.map f, ∀ r' ∈ T.runs.map f, r.data.length = r'.data.length) ∧ (∀ r ∈ T.runs.map f, r.rate ≠ 0) ∧
        (sortRuns (T.runs.map f)).Pairwise (fun a b => a.stopAs ≤ b.start) ∧ chanCount (sortRuns (T.runs.map f)) = T.nbChannels := by
      intro f hf
      have hsort : sortRuns (T.runs.map f) = T.runs.map f := by
        apply sortRuns_of_sorted
        rw [List.pairwise_map]
        refine hT.okAs.sorted.imp_of_mem ?_
        intro a b ha hb hab
        rw [(hf a ha).2.1, (hf b hb).2.1]
        exact hab
      rw [hsort]
      refine ⟨?_, ?_, ?_, ?_⟩
      · intro r hr r' hr'
        obtain ⟨s, hs, rfl⟩ := List.mem_map.1 hr
        obtain ⟨s', hs', rfl⟩ := List.mem_map.1 hr'
        rw [(hf s hs).2.2.2, (hf s' hs').2.2.2]
      · intro r hr
        obtain ⟨s, hs, rfl⟩ := List.mem_map.1 hr
        rw [(hf s hs).1]
        exact hT.okAs.rate s hs
      · rw [List.pairwise_map]
        refine hT.okAs.disjoint.imp_of_mem ?_
        rintro a b ha hb ⟨x, hx, hab⟩
        rw [(hf b hb).2.1]
        have e1 := Sync.interval_as (hT.okAs.rate a ha)
        unfold Sync.interval at e1
        rw [hx] at e1
        simp only [Except.ok.injEq, Prod.mk.injEq, true_and] at e1
        have e2 : (f a).stopAs = a.stopAs := by
          unfold Sync.stopAs
          rw [(hf a ha).1, (hf a ha).2.1, (hf a ha).2.2.1]
        rw [e2, ← e1]
        exact hab
      · cases hT' : T.runs with
        | nil => exact absurd hT' hr
        | cons s l =>
          rw [List.map_cons]
          exact (hf s (by simp [hT'])).2.2.2
    have hpos : T.nbChannels ≠ 0 := by
      rw [hn0]
      exact (List.length_pos_iff.2 (hT.okAs.wf s0 hs0).nonempty).ne'
    constructor
    · intro h hcov hlt
      obtain ⟨f, e1, hf⟩ := key h hcov
      obtain ⟨a, b, c, d⟩ := fin f hf
      rw [e1]
      refine build_tags_error a b c ?_
      rw [d]
      simp only [mkTags]
      rw [if_pos]
      refine ⟨hpos, ?_⟩
      rw [plain_indices hp, List.all_eq_true]
      push Not
      exact ⟨T.nbChannels, List.mem_range.2 hlt, by simp⟩
    · intro h hcov hle
      obtain ⟨f, e1, hf⟩ := key h hcov
      obtain ⟨a, b, c, d⟩ := fin f hf
      rw [e1]
      exact ⟨⟨_, _⟩, build_as.2 ⟨a, b, c, rfl, by rw [d]; exact mkTags_eq hi hp hpos hle⟩⟩

end SigSet
end Razorback
