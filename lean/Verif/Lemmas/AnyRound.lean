/-
What operations are made of, whatever the rounding of times.
-/
import Verif.Spec.Blocks
import Verif.Props.Merge
import Verif.Props.Join

namespace Razorback
open Spec Props
variable {α κ : Type _}

theorem block_wf {s r : Sync α κ} (hs : WF s) (h : SampleBlock s r) : WF r := by
  obtain ⟨k, m, h1, h2, h3, h4, h5⟩ := h
  refine ⟨?_, ?_, ?_⟩
  · rw [h3]; simpa using hs.nonempty
  · rw [h4, h3, List.length_map]; exact hs.cals
  · intro d hd
    rw [h3] at hd
    obtain ⟨e, he, rfl⟩ := List.mem_map.1 hd
    have := hs.rect e he
    simp only [List.length_take, List.length_drop]
    omega

theorem Sync.extractI_block [Rnd] [One κ] {s r : Sync α κ} (hs : WF s) {i j : Option Int} {strict last : Bool}
    (h : s.extractI i j strict last = .ok r) : SampleBlock s r := by
  unfold Sync.extractI at h
  simp only at h
  generalize i.getD 0 = a at h
  generalize (j.map (fun j => if last then j + 1 else j)).getD (s.size : Int) = b at h
  split at h
  · simp at h
  · split at h
    · simp at h
    · rename_i t _
      have hlen : ∀ e ∈ s.data, e.length = s.size := hs.rect
      obtain ⟨w, e1, e2, e3, e4, e5⟩ := Sync.new_ok h
      have hdata : r.data = s.data.map (fun d => (d.drop (pyBound s.size a)).take (pyBound s.size b - pyBound s.size a)) := by
        rw [e1]
        apply List.map_congr_left
        intro d hd
        unfold pySlice
        rw [hlen d hd]
      have hcals : s.cals ≠ [] := by
        intro h0
        have := hs.cals
        rw [h0] at this
        exact hs.nonempty (List.length_eq_zero_iff.1 this.symm)
      refine ⟨min (pyBound s.size a) s.size, min (pyBound s.size b) s.size - min (pyBound s.size a) s.size, by omega, ?_, ?_, ?_, e2⟩
      · obtain ⟨d, hd⟩ := List.exists_mem_of_ne_nil _ hs.nonempty
        have := w.rect _ (by rw [hdata]; exact List.mem_map_of_mem hd)
        rw [← this, List.length_take, List.length_drop, hlen d hd]
        omega
      · rw [hdata]
        apply List.map_congr_left
        intro d hd
        apply List.ext_getElem?
        intro n
        have hd' := hlen d hd
        simp only [List.getElem?_take, List.getElem?_drop]
        by_cases hn : pyBound s.size a + n < s.size
        · have : min (pyBound s.size a) s.size = pyBound s.size a := by omega
          rw [this]
          split <;> split <;> first | rfl | omega
        · rw [List.getElem?_eq_none (by omega), List.getElem?_eq_none (by omega)]
          simp
      · rw [e4, if_neg hcals]

theorem Sync.extractT_block [Rnd] [One κ] {s r : Sync α κ} (hs : WF s) {a b : ℚ} {strict : Bool}
    (h : s.extractT a b strict = .ok r) : SampleBlock s r := by
  unfold Sync.extractT at h
  split at h
  · simp at h
  · split at h
    · simp at h
    · exact Sync.extractI_block hs h

theorem forall₂_mem {β γ : Type _} {P Q : β → γ → Prop} {l : List β} {m : List γ} (h : List.Forall₂ P l m)
    (hi : ∀ a ∈ l, ∀ b ∈ m, P a b → Q a b) : List.Forall₂ Q l m := by
  induction h with
  | nil => exact .nil
  | cons h _ ih =>
    exact .cons (hi _ (by simp) _ (by simp) h) (ih (fun a ha b hb => hi a (by simp [ha]) b (by simp [hb])))

theorem forall₂_right {β γ : Type _} {P : β → γ → Prop} {l : List β} {m : List γ} (h : List.Forall₂ P l m) :
    ∀ b ∈ m, ∃ a ∈ l, P a b := by
  induction h with
  | nil => simp
  | @cons a b l m h _ ih =>
    intro x hx
    rcases List.mem_cons.1 hx with rfl | hx
    · exact ⟨a, by simp, h⟩
    · obtain ⟨a', h1, h2⟩ := ih x hx
      exact ⟨a', by simp [h1], h2⟩

namespace SigSet

theorem extractIn_blocks [Rnd] [One κ] {S R : SigSet α κ} (hI : SInv S) {a b : ℚ} (h : S.extractIn a b = .ok R) :
    SameTags R.tags S.tags ∧ ∃ bs, List.Forall₂ (fun s r => s.extractT a b = .ok r) S.runs bs ∧
      R.runs.Perm (bs.filter (fun s => decide (1 < s.size))) := by
  unfold extractIn at h
  split at h
  · simp at h
  · rename_i rs hrs
    obtain ⟨_, _, _, h4, h5⟩ := build_as.1 h
    refine ⟨?_, rs, ?_, ?_⟩
    · intro k
      unfold Tags.getItem
      rw [mkTags_tags h5 hI.inv]
    · exact mapE_ok.1 hrs
    · rw [h4]; exact sortRuns_perm _

theorem mergeOne_blocks [Rnd] [One κ] {seqs : List (SigSet α κ)} (hI : ∀ S ∈ seqs, SInv S) {a b : ℚ} {r : Sync α κ}
    (h : mergeOne seqs a b = .ok (some r)) :
    ∃ c bs, Choice c seqs ∧ List.Forall₂ (fun s r => s.extractT a b = .ok r) c bs ∧ SideBySide r bs ∧
      ∀ b ∈ bs, 1 < b.size := by
  unfold mergeOne at h
  split at h
  · simp at h
  · rename_i sets hsets
    split at h
    · rename_i hall
      simp only at h
      have key : ∃ c, Choice c seqs ∧ List.Forall₂ (fun s r => s.extractT a b = .ok r) c (sets.flatMap (fun S => S.runs)) ∧
          ∀ b ∈ sets.flatMap (fun S => S.runs), 1 < b.size := by
        have hf := mapE_ok.1 hsets
        clear h hsets
        induction hf with
        | nil => exact ⟨[], .nil, .nil, by simp⟩
        | @cons S T seqs sets h1 h2 ih =>
          simp only [List.all_cons, Bool.and_eq_true, beq_iff_eq] at hall
          obtain ⟨c, c1, c2, c3⟩ := ih (fun S hS => hI S (by simp [hS])) hall.2
          obtain ⟨_, bs, b1, b2⟩ := extractIn_blocks (hI S (by simp)) h1
          obtain ⟨t, ht⟩ := List.length_eq_one_iff.1 hall.1
          have hm : t ∈ bs.filter (fun s => decide (1 < s.size)) := b2.mem_iff.1 (by rw [ht]; simp)
          have hs : ∃ s ∈ S.runs, s.extractT a b = .ok t := forall₂_right b1 t (List.mem_filter.1 hm).1
          obtain ⟨s, hs1, hs2⟩ := hs
          refine ⟨s :: c, .cons hs1 c1, ?_, ?_⟩
          · rw [List.flatMap_cons, ht]
            exact .cons hs2 c2
          · intro b hb
            rw [List.flatMap_cons, ht] at hb
            rcases List.mem_append.1 hb with hb | hb
            · rw [List.mem_singleton.1 hb]
              simpa using (List.mem_filter.1 hm).2
            · exact c3 b hb
      obtain ⟨c, c1, c2, c3⟩ := key
      refine ⟨c, _, c1, c2, ?_, c3⟩
      generalize hss : sets.flatMap (fun S => S.runs) = ss at h c2 c3
      split at h
      · rename_i rate hrate
        split at h
        · rename_i hstart
          split at h
          · simp at h
          · rename_i r' hnew
            simp only [Except.ok.injEq, Option.some.injEq] at h
            subst h
            obtain ⟨w, e1, e2, e3, e4, e5⟩ := Sync.new_ok hnew
            have hcne : ss ≠ [] := by
              intro h0; rw [h0] at e1
              exact w.nonempty e1
            have hwf : ∀ b ∈ ss, WF b := by
              intro b hb
              obtain ⟨s, hs, hsb⟩ := forall₂_right c2 b hb
              obtain ⟨S, hS, hsS⟩ := choice_mem c1 s hs
              exact block_wf ((hI S hS).okAs.wf s hsS) (Sync.extractT_block ((hI S hS).okAs.wf s hsS) hsb)
            refine ⟨e1, ?_, ?_⟩
            · rw [e4, if_neg]
              intro h0
              obtain ⟨b, hb⟩ := List.exists_mem_of_ne_nil _ hcne
              have := List.flatMap_eq_nil_iff.1 h0 b hb
              have hl := (hwf b hb).cals
              rw [this] at hl
              exact (hwf b hb).nonempty (List.length_eq_zero_iff.1 hl.symm)
            · intro b hb
              refine ⟨?_, ?_, ?_⟩
              · rw [e2]
                exact (dedup_eq_singleton.1 hrate).2 _ (List.mem_map_of_mem hb)
              · rw [e3]
                simpa using List.all_eq_true.1 hstart b hb
              · obtain ⟨d, hd⟩ := List.exists_mem_of_ne_nil _ (hwf b hb).nonempty
                rw [← (hwf b hb).rect d hd]
                exact w.rect d (by rw [e1]; exact List.mem_flatMap.2 ⟨b, hb, hd⟩)
        · simp at h
      · simp at h
    · simp at h

theorem blocks_of [Rnd] [One κ] {c bs : List (Sync α κ)} {x y : ℚ} (hw : ∀ s ∈ c, WF s)
    (h : List.Forall₂ (fun s r => s.extractT x y = .ok r) c bs) : List.Forall₂ SampleBlock c bs :=
  forall₂_mem h (fun s hs _ _ h => Sync.extractT_block (hw s hs) h)

/-- A successful merge, run by run. -/
theorem merge_blocks [Rnd] [One κ] {S R : SigSet α κ} {others : List (SigSet α κ)} (hI : ∀ T ∈ S :: others, SInv T)
    (hp : ∀ T ∈ S :: others, Plain T.tags) (h : S.merge others = .ok R) :
    (∀ r ∈ R.runs, ∃ c bs x y, Choice c (S :: others) ∧ List.Forall₂ (fun s r => s.extractT x y = .ok r) c bs ∧
      SideBySide r bs ∧ ∀ b ∈ bs, 1 < b.size) ∧
    R.tags.tags = mergedEntries 0 (S :: others) ∧ (mergedEntries 0 (S :: others)).keys.Nodup := by
  unfold merge at h
  split at h
  · simp at h
  · rename_i t ht
    split at h
    · simp at h
    · split at h
      · simp at h
      · rename_i ivs _ rs hrs
        obtain ⟨_, _, _, h4, h5⟩ := build_as.1 h
        have hnd : ((S :: others).flatMap (fun S => S.tags.tags.keys)).Nodup := by
          by_contra hnd
          rw [mergeTags_conflict hp hnd] at ht
          simp at ht
        refine ⟨?_, ?_, by rw [mergedEntries_keys]; exact hnd⟩
        · intro r hr
          rw [h4, mem_sortRuns, List.mem_filterMap] at hr
          obtain ⟨o, ho, hor⟩ := hr
          simp only [id] at hor
          subst hor
          obtain ⟨i, _, hi⟩ := mapE_ok_exists hrs _ ho
          obtain ⟨c, bs, hh⟩ := mergeOne_blocks hI hi
          exact ⟨c, bs, _, _, hh⟩
        · have ht' := ht
          rw [mergeTags_eq hI hp hnd] at ht
          simp only [Except.ok.injEq] at ht
          rw [mkTags_tags h5 (mergeTags_inv ht'), ← ht]

/-- Channel `x` of operand `i` in runs put side by side. -/
theorem sideBySide_getElem {r : Sync α κ} {bs : List (Sync α κ)} (h : SideBySide r bs) (hw : ∀ b ∈ bs, WF b) {i : Nat}
    {b : Sync α κ} (hb : bs[i]? = some b) {x : Nat} (hx : x < b.data.length) :
    (channels r)[((bs.take i).map (fun b => b.data.length)).sum + x]? = (channels b)[x]? := by
  have hc : channels r = (bs.map channels).flatten := by
    unfold channels
    rw [h.data, h.cals]
    have hk := h.clock
    clear hb h
    induction bs with
    | nil => rfl
    | cons b bs ih =>
      have := hw b (by simp)
      rw [List.map_cons, List.flatten_cons, List.flatMap_cons, List.flatMap_cons, List.map_append,
        List.zip_append (show (b.data.map (timed r.rate r.start)).length = b.cals.length by rw [List.length_map]; exact this.cals.symm),
        ih (fun b hb => hw b (by simp [hb])) (fun b hb => hk b (by simp [hb]))]
      obtain ⟨k1, k2, k3⟩ := hk b (by simp)
      rw [k1, k2]
  rw [hc]
  have e : ((bs.take i).map (fun b => b.data.length)).sum = (((bs.map channels).take i).map List.length).sum := by
    rw [← List.map_take, List.map_map]
    congr 1
    apply List.map_congr_left
    intro b hb
    exact (Sync.channels_length (hw b (List.mem_of_mem_take hb))).symm
  rw [e]
  refine getElem?_flatten (by rw [List.getElem?_map, hb]; rfl) ?_
  rw [Sync.channels_length (hw b (List.mem_of_getElem? hb))]
  exact hx

end SigSet
end Razorback
