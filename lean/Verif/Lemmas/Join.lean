/- Lemmas about `_reorder_data`, `SignalSet(...)` and `join`. -/
import Verif.Lemmas.Reach
import Verif.Props.Sync
import Verif.Props.Tags

namespace Razorback
open Spec
variable {α β κ : Type _}

theorem Sync.channels_length {s : Sync α κ} (h : WF s) : (channels s).length = s.data.length := by
  simp [channels, h.cals]

theorem Sync.select_nat [One κ] {s r : Sync α κ} (hw : WF s) {idx : List Nat}
    (h : s.select (idx.map Int.ofNat) = .ok r) :
    r.rate = s.rate ∧ r.start = s.start ∧ r.size = s.size ∧ WF r ∧ r.data.length = idx.length ∧
      (∀ i ∈ idx, i < s.data.length) ∧
      (∀ p : Nat, (channels r)[p]? = (idx[p]?).bind (fun k => (channels s)[k]?)) := by
  obtain ⟨h1, h2, h3, h4, h5, h6⟩ := Props.C11_select_channels_together s r hw _ h
  have h7 := (Props.C11_select_accepts s hw (idx.map Int.ofNat)).1 ⟨r, h⟩
  have hl := Sync.channels_length h4
  have hls := Sync.channels_length hw
  have hidx : ∀ i ∈ idx, i < s.data.length := by
    intro i hi
    have := h7.2 (Int.ofNat i) (List.mem_map_of_mem hi)
    have h8 := this.2
    simp at h8
    omega
  refine ⟨h1, h2, h3, h4, by simpa [hl] using h5, hidx, ?_⟩
  intro p
  by_cases hp : p < idx.length
  · obtain ⟨k, hk1, hk2, hk3⟩ := h6 p (by simpa using hp)
    rw [hk3, List.getElem?_eq_getElem hp]
    simp only [List.getElem_map, Option.bind_some] at hk2 ⊢
    have := hidx idx[p] (List.getElem_mem hp)
    have : k = idx[p] := by
      rcases hk2 with hk2 | hk2
      · simp at hk2; omega
      · simp at hk2; omega
    rw [this]
  · have hp' : idx.length ≤ p := by omega
    have hp2 : (channels r).length ≤ p := by rw [h5]; simpa using hp'
    rw [List.getElem?_eq_none hp', List.getElem?_eq_none hp2]
    rfl

theorem Tags.updateLoop_ok_tags {n : Nat} {acc : Dict (List Nat)} {d : List (String × TagVal)} {t : Tags}
    (h : updateLoop { n := n, tags := acc } d = (t, none)) (hnd : (acc.keys ++ d.map (·.1)).Nodup) :
    t.tags = acc ++ d.map (fun e => (e.1, (tupleit e.2).map Int.toNat)) ∧
      ∀ e ∈ d, ∀ i ∈ tupleit e.2, 0 ≤ i := by
  induction d generalizing acc with
  | nil => simp [updateLoop] at h; simp [← h]
  | cons e d ih =>
    obtain ⟨k, v⟩ := e
    have hk : k ∉ acc.keys := by
      intro hk
      rw [List.nodup_append] at hnd
      exact hnd.2.2 k hk k (by simp) rfl
    simp only [updateLoop] at h
    split at h
    · simp at h
    · rename_i t' ht'
      obtain ⟨_, _, h3, rfl⟩ := setItem_ok.1 ht'
      rw [Dict.set_of_not_mem hk] at h
      have hkeys : (acc ++ [(k, (tupleit v).map Int.toNat)] : Dict (List Nat)).keys = acc.keys ++ [k] := by
        simp [Dict.keys]
      obtain ⟨e1, e2⟩ := ih h (by rw [hkeys]; simpa using hnd)
      refine ⟨by rw [e1]; simp, ?_⟩
      intro e he
      rcases List.mem_cons.1 he with rfl | he
      · exact fun i hi => (h3 i hi).1
      · exact e2 e he

theorem Tags.new_ok_tags {n : Option Nat} {d : List (String × TagVal)} {t : Tags} (h : Tags.new n d = .ok t)
    (hnd : (d.map (·.1)).Nodup) :
    t.tags = d.map (fun e => (e.1, (tupleit e.2).map Int.toNat)) ∧ ∀ e ∈ d, ∀ i ∈ tupleit e.2, 0 ≤ i := by
  obtain ⟨n', _, h'⟩ := Tags.new_eq h
  have := Tags.updateLoop_ok_tags h' (by simpa [Dict.keys] using hnd)
  simpa using this

namespace SigSet

/-- Distinct names in a tags argument (always true of a dict or a `Tags`). -/
def ArgNodup (tags : TagsArg) : Prop := (tags.entries.map (·.1)).Nodup

theorem argNodup_tags {t : Tags} (h : t.Inv) : ArgNodup (.tags t) := by
  have : ((TagsArg.tags t).entries.map (·.1)) = t.tags.keys := by
    simp [TagsArg.entries, Dict.keys, Function.comp_def]
  unfold ArgNodup
  rw [this]; exact h.nodup

theorem mkTags_entries {n : Nat} {tags : TagsArg} {t : Tags} (h : mkTags n tags = .ok t) (hnd : ArgNodup tags) :
    t.tags = tags.entries.map (fun e => (e.1, (tupleit e.2).map Int.toNat)) ∧
      ∀ e ∈ tags.entries, ∀ i ∈ tupleit e.2, 0 ≤ i := by
  cases tags with
  | dict d => exact Tags.new_ok_tags h hnd
  | tags t' =>
    simp only [mkTags] at h
    split at h
    · simp at h
    · split at h
      · simp at h
      · rename_i d hd
        unfold Tags.kwargs at hd
        split at hd
        · simp at hd
        · simp at hd; subst hd
          exact Tags.new_ok_tags h hnd

theorem mkTags_tags {n : Nat} {t t' : Tags} (h : mkTags n (.tags t) = .ok t') (hi : t.Inv) : t'.tags = t.tags := by
  rw [(mkTags_entries h (argNodup_tags hi)).1]
  simp only [TagsArg.entries, List.map_map, Function.comp_def, Tags.tupleit_toVal]
  simp

/-! ### the renumbering -/

theorem zip_flatten {l : List (List β)} {m : List (List α)} {γ : Type _} {e : List γ} {f : γ → List α}
    (hm : m = e.map f) (hl : l.map List.length = m.map List.length) (p : Nat) (hp : p < l.length)
    (hp' : p < e.length) (j : Nat) (hj : j < l[p].length) (hj' : j < (f e[p]).length) :
    (l[p][j], (f e[p])[j]) ∈ l.flatten.zip m.flatten := by
  subst hm
  induction l generalizing e p with
  | nil => simp at hp
  | cons a l ih =>
    cases e with
    | nil => simp at hp'
    | cons b e =>
      simp only [List.map_cons, List.cons.injEq] at hl
      simp only [List.map_cons, List.flatten_cons]
      rw [List.zip_append hl.1, List.mem_append]
      cases p with
      | zero =>
        left
        simp only [List.getElem_cons_zero] at hj hj' ⊢
        rw [List.mem_iff_getElem]
        exact ⟨j, by simp; omega, by simp⟩
      | succ p =>
        right
        simp only [List.getElem_cons_succ]
        refine ih (e := e) (p := p) ?_ ?_ ?_ ?_ ?_
        exact hl.2

theorem reorderMap_ok {t : Tags} {tags : TagsArg} {pairs : List (Int × Nat)} (hi : t.Inv)
    (h : reorderMap t tags = .ok (some pairs)) :
    (∀ k, k ∈ t.tags.keys ↔ k ∈ tags.entries.map (·.1)) ∧
    (∀ p ∈ pairs, ∀ q ∈ pairs, p.1 = q.1 → p.2 = q.2) ∧
    (∀ e ∈ tags.entries, ∃ l w, e.2 = .tup l ∧ t.tags.get? e.1 = some w ∧ l.length = w.length ∧
      ∀ j (h1 : j < l.length) (h2 : j < w.length), (l[j], w[j]) ∈ pairs) := by
  unfold reorderMap at h
  split at h
  · simp at h
  · dsimp only at h
    split at h
    · rename_i hk
      split at h
      · simp at h
      · rename_i us hlen
        split at h
        · simp at h
        · rename_i news hnews
          split at h
          · rename_i hfun
            simp only [Except.ok.injEq, Option.some.injEq] at h
            subst h
            rw [Bool.and_eq_true, List.all_eq_true, List.all_eq_true] at hk
            have hkeys : ∀ k, k ∈ t.tags.keys ↔ k ∈ tags.entries.map (·.1) := by
              intro k
              constructor
              · intro hk'
                have := hk.2 k hk'
                obtain ⟨e, he, hek⟩ := List.any_eq_true.1 this
                simp at hek
                exact List.mem_map.2 ⟨e, he, hek⟩
              · intro hk'
                obtain ⟨e, he, rfl⟩ := List.mem_map.1 hk'
                exact Dict.has_iff.1 (hk.1 e he)
            refine ⟨hkeys, ?_, ?_⟩
            · intro p hp q hq hpq
              have := List.all_eq_true.1 (List.all_eq_true.1 hfun p hp) q hq
              simp [hpq] at this
              exact this
            · have hcol : ∀ e ∈ tags.entries, ∃ l w, e.2 = .tup l ∧ t.tags.get? e.1 = some w ∧
                  l.length = w.length := by
                intro e he
                obtain ⟨w, hw⟩ : ∃ w, t.tags.get? e.1 = some w := by
                  have := hk.1 e he
                  unfold Dict.has at this
                  exact Option.isSome_iff_exists.1 this
                obtain ⟨u, hu⟩ := mapE_ok_forall hlen e he
                obtain ⟨l, hl⟩ := mapE_ok_forall hnews e he
                cases hv : e.2 with
                | int i => rw [hv] at hl; simp [tupleVal] at hl
                | lst l' => rw [hv] at hl; simp [tupleVal] at hl
                | tup l' =>
                  refine ⟨l', w, rfl, hw, ?_⟩
                  unfold reorderLen at hu
                  rw [hv, hw] at hu
                  simp only [Option.getD_some] at hu
                  split at hu
                  · assumption
                  · simp at hu
              intro e he
              obtain ⟨l, w, h1, h2, h3⟩ := hcol e he
              refine ⟨l, w, h1, h2, h3, ?_⟩
              intro j hj hj'
              obtain ⟨p, hp, rfl⟩ := List.getElem_of_mem he
              have hnl := mapE_length hnews
              have hnp := mapE_getElem hnews p hp (by omega)
              rw [h1] at hnp
              simp only [tupleVal, Except.ok.injEq] at hnp
              have hlens : news.map List.length =
                  (tags.entries.map (fun e => (t.tags.get? e.1).getD [])).map List.length := by
                apply List.ext_getElem
                · simp [hnl]
                · intro i hi1 hi2
                  simp only [List.length_map] at hi1 hi2
                  simp only [List.getElem_map]
                  have hni := mapE_getElem hnews i hi2 hi1
                  obtain ⟨l', w', e1, e2, e3⟩ := hcol tags.entries[i] (List.getElem_mem hi2)
                  rw [e1] at hni
                  simp only [tupleVal, Except.ok.injEq] at hni
                  rw [← hni, e2]; exact e3
              have := zip_flatten (l := news) (e := tags.entries)
                (f := fun e => (t.tags.get? e.1).getD []) rfl hlens p (by omega) hp j
                (by rw [← hnp]; exact hj) (by rw [h2]; exact hj')
              simp only [h2, Option.getD_some, ← hnp] at this
              unfold reorderPairs
              rw [List.flatMap_def]
              exact this
          · simp at h
    · simp at h

theorem invGet_eq {pairs : List (Int × Nat)} (hf : ∀ p ∈ pairs, ∀ q ∈ pairs, p.1 = q.1 → p.2 = q.2)
    {i s : Nat} (hm : ((i : Int), s) ∈ pairs) : invGet pairs i = .ok s := by
  unfold invGet
  cases h : pairs.find? (fun p => p.1 == (i : Int)) with
  | none =>
    rw [List.find?_eq_none] at h
    have := h _ hm
    simp at this
  | some p =>
    have h1 := List.find?_some h
    have h2 := List.mem_of_find?_eq_some h
    simp at h1
    have := hf p h2 _ hm h1
    simp [this]

/-- The reordered run, seen through the new tags, is the original run seen through its own tags. -/
theorem reorderRun_same [One κ] {t t' : Tags} {tags : TagsArg} {pairs : List (Int × Nat)} {n : Nat}
    {s r : Sync α κ} (hi : t.Inv) (hnd : ArgNodup tags) (hw : WF s)
    (hm : reorderMap t tags = .ok (some pairs)) (hr : reorderRun pairs n s = .ok r)
    (ht' : t'.tags = tags.entries.map (fun e => (e.1, (tupleit e.2).map Int.toNat)))
    (hpos : ∀ e ∈ tags.entries, ∀ i ∈ tupleit e.2, 0 ≤ i)
    (hlt : ∀ k v, t'.tags.get? k = some v → ∀ i ∈ v, i < n) :
    SameRun t' r t s ∧ WF r ∧ r.data.length = n := by
  obtain ⟨h1, h2, h3⟩ := reorderMap_ok hi hm
  unfold reorderRun at hr
  split at hr
  · simp at hr
  · rename_i idx hidx
    obtain ⟨e1, e2, e3, e4, e5, e6, e7⟩ := Sync.select_nat hw hr
    have hil := mapE_length hidx
    simp only [List.length_range] at hil
    refine ⟨⟨e1, e2, e3, ?_⟩, e4, by omega⟩
    intro k j
    unfold designated
    by_cases hk : k ∈ t.tags.keys
    · obtain ⟨⟨k', val⟩, he, rfl⟩ := List.mem_map.1 ((h1 k).1 hk)
      obtain ⟨l, w, g1, g2, g3, g4⟩ := h3 _ he
      simp only at g1 g2
      have hg' : t'.tags.get? k' = some (l.map Int.toNat) := by
        have hnd' : t'.tags.keys.Nodup := by
          rw [ht']
          have : (Dict.keys (tags.entries.map (fun e => (e.1, (tupleit e.2).map Int.toNat)))) =
            tags.entries.map (·.1) := by simp [Dict.keys, Function.comp_def]
          rw [this]; exact hnd
        apply Dict.get?_of_mem hnd'
        rw [ht']
        refine List.mem_map.2 ⟨(k', val), he, ?_⟩
        simp [g1, tupleit]
      rw [Tags.getItem_ok.2 hg', Tags.getItem_ok.2 g2]
      simp only
      by_cases hj : j < l.length
      · have hjw : j < w.length := by omega
        rw [List.getElem?_eq_getElem (by simpa using hj), List.getElem?_eq_getElem hjw]
        simp only [Option.bind_some, List.getElem_map]
        have hmem := g4 j hj hjw
        have hl0 : 0 ≤ l[j] := by
          apply hpos _ he
          rw [g1]; exact List.getElem_mem hj
        have hln : l[j].toNat < n := by
          apply hlt k' _ hg'
          exact List.mem_map.2 ⟨l[j], List.getElem_mem hj, rfl⟩
        rw [e7]
        have hget := mapE_getElem hidx l[j].toNat (by simpa using hln) (by omega)
        simp only [List.getElem_range] at hget
        rw [invGet_eq h2 (s := w[j]) (by rw [Int.toNat_of_nonneg hl0]; exact hmem)] at hget
        simp only [Except.ok.injEq] at hget
        rw [List.getElem?_eq_getElem (by omega)]
        simp [hget]
      · rw [List.getElem?_eq_none (by simp; omega), List.getElem?_eq_none (by omega)]
        rfl
    · have hk' : k ∉ t'.tags.keys := by
        intro hc
        apply hk
        rw [h1 k]
        rw [ht'] at hc
        simpa [Dict.keys, Function.comp_def] using hc
      rw [Tags.getItem_error.2 hk, Tags.getItem_error.2 hk']

theorem SameRun.refl_of_tags {t t' : Tags} (h : t.tags = t'.tags) (r : Sync α κ) : SameRun t r t' r := by
  refine ⟨rfl, rfl, rfl, ?_⟩
  intro k j
  unfold designated Tags.getItem
  rw [h]

theorem Tags.eq_get {t t' : Tags} (hi : t.Inv) (hi' : t'.Inv) (h : t.eq t' = true) :
    ∀ k, t.getItem k = t'.getItem k := ((Props.C06_eq_iff t t' hi hi').1 h).1

/-- What the runs of an operand become when it is reordered to `tags`. -/
theorem reorder_same [Rnd] [One κ] {S S' : SigSet α κ} {tags : TagsArg} (hS : SInv S) (hnd : ArgNodup tags)
    (hti : ∀ t, tags = .tags t → t.Inv)
    (h : S.reorder tags = .ok S') :
    (S'.tags.Inv ∧ (∀ r ∈ S'.runs, WF r)) ∧
    List.Forall₂ (fun r' r => SameRun S'.tags r' S.tags r ∧ r'.data.length = r.data.length) S'.runs S.runs ∧
    (∀ k, S'.tags.getItem k = (Tags.mk 0 (tags.entries.map
      (fun e => (e.1, (tupleit e.2).map Int.toNat)))).getItem k) := by
  unfold reorder at h
  split at h
  · simp at h
  · rename_i hm
    simp at h; subst h
    refine ⟨⟨hS.inv, hS.okAs.wf⟩, ?_, ?_⟩
    · rw [List.forall₂_same]; exact fun r _ => ⟨SameRun.refl_of_tags rfl r, rfl⟩
    · unfold reorderMap at hm
      split at hm
      · rename_i heq
        cases tags with
        | dict d => simp [tagsEq] at heq
        | tags t =>
          simp only [tagsEq] at heq
          intro k
          rw [Tags.eq_get hS.inv (hti t rfl) heq k]
          have : (TagsArg.tags t).entries.map (fun e => (e.1, (tupleit e.2).map Int.toNat)) = t.tags := by
            simp [TagsArg.entries, Function.comp_def, Tags.tupleit_toVal]
          rw [this]; rfl
      · dsimp only at hm
        split at hm
        · split at hm
          · simp at hm
          · split at hm
            · simp at hm
            · split at hm <;> simp at hm
        · simp at hm
  · rename_i pairs hm
    split at h
    · simp at h
    · rename_i runs hruns
      have hwr : ∀ r ∈ runs, WF r := mapE_wf hruns (fun _ _ => reorderRun_wf)
      have hok := build_sinv h hwr
      obtain ⟨b1, b2, b3, b4, b5⟩ := build_as.1 h
      obtain ⟨m1, m2⟩ := mkTags_entries b5 hnd
      have hF := mapE_ok.1 hruns
      -- every reordered run matches its source
      have hsame : List.Forall₂ (fun r' r => SameRun S'.tags r' S.tags r ∧ r'.data.length = r.data.length)
          runs S.runs := by
        have : List.Forall₂ (fun r r' => reorderRun pairs S.nbChannels r = .ok r' ∧ r ∈ S.runs ∧ r' ∈ runs)
            S.runs runs := by
          have aux : ∀ (l : List (Sync α κ)) (l' : List (Sync α κ)),
              List.Forall₂ (fun r r' => reorderRun pairs S.nbChannels r = .ok r') l l' →
              List.Forall₂ (fun r r' => reorderRun pairs S.nbChannels r = .ok r' ∧ r ∈ l ∧ r' ∈ l') l l' := by
            intro l l' hf
            induction hf with
            | nil => exact .nil
            | cons hab hf ih =>
              refine .cons ⟨hab, by simp, by simp⟩ ?_
              exact ih.imp (fun a b hx => ⟨hx.1, by simp [hx.2.1], by simp [hx.2.2]⟩)
          exact aux _ _ hF
        refine (this.imp ?_).flip
        rintro r r' ⟨hrr, hr, hr'⟩
        have hnr := nbChannels_eq hS hr
        have hdl : r'.data.length = S.nbChannels := by
          have := reorderRun_wf hrr
          unfold reorderRun at hrr
          split at hrr
          · simp at hrr
          · rename_i idx hidx
            have hil := mapE_length hidx
            have := (Sync.select_nat (hS.okAs.wf r hr) hrr).2.2.2.2.1
            simp at hil; omega
        have hx := reorderRun_same (t' := S'.tags) hS.inv hnd (hS.okAs.wf r hr) hm hrr m1 m2 (by
          intro k v hv i hi
          have := (hok.okAs.tags k v (Tags.getItem_ok.2 hv)).2.2 r' (by rw [b4]; exact mem_sortRuns.2 hr') i hi
          omega)
        exact ⟨hx.1, by omega⟩
      have hsorted : runs.Pairwise (fun a b => a.start ≤ b.start) := by
        have hs := hS.okAs.sorted
        have aux : ∀ (l l' : List (Sync α κ)),
            List.Forall₂ (fun r' r => SameRun S'.tags r' S.tags r ∧ r'.data.length = r.data.length) l l' →
            l'.Pairwise (fun a b => a.start ≤ b.start) → l.Pairwise (fun a b => a.start ≤ b.start) := by
          intro l l' hf
          induction hf with
          | nil => simp
          | cons hab hf ih =>
            rename_i a b l l'
            intro hp
            rw [List.pairwise_cons] at hp ⊢
            refine ⟨?_, ih hp.2⟩
            intro c hc
            obtain ⟨i, hi, rfl⟩ := List.getElem_of_mem hc
            have hlen := hf.length_eq
            have hci := List.forall₂_iff_get.1 hf |>.2 i hi (by omega)
            simp only [List.get_eq_getElem] at hci
            rw [hab.1.start, hci.1.start]
            exact hp.1 _ (List.getElem_mem _)
        exact aux _ _ hsame hs
      rw [sortRuns_of_sorted hsorted] at b4
      refine ⟨⟨hok.inv, hok.okAs.wf⟩, by rw [b4]; exact hsame, ?_⟩
      intro k
      unfold Tags.getItem
      rw [m1]

end SigSet
end Razorback

namespace Razorback
open Spec
variable {α β κ : Type _}
namespace SigSet

/-- Where a run of a joined set comes from: tags and run of the operand. -/
def sources (t : Tags) : SigArg α κ → List (Tags × Sync α κ)
  | .sync s => [(t, s)]
  | .set S => S.runs.map (fun r => (S.tags, r))

theorem SameRun.congr {t t2 t' : Tags} {r r' : Sync α κ} (h : SameTags t2 t) (hs : SameRun t r t' r') :
    SameRun t2 r t' r' :=
  ⟨hs.rate, hs.start, hs.size, fun k j => by rw [← hs.chans k j]; unfold designated; rw [h k]⟩

theorem tags_entries_eq (t : Tags) :
    ((TagsArg.tags t).entries.map (fun e => (e.1, (tupleit e.2).map Int.toNat))) = t.tags := by
  simp [TagsArg.entries, Function.comp_def, Tags.tupleit_toVal]

theorem new_same [Rnd] [One κ] {t : Tags} (hi : t.Inv) {args : List (SigArg α κ)} {R : SigSet α κ}
    (hS : ∀ T, .set T ∈ args → SInv T) (h : SigSet.new (.tags t) args = .ok R) :
    SameTags R.tags t ∧ R.tags.tags = t.tags ∧ R.runs.Pairwise (fun a b => a.start ≤ b.start) ∧
    ∃ rs, R.runs.Perm rs ∧
      List.Forall₂ (fun r src => SameRun R.tags r src.1 src.2) rs (args.flatMap (sources R.tags)) := by
  unfold SigSet.new at h
  split at h
  · simp at h
  · rename_i rss hm
    obtain ⟨b1, b2, b3, b4, b5⟩ := build_as.1 h
    have ht : R.tags.tags = t.tags := mkTags_tags b5 hi
    have hst : SameTags R.tags t := fun k => by unfold Tags.getItem; rw [ht]
    refine ⟨hst, ht, by rw [b4]; exact sortRuns_sorted _, rss.flatten, by rw [b4]; exact sortRuns_perm _, ?_⟩
    have hF := mapE_ok.1 hm
    clear h hm b1 b2 b3 b4 b5
    have hmem : ∀ a ∈ args, ∀ T, a = .set T → SInv T := fun a ha T hT => hS T (hT ▸ ha)
    clear hS
    induction hF with
    | nil => simp
    | cons hab hF ih =>
      rename_i a rs args rss
      simp only [List.flatMap_cons, List.flatten_cons]
      refine List.rel_append ?_ (ih (fun a ha => hmem a (List.mem_cons_of_mem _ ha)))
      cases a with
      | sync s =>
        simp [argRuns] at hab; subst hab
        simp only [sources]
        exact .cons (SameRun.refl_of_tags rfl s) .nil
      | set T =>
        simp only [argRuns] at hab
        split at hab
        · simp at hab
        · rename_i T' hT'
          simp at hab; subst hab
          have hTi := hmem _ (by simp) T rfl
          obtain ⟨_, c1, c2⟩ := reorder_same hTi (argNodup_tags hi) (fun t' ht' => by cases ht'; exact hi) hT'
          rw [tags_entries_eq] at c2
          simp only [sources, List.forall₂_map_right_iff]
          refine c1.imp ?_
          rintro r r' ⟨h1, _⟩
          refine SameRun.congr ?_ h1
          intro k
          rw [hst k, c2 k]; rfl

end SigSet
end Razorback
