/- Lemmas about `SignalSet`: tags rebuilding and construction. -/
import Verif.Spec.SigSet
import Verif.Lemmas.Sync
import Verif.Lemmas.Tags

namespace Razorback
open Spec
variable {α β κ : Type _}

/-! ### dictionaries and tags -/

theorem Dict.set_of_not_mem {d : Dict β} {k : String} {v : β} (h : k ∉ d.keys) : d.set k v = d ++ [(k, v)] := by
  induction d with
  | nil => rfl
  | cons e d ih =>
    obtain ⟨k', v'⟩ := e
    simp only [Dict.keys, List.map_cons, List.mem_cons, not_or] at h
    have h1 : ¬ k' = k := fun e => h.1 e.symm
    simp only [Dict.set, h1, if_false, List.cons_append]
    rw [ih h.2]

theorem Tags.getItem_ok {t : Tags} {k : String} {v : List Nat} : t.getItem k = .ok v ↔ t.tags.get? k = some v := by
  unfold Tags.getItem
  cases t.tags.get? k <;> simp

theorem Tags.getItem_error {t : Tags} {k : String} : t.getItem k = .error .key ↔ k ∉ t.tags.keys := by
  rw [← Dict.get?_eq_none]
  unfold Tags.getItem
  cases t.tags.get? k <;> simp

theorem Tags.updateLoop_append {n : Nat} {acc : Dict (List Nat)} {d : List (String × TagVal)}
    (hnd : (acc.keys ++ d.map (·.1)).Nodup) (hidx : "indices" ∉ acc.keys ++ d.map (·.1))
    (hname : ∀ e ∈ d, LegalName e.1) (hne : ∀ e ∈ d, tupleit e.2 ≠ [])
    (hr : ∀ e ∈ d, ∀ i ∈ tupleit e.2, 0 ≤ i ∧ i < n) :
    updateLoop { n := n, tags := acc } d =
      ({ n := n, tags := acc ++ d.map (fun e => (e.1, (tupleit e.2).map Int.toNat)) }, none) := by
  induction d generalizing acc with
  | nil => simp [updateLoop]
  | cons e d ih =>
    obtain ⟨k, v⟩ := e
    have hk : k ∉ acc.keys := by
      intro hk
      rw [List.nodup_append] at hnd
      exact hnd.2.2 k hk k (by simp) rfl
    have hidx' : "indices" ∉ acc.keys := fun h => hidx (List.mem_append_left _ h)
    have hset : (Tags.mk n acc).setItem k v = .ok { n := n, tags := acc ++ [(k, (tupleit v).map Int.toNat)] } := by
      rw [Tags.setItem_ok]
      refine ⟨hname (k, v) (by simp), hne (k, v) (by simp), ?_, ?_⟩
      · intro i hi
        have := hr (k, v) (by simp) i hi
        refine ⟨this.1, ?_⟩
        simp only [Tags.indices, Dict.get?_eq_none.2 hidx', List.mem_range]; omega
      · simp [Dict.set_of_not_mem hk]
    simp only [updateLoop, hset]
    have hkeys : (acc ++ [(k, (tupleit v).map Int.toNat)] : Dict (List Nat)).keys = acc.keys ++ [k] := by
      simp [Dict.keys]
    rw [ih]
    · simp
    · rw [hkeys]; simpa using hnd
    · rw [hkeys]; simpa using hidx
    · exact fun e he => hname e (by simp [he])
    · exact fun e he => hne e (by simp [he])
    · exact fun e he => hr e (by simp [he])

theorem Tags.new_some_eq {n : Nat} {d : List (String × TagVal)}
    (hnd : (d.map (·.1)).Nodup) (hres : ∀ k ∈ ["indices", "n", "self"], k ∉ d.map (·.1))
    (hname : ∀ e ∈ d, LegalName e.1) (hne : ∀ e ∈ d, tupleit e.2 ≠ [])
    (hr : ∀ e ∈ d, ∀ i ∈ tupleit e.2, 0 ≤ i ∧ i < n) :
    Tags.new (some n) d = .ok { n := n, tags := d.map (fun e => (e.1, (tupleit e.2).map Int.toNat)) } := by
  apply Tags.new_of_updateLoop
  · intro e he
    refine ⟨fun h => hres "n" (by simp) ?_, fun h => hres "self" (by simp) ?_⟩
    · rw [← h]; exact List.mem_map_of_mem he
    · rw [← h]; exact List.mem_map_of_mem he
  · rw [Tags.updateLoop_append (acc := [])]
    · simp
    · simpa [Dict.keys] using hnd
    · simpa [Dict.keys] using hres "indices" (by simp)
    · exact hname
    · exact hne
    · exact hr

theorem Tags.tupleit_toVal (v : List Nat) : (tupleit (Tags.toVal v)).map Int.toNat = v := by
  simp [Tags.toVal, tupleit, Function.comp_def]

theorem Tags.mem_tupleit_toVal {v : List Nat} {i : Int} : i ∈ tupleit (Tags.toVal v) ↔ ∃ j ∈ v, (j : Int) = i := by
  simp [Tags.toVal, tupleit]

/-- Rebuilding the dictionary of a valid `Tags` over a (large enough) range. -/
theorem Tags.rebuild {t : Tags} (hi : t.Inv) (hp : ∀ k ∈ ["indices", "n", "self"], k ∉ t.tags.keys) {n : Nat}
    (hn : ∀ k v, t.tags.get? k = some v → ∀ i ∈ v, i < n) :
    Tags.new (some n) (t.tags.map (fun e => (e.1, Tags.toVal e.2))) = .ok { n := n, tags := t.tags } := by
  have hmap : (t.tags.map (fun e => (e.1, Tags.toVal e.2))).map (·.1) = t.tags.keys := by
    simp [Dict.keys, Function.comp_def]
  rw [Tags.new_some_eq]
  · congr 2
    rw [List.map_map]
    conv_rhs => rw [← List.map_id t.tags]
    refine List.map_congr_left ?_
    rintro ⟨k, v⟩ _
    simp [Tags.tupleit_toVal]
  · rw [hmap]; exact hi.nodup
  · rw [hmap]; exact hp
  · simp only [List.mem_map, forall_exists_index, and_imp, forall_apply_eq_imp_iff₂]
    rintro ⟨k, v⟩ he
    exact (hi.legal k v (Dict.get?_of_mem hi.nodup he)).1
  · simp only [List.mem_map, forall_exists_index, and_imp, forall_apply_eq_imp_iff₂]
    rintro ⟨k, v⟩ he
    have := (hi.legal k v (Dict.get?_of_mem hi.nodup he)).2.1
    simpa [Tags.toVal, tupleit] using this
  · simp only [List.mem_map, forall_exists_index, and_imp, forall_apply_eq_imp_iff₂]
    rintro ⟨k, v⟩ he i hi'
    obtain ⟨j, hj, rfl⟩ := Tags.mem_tupleit_toVal.1 hi'
    have := hn k v (Dict.get?_of_mem hi.nodup he) j hj
    omega

theorem Tags.new_none_eq (d : List (String × TagVal)) : Tags.new none d = Tags.new (some (inferN d)) d := rfl

theorem foldl_max_lt (l : List Int) (i j : Int) : l.foldl max i < j ↔ i < j ∧ ∀ x ∈ l, x < j := by
  induction l generalizing i with
  | nil => simp
  | cons a l ih =>
    simp only [List.foldl_cons, ih, List.mem_cons, forall_eq_or_imp, ← and_assoc]
    refine and_congr_left' ?_
    omega

theorem Tags.lt_inferN {d : List (String × TagVal)} {e : String × TagVal} (he : e ∈ d) {i : Int}
    (hi : i ∈ tupleit e.2) (h0 : 0 ≤ i) : i < Tags.inferN d := by
  have hmem : i ∈ d.flatMap (fun e => tupleit e.2) := List.mem_flatMap.2 ⟨e, he, hi⟩
  unfold Tags.inferN
  cases hl : d.flatMap (fun e => tupleit e.2) with
  | nil => rw [hl] at hmem; simp at hmem
  | cons x l =>
    have h1 := (foldl_max_lt l x (1 + l.foldl max x)).1 (by omega)
    rw [hl] at hmem
    simp only
    rcases List.mem_cons.1 hmem with rfl | h
    · omega
    · have := h1.2 i h; omega

namespace SigSet

/-! ### the tags setter -/

theorem mkTags_inv {n : Nat} {v : TagsArg} {t : Tags} (h : mkTags n v = .ok t) :
    t.Inv ∧ (n ≠ 0 → t.n = n) := by
  have key : ∀ d, Tags.new (if n = 0 then none else some n) d = .ok t → t.Inv ∧ (n ≠ 0 → t.n = n) := by
    intro d h
    obtain ⟨h1, h2⟩ := Tags.new_inv h
    refine ⟨h1, fun hn => ?_⟩
    rw [h2]; simp [hn]
  cases v with
  | dict d => exact key d h
  | tags t' =>
    simp only [mkTags] at h
    split at h
    · simp at h
    · split at h
      · simp at h
      · exact key _ h

theorem plain_not_mem {t : Tags} (hp : Plain t) {k : String} (hk : k ∈ reserved) : k ∉ t.tags.keys :=
  Tags.getItem_error.1 (hp k hk)

theorem plain_call {t : Tags} (hp : Plain t) {k : String} (hk : k ∈ reserved) : t.callMethod k = .ok () := by
  unfold Tags.callMethod
  rw [if_neg]
  rw [Dict.has_iff]; exact plain_not_mem hp hk

theorem plain_indices {t : Tags} (hp : Plain t) : t.indices = List.range t.n := by
  unfold Tags.indices
  rw [Dict.get?_eq_none.2 (plain_not_mem hp (by simp [reserved]))]

/-- The setter on plain tags whose range is that of the set. -/
theorem mkTags_eq {t : Tags} (hi : t.Inv) (hp : Plain t) {n : Nat} (hn : n ≠ 0) (hle : t.n ≤ n) :
    mkTags n (.tags t) = .ok { n := n, tags := t.tags } := by
  simp only [mkTags]
  rw [if_neg, Tags.kwargs, plain_call hp (by simp [reserved])]
  · simp only [hn, if_false]
    apply Tags.rebuild hi
    · intro k hk
      exact plain_not_mem hp (by simp only [reserved]; simp at hk ⊢; tauto)
    · intro k v hv i hiv
      exact lt_of_lt_of_le ((hi.legal k v hv).2.2 i hiv) hle
  · simp only [plain_indices hp, not_and, not_not, hn, ne_eq, not_false_eq_true, forall_const,
      List.all_eq_true, List.mem_range, decide_eq_true_eq]
    intro i hi'; omega

/-- Without runs the range is inferred again: the entries are unchanged, the range may shrink. -/
theorem mkTags_zero {t : Tags} (hi : t.Inv) (hp : Plain t) :
    ∃ m, mkTags 0 (.tags t) = .ok { n := m, tags := t.tags } := by
  simp only [mkTags]
  rw [if_neg (by simp), Tags.kwargs, plain_call hp (by simp [reserved])]
  refine ⟨Tags.inferN (t.tags.map (fun e => (e.1, Tags.toVal e.2))), ?_⟩
  simp only [if_true, Tags.new_none_eq]
  apply Tags.rebuild hi
  · intro k hk
    exact plain_not_mem hp (by simp only [reserved]; simp at hk ⊢; tauto)
  · intro k v hv i hiv
    have hmem : (k, Tags.toVal v) ∈ t.tags.map (fun e => (e.1, Tags.toVal e.2)) :=
      List.mem_map.2 ⟨(k, v), Dict.mem_of_get? hv, rfl⟩
    have := Tags.lt_inferN hmem (i := (i : Int)) (Tags.mem_tupleit_toVal.2 ⟨i, hiv, rfl⟩) (by omega)
    omega

theorem mkTags_plain {t : Tags} (hi : t.Inv) (hp : Plain t) {n : Nat} (hle : n ≠ 0 → t.n ≤ n) :
    ∃ m, mkTags n (.tags t) = .ok { n := m, tags := t.tags } ∧ (n ≠ 0 → m = n) := by
  by_cases hn : n = 0
  · subst hn
    obtain ⟨m, hm⟩ := mkTags_zero hi hp
    exact ⟨m, hm, fun h => absurd rfl h⟩
  · exact ⟨n, mkTags_eq hi hp hn (hle hn), fun _ => rfl⟩

/-! ### sorting runs -/

theorem _root_.Razorback.insertBy_map {f : α → β} {le : α → α → Bool} {le' : β → β → Bool}
    (h : ∀ a b, le' (f a) (f b) = le a b) (a : α) (l : List α) :
    insertBy le' (f a) (l.map f) = (insertBy le a l).map f := by
  induction l with
  | nil => rfl
  | cons b l ih =>
    simp only [List.map_cons, insertBy, h]
    split
    · rfl
    · rw [ih]; rfl

theorem _root_.Razorback.sortBy_map {f : α → β} {le : α → α → Bool} {le' : β → β → Bool}
    (h : ∀ a b, le' (f a) (f b) = le a b) (l : List α) : sortBy le' (l.map f) = (sortBy le l).map f := by
  induction l with
  | nil => rfl
  | cons a l ih => simp only [List.map_cons, sortBy]; rw [ih, insertBy_map h]

/-- The runs sorted by start. -/
def sortRuns (runs : List (Sync α κ)) : List (Sync α κ) :=
  sortBy (fun a b => decide (a.start ≤ b.start)) runs

theorem sortRuns_perm (runs : List (Sync α κ)) : (sortRuns runs).Perm runs := sortBy_perm _

theorem mem_sortRuns {runs : List (Sync α κ)} {r : Sync α κ} : r ∈ sortRuns runs ↔ r ∈ runs := mem_sortBy

theorem sortRuns_sorted (runs : List (Sync α κ)) :
    (sortRuns runs).Pairwise (fun a b => a.start ≤ b.start) := by
  have := sortBy_pairwise (le := fun a b : Sync α κ => decide (a.start ≤ b.start))
    (by intro a b; simp; exact le_total _ _)
    (by intro a b c; simp; exact le_trans) runs
  unfold sortRuns
  simpa using this

theorem sortRuns_of_sorted {runs : List (Sync α κ)} (h : runs.Pairwise (fun a b => a.start ≤ b.start)) :
    sortRuns runs = runs := by
  apply sortBy_of_pairwise
  simpa using h

theorem noOverlap_iff (l : List (ℚ × ℚ)) (hs : l.Pairwise (fun a b => a.1 ≤ b.1)) :
    noOverlap l = true ↔ l.Pairwise (fun a b => a.2 ≤ b.1) := by
  induction l with
  | nil => simp [noOverlap]
  | cons a l ih =>
    cases l with
    | nil => simp [noOverlap]
    | cons b l =>
      rw [List.pairwise_cons] at hs
      have ih' := ih hs.2
      simp only [noOverlap, Bool.and_eq_true, decide_eq_true_eq]
      rw [ih', List.pairwise_cons (a := a)]
      constructor
      · rintro ⟨h1, h2⟩
        refine ⟨?_, h2⟩
        intro c hc
        rcases List.mem_cons.1 hc with rfl | hc
        · exact h1
        · exact h1.trans ((List.pairwise_cons.1 hs.2).1 c hc)
      · rintro ⟨h1, h2⟩
        exact ⟨h1 b (by simp), h2⟩

theorem interval_map {runs : List (Sync α κ)} {ivs : List (ℚ × ℚ)} (h : mapE Sync.interval runs = .ok ivs) :
    (∀ r ∈ runs, r.rate ≠ 0) ∧ ivs = runs.map (fun r => (r.start, lastTime r)) := by
  induction runs generalizing ivs with
  | nil => simp [mapE] at h; simp [h]
  | cons r runs ih =>
    unfold mapE at h
    split at h
    · simp at h
    · rename_i i hi
      split at h
      · simp at h
      · rename_i is his
        obtain ⟨h1, h2⟩ := Sync.interval_ok hi
        obtain ⟨h3, h4⟩ := ih his
        simp only [Except.ok.injEq] at h
        subst h
        refine ⟨?_, by simp [h2, h4]⟩
        intro r' hr'
        rcases List.mem_cons.1 hr' with rfl | hr'
        · exact h1
        · exact h3 r' hr'

theorem interval_map_eq {runs : List (Sync α κ)} (h : ∀ r ∈ runs, r.rate ≠ 0) :
    mapE Sync.interval runs = .ok (runs.map (fun r => (r.start, lastTime r))) :=
  mapE_of_forall (fun r hr => Sync.interval_eq r (h r hr))

theorem dedup_length_le_one [DecidableEq β] {l : List β} :
    ¬ (1 < (dedup l).length) ↔ ∀ a ∈ l, ∀ b ∈ l, a = b := by
  constructor
  · intro h a ha b hb
    have ha' := mem_dedup.2 ha
    have hb' := mem_dedup.2 hb
    match hd : dedup l with
    | [] => rw [hd] at ha'; simp at ha'
    | [x] => rw [hd] at ha' hb'; simp at ha' hb'; rw [ha', hb']
    | x :: y :: r => rw [hd] at h; simp at h
  · intro h hl
    match hd : dedup l with
    | [] => rw [hd] at hl; simp at hl
    | [x] => rw [hd] at hl; simp at hl
    | x :: y :: r =>
      have := nodup_dedup l
      rw [hd] at this
      have hxy := h x (mem_dedup.1 (by simp [hd])) y (mem_dedup.1 (by simp [hd]))
      simp [hxy] at this

/-- The value of `stop`, computed with roundings. -/
def _root_.Razorback.Sync.stopAs [Rnd] (s : Sync α κ) : ℚ :=
  Rnd.rnd (s.start + Rnd.rnd (Rnd.rnd ((if (s.size : Int) - 1 < 0 then (s.size : Int) - 1 + s.size else (s.size : Int) - 1 : Int) : ℚ) / s.rate))

theorem _root_.Razorback.Sync.stop_as [Rnd] {s : Sync α κ} (h : s.rate ≠ 0) : s.stop = .ok s.stopAs := by
  unfold Sync.stop Sync.indexToTime Sync.stopAs
  simp only [h, if_false]

theorem _root_.Razorback.Sync.stopAs_exact {s : Sync α κ} (h : s.rate ≠ 0) : s.stopAs = lastTime s := by
  have h1 := Sync.stop_as h
  rw [Sync.stop_eq s h] at h1
  simpa using h1.symm

theorem _root_.Razorback.Sync.interval_as [Rnd] {s : Sync α κ} (h : s.rate ≠ 0) : s.interval = .ok (s.start, s.stopAs) := by
  unfold Sync.interval; rw [Sync.stop_as h]

theorem _root_.Razorback.Sync.interval_rate [Rnd] {s : Sync α κ} {i : ℚ × ℚ} (h : s.interval = .ok i) : s.rate ≠ 0 := by
  intro h0
  unfold Sync.interval Sync.stop Sync.indexToTime at h
  simp [h0] at h

theorem interval_map_as [Rnd] {runs : List (Sync α κ)} {ivs : List (ℚ × ℚ)} (h : mapE Sync.interval runs = .ok ivs) :
    (∀ r ∈ runs, r.rate ≠ 0) ∧ ivs = runs.map (fun r => (r.start, r.stopAs)) := by
  have hr : ∀ r ∈ runs, r.rate ≠ 0 := by
    intro r hr
    obtain ⟨i, hi⟩ := mapE_ok_forall h r hr
    exact Sync.interval_rate hi.2
  refine ⟨hr, ?_⟩
  rw [mapE_of_forall (fun r hr' => Sync.interval_as (hr r hr'))] at h
  simpa using h.symm

/-- Exact behaviour of construction from runs, whatever the rounding. -/
theorem build_as [Rnd] {tags : TagsArg} {runs : List (Sync α κ)} {S : SigSet α κ} :
    build tags runs = .ok S ↔
      (∀ r ∈ runs, ∀ r' ∈ runs, r.data.length = r'.data.length) ∧
      (∀ r ∈ runs, r.rate ≠ 0) ∧
      (sortRuns runs).Pairwise (fun a b => a.stopAs ≤ b.start) ∧
      S.runs = sortRuns runs ∧ mkTags (chanCount (sortRuns runs)) tags = .ok S.tags := by
  have hsorted := sortRuns_sorted runs
  have hl : ¬ (1 < (dedup (runs.map (fun s => s.data.length))).length) ↔
      ∀ r ∈ runs, ∀ r' ∈ runs, r.data.length = r'.data.length := by
    rw [dedup_length_le_one]; simp
  have hov : noOverlap (sortBy (fun a b => decide (a.1 ≤ b.1)) (runs.map (fun r => (r.start, r.stopAs)))) = true ↔
      (sortRuns runs).Pairwise (fun a b => a.stopAs ≤ b.start) := by
    rw [sortBy_map (f := fun r : Sync α κ => (r.start, r.stopAs))
      (le := fun a b => decide (a.start ≤ b.start)) (by intro a b; rfl), noOverlap_iff]
    · rw [List.pairwise_map]; exact Iff.rfl
    · rw [List.pairwise_map]; exact hsorted
  unfold build
  constructor
  · intro h
    split at h
    · simp at h
    · rename_i h1
      split at h
      · simp at h
      · rename_i ivs hivs
        obtain ⟨h2, rfl⟩ := interval_map_as hivs
        split at h
        · rename_i h3
          dsimp only at h
          split at h
          · simp at h
          · rename_i t ht
            simp only [Except.ok.injEq] at h
            subst h
            exact ⟨hl.1 h1, h2, hov.1 h3, rfl, ht⟩
        · simp at h
  · rintro ⟨h1, h2, h3, h4, h5⟩
    rw [if_neg (hl.2 h1), mapE_of_forall (fun r hr' => Sync.interval_as (h2 r hr'))]
    simp only [hov.2 h3, if_true]
    have : sortBy (fun a b : Sync α κ => decide (a.start ≤ b.start)) runs = sortRuns runs := rfl
    rw [this, h5]
    simp only [Except.ok.injEq]
    cases S; simp_all

/-- Exact behaviour of construction from runs. -/
theorem build_iff {tags : TagsArg} {runs : List (Sync α κ)} {S : SigSet α κ} :
    build tags runs = .ok S ↔
      (∀ r ∈ runs, ∀ r' ∈ runs, r.data.length = r'.data.length) ∧
      (∀ r ∈ runs, r.rate ≠ 0) ∧
      (sortRuns runs).Pairwise (fun a b => lastTime a ≤ b.start) ∧
      S.runs = sortRuns runs ∧ mkTags (chanCount (sortRuns runs)) tags = .ok S.tags := by
  have hsorted := sortRuns_sorted runs
  have hl : ¬ (1 < (dedup (runs.map (fun s => s.data.length))).length) ↔
      ∀ r ∈ runs, ∀ r' ∈ runs, r.data.length = r'.data.length := by
    rw [dedup_length_le_one]; simp
  have hov : noOverlap (sortBy (fun a b => decide (a.1 ≤ b.1)) (runs.map (fun r => (r.start, lastTime r)))) = true ↔
      (sortRuns runs).Pairwise (fun a b => lastTime a ≤ b.start) := by
    rw [sortBy_map (f := fun r : Sync α κ => (r.start, lastTime r))
      (le := fun a b => decide (a.start ≤ b.start)) (by intro a b; rfl), noOverlap_iff]
    · rw [List.pairwise_map]; exact Iff.rfl
    · rw [List.pairwise_map]; exact hsorted
  unfold build
  constructor
  · intro h
    split at h
    · simp at h
    · rename_i h1
      split at h
      · simp at h
      · rename_i ivs hivs
        obtain ⟨h2, rfl⟩ := interval_map hivs
        split at h
        · rename_i h3
          dsimp only at h
          split at h
          · simp at h
          · rename_i t ht
            simp only [Except.ok.injEq] at h
            subst h
            exact ⟨hl.1 h1, h2, hov.1 h3, rfl, ht⟩
        · simp at h
  · rintro ⟨h1, h2, h3, h4, h5⟩
    rw [if_neg (hl.2 h1), interval_map_eq h2]
    simp only [hov.2 h3, if_true]
    have : sortBy (fun a b : Sync α κ => decide (a.start ≤ b.start)) runs = sortRuns runs := rfl
    rw [this, h5]
    simp only [Except.ok.injEq]
    cases S; simp_all

theorem build_ok_setOK [Rnd] {tags : TagsArg} {runs : List (Sync α κ)} {S : SigSet α κ}
    (h : build tags runs = .ok S) (hw : ∀ r ∈ runs, WF r) : SetOKAs S ∧ S.tags.Inv := by
  obtain ⟨h1, h2, h3, h4, h5⟩ := build_as.1 h
  obtain ⟨h6, h7⟩ := mkTags_inv h5
  refine ⟨⟨?_, ?_, ?_, ?_, ?_, ?_⟩, h6⟩
  · rw [h4]; exact fun r hr => hw r (mem_sortRuns.1 hr)
  · rw [h4]; exact fun r hr => h2 r (mem_sortRuns.1 hr)
  · rw [h4]; exact fun r hr r' hr' => h1 r (mem_sortRuns.1 hr) r' (mem_sortRuns.1 hr')
  · rw [h4]; exact sortRuns_sorted runs
  · rw [h4]
    refine h3.imp_of_mem ?_
    intro a b ha _ hab
    exact ⟨_, Sync.stop_as (h2 a (mem_sortRuns.1 ha)), hab⟩
  · intro k v hv
    obtain ⟨l1, l2, l3⟩ := h6.legal k v (Tags.getItem_ok.1 hv)
    refine ⟨l1, l2, ?_⟩
    rw [h4]
    intro r hr i hi
    have hc : chanCount (sortRuns runs) = r.data.length := by
      cases hs : sortRuns runs with
      | nil => rw [hs] at hr; simp at hr
      | cons r0 rs =>
        exact h1 r0 (mem_sortRuns.1 (by rw [hs]; simp)) r (mem_sortRuns.1 hr)
    have hne : r.data.length ≠ 0 := by
      have := (hw r (mem_sortRuns.1 hr)).nonempty
      simpa using this
    have := h7 (by rw [hc]; exact hne)
    rw [hc] at this
    rw [← this]; exact l3 i hi

theorem build_tags_n [Rnd] {tags : TagsArg} {runs : List (Sync α κ)} {S : SigSet α κ}
    (h : build tags runs = .ok S) (hw : ∀ r ∈ runs, WF r) : ∀ r ∈ S.runs, S.tags.n = r.data.length := by
  obtain ⟨h1, h2, h3, h4, h5⟩ := build_as.1 h
  obtain ⟨h6, h7⟩ := mkTags_inv h5
  intro r hr
  rw [h4] at hr
  have hc : chanCount (sortRuns runs) = r.data.length := by
    cases hs : sortRuns runs with
    | nil => rw [hs] at hr; simp at hr
    | cons r0 rs =>
      exact h1 r0 (mem_sortRuns.1 (by rw [hs]; simp)) r (mem_sortRuns.1 hr)
  have hne : r.data.length ≠ 0 := by
    have := (hw r (mem_sortRuns.1 hr)).nonempty
    simpa using this
  rw [← hc]; exact h7 (by rw [hc]; exact hne)

end SigSet
end Razorback
