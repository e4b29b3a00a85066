/-
Properties C01-C06: tag mappings.
-/
import Verif.Lemmas.Tags
import Verif.Lemmas.Fnmatch
import Mathlib.Data.List.Perm.Subperm

namespace Razorback.Props
open Razorback Razorback.Spec

/-- **C01.** Whatever the history of operations (failing ones included) on a constructed `Tags` object,
the range is the one fixed at construction and every entry is legal for it: a name starting with a
letter, a non-empty tuple of indices of the range. -/
theorem C01_tags_always_valid (n : Option Nat) (d : List (String × TagVal)) (t : Tags)
    (h : Tags.new n d = .ok t) (ops : List Tags.Op) :
    (t.run ops).n = t.n ∧ (∀ m, n = some m → t.n = m) ∧
      ∀ k v, (t.run ops).getItem k = .ok v → LegalTag t.n k v := by
  obtain ⟨h1, h2⟩ := Tags.new_inv h
  obtain ⟨h3, h4⟩ := Tags.run_inv h1 ops
  refine ⟨h4, ?_, ?_⟩
  · rintro m rfl; simpa using h2
  · intro k v hv
    rw [← h4]
    apply h3.legal
    unfold Tags.getItem at hv
    split at hv <;> simp_all

example : ∃ t, Tags.new (some 3) [("Ex", .int 0), ("H", .tup [1, 2])] = .ok t ∧
    (t.run [.setItem "Ey" (.int 7), .setItem "B" (.lst [2, 2]), .delItem "Ex", .setAttr "1x" (.int 0)]).tags
      = [("H", [1, 2]), ("B", [2, 2])] := ⟨_, rfl, by decide⟩

/-- **C02.** A history of operations on a `Tags` object is observationally a history on an abstract
insertion-ordered partial map (`Spec.TagMap`): same exceptions, and at the end the same names in the same
order with the same values.  In that specification a rejected assignment changes nothing and an accepted
one changes only its own name. -/
theorem C02_tags_refine_ordered_map (n : Option Nat) (d : List (String × TagVal)) (t : Tags)
    (h : Tags.new n d = .ok t) (ops : List Tags.Op) :
    (∀ m, n = some m → t.n = m) ∧ tagMap t = (TagMap.assignAll t.n .empty d).1 ∧
      TagMap.run t.n (tagMap t) ops = (tagMap (t.run ops), outs t ops) := by
  obtain ⟨h1, h2⟩ := Tags.new_inv h
  refine ⟨?_, ?_, Tags.run_refines t h1 ops⟩
  · rintro m rfl; simpa using h2
  · obtain ⟨n', hn', h3⟩ := Tags.new_eq h
    subst hn'
    have := Tags.assignAll_eq { n := n.getD (Tags.inferN d), tags := [] } d
    rw [h3] at this
    rw [h2]
    exact (congrArg Prod.fst this).symm

example : ∃ t, Tags.new none [("a", .int 0), ("b", .tup [4, 1])] = .ok t ∧ t.n = 5 ∧
    outs t [.setItem "c" (.int 5), .setItem "c" (.int 4)] = [some .value, none] := ⟨_, rfl, by decide, by decide⟩

/-- **C02.** A raising assignment leaves every entry and their order unchanged; an accepted one stores the
value and leaves all other entries unchanged. -/
theorem C02_assignment_frame (t : Tags) (k : String) (v : TagVal) :
    (∀ e, (t.step (.setItem k v)).2 = some e → (t.step (.setItem k v)).1 = t) ∧
    ((t.step (.setItem k v)).2 = none →
      (t.step (.setItem k v)).1.getItem k = .ok ((tupleit v).map Int.toNat) ∧
      ∀ k', k' ≠ k → (t.step (.setItem k v)).1.getItem k' = t.getItem k') := by
  simp only [Tags.step]
  cases h : t.setItem k v with
  | error e => simp [Tags.keep]
  | ok t' =>
    obtain ⟨_, _, _, rfl⟩ := Tags.setItem_ok.1 h
    refine ⟨by simp [Tags.keep], fun _ => ⟨?_, ?_⟩⟩
    · simp [Tags.keep, Tags.getItem, Dict.get?_set]
    · intro k' hk'
      have : ¬ k = k' := fun e => hk' e.symm
      simp [Tags.keep, Tags.getItem, Dict.get?_set, this]

example : ∃ t, Tags.new (some 2) [("a", .int 0)] = .ok t ∧ outs t [.setItem "b" (.int 5), .setItem "b" (.int 1)]
    = [some .value, none] := ⟨_, rfl, by decide⟩

/-- **C03.** Attribute access is item access; a tag name takes precedence over any method or property, and
methods are reachable exactly when no tag has their name.  Attribute assignment and deletion are item
assignment and deletion (with AttributeError instead of KeyError), except for the name `indices`, which
cannot be assigned that way. -/
theorem C03_attribute_is_item (t : Tags) (k : String) :
    (∀ v, t.getItem k = .ok v ↔ t.getAttr k = .ok (.tag v)) ∧
    (t.getAttr k = .ok (.cls k) ↔ t.getItem k = .error .key ∧ k ∈ Tags.classAttrs) ∧
    (k.toList.head? ≠ some '_' → k ≠ "indices" → ∀ v, t.setAttr k v = t.setItem k v) ∧
    (∀ v, t.setAttr "indices" v = .error .attr) ∧
    (∀ t', t.delAttr k = .ok t' ↔ t.delItem k = .ok t') ∧
    (t.delAttr k = .error .attr ↔ t.getItem k = .error .key) := by
  refine ⟨?_, ?_, ?_, ?_, ?_, ?_⟩
  · intro v
    unfold Tags.getItem Tags.getAttr
    cases t.tags.get? k with
    | none => by_cases hk : k ∈ Tags.classAttrs <;> simp [hk]
    | some w => simp
  · unfold Tags.getItem Tags.getAttr
    cases t.tags.get? k with
    | none => by_cases hk : k ∈ Tags.classAttrs <;> simp [hk]
    | some w => simp
  · intro h1 h2 v; simp [Tags.setAttr, h1, h2]
  · intro v; simp [Tags.setAttr]
  · intro t'
    unfold Tags.delAttr
    cases t.delItem k <;> simp
  · unfold Tags.delAttr Tags.getItem
    cases h : t.delItem k with
    | ok t' =>
      have := (Tags.delItem_ok.1 h).1
      cases h' : t.tags.get? k with
      | none => exact absurd this (Dict.get?_eq_none.1 h')
      | some v => simp
    | error e =>
      have := (Tags.delItem_error.1 h).1
      rw [Dict.get?_eq_none.2 this]; simp

/-- **C03.** A tag called like a mapping method makes that method uncallable (TypeError). -/
theorem C03_tag_hides_method (t : Tags) (k : String) (v : List Nat) (h : t.getItem k = .ok v) :
    t.callMethod k = .error .type := by
  unfold Tags.getItem at h
  unfold Tags.callMethod Dict.has
  split at h
  · rename_i h'; simp [h']
  · simp at h

example : ∃ t, Tags.new none [("keys", .int 0)] = .ok t ∧ t.kwargs = .error .type := ⟨_, rfl, by decide⟩

/-! C04 -/

theorem le_foldl_max (l : List Int) (i j : Int) : l.foldl max i < j ↔ i < j ∧ ∀ x ∈ l, x < j := by
  induction l generalizing i with
  | nil => simp
  | cons a l ih =>
    simp only [List.foldl_cons, ih, List.mem_cons, forall_eq_or_imp, ← and_assoc]
    refine and_congr_left' ?_
    omega

theorem inferN_le (d : List (String × TagVal)) (hpos : ∀ e ∈ d, ∀ i ∈ tupleit e.2, 0 ≤ i) (m : Nat) :
    Tags.inferN d ≤ m ↔ ∀ e ∈ d, ∀ i ∈ tupleit e.2, i < m := by
  have key : (∀ e ∈ d, ∀ i ∈ tupleit e.2, i < (m : Int)) ↔
      ∀ i ∈ d.flatMap (fun e => tupleit e.2), i < (m : Int) := by
    simp only [List.mem_flatMap, forall_exists_index, and_imp]
    exact ⟨fun h i e he hi => h e he i hi, fun h e he i hi => h i e he hi⟩
  have key2 : ∀ i ∈ d.flatMap (fun e => tupleit e.2), 0 ≤ i := by
    simp only [List.mem_flatMap, forall_exists_index, and_imp]
    exact fun i e he hi => hpos e he i hi
  rw [key]
  unfold Tags.inferN
  generalize d.flatMap (fun e => tupleit e.2) = l at key2
  cases l with
  | nil => simp
  | cons i l =>
    simp only [List.mem_cons, forall_eq_or_imp] at key2 ⊢
    rw [← le_foldl_max]; omega

theorem updateLoop_ok (t : Tags) (d : List (String × TagVal))
    (hidx : t.tags.get? "indices" = none) (hidx' : ∀ e ∈ d, e.1 ≠ "indices")
    (hname : ∀ e ∈ d, LegalName e.1) (hne : ∀ e ∈ d, tupleit e.2 ≠ [])
    (hr : ∀ e ∈ d, ∀ i ∈ tupleit e.2, 0 ≤ i ∧ i < t.n) (hnd : (d.map (·.1)).Nodup) :
    ∃ t', t.updateLoop d = (t', none) ∧ t'.n = t.n ∧
      (∀ e ∈ d, t'.tags.get? e.1 = some ((tupleit e.2).map Int.toNat)) ∧
      (∀ k, k ∉ d.map (·.1) → t'.tags.get? k = t.tags.get? k) := by
  induction d generalizing t with
  | nil => exact ⟨t, rfl, rfl, by simp, by simp⟩
  | cons e d ih =>
    obtain ⟨k, v⟩ := e
    have hset : t.setItem k v = .ok { t with tags := t.tags.set k ((tupleit v).map Int.toNat) } := by
      refine Tags.setItem_ok.2 ⟨hname (k, v) (by simp), hne (k, v) (by simp), ?_, rfl⟩
      intro i hi
      have := hr (k, v) (by simp) i hi
      refine ⟨this.1, ?_⟩
      simp only [Tags.indices, hidx, List.mem_range]; omega
    simp only [List.map_cons, List.nodup_cons] at hnd
    have hki : k ≠ "indices" := hidx' (k, v) (by simp)
    obtain ⟨t', h1, h2, h3, h4⟩ := ih { t with tags := t.tags.set k ((tupleit v).map Int.toNat) }
      (by simp [Dict.get?_set, hki, hidx]) (fun e he => hidx' e (by simp [he]))
      (fun e he => hname e (by simp [he])) (fun e he => hne e (by simp [he]))
      (fun e he => hr e (by simp [he])) hnd.2
    refine ⟨t', ?_, h2, ?_, ?_⟩
    · simp only [Tags.updateLoop, hset, h1]
    · intro e he
      rcases List.mem_cons.1 he with rfl | he
      · rw [h4 _ hnd.1]; simp [Dict.get?_set]
      · exact h3 e he
    · intro k' hk'
      simp only [List.map_cons, List.mem_cons, not_or] at hk'
      rw [h4 _ hk'.2]
      have : ¬ k = k' := fun e => hk'.1 e.symm
      simp [Dict.get?_set, this]

/-- **C04.** `Tags(**d)` without explicit size accepts every dictionary of legal names (none called
`indices`, see the example, nor like the parameters `n` and `self` of the constructor) and non-empty values of non-negative indices, stores exactly those values, and
its range size is the least one that contains every index. -/
theorem C04_inferred_range_minimal (d : List (String × TagVal))
    (hnd : (d.map (·.1)).Nodup) (hname : ∀ e ∈ d, LegalName e.1) (hidx : ∀ e ∈ d, e.1 ≠ "indices")
    (hkw : ∀ e ∈ d, e.1 ≠ "n" ∧ e.1 ≠ "self")
    (hne : ∀ e ∈ d, tupleit e.2 ≠ []) (hpos : ∀ e ∈ d, ∀ i ∈ tupleit e.2, 0 ≤ i) :
    ∃ t, Tags.new none d = .ok t ∧
      (∀ m, t.n ≤ m ↔ ∀ e ∈ d, ∀ i ∈ tupleit e.2, i < (m : Int)) ∧
      (∀ e ∈ d, t.getItem e.1 = .ok ((tupleit e.2).map Int.toNat)) ∧
      (∀ k, k ∉ d.map (·.1) → t.getItem k = .error .key) := by
  have hlt := (inferN_le d hpos (Tags.inferN d)).1 (Nat.le_refl _)
  obtain ⟨t, h1, h2, h3, h4⟩ := updateLoop_ok { n := Tags.inferN d, tags := [] } d rfl hidx hname hne
    (fun e he i hi => ⟨hpos e he i hi, hlt e he i hi⟩) hnd
  refine ⟨t, Tags.new_of_updateLoop hkw h1, ?_, ?_, ?_⟩
  · intro m; rw [h2]; exact inferN_le d hpos m
  · intro e he; simp [Tags.getItem, h3 e he]
  · intro k hk; simp [Tags.getItem, h4 k hk, Dict.get?]

example : ∃ t, Tags.new none [("Ex", .int 0), ("H", .tup [3, 1])] = .ok t ∧ t.n = 4 := ⟨_, rfl, rfl⟩
/-- the excluded name: a tag called `indices` restricts the entries that follow it. -/
example : Tags.new none [("indices", .int 0), ("a", .int 1)] = .error .value := by decide

/-! C05 -/

/-- **C05.** `Tags.filter` returns, without repetition, exactly the tag names matching one of the patterns
in the sense of `Spec.ShellMatch`. -/
theorem C05_filter_exact (t : Tags) (patterns : List String) :
    (t.filter patterns).Nodup ∧
    ∀ k, k ∈ t.filter patterns ↔
      (∃ v, t.getItem k = .ok v) ∧ ∃ p ∈ patterns, ShellMatch (Fnmatch.tokens p.toList) k.toList := by
  refine ⟨nodup_dedup _, ?_⟩
  intro k
  unfold Tags.filter
  rw [mem_dedup]
  simp only [List.mem_flatMap, Fnmatch.filter, List.mem_filter, Fnmatch.fnmatch, Fnmatch.matchToks_iff]
  have hk : (∃ v, t.getItem k = .ok v) ↔ k ∈ t.tags.keys := by
    unfold Tags.getItem
    cases h : t.tags.get? k with
    | none => simp [Dict.get?_eq_none.1 h]
    | some v =>
      simp only [Except.ok.injEq, exists_eq', true_iff]
      by_contra h'
      rw [Dict.get?_eq_none.2 h'] at h; simp at h
  rw [hk]
  constructor
  · rintro ⟨p, hp, h1, h2⟩; exact ⟨h1, p, hp, h2⟩
  · rintro ⟨h1, p, hp, h2⟩; exact ⟨p, hp, h1, h2⟩

/-- **C05.** The pattern text is read as intended: the text of a sequence of pattern elements (ordinary
characters, `?`, `*`, `[seq]`, `[!seq]`, `[a-b]`) is tokenised into those elements. -/
theorem C05_pattern_reading (ts : List Fnmatch.Tok) (p : List Char) (h : PatternText ts p) :
    Fnmatch.tokens p = ts := Fnmatch.tokens_text h

/-- **C05.** `Tags.filter_get` returns the strictly increasing list of exactly the indices of the selected
tags (for tag names not hiding the methods it uses). -/
theorem C05_filter_get_exact (t : Tags) (patterns : List String)
    (h1 : t.getItem "filter" = .error .key) (h2 : t.getItem "get" = .error .key) :
    ∃ l, t.filterGet patterns = .ok l ∧ l.Pairwise (· < ·) ∧
      ∀ i, i ∈ l ↔ ∃ k ∈ t.filter patterns, ∃ v, t.getItem k = .ok v ∧ i ∈ v := by
  have hm : ∀ k, t.getItem k = .error .key → t.callMethod k = .ok () := by
    intro k hk
    unfold Tags.getItem at hk
    unfold Tags.callMethod Dict.has
    split at hk <;> simp_all
  unfold Tags.filterGet
  rw [hm _ h1]
  simp only
  by_cases hn : t.filter patterns = []
  · rw [if_pos hn]; exact ⟨[], rfl, by simp, by simp [hn]⟩
  · rw [if_neg hn, hm _ h2]
    refine ⟨_, rfl, ?_, ?_⟩
    · have hle := sortBy_pairwise (le := fun a b : Nat => decide (a ≤ b))
        (by intro a b; simp; omega) (by intro a b c; simp; omega)
        (dedup ((t.filter patterns).flatMap (fun k => (t.tags.get? k).getD [])))
      have hnd := ((sortBy_perm (le := fun a b : Nat => decide (a ≤ b))
        (dedup ((t.filter patterns).flatMap (fun k => (t.tags.get? k).getD [])))).nodup_iff).2
        (nodup_dedup _)
      refine List.Pairwise.imp ?_ (hle.and hnd)
      intro a b hab
      simp only [decide_eq_true_eq, ne_eq] at hab
      omega
    · intro i
      rw [mem_sortBy, mem_dedup, List.mem_flatMap]
      constructor
      · rintro ⟨k, hk, hi⟩
        refine ⟨k, hk, ?_⟩
        unfold Tags.getItem
        cases hg : t.tags.get? k with
        | none => simp [hg] at hi
        | some v => simp [hg] at hi; exact ⟨v, rfl, hi⟩
      · rintro ⟨k, hk, v, hv, hi⟩
        refine ⟨k, hk, ?_⟩
        unfold Tags.getItem at hv
        cases hg : t.tags.get? k with
        | none => simp [hg] at hv
        | some w => simp [hg] at hv; subst hv; simpa using hi

example : ∃ t, Tags.new none [("Ex", .int 0), ("Ey", .int 1), ("Hx", .int 2)] = .ok t ∧
    t.filter ["E*", "?x"] = ["Ey", "Ex", "Hx"] ∧ t.filterGet ["E*", "?x"] = .ok [0, 1, 2] ∧
    t.getItem "filter" = .error .key ∧ t.getItem "get" = .error .key := by
  refine ⟨_, rfl, ?_, ?_, rfl, rfl⟩
  · simp [Tags.filter, Fnmatch.filter, Fnmatch.fnmatch, Fnmatch.tokens, Fnmatch.matchToks, Dict.set, Dict.keys,
      Fnmatch.Tok.one, dedup]
  · simp [Tags.filterGet, Tags.filter, Fnmatch.filter, Fnmatch.fnmatch, Fnmatch.tokens, Fnmatch.matchToks,
      Dict.set, Dict.keys, Fnmatch.Tok.one, dedup, Tags.callMethod, Dict.has, Dict.get?, tupleit, sortBy, insertBy]

/-! C06 -/

theorem dictEq_iff {a b : Dict (List Nat)} (ha : a.keys.Nodup) (hb : b.keys.Nodup) :
    Tags.dictEq a b = true ↔ ∀ k, a.get? k = b.get? k := by
  unfold Tags.dictEq
  simp only [Bool.and_eq_true, beq_iff_eq, List.all_eq_true]
  constructor
  · rintro ⟨hl, hall⟩
    have hsub : a.keys ⊆ b.keys := by
      intro k hk
      obtain ⟨e, he, rfl⟩ := List.mem_map.1 hk
      by_contra h
      rw [← Dict.get?_eq_none] at h
      rw [hall e he] at h; simp at h
    have hperm : a.keys.Perm b.keys := by
      refine (List.Nodup.subperm ha hsub).perm_of_length_le ?_
      simp [Dict.keys, hl]
    intro k
    by_cases hk : k ∈ a.keys
    · obtain ⟨e, he, rfl⟩ := List.mem_map.1 hk
      rw [hall e he]
      exact Dict.get?_of_mem ha he
    · have hk' : k ∉ b.keys := fun h => hk (hperm.mem_iff.2 h)
      rw [Dict.get?_eq_none.2 hk, Dict.get?_eq_none.2 hk']
  · intro h
    constructor
    · have hperm : a.keys.Perm b.keys := by
        rw [List.perm_ext_iff_of_nodup ha hb]
        intro k
        by_contra hk
        have h1 := @Dict.get?_eq_none _ a k
        have h2 := @Dict.get?_eq_none _ b k
        rw [h k, h2] at h1
        exact hk (by tauto)
      simpa [Dict.keys] using hperm.length_eq
    · rintro ⟨k, v⟩ he
      rw [← h k]; exact Dict.get?_of_mem ha he

theorem getItem_eq_iff {a b : Tags} : (∀ k, a.getItem k = b.getItem k) ↔ ∀ k, a.tags.get? k = b.tags.get? k := by
  constructor
  · intro h k
    have := h k
    unfold Tags.getItem at this
    cases ha : a.tags.get? k <;> cases hb : b.tags.get? k <;> simp_all
  · intro h k; unfold Tags.getItem; rw [h k]

/-- **C06.** Two (constructed and then edited) `Tags` objects are equal exactly when they give the same
value to every name and have the same set of indices, whatever the insertion orders. -/
theorem C06_eq_iff (a b : Tags) (ha : a.Inv) (hb : b.Inv) :
    a.eq b = true ↔ (∀ k, a.getItem k = b.getItem k) ∧ (∀ i, i ∈ a.indices ↔ i ∈ b.indices) := by
  rw [getItem_eq_iff]
  unfold Tags.eq
  rw [Bool.and_eq_true, dictEq_iff ha.nodup hb.nodup]
  constructor
  · rintro ⟨h1, h2⟩
    refine ⟨h1, ?_⟩
    unfold Tags.indices
    rw [h1 "indices"] at h2 ⊢
    cases hb' : b.tags.get? "indices" with
    | some v => simp
    | none => simp [hb'] at h2; simp [h2]
  · rintro ⟨h1, h2⟩
    refine ⟨h1, ?_⟩
    unfold Tags.indices at h2
    rw [h1 "indices"] at h2 ⊢
    cases hb' : b.tags.get? "indices" with
    | some v => simp
    | none =>
      simp only [hb', List.mem_range] at h2
      have h3 := h2 a.n
      have h4 := h2 b.n
      simp; omega

/-- **C06.** Equality of `Tags` is an equivalence relation. -/
theorem C06_equivalence (a b c : Tags) (ha : a.Inv) (hb : b.Inv) (hc : c.Inv) :
    a.eq a = true ∧ (a.eq b = true → b.eq a = true) ∧
      (a.eq b = true → b.eq c = true → a.eq c = true) := by
  simp only [C06_eq_iff _ _ ha ha, C06_eq_iff _ _ ha hb, C06_eq_iff _ _ hb ha, C06_eq_iff _ _ hb hc,
    C06_eq_iff _ _ ha hc]
  refine ⟨by simp, ?_, ?_⟩
  · rintro ⟨h1, h2⟩; exact ⟨fun k => (h1 k).symm, fun i => (h2 i).symm⟩
  · rintro ⟨h1, h2⟩ ⟨h3, h4⟩; exact ⟨fun k => (h1 k).trans (h3 k), fun i => (h2 i).trans (h4 i)⟩

/-- Every constructed and edited `Tags` satisfies the hypothesis of the two previous theorems. -/
theorem C06_hypothesis_reachable (n : Option Nat) (d : List (String × TagVal)) (t : Tags)
    (h : Tags.new n d = .ok t) (ops : List Tags.Op) : (t.run ops).Inv :=
  (Tags.run_inv (Tags.new_inv h).1 ops).1

example : ∃ a b, Tags.new (some 2) [("a", .int 0), ("b", .int 1)] = .ok a ∧
    Tags.new (some 2) [("b", .int 1), ("a", .int 0)] = .ok b ∧ a ≠ b ∧ a.eq b = true :=
  ⟨_, _, rfl, rfl, by decide, by decide⟩

end Razorback.Props
