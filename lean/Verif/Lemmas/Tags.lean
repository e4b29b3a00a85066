import Verif.Lemmas.Py
import Verif.Spec.Tags

namespace Razorback.Tags
open Razorback.Spec

/-- The invariant of `Tags` objects. -/
structure Inv (t : Tags) : Prop where
  nodup : t.tags.keys.Nodup
  legal : ∀ k v, t.tags.get? k = some v → LegalTag t.n k v

theorem inv_empty (n : Nat) : Inv { n := n, tags := [] } :=
  ⟨by simp [Dict.keys], by simp [Dict.get?]⟩

theorem startsAlpha_iff {k : String} : startsAlpha k = true ↔ LegalName k := by
  unfold startsAlpha LegalName
  split
  · rename_i h; simp [h]
  · rename_i c cs h; simp [h]

theorem Inv.indices_lt {t : Tags} (h : t.Inv) : ∀ i ∈ t.indices, i < t.n := by
  unfold indices
  split
  · rename_i v hv; exact (h.legal _ _ hv).2.2
  · intro i hi; simpa using hi

open Classical in
/-- Exact behaviour of an assignment. -/
theorem setItem_eq (t : Tags) (k : String) (v : TagVal) :
    t.setItem k v =
      if ¬ LegalName k ∨ tupleit v = [] then .error .assertion
      else if ∀ i ∈ tupleit v, 0 ≤ i ∧ i.toNat ∈ t.indices then
        .ok { t with tags := t.tags.set k ((tupleit v).map Int.toNat) }
      else .error .value := by
  have hall : (tupleit v).all (fun i => decide (0 ≤ i) && t.indices.contains i.toNat) = true ↔
      ∀ i ∈ tupleit v, 0 ≤ i ∧ i.toNat ∈ t.indices := by
    simp only [List.all_eq_true, Bool.and_eq_true, decide_eq_true_eq, List.contains_iff_mem]
  unfold setItem
  simp only [← startsAlpha_iff, ← hall]
  generalize (tupleit v).all (fun i => decide (0 ≤ i) && t.indices.contains i.toNat) = b
  cases startsAlpha k <;> by_cases h2 : tupleit v = [] <;> cases b <;> simp [h2]

theorem setItem_ok {t t' : Tags} {k : String} {v : TagVal} :
    t.setItem k v = .ok t' ↔
      LegalName k ∧ tupleit v ≠ [] ∧ (∀ i ∈ tupleit v, 0 ≤ i ∧ i.toNat ∈ t.indices) ∧
        t' = { t with tags := t.tags.set k ((tupleit v).map Int.toNat) } := by
  rw [setItem_eq]
  split
  · rename_i h
    constructor
    · intro h'; simp at h'
    · rintro ⟨h1, h2, -⟩; rcases h with h | h <;> contradiction
  · rename_i h
    simp only [not_or, Classical.not_not] at h
    split
    · rename_i h'
      rw [Except.ok.injEq]
      exact ⟨fun e => ⟨h.1, h.2, h', e.symm⟩, fun e => e.2.2.2.symm⟩
    · rename_i h'
      constructor
      · intro h'; simp at h'
      · rintro ⟨-, -, h3, -⟩; exact absurd h3 h'

theorem setItem_error {t : Tags} {k : String} {v : TagVal} {e : Err} :
    t.setItem k v = .error e ↔
      ((¬ LegalName k ∨ tupleit v = []) ∧ e = .assertion) ∨
      (LegalName k ∧ tupleit v ≠ [] ∧ ¬ (∀ i ∈ tupleit v, 0 ≤ i ∧ i.toNat ∈ t.indices) ∧ e = .value) := by
  rw [setItem_eq]
  split
  · rename_i h
    rw [Except.error.injEq]
    constructor
    · intro h'; exact .inl ⟨h, h'.symm⟩
    · rintro (h' | ⟨h1, h2, -⟩)
      · exact h'.2.symm
      · rcases h with h | h <;> contradiction
  · rename_i h
    simp only [not_or, Classical.not_not] at h
    split
    · rename_i h'
      constructor
      · intro h'; simp at h'
      · rintro (⟨h1 | h1, -⟩ | ⟨-, -, h3, -⟩)
        · exact absurd h.1 h1
        · exact absurd h1 h.2
        · exact absurd h' h3
    · rename_i h'
      rw [Except.error.injEq]
      constructor
      · intro e; exact .inr ⟨h.1, h.2, h', e.symm⟩
      · rintro (⟨h1 | h1, -⟩ | ⟨-, -, -, h4⟩)
        · exact absurd h.1 h1
        · exact absurd h1 h.2
        · exact h4.symm

theorem setItem_inv {t t' : Tags} (hi : t.Inv) {k : String} {v : TagVal} (h : t.setItem k v = .ok t') :
    t'.Inv ∧ t'.n = t.n := by
  obtain ⟨h1, h2, h3, rfl⟩ := setItem_ok.1 h
  refine ⟨⟨Dict.nodup_set hi.nodup _ _, ?_⟩, rfl⟩
  intro k' v' hv'
  rw [Dict.get?_set] at hv'
  split at hv'
  · rename_i hk; subst hk
    simp at hv'; subst hv'
    refine ⟨h1, by simpa using h2, ?_⟩
    intro i hi'
    obtain ⟨j, hj, rfl⟩ := List.mem_map.1 hi'
    exact hi.indices_lt _ (h3 j hj).2
  · exact hi.legal _ _ hv'

theorem delItem_ok {t t' : Tags} {k : String} :
    t.delItem k = .ok t' ↔ k ∈ t.tags.keys ∧ t' = { t with tags := t.tags.erase k } := by
  unfold delItem
  rw [← Dict.has_iff]
  by_cases h : t.tags.has k = true <;> simp [h, eq_comm]

theorem delItem_error {t : Tags} {k : String} {e : Err} :
    t.delItem k = .error e ↔ k ∉ t.tags.keys ∧ e = .key := by
  unfold delItem
  rw [← Dict.has_iff]
  by_cases h : t.tags.has k = true <;> simp [h, eq_comm]

theorem delItem_inv {t t' : Tags} (hi : t.Inv) {k : String} (h : t.delItem k = .ok t') :
    t'.Inv ∧ t'.n = t.n := by
  obtain ⟨h1, rfl⟩ := delItem_ok.1 h
  refine ⟨⟨Dict.nodup_erase hi.nodup _, ?_⟩, rfl⟩
  intro k' v' hv'
  rw [Dict.get?_erase] at hv'
  split at hv'
  · simp at hv'
  · exact hi.legal _ _ hv'

theorem updateLoop_inv {t : Tags} (hi : t.Inv) (l : List (String × TagVal)) :
    (t.updateLoop l).1.Inv ∧ (t.updateLoop l).1.n = t.n := by
  induction l generalizing t with
  | nil => exact ⟨hi, rfl⟩
  | cons e l ih =>
    obtain ⟨k, v⟩ := e
    unfold updateLoop
    split
    · exact ⟨hi, rfl⟩
    · rename_i t' h
      obtain ⟨h1, h2⟩ := setItem_inv hi h
      obtain ⟨h3, h4⟩ := ih h1
      exact ⟨h3, h4.trans h2⟩

theorem keep_inv {t : Tags} (hi : t.Inv) {r : Except Err Tags}
    (h : ∀ t', r = .ok t' → t'.Inv ∧ t'.n = t.n) : (keep t r).1.Inv ∧ (keep t r).1.n = t.n := by
  unfold keep
  split
  · exact h _ rfl
  · exact ⟨hi, rfl⟩

theorem step_inv {t : Tags} (hi : t.Inv) (o : Op) : (t.step o).1.Inv ∧ (t.step o).1.n = t.n := by
  cases o with
  | setItem k v => exact keep_inv hi (fun _ => setItem_inv hi)
  | delItem k => exact keep_inv hi (fun _ => delItem_inv hi)
  | setAttr k v =>
    refine keep_inv hi (fun t' h => ?_)
    unfold setAttr at h
    split at h
    · simp at h; subst h; exact ⟨hi, rfl⟩
    · split at h
      · simp at h
      · exact setItem_inv hi h
  | delAttr k =>
    refine keep_inv hi (fun t' h => ?_)
    unfold delAttr at h
    split at h
    · rename_i h'; simp at h; subst h; exact delItem_inv hi h'
    · simp at h
  | update l =>
    unfold step; simp only
    split
    · exact ⟨hi, rfl⟩
    · exact updateLoop_inv hi l
  | pop k =>
    unfold step; simp only
    split
    · exact ⟨hi, rfl⟩
    · exact keep_inv hi (fun _ => delItem_inv hi)
  | clear =>
    unfold step; simp only
    split
    · exact ⟨hi, rfl⟩
    · split
      · exact ⟨hi, rfl⟩
      · exact ⟨inv_empty _, rfl⟩
  | setdefault k v =>
    unfold step; simp only
    split
    · exact ⟨hi, rfl⟩
    · split
      · exact ⟨hi, rfl⟩
      · exact keep_inv hi (fun _ => setItem_inv hi)

theorem run_inv {t : Tags} (hi : t.Inv) (ops : List Op) : (t.run ops).Inv ∧ (t.run ops).n = t.n := by
  induction ops generalizing t with
  | nil => exact ⟨hi, rfl⟩
  | cons o ops ih =>
    obtain ⟨h1, h2⟩ := step_inv hi o
    obtain ⟨h3, h4⟩ := ih h1
    exact ⟨h3, h4.trans h2⟩

theorem new_eq {n : Option Nat} {d : List (String × TagVal)} {t : Tags} (h : Tags.new n d = .ok t) :
    ∃ n', n' = n.getD (inferN d) ∧ updateLoop { n := n', tags := [] } d = (t, none) := by
  unfold new at h
  refine ⟨_, rfl, ?_⟩
  cases n <;> simp only [Option.getD] at h ⊢
  all_goals
    split at h
    · simp at h
    · split at h
      · rename_i h'; simp at h; rw [h', h]
      · simp at h

theorem new_of_updateLoop {n : Option Nat} {d : List (String × TagVal)} {t : Tags}
    (hd : ∀ e ∈ d, e.1 ≠ "n" ∧ e.1 ≠ "self")
    (h : updateLoop { n := n.getD (inferN d), tags := [] } d = (t, none)) : Tags.new n d = .ok t := by
  unfold new
  have : (d.any (fun e => e.1 == "n" || e.1 == "self")) = false := by
    simp only [List.any_eq_false]
    intro e he
    have := hd e he
    simp [this.1, this.2]
  rw [this]
  cases n <;> simp only [Option.getD] at h <;> simp [h]

theorem new_inv {n : Option Nat} {d : List (String × TagVal)} {t : Tags} (h : Tags.new n d = .ok t) :
    t.Inv ∧ t.n = n.getD (inferN d) := by
  obtain ⟨n', h1, h2⟩ := new_eq h
  have := updateLoop_inv (inv_empty n') d
  rw [h2] at this
  exact ⟨this.1, this.2.trans h1⟩

/-! ### refinement -/

theorem tagMap_val (t : Tags) (k : String) : (tagMap t).val k = t.tags.get? k := by
  unfold tagMap getItem
  simp only
  cases t.tags.get? k <;> rfl

theorem tagMap_order (t : Tags) : (tagMap t).order = t.tags.keys := rfl

theorem allowed_iff (t : Tags) (i : Int) :
    TagMap.Allowed t.n (tagMap t) i ↔ 0 ≤ i ∧ i.toNat ∈ t.indices := by
  unfold TagMap.Allowed indices
  rw [tagMap_val]
  cases t.tags.get? "indices" <;> simp

theorem tagMap_set (t : Tags) (k : String) (v : List Nat) :
    tagMap { t with tags := t.tags.set k v } = (tagMap t).put k v := by
  unfold TagMap.put
  rw [tagMap_order]
  unfold tagMap
  congr 1
  · exact Dict.keys_set t.tags k v
  · funext k'
    unfold getItem
    simp only [Dict.get?_set]
    by_cases h : k = k'
    · subst h; simp [Except.toOption]
    · have h' : ¬ k' = k := fun e => h e.symm
      simp [h, h']

theorem tagMap_erase (t : Tags) (k : String) :
    tagMap { t with tags := t.tags.erase k } = (tagMap t).drop k := by
  unfold TagMap.drop
  rw [tagMap_order]
  unfold tagMap
  congr 1
  · exact Dict.keys_erase t.tags k
  · funext k'
    unfold getItem
    simp only [Dict.get?_erase]
    by_cases h : k = k'
    · subst h; simp [Except.toOption]
    · have h' : ¬ k' = k := fun e => h e.symm
      simp [h, h']

theorem assign_eq (t : Tags) (k : String) (v : TagVal) :
    TagMap.assign t.n (tagMap t) k v = (tagMap (keep t (t.setItem k v)).1, (keep t (t.setItem k v)).2) := by
  unfold TagMap.assign
  have hall : (∀ i ∈ tupleit v, TagMap.Allowed t.n (tagMap t) i) ↔
      (∀ i ∈ tupleit v, 0 ≤ i ∧ i.toNat ∈ t.indices) := by
    constructor
    · intro h i hi; exact (allowed_iff t i).1 (h i hi)
    · intro h i hi; exact (allowed_iff t i).2 (h i hi)
  by_cases h1 : ¬ LegalName k ∨ tupleit v = []
  · have : t.setItem k v = .error .assertion := setItem_error.2 (.inl ⟨h1, rfl⟩)
    simp [h1, this, keep]
  · have h1' := h1
    simp only [not_or, Classical.not_not] at h1'
    rw [if_neg h1]
    by_cases h2 : ∀ i ∈ tupleit v, TagMap.Allowed t.n (tagMap t) i
    · have : t.setItem k v = .ok _ := setItem_ok.2 ⟨h1'.1, h1'.2, hall.1 h2, rfl⟩
      rw [if_pos h2, this]
      simp only [keep]
      rw [tagMap_set]
    · have : t.setItem k v = .error .value :=
        setItem_error.2 (.inr ⟨h1'.1, h1'.2, fun h => h2 (hall.2 h), rfl⟩)
      rw [if_neg h2, this]
      rfl

theorem keep_n {t : Tags} (k : String) (v : TagVal) : (keep t (t.setItem k v)).1.n = t.n := by
  unfold keep
  split
  · rename_i t' h
    obtain ⟨_, _, _, rfl⟩ := setItem_ok.1 h; rfl
  · rfl

theorem assignAll_eq (t : Tags) (l : List (String × TagVal)) :
    TagMap.assignAll t.n (tagMap t) l = (tagMap (t.updateLoop l).1, (t.updateLoop l).2) := by
  induction l generalizing t with
  | nil => rfl
  | cons e l ih =>
    obtain ⟨k, v⟩ := e
    unfold TagMap.assignAll updateLoop
    rw [assign_eq]
    cases h : t.setItem k v with
    | error e => simp [keep]
    | ok t' =>
      simp only [keep]
      have : t'.n = t.n := by obtain ⟨_, _, _, rfl⟩ := setItem_ok.1 h; rfl
      rw [← this, ih]

theorem val_eq_none {t : Tags} {k : String} : (tagMap t).val k = none ↔ k ∉ t.tags.keys := by
  rw [tagMap_val, Dict.get?_eq_none]

theorem delete_eq (t : Tags) (k : String) :
    TagMap.delete (tagMap t) k .key = (tagMap (keep t (t.delItem k)).1, (keep t (t.delItem k)).2) := by
  unfold TagMap.delete
  by_cases h : k ∈ t.tags.keys
  · have h1 : t.delItem k = .ok _ := delItem_ok.2 ⟨h, rfl⟩
    have h2 : ¬ (tagMap t).val k = none := fun h' => val_eq_none.1 h' h
    rw [if_neg h2, h1]
    simp only [keep]
    rw [tagMap_erase]
  · have h1 : t.delItem k = .error .key := delItem_error.2 ⟨h, rfl⟩
    have h2 : (tagMap t).val k = none := val_eq_none.2 h
    rw [if_pos h2, h1]
    rfl

theorem deleteAttr_eq (t : Tags) (k : String) :
    TagMap.delete (tagMap t) k .attr = (tagMap (keep t (t.delAttr k)).1, (keep t (t.delAttr k)).2) := by
  unfold TagMap.delete delAttr
  by_cases h : k ∈ t.tags.keys
  · have h1 : t.delItem k = .ok _ := delItem_ok.2 ⟨h, rfl⟩
    have h2 : ¬ (tagMap t).val k = none := fun h' => val_eq_none.1 h' h
    rw [if_neg h2, h1]
    simp only [keep]
    rw [tagMap_erase]
  · have h1 : t.delItem k = .error .key := delItem_error.2 ⟨h, rfl⟩
    have h2 : (tagMap t).val k = none := val_eq_none.2 h
    rw [if_pos h2, h1]
    rfl

theorem callMethod_eq (t : Tags) (name : String) (r : TagMap × Option Err) (r' : Tags × Option Err)
    (h : r = (tagMap r'.1, r'.2)) :
    TagMap.method (tagMap t) name r =
      (tagMap (match t.callMethod name with | .error e => (t, some e) | .ok _ => r').1,
       (match t.callMethod name with | .error e => (t, some e) | .ok _ => r').2) := by
  unfold TagMap.method callMethod
  by_cases hk : t.tags.has name = true
  · have h2 : ¬ (tagMap t).val name = none := fun h' => val_eq_none.1 h' (Dict.has_iff.1 hk)
    simp [h2, hk]
  · have h2 : (tagMap t).val name = none := val_eq_none.2 (fun h' => hk (Dict.has_iff.2 h'))
    simp [h2, hk, h]

theorem step_refines (t : Tags) (o : Op) :
    TagMap.step t.n (tagMap t) o = (tagMap (t.step o).1, (t.step o).2) := by
  cases o with
  | setItem k v => exact assign_eq t k v
  | delItem k => exact delete_eq t k
  | setAttr k v =>
    simp only [TagMap.step, step, setAttr]
    by_cases h1 : k.toList.head? = some '_'
    · simp [h1, keep]
    · by_cases h2 : k = "indices"
      · simp only [h2, if_true]; simp [keep]
      · simp only [h1, h2, if_false]; exact assign_eq t k v
  | delAttr k => exact deleteAttr_eq t k
  | update l => exact callMethod_eq t _ _ _ (assignAll_eq t l)
  | pop k => exact callMethod_eq t _ _ _ (delete_eq t k)
  | clear =>
    refine callMethod_eq t _ _ _ ?_
    refine callMethod_eq t _ _ ({ t with tags := [] }, none) ?_
    rfl
  | setdefault k v =>
    refine callMethod_eq t _ _ (if t.tags.has k then (t, none) else keep t (t.setItem k v)) ?_
    by_cases h : k ∈ t.tags.keys
    · have h2 : ¬ (tagMap t).val k = none := fun h' => val_eq_none.1 h' h
      simp [h2, Dict.has_iff.2 h]
    · have h2 : (tagMap t).val k = none := val_eq_none.2 h
      have h3 : t.tags.has k = false := by
        cases h4 : t.tags.has k with
        | false => rfl
        | true => exact absurd (Dict.has_iff.1 h4) h
      simp only [h2, if_true, h3]
      exact assign_eq t k v

theorem run_refines (t : Tags) (hi : t.Inv) (ops : List Op) :
    TagMap.run t.n (tagMap t) ops = (tagMap (t.run ops), outs t ops) := by
  induction ops generalizing t with
  | nil => rfl
  | cons o ops ih =>
    simp only [TagMap.run, step_refines, outs]
    obtain ⟨h1, h2⟩ := step_inv hi o
    rw [← h2, ih _ h1]
    rfl

end Razorback.Tags
