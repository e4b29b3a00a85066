/- Lemmas about the Python prelude. -/
import Verif.Model.Py
import Mathlib.Data.List.Forall2

namespace Razorback

/-! ### exceptions -/

@[simp] theorem guardE_ok {b : Bool} {e : Err} {u : Unit} : guardE b e = .ok u ↔ b = true := by
  unfold guardE; split <;> simp_all

@[simp] theorem guardE_error {b : Bool} {e e' : Err} :
    guardE b e = .error e' ↔ b = false ∧ e = e' := by
  unfold guardE; split <;> simp_all

theorem bind_ok {α β : Type _} {x : Except Err α} {f : α → Except Err β} {r : β} :
    (x >>= f) = .ok r ↔ ∃ a, x = .ok a ∧ f a = .ok r := by
  cases x <;> simp [bind, Except.bind]

theorem mapE_ok {α β : Type _} {f : α → Except Err β} {l : List α} {r : List β} :
    mapE f l = .ok r ↔ List.Forall₂ (fun a b => f a = .ok b) l r := by
  induction l generalizing r with
  | nil => simp [mapE, eq_comm]
  | cons a l ih =>
    unfold mapE
    constructor
    · intro h
      split at h
      · simp at h
      · rename_i b hb
        split at h
        · simp at h
        · rename_i bs hbs
          simp at h; subst h
          exact .cons hb (ih.1 hbs)
    · intro h
      cases h with
      | cons hb hbs => simp [hb, ih.2 hbs]

theorem mapE_length {α β : Type _} {f : α → Except Err β} {l : List α} {r : List β}
    (h : mapE f l = .ok r) : r.length = l.length := by
  induction l generalizing r with
  | nil => simp [mapE] at h; simp [← h]
  | cons a l ih =>
    unfold mapE at h
    split at h
    · simp at h
    · split at h
      · simp at h
      · rename_i bs hbs
        simp at h; subst h; simp [ih hbs]

theorem mapE_getElem {α β : Type _} {f : α → Except Err β} {l : List α} {r : List β}
    (h : mapE f l = .ok r) (i : Nat) (hi : i < l.length) (hr : i < r.length) :
    f l[i] = .ok r[i] := by
  induction l generalizing r i with
  | nil => simp at hi
  | cons a l ih =>
    unfold mapE at h
    split at h
    · simp at h
    · rename_i b hb
      split at h
      · simp at h
      · rename_i bs hbs
        simp at h; subst h
        cases i with
        | zero => simpa using hb
        | succ i => simpa using ih hbs i (by simpa using hi) (by simpa using hr)

theorem mapE_of_forall {α β : Type _} {f : α → Except Err β} {g : α → β} {l : List α}
    (h : ∀ a ∈ l, f a = .ok (g a)) : mapE f l = .ok (l.map g) := by
  induction l with
  | nil => rfl
  | cons a l ih =>
    unfold mapE
    simp [h a (by simp), ih (fun b hb => h b (by simp [hb]))]

theorem mapE_ok_forall {α β : Type _} {f : α → Except Err β} {l : List α} {r : List β}
    (h : mapE f l = .ok r) : ∀ a ∈ l, ∃ b ∈ r, f a = .ok b := by
  induction l generalizing r with
  | nil => simp
  | cons a l ih =>
    rw [mapE_ok] at h
    cases h with
    | cons hb hbs =>
      intro c hc
      rcases List.mem_cons.1 hc with rfl | hc
      · exact ⟨_, by simp, hb⟩
      · obtain ⟨b, hb', hf⟩ := ih (mapE_ok.2 hbs) c hc
        exact ⟨b, by simp [hb'], hf⟩

theorem mapE_ok_exists {α β : Type _} {f : α → Except Err β} {l : List α} {r : List β}
    (h : mapE f l = .ok r) : ∀ b ∈ r, ∃ a ∈ l, f a = .ok b := by
  induction l generalizing r with
  | nil => rw [mapE_ok] at h; cases h; simp
  | cons a l ih =>
    rw [mapE_ok] at h
    cases h with
    | cons hb hbs =>
      intro c hc
      rcases List.mem_cons.1 hc with rfl | hc
      · exact ⟨_, by simp, hb⟩
      · obtain ⟨b, hb', hf⟩ := ih (mapE_ok.2 hbs) c hc
        exact ⟨b, by simp [hb'], hf⟩

theorem mapE_error {α β : Type _} {f : α → Except Err β} {l : List α} {e : Err}
    (h : mapE f l = .error e) : ∃ a ∈ l, f a = .error e := by
  induction l with
  | nil => simp [mapE] at h
  | cons a l ih =>
    unfold mapE at h
    split at h
    · rename_i e' he'
      simp at h; subst h; exact ⟨a, by simp, he'⟩
    · split at h
      · rename_i e' he'
        simp at h; subst h
        obtain ⟨b, hb, hf⟩ := ih he'
        exact ⟨b, by simp [hb], hf⟩
      · simp at h

theorem mapE_append {α β : Type _} {f : α → Except Err β} {l l' : List α} {r r' : List β}
    (h : mapE f l = .ok r) (h' : mapE f l' = .ok r') : mapE f (l ++ l') = .ok (r ++ r') := by
  induction l generalizing r with
  | nil => simp [mapE] at h; subst h; simpa using h'
  | cons a l ih =>
    rw [mapE_ok] at h
    cases h with
    | cons hb hbs =>
      simp only [List.cons_append]
      unfold mapE
      simp [hb, ih (mapE_ok.2 hbs)]

/-! ### dictionaries -/

namespace Dict
variable {β : Type _}

theorem get?_nil (k : String) : get? ([] : Dict β) k = none := rfl

@[simp] theorem get?_cons (k' : String) (v : β) (d : Dict β) (k : String) :
    get? ((k', v) :: d) k = if k' = k then some v else get? d k := rfl

theorem get?_set (d : Dict β) (k : String) (v : β) (k' : String) :
    (d.set k v).get? k' = if k = k' then some v else d.get? k' := by
  induction d with
  | nil => simp [set, get?]
  | cons e d ih =>
    obtain ⟨k₀, v₀⟩ := e
    unfold set
    by_cases h : k₀ = k
    · subst h; simp
      by_cases h' : k₀ = k' <;> simp [h']
    · simp only [h, if_false, get?_cons, ih]
      by_cases h1 : k₀ = k'
      · have : ¬ k = k' := fun h2 => h (h1.trans h2.symm)
        simp [h1, this]
      · simp [h1]

theorem get?_erase (d : Dict β) (k k' : String) :
    (d.erase k).get? k' = if k = k' then none else d.get? k' := by
  induction d with
  | nil => simp [erase, get?]
  | cons e d ih =>
    obtain ⟨k₀, v₀⟩ := e
    unfold erase at ih ⊢
    by_cases h : k₀ = k
    · subst h
      simp only [ne_eq, decide_not, List.filter_cons, decide_true, Bool.not_true, Bool.false_eq_true,
        if_false]
      simp only [ne_eq, decide_not] at ih
      rw [ih]
      by_cases h' : k₀ = k' <;> simp [h']
    · simp only [ne_eq, decide_not, List.filter_cons, h, decide_false, Bool.not_false, if_true,
        get?_cons]
      simp only [ne_eq, decide_not] at ih
      rw [ih]
      by_cases h1 : k₀ = k'
      · have : ¬ k = k' := fun h2 => h (h1.trans h2.symm)
        simp [h1, this]
      · simp [h1]

theorem get?_eq_none {d : Dict β} {k : String} : d.get? k = none ↔ k ∉ d.keys := by
  induction d with
  | nil => simp [get?, keys]
  | cons e d ih =>
    obtain ⟨k₀, v₀⟩ := e
    simp only [get?_cons, keys, List.map_cons, List.mem_cons, not_or]
    unfold keys at ih
    by_cases h : k₀ = k
    · simp [h]
    · have : ¬ k = k₀ := fun h' => h h'.symm
      simp [h, ih, this]

theorem has_iff {d : Dict β} {k : String} : d.has k = true ↔ k ∈ d.keys := by
  unfold has
  rw [Option.isSome_iff_ne_none, Ne, get?_eq_none]; simp

theorem mem_of_get? {d : Dict β} {k : String} {v : β} (h : d.get? k = some v) : (k, v) ∈ d := by
  induction d with
  | nil => simp [get?] at h
  | cons e d ih =>
    obtain ⟨k₀, v₀⟩ := e
    simp only [get?_cons] at h
    split at h
    · rename_i h'; subst h'; simp at h; subst h; simp
    · simp [ih h]

theorem get?_of_mem {d : Dict β} (hd : d.keys.Nodup) {k : String} {v : β} (h : (k, v) ∈ d) :
    d.get? k = some v := by
  induction d with
  | nil => simp at h
  | cons e d ih =>
    obtain ⟨k₀, v₀⟩ := e
    simp only [keys, List.map_cons, List.nodup_cons] at hd
    simp only [get?_cons]
    rcases List.mem_cons.1 h with h | h
    · simp only [Prod.mk.injEq] at h; simp [h.1, h.2]
    · have : k₀ ≠ k := by
        rintro rfl
        exact hd.1 (List.mem_map.2 ⟨(k₀, v), h, rfl⟩)
      simp [this, ih hd.2 h]

theorem mem_iff_get? {d : Dict β} (hd : d.keys.Nodup) {k : String} {v : β} :
    (k, v) ∈ d ↔ d.get? k = some v := ⟨get?_of_mem hd, mem_of_get?⟩

theorem keys_set (d : Dict β) (k : String) (v : β) :
    (d.set k v).keys = if k ∈ d.keys then d.keys else d.keys ++ [k] := by
  induction d with
  | nil => simp [set, keys]
  | cons e d ih =>
    obtain ⟨k₀, v₀⟩ := e
    unfold set
    by_cases h : k₀ = k
    · subst h; simp [keys]
    · simp only [h, if_false]
      have h' : ¬ k = k₀ := fun e => h e.symm
      simp only [keys, List.map_cons] at ih ⊢
      rw [ih]
      by_cases hk : k ∈ List.map (fun x => x.1) d
      · simp [hk]
      · simp [hk, h']

theorem keys_erase (d : Dict β) (k : String) : (d.erase k).keys = d.keys.filter (· ≠ k) := by
  unfold erase keys
  rw [List.filter_map]; rfl

theorem nodup_set {d : Dict β} (hd : d.keys.Nodup) (k : String) (v : β) : (d.set k v).keys.Nodup := by
  rw [keys_set]
  split
  · exact hd
  · rename_i h
    rw [List.nodup_append]
    refine ⟨hd, by simp, ?_⟩
    intro a ha b hb
    simp at hb; subst hb
    rintro rfl; exact h ha

theorem nodup_erase {d : Dict β} (hd : d.keys.Nodup) (k : String) : (d.erase k).keys.Nodup := by
  rw [keys_erase]; exact hd.filter _

end Dict

/-! ### sets and sorting -/

theorem mem_dedup {α : Type _} [DecidableEq α] {a : α} {l : List α} : a ∈ dedup l ↔ a ∈ l := by
  induction l with
  | nil => simp [dedup]
  | cons b l ih =>
    unfold dedup
    split
    · rename_i h
      rw [ih, List.mem_cons]
      constructor
      · exact .inr
      · rintro (rfl | h')
        · exact ih.1 h
        · exact h'
    · simp [ih]

theorem nodup_dedup {α : Type _} [DecidableEq α] (l : List α) : (dedup l).Nodup := by
  induction l with
  | nil => simp [dedup]
  | cons b l ih =>
    unfold dedup
    split
    · exact ih
    · rename_i h; exact List.nodup_cons.2 ⟨h, ih⟩

theorem dedup_of_nodup {α : Type _} [DecidableEq α] {l : List α} (h : l.Nodup) : dedup l = l := by
  induction l with
  | nil => rfl
  | cons b l ih =>
    obtain ⟨h1, h2⟩ := List.nodup_cons.1 h
    unfold dedup
    rw [ih h2]; simp [h1]

section sort
variable {α : Type _} {le : α → α → Bool}

theorem insertBy_perm (a : α) (l : List α) : (insertBy le a l).Perm (a :: l) := by
  induction l with
  | nil => exact .refl _
  | cons b l ih =>
    unfold insertBy
    split
    · exact .refl _
    · exact ((List.Perm.cons b ih).trans (List.Perm.swap a b l))

theorem sortBy_perm (l : List α) : (sortBy le l).Perm l := by
  induction l with
  | nil => exact .refl _
  | cons a l ih => exact (insertBy_perm a _).trans (ih.cons a)

theorem mem_sortBy {a : α} {l : List α} : a ∈ sortBy le l ↔ a ∈ l := (sortBy_perm l).mem_iff

@[simp] theorem length_sortBy (l : List α) : (sortBy le l).length = l.length :=
  (sortBy_perm l).length_eq

theorem insertBy_pairwise (tot : ∀ a b, le a b = true ∨ le b a = true)
    (tr : ∀ a b c, le a b = true → le b c = true → le a c = true) (a : α) {l : List α}
    (h : l.Pairwise (fun a b => le a b = true)) :
    (insertBy le a l).Pairwise (fun a b => le a b = true) := by
  induction l with
  | nil => simp [insertBy]
  | cons b l ih =>
    obtain ⟨h1, h2⟩ := List.pairwise_cons.1 h
    unfold insertBy
    split
    · rename_i hab
      refine List.pairwise_cons.2 ⟨?_, h⟩
      intro c hc
      rcases List.mem_cons.1 hc with rfl | hc
      · exact hab
      · exact tr _ _ _ hab (h1 c hc)
    · rename_i hab
      refine List.pairwise_cons.2 ⟨?_, ih h2⟩
      intro c hc
      rcases List.mem_cons.1 ((insertBy_perm a l).mem_iff.1 hc) with rfl | hc
      · exact (tot _ _).resolve_left hab
      · exact h1 c hc

theorem sortBy_pairwise (tot : ∀ a b, le a b = true ∨ le b a = true)
    (tr : ∀ a b c, le a b = true → le b c = true → le a c = true) (l : List α) :
    (sortBy le l).Pairwise (fun a b => le a b = true) := by
  induction l with
  | nil => simp [sortBy]
  | cons a l ih => exact insertBy_pairwise tot tr a ih

theorem sortBy_of_pairwise {l : List α} (h : l.Pairwise (fun a b => le a b = true)) :
    sortBy le l = l := by
  induction l with
  | nil => rfl
  | cons a l ih =>
    obtain ⟨h1, h2⟩ := List.pairwise_cons.1 h
    unfold sortBy
    rw [ih h2]
    cases l with
    | nil => rfl
    | cons b l => unfold insertBy; simp [h1 b (by simp)]

/-- A list sorted by a strict relation is determined by its elements. -/
theorem perm_eq_of_pairwise {r : α → α → Prop} (asym : ∀ a b, r a b → ¬ r b a) {l l' : List α}
    (hp : l.Perm l') (h : l.Pairwise r) (h' : l'.Pairwise r) : l = l' := by
  induction l generalizing l' with
  | nil => exact hp.nil_eq
  | cons a l ih =>
    cases l' with
    | nil => exact absurd hp.symm.nil_eq (by simp)
    | cons b l' =>
      obtain ⟨h1, h2⟩ := List.pairwise_cons.1 h
      obtain ⟨h1', h2'⟩ := List.pairwise_cons.1 h'
      have hab : a = b := by
        by_cases hab : a = b
        · exact hab
        · have ha : a ∈ l' := by
            have := hp.mem_iff.1 (List.mem_cons_self (a := a) (l := l))
            exact (List.mem_cons.1 this).resolve_left hab
          have hb : b ∈ l := by
            have := hp.mem_iff.2 (List.mem_cons_self (a := b) (l := l'))
            exact (List.mem_cons.1 this).resolve_left (fun e => hab e.symm)
          exact absurd (h1 b hb) (asym _ _ (h1' a ha))
      subst hab
      rw [ih (List.Perm.cons_inv hp) h2 h2']

end sort
end Razorback
