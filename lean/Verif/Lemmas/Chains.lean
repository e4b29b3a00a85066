/-
Maximal chains of a list for a boolean relation between neighbours.
-/
import Mathlib.Data.List.Basic
import Mathlib.Data.List.Perm.Basic
import Mathlib.Data.List.Range
import Verif.Lemmas.Py

namespace Razorback
variable {β : Type _}

/-- Maximal chains (proof device; the specification is `Spec.Chains`). -/
def chains (R : β → β → Bool) : List β → List (List β)
  | [] => []
  | a :: l =>
    match chains R l with
    | (b :: g) :: gs => if R a b then (a :: b :: g) :: gs else [a] :: (b :: g) :: gs
    | gs => [a] :: gs

theorem chains_cons (R : β → β → Bool) (a : β) (l : List β) : ∃ g gs, chains R (a :: l) = (a :: g) :: gs := by
  rw [chains.eq_2]
  split
  · split
    · exact ⟨_, _, rfl⟩
    · exact ⟨_, _, rfl⟩
  · exact ⟨_, _, rfl⟩

theorem chains_one (R : β → β → Bool) (a : β) : chains R [a] = [[a]] := rfl

theorem chains_step (R : β → β → Bool) (a b : β) (l : List β) {g : List β} {gs : List (List β)}
    (h : chains R (b :: l) = (b :: g) :: gs) :
    chains R (a :: b :: l) = if R a b then (a :: b :: g) :: gs else [a] :: (b :: g) :: gs := by
  rw [chains.eq_2, h]

theorem chains_flatten (R : β → β → Bool) (l : List β) : (chains R l).flatten = l := by
  induction l with
  | nil => rfl
  | cons a l ih =>
    cases l with
    | nil => rfl
    | cons b l =>
      obtain ⟨g, gs, h⟩ := chains_cons R b l
      rw [h] at ih
      rw [chains_step R a b l h]
      split <;> simpa using ih

theorem chains_ne (R : β → β → Bool) (l : List β) : [] ∉ chains R l := by
  induction l with
  | nil => simp [chains]
  | cons a l ih =>
    cases l with
    | nil => simp [chains]
    | cons b l =>
      obtain ⟨g, gs, h⟩ := chains_cons R b l
      rw [h] at ih
      rw [chains_step R a b l h]
      split <;> simpa using ih

theorem chains_chain (R : β → β → Bool) (l : List β) :
    ∀ g ∈ chains R l, g.IsChain (fun a b => R a b = true) := by
  induction l with
  | nil => simp [chains]
  | cons a l ih =>
    cases l with
    | nil => simp [chains]
    | cons b l =>
      obtain ⟨g, gs, h⟩ := chains_cons R b l
      rw [h] at ih
      rw [chains_step R a b l h]
      split
      · rename_i hR
        intro g' hg'
        rcases List.mem_cons.1 hg' with rfl | hg'
        · exact List.isChain_cons_cons.2 ⟨hR, ih _ (by simp)⟩
        · exact ih _ (by simp [hg'])
      · intro g' hg'
        rcases List.mem_cons.1 hg' with rfl | hg'
        · simp
        · exact ih _ hg'

theorem chains_maximal (R : β → β → Bool) (l : List β) :
    (chains R l).IsChain (fun g g' => ∀ a ∈ g.getLast?, ∀ b ∈ g'.head?, ¬ R a b = true) := by
  induction l with
  | nil => simp [chains]
  | cons a l ih =>
    cases l with
    | nil => simp [chains]
    | cons b l =>
      obtain ⟨g, gs, h⟩ := chains_cons R b l
      rw [h] at ih
      rw [chains_step R a b l h]
      split
      · cases gs with
        | nil => simp
        | cons g1 gs =>
          rw [List.isChain_cons_cons] at ih ⊢
          refine ⟨?_, ih.2⟩
          intro x hx
          exact ih.1 x (by simpa [List.getLast?_cons_cons] using hx)
      · rename_i hR
        rw [List.isChain_cons_cons]
        refine ⟨?_, ih⟩
        intro x hx y hy
        simp at hx hy
        rw [← hx, ← hy]; exact hR

/-- The chains are singletons when no two neighbours are related. -/
theorem chains_none (R : β → β → Bool) (l : List β) (h : l.IsChain (fun a b => ¬ R a b = true)) :
    chains R l = l.map (fun a => [a]) := by
  induction l with
  | nil => rfl
  | cons a l ih =>
    cases l with
    | nil => rfl
    | cons b l =>
      rw [List.isChain_cons_cons] at h
      have := ih h.2
      rw [List.map_cons] at this
      rw [chains_step R a b l this, if_neg h.1]
      simp

/-- Chains for a relation refined by a key: the chains of at least two elements with key `k` are the same. -/
theorem chains_key {γ : Type _} [DecidableEq γ] (R : β → β → Bool) (key : β → γ)
    (hkey : ∀ a b, R a b = true → key a = key b) (k : γ) (l : List β) :
    (chains (fun a b => decide (key a = k) && decide (key b = k) && R a b) l).filter (fun c => decide (1 < c.length)) =
      ((chains R l).filter (fun c => decide (1 < c.length))).filter (fun c => c.head?.map key == some k) := by
  suffices H : ∀ a l', l = a :: l' → ∃ g gs g' gs',
      chains R l = (a :: g) :: gs ∧
      chains (fun a b => decide (key a = k) && decide (key b = k) && R a b) l = (a :: g') :: gs' ∧
      (key a = k → g' = g) ∧ (key a ≠ k → g' = []) ∧
      gs'.filter (fun c => decide (1 < c.length)) =
        (gs.filter (fun c => decide (1 < c.length))).filter (fun c => c.head?.map key == some k) by
    cases l with
    | nil => rfl
    | cons a l' =>
      obtain ⟨g, gs, g', gs', h1, h2, h3, h4, h5⟩ := H a l' rfl
      rw [h1, h2]
      by_cases hk : key a = k
      · rw [h3 hk]
        cases hg : decide (1 < (a :: g).length) <;>
          simp only [List.filter_cons, hg, h5, Bool.false_eq_true, if_false, if_true, List.head?_cons, Option.map_some, hk,
            beq_self_eq_true]
      · rw [h4 hk]
        have e1 : decide (1 < [a].length) = false := rfl
        have e2 : (some (key a) == some k) = false := by simpa using hk
        cases hg : decide (1 < (a :: g).length) <;>
          simp only [List.filter_cons, hg, h5, e1, e2, Bool.false_eq_true, if_false, if_true, List.head?_cons, Option.map_some]
  induction l with
  | nil => simp
  | cons a l ih =>
    intro a' l' hl
    simp only [List.cons.injEq] at hl
    obtain ⟨rfl, rfl⟩ := hl
    cases l with
    | nil => exact ⟨[], [], [], [], rfl, rfl, by simp, by simp, by simp⟩
    | cons b l =>
      obtain ⟨g, gs, g', gs', h1, h2, h3, h4, h5⟩ := ih b l rfl
      rw [chains_step R a b l h1, chains_step _ a b l h2]
      by_cases hR : R a b = true
      · have hab := hkey a b hR
        by_cases hk : key a = k
        · have hb : key b = k := hab ▸ hk
          refine ⟨b :: g, gs, b :: g', gs', by simp [hR], by simp [hR, hk, hb], ?_, fun h => absurd hk h, h5⟩
          intro _; rw [h3 hb]
        · have hb : key b ≠ k := fun h => hk (hab.trans h)
          refine ⟨b :: g, gs, [], (b :: g') :: gs', by simp [hR], by simp [hk], fun h => absurd h hk, fun _ => rfl, ?_⟩
          rw [h4 hb]
          simp [List.filter_cons, h5]
      · refine ⟨[], (b :: g) :: gs, [], (b :: g') :: gs', by simp [hR], by simp [hR], fun _ => rfl, fun _ => rfl, ?_⟩
        by_cases hb : key b = k
        · rw [h3 hb]
          cases hg : decide (1 < (b :: g).length) <;>
            simp only [List.filter_cons, hg, h5, Bool.false_eq_true, if_false, if_true, List.head?_cons, Option.map_some, hb,
              beq_self_eq_true]
        · rw [h4 hb]
          have e1 : decide (1 < [b].length) = false := rfl
          have e2 : (some (key b) == some k) = false := by simpa using hb
          cases hg : decide (1 < (b :: g).length) <;>
            simp only [List.filter_cons, hg, h5, e1, e2, Bool.false_eq_true, if_false, if_true, List.head?_cons, Option.map_some]

/-- Elements grouped by a key are the elements. -/
theorem flatMap_key_perm {γ : Type _} [BEq γ] [LawfulBEq γ] (key : β → γ) (ks : List γ) (hn : ks.Nodup) (l : List β)
    (h : ∀ a ∈ l, key a ∈ ks) : (ks.flatMap (fun k => l.filter (fun a => key a == k))).Perm l := by
  induction ks generalizing l with
  | nil =>
    cases l with
    | nil => simp
    | cons a l => exact absurd (h a (by simp)) (by simp)
  | cons k ks ih =>
    rw [List.nodup_cons] at hn
    have h1 := ih hn.2 (l.filter (fun a => !(key a == k))) (by
      intro a ha
      rw [List.mem_filter] at ha
      have := h a ha.1
      rcases List.mem_cons.1 this with h' | h'
      · simp [h'] at ha
      · exact h')
    have h2 : ks.flatMap (fun k' => (l.filter (fun a => !(key a == k))).filter (fun a => key a == k')) =
        ks.flatMap (fun k' => l.filter (fun a => key a == k')) := by
      apply List.flatMap_congr
      intro k' hk'
      rw [List.filter_filter]
      apply List.filter_congr
      intro a _
      by_cases ha : key a = k'
      · have : k' ≠ k := fun h => hn.1 (h ▸ hk')
        simp [ha, this]
      · simp [ha]
    rw [h2] at h1
    rw [List.flatMap_cons]
    exact (h1.append_left _).trans (List.filter_append_perm _ l)

/-- Removing from a partition the elements of some blocks leaves the other blocks. -/
theorem filter_flatten_blocks {γ : Type _} [DecidableEq γ] (key : β → γ) (C : List (List β)) (P : List β → Bool)
    (hn : (C.flatten.map key).Nodup) :
    C.flatten.filter (fun a => decide (key a ∉ ((C.filter P).flatten).map key)) =
      (C.filter (fun c => !P c)).flatten := by
  -- generalise over a set of further keys disjoint from those of `C`
  suffices H : ∀ (D : List γ), (∀ a ∈ C.flatten, key a ∉ D) →
      C.flatten.filter (fun a => decide (key a ∉ D ++ ((C.filter P).flatten).map key)) =
      (C.filter (fun c => !P c)).flatten by
    simpa using H [] (by simp)
  induction C with
  | nil => simp
  | cons c C ih =>
    intro D hD
    rw [List.flatten_cons, List.map_append, List.nodup_append] at hn
    obtain ⟨hc, hC, hdis⟩ := hn
    have hD1 : ∀ a ∈ c, key a ∉ D := fun a ha => hD a (by simp [ha])
    have hD2 : ∀ a ∈ C.flatten, key a ∉ D := fun a ha => hD a (by rw [List.flatten_cons]; simp only [List.mem_append]; exact Or.inr ha)
    have hsub : ∀ x ∈ ((C.filter P).flatten).map key, x ∈ C.flatten.map key := by
      intro x hx
      obtain ⟨a, ha, rfl⟩ := List.mem_map.1 hx
      obtain ⟨c', hc', ha'⟩ := List.mem_flatten.1 ha
      exact List.mem_map.2 ⟨a, List.mem_flatten.2 ⟨c', (List.mem_filter.1 hc').1, ha'⟩, rfl⟩
    cases hP : P c with
    | true =>
      have h0 := ih hC (D ++ c.map key) (by
        intro a ha hm
        rcases List.mem_append.1 hm with hm | hm
        · exact hD2 a ha hm
        · exact hdis _ hm _ (List.mem_map.2 ⟨a, ha, rfl⟩) rfl)
      rw [List.flatten_cons, List.filter_append]
      simp only [List.filter_cons, hP, if_true, Bool.not_true, Bool.false_eq_true, if_false, List.flatten_cons, List.map_append]
      rw [← List.append_assoc] at *
      rw [h0]
      have : c.filter (fun a => decide (key a ∉ D ++ c.map key ++ ((C.filter P).flatten).map key)) = [] := by
        rw [List.filter_eq_nil_iff]
        intro a ha
        have : key a ∈ c.map key := List.mem_map.2 ⟨a, ha, rfl⟩
        simp only [List.mem_append, this, or_true, true_or, not_true_eq_false, decide_false, Bool.false_eq_true, not_false_eq_true]
      rw [this]; rfl
    | false =>
      have h0 := ih hC D hD2
      rw [List.flatten_cons, List.filter_append]
      simp only [List.filter_cons, hP, Bool.not_false, if_true, Bool.false_eq_true, if_false, List.flatten_cons]
      rw [h0]
      congr 1
      rw [List.filter_eq_self]
      intro a ha
      have h1 : key a ∉ ((C.filter P).flatten).map key := by
        intro hm
        exact hdis _ (List.mem_map.2 ⟨a, ha, rfl⟩) _ (hsub _ hm) rfl
      simp only [List.mem_append, hD1 a ha, h1, or_self, not_false_eq_true, decide_true]

end Razorback
