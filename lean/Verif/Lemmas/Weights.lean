import Verif.Spec.Weights
import Mathlib.Tactic.Linarith
import Mathlib.Tactic.Ring

namespace Razorback.Weights
open Razorback Razorback.Spec Razorback.MEst

/-! Medians -/

theorem isMedian_unique {l : List ℝ} {m m' : ℝ} (h : IsMedian l m) (h' : IsMedian l m') : m = m' := by
  obtain ⟨s, p, o, h⟩ := h
  obtain ⟨s', p', o', h'⟩ := h'
  have hs : s = s' := List.Perm.eq_of_pairwise (fun a b _ _ hab hba => le_antisymm hab hba) o o' (p.trans p'.symm)
  subst hs
  rcases h with ⟨k, hk, e⟩ | ⟨k, u, v, hk, e1, e2, e3⟩ <;> rcases h' with ⟨k', hk', e'⟩ | ⟨k', u', v', hk', e1', e2', e3'⟩
  · have : k = k' := by omega
    subst this
    rw [e] at e'
    simpa using e'
  · omega
  · omega
  · have : k = k' := by omega
    subst this
    rw [e1] at e1'; rw [e2] at e2'
    simp only [Option.some.injEq] at e1' e2'
    rw [e3, e3', e1', e2']

theorem isMedian_median {l : List ℝ} (hl : l ≠ []) : IsMedian l (median l) := by
  classical
  have hp := List.perm_insertionSort (· ≤ ·) l
  have ho : (l.insertionSort (· ≤ ·)).Pairwise (· ≤ ·) := List.pairwise_insertionSort (· ≤ ·) l
  refine ⟨l.insertionSort (· ≤ ·), hp, ho, ?_⟩
  have hlen : 0 < (l.insertionSort (· ≤ ·)).length := by
    rw [hp.length_eq]; exact List.length_pos_of_ne_nil hl
  unfold median
  generalize l.insertionSort (· ≤ ·) = s at *
  simp only
  split
  · left
    refine ⟨s.length / 2, by omega, ?_⟩
    rw [List.getD_eq_getElem?_getD, List.getElem?_eq_getElem (by omega)]
    rfl
  · right
    refine ⟨s.length / 2 - 1, s[s.length / 2 - 1], s[s.length / 2], by omega, List.getElem?_eq_getElem (by omega), ?_, ?_⟩
    · rw [show s.length / 2 - 1 + 1 = s.length / 2 by omega]
      exact List.getElem?_eq_getElem (by omega)
    · rw [List.getD_eq_getElem?_getD, List.getElem?_eq_getElem (by omega), List.getD_eq_getElem?_getD,
        List.getElem?_eq_getElem (by omega)]
      rfl

theorem isMedian_ne_nil {l : List ℝ} {m : ℝ} (h : IsMedian l m) : l ≠ [] := by
  rintro rfl
  obtain ⟨s, p, _, h⟩ := h
  have := p.length_eq
  rcases h with ⟨k, hk, _⟩ | ⟨k, u, v, hk, _⟩ <;> simp at this <;> simp [this] at hk

theorem nanmedian_some {l : List (Option ℝ)} {m : ℝ} : nanmedian l = some m ↔ IsMedian (valid l) m := by
  unfold nanmedian
  simp only
  split
  · rename_i h
    simp only [reduceCtorEq, false_iff]
    intro hm
    exact isMedian_ne_nil hm (by simpa [valid] using h)
  · rename_i h
    have hne : valid l ≠ [] := by simpa [valid] using h
    simp only [Option.some.injEq]
    constructor
    · rintro rfl; exact isMedian_median hne
    · intro hm; exact isMedian_unique (isMedian_median hne) hm

theorem nanmedian_none {l : List (Option ℝ)} : nanmedian l = none ↔ valid l = [] := by
  unfold nanmedian valid
  simp only
  split
  · rename_i h; simpa using h
  · rename_i h; simpa using h

theorem valid_map {β γ : Type _} (f : β → γ) (l : List (Option β)) : valid (l.map (fun v => v.map f)) = (valid l).map f := by
  induction l with
  | nil => rfl
  | cons a l ih =>
    cases a with
    | none => simpa [valid] using ih
    | some a =>
      have := ih
      simp only [valid, List.map_cons, Option.map_some, List.filterMap_cons, id] at this ⊢
      rw [this]

theorem madScaleAbs_some {x : List (Option ℝ)} {s : ℝ} : madScaleAbs x = some s ↔ IsScale (valid x) s := by
  unfold madScaleAbs madAbs IsScale
  cases h : nanmedian x with
  | none =>
    have := nanmedian_none.1 h
    simp only [Option.map_none, reduceCtorEq, false_iff, not_exists, not_and]
    intro med dev hm
    exact absurd this (isMedian_ne_nil hm)
  | some med =>
    have hm := nanmedian_some.1 h
    simp only [Option.map_eq_some_iff, nanmedian_some, valid_map]
    constructor
    · rintro ⟨dev, hd, rfl⟩; exact ⟨med, dev, hm, hd, rfl⟩
    · rintro ⟨med', dev, hm', hd, rfl⟩
      have := isMedian_unique hm hm'
      subst this
      exact ⟨dev, hd, rfl⟩

theorem madScaleAbs_none {x : List (Option ℝ)} : madScaleAbs x = none ↔ valid x = [] := by
  unfold madScaleAbs madAbs
  cases h : nanmedian x with
  | none => simp [nanmedian_none.1 h]
  | some med =>
    have hm := isMedian_ne_nil (nanmedian_some.1 h)
    simp only [Option.map_eq_none_iff, nanmedian_none, valid_map, List.map_eq_nil_iff]

theorem isMedian_map {l : List ℝ} {m : ℝ} (f : ℝ → ℝ) (hmono : Monotone f) (hmid : ∀ u v, f ((u + v) / 2) = (f u + f v) / 2)
    (h : IsMedian l m) : IsMedian (l.map f) (f m) := by
  obtain ⟨s, p, o, h⟩ := h
  refine ⟨s.map f, p.map f, (List.pairwise_map).2 (o.imp (fun hab => hmono hab)), ?_⟩
  rcases h with ⟨k, hk, e⟩ | ⟨k, u, v, hk, e1, e2, e3⟩
  · exact .inl ⟨k, by simpa using hk, by simp [e]⟩
  · exact .inr ⟨k, f u, f v, by simpa using hk, by simp [e1], by simp [e2], by rw [e3, hmid]⟩

theorem isMedian_scale {l : List ℝ} {m c : ℝ} (hc : 0 ≤ c) (h : IsMedian l m) : IsMedian (l.map (fun v => c * v)) (c * m) :=
  isMedian_map (fun v => c * v) (fun _ _ hab => mul_le_mul_of_nonneg_left hab hc) (fun _ _ => by ring) h

theorem isMedian_perm {l l' : List ℝ} {m : ℝ} (hp : l.Perm l') (h : IsMedian l m) : IsMedian l' m := by
  obtain ⟨s, p, o, h⟩ := h
  exact ⟨s, p.trans hp, o, h⟩

theorem isMedian_nonneg {l : List ℝ} {m : ℝ} (hl : ∀ v ∈ l, 0 ≤ v) (h : IsMedian l m) : 0 ≤ m := by
  obtain ⟨s, p, o, h⟩ := h
  have hs : ∀ v ∈ s, 0 ≤ v := fun v hv => hl v (p.mem_iff.1 hv)
  rcases h with ⟨k, hk, e⟩ | ⟨k, u, v, hk, e1, e2, e3⟩
  · exact hs m (List.mem_of_getElem? e)
  · have := hs u (List.mem_of_getElem? e1); have := hs v (List.mem_of_getElem? e2); rw [e3]; linarith

theorem isScale_scale {x : List ℝ} {s c : ℝ} (hc : 0 ≤ c) (h : IsScale x s) : IsScale (x.map (fun v => c * v)) (c * s) := by
  obtain ⟨med, dev, h1, h2, rfl⟩ := h
  refine ⟨c * med, c * dev, isMedian_scale hc h1, ?_, by ring⟩
  have := isMedian_scale hc h2
  rw [List.map_map] at this ⊢
  convert this using 2
  funext v
  simp only [Function.comp]
  rw [← mul_sub, abs_mul, abs_of_nonneg hc]

theorem isScale_perm {x x' : List ℝ} {s : ℝ} (hp : x.Perm x') (h : IsScale x s) : IsScale x' s := by
  obtain ⟨med, dev, h1, h2, rfl⟩ := h
  exact ⟨med, dev, isMedian_perm hp h1, isMedian_perm (hp.map _) h2, rfl⟩

theorem isScale_unique {x : List ℝ} {s s' : ℝ} (h : IsScale x s) (h' : IsScale x s') : s = s' := by
  obtain ⟨med, dev, h1, h2, rfl⟩ := h
  obtain ⟨med', dev', h1', h2', rfl⟩ := h'
  have := isMedian_unique h1 h1'
  subst this
  rw [isMedian_unique h2 h2']

variable {𝕜 : Type} [RCLike 𝕜] {q : ℕ} {σ : Type}

theorem valid_vnorm (r : List (Option 𝕜)) : valid (vnorm r) = sizes r := valid_map _ _

theorem sizes_nonneg (r : List (Option 𝕜)) : ∀ v ∈ sizes r, 0 ≤ v := by
  intro v hv
  obtain ⟨x, _, rfl⟩ := List.mem_map.1 hv
  exact norm_nonneg _

theorem vnorm_vnorm (r : List (Option 𝕜)) : vnorm (vnorm r) = vnorm r := by
  unfold vnorm
  rw [List.map_map]
  apply List.map_congr_left
  intro v _
  cases v <;> simp

theorem madScale_eq (r : List (Option 𝕜)) : madScale r = madScaleAbs (vnorm r) := by
  unfold madScale mad madScaleAbs
  rw [vnorm_vnorm]

theorem madScale_some {r : List (Option 𝕜)} {s : ℝ} : madScaleAbs (vnorm r) = some s ↔ IsScale (sizes r) s := by
  rw [madScaleAbs_some, valid_vnorm]

theorem madScale_scale (r : List (Option 𝕜)) (c : 𝕜) :
    madScaleAbs (vnorm (r.map (fun v => v.map (fun v => c * v)))) = (madScaleAbs (vnorm r)).map (fun s => ‖c‖ * s) := by
  have hs : sizes (r.map (fun v => v.map (fun v => c * v))) = (sizes r).map (fun v => ‖c‖ * v) := by
    unfold sizes
    rw [valid_map, List.map_map, List.map_map]
    apply List.map_congr_left
    intro v _
    simp
  cases h : madScaleAbs (vnorm r) with
  | none =>
    rw [madScaleAbs_none, valid_vnorm] at h
    rw [Option.map_none, madScaleAbs_none, valid_vnorm, hs, h]
    rfl
  | some s =>
    rw [madScale_some] at h
    rw [Option.map_some, madScale_some, hs]
    exact isScale_scale (norm_nonneg c) h

/-! `expexp` -/

theorem expexp_fin (x a : ℝ) :
    expexp (.fin x) a = .fin (Real.exp (Real.exp (-a ^ 2) - Real.exp (a * (x - a)))) := by
  simp only [expexp, Flt.sub, Flt.neg, Flt.add, Flt.mul, Flt.exp, sub_eq_add_neg]

theorem expexp_nan (a : ℝ) : expexp .nan a = .nan := by
  simp [expexp, Flt.sub, Flt.neg, Flt.add, Flt.mul, Flt.exp]

theorem expexp_pinf {a : ℝ} (ha : 0 < a) : expexp .pinf a = .fin 0 := by
  simp [expexp, Flt.sub, Flt.neg, Flt.add, Flt.mul, Flt.exp, Flt.infTimes, ha, ha.ne']

end Razorback.Weights
