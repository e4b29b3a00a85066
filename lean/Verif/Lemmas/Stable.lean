/-
Continuity of the steps of an estimation, for lists which tend to a list entry by entry (C128).
-/
import Verif.Lemmas.MEst
import Verif.Lemmas.Weights
import Mathlib.Topology.Instances.Matrix

namespace Razorback.MEst
open Razorback Razorback.Spec Razorback.Weights Filter Topology

variable {ι : Type} {F : Filter ι}

/-- Lists tend to a list: the lengths agree in the end, and every entry tends to its own. -/
def Tends {β : Type} [TopologicalSpace β] (F : Filter ι) (l : ι → List β) (l0 : List β) : Prop :=
  (∀ᶠ k in F, (l k).length = l0.length) ∧ ∀ (i : ℕ) x0, l0[i]? = some x0 → Tendsto (fun k => ((l k)[i]?).getD x0) F (𝓝 x0)

section
variable {β γ δ : Type} [TopologicalSpace β] [TopologicalSpace γ] [TopologicalSpace δ]

theorem Tends.congr {l m : ι → List β} {l0 : List β} (h : Tends F l l0) (he : ∀ᶠ k in F, l k = m k) : Tends F m l0 := by
  refine ⟨?_, fun i x0 hx => ?_⟩
  · filter_upwards [h.1, he] with k h1 h2
    rw [← h2, h1]
  · refine (h.2 i x0 hx).congr' ?_
    filter_upwards [he] with k h2
    rw [h2]

theorem Tends.const (l0 : List β) : Tends F (fun _ => l0) l0 := by
  refine ⟨.of_forall (fun _ => rfl), fun i x0 hx => ?_⟩
  simp only [hx, Option.getD_some]
  exact tendsto_const_nhds

theorem Tends.map {l : ι → List β} {l0 : List β} (h : Tends F l l0) {f : ι → β → γ} {f0 : β → γ}
    (hf : ∀ x0 ∈ l0, ∀ x : ι → β, Tendsto x F (𝓝 x0) → Tendsto (fun k => f k (x k)) F (𝓝 (f0 x0))) :
    Tends F (fun k => (l k).map (f k)) (l0.map f0) := by
  refine ⟨?_, fun i y0 hy => ?_⟩
  · filter_upwards [h.1] with k h1
    simp [h1]
  · rw [List.getElem?_map, Option.map_eq_some_iff] at hy
    obtain ⟨x0, hx, rfl⟩ := hy
    have hi : i < l0.length := (List.getElem?_eq_some_iff.1 hx).1
    refine (hf x0 (List.mem_of_getElem? hx) _ (h.2 i x0 hx)).congr' ?_
    filter_upwards [h.1] with k h1
    rw [List.getElem?_map, List.getElem?_eq_getElem (by omega)]
    rfl

theorem Tends.zipWith {l : ι → List β} {l0 : List β} (h : Tends F l l0) {m : ι → List γ} {m0 : List γ} (hm : Tends F m m0) {f : β → γ → δ}
    (hf : Continuous (fun p : β × γ => f p.1 p.2)) : Tends F (fun k => List.zipWith f (l k) (m k)) (List.zipWith f l0 m0) := by
  refine ⟨?_, fun i y0 hy => ?_⟩
  · filter_upwards [h.1, hm.1] with k h1 h2
    simp [h1, h2]
  · rw [List.getElem?_zipWith] at hy
    cases hx : l0[i]? with
    | none => simp [hx] at hy
    | some x0 =>
    cases hz : m0[i]? with
    | none => simp [hx, hz] at hy
    | some z0 =>
    simp only [hx, hz, Option.some.injEq] at hy
    subst hy
    have hi : i < l0.length := (List.getElem?_eq_some_iff.1 hx).1
    have hi' : i < m0.length := (List.getElem?_eq_some_iff.1 hz).1
    refine ((hf.tendsto (x0, z0)).comp ((h.2 i x0 hx).prodMk_nhds (hm.2 i z0 hz))).congr' ?_
    filter_upwards [h.1, hm.1] with k h1 h2
    rw [List.getElem?_zipWith, List.getElem?_eq_getElem (l := l k) (by omega), List.getElem?_eq_getElem (l := m k) (by omega)]
    simp only [Function.comp_apply, Option.getD_some]
    rw [List.getElem?_eq_getElem (l := l k) (by omega), List.getElem?_eq_getElem (l := m k) (by omega)]
    rfl

theorem Tends.zipIdx {l : ι → List β} {l0 : List β} (h : Tends F l l0) {f : ι → β × ℕ → γ} {f0 : β × ℕ → γ}
    (hf : ∀ (i : ℕ) x0, l0[i]? = some x0 → ∀ x : ι → β, Tendsto x F (𝓝 x0) → Tendsto (fun k => f k (x k, i)) F (𝓝 (f0 (x0, i)))) :
    Tends F (fun k => (l k).zipIdx.map (f k)) (l0.zipIdx.map f0) := by
  refine ⟨?_, fun i y0 hy => ?_⟩
  · filter_upwards [h.1] with k h1
    simp [h1]
  · rw [List.getElem?_map, List.getElem?_zipIdx, Option.map_map, Option.map_eq_some_iff] at hy
    obtain ⟨x0, hx, rfl⟩ := hy
    have hi : i < l0.length := (List.getElem?_eq_some_iff.1 hx).1
    simp only [Function.comp_apply, Nat.zero_add]
    refine (hf i x0 hx _ (h.2 i x0 hx)).congr' ?_
    filter_upwards [h.1] with k h1
    rw [List.getElem?_map, List.getElem?_zipIdx, List.getElem?_eq_getElem (by omega)]
    simp

end

theorem Tends.sum {β : Type} [TopologicalSpace β] [AddCommMonoid β] [ContinuousAdd β] {l : ι → List β} {l0 : List β} (h : Tends F l l0) :
    Tendsto (fun k => (l k).sum) F (𝓝 l0.sum) := by
  have key : ∀ m : List β, m.length = l0.length → m.sum = ∑ i : Fin l0.length, (m[i.1]?).getD l0[i] := by
    intro m hm
    have : m = List.ofFn (fun i : Fin l0.length => (m[i.1]?).getD l0[i]) := by
      refine List.ext_getElem (by simp [hm]) (fun i h1 h2 => ?_)
      simp [h1]
    conv_lhs => rw [this, List.sum_ofFn]
  have h0 : l0.sum = ∑ i : Fin l0.length, l0[i] := by
    rw [key l0 rfl]
    refine Finset.sum_congr rfl (fun i _ => ?_)
    simp
  rw [h0]
  have : Tendsto (fun k => ∑ i : Fin l0.length, ((l k)[i.1]?).getD l0[i]) F (𝓝 (∑ i : Fin l0.length, l0[i])) :=
    tendsto_finset_sum _ (fun i _ => h.2 i _ (List.getElem?_eq_getElem i.2))
  refine this.congr' ?_
  filter_upwards [h.1] with k h1
  rw [key _ h1]

/-- Lists over fixed positions. -/
theorem Tends.over {β : Type} [TopologicalSpace β] (K : List ℕ) {f : ι → ℕ → β} {f0 : ℕ → β} (h : ∀ i ∈ K, Tendsto (fun k => f k i) F (𝓝 (f0 i))) :
    Tends F (fun k => K.map (f k)) (K.map f0) := by
  refine ⟨.of_forall (fun _ => by simp), fun i y0 hy => ?_⟩
  rw [List.getElem?_map, Option.map_eq_some_iff] at hy
  obtain ⟨x, hx, rfl⟩ := hy
  refine (h x (List.mem_of_getElem? hx)).congr (fun k => ?_)
  rw [List.getElem?_map, hx]
  rfl

theorem map_range_getD {β : Type} (m : List β) (d : β) : (List.range m.length).map (fun i => (m[i]?).getD d) = m := by
  refine List.ext_getElem (by simp) (fun i h1 h2 => ?_)
  simp [h2]

theorem Tends.without {β : Type} [TopologicalSpace β] {l : ι → List β} {l0 : List β} (h : Tends F l l0) (idx : List ℕ) :
    Tends F (fun k => Spec.without (l k) idx) (Spec.without l0 idx) := by
  rcases l0.eq_nil_or_concat with rfl | ⟨l1, d, hd⟩
  · refine h.congr ?_
    filter_upwards [h.1] with k h1
    rw [List.length_nil, List.length_eq_zero_iff] at h1
    rw [h1]
    rfl
  · have key : ∀ m : List β, m.length = l0.length → Spec.without m idx =
        ((List.range l0.length).filter (fun i => decide (i ∉ idx))).map (fun i => (m[i]?).getD d) := by
      intro m hm
      rw [← without_range, ← without_map, ← hm, map_range_getD]
    rw [key l0 rfl]
    refine (Tends.over _ (f := fun k i => ((l k)[i]?).getD d) (fun i hi => ?_)).congr ?_
    · rw [List.mem_filter, List.mem_range] at hi
      rw [List.getElem?_eq_getElem hi.1]
      refine (h.2 i _ (List.getElem?_eq_getElem hi.1)).congr' ?_
      filter_upwards [h.1] with k h1
      rw [List.getElem?_eq_getElem (by omega)]
      rfl
    · filter_upwards [h.1] with k h1
      rw [key _ h1]

/-! Medians -/

theorem countP_le_of_le {c : ℝ} : ∀ {l l' : List ℝ}, l.length = l'.length → (∀ (i : ℕ) x x', l[i]? = some x → l'[i]? = some x' → x ≤ x') →
    l'.countP (fun v => decide (v ≤ c)) ≤ l.countP (fun v => decide (v ≤ c))
  | [], [], _, _ => le_rfl
  | [], _ :: _, h, _ => by simp at h
  | _ :: _, [], h, _ => by simp at h
  | a :: l, a' :: l', h, hle => by
    have ih := countP_le_of_le (c := c) (l := l) (l' := l') (by simpa using h) (fun i x x' h1 h2 => hle (i + 1) x x' (by simpa using h1) (by simpa using h2))
    have h0 := hle 0 a a' rfl rfl
    simp only [List.countP_cons]
    by_cases h1 : a' ≤ c
    · have : a ≤ c := h0.trans h1
      simp only [h1, this, decide_true, if_true]; omega
    · simp only [h1, decide_false, Bool.false_eq_true, if_false]; omega

theorem sorted_le {l l' s s' : List ℝ} (hl : l.length = l'.length) (hle : ∀ (i : ℕ) x x', l[i]? = some x → l'[i]? = some x' → x ≤ x')
    (hs : s.Perm l) (ho : s.Pairwise (· ≤ ·)) (hs' : s'.Perm l') (ho' : s'.Pairwise (· ≤ ·)) {i : ℕ} {x x' : ℝ} (hx : s[i]? = some x)
    (hx' : s'[i]? = some x') : x ≤ x' := by
  by_contra hlt
  push Not at hlt
  obtain ⟨hi, hxi⟩ := List.getElem?_eq_some_iff.1 hx
  obtain ⟨hi', hxi'⟩ := List.getElem?_eq_some_iff.1 hx'
  have h1 : i + 1 ≤ s'.countP (fun v => decide (v ≤ x')) := by
    have hsub := List.Sublist.countP_le (p := fun v => decide (v ≤ x')) (List.take_sublist (i + 1) s')
    refine le_trans (le_of_eq ?_) hsub
    have : (s'.take (i + 1)).countP (fun v => decide (v ≤ x')) = (s'.take (i + 1)).length := by
      rw [List.countP_eq_length]
      intro a ha
      obtain ⟨j, hj, rfl⟩ := List.mem_take_iff_getElem.1 ha
      simp only [decide_eq_true_eq]
      rw [← hxi']
      rcases Nat.lt_or_ge j i with h | h
      · exact List.pairwise_iff_getElem.1 ho' j i (by omega) hi' h
      · have : j = i := by omega
        subst this; exact le_rfl
    rw [this, List.length_take]
    omega
  have h2 : s.countP (fun v => decide (v ≤ x')) ≤ i := by
    conv_lhs => rw [← List.take_append_drop i s]
    rw [List.countP_append]
    have : (s.drop i).countP (fun v => decide (v ≤ x')) = 0 := by
      rw [List.countP_eq_zero]
      intro a ha
      obtain ⟨j, hj, rfl⟩ := List.mem_drop_iff_getElem.1 ha
      simp only [decide_eq_true_eq, not_le]
      refine lt_of_lt_of_le hlt ?_
      rw [← hxi]
      rcases Nat.eq_zero_or_pos j with rfl | h
      · simp
      · exact List.pairwise_iff_getElem.1 ho i (i + j) hi (by omega) (by omega)
    rw [this]
    exact (List.countP_le_length).trans (by simp)
  have h3 := countP_le_of_le (c := x') hl hle
  rw [hs.countP_eq] at h2
  rw [hs'.countP_eq] at h1
  omega

theorem isMedian_mono {l l' : List ℝ} (hl : l.length = l'.length) (hle : ∀ (i : ℕ) x x', l[i]? = some x → l'[i]? = some x' → x ≤ x') {m m' : ℝ}
    (h : IsMedian l m) (h' : IsMedian l' m') : m ≤ m' := by
  obtain ⟨s, p, o, h⟩ := h
  obtain ⟨s', p', o', h'⟩ := h'
  have hlen : s.length = s'.length := by rw [p.length_eq, p'.length_eq, hl]
  rcases h with ⟨k, hk, e⟩ | ⟨k, u, v, hk, e1, e2, e3⟩ <;> rcases h' with ⟨k', hk', e'⟩ | ⟨k', u', v', hk', e1', e2', e3'⟩
  · obtain rfl : k = k' := by omega
    exact sorted_le hl hle p o p' o' e e'
  · omega
  · omega
  · obtain rfl : k = k' := by omega
    have a1 := sorted_le hl hle p o p' o' e1 e1'
    have a2 := sorted_le hl hle p o p' o' e2 e2'
    rw [e3, e3']
    linarith

/-- The median changes at most as much as the entries. -/
theorem isMedian_close {l l' : List ℝ} (hl : l.length = l'.length) {ε : ℝ} (hle : ∀ (i : ℕ) x x', l[i]? = some x → l'[i]? = some x' → |x' - x| ≤ ε)
    {m m' : ℝ} (h : IsMedian l m) (h' : IsMedian l' m') : |m' - m| ≤ ε := by
  have shift : ∀ {l l' : List ℝ}, l.length = l'.length → (∀ (i : ℕ) x x', l[i]? = some x → l'[i]? = some x' → |x' - x| ≤ ε) → ∀ {m m' : ℝ},
      IsMedian l m → IsMedian l' m' → m' ≤ m + ε := by
    intro l l' hl hle m m' h h'
    have h1 := isMedian_map (fun v => v + ε) (fun _ _ hab => by simpa using hab) (fun _ _ => by ring) h
    refine isMedian_mono (by simp [hl]) (fun i x x' hx hx' => ?_) h' h1
    rw [List.getElem?_map, Option.map_eq_some_iff] at hx'
    obtain ⟨y, hy, rfl⟩ := hx'
    have := (abs_le.1 (hle i y x hy hx)).2
    linarith
  rw [abs_le]
  have a1 := shift hl hle h h'
  have a2 := shift hl.symm (fun i x x' hx hx' => by rw [abs_sub_comm]; exact hle i x' x hx' hx) h' h
  constructor <;> linarith

theorem Tends.median {l : ι → List ℝ} {l0 : List ℝ} (h : Tends F l l0) (hne : l0 ≠ []) : Tendsto (fun k => median (l k)) F (𝓝 (median l0)) := by
  rw [Metric.tendsto_nhds]
  intro ε hε
  have h1 : ∀ᶠ k in F, ∀ i : Fin l0.length, dist (((l k)[i.1]?).getD l0[i]) l0[i] < ε / 2 :=
    eventually_all.2 (fun i => Metric.tendsto_nhds.1 (h.2 i _ (List.getElem?_eq_getElem i.2)) _ (half_pos hε))
  filter_upwards [h.1, h1] with k hk h1
  have hne' : l k ≠ [] := by
    rw [← List.length_pos_iff, hk, List.length_pos_iff]; exact hne
  refine lt_of_le_of_lt ?_ (half_lt_self hε)
  rw [Real.dist_eq]
  refine isMedian_close hk.symm (fun i x x' hx hx' => ?_) (isMedian_median hne) (isMedian_median hne')
  obtain ⟨hi, rfl⟩ := List.getElem?_eq_some_iff.1 hx
  have := (h1 ⟨i, hi⟩).le
  rw [Real.dist_eq] at this
  simpa [hx'] using this

/-- The scale of the sizes `x`. -/
noncomputable def scaleOf (x : List ℝ) : ℝ := median (x.map (fun v => |v - median x|)) / 0.44845

theorem Tends.scale {l : ι → List ℝ} {l0 : List ℝ} (h : Tends F l l0) (hne : l0 ≠ []) : Tendsto (fun k => scaleOf (l k)) F (𝓝 (scaleOf l0)) := by
  have h1 := h.median hne
  have h2 : Tends F (fun k => (l k).map (fun v => |v - Weights.median (l k)|)) (l0.map (fun v => |v - Weights.median l0|)) :=
    h.map (fun x0 _ x hx => (hx.sub h1).abs)
  exact (h2.median (by simpa using hne)).div_const _

theorem scaleOf_isScale {x : List ℝ} (hx : x ≠ []) : IsScale x (scaleOf x) :=
  ⟨_, _, isMedian_median hx, isMedian_median (by simpa using hx), rfl⟩

end Razorback.MEst
