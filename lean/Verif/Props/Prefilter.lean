/-
Properties C56-C58: prefilters.
-/
import Verif.Props.MEst
import Verif.Spec.Prefilter

namespace Razorback.Props
open Razorback Razorback.Spec Razorback.MEst Razorback.Prefilter
open scoped Matrix

variable {𝕜 : Type} [RCLike 𝕜] {q : ℕ}

theorem gram_none (y : List (Fin q → 𝕜)) :
    (Matrix.of fun j k => (y.map (fun r => star (r j) * r k)).sum) = gram y none := by
  ext j k
  simp only [gram, dotdiag, Matrix.of_apply]
  congr 1
  induction y with
  | nil => rfl
  | cons a y ih => simp only [List.map_cons, List.zipWith_cons_cons, ih]

theorem cost_ones (x : List 𝕜) (y : List (Fin q → 𝕜)) (h : x.length = y.length) (z : Fin q → 𝕜) :
    norm2 (List.zipWith (fun r v => r ⬝ᵥ z - v) y x) = cost (obs x y (List.replicate x.length 1)) z := by
  induction x generalizing y with
  | nil => simp [norm2, cost, obs]
  | cons a x ih =>
    cases y with
    | nil => simp at h
    | cons r y =>
      have := ih y (by simpa using h)
      simp only [norm2, cost, obs] at this
      simp only [norm2, cost, obs, List.length_cons, List.replicate_succ, List.zip_cons_cons, List.zipWith_cons_cons,
        List.map_cons, List.sum_cons, this, one_mul]
      rw [norm_sub_rev]

theorem sum_sq_nonneg (x : List 𝕜) : 0 ≤ (x.map (fun v => ‖v‖ ^ 2)).sum := by
  apply List.sum_nonneg
  intro a ha
  obtain ⟨v, _, rfl⟩ := List.mem_map.1 ha
  positivity

theorem cost_nonneg_ones (x : List 𝕜) (y : List (Fin q → 𝕜)) (h : x.length = y.length) (z : Fin q → 𝕜) :
    0 ≤ cost (obs x y (List.replicate x.length 1)) z := by
  rw [← cost_ones x y h]
  exact sum_sq_nonneg _

/-- Pythagoras: the energy of the outputs is that of the residuals plus that of the fit. -/
theorem pythagoras (x : List 𝕜) (y : List (Fin q → 𝕜)) (h : x.length = y.length) (z : Fin q → 𝕜)
    (hz : NormalEq (obs x y (List.replicate x.length 1)) z) :
    (x.map (fun v => ‖v‖ ^ 2)).sum = cost (obs x y (List.replicate x.length 1)) z +
      ((obs x y (List.replicate x.length 1)).map (fun t => t.w * ‖t.y ⬝ᵥ z‖ ^ 2)).sum := by
  have := cost_add _ z (-z) hz
  rw [add_neg_cancel] at this
  have h0 : cost (obs x y (List.replicate x.length 1)) 0 = (x.map (fun v => ‖v‖ ^ 2)).sum := by
    rw [← cost_ones x y h, norm2]
    clear this hz
    induction x generalizing y with
    | nil => simp
    | cons a x ih =>
      cases y with
      | nil => simp at h
      | cons r y =>
        simp only [List.zipWith_cons_cons, List.map_cons, List.sum_cons, ih y (by simpa using h)]
        simp
  rw [← h0, this]
  simp

theorem zero_of_sum {l : List ℝ} (h : ∀ a ∈ l, 0 ≤ a) (hs : l.sum = 0) : ∀ a ∈ l, a = 0 :=
  fun a ha => le_antisymm (hs ▸ List.single_le_sum h a ha) (h a ha)

theorem fit_nonneg (x : List 𝕜) (y : List (Fin q → 𝕜)) (z : Fin q → 𝕜) :
    ∀ a ∈ (obs x y (List.replicate x.length 1)).map (fun t => t.w * ‖t.y ⬝ᵥ z‖ ^ 2), 0 ≤ a := by
  intro a ha
  obtain ⟨t, ht, rfl⟩ := List.mem_map.1 ha
  have : t.w = 1 := by
    obtain ⟨i, hi, rfl⟩ := List.getElem_of_mem ht
    simp [obs]
  rw [this]
  positivity

theorem coeffDetermination_ok (t : Block 𝕜 q) (h : t.x.length = t.y.length) (hc : IsCod t) :
    coeffDetermination t.x t.y = .ok t.cod := by
  obtain ⟨hi, z, hz, hv⟩ := hc
  have hw : (eff none t.y.length).length = t.y.length := by simp [eff]
  have ho : t.obs = obs t.x t.y (eff none t.y.length) := by simp [Block.obs, eff, h]
  have hdet := (independent_iff h hw).1 (ho ▸ hi)
  have hu : IsUnit (gram t.y none).det := isUnit_iff_ne_zero.2 hdet
  have hsol : (gram t.y none)⁻¹ *ᵥ (fun j => (List.zipWith (fun r v => star (r j) * v) t.y t.x).sum) = z := by
    have := (normalEq_iff h hw z).1 (ho ▸ hz)
    rw [show (fun j => (List.zipWith (fun r v => star (r j) * v) t.y t.x).sum) = rhs t.x t.y none from rfl, ← this,
      Matrix.mulVec_mulVec, Matrix.nonsing_inv_mul _ hu, Matrix.one_mulVec]
  unfold coeffDetermination
  simp only [gram_none]
  rw [if_neg hdet, hsol, cost_ones _ _ h]
  have hp := pythagoras _ _ h _ hz
  rw [show norm2 t.x = t.energy from rfl]
  rw [show (t.x.map (fun v => ‖v‖ ^ 2)).sum = t.energy from rfl] at hp
  have h1 := cost_nonneg_ones t.x t.y h z
  have h2 := List.sum_nonneg (fit_nonneg t.x t.y z)
  rcases hv with ⟨he, hv⟩ | ⟨he, hv⟩
  · have h0 : cost (obs t.x t.y (List.replicate t.x.length 1)) z = 0 := by linarith
    rw [hv, h0, he]
    simp [Flt.div, Flt.sub, Flt.neg, Flt.add, sqrt]
  · have hpos : 0 < t.energy := lt_of_le_of_ne (sum_sq_nonneg _) (Ne.symm he)
    have hle : cost (obs t.x t.y (List.replicate t.x.length 1)) z / t.energy ≤ 1 := by
      rw [div_le_one hpos]; linarith
    rw [hv]
    simp only [Flt.div, he, if_false, Flt.sub, Flt.neg, Flt.add, sqrt]
    rw [if_neg (by linarith)]
    rfl

theorem coeffDetermination_singular (t : Block 𝕜 q) (h : t.x.length = t.y.length) (hc : ¬ Independent t.obs) :
    coeffDetermination t.x t.y = .error .linAlg := by
  have hw : (eff none t.y.length).length = t.y.length := by simp [eff]
  have ho : t.obs = obs t.x t.y (eff none t.y.length) := by simp [Block.obs, eff, h]
  have hdet : (gram t.y none).det = 0 := by
    by_contra hd
    exact hc (ho ▸ (independent_iff h hw).2 hd)
  unfold coeffDetermination
  simp only [gram_none]
  rw [if_pos hdet]

theorem exists_cod (x : List 𝕜) (y : List (Fin q → 𝕜)) (h : x.length = y.length) :
    ∃ c, Independent (Block.obs ⟨x, y, c⟩) → IsCod ⟨x, y, c⟩ := by
  by_cases hi : Independent (Block.obs ⟨x, y, .nan⟩)
  · have hw : WeightsAre none y.length (List.replicate y.length 1) := ⟨by simp, .inl ⟨rfl, rfl⟩⟩
    have hi' : Independent (obs x y (List.replicate y.length 1)) := by rw [← h]; exact hi
    obtain ⟨z, hz⟩ := (C44_singular_raises x y none _ h hw).2 hi'
    obtain ⟨_, hn⟩ := (wlse_ok h hw).1 hz
    rw [← h] at hn
    by_cases he : Block.energy (⟨x, y, .nan⟩ : Block 𝕜 q) = 0
    · exact ⟨.nan, fun _ => ⟨hi, z, hn, .inl ⟨he, rfl⟩⟩⟩
    · refine ⟨.fin (Real.sqrt (1 - cost (Block.obs (⟨x, y, .nan⟩ : Block 𝕜 q)) z / Block.energy (⟨x, y, .nan⟩ : Block 𝕜 q))),
        fun _ => ⟨hi, z, hn, .inr ⟨he, rfl⟩⟩⟩
  · exact ⟨.nan, fun hc => absurd hc hi⟩

theorem drop_flatMap {β γ : Type _} (f : γ → List β) (size : ℕ) (ts : List γ) (hs : ∀ t ∈ ts, (f t).length = size) (r : List β)
    (i : ℕ) (hi : i < ts.length) : ((ts.flatMap f ++ r).drop (i * size)).take size = f ts[i] := by
  induction ts generalizing i with
  | nil => simp at hi
  | cons t ts ih =>
    have ht := hs t (List.mem_cons_self ..)
    cases i with
    | zero => simp only [Nat.zero_mul, List.drop_zero, List.flatMap_cons, List.append_assoc, List.getElem_cons_zero, ← ht, List.take_left]
    | succ i =>
      have := ih (fun t h => hs t (List.mem_cons_of_mem _ h)) i (by simpa using hi)
      rw [List.getElem_cons_succ, ← this, List.flatMap_cons, List.append_assoc, Nat.add_mul, Nat.one_mul,
        Nat.add_comm (i * size), ← List.drop_drop, ← ht, List.drop_left]

theorem length_flatMap_const {β γ : Type _} (f : γ → List β) (size : ℕ) (ts : List γ) (hs : ∀ t ∈ ts, (f t).length = size) :
    (ts.flatMap f).length = ts.length * size := by
  induction ts with
  | nil => simp
  | cons t ts ih =>
    rw [List.flatMap_cons, List.length_append, ih (fun t h => hs t (List.mem_cons_of_mem _ h)), hs t (List.mem_cons_self ..),
      List.length_cons]
    ring

theorem breshape_cut {β γ : Type _} (f : γ → List β) (size : ℕ) (init : List γ) (hs : ∀ t ∈ init, (f t).length = size) (r : List β)
    (hr : r.length < 2 * size) (hr' : r.length < size → init = []) :
    (breshape size (init.flatMap f ++ r)).dropLast = init.map f ∧
    size + (init.flatMap f ++ r).length % size = (if r.length < size then size + r.length else r.length) ∧
    lastN (size + (init.flatMap f ++ r).length % size) (init.flatMap f ++ r) = r ∧
    (init.flatMap f ++ r).length - (size + (init.flatMap f ++ r).length % size) = init.length * size := by
  have hlen := length_flatMap_const f size init hs
  have hl : (init.flatMap f ++ r).length = init.length * size + r.length := by rw [List.length_append, hlen]
  by_cases hlt : r.length < size
  · have := hr' hlt
    subst this
    have hm : r.length % size = r.length := Nat.mod_eq_of_lt hlt
    simp [breshape, Nat.div_eq_of_lt hlt, hm, hlt, lastN]
  · have hdiv : (init.flatMap f ++ r).length / size = init.length + 1 := by
      rw [hl]
      apply Nat.div_eq_of_lt_le <;> nlinarith
    have hmod : size + (init.flatMap f ++ r).length % size = r.length := by
      have := Nat.div_add_mod (init.flatMap f ++ r).length size
      rw [hdiv, hl, Nat.mul_add, Nat.mul_one, Nat.mul_comm] at this
      rw [hl]
      omega
    rw [hmod]
    refine ⟨?_, by rw [if_neg hlt], ?_, by rw [hl]; omega⟩
    · rw [breshape, hdiv, List.range_succ, List.map_append, List.map_singleton, List.dropLast_concat]
      apply List.ext_getElem (by simp)
      intro i h1 h2
      simp only [List.getElem_map, List.getElem_range]
      exact drop_flatMap f size init hs r i (by simpa using h2)
    · rw [lastN, hl, Nat.add_sub_cancel, ← hlen, List.drop_left]

/-- What `value` does on a cut. -/
theorem value_cut (size : ℕ) (e : List 𝕜) (b : List (Fin q → 𝕜)) (ts : List (Block 𝕜 q)) (hs : 0 < size)
    (hc : Cut size e b ts) : ∃ init t, ts = init ++ [t] ∧ e.length = b.length ∧ e.length = init.length * size + t.x.length ∧
    value size e b = (match mapE (fun p : Block 𝕜 q => coeffDetermination p.x p.y) init with
      | .error x => .error x
      | .ok tmp => match coeffDetermination t.x t.y with
        | .error x => .error x
        | .ok v => .ok (tmp.flatMap (fun v => List.replicate size v) ++ List.replicate t.x.length v)) := by
  obtain ⟨he, hb, ha, hr, t, ht, hl, hl'⟩ := hc
  have hts : ts = ts.dropLast ++ [t] := by
    have hne : ts ≠ [] := by rintro rfl; simp at ht
    have := List.dropLast_append_getLast hne
    rw [List.getLast?_eq_some_getLast hne] at ht
    rw [← Option.some.inj ht, this]
  set init := ts.dropLast with hinit
  have hai : ∀ u ∈ init, u.y.length = size := by
    intro u hu
    rw [← ha u (by rw [hts]; simp [hu]), hr u hu]
  have hat : t.x.length = t.y.length := ha t (by rw [hts]; simp)
  have hone : t.x.length < size → init = [] := by
    intro h
    have := hl' h
    rw [hts] at this
    simpa using this
  have e1 : e = init.flatMap (·.x) ++ t.x := by rw [he, hts]; simp
  have b1 : b = init.flatMap (·.y) ++ t.y := by rw [hb, hts]; simp
  have hE := breshape_cut (·.x) size init hr t.x hl hone
  have hB := breshape_cut (·.y) size init hai t.y (by omega) (by rw [← hat]; exact hone)
  rw [← e1] at hE
  rw [← b1] at hB
  have hlen : e.length = b.length := by
    rw [e1, b1, List.length_append, List.length_append, length_flatMap_const _ _ _ hr, length_flatMap_const _ _ _ hai, hat]
  have hlen2 : e.length = init.length * size + t.x.length := by
    conv_lhs => rw [e1]
    rw [List.length_append, length_flatMap_const _ _ _ hr]
  refine ⟨init, t, hts, hlen, hlen2, ?_⟩
  unfold value
  rw [if_neg (by simpa using hlen), if_neg hs.ne', hE.1, hB.1]
  have hBl := hB.2.2.1
  rw [← hlen] at hBl
  simp only
  rw [hE.2.2.1, hBl]
  have hz : mapE (fun p : List 𝕜 × List (Fin q → 𝕜) => coeffDetermination p.1 p.2) ((init.map (·.x)).zip (init.map (·.y))) =
      mapE (fun p : Block 𝕜 q => coeffDetermination p.x p.y) init := by
    clear_value init
    clear * -
    induction init with
    | nil => rfl
    | cons a l ih => simp only [List.map_cons, List.zip_cons_cons, mapE, ih]
  rw [hz]
  cases hm : mapE (fun p : Block 𝕜 q => coeffDetermination p.x p.y) init with
  | error x => rfl
  | ok tmp =>
    simp only
    cases coeffDetermination t.x t.y with
    | error x => rfl
    | ok v =>
      simp only
      have htl : tmp.length = init.length := by
        rw [mapE_ok] at hm
        exact hm.length_eq.symm
      have hfl : (tmp.flatMap (fun v => List.replicate size v)).length = init.length * size := by
        rw [length_flatMap_const _ size _ (by simp), htl]
      have hcl : (tmp.flatMap (fun v => List.replicate size v) ++ (List.replicate e.length (Flt.fin 0)).drop (tmp.length * size)).length
          = e.length := by
        rw [List.length_append, hfl, List.length_drop, List.length_replicate, htl, hlen2]
        omega
      simp only [lastN, List.length_drop]
      rw [hcl, hE.2.2.2, ← hfl, List.take_left, hfl]
      congr 3
      omega

/-- **C56.** The samples can be cut into blocks, for any block size. -/
theorem C56_cut (size : ℕ) (hs : 0 < size) (e : List 𝕜) (b : List (Fin q → 𝕜)) (hl : e.length = b.length) :
    ∃ ts, Cut size e b ts ∧ ∀ t ∈ ts, Independent t.obs → IsCod t := by
  have key : ∀ (n : ℕ) (e : List 𝕜) (b : List (Fin q → 𝕜)), e.length = n → e.length = b.length →
      ∃ ts, Cut size e b ts ∧ ∀ t ∈ ts, Independent t.obs → IsCod t := by
    intro n
    induction n using Nat.strong_induction_on with
    | _ n ih =>
      intro e b hn hl
      by_cases h2 : e.length < 2 * size
      · obtain ⟨c, hc⟩ := exists_cod e b hl
        exact ⟨[⟨e, b, c⟩], ⟨by simp, by simp, by simpa using hl, by simp, ⟨_, rfl, h2, fun _ => rfl⟩⟩, by simpa using hc⟩
      · obtain ⟨ts, ⟨c1, c2, c3, c4, t, c5, c6, c7⟩, hts⟩ := ih (e.length - size) (by omega) (e.drop size) (b.drop size) (by simp) (by simp [hl])
        obtain ⟨c, hc⟩ := exists_cod (e.take size) (b.take size) (by simp [hl])
        have hne : ts ≠ [] := by rintro rfl; simp at c5
        refine ⟨⟨e.take size, b.take size, c⟩ :: ts, ⟨?_, ?_, ?_, ?_, t, ?_, c6, ?_⟩, ?_⟩
        · simp only [List.flatMap_cons, ← c1, List.take_append_drop]
        · simp only [List.flatMap_cons, ← c2, List.take_append_drop]
        · intro u hu
          rcases List.mem_cons.1 hu with rfl | hu
          · simp [hl]
          · exact c3 u hu
        · intro u hu
          rw [List.dropLast_cons_of_ne_nil hne] at hu
          rcases List.mem_cons.1 hu with rfl | hu
          · simp; omega
          · exact c4 u hu
        · rw [List.getLast?_cons_of_ne_nil hne, c5]
        · intro h
          have h1 := c7 h
          obtain ⟨u, rfl⟩ := List.length_eq_one_iff.1 h1
          simp only [List.getLast?_singleton, Option.some.injEq] at c5
          subst c5
          have := congrArg List.length c1
          simp at this
          omega
        · intro u hu
          rcases List.mem_cons.1 hu with rfl | hu
          · exact hc
          · exact hts u hu
  exact key _ e b rfl hl

/-- **C56.** Every sample gets the coefficient of determination of its block. -/
theorem C56_value (size : ℕ) (hs : 0 < size) (e : List 𝕜) (b : List (Fin q → 𝕜)) (ts : List (Block 𝕜 q))
    (hc : Cut size e b ts) (hcod : ∀ t ∈ ts, IsCod t) :
    value size e b = .ok (ts.flatMap (fun t => List.replicate t.x.length t.cod)) := by
  obtain ⟨init, t, rfl, hl, hl2, hv⟩ := value_cut size e b ts hs hc
  have hm : mapE (fun p : Block 𝕜 q => coeffDetermination p.x p.y) init = .ok (init.map (·.cod)) := by
    apply mapE_of_forall
    intro u hu
    have hu' : u ∈ init ++ [t] := by simp [hu]
    exact coeffDetermination_ok u (hc.aligned u hu') (hcod u hu')
  have ht : t ∈ init ++ [t] := by simp
  rw [hv, hm, coeffDetermination_ok t (hc.aligned t ht) (hcod t ht)]
  simp only [List.flatMap_append, List.flatMap_cons, List.flatMap_nil, List.append_nil, List.flatMap_map]
  congr 2
  apply List.flatMap_congr
  intro u hu
  rw [hc.regular u (by simpa using hu)]

/-- **C56.** If the inputs of some block are dependent, LinAlgError is raised. -/
theorem C56_singular (size : ℕ) (hs : 0 < size) (e : List 𝕜) (b : List (Fin q → 𝕜)) (ts : List (Block 𝕜 q))
    (hc : Cut size e b ts) (t : Block 𝕜 q) (ht : t ∈ ts) (hd : ¬ Independent t.obs) : value size e b = .error .linAlg := by
  obtain ⟨init, t', rfl, hl, hl2, hv⟩ := value_cut size e b ts hs hc
  have dich : ∀ u ∈ init ++ [t'], coeffDetermination u.x u.y = .error .linAlg ∨ ∃ v, coeffDetermination u.x u.y = .ok v := by
    intro u hu
    by_cases hi : Independent u.obs
    · obtain ⟨c, hcc⟩ := exists_cod u.x u.y (hc.aligned u hu)
      exact .inr ⟨c, coeffDetermination_ok ⟨u.x, u.y, c⟩ (hc.aligned u hu) (hcc hi)⟩
    · exact .inl (coeffDetermination_singular u (hc.aligned u hu) hi)
  have hinit : mapE (fun p : Block 𝕜 q => coeffDetermination p.x p.y) init = .error .linAlg ∨
      (∃ l, mapE (fun p : Block 𝕜 q => coeffDetermination p.x p.y) init = .ok l) ∧ ∀ u ∈ init, Independent u.obs := by
    have hd' : ∀ u ∈ init, coeffDetermination u.x u.y = .error .linAlg ∨ ∃ v, coeffDetermination u.x u.y = .ok v :=
      fun u hu => dich u (by simp [hu])
    have ha' : ∀ u ∈ init, u.x.length = u.y.length := fun u hu => hc.aligned u (by simp [hu])
    clear hv hl2 hl hc ht dich
    induction init with
    | nil => exact .inr ⟨⟨[], rfl⟩, by simp⟩
    | cons a l ih =>
      rcases hd' a (List.mem_cons_self ..) with h | ⟨v, h⟩
      · left; simp only [mapE, h]
      · rcases ih (fun u hu => hd' u (List.mem_cons_of_mem _ hu)) (fun u hu => ha' u (List.mem_cons_of_mem _ hu)) with h' | ⟨⟨w, h'⟩, h''⟩
        · left; simp only [mapE, h, h']
        · right
          refine ⟨⟨v :: w, by simp only [mapE, h, h']⟩, ?_⟩
          intro u hu
          rcases List.mem_cons.1 hu with rfl | hu
          · by_contra hn
            rw [coeffDetermination_singular u (ha' u (List.mem_cons_self ..)) hn] at h
            simp at h
          · exact h'' u hu
  rw [hv]
  rcases hinit with h | ⟨⟨l, h⟩, hall⟩
  · rw [h]
  · rw [h]
    rcases List.mem_append.1 ht with h1 | h1
    · exact absurd (hall t h1) hd
    · simp only [List.mem_singleton] at h1
      subst h1
      rw [coeffDetermination_singular t (hc.aligned t ht) hd]

/-- **C57.** The coefficient of determination of a block with non-zero outputs is between 0 and 1, it is 1 exactly for an
exact linear fit and 0 exactly if the outputs are orthogonal to the inputs. -/
theorem C57_bounds (t : Block 𝕜 q) (hl : t.x.length = t.y.length) (hc : IsCod t) (he : ∃ v ∈ t.x, v ≠ 0) :
    ∃ c, t.cod = .fin c ∧ 0 ≤ c ∧ c ≤ 1 ∧ (c = 1 ↔ ∃ z, ∀ o ∈ t.obs, o.x = o.y ⬝ᵥ z) ∧ (c = 0 ↔ NormalEq t.obs 0) := by
  obtain ⟨hi, z, hz, hv⟩ := hc
  have hp := pythagoras _ _ hl _ hz
  have h1 := cost_nonneg_ones t.x t.y hl z
  have h2 := List.sum_nonneg (fit_nonneg t.x t.y z)
  have hpos : 0 < t.energy := by
    obtain ⟨v, hv, h0⟩ := he
    have := List.single_le_sum (l := t.x.map (fun v => ‖v‖ ^ 2)) (by simp) _ (List.mem_map.2 ⟨v, hv, rfl⟩)
    have hn : 0 < ‖v‖ := norm_pos_iff.2 h0
    exact lt_of_lt_of_le (by positivity) this
  rw [show (t.x.map (fun v => ‖v‖ ^ 2)).sum = t.energy from rfl] at hp
  rw [show obs t.x t.y (List.replicate t.x.length 1) = t.obs from rfl] at hp h1 h2
  rcases hv with ⟨h0, _⟩ | ⟨_, hv⟩
  · exact absurd h0 hpos.ne'
  · have hw1 : ∀ o ∈ t.obs, o.w = 1 := by
      intro o ho
      obtain ⟨i, hi, rfl⟩ := List.getElem_of_mem ho
      simp [Block.obs, obs]
    refine ⟨_, hv, Real.sqrt_nonneg _, ?_, ?_, ?_⟩
    · apply Real.sqrt_le_one.2
      have := div_nonneg h1 hpos.le
      linarith
    · rw [Real.sqrt_eq_one, sub_eq_self, div_eq_zero_iff, or_iff_left hpos.ne']
      constructor
      · intro h0
        refine ⟨z, fun o ho => ?_⟩
        have := zero_of_sum (l := t.obs.map (fun t : Obs 𝕜 q => t.w * ‖t.x - t.y ⬝ᵥ z‖ ^ 2)) ?_ h0 _
          (List.mem_map.2 ⟨o, ho, rfl⟩)
        · rw [hw1 o ho, one_mul] at this
          have := pow_eq_zero_iff (two_ne_zero) |>.1 this
          exact sub_eq_zero.1 (norm_eq_zero.1 this)
        · intro a ha
          obtain ⟨o, ho, rfl⟩ := List.mem_map.1 ha
          rw [hw1 o ho]
          positivity
      · rintro ⟨z', hz'⟩
        have hcost : cost t.obs z' = 0 := by
          unfold cost
          apply List.sum_eq_zero
          intro a ha
          obtain ⟨o, ho, rfl⟩ := List.mem_map.1 ha
          rw [hz' o ho]
          simp
        have := cost_add _ z (z' - z) hz
        rw [add_sub_cancel, hcost] at this
        have h3 := List.sum_nonneg (fit_nonneg t.x t.y (z' - z))
        rw [show obs t.x t.y (List.replicate t.x.length 1) = t.obs from rfl] at h3
        linarith
    · have hx : 1 - cost t.obs z / t.energy = (t.obs.map (fun t => t.w * ‖t.y ⬝ᵥ z‖ ^ 2)).sum / t.energy := by
        field_simp
        linarith
      rw [hx, Real.sqrt_eq_zero (div_nonneg h2 hpos.le), div_eq_zero_iff, or_iff_left hpos.ne']
      constructor
      · intro h0
        have hz0 : ∀ o ∈ t.obs, o.y ⬝ᵥ z = 0 := by
          intro o ho
          have := zero_of_sum (fit_nonneg t.x t.y z) h0 _ (List.mem_map.2 ⟨o, ho, rfl⟩)
          rw [hw1 o ho, one_mul] at this
          exact norm_eq_zero.1 (pow_eq_zero_iff (two_ne_zero) |>.1 this)
        intro j
        rw [← hz j]
        congr 1
        apply List.map_congr_left
        intro o ho
        rw [hz0 o ho]
        simp
      · intro h0
        have : z = 0 := by
          have := hi z (fun j => ?_)
          · exact this
          · have e1 := h0 j
            have e2 := hz j
            have : (t.obs.map (fun t => star (t.y j) * (t.w • (t.y ⬝ᵥ z)))).sum =
                (t.obs.map (fun t => star (t.y j) * (t.w • (t.x - t.y ⬝ᵥ (0 : Fin q → 𝕜))))).sum -
                (t.obs.map (fun t => star (t.y j) * (t.w • (t.x - t.y ⬝ᵥ z)))).sum := by
              generalize t.obs = l
              induction l with
              | nil => simp
              | cons a l ih =>
                simp only [List.map_cons, List.sum_cons, ih, dotProduct_zero, sub_zero, smul_sub, mul_sub]
                ring
            rw [this, e1, e2, sub_zero]
        rw [this]
        apply List.sum_eq_zero
        intro a ha
        obtain ⟨o, ho, rfl⟩ := List.mem_map.1 ha
        simp

/-- **C57.** The filter returns, in increasing order, exactly the samples whose coefficient is below the lower or above the
upper threshold; samples without coefficient (NaN) are not rejected. -/
theorem C57_filter (lo hi : ℝ) (size : ℕ) (hs : 0 < size) (e : List 𝕜) (b : List (Fin q → 𝕜)) (ts : List (Block 𝕜 q))
    (hc : Cut size e b ts) (hcod : ∀ t ∈ ts, IsCod t) :
    ∃ l, call lo hi size e b = .ok l ∧ l.Pairwise (· < ·) ∧
      ∀ n : ℕ, n ∈ l ↔ ∃ c, (ts.flatMap (fun t => List.replicate t.x.length t.cod))[n]? = some (.fin c) ∧ (c < lo ∨ hi < c) := by
  have hv := C56_value size hs e b ts hc hcod
  have hfn : ∀ (n : ℕ) v, (ts.flatMap (fun t => List.replicate t.x.length t.cod))[n]? = some v → v = .nan ∨ ∃ c, v = .fin c := by
    intro n v hv
    obtain ⟨t, ht, h⟩ := List.mem_flatMap.1 (List.mem_of_getElem? hv)
    have := (List.mem_replicate.1 h).2
    obtain ⟨_, z, _, ⟨_, h⟩ | ⟨_, h⟩⟩ := hcod t ht
    · exact .inl (by rw [this, h])
    · exact .inr ⟨_, by rw [this, h]⟩
  unfold call
  rw [hv]
  refine ⟨_, rfl, ?_, ?_⟩
  · apply List.Pairwise.sublist (l₂ := ((ts.flatMap (fun t => List.replicate t.x.length t.cod)).zipIdx).map Prod.snd)
    · exact (List.filter_sublist).map _
    · rw [List.zipIdx_map_snd, ← List.range_eq_range']
      exact List.pairwise_lt_range
  · intro n
    simp only [List.mem_map, List.mem_filter, Prod.exists, List.mem_zipIdx_iff_getElem?, exists_eq_right]
    constructor
    · rintro ⟨v, h1, h2⟩
      rcases hfn n v h1 with rfl | ⟨c, rfl⟩
      · simp [below, above] at h2
      · exact ⟨c, h1, by simpa [below, above] using h2⟩
    · rintro ⟨c, h1, h2⟩
      exact ⟨_, h1, by simpa [below, above] using h2⟩

theorem mem_union1d (a b : List ℕ) (i : ℕ) : i ∈ union1d a b ↔ i ∈ a ∨ i ∈ b := by
  simp [union1d]

theorem union1d_sorted (a b : List ℕ) : (union1d a b).Pairwise (· < ·) := by
  have h1 : (union1d a b).Pairwise (· ≤ ·) := by
    exact List.pairwise_insertionSort (· ≤ ·) _
  have h2 : (union1d a b).Nodup := ((List.perm_insertionSort _ _).nodup_iff).2 (List.nodup_dedup _)
  exact (h1.and h2).imp (fun h => lt_of_le_of_ne h.1 h.2)

/-- **C58.** With a prefilter, each output gets the increasing list of the indices given for it and those rejected by the
prefilter for it. -/
theorem C58_union {α β : Type} (outputs : List α) (inputs : β) (f : α → β → Except Err (List ℕ)) (inv : InvArg)
    (given : List (List ℕ)) (hg : inv.norm outputs.length = .ok given) (hl : given.length = outputs.length)
    (rej : List (List ℕ)) (hr : List.Forall₂ (fun x l => f x inputs = .ok l) outputs rej) :
    ∃ res, applyPrefilter outputs inputs (some f) inv = .ok res ∧ res.length = outputs.length ∧
      ∀ (n : ℕ) l, res[n]? = some l → l.Pairwise (· < ·) ∧
        ∃ g r, given[n]? = some g ∧ rej[n]? = some r ∧ ∀ i, i ∈ l ↔ i ∈ g ∨ i ∈ r := by
  have key : ∀ (outputs : List α) (given rej : List (List ℕ)), given.length = outputs.length →
      List.Forall₂ (fun x l => f x inputs = .ok l) outputs rej →
      mapE (fun p : α × List ℕ => match f p.1 inputs with
        | .error x => .error x
        | .ok l => .ok (union1d p.2 l)) (outputs.zip given) = .ok (List.zipWith union1d given rej) := by
    intro outputs given rej hl hr
    induction hr generalizing given with
    | nil => cases given <;> simp_all [mapE]
    | cons h hr ih =>
      cases given with
      | nil => simp at hl
      | cons g given =>
        have := ih given (by simpa using hl)
        simp only [List.zip_cons_cons, mapE, h, this, List.zipWith_cons_cons]
  have hrl := hr.length_eq
  refine ⟨List.zipWith union1d given rej, ?_, by simp; omega, ?_⟩
  · unfold applyPrefilter
    rw [hg]
    simp only
    rw [if_neg (by simpa using hl)]
    exact key _ _ _ hl hr
  · intro n l h
    rw [List.getElem?_zipWith] at h
    cases h1 : given[n]? with
    | none => rw [h1] at h; simp at h
    | some g =>
      cases h2 : rej[n]? with
      | none => rw [h1, h2] at h; simp at h
      | some r =>
        rw [h1, h2] at h
        simp only [Option.some.injEq] at h
        subst h
        exact ⟨union1d_sorted _ _, g, r, rfl, rfl, mem_union1d _ _⟩

/-- **C58.** Without prefilter the given lists are returned: the same for all outputs for a flat sequence, none for an absent
or empty one; as many lists as outputs are required. -/
theorem C58_none {α β : Type} (outputs : List α) (inputs : β) (hne : outputs ≠ []) :
    applyPrefilter outputs inputs none .none = .ok (List.replicate outputs.length []) ∧
    (∀ l, applyPrefilter outputs inputs none (.flat l) = .ok (List.replicate outputs.length l)) ∧
    (∀ l, l.length = outputs.length → applyPrefilter outputs inputs none (.each l) = .ok l) ∧
    ∀ l f, l ≠ [] → l.length ≠ outputs.length → applyPrefilter outputs inputs f (.each l) = .error .assertion := by
  have h0 : outputs.length ≠ 0 := by simpa using hne
  refine ⟨?_, ?_, ?_, ?_⟩
  · simp [applyPrefilter, InvArg.norm, h0]
  · intro l
    cases l <;> simp [applyPrefilter, InvArg.norm, h0]
  · intro l hl
    cases l with
    | nil => exact absurd hl.symm (by simpa using hne)
    | cons a l => simp only [applyPrefilter, InvArg.norm]; rw [if_neg (by simpa using hl)]
  · intro l f h1 h2
    cases l with
    | nil => exact absurd rfl h1
    | cons a l => simp only [applyPrefilter, InvArg.norm]; rw [if_pos (by simpa using h2)]

/-- **C58.** A prefilter that raises makes it raise the error of the first output concerned. -/
theorem C58_raises {α β : Type} (outputs : List α) (inputs : β) (f : α → β → Except Err (List ℕ)) (inv : InvArg)
    (given : List (List ℕ)) (hg : inv.norm outputs.length = .ok given) (hl : given.length = outputs.length)
    (pre post : List α) (x : α) (err : Err) (ho : outputs = pre ++ x :: post) (hp : ∀ y ∈ pre, ∃ l, f y inputs = .ok l)
    (hx : f x inputs = .error err) : applyPrefilter outputs inputs (some f) inv = .error err := by
  unfold applyPrefilter
  rw [hg]
  simp only
  rw [if_neg (by simpa using hl)]
  subst ho
  clear hg
  induction pre generalizing given with
  | nil =>
    cases given with
    | nil => simp at hl
    | cons g given => simp only [List.nil_append, List.zip_cons_cons, mapE, hx]
  | cons y pre ih =>
    cases given with
    | nil => simp at hl
    | cons g given =>
      obtain ⟨l, hy⟩ := hp y (List.mem_cons_self ..)
      simp only [List.cons_append, List.zip_cons_cons, mapE, hy,
        ih given (fun y hy => hp y (List.mem_cons_of_mem _ hy)) (by simpa using hl)]

/-- Three samples in blocks of two: one block of three samples, with coefficient 1 for an exact fit. -/
example : ∃ ts : List (Block ℂ 1), Cut 2 [1, 2, 3] [fun _ => 1, fun _ => 2, fun _ => 3] ts ∧ ∀ t ∈ ts, IsCod t ∧
    t.x.length = t.y.length ∧ ∃ v ∈ t.x, v ≠ 0 := by
  refine ⟨[⟨[1, 2, 3], [fun _ => 1, fun _ => 2, fun _ => 3], .fin 1⟩], ⟨by simp, by simp, by simp, by simp, _, rfl, by simp, by simp⟩, ?_⟩
  intro t ht
  simp only [List.mem_singleton] at ht
  subst ht
  refine ⟨⟨?_, fun _ => 1, ?_, .inr ⟨?_, ?_⟩⟩, rfl, 1, by simp, by simp⟩
  · intro d hd
    have := hd 0
    simp [Block.obs, obs, dotProduct, map_ofNat] at this
    funext j
    fin_cases j
    have h14 : (14 : ℂ) * d 0 = 0 := by linear_combination this
    simpa using h14
  · intro j
    simp [Block.obs, obs, dotProduct]
  · simp only [Block.energy, List.map_cons, List.sum_cons]
    norm_num
  · simp [Block.obs, obs, dotProduct, cost]

/-- Five samples in blocks of two: a block of two and one of three. -/
example : ∃ ts : List (Block ℂ 1), Cut 2 [1, 2, 3, 4, 5] (List.replicate 5 (fun _ => 1)) ts ∧ ts.map (·.x.length) = [2, 3] :=
  ⟨[⟨[1, 2], List.replicate 2 (fun _ => 1), .nan⟩, ⟨[3, 4, 5], List.replicate 3 (fun _ => 1), .nan⟩],
    ⟨rfl, rfl, by simp, by simp, _, rfl, by simp, by simp⟩, rfl⟩

example : applyPrefilter ["a", "b"] () (some (fun s _ => .ok (if s = "a" then [3, 1] else []))) (.flat [2, 1]) =
    .ok [[1, 2, 3], [1, 2]] := by decide +kernel

end Razorback.Props
