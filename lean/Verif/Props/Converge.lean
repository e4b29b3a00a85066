/-
Property C127: estimations with a fixed loss converge.
-/
import Verif.Lemmas.Converge
import Verif.Spec.Converge
import Verif.Props.Descent
import Verif.Props.Chain
import Verif.Props.Iterations

namespace Razorback.Props
open Razorback Razorback.Spec Razorback.MEst Razorback.Weights

variable {𝕜 : Type} [RCLike 𝕜] {q : ℕ} {σ : Type}

/-- A pass is determined by what it starts from. -/
theorem IsPass.unique {wf : WFun σ 𝕜 q} {e : List 𝕜} {b : List (Fin q → 𝕜)} {eps : ℝ} {it : ℕ} {r : List 𝕜} {inv : List ℕ} {st : σ}
    (hr : r.length = e.length) {p p' : Pass σ 𝕜 q} (h : IsPass wf e b eps it r inv st p) (h' : IsPass wf e b eps it r inv st p') : p = p' := by
  obtain ⟨-, ⟨shown, raw, hev, hsl, hsh, hcase⟩, ws, hws, hind, hn⟩ := h
  obtain ⟨-, ⟨shown', raw', hev', hsl', hsh', hcase'⟩, ws', hws', hind', hn'⟩ := h'
  obtain rfl : shown = shown' := by
    refine List.ext_getElem? (fun i => ?_)
    by_cases hi : i < r.length
    · rw [hsh i _ (List.getElem?_eq_getElem hi), hsh' i _ (List.getElem?_eq_getElem hi)]
    · rw [List.getElem?_eq_none (by omega), List.getElem?_eq_none (by omega)]
  rw [hev] at hev'
  simp only [Prod.mk.injEq, Except.ok.injEq] at hev'
  obtain ⟨rfl, hst⟩ := hev'
  have hw : p.w = p'.w ∧ p.rejected = p'.rejected := by
    rcases hcase with ⟨rfl, h1, h2⟩ | ⟨w0, w, rfl, h1, h2, h3, h4, h5, h6⟩
    · rcases hcase' with ⟨-, h1', h2'⟩ | ⟨w0, w, h, -⟩
      · exact ⟨h1.trans h1'.symm, h2.trans h2'.symm⟩
      · simp at h
    · rcases hcase' with ⟨h, -⟩ | ⟨w0', w', h0', h1', h2', h3', h4', h5', h6'⟩
      · simp at h
      injection h0' with h0'
      subst h0'
      obtain rfl : w = w' := by
        refine List.ext_getElem? (fun i => ?_)
        by_cases hi : i < w0.length
        · rw [h4 i _ (List.getElem?_eq_getElem hi), h4' i _ (List.getElem?_eq_getElem hi)]
        · rw [List.getElem?_eq_none (by omega), List.getElem?_eq_none (by omega)]
      refine ⟨h1.trans h1'.symm, ?_⟩
      exact List.Perm.eq_of_pairwise (fun a b _ _ h h' => absurd (h.trans h') (lt_irrefl _)) h5 h5'
        ((List.perm_ext_iff_of_nodup (h5.imp (fun h => h.ne)) (h5'.imp (fun h => h.ne))).2 (fun i => (h6 i).trans (h6' i).symm))
  have hwse : ws = ws' := by
    have hinj : Function.Injective Flt.fin := fun _ _ h => by injection h
    rcases hws with ⟨hl, ⟨h1, h2⟩ | h1⟩ <;> rcases hws' with ⟨hl', ⟨h1', h2'⟩ | h1'⟩
    · rw [h2, h2']
    · rw [← hw.1, h1] at h1'; simp at h1'
    · rw [hw.1, h1'] at h1; simp at h1
    · rw [hw.1, h1'] at h1
      exact List.map_injective_iff.2 hinj (Option.some.inj h1).symm
  subst hwse
  have hz : p.z = p'.z := by
    have := hind (p'.z - p.z) (by
      intro j
      have e1 := hn j
      have e2 := hn' j
      have : ∀ l : List (Obs 𝕜 q), (l.map (fun t => star (t.y j) * (t.w • (t.y ⬝ᵥ (p'.z - p.z))))).sum =
          (l.map (fun t => star (t.y j) * (t.w • (t.x - t.y ⬝ᵥ p.z)))).sum - (l.map (fun t => star (t.y j) * (t.w • (t.x - t.y ⬝ᵥ p'.z)))).sum := by
        intro l
        induction l with
        | nil => simp
        | cons t l ih =>
          rw [List.map_cons, List.sum_cons, ih, List.map_cons, List.sum_cons, List.map_cons, List.sum_cons, dotProduct_sub, smul_sub, smul_sub, smul_sub]
          ring
      rw [this, e1, e2, sub_zero])
    exact (sub_eq_zero.1 this).symm
  cases p; cases p'
  simp only [Pass.mk.injEq] at *
  exact ⟨hw.1, hw.2, hz, hst⟩

theorem Passes.take {wf : WFun σ 𝕜 q} {e : List 𝕜} {b : List (Fin q → 𝕜)} {eps : ℝ} : ∀ (n : ℕ) {it : ℕ} {r : List 𝕜} {inv : List ℕ} {st : σ}
    {ps : List (Pass σ 𝕜 q)}, Passes wf e b eps it r inv st ps → Passes wf e b eps it r inv st (ps.take n)
  | 0, _, _, _, _, _, _ => by simpa using Passes.nil _ _ _ _
  | n + 1, _, _, _, _, _, .nil _ _ _ _ => by simpa using Passes.nil _ _ _ _
  | n + 1, _, _, _, _, _, .cons h h' => .cons h (Passes.take n h')

theorem Passes.unique {wf : WFun σ 𝕜 q} {e : List 𝕜} {b : List (Fin q → 𝕜)} (hb : e.length = b.length) {eps : ℝ} : ∀ {ps ps' : List (Pass σ 𝕜 q)} {it : ℕ} {r : List 𝕜}
    {inv : List ℕ} {st : σ}, r.length = e.length → Passes wf e b eps it r inv st ps → Passes wf e b eps it r inv st ps' → ps.length = ps'.length → ps = ps'
  | [], ps', _, _, _, _, _, _, _, hl => (List.length_eq_zero_iff.1 hl.symm).symm
  | p :: ps, [], _, _, _, _, _, _, _, hl => by simp at hl
  | p :: ps, p' :: ps', _, _, _, _, hr, .cons h h1, .cons h' h1', hl => by
    obtain rfl := IsPass.unique hr h h'
    rw [Passes.unique hb (length_resid hb _) h1 h1' (by simpa using hl)]

theorem Passes.pass {wf : WFun σ 𝕜 q} {e : List 𝕜} {b : List (Fin q → 𝕜)} {eps : ℝ} : ∀ {l l' : List (Pass σ 𝕜 q)} {p p' : Pass σ 𝕜 q} {it : ℕ} {r : List 𝕜} {inv : List ℕ}
    {st : σ}, Passes wf e b eps it r inv st (l ++ p :: p' :: l') → IsPass wf e b eps (it + l.length + 1) (resid e b p.z) p.rejected p.st p'
  | [], _, _, _, _, _, _, _, .cons _ (.cons h _) => h
  | a :: l, _, _, _, it, _, _, _, .cons _ h => by
    have := Passes.pass (l := l) h
    rwa [show it + 1 + l.length + 1 = it + (a :: l).length + 1 by simp; omega] at this

/-- An estimation which goes on for ever. -/
theorem endless {wf : WFun σ 𝕜 q} (hwf : ∀ st it r e b inv, (wf st it r e b inv).1 ≠ .error .nonConv) {e : List 𝕜} {b : List (Fin q → 𝕜)}
    (hb : e.length = b.length) {z0 : Fin q → 𝕜} {inv : List ℕ} {o : Opts} {st : σ}
    (h : ∀ M, ∃ m, M ≤ m ∧ (mEstimate e b (some z0) (some wf) inv { o with maxit := m } st).1 = .error .nonConv) :
    ∃ p : ℕ → Pass σ 𝕜 q, (∀ n, Passes wf e b o.eps 0 (resid e b z0) inv st ((List.range n).map p)) ∧ ∀ k, ¬ SmallChange e b o.tol (p k) (p (k + 1)) := by
  have h1 : ∀ n, ∃ ps : List (Pass σ 𝕜 q), ps.length = n ∧ Passes wf e b o.eps 0 (resid e b z0) inv st ps ∧
      ps.IsChain (fun p p' => ¬ SmallChange e b o.tol p p') := by
    intro n
    obtain ⟨m, hm, hx⟩ := h n
    obtain ⟨ps, hps, hl, hch⟩ := (C46_raises wf hwf e b hb z0 inv { o with maxit := m } st _ hx).1 rfl
    refine ⟨ps.take n, ?_, Passes.take n hps, hch.take n⟩
    rw [List.length_take, hl]
    exact min_eq_left hm
  choose L hL hP hC using h1
  have hlast : ∀ n, L (n + 1) = L n ++ [(L (n + 1))[n]'(by rw [hL]; omega)] := by
    intro n
    have e1 : (L (n + 1)).take n = L n := Passes.unique hb (length_resid hb _) (Passes.take n (hP (n + 1))) (hP n) (by simp [hL])
    have := List.take_append_getElem (l := L (n + 1)) (i := n) (by rw [hL]; omega)
    rw [e1] at this
    rw [this, List.take_of_length_le (by rw [hL])]
  set p : ℕ → Pass σ 𝕜 q := fun k => (L (k + 1))[k]'(by rw [hL]; omega) with hp
  have hLp : ∀ n, L n = (List.range n).map p := by
    intro n
    induction n with
    | zero => exact List.length_eq_zero_iff.1 (hL 0)
    | succ n ih => rw [hlast n, ih, List.range_succ, List.map_append]; rfl
  refine ⟨p, fun n => hLp n ▸ hP n, ?_⟩
  intro k
  have := hC (k + 2)
  rw [hLp, List.isChain_iff_getElem] at this
  have := this k (by simp)
  simpa using this

/-- The weights of a pass, when the weight of a residual is a function of its size. -/
theorem IsPass.real {wf : WFun σ 𝕜 q} {e : List 𝕜} {b : List (Fin q → 𝕜)} (hb : e.length = b.length) {eps : ℝ} {it : ℕ} {z0 : Fin q → 𝕜} {inv : List ℕ}
    {st : σ} {p : Pass σ 𝕜 q} (hp : IsPass wf e b eps it (resid e b z0) inv st p) {W : ℝ → ℝ} (h0 : ∀ x, 0 ≤ x → 0 ≤ W x)
    (hw : ∀ shown : List (Option 𝕜), shown.length = e.length →
      (∀ (i : ℕ) x, (resid e b z0)[i]? = some x → shown[i]? = some (if i ∈ inv then none else some x)) →
      ∃ w0, (wf st it shown e b inv).1 = .ok (some w0) ∧ ∀ (i : ℕ) x, shown[i]? = some (some x) → w0[i]? = some (.fin (W ‖x‖))) :
    ∃ ws, WeightsAre p.w e.length ws ∧ Independent (obs e b ws) ∧ NormalEq (obs e b ws) p.z ∧
      (∀ (i : ℕ) (a : ℝ) (x : 𝕜), ws[i]? = some a → (resid e b z0)[i]? = some x → a = if i ∈ inv then 0 else W ‖x‖) ∧
      ∀ (i : ℕ) (a : ℝ), ws[i]? = some a → (i ∈ p.rejected ↔ a ≤ eps) := by
  obtain ⟨shown, raw, hev, hsl, hsh, hcase⟩ := hp.eval
  have hrl : (resid e b z0).length = e.length := length_resid hb z0
  obtain ⟨w0', hok, hwts⟩ := hw shown (by rw [hsl, hrl]) hsh
  rw [hev] at hok
  simp only [Except.ok.injEq] at hok
  subst hok
  rcases hcase with ⟨h, -⟩ | ⟨w0, w, h1, h2, h3, h4, h5, h6, h7⟩
  · simp at h
  injection h1 with h1
  subst h1
  obtain ⟨ws, hws, hind, hn⟩ := hp.weights
  have hwl := hws.1
  have hww : w = ws.map Flt.fin := by
    rcases hws.2 with ⟨h, -⟩ | h
    · rw [h2] at h; simp at h
    · rw [h2] at h; simpa using h
  have hval : ∀ (i : ℕ) (a : ℝ) (x : 𝕜), ws[i]? = some a → (resid e b z0)[i]? = some x → a = if i ∈ inv then 0 else W ‖x‖ := by
    intro i a x ha hx
    have hi : i < e.length := by
      have := (List.getElem?_eq_some_iff.1 hx).1
      omega
    have hwi : w[i]? = some (.fin a) := by rw [hww, List.getElem?_map, ha]; rfl
    obtain ⟨v, hv⟩ : ∃ v, w0'[i]? = some v := ⟨_, List.getElem?_eq_getElem (by omega)⟩
    have h5' := h5 i v hv
    rw [hwi] at h5'
    simp only [Option.some.injEq] at h5'
    by_cases hin : i ∈ inv
    · simp only [hin, if_true] at h5' ⊢
      injection h5'
    · simp only [hin, if_false] at h5' ⊢
      have hs := hsh i x hx
      simp only [hin, if_false] at hs
      have := hwts i x hs
      rw [hv, ← h5'] at this
      simpa using this
  refine ⟨ws, hws, hind, hn, hval, ?_⟩
  intro i a ha
  have hi : i < (resid e b z0).length := by
    have := (List.getElem?_eq_some_iff.1 ha).1
    omega
  have ha0 : 0 ≤ a := by
    rw [hval i a _ ha (List.getElem?_eq_getElem hi)]
    split
    · exact le_rfl
    · exact h0 _ (norm_nonneg _)
  rw [h7]
  have hwi : w[i]? = some (.fin a) := by rw [hww, List.getElem?_map, ha]; rfl
  rw [hwi]
  constructor
  · rintro ⟨v, hv, h⟩
    simp only [Option.some.injEq, Flt.fin.injEq] at hv
    rwa [← hv, abs_of_nonneg ha0] at h
  · intro h
    exact ⟨a, rfl, by rwa [abs_of_nonneg ha0]⟩

theorem cost_fin {e : List 𝕜} {b : List (Fin q → 𝕜)} (hb : e.length = b.length) {ws : List ℝ} (hw : ws.length = e.length) (z : Fin q → 𝕜) :
    cost (obs e b ws) z = ∑ i : Fin e.length, ws[i] * ‖e[i] - b[i] ⬝ᵥ z‖ ^ 2 := by
  have : obs e b ws = List.ofFn (fun i : Fin e.length => (⟨ws[i], e[i], b[i]⟩ : Obs 𝕜 q)) := by
    refine List.ext_getElem (by simp [obs, hb, hw]) (fun i h1 h2 => ?_)
    simp [obs]
  rw [cost, this, List.map_ofFn, List.sum_ofFn]
  rfl

theorem step_fin {e : List 𝕜} {b : List (Fin q → 𝕜)} (hb : e.length = b.length) {ws : List ℝ} (hw : ws.length = e.length) (d : Fin q → 𝕜) :
    ((obs e b ws).map (fun t => t.w * ‖t.y ⬝ᵥ d‖ ^ 2)).sum = ∑ i : Fin e.length, ws[i] * ‖b[i] ⬝ᵥ d‖ ^ 2 := by
  have : obs e b ws = List.ofFn (fun i : Fin e.length => (⟨ws[i], e[i], b[i]⟩ : Obs 𝕜 q)) := by
    refine List.ext_getElem (by simp [obs, hb, hw]) (fun i h1 h2 => ?_)
    simp [obs]
  rw [this, List.map_ofFn, List.sum_ofFn]
  rfl

/-- Passes which go on for ever with weights from a fixed loss: somewhere the change is small, or what is kept is fitted
exactly and determines the estimate. -/
theorem endless_settles {wf : WFun σ 𝕜 q} {e : List 𝕜} {b : List (Fin q → 𝕜)} (hb : e.length = b.length) {eps : ℝ} (heps : 0 < eps)
    (z : ℕ → Fin q → 𝕜) (inv : ℕ → List ℕ) (st : ℕ → σ) (p : ℕ → Pass σ 𝕜 q) (hz : ∀ k, z (k + 1) = (p k).z) (hi : ∀ k, inv (k + 1) = (p k).rejected)
    (hp : ∀ k, IsPass wf e b eps k (resid e b (z k)) (inv k) (st k) (p k)) {W : ℝ → ℝ} (hW : AntitoneOn W (Set.Ici 0))
    (hc : ContinuousOn W (Set.Ici 0)) (h0 : ∀ x, 0 ≤ x → 0 ≤ W x)
    (hw : ∀ k (shown : List (Option 𝕜)), shown.length = e.length →
      (∀ (i : ℕ) x, (resid e b (z k))[i]? = some x → shown[i]? = some (if i ∈ inv k then none else some x)) →
      ∃ w0, (wf (st k) k shown e b (inv k)).1 = .ok (some w0) ∧ ∀ (i : ℕ) x, shown[i]? = some (some x) → w0[i]? = some (.fin (W ‖x‖)))
    {tol : ℝ} (htol : 0 < tol) :
    (∃ k, SmallChange e b tol (p k) (p (k + 1))) ∨ ∃ k, FitsExactly e b (p k).rejected (p k).z := by
  have hreal := fun k => IsPass.real hb (hp k) h0 (hw k)
  choose ws hws hind hn hval hrej using hreal
  have hwl : ∀ k, (ws k).length = e.length := fun k => (hws k).1
  set r : ℕ → Fin e.length → 𝕜 := fun k i => e[i] - b[i] ⬝ᵥ z k with hr
  have hrk : ∀ k (i : Fin e.length), (resid e b (z k))[(i : ℕ)]? = some (r k i) := by
    intro k i
    rw [List.getElem?_eq_getElem (by rw [length_resid hb]; exact i.2)]
    simp [resid, hr, dotProduct]
  have hwk : ∀ k (i : Fin e.length), (ws k)[(i : ℕ)]? = some ((ws k)[(i : ℕ)]'(by rw [hwl]; exact i.2)) := fun k i => List.getElem?_eq_getElem _
  set w : ℕ → Fin e.length → ℝ := fun k i => (ws k)[(i : ℕ)]'(by rw [hwl]; exact i.2) with hw'
  have hwv : ∀ k i, w k i = if (i : ℕ) ∈ inv k then 0 else W ‖r k i‖ := fun k i => hval k i _ _ (hwk k i) (hrk k i)
  have hJ : ∀ k (i : Fin e.length), (i : ℕ) ∈ inv (k + 1) ↔ w k i ≤ eps := by
    intro k i
    rw [hi]
    exact hrej k i _ (hwk k i)
  have hmono : ∀ k (i : Fin e.length), (i : ℕ) ∈ inv k → (i : ℕ) ∈ inv (k + 1) := by
    intro k i h
    rw [hJ, hwv, if_pos h]
    exact heps.le
  have hkeep : ∀ k (i : Fin e.length), (i : ℕ) ∉ inv (k + 1) → eps < W ‖r k i‖ := by
    intro k i h
    have h1 : (i : ℕ) ∉ inv k := fun h' => h (hmono k i h')
    rw [hJ, not_le, hwv, if_neg h1] at h
    exact h
  set E : ℕ → ℝ := fun k => ∑ i, w k i * ‖r (k + 1) i‖ ^ 2 with hE
  have hcost : ∀ k l, cost (obs e b (ws k)) (z l) = ∑ i, w k i * ‖r l i‖ ^ 2 := fun k l => cost_fin hb (hwl k) (z l)
  have hpyth : ∀ k l, ∑ i, w k i * ‖r l i‖ ^ 2 = ∑ i, w k i * ‖r (k + 1) i‖ ^ 2 + ∑ i, w k i * ‖r (k + 1) i - r l i‖ ^ 2 := by
    intro k l
    have h1 := cost_add (obs e b (ws k)) (z (k + 1)) (z l - z (k + 1)) (by rw [hz]; exact hn k)
    rw [add_sub_cancel, hcost, hcost, step_fin hb (hwl k)] at h1
    rw [h1]
    refine congrArg₂ _ rfl (Finset.sum_congr rfl (fun i _ => ?_))
    have hsub : ∀ a c d : 𝕜, a - c - (a - d) = d - c := fun _ _ _ => by ring
    simp only [hr, dotProduct_sub, hsub]
    rfl
  have hE0 : ∀ k, 0 ≤ E k := by
    intro k
    refine Finset.sum_nonneg (fun i _ => mul_nonneg ?_ (by positivity))
    rw [hwv]
    split
    · exact le_rfl
    · exact h0 _ (norm_nonneg _)
  have hen : ∀ k, EnergyIs e b (p k) (E k) := by
    intro k
    refine ⟨ws k, hws k, ?_⟩
    rw [← hz, hcost, abs_of_nonneg (hE0 k)]
  by_cases hex : ∃ k, E k = 0
  · obtain ⟨k, hk⟩ := hex
    refine .inr ⟨k, ?_, ?_⟩
    swap
    · intro d hd
      refine hind (k + 1) d (fun j => List.sum_eq_zero ?_)
      intro a ha
      obtain ⟨t, ht, rfl⟩ := List.mem_map.1 ha
      obtain ⟨i, hil, rfl⟩ := List.getElem_of_mem ht
      have hil' : i < e.length := by
        simp only [obs, List.length_zipWith, List.length_zip] at hil
        omega
      have h1 : (obs e b (ws (k + 1)))[i].w = w (k + 1) ⟨i, hil'⟩ := by simp [obs, hw']
      have h2 : (obs e b (ws (k + 1)))[i].y = b[i] := by simp [obs]
      rw [h1, h2, hwv]
      by_cases hin : i ∈ inv (k + 1)
      · simp [hin]
      · rw [hd i _ (List.getElem?_eq_getElem (hb ▸ hil')) (by rw [← hi]; exact hin)]
        simp
    intro i x hx hni
    rw [← hz] at hx
    have hil : i < e.length := by
      have := (List.getElem?_eq_some_iff.1 hx).1
      rwa [length_resid hb] at this
    rw [hrk (k + 1) ⟨i, hil⟩] at hx
    obtain rfl := Option.some.inj hx
    have hni' : i ∉ inv (k + 1) := by rw [hi]; exact hni
    have hterm := (Finset.sum_eq_zero_iff_of_nonneg (fun i _ => mul_nonneg (by
      rw [hwv]
      split
      · exact le_rfl
      · exact h0 _ (norm_nonneg _)) (by positivity))).1 hk ⟨i, hil⟩ (Finset.mem_univ _)
    have hpos := hkeep k ⟨i, hil⟩ hni'
    rw [hwv, if_neg (fun h => hni' (hmono k ⟨i, hil⟩ h))] at hterm
    rcases mul_eq_zero.1 hterm with h | h
    · rw [h] at hpos
      exact absurd heps (by linarith)
    · exact norm_eq_zero.1 (pow_eq_zero_iff (by norm_num) |>.1 h)
  · push Not at hex
    obtain ⟨k, hk⟩ := energy_settles hW hc h0 heps r (fun k => Finset.univ.filter (fun i : Fin e.length => (i : ℕ) ∈ inv k))
      (fun k i h => by simpa using hmono k i (by simpa using h)) (fun k i h => hkeep k i (by simpa using h)) w (fun k i => by simpa using hwv k i)
      hpyth E (fun _ => rfl) hex htol
    exact .inl ⟨k, E k, E (k + 1), hen k, hen (k + 1), hex k, hk⟩

/-- The passes of an estimation which goes on for ever, one by one. -/
theorem endless_passes {wf : WFun σ 𝕜 q} {e : List 𝕜} {b : List (Fin q → 𝕜)} {eps : ℝ} {z0 : Fin q → 𝕜} {inv : List ℕ} {st : σ} {p : ℕ → Pass σ 𝕜 q}
    (hp : ∀ n, Passes wf e b eps 0 (resid e b z0) inv st ((List.range n).map p)) :
    IsPass wf e b eps 0 (resid e b z0) inv st (p 0) ∧ ∀ k, IsPass wf e b eps (k + 1) (resid e b (p k).z) (p k).rejected (p k).st (p (k + 1)) := by
  constructor
  · have := hp 1
    simp only [List.range_one, List.map_cons, List.map_nil] at this
    cases this with
    | cons h _ => exact h
  · intro k
    have := hp (k + 2)
    rw [List.range_succ, List.range_succ] at this
    simp only [List.append_assoc, List.map_append, List.map_cons, List.map_nil, List.cons_append, List.nil_append] at this
    simpa using Passes.pass this

/-- What happens for ever larger numbers of iterations: the same result, or the exception of convergence each time. -/
theorem settles_or (e : List 𝕜) (b : List (Fin q → 𝕜)) (z0 : Fin q → 𝕜) (wf : WFun σ 𝕜 q) (inv : List ℕ) (o : MEst.Opts) (st : σ) :
    (∃ M R, R.1 ≠ .error .nonConv ∧ ∀ m, M ≤ m → mEstimate e b (some z0) (some wf) inv { o with maxit := m } st = R) ∨
      ∀ M, ∃ m, M ≤ m ∧ (mEstimate e b (some z0) (some wf) inv { o with maxit := m } st).1 = .error .nonConv := by
  by_cases h : ∃ M, (mEstimate e b (some z0) (some wf) inv { o with maxit := M } st).1 ≠ .error .nonConv
  · obtain ⟨M, hM⟩ := h
    exact .inl ⟨M, _, hM, fun m hm => C119_maxit e b (some z0) (some wf) inv { o with maxit := M } m hm st hM⟩
  · push Not at h
    exact .inr (fun M => ⟨M, le_rfl, h M⟩)

/-- **C127.** A weight function which gives a residual of size `x` the weight `W x`, `W` continuous and not increasing: from some number of
iterations on the result does not change any more and is not the exception of convergence, unless some pass fits all the samples it
keeps exactly, and these determine the estimate. -/
theorem C127_fixed (wf : WFun σ 𝕜 q) (hwf : ∀ st it r e b inv, (wf st it r e b inv).1 ≠ .error .nonConv) (W : ℝ → ℝ) (hW : AntitoneOn W (Set.Ici 0))
    (hc : ContinuousOn W (Set.Ici 0)) (h0 : ∀ x, 0 ≤ x → 0 ≤ W x) (e : List 𝕜) (b : List (Fin q → 𝕜)) (hb : e.length = b.length)
    (hw : ∀ st it inv (shown : List (Option 𝕜)), shown.length = e.length →
      ∃ w0, (wf st it shown e b inv).1 = .ok (some w0) ∧ ∀ (i : ℕ) x, shown[i]? = some (some x) → w0[i]? = some (.fin (W ‖x‖)))
    (z0 : Fin q → 𝕜) (inv : List ℕ) (o : MEst.Opts) (htol : 0 < o.tol) (heps : 0 < o.eps) (st : σ) :
    Settles (fun m => mEstimate e b (some z0) (some wf) inv { o with maxit := m } st) ∨ PassFits wf e b o.eps z0 inv st := by
  rcases settles_or e b z0 wf inv o st with h | h
  · exact .inl h
  right
  obtain ⟨p, hp, hno⟩ := endless hwf hb h
  obtain ⟨h1, h2⟩ := endless_passes hp
  rcases endless_settles (wf := wf) hb heps (fun k => match k with
      | 0 => z0
      | k + 1 => (p k).z) (fun k => match k with
      | 0 => inv
      | k + 1 => (p k).rejected) (fun k => match k with
      | 0 => st
      | k + 1 => (p k).st) p (fun _ => rfl) (fun _ => rfl) (fun k => match k with
      | 0 => h1
      | k + 1 => h2 k) hW hc h0 (fun k shown hs _ => hw _ _ _ shown hs) htol with ⟨k, hk⟩ | ⟨k, hk⟩
  · exact absurd hk (hno k)
  · refine ⟨(List.range k).map p, p k, ?_, hk⟩
    have := hp (k + 1)
    rwa [List.range_succ, List.map_append] at this

/-- **C127.** Thomson weights: from some number of iterations on the result does not change any more and is not the exception of
convergence, unless some pass fits all the samples it keeps exactly, and these determine the estimate. -/
theorem C127_thomson (xi : Option ℝ) (hxi : ∀ x, xi = some x → 0 < x) (hq : 0 < q) (o : MEst.Opts) (htol : 0 < o.tol) (heps : 0 < o.eps) :
    Settling (thomson xi : WFun (Option Flt) 𝕜 q) o := by
  intro e b hb z0 inv st
  rcases settles_or e b z0 (thomson xi) inv o st with h | h
  · exact .inl h
  right
  obtain ⟨p, hp, hno⟩ := endless (by intro st it r e b inv; unfold thomson; (repeat' split) <;> simp) hb h
  obtain ⟨h1, h2⟩ := endless_passes hp
  obtain ⟨he, s, hs, hpos⟩ := C100_scale xi hxi hq e b hb o.eps z0 inv st (p 0) h1
  have hn : 0 < e.length := List.length_pos_iff.2 he
  have ha := thomsonXi_pos hxi hn
  have hfirst : ∀ shown : List (Option 𝕜), shown.length = e.length →
      (∀ (i : ℕ) x, (resid e b z0)[i]? = some x → shown[i]? = some (if i ∈ inv then none else some x)) →
      thomson (q := q) xi st 0 shown e b inv = (.ok (some ((vnorm shown).map
          (fun v => expexp (Flt.div (flt v) (.fin s)) (thomsonXi xi shown.length)))), some (.fin s)) := by
    intro shown hsl hsh
    have hsz := sizes_shown inv 0 (resid e b z0) shown (by rw [hsl, length_resid hb]) (by simpa using hsh)
    have : madScaleAbs (vnorm shown) = some s := by
      rw [madScale_some, hsz]
      exact hs
    simp only [thomson, if_true, this]
    rfl
  have hlater : ∀ (it : ℕ) (inv : List ℕ) (shown : List (Option 𝕜)), thomson (q := q) xi (some (.fin s)) (it + 1) shown e b inv =
      (.ok (some ((vnorm shown).map (fun v => expexp (Flt.div (flt v) (.fin s)) (thomsonXi xi shown.length)))), some (.fin s)) := by
    intro it inv shown
    simp only [thomson, Nat.add_eq_zero_iff, one_ne_zero, and_false, if_false]
  have hst : ∀ k, (p k).st = some (.fin s) := by
    intro k
    induction k with
    | zero =>
      obtain ⟨shown, raw, hev, hsl, hsh, -⟩ := h1.eval
      rw [hfirst shown (by rw [hsl, length_resid hb]) hsh] at hev
      exact (Prod.mk.injEq _ _ _ _ ▸ hev).2.symm
    | succ k ih =>
      obtain ⟨shown, raw, hev, hsl, hsh, -⟩ := (h2 k).eval
      rw [ih, hlater] at hev
      exact (Prod.mk.injEq _ _ _ _ ▸ hev).2.symm
  have hweights : ∀ k (shown : List (Option 𝕜)), shown.length = e.length →
      (∀ (i : ℕ) x, (resid e b (match k with
        | 0 => z0
        | k + 1 => (p k).z))[i]? = some x → shown[i]? = some (if i ∈ (match k with
        | 0 => inv
        | k + 1 => (p k).rejected) then none else some x)) →
      ∃ w0, (thomson (q := q) xi (match k with
        | 0 => st
        | k + 1 => (p k).st) k shown e b (match k with
        | 0 => inv
        | k + 1 => (p k).rejected)).1 = .ok (some w0) ∧
        ∀ (i : ℕ) x, shown[i]? = some (some x) → w0[i]? = some (.fin (thomsonWeight s (thomsonXi xi e.length) ‖x‖)) := by
    intro k shown hsl hsh
    match k, hsh with
    | 0, hsh =>
      rw [hfirst shown hsl hsh]
      exact ⟨_, rfl, fun i x hx => hsl ▸ thomson_weights s _ hpos shown i x hx⟩
    | k + 1, hsh =>
      simp only [hst]
      rw [hlater]
      exact ⟨_, rfl, fun i x hx => hsl ▸ thomson_weights s _ hpos shown i x hx⟩
  rcases endless_settles (wf := thomson xi) hb heps (fun k => match k with
      | 0 => z0
      | k + 1 => (p k).z) (fun k => match k with
      | 0 => inv
      | k + 1 => (p k).rejected) (fun k => match k with
      | 0 => st
      | k + 1 => (p k).st) p (fun _ => rfl) (fun _ => rfl) (fun k => match k with
      | 0 => h1
      | k + 1 => h2 k) (W := thomsonWeight s (thomsonXi xi e.length)) ((thomsonWeight_anti hpos ha).antitoneOn _)
      (by unfold thomsonWeight; fun_prop) (fun x _ => (Real.exp_pos _).le) hweights htol with ⟨k, hk⟩ | ⟨k, hk⟩
  · exact absurd hk (hno k)
  · refine ⟨(List.range k).map p, p k, ?_, hk⟩
    have := hp (k + 1)
    rwa [List.range_succ, List.map_append] at this

theorem wlse_nonConv (e : List 𝕜) (b : List (Fin q → 𝕜)) (w : Option (List Flt)) : wlse e b w ≠ .error .nonConv := by
  unfold wlse
  simp only
  (repeat' split) <;> simp

theorem delete_nonConv {β : Type} (l : List β) (idx : List ℕ) : delete l idx ≠ .error .nonConv := by
  unfold delete
  split <;> simp

theorem mergeInvalid_nonConv (ls : List (List ℕ)) : mergeInvalid ls ≠ .error .nonConv := by
  have : ∀ (ls : List (List ℕ)) (r : List ℕ), foldE delete r ls ≠ .error .nonConv := by
    intro ls
    induction ls with
    | nil => intro r; simp [foldE]
    | cons l ls ih =>
      intro r
      unfold foldE
      cases h : delete r l with
      | error x =>
        have := delete_nonConv r l
        rw [h] at this
        simpa using this
      | ok r' => exact ih r'
  unfold mergeInvalid
  simp only
  split
  · rename_i x h
    have := this ls (List.range ((ls.map maxOr0).sum + ls.length))
    rw [h] at this
    simpa using this
  · exact delete_nonConv _ _

/-- Somewhere in the chains of an output a pass fits exactly what it keeps. -/
def ChainFits (ws : Weighting σ 𝕜 q) (eps : ℝ) (e : List 𝕜) (b : List (Fin q → 𝕜)) : Prop :=
  ∃ i wf, some (i, wf) ∈ ws ∧ ∃ removed z0 st, PassFits wf (withoutAll e removed) (withoutAll b removed) eps z0 [] st

theorem chainLoop_settles {o : MEst.Opts} (ws0 : Weighting σ 𝕜 q) (hws : ∀ i wf, some (i, wf) ∈ ws0 → Settling wf o) :
    ∀ (ws : Weighting σ 𝕜 q), ws ⊆ ws0 → ∀ (e : List 𝕜) (b : List (Fin q → 𝕜)), e.length = b.length → ∀ (z : Option (Fin q → 𝕜)) (idx : List ℕ)
      (heap : ℕ → σ), (∃ m, (chainLoop { o with maxit := m } ws e b z (some idx) heap).1 ≠ .error .nonConv) ∨ ChainFits ws0 o.eps e b := by
  intro ws
  induction ws with
  | nil => intro _ e b _ z idx heap; exact .inl ⟨0, by simp [chainLoop]⟩
  | cons w ws ih =>
    intro hsub e b hb z idx heap
    have hsub' : ws ⊆ ws0 := fun x hx => hsub (List.mem_cons_of_mem _ hx)
    cases h1 : eliminate e (some idx) with
    | error x =>
      refine .inl ⟨0, ?_⟩
      have := eliminate_nonConv e (some idx)
      rw [h1] at this
      simpa [chainLoop, h1] using this
    | ok e1 =>
    cases h2 : eliminate b (some idx) with
    | error x =>
      refine .inl ⟨0, ?_⟩
      have := eliminate_nonConv b (some idx)
      rw [h2] at this
      simpa [chainLoop, h1, h2] using this
    | ok b1 =>
    obtain ⟨-, rfl⟩ := eliminate_ok.1 h1
    obtain ⟨-, rfl⟩ := eliminate_ok.1 h2
    have hb1 : (without e idx).length = (without b idx).length := length_without idx hb
    by_cases h0 : (without e idx).length = 0
    · exact .inl ⟨0, by simp [chainLoop, h1, h2, h0]⟩
    have hcall : (∃ m, (callEstimate (without e idx) (without b idx) z w { o with maxit := m } heap).1 ≠ .error .nonConv) ∨
        ChainFits ws0 o.eps e b := by
      cases w with
      | none =>
        refine .inl ⟨0, ?_⟩
        simp only [callEstimate, mEstimate]
        split
        · simp
        · split
          · rename_i x hx
            intro hc
            have := wlse_nonConv (without e idx) (without b idx) (if ([] : List ℕ).length = 0 then none else some (zeroAt (List.replicate (without e idx).length (.fin 1)) []))
            rw [hx] at this
            simp only [Except.error.injEq] at hc
            exact this (by rw [hc])
          · simp
      | some p =>
        obtain ⟨i, wf⟩ := p
        cases z with
        | none => exact .inl ⟨0, by simp [callEstimate, mEstimate]⟩
        | some z =>
          rcases hws i wf (hsub List.mem_cons_self) _ _ hb1 z [] (heap i) with ⟨M, R, hR, hM⟩ | hfit
          · refine .inl ⟨M, ?_⟩
            have := hM M le_rfl
            simp only at this
            simp only [callEstimate, this]
            exact hR
          · exact .inr ⟨i, wf, hsub List.mem_cons_self, [idx], z, heap i, hfit⟩
    rcases hcall with ⟨m1, hm1⟩ | hfit
    swap
    · exact .inr hfit
    cases h3 : callEstimate (without e idx) (without b idx) z w { o with maxit := m1 } heap with
    | mk r hp =>
    rw [h3] at hm1
    cases r with
    | error x => exact .inl ⟨m1, by simpa [chainLoop, h1, h2, h0, h3] using hm1⟩
    | ok p =>
      rcases ih hsub' _ _ hb1 (some p.1) p.2 hp with ⟨m2, hm2⟩ | ⟨i, wf, hmem, removed, z0, st, hfit⟩
      · refine .inl ⟨max m1 m2, ?_⟩
        have hc : callEstimate (without e idx) (without b idx) z w { o with maxit := max m1 m2 } heap = (.ok p, hp) := by
          have := callEstimate_more (o := { o with maxit := m1 }) (m := max m1 m2) (le_max_left _ _) (e := without e idx) (b := without b idx) (z := z) (w := w)
            (heap := heap) (by rw [h3]; simp)
          rw [h3] at this
          exact this
        have hl := chainLoop_more (o := { o with maxit := m2 }) (m := max m1 m2) (le_max_right _ _) ws (without e idx) (without b idx) (some p.1) (some p.2) hp hm2
        rw [chainLoop, h1, h2]
        simp only [h0, if_false]
        rw [hc]
        simp only
        rw [hl]
        cases h4 : chainLoop { o with maxit := m2 } ws (without e idx) (without b idx) (some p.1) (some p.2) hp with
        | mk r2 hp2 =>
        rw [h4] at hm2
        cases r2 with
        | error x => simpa using hm2
        | ok l => simp
      · exact .inr ⟨i, wf, hmem, idx :: removed, z0, st, hfit⟩

theorem oneOutput_settles {o : MEst.Opts} (ws : Weighting σ 𝕜 q) (hws : ∀ i wf, some (i, wf) ∈ ws → Settling wf o) (b : List (Fin q → 𝕜)) (line : List 𝕜)
    (hb : line.length = b.length) (z0 : Option (Fin q → 𝕜)) (inv : List ℕ) (heap : ℕ → σ) :
    (∃ m, (oneOutput { o with maxit := m } ws b line z0 inv heap).1 ≠ .error .nonConv) ∨ ChainFits ws o.eps line b := by
  rcases chainLoop_settles ws hws ws (fun _ h => h) line b hb z0 inv heap with ⟨m, hm⟩ | h
  · refine .inl ⟨m, ?_⟩
    unfold oneOutput
    cases h1 : chainLoop { o with maxit := m } ws line b z0 (some inv) heap with
    | mk r hp =>
    rw [h1] at hm
    cases r with
    | error x => simpa using hm
    | ok l =>
      simp only
      cases h2 : mergeInvalid (inv :: l.map Prod.snd) with
      | error x =>
        have := mergeInvalid_nonConv (inv :: l.map Prod.snd)
        rw [h2] at this
        simpa using this
      | ok m => simp
  · exact .inr h

theorem outputsLoop_settles {o : MEst.Opts} (ws : Weighting σ 𝕜 q) (hws : ∀ i wf, some (i, wf) ∈ ws → Settling wf o) (b : List (Fin q → 𝕜)) :
    ∀ (l : List (List 𝕜 × Option (Fin q → 𝕜) × List ℕ)), (∀ t ∈ l, t.1.length = b.length) → ∀ (heap : ℕ → σ),
      (∃ m, (outputsLoop { o with maxit := m } ws b l heap).1 ≠ .error .nonConv) ∨ ∃ t ∈ l, ChainFits ws o.eps t.1 b := by
  intro l
  induction l with
  | nil => intro _ heap; exact .inl ⟨0, by simp [outputsLoop]⟩
  | cons t l ih =>
    intro hl heap
    obtain ⟨line, z0, inv⟩ := t
    rcases oneOutput_settles ws hws b line (hl _ List.mem_cons_self) z0 inv heap with ⟨m1, hm1⟩ | h
    swap
    · exact .inr ⟨_, List.mem_cons_self, h⟩
    cases h1 : oneOutput { o with maxit := m1 } ws b line z0 inv heap with
    | mk r hp =>
    rw [h1] at hm1
    cases r with
    | error x => exact .inl ⟨m1, by simpa [outputsLoop, h1] using hm1⟩
    | ok p =>
      rcases ih (fun t ht => hl t (List.mem_cons_of_mem _ ht)) hp with ⟨m2, hm2⟩ | ⟨t, ht, h⟩
      · refine .inl ⟨max m1 m2, ?_⟩
        have hc := oneOutput_more (o := { o with maxit := m1 }) (m := max m1 m2) (le_max_left _ _) ws b line z0 inv heap (by rw [h1]; simp)
        rw [h1] at hc
        have hr := outputsLoop_more (o := { o with maxit := m2 }) (m := max m1 m2) (le_max_right _ _) ws b l hp hm2
        simp only at hc hr
        rw [outputsLoop, hc]
        simp only
        rw [hr]
        cases h4 : outputsLoop { o with maxit := m2 } ws b l hp with
        | mk r2 hp2 =>
        rw [h4] at hm2
        cases r2 with
        | error x => simpa using hm2
        | ok l => simp
      · exact .inr ⟨t, List.mem_cons_of_mem _ ht, h⟩

/-- **C127.** `transfer_function` with weight functions whose estimations settle (C127_thomson, C127_fixed) or none: from some number of
iterations on the result does not change any more and is not the exception of convergence, unless somewhere in the estimation of an
output a pass fits exactly the samples it keeps. -/
theorem C127_transfer (outputs : List (List 𝕜)) (inputs : Fin q → List 𝕜) (ws : Weighting σ 𝕜 q) (o : MEst.Opts)
    (hws : ∀ i wf, some (i, wf) ∈ ws → Settling wf o) (init : Option (List (Fin q → 𝕜))) (inv : InvArg) (heap : ℕ → σ) :
    Settles (fun m => transferFunction outputs inputs ws init inv { o with maxit := m } heap) ∨
      ∃ i wf, some (i, wf) ∈ ws ∧ ∃ line ∈ outputs, ∃ removed z0 st,
        PassFits wf (withoutAll line removed) (withoutAll (rowsOf inputs line.length) removed) o.eps z0 [] st := by
  have key : (∃ m, (transferFunction outputs inputs ws init inv { o with maxit := m } heap).1 ≠ .error .nonConv) ∨
      ∃ line ∈ outputs, ChainFits ws o.eps line (rowsOf inputs line.length) := by
    unfold transferFunction
    cases hiv : inv.norm outputs.length with
    | error x =>
      refine .inl ⟨0, ?_⟩
      simp only
      intro hc
      simp only [Except.error.injEq] at hc
      subst hc
      unfold InvArg.norm at hiv
      (repeat' split at hiv) <;> simp at hiv
    | ok iv =>
    cases outputs with
    | nil => exact .inl ⟨0, by simp⟩
    | cons y ys =>
      simp only
      by_cases h1 : q = 0 ∨ (∃ j, (inputs j).length ≠ y.length) ∨ (y :: ys).any (fun l => decide (l.length ≠ y.length)) = true
      · exact .inl ⟨0, by simp only [if_pos h1]; simp⟩
      · simp only [if_neg h1]
        by_cases h2 : iv.length ≠ (y :: ys).length
        · exact .inl ⟨0, by simp only [if_pos h2]; simp⟩
        · simp only [if_neg h2]
          have hlen : ∀ l ∈ y :: ys, l.length = y.length := by
            intro l hl
            push Not at h1
            have := h1.2.2
            rw [Ne, List.any_eq_true, not_exists] at this
            have := this l
            simp only [not_and, decide_eq_true_eq, not_not] at this
            exact this hl
          have hstep : ∀ init' : List (Option (Fin q → 𝕜)),
              (∃ m, (outputsLoop { o with maxit := m } ws (rowsOf inputs y.length) ((y :: ys).zip (init'.zip iv)) heap).1 ≠ .error .nonConv) ∨
                ∃ line ∈ y :: ys, ChainFits ws o.eps line (rowsOf inputs line.length) := by
            intro init'
            rcases outputsLoop_settles ws hws (rowsOf inputs y.length) ((y :: ys).zip (init'.zip iv)) (by
              intro t ht
              have := (List.of_mem_zip (a := t.1) (b := t.2) ht).1
              rw [hlen _ this]
              simp [rowsOf]) heap with h | ⟨t, ht, h⟩
            · exact .inl h
            · have hm := (List.of_mem_zip (a := t.1) (b := t.2) ht).1
              exact .inr ⟨t.1, hm, by rw [hlen _ hm]; exact h⟩
          cases init with
          | none =>
            simp only
            split
            · exact .inl ⟨0, by simp⟩
            · exact hstep _
          | some l =>
            simp only
            split
            · exact .inl ⟨0, by simp⟩
            · exact hstep _
  rcases key with ⟨m, hm⟩ | ⟨line, hline, i, wf, hmem, removed, z0, st, h⟩
  · exact .inl ⟨m, _, hm, fun m' hm' => C119_transfer outputs inputs ws init inv { o with maxit := m } m' hm' heap hm⟩
  · exact .inr ⟨i, wf, hmem, line, hline, removed, z0, st, h⟩

end Razorback.Props
