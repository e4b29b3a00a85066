/-
Property C126: the impedance with remote reference in floating point.
-/
import Verif.Props.ApproxLS
import Verif.Props.Remote

namespace Razorback.Props
open Razorback Razorback.Fourier Razorback.MEst Razorback.Spec Razorback.Approx
open scoped Matrix Matrix.Norms.Operator

section
variable {κ σ : Type}

theorem channels_remote {S : SigSet ℂ κ} {o : Impedance.Opts σ} {E B : List ℕ} {R : Option (List ℕ)} (h : Channels S o E B R) :
    Impedance.remoteChannels S o = .ok R := by
  unfold Impedance.remoteChannels
  rcases h.remote with ⟨h1 | h1, rfl⟩ | ⟨name, l, h1, h2, h3, rfl⟩
  · rw [h1]
  · rw [h1]; rfl
  · rw [h1]
    have : name.isEmpty = false := by
      rw [Bool.eq_false_iff]
      intro h
      exact h2 (String.isEmpty_iff.1 h)
    simp [this, h3]

/-- The channels picked, compared with the exact coefficients. -/
theorem FSetCoeffs.picked {u : ℝ} (hu : 0 ≤ u) (hu1 : u < 1) [Rnd] [One κ] (hR : RoundsWithin u) {cal : κ → ℚ → Option ℂ} {S : SigSet ℂ κ} (hS : Reach S)
    {freq nper overlap : ℚ} {win : Win} {co : List (List ℂ)} {ds : List (ℕ × ℕ × ℕ)} (h : FSetCoeffs u cal S freq nper overlap win co ds)
    {W : ℝ} (hW : ∀ d ∈ ds, ∑ j ∈ Finset.range d.2.1, ‖winAt (win.eval d.2.1) j‖ ≤ W * d.2.1)
    {r : ℝ} (hr : ∀ p ∈ S.runs.zip ds, fourierErr u (freq / p.1.rate) p.2.2.1 ≤ r) :
    0 ≤ W ∧ ds.length = S.runs.length ∧ ∀ (I : List ℕ) (l : List (List ℂ)), Impedance.pick co I = .ok l → l.length = I.length ∧
      ∀ (i : ℕ) (hi : i < I.length) (hl : i < l.length) (M : ℝ), (∀ s ∈ S.runs, ∀ m < s.size, ‖physical cal freq s I[i] m‖ ≤ M) →
        List.Forall₂ (Within ((1 + u) * (1 + r) - 1) (2 * W * M)) l[i] (exactCoeffs cal freq win S.runs ds I[i]) := by
  have hinv := reach_sinv hS
  obtain ⟨hcol, hdl, hN1, hnear⟩ := FSetCoeffs.near hu hu1 hR (n := S.tags.n)
    (fun s hs => ⟨hinv.okAs.wf s hs, (hinv.n s hs).symm⟩) h hW hr
  refine ⟨?_, hdl, ?_⟩
  · obtain ⟨-, l0, hl0, -, hds⟩ := h
    have hdsne : ds ≠ [] := by
      intro h0
      rw [h0] at hN1
      simp at hN1
    obtain ⟨d0, hd0⟩ := List.exists_mem_of_ne_nil _ hdsne
    by_contra hneg
    obtain ⟨p, hp, rfl⟩ := List.mem_map.1 (hds ▸ hd0)
    obtain ⟨s, hs, hF⟩ := forall₂_right hl0 p hp
    obtain ⟨vs, co', -, -, hft, -⟩ := hF
    obtain ⟨-, hL, -⟩ := C125_fourier u hu hu1 hR _ _ _ _ _ _ _ p.2.1 p.2.2.1 p.2.2.2 hft
    have h1 := hW _ hd0
    have h2 : (0 : ℝ) ≤ ∑ j ∈ Finset.range p.2.2.1, ‖winAt (win.eval p.2.2.1) j‖ := Finset.sum_nonneg (fun _ _ => norm_nonneg _)
    have h3 : (0 : ℝ) < p.2.2.1 := by exact_mod_cast hL
    have h4 : W * p.2.2.1 < 0 := mul_neg_of_neg_of_pos (not_le.1 hneg) h3
    linarith
  · intro I l hp
    have hq := picked_eq (Impedance.pick_ok.1 hp)
    refine ⟨by rw [hq.1]; simp, ?_⟩
    intro i hi hl M hM
    obtain ⟨ci, hci, hF⟩ := hnear I[i] (by rw [← hcol]; exact (hq.2 _ (List.getElem_mem hi)).2) M hM
    have : l[i] = ci := by
      simp only [hq.1, List.getElem_map]
      rw [List.getD_eq_getElem?_getD, hci, Option.getD_some]
    rw [this]
    exact hF

/-- A predicted coefficient: the transfer function `T` and the remote coefficients `a` are both off. -/
theorem FDot.product {u τ ε G s : ℝ} (hu : 0 ≤ u) (hτ : 0 ≤ τ) (hε : 0 ≤ ε) (hG : 0 ≤ G) {p : ℕ} {T a : List ℂ} {t x : ℕ → ℂ} (hT : T.length = p)
    (ha : a.length = p) (hs : ∑ j ∈ Finset.range p, ‖t j‖ ≤ s) (h1 : ∀ j < p, ‖T.getD j 0 - t j‖ ≤ ε * s)
    (h2 : ∀ j < p, Within τ G (a.getD j 0) (x j)) {d : ℂ} (hd : FDot u T a d) :
    Within ((1 + u) ^ p * (1 + p * ε) * (1 + τ) - 1) (G * s) d (∑ j ∈ Finset.range p, t j * x j) := by
  have hs0 : 0 ≤ s := (Finset.sum_nonneg (fun _ _ => norm_nonneg _)).trans hs
  have he := FDot.error hu (v := 0) (List.forall₂_same.2 (fun a _ => Near.refl le_rfl a)) hd
  have hlen : (List.zipWith (fun x1 x2 => x1 * x2) T a).length = p := by simp [hT, ha]
  rw [hlen, sum_zipWith_range (fun x1 x2 => x1 * x2) T a 0 0 hT ha] at he
  have hmap : ((List.zipWith (fun x1 x2 => x1 * x2) T a).map (fun x => ‖x‖)).sum = ∑ j ∈ Finset.range p, ‖T.getD j 0‖ * ‖a.getD j 0‖ := by
    rw [List.map_zipWith, sum_zipWith_range _ T a 0 0 hT ha]
    simp only [norm_mul]
  rw [hmap, add_zero, one_mul] at he
  have hx : ∀ j < p, ‖a.getD j 0‖ ≤ (1 + τ) * G := by
    intro j hj
    have := norm_le_norm_add_norm_sub' (a.getD j 0) (x j)
    linarith [(h2 j hj).1, (h2 j hj).2]
  have hTn : ∀ j < p, ‖T.getD j 0‖ ≤ ‖t j‖ + ε * s := by
    intro j hj
    have := norm_le_norm_add_norm_sub' (T.getD j 0) (t j)
    linarith [h1 j hj]
  have b1 : ∑ j ∈ Finset.range p, ‖T.getD j 0‖ * ‖a.getD j 0‖ ≤ (1 + p * ε) * (1 + τ) * (G * s) := by
    calc _ ≤ ∑ j ∈ Finset.range p, (‖t j‖ + ε * s) * ((1 + τ) * G) := by
          refine Finset.sum_le_sum (fun j hj => ?_)
          have hj := Finset.mem_range.1 hj
          exact mul_le_mul (hTn j hj) (hx j hj) (norm_nonneg _) (by positivity)
      _ = (∑ j ∈ Finset.range p, ‖t j‖ + p * (ε * s)) * ((1 + τ) * G) := by
          rw [← Finset.sum_mul, Finset.sum_add_distrib]
          simp
      _ ≤ (s + p * (ε * s)) * ((1 + τ) * G) := by gcongr
      _ = _ := by ring
  have b2 : ‖∑ j ∈ Finset.range p, T.getD j 0 * a.getD j 0 - ∑ j ∈ Finset.range p, t j * x j‖ ≤ ((1 + p * ε) * (1 + τ) - 1) * (G * s) := by
    rw [← Finset.sum_sub_distrib]
    calc _ ≤ ∑ j ∈ Finset.range p, (ε * s * ((1 + τ) * G) + ‖t j‖ * (τ * G)) := by
          refine (norm_sum_le _ _).trans (Finset.sum_le_sum (fun j hj => ?_))
          have hj := Finset.mem_range.1 hj
          have : T.getD j 0 * a.getD j 0 - t j * x j = (T.getD j 0 - t j) * a.getD j 0 + t j * (a.getD j 0 - x j) := by ring
          rw [this]
          refine (norm_add_le _ _).trans (add_le_add ?_ ?_)
          · rw [norm_mul]
            exact mul_le_mul (h1 j hj) (hx j hj) (norm_nonneg _) (by positivity)
          · rw [norm_mul]
            exact mul_le_mul_of_nonneg_left (h2 j hj).2 (norm_nonneg _)
      _ = p * (ε * s * ((1 + τ) * G)) + (∑ j ∈ Finset.range p, ‖t j‖) * (τ * G) := by
          rw [Finset.sum_add_distrib, Finset.sum_const, Finset.card_range, nsmul_eq_mul, ← Finset.sum_mul]
      _ ≤ p * (ε * s * ((1 + τ) * G)) + s * (τ * G) := by gcongr
      _ = _ := by ring
  refine ⟨?_, ?_⟩
  · calc _ ≤ ∑ j ∈ Finset.range p, ‖t j‖ * G := by
          refine (norm_sum_le _ _).trans (Finset.sum_le_sum (fun j hj => ?_))
          rw [norm_mul]
          exact mul_le_mul_of_nonneg_left (h2 j (Finset.mem_range.1 hj)).1 (norm_nonneg _)
      _ ≤ G * s := by rw [← Finset.sum_mul, mul_comm]; gcongr
  · have hp1 : 0 ≤ (1 + u) ^ p - 1 := by
      have := one_le_pow₀ (a := 1 + u) (n := p) (by linarith)
      linarith
    have key := norm_sub_le_norm_sub_add_norm_sub d (∑ j ∈ Finset.range p, T.getD j 0 * a.getD j 0) (∑ j ∈ Finset.range p, t j * x j)
    have he' := he.trans (mul_le_mul_of_nonneg_left b1 hp1)
    calc _ ≤ ((1 + u) ^ p - 1) * ((1 + p * ε) * (1 + τ) * (G * s)) + ((1 + p * ε) * (1 + τ) - 1) * (G * s) := by linarith
      _ = _ := by ring

theorem Within.mono {τ τ' M : ℝ} (hM : 0 ≤ M) (h : τ ≤ τ') {a b : ℂ} (hab : Within τ M a b) : Within τ' M a b :=
  ⟨hab.1, hab.2.trans (mul_le_mul_of_nonneg_right h hM)⟩

/-- **C126.** Remote reference.  If in physical units the magnetic channels are combinations of the remote channels, with coefficients `t`,
and the electric channels combinations of the magnetic channels, with coefficients `z`, then every result of `impedance` with remote
reference (least squares, no prefilters) has a transfer function between remote and magnetic channels within `ε s` of `t`, where `s`
bounds the sums of the absolute values of the rows of `t`, and an impedance within an explicit distance of `z`, in terms of the conditions
`K1` of the remote channels and `K2` of the magnetic channels. -/
theorem C126_remote [One κ] [Rnd] (u c : ℝ) (hu : 0 ≤ u) (hu1 : u < 1) (hc : 0 ≤ c) (hR : RoundsWithin u) (cal : κ → ℚ → Option ℂ) (S : SigSet ℂ κ)
    (hS : Reach S) (freq : ℚ) (o : Impedance.Opts σ) (E B R : List ℕ) (hch : Channels S o E B (some R)) (T Z : List (List ℂ)) (ds : List (ℕ × ℕ × ℕ))
    (h : FRemote u c cal S freq o T Z ds) (t z : ℕ → ℕ → ℂ)
    (ht : ∀ s ∈ S.runs, ∀ i (hi : i < B.length), ∀ n < s.size, physical cal freq s B[i] n = ∑ j : Fin R.length, t i j * physical cal freq s R[j] n)
    (hz : ∀ s ∈ S.runs, ∀ i (hi : i < E.length), ∀ n < s.size, physical cal freq s E[i] n = ∑ j : Fin B.length, z i j * physical cal freq s B[j] n)
    (M : ℝ) (hM0 : 0 ≤ M) (hM : ∀ s ∈ S.runs, ∀ k ∈ R, ∀ n < s.size, ‖physical cal freq s k n‖ ≤ M)
    (s : ℝ) (hs0 : 0 ≤ s) (hs : ∀ i < B.length, ∑ j ∈ Finset.range R.length, ‖t i j‖ ≤ s)
    (W : ℝ) (hW : ∀ d ∈ ds, ∑ j ∈ Finset.range d.2.1, ‖winAt (o.win.eval d.2.1) j‖ ≤ W * d.2.1)
    (r : ℝ) (hr0 : 0 ≤ r) (hr : ∀ p ∈ S.runs.zip ds, fourierErr u (freq / p.1.rate) p.2.2.1 ≤ r)
    (N : ℕ) (hN : N = (ds.map Prod.fst).sum) (D1 : Matrix (Fin N) (Fin R.length) ℂ) (D2 : Matrix (Fin N) (Fin B.length) ℂ)
    (hD1 : ∀ n j, D1 n j = (exactCoeffs cal freq o.win S.runs ds R[j]).getD n 0) (hdet1 : (D1ᴴ * D1).det ≠ 0)
    (hD2 : ∀ n j, D2 n j = (exactCoeffs cal freq o.win S.runs ds B[j]).getD n 0) (hdet2 : (D2ᴴ * D2).det ≠ 0)
    (K1 K2 τ1 τ2 ε : ℝ) (hK1 : K1 = ‖(D1ᴴ * D1)⁻¹‖ * N * (2 * W * M) ^ 2) (hK2 : K2 = ‖(D2ᴴ * D2)⁻¹‖ * N * (2 * W * M * s) ^ 2)
    (hτ1 : τ1 = (1 + u) * (1 + r) - 1) (hlt1 : K1 * matErr u c τ1 N R.length < 1)
    (hε : ε = K1 * (sumErr u τ1 N + matErr u c τ1 N R.length) / (1 - K1 * matErr u c τ1 N R.length))
    (hτ2 : τ2 = (1 + u) ^ R.length * (1 + R.length * ε) * (1 + τ1) - 1) (hlt2 : K2 * matErr u c τ2 N B.length < 1) :
    (T.length = B.length ∧ ∀ i (_ : i < B.length) (l : List ℂ), T[i]? = some l → l.length = R.length ∧ ∀ j (_ : j < R.length) (v : ℂ),
      l[j]? = some v → ‖v - t i j‖ ≤ ε * s) ∧
    Z.length = E.length ∧ ∀ i (_ : i < E.length) (l : List ℂ), Z[i]? = some l → l.length = B.length ∧ ∀ j (_ : j < B.length) (v : ℂ), l[j]? = some v →
      ‖v - z i j‖ ≤ K2 * (sumErr u τ2 N + matErr u c τ2 N B.length) * (∑ j ∈ Finset.range B.length, ‖z i j‖) / (1 - K2 * matErr u c τ2 N B.length) := by
  obtain ⟨E', B', R', co, e, b, br, be, hE', hB', hR', hco, he, hb, hbr, hT, hbe, hZ⟩ := h
  obtain rfl : E' = E := by have := hch.elec; rw [hE'] at this; exact Except.ok.inj this
  obtain rfl : B' = B := by have := hch.mag; rw [hB'] at this; exact Except.ok.inj this
  obtain rfl : R' = R := by
    have := channels_remote hch
    rw [hR'] at this
    exact Option.some.inj (Except.ok.inj this)
  obtain ⟨hW0, hdl, hpick⟩ := FSetCoeffs.picked hu hu1 hR hS hco hW hr
  have hτ0 : 0 ≤ τ1 := by rw [hτ1]; nlinarith
  have hxlen : ∀ k, (exactCoeffs cal freq o.win S.runs ds k).length = N := by
    intro k; rw [exactCoeffs_length cal freq o.win S.runs ds hdl, hN]
  obtain ⟨hel, hen⟩ := hpick _ _ he
  obtain ⟨hbl, hbn⟩ := hpick _ _ hb
  obtain ⟨hrl, hrn⟩ := hpick _ _ hbr
  rw [← hτ1] at hen hbn hrn
  have hrow : ∀ (n : ℕ) (f : ℕ → ℂ) (i : ℕ) (q : ℕ) (I : List ℕ) (hq : I.length = q) (m : ℕ) (s' : Sync ℂ κ) (M' : ℝ),
      (∀ j : Fin q, ‖physical cal freq s' (I[j]'(by omega)) m‖ ≤ M') → ‖∑ j : Fin q, f j * physical cal freq s' (I[j]'(by omega)) m‖ ≤ M' * ∑ j ∈ Finset.range q, ‖f j‖ := by
    intro n f i q I hq m s' M' hM'
    rw [Finset.sum_range, Finset.mul_sum]
    refine (norm_sum_le _ _).trans (Finset.sum_le_sum (fun j _ => ?_))
    rw [norm_mul, mul_comm]
    exact mul_le_mul_of_nonneg_right (hM' j) (norm_nonneg _)
  have hMB : ∀ s' ∈ S.runs, ∀ i (hi : i < B'.length), ∀ m < s'.size, ‖physical cal freq s' B'[i] m‖ ≤ M * s := by
    intro s' hs' i hi m hm
    rw [ht s' hs' i hi m hm]
    exact (hrow 0 (t i) i _ R' rfl m s' M (fun j => hM s' hs' _ (List.getElem_mem _) m hm)).trans (mul_le_mul_of_nonneg_left (hs i hi) hM0)
  have hMG : 0 ≤ 2 * W * M := by positivity
  -- first stage
  set xin : Fin R'.length → List ℂ := fun j => exactCoeffs cal freq o.win S.runs ds R'[j] with hxin
  have hD1d : D1 = design xin N := by
    ext n j
    rw [hD1]
    rfl
  rw [hD1d] at hdet1 hK1
  have hg0 := sumErr_nonneg hu hτ0 N
  have hm0 : 0 ≤ matErr u c τ1 N R'.length := by unfold matErr; positivity
  have hK10 : 0 ≤ K1 := by rw [hK1]; positivity
  have hε0 : 0 ≤ ε := by
    rw [hε]
    exact div_nonneg (by positivity) (by linarith)
  have hTl : T.length = B'.length := by rw [← hT.length_eq, hbl]
  have first : ∀ i (hi : i < B'.length) (hiT : i < T.length), T[i].length = R'.length ∧ ∀ j < R'.length, ‖T[i].getD j 0 - t i j‖ ≤ ε * s := by
    intro i hi hiT
    have hib : i < b.length := by omega
    obtain ⟨v, hv, hvT⟩ := hT.get hib hiT
    simp only [List.get_eq_getElem] at hv hvT
    rw [hvT]
    refine ⟨by simp [hrl], ?_⟩
    intro j hj
    have hTn : ‖(fun j : Fin R'.length => t i j)‖ ≤ s := by
      rw [pi_norm_le_iff_of_nonneg hs0]
      intro j
      refine le_trans ?_ (hs i hi)
      exact Finset.single_le_sum (f := fun j => ‖t i j‖) (fun _ _ => norm_nonneg _) (Finset.mem_range.2 j.2)
    have hin : ∀ j : Fin R'.length, List.Forall₂ (Within τ1 (2 * W * M)) (br[j]'(by omega)) (xin j) :=
      fun j => hrn j j.2 (by omega) M (fun s' hs' m hm => hM s' hs' _ (List.getElem_mem _) m hm)
    have hyb : List.Forall₂ (Within τ1 (2 * W * M * s)) b[i] (exactCoeffs cal freq o.win S.runs ds B'[i]) := by
      have := hbn i hi hib (M * s) (fun s' hs' m hm => hMB s' hs' i hi m hm)
      rw [← mul_assoc] at this
      exact this
    have key := FWlse.exact_fit hu hc hτ0 hrl hMG hs0 (fun j => hxlen _) hin (hxlen _) hyb hTn
      (fun n _ => exactCoeffs_comb cal freq o.win S.runs ds hdl B'[i] (fun j : Fin R'.length => R'[j]) (fun j => t i j) (fun s' hs' n hn => ht s' hs' i hi n hn) n)
      hdet1 hv hK1 hlt1 ⟨j, hj⟩
    rw [List.getD_eq_getElem?_getD, List.getElem?_ofFn, dif_pos (by omega)]
    refine key.trans (le_of_eq ?_)
    rw [hε]
    ring
  -- the predicted field
  have hbel : be.length = B'.length := by rw [← hbe.length_eq, hTl]
  have hRne : R'.length ≠ 0 := by
    rcases hch.remote with ⟨-, h0⟩ | ⟨name, l, -, -, h3, h4⟩
    · simp at h0
    · obtain ⟨-, hne, -⟩ := (reach_sinv hS).okAs.tags name l h3
      rw [Option.some.inj h4]
      simpa using hne
  have hwidth : Impedance.width br = N := by
    have h0 : 0 < br.length := by omega
    have := (hrn 0 (by omega) h0 M (fun s' hs' m hm => hM s' hs' _ (List.getElem_mem _) m hm)).length_eq
    rw [hxlen] at this
    unfold Impedance.width
    rw [List.head?_eq_getElem?, List.getElem?_eq_getElem h0]
    simpa using this
  have hτ12 : τ1 ≤ τ2 := by
    rw [hτ2]
    have h1 : 1 ≤ (1 + u) ^ R'.length := one_le_pow₀ (by linarith)
    have h2 : 1 ≤ 1 + R'.length * ε := by
      have : 0 ≤ R'.length * ε := by positivity
      linarith
    have h3 : 1 ≤ (1 + u) ^ R'.length * (1 + R'.length * ε) := one_le_mul_of_one_le_of_one_le h1 h2
    have := le_mul_of_one_le_left (by linarith : 0 ≤ 1 + τ1) h3
    linarith
  have hτ20 : 0 ≤ τ2 := hτ0.trans hτ12
  have second : ∀ k : Fin B'.length, List.Forall₂ (Within τ2 (2 * W * M * s)) (be[k]'(by omega)) (exactCoeffs cal freq o.win S.runs ds B'[k]) := by
    intro k
    have hkT : k < T.length := by rw [hTl]; exact k.2
    have hkb : k < be.length := by rw [hbel]; exact k.2
    obtain ⟨hlen, hval⟩ := hbe.get hkT hkb
    simp only [List.get_eq_getElem] at hlen hval
    obtain ⟨f1, f2⟩ := first k k.2 hkT
    rw [hwidth] at hlen
    rw [List.forall₂_iff_get]
    refine ⟨by rw [hxlen]; exact hlen, ?_⟩
    intro n h1 h2
    have hn : n < N := by rw [hxlen] at h2; exact h2
    have hfd := hval n _ (List.getElem?_eq_getElem h1)
    have hex : (exactCoeffs cal freq o.win S.runs ds B'[k]).get ⟨n, h2⟩ = ∑ j ∈ Finset.range R'.length, t k j * (exactCoeffs cal freq o.win S.runs ds (R'.getD j 0)).getD n 0 := by
      have := exactCoeffs_comb cal freq o.win S.runs ds hdl B'[k] (fun j : Fin R'.length => R'[j]) (fun j => t k j) (fun s' hs' n hn => ht s' hs' k k.2 n hn) n
      rw [getD_at h2] at this
      rw [List.get_eq_getElem, this, Finset.sum_range]
      refine Finset.sum_congr rfl (fun j _ => ?_)
      rw [getD_at (l := R') j.2]
      rfl
    rw [hex, hτ2]
    refine FDot.product hu hτ0 hε0 hMG f1 (by simp [hrl]) (hs k k.2) f2 ?_ hfd
    intro j hj
    rw [getD_at (by simpa [hrl] using hj), List.getElem_map, getD_at hj]
    exact within_get (hrn j hj (by omega) M (fun s' hs' m hm => hM s' hs' _ (List.getElem_mem _) m hm)) (by rw [hxlen]; exact hn)
  refine ⟨⟨hTl, ?_⟩, ?_⟩
  · intro i hi l hl
    have hiT : i < T.length := by omega
    obtain rfl : T[i] = l := by rw [List.getElem?_eq_getElem hiT] at hl; exact Option.some.inj hl
    obtain ⟨f1, f2⟩ := first i hi hiT
    refine ⟨f1, ?_⟩
    intro j hj v hv
    have := f2 j hj
    rwa [List.getD_eq_getElem?_getD, hv, Option.getD_some] at this
  · have hZl : Z.length = E'.length := by rw [← hZ.length_eq, hel]
    refine ⟨hZl, ?_⟩
    intro i hi l hl
    have hiZ : i < Z.length := by omega
    obtain rfl : Z[i] = l := by rw [List.getElem?_eq_getElem hiZ] at hl; exact Option.some.inj hl
    have hie : i < e.length := by omega
    obtain ⟨v, hv, hvZ⟩ := hZ.get hie hiZ
    simp only [List.get_eq_getElem] at hv hvZ
    rw [hvZ]
    refine ⟨by simp [hbel], ?_⟩
    intro j hj w hw
    obtain rfl : v ⟨j, by omega⟩ = w := by
      rw [List.getElem?_ofFn, dif_pos (by omega)] at hw
      exact Option.some.inj hw
    set a := ∑ j ∈ Finset.range B'.length, ‖z i j‖ with ha
    have ha0 : 0 ≤ a := Finset.sum_nonneg (fun _ _ => norm_nonneg _)
    have hTn : ‖(fun j : Fin B'.length => z i j)‖ ≤ a := by
      rw [pi_norm_le_iff_of_nonneg ha0]
      intro j
      exact Finset.single_le_sum (f := fun j => ‖z i j‖) (fun _ _ => norm_nonneg _) (Finset.mem_range.2 j.2)
    set yin : Fin B'.length → List ℂ := fun j => exactCoeffs cal freq o.win S.runs ds B'[j] with hyin
    have hD2d : D2 = design yin N := by
      ext n j
      rw [hD2]
      rfl
    rw [hD2d] at hdet2 hK2
    have hye : List.Forall₂ (Within τ2 (2 * W * M * s * a)) e[i] (exactCoeffs cal freq o.win S.runs ds E'[i]) := by
      have := hen i hi hie (M * s * a) (by
        intro s' hs' m hm
        rw [hz s' hs' i hi m hm]
        exact hrow 0 (z i) i _ B' rfl m s' (M * s) (fun j => hMB s' hs' j j.2 m hm))
      rw [show 2 * W * (M * s * a) = 2 * W * M * s * a by ring] at this
      exact this.imp (fun a b h => Within.mono (by positivity) hτ12 h)
    exact FWlse.exact_fit hu hc hτ20 hbel (by positivity) ha0 (fun j => hxlen _) second (hxlen _) hye hTn
      (fun n _ => exactCoeffs_comb cal freq o.win S.runs ds hdl E'[i] (fun j : Fin B'.length => B'[j]) (fun j => z i j) (fun s' hs' n hn => hz s' hs' i hi n hn) n)
      hdet2 hv hK2 hlt2 ⟨j, hj⟩

/-- A least squares estimate is a possible result. -/
theorem FWlse.of_orthogonal {u c : ℝ} (hu : 0 ≤ u) (hc : 0 ≤ c) {N : ℕ} {b : List (List ℂ)} {y : List ℂ} (hy : y.length = N) {v : Fin b.length → ℂ}
    (h : ∀ j : Fin b.length, ∑ n ∈ Finset.range N, star (b[j].getD n 0) * (y.getD n 0 - ∑ k : Fin b.length, v k * b[k].getD n 0) = 0) :
    FWlse u c y (rowsOf (Impedance.cols b) y.length) none v := by
  rw [hy]
  refine FWlse.of_normal hu hc (by simp [rowsOf, hy]) ?_ (by simp)
  have hrow : ∀ n < N, (rowsOf (Impedance.cols b) N).getD n 0 = fun j => b[j].getD n 0 := by
    intro n hn
    rw [List.getD_eq_getElem?_getD]
    simp [rowsOf, List.getElem?_range hn, Impedance.cols]
  funext j
  rw [rhs_sum y _ none hy (by simp [rowsOf]) (by simp), Matrix.mulVec, dotProduct]
  simp only [gram_sum (rowsOf (Impedance.cols b) N) none (N := N) (by simp [rowsOf]) (by simp), weightAt, RCLike.ofReal_one, one_mul, Finset.sum_mul]
  rw [Finset.sum_comm]
  refine (sub_eq_zero.1 ?_).symm
  rw [← Finset.sum_sub_distrib]
  refine Eq.trans (Finset.sum_congr rfl (fun n hn => ?_)) (h j)
  rw [hrow n (Finset.mem_range.1 hn), mul_sub, Finset.mul_sum]
  congr 1
  exact Finset.sum_congr rfl (fun k _ => by ring)

/-- **C126.** The exact computation of `impedance` with remote reference is one of the possible ones. -/
theorem C126_remote_exact [One κ] (u c : ℝ) (hu : 0 ≤ u) (hc : 0 ≤ c) (cal : κ → ℚ → Option ℂ) (S : SigSet ℂ κ) (hS : Reach S) (freq : ℚ)
    (o : Impedance.Opts σ) (hw : o.weights = [none]) (hrw : firstWeights o = [none]) (hp : o.prefilter = none) (hrpre : firstPrefilter o = none)
    (hrp : o.realPb = false) (E B R : List ℕ) (hch : Channels S o E B (some R)) (co : List (List ℂ))
    (w : List ℕ × List ℕ × List ℕ) (hf : setCoeffs cal S freq o.nper o.overlap o.win = .ok (co, w))
    (hcal : ∀ s ∈ S.runs, ∀ k ∈ s.cals, cal k freq ≠ some 0)
    (hr : RowsIndependent (chanMatrix co R w.1.sum)) (hb : RowsIndependent (chanMatrix co B w.1.sum * (chanMatrix co R w.1.sum)ᴴ)) (heap : ℕ → σ) :
    ∃ res T Z ds, Impedance.oneFreq cal S freq o heap = (.ok res, heap) ∧ res.impedance = Z.map (List.map some) ∧
      res.transferMag = T.map (List.map some) ∧ FRemote u c cal S freq o T Z ds ∧
      w = (ds.map (fun d => d.1), ds.map (fun d => d.2.1), ds.map (fun d => d.2.2)) := by
  obtain ⟨res, Z, T, h1, h2, h3, h4, h5, -⟩ := (C94_instruments cal S hS freq o hw hrw hp hrpre hrp E B R hch co w hf heap _ rfl _ rfl _ rfl).1 ⟨hr, hb⟩
  obtain ⟨ds, hds, hwd⟩ := FSetCoeffs.of_exact hu hf hcal
  obtain ⟨e', b', br', he', hb', hr', hne', hnb', heN, hbN⟩ := Impedance.reach_chans hS hch hf
  obtain ⟨h0, -⟩ | ⟨l0, br, h0, -, hrr, hnr, hrN⟩ := hr'
  · simp at h0
  obtain rfl := Option.some.inj h0
  set N := w.1.sum with hN
  have heq := (picked_eq he').1
  have hbq := (picked_eq hb').1
  have hrq := (picked_eq hrr).1
  have hel : e'.length = E.length := by rw [heq]; simp
  have hbl : b'.length = B.length := by rw [hbq]; simp
  have hrl : br.length = R.length := by rw [hrq]; simp
  have hwidth : Impedance.width br = N := by
    obtain ⟨y, l, rfl⟩ := List.exists_cons_of_ne_nil hnr
    simpa [Impedance.width] using hrN y (by simp)
  have hent : ∀ (I : List ℕ) (l : List (List ℂ)) (hl : l = I.map (fun i => co.getD i [])) (j : ℕ) (hj : j < l.length) (hj' : j < I.length) (n : Fin N),
      l[j].getD n 0 = chanMatrix co I N ⟨j, hj'⟩ n := by
    rintro I _ rfl j hj hj' n
    simp [chanMatrix]
  set be : List (List ℂ) := List.ofFn (fun k : Fin B.length => List.ofFn (fun n : Fin N => (T * chanMatrix co R N) k n)) with hbe
  have hbel : be.length = B.length := by simp [hbe]
  have hbent : ∀ (k : ℕ) (hk : k < be.length) (hk' : k < B.length) (n : Fin N), be[k].getD n 0 = (T * chanMatrix co R N) ⟨k, hk'⟩ n := by
    intro k hk hk' n
    simp [hbe, List.getD_eq_getElem?_getD]
  have h6 : (chanMatrix co E N - Z * (T * chanMatrix co R N)) * (T * chanMatrix co R N)ᴴ = 0 := by
    have h7 : (chanMatrix co B N - T * chanMatrix co R N) * (T * chanMatrix co R N)ᴴ = 0 := by
      rw [Matrix.conjTranspose_mul, ← Matrix.mul_assoc, h4, Matrix.zero_mul]
    have : chanMatrix co E N - Z * (T * chanMatrix co R N) = (chanMatrix co E N - Z * chanMatrix co B N) + Z * (chanMatrix co B N - T * chanMatrix co R N) := by
      rw [Matrix.mul_sub]; abel
    rw [this, Matrix.add_mul, h5, Matrix.mul_assoc, h7, Matrix.mul_zero, add_zero]
  refine ⟨res, List.ofFn (fun i => List.ofFn (T i)), List.ofFn (fun i => List.ofFn (Z i)), ds, h1, ?_, ?_, ?_, hwd⟩
  · rw [h2]
    simp [asRows, List.map_ofFn, Function.comp_def]
  · rw [h3]
    simp [asRows, List.map_ofFn, Function.comp_def]
  · refine ⟨E, B, R, co, e', b', br, be, hch.elec, hch.mag, channels_remote hch, hds, Impedance.pick_ok.2 he', Impedance.pick_ok.2 hb', Impedance.pick_ok.2 hrr, ?_, ?_, ?_⟩
    · rw [List.forall₂_iff_get]
      refine ⟨by simp [hbl], ?_⟩
      intro i hi1 hi2
      have hi : i < B.length := by omega
      refine ⟨fun j => T ⟨i, hi⟩ (Fin.cast hrl j), ?_, ?_⟩
      · refine FWlse.of_orthogonal hu hc (N := N) (hbN _ (List.getElem_mem hi1)) ?_
        intro j
        have := congrFun (congrFun h4 ⟨i, hi⟩) (Fin.cast hrl j)
        rw [Matrix.mul_apply] at this
        rw [Finset.sum_range]
        refine Eq.trans (Finset.sum_congr rfl (fun n _ => ?_)) this
        rw [Matrix.conjTranspose_apply, Matrix.sub_apply, Matrix.mul_apply, mul_comm]
        congr 1
        · rw [hent B b' hbq i hi1 hi n]
          congr 1
          refine Fintype.sum_equiv (finCongr hrl) _ _ (fun k => ?_)
          simp only [Fin.getElem_fin]
          rw [hent R br hrq k k.2 (by omega) n]
          rfl
        · simp only [Fin.getElem_fin]
          rw [hent R br hrq j j.2 (by omega) n]
          rfl
      · simp only [List.get_eq_getElem, List.getElem_ofFn]
        exact List.ofFn_congr hrl.symm _
    · rw [List.forall₂_iff_get]
      refine ⟨by simp [hbe], ?_⟩
      intro i hi1 hi2
      have hi : i < B.length := by simpa using hi1
      refine ⟨by simp [hbe, hwidth], ?_⟩
      intro n v hv
      have hn : n < N := by
        have := (List.getElem?_eq_some_iff.1 hv).1
        simpa [hbe] using this
      have hval : v = (T * chanMatrix co R N) ⟨i, hi⟩ ⟨n, hn⟩ := by
        rw [← hbent i hi2 hi ⟨n, hn⟩, List.getD_eq_getElem?_getD]
        simp only [List.get_eq_getElem] at hv
        rw [hv, Option.getD_some]
      refine ⟨_, List.forall₂_same.2 (fun a _ => Near.refl hu a), ?_⟩
      have : v = (List.zipWith (fun x1 x2 => x1 * x2) ((List.ofFn (fun i => List.ofFn (T i))).get ⟨i, hi1⟩) (br.map (fun y => y.getD n 0))).sum := by
        simp only [List.get_eq_getElem, List.getElem_ofFn]
        rw [hval, sum_zipWith_range (fun x1 x2 => x1 * x2) _ _ 0 0 (N := R.length) (by simp) (by simp [hrl]), Finset.sum_range, Matrix.mul_apply]
        refine Finset.sum_congr rfl (fun j _ => ?_)
        rw [getD_at (l := br.map _) (by simp [hrl]), List.getElem_map, hent R br hrq j (by omega) j.2 ⟨n, hn⟩]
        congr 1
        simp [List.getD_eq_getElem?_getD]
      rw [this]
      exact fsum_exact hu _
    · rw [List.forall₂_iff_get]
      refine ⟨by simp [hel], ?_⟩
      intro i hi1 hi2
      have hi : i < E.length := by omega
      refine ⟨fun j => Z ⟨i, hi⟩ (Fin.cast hbel j), ?_, ?_⟩
      · refine FWlse.of_orthogonal hu hc (N := N) (heN _ (List.getElem_mem hi1)) ?_
        intro j
        have := congrFun (congrFun h6 ⟨i, hi⟩) (Fin.cast hbel j)
        rw [Matrix.mul_apply] at this
        rw [Finset.sum_range]
        refine Eq.trans (Finset.sum_congr rfl (fun n _ => ?_)) this
        rw [Matrix.conjTranspose_apply, Matrix.sub_apply, Matrix.mul_apply, mul_comm]
        congr 1
        · rw [hent E e' heq i hi1 hi n]
          congr 1
          refine Fintype.sum_equiv (finCongr hbel) _ _ (fun k => ?_)
          simp only [Fin.getElem_fin]
          rw [hbent k k.2 (by omega) n]
          rfl
        · simp only [Fin.getElem_fin]
          rw [hbent j j.2 (by omega) n]
          rfl
      · simp only [List.get_eq_getElem, List.getElem_ofFn]
        exact List.ofFn_congr hbel.symm _

theorem bounded_samples (cal : κ → ℚ → Option ℂ) (freq : ℚ) (runs : List (Sync ℂ κ)) (I : List ℕ) :
    ∃ M : ℝ, 0 ≤ M ∧ ∀ s ∈ runs, ∀ k ∈ I, ∀ n < s.size, ‖physical cal freq s k n‖ ≤ M := by
  refine ⟨(runs.map (fun s => (I.map (fun k => ∑ n ∈ Finset.range s.size, ‖physical cal freq s k n‖)).sum)).sum, ?_, ?_⟩
  · refine List.sum_nonneg (fun x hx => ?_)
    obtain ⟨s, -, rfl⟩ := List.mem_map.1 hx
    refine List.sum_nonneg (fun x hx => ?_)
    obtain ⟨k, -, rfl⟩ := List.mem_map.1 hx
    exact Finset.sum_nonneg (fun _ _ => norm_nonneg _)
  · intro s hs k hk n hn
    have h1 := Finset.single_le_sum (f := fun n => ‖physical cal freq s k n‖) (fun _ _ => norm_nonneg _) (Finset.mem_range.2 hn)
    refine h1.trans ?_
    have h2 : ∀ s : Sync ℂ κ, ∀ x ∈ I.map (fun k => ∑ n ∈ Finset.range s.size, ‖physical cal freq s k n‖), 0 ≤ x := by
      intro s x hx
      obtain ⟨k, -, rfl⟩ := List.mem_map.1 hx
      exact Finset.sum_nonneg (fun _ _ => norm_nonneg _)
    refine (List.single_le_sum (h2 s) _ (List.mem_map.2 ⟨k, hk, rfl⟩)).trans ?_
    refine List.single_le_sum ?_ _ (List.mem_map.2 ⟨s, hs, rfl⟩)
    intro x hx
    obtain ⟨s, -, rfl⟩ := List.mem_map.1 hx
    exact List.sum_nonneg (h2 s)

/-- **C126.** For given windows, as the precision increases, the impedance of noise free recordings by remote reference tends to the true
one, and the transfer function between remote and magnetic channels too. -/
theorem C126_remote_precision [One κ] (c : ℝ) (hc : 0 ≤ c) (cal : κ → ℚ → Option ℂ) (S : SigSet ℂ κ) (freq : ℚ) (o : Impedance.Opts σ) (E B R : List ℕ)
    (hch : Channels S o E B (some R)) (ds : List (ℕ × ℕ × ℕ)) (t z : ℕ → ℕ → ℂ)
    (ht : ∀ s ∈ S.runs, ∀ i (hi : i < B.length), ∀ n < s.size, physical cal freq s B[i] n = ∑ j : Fin R.length, t i j * physical cal freq s R[j] n)
    (hz : ∀ s ∈ S.runs, ∀ i (hi : i < E.length), ∀ n < s.size, physical cal freq s E[i] n = ∑ j : Fin B.length, z i j * physical cal freq s B[j] n)
    (N : ℕ) (hN : N = (ds.map Prod.fst).sum) (D1 : Matrix (Fin N) (Fin R.length) ℂ) (D2 : Matrix (Fin N) (Fin B.length) ℂ)
    (hD1 : ∀ n j, D1 n j = (exactCoeffs cal freq o.win S.runs ds R[j]).getD n 0) (hdet1 : (D1ᴴ * D1).det ≠ 0)
    (hD2 : ∀ n j, D2 n j = (exactCoeffs cal freq o.win S.runs ds B[j]).getD n 0) (hdet2 : (D2ᴴ * D2).det ≠ 0) (η : ℝ) (hη : 0 < η) :
    ∃ δ > 0, ∀ u : ℝ, 0 ≤ u → u ≤ δ → ∀ [Rnd], RoundsWithin u → Reach S → ∀ T Z, FRemote u c cal S freq o T Z ds →
      (∀ (i j : ℕ) l v, T[i]? = some l → l[j]? = some v → ‖v - t i j‖ ≤ η) ∧ ∀ (i j : ℕ) l v, Z[i]? = some l → l[j]? = some v → ‖v - z i j‖ ≤ η := by
  obtain ⟨M, hM0, hM⟩ := bounded_samples cal freq S.runs R
  set W := (ds.map (fun d => ∑ j ∈ Finset.range d.2.1, ‖winAt (o.win.eval d.2.1) j‖)).sum with hW
  have hWd : ∀ d ∈ ds, ∑ j ∈ Finset.range d.2.1, ‖winAt (o.win.eval d.2.1) j‖ ≤ W * d.2.1 := by
    intro d hd
    have h1 : ∑ j ∈ Finset.range d.2.1, ‖winAt (o.win.eval d.2.1) j‖ ≤ W := List.single_le_sum (by
      intro x hx
      obtain ⟨d, -, rfl⟩ := List.mem_map.1 hx
      exact Finset.sum_nonneg (fun _ _ => norm_nonneg _)) _ (List.mem_map.2 ⟨d, hd, rfl⟩)
    rcases Nat.eq_zero_or_pos d.2.1 with h0 | h0
    · simp [h0]
    · refine h1.trans (le_mul_of_one_le_right ((Finset.sum_nonneg (fun _ _ => norm_nonneg _)).trans h1) ?_)
      exact_mod_cast h0
  obtain ⟨s, hs0, hs⟩ : ∃ s : ℝ, 0 ≤ s ∧ ∀ i < B.length, ∑ j ∈ Finset.range R.length, ‖t i j‖ ≤ s := by
    refine ⟨∑ i ∈ Finset.range B.length, ∑ j ∈ Finset.range R.length, ‖t i j‖, Finset.sum_nonneg (fun _ _ => Finset.sum_nonneg (fun _ _ => norm_nonneg _)), ?_⟩
    intro i hi
    exact Finset.single_le_sum (f := fun i => ∑ j ∈ Finset.range R.length, ‖t i j‖) (fun _ _ => Finset.sum_nonneg (fun _ _ => norm_nonneg _)) (Finset.mem_range.2 hi)
  set K1 := ‖(D1ᴴ * D1)⁻¹‖ * N * (2 * W * M) ^ 2 with hK1
  set K2 := ‖(D2ᴴ * D2)⁻¹‖ * N * (2 * W * M * s) ^ 2 with hK2
  set ρ : ℝ → ℝ := fun u => ((S.runs.zip ds).map (fun p => |fourierErr u (freq / p.1.rate) p.2.2.1|)).sum with hρ
  have hρc : Continuous ρ := by
    simp only [hρ]
    generalize S.runs.zip ds = L
    induction L with
    | nil => simpa using continuous_const
    | cons p L ih =>
      simp only [List.map_cons, List.sum_cons]
      refine Continuous.add (Continuous.abs ?_) ih
      unfold fourierErr
      fun_prop
  have hρ0 : ρ 0 = 0 := by
    simp only [hρ]
    have : ∀ p : Sync ℂ κ × (ℕ × ℕ × ℕ), |fourierErr 0 (freq / p.1.rate) p.2.2.1| = 0 := fun p => by simp [fourierErr]
    simp [this]
  have hρn : ∀ u, 0 ≤ ρ u := fun u => List.sum_nonneg (by
    intro x hx
    obtain ⟨p, -, rfl⟩ := List.mem_map.1 hx
    exact abs_nonneg _)
  set τ1 : ℝ → ℝ := fun u => (1 + u) * (1 + ρ u) - 1 with hτ1
  have c1 : Continuous τ1 := by simp only [hτ1]; fun_prop
  have z1 : τ1 0 = 0 := by simp [hτ1, hρ0]
  have ns : ∀ (f : ℝ → ℝ), f 0 = 0 → sumErr 0 (f 0) N = 0 := fun f hf => by simp [sumErr, hf]
  have nm : ∀ (f : ℝ → ℝ) (q : ℕ), f 0 = 0 → matErr 0 c (f 0) N q = 0 := fun f q hf => by simp [matErr, ns f hf]
  have cs : ∀ f : ℝ → ℝ, ContinuousAt f 0 → ContinuousAt (fun u => sumErr u (f u) N) 0 := by
    intro f hf
    unfold sumErr
    fun_prop
  have cm : ∀ (f : ℝ → ℝ) (q : ℕ), ContinuousAt f 0 → ContinuousAt (fun u => matErr u c (f u) N q) 0 := by
    intro f q hf
    have := cs f hf
    unfold matErr
    fun_prop
  set ε : ℝ → ℝ := fun u => K1 * (sumErr u (τ1 u) N + matErr u c (τ1 u) N R.length) / (1 - K1 * matErr u c (τ1 u) N R.length) with hε
  have cε : ContinuousAt ε 0 := by
    have h1 := cs τ1 c1.continuousAt
    have h2 := cm τ1 R.length c1.continuousAt
    refine ContinuousAt.div (continuousAt_const.mul (h1.add h2)) (continuousAt_const.sub (continuousAt_const.mul h2)) ?_
    rw [nm τ1 _ z1]
    simp
  have zε : ε 0 = 0 := by simp only [hε, ns τ1 z1, nm τ1 _ z1]; simp
  set τ2 : ℝ → ℝ := fun u => (1 + u) ^ R.length * (1 + R.length * ε u) * (1 + τ1 u) - 1 with hτ2
  have c2 : ContinuousAt τ2 0 := by
    have := c1.continuousAt (x := 0)
    simp only [hτ2]
    fun_prop
  have z2 : τ2 0 = 0 := by simp [hτ2, zε, z1]
  have ev1 : ∀ᶠ u in nhds (0 : ℝ), K1 * matErr u c (τ1 u) N R.length < 1 := by
    have h2 := cm τ1 R.length c1.continuousAt
    refine (continuousAt_const.mul h2).tendsto.eventually_lt_const ?_
    show K1 * matErr 0 c (τ1 0) N R.length < 1
    rw [nm τ1 _ z1]
    simp
  have ev2 : ∀ᶠ u in nhds (0 : ℝ), K2 * matErr u c (τ2 u) N B.length < 1 := by
    have h2 := cm τ2 B.length c2
    refine (continuousAt_const.mul h2).tendsto.eventually_lt_const ?_
    show K2 * matErr 0 c (τ2 0) N B.length < 1
    rw [nm τ2 _ z2]
    simp
  have ev3 : ∀ᶠ u in nhds (0 : ℝ), ε u * s < η := by
    refine (cε.mul continuousAt_const).tendsto.eventually_lt_const ?_
    show ε 0 * s < η
    rw [zε]
    simpa using hη
  have ev4 : ∀ᶠ u in nhds (0 : ℝ), ∀ i : Fin E.length, K2 * (sumErr u (τ2 u) N + matErr u c (τ2 u) N B.length) * (∑ j ∈ Finset.range B.length, ‖z i j‖) /
      (1 - K2 * matErr u c (τ2 u) N B.length) < η := by
    rw [Filter.eventually_all]
    intro i
    have h1 := cs τ2 c2
    have h2 := cm τ2 B.length c2
    have hcont : ContinuousAt (fun u => K2 * (sumErr u (τ2 u) N + matErr u c (τ2 u) N B.length) * (∑ j ∈ Finset.range B.length, ‖z i j‖) /
        (1 - K2 * matErr u c (τ2 u) N B.length)) 0 := by
      refine ContinuousAt.div ((continuousAt_const.mul (h1.add h2)).mul continuousAt_const) (continuousAt_const.sub (continuousAt_const.mul h2)) ?_
      rw [nm τ2 _ z2]
      simp
    refine hcont.tendsto.eventually_lt_const ?_
    rw [ns τ2 z2, nm τ2 _ z2]
    simpa using hη
  obtain ⟨δ, hδ, hall⟩ := Metric.eventually_nhds_iff.1 (ev1.and (ev2.and (ev3.and ev4)))
  refine ⟨min (δ / 2) (1 / 2), by positivity, ?_⟩
  intro u hu huδ inst hR hS T Z hF
  have hu1 : u < 1 := lt_of_le_of_lt (huδ.trans (min_le_right _ _)) (by norm_num)
  obtain ⟨a1, a2, a3, a4⟩ := hall (y := u) (by
    rw [Real.dist_eq, sub_zero, abs_of_nonneg hu]
    exact lt_of_le_of_lt (huδ.trans (min_le_left _ _)) (by linarith))
  have hr : ∀ p ∈ S.runs.zip ds, fourierErr u (freq / p.1.rate) p.2.2.1 ≤ ρ u := by
    intro p hp
    refine (le_abs_self _).trans (List.single_le_sum (by
      intro x hx
      obtain ⟨p, -, rfl⟩ := List.mem_map.1 hx
      exact abs_nonneg _) _ (List.mem_map.2 ⟨p, hp, rfl⟩))
  obtain ⟨⟨b1, b2⟩, b3, b4⟩ := C126_remote u c hu hu1 hc hR cal S hS freq o E B R hch T Z ds hF t z ht hz M hM0 hM s hs0 hs W hWd (ρ u) (hρn u) hr N hN D1 D2 hD1 hdet1
    hD2 hdet2 K1 K2 (τ1 u) (τ2 u) (ε u) hK1 hK2 rfl a1 rfl rfl a2
  refine ⟨?_, ?_⟩
  · intro i j l v hl hv
    have hi : i < B.length := by rw [← b1]; exact (List.getElem?_eq_some_iff.1 hl).1
    obtain ⟨d1, d2⟩ := b2 i hi l hl
    exact (d2 j (by rw [← d1]; exact (List.getElem?_eq_some_iff.1 hv).1) v hv).trans a3.le
  · intro i j l v hl hv
    have hi : i < E.length := by rw [← b3]; exact (List.getElem?_eq_some_iff.1 hl).1
    obtain ⟨d1, d2⟩ := b4 i hi l hl
    exact (d2 j (by rw [← d1]; exact (List.getElem?_eq_some_iff.1 hv).1) v hv).trans (a4 ⟨i, hi⟩).le

end

section examples

local instance instOneApproxRemote : One Unit := ⟨()⟩

/-- Impulses on three channels without noise: E = 2 B, B = 3 R. -/
noncomputable def exCleanRemote : SigSet ℂ Unit :=
  ⟨[⟨[exImpulses 6 6, exImpulses 3 3, exImpulses 1 1], [(), (), ()], 1, 0, 8⟩], ⟨3, [("E", [0]), ("B", [1]), ("R", [2])]⟩⟩

theorem exCleanRemote_coeffs : exactCoeffs (fun _ _ => some 1) (1 / 4) .none exCleanRemote.runs [(2, 4, 4)] 1 = [3 / 2, 3 / 2] ∧
    exactCoeffs (fun _ _ => some 1) (1 / 4) .none exCleanRemote.runs [(2, 4, 4)] 2 = [1 / 2, 1 / 2] := by
  have e : List.range 2 = [0, 1] := rfl
  have e8 : List.range 8 = [0, 1, 2, 3, 4, 5, 6, 7] := rfl
  constructor <;>
    simp [exactCoeffs, exCleanRemote, runCoeffs, e, e8, fourierAt, exImpulses, Win.eval, winAt, Finset.sum_range_succ, physical] <;>
    norm_num

/-- The hypotheses of C126_remote_precision hold for recordings without noise. -/
example : ∃ δ > 0, ∀ u : ℝ, 0 ≤ u → u ≤ δ → ∀ [Rnd], RoundsWithin u → Reach exCleanRemote → ∀ T Z,
    FRemote u 10 (fun _ _ => some 1) exCleanRemote (1 / 4) exOpts T Z [(2, 4, 4)] →
      (∀ (i j : ℕ) l v, T[i]? = some l → l[j]? = some v → ‖v - 3‖ ≤ 1 / 1000) ∧
      ∀ (i j : ℕ) l v, Z[i]? = some l → l[j]? = some v → ‖v - 2‖ ≤ 1 / 1000 := by
  have hdet : ∀ a : ℂ, a ≠ 0 → ((Matrix.of fun (_ : Fin 2) (_ : Fin 1) => a)ᴴ * (Matrix.of fun (_ : Fin 2) (_ : Fin 1) => a)).det ≠ 0 := by
    intro a ha
    rw [Matrix.det_fin_one, Matrix.mul_apply, Fin.sum_univ_two]
    simp only [Matrix.conjTranspose_apply, Matrix.of_apply, ← two_mul]
    exact mul_ne_zero two_ne_zero (mul_ne_zero (star_ne_zero.2 ha) ha)
  refine C126_remote_precision 10 (by norm_num) (fun _ _ => some 1) exCleanRemote (1 / 4) exOpts [0] [1] [2]
    ⟨rfl, rfl, .inr ⟨"R", [2], rfl, by decide, rfl, rfl⟩⟩ [(2, 4, 4)] (fun _ _ => 3) (fun _ _ => 2) ?_ ?_ 2 rfl
    (Matrix.of fun _ _ => 1 / 2) (Matrix.of fun _ _ => 3 / 2) ?_ (hdet (1 / 2) (by norm_num)) ?_ (hdet (3 / 2) (by norm_num)) (1 / 1000) (by norm_num)
  · intro s hs i hi n hn
    obtain rfl : s = ⟨[exImpulses 6 6, exImpulses 3 3, exImpulses 1 1], [(), (), ()], 1, 0, 8⟩ := by simpa [exCleanRemote] using hs
    obtain rfl : i = 0 := by simpa using hi
    have hn' : n < 8 := hn
    interval_cases n <;> simp [physical, exImpulses]
  · intro s hs i hi n hn
    obtain rfl : s = ⟨[exImpulses 6 6, exImpulses 3 3, exImpulses 1 1], [(), (), ()], 1, 0, 8⟩ := by simpa [exCleanRemote] using hs
    obtain rfl : i = 0 := by simpa using hi
    have hn' : n < 8 := hn
    interval_cases n <;> simp [physical, exImpulses] <;> norm_num
  · intro n j
    obtain rfl : j = (0 : Fin 1) := Subsingleton.elim (α := Fin 1) _ _
    refine Eq.trans ?_ (congrArg (fun l => List.getD l n 0) exCleanRemote_coeffs.2.symm)
    fin_cases n <;> rfl
  · intro n j
    obtain rfl : j = (0 : Fin 1) := Subsingleton.elim (α := Fin 1) _ _
    refine Eq.trans ?_ (congrArg (fun l => List.getD l n 0) exCleanRemote_coeffs.1.symm)
    fin_cases n <;> rfl

/-- The exact computation of noisy recordings is a possible one. -/
example : ∃ T Z ds, FRemote (1 / 2 ^ 50) 10 (fun _ _ => some 1) exNoise (1 / 4) exOpts T Z ds := by
  have hB : (chanMatrix [[11 / 2, 1 / 2], [2, 1], [1 / 2, 1 / 2]] [1] 2 : Matrix (Fin 1) (Fin 2) ℂ) = !![2, 1] := by
    ext i n
    fin_cases i; fin_cases n <;> simp [chanMatrix]
  have hR : (chanMatrix [[11 / 2, 1 / 2], [2, 1], [1 / 2, 1 / 2]] [2] 2 : Matrix (Fin 1) (Fin 2) ℂ) = !![1 / 2, 1 / 2] := by
    ext i n
    fin_cases i; fin_cases n <;> simp [chanMatrix]
  obtain ⟨res, T, Z, ds, -, -, -, h, -⟩ := C126_remote_exact (1 / 2 ^ 50) 10 (by positivity) (by positivity) (fun _ _ => some 1) exNoise exNoise_reach (1 / 4)
    exOpts rfl rfl rfl rfl rfl [0] [1] [2] ⟨rfl, rfl, .inr ⟨"R", [2], rfl, by decide, rfl, rfl⟩⟩ _ _ exNoise_coeffs (by simp)
    (by
      intro v hv
      have := congrFun hv (0 : Fin 2)
      refine funext (fun i => ?_)
      obtain rfl : i = (0 : Fin 1) := Subsingleton.elim (α := Fin 1) _ _
      erw [hR] at this
      have h0 : v (0 : Fin 1) * (2 : ℂ)⁻¹ = 0 := by
        simp [Matrix.vecMul, dotProduct] at this
        exact this
      exact (mul_eq_zero.1 h0).resolve_right (by norm_num))
    (by
      erw [hB, hR]
      exact exNoise_rows (a := 3 / 2) (by norm_num) (by
        have : (starRingEnd ℂ) 2 = 2 := Complex.conj_ofNat 2
        simp [Matrix.mul_apply, Fin.sum_univ_two, this]; norm_num)) (fun _ => ())
  exact ⟨T, Z, ds, h⟩

end examples

end Razorback.Props
