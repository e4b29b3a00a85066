/-
The remote reference estimation with least squares.
-/
import Mathlib.LinearAlgebra.Matrix.DotProduct
import Mathlib.Analysis.Matrix.PosDef
import Verif.Lemmas.Remote

namespace Razorback.Props
open Razorback Razorback.Spec Razorback.MEst Razorback.Prefilter Razorback.Fourier Razorback.Impedance
open scoped Matrix ComplexOrder

variable {κ σ : Type}

section algebra

variable {m q r N : ℕ}

theorem det_ne_of_rows {X : Matrix (Fin q) (Fin q) ℂ} : X.det ≠ 0 ↔ RowsIndependent X := by
  rw [Ne, ← Matrix.exists_vecMul_eq_zero_iff]
  push Not
  constructor
  · intro h v hv
    by_contra hne
    exact h v hne hv
  · intro h v hne hv
    exact hne (h v hv)

theorem vecMul_gram {C : Matrix (Fin r) (Fin N) ℂ} {v : Fin r → ℂ} : v ᵥ* (C * Cᴴ) = 0 ↔ v ᵥ* C = 0 :=
  Matrix.vecMul_self_mul_conjTranspose_eq_zero C v

theorem gram_det {C : Matrix (Fin r) (Fin N) ℂ} : (C * Cᴴ).det ≠ 0 ↔ RowsIndependent C := by
  rw [det_ne_of_rows]
  exact forall_congr' (fun v => by rw [vecMul_gram])

/-- The predicted field has independent rows when the cross spectra with the remote have. -/
theorem predicted_rows {B : Matrix (Fin q) (Fin N) ℂ} {R : Matrix (Fin r) (Fin N) ℂ} (hR : (R * Rᴴ).det ≠ 0) :
    RowsIndependent ((B * (Rᴴ * (R * Rᴴ)⁻¹)) * R) ↔ RowsIndependent (B * Rᴴ) := by
  have hu := isUnit_iff_ne_zero.2 hR
  have h1 : B * (Rᴴ * (R * Rᴴ)⁻¹) * R * Rᴴ = B * Rᴴ := by
    rw [Matrix.mul_assoc (B * (Rᴴ * (R * Rᴴ)⁻¹)), ← Matrix.mul_assoc B, Matrix.mul_assoc _ _ (R * Rᴴ),
      Matrix.nonsing_inv_mul _ hu, Matrix.mul_one]
  apply forall_congr'
  intro v
  refine imp_congr ⟨fun h => ?_, fun h => ?_⟩ Iff.rfl
  · rw [← h1, ← Matrix.vecMul_vecMul, h, Matrix.zero_vecMul]
  · rw [← Matrix.mul_assoc B, Matrix.mul_assoc (B * Rᴴ), ← Matrix.vecMul_vecMul, h, Matrix.zero_vecMul]

theorem transfer_normal {B : Matrix (Fin q) (Fin N) ℂ} {R : Matrix (Fin r) (Fin N) ℂ} (hR : (R * Rᴴ).det ≠ 0) :
    (B * (Rᴴ * (R * Rᴴ)⁻¹)) * (R * Rᴴ) = B * Rᴴ := by
  rw [← Matrix.mul_assoc B, Matrix.mul_assoc _ _ (R * Rᴴ), Matrix.nonsing_inv_mul _ (isUnit_iff_ne_zero.2 hR), Matrix.mul_one]

/-- The residual of the measured field is orthogonal to the predicted one. -/
theorem second_normal {E : Matrix (Fin m) (Fin N) ℂ} {B H : Matrix (Fin q) (Fin N) ℂ} {R : Matrix (Fin r) (Fin N) ℂ}
    {T : Matrix (Fin q) (Fin r) ℂ} (hH : H = T * R) (hT : T * (R * Rᴴ) = B * Rᴴ) (hd : (H * Hᴴ).det ≠ 0) :
    (E - (E * (Hᴴ * (H * Hᴴ)⁻¹)) * B) * Hᴴ = 0 := by
  have hu := isUnit_iff_ne_zero.2 hd
  have h1 : B * Hᴴ = H * Hᴴ := by
    rw [hH, Matrix.conjTranspose_mul, ← Matrix.mul_assoc, ← hT, ← Matrix.mul_assoc T, ← Matrix.mul_assoc (T * R)]
  rw [Matrix.sub_mul, Matrix.mul_assoc _ B, h1, ← Matrix.mul_assoc E, Matrix.mul_assoc _ _ (H * Hᴴ),
    Matrix.nonsing_inv_mul _ hu, Matrix.mul_one, sub_self]

/-- With as many remote channels as magnetic ones, orthogonal to the predicted field is orthogonal to the remote. -/
theorem orthogonal_remote {D : Matrix (Fin m) (Fin N) ℂ} {R : Matrix (Fin r) (Fin N) ℂ}
    {T : Matrix (Fin q) (Fin r) ℂ} (hqr : r = q) (hT : RowsIndependent T) (h : D * (T * R)ᴴ = 0) : D * Rᴴ = 0 := by
  subst hqr
  have hd : (Tᴴ).det ≠ 0 := by
    rw [Matrix.det_conjTranspose]
    exact star_ne_zero.2 (det_ne_of_rows.2 hT)
  have hu := isUnit_iff_ne_zero.2 hd
  rw [Matrix.conjTranspose_mul, ← Matrix.mul_assoc] at h
  calc D * Rᴴ = D * Rᴴ * (Tᴴ * (Tᴴ)⁻¹) := by rw [Matrix.mul_nonsing_inv _ hu, Matrix.mul_one]
    _ = 0 := by rw [← Matrix.mul_assoc, h, Matrix.zero_mul]

theorem remote_rows {B : Matrix (Fin q) (Fin N) ℂ} {R : Matrix (Fin r) (Fin N) ℂ} (hqr : r = q) (h : RowsIndependent (B * Rᴴ)) :
    RowsIndependent R := by
  subst hqr
  rw [← gram_det]
  intro h0
  obtain ⟨v, hv, hv0⟩ := Matrix.exists_vecMul_eq_zero_iff.2 h0
  rw [vecMul_gram] at hv0
  have h1 := det_ne_of_rows.2 h
  apply h1
  rw [← Matrix.exists_mulVec_eq_zero_iff]
  refine ⟨star v, star_ne_zero.2 hv, ?_⟩
  rw [← Matrix.mulVec_mulVec, ← Matrix.star_vecMul, hv0]
  simp

theorem rows_unique {X : Matrix (Fin q) (Fin r) ℂ} (h : RowsIndependent X) {Z Z' : Matrix (Fin m) (Fin q) ℂ} (hz : Z * X = Z' * X) :
    Z = Z' := by
  have h0 : (Z - Z') * X = 0 := by rw [Matrix.sub_mul, hz, sub_self]
  funext i
  have := h ((Z - Z') i) (by
    have := congrFun h0 i
    rw [Matrix.mul_apply_eq_vecMul] at this
    exact this)
  exact sub_eq_zero.1 this

end algebra

/-- **C94.** Least squares without prefilter and with a remote.  It succeeds exactly when the remote channels are linearly
independent over the windows and their cross spectra with the magnetic channels determine the latter.  Then the transfer
leaves a magnetic residual orthogonal to the remote channels, and the impedance leaves an electric residual, with respect to
the measured magnetic field, orthogonal to the field predicted from the remote. -/
theorem C94_instruments [One κ] (cal : κ → ℚ → Option ℂ) (S : SigSet ℂ κ) (hS : Reach S) (freq : ℚ) (o : Impedance.Opts σ)
    (hw : o.weights = [none]) (hrw : firstWeights o = [none]) (hp : o.prefilter = none) (hrpre : firstPrefilter o = none)
    (hrp : o.realPb = false) (E B R : List ℕ) (hc : Channels S o E B (some R)) (co : List (List ℂ))
    (w : List ℕ × List ℕ × List ℕ) (hf : setCoeffs cal S freq o.nper o.overlap o.win = .ok (co, w)) (heap : ℕ → σ)
    (e : Matrix (Fin E.length) (Fin w.1.sum) ℂ) (he : e = chanMatrix co E w.1.sum)
    (b : Matrix (Fin B.length) (Fin w.1.sum) ℂ) (hb : b = chanMatrix co B w.1.sum)
    (r : Matrix (Fin R.length) (Fin w.1.sum) ℂ) (hr : r = chanMatrix co R w.1.sum) :
    (RowsIndependent r ∧ RowsIndependent (b * rᴴ) → ∃ res Z T, oneFreq cal S freq o heap = (.ok res, heap) ∧
      res.impedance = asRows Z ∧ res.transferMag = asRows T ∧ (b - T * r) * rᴴ = 0 ∧ (e - Z * b) * (T * r)ᴴ = 0 ∧
      RowsIndependent (T * r)) ∧
    (¬ (RowsIndependent r ∧ RowsIndependent (b * rᴴ)) →
      (o.silentFail = true ∧ ∃ res, oneFreq cal S freq o heap = (.ok res, heap) ∧ IsFailure res E.length B.length B.length R.length) ∨
      (o.silentFail = false ∧ ∃ x, oneFreq cal S freq o heap = (.error x, heap))) := by
  obtain ⟨e', b', br', he', hb', hr', hne', hnb', -, -⟩ := reach_chans hS hc hf
  obtain ⟨h0, -⟩ | ⟨l0, l, h0, -, hl, hnl, -⟩ := hr'
  · simp at h0
  obtain rfl := Option.some.inj h0
  have hEne : E ≠ [] := by
    rintro rfl
    exact hne' (by simpa using (picked_eq he').1)
  have hRne : R ≠ [] := by
    rintro rfl
    exact hnl (by simpa using (picked_eq hl).1)
  obtain ⟨hlen, hBne, failed, hfail, hone⟩ := oneFreq_remote hS hc hf heap
  have hlE : ∀ y ∈ E.map (fun i => co.getD i []), y.length = w.1.sum := by
    intro y hy
    obtain ⟨i, hi, rfl⟩ := List.mem_map.1 hy
    exact (hlen i (.inl hi)).2.2
  have hlB : ∀ y ∈ B.map (fun i => co.getD i []), y.length = w.1.sum := by
    intro y hy
    obtain ⟨i, hi, rfl⟩ := List.mem_map.1 hy
    exact (hlen i (.inr (.inl hi))).2.2
  have hget : ∀ (I : List ℕ) (i : Fin I.length) (n : Fin w.1.sum), chanMatrix co I w.1.sum i n =
      ((I.map (fun i => co.getD i [])).getD i []).getD n 0 := by
    intro I i n
    rw [getD_get (l := I.map _) (n := (i : ℕ)) (by simp), List.getElem_map]
    rfl
  obtain ⟨m1, m2⟩ := remoteStages_mat (o := o) hw hrw hp hrpre hrp (windows S w) (e := E.map (fun i => co.getD i []))
    (b := B.map (fun i => co.getD i [])) (by simpa using hEne) (by simpa using hBne) hlE hlB (r := R.length)
    (by simpa using hRne) (fun j => co.getD R[j] []) (fun j => (hlen _ (.inr (.inr (List.getElem_mem _)))).2.2) failed heap
    (m := E.length) (q := B.length) (by simp) (by simp) e b r (by rw [he]; exact hget E) (by rw [hb]; exact hget B)
    (by rw [hr]; intro j n; rfl) _ rfl
  rw [← hone] at m1 m2
  have hfailed : IsFailure failed E.length B.length B.length R.length := by
    rw [hfail]
    refine ⟨?_, ?_, rfl, ?_⟩ <;> simp [AllNaN, AllNaNErrors, nans, nanErrors, List.mem_replicate]
  constructor
  · rintro ⟨h1, h2⟩
    have hd := gram_det.2 h1
    have h3 := (predicted_rows hd).2 h2
    obtain ⟨res, g1, g2, g3⟩ := m2 hd (gram_det.2 h3)
    have hT := transfer_normal (B := b) hd
    exact ⟨res, _, _, g1, g2, g3, by rw [Matrix.sub_mul, Matrix.mul_assoc, hT, sub_self], second_normal rfl hT (gram_det.2 h3), h3⟩
  · intro h
    have hbad : (r * rᴴ).det = 0 ∨ (b * (rᴴ * (r * rᴴ)⁻¹) * r * (b * (rᴴ * (r * rᴴ)⁻¹) * r)ᴴ).det = 0 := by
      by_contra hn
      push Not at hn
      exact h ⟨gram_det.1 hn.1, (predicted_rows hn.1).1 (gram_det.1 hn.2)⟩
    rcases m1 hbad with ⟨hs, g⟩ | ⟨hs, g⟩
    · exact .inl ⟨hs, failed, g, hfailed⟩
    · exact .inr ⟨hs, g⟩

/-- **C94.** With as many remote channels as magnetic ones, the estimation succeeds exactly when the matrix `b rᴴ` of cross
spectra is not singular, and the impedance is then the classical remote reference estimate `Z = (e rᴴ) (b rᴴ)⁻¹`. -/
theorem C94_classical [One κ] (cal : κ → ℚ → Option ℂ) (S : SigSet ℂ κ) (hS : Reach S) (freq : ℚ) (o : Impedance.Opts σ)
    (hw : o.weights = [none]) (hrw : firstWeights o = [none]) (hp : o.prefilter = none) (hrpre : firstPrefilter o = none)
    (hrp : o.realPb = false) (E B R : List ℕ) (hc : Channels S o E B (some R)) (hBR : R.length = B.length) (co : List (List ℂ))
    (w : List ℕ × List ℕ × List ℕ) (hf : setCoeffs cal S freq o.nper o.overlap o.win = .ok (co, w)) (heap : ℕ → σ)
    (e : Matrix (Fin E.length) (Fin w.1.sum) ℂ) (he : e = chanMatrix co E w.1.sum)
    (b : Matrix (Fin B.length) (Fin w.1.sum) ℂ) (hb : b = chanMatrix co B w.1.sum)
    (r : Matrix (Fin R.length) (Fin w.1.sum) ℂ) (hr : r = chanMatrix co R w.1.sum) :
    (RowsIndependent (b * rᴴ) → ∃ res, oneFreq cal S freq o heap = (.ok res, heap) ∧
      ∃ Z, Z * (b * rᴴ) = e * rᴴ ∧ (∀ Z', Z' * (b * rᴴ) = e * rᴴ → Z' = Z) ∧ res.impedance = asRows Z) ∧
    (¬ RowsIndependent (b * rᴴ) →
      (o.silentFail = true ∧ ∃ res, oneFreq cal S freq o heap = (.ok res, heap) ∧ IsFailure res E.length B.length B.length R.length) ∨
      (o.silentFail = false ∧ ∃ x, oneFreq cal S freq o heap = (.error x, heap))) := by
  obtain ⟨h1, h2⟩ := C94_instruments cal S hS freq o hw hrw hp hrpre hrp E B R hc co w hf heap e he b hb r hr
  refine ⟨fun h => ?_, fun h => h2 (fun hc => h hc.2)⟩
  obtain ⟨res, Z, T, g1, g2, -, g4, g5, g6⟩ := h1 ⟨remote_rows hBR h, h⟩
  have hT : RowsIndependent T := by
    intro v hv
    apply g6
    rw [← Matrix.vecMul_vecMul, hv, Matrix.zero_vecMul]
  have := orthogonal_remote hBR hT g5
  rw [Matrix.sub_mul, sub_eq_zero, Matrix.mul_assoc] at this
  exact ⟨res, g1, Z, this.symm, fun Z' hZ' => rows_unique h (hZ'.trans this), g2⟩

/-- **C94.** Noise that is not correlated with the remote does not bias the estimation: if the coefficients are those of
fields `b0` and `Z b0` plus noise of zero cross spectra with the remote channels, the result is exactly `Z`. -/
theorem C94_noise [One κ] (cal : κ → ℚ → Option ℂ) (S : SigSet ℂ κ) (hS : Reach S) (freq : ℚ) (o : Impedance.Opts σ)
    (hw : o.weights = [none]) (hrw : firstWeights o = [none]) (hp : o.prefilter = none) (hrpre : firstPrefilter o = none)
    (hrp : o.realPb = false) (E B R : List ℕ) (hc : Channels S o E B (some R)) (hBR : R.length = B.length) (co : List (List ℂ))
    (w : List ℕ × List ℕ × List ℕ) (hf : setCoeffs cal S freq o.nper o.overlap o.win = .ok (co, w)) (heap : ℕ → σ)
    (r : Matrix (Fin R.length) (Fin w.1.sum) ℂ) (hr : r = chanMatrix co R w.1.sum)
    (Z : Matrix (Fin E.length) (Fin B.length) ℂ) (b0 nb : Matrix (Fin B.length) (Fin w.1.sum) ℂ)
    (ne : Matrix (Fin E.length) (Fin w.1.sum) ℂ) (hb : chanMatrix co B w.1.sum = b0 + nb)
    (he : chanMatrix co E w.1.sum = Z * b0 + ne) (hnb : nb * rᴴ = 0) (hne : ne * rᴴ = 0) (hreg : RowsIndependent (b0 * rᴴ)) :
    ∃ res, oneFreq cal S freq o heap = (.ok res, heap) ∧ res.impedance = asRows Z := by
  have hX : chanMatrix co B w.1.sum * rᴴ = b0 * rᴴ := by rw [hb, Matrix.add_mul, hnb, add_zero]
  obtain ⟨res, g1, Z', g2, -, g3⟩ := (C94_classical cal S hS freq o hw hrw hp hrpre hrp E B R hc hBR co w hf heap _ rfl _ rfl r hr).1
    (by rw [hX]; exact hreg)
  refine ⟨res, g1, ?_⟩
  rw [g3]
  congr 1
  refine rows_unique hreg ?_
  rw [← hX, g2, he, hX, Matrix.add_mul, hne, add_zero, Matrix.mul_assoc]

/-- **C94.** With any number of remote channels: if the electric coefficients are exactly `Z` times the magnetic ones, the
result is exactly `Z`, even if the remote does not predict the magnetic field exactly. -/
theorem C94_exact [One κ] (cal : κ → ℚ → Option ℂ) (S : SigSet ℂ κ) (hS : Reach S) (freq : ℚ) (o : Impedance.Opts σ)
    (hw : o.weights = [none]) (hrw : firstWeights o = [none]) (hp : o.prefilter = none) (hrpre : firstPrefilter o = none)
    (hrp : o.realPb = false) (E B R : List ℕ) (hc : Channels S o E B (some R)) (co : List (List ℂ))
    (w : List ℕ × List ℕ × List ℕ) (hf : setCoeffs cal S freq o.nper o.overlap o.win = .ok (co, w)) (heap : ℕ → σ)
    (b : Matrix (Fin B.length) (Fin w.1.sum) ℂ) (hb : b = chanMatrix co B w.1.sum)
    (r : Matrix (Fin R.length) (Fin w.1.sum) ℂ) (hr : r = chanMatrix co R w.1.sum) (Z : Matrix (Fin E.length) (Fin B.length) ℂ)
    (he : chanMatrix co E w.1.sum = Z * b) (h1 : RowsIndependent r) (h2 : RowsIndependent (b * rᴴ)) :
    ∃ res, oneFreq cal S freq o heap = (.ok res, heap) ∧ res.impedance = asRows Z := by
  obtain ⟨res, Z', T, g1, g2, -, g4, g5, g6⟩ := (C94_instruments cal S hS freq o hw hrw hp hrpre hrp E B R hc co w hf heap _ rfl b hb
    r hr).1 ⟨h1, h2⟩
  refine ⟨res, g1, ?_⟩
  rw [g2]
  congr 1
  -- `b (T r)ᴴ = (T r) (T r)ᴴ`
  have hbT : b * (T * r)ᴴ = (T * r) * (T * r)ᴴ := by
    rw [Matrix.sub_mul, sub_eq_zero] at g4
    rw [Matrix.conjTranspose_mul, ← Matrix.mul_assoc, g4, Matrix.mul_assoc]
  have hreg : RowsIndependent ((T * r) * (T * r)ᴴ) := by
    intro v hv
    exact g6 v (vecMul_gram.1 hv)
  refine rows_unique hreg ?_
  rw [he, Matrix.sub_mul, sub_eq_zero, Matrix.mul_assoc, Matrix.mul_assoc, hbT] at g5
  exact g5.symm

/-! A concrete case: two windows, a remote channel (1, 1), a magnetic channel 3 (1, 1) plus noise (1, -1) and an electric
channel 6 (1, 1) plus noise 5 (1, -1): the impedance is 2. -/

/-- A channel of two windows of 4 samples, with an impulse at the beginning of each. -/
def exImpulses (u v : ℂ) : List ℂ := [u, 0, 0, 0, v, 0, 0, 0]

/-- The data. -/
noncomputable def exNoise : SigSet ℂ Unit :=
  ⟨[⟨[exImpulses 11 1, exImpulses 4 2, exImpulses 1 1], [(), (), ()], 1, 0, 8⟩], ⟨3, [("E", [0]), ("B", [1]), ("R", [2])]⟩⟩

local instance instOneRemote : One Unit := ⟨()⟩

theorem exNoise_reach : Reach exNoise := by
  refine Reach.new (.dict [("E", .int 0), ("B", .int 1), ("R", .int 2)])
    [.sync ⟨[exImpulses 11 1, exImpulses 4 2, exImpulses 1 1], [(), (), ()], 1, 0, 8⟩] ?_ (by simp) ?_
  · simp only [List.mem_singleton, SigArg.sync.injEq, forall_eq]
    exact ⟨by simp, by simp, by simp [exImpulses]⟩
  · with_unfolding_all rfl

theorem exNoise_coeffs : setCoeffs (fun _ _ => some 1) exNoise (1 / 4) 1 0 .none =
    .ok ([[11 / 2, 1 / 2], [2, 1], [1 / 2, 1 / 2]], ([2], [4], [4])) := by
  obtain ⟨r, h⟩ := timeToFreq_of (data := [exImpulses 11 1, exImpulses 4 2, exImpulses 1 1]) (fs := 1)
    (freq := 1 / 4) (nper := 1) (overlap := 0) (N := 8) (win := .none) (n := 1) (L := 4) (s := 4) (by simp)
    (by simp [exImpulses]) (by decide +kernel) (by simp [Win.eval])
  obtain ⟨N, -, -, -, -, hr⟩ := timeToFreq_ok h
  have ht0 : ∀ u v : ℂ, fourierAt (1 / 4 / 1) 4 (Win.eval .none 4) (exImpulses u v) (0 * 4) = u / 2 := by
    intro u v
    simp [fourierAt, exImpulses, Win.eval, winAt, Finset.sum_range_succ]
    ring
  have ht1 : ∀ u v : ℂ, fourierAt (1 / 4 / 1) 4 (Win.eval .none 4) (exImpulses u v) (1 * 4) = v / 2 := by
    intro u v
    simp [fourierAt, exImpulses, Win.eval, winAt, Finset.sum_range_succ]
    ring
  have hr : r = [[11 / 2, 1 / 2], [2, 1], [1 / 2, 1 / 2]] := by
    rw [hr]
    have e : List.range (1 + 1) = [0, 1] := rfl
    simp only [e, List.map_cons, List.map_nil]
    simp only [ht0, ht1]
    norm_num
  subst hr
  unfold setCoeffs
  have hm : mapE (fun s => syncCoeffs (fun (_ : Unit) (_ : ℚ) => some 1) s (1/4) 1 0 .none) exNoise.runs =
      .ok [([[11 / 2, 1 / 2], [2, 1], [1 / 2, 1 / 2]], 2, 4, 4)] := by
    refine mapE_ok.2 (.cons (syncCoeffs_ok.2 ⟨by simp, _, h, ?_⟩) .nil)
    simp [exNoise]
  rw [hm]
  simp [zipStar]
  rfl

theorem exNoise_rows {a : ℂ} (ha : a ≠ 0) {b r : Matrix (Fin 1) (Fin 2) ℂ} (h : (b * rᴴ) 0 0 = a) : RowsIndependent (b * rᴴ) := by
  intro v hv
  have := congrFun hv 0
  simp only [Matrix.vecMul, dotProduct, Fin.sum_univ_one, h, Pi.zero_apply, mul_eq_zero, ha, or_false, Fin.isValue] at this
  funext i
  rw [Subsingleton.elim i 0]
  exact this

/-- The noise does not bias the result (C94), although the remote does not predict the magnetic field exactly. -/
example : ∃ res, oneFreq (fun _ _ => some 1) exNoise (1 / 4) exOpts (fun _ => ()) = (.ok res, fun _ => ()) ∧
    res.impedance = [[some 2]] := by
  have hE : (chanMatrix [[11 / 2, 1 / 2], [2, 1], [1 / 2, 1 / 2]] [0] 2 : Matrix (Fin 1) (Fin 2) ℂ) =
      (!![2] : Matrix (Fin 1) (Fin 1) ℂ) * (!![3 / 2, 3 / 2] : Matrix (Fin 1) (Fin 2) ℂ) + !![5 / 2, - 5 / 2] := by
    ext i n
    fin_cases i; fin_cases n <;> simp [chanMatrix, Matrix.mul_apply] <;> norm_num
  have hB : (chanMatrix [[11 / 2, 1 / 2], [2, 1], [1 / 2, 1 / 2]] [1] 2 : Matrix (Fin 1) (Fin 2) ℂ) =
      !![3 / 2, 3 / 2] + !![1 / 2, - 1 / 2] := by
    ext i n
    fin_cases i; fin_cases n <;> simp [chanMatrix] <;> norm_num
  have hR : (chanMatrix [[11 / 2, 1 / 2], [2, 1], [1 / 2, 1 / 2]] [2] 2 : Matrix (Fin 1) (Fin 2) ℂ) = !![1 / 2, 1 / 2] := by
    ext i n
    fin_cases i; fin_cases n <;> simp [chanMatrix]
  have hn : ∀ a : ℂ, !![a / 2, - a / 2] * (!![1 / 2, 1 / 2] : Matrix (Fin 1) (Fin 2) ℂ)ᴴ = 0 := by
    intro a
    ext i n
    fin_cases i; fin_cases n
    simp [Matrix.mul_apply, Fin.sum_univ_two]
    ring
  obtain ⟨res, h1, h2⟩ := C94_noise (fun _ _ => some 1) exNoise exNoise_reach (1 / 4) exOpts rfl rfl rfl rfl rfl [0] [1] [2]
    ⟨rfl, rfl, .inr ⟨"R", [2], rfl, by decide, rfl, rfl⟩⟩ rfl _ _ exNoise_coeffs (fun _ => ()) _ hR.symm
    !![2] !![3 / 2, 3 / 2] !![1 / 2, - 1 / 2] !![5 / 2, - 5 / 2] hB hE (hn 1) (hn 5)
    (exNoise_rows (a := 3 / 2) (by norm_num) (by
      have : (starRingEnd ℂ) 2 = 2 := Complex.conj_ofNat 2
      simp [Matrix.mul_apply, Fin.sum_univ_two, this]; norm_num))
  exact ⟨res, h1, by rw [h2]; rfl⟩

end Razorback.Props
