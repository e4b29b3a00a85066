/-
C95: the operations on signals look neither at the values of the samples nor at the origin and unit of times.
C96: nor do the results of the estimations depend on the origin and unit of times.
-/
import Verif.Lemmas.RecodeImp
import Verif.Props.Units

namespace Razorback.Props
open Razorback Razorback.Spec Razorback.Impedance Razorback.Fourier

section sets
variable {α β κ κ' : Type _} [One κ] [One κ'] (k : Recode α β κ κ') (hk : k.Proper)
include hk

/-- **C95.** Synchronous signals: recording the signals otherwise and then selecting or extracting gives the result of
the operation recorded otherwise, and the same exception when there is one. -/
theorem C95_sync (s : Sync α κ) :
    (k.sync s).stop = s.stop.map k.time ∧
    (∀ idx, (k.sync s).select idx = (s.select idx).map k.sync) ∧
    (∀ i j strict last, (k.sync s).extractI i j strict last = (s.extractI i j strict last).map k.sync) ∧
    ∀ a b strict, (k.sync s).extractT (k.time a) (k.time b) strict = (s.extractT a b strict).map k.sync :=
  ⟨Recode.stop hk s, Recode.sync_select hk s, Recode.sync_extractI hk s, Recode.sync_extractT hk s⟩

/-- **C95.** The same of construction, selection, join, extraction and merge of signal sets. -/
theorem C95_set (S : SigSet α κ) :
    (∀ t args, SigSet.new t (args.map k.arg) = (SigSet.new t args).map k.set) ∧
    (∀ sel, (k.set S).selectChannels sel = (S.selectChannels sel).map k.set) ∧
    (∀ r, (k.set S).selectRuns r = (S.selectRuns r).map k.set) ∧
    (∀ c r, (k.set S).getItem c r = (S.getItem c r).map k.set) ∧
    (∀ name, (k.set S).getAttr name = (S.getAttr name).map k.set) ∧
    (∀ others, (k.set S).join (others.map k.arg) = (S.join others).map k.set) ∧
    (∀ a b ex, (k.set S).extractT (k.time a) (k.time b) ex = (S.extractT a b ex).map k.set) ∧
    ∀ others, (k.set S).merge (others.map k.set) = (S.merge others).map k.set :=
  ⟨Recode.set_new hk, Recode.selectChannels hk S, Recode.selectRuns hk S, Recode.getItem hk S, Recode.getAttr hk S,
    Recode.join hk S, Recode.extractT hk S, Recode.merge hk S⟩

/-- **C95.** The same of the operations on inventories. -/
theorem C95_inventory (o : SetOrder) (I : Inventory α κ) :
    (∀ a b ex, Inventory.extractT (k.inventory I) (k.time a) (k.time b) ex = (Inventory.extractT I a b ex).map k.inventory) ∧
    (∀ keys, Inventory.selectChannels (k.inventory I) keys = (Inventory.selectChannels I keys).map k.inventory) ∧
    (∀ runs, Inventory.selectRuns (k.inventory I) runs = (Inventory.selectRuns I runs).map k.inventory) ∧
    (∀ ps, Inventory.filter o (k.inventory I) ps = (Inventory.filter o I ps).map k.inventory) ∧
    Inventory.joinMerge o (k.inventory I) = (Inventory.joinMerge o I).map k.set :=
  ⟨Recode.inv_extractT hk I, Recode.inv_selectChannels hk I, Recode.inv_selectRuns hk I, Recode.inv_filter hk o I,
    Recode.joinMerge hk o I⟩

/-- **C95.** Fusing consecutive runs and packing commute with a change of samples, calibrations and origin of times. -/
theorem C95_pack (hu : k.unit = 1) (o : SetOrder) (S : SigSet α κ) (I : Inventory α κ) :
    (k.set S).mergeConsecutive = S.mergeConsecutive.map k.set ∧
    (∀ keep, Inventory.pack o (k.inventory I) keep = (Inventory.pack o I keep).map k.set) ∧
    ∀ gs, Inventory.extractGroups o (k.inventory I) gs = (Inventory.extractGroups o I gs).map k.inventory :=
  ⟨Recode.mergeConsecutive hk hu S, Recode.pack hk hu o I, Recode.extractGroups hk hu o I⟩

end sets

theorem shape_recode {α κ : Type _} [One κ] : (shape : SigSet α κ → SigSet Unit κ) = Recode.set ⟨fun _ => (), id, 1, 0⟩ := by
  funext S
  unfold shape Recode.set
  congr 1
  apply List.map_congr_left
  intro s _
  simp [Recode.sync, Recode.rate, Recode.time, Function.comp_def, List.map_const']

/-- **C95.** Two signal sets that differ only in the values of their samples (whatever their types): every operation raises
the same exception on both, or gives on both sets of the same shape. -/
theorem C95_blind {α β κ : Type _} [One κ] (S : SigSet α κ) (S' : SigSet β κ) (others : List (SigSet α κ)) (others' : List (SigSet β κ))
    (h : shape S = shape S') (ho : others.map shape = others'.map shape) :
    (∀ sel, (S.selectChannels sel).map shape = (S'.selectChannels sel).map shape) ∧
    (∀ r, (S.selectRuns r).map shape = (S'.selectRuns r).map shape) ∧
    (∀ a b ex, (S.extractT a b ex).map shape = (S'.extractT a b ex).map shape) ∧
    (S.join (others.map .set)).map shape = (S'.join (others'.map .set)).map shape ∧
    (S.merge others).map shape = (S'.merge others').map shape ∧
    S.mergeConsecutive.map shape = S'.mergeConsecutive.map shape ∧
    ∀ o keep, (Inventory.pack o (S :: others) keep).map shape = (Inventory.pack o (S' :: others') keep).map shape := by
  rw [shape_recode, shape_recode] at h ho ⊢
  have pα : (⟨fun _ => (), id, 1, 0⟩ : Recode α Unit κ κ).Proper := ⟨by norm_num, rfl⟩
  have pβ : (⟨fun _ => (), id, 1, 0⟩ : Recode β Unit κ κ).Proper := ⟨by norm_num, rfl⟩
  refine ⟨fun sel => ?_, fun r => ?_, fun a b ex => ?_, ?_, ?_, ?_, fun o keep => ?_⟩
  · rw [← Recode.selectChannels pα, ← Recode.selectChannels pβ, h]
  · rw [← Recode.selectRuns pα, ← Recode.selectRuns pβ, h]
  · have h1 := Recode.extractT pα S a b ex
    have h2 := Recode.extractT pβ S' a b ex
    simp only [Recode.time, one_mul, add_zero] at h1 h2
    rw [← h1, ← h2, h]
  · have h1 := Recode.joinAll pα (S :: others)
    have h2 := Recode.joinAll pβ (S' :: others')
    simp only [Inventory.joinAll] at h1 h2
    rw [← h1, ← h2, List.map_cons, List.map_cons, h, ho]
  · rw [← Recode.merge pα, ← Recode.merge pβ, h, ho]
  · rw [← Recode.mergeConsecutive pα rfl, ← Recode.mergeConsecutive pβ rfl, h]
  · rw [← Recode.pack pα rfl, ← Recode.pack pβ rfl, Recode.inventory, Recode.inventory, List.map_cons, List.map_cons, h, ho]

/-- Two runs with a gap of three samples. -/
def exGap : SigSet ℤ ℚ := ⟨[⟨[[1, 2]], [1], 1, 0, 2⟩, ⟨[[3, 4]], [1], 1, 5, 2⟩], ⟨1, [("E", [0])]⟩⟩

/-- The unit of thousand millions of seconds. -/
def exGiga : Recode ℤ ℤ ℚ ℚ := ⟨id, id, 1 / 10 ^ 9, 0⟩

/-- **C95.** The tolerance of `merge_consecutive_runs` is absolute: with another unit of times the same two runs, three
samples apart, are fused. -/
theorem C95_unit_matters : ∃ (k : Recode ℤ ℤ ℚ ℚ) (S : SigSet ℤ ℚ), k.Proper ∧ Reach S ∧
    S.mergeConsecutive = .ok S ∧ ∃ T, (k.set S).mergeConsecutive = .ok T ∧ T ≠ k.set S ∧ T.runs.length = 1 := by
  refine ⟨exGiga, exGap, ⟨by norm_num [exGiga], rfl⟩,
    Reach.new (.dict [("E", .int 0)]) [.sync ⟨[[1, 2]], [1], 1, 0, 2⟩, .sync ⟨[[3, 4]], [1], 1, 5, 2⟩] ?_ (by simp) (by decide +kernel),
    by decide +kernel, ⟨[⟨[[1, 2, 3, 4]], [1], 10 ^ 9, 0, 4⟩], ⟨1, [("E", [0])]⟩⟩, by decide +kernel, by decide +kernel, rfl⟩
  intro s hs
  simp only [List.mem_cons, SigArg.sync.injEq, List.not_mem_nil, or_false] at hs
  rcases hs with rfl | rfl
  · exact ⟨by simp, by simp, by simp⟩
  · exact ⟨by simp, by simp, by simp⟩

/-- The hypotheses are met: samples doubled, another origin and another unit, with a result that is not trivial. -/
example : (⟨fun x => 2 * x, id, 1 / 1000, 7⟩ : Recode ℤ ℤ ℚ ℚ).Proper ∧
    (Recode.set ⟨fun x => 2 * x, id, 1 / 1000, 7⟩ exGap).extractT (7 + 1 / 1000) (7 + 6 / 1000) =
      .ok ⟨[⟨[[6, 8]], [1], 1000, 7 + 5 / 1000, 2⟩], ⟨1, [("E", [0])]⟩⟩ ∧
    exGap.extractT 1 6 = .ok ⟨[⟨[[3, 4]], [1], 1, 5, 2⟩], ⟨1, [("E", [0])]⟩⟩ :=
  ⟨⟨by norm_num, rfl⟩, by decide +kernel, by decide +kernel⟩

-- C95_blind: sets with other samples
example : shape exGap = shape (⟨[⟨[[0, 0]], [1], 1, 0, 2⟩, ⟨[[9, 1]], [1], 1, 5, 2⟩], ⟨1, [("E", [0])]⟩⟩ : SigSet ℤ ℚ) := by
  decide +kernel

section estimation
variable {κ κ' σ : Type} [One κ] [One κ'] (k : Recode ℂ ℂ κ κ') (hk : k.Proper) (hv : k.value = id)
  {cal : κ → ℚ → Option ℂ} {cal' : κ' → ℚ → Option ℂ} (hcal : ∀ c f, cal' (k.cal c) (k.rate f) = cal c f)
include hk hv hcal

/-- **C96.** With another origin and unit of times (and the calibrations and frequencies expressed in that unit), the Fourier
coefficients and the windows are the same. -/
theorem C96_fourier (S : SigSet ℂ κ) (f nper overlap : ℚ) (win : Win) :
    setCoeffs cal' (k.set S) (k.rate f) nper overlap win = setCoeffs cal S f nper overlap win :=
  Recode.setCoeffs hk hv hcal S f nper overlap win

/-- **C96.** So are the impedances, their errors and the transfers, whatever the weight functions and prefilters; the times of
the rejected windows are the same times, in the new origin and unit. -/
theorem C96_impedance (S : SigSet ℂ κ) (o : Impedance.Opts σ) (freqs : List ℚ) (heap : ℕ → σ) :
    (impedance cal' (k.set S) o (freqs.map k.rate) heap).2 = (impedance cal S o freqs heap).2 ∧
    (impedance cal' (k.set S) o (freqs.map k.rate) heap).1 = (impedance cal S o freqs heap).1.map (List.map (fun r =>
      ⟨r.impedance, r.invalidTime.map (fun l => l.map (fun t => t.map k.time)), r.error, r.transferMag⟩)) := by
  rw [Recode.impedance hk hv hcal]
  exact ⟨rfl, rfl⟩

/-- **C96.** Prefilter values are the same, at the same times in the new origin and unit. -/
theorem C96_values (S : SigSet ℂ κ) (nper overlap : ℚ) (win : Win) (te tm : String)
    (value : (q : ℕ) → List ℂ → List (Fin q → ℂ) → Except Err (List Flt)) (freqs : List ℚ) :
    prefilterValues cal' (k.set S) nper overlap win te tm value (freqs.map k.rate) =
      (prefilterValues cal S nper overlap win te tm value freqs).map (List.map (fun p => (p.1, p.2.map k.time))) :=
  Recode.prefilterValues hk hv hcal S nper overlap win te tm value freqs

/-- **C96.** The same of the values for all the combinations of remotes and intervals, which leave the same tags behind. -/
theorem C96_values_mass (slepian4 : Win) (S : SigSet ℂ κ) (names : List String)
    (value : (q : ℕ) → List ℂ → List (Fin q → ℂ) → Except Err (List Flt)) (freqs : List ℚ) (ivs : List (ℚ × ℚ)) :
    valuesMass slepian4 cal' (k.set S) names value (freqs.map k.rate) (ivs.map (fun p => (k.time p.1, k.time p.2))) =
      ((valuesMass slepian4 cal S names value freqs ivs).1.map
          (List.map (List.map (List.map (fun p => (p.1, p.2.map k.time))))),
        (valuesMass slepian4 cal S names value freqs ivs).2) :=
  Recode.valuesMass hk hv hcal slepian4 S names value freqs ivs

/-- **C96.** With another origin of times, the mass processing of an inventory over intervals gives the same results, the times
of the rejected windows being expressed from the new origin. -/
theorem C96_mass (hu : k.unit = 1) (ord : SetOrder) (I : Inventory ℂ κ) (names : List String) (freqs : List ℚ)
    (ivs : List (ℚ × ℚ)) (o : Impedance.Opts σ) (combine : Bool) (heap : ℕ → σ) :
    (massProc cal' ord (k.inventory I) names freqs (ivs.map (fun p => (k.time p.1, k.time p.2))) o combine heap).1 =
      (massProc cal ord I names freqs ivs o combine heap).1.map (fun p => (p.1, p.2.map (List.map (List.map (fun r =>
        ⟨r.impedance, r.invalidTime.map (fun l => l.map (fun t => t.map k.time)), r.error, r.transferMag⟩))))) := by
  have h := Recode.massProc hk hv hcal hu ord I names freqs ivs o combine heap
  have hr : freqs.map k.rate = freqs := by
    conv_rhs => rw [← List.map_id freqs]
    apply List.map_congr_left
    intro f _
    simp [Recode.rate, hu]
  rw [hr] at h
  rw [h]
  rfl

end estimation

-- C96: the tones of the examples dated in milliseconds from another origin
example : ∃ k : Recode ℂ ℂ Unit Unit, k.Proper ∧ k.value = id ∧ k.unit = 1000 ∧ k.origin = 5 ∧
    (∀ c f, (fun (_ : Unit) _ => (some 1 : Option ℂ)) (k.cal c) (k.rate f) = (fun _ _ => some 1) c f) ∧
    setCoeffs (fun _ _ => some 1) (k.set exTones) (1 / 4000) 1 0 .none = setCoeffs (fun _ _ => some 1) exTones (1 / 4) 1 0 .none ∧
    (∃ r, setCoeffs (fun _ _ => some 1) exTones (1 / 4) 1 0 .none = .ok r) ∧
    (k.set exTones).runs.map (fun s => (s.rate, s.start)) = [(1 / 1000, 5)] := by
  have hp : (⟨id, id, 1000, 5⟩ : Recode ℂ ℂ Unit Unit).Proper := ⟨by norm_num, rfl⟩
  refine ⟨⟨id, id, 1000, 5⟩, hp, rfl, rfl, rfl, fun _ _ => rfl, ?_, ⟨_, exTones_coeffs⟩, ?_⟩
  · have := C96_fourier _ hp rfl (cal := fun _ _ => some 1) (cal' := fun _ _ => some 1) (fun _ _ => rfl) exTones (1 / 4) 1 0 .none
    rw [← this]
    norm_num [Recode.rate]
  · simp [Recode.set, Recode.sync, exTones, Recode.rate, Recode.time]

end Razorback.Props
