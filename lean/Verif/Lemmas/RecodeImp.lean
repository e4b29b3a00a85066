/-
Fourier coefficients, impedances and prefilter values of signals recorded with another origin and unit of times.
-/
import Verif.Lemmas.Recode
import Verif.Model.Impedance

namespace Razorback
open Razorback.Spec Razorback.Fourier Razorback.Impedance

namespace Spec

/-- A result with another origin and unit of times: only the times of the rejected windows change. -/
def Recode.result {α β κ κ' : Type _} (k : Recode α β κ κ') (r : Result) : Result :=
  { r with invalidTime := r.invalidTime.map (fun l => l.map (fun t => t.map k.time)) }

end Spec

namespace Recode
open Spec.Recode

variable {κ κ' : Type} [One κ] [One κ'] {k : Recode ℂ ℂ κ κ'} (hk : k.Proper) (hv : k.value = id)
  {cal : κ → ℚ → Option ℂ} {cal' : κ' → ℚ → Option ℂ} (hcal : ∀ c f, cal' (k.cal c) (k.rate f) = cal c f)

include hk in
theorem ratio (f r : ℚ) : k.rate f / k.rate r = f / r := by
  have := hk.pos.ne'
  unfold rate
  by_cases hr : r = 0
  · simp [hr]
  · field_simp

omit [One κ] [One κ'] in
include hv in
theorem data_id (s : Sync ℂ κ) : (k.sync s).data = s.data := by
  simp [sync, hv]

include hk in
theorem timeToFreq_rate (data : List (List ℂ)) (r f nper overlap : ℚ) (win : Win) :
    timeToFreq data (k.rate r) (k.rate f) nper overlap win = timeToFreq data r f nper overlap win := by
  unfold timeToFreq
  rw [ratio hk]

include hk hv hcal in
theorem syncCoeffs (s : Sync ℂ κ) (f nper overlap : ℚ) (win : Win) :
    Fourier.syncCoeffs cal' (k.sync s) (k.rate f) nper overlap win = Fourier.syncCoeffs cal s f nper overlap win := by
  unfold Fourier.syncCoeffs
  rw [data_id hv, show (k.sync s).rate = k.rate s.rate from rfl, timeToFreq_rate hk]
  have : (k.sync s).cals.map (fun c => cal' c (k.rate f)) = s.cals.map (fun c => cal c f) := by
    simp [sync, List.map_map, Function.comp_def, hcal]
  simp only [this]

include hk hv hcal in
theorem setCoeffs (S : SigSet ℂ κ) (f nper overlap : ℚ) (win : Win) :
    Fourier.setCoeffs cal' (k.set S) (k.rate f) nper overlap win = Fourier.setCoeffs cal S f nper overlap win := by
  unfold Fourier.setCoeffs
  rw [show (k.set S).runs = S.runs.map k.sync from rfl, mapE_mapped]
  simp only [syncCoeffs hk hv hcal]

include hk in
theorem centre (r t : ℚ) (x : ℚ) : x / k.rate r + k.time t = k.time (x / r + t) := by
  have := hk.pos.ne'
  unfold rate time
  by_cases hr : r = 0
  · simp [hr]
  · field_simp
    ring

/-- The windows of a set, with another origin and unit. -/
def wins (k : Recode ℂ ℂ κ κ') (l : List ((ℚ × ℚ) × ℕ × ℕ × ℕ)) : List ((ℚ × ℚ) × ℕ × ℕ × ℕ) :=
  l.map (fun p => ((k.rate p.1.1, k.time p.1.2), p.2))

omit [One κ] [One κ'] in
theorem windows_set (S : SigSet ℂ κ) (w : List ℕ × List ℕ × List ℕ) : windows (k.set S) w = wins k (windows S w) := by
  unfold windows wins
  have : (k.set S).runs.map (fun s => (s.rate, s.start)) = (S.runs.map (fun s => (s.rate, s.start))).map (fun p => (k.rate p.1, k.time p.2)) := by
    simp [Spec.Recode.set, sync, List.map_map, Function.comp_def]
  rw [this, List.zip_map_left]
  rfl

include hk in
theorem centres_wins (l : List ((ℚ × ℚ) × ℕ × ℕ × ℕ)) (iv : List ℕ) : centres (wins k l) iv = (centres l iv).map k.time := by
  induction l generalizing iv with
  | nil => rfl
  | cons p l ih =>
    obtain ⟨⟨r, t⟩, Nw, Lw, sh⟩ := p
    simp only [wins, List.map_cons, centres, List.map_append, List.map_map] at ih ⊢
    rw [ih]
    congr 1
    apply List.map_congr_left
    intro i _
    exact centre hk r t _

include hk in
theorem timesLine_wins (l : List ((ℚ × ℚ) × ℕ × ℕ × ℕ)) (iv : List ℕ) :
    timesLine (wins k l) iv = (timesLine l iv).map (fun t => t.map k.time) := by
  unfold timesLine
  simp [centres_wins hk, List.map_map, Function.comp_def]

variable {σ : Type}

include hk in
theorem secondStage (o : Impedance.Opts σ) (l : List ((ℚ × ℚ) × ℕ × ℕ × ℕ)) (e be : List (List ℂ)) (iv : MEst.InvArg)
    (T : List (List (Option ℂ))) (failed : Result) (hf : k.result failed = failed) (heap : ℕ → σ) :
    Impedance.secondStage o (wins k l) e be iv T failed heap =
      ((Impedance.secondStage o l e be iv T failed heap).1.map k.result, (Impedance.secondStage o l e be iv T failed heap).2) := by
  unfold Impedance.secondStage
  cases Prefilter.applyPrefilter e (rows be) (o.prefilter.map (fun p => p be.length)) iv with
  | error x => rfl
  | ok inv =>
    simp only
    generalize estimate o.realPb o.weights o.mest e be inv heap = y
    obtain ⟨x | ⟨z, ivid⟩, heap⟩ := y
    · simp only
      split
      · simp only [Except.map, hf]
      · rfl
    · simp only
      cases MEst.transferError e (cols be) z ivid with
      | error x => rfl
      | ok err =>
        simp only [Except.map, result]
        split
        · rw [show timesLine (wins k l) = fun x => (timesLine l x).map (fun t => t.map k.time) from funext (timesLine_wins hk l)]
          simp only [List.map_map, Function.comp_def]
        · simp

omit [One κ] [One κ'] in
theorem result_failed (k : Recode ℂ ℂ κ κ') {a c d} : k.result ⟨a, [], c, d⟩ = ⟨a, [], c, d⟩ := rfl

include hk hv hcal in
theorem oneFreq (S : SigSet ℂ κ) (f : ℚ) (o : Impedance.Opts σ) (heap : ℕ → σ) :
    Impedance.oneFreq cal' (k.set S) (k.rate f) o heap =
      ((Impedance.oneFreq cal S f o heap).1.map k.result, (Impedance.oneFreq cal S f o heap).2) := by
  unfold Impedance.oneFreq
  rw [show remoteChannels (k.set S) o = remoteChannels S o from rfl, show (k.set S).tags = S.tags from rfl, setCoeffs hk hv hcal]
  simp only [windows_set]
  cases S.tags.getItem o.tagElec with
  | error x => rfl
  | ok E =>
    simp only
    cases S.tags.getItem o.tagMag with
    | error x => rfl
    | ok B =>
      simp only
      cases remoteChannels S o with
      | error x => rfl
      | ok R =>
        simp only
        cases Fourier.setCoeffs cal S f o.nper o.overlap o.win with
        | error x => rfl
        | ok p =>
          obtain ⟨co, w⟩ := p
          simp only
          cases pick co E with
          | error x => rfl
          | ok e =>
            simp only
            cases pick co B with
            | error x => rfl
            | ok b =>
              simp only
              cases R with
              | none => exact secondStage hk o _ _ _ _ _ _ (result_failed k) _
              | some R =>
                simp only
                cases pick co R with
                | error x => rfl
                | ok br =>
                  simp only
                  generalize firstStage o b br heap = y
                  obtain ⟨x | ⟨_ | ⟨T, be, ivT⟩⟩, heap⟩ := y
                  · rfl
                  · rfl
                  · exact secondStage hk o _ _ _ _ _ _ (result_failed k) _

theorem stack_map {g : Result → Result} (h : ∀ r, (g r).shape = r.shape) (rs : List Result) :
    stack (rs.map g) = (stack rs).map (List.map g) := by
  cases rs with
  | nil => rfl
  | cons r l =>
    simp only [List.map_cons, stack, h, List.all_map, Function.comp_def]
    split <;> simp [Except.map]

include hk hv hcal in
theorem eachFreq (S : SigSet ℂ κ) (o : Impedance.Opts σ) (freqs : List ℚ) (heap : ℕ → σ) :
    Impedance.eachFreq cal' (k.set S) o (freqs.map k.rate) heap =
      ((Impedance.eachFreq cal S o freqs heap).1.map (List.map k.result), (Impedance.eachFreq cal S o freqs heap).2) := by
  induction freqs generalizing heap with
  | nil => rfl
  | cons f l ih =>
    simp only [List.map_cons, Impedance.eachFreq]
    rw [oneFreq hk hv hcal]
    generalize Impedance.oneFreq cal S f o heap = y
    obtain ⟨x | r, heap⟩ := y
    · rfl
    · simp only [Except.map]
      rw [ih]
      generalize Impedance.eachFreq cal S o l heap = y
      obtain ⟨x | rs, heap⟩ := y <;> rfl

include hk hv hcal in
theorem impedance (S : SigSet ℂ κ) (o : Impedance.Opts σ) (freqs : List ℚ) (heap : ℕ → σ) :
    Impedance.impedance cal' (k.set S) o (freqs.map k.rate) heap =
      ((Impedance.impedance cal S o freqs heap).1.map (List.map k.result), (Impedance.impedance cal S o freqs heap).2) := by
  unfold Impedance.impedance
  rw [eachFreq hk hv hcal]
  generalize Impedance.eachFreq cal S o freqs heap = y
  obtain ⟨x | rs, heap⟩ := y
  · rfl
  · simp only [Except.map]
    rw [stack_map (g := k.result) (fun _ => rfl)]
    rfl

include hk in
theorem massData (hu : k.unit = 1) (ord : SetOrder) (I : Inventory ℂ κ) (remotes : List String) (o : Impedance.Opts σ) :
    Impedance.massData ord (k.inventory I) remotes o = (Impedance.massData ord I remotes o).map (fun p => (k.set p.1, p.2)) := by
  unfold Impedance.massData
  rw [inv_filter hk]
  cases Inventory.filter ord I ["E", "B"] with
  | error x => rfl
  | ok J =>
    simp only [Except.map]
    split
    · rw [pack hk hu]
      cases Inventory.pack ord J <;> rfl
    · rw [extractGroups hk hu]
      cases Inventory.extractGroups ord I [("Bremote", remotes)] with
      | error x => rfl
      | ok g =>
        simp only [Except.map]
        rw [show k.inventory J ++ k.inventory g = k.inventory (J ++ g) from (List.map_append ..).symm, pack hk hu]
        cases Inventory.pack ord (J ++ g) <;> rfl

include hk hv hcal in
theorem massIntervals (freqs : List ℚ) (S : SigSet ℂ κ) (o : Impedance.Opts σ) (ivs : List (ℚ × ℚ)) (heap : ℕ → σ) :
    Impedance.massIntervals cal' (freqs.map k.rate) (k.set S) o (ivs.map (fun p => (k.time p.1, k.time p.2))) heap =
      ((Impedance.massIntervals cal freqs S o ivs heap).1.map (List.map (List.map k.result)),
        (Impedance.massIntervals cal freqs S o ivs heap).2) := by
  induction ivs generalizing heap with
  | nil => rfl
  | cons p l ih =>
    obtain ⟨a, b⟩ := p
    simp only [List.map_cons, Impedance.massIntervals]
    rw [extractT hk]
    cases S.extractT a b with
    | error x => rfl
    | ok rdata =>
      simp only [Except.map]
      rw [impedance hk hv hcal]
      generalize Impedance.impedance cal rdata o freqs heap = y
      obtain ⟨x | r, heap⟩ := y
      · rfl
      · simp only [Except.map]
        rw [ih]
        generalize Impedance.massIntervals cal freqs S o l heap = y
        obtain ⟨x | rs, heap⟩ := y <;> rfl

include hk hv hcal in
theorem massLoop (hu : k.unit = 1) (ord : SetOrder) (I : Inventory ℂ κ) (names : List String) (freqs : List ℚ)
    (ivs : List (ℚ × ℚ)) (o : Impedance.Opts σ) (cs : List (List (Option ℕ))) (heap : ℕ → σ) :
    Impedance.massLoop cal' ord (k.inventory I) names (freqs.map k.rate) (ivs.map (fun p => (k.time p.1, k.time p.2))) o cs heap =
      ((Impedance.massLoop cal ord I names freqs ivs o cs heap).1.map (List.map (List.map (List.map k.result))),
        (Impedance.massLoop cal ord I names freqs ivs o cs heap).2) := by
  induction cs generalizing heap with
  | nil => rfl
  | cons c l ih =>
    simp only [Impedance.massLoop]
    rw [massData hk hu]
    cases Impedance.massData ord I (remoteTags names c) o with
    | error x => rfl
    | ok p =>
      obtain ⟨data, o'⟩ := p
      simp only [Except.map]
      rw [massIntervals hk hv hcal]
      generalize Impedance.massIntervals cal freqs data o' ivs heap = y
      obtain ⟨x | r, heap⟩ := y
      · rfl
      · simp only [Except.map]
        rw [ih]
        generalize Impedance.massLoop cal ord I names freqs ivs o l heap = y
        obtain ⟨x | rs, heap⟩ := y <;> rfl

include hk hv hcal in
theorem massProc (hu : k.unit = 1) (ord : SetOrder) (I : Inventory ℂ κ) (names : List String) (freqs : List ℚ)
    (ivs : List (ℚ × ℚ)) (o : Impedance.Opts σ) (combine : Bool) (heap : ℕ → σ) :
    Impedance.massProc cal' ord (k.inventory I) names (freqs.map k.rate) (ivs.map (fun p => (k.time p.1, k.time p.2))) o combine heap =
      ((Impedance.massProc cal ord I names freqs ivs o combine heap).1.map
          (fun p => (p.1, p.2.map (List.map (List.map k.result)))),
        (Impedance.massProc cal ord I names freqs ivs o combine heap).2) := by
  unfold Impedance.massProc
  rw [massLoop hk hv hcal hu]
  generalize Impedance.massLoop cal ord I names freqs ivs o (combinations names.length combine) heap = y
  obtain ⟨x | rs, heap⟩ := y <;> rfl

include hk hv hcal in
theorem prefilterValues (S : SigSet ℂ κ) (nper overlap : ℚ) (win : Win) (te tm : String)
    (value : (q : ℕ) → List ℂ → List (Fin q → ℂ) → Except Err (List Flt)) (freqs : List ℚ) :
    Impedance.prefilterValues cal' (k.set S) nper overlap win te tm value (freqs.map k.rate) =
      (Impedance.prefilterValues cal S nper overlap win te tm value freqs).map (List.map (fun p => (p.1, p.2.map k.time))) := by
  unfold Impedance.prefilterValues
  apply mapE_comm
  intro f _
  unfold Impedance.valuesOne
  rw [show (k.set S).tags = S.tags from rfl, setCoeffs hk hv hcal]
  simp only [windows_set]
  cases Fourier.setCoeffs cal S f nper overlap win with
  | error x => rfl
  | ok p =>
    obtain ⟨co, w⟩ := p
    simp only
    cases S.tags.getItem te with
    | error x => rfl
    | ok E =>
      simp only
      cases pick co E with
      | error x => rfl
      | ok e =>
        simp only
        cases S.tags.getItem tm with
        | error x => rfl
        | ok B =>
          simp only
          cases pick co B with
          | error x => rfl
          | ok b =>
            simp only
            cases mapE (fun line => value b.length line (rows b)) e with
            | error x => rfl
            | ok v =>
              simp only [Except.map, wins, List.flatMap_map, List.map_flatMap, List.map_map, Function.comp_def, centre hk]

include hk hv hcal in
theorem valuesLoop (slepian4 : Win) (runs : List (Sync ℂ κ)) (names : List String)
    (value : (q : ℕ) → List ℂ → List (Fin q → ℂ) → Except Err (List Flt)) (freqs : List ℚ) (ivs : List (ℚ × ℚ))
    (cs : List (List (Option ℕ))) (t : Tags) :
    Impedance.valuesLoop slepian4 cal' (runs.map k.sync) names value (freqs.map k.rate)
        (ivs.map (fun p => (k.time p.1, k.time p.2))) cs t =
      ((Impedance.valuesLoop slepian4 cal runs names value freqs ivs cs t).1.map
          (List.map (List.map (List.map (fun p => (p.1, p.2.map k.time))))),
        (Impedance.valuesLoop slepian4 cal runs names value freqs ivs cs t).2) := by
  induction cs generalizing t with
  | nil => rfl
  | cons c l ih =>
    simp only [Impedance.valuesLoop]
    cases remoteUnion t names c with
    | error x => rfl
    | ok br =>
      simp only
      cases setRemote t br with
      | error x => rfl
      | ok t =>
        simp only
        have h : Impedance.valuesIntervals slepian4 cal' ⟨runs.map k.sync, t⟩ value (freqs.map k.rate)
            (ivs.map (fun p => (k.time p.1, k.time p.2))) =
            (Impedance.valuesIntervals slepian4 cal ⟨runs, t⟩ value freqs ivs).map
              (List.map (List.map (fun p => (p.1, p.2.map k.time)))) := by
          unfold Impedance.valuesIntervals
          apply mapE_comm
          intro p _
          have he := extractT hk ⟨runs, t⟩ p.1 p.2 false
          simp only [Spec.Recode.set] at he
          simp only [he]
          cases SigSet.extractT ⟨runs, t⟩ p.1 p.2 with
          | error x => rfl
          | ok rdata => exact prefilterValues hk hv hcal rdata _ _ _ _ _ value freqs
        rw [h]
        cases Impedance.valuesIntervals slepian4 cal ⟨runs, t⟩ value freqs ivs with
        | error x => rfl
        | ok r =>
          simp only [Except.map]
          rw [ih]
          generalize Impedance.valuesLoop slepian4 cal runs names value freqs ivs l t = y
          obtain ⟨x | rs, t⟩ := y <;> rfl

include hk hv hcal in
theorem valuesMass (slepian4 : Win) (S : SigSet ℂ κ) (names : List String)
    (value : (q : ℕ) → List ℂ → List (Fin q → ℂ) → Except Err (List Flt)) (freqs : List ℚ) (ivs : List (ℚ × ℚ)) :
    Impedance.valuesMass slepian4 cal' (k.set S) names value (freqs.map k.rate) (ivs.map (fun p => (k.time p.1, k.time p.2))) =
      ((Impedance.valuesMass slepian4 cal S names value freqs ivs).1.map
          (List.map (List.map (List.map (fun p => (p.1, p.2.map k.time))))),
        (Impedance.valuesMass slepian4 cal S names value freqs ivs).2) := by
  unfold Impedance.valuesMass
  rw [show (k.set S).tags = S.tags from rfl]
  cases S.tags.getAttr "E" with
  | error x => rfl
  | ok v =>
    simp only
    cases S.tags.getAttr "B" with
    | error x => rfl
    | ok v => exact valuesLoop hk hv hcal slepian4 S.runs names value freqs ivs _ _

end Recode
end Razorback
