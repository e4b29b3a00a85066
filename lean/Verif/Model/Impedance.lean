/-
Model of the high level functions of utils.py: impedance, impedance_mass_proc, prefilter_values.
Printing is not modelled.
-/
import Verif.Model.Fourier
import Verif.Model.Inventory
import Verif.Model.Prefilter

namespace Razorback.Impedance
open Razorback.MEst Razorback.Prefilter Razorback.Fourier

noncomputable section

variable {κ σ : Type}

/-- The `weights` argument: `None` or weight function objects, which work for any number of inputs. -/
abbrev Weights (σ : Type) := List (Option (ℕ × ((q : ℕ) → WFun σ ℂ q)))

/-- The weight functions for `q` inputs. -/
def Weights.at (ws : Weights σ) (q : ℕ) : Weighting σ ℂ q := ws.map (fun w => w.map (fun p => (p.1, p.2 q)))

/-- The `prefilter` argument: `prefilter(output, inputs.T)`, for any number of inputs. -/
abbrev Pre := (q : ℕ) → List ℂ → List (Fin q → ℂ) → Except Err (List ℕ)

/-- The options of `impedance`, utils.py:124-135, after the defaults for `fourier_opts` have been filled in.
The remote name is `none` for `None`. -/
structure Opts (σ : Type) where
  weights : Weights σ
  prefilter : Option Pre := none
  nper : ℚ
  overlap : ℚ
  win : Win
  remote : Option String := none
  remoteWeights : Option (Weights σ) := none
  remotePrefilter : Option Pre := none
  tagElec : String := "E"
  tagMag : String := "B"
  mest : MEst.Opts := {}
  realPb : Bool := false
  silentFail : Bool := true
  keepInvalidTimes : Bool := false

/-- `fourier_opts`: the entries given by the user. -/
structure FourierOpts where
  nper : Option ℚ := none
  overlap : Option ℚ := none
  window : Option Win := none

/-- `dict(chain(default.items(), given.items()))`, utils.py:162-164: given entries win. -/
def FourierOpts.fill (f : FourierOpts) (slepian4 : Win) : ℚ × ℚ × Win :=
  (f.nper.getD 8, f.overlap.getD (71 / 100), f.window.getD slepian4)

/-- `ImpedanceResult` for one frequency, utils.py:24-38; `none` is NaN in numbers and an uninitialised entry in
times. -/
structure Result where
  impedance : List (List (Option ℂ))
  invalidTime : List (List (Option ℚ))
  error : List (List Flt)
  transferMag : List (List (Option ℂ))

/-- `np.tile(np.nan, (n, m))`, for the errors. -/
def nanErrors (n m : ℕ) : List (List Flt) := List.replicate n (List.replicate m .nan)

/-- `np.tile(np.nan, (n, m))` -/
def nans {β : Type _} (n m : ℕ) : List (List (Option β)) := List.replicate n (List.replicate m none)

/-- The channels as the function expected by `transferFunction`. -/
def cols (l : List (List ℂ)) : Fin l.length → List ℂ := fun j => l[j]

/-- Number of samples of an array of channels. -/
def width (l : List (List ℂ)) : ℕ := (l.head?.map List.length).getD 0

/-- `np.transpose(inputs)` -/
def rows (l : List (List ℂ)) : List (Fin l.length → ℂ) := rowsOf (cols l) (width l)

/-- `_transfer_function(outputs, inputs, weights, invalid_idx=ivid, **mest_opts)`, utils.py:203-206,
236-237 and 260-261.  With `real_pb` the third positional argument makes `transfer_function_real_prob` raise TypeError.
Simplification: without any weight function `transfer_function` gives an array of `None`, which later raises; here
TypeError is raised at once. -/
def estimate (realPb : Bool) (ws : Weights σ) (o : MEst.Opts) (outputs inputs : List (List ℂ)) (inv : List (List ℕ))
    (heap : ℕ → σ) : Except Err (List (Fin inputs.length → ℂ) × List (List ℕ)) × (ℕ → σ) :=
  if realPb then (.error .type, heap)
  else match transferFunction outputs (cols inputs) (ws.at inputs.length) none (.each inv) o heap with
    | (.error x, heap) => (.error x, heap)
    | (.ok l, heap) =>
      match l.mapM (fun p => p.1) with
      | none => (.error .type, heap)
      | some z => (.ok (z, l.map Prod.snd), heap)

/-- `T.dot(br)`, utils.py:245. -/
def predict (br : List (List ℂ)) (T : List (Fin br.length → ℂ)) : List (List ℂ) :=
  T.map (fun t => (List.range (width br)).map (fun n : ℕ => ∑ j, t j * (cols br j).getD n 0))

/-- `[coeffs[i] for i in indices]` -/
def pick (coeffs : List (List ℂ)) (idx : List ℕ) : Except Err (List (List ℂ)) :=
  mapE (fun i : ℕ => match coeffs[i]? with
    | none => .error .index
    | some c => .ok c) idx

/-- `remote_weights or weights`, utils.py:210. -/
def Opts.orWeights (o : Opts σ) : Weights σ :=
  match o.remoteWeights with
  | none => o.weights
  | some [] => o.weights
  | some (w :: l) => w :: l

/-- `remote_prefilter or prefilter`, utils.py:211. -/
def Opts.orPrefilter (o : Opts σ) : Option Pre :=
  match o.remotePrefilter with
  | none => o.prefilter
  | some p => some p

/-- The first stage with a remote, utils.py:232-247: `none` if it failed silently, else the transfer, the predicted
magnetic field and the indices it rejected. -/
def firstStage (o : Opts σ) (b br : List (List ℂ)) (heap : ℕ → σ) :
    Except Err (Option (List (Fin br.length → ℂ) × List (List ℂ) × List ℕ)) × (ℕ → σ) :=
  match applyPrefilter b (rows br) (o.orPrefilter.map (fun p => p br.length)) .none with
  | .error x => (.error x, heap)
  | .ok inv =>
    match estimate o.realPb o.orWeights o.mest b br inv heap with
    | (.error x, heap) => if o.silentFail then (.ok none, heap) else (.error x, heap)
    | (.ok (T, ivT), heap) => (.ok (some (T, predict br T, ivT.foldl union1d [])), heap)

/-- The loop of utils.py:278-284: the times of the rejected windows, run by run. -/
def centres : List ((ℚ × ℚ) × ℕ × ℕ × ℕ) → List ℕ → List ℚ
  | [], _ => []
  | ((rate, start), Nw, Lw, shift) :: l, iv =>
    (iv.filter (fun i => decide (i < Nw))).map (fun i : ℕ => ((shift : ℚ) * i + 1 / 2 * Lw) / rate + start) ++
      centres l ((iv.filter (fun i => !decide (i < Nw))).map (fun i => i - Nw))

/-- One line of `ivt`, utils.py:275-285: `np.empty` filled from the left. -/
def timesLine (wins : List ((ℚ × ℚ) × ℕ × ℕ × ℕ)) (iv : List ℕ) : List (Option ℚ) :=
  let t := centres wins iv
  t.map some ++ List.replicate (iv.length - t.length) none

/-- `zip(data.signals, zip(l_Nw, l_Lw, l_shift))` with the attributes that are used. -/
def windows (data : SigSet ℂ κ) (w : List ℕ × List ℕ × List ℕ) : List ((ℚ × ℚ) × ℕ × ℕ × ℕ) :=
  (data.runs.map (fun s => (s.rate, s.start))).zip (w.1.zip (w.2.1.zip w.2.2))

/-- The second stage, utils.py:253-296, with `be` the (predicted) magnetic field, `ivid1` the indices rejected before
and `T` the transfer of the result. -/
def secondStage (o : Opts σ) (wins : List ((ℚ × ℚ) × ℕ × ℕ × ℕ)) (e be : List (List ℂ)) (ivid1 : InvArg)
    (T : List (List (Option ℂ))) (failed : Result) (heap : ℕ → σ) : Except Err Result × (ℕ → σ) :=
  match applyPrefilter e (rows be) (o.prefilter.map (fun p => p be.length)) ivid1 with
  | .error x => (.error x, heap)
  | .ok inv =>
    match estimate o.realPb o.weights o.mest e be inv heap with
    | (.error x, heap) => if o.silentFail then (.ok failed, heap) else (.error x, heap)
    | (.ok (z, ivid), heap) =>
      let ivt := if o.keepInvalidTimes then ivid.map (timesLine wins) else ivid.map (fun _ => [])
      match transferError e (cols be) z ivid with
      | .error x => (.error x, heap)
      | .ok err => (.ok ⟨z.map (fun r => (List.ofFn r).map some), ivt, err.map List.ofFn, T⟩, heap)

/-- `data.tags[remote_name]` if there is a remote, utils.py:208-215: an empty name means no remote. -/
def remoteChannels (data : SigSet ℂ κ) (o : Opts σ) : Except Err (Option (List ℕ)) :=
  match o.remote with
  | none => .ok none
  | some r =>
    if r.isEmpty then .ok none
    else match data.tags.getItem r with
      | .error x => .error x
      | .ok l => .ok (some l)

/-- `_impedance`, utils.py:189-296.  `cal` gives the values of the calibrations. -/
def oneFreq (cal : κ → ℚ → Option ℂ) (data : SigSet ℂ κ) (freq : ℚ) (o : Opts σ) (heap : ℕ → σ) :
    Except Err Result × (ℕ → σ) :=
  match data.tags.getItem o.tagElec with
  | .error x => (.error x, heap)
  | .ok E =>
    match data.tags.getItem o.tagMag with
    | .error x => (.error x, heap)
    | .ok B =>
      match remoteChannels data o with
      | .error x => (.error x, heap)
      | .ok R =>
        let nr := (R.map List.length).getD 0
        match setCoeffs cal data freq o.nper o.overlap o.win with
        | .error _ => (.ok ⟨nans B.length E.length, [], nanErrors B.length E.length, nans B.length nr⟩, heap)
        | .ok (coeffs, w) =>
          match pick coeffs E with
          | .error x => (.error x, heap)
          | .ok e =>
            match pick coeffs B with
            | .error x => (.error x, heap)
            | .ok b =>
              let failed : Result := ⟨nans e.length b.length, [], nanErrors e.length b.length, nans b.length nr⟩
              match R with
              | none =>
                secondStage o (windows data w) e b .none (List.replicate b.length []) failed heap
              | some R =>
                match pick coeffs R with
                | .error x => (.error x, heap)
                | .ok br =>
                  match firstStage o b br heap with
                  | (.error x, heap) => (.error x, heap)
                  | (.ok none, heap) => (.ok failed, heap)
                  | (.ok (some (T, be, ivT)), heap) =>
                    secondStage o (windows data w) e be (.each (List.replicate e.length ivT))
                      (T.map (fun r => (List.ofFn r).map some)) failed heap

/-- The loop of `impedance`, utils.py:168-184: one result per frequency, in order. -/
def eachFreq (cal : κ → ℚ → Option ℂ) (data : SigSet ℂ κ) (o : Opts σ) : List ℚ → (ℕ → σ) →
    Except Err (List Result) × (ℕ → σ)
  | [], heap => (.ok [], heap)
  | f :: l, heap =>
    match oneFreq cal data f o heap with
    | (.error x, heap) => (.error x, heap)
    | (.ok r, heap) =>
      match eachFreq cal data o l heap with
      | (.error x, heap) => (.error x, heap)
      | (.ok rs, heap) => (.ok (r :: rs), heap)

/-- The shapes of the arrays of a result: the lengths of their rows. -/
def Result.shape (r : Result) : List ℕ × List ℕ × List ℕ :=
  (r.impedance.map List.length, r.error.map List.length, r.transferMag.map List.length)

/-- `np.array(l_z)`, `np.array(l_err)` and `np.array(l_T)`, utils.py:186: arrays of different shapes raise ValueError (numpy
1.24 and later; before that numpy may also give an array of arrays).  The stacked arrays are left as lists. -/
def stack (rs : List Result) : Except Err (List Result) :=
  match rs with
  | [] => .ok []
  | r :: l => if l.all (fun r' => decide (r'.shape = r.shape)) then .ok (r :: l) else .error .value

/-- `impedance`, utils.py:124-186. -/
def impedance (cal : κ → ℚ → Option ℂ) (data : SigSet ℂ κ) (o : Opts σ) (freqs : List ℚ) (heap : ℕ → σ) :
    Except Err (List Result) × (ℕ → σ) :=
  match eachFreq cal data o freqs heap with
  | (.error x, heap) => (.error x, heap)
  | (.ok rs, heap) => (stack rs, heap)

/-- `itertools.product(*ls)` -/
def product {β : Type _} : List (List β) → List (List β)
  | [] => [[]]
  | l :: ls => l.flatMap (fun a => (product ls).map (fun t => a :: t))

/-- `remote_combination`, utils.py:83-88. -/
def combinations (n : ℕ) (combine : Bool) : List (List (Option ℕ)) :=
  if combine then product ((List.range n).map (fun e => [none, some e]))
  else [(List.range n).map some]

/-- `[remote_names[e] for e in rindices if e is not None]`, utils.py:94. -/
def remoteTags (names : List String) (rindices : List (Option ℕ)) : List String :=
  rindices.filterMap (fun e => e.bind (fun i => names[i]?))

/-- The data for one combination and its options, utils.py:95-102. -/
def massData [One κ] (ord : SetOrder) (inv : Inventory ℂ κ) (remotes : List String) (o : Opts σ) :
    Except Err (SigSet ℂ κ × Opts σ) :=
  match inv.filter ord ["E", "B"] with
  | .error x => .error x
  | .ok rinv =>
    if remotes.isEmpty then
      match rinv.pack ord with
      | .error x => .error x
      | .ok data => .ok (data, { o with remote := none })
    else
      match inv.extractGroups ord [("Bremote", remotes)] with
      | .error x => .error x
      | .ok g =>
        match Inventory.pack ord (rinv ++ g) with
        | .error x => .error x
        | .ok data => .ok (data, { o with remote := some "Bremote" })

/-- The loop over the intervals, utils.py:104-113. -/
def massIntervals [One κ] (cal : κ → ℚ → Option ℂ) (freqs : List ℚ) (data : SigSet ℂ κ) (o : Opts σ) :
    List (ℚ × ℚ) → (ℕ → σ) → Except Err (List (List Result)) × (ℕ → σ)
  | [], heap => (.ok [], heap)
  | (a, b) :: l, heap =>
    match data.extractT a b with
    | .error x => (.error x, heap)
    | .ok rdata =>
      match impedance cal rdata o freqs heap with
      | (.error x, heap) => (.error x, heap)
      | (.ok r, heap) =>
        match massIntervals cal freqs data o l heap with
        | (.error x, heap) => (.error x, heap)
        | (.ok rs, heap) => (.ok (r :: rs), heap)

/-- The loop over the combinations, utils.py:90-119. -/
def massLoop [One κ] (cal : κ → ℚ → Option ℂ) (ord : SetOrder) (inv : Inventory ℂ κ) (names : List String)
    (freqs : List ℚ) (intervals : List (ℚ × ℚ)) (o : Opts σ) :
    List (List (Option ℕ)) → (ℕ → σ) → Except Err (List (List (List Result))) × (ℕ → σ)
  | [], heap => (.ok [], heap)
  | c :: l, heap =>
    match massData ord inv (remoteTags names c) o with
    | .error x => (.error x, heap)
    | .ok (data, o') =>
      match massIntervals cal freqs data o' intervals heap with
      | (.error x, heap) => (.error x, heap)
      | (.ok r, heap) =>
        match massLoop cal ord inv names freqs intervals o l heap with
        | (.error x, heap) => (.error x, heap)
        | (.ok rs, heap) => (.ok (r :: rs), heap)

/-- `impedance_mass_proc`, utils.py:61-121: the combinations, and for each of them and each interval the results for the
frequencies. -/
def massProc [One κ] (cal : κ → ℚ → Option ℂ) (ord : SetOrder) (inv : Inventory ℂ κ) (names : List String)
    (freqs : List ℚ) (intervals : List (ℚ × ℚ)) (o : Opts σ) (combine : Bool) (heap : ℕ → σ) :
    Except Err (List (List (Option ℕ)) × List (List (List Result))) × (ℕ → σ) :=
  match massLoop cal ord inv names freqs intervals o (combinations names.length combine) heap with
  | (.error x, heap) => (.error x, heap)
  | (.ok r, heap) => (.ok (combinations names.length combine, r), heap)

/-- The body of the loop of `prefilter_values`, utils.py:318-328, for one frequency: the values of the prefilter for each
electric channel, and the centre times.  `value` is `prefilter.value`.  The arguments `remote` and `real_pb` have no
effect. -/
def valuesOne (cal : κ → ℚ → Option ℂ) (data : SigSet ℂ κ) (nper overlap : ℚ) (win : Win) (tagElec tagMag : String)
    (value : (q : ℕ) → List ℂ → List (Fin q → ℂ) → Except Err (List Flt)) (freq : ℚ) :
    Except Err (List (List Flt) × List ℚ) :=
  match setCoeffs cal data freq nper overlap win with
  | .error x => .error x
  | .ok (coeffs, w) =>
    match data.tags.getItem tagElec with
    | .error x => .error x
    | .ok E =>
      match pick coeffs E with
      | .error x => .error x
      | .ok e =>
        match data.tags.getItem tagMag with
        | .error x => .error x
        | .ok B =>
          match pick coeffs B with
          | .error x => .error x
          | .ok b =>
            match mapE (fun line => value b.length line (rows b)) e with
            | .error x => .error x
            | .ok v => .ok (v, (windows data w).flatMap (fun t =>
                (List.range t.2.1).map (fun i : ℕ => ((t.2.2.2 : ℚ) * i + 1 / 2 * t.2.2.1) / t.1.1 + t.1.2)))

/-- `prefilter_values`, utils.py:299-330. -/
def prefilterValues (cal : κ → ℚ → Option ℂ) (data : SigSet ℂ κ) (nper overlap : ℚ) (win : Win) (tagElec tagMag : String)
    (value : (q : ℕ) → List ℂ → List (Fin q → ℂ) → Except Err (List Flt)) (freqs : List ℚ) :
    Except Err (List (List (List Flt) × List ℚ)) :=
  mapE (valuesOne cal data nper overlap win tagElec tagMag value) freqs

/-- `impedance` as called with a `fourier_opts` argument, utils.py:161-164. -/
def impedanceCall (slepian4 : Win) (f : FourierOpts) (cal : κ → ℚ → Option ℂ) (data : SigSet ℂ κ) (o : Opts σ)
    (freqs : List ℚ) (heap : ℕ → σ) : Except Err (List Result) × (ℕ → σ) :=
  let g := f.fill slepian4
  impedance cal data { o with nper := g.1, overlap := g.2.1, win := g.2.2 } freqs heap

/-- `prefilter_values` as called with a `fourier_opts` argument, utils.py:307-309. -/
def valuesCall (slepian4 : Win) (f : FourierOpts) (cal : κ → ℚ → Option ℂ) (data : SigSet ℂ κ) (tagElec tagMag : String)
    (value : (q : ℕ) → List ℂ → List (Fin q → ℂ) → Except Err (List Flt)) (freqs : List ℚ) :
    Except Err (List (List (List Flt) × List ℚ)) :=
  let g := f.fill slepian4
  prefilterValues cal data g.1 g.2.1 g.2.2 tagElec tagMag value freqs

/-- `Bremote`, utils.py:351-353: the channels of the remotes of a combination, one after the other. -/
def remoteUnion (t : Tags) (names : List String) (c : List (Option ℕ)) : Except Err (List ℕ) :=
  match mapE t.getItem (remoteTags names c) with
  | .error x => .error x
  | .ok l => .ok l.flatten

/-- `if Bremote: data.tags['Bremote'] = Bremote`, utils.py:356-358: the caller's tags are changed. -/
def setRemote (t : Tags) (br : List ℕ) : Except Err Tags :=
  if br.isEmpty then .ok t else t.setItem "Bremote" (Tags.toVal br)

/-- The loop over the intervals, utils.py:362-368.  The option `remote` has no effect in `prefilter_values`. -/
def valuesIntervals [One κ] (slepian4 : Win) (cal : κ → ℚ → Option ℂ) (data : SigSet ℂ κ)
    (value : (q : ℕ) → List ℂ → List (Fin q → ℂ) → Except Err (List Flt)) (freqs : List ℚ) (intervals : List (ℚ × ℚ)) :
    Except Err (List (List (List (List Flt) × List ℚ))) :=
  mapE (fun i : ℚ × ℚ => match data.extractT i.1 i.2 with
    | .error x => .error x
    | .ok rdata => valuesCall slepian4 {} cal rdata "E" "B" value freqs) intervals

/-- The loop over the combinations, utils.py:350-371, with the tags of the caller's data, which are changed in
place. -/
def valuesLoop [One κ] (slepian4 : Win) (cal : κ → ℚ → Option ℂ) (runs : List (Sync ℂ κ)) (names : List String)
    (value : (q : ℕ) → List ℂ → List (Fin q → ℂ) → Except Err (List Flt)) (freqs : List ℚ) (intervals : List (ℚ × ℚ)) :
    List (List (Option ℕ)) → Tags → Except Err (List (List (List (List (List Flt) × List ℚ)))) × Tags
  | [], t => (.ok [], t)
  | c :: l, t =>
    match remoteUnion t names c with
    | .error x => (.error x, t)
    | .ok br =>
      match setRemote t br with
      | .error x => (.error x, t)
      | .ok t =>
        match valuesIntervals slepian4 cal ⟨runs, t⟩ value freqs intervals with
        | .error x => (.error x, t)
        | .ok r =>
          match valuesLoop slepian4 cal runs names value freqs intervals l t with
          | (.error x, t) => (.error x, t)
          | (.ok rs, t) => (.ok (r :: rs), t)

/-- `prefilter_values_mass_proc`, utils.py:333-373: for each combination and interval the values and times, and the
tags of the caller's data afterwards.  The attributes `data.tags.E` and `data.tags.B` have to exist but are not used. -/
def valuesMass [One κ] (slepian4 : Win) (cal : κ → ℚ → Option ℂ) (data : SigSet ℂ κ) (names : List String)
    (value : (q : ℕ) → List ℂ → List (Fin q → ℂ) → Except Err (List Flt)) (freqs : List ℚ) (intervals : List (ℚ × ℚ)) :
    Except Err (List (List (List (List (List Flt) × List ℚ)))) × Tags :=
  match data.tags.getAttr "E" with
  | .error x => (.error x, data.tags)
  | .ok _ =>
    match data.tags.getAttr "B" with
    | .error x => (.error x, data.tags)
    | .ok _ => valuesLoop slepian4 cal data.runs names value freqs intervals (combinations names.length true) data.tags

end

end Razorback.Impedance
