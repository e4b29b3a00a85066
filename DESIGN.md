# Formal model of BRGM/razorback — design

Properties: `properties.jsonl` (generated by `tools/gen_properties.py`).  Claims: `MANIFEST.json`.
Lean project: `lean/` (`lake build`).  Mutation log: `seeded/LOG.jsonl`.

## Layout

* `lean/Verif/Model/*.lean` – executable (or, for real/complex analysis, noncomputable) model, function by
  function; every definition cites the file and lines of `/repo` it models and lists its simplifications.
* `lean/Verif/Spec/*.lean`  – small declarative specifications, independent of the model's helpers.
* `lean/Verif/Lemmas/*.lean` – helper lemmas.
* `lean/Verif/Props/*.lean` – property theorems only (`Cnn_…`), each next to an `example` showing that a
  concrete non-trivial case meets the hypotheses.

## Modelling conventions

* Exceptions are values: `Except Err α`, `Err` naming the Python exception class.
* Python floats used as times/rates are rationals `ℚ`.  Every function that computes times takes a rounding
  (`class Rnd`, applied after each floating point operation in the order of the source).  The instance is exact
  arithmetic (`Rnd.exact`), in which C01–C81 are stated; the structural properties (C12–C18, C28, `C26_samples`,
  `C27_any_rounding`, C31, C32, C85, C87, C88) are stated for every rounding function.  `Rnd.double` rounds each operation to the nearest double,
  ties to even, and C82–C84, C86 compare the two.  Division by a zero `float` is `Err.zeroDiv`.  Sample values are an arbitrary type `α`; calibrations are `const c` or an
  arbitrary function symbol.
* Real/complex numerical code (weights, least squares, Fourier) is modelled over `ℝ`/`ℂ` (or a generic
  field with star), exactly; where NaN/inf decide control flow they are explicit constructors.
* dicts are insertion-ordered association lists; sets whose iteration order is hash-dependent are lists
  quantified up to permutation.
* Loops are folds / structural recursion; generators are lists; mutation returns the new state.
* Callbacks (weight functions, prefilters, windows, calibrations, estimators) are arbitrary parameters.

## Trusted base

* Lean 4.33.0 kernel; no `sorry`, no own axioms, no `native_decide`/`bv_decide`.
* Axioms (`python3 tools/axioms.py` prints them theorem by theorem): `C63_no_combination` none; `C03_tag_hides_method`,
  `C58_none`, `C67_negative_step_raises`, `C72_absolute`, `C72_exists`, `C76_plugin_first` only `propext`; `C05_pattern_reading`,
  `C07_construction_fields`, `C07_construction_iff`, `C07_defaults`, `C07_wellformed`, `C42_length`, `C63_order`, `C70_layout`, `C76_text`
  `propext` and `Quot.sound`; every other property theorem `propext`, `Classical.choice` and `Quot.sound`.
* The reading of the Python source (the model is a manual translation, not run against the code).
* The documented behaviour of numpy/scipy/dask/stdlib primitives that the code calls, as written in each
  model definition (`np.delete`, `np.isclose`, `np.arange(n)[idx]`, `fnmatch`, `struct`, …).
* Floating point: rounding of times and of window lengths is modelled (53 bit significand, round to nearest even,
  unbounded exponent: no overflow, no subnormal numbers); rounding of samples and Fourier coefficients is modelled for
  `time_to_freq`, estimations and the impedance (with or without remote) by bounds on the error of each operation
  (`Model/Approx`, `Model/ApproxWeights`, `Model/ApproxMEst`, `Model/ApproxImp`, C125, C126, C129; the backward stability of `linalg.solve` is assumed there); elsewhere samples, coefficients, estimates and
  weights are exact reals or complex numbers.
* Not modelled: dask scheduling and laziness (a dask array is the list of its values), warnings, performance.  Object identity and
  sharing are modelled for signal sets, Tags, inventories (`Model/Heap.lean`, C87) and weight objects (heaps of memories; threads in
  `Model/Threads.lean`, C101), not for arrays of samples.

### What is modelled, file by file

| file of `/repo/src/razorback` | modelled, in `lean/Verif/Model/` | not modelled |
|---|---|---|
| `signalset.py` | `Tags` (Tags, Fnmatch for the patterns), `SyncSignal` (Sync), `SignalSet` (SigSet), `fourier_coefficients` (Fourier), `Inventory` (Inventory), operators between all types (Operators), objects and aliasing (Heap), `__repr__`/`__str__` of Tags and SignalSet (Text, Dates), `SyncSignal.__str__` (Dates), times in double precision (Rounding) | `__repr__` of SyncSignal and Inventory, conversion of numbers to text |
| `fourier_transform.py` | all functions (Fourier), `discrete_window` also in double precision (Rounding), `time_to_freq` with rounding errors (Approx) | scipy's `dpss` (an arbitrary list of values), `compute=False` (laziness) |
| `mestimator.py` | `transfer_function`, `transfer_error`, `chain_m_estimate`, `m_estimate`, `wlse` and helpers (MEst), the generator as such (Chain), integer invalid indices (Negative), interleaved threads (Threads), messages (Messages), `wlse` with rounding errors (Approx), estimations with rounding errors (ApproxMEst), `transfer_error` with rounding errors (ApproxImp) | |
| `weights.py` | `Huber`, `Thomson`, `BoundedInfluenceStep`, `bi_weights`, `mad_scale` (Weights), `Huber`, `Thomson`, `BoundedInfluenceStep`, `mad_scale` with rounding errors (ApproxWeights), `Weights` and texts (WeightNames) | `m_expexp`, `vnorm` with other norms (both unused) |
| `prefilters.py` | `CoefficientOfDeterminationFilter` (Prefilter), with rounding errors (ApproxImp) | – |
| `utils.py` | `impedance`, `impedance_mass_proc`, `prefilter_values`, `prefilter_values_mass_proc` (Impedance), `apply_prefilter` (Prefilter), `transfer_function_real_prob` (RealProb), `tags_from_path` (PathTags), what is printed (Messages), `_impedance` with rounding errors (Approx, ApproxImp) | `compute_prefilter` (raises TypeError under Python 3 before doing anything) |
| `calibrations.py` | `metronix`, `phoenix` with their text formats (Calib) | the conversion of words to numbers (`float`, an arbitrary partial function) |
| `io/ats.py` | headers, samples, `load_ats`, `load_ats_from` (Ats) | header fields which no function of the package uses are only read |
| `io/binary_file_array.py` | indexing, slices, reading (FileArray) | `DummyArrayProxy`, `dask.array.from_array` beyond its chunks |
| `data.py`, `cli.py` | all paths and commands (DataPath), on a model of a file system | click's parsing of the command line, `rzb version` |
| `errors.py` | text of `NonConvergence` (Messages) | – |

## Plan per property

| id | model | proof |
|----|-------|-------|
| C01 | `Tags` as (n, assoc list), op language `TagOp`, `step` | invariant by induction over op lists |
| C02 | same | refinement to `String → Option (List ℕ)` + order lemma |
| C03 | `getAttr/setAttr/delAttr` with method-name table | case analysis |
| C04 | `Tags.new none` | fold of max |
| C05 | fnmatch tokeniser + matcher on `List Char` | matcher ⇔ inductive matching relation |
| C06 | `Tags.eq` on assoc lists | equivalence laws for key-unique lists |
| C07 | `Sync.new` | iff by unfolding |
| C08 | `timeToIndex`, `indexToTime` over ℚ | floor/ceil lemmas |
| C09 | `Sync.extractT` | list slice = filter by time predicate |
| C10 | `Sync.extractI`, Python slices, `strict` and `include_last` | slice algebra; the lenient mode clips the indices, the start does not follow below -size |
| C11 | `Sync.select` | pointwise |
| C12 | all `SigSet` operations as an expression language | invariant by induction over expressions |
| C13 | `SigSet.new` | sorted permutation uniqueness |
| C14 | `reorder` | inversion-map lemma |
| C15 | `join` | permutation of run headers |
| C16 | `selectChannels` | sorted-dedup index map |
| C17 | same | composition |
| C18 | `numpyIndex` (int, list, slice, mask) | pointwise |
| C19 | `SigSet.extractT` | from C09 |
| C20 | `exclude` branch | from C09 + ordering |
| C21 | both | window intersection |
| C22–C25 | `merge`, `common` (rec) | interval sweep invariant; alignment arithmetic |
| C26–C27 | `mergeConsecutive`, `groupIndices` | refinement to `coalesce` spec |
| C28 | `getItem`, `getAttr` | dispatch |
| C29 | `setTags` | iff |
| C30 | `Inventory` op language | refinement to list |
| C31–C36 | `Inventory` operations, enumeration order as a parameter | element-wise / permutation invariance / tracing |
| C79 | `Inventory.pack` without multi-channel names | which selections are packed, which collide |
| C37 | `discreteWindow` over ℚ | floor/ceil arithmetic |
| C38–C41 | `timeToFreq`, generic kernel, instance over ℂ | list indexing, sums, geometric sum |
| C42 | `slepian` with abstract `dpss` | interpolation bounds |
| C77 | `timeToFreqOld`, `slidingWindow`, `ft` | same window sums |
| C43 | `mergeInvalid`, `npDelete` | deletion/complement algebra |
| C44–C45 | `wlse` on lists of rows over a star field | matrix algebra |
| C46–C48 | `mEstimate` loop, `chain` with arbitrary weight callback | loop invariants |
| C49–C50 | `transferFunction`, `transferError` | rowwise, scaling; value of an error against any left inverse of the matrix of scalar products, exact success condition |
| C51–C55 | weights over extended reals (nan, ±inf) | analysis of min/exp; sorting lemmas for medians |
| C78 | `bis` (bounded influence step), `leverage` | quadratic forms, normal equations, limits |
| C56–C58 | COD filter blocks, `applyPrefilter` | div/mod partition; Pythagoras |
| C59–C63 | `oneFreq`, `impedance`, `massProc`: the real stages (Fourier, prefilter, M-estimation) composed | case analysis over failures, exact least squares, induction on frequencies and intervals |
| C80–C81 | `valuesOne`, `prefilterValues`, `valuesMass`: the caller's tags threaded as a state | positions of windows, independence of the tag `Bremote` |
| C64–C65 | `tagsFromPath`: normalisation, pattern tokeniser, backtracking matcher with captures, templates | soundness and completeness against a matching relation (`Spec/PathTags`) |
| C66 | `realProb` on top of `transferFunction` over ℝ | normal equations of the interleaved rows are real and imaginary parts of the complex ones |
| C67 | `FileArr.getItem` on a byte file, successive slices composed, read by `compute` | positions of a slice spelled out in `Spec.FileArray`, pointwise |
| C68 | any cutting of the length into chunks | concatenation of reads |
| C69 | `open1D`, short reads | reads of `fromfile` pointwise |
| C70 | `struct.unpack_from` with native 64-bit little-endian alignment, over the whole format string | layout table in `Spec.Ats`, computed once by the kernel, lifted to every file; encode/decode round trip |
| C71 | `readSample`, `loadAts` | composition of C67–C70 with the construction of runs; samples read pointwise |
| C72 | a file system as a function from locations, `pathlib` paths, `getDataFile` | resolution of paths without `..` in a tree |
| C73 | lines, marks, sections, `np.loadtxt`, version of the sensor | sections, words and rows described by relations (`Spec.Calib`), shown equivalent to the parser |
| C74 | `interp1d` (sort, search, clip), the low frequency formula | neighbours in a strictly sorted list; `exp`/`arg` from Mathlib |
| C75 | `phoenix` | as C73, C74 |
| C76 | `mkdir(parents=True)`, `path_action`, plugin dictionary | induction on the path; the new tree described pointwise |
| C82 | `Rnd.double`, `fl`; all time computations of `Sync` and `SigSet` parametrised by the rounding; `Session`: sets built in doubles | doubles are ticks; sums, differences and quotients by powers of two stay ticks; induction on sessions |
| C83 | same | error bounds of each rounding added up; a gap of ticks of 2^-22 is away from 1 ms |
| C84 | `discreteWindow` with rounding | error bounds, monotonicity of the nearest double |
| C85 | all time computations with an arbitrary rounding function | invariants of C12–C18 for any rounding; blocks followed through `extract_t`, `exclude`, `merge` |
| C86 | `SigSet.merge` at `Rnd.double` | C85 blocks with the error bounds of C83; offsets are integers, so less than one period apart on a common clock is equal |
| C87 | objects by address (`Model/Heap.lean`): `Tags`, `SignalSet`, `Inventory` objects, programs of statements | invariant over all programs: each `SignalSet` has a `Tags` object that no other has; frame lemma per statement, then induction on programs |
| C88 | `Inventory.pack`, `extractGroups` with an arbitrary rounding function | pieces of channels followed through selection, join, merge (C85) and fusion of runs; no hypothesis on starts or sizes |
| C89 | `oneFreq`, `impedance` on two sets over the same clock | coefficients are linear in the physical samples; each step of the iteration is followed for converted outputs and inputs (weighted least squares, residuals, stopping test, weights); library weights and prefilter proved unit-free |
| C90 | same, and `transferFunction` | same lemmas for an invertible matrix; the predicted magnetic field does not depend on the remote axes |
| C91 | `oneFreq` from the samples | linearity of the coefficients composed with C62 |
| C92 | `Chain.next`: the generator step by step; programs are lists of actions over several generators and one heap of weight memories | simulation: each answer is independent of the heap (C53_resets); refinement of `chainLoop` by induction over the weightings; witness for concurrent calls |
| C93 | `Text.tagsRepr`, `tagsBlock`, `signalSetRepr` as lists of characters (dates and numbers of the run lines not modelled) | the texts are uniquely decodable (cut at '=' and ')'); greedy breaking into lines by induction; witnesses for '=' and '%' in names |
| C94 | the two stages of `oneFreq` with `weights = [none]` and no prefilter as products of matrices (`Lemmas/Remote`) | first stage `T = b rᴴ (r rᴴ)⁻¹`, second `Z = e ĥᴴ (ĥ ĥᴴ)⁻¹` with `ĥ = T r`; `b ĥᴴ = ĥ ĥᴴ`; `T` is invertible when square |
| C95 | the operations of `Sync`, `SigSet`, `Inventory`; `Recode` (Spec) changes samples, calibrations, origin and unit | commutation of each function with the change, errors included, function by function; witness for the unit and `merge_consecutive_runs` |
| C96 | `setCoeffs`, `impedance`, `massProc`, `prefilterValues`, `valuesMass` | only quotients frequency / rate and differences of times occur; commutation through the loops |
| C97 | `transferFunction`, `impedance`, library weights, `coeffDetermination` | every step of the estimation commutes with turning the windows and with conjugation (one ring homomorphism for both); weight functions as an assumption `Alike`, proved of all library weights |
| C98 | `transferFunction`, `impedance` | the same lemmas with the windows listed in the order of a permutation; sets: the windows of permuted runs are permuted windows |
| C99 | `SigSet.new`, `SigSet.reorder`, `SigSet.join` | the renumbering as a finite relation read off the tags of both sets; exact success condition and exception of `SignalSet(tags, set)` and `join` |
| C100 | `loop`, `thomson`, `huber`; `loss`, `misfit` (Spec) | the tangent inequality rho(y) <= rho(x) + W(x) (y^2 - x^2)/2 for a weight that does not increase; weighted least squares minimises the quadratic bound; induction over passes |
| C101 | `Threads`: the estimations as computations suspended at each call of a weight object | simulation of the sequential model, then invariance of each thread under steps of the others; witness with a shared Thomson object |
| C102 | the operations of C20–C27, C99 (no new model); `SameSet` in `Spec/Laws` | runs of the results are strictly ordered in time and determined by the choices of source runs (`merge_runs`, `join_sets`), so two results with corresponding runs correspond in order; witness for the converse of grouping |
| C103 | `impedance`, `prefilterValues` of Model/Impedance (no new model); `SameFor`, `SameKnown` in `Spec/SameFor` | the Fourier step acts channel by channel with parameters that depend on the clock only, so picked coefficients coincide; corollaries from C16, C102; witness for unknown calibrations of unused channels |
| C104 | the estimation loop of C36-C47 (no new model); `rejectionSize` in `Spec/Descent` | a median lies between bounds of more than half of the values (counting); the Huber weight times the size is capped; the Thomson weight compared with eps solved for the size, with the chain of passes of the stage |
| C105 | `timeToFreq`, `fourierCoefficients` (no new model); `tones` in the Props file | each coefficient is a sum over its window; windows of a part beginning at a window are windows of the whole; triangle inequality; linearity and orthogonality (C55 to C60) |
| C106 | `Model/Messages`: the texts of the exceptions of `chain_m_estimate` and the lines printed by `_impedance`, as functions following the same branches; `%g`/`%.1f` formatting not modelled | the text is cut at the characters that no number contains; case analysis of the two stages with and without `silent_fail` |
| C107 | `Model/WeightNames`: constructors and texts of the weight objects; the conversion `%g` is a parameter | the texts form a prefix code: a text is cut at the parentheses and commas that the texts of numbers lack |
| C108 | `Model/Operators`: the dispatch of `\|`, `&`, `+` on operands of all types | the sort of the runs is stable, so that sorting a part first changes nothing; a part of runs that do not overlap does not overlap |
| C109 | `Inventory.pack` with permuted inventories and two enumeration orders | groups are a sorted function of the set of holders; congruence of join, merge and fusing for sets equal up to numbering; success of join is symmetric since all channels are named (a surjection between finite sets of the same size is a bijection) |
| C110 | `transfer_function` with a concatenation of weightings against two chained calls | the chain only depends on what is left of the samples; merging the merged list with the later ones gives the same positions; success of a call characterised output by output |
| C111 | `Inventory.extractGroups`, `Impedance.massProc` with permuted inventories and two enumeration orders | inventories alike up to numbering and order are preserved by choosing channels, choosing runs, packing, naming groups; extraction in time and impedance do not see the numbering when all channels are named |
| C112 | `Inventory.pack` (join, merge, fusion) | the signal set of a group has the runs of its holders one for one; runs lasting over a common interval give one choice of overlapping runs, hence a merged run; converse from the provenance of merged runs; exact times from exact gaps |
| C113 | `load_ats`, `SignalSet`, `Inventory.pack`, `impedance` composed | every sample of the packed set is one of the inventory at the same time, rate, tag and position (C34), with the calibration of this channel; then exactness from samples (C91); for files the samples and calibrations are those of C71 |
| C114 | `lse`, `m_estimate`, `transfer_function`, `impedance` on exact data | the normal equations have the exact coefficients as their unique solution whatever the weights; the first residual is zero, hence (induction on the passes) the relative change is always 0/0; carried along the chain of estimations and through `oneFreq` |
| C115 | `impedance_mass_proc` from the recordings | each step (filter, extract_groups, pack, extract_t) produces sets whose every value is the value recorded in the inventory for the same tag, number and instant (`From`, composed by transitivity); the samplewise relation is carried to the physical samples of the packed set, then C114 for the estimation without remote, and the instrumental normal equations (C94) with one |
| C116 | `Inventory.pack`, `merge_consecutive_runs` | a list of separated runs is recovered from the set of its (rate, instant) pairs: sort by time, cut where they do not follow (`List.splitBy_flatten`); channels then agree sample by sample since an instant lies in one run; for `pack`, C112 gives the samples, fused runs are separated, and two runs before fusing that touch would be one by completeness |
| C117 | `discrete_window`, `time_to_freq`, `fourier_coefficients`, selections, `join`, `merge`, `extract_t`, `transfer_function`, real formulation, `BoundedInfluenceStep` | case analysis on the model with exact kinds; the first failing run decides (`mapE_first`); construction of a set from runs that fit the tags raises nothing but AssertionError (`build_only_assertion`), which with C99's renumbering lemma gives the kinds of `join` |
| C118 | `transfer_function` by least squares, `transfer_error`; noise as a random variable on any probability space (Mathlib's integral), white in the sense of its means and products only | estimate and residual as matrices applied to the noise; trace of the projection on the complement of the inputs; Gauss and Markov by orthogonality; with invalid samples, one input, direct computation (Props/Unbiased.lean) |
| C119 | the loop of `m_estimate` and what calls it, up to `impedance`, with two values of `maxit` or of `tol` | induction on the number of iterations left; congruence through the chain of weightings, the outputs, the stages and the frequencies; with `silent_fail` by independence of the frequencies (Props/Iterations.lean) |
| C120 | `transfer_function` with integer invalid indices (Model/Negative.lean), only the first step of the chain and the merging see negative ones | equality with the model of the other properties on natural numbers; simulation of the chain; exact set reported by `merge_invalid_indices` on the given list and an empty one (Props/Negative.lean) |
| C121 | `transfer_function` by least squares on the first samples of a sequence; `impedance` with remote reference on a sequence of signal sets; no rate of convergence, robust weights not covered | normal equations divided by the number of samples, continuity of the inverse of a matrix; strong law of large numbers (Mathlib); for remote reference, both stages from `C94_instruments`, the limit of the second normal matrix being positive definite (Props/Consistency.lean) |
| C122 | `time_to_freq`, `transfer_function` by least squares, `transfer_error` on random recordings (noise white in the time domain, any law) | mean products of combinations of white noise; the coefficients of noisy recordings are noisy coefficients; `C118_unbiased`; one input with noise of any covariance by Pythagoras; sum over pairs of windows for the pure tone (Props/Spectral.lean) |
| C123 | `impedance` at one frequency (`oneFreq`) on random signal sets: several runs and rates, calibrations, tags, windows (least squares, no remote, no prefilter) | the list of all windows of a set with their places; the coefficients of noisy sets are noisy coefficients in physical units; sums of noise over disjoint windows are white; `C118_unbiased` (Props/Recordings.lean) |
| C124 | `Model/Dates`: `datetime.utcfromtimestamp` of whole seconds (standard library: search of the year, then of the month), its text, `SignalSet.__str__`, `SyncSignal.__str__`; `'%10.5g'` is a parameter; the calendar itself, second by second, in `Spec/Calendar` | number of days of the first years in closed form; the days of a year by cases; each second increases the text; rows read back from the end of the text |
| C125 | `time_to_freq` as a relation (Model/Approx): each operation off by a relative error of at most `u`, sums in any order and grouping; no overflow, underflow or NaN; complex operations are taken as one operation (2^-50 covers them in double precision) | induction over the tree of additions; distance of exponentials of nearby angles; windows fit because rounding keeps signs (Lemmas/Approx, Props/Approx) |
| C126 | `wlse`, `fourier_coefficients` of signals and sets and `_impedance` (no weight function or prefilter; with or without remote, `FImpedance`, `FRemote`) as relations (Model/Approx), every operation off by at most `u`, `linalg.solve` backward stable; the exact coefficients are in Spec/Approx | perturbation of linear systems in the norm of row sums; bounds of C125; K and the Fourier errors are explicit; limit by continuity of the bounds; with a remote the error of the prediction is a relative error of the inputs of the second stage (Lemmas/ApproxLS, Props/ApproxLS, Props/ApproxRemote) |
| C127 | `m_estimate`, `chain_m_estimate`, `transfer_function` with ever larger `maxit`; `Settles`, `PassFits` in Spec/Converge | majorisation: every pass lowers the loss by at least the weighted square of its step (C100), so steps tend to zero, and the weighted sum of squares settles by compactness of the bounded estimates and continuity; an endless run is excluded unless the sum is zero (Lemmas/Converge, Props/Converge); the Huber cycle is computed exactly, by induction on the iterations left (Props/HuberCycle) |
| C128 | Limits along an arbitrary filter of lists of data (`Lemmas/Stable.lean`): the median is 1-Lipschitz, so the scale is continuous; weights of Huber and Thomson are continuous where the scale is positive, which is where a pass succeeds (`C128_library`: this covers all weights of the library); the rejected set is locally constant when no weight is at the limit; weighted least squares is continuous where independent; induction over the passes, the chain and the outputs. `NoCloseCall` (`Spec/Stable.lean`) says over the passes of C44 that no comparison is an equality. For `impedance` the Fourier coefficients are fixed linear forms of the samples (C89), both stages and the prediction from the remote are continuous, and the tolerance on the samples comes from a sequence of counterexamples; the errors of the result are continuous where they are numbers (`errorRow_number` gives their formula), and the filter by coefficients of determination is covered when no coefficient is at a limit (`ClearFilter` in `Spec/StableStage.lean`, `call_stable`); other prefilters are not. Bounded influence steps (`stable_bis`): the inner weights are continuous, leverages are where the previous weights determine the estimate, and the influence function is continuous on the nonnegative reals, its value 0 at 0 included; the weights and factors it remembers tend to those of the limit |
| C129 | `m_estimate`, `chain_m_estimate`, `transfer_function` as relations (Model/ApproxMEst): every operation off by a relative error of at most `u`, sums in any order, `linalg.solve` backward stable; the weights of the library are rounded operation by operation, with medians, scale and the scale Thomson remembers, and for a bounded influence step with the leverages (each column of `linalg.solve` backward stable), the sum of the weights and the factors it remembers (Model/ApproxWeights); the rounding inside a weight function of the user is summed up by a relative error of each weight (Props/StableUser for C128, Props/RoundUser, Props/RoundUserStable: elementwise functions and bounded influence steps over them, Spec/UserWeights) | limits along an arbitrary filter as in C128, whose continuity of weights applies to rounded residuals because no weight object of the library looks at the outputs themselves (`IgnoresData`); rounded sums, residuals, normal equations and energies tend to the exact ones (Lemmas/StableRound), rounded weights tend to the exact ones (Props/RoundWeights, Props/RoundBis; rounded leverages do not turn negative, as the quadratic form is bounded below, Props/RoundLev, so that the logarithm of a leverage of 0 is still a number or minus infinity), comparisons are decided in the end (Props/StableRound); `NoCloseCall` and `ClearChain` are those of C128; the exact run satisfies the relations (Props/RoundExact). `_impedance` (Model/ApproxImp: the filter by coefficients of determination with rounding, prefilters of the user exactly from rounded coefficients; `transfer_error` with rounding, `linalg.inv` backward stable column by column; times left out): rounded coefficients of recordings which tend to others tend to the exact ones (by the bound of C126 and the stability of C128), coefficients of determination tend block by block (Props/RoundPre; those of exactly zero may become NaN), errors tend where they are numbers (Props/RoundError), then stage by stage (Props/StableRoundImp, Props/RoundImpExact) |

## Findings recorded by the theorems

Behaviours of the code that differ from what a user would expect; each is stated (with a witness or as a
hypothesis of the positive theorem) in the Props file of its property.

* Tags: attribute access, `indices`, `keys`, `items`, `get` are looked up among the tags first: a tag called
  `indices`/`keys`/`items`/`n`/`self` breaks the `SignalSet` operations (`Plain` excludes these names from the
  positive theorems), one called `get` makes `Inventory.select_channels` raise TypeError (`C31_get_hidden`).
* `repr` of Tags is ambiguous when a name contains '=' (`C93_ambiguous`); `repr` of a signal set raises when one contains `%s`
  (`C93_percent_raises`).
* `transfer_function(..., invalid_idx=array)` with a one-dimensional numpy array, as documented, always raises: numpy scalars have
  `__getitem__`, so the array is taken for a list of lists (`C49_array_raises`); a list of Python integers works (`C49_flat`).
* `extract_i` with `strict=False` and a first index below `-size` gives the right samples at wrong times, too early
  (`C10_extract_i_lenient`); with `include_last` the last index -1 gives no sample (`C10_extract_i_include_last`).
* `transfer_error` divides a residual over all the samples by the number of valid ones: with invalid samples the error is too large in the
  mean for inputs of constant modulus (`C118_reports_more`), too small when the invalid samples have large inputs (`C118_invalid` and the
  example beside it); without invalid samples it is right (`C118_unbiased`).
* The windows overlap by 71 % by default, so that the noise of their Fourier coefficients is correlated (`C122_correlated`), while `transfer_error`
  counts them as independent: the reported error is too small, for a pure tone by an explicit factor (`C122_too_small`); without overlap it is
  right (`C122_estimate`).
* A calibration without value at a frequency makes the result NaN there even if its channel is not used by the estimation
  (`C103_unnamed_matters`).
* `a.merge(b).merge(c)` may succeed where `a.merge(b, c)` raises AssertionError: an interval dropped for different rates in the first
  step is still checked for two samples in the second form (`C102_merge_group_counterexample`).
* The scale of a stage is zero, and its weights then zero or NaN, as soon as more than half of the residuals have the same size
  (`C104_scale_zero`).
* Weight objects with a memory cannot be shared by estimations running concurrently (`C92_not_concurrent`, `C101_shared`: one of two
  threads sharing a Thomson object raises LinAlgError); interleaving
  the generators of `chain_m_estimate` is harmless.
* Two runs with the same start, one of a single sample, are accepted or rejected depending on argument order.
* A `SignalSet` without runs re-infers its range of channels from the tags.
* `extract_t(exclude=True)` raises KeyError when nothing remains before the window, something after it, and the
  last channel has no tag (`C20_untagged_raises`); `merge_consecutive_runs` raises when nothing is to be merged
  and the last channel has no tag (`C26_untagged_raises`), so it is not idempotent in general.
* `merge` raises on overlaps of fewer than two samples and on operands without run; a single-sample run strictly
  inside an overlap makes it explore a zero-length interval and raise.
* `merge_consecutive_runs` silently replaces the calibrations of the fused runs by those of the first; gaps that
  are equal to a period only within the tolerance shift times (`C27_shift`) and may even make a fused run overlap
  the next one (AssertionError).
* The tolerance of `merge_consecutive_runs` (np.isclose) is absolute: expressed in a unit of 10^9 s, runs three samples of one
  second apart are fused (`C95_unit_matters`); so are, in seconds, runs sampled fast enough.
* `SignalSet(dict, set)` raises TypeError unless the values of the dict are tuples, although integers and lists are accepted
  with signals (`C99_dict_raises`).
* `join` may succeed one way and fail the other (`a.join(b)` / `b.join(a)`).
* `Inventory.pack`: the channel numbering (not the content by tag) follows the hash order of the rates;
  `Inventory.merge` on sets without any tag raises IndexError; `extract_groups` with an empty list of old tags
  raises (`C36_missing_raises`), and old tags are used both as shell patterns and as exact names.
* `pack(keep_multi_tags=False)` raises as soon as two names designate the same single channel (`C79_synonyms_raise`).
* The errors of a fit with as many windows as inputs (the residuals are zero) or with all windows rejected are NaN when the fit is
  exact, not zero (`C50_exact_fit_nan`), and infinite otherwise (`C50_infinite`).
* A robust estimation raises on outputs which are exact combinations of the inputs (an all-zero electric channel is one): the
  relative change of the residual is 0/0, which is never below the tolerance (`C114_never_converges`, `C114_robust_fails`).
* Huber weights with a zero scale (more than half of the residuals of equal size) are 0 or NaN (`C51_zero_scale`).
* The scale of the Huber weights is computed again in each pass: there is one loss per pass, not one for the call (`C100_huber`).
* A bounded influence factor may exceed one (`C78_exceeds_one`), so the step may increase a weight.
* `np.linalg.solve` on stacked right hand sides and `np.array(..., copy=False)` are modelled as in numpy 1.x.
* `impedance`: a failing Fourier step gives NaN whatever `silent_fail`, and of the transposed shape (magnetic × electric)
  (`C61_fourier_failure`, `C59_unusable`); a failing estimation gives NaN of shape electric × magnetic
  (`C61_never_raises`, `C61_silent`); `real_pb=True` never gives a number (`C61_real_pb`: the two estimators return
  different numbers of values).
* With different numbers of electric and magnetic channels, `impedance` raises ValueError and returns nothing if some of the
  frequencies are unusable and some are not, `silent_fail` or not: the two NaN shapes above cannot be stacked
  (`C61_mixed_raises`).
* Huber's weights can oscillate for ever: on the samples 0, 9, -4 of a constant `transfer_function` with the default `mest_weights` raises
  NonConvergence for every `maxit` (`C127_default`); and an estimation that fits its samples exactly never converges, since a weighted sum of
  squares of zero has no small relative change (`C127_exact`).
* A failing Fourier step leaves no trace in what is printed (`C106_fourier_unreported`); the text of NonConvergence never names
  the weight function, since functions have no attribute `func_name` in Python 3 (`C106_nonconvergence`).
* `sum` of inventories raises AssertionError, since it adds the first one to 0 (`C108_sum`); `signal | tags` raises TypeError
  while `tags | signal` works (`C108_operands`).
* `prefilter_values` ignores `remote` and `real_pb`; `compute_prefilter` raises TypeError under Python 3
  (`dict.items() + dict.items()`), it is not modelled.
* `tags_from_path`: a field used twice keeps the last value and the values may differ (`C64_repeated`); `?` and
  `[!seq]` match a separator (`C65_question_mark`); a field removed from the pattern by the normalisation of `..` raises
  KeyError only while iterating; wildcards or fields inside brackets and templates with attribute or item access
  are not modelled.
* `transfer_function_real_prob`: `invalid_idx`, and the indices returned, count the real equations, two for each sample
  (`C66_least_squares`).
* File arrays: a slice whose stop lies before its start raises a plain exception (`C67_reversed_raises`), a negative or
  zero step raises TypeError (`C67_negative_step_raises`); neither is raised by the arrays they stand for.
* ats: the length of the header is read as a signed 16 bit number for the header and for the samples as the
  offset: a header of 32768 bytes or more gives a negative offset and reading raises (`C71_long_header`). A rate which is not
  finite is outside of the model of runs (`loadAts` gives `none`).
* `prefilter_values_mass_proc` gives the same values for all combinations (`C81_same_for_all`) and leaves a tag `Bremote` in the
  caller's data (`C81_tag_left`).
* `rzb path -c` reports "already exists" when the location is taken by a file, and the data directory stays the packaged one
  (`C76_taken`). An absolute file name is not searched in the data directories (`C72_absolute`).
* `metronix`: a section of a single row raises IndexError (`C73_single_row`); a missing section raises StopIteration
  (`C73_no_section`); the low frequency formula is used below the first row of the table, which need not be the lowest
  frequency (`C74_unsorted`).
* `phoenix`: a missing level raises ValueError from the formatting of the assertion message (`C75_missing_level`); a level
  with a single row gives NaN at its frequency and raises elsewhere (`C75_lonely`); a file with a single row raises
  IndexError (`C75_single_row`).
* `pack` loses the sample between two cuts when one tag is cut one sample after another: the common interval has no length
  (`C116_cut_loses`).
* Negative invalid indices are excluded rightly but reported wrongly by `transfer_function`: with `[-1]` the last sample is excluded and
  the first one is reported, with `[-2]` IndexError is raised (`C120_reports`, `C120_from_the_end`).
* `load_ats_from` loads files in the order of the directory listing, which `glob` does not specify; calibrations are given
  by position, so the same call may attach them to different files (`C71_listing_order`).
* Double precision: merging two recordings at 10 Hz with the same present-day start and size loses the last sample
  (`C86_last_sample_lost`), with different sizes it may raise AssertionError (`C86_merge_refused`).
* `s[()]` returns `s` itself, not a copy, and an `Inventory` holds the given sets, so that editing the tags of one is seen through the
  other (`C87_empty_index`, `C87_inventory_shares`); every other operation makes a new object.
* Double precision: at 15 Hz `s.extract_t(s.start, s.stop)` may drop the last sample (`C83_last_sample_lost`) and merging two
  recordings made at the same times raises AssertionError (`C83_merge_raises`); at 1000 Hz or 2400 Hz runs with present-day
  timestamps are never found consecutive, as the resolution of the timestamps (2.4e-7 s) is coarser than the tolerance of
  `np.isclose` (`C83_never_consecutive`); a Fourier window may have one sample more than a whole number of periods
  (`C84_one_too_long`); an overlap of 0.9 with windows of ten samples raises OverflowError (`C84_zero_shift`).
* Windows whose coefficient of determination is exactly zero may escape the filter: with rounding the number under the root may be
  negative, the coefficient NaN, and NaN is never rejected (`C129_zero_coefficient`).
