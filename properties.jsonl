{"id": "C01", "title": "Tags entries are always valid", "statement": "Whatever sequence of assignments, attribute assignments, deletions and updates is applied to a Tags object, every tag name starts with a letter, every tag value is a non-empty tuple of indices inside the range fixed at construction, and that range never changes.", "quantifier": "every Tags object and every finite sequence of item/attribute assignment, deletion and update operations, failing ones included", "why_tests_cant": "the invariant must survive every history of operations, including those that raise half way; tests only replay a few histories", "anchors": ["src/razorback/signalset.py:TagsBase.__setitem__", "src/razorback/signalset.py:TagsBase.__setattr__", "src/razorback/signalset.py:Tags.__init__"]}
{"id": "C02", "title": "Tags behave as an insertion-ordered mapping; a rejected assignment changes nothing", "statement": "After any history a Tags object contains exactly the last accepted value of each name that was not deleted since, in order of first insertion; an assignment that raises leaves every entry unchanged, and an accepted one leaves all other entries unchanged.", "quantifier": "every history of operations and every key", "why_tests_cant": "it is a refinement statement (object = abstract finite map) over unbounded histories", "anchors": ["src/razorback/signalset.py:TagsBase.__setitem__", "src/razorback/signalset.py:TagsBase.__delitem__", "src/razorback/signalset.py:TagsBase.__iter__"]}
{"id": "C03", "title": "Attribute access on Tags is item access, tag names take precedence over methods", "statement": "tags.name, tags.name = v and del tags.name agree with tags['name'], tags['name'] = v and del tags['name'] for every name not starting with an underscore (the name 'indices' cannot be assigned or newly created through attributes); a tag whose name equals that of a mapping method hides that method.", "quantifier": "every Tags object, name and value", "why_tests_cant": "the precedence rule ranges over every possible tag name; tests use Ex, Ey, ...", "anchors": ["src/razorback/signalset.py:TagsBase.__getattribute__", "src/razorback/signalset.py:TagsBase.__setattr__", "src/razorback/signalset.py:TagsBase.__delattr__"]}
{"id": "C04", "title": "Tags(n=None) infers the smallest sufficient range", "statement": "Tags(name=idx, ...) without n accepts every dict of legal names and non-empty values of non-negative indices, and the resulting range is exactly 0..max index (empty if no tag is given), the smallest that contains them all.", "quantifier": "every keyword dictionary", "why_tests_cant": "minimality and acceptance range over all dictionaries", "anchors": ["src/razorback/signalset.py:Tags.__init__"]}
{"id": "C05", "title": "Tags.filter / filter_get select exactly the names matching a shell pattern", "statement": "Tags.filter(*patterns) returns without repetition exactly the tag names matching at least one pattern under Unix shell rules ('*' any string, '?' any character, '[seq]', '[!seq]'); filter_get returns the strictly increasing tuple of the indices of those tags.", "quantifier": "every tag set and every list of patterns", "why_tests_cant": "pattern matching must agree with the declarative matching relation for all strings", "anchors": ["src/razorback/signalset.py:Tags.filter", "src/razorback/signalset.py:Tags.filter_get", "src/razorback/signalset.py:Inventory.filter"]}
{"id": "C06", "title": "Tags equality ignores insertion order and compares range and content", "statement": "Two Tags objects are equal exactly when they give the same value to every name and have the same index range; equality is reflexive, symmetric and transitive.", "quantifier": "all pairs and triples of Tags objects", "why_tests_cant": "equivalence laws quantify over all objects", "anchors": ["src/razorback/signalset.py:TagsBase.__eq__"]}
{"id": "C07", "title": "SyncSignal construction accepts exactly rectangular data with matching calibrations", "statement": "SyncSignal(data, rate, start, calibrations) succeeds exactly when data has at least one channel, all channels have the same length and, if calibrations are given and non-empty, there is one per channel; the object then exposes the same data, rate, start and size, without calibrations every channel gets the constant calibration 1, and without a start the signal starts at time 0.", "quantifier": "every data array, rate, start and calibration list", "why_tests_cant": "both directions of the acceptance condition range over all inputs", "anchors": ["src/razorback/signalset.py:SyncSignal.__init__"]}
{"id": "C08", "title": "Sample times and sample indices are mutually inverse", "statement": "For a positive sampling rate, sample i of a signal is at start + i/rate, converting that time back gives i whichever rounding is used; rounding 'right' gives the first sample at or after a time, rounding 'left' the last sample at or before it, and stop is the time of the last sample.", "quantifier": "every signal with positive rate, every index and every time", "why_tests_cant": "a rounding law over all times and rates", "anchors": ["src/razorback/signalset.py:SyncSignal._time_to_index", "src/razorback/signalset.py:SyncSignal._index_to_time", "src/razorback/signalset.py:SyncSignal.stop"]}
{"id": "C09", "title": "SyncSignal.extract_t keeps exactly the samples inside the closed time window", "statement": "When the window [start, stop] meets the signal's interval, extract_t returns exactly the samples whose time is in the window, in order, on every channel, each at its original time; with strict=True it is accepted only if both bounds lie inside the signal's interval. A window disjoint from the signal yields the single nearest end sample instead of nothing.", "quantifier": "every signal with positive rate and at least one sample, every window", "why_tests_cant": "boundary behaviour for every alignment of window and sample grid", "anchors": ["src/razorback/signalset.py:SyncSignal.extract_t", "src/razorback/signalset.py:SyncSignal.extract_i"]}
{"id": "C10", "title": "SyncSignal.extract_i is slicing with consistent times, and extracts compose", "statement": "In strict mode extract_i(i, j) is accepted exactly when 0 <= i < size and 0 <= j <= size; sample k of the result is sample i+k of the source at the same time on every channel; extracting (i', j') from extract_i(i, j) is extracting (i+i', i+j'). With strict=False all indices are accepted and the samples are those of the Python slice; their times are right exactly when i >= -size (below, the result is dated too early). include_last adds one to the last index, so that the index -1 with include_last gives no sample instead of all up to the last.", "quantifier": "every signal and all index pairs", "why_tests_cant": "composition law over all index pairs", "anchors": ["src/razorback/signalset.py:SyncSignal.extract_i"]}
{"id": "C11", "title": "SyncSignal.select moves data and calibration together", "statement": "select(i0, i1, ...) gives a signal whose channel k carries both the data and the calibration of channel ik of the source, with same rate, start and size.", "quantifier": "every signal and index list", "why_tests_cant": "lockstep for every index list including repetitions", "anchors": ["src/razorback/signalset.py:SyncSignal.select"]}
{"id": "C12", "title": "Every SignalSet is a sorted sequence of non-overlapping runs over the same channels", "statement": "Every SignalSet that can be obtained through the public operations (construction, join, merge, select_channels, select_runs, extract_t, merge_consecutive_runs, tag edition) has runs sorted by start, each run ending no later than the next one starts (for positive rates), the same number of channels in every run, and tags that only refer to existing channels.", "quantifier": "every finite expression built from the public operations", "why_tests_cant": "an invariant over all reachable objects", "anchors": ["src/razorback/signalset.py:SignalSet.__init__", "src/razorback/signalset.py:SignalSet.tags"]}
{"id": "C13", "title": "SignalSet construction rejects exactly overlapping or heterogeneous runs, whatever the argument order", "statement": "SignalSet(tags, *runs) of SyncSignals is rejected when two runs overlap in time by more than an instant or have different channel counts, is accepted when runs are pairwise disjoint with valid tags, and the resulting runs do not depend on the order of the arguments when starts are distinct.", "quantifier": "every list of runs and every permutation of it", "why_tests_cant": "order independence quantifies over permutations", "anchors": ["src/razorback/signalset.py:SignalSet.__init__"]}
{"id": "C14", "title": "join matches channels by tag name", "statement": "In a.join(b), for each tag t and position j, the channel designated by the result's t[j] carries, during each run that comes from b, exactly the data and calibration that b's t[j] designates; for runs that come from a likewise with a's t[j]. If no consistent renumbering exists the join raises instead of mixing channels.", "quantifier": "all pairs of signal sets and all tag layouts", "why_tests_cant": "every renumbering of channels must be handled; tests use one", "anchors": ["src/razorback/signalset.py:SignalSet._reorder_data", "src/razorback/signalset.py:SignalSet.join"]}
{"id": "C15", "title": "join is the union of runs", "statement": "The runs of a successful join are, up to channel renumbering, exactly the runs of its operands (same rates, starts, sizes), sorted in time; joining is commutative and associative on the run intervals.", "quantifier": "all signal sets", "why_tests_cant": "algebraic laws over all operands", "anchors": ["src/razorback/signalset.py:SignalSet.join", "src/razorback/signalset.py:SignalSet.__init__"]}
{"id": "C16", "title": "select_channels keeps exactly the requested channels and every tag they fully cover", "statement": "select_channels(ids) keeps, without repetition and in increasing index order, exactly the channels designated by the given tag names and indices; a tag survives exactly when all its channels are kept, and then designates the same data and calibrations as before in the same order; times are unchanged; an unknown identifier raises.", "quantifier": "every signal set and every identifier list", "why_tests_cant": "tag renumbering must be right for every subset of channels", "anchors": ["src/razorback/signalset.py:SignalSet.select_channels"]}
{"id": "C17", "title": "Selecting channels twice is selecting once", "statement": "Selecting all channels is the identity on runs and tags, and selecting by a tag name the channels of an already selected superset yields the same signals as selecting them directly.", "quantifier": "every signal set and nested selections", "why_tests_cant": "composition law", "anchors": ["src/razorback/signalset.py:SignalSet.select_channels"]}
{"id": "C18", "title": "select_runs is numpy indexing on the sequence of runs", "statement": "select_runs with an integer, a list of integers, a slice or a boolean mask keeps exactly the runs designated by numpy indexing (negative integers from the end, IndexError out of range, mask of the wrong length rejected), unchanged and in time order, with the same tags.", "quantifier": "every signal set and every index object", "why_tests_cant": "all index forms and values", "anchors": ["src/razorback/signalset.py:SignalSet.select_runs"]}
{"id": "C19", "title": "SignalSet.extract_t keeps exactly the samples inside the window, run by run, dropping runs left with fewer than two samples", "statement": "For positive rates, the samples of extract_t(start, stop) are exactly the (time, values) samples of the runs that have at least two samples in [start, stop]; runs left with at most one sample disappear; channels, tags and rates are unchanged.", "quantifier": "every signal set and every window", "why_tests_cant": "all alignments of window and sample grids over any number of runs", "anchors": ["src/razorback/signalset.py:SignalSet.extract_t"]}
{"id": "C20", "title": "extract_t(exclude=True) removes the inside of the window", "statement": "For start < stop on a non-empty set, extract_t(start, stop, exclude=True) returns the samples at or before start and the samples at or after stop of each run (pieces shorter than two samples being dropped), so nothing strictly inside the window remains; it succeeds whenever the last channel carries a tag or something remains before start (otherwise, if something remains after stop, it raises KeyError).", "quantifier": "every signal set and window", "why_tests_cant": "needs all alignments; also that the two halves can always be rejoined", "anchors": ["src/razorback/signalset.py:SignalSet.extract_t"]}
{"id": "C21", "title": "Successive time extractions intersect", "statement": "extract_t(a, b) followed by extract_t(c, d) gives the same runs as extract_t(max(a, c), min(b, d)).", "quantifier": "every signal set and pair of windows", "why_tests_cant": "composition law over all windows", "anchors": ["src/razorback/signalset.py:SignalSet.extract_t", "src/razorback/signalset.py:SyncSignal.extract_t"]}
{"id": "C22", "title": "merge concatenates channels and keeps every tag pointing at its own data", "statement": "The channels of a.merge(b, ...) are those of the operands in order; each tag of each operand is a tag of the result and designates, in every run, the data and calibrations of that operand's tag over the run's time interval.", "quantifier": "any number of operands with any tags", "why_tests_cant": "offset arithmetic for any number of operands", "anchors": ["src/razorback/signalset.py:SignalSet.merge"]}
{"id": "C23", "title": "merge intervals are exactly the common parts", "statement": "The intervals with non-empty interior explored by merge are exactly the intersections with non-empty interior of one run interval per operand: an instant is strictly inside one of them exactly when it is strictly inside a run of every operand; they are produced in increasing order and do not overlap.", "quantifier": "any number of operands, any number of runs", "why_tests_cant": "the recursive sweep with early exit must be right for every interval configuration", "anchors": ["src/razorback/signalset.py:SignalSet.merge"]}
{"id": "C24", "title": "merge never misaligns samples", "statement": "In every run of a merged set, sample k of every channel at time start + k/rate is the sample of the corresponding operand channel at exactly that time.", "quantifier": "all operands with positive rates", "why_tests_cant": "misalignment would only show for particular offsets", "anchors": ["src/razorback/signalset.py:SignalSet.merge"]}
{"id": "C25", "title": "merge rejects conflicting names and unsynchronised clocks, and skips different sampling rates", "statement": "merge raises if a tag name occurs in two operands, if overlapping runs, one per operand, all have the same sampling rate but one of them has no sample at the start of the overlap, if an overlap holds fewer than two samples of an operand, or if an operand has no run; overlaps of runs with different rates contribute nothing to the result; in all other cases (runs of at least two samples) it succeeds.", "quantifier": "all operands", "why_tests_cant": "error paths for every configuration", "anchors": ["src/razorback/signalset.py:SignalSet.merge"]}
{"id": "C26", "title": "merge_consecutive_runs neither loses, duplicates nor reorders samples", "statement": "Whenever s.merge_consecutive_runs() succeeds, for each channel the concatenation over runs of its samples equals that of s, and tags, channels and the set of sampling rates are the same; with exact gaps it succeeds, unless nothing is to be merged and the last channel has no tag (then it raises).", "quantifier": "every signal set whose runs have distinct starts", "why_tests_cant": "any grouping pattern of any number of runs and rates", "anchors": ["src/razorback/signalset.py:SignalSet.merge_consecutive_runs", "src/razorback/signalset.py:_group_indices"]}
{"id": "C27", "title": "merge_consecutive_runs merges exactly the maximal chains of consecutive runs and is idempotent", "statement": "Two adjacent runs are fused exactly when they have the same rate and the gap equals one sample period within the isclose tolerance; the calibrations are those of the first run of each chain; when the gaps are exact every sample keeps its time and applying the operation twice changes nothing more; in general a sample's time moves by at most the sum of the gap mismatches.", "quantifier": "every signal set with distinct starts", "why_tests_cant": "maximality and idempotence over all run patterns", "anchors": ["src/razorback/signalset.py:SignalSet.merge_consecutive_runs", "src/razorback/signalset.py:_group_indices"]}
{"id": "C28", "title": "Indexing and attribute access are selection", "statement": "s[c], s[c, r] and s.name are s.select_channels(c), s.select_channels(c).select_runs(r) and s.select_channels('name') (for names that are not attributes); more than two indices raise; an unknown name raises AttributeError.", "quantifier": "every signal set and index", "why_tests_cant": "dispatch over all index forms", "anchors": ["src/razorback/signalset.py:SignalSet.__getitem__", "src/razorback/signalset.py:SignalSet.__getattr__"]}
{"id": "C29", "title": "Assigning tags is validated against the channels", "statement": "s.tags = value is accepted exactly when every index lies in the set's channel range (and, for a Tags value, its whole range does); the stored range is the number of channels; a rejected assignment keeps the previous tags.", "quantifier": "every signal set and tag value", "why_tests_cant": "all tag values", "anchors": ["src/razorback/signalset.py:SignalSet.tags"]}
{"id": "C30", "title": "Inventory is an append-only sequence of SignalSets", "statement": "append adds at the end, extend appends in order and stops at the first invalid element keeping those before it, a + b contains the elements of a then of b, and len, indexing and iteration agree with that sequence after any history.", "quantifier": "every history of append/extend/add", "why_tests_cant": "refinement to a list over unbounded histories", "anchors": ["src/razorback/signalset.py:Inventory.append", "src/razorback/signalset.py:Inventory.extend", "src/razorback/signalset.py:Inventory.__add__"]}
{"id": "C31", "title": "Inventory.select_channels and filter select by tag across the inventory", "statement": "select_channels(*keys) maps each signal set to the channels designated by those of the keys it has, dropping the sets having none, in the same order; filter(*patterns) is select_channels on the tag names matching a pattern, and its result does not depend on the order in which names are enumerated.", "quantifier": "every inventory, keys and patterns, every enumeration order of the tag set", "why_tests_cant": "order independence over hash orders", "anchors": ["src/razorback/signalset.py:Inventory.select_channels", "src/razorback/signalset.py:Inventory.filter"]}
{"id": "C32", "title": "Inventory.extract_t and select_runs act element-wise and drop empty sets", "statement": "extract_t and select_runs return, in order, the results of the corresponding SignalSet operations that still have runs, and never contain a set without runs.", "quantifier": "every inventory", "why_tests_cant": "element-wise law for any length", "anchors": ["src/razorback/signalset.py:Inventory.extract_t", "src/razorback/signalset.py:Inventory.select_runs"]}
{"id": "C33", "title": "pack returns all tags or nothing", "statement": "If pack() succeeds, its result either is the empty SignalSet or has at least one run and every tag name present in the inventory, and each of its runs has a sampling rate found in the inventory.", "quantifier": "every inventory", "why_tests_cant": "must hold for every combination of sets, rates and tags", "anchors": ["src/razorback/signalset.py:Inventory.pack", "src/razorback/signalset.py:Inventory._join_merge"]}
{"id": "C34", "title": "pack invents no data", "statement": "Every sample designated by tag t, position j in the result of pack() is a sample designated by t, j in one of the inventory's signal sets, with the same sampling rate and (before fusing consecutive runs) the same time.", "quantifier": "every inventory with positive rates", "why_tests_cant": "tracing every sample through selection, join, merge", "anchors": ["src/razorback/signalset.py:Inventory.pack", "src/razorback/signalset.py:Inventory._join_merge"]}
{"id": "C35", "title": "Inventory merging does not depend on set iteration order", "statement": "The grouping of tags used by Inventory.merge, and hence its result, does not depend on the (hash dependent) order in which the tag names are enumerated.", "quantifier": "every inventory and every enumeration order", "why_tests_cant": "hash randomisation gives a different schedule on each run", "anchors": ["src/razorback/signalset.py:Inventory._join_merge", "src/razorback/signalset.py:Inventory.tags"]}
{"id": "C36", "title": "extract_groups creates one set per group with the concatenated tag", "statement": "extract_groups([(new, olds), ...]) yields one signal set per group, in order, whose tag new designates the concatenation, in the order of olds, of the channels designated by the old tags; a missing old tag raises.", "quantifier": "every inventory and group list", "why_tests_cant": "all group layouts", "anchors": ["src/razorback/signalset.py:Inventory.extract_groups"]}
{"id": "C37", "title": "discrete_window parameters are consistent", "statement": "Whenever discrete_window returns (Nw, Lw, shift): Lw is the least integer length covering Nper periods, 1 <= shift <= Lw, Nw >= 1 and Nw shifted windows plus one more fit in the data; it raises exactly when the frequency or overlap is out of range, the shift vanishes or fewer than Lw + shift samples are available.", "quantifier": "every size, normalised frequency, period count and overlap", "why_tests_cant": "rounding corner cases for all reals/rationals", "anchors": ["src/razorback/fourier_transform.py:discrete_window"]}
{"id": "C38", "title": "time_to_freq evaluates every complete window, and only those, on every channel", "statement": "Each channel yields the same number Nw of coefficients, coefficient k only depends on samples k*shift .. k*shift+Lw-1, all of which exist, and window Nw would overrun the data; channels of unequal length are rejected.", "quantifier": "every data set and window parameters", "why_tests_cant": "off-by-one at either end for every size", "anchors": ["src/razorback/fourier_transform.py:time_to_freq", "src/razorback/fourier_transform.py:sliding_window", "src/razorback/fourier_transform.py:ft"]}
{"id": "C39", "title": "Fourier coefficients are linear in the data", "statement": "The coefficients of a linear combination of time series are the linear combination of their coefficients; in particular a channel that is a fixed factor times another has coefficients in the same ratio.", "quantifier": "all data and factors", "why_tests_cant": "algebraic law", "anchors": ["src/razorback/fourier_transform.py:time_to_freq"]}
{"id": "C40", "title": "A pure tone yields its complex amplitude", "statement": "For x[n] = a cos(2 pi f n / fs + phi) with no window function, a window length that is a whole number of periods and 0 < f < fs/2, the coefficient of the window starting at sample m is a exp(i (phi + 2 pi f m / fs)).", "quantifier": "all amplitudes, phases, and admissible frequencies", "why_tests_cant": "normalisation identity over reals", "anchors": ["src/razorback/fourier_transform.py:time_to_freq", "src/razorback/fourier_transform.py:ft"]}
{"id": "C41", "title": "SignalSet.fourier_coefficients concatenates runs in time order with per-run calibration", "statement": "The coefficients of channel c are, in run order, each run's coefficients divided by that run's calibration of channel c at the frequency; their number is the sum of the per-run window counts; it raises if any run is too short or there is no run (ValueError), or a calibration has no value there (AssertionError).", "quantifier": "every signal set and frequency", "why_tests_cant": "bookkeeping over any number of runs and channels", "anchors": ["src/razorback/signalset.py:SignalSet.fourier_coefficients", "src/razorback/signalset.py:SyncSignal.fourier_coefficients"]}
{"id": "C42", "title": "The Slepian window has the requested length at every size", "statement": "slepian(N, tau) has exactly N values for every N >= 1; above the size limit it is the piecewise linear interpolation of the reference window and stays within the range of the reference values; below it has mean 1.", "quantifier": "every N", "why_tests_cant": "sizes above the limit take a different path", "anchors": ["src/razorback/fourier_transform.py:slepian", "src/razorback/fourier_transform.py:slepian_window"]}
{"id": "C43", "title": "The invalid indices reported by a chain of eliminations refer to the original positions", "statement": "If index lists l1, l2, ... are eliminated one after the other from a series (each relative to what remains), merge_invalid_indices returns the strictly increasing list of original positions eliminated: removing it at once gives the same series.", "quantifier": "every series and every list of index lists valid for it", "why_tests_cant": "index renumbering over any number of steps", "anchors": ["src/razorback/mestimator.py:merge_invalid_indices", "src/razorback/mestimator.py:eliminate"]}
{"id": "C44", "title": "wlse solves the weighted least squares problem", "statement": "When the weighted normal matrix is regular, wlse returns the unique z solving the weighted normal equations; for non-negative weights it minimises the weighted residual sum of squares; if the outputs are exactly y.z0 it returns z0; it raises exactly when the matrix is singular.", "quantifier": "all data, weights and dimensions", "why_tests_cant": "optimality is a universal statement", "anchors": ["src/razorback/mestimator.py:wlse", "src/razorback/mestimator.py:dotdiag", "src/razorback/mestimator.py:H"]}
{"id": "C45", "title": "A sample of weight zero has no influence", "statement": "wlse with weight zero on a set of samples equals wlse on the data without those samples, whatever their values.", "quantifier": "all data and rejected sets", "why_tests_cant": "arbitrary outlier values", "anchors": ["src/razorback/mestimator.py:wlse", "src/razorback/mestimator.py:eliminate"]}
{"id": "C46", "title": "m_estimate either returns a converged weighted estimate or raises", "statement": "With a weight function, m_estimate returns only after at least two and at most maxit iterations, with the weighted least squares estimate of the last weights, and the last relative change of weighted residual below tol; otherwise NonConvergence is raised (in particular always for maxit <= 1); without a weight function it returns the plain least squares estimate.", "quantifier": "every weight function (arbitrary callback), data, tol and maxit", "why_tests_cant": "the callback is arbitrary, loops of any length", "anchors": ["src/razorback/mestimator.py:m_estimate"]}
{"id": "C47", "title": "The rejected indices are exactly those of negligible weight, and are never re-admitted", "statement": "The invalid indices returned by m_estimate with a weight function returning arrays are the increasing list of positions whose final weight is at most eps in absolute value; positions rejected at an iteration stay rejected.", "quantifier": "every weight function and data", "why_tests_cant": "arbitrary callback behaviour over any number of iterations", "anchors": ["src/razorback/mestimator.py:_eval_weight", "src/razorback/mestimator.py:m_estimate"]}
{"id": "C48", "title": "A chain of estimations only sees what previous steps kept, and reports original positions", "statement": "At each step of transfer_function's chain the data are the original rows minus all rows rejected so far, the returned invalid indices are the original positions of all rows rejected (initially or by any step), and the chain raises as soon as no row is left for a step.", "quantifier": "any number of weightings, any data", "why_tests_cant": "composition over unbounded chains", "anchors": ["src/razorback/mestimator.py:chain_m_estimate", "src/razorback/mestimator.py:transfer_function"]}
{"id": "C49", "title": "transfer_function treats outputs independently and recovers exact linear relations", "statement": "Row i of the transfer depends only on output i, the inputs and its own invalid indices; the shape is (number of outputs, number of inputs); if output i is an exact linear combination of the inputs on the valid samples and those are linearly independent, least squares returns exactly its coefficients. Channels of different lengths, no inputs, or a wrong number of starting values or of lists of invalid indices raise AssertionError, no outputs IndexError. A one-dimensional array of invalid indices, although documented, always raises (AssertionError or TypeError).", "quantifier": "all data", "why_tests_cant": "universal recovery statement", "anchors": ["src/razorback/mestimator.py:transfer_function"]}
{"id": "C50", "title": "transfer_error has the documented value, is non-negative, zero on exact fit and scales with the units", "statement": "It succeeds exactly when there is an output and an input, all with the same number N of samples, one list of invalid indices per output, and inputs linearly independent over the samples. The error of coefficient j is then the norm of the residual times N/sqrt(N - q), over the number of valid samples, times the square root of the j-th diagonal entry of the inverse of the matrix of scalar products of the inputs (with orthogonal inputs: over the norm of input j). With more samples than inputs and some valid sample the entries are finite and non-negative; they vanish when the transfer reproduces the output exactly. With as many samples as inputs, or without valid sample, an entry is NaN if the residual is zero and infinite otherwise. Entries scale by |c| when outputs and transfer are multiplied by c and by 1/|c| when inputs are multiplied by c and the transfer by 1/c.", "quantifier": "all data", "why_tests_cant": "scaling laws", "anchors": ["src/razorback/mestimator.py:transfer_error"]}
{"id": "C51", "title": "Huber weights are in (0, 1], equal 1 on small residuals and decrease with the residual", "statement": "For finite residuals with positive scale and alpha > 0, every weight is in (0, 1], it is 1 exactly when |r| <= alpha*scale, and larger residuals never get larger weights; a NaN residual gets a NaN weight; weights are unchanged when all residuals are multiplied by a non-zero constant.", "quantifier": "all residual vectors", "why_tests_cant": "universal bounds", "anchors": ["src/razorback/weights.py:Huber.__call__", "src/razorback/weights.py:mad_scale"]}
{"id": "C52", "title": "Thomson weights are in [0, 1], equal 1 at zero and decrease with the residual", "statement": "expexp(x, a) with a > 0 equals 1 at x = 0, lies in [0, 1] for x >= 0 (infinite x included) and is strictly decreasing; Thomson weights are expexp of |r|/scale with the scale of iteration 0.", "quantifier": "all reals", "why_tests_cant": "universal bounds", "anchors": ["src/razorback/weights.py:expexp", "src/razorback/weights.py:Thomson.__call__"]}
{"id": "C53", "title": "Reusing a weight object does not leak state between estimations", "statement": "Weight functions with memory (Thomson, BoundedInfluenceStep) give, in an estimation started at iteration 0, results independent of everything they were called with before, including estimations that failed half way; out of order iterations of BoundedInfluenceStep raise.", "quantifier": "every history of previous calls", "why_tests_cant": "shared module-level weight objects see arbitrary histories", "anchors": ["src/razorback/weights.py:Thomson.__call__", "src/razorback/weights.py:BoundedInfluenceStep.__call__", "src/razorback/weights.py:mest_weights"]}
{"id": "C54", "title": "bi_weights produces least squares, then increasingly strict Huber steps, then Thomson", "statement": "bi_weights(p, n) has n + 2 entries: None first, then n Huber bounded influence steps whose lower bounds increase and upper bounds decrease by factors of two down to the nominal ones, and a Thomson step with the nominal bounds last.", "quantifier": "all n and probabilities", "why_tests_cant": "any number of steps", "anchors": ["src/razorback/weights.py:bi_weights"]}
{"id": "C55", "title": "The MAD scale is a scale: equivariant and insensitive to NaN entries", "statement": "mad_scale is non-negative, multiplies by |c| when residuals are multiplied by c, does not depend on the order of the residuals nor on entries that are NaN.", "quantifier": "all residual vectors", "why_tests_cant": "permutation and scaling laws", "anchors": ["src/razorback/weights.py:mad_scale", "src/razorback/weights.py:median_absolute_deviation"]}
{"id": "C56", "title": "The coefficient of determination is computed on a partition of the samples", "statement": "CoefficientOfDeterminationFilter.value assigns to every sample the coefficient of exactly one block of consecutive samples; blocks have the configured size except the last one, which absorbs the remainder (between size and 2*size-1 samples when there are at least size samples).", "quantifier": "every length and block size", "why_tests_cant": "all remainders", "anchors": ["src/razorback/prefilters.py:CoefficientOfDeterminationFilter.value"]}
{"id": "C57", "title": "The coefficient of determination is in [0, 1] and the filter rejects exactly the samples out of bounds", "statement": "With a non-zero output block and regular inputs the coefficient is between 0 and 1, it is 1 exactly for an exact linear fit; the filter returns the increasing list of samples whose coefficient is below cod_min or above cod_max.", "quantifier": "all data and thresholds", "why_tests_cant": "bound is a theorem of linear algebra", "anchors": ["src/razorback/prefilters.py:CoefficientOfDeterminationFilter.coeff_determination", "src/razorback/prefilters.py:CoefficientOfDeterminationFilter.__call__"]}
{"id": "C58", "title": "apply_prefilter adds the prefilter's rejections to the given ones", "statement": "The result has one increasing, repetition free index list per output, containing exactly the indices given for that output and those rejected by the prefilter for it; without prefilter the given lists are returned.", "quantifier": "all outputs, inputs, prefilters", "why_tests_cant": "arbitrary prefilter callback", "anchors": ["src/razorback/utils.py:apply_prefilter"]}
{"id": "C59", "title": "impedance processes each frequency independently and in order", "statement": "The result has one entry per requested frequency, in order; the entry of a frequency only depends on the data and that frequency, not on the other requested ones; an unusable frequency (Fourier step fails) yields NaN entries. The call raises what the first failing frequency raises; otherwise it raises ValueError exactly if two results have different shapes, which happens only if the numbers of electric and magnetic channels differ and some but not all of the frequencies are unusable.", "quantifier": "all frequency lists, data and options", "why_tests_cant": "independence over all lists", "anchors": ["src/razorback/utils.py:impedance", "src/razorback/utils.py:_impedance"]}
{"id": "C60", "title": "Rejected windows are reported at their centre time", "statement": "With keep_invalid_times, the k-th reported time is the centre time of the window of the k-th rejected coefficient: coefficient index i of the concatenated runs is attributed to the run and local window it came from.", "quantifier": "any number of runs, any sorted rejected list", "why_tests_cant": "index arithmetic across any number of runs", "anchors": ["src/razorback/utils.py:_impedance"]}
{"id": "C61", "title": "silent_fail turns estimation failures into NaN results of known shape", "statement": "With silent_fail a failing estimation (first or second stage) gives an all-NaN impedance, error and transfer of the documented shape and no exception; without it the exception propagates; the impedance is NaN only if some stage failed, and the errors are finite and non-negative when there are more windows than magnetic channels and not all windows are rejected.", "quantifier": "all failure points", "why_tests_cant": "every failure point of both stages", "anchors": ["src/razorback/utils.py:_impedance"]}
{"id": "C62", "title": "Remote reference: the second stage uses the magnetic field predicted from the remote channels", "statement": "With a remote, if local magnetic coefficients are an exact linear image T of independent remote coefficients and electric ones an exact linear image z of the magnetic ones, least squares two stage processing returns exactly T and z; windows rejected in the first stage are excluded from the second stage for every output.", "quantifier": "all data", "why_tests_cant": "universal recovery", "anchors": ["src/razorback/utils.py:_impedance"]}
{"id": "C63", "title": "impedance_mass_proc enumerates every subset of remotes exactly once", "statement": "With combines_remotes all 2^n subsets of the remote names occur exactly once, in a fixed order starting with no remote and ending with all; otherwise only the full set is used; each subset is processed on every interval, in order.", "quantifier": "any number of remotes and intervals", "why_tests_cant": "any n", "anchors": ["src/razorback/utils.py:impedance_mass_proc", "src/razorback/utils.py:prefilter_values_mass_proc"]}
{"id": "C64", "title": "tags_from_path finds a match exactly when one exists, and the fields reproduce the path", "statement": "A name is yielded exactly when some assignment of non-empty words to the fields and of strings to the wildcards turns the pattern into the normalised name; the values used for the tags form such an assignment, so substituting them in the pattern reproduces the path.", "quantifier": "all names and patterns", "why_tests_cant": "the matcher is a backtracking search over all strings", "anchors": ["src/razorback/utils.py:tags_from_path", "src/razorback/utils.py:_prepare_pattern"]}
{"id": "C65", "title": "tags_from_path respects directory levels and validates templates first", "statement": "'*' never matches a path separator while '**' may; field values are non-empty words of letters, digits and underscores; a template using an unknown field raises before anything is yielded; names are yielded in input order, skipping those that do not match.", "quantifier": "all names, patterns and templates", "why_tests_cant": "all strings", "anchors": ["src/razorback/utils.py:tags_from_path", "src/razorback/utils.py:_get_fields"]}
{"id": "C66", "title": "The real formulation of the estimation problem has the complex solution", "statement": "Rewriting a complex least squares problem into the interleaved real problem of transfer_function_real_prob and reading back real and imaginary parts gives the complex least squares solution.", "quantifier": "all data", "why_tests_cant": "algebraic identity", "anchors": ["src/razorback/utils.py:transfer_function_real_prob"]}
{"id": "C67", "title": "Indexing a file-backed array is indexing the array it represents", "statement": "For an integer, or a slice with positive step and non-negative extent, a[index] on a file array equals indexing the in-memory array of all its values; out of range integers and too many indices raise IndexError.", "quantifier": "every file content, size and index", "why_tests_cant": "all slices", "anchors": ["src/razorback/io/binary_file_array.py:BaseArrayProxy.__getitem__", "src/razorback/io/binary_file_array.py:BaseArrayProxy._to_slice", "src/razorback/io/binary_file_array.py:BinaryFileArray_1D.extract"]}
{"id": "C68", "title": "Chunked reading equals whole reading", "statement": "Reading a file array by any partition of its range into consecutive slices and concatenating gives the whole array.", "quantifier": "every file and every chunking (dask chooses it)", "why_tests_cant": "the chunk schedule is chosen by dask", "anchors": ["src/razorback/io/binary_file_array.py:to_dask_array", "src/razorback/io/binary_file_array.py:BinaryFileArray_1D.extract"]}
{"id": "C69", "title": "The announced size never exceeds the file", "statement": "A constructed 1-d file array has a positive size, at most the requested one and at most the number of complete items after the offset, equal to their minimum; reads inside the size never come short (if the file is unchanged).", "quantifier": "every file length, offset, item size and requested size", "why_tests_cant": "all lengths including truncated files", "anchors": ["src/razorback/io/binary_file_array.py:BinaryFileArray_1D._get_real_size"]}
{"id": "C70", "title": "The ats header is decoded field by field at fixed offsets", "statement": "The native struct layout of the ats header has no padding and 1024 bytes, so each field is read from its documented offset; decoding the encoding of any header gives it back; latitude and longitude are given in degrees and the elevation in metres, within a relative error of 5/2^53 of the stored integers; a file too short raises.", "quantifier": "every header content", "why_tests_cant": "all byte contents", "anchors": ["src/razorback/io/ats.py:read_ats_header"]}
{"id": "C71", "title": "load_ats builds one channel per file, in order, or raises", "statement": "load_ats succeeds only if all files have the same start and sampling rate and there is at least one, and then channel k holds lsbval times the integer samples of file k; a plain string argument is rejected. load_ats_from does so for the files of a directory with extension ats, in the order of the directory listing, which is not specified: calibrations given by position may go to other files.", "quantifier": "every list of files", "why_tests_cant": "any number of files", "anchors": ["src/razorback/io/ats.py:load_ats", "src/razorback/io/ats.py:load_ats_from", "src/razorback/io/ats.py:read_ats_sample"]}
{"id": "C72", "title": "Data files are searched locally first, then in the package", "statement": "get_data_file returns the file in the local data directory if that directory exists and has it, else the packaged one if it exists, else raises ValueError; it always returns an existing path.", "quantifier": "every file system state", "why_tests_cant": "all file system states", "anchors": ["src/razorback/data.py:get_data_file", "src/razorback/data.py:data_path", "src/razorback/data.py:default_data_path"]}
{"id": "C73", "title": "metronix reads exactly the table of the right chopper section", "statement": "metronix uses the chopper-on section exactly when the sampling rate is at most the limit, and the table consists of exactly the lines after the section mark up to the next blank line (or the end of file); a missing section or unknown sensor version raises, as does (ValueError) a section with words which are not numbers or lines of different lengths.", "quantifier": "every file content", "why_tests_cant": "all line layouts", "anchors": ["src/razorback/calibrations.py:metronix"]}
{"id": "C74", "title": "metronix calibration interpolates the table and extrapolates only below it with chopper on", "statement": "The calibration function returns the tabulated value at tabulated frequencies, linear interpolation in between, the theoretical low frequency formula strictly below the first frequency with the chopper on, and raises otherwise outside the table.", "quantifier": "every table and frequency", "why_tests_cant": "all reals", "anchors": ["src/razorback/calibrations.py:metronix"]}
{"id": "C75", "title": "phoenix calibrations select the level and pair real and imaginary columns", "statement": "phoenix returns one function per channel built from exactly the rows of the requested level, channel i using columns 2+2i and 3+2i as real and imaginary parts; a missing level raises, as does (ValueError) a file without the layout of a cts file.", "quantifier": "every table", "why_tests_cant": "all tables", "anchors": ["src/razorback/calibrations.py:phoenix"]}
{"id": "C76", "title": "The path command never destroys and is idempotent; plugin commands take precedence", "statement": "'rzb path -c' creates the local directory only if it is missing and leaves an existing one untouched, so running it twice is the same as once, and after it the data path is the local one; without -c nothing changes. Listed commands are the sorted union of built-in and plugin commands, and a plugin command overrides a built-in one of the same name.", "quantifier": "every file system state and plugin set", "why_tests_cant": "all states", "anchors": ["src/razorback/cli.py:path_action", "src/razorback/cli.py:PluginGroup", "src/razorback/data.py:data_path"]}
{"id": "C77", "title": "The former Fourier transform agrees with the current one on its windows", "statement": "Whenever time_to_freq succeeds, time_to_freq_old succeeds on the same arguments with the same window length and shift, and returns the same coefficients for all windows but the last complete one, which it leaves out. Whenever time_to_freq raises, time_to_freq_old raises the same exception.", "quantifier": "every list of channels, frequency, overlap and window function", "why_tests_cant": "all real data and lengths", "anchors": ["src/razorback/fourier_transform.py:time_to_freq_old", "src/razorback/fourier_transform.py:sliding_window", "src/razorback/fourier_transform.py:ft", "src/razorback/fourier_transform.py:time_to_freq"]}
{"id": "C78", "title": "Bounded influence weights follow the leverages with respect to the previous weights", "statement": "A bounded influence step returns the weights of its inner function multiplied by factors accumulated over the iterations of one estimation. At each iteration the factor of a sample is multiplied by a function of its leverage in the weighted least squares estimation with the previous weights (all ones at first), times the sum of these weights, over the number of inputs. The leverages are between 0 and 1 and add up to the number of inputs. The factors are nonnegative and bounded, and go to zero for extreme leverages, very small or very large. Invalid samples have weight zero. Inputs that do not determine an estimate with the previous weights raise LinAlgError.", "quantifier": "every inner weight function, memory, residuals, inputs, invalid indices and parameters", "why_tests_cant": "all real data, all iterations", "anchors": ["src/razorback/weights.py:BoundedInfluenceStep", "src/razorback/weights.py:BoundedInfluenceStep.__call__"]}
{"id": "C79", "title": "Packing without multi-channel names, and recordings packed twice", "statement": "pack(keep_multi_tags=False) keeps exactly the names all of whose channels, in some set, belong to a name that designates a single channel somewhere in the inventory; every sample comes from the inventory under the same name. Two sets of the inventory sharing a name with overlapping runs of the same rate make pack raise; so two different names of the same channel make pack(keep_multi_tags=False) raise.", "quantifier": "every inventory of regular sets and every enumeration order", "why_tests_cant": "any number of sets, names and runs", "anchors": ["src/razorback/signalset.py:Inventory.pack", "src/razorback/signalset.py:Inventory.select_channels", "src/razorback/signalset.py:SignalSet.join"]}
{"id": "C80", "title": "prefilter_values shows exactly what the prefilter sees", "statement": "prefilter_values gives, for each frequency, the values of the prefilter on each electric channel against the magnetic ones and the centre time of every window, in the order of the coefficients; with the coefficient of determination filter the windows rejected are exactly those whose value is outside of the bounds. A frequency without coefficients, a missing tag or a prefilter that raises make it raise. Fourier options not given have the same defaults (8 periods, overlap 0.71, slepian window) as in impedance.", "quantifier": "every reachable data set, frequency list, prefilter and options", "why_tests_cant": "all data, lengths and run layouts", "anchors": ["src/razorback/utils.py:prefilter_values", "src/razorback/utils.py:impedance", "src/razorback/prefilters.py:CoefficientOfDeterminationFilter.value"]}
{"id": "C81", "title": "Mass processing of prefilter values does not depend on the remotes", "statement": "prefilter_values_mass_proc gives one item per combination of remotes, all equal: the values of prefilter_values on the data in each interval. The caller's tags are left unchanged except 'Bremote', which at the end designates the channels of all the remotes. It raises exactly if a tag is missing or prefilter_values raises on some interval.", "quantifier": "every reachable data set, list of remotes, frequencies and intervals", "why_tests_cant": "all combinations and data", "anchors": ["src/razorback/utils.py:prefilter_values_mass_proc", "src/razorback/utils.py:prefilter_values"]}
{"id": "C82", "title": "On a binary clock times are computed exactly in double precision", "statement": "If sampling rates are powers of two and starts are multiples of a power of two fine enough for all times to be doubles (for present-day timestamps in seconds: every double, rates up to 4 MHz), then every signal set built in double precision arithmetic is the one exact arithmetic builds, and join, merge, selections, extract_t at clock times and merge_consecutive_runs of clearly consecutive or clearly separate runs give the same results and raise the same exceptions as in exact arithmetic.", "quantifier": "every program of operations on sets recorded on such a clock, any sizes", "why_tests_cant": "all programs, sizes and starts", "anchors": ["src/razorback/signalset.py:SyncSignal.extract_t", "src/razorback/signalset.py:SignalSet.merge", "src/razorback/signalset.py:SignalSet.merge_consecutive_runs"]}
{"id": "C83", "title": "At any rate, rounding errors only affect samples at the ends of a window", "statement": "In double precision extract_t never raises because of rounding, keeps a contiguous block of samples, and the only samples in doubt are those within half a sample period of the bounds, and the last sample of the signal. The doubt is real: the last sample may be lost when extracting from start to stop, merging two recordings made at the same times may raise, and at some rates (1000 Hz, 2400 Hz) runs with present-day timestamps are never found consecutive.", "quantifier": "every signal with (|start|+|stop|)*rate at most 2^49, every window", "why_tests_cant": "all real windows, rates and starts", "anchors": ["src/razorback/signalset.py:SyncSignal.extract_t", "src/razorback/signalset.py:SyncSignal.time_to_index", "src/razorback/signalset.py:SignalSet.merge", "src/razorback/signalset.py:SignalSet.merge_consecutive_runs"]}
{"id": "C84", "title": "Fourier windows computed in double precision are off by at most one sample", "statement": "discrete_window in double precision returns windows that fit in the data, and as many as fit, with a length and a shift that differ from those of exact arithmetic by at most one sample. The difference is real: a window may be one sample longer than a whole number of periods, and a shift of one sample may become zero and raise OverflowError.", "quantifier": "every size, frequency, number of periods and overlap", "why_tests_cant": "all reals", "anchors": ["src/razorback/fourier_transform.py:discrete_window"]}
{"id": "C85", "title": "Whatever the rounding of times, operations never make up, reorder or mix samples", "statement": "Whatever function rounds the results of operations on times: extraction by time or by index returns consecutive samples of the signal, the same ones on every channel, with its calibrations and rate; extract_t on a set (also with exclude) keeps the tags and returns blocks of at least two consecutive samples of its runs; every run of a merge has side by side the channels of one such block per operand, and every tag designates in the result what it designates in its operand.", "quantifier": "every rounding function, every program of operations, every window", "why_tests_cant": "all rounding behaviours, windows and sizes", "anchors": ["src/razorback/signalset.py:SyncSignal.extract_t", "src/razorback/signalset.py:SyncSignal.extract_i", "src/razorback/signalset.py:SignalSet.extract_t", "src/razorback/signalset.py:SignalSet.merge"]}
{"id": "C86", "title": "Merged channels are aligned in double precision", "statement": "In a run of a merge computed in double precision, the samples at one position of two channels were recorded at most 0.52 sample periods apart, each at most 0.26 periods from the time the merged run gives them; if the recordings were sampled at the same instants they were recorded at exactly the same instant. However merging recordings with the same clock may lose the last sample or be refused with AssertionError.", "quantifier": "every list of sets whose runs have (|start|+|stop|)*rate at most 2^49", "why_tests_cant": "all starts, rates, sizes and run layouts", "anchors": ["src/razorback/signalset.py:SignalSet.merge", "src/razorback/signalset.py:SyncSignal.extract_t"]}
{"id": "C87", "title": "Signal sets are independent objects", "statement": "A program that builds signal sets and inventories, applies their operations, edits Tags objects and assigns tags in any order: an operation leaves the value of every existing signal set, Tags object and inventory unchanged; its result is a new signal set (or an inventory of new ones) with a Tags object of its own, so that later editing of the operands' tags has no effect on it, and conversely. A Tags object belongs to at most one signal set; assigning tags gives the set a copy. Exceptions: s[()] is s itself, and an inventory holds the very sets given to it.", "quantifier": "every program of such statements, exceptions included", "why_tests_cant": "all interleavings of operations and edits", "anchors": ["src/razorback/signalset.py:SignalSet.tags", "src/razorback/signalset.py:SignalSet.__init__", "src/razorback/signalset.py:SignalSet.__getitem__", "src/razorback/signalset.py:Inventory.append"]}
{"id": "C88", "title": "Packing does not make up or mix samples, whatever the rounding of times", "statement": "For any rounding of the arithmetic on times (double precision included), if pack() succeeds (with or without keep_multi_tags) then the values of each channel designated by a tag position are pieces put end to end, each made of consecutive samples of a channel designated by the same tag position in a run with the same rate of the inventory; the calibration is that of the first piece; no tag name is new, and with keep_multi_tags all the names and no others are present unless the result is empty. The same for extract_groups, where the new tag designates channels of the old ones.", "quantifier": "every rounding function, inventory of sets obtained by the operations, enumeration order of the hash sets, list of groups", "why_tests_cant": "rounding of times decides which samples are kept in each step", "anchors": ["src/razorback/signalset.py:Inventory.pack", "src/razorback/signalset.py:Inventory.extract_groups"]}
{"id": "C89", "title": "Results follow the units of the channels", "statement": "If two signal sets have the same tags and the same clock, and the samples of each channel divided by its calibration are those of the other set multiplied by a non-zero constant of the channel (possibly depending on the frequency), impedance() gives for the one the result of the other with each impedance multiplied by the factor of its electric channel over that of its magnetic channel, errors by the moduli of these, the transfer to the remote by the factors of magnetic over remote, and nothing else changed: the same times are rejected, the same estimations fail (NaN) or raise the same error. Scaling samples and calibrations together changes nothing at all. This holds with and without remote, for all the weight functions and the prefilter of the library.", "quantifier": "every pair of reachable signal sets over the same clock, frequencies, options, unit-independent weight functions and prefilters (all library ones proved to be so), states of the weight functions", "why_tests_cant": "iterative reweighting has stopping tests, thresholds and scales; an absolute one anywhere would break this for some data only", "anchors": ["src/razorback/utils.py:impedance", "src/razorback/mestimator.py:transfer_function", "src/razorback/weights.py:HuberWeight", "src/razorback/weights.py:BoundedInfluenceStep", "src/razorback/prefilters.py:CoefficientOfDeterminationFilter"]}
{"id": "C90", "title": "Results follow the axes of the channels", "statement": "If the magnetic channels are replaced by the combinations of them given by an invertible matrix (in physical units), the impedance estimated without remote is the same tensor in the new axes, and the same times are rejected. If the remote channels are so replaced, impedance, error and rejected times do not change at all, only the transfer to the remote does. transfer_function with the weights of the library converts likewise with axes of the inputs and units of the outputs.", "quantifier": "every invertible matrix, pair of reachable signal sets, options, unit-independent weight functions and prefilters", "why_tests_cant": "hat matrix weights, robust scales and stopping tests must all be independent of the axes; tests use one orientation", "anchors": ["src/razorback/utils.py:impedance", "src/razorback/mestimator.py:transfer_function", "src/razorback/weights.py:BoundedInfluenceStep", "src/razorback/prefilters.py:CoefficientOfDeterminationFilter"]}
{"id": "C91", "title": "Exact data give the exact impedance", "statement": "Without remote, if in every run each electric channel is sample by sample (in physical units) the same combination of the magnetic channels, then least squares returns exactly the coefficients of the combination at every frequency where the Fourier coefficients exist and those of the magnetic channels are independent on the windows kept by the prefilter.", "quantifier": "every reachable signal set, calibrations, frequency, window options, prefilter", "why_tests_cant": "combines calibration, windows, Fourier step and estimation on arbitrary runs", "anchors": ["src/razorback/utils.py:impedance", "src/razorback/signalset.py:SignalSet.fourier_coefficients"]}
{"id": "C92", "title": "Chains of estimations do not disturb one another", "statement": "chain_m_estimate is a generator. Several of them may be advanced in any order, also if they share weight objects (such as those of mest_weights), may be abandoned, and other estimations with the same objects may run in between: what each of them yields or raises is what it yields or raises alone. Consumed to the end it yields its starting values, then one pair per weighting, the last estimate and the union of rejections being those of transfer_function; if a step fails it yields the steps before, raises the exception of transfer_function, naming the number of the step in case of NonConvergence, and is finished. This is not so for estimations running concurrently: interleaved calls of one Thomson object by two estimations mix their scales.", "quantifier": "every set of chains, every order of advancing them, every change of the memories in between", "why_tests_cant": "all interleavings", "anchors": ["src/razorback/mestimator.py:chain_m_estimate", "src/razorback/mestimator.py:transfer_function", "src/razorback/weights.py:mest_weights"]}
{"id": "C93", "title": "What is printed of tags and signal sets is faithful", "statement": "repr of a Tags object is the same for equal Tags whatever the order of assignment, and different for different Tags if no name contains '=' (with '=' there are different Tags with the same repr). str of a signal set shows the numbers of channels and runs, and all its tags once, sorted by number of channels and name, in lines of at most 45 characters (or a single item) broken only between items. repr of a signal set is SignalSet(tags, runs...) if no name contains '%'; a name with '%s' makes it raise TypeError, and a tag called 'items' makes repr of the tags raise TypeError.", "quantifier": "every Tags object", "why_tests_cant": "all names, values and assignment orders", "anchors": ["src/razorback/signalset.py:Tags.__repr__", "src/razorback/signalset.py:Tags.__str__", "src/razorback/signalset.py:SignalSet.__str__", "src/razorback/signalset.py:SignalSet.__repr__"]}
{"id": "C94", "title": "Remote reference with least squares is the classical estimator", "statement": "With least squares and no prefilter, the estimation with a remote succeeds exactly when the remote channels are linearly independent over the windows and their cross spectra with the magnetic channels have independent rows; then the magnetic residual is orthogonal to the remote channels and the electric residual with respect to the measured magnetic field is orthogonal to the field predicted from the remote. With as many remote as magnetic channels the impedance is the unique solution Z of Z (b r*) = (e r*), failing exactly when b r* is singular; noise without correlation with the remote channels does not change the result at all. With any number of remote channels, data with e = Z b give exactly Z even if the remote does not predict the magnetic field.", "quantifier": "every reachable signal set, frequency, number of channels and windows", "why_tests_cant": "all data; relates two chained least squares to a closed formula", "anchors": ["src/razorback/utils.py:impedance", "src/razorback/mestimator.py:transfer_function", "src/razorback/mestimator.py:wlse"]}
{"id": "C95", "title": "Operations look neither at sample values nor at the origin of times", "statement": "Replacing every sample by a function of it (of any type), every calibration by a function of it that keeps the constant 1, and every time t by u t + d (rates divided by u > 0), then selecting, joining, extracting, merging, indexing, filtering inventories, gives the result of the operation on the original so replaced, and the same exception when there is one. With u = 1 the same holds of merge_consecutive_runs, pack and extract_groups; with u \u2260 1 it does not, the tolerance on consecutive runs being absolute. Sets that differ only in the values of samples give results of the same shape, or the same exception.", "quantifier": "every signal, signal set and inventory (no hypothesis of any kind), sample types, functions, origins and units", "why_tests_cant": "relates two executions of every operation; an absolute threshold or a look at the data would show for special values only", "anchors": ["src/razorback/signalset.py:SyncSignal.extract_t", "src/razorback/signalset.py:SignalSet.merge", "src/razorback/signalset.py:SignalSet.extract_t", "src/razorback/signalset.py:SignalSet.merge_consecutive_runs", "src/razorback/signalset.py:Inventory.pack"]}
{"id": "C96", "title": "Estimations do not depend on the origin and unit of times", "statement": "With times expressed from another origin and in another unit (and so rates, frequencies and the arguments of calibrations), Fourier coefficients, impedances, errors, transfers and prefilter values are the same, and the times reported (rejected windows, centres of windows) are the same times in the new origin and unit, whatever the options, weight functions and prefilters. Mass processing of an inventory does not depend on the origin.", "quantifier": "every signal set or inventory, frequencies, intervals, options, weight functions, prefilters, states of the weight functions", "why_tests_cant": "relates two executions of the whole pipeline", "anchors": ["src/razorback/utils.py:impedance", "src/razorback/utils.py:impedance_mass_proc", "src/razorback/utils.py:prefilter_values", "src/razorback/utils.py:prefilter_values_mass_proc", "src/razorback/signalset.py:SignalSet.fourier_coefficients"]}
{"id": "C97", "title": "The phase of a window does not matter", "statement": "If in every window all outputs and inputs are multiplied by one and the same number of absolute value one (which may differ from window to window), transfer_function with the weight functions of the library gives the same transfers, rejects the same windows, and raises the same error if it raises; if all data are conjugated the transfers are conjugated and the same windows are rejected. Likewise impedance() gives exactly the same results (error bars and rejected times included, with the prefilter of the library too) if in some runs the polarity of all the channels is reversed, or all of them are turned by a common phase.", "quantifier": "every number of windows, outputs and inputs, phases, lists of invalid windows, options, weight functions that treat windows alike (all library ones proved to be so), reachable signal sets", "why_tests_cant": "relates two executions of an iterative estimation; a missing conjugate or a real part shows for special data only", "anchors": ["src/razorback/mestimator.py:transfer_function", "src/razorback/mestimator.py:wlse", "src/razorback/utils.py:impedance", "src/razorback/weights.py:HuberWeight", "src/razorback/weights.py:BoundedInfluenceStep", "src/razorback/prefilters.py:CoefficientOfDeterminationFilter"]}
{"id": "C98", "title": "The order and the dates of the windows do not matter", "statement": "If the windows are taken in another order, transfer_function with the weight functions of the library gives the same transfers and rejects the same windows (at their new positions), or raises the same error. So without prefilter impedance, error and transfer to the remote are the same for any set made of the same runs at other dates, in any order; with the prefilter of the library, whose blocks are made of consecutive windows, they are the same if the order of the runs is.", "quantifier": "every permutation of the windows, every pair of reachable signal sets with the same runs, options, weight functions that treat windows alike (all library ones proved to be so)", "why_tests_cant": "all permutations; weights with memory (Thomson, bounded influence) could depend on positions", "anchors": ["src/razorback/mestimator.py:transfer_function", "src/razorback/utils.py:impedance", "src/razorback/weights.py:ThomsonWeight", "src/razorback/weights.py:BoundedInfluenceStep"]}
{"id": "C99", "title": "Giving other tags to a set, and joining sets, succeed exactly when the channels can be renumbered by name", "statement": "SignalSet(tags, set), for a set with runs, succeeds exactly when tags has as many indices as the set has channels and either equals the tags of the set or names every channel and follows from the tags of the set by renumbering: same names, same number of channels under each, and what is one channel in tags is one channel in the set. Otherwise it raises AssertionError when there is no renumbering, KeyError when a channel would get no name, ValueError when tags has more indices than channels. a.join(*args) succeeds exactly when in addition all runs have the channels of a and no two overlap by more than an instant. Tags given as a dict with integers or lists raise TypeError.", "quantifier": "all Tags, all sets and signals reachable through the API, any number of operands", "why_tests_cant": "every layout of tags; the exact boundary of acceptance", "anchors": ["src/razorback/signalset.py:SignalSet.__init__", "src/razorback/signalset.py:SignalSet._reorder_data", "src/razorback/signalset.py:SignalSet.join", "src/razorback/signalset.py:Tags.__or__"]}
{"id": "C100", "title": "Robust estimation never increases the loss it stands for", "statement": "A weighting that gives a residual of size x the weight W(x), W not increasing, belongs to the loss rho(x) = integral of t W(t) from 0 to x. No pass of the estimation (weights, then weighted least squares, then rejection of windows) increases the sum of the losses of the windows not rejected. For Thomson weights, whose scale is kept during a call, the sum decreases from the starting point through all passes, so that the result of a call which returns is at least as good as its starting point. For Huber weights, whose scale is computed again in each pass, this holds of each pass for the loss with the scale of that pass.", "quantifier": "every data, starting point, list of rejected windows, parameter, number of passes", "why_tests_cant": "a minimisation property of iterated estimates for all data", "anchors": ["src/razorback/mestimator.py:m_estimate", "src/razorback/weights.py:ThomsonWeight", "src/razorback/weights.py:HuberWeight"]}
{"id": "C101", "title": "Estimations in several threads are independent if they share no weight object", "statement": "Calls of transfer_function running in several threads, interleaved in any way between calls of weight objects, give or raise each what they give or raise alone, if no two of them have a weight object in common, whatever the objects of the library were used for before. With a Thomson object in common this is false: an estimation that succeeds alone may raise LinAlgError.", "quantifier": "every number of threads, data, weightings and order of execution", "why_tests_cant": "all interleavings", "anchors": ["src/razorback/mestimator.py:transfer_function", "src/razorback/mestimator.py:m_estimate", "src/razorback/weights.py:ThomsonWeight", "src/razorback/weights.py:mest_weights"]}
{"id": "C102", "title": "Order, grouping and interchange of the operations on signal sets", "statement": "merge and join do not depend on the order of the operands (up to numbering of the channels: same names, same runs, same samples and calibrations under each name), and merge succeeds in one order exactly when it does in another. Merging in two steps gives exactly the result of merging at once whenever both succeed, and succeeds if the merge at once does and the first step leaves a run; the converse fails. Extracting an interval before or after merge, join or channel selection gives the same when both are possible; extraction first keeps join possible, and merge if all runs have one rate. Channel selection commutes with run selection. merge succeeds exactly when names are disjoint, no operand is empty, and every common interval holds two samples of each run and, at equal rates, starts on a common sample.", "quantifier": "every number of reachable signal sets, permutation, grouping, interval and selection", "why_tests_cant": "algebraic laws over all pairs of execution orders", "anchors": ["src/razorback/signalset.py:SignalSet.merge", "src/razorback/signalset.py:SignalSet.join", "src/razorback/signalset.py:SignalSet.extract_t", "src/razorback/signalset.py:SignalSet.select_channels", "src/razorback/signalset.py:SignalSet.select_runs"]}
{"id": "C103", "title": "Estimations see only the channels they are told to use", "statement": "impedance and prefilter_values give the same (results, errors, rejected times or exceptions) on two signal sets whose runs have the same clocks and in which the names given in the options designate the same samples and calibrations, whatever the other channels, the numbering of channels and the other names, provided the calibrations of all channels are known at the frequencies in both or in neither. So the estimates do not depend on the order of the operands of merge and join, and channels not used may be dropped first if their calibrations are known. If such a calibration is unknown the result is NaN, although the channel is not used.", "quantifier": "every pair of reachable signal sets, options, weight functions, prefilters, frequencies", "why_tests_cant": "relates executions on different sets; a positional use of channels would show for special layouts only", "anchors": ["src/razorback/utils.py:impedance", "src/razorback/utils.py:prefilter_values", "src/razorback/signalset.py:SignalSet.fourier_coefficients", "src/razorback/signalset.py:SignalSet.select_channels", "src/razorback/signalset.py:SignalSet.merge", "src/razorback/signalset.py:SignalSet.join"]}
{"id": "C104", "title": "Outliers have a bounded influence, or none", "statement": "If more than half of the residuals are at most M in size, the MAD scale is at most M / 0.44845 whatever the others; it is zero if more than half of the residuals have the same size, and only if half of them have. In a Huber stage the weighted size of a residual is at most alpha times the scale, so no residual, however large, pulls the estimate by more than alpha M / 0.44845. A Thomson stage rejects, in each pass, exactly the samples whose residual reaches scale * (xi + log(exp(-xi^2) - log eps) / xi), besides those already rejected; so samples whose residual, for the estimate the stage starts from, is beyond this size for the scale M / 0.44845 never enter its result.", "quantifier": "all residuals, parameters alpha, xi and eps, estimations of any number of samples, inputs and passes", "why_tests_cant": "concerns arbitrarily large residuals and any minority of outliers; no finite set of data settles it", "anchors": ["src/razorback/weights.py:Huber.__call__", "src/razorback/weights.py:Thomson.__call__", "src/razorback/weights.py:mad_scale", "src/razorback/weights.py:median_absolute_deviation", "src/razorback/mestimator.py:m_estimate", "src/razorback/mestimator.py:_eval_weight"]}
{"id": "C105", "title": "Fourier coefficients are local, bounded and select their tone", "statement": "A Fourier coefficient depends on the samples of its own window of its own channel only. The coefficients of the part of a run that begins with window k are those of the run from window k on, as many as there are complete windows in the part. A coefficient is at most twice the largest sample of its window, times the mean absolute weight of the window function. Of a sum of tones and a constant, without window function and with windows of whole periods, only the tone at the requested frequency shows, as if alone.", "quantifier": "all data, rates, frequencies, numbers of periods, overlaps and window functions for which the coefficients are computed; all sums of tones", "why_tests_cant": "ranges over all data and window layouts; aliasing of windows or leakage would only show for special lengths", "anchors": ["src/razorback/fourier_transform.py:time_to_freq", "src/razorback/fourier_transform.py:discrete_window", "src/razorback/signalset.py:SyncSignal.fourier_coefficients", "src/razorback/signalset.py:SyncSignal.extract_i"]}
{"id": "C106", "title": "Failures of the estimation are reported, those of the Fourier step are not", "statement": "If an estimation does not converge, the text of the exception tells the maximal number of iterations and the step of the chain that failed, counted from 1, and determines both; it does not tell the weight function (it says weighting=1 always). With silent_fail, impedance prints for each result its frequency, followed by the exception that would be raised without silent_fail if there is one, and then by nothing if the result is the one obtained without it. A frequency whose Fourier coefficients cannot be computed is printed like a successful one. The percentages printed by the mass processing go from 0 by equal steps and stay below 100.", "quantifier": "all data, weight functions, options and lists of frequencies; all numbers of combinations and intervals", "why_tests_cant": "relates what is printed in one execution to what is raised in another one, for all data and options", "anchors": ["src/razorback/mestimator.py:chain_m_estimate", "src/razorback/mestimator.py:m_estimate", "src/razorback/utils.py:impedance", "src/razorback/utils.py:_impedance", "src/razorback/utils.py:impedance_mass_proc", "src/razorback/errors.py:NonConvergence"]}
{"id": "C107", "title": "Sequences of weight functions show what they contain", "statement": "The text of a sequence of weight functions without name determines the functions it contains, their order and their parameters (up to the rounding of the texts of numbers). A non-empty name is shown instead, and the name of the weights made by bi_weights tells its three arguments. A sequence without name that contains a sequence without name cannot be shown: TypeError is raised. Thomson(xi) is accepted exactly without xi or with a positive one.", "quantifier": "all sequences of weight functions of the library, all formats of numbers without parentheses and commas, all names", "why_tests_cant": "ambiguity of a text is a statement about all pairs of sequences", "anchors": ["src/razorback/weights.py:Weights.__repr__", "src/razorback/weights.py:Weights.__init__", "src/razorback/weights.py:Huber.__str__", "src/razorback/weights.py:Thomson.__init__", "src/razorback/weights.py:BoundedInfluenceStep.__str__", "src/razorback/weights.py:bi_weights"]}
{"id": "C108", "title": "The operators do what their names say, for operands of all types", "statement": "tags | s1 | s2 | ... succeeds exactly when SignalSet(tags, s1, s2, ...) does and gives the same set. A signal and a signal set can be joined by | in either order with the same result; | and & of two sets are join and merge; tags | set renumbers the channels of the set like SignalSet(tags, set). | returns for no other types of operands, & only for two signal sets and + only for two inventories. sum(inventories, Inventory()) has the sets of all the inventories in order; sum(inventories) raises AssertionError.", "quantifier": "all tags without reserved names, all signals, signal sets and inventories, any number of them, any rounding of times", "why_tests_cant": "an unbounded number of operands in any order of starts, including runs with equal starts", "anchors": ["src/razorback/signalset.py:Tags.__or__", "src/razorback/signalset.py:SignalSet.join", "src/razorback/signalset.py:SignalSet.merge", "src/razorback/signalset.py:Inventory.__add__", "src/razorback/signalset.py:SignalSet.__init__"]}
{"id": "C109", "title": "Packing depends neither on the order of the inventory nor on hash order", "statement": "For inventories with the same signal sets in any order, and whatever the order in which Python enumerates sets of names and of rates, pack (with or without keep_multi_tags) either raises for both or gives the same signal set up to the numbering of channels: same names, same runs, same timed samples and calibrations under each name. Every channel of the result has a name, so impedance on the packed set is the same, whatever its options. The exception that is raised may differ.", "quantifier": "all inventories of reachable signal sets with positive rates and at least two samples per run, all permutations, all enumeration orders, both values of keep_multi_tags", "why_tests_cant": "all orders; hash order differs between Python processes, so that a test sees one order only", "anchors": ["src/razorback/signalset.py:Inventory.pack", "src/razorback/signalset.py:Inventory._join_merge", "src/razorback/signalset.py:Inventory.merge", "src/razorback/signalset.py:SignalSet.join", "src/razorback/signalset.py:SignalSet.merge", "src/razorback/signalset.py:SignalSet.merge_consecutive_runs"]}
{"id": "C110", "title": "An estimation can be stopped and resumed", "statement": "transfer_function called with a sequence of weightings gives the same transfer and invalid indices as two calls in a row: one with a first, non-empty part of the sequence, and one with the rest, given the transfer as init and the invalid indices as invalid_idx. One succeeds exactly when the other does. It holds for all weight objects of the library, the same objects used or not, and for every weight function which starts afresh at iteration 0. If a first part of a sequence of weightings rejects every sample of an output, ValueError is raised at the next one.", "quantifier": "all data, starting values, invalid indices, sequences of weightings and ways to cut them in two", "why_tests_cant": "relates one execution with two chained ones for every cut of every chain; the renumbering of the invalid indices only shows when several steps reject", "anchors": ["src/razorback/mestimator.py:transfer_function", "src/razorback/mestimator.py:chain_m_estimate", "src/razorback/mestimator.py:merge_invalid_indices", "src/razorback/mestimator.py:eliminate"]}
{"id": "C111", "title": "Processing in mass does not depend on orders", "statement": "For inventories with the same signal sets in any order, and whatever the order in which Python enumerates sets of names and of rates, extract_groups succeeds for both or for none, and then gives one signal set per group, with the same names designating the same timed samples with the same calibrations; and impedance_mass_proc returns the same combinations and the same results for every combination, interval and frequency, and leaves shared weight objects in the same state, or raises in both cases.", "quantifier": "all inventories of reachable signal sets with positive rates and at least two samples per run, all permutations, all enumeration orders, all groups, remotes, frequencies, intervals and options", "why_tests_cant": "all orders; hash order differs between Python processes; the packed set of one group is packed again with the local channels, so that differences of numbering could spread", "anchors": ["src/razorback/utils.py:impedance_mass_proc", "src/razorback/signalset.py:Inventory.extract_groups", "src/razorback/signalset.py:Inventory.filter", "src/razorback/signalset.py:Inventory.pack"]}
{"id": "C112", "title": "Packing keeps everything it can", "statement": "If every tag of the inventory is recorded at a sampling rate from time a to time b (by runs of some of its signal sets that last over this interval), the signal set returned by pack() has at this rate, in one run and under the same tags, all that the signal sets of the inventory have from a to b, and conversely it has nothing else: for recordings synchronised with each other its samples are, with their times, exactly those recorded while every tag is recorded at the same rate. It has runs at exactly the rates for which there is such an interval. Packing a single signal set keeps all of its tagged data, and adding signal sets without new tags loses no data.", "quantifier": "all inventories of reachable signal sets with positive rates and at least two samples per run, all rates, intervals, tags, positions and samples; exact times: synchronised recordings with rates up to 10 MHz", "why_tests_cant": "the amount of data kept depends on all the overlaps of all the runs; a silently dropped run leaves a plausible, smaller signal set", "anchors": ["src/razorback/signalset.py:Inventory.pack", "src/razorback/signalset.py:Inventory._join_merge", "src/razorback/signalset.py:Inventory.select_channels", "src/razorback/signalset.py:SignalSet.merge", "src/razorback/signalset.py:SignalSet.join"]}
{"id": "C113", "title": "From recordings and files to the impedance", "statement": "Let the electric and the magnetic channels be recorded by separate synchronised instruments, each channel with its calibration, and let each electric field in physical units be, at every time and rate at which everything is recorded, the same linear combination of the magnetic ones. Then the impedance computed by least squares on the packed inventory is exactly the matrix of this combination, at every frequency where the Fourier coefficients can be computed and those of the magnetic channels are independent on the windows that are kept. The same holds for a signal set made of the signals loaded from ats files: the integers of the files, times the factor of each file, divided by the calibrations given to load_ats.", "quantifier": "all inventories of reachable signal sets with positive rates up to 10 MHz and at least two samples per run, all tags, calibrations, prefilters, options without weights or remote reference, all matrices; all lists of well-formed ats files with the same start, rate and length, all calibrations", "why_tests_cant": "the chain goes through packing, tags, calibrations, Fourier coefficients, prefilter and regression; a swapped channel or a calibration attached to the wrong channel gives a plausible impedance", "anchors": ["src/razorback/signalset.py:Inventory.pack", "src/razorback/utils.py:impedance", "src/razorback/mestimator.py:transfer_function", "src/razorback/io/ats.py:load_ats", "src/razorback/fourier_transform.py:time_to_freq"]}
{"id": "C114", "title": "Estimations on noise free data", "statement": "When each output is exactly a linear combination of the inputs, any coefficients returned by weighted least squares are exactly those of the combination, whatever the weights; so are those returned by impedance without remote reference, whatever the prefilter and the rejected windows, whenever it returns numbers. A robust estimation (with a weight function) never succeeds on such data: its test of convergence compares a change of zero to a residual of zero, and the call raises, or gives NaN with silent_fail.", "quantifier": "all data sizes, fields (real or complex), weights, weight functions, initial values, excluded samples, options; all reachable signal sets, tags, calibrations, prefilters, frequencies", "why_tests_cant": "needs a statement over all weight functions and over all iterations; synthetic tests add noise, and it is exactly the noise free case that raises", "anchors": ["src/razorback/mestimator.py:lse", "src/razorback/mestimator.py:m_estimate", "src/razorback/mestimator.py:transfer_function", "src/razorback/utils.py:impedance"]}
{"id": "C115", "title": "From recordings to the results of mass processing", "statement": "If, at every recorded instant, the electric channels tagged E of an inventory are in physical units exactly a fixed linear combination of the magnetic channels tagged B, then every impedance that impedance_mass_proc returns - for every combination of remotes, every time interval and every frequency - is either NaN or made of exactly the coefficients of the combination, for least squares without prefilter. For the combination without remote it holds whatever the weights and prefilters. Filtering, grouping, packing, cutting and renaming never pair samples of different instants.", "quantifier": "all inventories of synchronised regular signal sets, sampling rates (up to 10 MHz), calibrations, remote names and patterns, frequencies, intervals, set orders, options", "why_tests_cant": "spans the whole chain from inventory to impedance; one misaligned run or swapped tag anywhere breaks it, and tests only use a handful of layouts", "anchors": ["src/razorback/utils.py:impedance_mass_proc", "src/razorback/utils.py:impedance", "src/razorback/signalset.py:Inventory.pack", "src/razorback/signalset.py:Inventory.filter", "src/razorback/signalset.py:SignalSet.extract_t"]}
{"id": "C116", "title": "How recordings are cut into runs and files does not matter", "statement": "Packing depends only on what is recorded: for two inventories of synchronised recordings with the same values (same tag, position, time and sampling rate) while all tags are recorded, and the same calibrations, Inventory.pack gives signal sets with the same tags and the same runs (clocks, samples, calibrations), and so the same impedance estimates; in particular when every signal set of both inventories has all tags, only the recorded samples count, in whatever files and runs they come. The same holds of two signal sets given to merge_consecutive_runs, and any two signal sets with non-touching runs and the same samples have the same runs. (Recordings of different tags cut at neighbouring positions lose the sample between the cuts.)", "quantifier": "all inventories and signal sets with positive rates up to 10 MHz, at least two samples per run and no tag recorded twice at an instant; all set orders", "why_tests_cant": "tests compare a few fixed files; that every way of cutting gives the same result quantifies over all partitions of the recordings", "anchors": ["src/razorback/signalset.py:Inventory.pack", "src/razorback/signalset.py:SignalSet.merge_consecutive_runs", "src/razorback/utils.py:impedance"]}
{"id": "C117", "title": "The exception tells what went wrong", "statement": "discrete_window raises AssertionError for an overlap or frequency out of range, OverflowError when the shift is below one sample and the recording is longer than a window, and ValueError when no shifted window fits. fourier_coefficients raises ValueError without run, and else what the first failing run raises: AssertionError for a calibration without value at the frequency, channels of different lengths or a tapering window of another length, otherwise the exception of discrete_window. select_channels raises ValueError for an unknown identifier and AssertionError when nothing is selected; select_runs IndexError for a number outside and AssertionError for a run designated twice. join of two sets raises AssertionError when the tags cannot be renumbered or runs overlap, KeyError when a channel of the operand has no name, ValueError when it has too few channels. merge with an empty operand raises AssertionError when names are shared and ValueError otherwise; excluding an interval from a set without runs raises ValueError. A transfer function without output raises IndexError; without weight function nor starting value it returns None, on which the real formulation raises TypeError; BoundedInfluenceStep raises TypeError around a function without weights, and AssertionError when an iteration is skipped.", "quantifier": "all parameters, all reachable signal sets with plain tags, all numbers of runs, channels and samples, all weight functions", "why_tests_cant": "callers (silent_fail, scripts) discriminate on the kind; each boundary between kinds depends on sizes, rates and overlaps that range over infinite sets", "anchors": ["src/razorback/fourier_transform.py:discrete_window", "src/razorback/fourier_transform.py:time_to_freq", "src/razorback/signalset.py:SignalSet.fourier_coefficients", "src/razorback/signalset.py:SignalSet.select_channels", "src/razorback/signalset.py:SignalSet.select_runs", "src/razorback/signalset.py:SignalSet.join", "src/razorback/signalset.py:SignalSet.merge", "src/razorback/signalset.py:SignalSet.extract_t", "src/razorback/mestimator.py:transfer_function", "src/razorback/utils.py:transfer_function_real_prob", "src/razorback/weights.py:BoundedInfluenceStep"]}
{"id": "C118", "title": "What noise does to least squares and to its error", "statement": "Let the outputs of transfer_function be the response to the inputs plus noise of zero mean, uncorrelated from sample to sample, of constant power, whatever its law. The mean of the least squares estimate is the true transfer function; no combination of the outputs which is exact without noise has a smaller mean square distance to it; and the mean of the square of the error reported by transfer_error is exactly this mean square distance. Noise in the outputs orthogonal to the inputs changes nothing, while noise in the input brings the estimate towards zero. When samples are declared invalid the estimate is still right in the mean, but the error, computed with all the samples, is not: too large for an input of constant modulus, too small when the invalid samples have large inputs.", "quantifier": "all inputs, numbers of inputs, outputs and samples, transfer functions, probability spaces and laws of the noise; samples declared invalid: one input", "why_tests_cant": "statements about means over all realisations of a random noise; a wrong normalisation of the error goes unnoticed on any fixed data", "anchors": ["src/razorback/mestimator.py:transfer_function", "src/razorback/mestimator.py:transfer_error", "src/razorback/mestimator.py:m_estimate", "src/razorback/mestimator.py:wlse"]}
{"id": "C119", "title": "More iterations and a larger tolerance never hurt", "statement": "transfer_function and, without silent_fail, impedance with a larger maximal number of iterations give the same result, or raise the same exception, unless they had raised the exception of convergence. With silent_fail and weight objects which start afresh, each impedance is the same unless it was NaN. An estimation which succeeds with a tolerance succeeds with any larger one (its result may differ). Without weight functions none of the options of the iteration has an effect.", "quantifier": "all data, weight functions and chains of them, starting values, invalid samples, options, reachable or not signal sets, frequencies", "why_tests_cant": "relates two executions of an iteration of unbounded length, for every weight function, through chains, outputs, the two stages with remote reference and frequencies", "anchors": ["src/razorback/mestimator.py:m_estimate", "src/razorback/mestimator.py:transfer_function", "src/razorback/mestimator.py:chain_m_estimate", "src/razorback/utils.py:impedance"]}
{"id": "C120", "title": "Invalid indices counted from the end", "statement": "transfer_function accepts negative invalid indices, which count from the end. Whenever it returns, its transfer functions are those of the positions that are meant. But the invalid indices it returns are not: for least squares an index -k comes back as m+2-k, where m is the largest index given, whatever the number of samples; when all the indices are negative the call raises, or it is the last sample that was excluded and the first one that is reported. Indices counted from the start come back unchanged.", "quantifier": "all data, numbers of samples, outputs and inputs, weight functions (for the transfer functions), lists of indices, options", "why_tests_cant": "the wrong report depends on the largest index and not on the data; a test with one invalid sample near the end may agree by chance", "anchors": ["src/razorback/mestimator.py:transfer_function", "src/razorback/mestimator.py:merge_invalid_indices", "src/razorback/mestimator.py:chain_m_estimate", "src/razorback/mestimator.py:eliminate"]}
{"id": "C121", "title": "Longer recordings give better estimates, if the inputs are clean or a remote reference is used", "statement": "Take transfer_function by least squares on the first N samples of a sequence. If the mean products of the inputs tend to a regular matrix and those of the inputs with the noise of the outputs tend to zero, estimates exist from some N on and tend to the true transfer function; for independent samples of the same law this happens with probability one. If the inputs have noise too, the estimates tend to something else, for one input to the true value times the signal power over the power of signal and noise: more data does not help. With remote reference by least squares, for any number of remote channels, impedance on longer and longer recordings tends to the true impedance in spite of noise in the magnetic and electric channels, as soon as the mean cross spectra of the noise with the remote channels tend to zero.", "quantifier": "all sequences of samples, numbers of inputs, outputs and remote channels, probability spaces and laws with second moments; all sequences of reachable signal sets whose coefficients have such limits", "why_tests_cant": "a statement about limits of infinite sequences and about almost all realisations", "anchors": ["src/razorback/mestimator.py:transfer_function", "src/razorback/mestimator.py:wlse", "src/razorback/utils.py:impedance"]}
{"id": "C122", "title": "White noise in the recordings and the reported errors", "statement": "For a recording of white noise the Fourier coefficients of time_to_freq have zero mean, and the mean product of those of two windows is an explicit function of the samples the windows share: without overlap the coefficients are white noise of power 4 s sum|w|^2 / Lw^2, and with overlap (the default of impedance) and a positive window function the coefficients of windows which share samples are always correlated. So if the outputs are the response to the inputs plus white noise, the mean of the least squares estimate on the coefficients is the true transfer function for every overlap and window, and without overlap the mean square of the reported error is right. With overlap it is too small: for a pure tone, by the factor (Nw^2 Lw - V)/((Nw - 1) V), where V is the number of samples shared by pairs of windows.", "quantifier": "all recordings, lengths, frequencies, overlaps, window functions, numbers of inputs and outputs, probability spaces and laws of the noise; the exact bias: one input which is a pure tone, windows of a whole number of periods without window function", "why_tests_cant": "means over all realisations of a noise; correlation of overlapping windows only shows in the statistics of many runs", "anchors": ["src/razorback/fourier_transform.py:time_to_freq", "src/razorback/fourier_transform.py:discrete_window", "src/razorback/mestimator.py:transfer_function", "src/razorback/mestimator.py:transfer_error", "src/razorback/utils.py:impedance"]}
{"id": "C123", "title": "Impedance and error from noisy recordings", "statement": "If the same magnetic field is recorded again and again, in any number of runs at any rates, and in physical units every sample of an electric channel is the combination of the magnetic channels given by an impedance z plus a noise of zero mean, then impedance by least squares without remote and prefilter succeeds for every realisation and the means of its impedances are z, whatever the overlap, the window function, the calibrations of the channels and the correlations of the noise. If moreover the noise of each electric channel is white, the runs have one rate, the windows do not overlap and there are more windows than magnetic channels, then the errors are numbers and the means of their squares are the mean squares of the differences between the impedances and z.", "quantifier": "all recordings and sets, numbers and rates of runs, channels, calibrations, frequencies, overlaps, window functions, probability spaces and laws of the noise", "why_tests_cant": "means over all realisations of a noise, from the samples to the result of impedance", "anchors": ["src/razorback/utils.py:impedance", "src/razorback/signalset.py:SignalSet.fourier_coefficients", "src/razorback/fourier_transform.py:time_to_freq", "src/razorback/mestimator.py:transfer_function", "src/razorback/mestimator.py:transfer_error"]}
{"id": "C124", "title": "Printed tables and dates", "statement": "print(signal_set) shows the numbers of channels and runs, the tags and one row per run, in the order of time, with its rate and the dates of its first and last samples. A date is that of the time rounded to the nearest second (halves to even) in the Gregorian calendar from 1970-01-01 00:00:00, leap years included; the texts of two dates are equal exactly if the times round to the same second, and their order as texts is the order of time, so that from row to row the dates never go back. str raises exactly if a run begins or ends outside the years 1 to 9999 (ValueError) or a tag is called items (TypeError). The text of a set, and that of a synchronous signal, determines the numbers of channels and runs, the sizes for a synchronous signal, the printed rates and the seconds of all the beginnings and ends.", "quantifier": "all times, all signal sets that can be built, all synchronous signals, all conversions of rates to texts of 10 characters or more without newline", "why_tests_cant": "calendar rules over 10000 years, the order of all texts, and decodability for all pairs of sets", "anchors": ["src/razorback/signalset.py:SignalSet.__str__", "src/razorback/signalset.py:SyncSignal.__str__"]}
{"id": "C125", "title": "Fourier coefficients in floating point", "statement": "If every arithmetic operation of time_to_freq on samples and coefficients is off by a relative error of at most u (no overflow or underflow), then, whatever the order and the grouping in which numpy, dask or BLAS add the samples, each coefficient differs from the exact Fourier coefficient of its window by at most r times twice the mean absolute value of the tapered samples of the window, where r is explicit, depends only on u, the number of samples and the number of periods of the window, and is at most 2(Lw + 4 + 16 pi p)u for Lw samples and p periods. The windows are those that fit into the recording. In double precision windows of up to a million samples and a hundred periods give r < 1e-8; a tone over whole periods comes out with its amplitude and phase up to that error.", "quantifier": "all recordings, numbers of channels, rates, frequencies, overlaps, window functions, all roundings and all orders of summation", "why_tests_cant": "the order of summation depends on the machine, the chunks and the number of threads; a test sees one of them, and the bound is over all data", "anchors": ["src/razorback/fourier_transform.py:time_to_freq", "src/razorback/fourier_transform.py:discrete_window"]}
{"id": "C126", "title": "Least squares and the impedance in floating point", "statement": "If every arithmetic operation is off by a relative error of at most u and linalg.solve is backward stable (it solves exactly for a matrix changed by at most c u times its size), weighted least squares on data which are themselves off by a relative error gives an estimate off by at most an explicit quantity: the norm of the inverse of the normal matrix times the sum of the weights, the squared bound of the inputs and the errors. It tends to zero with the errors, so the estimate tends to the exact one, whatever the order of the additions. From the samples to the result: when the physical electric samples are combinations of the magnetic ones given by z, every impedance by least squares without prefilter that floating point arithmetic can give is within an explicit distance of z, relative to the sum of the absolute values of its row; in double precision, for up to a million windows of up to a million samples and a hundred periods, up to three magnetic channels and a condition K up to a million, within 2e-7 K. As the precision increases it tends to z, provided the exact magnetic coefficients are independent. With a remote, when moreover the magnetic samples are combinations of the remote ones given by t, the two stages compose: the transfer function between remote and magnetic channels is within an explicit distance of t, the predicted magnetic coefficients within the resulting relative error, and the impedance within an explicit distance of z; both tend to t and z as the precision increases. The exact computation, with or without remote, is one of those allowed, also for noisy recordings.", "quantifier": "all data, weights, numbers of samples, windows, runs and channels, calibrations, rates, frequencies, overlaps, window functions, all roundings and orders of summation; no overflow, underflow or NaN", "why_tests_cant": "the rounding errors depend on machine, libraries, chunks and threads; the bound holds over all of them and all data", "anchors": ["src/razorback/utils.py:impedance", "src/razorback/mestimator.py:wlse", "src/razorback/mestimator.py:dotdiag", "src/razorback/mestimator.py:transfer_function", "src/razorback/signalset.py:SignalSet.fourier_coefficients", "src/razorback/fourier_transform.py:time_to_freq"]}
{"id": "C127", "title": "Estimations with a fixed loss converge; Huber's may oscillate for ever", "statement": "If the weight of a residual is a fixed, continuous, non-increasing function of its size, then from some number maxit on an M-estimation gives a result (or an exception other than NonConvergence) which no larger maxit changes, unless some pass fits exactly all the samples it keeps. Thomson weights are of this kind, as their scale is kept from the first pass; so transfer_function with weight functions of this kind, in any number and order, with any data, starting values and invalid indices, settles or meets an exact fit. Exactly fitted data really raise NonConvergence for every maxit. Huber weights are not of this kind: their scale is found anew at each pass, and on the samples 0, 9, -4 of a constant the estimation alternates between two estimates for ever, so that transfer_function with the default mest_weights raises NonConvergence for every maxit and every tolerance up to 1/10.", "quantifier": "all weight functions with a fixed loss, all data, inputs, starting values, invalid indices, tolerances and thresholds above zero; all numbers of iterations", "why_tests_cant": "convergence speaks about every number of iterations and all data; a test sees finitely many runs that happened to converge", "anchors": ["src/razorback/mestimator.py:m_estimate", "src/razorback/mestimator.py:transfer_function", "src/razorback/weights.py:Huber.__call__", "src/razorback/weights.py:Thomson.__call__", "src/razorback/weights.py:mest_weights"]}
{"id": "C128", "title": "Small changes of the data make small changes of the estimates", "statement": "Take a robust estimation with Huber or Thomson weights, or with a bounded influence step over them, that succeeds, and none of whose decisions is a close call: in no pass does a weight equal the limit of rejection or the change equal the tolerance. If the data and the starting value tend to those of this estimation, then from some point on the estimation succeeds too, with exactly the same invalid indices, and the estimates tend to its estimate, whatever the state the weight object was left in. The same holds of transfer_function for all outputs and for every chain of least squares and such weights, in particular mest_weights and bi_weights, without condition for least squares alone: rounding or recalibrating the data by little has little effect. It holds of impedance itself, with and without a remote, without prefilter or with the filter by coefficients of determination when no coefficient is exactly at one of its limits: for every tolerance on the impedance there is a tolerance on the samples of the recordings such that whatever changes the samples by less still gives an impedance within tolerance, the same invalid times, and errors within tolerance wherever they are finite. Among the weights of a chain there may be functions supplied by the user, each of which applies a continuous function to every residual, and bounded influence steps over such functions, if they are not negative.", "quantifier": "all real or complex data of all sizes, starting values, invalid indices, options, positive parameters of the weights, chains of weights, and all perturbations of the data", "why_tests_cant": "continuity is a statement about all sequences of perturbed data, through medians, reweighting, rejections and a number of iterations which depends on the data", "anchors": ["src/razorback/mestimator.py:m_estimate", "src/razorback/mestimator.py:chain_m_estimate", "src/razorback/mestimator.py:transfer_function", "src/razorback/weights.py:Huber", "src/razorback/weights.py:Thomson", "src/razorback/weights.py:BoundedInfluenceStep", "src/razorback/weights.py:bi_weights", "src/razorback/weights.py:mad_scale", "src/razorback/utils.py:impedance", "src/razorback/prefilters.py:CoefficientOfDeterminationFilter", "src/razorback/mestimator.py:transfer_error"]}
{"id": "C129", "title": "Robust estimation in floating point arithmetic follows the exact one", "statement": "Take a robust estimation with Huber or Thomson weights, or with a bounded influence step over them, that succeeds in exact arithmetic and none of whose decisions is a close call. For every tolerance there is a precision such that, if every product, sum, quotient, norm, exponential and logarithm and the solution of every linear system are computed with at least that relative precision, sums being added in any order, on data within that distance of the given ones, then every result that is no exception has exactly the same invalid indices and an estimate within tolerance, however many passes and whatever the state the weight object was left in. The same holds of transfer_function for all outputs and for every chain of least squares and such weights. It holds of impedance itself, with and without a remote, without prefilter or with the filter by coefficients of determination when no coefficient is exactly at one of its limits, nor exactly zero and rejected: with enough precision in the Fourier coefficients, the coefficients of determination, the predicted field, both estimations and the errors, from recordings close enough and cut into the same windows, every impedance and every transfer from the remote that is not NaN is within tolerance, so is every error wherever the exact error is a number, and the same windows are left out. A window rejected for a coefficient of determination of exactly zero may be kept with any rounding, as its coefficient may be NaN. The exact result is always among the possible ones. Among the weights of a chain there may be functions supplied by the user, each of which applies a continuous function to every residual, and bounded influence steps over such functions, if they are not negative.", "quantifier": "all real or complex data of all sizes, starting values, invalid indices, options, positive parameters of the weights, chains of weights, all precisions and all rounding errors within them", "why_tests_cant": "a test sees one sequence of rounding errors; reweighting, rejections and the decision to stop compare rounded numbers, and any of them could flip", "anchors": ["src/razorback/mestimator.py:m_estimate", "src/razorback/mestimator.py:_eval_weight", "src/razorback/mestimator.py:wlse", "src/razorback/mestimator.py:chain_m_estimate", "src/razorback/mestimator.py:transfer_function", "src/razorback/weights.py:Huber", "src/razorback/weights.py:Thomson", "src/razorback/weights.py:BoundedInfluenceStep", "src/razorback/utils.py:impedance", "src/razorback/signalset.py:SignalSet.fourier_coefficients", "src/razorback/fourier_transform.py:time_to_freq", "src/razorback/prefilters.py:CoefficientOfDeterminationFilter", "src/razorback/utils.py:apply_prefilter"]}
