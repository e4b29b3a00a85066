/-
Model of `SignalSet` (src/razorback/signalset.py:146-651).
-/
import Verif.Model.Tags
import Verif.Model.Sync

namespace Razorback
open Rnd (rnd)

/-- State of a `SignalSet`: the sorted runs and the tags (signalset.py:248-250). -/
structure SigSet (α κ : Type _) where
  runs : List (Sync α κ)
  tags : Tags
deriving DecidableEq, Repr

/-- The `tags` argument: a `Tags` object or a plain dict. -/
inductive TagsArg
  | tags (t : Tags)
  | dict (d : List (String × TagVal))

/-- A positional signal argument of `SignalSet(tags, *signals)`. -/
inductive SigArg (α κ : Type _)
  | sync (s : Sync α κ)
  | set (S : SigSet α κ)

/-- Items seen when iterating on a tags argument. -/
def TagsArg.entries : TagsArg → List (String × TagVal)
  | .tags t => t.tags.map (fun e => (e.1, Tags.toVal e.2))
  | .dict d => d

/-- A given bound of a slice on a sequence of length `n`, clamped as `slice.indices(n)` does: below at -1
(0 for a positive step), above at `n - 1` (`n`). -/
def sliceClamp (n : Nat) (step x : Int) : Int :=
  if x < 0 then max (x + n) (if step < 0 then -1 else 0)
  else min x (if step < 0 then (n : Int) - 1 else n)

/-- First bound of `slice.indices(n)`. -/
def sliceLo (n : Nat) (step : Int) : Option Int → Int
  | some x => sliceClamp n step x
  | none => if step < 0 then (n : Int) - 1 else 0

/-- Second bound of `slice.indices(n)`. -/
def sliceHi (n : Nat) (step : Int) : Option Int → Int
  | some x => sliceClamp n step x
  | none => if step < 0 then -1 else n

/-- Indices designated by `slice(a, b, c)` on a sequence of length `n`, that is
`range(*slice(a, b, c).indices(n))` (used at signalset.py:427-428 and, through numpy, 459); step 0 raises
ValueError. -/
def sliceIndices (n : Nat) (a b c : Option Int) : Except Err (List Nat) :=
  let step := c.getD 1
  let lo := sliceLo n step a
  let hi := sliceHi n step b
  if step = 0 then .error .value
  else
    let count : Nat := if step < 0 then ((lo - hi - step - 1) / (-step)).toNat
                       else ((hi - lo + step - 1) / step).toNat
    .ok ((List.range count).map (fun i : Nat => (lo + (i : Int) * step).toNat))

/-- An index for the runs, as accepted by 1-d numpy indexing (signalset.py:452-460). -/
inductive RunIdx
  | int (i : Int)
  | list (l : List Int)
  | slice (a b c : Option Int)
  | mask (m : List Bool)

/-- One integer index of a 1-d numpy array of length `n`: negative from the end, IndexError outside. -/
def npIndex (n : Nat) (i : Int) : Except Err Nat :=
  let j := if i < 0 then i + n else i
  if 0 ≤ j ∧ j < n then .ok j.toNat else .error .index

/-- `np.arange(n)[runs].flat`: a boolean mask must have length `n` (IndexError otherwise). -/
def RunIdx.resolve (n : Nat) : RunIdx → Except Err (List Nat)
  | .int i => mapE (npIndex n) [i]
  | .list l => mapE (npIndex n) l
  | .slice a b c => sliceIndices n a b c
  | .mask m => if m.length = n then
      .ok ((m.zipIdx.filter (fun p => p.1)).map (fun p => p.2)) else .error .index

/-- Channel identifiers (signalset.py:414-420). -/
inductive ChanId
  | name (k : String)
  | idx (i : Int)

/-- The argument of `select_channels`: one identifier, a sequence of identifiers, or a slice. -/
inductive ChanSel
  | one (c : ChanId)
  | many (l : List ChanId)
  | slice (a b c : Option Int)

namespace SigSet
variable {α κ : Type _}

/-- Number of channels of a list of runs: 0 without runs (signalset.py:299-306 while `_tags` is None). -/
def chanCount : List (Sync α κ) → Nat
  | [] => 0
  | s :: _ => s.data.length

/-- Property `nb_channels`, signalset.py:299-306: without runs, the number of tag indices. -/
def nbChannels (S : SigSet α κ) : Nat :=
  match S.runs with
  | [] => S.tags.indices.length
  | s :: _ => s.data.length

/-- The tags setter, signalset.py:405-412, for a set with `n` channels.
`getattr(value, 'indices', None)` is None for a dict; `**value` on a `Tags` calls its `keys()`. -/
def mkTags (n : Nat) : TagsArg → Except Err Tags
  | .tags t =>
    if n ≠ 0 ∧ ¬ (t.indices.all (fun i => decide (i < n))) then .error .value
    else match t.kwargs with
      | .error e => .error e
      | .ok d => Tags.new (if n = 0 then none else some n) (d.map (fun e => (e.1, Tags.toVal e.2)))
  | .dict d => Tags.new (if n = 0 then none else some n) d

/-- `s.tags = value`, signalset.py:405-412. -/
def setTags (S : SigSet α κ) (v : TagsArg) : Except Err (SigSet α κ) :=
  match mkTags S.nbChannels v with
  | .error e => .error e
  | .ok t => .ok { S with tags := t }

/-- `l[i][1] <= l[i+1][0]` for all adjacent pairs (signalset.py:246). -/
def noOverlap : List (ℚ × ℚ) → Bool
  | a :: b :: l => decide (a.2 ≤ b.1) && noOverlap (b :: l)
  | _ => true

/-- `SignalSet.__init__` for `SyncSignal` arguments, signalset.py:242-250.  Python's `sorted` is stable. -/
def build [Rnd] (tags : TagsArg) (runs : List (Sync α κ)) : Except Err (SigSet α κ) :=
  if 1 < (dedup (runs.map (fun s => s.data.length))).length then .error .assertion
  else match mapE Sync.interval runs with
    | .error e => .error e
    | .ok ivs =>
      if noOverlap (sortBy (fun a b => decide (a.1 ≤ b.1)) ivs) then
        let runs' := sortBy (fun a b => decide (a.start ≤ b.start)) runs
        match mkTags (chanCount runs') tags with
        | .error e => .error e
        | .ok t => .ok { runs := runs', tags := t }
      else .error .assertion

/-- `self.tags == tags` (signalset.py:340): a dict is never equal to a `Tags`. -/
def tagsEq (t : Tags) : TagsArg → Bool
  | .tags t' => t.eq t'
  | .dict _ => false

/-- The length check of signalset.py:346 on one entry: `len` of an integer raises TypeError, a different
length fails the assertion. -/
def reorderLen (t : Tags) (e : String × TagVal) : Except Err Unit :=
  match e.2 with
  | .int _ => .error .type
  | .tup l => if l.length = ((t.tags.get? e.1).getD []).length then .ok () else .error .assertion
  | .lst l => if l.length = ((t.tags.get? e.1).getD []).length then .ok () else .error .assertion

/-- One operand of `sum((tags[t] for t in tags), ())`, signalset.py:348: a list cannot be added to a tuple. -/
def tupleVal : TagVal → Except Err (List Int)
  | .tup l => .ok l
  | _ => .error .type

/-- The pairs `(ni, si)` of signalset.py:348-353. -/
def reorderPairs (t : Tags) (es : List (String × TagVal)) (news : List (List Int)) : List (Int × Nat) :=
  (news.flatten).zip (es.flatMap (fun e => (t.tags.get? e.1).getD []))

/-- `inv[i]` after signalset.py:351-355: KeyError if channel `i` of the new numbering has no tag. -/
def invGet (pairs : List (Int × Nat)) (i : Nat) : Except Err Nat :=
  match pairs.find? (fun p => p.1 == (i : Int)) with
  | some p => .ok p.2
  | none => .error .key

/-- The renumbering of signalset.py:340-355: `none` when the tags are already equal, otherwise the pairs
(new index, own index), which must be functional. -/
def reorderMap (t : Tags) (tags : TagsArg) : Except Err (Option (List (Int × Nat))) :=
  if tagsEq t tags then .ok none
  else
    let es := tags.entries
    if es.all (fun e => t.tags.has e.1) && t.tags.keys.all (fun k => es.any (fun e => e.1 == k)) then
      match mapE (reorderLen t) es with
      | .error e => .error e
      | .ok _ =>
        match mapE (fun e => tupleVal e.2) es with
        | .error e => .error e
        | .ok news =>
          let pairs := reorderPairs t es news
          if pairs.all (fun p => pairs.all (fun q => p.1 != q.1 || p.2 == q.2)) then .ok (some pairs)
          else .error .assertion
    else .error .assertion

/-- The reordered copy of one run, signalset.py:358-364. -/
def reorderRun [One κ] (pairs : List (Int × Nat)) (n : Nat) (s : Sync α κ) : Except Err (Sync α κ) :=
  match mapE (invGet pairs) (List.range n) with
  | .error e => .error e
  | .ok idx => s.select (idx.map Int.ofNat)

/-- `_reorder_data(tags)`, signalset.py:333-368. -/
def reorder [Rnd] [One κ] (S : SigSet α κ) (tags : TagsArg) : Except Err (SigSet α κ) :=
  match reorderMap S.tags tags with
  | .error e => .error e
  | .ok none => .ok S
  | .ok (some pairs) =>
    match mapE (reorderRun pairs S.nbChannels) S.runs with
    | .error e => .error e
    | .ok runs => build tags runs

/-- Runs contributed by an argument, signalset.py:237-240: a `SyncSignal` is taken as is. -/
def argRuns [Rnd] [One κ] (tags : TagsArg) : SigArg α κ → Except Err (List (Sync α κ))
  | .sync s => .ok [s]
  | .set S =>
    match S.reorder tags with
    | .error e => .error e
    | .ok S' => .ok S'.runs

/-- `SignalSet(tags, *signals)`, signalset.py:236-250. -/
def new [Rnd] [One κ] (tags : TagsArg) (args : List (SigArg α κ)) : Except Err (SigSet α κ) :=
  match mapE (argRuns tags) args with
  | .error e => .error e
  | .ok rss => build tags rss.flatten

/-- Indices designated by one identifier, signalset.py:435-442. -/
def resolveChan (t : Tags) : ChanId → Except Err (List Nat)
  | .name k => match t.tags.get? k with
    | some v => .ok v
    | none => .error .value
  | .idx i => if i.toNat ∈ t.indices ∧ 0 ≤ i then .ok [i.toNat] else .error .value

/-- The sequence of identifiers obtained from the argument, signalset.py:425-433. -/
def chanIds (t : Tags) (nb : Nat) : ChanSel → Except Err (List ChanId)
  | .one (.name k) => match t.tags.get? k with
    | some v => .ok (v.map (fun i : Nat => .idx (i : Int)))
    | none => .error .value
  | .one (.idx i) => .ok [.idx i]
  | .many l => .ok l
  | .slice a b c => match sliceIndices nb a b c with
    | .error e => .error e
    | .ok l => .ok (l.map (fun i : Nat => .idx (i : Int)))

/-- The sorted list of selected indices, signalset.py:435-444. -/
def chanIndices (t : Tags) (nb : Nat) (sel : ChanSel) : Except Err (List Nat) :=
  match chanIds t nb sel with
  | .error e => .error e
  | .ok ids =>
    match mapE (resolveChan t) ids with
    | .error e => .error e
    | .ok l => .ok (sortBy (fun a b => decide (a ≤ b)) (dedup l.flatten))

/-- The tags of the selection, signalset.py:445-448: kept tags are renumbered by position in `indices`. -/
def selectTags (t : Tags) (indices : List Nat) : Except Err Tags :=
  match t.items with
  | .error e => .error e
  | .ok its =>
    Tags.new (some indices.length)
      ((its.filter (fun e => e.2.all (fun i => decide (i ∈ indices)))).map
        (fun e => (e.1, Tags.toVal (e.2.map (fun i => indices.idxOf i)))))

/-- `select_channels(channels)`, signalset.py:414-450. -/
def selectChannels [Rnd] [One κ] (S : SigSet α κ) (sel : ChanSel) : Except Err (SigSet α κ) :=
  match chanIndices S.tags S.nbChannels sel with
  | .error e => .error e
  | .ok indices =>
    match selectTags S.tags indices with
    | .error e => .error e
    | .ok t =>
      match mapE (fun s : Sync α κ => s.select (indices.map Int.ofNat)) S.runs with
      | .error e => .error e
      | .ok runs => build (.tags t) runs

/-- `select_runs(runs)`, signalset.py:452-461. -/
def selectRuns [Rnd] (S : SigSet α κ) (r : RunIdx) : Except Err (SigSet α κ) :=
  match r.resolve S.runs.length with
  | .error e => .error e
  | .ok idx => build (.tags S.tags) (idx.filterMap (fun i => S.runs[i]?))

/-- `join(*others)`, signalset.py:463-477. -/
def join [Rnd] [One κ] (S : SigSet α κ) (others : List (SigArg α κ)) : Except Err (SigSet α κ) :=
  new (.tags S.tags) (.set S :: others)

/-- `extract_t(start, stop)` with `exclude=False`, signalset.py:554-556. -/
def extractIn [Rnd] [One κ] (S : SigSet α κ) (start stop : ℚ) : Except Err (SigSet α κ) :=
  match mapE (fun s : Sync α κ => s.extractT start stop) S.runs with
  | .error e => .error e
  | .ok rs => build (.tags S.tags) (rs.filter (fun s => decide (1 < s.size)))

/-- `min` of a non-empty numpy array (ValueError on an empty one). -/
def npMin : List ℚ → Except Err ℚ
  | [] => .error .value
  | a :: l => .ok (l.foldl min a)

/-- `max` of a non-empty numpy array (ValueError on an empty one). -/
def npMax : List ℚ → Except Err ℚ
  | [] => .error .value
  | a :: l => .ok (l.foldl max a)

/-- `extract_t(start, stop, exclude)`, signalset.py:542-556. -/
def extractT [Rnd] [One κ] (S : SigSet α κ) (start stop : ℚ) (exclude : Bool := false) : Except Err (SigSet α κ) :=
  if exclude then
    match npMin (S.runs.map (fun s => s.start)) with
    | .error e => .error e
    | .ok first =>
      match S.extractIn first start with
      | .error e => .error e
      | .ok left =>
        match mapE Sync.stop S.runs with
        | .error e => .error e
        | .ok stops =>
          match npMax stops with
          | .error e => .error e
          | .ok last =>
            match S.extractIn stop last with
            | .error e => .error e
            | .ok right => left.join [.set right]
  else S.extractIn start stop

/-- The intervals of `rec(d, f, seq)`, signalset.py:504-512: `continue` for a run that ends at or before
`d`, `return` at the first that starts at or after `f`. -/
def common : List (List (ℚ × ℚ)) → ℚ → ℚ → List (ℚ × ℚ)
  | [], d, f => [(d, f)]
  | ivs :: seq, d, f => go seq (fun d f => common seq d f) ivs d f
where
  go (_seq : List (List (ℚ × ℚ))) (k : ℚ → ℚ → List (ℚ × ℚ)) : List (ℚ × ℚ) → ℚ → ℚ → List (ℚ × ℚ)
    | [], _, _ => []
    | (dh, fh) :: ivs, d, f =>
      if fh ≤ d then go _seq k ivs d f
      else if f ≤ dh then []
      else k (max d dh) (min f fh) ++ go _seq k ivs d f

/-- Offsets `shift` and their end, signalset.py:498-499. -/
def shifts : Nat → List (SigSet α κ) → List Nat
  | _, [] => []
  | c, S :: seqs => c :: shifts (c + S.nbChannels) seqs

/-- The merged tag dictionary, signalset.py:494-502.  `keys()` and `items()` raise TypeError when hidden. -/
def mergeTags (seqs : List (SigSet α κ)) : Except Err Tags :=
  match mapE (fun S : SigSet α κ => S.tags.callMethod "keys") seqs with
  | .error e => .error e
  | .ok _ =>
    if ¬ (seqs.flatMap (fun S => S.tags.tags.keys)).Nodup then .error .assertion
    else match mapE (fun S : SigSet α κ => S.tags.items) seqs with
      | .error e => .error e
      | .ok its =>
        Tags.new (some ((seqs.map nbChannels).sum))
          (((shifts 0 seqs).zip its).flatMap
            (fun p => p.2.map (fun e => (e.1, .lst (e.2.map (fun i : Nat => (i : Int) + p.1))))))

/-- One common interval, signalset.py:519-536: `none` when the sampling rates differ. -/
def mergeOne [Rnd] [One κ] (seqs : List (SigSet α κ)) (start stop : ℚ) : Except Err (Option (Sync α κ)) :=
  match mapE (fun S : SigSet α κ => S.extractIn start stop) seqs with
  | .error e => .error e
  | .ok sets =>
    if sets.all (fun S => S.runs.length == 1) then
      let ss := sets.flatMap (fun S => S.runs)
      match dedup (ss.map (fun s => s.rate)) with
      | [rate] =>
        if ss.all (fun s => s.start == start) then
          match Sync.new (ss.flatMap (fun s => s.data)) rate start (ss.flatMap (fun s => s.cals)) with
          | .error e => .error e
          | .ok s => .ok (some s)
        else .error .assertion
      | _ => .ok none
    else .error .assertion

/-- `np.min`/`np.max` over the intervals of a set: all bounds (signalset.py:515). -/
def bounds (ivs : List (ℚ × ℚ)) : List ℚ := ivs.flatMap (fun i => [i.1, i.2])

/-- The intervals explored by `merge`, signalset.py:514-516. -/
def mergeIntervals [Rnd] (seqs : List (SigSet α κ)) : Except Err (List (ℚ × ℚ)) :=
  match mapE (fun S : SigSet α κ => mapE Sync.interval S.runs) seqs with
  | .error e => .error e
  | .ok ivss =>
    match mapE (fun ivs => npMin (bounds ivs)) ivss with
    | .error e => .error e
    | .ok mins =>
      match npMin mins with
      | .error e => .error e
      | .ok start =>
        match mapE (fun ivs => npMax (bounds ivs)) ivss with
        | .error e => .error e
        | .ok maxs =>
          match npMax maxs with
          | .error e => .error e
          | .ok stop => .ok (common ivss start stop)

/-- `merge(*others)`, signalset.py:479-538 (arguments that are signal sets). -/
def merge [Rnd] [One κ] (S : SigSet α κ) (others : List (SigSet α κ)) : Except Err (SigSet α κ) :=
  match mergeTags (S :: others) with
  | .error e => .error e
  | .ok t =>
    match mergeIntervals (S :: others) with
    | .error e => .error e
    | .ok ivs =>
      match mapE (fun i => mergeOne (S :: others) i.1 i.2) ivs with
      | .error e => .error e
      | .ok rs => build (.tags t) (rs.filterMap id)

/-- `np.isclose(a, b)` with the default tolerances, for finite numbers. -/
def isclose [Rnd] (a b : ℚ) : Bool := decide (|rnd (a - b)| ≤ rnd (rnd (1 / 10 ^ 8) + rnd (rnd (1 / 10 ^ 5) * |b|)))

/-- `is_consecutive` for one sampling rate, signalset.py:617-619: comparisons with the NaN put at runs of
another rate are False. -/
def isConsecutive [Rnd] (rate : ℚ) : List (Sync α κ) → List Bool
  | a :: b :: l =>
    (a.rate == rate && b.rate == rate && isclose (rnd (1 / rate)) (rnd (b.start - rnd (a.start + rnd (rnd ((a.size : ℚ) - 1) / a.rate)))))
      :: isConsecutive rate (b :: l)
  | _ => []

/-- `_group_indices`, signalset.py:634-651; `none` is a slice without end. -/
def groupIndices (bs : List Bool) : List (Nat × Option Nat) := go bs 0 none
where
  go : List Bool → Nat → Option Nat → List (Nat × Option Nat)
    | [], _, none => []
    | [], _, some st => [(st, none)]
    | true :: bs, i, some st => go bs (i + 1) (some st)
    | false :: bs, i, none => go bs (i + 1) none
    | false :: bs, i, some st => (st, some (i + 1)) :: go bs (i + 1) none
    | true :: bs, i, none => go bs (i + 1) (some i)

/-- The fused run of a group, signalset.py:621-627.  (A selection of existing runs is never empty here.) -/
def fuse [One κ] (rate : ℚ) (G : SigSet α κ) : Except Err (Sync α κ) :=
  match G.runs with
  | [] => .error .index
  | s :: _ =>
    Sync.new ((List.range G.nbChannels).map (fun i => G.runs.flatMap (fun v => (v.data[i]?).getD [])))
      rate s.start s.cals

/-- One step of the inner loop, signalset.py:620-628: the result so far and the positions already added. -/
def fuseStep [Rnd] [One κ] (S : SigSet α κ) (rate : ℚ) (st : SigSet α κ × List Nat) (g : Nat × Option Nat) :
    Except Err (SigSet α κ × List Nat) :=
  match S.selectRuns (.slice (some g.1) (g.2.map Int.ofNat) none) with
  | .error e => .error e
  | .ok G =>
    match fuse rate G with
    | .error e => .error e
    | .ok s =>
      match st.1.join [.sync s] with
      | .error e => .error e
      | .ok res => .ok (res, st.2 ++ (List.range S.runs.length).filter
          (fun i => decide (g.1 ≤ i) && decide (i < g.2.getD S.runs.length)))

/-- `merge_consecutive_runs`, signalset.py:608-631.  `np.unique` sorts the rates. -/
def mergeConsecutive [Rnd] [One κ] (S : SigSet α κ) : Except Err (SigSet α κ) :=
  match new (.tags S.tags) ([] : List (SigArg α κ)) with
  | .error e => .error e
  | .ok res0 =>
    let rates := sortBy (fun a b => decide (a ≤ b)) (dedup (S.runs.map (fun s => s.rate)))
    match foldE (fun st rate => foldE (fuseStep S rate) st (groupIndices (isConsecutive rate S.runs)))
        (res0, []) rates with
    | .error e => .error e
    | .ok (res, added) =>
      match S.selectRuns (.list (((List.range S.runs.length).filter (fun i => decide (i ∉ added))).map Int.ofNat)) with
      | .error e => .error e
      | .ok rest => res.join [.set rest]

/-- `s[idx]` with a tuple (or a single index), signalset.py:313-331. -/
def getItem [Rnd] [One κ] (S : SigSet α κ) (chan : Option ChanSel) (runs : List RunIdx) : Except Err (SigSet α κ) :=
  match chan, runs with
  | none, _ => .ok S
  | some c, [] => S.selectChannels c
  | some c, [r] =>
    match S.selectChannels c with
    | .error e => .error e
    | .ok S' => S'.selectRuns r
  | some _, _ :: _ :: _ => .error .index

/-- `__getattr__`, signalset.py:293-297, for a name that is not an attribute of the object: a ValueError of
the selection becomes AttributeError. -/
def getAttr [Rnd] [One κ] (S : SigSet α κ) (name : String) : Except Err (SigSet α κ) :=
  match S.selectChannels (.one (.name name)) with
  | .ok S' => .ok S'
  | .error .value => .error .attr
  | .error e => .error e

end SigSet
end Razorback
