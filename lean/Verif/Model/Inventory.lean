/-
Model of `Inventory` (src/razorback/signalset.py:875-1064).
-/
import Verif.Model.SigSet
import Verif.Model.Fnmatch

namespace Razorback

/-- The content of an `Inventory`, signalset.py:898-900. -/
abbrev Inventory (α κ : Type _) := List (SigSet α κ)

/-- An object given to `append`/`extend`: a `SignalSet` or anything else. -/
inductive InvObj (α κ : Type _)
  | set (S : SigSet α κ)
  | other

/-- The order in which Python enumerates a set, given the order of insertion of its elements.  It depends on
hashes, which change from one process to the next: it is a parameter of the model. -/
structure SetOrder where
  names : List String → List String
  rates : List ℚ → List ℚ

namespace Inventory
variable {α κ : Type _}

/-- `append(obj)`, signalset.py:931-937, 925-929: the new content and the exception raised, if any. -/
def append (I : Inventory α κ) : InvObj α κ → Inventory α κ × Option Err
  | .set S => (I ++ [S], none)
  | .other => (I, some .value)

/-- `extend(seq)`, signalset.py:939-945. -/
def extend (I : Inventory α κ) : List (InvObj α κ) → Inventory α κ × Option Err
  | [] => (I, none)
  | o :: l =>
    match append I o with
    | (I', none) => extend I' l
    | (I', some e) => (I', some e)

/-- `Inventory(content)`, signalset.py:898-900. -/
def new (l : List (InvObj α κ)) : Except Err (Inventory α κ) :=
  match extend [] l with
  | (I, none) => .ok I
  | (_, some e) => .error e

/-- `inv[idx]` for an integer, signalset.py:908-909 (indexing of a list). -/
def getItem (I : Inventory α κ) (i : Int) : Except Err (SigSet α κ) :=
  let j := if i < 0 then i + I.length else i
  if j < 0 then .error .index
  else match I[j.toNat]? with
    | some S => .ok S
    | none => .error .index

/-- `a + b`, signalset.py:919-923. -/
def add (I J : Inventory α κ) : Except Err (Inventory α κ) := new ((I ++ J).map .set)

/-- Property `tags`, signalset.py:947-951: the set of names, in order of insertion. -/
def names (I : Inventory α κ) : List String := I.flatMap (fun S => S.tags.tags.keys)

/-- `list(inv.tags)` and the like: the elements of the set built from `l`, in hash order. -/
def setOf (o : SetOrder) (l : List String) : List String := o.names (dedup l)

/-- `extract_t(start, stop, exclude)`, signalset.py:969-974. -/
def extractT [Rnd] [One κ] (I : Inventory α κ) (start stop : ℚ) (exclude : Bool := false) :
    Except Err (Inventory α κ) :=
  match mapE (fun S : SigSet α κ => S.extractT start stop exclude) I with
  | .error e => .error e
  | .ok l => new ((l.filter (fun S => !S.runs.isEmpty)).map .set)

/-- `e.tags.get(k, ())`: TypeError if a tag is called `get`. -/
def tagGet (S : SigSet α κ) (k : String) : Except Err (List Nat) :=
  match S.tags.callMethod "get" with
  | .error e => .error e
  | .ok _ => .ok ((S.tags.tags.get? k).getD [])

/-- The selection in one element, signalset.py:979-981: `none` for a dropped element.  The set of indices is
given to `select_channels`, whose result does not depend on its enumeration; here insertion order. -/
def selectIn [Rnd] [One κ] (keys : List String) (S : SigSet α κ) : Except Err (Option (SigSet α κ)) :=
  match mapE (tagGet S) keys with
  | .error e => .error e
  | .ok l =>
    if l.flatten.isEmpty then .ok none
    else match S.selectChannels (.many ((dedup l.flatten).map (fun i : Nat => .idx (i : Int)))) with
      | .error e => .error e
      | .ok R => .ok (some R)

/-- `select_channels(*keys)`, signalset.py:976-982. -/
def selectChannels [Rnd] [One κ] (I : Inventory α κ) (keys : List String) : Except Err (Inventory α κ) :=
  match mapE (selectIn keys) I with
  | .error e => .error e
  | .ok l => new ((l.filterMap id).map .set)

/-- `select_runs(runs)`, signalset.py:984-989. -/
def selectRuns [Rnd] (I : Inventory α κ) (runs : List RunIdx) : Except Err (Inventory α κ) :=
  if runs.length ≠ I.length then .error .assertion
  else match mapE (fun p : SigSet α κ × RunIdx => p.1.selectRuns p.2) (I.zip runs) with
    | .error e => .error e
    | .ok l => new ((l.filter (fun S => !S.runs.isEmpty)).map .set)

/-- `filter(*patterns)`, signalset.py:991-1005. -/
def filter [Rnd] [One κ] (o : SetOrder) (I : Inventory α κ) (patterns : List String) : Except Err (Inventory α κ) :=
  I.selectChannels (setOf o (patterns.flatMap (fun p => Fnmatch.filter (setOf o I.names) p)))

/-- `frozenset(e for e in self if t in e.tags)`, signalset.py:1023-1024.  Elements are compared by identity in
Python; positions give the same grouping of names. -/
def holders (I : Inventory α κ) (t : String) : List Nat :=
  (List.range I.length).filter (fun i => (I[i]?).any (fun S => S.tags.tags.has t))

/-- `group_keys.setdefault(h, []).append(t)`, signalset.py:1024. -/
def addTo (d : List (List Nat × List String)) (h : List Nat) (t : String) : List (List Nat × List String) :=
  match d with
  | [] => [(h, [t])]
  | (h', ts) :: d => if h' = h then (h', ts ++ [t]) :: d else (h', ts) :: addTo d h t

/-- The loop of signalset.py:1022-1024. -/
def groups (I : Inventory α κ) (ts : List String) : List (List Nat × List String) :=
  ts.foldl (fun d t => addTo d (I.holders t) t) []

/-- Comparison of lists of strings, lexicographic. -/
def leNames : List String → List String → Bool
  | [], _ => true
  | _ :: _, [] => false
  | a :: l, b :: l' => if a = b then leNames l l' else decide (a < b)

/-- The sorted groups of sorted names, signalset.py:1022-1026. -/
def groupKeys (o : SetOrder) (I : Inventory α κ) : List (List String) :=
  sortBy leNames (((groups I (setOf o I.names)).map (fun g => g.2)).map (sortBy (fun a b => decide (a ≤ b))))

/-- `SignalSet.join(*sets)`: TypeError without argument. -/
def joinAll [Rnd] [One κ] : List (SigSet α κ) → Except Err (SigSet α κ)
  | [] => .error .type
  | S :: l => S.join (l.map .set)

/-- One element of `content`, signalset.py:1029. -/
def groupSet [Rnd] [One κ] (I : Inventory α κ) (k : List String) : Except Err (SigSet α κ) :=
  match I.selectChannels k with
  | .error e => .error e
  | .ok J => joinAll J

/-- `_join_merge()` (also called `merge`), signalset.py:1018-1032, 1064. -/
def joinMerge [Rnd] [One κ] (o : SetOrder) (I : Inventory α κ) : Except Err (SigSet α κ) :=
  if I.isEmpty then SigSet.new (.dict []) []
  else match mapE (groupSet I) (groupKeys o I) with
    | .error e => .error e
    | .ok [] => .error .index
    | .ok [a] => .ok a
    | .ok (a :: others) => a.merge others

/-- `self.select_runs(f == f0 for f in freqs)._join_merge()`, signalset.py:1055. -/
def rateSet [Rnd] [One κ] (o : SetOrder) (I : Inventory α κ) (f0 : ℚ) : Except Err (SigSet α κ) :=
  match I.selectRuns (I.map (fun S => .mask (S.runs.map (fun r => decide (r.rate = f0))))) with
  | .error e => .error e
  | .ok J => J.joinMerge o

/-- All the sampling rates, with repetition (`itertools.chain(*freqs)`, signalset.py:1054-1056). -/
def rates (I : Inventory α κ) : List ℚ := I.flatMap (fun S => S.runs.map (fun r => r.rate))

/-- `pack(True)`, signalset.py:1054-1062. -/
def packAll [Rnd] [One κ] (o : SetOrder) (I : Inventory α κ) : Except Err (SigSet α κ) :=
  match mapE (rateSet o I) (o.rates (dedup I.rates)) with
  | .error e => .error e
  | .ok sigs =>
    match sigs.filter (fun S => !S.runs.isEmpty && I.names.all (fun t => S.tags.tags.has t)) with
    | [] => SigSet.new (.dict []) []
    | S :: l =>
      match joinAll (S :: l) with
      | .error e => .error e
      | .ok R => R.mergeConsecutive

/-- The names with a single channel somewhere, signalset.py:1049-1050: the loop visits the elements, then the
names of the inventory. -/
def singleNames (o : SetOrder) (I : Inventory α κ) : Except Err (List String) :=
  match mapE (fun p : SigSet α κ × String =>
      match tagGet p.1 p.2 with
      | .error e => .error e
      | .ok v => .ok (if v.length = 1 then [p.2] else []))
    (I.flatMap (fun S => (setOf o I.names).map (fun t => (S, t)))) with
  | .error e => .error e
  | .ok l => .ok l.flatten

/-- `pack(keep_multi_tags)`, signalset.py:1034-1062. -/
def pack [Rnd] [One κ] (o : SetOrder) (I : Inventory α κ) (keep : Bool := true) : Except Err (SigSet α κ) :=
  if keep then packAll o I
  else match singleNames o I with
    | .error e => .error e
    | .ok ts =>
      match mapE (fun t => I.selectChannels [t]) (setOf o ts) with
      | .error e => .error e
      | .ok l =>
        match new (l.flatten.map .set) with
        | .error e => .error e
        | .ok J => packAll o J

/-- One group, signalset.py:1013-1014. -/
def groupOf [Rnd] [One κ] (o : SetOrder) (I : Inventory α κ) (g : String × List String) : Except Err (SigSet α κ) :=
  match I.filter o g.2 with
  | .error e => .error e
  | .ok J =>
    match J.pack o with
    | .error e => .error e
    | .ok S =>
      match mapE S.tags.getItem g.2 with
      | .error e => .error e
      | .ok vs =>
        match S.tags.setItem g.1 (Tags.toVal vs.flatten) with
        | .error e => .error e
        | .ok t => .ok { S with tags := t }

/-- `extract_groups(group_tags)`, signalset.py:1007-1016. -/
def extractGroups [Rnd] [One κ] (o : SetOrder) (I : Inventory α κ) (gs : List (String × List String)) :
    Except Err (Inventory α κ) :=
  match mapE (groupOf o I) gs with
  | .error e => .error e
  | .ok l => new (l.map .set)

end Inventory
end Razorback
