/-
The objects of signalset.py: which operation makes a new object, which returns or keeps an existing one.
`SyncSignal` objects have no mutable part and are values here (their arrays are never written to by the package).  A
`Tags` object is mutable; a `SignalSet` holds its runs, which never change, and a reference to a `Tags` object; an
`Inventory` holds a list of references to `SignalSet` objects.  The computed values are those of the other models.
-/
import Verif.Model.Inventory

namespace Razorback.Heap

/-- A `SignalSet` object: `_signals` and the reference `_tags`, signalset.py:248-250. -/
structure SetObj (α κ : Type _) where
  runs : List (Sync α κ)
  tags : Nat
deriving DecidableEq

/-- The objects, by address.  Nothing is freed. -/
structure Store (α κ : Type _) where
  tags : List Tags
  sets : List (SetObj α κ)
  invs : List (List Nat)

/-- A reference held by a variable. -/
inductive Ref
  | tags (a : Nat)
  | set (b : Nat)
  | inv (c : Nat)
deriving DecidableEq, Repr

variable {α κ : Type _}

/-- The value of a `SignalSet` object: its runs and what its `Tags` object holds now. -/
def Store.value (h : Store α κ) (b : Nat) : Option (SigSet α κ) :=
  match h.sets[b]? with
  | none => none
  | some o =>
    match h.tags[o.tags]? with
    | none => none
    | some t => some ⟨o.runs, t⟩

/-- The value of an `Inventory` object. -/
def Store.content (h : Store α κ) (c : Nat) : Option (Inventory α κ) :=
  match h.invs[c]? with
  | none => none
  | some l => l.mapM h.value

/-- `SignalSet.__init__`, signalset.py:248-250, with the tags setter, 405-412: the object gets a `Tags` object of its own,
`Tags(n or None, **value)`. -/
def Store.allocSet (h : Store α κ) (S : SigSet α κ) : Store α κ × Nat :=
  ({ h with tags := h.tags ++ [S.tags], sets := h.sets ++ [⟨S.runs, h.tags.length⟩] }, h.sets.length)

/-- `SignalSet` objects made one after the other. -/
def Store.allocSets (h : Store α κ) : List (SigSet α κ) → Store α κ × List Nat
  | [] => (h, [])
  | S :: l => ((((h.allocSet S).1).allocSets l).1, (h.allocSet S).2 :: (((h.allocSet S).1).allocSets l).2)

/-- A new `Inventory` object, signalset.py:898-900. -/
def Store.allocInv (h : Store α κ) (l : List Nat) : Store α κ × Nat :=
  ({ h with invs := h.invs ++ [l] }, h.invs.length)

/-- A variable, by its number. -/
abbrev Var := Nat

/-- The tags given to the constructor or to the setter: a dict, or a variable with a `Tags` object. -/
inductive TagsExpr
  | dict (d : List (String × TagVal))
  | var (x : Var)

/-- A signal given to the constructor or to `join`. -/
inductive SigExpr (α κ : Type _)
  | sync (s : Sync α κ)
  | var (x : Var)

/-- The methods of `SignalSet` that give a `SignalSet`. -/
inductive SetOp (α κ : Type _)
  | join (args : List (SigExpr α κ))
  | merge (others : List Var)
  | selectChannels (sel : ChanSel)
  | selectRuns (r : RunIdx)
  | extractT (start stop : ℚ) (exclude : Bool)
  | mergeConsecutive

/-- The methods of `Inventory` that give an `Inventory` with new elements. -/
inductive InvOp
  | extractT (start stop : ℚ) (exclude : Bool)
  | selectChannels (keys : List String)
  | selectRuns (runs : List RunIdx)
  | filter (patterns : List String)
  | extractGroups (gs : List (String × List String))

/-- One statement of a program; its result, if there is one, is given to the next variable. -/
inductive Stmt (α κ : Type _)
  | newTags (n : Option Nat) (d : List (String × TagVal))
  | newSet (t : TagsExpr) (args : List (SigExpr α κ))
  | tagsOf (x : Var)
  | editTags (x : Var) (op : Tags.Op)
  | setTags (x : Var) (t : TagsExpr)
  | setOp (x : Var) (op : SetOp α κ)
  | emptyIndex (x : Var)
  | newInv (xs : List Var)
  | append (x y : Var)
  | invGet (x : Var) (i : Int)
  | invAdd (x y : Var)
  | invOp (x : Var) (op : InvOp)
  | pack (x : Var) (keep : Bool)
  | invMerge (x : Var)

/-- A program in progress: the objects and the variables.  A variable whose statement raised, or has no result, holds
nothing. -/
structure State (α κ : Type _) where
  store : Store α κ
  vars : List (Option Ref)

namespace State

/-- The address of the `Tags` object of a variable. -/
def tagsAddr (s : State α κ) (x : Var) : Except Err Nat :=
  match s.vars[x]? with
  | some (some (.tags a)) => .ok a
  | _ => .error .type

/-- The address of the `SignalSet` object of a variable. -/
def setAddr (s : State α κ) (x : Var) : Except Err Nat :=
  match s.vars[x]? with
  | some (some (.set b)) => .ok b
  | _ => .error .type

/-- The address of the `Inventory` object of a variable. -/
def invAddr (s : State α κ) (x : Var) : Except Err Nat :=
  match s.vars[x]? with
  | some (some (.inv c)) => .ok c
  | _ => .error .type

/-- The value of the `Tags` object of a variable. -/
def tagsValue (s : State α κ) (x : Var) : Except Err Tags :=
  match s.tagsAddr x with
  | .error e => .error e
  | .ok a =>
    match s.store.tags[a]? with
    | none => .error .other
    | some t => .ok t

/-- The value of the `SignalSet` object of a variable. -/
def setValue (s : State α κ) (x : Var) : Except Err (SigSet α κ) :=
  match s.setAddr x with
  | .error e => .error e
  | .ok b =>
    match s.store.value b with
    | none => .error .other
    | some S => .ok S

/-- The value of the `Inventory` object of a variable. -/
def invValue (s : State α κ) (x : Var) : Except Err (Inventory α κ) :=
  match s.invAddr x with
  | .error e => .error e
  | .ok c =>
    match s.store.content c with
    | none => .error .other
    | some I => .ok I

/-- The value of a tags argument. -/
def tagsArg (s : State α κ) : TagsExpr → Except Err TagsArg
  | .dict d => .ok (.dict d)
  | .var x =>
    match s.tagsValue x with
    | .error e => .error e
    | .ok t => .ok (.tags t)

/-- The value of a signal argument. -/
def sigArg (s : State α κ) : SigExpr α κ → Except Err (SigArg α κ)
  | .sync y => .ok (.sync y)
  | .var x =>
    match s.setValue x with
    | .error e => .error e
    | .ok S => .ok (.set S)

/-- The value given by a method of `SignalSet`, signalset.py:414-631. -/
def setOp [Rnd] [One κ] (s : State α κ) (S : SigSet α κ) : SetOp α κ → Except Err (SigSet α κ)
  | .join args =>
    match mapE s.sigArg args with
    | .error e => .error e
    | .ok l => S.join l
  | .merge others =>
    match mapE s.setValue others with
    | .error e => .error e
    | .ok l => S.merge l
  | .selectChannels sel => S.selectChannels sel
  | .selectRuns r => S.selectRuns r
  | .extractT a b e => S.extractT a b e
  | .mergeConsecutive => S.mergeConsecutive

end State

/-- The value given by a method of `Inventory`, signalset.py:969-1016. -/
def InvOp.eval [Rnd] [One κ] (o : SetOrder) (I : Inventory α κ) : InvOp → Except Err (Inventory α κ)
  | .extractT a b e => I.extractT a b e
  | .selectChannels keys => I.selectChannels keys
  | .selectRuns runs => I.selectRuns runs
  | .filter ps => I.filter o ps
  | .extractGroups gs => I.extractGroups o gs

namespace State

/-- The statement raised, or has no result: the next variable holds nothing. -/
def skip (s : State α κ) : State α κ := { s with vars := s.vars ++ [none] }

/-- A result that is an existing object. -/
def bind (s : State α κ) (r : Ref) : State α κ := { s with vars := s.vars ++ [some r] }

/-- A result that is a new `SignalSet`. -/
def fresh (s : State α κ) : Except Err (SigSet α κ) → State α κ
  | .error _ => s.skip
  | .ok S => { store := (s.store.allocSet S).1, vars := s.vars ++ [some (.set (s.store.allocSet S).2)] }

/-- A result that is a new `Inventory` of new `SignalSet` objects. -/
def freshInv (s : State α κ) : Except Err (Inventory α κ) → State α κ
  | .error _ => s.skip
  | .ok I =>
    let p := s.store.allocSets I
    { store := (p.1.allocInv p.2).1, vars := s.vars ++ [some (.inv (p.1.allocInv p.2).2)] }

/-- A result that is a new `Inventory` of existing `SignalSet` objects. -/
def bindInv (s : State α κ) (l : List Nat) : State α κ :=
  { store := (s.store.allocInv l).1, vars := s.vars ++ [some (.inv (s.store.allocInv l).2)] }

/-- One statement.  An exception is caught by the program, which goes on with what the statement did before.
* `Tags(n, **d)`, signalset.py:121-125: a new `Tags` object;
* `SignalSet(tags, *signals)`, 236-250: a new object;
* `s.tags`, 400-403: the `Tags` object of `s` itself;
* `t[k] = v` and the other changes of a `Tags` object, in place: 56-90;
* `s.tags = value`, 405-412: `s` gets a new `Tags` object;
* `s.join(...)` and the other methods: each returns `SignalSet(...)` or `type(self)(...)`, 450, 460, 475, 538, 556, and
  `res |= ...` at 625 and 630;
* `s[()]`, 321-322: `s` itself;
* `Inventory(l)`, `append`, `inv[i]`, `a + b`, 898-923, 931-945: the elements are the given objects;
* `extract_t`, `select_channels`, `select_runs`, `filter`, `extract_groups` of an inventory, 969-1016: new elements;
* `pack`, `merge` of an inventory, 1018-1064: a new object (`a` at 1031-1032 is a result of `join`). -/
def exec [Rnd] [One κ] (o : SetOrder) (s : State α κ) : Stmt α κ → State α κ
  | .newTags n d =>
    match Tags.new n d with
    | .error _ => s.skip
    | .ok t => { store := { s.store with tags := s.store.tags ++ [t] }, vars := s.vars ++ [some (.tags s.store.tags.length)] }
  | .newSet t args =>
    match s.tagsArg t with
    | .error _ => s.skip
    | .ok t =>
      match mapE s.sigArg args with
      | .error _ => s.skip
      | .ok l => s.fresh (SigSet.new t l)
  | .tagsOf x =>
    match s.setAddr x with
    | .error _ => s.skip
    | .ok b =>
      match s.store.sets[b]? with
      | none => s.skip
      | some ob => s.bind (.tags ob.tags)
  | .editTags x op =>
    match s.tagsAddr x with
    | .error _ => s.skip
    | .ok a => skip { s with store := { s.store with tags := s.store.tags.modify a (fun t => (t.step op).1) } }
  | .setTags x t =>
    match s.setAddr x with
    | .error _ => s.skip
    | .ok b =>
      match s.tagsArg t with
      | .error _ => s.skip
      | .ok v =>
        match s.setValue x with
        | .error _ => s.skip
        | .ok S =>
          match S.setTags v with
          | .error _ => s.skip
          | .ok S' => skip { s with store := { s.store with
              tags := s.store.tags ++ [S'.tags]
              sets := s.store.sets.modify b (fun ob => { ob with tags := s.store.tags.length }) } }
  | .setOp x op =>
    match s.setValue x with
    | .error _ => s.skip
    | .ok S => s.fresh (s.setOp S op)
  | .emptyIndex x =>
    match s.setAddr x with
    | .error _ => s.skip
    | .ok b => s.bind (.set b)
  | .newInv xs =>
    match mapE s.setAddr xs with
    | .error _ => s.skip
    | .ok l => s.bindInv l
  | .append x y =>
    match s.invAddr x with
    | .error _ => s.skip
    | .ok c =>
      match s.setAddr y with
      | .error _ => s.skip
      | .ok b => skip { s with store := { s.store with invs := s.store.invs.modify c (· ++ [b]) } }
  | .invGet x i =>
    match s.invAddr x with
    | .error _ => s.skip
    | .ok c =>
      match s.store.invs[c]? with
      | none => s.skip
      | some l =>
        let j := if i < 0 then i + l.length else i
        if j < 0 then s.skip
        else match l[j.toNat]? with
          | none => s.skip
          | some b => s.bind (.set b)
  | .invAdd x y =>
    match s.invAddr x with
    | .error _ => s.skip
    | .ok c =>
      match s.invAddr y with
      | .error _ => s.skip
      | .ok d => s.bindInv ((s.store.invs[c]?).getD [] ++ (s.store.invs[d]?).getD [])
  | .invOp x op =>
    match s.invValue x with
    | .error _ => s.skip
    | .ok I => s.freshInv (op.eval o I)
  | .pack x keep =>
    match s.invValue x with
    | .error _ => s.skip
    | .ok I => s.fresh (I.pack o keep)
  | .invMerge x =>
    match s.invValue x with
    | .error _ => s.skip
    | .ok I => s.fresh (I.joinMerge o)

/-- The state after some statements. -/
def run [Rnd] [One κ] (o : SetOrder) (s : State α κ) (p : List (Stmt α κ)) : State α κ := p.foldl (exec o) s

/-- The beginning of a program: no object and no variable. -/
def start : State α κ := ⟨⟨[], [], []⟩, []⟩

end State
end Razorback.Heap
