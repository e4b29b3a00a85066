/-
Model of `TagsBase` / `Tags`, src/razorback/signalset.py lines 27-143.
-/
import Verif.Model.Py

namespace Razorback

/-- A value given for a tag: an `int`, a `tuple` of ints or another iterable of ints (list, map, ...).
signalset.py:62-70, 27-31.  Simplification: only integers are considered (not strings or other objects). -/
inductive TagVal
  | int (i : Int)
  | tup (l : List Int)
  | lst (l : List Int)
deriving DecidableEq, Repr

/-- `_tupleit`, signalset.py:27-31. -/
def tupleit : TagVal → List Int
  | .int i => [i]
  | .tup l => l
  | .lst l => l

/-- A `Tags` object: `_indices = frozenset(range(n))` and the dict `_tags`, signalset.py:36-38, 121-125.
Stored indices are natural numbers because only members of `range(n)` are ever stored. -/
structure Tags where
  n : Nat
  tags : Dict (List Nat)
deriving DecidableEq, Repr

namespace Tags

/-- `key[:1].isalpha()`, signalset.py:64.  Simplification: `isalpha` on ASCII letters. -/
def startsAlpha (k : String) : Bool :=
  match k.toList with
  | [] => false
  | c :: _ => c.isAlpha

/-- `self.indices`, signalset.py:40-42 through `__getattribute__` 72-79: a tag called `indices` hides the
property, so every use of `self.indices` in the class then sees that tag's tuple. -/
def indices (t : Tags) : List Nat :=
  match t.tags.get? "indices" with
  | some v => v
  | none => List.range t.n

/-- `__setitem__`, signalset.py:62-70.  (`isinstance(key, basestring)` holds by typing.) -/
def setItem (t : Tags) (k : String) (v : TagVal) : Except Err Tags :=
  if startsAlpha k = false then .error .assertion
  else if tupleit v = [] then .error .assertion
  else if (tupleit v).all (fun i => decide (0 ≤ i) && t.indices.contains i.toNat) = false then
    .error .value
  else .ok { t with tags := t.tags.set k ((tupleit v).map Int.toNat) }

/-- `__getitem__`, signalset.py:59-60. -/
def getItem (t : Tags) (k : String) : Except Err (List Nat) :=
  match t.tags.get? k with
  | some v => .ok v
  | none => .error .key

/-- `__delitem__`, signalset.py:56-57. -/
def delItem (t : Tags) (k : String) : Except Err Tags :=
  if t.tags.has k then .ok { t with tags := t.tags.erase k } else .error .key

/-- `__setattr__`, signalset.py:81-84.  Names starting with `_` are private Python attributes and are not
modelled: assigning one leaves the mapping unchanged (`_tags`/`_indices` themselves are out of scope).
`indices` is a property without setter: AttributeError. -/
def setAttr (t : Tags) (k : String) (v : TagVal) : Except Err Tags :=
  if k.toList.head? = some '_' then .ok t
  else if k = "indices" then .error .attr
  else t.setItem k v

/-- `__delattr__`, signalset.py:86-90: falls back on `object.__delattr__`, which raises AttributeError
for methods, the property and unknown names.  (Private names are out of scope, as in `setAttr`.) -/
def delAttr (t : Tags) (k : String) : Except Err Tags :=
  match t.delItem k with
  | .ok t' => .ok t'
  | .error _ => .error .attr

/-- Public attributes of the class: the property, the methods of `Tags` (signalset.py:139-143) and the
mixin methods of `collections.abc.MutableMapping`. -/
def classAttrs : List String :=
  ["indices", "filter", "filter_get", "get", "keys", "items", "values",
   "pop", "popitem", "clear", "update", "setdefault"]

/-- Result of an attribute lookup: the tuple of a tag, or the class attribute. -/
inductive AttrRes
  | tag (v : List Nat)
  | cls (name : String)
deriving DecidableEq, Repr

/-- `__getattribute__`, signalset.py:72-79 (public names). -/
def getAttr (t : Tags) (k : String) : Except Err AttrRes :=
  match t.tags.get? k with
  | some v => .ok (.tag v)
  | none => if k ∈ classAttrs then .ok (.cls k) else .error .attr

/-- Calling `tags.name(...)` for a method name: if a tag has that name the tuple is called: TypeError. -/
def callMethod (t : Tags) (name : String) : Except Err Unit :=
  if t.tags.has name then .error .type else .ok ()

/-- The loop of `MutableMapping.update` over a dict: assignments one after the other, stopping at the
first that raises; those done before stay done. Returns the state reached and the error if any. -/
def updateLoop (t : Tags) : List (String × TagVal) → Tags × Option Err
  | [] => (t, none)
  | (k, v) :: l =>
    match t.setItem k v with
    | .error e => (t, some e)
    | .ok t' => updateLoop t' l

/-- Histories: item and attribute assignment/deletion, and the mixin methods of `MutableMapping` used on
mappings (`update`, `pop`, `clear`, `setdefault`). -/
inductive Op
  | setItem (k : String) (v : TagVal)
  | delItem (k : String)
  | setAttr (k : String) (v : TagVal)
  | delAttr (k : String)
  | update (l : List (String × TagVal))
  | pop (k : String)
  | clear
  | setdefault (k : String) (v : TagVal)
deriving Repr

/-- Keep the old state when an operation that is a single assignment or deletion raises. -/
def keep (t : Tags) : Except Err Tags → Tags × Option Err
  | .ok t' => (t', none)
  | .error e => (t, some e)

/-- One operation: the new state and the exception raised, if any.
`update`/`pop`/`clear`/`setdefault` are reached by attribute lookup and hence raise TypeError when a tag
has that name (`clear` moreover calls `self.popitem`, which removes entries until none is left). -/
def step (t : Tags) : Op → Tags × Option Err
  | .setItem k v => keep t (t.setItem k v)
  | .delItem k => keep t (t.delItem k)
  | .setAttr k v => keep t (t.setAttr k v)
  | .delAttr k => keep t (t.delAttr k)
  | .update l =>
    match t.callMethod "update" with
    | .error e => (t, some e)
    | .ok _ => t.updateLoop l
  | .pop k =>
    match t.callMethod "pop" with
    | .error e => (t, some e)
    | .ok _ => keep t (t.delItem k)
  | .clear =>
    match t.callMethod "clear" with
    | .error e => (t, some e)
    | .ok _ =>
      match t.callMethod "popitem" with
      | .error e => (t, some e)
      | .ok _ => ({ t with tags := [] }, none)
  | .setdefault k v =>
    match t.callMethod "setdefault" with
    | .error e => (t, some e)
    | .ok _ => if t.tags.has k then (t, none) else keep t (t.setItem k v)

/-- The state after a history; exceptions are caught by the caller and the object reused. -/
def run (t : Tags) (ops : List Op) : Tags := ops.foldl (fun t o => (t.step o).1) t

/-- `1 + max(idx) if idx else 0`, signalset.py:123-124.  Simplification: a maximum below -1 gives an
empty `range`, as here through `toNat`. -/
def inferN (d : List (String × TagVal)) : Nat :=
  match (d.flatMap (fun e => tupleit e.2)) with
  | [] => 0
  | i :: l => (1 + l.foldl max i).toNat

/-- `Tags(n, **dct)`, signalset.py:121-125 and 36-38.  Keyword dictionaries have distinct keys; the model
accepts any list and processes it in order.  `self.update` is called on an empty mapping, so it is never
hidden.  An exception in `update` aborts the construction.  The keywords `n` and `self` clash with the
parameters: TypeError (here `n` is always given positionally, as all callers in the package do). -/
def new (n : Option Nat) (d : List (String × TagVal)) : Except Err Tags :=
  let n := match n with
    | none => inferN d
    | some n => n
  if d.any (fun e => e.1 == "n" || e.1 == "self") then .error .type
  else match updateLoop { n := n, tags := [] } d with
  | (t, none) => .ok t
  | (_, some e) => .error e

/-- Dict equality `a == b`: same size and every item of `a` is in `b`. -/
def dictEq (a b : Dict (List Nat)) : Bool :=
  a.length == b.length && a.all (fun e => b.get? e.1 == some e.2)

/-- `__eq__` between two `Tags`, signalset.py:44-46.  When both hide `indices` by a tag the two tuples are
compared (and are equal since the dicts are). -/
def eq (a b : Tags) : Bool :=
  dictEq a.tags b.tags &&
    (match a.tags.get? "indices", b.tags.get? "indices" with
     | none, none => a.n == b.n
     | some u, some v => u == v
     | _, _ => false)

/-- `tags.items()` as used on a `Tags` object (TypeError if a tag is called `items`). -/
def items (t : Tags) : Except Err (Dict (List Nat)) :=
  match t.callMethod "items" with
  | .error e => .error e
  | .ok _ => .ok t.tags

/-- `**tags` on a `Tags` object, which calls `tags.keys()` (TypeError if a tag is called `keys`). -/
def kwargs (t : Tags) : Except Err (Dict (List Nat)) :=
  match t.callMethod "keys" with
  | .error e => .error e
  | .ok _ => .ok t.tags

/-- Stored tuple as an argument value. -/
def toVal (v : List Nat) : TagVal := .tup (v.map Int.ofNat)

end Tags
end Razorback
