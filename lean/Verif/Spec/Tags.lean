/-
Specification of tag mappings: what a `Tags` object is supposed to be, independently of its implementation.
An abstract tag mapping is a list of names in order of first insertion and a partial function.
-/
import Verif.Model.Tags

namespace Razorback.Spec
open Classical

/-- A name that may be used as a tag. -/
def LegalName (k : String) : Prop := ∃ c cs, k.toList = c :: cs ∧ c.isAlpha = true

/-- A tag entry that is legal for channels `0 .. n-1`. -/
def LegalTag (n : Nat) (k : String) (v : List Nat) : Prop :=
  LegalName k ∧ v ≠ [] ∧ ∀ i ∈ v, i < n

/-- Abstract mapping. -/
structure TagMap where
  order : List String
  val : String → Option (List Nat)

namespace TagMap

def empty : TagMap := ⟨[], fun _ => none⟩

/-- The values allowed: members of the range (and of the tag `indices` once there is one). -/
def Allowed (n : Nat) (m : TagMap) (i : Int) : Prop :=
  0 ≤ i ∧ (match m.val "indices" with
    | none => i.toNat < n
    | some w => i.toNat ∈ w)

/-- Store a value: last position for a new name, same position for a known one. -/
def put (m : TagMap) (k : String) (v : List Nat) : TagMap :=
  ⟨if k ∈ m.order then m.order else m.order ++ [k], fun k' => if k' = k then some v else m.val k'⟩

/-- Forget a name. -/
def drop (m : TagMap) (k : String) : TagMap :=
  ⟨m.order.filter (· ≠ k), fun k' => if k' = k then none else m.val k'⟩

/-- Assignment: legal ones take effect, illegal ones raise and change nothing. -/
noncomputable def assign (n : Nat) (m : TagMap) (k : String) (v : TagVal) : TagMap × Option Err :=
  if ¬ LegalName k ∨ tupleit v = [] then (m, some .assertion)
  else if ∀ i ∈ tupleit v, Allowed n m i then (m.put k ((tupleit v).map Int.toNat), none)
  else (m, some .value)

/-- Several assignments, up to the first that raises. -/
noncomputable def assignAll (n : Nat) (m : TagMap) : List (String × TagVal) → TagMap × Option Err
  | [] => (m, none)
  | (k, v) :: l =>
    match assign n m k v with
    | (m', none) => assignAll n m' l
    | (m', some e) => (m', some e)

/-- Deletion. -/
noncomputable def delete (m : TagMap) (k : String) (e : Err) : TagMap × Option Err :=
  if m.val k = none then (m, some e) else (m.drop k, none)

/-- A method call on the object: hidden (TypeError) when a tag has the method's name. -/
noncomputable def method (m : TagMap) (name : String) (r : TagMap × Option Err) : TagMap × Option Err :=
  if m.val name = none then r else (m, some .type)

/-- One operation. -/
noncomputable def step (n : Nat) (m : TagMap) : Tags.Op → TagMap × Option Err
  | .setItem k v => assign n m k v
  | .delItem k => delete m k .key
  | .setAttr k v =>
    if k.toList.head? = some '_' then (m, none)
    else if k = "indices" then (m, some .attr)
    else assign n m k v
  | .delAttr k => delete m k .attr
  | .update l => method m "update" (assignAll n m l)
  | .pop k => method m "pop" (delete m k .key)
  | .clear => method m "clear" (method m "popitem" (empty, none))
  | .setdefault k v => method m "setdefault" (if m.val k = none then assign n m k v else (m, none))

/-- A history, collecting the exception raised by each operation. -/
noncomputable def run (n : Nat) (m : TagMap) : List Tags.Op → TagMap × List (Option Err)
  | [] => (m, [])
  | o :: ops =>
    let r := step n m o
    let r' := run n r.1 ops
    (r'.1, r.2 :: r'.2)

end TagMap

/-- The abstract mapping of a `Tags` object, as seen through iteration and item access. -/
def tagMap (t : Tags) : TagMap := ⟨t.tags.map (·.1), fun k => (t.getItem k).toOption⟩

/-- Outputs of a history on the real object. -/
def outs (t : Tags) : List Tags.Op → List (Option Err)
  | [] => []
  | o :: ops => (t.step o).2 :: outs (t.step o).1 ops

end Razorback.Spec
