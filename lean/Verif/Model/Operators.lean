/-
Model of the operators `|`, `&` and `+` (src/razorback/signalset.py:127-128, 477, 540, 919-923) for operands of any kind.
-/
import Verif.Model.Inventory

namespace Razorback.Operators
open Razorback Razorback.SigSet

/-- An operand.  `other` is an object of another type whose own operators do not accept the types below (a number, None, a dict). -/
inductive Operand (α κ : Type _)
  | tags (t : Tags)
  | sync (s : Sync α κ)
  | set (S : SigSet α κ)
  | inv (I : Inventory α κ)
  | other

variable {α κ : Type _}

/-- `getattr(s, '_reorder_data', lambda t: s)(tags)`, signalset.py:237-238, and the `signals` of the result: `none` if it has no such
attribute.  (A `Tags` with a tag called `signals` has one, whose elements have no attribute `data`: the exception is the same.) -/
def reorderArg [Rnd] [One κ] (tags : TagsArg) : Operand α κ → Except Err (Option (List (Sync α κ)))
  | .sync s => .ok (some [s])
  | .set S =>
    match S.reorder tags with
    | .error e => .error e
    | .ok S' => .ok (some S'.runs)
  | _ => .ok none

/-- All the values, if none is missing. -/
def allSome {β : Type _} : List (Option β) → Option (List β)
  | [] => some []
  | none :: _ => none
  | some a :: l => (allSome l).map (fun r => a :: r)

/-- `SignalSet(tags, *signals)`, signalset.py:236-250, for arguments of any type: `s.signals` raises AttributeError for the others,
after all the arguments were reordered. -/
def newOf [Rnd] [One κ] (tags : TagsArg) (args : List (Operand α κ)) : Except Err (SigSet α κ) :=
  match mapE (reorderArg tags) args with
  | .error e => .error e
  | .ok l =>
    match allSome l with
    | none => .error .attr
    | some rss => build tags rss.flatten

/-- `a | b`: `Tags.__or__`, signalset.py:127-128, `SignalSet.__or__ = __ror__ = join`, signalset.py:463-477; TypeError if neither operand
has the operator. -/
def orOp [Rnd] [One κ] : Operand α κ → Operand α κ → Except Err (SigSet α κ)
  | .tags t, b => newOf (.tags t) [b]
  | .set S, b => newOf (.tags S.tags) [.set S, b]
  | a, .set S => newOf (.tags S.tags) [.set S, a]
  | _, _ => .error .type

/-- `a & b`: `SignalSet.__and__ = __rand__ = merge`, signalset.py:479-540, which asserts the type of the other operand. -/
def andOp [Rnd] [One κ] : Operand α κ → Operand α κ → Except Err (SigSet α κ)
  | .set S, .set T => S.merge [T]
  | .set _, _ => .error .assertion
  | _, .set _ => .error .assertion
  | _, _ => .error .type

/-- `a + b`: `Inventory.__add__ = __radd__`, signalset.py:919-923. -/
def plusOp : Operand α κ → Operand α κ → Except Err (Inventory α κ)
  | .inv I, .inv J => I.add J
  | .inv _, _ => .error .assertion
  | _, .inv _ => .error .assertion
  | _, _ => .error .type

/-- `sum(l, start)` for inventories: additions from the left (the start is returned if there is nothing to add: `none` here if it
is not an inventory). -/
def sumOp : List (Inventory α κ) → Operand α κ → Except Err (Option (Inventory α κ))
  | [], .inv I => .ok (some I)
  | [], _ => .ok none
  | J :: l, a =>
    match plusOp a (.inv J) with
    | .error e => .error e
    | .ok I => sumOp l (.inv I)

end Razorback.Operators
