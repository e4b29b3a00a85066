/-
Python prelude: exceptions as values, dictionaries, a few list utilities.
Nothing here models razorback itself; these are the Python/numpy primitives the model is written with.
-/
namespace Razorback

/-- Names of the Python exception classes that the modelled code can raise. -/
inductive Err
  | assertion   -- AssertionError
  | value       -- ValueError
  | key         -- KeyError
  | index       -- IndexError
  | type        -- TypeError
  | attr        -- AttributeError
  | zeroDiv     -- ZeroDivisionError
  | overflow    -- OverflowError
  | nonConv     -- razorback.errors.NonConvergence
  | linAlg      -- numpy/scipy LinAlgError
  | struct      -- struct.error
  | stopIter    -- StopIteration
  | os          -- OSError and its subclasses
  | other       -- plain Exception
deriving DecidableEq, Repr, Inhabited

/-- `assert b` / `if not b: raise e`. -/
def guardE (b : Bool) (e : Err) : Except Err Unit :=
  if b then .ok () else .error e

/-- `[f(x) for x in l]` where `f` may raise: evaluation is left to right and stops at the first error. -/
def mapE {α β : Type _} (f : α → Except Err β) : List α → Except Err (List β)
  | [] => .ok []
  | a :: l =>
    match f a with
    | .error e => .error e
    | .ok b =>
      match mapE f l with
      | .error e => .error e
      | .ok bs => .ok (b :: bs)

/-- `for x in l: s = f(s, x)` where `f` may raise. -/
def foldE {σ α : Type _} (f : σ → α → Except Err σ) : σ → List α → Except Err σ
  | s, [] => .ok s
  | s, a :: l =>
    match f s a with
    | .error e => .error e
    | .ok s' => foldE f s' l

/-- Insertion-ordered Python `dict` with string keys. -/
abbrev Dict (β : Type _) := List (String × β)

namespace Dict
variable {β : Type _}

/-- `d.get(k)` -/
def get? (d : Dict β) (k : String) : Option β :=
  match d with
  | [] => none
  | (k', v) :: d => if k' = k then some v else get? d k

/-- `list(d)` -/
def keys (d : Dict β) : List String := d.map (·.1)

/-- `k in d` -/
def has (d : Dict β) (k : String) : Bool := (d.get? k).isSome

/-- `d[k] = v`: an existing key keeps its position, a new one goes last. -/
def set (d : Dict β) (k : String) (v : β) : Dict β :=
  match d with
  | [] => [(k, v)]
  | (k', v') :: d => if k' = k then (k, v) :: d else (k', v') :: set d k v

/-- `del d[k]` (for a key that is present). -/
def erase (d : Dict β) (k : String) : Dict β := d.filter (fun e => e.1 ≠ k)

end Dict

/-- `set()` built from a list, as the list of first occurrences. -/
def dedup {α : Type _} [DecidableEq α] : List α → List α
  | [] => []
  | a :: l => if a ∈ dedup l then dedup l else a :: dedup l

/-- `sorted(l, key=key)`: stable insertion sort on a key with a decidable total preorder. -/
def insertBy {α : Type _} (le : α → α → Bool) (a : α) : List α → List α
  | [] => [a]
  | b :: l => if le a b then a :: b :: l else b :: insertBy le a l

/-- `sorted(l, key=...)`; Python's sort is stable, and so is this one (equal keys keep their order). -/
def sortBy {α : Type _} (le : α → α → Bool) : List α → List α
  | [] => []
  | a :: l => insertBy le a (sortBy le l)

end Razorback
