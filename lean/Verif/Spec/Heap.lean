/-
Specification side of the objects: what variables designate, and which statements may change an object.
-/
import Verif.Model.Heap

namespace Razorback.Spec.Objects
open Razorback Razorback.Heap
variable {α κ : Type _}

/-- The states of programs. -/
def Reached [Rnd] [One κ] (o : SetOrder) (s : State α κ) : Prop := ∃ p, s = State.run o State.start p

/-- The variables `x` and `y` designate the same object (`x is y`). -/
def Same (s : State α κ) (x y : Var) : Prop := ∃ r, s.vars[x]? = some (some r) ∧ s.vars[y]? = some (some r)

/-- `y` designates the `Tags` object of the signal set `x` (`y is x.tags`). -/
def IsTagsOf (s : State α κ) (y x : Var) : Prop :=
  ∃ b ob, s.vars[x]? = some (some (.set b)) ∧ s.store.sets[b]? = some ob ∧ s.vars[y]? = some (some (.tags ob.tags))

/-- The statement changes the `Tags` object of the signal set `x` in place, or gives `x` another one. -/
def ChangesSet (s : State α κ) (x : Var) : Stmt α κ → Prop
  | .editTags y _ => IsTagsOf s y x
  | .setTags y _ => Same s y x
  | _ => False

/-- The statement changes the `Tags` object `x` in place. -/
def ChangesTags (s : State α κ) (x : Var) : Stmt α κ → Prop
  | .editTags y _ => Same s y x
  | _ => False

/-- The statement adds an element to the inventory `x`. -/
def ChangesInv (s : State α κ) (x : Var) : Stmt α κ → Prop
  | .append y _ => Same s y x
  | _ => False

/-- No statement of the program does what `C` says, in the state where it is executed. -/
def Never [Rnd] [One κ] (o : SetOrder) (C : State α κ → Stmt α κ → Prop) : State α κ → List (Stmt α κ) → Prop
  | _, [] => True
  | s, st :: p => ¬ C s st ∧ Never o C (s.exec o st) p

/-- The statement is an operation on signal sets or inventories that gives a signal set, other than taking an existing one. -/
def MakesSet : Stmt α κ → Prop
  | .newSet _ _ => True
  | .setOp _ _ => True
  | .pack _ _ => True
  | .invMerge _ => True
  | _ => False

/-- `z` is an element of the inventory `x`. -/
def IsElement (s : State α κ) (z x : Var) : Prop :=
  ∃ b c l, s.vars[z]? = some (some (.set b)) ∧ s.vars[x]? = some (some (.inv c)) ∧ s.store.invs[c]? = some l ∧ b ∈ l

end Razorback.Spec.Objects
