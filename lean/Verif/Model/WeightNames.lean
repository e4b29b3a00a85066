/-
Model of the construction and of the texts of weight functions and of sequences of them (src/razorback/weights.py:23-41, 44-49,
59-68, 89-100, 132-147).
-/
import Verif.Model.Weights
import Verif.Model.Text

namespace Razorback.WeightNames
open Razorback Razorback.Text Razorback.Weights

noncomputable section

/-- A fixed text of weights.py:49. -/
def huberText : Txt := "Huber".toList
/-- A fixed text of weights.py:67-68. -/
def thomsonText : Txt := "Thomson".toList
/-- A fixed text of weights.py:97. -/
def bisText : Txt := "BoundedInfluenceStep".toList
/-- `str(None)` -/
def noneText : Txt := "None".toList
/-- A fixed text of weights.py:147. -/
def biText : Txt := "bi_weights".toList

/-- `Thomson(xi)`, weights.py:60-63. -/
def newThomson (xi : Option ℝ) : Except Err Base :=
  match xi with
  | none => .ok (.thomson none)
  | some x => if 0 < x then .ok (.thomson (some x)) else .error .assertion

variable (g : ℝ → Txt)

/-- `Huber.__str__`, `Thomson.__str__`, weights.py:48-49, 65-68; `g` is the conversion `%g`. -/
def baseStr : Base → Txt
  | .huber a => huberText ++ ['('] ++ g a ++ [')']
  | .thomson none => thomsonText ++ ['(', ')']
  | .thomson (some x) => thomsonText ++ ['('] ++ g x ++ [')']

/-- `str` of a weight object; `BoundedInfluenceStep.__str__`, weights.py:96-100 (the objects have no `__name__`). -/
def objStr : Obj → Txt
  | .base w => baseStr g w
  | .bis w lower khi =>
    bisText ++ ['('] ++ baseStr g w ++ [',', ' '] ++ g lower ++ [',', ' '] ++ g khi ++ [')']

/-- An element of a sequence: None, a weight object of the library, a function with its `__name__`, or a sequence without or
with a name. -/
inductive Elem
  | none
  | obj (w : Obj)
  | func (name : Txt)
  | seq (name : Option Txt)

/-- `getattr(e, '__name__', str(e))`, weights.py:33: the attribute of a sequence without name is None. -/
def elemName : Elem → Option Txt
  | .none => some noneText
  | .obj w => some (objStr g w)
  | .func name => some name
  | .seq name => name

/-- `Weights(weights, name)`, weights.py:26-28: no name if it is empty. -/
def seqName (name : Option Txt) : Option Txt :=
  match name with
  | some (c :: l) => some (c :: l)
  | _ => none

/-- All the names, if none of them is None. -/
def everyName : List (Option Txt) → Option (List Txt)
  | [] => some []
  | none :: _ => none
  | some a :: l => (everyName l).map (fun r => a :: r)

/-- `Weights.__repr__`, weights.py:30-34: `', '.join` raises TypeError on None. -/
def seqRepr (name : Option Txt) (l : List Elem) : Except Err Txt :=
  match seqName name with
  | some t => .ok t
  | none =>
    match everyName (l.map (elemName g)) with
    | none => .error .type
    | some ns => .ok (['('] ++ join [',', ' '] ns ++ [')'])

/-- The name of `bi_weights(reject_prob, n_step, dim)`, weights.py:147. -/
def biName (p : ℝ) (n dim : ℕ) : Txt :=
  biText ++ ['('] ++ g p ++ [',', ' '] ++ g n ++ [',', ' '] ++ g dim ++ [')']

end

end Razorback.WeightNames
