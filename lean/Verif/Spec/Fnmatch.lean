/-
Specification of shell patterns: a pattern is a sequence of elements, each denoting a set of strings; a name
matches when it can be cut into consecutive pieces, one in each set.
-/
import Verif.Model.Fnmatch
import Mathlib.Data.List.Forall2

namespace Razorback.Spec
open Fnmatch

/-- Characters listed in a bracket expression. -/
def InSeq (items : List Item) (c : Char) : Prop :=
  ∃ i ∈ items, (i = .ch c) ∨ (∃ a b, i = .range a b ∧ a ≤ c ∧ c ≤ b)

/-- The strings denoted by a pattern element: `*` everything, `?` any character, `[seq]` a character of
seq, `[!seq]` a character not in seq, otherwise the character itself. -/
def Denotes : Tok → List Char → Prop
  | .lit c, w => w = [c]
  | .any, w => ∃ c, w = [c]
  | .star, _ => True
  | .cls false s, w => ∃ c, w = [c] ∧ InSeq s c
  | .cls true s, w => ∃ c, w = [c] ∧ ¬ InSeq s c

/-- `w` matches the pattern `ts`. -/
def ShellMatch (ts : List Tok) (w : List Char) : Prop :=
  ∃ ps : List (List Char), List.Forall₂ Denotes ts ps ∧ ps.flatten = w

/-- How pattern elements are written: ordinary characters stand for themselves. -/
inductive Writes : Tok → List Char → Prop
  | lit (c : Char) : c ≠ '*' → c ≠ '?' → c ≠ '[' → Writes (.lit c) [c]
  | any : Writes .any ['?']
  | star : Writes .star ['*']
  | cls (s : List Char) : s ≠ [] → (∀ c ∈ s, c ≠ ']' ∧ c ≠ '-' ∧ c ≠ '!') →
      Writes (.cls false (s.map .ch)) ('[' :: s ++ [']'])
  | ncls (s : List Char) : s ≠ [] → (∀ c ∈ s, c ≠ ']' ∧ c ≠ '-' ∧ c ≠ '!') →
      Writes (.cls true (s.map .ch)) ('[' :: '!' :: s ++ [']'])
  | range (a b : Char) : a ≤ b → a ≠ ']' → b ≠ ']' → a ≠ '!' → Writes (.cls false [.range a b]) ['[', a, '-', b, ']']

/-- `p` is the text of the pattern `ts`. -/
def PatternText (ts : List Tok) (p : List Char) : Prop :=
  ∃ ps : List (List Char), List.Forall₂ Writes ts ps ∧ ps.flatten = p

end Razorback.Spec
