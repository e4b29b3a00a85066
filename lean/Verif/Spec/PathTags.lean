/-
Specification of path patterns and tag templates, independent of the way `tags_from_path` reads them: patterns and templates
are lists of elements, written down by `write`.
-/
import Verif.Model.PathTags
import Mathlib.Data.List.Forall2
import Mathlib.Data.List.Chain

namespace Razorback.PathTags
open Fnmatch (Item)

/-- Letters, digits and underscore. -/
def IsWord (c : Char) : Prop :=
  c = '_' ∨ ('0' ≤ c ∧ c ≤ '9') ∨ ('A' ≤ c ∧ c ≤ 'Z') ∨ ('a' ≤ c ∧ c ≤ 'z')

/-- A field name: a word that does not begin with a digit. -/
def IsIdent (n : List Char) : Prop := n ≠ [] ∧ (∀ c ∈ n, IsWord c) ∧ ∀ c ∈ n.head?, ¬ ('0' ≤ c ∧ c ≤ '9')

/-- The elements of a pattern. -/
inductive Elt
  | text (c : Char)
  | one                                  -- `?`
  | cls (neg : Bool) (items : List Item) -- `[seq]`, `[!seq]`
  | star                                 -- `*`
  | dstar                                -- `**`
  | field (name : List Char)             -- `{name}`
deriving DecidableEq

/-- Characters and ranges in brackets. -/
def writeItem : Item → List Char
  | .ch c => [c]
  | .range a b => [a, '-', b]

/-- A pattern element as written by the user. -/
def Elt.write : Elt → List Char
  | .text c => [c]
  | .one => ['?']
  | .cls neg items => '[' :: (if neg then ['!'] else []) ++ items.flatMap writeItem ++ [']']
  | .star => ['*']
  | .dstar => ['*', '*']
  | .field n => '{' :: n ++ ['}']

/-- The pattern as written by the user. -/
def write (P : List Elt) : List Char := P.flatMap Elt.write

/-- The names of the fields, in order. -/
def fieldsOf (P : List Elt) : List (List Char) :=
  P.filterMap (fun e => match e with | .field n => some n | _ => none)

/-- A character in brackets: none of those with a meaning there or elsewhere in a pattern. -/
def ItemChar (c : Char) : Prop := c ∉ [']', '-', '!', '*', '{', '}', '[', '$']

/-- Items as they can be written. -/
def ItemOK : Item → Prop
  | .ch c => ItemChar c
  | .range a b => ItemChar a ∧ ItemChar b ∧ a ≤ b

/-- Elements as they can be written. -/
def EltOK : Elt → Prop
  | .text c => c ∉ ['*', '?', '[', '{', '}']
  | .one => True
  | .cls _ items => items ≠ [] ∧ ∀ i ∈ items, ItemOK i
  | .star => True
  | .dstar => True
  | .field n => IsIdent n

/-- A pattern that can be written: `*` is not followed by another star (that would read `**`), and the path is in normal
form. -/
structure PatternOK (P : List Elt) : Prop where
  elts : ∀ e ∈ P, EltOK e
  stars : P.IsChain (fun a b => a = .star → b ≠ .star ∧ b ≠ .dstar)
  normal : normpath (write P) = write P

/-- In the class. -/
def InItem (c : Char) : Item → Prop
  | .ch d => c = d
  | .range a b => a ≤ c ∧ c ≤ b

/-- What an element can stand for. -/
def Stands : Elt → List Char → Prop
  | .text c, s => s = [c]
  | .one, s => ∃ c, s = [c]
  | .cls neg items, s => ∃ c, s = [c] ∧ ((∃ i ∈ items, InItem c i) ↔ neg = false)
  | .star, s => '/' ∉ s
  | .dstar, _ => True
  | .field _, s => s ≠ [] ∧ ∀ c ∈ s, IsWord c

/-- `segs` says what each element of `P` stands for in `s`. -/
def Assigns (P : List Elt) (segs : List (List Char)) (s : List Char) : Prop :=
  List.Forall₂ Stands P segs ∧ segs.flatten = s

/-- `segs` is before `segs'`: the first segment that differs is shorter. -/
def Before (segs segs' : List (List Char)) : Prop :=
  segs = segs' ∨ ∃ pre a b l l', segs = pre ++ a :: l ∧ segs' = pre ++ b :: l' ∧ a.length < b.length

/-- The values of the fields in an assignment: pairs (name, value), in order. -/
def valuesOf : List Elt → List (List Char) → List (List Char × List Char)
  | .field n :: P, s :: segs => (n, s) :: valuesOf P segs
  | _ :: P, _ :: segs => valuesOf P segs
  | _, _ => []

/-- The last value of a name. -/
def IsLast (l : List (List Char × List Char)) (n v : List Char) : Prop :=
  ∃ a b, l = a ++ (n, v) :: b ∧ ∀ p ∈ b, p.1 ≠ n

/-- The elements of a template. -/
inductive TplElt
  | text (c : Char)
  | field (name : List Char)
deriving DecidableEq

/-- Templates as written: braces are doubled. -/
def TplElt.write : TplElt → List Char
  | .text c => if c = '{' ∨ c = '}' then [c, c] else [c]
  | .field n => '{' :: n ++ ['}']

/-- The template as written by the user. -/
def writeTpl (T : List TplElt) : List Char := T.flatMap TplElt.write

/-- The names used by a template are field names. -/
def TplOK (T : List TplElt) : Prop := ∀ e ∈ T, ∀ n, e = .field n → IsIdent n

/-- The text of a template element, given the values. -/
def TplText (l : List (List Char × List Char)) : TplElt → List Char → Prop
  | .text c, s => s = [c]
  | .field n, s => IsLast l n s

/-- `tag` is the template with the fields replaced by their values. -/
def Filled (l : List (List Char × List Char)) (T : List TplElt) (tag : List Char) : Prop :=
  ∃ parts, List.Forall₂ (TplText l) T parts ∧ tag = parts.flatten

/-- Paths in normal form: at most two slashes, then names separated by single slashes, none of them empty or `.`, and `..`
only at the beginning of a relative path; the empty path is `.`. -/
def NormalPath (s : List Char) : Prop :=
  s = ['.'] ∨ s ≠ [] ∧ ∃ k m rest, k ≤ 2 ∧ s = List.replicate k '/' ++ joinSlash (List.replicate m ['.', '.'] ++ rest) ∧
    (k ≠ 0 → m = 0) ∧ ∀ w ∈ rest, w ≠ [] ∧ w ≠ ['.'] ∧ w ≠ ['.', '.'] ∧ '/' ∉ w

end Razorback.PathTags
