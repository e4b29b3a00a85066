/-
Model of `tags_from_path` and its helpers, src/razorback/utils.py:444-545 (POSIX: `os.path.sep` is `/`, `os.path` is
`posixpath`).  Strings are lists of characters.
-/
import Verif.Model.Fnmatch
import Verif.Model.Py

namespace Razorback.PathTags
open Fnmatch (Item)

/-- `path.split('/')` -/
def splitSlash : List Char → List (List Char)
  | [] => [[]]
  | c :: l =>
    if c = '/' then [] :: splitSlash l
    else match splitSlash l with
      | [] => [[c]]
      | w :: ws => (c :: w) :: ws

/-- `'/'.join(comps)` -/
def joinSlash : List (List Char) → List Char
  | [] => []
  | [w] => w
  | w :: ws => w ++ '/' :: joinSlash ws

/-- `initial_slashes` in `posixpath.normpath`: 0, 1 or 2. -/
def initialSlashes : List Char → Nat
  | '/' :: '/' :: '/' :: _ => 1
  | '/' :: '/' :: _ => 2
  | '/' :: _ => 1
  | _ => 0

/-- The body of the loop over the components in `posixpath.normpath`; the components kept so far are in reverse
order. -/
def normStep (slashes : Nat) (acc : List (List Char)) (comp : List Char) : List (List Char) :=
  if comp = [] ∨ comp = ['.'] then acc
  else if comp ≠ ['.', '.'] ∨ (slashes = 0 ∧ acc = []) ∨ acc.head? = some ['.', '.'] then comp :: acc
  else acc.tail

/-- `os.path.normpath` (`posixpath.normpath`), called in utils.py:498 and 513. -/
def normpath (path : List Char) : List Char :=
  let k := initialSlashes path
  let p := List.replicate k '/' ++ joinSlash ((splitSlash path).foldl (normStep k) []).reverse
  if p = [] then ['.'] else p

/-- The markers `flag`, `singlestar` and `doublestar` without the opening bracket, utils.py:508-510. -/
def flagMark : List Char := ['$', '@', 'f', 'l', 'a', 'g', '@', '$', ']']
def sstarMark : List Char := ['$', '@', 's', 'i', 'n', 'g', 'l', 'e', 's', 't', 'a', 'r', '@', '$', ']']
def dstarMark : List Char := ['$', '@', 'd', 'o', 'u', 'b', 'l', 'e', 's', 't', 'a', 'r', '@', '$', ']']

/-- What follows the first `}`, if no line break comes before it: the end of a match of `{.*?}` after the `{`. -/
def afterBrace : List Char → Option (List Char)
  | [] => none
  | c :: l => if c = '}' then some l else if c = '\n' then none else afterBrace l

theorem afterBrace_lt : ∀ {l r}, afterBrace l = some r → r.length < l.length
  | [], _, h => by simp [afterBrace] at h
  | c :: l, r, h => by
    rw [List.length_cons]
    unfold afterBrace at h
    split at h
    · simp only [Option.some.injEq] at h
      rw [← h]
      omega
    split at h
    · simp at h
    · have := afterBrace_lt h
      omega

/-- `re.sub(r'{.*?}', flag, pattern)`, utils.py:515. -/
def subFields : List Char → List Char
  | [] => []
  | c :: l =>
    if c = '{' then
      match _h : afterBrace l with
      | some r => '[' :: flagMark ++ subFields r
      | none => '{' :: subFields l
    else c :: subFields l
termination_by l => l.length
decreasing_by
  · have := afterBrace_lt _h
    rw [List.length_cons]
    omega
  · simp
  · simp

/-- `re.sub(r'\*\*', doublestar, rep)` then `re.sub(r'\*', singlestar, rep)`, utils.py:516-517. -/
def subStars : List Char → List Char
  | [] => []
  | '*' :: '*' :: l => '[' :: dstarMark ++ subStars l
  | '*' :: l => '[' :: sstarMark ++ subStars l
  | c :: l => c :: subStars l

/-- The elements of the regular expression. -/
inductive PTok
  | lit (c : Char)
  | any                                  -- `.`
  | cls (neg : Bool) (items : List Item) -- `[seq]`, `[!seq]`
  | sstar                                -- `[^/]*?`
  | dstar                                -- `.*?`
  | field                                -- `([_0-9A-Za-z]+?)`
deriving DecidableEq, Repr

/-- `l` without the prefix `p`. -/
def strip (p l : List Char) : Option (List Char) := if p <+: l then some (l.drop p.length) else none

theorem strip_le {p l r} (h : strip p l = some r) : r.length ≤ l.length := by
  unfold strip at h
  split at h
  · simp only [Option.some.injEq] at h
    rw [← h, List.length_drop]
    omega
  · simp at h

/-- A bracket expression whose text ends with that of a marker: the marker stands inside another bracket expression and
its replacement gives something else than a class. -/
def clash (l rest : List Char) : Bool :=
  let text := l.take (l.length - rest.length)
  flagMark.isSuffixOf text || sstarMark.isSuffixOf text || dstarMark.isSuffixOf text

/-- `fnmatch.translate(rep)` followed by the replacement of the markers, utils.py:518-525.  `none`: some wildcard or field
is inside a bracket expression, which is not modelled. -/
def compile : List Char → Option (List PTok)
  | [] => some []
  | '?' :: l => (compile l).map (PTok.any :: ·)
  | '[' :: l =>
    match _h1 : strip flagMark l with
    | some r => (compile r).map (PTok.field :: ·)
    | none =>
      match _h2 : strip sstarMark l with
      | some r => (compile r).map (PTok.sstar :: ·)
      | none =>
        match _h3 : strip dstarMark l with
        | some r => (compile r).map (PTok.dstar :: ·)
        | none =>
          match _h : Fnmatch.bracket l with
          | none => (compile l).map (PTok.lit '[' :: ·)
          | some (neg, items, rest) =>
            if clash l rest then none else (compile rest).map (PTok.cls neg items :: ·)
  | c :: l => (compile l).map (PTok.lit c :: ·)
termination_by l => l.length
decreasing_by
  · simp
  · have := strip_le _h1
    rw [List.length_cons]
    omega
  · have := strip_le _h2
    rw [List.length_cons]
    omega
  · have := strip_le _h3
    rw [List.length_cons]
    omega
  · simp
  · have := Fnmatch.bracket_lt _h
    rw [List.length_cons]
    omega
  · simp

/-- `_prepare_pattern`, utils.py:505-526 (`none`: not modelled, see `compile`). -/
def prepare (pattern : List Char) : Option (List PTok) := compile (subStars (subFields (normpath pattern)))

/-- `[_0-9A-Za-z]` -/
def wordChar (c : Char) : Bool :=
  c == '_' || (decide ('0' ≤ c) && decide (c ≤ '9')) || (decide ('A' ≤ c) && decide (c ≤ 'Z')) ||
    (decide ('a' ≤ c) && decide (c ≤ 'z'))

/-- What a lazy repetition of `p` tries, in order: the consumed part and the rest. -/
def splits (p : Char → Bool) : List Char → List (List Char × List Char)
  | [] => [([], [])]
  | c :: l => ([], c :: l) :: (if p c then (splits p l).map (fun x => (c :: x.1, x.2)) else [])

/-- `re.compile(rep).match(name)` and the groups: the first match found by backtracking. -/
def run : List PTok → List Char → Option (List (List Char))
  | [], s => if s = [] then some [] else none
  | .lit c :: ts, s => match s with
    | [] => none
    | d :: r => if d = c then run ts r else none
  | .any :: ts, s => match s with
    | [] => none
    | _ :: r => run ts r
  | .cls neg items :: ts, s => match s with
    | [] => none
    | d :: r => if items.any (Item.mem d) != neg then run ts r else none
  | .sstar :: ts, s => (splits (fun c => c != '/') s).findSome? (fun x => run ts x.2)
  | .dstar :: ts, s => (splits (fun _ => true) s).findSome? (fun x => run ts x.2)
  | .field :: ts, s => (splits wordChar s).findSome? (fun x => if x.1 = [] then none else (run ts x.2).map (x.1 :: ·))

/-- What `string.Formatter().parse` yields, literal text character by character. -/
inductive Piece
  | ch (c : Char)
  | field (name : List Char)
deriving DecidableEq, Repr

/-- The field name after `{` and what follows the closing brace.  `inBr`: between `[` and `]`.  `none`: parse error,
conversion or non-empty format specification (all are ValueError, see `_get_fields`, utils.py:536-538). -/
def fieldName (inBr : Bool) : List Char → Option (List Char × List Char)
  | [] => none
  | c :: l =>
    if inBr then (fieldName (c != ']') l).map (fun x => (c :: x.1, x.2))
    else if c = '}' then some ([], l)
    else if c = '{' ∨ c = '!' then none
    else if c = ':' then (if l.head? = some '}' then some ([], l.tail) else none)
    else (fieldName (c == '[') l).map (fun x => (c :: x.1, x.2))

theorem fieldName_lt : ∀ {b l n r}, fieldName b l = some (n, r) → r.length < l.length
  | _, [], _, _, h => by simp [fieldName] at h
  | b, c :: l, n, r, h => by
    rw [List.length_cons]
    unfold fieldName at h
    split at h
    · simp only [Option.map_eq_some_iff, Prod.mk.injEq] at h
      obtain ⟨⟨n', r'⟩, h1, h2, h3⟩ := h
      have := fieldName_lt h1
      simp only at h3
      rw [← h3]
      omega
    split at h
    · simp only [Option.some.injEq, Prod.mk.injEq] at h
      rw [← h.2]
      omega
    split at h
    · simp at h
    split at h
    · split at h
      · simp only [Option.some.injEq, Prod.mk.injEq] at h
        rw [← h.2, List.length_tail]
        omega
      · simp at h
    · simp only [Option.map_eq_some_iff, Prod.mk.injEq] at h
      obtain ⟨⟨n', r'⟩, h1, h2, h3⟩ := h
      have := fieldName_lt h1
      simp only at h3
      rw [← h3]
      omega

/-- `re.match('[_a-zA-Z][_a-zA-Z0-9]*', field_name)`, utils.py:541-544: only the first character is checked. -/
def validName : List Char → Bool
  | [] => false
  | c :: _ => wordChar c && !(decide ('0' ≤ c) && decide (c ≤ '9'))

/-- `string.Formatter().parse(text)` with the checks of `_get_fields`, utils.py:529-545. -/
def parse : List Char → Except Err (List Piece)
  | [] => .ok []
  | c :: l =>
    if c = '{' then
      if l.head? = some '{' then
        match parse l.tail with
        | .error e => .error e
        | .ok p => .ok (.ch '{' :: p)
      else
        match _h : fieldName false l with
        | none => .error .value
        | some (name, r) =>
          if validName name then
            match parse r with
            | .error e => .error e
            | .ok p => .ok (.field name :: p)
          else .error .value
    else if c = '}' then
      if l.head? = some '}' then
        match parse l.tail with
        | .error e => .error e
        | .ok p => .ok (.ch '}' :: p)
      else .error .value
    else
      match parse l with
      | .error e => .error e
      | .ok p => .ok (.ch c :: p)
termination_by l => l.length
decreasing_by
  · rw [List.length_cons, List.length_tail]; omega
  · have := fieldName_lt _h
    rw [List.length_cons]
    omega
  · rw [List.length_cons, List.length_tail]; omega
  · simp

/-- The names of the fields. -/
def names (ps : List Piece) : List (List Char) :=
  ps.filterMap (fun p => match p with | .ch _ => none | .field n => some n)

/-- `_get_fields(text)`, utils.py:529-545. -/
def getFields (text : List Char) : Except Err (List (List Char)) :=
  match parse text with
  | .error e => .error e
  | .ok ps => .ok (names ps)

/-- `dict(zip(keys, values))[name]`: the last one counts. -/
def value (keys vals : List (List Char)) (name : List Char) : Except Err (List Char) :=
  match (keys.zip vals).reverse.lookup name with
  | none => .error .key
  | some v => .ok v

/-- The text for a piece. -/
def formatPiece (keys vals : List (List Char)) : Piece → Except Err (List Char)
  | .ch c => .ok [c]
  | .field n => value keys vals n

/-- `tpl.format(**dict(zip(keys, values)))`, utils.py:501, for a parsed template without attribute or item access. -/
def format (keys vals : List (List Char)) (ps : List Piece) : Except Err (List Char) :=
  match mapE (formatPiece keys vals) ps with
  | .error e => .error e
  | .ok l => .ok l.flatten

/-- The check of the templates, utils.py:492-494: their pieces. -/
def checkTpls (keys : List (List Char)) : List (List Char) → Except Err (List (List Piece))
  | [] => .ok []
  | t :: ts =>
    match parse t with
    | .error e => .error e
    | .ok ps =>
      if (names ps).all (fun n => decide (n ∈ keys)) then
        match checkTpls keys ts with
        | .error e => .error e
        | .ok l => .ok (ps :: l)
      else .error .value

/-- The loop over the names, utils.py:496-502: what is yielded, and the exception that ends the iteration. -/
def loop (toks : List PTok) (keys : List (List Char)) (tpls : List (List Piece)) :
    List (List Char) → List (List Char × List (List Char)) × Option Err
  | [] => ([], none)
  | name :: l =>
    match run toks (normpath name) with
    | none => loop toks keys tpls l
    | some vals =>
      match mapE (format keys vals) tpls with
      | .error e => ([], some e)
      | .ok tags => ((name, tags) :: (loop toks keys tpls l).1, (loop toks keys tpls l).2)

/-- The name of a field is looked up as it is: no attribute or item access in it. -/
def plain (name : List Char) : Bool := !(decide ('.' ∈ name) || decide ('[' ∈ name))

/-- `tags_from_path(names, pattern, *tag_tpls)`, utils.py:444-502: what the generator yields and the exception that ends
it, if any.  Not modelled (`none`): wildcards or fields inside bracket expressions, and templates with attribute or item
access. -/
def tagsFromPath (ns : List (List Char)) (pattern : List Char) (tpls : List (List Char)) :
    Option (List (List Char × List (List Char)) × Option Err) :=
  match prepare pattern with
  | none => none
  | some toks =>
    match getFields pattern with
    | .error e => some ([], some e)
    | .ok keys =>
      match checkTpls keys tpls with
      | .error e => some ([], some e)
      | .ok ps =>
        if ps.all (fun p => (names p).all plain) then some (loop toks keys ps ns) else none

end Razorback.PathTags
