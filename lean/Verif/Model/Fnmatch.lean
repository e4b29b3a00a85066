/-
Model of the standard library `fnmatch` (POSIX, `normcase` is the identity) as used by
src/razorback/signalset.py:140, 1004 and src/razorback/utils.py:518.
`fnmatch.translate` turns the pattern into a regular expression; the model keeps the token list and a
backtracking matcher with the same language (the atomic groups emitted by recent Python versions are an
optimisation that does not change the language).
-/
import Verif.Model.Tags

namespace Razorback.Fnmatch

/-- Element of a bracket expression. -/
inductive Item
  | ch (c : Char)
  | range (a b : Char)
deriving DecidableEq, Repr

/-- Pattern tokens. -/
inductive Tok
  | lit (c : Char)
  | any                                  -- `?`
  | star                                 -- `*`
  | cls (neg : Bool) (items : List Item) -- `[seq]`, `[!seq]`
deriving DecidableEq, Repr

/-- Content of a bracket expression: `a-b` is a range (dropped when empty), everything else literal. -/
def parseItems : List Char → List Item
  | a :: '-' :: b :: l => if a ≤ b then .range a b :: parseItems l else parseItems l
  | a :: l => .ch a :: parseItems l
  | [] => []

/-- Split at the first `]`: what precedes it and what follows it. -/
def splitBracket : List Char → Option (List Char × List Char)
  | [] => none
  | c :: l =>
    if c = ']' then some ([], l)
    else match splitBracket l with
      | none => none
      | some (a, b) => some (c :: a, b)

/-- Body of a bracket expression after `[` or `[!`: a `]` in first position is literal. -/
def bracketBody : List Char → Option (List Char × List Char)
  | ']' :: l => match splitBracket l with
    | none => none
    | some (a, b) => some (']' :: a, b)
  | l => splitBracket l

/-- Bracket expression after the opening `[`: negation flag, items and rest; `none` if it is not closed. -/
def bracket : List Char → Option (Bool × List Item × List Char)
  | '!' :: l => match bracketBody l with
    | none => none
    | some (a, b) => some (true, parseItems a, b)
  | l => match bracketBody l with
    | none => none
    | some (a, b) => some (false, parseItems a, b)

theorem splitBracket_lt : ∀ {l a b}, splitBracket l = some (a, b) → b.length < l.length
  | [], _, _, h => by simp [splitBracket] at h
  | c :: l, a, b, h => by
    unfold splitBracket at h
    split at h
    · simp at h; simp [h.2]
    · split at h
      · simp at h
      · rename_i a' b' h'
        have := splitBracket_lt h'
        simp at h
        simp only [List.length_cons]; rw [← h.2]; omega

theorem bracketBody_lt {l a b} (h : bracketBody l = some (a, b)) : b.length < l.length := by
  unfold bracketBody at h
  split at h
  · split at h
    · simp at h
    · rename_i h'
      have := splitBracket_lt h'
      simp at h; simp only [List.length_cons]; rw [← h.2]; omega
  · exact splitBracket_lt h

theorem bracket_lt {l n i b} (h : bracket l = some (n, i, b)) : b.length < l.length := by
  unfold bracket at h
  split at h
  · split at h
    · simp at h
    · rename_i h'
      have := bracketBody_lt h'
      simp at h; simp only [List.length_cons]; rw [← h.2.2]; omega
  · split at h
    · simp at h
    · rename_i h'
      have := bracketBody_lt h'
      simp at h; rw [← h.2.2]; omega

/-- The tokens of a pattern (`fnmatch.translate`). An unclosed `[` is a literal. -/
def tokens : List Char → List Tok
  | [] => []
  | '*' :: l => .star :: tokens l
  | '?' :: l => .any :: tokens l
  | '[' :: l =>
    match _h : bracket l with
    | none => .lit '[' :: tokens l
    | some (neg, items, rest) => .cls neg items :: tokens rest
  | c :: l => .lit c :: tokens l
termination_by l => l.length
decreasing_by
  all_goals simp only [List.length_cons]
  all_goals first | omega | (have := bracket_lt _h; omega)

/-- Membership of a character in a bracket item. -/
def Item.mem (c : Char) : Item → Bool
  | .ch d => c == d
  | .range a b => decide (a ≤ c) && decide (c ≤ b)

/-- One-character tokens. -/
def Tok.one (t : Tok) (c : Char) : Bool :=
  match t with
  | .lit d => c == d
  | .any => true
  | .star => false
  | .cls neg items => (items.any (Item.mem c)) != neg

/-- `re.compile(translate(pat)).match(name)` (anchored at both ends). -/
def matchToks : List Tok → List Char → Bool
  | [], [] => true
  | [], _ :: _ => false
  | .star :: ts, [] => matchToks ts []
  | .star :: ts, c :: cs => matchToks ts (c :: cs) || matchToks (.star :: ts) cs
  | _ :: _, [] => false
  | t :: ts, c :: cs => t.one c && matchToks ts cs
termination_by ts cs => (ts.length, cs.length)

/-- `fnmatch.fnmatch(name, pat)`. -/
def fnmatch (name pat : String) : Bool := matchToks (tokens pat.toList) name.toList

/-- `fnmatch.filter(names, pat)`. -/
def filter (names : List String) (pat : String) : List String := names.filter (fnmatch · pat)

end Razorback.Fnmatch

namespace Razorback.Tags

/-- The names selected by `Tags.filter(*patterns)`, signalset.py:139-140, as a set without repetition.  The
order of the Python result is that of a `set` and unspecified; the model's order has no meaning. -/
def filter (t : Tags) (patterns : List String) : List String :=
  dedup (patterns.flatMap (fun p => Fnmatch.filter t.tags.keys p))

/-- `Tags.filter_get(*patterns)`, signalset.py:142-143: `sorted(set().union(*map(self.get, names)))`.
A tag called `filter`, or (when a name matches) a tag called `get`, hides the method: TypeError. -/
def filterGet (t : Tags) (patterns : List String) : Except Err (List Nat) :=
  match t.callMethod "filter" with
  | .error e => .error e
  | .ok _ =>
    let names := t.filter patterns
    if names = [] then .ok []
    else match t.callMethod "get" with
      | .error e => .error e
      | .ok _ =>
        .ok (sortBy (fun a b => decide (a ≤ b))
          (dedup (names.flatMap (fun k => (t.tags.get? k).getD []))))

end Razorback.Tags
