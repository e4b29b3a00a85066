/-
Model of the texts by which `Tags` and `SignalSet` objects are shown, as lists of characters.
-/
import Verif.Model.Tags

namespace Razorback.Text
open Razorback

/-- A text. -/
abbrev Txt := List Char

/-- `str(i)` of a natural number. -/
def nat (i : Nat) : Txt := (Nat.repr i).toList

/-- `sep.join(l)` -/
def join (sep : Txt) : List Txt → Txt
  | [] => []
  | [a] => a
  | a :: b :: l => a ++ sep ++ join sep (b :: l)

/-- `str(t)` of a tuple of integers: a tuple of one element has a comma. -/
def tuple : List Nat → Txt
  | [a] => ['('] ++ nat a ++ [',', ')']
  | l => ['('] ++ join [',', ' '] (l.map nat) ++ [')']

/-- The order of `sorted(items, key=lambda x: (len(x[1]), x[0]))`, signalset.py:131, 268. -/
def leItem (a b : String × List Nat) : Bool :=
  decide (a.2.length < b.2.length) || (a.2.length == b.2.length && decide (a.1 ≤ b.1))

/-- `'%s=%s' % e`, signalset.py:132. -/
def entry (e : String × List Nat) : Txt := e.1.toList ++ ['='] ++ tuple e.2

/-- `Tags.__repr__`, signalset.py:130-133. -/
def tagsRepr (t : Tags) : Except Err Txt :=
  match t.items with
  | .error e => .error e
  | .ok items =>
    .ok ("Tags(".toList ++ nat t.indices.length ++ [',', ' '] ++ join [',', ' '] ((sortBy leItem items).map entry) ++ [')'])

/-- `'%r: %s' % e`, signalset.py:269, and the items of `str(dict)`.  Simplification: the name has no quote, backslash or
unprintable character, so that `%r` only puts it between quotes. -/
def quoted (e : String × List Nat) : Txt := ['\''] ++ e.1.toList ++ ['\'', ':', ' '] ++ tuple e.2

/-- `Tags.__str__`, signalset.py:135-136. -/
def tagsStr (t : Tags) : Txt := ['{'] ++ join [',', ' '] (t.tags.map quoted) ++ ['}']

/-- `'%d %s%s' % (n, w, 's'[:n>1])`, signalset.py:280. -/
def num (n : Nat) (w : Txt) : Txt := nat n ++ [' '] ++ w ++ (if 1 < n then ['s'] else [])

/-- The first line of `SignalSet.__str__`, signalset.py:280-283. -/
def firstLine (channels runs : Nat) : Txt :=
  "SignalSet: ".toList ++ num channels "channel".toList ++ [',', ' '] ++ num runs "run".toList

/-- One turn of the loop filling the lines of tags, signalset.py:271-274; the last line first. -/
def fill (width : Nat) (content : List Txt) (elem : Txt) : List Txt :=
  match content with
  | [] => [elem ++ [',', ' ']]
  | last :: l =>
    if width < last.length + 2 + elem.length then (elem ++ [',', ' ']) :: last :: l
    else (last ++ elem ++ [',', ' ']) :: l

/-- The lines of tags, signalset.py:270-274, with `width - len(pre)` characters each. -/
def tagLines (width : Nat) (items : List Txt) : List Txt := (items.foldl (fill width) [[]]).reverse

/-- The tags in `SignalSet.__str__`, signalset.py:267-277. -/
def tagsBlock (t : Tags) : Except Err Txt :=
  match t.items with
  | .error e => .error e
  | .ok items =>
    let pre := "tags: {".toList
    let content := join (['\n'] ++ List.replicate pre.length ' ') (tagLines (52 - pre.length) ((sortBy leItem items).map quoted))
    .ok (pre ++ content.take (content.length - 2) ++ ['}'])

/-- `fmt % arg` for one text argument.  Simplification: conversions other than `%s` and `%%` raise ValueError (some
raise TypeError; flags and widths before the `s` are not modelled). -/
def percent : Txt → Option Txt → Except Err Txt
  | [], none => .ok []
  | [], some _ => .error .type
  | '%' :: '%' :: r, arg =>
    match percent r arg with
    | .error e => .error e
    | .ok r => .ok ('%' :: r)
  | '%' :: 's' :: _, none => .error .type
  | '%' :: 's' :: r, some a =>
    match percent r none with
    | .error e => .error e
    | .ok r => .ok (a ++ r)
  | '%' :: _, _ => .error .value
  | c :: r, arg =>
    match percent r arg with
    | .error e => .error e
    | .ok r => .ok (c :: r)

/-- `SignalSet.__repr__`, signalset.py:288-291, given the texts of the runs. -/
def signalSetRepr (t : Tags) (runs : List Txt) : Except Err Txt :=
  percent ("SignalSet(".toList ++ tagsStr t ++ [',', ' ', '%', 's', ')']) (some (join [',', ' '] runs))

end Razorback.Text
