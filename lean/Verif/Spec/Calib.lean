/-
Spec of the calibration files and functions (C73-C75).
-/
import Verif.Model.Calib

namespace Razorback.Spec
open Razorback.Data Razorback.Calib

/-- The text read from a file: a carriage return, and a carriage return followed by a line feed, are read as a line feed, all
other characters as they are. -/
inductive Translated : List Char → List Char → Prop
  | nil : Translated [] []
  | other {c raw text} : c ≠ '\r' → Translated raw text → Translated (c :: raw) (c :: text)
  | crlf {raw text} : Translated raw text → Translated ('\r' :: '\n' :: raw) ('\n' :: text)
  | cr {raw text} : raw.head? ≠ some '\n' → Translated raw text → Translated ('\r' :: raw) ('\n' :: text)

/-- The lines of a text: together they make the text, all but the last one end with the only line break they contain, the last
one may lack it. -/
structure IsLines (text : List Char) (lines : List (List Char)) : Prop where
  all : lines.flatten = text
  ends : ∀ l ∈ lines.dropLast, ∃ b, l = b ++ ['\n'] ∧ '\n' ∉ b
  last : ∀ l ∈ lines.getLast?, l ≠ [] ∧ '\n' ∉ l.dropLast

/-- The lines of a file. -/
def LinesOf (raw : List Char) (lines : List (List Char)) : Prop := ∃ text, Translated raw text ∧ IsLines text lines

/-- The code points of the white space characters: tab, line feed, vertical tab, form feed, carriage return, the four
separators, space, next line, no-break space, ogham space, the spaces U+2000 to U+200A, line and paragraph separators,
narrow no-break space, mathematical space, ideographic space. -/
def whiteCodes : List ℕ :=
  [9, 10, 11, 12, 13, 28, 29, 30, 31, 32, 0x85, 0xA0, 0x1680, 0x2000, 0x2001, 0x2002, 0x2003, 0x2004, 0x2005, 0x2006,
    0x2007, 0x2008, 0x2009, 0x200A, 0x2028, 0x2029, 0x202F, 0x205F, 0x3000]

/-- Only white space (see `C73_spaces`). -/
def Blank (l : List Char) : Prop := ∀ c ∈ l, isSpace c = true

/-- The line starts (spaces apart) with `chopper` and `on`, or `off`, in upper or lower case, with spaces between them. -/
def Mark (on : Bool) (l : List Char) : Prop :=
  ∃ a b c d e, l = a ++ b ++ c ++ d ++ e ∧ Blank a ∧ b.map Char.toLower = "chopper".toList ∧ c ≠ [] ∧ Blank c ∧
    d.map Char.toLower = (if on then "on" else "off").toList

/-- The table of a section: the lines after its mark (the first one, if there are several) up to the next blank line, or to
the end. -/
def Section (on : Bool) (lines table : List (List Char)) : Prop :=
  ∃ before mark rest, lines = before ++ mark :: (table ++ rest) ∧ (∀ l ∈ before, ¬ Mark on l) ∧ Mark on mark ∧
    (∀ l ∈ table, ¬ Blank l) ∧ (∀ l ∈ rest.head?, Blank l)

/-- The words of a line: separated by spaces. -/
inductive Words : List Char → List (List Char) → Prop
  | nil {l} : Blank l → Words l []
  | cons {s w rest ws} : Blank s → w ≠ [] → (∀ c ∈ w, isSpace c = false) → (∀ c ∈ rest.head?, isSpace c = true) →
      Words rest ws → Words (s ++ w ++ rest) (w :: ws)

/-- The line without its end and without the comment. -/
def content (l : List Char) : List Char := l.takeWhile (fun c => c ≠ '#' ∧ c ≠ '\n')

/-- The numbers of the line: one for each of its words. -/
def RowOf (num : List Char → Option ℚ) (l : List Char) (row : List ℚ) : Prop :=
  ∃ ws, Words (content l) ws ∧ List.Forall₂ (fun w q => num w = some q) ws row

/-- The rows of a table: those of its lines, except the empty ones; all have the same length. -/
def RowsOf (RowOf : List Char → List ℚ → Prop) (table : List (List Char)) (rows : List (List ℚ)) : Prop :=
  (∃ rs, List.Forall₂ RowOf table rs ∧ rows = rs.filter (· ≠ [])) ∧ ∀ r ∈ rows, ∀ r' ∈ rows, r.length = r'.length

/-- The rows of the chopper on, or off, section of a file. -/
def MetronixRows (num : List Char → Option ℚ) (raw : List Char) (on : Bool) (rows : List (List ℚ)) : Prop :=
  ∃ lines table, LinesOf raw lines ∧ Section on lines table ∧ RowsOf (RowOf num) table rows

/-- The version in a name: the last `MFS` followed by two digits, on the first line. -/
def VersionOf (name v : List Char) : Prop :=
  ∃ a b x y, name.takeWhile (· ≠ '\n') = a ++ v ++ b ∧ v = ['M', 'F', 'S', x, y] ∧ x.isDigit = true ∧ y.isDigit = true ∧
    ∀ a' b' x' y', name.takeWhile (· ≠ '\n') = a' ++ ['M', 'F', 'S', x', y'] ++ b' → x'.isDigit = true → y'.isDigit = true →
      a'.length ≤ a.length

/-- The name is a stem, a dot and an extension without dots, none of them empty. -/
def Dotted (name stem : List Char) : Prop := ∃ ext, name = stem ++ '.' :: ext ∧ stem ≠ [] ∧ ext ≠ [] ∧ '.' ∉ ext

/-- The name of the file without the extension, if it has one. -/
def StemOf (p : Path) (stem : List Char) : Prop :=
  ∃ name, p.parts.getLast?.getD [] = name ∧ (Dotted name stem ∨ (¬ ∃ s, Dotted name s) ∧ stem = name)

/-- What `metronix` needs in order to give a calibration function. -/
structure Calibrated (num : List Char → Option ℚ) (w : World) (filename : List Char) (rate : ℚ) (limit : ℚ)
    (version : List Char → Option (List Char)) (alphaMap : List (List Char × ℚ)) (rows : List (List ℚ)) (alpha : ℚ) :
    Prop where
  file : ∃ p text name v, getDataFile w filename metronixDataPath = .ok p ∧ stat w.fs w.cwd p = some (.file text) ∧
    MetronixRows num text (decide (rate ≤ limit)) rows ∧ StemOf p name ∧ version name = some v ∧ alphaMap.lookup v = some alpha
  two : 2 ≤ rows.length
  three : ∀ r ∈ rows, 3 ≤ r.length

/-- The value tabulated by a row: frequency times module, with the phase in degrees. -/
noncomputable def tabulated (x m p : ℚ) : ℂ :=
  ((x * m : ℚ) : ℂ) * Complex.exp (((p : ℝ) * (Real.pi / 180) : ℝ) * Complex.I)

/-- The point of the straight line through `(x, y)` and `(x', y')`. -/
noncomputable def onLine (x x' : ℚ) (y y' : ℂ) (f : ℚ) : ℂ :=
  (((x' - f) / (x' - x) : ℚ) : ℂ) * y + (((f - x) / (x' - x) : ℚ) : ℂ) * y'

/-- The fields of a line: separated by commas. -/
inductive Fields : List Char → List (List Char) → Prop
  | one {w} : ',' ∉ w → Fields w [w]
  | cons {w rest ws} : ',' ∉ w → Fields rest ws → Fields (w ++ ',' :: rest) (w :: ws)

/-- The text without the spaces at its ends. -/
def Stripped (l s : List Char) : Prop :=
  ∃ a b, l = a ++ s ++ b ∧ Blank a ∧ Blank b ∧ (∀ c ∈ s.head?, isSpace c = false) ∧ ∀ c ∈ s.getLast?, isSpace c = false

/-- The first `n` numbers of a line with commas; an empty line has none. -/
def CtsRowOf (num : List Char → Option ℚ) (n : Nat) (l : List Char) (row : List ℚ) : Prop :=
  (content l = [] ∧ row = []) ∨
    (content l ≠ [] ∧ ∃ ws, Fields (content l) ws ∧ n ≤ ws.length ∧ List.Forall₂ (fun w q => num w = some q) (ws.take n) row)

/-- A cts file: four words separated by commas on the first line (spaces around them and empty words apart), the last one the number `n` of channels; then the rows, starting at the second
line or, if that one cannot be read as numbers, at the third. -/
structure CtsFile (num : List Char → Option ℚ) (int : List Char → Option Int) (w : World) (file : List Char) (n : Nat)
    (rows : List (List ℚ)) : Prop where
  text : ∃ text first rest line ws ts a b c nb, stat w.fs w.cwd (.parse file) = some (.file text) ∧
    LinesOf text (first :: rest) ∧ Stripped first line ∧ Fields line ws ∧ List.Forall₂ Stripped ws ts ∧
    ts.filter (· ≠ []) = [a, b, c, nb] ∧
    int nb = some (n : Int) ∧
    (RowsOf (CtsRowOf num (2 + 2 * n)) rest rows ∨
      (¬ ∃ rows', RowsOf (CtsRowOf num (2 + 2 * n)) rest rows') ∧ RowsOf (CtsRowOf num (2 + 2 * n)) rest.tail rows)

end Razorback.Spec
