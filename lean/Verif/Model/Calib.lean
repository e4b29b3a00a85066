/-
Model of calibrations.py, with the parts of `str`, `re`, `numpy.loadtxt` and `scipy.interpolate.interp1d` it uses.
Texts are lists of characters (decoding is not modelled); the conversion of a word into a number is a parameter: `num` for
`float` and `int` for `int`.  Infinities and NaN do not appear in the tables of the model.
-/
import Verif.Model.DataPath
import Mathlib.Analysis.SpecialFunctions.Complex.Arg
import Mathlib.Data.List.Sort

namespace Razorback.Calib
open Razorback.Data
open Complex (I)

/-- `c.isspace()`, and `\s` in a regular expression. -/
def isSpace (c : Char) : Bool :=
  let n := c.toNat
  (9 ≤ n && n ≤ 13) || (28 ≤ n && n ≤ 32) || n == 0x85 || n == 0xA0 || n == 0x1680 || (0x2000 ≤ n && n ≤ 0x200A) ||
    n == 0x2028 || n == 0x2029 || n == 0x202F || n == 0x205F || n == 0x3000

/-- `s.strip()` -/
def strip (s : List Char) : List Char := ((s.dropWhile isSpace).reverse.dropWhile isSpace).reverse

/-- `s.lower()`; only the letters of the marks matter, and no character outside of ASCII becomes one of them. -/
def lower (s : List Char) : List Char := s.map Char.toLower

/-- The translation of line ends when a text file is read. -/
def universal : List Char → List Char
  | [] => []
  | '\r' :: '\n' :: l => '\n' :: universal l
  | '\r' :: l => '\n' :: universal l
  | c :: l => c :: universal l

/-- `file.readlines()` -/
def readlines : List Char → List (List Char)
  | [] => []
  | c :: l =>
    if c = '\n' then ['\n'] :: readlines l
    else match readlines l with
      | [] => [[c]]
      | w :: ws => (c :: w) :: ws

/-- The text of a file opened for reading. -/
def openText (w : World) (p : Path) : Except Err (List Char) :=
  match stat w.fs w.cwd p with
  | some (.file t) => .ok (universal t)
  | _ => .error .os

/-- What comes after a prefix. -/
def afterPrefix : List Char → List Char → Option (List Char)
  | [], l => some l
  | c :: p, d :: l => if c = d then afterPrefix p l else none
  | _ :: _, [] => none

/-- `re.match(pattern, l.lower().strip())`, calibrations.py:56-58, with `pattern` equal to `chopper\s+on` or `chopper\s+off`. -/
def isMark (on : Bool) (l : List Char) : Bool :=
  match afterPrefix ['c', 'h', 'o', 'p', 'p', 'e', 'r'] (strip (lower l)) with
  | none => false
  | some [] => false
  | some (c :: r) =>
    isSpace c && (afterPrefix (if on then ['o', 'n'] else ['o', 'f', 'f']) (r.dropWhile isSpace)).isSome

/-- `not l.strip()` -/
def isBlank (l : List Char) : Bool := strip l = []

/-- `start_stop(lines, mark)`, calibrations.py:55-62. -/
def startStop (on : Bool) (lines : List (List Char)) : Except Err (Nat × Option Nat) :=
  match lines.findIdx? (isMark on) with
  | none => .error .stopIter
  | some i => .ok (i + 1, ((lines.drop (i + 1)).findIdx? isBlank).map (· + (i + 1)))

/-- `lines[start:stop]`, calibrations.py:111. -/
def between (lines : List (List Char)) (ss : Nat × Option Nat) : List (List Char) :=
  match ss.2 with
  | none => lines.drop ss.1
  | some k => (lines.take k).drop ss.1

/-- `s.split()` -/
def words : List Char → List (List Char)
  | [] => []
  | c :: l =>
    if isSpace c then words l
    else match l with
      | [] => [[c]]
      | d :: _ =>
        if isSpace d then [c] :: words l
        else match words l with
          | [] => [[c]]
          | w :: ws => (c :: w) :: ws

/-- `s.split(',')` -/
def splitComma : List Char → List (List Char)
  | [] => [[]]
  | c :: l =>
    if c = ',' then [] :: splitComma l
    else match splitComma l with
      | [] => [[c]]
      | w :: ws => (c :: w) :: ws

/-- A line for `np.loadtxt`: without its end and without the comment. -/
def payload (l : List Char) : List Char := l.takeWhile (fun c => c ≠ '#' ∧ c ≠ '\n')

/-- The fields of a line for `np.loadtxt(delimiter=None)`. -/
def fieldsWs (l : List Char) : List (List Char) := words (payload l)

/-- The fields of a line for `np.loadtxt(delimiter=',')`. -/
def fieldsComma (l : List Char) : List (List Char) := if payload l = [] then [] else splitComma (payload l)

/-- The conversion of a field: ValueError if it is not a number. -/
def toNum (num : List Char → Option ℚ) (w : List Char) : Except Err ℚ :=
  match num w with
  | some q => .ok q
  | none => .error .value

/-- One row: the columns wanted, or all. -/
def loadRow (num : List Char → Option ℚ) (cols : Option Nat) (fields : List (List Char)) : Except Err (List ℚ) :=
  match cols with
  | none => mapE (toNum num) fields
  | some n =>
    if fields.length < n then .error .value
    else mapE (toNum num) (fields.take n)

/-- `np.loadtxt(lines)`, or `np.loadtxt(lines, delimiter=',', usecols=range(n))`: the rows.  Lines without fields are skipped.
-/
def loadtxt (num : List Char → Option ℚ) (fields : List Char → List (List Char)) (cols : Option Nat)
    (lines : List (List Char)) : Except Err (List (List ℚ)) :=
  match mapE (loadRow num cols) ((lines.map fields).filter (· ≠ [])) with
  | .error e => .error e
  | .ok [] => .ok []
  | .ok (r :: rows) => if rows.all (fun r' => r'.length = r.length) then .ok (r :: rows) else .error .value

/-- `table[:, k]`: `np.loadtxt` gives a table only for at least two rows and two columns, less is squeezed into a flat
array (or an empty one) and the index raises. -/
def column (rows : List (List ℚ)) (k : Nat) : Except Err (List ℚ) :=
  if rows.length < 2 then .error .index
  else if rows.any (fun r => r.length < 2) then .error .index
  else mapE (fun r : List ℚ => match r[k]? with | some q => .ok q | none => .error .index) rows

/-- `scipy.interpolate.interp1d(x, y)`: the points in increasing order (stable sort). -/
def interp1d (pts : List (ℚ × ℂ)) : List (ℚ × ℂ) := pts.insertionSort (fun a b => a.1 ≤ b.1)

/-- The evaluation of an `interp1d` (`_call_linear`): ValueError out of the table; `none` is a value which is not a number
(division by zero). -/
noncomputable def evalInterp (s : List (ℚ × ℂ)) (f : ℚ) : Except Err (Option ℂ) :=
  match s.head?, s.getLast? with
  | some a, some b =>
    if f < a.1 ∨ b.1 < f then .error .value
    else
      let n := s.length
      let hi := min (max (s.filter (fun p => p.1 < f)).length 1) (n - 1)
      let lo := if hi = 0 then n - 1 else hi - 1
      match s[lo]?, s[hi]? with
      | some p, some q =>
        if q.1 - p.1 = 0 then .ok none
        else .ok (some ((q.2 - p.2) / ((q.1 - p.1 : ℚ) : ℂ) * ((f - p.1 : ℚ) : ℂ) + p.2))
      | _, _ => .error .index
  | _, _ => .error .value

/-- `cal_mp(freq, module, phase)`, calibrations.py:71-72. -/
noncomputable def calMp (freq module : ℚ) (phase : ℝ) : ℂ :=
  (freq : ℂ) * (module : ℂ) * Complex.exp (I * (phase : ℂ) * (Real.pi : ℂ) / 180)

/-- `np.angle(f + 1j * alpha, deg=True)`, calibrations.py:91 -/
noncomputable def angleDeg (f alpha : ℚ) : ℝ := Complex.arg ((f : ℂ) + I * (alpha : ℂ)) * (180 / Real.pi)

/-- `Path(filename).stem` of the last part, calibrations.py:65. -/
def stem (p : Path) : List Char :=
  match p.parts.getLast? with
  | none => []
  | some name =>
    -- the characters after the last dot, and those before it
    let suf := name.reverse.takeWhile (· ≠ '.')
    let pre := (name.reverse.dropWhile (· ≠ '.')).drop 1
    if '.' ∈ name ∧ pre ≠ [] ∧ suf ≠ [] then pre.reverse else name

/-- A match of `MFS\d\d` (ASCII digits) at the start. -/
def versionAt : List Char → Option (List Char)
  | 'M' :: 'F' :: 'S' :: a :: b :: _ => if a.isDigit && b.isDigit then some ['M', 'F', 'S', a, b] else none
  | _ => none

/-- The first group of `re.match(r".*(MFS\d\d).*", name)`, calibrations.py:19: the last occurrence on the first
line. -/
def lastVersion : List Char → Option (List Char)
  | [] => none
  | c :: l =>
    if c = '\n' then none
    else match lastVersion l with
      | some v => some v
      | none => versionAt (c :: l)

/-- `METRONIX_CHOPPER_ON_LIMIT`, calibrations.py:18. -/
def chopperOnLimit : ℚ := 512

/-- `METRONIX_ALPHA_MAP`, calibrations.py:20. -/
def alphaMapDefault : List (List Char × ℚ) := [(['M', 'F', 'S', '0', '6'], 4), (['M', 'F', 'S', '0', '7'], 32)]

/-- `calibration(table, filename, chopper, alpha_map)`, calibrations.py:74-95. -/
noncomputable def calibration (table : List (List ℚ)) (file : Path) (chopper : Bool)
    (version : List Char → Option (List Char)) (alphaMap : List (List Char × ℚ)) :
    Except Err (ℚ → Except Err (Option ℂ)) :=
  match column table 0, column table 1, column table 2 with
  | .ok freq, .ok modu, .ok phase =>
    let tab := interp1d (List.zipWith (fun x (y : ℂ) => (x, y)) freq
      (List.zipWith (fun x (mp : ℚ × ℚ) => calMp x mp.1 (mp.2 : ℚ)) freq (List.zip modu phase)))
    match version (stem file) with
    | none => .error .value
    | some v =>
      match alphaMap.lookup v with
      | none => .error .value
      | some alpha =>
        match freq.head?, modu.head? with
        | some fmin, some mmin =>
          .ok (fun f => if f < fmin && chopper then .ok (some (calMp f mmin (angleDeg f alpha))) else evalInterp tab f)
        | _, _ => .error .index
  | .error e, _, _ => .error e
  | _, .error e, _ => .error e
  | _, _, .error e => .error e

/-- `metronix(filename, sampling_rate, chopper_on_limit, version_pattern, alpha_map)`, calibrations.py:23-112.  The pattern
is given by the function from names to the first group of its match. -/
noncomputable def metronix (num : List Char → Option ℚ) (w : World) (filename : List Char) (rate : ℚ) (limit : Option ℚ := none)
    (version : Option (List Char → Option (List Char)) := none) (alphaMap : Option (List (List Char × ℚ)) := none) :
    Except Err (ℚ → Except Err (Option ℂ)) :=
  match getDataFile w filename metronixDataPath with
  | .error e => .error e
  | .ok file =>
    match openText w file with
    | .error e => .error e
    | .ok text =>
      let lines := readlines text
      let chopper := decide (rate ≤ limit.getD chopperOnLimit)
      match startStop chopper lines with
      | .error e => .error e
      | .ok ss =>
        match loadtxt num fieldsWs none (between lines ss) with
        | .error e => .error e
        | .ok table => calibration table file chopper (version.getD lastVersion) (alphaMap.getD alphaMapDefault)

/-- The four words of the first line, calibrations.py:131-134: too many or too few raise ValueError. -/
def ctsHeader (line : List Char) : List (List Char) := ((splitComma (strip line)).map strip).filter (· ≠ [])

/-- The rows of a cts file, calibrations.py:135-140: one line is skipped, or two if that fails. -/
def ctsRows (num : List Char → Option ℚ) (n : Nat) (lines : List (List Char)) : Except Err (List (List ℚ)) :=
  match loadtxt num fieldsComma (some (2 + 2 * n)) (lines.drop 1) with
  | .ok rows => .ok rows
  | .error _ => loadtxt num fieldsComma (some (2 + 2 * n)) (lines.drop 2)

/-- The points of channel `i`: column 0 and the complex number in columns `2 + 2i` and `3 + 2i`, calibrations.py:143-148. -/
noncomputable def ctsPoint (i : Nat) (r : List ℚ) : ℚ × ℂ :=
  (r.getD 0 0, (r.getD (2 + 2 * i) 0 : ℂ) + I * (r.getD (3 + 2 * i) 0 : ℂ))

/-- `phoenix(cts_file, level)`, calibrations.py:115-149.  A level without rows makes the assertion fail, and the message of
the assertion raises ValueError (`:r` is not a format of strings).  A file with a single row gives a flat array, and an
index raises.  A negative number of channels is not modelled (ValueError). -/
noncomputable def phoenix (num : List Char → Option ℚ) (int : List Char → Option Int) (w : World) (file : List Char)
    (level : ℚ) : Except Err (List (ℚ → Except Err (Option ℂ))) :=
  match openText w (.parse file) with
  | .error e => .error e
  | .ok text =>
    let lines := readlines text
    match ctsHeader (lines.headD []) with
    | [_, _, _, nb] =>
      match int nb with
      | none => .error .value
      | some k =>
        if k < 0 then .error .value
        else
          match ctsRows num k.toNat lines with
          | .error e => .error e
          | .ok rows =>
            if rows.length < 2 then .error .index
            else
              let sel := rows.filter (fun r => r[1]? = some level)
              if sel = [] then .error .value
              else .ok ((List.range k.toNat).map (fun i => evalInterp (interp1d (sel.map (ctsPoint i)))))
    | _ => .error .value

end Razorback.Calib
