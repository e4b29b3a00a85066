/-
Model of data.py and cli.py, and of the part of `pathlib` and of the file system they use (POSIX).
There are no symbolic links and no permissions in the model: a system call fails only for a name that is missing, present or
not a directory.
-/
import Verif.Model.PathTags
import Verif.Model.Inventory

namespace Razorback.Data
open PathTags (splitSlash joinSlash)

abbrev Name := List Char

inductive Node
  | file (text : List Char)
  | dir
deriving DecidableEq, Repr

/-- What is at each location, given by the names on the way from the root. -/
abbrev Fs := List Name → Option Node

/-- The reasons for which a system call fails. -/
inductive OsErr
  | notFound     -- FileNotFoundError
  | notDir       -- NotADirectoryError
  | exist        -- FileExistsError
deriving DecidableEq, Repr

/-- `pathlib.Path`: absolute or not, and its parts. -/
structure Path where
  abs : Bool
  parts : List Name
deriving DecidableEq, Repr

/-- `pathlib.Path(s)`: empty parts and `.` are dropped (a path with exactly two slashes in front is as with one). -/
def Path.parse (s : List Char) : Path :=
  ⟨s.head? = some '/', (splitSlash s).filter (fun w => w ≠ [] ∧ w ≠ ['.'])⟩

/-- `p / q` -/
def Path.join (p q : Path) : Path := if q.abs then q else ⟨p.abs, p.parts ++ q.parts⟩

/-- `str(p)` -/
def Path.str (p : Path) : List Char :=
  if p.abs then '/' :: joinSlash p.parts else if p.parts = [] then ['.'] else joinSlash p.parts

/-- The state a command runs in: the files, the current directory, the directory of the package. -/
structure World where
  fs : Fs
  cwd : List Name
  pkg : List Name

/-- `p.resolve()` without symbolic links: `..` removes the name before. -/
def Path.resolve (cwd : List Name) (p : Path) : Path :=
  ⟨true, (p.parts.foldl (fun acc w => if w = ['.', '.'] then acc.dropLast else acc ++ [w]) (if p.abs then [] else cwd))⟩

/-- The location the operating system finds for a path, starting from `cur`. -/
def walk (fs : Fs) : List Name → List Name → Except OsErr (List Name)
  | cur, [] => if (fs cur).isSome then .ok cur else .error .notFound
  | cur, w :: ws =>
    match fs cur with
    | none => .error .notFound
    | some (.file _) => .error .notDir
    | some .dir => if w = ['.', '.'] then walk fs cur.dropLast ws else walk fs (cur ++ [w]) ws

/-- `os.stat(p)` -/
def stat (fs : Fs) (cwd : List Name) (p : Path) : Option Node :=
  match walk fs (if p.abs then [] else cwd) p.parts with
  | .ok loc => fs loc
  | .error _ => none

/-- `p.exists()` -/
def pathExists (fs : Fs) (cwd : List Name) (p : Path) : Bool := (stat fs cwd p).isSome

/-- `p.is_dir()` -/
def isDir (fs : Fs) (cwd : List Name) (p : Path) : Bool := stat fs cwd p = some .dir

/-- `default_data_path(target)`, data.py:8-11. -/
def defaultDataPath (w : World) (target : List Char) : Path :=
  ((Path.join ⟨true, w.pkg⟩ (.parse ['d', 'a', 't', 'a'])).join (.parse target)).resolve w.cwd

/-- `local_data_path(target)`, data.py:14-17. -/
def localDataPath (w : World) (target : List Char) : Path :=
  ((Path.join ⟨false, []⟩ (.parse ['d', 'a', 't', 'a'])).join (.parse target)).resolve w.cwd

/-- `data_path(target)`, data.py:20-25. -/
def dataPath (w : World) (target : List Char) : Path :=
  let loc := (Path.join (Path.resolve w.cwd ⟨false, []⟩) (.parse ['d', 'a', 't', 'a'])).join (.parse target)
  if isDir w.fs w.cwd loc then loc else defaultDataPath w target

/-- The loop of `get_data_file`, data.py:39-42. -/
def firstExisting (w : World) (filename : List Char) : List Path → Except Err Path
  | [] => .error .value
  | d :: ds =>
    let f := d.join (.parse filename)
    if pathExists w.fs w.cwd f then .ok f else firstExisting w filename ds

/-- `get_data_file(filename, dirname)`, data.py:28-43. -/
def getDataFile (w : World) (filename dirname : List Char) : Except Err Path :=
  firstExisting w filename [dataPath w dirname, defaultDataPath w dirname]

/-- `os.mkdir(p)` for the absolute path whose parts are, in reverse order, `rev`. -/
def osMkdir (fs : Fs) (rev : List Name) : Fs × Except OsErr Unit :=
  match rev with
  | [] => (fs, .error .exist)
  | w :: up =>
    match walk fs [] up.reverse with
    | .error e => (fs, .error e)
    | .ok par =>
      if fs par ≠ some .dir then (fs, .error .notDir)
      else if w = ['.', '.'] then (fs, .error .exist)
      else if (fs (par ++ [w])).isSome then (fs, .error .exist)
      else (fun q => if q = par ++ [w] then some .dir else fs q, .ok ())

/-- `p.mkdir(parents=False, exist_ok=ok)` (`pathlib`). -/
def mkdirOne (fs : Fs) (cwd : List Name) (ok : Bool) (rev : List Name) : Fs × Except OsErr Unit :=
  match osMkdir fs rev with
  | (fs', .ok ()) => (fs', .ok ())
  | (fs', .error .notFound) => (fs', .error .notFound)
  | (fs', .error e) => if ok && isDir fs' cwd ⟨true, rev.reverse⟩ then (fs', .ok ()) else (fs', .error e)

/-- `p.mkdir(parents=True, exist_ok=ok)` (`pathlib`): the files afterwards, and the exception raised, if any. -/
def mkdirParents (fs : Fs) (cwd : List Name) (ok : Bool) (rev : List Name) : Fs × Except OsErr Unit :=
  match osMkdir fs rev with
  | (fs', .ok ()) => (fs', .ok ())
  | (fs', .error .notFound) =>
    match rev with
    | [] => (fs', .error .notFound)
    | w :: up =>
      match mkdirParents fs' cwd true up with
      | (fs1, .error e) => (fs1, .error e)
      | (fs1, .ok ()) => mkdirOne fs1 cwd ok (w :: up)
  | (fs', .error e) => if ok && isDir fs' cwd ⟨true, rev.reverse⟩ then (fs', .ok ()) else (fs', .error e)

/-- `path_action(ctx, target)`, cli.py:55-64: the files afterwards and the line printed. -/
def pathAction (w : World) (create : Bool) (target : List Char) : Fs × Except Err (List Char) :=
  if !create then (w.fs, .ok (dataPath w target).str)
  else
    let p := localDataPath w target
    if pathExists w.fs w.cwd p then (w.fs, .ok (p.str ++ " already exists".toList))
    else
      match mkdirParents w.fs w.cwd false p.parts.reverse with
      | (fs', .error _) => (fs', .error .os)
      | (fs', .ok ()) => (fs', .ok (p.str ++ " created".toList))

/-- `METRONIX_DATA_PATH`, calibrations.py:16. -/
def metronixDataPath : List Char := "metronix_calibration".toList

/-- The commands `rzb path base` and `rzb path metronix`, cli.py:67-80. -/
inductive PathCmd
  | base | metronix
deriving DecidableEq, Repr

/-- `rzb path [-c] base|metronix`, cli.py:38-52, 67-80. -/
def runPath (w : World) (create : Bool) : PathCmd → Fs × Except Err (List Char)
  | .base => pathAction w create []
  | .metronix => pathAction w create metronixDataPath

/-- What an entry point loads: some object, which may be false in a condition. -/
structure Cmd (β : Type _) where
  obj : β
  truthy : Bool

/-- `extra_commands`, cli.py:11-14: a later entry point replaces an earlier one of the same name. -/
def extraCommands {β : Type _} (entries : List (String × Cmd β)) : Dict (Cmd β) :=
  entries.foldl (fun d e => d.set e.1 e.2) []

/-- `sorted(names)`: by code points. -/
def sortedNames (l : List String) : List String := l.mergeSort (fun a b => decide (a ≤ b))

/-- `list_commands(ctx)`, cli.py:17-18 (`click` sorts the names of its own commands). -/
def listCommands {β : Type _} (o : SetOrder) (commands extra : Dict (Cmd β)) : List String :=
  sortedNames (Inventory.setOf o (sortedNames commands.keys ++ extra.keys))

/-- `get_command(ctx, name)`, cli.py:20-21. -/
def getCommand {β : Type _} (commands extra : Dict (Cmd β)) (name : String) : Option (Cmd β) :=
  match extra.get? name with
  | some c => if c.truthy then some c else commands.get? name
  | none => commands.get? name

end Razorback.Data
