/-
Spec of the file system and of the two data directories (C72, C76).
-/
import Verif.Model.DataPath

namespace Razorback.Spec
open Razorback.Data

/-- A file system: a tree with a directory as root; only directories contain something. -/
structure Tree (fs : Fs) : Prop where
  root : fs [] = some .dir
  parent : ∀ p w, (fs (p ++ [w])).isSome → fs p = some .dir

/-- A name with a single component. -/
structure SimpleName (s : List Char) : Prop where
  slash : '/' ∉ s
  nonempty : s ≠ []
  dot : s ≠ ['.']
  dots : s ≠ ['.', '.']

/-- The files form a tree, the current directory is one of its directories. -/
structure OkWorld (w : World) : Prop where
  tree : Tree w.fs
  cwd : w.fs w.cwd = some .dir
  cwd_plain : ['.', '.'] ∉ w.cwd
  pkg_plain : ['.', '.'] ∉ w.pkg

def dataName : Name := ['d', 'a', 't', 'a']

/-- `data/target` in the current directory. -/
def localDir (w : World) (target : List Name) : List Name := w.cwd ++ dataName :: target

/-- `data/target` in the package. -/
def packagedDir (w : World) (target : List Name) : List Name := w.pkg ++ dataName :: target

/-- The directories missing on the way to a location are added, everything else stays. -/
def WithDirs (fs fs' : Fs) (loc : List Name) : Prop :=
  ∀ q, fs' q = if fs q = none ∧ q <+: loc then some .dir else fs q

end Razorback.Spec
