/-
Model of io/binary_file_array.py.
A file is its list of bytes, and a file system gives the files by name; directories and permissions are not modelled.
-/
import Verif.Model.Py
import Mathlib.Data.Rat.Floor

namespace Razorback.Io

/-- One component of an index: a number or a slice.  (Other objects are not modelled.) -/
inductive Idx
  | num (q : ℚ)
  | slice (start stop step : Option Int)
deriving DecidableEq, Repr

/-- A slice handed to `extract`: `slice(None)`, or integers for start, stop and step. -/
inductive Sl
  | all
  | mk (start stop step : Int)
deriving DecidableEq, Repr

/-- What is applied to the extracted array: `slice(None)`, `0`, or the index itself. -/
inductive Final
  | all
  | zero
  | same (start stop step : Option Int)
deriving DecidableEq, Repr

/-- One bound in Python's `slice.indices(dim)` for a positive step. -/
def bound (dim : Nat) (default : Int) : Option Int → Int
  | none => default
  | some i => if i < 0 then max (i + dim) 0 else min i dim

/-- `BaseArrayProxy._to_slice`, binary_file_array.py:72-99. -/
def toSlice (dim : Nat) : Idx → Except Err (Sl × Final)
  | .slice start stop step =>
    if step = none ∨ 0 < step.getD 1 then .ok (.mk (bound dim 0 start) (bound dim dim stop) (step.getD 1), .all)
    else .ok (.all, .same start stop step)
  | .num q =>
    if q.den = 1 then
      let index := if q.num < 0 then q.num + dim else q.num
      if 0 ≤ index ∧ index < dim then .ok (.mk index (index + 1) 1, .zero)
      else .error .index
    else .error .type

/-- `starmap(self._to_slice, zip(index, self.shape))`, binary_file_array.py:68. -/
def toSlices : List Idx → List Nat → Except Err (List (Sl × Final))
  | i :: is, n :: ns =>
    match toSlice n i with
    | .error e => .error e
    | .ok p =>
      match toSlices is ns with
      | .error e => .error e
      | .ok ps => .ok (p :: ps)
  | _, _ => .ok []

/-- `BaseArrayProxy._pure_slice_index`, binary_file_array.py:61-70, for a tuple (another index is a tuple of one);
this is also what indexing a `DummyArrayProxy` returns, binary_file_array.py:161-166.  `zip(*[])` has nothing to
unpack for an array of no dimension: ValueError. -/
def pureSliceIndex (index : List Idx) (shape : List Nat) : Except Err (List Sl × List Final) :=
  if shape.length < index.length then .error .index
  else
    let index := index ++ List.replicate (shape.length - index.length) (.slice none none none)
    match toSlices index shape with
    | .error e => .error e
    | .ok [] => .error .value
    | .ok ps => .ok (ps.map Prod.fst, ps.map Prod.snd)

/-- A file system. -/
abbrev Fs := String → Option (List UInt8)

/-- A `BinaryFileArray_1D`: `self.source`, `self.shape`, and the item size and decoder given by `self.dtype`. -/
structure FileArr (ν : Type _) where
  path : String
  offset : Int
  size : Nat
  itemsize : Nat
  dec : List UInt8 → ν

variable {ν : Type _}

/-- `BinaryFileArray_1D.__init__` with `_get_real_size`, `FileArrayProxy.__init__` and `BaseArrayProxy.__init__`,
binary_file_array.py:38-46, 115-120, 123-141.  `os.stat` raises FileNotFoundError if there is no file. -/
def open1D (fs : Fs) (path : String) (offset size : Int) (itemsize : Nat) (dec : List UInt8 → ν) : Except Err (FileArr ν) :=
  match fs path with
  | none => .error .other
  | some bytes =>
    let newSize := ((bytes.length : Int) - offset) / (itemsize : Int)
    let size := if newSize < size then newSize else size
    if 0 < size then .ok ⟨path, offset, size.toNat, itemsize, dec⟩ else .error .assertion

/-- `np.fromfile(f, dtype, count)` on what follows the position: a negative count means everything, and fewer items
are returned if there are not enough bytes. -/
def fromfile (w : Nat) (dec : List UInt8 → ν) (rest : List UInt8) (count : Int) : List ν :=
  let avail := rest.length / w
  let n := if count < 0 then avail else min count.toNat avail
  (List.range n).map (fun i => dec ((rest.drop (w * i)).take w))

/-- `arr[::k]` for a positive `k`. -/
def stride (k : Nat) (l : List ν) : List ν := (List.range l.length).filterMap (fun i => l[i * k]?)

/-- `BinaryFileArray_1D.extract`, binary_file_array.py:143-158; arithmetic with `None` raises TypeError, seeking to a
negative position OSError. -/
def extract (fs : Fs) (a : FileArr ν) : Sl → Except Err (List ν)
  | .all =>
    match fs a.path with
    | none => .error .other
    | some _ => .error .type
  | .mk start stop step =>
    match fs a.path with
    | none => .error .other
    | some bytes =>
      let pos := a.offset + a.itemsize * start
      if pos < 0 then .error .other
      else
        let arr := fromfile a.itemsize a.dec (bytes.drop pos.toNat) (stop - start)
        if (arr.length : Int) ≠ stop - start then .error .other
        else .ok (stride step.toNat arr)

/-- A scalar or an array. -/
inductive Value (ν : Type _)
  | scalar (x : ν)
  | array (l : List ν)
deriving DecidableEq, Repr

/-- `BaseArrayProxy.__getitem__`, binary_file_array.py:56-59, for a one dimensional file array.  (A final index other than
`slice(None)` and `0` never meets an array, `extract` raises.) -/
def getItem (fs : Fs) (a : FileArr ν) (index : List Idx) : Except Err (Value ν) :=
  match pureSliceIndex index [a.size] with
  | .error e => .error e
  | .ok ([s], [f]) =>
    match extract fs a s with
    | .error e => .error e
    | .ok arr =>
      match f with
      | .all => .ok (.array arr)
      | .zero =>
        match arr with
        | [] => .error .index
        | x :: _ => .ok (.scalar x)
      | .same .. => .error .type
  | .ok _ => .error .type

/-- Computing the dask array of `to_dask_array`, binary_file_array.py:17-26: the blocks `a[start:stop]` of consecutive
chunks, whose sizes are chosen by dask, are read and concatenated. -/
def compute (fs : Fs) (a : FileArr ν) : Int → List Nat → Except Err (List ν)
  | _, [] => .ok []
  | start, c :: cs =>
    match getItem fs a [.slice (some start) (some (start + c)) (some 1)] with
    | .error e => .error e
    | .ok (.scalar _) => .error .type
    | .ok (.array l) =>
      match compute fs a (start + c) cs with
      | .error e => .error e
      | .ok r => .ok (l ++ r)

end Razorback.Io
