/-
Model of io/ats.py.
The native layout and byte order of `struct` are those of a 64-bit little-endian machine.
-/
import Verif.Model.FileArray
import Verif.Model.Sync

namespace Razorback.Io

/-- Format characters, ats.py:77-149. -/
inductive Code
  | h | H | i | f | q | d | b
  | s (n : Nat)
deriving DecidableEq, Repr

/-- `struct.calcsize` of one character. -/
def Code.size : Code → Nat
  | .h | .H => 2
  | .i | .f => 4
  | .q | .d => 8
  | .b => 1
  | .s n => n

/-- The native alignment. -/
def Code.align : Code → Nat
  | .h | .H => 2
  | .i | .f => 4
  | .q | .d => 8
  | .b | .s _ => 1

/-- `byte_format`, ats.py:77-149. -/
def byteFormat : List (String × Code) :=
  [ ("header_length", .h), ("header_version", .h), ("sample_length", .i),
    ("sampling_rate", .f), ("start", .i), ("lsbval", .d),
    ("GMToffset", .i), ("Res1", .i), ("serial_number_ADU06", .H),
    ("serial_number_ADC_board", .h), ("channel_number", .b), ("Res2", .b),
    ("channel_type", .s 2), ("sensor_type", .s 6), ("sensor_serial_number", .h),
    ("x1", .f), ("y1", .f), ("z1", .f),
    ("x2", .f), ("y2", .f), ("z2", .f),
    ("E_field_dipole_length", .f), ("angle", .f), ("rho_probe", .f),
    ("DC_offset_voltage", .f), ("internal_gain_ampli", .f), ("Res3", .i),
    ("ADU_Lat", .i), ("ADU_Long", .i), ("ADU_Elev", .i),
    ("Lat_Long_TYPE", .s 1), ("add_coordinates", .s 1), ("ref_meridian", .h),
    ("xcoor", .d), ("ycoor", .d), ("gps_clock_status", .s 1),
    ("accuracy_GPS", .b), ("offset_UTC", .h), ("Res4a", .i),
    ("Res4b", .i), ("Res4c", .i), ("survey_header_filename", .s 12),
    ("type_of_meas", .s 4), ("logfile", .s 12), ("result_selftest", .s 2),
    ("Res5", .h), ("number_of_calib_freq", .h), ("length_of_freq_entry", .h),
    ("version_calib", .h), ("start_addres", .h), ("Res6", .q),
    ("cal_filename_ADU06", .s 12), ("datetime_calib", .i), ("cal_sensor_filename", .s 12),
    ("datetime_calib_sens", .i), ("powerline1", .f), ("powerline2", .f),
    ("Res7", .q), ("CSAMT_Tx_freq", .f), ("CSAMT_TS_blocks", .h),
    ("CSAMT_stacks", .h), ("CSAMT_blk_length", .i), ("Res8", .i),
    ("Client", .s 16), ("Contractor", .s 16), ("Area", .s 16),
    ("SurveyID", .s 16), ("Operator", .s 16), ("Res9", .s 112),
    ("Weather", .s 64), ("Comments", .s 512)]

/-- What `struct` unpacks: an integer, a string of bytes, or a float, given by its bits. -/
inductive Raw
  | int (i : Int)
  | bits (n : Nat)
  | str (l : List UInt8)
deriving DecidableEq, Repr

/-- Little-endian integer. -/
def leNat (l : List UInt8) : Nat := l.reverse.foldl (fun a b => a * 256 + b.toNat) 0

/-- The same in two's complement. -/
def leInt (l : List UInt8) : Int :=
  let n := leNat l
  if 2 * n < 256 ^ l.length then n else (n : Int) - 256 ^ l.length

/-- Unpacking one field from its bytes. -/
def Code.unpack (c : Code) (l : List UInt8) : Raw :=
  match c with
  | .h | .i | .q | .b => .int (leInt l)
  | .H => .int (leNat l)
  | .f | .d => .bits (leNat l)
  | .s _ => .str l

/-- The next multiple of the alignment, where `struct` puts a field. -/
def alignUp (pos a : Nat) : Nat := (pos + a - 1) / a * a

/-- `struct.unpack_from(fmt, buffer)` from position `pos`; `none` if the buffer is too short. -/
def unpackFrom (buf : List UInt8) : Nat → List Code → Option (List Raw)
  | _, [] => some []
  | pos, c :: cs =>
    let p := alignUp pos c.align
    if buf.length < p + c.size then none
    else match unpackFrom buf (p + c.size) cs with
      | none => none
      | some r => some (c.unpack ((buf.drop p).take c.size) :: r)

/-- Python floats, without rounding in the operations. -/
inductive FVal
  | fin (q : ℚ)
  | inf (neg : Bool)
  | nan
deriving DecidableEq, Repr

/-- The value of an IEEE 754 number with `e` bits of exponent and `m` bits of mantissa. -/
def ieee (e m n : Nat) : FVal :=
  let man := n % 2 ^ m
  let ex := n / 2 ^ m % 2 ^ e
  let neg := n / 2 ^ (m + e) % 2 = 1
  let sign : ℚ := if neg then -1 else 1
  let bias : Int := 2 ^ (e - 1) - 1
  if ex = 2 ^ e - 1 then (if man = 0 then .inf neg else .nan)
  else if ex = 0 then .fin (sign * man * (2 : ℚ) ^ (1 - bias - m))
  else .fin (sign * (2 ^ m + man) * (2 : ℚ) ^ (ex - bias - m))

/-- Values in the header. -/
inductive HVal
  | int (i : Int)
  | float (x : FVal)
  | str (l : List UInt8)
deriving DecidableEq, Repr

/-- From the unpacked field to the Python object. -/
def Raw.value (c : Code) : Raw → HVal
  | .int i => .int i
  | .str l => .str l
  | .bits n => .float (match c with
    | .f => ieee 8 23 n
    | _ => ieee 11 52 n)

/-- `header[k] *= r`, ats.py:167-169; the value is an integer (which a double represents
exactly). -/
def scaleField [Rnd] (k : String) (r : ℚ) (d : Dict HVal) : Dict HVal :=
  match d.get? k with
  | some (.int i) => d.set k (.float (.fin (Rnd.rnd (i * r))))
  | _ => d

/-- `read_ats_header`, ats.py:74-171.  The first part raises a plain Exception whatever happens. -/
def readHeader [Rnd] (fs : Fs) (path : String) : Except Err (Dict HVal) :=
  match fs path with
  | none => .error .other
  | some bytes =>
    if bytes.length < 2 then .error .other
    else
      let length := leNat (bytes.take 2)
      let header := bytes.take length
      match unpackFrom header 0 (byteFormat.map Prod.snd) with
      | none => .error .struct
      | some r =>
        let d := (byteFormat.zip r).foldl (fun (d : Dict HVal) p => d.set p.1.1 (p.2.value p.1.2)) []
        let degree := Rnd.rnd (Rnd.rnd (1 / 1000) / 3600)
        .ok (scaleField "ADU_Elev" (Rnd.rnd (1 / 100)) (scaleField "ADU_Long" degree (scaleField "ADU_Lat" degree d)))

/-- `header[k]` for an integer field. -/
def intField (d : Dict HVal) (k : String) : Except Err Int :=
  match d.get? k with
  | some (.int i) => .ok i
  | some _ => .error .type
  | none => .error .key

/-- `header[k]` for a float field. -/
def floatField (d : Dict HVal) (k : String) : Except Err FVal :=
  match d.get? k with
  | some (.float x) => .ok x
  | some _ => .error .type
  | none => .error .key

/-- The array of `read_ats_sample` before it is computed: the integers in the file and the factor. -/
structure Sample where
  arr : FileArr Int
  lsbval : FVal
  rate : FVal
  start : Int

/-- `read_ats_sample`, ats.py:48-72, without computing the array. -/
def readSample [Rnd] (fs : Fs) (path : String) : Except Err Sample :=
  match readHeader fs path with
  | .error e => .error e
  | .ok d =>
    match floatField d "sampling_rate", intField d "start", intField d "header_length", intField d "sample_length",
      floatField d "lsbval" with
    | .ok rate, .ok start, .ok hlen, .ok slen, .ok lsb =>
      match open1D fs path hlen slen 4 leInt with
      | .error e => .error e
      | .ok a => .ok ⟨a, lsb, rate, start⟩
    | _, _, _, _, _ => .error .key

/-- `lsbval * n`; an `int32` is converted exactly to a double.  Simplification: no overflow. -/
def FVal.mulInt [Rnd] (x : FVal) (n : Int) : FVal :=
  match x with
  | .fin q => .fin (Rnd.rnd (q * n))
  | .inf neg => if n = 0 then .nan else .inf (neg != decide (n < 0))
  | .nan => .nan

/-- The samples of the dask array `lsbval * arr`, ats.py:68-70, for the sizes of the chunks chosen by dask.
Simplification: if reading any chunk raises, every sample is that error. -/
def Sample.data [Rnd] (fs : Fs) (chunks : Nat → List Nat) (s : Sample) : List (Except Err FVal) :=
  match compute fs s.arr 0 (chunks s.arr.size) with
  | .ok l => l.map (fun n => .ok (s.lsbval.mulInt n))
  | .error e => List.replicate s.arr.size (.error e)

/-- `a == b` on floats. -/
def FVal.eq : FVal → FVal → Bool
  | .fin a, .fin b => decide (a = b)
  | .inf a, .inf b => a == b
  | _, _ => false

/-- `len(set(..)) == 1`: a NaN is only equal to itself as an object, and each file has its own. -/
def oneRate : List FVal → Bool
  | [] => false
  | [_] => true
  | x :: y :: l => x.eq y && oneRate (y :: l)

/-- The argument of `load_ats`. -/
inductive FilesArg
  | str (s : String)
  | list (l : List String)

/-- `load_ats(filenames, calibrations)`, ats.py:26-45.  A rate that is not finite is not modelled (`none`). -/
def loadAts [Rnd] {F V : Type} [One V] (fs : Fs) (chunks : Nat → List Nat) (files : FilesArg)
    (cals : Option (List (CalArg F V))) : Option (Except Err (Sync (Except Err FVal) (F → V))) :=
  match files with
  | .str _ => some (.error .assertion)
  | .list files =>
    match mapE (readSample fs) files with
    | .error e => some (.error e)
    | .ok samples =>
      match dedup (samples.map Sample.start) with
      | [start] =>
        if oneRate (samples.map Sample.rate) then
          match samples.map Sample.rate with
          | .fin rate :: _ => some (Sync.init (samples.map (Sample.data fs chunks)) rate start cals)
          | _ => none
        else some (.error .assertion)
      | _ => some (.error .assertion)

/-- `fnmatch` of a name with `*.ats`; `glob` leaves hidden names out. -/
def isAts (name : String) : Bool := ".ats".toList.isSuffixOf name.toList && name.toList.head? != some '.'

/-- `load_ats_from(path, calibrations)`, ats.py:18-23.  `listing` has the names in the directory `path` in the order in which
the operating system gives them, which `glob.glob` keeps.  Simplifications: `path` is absolute, not the root, and has no
character special to `glob`. -/
def loadAtsFrom [Rnd] {F V : Type} [One V] (fs : Fs) (chunks : Nat → List Nat) (path : String) (listing : List String)
    (cals : Option (List (CalArg F V))) : Option (Except Err (Sync (Except Err FVal) (F → V))) :=
  loadAts fs chunks (.list ((listing.filter isAts).map (fun n => path ++ "/" ++ n))) cals

end Razorback.Io
