/-
Specification for C70-C71: the layout of the header of an ats file.
-/
import Mathlib.Data.Rat.Floor

namespace Razorback.Spec

/-- What a field holds. -/
inductive Field
  | signed (n : Nat)
  | unsigned (n : Nat)
  | single
  | double
  | text (n : Nat)
deriving DecidableEq, Repr

/-- Number of bytes. -/
def Field.bytes : Field → Nat
  | .signed n | .unsigned n | .text n => n
  | .single => 4
  | .double => 8

/-- Name, position of the first byte and type of the fields. -/
def atsLayout : List (String × Nat × Field) :=
  [ ("header_length", 0, .signed 2), ("header_version", 2, .signed 2), ("sample_length", 4, .signed 4),
    ("sampling_rate", 8, .single), ("start", 12, .signed 4), ("lsbval", 16, .double),
    ("GMToffset", 24, .signed 4), ("Res1", 28, .signed 4), ("serial_number_ADU06", 32, .unsigned 2),
    ("serial_number_ADC_board", 34, .signed 2), ("channel_number", 36, .signed 1), ("Res2", 37, .signed 1),
    ("channel_type", 38, .text 2), ("sensor_type", 40, .text 6), ("sensor_serial_number", 46, .signed 2),
    ("x1", 48, .single), ("y1", 52, .single), ("z1", 56, .single),
    ("x2", 60, .single), ("y2", 64, .single), ("z2", 68, .single),
    ("E_field_dipole_length", 72, .single), ("angle", 76, .single), ("rho_probe", 80, .single),
    ("DC_offset_voltage", 84, .single), ("internal_gain_ampli", 88, .single), ("Res3", 92, .signed 4),
    ("ADU_Lat", 96, .signed 4), ("ADU_Long", 100, .signed 4), ("ADU_Elev", 104, .signed 4),
    ("Lat_Long_TYPE", 108, .text 1), ("add_coordinates", 109, .text 1), ("ref_meridian", 110, .signed 2),
    ("xcoor", 112, .double), ("ycoor", 120, .double), ("gps_clock_status", 128, .text 1),
    ("accuracy_GPS", 129, .signed 1), ("offset_UTC", 130, .signed 2), ("Res4a", 132, .signed 4),
    ("Res4b", 136, .signed 4), ("Res4c", 140, .signed 4), ("survey_header_filename", 144, .text 12),
    ("type_of_meas", 156, .text 4), ("logfile", 160, .text 12), ("result_selftest", 172, .text 2),
    ("Res5", 174, .signed 2), ("number_of_calib_freq", 176, .signed 2), ("length_of_freq_entry", 178, .signed 2),
    ("version_calib", 180, .signed 2), ("start_addres", 182, .signed 2), ("Res6", 184, .signed 8),
    ("cal_filename_ADU06", 192, .text 12), ("datetime_calib", 204, .signed 4), ("cal_sensor_filename", 208, .text 12),
    ("datetime_calib_sens", 220, .signed 4), ("powerline1", 224, .single), ("powerline2", 228, .single),
    ("Res7", 232, .signed 8), ("CSAMT_Tx_freq", 240, .single), ("CSAMT_TS_blocks", 244, .signed 2),
    ("CSAMT_stacks", 246, .signed 2), ("CSAMT_blk_length", 248, .signed 4), ("Res8", 252, .signed 4),
    ("Client", 256, .text 16), ("Contractor", 272, .text 16), ("Area", 288, .text 16),
    ("SurveyID", 304, .text 16), ("Operator", 320, .text 16), ("Res9", 336, .text 112),
    ("Weather", 448, .text 64), ("Comments", 512, .text 512)]

/-- Little-endian value of bytes. -/
def littleEndian : List UInt8 → Nat
  | [] => 0
  | b :: l => b.toNat + 256 * littleEndian l

/-- Two's complement. -/
def twosComplement (n k : Nat) : Int := if 2 * k < 256 ^ n then k else (k : Int) - 256 ^ n

end Razorback.Spec
