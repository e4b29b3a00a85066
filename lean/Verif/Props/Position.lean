/-
C70, the position: latitude, longitude and elevation in degrees and metres, with double precision arithmetic.
-/
import Verif.Props.Ats
import Verif.Lemmas.RoundErr

namespace Razorback.Props
open Razorback Razorback.Spec Razorback.Io

theorem degree_err : |fl (fl (1 / 1000) / 3600) - 1 / 3600000| ≤ 3 / 2 ^ 53 * (1 / 3600000) := by
  have h1 := fl_err (1 / 1000)
  have h2 := fl_err (fl (1 / 1000) / 3600)
  rw [abs_le] at h1 ⊢
  rw [abs_of_pos (by norm_num : (0 : ℚ) < 1 / 1000)] at h1
  rw [abs_of_pos (a := fl (1 / 1000) / 3600) (by norm_num at h1 ⊢; linarith [h1.1]), abs_le] at h2
  norm_num at h1 h2 ⊢
  constructor <;> linarith [h1.1, h1.2, h2.1, h2.2]

theorem scaled_err {r e : ℚ} (he : 0 < e) (hr : |r - e| ≤ 3 / 2 ^ 53 * e) (i : ℤ) :
    |fl (i * r) - i * e| ≤ |(i : ℚ)| * e * (5 / 2 ^ 53) := by
  have h1 := fl_err (i * r)
  have h0 := abs_nonneg (i : ℚ)
  have hr' : |r| ≤ 2 * e := by
    have := abs_sub_abs_le_abs_sub r e
    rw [abs_of_pos he] at this
    have h3 : (3 : ℚ) / 2 ^ 53 * e ≤ e := by
      have : (3 : ℚ) / 2 ^ 53 ≤ 1 := by norm_num
      nlinarith
    linarith
  calc |fl (i * r) - i * e| = |(fl (i * r) - i * r) + i * (r - e)| := by ring_nf
    _ ≤ |fl (i * r) - i * r| + |i * (r - e)| := abs_add_le _ _
    _ ≤ |(i : ℚ)| * (2 * e) / 2 ^ 53 + |(i : ℚ)| * (3 / 2 ^ 53 * e) := by
        refine add_le_add (h1.trans ?_) ?_
        · rw [abs_mul]
          gcongr
        · rw [abs_mul]
          gcongr
    _ = |(i : ℚ)| * e * (5 / 2 ^ 53) := by ring

theorem corrected_err (i : ℤ) :
    (∃ x, @corrected Rnd.double "ADU_Lat" (.int i) = .float (.fin x) ∧
      |x - i / 3600000| ≤ |(i : ℚ) / 3600000| * (5 / 2 ^ 53)) ∧
    (∃ x, @corrected Rnd.double "ADU_Long" (.int i) = .float (.fin x) ∧
      |x - i / 3600000| ≤ |(i : ℚ) / 3600000| * (5 / 2 ^ 53)) ∧
    (∃ x, @corrected Rnd.double "ADU_Elev" (.int i) = .float (.fin x) ∧
      |x - i / 100| ≤ |(i : ℚ) / 100| * (5 / 2 ^ 53)) := by
  have h := scaled_err (by norm_num) degree_err i
  have h100 : |fl (1 / 100) - 1 / 100| ≤ 3 / 2 ^ 53 * (1 / 100) := by
    have := fl_err (1 / 100)
    rw [abs_of_pos (a := (1 / 100 : ℚ)) (by norm_num)] at this
    refine this.trans (by norm_num)
  have h' := scaled_err (by norm_num) h100 i
  have e1 : |(i : ℚ) / 3600000| = |(i : ℚ)| * (1 / 3600000) := by rw [abs_div]; norm_num; ring
  have e2 : |(i : ℚ) / 100| = |(i : ℚ)| * (1 / 100) := by rw [abs_div]; norm_num; ring
  have e3 : (i : ℚ) / 3600000 = i * (1 / 3600000) := by ring
  have e4 : (i : ℚ) / 100 = i * (1 / 100) := by ring
  refine ⟨⟨_, rfl, ?_⟩, ⟨_, rfl, ?_⟩, ⟨_, rfl, ?_⟩⟩
  · rw [e1, e3]; exact h
  · rw [e1, e3]; exact h
  · rw [e2, e4]; exact h'

/-- The signed 32-bit number stored at an offset of a file. -/
def int32At (bytes : List UInt8) (off : Nat) : ℤ := twosComplement 4 (littleEndian ((bytes.drop off).take 4))

/-- **C70, the position.**  With double precision arithmetic, the latitude and the longitude of the header read are
the stored counts of milliseconds of arc (at bytes 96 and 100) in degrees (3 600 000 to the degree), and the elevation
is the stored count of centimetres (at byte 104) in metres, each within a relative error of `5 / 2 ^ 53`. -/
theorem C70_position (fs : Fs) (path : String) (bytes : List UInt8) (hfs : fs path = some bytes)
    (hb : 1024 ≤ bytes.length) (hl : 1024 ≤ littleEndian (bytes.take 2)) :
    ∃ d lat lon elev, @readHeader Rnd.double fs path = .ok d ∧
      d.get? "ADU_Lat" = some (.float (.fin lat)) ∧ d.get? "ADU_Long" = some (.float (.fin lon)) ∧
      d.get? "ADU_Elev" = some (.float (.fin elev)) ∧
      |lat - int32At bytes 96 / 3600000| ≤ |(int32At bytes 96 : ℚ) / 3600000| * (5 / 2 ^ 53) ∧
      |lon - int32At bytes 100 / 3600000| ≤ |(int32At bytes 100 : ℚ) / 3600000| * (5 / 2 ^ 53) ∧
      |elev - int32At bytes 104 / 100| ≤ |(int32At bytes 104 : ℚ) / 100| * (5 / 2 ^ 53) := by
  obtain ⟨d, hd, -, hget⟩ := @C70_fields Rnd.double fs path bytes hfs hb hl
  obtain ⟨lat, h1, h1'⟩ := (corrected_err (int32At bytes 96)).1
  obtain ⟨lon, h2, h2'⟩ := (corrected_err (int32At bytes 100)).2.1
  obtain ⟨elev, h3, h3'⟩ := (corrected_err (int32At bytes 104)).2.2
  exact ⟨d, lat, lon, elev, hd,
    (hget "ADU_Lat" 96 (.signed 4) (by simp [atsLayout])).trans (congrArg some h1),
    (hget "ADU_Long" 100 (.signed 4) (by simp [atsLayout])).trans (congrArg some h2),
    (hget "ADU_Elev" 104 (.signed 4) (by simp [atsLayout])).trans (congrArg some h3), h1', h2', h3'⟩

/-- The hypotheses hold of a file of 1024 bytes announcing 1024 bytes. -/
example : 1024 ≤ littleEndian (((0 : UInt8) :: 4 :: List.replicate 1022 7).take 2) := by decide

end Razorback.Props
