/-
Properties C70-C71: ats files.
-/
import Verif.Lemmas.Ats
import Verif.Props.FileArray
import Verif.Lemmas.Sync

namespace Razorback.Props
open Razorback Razorback.Spec Razorback.Io

/-! C70 -/

/-- The value of a field in its bytes. -/
def fieldValue (f : Field) (l : List UInt8) : HVal :=
  match f with
  | .signed n => .int (twosComplement n (littleEndian l))
  | .unsigned _ => .int (littleEndian l)
  | .single => .float (single754 (littleEndian l))
  | .double => .float (double754 (littleEndian l))
  | .text _ => .str l

/-- Latitude and longitude are given in degrees instead of milliseconds of arc, the elevation in metres instead of
centimetres.  The factors and the products are rounded. -/
def corrected [Rnd] (name : String) (v : HVal) : HVal :=
  match v with
  | .int i =>
    if name = "ADU_Lat" ∨ name = "ADU_Long" then .float (.fin (Rnd.rnd (i * Rnd.rnd (Rnd.rnd (1 / 1000) / 3600))))
    else if name = "ADU_Elev" then .float (.fin (Rnd.rnd (i * Rnd.rnd (1 / 100))))
    else v
  | _ => v

theorem get?_scaleField [Rnd] (k : String) (r : ℚ) (d : Dict HVal) (k' : String) :
    (scaleField k r d).get? k' = match d.get? k' with
      | none => none
      | some (.int i) => if k' = k then some (.float (.fin (Rnd.rnd (i * r)))) else some (.int i)
      | some v => some v := by
  unfold scaleField
  by_cases hk : k' = k
  · subst hk
    cases hd : d.get? k' with
    | none => simp [hd]
    | some v =>
      cases v with
      | int i => simp [Dict.get?_set]
      | float x => simp [hd]
      | str l => simp [hd]
  · have : ∀ v, (d.set k v).get? k' = d.get? k' := by
      intro v
      rw [Dict.get?_set]
      simp [Ne.symm hk]
    cases hd : d.get? k with
    | none => cases hd' : d.get? k' with
      | none => rfl
      | some v => cases v <;> simp [hk]
    | some v =>
      cases v with
      | int i =>
        simp only [this]
        cases hd' : d.get? k' with
        | none => rfl
        | some v => cases v <;> simp [hk]
      | float x => cases hd' : d.get? k' with
        | none => rfl
        | some v => cases v <;> simp [hk]
      | str l => cases hd' : d.get? k' with
        | none => rfl
        | some v => cases v <;> simp [hk]

theorem keys_scaleField [Rnd] (k : String) (r : ℚ) (d : Dict HVal) : (scaleField k r d).keys = d.keys := by
  unfold scaleField
  split
  · rename_i i h
    rw [Dict.keys_set, if_pos]
    by_contra hc
    rw [Dict.get?_eq_none.2 hc] at h
    simp at h
  · rfl

theorem map_names {α β : Type} (a : List (String × α)) (b : List β) (h : a.length = b.length) :
    (a.zip b).map (fun p => p.1.1) = a.map Prod.fst := by
  induction a generalizing b with
  | nil => rfl
  | cons x a ih =>
    cases b with
    | nil => simp at h
    | cons y b => simp [ih b (by simpa using h)]

/-- The header before corrections. -/
def baseHeader (bytes : List UInt8) : Dict HVal :=
  (byteFormat.zip (offsets 0 (byteFormat.map Prod.snd))).map
    (fun p => (p.1.1, (p.2.2.unpack ((bytes.drop p.2.1).take p.2.2.size)).value p.1.2))

theorem readHeader_eq [Rnd] (fs : Fs) (path : String) (bytes : List UInt8) (hfs : fs path = some bytes) (h2 : 2 ≤ bytes.length) :
    readHeader fs path = if 1024 ≤ littleEndian (bytes.take 2) ∧ 1024 ≤ bytes.length then
      .ok (scaleField "ADU_Elev" (Rnd.rnd (1 / 100)) (scaleField "ADU_Long" (Rnd.rnd (Rnd.rnd (1 / 1000) / 3600))
        (scaleField "ADU_Lat" (Rnd.rnd (Rnd.rnd (1 / 1000) / 3600)) (baseHeader bytes))))
      else .error .struct := by
  unfold readHeader
  rw [hfs]
  simp only
  rw [if_neg (by omega), leNat_eq, unpackFrom_eq]
  generalize littleEndian (bytes.take 2) = L
  by_cases hc : 1024 ≤ L ∧ 1024 ≤ bytes.length
  · have hall : (offsets 0 (byteFormat.map Prod.snd)).all (fun p => decide (p.1 + p.2.size ≤ (bytes.take L).length)) = true := by
      rw [List.all_eq_true]
      intro p hp
      have := layout_fits p hp
      rw [decide_eq_true_eq, List.length_take]
      omega
    rw [if_pos hall, if_pos hc]
    simp only
    have hbase : (byteFormat.zip ((offsets 0 (byteFormat.map Prod.snd)).map
        (fun p => p.2.unpack (((bytes.take L).drop p.1).take p.2.size)))).foldl
        (fun (d : Dict HVal) p => d.set p.1.1 (p.2.value p.1.2)) [] = baseHeader bytes := by
      rw [foldl_set (key := fun p : (String × Code) × Raw => p.1.1) (val := fun p => p.2.value p.1.2)]
      · rw [List.nil_append, List.zip_map_right, List.map_map]
        unfold baseHeader
        apply List.map_congr_left
        intro p hp
        have hfit := layout_fits p.2 (List.of_mem_zip hp).2
        simp only [Function.comp, Prod.map_fst, Prod.map_snd, id]
        rw [List.drop_take, List.take_take, Nat.min_eq_left (by omega)]
      · simp only [Dict.keys, List.map_nil, List.nil_append]
        have : (byteFormat.zip ((offsets 0 (byteFormat.map Prod.snd)).map
          (fun p => p.2.unpack (((bytes.take L).drop p.1).take p.2.size)))).map (fun p => p.1.1) = byteFormat.map Prod.fst := by
          apply map_names
          rw [List.length_map, offsets_length, List.length_map]
        rw [this]
        exact format_nodup
    rw [hbase]
  · rw [if_neg, if_neg hc]
    intro hall
    rw [List.all_eq_true] at hall
    have := hall _ layout_last
    rw [decide_eq_true_eq, List.length_take] at this
    simp only [Code.size] at this
    omega

theorem baseHeader_get (bytes : List UInt8) (hb : 1024 ≤ bytes.length) (name : String) (off : Nat) (f : Field)
    (h : (name, off, f) ∈ atsLayout) : (baseHeader bytes).get? name = some (fieldValue f ((bytes.drop off).take f.bytes)) := by
  rw [← layout_eq] at h
  obtain ⟨p, hp, he⟩ := List.mem_map.1 h
  simp only [Prod.mk.injEq] at he
  obtain ⟨rfl, rfl, rfl⟩ := he
  have hcode := layout_codes p hp
  have hfit := layout_fits p.2 (List.of_mem_zip hp).2
  have hnd : (baseHeader bytes).keys.Nodup := by
    unfold baseHeader Dict.keys
    rw [List.map_map]
    have : (byteFormat.zip (offsets 0 (byteFormat.map Prod.snd))).map (fun p => p.1.1) = byteFormat.map Prod.fst := by
      apply map_names
      rw [offsets_length, List.length_map]
    exact this ▸ format_nodup
  rw [Dict.get?_of_mem hnd (v := (p.2.2.unpack ((bytes.drop p.2.1).take p.2.2.size)).value p.1.2)
    (List.mem_map.2 ⟨p, hp, rfl⟩)]
  rw [hcode] at hfit ⊢
  rw [fieldOf_bytes]
  have hlen : ((bytes.drop p.2.1).take p.1.2.size).length = p.1.2.size := by
    rw [List.length_take, List.length_drop]
    omega
  generalize (bytes.drop p.2.1).take p.1.2.size = l at hlen
  congr 1
  cases hc : p.1.2 <;> rw [hc] at hlen <;>
    simp only [Code.unpack, Raw.value, fieldOf, fieldValue, leNat_eq, leInt_eq, hlen, Code.size, ieee_single, ieee_double]

/-- **C70.** The format has no padding: the fields follow each other at the documented positions, up to 1024 bytes. -/
theorem C70_layout : (∀ k name off f name' off' f', atsLayout[k]? = some (name, off, f) →
      atsLayout[k + 1]? = some (name', off', f') → off' = off + f.bytes) ∧
    atsLayout.head? = some ("header_length", 0, .signed 2) ∧ atsLayout.getLast? = some ("Comments", 512, .text 512) ∧
    (byteFormat.zip (offsets 0 (byteFormat.map Prod.snd))).map (fun p => (p.1.1, p.2.1, fieldOf p.1.2)) = atsLayout := by
  refine ⟨?_, rfl, by decide +kernel, layout_eq⟩
  have key : ∀ k < 71, (match atsLayout[k]?, atsLayout[k + 1]? with
      | some a, some b => decide (b.2.1 = a.2.1 + a.2.2.bytes)
      | _, _ => true) = true := by decide +kernel
  intro k name off f name' off' f' h1 h2
  have hk : k < 71 := by
    have : k < atsLayout.length := by
      by_contra hc
      rw [List.getElem?_eq_none (by omega)] at h1
      simp at h1
    exact this
  have := key k hk
  rw [h1, h2] at this
  simpa using this

/-- **C70.** A file whose two first bytes announce at least 1024 bytes, and that has them, has a header with exactly
the documented fields, each read from its own bytes. -/
theorem C70_fields [Rnd] (fs : Fs) (path : String) (bytes : List UInt8) (hfs : fs path = some bytes) (hb : 1024 ≤ bytes.length)
    (hl : 1024 ≤ littleEndian (bytes.take 2)) :
    ∃ d, readHeader fs path = .ok d ∧ d.keys = atsLayout.map Prod.fst ∧
      ∀ name off f, (name, off, f) ∈ atsLayout →
        d.get? name = some (corrected name (fieldValue f ((bytes.drop off).take f.bytes))) := by
  rw [readHeader_eq fs path bytes hfs (by omega), if_pos ⟨hl, hb⟩]
  refine ⟨_, rfl, ?_, ?_⟩
  · rw [keys_scaleField, keys_scaleField, keys_scaleField, ← layout_eq]
    unfold baseHeader Dict.keys
    rw [List.map_map, List.map_map]
    rfl
  · intro name off f h
    rw [get?_scaleField, get?_scaleField, get?_scaleField, baseHeader_get bytes hb name off f h]
    cases hv : fieldValue f ((bytes.drop off).take f.bytes) with
    | float x => rfl
    | str l => rfl
    | int i =>
      simp only [corrected]
      by_cases h1 : name = "ADU_Lat"
      · subst h1
        simp only [if_true, true_or]
      · by_cases h2 : name = "ADU_Long"
        · subst h2
          simp only [h1, if_true, if_false, or_true]
        · by_cases h3 : name = "ADU_Elev"
          · subst h3
            simp only [h1, h2, if_true, if_false, or_self]
          · simp only [h1, h2, h3, if_false, or_self]

/-- **C70.** Otherwise an exception is raised: struct.error if the file or the announced length is too short, a plain
Exception if there is no file or not even two bytes. -/
theorem C70_short_raises [Rnd] (fs : Fs) (path : String) :
    (fs path = none → readHeader fs path = .error .other) ∧
    ∀ bytes, fs path = some bytes →
      (bytes.length < 2 → readHeader fs path = .error .other) ∧
      (2 ≤ bytes.length → bytes.length < 1024 ∨ littleEndian (bytes.take 2) < 1024 → readHeader fs path = .error .struct) := by
  refine ⟨fun h => by unfold readHeader; rw [h], ?_⟩
  intro bytes hfs
  constructor
  · intro h
    unfold readHeader
    rw [hfs]
    simp only [h, if_true]
  · intro h h'
    rw [readHeader_eq fs path bytes hfs h, if_neg (by omega)]

/-- `n` bytes, the least significant first. -/
def toBytes : Nat → Nat → List UInt8
  | 0, _ => []
  | n + 1, k => UInt8.ofNat (k % 256) :: toBytes n (k / 256)

/-- The bytes of a field. -/
def encode : Field → Raw → List UInt8
  | .signed n, .int i => toBytes n (i % 256 ^ n).toNat
  | .unsigned n, .int i => toBytes n i.toNat
  | .single, .bits k => toBytes 4 k
  | .double, .bits k => toBytes 8 k
  | .text _, .str l => l
  | _, _ => []

/-- A value that fits in the field. -/
def Fits : Field → Raw → Prop
  | .signed n, .int i => -256 ^ n ≤ 2 * i ∧ 2 * i < 256 ^ n
  | .unsigned n, .int i => 0 ≤ i ∧ i < 256 ^ n
  | .single, .bits k => k < 256 ^ 4
  | .double, .bits k => k < 256 ^ 8
  | .text n, .str l => l.length = n
  | _, _ => False

/-- The Python object. -/
def meaning : Field → Raw → HVal
  | .single, .bits k => .float (single754 k)
  | .double, .bits k => .float (double754 k)
  | _, .int i => .int i
  | _, .str l => .str l
  | _, .bits k => .int k

theorem toBytes_length (n k : Nat) : (toBytes n k).length = n := by
  induction n generalizing k with
  | zero => rfl
  | succ n ih => simp [toBytes, ih]

theorem littleEndian_toBytes (n k : Nat) (h : k < 256 ^ n) : littleEndian (toBytes n k) = k := by
  induction n generalizing k with
  | zero =>
    simp only [Nat.pow_zero, Nat.lt_one_iff] at h
    subst h
    rfl
  | succ n ih =>
    rw [Nat.pow_succ] at h
    rw [toBytes, littleEndian, ih _ (by omega)]
    have : (UInt8.ofNat (k % 256)).toNat = k % 256 := by
      rw [UInt8.toNat_ofNat']
      omega
    rw [this]
    omega

theorem encode_length {f : Field} {r : Raw} (h : Fits f r) : (encode f r).length = f.bytes := by
  cases f <;> cases r <;> simp [Fits, encode, Field.bytes, toBytes_length] at h ⊢
  exact h

theorem fieldValue_encode {f : Field} {r : Raw} (h : Fits f r) : fieldValue f (encode f r) = meaning f r := by
  cases f with
  | signed n =>
    cases r with
    | int i =>
      simp only [Fits] at h
      have hp : (0 : Int) < 256 ^ n := by positivity
      have h0 := Int.emod_nonneg i hp.ne'
      have h1 := Int.emod_lt_of_pos i hp
      have hlt : (i % 256 ^ n).toNat < 256 ^ n := by
        zify
        rw [Int.toNat_of_nonneg h0]
        exact h1
      simp only [fieldValue, encode, meaning, littleEndian_toBytes n _ hlt, twosComplement, HVal.int.injEq]
      rw [Int.toNat_of_nonneg h0]
      by_cases hi : 0 ≤ i
      · have he : i % 256 ^ n = i := Int.emod_eq_of_lt hi (by omega)
        rw [he, if_pos]
        zify
        rw [Int.toNat_of_nonneg hi]
        exact h.2
      · have he : i % 256 ^ n = i + 256 ^ n := by
          rw [← Int.add_emod_right]
          exact Int.emod_eq_of_lt (by omega) (by omega)
        rw [he, if_neg]
        · push_cast
          ring
        · zify
          rw [Int.toNat_of_nonneg (by omega)]
          omega
    | bits k => simp [Fits] at h
    | str l => simp [Fits] at h
  | unsigned n =>
    cases r with
    | int i =>
      simp only [Fits] at h
      have hlt : i.toNat < 256 ^ n := by
        zify
        rw [Int.toNat_of_nonneg h.1]
        exact h.2
      simp only [fieldValue, encode, meaning, littleEndian_toBytes n _ hlt, HVal.int.injEq]
      exact Int.toNat_of_nonneg h.1
    | bits k => simp [Fits] at h
    | str l => simp [Fits] at h
  | single =>
    cases r with
    | bits k => simp only [fieldValue, encode, meaning, littleEndian_toBytes 4 _ h]
    | int k => simp [Fits] at h
    | str l => simp [Fits] at h
  | double =>
    cases r with
    | bits k => simp only [fieldValue, encode, meaning, littleEndian_toBytes 8 _ h]
    | int k => simp [Fits] at h
    | str l => simp [Fits] at h
  | text n =>
    cases r with
    | str l => rfl
    | int k => simp [Fits] at h
    | bits l => simp [Fits] at h

/-- The fields follow each other from a position. -/
def follows : Nat → List (String × Nat × Field) → Bool
  | _, [] => true
  | p, (_, o, f) :: l => o == p && follows (p + f.bytes) l

theorem slice_encode (l : List (String × Nat × Field)) (raws : List Raw) (pre rest : List UInt8)
    (hF : List.Forall₂ (fun f r => Fits f.2.2 r) l raws) (hc : follows pre.length l = true) (k off : Nat) (name : String)
    (f : Field) (r : Raw) (hk : l[k]? = some (name, off, f)) (hr : raws[k]? = some r) :
    (((pre ++ ((l.zip raws).map (fun p => encode p.1.2.2 p.2)).flatten) ++ rest).drop off).take f.bytes = encode f r ∧
      Fits f r := by
  induction hF generalizing pre k with
  | nil => simp at hk
  | @cons a b l raws h _ ih =>
    obtain ⟨n, o, g⟩ := a
    simp only [follows, Bool.and_eq_true, beq_iff_eq] at hc
    obtain ⟨rfl, hc⟩ := hc
    cases k with
    | zero =>
      simp only [List.getElem?_cons_zero, Option.some.injEq, Prod.mk.injEq] at hk hr
      obtain ⟨rfl, rfl, rfl⟩ := hk
      subst hr
      refine ⟨?_, h⟩
      rw [List.append_assoc, List.drop_left]
      simp only [List.zip_cons_cons, List.map_cons, List.flatten_cons, List.append_assoc]
      exact List.take_left' (encode_length h)
    | succ k =>
      have hlen := encode_length h
      simp only at hlen
      have := ih (pre ++ encode g b) (by rw [List.length_append, hlen]; exact hc) k (by simpa using hk) (by simpa using hr)
      simpa [List.append_assoc] using this

theorem follows_length (l : List (String × Nat × Field)) (raws : List Raw)
    (hF : List.Forall₂ (fun f r => Fits f.2.2 r) l raws) :
    ((l.zip raws).map (fun p => encode p.1.2.2 p.2)).flatten.length = (l.map (fun f => f.2.2.bytes)).sum := by
  induction hF with
  | nil => rfl
  | cons h _ ih => simp [encode_length h, ih]

/-- **C70.** Reading back: for any values that fit in the fields, the header length being at least 1024 as an unsigned
number, the file made of their encodings one after the other (and anything behind) is read as these values. -/
theorem C70_roundtrip [Rnd] (fs : Fs) (path : String) (raws : List Raw) (rest : List UInt8)
    (hF : List.Forall₂ (fun f r => Fits f.2.2 r) atsLayout raws)
    (hfs : fs path = some (((atsLayout.zip raws).map (fun p => encode p.1.2.2 p.2)).flatten ++ rest))
    (hl : ∀ L, raws[0]? = some (.int L) → 1024 ≤ L % 65536) :
    ∃ d, readHeader fs path = .ok d ∧ d.keys = atsLayout.map Prod.fst ∧
      ∀ (k : Nat) name off f r, atsLayout[k]? = some (name, off, f) → raws[k]? = some r →
        d.get? name = some (corrected name (meaning f r)) := by
  have hfol : follows 0 atsLayout = true := by decide +kernel
  have hsl := slice_encode atsLayout raws [] rest hF hfol
  simp only [List.nil_append] at hsl
  have hlen : 1024 ≤ (((atsLayout.zip raws).map (fun p => encode p.1.2.2 p.2)).flatten ++ rest).length := by
    have : (atsLayout.map (fun f => f.2.2.bytes)).sum = 1024 := by decide +kernel
    rw [List.length_append, follows_length _ _ hF, this]
    omega
  have h2 : 1024 ≤ littleEndian ((((atsLayout.zip raws).map (fun p => encode p.1.2.2 p.2)).flatten ++ rest).take 2) := by
    cases raws with
    | nil => simp [atsLayout] at hF
    | cons r raws =>
      obtain ⟨h3, h4⟩ := hsl 0 0 "header_length" (.signed 2) r rfl rfl
      simp only [List.drop_zero, Field.bytes] at h3
      rw [h3]
      cases r with
      | int L =>
        have h5 := hl L rfl
        simp only [encode]
        have h0 := Int.emod_nonneg L (show (256 : Int) ^ 2 ≠ 0 by norm_num)
        have h1 := Int.emod_lt_of_pos L (show (0 : Int) < 256 ^ 2 by norm_num)
        rw [littleEndian_toBytes]
        · zify
          rw [Int.toNat_of_nonneg h0]
          exact h5
        · zify
          rw [Int.toNat_of_nonneg h0]
          exact h1
      | bits k => simp [Fits] at h4
      | str l => simp [Fits] at h4
  obtain ⟨d, h3, h4, h5⟩ := C70_fields fs path _ hfs hlen h2
  refine ⟨d, h3, h4, ?_⟩
  intro k name off f r hk hr
  obtain ⟨h6, h7⟩ := hsl k off name f r hk hr
  rw [h5 name off f (List.mem_of_getElem? hk), h6, fieldValue_encode h7]

/-! C71 -/

/-- The integer of a field of two or four bytes. -/
def signedAt (bytes : List UInt8) (off n : Nat) : Int := twosComplement n (littleEndian ((bytes.drop off).take n))

/-- What `load_ats` takes from a file: the header length, the number of samples announced and the factor, the rate and
the start. -/
structure AtsFile (bytes : List UInt8) (hlen : Nat) (n : Nat) (lsb : ℚ) (rate : FVal) (start : Int) : Prop where
  enough : 1024 ≤ bytes.length
  hlen_ge : 1024 ≤ hlen
  hlen_lt : hlen < 32768
  hlen_eq : littleEndian (bytes.take 2) = hlen
  pos : 0 < n
  size : (n : Int) = signedAt bytes 4 4 ∧ hlen + 4 * n ≤ bytes.length ∨
    (n : Int) < signedAt bytes 4 4 ∧ hlen + 4 * n ≤ bytes.length ∧ bytes.length < hlen + 4 * (n + 1)
  rate_eq : rate = single754 (littleEndian ((bytes.drop 8).take 4))
  start_eq : start = signedAt bytes 12 4
  lsb_eq : .fin lsb = double754 (littleEndian ((bytes.drop 16).take 8))

theorem readSample_eq [Rnd] (fs : Fs) (path : String) (bytes : List UInt8) (hfs : fs path = some bytes) (hb : 1024 ≤ bytes.length)
    (hl : 1024 ≤ littleEndian (bytes.take 2)) :
    readSample fs path =
      match open1D fs path (signedAt bytes 0 2) (signedAt bytes 4 4) 4 leInt with
      | .error e => .error e
      | .ok a => .ok ⟨a, double754 (littleEndian ((bytes.drop 16).take 8)), single754 (littleEndian ((bytes.drop 8).take 4)),
          signedAt bytes 12 4⟩ := by
  obtain ⟨d, h1, -, h2⟩ := C70_fields fs path bytes hfs hb hl
  have e1 := h2 "sampling_rate" 8 .single (by decide +kernel)
  have e2 := h2 "start" 12 (.signed 4) (by decide +kernel)
  have e3 := h2 "header_length" 0 (.signed 2) (by decide +kernel)
  have e4 := h2 "sample_length" 4 (.signed 4) (by decide +kernel)
  have e5 := h2 "lsbval" 16 .double (by decide +kernel)
  have c1 : ∀ i, corrected "start" (.int i) = .int i := fun i => by simp [corrected]
  have c2 : ∀ i, corrected "header_length" (.int i) = .int i := fun i => by simp [corrected]
  have c3 : ∀ i, corrected "sample_length" (.int i) = .int i := fun i => by simp [corrected]
  simp only [fieldValue, c1] at e2
  simp only [fieldValue, c2] at e3
  simp only [fieldValue, c3] at e4
  simp only [fieldValue, corrected] at e1 e5
  unfold readSample
  rw [h1]
  simp only [floatField, intField, e1, e2, e3, e4, e5, Field.bytes]
  rfl

/-- **C71.** The samples of a well-formed file: its factor times the four byte integers (rounded) behind the header, as many as
announced or, if there are fewer, all complete ones, whatever the chunks. -/
theorem C71_sample [Rnd] (fs : Fs) (path : String) (bytes : List UInt8) (hfs : fs path = some bytes) (hlen n : Nat) (lsb : ℚ) (rate : FVal)
    (start : Int) (h : AtsFile bytes hlen n lsb rate start) (chunks : Nat → List Nat) (hch : ∀ n, (chunks n).sum = n) :
    ∃ s, readSample fs path = .ok s ∧ s.start = start ∧ s.rate = rate ∧ s.arr.size = n ∧
      s.data fs chunks = (List.range n).map (fun i => .ok (.fin (Rnd.rnd (lsb * signedAt bytes (hlen + 4 * i) 4)))) := by
  have hl : 1024 ≤ littleEndian (bytes.take 2) := by rw [h.hlen_eq]; exact h.hlen_ge
  have h0 : signedAt bytes 0 2 = hlen := by
    unfold signedAt twosComplement
    rw [List.drop_zero, h.hlen_eq, if_pos]
    have := h.hlen_lt
    omega
  have hop : open1D fs path hlen (signedAt bytes 4 4) 4 leInt = .ok ⟨path, hlen, n, 4, leInt⟩ := by
    apply ((C69_open fs path hlen (signedAt bytes 4 4) 4 (by omega) leInt).2 bytes hfs).1 n h.pos
    rcases h.size with ⟨h1, h2⟩ | ⟨h1, h2, h3⟩
    · exact .inl ⟨h1, by exact_mod_cast h2⟩
    · exact .inr ⟨h1, by exact_mod_cast h2, by exact_mod_cast h3⟩
  have hfit : hlen + 4 * n ≤ bytes.length := by
    rcases h.size with ⟨h1, h2⟩ | ⟨h1, h2, h3⟩ <;> exact h2
  refine ⟨⟨⟨path, hlen, n, 4, leInt⟩, .fin lsb, rate, start⟩, ?_, rfl, rfl, rfl, ?_⟩
  · rw [readSample_eq fs path bytes hfs h.enough hl, h0, hop, h.rate_eq, h.lsb_eq, h.start_eq]
  · unfold Sample.data
    rw [C68_chunks fs ⟨path, hlen, n, 4, leInt⟩ bytes ⟨hfs, by simp, by simp, by simpa using hfit⟩ _ (hch n)]
    simp only [values, items, List.map_map]
    apply List.map_congr_left
    intro i hi
    have hi := List.mem_range.1 hi
    simp only [Function.comp, Int.toNat_natCast, leInt_eq, signedAt, FVal.mulInt]
    rw [List.length_take, List.length_drop, Nat.min_eq_left (by omega)]

theorem oneRate_iff (l : List FVal) (r : ℚ) : (oneRate l = true ∧ ∃ l', l = .fin r :: l') ↔ l ≠ [] ∧ ∀ x ∈ l, x = .fin r := by
  induction l with
  | nil => simp
  | cons x l ih =>
    constructor
    · rintro ⟨h1, l', h2⟩
      injection h2 with h2 h3
      subst h2
      refine ⟨by simp, ?_⟩
      cases l with
      | nil => simp
      | cons y l =>
        rw [oneRate, Bool.and_eq_true] at h1
        obtain ⟨h4, h5⟩ := h1
        have hy : y = .fin r := by
          cases y with
          | fin q =>
            simp only [FVal.eq, decide_eq_true_eq] at h4
            rw [h4]
          | inf b => simp [FVal.eq] at h4
          | nan => simp [FVal.eq] at h4
        subst hy
        have := (ih.1 ⟨h5, _, rfl⟩).2
        intro x hx
        rcases List.mem_cons.1 hx with rfl | hx
        · rfl
        · exact this x hx
    · rintro ⟨-, h⟩
      have hx := h x (by simp)
      subst hx
      refine ⟨?_, _, rfl⟩
      cases l with
      | nil => rfl
      | cons y l =>
        have hy := h y (by simp)
        subst hy
        rw [oneRate, (ih.2 ⟨by simp, fun x hx => h x (by simp [hx])⟩).1]
        simp [FVal.eq]

theorem oneRate_fin {l : List FVal} (h : oneRate l = true) {x y : FVal} (hx : x ∈ l) (hy : y ∈ l) {r : ℚ} (hr : x = .fin r) :
    y = .fin r := by
  induction l generalizing x y with
  | nil => simp at hx
  | cons u l ih =>
    cases l with
    | nil =>
      simp only [List.mem_singleton] at hx hy
      rw [hy, ← hx, hr]
    | cons v l =>
      rw [oneRate, Bool.and_eq_true] at h
      obtain ⟨h1, h2⟩ := h
      have huv : u = .fin r ↔ v = .fin r := by
        cases u <;> cases v <;> simp [FVal.eq] at h1 ⊢
        rw [h1]
      have hv : v = .fin r := by
        rcases List.mem_cons.1 hx with rfl | hx
        · exact huv.1 hr
        · exact ih h2 hx (by simp) hr
      rcases List.mem_cons.1 hy with rfl | hy
      · exact huv.2 hv
      · exact ih h2 (by simp) hy hv

/-- **C71.** If all files can be read, have the same start, the same finite rate and the same number of samples, the result
has one channel for each file, in order, with this rate and start. -/
theorem C71_load [Rnd] {F V : Type} [One V] (fs : Fs) (chunks : Nat → List Nat) (files : List String) (hne : files ≠ [])
    (cals : Option (List (CalArg F V))) (hcals : (cals.getD []).length = 0 ∨ (cals.getD []).length = files.length)
    (samples : List Sample) (hs : List.Forall₂ (fun f s => readSample fs f = .ok s) files samples) (start : Int) (rate : ℚ) (n : Nat)
    (h : ∀ s ∈ samples, s.start = start ∧ s.rate = .fin rate ∧ (s.data fs chunks).length = n) :
    ∃ S, loadAts fs chunks (.list files) cals = some (.ok S) ∧ S.data = samples.map (Sample.data fs chunks) ∧ S.rate = rate ∧
      S.start = start ∧ S.size = n ∧
      S.cals = (if (cals.getD []).length = 0 then List.replicate files.length (fun _ => 1) else (cals.getD []).map CalArg.toFn) := by
  have hlen := hs.length_eq
  have hne' : samples ≠ [] := by
    intro h0
    rw [h0] at hlen
    exact hne (List.length_eq_zero_iff.1 hlen)
  unfold loadAts
  simp only
  rw [mapE_ok.2 hs]
  simp only
  have hd : dedup (samples.map Sample.start) = [start] := by
    rw [dedup_eq_singleton]
    refine ⟨by simpa using hne', ?_⟩
    simpa using fun s hs => (h s hs).1
  obtain ⟨hr, l', hr'⟩ := (oneRate_iff (samples.map Sample.rate) rate).2 ⟨by simpa using hne', by
    simpa using fun s hs => (h s hs).2.1⟩
  rw [hd]
  simp only [hr, if_true]
  rw [hr']
  simp only [Sync.init]
  have hn : ∀ d ∈ samples.map (Sample.data fs chunks), d.length = n := by
    intro d hd
    obtain ⟨s, hs, rfl⟩ := List.mem_map.1 hd
    exact (h s hs).2.2
  rcases hcals with hc | hc
  · have : cals.getD [] = [] := List.length_eq_zero_iff.1 hc
    rw [this, List.map_nil, Sync.new_nil_eq (by simpa using hne') hn]
    refine ⟨_, rfl, rfl, rfl, rfl, rfl, ?_⟩
    rw [if_pos (by rfl), hlen]
    simp only [List.length_map]
    rfl
  · rw [Sync.new_eq (by simpa using hne') hn (by rw [List.length_map, List.length_map, hc, hlen])]
    refine ⟨_, rfl, rfl, rfl, rfl, rfl, ?_⟩
    rw [if_neg]
    rw [hc]
    simpa using hne

/-- **C71.** It succeeds in no other case. -/
theorem C71_load_only [Rnd] {F V : Type} [One V] (fs : Fs) (chunks : Nat → List Nat) (files : List String)
    (cals : Option (List (CalArg F V))) (S : Sync (Except Err FVal) (F → V))
    (h : loadAts fs chunks (.list files) cals = some (.ok S)) :
    files ≠ [] ∧ ∃ samples, List.Forall₂ (fun f s => readSample fs f = .ok s) files samples ∧
      S.data = samples.map (Sample.data fs chunks) ∧
      ∀ s ∈ samples, (s.start : ℚ) = S.start ∧ s.rate = .fin S.rate ∧ (s.data fs chunks).length = S.size := by
  unfold loadAts at h
  simp only at h
  cases hm : mapE (readSample fs) files with
  | error e => rw [hm] at h; simp at h
  | ok samples =>
  rw [hm] at h
  have hs := mapE_ok.1 hm
  simp only at h
  cases hd : dedup (samples.map Sample.start) with
  | nil => rw [hd] at h; simp at h
  | cons start l =>
  cases l with
  | cons a l => rw [hd] at h; simp at h
  | nil =>
  rw [hd] at h
  simp only at h
  obtain ⟨d1, d2⟩ := dedup_eq_singleton.1 hd
  split at h
  · rename_i hr
    split at h
    · rename_i rate l' hr'
      simp only [Option.some.injEq] at h
      have hall := ((oneRate_iff (samples.map Sample.rate) rate).1 ⟨hr, _, hr'⟩).2
      obtain ⟨wf, n1, n2, n3, -, -⟩ := Sync.new_ok h
      have hne : samples ≠ [] := by simpa using d1
      refine ⟨?_, samples, hs, n1, ?_⟩
      · intro h0
        subst h0
        cases hs
        exact hne rfl
      · intro s hs'
        refine ⟨?_, ?_, ?_⟩
        · rw [n3, d2 _ (List.mem_map.2 ⟨s, hs', rfl⟩)]
        · rw [n2, hall _ (List.mem_map.2 ⟨s, hs', rfl⟩)]
        · exact wf.rect _ (by rw [n1]; exact List.mem_map.2 ⟨s, hs', rfl⟩)
    · simp at h
  · simp at h

/-- **C71.** A string, an empty list, or files with different starts or rates raise AssertionError. -/
theorem C71_raises [Rnd] {F V : Type} [One V] (fs : Fs) (chunks : Nat → List Nat) (cals : Option (List (CalArg F V))) :
    (∀ str, loadAts fs chunks (.str str) cals = some (.error .assertion)) ∧
    loadAts fs chunks (.list []) cals = some (.error .assertion) ∧
    (∀ files samples, List.Forall₂ (fun f s => readSample fs f = .ok s) files samples →
      (∃ s ∈ samples, ∃ t ∈ samples, s.start ≠ t.start) →
      loadAts fs chunks (.list files) cals = some (.error .assertion)) ∧
    (∀ files samples, List.Forall₂ (fun f s => readSample fs f = .ok s) files samples →
      (∃ s ∈ samples, ∃ t ∈ samples, ∃ r, s.rate = .fin r ∧ t.rate ≠ .fin r) →
      loadAts fs chunks (.list files) cals = some (.error .assertion)) := by
  refine ⟨fun _ => rfl, rfl, ?_, ?_⟩
  · rintro files samples hs ⟨s, h1, t, h2, hne⟩
    unfold loadAts
    simp only
    rw [mapE_ok.2 hs]
    simp only
    split
    · rename_i start hd
      have := (dedup_eq_singleton.1 hd).2
      exact absurd ((this _ (List.mem_map.2 ⟨s, h1, rfl⟩)).trans (this _ (List.mem_map.2 ⟨t, h2, rfl⟩)).symm) hne
    · rfl
  · rintro files samples hs ⟨s, h1, t, h2, r, hr, hne⟩
    unfold loadAts
    simp only
    rw [mapE_ok.2 hs]
    simp only
    have hno : oneRate (samples.map Sample.rate) = false := by
      by_contra hc
      rw [Bool.not_eq_false] at hc
      exact hne (oneRate_fin hc (List.mem_map.2 ⟨s, h1, rfl⟩) (List.mem_map.2 ⟨t, h2, rfl⟩) hr)
    split
    · rw [if_neg (by rw [hno]; simp)]
    · rfl

/-- **C71.** The header length is read as unsigned for the header and as signed for the samples: if it is 32768 or
more, the array starts at a negative position and reading from its beginning raises. -/
theorem C71_long_header (fs : Fs) (path : String) (bytes : List UInt8) (hfs : fs path = some bytes) (hb : 1024 ≤ bytes.length)
    (hl : 32768 ≤ littleEndian (bytes.take 2)) (hlt : littleEndian (bytes.take 2) < 65536) (s : Sample)
    (h : readSample fs path = .ok s) (stop : Nat) :
    s.arr.offset < 0 ∧ getItem fs s.arr [.slice (some 0) (some stop) (some 1)] = .error .other := by
  rw [readSample_eq fs path bytes hfs hb (by omega)] at h
  have h0 : signedAt bytes 0 2 < 0 := by
    unfold signedAt twosComplement
    rw [List.drop_zero, if_neg (by omega)]
    omega
  have hoff : s.arr.path = path ∧ s.arr.offset = signedAt bytes 0 2 ∧ s.arr.itemsize = 4 := by
    cases ha : open1D fs path (signedAt bytes 0 2) (signedAt bytes 4 4) 4 leInt with
    | error e => rw [ha] at h; simp at h
    | ok a =>
      rw [ha] at h
      simp only [Except.ok.injEq] at h
      subst h
      unfold open1D at ha
      rw [hfs] at ha
      simp only at ha
      generalize (if ((bytes.length : Int) - signedAt bytes 0 2) / ((4 : Nat) : Int) < signedAt bytes 4 4 then
        ((bytes.length : Int) - signedAt bytes 0 2) / ((4 : Nat) : Int) else signedAt bytes 4 4) = n at ha
      split at ha
      · injection ha with ha
        subst ha
        exact ⟨rfl, rfl, rfl⟩
      · simp at ha
  obtain ⟨h1, h2, h3⟩ := hoff
  refine ⟨by rw [h2]; exact h0, ?_⟩
  unfold getItem
  simp only [pureSliceIndex, List.length_singleton, lt_irrefl, if_false, Nat.sub_self, List.replicate_zero, List.append_nil,
    toSlices, toSlice]
  rw [if_pos (.inr (by simp))]
  have hb0 : bound s.arr.size 0 (some 0) = 0 := by simp [bound]
  simp only [List.map_cons, List.map_nil, extract, h1, hfs, h2, h3, hb0]
  have hneg : signedAt bytes 0 2 + ((4 : Nat) : Int) * 0 < 0 := by omega
  simp only [hneg, if_true]

/-- **C71.** Altogether: well-formed files with the same start, finite rate and number of samples are loaded as one channel
for each file, in order, holding the factor of the file times its integers. -/
theorem C71_files [Rnd] {F V : Type} [One V] (fs : Fs) (chunks : Nat → List Nat) (hch : ∀ n, (chunks n).sum = n)
    (files : List (String × List UInt8 × Nat × ℚ)) (hne : files ≠ []) (cals : Option (List (CalArg F V)))
    (hcals : (cals.getD []).length = 0 ∨ (cals.getD []).length = files.length) (n : Nat) (rate : ℚ) (start : Int)
    (h : ∀ f ∈ files, fs f.1 = some f.2.1 ∧ AtsFile f.2.1 f.2.2.1 n f.2.2.2 (.fin rate) start) :
    ∃ S, loadAts fs chunks (.list (files.map Prod.fst)) cals = some (.ok S) ∧ S.rate = rate ∧ S.start = start ∧ S.size = n ∧
      S.cals = (if (cals.getD []).length = 0 then List.replicate files.length (fun _ => 1) else (cals.getD []).map CalArg.toFn) ∧
      S.data = files.map (fun f => (List.range n).map (fun i => .ok (.fin (Rnd.rnd (f.2.2.2 * signedAt f.2.1 (f.2.2.1 + 4 * i) 4))))) := by
  have key : ∀ files : List (String × List UInt8 × Nat × ℚ),
      (∀ f ∈ files, fs f.1 = some f.2.1 ∧ AtsFile f.2.1 f.2.2.1 n f.2.2.2 (.fin rate) start) →
      ∃ samples : List Sample, List.Forall₂ (fun f s => readSample fs f = .ok s) (files.map Prod.fst) samples ∧
      (∀ s ∈ samples, s.start = start ∧ s.rate = .fin rate ∧ (s.data fs chunks).length = n) ∧
      samples.map (Sample.data fs chunks) =
        files.map (fun f => (List.range n).map (fun i => .ok (.fin (Rnd.rnd (f.2.2.2 * signedAt f.2.1 (f.2.2.1 + 4 * i) 4))))) := by
    intro files
    induction files with
    | nil => intro _; exact ⟨[], .nil, by simp, rfl⟩
    | cons f files ih =>
      intro h
      obtain ⟨l, l1, l2, l3⟩ := ih (fun f hf => h f (by simp [hf]))
      obtain ⟨h1, h2⟩ := h f (by simp)
      obtain ⟨s, s1, s2, s3, -, s5⟩ := C71_sample fs f.1 f.2.1 h1 _ _ _ _ _ h2 chunks hch
      refine ⟨s :: l, .cons s1 l1, ?_, by rw [List.map_cons, List.map_cons, s5, l3]⟩
      intro t ht
      rcases List.mem_cons.1 ht with rfl | ht
      · exact ⟨s2, s3, by rw [s5]; simp⟩
      · exact l2 t ht
  obtain ⟨samples, k1, k2, k3⟩ := key files h
  obtain ⟨S, h1, h2, h3, h4, h5, h6⟩ := C71_load fs chunks (files.map Prod.fst) (by simpa using hne) cals (by simpa using hcals)
    samples k1 start rate n k2
  exact ⟨S, h1, h3, h4, h5, by rw [h6, List.length_map], h2.trans k3⟩

/-- A file with two samples, 7 and -3, factor 1/2, rate 1, start 100; three bytes too many at the end. -/
def exAts : List UInt8 := toBytes 2 1024 ++ [0, 0] ++ toBytes 4 5 ++ toBytes 4 0x3F800000 ++ toBytes 4 100 ++
  toBytes 8 0x3FE0000000000000 ++ List.replicate 1000 0 ++ toBytes 4 7 ++ toBytes 4 (2 ^ 32 - 3) ++ [1, 1, 1]

theorem exAts_file : AtsFile exAts 1024 2 (1 / 2) (.fin 1) 100 where
  enough := by decide +kernel
  hlen_ge := by decide
  hlen_lt := by decide
  hlen_eq := by decide +kernel
  pos := by decide
  size := .inr ⟨by decide +kernel, by decide +kernel, by decide +kernel⟩
  rate_eq := by decide +kernel
  start_eq := by decide +kernel
  lsb_eq := by decide +kernel

example : ∃ S, loadAts (F := Nat) (V := Nat) (fun _ => some exAts) (fun n => [n]) (.list ["a", "b"]) none = some (.ok S) ∧
    S.rate = 1 ∧ S.start = 100 ∧ S.size = 2 ∧
    S.data = [[.ok (.fin (7 / 2)), .ok (.fin (-3 / 2))], [.ok (.fin (7 / 2)), .ok (.fin (-3 / 2))]] := by
  obtain ⟨S, h1, h2, h3, h4, -, h5⟩ := C71_files (F := Nat) (V := Nat) (fun _ => some exAts) (fun n => [n]) (by simp)
    [("a", exAts, 1024, 1 / 2), ("b", exAts, 1024, 1 / 2)] (by simp) none (by simp) 2 1 100 (by
      intro f hf
      simp only [List.mem_cons, List.not_mem_nil, or_false] at hf
      rcases hf with rfl | rfl
      · exact ⟨rfl, exAts_file⟩
      · exact ⟨rfl, exAts_file⟩)
  have e0 : signedAt exAts (1024 + 4 * 0) 4 = 7 := by decide +kernel
  have e1 : signedAt exAts (1024 + 4 * 1) 4 = -3 := by decide +kernel
  refine ⟨S, h1, h2, by simpa using h3, h4, ?_⟩
  rw [h5]
  simp only [List.map_cons, List.map_nil, List.range_succ, List.range_zero, List.nil_append, List.cons_append, e0, e1,
    Rnd.rnd_exact]
  norm_num

example : Fits (.signed 2) (.int (-5)) ∧ encode (.signed 2) (.int (-5)) = [251, 255] := by
  refine ⟨by simp [Fits], by decide +kernel⟩

/-- Raw values for every field, with header length 1024 and a negative latitude. -/
def exRaws : List Raw := atsLayout.map (fun f => if f.1 = "header_length" then .int 1024 else if f.1 = "ADU_Lat" then .int (-7200000)
  else match f.2.2 with
    | .signed _ | .unsigned _ => .int 3
    | .single | .double => .bits 5
    | .text n => .str (List.replicate n 65))

example : ∃ d, readHeader (fun _ => some (((atsLayout.zip exRaws).map (fun p => encode p.1.2.2 p.2)).flatten)) "f" = .ok d ∧
    d.get? "ADU_Lat" = some (.float (.fin (-2))) ∧ d.get? "sensor_type" = some (.str [65, 65, 65, 65, 65, 65]) := by
  have hF : List.Forall₂ (fun f r => Fits f.2.2 r) atsLayout exRaws := by
    unfold exRaws
    rw [List.forall₂_map_right_iff]
    apply List.forall₂_same.2
    intro f hf
    have hlen : f.1 = "header_length" ∨ f.1 = "ADU_Lat" → f.2.2 = .signed 2 ∨ f.2.2 = .signed 4 := by
      revert f
      decide +kernel
    have hpos : ∀ n, f.2.2 = .signed n ∨ f.2.2 = .unsigned n → 0 < n := by
      have : ∀ f ∈ atsLayout, (match f.2.2 with | .signed n | .unsigned n => decide (0 < n) | _ => true) = true := by
        decide +kernel
      intro n hn
      have := this f hf
      rcases hn with hn | hn <;> rw [hn] at this <;> simpa using this
    have hpow : ∀ n, 0 < n → (256 : Int) ≤ 256 ^ n := by
      intro n hn
      calc (256 : Int) = 256 ^ 1 := by norm_num
        _ ≤ 256 ^ n := pow_le_pow_right₀ (by norm_num) hn
    have h12 : f.1 = "ADU_Lat" → f.2.2 = .signed 4 := by
      clear hlen hpos
      revert f
      decide +kernel
    by_cases h1 : f.1 = "header_length"
    · rw [if_pos h1]
      rcases hlen (.inl h1) with h | h <;> rw [h] <;> simp [Fits]
    · rw [if_neg h1]
      by_cases h2 : f.1 = "ADU_Lat"
      · rw [if_pos h2, h12 h2]
        simp [Fits]
      · rw [if_neg h2]
        cases hf2 : f.2.2 with
        | signed n =>
          have := hpow n (hpos n (.inl hf2))
          simp only [Fits]
          omega
        | unsigned n =>
          have := hpow n (hpos n (.inr hf2))
          simp only [Fits]
          omega
        | single => simp [Fits]
        | double => simp [Fits]
        | text n => simp [Fits]
  obtain ⟨d, h1, -, h3⟩ := C70_roundtrip (fun _ => some (((atsLayout.zip exRaws).map (fun p => encode p.1.2.2 p.2)).flatten)) "f"
    exRaws [] hF (by simp) (by
      intro L hL
      have : exRaws[0]? = some (.int 1024) := by decide +kernel
      rw [this] at hL
      injection hL with hL
      injection hL with hL
      subst hL
      decide)
  refine ⟨d, h1, ?_, ?_⟩
  · have := h3 27 "ADU_Lat" 96 (.signed 4) (.int (-7200000)) (by decide +kernel) (by decide +kernel)
    rw [this]
    simp [corrected, meaning]
    norm_num
  · exact h3 13 "sensor_type" 40 (.text 6) (.str [65, 65, 65, 65, 65, 65]) (by decide +kernel) (by decide +kernel)

/-! Files of a directory. -/

/-- The file has the extension `.ats` and is not hidden. -/
def AtsName (name : String) : Prop := ∃ base : List Char, name.toList = base ++ ['.', 'a', 't', 's'] ∧ base ≠ [] ∧ base.head? ≠ some '.'

theorem isAts_iff (name : String) : isAts name = true ↔ AtsName name := by
  have hd : ".ats".toList = ['.', 'a', 't', 's'] := by decide
  unfold isAts AtsName
  rw [Bool.and_eq_true, List.isSuffixOf_iff_suffix, bne_iff_ne, hd]
  constructor
  · rintro ⟨⟨base, hb⟩, h2⟩
    refine ⟨base, hb.symm, ?_, ?_⟩
    · rintro rfl
      rw [← hb] at h2
      simp at h2
    · intro h
      apply h2
      rw [← hb]
      cases base with
      | nil => simp at h
      | cons c l => simpa using h
  · rintro ⟨base, hb, h1, h2⟩
    refine ⟨⟨base, hb.symm⟩, ?_⟩
    rw [hb]
    cases base with
    | nil => exact absurd rfl h1
    | cons c l => simpa using h2

/-- **C71.** `load_ats_from` loads the ats files of the directory: one channel per file, in the order in which the operating
system lists them. -/
theorem C71_directory [Rnd] {F V : Type} [One V] (fs : Fs) (chunks : Nat → List Nat) (hch : ∀ n, (chunks n).sum = n) (path : String)
    (listing : List String) (content : String → List UInt8 × Nat × ℚ) (cals : Option (List (CalArg F V))) (n : Nat) (rate : ℚ) (start : Int)
    (names : List String) (hn : ∃ p : String → Bool, (∀ x, p x = true ↔ AtsName x) ∧ names = listing.filter p) (hne : names ≠ [])
    (hcals : (cals.getD []).length = 0 ∨ (cals.getD []).length = names.length)
    (h : ∀ x ∈ names, fs (path ++ "/" ++ x) = some (content x).1 ∧ AtsFile (content x).1 (content x).2.1 n (content x).2.2 (.fin rate) start) :
    ∃ S, loadAtsFrom fs chunks path listing cals = some (.ok S) ∧ S.rate = rate ∧ S.start = start ∧ S.size = n ∧
      S.cals = (if (cals.getD []).length = 0 then List.replicate names.length (fun _ => 1) else (cals.getD []).map CalArg.toFn) ∧
      S.data = names.map (fun x => (List.range n).map (fun i =>
        .ok (.fin (Rnd.rnd ((content x).2.2 * signedAt (content x).1 ((content x).2.1 + 4 * i) 4))))) := by
  obtain ⟨p, hp, rfl⟩ := hn
  have hpe : p = isAts := by
    funext x
    have := (hp x).trans (isAts_iff x).symm
    cases h1 : p x <;> cases h2 : isAts x <;> simp [h1, h2] at this ⊢
  subst hpe
  obtain ⟨S, h1, h2, h3, h4, hc, h5⟩ := C71_files fs chunks hch ((listing.filter isAts).map (fun x => (path ++ "/" ++ x, content x)))
    (by simpa using hne) cals (by simpa using hcals) n rate start (by
      intro f hf
      obtain ⟨x, hx, rfl⟩ := List.mem_map.1 hf
      exact h x hx)
  refine ⟨S, ?_, h2, h3, h4, by rw [hc, List.length_map], ?_⟩
  · unfold loadAtsFrom
    rw [← h1, List.map_map]
    rfl
  · rw [h5, List.map_map]
    rfl

/-- **C71.** A directory without ats files: AssertionError. -/
theorem C71_no_file [Rnd] {F V : Type} [One V] (fs : Fs) (chunks : Nat → List Nat) (path : String) (listing : List String)
    (cals : Option (List (CalArg F V))) (h : ∀ x ∈ listing, ¬ AtsName x) :
    loadAtsFrom fs chunks path listing cals = some (.error .assertion) := by
  unfold loadAtsFrom
  have : listing.filter isAts = [] := by
    rw [List.filter_eq_nil_iff]
    intro x hx hc
    exact h x hx ((isAts_iff x).1 hc)
  rw [this]
  rfl

/-- The content of two files with one sample: 7 and 9. -/
def exOneSample (k : Nat) : List UInt8 := toBytes 2 1024 ++ [0, 0] ++ toBytes 4 1 ++ toBytes 4 0x3F800000 ++ toBytes 4 100 ++
  toBytes 8 0x3FF0000000000000 ++ List.replicate 1000 0 ++ toBytes 4 k

def exDir : Fs := fun p => if p = "/d/a.ats" then some (exOneSample 7) else if p = "/d/b.ats" then some (exOneSample 9) else none

/-- **C71.** Calibrations are given by position: with two listings of the same directory, the same call attaches them to
different files. -/
theorem C71_listing_order : ∃ S S' : Sync (Except Err FVal) (Nat → Nat),
    loadAtsFrom exDir (fun n => [n]) "/d" ["a.ats", "notes.txt", "b.ats"] (some [.num 2, .num 3]) = some (.ok S) ∧
    loadAtsFrom exDir (fun n => [n]) "/d" ["b.ats", "a.ats", "notes.txt"] (some [.num 2, .num 3]) = some (.ok S') ∧
    S.data = [[.ok (.fin 7)], [.ok (.fin 9)]] ∧ S'.data = [[.ok (.fin 9)], [.ok (.fin 7)]] ∧
    S.cals = [fun _ => 2, fun _ => 3] ∧ S'.cals = [fun _ => 2, fun _ => 3] := by
  have hf : ∀ k, k < 10 → AtsFile (exOneSample k) 1024 1 1 (.fin 1) 100 ∧ signedAt (exOneSample k) 1024 4 = k := by
    have : ∀ k : Fin 10, littleEndian ((exOneSample k).take 2) = 1024 ∧ signedAt (exOneSample k) 4 4 = 1 ∧
        (exOneSample k).length = 1028 ∧ littleEndian (((exOneSample k).drop 8).take 4) = 0x3F800000 ∧
        signedAt (exOneSample k) 12 4 = 100 ∧ littleEndian (((exOneSample k).drop 16).take 8) = 0x3FF0000000000000 ∧
        signedAt (exOneSample k) 1024 4 = k := by decide +kernel
    intro k hk
    obtain ⟨h1, h2, h3, h4, h5, h6, h7⟩ := this ⟨k, hk⟩
    exact ⟨⟨by rw [h3]; decide, by decide, by decide, h1, by decide, .inl ⟨h2.symm, by rw [h3]⟩, by rw [h4]; decide +kernel, h5.symm,
      by rw [h6]; decide +kernel⟩, h7⟩
  have hx : ∀ x ∈ ["a.ats", "b.ats"], exDir ("/d" ++ "/" ++ x) = some (if x = "a.ats" then exOneSample 7 else exOneSample 9) := by
    decide +kernel
  have key : ∀ listing names : List String, names = listing.filter isAts → names ≠ [] → names.length = 2 →
      (∀ x ∈ names, x ∈ ["a.ats", "b.ats"]) → ∃ S : Sync (Except Err FVal) (Nat → Nat),
      loadAtsFrom exDir (fun n => [n]) "/d" listing (some [.num 2, .num 3]) = some (.ok S) ∧
      S.data = names.map (fun x => [.ok (.fin (if x = "a.ats" then 7 else 9))]) ∧ S.cals = [fun _ => 2, fun _ => 3] := by
    intro listing names hn hne hlen hmem
    obtain ⟨S, s1, -, -, -, s2, s3⟩ := C71_directory exDir (fun n => [n]) (by simp) "/d" listing
      (fun x => (if x = "a.ats" then exOneSample 7 else exOneSample 9, 1024, 1)) (some [.num 2, .num 3]) 1 1 100 names
      ⟨isAts, isAts_iff, hn⟩ hne (by simp [hlen]) (by
        intro x hx'
        refine ⟨hx x (hmem x hx'), ?_⟩
        simp only
        split
        · exact (hf 7 (by decide)).1
        · exact (hf 9 (by decide)).1)
    refine ⟨S, s1, ?_, by rw [s2]; rfl⟩
    rw [s3]
    apply List.map_congr_left
    intro x hx'
    simp only [List.range_one, List.map_cons, List.map_nil, Nat.mul_zero, Nat.add_zero, Rnd.rnd_exact, one_mul]
    split
    · rw [(hf 7 (by decide)).2]; rfl
    · rw [(hf 9 (by decide)).2]; rfl
  obtain ⟨S, a1, a2, a3⟩ := key ["a.ats", "notes.txt", "b.ats"] ["a.ats", "b.ats"] (by decide +kernel) (by simp) rfl (by simp)
  obtain ⟨S', b1, b2, b3⟩ := key ["b.ats", "a.ats", "notes.txt"] ["b.ats", "a.ats"] (by decide +kernel) (by simp) rfl (by simp)
  refine ⟨S, S', a1, b1, ?_, ?_, a3, b3⟩
  · rw [a2]; rfl
  · rw [b2]; rfl

end Razorback.Props
