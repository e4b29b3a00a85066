/-
Lemmas on the layout of the ats header.
-/
import Verif.Model.Ats
import Verif.Spec.Ats
import Verif.Spec.Float754
import Verif.Lemmas.FileArray

namespace Razorback.Io
open Razorback Razorback.Spec

theorem ieee_single (k : Nat) : ieee 8 23 k = single754 k := by
  unfold ieee single754
  have hf : (((k % 2 ^ 23 : Nat) : ℚ) / 2 ^ 23 = 0) ↔ k % 2 ^ 23 = 0 := by
    rw [div_eq_zero_iff]
    simp
  simp only [hf]
  rw [show 23 + 8 = 31 from rfl, show 2 ^ 8 - 1 = 255 from rfl]
  generalize k / 2 ^ 23 % 2 ^ 8 = x
  generalize k % 2 ^ 23 = f
  generalize hs : (if k / 2 ^ 31 % 2 = 1 then (-1 : ℚ) else 1) = sg
  have hp : ∀ z : Int, (2 : ℚ) ^ z = 2 ^ 23 * 2 ^ (z - 23) := by
    intro z
    rw [zpow_sub₀ (by norm_num)]
    norm_num
    field_simp
  split
  · rfl
  · split
    · congr 1
      rw [hp (-126)]
      rw [show (1 : Int) - (2 ^ (8 - 1) - 1) - ((23 : Nat) : Int) = -126 - 23 by norm_num]
      field_simp
    · congr 1
      rw [hp (x - 127)]
      rw [show (x : Int) - (2 ^ (8 - 1) - 1) - ((23 : Nat) : Int) = x - 127 - 23 by norm_num]
      field_simp

theorem ieee_double (k : Nat) : ieee 11 52 k = double754 k := by
  unfold ieee double754
  have hf : (((k % 2 ^ 52 : Nat) : ℚ) / 2 ^ 52 = 0) ↔ k % 2 ^ 52 = 0 := by
    rw [div_eq_zero_iff]
    simp
  simp only [hf]
  rw [show 52 + 11 = 63 from rfl, show 2 ^ 11 - 1 = 2047 from rfl]
  generalize k / 2 ^ 52 % 2 ^ 11 = x
  generalize k % 2 ^ 52 = f
  generalize hs : (if k / 2 ^ 63 % 2 = 1 then (-1 : ℚ) else 1) = sg
  have hp : ∀ z : Int, (2 : ℚ) ^ z = 2 ^ 52 * 2 ^ (z - 52) := by
    intro z
    rw [zpow_sub₀ (by norm_num)]
    norm_num
    field_simp
  split
  · rfl
  · split
    · congr 1
      rw [hp (-1022)]
      rw [show (1 : Int) - (2 ^ (11 - 1) - 1) - ((52 : Nat) : Int) = -1022 - 52 by norm_num]
      field_simp
    · congr 1
      rw [hp (x - 1023)]
      rw [show (x : Int) - (2 ^ (11 - 1) - 1) - ((52 : Nat) : Int) = x - 1023 - 52 by norm_num]
      field_simp

theorem leNat_eq (l : List UInt8) : leNat l = littleEndian l := by
  unfold leNat
  rw [List.foldl_reverse]
  induction l with
  | nil => rfl
  | cons b l ih =>
    rw [List.foldr_cons, ih, littleEndian]
    omega

theorem leInt_eq (l : List UInt8) : leInt l = twosComplement l.length (littleEndian l) := by
  unfold leInt twosComplement
  simp only [leNat_eq]

/-- Where `struct` puts the fields. -/
def offsets : Nat → List Code → List (Nat × Code)
  | _, [] => []
  | pos, c :: cs => (alignUp pos c.align, c) :: offsets (alignUp pos c.align + c.size) cs

theorem unpackFrom_eq (buf : List UInt8) (pos : Nat) (cs : List Code) :
    unpackFrom buf pos cs = if (offsets pos cs).all (fun p => decide (p.1 + p.2.size ≤ buf.length)) then
      some ((offsets pos cs).map (fun p => p.2.unpack ((buf.drop p.1).take p.2.size))) else none := by
  induction cs generalizing pos with
  | nil => rfl
  | cons c cs ih =>
    rw [unpackFrom, offsets]
    simp only [ih, List.all_cons, List.map_cons]
    by_cases h1 : buf.length < alignUp pos c.align + c.size
    · rw [if_pos h1, if_neg]
      simp only [Bool.and_eq_true, decide_eq_true_eq, not_and]
      intro h2
      omega
    · rw [if_neg h1]
      by_cases h2 : (offsets (alignUp pos c.align + c.size) cs).all (fun p => decide (p.1 + p.2.size ≤ buf.length)) = true
      · rw [if_pos h2, if_pos (by rw [h2, Bool.and_true, decide_eq_true_eq]; omega)]
      · rw [if_neg h2, if_neg (by intro h3; rw [Bool.and_eq_true] at h3; exact h2 h3.2)]

/-- Setting new keys one after the other. -/
theorem foldl_set {β γ : Type _} (key : γ → String) (val : γ → β) (l : List γ) (d : Dict β)
    (h : (d.keys ++ l.map key).Nodup) :
    l.foldl (fun (d : Dict β) p => d.set (key p) (val p)) d = d ++ l.map (fun p => (key p, val p)) := by
  induction l generalizing d with
  | nil => simp
  | cons a l ih =>
    have hset : d.set (key a) (val a) = d ++ [(key a, val a)] := by
      have hn : key a ∉ d.keys := by
        intro hc
        exact (List.nodup_append.1 h).2.2 _ hc _ (by simp) rfl
      clear ih h
      induction d with
      | nil => rfl
      | cons e d ih =>
        obtain ⟨k, v⟩ := e
        rw [Dict.keys, List.map_cons, List.mem_cons, not_or] at hn
        rw [Dict.set, if_neg (fun hc => hn.1 hc.symm), ih hn.2]
        rfl
    rw [List.foldl_cons, hset, ih]
    · simp
    · have : Dict.keys (d ++ [(key a, val a)]) ++ l.map key = d.keys ++ (a :: l).map key := by
        simp [Dict.keys]
      rw [this]
      exact h

theorem offsets_length (pos : Nat) (cs : List Code) : (offsets pos cs).length = cs.length := by
  induction cs generalizing pos with
  | nil => rfl
  | cons c cs ih => simp [offsets, ih]

/-- The type of a field for a format character. -/
def fieldOf : Code → Field
  | .h => .signed 2
  | .H => .unsigned 2
  | .i => .signed 4
  | .q => .signed 8
  | .b => .signed 1
  | .f => .single
  | .d => .double
  | .s n => .text n

theorem fieldOf_bytes (c : Code) : (fieldOf c).bytes = c.size := by cases c <;> rfl

theorem layout_eq : (byteFormat.zip (offsets 0 (byteFormat.map Prod.snd))).map (fun p => (p.1.1, p.2.1, fieldOf p.1.2)) = atsLayout := by
  decide +kernel

theorem layout_codes : ∀ p ∈ byteFormat.zip (offsets 0 (byteFormat.map Prod.snd)), p.2.2 = p.1.2 := by
  decide +kernel

theorem layout_fits : ∀ p ∈ offsets 0 (byteFormat.map Prod.snd), p.1 + p.2.size ≤ 1024 := by
  decide +kernel

theorem layout_last : (512, Code.s 512) ∈ offsets 0 (byteFormat.map Prod.snd) := by
  decide +kernel

theorem format_nodup : (byteFormat.map Prod.fst).Nodup := by
  decide +kernel

end Razorback.Io
