/-
Lemmas on slices and reading items.
-/
import Verif.Model.FileArray
import Verif.Spec.FileArray
import Verif.Lemmas.Py
import Mathlib.Data.List.Perm.Basic

namespace Razorback.Io
open Razorback Razorback.Spec

theorem increasing_ext {a b : List Nat} (ha : a.Pairwise (· < ·)) (hb : b.Pairwise (· < ·)) (h : ∀ i, i ∈ a ↔ i ∈ b) : a = b := by
  apply List.Perm.eq_of_pairwise (le := (· < ·)) (fun x y _ _ h1 h2 => by omega) ha hb
  exact (List.perm_ext_iff_of_nodup (ha.imp (fun h => Nat.ne_of_lt h)) (hb.imp (fun h => Nat.ne_of_lt h))).2 h

theorem bound_start (dim : Nat) (i : Option Int) : bound dim 0 i = sliceBound dim 0 0 dim i := by
  cases i with
  | none => rfl
  | some i =>
    simp only [bound, sliceBound]
    split <;> omega

theorem bound_stop (dim : Nat) (i : Option Int) : bound dim dim i = sliceBound dim dim 0 dim i := by
  cases i with
  | none => rfl
  | some i =>
    simp only [bound, sliceBound]
    split <;> omega

theorem sliceBound_mem (dim : Nat) (d : Int) (hd : 0 ≤ d ∧ d ≤ dim) (i : Option Int) :
    0 ≤ sliceBound dim d 0 dim i ∧ sliceBound dim d 0 dim i ≤ dim := by
  cases i with
  | none => exact hd
  | some i =>
    simp only [sliceBound]
    omega

variable {ν : Type _}

theorem stride_map_range {k : Nat} (hk : 0 < k) (m : Nat) (g : Nat → ν) :
    stride k ((List.range m).map g) = ((List.range m).filter (fun i => i % k = 0)).map g := by
  have h1 : stride k ((List.range m).map g) = ((List.range m).filterMap (fun i => if i * k < m then some (i * k) else none)).map g := by
    unfold stride
    rw [List.length_map, List.length_range, List.map_filterMap]
    apply List.filterMap_congr
    intro i _
    by_cases h : i * k < m
    · simp [h]
    · simp [h]
  rw [h1]
  congr 1
  apply increasing_ext
  · rw [List.pairwise_filterMap]
    apply List.Pairwise.imp _ List.pairwise_lt_range
    intro i j hij x hx y hy
    split at hx
    · split at hy
      · simp only [Option.some.injEq] at hx hy
        rw [← hx, ← hy]
        exact Nat.mul_lt_mul_of_pos_right hij hk
      · simp at hy
    · simp at hx
  · exact List.Pairwise.filter _ List.pairwise_lt_range
  · intro x
    simp only [List.mem_filterMap, List.mem_range, List.mem_filter, decide_eq_true_eq]
    constructor
    · rintro ⟨i, _, h⟩
      split at h
      · simp only [Option.some.injEq] at h
        subst h
        exact ⟨by assumption, Nat.mul_mod_left i k⟩
      · simp at h
    · rintro ⟨h1, h2⟩
      refine ⟨x / k, lt_of_le_of_lt (Nat.div_le_self x k) h1, ?_⟩
      rw [Nat.div_mul_cancel (Nat.dvd_of_mod_eq_zero h2), if_pos h1]

/-- The positions of a slice with positive step, counted from its start. -/
theorem slicePositions_up (dim : Nat) (start stop : Option Int) (step : Int) (hs : 0 < step) (a b : Nat)
    (ha : sliceBound dim 0 0 dim start = a) (hb : sliceBound dim dim 0 dim stop = b) :
    slicePositions dim start stop step = ((List.range (b - a)).filter (fun i => i % step.toNat = 0)).map (a + ·) := by
  have hb' := (sliceBound_mem dim dim (by omega) stop).2
  unfold slicePositions
  rw [if_pos hs]
  simp only [ha, hb]
  obtain ⟨k, rfl⟩ := Int.eq_ofNat_of_zero_le hs.le
  apply increasing_ext
  · exact List.Pairwise.filter _ List.pairwise_lt_range
  · rw [List.pairwise_map]
    exact List.Pairwise.imp (fun h => by omega) (List.Pairwise.filter _ List.pairwise_lt_range)
  · intro p
    simp only [List.mem_filter, List.mem_range, decide_eq_true_eq, List.mem_map, Int.toNat_natCast]
    constructor
    · rintro ⟨h1, h2, h3, h4⟩
      refine ⟨p - a, ⟨by omega, ?_⟩, by omega⟩
      have : ((p - a : Nat) : Int) = p - a := by omega
      rw [← this] at h4
      exact_mod_cast h4
    · rintro ⟨i, ⟨h1, h2⟩, rfl⟩
      refine ⟨by omega, by omega, by omega, ?_⟩
      have : ((a + i : Nat) : Int) - a = (i : Nat) := by omega
      rw [this]
      exact_mod_cast h2

theorem pick_items (w : Nat) (dec : List UInt8 → ν) (bytes : List UInt8) (offset size : Nat) (ps : List Nat)
    (h : ∀ p ∈ ps, p < size) :
    pick (items w dec bytes offset size) ps = ps.map (fun p => dec ((bytes.drop (offset + w * p)).take w)) := by
  unfold pick items
  rw [← List.filterMap_eq_map]
  apply List.filterMap_congr
  intro p hp
  simp [h p hp]

/-- Reading `count` items that are there. -/
theorem fromfile_ok (w : Nat) (hw : 0 < w) (dec : List UInt8 → ν) (bytes : List UInt8) (pos count : Nat)
    (h : pos + w * count ≤ bytes.length) :
    fromfile w dec (bytes.drop pos) count = (List.range count).map (fun i => dec ((bytes.drop (pos + w * i)).take w)) := by
  unfold fromfile
  have hav : count ≤ (bytes.drop pos).length / w := by
    rw [Nat.le_div_iff_mul_le hw, List.length_drop, Nat.mul_comm]
    omega
  simp only [List.drop_drop]
  rw [if_neg (by omega), Int.toNat_natCast, Nat.min_eq_left hav]

/-- Reading items comes short exactly if they are not all there. -/
theorem fromfile_length (w : Nat) (hw : 0 < w) (dec : List UInt8 → ν) (bytes : List UInt8) (pos count : Nat) :
    (fromfile w dec (bytes.drop pos) count).length = count ↔ count = 0 ∨ pos + w * count ≤ bytes.length := by
  unfold fromfile
  simp only [List.length_map, List.length_range, List.length_drop]
  rw [if_neg (by omega), Int.toNat_natCast, min_eq_left_iff, Nat.le_div_iff_mul_le hw, Nat.mul_comm]
  have : 0 < w * count ∨ count = 0 := by
    rcases Nat.eq_zero_or_pos count with h | h
    · exact .inr h
    · exact .inl (Nat.mul_pos hw h)
  constructor
  · intro h
    rcases this with h1 | h1
    · right; omega
    · exact .inl h1
  · rintro (h | h)
    · subst h; simp
    · omega

/-- The whole computation for a slice with positive step. -/
theorem getItem_up (fs : Fs) (a : FileArr ν) (bytes : List UInt8) (hfs : fs a.path = some bytes) (hoff : 0 ≤ a.offset)
    (start stop step : Option Int) (hs : 0 < step.getD 1) (lo hi : Nat)
    (hlo : sliceBound a.size 0 0 a.size start = lo) (hhi : sliceBound a.size a.size 0 a.size stop = hi) :
    getItem fs a [.slice start stop step] =
      let arr := fromfile a.itemsize a.dec (bytes.drop (a.offset.toNat + a.itemsize * lo)) ((hi : Int) - lo)
      if (arr.length : Int) ≠ (hi : Int) - lo then .error .other
      else .ok (.array (stride (step.getD 1).toNat arr)) := by
  have hpos : a.offset + a.itemsize * (lo : Int) = ((a.offset.toNat + a.itemsize * lo : Nat) : Int) := by
    push_cast
    omega
  have hp : pureSliceIndex [.slice start stop step] [a.size] = .ok ([.mk lo hi (step.getD 1)], [.all]) := by
    simp only [pureSliceIndex, List.length_singleton, lt_irrefl, if_false, Nat.sub_self, List.replicate_zero, List.append_nil,
      toSlices, toSlice]
    rw [if_pos (.inr hs), bound_start, bound_stop, hlo, hhi]
    rfl
  unfold getItem
  rw [hp]
  simp only [extract, hfs, hpos]
  rw [if_neg (by omega), Int.toNat_natCast]
  split
  · rename_i e heq
    split at heq
    · rename_i hc
      rw [if_pos hc]
      injection heq with heq
      rw [heq]
    · simp at heq
  · rename_i arr heq
    split at heq
    · simp at heq
    · rename_i hc
      rw [if_neg hc]
      injection heq with heq
      rw [heq]

end Razorback.Io
