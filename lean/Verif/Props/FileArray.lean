/-
Properties C67-C69: arrays stored in binary files.
-/
import Verif.Lemmas.FileArray

namespace Razorback.Props
open Razorback Razorback.Spec Razorback.Io

variable {ν : Type _}

/-- The file holds the whole array. -/
def Holds (fs : Fs) (a : FileArr ν) (bytes : List UInt8) : Prop :=
  fs a.path = some bytes ∧ 0 ≤ a.offset ∧ 0 < a.itemsize ∧ a.offset.toNat + a.itemsize * a.size ≤ bytes.length

/-- The values of the array. -/
def values (a : FileArr ν) (bytes : List UInt8) : List ν := items a.itemsize a.dec bytes a.offset.toNat a.size

/-! C67 -/

/-- **C67.** A slice with positive step (or none), whose stop is not before its start, gives the elements numpy gives. -/
theorem C67_slice (fs : Fs) (a : FileArr ν) (bytes : List UInt8) (h : Holds fs a bytes) (start stop step : Option Int)
    (hs : 0 < step.getD 1) (hext : sliceBound a.size 0 0 a.size start ≤ sliceBound a.size a.size 0 a.size stop) :
    getItem fs a [.slice start stop step] =
      .ok (.array (pick (values a bytes) (slicePositions a.size start stop (step.getD 1)))) := by
  obtain ⟨hfs, hoff, hw, hfit⟩ := h
  obtain ⟨l1, l2⟩ := sliceBound_mem a.size 0 (by omega) start
  obtain ⟨u1, u2⟩ := sliceBound_mem a.size a.size (by omega) stop
  obtain ⟨lo, hlo⟩ := Int.eq_ofNat_of_zero_le l1
  obtain ⟨hi, hhi⟩ := Int.eq_ofNat_of_zero_le u1
  rw [hlo, hhi] at hext
  rw [hhi] at u2
  rw [getItem_up fs a bytes hfs hoff start stop step hs lo hi hlo hhi]
  have e : (hi : Int) - lo = ((hi - lo : Nat) : Int) := by omega
  have hle : a.offset.toNat + a.itemsize * lo + a.itemsize * (hi - lo) ≤ bytes.length := by
    have h1 : a.itemsize * lo + a.itemsize * (hi - lo) = a.itemsize * hi := by
      rw [← Nat.mul_add]; congr 1; omega
    have h2 : a.itemsize * hi ≤ a.itemsize * a.size := Nat.mul_le_mul_left _ (by omega)
    omega
  simp only [e]
  rw [fromfile_ok _ hw _ _ _ _ hle, if_neg (by simp), stride_map_range (by omega),
    slicePositions_up a.size start stop _ hs lo hi hlo hhi]
  unfold values
  rw [pick_items]
  · rw [List.map_map]
    congr 2
    apply List.map_congr_left
    intro i _
    simp only [Function.comp, Nat.mul_add, Nat.add_assoc]
  · intro p hp
    simp only [List.mem_map, List.mem_filter, List.mem_range] at hp
    obtain ⟨i, ⟨hi', _⟩, rfl⟩ := hp
    omega

/-- **C67.** `a[:]` and `a[()]` give all the values. -/
theorem C67_all (fs : Fs) (a : FileArr ν) (bytes : List UInt8) (h : Holds fs a bytes) :
    getItem fs a [.slice none none none] = .ok (.array (values a bytes)) ∧ getItem fs a [] = .ok (.array (values a bytes)) := by
  have h1 : getItem fs a [.slice none none none] = .ok (.array (values a bytes)) := by
    rw [C67_slice fs a bytes h none none none (by simp) (by simp [sliceBound])]
    congr 2
    have hp : slicePositions a.size none none ((none : Option Int).getD 1) = List.range a.size := by
      unfold slicePositions
      rw [if_pos (by simp), List.filter_eq_self]
      intro p hp
      simp [sliceBound, List.mem_range.1 hp]
    rw [hp, values, pick_items _ _ _ _ _ _ (fun p hp => List.mem_range.1 hp)]
    rfl
  exact ⟨h1, h1⟩

/-- **C67.** A number that is an integer in range gives the element there, counting from the end if it is negative; out
of range IndexError is raised, and TypeError if it is not an integer. -/
theorem C67_int (fs : Fs) (a : FileArr ν) (bytes : List UInt8) (h : Holds fs a bytes) (q : ℚ) :
    (∀ (i : Int) (p : Nat), q = i → intPosition a.size i = some p →
      ∃ x, (values a bytes)[p]? = some x ∧ getItem fs a [.num q] = .ok (.scalar x)) ∧
    (∀ i : Int, q = i → intPosition a.size i = none → getItem fs a [.num q] = .error .index) ∧
    ((∀ i : Int, q ≠ i) → getItem fs a [.num q] = .error .type) := by
  obtain ⟨hfs, hoff, hw, hfit⟩ := h
  have hidx : ∀ i : Int, q = i → getItem fs a [.num q] =
      if 0 ≤ (if i < 0 then i + a.size else i) ∧ (if i < 0 then i + a.size else i) < a.size then
        match extract fs a (.mk (if i < 0 then i + a.size else i) ((if i < 0 then i + a.size else i) + 1) 1) with
        | .error e => .error e
        | .ok [] => .error .index
        | .ok (x :: _) => .ok (.scalar x)
      else .error .index := by
    rintro i rfl
    have ht : toSlice a.size (.num (i : ℚ)) = if 0 ≤ (if i < 0 then i + a.size else i) ∧ (if i < 0 then i + a.size else i) < a.size then
        .ok (.mk (if i < 0 then i + a.size else i) ((if i < 0 then i + a.size else i) + 1) 1, .zero) else .error .index := rfl
    unfold getItem
    simp only [pureSliceIndex, List.length_singleton, lt_irrefl, if_false, Nat.sub_self, List.replicate_zero, List.append_nil,
      toSlices, ht]
    generalize (if i < 0 then i + (a.size : Int) else i) = j
    by_cases hc : 0 ≤ j ∧ j < a.size
    · simp only [hc, and_self, if_true, List.map_cons, List.map_nil]
      cases extract fs a (.mk j (j + 1) 1) with
      | error e => rfl
      | ok l => cases l <;> rfl
    · simp only [hc, if_false]
  refine ⟨?_, ?_, ?_⟩
  · intro i p hq hp
    have hpi : (if i < 0 then i + (a.size : Int) else i) = (p : Int) ∧ p < a.size := by
      unfold intPosition at hp
      split at hp
      · injection hp with hp
        rw [if_neg (by omega)]
        omega
      · split at hp
        · injection hp with hp
          rw [if_pos (by omega)]
          omega
        · simp at hp
    have hv : p < (values a bytes).length := by simp [values, items, hpi.2]
    refine ⟨(values a bytes)[p], List.getElem?_eq_getElem hv, ?_⟩
    rw [hidx i hq, hpi.1, if_pos (by omega)]
    have e : a.offset + a.itemsize * (p : Int) = ((a.offset.toNat + a.itemsize * p : Nat) : Int) := by
      push_cast
      omega
    have hle : a.offset.toNat + a.itemsize * p + a.itemsize * 1 ≤ bytes.length := by
      have h2 : a.itemsize * (p + 1) ≤ a.itemsize * a.size := Nat.mul_le_mul_left _ (by omega)
      rw [Nat.mul_add] at h2
      omega
    have hone : (p : Int) + 1 - p = ((1 : Nat) : Int) := by omega
    simp only [extract, hfs, e, hone, Int.toNat_natCast]
    rw [fromfile_ok _ hw _ _ _ _ hle, if_neg (by omega), if_neg (by simp)]
    simp [stride, values, items]
  · intro i hq hp
    rw [hidx i hq, if_neg]
    rintro ⟨h1, h2⟩
    unfold intPosition at hp
    split at hp
    · simp at hp
    · split at hp
      · simp at hp
      · split at h1 <;> omega
  · intro hq
    unfold getItem
    have : ¬ q.den = 1 := by
      intro hd
      exact hq q.num ((Rat.den_eq_one_iff q).1 hd).symm
    simp only [pureSliceIndex, List.length_singleton, lt_irrefl, if_false, Nat.sub_self, List.replicate_zero, List.append_nil,
      toSlices, toSlice, if_neg this]

/-- **C67.** More than one index raises IndexError. -/
theorem C67_too_many (fs : Fs) (a : FileArr ν) (i j : Idx) (is : List Idx) : getItem fs a (i :: j :: is) = .error .index := by
  unfold getItem pureSliceIndex
  rw [if_pos (by simp)]

/-- **C67.** A slice that selects nothing because its stop is before its start raises instead of giving an empty array. -/
theorem C67_reversed_raises (fs : Fs) (a : FileArr ν) (bytes : List UInt8) (h : Holds fs a bytes) (start stop step : Option Int)
    (hs : 0 < step.getD 1) (hext : sliceBound a.size a.size 0 a.size stop < sliceBound a.size 0 0 a.size start) :
    getItem fs a [.slice start stop step] = .error .other := by
  obtain ⟨hfs, hoff, hw, hfit⟩ := h
  obtain ⟨l1, l2⟩ := sliceBound_mem a.size 0 (by omega) start
  obtain ⟨u1, u2⟩ := sliceBound_mem a.size a.size (by omega) stop
  obtain ⟨lo, hlo⟩ := Int.eq_ofNat_of_zero_le l1
  obtain ⟨hi, hhi⟩ := Int.eq_ofNat_of_zero_le u1
  rw [hlo, hhi] at hext
  rw [getItem_up fs a bytes hfs hoff start stop step hs lo hi hlo hhi]
  simp only
  rw [if_pos (by omega)]

/-- **C67.** Slices with a negative or zero step always raise TypeError. -/
theorem C67_negative_step_raises (fs : Fs) (a : FileArr ν) (bytes : List UInt8) (hfs : fs a.path = some bytes)
    (start stop : Option Int) (step : Int) (hs : step ≤ 0) : getItem fs a [.slice start stop (some step)] = .error .type := by
  unfold getItem
  simp only [pureSliceIndex, List.length_singleton, lt_irrefl, if_false, Nat.sub_self, List.replicate_zero, List.append_nil,
      toSlices, toSlice]
  rw [if_neg (by simp; omega)]
  simp only [List.map_cons, List.map_nil, extract, hfs]

/-- The positions selected by an index, or why not. -/
def idxPositions (dim : Nat) : Idx → List Nat
  | .num q => match intPosition dim q.num with
    | none => []
    | some p => [p]
  | .slice start stop step => slicePositions dim start stop (step.getD 1)

/-- The positions of the slice given to `extract`. -/
def slPositions (dim : Nat) : Sl → List Nat
  | .all => List.range dim
  | .mk a b k => slicePositions dim (some a) (some b) k

/-- The positions of the final index. -/
def finalPositions (dim : Nat) : Final → List Nat
  | .all => List.range dim
  | .zero => [0]
  | .same start stop step => slicePositions dim start stop (step.getD 1)

theorem sliceBound_some (dim : Nat) (d : Int) (i : Nat) (hi : i ≤ dim) : sliceBound dim d 0 dim (some i) = i := by
  simp only [sliceBound]
  omega

theorem pick_range {β : Type _} (l : List β) : pick l (List.range l.length) = l := by
  unfold pick
  apply List.ext_getElem?
  intro i
  have : (List.range l.length).filterMap (fun p => l[p]?) = (List.finRange l.length).map (fun p => l[p]) := by
    rw [← List.map_coe_finRange_eq_range, List.filterMap_map, ← List.filterMap_eq_map]
    apply List.filterMap_congr
    intro p _
    simp
  rw [this]
  by_cases h : i < l.length
  · simp [h]
  · simp [h]

/-- **C67.** For a proxy array of any number of dimensions: the pair of indices computed for an index selects, in every
dimension, the same positions in two steps as the index in one. -/
theorem C67_two_steps (dim : Nat) (i : Idx) (s : Sl) (f : Final) (h : toSlice dim i = .ok (s, f)) :
    pick (slPositions dim s) (finalPositions (slPositions dim s).length f) = idxPositions dim i := by
  cases i with
  | slice start stop step =>
    simp only [toSlice] at h
    split at h
    · rename_i hc
      injection h with h
      simp only [Prod.mk.injEq] at h
      obtain ⟨rfl, rfl⟩ := h
      have hs : 0 < step.getD 1 := by
        rcases hc with h | h
        · rw [h]; simp
        · exact h
      simp only [finalPositions, pick_range, idxPositions, slPositions]
      obtain ⟨l1, l2⟩ := sliceBound_mem dim 0 (by omega) start
      obtain ⟨u1, u2⟩ := sliceBound_mem dim dim (by omega) stop
      obtain ⟨lo, hlo⟩ := Int.eq_ofNat_of_zero_le l1
      obtain ⟨hi, hhi⟩ := Int.eq_ofNat_of_zero_le u1
      rw [bound_start, bound_stop, hlo, hhi, slicePositions_up dim start stop _ hs lo hi hlo hhi]
      apply slicePositions_up dim _ _ _ hs lo hi
      · apply sliceBound_some; omega
      · apply sliceBound_some; omega
    · injection h with h
      simp only [Prod.mk.injEq] at h
      obtain ⟨rfl, rfl⟩ := h
      simp only [finalPositions, slPositions, idxPositions, List.length_range]
      unfold pick
      have : ∀ p ∈ slicePositions dim start stop (step.getD 1), p < dim := by
        intro p hp
        unfold slicePositions at hp
        split at hp
        · exact List.mem_range.1 (List.mem_filter.1 hp).1
        · exact List.mem_range.1 (List.mem_filter.1 (List.mem_reverse.1 hp)).1
      calc (slicePositions dim start stop (step.getD 1)).filterMap (fun p => (List.range dim)[p]?)
          = (slicePositions dim start stop (step.getD 1)).filterMap some := by
            apply List.filterMap_congr
            intro p hp
            simp [this p hp]
        _ = _ := List.filterMap_some
  | num q =>
    simp only [toSlice] at h
    split at h
    · by_cases hc : 0 ≤ (if q.num < 0 then q.num + dim else q.num) ∧ (if q.num < 0 then q.num + dim else q.num) < (dim : Int)
      · rw [if_pos hc] at h
        injection h with h
        simp only [Prod.mk.injEq] at h
        obtain ⟨rfl, rfl⟩ := h
        simp only [finalPositions, slPositions, idxPositions]
        obtain ⟨p, hp⟩ := Int.eq_ofNat_of_zero_le hc.1
        have hlt : p < dim := by have := hc.2; rw [hp] at this; omega
        have hint : intPosition dim q.num = some p := by
          unfold intPosition
          split at hp
          · rw [if_neg (by omega), if_pos (by omega)]
            congr 1
            omega
          · rw [if_pos (by omega)]
            congr 1
            omega
        rw [hint, hp]
        have e := slicePositions_up dim (some p) (some ((p : Int) + 1)) 1 (by omega) p (p + 1)
          (sliceBound_some dim 0 p hlt.le) (by
            have := sliceBound_some dim dim (p + 1) hlt
            simpa using this)
        rw [e]
        simp [pick]
      · rw [if_neg hc] at h
        simp at h
    · simp at h

/-- **C67.** The same for the whole tuple: dimensions without index are taken whole. -/
theorem C67_dimensions (index : List Idx) (shape : List Nat) (ss : List Sl) (fs : List Final)
    (h : pureSliceIndex index shape = .ok (ss, fs)) :
    ss.length = shape.length ∧ fs.length = shape.length ∧
    ∀ (k dim : Nat), shape[k]? = some dim → ∃ s f, ss[k]? = some s ∧ fs[k]? = some f ∧
      toSlice dim (index.getD k (.slice none none none)) = .ok (s, f) := by
  unfold pureSliceIndex at h
  split at h
  · simp at h
  · rename_i hlen
    simp only at h
    have key : ∀ (is : List Idx) (ns : List Nat) ps, is.length = ns.length → toSlices is ns = .ok ps → ps.length = ns.length ∧
        ∀ (k dim : Nat), ns[k]? = some dim → ∃ p i, is[k]? = some i ∧ ps[k]? = some p ∧ toSlice dim i = .ok p := by
      intro is
      induction is with
      | nil =>
        intro ns ps hl hps
        cases ns with
        | nil =>
          simp only [toSlices, Except.ok.injEq] at hps
          subst hps
          simp
        | cons n ns => simp at hl
      | cons i is ih =>
        intro ns ps hl hps
        cases ns with
        | nil => simp at hl
        | cons n ns =>
          rw [toSlices] at hps
          cases hp : toSlice n i with
          | error e => rw [hp] at hps; simp at hps
          | ok p =>
          rw [hp] at hps
          simp only at hps
          cases hq : toSlices is ns with
          | error e => rw [hq] at hps; simp at hps
          | ok qs =>
          rw [hq] at hps
          simp only [Except.ok.injEq] at hps
          subst hps
          obtain ⟨h1, h2⟩ := ih ns qs (by simpa using hl) hq
          refine ⟨by simp [h1], ?_⟩
          intro k dim hk
          cases k with
          | zero =>
            simp only [List.getElem?_cons_zero, Option.some.injEq] at hk
            subst hk
            exact ⟨p, i, rfl, rfl, hp⟩
          | succ k => exact h2 k dim (by simpa using hk)
    cases hps : toSlices (index ++ List.replicate (shape.length - index.length) (.slice none none none)) shape with
    | error e => rw [hps] at h; simp at h
    | ok ps =>
    rw [hps] at h
    obtain ⟨h1, h2⟩ := key _ _ ps (by simp; omega) hps
    cases ps with
    | nil => simp at h
    | cons p ps =>
    simp only [Except.ok.injEq, Prod.mk.injEq] at h
    obtain ⟨rfl, rfl⟩ := h
    refine ⟨by rw [List.length_map]; exact h1, by rw [List.length_map]; exact h1, ?_⟩
    intro k dim hk
    obtain ⟨q, i, e1, e2, e3⟩ := h2 k dim hk
    refine ⟨q.1, q.2, by rw [List.getElem?_map, e2]; rfl, by rw [List.getElem?_map, e2]; rfl, ?_⟩
    have : index.getD k (.slice none none none) = i := by
      rw [List.getD_eq_getElem?_getD]
      by_cases hki : k < index.length
      · rw [List.getElem?_append_left hki] at e1
        rw [e1]; rfl
      · rw [List.getElem?_append_right (by omega)] at e1
        rw [List.getElem?_eq_none (by omega)]
        rw [List.getElem?_replicate] at e1
        split at e1
        · injection e1
        · simp at e1
    rw [this]
    exact e3

/-- **C67.** It raises in no other case than these: more indices than dimensions or an integer out of range (IndexError),
a number that is not an integer (TypeError), an array of no dimension (ValueError). -/
theorem C67_raises (index : List Idx) (shape : List Nat) (e : Err) (h : pureSliceIndex index shape = .error e) :
    (e = .index ∧ shape.length < index.length) ∨
    (e = .index ∧ ∃ (k dim : Nat) (i : Int), shape[k]? = some dim ∧ index[k]? = some (.num i) ∧ intPosition dim i = none) ∨
    (e = .type ∧ ∃ (k : Nat) (q : ℚ), index[k]? = some (.num q) ∧ ∀ i : Int, q ≠ i) ∨
    (e = .value ∧ shape = []) := by
  unfold pureSliceIndex at h
  split at h
  · rename_i hl
    injection h with h
    exact .inl ⟨h.symm, hl⟩
  · rename_i hlen
    simp only at h
    have key : ∀ (is : List Idx) (ns : List Nat) e, toSlices is ns = .error e →
        ∃ (k dim : Nat) (i : Idx), ns[k]? = some dim ∧ is[k]? = some i ∧ toSlice dim i = .error e := by
      intro is
      induction is with
      | nil => intro ns e h; simp [toSlices] at h
      | cons i is ih =>
        intro ns e h
        cases ns with
        | nil => simp [toSlices] at h
        | cons n ns =>
          rw [toSlices] at h
          cases hp : toSlice n i with
          | error e' =>
            rw [hp] at h
            injection h with h
            subst h
            exact ⟨0, n, i, rfl, rfl, hp⟩
          | ok p =>
            rw [hp] at h
            simp only at h
            cases hq : toSlices is ns with
            | error e' =>
              rw [hq] at h
              injection h with h
              subst h
              obtain ⟨k, dim, i', h1, h2, h3⟩ := ih ns _ hq
              exact ⟨k + 1, dim, i', h1, h2, h3⟩
            | ok qs => rw [hq] at h; simp at h
    cases hps : toSlices (index ++ List.replicate (shape.length - index.length) (.slice none none none)) shape with
    | error e' =>
      rw [hps] at h
      injection h with h
      subst h
      obtain ⟨k, dim, i, h1, h2, h3⟩ := key _ _ _ hps
      right
      cases i with
      | slice a b c =>
        simp only [toSlice] at h3
        split at h3 <;> simp at h3
      | num q =>
        have hidx : index[k]? = some (.num q) := by
          by_cases hki : k < index.length
          · rwa [List.getElem?_append_left hki] at h2
          · rw [List.getElem?_append_right (by omega), List.getElem?_replicate] at h2
            split at h2 <;> simp at h2
        simp only [toSlice] at h3
        by_cases hd : q.den = 1
        · rw [if_pos hd] at h3
          by_cases hc : 0 ≤ (if q.num < 0 then q.num + dim else q.num) ∧ (if q.num < 0 then q.num + dim else q.num) < (dim : Int)
          · rw [if_pos hc] at h3
            simp at h3
          · rw [if_neg hc] at h3
            injection h3 with h3
            left
            refine ⟨h3.symm, k, dim, q.num, h1, ?_, ?_⟩
            · rw [hidx, (Rat.den_eq_one_iff q).1 hd]
            · unfold intPosition
              rw [if_neg, if_neg]
              · rintro ⟨h4, h5⟩
                apply hc
                rw [if_pos h4]
                omega
              · rintro ⟨h4, h5⟩
                apply hc
                rw [if_neg (by omega)]
                exact ⟨h4, h5⟩
        · rw [if_neg hd] at h3
          injection h3 with h3
          right; left
          refine ⟨h3.symm, k, q, hidx, ?_⟩
          rintro i rfl
          exact hd (Rat.den_intCast _)
    | ok ps =>
      rw [hps] at h
      cases ps with
      | cons p ps => simp at h
      | nil =>
        injection h with h
        right; right; right
        refine ⟨h.symm, ?_⟩
        cases hsh : shape with
        | nil => rfl
        | cons n ns =>
          exfalso
          rw [hsh] at hps hlen
          cases hi : index ++ List.replicate ((n :: ns).length - index.length) (Idx.slice none none none) with
          | nil =>
            have := congrArg List.length hi
            simp only [List.length_append, List.length_replicate, List.length_nil] at this
            simp only [List.length_cons] at this hlen
            omega
          | cons i is =>
            rw [hi, toSlices] at hps
            split at hps
            · simp at hps
            · split at hps <;> simp at hps

/-! C68 -/

/-- **C68.** However the array is cut into consecutive chunks, reading them and concatenating gives all the values. -/
theorem C68_chunks (fs : Fs) (a : FileArr ν) (bytes : List UInt8) (h : Holds fs a bytes) (chunks : List Nat)
    (hc : chunks.sum = a.size) : compute fs a 0 chunks = .ok (values a bytes) := by
  have key : ∀ (cs : List Nat) (s : Nat), s + cs.sum = a.size → compute fs a s cs =
      .ok ((List.range' s cs.sum).map (fun p => a.dec ((bytes.drop (a.offset.toNat + a.itemsize * p)).take a.itemsize))) := by
    intro cs
    induction cs with
    | nil => intro s _; rfl
    | cons c cs ih =>
      intro s hs
      rw [List.sum_cons] at hs
      have hlo := sliceBound_some a.size 0 s (by omega)
      have hhi := sliceBound_some a.size a.size (s + c) (by omega)
      rw [compute]
      have e : (s : Int) + c = ((s + c : Nat) : Int) := by omega
      rw [e, C67_slice fs a bytes h (some s) (some ((s + c : Nat) : Int)) (some 1) (by simp) (by rw [hlo, hhi]; omega)]
      have hp := slicePositions_up a.size (some s) (some ((s + c : Nat) : Int)) 1 (by omega) s (s + c) hlo hhi
      have hp' : slicePositions a.size (some s) (some ((s + c : Nat) : Int)) 1 = List.range' s c := by
        rw [hp, List.filter_eq_self.2 (by intro i _; simp [Nat.mod_one]), Nat.add_sub_cancel_left, List.range'_eq_map_range]
      simp only [Option.getD_some]
      rw [hp', values, pick_items _ _ _ _ _ _ (by intro p hp; rw [List.mem_range'_1] at hp; omega), ih (s + c) (by omega)]
      simp only [List.sum_cons, Except.ok.injEq]
      rw [← List.map_append, List.range'_append_1]
  have := key chunks 0 (by omega)
  rw [hc, ← List.range_eq_range'] at this
  exact this

/-! C69 -/

/-- **C69.** A file array can be made exactly if the file exists, something is asked for and there is at least one
complete item after the offset; its size is then what is asked for or, if less, the number of complete items. -/
theorem C69_open (fs : Fs) (path : String) (offset size : Int) (w : Nat) (hw : 0 < w) (dec : List UInt8 → ν) :
    (fs path = none → open1D fs path offset size w dec = .error .other) ∧
    ∀ bytes, fs path = some bytes →
      (∀ n : Nat, 0 < n → ((n : Int) = size ∧ offset + w * n ≤ bytes.length ∨
          (n : Int) < size ∧ offset + w * n ≤ bytes.length ∧ (bytes.length : Int) < offset + w * (n + 1)) →
        open1D fs path offset size w dec = .ok ⟨path, offset, n, w, dec⟩) ∧
      (size ≤ 0 ∨ (bytes.length : Int) < offset + w → open1D fs path offset size w dec = .error .assertion) := by
  refine ⟨fun h => by unfold open1D; rw [h], ?_⟩
  intro bytes hb
  have hw' : (0 : Int) < w := by omega
  have hdiv : ∀ n : Int, n ≤ ((bytes.length : Int) - offset) / w ↔ offset + w * n ≤ bytes.length := by
    intro n
    rw [Int.le_ediv_iff_mul_le hw', Int.mul_comm]
    omega
  unfold open1D
  rw [hb]
  simp only
  constructor
  · intro n hn h
    have hsz : (if ((bytes.length : Int) - offset) / w < size then ((bytes.length : Int) - offset) / w else size) = n := by
      rcases h with ⟨h1, h2⟩ | ⟨h1, h2, h3⟩
      · have := (hdiv n).2 h2
        rw [if_neg (by omega), h1]
      · have h4 := (hdiv n).2 h2
        have h5 : ¬ (n : Int) + 1 ≤ ((bytes.length : Int) - offset) / w := by rw [hdiv]; omega
        rw [if_pos (by omega)]
        omega
    rw [hsz, if_pos (by omega)]
    rfl
  · intro h
    rw [if_neg]
    rcases h with h | h
    · split <;> omega
    · have h5 : ¬ (1 : Int) ≤ ((bytes.length : Int) - offset) / w := by rw [hdiv]; omega
      split <;> omega

/-- **C69.** What is made, from a non-negative offset, is held by the file. -/
theorem C69_holds (fs : Fs) (path : String) (offset size : Int) (w : Nat) (hw : 0 < w) (hoff : 0 ≤ offset) (dec : List UInt8 → ν)
    (a : FileArr ν) (h : open1D fs path offset size w dec = .ok a) :
    0 < a.size ∧ a.size ≤ size ∧ ∃ bytes, Holds fs a bytes ∧ (a.size < size → bytes.length < a.offset + w * (a.size + 1)) := by
  unfold open1D at h
  cases hb : fs path with
  | none => rw [hb] at h; simp at h
  | some bytes =>
  rw [hb] at h
  simp only at h
  have hw' : (0 : Int) < w := by omega
  have hdiv : ∀ n : Int, n ≤ ((bytes.length : Int) - offset) / w ↔ offset + w * n ≤ bytes.length := by
    intro n
    rw [Int.le_ediv_iff_mul_le hw', Int.mul_comm]
    omega
  generalize hn : (if ((bytes.length : Int) - offset) / w < size then ((bytes.length : Int) - offset) / w else size) = n at h
  split at h
  · rename_i hpos
    injection h with h
    subst h
    obtain ⟨n, rfl⟩ := Int.eq_ofNat_of_zero_le hpos.le
    simp only [Int.toNat_natCast]
    have h1 : (n : Int) ≤ size ∧ (n : Int) ≤ ((bytes.length : Int) - offset) / w := by split at hn <;> omega
    have h2 := (hdiv n).1 h1.2
    refine ⟨by omega, h1.1, bytes, ⟨hb, hoff, hw, ?_⟩, ?_⟩
    · zify
      simp only [Int.toNat_of_nonneg hoff]
      exact h2
    · intro hlt
      have h5 : ¬ (n : Int) + 1 ≤ ((bytes.length : Int) - offset) / w := by split at hn <;> omega
      rw [hdiv] at h5
      omega
  · simp at h

/-- **C69.** If the file has changed since, a read never comes short: a slice is read exactly if all the bytes up to its
stop are still there, else an exception is raised. -/
theorem C69_short_read_raises (fs : Fs) (a : FileArr ν) (bytes : List UInt8) (hfs : fs a.path = some bytes) (hoff : 0 ≤ a.offset)
    (hw : 0 < a.itemsize) (start stop step : Option Int) (hs : 0 < step.getD 1)
    (hext : sliceBound a.size 0 0 a.size start < sliceBound a.size a.size 0 a.size stop) :
    (a.offset + a.itemsize * sliceBound a.size a.size 0 a.size stop ≤ bytes.length →
      ∃ l, getItem fs a [.slice start stop step] = .ok (.array l) ∧
        l.length = (slicePositions a.size start stop (step.getD 1)).length) ∧
    ((bytes.length : Int) < a.offset + a.itemsize * sliceBound a.size a.size 0 a.size stop →
      getItem fs a [.slice start stop step] = .error .other) := by
  obtain ⟨l1, l2⟩ := sliceBound_mem a.size 0 (by omega) start
  obtain ⟨u1, u2⟩ := sliceBound_mem a.size a.size (by omega) stop
  obtain ⟨lo, hlo⟩ := Int.eq_ofNat_of_zero_le l1
  obtain ⟨hi, hhi⟩ := Int.eq_ofNat_of_zero_le u1
  rw [hlo, hhi] at hext
  have e : (hi : Int) - lo = ((hi - lo : Nat) : Int) := by omega
  have h1 : a.itemsize * lo + a.itemsize * (hi - lo) = a.itemsize * hi := by
    rw [← Nat.mul_add]; congr 1; omega
  have hlen := fromfile_length a.itemsize hw a.dec bytes (a.offset.toNat + a.itemsize * lo) (hi - lo)
  have hcast : a.offset + a.itemsize * (hi : Int) = ((a.offset.toNat + a.itemsize * hi : Nat) : Int) := by
    push_cast
    omega
  rw [getItem_up fs a bytes hfs hoff start stop step hs lo hi hlo hhi, hhi, hcast]
  simp only [e]
  constructor
  · intro hle
    have hle' : a.offset.toNat + a.itemsize * lo + a.itemsize * (hi - lo) ≤ bytes.length := by omega
    rw [fromfile_ok _ hw _ _ _ _ hle', if_neg (by simp), stride_map_range (by omega),
      slicePositions_up a.size start stop _ hs lo hi hlo hhi]
    exact ⟨_, rfl, by simp⟩
  · intro hlt
    rw [if_pos]
    intro hc
    rcases hlen.1 (by exact_mod_cast hc) with h | h
    · omega
    · omega

/-! An eleven byte file: offset 2, items of two bytes, five asked for, four complete. -/

def exFile : List UInt8 := [9, 9, 1, 0, 2, 0, 3, 0, 4, 1, 7]
def exFs : Fs := fun p => if p = "x" then some exFile else none
def exDec (l : List UInt8) : Nat := (l.getD 0 0).toNat + 256 * (l.getD 1 0).toNat
def exArr : FileArr Nat := ⟨"x", 2, 4, 2, exDec⟩

example : open1D exFs "x" 2 5 2 exDec = .ok exArr := (((C69_open exFs "x" 2 5 2 (by decide) exDec).2 exFile rfl).1 4 (by decide)
  (.inr ⟨by decide, by decide, by decide⟩))
example : (match open1D exFs "x" 10 5 2 exDec with | .ok _ => false | .error e => decide (e = .assertion)) = true := by decide +kernel

theorem exHolds : Holds exFs exArr exFile := ⟨rfl, by decide, by decide, by decide⟩

example : values exArr exFile = [1, 2, 3, 260] := by decide +kernel
example : getItem exFs exArr [.slice (some (-3)) none (some 2)] = .ok (.array [2, 260]) :=
  (C67_slice exFs exArr exFile exHolds _ _ _ (by decide) (by decide)).trans (by decide +kernel)
example : getItem exFs exArr [.num (-1)] = .ok (.scalar 260) := by
  obtain ⟨x, h1, h2⟩ := (C67_int exFs exArr exFile exHolds (-1)).1 (-1) 3 (by norm_num) (by decide)
  rw [h2]
  have : (values exArr exFile)[3]? = some 260 := by decide +kernel
  rw [this] at h1
  injection h1 with h1
  rw [h1]
example : intPosition exArr.size 4 = none := by decide
example : sliceBound exArr.size exArr.size 0 exArr.size (some 1) < sliceBound exArr.size 0 0 exArr.size (some 3) := by decide
example : slicePositions 4 (some 3) (some 0) (-2) = [3, 1] := by decide +kernel
example : pureSliceIndex [.num (-1), .slice (some 1) none none] [3, 4, 5] =
    .ok ([.mk 2 3 1, .mk 1 4 1, .mk 0 5 1], [.zero, .all, .all]) := by decide +kernel
example : [1, 0, 3].sum = exArr.size := rfl
/-- A file that has lost its last three bytes. -/
example : (9 - 1 : Int) < exArr.offset + exArr.itemsize * sliceBound exArr.size exArr.size 0 exArr.size none := by decide

end Razorback.Props
