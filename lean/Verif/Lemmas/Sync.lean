/- Lemmas about `SyncSignal`. -/
import Verif.Spec.Sync
import Verif.Lemmas.Py
import Mathlib.Tactic.Ring
import Mathlib.Tactic.Linarith
import Mathlib.Tactic.FieldSimp
import Mathlib.Tactic.Positivity

namespace Razorback
open Spec
variable {α β κ : Type _}

theorem dedup_eq_nil [DecidableEq α] {l : List α} : dedup l = [] ↔ l = [] := by
  constructor
  · intro h
    cases l with
    | nil => rfl
    | cons a l =>
      have : a ∈ dedup (a :: l) := mem_dedup.2 (by simp)
      rw [h] at this; simp at this
  · rintro rfl; rfl

theorem dedup_eq_singleton [DecidableEq α] {l : List α} {a : α} :
    dedup l = [a] ↔ l ≠ [] ∧ ∀ x ∈ l, x = a := by
  constructor
  · intro h
    refine ⟨?_, ?_⟩
    · rintro rfl; simp [dedup] at h
    · intro x hx
      have := mem_dedup.2 hx
      rw [h] at this; simpa using this
  · rintro ⟨h1, h2⟩
    have h3 : ∀ x ∈ dedup l, x = a := fun x hx => h2 x (mem_dedup.1 hx)
    have h4 := nodup_dedup l
    have h5 : dedup l ≠ [] := fun h => h1 (dedup_eq_nil.1 h)
    match hd : dedup l with
    | [] => exact absurd hd h5
    | [x] => rw [h3 x (by simp [hd])]
    | x :: y :: r =>
      have hx := h3 x (by simp [hd])
      have hy := h3 y (by simp [hd])
      rw [hd, hx, hy] at h4
      simp at h4

theorem pyBound_nat (n i : Nat) : pyBound n (i : Int) = min i n := by
  unfold pyBound
  rw [if_neg (by omega)]; simp

theorem pySlice_nat (l : List α) (i j : Nat) :
    pySlice l i j = (l.drop (min i l.length)).take (min j l.length - min i l.length) := by
  unfold pySlice; rw [pyBound_nat, pyBound_nat]

theorem pyGet_nat {l : List α} {i : Nat} {a : α} : pyGet l (i : Int) = .ok a ↔ l[i]? = some a := by
  unfold pyGet
  have h1 : ¬ ((i : Int) < 0) := by omega
  simp only [h1, if_false, Int.toNat_natCast]
  cases h : l[i]? <;> simp

theorem pyGet_nat_eq {l : List α} {i : Nat} (h : i < l.length) : pyGet l (i : Int) = .ok l[i] :=
  pyGet_nat.2 (List.getElem?_eq_getElem h)

theorem pyGet_ok {l : List α} {i : Int} {a : α} :
    pyGet l i = .ok a ↔ ∃ k : Nat, (i = k ∨ i = (k : Int) - l.length) ∧ l[k]? = some a := by
  unfold pyGet
  by_cases h0 : i < 0
  · simp only [h0, if_true]
    by_cases h1 : i + (l.length : Int) < 0
    · simp only [h1, if_true, reduceCtorEq, false_iff, not_exists, not_and]
      intro k hk; omega
    · simp only [h1, if_false]
      constructor
      · intro h
        split at h
        · rename_i b hb
          simp only [Except.ok.injEq] at h; subst h
          exact ⟨_, Or.inr (by omega), hb⟩
        · simp at h
      · rintro ⟨k, hk, ha⟩
        have : (i + (l.length : Int)).toNat = k := by omega
        rw [this, ha]
  · simp only [h0, if_false]
    constructor
    · intro h
      split at h
      · rename_i b hb
        simp only [Except.ok.injEq] at h; subst h
        exact ⟨_, Or.inl (by omega), hb⟩
      · simp at h
    · rintro ⟨k, hk, ha⟩
      have hlt : k < l.length := by
        by_contra hc
        rw [List.getElem?_eq_none (by omega)] at ha; simp at ha
      have : i.toNat = k := by omega
      rw [this, ha]

theorem mapE_pyGet {l : List α} {n : Nat} (hl : l.length = n) {indices : List Int}
    (hall : ∀ i ∈ indices, -(n : Int) ≤ i ∧ i < n) : ∃ r, mapE (pyGet l) indices = .ok r := by
  cases hr : mapE (pyGet l) indices with
  | ok r => exact ⟨r, rfl⟩
  | error e =>
    obtain ⟨i, hi, he⟩ := mapE_error hr
    have := hall i hi
    exfalso
    by_cases h0 : i < 0
    · have hlt : (i + l.length).toNat < l.length := by omega
      rw [pyGet_ok.2 ⟨_, Or.inr (by omega), List.getElem?_eq_getElem hlt⟩] at he
      simp at he
    · have hlt : i.toNat < l.length := by omega
      rw [pyGet_ok.2 ⟨_, Or.inl (by omega), List.getElem?_eq_getElem hlt⟩] at he
      simp at he

namespace Sync

theorem new_eq [One κ] {data : List (List α)} {rate start : ℚ} {cals : List κ} {n : Nat}
    (h1 : data ≠ []) (h2 : ∀ d ∈ data, d.length = n) (h3 : cals.length = data.length) :
    new data rate start cals = .ok { data := data, cals := cals, rate := rate, start := start, size := n } := by
  unfold new
  cases cals with
  | nil =>
    have : data = [] := by simpa using h3.symm
    exact absurd this h1
  | cons c cs =>
    have : dedup (data.map List.length) = [n] := by
      rw [dedup_eq_singleton]
      refine ⟨by simpa using h1, ?_⟩
      simpa using h2
    simp only
    rw [if_pos h3.symm, this]

theorem new_nil_eq [One κ] {data : List (List α)} {rate start : ℚ} {n : Nat}
    (h1 : data ≠ []) (h2 : ∀ d ∈ data, d.length = n) :
    new data rate start ([] : List κ) =
      .ok { data := data, cals := List.replicate data.length 1, rate := rate, start := start, size := n } := by
  unfold new
  have : dedup (data.map List.length) = [n] := by
    rw [dedup_eq_singleton]
    refine ⟨by simpa using h1, ?_⟩
    simpa using h2
  simp [this]

theorem new_ok [One κ] {data : List (List α)} {rate start : ℚ} {cals : List κ} {s : Sync α κ}
    (h : new data rate start cals = .ok s) :
    WF s ∧ s.data = data ∧ s.rate = rate ∧ s.start = start ∧
      s.cals = (if cals = [] then List.replicate data.length 1 else cals) ∧
      (cals = [] ∨ cals.length = data.length) := by
  unfold new at h
  have key : ∀ cs : List κ, (if data.length = cs.length then
      match dedup (data.map List.length) with
      | [n] => (.ok { data := data, cals := cs, rate := rate, start := start, size := n } : Except Err (Sync α κ))
      | _ => .error .assertion
      else .error .assertion) = .ok s →
      WF s ∧ s.data = data ∧ s.rate = rate ∧ s.start = start ∧ s.cals = cs ∧ cs.length = data.length := by
    intro cs h
    split at h
    · rename_i hl
      split at h
      · rename_i n hd
        simp at h
        subst h
        rw [dedup_eq_singleton] at hd
        refine ⟨⟨by simpa using hd.1, hl.symm, by simpa using hd.2⟩, rfl, rfl, rfl, rfl, hl.symm⟩
      · simp at h
    · simp at h
  cases cals with
  | nil =>
    obtain ⟨a, b, c, d, e, f⟩ := key _ h
    exact ⟨a, b, c, d, by simpa using e, Or.inl rfl⟩
  | cons x xs =>
    obtain ⟨a, b, c, d, e, f⟩ := key _ h
    exact ⟨a, b, c, d, by simpa using e, Or.inr f⟩

theorem new_error [One κ] {data : List (List α)} {rate start : ℚ} {cals : List κ} {e : Err}
    (h : new data rate start cals = .error e) : e = .assertion := by
  unfold new at h
  have key : ∀ cs : List κ, (if data.length = cs.length then
      match dedup (data.map List.length) with
      | [n] => (.ok { data := data, cals := cs, rate := rate, start := start, size := n } : Except Err (Sync α κ))
      | _ => .error .assertion
      else .error .assertion) = .error e → e = .assertion := by
    intro cs h
    split at h
    · split at h
      · simp at h
      · simp at h; exact h.symm
    · simp at h; exact h.symm
  cases cals <;> exact key _ h

theorem stop_eq (s : Sync α κ) (h : s.rate ≠ 0) : s.stop = .ok (lastTime s) := by
  unfold stop indexToTime lastTime
  simp only [h, if_false]
  by_cases h0 : s.size = 0
  · simp [h0]
  · have h1 : ¬ ((s.size : Int) - 1 < 0) := by omega
    simp only [h1, if_false]
    push_cast
    rfl

theorem stop_ok {s : Sync α κ} {t : ℚ} (h : s.stop = .ok t) : s.rate ≠ 0 ∧ t = lastTime s := by
  have hr : s.rate ≠ 0 := by
    intro h0
    unfold stop indexToTime at h
    simp [h0] at h
  rw [stop_eq s hr] at h
  simp at h
  exact ⟨hr, h.symm⟩

theorem interval_ok {s : Sync α κ} {i : ℚ × ℚ} (h : s.interval = .ok i) :
    s.rate ≠ 0 ∧ i = (s.start, lastTime s) := by
  unfold interval at h
  cases h' : s.stop with
  | error e => simp [h'] at h
  | ok t =>
    simp [h'] at h
    obtain ⟨h1, h2⟩ := stop_ok h'
    exact ⟨h1, by rw [← h, h2]⟩

theorem interval_eq (s : Sync α κ) (h : s.rate ≠ 0) : s.interval = .ok (s.start, lastTime s) := by
  unfold interval; rw [stop_eq s h]

theorem start_le_lastTime {s : Sync α κ} (hr : 0 < s.rate) (hs : 0 < s.size) : s.start ≤ lastTime s := by
  unfold lastTime
  have : (1 : ℚ) ≤ s.size := by exact_mod_cast hs
  have : 0 ≤ ((s.size : ℚ) - 1) / s.rate := div_nonneg (by linarith) hr.le
  linarith

/-- The sub-signal made of `m` samples from sample `k`. -/
def cut (s : Sync α κ) (k m : Nat) : Sync α κ :=
  { data := s.data.map (fun d => (d.drop k).take m), cals := s.cals, rate := s.rate,
    start := sampleTime s.rate s.start k, size := m }

theorem cut_wf {s : Sync α κ} (h : WF s) {k m : Nat} (hm : k + m ≤ s.size) : WF (s.cut k m) := by
  refine ⟨by simpa [cut] using h.nonempty, by simpa [cut] using h.cals, ?_⟩
  simp only [cut, List.mem_map, forall_exists_index, and_imp, forall_apply_eq_imp_iff₂]
  intro d hd
  simp [h.rect d hd]; omega

theorem indexToTime_nat {s : Sync α κ} (hr : s.rate ≠ 0) (i : Nat) :
    s.indexToTime (i : Int) = .ok (sampleTime s.rate s.start i) := by
  unfold indexToTime sampleTime
  have : ¬ ((i : Int) < 0) := by omega
  simp [this, hr]

theorem extractI_nat [One κ] {s : Sync α κ} (h : WF s) (hr : s.rate ≠ 0) {i j : Nat} (hi : i ≤ s.size) :
    s.extractI (some (i : Int)) (some (j : Int)) false false = .ok (s.cut i (min j s.size - i)) := by
  unfold extractI
  simp only [Bool.false_and, Option.getD_some, Option.map_some, indexToTime_nat hr,
    Bool.false_eq_true, if_false]
  have hd : s.data.map (fun e => pySlice e (i : Int) (j : Int)) =
      s.data.map (fun d => (d.drop i).take (min j s.size - i)) := by
    refine List.map_congr_left ?_
    intro d hd
    rw [pySlice_nat, h.rect d hd, Nat.min_eq_left hi]
  rw [hd]
  refine new_eq (by simpa using h.nonempty) ?_ (by simpa using h.cals)
  simp only [List.mem_map, forall_exists_index, and_imp, forall_apply_eq_imp_iff₂]
  intro d hd
  simp [h.rect d hd]; omega

theorem extractI_strict [One κ] {s : Sync α κ} (h : WF s) (hr : s.rate ≠ 0) {i j : Int}
    (h1 : 0 ≤ i) (h2 : i < s.size) (h3 : 0 ≤ j) (h4 : j ≤ s.size) :
    s.extractI (some i) (some j) true false = .ok (s.cut i.toNat (j.toNat - i.toNat)) := by
  have := extractI_nat (i := i.toNat) (j := j.toNat) h hr (by omega)
  rw [Nat.min_eq_left (by omega), Int.toNat_of_nonneg h1, Int.toNat_of_nonneg h3] at this
  rw [← this]
  unfold extractI
  simp [h1, h2, h3, h4]

end Sync

/-! ### timed samples -/

theorem sampleTime_add (rate start : ℚ) (k i : Nat) :
    sampleTime rate (sampleTime rate start k) i = sampleTime rate start (k + i) := by
  unfold sampleTime; push_cast; ring

theorem length_timed (rate start : ℚ) (d : List α) : (timed rate start d).length = d.length := by
  simp [timed]

theorem getElem?_timed (rate start : ℚ) (d : List α) (i : Nat) :
    (timed rate start d)[i]? = d[i]?.map (fun x => (sampleTime rate start i, x)) := by
  simp [timed, List.getElem?_map, List.getElem?_zipIdx, Function.comp_def]

theorem timed_cut (rate start : ℚ) (d : List α) (k m : Nat) :
    timed rate (sampleTime rate start k) ((d.drop k).take m) = ((timed rate start d).drop k).take m := by
  apply List.ext_getElem?
  intro i
  rw [getElem?_timed, List.getElem?_take, List.getElem?_take]
  by_cases h : i < m
  · simp only [h, if_true, List.getElem?_drop, getElem?_timed, sampleTime_add]
  · simp [h]

theorem timed_append (rate start : ℚ) (d e : List α) :
    timed rate start (d ++ e) = timed rate start d ++ timed rate (sampleTime rate start d.length) e := by
  apply List.ext_getElem?
  intro i
  rw [getElem?_timed, List.getElem?_append, List.getElem?_append, length_timed]
  by_cases h : i < d.length
  · simp [h, getElem?_timed]
  · simp only [h, if_false, getElem?_timed, sampleTime_add]
    rw [Nat.add_sub_cancel' (by omega)]

theorem timed_map_snd (rate start : ℚ) (d : List α) : (timed rate start d).map (·.2) = d := by
  simp only [timed, List.map_map]
  exact List.zipIdx_map_fst 0 d

/-- A filter that keeps exactly the positions `k ≤ i < k + m`. -/
theorem filter_eq_cut (l : List β) (P : β → Bool) (k m : Nat)
    (h : ∀ i, (hi : i < l.length) → (P l[i] = true ↔ k ≤ i ∧ i < k + m)) :
    l.filter P = (l.drop k).take m := by
  induction l generalizing k m with
  | nil => simp
  | cons a l ih =>
    have h0 := h 0 (by simp)
    simp only [List.getElem_cons_zero] at h0
    have hs : ∀ i, (hi : i < l.length) → (P l[i] = true ↔ k ≤ i + 1 ∧ i + 1 < k + m) := by
      intro i hi
      have := h (i + 1) (by simp; omega)
      simpa using this
    cases k with
    | zero =>
      cases m with
      | zero =>
        rw [List.filter_cons, if_neg (by rw [h0]; omega), ih 0 0 (by intro i hi; rw [hs i hi]; omega)]
        simp
      | succ m =>
        rw [List.filter_cons, if_pos (by rw [h0]; omega), ih 0 m (by intro i hi; rw [hs i hi]; omega)]
        simp
    | succ k =>
      rw [List.filter_cons, if_neg (by rw [h0]; omega), ih k m (by intro i hi; rw [hs i hi]; omega)]
      simp

theorem sampleTime_mono {rate : ℚ} (hr : 0 < rate) (start : ℚ) {i j : Nat} :
    sampleTime rate start i ≤ sampleTime rate start j ↔ i ≤ j := by
  unfold sampleTime
  rw [add_le_add_iff_left, div_le_div_iff_of_pos_right hr]
  exact_mod_cast Iff.rfl

theorem sampleTime_strictMono {rate : ℚ} (hr : 0 < rate) (start : ℚ) {i j : Nat} :
    sampleTime rate start i < sampleTime rate start j ↔ i < j := by
  rw [← not_le, sampleTime_mono hr, not_le]

namespace Sync

theorem lastTime_eq {s : Sync α κ} (hs : 0 < s.size) :
    lastTime s = sampleTime s.rate s.start (s.size - 1) := by
  unfold lastTime sampleTime
  have h : 1 ≤ s.size := hs
  push_cast [h]
  rfl

theorem ceil_le_iff {s : Sync α κ} (hr : 0 < s.rate) (t : ℚ) (i : Int) :
    s.timeToIndex t .right ≤ i ↔ t ≤ s.start + i / s.rate := by
  unfold timeToIndex
  rw [Rnd.rnd_exact, Rnd.rnd_exact, Int.ceil_le, ← sub_le_iff_le_add', le_div_iff₀ hr]

theorem le_floor_iff {s : Sync α κ} (hr : 0 < s.rate) (t : ℚ) (i : Int) :
    i ≤ s.timeToIndex t .left ↔ s.start + i / s.rate ≤ t := by
  unfold timeToIndex
  rw [Rnd.rnd_exact, Rnd.rnd_exact, Int.le_floor, ← le_sub_iff_add_le', div_le_iff₀ hr]

/-- `extract_t` is a cut between two natural indices characterised by time. -/
theorem extractT_cut [One κ] {s : Sync α κ} (h : WF s) (hr : 0 < s.rate) (hs : 0 < s.size) (a b : ℚ) :
    ∃ k m : Nat, k < s.size ∧ m < s.size ∧
      s.extractT a b false = .ok (s.cut k (m + 1 - k)) ∧
      (∀ i : Nat, k ≤ i ↔ min (lastTime s) (max s.start a) ≤ sampleTime s.rate s.start i) ∧
      (∀ i : Nat, i ≤ m ↔ sampleTime s.rate s.start i ≤ min (lastTime s) (max s.start b)) := by
  have hle := start_le_lastTime hr hs
  have hlast : (((s.size : Int) - 1 : Int) : ℚ) = (s.size : ℚ) - 1 := by push_cast; rfl
  have ha0 : s.start ≤ min (lastTime s) (max s.start a) := le_min hle (le_max_left _ _)
  have hb0 : s.start ≤ min (lastTime s) (max s.start b) := le_min hle (le_max_left _ _)
  have ha1 : min (lastTime s) (max s.start a) ≤ lastTime s := min_le_left _ _
  have hb1 : min (lastTime s) (max s.start b) ≤ lastTime s := min_le_left _ _
  generalize hA : min (lastTime s) (max s.start a) = A at *
  generalize hB : min (lastTime s) (max s.start b) = B at *
  have hk0 : 0 ≤ s.timeToIndex A .right := by
    unfold timeToIndex
    rw [Rnd.rnd_exact, Rnd.rnd_exact]
    exact Int.ceil_nonneg (mul_nonneg (by linarith) hr.le)
  have hk1 : s.timeToIndex A .right ≤ (s.size : Int) - 1 := by
    rw [ceil_le_iff hr, hlast]; exact ha1
  have hm0 : 0 ≤ s.timeToIndex B .left := by
    rw [le_floor_iff hr]; simpa using hb0
  have hm1 : s.timeToIndex B .left ≤ (s.size : Int) - 1 := by
    by_contra hc
    have hc' : (s.size : Int) ≤ s.timeToIndex B .left := by omega
    rw [le_floor_iff hr] at hc'
    have h3 : s.start + (s.size : ℚ) / s.rate ≤ lastTime s := by
      have : s.start + (((s.size : Int)) : ℚ) / s.rate ≤ lastTime s := le_trans hc' hb1
      exact_mod_cast this
    unfold lastTime at h3
    have : (s.size : ℚ) / s.rate ≤ ((s.size : ℚ) - 1) / s.rate := by linarith
    rw [div_le_div_iff_of_pos_right hr] at this
    linarith
  refine ⟨(s.timeToIndex A .right).toNat, (s.timeToIndex B .left).toNat, by omega, by omega, ?_, ?_, ?_⟩
  · have hx := extractI_nat (i := (s.timeToIndex A .right).toNat)
      (j := (s.timeToIndex B .left).toNat + 1) h hr.ne' (by omega)
    rw [Nat.min_eq_left (by omega)] at hx
    rw [← hx]
    unfold extractT
    rw [stop_eq s hr.ne']
    simp only [Bool.false_and, Bool.false_eq_true, if_false, hA, hB]
    unfold extractI
    have e1 : (((s.timeToIndex A .right).toNat : Nat) : Int) = s.timeToIndex A .right := by omega
    have e2 : (((s.timeToIndex B .left).toNat + 1 : Nat) : Int) = s.timeToIndex B .left + 1 := by omega
    rw [e1, e2]
    simp
  · intro i
    have := ceil_le_iff hr A (i : Int)
    rw [show (((i : Nat) : Int) : ℚ) = (i : ℚ) from by push_cast; rfl] at this
    unfold sampleTime
    rw [← this]; omega
  · intro i
    have := le_floor_iff hr B (i : Int)
    rw [show (((i : Nat) : Int) : ℚ) = (i : ℚ) from by push_cast; rfl] at this
    unfold sampleTime
    rw [← this]; omega

theorem start_le_sampleTime {s : Sync α κ} (hr : 0 < s.rate) (i : Nat) :
    s.start ≤ sampleTime s.rate s.start i := by
  unfold sampleTime
  have : (0 : ℚ) ≤ (i : ℚ) / s.rate := div_nonneg (by positivity) hr.le
  linarith

theorem sampleTime_le_last {s : Sync α κ} (hr : 0 < s.rate) {i : Nat} (hi : i < s.size) :
    sampleTime s.rate s.start i ≤ lastTime s := by
  rw [lastTime_eq (by omega), sampleTime_mono hr]; omega

/-- Time filters on the channels of a signal are cuts. -/
theorem channels_cut (s : Sync α κ) (k m : Nat) :
    channels (s.cut k m) = (channels s).map (fun c => ((c.1.drop k).take m, c.2)) := by
  unfold channels cut
  simp only [List.map_map]
  rw [show (fun c : List (ℚ × α) × κ => ((c.1.drop k).take m, c.2)) =
    Prod.map (fun c => (c.drop k).take m) id from rfl, ← List.zip_map_left, List.map_map]
  congr 1
  refine List.map_congr_left ?_
  intro d _
  simp [timed_cut]

theorem channels_filter_cut {s : Sync α κ} (h : WF s) (P : ℚ → Bool) (k m : Nat)
    (hP : ∀ i, i < s.size → (P (sampleTime s.rate s.start i) = true ↔ k ≤ i ∧ i < k + m)) :
    channels (s.cut k m) = (channels s).map (fun c => (c.1.filter (fun p => P p.1), c.2)) := by
  rw [channels_cut]
  refine List.map_congr_left ?_
  rintro ⟨c, κ'⟩ hc
  unfold channels at hc
  have hc1 := (List.of_mem_zip hc).1
  obtain ⟨d, hd, rfl⟩ := List.mem_map.1 hc1
  simp only [Prod.mk.injEq, and_true]
  symm
  apply filter_eq_cut
  intro i hi
  have hi' : i < s.size := by rw [length_timed, h.rect d hd] at hi; exact hi
  have : (timed s.rate s.start d)[i].1 = sampleTime s.rate s.start i := by
    simp [timed]
  rw [this]
  exact hP i hi'

end Sync
end Razorback
