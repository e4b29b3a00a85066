/-
The operations on signals commute with recording them otherwise.
-/
import Verif.Lemmas.Py
import Verif.Lemmas.SigSet
import Verif.Spec.Recode

namespace Razorback
open Razorback.Spec

/-- Mapping a function that commutes. -/
theorem mapE_comm {A B A' B' : Type _} {f : A → Except Err B} {f' : A' → Except Err B'} {g : A → A'} {h : B → B'} {l : List A}
    (H : ∀ a ∈ l, f' (g a) = (f a).map h) : mapE f' (l.map g) = (mapE f l).map (List.map h) := by
  induction l with
  | nil => rfl
  | cons a l ih =>
    have ha := H a (by simp)
    have ih' := ih (fun b hb => H b (by simp [hb]))
    simp only [List.map_cons, mapE, ha]
    rw [ih']
    cases f a with
    | error e => rfl
    | ok b =>
      simp only [Except.map]
      cases mapE f l <;> rfl

theorem mapE_comm' {A B B' : Type _} {f : A → Except Err B} {f' : A → Except Err B'} {h : B → B'} {l : List A}
    (H : ∀ a ∈ l, f' a = (f a).map h) : mapE f' l = (mapE f l).map (List.map h) := by
  have := mapE_comm (g := id) (f' := f') (f := f) (h := h) (l := l) (by simpa using H)
  simpa using this

theorem mapE_mapped {A B C : Type _} (f : B → Except Err C) (g : A → B) (l : List A) :
    mapE f (l.map g) = mapE (fun x => f (g x)) l := by
  induction l with
  | nil => rfl
  | cons a l ih => simp only [List.map_cons, mapE, ih]

theorem dedup_map {A B : Type _} [DecidableEq A] [DecidableEq B] {f : A → B} (hf : Function.Injective f) (l : List A) :
    dedup (l.map f) = (dedup l).map f := by
  induction l with
  | nil => rfl
  | cons a l ih =>
    simp only [List.map_cons, dedup, ih]
    by_cases h : a ∈ dedup l
    · simp [h, List.mem_map_of_mem h]
    · have : f a ∉ (dedup l).map f := by
        intro hm
        obtain ⟨b, hb, hab⟩ := List.mem_map.1 hm
        exact h (hf hab ▸ hb)
      simp [h, this]

variable {α β κ κ' : Type _} [One κ] [One κ'] {k : Recode α β κ κ'}

namespace Recode
open Spec.Recode

variable (hk : k.Proper)
include hk

theorem time_le {a b : ℚ} : k.time a ≤ k.time b ↔ a ≤ b := by
  have := hk.pos
  unfold time
  constructor
  · intro h; nlinarith
  · intro h; nlinarith

theorem time_lt {a b : ℚ} : k.time a < k.time b ↔ a < b := by
  rw [← not_le, ← not_le, time_le hk]

theorem time_inj {a b : ℚ} : k.time a = k.time b ↔ a = b := by
  rw [le_antisymm_iff, time_le hk, time_le hk, ← le_antisymm_iff]

theorem time_min (a b : ℚ) : min (k.time a) (k.time b) = k.time (min a b) := by
  rcases le_total a b with h | h
  · rw [min_eq_left h, min_eq_left ((time_le hk).2 h)]
  · rw [min_eq_right h, min_eq_right ((time_le hk).2 h)]

theorem time_max (a b : ℚ) : max (k.time a) (k.time b) = k.time (max a b) := by
  rcases le_total a b with h | h
  · rw [max_eq_right h, max_eq_right ((time_le hk).2 h)]
  · rw [max_eq_left h, max_eq_left ((time_le hk).2 h)]

theorem rate_le {a b : ℚ} : k.rate a ≤ k.rate b ↔ a ≤ b := div_le_div_iff_of_pos_right hk.pos

theorem rate_inj {a b : ℚ} : k.rate a = k.rate b ↔ a = b := by
  rw [le_antisymm_iff, rate_le hk, rate_le hk, ← le_antisymm_iff]

theorem rate_zero {a : ℚ} : k.rate a = 0 ↔ a = 0 := by
  have := hk.pos.ne'
  simp [rate, this]

theorem sync_new (data : List (List α)) (r t : ℚ) (cals : List κ) :
    Sync.new (data.map (fun y => y.map k.value)) (k.rate r) (k.time t) (cals.map k.cal) = (Sync.new data r t cals).map k.sync := by
  have hl : (data.map (fun y => y.map k.value)).map List.length = data.map List.length := by
    simp [List.map_map, Function.comp_def]
  unfold Sync.new
  rw [hl]
  cases cals with
  | nil =>
    simp only [List.map_nil, List.length_map, List.length_replicate]
    generalize dedup (data.map List.length) = m
    rcases m with _ | ⟨n, _ | ⟨n2, rest⟩⟩ <;> simp [Except.map, sync, hk.one]
  | cons c cs =>
    simp only [List.map_cons, List.length_map, List.length_cons]
    split
    · generalize dedup (data.map List.length) = m
      rcases m with _ | ⟨n, _ | ⟨n2, rest⟩⟩ <;> simp [Except.map, sync]
    · rfl

theorem indexToTime (s : Sync α κ) (i : Int) : (k.sync s).indexToTime i = (s.indexToTime i).map k.time := by
  have hp := hk.pos.ne'
  have h0 : k.rate s.rate = 0 ↔ s.rate = 0 := rate_zero hk
  unfold Sync.indexToTime
  simp only [sync, h0, Rnd.rnd_exact]
  split
  · rfl
  · simp only [Except.map, time, rate]
    congr 1
    field_simp
    ring

theorem stop (s : Sync α κ) : (k.sync s).stop = s.stop.map k.time := indexToTime hk s _

theorem interval (s : Sync α κ) : (k.sync s).interval = s.interval.map (fun p => (k.time p.1, k.time p.2)) := by
  unfold Sync.interval
  rw [stop hk]
  cases s.stop <;> rfl

theorem timeToIndex (s : Sync α κ) (t : ℚ) (r : Sync.Round) : (k.sync s).timeToIndex (k.time t) r = s.timeToIndex t r := by
  have hp := hk.pos.ne'
  have : (k.time t - (k.sync s).start) * (k.sync s).rate = (t - s.start) * s.rate := by
    simp only [sync, time, rate]
    field_simp
    ring
  cases r <;> simp only [Sync.timeToIndex, Rnd.rnd_exact, this]

omit hk in
theorem pyGet_map {A B : Type _} (f : A → B) (l : List A) (i : Int) : pyGet (l.map f) i = (pyGet l i).map f := by
  unfold pyGet
  simp only [List.length_map, List.getElem?_map]
  generalize (if i < 0 then i + (l.length : Int) else i) = j
  split
  · rfl
  · cases l[j.toNat]? <;> rfl

omit hk in
theorem pySlice_map {A B : Type _} (f : A → B) (l : List A) (i j : Int) : pySlice (l.map f) i j = (pySlice l i j).map f := by
  unfold pySlice
  simp [List.map_take, List.map_drop]

theorem sync_select (s : Sync α κ) (idx : List Int) : (k.sync s).select idx = (s.select idx).map k.sync := by
  unfold Sync.select
  have h1 := mapE_comm' (l := idx) (f' := pyGet (k.sync s).data) (f := pyGet s.data) (h := fun y => y.map k.value)
    (fun a _ => pyGet_map _ _ _)
  have h2 := mapE_comm' (l := idx) (f' := pyGet (k.sync s).cals) (f := pyGet s.cals) (h := k.cal) (fun a _ => pyGet_map _ _ _)
  rw [h1, h2]
  cases mapE (pyGet s.data) idx with
  | error e => rfl
  | ok data =>
    simp only [Except.map]
    cases mapE (pyGet s.cals) idx with
    | error e => rfl
    | ok cals => exact sync_new hk data s.rate s.start cals

theorem sync_extractI (s : Sync α κ) (i j : Option Int) (strict last : Bool) :
    (k.sync s).extractI i j strict last = (s.extractI i j strict last).map k.sync := by
  unfold Sync.extractI
  simp only [indexToTime hk, show (k.sync s).size = s.size from rfl]
  generalize (Option.map (fun j => if last then j + 1 else j) j).getD (s.size : Int) = j'
  generalize i.getD 0 = i'
  split
  · rfl
  · cases s.indexToTime i' with
    | error e => rfl
    | ok t =>
      simp only [Except.map]
      have := sync_new hk (s.data.map (fun e => pySlice e i' j')) s.rate t s.cals
      simp only [List.map_map, Function.comp_def, ← pySlice_map] at this
      simp only [sync, List.map_map, Function.comp_def]
      exact this

theorem sync_extractT (s : Sync α κ) (a b : ℚ) (strict : Bool) :
    (k.sync s).extractT (k.time a) (k.time b) strict = (s.extractT a b strict).map k.sync := by
  unfold Sync.extractT
  rw [stop hk]
  cases s.stop with
  | error e => rfl
  | ok t =>
    simp only [Except.map, show (k.sync s).start = k.time s.start from rfl, time_le hk, time_max hk, time_min hk]
    split
    · rfl
    · have e : ∀ x y : ℚ, (if strict = true then k.time x else k.time y) = k.time (if strict = true then x else y) := by
        intro x y; split <;> rfl
      rw [e, e, timeToIndex hk, timeToIndex hk]
      exact sync_extractI hk s _ _ _ _

theorem noOverlap (l : List (ℚ × ℚ)) :
    SigSet.noOverlap (l.map (fun p => (k.time p.1, k.time p.2))) = SigSet.noOverlap l := by
  induction l with
  | nil => rfl
  | cons a l ih =>
    cases l with
    | nil => rfl
    | cons b l =>
      simp only [List.map_cons, SigSet.noOverlap, time_le hk] at ih ⊢
      rw [ih]

omit hk in
theorem chanCount (l : List (Sync α κ)) : SigSet.chanCount (l.map k.sync) = SigSet.chanCount l := by
  cases l <;> simp [SigSet.chanCount, sync]

omit [One κ] [One κ'] hk in
theorem nbChannels (S : SigSet α κ) : (k.set S).nbChannels = S.nbChannels := by
  obtain ⟨runs, t⟩ := S
  cases runs <;> simp [SigSet.nbChannels, Spec.Recode.set, sync]

theorem build (t : TagsArg) (runs : List (Sync α κ)) :
    SigSet.build t (runs.map k.sync) = (SigSet.build t runs).map k.set := by
  unfold SigSet.build
  have h1 : (runs.map k.sync).map (fun s => s.data.length) = runs.map (fun s => s.data.length) := by
    simp [List.map_map, Function.comp_def, sync]
  rw [h1]
  split
  · rfl
  · rw [mapE_comm (f := Sync.interval) (h := fun p => (k.time p.1, k.time p.2)) (fun s _ => interval hk s)]
    cases mapE Sync.interval runs with
    | error e => rfl
    | ok ivs =>
      simp only [Except.map]
      rw [sortBy_map (le := fun a b : ℚ × ℚ => decide (a.1 ≤ b.1)) (by intro a b; simp [time_le hk]), noOverlap hk,
        sortBy_map (f := k.sync) (le := fun a b : Sync α κ => decide (a.start ≤ b.start)) (by intro a b; simp [sync, time_le hk]), chanCount]
      split
      · cases SigSet.mkTags _ t <;> rfl
      · rfl

theorem reorder (S : SigSet α κ) (t : TagsArg) : (k.set S).reorder t = (S.reorder t).map k.set := by
  unfold SigSet.reorder
  rw [nbChannels]
  simp only [Spec.Recode.set]
  cases SigSet.reorderMap S.tags t with
  | error e => rfl
  | ok m =>
    cases m with
    | none => rfl
    | some pairs =>
      simp only
      rw [mapE_comm (f := SigSet.reorderRun pairs S.nbChannels) (h := k.sync)]
      · cases mapE (SigSet.reorderRun pairs S.nbChannels) S.runs with
        | error e => rfl
        | ok runs => exact build hk t runs
      · intro s _
        unfold SigSet.reorderRun
        cases mapE (SigSet.invGet pairs) (List.range S.nbChannels) with
        | error e => rfl
        | ok idx => exact sync_select hk s _

theorem set_new (t : TagsArg) (args : List (SigArg α κ)) :
    SigSet.new t (args.map k.arg) = (SigSet.new t args).map k.set := by
  unfold SigSet.new
  rw [mapE_comm (f := SigSet.argRuns t) (h := List.map k.sync)]
  · cases mapE (SigSet.argRuns t) args with
    | error e => rfl
    | ok rss =>
      simp only [Except.map]
      rw [← List.map_flatten]
      exact build hk t _
  · intro a _
    cases a with
    | sync s => rfl
    | set S =>
      simp only [SigSet.argRuns, arg, reorder hk]
      cases S.reorder t <;> rfl

theorem selectChannels (S : SigSet α κ) (sel : ChanSel) : (k.set S).selectChannels sel = (S.selectChannels sel).map k.set := by
  unfold SigSet.selectChannels
  rw [nbChannels]
  simp only [Spec.Recode.set]
  cases SigSet.chanIndices S.tags S.nbChannels sel with
  | error e => rfl
  | ok idx =>
    simp only
    cases SigSet.selectTags S.tags idx with
    | error e => rfl
    | ok t =>
      simp only
      rw [mapE_comm (f := fun s : Sync α κ => s.select (idx.map Int.ofNat)) (h := k.sync) (fun s _ => sync_select hk s _)]
      cases mapE (fun s : Sync α κ => s.select (idx.map Int.ofNat)) S.runs with
      | error e => rfl
      | ok runs => exact build hk _ runs

theorem selectRuns (S : SigSet α κ) (r : RunIdx) : (k.set S).selectRuns r = (S.selectRuns r).map k.set := by
  unfold SigSet.selectRuns
  simp only [Spec.Recode.set, List.length_map]
  cases r.resolve S.runs.length with
  | error e => rfl
  | ok idx =>
    have : idx.filterMap (fun i => (S.runs.map k.sync)[i]?) = (idx.filterMap (fun i => S.runs[i]?)).map k.sync := by
      rw [List.map_filterMap]
      simp only [List.getElem?_map]
    simp only
    rw [this]
    exact build hk _ _

theorem join (S : SigSet α κ) (others : List (SigArg α κ)) :
    (k.set S).join (others.map k.arg) = (S.join others).map k.set := by
  unfold SigSet.join
  exact set_new hk (.tags S.tags) (.set S :: others)

theorem extractIn (S : SigSet α κ) (a b : ℚ) :
    (k.set S).extractIn (k.time a) (k.time b) = (S.extractIn a b).map k.set := by
  unfold SigSet.extractIn
  simp only [Spec.Recode.set]
  rw [mapE_comm (f := fun s : Sync α κ => s.extractT a b) (h := k.sync) (fun s _ => sync_extractT hk s a b false)]
  cases mapE (fun s : Sync α κ => s.extractT a b) S.runs with
  | error e => rfl
  | ok rs =>
    simp only [Except.map]
    rw [List.filter_map]
    exact build hk _ _

theorem foldl_min (l : List ℚ) (a : ℚ) : (l.map k.time).foldl min (k.time a) = k.time (l.foldl min a) := by
  induction l generalizing a with
  | nil => rfl
  | cons b l ih => simp only [List.map_cons, List.foldl_cons, time_min hk, ih]

theorem foldl_max (l : List ℚ) (a : ℚ) : (l.map k.time).foldl max (k.time a) = k.time (l.foldl max a) := by
  induction l generalizing a with
  | nil => rfl
  | cons b l ih => simp only [List.map_cons, List.foldl_cons, time_max hk, ih]

theorem npMin (l : List ℚ) : SigSet.npMin (l.map k.time) = (SigSet.npMin l).map k.time := by
  cases l with
  | nil => rfl
  | cons a l => simp only [List.map_cons, SigSet.npMin, foldl_min hk, Except.map]

theorem npMax (l : List ℚ) : SigSet.npMax (l.map k.time) = (SigSet.npMax l).map k.time := by
  cases l with
  | nil => rfl
  | cons a l => simp only [List.map_cons, SigSet.npMax, foldl_max hk, Except.map]

theorem extractT (S : SigSet α κ) (a b : ℚ) (ex : Bool) :
    (k.set S).extractT (k.time a) (k.time b) ex = (S.extractT a b ex).map k.set := by
  unfold SigSet.extractT
  split
  · have h1 : (k.set S).runs.map (fun s => s.start) = (S.runs.map (fun s => s.start)).map k.time := by
      simp [Spec.Recode.set, sync]
    have h2 : mapE Sync.stop (k.set S).runs = (mapE Sync.stop S.runs).map (List.map k.time) :=
      mapE_comm (fun s _ => stop hk s)
    rw [h1, h2, npMin hk]
    cases SigSet.npMin (S.runs.map (fun s => s.start)) with
    | error e => rfl
    | ok first =>
      simp only [Except.map]
      rw [extractIn hk]
      cases S.extractIn first a with
      | error e => rfl
      | ok left =>
        simp only [Except.map]
        cases mapE Sync.stop S.runs with
        | error e => rfl
        | ok stops =>
          simp only [Except.map]
          rw [npMax hk]
          cases SigSet.npMax stops with
          | error e => rfl
          | ok last =>
            simp only [Except.map]
            rw [extractIn hk]
            cases S.extractIn b last with
            | error e => rfl
            | ok right => exact join hk left [.set right]
  · exact extractIn hk S a b

theorem common (ivss : List (List (ℚ × ℚ))) (d f : ℚ) :
    SigSet.common (ivss.map (List.map (fun p => (k.time p.1, k.time p.2)))) (k.time d) (k.time f) =
      (SigSet.common ivss d f).map (fun p => (k.time p.1, k.time p.2)) := by
  induction ivss generalizing d f with
  | nil => rfl
  | cons ivs seq ih =>
    simp only [List.map_cons, SigSet.common]
    induction ivs generalizing d f with
    | nil => rfl
    | cons p ivs ih2 =>
      simp only [List.map_cons, SigSet.common.go, time_le hk]
      split
      · exact ih2 d f
      · split
        · rfl
        · rw [List.map_append, ← ih2 d f, time_max hk, time_min hk, ih]

omit [One κ] [One κ'] hk in
theorem shifts (c : ℕ) (seqs : List (SigSet α κ)) : SigSet.shifts c (seqs.map k.set) = SigSet.shifts c seqs := by
  induction seqs generalizing c with
  | nil => rfl
  | cons S seqs ih => simp only [List.map_cons, SigSet.shifts, nbChannels, ih]

omit [One κ] [One κ'] hk in
theorem mergeTags (seqs : List (SigSet α κ)) : SigSet.mergeTags (seqs.map k.set) = SigSet.mergeTags seqs := by
  unfold SigSet.mergeTags
  simp only [mapE_mapped, List.flatMap_map, List.map_map, Function.comp_def, nbChannels, shifts]
  rfl

theorem mergeOne (seqs : List (SigSet α κ)) (a b : ℚ) :
    SigSet.mergeOne (seqs.map k.set) (k.time a) (k.time b) = (SigSet.mergeOne seqs a b).map (Option.map k.sync) := by
  unfold SigSet.mergeOne
  rw [mapE_comm (f := fun S : SigSet α κ => S.extractIn a b) (h := k.set) (fun S _ => extractIn hk S a b)]
  cases mapE (fun S : SigSet α κ => S.extractIn a b) seqs with
  | error e => rfl
  | ok sets =>
    simp only [Except.map]
    have h1 : (sets.map k.set).all (fun S => S.runs.length == 1) = sets.all (fun S => S.runs.length == 1) := by
      simp [List.all_map, Function.comp_def, Spec.Recode.set]
    have h2 : (sets.map k.set).flatMap (fun S => S.runs) = (sets.flatMap (fun S => S.runs)).map k.sync := by
      simp [List.flatMap_map, List.map_flatMap, Spec.Recode.set]
    rw [h1, h2]
    split
    · generalize sets.flatMap (fun S => S.runs) = ss
      have h3 : dedup ((ss.map k.sync).map (fun s => s.rate)) = (dedup (ss.map (fun s => s.rate))).map k.rate := by
        rw [← dedup_map (fun a b h => (rate_inj hk).1 h)]
        simp [List.map_map, Function.comp_def, sync]
      rw [h3]
      generalize dedup (ss.map (fun s => s.rate)) = rs
      rcases rs with _ | ⟨r, _ | ⟨r2, rest⟩⟩
      · rfl
      · simp only [List.map_cons, List.map_nil]
        have h4 : (ss.map k.sync).all (fun s => s.start == k.time a) = ss.all (fun s => s.start == a) := by
          rw [List.all_map]
          congr 1
          funext s
          simp only [Function.comp, sync]
          rw [Bool.eq_iff_iff, beq_iff_eq, beq_iff_eq]
          exact time_inj hk
        have h5 : (ss.map k.sync).flatMap (fun s => s.data) = (ss.flatMap (fun s => s.data)).map (fun y => y.map k.value) := by
          simp [List.flatMap_map, List.map_flatMap, sync]
        have h6 : (ss.map k.sync).flatMap (fun s => s.cals) = (ss.flatMap (fun s => s.cals)).map k.cal := by
          simp [List.flatMap_map, List.map_flatMap, sync]
        rw [h4, h5, h6, sync_new hk]
        split
        · generalize Sync.new (ss.flatMap (fun s => s.data)) r a (ss.flatMap (fun s => s.cals)) = x
          cases x <;> rfl
        · rfl
      · rfl
    · rfl

omit [One κ] [One κ'] hk in
theorem bounds (ivs : List (ℚ × ℚ)) :
    SigSet.bounds (ivs.map (fun p => (k.time p.1, k.time p.2))) = (SigSet.bounds ivs).map k.time := by
  simp [SigSet.bounds, List.flatMap_map, List.map_flatMap]

theorem mergeIntervals (seqs : List (SigSet α κ)) :
    SigSet.mergeIntervals (seqs.map k.set) = (SigSet.mergeIntervals seqs).map (List.map (fun p => (k.time p.1, k.time p.2))) := by
  unfold SigSet.mergeIntervals
  rw [mapE_comm (f' := fun S : SigSet β κ' => mapE Sync.interval S.runs) (g := k.set)
    (f := fun S : SigSet α κ => mapE Sync.interval S.runs) (h := List.map (fun p => (k.time p.1, k.time p.2)))
    (fun S _ => mapE_comm (fun s _ => interval hk s))]
  cases mapE (fun S : SigSet α κ => mapE Sync.interval S.runs) seqs with
  | error e => rfl
  | ok ivss =>
    simp only [Except.map]
    rw [mapE_comm (f := fun ivs => SigSet.npMin (SigSet.bounds ivs)) (h := k.time)
        (fun ivs _ => by rw [bounds, npMin hk]),
      mapE_comm (f := fun ivs => SigSet.npMax (SigSet.bounds ivs)) (h := k.time)
        (fun ivs _ => by rw [bounds, npMax hk])]
    cases mapE (fun ivs => SigSet.npMin (SigSet.bounds ivs)) ivss with
    | error e => rfl
    | ok mins =>
      simp only [Except.map]
      rw [npMin hk]
      cases SigSet.npMin mins with
      | error e => rfl
      | ok a =>
        simp only [Except.map]
        cases mapE (fun ivs => SigSet.npMax (SigSet.bounds ivs)) ivss with
        | error e => rfl
        | ok maxs =>
          simp only [Except.map]
          rw [npMax hk]
          cases SigSet.npMax maxs with
          | error e => rfl
          | ok b => simp only [Except.map, common hk]

theorem merge (S : SigSet α κ) (others : List (SigSet α κ)) :
    (k.set S).merge (others.map k.set) = (S.merge others).map k.set := by
  unfold SigSet.merge
  rw [← List.map_cons (f := k.set), mergeTags, mergeIntervals hk]
  cases SigSet.mergeTags (S :: others) with
  | error e => rfl
  | ok t =>
    simp only
    cases SigSet.mergeIntervals (S :: others) with
    | error e => rfl
    | ok ivs =>
      simp only [Except.map]
      rw [mapE_comm (f := fun i : ℚ × ℚ => SigSet.mergeOne (S :: others) i.1 i.2) (h := Option.map k.sync)
        (fun i _ => mergeOne hk _ i.1 i.2)]
      cases mapE (fun i : ℚ × ℚ => SigSet.mergeOne (S :: others) i.1 i.2) ivs with
      | error e => rfl
      | ok rs =>
        simp only [Except.map]
        have : (rs.map (Option.map k.sync)).filterMap id = (rs.filterMap id).map k.sync := by
          rw [List.filterMap_map, List.map_filterMap]
          rfl
        rw [this]
        exact build hk _ _

omit [One κ] [One κ'] hk in
theorem isConsecutive (hu : k.unit = 1) (r : ℚ) (l : List (Sync α κ)) :
    SigSet.isConsecutive r (l.map k.sync) = SigSet.isConsecutive r l := by
  induction l with
  | nil => rfl
  | cons a l ih =>
    cases l with
    | nil => rfl
    | cons b l =>
      simp only [List.map_cons, SigSet.isConsecutive] at ih ⊢
      rw [ih]
      simp only [sync, rate, time, hu, div_one, one_mul, Rnd.rnd_exact]
      congr 3
      ring

theorem fuse (S : SigSet α κ) (r : ℚ) : SigSet.fuse (k.rate r) (k.set S) = (SigSet.fuse r S).map k.sync := by
  unfold SigSet.fuse
  rw [nbChannels]
  generalize S.nbChannels = n
  obtain ⟨runs, t⟩ := S
  cases runs with
  | nil => rfl
  | cons s l =>
    simp only [Spec.Recode.set, List.map_cons]
    have h := sync_new hk ((List.range n).map (fun i => (s :: l).flatMap (fun v => (v.data[i]?).getD []))) r s.start s.cals
    rw [← h]
    congr 1
    rw [List.map_map]
    apply List.map_congr_left
    intro i _
    simp only [Function.comp, List.map_flatMap, ← List.map_cons (f := k.sync), List.flatMap_map]
    congr 1
    funext v
    simp only [sync, List.getElem?_map]
    cases v.data[i]? <;> rfl

theorem fuseStep (S : SigSet α κ) (r : ℚ) (st : SigSet α κ × List ℕ) (g : ℕ × Option ℕ) :
    SigSet.fuseStep (k.set S) (k.rate r) (k.set st.1, st.2) g = (SigSet.fuseStep S r st g).map (fun p => (k.set p.1, p.2)) := by
  unfold SigSet.fuseStep
  rw [selectRuns hk, show (k.set S).runs.length = S.runs.length from List.length_map _]
  cases S.selectRuns (.slice (some g.1) (g.2.map Int.ofNat) none) with
  | error e => rfl
  | ok G =>
    simp only [Except.map]
    rw [fuse hk]
    cases SigSet.fuse r G with
    | error e => rfl
    | ok s =>
      simp only [Except.map]
      have := join hk st.1 [.sync s]
      simp only [List.map_cons, List.map_nil, arg] at this
      rw [this]
      cases st.1.join [.sync s] <;> rfl

omit [One κ] [One κ'] hk in
theorem foldE_comm {A σ σ' : Type _} {f : σ → A → Except Err σ} {f' : σ' → A → Except Err σ'} {h : σ → σ'} {l : List A}
    (H : ∀ s, ∀ a ∈ l, f' (h s) a = (f s a).map h) (s : σ) : foldE f' (h s) l = (foldE f s l).map h := by
  induction l generalizing s with
  | nil => rfl
  | cons a l ih =>
    simp only [foldE, H s a (by simp)]
    cases f s a with
    | error e => rfl
    | ok s' => exact ih (fun s a ha => H s a (by simp [ha])) s'

theorem mergeConsecutive (hu : k.unit = 1) (S : SigSet α κ) : (k.set S).mergeConsecutive = S.mergeConsecutive.map k.set := by
  have hr : ∀ r, k.rate r = r := by intro r; simp [rate, hu]
  have h0 := set_new hk (.tags S.tags) []
  simp only [List.map_nil] at h0
  have h1 : (k.set S).runs.map (fun s => s.rate) = S.runs.map (fun s => s.rate) := by
    simp [Spec.Recode.set, sync, hr]
  unfold SigSet.mergeConsecutive
  rw [show (k.set S).tags = S.tags from rfl, h0, h1, show (k.set S).runs.length = S.runs.length from List.length_map _]
  cases SigSet.new (.tags S.tags) ([] : List (SigArg α κ)) with
  | error e => rfl
  | ok res0 =>
    simp only [Except.map]
    have h2 := foldE_comm (l := sortBy (fun a b => decide (a ≤ b)) (dedup (S.runs.map (fun s => s.rate))))
      (f' := fun st rate => foldE (SigSet.fuseStep (k.set S) rate) st (SigSet.groupIndices (SigSet.isConsecutive rate (k.set S).runs)))
      (f := fun st rate => foldE (SigSet.fuseStep S rate) st (SigSet.groupIndices (SigSet.isConsecutive rate S.runs)))
      (h := fun p : SigSet α κ × List ℕ => (k.set p.1, p.2)) (by
        intro st r _
        simp only [Spec.Recode.set]
        rw [isConsecutive hu]
        refine foldE_comm (h := fun p : SigSet α κ × List ℕ => (k.set p.1, p.2)) ?_ st
        intro st g _
        have := fuseStep hk S r st g
        rw [hr] at this
        exact this) (res0, [])
    rw [h2]
    cases foldE (fun st rate => foldE (SigSet.fuseStep S rate) st (SigSet.groupIndices (SigSet.isConsecutive rate S.runs)))
        (res0, []) (sortBy (fun a b => decide (a ≤ b)) (dedup (S.runs.map (fun s => s.rate)))) with
    | error e => rfl
    | ok p =>
      obtain ⟨res, added⟩ := p
      simp only [Except.map]
      rw [selectRuns hk]
      cases S.selectRuns (.list (((List.range S.runs.length).filter (fun i => decide (i ∉ added))).map Int.ofNat)) with
      | error e => rfl
      | ok rest => exact join hk res [.set rest]

theorem getItem (S : SigSet α κ) (c : Option ChanSel) (r : List RunIdx) : (k.set S).getItem c r = (S.getItem c r).map k.set := by
  unfold SigSet.getItem
  rcases c with _ | c
  · rfl
  · rcases r with _ | ⟨r, _ | ⟨r2, l⟩⟩
    · exact selectChannels hk S c
    · simp only
      rw [selectChannels hk]
      cases S.selectChannels c with
      | error e => rfl
      | ok S' => exact selectRuns hk S' r
    · rfl

theorem getAttr (S : SigSet α κ) (name : String) : (k.set S).getAttr name = (S.getAttr name).map k.set := by
  unfold SigSet.getAttr
  rw [selectChannels hk]
  generalize S.selectChannels (.one (.name name)) = x
  rcases x with e | S'
  · cases e <;> rfl
  · rfl

/-- Objects given to an inventory. -/
def obj (k : Recode α β κ κ') : InvObj α κ → InvObj β κ'
  | .set S => .set (k.set S)
  | .other => .other

omit [One κ] [One κ'] hk in
theorem inv_extend (I : Inventory α κ) (l : List (InvObj α κ)) :
    Inventory.extend (k.inventory I) (l.map (obj k)) = (k.inventory (Inventory.extend I l).1, (Inventory.extend I l).2) := by
  induction l generalizing I with
  | nil => rfl
  | cons o l ih =>
    cases o with
    | other => rfl
    | set S =>
      have := ih (I ++ [S])
      simp only [inventory, List.map_append, List.map_cons, List.map_nil] at this
      simp only [List.map_cons, Inventory.extend, Inventory.append, obj]
      exact this

omit [One κ] [One κ'] hk in
theorem inv_new (l : List (InvObj α κ)) : Inventory.new (l.map (obj k)) = (Inventory.new l).map k.inventory := by
  unfold Inventory.new
  have := inv_extend (k := k) [] l
  simp only [inventory, List.map_nil] at this
  rw [this]
  generalize Inventory.extend [] l = x
  obtain ⟨I, _ | e⟩ := x <;> rfl

omit [One κ] [One κ'] hk in
theorem inv_newSets (l : List (SigSet α κ)) :
    Inventory.new ((l.map k.set).map .set) = (Inventory.new (l.map .set)).map k.inventory := by
  rw [← inv_new, List.map_map, List.map_map]
  rfl

theorem inv_extractT (I : Inventory α κ) (a b : ℚ) (ex : Bool) :
    Inventory.extractT (k.inventory I) (k.time a) (k.time b) ex = (Inventory.extractT I a b ex).map k.inventory := by
  unfold Inventory.extractT
  rw [inventory, mapE_comm (f := fun S : SigSet α κ => S.extractT a b ex) (h := k.set) (fun S _ => extractT hk S a b ex)]
  cases mapE (fun S : SigSet α κ => S.extractT a b ex) I with
  | error e => rfl
  | ok l =>
    simp only [Except.map]
    rw [List.filter_map, show ((fun S : SigSet β κ' => !S.runs.isEmpty) ∘ k.set) = (fun S => !S.runs.isEmpty) from
      funext (fun S => by simp [Spec.Recode.set])]
    exact inv_newSets _

omit [One κ] [One κ'] hk in
theorem names (I : Inventory α κ) : Inventory.names (k.inventory I) = Inventory.names I := by
  simp [Inventory.names, inventory, List.flatMap_map, Spec.Recode.set]

theorem selectIn (keys : List String) (S : SigSet α κ) :
    Inventory.selectIn keys (k.set S) = (Inventory.selectIn keys S).map (Option.map k.set) := by
  unfold Inventory.selectIn
  rw [show Inventory.tagGet (k.set S) = Inventory.tagGet S from rfl]
  cases mapE (Inventory.tagGet S) keys with
  | error e => rfl
  | ok l =>
    simp only
    split
    · rfl
    · rw [selectChannels hk]
      generalize S.selectChannels (.many ((dedup l.flatten).map (fun i : ℕ => .idx (i : Int)))) = x
      cases x <;> rfl

omit [One κ] [One κ'] hk in
theorem filterMap_id {A B : Type _} (f : A → B) (l : List (Option A)) : (l.map (Option.map f)).filterMap id = (l.filterMap id).map f := by
  rw [List.filterMap_map, List.map_filterMap]
  rfl

theorem inv_selectChannels (I : Inventory α κ) (keys : List String) :
    Inventory.selectChannels (k.inventory I) keys = (Inventory.selectChannels I keys).map k.inventory := by
  unfold Inventory.selectChannels
  rw [inventory, mapE_comm (f := Inventory.selectIn keys) (h := Option.map k.set) (fun S _ => selectIn hk keys S)]
  cases mapE (Inventory.selectIn keys) I with
  | error e => rfl
  | ok l =>
    simp only [Except.map]
    rw [filterMap_id]
    exact inv_newSets _

theorem inv_selectRuns (I : Inventory α κ) (runs : List RunIdx) :
    Inventory.selectRuns (k.inventory I) runs = (Inventory.selectRuns I runs).map k.inventory := by
  unfold Inventory.selectRuns
  rw [show (k.inventory I).length = I.length from List.length_map _]
  split
  · rfl
  · have : (k.inventory I).zip runs = (I.zip runs).map (fun p => (k.set p.1, p.2)) := by
      rw [inventory, List.zip_map_left]
      rfl
    rw [this, mapE_comm (f := fun p : SigSet α κ × RunIdx => p.1.selectRuns p.2) (h := k.set) (fun p _ => selectRuns hk p.1 p.2)]
    cases mapE (fun p : SigSet α κ × RunIdx => p.1.selectRuns p.2) (I.zip runs) with
    | error e => rfl
    | ok l =>
      simp only [Except.map]
      rw [List.filter_map, show ((fun S : SigSet β κ' => !S.runs.isEmpty) ∘ k.set) = (fun S => !S.runs.isEmpty) from
        funext (fun S => by simp [Spec.Recode.set])]
      exact inv_newSets _

theorem inv_filter (o : SetOrder) (I : Inventory α κ) (ps : List String) :
    Inventory.filter o (k.inventory I) ps = (Inventory.filter o I ps).map k.inventory := by
  unfold Inventory.filter
  rw [names]
  exact inv_selectChannels hk I _

omit [One κ] [One κ'] hk in
theorem groupKeys (o : SetOrder) (I : Inventory α κ) : Inventory.groupKeys o (k.inventory I) = Inventory.groupKeys o I := by
  have h : Inventory.holders (k.inventory I) = Inventory.holders I := by
    funext t
    unfold Inventory.holders
    rw [show (k.inventory I).length = I.length from List.length_map _]
    congr 1
    funext i
    simp only [inventory, List.getElem?_map, Option.any_map]
    rfl
  unfold Inventory.groupKeys Inventory.groups
  rw [names, h]

theorem joinAll (l : List (SigSet α κ)) : Inventory.joinAll (l.map k.set) = (Inventory.joinAll l).map k.set := by
  cases l with
  | nil => rfl
  | cons S l =>
    have := join hk S (l.map .set)
    simp only [List.map_map] at this
    simp only [List.map_cons, Inventory.joinAll, List.map_map]
    exact this

theorem joinMerge (o : SetOrder) (I : Inventory α κ) :
    Inventory.joinMerge o (k.inventory I) = (Inventory.joinMerge o I).map k.set := by
  unfold Inventory.joinMerge
  rw [groupKeys, show (k.inventory I).isEmpty = I.isEmpty by simp [inventory]]
  split
  · have := set_new hk (.dict []) []
    exact this
  · rw [mapE_comm' (f := Inventory.groupSet I) (h := k.set)]
    · generalize mapE (Inventory.groupSet I) (Inventory.groupKeys o I) = x
      rcases x with e | ⟨_ | ⟨a, _ | ⟨b, l⟩⟩⟩
      · rfl
      · rfl
      · rfl
      · exact merge hk a (b :: l)
    · intro key _
      unfold Inventory.groupSet
      rw [inv_selectChannels hk]
      cases Inventory.selectChannels I key with
      | error e => rfl
      | ok J => exact joinAll hk J

theorem rateSet (o : SetOrder) (I : Inventory α κ) (f : ℚ) :
    Inventory.rateSet o (k.inventory I) (k.rate f) = (Inventory.rateSet o I f).map k.set := by
  unfold Inventory.rateSet
  have : (k.inventory I).map (fun S => RunIdx.mask (S.runs.map (fun r => decide (r.rate = k.rate f)))) =
      I.map (fun S => RunIdx.mask (S.runs.map (fun r => decide (r.rate = f)))) := by
    simp [inventory, List.map_map, Function.comp_def, Spec.Recode.set, sync, rate_inj hk]
  rw [this, inv_selectRuns hk]
  cases Inventory.selectRuns I (I.map (fun S => RunIdx.mask (S.runs.map (fun r => decide (r.rate = f))))) with
  | error e => rfl
  | ok J => exact joinMerge hk o J

theorem packAll (hu : k.unit = 1) (o : SetOrder) (I : Inventory α κ) :
    Inventory.packAll o (k.inventory I) = (Inventory.packAll o I).map k.set := by
  have hr : ∀ r, k.rate r = r := by intro r; simp [rate, hu]
  have h1 : Inventory.rates (k.inventory I) = Inventory.rates I := by
    simp [Inventory.rates, inventory, List.flatMap_map, Spec.Recode.set, sync, hr, Function.comp_def]
  unfold Inventory.packAll
  rw [h1, names, mapE_comm' (f := Inventory.rateSet o I) (h := k.set) (fun f _ => by have := rateSet hk o I f; rwa [hr] at this)]
  cases mapE (Inventory.rateSet o I) (o.rates (dedup (Inventory.rates I))) with
  | error e => rfl
  | ok sigs =>
    simp only [Except.map]
    rw [List.filter_map, show ((fun S : SigSet β κ' => !S.runs.isEmpty && (Inventory.names I).all (fun t => S.tags.tags.has t)) ∘ k.set) =
      (fun S => !S.runs.isEmpty && (Inventory.names I).all (fun t => S.tags.tags.has t)) from
      funext (fun S => by simp [Spec.Recode.set])]
    generalize sigs.filter (fun S => !S.runs.isEmpty && (Inventory.names I).all (fun t => S.tags.tags.has t)) = l
    cases l with
    | nil => exact set_new hk (.dict []) []
    | cons S l =>
      simp only [List.map_cons]
      rw [← List.map_cons (f := k.set), joinAll hk]
      cases Inventory.joinAll (S :: l) with
      | error e => rfl
      | ok R => exact mergeConsecutive hk hu R

omit [One κ] [One κ'] hk in
theorem singleNames (o : SetOrder) (I : Inventory α κ) : Inventory.singleNames o (k.inventory I) = Inventory.singleNames o I := by
  unfold Inventory.singleNames
  rw [names]
  have : (k.inventory I).flatMap (fun S => (Inventory.setOf o (Inventory.names I)).map (fun t => (S, t))) =
      (I.flatMap (fun S => (Inventory.setOf o (Inventory.names I)).map (fun t => (S, t)))).map (fun p => (k.set p.1, p.2)) := by
    simp [inventory, List.flatMap_map, List.map_flatMap, List.map_map, Function.comp_def]
  rw [this, mapE_mapped]
  rfl

theorem pack (hu : k.unit = 1) (o : SetOrder) (I : Inventory α κ) (keep : Bool) :
    Inventory.pack o (k.inventory I) keep = (Inventory.pack o I keep).map k.set := by
  unfold Inventory.pack
  split
  · exact packAll hk hu o I
  · rw [singleNames]
    cases Inventory.singleNames o I with
    | error e => rfl
    | ok ts =>
      simp only
      rw [mapE_comm' (f := fun t => Inventory.selectChannels I [t]) (h := k.inventory) (fun t _ => inv_selectChannels hk I [t])]
      cases mapE (fun t => Inventory.selectChannels I [t]) (Inventory.setOf o ts) with
      | error e => rfl
      | ok l =>
        simp only [Except.map]
        have : (l.map k.inventory).flatten = l.flatten.map k.set := by
          rw [List.map_flatten]
          rfl
        rw [this, inv_newSets]
        cases Inventory.new (l.flatten.map .set) with
        | error e => rfl
        | ok J => exact packAll hk hu o J

theorem extractGroups (hu : k.unit = 1) (o : SetOrder) (I : Inventory α κ) (gs : List (String × List String)) :
    Inventory.extractGroups o (k.inventory I) gs = (Inventory.extractGroups o I gs).map k.inventory := by
  unfold Inventory.extractGroups
  rw [mapE_comm' (f := Inventory.groupOf o I) (h := k.set)]
  · cases mapE (Inventory.groupOf o I) gs with
    | error e => rfl
    | ok l => exact inv_newSets l
  · intro g _
    unfold Inventory.groupOf
    rw [inv_filter hk]
    cases Inventory.filter o I g.2 with
    | error e => rfl
    | ok J =>
      simp only [Except.map]
      rw [pack hk hu]
      cases Inventory.pack o J with
      | error e => rfl
      | ok S =>
        simp only [Except.map, Spec.Recode.set]
        cases mapE S.tags.getItem g.2 with
        | error e => rfl
        | ok vs =>
          simp only
          cases S.tags.setItem g.1 (Tags.toVal vs.flatten) <;> rfl

end Recode
end Razorback
