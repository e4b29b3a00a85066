/-
Signal sets recorded on a binary clock: the operations computed in double precision are the exact ones.
-/
import Verif.Lemmas.Rounding
import Verif.Lemmas.Join
import Verif.Lemmas.Merge
import Verif.Lemmas.Consecutive

namespace Razorback
open Spec

theorem mapE_congr {α β : Type _} {f g : α → Except Err β} {l : List α} (h : ∀ a ∈ l, f a = g a) :
    mapE f l = mapE g l := by
  induction l with
  | nil => rfl
  | cons a l ih =>
    simp only [mapE]
    rw [h a (by simp), ih (fun b hb => h b (by simp [hb]))]

variable {α κ : Type _} {C : Clock}

/-- A well-formed run on the clock. -/
def RunOn (C : Clock) (s : Sync α κ) : Prop := WF s ∧ OnClock C s

theorem _root_.Razorback.Spec.OnClock.of_clock {s r : Sync α κ} (h : OnClock C s) (h1 : r.rate = s.rate) (h2 : r.start = s.start)
    (h3 : r.size = s.size) : OnClock C r := by
  have hl : lastTime r = lastTime s := by unfold lastTime; rw [h1, h2, h3]
  exact ⟨by rw [h1]; exact h.rate, by rw [h2]; exact h.tick, by rw [h2]; exact h.start_lo, by rw [h2]; exact h.start_hi,
    by rw [hl]; exact h.last_lo, by rw [hl]; exact h.last_hi⟩

namespace SigSet

theorem build_dbl {tags : TagsArg} {runs : List (Sync α κ)} (h : ∀ r ∈ runs, RunOn C r) :
    @build _ _ Rnd.double tags runs = build tags runs := by
  unfold build
  rw [mapE_congr (fun r hr => OnClockLemmas.interval_eq (h r hr).2)]

theorem build_on {tags : TagsArg} {runs : List (Sync α κ)} {S : SigSet α κ} (hS : build tags runs = .ok S)
    (h : ∀ r ∈ runs, RunOn C r) : ∀ r ∈ S.runs, RunOn C r := by
  obtain ⟨-, -, -, h4, -⟩ := build_iff.1 hS
  rw [h4]
  exact fun r hr => h r (mem_sortRuns.1 hr)

theorem select_on [One κ] {s r : Sync α κ} {idx : List Nat} (hs : RunOn C s)
    (h : s.select (idx.map Int.ofNat) = .ok r) : RunOn C r := by
  obtain ⟨h1, h2, h3, h4, -⟩ := Sync.select_nat hs.1 h
  exact ⟨h4, hs.2.of_clock h1 h2 h3⟩

theorem reorderRun_on [One κ] {p : List (Int × Nat)} {n : Nat} {s r : Sync α κ} (hs : RunOn C s)
    (h : reorderRun p n s = .ok r) : RunOn C r := by
  unfold reorderRun at h
  split at h
  · simp at h
  · exact select_on hs h

theorem mapE_on {β : Type _} {f : β → Except Err (Sync α κ)} {l : List β} {rs : List (Sync α κ)} (h : mapE f l = .ok rs)
    (hf : ∀ a ∈ l, ∀ r, f a = .ok r → RunOn C r) : ∀ r ∈ rs, RunOn C r := by
  intro r hr
  obtain ⟨a, ha, he⟩ := mapE_ok_exists h r hr
  exact hf a ha r he

theorem reorder_dbl [One κ] {S : SigSet α κ} {tags : TagsArg} (h : ∀ r ∈ S.runs, RunOn C r) :
    @reorder _ _ Rnd.double _ S tags = S.reorder tags := by
  unfold reorder
  split
  · rfl
  · rfl
  · split
    · rfl
    · rename_i he
      exact build_dbl (mapE_on he (fun s hs r hr => reorderRun_on (h s hs) hr))

theorem reorder_on [One κ] {S S' : SigSet α κ} {tags : TagsArg} (h : ∀ r ∈ S.runs, RunOn C r)
    (hS : S.reorder tags = .ok S') : ∀ r ∈ S'.runs, RunOn C r := by
  unfold reorder at hS
  split at hS
  · simp at hS
  · simp at hS; subst hS; exact h
  · split at hS
    · simp at hS
    · rename_i he
      exact build_on hS (mapE_on he (fun s hs r hr => reorderRun_on (h s hs) hr))

/-- Arguments of `SignalSet(...)` and `join` on the clock. -/
def ArgOn (C : Clock) (a : SigArg α κ) : Prop := ∀ r ∈ operandRuns a, RunOn C r

theorem argRuns_dbl [One κ] {tags : TagsArg} {a : SigArg α κ} (h : ArgOn C a) :
    @argRuns _ _ Rnd.double _ tags a = argRuns tags a := by
  cases a with
  | sync s => rfl
  | set S =>
    simp only [argRuns]
    rw [reorder_dbl (fun r hr => h r hr)]

theorem argRuns_on [One κ] {tags : TagsArg} {a : SigArg α κ} (h : ArgOn C a) {rs : List (Sync α κ)}
    (ha : argRuns tags a = .ok rs) : ∀ r ∈ rs, RunOn C r := by
  cases a with
  | sync s =>
    simp only [argRuns, Except.ok.injEq] at ha
    subst ha
    exact h
  | set S =>
    simp only [argRuns] at ha
    split at ha
    · simp at ha
    · rename_i he
      simp only [Except.ok.injEq] at ha
      subst ha
      exact reorder_on h he

theorem new_flat_on [One κ] {tags : TagsArg} {args : List (SigArg α κ)} (h : ∀ a ∈ args, ArgOn C a)
    {rss : List (List (Sync α κ))} (he : mapE (argRuns tags) args = .ok rss) : ∀ r ∈ rss.flatten, RunOn C r := by
  intro r hr
  obtain ⟨rs, hrs, hr⟩ := List.mem_flatten.1 hr
  obtain ⟨a, ha, hb⟩ := mapE_ok_exists he rs hrs
  exact argRuns_on (h a ha) hb r hr

theorem new_dbl [One κ] {tags : TagsArg} {args : List (SigArg α κ)} (h : ∀ a ∈ args, ArgOn C a) :
    Dbl.new tags args = new tags args := by
  unfold Dbl.new new
  rw [show mapE (@argRuns _ _ Rnd.double _ tags) args = mapE (argRuns tags) args from
    mapE_congr (fun a ha => argRuns_dbl (h a ha))]
  split
  · rfl
  · rename_i he
    exact build_dbl (new_flat_on h he)

theorem new_on [One κ] {tags : TagsArg} {args : List (SigArg α κ)} (h : ∀ a ∈ args, ArgOn C a) {S : SigSet α κ}
    (hS : new tags args = .ok S) : ∀ r ∈ S.runs, RunOn C r := by
  unfold new at hS
  split at hS
  · simp at hS
  · rename_i he
    exact build_on hS (new_flat_on h he)

theorem join_args {S : SigSet α κ} {args : List (SigArg α κ)} (hS : ∀ r ∈ S.runs, RunOn C r)
    (h : ∀ a ∈ args, ArgOn C a) : ∀ a ∈ SigArg.set S :: args, ArgOn C a := by
  intro a ha
  rcases List.mem_cons.1 ha with rfl | ha
  · exact hS
  · exact h a ha

theorem join_dbl [One κ] {S : SigSet α κ} {args : List (SigArg α κ)} (hS : ∀ r ∈ S.runs, RunOn C r)
    (h : ∀ a ∈ args, ArgOn C a) : Dbl.join S args = S.join args := new_dbl (join_args hS h)

theorem join_on [One κ] {S S' : SigSet α κ} {args : List (SigArg α κ)} (hS : ∀ r ∈ S.runs, RunOn C r)
    (h : ∀ a ∈ args, ArgOn C a) (he : S.join args = .ok S') : ∀ r ∈ S'.runs, RunOn C r := new_on (join_args hS h) he

theorem selectChannels_dbl [One κ] {S : SigSet α κ} (hS : ∀ r ∈ S.runs, RunOn C r) (sel : ChanSel) :
    Dbl.selectChannels S sel = S.selectChannels sel ∧
      ∀ S', S.selectChannels sel = .ok S' → ∀ r ∈ S'.runs, RunOn C r := by
  unfold Dbl.selectChannels selectChannels
  split
  · simp
  · split
    · simp
    · split
      · simp
      · rename_i he
        have := mapE_on (C := C) he (fun s hs r hr => select_on (hS s hs) hr)
        exact ⟨build_dbl this, fun S' h' => build_on h' this⟩

theorem selectRuns_dbl {S : SigSet α κ} (hS : ∀ r ∈ S.runs, RunOn C r) (sel : RunIdx) :
    Dbl.selectRuns S sel = S.selectRuns sel ∧
      ∀ S', S.selectRuns sel = .ok S' → ∀ r ∈ S'.runs, RunOn C r := by
  unfold Dbl.selectRuns selectRuns
  split
  · simp
  · have : ∀ idx : List Nat, ∀ r ∈ idx.filterMap (fun i => S.runs[i]?), RunOn C r := by
      intro idx r hr
      obtain ⟨i, -, hi⟩ := List.mem_filterMap.1 hr
      exact hS r (List.mem_of_getElem? hi)
    exact ⟨build_dbl (this _), fun S' h' => build_on h' (this _)⟩

theorem win_on {s : Sync α κ} (hs : RunOn C s) {a b : ℚ} (h1 : 1 < (s.win a b).size) : RunOn C (s.win a b) := by
  have hr := OnClockLemmas.rate_pos hs.2
  obtain ⟨k, hk, hrate⟩ := hs.2.rate
  have hle : s.iHi b ≤ s.size := by unfold Sync.iHi; exact min_le_left _ _
  have hsz : (s.win a b).size = s.iHi b - s.iLo a := rfl
  have hcut : s.iLo a + (s.iHi b - s.iLo a) ≤ s.size := by omega
  refine ⟨Sync.cut_wf hs.1 (by omega), ?_⟩
  have hst : (s.win a b).start = sampleTime s.rate s.start (s.iLo a) := rfl
  have hrt : (s.win a b).rate = s.rate := rfl
  have hlast : lastTime (s.win a b) = sampleTime s.rate s.start (s.iLo a + (s.iHi b - s.iLo a) - 1) := by
    rw [Sync.lastTime_eq (by omega), hst, hrt, sampleTime_add, hsz]
    congr 1; omega
  have key : ∀ i : Nat, i < s.size → C.lo ≤ sampleTime s.rate s.start i ∧ sampleTime s.rate s.start i ≤ C.hi :=
    fun i hi => ⟨hs.2.start_lo.trans (Sync.start_le_sampleTime hr i), (Sync.sampleTime_le_last hr hi).trans hs.2.last_hi⟩
  obtain ⟨k1, k2⟩ := key (s.iLo a) (by omega)
  obtain ⟨k3, k4⟩ := key (s.iLo a + (s.iHi b - s.iLo a) - 1) (by omega)
  refine ⟨⟨k, hk, hrate⟩, ?_, by rw [hst]; exact k1, by rw [hst]; exact k2, by rw [hlast]; exact k3, by rw [hlast]; exact k4⟩
  rw [hst]
  unfold sampleTime
  rw [hrate]
  exact tick_add hs.2.tick (by exact_mod_cast tick_div hk (s.iLo a : ℤ))

theorem extractIn_on [One κ] {S S' : SigSet α κ} (hS : ∀ r ∈ S.runs, RunOn C r) {a b : ℚ}
    (h : S.extractIn a b = .ok S') : ∀ r ∈ S'.runs, RunOn C r := by
  rw [extractIn_eq (fun s hs => (hS s hs).1) (fun s hs => OnClockLemmas.rate_pos (hS s hs).2)] at h
  refine build_on h ?_
  intro r hr
  unfold winRuns at hr
  simp only [List.mem_filter, List.mem_map, decide_eq_true_eq] at hr
  obtain ⟨⟨s, hs, rfl⟩, hr⟩ := hr
  exact win_on (hS s hs) hr

/-- The bound of a window matters to a run only inside its interval, where it must be on a tick. -/
def WindowOn (C : Clock) (S : SigSet α κ) (t : ℚ) : Prop := ∀ s ∈ S.runs, s.start ≤ t → t ≤ lastTime s → Tick C.g t

theorem extractIn_dbl [One κ] {S : SigSet α κ} (hS : ∀ r ∈ S.runs, RunOn C r) {a b : ℚ} (ha : WindowOn C S a)
    (hb : WindowOn C S b) : @extractIn _ _ Rnd.double _ S a b = S.extractIn a b := by
  unfold extractIn
  rw [show mapE (fun s : Sync α κ => @Sync.extractT _ _ Rnd.double _ s a b false) S.runs =
      mapE (fun s : Sync α κ => s.extractT a b) S.runs from
    mapE_congr (fun s hs => OnClockLemmas.extractT_eq (hS s hs).2 false (ha s hs) (hb s hs))]
  cases he : mapE (fun s : Sync α κ => s.extractT a b) S.runs with
  | error e => rfl
  | ok rs =>
    refine build_dbl (C := C) ?_
    intro r hr
    simp only [List.mem_filter, decide_eq_true_eq] at hr
    obtain ⟨s, hs, hrs⟩ := mapE_ok_exists he r hr.1
    obtain ⟨r', e3, e4, e5⟩ := Sync.extractT_win (hS s hs).1 (OnClockLemmas.rate_pos (hS s hs).2) a b
    rw [hrs] at e3
    simp only [Except.ok.injEq] at e3
    subst e3
    rw [e5 hr.2]
    exact win_on (hS s hs) (e4.1 hr.2)

theorem npMin_mem {l : List ℚ} {x : ℚ} (h : npMin l = .ok x) : x ∈ l := by
  cases l with
  | nil => simp [npMin] at h
  | cons a l =>
    simp only [npMin, Except.ok.injEq] at h
    subst h
    induction l generalizing a with
    | nil => simp
    | cons b l ih =>
      simp only [List.foldl_cons]
      rcases List.mem_cons.1 (ih (min a b)) with h | h
      · rw [h]; rcases min_choice a b with h' | h' <;> simp [h']
      · simp [h]

theorem npMax_mem {l : List ℚ} {x : ℚ} (h : npMax l = .ok x) : x ∈ l := by
  cases l with
  | nil => simp [npMax] at h
  | cons a l =>
    simp only [npMax, Except.ok.injEq] at h
    subst h
    induction l generalizing a with
    | nil => simp
    | cons b l ih =>
      simp only [List.foldl_cons]
      rcases List.mem_cons.1 (ih (max a b)) with h | h
      · rw [h]; rcases max_choice a b with h' | h' <;> simp [h']
      · simp [h]

theorem stops_dbl {runs : List (Sync α κ)} (h : ∀ r ∈ runs, RunOn C r) :
    mapE (@Sync.stop _ _ Rnd.double) runs = mapE Sync.stop runs :=
  mapE_congr (fun r hr => OnClockLemmas.stop_eq (h r hr).2)

theorem stops_mem {runs : List (Sync α κ)} (h : ∀ r ∈ runs, RunOn C r) {ts : List ℚ}
    (hts : mapE Sync.stop runs = .ok ts) : ∀ t ∈ ts, Tick C.g t := by
  intro t ht
  obtain ⟨s, hs, he⟩ := mapE_ok_exists hts t ht
  rw [Sync.stop_eq s (OnClockLemmas.rate_pos (h s hs).2).ne'] at he
  simp only [Except.ok.injEq] at he
  rw [← he]
  exact OnClockLemmas.lastTime_tick (h s hs).2

theorem extractT_dbl [One κ] {S : SigSet α κ} (hS : ∀ r ∈ S.runs, RunOn C r) {a b : ℚ} (ha : WindowOn C S a)
    (hb : WindowOn C S b) (exclude : Bool) : Dbl.extractT S a b exclude = S.extractT a b exclude ∧
      ∀ S', S.extractT a b exclude = .ok S' → ∀ r ∈ S'.runs, RunOn C r := by
  cases exclude with
  | false =>
    unfold Dbl.extractT extractT
    simp only [Bool.false_eq_true, if_false]
    exact ⟨extractIn_dbl hS ha hb, fun S' h => extractIn_on hS h⟩
  | true =>
    unfold Dbl.extractT extractT
    simp only [if_true]
    rw [stops_dbl hS]
    cases hmin : npMin (S.runs.map (fun s => s.start)) with
    | error e => simp
    | ok first =>
      simp only
      have hf : WindowOn C S first := by
        intro _ _ _ _
        obtain ⟨s, hs, rfl⟩ := List.mem_map.1 (npMin_mem hmin)
        exact (hS s hs).2.tick
      rw [extractIn_dbl hS hf ha]
      cases hl : S.extractIn first a with
      | error e => simp
      | ok left =>
        simp only
        cases hst : mapE Sync.stop S.runs with
        | error e => simp
        | ok stops =>
          simp only
          cases hmax : npMax stops with
          | error e => simp
          | ok last =>
            simp only
            have hla : WindowOn C S last := fun _ _ _ _ => stops_mem hS hst _ (npMax_mem hmax)
            rw [extractIn_dbl hS hb hla]
            cases hr : S.extractIn b last with
            | error e => simp
            | ok right =>
              simp only
              have h1 := extractIn_on hS hl
              have h2 : ∀ x ∈ [SigArg.set right], ArgOn C x := by
                intro x hx
                rw [List.mem_singleton.1 hx]
                exact extractIn_on hS hr
              exact ⟨join_dbl h1 h2, fun S' h => join_on h1 h2 h⟩

/-! ### `merge` -/

theorem common_ticks {ivss : List (List (ℚ × ℚ))} {P : ℚ → Prop} (h : ∀ ivs ∈ ivss, ∀ i ∈ ivs, P i.1 ∧ P i.2)
    {d f : ℚ} (hd : P d) (hf : P f) : ∀ x ∈ common ivss d f, P x.1 ∧ P x.2 := by
  induction ivss generalizing d f with
  | nil =>
    intro x hx
    simp only [common, List.mem_singleton] at hx
    subst hx
    exact ⟨hd, hf⟩
  | cons ivs ivss ih =>
    have ih' := fun {d f : ℚ} (hd : P d) (hf : P f) => ih (fun ivs h' => h ivs (by simp [h'])) hd hf
    have hi := h ivs (by simp)
    intro x hx
    simp only [common] at hx
    clear h ih
    induction ivs with
    | nil => simp [common.go] at hx
    | cons i ivs ih2 =>
      simp only [common.go] at hx
      have h1 := hi i (by simp)
      have hrest := fun h => ih2 (fun i h' => hi i (by simp [h'])) h
      split at hx
      · exact hrest hx
      · split at hx
        · simp at hx
        · rcases List.mem_append.1 hx with hx | hx
          · refine ih' ?_ ?_ x hx
            · rcases max_choice d i.1 with h' | h' <;> rw [h']
              · exact hd
              · exact h1.1
            · rcases min_choice f i.2 with h' | h' <;> rw [h']
              · exact hf
              · exact h1.2
          · exact hrest hx

theorem mergeIntervals_dbl {seqs : List (SigSet α κ)} (h : ∀ S ∈ seqs, ∀ r ∈ S.runs, RunOn C r) :
    @mergeIntervals _ _ Rnd.double seqs = mergeIntervals seqs := by
  unfold mergeIntervals
  rw [show mapE (fun S : SigSet α κ => mapE (@Sync.interval _ _ Rnd.double) S.runs) seqs =
      mapE (fun S : SigSet α κ => mapE Sync.interval S.runs) seqs from
    mapE_congr (fun S hS => mapE_congr (fun r hr => OnClockLemmas.interval_eq (h S hS r hr).2))]

theorem mergeIntervals_ticks {seqs : List (SigSet α κ)} (h : ∀ S ∈ seqs, ∀ r ∈ S.runs, RunOn C r)
    {ivs : List (ℚ × ℚ)} (he : mergeIntervals seqs = .ok ivs) : ∀ i ∈ ivs, Tick C.g i.1 ∧ Tick C.g i.2 := by
  unfold mergeIntervals at he
  split at he
  · simp at he
  rename_i ivss h1
  have hiv : ∀ l ∈ ivss, ∀ i ∈ l, Tick C.g i.1 ∧ Tick C.g i.2 := by
    intro l hl i hi
    obtain ⟨S, hS, hSl⟩ := mapE_ok_exists h1 l hl
    obtain ⟨s, hs, hsi⟩ := mapE_ok_exists hSl i hi
    have hon := (h S hS s hs).2
    rw [Sync.interval_eq _ (OnClockLemmas.rate_pos hon).ne'] at hsi
    simp only [Except.ok.injEq] at hsi
    rw [← hsi]
    exact ⟨hon.tick, OnClockLemmas.lastTime_tick hon⟩
  have hbd : ∀ l ∈ ivss, ∀ t ∈ bounds l, Tick C.g t := by
    intro l hl t ht
    unfold bounds at ht
    obtain ⟨i, hi, ht⟩ := List.mem_flatMap.1 ht
    simp only [List.mem_cons, List.not_mem_nil, or_false] at ht
    rcases ht with rfl | rfl
    · exact (hiv l hl i hi).1
    · exact (hiv l hl i hi).2
  split at he
  · simp at he
  rename_i mins h2
  split at he
  · simp at he
  rename_i start h3
  split at he
  · simp at he
  rename_i maxs h4
  split at he
  · simp at he
  rename_i stop h5
  simp only [Except.ok.injEq] at he
  subst he
  refine common_ticks hiv ?_ ?_
  · obtain ⟨l, hl, hm⟩ := mapE_ok_exists h2 start (npMin_mem h3)
    exact hbd l hl _ (npMin_mem hm)
  · obtain ⟨l, hl, hm⟩ := mapE_ok_exists h4 stop (npMax_mem h5)
    exact hbd l hl _ (npMax_mem hm)

theorem mergeOne_dbl [One κ] {seqs : List (SigSet α κ)} (h : ∀ S ∈ seqs, ∀ r ∈ S.runs, RunOn C r) {a b : ℚ}
    (ha : Tick C.g a) (hb : Tick C.g b) : @mergeOne _ _ Rnd.double _ seqs a b = mergeOne seqs a b := by
  unfold mergeOne
  rw [show mapE (fun S : SigSet α κ => @extractIn _ _ Rnd.double _ S a b) seqs =
      mapE (fun S : SigSet α κ => S.extractIn a b) seqs from
    mapE_congr (fun S hS => extractIn_dbl (h S hS) (fun _ _ _ _ => ha) (fun _ _ _ _ => hb))]

theorem mergeOne_on [One κ] {seqs : List (SigSet α κ)} (h : ∀ S ∈ seqs, ∀ r ∈ S.runs, RunOn C r) {a b : ℚ}
    {s : Sync α κ} (he : mergeOne seqs a b = .ok (some s)) : RunOn C s := by
  unfold mergeOne at he
  split at he
  · simp at he
  rename_i sets h1
  split at he
  · dsimp only at he
    have hss : ∀ r ∈ sets.flatMap (fun S => S.runs), RunOn C r := by
      intro r hr
      obtain ⟨S', hS', hr⟩ := List.mem_flatMap.1 hr
      obtain ⟨S, hS, hSS⟩ := mapE_ok_exists h1 S' hS'
      exact extractIn_on (h S hS) hSS r hr
    generalize hl : sets.flatMap (fun S => S.runs) = ss at he hss
    split at he
    · rename_i rate hd
      split at he
      · rename_i hst
        split at he
        · simp at he
        · rename_i s' hn
          simp only [Except.ok.injEq, Option.some.injEq] at he
          subst he
          obtain ⟨hw, e1, e2, e3, -⟩ := Sync.new_ok hn
          obtain ⟨hne, hr⟩ := dedup_eq_singleton.1 hd
          cases ss with
          | nil => simp at hne
          | cons r ss =>
            have hr1 := hss r (by simp)
            refine ⟨hw, hr1.2.of_clock ?_ ?_ ?_⟩
            · rw [e2]; exact (hr r.rate (by simp)).symm
            · rw [e3]
              have := List.all_eq_true.1 hst r (by simp)
              exact (beq_iff_eq.1 this).symm
            · have hd0 := List.exists_mem_of_ne_nil _ hr1.1.nonempty
              obtain ⟨d, hd⟩ := hd0
              rw [← hr1.1.rect d hd, hw.rect d (by rw [e1]; simp [hd])]
      · simp at he
    · simp at he
  · simp at he

theorem merge_dbl [One κ] {S : SigSet α κ} {others : List (SigSet α κ)} (hS : ∀ r ∈ S.runs, RunOn C r)
    (ho : ∀ T ∈ others, ∀ r ∈ T.runs, RunOn C r) : Dbl.merge S others = S.merge others ∧
      ∀ S', S.merge others = .ok S' → ∀ r ∈ S'.runs, RunOn C r := by
  have h : ∀ T ∈ S :: others, ∀ r ∈ T.runs, RunOn C r := by
    intro T hT
    rcases List.mem_cons.1 hT with rfl | hT
    · exact hS
    · exact ho T hT
  unfold Dbl.merge merge
  cases mergeTags (S :: others) with
  | error e => simp
  | ok t =>
    simp only [mergeIntervals_dbl h]
    cases hi : mergeIntervals (S :: others) with
    | error e => simp
    | ok ivs =>
      have ht := mergeIntervals_ticks h hi
      simp only
      rw [show mapE (fun i : ℚ × ℚ => @mergeOne _ _ Rnd.double _ (S :: others) i.1 i.2) ivs =
          mapE (fun i : ℚ × ℚ => mergeOne (S :: others) i.1 i.2) ivs from
        mapE_congr (fun i hi => mergeOne_dbl h (ht i hi).1 (ht i hi).2)]
      cases hm : mapE (fun i : ℚ × ℚ => mergeOne (S :: others) i.1 i.2) ivs with
      | error e => simp
      | ok rs =>
        have hon : ∀ r ∈ rs.filterMap id, RunOn C r := by
          intro r hr
          simp only [List.mem_filterMap, id_eq, exists_eq_right] at hr
          obtain ⟨i, hi, he⟩ := mapE_ok_exists hm _ hr
          exact mergeOne_on h he
        exact ⟨build_dbl hon, fun S' h' => build_on h' hon⟩

/-! ### Consecutive runs -/

theorem fl_nonneg {x : ℚ} (h : 0 ≤ x) : 0 ≤ fl x := by
  have := (abs_le.1 (fl_err x)).1
  rw [abs_of_nonneg h] at this
  have h2 : x / 2 ^ 53 ≤ x := div_le_self h (by norm_num)
  linarith

theorem fl_le {x : ℚ} (h : 0 ≤ x) : fl x ≤ x * (1 + 1 / 2 ^ 53) := by
  have := (abs_le.1 (fl_err x)).2
  rw [abs_of_nonneg h] at this
  linarith [mul_add x 1 (1 / 2 ^ 53), (mul_one_div x (2 ^ 53))]

theorem fl_abs_ge (x : ℚ) : |x| * (1 - 1 / 2 ^ 53) ≤ |fl x| := by
  have h1 := fl_err x
  have h2 : |x| ≤ |fl x| + |fl x - x| := by
    have := abs_sub_abs_le_abs_sub x (fl x)
    rw [abs_sub_comm] at this
    linarith
  linarith [mul_sub |x| 1 (1 / 2 ^ 53), (mul_one_div |x| (2 ^ 53))]

theorem isclose_dbl_same (p : ℚ) : @isclose Rnd.double p p = isclose p p := by
  unfold isclose
  simp only [Rnd.rnd_double, Rnd.rnd_exact, sub_self, fl_zero, abs_zero]
  have h1 : 0 ≤ fl (fl (1 / 10 ^ 8) + fl (fl (1 / 10 ^ 5) * |p|)) :=
    fl_nonneg (add_nonneg (fl_nonneg (by norm_num)) (fl_nonneg (mul_nonneg (fl_nonneg (by norm_num)) (abs_nonneg p))))
  have h2 : 0 ≤ 1 / 10 ^ 8 + 1 / 10 ^ 5 * |p| := by positivity
  rw [decide_eq_true h1, decide_eq_true h2]

theorem isclose_dbl_far {p g : ℚ} (h : 2 * (1 / 10 ^ 8 + 1 / 10 ^ 5 * |g|) ≤ |p - g|) :
    @isclose Rnd.double p g = isclose p g := by
  unfold isclose
  simp only [Rnd.rnd_double, Rnd.rnd_exact]
  have hg := abs_nonneg g
  have h2 : 0 < 1 / 10 ^ 8 + 1 / 10 ^ 5 * |g| := by positivity
  have h3 := fl_abs_ge (p - g)
  have a1 : fl (1 / 10 ^ 8) ≤ 1 / 10 ^ 8 * (1 + 1 / 2 ^ 53) := fl_le (by norm_num)
  have a2 : fl (1 / 10 ^ 5) ≤ 1 / 10 ^ 5 * (1 + 1 / 2 ^ 53) := fl_le (by norm_num)
  have b1 : 0 ≤ fl (1 / 10 ^ 8) := fl_nonneg (by norm_num)
  have b2 : 0 ≤ fl (1 / 10 ^ 5) := fl_nonneg (by norm_num)
  have a3 : fl (fl (1 / 10 ^ 5) * |g|) ≤ fl (1 / 10 ^ 5) * |g| * (1 + 1 / 2 ^ 53) := fl_le (by positivity)
  have b3 : 0 ≤ fl (fl (1 / 10 ^ 5) * |g|) := fl_nonneg (by positivity)
  have a4 := fl_le (add_nonneg b1 b3)
  have a5 : fl (1 / 10 ^ 5) * |g| ≤ 1 / 10 ^ 5 * (1 + 1 / 2 ^ 53) * |g| := mul_le_mul_of_nonneg_right a2 hg
  rw [decide_eq_false (by linarith), decide_eq_false]
  rw [not_le]
  norm_num at *
  nlinarith

theorem isConsecutive_dbl {runs : List (Sync α κ)} (h : ∀ r ∈ runs, RunOn C r) (hc : runs.IsChain ClearCut) (rate : ℚ) :
    @isConsecutive _ _ Rnd.double rate runs = isConsecutive rate runs := by
  induction runs with
  | nil => rfl
  | cons a l ih =>
    cases l with
    | nil => rfl
    | cons b l =>
      simp only [isConsecutive]
      rw [ih (fun r hr => h r (by simp [hr])) (List.isChain_cons_cons.1 hc).2]
      congr 1
      by_cases ha : a.rate = rate
      · by_cases hb : b.rate = rate
        · have hA := (h a (by simp)).2
          have hB := (h b (by simp)).2
          have ht := OnClockLemmas.time_eq hA ((a.size : ℤ) - 1)
          have hl : a.start + (((a.size : ℤ) - 1 : ℤ) : ℚ) / a.rate = lastTime a := by unfold lastTime; push_cast; rfl
          rw [hl] at ht
          obtain ⟨h1, h2⟩ := ht hA.last_lo hA.last_hi
          push_cast at h1
          have h3 : fl (b.start - lastTime a) = b.start - lastTime a :=
            fl_of_double (OnClockLemmas.double_sub hB.tick h2 hB.start_lo hB.start_hi hA.last_lo hA.last_hi)
          obtain ⟨k, -, hk⟩ := hA.rate
          have h4 : fl (1 / rate) = 1 / rate := by
            rw [← ha, hk]
            exact_mod_cast fl_of_double (isDouble_div (i := 1) (by norm_num) k)
          simp only [Rnd.rnd_double, Rnd.rnd_exact]
          rw [h1, h3, h4]
          have hg : b.start - lastTime a = gap a b := rfl
          have hg' : b.start - (a.start + ((a.size : ℚ) - 1) / a.rate) = gap a b := rfl
          rw [hg, hg']
          rcases (List.isChain_cons_cons.1 hc).1 (ha.trans hb.symm) with h5 | h5
          · rw [h5, ha, isclose_dbl_same]
          · rw [isclose_dbl_far (by rw [← ha]; exact h5)]
        · rw [beq_eq_false_iff_ne.2 hb]; simp
      · rw [beq_eq_false_iff_ne.2 ha]; simp

/-- Two runs of a chain of clear-cut runs are one period apart. -/
theorem contAt_gap {rate : ℚ} {p q : Sync α κ × Nat} (h : contAt rate p q = true) (hc : ClearCut p.1 q.1) :
    gap p.1 q.1 = 1 / rate ∧ p.1.rate = rate ∧ q.1.rate = rate := by
  simp only [contAt, cont, Bool.and_eq_true, decide_eq_true_eq, continuesAs_exact] at h
  obtain ⟨⟨h1, h2⟩, h3, h4⟩ := h
  refine ⟨?_, h1, h2⟩
  rcases hc h3 with h5 | h5
  · rw [h5, h1]
  · exfalso
    have : 0 ≤ 1 / 10 ^ 5 * |gap p.1 q.1| := by positivity
    linarith

theorem glue_last {rate : ℚ} {s : Sync α κ} {l : List (Sync α κ)} (hr : rate ≠ 0)
    (h : (s :: l).IsChain (fun a b => gap a b = 1 / rate)) (hrate : ∀ a ∈ s :: l, a.rate = rate) :
    s.start + ((((s :: l).map (fun v => v.size)).sum : Nat) - 1 : ℚ) / rate = lastTime ((s :: l).getLast (by simp)) := by
  induction l generalizing s with
  | nil => simp [lastTime, hrate s (by simp)]
  | cons b l ih =>
    obtain ⟨h1, h2⟩ := List.isChain_cons_cons.1 h
    have := ih h2 (fun a ha => hrate a (by simp [ha]))
    rw [List.getLast_cons (by simp), ← this]
    unfold gap lastTime at h1
    rw [hrate s (by simp)] at h1
    rw [List.map_cons, List.sum_cons]
    push_cast
    have e : b.start = 1 / rate + (s.start + ((s.size : ℚ) - 1) / rate) := by linarith
    rw [e]
    field_simp
    ring

theorem glue_on {rate : ℚ} {l : List (Sync α κ)} (hl : ∀ s ∈ l, RunOn C s)
    (hch : ∀ s ∈ l, ∀ s' ∈ l, s.data.length = s'.data.length) (hrate : ∀ s ∈ l, s.rate = rate)
    (h : l.IsChain (fun a b => gap a b = 1 / rate)) {s : Sync α κ} (hg : glue l = [s]) : RunOn C s := by
  have hw : WF s := glue_wf (fun s hs => (hl s hs).1) hch s (by rw [hg]; simp)
  cases l with
  | nil => simp [glue] at hg
  | cons r l =>
    have hr := (hl r (by simp)).2
    have hr0 : rate ≠ 0 := by rw [← hrate r (by simp)]; exact (OnClockLemmas.rate_pos hr).ne'
    have hlast := glue_last hr0 h hrate
    simp only [glue, List.cons.injEq, and_true] at hg
    have e1 : s.rate = r.rate := by rw [← hg]
    have e2 : s.start = r.start := by rw [← hg]
    have e3 : s.size = ((r :: l).map (fun v => v.size)).sum := by rw [← hg]
    have e4 : lastTime s = lastTime ((r :: l).getLast (by simp)) := by
      rw [← hlast]
      unfold lastTime
      rw [e1, e2, e3, hrate r (by simp)]
    have hz := (hl _ (List.getLast_mem (by simp : r :: l ≠ []))).2
    exact ⟨hw, by rw [e1]; exact hr.rate, by rw [e2]; exact hr.tick, by rw [e2]; exact hr.start_lo,
      by rw [e2]; exact hr.start_hi, by rw [e4]; exact hz.last_lo, by rw [e4]; exact hz.last_hi⟩

theorem fuseStep_dbl [One κ] {S : SigSet α κ} (hI : SInv S) (hp : Plain S.tags) (hS : ∀ r ∈ S.runs, RunOn C r)
    (hcc : S.runs.IsChain ClearCut) {rate : ℚ} {c : List (Sync α κ × Nat)}
    (hc : c ∈ chains (contAt rate) S.runs.zipIdx) (hl : long c = true) {st : SigSet α κ × List Nat}
    (hst : ∀ r ∈ st.1.runs, RunOn C r) {g : Nat × Option Nat} (hg : (g.1, g.2.getD S.runs.length) = ends c) :
    @fuseStep _ _ Rnd.double _ S rate st g = fuseStep S rate st g ∧
      ∀ st', fuseStep S rate st g = .ok st' → ∀ r ∈ st'.1.runs, RunOn C r := by
  obtain ⟨m, s, hsel, hs1, hs2, hidx⟩ := fuseStep_parts hI hp hc hl hg
  have hsub : ∀ s ∈ c.map Prod.fst, s ∈ S.runs := by
    intro s hs
    obtain ⟨p, hpc, rfl⟩ := List.mem_map.1 hs
    exact List.mem_of_getElem? (List.mem_zipIdx_iff_getElem?.1 (mem_chains hc p hpc))
  have hs : RunOn C s := by
    have hinf : c.map Prod.fst <:+: S.runs := by
      obtain ⟨u, v, huv⟩ := List.append_of_mem hc
      have hfl := chains_flatten (contAt rate) S.runs.zipIdx
      have : c <:+: S.runs.zipIdx := by
        refine ⟨u.flatten, v.flatten, ?_⟩
        rw [← hfl, huv]; simp
      have h2 := this.map Prod.fst
      rwa [List.zipIdx_map_fst] at h2
    have hcc' : (c.map Prod.fst).IsChain ClearCut := hcc.infix hinf
    have hch := chains_chain (contAt rate) S.runs.zipIdx c hc
    have hgap : (c.map Prod.fst).IsChain (fun a b => gap a b = 1 / rate) ∧ ∀ s ∈ c.map Prod.fst, s.rate = rate := by
      have hlen : 1 < c.length := by simpa [long] using hl
      clear hsel hs1 hs2 hidx hinf hsub hg hl hc
      induction c with
      | nil => simp at hlen
      | cons p c ih =>
        cases c with
        | nil => simp at hlen
        | cons q c =>
          obtain ⟨h1, h2⟩ := List.isChain_cons_cons.1 hch
          simp only [List.map_cons] at hcc'
          obtain ⟨h3, h4⟩ := List.isChain_cons_cons.1 hcc'
          obtain ⟨k1, k2, k3⟩ := contAt_gap h1 h3
          cases c with
          | nil => simp [k1, k2, k3]
          | cons r c =>
            obtain ⟨i1, i2⟩ := ih h4 h2 (by simp)
            refine ⟨List.isChain_cons_cons.2 ⟨k1, i1⟩, ?_⟩
            intro s hs
            rcases List.mem_cons.1 hs with rfl | hs
            · exact k2
            · exact i2 s hs
    exact glue_on (fun s hs => hS s (hsub s hs)) (fun s hs s' hs' => hI.ok.chans s (hsub s hs) s' (hsub s' hs'))
      hgap.2 hgap.1 hs2
  have hargs : ∀ a ∈ [SigArg.sync s], ArgOn C a := by
    intro a ha
    rw [List.mem_singleton.1 ha]
    intro r hr
    simp only [operandRuns, List.mem_singleton] at hr
    rw [hr]; exact hs
  have hd := (selectRuns_dbl hS (.slice (some g.1) (g.2.map Int.ofNat) none)).1
  unfold Dbl.selectRuns at hd
  have hj := join_dbl hst hargs
  unfold Dbl.join at hj
  unfold fuseStep
  rw [hd, hsel]
  simp only [hs1, hj]
  refine ⟨trivial, ?_⟩
  intro st' h'
  split at h'
  · simp at h'
  · rename_i res he
    simp only [Except.ok.injEq] at h'
    subst h'
    exact join_on hst hargs he

theorem fold_dbl [One κ] {S : SigSet α κ} (hI : SInv S) (hp : Plain S.tags) (hS : ∀ r ∈ S.runs, RunOn C r)
    (hcc : S.runs.IsChain ClearCut) {rate : ℚ} {st : SigSet α κ × List Nat} (hst : ∀ r ∈ st.1.runs, RunOn C r) :
    foldE (@fuseStep _ _ Rnd.double _ S rate) st (groupIndices (@isConsecutive _ _ Rnd.double rate S.runs)) =
      foldE (fuseStep S rate) st (groupIndices (isConsecutive rate S.runs)) ∧
    ∀ st', foldE (fuseStep S rate) st (groupIndices (isConsecutive rate S.runs)) = .ok st' →
      ∀ r ∈ st'.1.runs, RunOn C r := by
  rw [isConsecutive_dbl hS hcc]
  have hgr := (groups_eq rate S.runs 0 S.runs.length (by simp)).1
  have hmem : ∀ g ∈ groupIndices (isConsecutive rate S.runs), ∃ c ∈ chains (contAt rate) S.runs.zipIdx, long c = true ∧
      (g.1, g.2.getD S.runs.length) = ends c := by
    intro g hg
    have : (g.1, g.2.getD S.runs.length) ∈ ((chains (contAt rate) S.runs.zipIdx).filter long).map ends := by
      rw [← hgr]; exact List.mem_map.2 ⟨g, hg, rfl⟩
    obtain ⟨c, hc, he⟩ := List.mem_map.1 this
    rw [List.mem_filter] at hc
    exact ⟨c, hc.1, hc.2, he.symm⟩
  generalize groupIndices (isConsecutive rate S.runs) = gl at hmem
  clear hgr
  induction gl generalizing st with
  | nil =>
    refine ⟨rfl, ?_⟩
    intro st' h
    simp only [foldE, Except.ok.injEq] at h
    subst h; exact hst
  | cons g gl ih =>
    obtain ⟨c, h1, h2, h3⟩ := hmem g (by simp)
    obtain ⟨e1, e2⟩ := fuseStep_dbl hI hp hS hcc h1 h2 hst h3
    simp only [foldE]
    rw [e1]
    cases he : fuseStep S rate st g with
    | error e => simp
    | ok st1 => exact ih (e2 st1 he) (fun g hg => hmem g (by simp [hg]))

theorem mergeConsecutive_dbl [One κ] {S : SigSet α κ} (hI : SInv S) (hp : Plain S.tags) (hS : ∀ r ∈ S.runs, RunOn C r)
    (hcc : S.runs.IsChain ClearCut) : Dbl.mergeConsecutive S = S.mergeConsecutive ∧
      ∀ S', S.mergeConsecutive = .ok S' → ∀ r ∈ S'.runs, RunOn C r := by
  unfold Dbl.mergeConsecutive mergeConsecutive
  have hn := new_dbl (C := C) (tags := .tags S.tags) (args := ([] : List (SigArg α κ))) (by simp)
  unfold Dbl.new at hn
  rw [hn]
  cases h0 : new (.tags S.tags) ([] : List (SigArg α κ)) with
  | error e => simp
  | ok res0 =>
    have hr0 := new_on (C := C) (by simp) h0
    simp only
    generalize sortBy (fun a b : ℚ => decide (a ≤ b)) (dedup (S.runs.map (fun s => s.rate))) = rates
    have hfold : ∀ (rates : List ℚ) (st : SigSet α κ × List Nat), (∀ r ∈ st.1.runs, RunOn C r) →
        foldE (fun st rate => foldE (@fuseStep _ _ Rnd.double _ S rate) st
          (groupIndices (@isConsecutive _ _ Rnd.double rate S.runs))) st rates =
        foldE (fun st rate => foldE (fuseStep S rate) st (groupIndices (isConsecutive rate S.runs))) st rates ∧
        ∀ st', foldE (fun st rate => foldE (fuseStep S rate) st (groupIndices (isConsecutive rate S.runs))) st rates =
          .ok st' → ∀ r ∈ st'.1.runs, RunOn C r := by
      intro rates
      induction rates with
      | nil =>
        intro st hst
        refine ⟨rfl, ?_⟩
        intro st' h
        simp only [foldE, Except.ok.injEq] at h
        subst h; exact hst
      | cons rate rates ih =>
        intro st hst
        obtain ⟨e1, e2⟩ := fold_dbl hI hp hS hcc (rate := rate) hst
        simp only [foldE]
        rw [e1]
        cases he : foldE (fuseStep S rate) st (groupIndices (isConsecutive rate S.runs)) with
        | error e => simp
        | ok st1 => exact ih st1 (e2 st1 he)
    obtain ⟨f1, f2⟩ := hfold rates (res0, []) hr0
    rw [f1]
    cases hf : foldE (fun st rate => foldE (fuseStep S rate) st (groupIndices (isConsecutive rate S.runs)))
        (res0, []) rates with
    | error e => simp
    | ok st =>
      obtain ⟨res, added⟩ := st
      have hres := f2 _ hf
      simp only
      obtain ⟨s1, s2⟩ := selectRuns_dbl hS
        (.list (((List.range S.runs.length).filter (fun i => decide (i ∉ added))).map Int.ofNat))
      unfold Dbl.selectRuns at s1
      rw [s1]
      cases hs : S.selectRuns
          (.list (((List.range S.runs.length).filter (fun i => decide (i ∉ added))).map Int.ofNat)) with
      | error e => simp
      | ok rest =>
        have hargs : ∀ a ∈ [SigArg.set rest], ArgOn C a := by
          intro a ha
          rw [List.mem_singleton.1 ha]
          exact s2 rest hs
        exact ⟨join_dbl hres hargs, fun S' h => join_on hres hargs h⟩

end SigSet
end Razorback
