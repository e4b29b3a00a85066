/-
C109: packing depends neither on the order of the signal sets in the inventory nor on hash order.
-/
import Verif.Props.Inventory
import Verif.Props.Laws
import Verif.Props.MergeLaws
import Verif.Props.SameFor
import Verif.Props.PackSingle
import Verif.Lemmas.PackNamed

namespace Razorback.Props
open Razorback Razorback.SigSet Razorback.Spec
variable {α κ : Type _}

theorem SameSet.refl' (S : SigSet α κ) : SameSet S S :=
  ⟨fun _ _ => Iff.rfl, List.forall₂_same.2 (fun _ _ => ⟨rfl, rfl, rfl, fun _ _ => rfl⟩)⟩

theorem SameSet.symm' {S T : SigSet α κ} (h : SameSet S T) : SameSet T S :=
  ⟨fun k n => (h.names k n).symm, h.runs.flip.imp (fun _ _ h => SameRun.symm' h)⟩

theorem SameSet.hasTag {S T : SigSet α κ} (h : SameSet S T) (k : String) : HasTag S k ↔ HasTag T k := by
  constructor
  · rintro ⟨v, hv⟩
    obtain ⟨w, hw, -⟩ := (h.names k v.length).1 ⟨v, hv, rfl⟩
    exact ⟨w, hw⟩
  · rintro ⟨v, hv⟩
    obtain ⟨w, hw, -⟩ := (h.names k v.length).2 ⟨v, hv, rfl⟩
    exact ⟨w, hw⟩

theorem SameSet.runs_left {S T : SigSet α κ} (h : SameSet S T) : ∀ s ∈ S.runs, ∃ t ∈ T.runs, SameRun S.tags s T.tags t :=
  forall₂_mem_left h.runs

theorem SameSet.runs_right {S T : SigSet α κ} (h : SameSet S T) : ∀ t ∈ T.runs, ∃ s ∈ S.runs, SameRun S.tags s T.tags t :=
  fun t ht => let ⟨s, hs, h'⟩ := SameSet.runs_left (SameSet.symm' h) t ht; ⟨s, hs, SameRun.symm' h'⟩

/-! Joins of sets that cannot be told apart. -/

theorem join_congr [One κ] {S S' R R' : SigSet α κ} {Ts Ts' : List (SigSet α κ)}
    (hT : ∀ T ∈ S :: Ts, Regular T) (hT' : ∀ T ∈ S' :: Ts', Regular T)
    (h1 : ∀ T ∈ S :: Ts, ∃ T' ∈ S' :: Ts', SameSet T T') (h2 : ∀ T' ∈ S' :: Ts', ∃ T ∈ S :: Ts, SameSet T T')
    (h : S.join (Ts.map .set) = .ok R) (h' : S'.join (Ts'.map .set) = .ok R') : SameSet R R' := by
  obtain ⟨a0, a1, a2, a3, a4⟩ := join_sets (hT S (by simp)).reach (fun T h => (hT T (by simp [h])).reach) h
  obtain ⟨b0, b1, b2, b3, b4⟩ := join_sets (hT' S' (by simp)).reach (fun T h => (hT' T (by simp [h])).reach) h'
  have hrR : ∀ s ∈ R.runs, 0 < s.rate ∧ 1 < s.size := by
    intro s hs
    obtain ⟨T, h1, u, hu, hh⟩ := a2 s hs
    rw [hh.rate, hh.size]; exact ⟨(hT T h1).rate u hu, (hT T h1).size u hu⟩
  have hrR' : ∀ s ∈ R'.runs, 0 < s.rate ∧ 1 < s.size := by
    intro s hs
    obtain ⟨T, h1, u, hu, hh⟩ := b2 s hs
    rw [hh.rate, hh.size]; exact ⟨(hT' T h1).rate u hu, (hT' T h1).size u hu⟩
  refine sameSet_of ?_ (strict_of_size a0 hrR) (strict_of_size b0 hrR') ?_ ?_
  · intro k n
    obtain ⟨T', hT'', hs⟩ := h1 S (by simp)
    rw [a4 S (by simp) k n, b4 T' hT'' k n]
    exact hs.names k n
  · intro r hr'
    obtain ⟨T, hm, s, hs, hh⟩ := a2 r hr'
    obtain ⟨T', hm', hS⟩ := h1 T hm
    obtain ⟨s', hs', e⟩ := SameSet.runs_left hS s hs
    obtain ⟨r', hr'', hh'⟩ := b3 T' hm' s' hs'
    exact ⟨r', hr'', SameRun.trans' hh (SameRun.trans' e (SameRun.symm' hh'))⟩
  · intro r' hr'
    obtain ⟨T', hm', s', hs', hh'⟩ := b2 r' hr'
    obtain ⟨T, hm, hS⟩ := h2 T' hm'
    obtain ⟨s, hs, e⟩ := SameSet.runs_right hS s' hs'
    obtain ⟨r, hr, hh⟩ := a3 T hm s hs
    exact ⟨r, hr, SameRun.trans' hh (SameRun.trans' e (SameRun.symm' hh'))⟩

/-! Merges of sets that cannot be told apart. -/

theorem lastTime_same {t t' : Tags} {s s' : Sync α κ} (h : SameRun t s t' s') : lastTime s = lastTime s' := by
  unfold lastTime; rw [h.rate, h.start, h.size]

/-- The same choice of runs in the other operands. -/
theorem choice_same {l l' : List (SigSet α κ)} (h : List.Forall₂ SameSet l l') : ∀ {c : List (Sync α κ)}, Choice c l →
    ∃ c', Choice c' l' ∧ (∀ (i : ℕ) s T, c[i]? = some s → l[i]? = some T →
      ∃ s' T', c'[i]? = some s' ∧ l'[i]? = some T' ∧ SameRun T.tags s T'.tags s' ∧ SameSet T T') ∧
      (∀ s ∈ c, ∃ s' ∈ c', s.rate = s'.rate ∧ s.start = s'.start ∧ lastTime s = lastTime s') ∧
      ∀ s' ∈ c', ∃ s ∈ c, s.rate = s'.rate ∧ s.start = s'.start ∧ lastTime s = lastTime s' := by
  induction h with
  | nil => intro c hc; cases hc; exact ⟨[], .nil, by simp, by simp, by simp⟩
  | @cons T T' l l' hT _ ih =>
    intro c hc
    obtain ⟨s, c, hs, hc2, rfl⟩ := List.forall₂_cons_right_iff.1 hc
    obtain ⟨c', h1, h2, h3, h4⟩ := ih hc2
    obtain ⟨s', hs', e⟩ := SameSet.runs_left hT s hs
    refine ⟨s' :: c', .cons hs' h1, ?_, ?_, ?_⟩
    · intro i u U hu hU
      cases i with
      | zero =>
        simp only [List.getElem?_cons_zero, Option.some.injEq] at hu hU
        subst hu; subst hU
        exact ⟨s', T', rfl, rfl, e, hT⟩
      | succ i => exact h2 i u U (by simpa using hu) (by simpa using hU)
    · intro u hu
      rcases List.mem_cons.1 hu with rfl | hu
      · exact ⟨s', by simp, e.rate, e.start, lastTime_same e⟩
      · obtain ⟨u', hu', e'⟩ := h3 u hu
        exact ⟨u', by simp [hu'], e'⟩
    · intro u hu
      rcases List.mem_cons.1 hu with rfl | hu
      · exact ⟨s, by simp, e.rate, e.start, lastTime_same e⟩
      · obtain ⟨u', hu', e'⟩ := h4 u hu
        exact ⟨u', by simp [hu'], e'⟩

theorem getItem_none_of {t : Tags} {k : String} (h : ¬ ∃ w, t.getItem k = .ok w) (r : Sync α κ) (j : ℕ) :
    designated t r k j = none := by
  unfold designated
  cases e : t.getItem k with
  | ok w => exact absurd ⟨w, e⟩ h
  | error _ => rfl

theorem merge_congr_run [One κ] {S S' R R' : SigSet α κ} {others others' : List (SigSet α κ)}
    (hl : ∀ T ∈ S :: others, Regular T) (hl' : ∀ T ∈ S' :: others', Regular T)
    (hs : List.Forall₂ SameSet (S :: others) (S' :: others'))
    (h : S.merge others = .ok R) (h' : S'.merge others' = .ok R') :
    ∀ r ∈ R.runs, ∃ r' ∈ R'.runs, SameRun R.tags r R'.tags r' := by
  have hR := fun T hT => (hl T hT).reach
  have hp := fun T hT => (hl T hT).plain
  have hr := fun T hT => (hl T hT).rate
  have hR' := fun T hT => (hl' T hT).reach
  have hp' := fun T hT => (hl' T hT).plain
  have hr' := fun T hT => (hl' T hT).rate
  obtain ⟨-, q2, -, -⟩ := merge_runs hR' hp' hr' h'
  intro r hrr
  obtain ⟨c, b, hc, ho, hm, hlast, hne, hw⟩ := merge_sources hR hp hr h r hrr
  obtain ⟨c', hc', hidx, hto, hfrom⟩ := choice_same hs hc
  have ho' : Overlap c' r.start b := by
    refine ⟨?_, ?_, ?_, ?_, ho.lt⟩
    · obtain ⟨s, hs, e⟩ := ho.lo
      obtain ⟨s', hs', -, e', -⟩ := hto s hs
      exact ⟨s', hs', e'.symm.trans e⟩
    · intro s' hs'
      obtain ⟨s, hs, -, e', -⟩ := hfrom s' hs'
      rw [← e']; exact ho.lo_le s hs
    · obtain ⟨s, hs, e⟩ := ho.hi
      obtain ⟨s', hs', -, -, e'⟩ := hto s hs
      exact ⟨s', hs', e'.symm.trans e⟩
    · intro s' hs'
      obtain ⟨s, hs, -, -, e'⟩ := hfrom s' hs'
      rw [← e']; exact ho.le_hi s hs
  obtain ⟨r', hr'', hm'⟩ := q2 c' r.start b r.rate hc' ho' (fun s' hs' => by
    obtain ⟨s, hs, e, -, -⟩ := hfrom s' hs'
    rw [← e]; exact hm.rate s hs)
  have hw' : ∀ s ∈ c', WF s ∧ 0 < s.rate := by
    intro s hs
    obtain ⟨T, hT, hsT⟩ := choice_mem hc' s hs
    exact ⟨(reach_sinv (hR' T hT)).ok.wf s hsT, hr' T hT s hsT⟩
  have hlast' := (hm'.last ((merge_sinv h').ok.wf r' hr'') hw' ho').1
  have erate : r.rate = r'.rate := by
    obtain ⟨s, hs, -⟩ := ho.lo
    obtain ⟨s', hs', e, -, -⟩ := hto s hs
    rw [← hm.rate s hs, ← hm'.rate s' hs', e]
  have hpos : 0 < r.rate := ((merge_runs_strict hR hp hr h).2 r hrr).2.2
  refine ⟨r', hr'', ⟨erate, hm'.start.symm, ?_, ?_⟩⟩
  · have := hlast.trans hlast'.symm
    unfold lastTime at this
    rw [hm'.start, ← erate] at this
    have e2 : ((r.size : ℚ) - 1) / r.rate = ((r'.size : ℚ) - 1) / r.rate := by linarith
    rw [div_left_inj' hpos.ne'] at e2
    have : (r.size : ℚ) = r'.size := by linarith
    exact_mod_cast this
  · intro k j
    by_cases hk : ∃ T ∈ S :: others, ∃ v, T.tags.getItem k = .ok v
    · obtain ⟨T, hT, v, hv⟩ := hk
      obtain ⟨i, hi⟩ := List.mem_iff_getElem?.1 hT
      have hlt : i < c.length := by rw [choice_length hc]; exact (List.getElem?_eq_some_iff.1 hi).1
      have hs : c[i]? = some c[i] := List.getElem?_eq_getElem hlt
      obtain ⟨s', T', e1, e2, e3, e4⟩ := hidx i _ T hs hi
      obtain ⟨v', hv', -⟩ := (e4.names k v.length).1 ⟨v, hv, rfl⟩
      rw [(merge_designated hR hp hr h hc hm hi hs hv).2 j, (merge_designated hR' hp' hr' h' hc' hm' e2 e1 hv').2 j, e3.chans]
    · have k1 : ¬ ∃ w, R.tags.getItem k = .ok w := fun hw => hk ((C22_merge_names S R others hR hp hr h k).1 hw)
      have k2 : ¬ ∃ w, R'.tags.getItem k = .ok w := fun hw => hk (by
        obtain ⟨T', hT', hv⟩ := (C22_merge_names S' R' others' hR' hp' hr' h' k).1 hw
        obtain ⟨T, hT, hss⟩ := forall₂_mem_left hs.flip T' hT'
        exact ⟨T, hT, (SameSet.hasTag hss k).2 hv⟩)
      rw [getItem_none_of k1, getItem_none_of k2]

theorem merge_congr_names [One κ] {S S' R R' : SigSet α κ} {others others' : List (SigSet α κ)}
    (hl : ∀ T ∈ S :: others, Regular T) (hl' : ∀ T ∈ S' :: others', Regular T)
    (hs : List.Forall₂ SameSet (S :: others) (S' :: others'))
    (h : S.merge others = .ok R) (h' : S'.merge others' = .ok R') (k : String) (n : ℕ) :
    (∃ v, R.tags.getItem k = .ok v ∧ v.length = n) → ∃ v, R'.tags.getItem k = .ok v ∧ v.length = n := by
  have key : ∀ {S R : SigSet α κ} {others : List (SigSet α κ)}, (∀ T ∈ S :: others, Regular T) → S.merge others = .ok R →
      ∀ T ∈ S :: others, ∀ v, T.tags.getItem k = .ok v → ∃ w, R.tags.getItem k = .ok w ∧ w.length = v.length := by
    intro S R others hl h T hT v hv
    have hI : ∀ T ∈ S :: others, SInv T := fun T hT => reach_sinv (hl T hT).reach
    obtain ⟨_, _, q3, q4⟩ := merge_runs (fun T hT => (hl T hT).reach) (fun T hT => (hl T hT).plain) (fun T hT => (hl T hT).rate) h
    have hnd : (mergedEntries 0 (S :: others)).keys.Nodup := by
      rw [mergedEntries_keys]; exact (namesDisjoint_iff hI).2 q4
    obtain ⟨i, hi⟩ := List.mem_iff_getElem?.1 hT
    refine ⟨v.map (· + (0 + ((((S :: others).take i).map nbChannels).sum))), ?_, by simp⟩
    rw [Tags.getItem_ok, q3]
    exact Dict.get?_of_mem hnd (mem_mergedEntries.2 ⟨i, T, v, hi, Dict.mem_of_get? (Tags.getItem_ok.1 hv), rfl⟩)
  rintro ⟨v, hv, hn⟩
  obtain ⟨T, hT, w, hw⟩ := (C22_merge_names S R others (fun T hT => (hl T hT).reach) (fun T hT => (hl T hT).plain)
    (fun T hT => (hl T hT).rate) h k).1 ⟨v, hv⟩
  obtain ⟨v2, e1, e2⟩ := key hl h T hT w hw
  obtain ⟨T', hT', hss⟩ := forall₂_mem_left hs T hT
  obtain ⟨w', hw', e⟩ := (hss.names k w.length).1 ⟨w, hw, rfl⟩
  obtain ⟨v3, e3, e4⟩ := key hl' h' T' hT' w' hw'
  rw [hv] at e1
  simp only [Except.ok.injEq] at e1
  exact ⟨v3, e3, by rw [e4, e, ← e2, ← e1, hn]⟩

theorem merge_congr [One κ] {S S' R R' : SigSet α κ} {others others' : List (SigSet α κ)}
    (hl : ∀ T ∈ S :: others, Regular T) (hl' : ∀ T ∈ S' :: others', Regular T)
    (hs : List.Forall₂ SameSet (S :: others) (S' :: others'))
    (h : S.merge others = .ok R) (h' : S'.merge others' = .ok R') : SameSet R R' := by
  have hs' : List.Forall₂ SameSet (S' :: others') (S :: others) := hs.flip.imp (fun _ _ h => SameSet.symm' h)
  refine sameSet_of (fun k n => ⟨merge_congr_names hl hl' hs h h' k n, merge_congr_names hl' hl hs' h' h k n⟩)
    (merge_runs_strict (fun T hT => (hl T hT).reach) (fun T hT => (hl T hT).plain) (fun T hT => (hl T hT).rate) h).1
    (merge_runs_strict (fun T hT => (hl' T hT).reach) (fun T hT => (hl' T hT).plain) (fun T hT => (hl' T hT).rate) h').1
    (merge_congr_run hl hl' hs h h') ?_
  intro r' hr'
  obtain ⟨r, h1, h2⟩ := merge_congr_run hl' hl hs' h' h r' hr'
  exact ⟨r, h1, SameRun.symm' h2⟩

/-! Fusing the runs of sets that cannot be told apart. -/

theorem chains_congr {β γ : Type _} {Q : β → γ → Prop} {f : β → β → Bool} {g : γ → γ → Bool}
    (h : ∀ a b a' b', Q a a' → Q b b' → f a b = g a' b') {l : List β} {l' : List γ} (hl : List.Forall₂ Q l l') :
    List.Forall₂ (List.Forall₂ Q) (chains f l) (chains g l') := by
  induction hl with
  | nil => exact .nil
  | @cons a a' l l' hq hl ih =>
    cases hl with
    | nil => exact .cons (.cons hq .nil) .nil
    | @cons b b' l l' hb hl' =>
      obtain ⟨c, cs, e⟩ := chains_cons f b l
      obtain ⟨c', cs', e'⟩ := chains_cons g b' l'
      rw [e, e'] at ih
      rw [chains_step f a b l e, chains_step g a' b' l' e', h a b a' b' hq hb]
      cases ih with
      | cons i1 i2 =>
        split
        · exact .cons (.cons hq i1) i2
        · exact .cons (.cons hq .nil) (.cons i1 i2)

theorem cont_same {t t' : Tags} {a b a' b' : Sync α κ} (h : SameRun t a t' a') (h' : SameRun t b t' b') :
    cont a b = cont a' b' := by
  have : ContinuesAs a b ↔ ContinuesAs a' b' := by
    unfold ContinuesAs gapAs
    rw [h.rate, h.start, h.size, h'.rate, h'.start]
  unfold cont
  exact decide_eq_decide.2 this

theorem timed_inj {rate start : ℚ} {d d' : List α} (h : timed rate start d = timed rate start d') : d = d' := by
  have := congrArg (List.map Prod.snd) h
  simpa [timed, List.map_map, Function.comp_def] using this

/-- A channel called by a name, in two runs that cannot be told apart. -/
theorem named_same {t t' : Tags} {a a' : Sync α κ} (h : SameRun t a t' a') {k : String} {v v' : List ℕ}
    (hv : t.getItem k = .ok v) (hv' : t'.getItem k = .ok v') {j i i' : ℕ} (hi : v[j]? = some i) (hi' : v'[j]? = some i')
    (hw : WF a) (hlt : i < a.data.length) :
    a.data[i]? = a'.data[i']? ∧ a.cals[i]? = a'.cals[i']? := by
  have e := h.chans k j
  unfold designated at e
  rw [hv, hv'] at e
  simp only [hi, hi', Option.bind_some] at e
  have h1 : a.data[i]? = some a.data[i] := List.getElem?_eq_getElem hlt
  have hlt' : i < a.cals.length := by rw [hw.cals]; exact hlt
  have h2 : a.cals[i]? = some a.cals[i] := List.getElem?_eq_getElem hlt'
  rw [channels_of h1 h2] at e
  obtain ⟨d, d1, d2, d3⟩ := channels_some e.symm
  rw [← h.rate, ← h.start] at d3
  rw [h1, h2, d1, d2, timed_inj d3]
  exact ⟨rfl, rfl⟩

theorem fused_same {t t' : Tags} {r r' : Sync α κ} {g g' : List (Sync α κ)} (hf : Fused r g) (hf' : Fused r' g')
    (hg : List.Forall₂ (fun a a' => SameRun t a t' a') g g') (hne : g ≠ []) (hw : ∀ a ∈ g, WF a)
    (hin : ∀ k v, t.getItem k = .ok v → ∀ i ∈ v, ∀ a ∈ g, i < a.data.length)
    (hin' : ∀ k v, t'.getItem k = .ok v → ∀ i ∈ v, ∀ a ∈ g', i < a.data.length)
    (hn : ∀ k n, (∃ v, t.getItem k = .ok v ∧ v.length = n) ↔ ∃ v, t'.getItem k = .ok v ∧ v.length = n) : SameRun t r t' r' := by
  cases hg with
  | nil => exact absurd rfl hne
  | @cons a a' g g' ha hg =>
    have hsize : ((a :: g).map (fun a => a.size)).sum = ((a' :: g').map (fun a => a.size)).sum := by
      have : List.Forall₂ (fun a a' : Sync α κ => a.size = a'.size) (a :: g) (a' :: g') :=
        .cons ha.size (hg.imp (fun _ _ h => h.size))
      congr 1
      rw [← List.forall₂_eq_eq_eq]
      rw [List.forall₂_map_left_iff, List.forall₂_map_right_iff]
      exact this
    refine ⟨?_, ?_, ?_, ?_⟩
    · rw [hf.rate a (by simp), hf'.rate a' (by simp), ha.rate]
    · rw [hf.start a (by simp), hf'.start a' (by simp), ha.start]
    · rw [hf.size, hf'.size, hsize]
    · intro k j
      by_cases hk : ∃ v, t.getItem k = .ok v
      · obtain ⟨v, hv⟩ := hk
        obtain ⟨v', hv', hl⟩ := (hn k v.length).1 ⟨v, hv, rfl⟩
        unfold designated
        rw [hv, hv']
        simp only
        by_cases hj : j < v.length
        · have e1 : v[j]? = some v[j] := List.getElem?_eq_getElem hj
          have e2 : v'[j]? = some (v'[j]'(by omega)) := List.getElem?_eq_getElem (by omega)
          have m1 : v[j] ∈ v := List.getElem_mem hj
          have m2 : v'[j]'(by omega) ∈ v' := List.getElem_mem _
          rw [e1, e2]
          simp only [Option.bind_some]
          generalize v[j] = i at *
          generalize v'[j]'(by omega) = i' at *
          have hdata : (r.data[i]?).getD [] = (r'.data[i']?).getD [] := by
            rw [hf.data, hf'.data]
            have : List.Forall₂ (fun a a' : Sync α κ => (a.data[i]?).getD [] = (a'.data[i']?).getD []) (a :: g) (a' :: g') := by
              have hall : List.Forall₂ (fun a a' => SameRun t a t' a') (a :: g) (a' :: g') := .cons ha hg
              have hin1 := fun b hb => hin k v hv i m1 b hb
              clear hf hf' hsize hin hin' ha hg hne
              generalize a :: g = l at *
              generalize a' :: g' = l' at *
              induction hall with
              | nil => exact .nil
              | @cons b b' l l' hb _ ih =>
                refine .cons ?_ (ih (fun b hb => hw b (by simp [hb])) (fun b hb => hin1 b (by simp [hb])))
                rw [(named_same hb hv hv' e1 e2 (hw b (by simp)) (hin1 b (by simp))).1]
            have key : ∀ {l l' : List (Sync α κ)}, List.Forall₂ (fun a a' : Sync α κ => (a.data[i]?).getD [] = (a'.data[i']?).getD []) l l' →
                l.flatMap (fun a => (a.data[i]?).getD []) = l'.flatMap (fun a => (a.data[i']?).getD []) := by
              intro l l' h
              induction h with
              | nil => rfl
              | cons h1 _ ih => rw [List.flatMap_cons, List.flatMap_cons, h1, ih]
            exact key this
          have hcal : r.cals[i]? = r'.cals[i']? := by
            rw [hf.cals a (by simp), hf'.cals a' (by simp)]
            exact (named_same ha hv hv' e1 e2 (hw a (by simp)) (hin k v hv i m1 a (by simp))).2
          have l1 : i < r.data.length := by rw [hf.count a (by simp)]; exact hin k v hv i m1 a (by simp)
          have l2 : i' < r'.data.length := by rw [hf'.count a' (by simp)]; exact hin' k v' hv' i' m2 a' (by simp)
          have d1 : r.data[i]? = some r.data[i] := List.getElem?_eq_getElem l1
          have d2 : r'.data[i']? = some r'.data[i'] := List.getElem?_eq_getElem l2
          rw [d1, d2] at hdata
          simp only [Option.getD_some] at hdata
          have hr1 : r.rate = r'.rate := by rw [hf.rate a (by simp), hf'.rate a' (by simp), ha.rate]
          have hr2 : r.start = r'.start := by rw [hf.start a (by simp), hf'.start a' (by simp), ha.start]
          have hc : ∃ c, r.cals[i]? = some c := by
            rw [hf.cals a (by simp)]
            exact ⟨_, List.getElem?_eq_getElem (by rw [(hw a (by simp)).cals]; exact hin k v hv i m1 a (by simp))⟩
          obtain ⟨c, hc⟩ := hc
          rw [channels_of d1 hc, channels_of d2 (hcal ▸ hc), hdata, hr1, hr2]
        · rw [List.getElem?_eq_none (by omega), List.getElem?_eq_none (by omega)]
          rfl
      · have hk' : ¬ ∃ v, t'.getItem k = .ok v := by
          rintro ⟨v, hv⟩
          obtain ⟨w, hw, -⟩ := (hn k v.length).2 ⟨v, hv, rfl⟩
          exact hk ⟨w, hw⟩
        rw [getItem_none_of hk, getItem_none_of hk']

theorem sameRun_tags {t t' u u' : Tags} {r r' : Sync α κ} (h : SameRun t r t' r') (h1 : SameTags u t) (h2 : SameTags u' t') :
    SameRun u r u' r' := by
  refine ⟨h.rate, h.start, h.size, fun k j => ?_⟩
  have := h.chans k j
  unfold designated at this ⊢
  rw [h1 k, h2 k]; exact this

theorem fuse_congr [One κ] {M M' R R' : SigSet α κ} (hM : Regular M) (hM' : Regular M') (hs : SameSet M M')
    (h : M.mergeConsecutive = .ok R) (h' : M'.mergeConsecutive = .ok R') : SameSet R R' := by
  have hI := reach_sinv hM.reach
  have hI' := reach_sinv hM'.reach
  have hd := Inventory.regular_starts hM
  have hd' := Inventory.regular_starts hM'
  obtain ⟨_, t1, _⟩ := C26_samples M R hM.reach hM.plain hd h
  obtain ⟨_, t2, _⟩ := C26_samples M' R' hM'.reach hM'.plain hd' h'
  constructor
  · intro k n
    rw [t1 k, t2 k]; exact hs.names k n
  · rw [(mergeConsecutive_ok hI hM.plain hd h).1, (mergeConsecutive_ok hI' hM'.plain hd' h').1]
    have f1 := glued_forall₂ hI
    have f2 := glued_forall₂ hI'
    have hc := chains_congr (Q := fun a a' => SameRun M.tags a M'.tags a') (f := cont) (g := cont)
      (fun a b a' b' h h' => cont_same h h') hs.runs
    have hsub : ∀ {S : SigSet α κ}, ∀ g ∈ chains cont S.runs, ∀ a ∈ g, a ∈ S.runs := by
      intro S g hg a ha
      rw [← chains_flatten cont S.runs]; exact List.mem_flatten.2 ⟨g, hg, ha⟩
    have hne : [] ∉ chains cont M.runs := chains_ne _ _
    have s1 := hsub (S := M)
    have s2 := hsub (S := M')
    have hin : ∀ {S : SigSet α κ}, SInv S → ∀ k v, S.tags.getItem k = .ok v → ∀ i ∈ v, ∀ a ∈ S.runs, i < a.data.length := by
      intro S hI k v hv i hi a ha
      rw [← hI.n a ha]
      exact (hI.inv.legal _ _ (Tags.getItem_ok.1 hv)).2.2 i hi
    generalize chains cont M.runs = C at *
    generalize chains cont M'.runs = C' at *
    generalize glued M = G at *
    generalize glued M' = G' at *
    induction hc generalizing G G' with
    | nil => cases f1; cases f2; exact .nil
    | @cons g g' C C' hg _ ih =>
      cases f1 with
      | cons a1 a2 =>
        cases f2 with
        | cons b1 b2 =>
          refine .cons ?_ (ih (fun hm => hne (by simp [hm])) (fun g hg => s1 g (by simp [hg])) (fun g hg => s2 g (by simp [hg]))
            _ a2 _ b2)
          · refine sameRun_tags (fused_same a1 b1 hg (fun e => hne (by simp [e])) ?_ ?_ ?_ hs.names) t1 t2
            · intro a ha; exact hI.ok.wf a (s1 g (by simp) a ha)
            · intro k v hv i hi a ha; exact hin hI k v hv i hi a (s1 g (by simp) a ha)
            · intro k v hv i hi a ha; exact hin hI' k v hv i hi a (s2 g' (by simp) a ha)

/-! Inventories in another order. -/

theorem mapE_perm {β γ : Type _} {f : β → Except Err γ} {l l' : List β} {r : List γ} (hp : l.Perm l') (h : mapE f l = .ok r) :
    ∃ r', mapE f l' = .ok r' ∧ r.Perm r' := by
  rw [mapE_ok] at h
  obtain ⟨r', h1, h2⟩ := List.perm_comp_forall₂ hp.symm h
  exact ⟨r', mapE_ok.2 h1, h2.symm⟩

theorem select_perm [One κ] {I I' J : Inventory α κ} {keys : List String} (hp : I.Perm I') (h : I.selectChannels keys = .ok J) :
    ∃ J', I'.selectChannels keys = .ok J' ∧ J.Perm J' := by
  unfold Inventory.selectChannels at h ⊢
  split at h
  · simp at h
  · rename_i l hl
    obtain ⟨l', h1, h2⟩ := mapE_perm hp hl
    rw [h1]
    rw [Inventory.new_set] at h
    simp only [Except.ok.injEq] at h
    subst h
    exact ⟨l'.filterMap id, Inventory.new_set _, h2.filterMap _⟩

theorem names_perm {I I' : Inventory α κ} (hp : I.Perm I') (k : String) : k ∈ I.names ↔ k ∈ I'.names := by
  rw [Inventory.mem_names, Inventory.mem_names]
  exact exists_congr (fun S => and_congr_left (fun _ => hp.mem_iff))

theorem holders_perm {I I' : Inventory α κ} (hp : I.Perm I') (t t' : String) :
    I.holders t = I.holders t' ↔ I'.holders t = I'.holders t' := by
  rw [holders_eq, holders_eq]
  exact ⟨fun h S hS => h S (hp.mem_iff.2 hS), fun h S hS => h S (hp.mem_iff.1 hS)⟩

/-- The group of a name. -/
def groupOfName (o : SetOrder) (I : Inventory α κ) (t : String) : List String :=
  sortBy (fun a b => decide (a ≤ b)) ((Inventory.setOf o I.names).filter (fun x => decide (I.holders x = I.holders t)))

theorem groupKeys_spec {o : SetOrder} (ho : SetOrder.OK o) (I : Inventory α κ) :
    ∃ l : List (List String), l.Nodup ∧ (∀ g, g ∈ l ↔ ∃ t ∈ I.names, g = groupOfName o I t) ∧
      Inventory.groupKeys o I = sortBy Inventory.leNames l := by
  obtain ⟨ks, h1, h2, h3⟩ := Inventory.groups_eq I (Inventory.setOf o I.names)
  refine ⟨((Inventory.groups I (Inventory.setOf o I.names)).map (fun g => g.2)).map (sortBy (fun a b => decide (a ≤ b))), ?_, ?_, rfl⟩
  · rw [h3]
    simp only [Inventory.byHolders, List.map_map]
    rw [List.nodup_map_iff_inj_on h1]
    intro K hK K' hK' e
    obtain ⟨t, ht, rfl⟩ := (h2 K).1 hK
    obtain ⟨t', ht', rfl⟩ := (h2 K').1 hK'
    have : t ∈ sortBy (fun a b => decide (a ≤ b)) ((Inventory.setOf o I.names).filter (fun x => decide (I.holders x = I.holders t))) := by
      rw [mem_sortBy, List.mem_filter]; exact ⟨ht, by simp⟩
    simp only [Function.comp] at e
    rw [e, mem_sortBy, List.mem_filter] at this
    simpa using this.2
  · intro g
    rw [h3]
    simp only [Inventory.byHolders, List.map_map, List.mem_map]
    constructor
    · rintro ⟨K, hK, rfl⟩
      obtain ⟨t, ht, rfl⟩ := (h2 K).1 hK
      exact ⟨t, (Inventory.mem_setOf ho).1 ht, rfl⟩
    · rintro ⟨t, ht, rfl⟩
      exact ⟨I.holders t, (h2 _).2 ⟨t, (Inventory.mem_setOf ho).2 ht, rfl⟩, rfl⟩

theorem groupOfName_perm {o o' : SetOrder} (ho : SetOrder.OK o) (ho' : SetOrder.OK o') {I I' : Inventory α κ} (hp : I.Perm I')
    (t : String) : groupOfName o I t = groupOfName o' I' t := by
  unfold groupOfName
  apply Inventory.sortNames_congr
  rw [List.perm_ext_iff_of_nodup ((Inventory.setOf_nodup ho _).filter _) ((Inventory.setOf_nodup ho' _).filter _)]
  intro x
  simp only [List.mem_filter, Inventory.mem_setOf ho, Inventory.mem_setOf ho', decide_eq_true_eq]
  rw [names_perm hp, holders_perm hp]

theorem groupKeys_perm {o o' : SetOrder} (ho : SetOrder.OK o) (ho' : SetOrder.OK o') {I I' : Inventory α κ} (hp : I.Perm I') :
    Inventory.groupKeys o I = Inventory.groupKeys o' I' := by
  obtain ⟨l, h1, h2, h3⟩ := groupKeys_spec ho I
  obtain ⟨l', h1', h2', h3'⟩ := groupKeys_spec ho' I'
  rw [h3, h3']
  refine Inventory.sortBy_congr Inventory.leNames_total Inventory.leNames_trans Inventory.leNames_antisymm ?_
  rw [List.perm_ext_iff_of_nodup h1 h1']
  intro g
  rw [h2, h2']
  constructor
  · rintro ⟨t, ht, e⟩; exact ⟨t, (names_perm hp t).1 ht, by rw [e, groupOfName_perm ho ho' hp]⟩
  · rintro ⟨t, ht, e⟩; exact ⟨t, (names_perm hp t).2 ht, by rw [e, groupOfName_perm ho ho' hp]⟩

theorem joinAll_congr [One κ] {J J' : List (SigSet α κ)} {R R' : SigSet α κ} (hJ : ∀ T ∈ J, Regular T) (hJ' : ∀ T ∈ J', Regular T)
    (h1 : ∀ T ∈ J, ∃ T' ∈ J', SameSet T T') (h2 : ∀ T' ∈ J', ∃ T ∈ J, SameSet T T')
    (h : Inventory.joinAll J = .ok R) (h' : Inventory.joinAll J' = .ok R') : SameSet R R' := by
  cases J with
  | nil => simp [Inventory.joinAll] at h
  | cons S Ts =>
    cases J' with
    | nil => simp [Inventory.joinAll] at h'
    | cons S' Ts' => exact join_congr hJ hJ' h1 h2 h h'

theorem groupSet_perm [One κ] {I I' : Inventory α κ} (hp : I.Perm I') (hI : ∀ S ∈ I, Regular S) {k : List String} {A A' : SigSet α κ}
    (h : Inventory.groupSet I k = .ok A) (h' : Inventory.groupSet I' k = .ok A') : SameSet A A' := by
  unfold Inventory.groupSet at h h'
  split at h
  · simp at h
  · rename_i J hJ
    obtain ⟨J', hJ', hpJ⟩ := select_perm hp hJ
    rw [hJ'] at h'
    have hreg : ∀ T ∈ J, Regular T := fun T hT => (Inventory.regular_select hI hJ T hT).1
    exact joinAll_congr hreg (fun T hT => hreg T (hpJ.mem_iff.2 hT)) (fun T hT => ⟨T, hpJ.mem_iff.1 hT, SameSet.refl' T⟩)
      (fun T hT => ⟨T, hpJ.mem_iff.2 hT, SameSet.refl' T⟩) h h'

theorem joinMerge_perm [One κ] {o o' : SetOrder} (ho : SetOrder.OK o) (ho' : SetOrder.OK o') {I I' : Inventory α κ} (hp : I.Perm I')
    (hI : ∀ S ∈ I, Regular S) {R R' : SigSet α κ} (h : I.joinMerge o = .ok R) (h' : I'.joinMerge o' = .ok R') : SameSet R R' := by
  have hI' : ∀ S ∈ I', Regular S := fun S hS => hI S (hp.mem_iff.2 hS)
  unfold Inventory.joinMerge at h h'
  have he : I.isEmpty = I'.isEmpty := by
    rw [Bool.eq_iff_iff, List.isEmpty_iff, List.isEmpty_iff]
    exact ⟨fun e => by subst e; exact hp.symm.eq_nil, fun e => by subst e; exact hp.eq_nil⟩
  rw [groupKeys_perm ho ho' hp, he] at h
  split at h
  · rename_i hemp
    rw [if_pos hemp] at h'
    rw [h] at h'
    simp only [Except.ok.injEq] at h'
    rw [h']; exact SameSet.refl' _
  · rename_i hemp
    rw [if_neg hemp] at h'
    have key : ∀ l l', mapE (Inventory.groupSet I) (Inventory.groupKeys o' I') = .ok l →
        mapE (Inventory.groupSet I') (Inventory.groupKeys o' I') = .ok l' → List.Forall₂ SameSet l l' := by
      intro l l' hl hl'
      rw [mapE_ok] at hl hl'
      generalize Inventory.groupKeys o' I' = G at hl hl'
      induction hl generalizing l' with
      | nil => cases hl'; exact .nil
      | cons a _ ih =>
        cases hl' with
        | cons b hl' => exact .cons (groupSet_perm hp hI a b) (ih _ hl')
    cases hl : mapE (Inventory.groupSet I) (Inventory.groupKeys o' I') with
    | error e => rw [hl] at h; simp at h
    | ok l =>
      cases hl' : mapE (Inventory.groupSet I') (Inventory.groupKeys o' I') with
      | error e => rw [hl'] at h'; simp at h'
      | ok l' =>
        have hs := key l l' hl hl'
        rw [hl] at h
        rw [hl'] at h'
        have hreg : ∀ T ∈ l, Regular T := by
          intro T hT
          obtain ⟨g, _, hg⟩ := mapE_ok_exists hl T hT
          exact (Inventory.regular_groupSet hI hg).1
        have hreg' : ∀ T ∈ l', Regular T := by
          intro T hT
          obtain ⟨g, _, hg⟩ := mapE_ok_exists hl' T hT
          exact (Inventory.regular_groupSet hI' hg).1
        cases hs with
        | nil => simp at h
        | @cons a a' l l' e1 e2 =>
          cases e2 with
          | nil =>
            simp only [Except.ok.injEq] at h h'
            rw [← h, ← h']; exact e1
          | cons e2 e3 => exact merge_congr hreg hreg' (.cons e1 (.cons e2 e3)) h h'

/-- The mask of the runs of one rate. -/
theorem rate_select [One κ] (I : Inventory α κ) (f0 : ℚ) (J : Inventory α κ) :
    I.selectRuns (I.map (fun S => .mask (S.runs.map (fun r => decide (r.rate = f0))))) = .ok J ↔
      ∃ l, mapE (fun S : SigSet α κ => S.selectRuns (.mask (S.runs.map (fun r => decide (r.rate = f0))))) I = .ok l ∧
        J = l.filter (fun S => !S.runs.isEmpty) := by
  unfold Inventory.selectRuns
  rw [if_neg (by simp)]
  have : mapE (fun p : SigSet α κ × RunIdx => p.1.selectRuns p.2)
      (I.zip (I.map (fun S => .mask (S.runs.map (fun r => decide (r.rate = f0)))))) =
      mapE (fun S : SigSet α κ => S.selectRuns (.mask (S.runs.map (fun r => decide (r.rate = f0))))) I := by
    induction I with
    | nil => rfl
    | cons S I ih => simp only [List.map_cons, List.zip_cons_cons, mapE, ih]
  rw [this]
  cases mapE (fun S : SigSet α κ => S.selectRuns (.mask (S.runs.map (fun r => decide (r.rate = f0))))) I with
  | error e => simp
  | ok l =>
    simp only [Inventory.new_set, Except.ok.injEq, exists_eq_left']
    exact eq_comm

theorem rateSet_perm [One κ] {o o' : SetOrder} (ho : SetOrder.OK o) (ho' : SetOrder.OK o') {I I' : Inventory α κ} (hp : I.Perm I')
    (hI : ∀ S ∈ I, Regular S) {f0 : ℚ} {R R' : SigSet α κ} (h : I.rateSet o f0 = .ok R) (h' : I'.rateSet o' f0 = .ok R') :
    SameSet R R' := by
  unfold Inventory.rateSet at h h'
  split at h
  · simp at h
  · rename_i J hJ
    obtain ⟨l, hl, rfl⟩ := (rate_select I f0 J).1 hJ
    obtain ⟨l', hl', hpl⟩ := mapE_perm hp hl
    rw [(rate_select I' f0 _).2 ⟨l', hl', rfl⟩] at h'
    refine joinMerge_perm ho ho' (hpl.filter _) ?_ h h'
    intro T hT
    obtain ⟨S, hS, hs⟩ := mapE_ok_exists hl T (List.mem_filter.1 hT).1
    exact (regular_selectRuns (hI S hS) hs).1

theorem packAll_perm [One κ] {o o' : SetOrder} (ho : SetOrder.OK o) (ho' : SetOrder.OK o') {I I' : Inventory α κ} (hp : I.Perm I')
    (hI : ∀ S ∈ I, Regular S) {R R' : SigSet α κ} (h : I.packAll o = .ok R) (h' : I'.packAll o' = .ok R') : SameSet R R' := by
  have hI' : ∀ S ∈ I', Regular S := fun S hS => hI S (hp.mem_iff.2 hS)
  unfold Inventory.packAll at h h'
  split at h
  · simp at h
  rename_i sigs hsigs
  split at h'
  · simp at h'
  rename_i sigs' hsigs'
  have hrates : ∀ f, f ∈ o.rates (dedup I.rates) ↔ f ∈ o'.rates (dedup I'.rates) := by
    intro f
    rw [(ho.rates _).mem_iff, (ho'.rates _).mem_iff, mem_dedup, mem_dedup]
    unfold Inventory.rates
    exact (hp.flatMap_right _).mem_iff
  have hpass : ∀ T T' : SigSet α κ, SameSet T T' →
      (!T.runs.isEmpty && I.names.all (fun t => T.tags.tags.has t)) = true →
      (!T'.runs.isEmpty && I'.names.all (fun t => T'.tags.tags.has t)) = true := by
    intro T T' hs hb
    simp only [Bool.and_eq_true, Bool.not_eq_true', List.isEmpty_eq_false_iff, List.all_eq_true] at hb ⊢
    refine ⟨?_, fun k hk => Inventory.hasTag_iff.2 ((SameSet.hasTag hs k).1 (Inventory.hasTag_iff.1 (hb.2 k ((names_perm hp k).2 hk))))⟩
    obtain ⟨s, hs'⟩ := List.exists_mem_of_ne_nil _ hb.1
    obtain ⟨t, ht, _⟩ := SameSet.runs_left hs s hs'
    exact List.ne_nil_of_mem ht
  have hpass' : ∀ T T' : SigSet α κ, SameSet T T' →
      (!T'.runs.isEmpty && I'.names.all (fun t => T'.tags.tags.has t)) = true →
      (!T.runs.isEmpty && I.names.all (fun t => T.tags.tags.has t)) = true := by
    intro T T' hs hb
    simp only [Bool.and_eq_true, Bool.not_eq_true', List.isEmpty_eq_false_iff, List.all_eq_true] at hb ⊢
    refine ⟨?_, fun k hk => Inventory.hasTag_iff.2 ((SameSet.hasTag hs k).2 (Inventory.hasTag_iff.1 (hb.2 k ((names_perm hp k).1 hk))))⟩
    obtain ⟨s, hs'⟩ := List.exists_mem_of_ne_nil _ hb.1
    obtain ⟨t, ht, _⟩ := SameSet.runs_right hs s hs'
    exact List.ne_nil_of_mem ht
  have h1 : ∀ T ∈ sigs.filter (fun S => !S.runs.isEmpty && I.names.all (fun t => S.tags.tags.has t)),
      ∃ T' ∈ sigs'.filter (fun S => !S.runs.isEmpty && I'.names.all (fun t => S.tags.tags.has t)), SameSet T T' := by
    intro T hT
    rw [List.mem_filter] at hT
    obtain ⟨f, hf, e⟩ := mapE_ok_exists hsigs T hT.1
    obtain ⟨T', hT', e'⟩ := mapE_ok_forall hsigs' f ((hrates f).1 hf)
    have hs := rateSet_perm ho ho' hp hI e e'
    exact ⟨T', List.mem_filter.2 ⟨hT', hpass T T' hs hT.2⟩, hs⟩
  have h2 : ∀ T' ∈ sigs'.filter (fun S => !S.runs.isEmpty && I'.names.all (fun t => S.tags.tags.has t)),
      ∃ T ∈ sigs.filter (fun S => !S.runs.isEmpty && I.names.all (fun t => S.tags.tags.has t)), SameSet T T' := by
    intro T' hT'
    rw [List.mem_filter] at hT'
    obtain ⟨f, hf, e'⟩ := mapE_ok_exists hsigs' T' hT'.1
    obtain ⟨T, hT, e⟩ := mapE_ok_forall hsigs f ((hrates f).2 hf)
    have hs := rateSet_perm ho ho' hp hI e e'
    exact ⟨T, List.mem_filter.2 ⟨hT, hpass' T T' hs hT'.2⟩, hs⟩
  have r1 : ∀ T ∈ sigs.filter (fun S => !S.runs.isEmpty && I.names.all (fun t => S.tags.tags.has t)), Regular T := by
    intro T hT
    obtain ⟨f, _, e⟩ := mapE_ok_exists hsigs T (List.mem_filter.1 hT).1
    exact (Inventory.regular_rateSet hI e).1
  have r2 : ∀ T ∈ sigs'.filter (fun S => !S.runs.isEmpty && I'.names.all (fun t => S.tags.tags.has t)), Regular T := by
    intro T hT
    obtain ⟨f, _, e⟩ := mapE_ok_exists hsigs' T (List.mem_filter.1 hT).1
    exact (Inventory.regular_rateSet hI' e).1
  generalize sigs.filter (fun S => !S.runs.isEmpty && I.names.all (fun t => S.tags.tags.has t)) = L at *
  generalize sigs'.filter (fun S => !S.runs.isEmpty && I'.names.all (fun t => S.tags.tags.has t)) = L' at *
  cases L with
  | nil =>
    cases L' with
    | nil =>
      dsimp only at h h'
      rw [h] at h'
      simp only [Except.ok.injEq] at h'
      rw [h']; exact SameSet.refl' _
    | cons T' L' => obtain ⟨T, hT, -⟩ := h2 T' (by simp); simp at hT
  | cons S L =>
    cases L' with
    | nil => obtain ⟨T, hT, -⟩ := h1 S (by simp); simp at hT
    | cons S' L' =>
      dsimp only at h h'
      split at h
      · simp at h
      rename_i M hM
      split at h'
      · simp at h'
      rename_i M' hM'
      exact fuse_congr (regular_joinAll r1 hM).1 (regular_joinAll r2 hM').1 (joinAll_congr r1 r2 h1 h2 hM hM') h h'

theorem forall₂_fun_perm {β γ : Type _} {f : β → Except Err γ} {l l' : List β} {r r' : List γ} (hp : l.Perm l')
    (h : List.Forall₂ (fun b a => f a = .ok b) r l) (h' : List.Forall₂ (fun b a => f a = .ok b) r' l') : r.Perm r' := by
  obtain ⟨q, h1, h2⟩ := mapE_perm hp (mapE_ok.2 (h.flip))
  rw [mapE_ok.2 (h'.flip)] at h1
  simp only [Except.ok.injEq] at h1
  rw [h1]; exact h2

theorem single_perm [One κ] {I I' : Inventory α κ} (hp : I.Perm I') {ts ts' : List String} {l l' : List (Inventory α κ)} (ht : ts.Perm ts')
    (h : List.Forall₂ (fun t J => List.Forall₂ (fun T S => SigSet.selectChannels S (.many [.name t]) = .ok T) J
      (List.filter (fun S => S.tags.tags.has t) I)) ts l)
    (h' : List.Forall₂ (fun t J => List.Forall₂ (fun T S => SigSet.selectChannels S (.many [.name t]) = .ok T) J
      (List.filter (fun S => S.tags.tags.has t) I')) ts' l') : l.flatten.Perm l'.flatten := by
  obtain ⟨l'', h1, h2⟩ := List.perm_comp_forall₂ ht.symm h
  refine h2.symm.flatten.trans ?_
  clear h2 h ht
  induction h1 generalizing l' with
  | nil => cases h'; exact .refl _
  | cons a _ ih =>
    cases h' with
    | cons b h' => exact (forall₂_fun_perm (hp.filter _) a b).append (ih h')

/-- **C109.** Whatever the order of the signal sets in the inventory and the order in which Python enumerates sets of names and of
rates, `pack` (with or without the tags of several channels) gives the same signal set: the same names, and runs on which they
designate the same timed samples with the same calibrations. -/
theorem C109_pack_order [One κ] (o o' : SetOrder) (ho : SetOrder.OK o) (ho' : SetOrder.OK o') (I I' : Inventory α κ) (hp : I.Perm I')
    (hI : ∀ S ∈ I, Regular S) (keep : Bool) (R R' : SigSet α κ) (h : I.pack o keep = .ok R) (h' : I'.pack o' keep = .ok R') :
    SameSet R R' := by
  have hI' : ∀ S ∈ I', Regular S := fun S hS => hI S (hp.mem_iff.2 hS)
  cases keep with
  | true => exact packAll_perm ho ho' hp hI (by simpa [Inventory.pack] using h) (by simpa [Inventory.pack] using h')
  | false =>
    obtain ⟨ts, l, h1, h2, h3, h4⟩ := pack_single_inv ho hI h
    obtain ⟨ts', l', h1', h2', h3', h4'⟩ := pack_single_inv ho' hI' h'
    have ht : ts.Perm ts' := by
      rw [List.perm_ext_iff_of_nodup h2 h2']
      intro t
      rw [h1, h1']
      exact exists_congr (fun S => and_congr_left (fun _ => hp.mem_iff))
    refine packAll_perm ho ho' (single_perm hp ht h3 h3') ?_ h4 h4'
    intro T hT
    obtain ⟨t, _, S, hS, _, hs⟩ := (pack_single_mem h3 T).1 hT
    exact (regular_selectChannels (hI S hS) hs).1

/-- **C109.** Every channel of a packed set has a name. -/
theorem C109_pack_named [One κ] (o : SetOrder) (ho : SetOrder.OK o) (I : Inventory α κ) (hI : ∀ S ∈ I, Regular S) (keep : Bool)
    (R : SigSet α κ) (h : I.pack o keep = .ok R) : ∀ r ∈ R.runs, ∀ c < r.data.length, ∃ k v, R.tags.getItem k = .ok v ∧ c ∈ v :=
  (named_pack ho hI h).1

/-- **C109.** The estimates on a packed set do not depend on these orders either. -/
theorem C109_impedance {σ : Type _} [One κ] (cal : κ → ℚ → Option ℂ) (o o' : SetOrder) (ho : SetOrder.OK o) (ho' : SetOrder.OK o')
    (I I' : Inventory ℂ κ) (hp : I.Perm I') (hI : ∀ S ∈ I, Regular S) (keep : Bool) (R R' : SigSet ℂ κ) (h : I.pack o keep = .ok R)
    (h' : I'.pack o' keep = .ok R') (opts : Impedance.Opts σ) (freqs : List ℚ) (heap : ℕ → σ) :
    Impedance.impedance cal R opts freqs heap = Impedance.impedance cal R' opts freqs heap := by
  have hI' : ∀ S ∈ I', Regular S := fun S hS => hI S (hp.mem_iff.2 hS)
  obtain ⟨n1, r1⟩ := named_pack ho hI h
  obtain ⟨n2, r2⟩ := named_pack ho' hI' h'
  have hs := C109_pack_order o o' ho ho' I I' hp hI keep R R' h h'
  refine C103_impedance cal R R' r1 r2 opts (SameSet.sameFor hs _) freqs (fun f _ => ?_) heap
  by_cases he : R.runs = []
  · have he' : R'.runs = [] := List.eq_nil_of_length_eq_zero (by rw [← hs.runs.length_eq, he]; rfl)
    unfold SameKnown
    rw [he, he']
    exact .nil
  · have he' : R'.runs ≠ [] := fun e => he (List.eq_nil_of_length_eq_zero (by rw [hs.runs.length_eq, e]; rfl))
    have all : ∀ {R : SigSet ℂ κ}, Named R → Reach R → R.runs ≠ [] → AllTagged R.tags R.nbChannels := by
      intro R n r he
      obtain ⟨s, hs⟩ := List.exists_mem_of_ne_nil _ he
      rw [nbChannels_eq (reach_sinv r) hs]
      exact n s hs
    exact sameKnown_of_tagged cal f r1 r2 hs (all n1 r1 he) (all n2 r2 he')

section examples

/-- The inventory of C33 in two orders, with two hash orders. -/
theorem exInv_perm : exInv.Perm [exInvF, exInvB, exInvE] := by decide +kernel

theorem exInv_pack' : Inventory.pack exOrd' [exInvF, exInvB, exInvE] = .ok exPacked := by decide +kernel

example := C109_pack_order exOrd exOrd' exOrd_ok exOrd'_ok exInv _ exInv_perm exInv_regular true exPacked exPacked exInv_pack exInv_pack'
example := C109_pack_named exOrd exOrd_ok exInv exInv_regular true exPacked exInv_pack

end examples

end Razorback.Props
