/-
C99: giving other tags to a set, and joining sets: exactly when they succeed, and what they raise otherwise.
-/
import Verif.Lemmas.Retag
import Verif.Props.Join

namespace Razorback.Props
open Razorback Razorback.Spec Razorback.SigSet

variable {α κ : Type _}

/-- Equal as `Tags`. -/
theorem tags_eq_iff_plain {t t' : Tags} (hi : t.Inv) (hi' : t'.Inv) (hp : Plain t) :
    t'.eq t = true ↔ SameTags t t' ∧ t'.n = t.n := by
  rw [C06_eq_iff t' t hi' hi]
  constructor
  · rintro ⟨h1, h2⟩
    have hs : SameTags t t' := fun k => (h1 k).symm
    refine ⟨hs, ?_⟩
    have hp' : Plain t' := fun k hk => by rw [h1 k]; exact hp k hk
    rw [plain_indices hp, plain_indices hp'] at h2
    by_contra hne
    rcases Nat.lt_or_gt_of_ne hne with h | h
    · have := (h2 t'.n).2 (List.mem_range.2 h)
      simp at this
    · have := (h2 t.n).1 (List.mem_range.2 h)
      simp at this
  · rintro ⟨h1, h2⟩
    have hp' : Plain t' := fun k hk => by rw [← h1 k]; exact hp k hk
    refine ⟨fun k => (h1 k).symm, ?_⟩
    rw [plain_indices hp, plain_indices hp', h2]
    simp

/-- The outcome of `SignalSet(tags, set)` is that of the renumbering. -/
theorem new_one_set [Rnd] [One κ] {t : Tags} {T : SigSet α κ} (hi : t.Inv) (hp : Plain t) (hT : SInv T) (hr : T.runs ≠ [])
    (hn : t.n = T.nbChannels) {T' : SigSet α κ} (h : T.reorder (.tags t) = .ok T') :
    ∃ R, SigSet.new (.tags t) [.set T] = .ok R := by
  have hT' := reorder_sinv hT h
  obtain ⟨-, hF, -⟩ := reorder_same hT (argNodup_tags hi) (by rintro _ ⟨⟩; exact hi) h
  have hl : T'.runs ≠ [] := by
    intro h0
    rw [h0] at hF
    exact hr (List.forall₂_nil_left_iff.1 hF)
  obtain ⟨r0, hr0⟩ := List.exists_mem_of_ne_nil _ hl
  have hc : chanCount T'.runs = T.nbChannels := by
    cases hT0 : T'.runs with
    | nil => exact absurd hT0 hl
    | cons r l =>
      rw [hT0] at hF
      cases hTr : T.runs with
      | nil => exact absurd hTr hr
      | cons s m =>
        rw [hTr] at hF
        cases hF with
        | cons a b =>
          rw [nbChannels_eq hT (r := s) (by simp [hTr])]
          exact a.2
  have hs := sortRuns_of_sorted hT'.okAs.sorted
  have hpos : T.nbChannels ≠ 0 := by
    obtain ⟨s0, hs0⟩ := List.exists_mem_of_ne_nil _ hr
    rw [nbChannels_eq hT hs0]
    exact (List.length_pos_iff.2 (hT.okAs.wf s0 hs0).nonempty).ne'
  refine ⟨⟨T'.runs, ⟨T.nbChannels, t.tags⟩⟩, ?_⟩
  unfold SigSet.new
  simp only [mapE, argRuns, h]
  refine build_as.2 ⟨?_, ?_, ?_, by simp [hs], ?_⟩
  · simpa using hT'.okAs.chans
  · simpa using hT'.okAs.rate
  · simp only [List.flatten_cons, List.flatten_nil, List.append_nil, hs]
    refine hT'.okAs.disjoint.imp_of_mem ?_
    rintro a b ha hb ⟨x, hx, hab⟩
    rw [Sync.stop_as (hT'.okAs.rate a ha)] at hx
    simp only [Except.ok.injEq] at hx
    rw [hx]
    exact hab
  · simp only [List.flatten_cons, List.flatten_nil, List.append_nil, hs, hc]
    exact mkTags_eq hi hp hpos hn.le

/-- **C99.** `SignalSet(tags, set)` (also written `tags | set`) succeeds, for a set with runs, exactly when `tags` has as many
indices as the set has channels, and either is equal to the tags of the set, or gives a name to each channel and can be made
from the tags of the set by renumbering the channels. -/
theorem C99_retag_iff [Rnd] [One κ] (t : Tags) (hi : t.Inv) (hp : Plain t) (T : SigSet α κ) (hT : Reach T) (hr : T.runs ≠ []) :
    (∃ R, SigSet.new (.tags t) [.set T] = .ok R) ↔
      t.n = T.nbChannels ∧ (SameTags t T.tags ∨ (Renumbers t T.tags ∧ AllTagged t T.nbChannels)) := by
  have hI := reach_sinv hT
  obtain ⟨s0, hs0⟩ := List.exists_mem_of_ne_nil _ hr
  have hTn : T.tags.n = T.nbChannels := by rw [hI.n s0 hs0, nbChannels_eq hI hs0]
  have hle : AllTagged t T.nbChannels → T.nbChannels ≤ t.n := by
    intro h
    by_contra hc
    obtain ⟨k, v, hv, hm⟩ := h t.n (by omega)
    have := (hi.legal k v (Tags.getItem_ok.1 hv)).2.2 _ hm
    omega
  have hsame : SameTags t T.tags → Renumbers t T.tags := by
    intro h
    refine ⟨fun k => by rw [h k], ?_, ?_⟩
    · intro k v w hv hw
      rw [h k, hw] at hv
      simp only [Except.ok.injEq] at hv
      rw [hv]
    · intro k v w k' v' w' j j' c e1 e2 e3 e4 e5 e6
      rw [h k, e2] at e1
      rw [h k', e4] at e3
      simp only [Except.ok.injEq] at e1 e3
      subst e1 e3
      rw [e5, e6]
  by_cases he : T.tags.eq t = true
  · obtain ⟨h1, h2⟩ := (tags_eq_iff_plain hi hI.inv hp).1 he
    have hre : T.reorder (.tags t) = .ok T := by
      unfold reorder reorderMap
      simp only [tagsEq, he, if_true]
    exact ⟨fun _ => ⟨by omega, Or.inl h1⟩, fun _ => new_one_set hi hp hI hr (by omega) hre⟩
  · obtain ⟨r1, r2, r3, r4⟩ := reorder_tags hi hp hI hr he
    have herr : ∀ e, T.reorder (.tags t) = .error e → ¬ ∃ R, SigSet.new (.tags t) [.set T] = .ok R := by
      rintro e h ⟨R, hR⟩
      unfold SigSet.new at hR
      simp only [mapE, argRuns, h] at hR
      simp at hR
    by_cases hre : Renumbers t T.tags
    · by_cases hat : AllTagged t T.nbChannels
      · by_cases hlt : T.nbChannels < t.n
        · have := herr _ (r3 hre hat hlt)
          exact ⟨fun h => absurd h this, fun h => by omega⟩
        · obtain ⟨T', hT'⟩ := r4 hre hat (by omega)
          have hn : t.n = T.nbChannels := le_antisymm (by omega) (hle hat)
          exact ⟨fun _ => ⟨hn, Or.inr ⟨hre, hat⟩⟩, fun _ => new_one_set hi hp hI hr hn hT'⟩
      · have := herr _ (r2 hre hat)
        refine ⟨fun h => absurd h this, ?_⟩
        rintro ⟨hn, h | h⟩
        · exact absurd ((tags_eq_iff_plain hi hI.inv hp).2 ⟨h, by omega⟩) he
        · exact absurd h.2 hat
    · have := herr _ (r1 hre)
      refine ⟨fun h => absurd h this, ?_⟩
      rintro ⟨hn, h | h⟩
      · exact absurd (hsame h) hre
      · exact absurd h.1 hre

/-- **C99.** and what it raises: AssertionError when no renumbering exists, KeyError when one exists but a channel of the set
gets no name, ValueError when `tags` has more indices than the set has channels. -/
theorem C99_retag_raises [Rnd] [One κ] (t : Tags) (hi : t.Inv) (hp : Plain t) (T : SigSet α κ) (hT : Reach T) (hr : T.runs ≠ [])
    (hne : ¬ (SameTags t T.tags ∧ t.n = T.nbChannels)) :
    (¬ Renumbers t T.tags → SigSet.new (.tags t) [.set T] = .error .assertion) ∧
    (Renumbers t T.tags → ¬ AllTagged t T.nbChannels → SigSet.new (.tags t) [.set T] = .error .key) ∧
    (Renumbers t T.tags → AllTagged t T.nbChannels → T.nbChannels < t.n → SigSet.new (.tags t) [.set T] = .error .value) := by
  have hI := reach_sinv hT
  obtain ⟨s0, hs0⟩ := List.exists_mem_of_ne_nil _ hr
  have hTn : T.tags.n = T.nbChannels := by rw [hI.n s0 hs0, nbChannels_eq hI hs0]
  have he : ¬ T.tags.eq t = true := by
    rw [tags_eq_iff_plain hi hI.inv hp]
    rintro ⟨a, b⟩
    exact hne ⟨a, by omega⟩
  obtain ⟨r1, r2, r3, -⟩ := reorder_tags hi hp hI hr he
  have herr : ∀ e, T.reorder (.tags t) = .error e → SigSet.new (.tags t) [.set T] = .error e := by
    intro e h
    unfold SigSet.new
    simp only [mapE, argRuns, h]
  exact ⟨fun h => herr _ (r1 h), fun h h' => herr _ (r2 h h'), fun h h' h'' => herr _ (r3 h h' h'')⟩

/-! ### join -/

theorem pairwise_of_forall₂ {β γ : Type _} {Q : β → γ → Prop} {R : β → β → Prop} {R' : γ → γ → Prop}
    (h : ∀ a b c d, Q a c → Q b d → R' c d → R a b) {l : List β} {l' : List γ} (hF : List.Forall₂ Q l l')
    (hp : l'.Pairwise R') : l.Pairwise R := by
  obtain ⟨h1, h2⟩ := List.forall₂_iff_get.1 hF
  rw [List.pairwise_iff_getElem] at hp ⊢
  intro i j hi hj hij
  exact h _ _ _ _ (h2 i hi (by omega)) (h2 j hj (by omega)) (hp i j (by omega) (by omega) hij)

theorem forall₂_mems {β γ : Type _} {P : β → γ → Prop} {l : List β} {l' : List γ} (h : List.Forall₂ P l l') :
    (∀ a ∈ l, ∃ b ∈ l', P a b) ∧ ∀ b ∈ l', ∃ a ∈ l, P a b := by
  induction h with
  | nil => simp
  | cons hab _ ih =>
    refine ⟨?_, ?_⟩
    · intro x hx
      rcases List.mem_cons.1 hx with rfl | hx
      · exact ⟨_, by simp, hab⟩
      · obtain ⟨b, hb, h⟩ := ih.1 x hx
        exact ⟨b, by simp [hb], h⟩
    · intro x hx
      rcases List.mem_cons.1 hx with rfl | hx
      · exact ⟨_, by simp, hab⟩
      · obtain ⟨b, hb, h⟩ := ih.2 x hx
        exact ⟨b, by simp [hb], h⟩

/-- Two runs at the same times with as many channels. -/
def Alike (a b : Sync α κ) : Prop := clock a = clock b ∧ a.data.length = b.data.length

theorem alike_lastTime {a b : Sync α κ} (h : Alike a b) : lastTime a = lastTime b := by
  have h1 := h.1
  simp only [clock, Prod.mk.injEq] at h1
  unfold lastTime
  rw [h1.1, h1.2.1, h1.2.2]

/-- The runs `join` builds its result from. -/
theorem argRuns_alike [Rnd] [One κ] {t : Tags} (hi : t.Inv) {args : List (SigArg α κ)} (hA : ∀ T, .set T ∈ args → Reach T)
    {rss : List (List (Sync α κ))} (h : mapE (argRuns (.tags t)) args = .ok rss) :
    List.Forall₂ Alike rss.flatten (args.flatMap operandRuns) := by
  induction args generalizing rss with
  | nil =>
    simp only [mapE, Except.ok.injEq] at h
    subst h
    exact .nil
  | cons a args ih =>
    simp only [mapE] at h
    split at h
    · simp at h
    · rename_i rs hrs
      split at h
      · simp at h
      · rename_i rss' hrss
        simp only [Except.ok.injEq] at h
        subst h
        rw [List.flatten_cons, List.flatMap_cons]
        refine List.rel_append ?_ (ih (fun T hT => hA T (List.mem_cons_of_mem _ hT)) hrss)
        cases a with
        | sync s =>
          simp only [argRuns, Except.ok.injEq] at hrs
          subst hrs
          exact .cons ⟨rfl, rfl⟩ .nil
        | set T =>
          simp only [argRuns] at hrs
          split at hrs
          · simp at hrs
          · rename_i T' hT'
            simp only [Except.ok.injEq] at hrs
            subst hrs
            obtain ⟨-, hF, -⟩ := reorder_same (reach_sinv (hA T (by simp))) (argNodup_tags hi) (by rintro _ ⟨⟩; exact hi) hT'
            refine hF.imp ?_
            rintro a b ⟨h1, h2⟩
            refine ⟨?_, h2⟩
            simp only [clock, h1.rate, h1.start, h1.size]

/-- **C99.** `S.join(*args)` succeeds exactly when all the runs have the number of channels of `S`, no two runs overlap by more
than an instant, and the tags of each operand that is a set are those of `S`, or can be renumbered to them with a name for
each channel.  Runs have positive rates and samples, and distinct starts. -/
theorem C99_join_iff [One κ] (S : SigSet α κ) (hS : Reach S) (hp : Plain S.tags) (hne : S.runs ≠ []) (args : List (SigArg α κ))
    (hA : ∀ T, .set T ∈ args → Reach T ∧ T.runs ≠ [])
    (hpos : ∀ r ∈ S.runs ++ args.flatMap operandRuns, 0 < r.rate ∧ 0 < r.size)
    (hd : (S.runs ++ args.flatMap operandRuns).Pairwise (fun a b => a.start ≠ b.start)) :
    (∃ R, S.join args = .ok R) ↔
      (∀ r ∈ args.flatMap operandRuns, r.data.length = S.nbChannels) ∧
      ((S.runs ++ args.flatMap operandRuns).Pairwise (fun a b => lastTime a ≤ b.start ∨ lastTime b ≤ a.start)) ∧
      ∀ T, .set T ∈ args → SameTags S.tags T.tags ∨ (Renumbers S.tags T.tags ∧ AllTagged S.tags S.nbChannels) := by
  have hI := reach_sinv hS
  obtain ⟨s0, hs0⟩ := List.exists_mem_of_ne_nil _ hne
  have hn0 := nbChannels_eq hI hs0
  have hSn : S.tags.n = S.nbChannels := by rw [hI.n s0 hs0, hn0]
  have hself : argRuns (.tags S.tags) (.set S) = .ok S.runs := by
    have : S.tags.eq S.tags = true := (tags_eq_iff_plain hI.inv hI.inv hp).2 ⟨fun _ => rfl, rfl⟩
    simp only [argRuns, reorder, reorderMap, tagsEq, this, if_true]
  have hpos0 : S.nbChannels ≠ 0 := by
    rw [hn0]
    exact (List.length_pos_iff.2 (hI.okAs.wf s0 hs0).nonempty).ne'
  -- building from runs like those of the operands
  have hbuild : ∀ rs, List.Forall₂ Alike rs (S.runs ++ args.flatMap operandRuns) → ((∃ R, build (.tags S.tags) rs = .ok R) ↔
      (∀ r ∈ args.flatMap operandRuns, r.data.length = S.nbChannels) ∧
      ((S.runs ++ args.flatMap operandRuns).Pairwise (fun a b => lastTime a ≤ b.start ∨ lastTime b ≤ a.start))) := by
    intro rs hF
    obtain ⟨hm1, hm2⟩ := forall₂_mems hF
    have hstart : ∀ {a b : Sync α κ}, Alike a b → a.start = b.start := fun h => by
      have := h.1
      simp only [clock, Prod.mk.injEq] at this
      exact this.2.1
    have hposr : ∀ r ∈ rs, 0 < r.rate ∧ 0 < r.size := by
      intro r hr
      obtain ⟨s, hs, h⟩ := hm1 r hr
      have h1 := h.1
      simp only [clock, Prod.mk.injEq] at h1
      rw [h1.1, h1.2.2]
      exact hpos s hs
    have hdr : rs.Pairwise (fun a b => a.start ≠ b.start) := pairwise_of_forall₂ (by
      intro a b c d h1 h2 h3
      rw [hstart h1, hstart h2]
      exact h3) hF hd
    obtain ⟨r0, hr0, hr0s⟩ := hm2 s0 (List.mem_append_left _ hs0)
    constructor
    · rintro ⟨R, hR⟩
      obtain ⟨h1, -, h3, -, -⟩ := build_iff.1 hR
      constructor
      · intro s hs
        obtain ⟨r, hr, hrs⟩ := hm2 s (List.mem_append_right _ hs)
        rw [← hrs.2, h1 r hr r0 hr0, hr0s.2, hn0]
      · have h4 : rs.Pairwise (fun a b => lastTime a ≤ b.start ∨ lastTime b ≤ a.start) :=
          ((sortRuns_perm rs).pairwise_iff (fun h => h.symm)).1 (h3.imp (fun h => Or.inl h))
        refine pairwise_of_forall₂ (Q := fun a b => Alike b a) ?_ hF.flip h4
        intro a b c d h1 h2 h3
        rw [← alike_lastTime h1, ← alike_lastTime h2, ← hstart h1, ← hstart h2]
        exact h3
    · rintro ⟨h1, h2⟩
      have hlen : ∀ r ∈ rs, r.data.length = S.nbChannels := by
        intro r hr
        obtain ⟨s, hs, h⟩ := hm1 r hr
        rw [h.2]
        rcases List.mem_append.1 hs with hs | hs
        · rw [nbChannels_eq hI hs]
        · exact h1 s hs
      have h3 : rs.Pairwise (fun a b => lastTime a ≤ b.start ∨ lastTime b ≤ a.start) := by
        refine pairwise_of_forall₂ ?_ hF h2
        intro a b c d h1 h2 h3
        rw [alike_lastTime h1, alike_lastTime h2, hstart h1, hstart h2]
        exact h3
      have hcount : chanCount (sortRuns rs) = S.nbChannels := by
        cases hs : sortRuns rs with
        | nil =>
          have := mem_sortRuns.2 hr0
          rw [hs] at this
          simp at this
        | cons r l => exact hlen r (mem_sortRuns.1 (by rw [hs]; simp))
      refine ⟨⟨sortRuns rs, ⟨S.nbChannels, S.tags.tags⟩⟩, build_iff.2 ⟨?_, fun r hr => (hposr r hr).1.ne', ?_, rfl, ?_⟩⟩
      · intro r hr r' hr'
        rw [hlen r hr, hlen r' hr']
      · have h4 := ((sortRuns_perm rs).symm.pairwise_iff
          (R := fun a b : Sync α κ => lastTime a ≤ b.start ∨ lastTime b ≤ a.start) (fun h => h.symm)).1 h3
        have h5 := sortRuns_strict hdr
        refine (h4.and h5).imp_of_mem ?_
        rintro a b ha hb ⟨h | h, hlt⟩
        · exact h
        · have hm := mem_sortRuns.1 hb
          have := Sync.start_le_lastTime (hposr b hm).1 (hposr b hm).2
          linarith
      · rw [hcount]
        exact mkTags_eq hI.inv hp hpos0 hSn.le
  -- renumbering one operand
  have hset : ∀ T, .set T ∈ args → T.nbChannels = S.nbChannels → ((∃ T', T.reorder (.tags S.tags) = .ok T') ↔
      (SameTags S.tags T.tags ∨ (Renumbers S.tags T.tags ∧ AllTagged S.tags S.nbChannels))) := by
    intro T hT hTn
    obtain ⟨hTr, hT0⟩ := hA T hT
    have h1 := C99_retag_iff S.tags hI.inv hp T hTr hT0
    rw [hTn] at h1
    constructor
    · rintro ⟨T', hT'⟩
      exact (h1.1 (new_one_set hI.inv hp (reach_sinv hTr) hT0 (by omega) hT')).2
    · intro h
      obtain ⟨R, hR⟩ := h1.2 ⟨hSn, h⟩
      unfold SigSet.new at hR
      cases hre : T.reorder (.tags S.tags) with
      | ok T' => exact ⟨T', rfl⟩
      | error e =>
        simp only [mapE, argRuns, hre] at hR
        simp at hR
  have hnT : ∀ T, .set T ∈ args → (∀ r ∈ args.flatMap operandRuns, r.data.length = S.nbChannels) → T.nbChannels = S.nbChannels := by
    intro T hT h
    obtain ⟨hTr, hT0⟩ := hA T hT
    obtain ⟨r, hr⟩ := List.exists_mem_of_ne_nil _ hT0
    rw [nbChannels_eq (reach_sinv hTr) hr]
    exact h r (List.mem_flatMap.2 ⟨_, hT, hr⟩)
  unfold SigSet.join SigSet.new
  constructor
  · rintro ⟨R, hR⟩
    cases hm : mapE (argRuns (.tags S.tags)) (.set S :: args) with
    | error e => rw [hm] at hR; simp at hR
    | ok rss =>
      rw [hm] at hR
      have hF := argRuns_alike hI.inv (args := .set S :: args) (by
        intro T hT
        rcases List.mem_cons.1 hT with h | h
        · injection h with h; rw [h]; exact hS
        · exact (hA T h).1) hm
      rw [List.flatMap_cons] at hF
      obtain ⟨h1, h2⟩ := (hbuild _ hF).1 ⟨R, hR⟩
      refine ⟨h1, h2, ?_⟩
      intro T hT
      rw [← hset T hT (hnT T hT h1)]
      obtain ⟨rs, -, hrs⟩ := mapE_ok_forall hm (.set T) (List.mem_cons_of_mem _ hT)
      simp only [argRuns] at hrs
      split at hrs
      · simp at hrs
      · rename_i T' hT'
        exact ⟨T', hT'⟩
  · rintro ⟨h1, h2, h3⟩
    obtain ⟨rss, hrss⟩ : ∃ rss, mapE (argRuns (.tags S.tags)) (.set S :: args) = .ok rss := by
      cases hm : mapE (argRuns (.tags S.tags)) (.set S :: args) with
      | ok rss => exact ⟨rss, rfl⟩
      | error e =>
        obtain ⟨a, ha, hae⟩ := mapE_error hm
        rcases List.mem_cons.1 ha with rfl | ha
        · rw [hself] at hae
          simp at hae
        · cases a with
          | sync s => simp [argRuns] at hae
          | set T =>
            obtain ⟨T', hT'⟩ := (hset T ha (hnT T ha h1)).2 (h3 T ha)
            simp [argRuns, hT'] at hae
    have hF := argRuns_alike hI.inv (args := .set S :: args) (by
        intro T hT
        rcases List.mem_cons.1 hT with h | h
        · injection h with h; rw [h]; exact hS
        · exact (hA T h).1) hrss
    rw [List.flatMap_cons] at hF
    rw [hrss]
    exact (hbuild _ hF).2 ⟨h1, h2⟩

/-- **C99.** Given as a dict to a set, the tags must be tuples: with the names of the set and the right numbers of indices, a
value that is an integer or a list raises TypeError (although such dicts are accepted with signals). -/
theorem C99_dict_raises [Rnd] [One κ] (d : List (String × TagVal)) (T : SigSet α κ)
    (hk : ∀ k, k ∈ d.map (·.1) ↔ ∃ w, T.tags.getItem k = .ok w)
    (hl : ∀ e ∈ d, ∀ w, T.tags.getItem e.1 = .ok w → (tupleit e.2).length = w.length) (hn : ∃ e ∈ d, ∀ l, e.2 ≠ .tup l) :
    SigSet.new (.dict d) [.set T] = .error .type := by
  have hre : reorderMap T.tags (.dict d) = .error .type := by
    unfold reorderMap
    simp only [tagsEq, Bool.false_eq_true, if_false]
    rw [show (TagsArg.dict d).entries = d from rfl, if_pos]
    · cases hm : mapE (reorderLen T.tags) d with
      | error e =>
        obtain ⟨x, hx, hxe⟩ := mapE_error hm
        obtain ⟨w, hw⟩ := (hk x.1).1 (List.mem_map.2 ⟨x, hx, rfl⟩)
        have hlx := hl x hx w hw
        unfold reorderLen at hxe
        rw [Tags.getItem_ok.1 hw] at hxe
        cases hv : x.2 with
        | int i =>
          rw [hv] at hxe
          simp only [Except.error.injEq] at hxe
          rw [← hxe]
        | tup l =>
          rw [hv] at hxe hlx
          simp only [tupleit] at hlx
          simp [hlx] at hxe
        | lst l =>
          rw [hv] at hxe hlx
          simp only [tupleit] at hlx
          simp [hlx] at hxe
      | ok us =>
        simp only
        cases hm2 : mapE (fun e : String × TagVal => tupleVal e.2) d with
        | error e =>
          obtain ⟨x, hx, hxe⟩ := mapE_error hm2
          unfold tupleVal at hxe
          split at hxe
          · simp at hxe
          · simp only [Except.error.injEq] at hxe
            rw [← hxe]
        | ok news =>
          exfalso
          obtain ⟨x, hx, hxn⟩ := hn
          obtain ⟨l, -, hl⟩ := mapE_ok_forall hm2 x hx
          unfold tupleVal at hl
          split at hl
          · rename_i heq
            exact hxn _ heq
          · simp at hl
    · rw [Bool.and_eq_true, List.all_eq_true, List.all_eq_true]
      constructor
      · intro e he
        obtain ⟨w, hw⟩ := (hk e.1).1 (List.mem_map.2 ⟨e, he, rfl⟩)
        unfold Dict.has
        rw [Tags.getItem_ok.1 hw]
        rfl
      · intro k hk'
        have : ∃ w, T.tags.getItem k = .ok w := by
          have := Dict.has_iff.2 hk'
          unfold Dict.has at this
          obtain ⟨w, hw⟩ := Option.isSome_iff_exists.1 this
          exact ⟨w, Tags.getItem_ok.2 hw⟩
        obtain ⟨e, he, rfl⟩ := List.mem_map.1 ((hk k).2 this)
        exact List.any_eq_true.2 ⟨e, he, by simp⟩
  unfold SigSet.new
  simp only [mapE, argRuns, reorder, hre]

/-! Examples: the sets `exA` (`E` is channel 0, `B` channel 1) and `exB` (the other way round). -/

example : Renumbers exA.tags exB.tags ∧ AllTagged exA.tags 2 ∧ ¬ SameTags exA.tags exB.tags ∧
    (∃ R, exA.join [.set exB] = .ok R) ∧ exA.tags.n = 2 ∧ exB.nbChannels = 2 := by
  have two : ∀ (n a b : ℕ) (x y : String), x ≠ y → ∀ k v, (Tags.mk n [(x, [a]), (y, [b])]).getItem k = .ok v ↔
      (k = x ∧ v = [a]) ∨ (k = y ∧ v = [b]) := by
    intro n a b x y hxy k v
    rw [Tags.getItem_ok]
    by_cases h1 : k = x
    · subst h1
      simp [Dict.get?, hxy, eq_comm]
    · by_cases h2 : k = y
      · subst h2
        simp [Dict.get?, h1, Ne.symm h1, eq_comm]
      · simp [Dict.get?, h1, h2, Ne.symm h1, Ne.symm h2, eq_comm]
  have hA := two 2 0 1 "E" "B" (by decide)
  have hB := two 2 0 1 "B" "E" (by decide)
  refine ⟨⟨?_, ?_, ?_⟩, ?_, ?_, ?_, rfl, rfl⟩
  · intro k
    simp only [exA, exB, hA, hB]
    by_cases h1 : k = "E" <;> by_cases h2 : k = "B" <;> simp [h1, h2]
  · intro k v w hv hw
    simp only [exA, exB, hA, hB] at hv hw
    rcases hv with ⟨-, rfl⟩ | ⟨-, rfl⟩ <;> rcases hw with ⟨-, rfl⟩ | ⟨-, rfl⟩ <;> rfl
  · intro k v w k' v' w' j j' c e1 e2 e3 e4 e5 e6
    simp only [exA, exB, hA, hB] at e1 e2 e3 e4
    rcases e1 with ⟨rfl, rfl⟩ | ⟨rfl, rfl⟩ <;> rcases e3 with ⟨rfl, rfl⟩ | ⟨rfl, rfl⟩ <;> simp at e2 e4 <;> subst e2 e4 <;>
      rcases j with _ | j <;> rcases j' with _ | j' <;> simp at e5 e6 ⊢ <;> omega
  · intro c hc
    have : c = 0 ∨ c = 1 := by omega
    rcases this with rfl | rfl
    · exact ⟨"E", [0], (hA _ _).2 (Or.inl ⟨rfl, rfl⟩), by simp⟩
    · exact ⟨"B", [1], (hA _ _).2 (Or.inr ⟨rfl, rfl⟩), by simp⟩
  · intro h
    have := h "E"
    revert this
    decide +kernel
  · exact ⟨_, show exA.join [.set exB] = .ok ⟨[⟨[[1, 2], [3, 4]], [1, 1], 1, 0, 2⟩, ⟨[[7, 8], [5, 6]], [3, 2], 1, 10, 2⟩],
      ⟨2, [("E", [0]), ("B", [1])]⟩⟩ by decide +kernel⟩

/-- One name missing, a channel without name, too many indices, and a dict of integers. -/
example : SigSet.new (.tags ⟨2, [("E", [0]), ("F", [1])]⟩) [.set exA] = .error .assertion ∧
    SigSet.new (.tags ⟨2, [("E", [0]), ("B", [0])]⟩) [.set exA] = .error .assertion ∧
    SigSet.new (.tags ⟨3, [("E", [0]), ("B", [1])]⟩) [.set exA] = .error .value ∧
    SigSet.new (.tags ⟨3, [("E", [0]), ("B", [2])]⟩) [.set exA] = .error .key ∧
    SigSet.new (.dict [("E", .int 0), ("B", .int 1)]) [.set exA] = .error .type ∧
    (∃ R, SigSet.new (.tags ⟨2, [("E", [1]), ("B", [0])]⟩) [.set exA] = .ok R) := by
  refine ⟨by decide +kernel, by decide +kernel, by decide +kernel, by decide +kernel, by decide +kernel, ?_⟩
  exact ⟨⟨[⟨[[3, 4], [1, 2]], [1, 1], 1, 0, 2⟩], ⟨2, [("E", [1]), ("B", [0])]⟩⟩, by decide +kernel⟩

end Razorback.Props
