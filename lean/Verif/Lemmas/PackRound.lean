/-
Packing an inventory, whatever the rounding of times: provenance of the sample values.
-/
import Verif.Lemmas.Pack
import Verif.Spec.PackRound
import Verif.Props.AnyRounding
import Verif.Props.Consecutive

namespace Razorback
open Razorback.Spec Razorback.SigSet
variable {α κ : Type _}

/-- Sets obtained by the public operations, without tags named like attributes. -/
structure Public [Rnd] [One κ] (S : SigSet α κ) : Prop where
  reach : Reach S
  plain : Plain S.tags

/-- Every channel of `S` is a piece of a channel of `src`. -/
structure Kept (src : List (SigSet α κ)) (S : SigSet α κ) : Prop where
  rate : ∀ r ∈ S.runs, ∃ T ∈ src, ∃ s ∈ T.runs, s.rate = r.rate
  chan : ∀ r ∈ S.runs, ∀ k j c, designated S.tags r k j = some c → PieceOf src r.rate k j (c.1.map Prod.snd) c.2

theorem PieceOf.trans {src mid : List (SigSet α κ)} {ρ : ℚ} {k : String} {j : Nat} {p : List α} {cal : κ}
    (h : ∀ T ∈ mid, Kept src T) (hp : PieceOf mid ρ k j p cal) : PieceOf src ρ k j p cal := by
  obtain ⟨T, hT, s, hs, e, c, hc, h1, h2⟩ := hp
  obtain ⟨U, hU, u, hu, e', c', hc', h3, h4⟩ := (h T hT).chan s hs k j c hc
  exact ⟨U, hU, u, hu, e'.trans e, c', hc', h1.trans h3, h4.trans h2⟩

theorem Kept.trans {src mid : List (SigSet α κ)} {S : SigSet α κ} (h : ∀ T ∈ mid, Kept src T)
    (hS : Kept mid S) : Kept src S := by
  constructor
  · intro r hr
    obtain ⟨T, hT, s, hs, e⟩ := hS.rate r hr
    obtain ⟨U, hU, u, hu, e'⟩ := (h T hT).rate s hs
    exact ⟨U, hU, u, hu, e'.trans e⟩
  · intro r hr k j c hc
    exact PieceOf.trans h (hS.chan r hr k j c hc)

theorem Kept.mono {src src' : List (SigSet α κ)} {S : SigSet α κ} (h : ∀ T ∈ src, T ∈ src')
    (hS : Kept src S) : Kept src' S := by
  constructor
  · intro r hr
    obtain ⟨T, hT, s, hs, e⟩ := hS.rate r hr
    exact ⟨T, h T hT, s, hs, e⟩
  · intro r hr k j c hc
    obtain ⟨T, hT, rest⟩ := hS.chan r hr k j c hc
    exact ⟨T, h T hT, rest⟩

theorem Kept.of_sub {T S : SigSet α κ} (hr : ∀ r ∈ S.runs, r ∈ T.runs) (ht : SameTags S.tags T.tags) :
    Kept [T] S := by
  constructor
  · intro r h; exact ⟨T, by simp, r, hr r h, rfl⟩
  · intro r h k j c hc
    refine ⟨T, by simp, r, hr r h, rfl, c, ?_, List.infix_rfl, rfl⟩
    unfold designated at hc ⊢
    rw [← ht k]; exact hc

theorem public_selectRuns [Rnd] [One κ] {S R : SigSet α κ} (hS : Public S) {m : List Bool}
    (h : S.selectRuns (.mask m) = .ok R) :
    Public R ∧ SameTags R.tags S.tags ∧
      (∀ (r : Sync α κ), r ∈ R.runs ↔ ∃ i : Nat, m[i]? = some true ∧ S.runs[i]? = some r) ∧ (∀ r ∈ R.runs, r ∈ S.runs) := by
  have hok : RunOK S.runs.length (.mask m) := by
    by_contra hn
    rw [Props.C18_rejects S _ hn] at h; simp at h
  obtain ⟨R', idx, h1, h2, h3, h4, h5, h6⟩ := Props.C18_select_runs_increasing S hS.reach hS.plain (.mask m) hok trivial
  rw [h] at h1; simp at h1; subst h1
  have hmem : ∀ r, r ∈ R.runs ↔ ∃ i : Nat, m[i]? = some true ∧ S.runs[i]? = some r := by
    intro r
    rw [h4, List.mem_filterMap]
    constructor
    · rintro ⟨i, hi, e⟩; exact ⟨i, (h3 i).1 hi, e⟩
    · rintro ⟨i, hi, e⟩; exact ⟨i, (h3 i).2 hi, e⟩
  have hsub : ∀ r ∈ R.runs, r ∈ S.runs := by
    intro r hr
    obtain ⟨i, _, hi⟩ := (hmem r).1 hr
    exact List.mem_of_getElem? hi
  exact ⟨⟨.selectRuns _ hS.reach h, plain_sameTags h6 hS.plain⟩, h6, hmem, hsub⟩

theorem public_selectChannels [Rnd] [One κ] {S R : SigSet α κ} (hS : Public S) {sel : ChanSel}
    (h : S.selectChannels sel = .ok R) :
    Public R ∧ Kept [S] R ∧ (∀ k, HasTag R k → HasTag S k) := by
  have hk : SelKnown S.tags S.nbChannels sel := by
    by_contra hn
    rw [Props.C16_unknown_raises S hS.reach hS.plain sel hn] at h; simp at h
  have hne : S.runs ≠ [] → ∃ i, SelDesig S.tags S.nbChannels sel i := by
    intro hr
    by_contra hn
    obtain ⟨e, he⟩ := Props.C16_nothing_raises S hS.reach hS.plain sel hr hn
    rw [he] at h; simp at h
  obtain ⟨R', idx, h1, h2, h3, h4, h5, h6⟩ := Props.C16_select_channels S hS.reach hS.plain sel hk hne
  rw [h] at h1; simp at h1; subst h1
  have hnames : ∀ k, HasTag R k → HasTag S k := by
    intro k hk
    obtain ⟨v, hv, _⟩ := (h5 k).1 hk
    exact ⟨v, hv⟩
  have hrun := forall₂_mem_left h4
  refine ⟨⟨.selectChannels _ hS.reach h, plain_of_names hnames hS.plain⟩, ⟨?_, ?_⟩, hnames⟩
  · intro r hr
    obtain ⟨s, hs, e, _⟩ := hrun r hr
    exact ⟨S, by simp, s, hs, e.symm⟩
  · intro r hr k j c hc
    obtain ⟨w, hw⟩ := designated_some hc
    have hboth : List.Forall₂ (fun r s => r.rate = s.rate ∧ ∀ j, designated R.tags r k j = designated S.tags s k j)
        R.runs S.runs := by
      have a := h6 k w hw
      have h4' := h4
      clear h6 hrun h4
      generalize R.runs = l at a h4'
      generalize S.runs = l' at a h4'
      induction h4' with
      | nil => exact .nil
      | cons hh _ ih => cases a with
        | cons b b' => exact .cons ⟨hh.1, b⟩ (ih b')
    obtain ⟨s, hs, e, hd⟩ := forall₂_mem_left hboth r hr
    exact ⟨S, by simp, s, hs, e.symm, c, by rw [← hd]; exact hc, List.infix_rfl, rfl⟩

theorem public_joinAll [Rnd] [One κ] {l : List (SigSet α κ)} (hl : ∀ S ∈ l, Public S) {R : SigSet α κ}
    (h : Inventory.joinAll l = .ok R) :
    Public R ∧ Kept l R ∧ (∀ S ∈ l.head?, SameTags R.tags S.tags) ∧
      (∀ S ∈ l, ∀ s ∈ S.runs, ∃ r ∈ R.runs, SameRun R.tags r S.tags s) := by
  cases l with
  | nil => simp [Inventory.joinAll] at h
  | cons S l =>
    simp only [Inventory.joinAll] at h
    have hS := hl S (by simp)
    have hA : ∀ T, SigArg.set T ∈ l.map (SigArg.set (α := α) (κ := κ)) → Reach T := by
      intro T hT
      simp at hT
      exact (hl T (by simp [hT])).reach
    obtain ⟨ht, hruns⟩ := Props.C14_join_by_tag S R _ hS.reach hA h
    obtain ⟨k1, k2, _⟩ := Props.C14_join_keeps_runs S R _ hS.reach hA h
    have hsrc : ∀ r ∈ R.runs, ∃ T ∈ S :: l, ∃ s ∈ T.runs, SameRun R.tags r T.tags s := by
      intro r hr
      rcases hruns r hr with ⟨s, hs, e⟩ | ⟨T, hT, s, hs, e⟩ | ⟨s, hs, e⟩
      · exact ⟨S, by simp, s, hs, e⟩
      · simp at hT
        exact ⟨T, by simp [hT], s, hs, e⟩
      · simp at hs
    refine ⟨⟨.join _ hS.reach (by simp) hA h, plain_sameTags ht hS.plain⟩, ⟨?_, ?_⟩, by simpa using ht, ?_⟩
    · intro r hr
      obtain ⟨T, hT, s, hs, e⟩ := hsrc r hr
      exact ⟨T, hT, s, hs, e.rate.symm⟩
    · intro r hr k j c hc
      obtain ⟨T, hT, s, hs, e⟩ := hsrc r hr
      exact ⟨T, hT, s, hs, e.rate.symm, c, by rw [← e.chans]; exact hc, List.infix_rfl, rfl⟩
    · intro T hT s hs
      rcases List.mem_cons.1 hT with rfl | hT
      · exact k1 s hs
      · exact k2 T (by simpa using hT) s hs

theorem timed_values (rate start : ℚ) (d : List α) : (timed rate start d).map Prod.snd = d := by
  unfold timed
  rw [List.map_map]
  exact List.zipIdx_map_fst 0 d

/-- Channels of a block of consecutive samples. -/
theorem block_piece {t : Tags} {s b : Sync α κ} (h : SampleBlock s b) {k : String} {j : Nat} {c : List (ℚ × α) × κ}
    (hc : designated t b k j = some c) : ∃ c', designated t s k j = some c' ∧ c.1.map Prod.snd <:+: c'.1.map Prod.snd ∧
      c'.2 = c.2 := by
  obtain ⟨n, m, _, _, hd, hk, _⟩ := h
  unfold designated at hc ⊢
  split at hc
  · rename_i v _
    cases hj : v[j]? with
    | none => rw [hj] at hc; simp at hc
    | some i =>
      rw [hj] at hc
      simp only [Option.bind_some] at hc ⊢
      unfold channels at hc ⊢
      rw [List.getElem?_zip_eq_some, List.getElem?_map, hd, List.getElem?_map, hk] at hc
      obtain ⟨h1, h2⟩ := hc
      simp only [Option.map_eq_some_iff] at h1
      obtain ⟨d', ⟨d, e1, rfl⟩, e2⟩ := h1
      refine ⟨(timed s.rate s.start d, c.2), ?_, ?_, rfl⟩
      · rw [List.getElem?_zip_eq_some, List.getElem?_map, e1]
        exact ⟨rfl, h2⟩
      · rw [← e2, timed_values]
        simp only [timed_values]
        exact (List.take_prefix _ _).isInfix.trans (List.drop_suffix _ _).isInfix
  · simp at hc

theorem public_merge [Rnd] [One κ] {S R : SigSet α κ} {others : List (SigSet α κ)} (hl : ∀ T ∈ S :: others, Public T)
    (h : S.merge others = .ok R) :
    Public R ∧ Kept (S :: others) R ∧ (∀ k, HasTag R k ↔ ∃ T ∈ S :: others, HasTag T k) := by
  have hR := fun T hT => (hl T hT).reach
  have hp := fun T hT => (hl T hT).plain
  have hI : ∀ T ∈ S :: others, SInv T := fun T hT => Props.reach_sinv (hR T hT)
  have hruns := Props.C85_merge S R others hR hp h
  obtain ⟨_, q2, q3⟩ := merge_blocks hI hp h
  have hnames : ∀ k, HasTag R k ↔ ∃ T ∈ S :: others, HasTag T k := by
    intro k
    constructor
    · rintro ⟨w, hw⟩
      rw [Tags.getItem_ok, q2] at hw
      obtain ⟨i, T, v, hT, hv, _⟩ := mem_mergedEntries.1 (Dict.mem_of_get? hw)
      have hTm := List.mem_of_getElem? hT
      exact ⟨T, hTm, v, Tags.getItem_ok.2 (Dict.get?_of_mem (hI T hTm).inv.nodup hv)⟩
    · rintro ⟨T, hT, v, hv⟩
      obtain ⟨i, hi⟩ := List.mem_iff_getElem?.1 hT
      exact ⟨_, Tags.getItem_ok.2 (by
        rw [q2]
        exact Dict.get?_of_mem q3 (mem_mergedEntries.2 ⟨i, T, v, hi, Dict.mem_of_get? (Tags.getItem_ok.1 hv), rfl⟩))⟩
  refine ⟨⟨.merge others (hR S (by simp)) (fun T hT => hR T (by simp [hT])) h, ?_⟩, ⟨?_, ?_⟩, hnames⟩
  · intro k hk
    cases hg : R.tags.getItem k with
    | ok v =>
      obtain ⟨T, hT, w, hw⟩ := (hnames k).1 ⟨v, hg⟩
      rw [hp T hT k hk] at hw; simp at hw
    | error e =>
      unfold Tags.getItem at hg
      split at hg <;> simp at hg
      rw [← hg]
  · intro r hr
    obtain ⟨c, bs, hc, hb, hm, _⟩ := hruns r hr
    cases hc with
    | @cons s _ c _ hs hc =>
      cases hb with
      | @cons _ b _ bs hb1 hb2 =>
        obtain ⟨_, _, _, _, _, _, e⟩ := hb1
        exact ⟨S, by simp, s, hs, by rw [← e]; exact (hm.clock b (by simp)).1⟩
  · intro r hr k j c0 hc0
    obtain ⟨c, bs, hc, hb, hm, hd⟩ := hruns r hr
    obtain ⟨T, hT, v, hv⟩ := (hnames k).1 (designated_some hc0)
    obtain ⟨i, hi⟩ := List.mem_iff_getElem?.1 hT
    have hlen := hc.length_eq
    have hlen' := hb.length_eq
    have hil : i < (S :: others).length := (List.getElem?_eq_some_iff.1 hi).1
    have hbi : bs[i]? = some bs[i] := List.getElem?_eq_getElem (by omega)
    obtain ⟨_, hdj⟩ := hd i T _ k v hi hbi hv
    rw [hdj j] at hc0
    have hs : c[i] ∈ T.runs := by
      have := List.Forall₂.get hc (i := i) (by omega) hil
      have hT' : T = (S :: others)[i] := (List.getElem?_eq_some_iff.1 hi).2.symm
      rw [hT']; exact this
    have hsb : SampleBlock c[i] bs[i] := List.Forall₂.get hb (i := i) (by omega) (by omega)
    obtain ⟨c', h1, h2, h3⟩ := block_piece hsb hc0
    refine ⟨T, hT, c[i], hs, ?_, c', h1, h2, h3⟩
    obtain ⟨_, _, _, _, _, _, e⟩ := hsb
    rw [← e]; exact (hm.clock bs[i] (List.getElem_mem _)).1

/-- Channels of the set after the fusion of consecutive runs. -/
theorem fused_pieces [Rnd] [One κ] {M R : SigSet α κ} (hM : Public M) (h : M.mergeConsecutive = .ok R) :
    SameTags R.tags M.tags ∧ (∀ r ∈ R.runs, ∃ s ∈ M.runs, s.rate = r.rate) ∧ (M.runs ≠ [] → R.runs ≠ []) ∧
    ∀ r ∈ R.runs, ∀ k j c, designated R.tags r k j = some c → ∃ (p0 : List α) (ps : List (List α)), c.1.map Prod.snd = p0 ++ ps.flatten ∧
      PieceOf [M] r.rate k j p0 c.2 ∧ ∀ p ∈ ps, ∃ cal, PieceOf [M] r.rate k j p cal := by
  have hI := Props.reach_sinv hM.reach
  obtain ⟨h1, h2⟩ := mergeConsecutive_perm hI hM.plain h
  have ht : SameTags R.tags M.tags := by
    intro k
    unfold Tags.getItem
    rw [h2]
  refine ⟨ht, ?_, ?_, ?_⟩
  · intro r hr
    obtain ⟨g, hg, hgr, hne, hsub⟩ := mem_glued (h1.mem_iff.1 hr)
    cases g with
    | nil => exact absurd rfl hne
    | cons s l =>
      refine ⟨s, hsub s (by simp), ?_⟩
      simp only [glue, List.cons.injEq, and_true] at hgr
      rw [← hgr]
  · intro hne h0
    rw [h0] at h1
    exact glued_ne hne h1.nil_eq.symm
  · intro r hr k j c hc
    obtain ⟨g, hg, hgr, hne, hsub⟩ := mem_glued (h1.mem_iff.1 hr)
    cases g with
    | nil => exact absurd rfl hne
    | cons s l =>
      have hrate := Props.rate_of_chain (fun _ _ h => h.1) ((Props.chains_as M.runs).chain _ hg) s (by simp)
      simp only [glue, List.cons.injEq, and_true] at hgr
      have hcc : ∀ a ∈ s :: l, ∀ i < s.data.length, ∀ v, M.tags.getItem k = .ok v → v[j]? = some i →
          ∀ cal, a.cals[i]? = some cal → PieceOf [M] s.rate k j ((a.data[i]?).getD []) cal := by
        intro a ha i hi v hv hj cal hcal
        have hai : i < a.data.length := by rw [hI.okAs.chans a (hsub a ha) s (hsub s (by simp))]; exact hi
        refine ⟨M, by simp, a, hsub a ha, hrate a ha, (timed a.rate a.start a.data[i], cal), ?_, ?_, rfl⟩
        · unfold designated channels
          rw [hv]
          simp only [hj, Option.bind_some]
          rw [List.getElem?_zip_eq_some, List.getElem?_map, List.getElem?_eq_getElem hai]
          exact ⟨rfl, hcal⟩
        · rw [timed_values, List.getElem?_eq_getElem hai]
          exact List.infix_rfl
      unfold designated at hc
      split at hc
      · rename_i v hv
        cases hj : v[j]? with
        | none => rw [hj] at hc; simp at hc
        | some i =>
          rw [hj] at hc
          simp only [Option.bind_some] at hc
          unfold channels at hc
          rw [← hgr] at hc ⊢
          rw [List.getElem?_zip_eq_some, List.getElem?_map, Option.map_eq_some_iff] at hc
          obtain ⟨⟨d, hd, e⟩, hk⟩ := hc
          simp only [List.getElem?_map, Option.map_eq_some_iff] at hd
          obtain ⟨i', hi', rfl⟩ := hd
          have hlt : i < s.data.length := by
            have := (List.getElem?_eq_some_iff.1 hi').1
            rwa [List.length_range] at this
          rw [List.getElem?_range hlt, Option.some.injEq] at hi'
          subst hi'
          have hv' : M.tags.getItem k = .ok v := by rw [← ht k]; exact hv
          refine ⟨(s.data[i]?).getD [], l.map (fun a => (a.data[i]?).getD []), ?_, ?_, ?_⟩
          · rw [← e, timed_values, List.flatMap_cons, ← List.flatMap_def]
          · exact hcc s (by simp) i hlt v hv' hj c.2 hk
          · intro p hp
            obtain ⟨a, ha, rfl⟩ := List.mem_map.1 hp
            have hai : i < a.cals.length := by
              rw [(hI.okAs.wf a (hsub a (by simp [ha]))).cals, hI.okAs.chans a (hsub a (by simp [ha])) s (hsub s (by simp))]
              exact hlt
            exact ⟨_, hcc a (by simp [ha]) i hlt v hv' hj _ (List.getElem?_eq_getElem hai)⟩
      · simp at hc

namespace Inventory

theorem public_select [Rnd] [One κ] {I J : Inventory α κ} (hI : ∀ S ∈ I, Public S) {keys : List String}
    (h : I.selectChannels keys = .ok J) :
    ∀ R ∈ J, Public R ∧ Kept I R ∧ (∀ k, HasTag R k → ∃ S ∈ I, HasTag S k) := by
  intro R hR
  obtain ⟨S, hS, sel, hs⟩ := selectChannels_inv h R hR
  obtain ⟨h1, h2, h3⟩ := public_selectChannels (hI S hS) hs
  exact ⟨h1, h2.mono (by simpa using hS), fun k hk => ⟨S, hS, h3 k hk⟩⟩

theorem public_groupSet [Rnd] [One κ] {I : Inventory α κ} (hI : ∀ S ∈ I, Public S) {keys : List String} {R : SigSet α κ}
    (h : groupSet I keys = .ok R) : Public R ∧ Kept I R ∧ (∀ k, HasTag R k → ∃ S ∈ I, HasTag S k) := by
  unfold groupSet at h
  split at h
  · simp at h
  · rename_i J hJ
    have hsel := public_select hI hJ
    obtain ⟨h1, h2, h3, _⟩ := public_joinAll (fun S hS => (hsel S hS).1) h
    refine ⟨h1, h2.trans (fun S hS => (hsel S hS).2.1), ?_⟩
    intro k hk
    cases J with
    | nil => simp [joinAll] at h
    | cons T J =>
      obtain ⟨v, hv⟩ := hk
      rw [h3 T (by simp) k] at hv
      exact (hsel T (by simp)).2.2 k ⟨v, hv⟩

theorem public_empty [Rnd] [One κ] : Public (⟨[], ⟨0, []⟩⟩ : SigSet α κ) ∧ ∀ k, ¬ HasTag (⟨[], ⟨0, []⟩⟩ : SigSet α κ) k :=
  ⟨⟨.new (.dict []) [] (by simp) (by simp) rfl, fun k _ => rfl⟩, fun k ⟨v, hv⟩ => by simp [Tags.getItem, Dict.get?] at hv⟩

theorem public_joinMerge [Rnd] [One κ] {o : SetOrder} {I : Inventory α κ} (hI : ∀ S ∈ I, Public S) {R : SigSet α κ}
    (h : I.joinMerge o = .ok R) : Public R ∧ Kept I R ∧ (∀ k, HasTag R k → ∃ S ∈ I, HasTag S k) := by
  unfold joinMerge at h
  split at h
  · have e : R = ⟨[], ⟨0, []⟩⟩ := by
      have : (.ok ⟨[], ⟨0, []⟩⟩ : Except Err (SigSet α κ)) = .ok R := h
      simpa using this.symm
    subst e
    exact ⟨public_empty.1, ⟨by simp, by simp⟩, fun k hk => absurd hk (public_empty.2 k)⟩
  · split at h
    · simp at h
    · simp at h
    · rename_i a ha
      simp at h; subst h
      obtain ⟨g, _, hg⟩ := mapE_ok_exists ha a (by simp)
      exact public_groupSet hI hg
    · rename_i a others _ ha
      have hall : ∀ T ∈ a :: others, Public T ∧ Kept I T ∧ (∀ k, HasTag T k → ∃ S ∈ I, HasTag S k) := by
        intro T hT
        obtain ⟨g, _, hg⟩ := mapE_ok_exists ha T hT
        exact public_groupSet hI hg
      obtain ⟨h1, h2, h3⟩ := public_merge (fun T hT => (hall T hT).1) h
      refine ⟨h1, h2.trans (fun T hT => (hall T hT).2.1), ?_⟩
      intro k hk
      obtain ⟨T, hT, hk'⟩ := (h3 k).1 hk
      exact (hall T hT).2.2 k hk'

theorem public_rateSet [Rnd] [One κ] {o : SetOrder} {I : Inventory α κ} (hI : ∀ S ∈ I, Public S) {f0 : ℚ} {R : SigSet α κ}
    (h : I.rateSet o f0 = .ok R) :
    Public R ∧ Kept I R ∧ (∀ k, HasTag R k → ∃ S ∈ I, HasTag S k) := by
  unfold rateSet at h
  split at h
  · simp at h
  · rename_i J hJ
    have hsel : ∀ T ∈ J, Public T ∧ Kept I T ∧ (∀ k, HasTag T k → ∃ S ∈ I, HasTag S k) := by
      unfold selectRuns at hJ
      split at hJ
      · simp at hJ
      · split at hJ
        · simp at hJ
        · rename_i l hl
          rw [new_set] at hJ
          simp only [Except.ok.injEq] at hJ; subst hJ
          intro T hT
          obtain ⟨p, hp, hs⟩ := mapE_ok_exists hl T (List.mem_filter.1 hT).1
          obtain ⟨i, hi, hpi⟩ := List.mem_iff_getElem.1 hp
          simp at hi
          simp at hpi
          subst hpi
          have hS := hI _ (List.getElem_mem hi)
          obtain ⟨h1, h2, h3, h4⟩ := public_selectRuns hS hs
          refine ⟨h1, (Kept.of_sub h4 h2).mono (by simp), ?_⟩
          rintro k ⟨v, hv⟩
          rw [h2 k] at hv
          exact ⟨_, List.getElem_mem hi, v, hv⟩
    obtain ⟨h1, h2, h3⟩ := public_joinMerge (fun T hT => (hsel T hT).1) h
    refine ⟨h1, h2.trans (fun T hT => (hsel T hT).2.1), ?_⟩
    intro k hk
    obtain ⟨T, hT, hk'⟩ := h3 k hk
    exact (hsel T hT).2.2 k hk'

/-- What `pack` does: nothing, or the fusion of a set with data from the inventory. -/
theorem packAll_public [Rnd] [One κ] {o : SetOrder} {I : Inventory α κ} (hI : ∀ S ∈ I, Public S) {R : SigSet α κ}
    (h : I.packAll o = .ok R) :
    R = ⟨[], ⟨0, []⟩⟩ ∨ ∃ M, Public M ∧ Kept I M ∧ M.runs ≠ [] ∧ (∀ k, HasTag M k ↔ ∃ S ∈ I, HasTag S k) ∧
      M.mergeConsecutive = .ok R := by
  unfold packAll at h
  split at h
  · simp at h
  · rename_i sigs hsigs
    split at h
    · have : (.ok ⟨[], ⟨0, []⟩⟩ : Except Err (SigSet α κ)) = .ok R := h
      left; simpa using this.symm
    · rename_i S l hl
      split at h
      · simp at h
      · rename_i M hM
        right
        have hall : ∀ T ∈ S :: l, Public T ∧ Kept I T ∧ (∀ k, HasTag T k → ∃ U ∈ I, HasTag U k) ∧ T.runs ≠ [] ∧
            ∀ k ∈ I.names, HasTag T k := by
          intro T hT
          rw [← hl, List.mem_filter] at hT
          obtain ⟨f0, _, hf⟩ := mapE_ok_exists hsigs T hT.1
          obtain ⟨h1, h2, h3⟩ := public_rateSet hI hf
          have hb := hT.2
          simp only [Bool.and_eq_true, Bool.not_eq_true', List.isEmpty_eq_false_iff, List.all_eq_true] at hb
          exact ⟨h1, h2, h3, hb.1, fun k hk => hasTag_iff.1 (hb.2 k hk)⟩
        obtain ⟨h1, h2, h3, h4⟩ := public_joinAll (fun T hT => (hall T hT).1) hM
        obtain ⟨a1, a2, a3, a4, a5⟩ := hall S (by simp)
        have ht := h3 S (by simp)
        refine ⟨M, h1, h2.trans (fun T hT => (hall T hT).2.1), ?_, ?_, h⟩
        · obtain ⟨s, hs⟩ := List.exists_mem_of_ne_nil _ a4
          obtain ⟨r, hr, _⟩ := h4 S (by simp) s hs
          exact List.ne_nil_of_mem hr
        · intro k
          have : HasTag M k ↔ HasTag S k := by unfold HasTag; rw [ht k]
          rw [this]
          exact ⟨a3 k, fun hk => a5 k (mem_names.2 hk)⟩

end Inventory
end Razorback
