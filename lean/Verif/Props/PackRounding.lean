/- C88: packing an inventory, whatever the rounding of times. -/
import Verif.Lemmas.PackRound
import Verif.Props.Inventory
import Verif.Props.DoubleOps

namespace Razorback.Props
open Razorback Spec SigSet
variable {α κ : Type _}

/-- **C88.** Whatever the rounding of times, if `pack()` succeeds the result is the empty set, or it has runs, exactly the
tag names of the inventory, and only sampling rates of the inventory. -/
theorem C88_names [Rnd] [One κ] (o : SetOrder) (I : Inventory α κ) (hI : ∀ S ∈ I, Reach S) (hp : ∀ S ∈ I, Plain S.tags)
    (R : SigSet α κ) (h : I.pack o = .ok R) :
    (R.runs = [] ∧ ∀ k, ¬ HasTag R k) ∨
    (R.runs ≠ [] ∧ (∀ k, HasTag R k ↔ ∃ S ∈ I, HasTag S k) ∧
      ∀ r ∈ R.runs, ∃ S ∈ I, ∃ s ∈ S.runs, s.rate = r.rate) := by
  rcases Inventory.packAll_public (fun S hS => ⟨hI S hS, hp S hS⟩) h with rfl | ⟨M, h1, h2, h3, h4, h5⟩
  · exact .inl ⟨rfl, Inventory.public_empty.2⟩
  · obtain ⟨a1, a2, a3, _⟩ := fused_pieces h1 h5
    refine .inr ⟨a3 h3, ?_, ?_⟩
    · intro k
      have : HasTag R k ↔ HasTag M k := by unfold HasTag; rw [a1 k]
      rw [this, h4]
    · intro r hr
      obtain ⟨s, hs, e⟩ := a2 r hr
      obtain ⟨T, hT, u, hu, e'⟩ := h2.rate s hs
      exact ⟨T, hT, u, hu, e'.trans e⟩

theorem packAll_pieces [Rnd] [One κ] {o : SetOrder} {I : Inventory α κ} (hI : ∀ S ∈ I, Public S)
    {R : SigSet α κ} (h : I.packAll o = .ok R) :
    (∀ k, HasTag R k → ∃ S ∈ I, HasTag S k) ∧
    ∀ r ∈ R.runs, ∀ k j c, designated R.tags r k j = some c →
      ∃ (p0 : List α) (ps : List (List α)), c.1.map Prod.snd = p0 ++ ps.flatten ∧ PieceOf I r.rate k j p0 c.2 ∧
        ∀ p ∈ ps, ∃ cal, PieceOf I r.rate k j p cal := by
  rcases Inventory.packAll_public hI h with rfl | ⟨M, h1, h2, h3, h4, h5⟩
  · exact ⟨fun k hk => absurd hk (Inventory.public_empty.2 k), by simp⟩
  · obtain ⟨a1, a2, a3, a4⟩ := fused_pieces h1 h5
    have hk : ∀ T ∈ [M], Kept I T := by simpa using h2
    refine ⟨?_, ?_⟩
    · rintro k ⟨v, hv⟩
      rw [a1 k] at hv
      exact (h4 k).1 ⟨v, hv⟩
    · intro r hr k j c hc
      obtain ⟨p0, ps, e, e1, e2⟩ := a4 r hr k j c hc
      refine ⟨p0, ps, e, PieceOf.trans hk e1, ?_⟩
      intro p hp
      obtain ⟨cal, hc⟩ := e2 p hp
      exact ⟨cal, PieceOf.trans hk hc⟩

/-- **C88.** Whatever the rounding of times, with or without `keep_multi_tags`, if `pack` succeeds the values of each
channel designated by tag `k`, position `j` are one or more pieces put end to end, each of them consecutive samples of a
channel designated by `k`, `j` in a run with the same rate of the inventory; the calibration is that of the channel of
the first piece; and no tag name is new. -/
theorem C88_pack [Rnd] [One κ] (o : SetOrder) (I : Inventory α κ) (hI : ∀ S ∈ I, Reach S) (hp : ∀ S ∈ I, Plain S.tags)
    (keep : Bool) (R : SigSet α κ) (h : I.pack o keep = .ok R) :
    (∀ k, HasTag R k → ∃ S ∈ I, HasTag S k) ∧
    ∀ r ∈ R.runs, ∀ k j c, designated R.tags r k j = some c →
      ∃ (p0 : List α) (ps : List (List α)), c.1.map Prod.snd = p0 ++ ps.flatten ∧ PieceOf I r.rate k j p0 c.2 ∧
        ∀ p ∈ ps, ∃ cal, PieceOf I r.rate k j p cal := by
  have hI : ∀ S ∈ I, Public S := fun S hS => ⟨hI S hS, hp S hS⟩
  cases keep with
  | true => exact packAll_pieces hI h
  | false =>
    simp only [Inventory.pack, Bool.false_eq_true, if_false] at h
    split at h
    · simp at h
    · split at h
      · simp at h
      · rename_i l hl
        rw [Inventory.new_set] at h
        simp only at h
        have hJ : ∀ S ∈ l.flatten, Public S ∧ Kept I S ∧ ∀ k, HasTag S k → ∃ T ∈ I, HasTag T k := by
          intro S hS
          obtain ⟨J, hJ, hSJ⟩ := List.mem_flatten.1 hS
          obtain ⟨t, _, ht⟩ := mapE_ok_exists hl J hJ
          exact Inventory.public_select hI ht S hSJ
        obtain ⟨h1, h2⟩ := packAll_pieces (fun S hS => (hJ S hS).1) h
        refine ⟨?_, ?_⟩
        · intro k hk
          obtain ⟨S, hS, hk⟩ := h1 k hk
          exact (hJ S hS).2.2 k hk
        · intro r hr k j c hc
          obtain ⟨p0, ps, e, e1, e2⟩ := h2 r hr k j c hc
          refine ⟨p0, ps, e, PieceOf.trans (fun S hS => (hJ S hS).2.1) e1, ?_⟩
          intro p hp
          obtain ⟨cal, hc⟩ := e2 p hp
          exact ⟨cal, PieceOf.trans (fun S hS => (hJ S hS).2.1) hc⟩

/-- **C88.** `extract_groups`, whatever the rounding of times: the values of a channel of a group are pieces put end to end
of channels of the inventory, designated by the same tag or, for the new tag, by one of the old tags. -/
theorem C88_groups [Rnd] [One κ] (o : SetOrder) (I R : Inventory α κ) (hI : ∀ S ∈ I, Reach S) (hp : ∀ S ∈ I, Plain S.tags)
    (gs : List (String × List String)) (h : I.extractGroups o gs = .ok R) :
    List.Forall₂ (fun g S => ∀ r ∈ S.runs, ∀ k j c, designated S.tags r k j = some c →
      ∃ k' j', (k ≠ g.1 ∧ k' = k ∧ j' = j ∨ k = g.1 ∧ k' ∈ g.2) ∧
      ∃ (p0 : List α) (ps : List (List α)), c.1.map Prod.snd = p0 ++ ps.flatten ∧ PieceOf I r.rate k' j' p0 c.2 ∧
        ∀ p ∈ ps, ∃ cal, PieceOf I r.rate k' j' p cal) gs R := by
  refine (C36_extract_groups o I R gs h).imp ?_
  rintro g S ⟨J, P, h1, h2, h3, h4, h5, h6⟩ r hr k j c hc
  have hJ := Inventory.public_select (fun S hS => ⟨hI S hS, hp S hS⟩) h1
  rw [h3] at hr
  have back : ∀ k' j', designated P.tags r k' j' = some c →
      ∃ (p0 : List α) (ps : List (List α)), c.1.map Prod.snd = p0 ++ ps.flatten ∧ PieceOf I r.rate k' j' p0 c.2 ∧
        ∀ p ∈ ps, ∃ cal, PieceOf I r.rate k' j' p cal := by
    intro k' j' hk
    obtain ⟨p0, ps, e, e1, e2⟩ := (packAll_pieces (fun T hT => (hJ T hT).1) h2).2 r hr k' j' c hk
    refine ⟨p0, ps, e, PieceOf.trans (fun S hS => (hJ S hS).2.1) e1, ?_⟩
    intro p hp
    obtain ⟨cal, hc⟩ := e2 p hp
    exact ⟨cal, PieceOf.trans (fun S hS => (hJ S hS).2.1) hc⟩
  have hdes : ∀ (t : Tags) k j, designated t r k j = ((tagChannels t r k)[j]?).join := by
    intro t k j
    unfold designated tagChannels
    cases t.getItem k with
    | error e => simp
    | ok v =>
      simp only [List.getElem?_map]
      cases v[j]? <;> simp
  by_cases hk : k = g.1
  · subst hk
    rw [hdes, (h5 r).1] at hc
    cases hx : (g.2.flatMap (tagChannels P.tags r))[j]? with
    | none => rw [hx] at hc; simp at hc
    | some x =>
      rw [hx] at hc
      obtain ⟨pre, k', post, j', e1, _, e3⟩ :=
        flatMap_locate (sz := fun k' => (tagChannels P.tags r k').length) g.2 (fun _ _ => rfl) j x hx
      exact ⟨k', j', .inr ⟨rfl, by rw [e1]; simp⟩, back k' j' (by rw [hdes, e3]; exact hc)⟩
  · refine ⟨k, j, .inl ⟨hk, rfl, rfl⟩, back k j ?_⟩
    unfold designated at hc ⊢
    rw [h6 k hk] at hc
    exact hc

/-- Two recordings of "E", the second of which continues the first one, and one of "H". -/
def exTenths : Inventory ℤ ℚ :=
  [exOne "E" exTenth, exOne "H" exFifth, exOne "E" ⟨[[7, 8]], [1], 10, fl (fl (1 / 10) + fl (6 / 10)), 2⟩]

/-- What packing them gives in double precision. -/
def exTenthsPacked : SigSet ℤ ℚ := ⟨[⟨[[2, 3, 4, 5], [7, 8, 9, 10]], [1, 2], 10, fl (2 / 10), 4⟩], ⟨2, [("E", [0]), ("H", [1])]⟩⟩

theorem exTenths_public : (∀ S ∈ exTenths, @Reach _ _ Rnd.double _ S) ∧ (∀ S ∈ exTenths, Plain S.tags) := by
  refine ⟨?_, ?_⟩
  · intro S hS
    simp only [exTenths, List.mem_cons, List.not_mem_nil, or_false] at hS
    rcases hS with rfl | rfl | rfl
    · exact exTenth_reach
    · exact exFifth_reach
    · exact exOne_reach _ _ ⟨by simp, by simp, by simp⟩ (by decide +kernel)
  · intro S hS
    simp only [exTenths, List.mem_cons, List.not_mem_nil, or_false] at hS
    rcases hS with rfl | rfl | rfl <;> (unfold Plain exOne; decide)

theorem exTenths_pack : ∀ keep, @Inventory.pack _ _ Rnd.double _ exOrd exTenths keep = .ok exTenthsPacked := by
  decide +kernel

-- C88_names, C88_pack: the hypotheses are met in double precision
example := @C88_names _ _ Rnd.double _ exOrd exTenths exTenths_public.1 exTenths_public.2 _ (exTenths_pack true)
example := @C88_pack _ _ Rnd.double _ exOrd exTenths exTenths_public.1 exTenths_public.2 false _ (exTenths_pack false)

theorem exTenths_groups : @Inventory.extractGroups _ _ Rnd.double _ exOrd exTenths [("all", ["E", "H"])] =
    .ok [⟨exTenthsPacked.runs, ⟨2, [("E", [0]), ("H", [1]), ("all", [0, 1])]⟩⟩] := by
  letI : Rnd := Rnd.double
  have hn : Inventory.setOf exOrd exTenths.names = ["H", "E"] := by decide +kernel
  have hE : Fnmatch.filter (Inventory.setOf exOrd exTenths.names) "E" = ["E"] := by
    rw [hn]
    simp [Fnmatch.filter, Fnmatch.fnmatch, Fnmatch.tokens, Fnmatch.matchToks, Fnmatch.Tok.one]
  have hH : Fnmatch.filter (Inventory.setOf exOrd exTenths.names) "H" = ["H"] := by
    rw [hn]
    simp [Fnmatch.filter, Fnmatch.fnmatch, Fnmatch.tokens, Fnmatch.matchToks, Fnmatch.Tok.one]
  have hf : exTenths.filter exOrd ["E", "H"] = .ok exTenths := by
    unfold Inventory.filter
    simp only [List.flatMap_cons, List.flatMap_nil, hE, hH]
    decide +kernel
  unfold Inventory.extractGroups mapE Inventory.groupOf
  simp only [hf, exTenths_pack]
  decide +kernel

-- C88_groups: the hypotheses are met in double precision
example := @C88_groups _ _ Rnd.double _ exOrd exTenths _ exTenths_public.1 exTenths_public.2 _ exTenths_groups

end Razorback.Props
