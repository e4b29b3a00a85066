/- C85: whatever the rounding of times, operations do not make up samples. -/
import Verif.Lemmas.AnyRound
import Verif.Props.Consecutive
import Verif.Model.Rounding

namespace Razorback.Props
open Razorback Spec SigSet
variable {α κ : Type _}

/-- **C85.** Extraction from a `SyncSignal`, by time or by index, gives consecutive samples of it, the same ones on
every channel, whatever the rounding of times and whatever the bounds. -/
theorem C85_sync [Rnd] [One κ] (s r : Sync α κ) (hs : WF s) :
    (∀ a b strict, s.extractT a b strict = .ok r → SampleBlock s r) ∧
    (∀ i j strict last, s.extractI i j strict last = .ok r → SampleBlock s r) :=
  ⟨fun _ _ _ h => Sync.extractT_block hs h, fun _ _ _ _ h => Sync.extractI_block hs h⟩

/-- **C85.** `extract_t` on a signal set: the tags are kept and the runs are blocks of at least two consecutive samples,
at most one per run of the set. -/
theorem C85_extract [Rnd] [One κ] (S R : SigSet α κ) (hS : Reach S) (a b : ℚ) (h : S.extractT a b = .ok R) :
    SameTags R.tags S.tags ∧
    ∃ bs, List.Forall₂ SampleBlock S.runs bs ∧ R.runs.Perm (bs.filter (fun r => decide (1 < r.size))) := by
  obtain ⟨h1, bs, h2, h3⟩ := extractIn_blocks (reach_sinv hS) h
  exact ⟨h1, bs, blocks_of (reach_sinv hS).okAs.wf h2, h3⟩

/-- **C85.** `extract_t` with `exclude=True`: the tags are kept and each run, seen through its tags, is a block of at
least two consecutive samples of a run of the set. -/
theorem C85_exclude [Rnd] [One κ] (S R : SigSet α κ) (hS : Reach S) (a b : ℚ) (h : S.extractT a b true = .ok R) :
    SameTags R.tags S.tags ∧
    ∀ r ∈ R.runs, ∃ s ∈ S.runs, ∃ b, SampleBlock s b ∧ 1 < b.size ∧ SameRun R.tags r S.tags b := by
  have hI := reach_sinv hS
  unfold SigSet.extractT at h
  rw [if_pos rfl] at h
  split at h
  · simp at h
  · rename_i first _
    split at h
    · simp at h
    · rename_i left hl
      split at h
      · simp at h
      · split at h
        · simp at h
        · rename_i last _
          split at h
          · simp at h
          · rename_i right hr
            have hL : Reach left := .extractT first a false hS hl
            have hRt : Reach right := .extractT b last false hS hr
            obtain ⟨l1, ls, l2, l3⟩ := extractIn_blocks hI hl
            obtain ⟨r1, rs, r2, r3⟩ := extractIn_blocks hI hr
            obtain ⟨j1, j2⟩ := C14_join_by_tag left R [.set right] hL (by
              intro T hT
              simp only [List.mem_singleton, SigArg.set.injEq] at hT
              rw [hT]; exact hRt) h
            refine ⟨fun k => (j1 k).trans (l1 k), ?_⟩
            have key : ∀ (T : SigSet α κ), SameTags T.tags S.tags → ∀ bs, List.Forall₂ SampleBlock S.runs bs →
                T.runs.Perm (bs.filter (fun r => decide (1 < r.size))) → ∀ r, (∃ t ∈ T.runs, SameRun R.tags r T.tags t) →
                ∃ s ∈ S.runs, ∃ b, SampleBlock s b ∧ 1 < b.size ∧ SameRun R.tags r S.tags b := by
              intro T hT bs hb hp r ⟨t, ht, hrt⟩
              obtain ⟨m1, m2⟩ := List.mem_filter.1 (hp.mem_iff.1 ht)
              obtain ⟨s, hs, hst⟩ := forall₂_right hb t m1
              refine ⟨s, hs, t, hst, by simpa using m2, hrt.rate, hrt.start, hrt.size, ?_⟩
              intro k j
              rw [hrt.chans k j]
              unfold designated
              rw [hT k]
            intro r hr'
            rcases j2 r hr' with ⟨s, hs, hsr⟩ | ⟨T, hT, s, hs, hsr⟩ | ⟨s, hs, _⟩
            · exact key left l1 ls (blocks_of hI.okAs.wf l2) l3 r ⟨s, hs, hsr⟩
            · simp only [List.mem_singleton, SigArg.set.injEq] at hT
              subst hT
              exact key T r1 rs (blocks_of hI.okAs.wf r2) r3 r ⟨s, hs, hsr⟩
            · simp at hs

/-- **C85.** `merge`: each run of the result has side by side the channels of one block per operand, of consecutive
samples of a run of this operand; the blocks have the same clock; the tags of the operands designate in the
result what they designate in the blocks. -/
theorem C85_merge [Rnd] [One κ] (S R : SigSet α κ) (others : List (SigSet α κ)) (hR : ∀ T ∈ S :: others, Reach T)
    (hp : ∀ T ∈ S :: others, Plain T.tags) (h : S.merge others = .ok R) :
    ∀ r ∈ R.runs, ∃ c bs, Choice c (S :: others) ∧ List.Forall₂ SampleBlock c bs ∧ SideBySide r bs ∧
      ∀ (i : Nat) T b k v, (S :: others)[i]? = some T → bs[i]? = some b → T.tags.getItem k = .ok v →
        (∃ w, R.tags.getItem k = .ok w ∧ w.length = v.length) ∧
        ∀ j, designated R.tags r k j = designated T.tags b k j := by
  have hI : ∀ T ∈ S :: others, SInv T := fun T hT => reach_sinv (hR T hT)
  obtain ⟨q1, q2, q3⟩ := merge_blocks hI hp h
  intro r hr
  obtain ⟨c, bs, x, y, c1, c2, c3, _⟩ := q1 r hr
  have c2 : List.Forall₂ SampleBlock c bs := blocks_of (fun s hs => by
    obtain ⟨T, hT, hsT⟩ := choice_mem c1 s hs
    exact (hI T hT).okAs.wf s hsT) c2
  refine ⟨c, bs, c1, c2, c3, ?_⟩
  intro i T b k v hT hb hk
  have hTm := List.mem_of_getElem? hT
  have hkm := Dict.mem_of_get? (Tags.getItem_ok.1 hk)
  have hget : R.tags.getItem k = .ok (v.map (· + (0 + ((((S :: others).take i).map nbChannels).sum)))) := by
    rw [Tags.getItem_ok, q2]
    exact Dict.get?_of_mem q3 (mem_mergedEntries.2 ⟨i, T, v, hT, hkm, rfl⟩)
  refine ⟨⟨_, hget, by simp⟩, ?_⟩
  have hw : ∀ b ∈ bs, WF b := by
    intro b hb
    obtain ⟨s, hs, hsb⟩ := forall₂_right c2 b hb
    obtain ⟨T, hT, hsT⟩ := choice_mem c1 s hs
    exact block_wf ((hI T hT).okAs.wf s hsT) hsb
  have hn : ∀ (seqs : List (SigSet α κ)) (c bs : List (Sync α κ)) (i : Nat), (∀ T ∈ seqs, SInv T) → Choice c seqs →
      List.Forall₂ SampleBlock c bs →
      ((seqs.take i).map nbChannels).sum = ((bs.take i).map (fun b => b.data.length)).sum ∧
      ∀ T b, seqs[i]? = some T → bs[i]? = some b → b.data.length = T.tags.n := by
    intro seqs c bs i hI hc hb
    unfold Choice at hc
    induction hc generalizing bs i with
    | nil => cases hb; simp
    | @cons s T c seqs h1 h2 ih =>
      cases hb with
      | @cons _ b _ bs hb1 hb2 =>
        have hbl : b.data.length = s.data.length := by
          obtain ⟨_, _, _, _, e, _⟩ := hb1
          rw [e, List.length_map]
        cases i with
        | zero =>
          refine ⟨by simp, ?_⟩
          intro T' b' hT' hb'
          simp only [List.getElem?_cons_zero, Option.some.injEq] at hT' hb'
          subst hT'; subst hb'
          rw [hbl, ← (hI T (by simp)).n s h1]
        | succ i =>
          obtain ⟨i1, i2⟩ := ih bs i (fun T hT => hI T (by simp [hT])) hb2
          refine ⟨?_, fun T' b' hT' hb' => i2 T' b' (by simpa using hT') (by simpa using hb')⟩
          simp only [List.take_succ_cons, List.map_cons, List.sum_cons]
          rw [i1, nbChannels_eq (hI T (by simp)) h1, hbl]
  obtain ⟨n1, n2⟩ := hn (S :: others) c bs i hI c1 c2
  intro j
  unfold designated
  rw [hget, hk]
  simp only [List.getElem?_map, Nat.zero_add]
  cases hv : v[j]? with
  | none => rfl
  | some x =>
    simp only [Option.map_some, Option.bind_some]
    rw [n1, Nat.add_comm]
    apply sideBySide_getElem c3 hw hb
    rw [n2 T b hT hb]
    exact ((hI T hTm).inv.legal k v (Tags.getItem_ok.1 hk)).2.2 x (List.mem_of_getElem? hv)

end Razorback.Props
