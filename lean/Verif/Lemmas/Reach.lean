/- The invariant of signal sets is preserved by every operation. -/
import Verif.Lemmas.SigSet

namespace Razorback
open Spec
variable {α β κ : Type _}

theorem Sync.select_wf [One κ] {s r : Sync α κ} {l : List Int} (h : s.select l = .ok r) : WF r := by
  unfold Sync.select at h
  split at h
  · simp at h
  · split at h
    · simp at h
    · exact (Sync.new_ok h).1

theorem Sync.extractI_wf [Rnd] [One κ] {s r : Sync α κ} {i j : Option Int} {b c : Bool}
    (h : s.extractI i j b c = .ok r) : WF r := by
  unfold Sync.extractI at h
  generalize (j.map (fun j => if c then j + 1 else j)).getD (s.size : Int) = J at h
  dsimp only at h
  split at h
  · simp at h
  · split at h
    · simp at h
    · exact (Sync.new_ok h).1

theorem Sync.extractT_wf [Rnd] [One κ] {s r : Sync α κ} {i j : ℚ} {b : Bool}
    (h : s.extractT i j b = .ok r) : WF r := by
  unfold Sync.extractT at h
  split at h
  · simp at h
  · split at h
    · simp at h
    · exact Sync.extractI_wf h

namespace SigSet

/-- Internal form of the invariant. -/
structure SInv [Rnd] (S : SigSet α κ) : Prop where
  okAs : SetOKAs S
  inv : S.tags.Inv
  n : ∀ r ∈ S.runs, S.tags.n = r.data.length

theorem SInv.ok {S : SigSet α κ} (h : SInv S) : SetOK S := by
  obtain ⟨⟨h1, h2, h3, h4, h5, h6⟩, -, -⟩ := h
  refine ⟨h1, h2, h3, h4, h5.imp_of_mem ?_, h6⟩
  rintro a b ha _ ⟨t, ht, hab⟩
  rw [Sync.stop_eq a (h2 a ha)] at ht
  simp only [Except.ok.injEq] at ht
  rw [ht]; exact hab

theorem SInv.of_ok {S : SigSet α κ} (h : SetOK S) (hi : S.tags.Inv) (hn : ∀ r ∈ S.runs, S.tags.n = r.data.length) : SInv S := by
  obtain ⟨h1, h2, h3, h4, h5, h6⟩ := h
  refine ⟨⟨h1, h2, h3, h4, h5.imp_of_mem ?_, h6⟩, hi, hn⟩
  intro a b ha _ hab
  exact ⟨_, Sync.stop_eq a (h2 a ha), hab⟩

theorem build_sinv [Rnd] {tags : TagsArg} {runs : List (Sync α κ)} {S : SigSet α κ}
    (h : build tags runs = .ok S) (hw : ∀ r ∈ runs, WF r) : SInv S :=
  ⟨(build_ok_setOK h hw).1, (build_ok_setOK h hw).2, build_tags_n h hw⟩

theorem mapE_wf {f : β → Except Err (Sync α κ)} {l : List β} {rs : List (Sync α κ)}
    (h : mapE f l = .ok rs) (hf : ∀ a r, f a = .ok r → WF r) : ∀ r ∈ rs, WF r := by
  intro r hr
  obtain ⟨a, _, ha⟩ := mapE_ok_exists h r hr
  exact hf a r ha

theorem reorderRun_wf [One κ] {p : List (Int × Nat)} {n : Nat} {s r : Sync α κ}
    (h : reorderRun p n s = .ok r) : WF r := by
  unfold reorderRun at h
  split at h
  · simp at h
  · exact Sync.select_wf h

theorem reorder_sinv [Rnd] [One κ] {S S' : SigSet α κ} {tags : TagsArg} (hS : SInv S)
    (h : S.reorder tags = .ok S') : SInv S' := by
  unfold reorder at h
  split at h
  · simp at h
  · simp at h; rw [← h]; exact hS
  · split at h
    · simp at h
    · rename_i hm
      exact build_sinv h (mapE_wf hm (fun _ _ => reorderRun_wf))

theorem argRuns_wf [Rnd] [One κ] {tags : TagsArg} {a : SigArg α κ} {rs : List (Sync α κ)}
    (h : argRuns tags a = .ok rs) (h1 : ∀ s, a = .sync s → WF s) (h2 : ∀ S, a = .set S → SInv S) :
    ∀ r ∈ rs, WF r := by
  cases a with
  | sync s => simp [argRuns] at h; subst h; simpa using h1 s rfl
  | set S =>
    simp only [argRuns] at h
    split at h
    · simp at h
    · rename_i S' hS'
      simp at h; subst h
      exact (reorder_sinv (h2 S rfl) hS').okAs.wf

theorem new_sinv [Rnd] [One κ] {tags : TagsArg} {args : List (SigArg α κ)} {S : SigSet α κ}
    (h : new tags args = .ok S) (h1 : ∀ s, .sync s ∈ args → WF s) (h2 : ∀ S, .set S ∈ args → SInv S) :
    SInv S := by
  unfold new at h
  split at h
  · simp at h
  · rename_i rss hm
    refine build_sinv h ?_
    intro r hr
    obtain ⟨rs, hrs, hr'⟩ := List.mem_flatten.1 hr
    obtain ⟨a, ha, hfa⟩ := mapE_ok_exists hm rs hrs
    exact argRuns_wf hfa (fun s hs => h1 s (hs ▸ ha)) (fun S hS => h2 S (hS ▸ ha)) r hr'

theorem join_sinv [Rnd] [One κ] {S S' : SigSet α κ} {args : List (SigArg α κ)} (hS : SInv S)
    (h : S.join args = .ok S') (h1 : ∀ s, .sync s ∈ args → WF s) (h2 : ∀ S, .set S ∈ args → SInv S) :
    SInv S' := by
  refine new_sinv h ?_ ?_
  · intro s hs; rcases List.mem_cons.1 hs with h | h
    · simp at h
    · exact h1 s h
  · intro T hT; rcases List.mem_cons.1 hT with h | h
    · simp at h; rw [h]; exact hS
    · exact h2 T h

theorem selectChannels_sinv [Rnd] [One κ] {S S' : SigSet α κ} {sel : ChanSel}
    (h : S.selectChannels sel = .ok S') : SInv S' := by
  unfold selectChannels at h
  split at h
  · simp at h
  · split at h
    · simp at h
    · split at h
      · simp at h
      · rename_i hm
        exact build_sinv h (mapE_wf hm (fun _ _ => Sync.select_wf))

theorem selectRuns_sinv [Rnd] {S S' : SigSet α κ} {r : RunIdx} (hS : SInv S)
    (h : S.selectRuns r = .ok S') : SInv S' := by
  unfold selectRuns at h
  split at h
  · simp at h
  · refine build_sinv h ?_
    intro r hr
    obtain ⟨i, _, hi⟩ := List.mem_filterMap.1 hr
    exact hS.okAs.wf r (List.mem_of_getElem? hi)

theorem extractIn_sinv [Rnd] [One κ] {S S' : SigSet α κ} {a b : ℚ} (h : S.extractIn a b = .ok S') : SInv S' := by
  unfold extractIn at h
  split at h
  · simp at h
  · rename_i hm
    refine build_sinv h ?_
    intro r hr
    exact mapE_wf hm (fun _ _ => Sync.extractT_wf) r (List.mem_filter.1 hr).1

theorem extractT_sinv [Rnd] [One κ] {S S' : SigSet α κ} {a b : ℚ} {e : Bool} (h : S.extractT a b e = .ok S') :
    SInv S' := by
  unfold extractT at h
  split at h
  · split at h
    · simp at h
    · split at h
      · simp at h
      · rename_i hl
        split at h
        · simp at h
        · split at h
          · simp at h
          · split at h
            · simp at h
            · rename_i hr
              refine join_sinv (extractIn_sinv hl) h (by simp) ?_
              intro T hT
              simp at hT; rw [hT]; exact extractIn_sinv hr
  · exact extractIn_sinv h

theorem mergeOne_wf [Rnd] [One κ] {seqs : List (SigSet α κ)} {a b : ℚ} {r : Sync α κ}
    (h : mergeOne seqs a b = .ok (some r)) : WF r := by
  unfold mergeOne at h
  split at h
  · simp at h
  · split at h
    · dsimp only at h
      split at h
      · split at h
        · split at h
          · simp at h
          · rename_i hs
            simp at h; subst h
            exact (Sync.new_ok hs).1
        · simp at h
      · simp at h
    · simp at h

theorem merge_sinv [Rnd] [One κ] {S S' : SigSet α κ} {others : List (SigSet α κ)}
    (h : S.merge others = .ok S') : SInv S' := by
  unfold merge at h
  split at h
  · simp at h
  · split at h
    · simp at h
    · split at h
      · simp at h
      · rename_i hm
        refine build_sinv h ?_
        intro r hr
        obtain ⟨o, ho, hro⟩ := List.mem_filterMap.1 hr
        obtain ⟨i, _, hi⟩ := mapE_ok_exists hm o ho
        simp only [id] at hro
        subst hro
        exact mergeOne_wf hi

theorem foldE_induct {σ β : Type _} {P : σ → Prop} {f : σ → β → Except Err σ} {l : List β}
    (hf : ∀ s a s', P s → f s a = .ok s' → P s') {s s' : σ} (hs : P s) (h : foldE f s l = .ok s') : P s' := by
  induction l generalizing s with
  | nil => simp [foldE] at h; rw [← h]; exact hs
  | cons a l ih =>
    unfold foldE at h
    split at h
    · simp at h
    · rename_i s1 h1
      exact ih (hf _ _ _ hs h1) h

theorem fuse_wf [One κ] {G : SigSet α κ} {rate : ℚ} {r : Sync α κ} (h : fuse rate G = .ok r) : WF r := by
  unfold fuse at h
  split at h
  · simp at h
  · exact (Sync.new_ok h).1

theorem fuseStep_sinv [Rnd] [One κ] {S : SigSet α κ} {rate : ℚ} {st st' : SigSet α κ × List Nat}
    {g : Nat × Option Nat} (hst : SInv st.1) (h : fuseStep S rate st g = .ok st') : SInv st'.1 := by
  unfold fuseStep at h
  split at h
  · simp at h
  · split at h
    · simp at h
    · rename_i hf
      split at h
      · simp at h
      · rename_i hj
        simp at h; subst h
        refine join_sinv hst hj ?_ (by simp)
        intro s hs; simp at hs; rw [hs]; exact fuse_wf hf

theorem mergeConsecutive_sinv [Rnd] [One κ] {S S' : SigSet α κ} (hS : SInv S)
    (h : S.mergeConsecutive = .ok S') : SInv S' := by
  unfold mergeConsecutive at h
  split at h
  · simp at h
  · rename_i res0 h0
    have hres0 : SInv res0 := new_sinv h0 (by simp) (by simp)
    dsimp only at h
    split at h
    · simp at h
    · rename_i res added hf
      have hres : SInv (res, added).1 := by
        refine foldE_induct (P := fun st : SigSet α κ × List Nat => SInv st.1) ?_ hres0 hf
        intro st rate st' hst h1
        exact foldE_induct (P := fun st : SigSet α κ × List Nat => SInv st.1)
          (fun _ _ _ hp hq => fuseStep_sinv hp hq) hst h1
      split at h
      · simp at h
      · rename_i rest hrest
        refine join_sinv hres h (by simp) ?_
        intro T hT
        simp at hT; rw [hT]; exact selectRuns_sinv hS hrest

theorem nbChannels_eq [Rnd] {S : SigSet α κ} {r : Sync α κ} (h : SInv S) (hr : r ∈ S.runs) :
    S.nbChannels = r.data.length := by
  unfold nbChannels
  cases hs : S.runs with
  | nil => rw [hs] at hr; simp at hr
  | cons r0 rs => exact h.okAs.chans r0 (by rw [hs]; simp) r hr

theorem setTags_sinv [Rnd] {S S' : SigSet α κ} {v : TagsArg} (hS : SInv S) (h : S.setTags v = .ok S') : SInv S' := by
  unfold setTags at h
  split at h
  · simp at h
  · rename_i t ht
    simp at h; subst h
    obtain ⟨h1, h2⟩ := mkTags_inv ht
    have hn : ∀ r ∈ S.runs, t.n = r.data.length := by
      intro r hr
      have hc := nbChannels_eq hS hr
      rw [← hc]; apply h2; rw [hc]
      have := (hS.okAs.wf r hr).nonempty
      simpa using this
    refine ⟨⟨hS.okAs.wf, hS.okAs.rate, hS.okAs.chans, hS.okAs.sorted, hS.okAs.disjoint, ?_⟩, h1, hn⟩
    intro k v hv
    obtain ⟨l1, l2, l3⟩ := h1.legal k v (Tags.getItem_ok.1 hv)
    exact ⟨l1, l2, fun r hr i hi => by rw [← hn r hr]; exact l3 i hi⟩

theorem editTags_sinv [Rnd] {S : SigSet α κ} (hS : SInv S) (ops : List Tags.Op) :
    SInv { S with tags := S.tags.run ops } := by
  obtain ⟨h1, h2⟩ := Tags.run_inv hS.inv ops
  have hn : ∀ r ∈ S.runs, (S.tags.run ops).n = r.data.length := by
    intro r hr; rw [h2]; exact hS.n r hr
  refine ⟨⟨hS.okAs.wf, hS.okAs.rate, hS.okAs.chans, hS.okAs.sorted, hS.okAs.disjoint, ?_⟩, h1, hn⟩
  intro k v hv
  obtain ⟨l1, l2, l3⟩ := h1.legal k v (Tags.getItem_ok.1 hv)
  exact ⟨l1, l2, fun r hr i hi => by rw [← hn r hr]; exact l3 i hi⟩

end SigSet
end Razorback
