/-
Inventories.
-/
import Verif.Spec.Inventory
import Verif.Props.Consecutive
import Verif.Props.Merge
import Verif.Props.Extract

namespace Razorback
open Razorback.Spec
variable {α κ : Type _}

namespace Inventory

theorem extend_eq (I : Inventory α κ) (l : List (InvObj α κ)) :
    I.extend l = (I ++ validPrefix l, if (validPrefix l).length = l.length then none else some .value) := by
  induction l generalizing I with
  | nil => simp [extend, validPrefix]
  | cons x l ih =>
    cases x with
    | set S => simp [extend, append, validPrefix, ih]
    | other => simp [extend, append, validPrefix]

theorem validPrefix_set (l : List (SigSet α κ)) : validPrefix (l.map .set) = l := by
  induction l with
  | nil => rfl
  | cons S l ih => simp [validPrefix, ih]

theorem new_set (l : List (SigSet α κ)) : new (l.map .set) = .ok l := by
  unfold new
  rw [extend_eq, validPrefix_set]
  simp

theorem mem_setOf {o : SetOrder} (ho : SetOrder.OK o) {l : List String} {k : String} : k ∈ setOf o l ↔ k ∈ l := by
  unfold setOf
  rw [(ho.names _).mem_iff, mem_dedup]

theorem setOf_perm {o o' : SetOrder} (ho : SetOrder.OK o) (ho' : SetOrder.OK o') (l : List String) :
    (setOf o l).Perm (setOf o' l) := (ho.names _).trans (ho'.names _).symm

theorem setOf_nodup {o : SetOrder} (ho : SetOrder.OK o) (l : List String) : (setOf o l).Nodup :=
  (ho.names _).nodup_iff.2 (nodup_dedup l)

end Inventory

namespace SigSet

/-- `select_channels` with a sequence depends on the set of its elements only. -/
theorem mapE_resolve_members {t : Tags} {l l' : List ChanId} (h : ∀ c, c ∈ l → c ∈ l') {r' : List (List Nat)}
    (hr : mapE (resolveChan t) l' = .ok r') :
    ∃ r, mapE (resolveChan t) l = .ok r ∧ ∀ i, i ∈ r.flatten → i ∈ r'.flatten := by
  induction l with
  | nil => exact ⟨[], rfl, by simp⟩
  | cons c l ih =>
    obtain ⟨r, hr1, hr2⟩ := ih (fun c hc => h c (by simp [hc]))
    obtain ⟨v, hv, hf⟩ := mapE_ok_forall hr c (h c (by simp))
    refine ⟨v :: r, by simp [mapE, hf, hr1], ?_⟩
    intro i hi
    rw [List.flatten_cons, List.mem_append] at hi
    rcases hi with hi | hi
    · exact List.mem_flatten.2 ⟨v, hv, hi⟩
    · exact hr2 i hi

theorem sorted_members {l l' : List Nat} (h : ∀ i, i ∈ l ↔ i ∈ l') :
    sortBy (fun a b => decide (a ≤ b)) (dedup l) = sortBy (fun a b => decide (a ≤ b)) (dedup l') := by
  refine Props.strict_ext (sortNat_strict l) (sortNat_strict l') ?_
  intro i
  rw [mem_sortBy, mem_sortBy, mem_dedup, mem_dedup, h]

theorem selectChannels_members [Rnd] [One κ] (S : SigSet α κ) {l l' : List ChanId} (h : ∀ c, c ∈ l ↔ c ∈ l') :
    S.selectChannels (.many l) = S.selectChannels (.many l') := by
  have : chanIndices S.tags S.nbChannels (.many l) = chanIndices S.tags S.nbChannels (.many l') := by
    unfold chanIndices chanIds
    dsimp only
    cases hl : mapE (resolveChan S.tags) l with
    | ok r =>
      obtain ⟨r', hr1, hr2⟩ := mapE_resolve_members (fun c hc => (h c).2 hc) hl
      rw [hr1]
      obtain ⟨r2, hr3, hr4⟩ := mapE_resolve_members (fun c hc => (h c).1 hc) hr1
      rw [hl] at hr3
      simp at hr3; subst hr3
      simp only
      rw [sorted_members (fun i => ⟨hr4 i, hr2 i⟩)]
    | error e =>
      cases hl' : mapE (resolveChan S.tags) l' with
      | ok r' =>
        obtain ⟨r, hr1, _⟩ := mapE_resolve_members (fun c hc => (h c).1 hc) hl'
        rw [hl] at hr1; simp at hr1
      | error e' =>
        obtain ⟨c, _, hc⟩ := mapE_error hl
        obtain ⟨c', _, hc'⟩ := mapE_error hl'
        rw [resolveChan_error hc, resolveChan_error hc']
  unfold selectChannels
  rw [this]

end SigSet

namespace Inventory

theorem mapE_tagGet {S : SigSet α κ} (hg : S.tags.tags.has "get" = false) (keys : List String) :
    mapE (tagGet S) keys = .ok (keys.map (fun k => (S.tags.tags.get? k).getD [])) := by
  refine mapE_of_forall (fun k _ => ?_)
  simp [tagGet, Tags.callMethod, hg]

theorem mapE_tagGet_hidden {S : SigSet α κ} (hg : S.tags.tags.has "get" = true) (k : String) (keys : List String) :
    mapE (tagGet S) (k :: keys) = .error .type := by
  simp [mapE, tagGet, Tags.callMethod, hg]

theorem selectIn_members [Rnd] [One κ] {keys keys' : List String} (h : ∀ k, k ∈ keys ↔ k ∈ keys') (S : SigSet α κ) :
    selectIn keys S = selectIn keys' S := by
  unfold selectIn
  cases hg : S.tags.tags.has "get" with
  | false =>
    rw [mapE_tagGet hg, mapE_tagGet hg]
    dsimp only
    have hm : ∀ i, i ∈ (keys.map (fun k => (S.tags.tags.get? k).getD [])).flatten ↔
        i ∈ (keys'.map (fun k => (S.tags.tags.get? k).getD [])).flatten := by
      intro i
      simp only [List.mem_flatten, List.mem_map]
      constructor
      · rintro ⟨l, ⟨k, hk, rfl⟩, hi⟩; exact ⟨_, ⟨k, (h k).1 hk, rfl⟩, hi⟩
      · rintro ⟨l, ⟨k, hk, rfl⟩, hi⟩; exact ⟨_, ⟨k, (h k).2 hk, rfl⟩, hi⟩
    have he : (keys.map (fun k => (S.tags.tags.get? k).getD [])).flatten.isEmpty =
        (keys'.map (fun k => (S.tags.tags.get? k).getD [])).flatten.isEmpty := by
      rw [Bool.eq_iff_iff, List.isEmpty_iff, List.isEmpty_iff, List.eq_nil_iff_forall_not_mem,
        List.eq_nil_iff_forall_not_mem]
      exact forall_congr' (fun i => not_congr (hm i))
    rw [he]
    split
    · rfl
    · rw [SigSet.selectChannels_members S]
      intro c
      simp only [List.mem_map, mem_dedup, hm]
  | true =>
    cases keys with
    | nil =>
      cases keys' with
      | nil => rfl
      | cons k' l' => exact absurd ((h k').2 (by simp)) (by simp)
    | cons k l =>
      cases keys' with
      | nil => exact absurd ((h k).1 (by simp)) (by simp)
      | cons k' l' => rw [mapE_tagGet_hidden hg, mapE_tagGet_hidden hg]

theorem selectChannels_members [Rnd] [One κ] {keys keys' : List String} (h : ∀ k, k ∈ keys ↔ k ∈ keys')
    (I : Inventory α κ) : I.selectChannels keys = I.selectChannels keys' := by
  unfold selectChannels
  have : selectIn (α := α) (κ := κ) keys = selectIn keys' := funext (selectIn_members h)
  rw [this]

theorem filter_order [Rnd] [One κ] {o o' : SetOrder} (ho : SetOrder.OK o) (ho' : SetOrder.OK o') (I : Inventory α κ)
    (patterns : List String) : I.filter o patterns = I.filter o' patterns := by
  unfold filter
  refine selectChannels_members (fun k => ?_) I
  rw [mem_setOf ho, mem_setOf ho']
  simp only [List.mem_flatMap, Fnmatch.filter, List.mem_filter, mem_setOf ho, mem_setOf ho']

/-! Grouping of names -/

/-- Groups as a function of the list of distinct holders. -/
def byHolders (h : String → List Nat) (ts : List String) (ks : List (List Nat)) : List (List Nat × List String) :=
  ks.map (fun K => (K, ts.filter (fun t => decide (h t = K))))

theorem addTo_byHolders (h : String → List Nat) (ts : List String) (t : String) (ks : List (List Nat))
    (hnd : ks.Nodup) (hall : ∀ x ∈ ts, h x ∈ ks) :
    addTo (byHolders h ts ks) (h t) t =
      byHolders h (ts ++ [t]) (if h t ∈ ks then ks else ks ++ [h t]) := by
  have key : ∀ ks : List (List Nat), ks.Nodup → addTo (byHolders h ts ks) (h t) t =
      (if h t ∈ ks then byHolders h (ts ++ [t]) ks else byHolders h (ts ++ [t]) ks ++ [(h t, [t])]) := by
    intro ks hnd
    induction ks with
    | nil => simp [byHolders, addTo]
    | cons K ks ih =>
      obtain ⟨h1, h2⟩ := List.nodup_cons.1 hnd
      have ih := ih h2
      simp only [byHolders, List.map_cons, addTo] at ih ⊢
      by_cases hK : K = h t
      · subst hK
        simp only [if_true, List.mem_cons, true_or, List.filter_append, List.filter_cons, List.filter_nil]
        simp only [decide_true, if_true, List.cons.injEq, true_and]
        refine List.map_congr_left (fun K' hK' => ?_)
        have : ¬ h t = K' := fun e => h1 (e ▸ hK')
        simp [this]
      · rw [if_neg hK, ih]
        have : ¬ h t = K := fun e => hK e.symm
        simp only [List.mem_cons, this, false_or, List.filter_append, List.filter_cons, List.filter_nil]
        simp only [decide_false, Bool.false_eq_true, if_false, List.append_nil]
        split <;> simp
  rw [key ks hnd]
  split
  · rfl
  · rename_i hn
    simp only [byHolders, List.map_append, List.map_cons, List.map_nil]
    have : (ts ++ [t]).filter (fun x => decide (h x = h t)) = [t] := by
      rw [List.filter_append]
      have : ts.filter (fun x => decide (h x = h t)) = [] := by
        rw [List.filter_eq_nil_iff]
        intro x hx
        have := hall x hx
        simp only [decide_eq_true_eq]
        intro e; rw [e] at this; exact hn this
      rw [this]; simp
    rw [this]

theorem groups_eq (I : Inventory α κ) (ts : List String) :
    ∃ ks : List (List Nat), ks.Nodup ∧ (∀ K, K ∈ ks ↔ ∃ t ∈ ts, I.holders t = K) ∧
      groups I ts = byHolders I.holders ts ks := by
  suffices H : ∀ (ts pre : List String) (ks : List (List Nat)), ks.Nodup → (∀ K, K ∈ ks ↔ ∃ t ∈ pre, I.holders t = K) →
      ∃ ks' : List (List Nat), ks'.Nodup ∧ (∀ K, K ∈ ks' ↔ ∃ t ∈ pre ++ ts, I.holders t = K) ∧
      ts.foldl (fun d t => addTo d (I.holders t) t) (byHolders I.holders pre ks) =
        byHolders I.holders (pre ++ ts) ks' by
    simpa [groups, byHolders] using H ts [] [] (by simp) (by simp)
  intro ts
  induction ts with
  | nil => intro pre ks h1 h2; exact ⟨ks, h1, by simpa using h2, by simp⟩
  | cons t ts ih =>
    intro pre ks h1 h2
    rw [List.foldl_cons, addTo_byHolders _ _ _ _ h1 (fun x hx => (h2 _).2 ⟨x, hx, rfl⟩)]
    have := ih (pre ++ [t]) (if I.holders t ∈ ks then ks else ks ++ [I.holders t]) ?_ ?_
    · simpa using this
    · split
      · exact h1
      · rename_i hn
        rw [List.nodup_append]
        refine ⟨h1, by simp, ?_⟩
        intro a ha b hb
        simp at hb; subst hb
        intro e; exact hn (e ▸ ha)
    · intro K
      split
      · rename_i hin
        rw [h2]
        constructor
        · rintro ⟨x, hx, rfl⟩; exact ⟨x, by simp [hx], rfl⟩
        · rintro ⟨x, hx, rfl⟩
          rcases List.mem_append.1 hx with hx | hx
          · exact ⟨x, hx, rfl⟩
          · simp at hx; subst hx; exact (h2 _).1 hin
      · rw [List.mem_append, h2]
        constructor
        · rintro (⟨x, hx, rfl⟩ | hK)
          · exact ⟨x, by simp [hx], rfl⟩
          · simp at hK; exact ⟨t, by simp, hK.symm⟩
        · rintro ⟨x, hx, rfl⟩
          rcases List.mem_append.1 hx with hx | hx
          · exact .inl ⟨x, hx, rfl⟩
          · simp at hx; subst hx; exact .inr (by simp)

theorem leNames_total (a b : List String) : leNames a b = true ∨ leNames b a = true := by
  induction a generalizing b with
  | nil => exact .inl (by simp [leNames])
  | cons x a ih =>
    cases b with
    | nil => exact .inr (by simp [leNames])
    | cons y b =>
      by_cases h : x = y
      · subst h; simpa [leNames] using ih b
      · have h' : ¬ y = x := fun e => h e.symm
        simp only [leNames, h, h', if_false, decide_eq_true_eq]
        by_cases hlt : x < y
        · exact .inl hlt
        · right
          by_contra hlt'
          exact h (String.le_antisymm (String.not_lt.1 hlt') (String.not_lt.1 hlt))

theorem leNames_trans (a b c : List String) (h1 : leNames a b = true) (h2 : leNames b c = true) :
    leNames a c = true := by
  induction a generalizing b c with
  | nil => simp [leNames]
  | cons x a ih =>
    cases b with
    | nil => simp [leNames] at h1
    | cons y b =>
      cases c with
      | nil => simp [leNames] at h2
      | cons z c =>
        unfold leNames at h1 h2 ⊢
        by_cases hxy : x = y
        · subst hxy
          simp only [if_true] at h1
          by_cases hxz : x = z
          · subst hxz
            simp only [if_true] at h2 ⊢
            exact ih b c h1 h2
          · simpa [hxz] using h2
        · simp only [hxy, if_false, decide_eq_true_eq] at h1
          by_cases hyz : y = z
          · subst hyz
            simpa [hxy] using h1
          · simp only [hyz, if_false, decide_eq_true_eq] at h2
            have h3 : x < z := String.lt_trans h1 h2
            have h4 : ¬ x = z := fun e => String.lt_irrefl z (e ▸ h3)
            simp only [h4, if_false, decide_eq_true_eq]
            exact h3

theorem leNames_antisymm (a b : List String) (h1 : leNames a b = true) (h2 : leNames b a = true) : a = b := by
  induction a generalizing b with
  | nil => cases b with
    | nil => rfl
    | cons y b => simp [leNames] at h2
  | cons x a ih =>
    cases b with
    | nil => simp [leNames] at h1
    | cons y b =>
      unfold leNames at h1 h2
      by_cases h : x = y
      · subst h
        simp only [if_true] at h1 h2
        rw [ih b h1 h2]
      · have h' : ¬ y = x := fun e => h e.symm
        simp only [h, h', if_false, decide_eq_true_eq] at h1 h2
        exact absurd h2 (String.lt_asymm h1)

/-- Sorting by a total antisymmetric order forgets the enumeration order. -/
theorem sortBy_congr {β : Type _} {le : β → β → Bool} (tot : ∀ a b, le a b = true ∨ le b a = true)
    (tr : ∀ a b c, le a b = true → le b c = true → le a c = true)
    (as : ∀ a b, le a b = true → le b a = true → a = b) {l l' : List β} (h : l.Perm l') :
    sortBy le l = sortBy le l' := by
  have hp : (sortBy le l).Perm (sortBy le l') := ((sortBy_perm l).trans h).trans (sortBy_perm l').symm
  exact hp.eq_of_pairwise (fun a b _ _ h1 h2 => as a b h1 h2) (sortBy_pairwise tot tr l) (sortBy_pairwise tot tr l')

theorem sortNames_congr {l l' : List String} (h : l.Perm l') :
    sortBy (fun a b : String => decide (a ≤ b)) l = sortBy (fun a b => decide (a ≤ b)) l' := by
  refine sortBy_congr ?_ ?_ ?_ h
  · intro a b; simp only [decide_eq_true_eq]; exact String.le_total a b
  · intro a b c; simp only [decide_eq_true_eq]; exact String.le_trans
  · intro a b; simp only [decide_eq_true_eq]; exact String.le_antisymm

theorem groupKeys_order {o o' : SetOrder} (ho : SetOrder.OK o) (ho' : SetOrder.OK o') (I : Inventory α κ) :
    groupKeys o I = groupKeys o' I := by
  unfold groupKeys
  have hp := setOf_perm ho ho' I.names
  obtain ⟨ks, h1, h2, h3⟩ := groups_eq I (setOf o I.names)
  obtain ⟨ks', h1', h2', h3'⟩ := groups_eq I (setOf o' I.names)
  rw [h3, h3']
  refine sortBy_congr leNames_total leNames_trans leNames_antisymm ?_
  have hks : ks.Perm ks' := by
    rw [List.perm_ext_iff_of_nodup h1 h1']
    intro K; rw [h2, h2']
    constructor
    · rintro ⟨t, ht, e⟩; exact ⟨t, hp.mem_iff.1 ht, e⟩
    · rintro ⟨t, ht, e⟩; exact ⟨t, hp.mem_iff.2 ht, e⟩
  simp only [byHolders, List.map_map]
  refine (hks.map _).trans ?_
  refine List.Perm.of_eq (List.map_congr_left (fun K _ => ?_))
  exact sortNames_congr (hp.filter _)

/-- The names of a group are the names held by one set of elements; the groups share the names. -/
theorem mem_groupKeys {o : SetOrder} (ho : SetOrder.OK o) {I : Inventory α κ} {g : List String}
    (hg : g ∈ groupKeys o I) : ∃ t ∈ I.names, ∀ k, k ∈ g ↔ k ∈ I.names ∧ I.holders k = I.holders t := by
  unfold groupKeys at hg
  rw [mem_sortBy] at hg
  obtain ⟨ks, h1, h2, h3⟩ := groups_eq I (setOf o I.names)
  rw [h3] at hg
  simp only [byHolders, List.map_map, List.mem_map] at hg
  obtain ⟨K, hK, rfl⟩ := hg
  obtain ⟨t, ht, rfl⟩ := (h2 K).1 hK
  refine ⟨t, (mem_setOf ho).1 ht, fun k => ?_⟩
  simp only [Function.comp]
  rw [mem_sortBy, List.mem_filter, mem_setOf ho]
  simp

theorem exists_groupKeys {o : SetOrder} (ho : SetOrder.OK o) {I : Inventory α κ} {t : String} (ht : t ∈ I.names) :
    ∃ g ∈ groupKeys o I, t ∈ g := by
  obtain ⟨ks, h1, h2, h3⟩ := groups_eq I (setOf o I.names)
  unfold groupKeys
  refine ⟨sortBy (fun a b => decide (a ≤ b)) ((setOf o I.names).filter (fun x => decide (I.holders x = I.holders t))), ?_, ?_⟩
  · rw [mem_sortBy, h3]
    simp only [byHolders, List.map_map, List.mem_map]
    exact ⟨I.holders t, (h2 _).2 ⟨t, (mem_setOf ho).2 ht, rfl⟩, rfl⟩
  · rw [mem_sortBy, List.mem_filter, mem_setOf ho]
    simp [ht]

theorem joinMerge_order [Rnd] [One κ] {o o' : SetOrder} (ho : SetOrder.OK o) (ho' : SetOrder.OK o') (I : Inventory α κ) :
    I.joinMerge o = I.joinMerge o' := by
  unfold joinMerge
  rw [groupKeys_order ho ho']

end Inventory
end Razorback
