/-
Properties C30-C36: inventories.
-/
import Verif.Lemmas.Pack

namespace Razorback.Props
open Razorback Razorback.Spec Razorback.SigSet
variable {α κ : Type _}

/-! C30 -/

/-- **C30.** `append` and `extend` add at the end, in order, the signal sets that come before the first
object that is not one, and raise ValueError exactly when there is such an object. -/
theorem C30_append_extend (I : Inventory α κ) (op : InvOp α κ) :
    (op.apply I).1 = I ++ op.added ∧
    ((op.apply I).2 = none ∨ (op.apply I).2 = some .value) ∧
    ((op.apply I).2 = none ↔ match op with
      | .append x => x ≠ .other
      | .extend l => .other ∉ l) := by
  have hpre : ∀ l : List (InvObj α κ), (validPrefix l).length = l.length ↔ InvObj.other ∉ l := by
    intro l
    have hle : ∀ l : List (InvObj α κ), (validPrefix l).length ≤ l.length := by
      intro l
      induction l with
      | nil => simp [validPrefix]
      | cons x l ih => cases x <;> simp [validPrefix, ih]
    induction l with
    | nil => simp [validPrefix]
    | cons x l ih =>
      cases x with
      | set S => simp [validPrefix, ih]
      | other => simp [validPrefix]
  cases op with
  | append x => cases x <;> simp [InvOp.apply, InvOp.added, Inventory.append, validPrefix]
  | extend l =>
    simp only [InvOp.apply, InvOp.added, Inventory.extend_eq, true_and]
    rw [← hpre]
    split
    · rename_i h; simp [h]
    · rename_i h; simp [h]

/-- **C30.** After any history, whatever was raised, the inventory is the sequence of the accepted sets. -/
theorem C30_history (I : Inventory α κ) (ops : List (InvOp α κ)) :
    ops.foldl (fun J op => (op.apply J).1) I = I ++ ops.flatMap InvOp.added := by
  induction ops generalizing I with
  | nil => simp
  | cons op ops ih =>
    rw [List.foldl_cons, ih, (C30_append_extend I op).1, List.flatMap_cons, List.append_assoc]

/-- **C30.** `a + b` is the elements of `a` then those of `b`. -/
theorem C30_add (I J : Inventory α κ) : I.add J = .ok (I ++ J) := Inventory.new_set _

/-- **C30.** Indexing agrees with the sequence, from the front or from the end, and raises outside. -/
theorem C30_getItem (I : Inventory α κ) (S : SigSet α κ) (i : Int) :
    (I.getItem i = .ok S ↔ ∃ p : Nat, I[p]? = some S ∧ (i = p ∨ i = (p : Int) - I.length)) ∧
    ((i < -(I.length : Int) ∨ (I.length : Int) ≤ i) → I.getItem i = .error .index) := by
  unfold Inventory.getItem
  dsimp only
  generalize hj : (if i < 0 then i + (I.length : Int) else i) = j
  have hj' : (i < 0 ∧ j = i + I.length) ∨ (0 ≤ i ∧ j = i) := by
    split at hj <;> omega
  by_cases h0 : j < 0
  · rw [if_pos h0]
    refine ⟨⟨fun h => by simp at h, ?_⟩, fun _ => rfl⟩
    rintro ⟨p, hp, h⟩
    have hlt : p < I.length := (List.getElem?_eq_some_iff.1 hp).1
    omega
  · rw [if_neg h0]
    cases hp : I[j.toNat]? with
    | none =>
      refine ⟨⟨fun h => by simp at h, ?_⟩, fun _ => rfl⟩
      rintro ⟨p, hp', h⟩
      have hlt : p < I.length := (List.getElem?_eq_some_iff.1 hp').1
      have hge := List.getElem?_eq_none_iff.1 hp
      omega
    | some T =>
      have hlt : j.toNat < I.length := (List.getElem?_eq_some_iff.1 hp).1
      refine ⟨⟨?_, ?_⟩, fun h => by omega⟩
      · intro h
        simp only [Except.ok.injEq] at h; subst h
        exact ⟨_, hp, by omega⟩
      · rintro ⟨p, hp', h⟩
        have hlt' : p < I.length := (List.getElem?_eq_some_iff.1 hp').1
        have : p = j.toNat := by omega
        rw [← this, hp'] at hp
        simp only [Option.some.injEq] at hp
        rw [hp]

/-! C31 -/

/-- The selection in one set. -/
theorem selectIn_eq [Rnd] [One κ] (keys : List String) (S : SigSet α κ) (hS : Reach S) (hp : Plain S.tags)
    (hg : ¬ HasTag S "get") :
    ((¬ ∃ k ∈ keys, HasTag S k) → Inventory.selectIn keys S = .ok none) ∧
    ((∃ k ∈ keys, HasTag S k) → ∃ R, Inventory.selectIn keys S = .ok (some R) ∧
      S.selectChannels (.many ((keys.filter (fun k => S.tags.tags.has k)).map .name)) = .ok R) := by
  have hI := reach_sinv hS
  have hgf : S.tags.tags.has "get" = false := by
    rw [Bool.eq_false_iff]; intro h; exact hg (Inventory.hasTag_iff.1 h)
  unfold Inventory.selectIn
  rw [Inventory.mapE_tagGet hgf]
  dsimp only
  have hmem : ∀ i, i ∈ (keys.map (fun k => (S.tags.tags.get? k).getD [])).flatten ↔
      ∃ k ∈ keys, ∃ v, S.tags.getItem k = .ok v ∧ i ∈ v := by
    intro i
    simp only [List.mem_flatten, List.mem_map]
    constructor
    · rintro ⟨l, ⟨k, hk, rfl⟩, hi⟩
      cases h : S.tags.tags.get? k with
      | none => rw [h] at hi; simp at hi
      | some v => rw [h] at hi; exact ⟨k, hk, v, Tags.getItem_ok.2 h, hi⟩
    · rintro ⟨k, hk, v, hv, hi⟩
      exact ⟨_, ⟨k, hk, rfl⟩, by rw [Tags.getItem_ok.1 hv]; exact hi⟩
  constructor
  · intro hno
    rw [if_pos]
    rw [List.isEmpty_iff, List.eq_nil_iff_forall_not_mem]
    intro i hi
    obtain ⟨k, hk, v, hv, _⟩ := (hmem i).1 hi
    exact hno ⟨k, hk, v, hv⟩
  · rintro ⟨k, hk, v, hv⟩
    obtain ⟨i, hi⟩ := List.exists_mem_of_ne_nil _ (hI.inv.legal k v (Tags.getItem_ok.1 hv)).2.1
    have hin := (hmem i).2 ⟨k, hk, v, hv, hi⟩
    rw [if_neg (by rw [List.isEmpty_iff]; exact List.ne_nil_of_mem hin)]
    have hn := nbChannels_tags hI hp
    have hk1 : SelKnown S.tags S.tags.n (.many ((dedup (keys.map (fun k => (S.tags.tags.get? k).getD [])).flatten).map
        (fun i : Nat => ChanId.idx (i : Int)))) := by
      intro c hc
      obtain ⟨i, hi, rfl⟩ := List.mem_map.1 hc
      obtain ⟨k, _, v, hv, hiv⟩ := (hmem i).1 (mem_dedup.1 hi)
      refine ⟨by simp, ?_⟩
      have := (hI.inv.legal k v (Tags.getItem_ok.1 hv)).2.2 i hiv
      omega
    have hk2 : SelKnown S.tags S.tags.n (.many ((keys.filter (fun k => S.tags.tags.has k)).map .name)) := by
      intro c hc
      obtain ⟨k, hk, rfl⟩ := List.mem_map.1 hc
      exact Inventory.hasTag_iff.1 (List.mem_filter.1 hk).2
    obtain ⟨idx1, a1, a2, a3, a4⟩ := chanIndices_ok hI.inv hp hk1
    obtain ⟨idx2, b1, b2, b3, b4⟩ := chanIndices_ok hI.inv hp hk2
    have hdes : ∀ i : Nat, SelDesig S.tags S.tags.n (.many ((dedup (keys.map (fun k => (S.tags.tags.get? k).getD [])).flatten).map
        (fun i : Nat => ChanId.idx (i : Int)))) i ↔ ∃ k ∈ keys, ∃ v, S.tags.getItem k = .ok v ∧ i ∈ v := by
      intro i
      rw [← hmem]
      simp only [SelDesig, List.mem_map, mem_dedup]
      constructor
      · rintro ⟨c, ⟨x, hx, rfl⟩, hd⟩
        simp only [Desig] at hd
        have : x = i := by omega
        rw [← this]; exact hx
      · intro h; exact ⟨_, ⟨i, h, rfl⟩, by simp [Desig]⟩
    have hidx : idx1 = idx2 := by
      refine strict_ext a2 b2 (fun i => ?_)
      rw [a3, b3, hdes]
      simp only [SelDesig, List.mem_map, List.mem_filter]
      constructor
      · rintro ⟨k, hk, v, hv, hi⟩
        exact ⟨.name k, ⟨k, ⟨hk, Inventory.hasTag_iff.2 ⟨v, hv⟩⟩, rfl⟩, v, hv, hi⟩
      · rintro ⟨c, ⟨k, ⟨hk, _⟩, rfl⟩, v, hv, hi⟩
        exact ⟨k, hk, v, hv, hi⟩
    have hne1 : S.runs ≠ [] → idx1 ≠ [] := fun _ => List.ne_nil_of_mem ((a3 i).2 ((hdes i).2 ⟨k, hk, v, hv, hi⟩))
    obtain ⟨m, hm, hm'⟩ := selectChannels_eq hI hp (idx := idx1) (by rw [hn]; exact a1) (by rw [hn]; exact a4) hne1
    have heq : ∀ sel sel', chanIndices S.tags S.nbChannels sel = chanIndices S.tags S.nbChannels sel' →
        S.selectChannels sel = S.selectChannels sel' := by
      intro sel sel' h
      unfold SigSet.selectChannels
      rw [h]
    rw [hm]
    refine ⟨_, rfl, ?_⟩
    rw [← hm]
    refine heq _ _ ?_
    rw [hn, a1, b1, hidx]

/-- The selected elements, as a list. -/
theorem select_list [Rnd] [One κ] (keys : List String) (p : SigSet α κ → Bool) (sel : SigSet α κ → ChanSel)
    (I : Inventory α κ)
    (hno : ∀ S ∈ I, p S = false → Inventory.selectIn keys S = .ok none)
    (hyes : ∀ S ∈ I, p S = true → ∃ R, Inventory.selectIn keys S = .ok (some R) ∧ S.selectChannels (sel S) = .ok R) :
    ∃ J, I.selectChannels keys = .ok J ∧
      List.Forall₂ (fun R S => S.selectChannels (sel S) = .ok R) J (List.filter p I) := by
  suffices H : ∃ l, mapE (Inventory.selectIn keys) I = .ok l ∧
      List.Forall₂ (fun R S => S.selectChannels (sel S) = .ok R) (l.filterMap id) (List.filter p I) by
    obtain ⟨l, h1, h2⟩ := H
    refine ⟨_, ?_, h2⟩
    unfold Inventory.selectChannels
    rw [h1]
    exact Inventory.new_set _
  induction I with
  | nil => exact ⟨[], rfl, .nil⟩
  | cons S I ih =>
    obtain ⟨l, h1, h2⟩ := ih (fun T hT => hno T (by simp [hT])) (fun T hT => hyes T (by simp [hT]))
    cases hp : p S with
    | false =>
      refine ⟨none :: l, by simp [mapE, hno S (by simp) hp, h1], ?_⟩
      simpa [hp] using h2
    | true =>
      obtain ⟨R, hR1, hR2⟩ := hyes S (by simp) hp
      refine ⟨some R :: l, by simp [mapE, hR1, h1], ?_⟩
      simp only [List.filterMap_cons, id, List.filter_cons, hp, if_true]
      exact .cons hR2 h2

/-- **C31.** `select_channels(*keys)` succeeds; the result consists, in the same order, of the sets having one
of the keys, each restricted (see `C16_select_channels`) to the channels designated by those of the keys it has. -/
theorem C31_select_channels [Rnd] [One κ] (I : Inventory α κ) (hR : ∀ S ∈ I, Reach S) (hp : ∀ S ∈ I, Plain S.tags)
    (hg : ∀ S ∈ I, ¬ HasTag S "get") (keys : List String) :
    ∃ J, I.selectChannels keys = .ok J ∧
      List.Forall₂ (fun R S => S.selectChannels (.many ((keys.filter (fun k => S.tags.tags.has k)).map .name)) = .ok R)
        J (List.filter (fun S => keys.any (fun k => S.tags.tags.has k)) I) := by
  refine select_list keys _ _ I ?_ ?_
  · intro S hS h
    refine (selectIn_eq keys S (hR S hS) (hp S hS) (hg S hS)).1 ?_
    rintro ⟨k, hk, ht⟩
    rw [Bool.eq_false_iff] at h
    exact h (List.any_eq_true.2 ⟨k, hk, Inventory.hasTag_iff.2 ht⟩)
  · intro S hS h
    obtain ⟨k, hk, ht⟩ := List.any_eq_true.1 h
    exact (selectIn_eq keys S (hR S hS) (hp S hS) (hg S hS)).2 ⟨k, hk, Inventory.hasTag_iff.1 ht⟩

/-- **C31.** A tag called `get` hides the method used and makes the selection raise TypeError. -/
theorem C31_get_hidden [Rnd] [One κ] (S : SigSet α κ) (I : Inventory α κ) (h : HasTag S "get") (k : String)
    (keys : List String) : Inventory.selectChannels (S :: I) (k :: keys) = .error .type := by
  unfold Inventory.selectChannels mapE Inventory.selectIn
  rw [Inventory.mapE_tagGet_hidden (Inventory.hasTag_iff.2 h)]

/-- **C31.** `filter(*patterns)` keeps, in the same order, the sets having a tag that matches a pattern, each
restricted to the channels designated by its matching tags. -/
theorem C31_filter [Rnd] [One κ] (o : SetOrder) (ho : SetOrder.OK o) (I : Inventory α κ) (hR : ∀ S ∈ I, Reach S)
    (hp : ∀ S ∈ I, Plain S.tags) (hg : ∀ S ∈ I, ¬ HasTag S "get") (patterns : List String) :
    ∃ J, I.filter o patterns = .ok J ∧
      List.Forall₂ (fun R S => S.selectChannels
          (.many ((S.tags.tags.keys.filter (fun k => patterns.any (Fnmatch.fnmatch k))).map .name)) = .ok R)
        J (List.filter (fun S => S.tags.tags.keys.any (fun k => patterns.any (Fnmatch.fnmatch k))) I) := by
  have hkeys : ∀ k, k ∈ Inventory.setOf o (patterns.flatMap (fun p => Fnmatch.filter (Inventory.setOf o I.names) p)) ↔
      k ∈ I.names ∧ patterns.any (Fnmatch.fnmatch k) = true := by
    intro k
    rw [Inventory.mem_setOf ho]
    simp only [List.mem_flatMap, Fnmatch.filter, List.mem_filter, Inventory.mem_setOf ho, List.any_eq_true]
    constructor
    · rintro ⟨p, h1, h2, h3⟩; exact ⟨h2, p, h1, h3⟩
    · rintro ⟨h2, p, h1, h3⟩; exact ⟨p, h1, h2, h3⟩
  unfold Inventory.filter
  refine select_list _ _ _ I ?_ ?_
  · intro S hS h
    refine (selectIn_eq _ S (hR S hS) (hp S hS) (hg S hS)).1 ?_
    rintro ⟨k, hk, ht⟩
    rw [Bool.eq_false_iff] at h
    exact h (List.any_eq_true.2 ⟨k, Dict.has_iff.1 (Inventory.hasTag_iff.2 ht), ((hkeys k).1 hk).2⟩)
  · intro S hS h
    obtain ⟨k, hk, ht⟩ := List.any_eq_true.1 h
    have hk' := Inventory.hasTag_iff.1 (Dict.has_iff.2 hk)
    obtain ⟨R, h1, h2⟩ := (selectIn_eq _ S (hR S hS) (hp S hS) (hg S hS)).2
      ⟨k, (hkeys k).2 ⟨Inventory.mem_names.2 ⟨S, hS, hk'⟩, ht⟩, hk'⟩
    refine ⟨R, h1, ?_⟩
    rw [← h2]
    refine SigSet.selectChannels_members S (fun c => ?_)
    simp only [List.mem_map, List.mem_filter]
    constructor
    · rintro ⟨k, ⟨h1, h2⟩, rfl⟩
      have hk2 := Inventory.hasTag_iff.1 (Dict.has_iff.2 h1)
      exact ⟨k, ⟨(hkeys k).2 ⟨Inventory.mem_names.2 ⟨S, hS, hk2⟩, h2⟩, Dict.has_iff.2 h1⟩, rfl⟩
    · rintro ⟨k, ⟨h1, h2⟩, rfl⟩
      exact ⟨k, ⟨Dict.has_iff.1 h2, ((hkeys k).1 h1).2⟩, rfl⟩

/-- **C31.** The result of `filter` does not depend on the enumeration order of the sets of names. -/
theorem C31_filter_order [Rnd] [One κ] (o o' : SetOrder) (ho : SetOrder.OK o) (ho' : SetOrder.OK o') (I : Inventory α κ)
    (patterns : List String) : I.filter o patterns = I.filter o' patterns :=
  Inventory.filter_order ho ho' I patterns

/-- **C31.** Nor does `select_channels` depend on the order of its arguments. -/
theorem C31_select_order [Rnd] [One κ] (I : Inventory α κ) (keys keys' : List String) (h : ∀ k, k ∈ keys ↔ k ∈ keys') :
    I.selectChannels keys = I.selectChannels keys' := Inventory.selectChannels_members h I

/-! C32 -/

/-- **C32.** `extract_t` gives, in order, the results of `SignalSet.extract_t` that have runs; it fails exactly
when one of those raises; by default it keeps the interval. -/
theorem C32_extract_t [Rnd] [One κ] (I : Inventory α κ) (a b : ℚ) (ex : Bool) :
    (∀ J, I.extractT a b ex = .ok J → (∀ R ∈ J, R.runs ≠ []) ∧
      ∃ l, List.Forall₂ (fun S R => S.extractT a b ex = .ok R) I l ∧ J.Sublist l ∧ ∀ R ∈ l, R.runs ≠ [] → R ∈ J) ∧
    ((∃ J, I.extractT a b ex = .ok J) ↔ ∀ S ∈ I, ∃ R, S.extractT a b ex = .ok R) ∧
    I.extractT a b = I.extractT a b false := by
  refine and_assoc.1 ⟨?_, rfl⟩
  unfold Inventory.extractT
  refine ⟨?_, ?_⟩
  · intro J h
    split at h
    · simp at h
    · rename_i l hl
      rw [Inventory.new_set] at h
      simp only [Except.ok.injEq] at h; subst h
      refine ⟨?_, l, mapE_ok.1 hl, List.filter_sublist, ?_⟩
      · intro R hR
        have := (List.mem_filter.1 hR).2
        simpa using this
      · intro R hR hne
        exact List.mem_filter.2 ⟨hR, by simpa using hne⟩
  · constructor
    · rintro ⟨J, h⟩ S hS
      split at h
      · simp at h
      · rename_i l hl
        obtain ⟨R, _, hR⟩ := mapE_ok_forall hl S hS
        exact ⟨R, hR⟩
    · intro h
      cases hm : mapE (fun S : SigSet α κ => S.extractT a b ex) I with
      | error e =>
        obtain ⟨S, hS, he⟩ := mapE_error hm
        obtain ⟨R, hR⟩ := h S hS
        rw [hR] at he; simp at he
      | ok l => exact ⟨_, Inventory.new_set _⟩

/-- **C32.** The same for `select_runs`, which needs one index per set. -/
theorem C32_select_runs [Rnd] (I : Inventory α κ) (runs : List RunIdx) :
    (∀ J, I.selectRuns runs = .ok J → runs.length = I.length ∧ (∀ R ∈ J, R.runs ≠ []) ∧
      ∃ l, List.Forall₂ (fun p R => p.1.selectRuns p.2 = .ok R) (I.zip runs) l ∧ J.Sublist l ∧
        ∀ R ∈ l, R.runs ≠ [] → R ∈ J) ∧
    (runs.length ≠ I.length → I.selectRuns runs = .error .assertion) ∧
    (runs.length = I.length → ((∃ J, I.selectRuns runs = .ok J) ↔ ∀ p ∈ I.zip runs, ∃ R, p.1.selectRuns p.2 = .ok R)) := by
  unfold Inventory.selectRuns
  refine ⟨?_, fun h => by rw [if_pos h], ?_⟩
  · intro J h
    split at h
    · simp at h
    · rename_i hlen
      split at h
      · simp at h
      · rename_i l hl
        rw [Inventory.new_set] at h
        simp only [Except.ok.injEq] at h; subst h
        refine ⟨by simpa using hlen, ?_, l, mapE_ok.1 hl, List.filter_sublist, ?_⟩
        · intro R hR
          have := (List.mem_filter.1 hR).2
          simpa using this
        · intro R hR hne
          exact List.mem_filter.2 ⟨hR, by simpa using hne⟩
  · intro hlen
    rw [if_neg (by simpa using hlen)]
    constructor
    · rintro ⟨J, h⟩ p hp
      split at h
      · simp at h
      · rename_i l hl
        obtain ⟨R, _, hR⟩ := mapE_ok_forall hl p hp
        exact ⟨R, hR⟩
    · intro h
      cases hm : mapE (fun p : SigSet α κ × RunIdx => p.1.selectRuns p.2) (I.zip runs) with
      | error e =>
        obtain ⟨S, hS, he⟩ := mapE_error hm
        obtain ⟨R, hR⟩ := h S hS
        rw [hR] at he; simp at he
      | ok l => exact ⟨_, Inventory.new_set _⟩

/-! C33 -/

/-- **C33.** If `pack()` succeeds the result is the empty set, or it has runs, exactly the tag names of the
inventory, and only sampling rates of the inventory. -/
theorem C33_pack_all_or_nothing [One κ] (o : SetOrder) (I : Inventory α κ) (hI : ∀ S ∈ I, Regular S)
    (R : SigSet α κ) (h : I.pack o = .ok R) :
    (R.runs = [] ∧ ∀ k, ¬ HasTag R k) ∨
    (R.runs ≠ [] ∧ (∀ k, HasTag R k ↔ ∃ S ∈ I, HasTag S k) ∧
      ∀ r ∈ R.runs, ∃ S ∈ I, ∃ s ∈ S.runs, s.rate = r.rate) := by
  rcases Inventory.packAll_inv hI h with rfl | ⟨M, h1, h2, h3, h4, h5⟩
  · left
    exact ⟨rfl, fun k ⟨v, hv⟩ => by simp [Tags.getItem, Dict.get?] at hv⟩
  · right
    obtain ⟨_, a2, _, a4⟩ := C26_samples M R h1.reach h1.plain (Inventory.regular_starts h1) h5
    refine ⟨?_, ?_, ?_⟩
    · obtain ⟨s, hs⟩ := List.exists_mem_of_ne_nil _ h3
      obtain ⟨r, hr, _⟩ := (a4 s.rate).2 ⟨s, hs, rfl⟩
      exact List.ne_nil_of_mem hr
    · intro k
      have : HasTag R k ↔ HasTag M k := by unfold HasTag; rw [a2 k]
      rw [this, h4]
    · intro r hr
      obtain ⟨s, hs, e⟩ := (a4 r.rate).1 ⟨r, hr, rfl⟩
      obtain ⟨T, hT, u, hu, e', _⟩ := h2.rate s hs
      exact ⟨T, hT, u, hu, e'.trans e⟩

/-! C34 -/

/-- **C34.** Before consecutive runs are fused (`C26`, `C27` describe what fusing does), every channel
designated by a tag position is, with its times and calibration, part of a channel of the same rate designated
by that tag position in the inventory. -/
theorem C34_pack_traced [One κ] (o : SetOrder) (I : Inventory α κ) (hI : ∀ S ∈ I, Regular S)
    (R : SigSet α κ) (h : I.pack o = .ok R) (hne : R.runs ≠ []) :
    ∃ M, Regular M ∧ M.mergeConsecutive = .ok R ∧ Traced I M := by
  rcases Inventory.packAll_inv hI h with rfl | ⟨M, h1, h2, h3, h4, h5⟩
  · exact absurd rfl hne
  · exact ⟨M, h1, h5, h2⟩


theorem flatMap_locate {β γ : Type _} {f : β → List γ} {sz : β → Nat} (g : List β) (hsz : ∀ a ∈ g, (f a).length = sz a)
    (n : Nat) (x : γ) (h : (g.flatMap f)[n]? = some x) :
    ∃ (pre : List β) (a : β) (post : List β) (i : Nat), g = pre ++ a :: post ∧ n = (pre.map sz).sum + i ∧
      (f a)[i]? = some x := by
  induction g generalizing n with
  | nil => simp at h
  | cons b g ih =>
    rw [List.flatMap_cons] at h
    by_cases hn : n < (f b).length
    · rw [List.getElem?_append_left hn] at h
      exact ⟨[], b, g, n, rfl, by simp, h⟩
    · rw [List.getElem?_append_right (by omega)] at h
      obtain ⟨pre, a, post, i, h1, h2, h3⟩ := ih (fun a ha => hsz a (by simp [ha])) _ h
      refine ⟨b :: pre, a, post, i, by rw [h1]; rfl, ?_, h3⟩
      have := hsz b (by simp)
      simp only [List.map_cons, List.sum_cons]
      omega

theorem mem_timed {rate start : ℚ} {d : List α} {p : ℚ × α} :
    p ∈ timed rate start d ↔ ∃ n : Nat, d[n]? = some p.2 ∧ p.1 = sampleTime rate start n := by
  unfold timed
  simp only [List.mem_map]
  constructor
  · rintro ⟨⟨x, n⟩, hq, rfl⟩
    exact ⟨n, (List.mem_zipIdx_iff_getElem?.1 hq), rfl⟩
  · rintro ⟨n, h1, h2⟩
    exact ⟨(p.2, n), List.mem_zipIdx_iff_getElem?.2 h1, by rw [← h2]⟩

theorem channels_some {s : Sync α κ} {i : Nat} {c : List (ℚ × α) × κ} (h : (channels s)[i]? = some c) :
    ∃ d, s.data[i]? = some d ∧ s.cals[i]? = some c.2 ∧ c.1 = timed s.rate s.start d := by
  unfold channels at h
  rw [List.getElem?_zip_eq_some, List.getElem?_map] at h
  obtain ⟨h1, h2⟩ := h
  cases hd : s.data[i]? with
  | none => rw [hd] at h1; simp at h1
  | some d => rw [hd] at h1; simp at h1; exact ⟨d, rfl, h2, h1.symm⟩

theorem channels_of {s : Sync α κ} {i : Nat} {d : List α} {k : κ} (hd : s.data[i]? = some d) (hk : s.cals[i]? = some k) :
    (channels s)[i]? = some (timed s.rate s.start d, k) := by
  unfold channels
  rw [List.getElem?_zip_eq_some, List.getElem?_map, hd]
  exact ⟨rfl, hk⟩

theorem isChain_rate {g : List (Sync α κ)} (h : g.IsChain Continues) : ∀ a ∈ g, ∀ b ∈ g.head?, a.rate = b.rate := by
  cases g with
  | nil => simp
  | cons b g =>
    intro a ha b' hb'
    simp at hb'; subst hb'
    have : ∀ (l : List (Sync α κ)) (b : Sync α κ), (b :: l).IsChain Continues → ∀ a ∈ b :: l, a.rate = b.rate := by
      intro l
      induction l with
      | nil => intro b _ a ha; simp at ha; rw [ha]
      | cons c l ih =>
        intro b h a ha
        rw [List.isChain_cons_cons] at h
        rcases List.mem_cons.1 ha with rfl | ha
        · rfl
        · rw [ih c h.2 a ha, h.1.1]
    exact this g b h a ha

/-- Where a sample of a fused run comes from. -/
theorem fused_sample [One κ] {M R : SigSet α κ} (hM : Regular M) (h : M.mergeConsecutive = .ok R) {r : Sync α κ}
    (hr : r ∈ R.runs) {k : String} {j : Nat} {c : List (ℚ × α) × κ} (hc : designated R.tags r k j = some c)
    {p : ℚ × α} (hp : p ∈ c.1) :
    ∃ a ∈ M.runs, a.rate = r.rate ∧ ∃ c', designated M.tags a k j = some c' ∧ ∃ p' ∈ c'.1, p'.2 = p.2 ∧
      (M.runs.IsChain (fun a b => Continues a b → gap a b = 1 / a.rate) → p'.1 = p.1) := by
  have hd := Inventory.regular_starts hM
  obtain ⟨gs, hch, hall⟩ := C27_shift M R hM.reach hM.plain hd h
  obtain ⟨_, ht, _⟩ := C26_samples M R hM.reach hM.plain hd h
  obtain ⟨g, hg, hf, hsh⟩ := forall₂_mem_left hall r hr
  have hgM : ∀ a ∈ g, a ∈ M.runs := by
    intro a ha
    rw [← hch.all]; exact List.mem_flatten.2 ⟨g, hg, ha⟩
  have hIM := reach_sinv hM.reach
  have hne : g ≠ [] := fun e => hch.nonempty (e ▸ hg)
  have hRw := (reach_sinv (Reach.mergeConsecutive hM.reach h)).ok.wf r hr
  obtain ⟨v, hv⟩ := designated_some hc
  have hv' : M.tags.getItem k = .ok v := by rw [← ht k]; exact hv
  unfold designated at hc
  rw [hv] at hc
  simp only at hc
  cases hj : v[j]? with
  | none => rw [hj] at hc; simp at hc
  | some i =>
    rw [hj] at hc
    simp only [Option.bind_some] at hc
    obtain ⟨d, hd1, hd2, hd3⟩ := channels_some hc
    rw [hd3] at hp
    obtain ⟨n, hn1, hn2⟩ := mem_timed.1 hp
    have hdata := hf.data i
    rw [hd1, Option.getD_some] at hdata
    have hilt : ∀ a ∈ g, i < a.data.length := by
      intro a ha
      have := (List.getElem?_eq_some_iff.1 hd1).1
      rw [hf.count a ha] at this; exact this
    rw [hdata] at hn1
    obtain ⟨pre, a, post, x, e1, e2, e3⟩ := flatMap_locate (sz := fun a : Sync α κ => a.size) g (by
      intro a ha
      rw [List.getElem?_eq_getElem (hilt a ha), Option.getD_some]
      exact (hIM.ok.wf a (hgM a ha)).rect _ (List.getElem_mem _)) n p.2 hn1
    have hag : a ∈ g := by rw [e1]; simp
    have haw := hIM.ok.wf a (hgM a hag)
    have hlt := hilt a hag
    have hai : a.data[i]? = some a.data[i] := List.getElem?_eq_getElem hlt
    have hci : i < a.cals.length := by rw [haw.cals]; exact hlt
    have hrate : a.rate = r.rate := by
      obtain ⟨b, g', hg'⟩ := List.exists_cons_of_ne_nil hne
      rw [isChain_rate (hch.chain g hg) a hag b (by rw [hg']; simp), hf.rate b (by rw [hg']; simp)]
    refine ⟨a, hgM a hag, hrate, (timed a.rate a.start a.data[i], a.cals[i]), ?_, (sampleTime a.rate a.start x, p.2), ?_, rfl, ?_⟩
    · unfold designated
      rw [hv']
      simp only [hj, Option.bind_some]
      exact channels_of hai (List.getElem?_eq_getElem hci)
    · refine mem_timed.2 ⟨x, ?_, rfl⟩
      rw [hai, Option.getD_some] at e3
      exact e3
    · intro hex
      have hb := hsh pre a post e1 x
      have hgex : g.IsChain (fun a b => gap a b = 1 / a.rate) := by
        have h1 : g.IsChain (fun a b => Continues a b → gap a b = 1 / a.rate) := by
          obtain ⟨l1, l2, hl⟩ := List.append_of_mem hg
          rw [← hch.all, hl] at hex
          simp only [List.flatten_append, List.flatten_cons] at hex
          exact hex.right_of_append.left_of_append
        exact isChain_mp h1 (hch.chain g hg)
      have hz : ∀ l : List (Sync α κ), l.IsChain (fun a b => gap a b = 1 / a.rate) → mismatch l = 0 := by
        intro l
        induction l with
        | nil => intro _; rfl
        | cons a l ih =>
          intro hl
          cases l with
          | nil => rfl
          | cons b l =>
            rw [List.isChain_cons_cons] at hl
            simp only [mismatch]
            rw [ih hl.2, hl.1]; simp
      have : mismatch (pre ++ [a]) = 0 := by
        refine hz _ ?_
        rw [e1] at hgex
        have : pre ++ a :: post = (pre ++ [a]) ++ post := by simp
        rw [this] at hgex
        exact hgex.left_of_append
      rw [this] at hb
      have hb := abs_nonpos_iff.1 hb
      rw [hn2, e2]
      linarith

/-- **C34.** Every sample designated by tag `k`, position `j` in the result of `pack()` is a sample designated by
`k`, `j` in one of the signal sets of the inventory, in a run with the same rate. -/
theorem C34_samples [One κ] (o : SetOrder) (I : Inventory α κ) (hI : ∀ S ∈ I, Regular S)
    (R : SigSet α κ) (h : I.pack o = .ok R) :
    ∀ r ∈ R.runs, ∀ k j c, designated R.tags r k j = some c → ∀ p ∈ c.1,
      ∃ S ∈ I, ∃ s ∈ S.runs, s.rate = r.rate ∧ ∃ c', designated S.tags s k j = some c' ∧ ∃ p' ∈ c'.1, p'.2 = p.2 := by
  intro r hr k j c hc p hp
  obtain ⟨M, hM, h1, h2⟩ := C34_pack_traced o I hI R h (List.ne_nil_of_mem hr)
  obtain ⟨a, ha, hrate, c', hc', p', hp', e, _⟩ := fused_sample hM h1 hr hc hp
  obtain ⟨T, hT, s, hs, hrate', c2, hc2, hsub, _⟩ := h2.chan a ha k j c' hc'
  exact ⟨T, hT, s, hs, hrate'.trans hrate, c2, hc2, p', hsub.subset hp', e⟩

/-- On a common grid, a gap that is close to one sample is one sample. -/
theorem continues_exact {a b : Sync α κ} (hpos : 0 < a.rate) (hle : a.rate ≤ 10 ^ 7) (hsz : 2 ≤ a.size)
    (hdis : lastTime a ≤ b.start) (hgrid : ∃ n : ℤ, (b.start - a.start) * a.rate = n) (h : Continues a b) :
    gap a b = 1 / a.rate := by
  obtain ⟨n, hn⟩ := hgrid
  obtain ⟨_, h2⟩ := h
  have hgap : gap a b * a.rate = ((n - ((a.size : ℤ) - 1) : ℤ) : ℚ) := by
    unfold gap lastTime
    push_cast
    rw [← hn]
    field_simp
    ring
  generalize hm : n - ((a.size : ℤ) - 1) = m at hgap
  have hg0 : 0 ≤ gap a b := by unfold gap; linarith
  rw [abs_of_nonneg hg0] at h2
  have hr : a.rate ≠ 0 := ne_of_gt hpos
  have hge : gap a b = m / a.rate := by field_simp; exact hgap
  have hm0 : (0 : ℚ) ≤ m := by rw [← hgap]; exact mul_nonneg hg0 hpos.le
  have hm0' : 0 ≤ m := by exact_mod_cast hm0
  have key : |1 - (m : ℚ)| ≤ 1 / 10 ^ 8 * a.rate + 1 / 10 ^ 5 * m := by
    have e : |1 - (m : ℚ)| = |1 / a.rate - gap a b| * a.rate := by
      rw [hge, ← sub_div, abs_div, abs_of_pos hpos]
      field_simp
    rw [e]
    calc |1 / a.rate - gap a b| * a.rate ≤ (1 / 10 ^ 8 + 1 / 10 ^ 5 * gap a b) * a.rate :=
          mul_le_mul_of_nonneg_right h2 hpos.le
      _ = 1 / 10 ^ 8 * a.rate + 1 / 10 ^ 5 * m := by rw [add_mul, mul_assoc, hgap]
  have hone : m = 1 := by
    rcases lt_trichotomy m 1 with hlt | heq | hgt
    · have : m = 0 := by omega
      subst this
      norm_num at key
      linarith
    · exact heq
    · have h2' : (2 : ℚ) ≤ m := by exact_mod_cast hgt
      rw [abs_of_nonpos (by linarith)] at key
      linarith
  rw [hge, hone]; norm_num

theorem regular_exact [One κ] {M : SigSet α κ} {I : Inventory α κ} (hM : Regular M) (ht : Traced I M)
    (hsync : Synchronised I) (hrate : ∀ S ∈ I, ∀ s ∈ S.runs, s.rate ≤ 10 ^ 7) :
    M.runs.IsChain (fun a b => Continues a b → gap a b = 1 / a.rate) := by
  have hdis := (reach_sinv hM.reach).ok.disjoint
  have hp : M.runs.Pairwise (fun a b => Continues a b → gap a b = 1 / a.rate) := by
    refine hdis.imp_of_mem ?_
    intro a b ha hb hab hc
    obtain ⟨S, hS, s, hs, e1, i, hi⟩ := ht.rate a ha
    obtain ⟨S', hS', s', hs', e1', i', hi'⟩ := ht.rate b hb
    have hpos := hM.rate a ha
    refine continues_exact hpos (by rw [← e1]; exact hrate S hS s hs) (hM.size a ha) hab ?_ hc
    obtain ⟨n, hn⟩ := hsync S' hS' s' hs' S hS s hs (by rw [e1', e1, hc.1])
    have hr : a.rate ≠ 0 := ne_of_gt hpos
    refine ⟨n + i' - i, ?_⟩
    have e2 : s'.rate = a.rate := by rw [e1', ← hc.1]
    rw [hi, hi']
    unfold sampleTime
    rw [e2, e1]
    rw [e2] at hn
    push_cast
    rw [← hn]
    field_simp
    ring
  exact hp.isChain

/-- **C34.** For synchronised recordings (and rates up to 10 MHz), every sample of the result of `pack()` is a
sample of the inventory with the same tag position, rate, value *and time*. -/
theorem C34_exact_times [One κ] (o : SetOrder) (I : Inventory α κ) (hI : ∀ S ∈ I, Regular S)
    (hsync : Synchronised I) (hrate : ∀ S ∈ I, ∀ s ∈ S.runs, s.rate ≤ 10 ^ 7)
    (R : SigSet α κ) (h : I.pack o = .ok R) :
    ∀ r ∈ R.runs, ∀ k j c, designated R.tags r k j = some c → ∀ p ∈ c.1,
      ∃ S ∈ I, ∃ s ∈ S.runs, s.rate = r.rate ∧ ∃ c', designated S.tags s k j = some c' ∧ p ∈ c'.1 := by
  intro r hr k j c hc p hp
  obtain ⟨M, hM, h1, h2⟩ := C34_pack_traced o I hI R h (List.ne_nil_of_mem hr)
  obtain ⟨a, ha, hrate', c', hc', p', hp', e, et⟩ := fused_sample hM h1 hr hc hp
  obtain ⟨T, hT, s, hs, hr', c2, hc2, hsub, _⟩ := h2.chan a ha k j c' hc'
  have hpp : p' = p := Prod.ext (et (regular_exact hM h2 hsync hrate)) e
  exact ⟨T, hT, s, hs, hr'.trans hrate', c2, hc2, hpp ▸ hsub.subset hp'⟩

/-! C35 -/

theorem holders_eq {I : Inventory α κ} {t t' : String} :
    I.holders t = I.holders t' ↔ ∀ S ∈ I, (HasTag S t ↔ HasTag S t') := by
  unfold Inventory.holders
  constructor
  · intro h S hS
    obtain ⟨i, hi, rfl⟩ := List.getElem_of_mem hS
    have := congrArg (fun l => decide (i ∈ l)) h
    simp only [List.mem_filter, List.mem_range, hi, true_and, Bool.decide_eq_true] at this
    rw [List.getElem?_eq_getElem hi] at this
    simp only [Option.any_some] at this
    rw [← Inventory.hasTag_iff, ← Inventory.hasTag_iff, this]
  · intro h
    refine List.filter_congr (fun i hi => ?_)
    have hi := List.mem_range.1 hi
    rw [List.getElem?_eq_getElem hi]
    simp only [Option.any_some]
    rw [Bool.eq_iff_iff, Inventory.hasTag_iff, Inventory.hasTag_iff]
    exact h _ (List.getElem_mem hi)

/-- **C35.** The names are shared out in groups: each name of the inventory is in a group, and the group of a
name consists of the names that the same signal sets have. -/
theorem C35_groups (o : SetOrder) (ho : SetOrder.OK o) (I : Inventory α κ) :
    (∀ t, (∃ S ∈ I, HasTag S t) ↔ ∃ g ∈ Inventory.groupKeys o I, t ∈ g) ∧
    ∀ g ∈ Inventory.groupKeys o I, ∀ t ∈ g, ∀ t', t' ∈ g ↔
      (∃ S ∈ I, HasTag S t') ∧ ∀ S ∈ I, (HasTag S t ↔ HasTag S t') := by
  have h1 : ∀ g ∈ Inventory.groupKeys o I, ∀ t ∈ g, ∀ t', t' ∈ g ↔
      (∃ S ∈ I, HasTag S t') ∧ ∀ S ∈ I, (HasTag S t ↔ HasTag S t') := by
    intro g hg t ht t'
    obtain ⟨u, _, h⟩ := Inventory.mem_groupKeys ho hg
    rw [← holders_eq, h t', ← Inventory.mem_names, ((h t).1 ht).2]
    exact ⟨fun h => ⟨h.1, h.2.symm⟩, fun h => ⟨h.1, h.2.symm⟩⟩
  refine ⟨fun t => ⟨fun h => Inventory.exists_groupKeys ho (Inventory.mem_names.2 h), ?_⟩, h1⟩
  rintro ⟨g, hg, ht⟩
  exact ((h1 g hg t ht t).1 ht).1

/-- **C35.** Neither the groups nor the result (or exception) of `Inventory.merge` depend on the order in which
the names are enumerated. -/
theorem C35_merge_order [Rnd] [One κ] (o o' : SetOrder) (ho : SetOrder.OK o) (ho' : SetOrder.OK o') (I : Inventory α κ) :
    Inventory.groupKeys o I = Inventory.groupKeys o' I ∧ I.joinMerge o = I.joinMerge o' :=
  ⟨Inventory.groupKeys_order ho ho' I, Inventory.joinMerge_order ho ho' I⟩

/-! C36 -/

theorem groupOf_ok [Rnd] [One κ] {o : SetOrder} {I : Inventory α κ} {g : String × List String} {S : SigSet α κ}
    (h : I.groupOf o g = .ok S) :
    ∃ J P vs, I.filter o g.2 = .ok J ∧ J.pack o = .ok P ∧ S.runs = P.runs ∧ LegalName g.1 ∧ vs.flatten ≠ [] ∧
      List.Forall₂ (fun k v => P.tags.getItem k = .ok v) g.2 vs ∧
      ∀ k, S.tags.getItem k = if k = g.1 then .ok vs.flatten else P.tags.getItem k := by
  unfold Inventory.groupOf at h
  split at h
  · simp at h
  · rename_i J hJ
    split at h
    · simp at h
    · rename_i P hP
      split at h
      · simp at h
      · rename_i vs hvs
        split at h
        · simp at h
        · rename_i t ht
          simp only [Except.ok.injEq] at h; subst h
          obtain ⟨h1, h2, h3, rfl⟩ := Tags.setItem_ok.1 ht
          refine ⟨J, P, vs, hJ, hP, rfl, h1, ?_, mapE_ok.1 hvs, ?_⟩
          · intro e; rw [e] at h2; exact h2 rfl
          · intro k
            have e : (tupleit (Tags.toVal vs.flatten)).map Int.toNat = vs.flatten := by
              simp [Tags.toVal, tupleit, Function.comp_def]
            rw [e]
            unfold Tags.getItem
            simp only [Dict.get?_set]
            by_cases hk : k = g.1
            · simp [hk]
            · simp [hk, Ne.symm hk]

/-- **C36.** `extract_groups` gives one set per group, in order: what `pack` makes of the sets that match the old
tags, plus a tag that designates the channels of the old tags one after the other, the other tags being kept. -/
theorem C36_extract_groups [Rnd] [One κ] (o : SetOrder) (I R : Inventory α κ) (gs : List (String × List String))
    (h : I.extractGroups o gs = .ok R) :
    List.Forall₂ (fun g S => ∃ J P, I.filter o g.2 = .ok J ∧ J.pack o = .ok P ∧ S.runs = P.runs ∧
      (∀ k ∈ g.2, HasTag P k) ∧
      (∀ r : Sync α κ, tagChannels S.tags r g.1 = g.2.flatMap (tagChannels P.tags r) ∧ tagChannels S.tags r g.1 ≠ []) ∧
      ∀ k, k ≠ g.1 → S.tags.getItem k = P.tags.getItem k) gs R := by
  unfold Inventory.extractGroups at h
  split at h
  · simp at h
  · rename_i l hl
    rw [Inventory.new_set] at h
    simp only [Except.ok.injEq] at h; subst h
    refine (mapE_ok.1 hl).imp ?_
    intro g S hg
    obtain ⟨J, P, vs, h1, h2, h3, h4, h5, h6, h7⟩ := groupOf_ok hg
    refine ⟨J, P, h1, h2, h3, ?_, ?_, ?_⟩
    · intro k hk
      have : ∀ (ks : List String) (vs : List (List Nat)), List.Forall₂ (fun k v => P.tags.getItem k = .ok v) ks vs →
          k ∈ ks → HasTag P k := by
        intro ks vs hf hk
        induction hf with
        | nil => simp at hk
        | cons hab _ ih =>
          rcases List.mem_cons.1 hk with rfl | hk
          · exact ⟨_, hab⟩
          · exact ih hk
      exact this _ _ h6 hk
    · intro r
      have e : tagChannels S.tags r g.1 = vs.flatten.map (fun i => (channels r)[i]?) := by
        unfold tagChannels
        rw [h7, if_pos rfl]
      refine ⟨?_, ?_⟩
      · rw [e]
        clear e h7 h5 hg
        generalize g.2 = ks at h6
        induction h6 with
        | nil => rfl
        | cons hab _ ih =>
          simp only [List.flatten_cons, List.map_append, List.flatMap_cons, ih]
          congr 1
          unfold tagChannels
          rw [hab]
      · rw [e]
        simpa using h5
    · intro k hk
      rw [h7, if_neg hk]

/-- **C36.** Each sample of the new sets comes, with its rate, from a channel of the inventory designated by the
same tag, or for the new tag by one of the old tags. -/
theorem C36_samples [One κ] (o : SetOrder) (I R : Inventory α κ) (hI : ∀ S ∈ I, Regular S)
    (gs : List (String × List String)) (h : I.extractGroups o gs = .ok R) :
    List.Forall₂ (fun g S => ∀ r ∈ S.runs, ∀ k j c, designated S.tags r k j = some c → ∀ p ∈ c.1,
      ∃ k' j', (k' = k ∧ j' = j ∨ k = g.1 ∧ k' ∈ g.2) ∧
      ∃ T ∈ I, ∃ s ∈ T.runs, s.rate = r.rate ∧ ∃ c', designated T.tags s k' j' = some c' ∧ ∃ p' ∈ c'.1, p'.2 = p.2)
      gs R := by
  refine (C36_extract_groups o I R gs h).imp ?_
  rintro g S ⟨J, P, h1, h2, h3, h4, h5, h6⟩ r hr k j c hc p hp
  have hJ := Inventory.regular_select hI h1
  rw [h3] at hr
  have back : ∀ k' j', designated P.tags r k' j' = some c → ∃ T ∈ I, ∃ s ∈ T.runs, s.rate = r.rate ∧
      ∃ c', designated T.tags s k' j' = some c' ∧ ∃ p' ∈ c'.1, p'.2 = p.2 := by
    intro k' j' hk
    obtain ⟨T, hT, s, hs, e1, c', hc', p', hp', e2⟩ :=
      C34_samples o J (fun T hT => (hJ T hT).1) P h2 r hr k' j' c hk p hp
    obtain ⟨U, hU, u, hu, e3, c2, hc2, hsub, _⟩ := (hJ T hT).2.1.chan s hs k' j' c' hc'
    exact ⟨U, hU, u, hu, e3.trans e1, c2, hc2, p', hsub.subset hp', e2⟩
  have hdes : ∀ (t : Tags) k j, designated t r k j = ((tagChannels t r k)[j]?).join := by
    intro t k j
    unfold designated tagChannels
    cases t.getItem k with
    | error e => simp
    | ok v =>
      simp only [List.getElem?_map]
      cases v[j]? <;> simp
  by_cases hk : k = g.1
  · subst hk
    rw [hdes, (h5 r).1] at hc
    have hloc : ∃ k' ∈ g.2, ∃ j' : Nat, ((tagChannels P.tags r k')[j']?).join = some c := by
      cases hx : (g.2.flatMap (tagChannels P.tags r))[j]? with
      | none => rw [hx] at hc; simp at hc
      | some x =>
        rw [hx] at hc
        obtain ⟨pre, k', post, j', e1, _, e3⟩ :=
          flatMap_locate (sz := fun k' => (tagChannels P.tags r k').length) g.2 (fun _ _ => rfl) j x hx
        exact ⟨k', by rw [e1]; simp, j', by rw [e3]; exact hc⟩
    obtain ⟨k', hk', j', hj'⟩ := hloc
    exact ⟨k', j', .inr ⟨rfl, hk'⟩, back k' j' (by rw [hdes]; exact hj')⟩
  · refine ⟨k, j, .inl ⟨rfl, rfl⟩, back k j ?_⟩
    unfold designated at hc ⊢
    rw [h6 k hk] at hc
    exact hc

/-- **C36.** A group with an old tag that no set has, or without old tag, makes `extract_groups` raise. -/
theorem C36_missing_raises [One κ] (o : SetOrder) (I : Inventory α κ) (hI : ∀ S ∈ I, Regular S)
    (gs : List (String × List String)) (g : String × List String) (hg : g ∈ gs)
    (hm : g.2 = [] ∨ ∃ k ∈ g.2, ∀ S ∈ I, ¬ HasTag S k) : ∃ e, I.extractGroups o gs = .error e := by
  cases h : I.extractGroups o gs with
  | error e => exact ⟨e, rfl⟩
  | ok R =>
    exfalso
    have hmem : ∀ (gs : List (String × List String)) (R : List (SigSet α κ)) (P : String × List String → SigSet α κ → Prop),
        List.Forall₂ P gs R → g ∈ gs → ∃ S, P g S := by
      intro gs R P hf hg
      induction hf with
      | nil => simp at hg
      | cons hab _ ih =>
        rcases List.mem_cons.1 hg with rfl | hg
        · exact ⟨_, hab⟩
        · exact ih hg
    obtain ⟨S, J, P, h1, h2, h3, h4, h5, h6⟩ := hmem _ _ _ (C36_extract_groups o I R gs h) hg
    rcases hm with hm | ⟨k, hk, hm⟩
    · have := h5 (⟨[], [], 1, 0, 0⟩ : Sync α κ)
      rw [this.1, hm] at this
      simp at this
    · have hJ := Inventory.regular_select hI h1
      rcases C33_pack_all_or_nothing o J (fun T hT => (hJ T hT).1) P h2 with ⟨_, hno⟩ | ⟨_, hn, _⟩
      · exact hno k (h4 k hk)
      · obtain ⟨T, hT, hTk⟩ := (hn k).1 (h4 k hk)
        obtain ⟨U, hU, hUk⟩ := (hJ T hT).2.2 k hTk
        exact hm U hU hUk

section examples
/-- Two recordings at 1 Hz: `E` over times 0, 1, 2 and `B` over times 1, 2, 3, then `E` again at 2 Hz. -/
def exInvE : SigSet Int ℚ := ⟨[⟨[[1, 2, 3]], [1], 1, 0, 3⟩], ⟨1, [("E", [0])]⟩⟩
def exInvB : SigSet Int ℚ := ⟨[⟨[[4, 5, 6]], [2], 1, 1, 3⟩], ⟨1, [("B", [0])]⟩⟩
def exInvF : SigSet Int ℚ := ⟨[⟨[[7, 8, 9]], [1], 2, 10, 3⟩], ⟨1, [("E", [0])]⟩⟩
def exInv : Inventory Int ℚ := [exInvE, exInvB, exInvF]
def exOrd : SetOrder := ⟨id, id⟩
def exOrd' : SetOrder := ⟨List.reverse, List.reverse⟩

theorem exOrd_ok : SetOrder.OK exOrd := ⟨fun _ => .refl _, fun _ => .refl _⟩
theorem exOrd'_ok : SetOrder.OK exOrd' := ⟨fun l => List.reverse_perm l, fun l => List.reverse_perm l⟩

theorem exInv_regular : ∀ S ∈ exInv, Regular S := by
  intro S hS
  simp only [exInv, List.mem_cons, List.not_mem_nil, or_false] at hS
  rcases hS with rfl | rfl | rfl
  · refine ⟨Reach.new (.dict [("E", .int 0)]) [.sync ⟨[[1, 2, 3]], [1], 1, 0, 3⟩] ?_ (by simp) (by decide +kernel), ?_, ?_, ?_⟩
    · intro s hs; simp at hs; subst hs; exact ⟨by simp, by simp, by simp⟩
    · intro k hk; simp [reserved] at hk; rcases hk with rfl|rfl|rfl|rfl|rfl <;> decide
    · intro r hr; simp [exInvE] at hr; subst hr; norm_num
    · intro r hr; simp [exInvE] at hr; subst hr; norm_num
  · refine ⟨Reach.new (.dict [("B", .int 0)]) [.sync ⟨[[4, 5, 6]], [2], 1, 1, 3⟩] ?_ (by simp) (by decide +kernel), ?_, ?_, ?_⟩
    · intro s hs; simp at hs; subst hs; exact ⟨by simp, by simp, by simp⟩
    · intro k hk; simp [reserved] at hk; rcases hk with rfl|rfl|rfl|rfl|rfl <;> decide
    · intro r hr; simp [exInvB] at hr; subst hr; norm_num
    · intro r hr; simp [exInvB] at hr; subst hr; norm_num
  · refine ⟨Reach.new (.dict [("E", .int 0)]) [.sync ⟨[[7, 8, 9]], [1], 2, 10, 3⟩] ?_ (by simp) (by decide +kernel), ?_, ?_, ?_⟩
    · intro s hs; simp at hs; subst hs; exact ⟨by simp, by simp, by simp⟩
    · intro k hk; simp [reserved] at hk; rcases hk with rfl|rfl|rfl|rfl|rfl <;> decide
    · intro r hr; simp [exInvF] at hr; subst hr; norm_num
    · intro r hr; simp [exInvF] at hr; subst hr; norm_num

theorem exInv_sync : Synchronised exInv := by
  intro S hS s hs S' hS' s' hs' e
  simp only [exInv, List.mem_cons, List.not_mem_nil, or_false] at hS hS'
  rcases hS with rfl | rfl | rfl <;> rcases hS' with rfl | rfl | rfl <;>
    simp [exInvE, exInvB, exInvF] at hs hs' <;> subst hs <;> subst hs' <;>
    first
    | (refine ⟨0, ?_⟩; norm_num; done)
    | (refine ⟨-1, ?_⟩; norm_num; done)
    | (refine ⟨1, ?_⟩; norm_num; done)
    | (exfalso; norm_num at e; done)

/-- The hypotheses of the packing theorems hold of `exInv`, whose 1 Hz part packs to the overlap `[1, 2]`. -/
def exPacked : SigSet Int ℚ := ⟨[⟨[[4, 5], [2, 3]], [2, 1], 1, 1, 2⟩], ⟨2, [("B", [0]), ("E", [1])]⟩⟩
theorem exInv_pack : exInv.pack exOrd = .ok exPacked := by decide +kernel
example : exInv.pack exOrd' = .ok exPacked := by decide +kernel

example := C33_pack_all_or_nothing exOrd exInv exInv_regular exPacked exInv_pack
example := C34_pack_traced exOrd exInv exInv_regular exPacked exInv_pack (by simp [exPacked])
example := C34_samples exOrd exInv exInv_regular exPacked exInv_pack
example := C34_exact_times exOrd exInv exInv_regular exInv_sync (by
  intro S hS s hs
  simp only [exInv, List.mem_cons, List.not_mem_nil, or_false] at hS
  rcases hS with rfl | rfl | rfl <;> simp [exInvE, exInvB, exInvF] at hs <;> subst hs <;> norm_num) exPacked exInv_pack
example : designated exPacked.tags ⟨[[4, 5], [2, 3]], [2, 1], 1, 1, 2⟩ "E" 0 = some ([(1, 2), (2, 3)], 1) := by
  decide +kernel

/-- Some tag missing at every rate: the empty set. -/
example : Inventory.pack exOrd [exInvE, exInvF, ⟨[⟨[[4, 5, 6]], [2], 3, 1, 3⟩], ⟨1, [("B", [0])]⟩⟩] = .ok ⟨[], ⟨0, []⟩⟩ := by
  decide +kernel

example : (InvOp.apply [exInvE] (.extend [.set exInvB, .other, .set exInvF])) = ([exInvE, exInvB], some .value) := rfl
example : exInv.getItem (-1) = .ok exInvF ∧ exInv.getItem 3 = .error .index := by decide +kernel
example : exInv.selectChannels ["E"] = .ok [exInvE, exInvF] := by decide +kernel
example : ∀ S ∈ exInv, Reach S ∧ Plain S.tags ∧ ¬ HasTag S "get" := by
  intro S hS
  refine ⟨(exInv_regular S hS).reach, (exInv_regular S hS).plain, ?_⟩
  simp only [exInv, List.mem_cons, List.not_mem_nil, or_false] at hS
  rcases hS with rfl | rfl | rfl <;> rintro ⟨v, hv⟩ <;>
    simpa [exInvE, exInvB, exInvF] using Dict.mem_of_get? (Tags.getItem_ok.1 hv)
example : exInv.extractT 1 2 = .ok [⟨[⟨[[2, 3]], [1], 1, 1, 2⟩], ⟨1, [("E", [0])]⟩⟩, ⟨[⟨[[4, 5]], [2], 1, 1, 2⟩], ⟨1, [("B", [0])]⟩⟩] := by
  decide +kernel
example : exInv.selectRuns [.mask [true], .mask [false], .mask [true]] = .ok [exInvE, exInvF] := by decide +kernel

example : Inventory.groupKeys exOrd exInv = [["B"], ["E"]] ∧ Inventory.setOf exOrd exInv.names ≠ Inventory.setOf exOrd' exInv.names := by
  decide +kernel
example := C35_merge_order (κ := ℚ) exOrd exOrd' exOrd_ok exOrd'_ok exInv

/-- A new tag for the two old ones. -/
theorem exInv_groups : exInv.extractGroups exOrd [("all", ["E", "B"])] =
    .ok [⟨exPacked.runs, ⟨2, [("B", [0]), ("E", [1]), ("all", [1, 0])]⟩⟩] := by
  have hE : Fnmatch.filter ["E", "B"] "E" = ["E"] := by
    simp [Fnmatch.filter, Fnmatch.fnmatch, Fnmatch.tokens, Fnmatch.matchToks, Fnmatch.Tok.one]
  have hB : Fnmatch.filter ["E", "B"] "B" = ["B"] := by
    simp [Fnmatch.filter, Fnmatch.fnmatch, Fnmatch.tokens, Fnmatch.matchToks, Fnmatch.Tok.one]
  have hn : Inventory.setOf exOrd exInv.names = ["B", "E"] := by decide +kernel
  have hE : Fnmatch.filter (Inventory.setOf exOrd exInv.names) "E" = ["E"] := by
    rw [hn]
    simp [Fnmatch.filter, Fnmatch.fnmatch, Fnmatch.tokens, Fnmatch.matchToks, Fnmatch.Tok.one]
  have hB : Fnmatch.filter (Inventory.setOf exOrd exInv.names) "B" = ["B"] := by
    rw [hn]
    simp [Fnmatch.filter, Fnmatch.fnmatch, Fnmatch.tokens, Fnmatch.matchToks, Fnmatch.Tok.one]
  have hf : exInv.filter exOrd ["E", "B"] = .ok exInv := by
    unfold Inventory.filter
    simp only [List.flatMap_cons, List.flatMap_nil, hE, hB]
    decide +kernel
  unfold Inventory.extractGroups mapE Inventory.groupOf
  simp only [hf, exInv_pack]
  decide +kernel

example := C36_extract_groups exOrd exInv _ _ exInv_groups
example := C36_samples exOrd exInv _ exInv_regular _ exInv_groups
example : ∃ e, exInv.extractGroups exOrd [("all", ["E", "H"])] = .error e :=
  C36_missing_raises exOrd exInv exInv_regular _ ("all", ["E", "H"]) (by simp) (.inr ⟨"H", by simp, by
    intro S hS
    simp only [exInv, List.mem_cons, List.not_mem_nil, or_false] at hS
    rcases hS with rfl | rfl | rfl <;> rintro ⟨v, hv⟩ <;>
      simpa [exInvE, exInvB, exInvF] using Dict.mem_of_get? (Tags.getItem_ok.1 hv)⟩)
end examples

end Razorback.Props
