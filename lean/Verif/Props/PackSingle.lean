/-
Property C79: packing with `keep_multi_tags=False`, and recordings packed twice.
-/
import Verif.Props.Inventory

namespace Razorback.Spec
open Razorback
variable {α κ : Type _}

/-- A name that designates a single channel in some set of the inventory. -/
def SingleTag (I : Inventory α κ) (t : String) : Prop := ∃ S ∈ I, ∃ i, S.tags.getItem t = .ok [i]

/-- In `S`, the name `k` designates only channels that `t` designates too. -/
def Covered (S : SigSet α κ) (t k : String) : Prop :=
  ∃ v w, S.tags.getItem t = .ok v ∧ S.tags.getItem k = .ok w ∧ ∀ i ∈ w, i ∈ v

end Razorback.Spec

namespace Razorback.Props
open Razorback Razorback.Spec Razorback.SigSet
variable {α κ : Type _}

theorem mapE_sublist {β γ : Type _} {f : β → Except Err γ} {l : List β} {r : List γ} (h : mapE f l = .ok r)
    {l' : List β} (hs : l'.Sublist l) : ∃ r', r'.Sublist r ∧ List.Forall₂ (fun a b => f a = .ok b) l' r' := by
  rw [mapE_ok] at h
  induction hs generalizing r with
  | slnil => exact ⟨[], by simp, .nil⟩
  | cons a _ ih =>
    cases h with
    | cons _ h2 =>
      obtain ⟨r', h3, h4⟩ := ih h2
      exact ⟨r', h3.cons _, h4⟩
  | cons_cons a _ ih =>
    cases h with
    | cons h1 h2 =>
      obtain ⟨r', h3, h4⟩ := ih h2
      exact ⟨_ :: r', h3.cons_cons _, .cons h1 h4⟩

theorem mapE_pair {β γ : Type _} {f : β → Except Err γ} {l : List β} {r : List γ} (h : mapE f l = .ok r)
    {a b : β} (hs : [a, b].Sublist l) : ∃ x y, [x, y].Sublist r ∧ f a = .ok x ∧ f b = .ok y := by
  obtain ⟨r', h1, h2⟩ := mapE_sublist h hs
  cases h2 with
  | cons hx h2 =>
    cases h2 with
    | cons hy h2 =>
      cases h2
      exact ⟨_, _, h1, hx, hy⟩

theorem sublist_flatMap {β γ : Type _} {f : β → List γ} {l l' : List β} (h : l'.Sublist l) :
    (l'.flatMap f).Sublist (l.flatMap f) := by
  induction h with
  | slnil => simp
  | cons a _ ih => exact ih.trans (by simp)
  | cons_cons a _ ih => simpa using ih

/-- Two runs overlap by more than an instant. -/
theorem joinAll_overlap [One κ] {J : List (SigSet α κ)} (hJ : ∀ S ∈ J, Regular S) {A : SigSet α κ}
    (h : Inventory.joinAll J = .ok A) {T T' : SigSet α κ} (hs : [T, T'].Sublist J) {r r' : Sync α κ} (hr : r ∈ T.runs)
    (hr' : r' ∈ T'.runs) : lastTime r ≤ r'.start ∨ lastTime r' ≤ r.start := by
  cases J with
  | nil => simp at hs
  | cons S l =>
    have h : S.join (l.map .set) = .ok A := h
    have hA : ∀ T, SigArg.set T ∈ l.map SigArg.set → Reach T := by
      intro T hT
      have : T ∈ l := by simpa using hT
      exact (hJ T (by simp [this])).reach
    have hreach : Reach A := .join _ (hJ S (by simp)).reach (by simp) hA h
    have hp := (C15_join_union S A _ (hJ S (by simp)).reach hA h).1
    have e : S.runs ++ (l.map SigArg.set).flatMap operandRuns = (S :: l).flatMap SigSet.runs := by
      rw [List.flatMap_map, List.flatMap_cons]
      rfl
    rw [e] at hp
    have hd := (C12_reachable_sets_ok A hreach).disjoint
    let last : ℚ × ℚ × Nat → ℚ := fun c => c.2.1 + ((c.2.2 : ℚ) - 1) / c.1
    have hd' : (A.runs.map clock).Pairwise (fun a b => last a ≤ b.2.1 ∨ last b ≤ a.2.1) := by
      rw [List.pairwise_map]
      exact hd.imp (fun h => .inl h)
    rw [hp.pairwise_iff (fun h => h.symm)] at hd'
    have hsub : [clock r, clock r'].Sublist (((S :: l).flatMap SigSet.runs).map clock) := by
      have h1 := sublist_flatMap (f := SigSet.runs) hs
      refine List.Sublist.trans ?_ (h1.map clock)
      have : [r, r'].Sublist ([T, T'].flatMap SigSet.runs) := by
        simp only [List.flatMap_cons, List.flatMap_nil, List.append_nil]
        exact (List.singleton_sublist.2 hr).append (List.singleton_sublist.2 hr')
      exact this.map clock
    have := (hd'.sublist hsub)
    simpa [last, clock, lastTime] using this

/-- **C79.** Two recordings of the same tag, at the same rate, that overlap by more than an instant make `pack` raise:
neither of them is preferred nor silently dropped. -/
theorem C79_overlap_raises [One κ] (o : SetOrder) (ho : SetOrder.OK o) (I : Inventory α κ) (hI : ∀ S ∈ I, Regular S)
    (T T' : SigSet α κ) (hs : [T, T'].Sublist I) (t : String) (ht : HasTag T t) (ht' : HasTag T' t)
    (r r' : Sync α κ) (hr : r ∈ T.runs) (hr' : r' ∈ T'.runs) (hrate : r.rate = r'.rate)
    (h1 : r.start < lastTime r') (h2 : r'.start < lastTime r) : ∃ e, I.pack o = .error e := by
  cases h : I.pack o with
  | error e => exact ⟨e, rfl⟩
  | ok R =>
    exfalso
    have h : I.packAll o = .ok R := h
    unfold Inventory.packAll at h
    split at h
    · simp at h
    · rename_i sigs hsigs
      have hT : T ∈ I := hs.subset (by simp)
      have hT' : T' ∈ I := hs.subset (by simp)
      have hf : r.rate ∈ o.rates (dedup I.rates) := by
        rw [(ho.rates _).mem_iff, mem_dedup]
        exact List.mem_flatMap.2 ⟨T, hT, List.mem_map.2 ⟨r, hr, rfl⟩⟩
      obtain ⟨M, _, hM⟩ := mapE_ok_forall hsigs _ hf
      unfold Inventory.rateSet at hM
      split at hM
      · simp at hM
      · rename_i J hJ
        -- the runs with that rate
        have hstep : (∀ S ∈ J, Regular S) ∧ ∃ U U', [U, U'].Sublist J ∧ HasTag U t ∧ HasTag U' t ∧ r ∈ U.runs ∧ r' ∈ U'.runs := by
          unfold Inventory.selectRuns at hJ
          split at hJ
          · simp at hJ
          · split at hJ
            · simp at hJ
            · rename_i l hl
              rw [Inventory.new_set] at hJ
              simp only [Except.ok.injEq] at hJ; subst hJ
              rw [← List.map_prod_left_eq_zip] at hl
              have one : ∀ (S U : SigSet α κ), S ∈ I → S.selectRuns (.mask (S.runs.map (fun x => decide (x.rate = r.rate)))) = .ok U →
                  HasTag S t → (HasTag U t) ∧ ∀ x ∈ S.runs, x.rate = r.rate → x ∈ U.runs := by
                intro S U hS hU hst
                obtain ⟨a1, a2, a3, a4⟩ := regular_selectRuns (hI S hS) hU
                refine ⟨?_, ?_⟩
                · obtain ⟨v, hv⟩ := hst
                  exact ⟨v, by rw [a2 t]; exact hv⟩
                · intro x hx hxr
                  obtain ⟨i, hi⟩ := List.mem_iff_getElem?.1 hx
                  refine (a3 x).2 ⟨i, ?_, hi⟩
                  rw [List.getElem?_map, hi]
                  simpa using hxr
              refine ⟨?_, ?_⟩
              · intro S hS
                obtain ⟨p, hp, hps⟩ := mapE_ok_exists hl S (List.mem_filter.1 hS).1
                obtain ⟨S0, hS0, rfl⟩ := List.mem_map.1 hp
                exact (regular_selectRuns (hI S0 hS0) hps).1
              · obtain ⟨U, U', hU, hTU, hTU'⟩ := mapE_pair hl (hs.map _)
                obtain ⟨b1, b2⟩ := one T U hT hTU ht
                obtain ⟨c1, c2⟩ := one T' U' hT' hTU' ht'
                have hrU := b2 r hr rfl
                have hrU' := c2 r' hr' hrate.symm
                refine ⟨U, U', ?_, b1, c1, hrU, hrU'⟩
                have := hU.filter (fun S => !S.runs.isEmpty)
                simpa [List.ne_nil_of_mem hrU, List.ne_nil_of_mem hrU'] using this
        obtain ⟨hJR, U, U', hUJ, hUt, hUt', hrU, hrU'⟩ := hstep
        unfold Inventory.joinMerge at hM
        split at hM
        · rename_i he
          rw [List.isEmpty_iff] at he
          rw [he] at hUJ
          simp at hUJ
        · obtain ⟨g, hg, htg⟩ := Inventory.exists_groupKeys ho (I := J) (t := t)
            (Inventory.mem_names.2 ⟨U, hUJ.subset (by simp), hUt⟩)
          have hok : ∃ A, Inventory.groupSet J g = .ok A := by
            split at hM
            · simp at hM
            · simp at hM
            · rename_i hm
              obtain ⟨A, _, hA⟩ := mapE_ok_forall hm g hg
              exact ⟨A, hA⟩
            · rename_i hm
              obtain ⟨A, _, hA⟩ := mapE_ok_forall hm g hg
              exact ⟨A, hA⟩
          obtain ⟨A, hA⟩ := hok
          unfold Inventory.groupSet at hA
          split at hA
          · simp at hA
          · rename_i K hK
            have hKR := Inventory.regular_select hJR hK
            unfold Inventory.selectChannels at hK
            split at hK
            · simp at hK
            · rename_i l hl
              rw [Inventory.new_set] at hK
              simp only [Except.ok.injEq] at hK; subst hK
              obtain ⟨x, x', hx, hUx, hUx'⟩ := mapE_pair hl hUJ
              have one : ∀ (S : SigSet α κ) x q, S ∈ J → HasTag S t → Inventory.selectIn g S = .ok x → q ∈ S.runs →
                  ∃ V, x = some V ∧ ∃ p ∈ V.runs, p.start = q.start ∧ lastTime p = lastTime q := by
                intro S x q hS hSt hSx hq
                have hsome : ∃ V, x = some V := by
                  obtain ⟨v, hv⟩ := hSt
                  have hv0 := ((reach_sinv (hJR S hS).reach).inv.legal t v (Tags.getItem_ok.1 hv)).2.1
                  unfold Inventory.selectIn at hSx
                  split at hSx
                  · simp at hSx
                  · rename_i w hw
                    split at hSx
                    · rename_i he
                      exfalso
                      rw [List.isEmpty_iff, List.flatten_eq_nil_iff] at he
                      obtain ⟨y, hy, hty⟩ := mapE_ok_forall hw t htg
                      unfold Inventory.tagGet at hty
                      split at hty
                      · simp at hty
                      · simp only [Except.ok.injEq] at hty
                        rw [Tags.getItem_ok.1 hv] at hty
                        exact hv0 (by rw [← he y hy, ← hty]; rfl)
                    · split at hSx
                      · simp at hSx
                      · rename_i V hV
                        simp only [Except.ok.injEq] at hSx
                        exact ⟨V, hSx.symm⟩
                obtain ⟨V, rfl⟩ := hsome
                refine ⟨V, rfl, ?_⟩
                obtain ⟨sel, hsel⟩ := Inventory.selectIn_inv hSx
                have hRg := hJR S hS
                have hk : SelKnown S.tags S.nbChannels sel := by
                  by_contra hn
                  rw [C16_unknown_raises S hRg.reach hRg.plain sel hn] at hsel; simp at hsel
                have hne : S.runs ≠ [] → ∃ i, SelDesig S.tags S.nbChannels sel i := by
                  intro hr
                  by_contra hn
                  obtain ⟨e, he⟩ := C16_nothing_raises S hRg.reach hRg.plain sel hr hn
                  rw [he] at hsel; simp at hsel
                obtain ⟨V', idx, e1, _, _, e4, _⟩ := C16_select_channels S hRg.reach hRg.plain sel hk hne
                rw [hsel] at e1; simp at e1; subst e1
                obtain ⟨i, hi, rfl⟩ := List.mem_iff_getElem.1 hq
                have hi' : i < V.runs.length := by rw [e4.length_eq]; exact hi
                have e5 := List.Forall₂.get e4 hi' hi
                simp only [List.get_eq_getElem] at e5
                exact ⟨V.runs[i], List.getElem_mem _, e5.2.1, by unfold lastTime; rw [e5.1, e5.2.1, e5.2.2.1]⟩
              obtain ⟨V, rfl, p, hp, p1, p2⟩ := one U x r (hUJ.subset (by simp)) hUt hUx hrU
              obtain ⟨V', rfl, p', hp', p1', p2'⟩ := one U' x' r' (hUJ.subset (by simp)) hUt' hUx' hrU'
              have hsub : [V, V'].Sublist (l.filterMap id) := by simpa using hx.filterMap id
              rcases joinAll_overlap (fun S hS => (hKR S hS).1) hA hsub hp hp' with h | h
              · rw [p2, p1'] at h; linarith
              · rw [p2', p1] at h; linarith


/-- The inventory that is packed when multi-channel tags are not kept. -/
theorem pack_single_inv [One κ] {o : SetOrder} (ho : SetOrder.OK o) {I : Inventory α κ} (hI : ∀ S ∈ I, Regular S)
    {R : SigSet α κ} (h : I.pack o false = .ok R) :
    ∃ (ts : List String) (l : List (Inventory α κ)), (∀ t, t ∈ ts ↔ SingleTag I t) ∧ ts.Nodup ∧
      List.Forall₂ (fun t J => List.Forall₂ (fun T S => S.selectChannels (.many [.name t]) = .ok T) J
        (List.filter (fun S => S.tags.tags.has t) I)) ts l ∧ Inventory.packAll o l.flatten = .ok R := by
  unfold Inventory.pack at h
  rw [if_neg (by simp)] at h
  split at h
  · simp at h
  · rename_i ts hts
    split at h
    · simp at h
    · rename_i l hl
      rw [Inventory.new_set] at h
      have hget : ∀ S ∈ I, ∀ k ∈ I.names, ∃ v, Inventory.tagGet S k = .ok v ∧
          (v.length = 1 → k ∈ ts) ∧ (k ∈ ts → True) := by
        intro S hS k hk
        unfold Inventory.singleNames at hts
        split at hts
        · simp at hts
        · rename_i w hw
          simp only [Except.ok.injEq] at hts
          have hm : (S, k) ∈ I.flatMap (fun S => (Inventory.setOf o I.names).map (fun t => (S, t))) :=
            List.mem_flatMap.2 ⟨S, hS, List.mem_map.2 ⟨k, (Inventory.mem_setOf ho).2 hk, rfl⟩⟩
          obtain ⟨b, hb, hSb⟩ := mapE_ok_forall hw _ hm
          dsimp only at hSb
          split at hSb
          · simp at hSb
          · rename_i v hv
            refine ⟨v, hv, ?_, fun _ => trivial⟩
            intro h1
            rw [if_pos h1] at hSb
            simp only [Except.ok.injEq] at hSb
            rw [← hts]
            exact List.mem_flatten.2 ⟨b, hb, by rw [← hSb]; simp⟩
      have hno : ∀ S ∈ I, ¬ HasTag S "get" := by
        intro S hS hg
        obtain ⟨v, hv, _⟩ := hget S hS "get" (Inventory.mem_names.2 ⟨S, hS, hg⟩)
        have := Inventory.mapE_tagGet_hidden (Inventory.hasTag_iff.2 hg) "get" []
        rw [mapE, hv] at this
        simp [mapE] at this
      have hval : ∀ S ∈ I, ∀ k v, Inventory.tagGet S k = .ok v → v = (S.tags.tags.get? k).getD [] := by
        intro S hS k v hv
        have hg : S.tags.tags.has "get" = false := by
          rw [Bool.eq_false_iff]; intro h; exact hno S hS (Inventory.hasTag_iff.1 h)
        have := Inventory.mapE_tagGet hg [k]
        rw [mapE, hv] at this
        simpa [mapE] using this
      have hmem : ∀ t, t ∈ ts ↔ SingleTag I t := by
        intro t
        constructor
        · intro ht
          unfold Inventory.singleNames at hts
          split at hts
          · simp at hts
          · rename_i w hw
            simp only [Except.ok.injEq] at hts
            rw [← hts] at ht
            obtain ⟨b, hb, htb⟩ := List.mem_flatten.1 ht
            obtain ⟨p, hp, hpb⟩ := mapE_ok_exists hw b hb
            obtain ⟨S, hS, hp⟩ := List.mem_flatMap.1 hp
            obtain ⟨k, hk, rfl⟩ := List.mem_map.1 hp
            dsimp only at hpb
            split at hpb
            · simp at hpb
            · rename_i v hv
              simp only [Except.ok.injEq] at hpb
              by_cases h1 : v.length = 1
              · rw [if_pos h1] at hpb
                rw [← hpb, List.mem_singleton] at htb
                subst htb
                obtain ⟨i, hi⟩ := List.length_eq_one_iff.1 h1
                refine ⟨S, hS, i, ?_⟩
                have := hval S hS t v hv
                cases hq : S.tags.tags.get? t with
                | none => rw [hq, hi] at this; simp at this
                | some u =>
                  rw [hq, hi] at this
                  exact Tags.getItem_ok.2 (by rw [hq, this]; rfl)
              · rw [if_neg h1] at hpb
                rw [← hpb] at htb
                simp at htb
        · rintro ⟨S, hS, i, hi⟩
          obtain ⟨v, hv, h1, _⟩ := hget S hS t (Inventory.mem_names.2 ⟨S, hS, _, hi⟩)
          refine h1 ?_
          rw [hval S hS t v hv, Tags.getItem_ok.1 hi]
          rfl
      refine ⟨Inventory.setOf o ts, l, fun t => (Inventory.mem_setOf ho).trans (hmem t), Inventory.setOf_nodup ho ts, ?_, h⟩
      rw [mapE_ok] at hl
      refine hl.imp ?_
      intro t J hJ
      obtain ⟨J', hJ', hF⟩ := C31_select_channels I (fun S hS => (hI S hS).reach) (fun S hS => (hI S hS).plain) hno [t]
      rw [hJ] at hJ'
      simp only [Except.ok.injEq] at hJ'
      subst hJ'
      have e : List.filter (fun S : SigSet α κ => [t].any (fun k => S.tags.tags.has k)) I =
          List.filter (fun S => S.tags.tags.has t) I := by
        congr 1
        funext S
        simp
      rw [e] at hF
      have : ∀ T ∈ List.filter (fun S : SigSet α κ => S.tags.tags.has t) I, ([t].filter (fun k => T.tags.tags.has k)) = [t] := by
        intro T hT
        have := (List.mem_filter.1 hT).2
        simpa using this
      clear e hJ
      revert this
      generalize List.filter (fun S : SigSet α κ => S.tags.tags.has t) I = F at hF
      intro this
      induction hF with
      | nil => exact .nil
      | cons hab _ ih =>
        rename_i a b l1 l2 _
        refine .cons ?_ (ih (fun T hT => this T (by simp [hT])))
        rw [this b (by simp)] at hab
        exact hab


theorem selDesig_name {S : SigSet α κ} {n : Nat} {t : String} {i : Nat} :
    SelDesig S.tags n (.many [.name t]) i ↔ ∃ v, S.tags.getItem t = .ok v ∧ i ∈ v := by
  simp [SelDesig, Desig]

/-- The tags of a selection by one name. -/
theorem select_one_tags [One κ] {S T : SigSet α κ} (hS : Regular S) {t : String} (ht : HasTag S t)
    (h : S.selectChannels (.many [.name t]) = .ok T) :
    (∀ k, HasTag T k ↔ Covered S t k) ∧ List.Forall₂ (fun r s => clock r = clock s) T.runs S.runs := by
  obtain ⟨v, hv⟩ := ht
  have hI := reach_sinv hS.reach
  have hk : SelKnown S.tags S.nbChannels (.many [.name t]) := by
    intro c hc
    rw [List.mem_singleton] at hc
    subst hc
    exact ⟨v, hv⟩
  obtain ⟨i, hi⟩ := List.exists_mem_of_ne_nil _ (hI.inv.legal t v (Tags.getItem_ok.1 hv)).2.1
  obtain ⟨R, idx, h1, _, _, h4, h5, _⟩ := C16_select_channels S hS.reach hS.plain (.many [.name t]) hk
    (fun _ => ⟨i, selDesig_name.2 ⟨v, hv, hi⟩⟩)
  rw [h] at h1; simp only [Except.ok.injEq] at h1; subst h1
  refine ⟨?_, h4.imp (fun a b h => by unfold clock; rw [h.1, h.2.1, h.2.2.1])⟩
  intro k
  rw [HasTag, h5 k]
  constructor
  · rintro ⟨w, hw, hall⟩
    refine ⟨v, w, hv, hw, fun i hi => ?_⟩
    obtain ⟨v', hv', hi'⟩ := selDesig_name.1 (hall i hi)
    rw [hv] at hv'; simp only [Except.ok.injEq] at hv'; subst hv'
    exact hi'
  · rintro ⟨v', w, hv', hw, hall⟩
    exact ⟨w, hw, fun i hi => selDesig_name.2 ⟨v', hv', hall i hi⟩⟩

theorem forall₂_left {β γ : Type _} {P : β → γ → Prop} {l : List β} {l' : List γ} (h : List.Forall₂ P l l') :
    (∀ a ∈ l, ∃ b ∈ l', P a b) ∧ ∀ b ∈ l', ∃ a ∈ l, P a b := by
  induction h with
  | nil => simp
  | cons hab _ ih =>
    refine ⟨?_, ?_⟩
    · intro a ha
      rcases List.mem_cons.1 ha with rfl | ha
      · exact ⟨_, by simp, hab⟩
      · obtain ⟨b, hb, h⟩ := ih.1 a ha
        exact ⟨b, by simp [hb], h⟩
    · intro b hb
      rcases List.mem_cons.1 hb with rfl | hb
      · exact ⟨_, by simp, hab⟩
      · obtain ⟨a, ha, h⟩ := ih.2 b hb
        exact ⟨a, by simp [ha], h⟩

theorem pack_single_mem [One κ] {I : Inventory α κ} {ts : List String}
    {l : List (Inventory α κ)} (h : List.Forall₂ (fun t J => List.Forall₂ (fun T S => S.selectChannels (.many [.name t]) = .ok T) J
        (List.filter (fun S => S.tags.tags.has t) I)) ts l) (T : SigSet α κ) :
    T ∈ l.flatten ↔ ∃ t ∈ ts, ∃ S ∈ I, HasTag S t ∧ S.selectChannels (.many [.name t]) = .ok T := by
  rw [List.mem_flatten]
  constructor
  · rintro ⟨J, hJ, hT⟩
    obtain ⟨t, ht, hf⟩ := (forall₂_left h).2 J hJ
    obtain ⟨S, hS, hs⟩ := (forall₂_left hf).1 T hT
    rw [List.mem_filter] at hS
    exact ⟨t, ht, S, hS.1, Inventory.hasTag_iff.1 hS.2, hs⟩
  · rintro ⟨t, ht, S, hS, hSt, hs⟩
    obtain ⟨J, hJ, hf⟩ := (forall₂_left h).1 t ht
    obtain ⟨T', hT', hs'⟩ := (forall₂_left hf).2 S (List.mem_filter.2 ⟨hS, Inventory.hasTag_iff.2 hSt⟩)
    rw [hs] at hs'; simp only [Except.ok.injEq] at hs'; subst hs'
    exact ⟨J, hJ, hT'⟩

/-- **C79.** `pack(keep_multi_tags=False)` returns an empty set, or a set whose tags are exactly those that designate, in
some set of the inventory, only channels of a tag which somewhere designates a single channel. -/
theorem C79_pack_single [One κ] (o : SetOrder) (ho : SetOrder.OK o) (I : Inventory α κ) (hI : ∀ S ∈ I, Regular S)
    (R : SigSet α κ) (h : I.pack o false = .ok R) :
    (R.runs = [] ∧ ∀ k, ¬ HasTag R k) ∨
    (R.runs ≠ [] ∧ ∀ k, HasTag R k ↔ ∃ S ∈ I, ∃ t, SingleTag I t ∧ Covered S t k) := by
  obtain ⟨ts, l, h1, _, h3, h4⟩ := pack_single_inv ho hI h
  have hmem := pack_single_mem h3
  have hR : ∀ T ∈ l.flatten, Regular T := by
    intro T hT
    obtain ⟨t, _, S, hS, _, hs⟩ := (hmem T).1 hT
    exact (regular_selectChannels (hI S hS) hs).1
  rcases C33_pack_all_or_nothing o l.flatten hR R h4 with h5 | ⟨h5, h6, _⟩
  · exact .inl h5
  · refine .inr ⟨h5, fun k => ?_⟩
    rw [h6 k]
    constructor
    · rintro ⟨T, hT, hk⟩
      obtain ⟨t, ht, S, hS, hSt, hs⟩ := (hmem T).1 hT
      exact ⟨S, hS, t, (h1 t).1 ht, ((select_one_tags (hI S hS) hSt hs).1 k).1 hk⟩
    · rintro ⟨S, hS, t, ht, hc⟩
      have hSt : HasTag S t := ⟨_, hc.choose_spec.choose_spec.1⟩
      obtain ⟨J, _, hf⟩ := (forall₂_left h3).1 t ((h1 t).2 ht)
      obtain ⟨T, _, hs⟩ := (forall₂_left hf).2 S (List.mem_filter.2 ⟨hS, Inventory.hasTag_iff.2 hSt⟩)
      exact ⟨T, (hmem T).2 ⟨t, (h1 t).2 ht, S, hS, hSt, hs⟩, ((select_one_tags (hI S hS) hSt hs).1 k).2 hc⟩

/-- **C79.** If every tag designates as many channels in all the sets that have it, exactly the tags whose channels are all the
same single-tagged channel are kept. -/
theorem C79_pack_uniform [One κ] (o : SetOrder) (ho : SetOrder.OK o) (I : Inventory α κ) (hI : ∀ S ∈ I, Regular S)
    (hu : ∀ S ∈ I, ∀ S' ∈ I, ∀ k v v', S.tags.getItem k = .ok v → S'.tags.getItem k = .ok v' → v.length = v'.length)
    (R : SigSet α κ) (h : I.pack o false = .ok R) (hne : R.runs ≠ []) (k : String) :
    HasTag R k ↔ ∃ S ∈ I, ∃ t i, S.tags.getItem t = .ok [i] ∧ ∃ w, S.tags.getItem k = .ok w ∧ ∀ x ∈ w, x = i := by
  rcases C79_pack_single o ho I hI R h with ⟨h1, _⟩ | ⟨_, h1⟩
  · exact absurd h1 hne
  rw [h1 k]
  constructor
  · rintro ⟨S, hS, t, ⟨S', hS', i', hi'⟩, v, w, hv, hw, hall⟩
    have hl := hu S hS S' hS' t v [i'] hv hi'
    obtain ⟨i, rfl⟩ := List.length_eq_one_iff.1 hl
    exact ⟨S, hS, t, i, hv, w, hw, fun x hx => by simpa using hall x hx⟩
  · rintro ⟨S, hS, t, i, ht, w, hw, hall⟩
    exact ⟨S, hS, t, ⟨S, hS, i, ht⟩, [i], w, ht, hw, fun x hx => by simpa using hall x hx⟩

/-- **C79.** Each sample of the result comes, with its rate, from a channel of the inventory designated by the same tag. -/
theorem C79_samples [One κ] (o : SetOrder) (ho : SetOrder.OK o) (I : Inventory α κ) (hI : ∀ S ∈ I, Regular S)
    (R : SigSet α κ) (h : I.pack o false = .ok R) :
    ∀ r ∈ R.runs, ∀ k j c, designated R.tags r k j = some c → ∀ p ∈ c.1,
      ∃ S ∈ I, ∃ s ∈ S.runs, s.rate = r.rate ∧ ∃ c', designated S.tags s k j = some c' ∧ ∃ p' ∈ c'.1, p'.2 = p.2 := by
  obtain ⟨ts, l, h1, _, h3, h4⟩ := pack_single_inv ho hI h
  have hmem := pack_single_mem h3
  have hR : ∀ T ∈ l.flatten, Regular T := by
    intro T hT
    obtain ⟨t, _, S, hS, _, hs⟩ := (hmem T).1 hT
    exact (regular_selectChannels (hI S hS) hs).1
  intro r hr k j c hc p hp
  obtain ⟨T, hT, s, hs, e1, c', hc', p', hp', e2⟩ := C34_samples o l.flatten hR R h4 r hr k j c hc p hp
  obtain ⟨t, _, S, hS, _, hsel⟩ := (hmem T).1 hT
  obtain ⟨S', hS', u, hu, e3, c2, hc2, hsub, _⟩ := (regular_selectChannels (hI S hS) hsel).2.1.chan s hs k j c' hc'
  rw [List.mem_singleton] at hS'
  subst hS'
  exact ⟨S', hS, u, hu, e3.trans e1, c2, hc2, p', hsub.subset hp', e2⟩

/-- **C79.** Two names that each designate a single channel somewhere, one of them covering the other in a set with a run,
make `pack(keep_multi_tags=False)` raise: the channels are selected once per name and collide. -/
theorem C79_synonyms_raise [One κ] (o : SetOrder) (ho : SetOrder.OK o) (I : Inventory α κ) (hI : ∀ S ∈ I, Regular S)
    (S : SigSet α κ) (hS : S ∈ I) (hrun : S.runs ≠ []) (t t' : String) (hne : t ≠ t') (ht : SingleTag I t)
    (ht' : SingleTag I t') (hc : Covered S t t') : ∃ e, I.pack o false = .error e := by
  cases h : I.pack o false with
  | error e => exact ⟨e, rfl⟩
  | ok R =>
    exfalso
    obtain ⟨ts, l, h1, _, h3, h4⟩ := pack_single_inv ho hI h
    have hmem := pack_single_mem h3
    have hR : ∀ T ∈ l.flatten, Regular T := by
      intro T hT
      obtain ⟨t, _, S, hS, _, hs⟩ := (hmem T).1 hT
      exact (regular_selectChannels (hI S hS) hs).1
    obtain ⟨v, w, hv, hw, hall⟩ := hc
    have hSt : HasTag S t := ⟨v, hv⟩
    have hSt' : HasTag S t' := ⟨w, hw⟩
    -- the two selections, at different places
    have key : ∀ (ts : List String) (l : List (Inventory α κ)), List.Forall₂ (fun t J => List.Forall₂
        (fun T S => S.selectChannels (.many [.name t]) = .ok T) J (List.filter (fun S => S.tags.tags.has t) I)) ts l →
        t ∈ ts → t' ∈ ts → ∃ A A', ([A, A'].Sublist l.flatten ∨ [A', A].Sublist l.flatten) ∧
          S.selectChannels (.many [.name t]) = .ok A ∧ S.selectChannels (.many [.name t']) = .ok A' := by
      have sel : ∀ t J, HasTag S t → List.Forall₂ (fun T S => S.selectChannels (.many [.name t]) = .ok T) J
          (List.filter (fun S => S.tags.tags.has t) I) → ∃ A ∈ J, S.selectChannels (.many [.name t]) = .ok A := by
        intro t J hSt hf
        exact (forall₂_left hf).2 S (List.mem_filter.2 ⟨hS, Inventory.hasTag_iff.2 hSt⟩)
      intro ts l hf
      induction hf with
      | nil => simp
      | cons hab htl ih =>
        rename_i a J ts l
        intro m1 m2
        rcases List.mem_cons.1 m1 with rfl | m1'
        · rcases List.mem_cons.1 m2 with e | m2'
          · exact absurd e.symm hne
          · obtain ⟨A, hA, hA'⟩ := sel _ J hSt hab
            obtain ⟨J', hJ', hf'⟩ := (forall₂_left htl).1 _ m2'
            obtain ⟨B, hB, hB'⟩ := sel _ J' hSt' hf'
            refine ⟨A, B, .inl ?_, hA', hB'⟩
            rw [List.flatten_cons]
            exact (List.singleton_sublist.2 hA).append (List.singleton_sublist.2 (List.mem_flatten.2 ⟨J', hJ', hB⟩))
        · rcases List.mem_cons.1 m2 with rfl | m2'
          · obtain ⟨A, hA, hA'⟩ := sel _ J hSt' hab
            obtain ⟨J', hJ', hf'⟩ := (forall₂_left htl).1 _ m1'
            obtain ⟨B, hB, hB'⟩ := sel _ J' hSt hf'
            refine ⟨B, A, .inr ?_, hB', hA'⟩
            rw [List.flatten_cons]
            exact (List.singleton_sublist.2 hA).append (List.singleton_sublist.2 (List.mem_flatten.2 ⟨J', hJ', hB⟩))
          · obtain ⟨A, A', hs, h5, h6⟩ := ih m1' m2'
            refine ⟨A, A', ?_, h5, h6⟩
            rw [List.flatten_cons]
            rcases hs with hs | hs
            · exact .inl (hs.trans (List.sublist_append_right _ _))
            · exact .inr (hs.trans (List.sublist_append_right _ _))
    obtain ⟨A, A', hsub, hA, hA'⟩ := key ts l h3 ((h1 t).2 ht) ((h1 t').2 ht')
    obtain ⟨a1, a2⟩ := select_one_tags (hI S hS) hSt hA
    obtain ⟨b1, b2⟩ := select_one_tags (hI S hS) hSt' hA'
    have hAt : HasTag A t' := (a1 t').2 ⟨v, w, hv, hw, hall⟩
    have hAt' : HasTag A' t' := (b1 t').2 ⟨w, w, hw, hw, fun i hi => hi⟩
    obtain ⟨s, hs⟩ := List.exists_mem_of_ne_nil _ hrun
    obtain ⟨r, hr, e⟩ := (forall₂_left a2).2 s hs
    obtain ⟨r', hr', e'⟩ := (forall₂_left b2).2 s hs
    simp only [clock, Prod.mk.injEq] at e e'
    have hpos := (hI S hS).rate s hs
    have hsz := (hI S hS).size s hs
    have hlt : s.start < lastTime s := by
      unfold lastTime
      have h2 : (2 : ℚ) ≤ (s.size : ℚ) := by exact_mod_cast hsz
      have : 0 < ((s.size : ℚ) - 1) / s.rate := div_pos (by linarith) hpos
      linarith
    have hl : lastTime r = lastTime s := by unfold lastTime; rw [e.1, e.2.1, e.2.2]
    have hl' : lastTime r' = lastTime s := by unfold lastTime; rw [e'.1, e'.2.1, e'.2.2]
    have hbad : ∃ x, Inventory.pack o l.flatten = .error x := by
      rcases hsub with hsub | hsub
      · exact C79_overlap_raises o ho l.flatten hR A A' hsub t' hAt hAt' r r' hr hr' (by rw [e.1, e'.1])
          (by rw [hl', e.2.1]; exact hlt) (by rw [hl, e'.2.1]; exact hlt)
      · exact C79_overlap_raises o ho l.flatten hR A' A hsub t' hAt' hAt r' r hr' hr (by rw [e.1, e'.1])
          (by rw [hl, e'.2.1]; exact hlt) (by rw [hl', e.2.1]; exact hlt)
    obtain ⟨x, hx⟩ := hbad
    have : Inventory.pack o l.flatten = Inventory.packAll o l.flatten := rfl
    rw [this, h4] at hx
    simp at hx


section examples
/-- A station with two electric channels, one name for both, and the magnetic recording of `exInvB`. -/
def exInvM : SigSet Int ℚ := ⟨[⟨[[1, 2, 3], [7, 8, 9]], [1, 1], 1, 0, 3⟩], ⟨2, [("E", [0, 1]), ("Ex", [0]), ("Ey", [1])]⟩⟩
/-- The same channel under two names. -/
def exInvS : SigSet Int ℚ := ⟨[⟨[[1, 2, 3]], [1], 1, 0, 3⟩], ⟨1, [("E", [0]), ("Ex", [0])]⟩⟩
def exPackedM : SigSet Int ℚ :=
  ⟨[⟨[[4, 5], [2, 3], [8, 9]], [2, 1, 1], 1, 1, 2⟩], ⟨3, [("B", [0]), ("Ex", [1]), ("Ey", [2])]⟩⟩

theorem exInvM_regular : Regular exInvM := by
  refine ⟨Reach.new (.dict [("E", .lst [0, 1]), ("Ex", .int 0), ("Ey", .int 1)])
    [.sync ⟨[[1, 2, 3], [7, 8, 9]], [1, 1], 1, 0, 3⟩] ?_ (by simp) (by decide +kernel), ?_, ?_, ?_⟩
  · intro s hs; simp at hs; subst hs; exact ⟨by simp, by simp, by simp⟩
  · intro k hk; simp [reserved] at hk; rcases hk with rfl|rfl|rfl|rfl|rfl <;> decide
  · intro r hr; simp [exInvM] at hr; subst hr; norm_num
  · intro r hr; simp [exInvM] at hr; subst hr; norm_num
theorem exInvS_regular : Regular exInvS := by
  refine ⟨Reach.new (.dict [("E", .int 0), ("Ex", .int 0)])
    [.sync ⟨[[1, 2, 3]], [1], 1, 0, 3⟩] ?_ (by simp) (by decide +kernel), ?_, ?_, ?_⟩
  · intro s hs; simp at hs; subst hs; exact ⟨by simp, by simp, by simp⟩
  · intro k hk; simp [reserved] at hk; rcases hk with rfl|rfl|rfl|rfl|rfl <;> decide
  · intro r hr; simp [exInvS] at hr; subst hr; norm_num
  · intro r hr; simp [exInvS] at hr; subst hr; norm_num

theorem exInvMB_regular : ∀ S ∈ [exInvM, exInvB], Regular S := by
  intro S hS
  simp only [List.mem_cons, List.not_mem_nil, or_false] at hS
  rcases hS with rfl | rfl
  · exact exInvM_regular
  · exact exInv_regular _ (by simp [exInv])

theorem exMB_pack : Inventory.pack exOrd [exInvM, exInvB] false = .ok exPackedM := by decide +kernel

/-- The name common to the two electric channels is dropped, the names of single channels stay. -/
example := C79_pack_single exOrd exOrd_ok [exInvM, exInvB] exInvMB_regular exPackedM exMB_pack
example : HasTag exPackedM "Ex" ∧ ¬ HasTag exPackedM "E" := by
  refine ⟨⟨[1], by decide +kernel⟩, ?_⟩
  rintro ⟨v, hv⟩
  have : exPackedM.tags.getItem "E" = .error .key := by decide +kernel
  rw [this] at hv; simp at hv
example := C79_samples exOrd exOrd_ok [exInvM, exInvB] exInvMB_regular exPackedM exMB_pack
/-- Two names of one channel: refused. -/
example := C79_synonyms_raise exOrd exOrd_ok [exInvS] (by simpa using exInvS_regular) exInvS (by simp) (by simp [exInvS])
  "E" "Ex" (by decide) ⟨exInvS, by simp, 0, by decide +kernel⟩ ⟨exInvS, by simp, 0, by decide +kernel⟩
  ⟨[0], [0], by decide +kernel, by decide +kernel, by simp⟩
example : (Inventory.pack exOrd [exInvS]).toOption.isSome = true ∧
    (Inventory.pack exOrd [exInvS] false).toOption.isSome = false := by decide +kernel
/-- Two recordings of one name that overlap in time: refused. -/
example := C79_overlap_raises exOrd exOrd_ok [exInvE, exInvS]
  (by intro S hS
      simp only [List.mem_cons, List.not_mem_nil, or_false] at hS
      rcases hS with rfl | rfl
      · exact exInv_regular _ (by simp [exInv])
      · exact exInvS_regular) exInvE exInvS (.refl _) "E" ⟨[0], by decide +kernel⟩ ⟨[0], by decide +kernel⟩
  ⟨[[1, 2, 3]], [1], 1, 0, 3⟩ ⟨[[1, 2, 3]], [1], 1, 0, 3⟩ (by simp [exInvE]) (by simp [exInvS]) rfl
  (by norm_num [lastTime]) (by norm_num [lastTime])
end examples

end Razorback.Props
