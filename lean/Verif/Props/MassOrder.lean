/-
C111: processing an inventory in mass depends neither on the order of its signal sets nor on hash order.
-/
import Verif.Props.PackSucceeds

namespace Razorback.Props
open Razorback Razorback.SigSet Razorback.Spec
variable {α κ : Type _}

/-! Packing. -/

theorem regular_packAll [One κ] {o : SetOrder} {I : Inventory α κ} (hI : ∀ S ∈ I, Regular S) {R : SigSet α κ} (h : I.packAll o = .ok R) :
    Regular R := by
  have hr := (named_packAll hI h).2
  unfold Inventory.packAll at h
  split at h
  · simp at h
  rename_i sigs hsigs
  split at h
  · rw [Inventory.new_empty] at h
    simp only [Except.ok.injEq] at h
    subst h
    exact ⟨hr, fun k _ => rfl, by simp, by simp⟩
  rename_i S l hf
  split at h
  · simp at h
  rename_i M hM
  have hreg : ∀ T ∈ S :: l, Regular T := by
    intro T hT
    rw [← hf] at hT
    obtain ⟨f, _, e⟩ := mapE_ok_exists hsigs T (List.mem_filter.1 hT).1
    exact (Inventory.regular_rateSet hI e).1
  have hMr := (regular_joinAll hreg hM).1
  have hst := Inventory.regular_starts hMr
  obtain ⟨-, t1, -⟩ := C26_samples M R hMr.reach hMr.plain hst h
  obtain ⟨gs, hC, hF⟩ := C27_chains M R hMr.reach hMr.plain hst h
  have key : ∀ r ∈ R.runs, ∃ g a, a ∈ M.runs ∧ Fused r (a :: g) := by
    intro r hr
    obtain ⟨g, hg, hfu⟩ := (forall₂_mems hF).1 r hr
    cases g with
    | nil => exact absurd hg hC.nonempty
    | cons a g => exact ⟨g, a, by rw [← hC.all]; exact List.mem_flatten.2 ⟨_, hg, by simp⟩, hfu⟩
  refine ⟨hr, fun k hk => by rw [t1 k]; exact hMr.plain k hk, ?_, ?_⟩
  · intro r hr
    obtain ⟨g, a, ha, hfu⟩ := key r hr
    rw [hfu.rate a (by simp)]
    exact hMr.rate a ha
  · intro r hr
    obtain ⟨g, a, ha, hfu⟩ := key r hr
    rw [hfu.size, List.map_cons, List.sum_cons]
    have := hMr.size a ha
    omega

/-! Groups. -/

theorem filter_like [One κ] {o o' : SetOrder} (ho : SetOrder.OK o) (ho' : SetOrder.OK o') {I I' J : Inventory α κ} (hp : Like I I')
    (hI : ∀ S ∈ I, Regular S) (hI' : ∀ S ∈ I', Regular S) {pats : List String} (h : I.filter o pats = .ok J) :
    ∃ J', I'.filter o' pats = .ok J' ∧ Like J J' := by
  unfold Inventory.filter at h ⊢
  rw [Inventory.selectChannels_members (keys' := Inventory.setOf o' (pats.flatMap (fun p => Fnmatch.filter (Inventory.setOf o' I'.names) p)))] at h
  · exact select_like hp hI hI' h
  · intro k
    rw [Inventory.mem_setOf ho, Inventory.mem_setOf ho']
    simp only [List.mem_flatMap, Fnmatch.filter, List.mem_filter, Inventory.mem_setOf ho, Inventory.mem_setOf ho', hp.names]

theorem regular_filter [One κ] {o : SetOrder} {I J : Inventory α κ} (hI : ∀ S ∈ I, Regular S) {pats : List String}
    (h : I.filter o pats = .ok J) : ∀ S ∈ J, Regular S := fun S hS => (Inventory.regular_select hI h S hS).1

/-- The channels of several names, one name after the other. -/
theorem corr_flatten {t t' : Tags} (h : Renumbers t t') : ∀ {ks : List String} {vs : List (List ℕ)}, mapE t.getItem ks = .ok vs →
    ∃ ws, mapE t'.getItem ks = .ok ws ∧ List.Forall₂ (Corr t t') vs.flatten ws.flatten := by
  intro ks vs hv
  obtain ⟨ws, h1, h2⟩ := mapE_alike (g := t'.getItem) (P := fun v w => List.Forall₂ (Corr t t') v w) (fun k _ v hv => by
    obtain ⟨w, hw⟩ := (h.1 k).1 ⟨v, hv⟩
    exact ⟨w, hw, corr_of h hv hw⟩) hv
  refine ⟨ws, h1, ?_⟩
  clear hv h1
  induction h2 with
  | nil => exact .nil
  | cons h _ ih =>
    rw [List.flatten_cons, List.flatten_cons]
    exact List.rel_append h ih

theorem getItem_set {t : Tags} {n : ℕ} {k0 : String} {l : List ℕ} (k : String) :
    (⟨n, t.tags.set k0 l⟩ : Tags).getItem k = if k = k0 then .ok l else t.getItem k := by
  unfold Tags.getItem
  simp only [Dict.get?_set]
  by_cases hk : k = k0
  · simp [hk]
  · simp [hk, Ne.symm hk]

/-- Giving a name to corresponding channels. -/
theorem renumbers_set {t t' : Tags} (h : Renumbers t t') {n n' : ℕ} {k0 : String} {l l' : List ℕ} (hl : List.Forall₂ (Corr t t') l l') :
    Renumbers ⟨n, t.tags.set k0 l⟩ ⟨n', t'.tags.set k0 l'⟩ := by
  rw [renumbers_iff] at h ⊢
  obtain ⟨h1, h2, h3⟩ := h
  refine ⟨?_, ?_, ?_⟩
  · intro k
    rw [getItem_set, getItem_set]
    by_cases hk : k = k0
    · simp [hk]
    · simp only [if_neg hk]; exact h1 k
  · intro k v w
    rw [getItem_set, getItem_set]
    by_cases hk : k = k0
    · simp only [if_pos hk, Except.ok.injEq]
      rintro rfl rfl
      exact hl.length_eq
    · simp only [if_neg hk]; exact h2 k v w
  · have key : ∀ c c', Corr ⟨n, t.tags.set k0 l⟩ ⟨n', t'.tags.set k0 l'⟩ c c' → Corr t t' c c' := by
      rintro c c' ⟨k, v, w, j, hv, hw, hj, hj'⟩
      rw [getItem_set] at hv hw
      by_cases hk : k = k0
      · simp only [if_pos hk, Except.ok.injEq] at hv hw
        subst hv hw
        obtain ⟨i1, e1⟩ := List.getElem?_eq_some_iff.1 hj
        obtain ⟨i2, e2⟩ := List.getElem?_eq_some_iff.1 hj'
        have := hl.get i1 i2
        simp only [List.get_eq_getElem] at this
        rwa [e1, e2] at this
      · rw [if_neg hk] at hv hw
        exact ⟨k, v, w, j, hv, hw, hj, hj'⟩
    intro c c' d' a b
    exact h3 c c' d' (key _ _ a) (key _ _ b)

theorem Corr.channel {S S' : SigSet α κ} {r r' : Sync α κ} (hr : SameRun S.tags r S'.tags r') {c c' : ℕ}
    (h : Corr S.tags S'.tags c c') : (channels r)[c]? = (channels r')[c']? := by
  obtain ⟨k, v, w, j, hv, hw, hj, hj'⟩ := h
  have := hr.chans k j
  unfold designated at this
  rw [hv, hw] at this
  simpa [hj, hj'] using this

theorem groupOf_alike [One κ] {o o' : SetOrder} (ho : SetOrder.OK o) (ho' : SetOrder.OK o') {I I' : Inventory α κ} (hp : Like I I')
    (hI : ∀ S ∈ I, Regular S) (hI' : ∀ S ∈ I', Regular S) {g : String × List String} {S : SigSet α κ} (h : I.groupOf o g = .ok S) :
    ∃ S', I'.groupOf o' g = .ok S' ∧ AlikeSet S S' := by
  unfold Inventory.groupOf at h ⊢
  split at h
  · simp at h
  rename_i J hJ
  obtain ⟨J', hJ', hlJ⟩ := filter_like ho ho' hp hI hI' hJ
  rw [hJ']
  dsimp only
  split at h
  · simp at h
  rename_i P hP
  have rJ := regular_filter hI hJ
  have rJ' := regular_filter hI' hJ'
  simp only [Inventory.pack, if_true] at hP ⊢
  obtain ⟨P', hP', ha⟩ := packAll_alike ho ho' hlJ rJ rJ' hP
  rw [hP']
  dsimp only
  split at h
  · simp at h
  rename_i vs hvs
  obtain ⟨ws, hws, hc⟩ := corr_flatten ha.2.1 hvs
  rw [hws]
  dsimp only
  split at h
  · simp at h
  rename_i t ht
  simp only [Except.ok.injEq] at h
  subst h
  obtain ⟨h1, h2, h3, rfl⟩ := Tags.setItem_ok.1 ht
  have e : ∀ l : List ℕ, (tupleit (Tags.toVal l)).map Int.toNat = l := by
    intro l; simp [Tags.toVal, tupleit, Function.comp_def]
  have rP' := regular_packAll rJ' hP'
  have hI2 := (reach_sinv rP'.reach).inv
  have hset : P'.tags.setItem g.1 (Tags.toVal ws.flatten) = .ok { P'.tags with tags := P'.tags.tags.set g.1 ws.flatten } := by
    refine Tags.setItem_ok.2 ⟨h1, ?_, ?_, by rw [e]⟩
    · intro e0
      have l0 : ws.flatten = [] := by rw [← e ws.flatten, e0]; rfl
      have l1 : vs.flatten = [] := List.eq_nil_of_length_eq_zero (by rw [hc.length_eq, l0]; rfl)
      rw [l1] at h2
      exact h2 rfl
    · intro i hi
      have hi2 : ∃ n ∈ ws.flatten, i = (n : ℤ) := by
        simp only [Tags.toVal, tupleit] at hi
        obtain ⟨n, hn, rfl⟩ := List.mem_map.1 hi
        exact ⟨n, hn, rfl⟩
      obtain ⟨n, hn, rfl⟩ := hi2
      obtain ⟨c, _, ⟨k, v, w, j, _, hw, _, hj⟩⟩ := (forall₂_mems hc).2 n hn
      have := (hI2.legal k w (Tags.getItem_ok.1 hw)).2.2 n (List.mem_of_getElem? hj)
      exact ⟨by omega, by rw [plain_indices rP'.plain]; simpa using this⟩
  rw [hset]
  rw [e]
  have q1 : Renumbers { P.tags with tags := P.tags.tags.set g.1 vs.flatten } { P'.tags with tags := P'.tags.tags.set g.1 ws.flatten } :=
    renumbers_set ha.2.1 hc
  have q2 : Renumbers { P'.tags with tags := P'.tags.tags.set g.1 ws.flatten } { P.tags with tags := P.tags.tags.set g.1 vs.flatten } :=
    renumbers_set ha.2.2 (hc.flip.imp (fun _ _ h => Corr.symm h))
  refine ⟨_, rfl, ⟨fun k n => names_of_renumbers (.inr q1) k n, ?_⟩, q1, q2⟩
  refine ha.1.runs.imp ?_
  intro r r' hr
  refine ⟨hr.rate, hr.start, hr.size, fun k j => ?_⟩
  have hrk := hr.chans k j
  unfold designated at hrk ⊢
  rw [getItem_set, getItem_set]
  by_cases hk : k = g.1
  · simp only [if_pos hk]
    by_cases hj : j < vs.flatten.length
    · have hj' : j < ws.flatten.length := by rw [← hc.length_eq]; exact hj
      rw [List.getElem?_eq_getElem hj, List.getElem?_eq_getElem hj']
      simp only [Option.bind_some]
      have := hc.get hj hj'
      simp only [List.get_eq_getElem] at this
      exact this.channel hr
    · have hj' : ¬ j < ws.flatten.length := by rw [← hc.length_eq]; exact hj
      rw [List.getElem?_eq_none (by omega), List.getElem?_eq_none (by omega)]
      rfl
  · simp only [if_neg hk]
    exact hrk

theorem regular_groupOf [One κ] {o : SetOrder} {I : Inventory α κ} (hI : ∀ S ∈ I, Regular S) {g : String × List String}
    (hg : g.1 ∉ reserved) {S : SigSet α κ} (h : I.groupOf o g = .ok S) : Regular S := by
  unfold Inventory.groupOf at h
  split at h
  · simp at h
  rename_i J hJ
  split at h
  · simp at h
  rename_i P hP
  split at h
  · simp at h
  rename_i vs hvs
  split at h
  · simp at h
  rename_i t ht
  simp only [Except.ok.injEq] at h
  subst h
  have hR := regular_packAll (regular_filter hI hJ) (by simpa [Inventory.pack] using hP)
  have hrun : P.tags.run [.setItem g.1 (Tags.toVal vs.flatten)] = t := by
    simp only [Tags.run, List.foldl_cons, List.foldl_nil, Tags.step, ht, Tags.keep]
  refine ⟨?_, ?_, hR.rate, hR.size⟩
  · have := Reach.editTags [.setItem g.1 (Tags.toVal vs.flatten)] hR.reach
    rwa [hrun] at this
  · intro k hk
    obtain ⟨-, -, -, rfl⟩ := Tags.setItem_ok.1 ht
    have hne : k ≠ g.1 := by rintro rfl; exact hg hk
    show (Tags.mk _ (P.tags.tags.set g.1 _)).getItem k = _
    rw [getItem_set, if_neg hne]
    exact hR.plain k hk

theorem extractGroups_alike [One κ] {o o' : SetOrder} (ho : SetOrder.OK o) (ho' : SetOrder.OK o') {I I' : Inventory α κ} (hp : Like I I')
    (hI : ∀ S ∈ I, Regular S) (hI' : ∀ S ∈ I', Regular S) {gs : List (String × List String)} {R : Inventory α κ}
    (h : I.extractGroups o gs = .ok R) : ∃ R', I'.extractGroups o' gs = .ok R' ∧ List.Forall₂ AlikeSet R R' := by
  unfold Inventory.extractGroups at h ⊢
  split at h
  · simp at h
  rename_i l hl
  obtain ⟨l', hl', hs⟩ := mapE_alike (g := Inventory.groupOf o' I') (P := AlikeSet) (fun g _ S hS => groupOf_alike ho ho' hp hI hI' hS) hl
  rw [hl']
  rw [Inventory.new_set] at h
  simp only [Except.ok.injEq] at h
  subst h
  exact ⟨l', Inventory.new_set _, hs⟩

/-- **C111.** `extract_groups` on the same signal sets in any order, with any hash orders: it succeeds for both or for none, and
then gives one set per group, with the same names designating the same timed samples with the same calibrations. -/
theorem C111_extract_groups [One κ] (o o' : SetOrder) (ho : SetOrder.OK o) (ho' : SetOrder.OK o') (I I' : Inventory α κ) (hp : I.Perm I')
    (hI : ∀ S ∈ I, Regular S) (gs : List (String × List String)) :
    ((∃ R, I.extractGroups o gs = .ok R) ↔ ∃ R', I'.extractGroups o' gs = .ok R') ∧
    ∀ R R', I.extractGroups o gs = .ok R → I'.extractGroups o' gs = .ok R' → List.Forall₂ SameSet R R' := by
  have hI' : ∀ S ∈ I', Regular S := fun S hS => hI S (hp.mem_iff.2 hS)
  refine ⟨⟨?_, ?_⟩, ?_⟩
  · rintro ⟨R, h⟩
    obtain ⟨R', h', -⟩ := extractGroups_alike ho ho' (.of_perm hp) hI hI' h
    exact ⟨R', h'⟩
  · rintro ⟨R, h⟩
    obtain ⟨R', h', -⟩ := extractGroups_alike ho' ho (.of_perm hp.symm) hI' hI h
    exact ⟨R', h'⟩
  · intro R R' h h'
    obtain ⟨R2, h2, hs⟩ := extractGroups_alike ho ho' (.of_perm hp) hI hI' h
    rw [h'] at h2
    simp only [Except.ok.injEq] at h2
    subst h2
    exact hs.imp (fun _ _ h => h.1)

/-! Processing. -/

/-- Extractions from sets that are alike are alike. -/
theorem extractT_alike [One κ] {S S' : SigSet α κ} (hS : Regular S) (hS' : Regular S') (ha : AlikeSet S S') (a b : ℚ) :
    ∃ E E', S.extractT a b = .ok E ∧ S'.extractT a b = .ok E' ∧ SameSet E E' ∧ Reach E ∧ Reach E' ∧
      (E.runs ≠ [] → S.runs ≠ [] ∧ E.tags = S.tags) ∧ (E'.runs ≠ [] → S'.runs ≠ [] ∧ E'.tags = S'.tags) ∧
      (∀ r ∈ E.runs, ∃ s ∈ S.runs, r.data.length = s.data.length) ∧ ∀ r ∈ E'.runs, ∃ s ∈ S'.runs, r.data.length = s.data.length := by
  have hI := reach_sinv hS.reach
  have hI' := reach_sinv hS'.reach
  obtain ⟨m, e1, -⟩ := extractIn_ok hI hS.plain hS.rate a b
  obtain ⟨m', e1', -⟩ := extractIn_ok hI' hS'.plain hS'.rate a b
  have x1 : S.extractT a b = .ok ⟨winRuns a b S.runs, ⟨m, S.tags.tags⟩⟩ := e1
  have x1' : S'.extractT a b = .ok ⟨winRuns a b S'.runs, ⟨m', S'.tags.tags⟩⟩ := e1'
  obtain ⟨r1, r2, r3, -, -, r6⟩ := extract_facts hS.reach hS.plain hS.rate x1
  obtain ⟨r1', r2', r3', -, -, r6'⟩ := extract_facts hS'.reach hS'.plain hS'.rate x1'
  have ne : ∀ {T : SigSet α κ}, winRuns a b T.runs ≠ [] → T.runs ≠ [] := by
    intro T h e
    rw [e] at h
    exact h rfl
  have len : ∀ {T : SigSet α κ}, Regular T → ∀ r ∈ winRuns a b T.runs, ∃ s ∈ T.runs, r.data.length = s.data.length := by
    intro T hT r hr
    obtain ⟨s, hs, _, rfl⟩ := mem_winRuns.1 hr
    exact ⟨s, hs, by simp [Sync.win, Sync.cut]⟩
  refine ⟨_, _, x1, x1', ⟨fun k n => ?_, ?_⟩, r1, r1', fun h => ⟨ne h, r6 h⟩, fun h => ⟨ne h, r6' h⟩, len hS, len hS'⟩
  · rw [r3 k, r3' k]
    exact ha.1.names k n
  · show List.Forall₂ _ (winRuns a b S.runs) (winRuns a b S'.runs)
    unfold winRuns
    have h2 : List.Forall₂ (SameRun S.tags · S'.tags ·) (S.runs.map (fun s => s.win a b)) (S'.runs.map (fun s => s.win a b)) := by
      rw [List.forall₂_map_left_iff, List.forall₂_map_right_iff]
      exact forall₂_and ha.1.runs (fun r r' hr hr' h => SameRun.win (hI.ok.wf r hr) (hI'.ok.wf r' hr') (hS.rate r hr) h a b)
    exact (filter_forall₂ h2 (fun r r' h => by rw [h.size])).imp (fun r r' h => ⟨h.rate, h.start, h.size, h.chans⟩)

/-- A named set: what impedance needs of two of them. -/
theorem impedance_alike {σ : Type _} [One κ] (cal : κ → ℚ → Option ℂ) {S S' : SigSet ℂ κ} (hS : Regular S) (hS' : Regular S') (n : Named S)
    (n' : Named S') (ha : AlikeSet S S') (a b : ℚ) (opts : Impedance.Opts σ) (freqs : List ℚ) (heap : ℕ → σ) :
    ∃ E E', S.extractT a b = .ok E ∧ S'.extractT a b = .ok E' ∧
      Impedance.impedance cal E opts freqs heap = Impedance.impedance cal E' opts freqs heap := by
  obtain ⟨E, E', h1, h2, hs, r1, r2, t1, t2, l1, l2⟩ := extractT_alike hS hS' ha a b
  refine ⟨E, E', h1, h2, ?_⟩
  refine C103_impedance cal E E' r1 r2 opts (SameSet.sameFor hs _) freqs (fun f _ => ?_) heap
  by_cases he : E.runs = []
  · have he' : E'.runs = [] := List.eq_nil_of_length_eq_zero (by rw [← hs.runs.length_eq, he]; rfl)
    unfold SameKnown
    rw [he, he']
    exact .nil
  · have he' : E'.runs ≠ [] := fun e => he (List.eq_nil_of_length_eq_zero (by rw [hs.runs.length_eq, e]; rfl))
    have all : ∀ {S E : SigSet ℂ κ}, Named S → Reach E → E.tags = S.tags → (∀ r ∈ E.runs, ∃ s ∈ S.runs, r.data.length = s.data.length) →
        E.runs ≠ [] → AllTagged E.tags E.nbChannels := by
      intro S E n rE t l he
      obtain ⟨r, hr⟩ := List.exists_mem_of_ne_nil _ he
      obtain ⟨s, hs, hl⟩ := l r hr
      rw [nbChannels_eq (reach_sinv rE) hr, t, hl]
      exact n s hs
    exact sameKnown_of_tagged cal f r1 r2 hs (all n r1 (t1 he).2 l1 he) (all n' r2 (t2 he').2 l2 he')

theorem massData_alike {σ : Type _} [One κ] {o o' : SetOrder} (ho : SetOrder.OK o) (ho' : SetOrder.OK o') {I I' : Inventory ℂ κ} (hp : Like I I')
    (hI : ∀ S ∈ I, Regular S) (hI' : ∀ S ∈ I', Regular S) {remotes : List String} {opts : Impedance.Opts σ} {D : SigSet ℂ κ × Impedance.Opts σ}
    (h : Impedance.massData o I remotes opts = .ok D) : ∃ D', Impedance.massData o' I' remotes opts = .ok D' ∧ AlikeSet D.1 D'.1 ∧
      D'.2 = D.2 ∧ (Regular D.1 ∧ Named D.1) ∧ Regular D'.1 ∧ Named D'.1 := by
  unfold Impedance.massData at h ⊢
  split at h
  · simp at h
  rename_i J hJ
  obtain ⟨J', hJ', hl⟩ := filter_like ho ho' hp hI hI' hJ
  rw [hJ']
  have rJ := regular_filter hI hJ
  have rJ' := regular_filter hI' hJ'
  dsimp only
  split at h
  · rename_i he
    rw [if_pos he]
    split at h
    · simp at h
    rename_i P hP
    simp only [Inventory.pack, if_true] at hP ⊢
    obtain ⟨P', hP', ha⟩ := packAll_alike ho ho' hl rJ rJ' hP
    rw [hP']
    simp only [Except.ok.injEq] at h
    subst h
    exact ⟨_, rfl, ha, rfl, ⟨regular_packAll rJ hP, (named_packAll rJ hP).1⟩, regular_packAll rJ' hP', (named_packAll rJ' hP').1⟩
  · rename_i he
    rw [if_neg he]
    split at h
    · simp at h
    rename_i g hg
    obtain ⟨g', hg', hs⟩ := extractGroups_alike ho ho' hp hI hI' hg
    rw [hg']
    dsimp only
    have reg : ∀ {o : SetOrder} {I g : Inventory ℂ κ}, (∀ S ∈ I, Regular S) → I.extractGroups o [("Bremote", remotes)] = .ok g → ∀ S ∈ g, Regular S := by
      intro o I g hI h S hS
      unfold Inventory.extractGroups at h
      split at h
      · simp at h
      rename_i l hl
      rw [Inventory.new_set] at h
      simp only [Except.ok.injEq] at h
      subst h
      obtain ⟨x, hx, e⟩ := mapE_ok_exists hl S hS
      rw [List.mem_singleton] at hx
      subst hx
      exact regular_groupOf hI (by simp [reserved]) e
    have ra : ∀ S ∈ J ++ g, Regular S := by
      intro S hS
      rcases List.mem_append.1 hS with h | h
      · exact rJ S h
      · exact reg hI hg S h
    have ra' : ∀ S ∈ J' ++ g', Regular S := by
      intro S hS
      rcases List.mem_append.1 hS with h | h
      · exact rJ' S h
      · exact reg hI' hg' S h
    split at h
    · simp at h
    rename_i P hP
    simp only [Inventory.pack, if_true] at hP ⊢
    obtain ⟨P', hP', ha⟩ := packAll_alike ho ho' (hl.append ⟨g, .refl _, hs⟩) ra ra' hP
    rw [hP']
    simp only [Except.ok.injEq] at h
    subst h
    exact ⟨_, rfl, ha, rfl, ⟨regular_packAll ra hP, (named_packAll ra hP).1⟩, regular_packAll ra' hP', (named_packAll ra' hP').1⟩

theorem massIntervals_alike {σ : Type _} [One κ] (cal : κ → ℚ → Option ℂ) {S S' : SigSet ℂ κ} (hS : Regular S) (hS' : Regular S') (n : Named S)
    (n' : Named S') (ha : AlikeSet S S') (opts : Impedance.Opts σ) (freqs : List ℚ) (ivs : List (ℚ × ℚ)) (heap : ℕ → σ) :
    Impedance.massIntervals cal freqs S opts ivs heap = Impedance.massIntervals cal freqs S' opts ivs heap := by
  induction ivs generalizing heap with
  | nil => rfl
  | cons iv ivs ih =>
    obtain ⟨a, b⟩ := iv
    obtain ⟨E, E', h1, h2, h3⟩ := impedance_alike cal hS hS' n n' ha a b opts freqs heap
    simp only [Impedance.massIntervals, h1, h2, h3, ih]

theorem massLoop_alike {σ : Type _} [One κ] (cal : κ → ℚ → Option ℂ) {o o' : SetOrder} (ho : SetOrder.OK o) (ho' : SetOrder.OK o')
    {I I' : Inventory ℂ κ} (hp : Like I I') (hI : ∀ S ∈ I, Regular S) (hI' : ∀ S ∈ I', Regular S) {names : List String} {freqs : List ℚ}
    {ivs : List (ℚ × ℚ)} {opts : Impedance.Opts σ} {cs : List (List (Option ℕ))} {heap heap' : ℕ → σ} {r : List (List (List Impedance.Result))}
    (h : Impedance.massLoop cal o I names freqs ivs opts cs heap = (.ok r, heap')) :
    Impedance.massLoop cal o' I' names freqs ivs opts cs heap = (.ok r, heap') := by
  induction cs generalizing heap heap' r with
  | nil => exact h
  | cons c cs ih =>
    unfold Impedance.massLoop at h ⊢
    split at h
    · simp at h
    rename_i D o2 hD
    obtain ⟨⟨D', o2'⟩, hD', ha, ho2, ⟨r1, n1⟩, r2, n2⟩ := massData_alike ho ho' hp hI hI' hD
    simp only at ho2
    subst ho2
    rw [hD']
    dsimp only
    rw [← massIntervals_alike cal r1 r2 n1 n2 ha]
    split at h
    · simp at h
    rename_i r0 heap1 h0
    rw [h0]
    dsimp only
    split at h
    · simp at h
    rename_i rs heap2 h2
    rw [ih h2]
    exact h

/-- **C111.** `impedance_mass_proc` gives the same results, and leaves the shared objects in the same state, whatever the order of
the signal sets in the inventory and the order in which Python enumerates sets of names and of rates; in particular it succeeds for
all orders or for none. -/
theorem C111_mass_proc {σ : Type _} [One κ] (cal : κ → ℚ → Option ℂ) (o o' : SetOrder) (ho : SetOrder.OK o) (ho' : SetOrder.OK o')
    (I I' : Inventory ℂ κ) (hp : I.Perm I') (hI : ∀ S ∈ I, Regular S) (names : List String) (freqs : List ℚ) (ivs : List (ℚ × ℚ))
    (opts : Impedance.Opts σ) (combine : Bool) (heap heap' : ℕ → σ) (r : List (List (Option ℕ)) × List (List (List Impedance.Result))) :
    Impedance.massProc cal o I names freqs ivs opts combine heap = (.ok r, heap') ↔
    Impedance.massProc cal o' I' names freqs ivs opts combine heap = (.ok r, heap') := by
  have key : ∀ {o o' : SetOrder}, SetOrder.OK o → SetOrder.OK o' → ∀ {I I' : Inventory ℂ κ}, Like I I' → (∀ S ∈ I, Regular S) →
      (∀ S ∈ I', Regular S) → Impedance.massProc cal o I names freqs ivs opts combine heap = (.ok r, heap') →
      Impedance.massProc cal o' I' names freqs ivs opts combine heap = (.ok r, heap') := by
    intro o o' ho ho' I I' hp hI hI' h
    unfold Impedance.massProc at h ⊢
    split at h
    · simp at h
    rename_i rs heap1 h1
    rw [massLoop_alike cal ho ho' hp hI hI' h1]
    exact h
  have hI' : ∀ S ∈ I', Regular S := fun S hS => hI S (hp.mem_iff.2 hS)
  exact ⟨key ho ho' (.of_perm hp) hI hI', key ho' ho (.of_perm hp.symm) hI' hI⟩

section examples

example : ∃ R, Inventory.extractGroups exOrd' [exInvF, exInvB, exInvE] [("all", ["E", "B"])] = .ok R :=
  (C111_extract_groups exOrd exOrd' exOrd_ok exOrd'_ok exInv _ exInv_perm exInv_regular [("all", ["E", "B"])]).1.1 ⟨_, exInv_groups⟩

/-- A site and a remote. -/
noncomputable def exSite : SigSet ℂ Unit := ⟨[⟨[[1, 2, 3, 4], [5, 6, 7, 8]], [(), ()], 1, 0, 4⟩], ⟨2, [("E", [0]), ("B", [1])]⟩⟩
noncomputable def exAway : SigSet ℂ Unit := ⟨[⟨[[9, 10, 11, 12]], [()], 1, 0, 4⟩], ⟨1, [("R", [0])]⟩⟩

theorem exSite_regular : ∀ S ∈ [exSite, exAway], Regular S := by
  intro S hS
  simp only [List.mem_cons, List.not_mem_nil, or_false] at hS
  rcases hS with rfl | rfl
  · refine ⟨Reach.new (.dict [("E", .int 0), ("B", .int 1)]) [.sync ⟨[[1, 2, 3, 4], [5, 6, 7, 8]], [(), ()], 1, 0, 4⟩] ?_ (by simp)
      (by with_unfolding_all rfl), ?_, ?_, ?_⟩
    · intro s hs; simp at hs; subst hs; exact ⟨by simp, by simp, by simp⟩
    · intro k hk; simp [reserved] at hk; rcases hk with rfl|rfl|rfl|rfl|rfl <;> rfl
    · intro r hr; simp [exSite] at hr; subst hr; norm_num
    · intro r hr; simp [exSite] at hr; subst hr; norm_num
  · refine ⟨Reach.new (.dict [("R", .int 0)]) [.sync ⟨[[9, 10, 11, 12]], [()], 1, 0, 4⟩] ?_ (by simp)
      (by with_unfolding_all rfl), ?_, ?_, ?_⟩
    · intro s hs; simp at hs; subst hs; exact ⟨by simp, by simp, by simp⟩
    · intro k hk; simp [reserved] at hk; rcases hk with rfl|rfl|rfl|rfl|rfl <;> rfl
    · intro r hr; simp [exAway] at hr; subst hr; norm_num
    · intro r hr; simp [exAway] at hr; subst hr; norm_num

/-- Both combinations can be processed. -/
theorem exSite_mass : ∃ r heap, Impedance.massProc (fun _ _ => some 1) exOrd [exSite, exAway] ["R"] [] [(0, 2), (1, 3)] exOpts true (fun _ => ()) =
    (.ok r, heap) := by
  have hn : Inventory.setOf exOrd (Inventory.names [exSite, exAway]) = ["E", "B", "R"] := by with_unfolding_all rfl
  have hE : Fnmatch.filter ["E", "B", "R"] "E" = ["E"] := by
    simp [Fnmatch.filter, Fnmatch.fnmatch, Fnmatch.tokens, Fnmatch.matchToks, Fnmatch.Tok.one]
  have hB : Fnmatch.filter ["E", "B", "R"] "B" = ["B"] := by
    simp [Fnmatch.filter, Fnmatch.fnmatch, Fnmatch.tokens, Fnmatch.matchToks, Fnmatch.Tok.one]
  have hR : Fnmatch.filter ["E", "B", "R"] "R" = ["R"] := by
    simp [Fnmatch.filter, Fnmatch.fnmatch, Fnmatch.tokens, Fnmatch.matchToks, Fnmatch.Tok.one]
  have hf : Inventory.filter exOrd [exSite, exAway] ["E", "B"] = .ok [exSite] := by
    unfold Inventory.filter
    simp only [List.flatMap_cons, List.flatMap_nil, hn, hE, hB]
    with_unfolding_all rfl
  have hf' : Inventory.filter exOrd [exSite, exAway] ["R"] = .ok [exAway] := by
    unfold Inventory.filter
    simp only [List.flatMap_cons, List.flatMap_nil, hn, hR]
    with_unfolding_all rfl
  have hc : Impedance.combinations 1 true = [[none], [some 0]] := by decide
  simp only [Impedance.massProc, List.length_singleton, hc, Impedance.massLoop, Impedance.massData, hf, Inventory.extractGroups, mapE,
    Inventory.groupOf, Impedance.remoteTags, List.filterMap_cons, List.filterMap_nil, Option.bind_none, Option.bind_some,
    List.getElem?_cons_zero, hf']
  exact ⟨_, _, by with_unfolding_all rfl⟩

example : ∃ r heap, Impedance.massProc (fun _ _ => some 1) exOrd' [exAway, exSite] ["R"] [] [(0, 2), (1, 3)] exOpts true (fun _ => ()) =
    (.ok r, heap) := by
  obtain ⟨r, heap, h⟩ := exSite_mass
  exact ⟨r, heap, (C111_mass_proc _ exOrd exOrd' exOrd_ok exOrd'_ok _ _ (.swap _ _ _) exSite_regular _ _ _ _ _ _ _ _).1 h⟩

end examples

end Razorback.Props
