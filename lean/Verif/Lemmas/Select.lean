/- Lemmas about `select_channels` and `select_runs`. -/
import Verif.Lemmas.Join
import Verif.Spec.Select
import Mathlib.Data.List.Basic

namespace Razorback
open Spec
variable {α β γ κ : Type _}

/-- Elements of `l` at the positions `idx`. -/
def pick (l : List β) (idx : List Nat) : List β := idx.filterMap (fun i => l[i]?)

theorem pick_cons {l : List β} {i : Nat} (h : i < l.length) (idx : List Nat) :
    pick l (i :: idx) = l[i] :: pick l idx := by
  simp [pick, List.getElem?_eq_getElem h]

theorem pick_length {l : List β} {idx : List Nat} (h : ∀ i ∈ idx, i < l.length) :
    (pick l idx).length = idx.length := by
  induction idx with
  | nil => rfl
  | cons i idx ih =>
    rw [pick_cons (h i (by simp))]
    simp [ih (fun j hj => h j (by simp [hj]))]

theorem pick_getElem? {l : List β} {idx : List Nat} (h : ∀ i ∈ idx, i < l.length) (p : Nat) :
    (pick l idx)[p]? = (idx[p]?).bind (fun i => l[i]?) := by
  induction idx generalizing p with
  | nil => simp [pick]
  | cons i idx ih =>
    rw [pick_cons (h i (by simp))]
    cases p with
    | zero => simp [List.getElem?_eq_getElem (h i (by simp))]
    | succ p => simpa using ih (fun j hj => h j (by simp [hj])) p

theorem mem_pick {l : List β} {idx : List Nat} {b : β} : b ∈ pick l idx ↔ ∃ i ∈ idx, l[i]? = some b := by
  simp [pick]

theorem pick_map (f : β → γ) (l : List β) (idx : List Nat) : pick (l.map f) idx = (pick l idx).map f := by
  simp only [pick, List.map_filterMap, List.getElem?_map]

theorem pick_pick {l : List β} {idx idx2 : List Nat} (h : ∀ i ∈ idx, i < l.length)
    (h2 : ∀ i ∈ idx2, i < idx.length) : pick (pick l idx) idx2 = pick l (pick idx idx2) := by
  induction idx2 with
  | nil => rfl
  | cons i idx2 ih =>
    have hi := h2 i (by simp)
    rw [pick_cons hi, pick_cons (h _ (List.getElem_mem hi)), pick_cons (by rw [pick_length h]; exact hi),
      ih (fun j hj => h2 j (by simp [hj]))]
    congr 1
    have := pick_getElem? h i
    rw [List.getElem?_eq_getElem (by rw [pick_length h]; exact hi), List.getElem?_eq_getElem hi] at this
    simp only [Option.bind_some, List.getElem?_eq_getElem (h _ (List.getElem_mem hi)), Option.some.injEq] at this
    exact this

theorem pick_range (l : List β) : pick l (List.range l.length) = l := by
  apply List.ext_getElem?
  intro p
  rw [pick_getElem? (by simp)]
  by_cases hp : p < l.length
  · simp [hp]
  · have hp' : l.length ≤ p := by omega
    rw [List.getElem?_eq_none (by simpa using hp'), List.getElem?_eq_none hp']; rfl

theorem mapE_pyGet_pick {l : List β} {idx : List Nat} (h : ∀ i ∈ idx, i < l.length) :
    mapE (pyGet l) (idx.map Int.ofNat) = .ok (pick l idx) := by
  induction idx with
  | nil => rfl
  | cons i idx ih =>
    rw [pick_cons (h i (by simp))]
    simp only [List.map_cons, mapE, ih (fun j hj => h j (by simp [hj]))]
    have := pyGet_nat_eq (h i (by simp))
    simp only [Int.ofNat_eq_natCast] at *
    rw [this]

/-- The selected channels of a run. -/
def Sync.sel (idx : List Nat) (s : Sync α κ) : Sync α κ :=
  { s with data := pick s.data idx, cals := pick s.cals idx }

theorem Sync.sel_wf {s : Sync α κ} (hw : WF s) {idx : List Nat} (h : ∀ i ∈ idx, i < s.data.length)
    (hne : idx ≠ []) : WF (s.sel idx) := by
  have hc : ∀ i ∈ idx, i < s.cals.length := fun i hi => by rw [hw.cals]; exact h i hi
  refine ⟨?_, ?_, ?_⟩
  · intro h0
    have := pick_length h
    simp only [Sync.sel] at h0
    rw [h0] at this
    exact hne (List.eq_nil_of_length_eq_zero this.symm)
  · simp only [Sync.sel, pick_length h, pick_length hc]
  · intro d hd
    obtain ⟨i, _, hi⟩ := mem_pick.1 hd
    exact hw.rect d (List.mem_of_getElem? hi)

theorem Sync.select_eq [One κ] {s : Sync α κ} (hw : WF s) {idx : List Nat} (h : ∀ i ∈ idx, i < s.data.length)
    (hne : idx ≠ []) : s.select (idx.map Int.ofNat) = .ok (s.sel idx) := by
  have hc : ∀ i ∈ idx, i < s.cals.length := fun i hi => by rw [hw.cals]; exact h i hi
  have hwf := Sync.sel_wf hw h hne
  unfold Sync.select
  rw [mapE_pyGet_pick h, mapE_pyGet_pick hc]
  simp only
  exact Sync.new_eq hwf.nonempty hwf.rect (by rw [pick_length hc, pick_length h])

theorem Sync.channels_sel {s : Sync α κ} (hw : WF s) {idx : List Nat} (h : ∀ i ∈ idx, i < s.data.length) :
    channels (s.sel idx) = pick (channels s) idx := by
  have hc : ∀ i ∈ idx, i < s.cals.length := fun i hi => by rw [hw.cals]; exact h i hi
  apply List.ext_getElem?
  intro p
  rw [pick_getElem? (by rw [Sync.channels_length hw]; exact h)]
  simp only [channels, Sync.sel, List.zip_eq_zipWith, List.getElem?_zipWith,
    List.getElem?_map, pick_getElem? h, pick_getElem? hc]
  cases idx[p]? with
  | none => rfl
  | some i => simp

theorem Sync.sel_sel {s : Sync α κ} (hw : WF s) {idx idx2 : List Nat} (h : ∀ i ∈ idx, i < s.data.length)
    (h2 : ∀ i ∈ idx2, i < idx.length) : (s.sel idx).sel idx2 = s.sel (pick idx idx2) := by
  have hc : ∀ i ∈ idx, i < s.cals.length := fun i hi => by rw [hw.cals]; exact h i hi
  simp only [Sync.sel, pick_pick h h2, pick_pick hc h2]

theorem Sync.sel_range {s : Sync α κ} (hw : WF s) : s.sel (List.range s.data.length) = s := by
  have : s.cals = pick s.cals (List.range s.data.length) := by rw [← hw.cals, pick_range]
  simp only [Sync.sel, pick_range, ← this]

namespace SigSet

theorem build_of_as [Rnd] {t : Tags} (hi : t.Inv) (hp : Plain t) {runs : List (Sync α κ)} {n : Nat}
    (hsort : runs.Pairwise (fun a b => a.start ≤ b.start))
    (hdis : runs.Pairwise (fun a b => ∃ t, a.stop = .ok t ∧ t ≤ b.start)) (hrate : ∀ r ∈ runs, r.rate ≠ 0)
    (hch : ∀ r ∈ runs, r.data.length = n) (hn : runs ≠ [] → n ≠ 0 ∧ t.n ≤ n) :
    ∃ m, build (.tags t) runs = .ok ⟨runs, ⟨m, t.tags⟩⟩ ∧ (runs ≠ [] → m = n) := by
  have hcc : chanCount runs ≠ 0 → chanCount runs = n ∧ runs ≠ [] := by
    cases runs with
    | nil => simp [chanCount]
    | cons r rs => intro _; exact ⟨hch r (by simp), by simp⟩
  have hcc' : runs ≠ [] → chanCount runs = n := by
    cases runs with
    | nil => simp
    | cons r rs => intro _; exact hch r (by simp)
  obtain ⟨m, hm1, hm2⟩ := mkTags_plain hi hp (n := chanCount runs) (fun h => by
    rw [(hcc h).1]; exact (hn (hcc h).2).2)
  refine ⟨m, ?_, ?_⟩
  · rw [build_as]
    rw [sortRuns_of_sorted hsort]
    exact ⟨fun r hr r' hr' => by rw [hch r hr, hch r' hr'], hrate,
      hdis.imp_of_mem (fun {a b} ha _ ⟨t, ht, hab⟩ => by
        rw [Sync.stop_as (hrate a ha)] at ht
        simp only [Except.ok.injEq] at ht
        rw [ht]; exact hab), rfl, hm1⟩
  · intro hne
    rw [hm2 (by rw [hcc' hne]; exact (hn hne).1), hcc' hne]

theorem build_of {t : Tags} (hi : t.Inv) (hp : Plain t) {runs : List (Sync α κ)} {n : Nat}
    (hsort : runs.Pairwise (fun a b => a.start ≤ b.start))
    (hdis : runs.Pairwise (fun a b => lastTime a ≤ b.start)) (hrate : ∀ r ∈ runs, r.rate ≠ 0)
    (hch : ∀ r ∈ runs, r.data.length = n) (hn : runs ≠ [] → n ≠ 0 ∧ t.n ≤ n) :
    ∃ m, build (.tags t) runs = .ok ⟨runs, ⟨m, t.tags⟩⟩ ∧ (runs ≠ [] → m = n) :=
  build_of_as hi hp hsort (hdis.imp_of_mem (fun {a b} ha _ hab => ⟨_, Sync.stop_eq a (hrate a ha), hab⟩)) hrate hch hn

/-- Tags kept by a selection. -/
def tagsSel (t : Dict (List Nat)) (idx : List Nat) : Dict (List Nat) :=
  (t.filter (fun e => e.2.all (fun i => decide (i ∈ idx)))).map (fun e => (e.1, e.2.map (fun i => idx.idxOf i)))

theorem get?_tagsSel {t : Tags} (hi : t.Inv) {idx : List Nat} {k : String} {w : List Nat} :
    (tagsSel t.tags idx).get? k = some w ↔
      ∃ v, t.tags.get? k = some v ∧ (∀ i ∈ v, i ∈ idx) ∧ w = v.map (fun i => idx.idxOf i) := by
  have hkeys : (tagsSel t.tags idx).keys.Nodup := by
    have : (tagsSel t.tags idx).keys.Sublist t.tags.keys := by
      simp only [tagsSel, Dict.keys, List.map_map, Function.comp_def]
      exact (List.filter_sublist).map _
    exact this.nodup hi.nodup
  constructor
  · intro h
    have hm := Dict.mem_of_get? h
    obtain ⟨⟨k', v⟩, he, heq⟩ := List.mem_map.1 hm
    simp only [Prod.mk.injEq] at heq
    obtain ⟨rfl, rfl⟩ := heq
    obtain ⟨h1, h2⟩ := List.mem_filter.1 he
    refine ⟨v, Dict.get?_of_mem hi.nodup h1, ?_, rfl⟩
    simpa using h2
  · rintro ⟨v, h1, h2, rfl⟩
    apply Dict.get?_of_mem hkeys
    refine List.mem_map.2 ⟨(k, v), List.mem_filter.2 ⟨Dict.mem_of_get? h1, by simpa using h2⟩, rfl⟩

theorem tagsSel_plain {t : Tags} (hi : t.Inv) (hp : Plain t) {m : Nat} {idx : List Nat} :
    Plain ⟨m, tagsSel t.tags idx⟩ := by
  intro k hk
  rw [Tags.getItem_error, ← Dict.get?_eq_none]
  cases h : Dict.get? (tagsSel t.tags idx) k with
  | none => rfl
  | some w =>
    obtain ⟨v, hv, _⟩ := (get?_tagsSel hi).1 h
    have := plain_not_mem hp hk
    rw [← Dict.get?_eq_none, hv] at this
    simp at this

theorem tagsSel_inv {t : Tags} (hi : t.Inv) {idx : List Nat} {m : Nat} (hm : idx.length ≤ m) :
    Tags.Inv ⟨m, tagsSel t.tags idx⟩ := by
  constructor
  · have : (tagsSel t.tags idx).keys.Sublist t.tags.keys := by
      simp only [tagsSel, Dict.keys, List.map_map, Function.comp_def]
      exact (List.filter_sublist).map _
    exact this.nodup hi.nodup
  · intro k w hw
    obtain ⟨v, hv, hsub, rfl⟩ := (get?_tagsSel hi).1 hw
    obtain ⟨l1, l2, l3⟩ := hi.legal k v hv
    refine ⟨l1, by simpa using l2, ?_⟩
    intro i hi'
    obtain ⟨j, hj, rfl⟩ := List.mem_map.1 hi'
    have := List.idxOf_lt_length_iff.2 (hsub j hj)
    simp only
    omega

theorem selectTags_eq {t : Tags} (hi : t.Inv) (hp : Plain t) (idx : List Nat) :
    selectTags t idx = .ok ⟨idx.length, tagsSel t.tags idx⟩ := by
  unfold selectTags Tags.items
  rw [plain_call hp (by simp [reserved])]
  simp only
  have hinv := tagsSel_inv hi (idx := idx) le_rfl
  have hpl := tagsSel_plain hi hp (m := idx.length) (idx := idx)
  have := Tags.rebuild hinv (fun k hk => plain_not_mem hpl (by simp only [reserved]; simp at hk ⊢; tauto))
    (n := idx.length) (fun k v hv i hi' => (hinv.legal k v hv).2.2 i hi')
  simp only at this
  rw [← this]
  congr 1
  simp only [tagsSel, List.map_map, Function.comp_def]

/-- `select_channels` once the indices are known. -/
theorem selectChannels_eq [Rnd] [One κ] {S : SigSet α κ} (hS : SInv S) (hp : Plain S.tags) {sel : ChanSel}
    {idx : List Nat} (hidx : chanIndices S.tags S.nbChannels sel = .ok idx)
    (hlt : ∀ i ∈ idx, i < S.nbChannels) (hne : S.runs ≠ [] → idx ≠ []) :
    ∃ m, S.selectChannels sel = .ok ⟨S.runs.map (Sync.sel idx), ⟨m, tagsSel S.tags.tags idx⟩⟩ ∧
      (S.runs ≠ [] → m = idx.length) := by
  have hrange : ∀ r ∈ S.runs, ∀ i ∈ idx, i < r.data.length := by
    intro r hr i hi
    rw [← nbChannels_eq hS hr]; exact hlt i hi
  have hnr : ∀ r ∈ S.runs, S.runs ≠ [] := fun r hr h => by rw [h] at hr; simp at hr
  have hm : mapE (fun s : Sync α κ => s.select (idx.map Int.ofNat)) S.runs = .ok (S.runs.map (Sync.sel idx)) :=
    mapE_of_forall (fun r hr => Sync.select_eq (hS.okAs.wf r hr) (hrange r hr) (hne (hnr r hr)))
  have hinv := tagsSel_inv hS.inv (idx := idx) le_rfl
  have hpl := tagsSel_plain hS.inv hp (m := idx.length) (idx := idx)
  obtain ⟨m, hb, hmn⟩ := build_of_as hinv hpl (runs := S.runs.map (Sync.sel idx)) (n := idx.length)
    (by rw [List.pairwise_map]; exact hS.okAs.sorted)
    (by rw [List.pairwise_map]; exact hS.okAs.disjoint)
    (by
      intro r hr
      obtain ⟨s, hs, rfl⟩ := List.mem_map.1 hr
      exact hS.okAs.rate s hs)
    (by
      intro r hr
      obtain ⟨s, hs, rfl⟩ := List.mem_map.1 hr
      exact pick_length (hrange s hs))
    (by
      intro h
      have : idx ≠ [] := hne (by intro h0; rw [h0] at h; simp at h)
      exact ⟨by simpa using this, le_rfl⟩)
  refine ⟨m, ?_, ?_⟩
  · unfold selectChannels
    rw [hidx]
    simp only
    rw [selectTags_eq hS.inv hp, hm]
    exact hb
  · intro h; exact hmn (by simpa using h)

theorem nbChannels_tags [Rnd] {S : SigSet α κ} (hS : SInv S) (hp : Plain S.tags) : S.nbChannels = S.tags.n := by
  unfold nbChannels
  cases h : S.runs with
  | nil => simp [plain_indices hp]
  | cons r rs => exact (hS.n r (by rw [h]; simp)).symm

end SigSet
end Razorback

namespace Razorback
open Spec
variable {α β γ κ : Type _}

theorem sliceIndices_error {n : Nat} {a b c : Option Int} {e : Err} (h : sliceIndices n a b c = .error e) :
    c = some 0 ∧ e = .value := by
  unfold sliceIndices at h
  dsimp only at h
  split at h
  · rename_i h0
    simp at h
    cases c with
    | none => simp at h0
    | some x => simp at h0; simp [h0, h]
  · simp at h

theorem sliceIndices_mem {n : Nat} {a b c : Option Int} {l : List Nat} (h : sliceIndices n a b c = .ok l) :
    (∀ i, i ∈ l ↔ InSlice n a b c i) ∧ l.Nodup ∧ (0 < c.getD 1 → l.Pairwise (· < ·)) ∧
      (c.getD 1 < 0 → l.Pairwise (· > ·)) := by
  unfold sliceIndices at h
  dsimp only at h
  split at h
  · simp at h
  · rename_i hk0
    simp only [Except.ok.injEq] at h
    subst h
    unfold InSlice
    dsimp only
    generalize hk : c.getD 1 = k at hk0 ⊢
    rcases lt_or_gt_of_ne hk0 with hk' | hk'
    · -- negative step
      have hk'' : ¬ 0 < k := by omega
      simp only [hk', if_true, hk'', forall_true_left, false_imp_iff, true_and, and_true]
      obtain ⟨lo, hlo⟩ : ∃ lo : Int, lo = sliceLo n k a := ⟨_, rfl⟩
      obtain ⟨hi, hhi⟩ : ∃ hi : Int, hi = sliceHi n k b := ⟨_, rfl⟩
      rw [← hlo, ← hhi]
      have hpos : 0 < -k := by omega
      have hcount : ∀ m : Nat, m < ((lo - hi - k - 1) / (-k)).toNat ↔ hi < lo + m * k := by
        intro m
        rw [Int.lt_toNat]
        have : (m : Int) < (lo - hi - k - 1) / (-k) ↔ ((m : Int) + 1) * (-k) ≤ lo - hi - k - 1 := by
          rw [← Int.le_ediv_iff_mul_le hpos]; omega
        rw [this]
        have : ((m : Int) + 1) * (-k) = -(m * k) - k := by ring
        omega
      have hhi1 : -1 ≤ hi := by
        rw [hhi]; cases b with
        | none => simp [sliceLo, sliceHi, hk']
        | some x => simp only [sliceLo, sliceHi, sliceClamp, hk', if_true, if_false]; split <;> omega
      have hpw : ((List.range ((lo - hi - k - 1) / (-k)).toNat).map (fun i : Nat => (lo + i * k).toNat)).Pairwise
          (· > ·) := by
        rw [List.pairwise_map]
        refine List.Pairwise.imp_of_mem ?_ List.pairwise_lt_range
        intro i j hi' hj' hij
        rw [List.mem_range, hcount] at hi' hj'
        have : (i : Int) * k > j * k := by nlinarith
        simp only [gt_iff_lt]
        omega
      refine ⟨?_, hpw.imp (fun h => by omega), hpw⟩
      intro i
      simp only [List.mem_map, List.mem_range, hcount]
      have hlo' : lo = min ((n : Int) - 1) (if a.getD (n - 1) < 0 then a.getD (n - 1) + n else a.getD (n - 1))
          ∨ (lo = -1 ∧ min ((n : Int) - 1) (if a.getD (n - 1) < 0 then a.getD (n - 1) + n else a.getD (n - 1)) ≤ -1) := by
        rw [hlo]; cases a with
        | none => simp only [Option.getD_none, sliceLo, hk', if_true]; split <;> omega
        | some x => simp only [Option.getD_some, sliceLo, sliceClamp, hk', if_true, if_false]; split <;> omega
      have hlon : ∀ i : Nat, (i : Int) ≤ lo ↔ i < n ∧ (∀ x, a = some x → (i : Int) ≤ if x < 0 then x + n else x) := by
        intro i
        rw [hlo]; cases a with
        | none => simp [sliceLo, sliceHi, hk']; omega
        | some x => simp only [sliceLo, sliceHi, sliceClamp, hk', if_true, if_false, Option.some.injEq, forall_eq']; split <;> omega
      have hhin : ∀ i : Nat, i < n → (hi < i ↔ (∀ x, b = some x → (if x < 0 then x + n else x) < (i : Int))) := by
        intro i hin
        rw [hhi]; cases b with
        | none => simp [sliceLo, sliceHi, hk']; omega
        | some x => simp only [sliceLo, sliceHi, sliceClamp, hk', if_true, if_false, Option.some.injEq, forall_eq']; split <;> omega
      constructor
      · rintro ⟨m, hm, rfl⟩
        have h0 : 0 ≤ lo + m * k := by omega
        have e1 : ((lo + m * k).toNat : Int) = lo + m * k := Int.toNat_of_nonneg h0
        have hmk : (m : Int) * k ≤ 0 := by nlinarith
        have h2 := (hlon (lo + m * k).toNat).1 (by omega)
        have h3 := (hhin _ h2.1).1 (by omega)
        refine ⟨h2.1, h2.2, h3, ?_⟩
        rcases hlo' with hlo' | hlo'
        · rw [e1, ← hlo']
          exact ⟨-m, by ring⟩
        · omega
      · rintro ⟨h1, h2, h3, h4⟩
        have h5 := (hlon i).2 ⟨h1, h2⟩
        have h6 := (hhin i h1).2 h3
        rcases hlo' with hlo' | hlo'
        · rw [← hlo'] at h4
          obtain ⟨q, hq⟩ := h4
          have hq0 : q ≤ 0 := by
            by_contra hc
            have : k * q < 0 := by nlinarith
            omega
          refine ⟨(-q).toNat, ?_, ?_⟩
          · rw [Int.toNat_of_nonneg (by omega)]
            have : -q * k = -(k * q) := by ring
            omega
          · rw [Int.toNat_of_nonneg (by omega)]
            have : -q * k = -(k * q) := by ring
            omega
        · omega
    · have hk'' : ¬ k < 0 := by omega
      simp only [hk', if_false, hk'', forall_true_left, false_imp_iff, and_true]
      obtain ⟨lo, hlo⟩ : ∃ lo : Int, lo = sliceLo n k a := ⟨_, rfl⟩
      obtain ⟨hi, hhi⟩ : ∃ hi : Int, hi = sliceHi n k b := ⟨_, rfl⟩
      rw [← hlo, ← hhi]
      have hcount : ∀ m : Nat, m < ((hi - lo + k - 1) / k).toNat ↔ lo + m * k < hi := by
        intro m
        rw [Int.lt_toNat]
        have : (m : Int) < (hi - lo + k - 1) / k ↔ ((m : Int) + 1) * k ≤ hi - lo + k - 1 := by
          rw [← Int.le_ediv_iff_mul_le hk']; omega
        rw [this]
        have : ((m : Int) + 1) * k = m * k + k := by ring
        omega
      have hlo0 : 0 ≤ lo := by
        rw [hlo]; cases a with
        | none => simp [sliceLo, sliceHi, hk'']
        | some x => simp only [sliceLo, sliceHi, sliceClamp, hk'', if_true, if_false]; split <;> omega
      have hpw : ((List.range ((hi - lo + k - 1) / k).toNat).map (fun i : Nat => (lo + i * k).toNat)).Pairwise
          (· < ·) := by
        rw [List.pairwise_map]
        refine List.Pairwise.imp ?_ List.pairwise_lt_range
        intro i j hij
        have h1 : (i : Int) * k < j * k := by nlinarith
        have h2 : 0 ≤ (i : Int) * k := by positivity
        omega
      refine ⟨?_, hpw.imp (fun h => by omega), hpw⟩
      intro i
      simp only [List.mem_map, List.mem_range, hcount]
      have hhin : ∀ i : Nat, (i : Int) < hi ↔ i < n ∧ (∀ x, b = some x → (i : Int) < if x < 0 then x + n else x) := by
        intro i
        rw [hhi]; cases b with
        | none => simp [sliceLo, sliceHi, hk'']
        | some x => simp only [sliceLo, sliceHi, sliceClamp, hk'', if_true, if_false, Option.some.injEq, forall_eq']; split <;> omega
      have hlo' : lo = max 0 (if a.getD 0 < 0 then a.getD 0 + n else a.getD 0)
          ∨ (lo = n ∧ (n : Int) ≤ max 0 (if a.getD 0 < 0 then a.getD 0 + n else a.getD 0)) := by
        rw [hlo]; cases a with
        | none => simp [sliceLo, sliceHi, hk'']
        | some x => simp only [Option.getD_some, sliceLo, sliceClamp, hk'', if_true, if_false]; split <;> omega
      have hlon : ∀ i : Nat, i < n → (lo ≤ i ↔ (∀ x, a = some x → (if x < 0 then x + n else x) ≤ (i : Int))) := by
        intro i hin
        rw [hlo]; cases a with
        | none => simp [sliceLo, sliceHi, hk'']
        | some x => simp only [sliceLo, sliceHi, sliceClamp, hk'', if_true, if_false, Option.some.injEq, forall_eq']; split <;> omega
      constructor
      · rintro ⟨m, hm, rfl⟩
        have hmk : 0 ≤ (m : Int) * k := by positivity
        have e1 : ((lo + m * k).toNat : Int) = lo + m * k := Int.toNat_of_nonneg (by omega)
        have h2 := (hhin (lo + m * k).toNat).1 (by omega)
        have h3 := (hlon _ h2.1).1 (by omega)
        refine ⟨h2.1, h3, h2.2, ?_⟩
        rcases hlo' with hlo' | hlo'
        · rw [e1, ← hlo']
          exact ⟨m, by ring⟩
        · have := h2.1; omega
      · rintro ⟨h1, h2, h3, h4⟩
        have h5 := (hlon i h1).2 h2
        have h6 := (hhin i).2 ⟨h1, h3⟩
        rcases hlo' with hlo' | hlo'
        · rw [← hlo'] at h4
          obtain ⟨q, hq⟩ := h4
          have hq0 : 0 ≤ q := by
            by_contra hc
            have : k * q < 0 := by nlinarith
            omega
          refine ⟨q.toNat, ?_, ?_⟩
          · rw [Int.toNat_of_nonneg hq0]
            have : q * k = k * q := by ring
            omega
          · rw [Int.toNat_of_nonneg hq0]
            have : q * k = k * q := by ring
            omega
        · omega

end Razorback

namespace Razorback
open Spec
variable {α β γ κ : Type _}
namespace SigSet

theorem resolveChan_ok {t : Tags} (hp : Plain t) {c : ChanId} {l : List Nat}
    (h : resolveChan t c = .ok l) : Known t t.n c ∧ ∀ i, i ∈ l ↔ Desig t c i := by
  cases c with
  | name k =>
    simp only [resolveChan] at h
    split at h
    · rename_i v hv
      simp at h; subst h
      have := Tags.getItem_ok.2 hv
      exact ⟨⟨v, this⟩, fun i => by simp [Desig, this]⟩
    · simp at h
  | idx j =>
    simp only [resolveChan] at h
    split at h
    · rename_i hj
      simp at h; subst h
      rw [plain_indices hp, List.mem_range] at hj
      refine ⟨⟨hj.2, by omega⟩, fun i => ?_⟩
      simp [Desig]; omega
    · simp at h

theorem resolveChan_known {t : Tags} (hp : Plain t) {c : ChanId} (hk : Known t t.n c) :
    ∃ l, resolveChan t c = .ok l := by
  cases c with
  | name k =>
    obtain ⟨v, hv⟩ := hk
    simp only [resolveChan, Tags.getItem_ok.1 hv]
    exact ⟨v, rfl⟩
  | idx j =>
    obtain ⟨h1, h2⟩ := hk
    simp only [resolveChan, plain_indices hp, List.mem_range]
    rw [if_pos ⟨by omega, h1⟩]
    exact ⟨_, rfl⟩

theorem resolveChan_error {t : Tags} {c : ChanId} {e : Err} (h : resolveChan t c = .error e) : e = .value := by
  cases c with
  | name k => simp only [resolveChan] at h; split at h <;> simp at h; exact h.symm
  | idx j => simp only [resolveChan] at h; split at h <;> simp at h; exact h.symm

/-- The identifiers actually looked up. -/
theorem chanIds_ok {t : Tags} (hi : t.Inv) (hp : Plain t) {sel : ChanSel} (hk : SelKnown t t.n sel) :
    ∃ ids, chanIds t t.n sel = .ok ids ∧ (∀ c ∈ ids, Known t t.n c) ∧
      ∀ i, (∃ c ∈ ids, Desig t c i) ↔ SelDesig t t.n sel i := by
  cases sel with
  | one c =>
    cases c with
    | name k =>
      obtain ⟨v, hv⟩ := hk
      have hv' := Tags.getItem_ok.1 hv
      simp only [chanIds, hv']
      refine ⟨_, rfl, ?_, ?_⟩
      · intro c hc
        obtain ⟨i, hi', rfl⟩ := List.mem_map.1 hc
        have := (hi.legal k v hv').2.2 i hi'
        exact ⟨by omega, by omega⟩
      · intro i
        simp [SelDesig, Desig, hv]
    | idx j =>
      simp only [chanIds]
      exact ⟨_, rfl, by intro c hc; simp at hc; subst hc; exact hk, by intro i; simp [SelDesig]⟩
  | many l => exact ⟨l, rfl, hk, fun i => by simp [SelDesig]⟩
  | slice a b c =>
    simp only [chanIds]
    cases hs : sliceIndices t.n a b c with
    | error e => exact absurd (sliceIndices_error hs).1 hk
    | ok l =>
      refine ⟨_, rfl, ?_, ?_⟩
      · intro c hc
        obtain ⟨i, hi', rfl⟩ := List.mem_map.1 hc
        have := ((sliceIndices_mem hs).1 i).1 hi'
        exact ⟨by omega, by have := this.1; omega⟩
      · intro i
        simp [SelDesig, Desig, ← (sliceIndices_mem hs).1 i]

theorem sortNat_strict (l : List Nat) : (sortBy (fun a b => decide (a ≤ b)) (dedup l)).Pairwise (· < ·) := by
  have h1 := sortBy_pairwise (le := fun a b : Nat => decide (a ≤ b)) (by intro a b; simp; omega)
    (by intro a b c; simp; omega) (dedup l)
  have h2 : (sortBy (fun a b => decide (a ≤ b)) (dedup l)).Nodup :=
    (sortBy_perm _).nodup_iff.2 (nodup_dedup l)
  exact (h1.and h2).imp (fun h => by have := h.1; simp at this; omega)

theorem chanIndices_ok {t : Tags} (hi : t.Inv) (hp : Plain t) {sel : ChanSel} (hk : SelKnown t t.n sel) :
    ∃ idx, chanIndices t t.n sel = .ok idx ∧ idx.Pairwise (· < ·) ∧ (∀ i, i ∈ idx ↔ SelDesig t t.n sel i) ∧
      ∀ i ∈ idx, i < t.n := by
  obtain ⟨ids, h1, h2, h3⟩ := chanIds_ok hi hp hk
  unfold chanIndices
  rw [h1]
  simp only
  cases hm : mapE (resolveChan t) ids with
  | error e =>
    obtain ⟨c, hc, he⟩ := mapE_error hm
    obtain ⟨l, hl⟩ := resolveChan_known hp (h2 c hc)
    rw [hl] at he; simp at he
  | ok ls =>
    have hmem : ∀ i, i ∈ sortBy (fun a b => decide (a ≤ b)) (dedup ls.flatten) ↔ SelDesig t t.n sel i := by
      intro i
      rw [mem_sortBy, mem_dedup, ← h3 i, List.mem_flatten]
      constructor
      · rintro ⟨l, hl, hil⟩
        obtain ⟨c, hc, hcl⟩ := mapE_ok_exists hm l hl
        exact ⟨c, hc, ((resolveChan_ok hp hcl).2 i).1 hil⟩
      · rintro ⟨c, hc, hd⟩
        obtain ⟨l, hl, hcl⟩ := mapE_ok_forall hm c hc
        exact ⟨l, hl, ((resolveChan_ok hp hcl).2 i).2 hd⟩
    refine ⟨_, rfl, sortNat_strict _, hmem, ?_⟩
    intro i hi'
    obtain ⟨c, hc, hd⟩ := (h3 i).2 ((hmem i).1 hi')
    have := h2 c hc
    cases c with
    | name k =>
      obtain ⟨v, hv, hiv⟩ := hd
      exact (hi.legal k v (Tags.getItem_ok.1 hv)).2.2 i hiv
    | idx j =>
      simp only [Desig] at hd
      have := this.2
      omega

theorem chanIndices_error {t : Tags} (hp : Plain t) {sel : ChanSel}
    (hk : ¬ SelKnown t t.n sel) : chanIndices t t.n sel = .error .value := by
  unfold chanIndices
  have step : ∀ l : List ChanId, (∃ c ∈ l, ¬ Known t t.n c) → mapE (resolveChan t) l = .error .value := by
    intro l ⟨c, hc, hn⟩
    cases hm : mapE (resolveChan t) l with
    | error e =>
      obtain ⟨a, _, ha⟩ := mapE_error hm
      rw [resolveChan_error ha]
    | ok ls =>
      obtain ⟨l', _, hcl⟩ := mapE_ok_forall hm c hc
      exact absurd (resolveChan_ok hp hcl).1 hn
  cases sel with
  | one c =>
    cases c with
    | name k =>
      have : t.tags.get? k = none := by
        cases h : t.tags.get? k with
        | none => rfl
        | some v => exact absurd ⟨v, Tags.getItem_ok.2 h⟩ hk
      simp only [chanIds, this]
    | idx j =>
      simp only [chanIds]
      rw [step [.idx j] ⟨.idx j, by simp, hk⟩]
  | many l =>
    simp only [chanIds]
    rw [step l (by simpa [SelKnown] using hk)]
  | slice a b c =>
    simp only [SelKnown, not_not] at hk
    subst hk
    simp [chanIds, sliceIndices]

/-! ### runs -/

theorem npIndex_ok {n : Nat} {j : Int} {i : Nat} : npIndex n j = .ok i ↔ At n j i := by
  unfold npIndex At
  dsimp only
  by_cases h0 : j < 0
  · simp only [h0, if_true]
    constructor
    · intro h
      split at h
      · simp at h; omega
      · simp at h
    · intro h
      rw [if_pos (by omega)]
      simp; omega
  · simp only [h0, if_false]
    constructor
    · intro h
      split at h
      · simp at h; omega
      · simp at h
    · intro h
      rw [if_pos (by omega)]
      simp; omega

theorem npIndex_error {n : Nat} {j : Int} {e : Err} (h : npIndex n j = .error e) :
    e = .index ∧ ¬ (-(n : Int) ≤ j ∧ j < n) := by
  unfold npIndex at h
  dsimp only at h
  by_cases h0 : j < 0
  · simp only [h0, if_true] at h
    split at h
    · simp at h
    · simp at h; exact ⟨h.symm, by omega⟩
  · simp only [h0, if_false] at h
    split at h
    · simp at h
    · simp at h; exact ⟨h.symm, by omega⟩

theorem At.unique {n : Nat} {j : Int} {i i' : Nat} (h : At n j i) (h' : At n j i') : i = i' := by
  unfold At at *; omega

theorem resolve_ok {n : Nat} {r : RunIdx} (h : RunOK n r) :
    ∃ idx, r.resolve n = .ok idx ∧ (∀ i, i ∈ idx ↔ RunPick n r i) ∧ ∀ i ∈ idx, i < n := by
  have hlist : ∀ l : List Int, (∀ j ∈ l, -(n : Int) ≤ j ∧ j < n) → ∃ idx, mapE (npIndex n) l = .ok idx ∧
      (∀ i, i ∈ idx ↔ ∃ j ∈ l, At n j i) ∧ ∀ i ∈ idx, i < n := by
    intro l hl
    cases hm : mapE (npIndex n) l with
    | error e =>
      obtain ⟨j, hj, he⟩ := mapE_error hm
      exact absurd (hl j hj) (npIndex_error he).2
    | ok idx =>
      have hmem : ∀ i, i ∈ idx ↔ ∃ j ∈ l, At n j i := by
        intro i
        constructor
        · intro hi
          obtain ⟨j, hj, hji⟩ := mapE_ok_exists hm i hi
          exact ⟨j, hj, npIndex_ok.1 hji⟩
        · rintro ⟨j, hj, hji⟩
          obtain ⟨i', hi', h2⟩ := mapE_ok_forall hm j hj
          rw [At.unique hji (npIndex_ok.1 h2)]; exact hi'
      refine ⟨idx, rfl, hmem, ?_⟩
      intro i hi
      obtain ⟨j, _, hj⟩ := (hmem i).1 hi
      exact hj.1
  cases r with
  | int j =>
    obtain ⟨idx, h1, h2, h3⟩ := hlist [j] (by simpa [RunOK] using h)
    exact ⟨idx, h1, fun i => by rw [h2 i]; simp [RunPick], h3⟩
  | list l => exact hlist l h
  | slice a b c =>
    simp only [RunIdx.resolve]
    cases hs : sliceIndices n a b c with
    | error e => exact absurd (sliceIndices_error hs).1 h
    | ok l =>
      refine ⟨l, rfl, (sliceIndices_mem hs).1, ?_⟩
      intro i hi
      exact (((sliceIndices_mem hs).1 i).1 hi).1
  | mask m =>
    simp only [RunOK] at h
    simp only [RunIdx.resolve, h, if_true]
    have hmem : ∀ i, i ∈ ((m.zipIdx.filter (fun p => p.1)).map (fun p => p.2)) ↔ m[i]? = some true := by
      intro i
      simp only [List.mem_map, List.mem_filter, Prod.exists, List.mem_zipIdx_iff_getElem?]
      constructor
      · rintro ⟨b, j, ⟨h1, h2⟩, rfl⟩
        rw [h1, h2]
      · intro h; exact ⟨true, i, ⟨h, rfl⟩, rfl⟩
    refine ⟨_, rfl, hmem, ?_⟩
    intro i hi
    have := (hmem i).1 hi
    rw [← h]
    exact (List.getElem?_eq_some_iff.1 this).1

theorem resolve_error {n : Nat} {r : RunIdx} : ¬ RunOK n r →
    r.resolve n = .error (match r with | .slice .. => .value | _ => .index) := by
  intro h
  have hlist : ∀ l : List Int, (¬ ∀ j ∈ l, -(n : Int) ≤ j ∧ j < n) → mapE (npIndex n) l = .error .index := by
    intro l hl
    cases hm : mapE (npIndex n) l with
    | error e =>
      obtain ⟨j, hj, he⟩ := mapE_error hm
      rw [(npIndex_error he).1]
    | ok idx =>
      exfalso
      apply hl
      intro j hj
      obtain ⟨i, _, hi⟩ := mapE_ok_forall hm j hj
      have := npIndex_ok.1 hi
      unfold At at this; omega
  cases r with
  | int j => exact hlist [j] (by simpa [RunOK] using h)
  | list l => exact hlist l h
  | slice a b c =>
    simp only [RunOK, not_not] at h
    subst h
    simp [RunIdx.resolve, sliceIndices]
  | mask m =>
    simp only [RunOK] at h
    simp [RunIdx.resolve, h]

end SigSet
end Razorback
