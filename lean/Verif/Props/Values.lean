/-
Properties C80-C81: prefilter_values and prefilter_values_mass_proc.
-/
import Verif.Props.Impedance
import Verif.Props.Prefilter
import Verif.Lemmas.Extract
import Verif.Spec.Inventory

namespace Razorback.Props
open Razorback Razorback.Spec Razorback.Impedance Razorback.Fourier Razorback.SigSet

variable {κ σ : Type}

theorem mapE_total {β γ : Type _} {f : β → Except Err γ} {l : List β} (h : ∀ a ∈ l, ∃ b, f a = .ok b) : ∃ r, mapE f l = .ok r := by
  cases hm : mapE f l with
  | ok r => exact ⟨r, rfl⟩
  | error e =>
    obtain ⟨a, ha, he⟩ := mapE_error hm
    obtain ⟨b, hb⟩ := h a ha
    rw [hb] at he
    simp at he

/-! C80 -/

/-- **C80.** A window has one centre time. -/
theorem C80_centre_unique (runs : List (Sync ℂ κ)) (N len shift : List ℕ) (i : ℕ) (t t' : ℚ)
    (h : IsCentre runs N len shift i t) (h' : IsCentre runs N len shift i t') : t = t' := by
  obtain ⟨k, j, s, n, L, d, h1, h2, h3, h4, h5, h6, rfl⟩ := h
  obtain ⟨k', j', s', n', L', d', g1, g2, g3, g4, g5, g6, rfl⟩ := h'
  have key : ∀ (k k' : ℕ) (n n' j j' : ℕ), N[k]? = some n → N[k']? = some n' → j < n → k < k' →
      (N.take k).sum + j < (N.take k').sum + j' := by
    intro k k' n n' j j' h1 h2 h3 h4
    have hk := (List.getElem?_eq_some_iff.1 h1).1
    have hle : (N.take (k + 1)).sum ≤ (N.take k').sum := by
      have : (N.take k').take (k + 1) = N.take (k + 1) := by rw [List.take_take]; congr 1; omega
      rw [← this]
      exact List.Sublist.sum_le_sum (List.take_sublist _ _) (by simp)
    have : (N.take (k + 1)).sum = (N.take k).sum + n := by
      rw [List.take_add_one, h1]; simp
    omega
  rcases Nat.lt_trichotomy k k' with hlt | rfl | hlt
  · have := key k k' n n' j j' h2 g2 h5 hlt; omega
  · have : j = j' := by omega
    subst this
    rw [h1] at g1; rw [h3] at g3; rw [h4] at g4
    simp only [Option.some.injEq] at g1 g3 g4
    subst g1 g3 g4
    rfl
  · have := key k' k n' n j' j g2 h2 g5 hlt; omega

theorem values_times (S : SigSet ℂ κ) (lN lL lS : List ℕ) (h1 : lN.length = S.runs.length)
    (h2 : lL.length = S.runs.length) (h3 : lS.length = S.runs.length) :
    let ts := (windows S (lN, lL, lS)).flatMap (fun t =>
      (List.range t.2.1).map (fun i : ℕ => ((t.2.2.2 : ℚ) * i + 1 / 2 * t.2.2.1) / t.1.1 + t.1.2))
    ts.length = lN.sum ∧ ∀ (i : ℕ) t, ts[i]? = some t → IsCentre S.runs lN lL lS i t := by
  have hw := windows_map S lN lL lS h1 h2 h3
  have key : ∀ (wins : List ((ℚ × ℚ) × ℕ × ℕ × ℕ)) (i : ℕ) (t : ℚ),
      (wins.flatMap (fun t => (List.range t.2.1).map (fun i : ℕ => ((t.2.2.2 : ℚ) * i + 1 / 2 * t.2.2.1) / t.1.1 + t.1.2)))[i]?
        = some t →
      ∃ (k j : ℕ) (rate start : ℚ) (n L d : ℕ), wins[k]? = some ((rate, start), n, L, d) ∧ j < n ∧
        i = ((wins.map (fun t => t.2.1)).take k).sum + j ∧ t = start + (d * j + L / 2) / rate := by
    intro wins
    induction wins with
    | nil => intro i t h; simp at h
    | cons w wins ih =>
      obtain ⟨⟨rate, start⟩, n, L, d⟩ := w
      intro i t h
      rw [List.flatMap_cons] at h
      by_cases hi : i < n
      · rw [List.getElem?_append_left (by simpa using hi)] at h
        simp only [List.getElem?_map, List.getElem?_range hi, Option.map_some, Option.some.injEq] at h
        exact ⟨0, i, rate, start, n, L, d, rfl, hi, by simp, by rw [← h]; ring⟩
      · rw [List.getElem?_append_right (by simpa using hi)] at h
        simp only [List.length_map, List.length_range] at h
        obtain ⟨k, j, r', s', n', L', d', e1, e2, e3, e4⟩ := ih _ t h
        refine ⟨k + 1, j, r', s', n', L', d', by simpa using e1, e2, ?_, e4⟩
        simp only [List.map_cons, List.take_succ_cons, List.sum_cons]
        omega
  refine ⟨?_, ?_⟩
  · simp only [List.length_flatMap, List.length_map, List.length_range]
    rw [hw]
  · intro i t h
    obtain ⟨k, j, rate, start, n, L, d, e1, e2, e3, e4⟩ := key _ i t h
    rw [hw] at e3
    unfold windows at e1
    rw [List.getElem?_zip_eq_some, List.getElem?_zip_eq_some, List.getElem?_zip_eq_some, List.getElem?_map,
      Option.map_eq_some_iff] at e1
    obtain ⟨⟨s, hs, hrs⟩, hn, hL, hd⟩ := e1
    simp only [Prod.mk.injEq] at hrs
    obtain ⟨rfl, rfl⟩ := hrs
    exact ⟨k, j, s, n, L, d, hs, hn, hL, hd, e2, e3, e4⟩

/-- **C80.** `prefilter_values` gives for each frequency, in order, the values of the prefilter on each electric channel
against the magnetic channels (row `n` of its inputs holds coefficient `n` of each magnetic channel), and a time for each
window, its centre. -/
theorem C80_values [One κ] (cal : κ → ℚ → Option ℂ) (S : SigSet ℂ κ) (hS : Reach S) (nper overlap : ℚ) (win : Win)
    (tagElec tagMag : String) (value : (q : ℕ) → List ℂ → List (Fin q → ℂ) → Except Err (List Flt)) (freqs : List ℚ)
    (res : List (List (List Flt) × List ℚ))
    (h : prefilterValues cal S nper overlap win tagElec tagMag value freqs = .ok res) :
    List.Forall₂ (fun freq r => ∃ coeffs lN lL lS E B e b, ∃ inputs : List (Fin b.length → ℂ),
      setCoeffs cal S freq nper overlap win = .ok (coeffs, (lN, lL, lS)) ∧
      S.tags.getItem tagElec = .ok E ∧ S.tags.getItem tagMag = .ok B ∧ Picked coeffs E e ∧ Picked coeffs B b ∧
      (∀ c ∈ e ++ b, c.length = lN.sum) ∧ inputs.length = lN.sum ∧
      (∀ (n : ℕ) row, inputs[n]? = some row → ∀ j : Fin b.length, b[j][n]? = some (row j)) ∧
      List.Forall₂ (fun line v => value b.length line inputs = .ok v) e r.1 ∧
      r.2.length = lN.sum ∧ ∀ (i : ℕ) t, r.2[i]? = some t → IsCentre S.runs lN lL lS i t) freqs res := by
  rw [prefilterValues, mapE_ok] at h
  refine h.imp ?_
  intro freq r hr
  unfold valuesOne at hr
  split at hr
  · simp at hr
  rename_i coeffs w hf
  obtain ⟨lN, lL, lS⟩ := w
  split at hr
  · simp at hr
  rename_i E hE
  split at hr
  · simp at hr
  rename_i e he
  split at hr
  · simp at hr
  rename_i B hB
  split at hr
  · simp at hr
  rename_i b hb
  split at hr
  · simp at hr
  rename_i v hv
  simp only [Except.ok.injEq] at hr
  subst hr
  rw [pick_ok] at he hb
  obtain ⟨raws, g1, g2, g3, g4, -⟩ := C41_concatenation cal S hS freq nper overlap win coeffs lN lL lS hf
  have hl1 : lN.length = S.runs.length := by rw [g2, List.length_map, g1.length_eq]
  have hl2 : lL.length = S.runs.length := by rw [g3, List.length_map, g1.length_eq]
  have hl3 : lS.length = S.runs.length := by rw [g4, List.length_map, g1.length_eq]
  let o : Impedance.Opts Unit := { weights := [], nper := nper, overlap := overlap, win := win, tagElec := tagElec, tagMag := tagMag }
  obtain ⟨e', b', br, he', hb', -, -, hbne, heN, hbN⟩ := reach_chans (o := o) hS (R := none) ⟨hE, hB, .inl ⟨.inl rfl, rfl⟩⟩ hf
  have hu : ∀ {l l' : List (List ℂ)} {idx : List ℕ}, Picked coeffs idx l → Picked coeffs idx l' → l = l' := by
    intro l l' idx h h'
    have := (pick_ok.2 h).symm.trans (pick_ok.2 h')
    simpa using this
  obtain rfl := hu he he'
  obtain rfl := hu hb hb'
  have hwid : width b = lN.sum := width_eq hbne hbN
  obtain ⟨t1, t2⟩ := values_times S lN lL lS hl1 hl2 hl3
  refine ⟨coeffs, lN, lL, lS, E, B, e, b, rows b, hf, hE, hB, he, hb, ?_, ?_, ?_, mapE_ok.1 hv, t1, t2⟩
  · intro c hc
    rcases List.mem_append.1 hc with hc | hc
    · exact heN c hc
    · exact hbN c hc
  · simp [rows, MEst.rowsOf, hwid]
  · intro n row hrow j
    have hn : n < lN.sum := by
      have := (List.getElem?_eq_some_iff.1 hrow).1
      simpa [rows, MEst.rowsOf, hwid] using this
    simp only [rows, MEst.rowsOf, hwid, List.getElem?_map, List.getElem?_range hn, Option.map_some, Option.some.injEq] at hrow
    subst hrow
    have : n < (b[j]).length := by
      have := hbN b[j] (List.getElem_mem _)
      simp only at this
      omega
    rw [List.getElem?_eq_getElem this]
    simp only [cols, List.getD_eq_getElem?_getD]
    rw [List.getElem?_eq_getElem this]
    rfl

/-- **C80.** Contrary to `impedance`, a frequency that cannot be computed raises: `prefilter_values` succeeds exactly if
every frequency has coefficients, the tags exist and the prefilter gives values for each electric channel. -/
theorem C80_raises (cal : κ → ℚ → Option ℂ) (S : SigSet ℂ κ) (nper overlap : ℚ) (win : Win)
    (tagElec tagMag : String) (value : (q : ℕ) → List ℂ → List (Fin q → ℂ) → Except Err (List Flt)) (freqs : List ℚ) :
    (∃ res, prefilterValues cal S nper overlap win tagElec tagMag value freqs = .ok res) ↔
      ∀ freq ∈ freqs, ∃ coeffs w E B e b, setCoeffs cal S freq nper overlap win = .ok (coeffs, w) ∧
        S.tags.getItem tagElec = .ok E ∧ S.tags.getItem tagMag = .ok B ∧ Picked coeffs E e ∧ Picked coeffs B b ∧
        ∀ line ∈ e, ∃ v, value b.length line (rows b) = .ok v := by
  have one : ∀ freq, (∃ r, valuesOne cal S nper overlap win tagElec tagMag value freq = .ok r) ↔
      ∃ coeffs w E B e b, setCoeffs cal S freq nper overlap win = .ok (coeffs, w) ∧
        S.tags.getItem tagElec = .ok E ∧ S.tags.getItem tagMag = .ok B ∧ Picked coeffs E e ∧ Picked coeffs B b ∧
        ∀ line ∈ e, ∃ v, value b.length line (rows b) = .ok v := by
    intro freq
    constructor
    · rintro ⟨r, hr⟩
      unfold valuesOne at hr
      split at hr
      · simp at hr
      rename_i coeffs w hf
      split at hr
      · simp at hr
      rename_i E hE
      split at hr
      · simp at hr
      rename_i e he
      split at hr
      · simp at hr
      rename_i B hB
      split at hr
      · simp at hr
      rename_i b hb
      split at hr
      · simp at hr
      rename_i v hv
      refine ⟨coeffs, w, E, B, e, b, hf, hE, hB, pick_ok.1 he, pick_ok.1 hb, ?_⟩
      intro line hl
      obtain ⟨x, _, hx⟩ := mapE_ok_forall hv line hl
      exact ⟨x, hx⟩
    · rintro ⟨coeffs, w, E, B, e, b, hf, hE, hB, he, hb, hv⟩
      obtain ⟨v, hv⟩ := mapE_total hv
      unfold valuesOne
      rw [hf, hE, hB]
      simp only [pick_ok.2 he, pick_ok.2 hb, hv]
      exact ⟨_, rfl⟩
  constructor
  · rintro ⟨res, h⟩ freq hf
    rw [← one]
    obtain ⟨r, _, hr⟩ := mapE_ok_forall h freq hf
    exact ⟨r, hr⟩
  · intro h
    exact mapE_total (fun freq hf => (one freq).2 (h freq hf))

open Prefilter in
/-- **C80.** The coefficient of determination filter has a value for each window, and `impedance` with this filter rejects
exactly the windows with a value outside of the bounds. -/
theorem C80_rejected {q : ℕ} (lo hi : ℝ) (size : ℕ) (line : List ℂ) (inputs : List (Fin q → ℂ)) (v : List Flt)
    (h : value size line inputs = .ok v) :
    v.length = line.length ∧ ∃ l, call lo hi size line inputs = .ok l ∧ l.Pairwise (· < ·) ∧ ∀ n : ℕ, n ∈ l ↔
      (∃ c, v[n]? = some (.fin c) ∧ (c < lo ∨ hi < c)) ∨ v[n]? = some .pinf ∨ v[n]? = some .ninf := by
  refine ⟨?_, ?_⟩
  · unfold value at h
    split at h
    · simp at h
    split at h
    · simp at h
    rename_i hl hs
    simp only at h
    split at h
    · simp at h
    rename_i tmp hm
    split at h
    · simp at h
    simp only [Except.ok.injEq] at h
    subst h
    have ht := mapE_length hm
    have hsz : 0 < size := Nat.pos_of_ne_zero hs
    have hle : tmp.length * size ≤ line.length := by
      have h1 : tmp.length ≤ line.length / size := by
        rw [ht]
        simp only [List.length_zip, List.length_dropLast, breshape, List.length_map, List.length_range]
        exact le_trans (min_le_left _ _) (Nat.sub_le _ _)
      exact le_trans (Nat.mul_le_mul_right _ h1) (Nat.div_mul_le_self _ _)
    have hfl : (tmp.flatMap (fun v => List.replicate size v)).length = tmp.length * size := by
      simp
    simp only [List.length_append, List.length_take, List.length_replicate, lastN, List.length_drop, hfl]
    omega
  · unfold call
    rw [h]
    refine ⟨_, rfl, ?_, ?_⟩
    · rw [List.pairwise_map]
      refine List.Pairwise.sublist List.filter_sublist ?_
      have : (v.zipIdx.map Prod.snd).Pairwise (· < ·) := by
        rw [List.zipIdx_map_snd]
        simpa using List.pairwise_lt_range'
      rwa [List.pairwise_map] at this
    · intro n
      simp only [List.mem_map, List.mem_filter, Prod.exists, List.mem_zipIdx_iff_getElem?]
      constructor
      · rintro ⟨x, m, ⟨hx, hb⟩, rfl⟩
        cases x <;> simp_all [below, above]
      · rintro (⟨c, hc, hb⟩ | hc | hc)
        · exact ⟨_, n, ⟨hc, by simpa [below, above] using hb⟩, rfl⟩
        · exact ⟨_, n, ⟨hc, by simp [below, above]⟩, rfl⟩
        · exact ⟨_, n, ⟨hc, by simp [below, above]⟩, rfl⟩

/-- **C80.** Fourier options: each one given is used, each one missing has its default, 8 periods, overlap 0.71 and the
slepian window, in `impedance` as in `prefilter_values`. -/
theorem C80_options (slepian4 : Win) (f : FourierOpts) (cal : κ → ℚ → Option ℂ) (S : SigSet ℂ κ) (o : Impedance.Opts σ)
    (tagElec tagMag : String) (value : (q : ℕ) → List ℂ → List (Fin q → ℂ) → Except Err (List Flt)) (freqs : List ℚ)
    (heap : ℕ → σ) (nper overlap : ℚ) (win : Win)
    (h1 : f.nper = some nper ∨ f.nper = none ∧ nper = 8)
    (h2 : f.overlap = some overlap ∨ f.overlap = none ∧ overlap = 71 / 100)
    (h3 : f.window = some win ∨ f.window = none ∧ win = slepian4) :
    impedanceCall slepian4 f cal S o freqs heap =
      impedance cal S { o with nper := nper, overlap := overlap, win := win } freqs heap ∧
    valuesCall slepian4 f cal S tagElec tagMag value freqs =
      prefilterValues cal S nper overlap win tagElec tagMag value freqs := by
  have : f.fill slepian4 = (nper, overlap, win) := by
    obtain ⟨n, ov, w⟩ := f
    simp only at h1 h2 h3
    rcases h1 with rfl | ⟨rfl, rfl⟩ <;> rcases h2 with rfl | ⟨rfl, rfl⟩ <;> rcases h3 with rfl | ⟨rfl, rfl⟩ <;> rfl
  simp only [impedanceCall, valuesCall, this, and_self]

/-! C81 -/

theorem valuesCall_congr {slepian4 : Win} {f : FourierOpts} {cal : κ → ℚ → Option ℂ} {S S' : SigSet ℂ κ} (hr : S.runs = S'.runs)
    {tagElec tagMag : String} (hE : S.tags.getItem tagElec = S'.tags.getItem tagElec)
    (hB : S.tags.getItem tagMag = S'.tags.getItem tagMag)
    {value : (q : ℕ) → List ℂ → List (Fin q → ℂ) → Except Err (List Flt)} {freqs : List ℚ} :
    valuesCall slepian4 f cal S tagElec tagMag value freqs = valuesCall slepian4 f cal S' tagElec tagMag value freqs := by
  have : ∀ n ov w, valuesOne cal S n ov w tagElec tagMag value = valuesOne cal S' n ov w tagElec tagMag value := by
    intro n ov w
    funext freq
    unfold valuesOne setCoeffs windows
    rw [hr, hE, hB]
  simp only [valuesCall, prefilterValues, this]

/-- The tags are those of `t` except possibly `Bremote`. -/
def sameBut (t t' : Tags) : Prop := t.n = t'.n ∧ ∀ k, k ≠ "Bremote" → t.getItem k = t'.getItem k

theorem setRemote_same {t t' : Tags} {br : List ℕ} (h : setRemote t br = .ok t') :
    sameBut t t' ∧ (br = [] → t' = t) ∧ (br ≠ [] → t'.getItem "Bremote" = .ok br) ∧ ∃ ops, t' = t.run ops := by
  unfold setRemote at h
  split at h
  · rename_i hb
    simp only [Except.ok.injEq] at h
    subst h
    have : br = [] := by simpa using hb
    exact ⟨⟨rfl, fun _ _ => rfl⟩, fun _ => rfl, fun h => absurd this h, [], rfl⟩
  · rename_i hb
    have hne : br ≠ [] := by simpa using hb
    have h0 := h
    unfold Tags.setItem at h
    split at h
    · simp at h
    split at h
    · simp at h
    split at h
    · simp at h
    simp only [Except.ok.injEq] at h
    subst h
    have hv : (tupleit (Tags.toVal br)).map Int.toNat = br := by
      simp only [tupleit, Tags.toVal, List.map_map]
      exact (List.map_congr_left (fun a _ => rfl)).trans (List.map_id br)
    refine ⟨⟨rfl, ?_⟩, fun h => absurd h hne, ?_, [.setItem "Bremote" (Tags.toVal br)], ?_⟩
    · intro k hk
      simp only [Tags.getItem]
      rw [Dict.get?_set, if_neg (Ne.symm hk)]
    · intro _
      simp only [Tags.getItem, hv]
      rw [Dict.get?_set]; simp
    · simp only [Tags.run, List.foldl_cons, List.foldl_nil, Tags.step, h0, Tags.keep]

theorem setRemote_plain {t t' : Tags} {br : List ℕ} (h : setRemote t br = .ok t') (hp : Plain t) : Plain t' := by
  intro k hk
  rw [← (setRemote_same h).1.2 k (by rintro rfl; simp [reserved] at hk)]
  exact hp k hk

/-- What is computed for the intervals does not depend on the tag `Bremote`. -/
theorem valuesIntervals_same [One κ] {slepian4 : Win} {cal : κ → ℚ → Option ℂ} {runs : List (Sync ℂ κ)} {t t' : Tags}
    (hS : Reach ⟨runs, t⟩) (hS' : Reach ⟨runs, t'⟩) (hp : Plain t) (hp' : Plain t') (hr : ∀ s ∈ runs, 0 < s.rate)
    (hs : sameBut t t') {value : (q : ℕ) → List ℂ → List (Fin q → ℂ) → Except Err (List Flt)} {freqs : List ℚ}
    {intervals : List (ℚ × ℚ)} :
    valuesIntervals slepian4 cal ⟨runs, t⟩ value freqs intervals = valuesIntervals slepian4 cal ⟨runs, t'⟩ value freqs intervals := by
  unfold valuesIntervals
  congr 1
  funext i
  obtain ⟨m, h, _⟩ := extractIn_ok (S := ⟨runs, t⟩) (reach_sinv hS) hp hr i.1 i.2
  obtain ⟨m', h', _⟩ := extractIn_ok (S := ⟨runs, t'⟩) (reach_sinv hS') hp' hr i.1 i.2
  simp only [SigSet.extractT, Bool.false_eq_true, if_false, h, h']
  exact valuesCall_congr (S := ⟨winRuns i.1 i.2 runs, ⟨m, t.tags⟩⟩) (S' := ⟨winRuns i.1 i.2 runs, ⟨m', t'.tags⟩⟩) rfl
    (hs.2 "E" (by decide)) (hs.2 "B" (by decide))

theorem sameBut_trans {t t' t'' : Tags} (h : sameBut t t') (h' : sameBut t' t'') : sameBut t t'' :=
  ⟨h.1.trans h'.1, fun k hk => (h.2 k hk).trans (h'.2 k hk)⟩

theorem valuesLoop_tags [One κ] {slepian4 : Win} {cal : κ → ℚ → Option ℂ} {runs : List (Sync ℂ κ)} {names : List String}
    {value : (q : ℕ) → List ℂ → List (Fin q → ℂ) → Except Err (List Flt)} {freqs : List ℚ} {intervals : List (ℚ × ℚ)}
    (cs : List (List (Option ℕ))) (t : Tags) :
    sameBut t (valuesLoop slepian4 cal runs names value freqs intervals cs t).2 := by
  induction cs generalizing t with
  | nil => exact ⟨rfl, fun _ _ => rfl⟩
  | cons c cs ih =>
    unfold valuesLoop
    split
    · exact ⟨rfl, fun _ _ => rfl⟩
    split
    · exact ⟨rfl, fun _ _ => rfl⟩
    rename_i br _ t' ht
    have h1 := (setRemote_same ht).1
    split
    · exact h1
    have h2 := ih t'
    split
    · rename_i h3; rw [h3] at h2; exact sameBut_trans h1 h2
    · rename_i h3; rw [h3] at h2; exact sameBut_trans h1 h2

theorem valuesLoop_ok [One κ] {slepian4 : Win} {cal : κ → ℚ → Option ℂ} {runs : List (Sync ℂ κ)} {names : List String}
    {value : (q : ℕ) → List ℂ → List (Fin q → ℂ) → Except Err (List Flt)} {freqs : List ℚ} {intervals : List (ℚ × ℚ)}
    (hr : ∀ s ∈ runs, 0 < s.rate) (cs : List (List (Option ℕ))) (t : Tags) (hS : Reach (⟨runs, t⟩ : SigSet ℂ κ)) (hp : Plain t)
    {res : List (List (List (List (List Flt) × List ℚ)))} {t' : Tags}
    (h : valuesLoop slepian4 cal runs names value freqs intervals cs t = (.ok res, t')) :
    res.length = cs.length ∧ (∀ r ∈ res, valuesIntervals slepian4 cal ⟨runs, t⟩ value freqs intervals = .ok r) ∧
    (cs = [] → t' = t) ∧
    (∀ c, cs.getLast? = some c → "Bremote" ∉ names → ∀ l, List.Forall₂ (fun k v => t.getItem k = .ok v) (remoteTags names c) l →
      l.flatten ≠ [] → t'.getItem "Bremote" = .ok l.flatten) := by
  induction cs generalizing t res with
  | nil =>
    simp only [valuesLoop, Prod.mk.injEq, Except.ok.injEq] at h
    obtain ⟨rfl, rfl⟩ := h
    simp
  | cons c cs ih =>
    unfold valuesLoop at h
    split at h
    · simp at h
    rename_i br hbr
    split at h
    · simp at h
    rename_i t1 ht1
    obtain ⟨hs, hnil, hset, ops, hops⟩ := setRemote_same ht1
    have hp1 := setRemote_plain ht1 hp
    have hS1 : Reach (⟨runs, t1⟩ : SigSet ℂ κ) := by rw [hops]; exact Reach.editTags ops hS
    split at h
    · simp at h
    rename_i r hr'
    split at h
    · simp at h
    rename_i rs t2 hrec
    simp only [Prod.mk.injEq, Except.ok.injEq] at h
    obtain ⟨rfl, rfl⟩ := h
    obtain ⟨i1, i2, i3, i4⟩ := ih t1 hS1 hp1 hrec
    have hsame := valuesIntervals_same (slepian4 := slepian4) (cal := cal) hS hS1 hp hp1 hr hs (value := value) (freqs := freqs)
      (intervals := intervals)
    refine ⟨by simp [i1], ?_, by simp, ?_⟩
    · intro x hx
      rcases List.mem_cons.1 hx with rfl | hx
      · rw [hsame]; exact hr'
      · rw [hsame]; exact i2 x hx
    · intro d hd hn l hl hne
      cases cs with
      | nil =>
        simp only [List.getLast?_singleton, Option.some.injEq] at hd
        subst hd
        rw [i3 rfl]
        unfold remoteUnion at hbr
        have := mapE_ok.2 hl
        rw [this] at hbr
        simp only [Except.ok.injEq] at hbr
        subst hbr
        exact hset hne
      | cons c' cs =>
        refine i4 d (by simpa using hd) hn l ?_ hne
        refine forall₂_mem hl ?_
        intro k v hk hv
        rw [← hs.2 k ?_]
        · exact hv
        · rintro rfl
          apply hn
          unfold remoteTags at hk
          obtain ⟨e, _, he⟩ := List.mem_filterMap.1 hk
          obtain ⟨i, _, hi⟩ := Option.bind_eq_some_iff.1 he
          exact List.mem_of_getElem? hi

/-- **C81.** `prefilter_values_mass_proc` gives an item for each of the `2 ^ n` combinations of the remotes; they are all the
same: for each interval, the values of `prefilter_values`, with its defaults, on the data in that interval. -/
theorem C81_same_for_all [One κ] (slepian4 : Win) (cal : κ → ℚ → Option ℂ) (S : SigSet ℂ κ) (hS : Reach S) (hp : Plain S.tags)
    (hr : ∀ s ∈ S.runs, 0 < s.rate) (names : List String)
    (value : (q : ℕ) → List ℂ → List (Fin q → ℂ) → Except Err (List Flt)) (freqs : List ℚ) (intervals : List (ℚ × ℚ))
    (res : List (List (List (List (List Flt) × List ℚ)))) (t : Tags)
    (h : valuesMass slepian4 cal S names value freqs intervals = (.ok res, t)) :
    res.length = 2 ^ names.length ∧ ∀ r ∈ res, List.Forall₂ (fun i v => ∃ R, S.extractT i.1 i.2 = .ok R ∧
      prefilterValues cal R 8 (71 / 100) slepian4 "E" "B" value freqs = .ok v) intervals r := by
  unfold valuesMass at h
  split at h
  · simp at h
  split at h
  · simp at h
  obtain ⟨h1, h2, -⟩ := valuesLoop_ok hr _ S.tags hS hp h
  refine ⟨by rw [h1, (C63_combinations _).1], ?_⟩
  intro r hr'
  have := h2 r hr'
  unfold valuesIntervals at this
  rw [mapE_ok] at this
  refine this.imp ?_
  rintro ⟨a, b⟩ v hv
  simp only at hv
  split at hv
  · simp at hv
  rename_i R hR
  exact ⟨R, hR, hv⟩

/-- **C81.** Whatever happens, the caller's tags are not changed except `Bremote`. -/
theorem C81_other_tags [One κ] (slepian4 : Win) (cal : κ → ℚ → Option ℂ) (S : SigSet ℂ κ) (names : List String)
    (value : (q : ℕ) → List ℂ → List (Fin q → ℂ) → Except Err (List Flt)) (freqs : List ℚ) (intervals : List (ℚ × ℚ)) :
    ∀ k, k ≠ "Bremote" → (valuesMass slepian4 cal S names value freqs intervals).2.getItem k = S.tags.getItem k := by
  intro k hk
  unfold valuesMass
  split
  · rfl
  split
  · rfl
  exact ((valuesLoop_tags _ _).2 k hk).symm

theorem remoteTags_all (names : List String) : remoteTags names ((List.range names.length).map some) = names := by
  unfold remoteTags
  rw [List.filterMap_map]
  have : ((fun e : Option ℕ => e.bind fun i => names[i]?) ∘ some) = fun i : ℕ => names[i]? := rfl
  rw [this]
  clear this
  induction names using List.reverseRecOn with
  | nil => rfl
  | append_singleton l a ih =>
    rw [List.length_append, List.length_singleton, List.range_succ, List.filterMap_append]
    congr 1
    · conv => rhs; rw [← ih]
      apply List.filterMap_congr
      intro i hi
      rw [List.getElem?_append_left (List.mem_range.1 hi)]
    · simp

/-- **C81.** `Bremote` is left in the caller's tags: with the channels of all the remotes, one after the other. -/
theorem C81_tag_left [One κ] (slepian4 : Win) (cal : κ → ℚ → Option ℂ) (S : SigSet ℂ κ) (hS : Reach S) (hp : Plain S.tags)
    (hr : ∀ s ∈ S.runs, 0 < s.rate) (names : List String) (hne : names ≠ []) (hb : "Bremote" ∉ names)
    (value : (q : ℕ) → List ℂ → List (Fin q → ℂ) → Except Err (List Flt)) (freqs : List ℚ) (intervals : List (ℚ × ℚ))
    (res : List (List (List (List (List Flt) × List ℚ)))) (t : Tags)
    (h : valuesMass slepian4 cal S names value freqs intervals = (.ok res, t)) (l : List (List ℕ))
    (hl : List.Forall₂ (fun k v => S.tags.getItem k = .ok v) names l) : t.getItem "Bremote" = .ok l.flatten := by
  unfold valuesMass at h
  split at h
  · simp at h
  split at h
  · simp at h
  obtain ⟨-, -, -, h4⟩ := valuesLoop_ok hr _ S.tags hS hp h
  have hlast : (combinations names.length true).getLast? = some ((List.range names.length).map some) :=
    (C63_combinations names.length).2.2.2.2
  refine h4 _ hlast hb l (by rw [remoteTags_all]; exact hl) ?_
  intro h0
  obtain ⟨k, names, rfl⟩ := List.exists_cons_of_ne_nil hne
  cases hl with
  | cons h1 _ =>
    rw [List.flatten_cons, List.append_eq_nil_iff] at h0
    have := ((reach_sinv hS).ok.tags _ _ h1).2.1
    exact this h0.1

theorem valuesLoop_known [One κ] {slepian4 : Win} {cal : κ → ℚ → Option ℂ} {runs : List (Sync ℂ κ)} {names : List String}
    {value : (q : ℕ) → List ℂ → List (Fin q → ℂ) → Except Err (List Flt)} {freqs : List ℚ} {intervals : List (ℚ × ℚ)}
    (cs : List (List (Option ℕ))) (t : Tags) {res : List (List (List (List (List Flt) × List ℚ)))} {t' : Tags}
    (h : valuesLoop slepian4 cal runs names value freqs intervals cs t = (.ok res, t')) :
    ∀ c ∈ cs, ∀ k ∈ remoteTags names c, k ≠ "Bremote" → ∃ v, t.getItem k = .ok v := by
  induction cs generalizing t res with
  | nil => simp
  | cons c cs ih =>
    unfold valuesLoop at h
    split at h
    · simp at h
    rename_i br hbr
    split at h
    · simp at h
    rename_i t1 ht1
    split at h
    · simp at h
    split at h
    · simp at h
    rename_i rs t2 hrec
    simp only [Prod.mk.injEq, Except.ok.injEq] at h
    obtain ⟨rfl, rfl⟩ := h
    intro d hd k hk hne
    rcases List.mem_cons.1 hd with rfl | hd
    · unfold remoteUnion at hbr
      split at hbr
      · simp at hbr
      rename_i l hl
      obtain ⟨v, _, hv⟩ := mapE_ok_forall hl k hk
      exact ⟨v, hv⟩
    · obtain ⟨v, hv⟩ := ih t1 hrec d hd k hk hne
      exact ⟨v, by rw [(setRemote_same ht1).1.2 k hne]; exact hv⟩

/-- **C81.** It succeeds exactly if the tags `E`, `B` and those of the remotes exist and `prefilter_values` succeeds on
every interval. -/
theorem C81_raises [One κ] (slepian4 : Win) (cal : κ → ℚ → Option ℂ) (S : SigSet ℂ κ) (hS : Reach S) (hp : Plain S.tags)
    (hr : ∀ s ∈ S.runs, 0 < s.rate) (names : List String) (hb : "Bremote" ∉ names)
    (value : (q : ℕ) → List ℂ → List (Fin q → ℂ) → Except Err (List Flt)) (freqs : List ℚ) (intervals : List (ℚ × ℚ))
 :
    (∃ res t, valuesMass slepian4 cal S names value freqs intervals = (.ok res, t)) ↔
    HasTag S "E" ∧ HasTag S "B" ∧ (∀ k ∈ names, HasTag S k) ∧ ∀ i ∈ intervals, ∀ R, S.extractT i.1 i.2 = .ok R →
      ∃ v, prefilterValues cal R 8 (71 / 100) slepian4 "E" "B" value freqs = .ok v := by
  constructor
  · rintro ⟨res, t, h⟩
    have h0 := h
    unfold valuesMass at h
    split at h
    · simp at h
    rename_i hE
    split at h
    · simp at h
    rename_i hB
    have attr : ∀ k v, k ∉ Tags.classAttrs → S.tags.getAttr k = .ok v → HasTag S k := by
      intro k v hk hv
      unfold Tags.getAttr at hv
      split at hv
      · rename_i w hw; exact ⟨w, Tags.getItem_ok.2 hw⟩
      · simp [hk] at hv
    refine ⟨attr _ _ (by decide) hE, attr _ _ (by decide) hB, ?_, ?_⟩
    · intro k hk
      have hlast := (C63_combinations names.length).2.2.2.2
      exact valuesLoop_known _ _ h _ (List.mem_of_getLast? hlast) k (by rw [remoteTags_all]; exact hk)
        (by rintro rfl; exact hb hk)
    · intro i hi R hR
      obtain ⟨h1, h2⟩ := C81_same_for_all slepian4 cal S hS hp hr names value freqs intervals res t h0
      obtain ⟨r, hr'⟩ : ∃ r, r ∈ res := List.exists_mem_of_length_pos (by rw [h1]; positivity)
      have h3 := h2 r hr'
      obtain ⟨v, _, R', hR', hv⟩ : ∃ v ∈ r, ∃ R, S.extractT i.1 i.2 = .ok R ∧
          prefilterValues cal R 8 (71 / 100) slepian4 "E" "B" value freqs = .ok v := by
        clear h2 hr' h1 h h0
        induction h3 with
        | nil => simp at hi
        | cons hab _ ih =>
          rcases List.mem_cons.1 hi with rfl | hi
          · exact ⟨_, by simp, hab⟩
          · obtain ⟨v, hv, h⟩ := ih hi
            exact ⟨v, by simp [hv], h⟩
      rw [hR] at hR'
      simp only [Except.ok.injEq] at hR'
      subst hR'
      exact ⟨v, hv⟩
  rintro ⟨hE, hB, hn, hv⟩
  have hI0 : ∃ r, valuesIntervals slepian4 cal S value freqs intervals = .ok r := by
    unfold valuesIntervals
    apply mapE_total
    intro i hi
    obtain ⟨m, h, _⟩ := extractIn_ok (reach_sinv hS) hp hr i.1 i.2
    have h' : S.extractT i.1 i.2 = .ok ⟨winRuns i.1 i.2 S.runs, ⟨m, S.tags.tags⟩⟩ := by
      simp only [SigSet.extractT, Bool.false_eq_true, if_false, h]
    rw [h']
    exact hv i hi _ h'
  obtain ⟨r0, hI0⟩ := hI0
  have attr : ∀ k, HasTag S k → ∃ v, S.tags.getAttr k = .ok v := by
    rintro k ⟨v, hv⟩
    exact ⟨.tag v, by simp [Tags.getAttr, Tags.getItem_ok.1 hv]⟩
  obtain ⟨_, h1⟩ := attr _ hE
  obtain ⟨_, h2⟩ := attr _ hB
  simp only [valuesMass, h1, h2]
  have key : ∀ (cs : List (List (Option ℕ))) (t : Tags), Reach (⟨S.runs, t⟩ : SigSet ℂ κ) → Plain t → sameBut S.tags t →
      ∃ res t', valuesLoop slepian4 cal S.runs names value freqs intervals cs t = (.ok res, t') := by
    intro cs
    induction cs with
    | nil => intro t _ _ _; exact ⟨[], t, rfl⟩
    | cons c cs ih =>
      intro t hR hpt hs
      have hu : ∃ br, remoteUnion t names c = .ok br ∧ ∀ i ∈ br, i < t.n := by
        obtain ⟨l, hl⟩ := mapE_total (f := t.getItem) (l := remoteTags names c) (by
          intro k hk
          unfold remoteTags at hk
          obtain ⟨e, _, he⟩ := List.mem_filterMap.1 hk
          obtain ⟨i, _, hi⟩ := Option.bind_eq_some_iff.1 he
          have hk' := List.mem_of_getElem? hi
          obtain ⟨v, hv⟩ := hn k hk'
          exact ⟨v, by rw [← hs.2 k (by rintro rfl; exact hb hk')]; exact hv⟩)
        refine ⟨l.flatten, by simp only [remoteUnion, hl], ?_⟩
        intro i hi
        obtain ⟨v, hv, hiv⟩ := List.mem_flatten.1 hi
        obtain ⟨k, _, hk⟩ := mapE_ok_exists hl v hv
        exact ((reach_sinv hR).inv.legal k v (Tags.getItem_ok.1 hk)).2.2 i hiv
      obtain ⟨br, hbr, hlt⟩ := hu
      have hset : ∃ t1, setRemote t br = .ok t1 := by
        unfold setRemote
        split
        · exact ⟨t, rfl⟩
        · rename_i hne
          unfold Tags.setItem
          rw [if_neg (by decide), if_neg (by simpa [tupleit, Tags.toVal] using hne)]
          have hidx : t.indices = List.range t.n := by
            have := hpt "indices" (by simp [reserved])
            unfold Tags.getItem at this
            unfold Tags.indices
            split at this
            · simp at this
            · rfl
          rw [if_neg ?_]
          · exact ⟨_, rfl⟩
          · rw [hidx]
            simp only [tupleit, Tags.toVal, List.all_map, Bool.not_eq_false, List.all_eq_true, Function.comp]
            intro i hi
            simpa using hlt i hi
      obtain ⟨t1, ht1⟩ := hset
      obtain ⟨hs1, _, _, ops, hops⟩ := setRemote_same ht1
      have hp1 := setRemote_plain ht1 hpt
      have hS1 : Reach (⟨S.runs, t1⟩ : SigSet ℂ κ) := by rw [hops]; exact Reach.editTags ops hR
      have hI1 := valuesIntervals_same (slepian4 := slepian4) (cal := cal) (runs := S.runs) (t := S.tags) (t' := t1)
        hS hS1 hp hp1 hr (sameBut_trans hs hs1) (value := value) (freqs := freqs) (intervals := intervals)
      obtain ⟨rs, t2, h2⟩ := ih t1 hS1 hp1 (sameBut_trans hs hs1)
      refine ⟨r0 :: rs, t2, ?_⟩
      simp only [valuesLoop, hbr, ht1, ← hI1]
      have : valuesIntervals slepian4 cal ⟨S.runs, S.tags⟩ value freqs intervals = .ok r0 := hI0
      rw [this, h2]
  exact key _ S.tags hS hp ⟨rfl, fun _ _ => rfl⟩


section examples
local instance : One Unit := ⟨()⟩

/-- The values of `prefilter_values` on the tones of the C62 example. -/
theorem exTones_values : ∃ res, prefilterValues (fun _ _ => some 1) exTones 1 0 .none "E" "B"
    (fun _ line _ => .ok (line.map (fun _ => .fin 1))) [1 / 4] = .ok res :=
  (C80_raises (fun _ _ => some 1) exTones 1 0 .none "E" "B" _ [1 / 4]).2 (by
    intro f hf
    rw [List.mem_singleton] at hf
    subst hf
    exact ⟨_, _, [0], [1], _, _, exTones_coeffs, rfl, rfl, .cons rfl .nil, .cons rfl .nil, fun line _ => ⟨_, rfl⟩⟩)
example := C80_values (fun _ _ => some 1) exTones exTones_reach 1 0 .none "E" "B" _ [1 / 4] _ exTones_values.choose_spec
/-- A frequency too low for the runs raises. -/
example : ¬ ∃ res, prefilterValues (fun _ _ => some 1) exTones 1 0 .none "E" "B"
    (fun _ line _ => .ok (line.map (fun _ => .fin 1))) [1 / 100] = .ok res := by
  rw [C80_raises]
  intro h
  obtain ⟨_, _, _, _, _, _, h, _⟩ := h (1 / 100) (by simp)
  obtain ⟨_, hx⟩ := (C41_raises_iff (fun _ _ => some 1) exTones (1 / 100) 1 0 .none).2
    (.inr ⟨_, List.mem_singleton.2 rfl, .inr (by
      have h1 : commonLength [tone 6 0 (1 / 4) 8, tone 3 0 (1 / 4) 8, tone 1 0 (1 / 4) 8] = some 8 := by
        rw [commonLength_some]; simp [tone]
      have h2 : discreteWindow 8 (1 / 100 / 1) 1 0 = .error .value := by decide +kernel
      exact ⟨.value, by simp only [timeToFreq, h1, h2]⟩)⟩)
  rw [hx] at h
  simp at h
/-- The second of two runs: the centre of its first window. -/
example : IsCentre (κ := Unit) [⟨[], [], 1, 0, 8⟩, ⟨[], [], 2, 100, 8⟩] [2, 3] [4, 4] [4, 2] 2 101 :=
  ⟨1, 0, ⟨[], [], 2, 100, 8⟩, 3, 4, 2, rfl, rfl, rfl, rfl, by norm_num, rfl, by norm_num⟩
/-- One window of two samples fitted exactly: value 1, rejected with an upper bound below it. -/
example (lo hi : ℝ) (v : List Flt) (h : Prefilter.value 2 [1, 2] [fun _ : Fin 1 => (1 : ℂ), fun _ => 2] = .ok v) :=
  C80_rejected lo hi 2 [1, 2] [fun _ : Fin 1 => (1 : ℂ), fun _ => 2] v h
example : ∃ v, Prefilter.value 2 [1, 2] [fun _ : Fin 1 => (1 : ℂ), fun _ => 2] = .ok v := by
  obtain ⟨c, hc⟩ := exists_cod (𝕜 := ℂ) (q := 1) [1, 2] [fun _ => 1, fun _ => 2] rfl
  refine ⟨_, C56_value 2 (by norm_num) _ _ [⟨[1, 2], [fun _ => 1, fun _ => 2], c⟩]
    ⟨by simp, by simp, by simp, by simp, ⟨_, rfl, by simp, fun _ => rfl⟩⟩ ?_⟩
  intro t ht
  rw [List.mem_singleton] at ht
  subst ht
  apply hc
  rw [C44_independent _ (by simp [Block.obs, Spec.obs])]
  intro d hd
  have := hd ⟨1, 1, fun _ => 1⟩ (by simp [Block.obs, Spec.obs]) (by simp)
  funext j
  simpa [dotProduct, Fin.fin_one_eq_zero j] using this

/-- Three silent channels over 64 samples. -/
noncomputable def exSilent : SigSet ℂ Unit :=
  ⟨[⟨[List.replicate 64 0, List.replicate 64 0, List.replicate 64 0], [(), (), ()], 1, 0, 64⟩],
    ⟨3, [("E", [0]), ("B", [1]), ("R", [2])]⟩⟩
theorem exSilent_reach : Reach exSilent := by
  refine Reach.new (.dict [("E", .int 0), ("B", .int 1), ("R", .int 2)])
    [.sync ⟨[List.replicate 64 0, List.replicate 64 0, List.replicate 64 0], [(), (), ()], 1, 0, 64⟩] ?_ (by simp) ?_
  · simp only [List.mem_singleton, SigArg.sync.injEq, forall_eq]
    exact ⟨by simp, by simp, by simp⟩
  · with_unfolding_all rfl
theorem exSilent_plain : Plain exSilent.tags := by
  intro k hk
  simp [reserved] at hk
  rcases hk with rfl | rfl | rfl | rfl | rfl <;> decide

/-- Over the whole recording the values exist. -/
theorem exSilent_values : ∃ res t, valuesMass .none (fun _ _ => some 1) exSilent ["R"]
    (fun _ line _ => .ok (line.map (fun _ => .fin 1))) [1 / 4] [(0, 100)] = (.ok res, t) := by
  rw [C81_raises .none (fun _ _ => some 1) exSilent exSilent_reach exSilent_plain (by simp [exSilent]) ["R"] (by decide)]
  refine ⟨⟨[0], rfl⟩, ⟨[1], rfl⟩, ?_, ?_⟩
  · intro k hk
    rw [List.mem_singleton] at hk
    subst hk
    exact ⟨[2], rfl⟩
  intro i hi R hR
  rw [List.mem_singleton] at hi
  subst hi
  have hR' : exSilent.extractT 0 100 = .ok exSilent := by with_unfolding_all rfl
  rw [hR'] at hR
  simp only [Except.ok.injEq] at hR
  subst hR
  rw [C80_raises]
  intro f hf
  rw [List.mem_singleton] at hf
  subst hf
  cases hx : setCoeffs (fun _ _ => some 1) exSilent (1 / 4) 8 (71 / 100) .none with
  | error e =>
    exfalso
    rcases (C41_raises_iff _ _ _ _ _ _).1 ⟨e, hx⟩ with h | ⟨s, hs, ⟨k, _, hk⟩ | ⟨e, he⟩⟩
    · simp [exSilent] at h
    · simp at hk
    · simp only [exSilent, List.mem_singleton] at hs
      subst hs
      obtain ⟨r, hr⟩ := timeToFreq_of (data := [List.replicate 64 0, List.replicate 64 0, List.replicate 64 0]) (fs := 1)
        (freq := 1 / 4) (nper := 8) (overlap := 71 / 100) (N := 64) (win := .none) (n := 3) (L := 32) (s := 9) (by simp)
        (by simp) (by decide +kernel) (by simp [Win.eval])
      rw [hr] at he
      simp at he
  | ok r =>
    obtain ⟨coeffs, w⟩ := r
    let o : Impedance.Opts Unit := { weights := [], nper := 8, overlap := 71 / 100, win := .none }
    obtain ⟨e, b, br, he, hb, -⟩ := reach_chans (o := o) exSilent_reach (R := none) (E := [0]) (B := [1])
      ⟨rfl, rfl, .inl ⟨.inl rfl, rfl⟩⟩ hx
    exact ⟨coeffs, w, [0], [1], e, b, rfl, rfl, rfl, he, hb, fun line _ => ⟨_, rfl⟩⟩
example : exSilent_values.choose.length = 2 :=
  (C81_same_for_all .none (fun _ _ => some 1) exSilent exSilent_reach exSilent_plain (by simp [exSilent]) ["R"] _ _ _ _ _
    exSilent_values.choose_spec.choose_spec).1
example : exSilent_values.choose_spec.choose.getItem "Bremote" = .ok [2] :=
  C81_tag_left .none (fun _ _ => some 1) exSilent exSilent_reach exSilent_plain (by simp [exSilent]) ["R"] (by simp) (by decide)
    _ _ _ _ _ exSilent_values.choose_spec.choose_spec [[2]] (.cons rfl .nil)
end examples

end Razorback.Props
