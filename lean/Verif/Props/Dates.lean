/-
Property C124: the texts by which signal sets and synchronous signals are printed, and their dates.
-/
import Verif.Lemmas.Dates
import Verif.Props.Text
import Verif.Props.SigSet

namespace Razorback.Props
open Razorback Razorback.Spec Razorback.Dates Razorback.Text

/-- **C124.** The dates are those of the calendar: second 0 is the beginning of 1970, each following second is one second later, and
dates exist in the years 1 to 9999; other times raise ValueError. -/
theorem C124_calendar : utcfromtimestamp 0 = .ok ⟨1970, 1, 1, 0, 0, 0⟩ ∧
    (∀ t d, utcfromtimestamp t = .ok d → Exists d ∧ (d ≠ ⟨9999, 12, 31, 23, 59, 59⟩ → utcfromtimestamp (t + 1) = .ok (tick d)) ∧
      (d = ⟨9999, 12, 31, 23, 59, 59⟩ → utcfromtimestamp (t + 1) = .error .value)) ∧
    (∀ t, (∃ d, utcfromtimestamp t = .ok d) ↔ -62135596800 ≤ t ∧ t < 253402300800) ∧
    (∀ t e, utcfromtimestamp t = .error e → e = .value) ∧
    utcfromtimestamp (-62135596800) = .ok ⟨1, 1, 1, 0, 0, 0⟩ := by
  refine ⟨?_, fun t d h => utc_next h, utc_ok, fun t e h => utc_error h, by decide +kernel⟩
  have h : findYear 9999 1 719162 = some (1969 + 1, 0) := (findYear_iff 9999 0 719162 1969 0).2 (by decide)
  unfold utcfromtimestamp
  rw [if_neg (by norm_num)]
  have e : ((0 : ℤ) + 62135596800).toNat = 62135596800 := rfl
  have e2 : 62135596800 / 86400 = 719162 := by norm_num
  simp only [e, e2, h, findMonth_first]

/-- The date shown is that of the time rounded to a second. -/
theorem date_ok {sec : ℚ} {x : Txt} : date sec = .ok x ↔ ∃ d, utcfromtimestamp (roundEven sec) = .ok d ∧ x = dateText d := by
  unfold date
  cases utcfromtimestamp (roundEven sec) with
  | error e => simp
  | ok d => simp [eq_comm]

/-- **C124.** The texts of dates have 19 characters; they are equal exactly for times that round to the same second, and their order as
texts is the order of the times. -/
theorem C124_order (a b : ℚ) (x y : Txt) (hx : date a = .ok x) (hy : date b = .ok y) :
    x.length = 19 ∧ (x = y ↔ roundEven a = roundEven b) ∧ (x < y ↔ roundEven a < roundEven b) ∧ (a ≤ b → x ≤ y) ∧ (x = y → |a - b| ≤ 1) := by
  obtain ⟨d, h1, rfl⟩ := date_ok.1 hx
  obtain ⟨d', h2, rfl⟩ := date_ok.1 hy
  have heq : roundEven a = roundEven b → dateText d = dateText d' := by
    intro h
    rw [h, h2] at h1
    rw [Except.ok.inj h1]
  have hlt : roundEven a < roundEven b → dateText d < dateText d' := text_lt h1 h2
  have hgt : roundEven b < roundEven a → dateText d' < dateText d := text_lt h2 h1
  have hiff : dateText d = dateText d' ↔ roundEven a = roundEven b := by
    refine ⟨fun h => ?_, heq⟩
    rcases lt_trichotomy (roundEven a) (roundEven b) with g | g | g
    · exact absurd (hlt g) (by rw [h]; exact lt_irrefl _)
    · exact g
    · exact absurd (hgt g) (by rw [h]; exact lt_irrefl _)
  refine ⟨dateText_length d, hiff, ⟨fun h => ?_, hlt⟩, fun h => ?_, fun h => ?_⟩
  · rcases lt_trichotomy (roundEven a) (roundEven b) with g | g | g
    · exact g
    · rw [heq g] at h
      exact absurd h (lt_irrefl _)
    · exact absurd (lt_trans h (hgt g)) (lt_irrefl _)
  · rcases (roundEven_mono h).lt_or_eq with g | g
    · exact le_of_lt (hlt g)
    · rw [heq g]
  · have g := hiff.1 h
    have r1 := abs_le.1 (roundEven_spec a)
    have r2 := abs_le.1 (roundEven_spec b)
    rw [g] at r1
    rw [abs_le]
    constructor <;> linarith [r1.1, r1.2, r2.1, r2.2]

/-- A time which has a date. -/
def Datable (t : ℚ) : Prop := -62135596800 ≤ roundEven t ∧ roundEven t < 253402300800

theorem date_datable {t : ℚ} : (∃ x, date t = .ok x) ↔ Datable t := by
  rw [Datable, ← utc_ok]
  constructor
  · rintro ⟨x, h⟩
    obtain ⟨d, h, -⟩ := date_ok.1 h
    exact ⟨d, h⟩
  · rintro ⟨d, h⟩
    exact ⟨_, date_ok.2 ⟨d, h, rfl⟩⟩

theorem date_error {t : ℚ} {e : Err} (h : date t = .error e) : e = .value ∧ ¬ Datable t := by
  constructor
  · unfold date at h
    cases hu : utcfromtimestamp (roundEven t) with
    | error e' =>
      rw [hu] at h
      cases h
      exact utc_error hu
    | ok d => rw [hu] at h; cases h
  · intro hd
    obtain ⟨x, hx⟩ := date_datable.2 hd
    rw [hx] at h
    cases h

section sets
variable {α κ : Type _} [Rnd]

theorem runLine_ok {rate : ℚ → Txt} {s : Sync α κ} {x : Txt} : runLine rate s = .ok x ↔ ∃ a t b, date s.start = .ok a ∧ s.stop = .ok t ∧ date t = .ok b ∧
    x = rjust 10 (rate s.rate) ++ [' ', ' '] ++ a ++ [' ', ' '] ++ b := by
  unfold runLine
  constructor
  · intro h
    split at h
    · cases h
    rename_i a ha
    split at h
    · cases h
    rename_i t ht
    split at h
    · cases h
    rename_i b hb
    refine ⟨a, t, b, ha, ht, hb, ?_⟩
    have h := Except.ok.inj h
    obtain ⟨d, -, rfl⟩ := date_ok.1 ha
    obtain ⟨d', -, rfl⟩ := date_ok.1 hb
    rw [← h]
    simp [Text.join, rjust, dateText_length]
  · rintro ⟨a, t, b, ha, ht, hb, rfl⟩
    simp only [ha, ht, hb]
    obtain ⟨d, -, rfl⟩ := date_ok.1 ha
    obtain ⟨d', -, rfl⟩ := date_ok.1 hb
    simp [Text.join, rjust, dateText_length]

omit [Rnd] in
theorem join_lines (l : List Txt) (h : l ≠ []) : ['\n'] ++ Text.join ['\n'] l = l.flatMap (fun x => '\n' :: x) := by
  induction l with
  | nil => exact absurd rfl h
  | cons a l ih =>
    cases l with
    | nil => simp [Text.join]
    | cons b l =>
      have := ih (by simp)
      simp only [Text.join, List.flatMap_cons] at this ⊢
      rw [← this]
      simp

theorem setStr_ok {rate : ℚ → Txt} {S : SigSet α κ} {x : Txt} : setStr rate S = .ok x ↔ ∃ rows tags, List.Forall₂ (fun s r => runLine rate s = .ok r) S.runs rows ∧
    tagsBlock S.tags = .ok tags ∧
    x = firstLine S.nbChannels S.runs.length ++ ['\n'] ++ tags ++ ([ruleLine, titleLine] ++ rows ++ [ruleLine]).flatMap (fun r => '\n' :: r) := by
  unfold setStr
  constructor
  · intro h
    split at h
    · cases h
    rename_i rows hr
    dsimp only at h
    split at h
    · cases h
    rename_i tags ht
    refine ⟨rows, tags, mapE_ok.1 hr, ht, ?_⟩
    rw [← join_lines _ (by simp), ← Except.ok.inj h]
    simp
  · rintro ⟨rows, tags, hr, ht, rfl⟩
    simp only [mapE_ok.2 hr, ht]
    rw [← join_lines _ (by simp)]
    simp

/-- **C124.** `str` of a signal set: a first line with the numbers of channels and runs, the tags, and a table with one row per run: the
rate, the date of the first and of the last sample.  The dates are in order from row to row: the text of the end of a run is at most that of
the beginning of any later one. -/
theorem C124_table [One κ] (S : SigSet α κ) (hS : Reach S) (rate : ℚ → Txt) (x : Txt) (h : setStr rate S = .ok x) :
    ∃ (tags : Txt) (starts stops rows : List Txt), tagsBlock S.tags = .ok tags ∧
      x = firstLine S.nbChannels S.runs.length ++ "\n".toList ++ tags ++ "\n----------  -------------------  -------------------\n".toList ++
        "  sampling                start                 stop\n".toList ++ rows.flatMap (fun r => r ++ "\n".toList) ++
        "----------  -------------------  -------------------".toList ∧
      List.Forall₂ (fun s a => date s.start = .ok a) S.runs starts ∧
      List.Forall₂ (fun s b => ∃ t, s.stop = .ok t ∧ date t = .ok b) S.runs stops ∧
      rows = List.zipWith (fun s ab => rjust 10 (rate s.rate) ++ "  ".toList ++ ab.1 ++ "  ".toList ++ ab.2) S.runs (starts.zip stops) ∧
      starts.Pairwise (· ≤ ·) ∧ ∀ i j (hi : i < stops.length) (hj : j < starts.length), i < j → stops[i] ≤ starts[j] := by
  obtain ⟨rows, tags, hr, ht, rfl⟩ := setStr_ok.1 h
  have hok := (reach_sinv hS).okAs
  obtain ⟨starts, stops, h1, h2, h3⟩ : ∃ starts stops : List Txt, List.Forall₂ (fun s a => date s.start = .ok a) S.runs starts ∧
      List.Forall₂ (fun s b => ∃ t, s.stop = .ok t ∧ date t = .ok b) S.runs stops ∧
      rows = List.zipWith (fun s ab => rjust 10 (rate s.rate) ++ "  ".toList ++ ab.1 ++ "  ".toList ++ ab.2) S.runs (starts.zip stops) := by
    clear h ht hok hS
    generalize S.runs = l at hr
    induction hr with
    | nil => exact ⟨[], [], .nil, .nil, rfl⟩
    | @cons s r l rows hs _ ih =>
      obtain ⟨starts, stops, h1, h2, h3⟩ := ih
      obtain ⟨a, t, b, ha, ht, hb, rfl⟩ := runLine_ok.1 hs
      exact ⟨a :: starts, b :: stops, .cons ha h1, .cons ⟨t, ht, hb⟩ h2, by rw [h3]; rfl⟩
  refine ⟨tags, starts, stops, rows, ht, ?_, h1, h2, h3, ?_, ?_⟩
  · have e1 : ruleLine = "----------  -------------------  -------------------".toList := by decide +kernel
    have e2 : titleLine = "  sampling                start                 stop".toList := by decide +kernel
    have e3 : ∀ rows : List Txt, ['\n'] ++ rows.flatMap (fun r => r ++ ['\n']) = rows.flatMap (fun r => '\n' :: r) ++ ['\n'] := by
      intro rows
      induction rows with
      | nil => rfl
      | cons a l ih => simp [List.flatMap_cons] at ih ⊢; rw [ih]
    have e3 := e3 rows
    have e4 : "\n----------  -------------------  -------------------\n".toList = ['\n'] ++ ruleLine ++ ['\n'] := by rw [e1]; decide +kernel
    have e5 : "  sampling                start                 stop\n".toList = titleLine ++ ['\n'] := by rw [e2]; decide +kernel
    rw [e4, e5, ← e1, show "\n".toList = ['\n'] from rfl]
    simp only [List.flatMap_append, List.flatMap_cons, List.flatMap_nil, List.append_nil, List.append_assoc, List.cons_append, List.nil_append] at e3 ⊢
    have e3' : ∀ z, '\n' :: (rows.flatMap (fun r => r ++ ['\n']) ++ z) = rows.flatMap (fun r => '\n' :: r) ++ '\n' :: z := by
      intro z
      have := congrArg (· ++ z) e3
      simpa using this
    rw [e3']
  · refine List.pairwise_iff_getElem.2 (fun i j hi hj hij => ?_)
    have hl := h1.length_eq
    have a1 := List.forall₂_iff_get.1 h1 |>.2 i (by omega) hi
    have a2 := List.forall₂_iff_get.1 h1 |>.2 j (by omega) hj
    exact (C124_order _ _ _ _ a1 a2).2.2.2.1 (List.pairwise_iff_getElem.1 hok.sorted i j (by omega) (by omega) hij)
  · intro i j hi hj hij
    have hl := h1.length_eq
    have hl2 := h2.length_eq
    obtain ⟨t, b1, b2⟩ := List.forall₂_iff_get.1 h2 |>.2 i (by omega) hi
    have a2 := List.forall₂_iff_get.1 h1 |>.2 j (by omega) hj
    obtain ⟨t', c1, c2⟩ := List.pairwise_iff_getElem.1 hok.disjoint i j (by omega) (by omega) hij
    have : t = t' := by
      have := b1.symm.trans c1
      exact Except.ok.inj this
    subst this
    exact (C124_order _ _ _ _ b2 a2).2.2.2.1 c2

/-- **C124.** `str` of a signal set raises exactly if a run begins or ends outside the years 1 to 9999 (ValueError), or if a tag is called
`items` (TypeError). -/
theorem C124_raises [One κ] (S : SigSet α κ) (hS : Reach S) (rate : ℚ → Txt) (e : Err) : setStr rate S = .error e ↔
    (e = .value ∧ ∃ s ∈ S.runs, ¬ Datable s.start ∨ ∃ t, s.stop = .ok t ∧ ¬ Datable t) ∨
    (e = .type ∧ "items" ∈ S.tags.tags.keys ∧ ∀ s ∈ S.runs, Datable s.start ∧ ∀ t, s.stop = .ok t → Datable t) := by
  have hok := (reach_sinv hS).okAs
  have hstop : ∀ s ∈ S.runs, ∃ t, s.stop = .ok t := by
    intro s hs
    unfold Sync.stop Sync.indexToTime
    rw [if_neg (hok.rate s hs)]
    exact ⟨_, rfl⟩
  have hline : ∀ s ∈ S.runs, ∀ e, runLine rate s = .error e → e = .value ∧ (¬ Datable s.start ∨ ∃ t, s.stop = .ok t ∧ ¬ Datable t) := by
    intro s hs e he
    unfold runLine at he
    split at he
    · rename_i h1
      cases he
      exact ⟨(date_error h1).1, .inl (date_error h1).2⟩
    split at he
    · rename_i h2
      obtain ⟨t, ht⟩ := hstop s hs
      rw [ht] at h2
      cases h2
    rename_i t ht
    split at he
    · rename_i h3
      cases he
      exact ⟨(date_error h3).1, .inr ⟨t, ht, (date_error h3).2⟩⟩
    · cases he
  have hgood : ∀ s ∈ S.runs, ∀ r, runLine rate s = .ok r → Datable s.start ∧ ∀ t, s.stop = .ok t → Datable t := by
    intro s hs r hr
    obtain ⟨a, t, b, ha, ht, hb, -⟩ := runLine_ok.1 hr
    refine ⟨date_datable.1 ⟨a, ha⟩, fun t' ht' => ?_⟩
    rw [ht] at ht'
    rw [← Except.ok.inj ht']
    exact date_datable.1 ⟨b, hb⟩
  have htag : tagsBlock S.tags = .error e ↔ e = .type ∧ "items" ∈ S.tags.tags.keys := by
    unfold tagsBlock Tags.items Tags.callMethod Dict.has
    cases hg : S.tags.tags.get? "items" with
    | none =>
      have := Dict.get?_eq_none.1 hg
      simp [this]
    | some v =>
      have : "items" ∈ S.tags.tags.keys := by
        by_contra hc
        rw [Dict.get?_eq_none.2 hc] at hg
        cases hg
      simp [this, eq_comm]
  unfold setStr
  cases hm : mapE (runLine rate) S.runs with
  | error e' =>
    obtain ⟨s, hs, he⟩ := mapE_error hm
    obtain ⟨rfl, hbad⟩ := hline s hs e' he
    simp only [Except.error.injEq]
    constructor
    · rintro rfl
      exact .inl ⟨rfl, s, hs, hbad⟩
    · rintro (⟨rfl, -⟩ | ⟨rfl, -, hall⟩)
      · rfl
      · exfalso
        obtain ⟨g1, g2⟩ := hall s hs
        rcases hbad with hb | ⟨t, ht, hb⟩
        · exact hb g1
        · exact hb (g2 t ht)
  | ok rows =>
    have hall : ∀ s ∈ S.runs, Datable s.start ∧ ∀ t, s.stop = .ok t → Datable t := by
      intro s hs
      obtain ⟨r, -, hr⟩ := mapE_ok_forall hm s hs
      exact hgood s hs r hr
    dsimp only
    refine Iff.trans (b := tagsBlock S.tags = .error e) (by cases tagsBlock S.tags <;> simp) ?_
    rw [htag]
    constructor
    · rintro ⟨rfl, h⟩
      exact .inr ⟨rfl, h, hall⟩
    · rintro (⟨-, s, hs, hb | ⟨t, ht, hb⟩⟩ | ⟨rfl, h, -⟩)
      · exact absurd (hall s hs).1 hb
      · exact absurd ((hall s hs).2 t ht) hb
      · exact ⟨rfl, h⟩

omit [Rnd] in
theorem cut_end {c : Char} {a a' r r' : Txt} (ha : c ∉ a) (ha' : c ∉ a') (h : r ++ c :: a = r' ++ c :: a') : r = r' ∧ a = a' := by
  have h' := congrArg List.reverse h
  simp only [List.reverse_append, List.reverse_cons, List.append_assoc, List.cons_append, List.nil_append] at h'
  obtain ⟨h1, h2⟩ := cut (by simpa using ha) (by simpa using ha') h'
  exact ⟨List.reverse_inj.1 h2, List.reverse_inj.1 h1⟩

omit [Rnd] in
theorem lines_inj {x x' : Txt} {A A' : List Txt} (hl : A.length = A'.length) (hA : ∀ a ∈ A, '\n' ∉ a) (hA' : ∀ a ∈ A', '\n' ∉ a)
    (h : x ++ A.flatMap (fun r => '\n' :: r) = x' ++ A'.flatMap (fun r => '\n' :: r)) : x = x' ∧ A = A' := by
  induction A using List.reverseRecOn generalizing A' with
  | nil =>
    have : A' = [] := List.length_eq_zero_iff.1 hl.symm
    subst this
    simpa using h
  | append_singleton A a ih =>
    rcases List.eq_nil_or_concat A' with rfl | ⟨B, b, rfl⟩
    · simp at hl
    · rw [List.concat_eq_append] at *
      rw [List.flatMap_append, List.flatMap_append, ← List.append_assoc, ← List.append_assoc] at h
      simp only [List.flatMap_cons, List.flatMap_nil, List.append_nil] at h
      obtain ⟨h1, rfl⟩ := cut_end (hA a (by simp)) (hA' b (by simp)) h
      obtain ⟨h2, rfl⟩ := ih (by simpa using hl) (fun c hc => hA c (by simp [hc])) (fun c hc => hA' c (by simp [hc])) h1
      exact ⟨h2, rfl⟩

omit [Rnd] in
theorem padded_digit {k n : ℕ} {c : Char} (h : c ∈ padded k n) : c.isDigit = true := by
  induction k generalizing n with
  | zero => simp [padded] at h
  | succ k ih =>
    rw [padded, List.mem_append, List.mem_singleton] at h
    rcases h with h | rfl
    · exact ih h
    · have : ∀ m < 10, (Nat.digitChar m).isDigit = true := by decide
      exact this _ (Nat.mod_lt _ (by norm_num))

omit [Rnd] in
theorem dateText_no_newline (d : DateTime) : '\n' ∉ dateText d := by
  have hd : ∀ k n, '\n' ∉ padded k n := fun k n h => by
    have := padded_digit h
    exact absurd this (by decide)
  simp [dateText, hd]

omit [Rnd] in
theorem firstLine_no_newline (n k : ℕ) : '\n' ∉ firstLine n k := by
  have h : ∀ i, '\n' ∉ nat i := fun i => nat_no (by decide)
  unfold firstLine num
  split_ifs <;> simp [h]

/-- **C124.** The text of a signal set determines its numbers of channels and runs and, for each run, the text of its rate and the seconds in
which it begins and ends.  (The texts of rates are those of `'%10.5g'`: of 10 characters at least, without newline.) -/
theorem C124_unambiguous (S S' : SigSet α κ) (rate : ℚ → Txt) (hrate : ∀ q, '\n' ∉ rate q ∧ 10 ≤ (rate q).length) (x : Txt)
    (h : setStr rate S = .ok x) (h' : setStr rate S' = .ok x) :
    S.nbChannels = S'.nbChannels ∧ List.Forall₂ (fun s s' => rate s.rate = rate s'.rate ∧ roundEven s.start = roundEven s'.start ∧
      ∃ t t', s.stop = .ok t ∧ s'.stop = .ok t' ∧ roundEven t = roundEven t') S.runs S'.runs := by
  obtain ⟨rows, tags, hr, ht, rfl⟩ := setStr_ok.1 h
  obtain ⟨rows', tags', hr', ht', he⟩ := setStr_ok.1 h'
  have hrow : ∀ (T : SigSet α κ) (rows : List Txt), List.Forall₂ (fun s r => runLine rate s = .ok r) T.runs rows → ∀ r ∈ rows, '\n' ∉ r := by
    intro T rows hr r hr'
    obtain ⟨s, -, hs⟩ := mapE_ok_exists (mapE_ok.2 hr) r hr'
    obtain ⟨a, t, b, ha, -, hb, rfl⟩ := runLine_ok.1 hs
    obtain ⟨d, -, rfl⟩ := date_ok.1 ha
    obtain ⟨d', -, rfl⟩ := date_ok.1 hb
    simp [rjust, dateText_no_newline, (hrate s.rate).1]
  have e1 : '\n' ∉ ruleLine := by decide +kernel
  have e2 : '\n' ∉ titleLine := by decide +kernel
  have hcut := he
  simp only [List.append_assoc, List.cons_append, List.nil_append] at hcut
  obtain ⟨h1, -⟩ := cut (firstLine_no_newline _ _) (firstLine_no_newline _ _) hcut
  obtain ⟨h2, h3⟩ := C93_first_line _ _ _ _ h1
  have hl : rows.length = rows'.length := by rw [← hr.length_eq, ← hr'.length_eq, h3]
  have hA : ∀ T rows, List.Forall₂ (fun (s : Sync α κ) r => runLine rate s = .ok r) (SigSet.runs T) rows → ∀ a ∈ [ruleLine, titleLine] ++ rows ++ [ruleLine], '\n' ∉ a := by
    intro T rows hr a ha
    simp only [List.cons_append, List.nil_append, List.mem_cons, List.mem_append, List.not_mem_nil, or_false] at ha
    rcases ha with rfl | rfl | ha | rfl
    · exact e1
    · exact e2
    · exact hrow T rows hr a ha
    · exact e1
  obtain ⟨-, h4⟩ := lines_inj (by simp [hl]) (hA S rows hr) (hA S' rows' hr') he
  simp only [List.append_cancel_left_eq, List.append_cancel_right_eq] at h4
  subst h4
  refine ⟨h2, ?_⟩
  refine List.forall₂_iff_get.2 ⟨h3, fun i hi hi' => ?_⟩
  have hi2 : i < rows.length := by rw [← hr.length_eq]; exact hi
  obtain ⟨a, t, b, ha, ht, hb, hx⟩ := runLine_ok.1 ((List.forall₂_iff_get.1 hr).2 i hi hi2)
  obtain ⟨a', t', b', ha', ht', hb', hx'⟩ := runLine_ok.1 ((List.forall₂_iff_get.1 hr').2 i hi' hi2)
  rw [hx] at hx'
  have la := (C124_order _ _ _ _ ha ha).1
  have lb := (C124_order _ _ _ _ hb hb).1
  have la' := (C124_order _ _ _ _ ha' ha').1
  have lb' := (C124_order _ _ _ _ hb' hb').1
  obtain ⟨g1, g2⟩ := List.append_inj' hx' (by rw [lb, lb'])
  obtain ⟨g3, -⟩ := List.append_inj' g1 rfl
  obtain ⟨g4, g5⟩ := List.append_inj' g3 (by rw [la, la'])
  obtain ⟨g6, -⟩ := List.append_inj' g4 rfl
  have hj : ∀ q, rjust 10 (rate q) = rate q := fun q => by
    rw [rjust, Nat.sub_eq_zero_of_le (hrate q).2]
    rfl
  rw [hj, hj] at g6
  exact ⟨g6, (C124_order _ _ _ _ ha ha').2.1.1 g5, t, t', ht, ht', (C124_order _ _ _ _ hb hb').2.1.1 g2⟩

omit [Rnd] in
theorem item_eq (n p v : Txt) (h : "\n  - ".toList ++ n ++ List.replicate (14 - n.length) ' ' ++ " :   ".toList = '\n' :: p) : item n v = '\n' :: (p ++ v) := by
  unfold item
  rw [h]
  rfl

/-- **C124.** The text of a synchronous signal determines its number of channels, its size, the text of its rate and the seconds in which it
begins and ends. -/
theorem C124_sync (s s' : Sync α κ) (rate : ℚ → Txt) (hrate : ∀ q, '\n' ∉ rate q) (x : Txt) (h : syncStr rate s = .ok x) (h' : syncStr rate s' = .ok x) :
    s.data.length = s'.data.length ∧ s.size = s'.size ∧ rate s.rate = rate s'.rate ∧ roundEven s.start = roundEven s'.start ∧
      ∃ t t', s.stop = .ok t ∧ s'.stop = .ok t' ∧ roundEven t = roundEven t' := by
  have key : ∀ (s : Sync α κ) x, syncStr rate s = .ok x → ∃ a t b, date s.start = .ok a ∧ s.stop = .ok t ∧ date t = .ok b ∧
      x = "SyncSignal".toList ++ (["  - nb of channels :   ".toList ++ nat s.data.length, "  - signal size    :   ".toList ++ nat s.size,
        "  - sampling rate  :   ".toList ++ rate s.rate ++ " Hz".toList, "  - start          :   ".toList ++ a,
        "  - stop           :   ".toList ++ b]).flatMap (fun r => '\n' :: r) := by
    intro s x h
    unfold syncStr at h
    split at h
    · cases h
    rename_i a ha
    split at h
    · cases h
    rename_i t ht
    split at h
    · cases h
    rename_i b hb
    refine ⟨a, t, b, ha, ht, hb, ?_⟩
    rw [← Except.ok.inj h, item_eq "nb of channels".toList "  - nb of channels :   ".toList _ (by decide +kernel),
      item_eq "signal size".toList "  - signal size    :   ".toList _ (by decide +kernel),
      item_eq "sampling rate".toList "  - sampling rate  :   ".toList _ (by decide +kernel),
      item_eq "start".toList "  - start          :   ".toList _ (by decide +kernel),
      item_eq "stop".toList "  - stop           :   ".toList _ (by decide +kernel)]
    generalize "SyncSignal".toList = c0, "  - nb of channels :   ".toList = c1, "  - signal size    :   ".toList = c2, "  - sampling rate  :   ".toList = c3,
      "  - start          :   ".toList = c4, "  - stop           :   ".toList = c5, " Hz".toList = c6
    simp only [List.flatMap_cons, List.flatMap_nil, List.append_nil, List.append_assoc]
  obtain ⟨a, t, b, ha, ht, hb, rfl⟩ := key s x h
  obtain ⟨a', t', b', ha', ht', hb', he⟩ := key s' _ h'
  have hn : ∀ i, '\n' ∉ nat i := fun i => nat_no (by decide)
  have hdt : ∀ t x, date t = .ok x → '\n' ∉ x := by
    intro t x hx
    obtain ⟨d, -, rfl⟩ := date_ok.1 hx
    exact dateText_no_newline d
  obtain ⟨-, h2⟩ := lines_inj (by simp) (by simp [hn, hrate, hdt _ _ ha, hdt _ _ hb]) (by simp [hn, hrate, hdt _ _ ha', hdt _ _ hb']) he
  simp only [List.cons.injEq, List.append_cancel_left_eq, List.append_cancel_right_eq, and_true] at h2
  obtain ⟨g1, g2, g3, g4, g5⟩ := h2
  exact ⟨nat_inj g1, nat_inj g2, g3, (C124_order _ _ _ _ ha ha').2.1.1 g4, t, t', ht, ht', (C124_order _ _ _ _ hb hb').2.1.1 g5⟩

end sets

section row
variable {α κ : Type _}

/-- **C124.** The row of a run of positive rate which is not empty: the first date is not after the second. -/
theorem C124_row (s : Sync α κ) (hr : 0 < s.rate) (hn : 1 ≤ s.size) (t : ℚ) (ht : s.stop = .ok t) (a b : Txt) (ha : date s.start = .ok a)
    (hb : date t = .ok b) : a ≤ b := by
  refine (C124_order _ _ _ _ ha hb).2.2.2.1 ?_
  rw [Sync.stop_eq s hr.ne'] at ht
  rw [← Except.ok.inj ht]
  unfold lastTime
  have : (0 : ℚ) ≤ ((s.size : ℚ) - 1) / s.rate := by
    apply div_nonneg _ hr.le
    have : (1 : ℚ) ≤ s.size := by exact_mod_cast hn
    linarith
  linarith

end row

section examples

/-- The end of February 2000, a leap year, and half seconds, which go to the even second. -/
example : date 951868799 = .ok "2000-02-29 23:59:59".toList ∧ date (951868799 + 1 / 2) = .ok "2000-03-01 00:00:00".toList ∧
    date (951868800 + 1 / 2) = .ok "2000-03-01 00:00:00".toList ∧ date (-1) = .ok "1969-12-31 23:59:59".toList ∧
    date 253402300800 = .error .value := by decide +kernel

/-- A reachable signal set of two runs. -/
def exPrinted : SigSet ℚ Unit := ⟨[⟨[[1, 2], [3, 4]], [(), ()], 1, 0, 2⟩, ⟨[[1, 2], [3, 4]], [(), ()], 1 / 2, 86400, 2⟩], ⟨2, [("E", [0]), ("B", [1])]⟩⟩

local instance instOnePrinted : One Unit := ⟨()⟩

theorem exPrinted_reach : Reach exPrinted := by
  refine Reach.new (.dict [("E", .int 0), ("B", .int 1)])
    [.sync ⟨[[1, 2], [3, 4]], [(), ()], 1, 0, 2⟩, .sync ⟨[[1, 2], [3, 4]], [(), ()], 1 / 2, 86400, 2⟩] ?_ (by simp) ?_
  · simp only [List.mem_cons, List.not_mem_nil, or_false, SigArg.sync.injEq]
    rintro s (rfl | rfl) <;> exact ⟨by simp, by simp, by simp⟩
  · with_unfolding_all rfl

example : setStr (fun q => if q = 1 then "         1".toList else "       0.5".toList) exPrinted = .ok ("SignalSet: 2 channels, 2 runs\n" ++
    "tags: {'B': (1,), 'E': (0,)}\n" ++
    "----------  -------------------  -------------------\n" ++
    "  sampling                start                 stop\n" ++
    "         1  1970-01-01 00:00:00  1970-01-01 00:00:01\n" ++
    "       0.5  1970-01-02 00:00:00  1970-01-02 00:00:02\n" ++
    "----------  -------------------  -------------------").toList := by decide +kernel

example : syncStr (fun _ => "1.0".toList) (⟨[[1, 2], [3, 4]], [(), ()], 1, 0, 2⟩ : Sync ℚ Unit) = .ok ("SyncSignal\n" ++
    "  - nb of channels :   2\n" ++
    "  - signal size    :   2\n" ++
    "  - sampling rate  :   1.0 Hz\n" ++
    "  - start          :   1970-01-01 00:00:00\n" ++
    "  - stop           :   1970-01-01 00:00:01").toList := by decide +kernel

end examples

end Razorback.Props
