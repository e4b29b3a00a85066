import Verif.Spec.Calib
import Verif.Lemmas.Py
import Mathlib.Data.List.TakeWhile
import Mathlib.Tactic.Linarith
import Mathlib.Tactic.FieldSimp
import Mathlib.Tactic.Ring

namespace Razorback.Calib
open Razorback.Spec Razorback.Data

/-! ### Lines -/

theorem readlines_isLines : ∀ t : List Char, IsLines t (readlines t)
  | [] => ⟨rfl, by simp [readlines], by simp [readlines]⟩
  | c :: l => by
    obtain ⟨h1, h2, h3⟩ := readlines_isLines l
    rw [readlines]
    by_cases hc : c = '\n'
    · rw [if_pos hc]
      refine ⟨by simp [h1, hc], ?_, ?_⟩
      · intro x hx
        cases hr : readlines l with
        | nil => rw [hr] at hx; simp at hx
        | cons y ys =>
          rw [hr, List.dropLast_cons_cons] at hx
          rcases List.mem_cons.1 hx with rfl | hx
          · exact ⟨[], rfl, by simp⟩
          · exact h2 x (by rw [hr]; exact hx)
      · intro x hx
        cases hr : readlines l with
        | nil =>
          rw [hr] at hx
          simp at hx
          subst hx
          simp
        | cons y ys =>
          rw [hr, List.getLast?_cons_cons] at hx
          exact h3 x (by rw [hr]; exact hx)
    · rw [if_neg hc]
      cases hr : readlines l with
      | nil =>
        rw [hr] at h1
        refine ⟨by simpa using h1, by simp, ?_⟩
        intro x hx
        simp at hx
        subst hx
        simp
      | cons w ws =>
        rw [hr] at h1 h2 h3
        refine ⟨by simpa using h1, ?_, ?_⟩
        · intro x hx
          cases ws with
          | nil => simp at hx
          | cons y ys =>
            simp only [List.dropLast_cons_cons] at hx h2
            rcases List.mem_cons.1 hx with rfl | hx
            · obtain ⟨b, e1, e2⟩ := h2 w (by simp)
              exact ⟨c :: b, by simp [e1], by simp [e2, Ne.symm hc]⟩
            · exact h2 x (by simp [hx])
        · intro x hx
          cases ws with
          | nil =>
            simp only [List.getLast?_singleton, Option.mem_def, Option.some.injEq] at hx h3
            obtain ⟨e1, e2⟩ := h3 w rfl
            subst hx
            obtain ⟨d, w, rfl⟩ := List.exists_cons_of_ne_nil e1
            refine ⟨by simp, ?_⟩
            rw [List.dropLast_cons_cons]
            simp [e2, Ne.symm hc]
          | cons y ys =>
            rw [List.getLast?_cons_cons] at hx h3
            exact h3 x hx

theorem isLines_unique : ∀ (a b : List (List Char)) (t : List Char), IsLines t a → IsLines t b → a = b
  | [], b, t, ha, hb => by
    have ht : t = [] := by rw [← ha.all]; rfl
    cases b with
    | nil => rfl
    | cons y ys =>
      exfalso
      have h := hb.all
      rw [ht] at h
      simp at h
      cases ys with
      | nil => exact (hb.last y (by simp)).1 h.1
      | cons z zs =>
        obtain ⟨q, e, -⟩ := hb.ends y (by simp)
        rw [h.1] at e
        simp at e
  | x :: xs, [], t, ha, hb => by
    exfalso
    have ht : t = [] := by rw [← hb.all]; rfl
    have h := ha.all
    rw [ht] at h
    simp at h
    cases xs with
    | nil => exact (ha.last x (by simp)).1 h.1
    | cons z zs =>
      obtain ⟨q, e, -⟩ := ha.ends x (by simp)
      rw [h.1] at e
      simp at e
  | x :: xs, y :: ys, t, ha, hb => by
    -- a first line is the text up to and including the first line break
    have key : ∀ (x : List Char) (xs : List (List Char)), IsLines t (x :: xs) →
        (x = t.takeWhile (· ≠ '\n') ∧ xs = [] ∧ '\n' ∉ t) ∨ x = t.takeWhile (· ≠ '\n') ++ ['\n'] := by
      intro x xs h
      have hform : (∃ b, x = b ++ ['\n'] ∧ '\n' ∉ b) ∨ (xs = [] ∧ '\n' ∉ x) := by
        cases xs with
        | cons z zs => exact .inl (h.ends x (by simp))
        | nil =>
          obtain ⟨e1, e2⟩ := h.last x (by simp)
          have hx := List.dropLast_append_getLast e1
          by_cases hl : x.getLast e1 = '\n'
          · left
            exact ⟨x.dropLast, by rw [← hl]; exact hx.symm, e2⟩
          · right
            refine ⟨rfl, ?_⟩
            rw [← hx]
            simp [e2, Ne.symm hl]
      rcases hform with ⟨b, e1, e2⟩ | ⟨e1, e2⟩
      · right
        have : t = b ++ '\n' :: xs.flatten := by
          rw [← h.all, e1]; simp
        rw [this, List.takeWhile_append_of_pos (by
          intro c hc
          simpa using fun e : c = '\n' => e2 (e ▸ hc)), e1]
        simp
      · left
        have : t = x := by rw [← h.all, e1]; simp
        rw [this]
        refine ⟨?_, e1, e2⟩
        rw [List.takeWhile_eq_self_iff.2]
        intro c hc
        simpa using fun e : c = '\n' => e2 (e ▸ hc)
    have hxy : x = y := by
      rcases key x xs ha with ⟨h1, -, hn⟩ | h1 <;> rcases key y ys hb with ⟨h2, -, hn2⟩ | h2
      · rw [h1, h2]
      · exfalso
        apply hn
        rw [← hb.all, h2]
        simp
      · exfalso
        apply hn2
        rw [← ha.all, h1]
        simp
      · rw [h1, h2]
    subst hxy
    have e : xs = ys := by
      refine isLines_unique xs ys xs.flatten ⟨rfl, ?_, ?_⟩ ⟨?_, ?_, ?_⟩
      · intro l hl
        cases xs with
        | nil => simp at hl
        | cons z zs => exact ha.ends l (by rw [List.dropLast_cons_cons]; simp [hl])
      · intro l hl
        cases xs with
        | nil => simp at hl
        | cons z zs => exact ha.last l (by rw [List.getLast?_cons_cons]; exact hl)
      · have := hb.all
        rw [← ha.all] at this
        simpa using this
      · intro l hl
        cases ys with
        | nil => simp at hl
        | cons z zs => exact hb.ends l (by rw [List.dropLast_cons_cons]; simp [hl])
      · intro l hl
        cases ys with
        | nil => simp at hl
        | cons z zs => exact hb.last l (by rw [List.getLast?_cons_cons]; exact hl)
    rw [e]

/-! ### Spaces -/

theorem dropWhile_blank {l : List Char} : l.dropWhile isSpace = [] ↔ Blank l := by
  rw [List.dropWhile_eq_nil_iff]
  rfl

theorem isBlank_iff {l : List Char} : isBlank l = true ↔ Blank l := by
  unfold isBlank strip
  rw [decide_eq_true_eq, List.reverse_eq_nil_iff, dropWhile_blank]
  constructor
  · intro h
    by_contra hb
    have hne : l.dropWhile isSpace ≠ [] := fun e => hb (dropWhile_blank.1 e)
    have h1 := List.head_dropWhile_not isSpace hne
    have h2 := h _ (List.mem_reverse.2 (List.head_mem hne))
    rw [h1] at h2
    simp at h2
  · intro h
    rw [dropWhile_blank.2 h]
    intro c hc
    simp at hc

theorem isSpace_toLower (c : Char) : isSpace c.toLower = isSpace c := by
  unfold Char.toLower
  split
  · next h =>
    have h1 : 65 ≤ c.toNat := h.1
    have h2 : c.toNat ≤ 90 := h.2
    have e1 : isSpace c = false := by
      unfold isSpace
      simp
      omega
    rw [e1]
    have e2 : ∀ d : Char, d.toNat = c.toNat + 32 → isSpace d = false := by
      intro d hd
      unfold isSpace
      simp
      omega
    apply e2
    show (c.val + (97 - 65)).toNat = c.val.toNat + 32
    have h3 : c.val.toNat ≤ 90 := h.2
    rw [UInt32.toNat_add]
    have : ((97 : UInt32) - 65).toNat = 32 := by decide
    rw [this]
    omega
  · rfl

theorem afterPrefix_iff : ∀ {p l r : List Char}, afterPrefix p l = some r ↔ l = p ++ r
  | [], l, r => by simp [afterPrefix]
  | c :: p, [], r => by simp [afterPrefix]
  | c :: p, d :: l, r => by
    rw [afterPrefix]
    by_cases h : c = d
    · rw [if_pos h, afterPrefix_iff]
      simp [h]
    · rw [if_neg h]
      simp [Ne.symm h]

/-- What `strip` removes. -/
theorem strip_split (m : List Char) : ∃ a b, m = a ++ strip m ++ b ∧ Blank a ∧ Blank b := by
  refine ⟨m.takeWhile isSpace, ((m.dropWhile isSpace).reverse.takeWhile isSpace).reverse, ?_, ?_, ?_⟩
  · have h1 := List.takeWhile_append_dropWhile (p := isSpace) (l := m)
    have h2 := List.takeWhile_append_dropWhile (p := isSpace) (l := (m.dropWhile isSpace).reverse)
    have h3 : strip m ++ ((m.dropWhile isSpace).reverse.takeWhile isSpace).reverse = m.dropWhile isSpace := by
      unfold strip
      rw [← List.reverse_append, h2, List.reverse_reverse]
    rw [List.append_assoc, h3, h1]
  · intro c hc
    exact List.mem_takeWhile_imp hc
  · intro c hc
    exact List.mem_takeWhile_imp (List.mem_reverse.1 hc)

/-- Text between characters which are not spaces is kept by `strip`. -/
theorem strip_keep (a x y : List Char) (ha : Blank a) (hx : ∀ c ∈ x.head?, isSpace c = false)
    (hx' : ∀ c ∈ x.getLast?, isSpace c = false) (hne : x ≠ []) : ∃ y', strip (a ++ x ++ y) = x ++ y' := by
  unfold strip
  have h1 : (a ++ x ++ y).dropWhile isSpace = x ++ y := by
    rw [List.append_assoc, List.dropWhile_append_of_pos ha]
    obtain ⟨c, x, rfl⟩ := List.exists_cons_of_ne_nil hne
    rw [List.cons_append, List.dropWhile_cons_of_neg]
    simp [hx c (by simp)]
  rw [h1, List.reverse_append]
  rw [List.dropWhile_append]
  have hx2 : x.reverse.dropWhile isSpace = x.reverse := by
    have : x.reverse ≠ [] := by simpa using hne
    obtain ⟨c, z, hz⟩ := List.exists_cons_of_ne_nil this
    rw [hz, List.dropWhile_cons_of_neg]
    have : x.getLast? = some c := by
      rw [← List.head?_reverse, hz]; rfl
    simp [hx' c this]
  split
  · rw [hx2, List.reverse_reverse]
    exact ⟨[], by simp⟩
  · rw [List.reverse_append, List.reverse_reverse]
    exact ⟨_, rfl⟩

theorem blank_lower {l : List Char} : Blank (l.map Char.toLower) ↔ Blank l := by
  unfold Blank
  simp [isSpace_toLower]

def markWord (on : Bool) : List Char := if on then ['o', 'n'] else ['o', 'f', 'f']

theorem isMark_iff {on : Bool} {l : List Char} : isMark on l = true ↔ Mark on l := by
  have hword : (if on then "on" else "off").toList = markWord on := by cases on <;> rfl
  have hch : "chopper".toList = ['c', 'h', 'o', 'p', 'p', 'e', 'r'] := rfl
  unfold Mark
  rw [hword, hch]
  constructor
  · intro h
    unfold isMark at h
    split at h
    · simp at h
    · simp at h
    · next c r hr =>
      rw [Bool.and_eq_true, Option.isSome_iff_exists] at h
      obtain ⟨hc, e, he⟩ := h
      rw [afterPrefix_iff] at hr he
      have he' : r.dropWhile isSpace = markWord on ++ e := he
      obtain ⟨a, b, hab, ha, hb⟩ := strip_split (lower l)
      have hr2 : r = r.takeWhile isSpace ++ (markWord on ++ e) := by
        rw [← he', List.takeWhile_append_dropWhile]
      have hm : l.map Char.toLower = a ++ (['c', 'h', 'o', 'p', 'p', 'e', 'r'] ++ ((c :: r.takeWhile isSpace) ++
          (markWord on ++ (e ++ b)))) := by
        have : lower l = _ := hab
        unfold lower at this
        rw [this]
        have : strip (lower l) = ['c', 'h', 'o', 'p', 'p', 'e', 'r'] ++ ((c :: r.takeWhile isSpace) ++ (markWord on ++ e)) := by
          rw [hr]
          conv_lhs => rw [hr2]
          simp
        unfold lower at this
        rw [this]
        simp
      rw [List.map_eq_append_iff] at hm
      obtain ⟨a', l1, e1, e2, hm⟩ := hm
      rw [List.map_eq_append_iff] at hm
      obtain ⟨b', l2, e3, e4, hm⟩ := hm
      rw [List.map_eq_append_iff] at hm
      obtain ⟨c', l3, e5, e6, hm⟩ := hm
      rw [List.map_eq_append_iff] at hm
      obtain ⟨d', l4, e7, e8, hm⟩ := hm
      refine ⟨a', b', c', d', l4, by rw [e1, e3, e5, e7]; simp, ?_, e4, ?_, ?_, e8⟩
      · rw [← blank_lower, e2]; exact ha
      · rintro rfl; simp at e6
      · rw [← blank_lower, e6]
        intro x hx
        rcases List.mem_cons.1 hx with rfl | hx
        · exact hc
        · exact List.mem_takeWhile_imp hx
  · rintro ⟨a, b, c, d, e, hl, ha, hb, hcne, hc, hd⟩
    have hm : lower l = a.map Char.toLower ++ (['c', 'h', 'o', 'p', 'p', 'e', 'r'] ++ c.map Char.toLower ++ markWord on) ++
        e.map Char.toLower := by
      unfold lower
      rw [hl]
      simp [hb, hd]
    obtain ⟨y, hy⟩ := strip_keep (a.map Char.toLower) (['c', 'h', 'o', 'p', 'p', 'e', 'r'] ++ c.map Char.toLower ++ markWord on)
      (e.map Char.toLower) (blank_lower.2 ha) (by simp; decide) (by
        intro x hx
        rw [List.getLast?_append_of_ne_nil _ (by cases on <;> simp [markWord])] at hx
        cases on
        · simp [markWord] at hx
          subst hx
          decide
        · simp [markWord] at hx
          subst hx
          decide) (by simp)
    rw [← hm] at hy
    obtain ⟨c0, cs, rfl⟩ := List.exists_cons_of_ne_nil hcne
    have hap : afterPrefix ['c', 'h', 'o', 'p', 'p', 'e', 'r'] (strip (lower l)) =
        some (c0.toLower :: (cs.map Char.toLower ++ markWord on ++ y)) := by
      rw [afterPrefix_iff, hy]
      simp
    unfold isMark
    rw [hap]
    simp only [Bool.and_eq_true]
    refine ⟨by rw [isSpace_toLower]; exact hc c0 (by simp), ?_⟩
    have : (cs.map Char.toLower ++ markWord on ++ y).dropWhile isSpace = markWord on ++ y := by
      rw [List.append_assoc, List.dropWhile_append_of_pos (blank_lower.2 (fun x hx => hc x (by simp [hx])))]
      cases on <;> rfl
    rw [this, Option.isSome_iff_exists]
    exact ⟨y, afterPrefix_iff.2 rfl⟩

/-! ### Words and fields -/

theorem words_spec : ∀ l : List Char, Words l (words l)
  | [] => .nil (by intro c hc; simp at hc)
  | c :: l => by
    rw [words.eq_def]
    dsimp only
    by_cases hc : isSpace c = true
    · rw [if_pos hc]
      have := words_spec l
      generalize words l = ws at this
      cases this with
      | nil hb => exact .nil (by intro x hx; rcases List.mem_cons.1 hx with rfl | hx; exacts [hc, hb x hx])
      | @cons s w rest ws h1 h2 h3 h4 h5 =>
        exact .cons (s := c :: s) (by intro x hx; rcases List.mem_cons.1 hx with rfl | hx; exacts [hc, h1 x hx]) h2 h3 h4 h5
    · rw [if_neg hc]
      have hc' : isSpace c = false := by simpa using hc
      cases l with
      | nil =>
        exact .cons (s := []) (w := [c]) (rest := []) (by intro x hx; simp at hx) (by simp) (by simpa using hc') (by simp)
          (.nil (by intro x hx; simp at hx))
      | cons d l =>
        dsimp only
        have ih := words_spec (d :: l)
        by_cases hd : isSpace d = true
        · rw [if_pos hd]
          exact .cons (s := []) (w := [c]) (rest := d :: l) (by intro x hx; simp at hx) (by simp) (by simpa using hc')
            (by simpa using hd) ih
        · rw [if_neg hd]
          generalize hw : words (d :: l) = ws at ih
          generalize hdl : d :: l = dl at ih
          cases ih with
          | nil hb =>
            rw [← hdl] at hb
            exact absurd (hb d (by simp)) hd
          | @cons s w rest ws h1 h2 h3 h4 h5 =>
            have hs : s = [] := by
              cases s with
              | nil => rfl
              | cons x s =>
                have : d = x := by simp at hdl; exact hdl.1
                exact absurd (h1 x (by simp)) (this ▸ hd)
            subst hs
            dsimp only
            exact .cons (s := []) (w := c :: w) h1 (by simp) (by
              intro x hx
              rcases List.mem_cons.1 hx with rfl | hx
              exacts [hc', h3 x hx]) h4 h5

theorem words_unique {l : List Char} {a : List (List Char)} (ha : Words l a) : ∀ {b}, Words l b → a = b := by
  induction ha with
  | nil h =>
    intro b hb
    cases hb with
    | nil => rfl
    | @cons s w rest ws h1 h2 h3 h4 h5 =>
      obtain ⟨c, w, rfl⟩ := List.exists_cons_of_ne_nil h2
      have e1 := h c (by simp)
      rw [h3 c (by simp)] at e1
      simp at e1
  | @cons s w rest ws h1 h2 h3 h4 h5 ih =>
    intro b hb
    generalize hl : s ++ w ++ rest = l at hb
    cases hb with
    | nil h =>
      obtain ⟨c, w, rfl⟩ := List.exists_cons_of_ne_nil h2
      have e1 := h c (by rw [← hl]; simp)
      rw [h3 c (by simp)] at e1
      simp at e1
    | @cons s' w' rest' ws' k1 k2 k3 k4 k5 =>
      have split : ∀ (s w rest : List Char), Blank s → w ≠ [] → (∀ c ∈ w, isSpace c = false) →
          (∀ c ∈ rest.head?, isSpace c = true) →
          ((s ++ w ++ rest).dropWhile isSpace).takeWhile (fun c => !isSpace c) = w ∧
          ((s ++ w ++ rest).dropWhile isSpace).dropWhile (fun c => !isSpace c) = rest := by
        intro s w rest h1 h2 h3 h4
        have e : (s ++ w ++ rest).dropWhile isSpace = w ++ rest := by
          rw [List.append_assoc, List.dropWhile_append_of_pos h1]
          obtain ⟨c, w, rfl⟩ := List.exists_cons_of_ne_nil h2
          rw [List.cons_append, List.dropWhile_cons_of_neg]
          simp [h3 c (by simp)]
        rw [e, List.takeWhile_append_of_pos (by simpa using h3), List.dropWhile_append_of_pos (by simpa using h3)]
        cases rest with
        | nil => simp
        | cons c rest =>
          have := h4 c (by simp)
          simp [this]
      obtain ⟨p1, p2⟩ := split s w rest h1 h2 h3 h4
      obtain ⟨q1, q2⟩ := split s' w' rest' k1 k2 k3 k4
      rw [hl] at p1 p2
      have ew : w = w' := p1.symm.trans q1
      have er : rest = rest' := p2.symm.trans q2
      subst ew er
      rw [ih k5]

theorem splitComma_spec : ∀ l : List Char, Fields l (splitComma l)
  | [] => .one (by simp)
  | c :: l => by
    have ih := splitComma_spec l
    rw [splitComma]
    by_cases hc : c = ','
    · rw [if_pos hc, hc]
      exact .cons (w := []) (by simp) ih
    · rw [if_neg hc]
      generalize splitComma l = ws at ih
      cases ih with
      | one h => exact .one (by simp [h, Ne.symm hc])
      | @cons w rest ws h1 h2 => exact .cons (w := c :: w) (by simp [h1, Ne.symm hc]) h2

theorem fields_unique {l : List Char} {a : List (List Char)} (ha : Fields l a) : ∀ {b}, Fields l b → a = b := by
  induction ha with
  | one h =>
    intro b hb
    cases hb with
    | one => rfl
    | cons => simp at h
  | @cons w rest ws h1 h2 ih =>
    intro b hb
    generalize hl : w ++ ',' :: rest = l at hb
    cases hb with
    | one h => rw [← hl] at h; simp at h
    | @cons w' rest' ws' k1 k2 =>
      have split : ∀ w rest : List Char, ',' ∉ w → (w ++ ',' :: rest).takeWhile (· ≠ ',') = w := by
        intro w rest h
        rw [List.takeWhile_append_of_pos (by
          intro c hc
          simpa using fun e : c = ',' => h (e ▸ hc))]
        simp
      have ew : w = w' := by
        rw [← split w rest h1, hl, split w' rest' k1]
      subst ew
      have er : rest = rest' := by simpa using hl
      subst er
      rw [ih k2]

/-! ### Sections -/

theorem findIdx?_split {α : Type} {p : α → Bool} : ∀ {a : List α} {y : α} {b : List α}, (∀ x ∈ a, p x = false) → p y = true →
    (a ++ y :: b).findIdx? p = some a.length
  | [], y, b, _, hy => by simp [List.findIdx?_cons, hy]
  | x :: a, y, b, h, hy => by
    rw [List.cons_append, List.findIdx?_cons, h x (by simp), findIdx?_split (fun x hx => h x (by simp [hx])) hy]
    simp

theorem findIdx?_some {α : Type} {p : α → Bool} : ∀ {l : List α} {i : Nat}, l.findIdx? p = some i →
    ∃ a y b, l = a ++ y :: b ∧ a.length = i ∧ (∀ x ∈ a, p x = false) ∧ p y = true
  | [], i, h => by simp at h
  | x :: l, i, h => by
    rw [List.findIdx?_cons] at h
    by_cases hx : p x = true
    · rw [if_pos hx] at h
      injection h with h
      exact ⟨[], x, l, rfl, h, by simp, hx⟩
    · rw [if_neg hx] at h
      rw [Option.map_eq_some_iff] at h
      obtain ⟨j, hj, rfl⟩ := h
      obtain ⟨a, y, b, h1, h2, h3, h4⟩ := findIdx?_some hj
      refine ⟨x :: a, y, b, by rw [h1]; rfl, by simp [h2], ?_, h4⟩
      intro z hz
      rcases List.mem_cons.1 hz with rfl | hz
      · simpa using hx
      · exact h3 z hz

/-- The lines read by `metronix` are those of the section. -/
theorem section_iff {on : Bool} {lines table : List (List Char)} :
    (∃ ss, startStop on lines = .ok ss ∧ between lines ss = table) ↔ Section on lines table := by
  constructor
  · rintro ⟨ss, h1, h2⟩
    unfold startStop at h1
    split at h1
    · simp at h1
    · next i hi =>
      injection h1 with h1
      obtain ⟨a, y, b, e1, e2, e3, e4⟩ := findIdx?_some hi
      have hdrop : lines.drop (i + 1) = b := by
        rw [e1, ← e2, ← List.drop_drop]
        simp
      rw [hdrop] at h1
      have hna : ∀ l ∈ a, ¬ Mark on l := by
        intro l hl hm
        rw [← isMark_iff, e3 l hl] at hm
        simp at hm
      cases hb : b.findIdx? isBlank with
      | none =>
        rw [hb] at h1
        rw [← h1] at h2
        simp only [between, Option.map_none, hdrop] at h2
        refine ⟨a, y, [], by rw [e1, ← h2]; simp, hna, isMark_iff.1 e4, ?_, by simp⟩
        intro l hl hbl
        rw [List.findIdx?_eq_none_iff] at hb
        have := hb l (h2 ▸ hl)
        rw [isBlank_iff.2 hbl] at this
        simp at this
      | some k =>
        rw [hb] at h1
        rw [← h1] at h2
        simp only [between, Option.map_some] at h2
        obtain ⟨a', y', b', f1, f2, f3, f4⟩ := findIdx?_some hb
        have hk : lines = (a ++ [y]) ++ a' ++ (y' :: b') := by rw [e1, f1]; simp
        have ht : table = a' := by
          rw [← h2, hk, List.take_append_of_le_length (by simp; omega),
            List.take_of_length_le (by simp; omega), List.drop_append_of_le_length (by simp; omega),
            List.drop_of_length_le (by simp; omega)]
          simp
        refine ⟨a, y, y' :: b', by rw [hk, ht]; simp, hna, isMark_iff.1 e4, ?_, ?_⟩
        · intro l hl hbl
          have := f3 l (ht ▸ hl)
          rw [isBlank_iff.2 hbl] at this
          simp at this
        · intro l hl
          simp at hl
          subst hl
          exact isBlank_iff.1 f4
  · rintro ⟨a, y, rest, e1, e2, e3, e4, e5⟩
    have hi : lines.findIdx? (isMark on) = some a.length := by
      rw [e1]
      refine findIdx?_split ?_ (isMark_iff.2 e3)
      intro x hx
      have := e2 x hx
      rw [← isMark_iff] at this
      simpa using this
    have hdrop : lines.drop (a.length + 1) = table ++ rest := by
      rw [e1, ← List.drop_drop]
      simp
    have htb : ∀ x ∈ table, isBlank x = false := by
      intro x hx
      have := e4 x hx
      rw [← isBlank_iff] at this
      simpa using this
    unfold startStop
    rw [hi]
    simp only [hdrop]
    refine ⟨_, rfl, ?_⟩
    cases rest with
    | nil =>
      have : (table ++ []).findIdx? isBlank = none := by
        rw [List.append_nil, List.findIdx?_eq_none_iff]
        exact htb
      rw [this]
      simp only [between, Option.map_none, hdrop]
      simp
    | cons z rest =>
      have : (table ++ z :: rest).findIdx? isBlank = some table.length :=
        findIdx?_split htb (isBlank_iff.2 (e5 z (by simp)))
      rw [this]
      simp only [between, Option.map_some]
      have hk : lines = (a ++ [y]) ++ table ++ (z :: rest) := by rw [e1]; simp
      rw [hk, List.take_append_of_le_length (by simp; omega),
        List.take_of_length_le (by simp; omega), List.drop_append_of_le_length (by simp),
        List.drop_of_length_le (by simp)]
      simp

/-! ### Tables -/

theorem num_iff {num : List Char → Option ℚ} {w : List Char} {q : ℚ} :
    toNum num w = .ok q ↔ num w = some q := by
  unfold toNum
  cases num w <;> simp

theorem loadRow_none {num : List Char → Option ℚ} {fs : List (List Char)} {r : List ℚ} :
    loadRow num none fs = .ok r ↔ List.Forall₂ (fun w q => num w = some q) fs r := by
  unfold loadRow
  dsimp only
  rw [mapE_ok]
  simp only [num_iff]

theorem loadRow_some {num : List Char → Option ℚ} {n : Nat} {fs : List (List Char)} {r : List ℚ} :
    loadRow num (some n) fs = .ok r ↔ n ≤ fs.length ∧ List.Forall₂ (fun w q => num w = some q) (fs.take n) r := by
  unfold loadRow
  dsimp only
  by_cases h : fs.length < n
  · rw [if_pos h]
    simp
    intro h'
    omega
  · rw [if_neg h, mapE_ok]
    simp only [num_iff]
    simp
    omega

/-- The rows loaded from a table. -/
theorem loadtxt_iff {num : List Char → Option ℚ} {fields : List Char → List (List Char)} {cols : Option Nat}
    {R : List Char → List ℚ → Prop} (hcols : ∀ n, cols = some n → 0 < n)
    (hR : ∀ l r, R l r ↔ (fields l = [] ∧ r = []) ∨ (fields l ≠ [] ∧ loadRow num cols (fields l) = .ok r))
    {lines : List (List Char)} {rows : List (List ℚ)} :
    loadtxt num fields cols lines = .ok rows ↔ RowsOf R lines rows := by
  have hne : ∀ fs r, fs ≠ [] → loadRow num cols fs = .ok r → r ≠ [] := by
    intro fs r hfs hr
    cases cols with
    | none =>
      rw [loadRow_none] at hr
      rintro rfl
      cases hr
      exact hfs rfl
    | some n =>
      rw [loadRow_some] at hr
      rintro rfl
      obtain ⟨h1, h2⟩ := hr
      have h3 := h2.length_eq
      have h4 := hcols n rfl
      rw [List.length_take] at h3
      simp at h3
      rcases h3 with h3 | h3
      · omega
      · exact hfs h3
  have key : ∀ (lines : List (List Char)) (rows : List (List ℚ)),
      mapE (loadRow num cols) ((lines.map fields).filter (· ≠ [])) = .ok rows ↔
      ∃ rs, List.Forall₂ R lines rs ∧ rows = rs.filter (· ≠ []) := by
    intro lines
    induction lines with
    | nil =>
      intro rows
      simp [mapE]
    | cons l lines ih =>
      intro rows
      by_cases hl : fields l = []
      · have e : ((l :: lines).map fields).filter (· ≠ []) = (lines.map fields).filter (· ≠ []) := by simp [hl]
        rw [e, ih]
        constructor
        · rintro ⟨rs, h1, h2⟩
          exact ⟨[] :: rs, .cons ((hR _ _).2 (.inl ⟨hl, rfl⟩)) h1, by simpa using h2⟩
        · rintro ⟨rs, h1, h2⟩
          cases h1 with
          | cons a b =>
            rcases (hR _ _).1 a with ⟨-, rfl⟩ | ⟨hl', -⟩
            · exact ⟨_, b, by simpa using h2⟩
            · exact absurd hl hl'
      · have e : ((l :: lines).map fields).filter (· ≠ []) = fields l :: (lines.map fields).filter (· ≠ []) := by simp [hl]
        rw [e, mapE_ok]
        constructor
        · intro h
          cases h with
          | @cons _ r _ rows a b =>
            rw [← mapE_ok] at b
            obtain ⟨rs, h1, h2⟩ := (ih rows).1 b
            refine ⟨r :: rs, .cons ((hR _ _).2 (.inr ⟨hl, a⟩)) h1, ?_⟩
            rw [List.filter_cons_of_pos (by simpa using hne _ _ hl a), h2]
        · rintro ⟨rs, h1, h2⟩
          cases h1 with
          | @cons _ r _ rs a b =>
            rcases (hR _ _).1 a with ⟨hl', -⟩ | ⟨-, hr⟩
            · exact absurd hl' hl
            · rw [List.filter_cons_of_pos (by simpa using hne _ _ hl hr)] at h2
              rw [h2]
              refine .cons hr ?_
              rw [← mapE_ok, ih]
              exact ⟨rs, b, rfl⟩
  unfold RowsOf
  rw [← key]
  unfold loadtxt
  cases hm : mapE (loadRow num cols) ((lines.map fields).filter (· ≠ [])) with
  | error e => simp
  | ok rs =>
    cases rs with
    | nil =>
      simp only [Except.ok.injEq]
      constructor
      · rintro rfl; simp
      · exact fun h => h.1
    | cons r rs =>
      dsimp only
      by_cases h : rs.all (fun r' => r'.length = r.length) = true
      · rw [if_pos h]
        simp only [Except.ok.injEq]
        refine ⟨?_, fun h => h.1⟩
        rintro rfl
        refine ⟨rfl, ?_⟩
        rw [List.all_eq_true] at h
        have hall : ∀ x ∈ r :: rs, x.length = r.length := by
          intro x hx
          rcases List.mem_cons.1 hx with rfl | hx
          · rfl
          · simpa using h x hx
        intro x hx y hy
        rw [hall x hx, hall y hy]
      · rw [if_neg h]
        simp only [reduceCtorEq, false_iff, not_and, Except.ok.injEq]
        rintro rfl hall
        apply h
        rw [List.all_eq_true]
        intro x hx
        simpa using hall x (by simp [hx]) r (by simp)

theorem content_eq (l : List Char) : payload l = content l := rfl

theorem words_nil {l : List Char} {ws : List (List Char)} (h : Words l ws) : words l = ws := words_unique (words_spec l) h

theorem rows_ws {num : List Char → Option ℚ} {lines : List (List Char)} {rows : List (List ℚ)} :
    loadtxt num fieldsWs none lines = .ok rows ↔ RowsOf (RowOf num) lines rows := by
  refine loadtxt_iff (by simp) ?_
  intro l r
  unfold RowOf fieldsWs
  rw [content_eq, loadRow_none]
  constructor
  · rintro ⟨ws, h1, h2⟩
    rw [words_nil h1]
    by_cases hw : ws = []
    · subst hw
      cases h2
      exact .inl ⟨rfl, rfl⟩
    · exact .inr ⟨hw, h2⟩
  · rintro (⟨h1, rfl⟩ | ⟨h1, h2⟩)
    · exact ⟨[], h1 ▸ words_spec (content l), .nil⟩
    · exact ⟨_, words_spec _, h2⟩

theorem rows_cts {num : List Char → Option ℚ} {n : Nat} (hn : 0 < n) {lines : List (List Char)} {rows : List (List ℚ)} :
    loadtxt num fieldsComma (some n) lines = .ok rows ↔ RowsOf (CtsRowOf num n) lines rows := by
  refine loadtxt_iff (by simp [hn]) ?_
  intro l r
  unfold CtsRowOf fieldsComma
  rw [content_eq, loadRow_some]
  by_cases hc : content l = []
  · simp [hc]
  · have hs := splitComma_spec (content l)
    have hne : splitComma (content l) ≠ [] := by
      intro e
      rw [e] at hs
      generalize content l = cl at hs
      cases hs
    simp only [hc, if_false, hne, ne_eq, not_false_eq_true, true_and, false_and, false_or]
    constructor
    · rintro ⟨ws, h1, h2⟩
      rw [fields_unique hs h1]
      exact h2
    · intro h
      exact ⟨_, hs, h⟩

theorem translated_universal : ∀ raw : List Char, Translated raw (universal raw)
  | [] => .nil
  | c :: l => by
    by_cases hc : c = '\r'
    · subst hc
      cases l with
      | nil => exact .cr (by simp) (translated_universal [])
      | cons d l =>
        by_cases hd : d = '\n'
        · subst hd
          exact .crlf (translated_universal l)
        · have e : universal ('\r' :: d :: l) = '\n' :: universal (d :: l) := by
            rw [universal]
            intro l' h
            injection h with h _
            exact hd h
          rw [e]
          exact .cr (by simpa using hd) (translated_universal (d :: l))
    · have e : universal (c :: l) = c :: universal l := by
        rw [universal]
        · intro l' h
          exact absurd h hc
        · exact hc
      rw [e]
      exact .other hc (translated_universal l)
termination_by l => l.length

theorem translated_unique {raw t t' : List Char} (h : Translated raw t) (h' : Translated raw t') : t = t' := by
  induction h generalizing t' with
  | nil => cases h'; rfl
  | other hc _ ih =>
    cases h' with
    | other _ h2 => rw [ih h2]
    | crlf _ => exact absurd rfl hc
    | cr _ _ => exact absurd rfl hc
  | crlf _ ih =>
    cases h' with
    | other h1 _ => exact absurd rfl h1
    | crlf h2 => rw [ih h2]
    | cr h1 _ => simp at h1
  | cr hn _ ih =>
    cases h' with
    | other h1 _ => exact absurd rfl h1
    | crlf _ => simp at hn
    | cr _ h2 => rw [ih h2]

theorem linesOf_iff {raw : List Char} {lines : List (List Char)} : LinesOf raw lines ↔ lines = readlines (universal raw) := by
  constructor
  · rintro ⟨t, h1, h2⟩
    rw [translated_unique h1 (translated_universal raw)] at h2
    exact isLines_unique _ _ _ h2 (readlines_isLines _)
  · rintro rfl
    exact ⟨_, translated_universal raw, readlines_isLines _⟩

theorem takeWhile_last {α : Type} {p : α → Bool} {l : List α} : ∀ c ∈ (l.dropWhile p).head?, p c = false := by
  induction l with
  | nil => simp
  | cons a l ih =>
    by_cases ha : p a = true
    · rw [List.dropWhile_cons_of_pos ha]; exact ih
    · rw [List.dropWhile_cons_of_neg ha]
      intro c hc
      simp only [List.head?_cons, Option.mem_def, Option.some.injEq] at hc
      rw [← hc]; simpa using ha

theorem stripped_iff {l s : List Char} : Stripped l s ↔ s = strip l := by
  constructor
  · rintro ⟨a, b, rfl, ha, hb, h1, h2⟩
    unfold strip
    by_cases hs : s = []
    · subst hs
      have e : (a ++ [] ++ b).dropWhile isSpace = [] := by
        rw [List.dropWhile_eq_nil_iff]
        intro x hx
        rcases List.mem_append.1 hx with hx | hx
        · exact ha x (by simpa using hx)
        · exact hb x hx
      rw [e]; rfl
    · have e1 : (a ++ s ++ b).dropWhile isSpace = s ++ b := by
        rw [List.append_assoc, List.dropWhile_append_of_pos ha]
        obtain ⟨c, s, rfl⟩ := List.exists_cons_of_ne_nil hs
        rw [List.cons_append, List.dropWhile_cons_of_neg]
        rw [h1 c rfl]; simp
      rw [e1, List.reverse_append, List.dropWhile_append_of_pos (by intro x hx; exact hb x (by simpa using hx))]
      have hr : s.reverse ≠ [] := by simpa using hs
      obtain ⟨c, t, ht⟩ := List.exists_cons_of_ne_nil hr
      have hc : isSpace c = false := h2 c (by rw [← List.head?_reverse, ht]; rfl)
      rw [ht, List.dropWhile_cons_of_neg (by rw [hc]; simp), ← ht, List.reverse_reverse]
  · rintro rfl
    obtain ⟨a, b, h1, h2, h3⟩ := strip_split l
    refine ⟨a, b, h1, h2, h3, ?_, ?_⟩
    · intro c hc
      unfold strip at hc
      rw [List.head?_reverse] at hc
      have hh := takeWhile_last (p := isSpace) (l := l)
      obtain ⟨pre, hpre⟩ := List.dropWhile_suffix (p := isSpace) (l := (l.dropWhile isSpace).reverse)
      have hne : (l.dropWhile isSpace).reverse.dropWhile isSpace ≠ [] := by
        intro h0; rw [h0] at hc; simp at hc
      have : c ∈ (l.dropWhile isSpace).head? := by
        rw [← List.getLast?_reverse, ← hpre, List.getLast?_append_of_ne_nil _ hne]
        exact hc
      exact hh c this
    · intro c hc
      unfold strip at hc
      rw [List.getLast?_reverse] at hc
      exact takeWhile_last c hc

theorem stemOf_iff {p : Path} {s : List Char} : StemOf p s ↔ s = stem p := by
  have key : ∀ name s : List Char, (Dotted name s ∨ (¬ ∃ s, Dotted name s) ∧ s = name) ↔
      s = (if '.' ∈ name ∧ ((name.reverse.dropWhile (· ≠ '.')).drop 1) ≠ [] ∧ name.reverse.takeWhile (· ≠ '.') ≠ []
        then ((name.reverse.dropWhile (· ≠ '.')).drop 1).reverse else name) := by
    intro name
    have hd : ∀ s, Dotted name s ↔ ('.' ∈ name ∧ ((name.reverse.dropWhile (· ≠ '.')).drop 1) ≠ [] ∧
        name.reverse.takeWhile (· ≠ '.') ≠ []) ∧ s = ((name.reverse.dropWhile (· ≠ '.')).drop 1).reverse := by
      intro s
      constructor
      · rintro ⟨ext, rfl, h1, h2, h3⟩
        have e1 : (s ++ '.' :: ext).reverse = ext.reverse ++ '.' :: s.reverse := by simp
        have hx : ∀ x ∈ ext.reverse, (decide (x ≠ '.')) = true := by
          intro x hx
          rw [decide_eq_true_eq]
          rintro rfl
          exact h3 (by simpa using hx)
        have e2 : (s ++ '.' :: ext).reverse.dropWhile (· ≠ '.') = '.' :: s.reverse := by
          rw [e1, List.dropWhile_append_of_pos hx, List.dropWhile_cons_of_neg (by simp)]
        have e3 : (s ++ '.' :: ext).reverse.takeWhile (· ≠ '.') = ext.reverse := by
          rw [e1, List.takeWhile_append_of_pos hx, List.takeWhile_cons_of_neg (by simp), List.append_nil]
        rw [e2, e3]
        simp [h1, h2]
      · rintro ⟨⟨h1, h2, h3⟩, rfl⟩
        refine ⟨(name.reverse.takeWhile (· ≠ '.')).reverse, ?_, by simpa using h2, by simpa using h3, ?_⟩
        · have e1 := List.takeWhile_append_dropWhile (p := fun c => decide (c ≠ '.')) (l := name.reverse)
          have e2 : name.reverse.dropWhile (· ≠ '.') = '.' :: (name.reverse.dropWhile (· ≠ '.')).drop 1 := by
            cases hl : name.reverse.dropWhile (· ≠ '.') with
            | nil => rw [hl] at h2; simp at h2
            | cons c l =>
              have := takeWhile_last (p := fun c => decide (c ≠ '.')) (l := name.reverse) c (by rw [hl]; rfl)
              simp only [ne_eq, decide_not, Bool.not_eq_eq_eq_not, Bool.not_false, decide_eq_true_eq] at this
              rw [this]; rfl
          rw [e2] at e1
          have e3 := congrArg List.reverse e1
          rw [List.reverse_append, List.reverse_cons, List.reverse_reverse] at e3
          rw [List.append_assoc] at e3
          exact e3.symm
        · intro h
          rw [List.mem_reverse] at h
          have := List.mem_takeWhile_imp h
          simp at this
    intro s
    constructor
    · rintro (h | ⟨h1, h2⟩)
      · obtain ⟨k1, k2⟩ := (hd s).1 h
        rw [if_pos k1, k2]
      · rw [if_neg, h2]
        intro k
        exact h1 ⟨_, (hd _).2 ⟨k, rfl⟩⟩
    · intro h
      by_cases k : '.' ∈ name ∧ ((name.reverse.dropWhile (· ≠ '.')).drop 1) ≠ [] ∧ name.reverse.takeWhile (· ≠ '.') ≠ []
      · rw [if_pos k] at h
        exact .inl ((hd s).2 ⟨k, h⟩)
      · rw [if_neg k] at h
        refine .inr ⟨?_, h⟩
        rintro ⟨s', hs'⟩
        exact k ((hd s').1 hs').1
  unfold StemOf stem
  constructor
  · rintro ⟨name, rfl, h⟩
    have := (key _ s).1 h
    cases hp : p.parts.getLast? with
    | none => rw [hp] at this; simpa using this
    | some name => rw [hp] at this; exact this
  · intro h
    refine ⟨_, rfl, (key _ s).2 ?_⟩
    cases hp : p.parts.getLast? with
    | none => rw [hp] at h; simpa using h
    | some name => rw [hp] at h; exact h

theorem metronixRows_iff {num : List Char → Option ℚ} {text : List Char} {on : Bool} {rows : List (List ℚ)} :
    (∃ ss, startStop on (readlines (universal text)) = .ok ss ∧
      loadtxt num fieldsWs none (between (readlines (universal text)) ss) = .ok rows) ↔
      MetronixRows num text on rows := by
  unfold MetronixRows
  constructor
  · rintro ⟨ss, h1, h2⟩
    exact ⟨_, _, linesOf_iff.2 rfl, section_iff.1 ⟨ss, h1, rfl⟩, rows_ws.1 h2⟩
  · rintro ⟨lines, table, h1, h2, h3⟩
    have e := linesOf_iff.1 h1
    subst e
    obtain ⟨ss, k1, k2⟩ := section_iff.2 h2
    exact ⟨ss, k1, by rw [k2]; exact rows_ws.2 h3⟩

/-! ### Interpolation -/

def Strict (s : List (ℚ × ℂ)) : Prop := s.Pairwise (fun a b => a.1 < b.1)

theorem interp1d_perm (pts : List (ℚ × ℂ)) : (interp1d pts).Perm pts := List.perm_insertionSort _ _

theorem interp1d_strict {pts : List (ℚ × ℂ)} (h : (pts.map Prod.fst).Nodup) : Strict (interp1d pts) := by
  have h1 : (interp1d pts).Pairwise (fun a b => a.1 ≤ b.1) := by
    unfold interp1d
    haveI : Std.Total (fun a b : ℚ × ℂ => a.1 ≤ b.1) := ⟨fun a b => le_total a.1 b.1⟩
    haveI : IsTrans (ℚ × ℂ) (fun a b => a.1 ≤ b.1) := ⟨fun a b c => le_trans⟩
    exact List.pairwise_insertionSort _ _
  have h2 : (interp1d pts).Pairwise (fun a b => a.1 ≠ b.1) := by
    have : ((interp1d pts).map Prod.fst).Nodup := (((interp1d_perm pts).map Prod.fst).nodup_iff).2 h
    exact List.pairwise_map.1 this
  exact (h1.and h2).imp (fun h => lt_of_le_of_ne h.1 h.2)

theorem head_le {s : List (ℚ × ℂ)} (h : Strict s) {a : ℚ × ℂ} (ha : s.head? = some a) : ∀ x ∈ s, a.1 ≤ x.1 := by
  cases s with
  | nil => simp at ha
  | cons b s =>
    simp at ha
    subst ha
    intro x hx
    rcases List.mem_cons.1 hx with rfl | hx
    · exact le_refl _
    · exact le_of_lt (List.rel_of_pairwise_cons h hx)

theorem le_last {s : List (ℚ × ℂ)} (h : Strict s) {a : ℚ × ℂ} (ha : s.getLast? = some a) : ∀ x ∈ s, x.1 ≤ a.1 := by
  intro x hx
  have hne : s ≠ [] := by rintro rfl; simp at hx
  have e := List.dropLast_append_getLast hne
  rw [List.getLast?_eq_some_getLast hne] at ha
  injection ha with ha
  rw [ha] at e
  rw [← e] at hx h
  rw [List.mem_append] at hx
  rcases hx with hx | hx
  · exact le_of_lt ((List.pairwise_append.1 h).2.2 x hx a (by simp))
  · simp at hx
    rw [hx]

theorem evalInterp_between {l r : List (ℚ × ℂ)} {a b : ℚ × ℂ} (h : Strict (l ++ a :: b :: r)) {f : ℚ} (h1 : a.1 < f)
    (h2 : f ≤ b.1) : evalInterp (l ++ a :: b :: r) f = .ok (some (onLine a.1 b.1 a.2 b.2 f)) := by
  have hne : l ++ a :: b :: r ≠ [] := by simp
  obtain ⟨c, hc⟩ : ∃ c, (l ++ a :: b :: r).head? = some c := ⟨_, List.head?_eq_some_head hne⟩
  obtain ⟨d, hd⟩ : ∃ d, (l ++ a :: b :: r).getLast? = some d := ⟨_, List.getLast?_eq_some_getLast hne⟩
  have hca := head_le h hc a (by simp)
  have hbd := le_last h hd b (by simp)
  have hf : (l ++ a :: b :: r).filter (fun p => decide (p.1 < f)) = l ++ [a] := by
    have hl : ∀ x ∈ l, x.1 < f := fun x hx => ((List.pairwise_append.1 h).2.2 x hx a (by simp)).trans h1
    have hr : ∀ x ∈ b :: r, ¬ x.1 < f := by
      intro x hx
      have h3 := (List.pairwise_append.1 h).2.1
      have h4 := (List.pairwise_cons.1 h3).2
      rcases List.mem_cons.1 hx with rfl | hx
      · exact not_lt.2 h2
      · exact not_lt.2 (h2.trans (le_of_lt (List.rel_of_pairwise_cons h4 hx)))
    rw [List.filter_append, List.filter_eq_self.2 (by simpa using hl), List.filter_cons_of_pos (by simpa using h1),
      List.filter_eq_nil_iff.2 (by simpa using hr)]
  unfold evalInterp
  rw [hc, hd]
  dsimp only
  rw [if_neg (by rw [not_or, not_lt, not_lt]; exact ⟨hca.trans (le_of_lt h1), h2.trans hbd⟩), hf]
  have hlen : (l ++ a :: b :: r).length = l.length + r.length + 2 := by simp; omega
  have hhi : min (max (l ++ [a]).length 1) ((l ++ a :: b :: r).length - 1) = l.length + 1 := by
    rw [hlen]
    simp
  rw [hhi, if_neg (by omega)]
  have hlo : (l ++ a :: b :: r)[l.length + 1 - 1]? = some a := by simp
  have hhi2 : (l ++ a :: b :: r)[l.length + 1]? = some b := by
    rw [List.getElem?_append_right (by omega)]
    simp
  rw [hlo, hhi2]
  dsimp only
  have hab : b.1 - a.1 ≠ 0 := by linarith [h1, h2]
  rw [if_neg hab]
  congr 2
  unfold onLine
  have hab' : ((b.1 : ℂ) - (a.1 : ℂ)) ≠ 0 := by
    have : ((b.1 - a.1 : ℚ) : ℂ) ≠ 0 := by exact_mod_cast hab
    simpa using this
  push_cast
  field_simp
  ring

theorem evalInterp_first {r : List (ℚ × ℂ)} {a b : ℚ × ℂ} (h : Strict (a :: b :: r)) :
    evalInterp (a :: b :: r) a.1 = .ok (some a.2) := by
  obtain ⟨d, hd⟩ : ∃ d, (a :: b :: r).getLast? = some d := ⟨_, List.getLast?_eq_some_getLast (by simp)⟩
  have had := le_last h hd a (by simp)
  have hab : a.1 < b.1 := List.rel_of_pairwise_cons h (by simp)
  have hf : (a :: b :: r).filter (fun p => decide (p.1 < a.1)) = [] := by
    rw [List.filter_eq_nil_iff]
    intro x hx
    simpa using head_le h rfl x hx
  unfold evalInterp
  rw [hd]
  simp only [List.head?_cons]
  rw [if_neg (by rw [not_or, not_lt, not_lt]; exact ⟨le_refl _, had⟩), hf]
  have hhi : min (max ([] : List (ℚ × ℂ)).length 1) ((a :: b :: r).length - 1) = 1 := by simp
  rw [hhi, if_neg (by omega)]
  simp only [List.getElem?_cons_succ, List.getElem?_cons_zero, Nat.sub_self]
  rw [if_neg (by linarith)]
  simp

/-- Two neighbours stand side by side in the sorted list. -/
theorem neighbours {s : List (ℚ × ℂ)} (h : Strict s) {a b : ℚ × ℂ} (ha : a ∈ s) (hb : b ∈ s) (hab : a.1 < b.1)
    (hno : ∀ c ∈ s, ¬ (a.1 < c.1 ∧ c.1 < b.1)) : ∃ l r, s = l ++ a :: b :: r := by
  obtain ⟨l, t, rfl⟩ := List.append_of_mem ha
  have hbt : b ∈ t := by
    rw [List.mem_append] at hb
    rcases hb with hb | hb
    · have := (List.pairwise_append.1 h).2.2 b hb a (by simp)
      exact absurd this (not_lt.2 (le_of_lt hab))
    · rcases List.mem_cons.1 hb with rfl | hb
      · exact absurd hab (lt_irrefl _)
      · exact hb
  cases t with
  | nil => simp at hbt
  | cons c t =>
    have h2 := (List.pairwise_append.1 h).2.1
    have hac : a.1 < c.1 := List.rel_of_pairwise_cons h2 (by simp)
    have h3 := (List.pairwise_cons.1 h2).2
    rcases List.mem_cons.1 hbt with rfl | hbt
    · exact ⟨l, t, rfl⟩
    · have hcb : c.1 < b.1 := List.rel_of_pairwise_cons h3 hbt
      exact absurd ⟨hac, hcb⟩ (hno c (by simp))

/-- The value at a point of the table. -/
theorem evalInterp_at {s : List (ℚ × ℂ)} (h : Strict s) (hlen : 2 ≤ s.length) {a : ℚ × ℂ} (ha : a ∈ s) :
    evalInterp s a.1 = .ok (some a.2) := by
  obtain ⟨l, t, rfl⟩ := List.append_of_mem ha
  rcases List.eq_nil_or_concat l with rfl | ⟨l, c, rfl⟩
  · cases t with
    | nil => simp at hlen
    | cons b t => exact evalInterp_first h
  · rw [List.concat_eq_append, List.append_assoc, List.singleton_append] at h ⊢
    have hca : c.1 < a.1 := List.rel_of_pairwise_cons (List.pairwise_append.1 h).2.1 (by simp)
    rw [evalInterp_between h hca (le_refl _)]
    unfold onLine
    have : a.1 - c.1 ≠ 0 := by linarith
    rw [sub_self, zero_div, div_self this]
    simp

theorem onLine_left (x x' : ℚ) (y y' : ℂ) (h : x < x') : onLine x x' y y' x = y := by
  unfold onLine
  have : x' - x ≠ 0 := by linarith
  rw [sub_self, zero_div, div_self this]
  simp

/-- Between neighbours the value is on the straight line. -/
theorem evalInterp_neighbours {pts : List (ℚ × ℂ)} (hnd : (pts.map Prod.fst).Nodup) {a b : ℚ × ℂ} (ha : a ∈ pts)
    (hb : b ∈ pts) (hab : a.1 < b.1) (hno : ∀ c ∈ pts, ¬ (a.1 < c.1 ∧ c.1 < b.1)) {f : ℚ} (h1 : a.1 ≤ f) (h2 : f ≤ b.1) :
    evalInterp (interp1d pts) f = .ok (some (onLine a.1 b.1 a.2 b.2 f)) := by
  have hs := interp1d_strict hnd
  have hp := interp1d_perm pts
  rcases lt_or_eq_of_le h1 with h1 | rfl
  · obtain ⟨l, r, e⟩ := neighbours hs (hp.mem_iff.2 ha) (hp.mem_iff.2 hb) hab (fun c hc => hno c (hp.mem_iff.1 hc))
    rw [e] at hs ⊢
    exact evalInterp_between hs h1 h2
  · rw [evalInterp_at hs ?_ (hp.mem_iff.2 ha), onLine_left _ _ _ _ hab]
    rw [hp.length_eq]
    have hne : a ≠ b := by rintro rfl; exact lt_irrefl _ hab
    by_contra hlt
    have : pts.length ≤ 1 := by omega
    match pts, ha, hb, this with
    | [], ha, _, _ => simp at ha
    | [x], ha, hb, _ =>
      simp at ha hb
      exact hne (ha.trans hb.symm)

/-- Outside of the table: ValueError. -/
theorem evalInterp_outside {pts : List (ℚ × ℂ)} (hne : pts ≠ []) (f : ℚ)
    (h : (∀ p ∈ pts, f < p.1) ∨ ∀ p ∈ pts, p.1 < f) : evalInterp (interp1d pts) f = .error .value := by
  have hp := interp1d_perm pts
  have hne' : interp1d pts ≠ [] := by
    intro e
    have := hp.length_eq
    rw [e] at this
    exact hne (List.eq_nil_of_length_eq_zero this.symm)
  obtain ⟨c, hc⟩ : ∃ c, (interp1d pts).head? = some c := ⟨_, List.head?_eq_some_head hne'⟩
  obtain ⟨d, hd⟩ : ∃ d, (interp1d pts).getLast? = some d := ⟨_, List.getLast?_eq_some_getLast hne'⟩
  unfold evalInterp
  rw [hc, hd]
  dsimp only
  rw [if_pos]
  rcases h with h | h
  · exact .inl (h c (hp.mem_iff.1 (List.mem_of_mem_head? hc)))
  · exact .inr (h d (hp.mem_iff.1 (List.mem_of_getLast? hd)))

/-! ### Metronix -/

theorem column_ok {rows : List (List ℚ)} (h2 : 2 ≤ rows.length) (h3 : ∀ r ∈ rows, 3 ≤ r.length) {k : Nat} (hk : k < 3) :
    column rows k = .ok (rows.map (fun r => r.getD k 0)) := by
  unfold column
  rw [if_neg (by omega), if_neg (by
    rw [List.any_eq_true]
    rintro ⟨r, hr, h⟩
    have := h3 r hr
    simp at h
    omega)]
  rw [mapE_ok, List.forall₂_map_right_iff, List.forall₂_same]
  intro r hr
  have := h3 r hr
  rw [List.getElem?_eq_getElem (by omega)]
  simp [List.getD_eq_getElem?_getD, List.getElem?_eq_getElem (show k < r.length by omega)]

theorem column_only {rows : List (List ℚ)} {c : List ℚ} (h : column rows 2 = .ok c) :
    2 ≤ rows.length ∧ ∀ r ∈ rows, 3 ≤ r.length := by
  unfold column at h
  by_cases h1 : rows.length < 2
  · rw [if_pos h1] at h; simp at h
  · rw [if_neg h1] at h
    refine ⟨by omega, ?_⟩
    by_cases h2 : (rows.any (fun r => decide (r.length < 2))) = true
    · rw [if_pos h2] at h; simp at h
    · rw [if_neg h2, mapE_ok] at h
      intro r hr
      by_contra hlt
      obtain ⟨i, hi, rfl⟩ := List.getElem_of_mem hr
      have := List.Forall₂.get h hi (by rw [← h.length_eq]; exact hi)
      simp only [List.get_eq_getElem] at this
      rw [List.getElem?_eq_none (by omega)] at this
      simp at this

/-- The points of the table. -/
noncomputable def tablePoint (r : List ℚ) : ℚ × ℂ := (r.getD 0 0, calMp (r.getD 0 0) (r.getD 1 0) ((r.getD 2 0 : ℚ) : ℝ))

theorem calibration_eq {rows : List (List ℚ)} (h2 : 2 ≤ rows.length) (h3 : ∀ r ∈ rows, 3 ≤ r.length) (p : Path)
    (chopper : Bool) (version : List Char → Option (List Char)) (am : List (List Char × ℚ)) :
    calibration rows p chopper version am =
      match version (stem p) with
      | none => .error .value
      | some v =>
        match am.lookup v with
        | none => .error .value
        | some alpha =>
          .ok (fun f => if f < (rows.headD []).getD 0 0 && chopper then
              .ok (some (calMp f ((rows.headD []).getD 1 0) (angleDeg f alpha)))
            else evalInterp (interp1d (rows.map tablePoint)) f) := by
  unfold calibration
  rw [column_ok h2 h3 (by omega), column_ok h2 h3 (by omega), column_ok h2 h3 (by omega)]
  dsimp only
  have hz : List.zipWith (fun x (y : ℂ) => (x, y)) (rows.map (fun r => r.getD 0 0))
      (List.zipWith (fun x (mp : ℚ × ℚ) => calMp x mp.1 (mp.2 : ℚ)) (rows.map (fun r => r.getD 0 0))
        (List.zip (rows.map (fun r => r.getD 1 0)) (rows.map (fun r => r.getD 2 0)))) = rows.map tablePoint := by
    clear h2 h3
    induction rows with
    | nil => rfl
    | cons r rows ih =>
      simp only [List.map_cons, List.zip_cons_cons, List.zipWith_cons_cons, ih]
      rfl
  rw [hz]
  obtain ⟨r, rows, rfl⟩ : ∃ r rs, rows = r :: rs := by
    cases rows with
    | nil => simp at h2
    | cons r rs => exact ⟨r, rs, rfl⟩
  simp only [List.map_cons, List.head?_cons, List.headD_cons]
  rfl

theorem calibration_only {rows : List (List ℚ)} {p : Path} {chopper : Bool} {version : List Char → Option (List Char)}
    {am : List (List Char × ℚ)} {g : ℚ → Except Err (Option ℂ)} (h : calibration rows p chopper version am = .ok g) :
    2 ≤ rows.length ∧ (∀ r ∈ rows, 3 ≤ r.length) ∧ ∃ v alpha, version (stem p) = some v ∧ am.lookup v = some alpha := by
  have hc : ∃ c, column rows 2 = .ok c := by
    unfold calibration at h
    cases hc : column rows 2 with
    | ok c => exact ⟨c, rfl⟩
    | error e =>
      rw [hc] at h
      cases h0 : column rows 0 <;> cases h1 : column rows 1 <;> rw [h0, h1] at h <;> simp at h
  obtain ⟨c, hc⟩ := hc
  obtain ⟨h2, h3⟩ := column_only hc
  refine ⟨h2, h3, ?_⟩
  rw [calibration_eq h2 h3] at h
  cases hv : version (stem p) with
  | none => rw [hv] at h; simp at h
  | some v =>
    rw [hv] at h
    dsimp only at h
    cases ha : am.lookup v with
    | none => rw [ha] at h; simp at h
    | some alpha => exact ⟨v, alpha, rfl, ha⟩

theorem metronix_of {num : List Char → Option ℚ} {w : World} {filename : List Char} {rate : ℚ} {limit : Option ℚ}
    {version : Option (List Char → Option (List Char))} {am : Option (List (List Char × ℚ))} {rows : List (List ℚ)} {alpha : ℚ}
    (h : Calibrated num w filename rate (limit.getD chopperOnLimit) (version.getD lastVersion) (am.getD alphaMapDefault) rows
      alpha) :
    metronix num w filename rate limit version am =
      .ok (fun f => if f < (rows.headD []).getD 0 0 && decide (rate ≤ limit.getD chopperOnLimit) then
              .ok (some (calMp f ((rows.headD []).getD 1 0) (angleDeg f alpha)))
            else evalInterp (interp1d (rows.map tablePoint)) f) := by
  obtain ⟨⟨p, text, name, v, h1, h2, h3, hn, h4, h5⟩, h6, h7⟩ := h
  rw [stemOf_iff] at hn
  subst hn
  obtain ⟨ss, k1, k2⟩ := metronixRows_iff.2 h3
  unfold metronix
  rw [h1]
  dsimp only
  have ho : openText w p = .ok (universal text) := by
    unfold openText
    rw [h2]
  rw [ho]
  dsimp only
  rw [k1]
  dsimp only
  rw [k2]
  dsimp only
  rw [calibration_eq h6 h7, h4]
  dsimp only
  rw [h5]

theorem metronix_only {num : List Char → Option ℚ} {w : World} {filename : List Char} {rate : ℚ} {limit : Option ℚ}
    {version : Option (List Char → Option (List Char))} {am : Option (List (List Char × ℚ))}
    {g : ℚ → Except Err (Option ℂ)} (h : metronix num w filename rate limit version am = .ok g) :
    ∃ rows alpha, Calibrated num w filename rate (limit.getD chopperOnLimit) (version.getD lastVersion)
      (am.getD alphaMapDefault) rows alpha := by
  unfold metronix at h
  cases h1 : getDataFile w filename metronixDataPath with
  | error e => rw [h1] at h; simp at h
  | ok p =>
    rw [h1] at h
    dsimp only at h
    cases h2 : openText w p with
    | error e => rw [h2] at h; simp at h
    | ok text =>
      rw [h2] at h
      dsimp only at h
      obtain ⟨t, ht, rfl⟩ : ∃ t, stat w.fs w.cwd p = some (.file t) ∧ universal t = text := by
        unfold openText at h2
        split at h2
        · next t ht => exact ⟨t, ht, by simpa using h2⟩
        · simp at h2
      cases h3 : startStop (decide (rate ≤ limit.getD chopperOnLimit)) (readlines (universal t)) with
      | error e => rw [h3] at h; simp at h
      | ok ss =>
        rw [h3] at h
        dsimp only at h
        cases h4 : loadtxt num fieldsWs none (between (readlines (universal t)) ss) with
        | error e => rw [h4] at h; simp at h
        | ok rows =>
          rw [h4] at h
          dsimp only at h
          obtain ⟨k1, k2, v, alpha, k3, k4⟩ := calibration_only h
          exact ⟨rows, alpha, ⟨p, t, _, v, h1, ht, metronixRows_iff.1 ⟨ss, h3, h4⟩, stemOf_iff.2 rfl, k3, k4⟩, k1, k2⟩

theorem calMp_tabulated (x m p : ℚ) : calMp x m ((p : ℚ) : ℝ) = tabulated x m p := by
  unfold calMp tabulated
  push_cast
  congr 2
  ring

end Razorback.Calib
