/-
Lemmas on `tags_from_path`: how patterns and templates are read, and what the matcher finds.
-/
import Verif.Spec.PathTags
import Verif.Lemmas.Py
import Mathlib.Tactic.IntervalCases
import Verif.Lemmas.Fnmatch

namespace Razorback.PathTags
open Fnmatch (Item)

theorem wordChar_iff {c : Char} : wordChar c = true ↔ IsWord c := by
  simp [wordChar, IsWord, or_assoc]

theorem isWord_ne {c : Char} (h : IsWord c) {d : Char} (hd : wordChar d = false) : c ≠ d := by
  rintro rfl
  rw [wordChar_iff.2 h] at hd
  simp at hd

/-! Reading patterns -/

theorem afterBrace_append {n : List Char} (hn : ∀ c ∈ n, c ≠ '}' ∧ c ≠ '\n') (r : List Char) :
    afterBrace (n ++ '}' :: r) = some r := by
  induction n with
  | nil => simp [afterBrace]
  | cons c n ih =>
    have := hn c (by simp)
    rw [List.cons_append, afterBrace, if_neg this.1, if_neg this.2]
    exact ih (fun d hd => hn d (by simp [hd]))

theorem subFields_append {s : List Char} (hs : ∀ c ∈ s, c ≠ '{') (r : List Char) :
    subFields (s ++ r) = s ++ subFields r := by
  induction s with
  | nil => rfl
  | cons c s ih =>
    rw [List.cons_append, subFields, if_neg (hs c (by simp)), ih (fun d hd => hs d (by simp [hd]))]
    rfl

theorem subFields_field {n : List Char} (hn : ∀ c ∈ n, c ≠ '}' ∧ c ≠ '\n') (r : List Char) :
    subFields ('{' :: n ++ '}' :: r) = '[' :: flagMark ++ subFields r := by
  rw [List.cons_append, subFields, if_pos rfl]
  split
  · rename_i r' h
    rw [afterBrace_append hn] at h
    simp only [Option.some.injEq] at h
    rw [h]
  · rename_i h
    rw [afterBrace_append hn] at h
    simp at h

theorem subStars_append {s : List Char} (hs : ∀ c ∈ s, c ≠ '*') (r : List Char) :
    subStars (s ++ r) = s ++ subStars r := by
  induction s with
  | nil => rfl
  | cons c s ih =>
    rw [List.cons_append, subStars.eq_4, ih (fun d hd => hs d (by simp [hd]))]
    · rfl
    · intro l h
      exact absurd h (hs c (by simp))
    · intro h
      exact hs c (by simp) h

theorem subStars_star {r : List Char} (hr : r.head? ≠ some '*') : subStars ('*' :: r) = '[' :: sstarMark ++ subStars r := by
  rw [subStars.eq_3]
  rintro l rfl
  simp at hr

/-- The text of an element after the replacement of the fields. -/
def mid1 : Elt → List Char
  | .field _ => '[' :: flagMark
  | e => e.write

/-- The text of an element after the replacement of fields and stars. -/
def mid2 : Elt → List Char
  | .field _ => '[' :: flagMark
  | .star => '[' :: sstarMark
  | .dstar => '[' :: dstarMark
  | e => e.write

/-- What an element is read as. -/
def Elt.tok : Elt → PTok
  | .text c => .lit c
  | .one => .any
  | .cls neg items => .cls neg items
  | .star => .sstar
  | .dstar => .dstar
  | .field _ => .field

theorem ident_chars {n : List Char} (h : IsIdent n) {c : Char} (hc : c ∈ n) {d : Char} (hd : wordChar d = false) : c ≠ d :=
  isWord_ne (h.2.1 c hc) hd

theorem item_chars {i : Item} (h : ItemOK i) {c : Char} (hc : c ∈ writeItem i) : c = '-' ∨ ItemChar c := by
  cases i with
  | ch d =>
    simp only [writeItem, List.mem_singleton] at hc
    rw [hc]
    exact .inr h
  | range a b =>
    simp only [writeItem, List.mem_cons, List.not_mem_nil, or_false] at hc
    obtain rfl | rfl | rfl := hc
    · exact .inr h.1
    · exact .inl rfl
    · exact .inr h.2.1

theorem cls_chars {neg : Bool} {items : List Item} (h : EltOK (.cls neg items)) {c : Char}
    (hc : c ∈ Elt.write (.cls neg items)) : c = '[' ∨ c = ']' ∨ c = '!' ∨ c = '-' ∨ ItemChar c := by
  simp only [Elt.write, List.mem_cons, List.mem_append, List.cons_append, List.mem_flatMap, List.not_mem_nil, or_false] at hc
  rcases hc with rfl | (h1 | ⟨i, hi, h1⟩) | rfl
  · simp
  · split at h1 <;> simp at h1
    simp [h1]
  · have := item_chars (h.2 i hi) h1
    tauto
  · simp

theorem itemChar_ne {c d : Char} (h : ItemChar c) (hd : d ∈ [']', '-', '!', '*', '{', '}', '[', '$']) : c ≠ d := by
  rintro rfl
  exact h hd

theorem subFields_write {P : List Elt} (h : ∀ e ∈ P, EltOK e) : subFields (write P) = P.flatMap mid1 := by
  induction P with
  | nil => simp [write, subFields]
  | cons e P ih =>
    have he := h e (by simp)
    have ih := ih (fun e' he' => h e' (by simp [he']))
    have hw : write (e :: P) = e.write ++ write P := rfl
    rw [hw, List.flatMap_cons]
    cases e with
    | field n =>
      have : Elt.write (.field n) ++ write P = '{' :: n ++ '}' :: write P := by simp [Elt.write]
      rw [this, subFields_field, ih]
      · rfl
      · intro c hc
        exact ⟨ident_chars he hc (by decide), ident_chars he hc (by decide)⟩
    | text c =>
      rw [subFields_append, ih]
      · rfl
      · intro d hd
        simp only [Elt.write, List.mem_singleton] at hd
        simp only [EltOK, List.mem_cons, not_or] at he
        rw [hd]
        exact he.2.2.2.1
    | one => rw [subFields_append (by simp [Elt.write]), ih]; rfl
    | star => rw [subFields_append (by simp [Elt.write]), ih]; rfl
    | dstar => rw [subFields_append (by simp [Elt.write]), ih]; rfl
    | cls neg items =>
      rw [subFields_append, ih]
      · rfl
      · intro d hd
        rcases cls_chars he hd with rfl | rfl | rfl | rfl | h1
        · decide
        · decide
        · decide
        · decide
        · exact itemChar_ne h1 (by simp)

theorem mid1_head {e : Elt} (he : EltOK e) (h1 : e ≠ .star) (h2 : e ≠ .dstar) (l : List Char) :
    (mid1 e ++ l).head? ≠ some '*' := by
  cases e with
  | text c =>
    simp only [EltOK, List.mem_cons, not_or] at he
    simp only [mid1, Elt.write, List.cons_append, List.head?_cons, ne_eq, Option.some.injEq]
    exact he.1
  | one => simp [mid1, Elt.write]
  | cls => simp [mid1, Elt.write]
  | star => exact absurd rfl h1
  | dstar => exact absurd rfl h2
  | field => simp [mid1]

theorem subStars_mid {P : List Elt} (h : ∀ e ∈ P, EltOK e)
    (hc : P.IsChain (fun a b => a = .star → b ≠ .star ∧ b ≠ .dstar)) : subStars (P.flatMap mid1) = P.flatMap mid2 := by
  induction P with
  | nil => rfl
  | cons e P ih =>
    have he := h e (by simp)
    have ih := ih (fun e' he' => h e' (by simp [he'])) hc.tail
    rw [List.flatMap_cons, List.flatMap_cons]
    cases e with
    | field n => rw [subStars_append (by simp [mid1, flagMark]), ih]; rfl
    | text c =>
      rw [subStars_append, ih]
      · rfl
      · intro d hd
        simp only [mid1, Elt.write, List.mem_singleton] at hd
        simp only [EltOK, List.mem_cons, not_or] at he
        rw [hd]
        exact he.1
    | one => rw [subStars_append (by simp [mid1, Elt.write]), ih]; rfl
    | dstar =>
      show subStars ('*' :: '*' :: P.flatMap mid1) = _
      rw [subStars.eq_2, ih]
      rfl
    | star =>
      show subStars ('*' :: P.flatMap mid1) = _
      rw [subStars_star, ih]
      · rfl
      · cases P with
        | nil => simp
        | cons e' P =>
          have := List.isChain_cons_cons.1 hc
          obtain ⟨h1, h2⟩ := this.1 rfl
          rw [List.flatMap_cons]
          exact mid1_head (h e' (by simp)) h1 h2 _
    | cls neg items =>
      rw [subStars_append, ih]
      · rfl
      · intro d hd
        rcases cls_chars he hd with rfl | rfl | rfl | rfl | h1
        · decide
        · decide
        · decide
        · decide
        · exact itemChar_ne h1 (by simp)

theorem strip_append (p r : List Char) : strip p (p ++ r) = some r := by
  simp [strip]

theorem parseItems_write {items : List Item} (h : ∀ i ∈ items, ItemOK i) :
    Fnmatch.parseItems (items.flatMap writeItem) = items ∧ (items.flatMap writeItem).head? ≠ some '-' := by
  induction items with
  | nil => simp [Fnmatch.parseItems]
  | cons i items ih =>
    obtain ⟨h1, h2⟩ := ih (fun j hj => h j (by simp [hj]))
    have hi := h i (by simp)
    rw [List.flatMap_cons]
    cases i with
    | ch c =>
      constructor
      · show Fnmatch.parseItems (c :: items.flatMap writeItem) = _
        rw [Fnmatch.parseItems.eq_2, h1]
        intro b l hl
        rw [hl] at h2
        simp at h2
      · simp only [writeItem, List.cons_append, List.head?_cons, ne_eq, Option.some.injEq]
        exact itemChar_ne hi (by simp)
    | range a b =>
      constructor
      · show Fnmatch.parseItems (a :: '-' :: b :: items.flatMap writeItem) = _
        rw [Fnmatch.parseItems.eq_1, if_pos hi.2.2, h1]
      · simp only [writeItem, List.cons_append, List.head?_cons, ne_eq, Option.some.injEq]
        exact itemChar_ne hi.1 (by simp)

theorem flatMap_ne {items : List Item} (h : items ≠ []) : items.flatMap writeItem ≠ [] := by
  cases items with
  | nil => exact absurd rfl h
  | cons i l => cases i <;> simp [writeItem]

theorem bracket_write {neg : Bool} {items : List Item} (h : EltOK (.cls neg items)) (r : List Char) :
    Fnmatch.bracket ((if neg then ['!'] else []) ++ items.flatMap writeItem ++ ']' :: r) = some (neg, items, r) := by
  have hb : Fnmatch.bracketBody (items.flatMap writeItem ++ ']' :: r) = some (items.flatMap writeItem, r) := by
    apply Fnmatch.bracketBody_simple (flatMap_ne h.1)
    intro c hc
    obtain ⟨i, hi, h1⟩ := List.mem_flatMap.1 hc
    rcases item_chars (h.2 i hi) h1 with rfl | h2
    · decide
    · exact itemChar_ne h2 (by simp)
  cases neg with
  | true =>
    show Fnmatch.bracket ('!' :: (items.flatMap writeItem ++ ']' :: r)) = _
    rw [Fnmatch.bracket.eq_1, hb]
    simp only [(parseItems_write h.2).1]
  | false =>
    show Fnmatch.bracket (items.flatMap writeItem ++ ']' :: r) = _
    rw [Fnmatch.bracket.eq_2, hb]
    · simp only [(parseItems_write h.2).1]
    · intro l hl
      cases h3 : items.flatMap writeItem with
      | nil => exact flatMap_ne h.1 h3
      | cons c l' =>
        rw [h3, List.cons_append, List.cons.injEq] at hl
        have hc : c ∈ items.flatMap writeItem := by simp [h3]
        obtain ⟨i, hi, h1⟩ := List.mem_flatMap.1 hc
        rcases item_chars (h.2 i hi) h1 with rfl | h2
        · exact absurd hl.1 (by decide)
        · exact itemChar_ne h2 (by simp) hl.1

theorem no_dollar {neg : Bool} {items : List Item} (h : EltOK (.cls neg items)) :
    '$' ∉ (if neg then ['!'] else []) ++ items.flatMap writeItem ++ [']'] := by
  intro hc
  have := cls_chars h (c := '$') (by
    simp only [Elt.write, List.cons_append, List.mem_cons]
    exact .inr hc)
  rcases this with h1 | h1 | h1 | h1 | h1
  · exact absurd h1 (by decide)
  · exact absurd h1 (by decide)
  · exact absurd h1 (by decide)
  · exact absurd h1 (by decide)
  · exact itemChar_ne h1 (by simp) rfl

theorem compile_cls {neg : Bool} {items : List Item} (h : EltOK (.cls neg items)) (r : List Char) :
    compile ('[' :: ((if neg then ['!'] else []) ++ items.flatMap writeItem ++ ']' :: r)) =
      (compile r).map (PTok.cls neg items :: ·) := by
  have hd := no_dollar h
  have hb := bracket_write h r
  have hlen : ((if neg then ['!'] else []) ++ items.flatMap writeItem ++ ']' :: r).take
      (((if neg then ['!'] else []) ++ items.flatMap writeItem ++ ']' :: r).length - r.length) =
      (if neg then ['!'] else []) ++ items.flatMap writeItem ++ [']'] := by
    rw [show (if neg then ['!'] else []) ++ items.flatMap writeItem ++ ']' :: r =
      ((if neg then ['!'] else []) ++ items.flatMap writeItem ++ [']']) ++ r by simp]
    rw [List.length_append, Nat.add_sub_cancel, List.take_left]
  have hcl : clash ((if neg then ['!'] else []) ++ items.flatMap writeItem ++ ']' :: r) r = false := by
    unfold clash
    simp only [hlen, Bool.or_eq_false_iff]
    refine ⟨⟨?_, ?_⟩, ?_⟩ <;>
    · rw [Bool.eq_false_iff, ne_eq, List.isSuffixOf_iff_suffix]
      intro hs
      exact hd (hs.subset (by decide))
  have hst : ∀ m, strip ('$' :: m) ((if neg then ['!'] else []) ++ items.flatMap writeItem ++ ']' :: r) = none := by
    intro m
    unfold strip
    rw [if_neg]
    intro hp
    cases hq : (if neg then ['!'] else []) ++ items.flatMap writeItem with
    | nil =>
      have := (List.append_eq_nil_iff.1 hq).2
      exact flatMap_ne h.1 this
    | cons c l =>
      rw [hq, List.cons_append] at hp
      have := (List.cons_prefix_cons.1 hp).1
      apply hd
      rw [hq, this]
      simp
  rw [compile.eq_3]
  split
  · rename_i h1; rw [show flagMark = '$' :: flagMark.tail from by decide, hst] at h1; simp at h1
  split
  · rename_i h1; rw [show sstarMark = '$' :: sstarMark.tail from by decide, hst] at h1; simp at h1
  split
  · rename_i h1; rw [show dstarMark = '$' :: dstarMark.tail from by decide, hst] at h1; simp at h1
  split
  · rename_i h1; rw [hb] at h1; simp at h1
  · rename_i neg' items' rest h1
    rw [hb] at h1
    simp only [Option.some.injEq, Prod.mk.injEq] at h1
    obtain ⟨rfl, rfl, rfl⟩ := h1
    rw [hcl]
    simp

theorem compile_mark {m : List Char} {t : PTok}
    (h : (m = flagMark ∧ t = .field) ∨ (m = sstarMark ∧ t = .sstar) ∨ (m = dstarMark ∧ t = .dstar)) (r : List Char) :
    compile ('[' :: (m ++ r)) = (compile r).map (t :: ·) := by
  have h12 : strip flagMark (sstarMark ++ r) = none := by simp [strip, flagMark, sstarMark]
  have h13 : strip flagMark (dstarMark ++ r) = none := by simp [strip, flagMark, dstarMark]
  have h23 : strip sstarMark (dstarMark ++ r) = none := by simp [strip, sstarMark, dstarMark]
  rcases h with ⟨rfl, rfl⟩ | ⟨rfl, rfl⟩ | ⟨rfl, rfl⟩
  · rw [compile.eq_3]
    split
    · rename_i r' h1
      rw [strip_append, Option.some.injEq] at h1
      rw [h1]
    · rename_i h1
      rw [strip_append] at h1
      simp at h1
  · rw [compile.eq_3]
    split
    · rename_i h1; rw [h12] at h1; simp at h1
    split
    · rename_i r' h1
      rw [strip_append, Option.some.injEq] at h1
      rw [h1]
    · rename_i h1
      rw [strip_append] at h1
      simp at h1
  · rw [compile.eq_3]
    split
    · rename_i h1; rw [h13] at h1; simp at h1
    split
    · rename_i h1; rw [h23] at h1; simp at h1
    split
    · rename_i r' h1
      rw [strip_append, Option.some.injEq] at h1
      rw [h1]
    · rename_i h1
      rw [strip_append] at h1
      simp at h1

theorem compile_mid {P : List Elt} (h : ∀ e ∈ P, EltOK e) : compile (P.flatMap mid2) = some (P.map Elt.tok) := by
  induction P with
  | nil => simp [compile]
  | cons e P ih =>
    have he := h e (by simp)
    have ih := ih (fun e' he' => h e' (by simp [he']))
    rw [List.flatMap_cons, List.map_cons]
    cases e with
    | text c =>
      simp only [EltOK, List.mem_cons, not_or] at he
      show compile (c :: P.flatMap mid2) = _
      rw [compile.eq_4 _ _ (by intro h; exact he.2.1 h) (by intro h; exact he.2.2.1 h), ih]
      rfl
    | one =>
      show compile ('?' :: P.flatMap mid2) = _
      rw [compile.eq_2, ih]
      rfl
    | field n =>
      show compile ('[' :: (flagMark ++ P.flatMap mid2)) = _
      rw [compile_mark (.inl ⟨rfl, rfl⟩), ih]
      rfl
    | star =>
      show compile ('[' :: (sstarMark ++ P.flatMap mid2)) = _
      rw [compile_mark (.inr (.inl ⟨rfl, rfl⟩)), ih]
      rfl
    | dstar =>
      show compile ('[' :: (dstarMark ++ P.flatMap mid2)) = _
      rw [compile_mark (.inr (.inr ⟨rfl, rfl⟩)), ih]
      rfl
    | cls neg items =>
      have : mid2 (.cls neg items) ++ P.flatMap mid2 =
          '[' :: ((if neg then ['!'] else []) ++ items.flatMap writeItem ++ ']' :: P.flatMap mid2) := by
        simp [mid2, Elt.write]
      rw [this, compile_cls he, ih]
      rfl

/-- A pattern that can be written is read as it is. -/
theorem prepare_write {P : List Elt} (h : PatternOK P) : prepare (write P) = some (P.map Elt.tok) := by
  unfold prepare
  rw [h.normal, subFields_write h.elts, subStars_mid h.elts h.stars, compile_mid h.elts]

/-! The matcher -/

theorem mem_splits {p : Char → Bool} {s a b : List Char} : (a, b) ∈ splits p s ↔ a ++ b = s ∧ ∀ c ∈ a, p c = true := by
  induction s generalizing a b with
  | nil =>
    simp only [splits, List.mem_singleton, Prod.mk.injEq, List.append_eq_nil_iff]
    constructor
    · rintro ⟨rfl, rfl⟩
      simp
    · rintro ⟨h, -⟩
      exact h
  | cons c s ih =>
    rw [splits, List.mem_cons]
    constructor
    · rintro (h | h)
      · simp only [Prod.mk.injEq] at h
        obtain ⟨rfl, rfl⟩ := h
        simp
      · split at h
        · rename_i hc
          obtain ⟨⟨a', b'⟩, h1, h2⟩ := List.mem_map.1 h
          simp only [Prod.mk.injEq] at h2
          obtain ⟨rfl, rfl⟩ := h2
          obtain ⟨h3, h4⟩ := ih.1 h1
          refine ⟨by rw [List.cons_append, h3], ?_⟩
          intro d hd
          rcases List.mem_cons.1 hd with rfl | hd
          · exact hc
          · exact h4 d hd
        · simp at h
    · rintro ⟨h1, h2⟩
      cases a with
      | nil =>
        left
        simp only [List.nil_append] at h1
        rw [h1]
      | cons d a =>
        right
        simp only [List.cons_append, List.cons.injEq] at h1
        obtain ⟨rfl, h1⟩ := h1
        rw [if_pos (h2 d (by simp))]
        exact List.mem_map.2 ⟨(a, b), ih.2 ⟨h1, fun e he => h2 e (by simp [he])⟩, rfl⟩

/-- The splits come by increasing length of the first part. -/
theorem splits_sorted (p : Char → Bool) (s : List Char) :
    (splits p s).Pairwise (fun x y => x.1.length < y.1.length) := by
  induction s with
  | nil => simp [splits]
  | cons c s ih =>
    rw [splits, List.pairwise_cons]
    constructor
    · intro x hx
      split at hx
      · obtain ⟨y, -, rfl⟩ := List.mem_map.1 hx
        simp
      · simp at hx
    · split
      · rw [List.pairwise_map]
        exact ih.imp (fun h => by simpa using h)
      · exact .nil

theorem findSome_spec {β γ : Type _} {l : List β} {f : β → Option γ} {v : γ} (h : l.findSome? f = some v) :
    ∃ l₁ x l₂, l = l₁ ++ x :: l₂ ∧ f x = some v ∧ ∀ y ∈ l₁, f y = none := by
  obtain ⟨l₁, x, l₂, h1, h2, h3⟩ := List.findSome?_eq_some_iff.1 h
  exact ⟨l₁, x, l₂, h1, h2, h3⟩

theorem Before.cons {a : List Char} {l l' : List (List Char)} (h : Before l l') : Before (a :: l) (a :: l') := by
  rcases h with rfl | ⟨pre, b, c, m, m', rfl, rfl, h⟩
  · exact .inl rfl
  · exact .inr ⟨a :: pre, b, c, m, m', rfl, rfl, h⟩

theorem inItem_iff {c : Char} {i : Item} : i.mem c = true ↔ InItem c i := by
  cases i <;> simp [Item.mem, InItem]

theorem cls_iff {neg : Bool} {items : List Item} {c : Char} :
    (items.any (Item.mem c) != neg) = true ↔ ((∃ i ∈ items, InItem c i) ↔ neg = false) := by
  have : items.any (Item.mem c) = true ↔ ∃ i ∈ items, InItem c i := by
    simp [List.any_eq_true, inItem_iff]
  cases neg <;> cases h : items.any (Item.mem c) <;> simp [← this, h]

/-- The general form of the three lazy repetitions. -/
theorem lazy_spec {P : List Elt} {e : Elt} {p : Char → Bool} {f : List Char × List Char → Option (List (List Char))}
    {vals : List Char → List (List Char) → List (List Char)}
    (hst : ∀ a, Stands e a → ∀ c ∈ a, p c = true)
    (hf : ∀ a b v, (∀ c ∈ a, p c = true) → (f (a, b) = some v ↔ Stands e a ∧ ∃ v', run (P.map Elt.tok) b = some v' ∧ v = vals a v'))
    (ih : ∀ s, (∀ v, run (P.map Elt.tok) s = some v → ∃ segs, Assigns P segs s ∧ v = (valuesOf P segs).map Prod.snd ∧
        ∀ segs', Assigns P segs' s → Before segs segs') ∧
      ∀ segs, Assigns P segs s → ∃ v, run (P.map Elt.tok) s = some v) (s : List Char) :
    (∀ v, (splits p s).findSome? f = some v → ∃ a segs, Assigns (e :: P) (a :: segs) s ∧
        v = vals a ((valuesOf P segs).map Prod.snd) ∧ ∀ segs', Assigns (e :: P) segs' s → Before (a :: segs) segs') ∧
      ∀ segs, Assigns (e :: P) segs s → ∃ v, (splits p s).findSome? f = some v := by
  constructor
  · intro v hv
    obtain ⟨l₁, ⟨a, b⟩, l₂, h1, h2, h3⟩ := findSome_spec hv
    have hm : (a, b) ∈ splits p s := by rw [h1]; simp
    obtain ⟨hab, hp⟩ := mem_splits.1 hm
    obtain ⟨hs, v', hv', rfl⟩ := (hf a b v hp).1 h2
    obtain ⟨segs, h4, h5, h6⟩ := (ih b).1 v' hv'
    refine ⟨a, segs, ⟨.cons hs h4.1, by rw [List.flatten_cons, h4.2, hab]⟩, by rw [h5], ?_⟩
    rintro segs' ⟨ha1, ha2⟩
    cases ha1 with
    | @cons _ a' _ l' hs' hl' =>
      rw [List.flatten_cons] at ha2
      have hm' : (a', l'.flatten) ∈ splits p s := mem_splits.2 ⟨ha2, hst a' hs'⟩
      obtain ⟨w, hw⟩ := (ih l'.flatten).2 l' ⟨hl', rfl⟩
      have hne : f (a', l'.flatten) ≠ none := by
        have := (hf a' l'.flatten (vals a' w) (hst a' hs')).2 ⟨hs', w, hw, rfl⟩
        rw [this]
        simp
      rw [h1] at hm'
      rcases List.mem_append.1 hm' with h | h
      · exact absurd (h3 _ h) hne
      rcases List.mem_cons.1 h with h | h
      · simp only [Prod.mk.injEq] at h
        obtain ⟨rfl, rfl⟩ := h
        exact (h6 l' ⟨hl', rfl⟩).cons
      · have hsort := splits_sorted p s
        rw [h1, List.pairwise_append] at hsort
        have := (List.pairwise_cons.1 hsort.2.1).1 _ h
        exact .inr ⟨[], a, a', segs, l', rfl, rfl, this⟩
  · rintro segs ⟨ha1, ha2⟩
    cases ha1 with
    | @cons _ a' _ l' hs' hl' =>
      rw [List.flatten_cons] at ha2
      have hm' : (a', l'.flatten) ∈ splits p s := mem_splits.2 ⟨ha2, hst a' hs'⟩
      obtain ⟨w, hw⟩ := (ih l'.flatten).2 l' ⟨hl', rfl⟩
      have hne := (hf a' l'.flatten (vals a' w) (hst a' hs')).2 ⟨hs', w, hw, rfl⟩
      cases h : (splits p s).findSome? f with
      | some v => exact ⟨v, rfl⟩
      | none =>
        have := List.findSome?_eq_none_iff.1 h _ hm'
        rw [hne] at this
        simp at this

/-- One character elements. -/
theorem one_spec {P : List Elt} {e : Elt} {f : Char → Bool} (hst : ∀ a, Stands e a ↔ ∃ c, a = [c] ∧ f c = true)
    (hval : ∀ a segs, valuesOf (e :: P) (a :: segs) = valuesOf P segs)
    (hrun : ∀ s, run ((e :: P).map Elt.tok) s = match s with
      | [] => none
      | d :: r => if f d then run (P.map Elt.tok) r else none)
    (ih : ∀ s, (∀ v, run (P.map Elt.tok) s = some v → ∃ segs, Assigns P segs s ∧ v = (valuesOf P segs).map Prod.snd ∧
        ∀ segs', Assigns P segs' s → Before segs segs') ∧
      ∀ segs, Assigns P segs s → ∃ v, run (P.map Elt.tok) s = some v) (s : List Char) :
    (∀ v, run ((e :: P).map Elt.tok) s = some v → ∃ segs, Assigns (e :: P) segs s ∧
        v = (valuesOf (e :: P) segs).map Prod.snd ∧ ∀ segs', Assigns (e :: P) segs' s → Before segs segs') ∧
      ∀ segs, Assigns (e :: P) segs s → ∃ v, run ((e :: P).map Elt.tok) s = some v := by
  rw [hrun]
  cases s with
  | nil =>
    refine ⟨by simp, ?_⟩
    rintro segs ⟨h1, h2⟩
    cases h1 with
    | @cons _ a _ l h h' =>
      obtain ⟨c, rfl, -⟩ := (hst a).1 h
      simp at h2
  | cons d r =>
    constructor
    · intro v hv
      simp only at hv
      split at hv
      · rename_i hd
        obtain ⟨segs, h4, h5, h6⟩ := (ih r).1 v hv
        refine ⟨[d] :: segs, ⟨.cons ((hst _).2 ⟨d, rfl, hd⟩) h4.1, by rw [List.flatten_cons, h4.2]; rfl⟩, by rw [hval, h5], ?_⟩
        rintro segs' ⟨h1, h2⟩
        cases h1 with
        | @cons _ a _ l h h' =>
          obtain ⟨c, rfl, hc⟩ := (hst a).1 h
          simp only [List.flatten_cons, List.cons_append, List.nil_append, List.cons.injEq] at h2
          obtain ⟨rfl, h2⟩ := h2
          exact (h6 l ⟨h', h2⟩).cons
      · simp at hv
    · rintro segs ⟨h1, h2⟩
      cases h1 with
      | @cons _ a _ l h h' =>
        obtain ⟨c, rfl, hc⟩ := (hst a).1 h
        simp only [List.flatten_cons, List.cons_append, List.nil_append, List.cons.injEq] at h2
        obtain ⟨rfl, h2⟩ := h2
        simp only [if_pos hc]
        exact (ih r).2 l ⟨h', h2⟩

/-- The matcher finds the first assignment, if there is one. -/
theorem run_spec (P : List Elt) (s : List Char) :
    (∀ v, run (P.map Elt.tok) s = some v → ∃ segs, Assigns P segs s ∧ v = (valuesOf P segs).map Prod.snd ∧
        ∀ segs', Assigns P segs' s → Before segs segs') ∧
      ∀ segs, Assigns P segs s → ∃ v, run (P.map Elt.tok) s = some v := by
  induction P generalizing s with
  | nil =>
    constructor
    · intro v hv
      simp only [List.map_nil, run] at hv
      split at hv
      · rename_i hs
        simp only [Option.some.injEq] at hv
        subst hv hs
        refine ⟨[], ⟨.nil, rfl⟩, rfl, ?_⟩
        rintro segs' ⟨h, -⟩
        cases h
        exact .inl rfl
      · simp at hv
    · rintro segs ⟨h, h2⟩
      cases h
      simp only [List.flatten_nil] at h2
      simp [run, ← h2]
  | cons e P ih =>
    cases e with
    | text c =>
      apply one_spec (f := fun d => decide (d = c)) _ (fun _ _ => rfl) _ ih
      · intro a; simp [Stands]
      · intro s
        cases s with
        | nil => rfl
        | cons d r => simp [Elt.tok, run]
    | one =>
      apply one_spec (f := fun _ => true) _ (fun _ _ => rfl) _ ih
      · intro a; simp [Stands]
      · intro s
        cases s with
        | nil => rfl
        | cons d r => simp [Elt.tok, run]
    | cls neg items =>
      apply one_spec (f := fun d => items.any (Item.mem d) != neg) _ (fun _ _ => rfl) _ ih
      · intro a; simp only [Stands, cls_iff]
      · intro s
        cases s with
        | nil => rfl
        | cons d r => rfl
    | star =>
      obtain ⟨h1, h2⟩ := lazy_spec (P := P) (e := .star) (p := fun c => c != '/') (f := fun x => run (P.map Elt.tok) x.2)
        (vals := fun _ v => v) (by
          intro a ha c hc
          simp only [Stands] at ha
          simp only [bne_iff_ne, ne_eq]
          rintro rfl
          exact ha hc)
        (by
          intro a b v hp
          constructor
          · intro h
            refine ⟨?_, v, h, rfl⟩
            intro hc
            simpa using hp _ hc
          · rintro ⟨-, v', h, rfl⟩
            exact h) ih s
      refine ⟨?_, h2⟩
      intro v hv
      obtain ⟨a, segs, h3, h4, h5⟩ := h1 v hv
      exact ⟨a :: segs, h3, h4, h5⟩
    | dstar =>
      obtain ⟨h1, h2⟩ := lazy_spec (P := P) (e := .dstar) (p := fun c => true) (f := fun x => run (P.map Elt.tok) x.2)
        (vals := fun _ v => v) (by simp)
        (by
          intro a b v hp
          constructor
          · intro h
            exact ⟨trivial, v, h, rfl⟩
          · rintro ⟨-, v', h, rfl⟩
            exact h) ih s
      refine ⟨?_, h2⟩
      intro v hv
      obtain ⟨a, segs, h3, h4, h5⟩ := h1 v hv
      exact ⟨a :: segs, h3, h4, h5⟩
    | field n =>
      obtain ⟨h1, h2⟩ := lazy_spec (P := P) (e := .field n) (p := wordChar)
        (f := fun x => if x.1 = [] then none else (run (P.map Elt.tok) x.2).map (x.1 :: ·))
        (vals := fun a v => a :: v) (by
          intro a ha c hc
          exact wordChar_iff.2 (ha.2 c hc))
        (by
          intro a b v hp
          constructor
          · intro h
            simp only at h
            split at h
            · simp at h
            · rename_i hne
              obtain ⟨v', hv', rfl⟩ := Option.map_eq_some_iff.1 h
              exact ⟨⟨hne, fun c hc => wordChar_iff.1 (hp c hc)⟩, v', hv', rfl⟩
          · rintro ⟨⟨hne, -⟩, v', h, rfl⟩
            simp only
            rw [if_neg hne, h]
            rfl) ih s
      refine ⟨?_, h2⟩
      intro v hv
      obtain ⟨a, segs, h3, h4, h5⟩ := h1 v hv
      exact ⟨a :: segs, h3, h4, h5⟩

/-! Fields and templates -/

theorem fieldName_append {n : List Char} (hn : ∀ c ∈ n, IsWord c) (r : List Char) :
    fieldName false (n ++ '}' :: r) = some (n, r) := by
  induction n with
  | nil => simp [fieldName]
  | cons c n ih =>
    have hc := hn c (by simp)
    have ne : ∀ d, wordChar d = false → c ≠ d := fun d hd => isWord_ne hc hd
    rw [List.cons_append, fieldName, if_neg (by simp), if_neg (ne _ (by decide)),
      if_neg (by rintro (h | h); exacts [ne _ (by decide) h, ne _ (by decide) h]), if_neg (ne _ (by decide)),
      beq_eq_false_iff_ne.2 (ne '[' (by decide)), ih (fun d hd => hn d (by simp [hd]))]
    rfl

theorem validName_ident {n : List Char} (h : IsIdent n) : validName n = true := by
  cases n with
  | nil => exact absurd rfl h.1
  | cons c n =>
    have h1 := h.2.1 c (by simp)
    have h2 := h.2.2 c (by simp)
    rw [validName, wordChar_iff.2 h1]
    simp only [Bool.true_and, Bool.not_eq_true', ← Bool.decide_and, decide_eq_false_iff_not]
    exact h2

theorem parse_append {s : List Char} (hs : ∀ c ∈ s, c ≠ '{' ∧ c ≠ '}') {r : List Char} {ps : List Piece}
    (h : parse r = .ok ps) : parse (s ++ r) = .ok (s.map .ch ++ ps) := by
  induction s with
  | nil => exact h
  | cons c s ih =>
    have hc := hs c (by simp)
    rw [List.cons_append, parse, if_neg hc.1, if_neg hc.2, ih (fun d hd => hs d (by simp [hd]))]
    rfl

theorem parse_field {n : List Char} (hn : IsIdent n) {r : List Char} {ps : List Piece} (h : parse r = .ok ps) :
    parse ('{' :: n ++ '}' :: r) = .ok (.field n :: ps) := by
  have hh : (n ++ '}' :: r).head? ≠ some '{' := by
    cases n with
    | nil => exact absurd rfl hn.1
    | cons c n =>
      simp only [List.cons_append, List.head?_cons, ne_eq, Option.some.injEq]
      exact ident_chars hn (by simp) (by decide)
  rw [List.cons_append, parse, if_pos rfl, if_neg hh]
  split
  · rename_i h1
    rw [fieldName_append hn.2.1] at h1
    simp at h1
  · rename_i name r' h1
    rw [fieldName_append hn.2.1] at h1
    simp only [Option.some.injEq, Prod.mk.injEq] at h1
    obtain ⟨rfl, rfl⟩ := h1
    rw [if_pos (validName_ident hn), h]

theorem parse_brace {c : Char} (hc : c = '{' ∨ c = '}') {r : List Char} {ps : List Piece} (h : parse r = .ok ps) :
    parse (c :: c :: r) = .ok (.ch c :: ps) := by
  rcases hc with rfl | rfl
  · rw [parse, if_pos rfl, if_pos (by simp), List.tail_cons, h]
  · rw [parse, if_neg (by decide), if_pos rfl, if_pos (by simp), List.tail_cons, h]

theorem names_append (a b : List Piece) : names (a ++ b) = names a ++ names b := by
  simp [names]

theorem names_chars (s : List Char) : names (s.map Piece.ch) = [] := by
  simp [names]

theorem parse_write {P : List Elt} (h : ∀ e ∈ P, EltOK e) : ∃ ps, parse (write P) = .ok ps ∧ names ps = fieldsOf P := by
  induction P with
  | nil => exact ⟨[], by simp [write, parse], rfl⟩
  | cons e P ih =>
    have he := h e (by simp)
    obtain ⟨ps, h1, h2⟩ := ih (fun e' he' => h e' (by simp [he']))
    have hw : write (e :: P) = e.write ++ write P := rfl
    rw [hw]
    have plain : (∀ c ∈ e.write, c ≠ '{' ∧ c ≠ '}') → fieldsOf (e :: P) = fieldsOf P →
        ∃ ps, parse (e.write ++ write P) = .ok ps ∧ names ps = fieldsOf (e :: P) := by
      intro hc hf
      exact ⟨_, parse_append hc h1, by rw [names_append, names_chars, h2, hf]; rfl⟩
    cases e with
    | field n =>
      refine ⟨.field n :: ps, ?_, ?_⟩
      · have : Elt.write (.field n) ++ write P = '{' :: n ++ '}' :: write P := by simp [Elt.write]
        rw [this]
        exact parse_field he h1
      · show n :: names ps = n :: fieldsOf P
        rw [h2]
    | text c =>
      apply plain _ rfl
      intro d hd
      simp only [Elt.write, List.mem_singleton] at hd
      simp only [EltOK, List.mem_cons, not_or, List.not_mem_nil, not_false_eq_true, and_true] at he
      rw [hd]
      exact he.2.2.2
    | one => exact plain (by simp [Elt.write]) rfl
    | star => exact plain (by simp [Elt.write]) rfl
    | dstar => exact plain (by simp [Elt.write]) rfl
    | cls neg items =>
      apply plain _ rfl
      intro d hd
      rcases cls_chars he hd with rfl | rfl | rfl | rfl | h1
      · decide
      · decide
      · decide
      · decide
      · exact ⟨itemChar_ne h1 (by simp), itemChar_ne h1 (by simp)⟩

/-- What a template element is read as. -/
def TplElt.piece : TplElt → Piece
  | .text c => .ch c
  | .field n => .field n

theorem parse_writeTpl {T : List TplElt} (h : TplOK T) : parse (writeTpl T) = .ok (T.map TplElt.piece) := by
  induction T with
  | nil => simp [writeTpl, parse]
  | cons e T ih =>
    have ih := ih (fun e' he' => h e' (by simp [he']))
    have hw : writeTpl (e :: T) = e.write ++ writeTpl T := rfl
    rw [hw]
    cases e with
    | field n =>
      have : TplElt.write (.field n) ++ writeTpl T = '{' :: n ++ '}' :: writeTpl T := by simp [TplElt.write]
      rw [this, parse_field (h _ (by simp) n rfl) ih]
      rfl
    | text c =>
      by_cases hc : c = '{' ∨ c = '}'
      · have : TplElt.write (.text c) ++ writeTpl T = c :: c :: writeTpl T := by simp [TplElt.write, hc]
        rw [this, parse_brace hc ih]
        rfl
      · have : TplElt.write (.text c) = [c] := by simp [TplElt.write, hc]
        rw [this, parse_append _ ih]
        · rfl
        · intro d hd
          rw [List.mem_singleton.1 hd]
          exact not_or.1 hc

theorem lookup_reverse {l : List (List Char × List Char)} {n v : List Char} :
    l.reverse.lookup n = some v ↔ IsLast l n v := by
  constructor
  · intro h
    obtain ⟨l₁, l₂, h1, h2⟩ := List.lookup_eq_some_iff.1 h
    refine ⟨l₂.reverse, l₁.reverse, ?_, ?_⟩
    · have := congrArg List.reverse h1
      simpa using this
    · intro p hp heq
      have := h2 p (List.mem_reverse.1 hp)
      simp [heq] at this
  · rintro ⟨a, b, rfl, h⟩
    rw [List.lookup_eq_some_iff]
    refine ⟨b.reverse, a.reverse, by simp, ?_⟩
    intro p hp
    have := h p (List.mem_reverse.1 hp)
    simp only [beq_eq_false_iff_ne, bne_iff_ne, ne_eq]
    exact fun e => this e.symm

theorem fieldsOf_eq {P : List Elt} {segs : List (List Char)} (hs : P.length = segs.length) :
    fieldsOf P = (valuesOf P segs).map Prod.fst := by
  induction P generalizing segs with
  | nil => cases segs <;> rfl
  | cons e P ih =>
    cases segs with
    | nil => simp at hs
    | cons s segs =>
      simp only [List.length_cons, Nat.add_right_cancel_iff] at hs
      have := ih hs
      cases e with
      | field n =>
        show n :: fieldsOf P = n :: (valuesOf P segs).map Prod.fst
        rw [this]
      | text => exact this
      | one => exact this
      | cls => exact this
      | star => exact this
      | dstar => exact this

theorem value_ok {P : List Elt} {segs : List (List Char)} (hs : P.length = segs.length) {n v : List Char} :
    value (fieldsOf P) ((valuesOf P segs).map Prod.snd) n = .ok v ↔ IsLast (valuesOf P segs) n v := by
  have hz : (fieldsOf P).zip ((valuesOf P segs).map Prod.snd) = valuesOf P segs := by
    rw [fieldsOf_eq hs]
    generalize valuesOf P segs = l
    induction l <;> simp_all
  unfold value
  rw [hz, ← lookup_reverse]
  cases (valuesOf P segs).reverse.lookup n <;> simp

theorem isLast_of_mem {l : List (List Char × List Char)} {n : List Char} (hn : n ∈ l.map Prod.fst) :
    ∃ v, IsLast l n v := by
  induction l with
  | nil => simp at hn
  | cons p l ih =>
    by_cases h : n ∈ l.map Prod.fst
    · obtain ⟨v, a, b, h1, h2⟩ := ih h
      exact ⟨v, p :: a, b, by rw [h1]; rfl, h2⟩
    · have : n = p.1 := by
        rw [List.map_cons, List.mem_cons] at hn
        exact hn.resolve_right h
      refine ⟨p.2, [], l, by rw [this]; rfl, ?_⟩
      rintro q hq rfl
      exact h (List.mem_map.2 ⟨q, hq, rfl⟩)

theorem fieldsOf_isLast {P : List Elt} {segs : List (List Char)} (hs : P.length = segs.length) {n : List Char}
    (hn : n ∈ fieldsOf P) : ∃ v, IsLast (valuesOf P segs) n v := by
  rw [fieldsOf_eq hs] at hn
  exact isLast_of_mem hn

/-! Normal form of paths -/

theorem splitSlash_ne (l : List Char) : splitSlash l ≠ [] := by
  cases l with
  | nil => simp [splitSlash]
  | cons c l =>
    rw [splitSlash]
    split
    · simp
    · split <;> simp

theorem splitSlash_noslash (l : List Char) : ∀ w ∈ splitSlash l, '/' ∉ w := by
  induction l with
  | nil => simp [splitSlash]
  | cons c l ih =>
    intro w hw
    rw [splitSlash] at hw
    split at hw
    · rcases List.mem_cons.1 hw with rfl | hw
      · simp
      · exact ih w hw
    · rename_i hc
      split at hw
      · rw [List.mem_singleton.1 hw, List.mem_singleton]
        exact fun h => hc h.symm
      · rename_i v vs heq
        rcases List.mem_cons.1 hw with rfl | hw
        · intro h
          rcases List.mem_cons.1 h with h | h
          · exact hc h.symm
          · exact ih v (by rw [heq]; simp) h
        · exact ih w (by rw [heq]; simp [hw])

theorem splitSlash_append {w : List Char} (hw : '/' ∉ w) (r : List Char) :
    splitSlash (w ++ '/' :: r) = w :: splitSlash r := by
  induction w with
  | nil => simp [splitSlash]
  | cons c w ih =>
    simp only [List.mem_cons, not_or] at hw
    rw [List.cons_append, splitSlash, if_neg (fun h => hw.1 h.symm), ih hw.2]

theorem splitSlash_single {w : List Char} (hw : '/' ∉ w) : splitSlash w = [w] := by
  induction w with
  | nil => rfl
  | cons c w ih =>
    simp only [List.mem_cons, not_or] at hw
    rw [splitSlash, if_neg (fun h => hw.1 h.symm), ih hw.2]

theorem splitSlash_join {ws : List (List Char)} (hne : ws ≠ []) (h : ∀ w ∈ ws, '/' ∉ w) : splitSlash (joinSlash ws) = ws := by
  induction ws with
  | nil => exact absurd rfl hne
  | cons w ws ih =>
    cases ws with
    | nil => exact splitSlash_single (h w (by simp))
    | cons v vs =>
      show splitSlash (w ++ '/' :: joinSlash (v :: vs)) = _
      rw [splitSlash_append (h w (by simp)), ih (by simp) (fun u hu => h u (by simp [hu]))]

theorem splitSlash_slashes (k : ℕ) (l : List Char) :
    splitSlash (List.replicate k '/' ++ l) = List.replicate k [] ++ splitSlash l := by
  induction k with
  | zero => simp
  | succ k ih => rw [List.replicate_succ, List.cons_append, splitSlash, if_pos rfl, ih]; rfl

theorem initialSlashes_le (l : List Char) : initialSlashes l ≤ 2 := by
  unfold initialSlashes
  split <;> omega

theorem initialSlashes_replicate {k : ℕ} (hk : k ≤ 2) {l : List Char} (hl : l.head? ≠ some '/') :
    initialSlashes (List.replicate k '/' ++ l) = k := by
  have h0 : ∀ t, l ≠ '/' :: t := by
    rintro t rfl
    simp at hl
  interval_cases k
  · show initialSlashes l = 0
    unfold initialSlashes
    split
    · exact absurd rfl (h0 _)
    · exact absurd rfl (h0 _)
    · exact absurd rfl (h0 _)
    · rfl
  · show initialSlashes ('/' :: l) = 1
    unfold initialSlashes
    split
    · rfl
    · rename_i heq
      simp only [List.cons.injEq, true_and] at heq
      exact absurd heq (h0 _)
    · rfl
    · rename_i h1 h2 h3
      exact absurd rfl (h3 _)
  · show initialSlashes ('/' :: '/' :: l) = 2
    unfold initialSlashes
    split
    · rename_i heq
      simp only [List.cons.injEq, true_and] at heq
      exact absurd heq (h0 _)
    · rfl
    · rename_i h2 heq
      simp only [List.cons.injEq, true_and] at heq
      exact absurd heq.symm (h2 l)
    · rename_i h1 h2 h3
      exact absurd rfl (h3 _)

/-- The components kept by `normpath`, in reverse order. -/
structure Stack (k : ℕ) (acc : List (List Char)) : Prop where
  words : ∀ w ∈ acc, w ≠ [] ∧ w ≠ ['.'] ∧ '/' ∉ w
  ups : ∃ rest m, acc = rest ++ List.replicate m ['.', '.'] ∧ ['.', '.'] ∉ rest ∧ (k ≠ 0 → m = 0)

theorem Stack.step {k : ℕ} {acc : List (List Char)} (h : Stack k acc) {w : List Char} (hw : '/' ∉ w) :
    Stack k (normStep k acc w) := by
  obtain ⟨rest, m, h1, h2, h3⟩ := h.ups
  unfold normStep
  split
  · exact h
  rename_i hw1
  simp only [not_or] at hw1
  split
  · rename_i hc
    refine ⟨?_, ?_⟩
    · intro v hv
      rcases List.mem_cons.1 hv with rfl | hv
      · exact ⟨hw1.1, hw1.2, hw⟩
      · exact h.words v hv
    · by_cases hu : w = ['.', '.']
      · subst hu
        rcases hc with hc | ⟨rfl, rfl⟩ | hc
        · exact absurd rfl hc
        · exact ⟨[], 1, rfl, by simp, by simp⟩
        · cases rest with
          | nil => exact ⟨[], m + 1, by rw [h1]; simp [List.replicate_succ], by simp, fun hk => by
              exfalso
              have := h3 hk
              subst this
              rw [h1] at hc
              simp at hc⟩
          | cons v rest =>
            rw [h1] at hc
            simp only [List.cons_append, List.head?_cons, Option.some.injEq] at hc
            exact absurd (by rw [hc]; simp) h2
      · exact ⟨w :: rest, m, by rw [h1]; rfl, by
          intro hm
          rcases List.mem_cons.1 hm with hm | hm
          · exact hu hm.symm
          · exact h2 hm, h3⟩
  · rename_i hc
    simp only [not_or, ne_eq, not_not, not_and] at hc
    refine ⟨fun v hv => h.words v (List.mem_of_mem_tail hv), ?_⟩
    cases rest with
    | cons v rest => exact ⟨rest, m, by rw [h1]; rfl, fun hm => h2 (by simp [hm]), h3⟩
    | nil =>
      cases m with
      | zero => exact ⟨[], 0, by rw [h1]; rfl, by simp, fun _ => rfl⟩
      | succ m =>
        exfalso
        apply hc.2.2
        rw [h1]
        rfl

theorem Stack.foldl {k : ℕ} {ws acc : List (List Char)} (h : Stack k acc) (hw : ∀ w ∈ ws, '/' ∉ w) :
    Stack k (ws.foldl (normStep k) acc) := by
  induction ws generalizing acc with
  | nil => exact h
  | cons w ws ih => exact ih (h.step (hw w (by simp))) (fun v hv => hw v (by simp [hv]))

theorem Stack.nil (k : ℕ) : Stack k [] := ⟨by simp, [], 0, rfl, by simp, fun _ => rfl⟩

/-- Components in normal form are all kept. -/
theorem foldl_normal {k m : ℕ} {rest : List (List Char)} (hk : k ≠ 0 → m = 0) (hr : ['.', '.'] ∉ rest)
    (hw : ∀ w ∈ rest, w ≠ [] ∧ w ≠ ['.']) :
    (List.replicate m ['.', '.'] ++ rest).foldl (normStep k) [] = (List.replicate m ['.', '.'] ++ rest).reverse := by
  have h1 : ∀ j, (List.replicate m ['.', '.']).foldl (normStep k) (List.replicate j ['.', '.']) =
      List.replicate (j + m) ['.', '.'] := by
    induction m with
    | zero => intro j; rfl
    | succ m ih =>
      intro j
      have hk0 : k = 0 := by
        by_contra h
        exact absurd (hk h) (by omega)
      rw [List.replicate_succ, List.foldl_cons]
      have : normStep k (List.replicate j ['.', '.']) ['.', '.'] = List.replicate (j + 1) ['.', '.'] := by
        unfold normStep
        rw [if_neg (by simp), if_pos]
        · rfl
        · right
          cases j with
          | zero => exact .inl ⟨hk0, rfl⟩
          | succ j => right; rfl
      rw [this, ih (fun h => absurd hk0 h) (j + 1)]
      congr 1
      omega
  have h2 : ∀ (rest acc : List (List Char)), ['.', '.'] ∉ rest → (∀ w ∈ rest, w ≠ [] ∧ w ≠ ['.']) →
      rest.foldl (normStep k) acc = rest.reverse ++ acc := by
    intro rest
    induction rest with
    | nil => intro acc _ _; rfl
    | cons w rest ih =>
      intro acc hr hw
      rw [List.foldl_cons]
      have : normStep k acc w = w :: acc := by
        unfold normStep
        have := hw w (by simp)
        rw [if_neg (by simp [this.1, this.2]), if_pos]
        left
        rintro rfl
        exact hr (by simp)
      rw [this, ih _ (fun h => hr (by simp [h])) (fun v hv => hw v (by simp [hv]))]
      simp
  rw [List.foldl_append]
  have := h1 0
  simp only [List.replicate_zero, Nat.zero_add] at this
  rw [this, h2 rest _ hr hw]
  simp

theorem foldl_skip {k : ℕ} {ws acc : List (List Char)} :
    ws.foldl (normStep k) acc = (ws.filter (fun w => w ≠ [] ∧ w ≠ ['.'])).foldl (normStep k) acc := by
  induction ws generalizing acc with
  | nil => rfl
  | cons w ws ih =>
    rw [List.foldl_cons, List.filter_cons]
    split
    · rw [List.foldl_cons]
      exact ih
    · rename_i h
      have : normStep k acc w = acc := by
        unfold normStep
        rw [if_pos]
        simpa [Classical.or_iff_not_imp_left] using h
      rw [this]
      exact ih

end Razorback.PathTags
