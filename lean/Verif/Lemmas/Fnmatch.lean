import Verif.Spec.Fnmatch
import Verif.Lemmas.Py

namespace Razorback.Fnmatch
open Razorback.Spec

theorem item_mem_iff {items : List Item} {c : Char} : items.any (Item.mem c) = true ↔ InSeq items c := by
  unfold InSeq
  simp only [List.any_eq_true]
  constructor
  · rintro ⟨i, hi, h⟩
    refine ⟨i, hi, ?_⟩
    cases i with
    | ch d => simp [Item.mem] at h; simp [h]
    | range a b => simp [Item.mem] at h; exact .inr ⟨a, b, rfl, h⟩
  · rintro ⟨i, hi, h⟩
    refine ⟨i, hi, ?_⟩
    rcases h with rfl | ⟨a, b, rfl, h⟩
    · simp [Item.mem]
    · simpa [Item.mem] using h

theorem one_iff {t : Tok} {c : Char} (ht : t ≠ .star) : t.one c = true ↔ Denotes t [c] := by
  cases t with
  | lit d => simp [Tok.one, Denotes]
  | any => simp [Tok.one, Denotes]
  | star => simp at ht
  | cls neg items =>
    cases neg with
    | false =>
      have := @item_mem_iff items c
      simp only [Tok.one, Denotes]
      rw [show ((items.any (Item.mem c)) != false) = items.any (Item.mem c) by cases items.any (Item.mem c) <;> rfl, this]
      simp
    | true =>
      have := @item_mem_iff items c
      simp only [Tok.one, Denotes]
      rw [show ((items.any (Item.mem c)) != true) = !items.any (Item.mem c) by cases items.any (Item.mem c) <;> rfl,
        Bool.not_eq_true', ← Bool.not_eq_true, this]
      simp

theorem denotes_one {t : Tok} {w : List Char} (ht : t ≠ .star) (h : Denotes t w) : ∃ c, w = [c] := by
  cases t with
  | lit d => exact ⟨d, h⟩
  | any => exact h
  | star => simp at ht
  | cls neg items =>
    cases neg with
    | false => obtain ⟨c, h, _⟩ := h; exact ⟨c, h⟩
    | true => obtain ⟨c, h, _⟩ := h; exact ⟨c, h⟩

theorem shellMatch_nil {w : List Char} : ShellMatch [] w ↔ w = [] := by
  unfold ShellMatch; simp [eq_comm]

theorem shellMatch_star {ts : List Tok} {w : List Char} :
    ShellMatch (.star :: ts) w ↔ ∃ u v, w = u ++ v ∧ ShellMatch ts v := by
  unfold ShellMatch
  constructor
  · rintro ⟨ps, h, rfl⟩
    cases h with
    | cons h1 h2 => exact ⟨_, _, List.flatten_cons, _, h2, rfl⟩
  · rintro ⟨u, v, rfl, ps, h, rfl⟩
    exact ⟨u :: ps, .cons trivial h, by simp⟩

theorem shellMatch_one {t : Tok} (ht : t ≠ .star) {ts : List Tok} {w : List Char} :
    ShellMatch (t :: ts) w ↔ ∃ c v, w = c :: v ∧ Denotes t [c] ∧ ShellMatch ts v := by
  unfold ShellMatch
  constructor
  · rintro ⟨ps, h, rfl⟩
    cases h with
    | cons h1 h2 =>
      obtain ⟨c, rfl⟩ := denotes_one ht h1
      exact ⟨c, _, by simp, h1, _, h2, rfl⟩
  · rintro ⟨c, v, rfl, h1, ps, h, rfl⟩
    exact ⟨[c] :: ps, .cons h1 h, by simp⟩

theorem matchToks_iff (ts : List Tok) (w : List Char) : matchToks ts w = true ↔ ShellMatch ts w := by
  induction ts generalizing w with
  | nil => cases w <;> simp [matchToks, shellMatch_nil]
  | cons t ts ih =>
    by_cases ht : t = .star
    · subst ht
      rw [shellMatch_star]
      induction w with
      | nil =>
        rw [matchToks, ih]
        constructor
        · intro h; exact ⟨[], [], rfl, h⟩
        · rintro ⟨u, v, h, h'⟩
          obtain ⟨rfl, rfl⟩ := List.nil_eq_append_iff.1 h
          exact h'
      | cons c w ihw =>
        rw [matchToks, Bool.or_eq_true, ih, ihw]
        constructor
        · rintro (h | ⟨u, v, rfl, h⟩)
          · exact ⟨[], _, rfl, h⟩
          · exact ⟨c :: u, v, rfl, h⟩
        · rintro ⟨u, v, h, h'⟩
          cases u with
          | nil => left; simp at h; rw [h]; exact h'
          | cons d u => simp at h; exact .inr ⟨u, v, h.2, h'⟩
    · rw [shellMatch_one ht]
      cases w with
      | nil => simp [matchToks]
      | cons c w =>
        rw [matchToks]
        · rw [Bool.and_eq_true, one_iff ht, ih]
          constructor
          · rintro ⟨h1, h2⟩; exact ⟨c, w, rfl, h1, h2⟩
          · rintro ⟨c', v, h, h1, h2⟩; simp at h; rw [h.1, h.2]; exact ⟨h1, h2⟩
        · exact ht

/-! ### the tokeniser reads what the specification writes -/

theorem splitBracket_append {s : List Char} (hs : ∀ c ∈ s, c ≠ ']') (r : List Char) :
    splitBracket (s ++ ']' :: r) = some (s, r) := by
  induction s with
  | nil => simp [splitBracket]
  | cons c s ih =>
    have h1 : c ≠ ']' := hs c (by simp)
    have h2 := ih (fun d hd => hs d (by simp [hd]))
    simp [splitBracket, h1, h2]

theorem parseItems_simple {s : List Char} (hs : ∀ c ∈ s, c ≠ '-') : parseItems s = s.map .ch := by
  induction s with
  | nil => rfl
  | cons a s ih =>
    have ih := ih (fun d hd => hs d (by simp [hd]))
    unfold parseItems
    split
    · rename_i heq
      simp only [List.cons.injEq] at heq
      obtain ⟨rfl, rfl⟩ := heq
      exact absurd rfl (hs '-' (by simp))
    · rename_i heq
      simp only [List.cons.injEq] at heq
      obtain ⟨rfl, rfl⟩ := heq
      simp [ih]
    · rename_i heq; simp at heq

theorem bracketBody_simple {s : List Char} (hne : s ≠ []) (hs : ∀ c ∈ s, c ≠ ']') (r : List Char) :
    bracketBody (s ++ ']' :: r) = some (s, r) := by
  cases s with
  | nil => exact absurd rfl hne
  | cons c s =>
    unfold bracketBody
    split
    · rename_i heq
      simp only [List.cons_append, List.cons.injEq] at heq
      exact absurd heq.1 (hs c (by simp))
    · exact splitBracket_append hs r

theorem tokens_writes {t : Tok} {p : List Char} (h : Writes t p) (r : List Char) :
    tokens (p ++ r) = t :: tokens r := by
  cases h with
  | lit c h1 h2 h3 =>
    rw [List.singleton_append, tokens]
    · exact h1
    · exact h2
    · exact h3
  | any => rw [List.singleton_append, tokens]
  | star => rw [List.singleton_append, tokens]
  | cls s hne hs =>
    simp only [List.cons_append, List.append_assoc, List.nil_append]
    have hb : bracket (s ++ ']' :: r) = some (false, s.map .ch, r) := by
      unfold bracket
      split
      · rename_i heq
        cases s with
        | nil => exact absurd rfl hne
        | cons c s =>
          simp only [List.cons_append, List.cons.injEq] at heq
          exact absurd heq.1 (hs c (by simp)).2.2
      · rw [bracketBody_simple hne (fun c hc => (hs c hc).1)]
        simp [parseItems_simple (fun c hc => (hs c hc).2.1)]
    rw [tokens]
    split
    · rename_i h; rw [hb] at h; simp at h
    · rename_i h; rw [hb] at h; simp at h; obtain ⟨rfl, rfl, rfl⟩ := h; rfl
  | ncls s hne hs =>
    simp only [List.cons_append, List.append_assoc, List.nil_append]
    have hb : bracket ('!' :: (s ++ ']' :: r)) = some (true, s.map .ch, r) := by
      unfold bracket
      simp only
      rw [bracketBody_simple hne (fun c hc => (hs c hc).1)]
      simp [parseItems_simple (fun c hc => (hs c hc).2.1)]
    rw [tokens]
    split
    · rename_i h; rw [hb] at h; simp at h
    · rename_i h; rw [hb] at h; simp at h; obtain ⟨rfl, rfl, rfl⟩ := h; rfl
  | range a b hab ha hb' hx =>
    simp only [List.cons_append, List.nil_append]
    have hbr : bracket (a :: '-' :: b :: ']' :: r) = some (false, [.range a b], r) := by
      unfold bracket
      split
      · rename_i heq; simp only [List.cons.injEq] at heq; exact absurd heq.1 hx
      · have : bracketBody (a :: '-' :: b :: ']' :: r) = some ([a, '-', b], r) := by
          have := @bracketBody_simple [a, '-', b] (by simp) (by simp [ha, hb']) r
          simpa using this
        rw [this]
        simp [parseItems, hab]
    rw [tokens]
    split
    · rename_i h; rw [hbr] at h; simp at h
    · rename_i h; rw [hbr] at h; simp at h; obtain ⟨rfl, rfl, rfl⟩ := h; rfl

theorem tokens_text {ts : List Tok} {p : List Char} (h : PatternText ts p) : tokens p = ts := by
  obtain ⟨ps, h, rfl⟩ := h
  induction h with
  | nil => simp [tokens]
  | cons h1 _ ih => simp only [List.flatten_cons]; rw [tokens_writes h1, ih]

end Razorback.Fnmatch
