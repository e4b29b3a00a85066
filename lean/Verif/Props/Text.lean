/-
Property C93: the texts by which tags and signal sets are shown.
-/
import Verif.Model.Text
import Verif.Lemmas.Inventory
import Verif.Props.Tags

namespace Razorback.Text
open Razorback

theorem nat_eq (i : Nat) : nat i = Nat.toDigits 10 i := Nat.toList_repr

theorem nat_inj {i j : Nat} (h : nat i = nat j) : i = j := by
  rw [nat_eq, nat_eq] at h
  rw [← Nat.ofDigitChars_ten_toDigits (n := i), h, Nat.ofDigitChars_ten_toDigits]

theorem nat_digit {i : Nat} {c : Char} (h : c ∈ nat i) : c.isDigit = true := by
  rw [nat_eq] at h
  exact Nat.isDigit_of_mem_toDigits (by decide) (by decide) h

theorem nat_ne_nil (i : Nat) : nat i ≠ [] := by rw [nat_eq]; exact Nat.toDigits_ne_nil

/-- Two texts cut at the first occurrence of a character. -/
theorem cut {c : Char} {a a' r r' : Txt} (ha : c ∉ a) (ha' : c ∉ a') (h : a ++ c :: r = a' ++ c :: r') : a = a' ∧ r = r' := by
  induction a generalizing a' with
  | nil =>
    cases a' with
    | nil => simpa using h
    | cons x a' => simp at h; simp [h.1] at ha'
  | cons x a ih =>
    cases a' with
    | nil => simp at h; simp [h.1] at ha
    | cons y a' =>
      simp only [List.cons_append, List.cons.injEq] at h
      obtain ⟨h1, h2⟩ := ih (fun hc => ha (by simp [hc])) (fun hc => ha' (by simp [hc])) h.2
      exact ⟨by rw [h.1, h1], h2⟩

theorem nat_no {i : Nat} {c : Char} (hc : c.isDigit = false) : c ∉ nat i := fun h => by
  rw [nat_digit h] at hc; exact absurd hc (by decide)

/-- What follows the first number in a list of numbers. -/
theorem join_nats_inj {l l' : List Nat} (hl : l ≠ []) (hl' : l' ≠ [])
    (h : join [',', ' '] (l.map nat) = join [',', ' '] (l'.map nat)) : l = l' := by
  have nc : ∀ i, ',' ∉ nat i := fun i => nat_no (by decide)
  have hm : ∀ (i j : Nat) (x : Txt), nat i = nat j ++ [',', ' '] ++ x → False := by
    intro i j x e
    exact nc i (by rw [e]; simp)
  induction l generalizing l' with
  | nil => exact absurd rfl hl
  | cons a l ih =>
    cases l' with
    | nil => exact absurd rfl hl'
    | cons a' l' =>
      cases l with
      | nil =>
        cases l' with
        | nil => simp only [List.map_cons, List.map_nil, join] at h; rw [nat_inj h]
        | cons b' l' => exact (hm _ _ _ (by simpa only [List.map_cons, List.map_nil, join] using h)).elim
      | cons b l =>
        cases l' with
        | nil => exact (hm _ _ _ (by simpa only [List.map_cons, List.map_nil, join] using h.symm)).elim
        | cons b' l' =>
          simp only [List.map_cons, join, List.append_assoc, List.cons_append, List.nil_append] at h
          obtain ⟨h1, h2⟩ := cut (nc a) (nc a') h
          rw [nat_inj h1, ih (by simp) (l' := b' :: l') (by simp) (by simpa [join] using h2)]

theorem tuple_form (l : List Nat) : ∃ body, ')' ∉ body ∧ tuple l = body ++ [')'] := by
  have hj : ∀ l : List Nat, ')' ∉ join [',', ' '] (l.map nat) := by
    intro l
    induction l with
    | nil => simp [join]
    | cons a l ih =>
      cases l with
      | nil => simpa [join] using nat_no (by decide)
      | cons b l =>
        simp only [List.map_cons, join, List.mem_append, not_or] at ih ⊢
        exact ⟨⟨nat_no (by decide), by simp⟩, ih⟩
  match l with
  | [] => exact ⟨['('], by simp, rfl⟩
  | [a] => exact ⟨['('] ++ nat a ++ [','], by simpa using nat_no (by decide), by simp [tuple]⟩
  | a :: b :: l => exact ⟨['('] ++ join [',', ' '] ((a :: b :: l).map nat), by simpa using hj (a :: b :: l), by simp [tuple]⟩

theorem tuple_inj {l l' : List Nat} (h : tuple l = tuple l') : l = l' := by
  have nc : ∀ i, ',' ∉ nat i := fun i => nat_no (by decide)
  have hmany : ∀ (a : Nat) (l : List Nat) (a' : Nat), tuple (a' :: l) = tuple [a] → l = [] := by
    intro a l a' e
    cases l with
    | nil => rfl
    | cons b l =>
      simp only [tuple, List.map_cons, join, List.append_assoc, List.cons_append, List.nil_append, List.cons.injEq, true_and] at e
      have := (cut (nc a') (nc a) e).2
      simp at this
  have hnil : ∀ a l, tuple (a :: l) ≠ tuple [] := by
    intro a l e
    cases l with
    | nil => simpa [tuple, join] using congrArg List.length e
    | cons b l =>
      simp only [tuple, List.map_cons, join, List.map_nil, List.append_assoc, List.cons_append, List.nil_append, List.cons.injEq,
        true_and] at e
      cases hn : nat a with
      | nil => exact nat_ne_nil a hn
      | cons c r =>
        rw [hn] at e
        have hd : c.isDigit = true := nat_digit (i := a) (by rw [hn]; simp)
        simp only [List.cons_append, List.cons.injEq] at e
        rw [e.1] at hd
        exact absurd hd (by decide)
  match l, l' with
  | [], [] => rfl
  | [], a :: l' => exact absurd h.symm (hnil a l')
  | a :: l, [] => exact absurd h (hnil a l)
  | [a], a' :: l' =>
    obtain rfl := hmany a l' a' h.symm
    simp only [tuple, List.append_assoc, List.cons_append, List.nil_append, List.cons.injEq, true_and] at h
    rw [nat_inj (cut (nc a) (nc a') h).1]
  | a :: b :: l, [a'] => exact absurd (hmany a' (b :: l) a h) (by simp)
  | a :: b :: l, a' :: b' :: l' =>
    refine join_nats_inj (by simp) (by simp) ?_
    simp only [tuple, List.append_assoc, List.cons_append, List.nil_append, List.cons.injEq, true_and, List.append_cancel_right_eq] at h
    exact h

theorem entry_cut {e e' : String × List Nat} (he : '=' ∉ e.1.toList) (he' : '=' ∉ e'.1.toList) {r r' : Txt}
    (h : entry e ++ r = entry e' ++ r') : e = e' ∧ r = r' := by
  simp only [entry, List.append_assoc, List.cons_append, List.nil_append] at h
  obtain ⟨h1, h2⟩ := cut he he' h
  obtain ⟨b, hb, hb2⟩ := tuple_form e.2
  obtain ⟨b', hb', hb2'⟩ := tuple_form e'.2
  rw [hb2, hb2', List.append_assoc, List.append_assoc] at h2
  obtain ⟨h3, h4⟩ := cut hb hb' h2
  refine ⟨?_, h4⟩
  have h5 : e.1 = e'.1 := String.toList_injective h1
  have h6 : e.2 = e'.2 := tuple_inj (by rw [hb2, hb2', h3])
  exact Prod.ext h5 h6

theorem entries_inj {l l' : List (String × List Nat)} (hl : ∀ e ∈ l, '=' ∉ e.1.toList) (hl' : ∀ e ∈ l', '=' ∉ e.1.toList)
    (h : join [',', ' '] (l.map entry) ++ [')'] = join [',', ' '] (l'.map entry) ++ [')']) : l = l' := by
  have hc : ∀ (e : String × List Nat) (l : List (String × List Nat)), ∃ r, (l = [] → r = [')']) ∧
      (∀ b t, l = b :: t → r = [',', ' '] ++ (join [',', ' '] (l.map entry) ++ [')'])) ∧
      join [',', ' '] ((e :: l).map entry) ++ [')'] = entry e ++ r := by
    intro e l
    cases l with
    | nil => exact ⟨[')'], by simp, by simp, by simp [join]⟩
    | cons b t => exact ⟨_, by simp, fun _ _ _ => rfl, by simp [join]⟩
  have hne : ∀ (e : String × List Nat) (r : Txt), entry e ++ r ≠ [')'] := by
    intro e r h
    have : (entry e ++ r).length = 1 := by rw [h]; rfl
    obtain ⟨b, _, hb⟩ := tuple_form e.2
    simp only [entry, hb, List.length_append, List.length_cons, List.length_nil] at this
    omega
  induction l generalizing l' with
  | nil =>
    cases l' with
    | nil => rfl
    | cons e l' =>
      obtain ⟨r, _, _, hr⟩ := hc e l'
      rw [hr] at h
      exact absurd h.symm (hne e r)
  | cons e l ih =>
    cases l' with
    | nil =>
      obtain ⟨r, _, _, hr⟩ := hc e l
      rw [hr] at h
      exact absurd h (hne e r)
    | cons e' l' =>
      obtain ⟨r, h1, h2, hr⟩ := hc e l
      obtain ⟨r', h1', h2', hr'⟩ := hc e' l'
      rw [hr, hr'] at h
      obtain ⟨he, hrr⟩ := entry_cut (hl e (by simp)) (hl' e' (by simp)) h
      subst he
      congr 1
      cases l with
      | nil =>
        cases l' with
        | nil => rfl
        | cons b' t' =>
          rw [h1 rfl, h2' _ _ rfl] at hrr
          simp at hrr
      | cons b t =>
        cases l' with
        | nil =>
          rw [h1' rfl, h2 _ _ rfl] at hrr
          simp at hrr
        | cons b' t' =>
          rw [h2 _ _ rfl, h2' _ _ rfl] at hrr
          exact ih (fun e h => hl e (by simp [h])) (fun e h => hl' e (by simp [h])) (List.append_cancel_left hrr)

/-- The order of the items by length and name is a total order on a mapping. -/
theorem leItem_total (a b : String × List Nat) : leItem a b = true ∨ leItem b a = true := by
  simp only [leItem, Bool.or_eq_true, decide_eq_true_eq, Bool.and_eq_true, beq_iff_eq]
  rcases Nat.lt_trichotomy a.2.length b.2.length with h | h | h
  · exact .inl (.inl h)
  · rcases String.le_total a.1 b.1 with h' | h'
    · exact .inl (.inr ⟨h, h'⟩)
    · exact .inr (.inr ⟨h.symm, h'⟩)
  · exact .inr (.inl h)

theorem leItem_trans (a b c : String × List Nat) (h1 : leItem a b = true) (h2 : leItem b c = true) : leItem a c = true := by
  simp only [leItem, Bool.or_eq_true, decide_eq_true_eq, Bool.and_eq_true, beq_iff_eq] at *
  rcases h1 with h1 | ⟨h1, k1⟩ <;> rcases h2 with h2 | ⟨h2, k2⟩
  · exact .inl (by omega)
  · exact .inl (by omega)
  · exact .inl (by omega)
  · exact .inr ⟨by omega, String.le_trans k1 k2⟩

theorem leItem_antisymm {a b : String × List Nat} (h1 : leItem a b = true) (h2 : leItem b a = true) : a.1 = b.1 := by
  simp only [leItem, Bool.or_eq_true, decide_eq_true_eq, Bool.and_eq_true, beq_iff_eq] at *
  rcases h1 with h1 | ⟨h1, k1⟩ <;> rcases h2 with h2 | ⟨h2, k2⟩
  · omega
  · omega
  · omega
  · exact String.le_antisymm k1 k2

theorem sort_congr {d d' : Dict (List Nat)} (hd : d.keys.Nodup) (h : d.Perm d') : sortBy leItem d = sortBy leItem d' := by
  have hp : (sortBy leItem d).Perm (sortBy leItem d') := ((sortBy_perm d).trans h).trans (sortBy_perm d').symm
  refine hp.eq_of_pairwise (fun a b ha hb h1 h2 => ?_) (sortBy_pairwise leItem_total leItem_trans d)
    (sortBy_pairwise leItem_total leItem_trans d')
  have e := leItem_antisymm h1 h2
  exact List.inj_on_of_nodup_map (f := Prod.fst) hd (mem_sortBy.1 ha) (h.mem_iff.2 (mem_sortBy.1 hb)) e

theorem perm_of_eq {d d' : Dict (List Nat)} (hd : d.keys.Nodup) (hd' : d'.keys.Nodup) (h : ∀ k, d.get? k = d'.get? k) : d.Perm d' := by
  rw [List.perm_ext_iff_of_nodup (List.Nodup.of_map _ hd) (List.Nodup.of_map _ hd')]
  rintro ⟨k, v⟩
  rw [Dict.mem_iff_get? hd, Dict.mem_iff_get? hd', h]

theorem eq_of_perm {d d' : Dict (List Nat)} (hd : d.keys.Nodup) (h : d.Perm d') (k : String) : d.get? k = d'.get? k := by
  have hd' : d'.keys.Nodup := (h.map Prod.fst).nodup_iff.1 hd
  apply Option.ext
  intro v
  have e : ((k, v) ∈ d ↔ (k, v) ∈ d') := h.mem_iff
  rw [Dict.mem_iff_get? hd, Dict.mem_iff_get? hd'] at e
  exact e

theorem eq_iff (t t' : Tags) (h : t.tags.keys.Nodup) (h' : t'.tags.keys.Nodup) :
    Tags.eq t t' = true ↔ (∀ k, t.tags.get? k = t'.tags.get? k) ∧ (t.tags.get? "indices" = none → t.n = t'.n) := by
  unfold Tags.eq
  rw [Bool.and_eq_true, Props.dictEq_iff h h']
  refine and_congr_right (fun he => ?_)
  rw [← he "indices"]
  cases t.tags.get? "indices" <;> simp

end Razorback.Text

namespace Razorback.Props
open Razorback Razorback.Text

/-- **C93.** Equal Tags have the same `repr`, whatever the order in which their tags were assigned. -/
theorem C93_canonical (t t' : Tags) (h : t.tags.keys.Nodup) (h' : t'.tags.keys.Nodup) (he : Tags.eq t t' = true) :
    tagsRepr t = tagsRepr t' := by
  obtain ⟨h1, h2⟩ := (eq_iff t t' h h').1 he
  have hi : t.indices.length = t'.indices.length := by
    unfold Tags.indices
    rw [← h1 "indices"]
    cases hx : t.tags.get? "indices" with
    | none => simp [h2 hx]
    | some v => rfl
  unfold tagsRepr Tags.items Tags.callMethod Dict.has
  rw [← h1 "items", hi]
  cases t.tags.get? "items" with
  | none => simp [sort_congr h (perm_of_eq h h' h1)]
  | some v => simp

/-- **C93.** If no name contains '=', `repr` tells apart Tags that are not equal; a tag called `items` makes it raise
TypeError. -/
theorem C93_repr_iff_equal (t t' : Tags) (h : t.tags.keys.Nodup) (h' : t'.tags.keys.Nodup)
    (hn : ∀ k ∈ t.tags.keys, '=' ∉ k.toList) (hn' : ∀ k ∈ t'.tags.keys, '=' ∉ k.toList)
    (hi : "items" ∉ t.tags.keys) (hi' : "items" ∉ t'.tags.keys) :
    (∃ s, tagsRepr t = .ok s) ∧ (tagsRepr t = tagsRepr t' ↔ Tags.eq t t' = true) := by
  have ok : ∀ t : Tags, "items" ∉ t.tags.keys → t.items = .ok t.tags := by
    intro t h
    simp [Tags.items, Tags.callMethod, Dict.has, Dict.get?_eq_none.2 h]
  refine ⟨⟨_, by rw [tagsRepr, ok t hi]⟩, fun he => ?_, C93_canonical t t' h h'⟩
  rw [tagsRepr, tagsRepr, ok t hi, ok t' hi'] at he
  simp only [Except.ok.injEq, List.append_assoc, List.append_cancel_left_eq, List.cons_append, List.nil_append] at he
  obtain ⟨h1, h2⟩ := cut (nat_no (by decide)) (nat_no (by decide)) he
  have h3 := entries_inj (fun e he => hn _ (List.mem_map_of_mem (f := Prod.fst) (mem_sortBy.1 he)))
    (fun e he => hn' _ (List.mem_map_of_mem (f := Prod.fst) (mem_sortBy.1 he))) (by simpa using h2)
  have hp : t.tags.Perm t'.tags := ((sortBy_perm (le := leItem) t.tags).symm.trans (.of_eq h3)).trans (sortBy_perm t'.tags)
  have hg := eq_of_perm h hp
  rw [eq_iff t t' h h']
  refine ⟨hg, fun hx => ?_⟩
  have := nat_inj h1
  unfold Tags.indices at this
  rw [← hg "indices", hx] at this
  simpa using this

/-- **C93 (ambiguity).** Names are not restricted to identifiers: with '=' in a name, different Tags look the same. -/
theorem C93_ambiguous : ∃ t t' : Tags, Tags.new (some 1) [("a=(0,), b", .int 0)] = .ok t ∧
    Tags.new (some 1) [("a", .int 0), ("b", .int 0)] = .ok t' ∧ tagsRepr t = tagsRepr t' ∧ Tags.eq t t' = false :=
  ⟨_, _, rfl, rfl, by decide +kernel, by decide +kernel⟩

/-- **C93.** A tag called `items` makes `repr` raise TypeError. -/
theorem C93_items_raises (t : Tags) (h : "items" ∈ t.tags.keys) : tagsRepr t = .error .type := by
  have : (t.tags.get? "items").isSome = true := by
    rw [Option.isSome_iff_ne_none, Ne, Dict.get?_eq_none]; simpa using h
  simp [tagsRepr, Tags.items, Tags.callMethod, Dict.has, this]

/-- The items of a line, each followed by a comma and a space. -/
def lineOf (items : List Txt) : Txt := items.flatMap (fun e => e ++ [',', ' '])

/-- The items are broken into lines: in order, none lost and none cut; a line is at most `width` long or consists of
a single item; a line ends where the next item would not have fitted; only the first may be empty. -/
def Wrapped (width : Nat) (items : List Txt) (lines : List Txt) : Prop :=
  ∃ groups : List (List Txt), groups.flatten = items ∧ lines = groups.map lineOf ∧
    (∀ g ∈ groups, (lineOf g).length ≤ width ∨ g.length = 1) ∧
    (∀ i g e r, groups[i]? = some g → groups[i + 1]? = some (e :: r) → width < (lineOf g).length + e.length + 2) ∧
    (∀ g ∈ groups.tail, g ≠ []) ∧ groups ≠ []

/-- The lines so far, last first, in the loop. -/
theorem fill_groups (width : Nat) (items : List Txt) : ∃ gs : List (List Txt), gs.reverse.flatten = items ∧
    items.foldl (fill width) [[]] = gs.map lineOf ∧ (∀ g ∈ gs, (lineOf g).length ≤ width ∨ g.length = 1) ∧
    (∀ i g e r, gs[i + 1]? = some g → gs[i]? = some (e :: r) → width < (lineOf g).length + e.length + 2) ∧
    (∀ g ∈ gs.dropLast, g ≠ []) ∧ gs ≠ [] := by
  induction items using List.reverseRecOn with
  | nil => exact ⟨[[]], by simp, by simp [lineOf], by simp [lineOf], by simp, by simp, by simp⟩
  | append_singleton items e ih =>
    obtain ⟨gs, h1, h2, h3, h4, h5, h6⟩ := ih
    cases gs with
    | nil => exact absurd rfl h6
    | cons g gs =>
      rw [List.foldl_append, h2, List.foldl_cons, List.foldl_nil, List.map_cons, fill]
      split
      · rename_i hw
        refine ⟨[e] :: g :: gs, by simp [← h1], by simp [lineOf], ?_, ?_, ?_, by simp⟩
        · intro g' hg'
          rcases List.mem_cons.1 hg' with rfl | hg'
          · exact .inr rfl
          · exact h3 g' hg'
        · intro i g' e' r hi hi'
          cases i with
          | zero =>
            simp only [List.getElem?_cons_zero, Option.some.injEq, List.cons.injEq, List.getElem?_cons_succ, Nat.zero_add] at hi hi'
            obtain ⟨rfl, rfl⟩ := hi'
            subst hi
            omega
          | succ i =>
            simp only [List.getElem?_cons_succ] at hi hi'
            exact h4 i g' e' r hi hi'
        · intro g' hg'
          rw [List.dropLast_cons_of_ne_nil (by simp)] at hg'
          rcases List.mem_cons.1 hg' with rfl | hg'
          · simp
          · exact h5 g' hg'
      · rename_i hw
        refine ⟨(g ++ [e]) :: gs, by simp [← h1], by simp [lineOf], ?_, ?_, ?_, by simp⟩
        · intro g' hg'
          rcases List.mem_cons.1 hg' with rfl | hg'
          · left; simp [lineOf] at hw ⊢; omega
          · exact h3 g' (by simp [hg'])
        · intro i g' e' r hi hi'
          cases i with
          | zero =>
            simp only [List.getElem?_cons_zero, Option.some.injEq, List.getElem?_cons_succ, Nat.zero_add] at hi hi'
            cases g with
            | nil =>
              exfalso
              cases gs with
              | nil => simp at hi
              | cons x gs => exact h5 [] (by simp) rfl
            | cons a g =>
              simp only [List.cons_append, List.cons.injEq] at hi'
              obtain ⟨rfl, rfl⟩ := hi'
              exact h4 0 g' a g (by simpa using hi) (by simp)
          | succ i =>
            simp only [List.getElem?_cons_succ] at hi hi'
            exact h4 (i + 1) g' e' r (by simpa using hi) (by simpa using hi')
        · intro g' hg'
          cases gs with
          | nil => simp at hg'
          | cons x gs =>
            rw [List.dropLast_cons_of_ne_nil (by simp)] at hg'
            rcases List.mem_cons.1 hg' with rfl | hg'
            · simp
            · exact h5 g' (by rw [List.dropLast_cons_of_ne_nil (by simp)]; simp [hg'])

theorem tagLines_wrapped (width : Nat) (items : List Txt) : Wrapped width items (tagLines width items) := by
  obtain ⟨gs, h1, h2, h3, h4, h5, h6⟩ := fill_groups width items
  refine ⟨gs.reverse, h1, by rw [tagLines, h2, List.map_reverse], by simpa using h3, ?_, ?_, by simpa using h6⟩
  · intro i g e r hi hi'
    have hlt := (List.getElem?_eq_some_iff.1 hi').1
    simp only [List.length_reverse] at hlt
    rw [List.getElem?_reverse (by omega)] at hi hi'
    exact h4 (gs.length - 1 - (i + 1)) g e r (by rw [← hi]; congr 1; omega) hi'
  · intro g hg
    rw [List.tail_reverse] at hg
    exact h5 g (by simpa using hg)

theorem join_getLast (sep : Txt) (l : List Txt) (x : Txt) : ∃ pre, join sep (l ++ [x]) = pre ++ x ∧
    ∀ y, join sep (l ++ [y]) = pre ++ y := by
  induction l with
  | nil => exact ⟨[], rfl, fun y => rfl⟩
  | cons a l ih =>
    obtain ⟨pre, h1, h2⟩ := ih
    have : ∀ y, join sep (a :: l ++ [y]) = a ++ sep ++ join sep (l ++ [y]) := by
      intro y
      cases l <;> rfl
    exact ⟨a ++ sep ++ pre, by rw [this, h1]; simp, fun y => by rw [this, h2]; simp⟩

/-- **C93.** `str` of a signal set shows the tags sorted by number of channels and name, broken into lines of at most 45
characters (or one item) after the opening brace, aligned below the first, none lost; the comma and space after the
last item are left out. -/
theorem C93_tags_block (t : Tags) (hi : "items" ∉ t.tags.keys) : ∃ (order : List (String × List Nat)) (lines : List Txt) (text : Txt),
    tagsBlock t = .ok ("tags: {".toList ++ text ++ ['}']) ∧ order.Perm t.tags ∧
    order.Pairwise (fun a b => a.2.length < b.2.length ∨ (a.2.length = b.2.length ∧ a.1 ≤ b.1)) ∧
    Wrapped 45 (order.map (fun e => ("'" ++ e.1 ++ "': ").toList ++ tuple e.2)) lines ∧
    (t.tags = [] → text = []) ∧ (t.tags ≠ [] → text ++ [',', ' '] = join ("\n       ".toList) lines) := by
  have ok : t.items = .ok t.tags := by
    simp [Tags.items, Tags.callMethod, Dict.has, Dict.get?_eq_none.2 hi]
  have hq : quoted = fun e => ("'" ++ e.1 ++ "': ").toList ++ tuple e.2 := by
    funext e; simp [quoted]
  have hW := tagLines_wrapped 45 ((sortBy leItem t.tags).map quoted)
  refine ⟨sortBy leItem t.tags, tagLines 45 ((sortBy leItem t.tags).map quoted), _, by rw [tagsBlock, ok], sortBy_perm _, ?_,
    by rw [← hq]; exact hW, ?_, ?_⟩
  · refine (sortBy_pairwise leItem_total leItem_trans t.tags).imp (fun {a b} h => ?_)
    simpa [leItem] using h
  · intro h
    rw [h]
    rfl
  · intro h
    obtain ⟨gs, g1, g2, _, _, g5, g6⟩ := hW
    change List.take ((join "\n       ".toList (tagLines 45 ((sortBy leItem t.tags).map quoted))).length - 2)
      (join "\n       ".toList (tagLines 45 ((sortBy leItem t.tags).map quoted))) ++ _ = _
    generalize tagLines 45 ((sortBy leItem t.tags).map quoted) = lines at *
    obtain ⟨init, last, rfl⟩ : ∃ init last, gs = init ++ [last] := ⟨_, _, (List.dropLast_append_getLast g6).symm⟩
    have hl : last ≠ [] := by
      rintro rfl
      cases init with
      | nil =>
        simp only [List.nil_append, List.flatten_cons, List.flatten_nil, List.append_nil] at g1
        have := congrArg List.length g1
        simp only [List.length_nil, List.length_map, length_sortBy] at this
        exact h (List.eq_nil_of_length_eq_zero this.symm)
      | cons a init => exact g5 [] (by simp) rfl
    obtain ⟨l0, e, rfl⟩ : ∃ l0 e, last = l0 ++ [e] := ⟨_, _, (List.dropLast_append_getLast hl).symm⟩
    rw [g2, List.map_append, List.map_cons, List.map_nil]
    obtain ⟨pre, hp, _⟩ := join_getLast "\n       ".toList (init.map lineOf) (lineOf (l0 ++ [e]))
    rw [hp]
    have : lineOf (l0 ++ [e]) = (lineOf l0 ++ e) ++ [',', ' '] := by simp [lineOf]
    rw [this, ← List.append_assoc]
    generalize pre ++ (lineOf l0 ++ e) = X
    rw [List.length_append, show X.length + [',', ' '].length - 2 = X.length from by simp, List.take_left]

theorem num_cut {n n' : Nat} {w r r' : Txt} (h : num n w ++ r = num n' w ++ r') : n = n' ∧ r = r' := by
  simp only [num, List.append_assoc, List.cons_append, List.nil_append] at h
  have e := nat_inj (cut (nat_no (by decide)) (nat_no (by decide)) h).1
  subst e
  exact ⟨rfl, by simpa using h⟩

/-- **C93.** The first line of `str` tells the number of channels and of runs. -/
theorem C93_first_line (c r c' r' : Nat) (h : firstLine c r = firstLine c' r') : c = c' ∧ r = r' := by
  unfold firstLine at h
  generalize "SignalSet: ".toList = A, "channel".toList = B, "run".toList = C at h
  rw [List.append_assoc, List.append_assoc, List.append_assoc, List.append_assoc] at h
  obtain ⟨h1, h2⟩ := num_cut (List.append_cancel_left h)
  have h3 := List.append_cancel_left h2
  exact ⟨h1, (num_cut (r := []) (r' := []) (by rw [h3])).1⟩

/-- **C93.** `repr` of a signal set without '%' in its tag names is `SignalSet(tags, run, ...)`. -/
theorem C93_signalset_repr (t : Tags) (runs : List Txt) (h : '%' ∉ tagsStr t) :
    signalSetRepr t runs = .ok ("SignalSet(".toList ++ tagsStr t ++ ", ".toList ++ join ", ".toList runs ++ ")".toList) := by
  have key : ∀ (a r : Txt) (arg : Option Txt), '%' ∉ a → percent (a ++ r) arg = (match percent r arg with
      | .error e => .error e
      | .ok r => .ok (a ++ r)) := by
    intro a r arg ha
    induction a with
    | nil => simp; cases percent r arg <;> rfl
    | cons c a ih =>
      have hc : c ≠ '%' := fun e => ha (by simp [e])
      have ih := ih (fun h => ha (by simp [h]))
      rw [List.cons_append, percent, ih]
      · cases percent r arg <;> rfl
      all_goals simp_all
  have e : "SignalSet(".toList ++ tagsStr t ++ [',', ' ', '%', 's', ')'] =
      ("SignalSet(".toList ++ tagsStr t ++ ", ".toList) ++ ['%', 's', ')'] := by simp
  rw [signalSetRepr, e, key _ _ _ (by simp [h])]
  simp [percent]

/-- **C93 ('%' in a name).** A tag name containing `%s` makes `repr` of the signal set raise TypeError. -/
theorem C93_percent_raises : signalSetRepr ⟨1, [("E%s", [0])]⟩ ["run".toList] = .error .type := by decide +kernel

example : firstLine 1 2 = "SignalSet: 1 channel, 2 runs".toList := by decide +kernel

/-- Three tags given in two orders. -/
example : tagsRepr ⟨3, [("B", [2]), ("E", [0, 1]), ("A", [0])]⟩ = .ok "Tags(3, A=(0,), B=(2,), E=(0, 1))".toList := by decide +kernel

example : tagsRepr ⟨3, [("A", [0]), ("E", [0, 1]), ("B", [2])]⟩ = tagsRepr ⟨3, [("B", [2]), ("E", [0, 1]), ("A", [0])]⟩ :=
  C93_canonical _ _ (by decide +kernel) (by decide +kernel) (by decide +kernel)

end Razorback.Props
