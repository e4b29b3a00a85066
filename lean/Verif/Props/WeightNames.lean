/-
Property C107: the texts of weight functions.
-/
import Verif.Model.WeightNames
import Verif.Props.Text

namespace Razorback.Props
open Razorback Razorback.Text Razorback.Weights Razorback.WeightNames

variable {g : ℝ → Txt}

/-- The same weight function, for all that the texts of its parameters tell. -/
def SameBase (g : ℝ → Txt) : Base → Base → Prop
  | .huber a, .huber b => g a = g b
  | .thomson none, .thomson none => True
  | .thomson (some x), .thomson (some y) => g x = g y
  | _, _ => False

/-- The same weight function, for all that the texts of its parameters tell. -/
def SameObj (g : ℝ → Txt) : Option Obj → Option Obj → Prop
  | none, none => True
  | some (.base v), some (.base w) => SameBase g v w
  | some (.bis v l k), some (.bis w l' k') => SameBase g v w ∧ g l = g l' ∧ g k = g k'
  | _, _ => False

/-- A text of a number is not empty and has none of the characters `(`, `)` and `,`. -/
def NumberText (g : ℝ → Txt) : Prop := ∀ x, g x ≠ [] ∧ '(' ∉ g x ∧ ')' ∉ g x ∧ ',' ∉ g x

theorem no_paren_huber : '(' ∉ huberText := by decide +kernel
theorem no_paren_thomson : '(' ∉ thomsonText := by decide +kernel
theorem huber_ne_thomson : huberText ≠ thomsonText := by decide +kernel
theorem no_paren_bis : '(' ∉ bisText := by decide +kernel
theorem bis_ne : bisText ≠ huberText ∧ bisText ≠ thomsonText := by decide +kernel
theorem none_text : noneText = ['N', 'o', 'n', 'e'] := by decide +kernel
theorem heads : (∃ l, huberText = 'H' :: l) ∧ (∃ l, thomsonText = 'T' :: l) ∧ ∃ l, bisText = 'B' :: l :=
  ⟨⟨"uber".toList, by decide +kernel⟩, ⟨"homson".toList, by decide +kernel⟩, ⟨"oundedInfluenceStep".toList, by decide +kernel⟩⟩

/-- The name in front of the parenthesis and the rest of the text of a weight function. -/
theorem baseStr_eq (w : Base) : ∃ n body, baseStr g w = n ++ '(' :: (body ++ [')']) ∧
    ((∃ a, w = .huber a ∧ n = huberText ∧ body = g a) ∨ (w = .thomson none ∧ n = thomsonText ∧ body = []) ∨
      ∃ x, w = .thomson (some x) ∧ n = thomsonText ∧ body = g x) := by
  cases w with
  | huber a => exact ⟨_, g a, by simp [baseStr], .inl ⟨a, rfl, rfl, rfl⟩⟩
  | thomson xi =>
    cases xi with
    | none => exact ⟨_, [], by simp [baseStr], .inr (.inl ⟨rfl, rfl, rfl⟩)⟩
    | some x => exact ⟨_, g x, by simp [baseStr], .inr (.inr ⟨x, rfl, rfl, rfl⟩)⟩

theorem baseStr_cut (hg : NumberText g) {v w : Base} {r r' : Txt} (h : baseStr g v ++ r = baseStr g w ++ r') :
    SameBase g v w ∧ r = r' := by
  obtain ⟨n, body, e1, c1⟩ := baseStr_eq (g := g) v
  obtain ⟨n', body', e2, c2⟩ := baseStr_eq (g := g) w
  rw [e1, e2] at h
  simp only [List.append_assoc, List.cons_append, List.nil_append] at h
  have hn : '(' ∉ n ∧ ')' ∉ body := by
    rcases c1 with ⟨a, -, rfl, rfl⟩ | ⟨-, rfl, rfl⟩ | ⟨a, -, rfl, rfl⟩
    · exact ⟨no_paren_huber, (hg a).2.2.1⟩
    · exact ⟨no_paren_thomson, by simp⟩
    · exact ⟨no_paren_thomson, (hg a).2.2.1⟩
  have hn' : '(' ∉ n' ∧ ')' ∉ body' := by
    rcases c2 with ⟨a, -, rfl, rfl⟩ | ⟨-, rfl, rfl⟩ | ⟨a, -, rfl, rfl⟩
    · exact ⟨no_paren_huber, (hg a).2.2.1⟩
    · exact ⟨no_paren_thomson, by simp⟩
    · exact ⟨no_paren_thomson, (hg a).2.2.1⟩
  obtain ⟨h1, h2⟩ := cut hn.1 hn'.1 h
  obtain ⟨h3, h4⟩ := cut hn.2 hn'.2 h2
  refine ⟨?_, h4⟩
  rcases c1 with ⟨a, rfl, rfl, rfl⟩ | ⟨rfl, rfl, rfl⟩ | ⟨a, rfl, rfl, rfl⟩ <;>
    rcases c2 with ⟨b, rfl, rfl, rfl⟩ | ⟨rfl, rfl, rfl⟩ | ⟨b, rfl, rfl, rfl⟩
  · exact h3
  · exact absurd h1 huber_ne_thomson
  · exact absurd h1 huber_ne_thomson
  · exact absurd h1.symm huber_ne_thomson
  · trivial
  · exact absurd h3.symm (hg b).1
  · exact absurd h1.symm huber_ne_thomson
  · exact absurd h3 (hg a).1
  · exact h3

/-- The element of a sequence. -/
def elem : Option Obj → Elem
  | none => .none
  | some w => .obj w

/-- Its text. -/
noncomputable def elemText (g : ℝ → Txt) : Option Obj → Txt
  | none => noneText
  | some w => objStr g w

theorem objStr_cut (hg : NumberText g) {v w : Obj} {r r' : Txt} (h : objStr g v ++ r = objStr g w ++ r') :
    SameObj g (some v) (some w) ∧ r = r' := by
  have mixed : ∀ (v : Base) (r t : Txt), baseStr g v ++ r ≠ bisText ++ '(' :: t := by
    intro v r t h
    obtain ⟨n, body, e1, c1⟩ := baseStr_eq (g := g) v
    rw [e1] at h
    simp only [List.append_assoc, List.cons_append] at h
    rcases c1 with ⟨a, -, rfl, -⟩ | ⟨-, rfl, -⟩ | ⟨a, -, rfl, -⟩
    · exact bis_ne.1 (cut no_paren_huber no_paren_bis h).1.symm
    · exact bis_ne.2 (cut no_paren_thomson no_paren_bis h).1.symm
    · exact bis_ne.2 (cut no_paren_thomson no_paren_bis h).1.symm
  cases v with
  | base v =>
    cases w with
    | base w => exact baseStr_cut hg h
    | bis w l k =>
      simp only [objStr, List.append_assoc, List.cons_append, List.nil_append] at h
      exact absurd h (mixed _ _ _)
  | bis v l k =>
    cases w with
    | base w =>
      simp only [objStr, List.append_assoc, List.cons_append, List.nil_append] at h
      exact absurd h.symm (mixed _ _ _)
    | bis w l' k' =>
      simp only [objStr, List.append_assoc, List.cons_append, List.nil_append] at h
      have h := List.append_cancel_left h
      simp only [List.cons.injEq, true_and] at h
      obtain ⟨h1, h⟩ := baseStr_cut hg h
      simp only [List.cons.injEq, true_and] at h
      obtain ⟨h2, h⟩ := cut (hg l).2.2.2 (hg l').2.2.2 h
      simp only [List.cons.injEq, true_and] at h
      obtain ⟨h3, h⟩ := cut (hg k).2.2.1 (hg k').2.2.1 h
      exact ⟨⟨h1, h2, h3⟩, h⟩

theorem objStr_head (w : Obj) : ∃ c l, objStr g w = c :: l ∧ c ≠ 'N' ∧ c ≠ ')' := by
  obtain ⟨⟨a, ha⟩, ⟨b, hb⟩, ⟨c, hc⟩⟩ := heads
  cases w with
  | base w =>
    cases w with
    | huber x => exact ⟨'H', a ++ '(' :: (g x ++ [')']), by simp [objStr, baseStr, ha], by decide, by decide⟩
    | thomson xi =>
      cases xi with
      | none => exact ⟨'T', b ++ ['(', ')'], by simp [objStr, baseStr, hb], by decide, by decide⟩
      | some x => exact ⟨'T', b ++ '(' :: (g x ++ [')']), by simp [objStr, baseStr, hb], by decide, by decide⟩
  | bis w l k =>
    exact ⟨'B', c ++ '(' :: (baseStr g w ++ (',' :: ' ' :: (g l ++ (',' :: ' ' :: (g k ++ [')']))))), by simp [objStr, hc],
      by decide, by decide⟩

theorem elemText_cut (hg : NumberText g) {v w : Option Obj} {r r' : Txt} (h : elemText g v ++ r = elemText g w ++ r') :
    SameObj g v w ∧ r = r' := by
  cases v with
  | none =>
    cases w with
    | none => exact ⟨trivial, List.append_cancel_left h⟩
    | some w =>
      obtain ⟨c, l, e, hc, -⟩ := objStr_head (g := g) w
      simp only [elemText, none_text, e, List.cons_append, List.cons.injEq] at h
      exact absurd h.1.symm hc
  | some v =>
    cases w with
    | none =>
      obtain ⟨c, l, e, hc, -⟩ := objStr_head (g := g) v
      simp only [elemText, none_text, e, List.cons_append, List.cons.injEq] at h
      exact absurd h.1 hc
    | some w => exact objStr_cut hg h

theorem elemText_head (v : Option Obj) : ∃ c l, elemText g v = c :: l ∧ c ≠ ')' := by
  cases v with
  | none => exact ⟨_, _, none_text, by decide⟩
  | some w =>
    obtain ⟨c, l, e, -, hc⟩ := objStr_head (g := g) w
    exact ⟨c, l, e, hc⟩

theorem join_elem_cut (hg : NumberText g) {l l' : List (Option Obj)} {r r' : Txt}
    (h : join [',', ' '] (l.map (elemText g)) ++ ')' :: r = join [',', ' '] (l'.map (elemText g)) ++ ')' :: r') :
    List.Forall₂ (SameObj g) l l' := by
  induction l generalizing l' with
  | nil =>
    cases l' with
    | nil => exact .nil
    | cons b l' =>
      obtain ⟨c, t, e, hc⟩ := elemText_head (g := g) b
      cases l' with
      | nil =>
        simp only [List.map_nil, List.map_cons, join, e, List.nil_append, List.cons_append, List.cons.injEq] at h
        exact absurd h.1.symm hc
      | cons b' l' =>
        simp only [List.map_nil, List.map_cons, join, e, List.nil_append, List.cons_append, List.cons.injEq] at h
        exact absurd h.1.symm hc
  | cons a l ih =>
    cases l' with
    | nil =>
      obtain ⟨c, t, e, hc⟩ := elemText_head (g := g) a
      cases l with
      | nil =>
        simp only [List.map_nil, List.map_cons, join, e, List.nil_append, List.cons_append, List.cons.injEq] at h
        exact absurd h.1 hc
      | cons b' l' =>
        simp only [List.map_nil, List.map_cons, join, e, List.nil_append, List.cons_append, List.cons.injEq] at h
        exact absurd h.1 hc
    | cons b l' =>
      cases l with
      | nil =>
        cases l' with
        | nil =>
          simp only [List.map_nil, List.map_cons, join] at h
          exact .cons (elemText_cut hg h).1 .nil
        | cons b' l' =>
          simp only [List.map_nil, List.map_cons, join, List.append_assoc, List.cons_append, List.nil_append] at h
          have h2 := (elemText_cut hg h).2
          simp at h2
      | cons a' l =>
        cases l' with
        | nil =>
          simp only [List.map_nil, List.map_cons, join, List.append_assoc, List.cons_append, List.nil_append] at h
          have h2 := (elemText_cut hg h).2
          simp at h2
        | cons b' l' =>
          simp only [List.map_cons, join, List.append_assoc, List.cons_append, List.nil_append] at h
          obtain ⟨h1, h2⟩ := elemText_cut hg h
          simp only [List.cons.injEq, true_and] at h2
          exact .cons h1 (ih (l' := b' :: l') h2)

theorem seqRepr_unnamed (l : List (Option Obj)) :
    seqRepr g none (l.map elem) = .ok (['('] ++ join [',', ' '] (l.map (elemText g)) ++ [')']) := by
  have h : everyName ((l.map elem).map (elemName g)) = some (l.map (elemText g)) := by
    induction l with
    | nil => rfl
    | cons a l ih =>
      cases a with
      | none => simp only [List.map_cons, elem, elemName, everyName, ih, elemText, Option.map_some]
      | some w => simp only [List.map_cons, elem, elemName, everyName, ih, elemText, Option.map_some]
  unfold seqRepr
  simp only [seqName, h]

/-- **C107.** A sequence of weight functions of the library without name shows all its functions: two sequences shown alike have the same
functions, in the same order, with parameters shown alike.  The texts of numbers have neither parentheses nor commas. -/
theorem C107_unambiguous (hg : NumberText g) (l l' : List (Option Obj)) (h : seqRepr g none (l.map elem) = seqRepr g none (l'.map elem)) :
    List.Forall₂ (SameObj g) l l' := by
  rw [seqRepr_unnamed, seqRepr_unnamed] at h
  have h := Except.ok.inj h
  simp only [List.append_assoc, List.cons_append, List.nil_append, List.cons.injEq, true_and] at h
  exact join_elem_cut hg (r := []) (r' := []) h

/-- **C107.** A name hides the functions, an empty one does not. -/
theorem C107_name (l : List Elem) (c : Char) (name : Txt) :
    seqRepr g (some (c :: name)) l = .ok (c :: name) ∧ seqRepr g (some []) l = seqRepr g none l := ⟨rfl, rfl⟩

/-- **C107.** A sequence without name cannot be shown exactly if it contains a sequence without name: TypeError is raised. -/
theorem C107_nested (l : List Elem) : (∀ t, seqRepr g none l ≠ .ok t) ↔ .seq none ∈ l := by
  have h : everyName (l.map (elemName g)) = none ↔ .seq none ∈ l := by
    induction l with
    | nil => simp [everyName]
    | cons a l ih =>
      cases a with
      | none => simp [elemName, everyName, ih]
      | obj w => simp [elemName, everyName, ih]
      | func n => simp [elemName, everyName, ih]
      | seq n =>
        cases n with
        | none => simp [elemName, everyName]
        | some n => simp [elemName, everyName, ih]
  rw [← h]
  unfold seqRepr
  simp only [seqName]
  cases everyName (l.map (elemName g)) <;> simp

/-- **C107.** `Thomson(xi)` is accepted exactly without `xi` or with a positive one. -/
theorem C107_thomson (xi : Option ℝ) : (∃ w, newThomson xi = .ok w) ↔ ∀ x, xi = some x → 0 < x := by
  cases xi with
  | none => simp [newThomson]
  | some x =>
    simp only [newThomson, Option.some.injEq, forall_eq']
    split
    · rename_i h; simp [h]
    · rename_i h; simp [h]

/-- **C107.** The name of the weights made by `bi_weights` tells its arguments, as far as their texts do. -/
theorem C107_bi_name (hg : NumberText g) (p p' : ℝ) (n n' dim dim' : ℕ) (h : biName g p n dim = biName g p' n' dim') :
    g p = g p' ∧ g n = g n' ∧ g dim = g dim' := by
  simp only [biName, List.append_assoc, List.cons_append, List.nil_append] at h
  have h := List.append_cancel_left h
  simp only [List.cons.injEq, true_and] at h
  obtain ⟨h1, h⟩ := cut (hg _).2.2.2 (hg _).2.2.2 h
  simp only [List.cons.injEq, true_and] at h
  obtain ⟨h2, h⟩ := cut (hg _).2.2.2 (hg _).2.2.2 h
  simp only [List.cons.injEq, true_and] at h
  exact ⟨h1, h2, (cut (hg _).2.2.1 (hg _).2.2.1 h).1⟩

/-- The text of the sequence of `mest_weights` without its name. -/
example (hg : NumberText g) (h : g 1.5 = "1.5".toList) :
    seqRepr g none (mestWeights.map elem) = .ok "(None, Huber(1.5), Thomson())".toList := by
  rw [seqRepr_unnamed]
  simp only [mestWeights, List.map_cons, List.map_nil, elemText, objStr, baseStr, h, join, huberText, thomsonText, noneText]
  decide +kernel

/-- There are such texts. -/
example : NumberText (fun _ => "1.5".toList) := by
  have h : "1.5".toList ≠ [] ∧ '(' ∉ "1.5".toList ∧ ')' ∉ "1.5".toList ∧ ',' ∉ "1.5".toList := by decide +kernel
  exact fun _ => h

end Razorback.Props
