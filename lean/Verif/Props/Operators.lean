/-
Property C108: the operators.
-/
import Verif.Model.Operators
import Verif.Props.Join
import Verif.Props.Inventory

namespace Razorback

section stable
variable {β : Type _} {le : β → β → Bool}

theorem insertBy_comm (tot : ∀ a b, le a b = true ∨ le b a = true) (tr : ∀ a b c, le a b = true → le b c = true → le a c = true)
    {a b : β} (h : ¬ le a b = true) (l : List β) : insertBy le b (insertBy le a l) = insertBy le a (insertBy le b l) := by
  have hba : le b a = true := (tot a b).resolve_left h
  induction l with
  | nil => simp [insertBy, h, hba]
  | cons c l ih =>
    by_cases h1 : le a c = true
    · have h2 := tr _ _ _ hba h1
      simp [insertBy, h, h1, h2, hba]
    · by_cases h2 : le b c = true
      · simp [insertBy, h, h1, h2]
      · simp [insertBy, h1, h2, ih]

theorem sortBy_append (l m : List β) : sortBy le (l ++ m) = l.foldr (insertBy le) (sortBy le m) := by
  induction l with
  | nil => rfl
  | cons a l ih => simp [sortBy, ih]

/-- Sorting is stable: sorting a part first changes nothing. -/
theorem sortBy_append_left (tot : ∀ a b, le a b = true ∨ le b a = true)
    (tr : ∀ a b c, le a b = true → le b c = true → le a c = true) (l m : List β) :
    sortBy le (sortBy le l ++ m) = sortBy le (l ++ m) := by
  have key : ∀ (a : β) (s l : List β), (insertBy le a l).foldr (insertBy le) s = insertBy le a (l.foldr (insertBy le) s) := by
    intro a s l
    induction l with
    | nil => rfl
    | cons b l ih =>
      by_cases h : le a b = true
      · have e : insertBy le a (b :: l) = a :: b :: l := by simp [insertBy, h]
        rw [e]
        rfl
      · have e : insertBy le a (b :: l) = b :: insertBy le a l := by simp [insertBy, h]
        rw [e, List.foldr_cons, ih, List.foldr_cons]
        exact insertBy_comm tot tr h _
  rw [sortBy_append, sortBy_append]
  induction l with
  | nil => rfl
  | cons a l ih => rw [sortBy, key, ih]; rfl

theorem sublist_insertBy {a : β} {s l : List β} (h : ∀ c ∈ s, le a c = true) (hs : s.Sublist l) : (a :: s).Sublist (insertBy le a l) := by
  induction l generalizing s with
  | nil => rw [List.sublist_nil.1 hs]; exact List.Sublist.refl _
  | cons y l ih =>
    unfold insertBy
    by_cases hy : le a y = true
    · simp only [hy, if_true]; exact hs.cons_cons a
    · simp only [hy]
      refine List.Sublist.cons y (ih h ?_)
      cases hs with
      | cons _ h' => exact h'
      | cons_cons _ h' => exact absurd (h y (by simp)) hy

/-- What was sorted keeps its order when more elements are sorted with it. -/
theorem sublist_sortBy (tot : ∀ a b, le a b = true ∨ le b a = true)
    (tr : ∀ a b c, le a b = true → le b c = true → le a c = true) (l m : List β) :
    (sortBy le l).Sublist (sortBy le (l ++ m)) := by
  rw [← sortBy_append_left tot tr]
  have hs := sortBy_pairwise tot tr l
  generalize sortBy le l = s at hs ⊢
  induction s with
  | nil => exact List.nil_sublist _
  | cons a s ih =>
    obtain ⟨h1, h2⟩ := List.pairwise_cons.1 hs
    exact sublist_insertBy h1 (ih h2)

end stable

end Razorback

namespace Razorback.Props
open Razorback Razorback.Spec Razorback.SigSet Razorback.Operators
variable {α κ : Type _}

theorem sortRuns_append (l m : List (Sync α κ)) : sortRuns (sortRuns l ++ m) = sortRuns (l ++ m) :=
  sortBy_append_left (fun a b => by simpa using le_total a.start b.start)
    (fun a b c => by simpa using fun h1 h2 => le_trans h1 h2) l m

theorem sublist_sortRuns (l m : List (Sync α κ)) : (sortRuns l).Sublist (sortRuns (l ++ m)) :=
  sublist_sortBy (fun a b => by simpa using le_total a.start b.start)
    (fun a b c => by simpa using fun h1 h2 => le_trans h1 h2) l m

theorem chanCount_sortRuns {l : List (Sync α κ)} (h : ∀ r ∈ l, ∀ r' ∈ l, r.data.length = r'.data.length) {s : Sync α κ} (hs : s ∈ l) :
    chanCount (sortRuns l) = s.data.length := by
  cases hl : sortRuns l with
  | nil => exact absurd (mem_sortRuns.2 hs) (by simp [hl])
  | cons a m => exact h a (mem_sortRuns.1 (by simp [hl])) s hs

theorem mkTags_le {n : Nat} {t t' : Tags} (hp : Plain t) (h : mkTags n (.tags t) = .ok t') : n ≠ 0 → t.n ≤ n := by
  intro hn
  simp only [mkTags] at h
  split at h
  · simp at h
  · rename_i h1
    simp only [plain_indices hp, not_and, not_not, hn, ne_eq, not_false_eq_true, forall_const,
      List.all_eq_true, List.mem_range, decide_eq_true_eq] at h1
    by_contra hc
    exact absurd (h1 n (by omega)) (by omega)

/-- Building from more runs, given the set built from some. -/
theorem build_more [Rnd] {t : Tags} (hi : t.Inv) (hp : Plain t) {l : List (Sync α κ)} (hl : l ≠ []) (hw : ∀ s ∈ l, WF s)
    {S : SigSet α κ} (hS : build (.tags t) l = .ok S) (m : List (Sync α κ)) :
    build (.tags S.tags) (S.runs ++ m) = build (.tags t) (l ++ m) ∧ S.tags.Inv ∧ Plain S.tags := by
  obtain ⟨a1, a2, a3, a4, a5⟩ := build_as.1 hS
  obtain ⟨s, hs⟩ := List.exists_mem_of_ne_nil _ hl
  have hn : s.data.length ≠ 0 := (List.length_pos_iff.2 (hw s hs).nonempty).ne'
  rw [chanCount_sortRuns a1 hs] at a5
  have hle := mkTags_le hp a5 hn
  have ht : S.tags = { n := s.data.length, tags := t.tags } := by
    rw [mkTags_eq hi hp hn hle] at a5
    exact (Except.ok.inj a5).symm
  have hpS : Plain S.tags := by
    rw [ht]; exact hp
  have hiS := (mkTags_inv a5).1
  refine ⟨?_, hiS, hpS⟩
  have hE : build (.tags S.tags) (S.runs ++ m) = build (.tags S.tags) (l ++ m) := by
    rw [a4]
    exact build_perm ((sortRuns_perm l).append_right m) (sortRuns_append l m)
  rw [hE]
  unfold build
  by_cases h1 : 1 < (dedup ((l ++ m).map (fun s => s.data.length))).length
  · simp only [if_pos h1]
  · have h1' := dedup_length_le_one.1 h1
    have h1'' : ∀ r ∈ l ++ m, ∀ r' ∈ l ++ m, r.data.length = r'.data.length := by
      intro r hr r' hr'
      exact h1' _ (List.mem_map_of_mem hr) _ (List.mem_map_of_mem hr')
    have hc := chanCount_sortRuns h1'' (List.mem_append_left m hs)
    simp only [sortRuns] at hc
    have hm : mkTags s.data.length (.tags S.tags) = mkTags s.data.length (.tags t) := by
      rw [mkTags_eq hi hp hn hle, mkTags_eq hiS hpS hn (by rw [ht])]
      simp only [ht]
    simp only [if_neg h1, hc, hm]

theorem build_prefix [Rnd] {t : Tags} (hi : t.Inv) (hp : Plain t) {l m : List (Sync α κ)} (hl : l ≠ []) (hw : ∀ s ∈ l, WF s)
    {R : SigSet α κ} (h : build (.tags t) (l ++ m) = .ok R) : ∃ S, build (.tags t) l = .ok S := by
  obtain ⟨a1, a2, a3, a4, a5⟩ := build_as.1 h
  obtain ⟨s, hs⟩ := List.exists_mem_of_ne_nil _ hl
  have hn : s.data.length ≠ 0 := (List.length_pos_iff.2 (hw s hs).nonempty).ne'
  have hlen : ∀ r ∈ l, ∀ r' ∈ l, r.data.length = r'.data.length := fun r hr r' hr' =>
    a1 r (List.mem_append_left _ hr) r' (List.mem_append_left _ hr')
  rw [chanCount_sortRuns a1 (List.mem_append_left m hs)] at a5
  have hle := mkTags_le hp a5 hn
  refine ⟨⟨sortRuns l, { n := s.data.length, tags := t.tags }⟩, build_as.2 ⟨hlen, fun r hr => a2 r (List.mem_append_left _ hr),
    a3.sublist (sublist_sortRuns l m), rfl, ?_⟩⟩
  rw [chanCount_sortRuns hlen hs]
  exact mkTags_eq hi hp hn hle

theorem orOp_set_sync [Rnd] [One κ] (S : SigSet α κ) (s : Sync α κ) : orOp (.set S) (.sync s) = S.join [.sync s] := by
  unfold orOp newOf join new
  simp only [mapE, reorderArg, argRuns]
  cases S.reorder (.tags S.tags) with
  | error e => rfl
  | ok S' => simp [allSome]

theorem orOp_tags_sync [Rnd] [One κ] (t : Tags) (s : Sync α κ) : orOp (.tags t) (.sync s) = build (.tags t) [s] := by
  unfold orOp newOf
  simp [mapE, reorderArg, allSome]

/-- **C108.** `tags | s1 | s2 | ...` is `SignalSet(tags, s1, s2, ...)`: both succeed or fail together and give the same set. -/
theorem C108_one_at_a_time [Rnd] [One κ] (n : Option Nat) (d : List (String × TagVal)) (t : Tags) (ht : Tags.new n d = .ok t)
    (hp : Plain t) (s : Sync α κ) (l : List (Sync α κ)) (hw : ∀ r ∈ s :: l, WF r) (R : SigSet α κ) :
    (orOp (.tags t) (.sync s) >>= fun S => l.foldlM (fun S s => orOp (.set S) (.sync s)) S) = .ok R ↔
      SigSet.new (.tags t) ((s :: l).map .sync) = .ok R := by
  have hi := (Tags.new_inv ht).1
  rw [new_sync, orOp_tags_sync]
  have key : ∀ (l pre : List (Sync α κ)) (S : SigSet α κ), pre ≠ [] → (∀ r ∈ pre ++ l, WF r) → build (.tags t) pre = .ok S →
      (l.foldlM (fun S s => orOp (.set S) (.sync s)) S = .ok R ↔ build (.tags t) (pre ++ l) = .ok R) := by
    intro l
    induction l with
    | nil =>
      intro pre S _ _ hS
      rw [List.append_nil, hS]
      exact Iff.rfl
    | cons x l ih =>
      intro pre S hne hw hS
      obtain ⟨e1, e2, e3⟩ := build_more hi hp hne (fun r hr => hw r (List.mem_append_left _ hr)) hS [x]
      have e4 : orOp (.set S) (.sync x) = build (.tags t) (pre ++ [x]) := by
        rw [orOp_set_sync, join_sync e2 e3, e1]
      rw [List.foldlM_cons, e4]
      have e5 : pre ++ x :: l = (pre ++ [x]) ++ l := by simp
      rw [e5]
      cases hb : build (.tags t) (pre ++ [x]) with
      | ok S' => exact ih (pre ++ [x]) S' (by simp) (by rw [← e5]; exact hw) hb
      | error e =>
        constructor
        · intro h; cases h
        · intro h
          obtain ⟨S', hS'⟩ := build_prefix hi hp (by simp) (fun r hr => hw r (by rw [e5]; exact List.mem_append_left _ hr)) h
          rw [hb] at hS'
          cases hS'
  cases hb : build (.tags t) [s] with
  | ok S => exact key l [s] S (by simp) hw hb
  | error e =>
    constructor
    · intro h; cases h
    · intro h
      obtain ⟨S', hS'⟩ := build_prefix (l := [s]) (m := l) hi hp (by simp) (fun r hr => hw r (by simp at hr; simp [hr])) h
      rw [hb] at hS'
      cases hS'

/-- Is a signal: can be given to `SignalSet(tags, ...)`. -/
def IsSignal : Operand α κ → Prop
  | .sync _ => True
  | .set _ => True
  | _ => False

theorem allSome_mem {β : Type _} {l : List (Option β)} {r : List β} (h : allSome l = some r) : none ∉ l := by
  induction l generalizing r with
  | nil => simp
  | cons a l ih =>
    cases a with
    | none => simp [allSome] at h
    | some a =>
      simp only [allSome, Option.map_eq_some_iff] at h
      obtain ⟨r', h1, -⟩ := h
      simpa using ih h1

theorem newOf_ok [Rnd] [One κ] {tags : TagsArg} {args : List (Operand α κ)} {R : SigSet α κ} (h : newOf tags args = .ok R) :
    ∀ a ∈ args, IsSignal a := by
  unfold newOf at h
  split at h
  · cases h
  · rename_i l hl
    split at h
    · cases h
    · rename_i rss hr
      intro a ha
      obtain ⟨y, hy1, hy2⟩ := mapE_ok_forall hl a ha
      have hn : y ≠ none := fun h => allSome_mem hr (h ▸ hy1)
      cases a with
      | sync s => trivial
      | set S => trivial
      | tags t => simp [reorderArg] at hy2; exact absurd hy2.symm hn
      | inv t => simp [reorderArg] at hy2; exact absurd hy2.symm hn
      | other => simp [reorderArg] at hy2; exact absurd hy2.symm hn

/-- **C108.** `a | b` only returns for tags followed by a signal, or for two signals one of which is a signal set; `a & b` only for two
signal sets, `a + b` only for two inventories. -/
theorem C108_operands [Rnd] [One κ] (a b : Operand α κ) :
    (∀ R, orOp a b = .ok R → ((∃ t, a = .tags t) ∧ IsSignal b) ∨
      (IsSignal a ∧ IsSignal b ∧ ((∃ S, a = .set S) ∨ ∃ S, b = .set S))) ∧
    (∀ R, andOp a b = .ok R → (∃ S, a = .set S) ∧ ∃ S, b = .set S) ∧
    (∀ R, plusOp a b = .ok R → (∃ I, a = .inv I) ∧ ∃ I, b = .inv I) := by
  refine ⟨fun R h => ?_, fun R h => ?_, fun R h => ?_⟩
  · cases a with
    | tags t => exact .inl ⟨⟨t, rfl⟩, newOf_ok h b (by simp)⟩
    | set S => exact .inr ⟨trivial, newOf_ok h b (by simp), .inl ⟨S, rfl⟩⟩
    | sync s =>
      cases b with
      | set S => exact .inr ⟨trivial, trivial, .inr ⟨S, rfl⟩⟩
      | _ => cases h
    | inv I =>
      cases b with
      | set S => exact absurd (newOf_ok h (.inv I) (by simp)) (by simp [IsSignal])
      | _ => cases h
    | other =>
      cases b with
      | set S => exact absurd (newOf_ok h .other (by simp)) (by simp [IsSignal])
      | _ => cases h
  · cases a <;> cases b <;> first | (cases h; done) | exact ⟨⟨_, rfl⟩, ⟨_, rfl⟩⟩
  · cases a <;> cases b <;> first | (cases h; done) | exact ⟨⟨_, rfl⟩, ⟨_, rfl⟩⟩

/-- **C108.** A signal and a signal set can be joined in either order, with the same result; sets join and merge with `|` and `&`;
tags on the left of a signal set renumber its channels, as `SignalSet(tags, S)` does. -/
theorem C108_meaning [Rnd] [One κ] (S T : SigSet α κ) (s : Sync α κ) (t : Tags) :
    orOp (.set S) (.sync s) = S.join [.sync s] ∧ orOp (.sync s) (.set S) = S.join [.sync s] ∧
    orOp (.set S) (.set T) = S.join [.set T] ∧ andOp (.set S) (.set T) = S.merge [T] ∧
    orOp (.tags t) (.set S) = SigSet.new (.tags t) [.set S] := by
  refine ⟨orOp_set_sync S s, orOp_set_sync S s, ?_, rfl, ?_⟩
  · unfold orOp newOf join new
    simp only [mapE, reorderArg, argRuns]
    cases S.reorder (.tags S.tags) with
    | error e => rfl
    | ok S' =>
      cases T.reorder (.tags S.tags) with
      | error e => rfl
      | ok T' => simp [allSome]
  · unfold orOp newOf new
    simp only [mapE, reorderArg, argRuns]
    cases S.reorder (.tags t) with
    | error e => rfl
    | ok S' => simp [allSome]

/-- **C108.** `sum(inventories, Inventory())` has the sets of all of them in order, `sum(inventories)` raises AssertionError. -/
theorem C108_sum (l : List (Inventory α κ)) : sumOp l (.inv []) = .ok (some l.flatten) ∧
    (l ≠ [] → sumOp l .other = .error .assertion) := by
  have key : ∀ (l : List (Inventory α κ)) (I : Inventory α κ), sumOp l (.inv I) = .ok (some (I ++ l.flatten)) := by
    intro l
    induction l with
    | nil => intro I; simp [sumOp]
    | cons J l ih => intro I; simp [sumOp, plusOp, C30_add, ih]
  refine ⟨by rw [key]; simp, fun h => ?_⟩
  cases l with
  | nil => exact absurd rfl h
  | cons J l => rfl

/-- Two runs added one after the other, the later one first. -/
example : let s : Sync ℤ ℤ := ⟨[[1, 2]], [1], 1, 10, 2⟩
    let s' : Sync ℤ ℤ := ⟨[[3, 4]], [1], 1, 0, 2⟩
    Tags.new none [("Ex", .int 0)] = .ok ⟨1, [("Ex", [0])]⟩ ∧ (orOp (.tags ⟨1, [("Ex", [0])]⟩) (.sync s) >>= fun S => [s'].foldlM (fun S s => orOp (.set S) (.sync s)) S) =
      .ok ⟨[s', s], ⟨1, [("Ex", [0])]⟩⟩ := by decide +kernel

end Razorback.Props
