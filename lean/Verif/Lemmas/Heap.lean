/-
Ownership of the `Tags` objects: invariant of all programs, and what each statement leaves alone.
-/
import Verif.Spec.Heap
import Verif.Lemmas.Py
import Mathlib.Data.List.Basic
import Mathlib.Data.List.Nodup
import Mathlib.Data.List.GetD
import Mathlib.Tactic.Linarith

namespace Razorback.Heap
open Razorback Razorback.Spec.Objects
variable {α κ : Type _}

theorem mapE_mem {β γ : Type _} {f : β → Except Err γ} {l : List β} {m : List γ} (h : mapE f l = .ok m) {c : γ}
    (hc : c ∈ m) : ∃ b ∈ l, f b = .ok c := by
  have h' := mapE_ok.mp h
  clear h
  induction h' with
  | nil => cases hc
  | cons h1 _ ih =>
    rcases List.mem_cons.mp hc with rfl | hc
    · exact ⟨_, List.mem_cons_self, h1⟩
    · obtain ⟨b, hb, hb'⟩ := ih hc
      exact ⟨b, List.mem_cons_of_mem _ hb, hb'⟩

/-- A reference to an existing object. -/
def Ref.Valid (h : Store α κ) : Ref → Prop
  | .tags a => a < h.tags.length
  | .set b => b < h.sets.length
  | .inv c => c < h.invs.length

/-- Each signal set has a `Tags` object that no other has; references exist. -/
structure Inv (s : State α κ) : Prop where
  own : (s.store.sets.map (fun o => o.tags)).Nodup
  tags : ∀ o ∈ s.store.sets, o.tags < s.store.tags.length
  vars : ∀ r, some r ∈ s.vars → r.Valid s.store
  invs : ∀ l ∈ s.store.invs, ∀ b ∈ l, b < s.store.sets.length

/-- What a statement can do that changes no existing object. -/
inductive Move (s : State α κ) : State α κ → Prop
  | skip : Move s s.skip
  | bind (r : Ref) (h : r.Valid s.store) : Move s (s.bind r)
  | fresh (r : Except Err (SigSet α κ)) : Move s (s.fresh r)
  | freshInv (r : Except Err (Inventory α κ)) : Move s (s.freshInv r)
  | bindInv (l : List Nat) (h : ∀ b ∈ l, b < s.store.sets.length) : Move s (s.bindInv l)
  | newTags (t : Tags) : Move s ⟨{ s.store with tags := s.store.tags ++ [t] }, s.vars ++ [some (.tags s.store.tags.length)]⟩

theorem Ref.Valid.mono {h h' : Store α κ} {r : Ref} (v : r.Valid h) (ht : h.tags.length ≤ h'.tags.length)
    (hs : h.sets.length ≤ h'.sets.length) (hi : h.invs.length ≤ h'.invs.length) : r.Valid h' := by
  cases r <;> simp only [Ref.Valid] at * <;> omega

/-- The store grew: existing objects are unchanged, and the new signal sets have new `Tags` objects. -/
structure Grow (h h' : Store α κ) : Prop where
  tags : ∃ t, h'.tags = h.tags ++ t
  sets : ∃ l, h'.sets = h.sets ++ l ∧ (l.map (fun o => o.tags)).Nodup ∧
    ∀ o ∈ l, h.tags.length ≤ o.tags ∧ o.tags < h'.tags.length
  invs : ∃ l, h'.invs = h.invs ++ l ∧ ∀ i ∈ l, ∀ b ∈ i, b < h'.sets.length

theorem Grow.refl (h : Store α κ) : Grow h h :=
  ⟨⟨[], by simp⟩, ⟨[], by simp⟩, ⟨[], by simp⟩⟩

theorem Grow.trans {h h' h'' : Store α κ} (a : Grow h h') (b : Grow h' h'') : Grow h h'' := by
  obtain ⟨⟨t, ht⟩, ⟨l, hl, hn, hb⟩, ⟨i, hi, hib⟩⟩ := a
  obtain ⟨⟨t', ht'⟩, ⟨l', hl', hn', hb'⟩, ⟨i', hi', hib'⟩⟩ := b
  refine ⟨⟨t ++ t', by rw [ht', ht, List.append_assoc]⟩, ⟨l ++ l', by rw [hl', hl, List.append_assoc], ?_, ?_⟩,
    ⟨i ++ i', by rw [hi', hi, List.append_assoc], ?_⟩⟩
  · rw [List.map_append, List.nodup_append]
    refine ⟨hn, hn', ?_⟩
    intro x hx y hy hxy
    obtain ⟨o, ho, rfl⟩ := List.mem_map.mp hx
    obtain ⟨o', ho', rfl⟩ := List.mem_map.mp hy
    have := (hb o ho).2
    have := (hb' o' ho').1
    omega
  · intro o ho
    have hlen : h'.tags.length ≤ h''.tags.length := by rw [ht']; simp
    have hlen0 : h.tags.length ≤ h'.tags.length := by rw [ht]; simp
    rcases List.mem_append.mp ho with ho | ho
    · have := hb o ho; omega
    · have := hb' o ho; omega
  · intro j hj b hb
    have hlen : h'.sets.length ≤ h''.sets.length := by rw [hl']; simp
    rcases List.mem_append.mp hj with hj | hj
    · have := hib j hj b hb; omega
    · exact hib' j hj b hb

theorem grow_allocSet (h : Store α κ) (S : SigSet α κ) : Grow h (h.allocSet S).1 := by
  refine ⟨⟨[S.tags], rfl⟩, ⟨[⟨S.runs, h.tags.length⟩], rfl, by simp, ?_⟩, ⟨[], by simp [Store.allocSet]⟩⟩
  intro o ho
  simp only [List.mem_singleton] at ho
  subst ho
  simp [Store.allocSet]

theorem grow_allocSets (h : Store α κ) (l : List (SigSet α κ)) :
    Grow h (h.allocSets l).1 ∧ ∀ b ∈ (h.allocSets l).2, h.sets.length ≤ b ∧ b < (h.allocSets l).1.sets.length := by
  induction l generalizing h with
  | nil => exact ⟨Grow.refl h, by simp [Store.allocSets]⟩
  | cons S l ih =>
    obtain ⟨g, hb⟩ := ih (h.allocSet S).1
    refine ⟨(grow_allocSet h S).trans g, ?_⟩
    intro b hb'
    simp only [Store.allocSets, List.mem_cons] at hb'
    obtain ⟨_, ⟨l', hl', _⟩, _⟩ := g
    rcases hb' with rfl | hb'
    · simp only [Store.allocSets, hl']
      simp [Store.allocSet]
    · have := hb b hb'
      simp only [Store.allocSets]
      simp only [Store.allocSet, List.length_append, List.length_singleton] at this ⊢
      omega

theorem Move.grow {s s' : State α κ} (m : Move s s') : Grow s.store s'.store := by
  cases m with
  | skip => exact Grow.refl _
  | bind r h => exact Grow.refl _
  | fresh r =>
    cases r with
    | error e => exact Grow.refl _
    | ok S => exact grow_allocSet _ S
  | freshInv r =>
    cases r with
    | error e => exact Grow.refl _
    | ok I =>
      obtain ⟨g, hb⟩ := grow_allocSets s.store I
      refine g.trans ⟨⟨[], by simp [State.freshInv, Store.allocInv]⟩, ⟨[], by simp [State.freshInv, Store.allocInv]⟩,
        ⟨[(s.store.allocSets I).2], rfl, ?_⟩⟩
      intro i hi b hbi
      simp only [List.mem_singleton] at hi
      subst hi
      exact (hb b hbi).2
  | bindInv l h =>
    refine ⟨⟨[], by simp [State.bindInv, Store.allocInv]⟩, ⟨[], by simp [State.bindInv, Store.allocInv]⟩, ⟨[l], rfl, ?_⟩⟩
    intro i hi b hb
    simp only [List.mem_singleton] at hi
    subst hi
    exact h b hb
  | newTags t => exact ⟨⟨[t], rfl⟩, ⟨[], by simp⟩, ⟨[], by simp⟩⟩

/-- One more variable. -/
theorem Move.vars {s s' : State α κ} (m : Move s s') :
    ∃ r, s'.vars = s.vars ++ [r] ∧ ∀ q, r = some q → q.Valid s'.store := by
  cases m with
  | skip => exact ⟨none, rfl, by simp⟩
  | bind r h => exact ⟨some r, rfl, by rintro q ⟨⟩; exact h⟩
  | fresh r =>
    cases r with
    | error e => exact ⟨none, rfl, by simp⟩
    | ok S =>
      refine ⟨_, rfl, ?_⟩
      rintro q ⟨⟩
      simp [Ref.Valid, State.fresh, Store.allocSet]
  | freshInv r =>
    cases r with
    | error e => exact ⟨none, rfl, by simp⟩
    | ok I =>
      refine ⟨_, rfl, ?_⟩
      rintro q ⟨⟩
      simp [Ref.Valid, State.freshInv, Store.allocInv]
  | bindInv l h =>
    refine ⟨_, rfl, ?_⟩
    rintro q ⟨⟩
    simp [Ref.Valid, State.bindInv, Store.allocInv]
  | newTags t =>
    refine ⟨_, rfl, ?_⟩
    rintro q ⟨⟩
    simp [Ref.Valid]

theorem Grow.lengths {h h' : Store α κ} (g : Grow h h') :
    h.tags.length ≤ h'.tags.length ∧ h.sets.length ≤ h'.sets.length ∧ h.invs.length ≤ h'.invs.length := by
  obtain ⟨⟨t, ht⟩, ⟨l, hl, _⟩, ⟨i, hi, _⟩⟩ := g
  rw [ht, hl, hi]
  simp

theorem Move.inv {s s' : State α κ} (m : Move s s') (i : Inv s) : Inv s' := by
  have g := m.grow
  obtain ⟨r, hr, hq⟩ := m.vars
  have len := g.lengths
  obtain ⟨⟨t, ht⟩, ⟨l, hl, hn, hb⟩, ⟨j, hj, hjb⟩⟩ := g
  refine ⟨?_, ?_, ?_, ?_⟩
  · rw [hl, List.map_append, List.nodup_append]
    refine ⟨i.own, hn, ?_⟩
    intro x hx y hy hxy
    obtain ⟨o, ho, rfl⟩ := List.mem_map.mp hx
    obtain ⟨o', ho', rfl⟩ := List.mem_map.mp hy
    have := i.tags o ho
    have := (hb o' ho').1
    omega
  · intro o ho
    rw [hl] at ho
    rcases List.mem_append.mp ho with ho | ho
    · have := i.tags o ho; omega
    · exact (hb o ho).2
  · intro q hq'
    rw [hr] at hq'
    rcases List.mem_append.mp hq' with h | h
    · exact (i.vars q h).mono len.1 len.2.1 len.2.2
    · simp only [List.mem_singleton] at h
      exact hq q h.symm
  · intro k hk b hbk
    rw [hj] at hk
    rcases List.mem_append.mp hk with h | h
    · have := i.invs k h b hbk; omega
    · exact hjb k h b hbk

theorem tagsAddr_ok {s : State α κ} {x : Var} {a : Nat} :
    s.tagsAddr x = .ok a ↔ s.vars[x]? = some (some (.tags a)) := by
  unfold State.tagsAddr
  split
  · rename_i a' h
    rw [h]; simp
  · rename_i h
    constructor
    · intro h'; cases h'
    · intro h'; exact absurd h' (h a)

theorem setAddr_ok {s : State α κ} {x : Var} {a : Nat} :
    s.setAddr x = .ok a ↔ s.vars[x]? = some (some (.set a)) := by
  unfold State.setAddr
  split
  · rename_i a' h
    rw [h]; simp
  · rename_i h
    constructor
    · intro h'; cases h'
    · intro h'; exact absurd h' (h a)

theorem invAddr_ok {s : State α κ} {x : Var} {a : Nat} :
    s.invAddr x = .ok a ↔ s.vars[x]? = some (some (.inv a)) := by
  unfold State.invAddr
  split
  · rename_i a' h
    rw [h]; simp
  · rename_i h
    constructor
    · intro h'; cases h'
    · intro h'; exact absurd h' (h a)

theorem valid_of {s : State α κ} (i : Inv s) {x : Var} {r : Ref} (h : s.vars[x]? = some (some r)) : r.Valid s.store :=
  i.vars r (List.mem_of_getElem? h)

/-- A statement that neither edits a `Tags` object, nor assigns tags, nor appends, changes no existing object. -/
theorem exec_move [Rnd] [One κ] (o : SetOrder) {s : State α κ} (i : Inv s) (st : Stmt α κ)
    (h1 : ∀ y op, st ≠ .editTags y op) (h2 : ∀ y t, st ≠ .setTags y t) (h3 : ∀ y z, st ≠ .append y z) :
    Move s (s.exec o st) := by
  cases st with
  | editTags y op => exact absurd rfl (h1 y op)
  | setTags y t => exact absurd rfl (h2 y t)
  | append y z => exact absurd rfl (h3 y z)
  | newTags n d =>
    simp only [State.exec]
    split
    · exact .skip
    · exact .newTags _
  | newSet t args =>
    simp only [State.exec]
    split
    · exact .skip
    · split
      · exact .skip
      · exact .fresh _
  | tagsOf x =>
    simp only [State.exec]
    split
    · exact .skip
    · split
      · exact .skip
      · rename_i ob hob
        exact .bind _ (i.tags ob (List.mem_of_getElem? hob))
  | setOp x op =>
    simp only [State.exec]
    split
    · exact .skip
    · exact .fresh _
  | emptyIndex x =>
    simp only [State.exec]
    split
    · exact .skip
    · rename_i b hb
      exact .bind _ (valid_of i (setAddr_ok.mp hb))
  | newInv xs =>
    simp only [State.exec]
    split
    · exact .skip
    · rename_i l hl
      refine .bindInv _ ?_
      intro b hb
      obtain ⟨x, _, hx⟩ := mapE_mem hl hb
      exact valid_of i (setAddr_ok.mp hx)
  | invGet x j =>
    simp only [State.exec]
    split
    · exact .skip
    · split
      · exact .skip
      · rename_i l hl
        generalize (if j < 0 then j + (l.length : Int) else j) = k
        split
        · exact .skip
        · split
          · exact .skip
          · rename_i b hb
            exact .bind _ (i.invs l (List.mem_of_getElem? hl) b (List.mem_of_getElem? hb))
  | invAdd x y =>
    simp only [State.exec]
    split
    · exact .skip
    · split
      · exact .skip
      · rename_i c hc d hd
        refine .bindInv _ ?_
        have key : ∀ c b : Nat, b ∈ (s.store.invs[c]?).getD [] → b < s.store.sets.length := by
          intro c b hb
          cases h : s.store.invs[c]? with
          | none => rw [h] at hb; simp at hb
          | some l => rw [h] at hb; exact i.invs l (List.mem_of_getElem? h) b hb
        intro b hb
        rcases List.mem_append.mp hb with hb | hb
        · exact key _ b hb
        · exact key _ b hb
  | invOp x op =>
    simp only [State.exec]
    split
    · exact .skip
    · exact .freshInv _
  | pack x keep =>
    simp only [State.exec]
    split
    · exact .skip
    · exact .fresh _
  | invMerge x =>
    simp only [State.exec]
    split
    · exact .skip
    · exact .fresh _

/-- An edition in place. -/
theorem exec_edit [Rnd] [One κ] (o : SetOrder) (s : State α κ) (y : Var) (op : Tags.Op) :
    s.exec o (.editTags y op) = s.skip ∨ ∃ a, s.vars[y]? = some (some (.tags a)) ∧ s.exec o (.editTags y op) =
      State.skip { s with store := { s.store with tags := s.store.tags.modify a (fun t => (t.step op).1) } } := by
  simp only [State.exec]
  split
  · exact .inl rfl
  · rename_i a ha
    exact .inr ⟨a, tagsAddr_ok.mp ha, rfl⟩

/-- An assignment of tags. -/
theorem exec_assign [Rnd] [One κ] (o : SetOrder) (s : State α κ) (y : Var) (t : TagsExpr) :
    s.exec o (.setTags y t) = s.skip ∨ ∃ b t', s.vars[y]? = some (some (.set b)) ∧ s.exec o (.setTags y t) =
      State.skip { s with store := { s.store with
        tags := s.store.tags ++ [t']
        sets := s.store.sets.modify b (fun ob => { ob with tags := s.store.tags.length }) } } := by
  simp only [State.exec]
  split
  · exact .inl rfl
  · split
    · exact .inl rfl
    · split
      · exact .inl rfl
      · split
        · exact .inl rfl
        · rename_i S' _
          exact .inr ⟨_, S'.tags, setAddr_ok.mp (by assumption), rfl⟩

/-- An element more. -/
theorem exec_append [Rnd] [One κ] (o : SetOrder) (s : State α κ) (y z : Var) :
    s.exec o (.append y z) = s.skip ∨ ∃ c b, s.vars[y]? = some (some (.inv c)) ∧ s.vars[z]? = some (some (.set b)) ∧
      s.exec o (.append y z) =
        State.skip { s with store := { s.store with invs := s.store.invs.modify c (· ++ [b]) } } := by
  simp only [State.exec]
  split
  · exact .inl rfl
  · split
    · exact .inl rfl
    · rename_i c hc _ b hb
      exact .inr ⟨c, b, invAddr_ok.mp hc, setAddr_ok.mp hb, rfl⟩

theorem inv_skip {s : State α κ} (i : Inv s) : Inv s.skip := Move.inv .skip i

theorem nodup_modify_fresh {l : List Nat} (h : l.Nodup) (b m : Nat) (hm : ∀ x ∈ l, x < m) :
    (l.modify b (fun _ => m)).Nodup := by
  induction l generalizing b with
  | nil => simp
  | cons a l ih =>
    rw [List.nodup_cons] at h
    cases b with
    | zero =>
      rw [List.modify_zero_cons, List.nodup_cons]
      refine ⟨fun hh => ?_, h.2⟩
      have := hm m (List.mem_cons_of_mem _ hh)
      omega
    | succ b =>
      rw [List.modify_succ_cons, List.nodup_cons]
      refine ⟨fun hh => ?_, ih h.2 b (fun x hx => hm x (List.mem_cons_of_mem _ hx))⟩
      have : a ∈ l ∨ a = m := by
        clear ih h hm
        induction l generalizing b with
        | nil => simp at hh
        | cons c l ih =>
          cases b with
          | zero =>
            rw [List.modify_zero_cons] at hh
            rcases List.mem_cons.mp hh with h | h
            · exact .inr h
            · exact .inl (List.mem_cons_of_mem _ h)
          | succ b =>
            rw [List.modify_succ_cons] at hh
            rcases List.mem_cons.mp hh with h | h
            · exact .inl (by rw [h]; exact List.mem_cons_self)
            · rcases ih b h with h | h
              · exact .inl (List.mem_cons_of_mem _ h)
              · exact .inr h
      rcases this with hh | hh
      · exact h.1 hh
      · have := hm a List.mem_cons_self
        omega

theorem map_modify_tags (l : List (SetObj α κ)) (b m : Nat) :
    (l.modify b (fun ob => { ob with tags := m })).map (fun o => o.tags) = (l.map (fun o => o.tags)).modify b (fun _ => m) := by
  induction l generalizing b with
  | nil => simp
  | cons a l ih =>
    cases b with
    | zero => simp
    | succ b => simp [ih]

theorem exec_inv [Rnd] [One κ] (o : SetOrder) {s : State α κ} (i : Inv s) (st : Stmt α κ) : Inv (s.exec o st) := by
  by_cases h1 : ∃ y op, st = .editTags y op
  · obtain ⟨y, op, rfl⟩ := h1
    rcases exec_edit o s y op with h | ⟨a, _, h⟩
    · rw [h]; exact inv_skip i
    · rw [h]
      refine inv_skip ⟨i.own, ?_, ?_, i.invs⟩
      · intro ob hob
        have := i.tags ob hob
        simpa using this
      · intro r hr
        exact (i.vars r hr).mono (by simp) le_rfl le_rfl
  by_cases h2 : ∃ y t, st = .setTags y t
  · obtain ⟨y, t, rfl⟩ := h2
    rcases exec_assign o s y t with h | ⟨b, t', _, h⟩
    · rw [h]; exact inv_skip i
    · rw [h]
      refine inv_skip ⟨?_, ?_, ?_, ?_⟩
      · rw [map_modify_tags]
        refine nodup_modify_fresh i.own b _ ?_
        intro x hx
        obtain ⟨ob, hob, rfl⟩ := List.mem_map.mp hx
        exact i.tags ob hob
      · intro ob hob
        have : ob.tags ∈ (s.store.sets.modify b (fun ob => { ob with tags := s.store.tags.length })).map (fun o => o.tags) :=
          List.mem_map_of_mem hob
        obtain ⟨k, hk, hk'⟩ := List.mem_iff_getElem.mp hob
        simp only [List.length_append, List.length_singleton]
        rw [List.getElem_modify] at hk'
        split at hk'
        · rw [← hk']; simp
        · have := i.tags ob (by rw [← hk']; exact List.getElem_mem _)
          omega
      · intro r hr
        exact (i.vars r hr).mono (by simp) (by simp) le_rfl
      · intro l hl b' hb'
        have := i.invs l hl b' hb'
        simpa using this
  by_cases h3 : ∃ y z, st = .append y z
  · obtain ⟨y, z, rfl⟩ := h3
    rcases exec_append o s y z with h | ⟨c, b, _, hz, h⟩
    · rw [h]; exact inv_skip i
    · rw [h]
      refine inv_skip ⟨i.own, i.tags, ?_, ?_⟩
      · intro r hr
        exact (i.vars r hr).mono le_rfl le_rfl (by simp)
      · intro l hl b' hb'
        obtain ⟨k, hk, hk'⟩ := List.mem_iff_getElem.mp hl
        rw [List.getElem_modify] at hk'
        split at hk'
        · rw [← hk'] at hb'
          rcases List.mem_append.mp hb' with hb' | hb'
          · exact i.invs _ (List.getElem_mem _) b' hb'
          · simp only [List.mem_singleton] at hb'
            subst hb'
            exact valid_of i hz
        · exact i.invs _ (List.getElem_mem _) b' (by rw [hk']; exact hb')
  · exact (exec_move o i st (fun y op h => h1 ⟨y, op, h⟩) (fun y t h => h2 ⟨y, t, h⟩) (fun y z h => h3 ⟨y, z, h⟩)).inv i

theorem run_inv [Rnd] [One κ] (o : SetOrder) {s : State α κ} (i : Inv s) (p : List (Stmt α κ)) : Inv (s.run o p) := by
  induction p generalizing s with
  | nil => exact i
  | cons st p ih => exact ih (exec_inv o i st)

theorem reached_inv [Rnd] [One κ] {o : SetOrder} {s : State α κ} (h : Reached o s) : Inv s := by
  obtain ⟨p, rfl⟩ := h
  refine run_inv o ⟨?_, ?_, ?_, ?_⟩ p <;> simp [State.start]

theorem reached_exec [Rnd] [One κ] {o : SetOrder} {s : State α κ} (h : Reached o s) (st : Stmt α κ) :
    Reached o (s.exec o st) := by
  obtain ⟨p, rfl⟩ := h
  exact ⟨p ++ [st], by simp [State.run]⟩

theorem exec_vars [Rnd] [One κ] (o : SetOrder) {s : State α κ} (i : Inv s) (st : Stmt α κ) :
    ∃ r, (s.exec o st).vars = s.vars ++ [r] := by
  by_cases h1 : ∃ y op, st = .editTags y op
  · obtain ⟨y, op, rfl⟩ := h1
    rcases exec_edit o s y op with h | ⟨a, _, h⟩ <;> rw [h] <;> exact ⟨none, rfl⟩
  by_cases h2 : ∃ y t, st = .setTags y t
  · obtain ⟨y, t, rfl⟩ := h2
    rcases exec_assign o s y t with h | ⟨b, t', _, h⟩ <;> rw [h] <;> exact ⟨none, rfl⟩
  by_cases h3 : ∃ y z, st = .append y z
  · obtain ⟨y, z, rfl⟩ := h3
    rcases exec_append o s y z with h | ⟨c, b, _, hz, h⟩ <;> rw [h] <;> exact ⟨none, rfl⟩
  · obtain ⟨r, hr, _⟩ :=
      (exec_move o i st (fun y op h => h1 ⟨y, op, h⟩) (fun y t h => h2 ⟨y, t, h⟩) (fun y z h => h3 ⟨y, z, h⟩)).vars
    exact ⟨r, hr⟩

theorem exec_var_old [Rnd] [One κ] (o : SetOrder) {s : State α κ} (i : Inv s) (st : Stmt α κ) {x : Var}
    (hx : x < s.vars.length) : (s.exec o st).vars[x]? = s.vars[x]? := by
  obtain ⟨r, hr⟩ := exec_vars o i st
  rw [hr, List.getElem?_append_left hx]

theorem lt_of_var {s : State α κ} {x : Var} {r : Option Ref} (h : s.vars[x]? = some r) : x < s.vars.length :=
  (List.getElem?_eq_some_iff.mp h).1

theorem grow_set {h h' : Store α κ} (g : Grow h h') {b : Nat} {ob : SetObj α κ} (hb : h.sets[b]? = some ob) :
    h'.sets[b]? = some ob := by
  obtain ⟨_, ⟨l, hl, _⟩, _⟩ := g
  rw [hl, List.getElem?_append_left (List.getElem?_eq_some_iff.mp hb).1, hb]

theorem grow_tags {h h' : Store α κ} (g : Grow h h') {b : Nat} {t : Tags} (hb : h.tags[b]? = some t) :
    h'.tags[b]? = some t := by
  obtain ⟨⟨l, hl⟩, _, _⟩ := g
  rw [hl, List.getElem?_append_left (List.getElem?_eq_some_iff.mp hb).1, hb]

theorem grow_invs {h h' : Store α κ} (g : Grow h h') {b : Nat} {t : List Nat} (hb : h.invs[b]? = some t) :
    h'.invs[b]? = some t := by
  obtain ⟨_, _, ⟨l, hl, _⟩⟩ := g
  rw [hl, List.getElem?_append_left (List.getElem?_eq_some_iff.mp hb).1, hb]

theorem value_some {h : Store α κ} {b : Nat} {S : SigSet α κ} :
    h.value b = some S ↔ ∃ ob, h.sets[b]? = some ob ∧ S.runs = ob.runs ∧ h.tags[ob.tags]? = some S.tags := by
  unfold Store.value
  split
  · rename_i h0; rw [h0]; simp
  · rename_i ob h0
    rw [h0]
    split
    · rename_i h1
      simp [h1]
    · rename_i t h1
      constructor
      · intro h2
        cases h2
        exact ⟨ob, rfl, rfl, h1⟩
      · rintro ⟨ob', h2, h3, h4⟩
        cases h2
        rw [h1] at h4
        cases h4
        cases S
        simp_all

theorem grow_value {h h' : Store α κ} (g : Grow h h') {b : Nat} {S : SigSet α κ} (hb : h.value b = some S) :
    h'.value b = some S := by
  obtain ⟨ob, h1, h2, h3⟩ := value_some.mp hb
  exact value_some.mpr ⟨ob, grow_set g h1, h2, grow_tags g h3⟩

theorem setValue_ok {s : State α κ} {x : Var} {S : SigSet α κ} :
    s.setValue x = .ok S ↔ ∃ b, s.vars[x]? = some (some (.set b)) ∧ s.store.value b = some S := by
  unfold State.setValue
  split
  · rename_i e h
    constructor
    · intro h'; cases h'
    · rintro ⟨b, hb, _⟩
      rw [setAddr_ok.mpr hb] at h
      cases h
  · rename_i b h
    have hb := setAddr_ok.mp h
    split
    · rename_i h1
      constructor
      · intro h'; cases h'
      · rintro ⟨b', hb', h2⟩
        rw [hb] at hb'
        cases hb'
        rw [h1] at h2; cases h2
    · rename_i S' h1
      constructor
      · intro h'; cases h'; exact ⟨b, hb, h1⟩
      · rintro ⟨b', hb', h2⟩
        rw [hb] at hb'
        cases hb'
        rw [h1] at h2; cases h2; rfl

theorem tagsValue_ok {s : State α κ} {x : Var} {t : Tags} :
    s.tagsValue x = .ok t ↔ ∃ b, s.vars[x]? = some (some (.tags b)) ∧ s.store.tags[b]? = some t := by
  unfold State.tagsValue
  split
  · rename_i e h
    constructor
    · intro h'; cases h'
    · rintro ⟨b, hb, _⟩
      rw [tagsAddr_ok.mpr hb] at h
      cases h
  · rename_i b h
    have hb := tagsAddr_ok.mp h
    split
    · rename_i h1
      constructor
      · intro h'; cases h'
      · rintro ⟨b', hb', h2⟩
        rw [hb] at hb'
        cases hb'
        rw [h1] at h2; cases h2
    · rename_i S' h1
      constructor
      · intro h'; cases h'; exact ⟨b, hb, h1⟩
      · rintro ⟨b', hb', h2⟩
        rw [hb] at hb'
        cases hb'
        rw [h1] at h2; cases h2; rfl

end Razorback.Heap
