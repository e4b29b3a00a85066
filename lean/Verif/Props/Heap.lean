/-
C87: signal sets are independent objects.
-/
import Verif.Lemmas.Heap

namespace Razorback.Props
open Razorback Razorback.Heap Razorback.Spec.Objects
variable {α κ : Type _}

/-- C87: a `Tags` object is the one of a single signal set: if `y is x.tags` and `y is z.tags` then `x is z`. -/
theorem C87_own_tags [Rnd] [One κ] {o : SetOrder} {s : State α κ} (hs : Reached o s) {x y z : Var}
    (hx : IsTagsOf s y x) (hz : IsTagsOf s y z) : Same s x z := by
  have i := reached_inv hs
  obtain ⟨b, ob, h1, h2, h3⟩ := hx
  obtain ⟨b', ob', h1', h2', h3'⟩ := hz
  rw [h3] at h3'
  simp only [Option.some.injEq, Ref.tags.injEq] at h3'
  obtain ⟨l1, e1⟩ := List.getElem?_eq_some_iff.mp h2
  obtain ⟨l2, e2⟩ := List.getElem?_eq_some_iff.mp h2'
  have : b = b' := by
    refine (List.Nodup.getElem_inj_iff i.own (i := b) (j := b') (hi := by simpa using l1) (hj := by simpa using l2)).mp ?_
    rw [List.getElem_map, List.getElem_map, e1, e2]
    exact h3'
  subst this
  exact ⟨_, h1, h1'⟩

/-- C87: whatever a statement does, a signal set has the value it had before, unless the statement edits its own `Tags`
object in place or assigns its tags. -/
theorem C87_unchanged [Rnd] [One κ] {o : SetOrder} {s : State α κ} (hs : Reached o s) (st : Stmt α κ) {x : Var}
    {S : SigSet α κ} (hx : s.setValue x = .ok S) (hst : ¬ ChangesSet s x st) : (s.exec o st).setValue x = .ok S := by
  have i := reached_inv hs
  obtain ⟨b, hb, hv⟩ := setValue_ok.mp hx
  have hold : (s.exec o st).vars[x]? = some (some (.set b)) := by rw [exec_var_old o i st (lt_of_var hb), hb]
  refine setValue_ok.mpr ⟨b, hold, ?_⟩
  obtain ⟨ob, h1, h2, h3⟩ := value_some.mp hv
  by_cases e1 : ∃ y op, st = .editTags y op
  · obtain ⟨y, op, rfl⟩ := e1
    rcases exec_edit o s y op with h | ⟨a, ha, h⟩
    · rw [h]; exact hv
    · rw [h]
      refine value_some.mpr ⟨ob, h1, h2, ?_⟩
      have hne : a ≠ ob.tags := by
        rintro rfl
        exact hst ⟨b, ob, hb, h1, ha⟩
      show (s.store.tags.modify a _)[ob.tags]? = _
      simp [List.getElem?_modify, hne, h3]
  by_cases e2 : ∃ y t, st = .setTags y t
  · obtain ⟨y, t, rfl⟩ := e2
    rcases exec_assign o s y t with h | ⟨b', t', hb', h⟩
    · rw [h]; exact hv
    · rw [h]
      have hne : b' ≠ b := by
        rintro rfl
        exact hst ⟨_, hb', hb⟩
      refine value_some.mpr ⟨ob, ?_, h2, ?_⟩
      · show (s.store.sets.modify b' _)[b]? = _
        simp [List.getElem?_modify, hne, h1]
      · show (s.store.tags ++ [t'])[ob.tags]? = _
        rw [List.getElem?_append_left (List.getElem?_eq_some_iff.mp h3).1, h3]
  by_cases e3 : ∃ y z, st = .append y z
  · obtain ⟨y, z, rfl⟩ := e3
    rcases exec_append o s y z with h | ⟨c, b', _, _, h⟩
    · rw [h]; exact hv
    · rw [h]; exact value_some.mpr ⟨ob, h1, h2, h3⟩
  · exact grow_value (exec_move o i st (fun y op h => e1 ⟨y, op, h⟩) (fun y t h => e2 ⟨y, t, h⟩)
      (fun y z h => e3 ⟨y, z, h⟩)).grow hv

/-- C87: and so along any program. -/
theorem C87_program [Rnd] [One κ] {o : SetOrder} {s : State α κ} (hs : Reached o s) (p : List (Stmt α κ)) {x : Var}
    {S : SigSet α κ} (hx : s.setValue x = .ok S) (hp : Never o (fun s st => ChangesSet s x st) s p) :
    (s.run o p).setValue x = .ok S := by
  induction p generalizing s with
  | nil => exact hx
  | cons st p ih => exact ih (reached_exec hs st) (C87_unchanged hs st hx hp.1) hp.2

/-- C87: a `Tags` object changes only when it is edited itself. -/
theorem C87_tags_object [Rnd] [One κ] {o : SetOrder} {s : State α κ} (hs : Reached o s) (st : Stmt α κ) {x : Var}
    {t : Tags} (hx : s.tagsValue x = .ok t) (hst : ¬ ChangesTags s x st) : (s.exec o st).tagsValue x = .ok t := by
  have i := reached_inv hs
  obtain ⟨a, ha, hv⟩ := tagsValue_ok.mp hx
  have hold : (s.exec o st).vars[x]? = some (some (.tags a)) := by rw [exec_var_old o i st (lt_of_var ha), ha]
  refine tagsValue_ok.mpr ⟨a, hold, ?_⟩
  by_cases e1 : ∃ y op, st = .editTags y op
  · obtain ⟨y, op, rfl⟩ := e1
    rcases exec_edit o s y op with h | ⟨a', ha', h⟩
    · rw [h]; exact hv
    · rw [h]
      have hne : a' ≠ a := by
        rintro rfl
        exact hst ⟨_, ha', ha⟩
      show (s.store.tags.modify a' _)[a]? = _
      simp [List.getElem?_modify, hne, hv]
  by_cases e2 : ∃ y t, st = .setTags y t
  · obtain ⟨y, t, rfl⟩ := e2
    rcases exec_assign o s y t with h | ⟨b', t', hb', h⟩
    · rw [h]; exact hv
    · rw [h]
      show (s.store.tags ++ [t'])[a]? = _
      rw [List.getElem?_append_left (List.getElem?_eq_some_iff.mp hv).1, hv]
  by_cases e3 : ∃ y z, st = .append y z
  · obtain ⟨y, z, rfl⟩ := e3
    rcases exec_append o s y z with h | ⟨c, b', _, _, h⟩
    · rw [h]; exact hv
    · rw [h]; exact hv
  · exact grow_tags (exec_move o i st (fun y op h => e1 ⟨y, op, h⟩) (fun y t h => e2 ⟨y, t, h⟩)
      (fun y z h => e3 ⟨y, z, h⟩)).grow hv

/-- The elements of the inventory designated by a variable. -/
def elements (s : State α κ) (x : Var) : Option (List Nat) :=
  match s.vars[x]? with
  | some (some (.inv c)) => s.store.invs[c]?
  | _ => none

/-- C87: an inventory holds the same objects as before, unless something is appended to it. -/
theorem C87_inventory [Rnd] [One κ] {o : SetOrder} {s : State α κ} (hs : Reached o s) (st : Stmt α κ) {x : Var}
    {l : List Nat} (hx : elements s x = some l) (hst : ¬ ChangesInv s x st) : elements (s.exec o st) x = some l := by
  have i := reached_inv hs
  unfold elements at hx
  split at hx
  · rename_i c hc
    have hold : (s.exec o st).vars[x]? = some (some (.inv c)) := by rw [exec_var_old o i st (lt_of_var hc), hc]
    simp only [elements, hold]
    by_cases e1 : ∃ y op, st = .editTags y op
    · obtain ⟨y, op, rfl⟩ := e1
      rcases exec_edit o s y op with h | ⟨a', ha', h⟩ <;> rw [h] <;> exact hx
    by_cases e2 : ∃ y t, st = .setTags y t
    · obtain ⟨y, t, rfl⟩ := e2
      rcases exec_assign o s y t with h | ⟨b', t', hb', h⟩ <;> rw [h] <;> exact hx
    by_cases e3 : ∃ y z, st = .append y z
    · obtain ⟨y, z, rfl⟩ := e3
      rcases exec_append o s y z with h | ⟨c', b', hc', _, h⟩
      · rw [h]; exact hx
      · rw [h]
        have hne : c' ≠ c := by
          rintro rfl
          exact hst ⟨_, hc', hc⟩
        show (s.store.invs.modify c' _)[c]? = _
        simp [List.getElem?_modify, hne, hx]
    · exact grow_invs (exec_move o i st (fun y op h => e1 ⟨y, op, h⟩) (fun y t h => e2 ⟨y, t, h⟩)
        (fun y z h => e3 ⟨y, z, h⟩)).grow hx
  · cases hx

/-- C87: the signal set given by an operation is a new object, with a `Tags` object that no variable designates. -/
theorem C87_new_object [Rnd] [One κ] {o : SetOrder} {s : State α κ} (hs : Reached o s) {st : Stmt α κ} (hst : MakesSet st)
    {S : SigSet α κ} (h : (s.exec o st).setValue s.vars.length = .ok S) (y : Var) (hy : y < s.vars.length) :
    ¬ Same (s.exec o st) y s.vars.length ∧ ¬ IsTagsOf (s.exec o st) y s.vars.length := by
  have i := reached_inv hs
  obtain ⟨b, hb, hv⟩ := setValue_ok.mp h
  have key : ∃ r, s.exec o st = s.fresh r := by
    cases st with
    | newSet t args =>
      simp only [State.exec]
      split
      · exact ⟨.error .other, rfl⟩
      · split
        · exact ⟨.error .other, rfl⟩
        · exact ⟨_, rfl⟩
    | setOp x op =>
      simp only [State.exec]
      split
      · exact ⟨.error .other, rfl⟩
      · exact ⟨_, rfl⟩
    | pack x keep =>
      simp only [State.exec]
      split
      · exact ⟨.error .other, rfl⟩
      · exact ⟨_, rfl⟩
    | invMerge x =>
      simp only [State.exec]
      split
      · exact ⟨.error .other, rfl⟩
      · exact ⟨_, rfl⟩
    | _ => cases hst
  obtain ⟨r, hr⟩ := key
  have hold : (s.exec o st).vars[y]? = s.vars[y]? := exec_var_old o i st hy
  rw [hr] at hb hv hold ⊢
  cases r with
  | error e => simp [State.fresh, State.skip] at hb
  | ok T =>
    simp only [State.fresh, Store.allocSet] at hb hv hold ⊢
    have hb' : b = s.store.sets.length := by
      rw [List.getElem?_append_right le_rfl] at hb
      simpa using hb.symm
    subst hb'
    refine ⟨?_, ?_⟩
    · rintro ⟨q, h1, h2⟩
      rw [hold] at h1
      have h2' : q = .set s.store.sets.length := by
        simp only [hb, Option.some.injEq] at h2; exact h2.symm
      subst h2'
      exact lt_irrefl _ (valid_of i h1)
    · rintro ⟨b', ob, h1, h2, h3⟩
      simp only [hb, Option.some.injEq, Ref.set.injEq] at h1
      subst h1
      rw [List.getElem?_append_right le_rfl] at h2
      simp only [Nat.sub_self, List.getElem?_cons_zero, Option.some.injEq] at h2
      subst h2
      rw [hold] at h3
      exact lt_irrefl _ (valid_of i h3)

/-- C87: the elements of an inventory given by an operation on an inventory are new objects. -/
theorem C87_new_elements [Rnd] [One κ] {o : SetOrder} {s : State α κ} (hs : Reached o s) (x : Var) (op : InvOp) (y : Var)
    (hy : y < s.vars.length) : ¬ IsElement (s.exec o (.invOp x op)) y s.vars.length := by
  have i := reached_inv hs
  have hold : (s.exec o (.invOp x op)).vars[y]? = s.vars[y]? := exec_var_old o i _ hy
  rintro ⟨b, c, l, h1, h2, h3, h4⟩
  rw [hold] at h1
  have hb : b < s.store.sets.length := valid_of i h1
  have key : ∃ r, s.exec o (.invOp x op) = s.freshInv r := by
    simp only [State.exec]
    split
    · exact ⟨.error .other, rfl⟩
    · exact ⟨_, rfl⟩
  obtain ⟨r, hr⟩ := key
  rw [hr] at h2 h3
  cases r with
  | error e => simp [State.freshInv, State.skip] at h2
  | ok I =>
    obtain ⟨g, hn⟩ := grow_allocSets s.store I
    simp only [State.freshInv, Store.allocInv] at h2 h3
    rw [List.getElem?_append_right le_rfl] at h2
    simp only [Nat.sub_self, List.getElem?_cons_zero, Option.some.injEq, Ref.inv.injEq] at h2
    subst h2
    rw [List.getElem?_append_right le_rfl] at h3
    simp only [Nat.sub_self, List.getElem?_cons_zero, Option.some.injEq] at h3
    subst h3
    have := (hn b h4).1
    omega

/-- C87: editing the `Tags` object of a signal set changes the signal set. -/
theorem C87_edit [Rnd] [One κ] {o : SetOrder} {s : State α κ} (hs : Reached o s) {x y : Var} {S : SigSet α κ}
    (hx : s.setValue x = .ok S) (hy : IsTagsOf s y x) (op : Tags.Op) :
    (s.exec o (.editTags y op)).setValue x = .ok { S with tags := (S.tags.step op).1 } := by
  have i := reached_inv hs
  obtain ⟨b, ob, h1, h2, h3⟩ := hy
  obtain ⟨b', hb', hv⟩ := setValue_ok.mp hx
  rw [h1] at hb'
  cases hb'
  obtain ⟨ob', g1, g2, g3⟩ := value_some.mp hv
  rw [h2] at g1
  cases g1
  have e : s.exec o (.editTags y op) = State.skip { s with store := { s.store with
      tags := s.store.tags.modify ob.tags (fun t => (t.step op).1) } } := by
    simp only [State.exec, tagsAddr_ok.mpr h3]
  refine setValue_ok.mpr ⟨b, by rw [exec_var_old o i _ (lt_of_var h1), h1], ?_⟩
  rw [e]
  refine value_some.mpr ⟨ob, h2, g2, ?_⟩
  simp [State.skip, List.getElem?_modify, g3]

/-- C87: assigning tags changes the signal set as `setTags` says, and leaves it alone when that raises; afterwards no
variable designates its `Tags` object. -/
theorem C87_assign [Rnd] [One κ] {o : SetOrder} {s : State α κ} (hs : Reached o s) {x : Var} {S : SigSet α κ}
    (hx : s.setValue x = .ok S) {e : TagsExpr} {v : TagsArg} (he : s.tagsArg e = .ok v) :
    (∀ T, S.setTags v = .ok T → (s.exec o (.setTags x e)).setValue x = .ok T ∧
      ∀ y, ¬ IsTagsOf (s.exec o (.setTags x e)) y x) ∧
    (∀ er, S.setTags v = .error er → (s.exec o (.setTags x e)).setValue x = .ok S) := by
  have i := reached_inv hs
  obtain ⟨b, hb, hv⟩ := setValue_ok.mp hx
  obtain ⟨ob, h1, h2, h3⟩ := value_some.mp hv
  refine ⟨fun T hT => ?_, fun er her => ?_⟩
  · have ex : s.exec o (.setTags x e) = State.skip { s with store := { s.store with
        tags := s.store.tags ++ [T.tags]
        sets := s.store.sets.modify b (fun ob => { ob with tags := s.store.tags.length }) } } := by
      simp only [State.exec, setAddr_ok.mpr hb, he, hx, hT]
    have hruns : T.runs = S.runs := by
      unfold SigSet.setTags at hT
      split at hT
      · cases hT
      · cases hT; rfl
    have hold := exec_var_old o i (.setTags x e) (lt_of_var hb)
    rw [hb] at hold
    have hset : (s.exec o (.setTags x e)).store.sets[b]? = some { ob with tags := s.store.tags.length } := by
      rw [ex]
      simp [State.skip, List.getElem?_modify, h1]
    refine ⟨setValue_ok.mpr ⟨b, hold, value_some.mpr ⟨_, hset, hruns.trans h2, ?_⟩⟩, ?_⟩
    · rw [ex]; simp [State.skip]
    · rintro y ⟨b', ob', g1, g2, g3⟩
      rw [hold] at g1
      cases g1
      rw [hset] at g2
      cases g2
      rw [ex] at g3
      simp only [State.skip] at g3
      by_cases hy : y < s.vars.length
      · rw [List.getElem?_append_left hy] at g3
        exact lt_irrefl _ (valid_of i g3)
      · rw [List.getElem?_append_right (Nat.le_of_not_lt hy)] at g3
        cases hk : y - s.vars.length with
        | zero => rw [hk] at g3; simp at g3
        | succ k => rw [hk] at g3; simp at g3
  · have ex : s.exec o (.setTags x e) = s.skip := by
      simp only [State.exec, setAddr_ok.mpr hb, he, hx, her]
    rw [ex]
    refine setValue_ok.mpr ⟨b, ?_, hv⟩
    simp only [State.skip]
    rw [List.getElem?_append_left (lt_of_var hb), hb]

theorem fresh_value (s : State α κ) (S : SigSet α κ) : (s.fresh (.ok S)).setValue s.vars.length = .ok S := by
  refine setValue_ok.mpr ⟨s.store.sets.length, ?_, value_some.mpr ⟨⟨S.runs, s.store.tags.length⟩, ?_, rfl, ?_⟩⟩ <;>
    simp [State.fresh, Store.allocSet]

/-- C87: the new object has the value that the operation gives for the present values of its operands. -/
theorem C87_result [Rnd] [One κ] {o : SetOrder} {s : State α κ} :
    (∀ x op S T, s.setValue x = .ok S → s.setOp S op = .ok T →
      (s.exec o (.setOp x op)).setValue s.vars.length = .ok T) ∧
    (∀ t v args l T, s.tagsArg t = .ok v → mapE s.sigArg args = .ok l → SigSet.new v l = .ok T →
      (s.exec o (.newSet t args)).setValue s.vars.length = .ok T) ∧
    (∀ x I keep T, s.invValue x = .ok I → I.pack o keep = .ok T →
      (s.exec o (.pack x keep)).setValue s.vars.length = .ok T) ∧
    (∀ x I T, s.invValue x = .ok I → I.joinMerge o = .ok T →
      (s.exec o (.invMerge x)).setValue s.vars.length = .ok T) := by
  refine ⟨fun x op S T h1 h2 => ?_, fun t v args l T h1 h2 h3 => ?_, fun x I keep T h1 h2 => ?_, fun x I T h1 h2 => ?_⟩
  · simp only [State.exec, h1, h2]; exact fresh_value s T
  · simp only [State.exec, h1, h2, h3]; exact fresh_value s T
  · simp only [State.exec, h1, h2]; exact fresh_value s T
  · simp only [State.exec, h1, h2]; exact fresh_value s T

/-- C87: `s[()]` is `s` itself. -/
theorem C87_empty_index [Rnd] [One κ] {o : SetOrder} {s : State α κ} {x : Var} {S : SigSet α κ} (hx : s.setValue x = .ok S) :
    Same (s.exec o (.emptyIndex x)) x s.vars.length := by
  obtain ⟨b, hb, _⟩ := setValue_ok.mp hx
  simp only [State.exec, setAddr_ok.mpr hb, State.bind]
  refine ⟨.set b, ?_, ?_⟩
  · show (s.vars ++ _)[x]? = _
    rw [List.getElem?_append_left (lt_of_var hb), hb]
  · show (s.vars ++ _)[s.vars.length]? = _
    simp

/-- C87: the elements of an inventory are the signal sets given to it, not copies: `Inventory(xs)[i] is xs[i]`. -/
theorem C87_inventory_shares [Rnd] [One κ] {o : SetOrder} {s : State α κ} {xs : List Var}
    (hx : ∀ x ∈ xs, ∃ S, s.setValue x = .ok S) (i : Nat) (hi : i < xs.length) :
    Same ((s.exec o (.newInv xs)).exec o (.invGet s.vars.length i)) xs[i] (s.vars.length + 1) := by
  have hl : ∃ l, mapE s.setAddr xs = .ok l := by
    clear hi
    induction xs with
    | nil => exact ⟨[], rfl⟩
    | cons x xs ih =>
      obtain ⟨l, hl⟩ := ih (fun y hy => hx y (List.mem_cons_of_mem _ hy))
      obtain ⟨S, hS⟩ := hx x List.mem_cons_self
      obtain ⟨b, hb, _⟩ := setValue_ok.mp hS
      exact ⟨b :: l, mapE_ok.mpr (.cons (setAddr_ok.mpr hb) (mapE_ok.mp hl))⟩
  obtain ⟨l, hl⟩ := hl
  have hf := mapE_ok.mp hl
  have hlen : i < l.length := by rw [← hf.length_eq]; exact hi
  have hb : s.setAddr xs[i] = .ok l[i] := by
    clear hl hx
    induction hf generalizing i with
    | nil => simp at hi
    | cons h _ ih =>
      cases i with
      | zero => exact h
      | succ i => exact ih i (by simpa using hi) (by simpa using hlen)
  have hb' := setAddr_ok.mp hb
  have e1 : s.exec o (.newInv xs) = s.bindInv l := by simp only [State.exec, hl]
  have e2 : (s.bindInv l).exec o (.invGet s.vars.length i) = (s.bindInv l).bind (.set l[i]) := by
    have h1 : (s.bindInv l).invAddr s.vars.length = .ok s.store.invs.length :=
      invAddr_ok.mpr (by simp [State.bindInv, Store.allocInv])
    have h2 : (s.bindInv l).store.invs[s.store.invs.length]? = some l := by
      simp [State.bindInv, Store.allocInv]
    simp only [State.exec, h1, h2]
    rw [if_neg (by omega : ¬ ((i : Int) < 0)), if_neg (by omega)]
    simp [List.getElem?_eq_getElem hlen]
  rw [e1, e2]
  refine ⟨.set l[i], ?_, ?_⟩
  · show ((s.vars ++ [_]) ++ [_])[xs[i]]? = _
    rw [List.append_assoc, List.getElem?_append_left (lt_of_var hb'), hb']
  · show ((s.vars ++ [_]) ++ [_])[s.vars.length + 1]? = _
    simp

/-- A program: `s = SignalSet({'Ex': 0}, ...)`, `t = s.tags`, `u = s.extract_t(0, 1)`, `t['Hx'] = 0`, `i = Inventory([s])`,
`s.tags = {'Ey': 0}`, `t['Hy'] = 0`, `v = i[0]`. -/
def exProg : List (Stmt Nat Nat) :=
  [.newSet (.dict [("Ex", .int 0)]) [.sync ⟨[[1, 2, 3]], [1], 1, 0, 3⟩],
   .tagsOf 0,
   .setOp 0 (.extractT 0 1 false),
   .editTags 1 (.setItem "Hx" (.int 0)),
   .newInv [0],
   .setTags 0 (.dict [("Ey", .int 0)]),
   .editTags 1 (.setItem "Hy" (.int 0)),
   .invGet 4 0]

/-- The order of insertion. -/
def exProgOrd : SetOrder := ⟨id, id⟩

example : Reached exProgOrd (State.start.run exProgOrd exProg) := ⟨exProg, rfl⟩

-- the edition of `t` is seen by `s` and not by `u`
example : ((State.start.run exProgOrd (exProg.take 4)).setValue 0).toOption =
    some ⟨[⟨[[1, 2, 3]], [1], 1, 0, 3⟩], ⟨1, [("Ex", [0]), ("Hx", [0])]⟩⟩ := by decide +kernel

example : ((State.start.run exProgOrd (exProg.take 4)).setValue 2).toOption =
    some ⟨[⟨[[1, 2]], [1], 1, 0, 2⟩], ⟨1, [("Ex", [0])]⟩⟩ := by decide +kernel

-- the assignment is seen through the inventory, and then `t` is no longer the `Tags` object of `s`
example : ((State.start.run exProgOrd exProg).setValue 7).toOption =
    some ⟨[⟨[[1, 2, 3]], [1], 1, 0, 3⟩], ⟨1, [("Ey", [0])]⟩⟩ := by decide +kernel

example : IsTagsOf (State.start.run exProgOrd (exProg.take 3)) 1 0 :=
  ⟨0, ⟨[⟨[[1, 2, 3]], [1], 1, 0, 3⟩], 0⟩, by decide +kernel, by decide +kernel, by decide +kernel⟩

-- the hypotheses of `C87_program` for `u`, along the rest of the program
example : Never exProgOrd (fun s st => ChangesSet s 2 st) (State.start.run exProgOrd (exProg.take 3)) (exProg.drop 3) := by
  refine ⟨?_, fun h => h, ?_, ?_, fun h => h, trivial⟩
  · rintro ⟨b, ob, h1, h2, h3⟩
    have : b = 1 := by
      have : (State.start.run exProgOrd (exProg.take 3)).vars[2]? = some (some (.set 1)) := by decide +kernel
      rw [this] at h1; cases h1; rfl
    subst this
    have h2' : ((State.start.run exProgOrd (exProg.take 3)).store.sets[1]?).map (fun o => o.tags) = some 1 := by decide +kernel
    rw [h2] at h2'
    have h3' : (State.start.run exProgOrd (exProg.take 3)).vars[1]? = some (some (.tags 0)) := by decide +kernel
    rw [h3'] at h3
    simp_all
  · rintro ⟨r, h1, h2⟩
    have e1 : ((State.start.run exProgOrd (exProg.take 5))).vars[0]? = some (some (.set 0)) := by decide +kernel
    have e2 : ((State.start.run exProgOrd (exProg.take 5))).vars[2]? = some (some (.set 1)) := by decide +kernel
    have h1' : (State.start.run exProgOrd (exProg.take 5)).vars[0]? = some (some r) := h1
    have h2' : (State.start.run exProgOrd (exProg.take 5)).vars[2]? = some (some r) := h2
    simp_all
  · rintro ⟨b, ob, h1, h2, h3⟩
    have e1 : ((State.start.run exProgOrd (exProg.take 6))).vars[2]? = some (some (.set 1)) := by decide +kernel
    have h1' : (State.start.run exProgOrd (exProg.take 6)).vars[2]? = some (some (.set b)) := h1
    have h2' : (State.start.run exProgOrd (exProg.take 6)).store.sets[b]? = some ob := h2
    have h3' : (State.start.run exProgOrd (exProg.take 6)).vars[1]? = some (some (.tags ob.tags)) := h3
    have e3 : (State.start.run exProgOrd (exProg.take 6)).vars[1]? = some (some (.tags 0)) := by decide +kernel
    have e2 : ((State.start.run exProgOrd (exProg.take 6)).store.sets[1]?).map (fun o => o.tags) = some 1 := by decide +kernel
    rw [e1] at h1'
    cases h1'
    rw [h2'] at e2
    rw [e3] at h3'
    simp_all

end Razorback.Props
