import Verif.Spec.DataPath
import Mathlib.Data.List.Basic

namespace Razorback.Data
open Razorback.Spec
open PathTags (splitSlash)

theorem _root_.Razorback.Spec.Tree.of_append {fs : Fs} (h : Tree fs) : ∀ (q p : List Name), q ≠ [] → (fs (p ++ q)).isSome → fs p = some .dir
  | [], _, hq, _ => absurd rfl hq
  | [w], p, _, hs => h.parent p w hs
  | w :: w' :: q, p, _, hs => by
    have : fs (p ++ [w]) = some .dir := Spec.Tree.of_append h (w' :: q) (p ++ [w]) (by simp) (by simpa using hs)
    exact h.parent p w (by rw [this]; rfl)

theorem _root_.Razorback.Spec.Tree.of_prefix {fs : Fs} (h : Tree fs) {p q : List Name} (hp : p <+: q) (hne : p ≠ q) (hs : (fs q).isSome) :
    fs p = some .dir := by
  obtain ⟨r, rfl⟩ := hp
  exact h.of_append r p (by rintro rfl; simp at hne) hs

/-- A path without `..` leads to the location it names. -/
theorem walk_present {fs : Fs} (h : Tree fs) : ∀ (ws cur : List Name), ['.', '.'] ∉ ws → (fs (cur ++ ws)).isSome →
    walk fs cur ws = .ok (cur ++ ws)
  | [], cur, _, hs => by
    simp only [List.append_nil] at hs ⊢
    rw [walk, if_pos hs]
  | w :: ws, cur, hp, hs => by
    have hd : fs cur = some .dir := h.of_append (w :: ws) cur (by simp) hs
    rw [walk, hd]
    have hw : w ≠ ['.', '.'] := fun e => hp (by simp [e])
    simp only [if_neg hw]
    rw [walk_present h ws (cur ++ [w]) (fun e => hp (by simp [e])) (by simpa using hs)]
    simp

theorem walk_missing {fs : Fs} (h : Tree fs) : ∀ (ws cur : List Name), ['.', '.'] ∉ ws → fs (cur ++ ws) = none →
    ((∀ q, cur <+: q → q <+: cur ++ ws → ∀ t, fs q ≠ some (.file t)) → walk fs cur ws = .error .notFound) ∧
    (∀ q t, cur <+: q → q <+: cur ++ ws → fs q = some (.file t) → walk fs cur ws = .error .notDir)
  | [], cur, _, hs => by
    simp only [List.append_nil] at hs
    refine ⟨fun _ => by rw [walk, hs]; rfl, ?_⟩
    intro q t h1 h2 h3
    rw [List.append_nil] at h2
    have : q = cur := h2.eq_of_length_le h1.length_le
    rw [this, hs] at h3
    simp at h3
  | w :: ws, cur, hp, hs => by
    have hw : w ≠ ['.', '.'] := fun e => hp (by simp [e])
    obtain ⟨ih1, ih2⟩ := walk_missing h ws (cur ++ [w]) (fun e => hp (by simp [e])) (by simpa using hs)
    constructor
    · intro hq
      rw [walk]
      cases hc : fs cur with
      | none => rfl
      | some nd =>
        cases nd with
        | file t => exact absurd hc (hq cur (List.prefix_refl _) (List.prefix_append _ _) t)
        | dir =>
          simp only [if_neg hw]
          exact ih1 (fun q h1 h2 => hq q ((List.prefix_append _ _).trans h1) (by simpa using h2))
    · intro q t h1 h2 h3
      rw [walk]
      by_cases hqc : q = cur
      · subst hqc
        rw [h3]
      · have hd : fs cur = some .dir := h.of_prefix h1 (fun e => hqc e.symm) (by rw [h3]; rfl)
        rw [hd]
        simp only [if_neg hw]
        refine ih2 q t ?_ (by simpa using h2) h3
        obtain ⟨r, rfl⟩ := h1
        have hr : r ≠ [] := by rintro rfl; simp at hqc
        obtain ⟨x, r, rfl⟩ := List.exists_cons_of_ne_nil hr
        rw [List.prefix_append_right_inj] at h2
        obtain ⟨rfl, -⟩ := (List.cons_prefix_cons).1 h2
        exact ⟨r, by simp⟩

theorem stat_plain {fs : Fs} (h : Tree fs) (cwd ws : List Name) (hp : ['.', '.'] ∉ ws) :
    stat fs cwd ⟨true, ws⟩ = fs ws := by
  unfold stat
  simp only [if_true]
  cases hs : fs ws with
  | some nd =>
    rw [walk_present h ws [] hp (by simp [hs])]
    simpa using hs
  | none =>
    obtain ⟨h1, h2⟩ := walk_missing h ws [] hp (by simpa using hs)
    cases hw : walk fs [] ws with
    | error e => rfl
    | ok loc =>
      by_cases hq : ∀ q, [] <+: q → q <+: [] ++ ws → ∀ t, fs q ≠ some (.file t)
      · rw [h1 hq] at hw; simp at hw
      · push Not at hq
        obtain ⟨q, a, b, t, c⟩ := hq
        rw [h2 q t a b c] at hw
        simp at hw

/-- The directories missing on the way to `loc` are added. -/
def fill (fs : Fs) (loc : List Name) : Fs := fun q => if fs q = none ∧ q <+: loc then some .dir else fs q

theorem fill_self {fs : Fs} (h : Tree fs) {loc : List Name} (hs : (fs loc).isSome) : fill fs loc = fs := by
  funext q
  unfold fill
  by_cases hq : fs q = none ∧ q <+: loc
  · by_cases hql : q = loc
    · rw [← hql, hq.1] at hs; simp at hs
    · have := h.of_prefix hq.2 hql hs
      rw [hq.1] at this; simp at this
  · rw [if_neg hq]

theorem fill_tree {fs : Fs} (h : Tree fs) {loc : List Name} (hf : ∀ q, q <+: loc → ∀ t, fs q ≠ some (.file t)) :
    Tree (fill fs loc) where
  root := by
    unfold fill
    rw [if_neg (by simp [h.root]), h.root]
  parent := by
    intro p w hs
    unfold fill at hs ⊢
    by_cases hq : fs (p ++ [w]) = none ∧ p ++ [w] <+: loc
    · have hpl : p <+: loc := (List.prefix_append _ _).trans hq.2
      cases hp : fs p with
      | none => rw [if_pos ⟨rfl, hpl⟩]
      | some nd =>
        rw [if_neg (by simp)]
        cases nd with
        | dir => rfl
        | file t => exact absurd hp (hf p hpl t)
    · rw [if_neg hq] at hs
      have := h.parent p w hs
      rw [this, if_neg (by simp)]

theorem mkdirParents_spec {fs : Fs} (h : Tree fs) (cwd : List Name) (rev : List Name) (ok : Bool) (hp : ['.', '.'] ∉ rev) :
    ((∀ q, q <+: rev.reverse → ∀ t, fs q ≠ some (.file t)) → (ok = true ∨ fs rev.reverse = none) →
      mkdirParents fs cwd ok rev = (fill fs rev.reverse, .ok ())) ∧
    ((∃ q t, q <+: rev.reverse ∧ fs q = some (.file t)) → ∃ e, mkdirParents fs cwd ok rev = (fs, .error e)) := by
  induction rev generalizing ok with
  | nil =>
    constructor
    · intro _ ho
      have : ok = true := by
        rcases ho with ho | ho
        · exact ho
        · rw [List.reverse_nil, h.root] at ho; simp at ho
      subst this
      rw [fill_self h (by simp [h.root])]
      have hd : isDir fs cwd ⟨true, []⟩ = true := by simp [isDir, stat, walk, h.root]
      simp [mkdirParents, osMkdir, hd]
    · rintro ⟨q, t, hq, ht⟩
      have : q = [] := by simpa using hq
      rw [this, h.root] at ht
      simp at ht
  | cons w up ih =>
    have hw : w ≠ ['.', '.'] := fun e => hp (by simp [e])
    have hup : ['.', '.'] ∉ up := fun e => hp (by simp [e])
    have hrev : ['.', '.'] ∉ up.reverse := by simpa using hup
    have hloc : ['.', '.'] ∉ (w :: up).reverse := by rw [List.mem_reverse]; exact hp
    have hl : (w :: up).reverse = up.reverse ++ [w] := by simp
    obtain ⟨ih1, ih2⟩ := ih true hup
    cases hpar : fs up.reverse with
    | some nd =>
      have hwalk : walk fs [] up.reverse = .ok up.reverse := by
        simpa using walk_present h up.reverse [] hrev (by simp [hpar])
      cases nd with
      | file t =>
        have hno : fs (w :: up).reverse = none := by
          cases hs : fs (w :: up).reverse with
          | none => rfl
          | some nd =>
            have := h.parent up.reverse w (by rw [← hl, hs]; rfl)
            rw [hpar] at this; simp at this
        have hd : isDir fs cwd ⟨true, (w :: up).reverse⟩ = false := by
          unfold isDir
          rw [stat_plain h cwd _ hloc, hno]
          rfl
        constructor
        · intro hq
          exact absurd hpar (hq _ (by rw [hl]; exact List.prefix_append _ _) t)
        · intro _
          refine ⟨.notDir, ?_⟩
          have hos : osMkdir fs (w :: up) = (fs, .error .notDir) := by
            simp only [osMkdir, hwalk, hpar]
            rw [if_pos (by simp)]
          rw [mkdirParents, hos]
          simp only [hd, Bool.and_false]
          rfl
      | dir =>
        cases hs : fs (w :: up).reverse with
        | none =>
          have hos : osMkdir fs (w :: up) = (fill fs (w :: up).reverse, .ok ()) := by
            simp only [osMkdir, hwalk, hpar]
            rw [if_neg (by simp), if_neg hw, if_neg (by rw [← hl, hs]; simp)]
            congr 1
            funext q
            unfold fill
            by_cases hq : q = up.reverse ++ [w]
            · rw [if_pos hq, hq, ← hl, if_pos ⟨hs, List.prefix_refl _⟩]
            · rw [if_neg hq, if_neg]
              rintro ⟨h1, h2⟩
              rw [hl, List.prefix_concat_iff] at h2
              rcases h2 with h2 | h2
              · exact hq h2
              · by_cases hqu : q = up.reverse
                · rw [hqu, hpar] at h1; simp at h1
                · have := h.of_prefix h2 hqu (by rw [hpar]; rfl)
                  rw [h1] at this; simp at this
          constructor
          · intro _ _
            rw [mkdirParents, hos]
          · rintro ⟨q, t, hq, ht⟩
            exfalso
            rw [hl, List.prefix_concat_iff] at hq
            rcases hq with hq | hq
            · rw [hq, ← hl, hs] at ht; simp at ht
            · by_cases hqu : q = up.reverse
              · rw [hqu, hpar] at ht; simp at ht
              · have := h.of_prefix hq hqu (by rw [hpar]; rfl)
                rw [ht] at this; simp at this
        | some nd =>
          have hos : osMkdir fs (w :: up) = (fs, .error .exist) := by
            simp only [osMkdir, hwalk, hpar]
            rw [if_neg (by simp), if_neg hw, if_pos (by rw [← hl, hs]; simp)]
          constructor
          · intro hq ho
            have hok : ok = true := by
              rcases ho with ho | ho
              · exact ho
              · simp at ho
            have hnd : nd = .dir := by
              cases nd with
              | dir => rfl
              | file t => exact absurd hs (hq _ (List.prefix_refl _) t)
            have hd : isDir fs cwd ⟨true, (w :: up).reverse⟩ = true := by
              unfold isDir
              rw [stat_plain h cwd _ hloc, hs, hnd]
              rfl
            rw [mkdirParents, hos]
            simp only [hok, hd]
            rw [fill_self h (by rw [hs]; rfl)]
            rfl
          · rintro ⟨q, t, hq, ht⟩
            have hql : q = (w :: up).reverse := by
              by_contra hne
              have := h.of_prefix hq hne (by rw [hs]; rfl)
              rw [ht] at this; simp at this
            have hd : isDir fs cwd ⟨true, (w :: up).reverse⟩ = false := by
              unfold isDir
              rw [stat_plain h cwd _ hloc, ← hql, ht]
              rfl
            refine ⟨.exist, ?_⟩
            rw [mkdirParents, hos]
            simp only [hd, Bool.and_false]
            rfl
    | none =>
      have hno : fs (w :: up).reverse = none := by
        cases hs : fs (w :: up).reverse with
        | none => rfl
        | some nd =>
          have := h.parent up.reverse w (by rw [← hl, hs]; rfl)
          rw [hpar] at this; simp at this
      obtain ⟨m1, m2⟩ := walk_missing h up.reverse [] hrev (by simpa using hpar)
      constructor
      · intro hq _
        have hqu : ∀ q, q <+: up.reverse → ∀ t, fs q ≠ some (.file t) :=
          fun q h1 => hq q (by rw [hl]; exact h1.trans (List.prefix_append _ _))
        have hos : osMkdir fs (w :: up) = (fs, .error .notFound) := by
          simp only [osMkdir]
          rw [m1 (fun q _ h2 => hqu q (by simpa using h2))]
        have hrec := ih1 hqu (.inl rfl)
        have ht := fill_tree h hqu
        have hfp : fill fs up.reverse up.reverse = some .dir := by
          unfold fill
          rw [if_pos ⟨hpar, List.prefix_refl _⟩]
        have hfl : fill fs up.reverse (up.reverse ++ [w]) = none := by
          unfold fill
          rw [← hl, if_neg, hno]
          rintro ⟨-, hpre⟩
          have := hpre.length_le
          rw [hl] at this
          simp at this
        have hwalk : walk (fill fs up.reverse) [] up.reverse = .ok up.reverse := by
          simpa using walk_present ht up.reverse [] hrev (by simp [hfp])
        rw [mkdirParents, hos]
        simp only [hrec, mkdirOne, osMkdir, hwalk, hfp]
        rw [if_neg (by simp), if_neg hw, if_neg (by rw [hfl]; simp)]
        simp only
        congr 1
        funext q
        by_cases hqe : q = up.reverse ++ [w]
        · rw [if_pos hqe, hqe]
          unfold fill
          rw [← hl, if_pos ⟨hno, List.prefix_refl _⟩]
        · rw [if_neg hqe]
          unfold fill
          have : (q <+: (w :: up).reverse) ↔ q <+: up.reverse := by
            rw [hl, List.prefix_concat_iff]
            simp [hqe]
          simp only [this]
      · rintro ⟨q, t, hq, ht⟩
        have hqu : q <+: up.reverse := by
          rw [hl, List.prefix_concat_iff] at hq
          rcases hq with hq | hq
          · rw [hq, ← hl, hno] at ht; simp at ht
          · exact hq
        have hos : osMkdir fs (w :: up) = (fs, .error .notDir) := by
          simp only [osMkdir]
          rw [m2 q t (by simp) (by simpa using hqu) ht]
        have hd : isDir fs cwd ⟨true, (w :: up).reverse⟩ = false := by
          unfold isDir
          rw [stat_plain h cwd _ hloc, hno]
          rfl
        refine ⟨.notDir, ?_⟩
        rw [mkdirParents, hos]
        simp only [hd, Bool.and_false]
        rfl

/-- Nothing present is changed, whatever happens. -/
theorem osMkdir_keeps (fs : Fs) (rev : List Name) (q : List Name) (hq : (fs q).isSome) : (osMkdir fs rev).1 q = fs q := by
  unfold osMkdir
  cases rev with
  | nil => rfl
  | cons w up =>
    dsimp only
    cases hw : walk fs [] up.reverse with
    | error e => rfl
    | ok par =>
      dsimp only
      by_cases h1 : fs par ≠ some .dir
      · rw [if_pos h1]
      · rw [if_neg h1]
        by_cases h2 : w = ['.', '.']
        · rw [if_pos h2]
        · rw [if_neg h2]
          by_cases h3 : (fs (par ++ [w])).isSome
          · rw [if_pos h3]
          · rw [if_neg h3]
            dsimp only
            rw [if_neg]
            rintro rfl
            exact h3 hq

theorem mkdirOne_fs (fs : Fs) (cwd : List Name) (ok : Bool) (rev : List Name) :
    (mkdirOne fs cwd ok rev).1 = (osMkdir fs rev).1 := by
  unfold mkdirOne
  split
  · next h => rw [h]
  · next h => rw [h]
  · next h => rw [h]; split <;> rfl

theorem mkdirParents_keeps (cwd : List Name) (q : List Name) (rev : List Name) : ∀ (fs : Fs) (ok : Bool), (fs q).isSome →
    (mkdirParents fs cwd ok rev).1 q = fs q := by
  induction rev with
  | nil =>
    intro fs ok hq
    simp only [mkdirParents, osMkdir]
    split <;> rfl
  | cons w up ih =>
    intro fs ok hq
    have hk := osMkdir_keeps fs (w :: up) q hq
    rw [mkdirParents]
    split
    · next h => rw [h] at hk; exact hk
    · next fs' h =>
      rw [h] at hk
      have hk' : fs' q = fs q := hk
      have := ih fs' true (by rw [hk']; exact hq)
      dsimp only
      split
      · next h2 => rw [h2] at this; exact this.trans hk'
      · next fs1 h2 =>
        rw [h2] at this
        have h3 : fs1 q = fs q := this.trans hk'
        rw [mkdirOne_fs, osMkdir_keeps _ _ _ (by rw [h3]; exact hq), h3]
    · next h =>
      rw [h] at hk
      split <;> exact hk

theorem splitSlash_simple : ∀ {s : List Char}, '/' ∉ s → splitSlash s = [s]
  | [], _ => rfl
  | c :: s, h => by
    have hc : c ≠ '/' := fun e => h (by simp [e])
    rw [splitSlash, if_neg hc, splitSlash_simple (fun e => h (by simp [e]))]

theorem parse_simple {s : List Char} (h : SimpleName s) : Path.parse s = ⟨false, [s]⟩ := by
  unfold Path.parse
  rw [splitSlash_simple h.slash]
  have h1 : s.head? ≠ some '/' := by
    intro e
    exact h.slash (List.mem_of_mem_head? e)
  simp [h1, h.nonempty, h.dot]

theorem parse_empty : Path.parse [] = ⟨false, []⟩ := by decide

theorem parse_data : Path.parse ['d', 'a', 't', 'a'] = ⟨false, [dataName]⟩ := by decide

theorem foldl_resolve (ws : List Name) : ∀ acc : List Name, ['.', '.'] ∉ ws →
    ws.foldl (fun acc w => if w = ['.', '.'] then acc.dropLast else acc ++ [w]) acc = acc ++ ws := by
  induction ws with
  | nil => intro acc _; simp
  | cons w ws ih =>
    intro acc h
    rw [List.foldl_cons, if_neg (fun e => h (by simp [e])), ih _ (fun e => h (by simp [e]))]
    simp

theorem dots_notin_append {a b : List Name} (ha : ['.', '.'] ∉ a) (hb : ['.', '.'] ∉ b) : ['.', '.'] ∉ a ++ b := by
  simp [ha, hb]

theorem dots_notin_data {t : List Name} (ht : ['.', '.'] ∉ t) : ['.', '.'] ∉ dataName :: t := by
  have : ['.', '.'] ≠ dataName := by decide
  simp [ht, this]

theorem localDataPath_eq {w : World} {target : List Char} {t : List Name} (hp : Path.parse target = ⟨false, t⟩)
    (ht : ['.', '.'] ∉ t) : localDataPath w target = ⟨true, localDir w t⟩ := by
  unfold localDataPath localDir
  rw [parse_data, hp]
  simp only [Path.join, Path.resolve, Bool.false_eq_true, if_false, List.nil_append, List.singleton_append]
  rw [foldl_resolve _ _ (dots_notin_data ht)]

theorem defaultDataPath_eq {w : World} (hw : OkWorld w) {target : List Char} {t : List Name}
    (hp : Path.parse target = ⟨false, t⟩) (ht : ['.', '.'] ∉ t) : defaultDataPath w target = ⟨true, packagedDir w t⟩ := by
  unfold defaultDataPath packagedDir
  rw [parse_data, hp]
  simp only [Path.join, Path.resolve, Bool.false_eq_true, if_false, if_true]
  rw [foldl_resolve]
  · simp
  · have := hw.pkg_plain
    have h2 := dots_notin_data ht
    simp only [List.mem_append, not_or]
    simp only [List.mem_cons, not_or] at h2
    simp [this, ht, h2.1]

theorem dataPath_eq {w : World} (hw : OkWorld w) {target : List Char} {t : List Name}
    (hp : Path.parse target = ⟨false, t⟩) (ht : ['.', '.'] ∉ t) :
    dataPath w target = ⟨true, if w.fs (localDir w t) = some .dir then localDir w t else packagedDir w t⟩ := by
  unfold dataPath
  rw [parse_data, hp]
  simp only [Path.join, Path.resolve, Bool.false_eq_true, if_false, List.foldl_nil]
  have e : w.cwd ++ [dataName] ++ t = localDir w t := by simp [localDir]
  rw [e]
  unfold isDir
  rw [stat_plain hw.tree _ (localDir w t) (dots_notin_append hw.cwd_plain (dots_notin_data ht)), defaultDataPath_eq hw hp ht]
  by_cases h : w.fs (localDir w t) = some .dir <;> simp [h]

end Razorback.Data
