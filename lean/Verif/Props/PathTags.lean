/-
C64, C65: tags from path names.
-/
import Verif.Lemmas.PathTags

namespace Razorback.Props
open Razorback Razorback.PathTags

theorem names_pieces (T : List TplElt) (n : List Char) : n ∈ names (T.map TplElt.piece) ↔ TplElt.field n ∈ T := by
  unfold names
  simp only [List.mem_filterMap, List.mem_map]
  constructor
  · rintro ⟨p, ⟨e, he, rfl⟩, h⟩
    cases e with
    | text c => simp [TplElt.piece] at h
    | field m =>
      simp only [TplElt.piece, Option.some.injEq] at h
      rwa [← h]
  · intro h
    exact ⟨_, ⟨_, h, rfl⟩, rfl⟩

theorem checkTpls_ok {keys : List (List Char)} {Ts : List (List TplElt)} (hT : ∀ T ∈ Ts, TplOK T)
    (hsub : ∀ T ∈ Ts, ∀ n, TplElt.field n ∈ T → n ∈ keys) :
    checkTpls keys (Ts.map writeTpl) = .ok (Ts.map (fun T => T.map TplElt.piece)) := by
  induction Ts with
  | nil => rfl
  | cons T Ts ih =>
    rw [List.map_cons, checkTpls, parse_writeTpl (hT T (by simp))]
    simp only
    rw [if_pos, ih (fun T hT' => hT T (by simp [hT'])) (fun T hT' => hsub T (by simp [hT']))]
    · rfl
    · rw [List.all_eq_true]
      intro n hn
      simpa using hsub T (by simp) n ((names_pieces T n).1 hn)

theorem checkTpls_error {keys : List (List Char)} {Ts : List (List TplElt)} (hT : ∀ T ∈ Ts, TplOK T)
    {T : List TplElt} (hm : T ∈ Ts) {n : List Char} (hn : TplElt.field n ∈ T) (hk : n ∉ keys) :
    checkTpls keys (Ts.map writeTpl) = .error .value := by
  induction Ts with
  | nil => simp at hm
  | cons T' Ts ih =>
    rw [List.map_cons, checkTpls, parse_writeTpl (hT T' (by simp))]
    simp only
    split
    · rename_i hall
      rcases List.mem_cons.1 hm with rfl | hm
      · rw [List.all_eq_true] at hall
        have := hall n ((names_pieces _ n).2 hn)
        simp at this
        exact absurd this hk
      · rw [ih (fun T hT' => hT T (by simp [hT'])) hm]
    · rfl

theorem checkTpls_value {keys : List (List Char)} {ts : List (List Char)} {e : Err} (h : checkTpls keys ts = .error e) :
    e = .value := by
  have hp : ∀ (l : List Char) e, parse l = .error e → e = .value := by
    intro l
    induction l using parse.induct <;> intro e h <;> rw [parse] at h <;> grind
  induction ts generalizing e with
  | nil => simp [checkTpls] at h
  | cons t ts ih =>
    rw [checkTpls] at h
    cases h1 : parse t with
    | error e' =>
      rw [h1] at h
      simp only [Except.error.injEq] at h
      rw [← h]
      exact hp t e' h1
    | ok ps =>
      rw [h1] at h
      simp only at h
      split at h
      · cases h2 : checkTpls keys ts with
        | error e' =>
          rw [h2] at h
          simp only [Except.error.injEq] at h
          rw [← h]
          exact ih h2
        | ok l => rw [h2] at h; simp at h
      · simpa using h.symm

theorem ident_plain {n : List Char} (h : IsIdent n) : plain n = true := by
  simp only [plain, Bool.not_eq_true', Bool.or_eq_false_iff, decide_eq_false_iff_not]
  exact ⟨fun h1 => ident_chars h h1 (by decide) rfl, fun h1 => ident_chars h h1 (by decide) rfl⟩

theorem format_ok {P : List Elt} {segs : List (List Char)} (hs : P.length = segs.length) {T : List TplElt}
    (hsub : ∀ n, TplElt.field n ∈ T → n ∈ fieldsOf P) :
    ∃ tag, format (fieldsOf P) ((valuesOf P segs).map Prod.snd) (T.map TplElt.piece) = .ok tag ∧
      Filled (valuesOf P segs) T tag := by
  have : ∃ parts, mapE (formatPiece (fieldsOf P) ((valuesOf P segs).map Prod.snd)) (T.map TplElt.piece) = .ok parts ∧
      List.Forall₂ (TplText (valuesOf P segs)) T parts := by
    induction T with
    | nil => exact ⟨[], rfl, .nil⟩
    | cons e T ih =>
      obtain ⟨parts, h1, h2⟩ := ih (fun n hn => hsub n (by simp [hn]))
      cases e with
      | text c => exact ⟨[c] :: parts, mapE_ok.2 (.cons rfl (mapE_ok.1 h1)), .cons rfl h2⟩
      | field n =>
        obtain ⟨v, hv⟩ := fieldsOf_isLast hs (hsub n (by simp))
        exact ⟨v :: parts, mapE_ok.2 (.cons ((value_ok hs).2 hv) (mapE_ok.1 h1)), .cons hv h2⟩
  obtain ⟨parts, h1, h2⟩ := this
  exact ⟨parts.flatten, by rw [format, h1], parts, h2, rfl⟩

theorem formats_ok {P : List Elt} {segs : List (List Char)} (hs : P.length = segs.length) {Ts : List (List TplElt)}
    (hsub : ∀ T ∈ Ts, ∀ n, TplElt.field n ∈ T → n ∈ fieldsOf P) :
    ∃ tags, mapE (format (fieldsOf P) ((valuesOf P segs).map Prod.snd)) (Ts.map (fun T => T.map TplElt.piece)) =
      .ok tags ∧ List.Forall₂ (Filled (valuesOf P segs)) Ts tags := by
  induction Ts with
  | nil => exact ⟨[], rfl, .nil⟩
  | cons T Ts ih =>
    obtain ⟨tags, k1, k2⟩ := ih (fun T hT' => hsub T (by simp [hT']))
    obtain ⟨tag, k3, k4⟩ := format_ok hs (hsub T (by simp))
    exact ⟨tag :: tags, mapE_ok.2 (.cons k3 (mapE_ok.1 k1)), .cons k4 k2⟩

open Classical in
/-- **C64.** A name is yielded exactly when some assignment of words to the fields and of strings to the wildcards turns the
pattern into the normalised name; the names come in the order of the input; the tags are the templates filled with the
values of such an assignment (the last value when a field is repeated), namely the one in which each wildcard or field in
turn is as short as possible; nothing is raised. -/
theorem C64_yields (P : List Elt) (hP : PatternOK P) (Ts : List (List TplElt)) (hT : ∀ T ∈ Ts, TplOK T)
    (hsub : ∀ T ∈ Ts, ∀ n, TplElt.field n ∈ T → n ∈ fieldsOf P) (ns : List (List Char)) :
    ∃ L, tagsFromPath ns (write P) (Ts.map writeTpl) = some (L, none) ∧
      L.map Prod.fst = ns.filter (fun n => decide (∃ segs, Assigns P segs (normpath n))) ∧
      ∀ x ∈ L, ∃ segs, Assigns P segs (normpath x.1) ∧ (∀ segs', Assigns P segs' (normpath x.1) → Before segs segs') ∧
        List.Forall₂ (Filled (valuesOf P segs)) Ts x.2 := by
  obtain ⟨ps, h1, h2⟩ := parse_write hP.elts
  have hplain : (Ts.map (fun T => T.map TplElt.piece)).all (fun p => (names p).all plain) = true := by
    simp only [List.all_map, List.all_eq_true, Function.comp_apply]
    intro T hT' n hn
    exact ident_plain (hT T hT' _ ((names_pieces T n).1 hn) n rfl)
  unfold tagsFromPath getFields
  rw [prepare_write hP, h1]
  simp only [h2, checkTpls_ok hT hsub, hplain, if_true, Option.some.injEq]
  induction ns with
  | nil => exact ⟨[], rfl, rfl, by simp⟩
  | cons n ns ih =>
    obtain ⟨L, h3, h4, h5⟩ := ih
    obtain ⟨r1, r2⟩ := run_spec P (normpath n)
    rw [loop, List.filter_cons]
    cases hr : run (P.map Elt.tok) (normpath n) with
    | none =>
      rw [if_neg]
      · exact ⟨L, h3, h4, h5⟩
      · simp only [decide_eq_true_eq]
        rintro ⟨segs, hs⟩
        obtain ⟨v, hv⟩ := r2 segs hs
        rw [hr] at hv
        simp at hv
    | some v =>
      obtain ⟨segs, g1, rfl, g3⟩ := r1 v hr
      have hlen := g1.1.length_eq
      obtain ⟨tags, k1, k2⟩ := formats_ok hlen hsub
      simp only [k1, h3]
      rw [if_pos (by simpa using ⟨segs, g1⟩)]
      refine ⟨(n, tags) :: L, rfl, by rw [List.map_cons, h4], ?_⟩
      intro x hx
      rcases List.mem_cons.1 hx with rfl | hx
      · exact ⟨segs, g1, g3, k2⟩
      · exact h5 x hx

/-- The pattern with the fields replaced by values and the wildcards by strings. -/
def Substituted (env : List Char → List Char) (P : List Elt) (s : List Char) : Prop :=
  ∃ segs, List.Forall₂ (fun e seg => match e with
    | .field n => seg = env n
    | e => Stands e seg) P segs ∧ segs.flatten = s

theorem subst_of {P : List Elt} (hd : (fieldsOf P).Nodup) {segs : List (List Char)} (h : List.Forall₂ Stands P segs)
    (env : List Char → List Char) (he : ∀ n v, IsLast (valuesOf P segs) n v → env n = v) :
    List.Forall₂ (fun e seg => match e with | .field n => seg = env n | e => Stands e seg) P segs := by
  induction h with
  | nil => exact .nil
  | @cons e seg P segs h1 h2 ih =>
    cases e with
    | field n =>
      have hd' : n ∉ fieldsOf P ∧ (fieldsOf P).Nodup := List.nodup_cons.1 hd
      have hv : valuesOf (Elt.field n :: P) (seg :: segs) = (n, seg) :: valuesOf P segs := rfl
      rw [hv] at he
      refine .cons (he n seg ⟨[], valuesOf P segs, rfl, ?_⟩).symm (ih hd'.2 ?_)
      · rintro p hp rfl
        apply hd'.1
        rw [fieldsOf_eq h2.length_eq]
        exact List.mem_map.2 ⟨p, hp, rfl⟩
      · rintro m v ⟨a, b, h3, h4⟩
        exact he m v ⟨(n, seg) :: a, b, by rw [h3]; rfl, h4⟩
    | text c => exact .cons h1 (ih hd he)
    | one => exact .cons h1 (ih hd he)
    | cls a b => exact .cons h1 (ih hd he)
    | star => exact .cons h1 (ih hd he)
    | dstar => exact .cons h1 (ih hd he)

theorem valuesOf_mem {P : List Elt} {segs : List (List Char)} (h : List.Forall₂ Stands P segs) {n v : List Char}
    (hm : (n, v) ∈ valuesOf P segs) : v ≠ [] ∧ ∀ c ∈ v, IsWord c := by
  induction h with
  | nil => simp [valuesOf] at hm
  | @cons e seg P segs k1 k2 ih =>
    cases e with
    | field m =>
      have hv : valuesOf (Elt.field m :: P) (seg :: segs) = (m, seg) :: valuesOf P segs := rfl
      rw [hv] at hm
      rcases List.mem_cons.1 hm with h | h
      · simp only [Prod.mk.injEq] at h
        rw [h.2]
        exact k1
      · exact ih h
    | text c => exact ih hm
    | one => exact ih hm
    | cls a b => exact ih hm
    | star => exact ih hm
    | dstar => exact ih hm

/-- **C64.** If no field is repeated, the values of the fields used in the tags reproduce the path: the pattern with the
fields replaced by them, and the wildcards by some strings, is the normalised name. -/
theorem C64_reproduces (P : List Elt) (hP : PatternOK P) (hd : (fieldsOf P).Nodup) (Ts : List (List TplElt))
    (hT : ∀ T ∈ Ts, TplOK T) (hsub : ∀ T ∈ Ts, ∀ n, TplElt.field n ∈ T → n ∈ fieldsOf P) (ns : List (List Char)) :
    ∃ L, tagsFromPath ns (write P) (Ts.map writeTpl) = some (L, none) ∧
      ∀ x ∈ L, x.1 ∈ ns ∧ ∃ env : List Char → List Char, Substituted env P (normpath x.1) ∧
        (∀ n ∈ fieldsOf P, env n ≠ [] ∧ ∀ c ∈ env n, IsWord c) ∧
        List.Forall₂ (fun T tag => tag = T.flatMap (fun e => match e with | .text c => [c] | .field n => env n)) Ts x.2 := by
  classical
  obtain ⟨L, h1, h2, h3⟩ := C64_yields P hP Ts hT hsub ns
  refine ⟨L, h1, ?_⟩
  intro x hx
  obtain ⟨segs, g1, -, g3⟩ := h3 x hx
  have uniq : ∀ n v v', IsLast (valuesOf P segs) n v → IsLast (valuesOf P segs) n v' → v = v' := by
    intro n v v' a b
    have a := lookup_reverse.2 a
    have b := lookup_reverse.2 b
    rw [a] at b
    exact Option.some.inj b
  let env : List Char → List Char := fun n => if h : ∃ v, IsLast (valuesOf P segs) n v then h.choose else []
  have he : ∀ n v, IsLast (valuesOf P segs) n v → env n = v := by
    intro n v hv
    have h : ∃ v, IsLast (valuesOf P segs) n v := ⟨v, hv⟩
    simp only [env, dif_pos h]
    exact uniq n _ _ h.choose_spec hv
  refine ⟨?_, env, ⟨segs, subst_of hd g1.1 env he, g1.2⟩, ?_, ?_⟩
  · have : x.1 ∈ L.map Prod.fst := List.mem_map.2 ⟨x, hx, rfl⟩
    rw [h2] at this
    exact (List.mem_filter.1 this).1
  · intro n hn
    obtain ⟨v, hv⟩ := fieldsOf_isLast g1.1.length_eq hn
    rw [he n v hv]
    obtain ⟨a, b, h4, -⟩ := hv
    have hmem : (n, v) ∈ valuesOf P segs := by rw [h4]; simp
    exact valuesOf_mem g1.1 hmem
  · refine g3.imp ?_
    rintro T tag ⟨parts, k1, rfl⟩
    induction k1 with
    | nil => rfl
    | @cons e part T parts k2 k3 ih =>
      rw [List.flatMap_cons, List.flatten_cons, ih]
      congr 1
      cases e with
      | text c => exact k2
      | field n => exact (he n part k2).symm

/-- **C65.** A template that uses a field missing in the pattern raises ValueError, and nothing is yielded. -/
theorem C65_unknown_field (P : List Elt) (hP : PatternOK P) (Ts : List (List TplElt)) (hT : ∀ T ∈ Ts, TplOK T)
    (T : List TplElt) (hm : T ∈ Ts) (n : List Char) (hn : TplElt.field n ∈ T) (hk : n ∉ fieldsOf P) (ns : List (List Char)) :
    tagsFromPath ns (write P) (Ts.map writeTpl) = some ([], some .value) := by
  obtain ⟨ps, h1, h2⟩ := parse_write hP.elts
  unfold tagsFromPath getFields
  rw [prepare_write hP, h1]
  simp only [h2, checkTpls_error hT hm hn hk]

/-- The levels of a segment: `*`, a field and a character other than `/` do not cross directories. -/
theorem count_of {e : Elt} (he : EltOK e) (h1 : e ≠ .one) (h2 : e ≠ .dstar) (h3 : ∀ b i, e ≠ .cls b i) {seg : List Char}
    (h : Stands e seg) : seg.count '/' = e.write.count '/' := by
  cases e with
  | text c => rw [show seg = [c] from h]; rfl
  | one => exact absurd rfl h1
  | cls b i => exact absurd rfl (h3 b i)
  | dstar => exact absurd rfl h2
  | star => simpa [Elt.write] using List.count_eq_zero.2 h
  | field n =>
    rw [List.count_eq_zero.2 (fun hc => isWord_ne (h.2 _ hc) (by decide) rfl)]
    symm
    rw [List.count_eq_zero]
    intro hc
    simp only [Elt.write, List.cons_append, List.mem_cons, List.mem_append, List.not_mem_nil, or_false] at hc
    rcases hc with hc | hc | hc
    · exact absurd hc (by decide)
    · exact ident_chars he hc (by decide) rfl
    · exact absurd hc (by decide)

/-- **C65.** `*` and fields stay within one directory level: a pattern made of text, `*` and fields only matches names with
as many separators as the pattern. -/
theorem C65_levels (P : List Elt) (hP : PatternOK P) (h1 : .one ∉ P) (h2 : .dstar ∉ P) (h3 : ∀ b i, .cls b i ∉ P)
    (Ts : List (List TplElt)) (hT : ∀ T ∈ Ts, TplOK T) (hsub : ∀ T ∈ Ts, ∀ n, TplElt.field n ∈ T → n ∈ fieldsOf P)
    (ns : List (List Char)) (L : List (List Char × List (List Char))) (x : Option Err)
    (h : tagsFromPath ns (write P) (Ts.map writeTpl) = some (L, x)) (y : List Char × List (List Char)) (hy : y ∈ L) :
    (normpath y.1).count '/' = (write P).count '/' := by
  obtain ⟨L', g1, -, g3⟩ := C64_yields P hP Ts hT hsub ns
  rw [g1] at h
  simp only [Option.some.injEq, Prod.mk.injEq] at h
  obtain ⟨rfl, -⟩ := h
  obtain ⟨segs, ⟨k1, k2⟩, -⟩ := g3 y hy
  rw [← k2]
  have he := hP.elts
  clear g1 g3 hsub hT k2 hP
  induction k1 with
  | nil => rfl
  | @cons e seg P segs m1 m2 ih =>
    have hw : write (e :: P) = e.write ++ write P := rfl
    rw [hw, List.flatten_cons, List.count_append, List.count_append,
      count_of (he e (by simp)) (fun h => h1 (by simp [h])) (fun h => h2 (by simp [h])) (fun b i h => h3 b i (by simp [h])) m1,
      ih (fun h => h1 (by simp [h])) (fun h => h2 (by simp [h])) (fun b i h => h3 b i (by simp [h]))
        (fun e he' => he e (by simp [he']))]

/-- **C65.** Names are matched in normal form: the normalised name is in normal form, and a name in normal form is left as
it is. -/
theorem C65_normal_form (s : List Char) : NormalPath (normpath s) ∧ (NormalPath s → normpath s = s) := by
  constructor
  · unfold normpath
    simp only
    split
    · exact .inl rfl
    · rename_i hne
      refine .inr ⟨hne, ?_⟩
      have hst := (Stack.nil (initialSlashes s)).foldl (splitSlash_noslash s)
      obtain ⟨rest, m, h1, h2, h3⟩ := hst.ups
      refine ⟨initialSlashes s, m, rest.reverse, initialSlashes_le s, ?_, h3, ?_⟩
      · rw [h1]
        simp
      · intro w hw
        have hw := List.mem_reverse.1 hw
        have := hst.words w (by rw [h1]; simp [hw])
        exact ⟨this.1, this.2.1, fun h => h2 (h ▸ hw), this.2.2⟩
  · rintro (rfl | ⟨hne, k, m, rest, hk, rfl, hm, hr⟩)
    · decide
    · set ws := List.replicate m ['.', '.'] ++ rest with hws
      have hw : ∀ w ∈ ws, w ≠ [] ∧ '/' ∉ w := by
        intro w hw
        rcases List.mem_append.1 hw with h | h
        · rw [List.eq_of_mem_replicate h]
          decide
        · exact ⟨(hr w h).1, (hr w h).2.2.2⟩
      have hhead : (joinSlash ws).head? ≠ some '/' := by
        cases hws' : ws with
        | nil => simp [joinSlash]
        | cons w l =>
          have := hw w (by simp [hws'])
          cases w with
          | nil => exact absurd rfl this.1
          | cons c w =>
            have hc : c ≠ '/' := fun h => this.2 (by simp [h])
            cases l with
            | nil => simpa [joinSlash] using hc
            | cons v l => simpa [joinSlash] using hc
      have hfold : (splitSlash (List.replicate k '/' ++ joinSlash ws)).foldl (normStep k) [] = ws.reverse := by
        have hn := foldl_normal (k := k) (m := m) (rest := rest) hm (fun h => (hr _ h).2.2.1 rfl)
          (fun w hw => ⟨(hr w hw).1, (hr w hw).2.1⟩)
        rw [splitSlash_slashes, List.foldl_append]
        have : (List.replicate k ([] : List Char)).foldl (normStep k) [] = [] := by
          have : ∀ j, (List.replicate j ([] : List Char)).foldl (normStep k) [] = [] := by
            intro j
            induction j with
            | zero => rfl
            | succ j ih =>
              rw [List.replicate_succ, List.foldl_cons]
              have : normStep k [] [] = [] := by simp [normStep]
              rw [this, ih]
          exact this k
        rw [this]
        by_cases hempty : ws = []
        · rw [hempty]
          simp [joinSlash, splitSlash, normStep]
        · rw [splitSlash_join hempty (fun w h => (hw w h).2)]
          exact hn
      unfold normpath
      simp only
      rw [initialSlashes_replicate hk hhead, hfold, List.reverse_reverse, if_neg hne]

/-- **C65.** Empty and `.` components do not matter: two names with the same other components, and the same number of
leading slashes, are treated alike. -/
theorem C65_same_path (a b : List Char) (hs : initialSlashes a = initialSlashes b)
    (h : (splitSlash a).filter (fun w => w ≠ [] ∧ w ≠ ['.']) = (splitSlash b).filter (fun w => w ≠ [] ∧ w ≠ ['.'])) :
    normpath a = normpath b := by
  unfold normpath
  simp only
  rw [hs, foldl_skip, h, ← foldl_skip]

/-- **C65.** The names yielded are names of the input, in the same order, those that do not match being skipped; a name is
yielded as often as it is given. -/
theorem C65_in_order (P : List Elt) (hP : PatternOK P) (Ts : List (List TplElt)) (hT : ∀ T ∈ Ts, TplOK T)
    (hsub : ∀ T ∈ Ts, ∀ n, TplElt.field n ∈ T → n ∈ fieldsOf P) (ns : List (List Char)) :
    ∃ L, tagsFromPath ns (write P) (Ts.map writeTpl) = some (L, none) ∧ (L.map Prod.fst).Sublist ns ∧
      (∀ n, (∃ segs, Assigns P segs (normpath n)) → (L.map Prod.fst).count n = ns.count n) ∧
      ∀ n, (¬ ∃ segs, Assigns P segs (normpath n)) → n ∉ L.map Prod.fst := by
  obtain ⟨L, h1, h2, -⟩ := C64_yields P hP Ts hT hsub ns
  refine ⟨L, h1, ?_, ?_, ?_⟩
  · rw [h2]; exact List.filter_sublist
  · intro n hn
    rw [h2, List.count_filter (by simpa using hn)]
  · intro n hn hm
    rw [h2, List.mem_filter] at hm
    exact hn (by simpa using hm.2)

/-- **C65.** `**` stands for any text, separators included. -/
theorem C65_double_star (pre post : List Elt) (hP : PatternOK (pre ++ .dstar :: post)) (Ts : List (List TplElt)) (hT : ∀ T ∈ Ts, TplOK T)
    (hsub : ∀ T ∈ Ts, ∀ n, TplElt.field n ∈ T → n ∈ fieldsOf (pre ++ .dstar :: post)) (ns : List (List Char)) (n : List Char) (hn : n ∈ ns)
    (a any b : List Char) (sa sb : List (List Char)) (ha : Assigns pre sa a) (hb : Assigns post sb b) (h : normpath n = a ++ any ++ b) :
    ∃ L tags, tagsFromPath ns (write (pre ++ .dstar :: post)) (Ts.map writeTpl) = some (L, none) ∧ (n, tags) ∈ L := by
  obtain ⟨L, h1, h2, -⟩ := C64_yields _ hP Ts hT hsub ns
  have hm : n ∈ L.map Prod.fst := by
    rw [h2, List.mem_filter]
    refine ⟨hn, ?_⟩
    simp only [decide_eq_true_eq]
    refine ⟨sa ++ any :: sb, List.rel_append ha.1 (.cons trivial hb.1), ?_⟩
    rw [h, List.flatten_append, List.flatten_cons, ha.2, hb.2, List.append_assoc]
  obtain ⟨⟨m, tags⟩, hx, rfl⟩ := List.mem_map.1 hm
  exact ⟨L, tags, h1, hx⟩

/-! Examples -/

/-- `rep/{a}/*_{x}.[tT]xt` -/
def exPat : List Elt :=
  ['r', 'e', 'p', '/'].map .text ++ [.field ['a'], .text '/', .star, .text '_', .field ['x'], .text '.',
    .cls false [.ch 't', .range 'T' 'U'], .text 'x', .text 't']

theorem exPat_ok : PatternOK exPat := by
  refine ⟨?_, ?_, ?_⟩
  · intro e he
    simp only [exPat, List.map_cons, List.map_nil, List.cons_append, List.nil_append, List.mem_cons, List.not_mem_nil,
      or_false] at he
    rcases he with rfl | rfl | rfl | rfl | rfl | rfl | rfl | rfl | rfl | rfl | rfl | rfl | rfl <;>
      simp [EltOK, IsIdent, IsWord, ItemOK, ItemChar] <;> decide
  · simp [exPat]
  · decide +kernel

/-- `{a}-{{{x}}}` -/
def exTpl : List TplElt := [.field ['a'], .text '-', .text '{', .field ['x'], .text '}']

theorem exTpl_ok : TplOK exTpl := by
  intro e he n hn
  subst hn
  simp only [exTpl, List.mem_cons, TplElt.field.injEq, reduceCtorEq, false_or, List.not_mem_nil, or_false] at he
  rcases he with rfl | rfl <;> simp [IsIdent, IsWord] <;> decide

example : write exPat = "rep/{a}/*_{x}.[tT-U]xt".toList ∧ writeTpl exTpl = "{a}-{{{x}}}".toList := by decide +kernel

example : PatternOK exPat ∧ TplOK exTpl ∧ (∀ n, TplElt.field n ∈ exTpl → n ∈ fieldsOf exPat) ∧ (fieldsOf exPat).Nodup := by
  refine ⟨exPat_ok, exTpl_ok, ?_, by decide⟩
  intro n hn
  simp only [exTpl, List.mem_cons, TplElt.field.injEq, reduceCtorEq, false_or, List.not_mem_nil, or_false] at hn
  rcases hn with rfl | rfl <;> decide

/-- The result when pattern and templates are read as expected. -/
theorem tags_eq {P : List Elt} (hP : PatternOK P) {Ts : List (List TplElt)} (hT : ∀ T ∈ Ts, TplOK T)
    (hsub : ∀ T ∈ Ts, ∀ n, TplElt.field n ∈ T → n ∈ fieldsOf P) (ns : List (List Char)) :
    tagsFromPath ns (write P) (Ts.map writeTpl) = 
      if (Ts.map (fun T => T.map TplElt.piece)).all (fun p => (names p).all plain) then
        some (loop (P.map Elt.tok) (fieldsOf P) (Ts.map (fun T => T.map TplElt.piece)) ns) else none := by
  obtain ⟨ps, h1, h2⟩ := parse_write hP.elts
  unfold tagsFromPath getFields
  rw [prepare_write hP, h1]
  simp only [h2, checkTpls_ok hT hsub]

example : tagsFromPath ["./rep//A/u_X.txt".toList, "rep/B/c/u_Y.txt".toList, "rep/C/_1_2.Txt".toList] (write exPat)
    [writeTpl exTpl] = some ([("./rep//A/u_X.txt".toList, ["A-{X}".toList]), ("rep/C/_1_2.Txt".toList, ["C-{1_2}".toList])],
      none) := by
  have := tags_eq exPat_ok (Ts := [exTpl]) (by simpa using exTpl_ok) (by
    intro T hT n hn
    rw [List.mem_singleton.1 hT] at hn
    simp only [exTpl, List.mem_cons, TplElt.field.injEq, reduceCtorEq, false_or, List.not_mem_nil, or_false] at hn
    rcases hn with rfl | rfl <;> decide)
    ["./rep//A/u_X.txt".toList, "rep/B/c/u_Y.txt".toList, "rep/C/_1_2.Txt".toList]
  rw [show [writeTpl exTpl] = List.map writeTpl [exTpl] from rfl, this]
  decide +kernel

/-- **C64.** A repeated field need not have the same value everywhere: `{a}_{a}` matches `X_Y`, and `{a}` is then `Y`. -/
theorem C64_repeated : tagsFromPath [['X', '_', 'Y']] (write [.field ['a'], .text '_', .field ['a']])
    [writeTpl [.field ['a']]] = some ([(['X', '_', 'Y'], [['Y']])], none) := by
  have hi : IsIdent ['a'] := by
    simp [IsIdent, IsWord]
  have := tags_eq (P := [.field ['a'], .text '_', .field ['a']]) ⟨by simp [EltOK, hi], by simp, by decide +kernel⟩
    (Ts := [[.field ['a']]]) (by simpa [TplOK] using hi) (by simp [fieldsOf]) [['X', '_', 'Y']]
  rw [show [writeTpl [.field ['a']]] = List.map writeTpl [[.field ['a']]] from rfl, this]
  decide +kernel

/-- `a/**/b` matches `a/x/y/b`. -/
example : ∃ L tags, tagsFromPath [['a', '/', 'x', '/', 'y', '/', 'b']] (write [.text 'a', .text '/', .dstar, .text '/', .text 'b'])
    ([].map writeTpl) = some (L, none) ∧ (['a', '/', 'x', '/', 'y', '/', 'b'], tags) ∈ L :=
  C65_double_star [.text 'a', .text '/'] [.text '/', .text 'b'] ⟨by simp [EltOK], by simp, by decide +kernel⟩ [] (by simp) (by simp) _ _
    (by simp) ['a', '/'] ['x', '/', 'y'] ['/', 'b'] [['a'], ['/']] [['/'], ['b']]
    ⟨.cons rfl (.cons rfl .nil), rfl⟩ ⟨.cons rfl (.cons rfl .nil), rfl⟩ (by decide +kernel)

/-- **C65.** `?` (like `[!seq]`) may stand for a separator: `a?b` matches `a/b`. -/
theorem C65_question_mark : tagsFromPath [['a', '/', 'b']] (write [.text 'a', .one, .text 'b']) [] =
    some ([(['a', '/', 'b'], [])], none) := by
  have := tags_eq (P := [.text 'a', .one, .text 'b']) ⟨by simp [EltOK], by simp, by decide +kernel⟩ (Ts := []) (by simp)
    (by simp) [['a', '/', 'b']]
  refine Eq.trans this ?_
  decide +kernel

end Razorback.Props
