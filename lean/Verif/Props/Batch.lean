import Verif.Model.Batch
import Verif.Props.ComCorrection


/-!
# Many extrapolations: the script template, and the data that are found (C90)
-/

namespace Verif.Props.Batch
open Verif Verif.ComCorrection Verif.Batch

/-! ## Specification -/

/-- A template: plain text, and names in braces. -/
inductive Piece where
  | text (s : Str)
  | name (n : Str)

/-- Text without braces, and names that are not numbers and have no special characters. -/
def Piece.Plain : Piece → Prop
  | .text s => ∀ c ∈ s, c ≠ '{' ∧ c ≠ '}'
  | .name n => n.all SpecFile.isDigit = false ∧ ∀ c ∈ n, c ≠ '{' ∧ c ≠ '}' ∧ c ≠ '.' ∧ c ≠ '[' ∧ c ≠ '!' ∧ c ≠ ':'

/-- The template as it is written. -/
def source : List Piece → Str
  | [] => []
  | .text s :: ps => s ++ source ps
  | .name n :: ps => '{' :: n ++ ['}'] ++ source ps

/-- What is asked for: names with a value are replaced by it, the others stay. -/
def filled (keys : List (Str × Str)) : List Piece → Str
  | [] => []
  | .text s :: ps => s ++ filled keys ps
  | .name n :: ps => (match keys.lookup n with
    | some v => v
    | none => '{' :: n ++ ['}']) ++ filled keys ps

/-- A directory named `Lev` and a number, within another one. -/
def IsLev (path : Str) : Prop := ∃ a d, path = a ++ ['/', 'L', 'e', 'v'] ++ d ∧ ∀ c ∈ d, SpecFile.isDigit c = true

/-- The name of the file with the data of one kind. -/
def named (kind : Str) : Str := kind ++ ['_', 'F', 'i', 'n', 'i', 't', 'e', 'R', 'a', 'd', 'i', 'i', '_', 'C', 'o', 'd', 'e', 'U', 'n', 'i', 't', 's', '.', 'h', '5']

/-- The kinds of data: `rh`, `rPsi4`, `r2Psi3`, `r3Psi2`, `r4Psi1`, `r5Psi0`. -/
def kinds : List Str := [['r', 'h'], ['r', 'P', 's', 'i', '4'], ['r', '2', 'P', 's', 'i', '3'], ['r', '3', 'P', 's', 'i', '2'], ['r', '4', 'P', 's', 'i', '1'], ['r', '5', 'P', 's', 'i', '0']]

theorem dataFiles_eq : dataFiles = kinds.map named := rfl

/-! ## Templates -/

theorem go_text (keys : List (Str × Str)) (other : Str → Py Str) (s : Str) (hs : ∀ c ∈ s, c ≠ '{' ∧ c ≠ '}') (rest : Str) :
    go keys other none (s ++ rest) = (go keys other none rest).map fun r => s ++ r := by
  induction s with
  | nil =>
    rw [List.nil_append]
    cases go keys other none rest <;> rfl
  | cons c s ih =>
    obtain ⟨h1, h2⟩ := hs c (by simp)
    have e : go keys other none (c :: (s ++ rest)) = (do
      let r ← go keys other none (s ++ rest)
      pure (c :: r)) := by
      rw [go]
      · rw [if_neg h2, if_neg h1]
      · rintro s' rfl; exact fun _ => h1 rfl
      · rintro s' rfl; exact fun _ => h2 rfl
    rw [List.cons_append, e, ih fun c hc => hs c (by simp [hc])]
    cases go keys other none rest <;> rfl

theorem go_name (keys : List (Str × Str)) (other : Str → Py Str) (n : Str) (hn : ∀ c ∈ n, c ≠ '{' ∧ c ≠ '}') (acc rest : Str) :
    go keys other (some acc) (n ++ '}' :: rest) = (do
      let x ← getField keys other (acc.reverse ++ n)
      let r ← go keys other none rest
      pure (x ++ r)) := by
  induction n generalizing acc with
  | nil => rw [List.nil_append, go, if_pos rfl, List.append_nil]
  | cons c n ih =>
    obtain ⟨h1, h2⟩ := hn c (by simp)
    rw [List.cons_append, go, if_neg h2, if_neg h1, ih fun c hc => hn c (by simp [hc])]
    simp

theorem go_open (keys : List (Str × Str)) (other : Str → Py Str) (n rest : Str) (hn : ∀ c ∈ n, c ≠ '{' ∧ c ≠ '}') :
    go keys other none ('{' :: n ++ ['}'] ++ rest) = (do
      let x ← getField keys other n
      let r ← go keys other none rest
      pure (x ++ r)) := by
  have e : '{' :: n ++ ['}'] ++ rest = '{' :: (n ++ '}' :: rest) := by simp
  rw [e]
  have h : go keys other none ('{' :: (n ++ '}' :: rest)) = go keys other (some []) (n ++ '}' :: rest) := by
    rw [go]
    · rw [if_neg (by decide), if_pos rfl]
    · intro s' _ h
      cases n with
      | nil => cases h
      | cons c n => rw [List.cons_append] at h; cases h; exact (hn '{' (by simp)).1 rfl
    · intro s' h; cases h
  rw [h, go_name keys other n hn]
  rfl

/-- C90: `_safe_format` replaces exactly the names in braces that are given, everywhere, and leaves the rest. -/
theorem safe_format_partial (keys : List (Str × Str)) (other : Str → Py Str) (ps : List Piece) (hp : ∀ p ∈ ps, p.Plain) : safeFormat keys other (source ps) = .ok (filled keys ps) := by
  unfold safeFormat
  induction ps with
  | nil => rfl
  | cons p ps ih =>
    have ih := ih fun q hq => hp q (by simp [hq])
    have h := hp p (by simp)
    cases p with
    | text s => rw [source, go_text keys other s h, ih]; rfl
    | name n =>
      obtain ⟨h1, h2⟩ := h
      rw [source, go_open keys other n _ fun c hc => ⟨(h2 c hc).1, (h2 c hc).2.1⟩, ih]
      have e : getField keys other n = .ok (match keys.lookup n with
          | some v => v
          | none => '{' :: n ++ ['}']) := by
        unfold getField
        rw [if_neg (by rw [h1]; decide), if_neg]
        · cases keys.lookup n <;> rfl
        · intro ha
          obtain ⟨c, hc, h3⟩ := List.any_eq_true.mp ha
          obtain ⟨-, -, k1, k2, k3, k4⟩ := h2 c hc
          simp [k1, k2, k3, k4] at h3
      rw [e]; rfl

/-- What is left for later after the first replacement. -/
def stage (keys : List (Str × Str)) : List Piece → List Piece
  | [] => []
  | .text s :: ps => .text s :: stage keys ps
  | .name n :: ps => (match keys.lookup n with
    | some v => .text v
    | none => .name n) :: stage keys ps

theorem source_stage (keys : List (Str × Str)) (ps : List Piece) : source (stage keys ps) = filled keys ps := by
  induction ps with
  | nil => rfl
  | cons p ps ih =>
    cases p with
    | text s => rw [stage, source, filled, ih]
    | name n =>
      rw [stage, filled]
      cases keys.lookup n with
      | none => simp only; rw [source, ih]
      | some v => simp only; rw [source, ih]

theorem lookup_append (a b : List (Str × Str)) (n : Str) : (a ++ b).lookup n = (a.lookup n).or (b.lookup n) := by
  induction a with
  | nil => rfl
  | cons p a ih =>
    rw [List.cons_append, List.lookup_cons, List.lookup_cons, ih]
    cases n == p.1 <;> rfl

theorem filled_stage (k1 k2 : List (Str × Str)) (ps : List Piece) : filled k2 (stage k1 ps) = filled (k1 ++ k2) ps := by
  induction ps with
  | nil => rfl
  | cons p ps ih =>
    cases p with
    | text s => rw [stage, filled, filled, ih]
    | name n =>
      rw [stage, filled, lookup_append]
      cases k1.lookup n with
      | none => simp only [Option.none_or]; rw [filled, ih]
      | some v => simp only [Option.some_or]; rw [filled, ih]

/-- C90: names that are not given can be replaced later: two calls one after the other give what one call with all the values gives, as long as the first values have no braces. -/
theorem later (k1 k2 : List (Str × Str)) (other : Str → Py Str) (ps : List Piece) (hp : ∀ p ∈ ps, p.Plain) (hv : ∀ p ∈ k1, ∀ c ∈ p.2, c ≠ '{' ∧ c ≠ '}') :
    (safeFormat k1 other (source ps) >>= safeFormat k2 other) = safeFormat (k1 ++ k2) other (source ps) := by
  rw [safe_format_partial k1 other ps hp, safe_format_partial (k1 ++ k2) other ps hp, ok_bind, ← source_stage, ← filled_stage]
  refine safe_format_partial k2 other _ ?_
  induction ps with
  | nil => intro p hp; cases hp
  | cons p ps ih =>
    intro q hq
    have ih := ih fun r hr => hp r (by simp [hr])
    have h := hp p (by simp)
    cases p with
    | text s =>
      rw [stage] at hq
      rcases List.mem_cons.mp hq with rfl | hq
      · exact h
      · exact ih q hq
    | name n =>
      rw [stage] at hq
      rcases List.mem_cons.mp hq with rfl | hq
      · cases hl : k1.lookup n with
        | none => exact h
        | some v =>
          obtain ⟨l1, l2, e, -⟩ := List.lookup_eq_some_iff.mp hl
          exact hv (n, v) (by rw [e]; simp)
      · exact ih q hq

/-- Not so for doubled braces: the first call makes them single, and the second one replaces the name. -/
theorem escaped_braces (other : Str → Py Str) :
    safeFormat [(['x'], ['v'])] other ['{', '{', 'x', '}', '}'] = .ok ['{', 'x', '}'] ∧
    (safeFormat [] other ['{', '{', 'x', '}', '}'] >>= safeFormat [(['x'], ['v'])] other) = .ok ['v'] := ⟨rfl, rfl⟩

/-- An error after a plain template is raised. -/
theorem error_after (keys : List (Str × Str)) (other : Str → Py Str) (ps : List Piece) (hp : ∀ p ∈ ps, p.Plain) (s : Str) (e : PyErr) (base : go keys other none s = .error e) :
    safeFormat keys other (source ps ++ s) = .error e := by
  unfold safeFormat
  induction ps with
  | nil => exact base
  | cons p ps ih =>
    have ih := ih fun q hq => hp q (by simp [hq])
    have h := hp p (by simp)
    cases p with
    | text s => rw [source, List.append_assoc, go_text keys other s h, ih]; rfl
    | name n =>
      obtain ⟨h1, h2⟩ := h
      rw [source, List.append_assoc, go_open keys other n _ fun c hc => ⟨(h2 c hc).1, (h2 c hc).2.1⟩, ih]
      have e : ∃ x, getField keys other n = .ok x := by
        unfold getField
        rw [if_neg (by rw [h1]; decide), if_neg]
        · exact ⟨_, rfl⟩
        · intro ha
          obtain ⟨c, hc, h3⟩ := List.any_eq_true.mp ha
          obtain ⟨-, -, k1, k2, k3, k4⟩ := h2 c hc
          simp [k1, k2, k3, k4] at h3
      obtain ⟨x, e⟩ := e
      rw [e]; rfl

/-- A template with a pair of braces that has nothing, or a number, in it -- such as an empty dictionary in a script -- is refused with an `IndexError`. -/
theorem empty_braces (keys : List (Str × Str)) (other : Str → Py Str) (ps : List Piece) (hp : ∀ p ∈ ps, p.Plain) (d : Str) (hd : ∀ c ∈ d, SpecFile.isDigit c = true) (rest : Str) :
    safeFormat keys other (source ps ++ ('{' :: d ++ ['}'] ++ rest)) = .error .indexError := by
  refine error_after keys other ps hp _ _ ?_
  rw [go_open keys other d rest fun c hc => by
    have := hd c hc
    constructor <;> (rintro rfl; revert this; decide)]
  have : getField keys other d = .error .indexError := by
    unfold getField
    rw [if_pos (List.all_eq_true.mpr hd)]
  rw [this]; rfl

theorem go_unclosed (keys : List (Str × Str)) (other : Str → Py Str) (n acc : Str) (hn : ∀ c ∈ n, c ≠ '{' ∧ c ≠ '}') : go keys other (some acc) n = .error .valueError := by
  induction n generalizing acc with
  | nil => rfl
  | cons c n ih =>
    obtain ⟨h1, h2⟩ := hn c (by simp)
    rw [go, if_neg h2, if_neg h1]
    exact ih _ fun c hc => hn c (by simp [hc])

/-- A brace that is not closed, or not opened, is refused with a `ValueError`. -/
theorem unmatched_braces (keys : List (Str × Str)) (other : Str → Py Str) (ps : List Piece) (hp : ∀ p ∈ ps, p.Plain) (n : Str) (hn : ∀ c ∈ n, c ≠ '{' ∧ c ≠ '}') :
    safeFormat keys other (source ps ++ '{' :: n) = .error .valueError ∧ safeFormat keys other (source ps ++ '}' :: n) = .error .valueError := by
  constructor
  · refine error_after keys other ps hp _ _ ?_
    cases n with
    | nil => rfl
    | cons c n =>
      obtain ⟨h1, h2⟩ := hn c (by simp)
      rw [go]
      · rw [if_neg (by decide), if_pos rfl]
        exact go_unclosed keys other (c :: n) [] hn
      · intro s _ h
        exact h1 (List.cons.inj h).1
      · intro s h
        exact absurd h (by decide)
  · refine error_after keys other ps hp _ _ ?_
    cases n with
    | nil => rfl
    | cons c n =>
      obtain ⟨h1, h2⟩ := hn c (by simp)
      rw [go]
      · rw [if_pos rfl]
      · intro s h
        exact absurd h (by decide)
      · intro s _ h
        exact h2 (List.cons.inj h).1

/-! ## The data that are found -/

theorem isLev_iff (path : Str) : isLev path = true ↔ IsLev path := by
  induction path with
  | nil => simp [isLev, IsLev]
  | cons c s ih =>
    rw [isLev, Bool.or_eq_true, Bool.and_eq_true, ih, ComCorrection.prefix_iff, List.all_eq_true]
    constructor
    · rintro (⟨⟨y, e⟩, h⟩ | ⟨a, d, e, h⟩)
      · refine ⟨[], y, by simpa using e, ?_⟩
        rw [e] at h
        simpa using h
      · exact ⟨c :: a, d, by rw [e]; rfl, h⟩
    · rintro ⟨a, d, e, h⟩
      cases a with
      | nil => exact Or.inl ⟨⟨d, by simpa using e⟩, by rw [e]; simpa using h⟩
      | cons x a =>
        simp only [List.cons_append, List.cons.injEq] at e
        exact Or.inr ⟨a, d, e.2, h⟩

theorem find_eq (top : Str) (steps : List Step) : find top steps = steps.flatMap (ofStep top) := by
  unfold find
  suffices h : ∀ l, steps.foldl (fun l st => l ++ ofStep top st) l = l ++ steps.flatMap (ofStep top) by simpa using h []
  induction steps with
  | nil => simp
  | cons st steps ih => intro l; rw [List.foldl_cons, ih, List.flatMap_cons, List.append_assoc]

/-- Removing the name of the top directory and the slash gives the path within it, if the latter does not contain the former. -/
theorem relative (top rel : Str) (h : ¬ (top ++ ['/']) <:+: rel) : replaceAll (top ++ ['/']) [] (top ++ ['/'] ++ rel) = rel := by
  obtain ⟨c, q, e⟩ := List.exists_cons_of_ne_nil (show top ++ ['/'] ≠ [] by simp)
  unfold replaceAll
  rw [e] at h ⊢
  rw [List.cons_append, List.length_cons, replaceFuel, if_pos ((ComCorrection.prefix_iff (c :: q) (c :: (q ++ rel))).mpr ⟨rel, rfl⟩), List.nil_append]
  rw [show (c :: (q ++ rel)).drop (c :: q).length = rel by rw [← List.cons_append, List.drop_left]]
  exact ComCorrection.replaceFuel_none _ _ _ _ fun x y e' => h ⟨x, y, e'.symm⟩

/-- C90: the pairs that are found are the `Lev` directories with metadata and with one of the six data files, and each of these files, for directories within the top directory whose path within it does
not contain its name and a slash.  Missing: the other directories (see below). -/
theorem find_spec_partial (top : Str) (steps : List Step) (h : ∀ st ∈ steps, ∃ rel, st.path = top ++ ['/'] ++ rel ∧ ¬ (top ++ ['/']) <:+: rel) (sub file : Str) :
    (sub, file) ∈ find top steps ↔ (∃ k ∈ kinds, file = named k) ∧ ∃ st ∈ steps, st.path = top ++ ['/'] ++ sub ∧ IsLev st.path ∧ ['m', 'e', 't', 'a', 'd', 'a', 't', 'a', '.', 't', 'x', 't'] ∈ st.files ∧ file ∈ st.files := by
  have hk : (∃ k ∈ kinds, file = named k) ↔ file ∈ dataFiles := by
    rw [dataFiles_eq, List.mem_map]
    exact ⟨fun ⟨k, h, e⟩ => ⟨k, h, e.symm⟩, fun ⟨k, h, e⟩ => ⟨k, h, e.symm⟩⟩
  rw [hk]
  rw [find_eq, List.mem_flatMap]
  constructor
  · rintro ⟨st, hst, hm⟩
    obtain ⟨rel, e, hrel⟩ := h st hst
    unfold ofStep at hm
    split_ifs at hm with hc
    · obtain ⟨f, hf, e'⟩ := List.mem_map.mp hm
      rw [List.mem_filter, decide_eq_true_eq] at hf
      rw [e, relative top rel hrel] at e'
      cases e'
      exact ⟨hf.1, st, hst, e, (isLev_iff _).mp hc.1, hc.2, hf.2⟩
    · cases hm
  · rintro ⟨hf, st, hst, e, hl, hm, hf'⟩
    refine ⟨st, hst, ?_⟩
    obtain ⟨rel, e2, hrel⟩ := h st hst
    have : rel = sub := List.append_cancel_left (e2.symm.trans e)
    subst this
    unfold ofStep
    rw [if_pos ⟨(isLev_iff _).mpr hl, hm⟩, List.mem_map]
    refine ⟨file, by rw [List.mem_filter, decide_eq_true_eq]; exact ⟨hf, hf'⟩, ?_⟩
    rw [e, relative top rel hrel]

/-- If `os.walk` comes to each directory once, no pair is found twice. -/
theorem find_nodup (top : Str) (steps : List Step) (h : ∀ st ∈ steps, ∃ rel, st.path = top ++ ['/'] ++ rel ∧ ¬ (top ++ ['/']) <:+: rel)
    (hn : (steps.map fun st => st.path).Nodup) : (find top steps).Nodup := by
  rw [find_eq, List.nodup_flatMap]
  constructor
  · intro st _
    unfold ofStep
    split_ifs
    · refine List.Nodup.map (fun a b e => (Prod.mk.inj e).2) (List.Nodup.filter _ ?_)
      decide
    · exact List.nodup_nil
  · have hp : steps.Pairwise fun a b => a.path ≠ b.path := by
      have := List.nodup_iff_pairwise_ne.mp hn
      rwa [List.pairwise_map] at this
    refine hp.imp_of_mem ?_
    intro a b ha hb hab x hx hy
    obtain ⟨ra, ea, na⟩ := h a ha
    obtain ⟨rb, eb, nb⟩ := h b hb
    have fst : ∀ (st : Step) (rel : Str), st.path = top ++ ['/'] ++ rel → ¬ (top ++ ['/']) <:+: rel → x ∈ ofStep top st → x.1 = rel := by
      intro st rel e hr hm
      unfold ofStep at hm
      split_ifs at hm
      · obtain ⟨f, -, e'⟩ := List.mem_map.mp hm
        rw [e, relative top rel hr] at e'
        rw [← e']
      · cases hm
    have := (fst a ra ea na hx).symm.trans (fst b rb eb nb hy)
    exact hab (by rw [ea, eb, this])

/-- The name of the top directory is removed wherever it is found, also at the end of another name: the data in `data/extradata/Lev3` are reported as in `extraLev3`, which does not exist. -/
theorem wrong_subdirectory :
    find ['d', 'a', 't', 'a'] [⟨['d', 'a', 't', 'a', '/', 'e', 'x', 't', 'r', 'a', 'd', 'a', 't', 'a', '/', 'L', 'e', 'v', '3'], [metadata, ['r', 'h'] ++ suffix]⟩] =
      [(['e', 'x', 't', 'r', 'a', 'L', 'e', 'v', '3'], ['r', 'h'] ++ suffix)] := by decide

/-- If the name of the top directory ends with a slash, nothing is removed. -/
theorem trailing_slash (top rel : Str) (h : ¬ (top ++ ['/', '/']) <:+: (top ++ ['/'] ++ rel)) (files : List Str) (sub file : Str)
    (hm : (sub, file) ∈ find (top ++ ['/']) [⟨top ++ ['/'] ++ rel, files⟩]) : sub = top ++ ['/'] ++ rel := by
  rw [find_eq, List.flatMap_singleton] at hm
  unfold ofStep at hm
  split_ifs at hm
  · obtain ⟨f, -, e⟩ := List.mem_map.mp hm
    rw [show top ++ ['/'] ++ ['/'] = top ++ ['/', '/'] by simp] at e
    simp only [replaceAll] at e
    rw [ComCorrection.replaceFuel_none _ _ _ _ fun x y e' => h ⟨x, y, e'.symm⟩] at e
    exact (Prod.mk.inj e).1.symm
  · cases hm

/-- A top directory that is a `Lev` directory itself is reported as its own subdirectory. -/
theorem top_itself (top : Str) (ht : IsLev top) (files : List Str) (hf : metadata ∈ files) (file : Str) (h1 : file ∈ dataFiles) (h2 : file ∈ files) :
    (top, file) ∈ find top [⟨top, files⟩] := by
  rw [find_eq, List.flatMap_singleton]
  unfold ofStep
  rw [if_pos ⟨(isLev_iff _).mpr ht, hf⟩, List.mem_map]
  refine ⟨file, by rw [List.mem_filter, decide_eq_true_eq]; exact ⟨h1, h2⟩, ?_⟩
  simp only [replaceAll]
  rw [ComCorrection.replaceFuel_none]
  intro x y e
  have := congrArg List.length e
  simp at this
  omega

/-- The hypotheses are met. -/
example : (['A', '/', 'L', 'e', 'v', '3'], ['r', 'h'] ++ suffix) ∈ find ['/', 'i', 'n'] [⟨['/', 'i', 'n', '/', 'A', '/', 'L', 'e', 'v', '3'], [metadata, ['r', 'h'] ++ suffix]⟩] := by
  refine (find_spec_partial _ _ ?_ _ _).mpr ⟨by decide, _, List.mem_singleton_self _, rfl, ⟨['/', 'i', 'n', '/', 'A'], ['3'], rfl, by decide⟩, by decide, by decide⟩
  intro st hst
  rw [List.mem_singleton.mp hst]
  exact ⟨['A', '/', 'L', 'e', 'v', '3'], rfl, by decide⟩

example (other : Str → Py Str) : safeFormat [(['K', 'e', 'y'], ['H', 'i'])] other ['{', 'K', 'e', 'y', '}', ' ', '{', 'B', '}'] = .ok ['H', 'i', ' ', '{', 'B', '}'] := by
  refine safe_format_partial [(['K', 'e', 'y'], ['H', 'i'])] other [.name ['K', 'e', 'y'], .text [' '], .name ['B']] ?_
  intro p hp
  simp only [List.mem_cons, List.not_mem_nil, or_false] at hp
  rcases hp with rfl | rfl | rfl
  · exact ⟨by decide, by decide⟩
  · show ∀ c ∈ [' '], c ≠ '{' ∧ c ≠ '}'; decide
  · exact ⟨by decide, by decide⟩

end Verif.Props.Batch
