import Verif.Model.Catalog
import Verif.Spec.Catalog
import Verif.Props.ComCorrection

/-!
# C95: the scripts for the catalog
-/

namespace Verif.Props.Catalog
open Verif Verif.DataTypes Verif.ComCorrection Verif.ComMotion Verif.Catalog Verif.Spec.Catalog Verif.Props.ComCorrection

/-! ## Cutting texts -/

theorem cut_ne (c : Char) (s : Str) : cut c s ≠ [] := by
  cases s with
  | nil => simp [cut]
  | cons x s =>
    rw [cut]
    split
    · simp
    · split <;> simp

theorem cut_clean (c : Char) (a : Str) (h : c ∉ a) : cut c a = [a] := by
  induction a with
  | nil => rfl
  | cons x a ih =>
    rw [List.mem_cons, not_or] at h
    rw [cut, if_neg (Ne.symm h.1), ih h.2]

theorem cut_append (c : Char) (a s : Str) (h : c ∉ a) : cut c (a ++ c :: s) = a :: cut c s := by
  induction a with
  | nil => rw [List.nil_append, cut, if_pos rfl]
  | cons x a ih =>
    rw [List.mem_cons, not_or] at h
    rw [List.cons_append, cut, if_neg (Ne.symm h.1), ih h.2]

/-! ## `split` -/

theorem splitFuel_ne (p : Str) (n : Nat) (s : Str) : splitFuel p n s ≠ [] := by
  cases n with
  | zero => simp [splitFuel]
  | succ n =>
    cases s with
    | nil => simp [splitFuel]
    | cons c s =>
      rw [splitFuel]
      split
      · simp
      · split <;> simp

theorem splitFuel_none (p : Str) (n : Nat) (s : Str) (h : ∀ x y, s ≠ x ++ p ++ y) : splitFuel p n s = [s] := by
  induction n generalizing s with
  | zero => rfl
  | succ n ih =>
    cases s with
    | nil => rfl
    | cons c s =>
      rw [splitFuel, if_neg (by rw [prefix_iff]; rintro ⟨y, e⟩; exact h [] y e), ih s fun x y e => h (c :: x) y (by rw [e]; rfl)]

theorem splitFuel_once (q : Str) (hq : q ≠ []) (n : Nat) (a b : Str) (hn : (a ++ q ++ b).length ≤ n) (h : Once q a (a ++ q ++ b)) : splitFuel q n (a ++ q ++ b) = [a, b] := by
  induction n generalizing a with
  | zero =>
    rw [Nat.le_zero, List.length_eq_zero_iff] at hn
    simp only [List.append_eq_nil_iff] at hn
    exact absurd hn.1.2 hq
  | succ n ih =>
    cases a with
    | nil =>
      obtain ⟨c, q', rfl⟩ := List.exists_cons_of_ne_nil hq
      show splitFuel (c :: q') (n + 1) (c :: (q' ++ b)) = [[], b]
      rw [splitFuel, if_pos (show (c :: q').isPrefixOf (c :: (q' ++ b)) = true from (prefix_iff _ _).mpr ⟨b, rfl⟩)]
      have : (c :: (q' ++ b)).drop (c :: q').length = b := by
        rw [← List.cons_append, List.drop_left]
      rw [this, splitFuel_none]
      intro x y e
      have := h ((c :: q') ++ x) y (by rw [e]; simp)
      simp at this
    | cons c a =>
      show splitFuel q (n + 1) (c :: (a ++ q ++ b)) = [c :: a, b]
      rw [splitFuel, if_neg, ih a (by simp at hn ⊢; omega) fun x y e => by
        have := h (c :: x) y (congrArg (List.cons c) e)
        injection this]
      rw [prefix_iff]
      rintro ⟨y, e⟩
      have := h [] y e
      cases this

/-- A text that is found in only one part of a split text is not found. -/
theorem splitFuel_one (q : Str) (hq : q ≠ []) (n : Nat) (s b : Str) (hn : s.length ≤ n) (h : splitFuel q n s = [b]) : s = b ∧ ∀ x y, s ≠ x ++ q ++ y := by
  induction n generalizing s b with
  | zero =>
    rw [Nat.le_zero, List.length_eq_zero_iff] at hn
    subst hn
    rw [splitFuel] at h
    refine ⟨(List.cons.inj h).1, fun x y e => ?_⟩
    have := List.append_eq_nil_iff.mp e.symm
    exact hq (List.append_eq_nil_iff.mp this.1).2
  | succ n ih =>
    cases s with
    | nil =>
      rw [splitFuel] at h
      refine ⟨(List.cons.inj h).1, fun x y e => ?_⟩
      have := List.append_eq_nil_iff.mp e.symm
      exact hq (List.append_eq_nil_iff.mp this.1).2
    | cons c s =>
      rw [splitFuel] at h
      by_cases hp : q.isPrefixOf (c :: s) = true
      · rw [if_pos hp] at h
        exact absurd (List.cons.inj h).2 (splitFuel_ne _ _ _)
      · rw [if_neg hp] at h
        cases hs : splitFuel q n s with
        | nil => exact absurd hs (splitFuel_ne _ _ _)
        | cons w ws =>
          rw [hs] at h
          obtain ⟨e1, e2⟩ := List.cons.inj h
          subst e2
          obtain ⟨r1, r2⟩ := ih s w (by simp at hn; omega) hs
          refine ⟨by rw [← e1, r1], fun x y e => ?_⟩
          cases x with
          | nil => exact hp ((prefix_iff _ _).mpr ⟨y, e⟩)
          | cons d x =>
            obtain ⟨_, e'⟩ := List.cons.inj e
            exact r2 x y e'

theorem splitFuel_two (q : Str) (hq : q ≠ []) (n : Nat) (s a b : Str) (hn : s.length ≤ n) (h : splitFuel q n s = [a, b]) :
    s = a ++ q ++ b ∧ (∀ x y, b ≠ x ++ q ++ y) ∧ ∀ x y, s = x ++ q ++ y → a.length ≤ x.length := by
  induction n generalizing s a b with
  | zero => rw [splitFuel] at h; cases (List.cons.inj h).2
  | succ n ih =>
    cases s with
    | nil => rw [splitFuel] at h; cases (List.cons.inj h).2
    | cons c s =>
      rw [splitFuel] at h
      by_cases hp : q.isPrefixOf (c :: s) = true
      · rw [if_pos hp] at h
        obtain ⟨e1, e2⟩ := List.cons.inj h
        obtain ⟨y, e⟩ := (prefix_iff _ _).mp hp
        have hd : (c :: s).drop q.length = y := by rw [e, List.drop_left]
        rw [hd] at e2
        have hq' : 0 < q.length := List.length_pos_iff.mpr hq
        have hl : y.length ≤ n := by
          have := congrArg List.length e
          simp only [List.length_append, List.length_cons] at this hn
          omega
        obtain ⟨r1, r2⟩ := splitFuel_one q hq n y b hl e2
        subst e1 r1
        exact ⟨e, r2, fun x y _ => Nat.zero_le _⟩
      · rw [if_neg hp] at h
        cases hs : splitFuel q n s with
        | nil => exact absurd hs (splitFuel_ne _ _ _)
        | cons w ws =>
          rw [hs] at h
          obtain ⟨e1, e2⟩ := List.cons.inj h
          subst e2
          obtain ⟨r1, r2, r3⟩ := ih s w b (by simp at hn; omega) hs
          refine ⟨by rw [← e1, r1]; rfl, r2, fun x y e => ?_⟩
          cases x with
          | nil => exact absurd ((prefix_iff _ _).mpr ⟨y, e⟩) hp
          | cons d x =>
            have := r3 x y (List.cons.inj e).2
            rw [← e1]
            simpa using this

/-! ## `dirname` -/

theorem dropWhile_reverse (p : Char → Bool) (a b : Str) (h : ∀ c ∈ b, p c = true) : ((a ++ b).reverse.dropWhile p) = a.reverse.dropWhile p := by
  rw [List.reverse_append]
  have : ∀ l : Str, (∀ c ∈ l, p c = true) → (l ++ a.reverse).dropWhile p = a.reverse.dropWhile p := by
    intro l hl
    induction l with
    | nil => rfl
    | cons c l ih =>
      rw [List.cons_append, List.dropWhile_cons, if_pos (hl c (List.mem_cons_self ..)), ih fun d hd => hl d (List.mem_cons_of_mem _ hd)]
  exact this _ fun c hc => h c (List.mem_reverse.mp hc)

theorem dropWhile_last (p : Char → Bool) (a : Str) (c : Char) (h : p c = false) : ((a ++ [c]).reverse.dropWhile p).reverse = a ++ [c] := by
  rw [List.reverse_append, List.reverse_singleton, List.singleton_append, List.dropWhile_cons, h]
  simp

/-- The directory of a file of a directory that does not end with a slash is that directory. -/
theorem dirname_join (root name : Str) (hr : root ≠ []) (hs : root.getLast? ≠ some '/') (hn : '/' ∉ name) : dirname (join root name) = root := by
  unfold join
  rw [if_neg hr, if_neg hs]
  obtain ⟨r, c, rfl⟩ : ∃ r c, root = r ++ [c] := ⟨root.dropLast, root.getLast hr, (List.dropLast_append_getLast hr).symm⟩
  have hc : c ≠ '/' := fun e => hs (by rw [e]; simp)
  unfold dirname
  have e : r ++ [c] ++ '/' :: name = (r ++ [c] ++ ['/']) ++ name := by simp
  have h1 : ((r ++ [c] ++ '/' :: name).reverse.dropWhile fun c => decide (c ≠ '/')).reverse = r ++ [c] ++ ['/'] := by
    rw [e, dropWhile_reverse _ _ _ (fun d hd => by rw [decide_eq_true_iff]; exact fun q => hn (q ▸ hd)), dropWhile_last _ _ _ (by simp)]
  have h2 : rstrip (r ++ [c] ++ ['/']) = r ++ [c] := by
    unfold rstrip
    rw [dropWhile_reverse _ _ _ (fun d hd => by simpa using hd), dropWhile_last _ _ _ (by simpa using hc)]
  simp only [h1, h2]
  rw [if_neg (by simp)]

/-! ## The files -/

/-- C95.  Exactly the files with this name below `Catalog` and `Incoming` are worked on. -/
theorem files_iff (name : Str) (catalog incoming : List Batch.Step) (f : Str) :
    f ∈ files name catalog incoming ↔ ∃ st, (st ∈ catalog ∨ st ∈ incoming) ∧ name ∈ st.files ∧ f = join st.path name := by
  unfold files
  simp only [List.mem_flatMap, List.mem_append, List.mem_map, List.mem_filter, decide_eq_true_eq]
  constructor
  · rintro ⟨st, h, g, ⟨hg, rfl⟩, rfl⟩
    exact ⟨st, h, hg, rfl⟩
  · rintro ⟨st, h, hg, rfl⟩
    exact ⟨st, h, name, ⟨hg, rfl⟩, rfl⟩

/-! ## The table -/

/-- The value of a computation, if it does not raise. -/
def value {α : Type} : Py α → Option α
  | .ok a => some a
  | .error _ => none

theorem foldl_runIn (ext : Catalog.Ext) (l : List Str) (text : Str) : l.foldl (runIn ext) text = text ++ (l.filterMap fun f => value (line ext f)).flatten := by
  induction l generalizing text with
  | nil => simp
  | cons f l ih =>
    rw [List.foldl_cons, ih]
    unfold runIn
    cases h : line ext f with
    | error e => simp [List.filterMap_cons, h, value]
    | ok s => simp [List.filterMap_cons, h, value]

theorem bind_ok {α β : Type} {x : Py α} {f : α → Py β} {b : β} (h : (x >>= f) = .ok b) : ∃ a, x = .ok a ∧ f a = .ok b := by
  cases x with
  | error e => cases h
  | ok a => exact ⟨a, rfl, h⟩

/-- The cells of the row of a file. -/
noncomputable def row (ext : Catalog.Ext) (dir : Str) (lev : ℝ) (x v : Vec) (t_i t_f last : ℝ) : List Str :=
  dir :: ([lev, x 0, x 1, x 2, v 0, v 1, v 2, t_i, t_f, last].map fun r => ' ' :: ext.repr r)

/-- When a file gives a row, and which: it can be opened and is not empty, the fit succeeds, and the directory has `Lev` in its path once, with a number behind it. -/
def Gives (ext : Catalog.Ext) (f : Str) (r : List Str) : Prop :=
  ∃ h last x v t_i t_f dir level lev, ext.openFile f = .ok h ∧ h.t.getLast? = some last ∧ eacm h = .ok (x, v, t_i, t_f) ∧ dirname f = dir ++ ['L', 'e', 'v'] ++ level ∧
    Once ['L', 'e', 'v'] dir (dirname f) ∧ ext.parse level = .ok lev ∧ r = row ext dir lev x v t_i t_f last

/-- Nothing that is written has a comma or a newline in it. -/
structure Clean (ext : Catalog.Ext) (f : Str) : Prop where
  repr : ∀ x, ',' ∉ ext.repr x ∧ '\n' ∉ ext.repr x
  path : ',' ∉ dirname f ∧ '\n' ∉ dirname f

theorem lev_iff (s dir level : Str) : split ['L', 'e', 'v'] s = [dir, level] ↔ s = dir ++ ['L', 'e', 'v'] ++ level ∧ Once ['L', 'e', 'v'] dir s := by
  constructor
  · intro h
    obtain ⟨h1, h2, h3⟩ := splitFuel_two ['L', 'e', 'v'] (by simp) s.length s dir level le_rfl h
    refine ⟨h1, fun x y e => ?_⟩
    have hl := h3 x y e
    obtain ⟨z, rfl⟩ : ∃ z, x = dir ++ z := by
      refine ⟨x.drop dir.length, ?_⟩
      have : dir = x.take dir.length := by
        have := congrArg (List.take dir.length) (h1.symm.trans e)
        rw [List.append_assoc, List.append_assoc, List.take_left, List.take_append_of_le_length hl] at this
        exact this
      conv_lhs => rw [← List.take_append_drop dir.length x, ← this]
    rw [h1, List.append_assoc, List.append_assoc, List.append_assoc, List.append_cancel_left_eq] at e
    match z, e with
    | [], _ => simp
    | [c], e => simp at e
    | [c, d], e => simp at e
    | c :: d :: g :: z, e =>
      simp only [List.cons_append, List.nil_append, List.cons.injEq] at e
      exact absurd (show level = z ++ ['L', 'e', 'v'] ++ y by simpa using e.2.2.2) (h2 z y)
  · rintro ⟨h1, h2⟩
    subst h1
    exact splitFuel_once _ (by simp) _ dir level le_rfl h2

theorem lastTime_iff (h : Horizons) (x : ℝ) : lastTime h = .ok x ↔ h.t.getLast? = some x := by
  unfold lastTime
  cases h.t.getLast? with
  | none => simp
  | some y => simp

theorem unpack_iff (l : List Str) (a b : Str) : unpack l = .ok (a, b) ↔ l = [a, b] := by
  unfold unpack
  split
  · simp
  · rename_i h
    refine ⟨fun e => (by cases e), fun e => absurd e (h a b)⟩

/-- The line of a row. -/
theorem line_row (ext : Catalog.Ext) (dir : Str) (lev : ℝ) (x v : Vec) (t_i t_f last : ℝ) :
    dir ++ [',', ' '] ++ ext.repr lev ++ [',', ' '] ++ commas ([x 0, x 1, x 2, v 0, v 1, v 2, t_i, t_f].map ext.repr) ++ [',', ' '] ++ ext.repr last ++ ['\n'] =
      (List.intercalate [','] (row ext dir lev x v t_i t_f last)) ++ ['\n'] := by
  simp [row, commas, List.intercalate, List.intersperse]

/-- C95.  A file gives a line exactly if it can be read, the fit succeeds and there is one `Lev`, with a number, in the path of its directory; the line is this row. -/
theorem line_iff (ext : Catalog.Ext) (f : Str) (s : Str) : line ext f = .ok s ↔ ∃ r, Gives ext f r ∧ s = List.intercalate [','] r ++ ['\n'] := by
  constructor
  · intro h
    unfold line at h
    obtain ⟨hz, h1, h⟩ := bind_ok h
    obtain ⟨last, h2, h⟩ := bind_ok h
    obtain ⟨⟨x, v, t_i, t_f⟩, h3, h⟩ := bind_ok h
    obtain ⟨⟨dir, level⟩, h4, h⟩ := bind_ok h
    obtain ⟨lev, h5, h⟩ := bind_ok h
    have hr := Except.ok.inj h
    obtain ⟨e1, e2⟩ := (lev_iff _ _ _).mp ((unpack_iff _ _ _).mp h4)
    exact ⟨_, ⟨hz, last, x, v, t_i, t_f, dir, level, lev, h1, (lastTime_iff _ _).mp h2, h3, e1, e2, h5, rfl⟩, by rw [← hr, line_row]⟩
  · rintro ⟨r, ⟨hz, last, x, v, t_i, t_f, dir, level, lev, h1, h2, h3, e1, e2, h5, rfl⟩, rfl⟩
    unfold line
    rw [h1, ok_bind, (lastTime_iff _ _).mpr h2, ok_bind, h3, ok_bind, (unpack_iff _ _ _).mpr ((lev_iff _ _ _).mpr ⟨e1, e2⟩)]
    simp only [h5, ok_bind]
    rw [line_row]
    rfl

theorem cut_intercalate (c : Char) (r : List Str) (hr : r ≠ []) (h : ∀ a ∈ r, c ∉ a) : cut c (List.intercalate [c] r) = r := by
  induction r with
  | nil => exact absurd rfl hr
  | cons a r ih =>
    cases r with
    | nil => simpa [List.intercalate] using cut_clean c a (h a (List.mem_cons_self ..))
    | cons b r =>
      have : List.intercalate [c] (a :: b :: r) = a ++ c :: List.intercalate [c] (b :: r) := by simp [List.intercalate, List.intersperse]
      rw [this, cut_append c _ _ (h a (List.mem_cons_self ..)), ih (by simp) fun x hx => h x (List.mem_cons_of_mem _ hx)]

theorem gives_clean (ext : Catalog.Ext) (f : Str) (r : List Str) (hc : Clean ext f) (h : Gives ext f r) : r.length = 11 ∧ (∀ a ∈ r, ',' ∉ a) ∧ ∀ a ∈ r, '\n' ∉ a := by
  obtain ⟨hz, last, x, v, t_i, t_f, dir, level, lev, h1, h2, h3, e1, e2, h5, rfl⟩ := h
  have hd : ∀ c, c ∉ dirname f → c ∉ dir := by
    intro c hc hd
    rw [e1] at hc
    exact hc (by simp [hd])
  refine ⟨by simp [row], fun a ha => ?_, fun a ha => ?_⟩
  · rcases List.mem_cons.mp ha with rfl | ha
    · exact hd _ hc.path.1
    · obtain ⟨y, _, rfl⟩ := List.mem_map.mp ha
      simpa using (hc.repr y).1
  · rcases List.mem_cons.mp ha with rfl | ha
    · exact hd _ hc.path.2
    · obtain ⟨y, _, rfl⟩ := List.mem_map.mp ha
      simpa using (hc.repr y).2

theorem not_mem_intercalate (c d : Char) (hcd : c ≠ d) (r : List Str) (h : ∀ a ∈ r, c ∉ a) : c ∉ List.intercalate [d] r := by
  induction r with
  | nil => simp [List.intercalate]
  | cons a r ih =>
    cases r with
    | nil => simpa [List.intercalate] using h a (List.mem_cons_self ..)
    | cons b r =>
      have : List.intercalate [d] (a :: b :: r) = a ++ d :: List.intercalate [d] (b :: r) := by simp [List.intercalate, List.intersperse]
      rw [this, List.mem_append, List.mem_cons]
      rintro (q | q | q)
      · exact h a (List.mem_cons_self ..) q
      · exact hcd q
      · exact ih (fun x hx => h x (List.mem_cons_of_mem _ hx)) q

theorem lines_cons (a s : Str) (h : '\n' ∉ a) : linesOf (a ++ ['\n'] ++ s) = a :: linesOf s := by
  unfold linesOf
  rw [List.append_assoc, List.singleton_append, cut_append _ _ _ h]
  cases hs : cut '\n' s with
  | nil => exact absurd hs (cut_ne _ _)
  | cons w ws => rfl

/-- C95.  The table: below the names there is one row for each file that gives a row, in the order of the files; other files change nothing. -/
theorem table (ext : Catalog.Ext) (catalog incoming : List Batch.Step) (hc : ∀ f ∈ files horizonsName catalog incoming, Clean ext f) :
    ∃ rows : List (List Str), (linesOf (findCom ext catalog incoming)).map cells = cells header :: rows ∧
      ∃ l : List (Option (List Str)), rows = l.filterMap id ∧ List.Forall₂ (fun f o => ∀ r, o = some r ↔ Gives ext f r) (files horizonsName catalog incoming) l := by
  unfold findCom
  rw [foldl_runIn, lines_cons _ _ (by decide), List.map_cons]
  generalize files horizonsName catalog incoming = fs at hc
  refine ⟨_, rfl, ?_⟩
  induction fs with
  | nil => exact ⟨[], rfl, .nil⟩
  | cons f fs ih =>
    obtain ⟨l, e, hl⟩ := ih fun g hg => hc g (List.mem_cons_of_mem _ hg)
    have hcf := hc f (List.mem_cons_self ..)
    cases hf : line ext f with
    | error err =>
      refine ⟨none :: l, ?_, .cons (fun r => ⟨fun h => (by cases h), fun h => ?_⟩) hl⟩
      · rw [List.filterMap_cons_none (by simp [hf, value]), List.filterMap_cons_none rfl, e]
      · have := (line_iff ext f _).mpr ⟨r, h, rfl⟩
        rw [hf] at this
        cases this
    | ok s =>
      obtain ⟨r, hr, rfl⟩ := (line_iff ext f s).mp hf
      obtain ⟨k1, k2, k3⟩ := gives_clean ext f r hcf hr
      refine ⟨some r :: l, ?_, .cons (fun r' => ⟨fun h => ?_, fun h => ?_⟩) hl⟩
      · rw [List.filterMap_cons_some (f := fun f => value (line ext f)) (a := f) (b := List.intercalate [','] r ++ ['\n']) (by rw [hf]; rfl), List.filterMap_cons_some (f := id) (a := some r) (b := r) rfl, List.flatten_cons, lines_cons _ _ (not_mem_intercalate _ _ (by decide) _ k3), List.map_cons, e]
        congr 1
        exact cut_intercalate ',' r (by rintro rfl; simp at k1) k2
      · cases h; exact hr
      · have h' := (line_iff ext f _).mpr ⟨r', h, rfl⟩
        rw [hf] at h'
        have h' := List.append_cancel_right (Except.ok.inj h')
        obtain ⟨k1', k2', -⟩ := gives_clean ext f r' hcf h
        rw [← cut_intercalate ',' r (by rintro rfl; simp at k1) k2, h', cut_intercalate ',' r' (by rintro rfl; simp at k1') k2']

/-- C95, missing: there are ten names, but each row has eleven cells, as both ends of the window of the fit are written. -/
theorem too_many_cells (ext : Catalog.Ext) (f : Str) (r : List Str) (h : Gives ext f r) : (cells header).length = 10 ∧ r.length = 11 := by
  obtain ⟨hz, last, x, v, t_i, t_f, dir, level, lev, h1, h2, h3, e1, e2, h5, rfl⟩ := h
  exact ⟨by decide, by simp [row]⟩

/-- C95, missing: read as the documentation says, every column but the last has the numbers of the next one: the level is found under `dirname`, the coordinate x under `Lev`, y under `x0`, z under `y0`,
the velocities one place too early, the beginning of the window under `vz0` and its end under `t0`. -/
theorem columns_shifted (ext : Catalog.Ext) (dir : Str) (lev : ℝ) (x v : Vec) (t_i t_f last : ℝ) :
    (cells header).map (column (cells header) (row ext dir lev x v t_i t_f last)) = [lev, x 0, x 1, x 2, v 0, v 1, v 2, t_i, t_f, last].map fun r => some (' ' :: ext.repr r) := by
  have e : cells header = [['d','i','r','n','a','m','e'], ['L','e','v'], ['x','0'], ['y','0'], ['z','0'], ['v','x','0'], ['v','y','0'], ['v','z','0'], ['t','0'], ['t','f']] := by decide
  rw [e]
  simp [column, row, List.lookup]

/-- A file of a simulation: in the directory `dir/Lev{n}` of a path that has `Lev` in it once. -/
theorem level_of (root dir level : Str) (h : root = dir ++ ['L', 'e', 'v'] ++ level) (hs : root.getLast? ≠ some '/') : dirname (join root horizonsName) = dir ++ ['L', 'e', 'v'] ++ level := by
  rw [dirname_join root _ (by rw [h]; simp) hs (by decide), h]

/-- C95, missing: a file below a directory with `Lev` in its path twice (a name like `Levin`, say) gives no row, although all is well with it. -/
theorem no_row_twice (ext : Catalog.Ext) (f a b c : Str) (h : dirname f = a ++ ['L', 'e', 'v'] ++ b ++ ['L', 'e', 'v'] ++ c) (r : List Str) : ¬ Gives ext f r := by
  rintro ⟨hz, last, x, v, t_i, t_f, dir, level, lev, h1, h2, h3, e1, e2, h5, rfl⟩
  have k1 := e2 a (b ++ ['L', 'e', 'v'] ++ c) (by rw [h]; simp)
  have k2 := e2 (a ++ ['L', 'e', 'v'] ++ b) c (by rw [h])
  have := congrArg List.length (k1.trans k2.symm)
  simp at this

/-! ## Removing the motion -/

/-- A call of the script always raises. -/
theorem call_raises {B : Type} (ext : ComCorrection.Ext B) (filename sub : Str) : Py.isOk (call ext filename sub) = false := by
  unfold call racm
  cases masses { ext with metadata := none } false none none with
  | error e => rfl
  | ok m =>
    obtain ⟨m, a, b⟩ := m
    show Py.isOk (ext.estimate m a b >>= fun _ => Except.error PyErr.attributeError) = false
    cases ext.estimate m a b <;> rfl

theorem runIn2_eq {B : Type} (ext : ComCorrection.Ext B) (fileExists : Str → Bool) (filename : Str) :
    runIn2 ext fileExists filename = if fileExists (testName filename) then [] else [.working filename, .failed filename, .finished filename] := by
  unfold runIn2
  have h := call_raises ext filename n2
  cases hc : call ext filename n2 with
  | ok r => rw [hc] at h; cases h
  | error e => rfl

/-- C95, missing: whatever the catalog has in it and whatever the waveforms and horizons are, the script never writes a corrected waveform; it reports a failure for every file. -/
theorem never_written {B : Type} (ext : ComCorrection.Ext B) (fileExists : Str → Bool) (catalog incoming : List Batch.Step) :
    (∀ fmt name w, Event.written fmt name w ∉ removeCom ext fileExists catalog incoming) ∧
      ∀ f ∈ files waveformName catalog incoming, fileExists (testName f) = false → Event.failed f ∈ removeCom ext fileExists catalog incoming := by
  unfold removeCom
  constructor
  · intro fmt name w h
    obtain ⟨f, _, h⟩ := List.mem_flatMap.mp h
    rw [runIn2_eq] at h
    split at h <;> simp at h
  · intro f hf he
    refine List.mem_flatMap.mpr ⟨f, hf, ?_⟩
    rw [runIn2_eq, he]
    simp

/-- C95.  The file whose existence is tested is the one that the correction of the waveform writes (C87), for paths with one `.h5` and one `rhOverM_`. -/
theorem test_name (dir group : Str) (hd : dir = [] ∨ ∃ d, dir = d ++ ['/']) (h5 : ¬ ['.','h','5'] <:+: dir ++ waveformName.take 33) (hg : ¬ ['.','h','5'] <:+: group)
    (ho : OnceCI (waveformName.take 8) dir (dir ++ waveformName.take 33 ++ ['_','C','o','M','.','h','5'] ++ group)) :
    ∃ file, nrarName (waveformName.take 7) (dir ++ waveformName ++ group) = file ++ group ∧ SpecFile.decorate (waveformName.take 7) file = testName (dir ++ waveformName) := by
  have hw : waveformName.take 33 = waveformName.take 7 ++ ['_'] ++ (waveformName.take 33).drop 8 := by decide
  have hW : waveformName = waveformName.take 33 ++ ['.','h','5'] := by decide
  have h8 : waveformName.take 8 = waveformName.take 7 ++ ['_'] := by decide
  have h5' : ¬ ['.','h','5'] <:+: dir ++ (waveformName.take 7 ++ ['_']) ++ (waveformName.take 33).drop 8 := by
    rw [List.append_assoc, ← hw]; exact h5
  have ho' : OnceCI (waveformName.take 7 ++ ['_']) dir (dir ++ (waveformName.take 7 ++ ['_']) ++ ((waveformName.take 33).drop 8 ++ ['_','C','o','M','.','h','5'] ++ group)) := by
    rw [← h8]
    have e : dir ++ waveformName.take 8 ++ ((waveformName.take 33).drop 8 ++ ['_','C','o','M','.','h','5'] ++ group) = dir ++ waveformName.take 33 ++ ['_','C','o','M','.','h','5'] ++ group := by
      rw [hw, h8]; simp only [List.append_assoc]; rfl
    rw [e]
    exact ho
  obtain ⟨k1, k2⟩ := nrar_file dir (waveformName.take 7) ((waveformName.take 33).drop 8) group hd (by decide) h5' hg ho'
  refine ⟨dir ++ (waveformName.take 33).drop 8 ++ ['_','C','o','M','.','h','5'], ?_, ?_⟩
  · rw [← k1]
    congr 1
    conv_lhs => rw [hW, hw]
    simp only [List.append_assoc]
  · rw [k2]
    unfold testName replaceAll
    have e : dir ++ waveformName = dir ++ waveformName.take 33 ++ ['.','h','5'] ++ [] := by
      conv_lhs => rw [hW]
      simp only [List.append_assoc, List.append_nil]
    rw [e, replaceFuel_once _ _ (by decide) _ _ _ le_rfl (h5_once _ _ h5 (by simp))]
    conv_rhs => rw [hw]
    simp only [List.append_assoc, List.append_nil]

/-- C95, what is missing in the script: passed by its name, the path is corrected and the result is written. -/
theorem by_keyword {B : Type} (ext : ComCorrection.Ext B) (path : Str) (r : Wave B × Option (Format × Str × Wave B)) (h : racm ext none path = .ok r) : ∃ u D, r.2 = some (.nrar, nrarName D path, u) := by
  obtain ⟨r, out⟩ := r
  obtain ⟨_, _, _, _, _, _, _, _, -, -, -, -, -, -, -, -, -, -, -, h1, -⟩ := run_spec ext none path nrar false none none true r out h
  obtain ⟨u, D, e, -⟩ := h1 rfl (by decide)
  exact ⟨u, D, e⟩

/-- A horizon file with one time, and its row. -/
noncomputable def sampleExt : Catalog.Ext where
  openFile _ := .ok ⟨[2], [1], [fun _ => 0], [1], [fun _ => 0]⟩
  parse _ := .ok 3
  repr _ := ['1']

/-- The file `Catalog/Lev3/Horizons.h5` gives a row. -/
example : ∃ r, Gives sampleExt (join ['C','a','t','a','l','o','g','/','L','e','v','3'] horizonsName) r := by
  have hd : dirname (join ['C','a','t','a','l','o','g','/','L','e','v','3'] horizonsName) = ['C','a','t','a','l','o','g','/'] ++ ['L', 'e', 'v'] ++ ['3'] := by decide
  refine ⟨_, ⟨_, 2, _, _, _, _, ['C','a','t','a','l','o','g','/'], ['3'], 3, rfl, rfl, rfl, hd, ?_, rfl, rfl⟩⟩
  exact ((lev_iff _ _ ['3']).mp (by rw [hd]; decide)).2

example : Clean sampleExt (join ['C','a','t','a','l','o','g','/','L','e','v','3'] horizonsName) := ⟨fun _ => by simp [sampleExt], by decide⟩

theorem once_ci (q a s : Str) (h : ∀ i ∈ List.range (s.length + 1), (lower q).isPrefixOf (lower (s.drop i)) = true → s.take i = a) : OnceCI q a s := by
  intro x q' y e e'
  have := h x.length (by rw [List.mem_range, e]; simp) (by rw [e, List.append_assoc, List.drop_left, lower_prefix]; exact ⟨q', y, rfl, e'⟩)
  rwa [e, List.append_assoc, List.take_left] at this

set_option maxRecDepth 20000 in
/-- The waveform in `C/` meets the hypotheses of `test_name`. -/
example : (∃ d, ['C', '/'] = d ++ ['/']) ∧ ¬ ['.','h','5'] <:+: ['C', '/'] ++ waveformName.take 33 ∧
    OnceCI (waveformName.take 8) ['C', '/'] (['C', '/'] ++ waveformName.take 33 ++ ['_','C','o','M','.','h','5'] ++ ['/', 'N', '2', '.', 'd', 'i', 'r']) :=
  ⟨⟨['C'], rfl⟩, by decide, once_ci _ _ _ (by decide)⟩

end Verif.Props.Catalog
