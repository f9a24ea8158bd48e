import Verif.Model.Lvc
import Verif.Props.SpecFile
import Verif.Props.Modes
import Mathlib.Analysis.SpecialFunctions.Complex.Arg

/-!
# Reading LVC files: which modes are read, what their values are, and what is refused (C88)
-/

namespace Verif.Props.Lvc

open Verif Verif.Modes Verif.Lvc

/-! ## Specification -/

/-- The file lists a phase with this degree and order. -/
def Lists (F : File) (ell m : Int) : Prop :=
  ∃ key ∈ (F.curves.map fun p => p.1) ++ F.others, ∃ a b : Str, phaseMatch key = some (a, b) ∧ SpecFile.pyInt a = .ok ell ∧ SpecFile.pyInt b = .ok m

/-- The group is there, and this is the curve through its data. -/
def Through (ext : Ext) (F : File) (name : Str) (f : ℝ → ℝ) : Prop := ∃ c, F.curves.lookup name = some c ∧ ext.spline c = .ok f

/-- A spline goes through its data. -/
def Interpolates (ext : Ext) : Prop :=
  ∀ c f, ext.spline c = .ok f → ∀ (i : Nat) (x y : ℝ), c.x[i]? = some x → c.y[i]? = some y → f x = y

/-- `np.empty` has as many columns as it is asked for. -/
def Columns (garbage : Nat → List (List ℂ)) : Prop := ∀ n, (garbage n).length = n

/-! ## Names -/

theorem bind_ok {α β : Type} {x : Py α} {f : α → Py β} {y : β} (h : (x >>= f) = .ok y) : ∃ a, x = .ok a ∧ f a = .ok y := by
  cases x with
  | error e => cases h
  | ok a => exact ⟨a, rfl, h⟩

theorem lastM_none {s : Str} (h : 'm' ∉ s) : lastM s = none := by
  induction s with
  | nil => rfl
  | cons c s ih =>
    rw [lastM, ih fun hm => h (by simp [hm])]
    have : ¬ ['_', 'm'].isPrefixOf (c :: s) = true := by
      intro hp
      obtain ⟨t, ht⟩ := List.isPrefixOf_iff_prefix.mp hp
      exact h (ht ▸ by simp)
    simp only [this]; rfl

theorem lastM_append (a : Str) {b : Str} (h : 'm' ∉ b) : lastM (a ++ '_' :: 'm' :: b) = some (a, b) := by
  induction a with
  | nil =>
    have h1 : lastM ('m' :: b) = none := by
      rw [lastM, lastM_none h]
      simp [List.isPrefixOf]
    rw [List.nil_append, lastM, h1]
    simp [List.isPrefixOf]
  | cons c a ih => rw [List.cons_append, lastM, ih]

theorem str_no_m (n : Int) : 'm' ∉ SpecFile.str n := by
  intro h
  have := (SpecFile.str_signs n).2 'm' h
  revert this
  decide

/-- The name that is written for a mode is recognised, and its degree and order come back. -/
theorem phaseMatch_phaseName (ell m : Int) : phaseMatch (phaseName ell m) = some (SpecFile.str ell, SpecFile.str m) := by
  have e : phaseName ell m = 'p' :: 'h' :: 'a' :: 's' :: 'e' :: '_' :: 'l' :: (SpecFile.str ell ++ '_' :: 'm' :: SpecFile.str m) := by
    simp [phaseName]
  rw [e]
  exact lastM_append _ (str_no_m m)

/-- A group `phase_l{ell}_m{m}` is listed with that degree and order. -/
theorem lists_of_name (F : File) (ell m : Int) (h : phaseName ell m ∈ F.curves.map fun p => p.1) : Lists F ell m :=
  ⟨_, List.mem_append_left _ h, _, _, phaseMatch_phaseName ell m, SpecFile.pyInt_str ell, SpecFile.pyInt_str m⟩

theorem named_mem {keys : List Str} {ks : List (Int × Int)} (h : named keys = .ok ks) (ell m : Int) :
    (ell, m) ∈ ks ↔ ∃ key ∈ keys, ∃ a b, phaseMatch key = some (a, b) ∧ SpecFile.pyInt a = .ok ell ∧ SpecFile.pyInt b = .ok m := by
  induction keys generalizing ks with
  | nil => simp only [named, Except.ok.injEq] at h; subst h; simp
  | cons k keys ih =>
    rw [named] at h
    cases hk : phaseMatch k with
    | none =>
      rw [hk] at h
      rw [ih h]
      constructor
      · rintro ⟨key, hm, r⟩; exact ⟨key, by simp [hm], r⟩
      · rintro ⟨key, hm, a, b, r, r'⟩
        rcases List.mem_cons.mp hm with rfl | hm
        · rw [hk] at r; cases r
        · exact ⟨key, hm, a, b, r, r'⟩
    | some ab =>
      obtain ⟨a, b⟩ := ab
      rw [hk] at h
      obtain ⟨e, he, h⟩ := bind_ok h
      obtain ⟨m', hm', h⟩ := bind_ok h
      obtain ⟨rest, hr, h⟩ := bind_ok h
      cases h
      rw [List.mem_cons, ih hr]
      constructor
      · rintro (h | ⟨key, hm, r⟩)
        · cases h; exact ⟨k, by simp, a, b, hk, he, hm'⟩
        · exact ⟨key, by simp [hm], r⟩
      · rintro ⟨key, hm, a', b', r, r1, r2⟩
        rcases List.mem_cons.mp hm with rfl | hm
        · rw [hk] at r; cases r
          rw [he] at r1; rw [hm'] at r2
          cases r1; cases r2; exact Or.inl rfl
        · exact Or.inr ⟨key, hm, a', b', r, r1, r2⟩

theorem foldl_min_le (l : List Int) (a : Int) : l.foldl min a ≤ a ∧ ∀ x ∈ l, l.foldl min a ≤ x := by
  induction l generalizing a with
  | nil => simp
  | cons x l ih =>
    obtain ⟨h1, h2⟩ := ih (min a x)
    rw [List.foldl_cons]
    refine ⟨h1.trans (min_le_left a x), fun y hy => ?_⟩
    rcases List.mem_cons.mp hy with rfl | hy
    · exact h1.trans (min_le_right a y)
    · exact h2 y hy

theorem foldl_min_mem (l : List Int) (a : Int) : l.foldl min a ∈ a :: l := by
  induction l generalizing a with
  | nil => simp
  | cons x l ih =>
    rw [List.foldl_cons]
    rcases List.mem_cons.mp (ih (min a x)) with h | h
    · rw [h]; rcases min_choice a x with e | e <;> rw [e] <;> simp
    · simp [h]

theorem foldl_max_mem (l : List Int) (a : Int) : l.foldl max a ∈ a :: l := by
  induction l generalizing a with
  | nil => simp
  | cons x l ih =>
    rw [List.foldl_cons]
    rcases List.mem_cons.mp (ih (max a x)) with h | h
    · rw [h]; rcases max_choice a x with e | e <;> rw [e] <;> simp
    · simp [h]

theorem degrees_spec {ks : List (Int × Int)} {e : Int × Int} (h : degrees ks = .ok e) :
    (∀ p ∈ ks, e.1 ≤ p.1 ∧ p.1 ≤ e.2) ∧ (∃ p ∈ ks, p.1 = e.1) ∧ ∃ p ∈ ks, p.1 = e.2 := by
  match ks, h with
  | p :: ps, h =>
    simp only [degrees, Except.ok.injEq] at h
    subst h
    have h1 := foldl_min_le (ps.map fun q => q.1) p.1
    have h2 := SpecFile.foldl_max_ge (ps.map fun q => q.1) p.1
    have h3 := foldl_min_mem (ps.map fun q => q.1) p.1
    have h4 := foldl_max_mem (ps.map fun q => q.1) p.1
    refine ⟨fun q hq => ?_, ?_, ?_⟩
    · rcases List.mem_cons.mp hq with rfl | hq
      · exact ⟨h1.1, h2.1⟩
      · exact ⟨h1.2 _ (List.mem_map.mpr ⟨q, hq, rfl⟩), h2.2 _ (List.mem_map.mpr ⟨q, hq, rfl⟩)⟩
    · rw [← List.map_cons (f := fun q : Int × Int => q.1)] at h3
      obtain ⟨q, hq, e⟩ := List.mem_map.mp h3
      exact ⟨q, hq, e⟩
    · rw [← List.map_cons (f := fun q : Int × Int => q.1)] at h4
      obtain ⟨q, hq, e⟩ := List.mem_map.mp h4
      exact ⟨q, hq, e⟩

/-! ## The loop over the modes -/

theorem column_ok {ext : Ext} {F : File} {t : List ℝ} {LM : Int × Int} {col : List ℂ} (h : column ext F t LM = .ok col) :
    ∃ a p, Through ext F (ampName LM.1 LM.2) a ∧ Through ext F (phaseName LM.1 LM.2) p ∧ col = t.map fun x => (a x : ℂ) * Complex.exp (Complex.I * (p x : ℂ)) := by
  unfold column at h
  obtain ⟨a, ha, h⟩ := bind_ok h
  obtain ⟨p, hp, h⟩ := bind_ok h
  cases h
  refine ⟨a, p, ?_, ?_, rfl⟩
  · unfold curve at ha
    split at ha
    · cases ha
    · exact ⟨_, ‹_›, ha⟩
  · unfold curve at hp
    split at hp
    · cases hp
    · exact ⟨_, ‹_›, hp⟩

theorem column_eq {ext : Ext} {F : File} (t : List ℝ) {ell m : Int} {a p : ℝ → ℝ} (ha : Through ext F (ampName ell m) a)
    (hp : Through ext F (phaseName ell m) p) : column ext F t (ell, m) = .ok (t.map fun x => (a x : ℂ) * Complex.exp (Complex.I * (p x : ℂ))) := by
  obtain ⟨c, h1, h2⟩ := ha
  obtain ⟨d, h3, h4⟩ := hp
  simp only [column, curve, h1, h2, h3, h4]
  rfl

/-- If the loop over the modes ends, each column is what was computed for its mode. -/
theorem fill {f : Int × Int → Py (List ℂ)} {idx : Int × Int → Int} (L : List (Int × Int)) (k : Nat) (cols : List (List ℂ)) (hl : cols.length = k + L.length)
    (hi : ∀ (i : Nat) (x : Int × Int), L[i]? = some x → idx x = ((k + i : Nat) : Int)) :
    L.foldlM (fun cols x => f x >>= put cols (idx x)) cols = (L.mapM f).map fun r => cols.take k ++ r := by
  induction L generalizing k cols with
  | nil =>
    simp only [List.length_nil, Nat.add_zero] at hl
    simp only [List.foldlM_nil, List.mapM_nil, ← hl, List.take_length]
    show _ = Except.ok (cols ++ [])
    rw [List.append_nil]; rfl
  | cons x L ih =>
    rw [List.foldlM_cons, List.mapM_cons]
    cases hf : f x with
    | error e => rfl
    | ok c =>
      have h0 := hi 0 x rfl
      simp only [Nat.add_zero] at h0
      simp only [List.length_cons] at hl
      have hp : put cols (idx x) c = .ok (cols.set k c) := by
        unfold put
        rw [h0, if_pos ⟨by omega, by omega⟩]
        simp
      rw [ok_bind, hp, ok_bind, ih (k + 1) (cols.set k c) (by simp; omega) fun i y hy => by rw [hi (i + 1) y (by simpa using hy)]; congr 1; omega]
      have ht : (cols.set k c).take (k + 1) = cols.take k ++ [c] := by
        rw [List.take_add_one, List.take_set_of_le (le_refl k), List.getElem?_set_self (by omega)]
        rfl
      rw [ht, ok_bind]
      cases L.mapM f with
      | error e => rfl
      | ok r => show Except.ok ((cols.take k ++ [c]) ++ r) = Except.ok (cols.take k ++ (c :: r)); rw [List.append_assoc]; rfl

theorem columns_eq {ext : Ext} {F : File} {t : List ℝ} {garbage : Nat → List (List ℂ)} (hg : Columns garbage) {a b : Int} (ha : 0 ≤ a) (hab : a ≤ b) :
    (LMRange a b).foldlM (fun cols LM => column ext F t LM >>= put cols (lmIndex LM.1 LM.2 a)) (garbage ((b + 1) ^ 2 - a ^ 2).toNat) = (LMRange a b).mapM (column ext F t) := by
  have hlen := Modes.LM_length a b ha (by omega)
  rw [fill (idx := fun LM => lmIndex LM.1 LM.2 a) (LMRange a b) 0 _ (by rw [hg, ← hlen]; simp) fun i x hx => by
    rw [Nat.zero_add]; exact Modes.index_LM a b ha i x.1 x.2 hx]
  cases (LMRange a b).mapM (column ext F t) with
  | error e => rfl
  | ok r => rfl

/-! ## What is read -/

theorem read_parts {ext : Ext} {garbage : Nat → List (List ℂ)} {F : File} {w : Wave} (h : readFile ext garbage F = .ok w) :
    ∃ t ks e cols, F.times = some t ∧ named ((F.curves.map fun p => p.1) ++ F.others) = .ok ks ∧ degrees ks = .ok e ∧
      (LMRange e.1 e.2).foldlM (fun cols LM => column ext F t LM >>= put cols (lmIndex LM.1 LM.2 e.1)) (garbage ((e.2 + 1) ^ 2 - e.1 ^ 2).toNat) = .ok cols ∧
      w = { t := t, cols := cols, ellMin := e.1, ellMax := e.2, frameType := 1, dataType := 7, history := historyOf F, rScaled := true, mScaled := true } := by
  unfold readFile at h
  obtain ⟨t, ht, h⟩ := bind_ok h
  obtain ⟨ks, hk, h⟩ := bind_ok h
  obtain ⟨e, he, h⟩ := bind_ok h
  obtain ⟨cols, hc, h⟩ := bind_ok h
  cases h
  refine ⟨t, ks, e, cols, ?_, hk, he, hc, rfl⟩
  unfold timesOf at ht
  split at ht
  · cases ht; assumption
  · cases ht

/-- What a successful reading gives: the times of the file; the least and the largest of the degrees it lists; and, for *each* mode of these degrees, both groups are in the file, and the column at the
index of the mode is `A(t) exp(i φ(t))` with the curves through their data.  Nothing is left of the uninitialised array. -/
theorem read_spec (ext : Ext) (garbage : Nat → List (List ℂ)) (hg : Columns garbage) (F : File) (w : Wave) (h : readFile ext garbage F = .ok w) (h0 : 0 ≤ w.ellMin) :
    F.times = some w.t ∧
    (∀ ell m, Lists F ell m → w.ellMin ≤ ell ∧ ell ≤ w.ellMax) ∧ (∃ m, Lists F w.ellMin m) ∧ (∃ m, Lists F w.ellMax m) ∧
    (w.cols.length : Int) = (w.ellMax + 1) ^ 2 - w.ellMin ^ 2 ∧
    (∀ ell m, w.ellMin ≤ ell → ell ≤ w.ellMax → |m| ≤ ell → ∃ A φ, Through ext F (ampName ell m) A ∧ Through ext F (phaseName ell m) φ ∧
      w.cols[(lmIndex ell m w.ellMin).toNat]? = some (w.t.map fun x => (A x : ℂ) * Complex.exp (Complex.I * (φ x : ℂ)))) ∧
    w.frameType = 1 ∧ w.dataType = 7 ∧ w.rScaled = true ∧ w.mScaled = true := by
  obtain ⟨t, ks, e, cols, ht, hk, he, hc, rfl⟩ := read_parts h
  obtain ⟨d1, ⟨p, hp, d2⟩, ⟨q, hq, d3⟩⟩ := degrees_spec he
  have hab : e.1 ≤ e.2 := d2 ▸ (d1 p hp).2
  rw [columns_eq hg h0 hab] at hc
  obtain ⟨g1, g2⟩ := SpecFile.mapM_get hc
  refine ⟨ht, fun ell m hl => ?_, ⟨p.2, ?_⟩, ⟨q.2, ?_⟩, ?_, fun ell m h1 h2 h3 => ?_, rfl, rfl, rfl, rfl⟩
  · exact d1 (ell, m) ((named_mem hk ell m).mpr hl)
  · exact (named_mem hk _ _).mp (d2 ▸ hp)
  · exact (named_mem hk _ _).mp (d3 ▸ hq)
  · rw [g1]; exact Modes.LM_length e.1 e.2 h0 (by omega)
  · have hm := (Modes.mem_LM e.1 e.2 ell m).mpr ⟨h1, h2, h3⟩
    obtain ⟨i1, i2, i3⟩ := Modes.LM_index e.1 e.2 ell m h0 hm
    obtain ⟨col, j1, j2⟩ := g2 _ _ i3
    obtain ⟨A, φ, k1, k2, rfl⟩ := column_ok j1
    exact ⟨A, φ, k1, k2, j2⟩

/-- The absolute value of the data is the one of the amplitude curve. -/
theorem amplitude (A φ : ℝ) : ‖(A : ℂ) * Complex.exp (Complex.I * (φ : ℂ))‖ = |A| := by
  rw [norm_mul, mul_comm Complex.I, Complex.norm_exp_ofReal_mul_I, mul_one, Complex.norm_real, Real.norm_eq_abs]

theorem mapM_all {α β : Type} {f : α → Py β} (l : List α) (h : ∀ x ∈ l, ∃ y, f x = .ok y) : ∃ r, l.mapM f = .ok r := by
  induction l with
  | nil => exact ⟨[], rfl⟩
  | cons x l ih =>
    obtain ⟨y, hy⟩ := h x (by simp)
    obtain ⟨r, hr⟩ := ih fun z hz => h z (by simp [hz])
    exact ⟨y :: r, by rw [List.mapM_cons, hy, ok_bind, hr]; rfl⟩

/-- Reading succeeds exactly if there are times, all names of phases have integers, there is one at least, and both curves can be drawn for each mode between the least and the largest degree. -/
theorem read_succeeds_iff (ext : Ext) (garbage : Nat → List (List ℂ)) (hg : Columns garbage) (F : File) (h0 : ∀ ell m, Lists F ell m → 0 ≤ ell) :
    (∃ w, readFile ext garbage F = .ok w) ↔
      (∃ t, F.times = some t) ∧ (∃ ks, named ((F.curves.map fun p => p.1) ++ F.others) = .ok ks) ∧ (∃ ell m, Lists F ell m) ∧
      ∀ l₁ m₁ l₂ m₂, Lists F l₁ m₁ → Lists F l₂ m₂ → ∀ ell m, l₁ ≤ ell → ell ≤ l₂ → |m| ≤ ell →
        (∃ A, Through ext F (ampName ell m) A) ∧ ∃ φ, Through ext F (phaseName ell m) φ := by
  constructor
  · rintro ⟨w, h⟩
    obtain ⟨t, ks, e, cols, ht, hk, he, hc, e'⟩ := read_parts h
    have hmin : 0 ≤ w.ellMin := by
      obtain ⟨-, ⟨p, hp, d2⟩, -⟩ := degrees_spec he
      rw [e']; show 0 ≤ e.1
      rw [← d2]; exact h0 p.1 p.2 ((named_mem hk _ _).mp hp)
    obtain ⟨s1, s2, ⟨m, s3⟩, -, -, s4, -⟩ := read_spec ext garbage hg F w h hmin
    refine ⟨⟨_, s1⟩, ⟨ks, hk⟩, ⟨_, m, s3⟩, fun l₁ m₁ l₂ m₂ h1 h2 ell m h3 h4 h5 => ?_⟩
    obtain ⟨A, φ, hA, hφ, -⟩ := s4 ell m ((s2 _ _ h1).1.trans h3) (h4.trans (s2 _ _ h2).2) h5
    exact ⟨⟨A, hA⟩, ⟨φ, hφ⟩⟩
  · rintro ⟨⟨t, ht⟩, ⟨ks, hk⟩, ⟨ell, m, hl⟩, hall⟩
    have hne := (named_mem hk ell m).mpr hl
    obtain ⟨e, he⟩ : ∃ e, degrees ks = .ok e := by
      cases ks with
      | nil => cases hne
      | cons p ps => exact ⟨_, rfl⟩
    obtain ⟨d1, ⟨p, hp, d2⟩, ⟨q, hq, d3⟩⟩ := degrees_spec he
    have hp' := (named_mem hk p.1 p.2).mp hp
    have hq' := (named_mem hk q.1 q.2).mp hq
    have hmin : 0 ≤ e.1 := d2 ▸ h0 _ _ hp'
    have hab : e.1 ≤ e.2 := d2 ▸ (d1 p hp).2
    obtain ⟨cols, hc⟩ := mapM_all (f := column ext F t) (LMRange e.1 e.2) fun x hx => by
      obtain ⟨g1, g2, g3⟩ := (Modes.mem_LM e.1 e.2 x.1 x.2).mp hx
      obtain ⟨⟨A, hA⟩, ⟨φ, hφ⟩⟩ := hall _ _ _ _ hp' hq' x.1 x.2 (d2 ▸ g1) (d3 ▸ g2) g3
      exact ⟨_, column_eq t hA hφ⟩
    rw [← columns_eq hg hmin hab] at hc
    have ht' : timesOf F = .ok t := by unfold timesOf; rw [ht]
    refine ⟨{ t := t, cols := cols, ellMin := e.1, ellMax := e.2, frameType := 1, dataType := 7, history := historyOf F, rScaled := true, mScaled := true }, ?_⟩
    unfold readFile
    rw [ht', ok_bind, hk, ok_bind, he, ok_bind, hc]
    rfl

/-- A file that leaves out any mode between its least and its largest degree -- as files do that keep the strong modes only -- is refused. -/
theorem missing_refused (ext : Ext) (garbage : Nat → List (List ℂ)) (hg : Columns garbage) (F : File) (h0 : ∀ ell m, Lists F ell m → 0 ≤ ell)
    (l₁ m₁ l₂ m₂ ell m : Int) (h1 : Lists F l₁ m₁) (h2 : Lists F l₂ m₂) (h3 : l₁ ≤ ell) (h4 : ell ≤ l₂) (h5 : |m| ≤ ell)
    (hm : F.curves.lookup (ampName ell m) = none ∨ F.curves.lookup (phaseName ell m) = none) (w : Wave) : readFile ext garbage F ≠ .ok w := by
  intro h
  obtain ⟨-, -, -, hall⟩ := (read_succeeds_iff ext garbage hg F h0).mp ⟨w, h⟩
  obtain ⟨⟨A, c, hA, -⟩, ⟨φ, d, hφ, -⟩⟩ := hall _ _ _ _ h1 h2 ell m h3 h4 h5
  rcases hm with hm | hm
  · rw [hm] at hA; cases hA
  · rw [hm] at hφ; cases hφ

/-- The uninitialised array has no influence. -/
theorem garbage_irrelevant (ext : Ext) (g g' : Nat → List (List ℂ)) (hg : Columns g) (hg' : Columns g') (F : File) (h0 : ∀ ell m, Lists F ell m → 0 ≤ ell) :
    readFile ext g F = readFile ext g' F := by
  unfold readFile
  cases timesOf F with
  | error e => rfl
  | ok t =>
    rw [ok_bind, ok_bind]
    cases hk : named ((F.curves.map fun p => p.1) ++ F.others) with
    | error e => rfl
    | ok ks =>
      rw [ok_bind, ok_bind]
      cases he : degrees ks with
      | error e => rfl
      | ok e =>
        obtain ⟨d1, ⟨p, hp, d2⟩, -⟩ := degrees_spec he
        have hmin : 0 ≤ e.1 := d2 ▸ h0 _ _ ((named_mem hk p.1 p.2).mp hp)
        have hab : e.1 ≤ e.2 := d2 ▸ (d1 p hp).2
        rw [ok_bind, ok_bind, columns_eq hg hmin hab, columns_eq hg' hmin hab]

/-- A file made from a waveform by storing, at the times themselves, the absolute value of each mode and any continuation of its phase, gives the waveform back exactly. -/
theorem polar_round_trip (ext : Ext) (hs : Interpolates ext) (garbage : Nat → List (List ℂ)) (hg : Columns garbage) (F : File) (w : Wave) (h : readFile ext garbage F = .ok w) (h0 : 0 ≤ w.ellMin)
    (H : Int → Int → ℝ → ℂ) (turns : Int → Int → ℝ → Int) (dA dφ : Int)
    (hA : ∀ ell m, w.ellMin ≤ ell → ell ≤ w.ellMax → |m| ≤ ell → F.curves.lookup (ampName ell m) = some ⟨w.t, w.t.map fun x => ‖H ell m x‖, dA⟩)
    (hφ : ∀ ell m, w.ellMin ≤ ell → ell ≤ w.ellMax → |m| ≤ ell →
      F.curves.lookup (phaseName ell m) = some ⟨w.t, w.t.map fun x => (H ell m x).arg + turns ell m x * (2 * Real.pi), dφ⟩)
    (ell m : Int) (h1 : w.ellMin ≤ ell) (h2 : ell ≤ w.ellMax) (h3 : |m| ≤ ell) : w.cols[(lmIndex ell m w.ellMin).toNat]? = some (w.t.map (H ell m)) := by
  obtain ⟨-, -, -, -, -, s, -⟩ := read_spec ext garbage hg F w h h0
  obtain ⟨A, φ, ⟨c, c1, c2⟩, ⟨d, d1, d2⟩, e⟩ := s ell m h1 h2 h3
  rw [hA ell m h1 h2 h3] at c1
  rw [hφ ell m h1 h2 h3] at d1
  cases c1; cases d1
  rw [e]
  congr 1
  apply List.map_congr_left
  intro x hx
  obtain ⟨i, hi⟩ := List.getElem?_of_mem hx
  have a1 := hs _ _ c2 i x _ hi (by simp only [List.getElem?_map, hi]; rfl)
  have a2 := hs _ _ d2 i x _ hi (by simp only [List.getElem?_map, hi]; rfl)
  rw [a1, a2]
  have : Complex.I * (((H ell m x).arg + turns ell m x * (2 * Real.pi) : ℝ) : ℂ) = ((H ell m x).arg : ℂ) * Complex.I + (turns ell m x : ℂ) * (2 * Real.pi * Complex.I) := by
    push_cast; ring
  rw [this, Complex.exp_add, Complex.exp_int_mul_two_pi_mul_I, mul_one, Complex.norm_mul_exp_arg_mul_I]

/-! ## The history -/

theorem lines_ne (s : Str) : lines s ≠ [] := by
  cases s with
  | nil => simp [lines]
  | cons c s => rw [lines]; split_ifs; · simp
                split <;> simp

theorem lines_comment (s : Str) : lines (comment s) = match lines s with
    | [] => []
    | l :: ls => l :: ls.map fun x => '#' :: '#' :: '#' :: ' ' :: x := by
  induction s with
  | nil => rfl
  | cons c s ih =>
    by_cases hc : c = '\n'
    · subst hc
      cases hl : lines s with
      | nil => exact absurd hl (lines_ne s)
      | cons l ls =>
        rw [hl] at ih
        simp only at ih
        simp [comment, lines, ih, hl]
    · cases hl : lines s with
      | nil => exact absurd hl (lines_ne s)
      | cons l ls =>
        rw [hl] at ih
        simp only at ih
        simp [comment, lines, hc, ih, hl]

/-- The lines of a text joined by line ends are the text. -/
theorem join_lines (s : Str) : List.intercalate ['\n'] (lines s) = s ∧ ∀ l ∈ lines s, '\n' ∉ l := by
  induction s with
  | nil => simp [lines, List.intercalate]
  | cons c s ih =>
    rw [lines]
    cases hl : lines s with
    | nil => exact absurd hl (lines_ne s)
    | cons l ls =>
      rw [hl] at ih
      split_ifs with hc
      · subst hc
        refine ⟨?_, ?_⟩
        · rw [← ih.1]; simp [List.intercalate]
        · intro x hx
          rcases List.mem_cons.mp hx with rfl | hx
          · simp
          · exact ih.2 x hx
      · refine ⟨?_, ?_⟩
        · rw [← ih.1]; cases ls <;> simp [List.intercalate]
        · intro x hx
          rcases List.mem_cons.mp hx with rfl | hx
          · simp only [List.mem_cons, not_or]; exact ⟨fun e => hc e.symm, ih.2 l (by simp)⟩
          · exact ih.2 x (by simp [hx])

/-- The history of the file becomes comments, line by line, and nothing of it is lost. -/
theorem history_kept (ext : Ext) (garbage : Nat → List (List ℂ)) (F : File) (w : Wave) (h : readFile ext garbage F = .ok w) :
    (F.history = none → w.history = [[]]) ∧
    ∀ s, F.history = some s → ∃ ls, w.history = ls.map (fun l => ['#', '#', '#', ' '] ++ l) ∧ List.intercalate ['\n'] ls = s ∧ ∀ l ∈ ls, '\n' ∉ l := by
  obtain ⟨t, ks, e, cols, -, -, -, -, rfl⟩ := read_parts h
  refine ⟨fun hn => by simp [historyOf, hn], fun s hs => ⟨lines s, ?_, (join_lines s).1, (join_lines s).2⟩⟩
  have hc := lines_comment s
  cases hl : lines s with
  | nil => exact absurd hl (lines_ne s)
  | cons l ls =>
    rw [hl] at hc
    simp only at hc
    simp [historyOf, hs, lines, hc]

/-! ## Example -/

open Classical in
/-- A function through the data of a curve with distinct abscissas. -/
noncomputable def through : Ext := ⟨fun c => if c.x.Nodup then .ok fun x => ((c.x.zip c.y).lookup x).getD 0 else .error .valueError⟩

theorem lookup_zip (x y : List ℝ) (hx : x.Nodup) (i : Nat) (a b : ℝ) (ha : x[i]? = some a) (hb : y[i]? = some b) : (x.zip y).lookup a = some b := by
  induction x generalizing y i with
  | nil => simp at ha
  | cons x0 x ih =>
    cases y with
    | nil => simp at hb
    | cons y0 y =>
      rw [List.zip_cons_cons, List.lookup_cons]
      cases i with
      | zero =>
        simp only [List.getElem?_cons_zero, Option.some.injEq] at ha hb
        subst ha; subst hb; simp
      | succ i =>
        simp only [List.getElem?_cons_succ] at ha hb
        have hne : a ≠ x0 := fun e => (List.nodup_cons.mp hx).1 (e ▸ List.mem_of_getElem? ha)
        rw [ih y (List.nodup_cons.mp hx).2 i ha hb]
        simp [beq_eq_false_iff_ne.mpr hne]

theorem through_interpolates : Interpolates through := by
  intro c f h i x y hx hy
  simp only [through] at h
  split_ifs at h with hn
  cases h
  simp only [lookup_zip c.x c.y hn i x y hx hy, Option.getD_some]

/-- A file with the mode `(0, 0)`. -/
noncomputable def sample : File where
  times := some [0, 1]
  curves := [(ampName 0 0, ⟨[0, 1], [2, 3], 5⟩), (phaseName 0 0, ⟨[0, 1], [0, Real.pi], 5⟩)]
  others := [['N', 'R', 't', 'i', 'm', 'e', 's']]
  history := some ['a', '\n', 'b']

theorem amp_not_phase (ell m : Int) : phaseMatch (ampName ell m) = none := rfl

theorem sample_named : named ((sample.curves.map fun p => p.1) ++ sample.others) = .ok [(0, 0)] := by
  show named [ampName 0 0, phaseName 0 0, ['N', 'R', 't', 'i', 'm', 'e', 's']] = _
  rw [named, amp_not_phase]
  simp only
  rw [named, phaseMatch_phaseName]
  simp only [SpecFile.pyInt_str, ok_bind]
  rfl

theorem amp_ne_phase (a b c d : Int) : ampName a b ≠ phaseName c d := by simp [ampName, phaseName]

theorem sample_curves : Through through sample (ampName 0 0) (fun x => (([0, 1].zip [2, 3] : List (ℝ × ℝ)).lookup x).getD 0) ∧
    Through through sample (phaseName 0 0) (fun x => (([0, 1].zip [0, Real.pi] : List (ℝ × ℝ)).lookup x).getD 0) := by
  refine ⟨⟨⟨[0, 1], [2, 3], 5⟩, by simp [sample], by simp [through]⟩, ⟨⟨[0, 1], [0, Real.pi], 5⟩, ?_, by simp [through]⟩⟩
  simp only [sample, List.lookup_cons]
  rw [beq_eq_false_iff_ne.mpr (amp_ne_phase 0 0 0 0).symm]
  simp

/-- The example is read, and its values are `2` and `-3`. -/
theorem sample_read (garbage : Nat → List (List ℂ)) (hg : Columns garbage) : ∃ w, readFile through garbage sample = .ok w ∧ w.ellMin = 0 ∧ w.ellMax = 0 ∧ w.cols = [[2, -3]] ∧
    w.history = [['#', '#', '#', ' ', 'a'], ['#', '#', '#', ' ', 'b']] := by
  have hl : ∀ ell m, Lists sample ell m ↔ (ell, m) = (0, 0) := fun ell m => by
    rw [← List.mem_singleton, named_mem sample_named]; rfl
  obtain ⟨w, hw⟩ := (read_succeeds_iff through garbage hg sample fun ell m h => by have := (hl ell m).mp h; cases this; exact le_refl 0).mpr
    ⟨⟨_, rfl⟩, ⟨_, sample_named⟩, ⟨0, 0, (hl 0 0).mpr rfl⟩, fun l₁ m₁ l₂ m₂ h1 h2 ell m h3 h4 h5 => by
      have e1 := (hl _ _).mp h1
      have e2 := (hl _ _).mp h2
      cases e1; cases e2
      obtain rfl : ell = 0 := by omega
      obtain rfl : m = 0 := by simpa using h5
      exact ⟨⟨_, sample_curves.1⟩, ⟨_, sample_curves.2⟩⟩⟩
  obtain ⟨t, ks, e, cols, ht, hk, he, hc, hw'⟩ := read_parts hw
  rw [sample_named] at hk
  cases hk
  cases he
  cases ht
  refine ⟨w, hw, by rw [hw']; rfl, by rw [hw']; rfl, ?_, by rw [hw']; rfl⟩
  have hcols : LMRange 0 0 = [(0, 0)] := by decide
  rw [columns_eq hg (by decide) (by decide)] at hc
  change (LMRange 0 0).mapM _ = _ at hc
  rw [hcols, List.mapM_cons, column_eq _ sample_curves.1 sample_curves.2] at hc
  cases hc
  rw [hw']
  have h01 : ((1 : ℝ) == 0) = false := by simp
  simp [List.lookup_cons, h01, mul_comm Complex.I, Complex.exp_pi_mul_I]

/-- A file with the mode `(1, 0)` only: refused, since the modes `(1, -1)` and `(1, 1)` are not in it. -/
noncomputable def sparse : File where
  times := some [0, 1]
  curves := [(ampName 1 0, ⟨[0, 1], [2, 3], 5⟩), (phaseName 1 0, ⟨[0, 1], [0, 1], 5⟩)]
  others := []
  history := none

theorem sparse_refused (ext : Ext) (garbage : Nat → List (List ℂ)) (hg : Columns garbage) (w : Wave) : readFile ext garbage sparse ≠ .ok w := by
  have hn : named ((sparse.curves.map fun p => p.1) ++ sparse.others) = .ok [(1, 0)] := by
    show named [ampName 1 0, phaseName 1 0] = _
    rw [named, amp_not_phase]
    simp only
    rw [named, phaseMatch_phaseName]
    simp only [SpecFile.pyInt_str, ok_bind]
    rfl
  have hl : ∀ ell m, Lists sparse ell m ↔ (ell, m) = (1, 0) := fun ell m => by
    rw [← List.mem_singleton, named_mem hn]; rfl
  refine missing_refused ext garbage hg sparse (fun ell m h => by have := (hl ell m).mp h; cases this; decide) 1 0 1 0 1 1 ((hl 1 0).mpr rfl) ((hl 1 0).mpr rfl) (by decide) (by decide)
    (by decide) (Or.inr ?_) w
  have h1 : phaseName 1 1 ≠ phaseName 1 0 := by
    intro h
    have := congrArg phaseMatch h
    rw [phaseMatch_phaseName, phaseMatch_phaseName] at this
    simp only [Option.some.injEq, Prod.mk.injEq] at this
    have := congrArg SpecFile.pyInt this.2
    rw [SpecFile.pyInt_str, SpecFile.pyInt_str] at this
    cases this
  simp only [sparse, List.lookup_cons]
  rw [beq_eq_false_iff_ne.mpr (amp_ne_phase 1 0 1 1).symm, beq_eq_false_iff_ne.mpr h1]
  rfl

end Verif.Props.Lvc
