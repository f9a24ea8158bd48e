import Verif.Model.ComCorrection
import Verif.Lemmas.SpecFile
import Verif.Props.SpecFile
import Verif.Model.ComMotion

/-!
# C87: which files `remove_avg_com_motion` reads and writes
-/

namespace Verif.Props.ComCorrection
open Verif Verif.DataTypes Verif.ComCorrection

/-! ## Specification -/

/-- In `s` the string `q` is found only behind `a`. -/
def Once (q a s : Str) : Prop := ∀ x y, s = x ++ q ++ y → x = a

/-- In `s`, the string `q`, in upper or lower case, is found only behind `a`. -/
def OnceCI (q a s : Str) : Prop := ∀ x q' y, s = x ++ q' ++ y → lower q' = lower q → x = a

/-- The beginning of the names of the files of the Weyl scalar number `k`. -/
def psiPrefix : Nat → Str
  | 4 => ['r','M','P','s','i','4']
  | 3 => ['r','2','P','s','i','3']
  | 2 => ['r','3','P','s','i','2','O','v','e','r','M']
  | 1 => ['r','4','P','s','i','1','O','v','e','r','M','2']
  | _ => ['r','5','P','s','i','0','O','v','e','r','M','3']

/-! ## Strings -/

theorem prefix_iff (q s : Str) : q.isPrefixOf s = true ↔ ∃ y, s = q ++ y := by
  rw [List.isPrefixOf_iff_prefix]
  exact ⟨fun ⟨y, h⟩ => ⟨y, h.symm⟩, fun ⟨y, h⟩ => ⟨y, h.symm⟩⟩

theorem replaceFuel_none (q p : Str) (n : Nat) (s : Str) (h : ∀ x y, s ≠ x ++ q ++ y) : replaceFuel q p n s = s := by
  induction n generalizing s with
  | zero => rfl
  | succ n ih =>
    cases s with
    | nil => rfl
    | cons c s =>
      rw [replaceFuel, if_neg (by rw [prefix_iff]; rintro ⟨y, e⟩; exact h [] y e), ih s fun x y e => h (c :: x) y (by rw [e]; rfl)]

/-- A string that is found once is replaced there. -/
theorem replaceFuel_once (q p : Str) (hq : q ≠ []) (n : Nat) (a b : Str) (hn : (a ++ q ++ b).length ≤ n) (h : Once q a (a ++ q ++ b)) : replaceFuel q p n (a ++ q ++ b) = a ++ p ++ b := by
  induction n generalizing a with
  | zero =>
    rw [Nat.le_zero, List.length_eq_zero_iff] at hn
    simp only [List.append_eq_nil_iff] at hn
    exact absurd hn.1.2 hq
  | succ n ih =>
    cases a with
    | nil =>
      obtain ⟨c, q', rfl⟩ := List.exists_cons_of_ne_nil hq
      show replaceFuel (c :: q') p (n + 1) (c :: (q' ++ b)) = p ++ b
      rw [replaceFuel, if_pos (show (c :: q').isPrefixOf (c :: (q' ++ b)) = true from (prefix_iff _ _).mpr ⟨b, rfl⟩)]
      have : (c :: (q' ++ b)).drop (c :: q').length = b := by
        rw [← List.cons_append, List.drop_left]
      rw [this, replaceFuel_none]
      intro x y e
      have := h ((c :: q') ++ x) y (by rw [e]; simp)
      simp at this
    | cons c a =>
      show replaceFuel q p (n + 1) (c :: (a ++ q ++ b)) = c :: (a ++ p ++ b)
      rw [replaceFuel, if_neg, ih a (by simp at hn ⊢; omega) fun x y e => by
        have := h (c :: x) y (congrArg (List.cons c) e)
        injection this]
      rw [prefix_iff]
      rintro ⟨y, e⟩
      have := h [] y e
      cases this

theorem searchAny_once (alts : List Str) (q : Str) (hq : q ≠ []) (hm : q ∈ alts) (a b : Str) (h : ∀ q' ∈ alts, ∀ x y, a ++ q ++ b = x ++ q' ++ y → x = a ∧ q' = q) :
    searchAny alts (a ++ q ++ b) = some q := by
  induction a with
  | nil =>
    obtain ⟨c, q1, rfl⟩ := List.exists_cons_of_ne_nil hq
    show searchAny alts (c :: (q1 ++ b)) = _
    rw [searchAny]
    cases hf : alts.find? fun a => a.isPrefixOf (c :: (q1 ++ b)) with
    | none =>
      rw [List.find?_eq_none] at hf
      exact absurd ((prefix_iff _ _).mpr ⟨b, rfl⟩) (hf _ hm)
    | some q' =>
      have h1 := List.find?_some hf
      have h2 := List.mem_of_find?_eq_some hf
      obtain ⟨y, e⟩ := (prefix_iff _ _).mp h1
      rw [(h q' h2 [] y e).2]
  | cons c a ih =>
    show searchAny alts (c :: (a ++ q ++ b)) = _
    rw [searchAny]
    cases hf : alts.find? fun a' => a'.isPrefixOf (c :: (a ++ q ++ b)) with
    | none =>
      refine ih fun q' hq' x y e => ?_
      have := h q' hq' (c :: x) y (congrArg (List.cons c) e)
      exact ⟨by injection this.1, this.2⟩
    | some q' =>
      have h1 := List.find?_some hf
      have h2 := List.mem_of_find?_eq_some hf
      obtain ⟨y, e⟩ := (prefix_iff _ _).mp h1
      have := (h q' h2 [] y e).1
      cases this

theorem replaceFirst_once (q p : Str) (hq : q ≠ []) (a b : Str) (h : Once q a (a ++ q ++ b)) : replaceFirst q p (a ++ q ++ b) = a ++ p ++ b := by
  induction a with
  | nil =>
    obtain ⟨c, q', rfl⟩ := List.exists_cons_of_ne_nil hq
    show replaceFirst (c :: q') p (c :: (q' ++ b)) = p ++ b
    rw [replaceFirst, if_pos (show (c :: q').isPrefixOf (c :: (q' ++ b)) = true from (prefix_iff _ _).mpr ⟨b, rfl⟩), ← List.cons_append, List.drop_left]
  | cons c a ih =>
    show replaceFirst q p (c :: (a ++ q ++ b)) = c :: (a ++ p ++ b)
    rw [replaceFirst, if_neg, ih fun x y e => by
      have := h (c :: x) y (congrArg (List.cons c) e)
      injection this]
    rw [prefix_iff]
    rintro ⟨y, e⟩
    have := h [] y e
    cases this

theorem replaceFirst_length (q p s : Str) (hq : q ≠ []) (h : q <:+: s) : (replaceFirst q p s).length + q.length = s.length + p.length := by
  induction s with
  | nil => exact absurd (List.eq_nil_of_infix_nil h) hq
  | cons c s ih =>
    rw [replaceFirst]
    by_cases hp : q.isPrefixOf (c :: s) = true
    · rw [if_pos hp]
      have := (List.isPrefixOf_iff_prefix.mp hp).length_le
      simp only [List.length_append, List.length_drop]
      omega
    · rw [if_neg hp]
      have h' : q <:+: s := by
        rcases List.infix_cons_iff.mp h with h | h
        · exact absurd (List.isPrefixOf_iff_prefix.mpr h) hp
        · exact h
      have := ih h'
      simp only [List.length_cons]
      omega

theorem lower_prefix (q s : Str) : (lower q).isPrefixOf (lower s) = true ↔ ∃ q' y, s = q' ++ y ∧ lower q' = lower q := by
  rw [prefix_iff]
  constructor
  · rintro ⟨y, e⟩
    refine ⟨s.take q.length, s.drop q.length, (List.take_append_drop _ _).symm, ?_⟩
    unfold lower at *
    rw [List.map_take, e]
    have : q.length = (q.map Char.toLower).length := by simp
    rw [this, List.take_left]
  · rintro ⟨q', y, rfl, e⟩
    refine ⟨lower y, ?_⟩
    rw [← e]; unfold lower; rw [List.map_append]

theorem lower_length (s : Str) : (lower s).length = s.length := by unfold lower; simp

theorem removeFuel_none (q : Str) (n : Nat) (s : Str) (h : ∀ x q' y, s = x ++ q' ++ y → lower q' ≠ lower q) : removeFuel q n s = s := by
  induction n generalizing s with
  | zero => rfl
  | succ n ih =>
    cases s with
    | nil => rfl
    | cons c s =>
      rw [removeFuel, if_neg (by rw [lower_prefix]; rintro ⟨q', y, e, e'⟩; exact h [] q' y e e'), ih s fun x q' y e => h (c :: x) q' y (by rw [e]; rfl)]

theorem removeFuel_once (q : Str) (hq : q ≠ []) (n : Nat) (a b : Str) (hn : (a ++ q ++ b).length ≤ n) (h : OnceCI q a (a ++ q ++ b)) : removeFuel q n (a ++ q ++ b) = a ++ b := by
  induction n generalizing a with
  | zero =>
    rw [Nat.le_zero, List.length_eq_zero_iff] at hn
    simp only [List.append_eq_nil_iff] at hn
    exact absurd hn.1.2 hq
  | succ n ih =>
    cases a with
    | nil =>
      obtain ⟨c, q1, rfl⟩ := List.exists_cons_of_ne_nil hq
      show removeFuel (c :: q1) (n + 1) (c :: (q1 ++ b)) = b
      rw [removeFuel, if_pos (show (lower (c :: q1)).isPrefixOf (lower (c :: (q1 ++ b))) = true from (lower_prefix _ _).mpr ⟨c :: q1, b, rfl, rfl⟩), ← List.cons_append, List.drop_left, removeFuel_none]
      intro x q' y e e'
      have := h ((c :: q1) ++ x) q' y (by rw [e]; simp) e'
      simp at this
    | cons c a =>
      show removeFuel q (n + 1) (c :: (a ++ q ++ b)) = c :: (a ++ b)
      rw [removeFuel, if_neg, ih a (by simp at hn ⊢; omega) fun x q' y e e' => by
        have := h (c :: x) q' y (congrArg (List.cons c) e) e'
        injection this]
      rw [lower_prefix]
      rintro ⟨q', y, e, e'⟩
      have := h [] q' y e e'
      cases this

theorem removeFuel_length (q : Str) (n : Nat) (s : Str) : ∃ k, (removeFuel q n s).length + k * q.length = s.length := by
  induction n generalizing s with
  | zero => exact ⟨0, by simp [removeFuel]⟩
  | succ n ih =>
    cases s with
    | nil => exact ⟨0, by simp [removeFuel]⟩
    | cons c s =>
      rw [removeFuel]
      by_cases hp : (lower q).isPrefixOf (lower (c :: s)) = true
      · rw [if_pos hp]
        obtain ⟨k, hk⟩ := ih ((c :: s).drop q.length)
        have := (List.isPrefixOf_iff_prefix.mp hp).length_le
        rw [lower_length, lower_length] at this
        refine ⟨k + 1, ?_⟩
        rw [List.length_drop] at hk
        rw [Nat.add_mul]
        omega
      · rw [if_neg hp]
        obtain ⟨k, hk⟩ := ih s
        exact ⟨k, by simp only [List.length_cons]; omega⟩

/-! ## The auxiliary waveforms -/

theorem auxPath_eq (a q b : Str) (hm : q ∈ alternatives) (h : ∀ q' ∈ alternatives, ∀ x y, a ++ q ++ b = x ++ q' ++ y → x = a ∧ q' = q) (i : Nat) (hi : i < 4) :
    auxPath (a ++ q ++ b) i = .ok (a ++ psiPrefix (4 - i) ++ b) := by
  have hq : q ≠ [] := by
    have : ∀ q ∈ alternatives, q ≠ [] := by decide
    exact this q hm
  unfold auxPath
  rw [searchAny_once alternatives q hq hm a b h]
  have e : Verif.pyGet filePrefix (i : Int) = .ok (psiPrefix (4 - i)) := by
    have : ∀ i : Fin 4, Verif.pyGet filePrefix ((i.1 : Nat) : Int) = .ok (psiPrefix (4 - i.1)) := by decide
    exact this ⟨i, hi⟩
  simp only [e, ok_bind]
  unfold replaceAll
  rw [replaceFuel_once q _ hq _ a b le_rfl fun x y hxy => (h q hm x y hxy).1]
  rfl

theorem mapM_ok {α β : Type} (l : List α) (f : α → Py β) (g : α → β) (h : ∀ x ∈ l, f x = .ok (g x)) : l.mapM f = .ok (l.map g) := by
  induction l with
  | nil => rfl
  | cons x l ih =>
    rw [List.mapM_cons, h x (List.mem_cons_self ..), ok_bind, ih fun y hy => h y (List.mem_cons_of_mem _ hy), ok_bind]
    rfl

/-- C87.  For the data of a Weyl scalar psi0 to psi3 (data types 1 to 4), the files of exactly the higher Weyl scalars are read: each file is the file of the data with the beginning of its name
replaced.  The part of a name that is recognised must occur once in the path. -/
theorem aux_files (dir q rest : Str) (hm : q ∈ alternatives) (h : ∀ q' ∈ alternatives, ∀ x y, dir ++ q ++ rest = x ++ q' ++ y → x = dir ∧ q' = q) (d : Int) (h1 : 1 ≤ d) (h4 : d ≤ 4) :
    ∃ l, auxFiles (dir ++ q ++ rest) d = .ok l ∧ ∀ k f, (k, f) ∈ l ↔ d ≤ (k : Int) ∧ k ≤ 4 ∧ f = dir ++ psiPrefix k ++ rest := by
  refine ⟨(List.range (5 - d).toNat).map fun i => (4 - i, dir ++ psiPrefix (4 - i) ++ rest), ?_, ?_⟩
  · unfold auxFiles
    rw [if_neg (by omega)]
    refine mapM_ok _ _ _ fun i hi => ?_
    rw [List.mem_range] at hi
    rw [auxPath_eq dir q rest hm h i (by omega), ok_bind]
    rfl
  · intro k f
    rw [List.mem_map]
    constructor
    · rintro ⟨i, hi, e⟩
      rw [List.mem_range] at hi
      injection e with e1 e2
      subst e1
      exact ⟨by omega, by omega, e2.symm⟩
    · rintro ⟨a, b, rfl⟩
      refine ⟨4 - k, by rw [List.mem_range]; omega, ?_⟩
      rw [show 4 - (4 - k) = k by omega]

/-- C87.  For other types (psi4, shear, strain, its derivative, news) no other file is read. -/
theorem no_aux_files (path : Str) (d : Int) (h : 5 ≤ d) : auxFiles path d = .ok [] := by
  unfold auxFiles
  by_cases c : d = 7 ∨ d = 8 ∨ d = 5
  · rw [if_pos c]
  · rw [if_neg c, show (5 - d).toNat = 0 by omega]
    rfl

/-- C87, false of the code: a recognised part of a name that occurs in a directory, too, is replaced there as well, so that the file is looked for in another directory. -/
theorem wrong_directory : auxPath ['r','2','P','s','i','3','_','r','u','n','/','r','2','P','s','i','3','_','A','.','h','5'] 0 = .ok ['r','M','P','s','i','4','_','r','u','n','/','r','M','P','s','i','4','_','A','.','h','5'] := by
  decide

/-! ## The files that are written -/

theorem h5_once (a b : Str) (ha : ¬ ['.','h','5'] <:+: a) (hb : ¬ ['.','h','5'] <:+: b) : Once ['.','h','5'] a (a ++ ['.','h','5'] ++ b) := by
  induction a with
  | nil =>
    intro x y e
    match x, e with
    | [], _ => rfl
    | [c], e => simp at e
    | [c, d], e => simp at e
    | c :: d :: f :: x, e =>
      simp at e
      exact absurd ⟨x, y, by rw [e.2.2.2]; simp⟩ hb
  | cons c a ih =>
    intro x y e
    have ih' := ih fun h => ha (List.infix_cons_iff.mpr (Or.inr h))
    cases x with
    | nil =>
      exfalso
      match a, e, ha with
      | [], e, _ => simp at e
      | [d], e, _ => simp at e
      | d :: f :: a, e, ha =>
        simp at e
        obtain ⟨e1, e2, e3, -⟩ := e
        subst e1 e2 e3
        exact ha ⟨[], a, by simp⟩
    | cons c' x =>
      simp only [List.cons_append] at e
      injection e with e1 e2
      rw [e1, ih' x y (by simpa using e2)]

/-- C87.  The file of the corrected data in the format NRAR is the file of the data, with `_CoM` before its ending: the name passed to the writer has no description, and the writer (C74) puts it there.
The description must occur once in the path, and the directory and the name must have no other `.h5`. -/
theorem nrar_file (dir D name group : Str) (hd : dir = [] ∨ ∃ d, dir = d ++ ['/']) (hn : '/' ∉ name) (h5 : ¬ ['.','h','5'] <:+: dir ++ (D ++ ['_']) ++ name) (hg : ¬ ['.','h','5'] <:+: group)
    (ho : OnceCI (D ++ ['_']) dir (dir ++ (D ++ ['_']) ++ (name ++ ['_','C','o','M','.','h','5'] ++ group))) :
    nrarName D (dir ++ (D ++ ['_']) ++ name ++ ['.','h','5'] ++ group) = dir ++ name ++ ['_','C','o','M','.','h','5'] ++ group ∧
      SpecFile.decorate D (dir ++ name ++ ['_','C','o','M','.','h','5']) = dir ++ D ++ ['_'] ++ name ++ ['_','C','o','M','.','h','5'] := by
  constructor
  · unfold nrarName removeCI
    rw [replaceFirst_once _ _ (by decide) _ _ (h5_once _ _ h5 hg), show dir ++ (D ++ ['_']) ++ name ++ ['_','C','o','M','.','h','5'] ++ group = dir ++ (D ++ ['_']) ++ (name ++ ['_','C','o','M','.','h','5'] ++ group) by
      simp, removeFuel_once _ (by simp) _ _ _ le_rfl ho]
    simp
  · have hb : basename dir = [] := by
      rcases hd with rfl | ⟨d, rfl⟩
      · rfl
      · unfold basename; simp
    have hb' : basename (dir ++ (name ++ ['_','C','o','M','.','h','5'])) = name ++ ['_','C','o','M','.','h','5'] := by
      rw [SpecFile.basename_append _ _ (by simp [hn]), hb]; rfl
    unfold SpecFile.decorate SpecFile.dirSlash
    rw [List.append_assoc dir name, hb', List.length_append, Nat.add_sub_cancel, List.take_left]
    simp

/-- C87.  The file of the corrected data in the other format. -/
theorem rpxmb_file (a group : Str) (h5 : ¬ ['.','h','5'] <:+: a) (hg : ¬ ['.','h','5'] <:+: group) : rpxmbName (a ++ ['.','h','5'] ++ group) = a ++ ['_','C','o','M','.','h','5'] ++ group :=
  replaceFirst_once _ _ (by decide) _ _ (h5_once _ _ h5 hg)

theorem basename_length (s : Str) : (basename s).length ≤ s.length := by
  unfold basename
  rw [List.length_reverse]
  exact (List.takeWhile_sublist _).length_le.trans (by simp)

theorem decorate_length (D f : Str) : (SpecFile.decorate D f).length = f.length + D.length + 1 := by
  unfold SpecFile.decorate SpecFile.dirSlash
  have := basename_length f
  simp only [List.length_append, List.length_take, List.length_cons, List.length_nil]
  omega

theorem writeTarget_length {name file : Str} {g : Option Str} (h : SpecFile.writeTarget name = .ok (file, g)) : file.length + (g.getD []).length = name.length := by
  unfold SpecFile.writeTarget at h
  split at h
  · split at h
    · rename_i a b e
      have := (SpecFile.split_two e).1
      cases h
      rw [this]; simp; omega
    · cases h
  · cases h; simp

/-- C87.  Whatever the path: the data are not overwritten by the corrected data.  (The descriptions of all types have such a length, except `h` without factors.) -/
theorem nrar_not_overwritten (D path file : Str) (g : Option Str) (h5 : ['.','h','5'] <:+: path) (hD : ¬ (D.length + 1) ∣ 4) (h : SpecFile.writeTarget (nrarName D path) = .ok (file, g)) :
    SpecFile.decorate D file ++ g.getD [] ≠ path := by
  intro e
  have e1 := congrArg List.length e
  rw [List.length_append, decorate_length] at e1
  have e2 := writeTarget_length h
  obtain ⟨k, e3⟩ := removeFuel_length (D ++ ['_']) (replaceFirst ['.','h','5'] ['_','C','o','M','.','h','5'] path).length (replaceFirst ['.','h','5'] ['_','C','o','M','.','h','5'] path)
  have e4 := replaceFirst_length ['.','h','5'] ['_','C','o','M','.','h','5'] path (by decide) h5
  change (nrarName D path).length + _ = _ at e3
  simp only [List.length_append, List.length_cons, List.length_nil] at e3 e4
  refine hD ⟨k - 1, ?_⟩
  have : k ≠ 0 := by
    rintro rfl
    clear hD
    omega
  obtain ⟨j, rfl⟩ := Nat.exists_eq_succ_of_ne_zero this
  rw [Nat.succ_eq_add_one, Nat.add_mul] at e3
  rw [Nat.succ_eq_add_one, Nat.add_sub_cancel, Nat.mul_comm]
  have e5 : (List.length D + (0 + 1)) = List.length D + 1 := by omega
  simp only [e5, Nat.zero_add, Nat.one_mul] at e3
  clear hD
  omega

theorem rpxmb_not_overwritten (path : Str) (h5 : ['.','h','5'] <:+: path) : rpxmbName path ≠ path := by
  intro e
  have e4 := replaceFirst_length ['.','h','5'] ['_','C','o','M','.','h','5'] path (by decide) h5
  have e1 := congrArg List.length e
  unfold rpxmbName at e1
  simp only [List.length_cons, List.length_nil] at e4
  omega

/-! ## The masses, the result and what is written -/

/-- C87.  If Matter.h5 is found next to the data, masses that are not given are those of the metadata. -/
theorem masses_found {B : Type} (ext : Ext B) (hm : ext.matterExists = true) (x y : ℝ) (hx : ext.metadata = some (x, y)) (mA mB : Option ℝ) :
    masses ext false mA mB = .ok (true, some (mA.getD x), some (mB.getD y)) := by
  unfold masses
  rw [if_neg (by decide), if_pos hm, hx]
  cases mA <;> cases mB <;> rfl

/-- C87, false of the code: if the path of that file is given, the metadata are not used, contrary to the documentation, and the masses have to be given: without them the center of mass of neutron
stars cannot be computed. -/
theorem masses_not_read {B : Type} (ext : Ext B) (mA mB : Option ℝ) :
    masses ext true mA mB = .ok (true, mA, mB) ∧ ∀ (h : ComMotion.Horizons) (b : List ℝ × List ComMotion.Vec) (mA : Option ℝ), ∃ e, ComMotion.comMotion h (some ⟨some b, none⟩) mA none = .error e := by
  refine ⟨rfl, fun h b mA => ?_⟩
  show ∃ e, ComMotion.bhns h b mA none = .error e
  unfold ComMotion.bhns
  simp only
  split
  · exact ⟨_, rfl⟩
  · split <;> exact ⟨_, rfl⟩

/-- C87.  The result is the data in the frame with the estimated initial position and velocity, which are attached to it; it keeps version history and radii.  What is written in the compressed format
is this result. -/
theorem run_spec {B : Type} (ext : Ext B) (given : Option (Wave B)) (path fmt : Str) (mg : Bool) (mA mB : Option ℝ) (doWrite : Bool) (r : Wave B) (out : Option (Format × Str × Wave B))
    (h : run ext given path fmt mg mA mB doWrite = .ok (r, out)) :
    ∃ w m a b x v files aux, input ext given (formatOf fmt) path = .ok w ∧ masses ext mg mA mB = .ok (m, a, b) ∧ ext.estimate m a b = .ok (x, v) ∧ auxFiles path w.dataType = .ok files ∧
      loadAux ext (formatOf fmt) files = .ok aux ∧ ext.transform x v aux w = .ok r.body ∧ r.dataType = w.dataType ∧ r.shift = some (x, v) ∧ r.versionHist = w.versionHist ∧ r.radii = w.radii ∧
      (doWrite = true → formatOf fmt = .rpxmb → out = some (.rpxmb, rpxmbName path, r)) ∧
      (doWrite = true → formatOf fmt = .nrar → ∃ u D, out = some (.nrar, nrarName D path, u) ∧ u.body = r.body ∧ u.dataType = r.dataType ∧ u.shift = r.shift ∧ u.versionHist = [] ∧ u.radii = none ∧
        D = ext.descriptor { u with shift := none }) ∧
      (doWrite = false ∨ formatOf fmt = .other → out = none) := by
  unfold run at h
  simp only at h
  cases h1 : input ext given (formatOf fmt) path with
  | error e => rw [h1, error_bind] at h; cases h
  | ok w =>
    rw [h1, ok_bind] at h
    cases h2 : masses ext mg mA mB with
    | error e => rw [h2, error_bind] at h; cases h
    | ok m3 =>
      obtain ⟨m, a, b⟩ := m3
      rw [h2, ok_bind] at h
      simp only at h
      cases h3 : ext.estimate m a b with
      | error e => rw [h3, error_bind] at h; cases h
      | ok xv =>
        obtain ⟨x, v⟩ := xv
        rw [h3, ok_bind] at h
        simp only at h
        cases h4 : auxFiles path w.dataType with
        | error e => rw [h4, error_bind] at h; cases h
        | ok files =>
          rw [h4, ok_bind] at h
          cases h5 : loadAux ext (formatOf fmt) files with
          | error e => rw [h5, error_bind] at h; cases h
          | ok aux =>
            rw [h5, ok_bind] at h
            cases h6 : ext.transform x v aux w with
            | error e => rw [h6, error_bind] at h; cases h
            | ok body =>
              rw [h6, ok_bind] at h
              injection h with h
              injection h with hr ho
              subst hr
              refine ⟨w, m, a, b, x, v, files, aux, rfl, rfl, h3, h4, h5, h6, rfl, rfl, rfl, rfl, ?_, ?_, ?_⟩
              · intro c1 c2
                rw [← ho, if_pos ⟨c1, c2⟩]
              · intro c1 c2
                rw [← ho, if_neg (by rw [c2]; exact fun h => by cases h.2), if_pos ⟨c1, c2⟩]
                exact ⟨_, _, rfl, rfl, rfl, rfl, rfl, rfl, rfl⟩
              · intro c
                rw [← ho]
                rcases c with c | c
                · rw [c]; simp
                · rw [c]; simp

/-! ## A case that meets the hypotheses -/

/-- A decidable form of the hypothesis of `aux_files`. -/
theorem once_of_positions (dir q rest : Str)
    (h : ∀ i ∈ List.range ((dir ++ q ++ rest).length + 1), ∀ q' ∈ alternatives, q'.isPrefixOf ((dir ++ q ++ rest).drop i) = true → i = dir.length ∧ q' = q) :
    ∀ q' ∈ alternatives, ∀ x y, dir ++ q ++ rest = x ++ q' ++ y → x = dir ∧ q' = q := by
  intro q' hq' x y e
  have h1 := h x.length (by rw [List.mem_range, e]; simp) q' hq' (by rw [e, List.append_assoc, List.drop_left, prefix_iff]; exact ⟨y, rfl⟩)
  refine ⟨?_, h1.2⟩
  have := congrArg (List.take x.length) e
  rw [h1.1, List.append_assoc, List.take_left, ← h1.1, List.append_assoc, List.take_left] at this
  exact this.symm

/-- The path `x/r2Psi3_A.h5` meets the hypotheses of `aux_files`. -/
example : ['r','2','P','s','i','3'] ∈ alternatives ∧ ∀ q' ∈ alternatives, ∀ x y, ['x','/'] ++ ['r','2','P','s','i','3'] ++ ['_','A','.','h','5'] = x ++ q' ++ y → x = ['x','/'] ∧ q' = ['r','2','P','s','i','3'] :=
  ⟨by decide, once_of_positions _ _ _ (by decide)⟩

example : nrarName ['r','h','O','v','e','r','M'] ['x','/','r','h','O','v','e','r','M','_','A','.','h','5','/','N','2','.','d','i','r'] = ['x','/','A','_','C','o','M','.','h','5','/','N','2','.','d','i','r'] := by
  decide

end Verif.Props.ComCorrection
