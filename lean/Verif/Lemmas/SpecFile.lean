import Verif.Model.SpecFile
import Verif.Lemmas.Modes
import Verif.Props.Modes
import Verif.Props.DataTypes
import Mathlib.Data.List.Sort
import Mathlib.Tactic.Linarith
import Mathlib.Tactic.IntervalCases

/-! Auxiliary facts about names, sorting and monotonic times for C74. -/

namespace Verif.SpecFile

open Verif Verif.Modes

/-! ## `".h5"` in names -/

theorem rsplit_tail {s : Str} (h : rsplit s = none) : rsplit ('.' :: 'h' :: '5' :: s) = some ([], s) := by
  have h1 : rsplit ('5' :: s) = none := by simp [rsplit, h, List.isPrefixOf]
  have h2 : rsplit ('h' :: '5' :: s) = none := by simp [rsplit, h, List.isPrefixOf]
  simp [rsplit, h, List.isPrefixOf]

theorem rsplit_append {s : Str} (h : rsplit s = none) (x : Str) : rsplit (x ++ '.' :: 'h' :: '5' :: s) = some (x, s) := by
  induction x with
  | nil => exact rsplit_tail h
  | cons c x ih => rw [List.cons_append, rsplit, ih]

theorem split_ne_nil (s : Str) : split s ≠ [] := by
  fun_induction split s <;> simp

theorem split_one {s p : Str} (h : split s = [p]) : s = p ∧ rsplit s = none := by
  fun_induction split s generalizing p with
  | case1 s ih => simp at h; exact absurd h.2 (split_ne_nil s)
  | case2 => simp at h; exact ⟨h.symm, rfl⟩
  | case3 c s hne q qs hq ih =>
    simp at h
    obtain ⟨h1, h2⟩ := h
    subst h2
    obtain ⟨h3, h4⟩ := ih hq
    refine ⟨by rw [← h1, h3], ?_⟩
    rw [rsplit, h4]
    simp only
    rw [if_neg]
    intro hp
    rw [List.isPrefixOf_iff_prefix] at hp
    obtain ⟨r, hr⟩ := hp
    simp at hr
    exact hne r hr.1.symm hr.2.symm
  | case4 c s hne hq ih => exact absurd hq (split_ne_nil s)

theorem split_two {s a b : Str} (h : split s = [a, b]) : s = a ++ '.' :: 'h' :: '5' :: b ∧ rsplit b = none := by
  fun_induction split s generalizing a with
  | case1 s ih =>
    simp at h
    obtain ⟨h1, h2⟩ := h
    obtain ⟨h3, h4⟩ := split_one h2
    subst h1
    rw [← h3]
    exact ⟨rfl, h4⟩
  | case2 => simp at h
  | case3 c s hne q qs hq ih =>
    simp at h
    obtain ⟨h1, h2⟩ := h
    subst h2
    obtain ⟨h3, h4⟩ := ih hq
    exact ⟨by rw [← h1, h3]; rfl, h4⟩
  | case4 c s hne hq ih => exact absurd hq (split_ne_nil s)

theorem basename_append (a s : Str) (h : '/' ∉ s) : DataTypes.basename (a ++ s) = DataTypes.basename a ++ s := by
  unfold DataTypes.basename
  rw [List.reverse_append, List.takeWhile_append_of_pos (fun c hc => by
    have : c ∈ s := List.mem_reverse.mp hc
    simp only [ne_eq, decide_not, Bool.not_eq_true', decide_eq_false_iff_not]
    rintro rfl
    exact h this), List.reverse_append, List.reverse_reverse]

theorem decorate_h5 (d a : Str) : ∃ y, decorate d (a ++ ['.', 'h', '5']) = y ++ ['.', 'h', '5'] := by
  refine ⟨dirSlash (a ++ ['.', 'h', '5']) ++ d ++ ['_'] ++ DataTypes.basename a, ?_⟩
  unfold decorate
  rw [basename_append a _ (by decide)]
  simp

/-- The file and the group that were written to are found again. -/
theorem target_back {name file d : Str} {path : Option Str} (hn : ['.', 'h', '5'] <:+: name) (h : writeTarget name = .ok (file, path)) :
    readTarget (decorate d file ++ path.getD []) = (decorate d file, path.getD []) ∧ path ≠ some [] := by
  unfold writeTarget at h
  have hin : DataTypes.isIn ['.', 'h', '5'] name = true := (Verif.Props.DataTypes.isIn_iff _ _).mpr hn
  by_cases hs : ['.', 'h', '5'].isSuffixOf name = true
  · simp only [hin, hs, not_true, and_false, if_false] at h
    injection h with h
    injection h with h1 h2
    subst h1 h2
    rw [List.isSuffixOf_iff_suffix] at hs
    obtain ⟨a, rfl⟩ := hs
    obtain ⟨y, hy⟩ := decorate_h5 d a
    refine ⟨?_, by simp⟩
    rw [hy]
    simp only [Option.getD_none, List.append_nil]
    unfold readTarget
    have := rsplit_append (s := []) rfl y
    rw [this]
  · simp only [Bool.not_eq_true] at hs
    simp only [hin, hs, true_and] at h
    rw [if_pos (by simp)] at h
    split at h
    · rename_i a b hab
      injection h with h
      injection h with h1 h2
      subst h1 h2
      obtain ⟨h3, h4⟩ := split_two hab
      obtain ⟨y, hy⟩ := decorate_h5 d a
      refine ⟨?_, ?_⟩
      · rw [hy]
        simp only [Option.getD_some]
        unfold readTarget
        have := rsplit_append h4 y
        rw [show y ++ ['.', 'h', '5'] ++ b = y ++ '.' :: 'h' :: '5' :: b by simp, this]
      · rintro hb
        injection hb with hb
        subst hb
        have h5 : ['.', 'h', '5'] <:+ name := ⟨a, h3.symm⟩
        rw [← List.isSuffixOf_iff_suffix, hs] at h5
        cases h5
    · cases h

/-! ## Numbers and names of datasets -/

theorem digit_facts {n : Nat} (h : n < 10) : isDigit (Char.ofNat (48 + n)) = true ∧ (Char.ofNat (48 + n)).toNat - 48 = n := by
  interval_cases n <;> decide

theorem decimal_digits (n : Nat) : decimal n ≠ [] ∧ (decimal n).all isDigit = true := by
  induction n using Nat.strong_induction_on with
  | _ n ih =>
    unfold decimal
    split
    · rename_i h
      simp [(digit_facts h).1]
    · rename_i h
      have := (ih (n / 10) (by omega)).2
      simp [this, (digit_facts (Nat.mod_lt n (by norm_num : 0 < 10))).1]

theorem decimal_value (n : Nat) : digitsValue (decimal n) = n := by
  induction n using Nat.strong_induction_on with
  | _ n ih =>
    unfold decimal
    split
    · rename_i h
      simp [digitsValue, (digit_facts h).2]
    · rename_i h
      have := ih (n / 10) (by omega)
      unfold digitsValue at this ⊢
      rw [List.foldl_append, this]
      simp only [List.foldl_cons, List.foldl_nil, (digit_facts (Nat.mod_lt n (by norm_num : 0 < 10))).2]
      omega

theorem digits_no_sign {d : Str} (h : d.all isDigit = true) (c : Char) (hc : isDigit c = false) : ∀ s, d ≠ c :: s := by
  rintro s rfl
  simp [hc] at h

theorem pyInt_digits {d : Str} (h1 : d ≠ []) (h2 : d.all isDigit = true) : pyInt d = .ok (digitsValue d) := by
  unfold pyInt
  split
  · exact absurd rfl (digits_no_sign h2 '-' (by decide) _)
  · exact absurd rfl (digits_no_sign h2 '+' (by decide) _)
  · rw [if_pos ⟨h1, h2⟩]

theorem pyInt_str (n : Int) : pyInt (str n) = .ok n := by
  unfold str
  split
  · have := decimal_digits n.natAbs
    simp only [pyInt]
    rw [if_pos this, decimal_value]
    congr 1
    omega
  · have := decimal_digits n.natAbs
    rw [pyInt_digits this.1 this.2, decimal_value]
    congr 1
    omega

theorem takeWhile_digits (d : Str) (h : d.all isDigit = true) (c : Char) (hc : isDigit c = false) (s : Str) : (d ++ c :: s).takeWhile isDigit = d ∧ (d ++ c :: s).dropWhile isDigit = c :: s := by
  have hd : ∀ x ∈ d, isDigit x = true := fun x hx => List.all_eq_true.mp h x hx
  constructor
  · rw [List.takeWhile_append_of_pos hd, List.takeWhile_cons, hc]
    simp
  · rw [List.dropWhile_append_of_pos hd, List.dropWhile_cons, hc]
    simp

theorem str_signs (m : Int) : str m ≠ [] ∧ ∀ c ∈ str m, (c = '-' || c = '+' || isDigit c) = true := by
  have := decimal_digits m.natAbs
  have hd : ∀ x ∈ decimal m.natAbs, isDigit x = true := fun x hx => List.all_eq_true.mp this.2 x hx
  unfold str
  split
  · refine ⟨by simp, fun c hc => ?_⟩
    rcases List.mem_cons.mp hc with rfl | hc
    · rfl
    · simp [hd c hc]
  · exact ⟨this.1, fun c hc => by simp [hd c hc]⟩

theorem search_setName (ell m : Int) (h : 0 ≤ ell) : search (setName ell m) = some (str ell, str m) := by
  have he : str ell = decimal ell.natAbs := by unfold str; rw [if_neg (by omega)]
  have hd := decimal_digits ell.natAbs
  rw [← he] at hd
  have hm : matchAt (setName ell m) = some (str ell, str m) := by
    have e : setName ell m = 'Y' :: '_' :: 'l' :: (str ell ++ '_' :: 'm' :: (str m ++ ['.', 'd', 'a', 't'])) := by simp [setName]
    rw [e]
    obtain ⟨t1, t2⟩ := takeWhile_digits (str ell) hd.2 '_' (by decide) ('m' :: (str m ++ ['.', 'd', 'a', 't']))
    simp only [matchAt, t1, t2, if_neg hd.1]
    obtain ⟨s1, s2⟩ := str_signs m
    rw [List.takeWhile_append_of_pos s2, List.dropWhile_append_of_pos s2]
    have : ∀ r : Str, (('.' :: r).takeWhile fun c => c = '-' || c = '+' || isDigit c) = [] ∧ (('.' :: r).dropWhile fun c => c = '-' || c = '+' || isDigit c) = '.' :: r := by
      intro r
      rw [List.takeWhile_cons, List.dropWhile_cons]
      have : isDigit '.' = false := by decide
      simp [this]
    rw [(this _).1, (this _).2]
    simp [s1]
  have e : setName ell m = 'Y' :: ('_' :: 'l' :: (str ell ++ ['_', 'm'] ++ str m ++ ['.', 'd', 'a', 't'])) := by simp [setName]
  rw [e] at hm ⊢
  rw [search, hm]

theorem keyed_named (l : List ((Int × Int) × Rows)) (h : ∀ p ∈ l, 0 ≤ p.1.1) : keyed (l.map fun p => (setName p.1.1 p.1.2, p.2)) = .ok l := by
  induction l with
  | nil => rfl
  | cons p l ih =>
    rw [List.map_cons, keyed, search_setName _ _ (h p (by simp)), ih fun q hq => h q (by simp [hq])]
    simp only [key, pyInt_str, ok_bind, pure_eq_ok]

/-- The keys in whatever order the datasets are listed. -/
theorem keyed_perm (l : List ((Int × Int) × Rows)) (h : ∀ p ∈ l, 0 ≤ p.1.1) (sets : List (Str × Rows)) (hp : sets.Perm (l.map fun p => (setName p.1.1 p.1.2, p.2))) :
    ∃ k, keyed sets = .ok k ∧ k.Perm l := by
  have h1 := congrFun (congrFun (List.eq_map_comp_perm fun p : (Int × Int) × Rows => (setName p.1.1 p.1.2, p.2)) sets) l
  obtain ⟨k, rfl, hk⟩ := h1.mpr hp
  exact ⟨k, keyed_named k fun p hp => h p (hk.mem_iff.mp hp), hk⟩

/-! ## Sorting -/

theorem keyLe_trans (a b c : Int × Int) : keyLe a b = true → keyLe b c = true → keyLe a c = true := by
  simp only [keyLe, Bool.or_eq_true, Bool.and_eq_true, decide_eq_true_eq]
  omega

theorem keyLe_total (a b : Int × Int) : (keyLe a b || keyLe b a) = true := by
  simp only [keyLe, Bool.or_eq_true, Bool.and_eq_true, decide_eq_true_eq]
  omega

theorem keyLe_antisymm (a b : Int × Int) (h1 : keyLe a b = true) (h2 : keyLe b a = true) : a = b := by
  simp only [keyLe, Bool.or_eq_true, Bool.and_eq_true, decide_eq_true_eq] at h1 h2
  exact Prod.ext (by omega) (by omega)

theorem pyRange_sorted (a b : Int) : (pyRange a b).Pairwise (· < ·) := by
  unfold pyRange
  rw [List.pairwise_map]
  exact List.pairwise_lt_range.imp fun h => by omega

theorem LMRange_sorted (a b : Int) : (LMRange a b).Pairwise fun x y => keyLe x y = true := by
  unfold LMRange
  rw [List.pairwise_flatMap]
  constructor
  · intro l _
    rw [List.pairwise_map]
    refine (pyRange_sorted _ _).imp fun h => ?_
    simp [keyLe, h.le]
  · refine (pyRange_sorted _ _).imp fun h => ?_
    intro x hx y hy
    obtain ⟨_, -, rfl⟩ := List.mem_map.mp hx
    obtain ⟨_, -, rfl⟩ := List.mem_map.mp hy
    simp [keyLe, h]

theorem sort_keys {k : List (Int × Int)} {a b : Int} (h : k.Perm (LMRange a b)) : k.mergeSort keyLe = LMRange a b := by
  refine List.Perm.eq_of_pairwise (le := fun x y => keyLe x y = true) (fun x y _ _ => keyLe_antisymm x y) (List.pairwise_mergeSort keyLe_trans keyLe_total k) (LMRange_sorted a b)
    ((List.mergeSort_perm k keyLe).trans h)

/-- Datasets with the keys of all modes, in any order, are sorted by mode. -/
theorem sort_sets {k l : List ((Int × Int) × Rows)} {a b : Int} (ha : 0 ≤ a) (hp : k.Perm l) (hl : l.map (fun p => p.1) = LMRange a b) : (k.mergeSort fun x y => keyLe x.1 y.1) = l := by
  have hnd : (l.map fun p => p.1).Nodup := by rw [hl]; exact Verif.Props.Modes.LM_nodup a b ha
  have hs : l.Pairwise fun x y => keyLe x.1 y.1 = true := by
    have := LMRange_sorted a b
    rw [← hl, List.pairwise_map] at this
    exact this
  refine List.Perm.eq_of_pairwise (le := fun x y => keyLe x.1 y.1 = true) ?_ (List.pairwise_mergeSort (fun x y z => keyLe_trans x.1 y.1 z.1) (fun x y => keyLe_total x.1 y.1) k) hs
    ((List.mergeSort_perm k _).trans hp)
  intro x y hx hy h1 h2
  have hx' : x ∈ l := hp.mem_iff.mp ((List.mergeSort_perm k _).mem_iff.mp hx)
  exact List.inj_on_of_nodup_map hnd hx' hy (keyLe_antisymm _ _ h1 h2)

/-! ## Monotonic times -/

theorem upMask_all (m : ℝ) (l : List ℝ) : (∀ b ∈ Monotonic.upMask m l, b = true) ↔ (m :: l).Pairwise (· < ·) := by
  induction l generalizing m with
  | nil => simp [Monotonic.upMask]
  | cons x l ih =>
    simp only [Monotonic.upMask]
    by_cases h : x ≤ m
    · simp only [h, if_true]
      constructor
      · intro hb
        have := hb false (by simp)
        cases this
      · intro hp
        have := (List.pairwise_cons.mp hp).1 x (by simp)
        exact absurd h (not_le.mpr this)
    · simp only [h, if_false, List.mem_cons, forall_eq_or_imp, true_and]
      rw [ih x]
      constructor
      · intro hp
        refine List.pairwise_cons.mpr ⟨fun y hy => ?_, hp⟩
        rcases List.mem_cons.mp hy with rfl | hy
        · exact not_le.mp h
        · exact (not_le.mp h).trans ((List.pairwise_cons.mp hp).1 y hy)
      · exact fun hp => (List.pairwise_cons.mp hp).2

theorem downMask_all (m : ℝ) (l : List ℝ) : (∀ b ∈ Monotonic.downMask m l, b = true) ↔ (m :: l).Pairwise (· > ·) := by
  induction l generalizing m with
  | nil => simp [Monotonic.downMask]
  | cons x l ih =>
    simp only [Monotonic.downMask]
    by_cases h : x ≥ m
    · simp only [h, if_true]
      constructor
      · intro hb
        have := hb false (by simp)
        cases this
      · intro hp
        have := (List.pairwise_cons.mp hp).1 x (by simp)
        exact absurd h (not_le.mpr this)
    · simp only [h, if_false, List.mem_cons, forall_eq_or_imp, true_and]
      rw [ih x]
      constructor
      · intro hp
        refine List.pairwise_cons.mpr ⟨fun y hy => ?_, hp⟩
        rcases List.mem_cons.mp hy with rfl | hy
        · exact not_le.mp h
        · exact lt_trans ((List.pairwise_cons.mp hp).1 y hy) (not_le.mp h)
      · exact fun hp => (List.pairwise_cons.mp hp).2

theorem upMask_length (m : ℝ) (l : List ℝ) : (Monotonic.upMask m l).length = l.length := by
  induction l generalizing m with
  | nil => rfl
  | cons x l ih =>
    simp only [Monotonic.upMask]
    split <;> simp [ih]

theorem downMask_length (m : ℝ) (l : List ℝ) : (Monotonic.downMask m l).length = l.length := by
  induction l generalizing m with
  | nil => rfl
  | cons x l ih =>
    simp only [Monotonic.downMask]
    split <;> simp [ih]

/-- All times are kept exactly if they increase or decrease. -/
theorem mask_all (y : List ℝ) (hy : y ≠ []) : ∃ mask, Monotonic.indexIsMonotonic y = .ok mask ∧ mask.length = y.length ∧ ((∀ b ∈ mask, b = true) ↔ y.Pairwise (· < ·) ∨ y.Pairwise (· > ·)) := by
  rcases y with _ | ⟨y0, l⟩
  · exact absurd rfl hy
  refine ⟨_, rfl, ?_, ?_⟩
  · split <;> simp [upMask_length, downMask_length]
  · simp only [List.mem_cons, forall_eq_or_imp, true_and]
    by_cases h : y0 < (y0 :: l).getLast (by simp)
    · rw [if_pos h, upMask_all]
      refine ⟨Or.inl, fun hh => hh.elim id fun hd => ?_⟩
      exfalso
      rcases List.mem_cons.mp (List.getLast_mem (l := y0 :: l) (by simp)) with he | hm
      · rw [he] at h; exact lt_irrefl _ h
      · exact lt_asymm h ((List.pairwise_cons.mp hd).1 _ hm)
    · rw [if_neg h, downMask_all]
      refine ⟨Or.inr, fun hh => hh.elim (fun hi => ?_) id⟩
      rcases l with _ | ⟨x, l⟩
      · simp
      · exact absurd ((List.pairwise_cons.mp hi).1 _ (by rw [List.getLast_cons (by simp)]; exact List.getLast_mem _)) h

theorem filterMap_all {α : Type} (l : List α) (mask : List Bool) (hl : mask.length = l.length) (h : ∀ b ∈ mask, b = true) {β : Type} (f : α → β) :
    ((List.range l.length).filterMap fun i => if mask.getD i false then (l[i]?).map f else none) = l.map f := by
  have h1 : ∀ i ∈ List.range l.length, (if mask.getD i false then (l[i]?).map f else none) = (l[i]?).map f := by
    intro i hi
    have hi' : i < mask.length := by rw [hl]; exact List.mem_range.mp hi
    rw [if_pos]
    rw [List.getD_eq_getElem?_getD, List.getElem?_eq_getElem hi']
    exact h _ (List.getElem_mem hi')
  rw [List.filterMap_congr h1]
  clear h1 hl h
  induction l with
  | nil => rfl
  | cons x l ih =>
    rw [List.length_cons, List.range_succ_eq_map, List.filterMap_cons]
    simp only [List.getElem?_cons_zero, Option.map_some, List.map_cons, List.filterMap_map]
    congr 1

theorem filterMap_short {α : Type} (l : List α) (mask : List Bool) (hl : mask.length = l.length) (h : ¬ ∀ b ∈ mask, b = true) :
    ((List.range l.length).filterMap fun i => if mask.getD i false then l[i]? else none).length < l.length := by
  have hle := List.length_filterMap_le (fun i => if mask.getD i false then l[i]? else none) (List.range l.length)
  rw [List.length_range] at hle
  refine lt_of_le_of_ne hle fun he => h fun b hb => ?_
  obtain ⟨i, hi, rfl⟩ := List.getElem_of_mem hb
  have gen : ∀ (g : Nat → Option α) (R : List Nat), (R.filterMap g).length = R.length → ∀ j ∈ R, (g j).isSome = true := by
    intro g R
    induction R with
    | nil => simp
    | cons a R ih =>
      intro hR
      have hle' := List.length_filterMap_le g R
      rcases hg : g a with _ | x
      · rw [List.filterMap_cons, hg] at hR
        simp only [List.length_cons] at hR
        omega
      · rw [List.filterMap_cons, hg] at hR
        simp only [List.length_cons, Nat.add_right_cancel_iff] at hR
        intro j hj
        rcases List.mem_cons.mp hj with rfl | hj
        · rw [hg]; rfl
        · exact ih hR j hj
  have := gen (fun i => if mask.getD i false then l[i]? else none) (List.range l.length) (by rw [he, List.length_range])
  have hj := this i (List.mem_range.mpr (by rw [← hl]; exact hi))
  by_contra hne
  rw [List.getD_eq_getElem?_getD, List.getElem?_eq_getElem hi, Option.getD_some] at hj
  simp [hne] at hj

end Verif.SpecFile
