import Verif.Props.SpecFile

/-!
# Names of data sets with signs
-/

namespace Verif.Props.SpecNames
open Verif Verif.SpecFile

/-- Any text of digits and signs is taken for the number `m`. -/
theorem search_name (ell : Int) (h : 0 ≤ ell) (M : Str) (s1 : M ≠ []) (s2 : ∀ c ∈ M, (c = '-' || c = '+' || isDigit c) = true) :
    search (['Y', '_', 'l'] ++ str ell ++ ['_', 'm'] ++ M ++ ['.', 'd', 'a', 't']) = some (str ell, M) := by
  have he : str ell = decimal ell.natAbs := by unfold str; rw [if_neg (by omega)]
  have hd := decimal_digits ell.natAbs
  rw [← he] at hd
  have hm : matchAt (['Y', '_', 'l'] ++ str ell ++ ['_', 'm'] ++ M ++ ['.', 'd', 'a', 't']) = some (str ell, M) := by
    have e : ['Y', '_', 'l'] ++ str ell ++ ['_', 'm'] ++ M ++ ['.', 'd', 'a', 't'] = 'Y' :: '_' :: 'l' :: (str ell ++ '_' :: 'm' :: (M ++ ['.', 'd', 'a', 't'])) := by simp
    rw [e]
    obtain ⟨t1, t2⟩ := takeWhile_digits (str ell) hd.2 '_' (by decide) ('m' :: (M ++ ['.', 'd', 'a', 't']))
    simp only [matchAt, t1, t2, if_neg hd.1]
    rw [List.takeWhile_append_of_pos s2, List.dropWhile_append_of_pos s2]
    have : ∀ r : Str, (('.' :: r).takeWhile fun c => c = '-' || c = '+' || isDigit c) = [] ∧ (('.' :: r).dropWhile fun c => c = '-' || c = '+' || isDigit c) = '.' :: r := by
      intro r
      rw [List.takeWhile_cons, List.dropWhile_cons]
      have : isDigit '.' = false := by decide
      simp [this]
    rw [(this _).1, (this _).2]
    simp [s1]
  have e : ['Y', '_', 'l'] ++ str ell ++ ['_', 'm'] ++ M ++ ['.', 'd', 'a', 't'] = 'Y' :: ('_' :: 'l' :: (str ell ++ ['_', 'm'] ++ M ++ ['.', 'd', 'a', 't'])) := by simp
  rw [e] at hm ⊢
  rw [search, hm]

/-- A data set whose `m` is written with a plus sign is the mode `(ell, m)`. -/
theorem plus_sign (ell m : Int) (h : 0 ≤ ell) (hm : 0 ≤ m) (rows : Rows) :
    keyed [(['Y', '_', 'l'] ++ str ell ++ ['_', 'm'] ++ '+' :: str m ++ ['.', 'd', 'a', 't'], rows)] = .ok [((ell, m), rows)] := by
  have e : str m = decimal m.natAbs := by unfold str; rw [if_neg (by omega)]
  have hd := decimal_digits m.natAbs
  have hp : pyInt ('+' :: str m) = .ok m := by
    rw [e]
    simp only [pyInt]
    rw [if_pos hd, decimal_value]
    congr 1
    omega
  have hs := search_name ell h ('+' :: str m) (by simp) (fun c hc => by
    rcases List.mem_cons.1 hc with rfl | hc
    · rfl
    · exact (str_signs m).2 c hc)
  rw [keyed, hs]
  simp only [key, pyInt_str, hp, keyed, ok_bind, pure_eq_ok]

/-- A data set whose `m` has two signs, or a sign and no digits, makes the function raise `ValueError`. -/
theorem bad_sign (ell : Int) (h : 0 ≤ ell) (sign : Char) (hsign : sign = '+' ∨ sign = '-') (M : Str) (hM : ∀ c ∈ M, (c = '-' || c = '+' || isDigit c) = true) (hbad : M = [] ∨ '+' ∈ M ∨ '-' ∈ M) (rows : Rows) (sets : List (Str × Rows)) :
    keyed ((['Y', '_', 'l'] ++ str ell ++ ['_', 'm'] ++ sign :: M ++ ['.', 'd', 'a', 't'], rows) :: sets) = .error .valueError := by
  have hs := search_name ell h (sign :: M) (by simp) (fun c hc => by
    rcases List.mem_cons.1 hc with rfl | hc
    · rcases hsign with rfl | rfl <;> rfl
    · exact hM c hc)
  have hn : ¬ (M ≠ [] ∧ M.all isDigit = true) := by
    rintro ⟨h1, h2⟩
    rcases hbad with h | h | h
    · exact h1 h
    · have := List.all_eq_true.1 h2 _ h
      revert this
      decide
    · have := List.all_eq_true.1 h2 _ h
      revert this
      decide
  have hp : pyInt (sign :: M) = .error .valueError := by
    rcases hsign with rfl | rfl
    · simp only [pyInt]
      rw [if_neg hn]
    · simp only [pyInt]
      rw [if_neg hn]
  rw [keyed, hs]
  simp only [key, pyInt_str, hp, ok_bind, error_bind]

example (rows : Rows) : keyed [(['Y', '_', 'l', '2', '_', 'm', '+', '2', '.', 'd', 'a', 't'], rows)] = .ok [((2, 2), rows)] := by
  have := plus_sign 2 2 (by norm_num) (by norm_num) rows
  have e : str 2 = ['2'] := by
    unfold str decimal
    rfl
  rwa [e] at this

end Verif.Props.SpecNames
