import Verif.Model.DataTypes

/-!
# C19: data types from SpEC codes and from file names
-/

namespace Verif.Props.DataTypes
open Verif.Weights Verif.DataTypes

/-- The data types of scri. -/
def IsType (d : Int) : Prop := 0 ≤ d ∧ d ≤ 10

theorem type_cases {d : Int} (hd : IsType d) :
    d = 0 ∨ d = 1 ∨ d = 2 ∨ d = 3 ∨ d = 4 ∨ d = 5 ∨ d = 6 ∨ d = 7 ∨ d = 8 ∨ d = 9 ∨ d = 10 := by
  unfold IsType at hd; omega

/-- C19.  Writing a data type and reading it back gives the same data type, for every type. -/
theorem from_to (d : Int) (hd : IsType d) : ∃ g, toGWFrames d = .ok g ∧ fromGWFrames g = .ok d := by
  rcases type_cases hd with rfl | rfl | rfl | rfl | rfl | rfl | rfl | rfl | rfl | rfl | rfl
  all_goals exact ⟨_, rfl, rfl⟩

/-- C19.  Hence different types have different codes. -/
theorem to_injective (d d' g : Int) (hd : IsType d) (hd' : IsType d') (h1 : toGWFrames d = .ok g)
    (h2 : toGWFrames d' = .ok g) : d = d' := by
  obtain ⟨a, ha, hb⟩ := from_to d hd
  obtain ⟨a', ha', hb'⟩ := from_to d' hd'
  rw [h1] at ha; rw [h2] at ha'
  cases ha; cases ha'
  rw [hb] at hb'; exact Except.ok.inj hb'

/-- C19.  The codes that are understood are 0 to 18; everything else is refused, never guessed. -/
theorem from_ok_iff (g : Int) : (∃ d, fromGWFrames g = .ok d) ↔ 0 ≤ g ∧ g ≤ 18 := by
  constructor
  · rintro ⟨d, hd⟩
    unfold fromGWFrames at hd
    split at hd
    · rename_i hlt
      refine ⟨?_, by omega⟩
      apply Classical.byContradiction
      intro hn
      have : ∀ k : Int, 0 ≤ k → (g == k) = false := by
        intro k hk
        rw [beq_eq_false_iff_ne]; omega
      simp [dictGet, List.lookup, this 0, this 1, this 2, this 3, this 4, this 5, this 6, this 7] at hd
    · rename_i hge
      refine ⟨by omega, ?_⟩
      apply Classical.byContradiction
      intro hn
      unfold pyGet at hd
      have hneg : ¬ (g - 8 < 0) := by omega
      rw [if_neg hneg] at hd
      dsimp only at hd
      rw [if_neg hneg, getElem?_pyRange, if_neg (by omega)] at hd
      cases hd
  · intro hg
    obtain ⟨n, hn, rfl⟩ : ∃ n : Nat, n ≤ 18 ∧ g = n := ⟨g.toNat, by omega, by omega⟩
    have : ∀ n : Fin 19, ∃ d, fromGWFrames (n.val : Int) = .ok d := by
      intro n
      have : (fromGWFrames (n.val : Int)).isOk = true := by revert n; decide
      cases h : fromGWFrames (n.val : Int) with
      | ok d => exact ⟨d, rfl⟩
      | error e => rw [h] at this; cases this
    exact this ⟨n, by omega⟩

/-- C19.  The codes 0 to 7 and the eight types both programs know correspond one to one. -/
theorem to_from_shared (g : Int) (hg : 0 ≤ g ∧ g < 8) :
    ∃ d, fromGWFrames g = .ok d ∧ toGWFrames d = .ok g := by
  obtain rfl | rfl | rfl | rfl | rfl | rfl | rfl | rfl : g = 0 ∨ g = 1 ∨ g = 2 ∨ g = 3 ∨ g = 4 ∨ g = 5 ∨
    g = 6 ∨ g = 7 := by omega
  all_goals exact ⟨_, rfl, rfl⟩

/-- C19 (finding).  Above 7 the codes are redundant: code 9 is read as `psi0`, which is written as
7. -/
theorem to_from_redundant : fromGWFrames 9 = .ok psi0 ∧ toGWFrames psi0 = .ok 7 := ⟨rfl, rfl⟩

theorem isIn_iff (p s : List Char) : isIn p s = true ↔ p <:+: s := by
  induction s with
  | nil => simp [isIn]
  | cons c s ih =>
    rw [isIn, Bool.or_eq_true, ih, List.isPrefixOf_iff_prefix, List.infix_cons_iff]

theorem isIn_h (s : List Char) : isIn "h".toList s = true ↔ 'h' ∈ s := by
  rw [isIn_iff]
  show ['h'] <:+: s ↔ _
  constructor
  · rintro ⟨a, b, rfl⟩; simp
  · intro h
    obtain ⟨a, b, rfl⟩ := List.append_of_mem h
    exact ⟨a, b, by simp⟩

/-- C19.  `datatype_from_filename` looks only at the part of the last path component before the first
underscore, without regard to case. -/
theorem datatype_depends_on_prefix (dir dir' pre pre' rest rest' : List Char)
    (h1 : '/' ∉ pre ++ '_' :: rest) (h2 : '/' ∉ pre' ++ '_' :: rest') (h3 : '_' ∉ pre) (h4 : '_' ∉ pre')
    (hpre : lower pre = lower pre') :
    datatypeFromFilename (dir ++ '/' :: (pre ++ '_' :: rest)) =
      datatypeFromFilename (dir' ++ '/' :: (pre' ++ '_' :: rest')) := by
  have key : ∀ (dir pre rest : List Char), '/' ∉ pre ++ '_' :: rest → '_' ∉ pre →
      beforeUnderscore (basename (dir ++ '/' :: (pre ++ '_' :: rest))) = pre := by
    intro dir pre rest h1 h3
    have hb : basename (dir ++ '/' :: (pre ++ '_' :: rest)) = pre ++ '_' :: rest := by
      unfold basename
      rw [List.reverse_append, List.reverse_cons, List.append_assoc, List.takeWhile_append_of_pos]
      · simp
      · intro a ha
        rw [List.mem_reverse] at ha
        simp only [decide_eq_true_eq]
        rintro rfl; exact h1 ha
    rw [hb]
    unfold beforeUnderscore
    rw [List.takeWhile_append_of_pos]
    · simp
    · intro a ha
      simp only [decide_eq_true_eq]
      rintro rfl; exact h3 ha
  unfold datatypeFromFilename
  rw [key dir pre rest h1 h3, key dir' pre' rest' h2 h4, hpre]

/-- The name of a Weyl scalar. -/
def psiName : Fin 5 → List Char
  | 0 => "psi0".toList
  | 1 => "psi1".toList
  | 2 => "psi2".toList
  | 3 => "psi3".toList
  | 4 => "psi4".toList

/-- C19.  A prefix without the letter h that names exactly one Weyl scalar gives that scalar. -/
theorem datatype_psi (name : List Char) (n : Fin 5) (hh : 'h' ∉ lower (beforeUnderscore (basename name)))
    (hn : psiName n <:+: lower (beforeUnderscore (basename name)))
    (hothers : ∀ k : Fin 5, k ≠ n →
      ¬ (psiName k <:+: lower (beforeUnderscore (basename name)))) :
    datatypeFromFilename name = .ok (n.val + 1) := by
  unfold datatypeFromFilename
  generalize lower (beforeUnderscore (basename name)) = s at *
  have h1 : isIn "hdot".toList s = false := by
    rw [Bool.eq_false_iff, ne_eq, isIn_iff]
    rintro ⟨a, b, rfl⟩
    apply hh
    simp
  have h2 : isIn "h".toList s = false := by
    rw [Bool.eq_false_iff, ne_eq, isIn_h]; exact hh
  have g : ∀ k : Fin 5, k ≠ n → isIn (psiName k) s = false := by
    intro k hk
    rw [Bool.eq_false_iff, ne_eq, isIn_iff]; exact hothers k hk
  have gn : isIn (psiName n) s = true := (isIn_iff _ _).mpr hn
  have e4 : isIn "psi4".toList s = decide (n = 4) := by
    by_cases hc : n = 4
    · subst hc; rw [decide_eq_true rfl]; exact gn
    · rw [decide_eq_false hc]; exact g 4 (fun h => hc h.symm)
  have e3 : isIn "psi3".toList s = decide (n = 3) := by
    by_cases hc : n = 3
    · subst hc; rw [decide_eq_true rfl]; exact gn
    · rw [decide_eq_false hc]; exact g 3 (fun h => hc h.symm)
  have e2 : isIn "psi2".toList s = decide (n = 2) := by
    by_cases hc : n = 2
    · subst hc; rw [decide_eq_true rfl]; exact gn
    · rw [decide_eq_false hc]; exact g 2 (fun h => hc h.symm)
  have e1 : isIn "psi1".toList s = decide (n = 1) := by
    by_cases hc : n = 1
    · subst hc; rw [decide_eq_true rfl]; exact gn
    · rw [decide_eq_false hc]; exact g 1 (fun h => hc h.symm)
  have e0 : isIn "psi0".toList s = decide (n = 0) := by
    by_cases hc : n = 0
    · subst hc; rw [decide_eq_true rfl]; exact gn
    · rw [decide_eq_false hc]; exact g 0 (fun h => hc h.symm)
  simp only [h1, h2, e4, e3, e2, e1, e0, decide_eq_true_eq]
  obtain rfl | rfl | rfl | rfl | rfl : n = 0 ∨ n = 1 ∨ n = 2 ∨ n = 3 ∨ n = 4 := by omega
  all_goals rfl

/-- C19 (finding).  Any letter h in the prefix makes the file a strain file, even if the prefix
names a Weyl scalar. -/
theorem datatype_any_h (name : List Char) (hh : 'h' ∈ lower (beforeUnderscore (basename name)))
    (hd : ¬ ("hdot".toList <:+: lower (beforeUnderscore (basename name)))) :
    datatypeFromFilename name = .ok h := by
  unfold datatypeFromFilename
  have h1 : isIn "hdot".toList (lower (beforeUnderscore (basename name))) = false := by
    rw [Bool.eq_false_iff, ne_eq, isIn_iff]; exact hd
  simp only [h1, (isIn_h _).mpr hh, if_true]
  rfl

/-- C19 (finding).  `read_from_h5` searches the whole file name, in which ".h5" contains the name
"h": no file whose name contains an h is ever recognised as a Weyl scalar or as `sigma`. -/
theorem h5_name_never_psi (name : List Char) (hh : 'h' ∈ lower name) :
    dataTypeFromH5Name name ∈ [some psin, some news, some hdot, some h] := by
  unfold dataTypeFromH5Name
  have hl : (pyRange 0 11).reverse.zip DataNames.reverse =
      [(10, "psin"), (9, "news"), (8, "hdot"), (7, "h"), (6, "sigma"), (5, "Psi4"), (4, "Psi3"), (3, "Psi2"),
        (2, "Psi1"), (1, "Psi0"), (0, "UnknownDataType")] := by decide
  rw [hl]
  simp only [scanNames]
  have e : isIn (lower "h".toList) (lower name) = true := (isIn_h _).mpr hh
  rw [e]
  simp only [if_true]
  split
  · simp [psin]
  · split
    · simp [news]
    · split
      · simp [hdot]
      · simp [h]

example : datatypeFromFilename "runs/rMPsi4_FiniteRadii.h5".toList = .ok psi4 := by decide +kernel
example : datatypeFromFilename "rPsi4Hybrid_FiniteRadii.h5".toList = .ok h := by decide +kernel
example : dataTypeFromH5Name "rMPsi4.h5".toList = some h := by decide +kernel

end Verif.Props.DataTypes
