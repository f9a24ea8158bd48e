import Verif.Props.Batch

/-!
# C90: fields that are not names
-/

namespace Verif.Props.BatchFields
open Verif Verif.ComCorrection Verif.Batch Verif.Props.Batch

/-- C90: braces with a dot, a bracket, an exclamation mark or a colon between them, as in a dictionary of Python, are never taken for a name, given or not: if the formatter raises an exception for the field, `_safe_format` raises it. -/
theorem field_raises (keys : List (Str × Str)) (other : Str → Py Str) (ps : List Piece) (hp : ∀ p ∈ ps, p.Plain) (n rest : Str) (hn : ∀ c ∈ n, c ≠ '{' ∧ c ≠ '}') (c : Char) (hc : c ∈ n) (hs : c ∈ ['.', '[', '!', ':'])
    (e : PyErr) (he : other n = .error e) : safeFormat keys other (source ps ++ ('{' :: n ++ ['}'] ++ rest)) = .error e := by
  refine error_after keys other ps hp _ _ ?_
  rw [go_open keys other n rest hn]
  have : getField keys other n = .error e := by
    unfold getField
    rw [if_neg, if_pos, he]
    · rw [List.any_eq_true]
      refine ⟨c, hc, ?_⟩
      simp only [List.mem_cons, List.not_mem_nil, or_false] at hs
      rcases hs with rfl | rfl | rfl | rfl <;> decide
    · intro ha
      have := List.all_eq_true.mp ha c hc
      simp only [List.mem_cons, List.not_mem_nil, or_false] at hs
      rcases hs with rfl | rfl | rfl | rfl <;> revert this <;> decide
  rw [this]; rfl

/-- The hypotheses are met: a dictionary in a script, although its text is given as a name. -/
example : safeFormat [("'a': 1".toList, "x".toList)] (fun _ => .error .valueError) "d = {'a': 1}".toList = .error .valueError :=
  field_raises [("'a': 1".toList, "x".toList)] (fun _ => .error .valueError) [.text "d = ".toList] (by intro p hp; obtain rfl := List.mem_singleton.1 hp; intro c hc; revert c hc; decide) "'a': 1".toList [] (by decide) ':' (by decide) (by decide) _ rfl

end Verif.Props.BatchFields
