import Verif.Model.BumpRule
import Verif.Props.DataTypes
import Mathlib.Data.List.Nodup

/-!
# C42: the rule for the next version number
-/

namespace Verif.Props.BumpRule

open Verif.BumpRule Verif.DataTypes Verif.Props.DataTypes

/-- The rules in the order in which they are looked for. -/
def rules : List String := ["prerelease", "prepatch", "preminor", "premajor", "patch", "minor", "major"]

/-- A message asks for a rule by its name after a hash, anywhere. -/
def Asks (message : List Char) (rule : String) : Prop := '#' :: rule.toList <:+: message

theorem levels_eq (message pre : List Char) (l : List (List Char)) :
    levels message pre l = (l.map (pre ++ ·)).find? fun r => isIn ('#' :: r) message := by
  induction l with
  | nil => rfl
  | cons a l ih =>
    rw [levels, List.map_cons, List.find?_cons, ih]
    cases isIn ('#' :: (pre ++ a)) message <;> simp

theorem parse_eq (message : List Char) :
    parse message = (((rules.map String.toList).find? fun r => isIn ('#' :: r) message).getD "patch".toList) := by
  have h0 : "#prerelease".toList = '#' :: "prerelease".toList := by decide +kernel
  have h1 : ["patch".toList, "minor".toList, "major".toList].map ("pre".toList ++ ·) = ["prepatch".toList, "preminor".toList, "premajor".toList] := by decide +kernel
  have h2 : rules.map String.toList = "prerelease".toList :: (["prepatch".toList, "preminor".toList, "premajor".toList] ++ ["patch".toList, "minor".toList, "major".toList]) := rfl
  unfold parse
  rw [h0, h2, List.find?_cons, List.find?_append]
  cases isIn ('#' :: "prerelease".toList) message with
  | true => simp
  | false =>
    simp only [Bool.false_eq_true, if_false, prefixes, levels_eq, h1]
    have h3 : (["patch".toList, "minor".toList, "major".toList].map ([] ++ ·) : List (List Char)) = ["patch".toList, "minor".toList, "major".toList] := by simp
    rw [h3]
    cases List.find? (fun r => isIn ('#' :: r) message) ["prepatch".toList, "preminor".toList, "premajor".toList] <;>
      cases List.find? (fun r => isIn ('#' :: r) message) ["patch".toList, "minor".toList, "major".toList] <;> rfl

/-- C42: for every message the answer is the first of the rules, in the order of the list, that the message asks for, and `patch` if it asks for none. -/
theorem parse_spec (message : List Char) :
    (∃ i, ∃ h : i < rules.length, parse message = (rules[i]).toList ∧ Asks message rules[i] ∧ ∀ j, ∀ hj : j < i, ¬ Asks message (rules[j]'(by omega))) ∨
    (parse message = "patch".toList ∧ ∀ r ∈ rules, ¬ Asks message r) := by
  rw [parse_eq]
  rcases hf : (rules.map String.toList).find? (fun r => isIn ('#' :: r) message) with _ | r
  · right
    refine ⟨rfl, fun r hr ha => ?_⟩
    rw [List.find?_eq_none] at hf
    exact hf r.toList (List.mem_map_of_mem hr) ((isIn_iff _ _).mpr ha)
  · left
    rw [List.find?_eq_some_iff_getElem] at hf
    obtain ⟨h1, i, hi, h2, h3⟩ := hf
    have hi' : i < rules.length := by simpa using hi
    have h2' : rules[i].toList = r := by simpa using h2
    refine ⟨i, hi', h2'.symm, ?_, fun j hj ha => ?_⟩
    · unfold Asks
      rw [h2']
      exact (isIn_iff _ _).mp h1
    · have := h3 j hj
      rw [List.getElem_map, (isIn_iff _ _).mpr ha] at this
      simp at this

/-- The answer is always one of the seven rules. -/
theorem parse_total (message : List Char) : ∃ r ∈ rules, parse message = r.toList := by
  rcases parse_spec message with ⟨i, h, hp, -⟩ | ⟨hp, -⟩
  · exact ⟨rules[i], List.getElem_mem h, hp⟩
  · exact ⟨"patch", by simp [rules], hp⟩

/-- A message without a hash is a patch. -/
theorem parse_default (message : List Char) (h : '#' ∉ message) : parse message = "patch".toList := by
  have hn : ∀ r, ¬ Asks message r := fun r ha => h (ha.subset (by simp))
  rcases parse_spec message with ⟨i, hi, -, ha, -⟩ | ⟨hp, -⟩
  · exact absurd ha (hn _)
  · exact hp

/-- The message is only looked at for the seven words: what surrounds them does not matter, and more text never turns a rule into one later in the list. -/
theorem parse_context (message before after : List Char) (i j : Nat) (hi : i < rules.length) (hj : j < rules.length)
    (h : Asks message rules[i]) (hp : parse (before ++ message ++ after) = rules[j].toList) : j ≤ i := by
  have ha : Asks (before ++ message ++ after) rules[i] := h.trans ⟨before, after, rfl⟩
  rcases parse_spec (before ++ message ++ after) with ⟨k, hk, hp', -, hmin⟩ | ⟨-, hn⟩
  · have hkj : k = j := by
      have he : rules[k].toList = rules[j].toList := hp'.symm.trans hp
      have he' : rules[k] = rules[j] := String.toList_inj.mp he
      have hnd : rules.Nodup := by decide
      exact (List.Nodup.getElem_inj_iff hnd).mp he'
    subst hkj
    by_contra hlt
    exact hmin i (by omega) ha
  · exact absurd ha (hn _ (List.getElem_mem hi))

/-- A message that asks for a major and for a patch release gives a patch release. -/
theorem smaller_wins : parse "New API #major, typos #patch".toList = "patch".toList := by decide +kernel

/-- The cases occur. -/
example : parse "Fix index #preminor".toList = "preminor".toList ∧ Asks "Fix index #preminor".toList rules[2] :=
  ⟨by decide +kernel, ⟨"Fix index ".toList, [], by decide +kernel⟩⟩

end Verif.Props.BumpRule
