import Verif.Model.DataTypes

/-!
# Model of `/repo/.github/scripts/parse_bump_rule.py`
-/

namespace Verif.BumpRule

open Verif.DataTypes (isIn)

/-- The loop over the levels (lines 10-12): `none` if it ends without returning. -/
def levels (message pre : List Char) : List (List Char) → Option (List Char)
  | [] => none
  | level :: rest => if isIn ('#' :: (pre ++ level)) message then some (pre ++ level) else levels message pre rest

/-- The loop over the prefixes (lines 9-12). -/
def prefixes (message : List Char) : List (List Char) → Option (List Char)
  | [] => none
  | pre :: rest =>
    match levels message pre ["patch".toList, "minor".toList, "major".toList] with
    | some r => some r
    | none => prefixes message rest

/-- `parse(message)` (lines 5-14). -/
def parse (message : List Char) : List Char :=
  if isIn "#prerelease".toList message then "prerelease".toList
  else match prefixes message ["pre".toList, []] with
    | some r => r
    | none => "patch".toList

end Verif.BumpRule
