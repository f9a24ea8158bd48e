import Verif.Model.SpecFile

/-!
# What the files are for (C74)
-/

namespace Verif.Spec.SpecFile

open Verif Verif.SpecFile Verif.Modes

/-- A waveform that can be stored: times that increase (or decrease), a column with as many values for each mode, and a data type that exists. -/
structure Valid (w : Wave) : Prop where
  some : w.t ≠ []
  mono : w.t.Pairwise (· < ·) ∨ w.t.Pairwise (· > ·)
  ells : 0 ≤ w.ellMin ∧ w.ellMin ≤ w.ellMax
  modes : w.cols.length = (LMRange w.ellMin w.ellMax).length
  rows : ∀ c ∈ w.cols, c.length = w.t.length
  type : 0 ≤ w.dataType ∧ w.dataType ≤ 10

/-- Attributes that a user may add. -/
def Free (attributes : List (String × AttrVal)) : Prop :=
  ∀ p ∈ attributes, p.1 ≠ "MIsScaledOut" ∧ p.1 ≠ "RIsScaledOut" ∧ p.1 ≠ "DataType" ∧ p.1 ≠ "FrameType" ∧ p.1 ≠ "OutputFormatVersion"

/-- A vector that was added as an attribute, or else the one that is found in the history. -/
def vector (attributes : List (String × AttrVal)) (name : String) (found : Option (List ℝ)) : Option (List ℝ) :=
  match attributes.reverse.lookup name with
  | some (.reals l) => some l
  | some _ => none
  | none => found

/-- Files as `write_to_h5` makes them: a root without a waveform is empty. -/
def Clean (fs : Fs) : Prop := ∀ name F, fs name = some F → F.root.history = none → F.root = {}

end Verif.Spec.SpecFile
