import Verif.Model.Keywords

/-!
# Specification: no keyword argument is lost (C108)
-/

namespace Verif.Spec.Keywords
open Verif Verif.Keywords

/-- A dictionary has every name once. -/
def Proper {V : Type} (kw : Dict V) : Prop := (kw.map Prod.fst).Nodup

/-- Whenever the function returns, every argument that was passed has either been taken by the function or is listed in its warning, and not both; and the warning lists nothing else. -/
def Heard {V : Type} (F : Dict V → Py (Call V)) : Prop :=
  ∀ kw, Proper kw → ∀ c, F kw = .ok c →
    (∀ k v, (k, v) ∈ kw → (c.got k = some v ∧ (k, v) ∉ c.warned) ∨ (c.got k = none ∧ (k, v) ∈ c.warned)) ∧ (∀ p ∈ c.warned, p ∈ kw) ∧ ∀ k v, c.got k = some v → (k, v) ∈ kw

/-- An argument that the function takes no notice of, whatever the others are: the call is the same without it, and there is no warning. -/
def Ignored {V : Type} (F : Dict V → Py (Call V)) (k : String) : Prop := ∀ v kw, F ((k, v) :: kw) = F kw ∧ ∀ c, F kw = .ok c → c.warned = []

/-- The arguments that describe a BMS transformation, in both kinds of functions. -/
def frameNames : List String := ["time_translation", "space_translation", "spacetime_translation", "supertranslation", "frame_rotation", "boost_velocity"]

/-- The attributes of a waveform that its constructor takes. -/
def attributeNames : List String := ["t", "frame", "data", "history", "frameType", "dataType", "r_is_scaled_out", "m_is_scaled_out"]

/-- Whenever the function returns, it has taken each argument with one of these names that was passed. -/
def Uses {V : Type} (F : Dict V → Py (Call V)) (names : List String) : Prop := ∀ kw, Proper kw → ∀ c, F kw = .ok c → ∀ k v, k ∈ names → (k, v) ∈ kw → c.got k = some v

/-- The argument with the modes of `psi_n`. -/
def weylName : Nat → String
  | 0 => "psi0_modes"
  | 1 => "psi1_modes"
  | 2 => "psi2_modes"
  | 3 => "psi3_modes"
  | _ => "psi4_modes"

end Verif.Spec.Keywords
