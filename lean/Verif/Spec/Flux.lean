import Verif.Model.Flux
import Verif.Spec.AngMom
import Verif.Spec.Slicing

/-!
# Specification of expectation values
-/

namespace Verif.Spec.Flux
open Verif.Flux Verif.Slicing Verif.Spec.AngMom Verif.Spec.Slicing ComplexConjugate

/-- The element `M_{j n l m}` of the operator given by sparse entries: the sum of the entries there. -/
noncomputable def matEl (gen : List Entry) (j n l m : Int) : ℂ :=
  ((gen.filter fun e => e.j = j ∧ e.n = n ∧ e.l = l ∧ e.m = m).map Entry.val).sum

/-- All entries are between modes with `a ≤ ell ≤ b`. -/
def Inside (a b : Int) (gen : List Entry) : Prop :=
  ∀ e ∈ gen, (a ≤ e.j ∧ e.j ≤ b ∧ -e.j ≤ e.n ∧ e.n ≤ e.j) ∧ (a ≤ e.l ∧ e.l ≤ b ∧ -e.l ≤ e.m ∧ e.m ≤ e.l)

/-- `⟨f|M|g⟩`, the sum over all modes with `a ≤ ell ≤ b`. -/
noncomputable def bracket (a b : Int) (f : Fn) (M : Int → Int → Int → Int → ℂ) (g : Fn) : ℂ :=
  ∑ j ∈ Finset.Icc a b, ∑ n ∈ Finset.Icc (-j) j, ∑ l ∈ Finset.Icc a b, ∑ m ∈ Finset.Icc (-l) l,
    conj (f j n) * M j n l m * g l m

/-- The modes of a waveform at time number `k`. -/
noncomputable def modesOf (w : WM ℝ Unit ℂ) (k : Nat) : Fn := fun ell m => (modeAt w k ell m).getD 0

end Verif.Spec.Flux
