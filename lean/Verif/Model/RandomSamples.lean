import Verif.Model.Samples
import Verif.Model.AbdTransform
import Mathlib.Data.List.Sort
import Mathlib.Data.Real.Basic

/-!
# Model of the random sample waveforms (`scri/sample_waveforms.py` lines 104-192)

The generator of `numpy.random` is a parameter: two streams of numbers for each seed.  Its state is the seed and the number of the next item; how many words of the generator one number takes is not modelled.
Warnings are not modelled.
-/

namespace Verif.RandomSamples
open Verif.Modes Verif.Samples

/-- `numpy.random` (external): the items of the stream of a seed, uniform between 0 and 1, or normal. -/
structure Source where
  uniform : Int → Nat → ℝ
  normal : Int → Nat → ℝ

/-- The global state of `numpy.random`. -/
structure Rng where
  seed : Int
  pos : Nat
  deriving DecidableEq

/-- `np.random.uniform(a, b, size=n)` -/
noncomputable def uniforms (S : Source) (a b : ℝ) (n : Nat) (g : Rng) : List ℝ × Rng :=
  ((List.range n).map fun k => a + (b - a) * S.uniform g.seed (g.pos + k), { g with pos := g.pos + n })

/-- `np.random.normal(size=n)` -/
noncomputable def normals (S : Source) (n : Nat) (g : Rng) : List ℝ × Rng :=
  ((List.range n).map fun k => S.normal g.seed (g.pos + k), { g with pos := g.pos + n })

/-- The keyword arguments; `others` are all that neither function takes from `kwargs`. -/
structure Kw where
  begin_ : Option ℝ := none
  end_ : Option ℝ := none
  nTimes : Option Int := none
  uniformTime : Option Bool := none
  t : Option (List ℝ) := none
  rotating : Option Bool := none
  others : Kwargs := {}

/-- `np.linspace(a, b, num=n)` -/
noncomputable def linspace (a b : ℝ) (n : Nat) : List ℝ := (List.range n).map fun k : Nat => a + k * ((b - a) / (n - 1 : ℝ))

/-- The keywords that remain after the others were popped (lines 122-129, 167-174): these are printed in the constructor statement. -/
def remaining (kw : Kw) : Kw := { others := kw.others, t := if kw.uniformTime.getD false then none else kw.t }

/-- `np.sort` -/
noncomputable def sorted (l : List ℝ) : List ℝ := l.insertionSort (· ≤ ·)

/-- The times (lines 122-128, 167-173).  A negative number of times is a `ValueError` of numpy. -/
noncomputable def times (S : Source) (kw : Kw) (g : Rng) : Py (List ℝ × Rng) :=
  let begin_ := kw.begin_.getD (-10)
  let end_ := kw.end_.getD 100
  let n := kw.nTimes.getD 1101
  if n < 0 then .error .valueError
  else if kw.uniformTime.getD false then .ok (kw.t.getD (linspace begin_ end_ n.toNat), g)
  else
    let (l, g) := uniforms S begin_ end_ n.toNat g
    .ok (sorted l, g)

/-- `np.quaternion(*np.random.uniform(-1, 1, 4)).normalized()` -/
noncomputable def randomRotor (S : Source) (g : Rng) : Quaternion ℝ × Rng :=
  let (l, g) := uniforms S (-1) 1 4 g
  let q : Quaternion ℝ := ⟨l.getD 0 0, l.getD 1 0, l.getD 2 0, l.getD 3 0⟩
  ((√(Quaternion.normSq q))⁻¹ • q, g)

/-- The list of line 141: one rotor for each time. -/
noncomputable def randomRotors (S : Source) : Nat → Rng → List (Quaternion ℝ) × Rng
  | 0, g => ([], g)
  | n + 1, g =>
    let (q, g) := randomRotor S g
    let (l, g) := randomRotors S n g
    (q :: l, g)

/-- A constructor statement: the name of the function, and the keywords. -/
structure Statement where
  name : String
  kw : Kw

/-- What is returned: the waveform, its constructor statement, and the state of the generator. -/
structure Out where
  wave : Wave
  statement : Statement
  rng : Rng

/-- `.view(complex)[..., 0]` of an array whose last axis has two items: number `k`. -/
def asComplex (l : List ℝ) (k : Nat) : ℂ := ⟨l.getD (2 * k) 0, l.getD (2 * k + 1) 0⟩

/-- The largest seed of numpy is `2^32 - 1`. -/
def seedOf (hash : String → Int) (name : String) : Rng := { seed := hash name % 4294967294, pos := 0 }

/-- `random_waveform(**kwargs)` (lines 104-146), in a state of the generator.  `hash` is that of the running interpreter.  `sf.LM_range` and the spin weight are those of `modes_constructor` with its defaults. -/
noncomputable def randomWaveform (hash : String → Int) (S : Source) (kw : Kw) (_g : Rng) : Py Out := do
  let g := seedOf hash "random_waveform"
  let (t, g) ← times S kw g
  let rotating := kw.rotating.getD true
  let (frame, g) := if rotating then randomRotors S t.length g else ([], g)
  let cols := (LMRange 2 8).length
  let (l, g) := normals S (2 * (t.length * cols)) g
  let functor := fun (_ : List ℝ) (LM : List (Int × Int)) => (.ok fun i j => if 0 ≤ j then asComplex l (i * LM.length + j.toNat) else 0 : Py (Nat → Row ℂ))
  let w ← modesConstructor functor { t := some t, frame := if rotating then some frame else none, frameType := if rotating then some 4 else none }
  pure { wave := w, statement := { name := "random_waveform", kw := remaining kw }, rng := g }

/-- The frame of lines 185-187: four turns around an axis.  Simplified: if `t[-1] - t[0]` is 0, numpy makes infinite and undefined numbers, which are not modelled. -/
noncomputable def turning (x y z : ℝ) (t : List ℝ) : Py (List (Quaternion ℝ)) := do
  let v : Fin 3 → ℝ := ![x, y, z]
  let last ← pyGet t (-1)
  let first ← pyGet t 0
  let omega := 2 * Real.pi * 4 / (last - first)
  pure (t.map fun ti => AbdTransform.expRotor (fun i => v i / AbdTransform.vabs v) (omega * ti / 2))

/-- The branches of line 184: no frame if it is not to rotate. -/
noncomputable def turningFrame (rotating : Bool) (l : List ℝ) (t : List ℝ) : Py (List (Quaternion ℝ)) :=
  if rotating then turning (l.getD 0 0) (l.getD 1 0) (l.getD 2 0) t else .ok []

/-- `random_waveform_proportional_to_time(**kwargs)` (lines 149-192). -/
noncomputable def proportionalWaveform (hash : String → Int) (S : Source) (kw : Kw) (_g : Rng) : Py Out := do
  let g := seedOf hash "random_waveform_proportional_to_time"
  let (t, g) ← times S kw g
  let rotating := kw.rotating.getD true
  let (l3, g) := if rotating then uniforms S (-1) 1 3 g else ([], g)
  let frame ← turningFrame rotating l3 t
  let cols := (LMRange 2 8).length
  let (l, g) := normals S (2 * cols) g
  let functor := fun (tin : List ℝ) (_ : List (Int × Int)) => (.ok fun i j => if 0 ≤ j then (tin.getD i 0 : ℝ) * asComplex l j.toNat else 0 : Py (Nat → Row ℂ))
  let w ← modesConstructor functor { t := some t, frame := if rotating then some frame else none, frameType := if rotating then some 4 else none }
  pure { wave := w, statement := { name := "random_waveform", kw := remaining kw }, rng := g }

end Verif.RandomSamples
