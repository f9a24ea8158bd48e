import Verif.Model.SuperrestLoop

/-!
# Specification of the frame-fixing iterations

What is tried, which of the trials is the best, and which tolerances are met.
-/

namespace Verif.Spec.SuperrestLoop

open Verif Verif.Modes Verif.SuperrestLoop

/-- `Trials step s0 l s`: starting from `s0`, the iteration has made the trials `l` (each with its error) and is now at `s`. -/
inductive Trials {S : Type} (step : Nat → S → Py (S × Err)) (s0 : S) : List (S × Err) → S → Prop
  | nil : Trials step s0 [] s0
  | snoc (l : List (S × Err)) (s s' : S) (e : Err) : Trials step s0 l s → step l.length s = .ok (s', e) → Trials step s0 (l ++ [(s', e)]) s'

/-- Number `i` of the errors is the first of the smallest ones, and is finite.  A comparison with nan is false. -/
def FirstBest (errs : List Err) (i : Nat) : Prop :=
  ∃ e, errs[i]? = some e ∧ e.lt .inf ∧ (∀ (j : Nat) e', errs[j]? = some e' → ¬ e'.lt e) ∧ ∀ (j : Nat) e', j < i → errs[j]? = some e' → e'.lt .inf → e.lt e'

/-- No error is finite. -/
def NoneFinite (errs : List Err) : Prop := ∀ e ∈ errs, ¬ e.lt .inf

/-- What is kept is the first of the best trials, or the initial value if no error was finite. -/
def Kept {S B : Type} (out : S → B) (b0 : B) (l : List (S × Err)) (b : B) : Prop :=
  (∃ (i : Nat) (s : S) (e : Err), l[i]? = some (s, e) ∧ b = out s ∧ FirstBest (l.map Prod.snd) i) ∨ (b = b0 ∧ NoneFinite (l.map Prod.snd))

/-- The iteration has ended when it should: at most `N` trials, none after the tolerance was met, and fewer than `N` only if it was met. -/
def Ended {α : Type} (met : α → Prop) (l : List α) (N : Nat) : Prop := l.length ≤ N ∧ (∀ x ∈ l.dropLast, ¬ met x) ∧ (l.length = N ∨ ∃ x, l.getLast? = some x ∧ met x)

/-- `Solving env part abd l T a`: the trials `l` of a solver.  The solver is now at `T`, and `a` are the data transformed with it.  In each trial a transformation is found from the charge of the data
in the present frame and multiplied from the left; the part of the product that the solver is about is kept; the original data are transformed with that, and the error is that of the result. -/
inductive Solving {A G : Type} (env : Env A G) (part : Tr → Tr → Prop) (abd : A) : List (Tr × Err) → Tr → A → Prop
  | nil : Solving env part abd [] Tr.one abd
  | snoc (l : List (Tr × Err)) (T new T1 T2 : Tr) (a a' : A) (g g' : G) : Solving env part abd l T a → env.charge a = .ok g → env.fromCharge g = .ok new → env.compose new T = .ok T1 → part T1 T2 →
      env.transform abd T2 = .ok a' → env.charge a' = .ok g' → Solving env part abd (l ++ [(T2, env.error a' g')]) T2 a'

/-- The part of a transformation that concerns the center of mass: the boost, and the modes of the supertranslation with `ell <= 1`. -/
def ComPart (T T' : Tr) : Prop := T'.rotation = 1 ∧ T'.boost = T.boost ∧ ∀ ell m, 0 ≤ ell → -ell ≤ m → m ≤ ell → T'.super (lmIndex ell m 0) = if ell ≤ 1 then T.super (lmIndex ell m 0) else 0

/-- The rotation of a transformation. -/
def RotationPart (T T' : Tr) : Prop := T'.rotation = T.rotation ∧ T'.boost = 0 ∧ ∀ i, T'.super i = 0

/-- The mean of the three errors. -/
noncomputable def mean : Rel → Err
  | .start => .inf
  | .num e => e
  | .tuple (.fin a) (.fin b) (.fin c) => .fin ((a + b + c) / 3)
  | .tuple .nan _ _ => .nan
  | .tuple _ .nan _ => .nan
  | .tuple _ _ .nan => .nan
  | .tuple _ _ _ => .inf

/-- All three tolerances are met. -/
def Met (com rotation supertranslation : Err) (r : Rel) : Prop := ∃ a b c, r = .tuple a b c ∧ a.lt com ∧ b.lt rotation ∧ c.lt supertranslation

/-- The names that the loop knows how to treat. -/
def Known (target : Bool) (order : List Step) : Prop := ∀ s ∈ order, s ≠ .other ∧ (s = .timePhase → target = true)

/-- `Chain` for the names of `order`: each time a transformation is found from the data in the present frame, multiplied from the left, and the original data are transformed.  The last item is the
error of the last alignment in time and phase. -/
inductive Chain {A B : Type} (o : Outer A B) (interp : A) : List Step → B × A × Option Err → B × A × Option Err → Prop
  | nil (x) : Chain o interp [] x x
  | solve (s : Step) (rest : List Step) (b b' T : B) (a a' : A) (r) (x) : s = .supertranslation ∨ s = .rotation ∨ s = .com → o.solve s a = .ok T → o.compose T b = .ok b' →
      o.transform interp b' = .ok a' → Chain o interp rest (b', a', r) x → Chain o interp (s :: rest) (b, a, r) x
  | align (rest : List Step) (b b' T : B) (a a' : A) (r) (e : Err) (x) : o.align a = .ok (e, T) → o.compose T b = .ok b' →
      o.transform interp b' = .ok a' → Chain o interp rest (b', a', some e) x → Chain o interp (.timePhase :: rest) (b, a, r) x

/-- The error that is recorded after a pass: that of the alignment if there is a target and the pass ends with it, otherwise the three errors of the data. -/
def Measured {A B : Type} (o : Outer A B) (target : Bool) (order : List Step) (a : A) (al : Option Err) (r : Rel) : Prop :=
  if target = true ∧ order.getLast? = some .timePhase then ∃ e, al = some e ∧ r = .num e else ∃ x y z, o.errors a = .ok (x, y, z) ∧ r = .tuple x y z

/-- The passes of `map_to_superrest_frame` from the transformation `b0` and the data `a0`: what each has found, with its error. -/
inductive Passes {A B : Type} (o : Outer A B) (target : Bool) (order : List Step) (interp : A) (b0 : B) (a0 : A) : List (B × Rel) → B → A → Prop
  | nil : Passes o target order interp b0 a0 [] b0 a0
  | snoc (l : List (B × Rel)) (b b' : B) (a a' : A) (al) (r : Rel) : Passes o target order interp b0 a0 l b a → Chain o interp order (b, a, none) (b', a', al) → Measured o target order a' al r →
      Passes o target order interp b0 a0 (l ++ [(b', r)]) b' a'

end Verif.Spec.SuperrestLoop
