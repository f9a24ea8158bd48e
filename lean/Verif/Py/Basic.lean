/-!
# Python exceptions as values

The models in this project mirror Python functions branch by branch.  A function that can
raise returns a value of type `Py α`.
-/

namespace Verif

/-- The exception classes that the modelled code can raise.  The message text is not modelled. -/
inductive PyErr where
  | valueError
  | indexError
  | typeError
  | keyError
  | nameError
  | attributeError
  | notImplemented
  | zeroDivision
  | assertion
  | overflow
  | outOfBounds
  | unboundLocal
  | other
  deriving DecidableEq, Repr

/-- Result of a Python call: a value or a raised exception. -/
abbrev Py (α : Type _) := Except PyErr α

/-- `raise` -/
def Py.raise {α : Type _} (e : PyErr) : Py α := Except.error e

/-- The call returned normally. -/
def Py.isOk {α : Type _} : Py α → Bool
  | .ok _ => true
  | .error _ => false

theorem ok_bind {α β : Type _} (x : α) (f : α → Py β) :
    (Except.ok x : Py α) >>= f = f x := rfl

theorem error_bind {α β : Type _} (e : PyErr) (f : α → Py β) :
    (Except.error e : Py α) >>= f = Except.error e := rfl

theorem pure_eq_ok {α : Type _} (x : α) : (pure x : Py α) = Except.ok x := rfl

/-- `l[i]` for a Python sequence: negative indices count from the end, anything outside the
sequence raises `IndexError`. -/
def pyGet {α : Type _} (l : List α) (i : Int) : Py α :=
  let j := if i < 0 then i + l.length else i
  if j < 0 then .error .indexError
  else match l[j.toNat]? with
    | some x => .ok x
    | none => .error .indexError

theorem pyGet_nat {α : Type _} {l : List α} {i : Nat} {x : α} (h : l[i]? = some x) :
    pyGet l (i : Int) = .ok x := by
  unfold pyGet
  have h1 : ¬ ((i : Int) < 0) := by omega
  simp [h1, h]

/-- `range(a, b)`. -/
def pyRange (a b : Int) : List Int := (List.range (b - a).toNat).map fun (k : Nat) => a + (k : Int)

theorem mem_pyRange {a b x : Int} : x ∈ pyRange a b ↔ a ≤ x ∧ x < b := by
  unfold pyRange
  simp only [List.mem_map, List.mem_range]
  constructor
  · rintro ⟨k, hk, rfl⟩; omega
  · rintro ⟨h1, h2⟩; exact ⟨(x - a).toNat, by omega, by omega⟩

theorem length_pyRange (a b : Int) : (pyRange a b).length = (b - a).toNat := by simp [pyRange]

theorem pyRange_empty {a b : Int} (h : b ≤ a) : pyRange a b = [] := by
  unfold pyRange; rw [show (b - a).toNat = 0 by omega]; rfl

theorem pyRange_snoc {a b : Int} (h : a ≤ b) : pyRange a (b + 1) = pyRange a b ++ [b] := by
  unfold pyRange
  rw [show (b + 1 - a).toNat = (b - a).toNat + 1 by omega, List.range_succ, List.map_append]
  simp only [List.map_cons, List.map_nil]
  congr 2; omega

theorem pyRange_append {a b c : Int} (h : a ≤ b) (h' : b ≤ c) :
    pyRange a b ++ pyRange b c = pyRange a c := by
  obtain ⟨n, hn⟩ : ∃ n : Nat, c = b + n := ⟨(c - b).toNat, by omega⟩
  subst hn
  induction n with
  | zero => rw [pyRange_empty (a := b) (by omega)]; simp
  | succ n ih =>
    rw [show b + ((n + 1 : Nat) : Int) = (b + n) + 1 by omega, pyRange_snoc (a := b) (by omega),
      pyRange_snoc (a := a) (by omega), ← List.append_assoc, ih (by omega)]

theorem getElem?_pyRange (a b : Int) (k : Nat) :
    (pyRange a b)[k]? = if (k : Int) < b - a then some (a + k) else none := by
  unfold pyRange
  rw [List.getElem?_map]
  split
  · rw [List.getElem?_range (by omega)]; rfl
  · rw [List.getElem?_eq_none (by simp; omega)]; rfl

theorem pyRange_nodup (a b : Int) : (pyRange a b).Nodup := by
  unfold pyRange
  rw [List.nodup_iff_pairwise_ne, List.pairwise_map]
  exact List.nodup_range.imp (fun h h' => h (by omega))

theorem pyRange_map_add (a b c : Int) :
    (pyRange a b).map (fun x => x + c) = pyRange (a + c) (b + c) := by
  unfold pyRange
  rw [show b + c - (a + c) = b - a by omega, List.map_map]
  apply List.map_congr_left
  intro k _
  simp only [Function.comp]; omega

end Verif
