import Verif.Py.Basic

/-!
# Tables in text files
-/

namespace Verif.Spec.Catalog

/-- The parts of a text between the characters `c`. -/
def cut (c : Char) : List Char → List (List Char)
  | [] => [[]]
  | x :: s => if x = c then [] :: cut c s else match cut c s with
    | [] => [[x]]
    | w :: ws => (x :: w) :: ws

/-- The lines of a text: each ends with a newline. -/
def linesOf (s : List Char) : List (List Char) := (cut '\n' s).dropLast

/-- The cells of a line. -/
def cells (l : List Char) : List (List Char) := cut ',' l

/-- What `pandas.read_csv` finds in the row `row` under a name: rows that have one cell more than there are names begin with the label of the row. -/
def column (names row : List (List Char)) (name : List Char) : Option (List Char) :=
  if row.length = names.length + 1 then ((names.zip row.tail).lookup name) else (names.zip row).lookup name

end Verif.Spec.Catalog
