import Verif.Model.History

/-!
# Specification of the history log
-/

namespace Verif.Spec.History
open Verif.History

/-- A line that would not be run: a comment. -/
def Commented (l : Line) : Prop := l.head? = some '#'

/-- A line of the script: neither blank nor a comment. -/
def isCode (l : Line) : Bool := l != [] && l.head? != some '#'

/-- The script that a history represents. -/
def script (history : List Line) : List Line := history.filter isCode

/-- What a method body may do to object `i` before it records itself: append notes and call other
methods on the same object, which may or may not record themselves. -/
inductive Inner (i : Nat) : Prog → Prop
  | done : Inner i .done
  | append (hist : List (List Char)) (extra : Int) (k : Prog) :
      0 ≤ extra → Inner i k → Inner i (.append i hist extra k)
  | recorded (entry : List Char) (body k : Prog) :
      Inner i body → Inner i k → Inner i (.call i (body.seq (.record i entry)) k)
  | unrecorded (body k : Prog) : Inner i body → Inner i k → Inner i (.call i body k)

/-- A user's sequence of method calls on object `i`, with the entries of the calls that record
themselves by decrementing the depth first. -/
inductive Session (i : Nat) : Prog → List (List Char) → Prop
  | nil : Session i .done []
  | recorded (entry : List Char) (body k : Prog) (es : List (List Char)) :
      Inner i body → Session i k es → Session i (.call i (body.seq (.record i entry)) k) (entry :: es)
  | unrecorded (body k : Prog) (es : List (List Char)) :
      Inner i body → Session i k es → Session i (.call i body k) es

/-- A method of object `i` that returns a new object number `w` and records itself there as
`entry`. -/
inductive Returns (i w : Nat) : Prog → List Char → Prop
  | copy (entry : List Char) : Returns i w (.method i (.clone i (.record w entry))) entry
  | nest (p q : Prog) (e entry : List Char) : Returns i w p e → Inner w q →
      Returns i w (.method i (p.seq (q.seq (.record w entry)))) entry

end Verif.Spec.History
