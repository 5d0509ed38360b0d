import Verif.Model.Names

/-!
# Texts of models

Models `SingleEquationConstraint.str_without` (gpkit/constraints/single_equation.py 16-28), `ArrayConstraint.lines_without` (gpkit/constraints/array.py 19-21),
`recursively_line` and `ConstraintSet.lines_without` and `str_without` (gpkit/constraints/set.py 212-235 and 258-287), and `CostedConstraintSet._rootlines`
(gpkit/constraints/costed.py 34-46).

Simplifications: the texts of the two sides of a constraint, of costs and of keys are given (see C44 and C79 for them). White space is the space. No set
contains itself. The flag `necessarylineage` is part of `Model/Names.lean`.
-/

namespace Verif
namespace Outline
open VK

/-- `oper`. -/
inductive Oper where
  | le
  | ge
  | eq
deriving DecidableEq, Repr

/-- `self.oper` (gpkit/constraints/single_equation.py 9-11). -/
def Oper.ascii : Oper → Str
  | .le => ['<', '=']
  | .ge => ['>', '=']
  | .eq => ['=']

/-- `self.unicode_opers[self.oper]` (gpkit/constraints/single_equation.py 10). -/
def Oper.unicode : Oper → Str
  | .le => ['≤']
  | .ge => ['≥']
  | .eq => ['=']

/-- `s.split("\n")`. -/
def splitLines : Str → List Str
  | [] => [[]]
  | c :: s => if c = '\n' then [] :: splitLines s else
    match splitLines s with
    | [] => [[c]]
    | l :: ls => (c :: l) :: ls

/-- `s.rstrip()`. -/
def rstrip (s : Str) : Str := (s.reverse.dropWhile (· == ' ')).reverse

/-- A constraint that is printed as one equation: the texts of its sides and its operator. -/
structure Eqn where
  /-- `leftstr` -/
  left : Str
  /-- `oper` -/
  oper : Oper
  /-- `rightstr` -/
  right : Str
deriving DecidableEq, Repr

/-- The indent of the lines of the right side (gpkit/constraints/single_equation.py 22). -/
def Eqn.indent (e : Eqn) : Nat := (((splitLines e.left).getLast?.getD []) ++ ' ' :: e.oper.ascii ++ [' ']).length

/-- `SingleEquationConstraint.str_without` (gpkit/constraints/single_equation.py 16-28); `uni` is `UNICODE_EXPONENTS`. -/
def Eqn.text (uni : Bool) (e : Eqn) : Str :=
  let rlines := splitLines e.right
  let right := if 1 < rlines.length then join ('\n' :: List.replicate e.indent ' ') rlines else e.right
  e.left ++ ' ' :: (if uni then e.oper.unicode else e.oper.ascii) ++ ' ' :: right

/-- `try_str_without(constraint, excluded).split("\n")` (gpkit/constraints/set.py 271, gpkit/constraints/array.py 23). -/
def Eqn.lines (uni : Bool) (e : Eqn) : List Str := splitLines (e.text uni)

/-- The elements of a set, list or dictionary, each with its key if there is one. -/
inductive Kids where
  | nil
  /-- a constraint -/
  | con (key : Option Str) (e : Eqn) (rest : Kids)
  /-- a list, array or dictionary -/
  | lst (key : Option Str) (kids rest : Kids)
  /-- a `ConstraintSet` with the last element of its `lineage` -/
  | cset (key : Option Str) (head : Option (Str × Nat)) (kids rest : Kids)
deriving DecidableEq, Repr

/-- `" (no constraints)"`. -/
def noCons : Str := " (no constraints)".toList

/-- `"\"%s\":" % key`. -/
def quote (key : Str) : Str := '"' :: key ++ ['"', ':']

/-- The second half of the body of the loop of `recursively_line` (gpkit/constraints/set.py 276-286). -/
def place (names : Bool) (lines : List Str) (key : Option Str) (head : Option (Str × Nat)) (clines : List Str) : List Str :=
  match head with
  | some h =>
    let clines := if clines.any (fun l => !l.isEmpty) then clines else [noCons]
    let lines := if lines.isEmpty then lines else lines ++ [[]]
    lines ++ [Names.piece true h] ++ clines
  | none =>
    match names, key with
    | true, some k => lines ++ [quote k] ++ clines.map (fun l => ' ' :: ' ' :: l)
    | _, _ => lines ++ clines

/-- `indent` (gpkit/constraints/set.py 225). -/
def indentOf (named : Bool) : Str := if named then [' '] else []

/-- `(indent+line).rstrip()` for each line (gpkit/constraints/set.py 230). -/
def indented (indent : Str) (lines : List Str) : List Str := lines.map (fun l => rstrip (indent ++ l))

/-- `recursively_line` (gpkit/constraints/set.py 258-287) from the lines of the elements before; with `lines_without` of the sets inside, for which "root" is
excluded (gpkit/constraints/set.py 224-230). -/
def recLine (uni names : Bool) : Kids → List Str → List Str
  | .nil, lines => lines
  | .con key e rest, lines => recLine uni names rest (place names lines key none (e.lines uni))
  | .lst key kids rest, lines => recLine uni names rest (place names lines key none (recLine uni names kids []))
  | .cset key head kids rest, lines =>
    recLine uni names rest (place names lines key head (indented (indentOf head.isSome) (recLine uni names kids [])))

/-- What is printed, from the top: `lineage`, the text of the cost if it has variables, and the elements. -/
structure Root where
  /-- `lineage` -/
  lineage : List (Str × Nat)
  /-- `self.cost.str_without(excluded)`, `none` if `self.cost.vks` is empty -/
  cost : Option Str
  /-- its elements -/
  kids : Kids
deriving DecidableEq, Repr

/-- `_rootlines` (gpkit/constraints/costed.py 34-46). -/
def rootLines (r : Root) : List Str :=
  let description :=
    match r.cost with
    | some c => [[], "Cost Function".toList, "-------------".toList, ' ' :: c, [], "Constraints".toList, "-----------".toList]
    | none => [[], "Constraints".toList, "-----------".toList]
  if r.lineage.isEmpty then description
  else
    let fullname := Names.lineageStr true r.lineage
    [fullname, List.replicate fullname.length '='] ++ description

/-- `lines_without` of the set printed (gpkit/constraints/set.py 212-230); `short`: "unnecessary lineage" is excluded. -/
def topLines (uni names short named : Bool) (kids : Kids) : List Str :=
  indented (indentOf named ++ indentOf short) (recLine uni names kids [])

/-- `str_without` of a `ConstraintSet` (gpkit/constraints/set.py 232-235). -/
def setText (uni names short : Bool) (kids : Kids) : Str := join ['\n'] (topLines uni names short false kids)

/-- `str_without` of a `Model`. -/
def modelText (uni names short : Bool) (r : Root) : Str := join ['\n'] (rootLines r ++ topLines uni names short (!r.lineage.isEmpty) r.kids)

end Outline
end Verif
