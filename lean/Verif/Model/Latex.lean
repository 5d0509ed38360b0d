import Verif.Model.Outline
import Verif.Model.HashVector
import Mathlib.Data.Int.Log
import Mathlib.Algebra.Order.Archimedean.Real.Basic

/-!
# LaTeX

Models `nomial_latex_helper` and `Nomial.latex` (gpkit/nomials/core.py 7-31 and 70-86), `SingleEquationConstraint.latex`
(gpkit/constraints/single_equation.py 30-35), `ConstraintSet.latex` (gpkit/constraints/set.py 235-251) and `CostedConstraintSet._rootlatex`
(gpkit/constraints/costed.py 47-51).

Simplifications: the LaTeX of a nomial is a list of tokens, in which a variable is one token, whatever its name, and numbers are their values. Numbers are
real and not rounded before they are printed. Units are left out (`"units" in excluded`, as for constraints and models). The LaTeX of sets is a string,
in which that of their constraints is given.
-/

namespace Verif
namespace Latex
open VK

/-- The nearest integer, of two the even one. -/
noncomputable def nearest (x : ℝ) : ℤ :=
  if x - ⌊x⌋ < 1 / 2 then ⌊x⌋ else if 1 / 2 < x - ⌊x⌋ then ⌊x⌋ + 1 else if Even ⌊x⌋ then ⌊x⌋ else ⌊x⌋ + 1

/-- The place of the first digit of a number. -/
noncomputable def place (x : ℝ) : ℤ := Int.log 10 |x|

/-- The number that `"%.<n>g" % x` shows. -/
noncomputable def shown (n : ℕ) (x : ℝ) : ℝ := nearest (x / 10 ^ (place x - n + 1)) * 10 ^ (place x - n + 1)

/-- A piece of LaTeX without fractions. -/
inductive Atom (V : Type) where
  /-- digits -/
  | num (c : ℝ)
  /-- `-` -/
  | neg
  /-- ` \times 10^{k}` -/
  | ten (k : ℤ)
  /-- a variable -/
  | name (v : V)
  /-- `^{x}` -/
  | expo (x : ℝ)

/-- A piece of LaTeX. -/
inductive Tok (V : Type) where
  /-- one without fractions -/
  | atom (a : Atom V)
  /-- `\frac{p}{q}` -/
  | frac (p q : List (Atom V))
  /-- ` + ` -/
  | plus
  /-- ` \leq `, ` \geq ` or ` = ` -/
  | rel (o : Outline.Oper)

variable {V : Type}

/-- What `sorted` makes of texts. -/
structure Sorting (V : Type) where
  /-- `sorted(pvarstrs)` -/
  vars : List (List (Atom V)) → List (List (Atom V))
  /-- `sorted(mstrs)` -/
  terms : List (List (Tok V)) → List (List (Tok V))

/-- `pvarstrs` and `nvarstrs` (gpkit/nomials/core.py 10-13). -/
noncomputable def varText (vx : V × ℝ) : List (Atom V) := .name vx.1 :: if shown 2 vx.2 ≠ 1 then [.expo (shown 2 vx.2)] else []

/-- `"%.4g" % c`, where exponential notation is replaced (gpkit/nomials/core.py 20-23). -/
noncomputable def numText (c : ℝ) : List (Atom V) :=
  let r := shown 4 c
  let sign := if r < 0 then [.neg] else []
  if place r < -4 ∨ 4 ≤ place r then sign ++ [.num (|r| / 10 ^ place r), .ten (place r)] else sign ++ [.num |r|]

/-- `cstr` (gpkit/nomials/core.py 16-23). -/
noncomputable def coefText (pos : Bool) (c : ℝ) : List (Atom V) :=
  if pos ∧ shown 2 c = 1 then []
  else if pos ∧ shown 2 c = -1 then [.neg]
  else numText c

/-- `nomial_latex_helper` (gpkit/nomials/core.py 7-31). -/
noncomputable def helper (F : Sorting V) (c : ℝ) (pos neg : List (V × ℝ)) : List (Tok V) :=
  let p := (F.vars (pos.map varText)).flatten
  let n := (F.vars (neg.map (fun vx => varText (vx.1, -vx.2)))).flatten
  let cs := coefText (!pos.isEmpty) c
  if !pos.isEmpty ∧ !neg.isEmpty then cs.map .atom ++ [.frac p n]
  else if !neg.isEmpty then [.frac cs n]
  else if !pos.isEmpty then cs.map .atom ++ p.map .atom
  else cs.map .atom

/-- `" + ".join(mstrs)`. -/
def join : List (List (Tok V)) → List (Tok V)
  | [] => []
  | [t] => t
  | t :: ts => t ++ .plus :: join ts

/-- `Nomial.latex` (gpkit/nomials/core.py 70-83). -/
noncomputable def nomial (F : Sorting V) (ts : List (HV V ℝ × ℝ)) : List (Tok V) :=
  join (F.terms (ts.map (fun t => helper F t.2 (t.1.items.filter (fun vx => 0 < vx.2)) (t.1.items.filter (fun vx => vx.2 < 0)))))

/-- `SingleEquationConstraint.latex` (gpkit/constraints/single_equation.py 30-35). -/
noncomputable def constraint (F : Sorting V) (l : List (HV V ℝ × ℝ)) (o : Outline.Oper) (r : List (HV V ℝ × ℝ)) : List (Tok V) :=
  nomial F l ++ .rel o :: nomial F r

/-! ### Sets of constraints -/

/-- What is in a set: a constraint, by its LaTeX, or a set, by what is in it. -/
inductive Item where
  | con (s : Str)
  | set (l : List Item)

/-- `"\n".join(lines)`. -/
def joinLines : List Str → Str
  | [] => []
  | [l] => l
  | l :: ls => l ++ '\n' :: joinLines ls

/-- `"    & "`. -/
def indent : Str := [' ', ' ', ' ', ' ', '&', ' ']

/-- `" \\\\"`. -/
def rowEnd : Str := [' ', '\\', '\\']

/-- A line (gpkit/constraints/set.py 246-248). -/
def line (s : Str) : Str := if s.take 6 ≠ indent then indent ++ s ++ rowEnd else s

mutual
/-- The LaTeX of what is in a set, without that of the root (gpkit/constraints/set.py 245-251). -/
def Item.latex : Item → Str
  | .con s => s
  | .set l => joinLines (itemLines l)

/-- The lines of what is in a set (gpkit/constraints/set.py 244-248). -/
def itemLines : List Item → List Str
  | [] => []
  | i :: l => line i.latex :: itemLines l
end

/-- `"\\begin{array}{ll} \\text{}"`. -/
def begins : Str := "\\begin{array}{ll} \\text{}".toList

/-- `"\\end{array}"`. -/
def ends : Str := "\\end{array}".toList

/-- `CostedConstraintSet._rootlatex` (gpkit/constraints/costed.py 47-51), given the LaTeX of the cost. -/
def rootlatex (cost : Str) : Str := joinLines ["\\text{minimize}".toList, indent ++ cost ++ rowEnd, "\\text{subject to}".toList]

/-- `ConstraintSet.latex` (gpkit/constraints/set.py 235-251) for a set with or without a cost; `root` says that `"root"` is not in `excluded`. -/
def setLatex (root : Bool) (cost : Option Str) (l : List Item) : Str :=
  if root then joinLines ([begins] ++ (cost.map rootlatex).toList ++ itemLines l ++ [ends]) else joinLines (itemLines l)

/-- A call of `latex` with a list for `excluded`, to which `+=` appends (gpkit/constraints/set.py 235-239): the LaTeX and the list after the call. -/
def callLatex (cost : Option Str) (l : List Item) (excluded : List Str) : Str × List Str :=
  let root := decide ("root".toList ∉ excluded)
  (setLatex root cost l, if root then excluded ++ ["root".toList] else excluded)

end Latex
end Verif
