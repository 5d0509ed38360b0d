import Verif.Model.Sub

/-!
# Evaluating expressions at a solution

Models `SolutionArray.subinto` and `__call__` (gpkit/solution_array.py 358-360 and 612-624). A solution is the dict of values of the variables, in the
units of each; vectors are already taken apart (C23, C26). A swept solution is the list of its solutions (`atindex`, C29).
-/

namespace Verif
namespace SolCall
variable {V K D : Type} [DecidableEq V] [Field K] [LinearOrder K] [HasPow K]

/-- What can be asked for. -/
inductive Query (V K D : Type) where
  /-- a `Variable` -/
  | var (v : V)
  /-- any other nomial -/
  | nom (n : Nomial V K D)

/-- `posy.sub(self["variables"])` (gpkit/nomials/math.py 166-167). -/
def subOne (se : Bool) (vars : PyDict V K) (rounds : List (V × List (HV V K))) (h : NMap V K D) : Except Err (Nomial V K D) := do
  let h' ← h.sub vars rounds
  mkSig se true h'

/-- `subinto` for one solution (gpkit/solution_array.py 612-624): a number or a nomial. -/
def subinto (vunits : V → Option (UnitQ D K)) (se : Bool) (vars : PyDict V K) (rounds : List (V × List (HV V K))) : Query V K D → Except Err (PyVal V K D)
  | .var v =>
    match vars.get? v with
    | some c => .ok (.num ⟨c, vunits v⟩)
    | none => (subOne se vars rounds (varNomial vunits v).hmap).map .nom
  | .nom n => (subOne se vars rounds n.hmap).map .nom

/-- `getattr(x, "c", x)`: only monomials have a coefficient (gpkit/nomials/math.py 306-311). -/
def coeff : PyVal V K D → PyVal V K D
  | .num q => .num q
  | .nom n =>
    match n.cls, n.hmap.terms with
    | .monomial, [t] => .num ⟨t.2, n.hmap.units⟩
    | _, _ => .nom n

/-- `sol(posy)` for one solution (gpkit/solution_array.py 358-360). -/
def call (vunits : V → Option (UnitQ D K)) (se : Bool) (vars : PyDict V K) (rounds : List (V × List (HV V K))) (q : Query V K D) :
    Except Err (PyVal V K D) := (subinto vunits se vars rounds q).map coeff

/-- `sol(posy)` for several solutions of an expression that is no variable of theirs (gpkit/solution_array.py 620-622): an array, which has no
coefficient. Each solution comes with the iteration order of its sets. -/
def callSweep (vunits : V → Option (UnitQ D K)) (se : Bool) (sols : List (PyDict V K × List (V × List (HV V K)))) (q : Query V K D) :
    Except Err (List (PyVal V K D)) := sols.mapM (fun s => subinto vunits se s.1 s.2 q)

end SolCall
end Verif
