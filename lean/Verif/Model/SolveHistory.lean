import Verif.Model.Constraint

/-!
# Solving the same constraint again

The attributes of a constraint object survive from one solve to the next.
-/

namespace Verif
section
variable {V K : Type} [DecidableEq V] [Field K] [LinearOrder K] [HasPow K]

/-- One solve of a model, as far as one constraint sees it: the constants, the iteration order of sets, and the duals if the solver found a solution. -/
structure SolveEvent (V K : Type) where
  /-- `parse_subs(posy.vks, substitutions)` -/
  fixed : PyDict V K
  /-- the order of the sets in `sub` -/
  rounds : List (V × List (HV V K))
  /-- `la` and `nu` of this constraint -/
  duals : Option (K × List K)

/-- `as_hmapslt1` while the program is made (gpkit/constraints/gp.py 87), then `sens_from_dual` when the result is compiled
(gpkit/constraints/gp.py 311-314), which happens only if the constraint has a form and the solver a solution. -/
def afterSolve (feastol : K) (h : PyDict (HV V K) K) (m : Memo K) (r : SolveEvent V K) : Memo K :=
  match formStep feastol h r.fixed r.rounds m, r.duals with
  | (.ok [_], m'), some d => (sensFromDual h m' d.1 d.2).2
  | (_, m'), _ => m'

/-- The sensitivities reported by the last of several solves. -/
def reportAfter (feastol : K) (h : PyDict (HV V K) K) (past : List (SolveEvent V K)) (fixed : PyDict V K) (rounds : List (V × List (HV V K)))
    (la : K) (nu : List K) : PyDict V K :=
  (sensFromDual h (formStep feastol h fixed rounds (past.foldl (afterSolve feastol h) {})).2 la nu).1

end
end Verif
