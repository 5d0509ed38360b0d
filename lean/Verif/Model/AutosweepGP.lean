import Verif.Model.AutosweepCost
import Verif.Model.Shadow

/-!
# Autosweeps of geometric programs

Puts together the autosweep (`Model/Autosweep.lean`, `Model/AutosweepCost.lean`) and the solve of a geometric program with its sensitivities
(`Model/Shadow.lean`): every point is solved by `model.solve` (gpkit/tools/autosweep.py 236 and 261), and `get_tol` reads cost and sensitivities of the
results.

Simplifications: those of these two. All substitutions are numbers. A variable without sensitivity has the sensitivity zero, in Python reading it raises a
`KeyError` (gpkit/tools/autosweep.py 278).
-/

namespace Verif
namespace Auto
open Pipeline

variable {V D F : Type} [DecidableEq V] [AddCommGroup D] [DecidableEq D]

/-- The constants of the program (gpkit/constraints/prog_factories.py 96), where all substitutions are numbers. -/
def numbers : PyDict V (Val ℝ F) → Except Err (PyDict V ℝ)
  | [] => .ok []
  | (k, .num x) :: l => (numbers l).map (fun l => (k, x) :: l)
  | _ :: _ => .error .notModelled

/-- `model.solve()` in an autosweep (gpkit/tools/autosweep.py 236 and 261): the result, its sensitivities, and whether the check of the solution passed. -/
noncomputable def solveAt (feastol tol abstol : ℝ) (optimize : GP.Data V ℝ → Except Err SolverOut) (cost : NMap V ℝ D) (cons : List (Con V D))
    (ord : Orders V ℝ) (subs : PyDict V (Val ℝ F)) : Except Err (Result V × Senss V × Bool) := do
  let fixed ← numbers subs
  solveSens feastol tol abstol optimize cost cons fixed ord

/-- `sol["cost"]` (gpkit/tools/autosweep.py 47). -/
def solCost (s : Result V × Senss V × Bool) : ℝ := s.1.cost

/-- `sol["sensitivities"]["variables"][variable]` (gpkit/tools/autosweep.py 278). -/
def solSens (v : V) (s : Result V × Senss V × Bool) : ℝ := (s.2.1.vars.get? v).getD 0

/-- `autosweep_1d` of a geometric program (gpkit/tools/autosweep.py 226-252). -/
noncomputable def autosweepGP (feastol tol abstol : ℝ) (optimize : GP.Data V ℝ → Except Err SolverOut) (cost : NMap V ℝ D) (cons : List (Con V D))
    (ord : Orders V ℝ) (depth : Nat) (logtol : ℝ) (v : V) (lo hi : ℝ) (subs : PyDict V (Val ℝ F)) :
    AS V ℝ F × Except Err (Tree ℝ (Result V × Senss V × Bool) × Nat × ℝ) :=
  autosweep (solveAt feastol tol abstol optimize cost cons ord) (getTol solCost (solSens v)) depth logtol v lo hi subs

end Auto
end Verif
