import Verif.Model.Constraint
import Verif.Model.Check
import Verif.Spec.Eval

/-!
# From a model to its solution

Models how `GeometricProgram` puts the pieces together: the constructor (gpkit/constraints/gp.py 74-91), `generate_result` (249-272) and the values of
the variables in `_compile_result` (296-303). The pieces are those of `Model/Constraint.lean`, `Model/GP.lean` and `Model/Check.lean`; which single
constraints a nested model has is the subject of C47, which variables are constants that of C26, and sensitivities that of C16.
-/

namespace Verif
namespace Pipeline
variable {V D : Type} [DecidableEq V] [AddCommGroup D] [DecidableEq D]

/-- A single constraint of a geometric program, with the state of `SignomialsEnabled` when it was made. -/
inductive Con (V D : Type) where
  /-- `p <= m`, a `PosynomialInequality` -/
  | le (se : Bool) (p m : NMap V ℝ D)
  /-- `l == r`, a `MonomialEquality` -/
  | eq (se : Bool) (l r : NMap V ℝ D)

/-- `self.unsubbed`, made by the constructor of the constraint (gpkit/nomials/math.py 399-419 and 510-518). -/
noncomputable def Con.unsubbed (feastol : ℝ) : Con V D → Except Err (List (Nomial V ℝ D))
  | .le se p m => genUnsubbed se feastol p m
  | .eq se l r => meqUnsubbed se feastol l r

/-- Whether `as_hmapslt1` tags its forms (gpkit/nomials/math.py 538-543). -/
def Con.isEq : Con V D → Bool
  | .le _ _ _ => false
  | .eq _ _ _ => true

/-- `c.as_hmapslt1(substitutions)` (gpkit/nomials/math.py 466-481 and 538-543). -/
noncomputable def Con.hmaps (feastol : ℝ) (fixed : PyDict V ℝ) (ord : Orders V ℝ) (c : Con V D) : Except Err (List (GP.Hmap V ℝ)) := do
  let u ← c.unsubbed feastol
  let forms ← (asHmapslt1 feastol (u.map (fun n => n.hmap.terms)) fixed ord {}).1
  pure (forms.map (fun f => ⟨f, c.isEq⟩))

open Classical in
/-- `self.hmaps` (gpkit/constraints/gp.py 84-88): the cost and the forms of all constraints in turn. -/
noncomputable def hmaps (feastol : ℝ) (cost : NMap V ℝ D) (cons : List (Con V D)) (fixed : PyDict V ℝ) (ord : Orders V ℝ) :
    Except Err (List (GP.Hmap V ℝ)) := do
  let h0 ← cost.sub fixed (ord cost.terms fixed)
  if h0.terms.any (fun t => decide (t.2 ≤ 0)) then .error .invalidPosynomial
  else do
    let hs ← cons.mapM (Con.hmaps feastol fixed ord)
    pure (⟨h0.terms, false⟩ :: hs.flatten)

/-- What a solver returns. -/
structure SolverOut where
  /-- `"objective"` -/
  objective : ℝ
  /-- `"primal"` -/
  primal : List ℝ
  /-- `"nu"` or `"la"` -/
  dual : GP.DualOut

/-- What a solve returns, of interest here. -/
structure Result (V : Type) where
  /-- `"cost"` -/
  cost : ℝ
  /-- `"freevariables"` -/
  free : PyDict V ℝ
  /-- `"variables"` -/
  vars : PyDict V ℝ

/-- `d.update(e)`. -/
def update (d e : PyDict V ℝ) : PyDict V ℝ := e.foldl (fun d p => d.set p.1 p.2) d

/-- The values of the variables in `_compile_result` (gpkit/constraints/gp.py 296-303). -/
noncomputable def compileVars (d : GP.Data V ℝ) (out : SolverOut) (fixed : PyDict V ℝ) : Except Err (Result V) :=
  if d.varlocs.length ≠ out.primal.length then .error .runtimeWarning
  else
    let free := (d.varlocs.map (·.1)).zip (out.primal.map Real.exp)
    .ok ⟨out.objective, free, update free fixed⟩

/-- The entries of a list as a function of the index. -/
def vec (l : List ℝ) (i : Nat) : ℝ := (l[i]?).getD 0

/-- `generate_result` (gpkit/constraints/gp.py 249-272): the result, and whether the check of the solution passed; if it did not, a warning is printed
and the result is returned all the same. -/
noncomputable def generateResult (d : GP.Data V ℝ) (out : SolverOut) (fixed : PyDict V ℝ) (tol abstol : ℝ)
    (A : GP.Coot ℝ := d.A) : Except Err (Result V × Bool) := do
  let r ← compileVars d out fixed
  match GP.generateNula d (vec out.primal) out.dual A with
  | none => .error .runtimeWarning
  | some (la, nu) => .ok (r, GP.checkSolution d r.cost (vec out.primal) nu la tol abstol A)

/-- Making the program, solving it with `optimize`, and making the result. -/
noncomputable def solve (feastol tol abstol : ℝ) (optimize : GP.Data V ℝ → Except Err SolverOut) (cost : NMap V ℝ D) (cons : List (Con V D))
    (fixed : PyDict V ℝ) (ord : Orders V ℝ) : Except Err (Result V × Bool) := do
  let hs ← hmaps feastol cost cons fixed ord
  let out ← optimize (GP.genLoop hs)
  generateResult (GP.genLoop hs) out fixed tol abstol

end Pipeline
end Verif
