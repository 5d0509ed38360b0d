import Verif.Model.Pipeline
import Verif.Model.Sens

/-!
# The sensitivities of a whole model

Models how `GeometricProgram._compile_result` (gpkit/constraints/gp.py 304-320) asks the constraints of a model for their sensitivities and adds them up. What a
constraint answers is in `Model/Constraint.lean`, the sum over answers in `Model/Sens.lean`.

Simplifications: no variable is linked to others (for these see C41); constraints have not been solved before (see C49).
-/

namespace Verif
namespace Pipeline
variable {V D : Type} [DecidableEq V] [AddCommGroup D] [DecidableEq D]

/-- `nu_by_posy` (gpkit/constraints/gp.py 279 and 289-290): the multipliers of the terms, posynomial by posynomial. -/
def nuByPosy (d : GP.Data V ℝ) (nu : Nat → ℝ) : List (List ℝ) := d.mIdxs.map (fun mi => (List.range' mi.1 (mi.2 - mi.1)).map nu)

/-- The calls of `PosynomialInequality.sens_from_dual` (gpkit/nomials/math.py 483-506) for the forms of one constraint in turn. -/
noncomputable def leSenss (presub : PyDict (HV V ℝ) ℝ) : Memo ℝ → List (ℝ × List ℝ) → List (PyDict V ℝ × ℝ)
  | _, [] => []
  | m, b :: bs => ((sensFromDual presub m b.1 b.2).1, b.1) :: leSenss presub (sensFromDual presub m b.1 b.2).2 bs

/-- The calls of `MonomialEquality.sens_from_dual` (gpkit/nomials/math.py 550-559) for the forms of one constraint in turn. -/
noncomputable def eqSenss (exp : HV V ℝ) : List ℝ → List (ℝ × List ℝ) → List (PyDict V ℝ × ℝ)
  | _, [] => []
  | las, b :: bs => ((meqSens exp las b.1).1, (meqSens exp las b.1).2.1) :: eqSenss exp (meqSens exp las b.1).2.2 bs

/-- What a constraint answers for its forms, each with its multiplier and those of its terms. `presub, = self.unsubbed` and `exp, = self.unsubbed[0].hmap` raise if there
is not exactly one. -/
noncomputable def Con.senss (feastol : ℝ) (fixed : PyDict V ℝ) (ord : Orders V ℝ) (c : Con V D) (blocks : List (ℝ × List ℝ)) : Except Err (List (PyDict V ℝ × ℝ)) := do
  let u ← c.unsubbed feastol
  match blocks with
  | [] => pure []
  | _ :: _ =>
    match c with
    | .le _ _ _ =>
      match u with
      | [n] => pure (leSenss n.hmap.terms (asHmapslt1 feastol [n.hmap.terms] fixed ord {}).2 blocks)
      | _ => .error .valueError
    | .eq _ _ _ =>
      match u with
      | n :: _ =>
        match n.hmap.terms with
        | [t] => pure (eqSenss t.1 [] blocks)
        | _ => .error .valueError
      | [] => .error .indexError

/-- The loop over the forms of all constraints (gpkit/constraints/gp.py 311-316): the answers of each constraint. Forms of a constraint are next to each other. -/
noncomputable def conSenss (feastol : ℝ) (fixed : PyDict V ℝ) (ord : Orders V ℝ) : List (Con V D) → List (ℝ × List ℝ) →
    Except Err (List (List (PyDict V ℝ × ℝ)))
  | [], _ => .ok []
  | c :: cs, blocks => do
    let hs ← c.hmaps feastol fixed ord
    let here ← c.senss feastol fixed ord (blocks.take hs.length)
    let rest ← conSenss feastol fixed ord cs (blocks.drop hs.length)
    pure (here :: rest)

/-- The sensitivities of a solved model. -/
structure Senss (V : Type) where
  /-- `gpv_ss` -/
  vars : PyDict V ℝ
  /-- for each constraint in turn, `c_senss` of its forms -/
  cons : List (List ℝ)

/-- `result["sensitivities"]["constraints"][c]` (gpkit/constraints/gp.py 319): what a constraint answered last, or zero if it was not asked. -/
noncomputable def lastSens (answers : List ℝ) : ℝ := |answers.getLast?.getD 0|

/-- `gpv_ss` and all `c_senss` (gpkit/constraints/gp.py 306-316). -/
noncomputable def compileSens (feastol : ℝ) (cost : NMap V ℝ D) (cons : List (Con V D)) (fixed : PyDict V ℝ) (ord : Orders V ℝ) (la : List ℝ)
    (nus : List (List ℝ)) : Except Err (Senss V) := do
  let vss ← conSenss feastol fixed ord cons (la.tail.zip nus.tail)
  pure ⟨Sens.gather (Sens.costSens (nus.headD []) cost.terms.keys) (vss.flatten.map (·.1)), vss.map (fun l => l.map (·.2))⟩

/-- As `solve`, with the sensitivities of the variables and constraints. -/
noncomputable def solveSens (feastol tol abstol : ℝ) (optimize : GP.Data V ℝ → Except Err SolverOut) (cost : NMap V ℝ D) (cons : List (Con V D))
    (fixed : PyDict V ℝ) (ord : Orders V ℝ) : Except Err (Result V × Senss V × Bool) := do
  let hs ← hmaps feastol cost cons fixed ord
  let out ← optimize (GP.genLoop hs)
  let r ← generateResult (GP.genLoop hs) out fixed tol abstol
  match GP.generateNula (GP.genLoop hs) (vec out.primal) out.dual with
  | none => .error .runtimeWarning
  | some (la, nu) => do
    let ss ← compileSens feastol cost cons fixed ord la (nuByPosy (GP.genLoop hs) nu)
    pure (r.1, ss, r.2)

end Pipeline
end Verif
