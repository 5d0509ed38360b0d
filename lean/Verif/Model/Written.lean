import Verif.Model.Compare
import Verif.Model.Pipeline
import Verif.Model.Building
import Verif.Spec.Written

/-!
# From what is written to what is solved

Puts together the operators (`Model/Nomial.lean`, `Model/Compare.lean`), the making of models (`Model/Building.lean`) and their solution
(`Model/Pipeline.lean`): a user writes nested models whose constraints are comparisons of expressions, and solves the outermost.

Simplifications: Python makes the comparisons before the sets that hold them, here they are made afterwards; that makes a difference just to which
exception is raised if there are several. A comparison that returns a `bool` makes the set raise a `ValueError` (gpkit/constraints/set.py 81-88);
signomial inequalities in `solve` are not modelled here (`Model/SigSens.lean`). All values given are numbers, so that the constants of the program are the
substitutions of the model (C26).
-/

namespace Verif
namespace Written
open Compare Pipeline

/-- Python's operator for two values; which of them are of class `Variable`. -/
def related {V K D : Type} [DecidableEq V] [Field K] [LinearOrder K] [AddCommGroup D] [DecidableEq D] (se : Bool) (feastol : K)
    (approx : PyVal V K D → Except Err Unit) (rel : Rel) (isvar : Bool × Bool) (l r : PyVal V K D) : Except Err (Made V K D) :=
  match rel with
  | .le => compared se feastol approx .le isvar l r
  | .ge => compared se feastol approx .ge isvar l r
  | .eq => equals se feastol isvar l r

variable {V D : Type} [DecidableEq V] [AddCommGroup D] [DecidableEq D] [Module ℝ D]

/-- The expression is just a variable: what Python has for it is of class `Variable`. -/
def isVar : Expr V → Bool
  | .var _ => true
  | _ => false

/-- Evaluating a comparison: first the sides, then the operator. -/
noncomputable def Stmt.make (se : Bool) (feastol : ℝ) (approx : PyVal V ℝ D → Except Err Unit) (vunits : V → Option (UnitQ D ℝ)) (st : Stmt V) :
    Except Err (Made V ℝ D) := do
  let l ← st.left.build se vunits
  let r ← st.right.build se vunits
  related se feastol approx st.rel (isVar st.left, isVar st.right) l r

/-- What was made, as a constraint of a geometric program. -/
def toCon (se : Bool) : Made V ℝ D → Except Err (Con V D)
  | .ineq l op r => .ok (.le se (op.order l r).1 (op.order l r).2)
  | .sig _ _ _ _ => .error .notModelled
  | .equal l r => .ok (.eq se l r)
  | .truth _ => .error .valueError

/-- The constraint that a statement makes. -/
noncomputable def Stmt.con (se : Bool) (feastol : ℝ) (approx : PyVal V ℝ D → Except Err Unit) (vunits : V → Option (UnitQ D ℝ)) (st : Stmt V) :
    Except Err (Con V D) := do
  let m ← st.make se feastol approx vunits
  toCon se m

/-- A cost has to be a nomial: `cost.vks` is read (gpkit/constraints/costed.py 23). -/
def costOf : PyVal V ℝ D → Except Err (NMap V ℝ D)
  | .nom n => .ok n.hmap
  | .num _ => .error .attributeError

/-- What a model is made and solved with; `C` is the type of what is written as constraints. -/
structure Setting (V D C : Type) where
  /-- `feastol` of constraints -/
  feastol : ℝ
  /-- tolerances of the check -/
  tol : ℝ
  /-- tolerances of the check -/
  abstol : ℝ
  /-- units of variables -/
  vunits : V → Option (UnitQ D ℝ)
  /-- the statements written inside `SignomialsEnabled` -/
  enabled : C → Bool
  /-- see `Compare.sigIneq` -/
  approx : PyVal V ℝ D → Except Err Unit
  /-- the solver -/
  optimize : GP.Data V ℝ → Except Err SolverOut
  /-- orders of sets -/
  ord : Orders V ℝ
  /-- objects of class `VarKey` -/
  world : Building.World V
  /-- their default values -/
  heap : Building.Heap ℝ

/-- The set of constraints a value is. -/
def theSet {N C : Type} : Building.Val V N C → Except Err (Building.Set' V N C)
  | .set s => .ok s
  | _ => .error .attributeError

/-- Making a model and solving it; `made` are the constraints made from what is written. -/
noncomputable def runOf {C : Type} (S : Setting V D C) (made : C → Except Err (List (Con V D))) (cost : Except Err (PyVal V ℝ D))
    (tree : Building.Expr V ℝ C) : Except Err (Result V × Bool) := do
  let hv ← Building.eval S.world tree S.heap
  let s ← theSet hv.2
  let cons ← s.cons.mapM made
  let c ← cost
  let c ← costOf c
  Pipeline.solve S.feastol S.tol S.abstol S.optimize c cons.flatten s.subs S.ord

/-- Making the model that is written and solving it. -/
noncomputable def run (S : Setting V D (Stmt V)) (cost : Expr V) (tree : Building.Expr V ℝ (Stmt V)) : Except Err (Result V × Bool) :=
  runOf S (fun st => (st.con (S.enabled st) S.feastol S.approx S.vunits).map (fun c => [c])) (cost.build false S.vunits) tree

end Written
end Verif
