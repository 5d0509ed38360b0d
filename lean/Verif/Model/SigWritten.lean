import Verif.Model.Written
import Verif.Model.Sequential

/-!
# From models with signomials as written to their solution

Models how signomial inequalities get into a program: those that simplify to posynomial inequalities once the constants are known, by
`SignomialInequality.as_hmapslt1` (gpkit/nomials/math.py 581-619), and the others, by the constructor of `SequentialGeometricProgram`
(gpkit/constraints/sgp.py 69-84). The rest is that of `Model/Written.lean` and `Model/Sequential.lean`.

Simplifications: those of these two; programs are made outside of `SignomialsEnabled`.
-/

namespace Verif
namespace Written
open Compare Pipeline

variable {V N D : Type} [DecidableEq V] [DecidableEq N] [AddCommGroup D] [DecidableEq D] [Module ℝ D]

/-- A single constraint of a model. -/
inductive Single (V D : Type) where
  /-- a constraint of a geometric program -/
  | con (c : Con V D)
  /-- a `SignomialInequality`, by its `unsubbed`: the signomial is at most zero -/
  | sig (n : Nomial V ℝ D)
  /-- a `SingleSignomialEquality`, by its `unsubbed`: the signomial is zero -/
  | eqn (n : Nomial V ℝ D)

/-- What was made, as a single constraint. A difference of two `Signomial` objects is one again (gpkit/nomials/math.py 578). -/
def toSingle (se : Bool) : Made V ℝ D → Except Err (Single V D)
  | .sig _ _ _ (.nom n) => .ok (.sig n)
  | .sig _ _ _ (.num _) => .error .attributeError
  | m => (toCon se m).map .con

/-- The single constraint that a statement makes. -/
noncomputable def Stmt.single (se : Bool) (feastol : ℝ) (approx : PyVal V ℝ D → Except Err Unit) (vunits : V → Option (UnitQ D ℝ)) (st : Stmt V) :
    Except Err (Single V D) := do
  let m ← st.make se feastol approx vunits
  toSingle se m

/-- The posynomial inequality that a signomial one becomes after substitution, if any is left (gpkit/nomials/math.py 583-599). An equality is never
considered to be one (gpkit/nomials/math.py 680-682). -/
noncomputable def Single.become (fixed : PyDict V ℝ) (ord : Orders V ℝ) : Single V D → Except Err (List (Con V D))
  | .con c => .ok [c]
  | .sig n => do
    let h ← n.hmap.sub fixed (ord n.hmap.terms fixed)
    let m ← mkSig false false h
    let pn ← m.posyNegy false
    match pn with
    | (none, _) => .ok []
    | (some _, none) => .error .valueError
    | (some p, some q) => if 1 < q.hmap.terms.length then .error .invalidGPConstraint else .ok [.le false p.hmap q.hmap]
  | .eqn _ => .error .invalidGPConstraint

/-- Making a model and solving it with `solve`; `made` are the single constraints made from what is written. -/
noncomputable def solveOf {C : Type} (S : Setting V D C) (made : C → Except Err (List (Single V D))) (cost : Except Err (PyVal V ℝ D))
    (tree : Building.Expr V ℝ C) : Except Err (Result V × Bool) := do
  let hv ← Building.eval S.world tree S.heap
  let s ← theSet hv.2
  let singles ← s.cons.mapM made
  let cons ← singles.flatten.mapM (Single.become s.subs S.ord)
  let c ← cost
  let c ← costOf c
  Pipeline.solve S.feastol S.tol S.abstol S.optimize c cons.flatten s.subs S.ord

/-- A part of a `SequentialGeometricProgram` (gpkit/constraints/sgp.py 71-84): what goes into `gpconstraints`, or into `sgpconstraints`. -/
noncomputable def Single.sort (fixed : PyDict V ℝ) (ord : Orders V ℝ) (x : Single V D) : Except Err (List (Con V D) × List (SeqGP.Sg V D)) :=
  match x, x.become fixed ord with
  | _, .ok l => .ok (l, [])
  | .sig n, .error .invalidGPConstraint => .ok ([], [⟨n, false⟩])
  | .eqn n, .error .invalidGPConstraint => .ok ([], [⟨n, true⟩])
  | _, .error e => .error e

/-- What a model is made and solved with by `localsolve`, besides what `solve` needs. -/
structure Local (V N D : Type) where
  /-- order of sets of variables -/
  setord : List V → List V
  /-- the slack variable, absent without `use_pccp` -/
  slack : Option V
  /-- `pccp_penalty` -/
  penalty : ℝ
  /-- the solver -/
  optimize : GP.Data V ℝ → GP.Coot ℝ → Except Err SolverOut
  /-- `EPS` -/
  eps : ℝ
  /-- `reltol` -/
  reltol : ℝ
  /-- `iteration_limit` -/
  lim : Nat
  /-- `verbosity > -1` -/
  warns : Bool
  /-- `x0` -/
  x0 : Option (Guess.Arg V N ℝ)

/-- The parts of the `SequentialGeometricProgram` of a model (gpkit/constraints/sgp.py 52-84). -/
noncomputable def setupOf {C : Type} (S : Setting V D C) (L : Local V N D) (made : C → Except Err (List (Single V D))) (cost : Except Err (PyVal V ℝ D))
    (tree : Building.Expr V ℝ C) : Except Err (SeqGP.Setup V D) := do
  let hv ← Building.eval S.world tree S.heap
  let s ← theSet hv.2
  let singles ← s.cons.mapM made
  let c ← cost
  let c ← costOf c
  let parts ← singles.flatten.mapM (Single.sort s.subs S.ord)
  pure { feastol := S.feastol, vunits := S.vunits, ord := S.ord, setord := L.setord, slack := L.slack, penalty := L.penalty, fixed := s.subs, cost := c,
         cons := (parts.map (·.1)).flatten, sigs := (parts.map (·.2)).flatten }

/-- Making a model and solving it with `localsolve`: the result, whether the check of the solution passed, and whether slack was left. -/
noncomputable def localOf {C : Type} (S : Setting V D C) (L : Local V N D) (made : C → Except Err (List (Single V D))) (cost : Except Err (PyVal V ℝ D))
    (tree : Building.Expr V ℝ C) : Except Err (Result V × Bool × Bool) := do
  let Z ← setupOf S L made cost tree
  let sp ← Z.init
  Z.localsolve L.optimize L.eps L.reltol S.tol S.abstol L.lim L.warns sp L.x0

/-- The single constraint of a statement in a setting. -/
noncomputable def single (S : Setting V D (Stmt V)) (st : Stmt V) : Except Err (List (Single V D)) :=
  (st.single (S.enabled st) S.feastol S.approx S.vunits).map (fun x => [x])

/-- Making the model that is written and solving it with `solve`. -/
noncomputable def solve (S : Setting V D (Stmt V)) (cost : Expr V) (tree : Building.Expr V ℝ (Stmt V)) : Except Err (Result V × Bool) :=
  solveOf S (single S) (cost.build false S.vunits) tree

/-- Making the model that is written and solving it with `localsolve`. -/
noncomputable def localsolve (S : Setting V D (Stmt V)) (L : Local V N D) (cost : Expr V) (tree : Building.Expr V ℝ (Stmt V)) :
    Except Err (Result V × Bool × Bool) :=
  localOf S L (single S) (cost.build false S.vunits) tree

end Written
end Verif
