import Verif.Model.SigWritten

/-!
# Models with signomial equalities as written

Models `SignomialEquality(left, right)` (gpkit/constraints/sigeq.py 7-14) as one of the things that are written in a model. The rest is that of
`Model/SigWritten.lean`.

Simplifications: sides are not arrays, and the set of one constraint that a `SignomialEquality` is is left out.
-/

namespace Verif
namespace Written
open Compare Pipeline

variable {V N D : Type} [DecidableEq V] [DecidableEq N] [AddCommGroup D] [DecidableEq D] [Module ℝ D]

/-- What is written in a model: a statement or a `SignomialEquality`. -/
inductive Line (V : Type) where
  | stmt (st : Stmt V)
  | equals (l r : Expr V)

/-- `self.as_gpconstr({})` in the constructors (gpkit/nomials/math.py 579 and 678). -/
noncomputable def eqMade (se : Bool) (feastol : ℝ) (vunits : V → Option (UnitQ D ℝ)) (ord : Orders V ℝ) (setord : List V → List V) :
    PyVal V ℝ D → Except Err Unit
  | .nom n => (eqGpconstr se feastol n vunits [] ord setord).map (fun _ => ())
  | .num _ => .error .attributeError

/-- `SingleSignomialEquality(left, right)` (gpkit/nomials/math.py 675-678). -/
noncomputable def equalsOf (se : Bool) (feastol : ℝ) (vunits : V → Option (UnitQ D ℝ)) (ord : Orders V ℝ) (setord : List V → List V) (l r : Expr V) :
    Except Err (Single V D) := do
  let a ← l.build se vunits
  let b ← r.build se vunits
  let m ← sigIneq se (eqMade se feastol vunits ord setord) a .le b
  match m with
  | .sig _ _ _ (.nom n) => .ok (.eqn n)
  | _ => .error .attributeError

/-- The single constraint of a line in a setting. -/
noncomputable def lineSingle (S : Setting V D (Line V)) (setord : List V → List V) : Line V → Except Err (List (Single V D))
  | .stmt st => (st.single (S.enabled (.stmt st)) S.feastol S.approx S.vunits).map (fun x => [x])
  | .equals l r => (equalsOf (S.enabled (.equals l r)) S.feastol S.vunits S.ord setord l r).map (fun x => [x])

/-- Making the model that is written and solving it with `localsolve`. -/
noncomputable def localsolveLines (S : Setting V D (Line V)) (L : Local V N D) (cost : Expr V) (tree : Building.Expr V ℝ (Line V)) :
    Except Err (Result V × Bool × Bool) :=
  localOf S L (lineSingle S L.setord) (cost.build false S.vunits) tree

/-- Making the model that is written and solving it with `solve`. -/
noncomputable def solveLines (S : Setting V D (Line V)) (setord : List V → List V) (cost : Expr V) (tree : Building.Expr V ℝ (Line V)) :
    Except Err (Result V × Bool) :=
  solveOf S (lineSingle S setord) (cost.build false S.vunits) tree

end Written
end Verif
