import Verif.Model.Autosweep
import Mathlib.Algebra.Order.Field.Basic

/-!
# Uses of autosweep trees

Callers may split any part of a tree. What has been solved is known from what they did.
-/

namespace Verif
namespace Auto
section
variable {K Sol : Type} [Zero K] [DecidableEq K] [LinearOrder K]

/-- Use of the tree that is reached by following `splits[0]` (false) and `splits[1]` (true). -/
def atPath (f : Tree K Sol → Except Err (Tree K Sol)) : List Bool → Tree K Sol → Except Err (Tree K Sol)
  | [], t => f t
  | false :: p, .split lo hi s0 s1 x l r => (atPath f p l).map (fun l => .split lo hi s0 s1 x l r)
  | true :: p, .split lo hi s0 s1 x l r => (atPath f p r).map (fun r => .split lo hi s0 s1 x l r)
  | _ :: _, _ => .error .typeError

/-- What a caller may do. -/
inductive Op (K Sol : Type) where
  /-- `add_split` -/
  | split (path : List Bool) (x : K) (sol : Sol)
  /-- `add_splitcost` -/
  | cost (path : List Bool) (x lb ub : K)

/-- A tree after a use, and what was added to it; a use that fails changes nothing. -/
def Op.run : Op K Sol → Tree K Sol → Tree K Sol × List (K × Sol)
  | .split p x sol, t =>
    match atPath (fun t => t.addSplit x sol) p t with
    | .ok t => (t, [(x, sol)])
    | .error _ => (t, [])
  | .cost p x lb ub, t =>
    match atPath (fun t => t.addSplitcost x lb ub) p t with
    | .ok t => (t, [])
    | .error _ => (t, [])

/-- Several uses. -/
def runOps : List (Op K Sol) → Tree K Sol → Tree K Sol × List (K × Sol)
  | [], t => (t, [])
  | o :: os, t => ((runOps os (o.run t).1).1, (o.run t).2 ++ (runOps os (o.run t).1).2)

/-- The smallest parts of a tree. -/
def Tree.leaves : Tree K Sol → List (Tree K Sol)
  | .split _ _ _ _ _ l r => l.leaves ++ r.leaves
  | t => [t]

end

section
variable {K F Sol : Type} [Field K] [LinearOrder K]

/-- A prior value that is missing, or is true in Python: not zero and not an array of several elements. -/
def Restorable (o : Option (Val K F)) : Prop :=
  match o with
  | none => True
  | some (.num k) => k ≠ 0
  | some (.arr [k]) => k ≠ 0
  | some (.arr _) => False
  | some _ => True

/-- A finished interval: its tolerance is what `get_tol` says and is below the limit. -/
def Within (getTol : K → K → Sol → Sol → K × K × K) (logtol : K) (t : Tree K Sol) (tol : K) : Prop :=
  ∃ lo hi s0 s1 x lb ub, t = .costed lo hi s0 s1 x lb ub ∧ getTol lo hi s0 s1 = (x, lb, ub) ∧ tol = (ub - lb) / 2 ∧ tol < logtol

end
end Auto
end Verif
