import Verif.Model.Nomial

/-!
# Sweeps that change a model's substitutions, and autosweeps

gpkit/constraints/model.py 136-150 and gpkit/tools/autosweep.py.

Simplifications: the model's substitutions are a plain dict of scalar variables (what a `KeyDict` does with scalars is property C23 and C25);
solving is a function of the substitutions. Printing, timing, units, plotting and pickling are left out. Python's limit on the depth of
recursion is the parameter `depth`.
-/

namespace Verif
namespace Auto

/-- A substitution for a scalar variable. -/
inductive Val (K F : Type) where
  /-- a number -/
  | num (k : K)
  /-- `nan` -/
  | nan
  /-- a function -/
  | fn (f : F)
  /-- `("sweep", [...])` -/
  | sweep (vs : List K)
  /-- an array of numbers -/
  | arr (vs : List K)
deriving DecidableEq, Repr

section
variable {S K F R Sol : Type} [DecidableEq S] [Zero K] [DecidableEq K]

/-- `bool(original_val)`, where None is missing. -/
def truth : Option (Val K F) → Except Err Bool
  | none => .ok false
  | some (.num k) => .ok (decide (k ≠ 0))
  | some .nan => .ok true
  | some (.fn _) => .ok true
  | some (.sweep _) => .ok true
  | some (.arr []) => .ok false
  | some (.arr [k]) => .ok (decide (k ≠ 0))
  | some (.arr _) => .error .valueError

/-- Lines 146-149 of gpkit/constraints/model.py and 248-251 of gpkit/tools/autosweep.py. -/
def restore (subs : PyDict S (Val K F)) (v : S) (orig : Option (Val K F)) : PyDict S (Val K F) × Except Err Unit :=
  match truth orig, orig with
  | .error e, _ => (subs, .error e)
  | .ok true, some o => (subs.set v o, .ok ())
  | .ok _, _ => (subs.del v, .ok ())

/-- Solving as in lines 142-145 of gpkit/constraints/model.py. -/
def solveOr (solve localsolve : PyDict S (Val K F) → Except Err R) (subs : PyDict S (Val K F)) : Except Err R :=
  match solve subs with
  | .error .invalidGPConstraint => localsolve subs
  | o => o

/-- The loop of `Model.sweep` (gpkit/constraints/model.py 139-149). -/
def sweepLoop (solve localsolve : PyDict S (Val K F) → Except Err R) :
    List (S × List K) → PyDict S (Val K F) → PyDict S (Val K F) × Except Err (List R)
  | [], subs => (subs, .ok [])
  | (v, vs) :: l, subs =>
    let orig := subs.get? v
    let subs := subs.set v (.sweep vs)
    match solveOr solve localsolve subs with
    | .error e => (subs, .error e)
    | .ok r =>
      match restore subs v orig with
      | (subs, .error e) => (subs, .error e)
      | (subs, .ok ()) =>
        match sweepLoop solve localsolve l subs with
        | (subs, .ok rs) => (subs, .ok (r :: rs))
        | (subs, .error e) => (subs, .error e)

/-- `Model.sweep` (gpkit/constraints/model.py 136-150); the result is a single solution if there is just one. -/
def modelSweep (solve localsolve : PyDict S (Val K F) → Except Err R) (sweeps : List (S × List K)) (subs : PyDict S (Val K F)) :
    PyDict S (Val K F) × Except Err (List R) :=
  match sweepLoop solve localsolve sweeps subs with
  | (subs, .ok []) => (subs, .error .indexError)
  | o => o

/-- `BinarySweepTree` (gpkit/tools/autosweep.py 10-51): bounds, solutions, and one of three states. -/
inductive Tree (K Sol : Type) where
  /-- no `splitval` -/
  | fresh (lo hi : K) (s0 s1 : Sol)
  /-- `splitval`, `splitlb`, `splitub` and no `splits` -/
  | costed (lo hi : K) (s0 s1 : Sol) (x lb ub : K)
  /-- `splitval` and `splits` -/
  | split (lo hi : K) (s0 s1 : Sol) (x : K) (left right : Tree K Sol)
deriving DecidableEq, Repr

namespace Tree

/-- `bounds[0]`. -/
def lo : Tree K Sol → K
  | fresh lo _ _ _ => lo
  | costed lo _ _ _ _ _ _ => lo
  | split lo _ _ _ _ _ _ => lo

/-- `bounds[1]`. -/
def hi : Tree K Sol → K
  | fresh _ hi _ _ => hi
  | costed _ hi _ _ _ _ _ => hi
  | split _ hi _ _ _ _ _ => hi

/-- `sols[0]`. -/
def s0 : Tree K Sol → Sol
  | fresh _ _ s _ => s
  | costed _ _ s _ _ _ _ => s
  | split _ _ s _ _ _ _ => s

/-- `sols[1]`. -/
def s1 : Tree K Sol → Sol
  | fresh _ _ _ s => s
  | costed _ _ _ s _ _ _ => s
  | split _ _ _ s _ _ _ => s

/-- `bool(self.splitval)`. -/
def hasSplitval : Tree K Sol → Bool
  | fresh _ _ _ _ => false
  | costed _ _ _ _ x _ _ => decide (x ≠ 0)
  | split _ _ _ _ x _ _ => decide (x ≠ 0)

variable [LinearOrder K]

/-- `BinarySweepTree.__init__` (gpkit/tools/autosweep.py 38-51). -/
def make (lo hi : K) (s0 s1 : Sol) : Except Err (Tree K Sol) :=
  if hi ≤ lo then .error .valueError else .ok (fresh lo hi s0 s1)

/-- `add_split` (gpkit/tools/autosweep.py 53-65). -/
def addSplit (t : Tree K Sol) (x : K) (sol : Sol) : Except Err (Tree K Sol) :=
  if t.hasSplitval then .error .valueError
  else if x ≤ t.lo ∨ t.hi ≤ x then .error .valueError
  else do
    let l ← make t.lo x t.s0 sol
    let r ← make x t.hi sol t.s1
    return split t.lo t.hi t.s0 t.s1 x l r

/-- `add_splitcost` (gpkit/tools/autosweep.py 67-74); a node that already has subtrees is given no bounds. -/
def addSplitcost (t : Tree K Sol) (x lb ub : K) : Except Err (Tree K Sol) :=
  if t.hasSplitval then .error .valueError
  else if x ≤ t.lo ∨ t.hi ≤ x then .error .valueError
  else
    match t with
    | split lo hi s0 s1 _ l r => .ok (split lo hi s0 s1 x l r)
    | t => .ok (costed t.lo t.hi t.s0 t.s1 x lb ub)

/-- `min_bst` (gpkit/tools/autosweep.py 116-121). -/
def minBst : Tree K Sol → K → Tree K Sol
  | split _ _ _ _ x l r, v => if v ≤ x then l.minBst v else r.minBst v
  | t, _ => t

/-- `sollist` (gpkit/tools/autosweep.py 127-135). -/
def sollist : Tree K Sol → List Sol
  | split _ _ s0 s1 _ l r => s0 :: (l.sollist.tail ++ r.sollist.tail.dropLast ++ [s1])
  | t => [t.s0, t.s1]

end Tree

/-- A model being autoswept: its substitutions and the value of `Count`. -/
structure AS (S K F : Type) where
  /-- `model.substitutions` -/
  subs : PyDict S (Val K F)
  /-- calls of `sols()` -/
  count : Nat

variable [LinearOrder K] [Sub K] [Div K] [OfNat K 2]

/-- `recurse_splits` (gpkit/tools/autosweep.py 255-271). `getTol` is `get_tol` of the tree's bounds and solutions. -/
def recurse (solve : PyDict S (Val K F) → Except Err Sol) (getTol : K → K → Sol → Sol → K × K × K) (v : S) (logtol : K) :
    Nat → Tree K Sol → AS S K F → AS S K F × Except Err (Tree K Sol × K)
  | 0, _, s => (s, .error .recursion)
  | depth + 1, t, s =>
    let (x, lb, ub) := getTol t.lo t.hi t.s0 t.s1
    let tol := (ub - lb) / 2
    if logtol ≤ tol then
      let s : AS S K F := { s with subs := s.subs.set v (.num x) }
      match solve s.subs with
      | .error e => (s, .error e)
      | .ok sol =>
        match t.addSplit x sol with
        | .ok (.split lo hi s0 s1 x l r) =>
          let s := { s with count := s.count + 1 }
          match recurse solve getTol v logtol depth l s with
          | (s, .error e) => (s, .error e)
          | (s, .ok (l, tl)) =>
            match recurse solve getTol v logtol depth r s with
            | (s, .error e) => (s, .error e)
            | (s, .ok (r, tr)) => (s, .ok (.split lo hi s0 s1 x l r, max tl tr))
        | .ok _ => (s, .error .notModelled)
        | .error e => (s, .error e)
    else
      match t.addSplitcost x lb ub with
      | .ok t => (s, .ok (t, tol))
      | .error e => (s, .error e)

/-- The loop over the bounds of an autosweep (gpkit/tools/autosweep.py 233-240). An `InvalidGPConstraint` is raised again. -/
def firstSols (solve : PyDict S (Val K F) → Except Err Sol) (v : S) : List K → AS S K F → AS S K F × Except Err (List Sol)
  | [], s => (s, .ok [])
  | b :: bs, s =>
    let s : AS S K F := { s with subs := s.subs.set v (.num b) }
    match solve s.subs with
    | .error e => (s, .error e)
    | .ok sol =>
      match firstSols solve v bs { s with count := s.count + 1 } with
      | (s, .ok sols) => (s, .ok (sol :: sols))
      | (s, .error e) => (s, .error e)

/-- `autosweep_1d` (gpkit/tools/autosweep.py 226-252): the tree, its `nsols` and its tolerance. `Model.autosweep` (gpkit/constraints/model.py
152-164) gives two bounds. `Count` starts at -1, so that the last call returns the number of calls before it. -/
def autosweep (solve : PyDict S (Val K F) → Except Err Sol) (getTol : K → K → Sol → Sol → K × K × K) (depth : Nat) (logtol : K) (v : S)
    (lo hi : K) (subs : PyDict S (Val K F)) : AS S K F × Except Err (Tree K Sol × Nat × K) :=
  let orig := subs.get? v
  match firstSols solve v [lo, hi] ⟨subs, 0⟩ with
  | (s, .error e) => (s, .error e)
  | (s, .ok [s0, s1]) =>
    match Tree.make lo hi s0 s1 with
    | .error e => (s, .error e)
    | .ok t =>
      match recurse solve getTol v logtol depth t s with
      | (s, .error e) => (s, .error e)
      | (s, .ok (t, tol)) =>
        match restore s.subs v orig with
        | (subs, .error e) => ({ s with subs := subs }, .error e)
        | (subs, .ok ()) => (⟨subs, s.count + 1⟩, .ok (t, s.count, tol))
  | (s, .ok _) => (s, .error .notModelled)

end

end Auto
end Verif
