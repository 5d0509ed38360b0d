import Verif.Model.Warnings
import Verif.Model.Relax
import Mathlib.Algebra.Order.Floor.Ring

/-!
# Processing the result of a solve

Models `ConstraintSet.process_result` (gpkit/constraints/set.py 174-196) with those of `Tight`, `Loose`, `Bounded`, `ConstraintsRelaxedEqually`,
`ConstraintsRelaxed` and `ConstantsRelaxed` (gpkit/constraints/relax.py 46-56, 97-131 and 213-232).

Simplifications: dictionaries are per element of a vector (`KeyDict` makes arrays of them, C23). The elements of a vector with `evalfn` are all in the
`unique_varkeys` of the set that made it. An `evalfn` returns one number for each element. The lists of computed variables are in the order of Python's sets.
Warnings about relaxing are what their texts say. They are kept apart from other warnings: their categories are different.
-/

namespace Verif
namespace Proc

/-- A variable, or a vector of variables, with `evalfn`. -/
structure Comp (V K : Type) where
  /-- its elements -/
  elems : List V
  /-- `evalfn` -/
  fn : PyDict V K → Except Err (List K)

/-- A warning about relaxing. -/
inductive Note (V K : Type) where
  /-- `"All constraints relaxed by %i%%"` (gpkit/constraints/relax.py 54) -/
  | all (percent : Int)
  /-- the constraint with this number (gpkit/constraints/relax.py 127-130) -/
  | one (i : Nat) (percent : Int)
  /-- `"  %s: relaxed from %-.4g to %-.4g"` (gpkit/constraints/relax.py 229-231) -/
  | const (v : V) (old new : K)
deriving DecidableEq

/-- A result. -/
structure Res (ι V K : Type) where
  /-- its variables, the sensitivities of constraints and the warnings -/
  base : Warn.Res ι V K
  /-- `result["freevariables"]` -/
  free : PyDict V K
  /-- `result["sensitivities"]["variables"]` -/
  senss : PyDict V K
  /-- warnings about relaxing -/
  relaxed : List (Note V K)

/-- What a class of sets does on its own after the sets inside are done. -/
inductive Own (ι V K D : Type) where
  /-- `ConstraintSet` and `Model` -/
  | plain
  /-- `Tight` -/
  | tight (tol : K) (cons : List (Warn.Con ι V K D))
  /-- `Loose` -/
  | loose (tol : K) (raiseerror : Bool) (cons : List ι)
  /-- `Bounded` -/
  | bounded (b : Warn.Bounder K) (xs : List (Warn.BVar ι V))
  /-- `ConstraintsRelaxedEqually` with its `relaxvar` -/
  | relaxedEqually (relaxvar : V)
  /-- `ConstraintsRelaxed` with its `relaxvars`, which of the `original_constraints` are single constraints, and the number of relaxed constraints -/
  | relaxed (relaxvars : List V) (single : List Bool) (n : Nat)
  /-- `ConstantsRelaxed` with its `_derelax_map`, and `relaxvars`, `freedvars` and their values in `constants` -/
  | constants (derelax : List (V × V)) (vars : List (V × V × K))

/-- What a set of constraints contains. -/
inductive Tree (ι V K D : Type) where
  /-- an object without `process_result` and without elements -/
  | leaf
  /-- a list or dictionary -/
  | lst (kids : List (Tree ι V K D))
  /-- a numpy array -/
  | arr (kids : List (Tree ι V K D))
  /-- a set of constraints with its computed variables -/
  | cset (own : Own ι V K D) (comps : List (Comp V K)) (kids : List (Tree ι V K D))

section
variable {ι V K D : Type} [DecidableEq ι] [DecidableEq V] [Field K] [LinearOrder K] [FloorRing K] [HasPow K]
variable [AddCommGroup D] [DecidableEq D]

/-- Whether a computed variable is in `evalfn_vars` (gpkit/constraints/set.py 190-191). -/
def due (d : PyDict V K) (c : Comp V K) : Bool := c.elems.any (fun v => !d.contains v)

/-- `d[v] = val` for a variable or a vector (gpkit/constraints/set.py 194). -/
def setAll (d : PyDict V K) (vs : List V) (val : List K) : PyDict V K := (vs.zip val).foldl (fun d p => d.set p.1 p.2) d

/-- The body of the loop over `evalfn_vars` (gpkit/constraints/set.py 193-194). -/
def computeStep (r : Res ι V K) (c : Comp V K) : Except Err (Res ι V K) := do
  let val ← c.fn r.base.vars
  if val.length = c.elems.length then
    pure { r with base := { r.base with vars := setAll r.base.vars c.elems val }, free := setAll r.free c.elems val }
  else .error .notModelled

/-- The second part of `ConstraintSet.process_result` (gpkit/constraints/set.py 190-194). -/
def compute (comps : List (Comp V K)) (r : Res ι V K) : Except Err (Res ι V K) := (comps.filter (due r.base.vars)).foldlM computeStep r

/-- `"%i" %` a number: it is truncated. -/
def trunc (x : K) : Int := if 0 ≤ x then ⌊x⌋ else ⌈x⌉

/-- `d[v]`. -/
def getItem (d : PyDict V K) (v : V) : Except Err K :=
  match d.get? v with
  | some x => .ok x
  | none => .error .keyError

/-- `ConstraintsRelaxedEqually.check_relaxed` (gpkit/constraints/relax.py 51-56). -/
def checkEqually (relaxvar : V) (r : Res ι V K) : Except Err (Res ι V K) := do
  let val ← getItem r.free relaxvar
  let l ← Relax.getRelaxed [val] [()]
  pure { r with relaxed := r.relaxed ++ l.map (fun p => .all (trunc (9 / 10 + (p.1 - 1) * 100))) }

/-- The body of the loop in `ConstraintsRelaxed.check_relaxed` (gpkit/constraints/relax.py 106-125). -/
def relaxNote (single : List Bool) (p : K × Nat) : Except Err (Note V K) :=
  match single[p.2]? with
  | none => .error .indexError
  | some false => .error .attributeError
  | some true => .ok (.one p.2 (trunc (1 / 2 + (p.1 - 1) * 100)))

/-- `ConstraintsRelaxed.check_relaxed` (gpkit/constraints/relax.py 102-125). -/
def checkRelaxed (relaxvars : List V) (single : List Bool) (n : Nat) (r : Res ι V K) : Except Err (Res ι V K) := do
  let vals ← relaxvars.mapM (getItem r.free)
  let l ← Relax.getRelaxed vals (List.range n)
  let notes ← l.mapM (relaxNote single)
  pure { r with relaxed := r.relaxed ++ notes }

/-- The body of the loop over `_derelax_map` (gpkit/constraints/relax.py 217-219). -/
def transfer (d : PyDict V K) (p : V × V) : Except Err (PyDict V K) := do
  let s ← getItem d p.1
  pure ((d.set p.2 s).del p.1)

/-- The body of the loop in `ConstantsRelaxed.check_relaxed` (gpkit/constraints/relax.py 228-232). -/
def constNote (free : PyDict V K) (p : K × (V × K)) : Except Err (Note V K) := do
  let new ← getItem free p.2.1
  pure (.const p.2.1 p.2.2 new)

/-- `ConstantsRelaxed.check_relaxed` (gpkit/constraints/relax.py 223-232). -/
def checkConstants (vars : List (V × V × K)) (r : Res ι V K) : Except Err (Res ι V K) := do
  let vals ← vars.mapM (fun x => getItem r.free x.1)
  let l ← Relax.getRelaxed vals (vars.map (fun x => x.2))
  let notes ← l.mapM (constNote r.free)
  pure { r with relaxed := r.relaxed ++ notes }

/-- A step that concerns only the part of a result that `Warn.Res` has. -/
def onBase (f : Warn.Res ι V K → Except Err (Warn.Res ι V K)) (r : Res ι V K) : Except Err (Res ι V K) := do
  let b ← f r.base
  pure { r with base := b }

/-- `Loose.process_result`, raising. -/
def looseRaise (tol : K) (raiseerror : Bool) (cons : List ι) (r : Warn.Res ι V K) : Except Err (Warn.Res ι V K) :=
  if (Warn.loose tol raiseerror cons r).1 then .error .runtimeWarning else .ok (Warn.loose tol raiseerror cons r).2

/-- What comes after `super().process_result(result)` (gpkit/constraints/tight.py 20-42, gpkit/constraints/loose.py 18-33, gpkit/constraints/bounded.py 73,
gpkit/constraints/relax.py 49, 100 and 216-220). -/
def ownStep (own : Own ι V K D) (r : Res ι V K) : Except Err (Res ι V K) :=
  match own with
  | .plain => .ok r
  | .tight tol cons => onBase (Warn.tight tol cons) r
  | .loose tol re cons => onBase (looseRaise tol re cons) r
  | .bounded b xs => onBase (Warn.bounded b xs) r
  | .relaxedEqually v => checkEqually v r
  | .relaxed vs single n => checkRelaxed vs single n r
  | .constants m vars => do
    let s ← m.foldlM transfer r.senss
    checkConstants vars { r with senss := s }

mutual
/-- What happens to an element of a set: sets process the result, lists are gone through, arrays only give their elements (gpkit/constraints/set.py 45-60
and 187-189). -/
def proc : Tree ι V K D → Res ι V K → Except Err (Res ι V K)
  | .leaf, r => .ok r
  | .lst kids, r => procL kids r
  | .arr kids, r => procA kids r
  | .cset own comps kids, r => (procL kids r).bind (fun r => (compute comps r).bind (ownStep own))
/-- The same for the elements of a set or list. -/
def procL : List (Tree ι V K D) → Res ι V K → Except Err (Res ι V K)
  | [], r => .ok r
  | t :: ts, r => (proc t r).bind (procL ts)
/-- The same for the elements of an array: those without `process_result` are passed over. -/
def procA : List (Tree ι V K D) → Res ι V K → Except Err (Res ι V K)
  | [], r => .ok r
  | .cset own comps kids :: ts, r => (proc (.cset own comps kids) r).bind (procA ts)
  | .leaf :: ts, r => procA ts r
  | .lst _ :: ts, r => procA ts r
  | .arr _ :: ts, r => procA ts r
end

end
end Proc
end Verif
