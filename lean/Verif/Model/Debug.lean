import Verif.Model.Relax
import Verif.Model.Array

/-!
# Diagnosis of infeasible models

Models `Model.debug` (gpkit/constraints/model.py 166-215), the constraints of `Bounded` (gpkit/constraints/bounded.py 9-34 and 57-68), the programs made with
`ConstantsRelaxed` and `ConstraintsRelaxed` (gpkit/constraints/relax.py) and which relaxations `check_relaxed` reports (102-131 and 223-232).

Simplifications: solving is any function that ends with a point, with one of the exceptions derived from `Infeasible`, with `InvalidGPConstraint`, or with another
exception; C60 and C62 say when points satisfy the program. `check_boundaries` does not raise for positive values (C46) and its warnings are left out. What is
printed is left out. Constants are what `parse_subs` makes of the substitutions (C26), in the order of their names. New variables have names of their own (C33).
-/

namespace Verif
namespace Debug
open Relax

/-- How solving can fail. -/
inductive Fail where
  /-- `Infeasible` and the exceptions derived from it -/
  | infeasible
  /-- `InvalidGPConstraint` -/
  | invalidGP
  /-- any other exception -/
  | err (e : Err)
deriving DecidableEq

/-- An element of a model, regarded as a set of constraints: a constraint, or another set with its constraints. -/
inductive Elem (V K D : Type) where
  /-- a constraint -/
  | one (c : Con V K D)
  /-- a set: a submodel, a list or an array of constraints -/
  | set (cs : List (Con V K D))

/-- The constraints of an element. -/
def Elem.cons {V K D : Type} : Elem V K D → List (Con V K D)
  | .one c => [c]
  | .set cs => cs

/-- A model. -/
structure Mdl (V K D : Type) where
  /-- its elements -/
  top : List (Elem V K D)
  /-- `cost` -/
  cost : Nomial V K D
  /-- whether `substitutions` has any entries -/
  hasSubs : Bool
  /-- the constants among them -/
  consts : List (V × K)
  /-- `bound_varkeys`: the constrained variables without substitution, in the order of the set (gpkit/constraints/bounded.py 62-64) -/
  free : List V

/-- `flat()`. -/
def Mdl.flat {V K D : Type} (m : Mdl V K D) : List (Con V K D) := m.top.flatMap Elem.cons

/-- New variables. -/
structure Names (V : Type) where
  /-- `relaxvar` of a constant (gpkit/constraints/relax.py 189) -/
  rv : V → V
  /-- `newconst` of a constant (gpkit/constraints/relax.py 197) -/
  nc : V → V
  /-- elements of `relaxvars` (gpkit/constraints/relax.py 84) -/
  cs : Nat → V

/-- A program: what is handed to `solve`. -/
structure Prog (V K D : Type) where
  /-- the cost -/
  cost : Nomial V K D
  /-- the constraints -/
  cons : List (Con V K D)
  /-- the substitutions -/
  subs : List (V × K)

/-- Solving: `solve` and `sp(use_pccp=False).localsolve`. -/
structure Solver (V K D : Type) where
  /-- `feas.solve(**solveargs)` -/
  gp : Prog V K D → Except Fail (V → K)
  /-- `feas.sp(use_pccp=False).localsolve(**solveargs)` -/
  sp : Prog V K D → Except Fail (V → K)

/-- What was relaxed. -/
inductive Stage where
  /-- constants, with bounds for the variables -/
  | constants
  /-- constraints -/
  | constraints
deriving DecidableEq

/-- The solution returned by `debug`, with its warnings about relaxations. -/
structure Diag (V K : Type) where
  /-- which program it solves -/
  stage : Stage
  /-- values of all variables -/
  pt : V → K
  /-- `"Relaxed Constants"`: relaxation and constant -/
  consts : List (K × V)
  /-- `"Relaxed Constraints"`: relaxation and number of the constraint -/
  traints : List (K × Nat)

/-- `try: solve; except InvalidGPConstraint: localsolve` (gpkit/constraints/model.py 184-187 and 197-200). -/
def Solver.attempt {V K D : Type} (S : Solver V K D) (p : Prog V K D) : Except Fail (V → K) :=
  match S.gp p with
  | .error .invalidGP => S.sp p
  | r => r

/-- An exception outside the `try`. -/
def raised {α : Type} : Except Err α → Except Fail α
  | .ok a => .ok a
  | .error e => .error (.err e)

/-- `except Infeasible:` (gpkit/constraints/model.py 191 and 203): what is done instead. -/
def rescue {α : Type} (r : Except Fail α) (alt : Except Fail (Option α)) : Except Fail (Option α) :=
  match r with
  | .ok d => .ok (some d)
  | .error .infeasible => alt
  | .error e => .error e

section
variable {V K D : Type} [DecidableEq V] [Field K] [LinearOrder K] [HasPow K]
variable [AddCommGroup D] [DecidableEq D] [Module K D]

/-- The default bounds (gpkit/constraints/bounded.py 57-61): `eps` and `1/eps`. -/
def eps : K := 1 / 10 ^ 30

/-- The bounds of one variable (gpkit/constraints/bounded.py 24-33), whose monomial has been stripped of units. -/
def varBounds (E : Env V K D) (v : V) : Except Err (List (Con V K D)) := do
  let lo ← mkPosy E false (varNomial (fun _ => none) v) .ge ⟨numMap ⟨eps, none⟩, .monomial⟩
  let hi ← mkPosy E false (varNomial (fun _ => none) v) .le ⟨numMap ⟨1 / eps, none⟩, .monomial⟩
  pure [lo, hi]

/-- `relaxvars.prod()**30 * self.cost` (gpkit/constraints/model.py 179 and 195). -/
def feasCost (E : Env V K D) (rs : List V) (cost : Nomial V K D) : Except Err (Nomial V K D) := do
  let p ← Arr.prod false (rs.map (fun r => .nom (varNomial E.vunits r)))
  let q ← PyVal.pow false p (.int 30)
  match ← PyVal.mul false q (.nom cost) with
  | .nom n => pure n
  | .num _ => .error .notModelled

/-- The constants that are relaxed: those that are not zero (gpkit/constraints/relax.py 173-175). -/
def Mdl.relaxable (m : Mdl V K D) : List (V × K) := m.consts.filter (fun c => decide (c.2 ≠ 0))

/-- The constants that stay: those that are zero (gpkit/constraints/relax.py 173-175). -/
def Mdl.zeros (m : Mdl V K D) : List (V × K) := m.consts.filter (fun c => decide (c.2 = 0))

/-- The first program (gpkit/constraints/model.py 176-181). -/
def prog1 (E : Env V K D) (N : Names V) (m : Mdl V K D) : Except Err (Prog V K D) := do
  let bounds ← m.free.mapM (varBounds E)
  if m.hasSubs then do
    let rel ← m.relaxable.mapM (fun c => constCons E false (N.rv c.1) (N.nc c.1) c.1)
    let cost ← feasCost E (m.relaxable.map (fun c => N.rv c.1)) m.cost
    pure ⟨cost, m.flat ++ bounds.flatten ++ rel.flatten, m.zeros ++ m.relaxable.map (fun c => (N.nc c.1, c.2))⟩
  else pure ⟨m.cost, m.flat ++ bounds.flatten, []⟩

/-- `relaxvars` of `ConstraintsRelaxed` (gpkit/constraints/relax.py 83-84): a vector of length `len(original_constraints)`. -/
def Mdl.relaxvars (m : Mdl V K D) (N : Names V) : List V := (List.range m.top.length).map N.cs

/-- The second program (gpkit/constraints/model.py 194-195). -/
def prog2 (E : Env V K D) (N : Names V) (m : Mdl V K D) : Except Err (Prog V K D) := do
  let rel ← relaxedAll E false (m.relaxvars N) m.flat
  let cost ← feasCost E (m.relaxvars N) m.cost
  pure ⟨cost, rel, m.consts⟩

/-- `tants.check_relaxed(sol)` (gpkit/constraints/relax.py 223-232); `tants` exists if there were substitutions (gpkit/constraints/model.py 177-178 and 190). -/
def check1 (N : Names V) (m : Mdl V K D) (pt : V → K) : Except Fail (Diag V K) :=
  if m.hasSubs then
    match getRelaxed (m.relaxable.map (fun c => pt (N.rv c.1))) (m.relaxable.map (fun c => c.1)) with
    | .ok r => .ok ⟨.constants, pt, r, []⟩
    | .error e => .error (.err e)
  else .error (.err .unboundLocal)

/-- What `check_relaxed` needs of `original_constraints[i]` (gpkit/constraints/relax.py 108 and 113): a set has no `left`. -/
def leftOf (m : Mdl V K D) (i : Nat) : Except Err Unit :=
  match m.top[i]? with
  | some (.one _) => .ok ()
  | some (.set _) => .error .attributeError
  | none => .error .indexError

/-- `traints.check_relaxed(sol)` (gpkit/constraints/relax.py 102-125). -/
def check2 (N : Names V) (m : Mdl V K D) (pt : V → K) : Except Fail (Diag V K) :=
  match getRelaxed ((m.relaxvars N).map pt) (List.range m.flat.length) with
  | .ok r =>
    match r.mapM (fun x => leftOf m x.2) with
    | .ok _ => .ok ⟨.constraints, pt, [], r⟩
    | .error e => .error (.err e)
  | .error e => .error (.err e)

/-- The second half of `debug` (gpkit/constraints/model.py 194-204). -/
def second (S : Solver V K D) (E : Env V K D) (N : Names V) (m : Mdl V K D) : Except Fail (Option (Diag V K)) := do
  let p ← raised (prog2 E N m)
  rescue (S.attempt p >>= check2 N m) (.ok none)

/-- `Model.debug` (gpkit/constraints/model.py 166-215); `none` is `None`. -/
def debug (S : Solver V K D) (E : Env V K D) (N : Names V) (m : Mdl V K D) : Except Fail (Option (Diag V K)) := do
  let p ← raised (prog1 E N m)
  rescue (S.attempt p >>= check1 N m) (second S E N m)

end
end Debug
end Verif
