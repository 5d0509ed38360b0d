import Verif.Model.Constraint

/-!
# The starting point of a sequential geometric program

Models how `SequentialGeometricProgram` chooses the points at which it approximates signomial constraints
(gpkit/constraints/sgp.py 67-95, 152, 162 and 215-224). Values are numbers; whole vectors as keys are not modelled.
-/

namespace Verif
namespace Guess

/-- A key of a dict written by the user. A `VarKey` never equals a `Variable` (gpkit/nomials/data.py 64-65) or a string
(gpkit/varkey.py 101-104), so a plain dict keeps the three apart. -/
inductive Key (V N : Type) where
  /-- a `VarKey` -/
  | varkey (v : V)
  /-- a `Variable`, which is a `Monomial` -/
  | variable (v : V)
  /-- a string -/
  | name (n : N)
deriving DecidableEq

/-- An `x0` argument: a plain dict, or a `KeyDict`, such as the variables of a solution. -/
inductive Arg (V N K : Type) where
  /-- a plain dict -/
  | plain (d : PyDict (Key V N) K)
  /-- a `KeyDict`; what it contains is modelled in `Model/KeyDict.lean` -/
  | keydict (d : PyDict V K)

section
variable {V N K : Type} [DecidableEq V] [DecidableEq N]

/-- `x0[vk]` if `vk in x0`, for a `VarKey` (gpkit/constraints/sgp.py 221). -/
def Arg.look : Arg V N K → V → Option K
  | .plain d, v => d.get? (.varkey v)
  | .keydict d, v => d.get? v

/-- `KeyDict(x0)` (gpkit/constraints/sgp.py 220) one item at a time. A string has no `shape` (gpkit/keydict.py 227). -/
def cleanStep (acc : PyDict V K) (kc : Key V N × K) : Except Err (PyDict V K) :=
  match kc.1 with
  | .varkey v => .ok (acc.set v kc.2)
  | .variable v => .ok (acc.set v kc.2)
  | .name _ => .error .attributeError

/-- `KeyDict(x0)` (gpkit/constraints/sgp.py 220). -/
def Arg.clean : Arg V N K → Except Err (Arg V N K)
  | .plain d => (d.foldlM cleanStep []).map .keydict
  | .keydict d => .ok (.keydict d)

/-- The attributes that decide at which point a constraint is approximated. -/
structure Sgp (V K : Type) where
  /-- `self._gp.x0` -/
  x0 : PyDict V K
  /-- `self.sgpvks`, a set, in iteration order -/
  sgpvks : List V

/-- `self._gp.x0.update({vk: x0[vk] for vk in self.sgpvks if vk in x0})` (gpkit/constraints/sgp.py 221). An empty `x0` (217) has the same effect. -/
def Sgp.move (s : Sgp V K) (x0 : Arg V N K) : Sgp V K :=
  { s with x0 := s.sgpvks.foldl (fun d v => match x0.look v with | some c => d.set v c | none => d) s.x0 }

/-- `gp(x0, cleanx0=...)` (gpkit/constraints/sgp.py 215-221). -/
def Sgp.gp (s : Sgp V K) (x0 : Option (Arg V N K)) (cleanx0 : Bool) : Except Err (Sgp V K) :=
  match x0 with
  | none => .ok s
  | some a => if cleanx0 then .ok (s.move a) else (Arg.clean a).map s.move

/-- `dict(zip(gp.varlocs, np.exp(solver_out["primal"])))` (gpkit/constraints/sgp.py 162) for each solve: a plain dict of `VarKey`s. -/
def ofSolve (sol : PyDict V K) : Arg V N K := .plain (sol.map (fun vc => (.varkey vc.1, vc.2)))

/-- The `x0` of successive passes of `localsolve` (gpkit/constraints/sgp.py 143-162), and at the end the attribute left behind.
`sols` are the free variables found by each solve. -/
def Sgp.localsolve (s : Sgp V K) (x0 : Option (Arg V N K)) (sols : List (PyDict V K)) : Except Err (List (Sgp V K)) :=
  (s.gp x0 true).map (fun s1 => sols.scanl (fun s sol => s.move (ofSolve (N := N) sol)) s1)

end

section
variable {V K D : Type} [DecidableEq V] [Field K] [LinearOrder K] [HasPow K] [AddCommGroup D] [DecidableEq D]

/-- The approximations of one constraint at a point (gpkit/constraints/sgp.py 81 and 224). -/
def approx (feastol : K) (vunits : V → Option (UnitQ D K)) (ord : Orders V K) (setord : List V → List V) (x0 : PyDict V K)
    (sig : Nomial V K D) : Except Err (List (PyDict (HV V K) K)) := do
  let us ← asGpconstr false feastol sig vunits x0 ord setord
  (asHmapslt1 feastol (us.map (·.hmap.terms)) [] ord {}).1

/-- The points and variables of a new program (gpkit/constraints/sgp.py 68-69, 85 and 95), given the forms of its approximations. `slack` is absent
without `use_pccp`. -/
def Sgp.ofForms (setord : List V → List V) (slack : Option V) (subs : PyDict V K) (forms : List (PyDict (HV V K) K)) : Sgp V K :=
  ⟨subs, setord (forms.flatMap (fun h => h.flatMap (fun t => t.1.items.map (·.1)) ++ slack.toList)).dedup⟩

/-- `__init__` (gpkit/constraints/sgp.py 67-95) for the signomial inequalities `sigs`. -/
def Sgp.init (feastol : K) (vunits : V → Option (UnitQ D K)) (ord : Orders V K) (setord : List V → List V) (slack : Option V)
    (subs : PyDict V K) (sigs : List (Nomial V K D)) : Except Err (Sgp V K) := do
  let hmaps ← sigs.mapM (approx feastol vunits ord setord subs)
  pure (.ofForms setord slack subs hmaps.flatten)

end
end Guess
end Verif
