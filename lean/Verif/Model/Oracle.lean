import Verif.Model.AutosweepCost
import Verif.Model.Text

/-!
# Values sampled from an autosweep

gpkit/tools/autosweep.py 76-88, 121-123 and 161-200. Simplifications: bounds and sampled values are positive (logs of others are not
modelled); units are left out, so that values are magnitudes in the units of the first solution; `sol(key)` is a function of the solution and the
key, and never raises.
-/

namespace Verif
namespace Auto

/-- A float. -/
inductive Flt where
  /-- a number -/
  | num (x : ℝ)
  /-- `inf` -/
  | inf
  /-- `-inf` -/
  | ninf
  /-- `nan` -/
  | nan

/-- What is asked for. -/
inductive Key (V : Type) where
  /-- a string -/
  | name (s : Str)
  /-- something that has an `hmap` -/
  | expr (terms : PyDict (HV V ℝ) ℝ)

noncomputable section
variable {Sol V : Type} [DecidableEq V]

namespace Flt
open Classical

/-- `np.log`. -/
def log (x : ℝ) : Flt := if 0 < x then .num (Real.log x) else if x = 0 then .ninf else .nan

/-- `np.exp`. -/
def exp : Flt → Flt
  | .num x => .num (Real.exp x)
  | .inf => .inf
  | .ninf => .num 0
  | .nan => .nan

/-- Product with a number. -/
def scale (a : ℝ) : Flt → Flt
  | .num x => .num (a * x)
  | .inf => if a = 0 then .nan else if 0 < a then .inf else .ninf
  | .ninf => if a = 0 then .nan else if 0 < a then .ninf else .inf
  | .nan => .nan

/-- Sum. -/
def add : Flt → Flt → Flt
  | .num x, .num y => .num (x + y)
  | .nan, _ => .nan
  | _, .nan => .nan
  | .inf, .ninf => .nan
  | .ninf, .inf => .nan
  | .inf, _ => .inf
  | _, .inf => .inf
  | .ninf, _ => .ninf
  | _, .ninf => .ninf

end Flt

open Classical in
/-- `posy_at` (gpkit/tools/autosweep.py 76-88). `val` is the magnitude of `sol(posy)`. -/
def posyAt (val : Sol → ℝ) (t : Tree ℝ Sol) (value : ℝ) : Except Err Flt :=
  if value < t.lo ∨ t.hi < value then .error .valueError
  else
    let bst := t.minBst value
    let loval := Flt.log (val bst.s0)
    let hival := Flt.log (val bst.s1)
    let interp := (Real.log bst.hi - Real.log value) / (Real.log bst.hi - Real.log bst.lo)
    .ok (Flt.exp (Flt.add (Flt.scale interp loval) (Flt.scale (1 - interp) hival)))

open Classical in
/-- `_is_cost` (gpkit/tools/autosweep.py 173-176). A name has no `hmap`; an expression with another `hmap` is not equal to the name. -/
def isCost (costposy : PyDict (HV V ℝ) ℝ) : Key V → Bool
  | .name s => s == "cost".toList
  | .expr terms => decide (terms.length = costposy.length ∧ ∀ t ∈ terms, costposy.get? t.1 = some t.2)

/-- `__getval` of `SolutionOracle` (gpkit/tools/autosweep.py 178-188): the values at each of `sampled_at`. -/
def getval (cost : Sol → ℝ) (val : Sol → Key V → ℝ) (costposy : PyDict (HV V ℝ) ℝ) (t : Tree ℝ Sol) (sampledAt : List ℝ) (key : Key V) :
    Except Err (List Flt) :=
  if isCost costposy key then sampledAt.mapM (fun x => (costAt cost t x .mean).map .num)
  else sampledAt.mapM (fun x => posyAt (fun s => val s key) t x)

/-- `cost_ub` (gpkit/tools/autosweep.py 196-200) and `cost_lb` (190-194). -/
def costBound (cost : Sol → ℝ) (t : Tree ℝ Sol) (sampledAt : List ℝ) (b : Bound) : Except Err (List ℝ) :=
  sampledAt.mapM (fun x => costAt cost t x b)

end
end Auto
end Verif
