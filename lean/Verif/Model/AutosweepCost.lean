import Verif.Model.Autosweep
import Mathlib.Analysis.SpecialFunctions.Log.Basic

/-!
# Costs of an autosweep

gpkit/tools/autosweep.py 90-112 and 274-297, with real numbers for floats.
-/

namespace Verif
namespace Auto
noncomputable section
variable {Sol : Type}

open Classical in
/-- `get_tol` (gpkit/tools/autosweep.py 274-297): the point, lower bound and upper bound. `cost` is `sol["cost"]` and `sens` is
`sol["sensitivities"]["variables"][variable]`. -/
def getTol (cost sens : Sol → ℝ) (lo hi : ℝ) (sol0 sol1 : Sol) : ℝ × ℝ × ℝ :=
  let y0 := Real.log (cost sol0)
  let y1 := Real.log (cost sol1)
  let x0 := Real.log lo
  let x1 := Real.log hi
  let s0 := sens sol0
  let s1 := sens sol1
  let num := y1 - y0 + x0 * s0 - x1 * s1
  let denom := s0 - s1
  let x := num / denom
  let lb := y0 + s0 * (x - x0)
  let interp := if denom = 0 then -1 else (x1 - x) / (x1 - x0)
  let ub := y0 * interp + y1 * (1 - interp)
  if interp < 1 / 10000000 ∨ 1 - 1 / 10000000 < interp then (Real.exp ((x0 + x1) / 2), (y0 + y1) / 2, (y0 + y1) / 2)
  else (Real.exp x, lb, ub)

/-- The argument `bound`. -/
inductive Bound where
  /-- None -/
  | mean
  /-- "lb" -/
  | lb
  /-- "ub" -/
  | ub

/-- Interpolation in log space (gpkit/tools/autosweep.py 110-112). -/
def interpolate (lo hi loval hival value : ℝ) : ℝ :=
  let interp := (Real.log hi - Real.log value) / (Real.log hi - Real.log lo)
  Real.exp (interp * Real.log loval + (1 - interp) * Real.log hival)

/-- `splitcost` (gpkit/tools/autosweep.py 96-102). -/
def splitcost (b : Bound) (lb ub : ℝ) : ℝ :=
  match b with
  | .mean => Real.exp ((lb + ub) / 2)
  | .lb => Real.exp lb
  | .ub => Real.exp ub

open Classical in
/-- `cost_at` (gpkit/tools/autosweep.py 90-112). -/
def costAt (cost : Sol → ℝ) (t : Tree ℝ Sol) (value : ℝ) (b : Bound) : Except Err ℝ :=
  if value < t.lo ∨ t.hi < value then .error .valueError
  else
    match t.minBst value with
    | .costed lo hi s0 s1 x lb ub =>
      if lb ≠ 0 then
        if value ≤ x then .ok (interpolate lo x (cost s0) (splitcost b lb ub) value)
        else .ok (interpolate x hi (splitcost b lb ub) (cost s1) value)
      else .ok (interpolate lo hi (cost s0) (cost s1) value)
    | t => .ok (interpolate t.lo t.hi (cost t.s0) (cost t.s1) value)

end
end Auto
end Verif
