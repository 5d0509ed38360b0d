import Verif.Model.GP
import Mathlib.Analysis.SpecialFunctions.Log.Basic

/-!
# Dual variables and the check of a solution

Models `GeometricProgram._generate_nula` (gpkit/constraints/gp.py 274-294) and `check_solution` (347-400).
`exp` and `log` are the real functions. Vectors are functions of the index; numpy's NaN is an explicit failure.
-/

namespace Verif
namespace GP
variable {V : Type} [DecidableEq V]

/-- `A.dot(y)` for a `CootMatrix` (gpkit/small_classes.py 59-65): scipy adds up repeated entries. -/
def Coot.dot {K : Type} [Field K] (A : Coot K) (y : Nat → K) (i : Nat) : K :=
  A.foldl (fun acc t => if t.1 = i then acc + t.2.2 * y t.2.1 else acc) 0

/-- `A.T.dot(nu)`. -/
def Coot.tdot {K : Type} [Field K] (A : Coot K) (nu : Nat → K) (j : Nat) : K :=
  A.foldl (fun acc t => if t.2.1 = j then acc + t.2.2 * nu t.1 else acc) 0

/-- Number of columns: `max(col) + 1` (gpkit/small_classes.py 45-46). -/
def Coot.ncols {K : Type} (A : Coot K) : Nat := A.foldl (fun m t => max m (t.2.1 + 1)) 0

/-- `v[mi].sum()` for a slice `mi`. -/
def sliceSum (f : Nat → ℝ) (mi : Nat × Nat) : ℝ := ((List.range' mi.1 (mi.2 - mi.1)).map f).sum

/-- What a solver returns about the dual: monomial or posynomial multipliers. -/
inductive DualOut where
  /-- `"nu" in solver_out` -/
  | nu (nu : Nat → ℝ)
  /-- `"la" in solver_out` -/
  | la (la : List ℝ)
  /-- neither -/
  | none

/-- `_generate_nula` (gpkit/constraints/gp.py 274-294). Returns `la` and `nu`, whose slices are `nu_by_posy`. `A` is the one that was generated unless
a sequential program has changed it. -/
noncomputable def generateNula (d : Data V ℝ) (primal : Nat → ℝ) (out : DualOut) (A : Coot ℝ := d.A) : Option (List ℝ × (Nat → ℝ)) :=
  match out with
  | .nu nu => some (d.mIdxs.map (sliceSum nu), nu)
  | .la la =>
    let la := if la.length + 1 = d.mIdxs.length then 1 :: la else la
    let z := fun i => Real.log ((d.cs[i]?).getD 0) + A.dot primal i
    some (la, fun i =>
      let p := (d.pIdxs[i]?).getD 0
      (la[p]?).getD 0 * Real.exp (z i) /
        (((List.range d.cs.length).filter (fun i' => d.pIdxs[i']? = some p)).map (fun i' => Real.exp (z i'))).sum)
  | .none => Option.none

open Classical in
/-- `almost_equal` (gpkit/constraints/gp.py 366-369). A quotient with denominator zero is inf or NaN, which is not below `tol`. -/
noncomputable def almostEqual (tol abstol a b : ℝ) : Bool :=
  decide (a = b ∨ (a + b ≠ 0 ∧ |(a - b) / (a + b)| < tol) ∨ |a - b| < abstol)

/-- `dual_cost` (gpkit/constraints/gp.py 393-397). -/
noncomputable def dualCost (d : Data V ℝ) (nu : Nat → ℝ) (la : List ℝ) : ℝ :=
  ((d.mIdxs.zip la).map (fun ml =>
    if ml.2 = 0 then 0
    else sliceSum (fun i => nu i * (Real.log ((d.cs[i]?).getD 0) - Real.log (nu i / ml.2))) ml.1)).sum

open Classical in
/-- `dual_cost` is NaN: a term `0*log(0)`, or the logarithm of a negative number. -/
noncomputable def dualNan (d : Data V ℝ) (nu : Nat → ℝ) (la : List ℝ) : Bool :=
  (d.mIdxs.zip la).any (fun ml =>
    decide (ml.2 ≠ 0) && (List.range' ml.1.1 (ml.1.2 - ml.1.1)).any (fun i => decide (nu i / ml.2 ≤ 0)))

open Classical in
/-- `check_solution` (gpkit/constraints/gp.py 347-400): `true` if nothing is raised. `nu` has as many entries as `cs`; `A` is as in
`generateNula`. -/
noncomputable def checkSolution (d : Data V ℝ) (cost : ℝ) (primal nu : Nat → ℝ) (la : List ℝ) (tol abstol : ℝ) (A : Coot ℝ := d.A) : Bool :=
  let pev := fun i => (d.cs[i]?).getD 0 * Real.exp (A.dot primal i)
  let n := d.cs.length
  match d.mIdxs with
  | [] => false
  | m0 :: ms =>
    almostEqual tol abstol (sliceSum pev m0) cost &&
    ms.all (fun mi => !decide (sliceSum pev mi > 1 + tol)) &&
    almostEqual tol abstol (sliceSum nu m0) 1 &&
    !((List.range n).any (fun i => decide (nu i < 0)) && (List.range n).any (fun i => decide (nu i < -tol / 1000))) &&
    !((List.range A.ncols).any (fun j => decide (|A.tdot nu j| > tol))) &&
    !dualNan d nu la &&
    almostEqual tol abstol (Real.exp (dualCost d nu la)) cost

end GP
end Verif
