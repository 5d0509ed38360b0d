import Verif.Model.Mosek
import Verif.Spec.Program

/-!
# What a task means

From the documentation of mosek: `putaijlist` sets one coefficient after the other, so that a coefficient set twice has its last value; the
primal exponential cone consists of the triples with `x0 >= x1*exp(x2/x1)` and `x1 > 0`, and their limits.
-/

namespace Verif
namespace Mosek

/-- The primal exponential cone. -/
def ExpCone (a b c : ℝ) : Prop := (0 < b ∧ b * Real.exp (c / b) ≤ a) ∨ (b = 0 ∧ 0 ≤ a ∧ c ≤ 0)

/-- A value satisfies a bound. -/
def Bnd.Sat : Bnd → ℝ → Prop
  | .fr, _ => True
  | .fx v, x => x = v
  | .up v, x => x ≤ v

/-- The coefficients after all have been put. -/
def coeffs (puts : List (Nat × Nat × ℝ)) : PyDict (Nat × Nat) ℝ := puts.foldl (fun d t => d.set (t.1, t.2.1) t.2.2) []

/-- The value of a linear constraint. -/
noncomputable def rowVal (puts : List (Nat × Nat × ℝ)) (X : Nat → ℝ) (i : Nat) : ℝ :=
  (((coeffs puts).filter (fun e => e.1.1 = i)).map (fun e => e.2 * X e.1.2)).sum

/-- A point is feasible. -/
structure Feasible (T : Task) (X : Nat → ℝ) : Prop where
  /-- bounds of variables -/
  vars : ∀ (j : Nat) (b : Bnd), T.vars[j]? = some b → b.Sat (X j)
  /-- bounds of constraints -/
  cons : ∀ (i : Nat) (b : Bnd), T.cons[i]? = some b → b.Sat (rowVal T.puts X i)
  /-- cones -/
  cones : ∀ s ∈ T.cones, ExpCone (X s) (X (s + 1)) (X (s + 2))

/-- The objective. -/
def objective (T : Task) (X : Nat → ℝ) : ℝ := T.obj.2 * X T.obj.1

/-- What a bound adds to the dual objective, for multipliers of its lower and upper side. -/
def Bnd.dual : Bnd → ℝ → ℝ → ℝ
  | .fr, _, _ => 0
  | .fx v, l, u => v * l - v * u
  | .up v, _, u => -(v * u)

/-- The multiplier of a side without a bound is zero. -/
def Bnd.DualOK : Bnd → ℝ → ℝ → Prop
  | .fr, l, u => l = 0 ∧ u = 0
  | .fx _, l, u => 0 ≤ l ∧ 0 ≤ u
  | .up _, l, u => l = 0 ∧ 0 ≤ u

/-- A feasible point of the dual problem: multipliers of the lower and upper sides of rows and of variables, and for each cone a vector
in the dual cone. -/
structure DualFeasible (T : Task) (slc suc slx sux : Nat → ℝ) (sn : Nat → ℝ × ℝ × ℝ) : Prop where
  /-- rows -/
  cons : ∀ (i : Nat) (b : Bnd), T.cons[i]? = some b → b.DualOK (slc i) (suc i)
  /-- variables -/
  vars : ∀ (j : Nat) (b : Bnd), T.vars[j]? = some b → b.DualOK (slx j) (sux j)
  /-- the dual cone -/
  cones : ∀ s ∈ T.cones, ∀ a b c, ExpCone a b c → 0 ≤ (sn s).1 * a + (sn s).2.1 * b + (sn s).2.2 * c
  /-- the equations of the dual problem, as an identity of linear forms -/
  eqs : ∀ X : Nat → ℝ, objective T X = ((List.range T.cons.length).map (fun i => (slc i - suc i) * rowVal T.puts X i)).sum +
    ((List.range T.vars.length).map (fun j => (slx j - sux j) * X j)).sum +
    (T.cones.map (fun s => (sn s).1 * X s + (sn s).2.1 * X (s + 1) + (sn s).2.2 * X (s + 2))).sum

/-- The dual objective. -/
noncomputable def dualObjective (T : Task) (slc suc slx sux : Nat → ℝ) : ℝ :=
  (T.cons.zipIdx.map (fun bi => bi.1.dual (slc bi.2) (suc bi.2))).sum + (T.vars.zipIdx.map (fun bj => bj.1.dual (slx bj.2) (sux bj.2))).sum

/-- The value of posynomial `p` of the program given by coefficients, exponents and numbers of terms, at the logarithms `y`. -/
noncomputable def posyVal (cs : List ℝ) (A : List (Nat × Nat × ℝ)) (k : List Nat) (y : Nat → ℝ) (p : Nat) : ℝ :=
  ((List.range' (k.take p).sum ((k[p]?).getD 0)).map (fun i => (cs[i]?).getD 0 * Real.exp (rowDot A y i))).sum

end Mosek
end Verif
