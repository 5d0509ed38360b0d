import Verif.Spec.Program
import Mathlib.Analysis.SpecialFunctions.Log.Basic

/-!
# The problem solved by `cvxopt.solvers.gp`, and geometric programs as lists of constraints

From the documentation of cvxopt: `gp(K, F, g, G, h, A, b)` minimises the logarithm of the sum of exponentials of the first `K[0]`
rows of `F x + g`, subject to the same quantity for each further block of rows being at most zero, `G x <= h` and `A x = b`.
-/

namespace Verif

/-- Sums of consecutive blocks of a list, of the given sizes. -/
noncomputable def blockSums : List Nat → List ℝ → List ℝ
  | [], _ => []
  | n :: K, l => (l.take n).sum :: blockSums K (l.drop n)

/-- `exp (F x + g)`, row by row. -/
noncomputable def expRows (F : List (Nat × Nat × ℝ)) (g : List ℝ) (x : Nat → ℝ) : List ℝ :=
  g.zipIdx.map (fun gr => Real.exp (rowDot F x gr.2 + gr.1))

/-- The values `M x - rhs`, row by row. -/
noncomputable def residuals (M : List (Nat × Nat × ℝ)) (rhs : List ℝ) (x : Nat → ℝ) : List ℝ :=
  rhs.zipIdx.map (fun hr => rowDot M x hr.2 - hr.1)

/-- Sum of products of two lists. -/
noncomputable def dotList (a b : List ℝ) : ℝ := (List.zipWith (· * ·) a b).sum

/-- A constraint of a geometric program in solver form: a posynomial that is to be at most one, or a monomial `c x^e` that is to
equal one, given together with the exponents `e'` of its inverse. -/
inductive Con (V : Type) where
  /-- `posynomial <= 1` -/
  | ineq (terms : List (HV V ℝ × ℝ))
  /-- `c * x^e = 1` -/
  | eq (e e' : HV V ℝ) (c : ℝ)

/-- What a constraint says. -/
noncomputable def Con.Sat {V : Type} (pt : V → ℝ) : Con V → Prop
  | .ineq ts => termsVal pt ts ≤ 1
  | .eq e _ c => c * monVal pt e.items = 1

/-- Constraints as they come out of posynomial inequalities and monomial equalities. -/
def Con.OK {V : Type} : Con V → Prop
  | .ineq ts => ts ≠ [] ∧ ∀ t ∈ ts, 0 < t.2 ∧ (t.1.items.map (·.1)).Nodup
  | .eq e e' c => 0 < c ∧ (e.items.map (·.1)).Nodup ∧ (e'.items.map (·.1)).Nodup ∧
      ∀ pt : V → ℝ, (∀ v, 0 < pt v) → monVal pt e'.items * monVal pt e.items = 1

end Verif
