import Verif.Spec.Eval

/-!
# What a geometric program means

Independent of the sparse data: the cost and the constraints are posynomials, evaluated at positive points.
-/

namespace Verif

/-- Product of row `i` of a sparse matrix, given as triples (row, column, value), with a vector. Repeated triples add up, as in scipy. -/
def rowDot {K : Type} [Field K] (A : List (Nat × Nat × K)) (y : Nat → K) (i : Nat) : K :=
  ((A.filter (fun t => t.1 = i)).map (fun t => t.2.2 * y t.2.1)).sum

/-- The linear form `∑ x * y v` of an exponent vector. -/
def expDot {V K : Type} [Field K] (y : V → K) (e : List (V × K)) : K := (e.map (fun kx => kx.2 * y kx.1)).sum

/-- Entry `(i, j)` of a sparse matrix given as triples. -/
def entry {K : Type} [Field K] (A : List (Nat × Nat × K)) (i j : Nat) : K :=
  ((A.filter (fun t => t.1 = i ∧ t.2.1 = j)).map (fun t => t.2.2)).sum

end Verif
