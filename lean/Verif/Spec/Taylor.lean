import Mathlib.Analysis.Asymptotics.Lemmas
import Mathlib.Algebra.Polynomial.Eval.Degree

/-!
# Taylor polynomials

`P` is the Taylor polynomial of order `n` of `f` at zero: of degree at most `n`, and the error vanishes faster than `x ^ n`.
-/

namespace Verif
open Asymptotics Topology Polynomial

/-- `P` is the Taylor polynomial of `f` at 0 of order `n`. -/
def TaylorOf (f : ℝ → ℝ) (n : ℕ) (P : ℝ[X]) : Prop :=
  P.natDegree ≤ n ∧ (fun x => f x - P.eval x) =o[𝓝 0] (fun x => x ^ n)

end Verif
