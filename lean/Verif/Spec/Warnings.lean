import Verif.Spec.Eval
import Verif.Model.Warnings

/-!
# What the warnings should say

Independent of the processing steps: when a constraint counts as loose or tight and when a variable counts as stuck at a bound.
-/

namespace Verif
namespace Warn

variable {ι V D : Type}

/-- The warnings of a category in a result; none if the category is missing. -/
def notes [DecidableEq ι] (r : Res ι V ℝ) (cat : String) : List (Note ι V ℝ) := ((r.warnings.getD []).get? cat).getD []

/-- The sides differ by at least the tolerance times the right side, in base units. -/
def IsLoose (pt : V → ℝ) (tol : ℝ) (c : Con ι V ℝ D) : Prop := tol * |physVal pt c.right| ≤ |physVal pt c.left - physVal pt c.right|

/-- The sensitivity of a constraint: zero if the solver did not see it. -/
def sensOf [DecidableEq ι] (r : Res ι V ℝ) (c : ι) : ℝ := (r.sens.get? c).getD 0

/-- What is wrong with a variable of value `x` whose bounding constraints have sensitivities `sl` and `su`: near a bound means within a factor `e^logtol`. -/
def AtBound (b : Bounder ℝ) (x sl su : ℝ) : Label → Prop
  | ⟨false, false, n⟩ => n = b.fmt b.lower ∧ b.lower ≠ 0 ∧ b.senstol ≤ sl
  | ⟨false, true, n⟩ => n = b.fmt b.upper ∧ b.upper ≠ 0 ∧ b.senstol ≤ su
  | ⟨true, false, n⟩ => n = b.fmt b.lower ∧ b.lower ≠ 0 ∧ x ≤ b.lower * Real.exp b.logtol
  | ⟨true, true, n⟩ => n = b.fmt b.upper ∧ b.upper ≠ 0 ∧ b.upper ≤ x * Real.exp b.logtol

end Warn
end Verif
