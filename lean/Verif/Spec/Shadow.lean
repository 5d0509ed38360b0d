import Verif.Spec.Pipeline

/-!
# Constraints without constant terms

What C80 requires of constraints: on the lesser side of an inequality, divided by the greater side, no term consists of constants alone.
-/

namespace Verif
namespace Pipeline
variable {V D : Type} [DecidableEq V]

/-- Every term of the lesser side has, relative to the greater side, a variable without a fixed value. -/
def Con.NoConst (fixed : PyDict V ℝ) : Con V D → Prop
  | .le _ p m => ∀ s ∈ m.terms, ∀ t ∈ p.terms, ∃ v, fixed.get? v = none ∧ (t.1.get? v).getD 0 ≠ (s.1.get? v).getD 0
  | .eq _ _ _ => True

end Pipeline
end Verif
