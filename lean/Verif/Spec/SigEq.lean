import Verif.Spec.Eval

/-!
# What a signomial equality says

Independent of how it is approximated: the positive terms add up to what the negative ones do.
-/

namespace Verif
variable {V : Type}

/-- The sum of the positive terms. -/
noncomputable def posPart (pt : V → ℝ) (ts : PyDict (HV V ℝ) ℝ) : ℝ := termsVal pt (ts.filter (fun t => 0 < t.2))

/-- The sum of the negative terms, without the sign. -/
noncomputable def negPart (pt : V → ℝ) (ts : PyDict (HV V ℝ) ℝ) : ℝ := -termsVal pt (ts.filter (fun t => t.2 < 0))

/-- The two parts are the same up to a factor `s`. -/
def EqualWithin (s : ℝ) (pt : V → ℝ) (ts : PyDict (HV V ℝ) ℝ) : Prop := posPart pt ts ≤ s * negPart pt ts ∧ negPart pt ts ≤ s * posPart pt ts

/-- From `pt0` to `pt` no two terms of one sign change by factors that differ by more than the factor `B`. -/
def MovesWithin (B : ℝ) (pt0 pt : V → ℝ) (ts : PyDict (HV V ℝ) ℝ) : Prop :=
  ∀ t ∈ ts, ∀ u ∈ ts, 0 < t.2 * u.2 → monVal pt t.1.items * monVal pt0 u.1.items ≤ B * (monVal pt0 t.1.items * monVal pt u.1.items)

end Verif
