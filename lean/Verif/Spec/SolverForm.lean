import Verif.Spec.Eval

/-!
# The value of the solver form of `h <= 1`

Terms without free variables are moved to the other side, and both sides are divided by what is there then.
-/

namespace Verif
section
variable {V : Type}

/-- All variables of the term have values. -/
def allFixed (isFixed : V → Bool) (t : HV V ℝ × ℝ) : Bool := t.1.items.all (fun kx => isFixed kx.1)

/-- `N / (1 - C)`, where `C` is the sum of the terms without free variables and `N` that of the others. -/
noncomputable def formVal (isFixed : V → Bool) (x : V → ℝ) (h : List (HV V ℝ × ℝ)) : ℝ :=
  termsVal x (h.filter (fun t => !allFixed isFixed t)) / (1 - termsVal x (h.filter (allFixed isFixed)))

/-- The dual variables of a constraint at a point where it is active: the values of its terms times the multiplier. -/
noncomputable def termDuals (la : ℝ) (pt : V → ℝ) (ts : List (HV V ℝ × ℝ)) : List ℝ := ts.map (fun t => la * (t.2 * monVal pt t.1.items))

end
end Verif
