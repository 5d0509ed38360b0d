import Verif.Model.Bounds

/-! # What it means for a variable to be bounded by the terms of a program -/

namespace Verif

/-- The other of the two sides. -/
def Side.opposite : Side → Side
  | .upper => .lower
  | .lower => .upper

/-- A variable is bounded above by a term of an inequality (or the cost) in which it has a positive exponent, below if the exponent is
negative. In an equality `∏ w^y = 1` a variable is bounded on one side if every other variable is bounded on the side that matters:
the opposite side if its exponent has the same sign, the same side otherwise. -/
inductive BoundedBy {V K : Type} [Zero K] [LT K] (ineqs eqs : List (List (V × K))) : V → Side → Prop
  | up {e v x} : e ∈ ineqs → (v, x) ∈ e → 0 < x → BoundedBy ineqs eqs v .upper
  | low {e v x} : e ∈ ineqs → (v, x) ∈ e → x < 0 → BoundedBy ineqs eqs v .lower
  | same {e v x s} : e ∈ eqs → (v, x) ∈ e →
      (∀ w y, (w, y) ∈ e → w ≠ v → (0 < y ↔ 0 < x) → BoundedBy ineqs eqs w s.opposite) →
      (∀ w y, (w, y) ∈ e → w ≠ v → ¬ (0 < y ↔ 0 < x) → BoundedBy ineqs eqs w s) → BoundedBy ineqs eqs v s

end Verif
