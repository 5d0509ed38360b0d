import Verif.Model.Autosweep
import Verif.Spec.Pipeline

/-!
# What a sweep of a model is about

The points that a model has at one value of the swept variable.
-/

namespace Verif
namespace Auto
open Pipeline

variable {V D F : Type} [DecidableEq V] [AddCommGroup D] [DecidableEq D]

/-- The point satisfies the constraints, the swept variable has the value, and the other constants have theirs. -/
structure Feasible (cons : List (Con V D)) (subs : PyDict V (Val ℝ F)) (v : V) (value : ℝ) (pt : V → ℝ) : Prop where
  pos : ∀ w, 0 < pt w
  swept : pt v = value
  consts : ∀ w c, w ≠ v → subs.get? w = some (.num c) → pt w = c
  cons : ∀ c ∈ cons, c.Holds 1 pt

end Auto
end Verif
