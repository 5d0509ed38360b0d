import Verif.Model.Pipeline

/-!
# What a solution of a model is

Independent of how a model is solved: the constraints a user writes, read as statements about physical values.
-/

namespace Verif
namespace Pipeline
variable {V D : Type}

/-- The constraint holds at a point, its sides being compared with a factor `s` to spare. -/
def Con.Holds (s : ℝ) (pt : V → ℝ) : Con V D → Prop
  | .le _ p m => physVal pt p ≤ s * physVal pt m
  | .eq _ l r => physVal pt l ≤ s * physVal pt r ∧ physVal pt r ≤ s * physVal pt l

/-- A point has the values a dict gives. -/
def Agrees [DecidableEq V] (pt : V → ℝ) (d : PyDict V ℝ) : Prop := ∀ v c, d.get? v = some c → pt v = c

/-- A number is the reported one, up to the tolerances of the check. -/
def Close (tol abstol a b : ℝ) : Prop := a = b ∨ |a - b| < tol * |a + b| ∨ |a - b| < abstol

end Pipeline
end Verif
