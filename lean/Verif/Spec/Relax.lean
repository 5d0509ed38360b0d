import Verif.Model.Relax
import Verif.Spec.Eval

/-! What a constraint says, and the relaxation of what it says. -/

namespace Verif
namespace Relax
variable {V D : Type}

/-- A constraint holds at a point. -/
def Con.Holds (pt : V → ℝ) (c : Con V ℝ D) : Prop :=
  match c.oper with
  | .le => physVal pt c.left.hmap ≤ physVal pt c.right.hmap
  | .ge => physVal pt c.right.hmap ≤ physVal pt c.left.hmap
  | .eq => physVal pt c.left.hmap = physVal pt c.right.hmap

/-- A constraint holds at a point after its larger side has been multiplied by `r`; for an equality, in both directions. -/
def Con.HoldsWithin (r : ℝ) (pt : V → ℝ) (c : Con V ℝ D) : Prop :=
  match c.oper with
  | .le => physVal pt c.left.hmap ≤ r * physVal pt c.right.hmap
  | .ge => physVal pt c.right.hmap ≤ r * physVal pt c.left.hmap
  | .eq => physVal pt c.left.hmap ≤ r * physVal pt c.right.hmap ∧ physVal pt c.right.hmap ≤ r * physVal pt c.left.hmap

/-- What the solver is given says the same as the constraint. -/
def Con.Faithful (c : Con V ℝ D) : Prop :=
  ∀ pt : V → ℝ, (∀ v, 0 < pt v) → ((∀ f ∈ c.unsubbed, termsVal pt f.hmap.terms ≤ 1) ↔ c.Holds pt)

end Relax
end Verif
