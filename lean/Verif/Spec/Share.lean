import Verif.Model.Sub

/-!
# When substitution keeps track of terms
-/

namespace Verif
section
variable {V K : Type} [DecidableEq V] [DecidableEq K]

/-- Exponents without those of the variables `vs`. -/
def strip (vs : List V) (e : HV V K) : HV V K := ⟨e.items.filter (fun kx => !vs.contains kx.1)⟩

/-- Two terms that have become equal by substituting for some of the variables, in the order `vs`, contain at most one of the variables still to come. -/
def MergesLate (ts : PyDict (HV V K) K) (vs : List V) : Prop :=
  ∀ t1 ∈ ts, ∀ t2 ∈ ts, t1.1 ≠ t2.1 → ∀ done v later, vs = done ++ v :: later →
    (strip done t1.1 == strip done t2.1) = true → t1.1.get? v ≠ none → ∀ w ∈ later, t1.1.get? w = none

end
end Verif
