import Verif.Model.Sliders

/-!
# What sliders should do

Every constant that is a number or a sweep has a slider, which starts at its value (the first of a sweep). The value, and all values of a sweep, are within its ends.
Moving a slider changes its variable and no other.
-/

namespace Verif
namespace Sliders
variable {A N I K : Type}

/-- The value a slider starts at. -/
def Val.start : Val K → Option K
  | .num x => some x
  | .sweep (x :: _) => some x
  | _ => none

/-- All values a constant has. -/
def Val.all : Val K → List K
  | .num x => [x]
  | .sweep vs => vs
  | _ => []

/-- The value is no sweep with a function and no sweep over nothing. -/
def Val.Ready : Val K → Prop
  | .sweepFn => False
  | .sweep [] => False
  | _ => True

/-- A slider for a value: where it is, 24 steps, and within its ends. -/
def Slider.Fits [Field K] [LinearOrder K] (w : Slider A K) (x : K) : Prop := w.value = x ∧ w.min ≤ x ∧ x ≤ w.max ∧ w.min + 24 * w.step = w.max

/-- The name is that of one variable, a scalar. -/
def Only (E : Lookup.Env A N I) (vks : List A) (n : N) (a : A) : Prop :=
  a ∈ vks ∧ E.idx a = none ∧ Lookup.MapKey.str n ∈ E.keys a ∧ ∀ b ∈ vks, Lookup.MapKey.str n ∈ E.keys b → b = a

end Sliders
end Verif
