import Verif.Model.ModelSens

/-!
# Sensitivities of models

What C80 requires of lineages, and what the lines of the table say.
-/

namespace Verif
namespace Pipeline
open VK

/-- The names of the models are not empty, have no dot and do not end in a digit. -/
def ClearLineage (l : Lineage) : Prop := ∀ x ∈ l, x.1 ≠ [] ∧ '.' ∉ x.1 ∧ ∀ c, x.1.getLast? = some c → c.isDigit = false

/-- The text is true of the sensitivity, and within a factor of ten of it; `<` is read as "at most". -/
def MText.True (s : ℝ) : MText → Prop
  | .zero => s = 0
  | .below k => (10 : ℝ) ^ (k - 1) < s ∧ s ≤ (10 : ℝ) ^ k
  | .shown x => x = s

end Pipeline
end Verif
