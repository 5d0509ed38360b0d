import Verif.Model.Lookup

/-! # Which variables are asked for -/

namespace Verif
namespace Lookup
variable {A N I : Type}

/-- Whether the variable or vector `a` is asked for with `k`: by its name, by itself or by one of its elements. -/
def Wanted (E : Env A N I) : MapKey A N → A → Prop
  | .str n, a => MapKey.str n ∈ E.keys a
  | .key b, a => a = b ∨ (E.idx b ≠ none ∧ E.veckey b = some a)

/-- The variables of a solution: scalars and whole vectors. Only elements of vectors have other keys as keys (gpkit/varkey.py 48-49). -/
def Whole (E : Env A N I) (vks : List A) : Prop := ∀ a ∈ vks, E.idx a = none ∧ ∀ b, MapKey.key b ∉ E.keys a

end Lookup
end Verif
