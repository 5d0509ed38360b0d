import Verif.Model.Lookup

/-!
# What names refer to

A name refers to the variables that have it. One variable is found as such, the elements of one vector as that vector, and anything else is
ambiguous.
-/

namespace Verif
namespace Lookup
variable {A N I : Type}

/-- Whether `k` refers to the variable `a`. -/
def Refers (E : Env A N I) (k : MapKey A N) (a : A) : Prop := k = .key a ∨ k ∈ E.keys a

/-- Iterating a set only permutes it, and elements of a vector have different indices. -/
structure EnvOK (E : Env A N I) : Prop where
  /-- iteration permutes -/
  ord : ∀ l, (E.ord l).Perm l
  /-- elements of a vector have different indices -/
  inj : ∀ a b, E.veckey a ≠ none → E.veckey a = E.veckey b → E.idx a = E.idx b → a = b

/-- The element of an array at an index; nothing stands for NaN. The last value set counts. -/
def cellAt [DecidableEq I] (cells : List (Option I × A)) (i : I) : Option A := ((cells.filter (fun c => c.1 = some i)).getLast?).map (·.2)

end Lookup
end Verif
