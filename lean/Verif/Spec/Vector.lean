import Mathlib.Data.List.Forall2
import Mathlib.Data.List.Nodup
import Verif.Model.Vector

/-! What elements of vector variables are meant to be. -/

namespace Verif
namespace Vectors

/-- A multi-index inside a shape. -/
def Inside (i s : List Nat) : Prop := List.Forall₂ (· < ·) i s

/-- The elements of a vector variable are those with the given values, one for each index. -/
structure Elements {K C : Type} (shape : List Nat) (want : List Nat → Elem K C) (l : List (List Nat × Elem K C)) : Prop where
  once : (l.map (·.1)).Nodup
  mem : ∀ i e, (i, e) ∈ l ↔ Inside i shape ∧ e = want i

/-- The value given belongs to the variable as declared, of shape `own`. In environments `Vectorize` there are copies of the variable, and each
has the values declared: the copy is in the last places of an index. -/
def meant {K C : Type} (own : List Nat) (a : List Nat → K) (i : List Nat) : Elem K C := .num (a (i.take own.length))

end Vectors
end Verif
