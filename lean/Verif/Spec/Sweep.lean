import Verif.Model.Sweep

/-!
# What a sweep should do

All combinations of the values of the swept variables, and the constants that belong to one combination.
-/

namespace Verif
namespace Sweep

/-- The cartesian product of lists. -/
def product {α : Type} : List (List α) → List (List α)
  | [] => [[]]
  | l :: ls => l.flatMap (fun a => (product ls).map (a :: ·))

section
variable {S K : Type} [DecidableEq S]

/-- All combinations of values of the swept variables. -/
def combos (sweep : List (S × List K)) : List (List (S × K)) := product (sweep.map (fun v => v.2.map (fun k => (v.1, k))))

/-- The constants of a combination: its values, the values of the linked functions at these same constants, and otherwise the constants of
the model. -/
structure Right (base : PyDict S K) (linked : List (S × Fn S K)) (combo : List (S × K)) (c : PyDict S K) : Prop where
  swept : ∀ vk ∈ combo, c.get? vk.1 = some vk.2
  fns : ∀ vf ∈ linked, ∃ k, vf.2 c = .ok k ∧ c.get? vf.1 = some k
  other : ∀ v, v ∉ combo.map (·.1) → v ∉ linked.map (·.1) → c.get? v = base.get? v

/-- No linked function looks at a linked variable. -/
def Unchained (linked : List (S × Fn S K)) : Prop :=
  ∀ vf ∈ linked, ∀ c c' : PyDict S K, (∀ u, u ∉ linked.map (·.1) → c.get? u = c'.get? u) → vf.2 c = vf.2 c'

/-- The linked functions have values wherever the constants and swept variables have. -/
def Defined (base : PyDict S K) (sweep : List (S × List K)) (linked : List (S × Fn S K)) : Prop :=
  ∀ vf ∈ linked, ∀ c : PyDict S K, (∀ u, (base.contains u = true ∨ u ∈ sweep.map (·.1)) → c.contains u = true) → ∃ k, vf.2 c = .ok k

end

end Sweep
end Verif
