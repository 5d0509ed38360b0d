import Verif.Model.Solvify
import Verif.Spec.ParseSubs
import Verif.Spec.Sweep

/-! What a solve is asked for: the substitutions of a model, read for each key. -/

namespace Verif
namespace Solvify
open PS
attribute [-instance] instBEqProd
variable {S K F : Type} [DecidableEq S]

/-- What the substitutions ask for, for each key of the model. -/
def asked (shape : S → Option Nat) (subs : S → Option (Sub K F)) (under : List (S × List (Key S))) (key : Key S) : Option (Class × Out K F) :=
  if key ∈ under.flatMap (·.2) then (subs key.1).bind (wanted shape · key) else none

variable (ask : Key S → Option (Class × Out K F)) (interp : F → Sweep.Fn (Key S) K)

/-- The key is swept over these values. -/
def SweptOver (key : Key S) (vs : List K) : Prop :=
  ask key = some (.sweep, .list vs) ∨ ∃ k, ask key = some (.sweep, .num k) ∧ vs = [k]

/-- The key is a function of others. -/
def IsLinked (key : Key S) : Prop := ∃ o, ask key = some (.linked, o)

/-- The constants of one point of a sweep are those asked for: nothing else has a value. -/
structure Meant (point : List (Key S × K)) (c : PyDict (Key S) K) : Prop where
  swept : ∀ vk ∈ point, c.get? vk.1 = some vk.2
  constant : ∀ key k, ask key = some (.constant, .num k) → c.get? key = some k
  linked : ∀ key f, ask key = some (.linked, .fn f) → ∃ k, interp f c = .ok k ∧ c.get? key = some k
  free : ∀ key, ask key = none → c.get? key = none

/-- No function looks at the value of a function, and functions have values if all constants and swept variables have. -/
structure Plain : Prop where
  unchained : ∀ key f, ask key = some (.linked, .fn f) → ∀ c c' : PyDict (Key S) K,
    (∀ u, ¬ IsLinked ask u → c.get? u = c'.get? u) → interp f c = interp f c'
  defined : ∀ key f, ask key = some (.linked, .fn f) → ∀ c : PyDict (Key S) K,
    (∀ u, ¬ IsLinked ask u → ask u ≠ none → c.contains u = true) → ∃ k, interp f c = .ok k

end Solvify
end Verif
