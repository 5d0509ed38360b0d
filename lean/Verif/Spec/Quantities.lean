import Verif.Spec.KeyDict
import Verif.Model.Quantities

/-!
# What values with units should do

A value that is read with units is the quantity that was last written.
-/

namespace Verif
namespace KD

/-- A write by the user. -/
inductive UWrite (S D K F : Type) where
  /-- `kd[s[i]] = g` -/
  | elem (s : S) (i : Nat) (g : Given D K F)
  /-- `kd[s] = g` for a vector -/
  | fill (s : S) (g : Given D K F)
  /-- `kd[s] = [...]` for a vector -/
  | list (s : S) (gs : List (Given D K F))
  /-- `kd[s] = np.array(...)*unit` for a vector -/
  | arr (s : S) (xs : List K) (u : UnitQ D K)
  /-- `kd[s] = g` for a scalar -/
  | scalar (s : S) (g : Given D K F)

/-- What happens to a dict. -/
inductive UOp (S N D K F : Type) where
  /-- a write -/
  | write (w : UWrite S D K F)
  /-- `kd[key]` -/
  | get (k : Key S N)
  /-- `key in kd` -/
  | has (k : Key S N)
  /-- `kd(key)` -/
  | call (k : Key S N)

section
variable {S N D K F : Type} [DecidableEq S] [DecidableEq N] [AddCommGroup D] [Field K]

/-- The writes among the operations. -/
def uwrites (ops : List (UOp S N D K F)) : List (UWrite S D K F) := ops.filterMap (fun o => match o with | .write w => some w | _ => none)

/-- What a write makes of element `i` of the vector `s`. -/
def UWrite.onElem (s : S) (i : Nat) (old : Option (Given D K F)) : UWrite S D K F → Option (Given D K F)
  | .elem s' j g => if s' = s ∧ j = i then some g else old
  | .fill s' g => if s' = s then some g else old
  | .list s' gs => if s' = s then gs[i]? else old
  | .arr s' xs u => if s' = s then (match xs[i]? with | some x => some (.qty x u) | none => old) else old
  | .scalar _ _ => old

/-- What a write makes of the scalar `s`. -/
def UWrite.onScalar (s : S) (old : Option (Given D K F)) : UWrite S D K F → Option (Given D K F)
  | .scalar s' g => if s' = s then some g else old
  | _ => old

/-- What was last written to element `i` of `s`. -/
def lastElemU (ws : List (UWrite S D K F)) (s : S) (i : Nat) : Option (Given D K F) := ws.foldl (fun c w => w.onElem s i c) none

/-- What was last written to the scalar `s`. -/
def lastScalarU (ws : List (UWrite S D K F)) (s : S) : Option (Given D K F) := ws.foldl (fun c w => w.onScalar s c) none

/-- The units of a variable; one if it has none. -/
def unitOf (ku : Option (UnitQ D K)) : UnitQ D K := match ku with | some u => u | none => ⟨0, 1⟩

/-- A value read with units is what was given: the same quantity, or the number itself if it had no units. -/
def Given.Is (c : Cell K F) (w : UnitQ D K) : Given D K F → Prop
  | .cell c' => c = c'
  | .mono x none => c = .num x
  | .mono x (some u) => ∃ y, c = .num y ∧ w.dim = u.dim ∧ y * w.scale = x * u.scale
  | .qty x u => ∃ y, c = .num y ∧ w.dim = u.dim ∧ y * w.scale = x * u.scale

/-- The variable written to. -/
def UWrite.target : UWrite S D K F → S
  | .elem s _ _ => s
  | .fill s _ => s
  | .list s _ => s
  | .arr s _ _ => s
  | .scalar s _ => s

/-- Whether anything was written to `s`. -/
def TouchedU (ws : List (UWrite S D K F)) (s : S) : Prop := ∃ w ∈ ws, w.target = s

/-- `v` with the units `u` is what was last written to `q`, a scalar or a vector. -/
def ShowsU (E : Env S N K) (ws : List (UWrite S D K F)) (heap : Heap K F) (q : S) (v : Val K F) (u : UnitQ D K) : Prop :=
  match E.shape q with
  | none => ∃ c g, v = .cell c ∧ lastScalarU ws q = some g ∧ g.Is c u
  | some n => ∃ r d cs, v = .arr r ∧ heap[r]? = some ⟨d, cs⟩ ∧ cs.length = n ∧ ∀ i, i < n →
      (∀ g, lastElemU ws q i = some g → ∃ c, cs[i]? = some c ∧ g.Is c u) ∧ (lastElemU ws q i = none → cs[i]? = some .nan)

/-- A value has the dimension of the variable. -/
def Given.Fits (ku : Option (UnitQ D K)) : Given D K F → Prop
  | .cell _ => True
  | .mono _ none => True
  | .mono _ (some u) => u.dim = (unitOf ku).dim
  | .qty _ u => u.dim = (unitOf ku).dim

/-- All values of a write have the dimension of the variable. -/
def UWrite.Fits (units : S → Option (UnitQ D K)) : UWrite S D K F → Prop
  | .elem s _ g => g.Fits (units s)
  | .fill s g => g.Fits (units s)
  | .list s gs => ∀ g ∈ gs, g.Fits (units s)
  | .arr s _ u => u.dim = (unitOf (units s)).dim
  | .scalar s g => g.Fits (units s)

/-- A value as a number of the variable's units. -/
def Given.number (ku : Option (UnitQ D K)) : Given D K F → Cell K F
  | .cell c => c
  | .mono x none => .num x
  | .mono x (some u) => .num (x * (u.scale / (unitOf ku).scale))
  | .qty x u => .num (x * (u.scale / (unitOf ku).scale))

/-- The write of the numbers. -/
def UWrite.number (units : S → Option (UnitQ D K)) : UWrite S D K F → Write S K F
  | .elem s i g => .elem s i (g.number (units s))
  | .fill s g => .fill s (g.number (units s))
  | .list s gs => .list s (gs.map (Given.number (units s)))
  | .arr s xs u => .arr s .f64 (xs.map (fun x => .num (x * (u.scale / (unitOf (units s)).scale))))
  | .scalar s g => .scalar s (g.number (units s))

/-- The operation with numbers. -/
def UOp.number (units : S → Option (UnitQ D K)) : UOp S N D K F → Op S N K F
  | .write w => .write (w.number units)
  | .get k => .get k
  | .has k => .has k
  | .call k => .get k

end
end KD
end Verif
