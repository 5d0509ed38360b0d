import Verif.Model.Nomial

/-!
# The cache of unit ratios

Models `GPkitUnits.of_division` (gpkit/units.py 33-49), which remembers ratios under the addresses of the two unit
objects, together with the creation and disposal of unit objects. An address is free for a new object once its object is
gone: CPython's `id`. Only the parts of a heap that matter are modelled: which unit object is at which address.
-/

namespace Verif
namespace UnitCache

variable {D K : Type} [AddCommGroup D] [DecidableEq D] [Field K]

/-- What exists: unit objects by address, and `division_cache`. Address of `None`: `none`. -/
structure State (D K : Type) where
  /-- live unit objects -/
  heap : PyDict Nat (UnitQ D K)
  /-- `division_cache` -/
  cache : PyDict (Option Nat × Option Nat) K

/-- Looking up a live object; `None` is always there. Outer `none`: no such object. -/
def State.look (s : State D K) : Option Nat → Option (Option (UnitQ D K))
  | none => some none
  | some a => (s.heap.get? a).map some

/-- The computed ratio (gpkit/units.py 41-48): numerator over denominator, where a missing unit counts as one. -/
def ratio (n d : Option (UnitQ D K)) : Except Err K :=
  match n, d with
  | none, none => .ok 1
  | some a, some b => match (a.mul b.inv).float with | some f => .ok f | none => .error .dimensionality
  | some a, none => match a.float with | some f => .ok f | none => .error .dimensionality
  | none, some b => match b.inv.float with | some f => .ok f | none => .error .dimensionality

/-- `of_division` (gpkit/units.py 33-49). The first component is what the caller gets. -/
def ofDivision (s : State D K) (n d : Option Nat) : Except Err K × State D K :=
  if n = d then (.ok 1, s)
  else match s.cache.get? (n, d) with
    | some r => (.ok r, s)
    | none =>
      match s.look n, s.look d with
      | some un, some ud =>
        match ratio un ud with
        | .ok r => (.ok r, { s with cache := s.cache.set (n, d) r })
        | .error e => (.error e, s)
      | _, _ => (.error .attributeError, s)

/-- What a program does with unit objects. -/
inductive Op (D K : Type) where
  /-- a unit object is created at an address not in use -/
  | new (a : Nat) (u : UnitQ D K)
  /-- the last reference to an object goes away -/
  | drop (a : Nat)
  /-- `of_division` is called -/
  | divide (n d : Option Nat)

/-- One step. Creation at an address in use, or dividing by an object that is gone, is not possible in Python: such steps
leave the state alone. -/
def step (s : State D K) : Op D K → State D K
  | .new a u => if s.heap.contains a then s else { s with heap := s.heap.set a u }
  | .drop a => { s with heap := s.heap.del a }
  | .divide n d => (ofDivision s n d).2

/-- A whole history from the empty state. -/
def run (ops : List (Op D K)) : State D K := ops.foldl step ⟨[], []⟩

end UnitCache
end Verif
