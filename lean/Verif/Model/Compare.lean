import Verif.Model.MonoEq

/-!
# Comparing nomials

Models what `<=`, `>=` and `==` return: the methods `__le__`, `__ge__` and `__eq__` of `Signomial`, `Posynomial` and `Monomial`
(gpkit/nomials/math.py 169-177, 272-278 and 335-349), the constructors of the constraints they make (369-385, 399-419, 510-518 and 566-579), and
Python's rule for which side's method is called first.

Simplifications: numbers have no methods for nomials, so that Python calls the method of the nomial; of two numbers only those without units are compared.
`SignomialInequality.__init__` ends by making an approximation, of which just the variables are used (579); whether that raises is left to the
parameter `approx` (`asGpconstr` in `Model/Constraint.lean`).
-/

namespace Verif
namespace Compare

/-- `<=` or `>=`. -/
inductive Op where
  | le | ge
  deriving DecidableEq, Repr

/-- The operator whose method is called on the right side. -/
def Op.swap : Op → Op
  | .le => .ge
  | .ge => .le

/-- What a comparison returns. -/
inductive Made (V K D : Type) where
  /-- a `PosynomialInequality` with its `left`, `oper` and `right` -/
  | ineq (left : NMap V K D) (op : Op) (right : NMap V K D)
  /-- a `SignomialInequality` with its `left`, `oper`, `right` and `unsubbed` -/
  | sig (left : NMap V K D) (op : Op) (right : NMap V K D) (unsubbed : PyVal V K D)
  /-- a `MonomialEquality` with its `left` and `right` -/
  | equal (left right : NMap V K D)
  /-- a `bool` -/
  | truth (b : Bool)

section
variable {V K D : Type} [DecidableEq V] [Field K] [LinearOrder K]
variable [AddCommGroup D] [DecidableEq D]

/-- A side of a constraint: `Signomial(sig)` if it is not a nomial already (gpkit/nomials/math.py 369-378). -/
def side (se : Bool) : PyVal V K D → Except Err (Nomial V K D)
  | .num q => mkSig se true (numMap q)
  | .nom n => .ok n

/-- The sides by size: lesser, then greater (gpkit/nomials/math.py 406-409 and 571-574). -/
def Op.order {α : Type} : Op → α → α → α × α
  | .le, l, r => (l, r)
  | .ge, l, r => (r, l)

/-- `PosynomialInequality(left, oper, right)` (gpkit/nomials/math.py 399-419). -/
def posyIneq (se : Bool) (feastol : K) (l : PyVal V K D) (op : Op) (r : PyVal V K D) : Except Err (Made V K D) := do
  let left ← side se l
  let right ← side se r
  let _ ← genUnsubbed se feastol (op.order left right).1.hmap (op.order left right).2.hmap
  pure (.ineq left.hmap op right.hmap)

/-- `SignomialInequality(left, oper, right)` (gpkit/nomials/math.py 566-579). -/
def sigIneq (se : Bool) (approx : PyVal V K D → Except Err Unit) (l : PyVal V K D) (op : Op) (r : PyVal V K D) : Except Err (Made V K D) := do
  let left ← side se l
  let right ← side se r
  if se then do
    let u ← PyVal.sub se (.nom (op.order left right).1) (.nom (op.order left right).2)
    approx u
    pure (.sig left.hmap op right.hmap u)
  else .error .typeError

/-- `MonomialEquality(left, right)` in `Monomial.__eq__` (gpkit/nomials/math.py 335-341 and 510-518). -/
def monoEqual (se : Bool) (feastol : K) (l r : PyVal V K D) : Except Err (Made V K D) := do
  let left ← side se l
  let right ← side se r
  match meqUnsubbed se feastol left.hmap right.hmap with
  | .ok _ => pure (.equal left.hmap right.hmap)
  | .error .dimensionality => pure (.truth false)
  | .error .valueError => pure (.truth false)
  | .error e => .error e

/-- `isinstance(other, Numbers + (Monomial,))`. -/
def isMons : PyVal V K D → Bool
  | .num _ => true
  | .nom n => n.cls = .monomial

/-- `isinstance(other, Numbers + (Posynomial,))`. -/
def isPosys : PyVal V K D → Bool
  | .num _ => true
  | .nom n => n.cls ≠ .signomial

/-- `self.__le__(other)` or `self.__ge__(other)` (gpkit/nomials/math.py 169-177, 272-278 and 344-349); nothing if `NotImplemented` is returned. -/
def method (se : Bool) (feastol : K) (approx : PyVal V K D → Except Err Unit) (op : Op) (self : Nomial V K D) (other : PyVal V K D) :
    Option (Except Err (Made V K D)) :=
  match self.cls, op with
  | .signomial, _ => some (sigIneq se approx (.nom self) op other)
  | .posynomial, .ge => some (sigIneq se approx (.nom self) op other)
  | .posynomial, .le => if isMons other then some (posyIneq se feastol (.nom self) op other) else none
  | .monomial, .le => if isMons other then some (posyIneq se feastol (.nom self) op other) else none
  | .monomial, .ge => if isPosys other then some (posyIneq se feastol (.nom self) op other) else none

/-- How deep in the hierarchy a class is. -/
def rank : Cls → Nat
  | .signomial => 0
  | .posynomial => 1
  | .monomial => 2

/-- The first method that does not return `NotImplemented`. -/
def firstOf : List (Option (Except Err (Made V K D))) → Except Err (Made V K D)
  | [] => .error .typeError
  | some r :: _ => r
  | none :: l => firstOf l

/-- `a <= b` or `a >= b`: the method of the right side comes first if its class is a subclass of that of the left side. `isvar` tells which of the two
are objects of class `Variable`, a subclass of `Monomial`. -/
def compared (se : Bool) (feastol : K) (approx : PyVal V K D → Except Err Unit) (op : Op) (isvar : Bool × Bool) :
    PyVal V K D → PyVal V K D → Except Err (Made V K D)
  | .num p, .num q =>
    if p.units = none ∧ q.units = none then .ok (.truth (decide ((op.order p.mag q.mag).1 ≤ (op.order p.mag q.mag).2))) else .error .notModelled
  | .nom a, .num q => firstOf [method se feastol approx op a (.num q)]
  | .num p, .nom b => firstOf [method se feastol approx op.swap b (.num p)]
  | .nom a, .nom b =>
    if rank a.cls < rank b.cls ∨ (isvar.2 ∧ ¬ isvar.1) then
      firstOf [method se feastol approx op.swap b (.nom a), method se feastol approx op a (.nom b)]
    else firstOf [method se feastol approx op a (.nom b), method se feastol approx op.swap b (.nom a)]

/-- `self.__eq__(other)` (gpkit/nomials/math.py 335-342, gpkit/nomials/core.py 102-106). -/
def eqMethod (se : Bool) (feastol : K) (self : Nomial V K D) (other : PyVal V K D) : Except Err (Made V K D) :=
  if self.cls = .monomial ∧ isMons other then monoEqual se feastol (.nom self) other else .ok (.truth (PyVal.nomialEq self other))

/-- `a == b`. -/
def equals (se : Bool) (feastol : K) (isvar : Bool × Bool) : PyVal V K D → PyVal V K D → Except Err (Made V K D)
  | .num p, .num q => .ok (.truth (p.eqv q))
  | .nom a, b@(.num _) => eqMethod se feastol a b
  | a@(.num _), .nom b => eqMethod se feastol b a
  | .nom a, .nom b =>
    if rank a.cls < rank b.cls ∨ (isvar.2 ∧ ¬ isvar.1) then eqMethod se feastol b (.nom a) else eqMethod se feastol a (.nom b)

end
end Compare
end Verif
