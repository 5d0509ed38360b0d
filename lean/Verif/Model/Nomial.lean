import Verif.Model.PyDict
import Mathlib.Algebra.Order.Field.Basic
import Mathlib.Data.List.Dedup
import Mathlib.Algebra.Module.Defs

/-!
# Nomials: exponent vectors, coefficient maps, operators

Models gpkit/small_classes.py (`HashVector`), gpkit/nomials/map.py (`NomialMap`), gpkit/nomials/data.py,
gpkit/nomials/core.py and the nomial classes of gpkit/nomials/math.py.

Parameters: `V` the type of variable keys, `K` the type of numbers (an ordered field: floats without rounding), `D` the
type of physical dimensions (a vector space over `K`, so that units can be raised to powers).
The cached hash of a `HashVector` is modelled separately in `Model/HashVector.lean`; here keys are compared as mappings.
-/

namespace Verif

/-- Python's `a ** b` on floats: a parameter of the model, `Real.rpow` for the reals. -/
class HasPow (K : Type) where
  /-- `pw a b` is `a ** b`. -/
  pw : K → K → K
  /-- `a ** b` is a float: not complex, not an exception, not NaN -/
  pwDom : K → K → Bool

export HasPow (pw pwDom)

/-- Exceptions, as values. -/
inductive Err where
  /-- `InvalidPosynomial` -/
  | invalidPosynomial
  /-- `InvalidGPConstraint` -/
  | invalidGPConstraint
  /-- `DimensionalityError` -/
  | dimensionality
  /-- `TypeError`, also when both operands return `NotImplemented` -/
  | typeError
  /-- `AttributeError` -/
  | attributeError
  /-- `ZeroDivisionError` -/
  | zeroDivision
  /-- `ValueError` -/
  | valueError
  /-- `KeyError` -/
  | keyError
  /-- `IndexError` -/
  | indexError
  /-- `PrimalInfeasible` -/
  | primalInfeasible
  /-- `RuntimeWarning` -/
  | runtimeWarning
  /-- `NotImplementedError` -/
  | notImplemented
  /-- `UnboundLocalError` -/
  | unboundLocal
  /-- `AssertionError` -/
  | assertion
  /-- `RecursionError` -/
  | recursion
  /-- `UnnecessarySGP` -/
  | unnecessarySGP
  /-- a float result that is NaN, infinite or complex in Python -/
  | nan
  /-- arithmetic between two numbers with units, which is pint's and not modelled -/
  | notModelled
  deriving DecidableEq, Repr

/-! ## HashVector -/

/-- `HashVector` used as an exponent vector (gpkit/small_classes.py 152-226): a dict from variable keys to exponents. -/
structure HV (V K : Type) where
  /-- the items, in insertion order -/
  items : PyDict V K
  deriving Repr

namespace HV
variable {V K : Type} [DecidableEq V] [DecidableEq K]

/-- Equality of dict keys: two dicts are equal if they have the same items, in any order. -/
instance : BEq (HV V K) := ⟨fun a b => a.items.isPerm b.items⟩

/-- `EMPTY_HV` (gpkit/small_classes.py 229). -/
def empty : HV V K := ⟨[]⟩

end HV

section Dict
variable {α K : Type} [BEq α] [DecidableEq K]

/-- `HashVector.__add__` with a dict (gpkit/small_classes.py 204-216). -/
def dictAdd [Add K] [Neg K] (a b : PyDict α K) : PyDict α K :=
  b.foldl (fun sums kv =>
    match sums.get? kv.1 with
    | some svalue => if kv.2 = -svalue then sums.del kv.1 else sums.set kv.1 (kv.2 + svalue)
    | none => sums.set kv.1 kv.2) a

/-- `HashVector.__mul__` with a number (gpkit/small_classes.py 187-195). -/
def dictScale [Mul K] (a : PyDict α K) (c : K) : PyDict α K := a.map (fun kv => (kv.1, kv.2 * c))

end Dict

namespace HV
variable {V K : Type} [DecidableEq V] [Field K] [DecidableEq K]

/-- `HashVector.__add__` (gpkit/small_classes.py 204-216). -/
def add (a b : HV V K) : HV V K := ⟨dictAdd a.items b.items⟩

/-- `HashVector.__mul__` (gpkit/small_classes.py 187-195). -/
def scale (a : HV V K) (c : K) : HV V K := ⟨dictScale a.items c⟩

/-- `HashVector.__sub__` (gpkit/small_classes.py 219-221): `self + -1*other`. -/
def sub (a b : HV V K) : HV V K := a.add (b.scale (-1))

/-- `exp.get(vk)`. -/
def get? (a : HV V K) (k : V) : Option K := a.items.get? k

/-- `del exp[vk]`. -/
def del (a : HV V K) (k : V) : HV V K := ⟨a.items.del k⟩

end HV

/-! ## Units -/

/-- A pint unit: `1 unit = scale` base units of dimension `dim`. Dimensionless units other than one (`cm/m`) have
`dim = 0` and a scale. `Quantity(1, unit)` objects of gpkit/units.py are identified with their unit. -/
structure UnitQ (D K : Type) where
  /-- physical dimension -/
  dim : D
  /-- size in base units -/
  scale : K
  deriving DecidableEq, Repr

section Units
variable {D K : Type} [AddCommGroup D] [DecidableEq D] [Field K]

/-- product of two units -/
def UnitQ.mul (a b : UnitQ D K) : UnitQ D K := ⟨a.dim + b.dim, a.scale * b.scale⟩
/-- inverse of a unit -/
def UnitQ.inv (a : UnitQ D K) : UnitQ D K := ⟨-a.dim, a.scale⁻¹⟩

/-- pint's `float(q)` for a quantity of magnitude one: defined for dimensionless quantities only. -/
def UnitQ.float (a : UnitQ D K) : Option K := if a.dim = 0 then some a.scale else none

/-- `GPkitUnits.of_product` (gpkit/units.py 51-62). The cache is keyed on the units themselves, so it does not
change results and is left out. -/
def ofProduct (a b : UnitQ D K) : Option (UnitQ D K) × Option K :=
  match (a.mul b).float with
  | some f => (none, some f)
  | none => (some (a.mul b), none)

/-- pint's conversion factor `self.to(other).magnitude`. -/
def UnitQ.convert (a b : UnitQ D K) : Except Err K :=
  if a.dim = b.dim then .ok (a.scale / b.scale) else .error .dimensionality

/-- `DIMLESS_QUANTITY` (gpkit/nomials/map.py 9). -/
def dimless : UnitQ D K := ⟨0, 1⟩

/-- `units ** expo`. -/
def UnitQ.pow [Module K D] [HasPow K] (a : UnitQ D K) (x : K) : UnitQ D K := ⟨x • a.dim, pw a.scale x⟩

end Units

/-! ## NomialMap -/

/-- `NomialMap` (gpkit/nomials/map.py 12-23): coefficients by exponent vector, and units. -/
structure NMap (V K D : Type) where
  /-- terms in insertion order -/
  terms : PyDict (HV V K) K
  /-- `units`, `None` for a plain number -/
  units : Option (UnitQ D K)
  deriving Repr

/-- What a number operand can be: an int or float (`units = none`) or a pint Quantity. -/
structure PyQ (D K : Type) where
  /-- magnitude -/
  mag : K
  /-- units of a Quantity -/
  units : Option (UnitQ D K)
  deriving Repr

namespace NMap
variable {V K D : Type} [DecidableEq V] [Field K] [LinearOrder K]
variable [AddCommGroup D] [DecidableEq D]

/-- The unit part of `units_of_product(thing, thing2)` (gpkit/nomials/map.py 29-46), called with the units of the two
things: both None or without units gives None; one with units gives these; two with units go through `of_product`,
whose conversion factor, if the product is dimensionless, multiplies all coefficients. -/
def unitsOfProduct (h : NMap V K D) (u1 u2 : Option (UnitQ D K)) : NMap V K D :=
  match u1, u2 with
  | none, none => { h with units := none }
  | some a, some b =>
    match ofProduct a b with
    | (u, some conv) => ⟨h.terms.map (fun kv => (kv.1, kv.2 * conv)), u⟩
    | (u, none) => { h with units := u }
  | some a, none => { h with units := some a }
  | none, some b => { h with units := some b }

/-- `mag(c)*hmap` or `hmap*c` (gpkit/small_classes.py 187-195, 226). The class attribute `units = None` applies to the new map. -/
def scale (h : NMap V K D) (c : K) : NMap V K D := ⟨dictScale h.terms c, none⟩

/-- `NomialMap.__add__` (gpkit/nomials/map.py 55-64). Two Quantities of magnitude one are equal exactly if dimension and scale agree. -/
def add (a b : NMap V K D) : Except Err (NMap V K D) :=
  if a.units = b.units then .ok ⟨dictAdd a.terms b.terms, a.units⟩
  else match a.units, b.units with
    | some ua, some ub =>
      match (ub.mul ua.inv).float with
      | some r => .ok ⟨dictAdd a.terms (dictScale b.terms r), a.units⟩
      | none => .error .dimensionality
    | _, _ => .error .dimensionality

/-- `NomialMap.to` (gpkit/nomials/map.py 48-53). -/
def convertTo (h : NMap V K D) (u : UnitQ D K) : Except Err (NMap V K D) := do
  let m ← (h.units.getD dimless).convert u
  pure ((h.scale m).unitsOfProduct (some u) none)

/-- `NomialData.vks` (gpkit/nomials/data.py 47-53): the variables that occur. A Python set; here in order of first occurrence. -/
def vks (h : NMap V K D) : List V := (h.terms.flatMap (fun t => t.1.items.map (·.1))).dedup

/-- One step of the loop of `diff` (gpkit/nomials/map.py 71-82). -/
def diffStep (v : V) (out : PyDict (HV V K) K) (t : HV V K × K) : PyDict (HV V K) K :=
  match t.1.items.get? v with
  | none => out
  | some x =>
    let c := t.2 * x
    if x = 1 then PyDict.set out ⟨t.1.items.del v⟩ c
    else PyDict.set out ⟨t.1.items.set v (x - 1)⟩ c

/-- `NomialMap.diff` (gpkit/nomials/map.py 66-83). `vunits` is `varkey.units`. Note that `units_of_product` runs on
the still empty map. -/
def diff (h : NMap V K D) (v : V) (vunits : Option (UnitQ D K)) : NMap V K D :=
  let out := (⟨[], none⟩ : NMap V K D).unitsOfProduct h.units (vunits.map UnitQ.inv)
  { out with terms := h.terms.foldl (diffStep v) out.terms }

end NMap

/-! ## Nomial objects -/

/-- The class a nomial object ends up with. -/
inductive Cls where
  | monomial | posynomial | signomial
  deriving DecidableEq, Repr

/-- A `Signomial`, `Posynomial` or `Monomial` object. The syntax tree `ast` is modelled in `Model/Printing.lean`. -/
structure Nomial (V K D : Type) where
  /-- the coefficient map -/
  hmap : NMap V K D
  /-- `__class__` -/
  cls : Cls
  deriving Repr

/-- A value that arithmetic on nomials and numbers can return. -/
inductive PyVal (V K D : Type) where
  /-- a number -/
  | num (q : PyQ D K)
  /-- a nomial -/
  | nom (n : Nomial V K D)
  deriving Repr

/-- An exponent in `p ** expo`: Python distinguishes ints from floats. -/
inductive PyExpo (K : Type) where
  /-- an `int` -/
  | int (z : Int)
  /-- a `float` -/
  | float (x : K)
  deriving Repr

namespace PyExpo
variable {K : Type} [Field K]
/-- numeric value -/
def toK : PyExpo K → K
  | int z => (z : K)
  | float x => x
end PyExpo

section Ops
variable {V K D : Type} [DecidableEq V] [Field K] [LinearOrder K]
variable [AddCommGroup D] [DecidableEq D]

/-- `any_nonpositive_cs` (gpkit/nomials/data.py 22). -/
def NMap.anyNonpositive (h : NMap V K D) : Bool := h.terms.any (fun t => t.2 ≤ 0)

/-- `Signomial.__init__` for a `NomialMap` argument (gpkit/nomials/math.py 41-65). `se` is SignomialsEnabled, `rp` is `require_positive`. -/
def mkSig (se rp : Bool) (h : NMap V K D) : Except Err (Nomial V K D) :=
  if h.anyNonpositive then
    if rp && !se then .error .invalidPosynomial else .ok ⟨h, .signomial⟩
  else if h.terms.length = 1 then .ok ⟨h, .monomial⟩
  else .ok ⟨h, .posynomial⟩

/-- `NomialMap({EMPTY_HV: mag(other)})` with its units (gpkit/nomials/math.py 46-48 and 184-185). -/
def numMap (q : PyQ D K) : NMap V K D := ⟨[(HV.empty, q.mag)], q.units⟩

/-- The monomial of a variable: `Variable.__init__` (gpkit/nomials/variables.py) sets `hmap` to `{ {key: 1}: 1 }` with the units of the key. -/
def varNomial (vunits : V → Option (UnitQ D K)) (v : V) : Nomial V K D :=
  ⟨⟨[(⟨[(v, 1)]⟩, 1)], vunits v⟩, .monomial⟩

namespace Nomial

/-- `Signomial.__add__` with a number (gpkit/nomials/math.py 179-192). -/
def addNum (se : Bool) (a : Nomial V K D) (q : PyQ D K) : Except Err (Nomial V K D) :=
  if q.mag = 0 then mkSig se true a.hmap
  else do
    let h ← a.hmap.add (numMap q)
    mkSig se true h

/-- `a + b` for two nomials (gpkit/nomials/math.py 179-193, `__radd__` gpkit/nomials/core.py 111). If `b` has an empty map,
`a.__add__(b)` returns NotImplemented; Python then tries `b.__radd__(a)` if the classes differ and raises TypeError if not. -/
def add (se : Bool) (a b : Nomial V K D) : Except Err (Nomial V K D) :=
  if b.hmap.terms.isEmpty then
    if a.cls = b.cls then .error .typeError
    else if a.hmap.terms.isEmpty then .error .typeError
    else do
      let h ← b.hmap.add a.hmap
      mkSig se true h
  else do
    let h ← a.hmap.add b.hmap
    mkSig se true h

/-- Inner step of `__mul__` (gpkit/nomials/math.py 215-220). -/
def mulStep (e1 : HV V K) (c1 : K) (acc : PyDict (HV V K) K) (t : HV V K × K) : PyDict (HV V K) K :=
  let e := e1.add t.1
  let new := c1 * t.2
  let accumulated := (acc.get? e).getD 0
  if new ≠ -accumulated then acc.set e (accumulated + new)
  else if accumulated ≠ 0 then acc.del e
  else acc

/-- The double loop of `__mul__` (gpkit/nomials/math.py 212-220). -/
def mulTerms (a b : PyDict (HV V K) K) : PyDict (HV V K) K :=
  a.foldl (fun acc s => b.foldl (mulStep s.1 s.2) acc) []

/-- `Signomial.__mul__` with a number (gpkit/nomials/math.py 203-210): a zero number is returned as it is. -/
def mulNum (se : Bool) (a : Nomial V K D) (q : PyQ D K) : Except Err (PyVal V K D) :=
  if q.mag = 0 then .ok (.num q)
  else do
    let n ← mkSig se true ((a.hmap.scale q.mag).unitsOfProduct a.hmap.units q.units)
    pure (.nom n)

/-- `Signomial.__mul__` with a nomial (gpkit/nomials/math.py 211-224). -/
def mul (se : Bool) (a b : Nomial V K D) : Except Err (Nomial V K D) :=
  mkSig se true ((⟨mulTerms a.hmap.terms b.hmap.terms, none⟩ : NMap V K D).unitsOfProduct a.hmap.units b.hmap.units)

/-- `Signomial.__neg__` (gpkit/nomials/math.py 247-252). -/
def neg (se : Bool) (a : Nomial V K D) : Except Err (PyVal V K D) :=
  if se then mulNum se a ⟨-1, none⟩ else .error .typeError

section Pow
variable [HasPow K] [Module K D]

/-- `Monomial.__pow__` (gpkit/nomials/math.py 321-332). -/
def monoPow (se : Bool) (a : Nomial V K D) (x : K) : Except Err (Nomial V K D) :=
  match a.hmap.terms with
  | [(exp, c)] =>
    let exp' := if x ≠ 0 then exp.scale x else HV.empty
    let u := if x ≠ 0 then a.hmap.units.map (fun u => u.pow x) else none
    mkSig se true ⟨[(exp', pw c x)], u⟩
  | _ => .error .valueError

end Pow

/-- The loop of `Signomial.__pow__` (gpkit/nomials/math.py 239-242): `p = 1`, then `p *= self` `n` times. -/
def powLoop (se : Bool) (a : Nomial V K D) : Nat → Except Err (PyVal V K D)
  | 0 => .ok (.num ⟨1, none⟩)
  | n + 1 => do
    let p ← powLoop se a n
    match p with
    | .num q => mulNum se a q
    | .nom m => do
      let r ← mul se m a
      pure (.nom r)

/-- `Signomial.__pow__` (gpkit/nomials/math.py 237-245). With exponent zero `p` is the int 1 and `p.ast = ...` raises AttributeError. -/
def sigPow (se : Bool) (a : Nomial V K D) : PyExpo K → Except Err (PyVal V K D)
  | .int z =>
    if z < 0 then .error .typeError
    else do
      let p ← powLoop se a z.toNat
      match p with
      | .num _ => .error .attributeError
      | .nom m => pure (.nom m)
  | .float _ => .error .typeError

end Nomial

namespace PyVal
open Nomial

/-- arithmetic of two plain numbers -/
def numOp (f : K → K → K) (p q : PyQ D K) : Except Err (PyVal V K D) :=
  if p.units = none ∧ q.units = none then .ok (.num ⟨f p.mag q.mag, none⟩) else .error .notModelled

/-- `a + b` (gpkit/nomials/math.py 179-193; number first: `__radd__`, gpkit/nomials/core.py 111). -/
def add (se : Bool) : PyVal V K D → PyVal V K D → Except Err (PyVal V K D)
  | .num p, .num q => numOp (· + ·) p q
  | .nom a, .num q => do pure (.nom (← a.addNum se q))
  | .num q, .nom a => do pure (.nom (← a.addNum se q))
  | .nom a, .nom b => do pure (.nom (← a.add se b))

/-- `a * b` (gpkit/nomials/math.py 195-225; number first: `__rmul__`, gpkit/nomials/core.py 112). -/
def mul (se : Bool) : PyVal V K D → PyVal V K D → Except Err (PyVal V K D)
  | .num p, .num q => numOp (· * ·) p q
  | .nom a, .num q => a.mulNum se q
  | .num q, .nom a => a.mulNum se q
  | .nom a, .nom b => do pure (.nom (← a.mul se b))

/-- `-a` (gpkit/nomials/math.py 247-252). -/
def neg (se : Bool) : PyVal V K D → Except Err (PyVal V K D)
  | .num q => .ok (.num ⟨-q.mag, q.units⟩)
  | .nom a => a.neg se

/-- `a - b` (gpkit/nomials/math.py 254-258). -/
def sub (se : Bool) : PyVal V K D → PyVal V K D → Except Err (PyVal V K D)
  | .num p, .num q => numOp (· - ·) p q
  | a, b => if se then do add se a (← neg se b) else .error .typeError

section Pow
variable [HasPow K] [Module K D]

/-- `Monomial.__rtruediv__` (gpkit/nomials/math.py 313-318): if the product is a bare number, `out.ast = ...` raises AttributeError. -/
def rdiv (se : Bool) (a : PyVal V K D) (m : Nomial V K D) : Except Err (PyVal V K D) := do
  let inv ← m.monoPow se (-1)
  match ← mul se a (.nom inv) with
  | .num _ => .error .attributeError
  | .nom n => pure (.nom n)

/-- `a / b` (gpkit/nomials/math.py 227-235 and 313-319). Division of numbers and by zero raises as in Python. -/
def div (se : Bool) : PyVal V K D → PyVal V K D → Except Err (PyVal V K D)
  | .num p, .num q => if q.mag = 0 then .error .zeroDivision else numOp (· / ·) p q
  | .nom a, .num q =>
    if q.mag = 0 then .error .zeroDivision
    else a.mulNum se ⟨q.mag⁻¹, q.units.map UnitQ.inv⟩
  | a, .nom m => if m.cls = .monomial then rdiv se a m else .error .typeError

/-- `a ** expo` (gpkit/nomials/math.py 237-245 and 321-333). Powers of bare numbers are Python's;
those of quantities and those that are complex numbers are not modelled. -/
def pow (se : Bool) (a : PyVal V K D) (x : PyExpo K) : Except Err (PyVal V K D) :=
  match a with
  | .nom n => if n.cls = .monomial then do pure (.nom (← n.monoPow se x.toK)) else n.sigPow se x
  | .num q =>
    if q.units ≠ none then .error .notModelled
    else if pwDom q.mag x.toK then .ok (.num ⟨pw q.mag x.toK, none⟩)
    else if q.mag = 0 then .error .zeroDivision
    else .error .notModelled

end Pow
end PyVal

namespace Nomial

/-- One step of `posy_negy` (gpkit/nomials/math.py 97-101). -/
def posyNegyStep (acc : PyDict (HV V K) K × PyDict (HV V K) K) (t : HV V K × K) :
    PyDict (HV V K) K × PyDict (HV V K) K :=
  if t.2 > 0 then (acc.1.set t.1 t.2, acc.2)
  else if t.2 < 0 then (acc.1, acc.2.set t.1 (-t.2))
  else acc

/-- `Posynomial(py) if py else 0` (gpkit/nomials/math.py 102); `none` stands for the int 0. `Posynomial(py)` runs
`Signomial.__init__`. -/
def posyOrZero (se : Bool) (h : NMap V K D) : Except Err (Option (Nomial V K D)) :=
  if h.terms.isEmpty then .ok none else (mkSig se true h).map some

/-- `Signomial.posy_negy` (gpkit/nomials/math.py 87-102). -/
def posyNegy (se : Bool) (a : Nomial V K D) : Except Err (Option (Nomial V K D) × Option (Nomial V K D)) := do
  let pn := a.hmap.terms.foldl posyNegyStep ([], [])
  let p ← posyOrZero se ⟨pn.1, a.hmap.units⟩
  let n ← posyOrZero se ⟨pn.2, a.hmap.units⟩
  pure (p, n)

/-- `Signomial.chop` (gpkit/nomials/math.py 260-265). -/
def chop (se : Bool) (a : Nomial V K D) : Except Err (List (Nomial V K D)) :=
  a.hmap.terms.mapM (fun t => mkSig se true ⟨[(t.1, t.2)], a.hmap.units⟩)

/-- `Signomial.diff` (gpkit/nomials/math.py 67-85). -/
def diff (a : Nomial V K D) (v : V) (vunits : Option (UnitQ D K)) : Except Err (Nomial V K D) :=
  if v ∈ a.hmap.vks then mkSig false false (a.hmap.diff v vunits)
  else mkSig false false ⟨[(HV.empty, 0)], none⟩

/-- dict equality of two coefficient maps: the same keys with the same values -/
def hmapEq (a b : PyDict (HV V K) K) : Bool :=
  a.length = b.length && a.all (fun t => b.get? t.1 = some t.2)

/-- `NomialData.__eq__` of two nomials (gpkit/nomials/data.py 60-70). -/
def eqNomial (a b : Nomial V K D) : Bool :=
  hmapEq a.hmap.terms b.hmap.terms && (a.hmap.units = b.hmap.units)

/-- `FixedScalar` test (gpkit/small_classes.py 11-14). -/
def isFixedScalar (a : Nomial V K D) : Bool := a.hmap.terms.length = 1 && a.hmap.vks.isEmpty

/-- `Nomial.__eq__` with a plain number (gpkit/nomials/core.py 102-105), for nomials without units. -/
def eqNum (a : Nomial V K D) (c : K) : Bool :=
  a.isFixedScalar && (a.hmap.terms.head?.map (·.2) = some c)

end Nomial
end Ops
end Verif
