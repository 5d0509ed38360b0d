import Verif.Model.Constraint

/-!
# Relaxed constraints

Models the comparison operators of nomials (gpkit/nomials/math.py 169-177, 272-277, 335-351), `ScalarSingleEquationConstraint.relaxed` (383-393),
`ConstraintsRelaxedEqually` (gpkit/constraints/relax.py 9-43), `ConstraintsRelaxed` (59-88), the constraints of `ConstantsRelaxed` (195-203) and
`get_relaxed` (235-242).

Simplifications: `Variable`, a subclass of `Monomial`, is treated as `Monomial`: Python then tries the method of the other side first, which
turns the inequality around and changes nothing else. The variables of an `ArrayVariable` are its elements in order.
-/

namespace Verif
namespace Relax

/-- `oper` of a constraint. -/
inductive Oper where
  /-- `<=` -/
  | le
  /-- `>=` -/
  | ge
  /-- `=` -/
  | eq
deriving DecidableEq, Repr

/-- The class of a constraint. -/
inductive Kind where
  /-- `PosynomialInequality` -/
  | posy
  /-- `MonomialEquality` -/
  | meq
  /-- `SignomialInequality` -/
  | sig
  /-- `SingleSignomialEquality` -/
  | seq
deriving DecidableEq, Repr

/-- A `ScalarSingleEquationConstraint` (gpkit/nomials/math.py 365-381). -/
structure Con (V K D : Type) where
  /-- its class -/
  kind : Kind
  /-- `left` -/
  left : Nomial V K D
  /-- `oper` -/
  oper : Oper
  /-- `right` -/
  right : Nomial V K D
  /-- `unsubbed` -/
  unsubbed : List (Nomial V K D)

/-- Everything that constructors depend on: the tolerance, units of variables, and the orders in which Python goes through sets. -/
structure Env (V K D : Type) where
  /-- `feastol` -/
  tol : K
  /-- units of variables -/
  vunits : V → Option (UnitQ D K)
  /-- orders of substitutions -/
  ord : Orders V K
  /-- order of a set of variables -/
  setord : List V → List V

section
variable {V K D : Type} [DecidableEq V] [Field K] [LinearOrder K] [HasPow K]
variable [AddCommGroup D] [DecidableEq D]

/-- `PosynomialInequality.__init__` (gpkit/nomials/math.py 408-419). -/
def mkPosy (E : Env V K D) (se : Bool) (l : Nomial V K D) (op : Oper) (r : Nomial V K D) : Except Err (Con V K D) :=
  match op with
  | .le => do pure ⟨.posy, l, .le, r, ← genUnsubbed se E.tol l.hmap r.hmap⟩
  | .ge => do pure ⟨.posy, l, .ge, r, ← genUnsubbed se E.tol r.hmap l.hmap⟩
  | .eq => .error .valueError

/-- `MonomialEquality.__init__` (gpkit/nomials/math.py 512-515). -/
def mkMeq (E : Env V K D) (se : Bool) (l r : Nomial V K D) : Except Err (Con V K D) := do
  pure ⟨.meq, l, .eq, r, ← meqUnsubbed se E.tol l.hmap r.hmap⟩

/-- The last lines of `SignomialInequality.__init__` (gpkit/nomials/math.py 579-580). -/
def mkSigBody (E : Env V K D) (se : Bool) (lt gt : Nomial V K D) : Except Err (List (Nomial V K D)) := do
  match ← PyVal.sub se (.nom lt) (.nom gt) with
  | .nom s => do
    let _ ← asGpconstr se E.tol s E.vunits [] E.ord E.setord
    pure [s]
  | .num _ => .error .attributeError

/-- `SignomialInequality.__init__` (gpkit/nomials/math.py 567-580). -/
def mkSigIneq (E : Env V K D) (se : Bool) (l : Nomial V K D) (op : Oper) (r : Nomial V K D) : Except Err (Con V K D) :=
  if se then
    match op with
    | .le => do pure ⟨.sig, l, .le, r, ← mkSigBody E se l r⟩
    | .ge => do pure ⟨.sig, l, .ge, r, ← mkSigBody E se r l⟩
    | .eq => .error .valueError
  else .error .typeError

/-- `a <= b` for two nomials: gpkit/nomials/math.py 169-172, 272-275, 344-351 and Python's rules for reflected methods. -/
def leNom (E : Env V K D) (se : Bool) (a b : Nomial V K D) : Except Err (Con V K D) :=
  match a.cls, b.cls with
  | .monomial, .monomial => mkPosy E se a .le b
  | .posynomial, .monomial => mkPosy E se b .ge a
  | .signomial, .monomial => mkSigIneq E se a .le b
  | .signomial, .signomial => mkSigIneq E se a .le b
  | _, _ => mkSigIneq E se b .ge a

/-- `a >= b` for two nomials: gpkit/nomials/math.py 174-177, 277, 344-349 and Python's rules for reflected methods. -/
def geNom (E : Env V K D) (se : Bool) (a b : Nomial V K D) : Except Err (Con V K D) :=
  match a.cls, b.cls with
  | .monomial, .monomial => mkPosy E se a .ge b
  | .monomial, .posynomial => mkPosy E se a .ge b
  | .monomial, .signomial => mkSigIneq E se b .le a
  | _, _ => mkSigIneq E se a .ge b

/-- `relaxed(relaxvar)` (gpkit/nomials/math.py 383-393), called inside `SignomialsEnabled()` (gpkit/constraints/relax.py 38 and 86). -/
def relaxed (E : Env V K D) (c : Con V K D) (C : Nomial V K D) : Except Err (List (Con V K D)) :=
  match c.oper with
  | .ge => do
    let a ← geNom E true (← C.mul true c.left) c.right
    pure [a]
  | .le => do
    let a ← leNom E true c.left (← C.mul true c.right)
    pure [a]
  | .eq => do
    let a ← leNom E true c.left (← C.mul true c.right)
    let b ← geNom E true (← C.mul true c.left) c.right
    pure [a, b]

/-- `relaxvar >= 1` (gpkit/constraints/relax.py 43, 91 and 201): `1` becomes `Signomial(1)`. -/
def atLeastOne (E : Env V K D) (se : Bool) (v : V) : Except Err (Con V K D) :=
  mkPosy E se (varNomial E.vunits v) .ge ⟨numMap ⟨1, none⟩, .monomial⟩

/-- The constraints of `ConstraintsRelaxedEqually` (gpkit/constraints/relax.py 30-44): the original ones are `original_constraints.flat()`. -/
def relaxedEqually (E : Env V K D) (se : Bool) (C : V) (orig : List (Con V K D)) : Except Err (List (Con V K D)) := do
  let rs ← orig.mapM (fun c => relaxed E c (varNomial E.vunits C))
  let m ← atLeastOne E se C
  pure (m :: rs.flatten)

/-- `c.relaxed(self.relaxvars[i]) for i, c in enumerate(flat)`, where `relaxvars` are the remaining elements of the vector
(gpkit/constraints/relax.py 86-88). -/
def relaxedEach (E : Env V K D) : List V → List (Con V K D) → Except Err (List (Con V K D))
  | _, [] => .ok []
  | [], _ :: _ => .error .indexError
  | C :: Cs, c :: cs => do
    let r ← relaxed E c (varNomial E.vunits C)
    let rs ← relaxedEach E Cs cs
    pure (r ++ rs)

/-- The constraints of `ConstraintsRelaxed` (gpkit/constraints/relax.py 78-92). `Cs` are the elements of a vector of length
`len(original_constraints)`, `flat` is `original_constraints.flat()`. -/
def relaxedAll (E : Env V K D) (se : Bool) (Cs : List V) (flat : List (Con V K D)) : Except Err (List (Con V K D)) := do
  let rs ← relaxedEach E Cs flat
  let ms ← Cs.mapM (atLeastOne E se)
  pure (ms ++ rs)

/-- The constraints that `ConstantsRelaxed` adds for one constant (gpkit/constraints/relax.py 201-203). -/
def constCons [Module K D] (E : Env V K D) (se : Bool) (relaxvar new freed : V) : Except Err (List (Con V K D)) := do
  let a ← atLeastOne E se relaxvar
  match ← PyVal.div se (.nom (varNomial E.vunits new)) (.nom (varNomial E.vunits relaxvar)) with
  | .num _ => .error .notModelled
  | .nom q => do
    let b ← leNom E se q (varNomial E.vunits freed)
    let p ← (varNomial E.vunits new).mul se (varNomial E.vunits relaxvar)
    let c ← leNom E se (varNomial E.vunits freed) p
    pure [a, b, c]

end

section
variable {K α : Type} [Field K] [LinearOrder K]

/-- The loop of `get_relaxed` (gpkit/constraints/relax.py 239-242): the items before the first one that is not relaxed. -/
def relaxedPrefix (most : K) : List (K × α) → List (K × α)
  | [] => []
  | p :: l => if p.1 ≤ 101 / 100 ∧ p.1 - 1 ≤ (most - 1) / 10 then [] else p :: relaxedPrefix most l

/-- `sorted(…, key=lambda x: -x[0])` (gpkit/constraints/relax.py 237): a stable sort. -/
def sortDown (l : List (K × α)) : List (K × α) := l.mergeSort (fun a b => decide (-a.1 ≤ -b.1))

/-- `get_relaxed` (gpkit/constraints/relax.py 235-242). -/
def getRelaxed (vals : List K) (mapped : List α) : Except Err (List (K × α)) :=
  let s := sortDown (vals.zip mapped)
  match s with
  | [] => .error .indexError
  | p :: _ => .ok (relaxedPrefix (max p.1 (101 / 100)) s)

end
end Relax
end Verif
