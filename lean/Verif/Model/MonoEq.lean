import Verif.Model.Constraint

/-!
# Equality of monomials as a truth value

Models `Monomial.__eq__` (gpkit/nomials/math.py 335-342), `MonomialEquality.__bool__` (545-548), the comparison of arrays and its truth value
(gpkit/nomials/array.py 24-35, gpkit/constraints/array.py 23-25).

Simplifications: the two sides of a comparison of arrays have been broadcast to one shape, and are the lists of their elements. An operand is a nomial or
a number; with a number to the left Python calls the method of the nomial.
-/

namespace Verif
section
variable {V K D : Type} [DecidableEq V] [Field K] [LinearOrder K]
variable [AddCommGroup D] [DecidableEq D]

/-- `==` of two numbers, of which pint compares those with units after conversion: dimension and size in base units. -/
def PyQ.eqv (p q : PyQ D K) : Bool :=
  let dim (u : Option (UnitQ D K)) : D := match u with | none => 0 | some u => u.dim
  let scale (u : Option (UnitQ D K)) : K := match u with | none => 1 | some u => u.scale
  decide (dim p.units = dim q.units) && decide (p.mag * scale p.units = q.mag * scale q.units)

/-- `bool(MonomialEquality)` (gpkit/nomials/math.py 545-548): `c` is the coefficient times the units (gpkit/nomials/data.py 35-42). -/
def meqBool (l r : NMap V K D) : Except Err Bool :=
  match l.terms, r.terms with
  | [(el, cl)], [(er, cr)] => .ok (PyQ.eqv ⟨cl, l.units⟩ ⟨cr, r.units⟩ && el == er)
  | _, _ => .error .valueError

/-- `bool(left == right)` for two monomials (gpkit/nomials/math.py 335-342, 500-519): making the constraint may raise; two kinds of exceptions are
caught. -/
def monoEq (se : Bool) (feastol : K) (l r : NMap V K D) : Except Err Bool :=
  match meqUnsubbed se feastol l r with
  | .ok _ => meqBool l r
  | .error .dimensionality => .ok false
  | .error .valueError => .ok false
  | .error e => .error e

namespace PyVal

/-- `Nomial.__eq__` (gpkit/nomials/core.py 102-106). -/
def nomialEq (a : Nomial V K D) : PyVal V K D → Bool
  | .num q => a.isFixedScalar && (match a.hmap.terms with | [(_, c)] => PyQ.eqv ⟨c, a.hmap.units⟩ q | _ => false)
  | .nom b => a.eqNomial b

/-- `bool(a == b)`. A number is made a nomial first when a constraint is made (gpkit/nomials/math.py 369-380). -/
def eqOp (se : Bool) (feastol : K) : PyVal V K D → PyVal V K D → Except Err Bool
  | .num p, .num q => .ok (p.eqv q)
  | .nom a, .num q => against a q
  | .num q, .nom a => against a q
  | .nom a, .nom b => if a.cls = .monomial ∧ b.cls = .monomial then monoEq se feastol a.hmap b.hmap else .ok (nomialEq a (.nom b))
where
  /-- a nomial and a number -/
  against (a : Nomial V K D) (q : PyQ D K) : Except Err Bool :=
    if a.cls = .monomial then do
      let n ← mkSig se true (numMap q)
      monoEq se feastol a.hmap n.hmap
    else .ok (nomialEq a (.num q))

/-- `bool(A == B)` for arrays: all elements are compared, then `constraints.all()`. `np.vectorize` refuses arrays without elements. -/
def arrayEq (se : Bool) (feastol : K) (as bs : List (PyVal V K D)) : Except Err Bool :=
  if as.length ≠ bs.length ∨ as.isEmpty then .error .valueError
  else do
    let bools ← (as.zip bs).mapM (fun ab => eqOp se feastol ab.1 ab.2)
    pure (bools.all id)

end PyVal
end
end Verif
