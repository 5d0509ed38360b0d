import Verif.Model.Constraint

/-!
# Signomial equalities

Models `SingleSignomialEquality.as_gpconstr` (gpkit/nomials/math.py 684-692), which `SignomialEquality` (gpkit/constraints/sigeq.py 7-14) makes for each
element. The constraint is kept as the signomial `left - right`.
-/

namespace Verif
section
variable {V K D : Type} [DecidableEq V] [Field K] [LinearOrder K] [HasPow K]
variable [AddCommGroup D] [DecidableEq D]

/-- `Monomial == Monomial` as a constraint (gpkit/nomials/math.py 335-342). Where it is `False` instead, the attribute that is set next does not exist
(gpkit/nomials/math.py 691). -/
def meqConstr (se : Bool) (feastol : K) (l r : NMap V K D) : Except Err (List (Nomial V K D)) :=
  match meqUnsubbed se feastol l r with
  | .error .dimensionality => .error .attributeError
  | .error .valueError => .error .attributeError
  | o => o

/-- `SingleSignomialEquality.as_gpconstr` (gpkit/nomials/math.py 684-692): the unsubstituted forms of the replacement. Where `posy_negy` returns the int 0
the method does not exist. -/
def eqGpconstr (se : Bool) (feastol : K) (sig : Nomial V K D) (vunits : V → Option (UnitQ D K)) (x0 : PyDict V K)
    (ord : Orders V K) (setord : List V → List V) : Except Err (List (Nomial V K D)) := do
  let pn ← sig.posyNegy se
  match pn with
  | (some posy, some negy) => do
    let x := fillX0 sig.hmap.vks x0
    let l ← posy.monoLowerBound vunits x ord (setord posy.hmap.vks)
    let r ← negy.monoLowerBound vunits x ord (setord negy.hmap.vks)
    meqConstr se feastol l.hmap r.hmap
  | _ => .error .attributeError

/-- The forms of the replacement at a point (gpkit/constraints/sgp.py 81 and 224). -/
def eqApprox (feastol : K) (vunits : V → Option (UnitQ D K)) (ord : Orders V K) (setord : List V → List V) (x0 : PyDict V K)
    (sig : Nomial V K D) : Except Err (List (PyDict (HV V K) K)) := do
  let us ← eqGpconstr false feastol sig vunits x0 ord setord
  (asHmapslt1 feastol (us.map (·.hmap.terms)) [] ord {}).1

end
end Verif
