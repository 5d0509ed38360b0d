import Verif.Model.Nomial

/-!
# Sums and products of arrays

Models `NomialArray.sum` and `NomialArray.prod` (gpkit/nomials/array.py 150-191) without arguments, for arrays of at least one dimension. The
entries are listed in the order of `self.flat`.

Simplifications: numbers are not NaN. What pint does with `quantity.to(None)` is not modelled. numpy's own product, to which `prod` falls
back, multiplies the entries one after the other.
-/

namespace Verif
namespace Arr
variable {V K D : Type} [DecidableEq V] [Field K] [LinearOrder K] [AddCommGroup D] [DecidableEq D]

/-- `hmap[EMPTY_HV] = p + hmap.get(EMPTY_HV, 0)` (gpkit/nomials/array.py 168). -/
def addConst (h : NMap V K D) (p : K) : NMap V K D := { h with terms := PyDict.set h.terms HV.empty (p + (PyDict.get? h.terms HV.empty).getD 0) }

/-- `if not hmap and hasattr(p, "units"): hmap.units = p.units` (gpkit/nomials/array.py 159-160). -/
def setUnits (h : NMap V K D) (u : Option (UnitQ D K)) : NMap V K D := if h.terms.isEmpty then { h with units := u } else h

/-- One pass of the loop of `sum` (gpkit/nomials/array.py 158-168). -/
def sumStep (h : NMap V K D) : PyVal V K D → Except Err (NMap V K D)
  | .nom n => (setUnits h n.hmap.units).add n.hmap
  | .num ⟨p, some u⟩ =>
    let h := setUnits h (some u)
    match h.units with
    | none => .error .notModelled
    | some hu => do
      let c ← u.convert hu
      pure (addConst h (p * c))
  | .num ⟨p, none⟩ =>
    match h.units with
    | none => .ok (addConst h p)
    | some hu =>
      if p ≠ 0 then
        match hu.float with
        | none => .error .dimensionality
        | some f => .ok (addConst h (p / f))
      else .ok (addConst h p)

/-- `NomialArray.sum` (gpkit/nomials/array.py 150-171). -/
def sum (se : Bool) (l : List (PyVal V K D)) : Except Err (Nomial V K D) :=
  if l.isEmpty then .error .valueError
  else do
    let h ← l.foldlM sumStep ⟨[], none⟩
    mkSig se true h

/-- The accumulated coefficient, exponents and units in `prod`. -/
structure Acc (V K D : Type) where
  /-- `c` -/
  c : K
  /-- `exp` -/
  exp : HV V K
  /-- `hmap.units` -/
  units : Option (UnitQ D K)

/-- One pass of the loop of `prod` (gpkit/nomials/array.py 181-188); `none` if the entry is not a nomial of one term. -/
def prodStep (a : Acc V K D) : PyVal V K D → Option (Acc V K D)
  | .nom n =>
    match n.hmap.terms with
    | [(e, c)] => some ⟨a.c * c, a.exp.add e, match n.hmap.units with
      | some u => some (match a.units with | some v => v.mul u | none => u)
      | none => a.units⟩
    | _ => none
  | .num _ => none

/-- The entries multiplied one after the other. -/
def npProd (se : Bool) : List (PyVal V K D) → Except Err (PyVal V K D)
  | [] => .error .valueError
  | x :: l => l.foldlM (PyVal.mul se) x

/-- `NomialArray.prod` (gpkit/nomials/array.py 171-191). -/
def prod (se : Bool) (l : List (PyVal V K D)) : Except Err (PyVal V K D) :=
  if l.isEmpty then .error .valueError
  else match l.foldlM prodStep ⟨1, HV.empty, none⟩ with
    | none => npProd se l
    | some a => do
      let n ← mkSig se true ⟨[(a.exp, a.c)], a.units⟩
      pure (.nom n)

end Arr
end Verif
