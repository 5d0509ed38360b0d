import Verif.Model.Sub

/-!
# Monomial approximation

Models `Signomial.mono_approximation` (gpkit/nomials/math.py 104-142), `Posynomial.mono_lower_bound` (279-291) and
`Monomial.mono_approximation` (355-356). `x0` is the result of `parse_subs`, which is modelled in `Model/ParseSubs.lean`.
Python's OverflowError is not modelled.
-/

namespace Verif
section
variable {V K D : Type} [DecidableEq V] [Field K] [LinearOrder K] [HasPow K]
variable [AddCommGroup D] [DecidableEq D]

/-- The order in which each call of `sub` iterates over its sets. -/
abbrev Orders (V K : Type) := PyDict (HV V K) K → PyDict V K → List (V × List (HV V K))

/-- The orders are orders of the sets that are iterated over. -/
def Orders.Valid (ord : Orders V K) : Prop := ∀ h f, SetOrder (varlocs h f) (ord h f)

/-- One pass of the loop (gpkit/nomials/math.py 124-131). The state is `(c, exp)`. -/
def monoApproxStep (h : NMap V K D) (vunits : V → Option (UnitQ D K)) (x0 : PyDict V K) (ord : Orders V K) (c0 : K)
    (st : K × PyDict V K) (vk : V) : Except Err (K × PyDict V K) :=
  match x0.get? vk with
  | none => .error .keyError
  | some val =>
    match (h.diff vk (vunits vk)).sub x0 (ord (h.diff vk (vunits vk)).terms x0) with
    | .error e => .error e
    | .ok d =>
      match d.terms with
      | [t] =>
        if c0 = 0 then .error .zeroDivision
        else
          let e := val * t.2 / c0
          if pwDom val e then .ok (st.1 / pw val e, if e ≠ 0 then st.2.set vk e else st.2) else .error .nan
      | _ => .error .valueError

/-- `Signomial.mono_approximation` (gpkit/nomials/math.py 104-142). `vs` is `self.vks`, a set, in iteration order. -/
def monoApprox (h : NMap V K D) (vunits : V → Option (UnitQ D K)) (x0 : PyDict V K) (ord : Orders V K) (vs : List V) :
    Except Err (NMap V K D) :=
  match h.sub x0 (ord h.terms x0) with
  | .error e => .error e
  | .ok psub =>
    match psub.terms with
    | [(e0, c0)] =>
      if e0.items.isEmpty then do
        let st ← vs.foldlM (monoApproxStep h vunits x0 ord c0) (c0, [])
        pure ⟨[(⟨st.2⟩, st.1)], h.units⟩
      else .error .valueError
    | _ => .error .valueError

/-- `mono_lower_bound` (gpkit/nomials/math.py 279-291; for a Monomial 355-356). -/
def Nomial.monoLowerBound (p : Nomial V K D) (vunits : V → Option (UnitQ D K)) (x0 : PyDict V K) (ord : Orders V K)
    (vs : List V) : Except Err (Nomial V K D) :=
  if p.cls = .monomial then .ok p
  else do
    let m ← monoApprox p.hmap vunits x0 ord vs
    mkSig false true m

end
end Verif
