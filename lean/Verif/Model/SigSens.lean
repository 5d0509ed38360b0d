import Verif.Model.Constraint

/-!
# Signomial inequalities solved as posynomial ones

Models `SignomialInequality.as_hmapslt1` and `SignomialInequality.sens_from_dual` (gpkit/nomials/math.py 583-659), without units. Maps stand for
`Signomial` objects. `vks` is a set: `setord` gives the order in which it is listed.
-/

namespace Verif
section
variable {V K : Type} [DecidableEq V] [Field K] [LinearOrder K] [HasPow K]

/-- The attributes `_mons`, `_negysig` and `_coeffsigs` (gpkit/nomials/math.py 611-615). -/
structure SigMemo (V K : Type) where
  /-- `self._mons`: exponents and coefficient of each monomial -/
  mons : List (HV V K × K)
  /-- `self._negysig` -/
  negysig : PyDict (HV V K) K
  /-- `self._coeffsigs` -/
  coeffsigs : PyDict (HV V K) (PyDict (HV V K) K)

/-- The two dicts filled by the loop at gpkit/nomials/math.py 603-609: `negy_hmap` and `posy_hmaps` (a `defaultdict`). -/
def splitStep (h : PyDict (HV V K) K) (nexp : HV V K) (acc : PyDict (HV V K) K × PyDict (HV V K) (PyDict (HV V K) K))
    (oe : HV V K × HV V K) : Except Err (PyDict (HV V K) K × PyDict (HV V K) (PyDict (HV V K) K)) :=
  match h.get? oe.1 with
  | none => .error .keyError
  | some c =>
    if oe.2 == nexp then .ok (acc.1.set oe.1 (-c), acc.2)
    else
      let k := oe.2.sub nexp
      .ok (acc.1, acc.2.set k (((acc.2.get? k).getD []).set oe.1 c))

/-- What `as_hmapslt1` of a signomial inequality can end with. -/
inductive SigForm (V K : Type) where
  /-- a tautology: no form -/
  | none
  /-- the forms for the solver and the attributes set on the way -/
  | forms (fs : List (PyDict (HV V K) K)) (m : SigMemo V K)

/-- `_gen_unsubbed` and `as_hmapslt1` of the `PosynomialInequality` made at gpkit/nomials/math.py 599 (see `genUnsubbed` and `formStep`),
outside of `SignomialsEnabled`, where coefficients that are not positive raise. -/
def sigInner (feastol : K) (posy : PyDict (HV V K) K) (nexp : HV V K) (nc : K) (fixed : PyDict V K) (ord : Orders V K) :
    Except Err (List (PyDict (HV V K) K)) :=
  match renameTerms nexp nc posy with
  | .error e => .error e
  | .ok ts =>
    match simplifyPosyIneq feastol ts with
    | .error e => .error e
    | .ok none => .ok []
    | .ok (some us) =>
      if us.isEmpty then .ok []
      else if us.any (fun t => t.2 ≤ 0) then .error .invalidPosynomial
      else (formStep feastol us fixed (ord us fixed) {}).1

/-- `SignomialInequality.as_hmapslt1` (gpkit/nomials/math.py 583-619). `r1` and `r2` are the orders in which the two substitutions go through their sets.
The products in `posy/negy` are those of distinct terms with one monomial, so none of them meet. -/
def sigForm (feastol : K) (h : PyDict (HV V K) K) (fixed : PyDict V K) (r1 r2 : List (V × List (HV V K))) (ord : Orders V K) :
    Except Err (SigForm V K) :=
  match subState h fixed r1 with
  | .error e => .error e
  | .ok s1 =>
    let pn := s1.cp.foldl Nomial.posyNegyStep ([], [])
    if pn.1.isEmpty then .ok .none
    else
      match pn.2 with
      | [] => .error .valueError
      | [(nexp, nc)] =>
        match subState h fixed r2 with
        | .error e => .error e
        | .ok s2 =>
          match s2.expmap.foldlM (splitStep h nexp) ([], []) with
          | .error e => .error e
          | .ok sp =>
            match sigInner feastol pn.1 nexp nc fixed ord with
            | .error e => .error e
            | .ok fs => .ok (.forms fs ⟨pn.1.map (fun t => (t.1.sub nexp, t.2 / nc)), sp.1, sp.2⟩)
      | _ => .error .invalidGPConstraint

/-- `subval` (gpkit/nomials/math.py 637-643): the value at the solution. -/
def subval (ord : Orders V K) (vals : PyDict V K) (ts : PyDict (HV V K) K) : Except Err K :=
  match subState ts vals (ord ts vals) with
  | .error e => .error e
  | .ok s =>
    match s.cp with
    | [(k, c)] => if k.items.isEmpty then .ok c else .error .assertion
    | _ => .error .valueError

/-- The variables of a map, in some order. -/
def mapVks (ts : PyDict (HV V K) K) : List V := (ts.flatMap (fun t => t.1.items.map (·.1))).dedup

/-- `Signomial.diff` (gpkit/nomials/math.py 67-85), without units. -/
def mapDiff (v : V) (ts : PyDict (HV V K) K) : PyDict (HV V K) K :=
  if v ∈ mapVks ts then ts.foldl (NMap.diffStep v) [] else [(HV.empty, 0)]

/-- The body of the inner loop at gpkit/nomials/math.py 650-658. -/
def sigSensVar (ord : Orders V K) (vals : PyDict V K) (neg coeff : PyDict (HV V K) K) (invneg nu invmon : K) (acc : PyDict V K) (v : V) :
    Except Err (PyDict V K) := do
  let dc ← subval ord vals (mapDiff v coeff)
  let dn ← subval ord vals (mapDiff v neg)
  let cv ← subval ord vals coeff
  let d := dc * invneg - dn * cv * invneg ^ 2
  match vals.get? v with
  | none => .error .keyError
  | some x => pure (acc.set v (nu * invmon * d * x + (acc.get? v).getD 0))

/-- `1/x` -/
def invPy (x : K) : Except Err K := if x = 0 then .error .zeroDivision else .ok (1 / x)

/-- The body of the outer loop (gpkit/nomials/math.py 646-658) for one monomial. -/
def sigSensMon (ord : Orders V K) (setord : List V → List V) (vals : PyDict V K) (m : SigMemo V K) (invneg : K) (acc : PyDict V K)
    (mn : (HV V K × K) × K) : Except Err (PyDict V K) := do
  let mv ← subval ord vals [mn.1]
  let invmon ← invPy mv
  match m.coeffsigs.get? mn.1.1 with
  | none => .error .keyError
  | some coeff =>
    (setord (mapVks m.negysig) ++ setord (mapVks coeff)).foldlM (sigSensVar ord vals m.negysig coeff invneg mn.2 invmon) acc

/-- `SignomialInequality.sens_from_dual` (gpkit/nomials/math.py 621-659). -/
def sigSens (ord : Orders V K) (setord : List V → List V) (vals : PyDict V K) (m : SigMemo V K) (nu : List K) : Except Err (PyDict V K) := do
  let nv ← subval ord vals m.negysig
  let invneg ← invPy nv
  let out ← (m.mons.zip nu).foldlM (sigSensMon ord setord vals m invneg) []
  if m.mons.length < nu.length then .error .indexError else pure out

end
end Verif
