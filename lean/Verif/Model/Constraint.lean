import Verif.Model.Approx
import Verif.Model.Units

/-!
# Single constraints

Models `PosynomialInequality`, `MonomialEquality`, `SignomialInequality` and `SingleSignomialEquality`
(gpkit/nomials/math.py 399-692). A coefficient map handed to the solver is a `PyDict (HV V K) K`; it means "sum ≤ 1".
-/

namespace Verif
section
variable {V K D : Type} [DecidableEq V] [Field K] [LinearOrder K]
variable [AddCommGroup D] [DecidableEq D]

/-- `_simplify_posy_ineq` without its bookkeeping (gpkit/nomials/math.py 421-440). `none` means the constraint always holds.
`hmap/coeff` is `hmap * coeff**-1`, which raises for a zero coefficient. -/
def simplifyPosyIneq (feastol : K) (ts : PyDict (HV V K) K) : Except Err (Option (PyDict (HV V K) K)) :=
  match ts.get? HV.empty with
  | none => .ok (some ts)
  | some c =>
    if -feastol ≤ 1 - c ∧ ts.length = 1 then .ok none
    else if 1 - c < -feastol then .error .primalInfeasible
    else if 1 - c = 0 then .error .zeroDivision
    else .ok (some ((dictScale ts (1 - c)⁻¹).del HV.empty))

/-- `hmap[exp-m_exp] = hmap.pop(exp)/m_c` (gpkit/nomials/math.py 462): the right-hand side is evaluated first. -/
def renameStep (mexp : HV V K) (mc : K) (ts : PyDict (HV V K) K) (e : HV V K) : Except Err (PyDict (HV V K) K) :=
  match ts.get? e with
  | none => .error .keyError
  | some c => if mc = 0 then .error .zeroDivision else .ok ((ts.del e).set (e.sub mexp) (c / mc))

/-- The loop at gpkit/nomials/math.py 461-462: all terms of `p` divided by `m`, in place. -/
def renameTerms (mexp : HV V K) (mc : K) (ts : PyDict (HV V K) K) : Except Err (PyDict (HV V K) K) :=
  (ts.map (·.1)).foldlM (renameStep mexp mc) ts

/-- `[Posynomial(hmap)] if hmap else []` (gpkit/nomials/math.py 464). -/
def wrapForm (se : Bool) (ts : Option (PyDict (HV V K) K)) (u : Option (UnitQ D K)) : Except Err (List (Nomial V K D)) :=
  match ts with
  | none => .ok []
  | some ts => if ts.isEmpty then .ok [] else (mkSig se true ⟨ts, u⟩).map (fun n => [n])

/-- `PosynomialInequality._gen_unsubbed` (gpkit/nomials/math.py 442-464): the form of `p_lt <= m_gt`. The unit ratio is the one
`of_division` should give; its cache is modelled in `Model/Units.lean`. `hmap.copy()` and `hmap/coeff` drop the units, the
latter only if there is a constant (`scaled.units = hmap.units` restores the already missing ones). -/
def genUnsubbed (se : Bool) (feastol : K) (p m : NMap V K D) : Except Err (List (Nomial V K D)) :=
  match m.terms with
  | [(mexp, mc)] => do
    let r ← UnitCache.ratio m.units p.units
    let ts ← renameTerms mexp (mc * r) p.terms
    let s ← simplifyPosyIneq feastol ts
    wrapForm se s none
  | _ => .error .typeError

end

/-! ## The solver form, with what the constraint remembers -/

section
variable {V K : Type} [DecidableEq V] [Field K] [LinearOrder K] [HasPow K]

/-- The attributes a `PosynomialInequality` sets while it is being solved: `pmap`, `const_mmap`, `const_coeff`. -/
structure Memo (K : Type) where
  /-- `self.pmap`, if the attribute exists -/
  pmap : Option (List (PyDict Nat K)) := none
  /-- `self.const_mmap`, if the attribute exists -/
  constMmap : Option (PyDict Nat K) := none
  /-- `self.const_coeff`, if the attribute exists -/
  constCoeff : Option K := none

/-- The bookkeeping of `_simplify_posy_ineq` when it is given a `pmap` (gpkit/nomials/math.py 426-429). -/
def noteConst (ts : PyDict (HV V K) K) (m : Memo K) (pmap : List (PyDict Nat K)) : Memo K :=
  match ts.get? HV.empty, pyIndex (ts.map (·.1)) HV.empty with
  | some c, some j => { pmap := some (pmap.eraseIdx j), constMmap := pmap[j]?, constCoeff := some (1 - c) }
  | _, _ => { m with pmap := some pmap }

/-- The check and the end of the loop body of `as_hmapslt1` (gpkit/nomials/math.py 475-480). -/
def checkForm : Except Err (Option (PyDict (HV V K) K)) → Except Err (List (PyDict (HV V K) K))
  | .error e => .error e
  | .ok none => .ok []
  | .ok (some ts) => if ts.any (fun t => t.2 ≤ 0) then .error .invalidGPConstraint else .ok [ts]

/-- The loop body of `as_hmapslt1` for one posynomial (gpkit/nomials/math.py 469-480). `fixed` is the result of `parse_subs`.
Returns the forms and the attributes left behind, which also survive an exception. -/
def formStep (feastol : K) (posy : PyDict (HV V K) K) (fixed : PyDict V K) (rounds : List (V × List (HV V K))) (m : Memo K) :
    Except Err (List (PyDict (HV V K) K)) × Memo K :=
  match subState posy fixed rounds with
  | .error e => (.error e, m)
  | .ok s =>
    match mmap s posy with
    | .error e => (.error e, m)
    | .ok pmap => (checkForm (simplifyPosyIneq feastol s.cp), noteConst s.cp m pmap)

/-- `PosynomialInequality.as_hmapslt1` (gpkit/nomials/math.py 466-481). -/
def asHmapslt1 (feastol : K) (unsubbed : List (PyDict (HV V K) K)) (fixed : PyDict V K) (ord : Orders V K) (m : Memo K) :
    Except Err (List (PyDict (HV V K) K)) × Memo K :=
  unsubbed.foldl (fun acc posy =>
    match acc.1 with
    | .error e => (.error e, acc.2)
    | .ok out =>
      let r := formStep feastol posy fixed (ord posy fixed) acc.2
      (r.1.map (fun new => out ++ new), r.2)) (.ok [], m)

/-- `nu_[idx] += percentage*nu_i` for all shares of one term (gpkit/nomials/math.py 489-490 and 494-495). -/
def addShares (nu : List K) (shares : PyDict Nat K) (f : K) : List K :=
  shares.foldl (fun nu s => nu.modify s.1 (· + s.2 * f)) nu

/-- `self.v_ss[vk] = nu_i*x + self.v_ss.get(vk, 0)` (gpkit/nomials/math.py 503-505). -/
def addSens (acc : PyDict V K) (exp : HV V K) (nu : K) : PyDict V K :=
  exp.items.foldl (fun acc kx => acc.set kx.1 (nu * kx.2 + (acc.get? kx.1).getD 0)) acc

/-- The sensitivities of one unsubstituted posynomial given the weight of each of its terms (gpkit/nomials/math.py 503-505). -/
def sensOfNu (presub : PyDict (HV V K) K) (nu : List K) : PyDict V K :=
  (presub.zip nu).foldl (fun acc tn => addSens acc tn.1.1 tn.2) []

/-- The reconstruction of the weights of the original terms (gpkit/nomials/math.py 486-497). The attribute `const_coeff`
is always present when `const_mmap` is. -/
def liftNu (presub : PyDict (HV V K) K) (m : Memo K) (la : K) (nu : List K) : List K :=
  match m.pmap with
  | none => nu
  | some pmap =>
    let nu1 := (pmap.zip nu).foldl (fun acc sn => addShares acc sn.1 sn.2) (presub.map (fun _ => 0))
    match m.constMmap, m.constCoeff with
    | some cm, some cc => addShares nu1 cm (la * ((1 - cc) / cc))
    | _, _ => nu1

/-- `PosynomialInequality.sens_from_dual` (gpkit/nomials/math.py 483-506): the sensitivities, and the attributes after
`del self.pmap` and `del self.const_mmap`. -/
def sensFromDual (presub : PyDict (HV V K) K) (m : Memo K) (la : K) (nu : List K) : PyDict V K × Memo K :=
  (sensOfNu presub (liftNu presub m la nu),
   match m.pmap with
   | none => m
   | some _ => { m with pmap := none, constMmap := none })

end

/-! ## Monomial equalities -/

section
variable {V K D : Type} [DecidableEq V] [Field K] [LinearOrder K]
variable [AddCommGroup D] [DecidableEq D]

/-- `MonomialEquality._gen_unsubbed` (gpkit/nomials/math.py 531-536). -/
def meqUnsubbed (se : Bool) (feastol : K) (l r : NMap V K D) : Except Err (List (Nomial V K D)) := do
  let a ← genUnsubbed se feastol l r
  let b ← genUnsubbed se feastol r l
  pure (a ++ b)

/-- `MonomialEquality.sens_from_dual` (gpkit/nomials/math.py 550-559): called once per half; the first call stores its
multiplier, the second reports. -/
def meqSens (exp : HV V K) (las : List K) (la : K) : PyDict V K × K × List K :=
  match las with
  | [] => ([], 0, [la])
  | a :: _ => ((exp.scale (a - la)).items, a - la, [])

end

/-! ## Signomial constraints -/

section
variable {V K D : Type} [DecidableEq V] [Field K] [LinearOrder K] [HasPow K]
variable [AddCommGroup D] [DecidableEq D]

/-- `{vk: x0.get(vk, 1) for vk in negy.vks}` (gpkit/nomials/math.py 666 and 688). -/
def fillX0 (vks : List V) (x0 : PyDict V K) : PyDict V K := vks.map (fun v => (v, (x0.get? v).getD 1))

/-- `SignomialInequality.as_gpconstr` (gpkit/nomials/math.py 661-669): the unsubstituted forms of the replacement. Where `posy_negy` returns
the int 0 the attribute access or the posynomial constructor raises (or makes an empty constraint), modelled as an error. -/
def asGpconstr (se : Bool) (feastol : K) (sig : Nomial V K D) (vunits : V → Option (UnitQ D K)) (x0 : PyDict V K)
    (ord : Orders V K) (setord : List V → List V) : Except Err (List (Nomial V K D)) := do
  let pn ← sig.posyNegy se
  match pn with
  | (some posy, some negy) => do
    let m ← negy.monoLowerBound vunits (fillX0 negy.hmap.vks x0) ord (setord negy.hmap.vks)
    genUnsubbed se feastol posy.hmap m.hmap
  | (_, none) => .error .attributeError
  | (none, _) => .error .invalidPosynomial

end
end Verif
