import Verif.Model.Sub
import Verif.Model.Units

/-!
# Warnings about a solution

Models `appendsolwarning` (gpkit/small_scripts.py 6-12), `Tight` (gpkit/constraints/tight.py 8-42), `Loose` (gpkit/constraints/loose.py 6-30), `Bounded`
(gpkit/constraints/bounded.py 9-100) and the sensitivities they read (gpkit/constraints/gp.py 306-319).

Simplifications: a warning is what its text says, not the text. Constraints and their sets are told apart by `ι`. `ConstraintSet.process_result`
(gpkit/constraints/set.py 174-194) visits the nested sets first, so a model's processing is a list of steps. Division by zero raises, as it does for Python's
numbers; numpy's numbers would give an infinity or NaN.
-/

namespace Verif
namespace Warn

/-- Which of the four texts of `check_boundaries` (gpkit/constraints/bounded.py 84-95) and the number in it. -/
structure Label where
  /-- `"value near "`, otherwise `"sensitive to "` -/
  near : Bool
  /-- `"upper bound of "`, otherwise `"lower bound of "` -/
  upper : Bool
  /-- the number, with two digits -/
  num : String
deriving DecidableEq

/-- A warning: what it is about. -/
inductive Note (ι V K : Type) where
  /-- a loose constraint with `tightvalues` -/
  | loose (c : ι) (l r : K)
  /-- a tight constraint with its sensitivity -/
  | tight (c : ι) (s : K)
  /-- variables at an artificial bound -/
  | bound (lab : Label) (vks : List V)

/-- The parts of a result that matter here. -/
structure Res (ι V K : Type) where
  /-- `result["variables"]` -/
  vars : PyDict V K
  /-- `result["sensitivities"]["constraints"]` -/
  sens : PyDict ι K
  /-- `result["warnings"]`, if there is such a key -/
  warnings : Option (PyDict String (List (Note ι V K)))
  /-- `result["boundedness"]`, if there is such a key -/
  bounded : Option (PyDict Label (List V))

section
variable {ι V K D : Type} [DecidableEq ι] [DecidableEq V] [Field K] [LinearOrder K]
variable [AddCommGroup D] [DecidableEq D]

/-- `result["warnings"]` after the first `if` of `appendsolwarning` (gpkit/small_scripts.py 8-9). -/
def warnDict (r : Res ι V K) : PyDict String (List (Note ι V K)) := r.warnings.getD []

/-- `appendsolwarning` (gpkit/small_scripts.py 6-12). -/
def append (r : Res ι V K) (cat : String) (n : Note ι V K) : Res ι V K :=
  { r with warnings := some ((warnDict r).set cat (((warnDict r).get? cat).getD [] ++ [n])) }

/-- The sensitivities of constraints (gpkit/constraints/gp.py 311-319): each pair is the constraint a posynomial comes from (after the chains of `parent` and
`generated_by`) and the sensitivity computed for it. -/
def compileSens (l : List (ι × K)) : PyDict ι K := l.foldl (fun d p => d.set p.1 |p.2|) []

/-- `given or default` (gpkit/constraints/tight.py 14, gpkit/constraints/loose.py 13). -/
def orDefault (given : Option K) (dflt : K) : K :=
  match given with
  | none => dflt
  | some t => if t = 0 then dflt else t

/-- A constraint as `Tight` sees it, with the orders in which Python goes through sets when substituting in its sides. -/
structure Con (ι V K D : Type) where
  /-- which constraint -/
  name : ι
  /-- `left.hmap` -/
  left : NMap V K D
  /-- `right.hmap` -/
  right : NMap V K D
  /-- order for `left` -/
  lorder : List (V × List (HV V K))
  /-- order for `right` -/
  rorder : List (V × List (HV V K))

/-- `.sub(variables).value` (gpkit/nomials/core.py 89-100), the magnitude. If variables remain it is not a number, and the arithmetic of `Tight` raises. -/
def sideValue [HasPow K] (h : NMap V K D) (vars : PyDict V K) (order : List (V × List (HV V K))) : Except Err K := do
  let s ← h.sub vars order
  match s.terms with
  | [(e, c)] => if e.items.isEmpty then .ok c else .error .typeError
  | _ => .error .typeError

/-- The loop body of `Tight.process_result` (gpkit/constraints/tight.py 17-40). -/
def tightStep [HasPow K] (tol : K) (r : Res ι V K) (c : Con ι V K D) : Except Err (Res ι V K) := do
  let l ← sideValue c.left r.vars c.lorder
  let rt ← sideValue c.right r.vars c.rorder
  if rt = 0 then .error .zeroDivision
  else do
    let q ← UnitCache.ratio c.left.units c.right.units
    let rel := |1 - l / rt * q|
    if tol ≤ rel then do
      let back ← UnitCache.ratio c.right.units c.left.units
      .ok (append r "Unexpectedly Loose Constraints" (.loose c.name l (rt * back)))
    else .ok r

/-- `Tight.process_result` (gpkit/constraints/tight.py 17-42) for its own constraints. -/
def tight [HasPow K] (tol : K) (cons : List (Con ι V K D)) (r : Res ι V K) : Except Err (Res ι V K) :=
  cons.foldlM (tightStep tol) r

/-- The loop body of `Loose.process_result` (gpkit/constraints/loose.py 15-30). With `raiseerror` the `RuntimeWarning` leaves the loop; the result it leaves
behind, already changed, comes with it. -/
def looseStep (tol : K) (r : Res ι V K) (c : ι) : Res ι V K :=
  if tol ≤ (r.sens.get? c).getD 0 then append r "Unexpectedly Tight Constraints" (.tight c ((r.sens.get? c).getD 0)) else r

/-- `Loose.process_result` (gpkit/constraints/loose.py 15-30): whether it raises, and the result. -/
def loose (tol : K) (raiseerror : Bool) : List ι → Res ι V K → Bool × Res ι V K
  | [], r => (false, r)
  | c :: cs, r =>
    if tol ≤ (r.sens.get? c).getD 0 ∧ raiseerror then (true, looseStep tol r c) else loose tol raiseerror cs (looseStep tol r c)

/-- `lowerbound` and `upperbound` (gpkit/constraints/bounded.py 60-61). -/
def boundsOf (eps : K) (lower upper : Option K) : Except Err (K × K) :=
  match upper with
  | some u => if u ≠ 0 then .ok (orDefault lower eps, u) else if eps = 0 then .error .zeroDivision else .ok (orDefault lower eps, 1 / eps)
  | none => if eps = 0 then .error .zeroDivision else .ok (orDefault lower eps, 1 / eps)

/-- A bounded variable with its bounding constraints (gpkit/constraints/bounded.py 23-33). -/
structure BVar (ι V : Type) where
  /-- the variable -/
  vk : V
  /-- `lower <= variable` -/
  lo : ι
  /-- `variable <= upper` -/
  hi : ι

/-- The constraints made for one variable (gpkit/constraints/bounded.py 27-32). -/
def boundCons (lower upper : K) (b : BVar ι V) : List ι :=
  (if lower ≠ 0 then [b.lo] else []) ++ (if upper ≠ 0 then [b.hi] else [])

/-- `out[label].add(varkey)` on a `defaultdict(set)`. -/
def addTo (out : PyDict Label (List V)) (lab : Label) (v : V) : PyDict Label (List V) :=
  out.set lab (if ((out.get? lab).getD []).contains v then (out.get? lab).getD [] else (out.get? lab).getD [] ++ [v])

/-- `if test: out[label].add(varkey)`. -/
def addIf (out : PyDict Label (List V)) (test : Bool) (lab : Label) (v : V) : PyDict Label (List V) :=
  if test then addTo out lab v else out

/-- How `Bounded` is set up: bounds, thresholds, the logarithm and the two-digit printing of numbers. -/
structure Bounder (K : Type) where
  /-- `lowerbound` -/
  lower : K
  /-- `upperbound` -/
  upper : K
  /-- `sens_threshold` -/
  senstol : K
  /-- `logtol_threshold` -/
  logtol : K
  /-- `np.log` -/
  log : K → K
  /-- `"%.2g" %` -/
  fmt : K → String

/-- The part of the loop body of `check_boundaries` about the lower bound (gpkit/constraints/bounded.py 84-89). -/
def checkLow (b : Bounder K) (senss : List K) (value : K) (vk : V) (out : PyDict Label (List V)) : Except Err (PyDict Label (List V)) :=
  if b.lower ≠ 0 then
    match senss.head? with
    | none => .error .valueError
    | some s =>
      .ok (addIf (addIf out (b.senstol ≤ s) ⟨false, false, b.fmt b.lower⟩ vk)
        (b.log (value / b.lower) ≤ b.logtol) ⟨true, false, b.fmt b.lower⟩ vk)
  else .ok out

/-- The part of the loop body of `check_boundaries` about the upper bound (gpkit/constraints/bounded.py 90-95). -/
def checkHigh (b : Bounder K) (senss : List K) (value : K) (vk : V) (out : PyDict Label (List V)) : Except Err (PyDict Label (List V)) :=
  if b.upper ≠ 0 then
    match senss.getLast? with
    | none => .error .valueError
    | some s =>
      if value = 0 then .error .zeroDivision
      else .ok (addIf (addIf out (b.senstol ≤ s) ⟨false, true, b.fmt b.upper⟩ vk)
        (b.log (b.upper / value) ≤ b.logtol) ⟨true, true, b.fmt b.upper⟩ vk)
  else .ok out

/-- The loop body of `check_boundaries` (gpkit/constraints/bounded.py 80-95). -/
def checkOne (b : Bounder K) (r : Res ι V K) (out : PyDict Label (List V)) (x : BVar ι V) : Except Err (PyDict Label (List V)) :=
  match r.vars.get? x.vk with
  | none => .error .keyError
  | some value => do
    let senss := (boundCons b.lower b.upper x).map (fun c => (r.sens.get? c).getD 0)
    let out ← checkLow b senss value x.vk out
    checkHigh b senss value x.vk out

/-- The dictionary of `check_boundaries` (gpkit/constraints/bounded.py 77-95). `xs` is `bound_varkeys` in the order of that frozenset, which is also the order of
`self["variable bounds"]`. -/
def boundedOut (b : Bounder K) (xs : List (BVar ι V)) (r : Res ι V K) : Except Err (PyDict Label (List V)) :=
  xs.foldlM (checkOne b r) []

/-- `dict.update`. -/
def dictUpdate {α β : Type} [BEq α] (d e : PyDict α β) : PyDict α β := e.foldl (fun d p => d.set p.1 p.2) d

/-- `Bounded.process_result` with `check_boundaries` (gpkit/constraints/bounded.py 77-100). -/
def bounded (b : Bounder K) (xs : List (BVar ι V)) (r : Res ι V K) : Except Err (Res ι V K) := do
  let out ← boundedOut b xs r
  let r := out.foldl (fun r p => append r "Arbitrarily Bounded Variables" (.bound p.1 p.2)) r
  pure { r with bounded := some (dictUpdate (r.bounded.getD []) out) }

end
end Warn
end Verif
