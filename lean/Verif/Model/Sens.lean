import Verif.Model.Sub

/-!
# Sensitivities in a result

Models the part of `GeometricProgram._compile_result` about sensitivities of variables (gpkit/constraints/gp.py 307-343) and the recording of gradients in
`evaluate_linked` (gpkit/constraints/prog_factories.py 12-42).

Simplifications: variables are scalars. What automatic differentiation returns is a parameter. numpy's division by zero gives infinities or NaN; here it is the error
`.nan`.
-/

namespace Verif
namespace Sens

section
variable {V K : Type} [DecidableEq V] [Field K] [DecidableEq K]

/-- `cost_senss` (gpkit/constraints/gp.py 307-308): the dual variables of the terms after substitution, paired by position with the exponents before it. -/
def costSens (nus : List K) (exps : List (HV V K)) : PyDict V K :=
  (nus.zip exps).foldl (fun acc p => dictAdd acc (dictScale p.2.items p.1)) []

/-- `gpv_ss[vk] = x + gpv_ss.get(vk, 0)` for all items (gpkit/constraints/gp.py 315-316). -/
def addSens (gpv v_ss : PyDict V K) : PyDict V K := v_ss.foldl (fun d p => d.set p.1 (p.2 + (d.get? p.1).getD 0)) gpv

/-- `gpv_ss` before the linked variables are looked at (gpkit/constraints/gp.py 309-320). -/
def gather (cost : PyDict V K) (v_sss : List (PyDict V K)) : PyDict V K := v_sss.foldl addSens cost

/-- What the loop over linked variables reads. -/
structure Env (V K : Type) where
  /-- `v.gradients`; empty if there are none -/
  grads : V → PyDict V K
  /-- `result["constants"]` -/
  consts : PyDict V K
  /-- `c in self.cost.vks` -/
  inCost : V → Bool

/-- The two dicts and the local variable `dlogcost_dlogv` during the loop. -/
structure State (V K : Type) where
  /-- `gpv_ss` -/
  gpv : PyDict V K
  /-- `cost_senss` -/
  cost : PyDict V K
  /-- `dlogcost_dlogv` -/
  dlog : K

/-- The inner loop body (gpkit/constraints/gp.py 330-339). -/
def innerStep (E : Env V K) (v : V) (val : K) (s : State V K) (g : V × K) : Except Err (State V K) :=
  match E.consts.get? g.1 with
  | none => .error .keyError
  | some cc =>
    if val = 0 then .error .nan
    else
      let dlogv := g.2 * cc / val
      let gpv := s.gpv.set g.1 ((s.gpv.get? g.1).getD 0 + s.dlog * dlogv)
      match s.cost.get? v with
      | some d =>
        if E.inCost g.1 then
          .ok ⟨gpv, (s.cost.del v).set g.1 (((s.cost.del v).get? g.1).getD 0 + d * dlogv), d⟩
        else .ok ⟨gpv, s.cost, s.dlog⟩
      | none => .ok ⟨gpv, s.cost, s.dlog⟩

/-- The outer loop body (gpkit/constraints/gp.py 326-339). -/
def outerStep (E : Env V K) (s : State V K) (v : V) : Except Err (State V K) :=
  match s.gpv.get? v with
  | none => .error .keyError
  | some d =>
    match E.consts.get? v with
    | none => .error .keyError
    | some val => (E.grads v).foldlM (innerStep E v val) ⟨s.gpv.del v, s.cost, d⟩

/-- `list(v for v in gpv_ss if v.gradients)` (gpkit/constraints/gp.py 326). -/
def linkedKeys (E : Env V K) (gpv : PyDict V K) : List V := gpv.keys.filter (fun v => !(E.grads v).isEmpty)

/-- The loop over linked variables (gpkit/constraints/gp.py 325-343): `result["sensitivities"]["variables"]` and `["cost"]`. -/
def carry (E : Env V K) (gpv cost : PyDict V K) : Except Err (PyDict V K × PyDict V K) := do
  let s ← (linkedKeys E gpv).foldlM (outerStep E) ⟨gpv, cost, 0⟩
  pure (s.gpv, s.cost)

/-- What calling a linked function gives: its value, and its gradient unless differentiation raised. -/
structure Called (V K : Type) where
  /-- `constants[v]` -/
  value : K
  /-- `{adn.tag: grad ...}` -/
  grads : Option (PyDict V K)

/-- The effect of `evaluate_linked` (gpkit/constraints/prog_factories.py 12-42) on the `gradients` kept in the keys and on the constants. -/
def evaluateLinked (linked : List (V × Called V K)) (s : PyDict V (PyDict V K) × PyDict V K) : PyDict V (PyDict V K) × PyDict V K :=
  linked.foldl (fun s p =>
    (match p.2.grads with | some g => s.1.set p.1 g | none => s.1.del p.1, s.2.set p.1 p.2.value)) s

/-- One solve: the plain constants, the linked functions' results, and what the solver's duals amount to. -/
structure Solve (V K : Type) where
  /-- constants of the model that are numbers -/
  consts : PyDict V K
  /-- linked functions -/
  linked : List (V × Called V K)
  /-- sensitivities of the cost -/
  cost : PyDict V K
  /-- sensitivities of the constraints -/
  v_sss : List (PyDict V K)
  /-- variables of the cost -/
  inCost : V → Bool

/-- A solve, from the gradients that keys have at its start: the result, and the gradients that they have afterwards (gpkit/constraints/prog_factories.py 60-68 and
gpkit/constraints/gp.py 296-345). -/
def solve (tbl : PyDict V (PyDict V K)) (p : Solve V K) : PyDict V (PyDict V K) × Except Err (PyDict V K × PyDict V K) :=
  let s := evaluateLinked p.linked (tbl, p.consts)
  (s.1, carry ⟨fun v => (s.1.get? v).getD [], s.2, p.inCost⟩ (gather p.cost p.v_sss) p.cost)

end
end Sens
end Verif
