import Verif.Model.Nomial
import Verif.Model.DictOfLists

/-!
# The solution array of a sweep

Models the end of `run_sweep` (gpkit/constraints/prog_factories.py 156-177) and of `solvefn` (110): swept variables are taken out of the constants, and other
constants reduced to one value. Results are the nested dicts of `Model/DictOfLists.lean`, so that the inner dicts are plain ones here too.
-/

namespace Verif
namespace SweepArr
open DoL

section
variable {S K : Type} [DecidableEq S] [DecidableEq K]

/-- `[val[0]]` unless functions make values differ (gpkit/constraints/prog_factories.py 168-177). -/
def reduced (linked : Bool) (v : Leaf K) (vs : List (Leaf K)) : List (Leaf K) := if linked && vs.any (fun l => l ≠ v) then v :: vs else [v]

/-- The loop body (gpkit/constraints/prog_factories.py 163-177): the constants and the swept variables. `swept var` is `var in ksweep`. -/
def collectStep (swept : S → Bool) (linked : Bool) (s : PyDict S (Nest S (List (Leaf K))) × PyDict S (Nest S (List (Leaf K)))) (kv : S × Nest S (List (Leaf K))) :
    Except Err (PyDict S (Nest S (List (Leaf K))) × PyDict S (Nest S (List (Leaf K)))) :=
  match kv.2 with
  | .dict _ => .error .notModelled
  | .leaf vals =>
    if swept kv.1 then .ok (PyDict.del s.1 kv.1, PyDict.set s.2 kv.1 (.leaf vals))
    else
      match vals with
      | [] => .error .indexError
      | v :: vs => .ok (PyDict.set s.1 kv.1 (.leaf (reduced linked v vs)), s.2)

/-- The end of `run_sweep` (gpkit/constraints/prog_factories.py 161-177). `cK` is `"constants"` and `sK` is `"sweepvariables"`. -/
def collect (cK sK : S) (swept : S → Bool) (linked : Bool) : Nest S (List (Leaf K)) → Except Err (Nest S (List (Leaf K)))
  | .leaf _ => .error .notModelled
  | .dict d =>
    match PyDict.get? d cK with
    | none => .error .keyError
    | some (.leaf _) => .error .attributeError
    | some (.dict c) =>
      match c.foldlM (collectStep swept linked) (c, []) with
      | .error e => .error e
      | .ok cw => .ok (.dict (PyDict.set (PyDict.set d sK (.dict cw.2)) cK (.dict cw.1)))

/-- What a sweep with the given results returns (gpkit/constraints/prog_factories.py 110 and 156-177). -/
def sweepArray (cK sK : S) (swept : S → Bool) (linked : Bool) (rs : List (Nest S (Leaf K))) : Except Err (Nest S (Arr K)) :=
  match rs with
  | [] => .error .runtimeWarning
  | rs =>
    match appendAll rs with
    | .error e => .error e
    | .ok o => (collect cK sK swept linked o).map toArrays

end
end SweepArr
end Verif
