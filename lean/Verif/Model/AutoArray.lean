import Verif.Model.Autosweep
import Verif.Model.DictOfLists

/-!
# The solution array of an autosweep

Models `BinarySweepTree.solarray` (gpkit/tools/autosweep.py 137-144) and `SolutionArray.__len__` (gpkit/solution_array.py 350-356). Results are the nested
dicts of `Model/DictOfLists.lean`.
-/

namespace Verif
namespace Auto
open DoL

section
variable {S K : Type} [DecidableEq S]

/-- `solarray` (gpkit/tools/autosweep.py 137-144). -/
def Tree.solarray (t : Tree K (Nest S (Leaf K))) : Except Err (Nest S (Arr K)) :=
  (appendAll t.sollist).map toArrays

/-- `len` of a solution array (gpkit/solution_array.py 350-356): a number has no `len`, and raises `TypeError`. -/
def solLen (cost : S) : Nest S (Arr K) → Nat
  | .leaf _ => 1
  | .dict d =>
    match PyDict.get? d cost with
    | none => 0
    | some (.dict c) => c.length
    | some (.leaf (.many as)) => as.length
    | some (.leaf (.one (.vec ks))) => ks.length
    | some (.leaf (.one (.num _))) => 1

end
end Auto
end Verif
