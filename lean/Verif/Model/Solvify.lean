import Verif.Model.ParseSubs
import Verif.Model.Sweep

/-!
# `solve` as called by a user

Models `solvify` and `progify` (gpkit/constraints/prog_factories.py 45-113): substitutions are sorted, functions evaluated, sweeps run. Solving one program is
a function of its constants.

Simplifications: the constants of a program that is not part of a sweep come from a second call of `parse_subs`, which gives the same as the first; whatever
is neither a number, a list of numbers to sweep over nor a function raises here, and raises in gpkit or the `ad` package at some later point.
-/

namespace Verif
namespace Solvify
open PS
attribute [-instance] instBEqProd
variable {S K F R : Type} [DecidableEq S]

/-- A constant has to be a number. -/
def toNum : Out K F → Except Err K
  | .num k => .ok k
  | _ => .error .typeError

/-- The values of a sweep (gpkit/constraints/prog_factories.py 121-126). A single number is one value. -/
def toAxis : Out K F → Except Err (List K)
  | .num k => .ok [k]
  | .list vs => .ok vs
  | _ => .error .typeError

/-- A linked function. -/
def toFn (interp : F → Sweep.Fn (Key S) K) : Out K F → Except Err (Sweep.Fn (Key S) K)
  | .fn f => .ok (interp f)
  | _ => .error .typeError

/-- All values of a dictionary. -/
def conv {A B : Type} (f : A → Except Err B) (d : PyDict (Key S) A) : Except Err (List (Key S × B)) :=
  List.mapM (fun kv : Key S × A => do
    let b ← f kv.2
    pure (kv.1, b)) d

/-- `if linked: evaluate_linked(constants, linked)` (gpkit/constraints/prog_factories.py 59-60). -/
def withLinked (linked : List (Key S × Sweep.Fn (Key S) K)) (constants : PyDict (Key S) K) : Except Err (PyDict (Key S) K) :=
  if linked.isEmpty then .ok constants else Sweep.evalLinked linked constants

/-- `solvefn` (gpkit/constraints/prog_factories.py 71-112) with `programfn` (55-66): the results in `solution`. `le` compares the texts of keys (121-122). -/
def solvefn (le : Key S → Key S → Bool) (interp : F → Sweep.Fn (Key S) K) (solve : PyDict (Key S) K → Except Err R) (skip : Bool)
    (shape : S → Option Nat) (subs : S → Option (Sub K F)) (under : List (S × List (Key S))) : Except Err (List R) := do
  let p ← parseSubs shape subs under
  let constants ← conv toNum p.constants
  let linked ← conv (toFn interp) p.linked
  if p.sweep.isEmpty then
    let constants ← withLinked linked constants
    let result ← solve constants
    pure [result]
  else
    let sweep ← conv toAxis (p.sweep.mergeSort (fun a b => le a.1 b.1))
    match Sweep.runSweep solve skip constants sweep linked with
    | (s, .ok ()) => pure s.results
    | (_, .error e) => .error e

end Solvify
end Verif
