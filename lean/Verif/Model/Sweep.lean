import Verif.Model.Nomial

/-!
# Sweeps

gpkit/constraints/prog_factories.py: `evaluate_linked` (12-42) and `run_sweep` (117-177).

Simplifications: variables are scalars (elements of vectors are variables of their own); the gradients that `evaluate_linked` records are not
modelled, nor are functions that give a whole vector; `verbosity` only prints. Solving a program is a function of the constants it is built
from.
-/

namespace Verif
namespace Sweep

section
variable {S K R : Type} [DecidableEq S]

/-- A linked function: the constants seen by the function, and its value or exception. -/
abbrev Fn (S K : Type) := PyDict S K → Except Err K

/-- The loop of `evaluate_linked` (gpkit/constraints/prog_factories.py 18-42). `kdc` are the constants at the start; after an exception the
function is called again with `plain`, the constants at the time of the first exception. -/
def linkLoop (kdc : PyDict S K) : Option (PyDict S K) → List (S × Fn S K) → PyDict S K → Except Err (PyDict S K)
  | _, [], c => .ok c
  | plain, (v, f) :: fs, c =>
    match f kdc with
    | .ok k => linkLoop kdc plain fs (c.set v k)
    | .error _ =>
      match f (plain.getD c) with
      | .ok k => linkLoop kdc (some (plain.getD c)) fs (c.set v k)
      | .error e => .error e

/-- `evaluate_linked` (gpkit/constraints/prog_factories.py 12-42). -/
def evalLinked (linked : List (S × Fn S K)) (c : PyDict S K) : Except Err (PyDict S K) := linkLoop c none linked c

/-- Number of points of a grid. -/
def size (axes : List (List K)) : Nat := (axes.map List.length).prod

/-- An axis, broadcast to the whole grid and flattened in row-major order: `before` and `after` are the numbers of points of the axes before
and after it. -/
def spread (before after : Nat) (vs : List K) : List K :=
  (List.replicate before (vs.flatMap (List.replicate after))).flatten

/-- The flattened grids of axes in the order of the dimensions. -/
def grids : Nat → List (List K) → List (List K)
  | _, [] => []
  | before, vs :: axes => spread before (size axes) vs :: grids (before * vs.length) axes

/-- `np.meshgrid` swaps the first two dimensions (`indexing="xy"`). -/
def swap2 {α : Type} : List α → List α
  | a :: b :: l => b :: a :: l
  | l => l

/-- `sweep_vects` (gpkit/constraints/prog_factories.py 121-131), in the order of the dimensions of the grid. -/
def vects (sweep : List (S × List K)) : List (S × List K) :=
  let axes := swap2 sweep
  List.zip (axes.map (·.1)) (grids 1 (axes.map (·.2)))

/-- `constants.update(...)` for pass `i` (gpkit/constraints/prog_factories.py 140-141). All vectors have an `i`-th element. -/
def point (vs : List (S × List K)) (i : Nat) (c : PyDict S K) : PyDict S K :=
  vs.foldl (fun c v => match v.2[i]? with | some k => c.set v.1 k | none => c) c

/-- The state of a sweep. -/
structure St (S K R : Type) where
  /-- `constants`, one dict for all passes -/
  constants : PyDict S K
  /-- what each program in `self.program` was built from -/
  built : List (PyDict S K)
  /-- the results in `solution` -/
  results : List R
deriving DecidableEq

/-- One pass of the loop (gpkit/constraints/prog_factories.py 139-157). `Infeasible` is modelled as `primalInfeasible`. -/
def pass (solve : PyDict S K → Except Err R) (skip : Bool) (linked : List (S × Fn S K)) (vs : List (S × List K)) (s : St S K R) (i : Nat) :
    St S K R × Except Err Unit :=
  let c := point vs i s.constants
  match (if linked.isEmpty then .ok c else evalLinked linked c) with
  | .error e => ({ s with constants := c }, .error e)
  | .ok c =>
    let s : St S K R := ⟨c, s.built ++ [c], s.results⟩
    match solve c with
    | .ok r => ({ s with results := s.results ++ [r] }, .ok ())
    | .error .primalInfeasible => (s, if skip then .ok () else .error .runtimeWarning)
    | .error e => (s, .error e)

/-- Passes in turn. -/
def passes (solve : PyDict S K → Except Err R) (skip : Bool) (linked : List (S × Fn S K)) (vs : List (S × List K)) :
    List Nat → St S K R → St S K R × Except Err Unit
  | [], s => (s, .ok ())
  | i :: is, s =>
    match pass solve skip linked vs s i with
    | (s, .ok ()) => passes solve skip linked vs is s
    | (s, .error e) => (s, .error e)

/-- `run_sweep` up to the collection of results (gpkit/constraints/prog_factories.py 117-159). `sweep` is sorted. -/
def runSweep (solve : PyDict S K → Except Err R) (skip : Bool) (constants : PyDict S K) (sweep : List (S × List K))
    (linked : List (S × Fn S K)) : St S K R × Except Err Unit :=
  let n := size (sweep.map (·.2))
  match passes solve skip linked (vects sweep) (List.range n) ⟨constants, [], []⟩ with
  | (s, .ok ()) => (s, if s.results.isEmpty then .error .runtimeWarning else .ok ())
  | (s, .error e) => (s, .error e)

/-- The constants of a program after the sweep: all programs refer to the one dict (gpkit/constraints/gp.py 74). -/
def programConstants (s : St S K R) (_ : Nat) : PyDict S K := s.constants

/-- Collection of one constant (gpkit/constraints/prog_factories.py 161-177): swept variables keep all their values, others are reduced to
one value unless functions make them differ. -/
def collapse [DecidableEq K] (swept linked : Bool) (vals : List K) : List K :=
  if swept then vals
  else
    match vals with
    | [] => []
    | v :: vs => if linked && vs.any (fun l => l ≠ v) then v :: vs else [v]

end

end Sweep
end Verif
