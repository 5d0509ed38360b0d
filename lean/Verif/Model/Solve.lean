import Verif.Model.PyDict

/-!
# Calling a solver

Models `GeometricProgram.solve` and `_get_solver` (gpkit/constraints/gp.py 17-18, 30-50 and 163-250), `SolverLog`
(gpkit/small_classes.py 67-82) and the parts of the process they share: `DEFAULT_SOLVER_KWARGS` and `sys.stdout`.

Simplifications: a solver is a function from the options it is called with to the texts it prints and its outcome; the numbers it is given
are those of the program (`Verif.Model.GP`). The messages of exceptions are left out, and so is what `solve` itself prints.
`debug` is any function of the process. The log of calls, `passed`, is not part of the program: it is there to speak about what solvers were
given.
-/

namespace Verif
namespace Slv

/-- Exceptions, by class (gpkit/exceptions.py 18-37). -/
inductive Exc where
  /-- `PrimalInfeasible` -/
  | primal
  /-- `DualInfeasible` -/
  | dual
  /-- `UnknownInfeasible` -/
  | unknown
  /-- `Infeasible`, of none of the classes above -/
  | infeasible
  /-- `InvalidLicense` -/
  | license
  /-- `ValueError` -/
  | value
  /-- `AttributeError` -/
  | attribute
  /-- `UnboundLocalError` -/
  | unbound
  /-- any other `Exception` -/
  | other (n : Nat)
  /-- a `BaseException` such as `KeyboardInterrupt` -/
  | base (n : Nat)
deriving DecidableEq, Repr

/-- `isinstance(e, Infeasible)`. -/
def Exc.isInfeasible : Exc → Bool
  | .primal | .dual | .unknown | .infeasible => true
  | _ => false

/-- `isinstance(e, Exception)`. -/
def Exc.isException : Exc → Bool
  | .base _ => false
  | _ => true

/-- What `sys.stdout` can be: a stream of the user, or the log of a solve that writes through to another stream. -/
inductive Stream where
  /-- a stream of the user -/
  | user (n : Nat)
  /-- `SolverLog(output, verbosity=verbosity)` -/
  | log (output : Stream) (verbosity : Int)
deriving DecidableEq, Repr

/-- The process: `DEFAULT_SOLVER_KWARGS`, `sys.stdout`, what arrived at it while solvers ran, and the calls of solvers. -/
structure World (O Val : Type) where
  /-- `DEFAULT_SOLVER_KWARGS` -/
  defaults : PyDict String (PyDict O Val)
  /-- `sys.stdout` -/
  stdout : Stream
  /-- what solvers wrote to the stream behind the log -/
  echoed : List (List Char)
  /-- the calls: name of the solver and options -/
  passed : List (String × PyDict O Val)
deriving DecidableEq, Repr

variable {O Val Out R : Type} [BEq O]

/-- `d.update(e)`. -/
def update (d e : PyDict O Val) : PyDict O Val := e.foldl (fun d kv => d.set kv.1 kv.2) d

/-- `writ.rstrip("\n")`. -/
def rstrip (s : List Char) : List Char := (s.reverse.dropWhile (· == '\n')).reverse

/-- The list behind a `SolverLog` after some calls of `write` (gpkit/small_classes.py 74-79). -/
def logged (writes : List (List Char)) : List (List Char) := (writes.filter (· != ['\n'])).map rstrip

/-- What a `SolverLog` passes on (gpkit/small_classes.py 79-81). -/
def echo (verbosity : Int) (writes : List (List Char)) : List (List Char) :=
  if verbosity > 0 then writes.map (fun w => if w != ['\n'] then rstrip w else w) else []

/-- `"\n".join(lines)`. -/
def joinLines : List (List Char) → List Char
  | [] => []
  | [a] => a
  | a :: b :: l => a ++ '\n' :: joinLines (b :: l)

/-- A solver: from its options to what it writes and how it ends. -/
abbrev Solver (O Val Out : Type) := PyDict O Val → List (List Char) × Except Exc Out

/-- The argument `solver`. -/
inductive SolverArg (O Val Out : Type) where
  /-- `None` -/
  | default
  /-- a string -/
  | named (s : String)
  /-- a function, with its `__name__` -/
  | fn (name : String) (f : Solver O Val Out)

/-- `solver == …` for the solvers that are known (gpkit/constraints/gp.py 39-47). -/
def pick (impl : String → Solver O Val Out) : SolverArg O Val Out → Except Exc (String × Solver O Val Out)
  | .default => .error .value
  | .named s => if s = "cvxopt" ∨ s = "mosek_cli" ∨ s = "mosek_conif" then .ok (s, impl s) else .error .value
  | .fn n f => .ok (n, f)

/-- `_get_solver` (gpkit/constraints/gp.py 30-50). `setting` is `settings.get("default_solver")`. -/
def getSolver (impl : String → Solver O Val Out) (setting : Option String) : SolverArg O Val Out → Except Exc (String × Solver O Val Out)
  | .default => match setting with
    | none => .error .value
    | some s => pick impl (.named s)
  | a => pick impl a

/-- The arguments of one call of `solve`, and the program it is called on. -/
structure Call (O Val Out R : Type) where
  /-- `solver` -/
  solver : SolverArg O Val Out
  /-- `verbosity` -/
  verbosity : Int
  /-- `**kwargs` -/
  kwargs : PyDict O Val
  /-- whether it took less than a second -/
  fast : Bool
  /-- `self.model.debug`, if there is a model -/
  debug : Option (World O Val → World O Val × Except Exc R)
  /-- what is made of the solver's output: `solver_out` or the checked result -/
  finish : Out → Except Exc R

/-- What `solve` returns or raises, its effect on the process, and `solve_log` if a solver ran. -/
structure Done (O Val R : Type) where
  /-- the process afterwards -/
  world : World O Val
  /-- what is returned or raised -/
  result : Except Exc R
  /-- `self.solve_log` -/
  log : Option (List Char)

/-- `solverargs` and its effect on `DEFAULT_SOLVER_KWARGS`: the dict found there is updated in place (gpkit/constraints/gp.py 192-193). -/
def mkArgs (defaults : PyDict String (PyDict O Val)) (name : String) (kwargs : PyDict O Val) :
    PyDict O Val × PyDict String (PyDict O Val) :=
  match defaults.get? name with
  | some d => (update d kwargs, defaults.set name (update d kwargs))
  | none => (update [] kwargs, defaults)

/-- What becomes of an infeasible program (gpkit/constraints/gp.py 217-236). -/
def onInfeasible (c : Call O Val Out R) (w : World O Val) (e : Exc) : World O Val × Except Exc R :=
  if c.verbosity > 0 ∧ c.fast = true then
    -- the message is put together first
    if e = .infeasible then (w, .error .unbound)
    else match c.debug with
      | some d => d w
      | none => (w, .error .attribute)
  else if e = .infeasible then (w, .error .unbound)
  else (w, .error e)

/-- `GeometricProgram.solve` (gpkit/constraints/gp.py 165-240). -/
def solve (impl : String → Solver O Val Out) (setting : Option String) (w : World O Val) (c : Call O Val Out R) : Done O Val R :=
  match getSolver impl setting c.solver with
  | .error e => ⟨w, .error e, none⟩
  | .ok (name, f) =>
    let (args, defaults) := mkArgs w.defaults name c.kwargs
    let original := w.stdout
    let w := { w with defaults := defaults, stdout := .log original (c.verbosity - 2), passed := w.passed ++ [(name, args)] }
    let (writes, out) := f args
    let w := { w with echoed := w.echoed ++ echo (c.verbosity - 2) writes }
    -- finally
    let log := some (joinLines (logged writes))
    let w := { w with stdout := original }
    match out with
    | .ok o => ⟨w, c.finish o, log⟩
    | .error e =>
      if e.isInfeasible then let r := onInfeasible c w e; ⟨r.1, r.2, log⟩
      else if e = .license then ⟨w, .error .license, log⟩
      else if e.isException then ⟨w, .error .unknown, log⟩
      else ⟨w, .error e, log⟩

/-- One solve after the other, whatever comes of them. -/
def solves (impl : String → Solver O Val Out) (setting : Option String) (w : World O Val) (cs : List (Call O Val Out R)) : World O Val :=
  cs.foldl (fun w c => (solve impl setting w c).world) w

end Slv
end Verif
