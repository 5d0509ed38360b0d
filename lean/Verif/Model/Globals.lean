import Verif.Model.Nomial

/-!
# Environments

Models `SignomialsEnabled`, `Vectorize` and `NamedVariables` (gpkit/globals.py 52-118), and what `Variable` and `ArrayVariable` take from
them (gpkit/nomials/variables.py 14-19, 114-118). A user's code is a tree of statements; `with` runs `__exit__` whether or not the body raised.
-/

namespace Verif
namespace Globals

/-- A lineage: names of models with numbers. -/
abbrev Lineage := List (String × Nat)

/-- A variable that was made: name, lineage, shape. -/
structure Var where
  /-- `name` -/
  name : String
  /-- `lineage` -/
  lineage : Lineage
  /-- `shape` -/
  shape : List Nat
deriving DecidableEq, Repr

/-- What is recorded as the code runs. -/
inductive Event where
  /-- a named environment is entered -/
  | entered (l : Lineage)
  /-- a named environment is left, having handed out this list of variables -/
  | left (l : Lineage) (vars : List Var)
  /-- a variable is made, while signomials are allowed or not -/
  | made (v : Var) (signomials : Bool)
  /-- the counters are reset -/
  | reset
deriving DecidableEq, Repr

/-- The class attributes (gpkit/globals.py 68, 76, 97-99), and the record. -/
structure St where
  /-- `SignomialsEnabled._true` -/
  signomials : Bool
  /-- `Vectorize.vectorization` -/
  vectorization : List Nat
  /-- `NamedVariables.lineage` -/
  lineage : Lineage
  /-- `NamedVariables.modelnums` -/
  modelnums : PyDict (Lineage × String) Nat
  /-- `NamedVariables.namedvars` -/
  namedvars : PyDict Lineage (List Var)
  /-- what happened -/
  trace : List Event
deriving DecidableEq, Repr

/-- Python code that uses the environments. -/
inductive Prog where
  /-- nothing -/
  | skip
  /-- one after the other -/
  | seq (p q : Prog)
  /-- `with NamedVariables(name): p` -/
  | named (name : String) (p : Prog)
  /-- `with Vectorize(n): p` -/
  | vectorize (n : Nat) (p : Prog)
  /-- `with SignomialsEnabled(): p` -/
  | signomials (p : Prog)
  /-- a variable with a name and own shape -/
  | var (name : String) (shape : List Nat)
  /-- `raise` -/
  | raise
  /-- `try: p except: q` -/
  | attempt (p q : Prog)
  /-- `NamedVariables.reset_modelnumbers()` -/
  | reset

/-- How code ends. -/
abbrev Outcome := Except Err Unit

/-- `NamedVariables.__enter__` (gpkit/globals.py 108-113). -/
def enter (s : St) (name : String) : St :=
  let num := (s.modelnums.get? (s.lineage, name)).getD 0
  let lineage := s.lineage ++ [(name, num)]
  { s with
    modelnums := s.modelnums.set (s.lineage, name) (num + 1)
    lineage := lineage
    namedvars := if s.namedvars.contains lineage then s.namedvars else s.namedvars.set lineage []
    trace := s.trace ++ [.entered lineage] }

/-- `NamedVariables.__exit__` (gpkit/globals.py 115-118). -/
def leave (s : St) : St × Outcome :=
  match s.namedvars.get? s.lineage with
  | none => (s, .error .keyError)
  | some vars =>
    ({ s with
      namedvars := s.namedvars.del s.lineage
      lineage := s.lineage.dropLast
      trace := s.trace ++ [.left s.lineage vars] }, .ok ())

/-- A variable is made (gpkit/nomials/variables.py 14-19, 55-57 and 114-118). -/
def make (s : St) (name : String) (shape : List Nat) : St :=
  let v : Var := ⟨name, s.lineage, shape ++ s.vectorization⟩
  { s with
    namedvars := if s.lineage ≠ [] then s.namedvars.set s.lineage ((s.namedvars.get? s.lineage).getD [] ++ [v]) else s.namedvars
    trace := s.trace ++ [.made v s.signomials] }

/-- Running code. An exception raised by `__exit__` replaces that of the body. -/
def exec : Prog → St → St × Outcome
  | .skip, s => (s, .ok ())
  | .seq p q, s =>
    match exec p s with
    | (s, .ok ()) => exec q s
    | (s, .error e) => (s, .error e)
  | .named name p, s =>
    match exec p (enter s name) with
    | (s, o) =>
      match leave s with
      | (s, .ok ()) => (s, o)
      | (s, .error e) => (s, .error e)
  | .vectorize n p, s =>
    match exec p { s with vectorization := n :: s.vectorization } with
    | (s, o) => ({ s with vectorization := s.vectorization.tail }, o)
  | .signomials p, s =>
    match exec p { s with signomials := true } with
    | (s, o) => ({ s with signomials := false }, o)
  | .var name shape, s => (make s name shape, .ok ())
  | .raise, s => (s, .error .valueError)
  | .attempt p q, s =>
    match exec p s with
    | (s, .ok ()) => (s, .ok ())
    | (s, .error _) => exec q s
  | .reset, s => ({ s with modelnums := [], trace := s.trace ++ [.reset] }, .ok ())

/-- The state when gpkit has been imported. -/
def init : St := ⟨false, [], [], [], [], []⟩

end Globals
end Verif
