import Verif.Model.GP
import Verif.Model.Text

/-!
# The command line solver

Models gpkit/solvers/mosek_cli.py 80-162: the file written for `mskexpopt` and the reading of its solution. Formatting and parsing of numbers are
parameters: `fi` is `"%d"`, `fe` is `"%.20e"`, `pe` is `float`. Files are strings.
-/

namespace Verif
namespace MosekCli
variable {V K : Type} [DecidableEq V] [Field K] [LinearOrder K]

/-- `max(xs) + 1 if xs else 0` (gpkit/small_classes.py 45-46). -/
def extent : List Nat → Nat
  | [] => 0
  | x :: xs => xs.foldl max x + 1

/-- The lines of the file (gpkit/solvers/mosek_cli.py 128-144); `p_idxs[-1]` is IndexError for no terms. -/
def fileLines (fi : Nat → Str) (fe : K → Str) (c : List K) (A : GP.Coot K) (p : List Nat) : Option (List Str) :=
  match p.getLast? with
  | none => none
  | some numcon =>
    some ([fi numcon, fi (extent (A.map (fun t => t.2.1))), fi (extent (A.map (fun t => t.1)))]
      ++ ["".toList, "*c".toList] ++ c.map fe
      ++ ["".toList, "*p_idxs".toList] ++ p.map fi
      ++ ["".toList, "*t j A_tj".toList] ++ A.map (fun t => fi t.1 ++ ' ' :: (fi t.2.1 ++ ' ' :: fe t.2.2)))

/-- Lines, each ended by a newline. -/
def ended (ls : List Str) : Str := ls.flatMap (fun l => l ++ ['\n'])

/-- `write_output_file` (gpkit/solvers/mosek_cli.py 128-144). -/
def writeFile (fi : Nat → Str) (fe : K → Str) (c : List K) (A : GP.Coot K) (p : List Nat) : Option Str := (fileLines fi fe c A p).map ended

/-- Exceptions raised. -/
inductive CliErr where
  /-- `PrimalInfeasible` -/
  | primalInfeasible
  /-- `DualInfeasible` -/
  | dualInfeasible
  /-- `UnknownInfeasible` -/
  | unknownInfeasible
  /-- `InvalidLicense` -/
  | invalidLicense
  /-- `RuntimeWarning` -/
  | runtimeWarning
  /-- `ValueError` -/
  | valueError
  /-- `IndexError` -/
  | indexError
deriving DecidableEq

/-- The dictionary returned. -/
structure Result (K : Type) where
  /-- `status` -/
  status : Str
  /-- `objective` -/
  objective : K
  /-- `primal` -/
  primal : List K
  /-- `nu` -/
  nu : List K

/-- What repeated `readline` returns before the end of the file: lines with their newlines. -/
def rawLines : Str → List Str
  | [] => []
  | c :: s =>
    if c = '\n' then ['\n'] :: rawLines s
    else match rawLines s with
      | [] => [[c]]
      | l :: ls => (c :: l) :: ls

/-- `readline`: empty at the end of the file. -/
def line (f : List Str) : Str := f.headD []

/-- `_, x = s.split(pat)`: ValueError unless there are two parts. -/
def after (pat s : Str) : Except CliErr Str :=
  if Str.count pat s = 1 then .ok (s.drop (((Str.index? pat s).getD 0) + pat.length)) else .error .valueError

/-- `s.rstrip()`. -/
def rstrip (ws : Char → Bool) (s : Str) : Str := (s.reverse.dropWhile ws).reverse

/-- `assert_equal` (gpkit/solvers/mosek_cli.py 147-151). -/
def assertEqual (ws : Char → Bool) (received expected : Str) : Except CliErr Unit :=
  if rstrip ws expected = rstrip ws received then .ok () else .error .runtimeWarning

/-- `float(s.split()[i])`. -/
def wordVal (ws : Char → Bool) (pe : Str → Option K) (i : Nat) (s : Str) : Except CliErr K :=
  match (Str.words ws s)[i]? with
  | none => .error .indexError
  | some w => match pe w with
    | none => .error .valueError
    | some x => .ok x

/-- `read_vals` (gpkit/solvers/mosek_cli.py 154-162): values, and the rest of the file. -/
def readVals (ws : Char → Bool) (pe : Str → Option K) : List Str → Except CliErr (List K × List Str)
  | [] => .ok ([], [])
  | l :: ls =>
    if l = ['\n'] then .ok ([], ls)
    else do
      let x ← wordVal ws pe 1 l
      let r ← readVals ws pe ls
      return (x :: r.1, r.2)

/-- Reading the solution (gpkit/solvers/mosek_cli.py 95-116 and 121-124). -/
def readSol (ws : Char → Bool) (pe : Str → Option K) (text : Str) : Except CliErr (Result K) := do
  let f := rawLines text
  let probsta ← after "PROBLEM STATUS      : ".toList (line f).dropLast
  if probsta = "PRIMAL_INFEASIBLE".toList then .error .primalInfeasible
  else if probsta = "DUAL_INFEASIBLE".toList then .error .dualInfeasible
  else if probsta ≠ "PRIMAL_AND_DUAL_FEASIBLE".toList then .error .unknownInfeasible
  else do
    let solsta ← after "SOLUTION STATUS     : ".toList (line (f.drop 1))
    let obj ← wordVal ws pe 2 (line (f.drop 2))
    assertEqual ws (line (f.drop 3)) "".toList
    assertEqual ws (line (f.drop 4)) "PRIMAL VARIABLES".toList
    assertEqual ws (line (f.drop 5)) "INDEX   ACTIVITY".toList
    let p ← readVals ws pe (f.drop 6)
    assertEqual ws (line p.2) "DUAL VARIABLES".toList
    assertEqual ws (line (p.2.drop 1)) "INDEX   ACTIVITY".toList
    let d ← readVals ws pe (p.2.drop 2)
    return ⟨solsta.dropLast, obj, p.1, d.1⟩

/-- `optimize` (gpkit/solvers/mosek_cli.py 81-123): `code` is the return code of `mskexpopt` if it is not zero. The second part tells whether the
directory given by `mkdtemp` is removed. -/
def optimize (ws : Char → Bool) (pe : Str → Option K) (tmpdir : Bool) (code : Option Nat) (text : Str) : Except CliErr (Result K) × Bool :=
  match code with
  | some n => (.error (if n ∈ [233, 240] then .invalidLicense else .unknownInfeasible), false)
  | none =>
    match readSol ws pe text with
    | .error e => (.error e, false)
    | .ok r => (.ok r, tmpdir)

end MosekCli
end Verif
