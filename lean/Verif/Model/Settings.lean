import Verif.Model.Notes

/-!
# Settings

`build` as far as it writes the file of settings (gpkit/build.py 172-199) and `load_settings` (gpkit/globals.py 7-45). Which solvers and which directory are
found is given. The default solver is returned beside the settings instead of being put among them, and `"just built!"` is left out. The file system is a file's text, or `none` if there is no file; the build is taken to succeed in writing.
-/

namespace Verif.Settings
open Str

/-- What separates a name from its value. -/
def sep : Str := [' ', ':', ' ']

/-- What separates elements of lists. -/
def comma : Str := [',', ' ']

/-- `"installed_solvers"`. -/
def installedName : Str := "installed_solvers".toList

/-- `"mosek_bin_dir"`. -/
def binName : Str := "mosek_bin_dir".toList

/-- The solvers looked for, in this order, if they are found (gpkit/build.py 181-182). -/
def found (cli conif cvx : Bool) : List Str :=
  (if cli then ["mosek_cli".toList] else []) ++ (if conif then ["mosek_conif".toList] else []) ++ (if cvx then ["cvxopt".toList] else [])

/-- The settings to be written, sorted by name (gpkit/build.py 125, 185-196). `env` is the environment variable `GPKITSOLVERS`, `dir` the directory found. -/
def toWrite (solvers : List Str) (env dir : Option Str) : List (Str × Str) :=
  (installedName, env.getD (VK.join comma solvers)) :: (dir.map (fun d => (binName, d))).toList

/-- The file written (gpkit/build.py 195-197). -/
def write (ps : List (Str × Str)) : Str := ps.flatMap (fun p => p.1 ++ sep ++ p.2 ++ ['\n'])

/-- The lines of a file, with their newlines. -/
def keepLines : Str → List Str
  | [] => []
  | c :: s =>
    if c = '\n' then ['\n'] :: keepLines s
    else match keepLines s with
      | [] => [[c]]
      | l :: ls => (c :: l) :: ls

/-- A value: a list, or a single string. -/
inductive Value where
  /-- a list -/
  | many (l : List Str)
  /-- a string -/
  | one (s : Str)
  deriving DecidableEq

/-- Lists of one element are flattened, except for the solvers (gpkit/globals.py 16-19). -/
def flatten (name : Str) : List Str → Value
  | [v] => if name = installedName then .many [v] else .one v
  | vs => .many vs

/-- The settings of a file (gpkit/globals.py 12-19), as the list of the items read; for a name read twice the last counts, see `get`. -/
def read (file : Str) : Except Err (List (Str × Value)) :=
  ((keepLines file).filter (fun l => decide ((split sep l).length = 2))).mapM fun l =>
    match split sep l.dropLast with
    | [n, v] => .ok (n, flatten n (split comma v))
    | _ => .error .valueError

/-- `settings_[name]`. -/
def get (s : List (Str × Value)) (name : Str) : Option Value := (s.reverse.find? (fun p => decide (p.1 = name))).map (·.2)

/-- `settings_["default_solver"] = settings_["installed_solvers"][0]` (gpkit/globals.py 44); what a string would give is not needed. -/
def withDefault (s : List (Str × Value)) : Except Err (List (Str × Value) × Str) :=
  match get s installedName with
  | none => .error .keyError
  | some (.many (x :: _)) => .ok (s, x)
  | some (.many []) => .error .indexError
  | some (.one x) => .ok (s, x.take 1)

/-- What follows the reading of the file (gpkit/globals.py 22-45): a build, if no solver is named. `rebuilt` is the file the build would write. -/
def choose (rebuilt : Str) (s : List (Str × Value)) : Except Err (List (Str × Value) × Str) :=
  match get s installedName with
  | none => .error .keyError
  | some v => if v = .many [[]] then (read rebuilt).bind withDefault else withDefault s

/-- `load_settings()` (gpkit/globals.py 7-45): the settings and the default solver. -/
def load (file : Option Str) (rebuilt : Str) : Except Err (List (Str × Value) × Str) :=
  (file.elim (.ok [(installedName, .many [[]])]) read : Except Err (List (Str × Value))).bind (choose rebuilt)

end Verif.Settings
