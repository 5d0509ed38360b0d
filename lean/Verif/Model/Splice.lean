import Verif.Model.Docstring
import Verif.Model.VarKey

/-!
# The decorator `parse_variables`

Models `parse_variables.__call__` (gpkit/tools/docstring.py 79-110) up to the source it gives to `ast.parse` and the line numbers it gives to that.
What `inspect.getsourcelines` returns is the argument: the lines of the decorated function, each with its newline, beginning with the decorator, and the
number of the first. Parsing, compiling and running the source are not modelled.
-/

namespace Verif.Splice
open Str

/-- What counts as indentation (gpkit/tools/docstring.py 82, 91). -/
def isIndent (c : Char) : Bool := c = ' ' || c = '\t'

/-- `while line[k] in [" ", "\t"]: k += 1`: `none` is an `IndexError` (gpkit/tools/docstring.py 82-83, 91-92). -/
def indentFrom (line : Str) (k : Nat) : Option Nat :=
  let n := k + ((line.drop k).takeWhile isIndent).length
  if n < line.length then some n else none

/-- The first index from `k` on whose line satisfies `p`; `none` is an `IndexError` (gpkit/tools/docstring.py 85-87, 89-90). -/
def findFrom (p : Str → Bool) (ls : List Str) (k : Nat) : Option Nat := ((ls.drop k).findIdx? p).map (· + k)

/-- What ends the header of a function. -/
def close : Str := "):".toList

/-- `# (@parse_variables spacer line)`. -/
def spacer1 : Str := "# (@parse_variables spacer line)".toList

/-- `# (setup spacer line)`. -/
def spacer2 : Str := "# (setup spacer line)".toList

/-- The lines put in (gpkit/tools/docstring.py 93-97), with their newlines. -/
def parseLines (second : Str) (decls : List Str) (setup : Nat) : List Str :=
  decls.map (fun l => second ++ l ++ ['\n']) ++ [second ++ spacer1 ++ ['\n']] ++ List.replicate setup (second ++ spacer2 ++ ['\n'])

/-- The lines of the new source, and how many were put in (gpkit/tools/docstring.py 81-103). `decls` are the lines of `parse_varstring`. -/
def splice (orig decls : List Str) : Except Err (List Str × Nat) :=
  match orig[1]? with
  | none => .error .indexError
  | some l1 =>
    match indentFrom l1 0 with
    | none => .error .indexError
    | some first =>
      match findFrom (fun l => (index? close l).isSome) orig 1 with
      | none => .error .indexError
      | some setup =>
        match findFrom (fun l => decide (first + 1 < l.length)) orig (setup + 1) with
        | none => .error .indexError
        | some next =>
          match indentFrom ((orig[next]?).getD []) first with
          | none => .error .indexError
          | some second =>
            let pl := parseLines (((orig[next]?).getD []).take second) decls setup
            let new := (orig.drop 1).take setup ++ pl ++ orig.drop (setup + 1)
            .ok ((new.filter (fun l => decide ('#' ∉ l.take first))).map (fun l => (l.drop first).dropLast), pl.length)

/-- `parse_variables(string)(function)` up to its parsed source (gpkit/tools/docstring.py 79-105): the source, and the number to be added to the number of
each of its lines (counted from one) by `ast.increment_lineno`. -/
def decorate (ws : Char → Bool) (string : Str) (orig : List Str) (lineno : Nat) : Except Err (Str × Int) :=
  match Docstring.parseVarstring ws string with
  | .error e => .error e
  | .ok out => (splice orig (lines out)).map (fun r => (unlines r.1, (lineno : Int) - (r.2 : Int)))

/-- The number in the file that tracebacks give for the line with index `i` of the source, with `n` added: lines are counted from one
(gpkit/tools/docstring.py 105). -/
def fileLine (n : Int) (i : Nat) : Int := (i : Int) + 1 + n

end Verif.Splice
