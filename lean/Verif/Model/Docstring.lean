import Verif.Model.Text
import Verif.Model.Nomial

/-!
# Variables declared in docstrings

Models `parse_varstring` and what it calls, gpkit/tools/docstring.py 112-201. Running the code produced is not modelled.
-/

namespace Verif
namespace Docstring
open Str

variable (ws : Char → Bool)

/-- `variable_declaration` without the newline (gpkit/tools/docstring.py 189-201). Without a name `out` is never set. -/
def declaration (nameval : List Str) (units label : Str) : Except Err Str :=
  match nameval with
  | [] => .error .unboundLocal
  | [n] => .ok (n ++ " = self.".toList ++ n ++ " = Variable('".toList ++ n ++ "', '".toList ++ units ++ "', '".toList ++ label ++ "')".toList)
  | [n, v] => .ok (n ++ " = self.".toList ++ n ++ " = Variable('".toList ++ n ++ "', ".toList ++ v ++ ", '".toList ++ units ++ "', '".toList ++
      label ++ "')".toList)
  | _ => .error .valueError

/-- One declaration line (gpkit/tools/docstring.py 156-170). The loop over spaces runs past the end of a line without a label. -/
def lineDecl (line : Str) : Except Err Str :=
  match index? "[".toList line, index? "]".toList line with
  | some i, some j =>
    let units := (line.take j).drop (i + 1)
    let nameval := words ws (line.take i)
    let rest := line.drop (j + 1)
    if rest = [] then declaration nameval units []
    else
      match rest.dropWhile (· = ' ') with
      | [] => .error .indexError
      | label => declaration nameval units (replace "'".toList "\\'".toList label)
  | _, _ => .error .valueError

/-- How the declarations of a section are changed (gpkit/tools/docstring.py 127-137). -/
inductive Kind where
  /-- "Variables" -/
  | scalars
  /-- "Constants" -/
  | constants
  /-- "Variables of length" -/
  | vectors
deriving DecidableEq

/-- The flags (gpkit/tools/docstring.py 114-117). -/
def Kind.flag : Kind → Str
  | .scalars => "Variables\n".toList
  | .constants => "Constants\n".toList
  | .vectors => "Variables of length".toList

/-- `declaration_func` (gpkit/tools/docstring.py 127-137): `s` is the text from the flag on, `idx2` as there. -/
def Kind.declare (k : Kind) (s : Str) (idx2 : Nat) (countstr : Str) : Str :=
  match k with
  | .scalars => countstr
  | .constants => replace "')".toList "', constant=True)".toList countstr
  | .vectors => replace "Variable(".toList ("VectorVariable(".toList ++ strip ws ((s.take idx2).drop k.flag.length) ++ ", ".toList) countstr

/-- `originalstr[:originalstr.index(line)].count("\n")` (gpkit/tools/docstring.py 172). -/
def lineIdx (orig line : Str) : Nat := count "\n".toList (orig.take ((index? line orig).getD 0))

/-- `idx2` (gpkit/tools/docstring.py 152). -/
def Kind.idx2 (k : Kind) (s : Str) : Except Err Nat :=
  if '\n' ∈ k.flag then .ok 0 else match index? "\n".toList s with | some i => .ok i | none => .error .valueError

/-- The lines of a section (gpkit/tools/docstring.py 153-155). -/
def sectionLines (s : Str) (idx2 : Nat) : List Str := ((lines (s.drop idx2)).drop 2).takeWhile (fun l => strip ws l ≠ [])

/-- The loop of `check_and_parse_flag` (gpkit/tools/docstring.py 145-178), with what is appended to `overallstr` and to `lineidxs`. The case
`idx == -1` cannot occur, as `index` raises. -/
def flagLoop (k : Kind) (orig : Str) : Nat → Str → Except Err (Str × List Nat)
  | 0, _ => .ok ([], [])
  | n + 1, s =>
    match index? k.flag s with
    | none => .error .valueError
    | some idx => do
      let s := s.drop idx
      let idx2 ← k.idx2 s
      let ls := sectionLines ws s idx2
      let ds ← ls.mapM (lineDecl ws)
      let rest ← flagLoop k orig n (s.drop (idx2 + k.flag.length))
      return (k.declare ws s idx2 (ds.flatMap (· ++ ['\n'])) ++ rest.1, ls.map (lineIdx orig) ++ rest.2)

/-- `check_and_parse_flag` (gpkit/tools/docstring.py 140-178). -/
def parseFlag (k : Kind) (s : Str) : Except Err (Str × List Nat) := flagLoop ws k s (count k.flag s) s

/-- `out[index] = line + "  # from '%s'" % out[index][1:].strip()` (gpkit/tools/docstring.py 123). -/
def writeLine (out : List Str) (li : Str × Nat) : List Str :=
  out.set li.2 (li.1 ++ "  # from '".toList ++ strip ws (((out[li.2]?).getD []).drop 1) ++ "'".toList)

/-- `out` before declarations are written (gpkit/tools/docstring.py 118-120). -/
def commented (s : Str) : List Str :=
  match (lines s).map ("# ".toList ++ ·) with
  | [] => []
  | l :: ls => ("from gpkit import Variable, VectorVariable".toList ++ "  ".toList ++ l) :: ls

/-- `parse_varstring` (gpkit/tools/docstring.py 112-124), before the lines are joined. -/
def parseLines (s : Str) : Except Err (List Str) := do
  let c ← parseFlag ws .constants s
  let v ← parseFlag ws .scalars s
  let vv ← parseFlag ws .vectors s
  return [c, v, vv].foldl (fun out p => ((lines p.1).zip p.2).foldl (writeLine ws) out) (commented s)

/-- `parse_varstring` (gpkit/tools/docstring.py 112-124). -/
def parseVarstring (s : Str) : Except Err Str := (parseLines ws s).map unlines

end Docstring
end Verif
