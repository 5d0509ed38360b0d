import Verif.Model.ConstrTable
import Verif.Model.DictOfLists
import Verif.Model.VarKey
import Mathlib.Data.List.Lex
import Mathlib.Data.String.Basic

/-!
# Warnings of sweeps, and their table

What solves at the points of a sweep warn about (`appendsolwarning`, gpkit/small_scripts.py 6-12, and what `Tight` and `Loose` leave in constraints), how
results are collected (`DictOfLists`), and `warnings_table` (gpkit/solution_array.py 229-258).

Simplifications: text is written as in the tables of constraints. `np.array` of several lists of warnings has a row for each of them. The objects of warnings
other than those of `Tight` and `Loose` are left out, since the table does not look at them.
-/

namespace Verif
namespace WarnTable
open DoL

/-- `"Unexpectedly Tight Constraints"`. -/
def tightCat : String := "Unexpectedly Tight Constraints"

/-- `"Unexpectedly Loose Constraints"`. -/
def looseCat : String := "Unexpectedly Loose Constraints"

/-- An element of a list in `result["warnings"]`. -/
structure Warning (ι : Type) where
  /-- `msg` -/
  msg : Str
  /-- `data` -/
  data : Option ι
deriving DecidableEq

/-- A value in a result. -/
inductive Val (β ι : Type) where
  /-- anything but warnings -/
  | other (b : β)
  /-- a list of warnings -/
  | notes (ws : List (Warning ι))
deriving DecidableEq

/-- What is warned about. -/
inductive About (ι K : Type) where
  /-- `Loose`: a constraint with its sensitivity (gpkit/constraints/loose.py 21-28) -/
  | tight (c : ι) (s : K)
  /-- `Tight`: a constraint with its `tightvalues` and `rel_diff` (gpkit/constraints/tight.py 27-40) -/
  | loose (c : ι) (l : K) (oper : Str) (r rel : K)
  /-- anything else, with its category -/
  | other (cat : String)
deriving DecidableEq

/-- A call of `appendsolwarning`. -/
structure Event (ι K : Type) where
  /-- `msg` -/
  msg : Str
  /-- the rest -/
  about : About ι K
deriving DecidableEq

section
variable {ι K β : Type} [DecidableEq ι]

/-- `category`. -/
def Event.cat (e : Event ι K) : String :=
  match e.about with
  | .tight .. => tightCat
  | .loose .. => looseCat
  | .other c => c

/-- What is put in the list. -/
def Event.warning (e : Event ι K) : Warning ι :=
  match e.about with
  | .tight c _ => ⟨e.msg, some c⟩
  | .loose c .. => ⟨e.msg, some c⟩
  | .other _ => ⟨e.msg, none⟩

/-- Attributes of constraints. -/
structure Marks (ι K : Type) where
  /-- `relax_sensitivity` -/
  relax : PyDict ι K
  /-- `tightvalues` and `rel_diff` -/
  vals : PyDict ι ((K × Str × K) × K)

/-- Attributes are set before `appendsolwarning` (gpkit/constraints/loose.py 26, gpkit/constraints/tight.py 37-38). -/
def mark (m : Marks ι K) (e : Event ι K) : Marks ι K :=
  match e.about with
  | .tight c s => { m with relax := m.relax.set c s }
  | .loose c l o r rel => { m with vals := m.vals.set c ((l, o, r), rel) }
  | .other _ => m

/-- `appendsolwarning` (gpkit/small_scripts.py 6-12): `result["warnings"]`, if there is such a key. -/
def appendWarning (ws : Option (PyDict String (List (Warning ι)))) (e : Event ι K) : Option (PyDict String (List (Warning ι))) :=
  some ((ws.getD []).set e.cat (((ws.getD []).get? e.cat).getD [] ++ [e.warning]))

/-- `result["warnings"]` of a solve, if there is such a key. -/
def warningsOf (es : List (Event ι K)) : Option (PyDict String (List (Warning ι))) := es.foldl appendWarning none

/-- A solve. -/
structure Point (β ι K : Type) where
  /-- the result before it is processed -/
  others : List (String × Nest String β)
  /-- calls of `appendsolwarning` when it is processed, in their order -/
  events : List (Event ι K)

/-- `"warnings"`. -/
def key : String := "warnings"

/-- The processed result of a solve. -/
def Point.result (p : Point β ι K) : Nest String (Val β ι) :=
  .dict (mapItems .other p.others ++
    match warningsOf p.events with
    | none => []
    | some d => [(key, .dict (d.map (fun cw => (cw.1, .leaf (.notes cw.2)))))])

/-- Results of the points of a sweep in a solution (gpkit/constraints/prog_factories.py 139-163). -/
def sweep (ps : List (Point β ι K)) : Except Err (Nest String (List (Val β ι))) := appendAll (ps.map Point.result)

/-- Attributes of constraints after a sweep. -/
def marksAfter (ps : List (Point β ι K)) : Marks ι K := (ps.flatMap (·.events)).foldl mark ⟨[], []⟩

/-- What is shown of constraints and numbers. -/
structure Show (ι K : Type) where
  /-- constraints -/
  T : ConstrTables.Attrs ι
  /-- `bool(c)` -/
  truth : ι → Bool
  /-- `int(1e5*x)` -/
  int : K → Int
  /-- `"%+6.2g" % s` -/
  sens : K → Str
  /-- `"%.4g %s %.4g" % c.tightvalues` -/
  vals : K × Str × K → Str

/-- A line of the table. -/
inductive Line where
  /-- `"~"*8` -/
  | bar
  /-- `"WARNINGS"` -/
  | top
  /-- the title of a category -/
  | title (s : Str)
  /-- `"-"*n` -/
  | rule (n : Nat)
  /-- a message -/
  | msg (s : Str)
  /-- a line about a constraint -/
  | item (i : ConstrTables.Item)
  /-- `""` -/
  | blank
deriving DecidableEq

/-- The title of a part (gpkit/solution_array.py 240-242). -/
def titleOf (cat : String) (n i : Nat) : Str := if 1 < n then cat.toList ++ " in sweep ".toList ++ VK.num i else cat.toList

/-- `data[0][1]`, as a truth value. -/
def firstTrue (P : Show ι K) : List (Warning ι) → Except Err Bool
  | [] => .error .indexError
  | w :: _ => .ok (match w.data with | none => false | some c => P.truth c)

/-- A row of the table of a category of constraints: `find` reads the attributes. -/
def datum (find : ι → Option (Int × Str)) (w : Warning ι) : Except Err (ConstrTables.Datum ι Int) :=
  match w.data with
  | none => .error .attributeError
  | some c =>
    match find c with
    | none => .error .attributeError
    | some r => .ok ⟨r.1, r.2, c⟩

/-- `relax_sensitivity` in a row (gpkit/solution_array.py 244-246). -/
def findTight (P : Show ι K) (m : Marks ι K) (c : ι) : Option (Int × Str) := (m.relax.get? c).map (fun s => (-P.int s, P.sens s))

/-- `rel_diff` and `tightvalues` in a row (gpkit/solution_array.py 249-251). -/
def findLoose (P : Show ι K) (m : Marks ι K) (c : ι) : Option (Int × Str) := (m.vals.get? c).map (fun v => (-P.int v.2, P.vals v.1))

/-- A part of the table whose rows are constraints. -/
def conPart (P : Show ι K) (find : ι → Option (Int × Str)) (title : Str) (data : List (Warning ι)) : Except Err (List Line) :=
  match data.mapM (datum find) with
  | .error e => .error e
  | .ok ds => .ok ([.title title, .rule title.length] ++ (ConstrTables.constraintTable P.T ds).map .item ++ [.blank])

/-- A part of the table (gpkit/solution_array.py 239-255). -/
def part (P : Show ι K) (m : Marks ι K) (cat : String) (n i : Nat) (data : List (Warning ι)) : Except Err (List Line) :=
  let data := data.mergeSort (fun a b => decide (a.msg ≤ b.msg))
  let title := titleOf cat n i
  let text : List Line := [.title title, .rule cat.length] ++ data.map (fun w => .msg w.msg) ++ [.blank]
  if cat = tightCat then
    match firstTrue P data with
    | .error e => .error e
    | .ok true => conPart P (findTight P m) title data
    | .ok false => .ok text
  else if cat = looseCat then
    match firstTrue P data with
    | .error e => .error e
    | .ok true => conPart P (findLoose P m) title data
    | .ok false => .ok text
  else .ok text

/-- A value as a list of warnings: nothing else is in `self["warnings"]`. -/
def notesOf : Val β ι → List (Warning ι)
  | .notes ws => ws
  | .other _ => []

/-- The parts of a category (gpkit/solution_array.py 236-255). A list of one element has been replaced by this element and is made a list of one element again;
lists of other lengths have become arrays. -/
def parts (P : Show ι K) (m : Marks ι K) (cat : String) (vec : List (List (Warning ι))) : Except Err (List Line) :=
  (vec.zipIdx.mapM (fun di => part P m cat vec.length di.2 di.1)).map List.flatten

/-- `self["warnings"]`. -/
def warningsIn : Nest String (List (Val β ι)) → List (String × Nest String (List (Val β ι)))
  | .leaf _ => []
  | .dict d =>
    match PyDict.get? d key with
    | some (.dict ws) => ws
    | _ => []

/-- `self["warnings"][wtype]`. -/
def vecOf (ws : List (String × Nest String (List (Val β ι)))) (cat : String) : List (List (Warning ι)) :=
  match PyDict.get? ws cat with
  | some (.leaf vs) => vs.map notesOf
  | _ => []

/-- `warnings_table` (gpkit/solution_array.py 229-258). -/
def table (P : Show ι K) (m : Marks ι K) (o : Nest String (List (Val β ι))) : Except Err (List Line) :=
  let ws := warningsIn o
  if ws.isEmpty then .ok []
  else
    match ((ws.map (·.1)).mergeSort (fun a b => decide (a ≤ b))).mapM (fun cat => parts P m cat (vecOf ws cat)) with
    | .error e => .error e
    | .ok ls => .ok ([.bar, .top, .bar] ++ ls.flatten.dropLast ++ [.bar, .blank])

end

end WarnTable
end Verif
