import Verif.Model.Text
import Verif.Model.Table

/-!
# Tables of constraints

`tight_table`, `loose_table` and `constraint_table` of gpkit/solution_array.py. A row of a table is a pair of cells; that cells are padded to the width
of their column, and spaces at the end of a line are removed, is not modelled.
-/

namespace Verif
namespace ConstrTables
variable {C K σ : Type}

/-- Whether a text begins with a match of `CONSTRSPLITPATTERN`, and its length (gpkit/solution_array.py 16). -/
def opAt (s : Str) : Option Nat :=
  let factor := match s with
    | a :: '*' :: b :: _ => decide (a ≠ '*' ∧ b ≠ '*')
    | _ => false
  if factor then some 3
  else if " + ".toList.isPrefixOf s then some 3
  else if " >= ".toList.isPrefixOf s then some 4
  else if " <= ".toList.isPrefixOf s then some 4
  else if " = ".toList.isPrefixOf s then some 3
  else none

/-- See `split`: the text since the last match, and the number of characters of a match still to be read. -/
def splitAux : Str → Nat → Str → List Str
  | buf, _, [] => if buf = [] then [] else [buf]
  | buf, 0, c :: s =>
    match opAt (c :: s) with
    | some n => (if buf = [] then [] else [buf]) ++ splitAux [c] (n - 1) s
    | none => splitAux (buf ++ [c]) 0 s
  | buf, n + 1, c :: s => if n = 0 then (buf ++ [c]) :: splitAux [] 0 s else splitAux (buf ++ [c]) n s

/-- `[s for s in CONSTRSPLITPATTERN.split(constrstr) if s]` (gpkit/solution_array.py 191). -/
def split (s : Str) : List Str := splitAux [] 0 s

/-- `while len(line) > maxlen` (gpkit/solution_array.py 206-208): finished lines, and the rest. The number bounds the rounds; lines get shorter by
`maxlen - 2` in every round, so the length of the line suffices. -/
def cut (maxlen : Nat) : Nat → Str → List Str × Str
  | 0, line => ([], line)
  | p + 1, line =>
    if maxlen < line.length then
      let r := cut maxlen p (' ' :: ' ' :: line.drop maxlen)
      (line.take maxlen :: r.1, r.2)
    else ([], line)

/-- The loop over segments (gpkit/solution_array.py 195-209): `carry` is what has been put before the next segment. -/
def wrapAux (minlen maxlen : Nat) : Str → Str → List Str → List Str
  | line, _, [] => [line]
  | line, carry, s :: rest =>
    let seg := carry ++ s
    if (opAt seg).isSome && !rest.isEmpty then
      let r := cut maxlen (line ++ seg.take 1).length (line ++ seg.take 1)
      r.1 ++ wrapAux minlen maxlen r.2 (seg.drop 1) rest
    else
      let new := decide (maxlen < line.length + seg.length ∧ minlen < line.length)
      let line' := (if new then [' ', ' '] else line) ++ seg
      let r := cut maxlen line'.length line'
      (if new then [line] else []) ++ r.1 ++ wrapAux minlen maxlen r.2 [] rest

/-- The lines of a constraint (gpkit/solution_array.py 190-209). -/
def wrap (minlen maxlen : Nat) (s : Str) : List Str := wrapAux minlen maxlen [] [] (split s)

/-- What tables show of constraints. -/
structure Attrs (C : Type) where
  /-- `lineagestr(constraint)` if `sortbymodel`, else the empty text -/
  model : C → Str
  /-- `try_str_without(constraint, excluded)`, up to the address of an object -/
  text : C → Str
  /-- `str(c)` -/
  str : C → Str
  /-- `id(c)` -/
  id : C → Nat

/-- An element of `data`. -/
structure Datum (C σ : Type) where
  /-- `sortby` -/
  sortby : σ
  /-- `openingstr` -/
  opening : Str
  /-- the constraint -/
  constr : C

/-- How elements of `data` compare: constraints never have to be, since their ids are different. -/
def Datum.key [LinearOrder σ] (T : Attrs C) (d : Datum C σ) : σ ×ₗ Str ×ₗ Nat := toLex (d.sortby, toLex (d.opening, T.id d.constr))

/-- `sorted(data)`. -/
def sorted [LinearOrder σ] (T : Attrs C) (data : List (Datum C σ)) : List (Datum C σ) := data.mergeSort (fun a b => decide (a.key T ≤ b.key T))

/-- `models` after the first loop (gpkit/solution_array.py 172-175): the place of a model in the list is its value. -/
def models (T : Attrs C) (ds : List (Datum C σ)) : List Str :=
  ds.foldl (fun ms d => if T.model d.constr ∈ ms then ms else ms ++ [T.model d.constr]) []

/-- How elements of `decorated` compare. -/
def rowKey [LinearOrder σ] (T : Attrs C) (ms : List Str) (d : Datum C σ) : Nat ×ₗ Str ×ₗ σ ×ₗ Str ×ₗ Str :=
  toLex (ms.idxOf (T.model d.constr), toLex (T.model d.constr, toLex (d.sortby, toLex (T.text d.constr, d.opening))))

/-- `decorated`, sorted (gpkit/solution_array.py 171-180). -/
def decorated [LinearOrder σ] (T : Attrs C) (data : List (Datum C σ)) : List (Datum C σ) :=
  (sorted T data).mergeSort (fun a b => decide (rowKey T (models T (sorted T data)) a ≤ rowKey T (models T (sorted T data)) b))

/-- `constrstr.replace(model, "")` (gpkit/solution_array.py 189): replacing the empty text by itself does nothing. -/
def without (model text : Str) : Str := if model = [] then text else Str.replace model [] text

/-- A line of a table. -/
inductive Item where
  /-- `["", ""]` -/
  | spacer
  /-- `[("newmodelline",), model]` -/
  | heading (m : Str)
  /-- `(openingstr + " : ", constraintlines[0])` -/
  | entry (opening : Str) (line : Str)
  /-- `("", l)` -/
  | more (line : Str)
deriving DecidableEq

/-- The lines of one constraint (gpkit/solution_array.py 189-211). -/
def items (T : Attrs C) (d : Datum C σ) : List Item :=
  match wrap 25 80 (without (T.model d.constr) (T.text d.constr)) with
  | [] => []
  | l :: ls => .entry d.opening l :: ls.map .more

/-- The second loop (gpkit/solution_array.py 181-211). `prev` is `previous_model`, absent before the first row, when there are no lines either. -/
def layout (T : Attrs C) : Option Str → List (Datum C σ) → List Item
  | _, [] => []
  | prev, d :: ds =>
    let head := if prev = some (T.model d.constr) then [] else
      (if prev.isSome then [Item.spacer] else []) ++ (if T.model d.constr = [] ∧ prev = none then [] else [.heading (T.model d.constr)])
    head ++ items T d ++ layout T (some (T.model d.constr)) ds

/-- The lines of `constraint_table` between title and end, unless there are none (gpkit/solution_array.py 163-226). -/
def constraintTable [LinearOrder σ] (T : Attrs C) (data : List (Datum C σ)) : List Item := layout T none (decorated T data)

variable [Field K] [LinearOrder K]

/-- `data` of `tight_table` (gpkit/solution_array.py 135-148). `senss` has the sensitivities at the last point of a sweep. `r` rounds like
`float("%+6.2g" % s)`, `fmt` is `"%+6.2g" % s`. -/
def tightData (T : Attrs C) (r : K → K) (fmt : K → Str) (n : Nat) (tol : K) (senss : List (C × K)) : List (Datum C (K ×ₗ Str)) :=
  (sorted T ((senss.filter (fun cs => decide (tol ≤ cs.2))).map (fun cs => ⟨toLex (-r cs.2, T.str cs.1), fmt cs.2, cs.1⟩))).take n

/-- `tight_table` (gpkit/solution_array.py 135-149). -/
def tightTable (T : Attrs C) (r : K → K) (fmt : K → Str) (n : Nat) (tol : K) (senss : List (C × K)) : List Item :=
  constraintTable T (tightData T r fmt n tol senss)

/-- `data` of `loose_table` (gpkit/solution_array.py 151-163). -/
def looseData (tol : K) (senss : List (C × K)) : List (Datum C Nat) :=
  (senss.filter (fun cs => decide (cs.2 ≤ tol))).map (fun cs => ⟨0, [], cs.1⟩)

/-- `loose_table` (gpkit/solution_array.py 151-164). -/
def looseTable (T : Attrs C) (tol : K) (senss : List (C × K)) : List Item := constraintTable T (looseData tol senss)

end ConstrTables
end Verif
