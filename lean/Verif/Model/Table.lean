import Mathlib.Data.Char
import Mathlib.Data.List.Lex
import Mathlib.Data.Prod.Lex
import Mathlib.Algebra.Order.Field.Basic
import Verif.Model.Text
import Verif.Model.Vector

/-!
# Tables of solutions

Models `var_table` (gpkit/solution_array.py 745-899, without latex), the tables of sensitivities (92-132), `table` and `summary` (626-723) and `savecsv`
(571-610). Floats are exact, and a value that is not a number is `none`. Arrays are read from the solution without copying: `KeyDict.__getitem__`
(gpkit/keydict.py 168-185) returns the array stored. Padding, and how numbers are written, are not part of the model: a line has its values, not their texts.
-/

namespace Verif
namespace Tables
open Vectors
variable {Q K A : Type}

/-- A value in a solution: a number, or an array with axes. -/
inductive Cell (K : Type) where
  /-- without `shape`, or with an empty one -/
  | num (x : Option K)
  /-- an array -/
  | arr (a : Arr (Option K))

/-- The elements of an array in the order of `flatten`. -/
def elems (a : Arr A) : List A := (indices a.shape).map a.at'

/-- The numbers in a value. -/
def Cell.entries : Cell K → List (Option K)
  | .num x => [x]
  | .arr a => elems a

/-- `bool(getattr(v, "shape", None))`. -/
def Cell.isvec : Cell K → Bool
  | .num _ => false
  | .arr _ => true

/-- What the tables use of a key. -/
structure Attrs (Q : Type) where
  /-- `lineagestr(k.lineage)` -/
  model : Q → Str
  /-- `k.str_without(("lineage", "vec"))` -/
  text : Q → Str
  /-- `k.name` -/
  name : Q → Str
  /-- `unitstr()`, without brackets -/
  units : Q → Str
  /-- `label` -/
  label : Q → Str

/-- Arguments of `var_table`. -/
structure Opts (K : Type) where
  /-- `minval` -/
  minval : K
  /-- `hidebelowminval` -/
  hide : Bool := false
  /-- `sortbyvals` -/
  byvals : Bool := false
  /-- `sortbymodel` -/
  bymodel : Bool := true
  /-- `included_models`; no such models if empty -/
  incl : List Str := []
  /-- `excluded_models` -/
  excl : List Str := []
  /-- `maxcolumns` -/
  cols : Nat := 5
  /-- the mean sensitivity of a model, which sorts models -/
  msenss : Str → K

section arrange

/-- The axis along which lines run, with its length (gpkit/solution_array.py 830-834). -/
def pick (cols : Nat) (shape : List Nat) : Nat × Nat :=
  shape.zipIdx.foldl (fun hn di => if hn.2 ≤ di.1 ∧ di.1 ≤ cols then (di.2, di.1) else hn) (shape.length - 1, 1)

/-- `dim_order` (gpkit/solution_array.py 836-837). -/
def dimOrder (n h : Nat) : List Nat := (List.range (n - 1)).insertIdx h (n - 1)

/-- `val.transpose(order)`: axis `j` of the result is axis `order[j]`. -/
def transposeBy (order : List Nat) (a : Arr A) : Arr A :=
  ⟨order.map (fun d => a.shape.getD d 0), fun i => a.at' ((List.range a.shape.length).map (fun d => i.getD (order.idxOf d) 0))⟩

/-- The lines of values: the first `ncols`, then the rest in the loop (gpkit/solution_array.py 839 and 848-853). The first argument is the number of passes
allowed. -/
def chunks (ncols : Nat) : Nat → List A → List (List A)
  | 0, _ => []
  | p + 1, l => if l.isEmpty then [] else l.take ncols :: chunks ncols p (l.drop ncols)

/-- The lines with the elements of an array (gpkit/solution_array.py 829-860). -/
def arrange (cols : Nat) (a : Arr A) : List (List A) :=
  let hn := pick cols a.shape
  let flat := elems (transposeBy (dimOrder a.shape.length hn.1) a)
  chunks hn.2 flat.length flat

/-- The lines of a value. -/
def Cell.lines (cols : Nat) : Cell K → List (List (Option K))
  | .num x => [[x]]
  | .arr a => arrange cols a

end arrange

section table
variable [Field K] [LinearOrder K]

/-- `np.isnan(v).all() or np.nanmax(np.abs(v)) <= minval` (gpkit/solution_array.py 780). -/
def Cell.below (minval : K) (v : Cell K) : Bool := v.entries.all (fun x => match x with
  | none => true
  | some x => decide (|x| ≤ minval))

/-- `v[np.abs(v) <= minval] = np.nan` if asked for (gpkit/solution_array.py 782-783): what the array is afterwards. -/
def Cell.hidden (o : Opts K) : Cell K → Cell K
  | .num x => .num x
  | .arr a => if o.minval ≠ 0 ∧ o.hide then .arr ⟨a.shape, fun i => match a.at' i with
      | none => none
      | some x => if |x| ≤ o.minval then none else some x⟩
    else .arr a

/-- An entry of `decorated` (gpkit/solution_array.py 784-797). -/
structure Row (Q K : Type) where
  /-- `model` -/
  model : Str
  /-- `msenss` -/
  msenss : K
  /-- the average value, if rows are sorted by it -/
  sort : K
  /-- `i` -/
  idx : Nat
  /-- `k` -/
  key : Q
  /-- `v` -/
  val : Cell K

/-- `np.nanmean(np.abs(v)) - (1e-9 if np.nanmean(v) < 0 else 0)`, negated and rounded by `r` (gpkit/solution_array.py 795-796). -/
def sortVal (r : K → K) (v : Cell K) : K :=
  let xs := v.entries.filterMap id
  r (-((xs.map (fun x => |x|)).sum / xs.length - if xs.sum / xs.length < 0 then 1 / 1000000000 else 0))

/-- The loop that decorates (gpkit/solution_array.py 779-797). -/
def decorate (T : Attrs Q) (r : K → K) (o : Opts K) (data : List (Q × Cell K)) : List (Row Q K) :=
  data.zipIdx.filterMap (fun kvi => if kvi.1.2.below o.minval then none else
    let v := kvi.1.2.hidden o
    let model := if o.bymodel then T.model kvi.1.1 else []
    some ⟨model, -o.msenss model, sortVal r v, kvi.2, kvi.1.1, v⟩)

/-- What is compared if not sorted by values (gpkit/solution_array.py 792). -/
def nameKey (T : Attrs Q) (w : Row Q K) : Lex (K × Lex (Str × Lex (Bool × Lex (Str × Nat)))) :=
  toLex (w.msenss, toLex (w.model, toLex (w.val.isvec, toLex (T.text w.key, w.idx))))

/-- What is compared if sorted by values (gpkit/solution_array.py 797). -/
def valKey (T : Attrs Q) (w : Row Q K) : Lex (Str × Lex (K × Lex (Str × Lex (K × Lex (Bool × Lex (Str × Nat)))))) :=
  toLex (w.model, toLex (w.sort, toLex (T.name w.key, toLex (w.msenss, toLex (w.val.isvec, toLex (T.text w.key, w.idx))))))

/-- `decorated.sort()` (gpkit/solution_array.py 806). -/
def sortRows (T : Attrs Q) (o : Opts K) (ws : List (Row Q K)) : List (Row Q K) :=
  if o.byvals then ws.mergeSort (fun a b => decide (valKey T a ≤ valKey T b)) else ws.mergeSort (fun a b => decide (nameKey T a ≤ nameKey T b))

/-- Whether a model is among `models` (gpkit/solution_array.py 800-805). -/
def allowed (o : Opts K) (m : Str) : Bool := (o.incl.isEmpty || m.isEmpty || o.incl.contains m) && !o.excl.contains m

/-- A line of a table. -/
inductive Item (Q K : Type) where
  /-- an empty line -/
  | spacer
  /-- the name of a model -/
  | heading (m : Str)
  /-- the name of a variable and its first values -/
  | entry (k : Q) (vals : List (Option K))
  /-- further values -/
  | more (vals : List (Option K))

/-- The lines of a variable (gpkit/solution_array.py 824-860). -/
def Row.items (cols : Nat) (w : Row Q K) : List (Item Q K) :=
  match w.val.lines cols with
  | [] => [.entry w.key []]
  | l :: ls => .entry w.key l :: ls.map .more

/-- The loop over sorted rows (gpkit/solution_array.py 807-860). `prev` is `previous_model`, absent before the first row, when there are no lines either. -/
def layout (cols : Nat) : Option Str → List (Row Q K) → List (Item Q K)
  | _, [] => []
  | prev, w :: ws =>
    let head := if prev = some w.model then [] else
      (if prev.isSome then [Item.spacer] else []) ++ (if w.model = [] then [] else [.heading w.model])
    head ++ w.items cols ++ layout cols (some w.model) ws

/-- The lines of `var_table` between title and end (gpkit/solution_array.py 745-880). -/
def varTable (T : Attrs Q) (r : K → K) (o : Opts K) (data : List (Q × Cell K)) : List (Item Q K) :=
  layout o.cols none ((sortRows T o (decorate T r o data)).filter (fun w => allowed o w.model))

end table

section top
variable [Field K] [LinearOrder K] [DecidableEq Q]

/-- `np.abs(s).mean()`, if no value is missing (gpkit/solution_array.py 116-117). -/
def meanAbs (v : Cell K) : Option K :=
  if v.entries.any Option.isNone then none
  else
    let xs := v.entries.filterMap id
    some ((xs.map (fun x => |x|)).sum / xs.length)

/-- `topk` before the loop (gpkit/solution_array.py 116-118). -/
def ranked (data : List (Q × Cell K)) : List Q :=
  ((data.filterMap (fun kv => (meanAbs kv.2).map (fun m => (kv.1, m)))).mergeSort (fun a b => decide (a.2 ≤ b.2))).map (·.1)

/-- `nvars` after the loop in which `n` variables are removed (gpkit/solution_array.py 120-123). -/
def lower : Nat → Nat → Nat
  | nvars, 0 => nvars
  | nvars, n + 1 => lower (if 3 < nvars then nvars - 1 else nvars) n

/-- `topk[-nvars:]` (gpkit/solution_array.py 124). -/
def lastOf (nvars : Nat) (l : List A) : List A := if nvars = 0 then l else l.drop (l.length - nvars)

/-- `topsenss_filter` (gpkit/solution_array.py 112-124): the variables chosen. The number of variables is not negative. -/
def topKeys (data : List (Q × Cell K)) (showvars : List Q) (nvars : Nat) : List Q :=
  let topk := ranked data
  let shown := topk.filter (fun k => k ∈ showvars)
  lastOf (lower nvars shown.length) (topk.filter (fun k => k ∉ showvars))

end top

section summary
variable [Field K] [LinearOrder K] [DecidableEq Q]

/-- The parts of a `SolutionArray` that tables of variables show. -/
structure Sol (Q K : Type) where
  /-- `sol["sweepvariables"]` -/
  sweep : List (Q × Cell K)
  /-- `sol["freevariables"]` -/
  free : List (Q × Cell K)
  /-- `sol["constants"]` -/
  constants : List (Q × Cell K)
  /-- `sol["sensitivities"]["variables"]` -/
  senss : List (Q × Cell K)

/-- The name of a table. Other tables (costs, warnings, models and constraints) only read. -/
inductive Kind where
  /-- "sweepvariables" -/
  | sweep
  /-- "freevariables" -/
  | free
  /-- "constants" -/
  | constants
  /-- "sensitivities" -/
  | senss
  /-- "top sensitivities" -/
  | top
  /-- any other -/
  | other
deriving DecidableEq

/-- Arguments of `senss_table` (gpkit/solution_array.py 98-100). -/
def senssOpts (o : Opts K) (hide : Bool) : Opts K := { o with minval := 1 / 1000, byvals := true, hide := hide }

/-- A dictionary after a table of some of its keys: arrays may have been written to (gpkit/solution_array.py 779-783). -/
def touch (o : Opts K) (shown : Q → Bool) (data : List (Q × Cell K)) : List (Q × Cell K) :=
  data.map (fun kv => if shown kv.1 ∧ ¬ kv.2.below o.minval then (kv.1, kv.2.hidden o) else kv)

/-- Which variables are shown, `{k: data[k] for k in showvars if k in data}` if variables are given (gpkit/solution_array.py 96-97 and 704-706). The order of
that dictionary is that of a set; here it is that of the data. Rows are sorted, and places in the dictionary only matter for equal texts. -/
def picked (showvars : List Q) (k : Q) : Bool := showvars.isEmpty || decide (k ∈ showvars)

/-- One table (gpkit/solution_array.py 92-109 and 684-707), and the solution afterwards. For the top sensitivities the caller may not give
`hidebelowminval`. -/
def Sol.table1 (T : Attrs Q) (r : K → K) (o : Opts K) (showvars : List Q) (nvars : Nat) (s : Sol Q K) : Kind → List (Item Q K) × Sol Q K
  | .sweep => (varTable T r o (s.sweep.filter (fun kv => picked showvars kv.1)), { s with sweep := touch o (picked showvars) s.sweep })
  | .free => (varTable T r o (s.free.filter (fun kv => picked showvars kv.1)), { s with free := touch o (picked showvars) s.free })
  | .constants => (varTable T r o (s.constants.filter (fun kv => picked showvars kv.1)), { s with constants := touch o (picked showvars) s.constants })
  | .senss =>
    let o' := senssOpts o o.hide
    (varTable T r o' (s.senss.filter (fun kv => picked showvars kv.1)), { s with senss := touch o' (picked showvars) s.senss })
  | .top =>
    let keys := topKeys s.senss showvars nvars
    let o' := senssOpts o true
    (varTable T r o' (s.senss.filter (fun kv => kv.1 ∈ keys)), { s with senss := touch o' (fun k => decide (k ∈ keys)) s.senss })
  | .other => ([], s)

/-- `table` (gpkit/solution_array.py 652-723): the lines of each table in turn. -/
def Sol.table (T : Attrs Q) (r : K → K) (o : Opts K) (showvars : List Q) (nvars : Nat) : List Kind → Sol Q K → List (List (Item Q K)) × Sol Q K
  | [], s => ([], s)
  | t :: ts, s =>
    let one := s.table1 T r o showvars nvars t
    let rest := Sol.table T r o showvars nvars ts one.2
    (one.1 :: rest.1, rest.2)

/-- The tables `summary` shows (gpkit/solution_array.py 634-650). -/
def Sol.summaryKinds (showvars : List Q) (n : Nat) (s : Sol Q K) : List Kind :=
  [.sweep, .free] ++
  (if s.constants.length < n + 2 ∨ s.constants.any (fun kv => decide (kv.1 ∈ showvars)) then [.senss] else []) ++
  (if n + 2 ≤ s.constants.length then [.top] else [])

/-- `summary` (gpkit/solution_array.py 634-650). -/
def Sol.summary (T : Attrs Q) (r : K → K) (o : Opts K) (showvars : List Q) (n : Nat) (s : Sol Q K) : List (List (Item Q K)) × Sol Q K :=
  s.table T r o showvars n (s.summaryKinds showvars n)

end summary

section csv
variable [Field K] [LinearOrder K]

/-- The sides of an array that are not one. -/
def sides : Cell K → List Nat
  | .num _ => []
  | .arr a => a.shape.filter (· ≠ 1)

/-- The number of columns for values (gpkit/solution_array.py 578-591). -/
def valCols (valcols : Nat) (data : List (Q × Cell K)) : Nat :=
  let spans := data.flatMap (fun kv => sides kv.2)
  let v := match spans.min? with
    | some m => if valcols < m then 1 else valcols
    | none => valcols
  let mx := spans.foldl max 1
  if mx < v then mx else v

/-- `"," * n`. -/
def commas (n : Nat) : Str := List.replicate n ','

/-- What is written for a line of `var_table` (gpkit/solution_array.py 598-610). `fmt` is the text of a number: what is left of `"%-.4g "` or `"%-8.3g"`
after replacements and `split`. Names do not contain `" : "`, units no brackets, and labels do not begin or end with a space. -/
def csvItem (T : Attrs Q) (fmt : Option K → Str) (n : Nat) : Item Q K → Str
  | .heading m => m
  | .spacer => ['\n']
  | .entry k vals => ',' :: (T.text k ++ ',' :: (vals.flatMap (fun x => fmt x ++ [','])) ++ commas (n - vals.length) ++ T.units k ++ ',' :: T.label k ++ ['\n'])
  | .more vals => ',' :: ',' :: (vals.flatMap (fun x => fmt x ++ [','])) ++ commas (n - vals.length) ++ [',', '\n']

/-- `savecsv` (gpkit/solution_array.py 571-610): the text of the file. `header` begins the first line, `tail` ends it. -/
def csv (T : Attrs Q) (r : K → K) (fmt : Option K → Str) (header tail : Str) (valcols : Nat) (data : List (Q × Cell K)) : Str :=
  let n := valCols valcols data
  header ++ commas n ++ tail ++ '\n' :: (varTable T r { minval := 0, cols := n, msenss := fun _ => 0 } data).flatMap (csvItem T fmt n)

end csv

end Tables
end Verif
