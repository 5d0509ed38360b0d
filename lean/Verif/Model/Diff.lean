import Verif.Model.Table
import Verif.Model.PyDict

/-!
# Comparing solutions

Models `unrolled_absmax`, `cast` (gpkit/solution_array.py 270-297), `almost_equal` (362-374) and the tables of `diff` (376-479). A number is an array without
axes: whether it is one of Python or of numpy, `cast` gives the same, as numpy stretches an array without axes to any shape. Not modelled: differences of the
models' texts, reading the other solution from a file, and relative differences that are infinite in the tables of `diff` (see `relDiff`).
-/

namespace Verif
namespace Diffs
open Vectors Tables
variable {Q K A B C : Type}

/-- Exceptions. -/
inductive DErr where
  /-- shapes that do not fit, or the truth of an array with many elements -/
  | valueError
  /-- a variable without sensitivity -/
  | keyError
  /-- `"%+g" % None` -/
  | typeError
deriving DecidableEq

/-- The shape of the result of numpy's elementwise functions. All shapes are reversed. -/
def joint : List Nat → List Nat → Option (List Nat)
  | [], t => some t
  | a :: s, [] => some (a :: s)
  | a :: s, b :: t =>
    match joint s t with
    | none => none
    | some u => if a = b then some (a :: u) else if a = 1 then some (b :: u) else if b = 1 then some (a :: u) else none

/-- `function(val1, val2)`, elementwise as numpy does it: shapes are aligned at their last axes. -/
def ufunc (f : A → B → C) (a : Arr A) (b : Arr B) : Except DErr (Arr C) :=
  match joint a.shape.reverse b.shape.reverse with
  | none => .error .valueError
  | some t => .ok ⟨t.reverse, fun i => f (a.at' (source a.shape.reverse i.reverse).reverse) (b.at' (source b.shape.reverse i.reverse).reverse)⟩

/-- `lessdim[add_axes]` (gpkit/solution_array.py 291-292). -/
def addAxes (d : Nat) (a : Arr A) : Arr A := ⟨a.shape ++ List.replicate d 1, fun i => a.at' (i.take a.shape.length)⟩

/-- `cast` (gpkit/solution_array.py 283-297). -/
def castV (f : A → B → C) (a : Arr A) (b : Arr B) : Except DErr (Arr C) :=
  if a.shape.length = b.shape.length then ufunc f a b
  else if a.shape.length < b.shape.length then ufunc f (addAxes (b.shape.length - a.shape.length) a) b
  else ufunc f a (addAxes (a.shape.length - b.shape.length) b)

/-- The truth of an array. -/
def truth (a : Arr Bool) : Except DErr Bool :=
  match elems a with
  | [] => .ok false
  | [b] => .ok b
  | _ => .error .valueError

/-- What is compared of a solution. -/
structure Soln (Q K : Type) where
  /-- `self["variables"]` -/
  vars : PyDict Q (Arr (Option K))
  /-- `self["sensitivities"]["variables"]` -/
  senss : PyDict Q (Arr (Option K))

/-- A value as tables see it. -/
def toCell (a : Arr (Option K)) : Cell K := if a.shape = [] then .num (a.at' []) else .arr a

section
variable [Field K] [LinearOrder K]

/-- `abs(x/y - 1) >= reltol`. Nonzero numbers over zero are infinite, zero over zero is not a number, which is not `>=` anything. -/
def relFar (reltol : K) : Option K → Option K → Bool
  | some x, some y => if y = 0 then decide (x ≠ 0) else decide (reltol ≤ |x / y - 1|)
  | _, _ => false

/-- `abs(x - y) >= abstol`. -/
def absFar (abstol : K) : Option K → Option K → Bool
  | some x, some y => decide (abstol ≤ |x - y|)
  | _, _ => false

/-- `100*(x/y - 1)`. Zero over zero is not a number; neither is, in this model, another number over zero. -/
def relDiff : Option K → Option K → Option K
  | some x, some y => if y = 0 then none else some (100 * (x / y - 1))
  | _, _ => none

/-- `x - y`. -/
def absDiff : Option K → Option K → Option K
  | some x, some y => some (x - y)
  | _, _ => none

/-- `np.abs(val).max()`: not a number if one of the elements is none. An array without elements has no greatest one, which raises; here it counts as not a
number. -/
def maxAbs : List (Option K) → Option K
  | [] => none
  | [x] => x.map (fun x => |x|)
  | x :: l =>
    match x, maxAbs l with
    | some x, some m => some (max |x| m)
    | _, _ => none

/-- The loop of `unrolled_absmax` (gpkit/solution_array.py 272-276); comparisons with what is not a number are false. -/
def absmaxLoop : K → Option (Cell K) → List (Cell K) → Option (Cell K)
  | _, final, [] => final
  | est, final, v :: vs =>
    match maxAbs v.entries with
    | none => absmaxLoop est final vs
    | some m => if est ≤ m then absmaxLoop m (some v) vs else absmaxLoop est final vs

/-- `unrolled_absmax` (gpkit/solution_array.py 270-280): `np.argmax` gives the first place of the greatest element. Without values it is `None`. -/
def absmax (vs : List (Cell K)) : Option K :=
  match absmaxLoop 0 none vs with
  | none => none
  | some v => (v.entries.find? (fun x => decide (x.map (fun x => |x|) = maxAbs v.entries))).join

variable [DecidableEq Q]

/-- The loop of `almost_equal` (gpkit/solution_array.py 368-373). -/
def almostLoop (reltol abstol : K) (s o : Soln Q K) : List Q → Except DErr Bool
  | [] => .ok true
  | k :: ks =>
    match s.vars.get? k, o.vars.get? k with
    | some x, some y =>
      match (castV (relFar reltol) x y).bind truth with
      | .error e => .error e
      | .ok true => .ok false
      | .ok false =>
        match s.senss.get? k, o.senss.get? k with
        | some u, some v =>
          match (ufunc (absFar abstol) u v).bind truth with
          | .error e => .error e
          | .ok true => .ok false
          | .ok false => almostLoop reltol abstol s o ks
        | _, _ => .error .keyError
    | _, _ => .error .keyError

/-- `almost_equal` (gpkit/solution_array.py 362-374). The set of this solution's variables is gone through in the given order. -/
def almostEqual (order : List Q) (reltol abstol : K) (s o : Soln Q K) : Except DErr Bool :=
  if (∀ k ∈ s.vars.keys, k ∈ o.vars.keys) ∧ ∀ k ∈ o.vars.keys, k ∈ s.vars.keys then almostLoop reltol abstol s o order else .ok false

/-- `{vk: cast(f, svars[vk], ovars[vk]) for vk in sharedvks}` (gpkit/solution_array.py 444-445, 455 and 467-468), the set in the given order. -/
def deltas (f : Option K → Option K → Option K) (s o : PyDict Q (Arr (Option K))) : List Q → Except DErr (List (Q × Cell K))
  | [] => .ok []
  | k :: ks =>
    match s.get? k, o.get? k with
    | some x, some y =>
      match castV f x y with
      | .error e => .error e
      | .ok d => (deltas f s o ks).map ((k, toCell d) :: ·)
    | _, _ => .error .keyError

/-- What is left of arrays after the table: values that are not shown are blanked (gpkit/solution_array.py 782-783). -/
def after (o : Opts K) (data : List (Q × Cell K)) : List (Cell K) := data.map (fun kv => if kv.2.below o.minval then kv.2 else kv.2.hidden o)

/-- A table of `diff` (gpkit/solution_array.py 446-453, 456-463 and 469-476): its lines, and the largest difference if there are none. -/
def section' (T : Attrs Q) (r : K → K) (o : Opts K) (data : List (Q × Cell K)) : Except DErr (List (Item Q K) × Option K) :=
  if data.isEmpty then .ok ([], none)
  else
    let lines := varTable T r o data
    if lines.isEmpty then
      match absmax (after o data) with
      | none => .error .typeError
      | some x => .ok ([], some x)
    else .ok (lines, none)

/-- What `diff` tells about variables. -/
structure Report (Q K : Type) where
  /-- variables of this solution which are not in the argument -/
  missing : List Q
  /-- variables of the argument which are not in this solution -/
  extra : List Q
  /-- relative differences -/
  rel : Option (List (Item Q K) × Option K)
  /-- absolute differences -/
  abs : Option (List (Item Q K) × Option K)
  /-- differences of sensitivities -/
  sens : Option (List (Item Q K) × Option K)

/-- Arguments of `diff`. -/
structure Args (Q K : Type) where
  /-- `showvars`, as keys; all variables if there are none -/
  showvars : List Q := []
  /-- `reldiff` -/
  reldiff : Bool := true
  /-- `reltol`, in percent -/
  reltol : K
  /-- `absdiff` -/
  absdiff : Bool := false
  /-- `abstol` -/
  abstol : K
  /-- `senssdiff` -/
  senssdiff : Bool := false
  /-- `sensstol` -/
  sensstol : K
  /-- arguments of the tables, of which some are replaced -/
  table : Opts K

/-- `tableargs` and `minval` (gpkit/solution_array.py 406-411). -/
def Args.opts (a : Args Q K) (minval : K) : Opts K := { a.table with minval := minval, hide := true, byvals := true }

/-- `svks` and `ovks` (gpkit/solution_array.py 421-427). -/
def Args.keys (a : Args Q K) (vars : PyDict Q (Arr (Option K))) : List Q :=
  if a.showvars = [] then vars.keys else a.showvars.filter (fun k => decide (k ∈ vars.keys))

/-- A table that is asked for. -/
def asked (T : Attrs Q) (r : K → K) (o : Opts K) (want : Bool) (data : Except DErr (List (Q × Cell K))) :
    Except DErr (Option (List (Item Q K) × Option K)) :=
  if want then (data.bind (section' T r o)).map some else .ok none

/-- `diff` (gpkit/solution_array.py 377-479). `shared` is the set of shared variables in the order it is gone through. -/
def diff (T : Attrs Q) (r : K → K) (a : Args Q K) (shared : List Q) (s o : Soln Q K) : Except DErr (Report Q K) :=
  (asked T r (a.opts a.reltol) a.reldiff (deltas relDiff s.vars o.vars shared)).bind fun rel =>
    (asked T r (a.opts a.abstol) a.absdiff (deltas absDiff s.vars o.vars shared)).bind fun abs =>
      (asked T r (a.opts a.sensstol) a.senssdiff (deltas absDiff s.senss o.senss shared)).bind fun sens =>
        .ok ⟨(a.keys s.vars).filter (fun k => decide (k ∉ a.keys o.vars)), (a.keys o.vars).filter (fun k => decide (k ∉ a.keys s.vars)), rel, abs, sens⟩

end

end Diffs
end Verif
