import Verif.Model.Table

/-! What tables of solutions are meant to show. -/

namespace Verif
namespace Tables
open Vectors
variable {Q K A : Type}

/-- The lines of an array along axis `h`: one for each index of the other axes. -/
def fibres (a : Arr A) (h : Nat) : List (List A) :=
  (indices (a.shape.eraseIdx h)).map (fun i => (List.range (a.shape.getD h 0)).map (fun j => a.at' (i.insertIdx h j)))

/-- Axis `h` is the longest that fits, the last of these if there are many. -/
def Widest (cols : Nat) (shape : List Nat) (h : Nat) : Prop :=
  ∃ d, shape[h]? = some d ∧ d ≤ cols ∧ ∀ j e : Nat, shape[j]? = some e → e ≤ cols → e < d ∨ (e = d ∧ j ≤ h)

/-- What a reader of a table sees: lines of values, each below the name of a variable, which is below the heading of a model, if any. The first two
arguments are the heading and name last seen. -/
def read : Str → Option Q → List (Item Q K) → List (Str × Option Q × List (Option K))
  | _, _, [] => []
  | _, k, .spacer :: l => read [] k l
  | _, k, .heading m :: l => read m k l
  | m, _, .entry k v :: l => (m, some k, v) :: read m (some k) l
  | m, k, .more v :: l => (m, k, v) :: read m k l

/-- The headings of a table. -/
def headings (l : List (Item Q K)) : List Str := l.filterMap (fun i => match i with
  | .heading m => some m
  | _ => none)

section
variable [Field K] [LinearOrder K]

/-- The heading below which a variable belongs. -/
def below (T : Attrs Q) (o : Opts K) (k : Q) : Str := if o.bymodel then T.model k else []

/-- A variable is shown if one of its values is above `minval` and its model is not left out. -/
def Shown (T : Attrs Q) (o : Opts K) (kv : Q × Cell K) : Prop :=
  (∃ x, some x ∈ kv.2.entries ∧ o.minval < |x|) ∧ (o.incl = [] ∨ below T o kv.1 = [] ∨ below T o kv.1 ∈ o.incl) ∧ below T o kv.1 ∉ o.excl

/-- A value as shown: blank if it is to be hidden. -/
def blank (o : Opts K) (x : Option K) : Option K := if o.hide ∧ o.minval ≠ 0 ∧ ∃ y, x = some y ∧ |y| ≤ o.minval then none else x

/-- The mean magnitude of values as shown. -/
def meanSize (o : Opts K) (v : Cell K) : K :=
  let xs := (v.entries.map (blank o)).filterMap id
  (xs.map (fun x => |x|)).sum / xs.length

/-- The order of variables. Sorted by values: models by name, in each the largest values first, up to the rounding `r`. Otherwise: the most sensitive model
first, in each numbers before arrays, then by name. -/
def Ordered (T : Attrs Q) (r : K → K) (o : Opts K) (a b : Q × Cell K) : Prop :=
  if o.byvals then below T o a.1 < below T o b.1 ∨
    (below T o a.1 = below T o b.1 ∧ r (-meanSize o a.2) ≤ r (-meanSize o b.2 + 1 / 1000000000))
  else o.msenss (below T o b.1) < o.msenss (below T o a.1) ∨ (o.msenss (below T o a.1) = o.msenss (below T o b.1) ∧
    (below T o a.1 < below T o b.1 ∨ (below T o a.1 = below T o b.1 ∧
      ((a.2.isvec = false ∧ b.2.isvec = true) ∨ (a.2.isvec = b.2.isvec ∧ T.text a.1 ≤ T.text b.1)))))

open Classical in
/-- A reader of a table finds every variable that is to be shown and is asked for exactly once, below the heading of its model, with its values, and in order;
each model has one heading. -/
def Reads (T : Attrs Q) (r : K → K) (o : Opts K) (asked : Q → Prop) (data : List (Q × Cell K)) (items : List (Item Q K)) : Prop :=
  ∃ vs : List (Q × Cell K), vs.Perm (data.filter (fun kv => decide (asked kv.1 ∧ Shown T o kv))) ∧ vs.Pairwise (Ordered T r o) ∧
    read [] none items = vs.flatMap (fun kv => (kv.2.lines o.cols).map (fun l => (below T o kv.1, some kv.1, l.map (blank o)))) ∧
    (headings items).Nodup

/-- No value is missing and `m` is their mean magnitude. -/
def MeanAbs (v : Cell K) (m : K) : Prop := ∃ xs : List K, v.entries = xs.map some ∧ m = (xs.map (fun x => |x|)).sum / xs.length

/-- Keys, shapes and elements of a dictionary. -/
def contents (data : List (Q × Cell K)) : List (Q × List Nat × List (Option K)) := data.map (fun kv => (kv.1, (match kv.2 with
  | .num _ => []
  | .arr a => a.shape), kv.2.entries))

end

/-- The text between commas. -/
def fields : Str → List Str
  | [] => [[]]
  | c :: s =>
    if c = ',' then [] :: fields s
    else match fields s with
      | [] => [[c]]
      | l :: ls => (c :: l) :: ls

/-- What a reader of a file with comma separated values sees in its rows after the first: model, name, values, units and description. An empty row ends a
model; an empty name continues a variable. The arguments are the number of columns for values, and the model and name last seen. -/
def readCsv (n : Nat) : Str → Str → List (List Str) → List (Str × Str × List Str × Str × Str)
  | _, _, [] => []
  | m, k, row :: rows =>
    if row.length = n + 4 then
      let m' := if row.getD 0 [] = [] then m else row.getD 0 []
      let k' := if row.getD 1 [] = [] then k else row.getD 1 []
      (m', k', ((row.drop 2).take n).filter (fun f => !f.isEmpty), row.getD (n + 2) [], row.getD (n + 3) []) :: readCsv n m' k' rows
    else readCsv n [] k rows

/-- A text that can be a field. -/
def Clean (s : Str) : Prop := ',' ∉ s ∧ '\n' ∉ s

/-- What a reader should see of a variable. -/
def meantCsv (T : Attrs Q) (fmt : Option K → Str) (k : Q) : List (List (Option K)) → List (Str × Str × List Str × Str × Str)
  | [] => []
  | l :: ls => (T.model k, T.text k, l.map fmt, T.units k, T.label k) :: ls.map (fun l => (T.model k, T.text k, l.map fmt, [], []))

end Tables
end Verif
