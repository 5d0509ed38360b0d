import Verif.Model.VarKey
import Verif.Model.Lookup

/-!
# Names of variables in texts and files

Models `VarKey.str_without` with all its options (gpkit/varkey.py 64-77), `name_collision_varkeys` of models (gpkit/constraints/set.py 204-210) and of
solutions (gpkit/solution_array.py 338-348), the flag `necessarylineage` that texts are made under (gpkit/constraints/set.py 212-229,
gpkit/solution_array.py 506-518 and 689-722), the cache of texts (gpkit/repr_conventions.py 83-91 and 163-164), `varnames`, `savemat` and `todataframe`
(gpkit/solution_array.py 506-562).

Simplifications: a string is the list of its characters. Keys are equal if name, lineage, index, shape and units are (see C36). The keymap of the
variables of a solution is that of a `KeySet`. Of the columns of a data frame only name, index, value and lineage are part of the model.
-/

namespace Verif
namespace Names
open VK

/-- A `VarKey`, as far as texts are concerned. -/
structure Var where
  /-- `name` -/
  name : Str
  /-- `lineage`; empty for none -/
  lineage : List (Str × Nat)
  /-- `idx`; empty for none -/
  idx : List Nat
  /-- `shape`; empty for none -/
  shape : List Nat
  /-- `unitrepr` -/
  unitrepr : Str
deriving DecidableEq, Repr

/-- What is in `excluded`. -/
structure Excl where
  /-- "lineage" -/
  lineage : Bool := false
  /-- "unnecessary lineage" -/
  unnecessary : Bool := false
  /-- "modelnums" -/
  modelnums : Bool := false
  /-- "idx" -/
  idx : Bool := false
  /-- "vec" -/
  vec : Bool := false
  /-- "units" -/
  units : Bool := false
  /-- "root" -/
  root : Bool := false
deriving DecidableEq, Repr

/-- `"%s%i" % (name, num) if (num and modelnums) else name` (gpkit/repr_conventions.py 25). -/
def piece (modelnums : Bool) (x : Str × Nat) : Str := if x.2 ≠ 0 ∧ modelnums then x.1 ++ num x.2 else x.1

/-- `lineagestr` (gpkit/repr_conventions.py 21-26). -/
def lineageStr (modelnums : Bool) (l : List (Str × Nat)) : Str := join ['.'] (l.map (piece modelnums))

/-- `str_without` (gpkit/varkey.py 64-77); `necessary` is `self.necessarylineage`. -/
def strWithout (e : Excl) (necessary : Bool) (v : Var) : Str :=
  let name := if !e.lineage && !v.lineage.isEmpty && (!e.unnecessary || necessary) then lineageStr (!e.modelnums) v.lineage ++ '.' :: v.name else v.name
  if e.idx then name
  else if !v.idx.isEmpty then name ++ idxStr v.idx
  else if !e.vec && !v.shape.isEmpty then name ++ "[:]".toList
  else name

/-- The strings in `self.keys` (gpkit/varkey.py 38-50). -/
def keys (v : Var) : List Str :=
  [v.name, strWithout { modelnums := true, vec := true } false v] ++
    if v.idx.isEmpty then [] else [strWithout { idx := true, modelnums := true } false v]

/-- What lookup uses of variables. `ord` is the order in which a set is iterated. -/
def env (ord : List Var → List Var) : Lookup.Env Var Str (List Nat) where
  keys := fun v => (if v.idx.isEmpty then [] else [.key { v with idx := [] }]) ++ (keys v).map .str
  veckey := fun v => if v.idx.isEmpty then none else some { v with idx := [] }
  idx := fun v => if v.idx.isEmpty then none else some v.idx
  ord := ord

/-- A `VarKey` as an object: several objects may be equal. -/
structure Obj where
  /-- identity -/
  id : Nat
  /-- the key -/
  var : Var
deriving DecidableEq, Repr

/-- `key.str_without(["lineage", "vec"])`. -/
def short (v : Var) : Str := strWithout { lineage := true, vec := true } false v

/-- `name_collision_varkeys` (gpkit/constraints/set.py 204-210, gpkit/solution_array.py 338-348), on the keys in the order of iteration. Looking up
a name changes the keymap. -/
def collisions (E : Lookup.Env Var Str (List Nat)) : Lookup.KeySet Var Str → List Obj → Lookup.KeySet Var Str × List Obj
  | s, [] => (s, [])
  | s, o :: l =>
    let r := Lookup.getItem E s (.str (short o.var))
    let rest := collisions E r.1 l
    (rest.1, if 1 < r.2.length then o :: rest.2 else rest.2)

/-- The objects with `descr["necessarylineage"]`. -/
abbrev Flags := List Nat

/-- `key.descr["necessarylineage"] = True` -/
def setFlag (f : Flags) (o : Obj) : Flags := if o.id ∈ f then f else o.id :: f

/-- `del key.descr["necessarylineage"]` for each key; where it is missing, KeyError. -/
def delFlags : List Obj → Flags → Except Err Unit × Flags
  | [], f => (.ok (), f)
  | o :: l, f => if o.id ∈ f then delFlags l (f.erase o.id) else (.error .keyError, f)

/-- Making a text under the flags of the keys whose names collide (gpkit/constraints/set.py 219-229, gpkit/solution_array.py 510-517 and 688-722).
Flags are not deleted if an exception is raised in between. -/
def necessarily {A : Type} (coll : List Obj) (body : Flags → Except Err A) (f : Flags) : Except Err A × Flags :=
  let f1 := coll.foldl setFlag f
  match body f1 with
  | .error e => (.error e, f1)
  | .ok a =>
    match delFlags coll f1 with
    | (.ok _, f2) => (.ok a, f2)
    | (.error e, f2) => (.error e, f2)

/-- The name of an object in a text. -/
def printName (f : Flags) (e : Excl) (o : Obj) : Str := strWithout e (o.id ∈ f) o.var

/-- The loop of `varnames` (gpkit/solution_array.py 512-515). -/
def namesDict (f : Flags) (e : Excl) (shown : List Obj) : PyDict Str Obj := shown.foldl (fun d o => d.set (printName f e o) o) []

/-- `varnames` (gpkit/solution_array.py 506-518); `shown` holds the keys that `showvars` stands for. -/
def varnames (E : Lookup.Env Var Str (List Nat)) (s : Lookup.KeySet Var Str) (objs shown : List Obj) (e : Excl) (f : Flags) :
    Except Err (PyDict Str Obj) × Flags :=
  necessarily (collisions E s objs).2 (fun f => .ok (namesDict f e (if shown.isEmpty then objs else shown))) f

/-- The default of `excluded` in `savemat` and `todataframe`. -/
def saved : Excl := { unnecessary := true, vec := true }

/-- `name.replace(".", "_")` -/
def undotted (s : Str) : Str := s.map (fun c => if c = '.' then '_' else c)

/-- The names in the dict given to scipy's `savemat` (gpkit/solution_array.py 520-526). -/
def matNames (names : PyDict Str Obj) : PyDict Str Obj := names.foldl (fun d no => d.set (undotted no.1) no.2) []

/-- The indices `np.nditer` runs through for an array with the given shape, the last one fastest. -/
def indices : List Nat → List (List Nat)
  | [] => [[]]
  | n :: l => (List.range n).flatMap (fun i => (indices l).map (i :: ·))

/-- A row of a data frame. -/
structure Row (K : Type) where
  /-- "Name" -/
  name : Str
  /-- "Index": empty for scalars -/
  idx : List Nat
  /-- "Value" -/
  value : K
  /-- "Lineage" -/
  lineage : List (Str × Nat)

/-- The rows for one key (gpkit/solution_array.py 537-561). `value k` is the shape and the elements of `self["variables"][k]`. -/
def rowsOf {K : Type} (value : Var → List Nat × (List Nat → K)) (o : Obj) : List (Row K) :=
  if o.var.shape.isEmpty then [⟨o.var.name, [], (value o.var).2 [], o.var.lineage⟩]
  else (indices (value o.var).1).map (fun i => ⟨o.var.name, i, (value o.var).2 i, o.var.lineage⟩)

/-- `todataframe` (gpkit/solution_array.py 528-562); `sort` is `sorted` by name. -/
def todataframe {K : Type} (E : Lookup.Env Var Str (List Nat)) (s : Lookup.KeySet Var Str) (sort : List (Str × Obj) → List (Str × Obj))
    (value : Var → List Nat × (List Nat → K)) (objs shown : List Obj) (e : Excl) (f : Flags) : Except Err (List (Row K)) × Flags :=
  match varnames E s objs shown e f with
  | (.ok d, f) => (.ok ((sort d).flatMap (fun no => rowsOf value no.2)), f)
  | (.error x, f) => (.error x, f)

/-- `parse_ast` with `cached_strs` (gpkit/repr_conventions.py 83-91 and 163-164): the text is kept under `excluded` with "units" added. -/
def cachedText (cache : PyDict Excl Str) (e : Excl) (text : Excl → Str) : PyDict Excl Str × Str :=
  match cache.get? e with
  | some s => (cache, s)
  | none => (cache.set { e with units := true } (text { e with units := true }), text { e with units := true })

/-- The text of a sum of two variables (gpkit/repr_conventions.py 92-98 and 53-70). -/
def sumText (f : Flags) (x y : Obj) (e : Excl) : Str := printName f e x ++ " + ".toList ++ printName f e y

end Names
end Verif
