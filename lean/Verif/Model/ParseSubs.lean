import Verif.Model.Nomial

/-!
# Sorting substitutions into constants, sweeps and functions

gpkit/nomials/substitution.py and `splitsweep` (gpkit/small_scripts.py 50-59).

Simplifications: vectors have one dimension; arrays of constants hold numbers, NaNs, functions and sweeps of numbers; Python lists and arrays
of the same values are not told apart (`append_sub` converts lists).
-/

namespace Verif
namespace PS

/-- An element of a substitution. -/
inductive Cell (K F : Type) where
  /-- `nan` -/
  | nan
  /-- a number -/
  | num (k : K)
  /-- a function -/
  | fn (f : F)
  /-- `("sweep", [...])` -/
  | sweep (vs : List K)
  /-- `("sweep", function)` -/
  | sweepFn (f : F)
deriving DecidableEq, Repr

/-- A substitution as it stands in the dict. -/
inductive Sub (K F : Type) where
  /-- a single value or sweep -/
  | cell (c : Cell K F)
  /-- an array with one dimension -/
  | arr (cs : List (Cell K F))
  /-- `("sweep", array)` for an array of `rows`, each with `m` elements -/
  | sweepMat (m : Nat) (rows : List (List K))
deriving DecidableEq, Repr

/-- What is put in one of the three dicts. -/
inductive Out (K F : Type) where
  /-- `nan` -/
  | nan
  /-- a number -/
  | num (k : K)
  /-- a function -/
  | fn (f : F)
  /-- several numbers -/
  | list (vs : List K)
  /-- an array of values that are not all numbers, for a scalar variable -/
  | arr (cs : List (Cell K F))
  /-- an array of arrays, for a scalar variable -/
  | mat (m : Nat) (rows : List (List K))
deriving DecidableEq, Repr

/-- A variable key: the vector or scalar and the index. -/
abbrev Key (S : Type) := S × Option Nat

/-- The local variable `sub` of `append_sub`, after a whole sweep is unpacked. -/
inductive Local (K F : Type) where
  /-- no shape and no length: NaN, a number or a function -/
  | one (o : Out K F)
  /-- the values of a sweep -/
  | vals (vs : List K)
  /-- an array -/
  | arr (cs : List (Cell K F))
  /-- an array with two dimensions -/
  | mat (m : Nat) (rows : List (List K))

section
variable {S K F : Type} [DecidableEq S]

/-- `splitsweep(sub)` and the first lines of `append_sub` (gpkit/nomials/substitution.py 36-38). -/
def split : Sub K F → Bool × Local K F
  | .cell .nan => (false, .one .nan)
  | .cell (.num k) => (false, .one (.num k))
  | .cell (.fn f) => (false, .one (.fn f))
  | .cell (.sweep vs) => (true, .vals vs)
  | .cell (.sweepFn f) => (true, .one (.fn f))
  | .arr cs => (false, .arr cs)
  | .sweepMat m rows => (true, .mat m rows)

/-- `splitsweep(value)` for an element (gpkit/nomials/substitution.py 53-56). -/
def splitCell (sweepsub : Bool) : Cell K F → Bool × Out K F
  | .nan => (sweepsub, .nan)
  | .num k => (sweepsub, .num k)
  | .fn f => (sweepsub, .fn f)
  | .sweep vs => (true, .list vs)
  | .sweepFn f => (true, .fn f)

/-- Column `i` of an array with two dimensions. -/
def column (rows : List (List K)) (i : Nat) : Except Err (List K) :=
  rows.mapM (fun r => match r[i]? with | some k => .ok k | none => .error .indexError)

/-- The value for one key and the variable `sweepsub` afterwards (gpkit/nomials/substitution.py 40-70). -/
def valueOf (shape : S → Option Nat) (sweepsub : Bool) (sub : Local K F) (key : Key S) : Except Err (Bool × Out K F) :=
  match shape key.1 with
  | none =>
    match sub with
    | .one o => .ok (sweepsub, o)
    | .vals vs => .ok (sweepsub, .list vs)
    | .arr cs => .ok (sweepsub, .arr cs)
    | .mat m rows => .ok (sweepsub, .mat m rows)
  | some n =>
    match sub with
    | .one o => .ok (sweepsub, o)
    | .vals vs =>
      if vs.length = n then
        match key.2.bind (vs[·]?) with
        | some k => .ok (sweepsub, .num k)
        | none => .error .indexError
      else if vs.length = 1 ∨ n = 1 then .error .indexError
      else .error .valueError
    | .arr cs =>
      if cs.length = n then
        match key.2.bind (cs[·]?) with
        | some c => .ok (splitCell sweepsub c)
        | none => .error .indexError
      else if sweepsub ∧ (cs.length = 1 ∨ n = 1) then .error .indexError
      else .error .valueError
    | .mat m rows =>
      if sweepsub ∧ (m = n ∨ m = 1 ∨ n = 1) then
        match key.2 with
        | some i =>
          if i < m then (column rows i).map (fun vs => (sweepsub, .list vs)) else .error .indexError
        | none => .error .typeError
      else .error .valueError

/-- The three dicts. -/
structure Parsed (S K F : Type) where
  /-- `constants` -/
  constants : PyDict (Key S) (Out K F)
  /-- `sweep` -/
  sweep : PyDict (Key S) (Out K F)
  /-- `linkedsweep` -/
  linked : PyDict (Key S) (Out K F)
deriving DecidableEq, Repr

/-- The end of the loop (gpkit/nomials/substitution.py 71-79). `np.isnan` of several values or of a string raises. -/
def place (p : Parsed S K F) (sweepsub : Bool) (key : Key S) (value : Out K F) : Parsed S K F :=
  match value with
  | .fn f => { p with linked := p.linked.set key (.fn f) }
  | v =>
    if sweepsub then { p with sweep := p.sweep.set key v }
    else
      match v with
      | .nan => p
      | .arr [.nan] => p
      | v => { p with constants := p.constants.set key v }

/-- The loop of `append_sub` (gpkit/nomials/substitution.py 39-79) with its variable `sweepsub`. -/
def appendLoop (shape : S → Option Nat) (sub : Local K F) : Bool → List (Key S) → Parsed S K F → Except Err (Parsed S K F)
  | _, [], p => .ok p
  | sweepsub, key :: keys, p => do
    let (sweepsub, value) ← valueOf shape sweepsub sub key
    appendLoop shape sub sweepsub keys (place p sweepsub key value)

/-- `append_sub` (gpkit/nomials/substitution.py 35-79). -/
def appendSub (shape : S → Option Nat) (sub : Sub K F) (keys : List (Key S)) (p : Parsed S K F) : Except Err (Parsed S K F) :=
  appendLoop shape (split sub).2 (split sub).1 keys p

/-- `parse_subs` with a `KeyDict` (gpkit/nomials/substitution.py 18-27). `under` lists, in any order, the variables with a stored
substitution that are in the index of `varkeys`, each with its keys, in any order. Only whole vectors and scalars are stored. -/
def parseSubs (shape : S → Option Nat) (subs : S → Option (Sub K F)) (under : List (S × List (Key S))) : Except Err (Parsed S K F) :=
  under.foldlM (fun p qk => match subs qk.1 with
    | some sub => appendSub shape sub qk.2 p
    | none => .ok p) ⟨[], [], []⟩

/-- `parse_subs` with a plain dict (gpkit/nomials/substitution.py 28-32): `subs` lists its values with the keys that each of its keys
stands for. -/
def parseDict (shape : S → Option Nat) (subs : List (Sub K F × List (Key S))) : Except Err (Parsed S K F) :=
  subs.foldlM (fun p sk => appendSub shape sk.1 sk.2 p) ⟨[], [], []⟩

end

end PS
end Verif
