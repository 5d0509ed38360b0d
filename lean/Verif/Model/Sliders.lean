import Mathlib.Algebra.Order.Field.Basic
import Verif.Model.Lookup

/-!
# Sliders for the constants of a model

Models `modelinteract` (gpkit/interactive/widgets.py 10-92): which sliders are made, and what moving them does to the substitutions of the model.

Simplifications: constants with a slider are scalars, the elements of vectors are not. What solving and displaying does is not part of the model. A slider is
what its constructor is given.
-/

namespace Verif
namespace Sliders
open Lookup

/-- A substitution: a number, a sweep over a list or with a function, or anything else. -/
inductive Val (K : Type) where
  /-- a number -/
  | num (x : K)
  /-- `("sweep", values)` -/
  | sweep (vs : List K)
  /-- `("sweep", function)` -/
  | sweepFn
  /-- an array or a function -/
  | other
deriving DecidableEq

/-- What is given as the range of a slider: nothing, some numbers, or an object. -/
inductive Rng (K : Type) where
  /-- `None` -/
  | none
  /-- a tuple -/
  | vals (l : List K)
  /-- a slider -/
  | obj
deriving DecidableEq

/-- Exceptions. -/
inductive SErr where
  | keyError
  | valueError
  | attributeError
  | typeError
  | indexError
  | notModelled
deriving DecidableEq

/-- A slider (gpkit/interactive/widgets.py 60-64). -/
structure Slider (A K : Type) where
  /-- `varkey` -/
  key : A
  /-- its lower end -/
  min : K
  /-- its upper end -/
  max : K
  /-- the distance of two positions -/
  step : K
  /-- where it is -/
  value : K
deriving DecidableEq

section
variable {A N I K : Type} [DecidableEq A] [DecidableEq N]

/-- `k in model.substitutions` (gpkit/interactive/widgets.py 37). -/
def inSubs (E : Env A N I) (subs : PyDict A (Val K)) (s : KeySet A N) : MapKey A N → KeySet A N × Bool
  | .key a => (s, subs.contains a)
  | .str n => subsContains E (fun a i => i.isNone && subs.contains a) s n

/-- What the loop over `ranges` changes: the keys of the model, `ranges` and `slider_vars`. -/
structure Coll (A N K : Type) where
  /-- `model.varkeys` -/
  varkeys : KeySet A N
  /-- `ranges` -/
  ranges : PyDict (MapKey A N) (Rng K)
  /-- `slider_vars` -/
  vars : List A

/-- A round of the loop over `ranges` (gpkit/interactive/widgets.py 37-41). -/
def rangeStep (E : Env A N I) (subs : PyDict A (Val K)) (c : Coll A N K) (k : MapKey A N) : Coll A N K :=
  let i := inSubs E subs c.varkeys k
  if i.2 then
    let g := getItem E i.1 k
    let found := E.ord g.2
    let rs := found.foldl (fun rs a => rs.set (.key a) ((rs.get? k).getD .none)) c.ranges
    ⟨g.1, rs.del k, found.foldl add c.vars⟩
  else { c with varkeys := i.1 }

/-- The ranges and the variables that get sliders (gpkit/interactive/widgets.py 31-43). -/
def collect (E : Env A N I) (subs : PyDict A (Val K)) (s : KeySet A N) (ranges : PyDict (MapKey A N) (Rng K)) : Coll A N K :=
  if ranges = [] then ⟨s, [], subs.keys⟩
  else
    let c := ranges.keys.foldl (rangeStep E subs) ⟨s, ranges, []⟩
    { c with vars := E.ord c.vars }

variable [Field K]

/-- The ends of a slider: twice and half the value if there is no range (gpkit/interactive/widgets.py 54-59). Line 55 asks whether the value, by now a number, is a
sweep; it is not. -/
def ends (ranges : PyDict (MapKey A N) (Rng K)) (k : A) (x : K) : Except SErr (K × K) :=
  if ranges = [] then .ok (x / 2, x * 2)
  else
    match ranges.get? (.key k) with
    | none => .error .keyError
    | some .none => .ok (x / 2, x * 2)
    | some (.vals []) => .ok (x / 2, x * 2)
    | some (.vals [lo, hi]) => .ok (lo, hi)
    | some (.vals _) => .error .valueError
    | some .obj => .error .typeError

/-- The slider of a variable (gpkit/interactive/widgets.py 54-64). -/
def slider (ranges : PyDict (MapKey A N) (Rng K)) (k : A) (x : K) : Except SErr (Slider A K) :=
  match ends ranges k x with
  | .error e => .error e
  | .ok p => .ok ⟨k, p.1, p.2, (p.2 - p.1) / 24, x⟩

/-- A round of the loop over the variables (gpkit/interactive/widgets.py 44-65): the substitutions of the model and the sliders afterwards. `str` is the text of a
variable. -/
def makeStep (str : A → N) (ranges : PyDict (MapKey A N) (Rng K)) (a : PyDict A (Val K) × PyDict N (Slider A K)) (k : A) :
    Except SErr (PyDict A (Val K) × PyDict N (Slider A K)) :=
  match a.1.get? k with
  | none => .error .keyError
  | some .other => .ok a
  | some .sweepFn => .error .typeError
  | some (.sweep []) => .error .indexError
  | some (.sweep (x :: _)) => (slider ranges k x).map (fun w => (a.1.set k (.num x), a.2.set (str k) w))
  | some (.num x) => (slider ranges k x).map (fun w => (a.1, a.2.set (str k) w))

/-- `modelinteract` up to the first solution (gpkit/interactive/widgets.py 31-65). -/
def interact (E : Env A N I) (str : A → N) (subs : PyDict A (Val K)) (s : KeySet A N) (ranges : PyDict (MapKey A N) (Rng K)) :
    KeySet A N × Except SErr (PyDict A (Val K) × PyDict N (Slider A K)) :=
  let c := collect E subs s ranges
  (c.varkeys, c.vars.foldlM (makeStep str c.ranges) (subs, []))

/-- `model.substitutions[name] = x` (gpkit/keydict.py 187-247). Where a name stands for the key `None`, `None.shape` is asked for. -/
def assign (E : Env A N I) (s : KeySet A N) (subs : PyDict A (Val K)) (n : N) (x : K) : KeySet A N × Except SErr (PyDict A (Val K)) :=
  let r := subsParse E s n
  (r.1, match r.2 with
    | .error .keyError => .error .keyError
    | .error .valueError => .error .valueError
    | .error .attributeError => .error .attributeError
    | .ok (none, _) => .error .attributeError
    | .ok (some a, none) => .ok (subs.set a (.num x))
    | .ok (some _, some _) => .error .notModelled)

/-- `model.substitutions.update(subs)` when a slider is moved: `subs` has the names and values of all sliders (gpkit/interactive/widgets.py 71-73). -/
def resolve (E : Env A N I) (s : KeySet A N) (subs : PyDict A (Val K)) : List (N × K) → KeySet A N × Except SErr (PyDict A (Val K))
  | [] => (s, .ok subs)
  | (n, x) :: l =>
    match assign E s subs n x with
    | (s, .error e) => (s, .error e)
    | (s, .ok subs) => resolve E s subs l

end
end Sliders
end Verif
