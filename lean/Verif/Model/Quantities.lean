import Verif.Model.KeyDict

/-!
# Values with units

Models `clean_value` (gpkit/keydict.py 11-22), the places where `KeyDict.__setitem__` calls it (lines 203 and 245), and reading with units by `KeyDict.__call__` (lines
158-166). The rest of a `KeyDict` is that of `KD`.

Simplifications: magnitudes are numbers of the field `K` and not of Python's `int`; units are multiples of each other (no offsets, as those of temperatures).
-/

namespace Verif
namespace KD

/-- A single value the user writes. -/
inductive Given (D K F : Type) where
  /-- without units: a number, NaN, a function or a sweep -/
  | cell (c : Cell K F)
  /-- a pint Quantity -/
  | qty (x : K) (u : UnitQ D K)
  /-- a monomial without variables, with or without units -/
  | mono (x : K) (u : Option (UnitQ D K))

/-- A value the user writes: a single one, a list, or a Quantity that is an array. -/
inductive GivenIn (D K F : Type) where
  /-- a single value -/
  | one (g : Given D K F)
  /-- a list -/
  | list (gs : List (Given D K F))
  /-- an array with units -/
  | qarr (xs : List K) (u : UnitQ D K)

section
variable {S N D K F : Type} [DecidableEq S] [DecidableEq N] [AddCommGroup D] [DecidableEq D] [Field K]

/-- `value.to(key.units or "dimensionless").magnitude` (gpkit/keydict.py 21). -/
def toKey (ku : Option (UnitQ D K)) (x : K) (u : UnitQ D K) : Except Err K := (u.convert (ku.getD dimless)).map (x * ·)

/-- `clean_value` (gpkit/keydict.py 11-22); `.value` of a monomial without variables is a Quantity if it has units (gpkit/nomials/core.py 97-98, gpkit/nomials/data.py
36-42). -/
def clean (ku : Option (UnitQ D K)) : Given D K F → Except Err (Cell K F)
  | .cell c => .ok c
  | .qty x u => (toKey ku x u).map .num
  | .mono x none => .ok (.num x)
  | .mono x (some u) => (toKey ku x u).map .num

/-- `kd[key] = value` (gpkit/keydict.py 187-247): what is given is cleaned before anything else, elements of lists after the key is entered. -/
def setGiven (E : Env S N K) (units : S → Option (UnitQ D K)) (s : St S N K F) (key : Key S N) (v : GivenIn D K F) : Res S N K F Unit :=
  match key, v with
  | .whole k, .one g =>
    match clean (units k) g with
    | .ok c => setItem E s (.whole k) (.one c)
    | .error e => (s, .error e)
  | .elem k i, .one g =>
    match clean (units k) g with
    | .ok c => setItem E s (.elem k i) (.one c)
    | .error e => (s, .error e)
  | .whole k, .qarr xs u =>
    match xs.mapM (fun x => toKey (units k) x u) with
    | .ok ys => setItem E { s with heap := s.heap ++ [⟨.f64, ys.map .num⟩] } (.whole k) (.arr s.heap.length)
    | .error e => (s, .error e)
  | .whole k, .list gs =>
    match gs.mapM (clean (units k)) with
    | .ok cs => setItem E s (.whole k) (.list cs false)
    | .error e => (enter s E k false (.list [] false), .error e)
  | _, _ => (s, .error .notModelled)

/-- What `kd(key)` returns: a value with units, or a dict of such. -/
inductive United (S D K F : Type) where
  /-- a single value -/
  | one (v : Val K F) (u : UnitQ D K)
  /-- a dict -/
  | many (l : List (S × Val K F × UnitQ D K))
deriving DecidableEq

/-- `kd(key)` (gpkit/keydict.py 158-166). -/
def call (E : Env S N K) (units : S → Option (UnitQ D K)) (s : St S N K F) (key : Key S N) : Res S N K F (United S D K F) :=
  (getItem E s key).bind (fun s got =>
    match got with
    | .many l => (s, .ok (.many (l.map (fun p => (p.1, p.2, (units p.1).getD dimless)))))
    | .one v =>
      match key with
      | .whole k => (s, .ok (.one v ((units k).getD dimless)))
      | .elem k _ => (s, .ok (.one v ((units k).getD dimless)))
      | .str n =>
        match s.dict.keymap.get? (.str n) with
        | some [.var k] => (s, .ok (.one v ((units k).getD dimless)))
        | _ => (s, .error .valueError))

end
end KD
end Verif
