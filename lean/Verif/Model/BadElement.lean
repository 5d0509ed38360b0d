import Verif.Model.CSet

/-!
# Elements of sets by key, and the error for unusable elements

Models `ConstraintSet.__getitem__` for keys and positions (gpkit/constraints/set.py 69-75, 125-129), `badelement` (332-347) and the loop of
`__init__` with the exceptions that it raises (80-95).

The message is modelled by what it says: the element, its place and the cause. Not modelled: the wording, the hint for bools, the names of
variables as keys (130) and keys other than numbers and strings.
-/

namespace Verif
namespace CSet
variable {V K : Type} [DecidableEq V] [Field K] [LinearOrder K]

/-- A key of a dict of constraints. -/
inductive CKey where
  /-- a whole number -/
  | int (i : Int)
  /-- a string -/
  | name (s : List Char)
deriving DecidableEq

/-- `self.idxlookup` (gpkit/constraints/set.py 72), for the keys of a dict, which are different; empty for a list. -/
def idxlookup (keys : List CKey) : PyDict CKey Nat := keys.zipIdx

/-- `list.__getitem__` for a whole number. -/
def listGet {α : Type} (l : List α) (i : Int) : Except Err α :=
  match (if i < 0 then (if i + l.length < 0 then none else l[(i + l.length).toNat]?) else l[i.toNat]?) with
  | some a => .ok a
  | none => .error .indexError

/-- `ConstraintSet.__getitem__` (gpkit/constraints/set.py 125-129). Names that are no keys are names of variables (130), here a `KeyError`. -/
def getitem {α : Type} (keys : List CKey) (cns : List α) (k : CKey) : Except Err α :=
  match PyDict.get? (idxlookup keys) k with
  | some i => listGet cns i
  | none =>
    match k with
    | .int i => listGet cns i
    | .name _ => .error .keyError

/-- Where an element is said to be. -/
inductive Place (α : Type) where
  /-- `"the only constraint"` -/
  | only
  /-- `"at the start, before %s"` -/
  | start (next : α)
  /-- `"at the end, after %s"` -/
  | last (prev : α)
  /-- `"between %s and %s"` -/
  | between (prev next : α)

mutual
/-- Whether `repr(o)` returns. That of a `ConstraintSet` with elements asks for `self.vks`, which is set in `__init__`
(gpkit/constraints/set.py 196-202, 155-160); lists and arrays ask for those of their elements. -/
def reprOK : Obj V K → Bool
  | .con _ => true
  | .cset _ _ _ => true
  | .raw kids => kids.isEmpty
  | .lst kids => reprOKL kids
  | .arr kids => reprOKL kids
  | .bad => true
/-- The same for all elements. -/
def reprOKL : List (Obj V K) → Bool
  | [] => true
  | o :: os => reprOK o && reprOKL os
end

/-- Whether `str(o)` returns. That of a `ConstraintSet` looks for names that collide and so asks for `self.vks`
(gpkit/repr_conventions.py 177-179, gpkit/constraints/set.py 204-220); that of other containers is their `repr`. -/
def strOK : Obj V K → Bool
  | .raw _ => false
  | o => reprOK o

/-- `"%s" % cns[j]`: the element, if its text can be made. -/
def shown (keys : List CKey) (cns : List (Obj V K)) (j : Int) : Except Err (Obj V K) :=
  (getitem keys cns (.int j)).bind (fun o => if strOK o then .ok o else .error .attributeError)

/-- `loc` of `badelement` (gpkit/constraints/set.py 336-343). -/
def place (keys : List CKey) (cns : List (Obj V K)) (i : Nat) : Except Err (Place (Obj V K)) :=
  if cns.length = 1 then .ok .only
  else if i = 0 then (shown keys cns (i + 1)).map .start
  else if i = cns.length - 1 then (shown keys cns (i - 1)).map .last
  else (shown keys cns (i - 1)).bind (fun p => (shown keys cns (i + 1)).map (.between p))

/-- What the message says. -/
structure Complaint (V K : Type) where
  /-- the element -/
  elem : Obj V K
  /-- its place -/
  place : Place (Obj V K)
  /-- whether it ends with `" It had not yet been initialized!"` -/
  uninit : Bool

/-- `badelement` (gpkit/constraints/set.py 332-347). -/
def badelement (keys : List CKey) (cns : List (Obj V K)) (i : Nat) (o : Obj V K) (uninit : Bool) : Except Err (Complaint V K) :=
  (place keys cns i).bind (fun p => if reprOK o then .ok ⟨o, p, uninit⟩ else .error .attributeError)

/-- Whether the complaint is that of line 92, for a set that is not initialised. -/
def isRaw : Obj V K → Bool
  | .raw _ => true
  | _ => false

/-- The loop of `__init__` from the `i`-th element (gpkit/constraints/set.py 80-93). An exception is its type and, if it is the one made by
`badelement`, what it says. -/
def initLoop (keys : List CKey) (cns : List (Obj V K)) : Nat → List (Obj V K) → St V → Except (Err × Option (Complaint V K)) (St V)
  | _, [], s => .ok s
  | i, o :: os, s =>
    match init1 o s with
    | .ok t => initLoop keys cns (i + 1) os t
    | .error _ =>
      match badelement keys cns i o (isRaw o) with
      | .ok c => .error (.valueError, some c)
      | .error e => .error (e, none)

/-- `ConstraintSet.__init__` (gpkit/constraints/set.py 69-112), with its exceptions. -/
def construct (keys : List CKey) (cns : List (Obj V K)) (own : List V) (fixed : V → Bool) :
    Except (Err × Option (Complaint V K)) (St V) := (initLoop keys cns 0 cns {}).map (finish own fixed)

end CSet
end Verif
