import Verif.Model.Nomial
import Verif.Model.PyDict

/-!
# Building models: variables, constraints and default values

Models what `Model.__init__` (gpkit/constraints/model.py 42-69), `CostedConstraintSet.__init__` (gpkit/constraints/costed.py 19-26) and
`ConstraintSet.__init__` (gpkit/constraints/set.py 69-123) do with the variables, the constraints and the values they are given, and the
truth of constraints that decides whether they are used (gpkit/constraints/array.py 23-25, gpkit/nomials/math.py 545-548).

A `VarKey` is an object with an identity: equal keys can be different objects, and the default value is kept in the object and removed from
it when a model takes it over. Objects are numbers; `World.key` gives the key that decides equality. What the constraints say is left open:
`C` is any type of constraints. Bounds and elements that are no constraints are in `Model/CSet.lean`. Not modelled: vector variables with
one value for all elements (`veckey`), values that are functions or sweeps, and the lookup of keys by name (`Model/Lookup.lean`).
-/

namespace Verif
namespace Building

/-- What does not change about the objects of class `VarKey`. -/
structure World (V : Type) where
  /-- the key that decides equality and hash -/
  key : Nat → V
  /-- `key.constant` -/
  constant : Nat → Bool

/-- The values under `"value"` in the `descr` of the objects. -/
abbrev Heap (N : Type) := Nat → Option N

/-- What a user writes: constraints, lists of them and models made of them, built from the inside out. -/
inductive Expr (V N C : Type) where
  /-- a single constraint, the variables in it (`vks`), and `bool(constraint)`: `True` for inequalities, which have no `__bool__`, and
  whether both sides are the same for monomial equalities (gpkit/nomials/math.py 545-548) -/
  | con (c : C) (vks : List Nat) (truth : Bool)
  /-- an `ArrayConstraint`, and whether its operator is `"="` -/
  | arr (equal : Bool) (kids : List (Expr V N C))
  /-- a list, tuple or dict of constraints -/
  | lst (kids : List (Expr V N C))
  /-- `ConstraintSet(constraints, substitutions)` -/
  | cset (arg : Expr V N C) (substitutions : PyDict V N)
  /-- a `Model`: the variables made in `setup`, those of the cost, the constraints, the keyword `substitutions`, and the dictionary that
  `setup` returns besides constraints -/
  | mdl (setup : List Nat) (cost : List Nat) (arg : Expr V N C) (substitutions : PyDict V N) (returned : Option (PyDict V N))

/-- The attributes of a set of constraints. -/
structure Set' (V N C : Type) where
  /-- `vks` -/
  vks : List Nat
  /-- `substitutions` -/
  subs : PyDict V N
  /-- the single constraints in it, at every depth -/
  cons : List C
  /-- the length of the list the set is -/
  len : Nat

/-- A value of a Python expression. -/
inductive Val (V N C : Type) where
  /-- a single constraint -/
  | con (c : C) (vks : List Nat) (truth : Bool)
  /-- an `ArrayConstraint` -/
  | arr (equal : Bool) (kids : List (Val V N C))
  /-- a list, tuple or dict -/
  | lst (kids : List (Val V N C))
  /-- a set of constraints or model -/
  | set (s : Set' V N C)

variable {V N C : Type} [DecidableEq V]

mutual
/-- `bool(constraints)` (gpkit/constraints/array.py 23-25). Lists and sets of constraints are true if they have elements. -/
def Val.truth : Val V N C → Bool
  | .con _ _ t => t
  | .arr e kids => e && allTruth kids
  | .lst kids => !kids.isEmpty
  | .set s => s.len ≠ 0
/-- `constraints.all()`. -/
def allTruth : List (Val V N C) → Bool
  | [] => true
  | v :: vs => v.truth && allTruth vs
end

/-- What has `vks`: a single constraint or a set. -/
inductive Part (V N C : Type) where
  /-- a single constraint -/
  | con (c : C) (vks : List Nat)
  /-- a set of constraints -/
  | set (s : Set' V N C)

mutual
/-- `flatiter(constraint, "vks")`, and the constraint itself if it has `vks` (gpkit/constraints/set.py 81-88 and 45-60). -/
def Val.parts : Val V N C → List (Part V N C)
  | .con c vks _ => [.con c vks]
  | .arr _ kids => partsL kids
  | .lst kids => partsL kids
  | .set s => [.set s]
/-- The same for the elements of a list. -/
def partsL : List (Val V N C) → List (Part V N C)
  | [] => []
  | v :: vs => v.parts ++ partsL vs
end

/-- `list.__init__(self, constraints)` after the cases of dictionaries and sets (gpkit/constraints/set.py 70-75). Single constraints cannot be
iterated over. -/
def Val.elements : Val V N C → Except Err (List (Val V N C))
  | .con _ _ _ => .error .typeError
  | .arr _ kids => .ok kids
  | .lst kids => .ok kids
  | .set s => .ok [.set s]

/-- `vks.add(key)`: an equal key that is there already stays. -/
def addKey (W : World V) (s : List Nat) (i : Nat) : List Nat := if s.any (fun j => W.key j = W.key i) then s else s ++ [i]

/-- `vks.update(keys)`. -/
def addKeys (W : World V) (s t : List Nat) : List Nat := t.foldl (addKey W) s

/-- One entry of a dictionary comprehension. -/
def default1 (W : World V) (h : Heap N) (d : PyDict V N) (i : Nat) : PyDict V N :=
  match h i with
  | some w => d.set (W.key i) w
  | none => d

/-- `{k: k.value for k in vks if "value" in k.descr}`. -/
def defaults (W : World V) (h : Heap N) (vks : List Nat) : PyDict V N := vks.foldl (default1 W h) []

/-- `d.update(e)`. -/
def updated (d e : PyDict V N) : PyDict V N := e.foldl (fun d kv => d.set kv.1 kv.2) d

/-- `constraint.vks`. -/
def Part.vks : Part V N C → List Nat
  | .con _ vks => vks
  | .set s => s.vks

/-- What `_update` takes over (gpkit/constraints/set.py 117-121). -/
def Part.subs (W : World V) (h : Heap N) : Part V N C → PyDict V N
  | .con _ vks => defaults W h vks
  | .set s => s.subs

/-- The single constraints of a part. -/
def Part.cons : Part V N C → List C
  | .con c _ => [c]
  | .set s => s.cons

/-- `_update` (gpkit/constraints/set.py 114-121). -/
def update (W : World V) (h : Heap N) (s : Set' V N C) (p : Part V N C) : Set' V N C :=
  { s with vks := addKeys W s.vks p.vks, subs := updated s.subs (p.subs W h), cons := s.cons ++ p.cons }

/-- `del key.descr["value"]` for the keys that have a value in the set now (gpkit/constraints/set.py 101-108). -/
def taken (W : World V) (s : Set' V N C) (h : Heap N) : Heap N :=
  fun i => if i ∈ s.vks ∧ s.subs.contains (W.key i) ∧ W.constant i = false then none else h i

/-- The loop over the constraints (gpkit/constraints/set.py 76-95): `unique` is `unique_varkeys`. -/
def gathered (W : World V) (h : Heap N) (unique : List Nat) (els : List (Val V N C)) : Set' V N C :=
  (partsL els).foldl (update W h) ⟨addKeys W [] unique, defaults W h unique, [], els.length⟩

/-- `bonusvks` and `substitutions` (gpkit/constraints/set.py 96-100). -/
def filled (W : World V) (bonus : List Nat) (substitutions : PyDict V N) (s : Set' V N C) : Set' V N C :=
  { s with vks := addKeys W s.vks bonus, subs := updated s.subs substitutions }

/-- `ConstraintSet.__init__` (gpkit/constraints/set.py 69-112). -/
def construct (W : World V) (h : Heap N) (unique bonus : List Nat) (arg : Val V N C) (substitutions : PyDict V N) :
    Except Err (Heap N × Set' V N C) :=
  arg.elements.map (fun els =>
    (taken W (filled W bonus substitutions (gathered W h unique els)) h, filled W bonus substitutions (gathered W h unique els)))

/-- `CostedConstraintSet.__init__` (gpkit/constraints/costed.py 19-26). -/
def costed (W : World V) (h : Heap N) (unique cost : List Nat) (arg : Val V N C) (substitutions : PyDict V N) :
    Except Err (Heap N × Set' V N C) :=
  construct W h unique cost arg (updated (defaults W h cost) substitutions)

/-- `Model.__init__` (gpkit/constraints/model.py 42-69): `constraints = constraints or []`, and a dictionary returned by `setup` takes the place
of `substitutions`. -/
def model (W : World V) (h : Heap N) (setup cost : List Nat) (arg : Val V N C) (substitutions : PyDict V N) (returned : Option (PyDict V N)) :
    Except Err (Heap N × Set' V N C) :=
  costed W h setup cost (if arg.truth then arg else .lst []) (returned.getD substitutions)

mutual
/-- Running what the user wrote. -/
def eval (W : World V) : Expr V N C → Heap N → Except Err (Heap N × Val V N C)
  | .con c vks t, h => .ok (h, .con c vks t)
  | .arr e kids, h => (evalL W kids h).map (fun r => (r.1, .arr e r.2))
  | .lst kids, h => (evalL W kids h).map (fun r => (r.1, .lst r.2))
  | .cset arg subs, h => (eval W arg h).bind (fun r => (construct W r.1 [] [] r.2 subs).map (fun q => (q.1, .set q.2)))
  | .mdl setup cost arg subs ret, h =>
    (eval W arg h).bind (fun r => (model W r.1 setup cost r.2 subs ret).map (fun q => (q.1, .set q.2)))
/-- Running the elements of a list from left to right. -/
def evalL (W : World V) : List (Expr V N C) → Heap N → Except Err (Heap N × List (Val V N C))
  | [], h => .ok (h, [])
  | e :: es, h => (eval W e h).bind (fun r => (evalL W es r.1).map (fun q => (q.1, r.2 :: q.2)))
end

end Building
end Verif
