import Verif.Model.Nomial

/-!
# Vector variables and views

Models the values of `ArrayVariable` (gpkit/nomials/variables.py 109-178), `veclinkedfn` (181-186), `VectorizableVariable` (189-195) and
`ConstraintSetView` (gpkit/constraints/set.py 290-328). An array is its shape with a function from multi-indices. Names and other parts of the
description are not part of the model, nor are values with units.
-/

namespace Verif
namespace Vectors

/-- A numpy array. -/
structure Arr (A : Type) where
  /-- `shape` -/
  shape : List Nat
  /-- the element at a multi-index, of interest inside the shape -/
  at' : List Nat → A

/-- Exceptions. -/
inductive VErr where
  /-- `ValueError` -/
  | valueError
  /-- `IndexError` -/
  | indexError
deriving DecidableEq

/-- `value`, as given to a variable. -/
inductive Value (K C : Type) where
  /-- a Python number, which has no `shape` -/
  | num (k : K)
  /-- a list, maybe of lists, which has no `shape`; what `np.array` makes of it -/
  | list (a : Arr K)
  /-- a numpy array -/
  | array (a : Arr K)
  /-- a function of the solution -/
  | fn (f : C → Arr K)

/-- `value` of an element. -/
inductive Elem (K C : Type) where
  /-- none -/
  | free
  /-- a number -/
  | num (k : K)
  /-- the function of `veclinkedfn` -/
  | linked (f : C → Except VErr (Arr K))

section
variable {A K C : Type}

/-- Multi-indices in the order of `np.nditer`. -/
def indices : List Nat → List (List Nat)
  | [] => [[]]
  | n :: s => (List.range n).flatMap (fun k => (indices s).map (k :: ·))

/-- Whether sides, from the last axis on, fit for numpy's broadcasting. Both shapes are reversed. -/
def fits : List Nat → List Nat → Bool
  | [], _ => true
  | _ :: _, [] => false
  | a :: s, b :: t => (a == b || a == 1) && fits s t

/-- The index in the smaller array. All reversed. -/
def source : List Nat → List Nat → List Nat
  | a :: s, i :: l => (if a = 1 then 0 else i) :: source s l
  | _, _ => []

/-- `np.broadcast_to(a, t)`. -/
def broadcastTo (a : Arr A) (t : List Nat) : Except VErr (Arr A) :=
  if fits a.shape.reverse t.reverse then .ok ⟨t, fun i => a.at' (source a.shape.reverse i.reverse).reverse⟩ else .error .valueError

/-- `a.T`. -/
def transpose (a : Arr A) : Arr A := ⟨a.shape.reverse, fun i => a.at' i.reverse⟩

/-- An array with one element and no axes. -/
def scalar (k : A) : Arr A := ⟨[], fun _ => k⟩

/-- `np.full(shape, a, "f")`. Lists with more axes than `shape` are taken to raise; numpy drops leading axes of length one. -/
def full (r32 : K → K) (shape : List Nat) (a : Arr K) : Except VErr (Arr K) := broadcastTo ⟨a.shape, fun i => r32 (a.at' i)⟩ shape

/-- `a[i]` for a tuple of integers: too long or out of bounds raises, shorter gives the array behind it. -/
def item (a : Arr A) (i : List Nat) : Except VErr (Arr A) :=
  if i.length ≤ a.shape.length ∧ ∀ x ∈ i.zip a.shape, x.1 < x.2 then .ok ⟨a.shape.drop i.length, fun l => a.at' (i ++ l)⟩ else .error .indexError

/-- The array of values before the check of its shape (gpkit/nomials/variables.py 141-148). -/
def values (r32 : K → K) (shape vec : List Nat) : Value K C → Except VErr (Option (Arr K))
  | .fn _ => .ok none
  | .num k => if vec ≠ [] then (full r32 shape (scalar k)).map some else .ok (some (scalar k))
  | .list a => if vec ≠ [] then (full r32 shape a).map some else .ok (some a)
  | .array a => if vec ≠ [] then (broadcastTo a shape.reverse).map (fun b => some (transpose b)) else .ok (some a)

/-- The shape of the value is compared with that of the vector (gpkit/nomials/variables.py 149-151). -/
def checked (shape : List Nat) : Option (Arr K) → Except VErr (Option (Arr K))
  | none => .ok none
  | some a => if a.shape ≠ shape then .error .valueError else .ok (some a)

/-- `veclinkedfn` (gpkit/nomials/variables.py 181-186). -/
def linkedFn (f : C → Arr K) (i : List Nat) : C → Except VErr (Arr K) := fun c => item (f c) i

/-- `value` of the element with an index (gpkit/nomials/variables.py 169-173). -/
def elem (v : Option (Value K C)) (a : Option (Arr K)) (i : List Nat) : Elem K C :=
  match v, a with
  | some (.fn f), _ => .linked (linkedFn f i)
  | some _, some a => .num (a.at' i)
  | _, _ => .free

/-- `ArrayVariable.__new__` (gpkit/nomials/variables.py 113-118 and 135-174): indices and values of the elements. `own` is the shape given, `vec` is
`Vectorize.vectorization`. `np.nditer` refuses arrays without elements. -/
def arrayVariable (r32 : K → K) (own vec : List Nat) (v : Option (Value K C)) : Except VErr (List (List Nat × Elem K C)) :=
  let shape := own ++ vec
  let a : Except VErr (Option (Arr K)) := match v with
    | none => .ok none
    | some v => values r32 shape vec v
  match a with
  | .error e => .error e
  | .ok a =>
    match checked shape a with
    | .error e => .error e
    | .ok a => if indices shape = [] then .error .valueError else .ok ((indices shape).map (fun i => (i, elem v a i)))

/-- `view[index]` (gpkit/constraints/set.py 300-305); `ConstraintSetView(value, index)` of an inner set keeps the index (lines 316-317). -/
def viewIndex (self index : List Nat) : List Nat := index ++ self

/-- An attribute that is an array, seen through a view (gpkit/constraints/set.py 322-328). -/
def viewAttr (a : Arr A) (index : List Nat) : Except VErr (Arr A) :=
  if a.shape.length > index.length then
    let new := a.shape.length - index.length
    if ∀ x ∈ index.zip (a.shape.drop new), x.1 < x.2 then .ok ⟨a.shape.take new, fun l => a.at' (l ++ index)⟩ else .error .indexError
  else item a index

end
end Vectors
end Verif
