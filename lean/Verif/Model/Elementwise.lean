import Verif.Model.Array
import Verif.Model.Vector
import Verif.Model.Written
import Verif.Spec.Elementwise

/-!
# Arithmetic and comparisons of arrays

Models the operators of `NomialArray` (gpkit/nomials/array.py 50-147), `array_constraint` (23-36), and what `Signomial.__mul__` and `__sub__` do with
arrays (gpkit/nomials/math.py 195-202 and 254-258), together with the parts of numpy they rely on: broadcasting, arithmetic element by element, the
type of `np.vectorize`'s result, which is that of the first element, and the truth values that numpy's own comparisons return.

An array is its `dtype`, its class, its shape and its elements in the order of `.flat`. Simplifications: arrays without axes do not occur (an
operation with a `NomialArray` made from a nomial in `Signomial.__mul__` excepted); arrays of numbers do not overflow, and where they would hold `inf` or
`nan` nothing is modelled; pint's quantities are no operands of arrays; elements of object arrays that are numbers are Python's, not numpy's.
-/

namespace Verif
namespace Elementwise
open Compare Written

/-- `dtype` of an array. -/
inductive Kind where
  | int | float | object
  deriving DecidableEq, Repr

/-- An array. -/
structure NArr (A : Type) where
  /-- `dtype` -/
  kind : Kind
  /-- whether it is a `NomialArray` -/
  nomial : Bool
  /-- `shape` -/
  shape : List Nat
  /-- the elements, the last index changing fastest -/
  elts : List A

/-- Which of the elements an index stands for. -/
def position : List Nat → List Nat → Nat
  | _ :: s, i :: l => i * s.prod + position s l
  | _, _ => 0

/-- The shape two arrays have in common, in numpy's broadcasting; all shapes are reversed. -/
def common : List Nat → List Nat → Option (List Nat)
  | [], t => some t
  | a :: s, [] => some (a :: s)
  | a :: s, b :: t =>
    if a = b ∨ b = 1 then (common s t).map (a :: ·) else if a = 1 then (common s t).map (b :: ·) else none

section
variable {A B : Type}

/-- The element that stands at the index of a larger array. -/
def NArr.pick (a : NArr A) (i : List Nat) : Option A :=
  a.elts[position a.shape (Vectors.source a.shape.reverse i.reverse).reverse]?

/-- A function of two elements. -/
def pair (f : A → A → Except Err B) : Option A → Option A → Except Err B
  | some x, some y => f x y
  | _, _ => .error .indexError

/-- A function of two arrays, element by element: the shape and the elements of the result. -/
def both (f : A → A → Except Err B) (a b : NArr A) : Except Err (List Nat × List B) :=
  match common a.shape.reverse b.shape.reverse with
  | none => .error .valueError
  | some t => ((Vectors.indices t.reverse).mapM (fun i => pair f (a.pick i) (b.pick i))).map (fun l => (t.reverse, l))

end

/-- `dtype` of a sum or product. -/
def Kind.join : Kind → Kind → Kind
  | .object, _ => .object
  | _, .object => .object
  | .int, .int => .int
  | _, _ => .float

/-- `dtype` of a quotient. -/
def Kind.quotient (a b : Kind) : Kind := if a.join b = .object then .object else .float

/-- `dtype` of a power. -/
def Kind.power {K : Type} : Kind → PyExpo K → Kind
  | .object, _ => .object
  | .int, .int _ => .int
  | _, _ => .float

section
variable {V K D : Type} [DecidableEq V] [Field K] [LinearOrder K] [HasPow K]
variable [AddCommGroup D] [DecidableEq D] [Module K D]

/-- A number, nomial or array. -/
inductive Val (V K D : Type) where
  /-- a number or nomial; whether it is an `int` -/
  | scalar (int : Bool) (v : PyVal V K D)
  /-- an array -/
  | array (a : NArr (PyVal V K D))

/-- `dtype` of `np.asarray` of a number or nomial. -/
def kindOf (int : Bool) : PyVal V K D → Kind
  | .num q => if q.units = none then (if int then .int else .float) else .object
  | .nom _ => .object

/-- What numpy makes of an operand. -/
def Val.asArray : Val V K D → NArr (PyVal V K D)
  | .scalar int v => ⟨kindOf int v, false, [], [v]⟩
  | .array a => a

/-- An operator of numpy's, element by element. -/
def elementwise (nomial : Bool) (kind : Kind) (f : PyVal V K D → PyVal V K D → Except Err (PyVal V K D)) (a b : NArr (PyVal V K D)) :
    Except Err (Val V K D) :=
  (both f a b).map (fun r => .array ⟨kind, nomial, r.1, r.2⟩)

/-- `np.ndarray.__neg__` and others with one operand. -/
def each (kind : Kind) (f : PyVal V K D → Except Err (PyVal V K D)) (a : NArr (PyVal V K D)) : Except Err (NArr (PyVal V K D)) :=
  (a.elts.mapM f).map (fun l => ⟨kind, a.nomial, a.shape, l⟩)

/-- `a + b`: `NomialArray.__add__` puts the array first, also if it is called by `__radd__` (gpkit/nomials/array.py 66-70 and 74). Python asks a
`NomialArray` to the right before a numpy array to the left; nomials leave arrays to them. -/
def add (se : Bool) : Val V K D → Val V K D → Except Err (Val V K D)
  | .scalar i x, .scalar j y => (PyVal.add se x y).map (.scalar (i && j))
  | a, b =>
    if a.asArray.nomial then elementwise true (a.asArray.kind.join b.asArray.kind) (PyVal.add se) a.asArray b.asArray
    else if b.asArray.nomial then elementwise true (b.asArray.kind.join a.asArray.kind) (PyVal.add se) b.asArray a.asArray
    else elementwise false (a.asArray.kind.join b.asArray.kind) (PyVal.add se) a.asArray b.asArray

/-- `a * b` (gpkit/nomials/array.py 50-54 and 73); a nomial to the left makes a `NomialArray` of itself (gpkit/nomials/math.py 199-202). -/
def mul (se : Bool) : Val V K D → Val V K D → Except Err (Val V K D)
  | .scalar i x, .scalar j y => (PyVal.mul se x y).map (.scalar (i && j))
  | .scalar i (.nom n), .array b => elementwise true .object (PyVal.mul se) (Val.scalar i (.nom n)).asArray b
  | a, b =>
    if a.asArray.nomial then elementwise true (a.asArray.kind.join b.asArray.kind) (PyVal.mul se) a.asArray b.asArray
    else if b.asArray.nomial then elementwise true (b.asArray.kind.join a.asArray.kind) (PyVal.mul se) b.asArray a.asArray
    else elementwise false (a.asArray.kind.join b.asArray.kind) (PyVal.mul se) a.asArray b.asArray

/-- `-a` (gpkit/nomials/array.py 81-84). -/
def neg (se : Bool) : Val V K D → Except Err (Val V K D)
  | .scalar i x => (PyVal.neg se x).map (.scalar i)
  | .array a => (each a.kind (PyVal.neg se) a).map .array

/-- `a - b`: arrays have numpy's operator, a nomial to the left adds the negative inside `SignomialsEnabled` (gpkit/nomials/math.py 254-255). -/
def sub (se : Bool) : Val V K D → Val V K D → Except Err (Val V K D)
  | .scalar i x, .scalar j y => (PyVal.sub se x y).map (.scalar (i && j))
  | .scalar i (.nom n), .array b =>
    if se then do
      let m ← neg se (.array b)
      add se (.scalar i (.nom n)) m
    else elementwise b.nomial .object (PyVal.sub se) (Val.scalar i (.nom n)).asArray b
  | a, b => elementwise (a.asArray.nomial || b.asArray.nomial) (a.asArray.kind.join b.asArray.kind) (PyVal.sub se) a.asArray b.asArray

/-- The number in an array of numbers. -/
def magnitude : PyVal V K D → K
  | .num q => q.mag
  | .nom _ => 0

/-- An element of a power: integers have no negative integer powers in numpy. -/
def powElt (se : Bool) (kind : Kind) (x : PyExpo K) (v : PyVal V K D) : Except Err (PyVal V K D) :=
  match kind, x with
  | .object, _ => PyVal.pow se v x
  | .int, .int z => if z < 0 then .error .valueError else PyVal.pow se v x
  | _, _ => if pwDom (magnitude v) x.toK then PyVal.pow se v x else .error .notModelled

/-- `a ** x` for an array (gpkit/nomials/array.py 76-79). -/
def powArr (se : Bool) (a : NArr (PyVal V K D)) (x : PyExpo K) : Except Err (NArr (PyVal V K D)) := each (a.kind.power x) (powElt se a.kind x) a

/-- `a ** x`. -/
def pow (se : Bool) : Val V K D → PyExpo K → Except Err (Val V K D)
  | .scalar i v, x => (PyVal.pow se v x).map (.scalar (i && match x with | .int z => 0 ≤ z | .float _ => false))
  | .array a, x => (powArr se a x).map .array

/-- An element of a quotient: numbers divided by zero are `inf` or `nan` in arrays of numbers. -/
def divElt (se : Bool) (kind : Kind) (v w : PyVal V K D) : Except Err (PyVal V K D) :=
  match w with
  | .num q => if kind ≠ .object ∧ q.mag = 0 then .error .notModelled else PyVal.div se v w
  | .nom _ => PyVal.div se v w

/-- `a / b`: if only `b` is a `NomialArray`, `b**-1 * a` (gpkit/nomials/array.py 56-64). -/
def div (se : Bool) : Val V K D → Val V K D → Except Err (Val V K D)
  | .scalar _ x, .scalar _ y => (PyVal.div se x y).map (.scalar false)
  | a, b =>
    if a.asArray.nomial then
      elementwise true (a.asArray.kind.quotient b.asArray.kind) (divElt se (a.asArray.kind.join b.asArray.kind)) a.asArray b.asArray
    else if b.asArray.nomial then do
      let p ← powArr se b.asArray (.int (-1))
      elementwise true (p.kind.join a.asArray.kind) (PyVal.mul se) p a.asArray
    else elementwise false (a.asArray.kind.quotient b.asArray.kind) (divElt se (a.asArray.kind.join b.asArray.kind)) a.asArray b.asArray

/-- Whether an index is inside a shape. -/
def inside : List Nat → List Nat → Bool
  | _, [] => true
  | [], _ :: _ => false
  | n :: s, i :: l => decide (i < n) && inside s l

/-- The elements under an index that leaves axes open. -/
def part {A : Type} (s i : List Nat) (l : List A) : List A := (l.drop (position s i)).take (s.drop i.length).prod

/-- `a[i]` (gpkit/nomials/array.py 86-91), for a tuple of indices that are not negative. -/
def index : Val V K D → List Nat → Except Err (Val V K D)
  | .scalar _ _, _ => .error .typeError
  | .array a, i =>
    if inside a.shape i then
      match a.shape.drop i.length, part a.shape i a.elts with
      | [], v :: _ => .ok (.scalar (a.kind = .int) v)
      | [], [] => .error .indexError
      | n :: s, l => .ok (.array ⟨a.kind, a.nomial, n :: s, l⟩)
    else .error .indexError

/-- `a.sum()` (gpkit/nomials/array.py 150-171, `Model/Array.lean`); numpy's own sum adds the elements one after the other. -/
def sum (se : Bool) : Val V K D → Except Err (Val V K D)
  | .scalar _ _ => .error .attributeError
  | .array a =>
    if a.nomial then (Verif.Arr.sum se a.elts).map (fun n => .scalar false (.nom n))
    else match a.elts with
      | [] => .ok (.scalar false (.num ⟨0, none⟩))
      | x :: l => (l.foldlM (PyVal.add se) x).map (.scalar (a.kind = .int))

/-- `a.prod()` (gpkit/nomials/array.py 171-191). -/
def prod (se : Bool) : Val V K D → Except Err (Val V K D)
  | .scalar _ _ => .error .attributeError
  | .array a =>
    if a.nomial then (Verif.Arr.prod se a.elts).map (.scalar (a.kind = .int))
    else match a.elts with
      | [] => .ok (.scalar false (.num ⟨1, none⟩))
      | x :: l => (l.foldlM (PyVal.mul se) x).map (.scalar (a.kind = .int))

/-! ### Comparisons -/

/-- Python's operator for two numbers or nomials; `isvar` tells which are objects of class `Variable`. -/
def compare1 (se : Bool) (feastol : K) (approx : PyVal V K D → Except Err Unit) (isvar : PyVal V K D → Bool) (rel : Rel) (x y : PyVal V K D) :
    Except Err (Made V K D) :=
  related se feastol approx rel (isvar x, isvar y) x y

/-- The relation seen from the right. -/
def swapped : Rel → Rel
  | .le => .ge
  | .ge => .le
  | .eq => .eq

/-- What a comparison returns. -/
inductive Compared (V K D : Type) where
  /-- that of two numbers or nomials -/
  | one (m : Made V K D)
  /-- an `ArrayConstraint` with these elements, of which at least the first is a constraint -/
  | constraints (l : List (Made V K D))
  /-- an array of `bool` -/
  | bools

/-- What `np.vectorize` returns for these results: an array of the type of the first one (gpkit/nomials/array.py 25 and 31). -/
def vectorized : List (Made V K D) → Except Err (Compared V K D)
  | [] => .error .valueError
  | .truth _ :: _ => .ok .bools
  | m :: l => .ok (.constraints (m :: l))

/-- `NomialArray.__le__` and others (gpkit/nomials/array.py 27-34 and 133-135). If the array has numbers and the other side has nomials, numpy's numbers are
compared, which is not modelled. -/
def arrayConstraint (se : Bool) (feastol : K) (approx : PyVal V K D → Except Err Unit) (isvar : PyVal V K D → Bool) (rel : Rel)
    (self other : NArr (PyVal V K D)) : Except Err (Compared V K D) :=
  if self.elts.isEmpty || other.elts.isEmpty then .error .valueError
  else if self.kind ≠ .object ∧ other.kind = .object then .error .notModelled
  else (both (compare1 se feastol approx isvar rel) self other).bind (fun r => vectorized r.2)

/-- `a <= b`, `a >= b` or `a == b`. Nomials leave arrays to the other side; numpy's own operators return truth values. -/
def comparison (se : Bool) (feastol : K) (approx : PyVal V K D → Except Err Unit) (isvar : PyVal V K D → Bool) (rel : Rel) :
    Val V K D → Val V K D → Except Err (Compared V K D)
  | .scalar _ x, .scalar _ y => (compare1 se feastol approx isvar rel x y).map .one
  | a, b =>
    if a.asArray.nomial then arrayConstraint se feastol approx isvar rel a.asArray b.asArray
    else if b.asArray.nomial then arrayConstraint se feastol approx isvar (swapped rel) b.asArray a.asArray
    else (both (compare1 se feastol approx isvar rel) a.asArray b.asArray).map (fun _ => .bools)

end

/-! ### Expressions -/

section
variable {V D : Type} [DecidableEq V] [AddCommGroup D] [DecidableEq D] [Module ℝ D]

/-- `isinstance(v, Numbers)`. -/
def isNum : PyVal V ℝ D → Bool
  | .num _ => true
  | .nom _ => false

/-- An array of nomials and numbers, not all of them numbers: `np.asarray` makes an array of numbers of these. -/
def objects (nomial : Bool) (shape : List Nat) (l : List (PyVal V ℝ D)) : Except Err (Val V ℝ D) :=
  if shape = [] ∨ l.all isNum then .error .notModelled else .ok (.array ⟨.object, nomial, shape, l⟩)

/-- What Python computes for an expression with arrays. -/
noncomputable def AExpr.build (se : Bool) (vunits : V → Option (UnitQ D ℝ)) : AExpr V → Except Err (Val V ℝ D)
  | .scalar int e => (e.build se vunits).map (.scalar int)
  | .array nomial s f => ((Vectors.indices s).mapM (fun i => (f i).build se vunits)).bind (objects nomial s)
  | .numbers nomial int s f =>
    if s = [] then .error .notModelled
    else .ok (.array ⟨if int then .int else .float, nomial, s, (Vectors.indices s).map (fun i => .num ⟨f i, none⟩)⟩)
  | .add a b => do Elementwise.add se (← a.build se vunits) (← b.build se vunits)
  | .sub a b => do Elementwise.sub se (← a.build se vunits) (← b.build se vunits)
  | .mul a b => do Elementwise.mul se (← a.build se vunits) (← b.build se vunits)
  | .div a b => do Elementwise.div se (← a.build se vunits) (← b.build se vunits)
  | .neg a => do Elementwise.neg se (← a.build se vunits)
  | .pow a x => do Elementwise.pow se (← a.build se vunits) x
  | .index a i => do Elementwise.index (← a.build se vunits) i
  | .sum a => do Elementwise.sum se (← a.build se vunits)
  | .prod a => do Elementwise.prod se (← a.build se vunits)

/-- The constraints a set of constraints takes from a comparison (gpkit/constraints/array.py 16-17, gpkit/constraints/set.py 77-88): an element that is a
`bool` makes it raise. -/
def Compared.cons (se : Bool) : Compared V ℝ D → Except Err (List (Pipeline.Con V D))
  | .one m => (toCon se m).map (fun c => [c])
  | .constraints l => l.mapM (toCon se)
  | .bools => .error .valueError

/-- What the comparison of two expressions returns. -/
noncomputable def AStmt.make (se : Bool) (feastol : ℝ) (approx : PyVal V ℝ D → Except Err Unit) (isvar : PyVal V ℝ D → Bool)
    (vunits : V → Option (UnitQ D ℝ)) (st : AStmt V) : Except Err (Compared V ℝ D) := do
  let l ← st.left.build se vunits
  let r ← st.right.build se vunits
  comparison se feastol approx isvar st.rel l r

/-- The constraints that a comparison adds to a model. -/
noncomputable def AStmt.cons (se : Bool) (feastol : ℝ) (approx : PyVal V ℝ D → Except Err Unit) (isvar : PyVal V ℝ D → Bool)
    (vunits : V → Option (UnitQ D ℝ)) (st : AStmt V) : Except Err (List (Pipeline.Con V D)) := do
  let m ← st.make se feastol approx isvar vunits
  m.cons se

/-- A cost has to be a single nomial: arrays have no `vks` (gpkit/constraints/costed.py 23). -/
def theScalar : Val V ℝ D → Except Err (PyVal V ℝ D)
  | .scalar _ v => .ok v
  | .array _ => .error .attributeError

/-- Making the model that is written, with arrays, and solving it. -/
noncomputable def run (S : Setting V D (AStmt V)) (isvar : PyVal V ℝ D → Bool) (cost : AExpr V) (tree : Building.Expr V ℝ (AStmt V)) :
    Except Err (Pipeline.Result V × Bool) :=
  runOf S (fun st => st.cons (S.enabled st) S.feastol S.approx isvar S.vunits) ((cost.build false S.vunits).bind theScalar) tree

end
end Elementwise
end Verif
