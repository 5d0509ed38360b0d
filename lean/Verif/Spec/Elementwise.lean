import Verif.Spec.Written

/-!
Specification for C74: what expressions with arrays mean. An expression has a shape, and each of its elements is an expression without arrays: the
one a user would write for that element alone. Shapes are matched from the last side on; a side of length one, or one that is not there, is repeated.
-/

namespace Verif
namespace Elementwise
open Written

/-- An expression with arrays. -/
inductive AExpr (V : Type) where
  /-- an expression without arrays; whether it is an integer -/
  | scalar (int : Bool) (e : Expr V)
  /-- an array of expressions; whether it is a `NomialArray` (otherwise it is a numpy array) -/
  | array (nomial : Bool) (shape : List Nat) (elts : List Nat → Expr V)
  /-- an array of numbers; whether it is a `NomialArray`, and whether it has integers -/
  | numbers (nomial int : Bool) (shape : List Nat) (elts : List Nat → ℝ)
  /-- `a + b` -/
  | add (a b : AExpr V)
  /-- `a - b` -/
  | sub (a b : AExpr V)
  /-- `a * b` -/
  | mul (a b : AExpr V)
  /-- `a / b` -/
  | div (a b : AExpr V)
  /-- `-a` -/
  | neg (a : AExpr V)
  /-- `a ** x` -/
  | pow (a : AExpr V) (x : PyExpo ℝ)
  /-- `a[i]` -/
  | index (a : AExpr V) (i : List Nat)
  /-- `a.sum()` -/
  | sum (a : AExpr V)
  /-- `a.prod()` -/
  | prod (a : AExpr V)

/-- A shape with sides of length one put in front, so that it has `n` sides. -/
def pad (n : Nat) (s : List Nat) : List Nat := List.replicate (n - s.length) 1 ++ s

/-- Two sides fit: they are equal, or one of them is one. -/
def SideFits (a b : Nat) : Prop := a = b ∨ a = 1 ∨ b = 1

/-- Two shapes fit. -/
def Fits (s t : List Nat) : Prop := List.Forall₂ SideFits (pad (max s.length t.length) s) (pad (max s.length t.length) t)

/-- The shape of the result: of two sides, the one that is not one. -/
def joint (s t : List Nat) : List Nat :=
  List.zipWith (fun a b => if a = 1 then b else a) (pad (max s.length t.length) s) (pad (max s.length t.length) t)

/-- Which element of an array of shape `s` stands at the index `i` of the result. -/
def toward (s i : List Nat) : List Nat := List.zipWith (fun n k => if n = 1 then 0 else k) s (i.drop (i.length - s.length))

/-- An index inside a shape. -/
def InShape (s i : List Nat) : Prop := List.Forall₂ (fun n k => k < n) s i

/-- All indices of a shape, the last one changing fastest. -/
def allIndices : List Nat → List (List Nat)
  | [] => [[]]
  | n :: s => (List.range n).flatMap (fun k => (allIndices s).map (k :: ·))

namespace AExpr
variable {V : Type}

/-- The shape of an expression. -/
def shape : AExpr V → List Nat
  | scalar _ _ => []
  | array _ s _ => s
  | numbers _ _ s _ => s
  | add a b => joint a.shape b.shape
  | sub a b => joint a.shape b.shape
  | mul a b => joint a.shape b.shape
  | div a b => joint a.shape b.shape
  | neg a => a.shape
  | pow a _ => a.shape
  | index a i => a.shape.drop i.length
  | sum _ => []
  | prod _ => []

/-- The element at an index. -/
noncomputable def elem : AExpr V → List Nat → Expr V
  | scalar _ e, _ => e
  | array _ _ f, i => f i
  | numbers _ _ _ f, i => .num (f i)
  | add a b, i => .add (a.elem (toward a.shape i)) (b.elem (toward b.shape i))
  | sub a b, i => .sub (a.elem (toward a.shape i)) (b.elem (toward b.shape i))
  | mul a b, i => .mul (a.elem (toward a.shape i)) (b.elem (toward b.shape i))
  | div a b, i => .div (a.elem (toward a.shape i)) (b.elem (toward b.shape i))
  | neg a, i => .neg (a.elem i)
  | pow a x, i => .pow (a.elem i) x
  | index a j, i => a.elem (j ++ i)
  | sum a, _ => ((allIndices a.shape).map a.elem).foldl .add (.num 0)
  | prod a, _ => ((allIndices a.shape).map a.elem).foldl .mul (.num 1)

end AExpr

/-- A comparison of expressions with arrays. -/
structure AStmt (V : Type) where
  /-- what is to the left -/
  left : AExpr V
  /-- the sign in the middle -/
  rel : Rel
  /-- what is to the right -/
  right : AExpr V

/-- The shape of a comparison. -/
def AStmt.shape {V : Type} (st : AStmt V) : List Nat := joint st.left.shape st.right.shape

/-- The comparison at an index. -/
noncomputable def AStmt.elem {V : Type} (st : AStmt V) (i : List Nat) : Stmt V :=
  ⟨st.left.elem (toward st.left.shape i), st.rel, st.right.elem (toward st.right.shape i)⟩

/-- A comparison is true if it is true at every index. -/
def AStmt.Holds {V : Type} (s : ℝ) (x : V → ℝ) (st : AStmt V) : Prop := ∀ i, InShape st.shape i → (st.elem i).Holds s x

end Elementwise
end Verif
