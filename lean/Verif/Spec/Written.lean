import Verif.Spec.Eval

/-! Specification for C73: constraints as a user writes them, read as statements about physical values. -/

namespace Verif

/-- Nothing is divided by zero in the expression when each variable has the value `x v`. -/
def Expr.Defined {V : Type} (x : V → ℝ) : Expr V → Prop
  | var _ => True
  | num _ => True
  | add a b => a.Defined x ∧ b.Defined x
  | sub a b => a.Defined x ∧ b.Defined x
  | mul a b => a.Defined x ∧ b.Defined x
  | div a b => a.Defined x ∧ b.Defined x ∧ b.denote x ≠ 0
  | neg a => a.Defined x
  | pow a p => a.Defined x ∧ (a.denote x ≠ 0 ∨ 0 ≤ p.toK)

namespace Written

/-- A relation as written. -/
inductive Rel where
  | le | ge | eq
  deriving DecidableEq, Repr

/-- The relation between two numbers, with a factor `s` to spare. -/
def Rel.Holds (s l r : ℝ) : Rel → Prop
  | .le => l ≤ s * r
  | .ge => r ≤ s * l
  | .eq => l ≤ s * r ∧ r ≤ s * l

/-- `left <= right`, `left >= right` or `left == right`. -/
structure Stmt (V : Type) where
  /-- what is to the left -/
  left : Expr V
  /-- the sign in the middle -/
  rel : Rel
  /-- what is to the right -/
  right : Expr V

variable {V : Type}

/-- The statement is true when each variable has the value `x v`, its sides being compared with a factor `s` to spare. -/
def Stmt.Holds (s : ℝ) (x : V → ℝ) (st : Stmt V) : Prop := st.rel.Holds s (st.left.denote x) (st.right.denote x)

/-- No side has a division by zero, and no side that has to be at least as great as the other one is zero. -/
def Stmt.Defined (x : V → ℝ) (st : Stmt V) : Prop :=
  st.left.Defined x ∧ st.right.Defined x ∧ (st.rel ≠ .ge → st.right.denote x ≠ 0) ∧ (st.rel ≠ .le → st.left.denote x ≠ 0)

/-- The values in base units, if `pt v` is the number a variable has in its own units. -/
noncomputable def physical {D : Type} (vunits : V → Option (UnitQ D ℝ)) (pt : V → ℝ) : V → ℝ := fun v => unitScale (vunits v) * pt v

end Written
end Verif
