import Verif.Spec.Written

/-! Specification for C75: statements with differences in them, read as statements about physical values up to a share of the size of their terms. -/

namespace Verif

/-- The size of an expression: what it denotes when everything subtracted is added instead. -/
noncomputable def Expr.size {V : Type} (x : V → ℝ) : Expr V → ℝ
  | .var v => |x v|
  | .num c => |c|
  | .add a b => a.size x + b.size x
  | .sub a b => a.size x + b.size x
  | .mul a b => a.size x * b.size x
  | .div a b => a.size x / |b.denote x|
  | .neg a => a.size x
  | .pow a (.int z) => if 0 ≤ z then a.size x ^ z.toNat else |a.denote x ^ (z : ℝ)|
  | .pow a (.float y) => |a.denote x ^ y|

/-- The variables that occur in an expression. -/
def Expr.vars {V : Type} : Expr V → List V
  | .var v => [v]
  | .num _ => []
  | .add a b => a.vars ++ b.vars
  | .sub a b => a.vars ++ b.vars
  | .mul a b => a.vars ++ b.vars
  | .div a b => a.vars ++ b.vars
  | .neg a => a.vars
  | .pow a _ => a.vars

namespace Written
variable {V : Type}

/-- The relation between two numbers, with `d` to spare. -/
def Rel.Within (d l r : ℝ) : Rel → Prop
  | .le => l - r ≤ d
  | .ge => r - l ≤ d
  | .eq => |l - r| ≤ d

/-- The statement is true when each variable has the value `x v`, except for a share `t` of the size of its sides. -/
def Stmt.Within (t : ℝ) (x : V → ℝ) (st : Stmt V) : Prop :=
  st.rel.Within (t * (st.left.size x + st.right.size x)) (st.left.denote x) (st.right.denote x)

/-- The share of the sum of two numbers by which they can differ if neither is more than `s` times the other. -/
noncomputable def share (s : ℝ) : ℝ := (s - 1) / (s + 1)

end Written
end Verif
