import Verif.Model.Nomial
import Mathlib.Analysis.SpecialFunctions.Pow.Real

/-!
# What a nomial means

Independent of the operators of the model: the value of a list of terms at a point, and of an expression as written.
-/

namespace Verif

open Classical in
/-- Powers of reals. `a ** b` is a float if `a` is positive, if `a = 0` and `b ≥ 0`, or if `a < 0` and `b` is an integer. -/
noncomputable instance : HasPow ℝ :=
  ⟨fun a b => a ^ b, fun a b => decide (0 < a ∨ (a = 0 ∧ 0 ≤ b) ∨ (a < 0 ∧ ∃ z : ℤ, b = z))⟩

/-- Powers of rationals with integer exponents, for computed examples. -/
instance : HasPow ℚ :=
  ⟨fun a b => a ^ b.num, fun a b => b.den = 1 && (0 < a || (a = 0 && 0 ≤ b) || a < 0)⟩

theorem pw_real (a b : ℝ) : pw a b = a ^ b := rfl

/-- Value of `∏ xᵏ` at the point `pt`. -/
noncomputable def monVal {V : Type} (pt : V → ℝ) (e : List (V × ℝ)) : ℝ :=
  (e.map (fun kx => pt kx.1 ^ kx.2)).prod

/-- Value of `∑ c ∏ xᵏ` at the point `pt`. -/
noncomputable def termsVal {V : Type} (pt : V → ℝ) (ts : List (HV V ℝ × ℝ)) : ℝ :=
  (ts.map (fun t => t.2 * monVal pt t.1.items)).sum

/-- Size of a unit in base units; no unit counts as one. -/
def unitScale {D : Type} : Option (UnitQ D ℝ) → ℝ
  | none => 1
  | some u => u.scale

/-- Dimension of a unit; no unit counts as dimensionless. -/
def unitDim {D : Type} [Zero D] : Option (UnitQ D ℝ) → D
  | none => 0
  | some u => u.dim

/-- Physical value (in base units) of a coefficient map. `pt` gives the number each variable has in its own units. -/
noncomputable def physVal {V D : Type} (pt : V → ℝ) (h : NMap V ℝ D) : ℝ :=
  unitScale h.units * termsVal pt h.terms

/-- Physical value of a number or nomial. -/
noncomputable def PyVal.phys {V D : Type} (pt : V → ℝ) : PyVal V ℝ D → ℝ
  | .num q => unitScale q.units * q.mag
  | .nom n => physVal pt n.hmap

/-- Units have a positive size. -/
def UnitOK {D : Type} (u : Option (UnitQ D ℝ)) : Prop := 0 < unitScale u

/-- An expression as a user writes it. -/
inductive Expr (V : Type) where
  /-- a variable -/
  | var (v : V)
  /-- a plain number -/
  | num (c : ℝ)
  /-- `a + b` -/
  | add (a b : Expr V)
  /-- `a - b` -/
  | sub (a b : Expr V)
  /-- `a * b` -/
  | mul (a b : Expr V)
  /-- `a / b` -/
  | div (a b : Expr V)
  /-- `-a` -/
  | neg (a : Expr V)
  /-- `a ** x` -/
  | pow (a : Expr V) (x : PyExpo ℝ)

namespace Expr
variable {V : Type}

/-- The real number an expression denotes when each variable has the value `pt v`. -/
noncomputable def denote (pt : V → ℝ) : Expr V → ℝ
  | var v => pt v
  | num c => c
  | add a b => a.denote pt + b.denote pt
  | sub a b => a.denote pt - b.denote pt
  | mul a b => a.denote pt * b.denote pt
  | div a b => a.denote pt / b.denote pt
  | neg a => -a.denote pt
  | pow a x => a.denote pt ^ x.toK

/-- What Python computes for an expression: the operators of the model applied bottom up, stopping at the first exception. -/
noncomputable def build {D : Type} [DecidableEq V] [AddCommGroup D] [DecidableEq D] [Module ℝ D]
    (se : Bool) (vunits : V → Option (UnitQ D ℝ)) : Expr V → Except Err (PyVal V ℝ D)
  | var v => .ok (.nom (varNomial vunits v))
  | num c => .ok (.num ⟨c, none⟩)
  | add a b => do PyVal.add se (← a.build se vunits) (← b.build se vunits)
  | sub a b => do PyVal.sub se (← a.build se vunits) (← b.build se vunits)
  | mul a b => do PyVal.mul se (← a.build se vunits) (← b.build se vunits)
  | div a b => do PyVal.div se (← a.build se vunits) (← b.build se vunits)
  | neg a => do PyVal.neg se (← a.build se vunits)
  | pow a x => do PyVal.pow se (← a.build se vunits) x

end Expr
end Verif
