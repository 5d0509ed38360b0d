import Verif.Spec.Eval
import Verif.Model.Oracle

/-!
# What samples of an autosweep mean

Solutions are points; a sample of every variable is a point too.
-/

namespace Verif
namespace Auto
variable {S F Sol : Type} [DecidableEq S]

/-- The key of a variable. -/
noncomputable def Key.var (w : S) : Key S := .expr [(⟨[(w, 1)]⟩, 1)]

/-- Solutions that an autosweep may find. -/
def Found (solve : PyDict S (Val ℝ F) → Except Err Sol) (subs : PyDict S (Val ℝ F)) (v : S) (lo hi x : ℝ) (s : Sol) : Prop :=
  lo ≤ x ∧ x ≤ hi ∧ solve (subs.set v (.num x)) = .ok s

/-- Solutions are points: `pt` gives every variable its positive value, the swept one the value of the sweep, substituted ones their numbers; values
of expressions and the cost are computed from them. -/
structure Points (solve : PyDict S (Val ℝ F) → Except Err Sol) (cost : Sol → ℝ) (val : Sol → Key S → ℝ) (costposy : PyDict (HV S ℝ) ℝ)
    (subs : PyDict S (Val ℝ F)) (v : S) (lo hi : ℝ) (pt : Sol → S → ℝ) : Prop where
  /-- positive -/
  pos : ∀ x s, Found solve subs v lo hi x s → ∀ w, 0 < pt s w
  /-- the swept variable -/
  swept : ∀ x s, Found solve subs v lo hi x s → pt s v = x
  /-- constants -/
  const : ∀ x s, Found solve subs v lo hi x s → ∀ w c, w ≠ v → subs.get? w = some (.num c) → pt s w = c
  /-- expressions -/
  expr : ∀ x s, Found solve subs v lo hi x s → ∀ terms, val s (.expr terms) = termsVal (pt s) terms
  /-- the cost -/
  cost : ∀ x s, Found solve subs v lo hi x s → cost s = termsVal (pt s) costposy

/-- An inequality holds at a point; a posynomial is not more than a monomial. -/
def Below {D : Type} (p m : NMap S ℝ D) (pt : S → ℝ) : Prop := physVal pt p ≤ physVal pt m

/-- A posynomial. -/
structure Posy {D : Type} (p : NMap S ℝ D) : Prop where
  /-- has terms -/
  ne : p.terms ≠ []
  /-- coefficients -/
  pos : ∀ t ∈ p.terms, 0 < t.2
  /-- the size of its unit -/
  unit : 0 < unitScale p.units

end Auto
end Verif
