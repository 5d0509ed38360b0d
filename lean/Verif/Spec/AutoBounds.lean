import Verif.Model.Autosweep
import Mathlib.Analysis.SpecialFunctions.Log.Basic

/-!
# True costs

The true cost as a function of the swept variable, in logs.
-/

namespace Verif
namespace Auto

/-- `g` is the slope of a line through the graph at `a` that stays below it on `[l, h]`. A differentiable convex function has its
derivative as slope. -/
def Slope (φ : ℝ → ℝ) (l h a g : ℝ) : Prop := ∀ y, l ≤ y → y ≤ h → φ a + g * (y - a) ≤ φ y

/-- Solutions are true: the log of the cost is `φ` of the log of the swept variable, and the sensitivity is a slope. -/
def Honest {S F Sol : Type} [DecidableEq S] (solve : PyDict S (Val ℝ F) → Except Err Sol) (cost sens : Sol → ℝ) (subs : PyDict S (Val ℝ F)) (v : S)
    (φ : ℝ → ℝ) (lo hi : ℝ) : Prop :=
  ∀ x, lo ≤ x → x ≤ hi → ∀ sol, solve (subs.set v (.num x)) = .ok sol →
    Real.log (cost sol) = φ (Real.log x) ∧ Slope φ (Real.log lo) (Real.log hi) (Real.log x) (sens sol)

end Auto
end Verif
