import Verif.Spec.Eval

/-!
# The value of `N <= D` written as `N / D <= 1`

A signomial inequality `h <= 0` whose terms are divided into those of the denominator, `D = -(terms in den)`, and the others, `N`.
-/

namespace Verif
section
variable {V : Type}

/-- `N / D` -/
noncomputable def sigVal (den : HV V ℝ × ℝ → Bool) (x : V → ℝ) (h : List (HV V ℝ × ℝ)) : ℝ :=
  termsVal x (h.filter (fun t => !den t)) / -(termsVal x (h.filter den))

theorem sigVal_le_one {den : HV V ℝ × ℝ → Bool} {x : V → ℝ} {h : List (HV V ℝ × ℝ)} (hd : termsVal x (h.filter den) < 0) :
    sigVal den x h ≤ 1 ↔ termsVal x h ≤ 0 := by
  have hs : termsVal x h = termsVal x (h.filter (fun t => !den t)) + termsVal x (h.filter den) := by
    clear hd
    induction h with
    | nil => simp [termsVal]
    | cons t h ih =>
      have hc : ∀ (t : HV V ℝ × ℝ) l, termsVal x (t :: l) = t.2 * monVal x t.1.items + termsVal x l := fun t l => by simp [termsVal]
      rw [hc, ih, List.filter_cons, List.filter_cons]
      by_cases hp : den t
      · simp only [hp, Bool.not_true, Bool.false_eq_true, if_false, if_true, hc]; ring
      · simp only [hp, Bool.not_false, if_false, if_true, hc, Bool.false_eq_true]; ring
  unfold sigVal
  rw [div_le_one (by linarith), hs]
  constructor <;> intro h1 <;> linarith

end
end Verif
