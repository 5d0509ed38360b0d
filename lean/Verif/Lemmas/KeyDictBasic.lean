import Verif.Spec.KeyDict
import Verif.Lemmas.PyDict

/-! Basic lemmas about the model of `KeyDict`, and the variables used in examples. -/

set_option linter.unusedSectionVars false

namespace Verif
open PyDict
namespace KD
variable {S N K F : Type} [DecidableEq S] [DecidableEq N]

theorem get?_set' (d : PyDict S (Val K F)) (k q : S) (v : Val K F) : PyDict.get? (PyDict.set d k v) q = if q = k then some v else PyDict.get? d q := by
  rw [get?_set]
  by_cases h : q = k
  · subst h; simp
  · rw [if_neg h, if_neg (by simpa using fun h' => h h'.symm)]

theorem get?_setO (d : PyDict (Obj S N) (List (Obj S N))) (k q : Obj S N) (v : List (Obj S N)) :
    PyDict.get? (PyDict.set d k v) q = if q = k then some v else PyDict.get? d q := by
  rw [get?_set]
  by_cases h : q = k
  · subst h; simp
  · rw [if_neg h, if_neg (by simpa using fun h' => h h'.symm)]

theorem mem_add {α : Type} [DecidableEq α] {l : List α} {a b : α} : b ∈ add l a ↔ b = a ∨ b ∈ l := by
  unfold add
  by_cases h : a ∈ l
  · rw [if_pos h]
    constructor
    · exact Or.inr
    · rintro (rfl | hb)
      · exact h
      · exact hb
  · rw [if_neg h]
    simp [or_comm]

/-- Two vectors `x` and `y` with two elements and a scalar `z`. Conversion to single precision changes `1/10`. -/
def kdEnv : Env String String ℚ :=
  ⟨fun s => if s = "z" then none else some 2, fun s => [s], fun k => if k = 1 / 10 then 1 / 10 + 1 / 1000000000 else k, fun k => Rat.floor k⟩

/-- The start of every history. -/
abbrev kd0 : St String String ℚ Unit := ⟨[], empty⟩

end KD
end Verif
