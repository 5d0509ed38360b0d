import Verif.Model.Shadow
import Verif.Model.Names
import Mathlib.Analysis.SpecialFunctions.Log.Base

/-!
# Sensitivities of constraints and models

Models `result["sensitivities"]["constraints"]` and `["models"]` (gpkit/constraints/gp.py 308-324) and their table (gpkit/solution_array.py 61-89).

Simplifications: no constraint is generated by another; one solution, not a sweep. The lineage of a constraint is that of the model it was written in
(gpkit/nomials/math.py 380). In the table, numbers are not rounded.
-/

namespace Verif
namespace Pipeline
open VK

variable {V : Type}

/-- The lineage of a constraint or variable; empty for none. -/
abbrev Lineage := List (Str × Nat)

/-- `result["sensitivities"]["constraints"][c] = abs(c_senss)` for each answer in turn (gpkit/constraints/gp.py 319); constraints are compared by identity. -/
noncomputable def consDict {I : Type} [DecidableEq I] (answers : List (I × List ℝ)) : PyDict I ℝ :=
  answers.foldl (fun d a => a.2.foldl (fun d x => d.set a.1 |x|) d) []

/-- `m_senss[key] += x` on a `defaultdict(float)`. -/
noncomputable def addTo {A : Type} [DecidableEq A] (m : PyDict A ℝ) (key : A) (x : ℝ) : PyDict A ℝ := m.set key ((m.get? key).getD 0 + x)

/-- `m_senss` (gpkit/constraints/gp.py 310-324). -/
noncomputable def modelSenss (linC : List Lineage) (linV : V → Lineage) (ss : Senss V) : PyDict Str ℝ :=
  ss.vars.foldl (fun m p => addTo m (Names.lineageStr true (linV p.1)) |p.2|)
    ((linC.zip ss.cons).foldl (fun m p => p.2.foldl (fun m x => addTo m (Names.lineageStr true p.1) |x|) m) [])

/-- What is written for the sensitivity of a model. -/
inductive MText where
  /-- `"  =0  "` -/
  | zero
  /-- `"<1E%i"` -/
  | below (k : ℤ)
  /-- `"%+6.1f"` -/
  | shown (x : ℝ)

/-- `"%i" % x`: towards zero. -/
noncomputable def trunc (x : ℝ) : ℤ := if 0 ≤ x then ⌊x⌋ else ⌈x⌉

open Classical in
/-- The text for a sensitivity (gpkit/solution_array.py 73-80). -/
noncomputable def mText (s : ℝ) : MText :=
  if s < 0.1 then if s ≠ 0 then .below (trunc (Real.logb 10 s)) else .zero else .shown s

open Classical in
/-- The lines of `msenss_table` after its title (gpkit/solution_array.py 61-89). -/
noncomputable def msenssTable (models : PyDict Str ℝ) : List (MText × Str) :=
  let lines := ((models.mergeSort (fun a b => decide (-a.2 ≤ -b.2))).filter (fun p => !p.1.isEmpty)).map (fun p => (mText p.2, p.1))
  if 3 < 2 + lines.length then lines else []

end Pipeline
end Verif
