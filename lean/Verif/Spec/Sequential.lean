import Verif.Model.Sequential
import Verif.Spec.Pipeline
import Verif.Spec.SigEq

/-!
# What a solution of a signomial model is

Independent of how a model is solved. A signomial inequality says that the positive terms add up to no more than the negative ones, an
equality that they add up to the same.
-/

namespace Verif
namespace SeqGP
variable {V D : Type}

/-- The signomial is at most zero, its positive and negative parts being compared with a factor `s` to spare. -/
def SigHolds (s : ℝ) (pt : V → ℝ) (sig : Nomial V ℝ D) : Prop :=
  termsVal pt (sig.hmap.terms.filter (fun t => 0 < t.2)) ≤ s * -termsVal pt (sig.hmap.terms.filter (fun t => t.2 < 0))

/-- A constraint with a factor `s` to spare: for an equality besides the factor by which terms of one side have moved apart since `x0`. -/
def Sg.Holds (x0 : V → ℝ) (s : ℝ) (pt : V → ℝ) (sig : Sg V D) : Prop :=
  (sig.equality = false → SigHolds s pt sig.toNomial) ∧
  (sig.equality = true → ∀ B, 0 ≤ B → MovesWithin B x0 pt sig.hmap.terms → EqualWithin (s * B) pt sig.hmap.terms)

/-- A variable does not occur in a list of terms. -/
def Absent (v : V) (ts : PyDict (HV V ℝ) ℝ) : Prop := ∀ t ∈ ts, v ∉ t.1.items.map (·.1)

/-- A variable does not occur in a constraint. -/
def ConAbsent (v : V) : Pipeline.Con V D → Prop
  | .le _ p m => Absent v p.terms ∧ Absent v m.terms
  | .eq _ l r => Absent v l.terms ∧ Absent v r.terms

end SeqGP
end Verif
