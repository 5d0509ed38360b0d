import Verif.Model.Debug
import Verif.Spec.Relax

/-! What solving promises, and what a diagnosis says about a model. -/

namespace Verif
namespace Debug
open Relax
variable {V D : Type}

/-- A point with positive values satisfies a program. -/
def Prog.Meets (p : Prog V ℝ D) (pt : V → ℝ) : Prop :=
  (∀ v, 0 < pt v) ∧ (∀ s ∈ p.subs, pt s.1 = s.2) ∧ ∀ c ∈ p.cons, c.Holds pt

/-- Solving finds a point: as a geometric program, or as a signomial program if it is no geometric one. -/
def Solver.Finds (S : Solver V ℝ D) (p : Prog V ℝ D) (pt : V → ℝ) : Prop := S.gp p = .ok pt ∨ (S.gp p = .error .invalidGP ∧ S.sp p = .ok pt)

/-- Solving says that there is no point. -/
def Solver.Refuses (S : Solver V ℝ D) (p : Prog V ℝ D) : Prop :=
  S.gp p = .error .infeasible ∨ (S.gp p = .error .invalidGP ∧ S.sp p = .error .infeasible)

/-- Points that are returned satisfy the program. -/
def Solver.SoundAt (S : Solver V ℝ D) (p : Prog V ℝ D) : Prop := ∀ pt, S.Finds p pt → p.Meets pt

/-- Points that are returned satisfy the program and are optimal, and programs that are said to be infeasible are. -/
def Solver.Exact (S : Solver V ℝ D) : Prop :=
  (∀ p, S.SoundAt p) ∧ (∀ p pt pt', S.Finds p pt → p.Meets pt' → physVal pt p.cost.hmap ≤ physVal pt' p.cost.hmap) ∧
    ∀ p, S.Refuses p → ¬ ∃ pt, p.Meets pt

/-- Points that are returned satisfy what the solver was given for the program's constraints (C60). -/
def Solver.SoundForms (S : Solver V ℝ D) : Prop := ∀ p pt, S.Finds p pt →
  (∀ v, 0 < pt v) ∧ (∀ s ∈ p.subs, pt s.1 = s.2) ∧ ∀ c ∈ p.cons, ∀ f ∈ c.unsubbed, termsVal pt f.hmap.terms ≤ 1

/-- Solving ends with a point or says that the program is infeasible. -/
def Solver.Ends (S : Solver V ℝ D) : Prop := ∀ p, (∃ pt, S.Finds p pt) ∨ S.Refuses p

/-- A point is feasible for the model as written: its constants, its constraints, and positive values between the bounds. -/
def Mdl.Feasible (m : Mdl V ℝ D) (pt : V → ℝ) : Prop :=
  (∀ v, 0 < pt v) ∧ (∀ s ∈ m.consts, pt s.1 = s.2) ∧ (∀ c ∈ m.flat, c.Holds pt) ∧ ∀ v ∈ m.free, 1 / 10 ^ 30 ≤ pt v ∧ pt v ≤ 10 ^ 30

end Debug
end Verif
