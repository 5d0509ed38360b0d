import Verif.Spec.SigWritten
import Verif.Spec.Sequential
import Verif.Lemmas.Tidy
import Verif.Lemmas.Sequential
import Verif.Lemmas.Every

/-! Nomials have no other variables than the expressions they are built from. -/

set_option linter.unusedSectionVars false

namespace Verif
open PyDict SeqGP

variable {V D : Type} [DecidableEq V] [AddCommGroup D] [DecidableEq D]

/-- A variable does not occur in a number or nomial. -/
def PyVal.Lacks (v : V) : PyVal V ℝ D → Prop
  | .num _ => True
  | .nom n => Absent v n.hmap.terms

theorem hvAdd_lacks {v : V} {a b : HV V ℝ} (ha : v ∉ a.items.map (·.1)) (hb : v ∉ b.items.map (·.1)) : v ∉ (a.add b).items.map (·.1) := by
  intro h
  obtain ⟨p, hp, he⟩ := List.mem_map.1 h
  exact dictAdd_keys (P := fun k => k ≠ v) (a := a.items) (b := b.items) (by rintro q hq rfl; exact ha (List.mem_map.2 ⟨q, hq, rfl⟩))
    (by rintro q hq rfl; exact hb (List.mem_map.2 ⟨q, hq, rfl⟩)) p hp he

theorem hvScale_lacks {v : V} {a : HV V ℝ} (ha : v ∉ a.items.map (·.1)) (c : ℝ) : v ∉ (a.scale c).items.map (·.1) := by
  simpa [HV.scale, dictScale] using ha

theorem closed_lacks (v : V) : Closed (fun e : HV V ℝ => v ∉ e.items.map (fun x : V × ℝ => x.1)) := ⟨by simp [HV.empty], hvAdd_lacks⟩

theorem numMap_lacks (v : V) (q : PyQ D ℝ) : Absent v (numMap q : NMap V ℝ D).terms := numMap_every (closed_lacks v) q

theorem lacks_iff {v : V} {a : PyVal V ℝ D} : a.Lacks v ↔ a.Every (fun e : HV V ℝ => v ∉ e.items.map (fun x : V × ℝ => x.1)) := by
  cases a <;> rfl

theorem pyAdd_lacks {v : V} {se : Bool} {a b r : PyVal V ℝ D} (ha : a.Lacks v) (hb : b.Lacks v) (h : PyVal.add se a b = .ok r) : r.Lacks v :=
  lacks_iff.2 (pyAdd_every (closed_lacks v) (lacks_iff.1 ha) (lacks_iff.1 hb) h)

theorem pyMul_lacks {v : V} {se : Bool} {a b r : PyVal V ℝ D} (ha : a.Lacks v) (hb : b.Lacks v) (h : PyVal.mul se a b = .ok r) : r.Lacks v :=
  lacks_iff.2 (pyMul_every (closed_lacks v) (lacks_iff.1 ha) (lacks_iff.1 hb) h)

theorem pyNeg_lacks {v : V} {se : Bool} {a r : PyVal V ℝ D} (ha : a.Lacks v) (h : PyVal.neg se a = .ok r) : r.Lacks v :=
  lacks_iff.2 (pyNeg_every (closed_lacks v) (lacks_iff.1 ha) h)

theorem pySub_lacks {v : V} {se : Bool} {a b r : PyVal V ℝ D} (ha : a.Lacks v) (hb : b.Lacks v) (h : PyVal.sub se a b = .ok r) : r.Lacks v :=
  lacks_iff.2 (pySub_every (closed_lacks v) (lacks_iff.1 ha) (lacks_iff.1 hb) h)

theorem scale_lacks {v : V} {b : PyVal V ℝ D} (hb : b.Lacks v) (x : ℝ) :
    ∀ n e c, b = .nom n → n.hmap.terms = [(e, c)] → v ∉ (e.scale x).items.map (fun x : V × ℝ => x.1) := by
  rintro n e c rfl he
  have := hb (e, c) (by rw [he]; exact List.mem_singleton.2 rfl)
  exact hvScale_lacks this x

theorem pyDiv_lacks [Module ℝ D] {v : V} {se : Bool} {a b r : PyVal V ℝ D} (ha : a.Lacks v) (hb : b.Lacks v) (gb : b.Good) (h : PyVal.div se a b = .ok r) :
    r.Lacks v :=
  lacks_iff.2 (pyDiv_every (closed_lacks v) (lacks_iff.1 ha) (scale_lacks hb _) gb h)

theorem pyPow_lacks [Module ℝ D] {v : V} {se : Bool} {a r : PyVal V ℝ D} {x : PyExpo ℝ} (ha : a.Lacks v) (ga : a.Good) (h : PyVal.pow se a x = .ok r) :
    r.Lacks v :=
  lacks_iff.2 (pyPow_every (closed_lacks v) (lacks_iff.1 ha) (scale_lacks ha _) ga h)

/-- A variable that does not occur in an expression does not occur in what is built for it. -/
theorem build_lacks [Module ℝ D] {v : V} {se : Bool} {vunits : V → Option (UnitQ D ℝ)} (hu : ∀ v, UnitOK (vunits v)) (e : Expr V) (he : v ∉ e.vars)
    {r : PyVal V ℝ D} (h : e.build se vunits = .ok r) : r.Lacks v := by
  induction e generalizing r with
  | var w =>
    cases h
    intro t ht
    simp only [varNomial, List.mem_singleton] at ht
    subst ht
    simpa [Expr.vars] using he
  | num c => cases h; trivial
  | add a b iha ihb =>
    simp only [Expr.vars, List.mem_append, not_or] at he
    obtain ⟨x, h1, h2⟩ := except_bind_ok h
    obtain ⟨y, h3, h4⟩ := except_bind_ok h2
    exact pyAdd_lacks (iha he.1 h1) (ihb he.2 h3) h4
  | sub a b iha ihb =>
    simp only [Expr.vars, List.mem_append, not_or] at he
    obtain ⟨x, h1, h2⟩ := except_bind_ok h
    obtain ⟨y, h3, h4⟩ := except_bind_ok h2
    exact pySub_lacks (iha he.1 h1) (ihb he.2 h3) h4
  | mul a b iha ihb =>
    simp only [Expr.vars, List.mem_append, not_or] at he
    obtain ⟨x, h1, h2⟩ := except_bind_ok h
    obtain ⟨y, h3, h4⟩ := except_bind_ok h2
    exact pyMul_lacks (iha he.1 h1) (ihb he.2 h3) h4
  | div a b iha ihb =>
    simp only [Expr.vars, List.mem_append, not_or] at he
    obtain ⟨x, h1, h2⟩ := except_bind_ok h
    obtain ⟨y, h3, h4⟩ := except_bind_ok h2
    exact pyDiv_lacks (iha he.1 h1) (ihb he.2 h3) (build_ok hu b h3).1 h4
  | neg a iha =>
    obtain ⟨x, h1, h2⟩ := except_bind_ok h
    exact pyNeg_lacks (iha he h1) h2
  | pow a n iha =>
    obtain ⟨x, h1, h2⟩ := except_bind_ok h
    exact pyPow_lacks (iha he h1) (build_ok hu a h1).1 h2

end Verif
