import Verif.Lemmas.Constraint

/-! Values of nomials at points where some variables are zero. -/

set_option linter.unusedSectionVars false

namespace Verif
open PyDict

variable {V D : Type} [DecidableEq V] [AddCommGroup D] [DecidableEq D]

theorem set_filter {α β : Type} [DecidableEq α] (P : α → Bool) {k : α} (hk : P k = false) (x : β) :
    ∀ d : PyDict α β, (PyDict.set d k x).filter (fun e => P e.1) = d.filter (fun e => P e.1)
  | [] => by simp [PyDict.set, hk]
  | (k', v') :: d => by
    unfold PyDict.set
    by_cases h : (k' == k) = true
    · rw [if_pos h]
      rw [List.filter_cons, List.filter_cons]
      have : P k' = false := by rw [eq_of_beq h]; exact hk
      simp [this]
    · rw [if_neg h, List.filter_cons, List.filter_cons, set_filter P hk x d]

theorem del_filter {α β : Type} [DecidableEq α] (P : α → Bool) {k : α} (hk : P k = false) :
    ∀ d : PyDict α β, (PyDict.del d k).filter (fun e => P e.1) = d.filter (fun e => P e.1)
  | [] => by simp [PyDict.del]
  | (k', v') :: d => by
    unfold PyDict.del
    by_cases h : (k' == k) = true
    · rw [if_pos h, List.filter_cons]
      have : P k' = false := by rw [eq_of_beq h]; exact hk
      simp [this]
    · rw [if_neg h, List.filter_cons, List.filter_cons, del_filter P hk d]

theorem dictAdd_filter {α : Type} [DecidableEq α] (P : α → Bool) : ∀ (b : PyDict α ℝ), (∀ e ∈ b, P e.1 = false) → ∀ a : PyDict α ℝ,
    (dictAdd a b).filter (fun e => P e.1) = a.filter (fun e => P e.1)
  | [], _, a => rfl
  | e :: b, hb, a => by
    have hs := dictAdd_filter P b (fun x hx => hb x (by simp [hx]))
    have he := hb e (by simp)
    unfold dictAdd at *
    rw [List.foldl_cons, hs]
    split
    · split
      · exact del_filter P he a
      · exact set_filter P he _ a
    · exact set_filter P he _ a

/-- Values that are not positive, replaced by one. -/
noncomputable def lifted (pt : V → ℝ) : V → ℝ := fun v => if 0 < pt v then pt v else 1

theorem lifted_pos (pt : V → ℝ) (v : V) : 0 < lifted pt v := by
  unfold lifted
  split
  · assumption
  · exact one_pos

theorem monVal_lifted (pt : V → ℝ) : ∀ e : List (V × ℝ), monVal pt e = monVal (lifted pt) e * monVal pt (e.filter (fun x => decide (¬ 0 < pt x.1)))
  | [] => by simp [monVal]
  | x :: e => by
    have ih := monVal_lifted pt e
    unfold monVal at *
    rw [List.map_cons, List.prod_cons, List.map_cons, List.prod_cons, ih, List.filter_cons]
    by_cases h : 0 < pt x.1
    · simp [h, lifted, mul_assoc]
    · simp [h, lifted]
      ring

theorem monVal_lifted_of_pos {pt : V → ℝ} {e : List (V × ℝ)} (h : ∀ x ∈ e, 0 < pt x.1) : monVal (lifted pt) e = monVal pt e := by
  unfold monVal
  congr 1
  refine List.map_congr_left fun x hx => ?_
  simp [lifted, h x hx]

theorem sub_filter {pt : V → ℝ} {b : HV V ℝ} (hb : ∀ x ∈ b.items, 0 < pt x.1) (a : HV V ℝ) :
    (a.sub b).items.filter (fun x => decide (¬ 0 < pt x.1)) = a.items.filter (fun x => decide (¬ 0 < pt x.1)) := by
  unfold HV.sub HV.add
  refine dictAdd_filter (fun v => decide (¬ 0 < pt v)) _ ?_ _
  intro e he
  unfold HV.scale dictScale at he
  obtain ⟨x, hx, rfl⟩ := List.mem_map.1 he
  simpa using hb x hx

/-- Dividing by a monomial whose variables are positive. -/
theorem monVal_sub_on {pt : V → ℝ} {b : HV V ℝ} (hb : ∀ x ∈ b.items, 0 < pt x.1) (a : HV V ℝ) :
    monVal pt (a.sub b).items * monVal pt b.items = monVal pt a.items := by
  rw [monVal_lifted pt (a.sub b).items, sub_filter hb, ← monVal_lifted_of_pos hb, monVal_lifted pt a.items, monVal_sub (lifted_pos pt)]
  have := (monVal_pos (lifted_pos pt) b.items).ne'
  field_simp

theorem monVal_pos_on {pt : V → ℝ} {e : List (V × ℝ)} (h : ∀ x ∈ e, 0 < pt x.1) : 0 < monVal pt e := by
  rw [← monVal_lifted_of_pos h]
  exact monVal_pos (lifted_pos pt) e

theorem monVal_nonneg {pt : V → ℝ} (h : ∀ v, 0 ≤ pt v) (e : List (V × ℝ)) : 0 ≤ monVal pt e := by
  unfold monVal
  refine List.prod_nonneg ?_
  intro x hx
  obtain ⟨y, -, rfl⟩ := List.mem_map.1 hx
  exact Real.rpow_nonneg (h _) _

theorem quotient_val_on {pt : V → ℝ} {mexp : HV V ℝ} (hpt : ∀ x ∈ mexp.items, 0 < pt x.1) {mc : ℝ} (hmc : mc ≠ 0)
    (ts : PyDict (HV V ℝ) ℝ) :
    termsVal pt (ts.map (fun t => (t.1.sub mexp, t.2 / mc))) * (mc * monVal pt mexp.items) = termsVal pt ts := by
  induction ts with
  | nil => simp
  | cons t ts ih =>
    rw [List.map_cons, termsVal_cons, termsVal_cons, add_mul, ih, ← monVal_sub_on hpt t.1]
    congr 1
    field_simp
/-- No value is negative and the variables of `m` have positive values. -/
def PosOn (m : HV V ℝ) (pt : V → ℝ) : Prop := (∀ v, 0 ≤ pt v) ∧ ∀ x ∈ m.items, 0 < pt x.1

theorem posOn_of_pos {pt : V → ℝ} (h : ∀ v, 0 < pt v) (m : HV V ℝ) : PosOn m pt := ⟨fun v => (h v).le, fun x _ => h x.1⟩

end Verif
