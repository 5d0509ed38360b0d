import Verif.Lemmas.PyDict
import Verif.Spec.Eval
import Mathlib.Tactic.FieldSimp
import Mathlib.Tactic.Linarith

/-! Lemmas about exponent vectors and coefficient maps. -/

set_option linter.unusedSectionVars false

namespace Verif
open PyDict

section Generic
variable {V K : Type} [DecidableEq V] [DecidableEq K]

theorem HV.beq_iff {a b : HV V K} : (a == b) = true ↔ a.items.Perm b.items := by
  show a.items.isPerm b.items = true ↔ _
  exact List.isPerm_iff

theorem HV.beq_def (a b : HV V K) : (a == b) = a.items.isPerm b.items := rfl

instance : EquivBEq (HV V K) where
  rfl := HV.beq_iff.2 (List.Perm.refl _)
  symm h := HV.beq_iff.2 (HV.beq_iff.1 h).symm
  trans h1 h2 := HV.beq_iff.2 ((HV.beq_iff.1 h1).trans (HV.beq_iff.1 h2))

end Generic

section DictAdd
variable {α K : Type} [BEq α] [Field K] [DecidableEq K]

/-- The step of `dictAdd`. -/
def dictAddStep (sums : PyDict α K) (kv : α × K) : PyDict α K :=
  match sums.get? kv.1 with
  | some svalue => if kv.2 = -svalue then sums.del kv.1 else sums.set kv.1 (kv.2 + svalue)
  | none => sums.set kv.1 kv.2

theorem dictAdd_eq (a b : PyDict α K) : dictAdd a b = b.foldl dictAddStep a := rfl

theorem dictAdd_nil (a : PyDict α K) : dictAdd a [] = a := rfl

theorem dictAdd_cons (a : PyDict α K) (kv : α × K) (b : PyDict α K) :
    dictAdd a (kv :: b) = dictAdd (dictAddStep a kv) b := rfl

theorem wsum_dictAddStep {f : α → K} (hf : Respects f) (a : PyDict α K) (kv : α × K) :
    wsum f (dictAddStep a kv) = wsum f a + kv.2 * f kv.1 := by
  unfold dictAddStep
  cases h : a.get? kv.1 with
  | none => simp only; rw [wsum_set hf, h]; simp
  | some s =>
    simp only
    by_cases h2 : kv.2 = -s
    · rw [if_pos h2, wsum_del hf, h, h2]; simp; ring
    · rw [if_neg h2, wsum_set hf, h]; simp; ring

theorem wsum_dictAdd {f : α → K} (hf : Respects f) (a b : PyDict α K) :
    wsum f (dictAdd a b) = wsum f a + wsum f b := by
  induction b generalizing a with
  | nil => simp [dictAdd_nil]
  | cons kv b ih => rw [dictAdd_cons, ih, wsum_dictAddStep hf, wsum_cons]; ring

omit [BEq α] [DecidableEq K] in
theorem wsum_dictScale (f : α → K) (a : PyDict α K) (c : K) :
    wsum f (dictScale a c) = c * wsum f a := by
  induction a with
  | nil => simp [dictScale]
  | cons p a ih =>
    have : dictScale (p :: a) c = (p.1, p.2 * c) :: dictScale a c := rfl
    rw [this, wsum_cons, wsum_cons, ih]; ring

end DictAdd

theorem respects_lawful {V K : Type} [DecidableEq V] [CommRing K] (f : V → K) : Respects f := by
  intro a b h; rw [beq_iff_eq.1 h]

section Eval
variable {V D : Type} [DecidableEq V]

theorem monVal_eq_exp {pt : V → ℝ} (hpt : ∀ v, 0 < pt v) (e : List (V × ℝ)) :
    monVal pt e = Real.exp (wsum (fun k => Real.log (pt k)) e) := by
  induction e with
  | nil => simp [monVal]
  | cons p e ih =>
    have : monVal pt (p :: e) = pt p.1 ^ p.2 * monVal pt e := by simp [monVal]
    rw [this, ih, wsum_cons, Real.exp_add, Real.rpow_def_of_pos (hpt _), mul_comm p.2]

theorem monVal_pos {pt : V → ℝ} (hpt : ∀ v, 0 < pt v) (e : List (V × ℝ)) : 0 < monVal pt e := by
  rw [monVal_eq_exp hpt]; exact Real.exp_pos _

theorem monVal_perm {pt : V → ℝ} {e e' : List (V × ℝ)} (h : e.Perm e') : monVal pt e = monVal pt e' :=
  (h.map _).prod_eq

theorem monVal_respects (pt : V → ℝ) : Respects (fun e : HV V ℝ => monVal pt e.items) := by
  intro a b h; exact monVal_perm (HV.beq_iff.1 h)

theorem termsVal_eq_wsum (pt : V → ℝ) (ts : PyDict (HV V ℝ) ℝ) :
    termsVal pt ts = wsum (fun e => monVal pt e.items) ts := rfl

@[simp] theorem termsVal_nil (pt : V → ℝ) : termsVal pt ([] : PyDict (HV V ℝ) ℝ) = 0 := rfl
@[simp] theorem termsVal_cons (pt : V → ℝ) (t : HV V ℝ × ℝ) (ts : PyDict (HV V ℝ) ℝ) :
    termsVal pt (t :: ts) = t.2 * monVal pt t.1.items + termsVal pt ts := by simp [termsVal]

theorem monVal_add {pt : V → ℝ} (hpt : ∀ v, 0 < pt v) (a b : HV V ℝ) :
    monVal pt (a.add b).items = monVal pt a.items * monVal pt b.items := by
  rw [monVal_eq_exp hpt, monVal_eq_exp hpt, monVal_eq_exp hpt, ← Real.exp_add]
  unfold HV.add
  rw [wsum_dictAdd (respects_lawful _)]

theorem monVal_scale {pt : V → ℝ} (hpt : ∀ v, 0 < pt v) (a : HV V ℝ) (c : ℝ) :
    monVal pt (a.scale c).items = monVal pt a.items ^ c := by
  rw [monVal_eq_exp hpt, monVal_eq_exp hpt, ← Real.exp_mul]
  unfold HV.scale
  rw [wsum_dictScale, mul_comm]

theorem monVal_sub {pt : V → ℝ} (hpt : ∀ v, 0 < pt v) (a b : HV V ℝ) :
    monVal pt (a.sub b).items = monVal pt a.items / monVal pt b.items := by
  unfold HV.sub
  rw [monVal_add hpt, monVal_scale hpt, Real.rpow_neg_one, div_eq_mul_inv]

theorem termsVal_dictAdd (pt : V → ℝ) (a b : PyDict (HV V ℝ) ℝ) :
    termsVal pt (dictAdd a b) = termsVal pt a + termsVal pt b := by
  rw [termsVal_eq_wsum, wsum_dictAdd (monVal_respects pt)]; rfl

theorem termsVal_dictScale (pt : V → ℝ) (a : PyDict (HV V ℝ) ℝ) (c : ℝ) :
    termsVal pt (dictScale a c) = c * termsVal pt a := by
  rw [termsVal_eq_wsum, wsum_dictScale]; rfl

theorem termsVal_mulStep {pt : V → ℝ} (hpt : ∀ v, 0 < pt v) (e1 : HV V ℝ) (c1 : ℝ)
    (acc : PyDict (HV V ℝ) ℝ) (t : HV V ℝ × ℝ) :
    termsVal pt (Nomial.mulStep e1 c1 acc t) =
      termsVal pt acc + c1 * monVal pt e1.items * (t.2 * monVal pt t.1.items) := by
  unfold Nomial.mulStep
  simp only
  have hf := monVal_respects pt
  have hm : c1 * monVal pt e1.items * (t.2 * monVal pt t.1.items)
      = c1 * t.2 * monVal pt (e1.add t.1).items := by rw [monVal_add hpt]; ring
  rw [hm]
  split_ifs with h1 h2
  · rw [termsVal_eq_wsum, wsum_set hf, ← termsVal_eq_wsum]; ring
  · rw [termsVal_eq_wsum, wsum_del hf, ← termsVal_eq_wsum]
    have : (acc.get? (e1.add t.1)).getD 0 = -(c1 * t.2) := by linarith [not_not.1 h1]
    rw [this]; ring
  · simp only [not_not] at h1 h2
    rw [h2] at h1
    rw [h1]; simp

theorem termsVal_mulInner {pt : V → ℝ} (hpt : ∀ v, 0 < pt v) (e1 : HV V ℝ) (c1 : ℝ)
    (b acc : PyDict (HV V ℝ) ℝ) :
    termsVal pt (b.foldl (Nomial.mulStep e1 c1) acc) =
      termsVal pt acc + c1 * monVal pt e1.items * termsVal pt b := by
  induction b generalizing acc with
  | nil => simp
  | cons t b ih => rw [List.foldl_cons, ih, termsVal_mulStep hpt, termsVal_cons]; ring

theorem termsVal_mulOuter {pt : V → ℝ} (hpt : ∀ v, 0 < pt v) (a b acc : PyDict (HV V ℝ) ℝ) :
    termsVal pt (a.foldl (fun acc s => b.foldl (Nomial.mulStep s.1 s.2) acc) acc) =
      termsVal pt acc + termsVal pt a * termsVal pt b := by
  induction a generalizing acc with
  | nil => simp
  | cons s a ih => rw [List.foldl_cons, ih, termsVal_mulInner hpt, termsVal_cons]; ring

theorem termsVal_mulTerms {pt : V → ℝ} (hpt : ∀ v, 0 < pt v) (a b : PyDict (HV V ℝ) ℝ) :
    termsVal pt (Nomial.mulTerms a b) = termsVal pt a * termsVal pt b := by
  unfold Nomial.mulTerms; rw [termsVal_mulOuter hpt]; simp

section Units
variable [AddCommGroup D] [DecidableEq D]

theorem ofProduct_fst_none {a b : UnitQ D ℝ} {u f} (h : ofProduct a b = (u, some f)) :
    u = none ∧ f = a.scale * b.scale ∧ a.dim + b.dim = 0 := by
  unfold ofProduct UnitQ.float UnitQ.mul at h
  by_cases hd : a.dim + b.dim = 0
  · simp [hd] at h; exact ⟨h.1.symm, h.2.symm, hd⟩
  · simp [hd] at h

theorem ofProduct_snd_none {a b : UnitQ D ℝ} {u} (h : ofProduct a b = (u, none)) :
    u = some (a.mul b) ∧ a.dim + b.dim ≠ 0 := by
  unfold ofProduct UnitQ.float UnitQ.mul at h
  by_cases hd : a.dim + b.dim = 0
  · simp [hd] at h
  · simp [hd] at h; exact ⟨h.symm, hd⟩

theorem physVal_unitsOfProduct (pt : V → ℝ) (h : NMap V ℝ D) (u1 u2 : Option (UnitQ D ℝ)) :
    physVal pt (h.unitsOfProduct u1 u2) = unitScale u1 * unitScale u2 * termsVal pt h.terms := by
  unfold NMap.unitsOfProduct
  match u1, u2 with
  | none, none => simp [physVal, unitScale]
  | some a, none => simp [physVal, unitScale]
  | none, some b => simp [physVal, unitScale]
  | some a, some b =>
    simp only
    match hp : ofProduct a b with
    | (u, some conv) =>
      obtain ⟨rfl, rfl, _⟩ := ofProduct_fst_none hp
      simp only [physVal, unitScale]
      have := termsVal_dictScale pt h.terms (a.scale * b.scale)
      unfold dictScale at this
      rw [this]; ring
    | (u, none) =>
      obtain ⟨rfl, _⟩ := ofProduct_snd_none hp
      simp [physVal, unitScale, UnitQ.mul]

theorem unitDim_unitsOfProduct (h : NMap V ℝ D) (u1 u2 : Option (UnitQ D ℝ)) :
    unitDim (h.unitsOfProduct u1 u2).units = unitDim u1 + unitDim u2 := by
  unfold NMap.unitsOfProduct
  match u1, u2 with
  | none, none => simp [unitDim]
  | some a, none => simp [unitDim]
  | none, some b => simp [unitDim]
  | some a, some b =>
    simp only
    match hp : ofProduct a b with
    | (u, some conv) =>
      obtain ⟨rfl, rfl, h0⟩ := ofProduct_fst_none hp
      simp [unitDim, h0]
    | (u, none) =>
      obtain ⟨rfl, _⟩ := ofProduct_snd_none hp
      simp [unitDim, UnitQ.mul]

theorem unitOK_unitsOfProduct {h : NMap V ℝ D} {u1 u2 : Option (UnitQ D ℝ)}
    (h1 : UnitOK u1) (h2 : UnitOK u2) : UnitOK (h.unitsOfProduct u1 u2).units := by
  unfold NMap.unitsOfProduct
  match u1, u2 with
  | none, none => simp [UnitOK, unitScale]
  | some a, none => exact h1
  | none, some b => exact h2
  | some a, some b =>
    simp only
    match hp : ofProduct a b with
    | (u, some conv) =>
      obtain ⟨rfl, rfl, _⟩ := ofProduct_fst_none hp
      simp [UnitOK, unitScale]
    | (u, none) =>
      obtain ⟨rfl, _⟩ := ofProduct_snd_none hp
      exact mul_pos h1 h2

theorem NMap.add_ok {a b h : NMap V ℝ D} (hh : a.add b = .ok h) :
    h.units = a.units ∧ unitDim a.units = unitDim b.units := by
  unfold NMap.add at hh
  split_ifs at hh with hu
  · cases hh; exact ⟨rfl, by rw [hu]⟩
  · cases hua : a.units with
    | none => rw [hua] at hh; simp at hh
    | some ua =>
      cases hub : b.units with
      | none => rw [hua, hub] at hh; simp at hh
      | some ub =>
        rw [hua, hub] at hh
        simp only [UnitQ.float, UnitQ.mul, UnitQ.inv] at hh
        by_cases hd : ub.dim + -ua.dim = 0
        · simp only [hd, if_true] at hh
          injection hh with hh
          subst hh
          exact ⟨rfl, by simpa [unitDim] using (add_neg_eq_zero.1 hd).symm⟩
        · simp [hd] at hh

theorem physVal_add {pt : V → ℝ} {a b h : NMap V ℝ D} (ha : UnitOK a.units)
    (hh : a.add b = .ok h) : physVal pt h = physVal pt a + physVal pt b := by
  unfold NMap.add at hh
  split_ifs at hh with hu
  · cases hh; simp only [physVal]; rw [termsVal_dictAdd, ← hu]; ring
  · cases hua : a.units with
    | none => rw [hua] at hh; simp at hh
    | some ua =>
      cases hub : b.units with
      | none => rw [hua, hub] at hh; simp at hh
      | some ub =>
        rw [hua, hub] at hh
        simp only [UnitQ.float, UnitQ.mul, UnitQ.inv] at hh
        by_cases hd : ub.dim + -ua.dim = 0
        · simp only [hd, if_true] at hh
          injection hh with hh
          subst hh
          rw [hua] at ha
          have hs : ua.scale ≠ 0 := ne_of_gt ha
          simp only [physVal, hua, hub, unitScale]
          rw [termsVal_dictAdd, termsVal_dictScale]
          field_simp
        · simp [hd] at hh

theorem mkSig_ok {se rp : Bool} {h : NMap V ℝ D} {n : Nomial V ℝ D} (hn : mkSig se rp h = .ok n) :
    n.hmap = h := by
  unfold mkSig at hn
  split_ifs at hn <;> (cases hn; rfl)

end Units
end Eval
end Verif
