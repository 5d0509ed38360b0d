import Verif.Lemmas.Nomial
import Verif.Spec.Shape

/-! Each operator commutes with evaluation and keeps classes truthful. -/

set_option linter.unusedSectionVars false

namespace Verif
open PyDict

variable {V D : Type} [DecidableEq V] [AddCommGroup D] [DecidableEq D]

/-- Invariant of the values arithmetic produces. -/
def PyVal.Good : PyVal V ℝ D → Prop
  | .num q => UnitOK q.units
  | .nom n => UnitOK n.hmap.units ∧ n.ClassTrue

theorem mkSig_classTrue {se rp : Bool} {h : NMap V ℝ D} {n : Nomial V ℝ D}
    (hn : mkSig se rp h = .ok n) : n.ClassTrue := by
  unfold mkSig at hn
  by_cases h1 : h.anyNonpositive
  · rw [if_pos h1] at hn
    by_cases h2 : (rp && !se) = true
    · rw [if_pos h2] at hn; cases hn
    · rw [if_neg h2] at hn; cases hn
      have h3 : ∃ t ∈ h.terms, t.2 ≤ 0 := by
        simpa [NMap.anyNonpositive, List.any_eq_true] using h1
      refine ⟨⟨by simp, ?_⟩, ⟨fun _ => h3, fun _ => rfl⟩, ⟨by simp, ?_⟩⟩
      · rintro ⟨e, c, hx, hc⟩
        obtain ⟨t, ht, h0⟩ := h3
        simp only at hx
        rw [hx] at ht
        simp at ht; subst ht; exact absurd h0 (not_le.2 hc)
      · rintro ⟨hp, _⟩
        obtain ⟨t, ht, h0⟩ := h3
        exact absurd h0 (not_le.2 (hp t ht))
  · rw [if_neg h1] at hn
    have h3 : ∀ t ∈ h.terms, 0 < t.2 := by
      simp only [NMap.anyNonpositive, List.any_eq_true, not_exists, not_and, Bool.not_eq_true] at h1
      intro t ht
      have := h1 t ht
      simpa using this
    by_cases hl : h.terms.length = 1
    · rw [if_pos hl] at hn; cases hn
      obtain ⟨⟨e, c⟩, hx⟩ := List.length_eq_one_iff.1 hl
      have hc := h3 (e, c) (by rw [hx]; simp)
      refine ⟨⟨fun _ => ⟨e, c, hx, hc⟩, fun _ => rfl⟩, ⟨by simp, ?_⟩, ⟨by simp, ?_⟩⟩
      · rintro ⟨t, ht, h0⟩; exact absurd h0 (not_le.2 (h3 t ht))
      · rintro ⟨_, h0⟩; exact absurd hl h0
    · rw [if_neg hl] at hn; cases hn
      refine ⟨⟨by simp, ?_⟩, ⟨by simp, ?_⟩, ⟨fun _ => ⟨h3, hl⟩, fun _ => rfl⟩⟩
      · rintro ⟨e, c, hx, hc⟩; simp only at hx; rw [hx] at hl; simp at hl
      · rintro ⟨t, ht, h0⟩; exact absurd h0 (not_le.2 (h3 t ht))

theorem mkSig_allPos {rp : Bool} {h : NMap V ℝ D} {n : Nomial V ℝ D} (hrp : rp = true)
    (hn : mkSig false rp h = .ok n) : n.AllPos := by
  unfold mkSig at hn
  by_cases h1 : h.anyNonpositive
  · rw [if_pos h1, hrp] at hn; simp at hn
  · rw [if_neg h1] at hn
    have h3 : ∀ t ∈ h.terms, 0 < t.2 := by
      simp only [NMap.anyNonpositive, List.any_eq_true, not_exists, not_and, Bool.not_eq_true] at h1
      intro t ht; simpa using h1 t ht
    split_ifs at hn <;> (cases hn; exact h3)

theorem good_mkSig {se rp : Bool} {h : NMap V ℝ D} {n : Nomial V ℝ D}
    (hu : UnitOK h.units) (hn : mkSig se rp h = .ok n) : (PyVal.nom n).Good :=
  ⟨by rw [mkSig_ok hn]; exact hu, mkSig_classTrue hn⟩

theorem except_bind_ok {α β ε : Type} {x : Except ε α} {f : α → Except ε β} {b : β}
    (h : (x >>= f) = .ok b) : ∃ a, x = .ok a ∧ f a = .ok b := by
  cases x with
  | error e => cases h
  | ok a => exact ⟨a, rfl, h⟩

theorem physVal_numMap (pt : V → ℝ) (q : PyQ D ℝ) :
    physVal pt (numMap q : NMap V ℝ D) = unitScale q.units * q.mag := by
  simp [physVal, numMap, HV.empty, monVal]

theorem addNum_ok {se : Bool} {a n : Nomial V ℝ D} {q : PyQ D ℝ}
    (ha : (PyVal.nom a).Good) (h : a.addNum se q = .ok n) :
    (PyVal.nom n).Good ∧
      ∀ pt, physVal pt n.hmap = physVal pt a.hmap + unitScale q.units * q.mag := by
  unfold Nomial.addNum at h
  by_cases h0 : q.mag = 0
  · rw [if_pos h0] at h
    exact ⟨good_mkSig ha.1 h, fun pt => by rw [mkSig_ok h, h0]; ring⟩
  · rw [if_neg h0] at h
    obtain ⟨m, h1, h2⟩ := except_bind_ok h
    have hu : UnitOK m.units := by rw [(NMap.add_ok h1).1]; exact ha.1
    exact ⟨good_mkSig hu h2, fun pt => by
      rw [mkSig_ok h2, physVal_add ha.1 h1, physVal_numMap]⟩

theorem add_ok {se : Bool} {a b n : Nomial V ℝ D} (ha : (PyVal.nom a).Good)
    (hb : (PyVal.nom b).Good) (h : a.add se b = .ok n) :
    (PyVal.nom n).Good ∧ ∀ pt, physVal pt n.hmap = physVal pt a.hmap + physVal pt b.hmap := by
  unfold Nomial.add at h
  split_ifs at h with h1 h2 h3
  · obtain ⟨m, h4, h5⟩ := except_bind_ok h
    have hu : UnitOK m.units := by rw [(NMap.add_ok h4).1]; exact hb.1
    exact ⟨good_mkSig hu h5, fun pt => by rw [mkSig_ok h5, physVal_add hb.1 h4]; ring⟩
  · obtain ⟨m, h4, h5⟩ := except_bind_ok h
    have hu : UnitOK m.units := by rw [(NMap.add_ok h4).1]; exact ha.1
    exact ⟨good_mkSig hu h5, fun pt => by rw [mkSig_ok h5, physVal_add ha.1 h4]⟩

theorem mulNum_ok {se : Bool} {a : Nomial V ℝ D} {q : PyQ D ℝ} {r : PyVal V ℝ D}
    (ha : (PyVal.nom a).Good) (hq : UnitOK q.units) (h : a.mulNum se q = .ok r) :
    r.Good ∧ ∀ pt, r.phys pt = physVal pt a.hmap * (unitScale q.units * q.mag) := by
  unfold Nomial.mulNum at h
  by_cases h0 : q.mag = 0
  · rw [if_pos h0] at h
    cases h
    exact ⟨hq, fun pt => by simp [PyVal.phys, h0]⟩
  · rw [if_neg h0] at h
    obtain ⟨m, h1, h2⟩ := except_bind_ok h
    cases h2
    refine ⟨good_mkSig (unitOK_unitsOfProduct ha.1 hq) h1, fun pt => ?_⟩
    rw [PyVal.phys, mkSig_ok h1, physVal_unitsOfProduct]
    simp only [NMap.scale, physVal]
    rw [termsVal_dictScale]; ring

theorem mul_ok {se : Bool} {a b n : Nomial V ℝ D} (ha : (PyVal.nom a).Good)
    (hb : (PyVal.nom b).Good) (h : a.mul se b = .ok n) :
    (PyVal.nom n).Good ∧
      ∀ pt, (∀ v, 0 < pt v) → physVal pt n.hmap = physVal pt a.hmap * physVal pt b.hmap := by
  unfold Nomial.mul at h
  refine ⟨good_mkSig (unitOK_unitsOfProduct ha.1 hb.1) h, fun pt hpt => ?_⟩
  rw [mkSig_ok h, physVal_unitsOfProduct]
  simp only [physVal]
  rw [termsVal_mulTerms hpt]; ring

theorem neg_ok {se : Bool} {a : Nomial V ℝ D} {r : PyVal V ℝ D} (ha : (PyVal.nom a).Good)
    (h : a.neg se = .ok r) : r.Good ∧ ∀ pt, r.phys pt = -physVal pt a.hmap := by
  unfold Nomial.neg at h
  split_ifs at h
  have hq : UnitOK (⟨-1, none⟩ : PyQ D ℝ).units := by simp [UnitOK, unitScale]
  obtain ⟨h1, h2⟩ := mulNum_ok ha hq h
  exact ⟨h1, fun pt => by rw [h2]; simp [unitScale]⟩

theorem monoPow_ok [Module ℝ D] {se : Bool} {a n : Nomial V ℝ D} {x : ℝ} (ha : (PyVal.nom a).Good)
    (hm : a.cls = .monomial) (h : a.monoPow se x = .ok n) :
    (PyVal.nom n).Good ∧
      ∀ pt, (∀ v, 0 < pt v) → physVal pt n.hmap = physVal pt a.hmap ^ x := by
  obtain ⟨e, c, hx, hc⟩ := ha.2.1.1 hm
  unfold Nomial.monoPow at h
  rw [hx] at h
  simp only at h
  have hs := ha.1
  by_cases h0 : x = 0
  · simp only [h0, ne_eq, not_true_eq_false, if_false] at h
    refine ⟨good_mkSig (by simp [UnitOK, unitScale]) h, fun pt hpt => ?_⟩
    rw [mkSig_ok h]
    simp [physVal, unitScale, HV.empty, monVal, pw_real, h0]
  · simp only [ne_eq, h0, not_false_eq_true, if_true] at h
    have hu : UnitOK (a.hmap.units.map (fun u => u.pow x)) := by
      cases hau : a.hmap.units with
      | none => simp [UnitOK, unitScale]
      | some u =>
        rw [hau] at hs
        exact Real.rpow_pos_of_pos hs x
    refine ⟨good_mkSig hu h, fun pt hpt => ?_⟩
    rw [mkSig_ok h]
    have hus : unitScale (a.hmap.units.map (fun u => u.pow x)) = unitScale a.hmap.units ^ x := by
      cases hau : a.hmap.units with
      | none => simp [unitScale]
      | some u => simp [unitScale, UnitQ.pow, pw_real]
    have hmp := monVal_pos hpt e.items
    simp only [physVal, hx, hus]
    simp only [termsVal_cons, termsVal_nil, add_zero, pw_real]
    rw [monVal_scale hpt, Real.mul_rpow (le_of_lt hs) (by positivity), Real.mul_rpow hc.le hmp.le]

theorem powLoop_ok {se : Bool} {a : Nomial V ℝ D} (ha : (PyVal.nom a).Good) (n : ℕ)
    {r : PyVal V ℝ D} (h : a.powLoop se n = .ok r) :
    r.Good ∧ ∀ pt, (∀ v, 0 < pt v) → r.phys pt = physVal pt a.hmap ^ n := by
  induction n generalizing r with
  | zero =>
    cases h
    exact ⟨by simp [PyVal.Good, UnitOK, unitScale], fun pt _ => by simp [PyVal.phys, unitScale]⟩
  | succ n ih =>
    obtain ⟨p, h1, h2⟩ := except_bind_ok h
    obtain ⟨hg, hp⟩ := ih h1
    cases p with
    | num q =>
      obtain ⟨h3, h4⟩ := mulNum_ok ha hg h2
      refine ⟨h3, fun pt hpt => ?_⟩
      rw [h4, pow_succ, ← hp pt hpt, PyVal.phys]; ring
    | nom m =>
      obtain ⟨k, h3, h4⟩ := except_bind_ok h2
      cases h4
      obtain ⟨h5, h6⟩ := mul_ok hg ha h3
      refine ⟨h5, fun pt hpt => ?_⟩
      rw [PyVal.phys, h6 pt hpt, pow_succ, ← hp pt hpt, PyVal.phys]

theorem sigPow_ok {se : Bool} {a : Nomial V ℝ D} (ha : (PyVal.nom a).Good) {x : PyExpo ℝ}
    {r : PyVal V ℝ D} (h : a.sigPow se x = .ok r) :
    r.Good ∧ ∀ pt, (∀ v, 0 < pt v) → r.phys pt = physVal pt a.hmap ^ x.toK := by
  cases x with
  | float y => cases h
  | int z =>
    unfold Nomial.sigPow at h
    dsimp only at h
    split_ifs at h with hz
    obtain ⟨p, h1, h2⟩ := except_bind_ok h
    obtain ⟨hg, hp⟩ := powLoop_ok ha _ h1
    cases p with
    | num q => cases h2
    | nom m =>
      cases h2
      refine ⟨hg, fun pt hpt => ?_⟩
      rw [hp pt hpt]
      have : ((z.toNat : ℤ)) = z := Int.toNat_of_nonneg (not_lt.1 hz)
      simp only [PyExpo.toK]
      conv_rhs => rw [← this]
      push_cast; simp

theorem pyAdd_ok {se : Bool} {a b r : PyVal V ℝ D} (ha : a.Good) (hb : b.Good)
    (h : PyVal.add se a b = .ok r) : r.Good ∧ ∀ pt, r.phys pt = a.phys pt + b.phys pt := by
  cases a with
  | num p =>
    cases b with
    | num q =>
      unfold PyVal.add PyVal.numOp at h
      dsimp only at h
      split_ifs at h with hu
      cases h
      exact ⟨by simp [PyVal.Good, UnitOK, unitScale], fun pt => by simp [PyVal.phys, hu.1, hu.2, unitScale]⟩
    | nom b =>
      obtain ⟨n, h1, h2⟩ := except_bind_ok h
      cases h2
      obtain ⟨h3, h4⟩ := addNum_ok hb h1
      exact ⟨h3, fun pt => by simp only [PyVal.phys]; rw [h4]; ring⟩
  | nom a =>
    cases b with
    | num q =>
      obtain ⟨n, h1, h2⟩ := except_bind_ok h
      cases h2
      obtain ⟨h3, h4⟩ := addNum_ok ha h1
      exact ⟨h3, fun pt => by simp only [PyVal.phys]; rw [h4]⟩
    | nom b =>
      obtain ⟨n, h1, h2⟩ := except_bind_ok h
      cases h2
      obtain ⟨h3, h4⟩ := add_ok ha hb h1
      exact ⟨h3, fun pt => by simp only [PyVal.phys]; rw [h4]⟩

theorem pyMul_ok {se : Bool} {a b r : PyVal V ℝ D} (ha : a.Good) (hb : b.Good)
    (h : PyVal.mul se a b = .ok r) :
    r.Good ∧ ∀ pt, (∀ v, 0 < pt v) → r.phys pt = a.phys pt * b.phys pt := by
  cases a with
  | num p =>
    cases b with
    | num q =>
      unfold PyVal.mul PyVal.numOp at h
      dsimp only at h
      split_ifs at h with hu
      cases h
      exact ⟨by simp [PyVal.Good, UnitOK, unitScale], fun pt _ => by simp [PyVal.phys, hu.1, hu.2, unitScale]⟩
    | nom b =>
      obtain ⟨h3, h4⟩ := mulNum_ok hb ha h
      exact ⟨h3, fun pt _ => by rw [h4]; simp only [PyVal.phys]; ring⟩
  | nom a =>
    cases b with
    | num q =>
      obtain ⟨h3, h4⟩ := mulNum_ok ha hb h
      exact ⟨h3, fun pt _ => by rw [h4]; simp only [PyVal.phys]⟩
    | nom b =>
      obtain ⟨n, h1, h2⟩ := except_bind_ok h
      cases h2
      obtain ⟨h3, h4⟩ := mul_ok ha hb h1
      exact ⟨h3, fun pt hpt => by simp only [PyVal.phys]; rw [h4 pt hpt]⟩

theorem pyNeg_ok {se : Bool} {a r : PyVal V ℝ D} (ha : a.Good) (h : PyVal.neg se a = .ok r) :
    r.Good ∧ ∀ pt, r.phys pt = -a.phys pt := by
  cases a with
  | num q => cases h; exact ⟨ha, fun pt => by simp [PyVal.phys]⟩
  | nom a => exact neg_ok ha h

theorem pySub_ok {se : Bool} {a b r : PyVal V ℝ D} (ha : a.Good) (hb : b.Good)
    (h : PyVal.sub se a b = .ok r) : r.Good ∧ ∀ pt, r.phys pt = a.phys pt - b.phys pt := by
  have key : ∀ a b : PyVal V ℝ D, a.Good → b.Good →
      (if se then (do PyVal.add se a (← PyVal.neg se b)) else .error .typeError) = .ok r →
      r.Good ∧ ∀ pt, r.phys pt = a.phys pt - b.phys pt := by
    intro a b ha hb h
    split_ifs at h
    obtain ⟨m, h1, h2⟩ := except_bind_ok h
    obtain ⟨h3, h4⟩ := pyNeg_ok hb h1
    obtain ⟨h5, h6⟩ := pyAdd_ok ha h3 h2
    exact ⟨h5, fun pt => by rw [h6, h4]; ring⟩
  cases a with
  | num p =>
    cases b with
    | num q =>
      unfold PyVal.sub PyVal.numOp at h
      dsimp only at h
      split_ifs at h with hu
      cases h
      exact ⟨by simp [PyVal.Good, UnitOK, unitScale], fun pt => by simp [PyVal.phys, hu.1, hu.2, unitScale]⟩
    | nom b => exact key _ _ ha hb h
  | nom a => cases b <;> exact key _ _ ha hb h

theorem rdiv_ok [Module ℝ D] {se : Bool} {a r : PyVal V ℝ D} {m : Nomial V ℝ D} (ha : a.Good)
    (hm : (PyVal.nom m).Good) (hc : m.cls = .monomial) (h : PyVal.rdiv se a m = .ok r) :
    r.Good ∧ ∀ pt, (∀ v, 0 < pt v) → r.phys pt = a.phys pt / physVal pt m.hmap := by
  obtain ⟨i, h1, h2⟩ := except_bind_ok h
  obtain ⟨h3, h4⟩ := monoPow_ok hm hc h1
  obtain ⟨p, h5, h6⟩ := except_bind_ok h2
  obtain ⟨h7, h8⟩ := pyMul_ok ha h3 h5
  cases p with
  | num q => cases h6
  | nom n =>
    cases h6
    refine ⟨h7, fun pt hpt => ?_⟩
    rw [h8 pt hpt, PyVal.phys.eq_2, h4 pt hpt, Real.rpow_neg_one]; rfl

theorem pyDiv_ok [Module ℝ D] {se : Bool} {a b r : PyVal V ℝ D} (ha : a.Good) (hb : b.Good)
    (h : PyVal.div se a b = .ok r) :
    r.Good ∧ ∀ pt, (∀ v, 0 < pt v) → r.phys pt = a.phys pt / b.phys pt := by
  cases b with
  | num q =>
    cases a with
    | num p =>
      unfold PyVal.div PyVal.numOp at h
      dsimp only at h
      split_ifs at h with h0 hu
      cases h
      exact ⟨by simp [PyVal.Good, UnitOK, unitScale], fun pt _ => by simp [PyVal.phys, hu.1, hu.2, unitScale]⟩
    | nom a =>
      unfold PyVal.div at h
      dsimp only at h
      split_ifs at h with h0
      have hq : 0 < unitScale q.units := hb
      have hiu : unitScale (q.units.map UnitQ.inv) = (unitScale q.units)⁻¹ := by
        cases q.units <;> simp [unitScale, UnitQ.inv]
      have hi : UnitOK (q.units.map UnitQ.inv) := by
        unfold UnitOK; rw [hiu]; exact inv_pos.2 hq
      obtain ⟨h1, h2⟩ := mulNum_ok ha (q := ⟨q.mag⁻¹, q.units.map UnitQ.inv⟩) hi h
      refine ⟨h1, fun pt _ => ?_⟩
      rw [h2]
      simp only [PyVal.phys, hiu]
      field_simp
  | nom m =>
    have h' : (if m.cls = .monomial then PyVal.rdiv se a m else .error .typeError) = .ok r := by
      cases a <;> exact h
    split_ifs at h' with hc
    exact rdiv_ok ha hb hc h'

theorem pyPow_ok [Module ℝ D] {se : Bool} {a r : PyVal V ℝ D} {x : PyExpo ℝ} (ha : a.Good)
    (h : PyVal.pow se a x = .ok r) :
    r.Good ∧ ∀ pt, (∀ v, 0 < pt v) → r.phys pt = a.phys pt ^ x.toK := by
  cases a with
  | num q =>
    unfold PyVal.pow at h
    simp only at h
    split_ifs at h with hz hk
    cases h
    refine ⟨by simp [PyVal.Good, UnitOK, unitScale], fun pt _ => ?_⟩
    simp only [PyVal.phys, not_not.1 hz, unitScale, one_mul, pw_real]
  | nom n =>
    unfold PyVal.pow at h
    simp only at h
    split_ifs at h with hc
    · obtain ⟨m, h1, h2⟩ := except_bind_ok h
      cases h2
      exact monoPow_ok ha hc h1
    · exact sigPow_ok ha h

theorem good_var {vunits : V → Option (UnitQ D ℝ)} (hu : ∀ v, UnitOK (vunits v)) (v : V) :
    (PyVal.nom (varNomial vunits v)).Good := by
  refine ⟨hu v, ?_⟩
  refine ⟨⟨fun _ => ⟨_, _, rfl, one_pos⟩, fun _ => rfl⟩, ⟨by simp [varNomial], ?_⟩, ⟨by simp [varNomial], ?_⟩⟩
  · rintro ⟨t, ht, h0⟩
    simp [varNomial] at ht; subst ht; norm_num at h0
  · rintro ⟨_, h0⟩; simp [varNomial] at h0

theorem build_ok [Module ℝ D] {se : Bool} {vunits : V → Option (UnitQ D ℝ)}
    (hu : ∀ v, UnitOK (vunits v)) (e : Expr V) {r : PyVal V ℝ D} (h : e.build se vunits = .ok r) :
    r.Good ∧ ∀ pt, (∀ v, 0 < pt v) → r.phys pt = e.denote (fun v => unitScale (vunits v) * pt v) := by
  induction e generalizing r with
  | var v =>
    cases h
    exact ⟨good_var hu v, fun pt hpt => by simp [PyVal.phys, physVal, varNomial, monVal, Expr.denote]⟩
  | num c => cases h; exact ⟨by simp [PyVal.Good, UnitOK, unitScale], fun pt _ => by simp [PyVal.phys, unitScale, Expr.denote]⟩
  | add a b iha ihb =>
    obtain ⟨x, h1, h2⟩ := except_bind_ok h
    obtain ⟨y, h3, h4⟩ := except_bind_ok h2
    obtain ⟨g1, e1⟩ := iha h1
    obtain ⟨g2, e2⟩ := ihb h3
    obtain ⟨g3, e3⟩ := pyAdd_ok g1 g2 h4
    exact ⟨g3, fun pt hpt => by rw [e3, e1 pt hpt, e2 pt hpt]; rfl⟩
  | sub a b iha ihb =>
    obtain ⟨x, h1, h2⟩ := except_bind_ok h
    obtain ⟨y, h3, h4⟩ := except_bind_ok h2
    obtain ⟨g1, e1⟩ := iha h1
    obtain ⟨g2, e2⟩ := ihb h3
    obtain ⟨g3, e3⟩ := pySub_ok g1 g2 h4
    exact ⟨g3, fun pt hpt => by rw [e3, e1 pt hpt, e2 pt hpt]; rfl⟩
  | mul a b iha ihb =>
    obtain ⟨x, h1, h2⟩ := except_bind_ok h
    obtain ⟨y, h3, h4⟩ := except_bind_ok h2
    obtain ⟨g1, e1⟩ := iha h1
    obtain ⟨g2, e2⟩ := ihb h3
    obtain ⟨g3, e3⟩ := pyMul_ok g1 g2 h4
    exact ⟨g3, fun pt hpt => by rw [e3 pt hpt, e1 pt hpt, e2 pt hpt]; rfl⟩
  | div a b iha ihb =>
    obtain ⟨x, h1, h2⟩ := except_bind_ok h
    obtain ⟨y, h3, h4⟩ := except_bind_ok h2
    obtain ⟨g1, e1⟩ := iha h1
    obtain ⟨g2, e2⟩ := ihb h3
    obtain ⟨g3, e3⟩ := pyDiv_ok g1 g2 h4
    exact ⟨g3, fun pt hpt => by rw [e3 pt hpt, e1 pt hpt, e2 pt hpt]; rfl⟩
  | neg a iha =>
    obtain ⟨x, h1, h2⟩ := except_bind_ok h
    obtain ⟨g1, e1⟩ := iha h1
    obtain ⟨g3, e3⟩ := pyNeg_ok g1 h2
    exact ⟨g3, fun pt hpt => by rw [e3, e1 pt hpt]; rfl⟩
  | pow a x iha =>
    obtain ⟨y, h1, h2⟩ := except_bind_ok h
    obtain ⟨g1, e1⟩ := iha h1
    obtain ⟨g3, e3⟩ := pyPow_ok g1 h2
    exact ⟨g3, fun pt hpt => by rw [e3 pt hpt, e1 pt hpt]; rfl⟩

end Verif
