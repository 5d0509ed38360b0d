import Verif.Lemmas.Sub
import Verif.Lemmas.Arith
import Verif.Model.Units
import Mathlib.Tactic.FieldSimp

/-! Property theorems about units: C09, C10, and the unit part of C06. -/

set_option linter.unusedSectionVars false

namespace Verif
open PyDict

variable {V D : Type} [DecidableEq V] [AddCommGroup D] [DecidableEq D] [Module ℝ D]

/-! ### C09 -/

/-- Two units can be added: both absent, or both present and of one dimension. -/
def Addable (u w : Option (UnitQ D ℝ)) : Prop :=
  match u, w with
  | none, none => True
  | some a, some b => a.dim = b.dim
  | _, _ => False

/-- C09. Adding coefficient maps: it raises DimensionalityError exactly if one has a unit and the other has not or the
dimensions differ; otherwise the result is the physical sum, in the units of the left operand. -/
theorem C09_add (a b : NMap V ℝ D) (ha : UnitOK a.units) :
    (Addable a.units b.units ∧ ∃ h, a.add b = .ok h ∧ h.units = a.units ∧ ∀ pt, physVal pt h = physVal pt a + physVal pt b) ∨
    (¬ Addable a.units b.units ∧ a.add b = .error .dimensionality) := by
  by_cases hadd : Addable a.units b.units
  · left
    refine ⟨hadd, ?_⟩
    have hex : ∃ h, a.add b = .ok h := by
      unfold NMap.add
      by_cases hu : a.units = b.units
      · rw [if_pos hu]; exact ⟨_, rfl⟩
      · rw [if_neg hu]
        match hua : a.units, hub : b.units with
        | none, none => rw [hua, hub] at hu; exact absurd rfl hu
        | none, some _ => rw [hua, hub] at hadd; exact hadd.elim
        | some _, none => rw [hua, hub] at hadd; exact hadd.elim
        | some ua, some ub =>
          rw [hua, hub] at hadd
          simp only [Addable] at hadd
          simp [UnitQ.float, UnitQ.mul, UnitQ.inv, hadd]
    obtain ⟨h, hh⟩ := hex
    exact ⟨h, hh, (NMap.add_ok hh).1, fun pt => physVal_add ha hh⟩
  · right
    refine ⟨hadd, ?_⟩
    unfold NMap.add
    match hua : a.units, hub : b.units with
    | none, none => rw [hua, hub] at hadd; exact (hadd trivial).elim
    | none, some _ => simp
    | some _, none => simp
    | some ua, some ub =>
      rw [hua, hub] at hadd
      simp only [Addable] at hadd
      have h1 : (some ua : Option (UnitQ D ℝ)) ≠ some ub := by
        intro h; injection h with h; exact hadd (by rw [h])
      have h2 : ub.dim + -ua.dim ≠ 0 := fun h => hadd (add_neg_eq_zero.1 h).symm
      rw [if_neg h1]
      simp [UnitQ.float, UnitQ.mul, UnitQ.inv, h2]

/-- C09. Converting to a unit keeps the physical value and gives that unit; it raises DimensionalityError exactly if the
dimensions differ (a nomial without units counts as dimensionless). -/
theorem C09_convert (a : NMap V ℝ D) (u : UnitQ D ℝ) (hu : 0 < u.scale) :
    (unitDim a.units = u.dim ∧ ∃ h, a.convertTo u = .ok h ∧ h.units = some u ∧ ∀ pt, physVal pt h = physVal pt a) ∨
    (unitDim a.units ≠ u.dim ∧ a.convertTo u = .error .dimensionality) := by
  have hdim : (a.units.getD dimless).dim = unitDim a.units := by cases a.units <;> simp [dimless, unitDim]
  have hscale : (a.units.getD dimless).scale = unitScale a.units := by cases a.units <;> simp [dimless, unitScale]
  unfold NMap.convertTo UnitQ.convert
  rw [hdim, hscale]
  by_cases h : unitDim a.units = u.dim
  · left
    refine ⟨h, (a.scale (unitScale a.units / u.scale)).unitsOfProduct (some u) none, ?_, rfl, fun pt => ?_⟩
    · rw [if_pos h]; rfl
    · rw [physVal_unitsOfProduct]
      simp only [NMap.scale, physVal, unitScale]
      rw [termsVal_dictScale]
      field_simp
  · right
    refine ⟨h, ?_⟩
    rw [if_neg h]; rfl

/-- C09. Converting there and back gives the same physical value and the original unit. -/
theorem C09_convert_round_trip (a h h' : NMap V ℝ D) (u w : UnitQ D ℝ) (hu : 0 < u.scale) (hw : 0 < w.scale)
    (hau : a.units = some w) (h1 : a.convertTo u = .ok h) (h2 : h.convertTo w = .ok h') :
    h'.units = a.units ∧ ∀ pt, termsVal pt h'.terms = termsVal pt a.terms := by
  rcases C09_convert a u hu with ⟨_, x, e1, e2, e3⟩ | ⟨_, e⟩
  · rw [h1] at e1; cases e1
    rcases C09_convert h w hw with ⟨_, y, f1, f2, f3⟩ | ⟨_, f⟩
    · rw [h2] at f1; cases f1
      refine ⟨by rw [f2, hau], fun pt => ?_⟩
      have := (f3 pt).trans (e3 pt)
      simp only [physVal, f2, hau, unitScale] at this
      exact mul_left_cancel₀ hw.ne' this
    · rw [h2] at f; cases f
  · rw [h1] at e; cases e

/-- C09. Products and powers: dimension and physical value of the result. -/
theorem C09_mul {se : Bool} {a b n : Nomial V ℝ D} (ha : (PyVal.nom a).Good) (hb : (PyVal.nom b).Good)
    (h : a.mul se b = .ok n) :
    unitDim n.hmap.units = unitDim a.hmap.units + unitDim b.hmap.units ∧
      ∀ pt, (∀ v, 0 < pt v) → physVal pt n.hmap = physVal pt a.hmap * physVal pt b.hmap := by
  refine ⟨?_, (mul_ok ha hb h).2⟩
  unfold Nomial.mul at h
  rw [mkSig_ok h, unitDim_unitsOfProduct]

/-- C09. A monomial raised to a power: `x • dim`, and the power of the physical value. -/
theorem C09_pow {se : Bool} {a n : Nomial V ℝ D} {x : ℝ} (ha : (PyVal.nom a).Good) (hm : a.cls = .monomial)
    (h : a.monoPow se x = .ok n) :
    unitDim n.hmap.units = x • unitDim a.hmap.units ∧
      ∀ pt, (∀ v, 0 < pt v) → physVal pt n.hmap = physVal pt a.hmap ^ x := by
  refine ⟨?_, (monoPow_ok ha hm h).2⟩
  obtain ⟨e, c, hx, hc⟩ := ha.2.1.1 hm
  unfold Nomial.monoPow at h
  rw [hx] at h
  simp only at h
  rw [mkSig_ok h]
  by_cases h0 : x = 0
  · simp [h0, unitDim]
  · simp only [ne_eq, h0, not_false_eq_true, if_true]
    cases a.hmap.units <;> simp [unitDim, UnitQ.pow]

/-- The units of the dimension a user attaches to each variable; `none` if the expression adds different dimensions or
raises to a power that is not allowed. -/
noncomputable def Expr.dim (vdim : V → D) : Expr V → Option D
  | .var v => some (vdim v)
  | .num _ => some 0
  | .add a b => do let x ← a.dim vdim; let y ← b.dim vdim; if x = y then some x else none
  | .sub a b => do let x ← a.dim vdim; let y ← b.dim vdim; if x = y then some x else none
  | .mul a b => do let x ← a.dim vdim; let y ← b.dim vdim; pure (x + y)
  | .div a b => do let x ← a.dim vdim; let y ← b.dim vdim; pure (x - y)
  | .neg a => a.dim vdim
  | .pow a x => do let y ← a.dim vdim; pure (x.toK • y)

/-- What a built value says about its dimension: a nomial has it, a number has it unless it is zero. -/
def HasDim (r : PyVal V ℝ D) (d : D) : Prop :=
  match r with
  | .num q => q.units = none ∧ (q.mag = 0 ∨ d = 0)
  | .nom n => unitDim n.hmap.units = d

theorem hasDim_add {se : Bool} {a b r : PyVal V ℝ D} {d : D} (ha : HasDim a d) (hb : HasDim b d)
    (h : PyVal.add se a b = .ok r) : HasDim r d := by
  have hnum : ∀ (m : Nomial V ℝ D) (q : PyQ D ℝ) (n : Nomial V ℝ D), unitDim m.hmap.units = d → m.addNum se q = .ok n →
      unitDim n.hmap.units = d := by
    intro m q n hm hn
    unfold Nomial.addNum at hn
    split_ifs at hn with h0
    · rw [mkSig_ok hn]; exact hm
    · obtain ⟨k, h1, h2⟩ := except_bind_ok hn
      rw [mkSig_ok h2, (NMap.add_ok h1).1]; exact hm
  cases a with
  | num p =>
    cases b with
    | num q =>
      simp only [PyVal.add, PyVal.numOp] at h
      split_ifs at h
      cases h
      obtain ⟨_, h1⟩ := ha
      obtain ⟨_, h2⟩ := hb
      refine ⟨rfl, ?_⟩
      rcases h1 with h1 | h1
      · rcases h2 with h2 | h2
        · left; simp [h1, h2]
        · right; exact h2
      · right; exact h1
    | nom n =>
      obtain ⟨k, h1, h2⟩ := except_bind_ok h
      cases h2
      exact hnum n p k hb h1
  | nom m =>
    cases b with
    | num q =>
      obtain ⟨k, h1, h2⟩ := except_bind_ok h
      cases h2
      exact hnum m q k ha h1
    | nom n =>
      obtain ⟨k, h1, h2⟩ := except_bind_ok h
      cases h2
      unfold Nomial.add at h1
      split_ifs at h1
      · obtain ⟨j, h3, h4⟩ := except_bind_ok h1
        show unitDim k.hmap.units = d
        rw [mkSig_ok h4, (NMap.add_ok h3).1]; exact hb
      · obtain ⟨j, h3, h4⟩ := except_bind_ok h1
        show unitDim k.hmap.units = d
        rw [mkSig_ok h4, (NMap.add_ok h3).1]; exact ha

theorem hasDim_mulNum {se : Bool} {m : Nomial V ℝ D} {q : PyQ D ℝ} {r : PyVal V ℝ D} {d d' : D}
    (hm : unitDim m.hmap.units = d) (hq : q.units = none ∧ (q.mag = 0 ∨ d' = 0)) (h : m.mulNum se q = .ok r) :
    HasDim r (d + d') := by
  unfold Nomial.mulNum at h
  split_ifs at h with h0
  · cases h; exact ⟨hq.1, Or.inl h0⟩
  · obtain ⟨k, h1, h2⟩ := except_bind_ok h
    cases h2
    show unitDim k.hmap.units = d + d'
    rw [mkSig_ok h1, unitDim_unitsOfProduct, hq.1, hm]
    rcases hq.2 with h2 | h2
    · exact absurd h2 h0
    · simp [unitDim, h2]

theorem hasDim_mul {se : Bool} {a b r : PyVal V ℝ D} {d d' : D} (ha : HasDim a d) (hb : HasDim b d')
    (h : PyVal.mul se a b = .ok r) : HasDim r (d + d') := by
  cases a with
  | num p =>
    cases b with
    | num q =>
      simp only [PyVal.mul, PyVal.numOp] at h
      split_ifs at h
      cases h
      refine ⟨rfl, ?_⟩
      rcases ha.2 with h1 | h1
      · left; simp [h1]
      · rcases hb.2 with h2 | h2
        · left; simp [h2]
        · right; simp [h1, h2]
    | nom n => rw [add_comm]; exact hasDim_mulNum hb ha h
  | nom m =>
    cases b with
    | num q => exact hasDim_mulNum ha hb h
    | nom n =>
      obtain ⟨k, h1, h2⟩ := except_bind_ok h
      cases h2
      unfold Nomial.mul at h1
      show unitDim k.hmap.units = d + d'
      rw [mkSig_ok h1, unitDim_unitsOfProduct, ha, hb]

theorem hasDim_neg {se : Bool} {a r : PyVal V ℝ D} {d : D} (ha : HasDim a d) (h : PyVal.neg se a = .ok r) : HasDim r d := by
  cases a with
  | num q => cases h; exact ⟨ha.1, ha.2.imp (fun h => by simp [h]) id⟩
  | nom m =>
    simp only [PyVal.neg, Nomial.neg] at h
    split_ifs at h
    have := hasDim_mulNum (d' := 0) ha ⟨rfl, Or.inr rfl⟩ h
    rwa [add_zero] at this

theorem unitDim_monoPow {se : Bool} {a n : Nomial V ℝ D} {x : ℝ} (h : a.monoPow se x = .ok n) :
    unitDim n.hmap.units = x • unitDim a.hmap.units := by
  unfold Nomial.monoPow at h
  split at h
  · rw [mkSig_ok h]
    by_cases h0 : x = 0
    · simp [h0, unitDim]
    · simp only [ne_eq, h0, not_false_eq_true, if_true]
      cases a.hmap.units <;> simp [unitDim, UnitQ.pow]
  · cases h

theorem hasDim_rdiv {se : Bool} {a r : PyVal V ℝ D} {m : Nomial V ℝ D} {d : D} (ha : HasDim a d)
    (h : PyVal.rdiv se a m = .ok r) : HasDim r (d - unitDim m.hmap.units) := by
  obtain ⟨i, h1, h2⟩ := except_bind_ok h
  obtain ⟨k, h3, h4⟩ := except_bind_ok h2
  have hi : HasDim (.nom i : PyVal V ℝ D) (-unitDim m.hmap.units) := by
    show unitDim i.hmap.units = _
    rw [unitDim_monoPow h1]; simp
  have := hasDim_mul ha hi h3
  rw [sub_eq_add_neg]
  cases k with
  | num q => cases h4
  | nom n => cases h4; exact this

theorem hasDim_div {se : Bool} {a b r : PyVal V ℝ D} {d d' : D} (ha : HasDim a d) (hb : HasDim b d')
    (h : PyVal.div se a b = .ok r) : HasDim r (d - d') := by
  cases b with
  | num q =>
    cases a with
    | num p =>
      simp only [PyVal.div, PyVal.numOp] at h
      split_ifs at h with h0 h1
      cases h
      refine ⟨rfl, ?_⟩
      rcases hb.2 with h2 | h2
      · exact absurd h2 h0
      · exact ha.2.imp (fun h3 => by simp [h3]) (fun h3 => by simp [h3, h2])
    | nom m =>
      simp only [PyVal.div] at h
      split_ifs at h with h0
      rcases hb.2 with h2 | h2
      · exact absurd h2 h0
      · rw [h2, sub_zero]
        have := hasDim_mulNum (d' := 0) (q := ⟨q.mag⁻¹, q.units.map UnitQ.inv⟩) ha (by simp [hb.1]) h
        rwa [add_zero] at this
  | nom m =>
    have h' : (if m.cls = .monomial then PyVal.rdiv se a m else .error .typeError) = .ok r := by
      cases a <;> exact h
    split_ifs at h'
    have := hasDim_rdiv ha h'
    rwa [hb] at this

theorem hasDim_powLoop {se : Bool} {a : Nomial V ℝ D} (n : ℕ) {r : PyVal V ℝ D} (h : a.powLoop se n = .ok r) :
    HasDim r (n • unitDim a.hmap.units) := by
  induction n generalizing r with
  | zero => cases h; exact ⟨rfl, by simp⟩
  | succ n ih =>
    obtain ⟨p, h1, h2⟩ := except_bind_ok h
    have hp := ih h1
    rw [succ_nsmul]
    cases p with
    | num q => rw [add_comm]; exact hasDim_mulNum rfl hp h2
    | nom m =>
      obtain ⟨k, h3, h4⟩ := except_bind_ok h2
      cases h4
      unfold Nomial.mul at h3
      show unitDim k.hmap.units = _
      rw [mkSig_ok h3, unitDim_unitsOfProduct, hp]

theorem hasDim_pow {se : Bool} {a r : PyVal V ℝ D} {d : D} {x : PyExpo ℝ} (ha : HasDim a d)
    (h : PyVal.pow se a x = .ok r) : HasDim r (x.toK • d) := by
  cases a with
  | num q =>
    simp only [PyVal.pow] at h
    split_ifs at h with hz hk
    cases h
    refine ⟨rfl, ?_⟩
    rcases ha.2 with h1 | h1
    · by_cases h0 : x.toK = 0
      · right; simp [h0]
      · left
        rw [h1, pw_real, Real.zero_rpow h0]
    · right; simp [h1]
  | nom m =>
    simp only [PyVal.pow] at h
    split_ifs at h with hm
    · obtain ⟨k, h1, h2⟩ := except_bind_ok h
      cases h2
      show unitDim k.hmap.units = _
      rw [unitDim_monoPow h1, ha]
    · cases x with
      | float y => cases h
      | int z =>
        simp only [Nomial.sigPow] at h
        split_ifs at h with hz
        obtain ⟨p, h1, h2⟩ := except_bind_ok h
        have hp := hasDim_powLoop _ h1
        rw [show unitDim m.hmap.units = d from ha] at hp
        cases p with
        | num q => cases h2
        | nom k =>
          cases h2
          have hz' : ((z.toNat : ℤ)) = z := Int.toNat_of_nonneg (not_lt.1 hz)
          have hcast : ((z.toNat : ℕ) : ℝ) = (z : ℝ) := by
            rw [← Int.cast_natCast, hz']
          have : PyExpo.toK (.int z : PyExpo ℝ) • d = z.toNat • d := by
            simp only [PyExpo.toK]
            rw [← hcast, Nat.cast_smul_eq_nsmul]
          rw [this]; exact hp

/-- C09. The dimension of whatever an expression evaluates to is the one its parts call for (a number zero fits every
dimension, as in Python). -/
theorem C09_build_dim {se : Bool} {vunits : V → Option (UnitQ D ℝ)} (e : Expr V) {d : D}
    (hd : e.dim (fun v => unitDim (vunits v)) = some d) (r : PyVal V ℝ D) (h : e.build se vunits = .ok r) : HasDim r d := by
  induction e generalizing d r with
  | var v => cases h; cases hd; rfl
  | num c => cases h; cases hd; exact ⟨rfl, Or.inr rfl⟩
  | add a b iha ihb =>
    simp only [Expr.dim, Option.bind_eq_bind, Option.bind_eq_some_iff] at hd
    obtain ⟨x, hx, y, hy, hxy⟩ := hd
    split_ifs at hxy with hxy'
    cases hxy; subst hxy'
    obtain ⟨ra, h1, h2⟩ := except_bind_ok h
    obtain ⟨rb, h3, h4⟩ := except_bind_ok h2
    exact hasDim_add (iha hx _ h1) (ihb hy _ h3) h4
  | sub a b iha ihb =>
    simp only [Expr.dim, Option.bind_eq_bind, Option.bind_eq_some_iff] at hd
    obtain ⟨x, hx, y, hy, hxy⟩ := hd
    split_ifs at hxy with hxy'
    cases hxy; subst hxy'
    obtain ⟨ra, h1, h2⟩ := except_bind_ok h
    obtain ⟨rb, h3, h4⟩ := except_bind_ok h2
    have da := iha hx _ h1
    have db := ihb hy _ h3
    have hgen : (if se = true then (do PyVal.add se ra (← PyVal.neg se rb)) else .error .typeError) = .ok r → HasDim r d := by
      intro h5
      split_ifs at h5
      obtain ⟨k, h6, h7⟩ := except_bind_ok h5
      exact hasDim_add da (hasDim_neg db h6) h7
    cases ra with
    | num p =>
      cases rb with
      | num q =>
        simp only [PyVal.sub, PyVal.numOp] at h4
        split_ifs at h4
        cases h4
        refine ⟨rfl, ?_⟩
        rcases da.2 with h5 | h5
        · rcases db.2 with h6 | h6
          · left; simp [h5, h6]
          · right; exact h6
        · right; exact h5
      | nom n => exact hgen h4
    | nom m =>
      cases rb with
      | num q => exact hgen h4
      | nom n => exact hgen h4
  | mul a b iha ihb =>
    simp only [Expr.dim, Option.bind_eq_bind, Option.bind_eq_some_iff] at hd
    obtain ⟨x, hx, y, hy, hxy⟩ := hd
    cases hxy
    obtain ⟨ra, h1, h2⟩ := except_bind_ok h
    obtain ⟨rb, h3, h4⟩ := except_bind_ok h2
    exact hasDim_mul (iha hx _ h1) (ihb hy _ h3) h4
  | div a b iha ihb =>
    simp only [Expr.dim, Option.bind_eq_bind, Option.bind_eq_some_iff] at hd
    obtain ⟨x, hx, y, hy, hxy⟩ := hd
    cases hxy
    obtain ⟨ra, h1, h2⟩ := except_bind_ok h
    obtain ⟨rb, h3, h4⟩ := except_bind_ok h2
    exact hasDim_div (iha hx _ h1) (ihb hy _ h3) h4
  | neg a iha =>
    obtain ⟨ra, h1, h2⟩ := except_bind_ok h
    exact hasDim_neg (iha hd _ h1) h2
  | pow a x iha =>
    simp only [Expr.dim, Option.bind_eq_bind, Option.bind_eq_some_iff] at hd
    obtain ⟨y, hy, hxy⟩ := hd
    cases hxy
    obtain ⟨ra, h1, h2⟩ := except_bind_ok h
    exact hasDim_pow (iha hy _ h1) h2

/-- 2 m + 30 cm is 2.3 m; metres and seconds cannot be added. -/
example : Addable (some (⟨1, 1⟩ : UnitQ ℝ ℝ)) (some ⟨1, 1/100⟩) ∧ ¬ Addable (some (⟨1, 1⟩ : UnitQ ℝ ℝ)) (some ⟨2, 1⟩) := by
  norm_num [Addable]

/-! ### C06: units of substituted values -/

/-- C06. A Quantity given for a variable is converted to the variable's units, keeping its physical value; a wrong
dimension raises. Plain numbers are taken to be in the variable's units. -/
theorem C06_quantity_value (vu : Option (UnitQ D ℝ)) (hv : UnitOK vu) (c : ℝ) (u : UnitQ D ℝ) :
    (u.dim = unitDim vu ∧ ∃ x, subValue (V := V) vu (.qty c u) = .ok x ∧ unitScale vu * x = u.scale * c) ∨
    (u.dim ≠ unitDim vu ∧ subValue (V := V) vu (.qty c u) = .error .dimensionality) := by
  have hdim : (vu.getD dimless).dim = unitDim vu := by cases vu <;> simp [dimless, unitDim]
  have hscale : (vu.getD dimless).scale = unitScale vu := by cases vu <;> simp [dimless, unitScale]
  have hs : unitScale vu ≠ 0 := ne_of_gt hv
  simp only [subValue, UnitQ.convert, hdim, hscale]
  by_cases h : u.dim = unitDim vu
  · left
    refine ⟨h, c * (u.scale / unitScale vu), ?_, ?_⟩
    · rw [if_pos h]; rfl
    · field_simp
  · right
    exact ⟨h, by rw [if_neg h]; rfl⟩

/-! ### C10 -/

namespace UnitCache

/-- The cache holds ratios of live objects. -/
def Sound (s : State D ℝ) : Prop :=
  ∀ n d r, s.cache.get? (n, d) = some r → ∃ un ud, s.look n = some un ∧ s.look d = some ud ∧ ratio un ud = .ok r

/-- The next step disposes of no unit that was divided before. -/
def Keeps (s : State D ℝ) : Op D ℝ → Prop
  | .drop a => ∀ n d r, s.cache.get? (n, d) = some r → n ≠ some a ∧ d ≠ some a
  | _ => True

/-- A history that keeps divided units alive. -/
def KeepsAll : State D ℝ → List (Op D ℝ) → Prop
  | _, [] => True
  | s, op :: ops => Keeps s op ∧ WF s.heap ∧ KeepsAll (step s op) ops

theorem ratio_self (u : Option (UnitQ D ℝ)) (hu : UnitOK u) : u = none ∨ ratio u u = .ok 1 := by
  cases u with
  | none => exact Or.inl rfl
  | some a =>
    right
    have : a.scale ≠ 0 := ne_of_gt hu
    simp [ratio, UnitQ.float, UnitQ.mul, UnitQ.inv, this]

theorem ofDivision_sound {s : State D ℝ} (hs : Sound s) (n d : Option Nat) : Sound (ofDivision s n d).2 := by
  unfold ofDivision
  split_ifs with hnd
  · exact hs
  · cases hc : s.cache.get? (n, d) with
    | some r => exact hs
    | none =>
      simp only
      cases hn : s.look n with
      | none => exact hs
      | some un =>
        cases hd : s.look d with
        | none => exact hs
        | some ud =>
          simp only
          cases hr : ratio un ud with
          | error e => exact hs
          | ok r =>
            intro n' d' r' hget
            simp only at hget
            rw [get?_set] at hget
            by_cases heq : ((n, d) == (n', d')) = true
            · rw [if_pos heq] at hget
              have heq2 : (n, d) = (n', d') := eq_of_beq heq
              cases heq2; cases hget
              exact ⟨un, ud, hn, hd, hr⟩
            · rw [if_neg heq] at hget
              exact hs n' d' r' hget

theorem step_sound {s : State D ℝ} (hwf : WF s.heap) (hs : Sound s) (op : Op D ℝ) (hk : Keeps s op) :
    Sound (step s op) := by
  cases op with
  | divide n d => exact ofDivision_sound hs n d
  | new a u =>
    unfold step
    by_cases hc : s.heap.contains a
    · simp only [hc, if_true]; exact hs
    · simp only [hc]
      have hlook : ∀ x un, s.look x = some un → (⟨s.heap.set a u, s.cache⟩ : State D ℝ).look x = some un := by
        intro x un hx
        cases x with
        | none => exact hx
        | some b =>
          simp only [State.look] at hx ⊢
          rw [get?_set]
          by_cases hab : a = b
          · subst hab
            have : s.heap.get? a = none := contains_eq_false.1 (by simpa using hc)
            rw [this] at hx; simp at hx
          · simpa [hab] using hx
      intro n d r hget
      obtain ⟨un, ud, h1, h2, h3⟩ := hs n d r hget
      exact ⟨un, ud, hlook _ _ h1, hlook _ _ h2, h3⟩
  | drop a =>
    have hlook : ∀ x un, x ≠ some a → s.look x = some un → (⟨s.heap.del a, s.cache⟩ : State D ℝ).look x = some un := by
      intro x un hne hx
      cases x with
      | none => exact hx
      | some b =>
        simp only [State.look] at hx ⊢
        rw [get?_del hwf]
        have hab : a ≠ b := fun h => hne (by rw [h])
        simpa [hab] using hx
    intro n d r hget
    obtain ⟨un, ud, h1, h2, h3⟩ := hs n d r hget
    obtain ⟨k1, k2⟩ := hk n d r hget
    exact ⟨un, ud, hlook _ _ k1 h1, hlook _ _ k2 h2, h3⟩

end UnitCache

open UnitCache in
/-- C10 where it holds: after any history in which no unit that took part in a division is disposed of, `of_division` of two
live units returns their ratio, and raises DimensionalityError exactly if the dimensions differ. -/
theorem C10_ratio_partial (ops : List (Op D ℝ)) (hkeep : KeepsAll ⟨[], []⟩ ops) (n d : Option Nat) (un ud : Option (UnitQ D ℝ))
    (hn : (run ops).look n = some un) (hd : (run ops).look d = some ud) (hu : UnitOK un) :
    (ofDivision (run ops) n d).1 = ratio un ud := by
  have hsound : ∀ (ops : List (Op D ℝ)) (s : State D ℝ), Sound s → KeepsAll s ops → Sound (ops.foldl step s) := by
    intro ops
    induction ops with
    | nil => intro s hs _; exact hs
    | cons op ops ih =>
      intro s hs ⟨h1, h2, h3⟩
      exact ih _ (step_sound h2 hs op h1) h3
  have hs : Sound (run ops) := hsound ops _ (by intro n d r h; simp at h) hkeep
  generalize run ops = s at hn hd hs
  unfold ofDivision
  split_ifs with hnd
  · subst hnd
    rw [hn] at hd; cases hd
    rcases ratio_self un hu with h | h
    · rw [h]; rfl
    · rw [h]
  · cases hc : s.cache.get? (n, d) with
    | some r =>
      obtain ⟨un', ud', h1, h2, h3⟩ := hs n d r hc
      rw [hn] at h1; rw [hd] at h2
      cases h1; cases h2
      exact h3.symm
    | none =>
      simp only [hn, hd]
      cases hr : ratio un ud with
      | ok r => rfl
      | error e => rfl

open UnitCache in
/-- The heap of a history started from nothing has one object per address, so `KeepsAll` asks only about disposals. -/
theorem C10_heap_wf (ops : List (Op D ℝ)) : WF (run ops).heap := by
  have : ∀ (ops : List (Op D ℝ)) (s : State D ℝ), WF s.heap → WF (ops.foldl step s).heap := by
    intro ops
    induction ops with
    | nil => intro s hs; exact hs
    | cons op ops ih =>
      intro s hs
      apply ih
      cases op with
      | new a u =>
        unfold step
        by_cases hc : s.heap.contains a
        · simp only [hc, if_true]; exact hs
        · simp only [hc]; exact wf_set hs _ _
      | drop a => exact wf_del hs _
      | divide n d =>
        simp only [step, ofDivision]
        split_ifs
        · exact hs
        · split
          · exact hs
          · split
            · split <;> exact hs
            · exact hs
  exact this ops _ (by simp)

open UnitCache in
/-- C10 fails when an address is used again: metre over centimetre is divided, the centimetre object goes away, a kilometre
object is created at its address, and metre over kilometre comes out as 100 instead of 1/1000. -/
theorem C10_ratio_fails :
    let m : UnitQ ℝ ℝ := ⟨1, 1⟩
    let cm : UnitQ ℝ ℝ := ⟨1, 1/100⟩
    let km : UnitQ ℝ ℝ := ⟨1, 1000⟩
    let s := run [.new 1 m, .new 2 cm, .divide (some 1) (some 2), .drop 2, .new 2 km]
    s.look (some 1) = some (some m) ∧ s.look (some 2) = some (some km) ∧
    (ofDivision s (some 1) (some 2)).1 = .ok 100 ∧ ratio (some m) (some km) = .ok (1/1000) := by
  norm_num [run, step, ofDivision, State.look, ratio, UnitQ.float, UnitQ.mul, UnitQ.inv, PyDict.get?, PyDict.set, PyDict.del,
    PyDict.contains]

open UnitCache in
/-- A history that keeps units alive, with two divisions. -/
example : KeepsAll (⟨[], []⟩ : State ℝ ℝ)
    [.new 1 ⟨1, 1⟩, .new 2 ⟨1, 1/100⟩, .divide (some 1) (some 2), .new 3 ⟨1, 1000⟩, .divide (some 1) (some 3)] := by
  norm_num [KeepsAll, Keeps, step, ofDivision, State.look, ratio, UnitQ.float, UnitQ.mul, UnitQ.inv, PyDict.get?, PyDict.set,
    PyDict.contains, PyDict.WF]

end Verif
