import Verif.Model.MonoEq
import Verif.Props.Inequality
import Verif.Props.Arithmetic

/-! Equality of monomials as a truth value: C69. -/

set_option linter.unusedSectionVars false

namespace Verif
variable {V D : Type} [DecidableEq V] [AddCommGroup D] [DecidableEq D] [Module ℝ D]

/-- The units of a value. -/
def PyVal.units' : PyVal V ℝ D → Option (UnitQ D ℝ)
  | .num q => q.units
  | .nom n => n.hmap.units

/-- Two values are the same: of one dimension, and the same number in base units wherever variables are. -/
def PyVal.Same (a b : PyVal V ℝ D) : Prop := unitDim a.units' = unitDim b.units' ∧ ∀ pt : V → ℝ, (∀ v, 0 < pt v) → a.phys pt = b.phys pt

/-- Values as operations make them: canonical, of the class that their coefficients have (C02, C05), and with positive units. -/
def PyVal.Proper : PyVal V ℝ D → Prop
  | .num q => UnitOK q.units
  | .nom n => UnitOK n.hmap.units ∧ TermsCanonical n.hmap.terms ∧ (n.cls = .monomial ↔ ∃ e c, n.hmap.terms = [(e, c)] ∧ 0 < c)

namespace MonoEqs

theorem ratio_dim {a b : Option (UnitQ D ℝ)} : (unitDim a = unitDim b → ∃ r, UnitCache.ratio a b = .ok r) ∧
    (unitDim a ≠ unitDim b → UnitCache.ratio a b = .error .dimensionality) := by
  unfold UnitCache.ratio UnitQ.float UnitQ.mul UnitQ.inv
  rcases a with _ | a <;> rcases b with _ | b <;> simp only [unitDim]
  · simp
  · constructor
    · intro h; simp [← h]
    · intro h; rw [if_neg (by simpa using fun h' => h h'.symm)]
  · constructor
    · intro h; simp [h]
    · intro h; rw [if_neg h]
  · constructor
    · intro h; simp [h]
    · intro h; rw [if_neg (by rwa [← sub_eq_add_neg, sub_eq_zero])]

theorem eqv_iff {p q : PyQ D ℝ} : p.eqv q = true ↔ unitDim p.units = unitDim q.units ∧ unitScale p.units * p.mag = unitScale q.units * q.mag := by
  rw [PyQ.eqv]
  simp only [Bool.and_eq_true, decide_eq_true_eq]
  rcases hp : p.units with _ | a <;> rcases hq : q.units with _ | b <;> simp [unitDim, unitScale, mul_comm]

theorem mono_canon {e : HV V ℝ} {c : ℝ} (h : TermsCanonical [(e, c)]) {k : ℝ} (hk : 0 < k) : TermsCanonical [(e, k * c)] := by
  obtain ⟨h1, _⟩ := h
  have := h1 (e, c) (by simp)
  refine ⟨?_, by simp⟩
  intro t ht
  rw [List.mem_singleton] at ht
  subst ht
  exact ⟨this.1, mul_ne_zero hk.ne' this.2⟩

/-- Two monomials that are the same have the same exponents and coefficients in base units. -/
theorem same_mono {l r : NMap V ℝ D} {el er : HV V ℝ} {cl cr : ℝ} (hl : l.terms = [(el, cl)]) (hr : r.terms = [(er, cr)])
    (hcl : TermsCanonical l.terms) (hcr : TermsCanonical r.terms) (hlu : UnitOK l.units) (hru : UnitOK r.units) :
    (∀ pt : V → ℝ, (∀ v, 0 < pt v) → physVal pt l = physVal pt r) ↔ (el == er) = true ∧ unitScale l.units * cl = unitScale r.units * cr := by
  rw [hl] at hcl
  rw [hr] at hcr
  have key := hmapEq_iff (mono_canon hcl hlu) (mono_canon hcr hru)
  have hv : ∀ pt : V → ℝ, physVal pt l = termsVal pt [(el, unitScale l.units * cl)] ∧ physVal pt r = termsVal pt [(er, unitScale r.units * cr)] := by
    intro pt
    unfold physVal
    rw [hl, hr]
    simp [termsVal, mul_assoc]
  have h2 : (∀ pt : V → ℝ, (∀ v, 0 < pt v) → physVal pt l = physVal pt r) ↔
      ∀ pt : V → ℝ, (∀ v, 0 < pt v) → termsVal pt [(el, unitScale l.units * cl)] = termsVal pt [(er, unitScale r.units * cr)] := by
    constructor
    · intro h pt hpt
      rw [← (hv pt).1, ← (hv pt).2, h pt hpt]
    · intro h pt hpt
      rw [(hv pt).1, (hv pt).2, h pt hpt]
  rw [h2, ← key]
  unfold Nomial.hmapEq
  simp only [List.length_singleton, decide_true, Bool.true_and, List.all_cons, List.all_nil, Bool.and_true, decide_eq_true_eq, PyDict.get?_cons]
  constructor
  · intro h
    split at h
    · rename_i he
      rw [BEq.comm] at he
      exact ⟨he, by simpa using h.symm⟩
    · simp [PyDict.get?] at h
  · rintro ⟨h, h'⟩
    rw [BEq.comm] at h
    rw [if_pos h, h']

theorem monoEq_iff {se : Bool} {tol : ℝ} (htol : 0 ≤ tol) {l r : NMap V ℝ D} {el er : HV V ℝ} {cl cr : ℝ} (hl : l.terms = [(el, cl)])
    (hr : r.terms = [(er, cr)]) (hcl : TermsCanonical l.terms) (hcr : TermsCanonical r.terms) (h0l : 0 < cl) (h0r : 0 < cr)
    (hlu : UnitOK l.units) (hru : UnitOK r.units) :
    (monoEq se tol l r = .ok true ↔ unitDim l.units = unitDim r.units ∧ ∀ pt : V → ℝ, (∀ v, 0 < pt v) → physVal pt l = physVal pt r) ∧
    ∀ e, monoEq se tol l r = .error e → e = .primalInfeasible ∧ unitDim l.units = unitDim r.units ∧
      ∃ c, 0 < c ∧ (1 + tol < c ∨ 1 + tol < c⁻¹) ∧ ∀ pt : V → ℝ, (∀ v, 0 < pt v) → physVal pt l = c * physVal pt r := by
  have hel : ExpCanonical el.items := (hcl.1 (el, cl) (by rw [hl]; simp)).1
  have her : ExpCanonical er.items := (hcr.1 (er, cr) (by rw [hr]; simp)).1
  by_cases hd : unitDim l.units = unitDim r.units
  · obtain ⟨rho, hrho⟩ := (ratio_dim (a := r.units) (b := l.units)).1 hd.symm
    cases hm : meqUnsubbed se tol l r with
    | ok forms =>
      have hb : monoEq se tol l r = .ok (PyQ.eqv ⟨cl, l.units⟩ ⟨cr, r.units⟩ && el == er) := by
        rw [monoEq, hm]
        simp only [meqBool, hl, hr]
      rw [hb]
      refine ⟨?_, by intro e he; cases he⟩
      rw [same_mono hl hr hcl hcr hlu hru, Except.ok.injEq, Bool.and_eq_true, eqv_iff]
      exact ⟨fun h => ⟨hd, h.2, h.1.2⟩, fun h => ⟨⟨hd, h.2.2⟩, h.2.1⟩⟩
    | error e =>
      obtain ⟨rfl, c, c0, c1, c2⟩ := C14_error hl hr hel her h0l h0r hlu hru hrho hm
      have hb : monoEq se tol l r = .error .primalInfeasible := by
        rw [monoEq, hm]
      rw [hb]
      refine ⟨⟨(by intro h; cases h), ?_⟩, ?_⟩
      · rintro ⟨_, h⟩
        exfalso
        have h1 := h (fun _ => 1) (by intro v; exact one_pos)
        have h2 := c2 (fun _ => 1) (by intro v; exact one_pos)
        have hpos : 0 < physVal (fun _ => (1 : ℝ)) r := by
          unfold physVal
          rw [hr]
          have : monVal (fun _ : V => (1 : ℝ)) er.items = 1 := by simp [monVal]
          simp only [termsVal, List.map_cons, List.map_nil, List.sum_cons, List.sum_nil, add_zero, this, mul_one]
          exact mul_pos hru h0r
        have hc1 : c = 1 := by
          rw [h1] at h2
          have := mul_right_cancel₀ hpos.ne' ((one_mul _).trans h2)
          exact this.symm
        subst hc1
        rcases c1 with c1 | c1
        · linarith
        · rw [inv_one] at c1
          linarith
      · intro e he
        cases he
        exact ⟨rfl, hd, c, c0, c1, c2⟩
  · have hr' : UnitCache.ratio r.units l.units = .error .dimensionality := ratio_dim.2 (fun h => hd h.symm)
    have hm : meqUnsubbed se tol l r = .error .dimensionality := by
      unfold meqUnsubbed genUnsubbed
      rw [hr]
      simp only [hr']
      rfl
    have hb : monoEq se tol l r = .ok false := by rw [monoEq, hm]
    rw [hb]
    refine ⟨⟨(by intro h; cases h), fun h => absurd h.1 hd⟩, by intro e he; cases he⟩

/-- The cases in which truth is settled: two nomials that are both monomials or have the same units, a monomial and a positive number, any other nomial and
a number other than zero, two numbers. -/
def Settled : PyVal V ℝ D → PyVal V ℝ D → Prop
  | .num _, .num _ => True
  | .nom a, .num q => if a.cls = .monomial then 0 < q.mag else q.mag ≠ 0
  | .num q, .nom a => if a.cls = .monomial then 0 < q.mag else q.mag ≠ 0
  | .nom a, .nom b => (a.cls = .monomial ∧ b.cls = .monomial) ∨ a.hmap.units = b.hmap.units

/-- One is a multiple of the other, by a factor that differs from one by more than the tolerance. -/
def FarMultiple (tol : ℝ) (a b : PyVal V ℝ D) : Prop :=
  ∃ c : ℝ, 0 < c ∧ (1 + tol < c ∨ 1 + tol < c⁻¹) ∧ ∀ pt : V → ℝ, (∀ v, 0 < pt v) → a.phys pt = c * b.phys pt

theorem same_symm {a b : PyVal V ℝ D} (h : a.Same b) : b.Same a := ⟨h.1.symm, fun pt hpt => (h.2 pt hpt).symm⟩

theorem far_symm {tol : ℝ} {a b : PyVal V ℝ D} (h : FarMultiple tol a b) : FarMultiple tol b a := by
  obtain ⟨c, c0, c1, c2⟩ := h
  refine ⟨c⁻¹, inv_pos.2 c0, by rw [inv_inv]; exact c1.symm, fun pt hpt => ?_⟩
  rw [c2 pt hpt, ← mul_assoc, inv_mul_cancel₀ c0.ne', one_mul]

theorem against_iff {se : Bool} {tol : ℝ} (htol : 0 ≤ tol) {a : Nomial V ℝ D} {q : PyQ D ℝ} (ha : (PyVal.nom a : PyVal V ℝ D).Proper)
    (hq : UnitOK q.units) (hs : if a.cls = .monomial then 0 < q.mag else q.mag ≠ 0) :
    (PyVal.eqOp.against se tol a q = .ok true ↔ PyVal.Same (.nom a) (.num q)) ∧
    ∀ e, PyVal.eqOp.against se tol a q = .error e → e = .primalInfeasible ∧ FarMultiple tol (.nom a) (.num q : PyVal V ℝ D) := by
  obtain ⟨h1, h2, h3⟩ := ha
  have hphys : ∀ pt : V → ℝ, physVal pt (numMap q : NMap V ℝ D) = (PyVal.num q : PyVal V ℝ D).phys pt := by
    intro pt
    simp [physVal, numMap, PyVal.phys, termsVal, monVal, HV.empty]
  unfold PyVal.eqOp.against
  by_cases hm : a.cls = .monomial
  · rw [if_pos hm] at hs
    obtain ⟨e, c, ht, hc⟩ := h3.1 hm
    have hsig : mkSig se true (numMap q : NMap V ℝ D) = .ok ⟨numMap q, .monomial⟩ := by
      have : (numMap q : NMap V ℝ D).anyNonpositive = false := by
        simp [NMap.anyNonpositive, numMap, hs]
      unfold mkSig
      rw [this]
      rfl
    rw [if_pos hm, hsig]
    have hcn : TermsCanonical (numMap q : NMap V ℝ D).terms := by
      simp [numMap, TermsCanonical, HV.empty, ExpCanonical, hs.ne']
    obtain ⟨k1, k2⟩ := monoEq_iff (se := se) htol (l := a.hmap) (r := (numMap q : NMap V ℝ D)) ht rfl h2 hcn hc hs h1 hq
    refine ⟨?_, ?_⟩
    · refine k1.trans (and_congr_right fun _ => forall_congr' fun pt => forall_congr' fun _ => ?_)
      rw [hphys]
      rfl
    · intro e he
      obtain ⟨j1, _, c', j3, j4, j5⟩ := k2 e he
      exact ⟨j1, c', j3, j4, fun pt hpt => by rw [← hphys]; exact j5 pt hpt⟩
  · rw [if_neg hm] at hs
    rw [if_neg hm]
    refine ⟨?_, by intro e he; cases he⟩
    have hsa : 0 < unitScale a.hmap.units := h1
    have hsq : 0 < unitScale q.units := hq
    have hc : unitScale q.units * q.mag / unitScale a.hmap.units ≠ 0 := div_ne_zero (mul_ne_zero hsq.ne' hs) hsa.ne'
    have key := C03_eqNum_partial (n := a) h2 hc
    have hrest : (∀ pt : V → ℝ, (∀ v, 0 < pt v) → (PyVal.nom a : PyVal V ℝ D).phys pt = (PyVal.num q : PyVal V ℝ D).phys pt) ↔
        a.eqNum (unitScale q.units * q.mag / unitScale a.hmap.units) = true := by
      rw [key]
      refine forall_congr' fun pt => forall_congr' fun _ => ?_
      rw [PyVal.phys, PyVal.phys, physVal, eq_div_iff hsa.ne', mul_comm]
    rw [Except.ok.injEq, PyVal.Same, hrest, PyVal.nomialEq, Nomial.eqNum, Bool.and_eq_true, Bool.and_eq_true]
    match hts : a.hmap.terms with
    | [] => simp [Nomial.isFixedScalar, hts]
    | [(e, c)] =>
      simp only [List.head?_cons, Option.map_some, Option.some.injEq, decide_eq_true_eq, eqv_iff]
      rw [eq_div_iff hsa.ne', mul_comm c]
      exact ⟨fun h => ⟨h.2.1, h.1, h.2.2⟩, fun h => ⟨h.2.1, h.1, h.2.2⟩⟩
    | t :: t' :: ts => simp [Nomial.isFixedScalar, hts]

end MonoEqs

open MonoEqs in
/-- In the settled cases `a == b` is true exactly if both are the same. Missing: nomials of several terms in different units (`C03_units_fails`), a monomial
and a number that is not positive (`C69_zero_fails`), a sum that cancelled and zero (`C03_eqNum_zero_fails`). -/
theorem C69_truth_partial {se : Bool} {tol : ℝ} (htol : 0 ≤ tol) {a b : PyVal V ℝ D} (ha : a.Proper) (hb : b.Proper) (hs : Settled a b) :
    a.eqOp se tol b = .ok true ↔ a.Same b := by
  match a, b with
  | .num p, .num q =>
    rw [PyVal.eqOp, Except.ok.injEq, eqv_iff]
    exact and_congr_right fun _ => ⟨fun h pt _ => h, fun h => h (fun _ => 1) (fun _ => one_pos)⟩
  | .nom a, .num q => exact (against_iff htol ha hb hs).1
  | .num q, .nom a => exact (against_iff htol hb ha hs).1.trans ⟨same_symm, same_symm⟩
  | .nom a, .nom b =>
    obtain ⟨h1, h2, h3⟩ := ha
    obtain ⟨k1, k2, k3⟩ := hb
    rw [PyVal.eqOp]
    split
    · rename_i hm
      obtain ⟨e, c, ht, hc⟩ := h3.1 hm.1
      obtain ⟨e', c', ht', hc'⟩ := k3.1 hm.2
      exact (monoEq_iff htol ht ht' h2 k2 hc hc' h1 k1).1
    · rename_i hm
      have hu := hs.resolve_left hm
      rw [Except.ok.injEq, PyVal.nomialEq, C03_eq_iff_same_function h2 k2]
      have hsc : unitScale a.hmap.units ≠ 0 := ne_of_gt h1
      constructor
      · rintro ⟨_, h⟩
        refine ⟨congrArg unitDim hu, fun pt hpt => ?_⟩
        rw [PyVal.phys, PyVal.phys, physVal, physVal, h pt hpt, hu]
      · rintro ⟨_, h⟩
        refine ⟨hu, fun pt hpt => ?_⟩
        have := h pt hpt
        rw [PyVal.phys, PyVal.phys, physVal, physVal, ← hu] at this
        exact mul_left_cancel₀ hsc this

open MonoEqs in
/-- An exception means that one is a multiple of the other. -/
theorem C69_error_partial {se : Bool} {tol : ℝ} (htol : 0 ≤ tol) {a b : PyVal V ℝ D} (ha : a.Proper) (hb : b.Proper) (hs : Settled a b) {e : Err}
    (he : a.eqOp se tol b = .error e) : e = .primalInfeasible ∧ FarMultiple tol a b := by
  match a, b with
  | .num p, .num q => cases he
  | .nom a, .num q => exact (against_iff htol ha hb hs).2 e he
  | .num q, .nom a =>
    obtain ⟨h1, h2⟩ := (against_iff htol hb ha hs).2 e he
    exact ⟨h1, far_symm h2⟩
  | .nom a, .nom b =>
    obtain ⟨h1, h2, h3⟩ := ha
    obtain ⟨k1, k2, k3⟩ := hb
    rw [PyVal.eqOp] at he
    split at he
    · rename_i hm
      obtain ⟨e, c, ht, hc⟩ := h3.1 hm.1
      obtain ⟨e', c', ht', hc'⟩ := k3.1 hm.2
      obtain ⟨j1, _, j2⟩ := (monoEq_iff htol ht ht' h2 k2 hc hc' h1 k1).2 _ he
      exact ⟨j1, j2⟩
    · cases he

open MonoEqs in
/-- Arrays compare equal, as a truth value, exactly if they have elements and all pairs of elements are the same. -/
theorem C69_array_partial {se : Bool} {tol : ℝ} (htol : 0 ≤ tol) {as bs : List (PyVal V ℝ D)} (hl : as.length = bs.length) (hne : as ≠ [])
    (h : ∀ ab ∈ as.zip bs, ab.1.Proper ∧ ab.2.Proper ∧ Settled ab.1 ab.2) :
    PyVal.arrayEq se tol as bs = .ok true ↔ List.Forall₂ PyVal.Same as bs := by
  have hg : ¬ (as.length ≠ bs.length ∨ as.isEmpty = true) := by simp [hl, hne]
  rw [PyVal.arrayEq, if_neg hg]
  have key : ∀ l : List (PyVal V ℝ D × PyVal V ℝ D), (∀ ab ∈ l, ab.1.Proper ∧ ab.2.Proper ∧ Settled ab.1 ab.2) →
      ((l.mapM (fun ab => PyVal.eqOp se tol ab.1 ab.2) >>= fun bools => (pure (bools.all id) : Except Err Bool)) = .ok true ↔ ∀ ab ∈ l, ab.1.Same ab.2) := by
    intro l
    induction l with
    | nil => intro _; simp [pure, bind, Except.bind, Except.pure]
    | cons x l ih =>
      intro h
      obtain ⟨h1, h2, h3⟩ := h x (by simp)
      have hx := C69_truth_partial (se := se) htol h1 h2 h3
      have := ih (fun ab hab => h ab (List.mem_cons_of_mem _ hab))
      rw [List.mapM_cons, List.forall_mem_cons, ← this, ← hx]
      cases he : PyVal.eqOp se tol x.1 x.2 with
      | error e => simp [bind, Except.bind]
      | ok b =>
        cases hr : List.mapM (fun ab : PyVal V ℝ D × PyVal V ℝ D => PyVal.eqOp se tol ab.1 ab.2) l with
        | error e => simp [bind, Except.bind]
        | ok bs => simp [bind, Except.bind, pure, Except.pure]
  rw [key _ h, List.forall₂_iff_zip]
  exact ⟨fun h => ⟨hl, fun {a b} hab => h (a, b) hab⟩, fun h ab hab => h.2 hab⟩

open MonoEqs in
/-- A kilometre of `x` and a thousand metres of it are such values, and equal. -/
example : ∃ a b : PyVal ℕ ℝ ℝ, a.Proper ∧ b.Proper ∧ Settled a b ∧ a.Same b ∧ a.units' ≠ b.units' := by
  refine ⟨.nom ⟨⟨[(⟨[(0, 1)]⟩, 1)], some ⟨1, 1000⟩⟩, .monomial⟩, .nom ⟨⟨[(⟨[(0, 1)]⟩, 1000)], some ⟨1, 1⟩⟩, .monomial⟩, ?_, ?_, ?_, ?_, ?_⟩
  · simp [PyVal.Proper, UnitOK, unitScale, TermsCanonical, ExpCanonical]
  · simp [PyVal.Proper, UnitOK, unitScale, TermsCanonical, ExpCanonical]
  · simp [Settled]
  · simp [PyVal.Same, PyVal.units', unitDim, PyVal.phys, physVal, unitScale, termsVal]
  · simp [PyVal.units']

/-- `x == 2*x`, which is false, raises `PrimalInfeasible` instead. -/
theorem C69_raises_fails : PyVal.eqOp (D := ℝ) (V := ℕ) false (1 / 1000 : ℝ) (.nom ⟨⟨[(⟨[(0, 1)]⟩, 1)], none⟩, .monomial⟩)
    (.nom ⟨⟨[(⟨[(0, 1)]⟩, 2)], none⟩, .monomial⟩) = .error .primalInfeasible := by
  norm_num [PyVal.eqOp, monoEq, meqUnsubbed, genUnsubbed, UnitCache.ratio, renameTerms, renameStep, PyDict.get?, PyDict.set, PyDict.del, HV.beq_def,
    List.isPerm, HV.sub, HV.add, HV.scale, HV.empty, dictAdd, dictScale, simplifyPosyIneq, wrapForm, bind, Except.bind, pure, Except.pure]

/-- `x == 0`, which is false, raises `InvalidPosynomial` instead. -/
theorem C69_zero_fails (tol : ℝ) : PyVal.eqOp (D := ℝ) (V := ℕ) false tol (.nom ⟨⟨[(⟨[(0, 1)]⟩, 1)], none⟩, .monomial⟩) (.num ⟨0, none⟩) =
    .error .invalidPosynomial := by
  simp [PyVal.eqOp, PyVal.eqOp.against, mkSig, numMap, NMap.anyNonpositive, bind, Except.bind]

end Verif
