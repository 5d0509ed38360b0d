import Verif.Lemmas.Canonical
import Verif.Lemmas.PyEval
import Verif.Lemmas.Zeros

/-! Property theorems about nomial arithmetic: C01, C02, C03, C05, C51. -/

set_option linter.unusedSectionVars false

namespace Verif

variable {V D : Type} [DecidableEq V] [AddCommGroup D] [DecidableEq D] [Module ℝ D]

/-- `(x + 2*y) * x**0.5` evaluates to `x^1.5 + 2*y*x^0.5`: an expression for the examples below. -/
example : (Expr.mul (.add (.var 0) (.mul (.num 2) (.var 1))) (.pow (.var 0) (.float (1/2)))).build false (fun _ => none)
    = .ok (.nom ⟨⟨[(⟨[(0, 3/2)]⟩, 1), (⟨[(1, 1), (0, 1/2)]⟩, 2)], none⟩, .posynomial⟩ : PyVal ℕ ℝ ℝ) := by
  pyeval

/-- With metres and centimetres (scales 1 and 1/100, dimension 1): `x[m] + y[cm]` evaluates to `x + 0.01*y` in metres. -/
example : (Expr.add (.var 0) (.var 1)).build false (fun v : ℕ => if v = 0 then some ⟨1, 1⟩ else some ⟨1, 1/100⟩)
    = .ok (.nom ⟨⟨[(⟨[(0, 1)]⟩, 1), (⟨[(1, 1)]⟩, 1/100)], some ⟨1, 1⟩⟩, .posynomial⟩ : PyVal ℕ ℝ ℝ) := by
  pyeval
  norm_num [UnitQ.mul, UnitQ.inv, UnitQ.float, NMap.anyNonpositive, dictScale, dictAdd, PyDict.get?, PyDict.set, HV.beq_def, List.isPerm]

/-! ### C01 -/

/-- C01. If Python builds a value for an expression, that value, evaluated in base units at any positive point, is the
number the expression denotes. Holds with and without SignomialsEnabled and for all variable units. -/
theorem C01_build_denotes {se : Bool} {vunits : V → Option (UnitQ D ℝ)} (hu : ∀ v, UnitOK (vunits v))
    (e : Expr V) (r : PyVal V ℝ D) (h : e.build se vunits = .ok r) (pt : V → ℝ) (hpt : ∀ v, 0 < pt v) :
    r.phys pt = e.denote (fun v => unitScale (vunits v) * pt v) :=
  (build_ok hu e h).2 pt hpt

/-- C01 where some variables are zero: the value is that of the expression if nothing in the expression is divided by zero. -/
theorem C01_zeros {se : Bool} {vunits : V → Option (UnitQ D ℝ)} (hu : ∀ v, UnitOK (vunits v))
    (e : Expr V) (r : PyVal V ℝ D) (h : e.build se vunits = .ok r) (pt : V → ℝ) (hpt : ∀ v, 0 ≤ pt v)
    (hd : e.Defined (fun v => unitScale (vunits v) * pt v)) : r.phys pt = e.denote (fun v => unitScale (vunits v) * pt v) :=
  build_value hu e h hpt hd (build_noInverse hu hpt e h hd)

/-- `(x + y**2)/y` evaluates to `x*y**-1 + y`, and is defined at `x = 0`, `y = 1`. -/
example : (Expr.div (.add (.var 0) (.pow (.var 1) (.int 2))) (.var 1)).build false (fun _ => none)
      = .ok (.nom ⟨⟨[(⟨[(0, 1), (1, -1)]⟩, 1), (⟨[(1, 1)]⟩, 1)], none⟩, .posynomial⟩ : PyVal ℕ ℝ ℝ) ∧
    (Expr.div (.add (.var 0) (.pow (.var 1) (.int 2))) (.var 1)).Defined (fun v : ℕ => if v = 0 then 0 else 1) := by
  constructor
  · pyeval
  · simp [Expr.Defined, Expr.denote]

/-- C01 without units: the value of the nomial itself. -/
theorem C01_build_denotes_unitless {se : Bool} (e : Expr V) (n : Nomial V ℝ D)
    (h : e.build se (fun _ => none) = .ok (.nom n)) (hnu : n.hmap.units = none)
    (pt : V → ℝ) (hpt : ∀ v, 0 < pt v) :
    termsVal pt n.hmap.terms = e.denote pt := by
  have := (build_ok (D := D) (vunits := fun _ => none) (by simp [UnitOK, unitScale]) e h).2 pt hpt
  simpa [PyVal.phys, physVal, hnu, unitScale] using this

/-! ### C02 -/

/-- C02. Every nomial an expression evaluates to is canonical: no zero exponents, no zero coefficients, no two terms with the
same exponents. -/
theorem C02_build_canonical {se : Bool} {vunits : V → Option (UnitQ D ℝ)} (hu : ∀ v, UnitOK (vunits v))
    (e : Expr V) (n : Nomial V ℝ D) (h : e.build se vunits = .ok (.nom n)) : TermsCanonical n.hmap.terms :=
  build_canon hu e h

/-- C02 for the two binary operators on any canonical operands, not only built ones. -/
theorem C02_add_mul_canonical {se : Bool} {a b n : Nomial V ℝ D} (ha : TermsCanonical a.hmap.terms)
    (hb : TermsCanonical b.hmap.terms) (ua : UnitOK a.hmap.units) (ub : UnitOK b.hmap.units)
    (h : a.add se b = .ok n ∨ a.mul se b = .ok n) : TermsCanonical n.hmap.terms := by
  rcases h with h | h
  · exact add_canon ha hb ua ub h
  · exact mul_canon ha hb ua ub h

example : TermsCanonical ([(⟨[(0, 3/2)]⟩, 1), (⟨[(1, 1), (0, 1/2)]⟩, 2)] : List (HV ℕ ℝ × ℝ)) := by
  constructor
  · simp [ExpCanonical]
    rintro _ _ (⟨_, rfl⟩ | ⟨_, rfl⟩) <;> norm_num
  · simp

/-! ### C03 -/

/-- C03. `a == b` of two canonical nomials holds exactly if they have the same units and the same value at every positive
point. -/
theorem C03_eq_iff_same_function {a b : Nomial V ℝ D} (ha : TermsCanonical a.hmap.terms)
    (hb : TermsCanonical b.hmap.terms) :
    a.eqNomial b = true ↔
      a.hmap.units = b.hmap.units ∧ ∀ pt : V → ℝ, (∀ v, 0 < pt v) → termsVal pt a.hmap.terms = termsVal pt b.hmap.terms := by
  unfold Nomial.eqNomial
  rw [Bool.and_eq_true, hmapEq_iff ha hb, decide_eq_true_eq, and_comm]

/-- C03 for expressions without units: two expressions compare equal exactly if they are algebraically identical, however
they were written. -/
theorem C03_expr_eq_iff {se se' : Bool} (e e' : Expr V) (n n' : Nomial V ℝ D)
    (h : e.build se (fun _ => none) = .ok (.nom n)) (h' : e'.build se' (fun _ => none) = .ok (.nom n'))
    (hu : n.hmap.units = none) (hu' : n'.hmap.units = none) :
    n.eqNomial n' = true ↔ ∀ pt : V → ℝ, (∀ v, 0 < pt v) → e.denote pt = e'.denote pt := by
  have hn : ∀ v : V, UnitOK ((fun _ => none : V → Option (UnitQ D ℝ)) v) := by simp [UnitOK, unitScale]
  rw [C03_eq_iff_same_function (C02_build_canonical hn e n h) (C02_build_canonical hn e' n' h'), hu, hu']
  constructor
  · rintro ⟨_, h1⟩ pt hpt
    rw [← C01_build_denotes_unitless e n h hu pt hpt, ← C01_build_denotes_unitless e' n' h' hu' pt hpt, h1 pt hpt]
  · intro h1
    refine ⟨rfl, fun pt hpt => ?_⟩
    rw [C01_build_denotes_unitless e n h hu pt hpt, C01_build_denotes_unitless e' n' h' hu' pt hpt, h1 pt hpt]

/-- `(x + 1)*x` and `x*x + x` are such expressions. -/
example : ∃ n n' : Nomial ℕ ℝ ℝ,
    (Expr.mul (.add (.var 0) (.num 1)) (.var 0)).build false (fun _ => none) = .ok (.nom n) ∧
    (Expr.add (.mul (.var 0) (.var 0)) (.var 0)).build true (fun _ => none) = .ok (.nom n') ∧
    n.hmap.units = none ∧ n'.hmap.units = none := by
  refine ⟨⟨⟨[(⟨[(0, 2)]⟩, 1), (⟨[(0, 1)]⟩, 1)], none⟩, .posynomial⟩,
    ⟨⟨[(⟨[(0, 2)]⟩, 1), (⟨[(0, 1)]⟩, 1)], none⟩, .posynomial⟩, ?_, ?_, rfl, rfl⟩ <;> pyeval

/-- C03 with a number: `n == c` for a non-zero number holds exactly if `n` is constantly `c`. -/
theorem C03_eqNum_partial {n : Nomial V ℝ D} (hn : TermsCanonical n.hmap.terms) {c : ℝ} (hc : c ≠ 0) :
    n.eqNum c = true ↔ ∀ pt : V → ℝ, (∀ v, 0 < pt v) → termsVal pt n.hmap.terms = c := by
  have hcanon : TermsCanonical ([(HV.empty, c)] : List (HV V ℝ × ℝ)) := by
    simp [TermsCanonical, HV.empty, ExpCanonical, hc]
  have hval : ∀ pt : V → ℝ, termsVal pt ([(HV.empty, c)] : List (HV V ℝ × ℝ)) = c := by
    intro pt; simp [termsVal, monVal, HV.empty]
  constructor
  · intro h pt hpt
    simp only [Nomial.eqNum, Nomial.isFixedScalar, Bool.and_eq_true, decide_eq_true_eq] at h
    obtain ⟨⟨h1, h2⟩, h3⟩ := h
    match hts : n.hmap.terms with
    | [] => rw [hts] at h1; simp at h1
    | [t] =>
      rw [hts] at h3
      simp at h3
      have h4 : t.1.items = [] := by
        by_contra hne
        obtain ⟨kx, hkx⟩ := List.exists_mem_of_ne_nil _ hne
        have : kx.1 ∈ n.hmap.vks := by
          unfold NMap.vks
          rw [hts]
          simp
          exact ⟨kx.2, hkx⟩
        rw [List.isEmpty_iff] at h2
        rw [h2] at this; simp at this
      simp [termsVal, monVal, h4, h3]
    | _ :: _ :: _ => rw [hts] at h1; simp at h1
  · intro h
    have hget := get?_eq_of_same_function hn hcanon (fun pt hpt => by rw [h pt hpt, hval])
    have heq := (hmapEq_iff hn hcanon).2 (fun pt hpt => by rw [h pt hpt, hval])
    simp only [Nomial.hmapEq, Bool.and_eq_true, decide_eq_true_eq, List.all_eq_true] at heq
    obtain ⟨h1, h2⟩ := heq
    match hts : n.hmap.terms with
    | [] => rw [hts] at h1; simp at h1
    | [t] =>
      have h3 := h2 t (by rw [hts]; simp)
      rw [PyDict.get?_cons] at h3
      by_cases hb : (HV.empty : HV V ℝ) == t.1
      · rw [if_pos hb] at h3
        have hp := HV.beq_iff.1 hb
        have h4 : t.1.items = [] := by
          have := hp.symm
          simpa [HV.empty] using this
        simp only [Option.some.injEq] at h3
        simp [Nomial.eqNum, Nomial.isFixedScalar, hts, NMap.vks, h4, h3]
      · rw [if_neg hb] at h3; simp at h3
    | _ :: _ :: _ => rw [hts] at h1; simp at h1

/-- C03 fails at zero: `x - x` is identically zero and compares unequal to `0`. -/
theorem C03_eqNum_zero_fails : ∃ n : Nomial ℕ ℝ ℝ,
    (Expr.sub (.var 0) (.var 0)).build true (fun _ => none) = .ok (.nom n) ∧
    (∀ pt : ℕ → ℝ, termsVal pt n.hmap.terms = 0) ∧ n.eqNum 0 = false := by
  refine ⟨⟨⟨[], none⟩, .posynomial⟩, ?_, ?_, ?_⟩
  · pyeval
  · intro pt; simp [termsVal]
  · simp [Nomial.eqNum, Nomial.isFixedScalar]

/-- C03 fails across units: `x + y` in metres and the same sum in centimetres are physically equal but compare unequal. -/
theorem C03_units_fails : ∃ a b : Nomial ℕ ℝ ℝ, TermsCanonical a.hmap.terms ∧ TermsCanonical b.hmap.terms ∧
    (∀ pt, physVal pt a.hmap = physVal pt b.hmap) ∧ unitDim a.hmap.units = unitDim b.hmap.units ∧ a.eqNomial b = false := by
  refine ⟨⟨⟨[(⟨[(0, 1)]⟩, 1), (⟨[(1, 1)]⟩, 1)], some ⟨1, 1⟩⟩, .posynomial⟩,
    ⟨⟨[(⟨[(0, 1)]⟩, 100), (⟨[(1, 1)]⟩, 100)], some ⟨1, 1/100⟩⟩, .posynomial⟩, ?_, ?_, ?_, ?_, ?_⟩
  · simp [TermsCanonical, ExpCanonical]
  · simp [TermsCanonical, ExpCanonical]
  · intro pt; simp [physVal, unitScale, termsVal]; ring
  · simp [unitDim]
  · norm_num [Nomial.eqNomial, Nomial.hmapEq, PyDict.get?, HV.beq_def, List.isPerm]

/-! ### C05 -/

/-- C05. What `Signomial(...)` does for every coefficient map, `require_positive` and SignomialsEnabled setting: it raises
InvalidPosynomial exactly if a coefficient is not positive and that is not allowed; otherwise it keeps the map and gives the
right class. -/
theorem C05_class_decision (se rp : Bool) (h : NMap V ℝ D) :
    (mkSig se rp h = .error .invalidPosynomial ∧ (∃ t ∈ h.terms, t.2 ≤ 0) ∧ rp = true ∧ se = false) ∨
    (∃ n, mkSig se rp h = .ok n ∧ n.hmap = h ∧ n.ClassTrue ∧
      ((rp = true ∧ se = false) → n.AllPos)) := by
  by_cases hneg : ∃ t ∈ h.terms, t.2 ≤ 0
  · have h1 : h.anyNonpositive = true := by
      simpa [NMap.anyNonpositive, List.any_eq_true] using hneg
    by_cases h2 : rp = true ∧ se = false
    · left
      refine ⟨?_, hneg, h2.1, h2.2⟩
      simp [mkSig, h1, h2.1, h2.2]
    · right
      have h3 : mkSig se rp h = .ok ⟨h, .signomial⟩ := by
        have : (rp && !se) = false := by
          cases rp <;> cases se <;> simp_all
        simp [mkSig, h1, this]
      exact ⟨_, h3, rfl, mkSig_classTrue h3, fun h4 => absurd h4 h2⟩
  · right
    have h1 : h.anyNonpositive = false := by
      rw [Bool.eq_false_iff]
      intro hh
      exact hneg (by simpa [NMap.anyNonpositive, List.any_eq_true] using hh)
    have hpos : ∀ t ∈ h.terms, 0 < t.2 := fun t ht => not_le.1 (fun h0 => hneg ⟨t, ht, h0⟩)
    by_cases hl : h.terms.length = 1
    · have h3 : mkSig se rp h = .ok ⟨h, .monomial⟩ := by simp [mkSig, h1, hl]
      exact ⟨_, h3, rfl, mkSig_classTrue h3, fun _ => hpos⟩
    · have h3 : mkSig se rp h = .ok ⟨h, .posynomial⟩ := by simp [mkSig, h1, hl]
      exact ⟨_, h3, rfl, mkSig_classTrue h3, fun _ => hpos⟩

/-- C05. Every nomial that any expression evaluates to has the class its coefficients call for. -/
theorem C05_build_class {se : Bool} {vunits : V → Option (UnitQ D ℝ)} (hu : ∀ v, UnitOK (vunits v))
    (e : Expr V) (n : Nomial V ℝ D) (h : e.build se vunits = .ok (.nom n)) : n.ClassTrue :=
  (build_ok hu e h).1.2

/-- C05. Outside SignomialsEnabled every nomial an expression evaluates to has positive coefficients only. -/
theorem C05_build_positive {vunits : V → Option (UnitQ D ℝ)} (e : Expr V) (n : Nomial V ℝ D)
    (h : e.build false vunits = .ok (.nom n)) : n.AllPos := build_pos e h

/-- ... and hence is positive at positive points, unless it has no terms at all. -/
theorem C05_build_value_nonneg {vunits : V → Option (UnitQ D ℝ)} (e : Expr V) (n : Nomial V ℝ D)
    (h : e.build false vunits = .ok (.nom n)) (pt : V → ℝ) (hpt : ∀ v, 0 < pt v) (hne : n.hmap.terms ≠ []) :
    0 < termsVal pt n.hmap.terms := by
  have hp := build_pos e h
  unfold termsVal
  apply List.sum_pos
  · intro x hx
    obtain ⟨t, ht, rfl⟩ := List.mem_map.1 hx
    exact mul_pos (hp t ht) (monVal_pos hpt _)
  · simpa using hne

/-! ### C51 -/

/-- C51. Adding and multiplying nomials without units never raises under SignomialsEnabled, unless the right operand of `+`
is a nomial without terms. -/
theorem C51_add_mul_total_partial {a b : Nomial V ℝ D} (ha : a.hmap.units = none) (hb : b.hmap.units = none)
    (hne : b.hmap.terms ≠ []) : (∃ n, a.add true b = .ok n) ∧ (∃ n, a.mul true b = .ok n) := by
  have hm : ∀ h : NMap V ℝ D, ∃ n, mkSig true true h = .ok n := by
    intro h
    rcases C05_class_decision true true h with ⟨_, _, _, h4⟩ | ⟨n, h1, _⟩
    · cases h4
    · exact ⟨n, h1⟩
  constructor
  · have h1 : b.hmap.terms.isEmpty = false := by simpa using hne
    obtain ⟨n, hn⟩ := hm ⟨dictAdd a.hmap.terms b.hmap.terms, none⟩
    refine ⟨n, ?_⟩
    unfold Nomial.add
    rw [h1]
    simp [NMap.add, ha, hb, bind, Except.bind, hn]
  · exact hm _

/-- C51 fails: `(x + y)**0` raises AttributeError, `0/x` raises AttributeError, and `(x + y) + (z - z)` raises TypeError
although `(z - z) + (x + y)` does not. -/
theorem C51_total_fails :
    (Expr.pow (.add (.var 0) (.var 1)) (.int 0)).build true (fun _ => none) = (.error .attributeError : Except Err (PyVal ℕ ℝ ℝ)) ∧
    (Expr.div (.num 0) (.var 0)).build true (fun _ => none) = (.error .attributeError : Except Err (PyVal ℕ ℝ ℝ)) ∧
    (Expr.add (.add (.var 0) (.var 1)) (.sub (.var 2) (.var 2))).build true (fun _ => none)
      = (.error .typeError : Except Err (PyVal ℕ ℝ ℝ)) ∧
    (Expr.add (.sub (.var 2) (.var 2)) (.add (.var 0) (.var 1))).build true (fun _ => none)
      = (.ok (.nom ⟨⟨[(⟨[(0, 1)]⟩, 1), (⟨[(1, 1)]⟩, 1)], none⟩, .posynomial⟩) : Except Err (PyVal ℕ ℝ ℝ)) := by
  refine ⟨?_, ?_, ?_, ?_⟩
  · pyeval
    intro h; cases h
  all_goals pyeval

end Verif
