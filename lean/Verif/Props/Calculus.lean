import Verif.Lemmas.Diff
import Verif.Lemmas.PyEval
import Verif.Lemmas.Arith

/-! Property theorems about derivatives and decomposition of nomials: C07, C08, C50. -/

set_option linter.unusedSectionVars false

namespace Verif
open PyDict

variable {V D : Type} [DecidableEq V] [AddCommGroup D] [DecidableEq D]

/-! ### C07 -/

/-- C07. `p.diff(v)` never raises, is canonical or the constant zero, and its coefficients and exponents evaluate at every
positive point to the partial derivative of `p` with respect to the number `v` stands for. -/
theorem C07_diff_is_derivative (a : Nomial V ℝ D) (hc : TermsCanonical a.hmap.terms) (v : V) (vu : Option (UnitQ D ℝ)) :
    ∃ d, a.diff v vu = .ok d ∧ d.ClassTrue ∧
      (TermsCanonical d.hmap.terms ∨ d.hmap.terms = [(HV.empty, 0)]) ∧
      ∀ pt : V → ℝ, 0 < pt v →
        HasDerivAt (fun y => termsVal (Function.update pt v y) a.hmap.terms) (termsVal pt d.hmap.terms) (pt v) := by
  have hm : ∀ h : NMap V ℝ D, ∃ n, mkSig false false h = .ok n := by
    intro h
    unfold mkSig
    split_ifs <;> simp_all
  unfold Nomial.diff
  by_cases hv : v ∈ a.hmap.vks
  · rw [if_pos hv]
    obtain ⟨d, hd⟩ := hm (a.hmap.diff v vu)
    refine ⟨d, hd, mkSig_classTrue hd, Or.inl ?_, fun pt hpos => ?_⟩
    · rw [mkSig_ok hd, NMap.diff_terms hc]; exact filterMap_dterm_canonical hc
    · rw [mkSig_ok hd, NMap.diff_terms hc]
      exact termsVal_hasDerivAt hpos (fun t ht => ((expCanonical_iff _).1 (hc.1 t ht).1).1)
  · rw [if_neg hv]
    obtain ⟨d, hd⟩ := hm ⟨[(HV.empty, 0)], none⟩
    refine ⟨d, hd, mkSig_classTrue hd, Or.inr ?_, fun pt hpos => ?_⟩
    · rw [mkSig_ok hd]
    · rw [mkSig_ok hd]
      have habs : ∀ t ∈ a.hmap.terms, t.1.get? v = none := by
        intro t ht
        by_contra hne
        exact hv (mem_vks.2 ⟨t, ht, hne⟩)
      have : (fun y => termsVal (Function.update pt v y) a.hmap.terms) = fun _ => termsVal pt a.hmap.terms := by
        funext y; exact termsVal_update_of_absent pt v y habs
      rw [this]
      simpa using hasDerivAt_const (pt v) (termsVal pt a.hmap.terms)

/-- `2*x^3*y + x` differentiates to `6*x^2*y + 1`. -/
example : ((⟨⟨[(⟨[(0, 3), (1, 1)]⟩, 2), (⟨[(0, 1)]⟩, 1)], none⟩, .posynomial⟩ : Nomial ℕ ℝ ℝ).diff 0 none)
    = .ok ⟨⟨[(⟨[(0, 2), (1, 1)]⟩, 6), (⟨[]⟩, 1)], none⟩, .posynomial⟩ := by
  norm_num [Nomial.diff, NMap.vks, NMap.diff, NMap.unitsOfProduct, NMap.diffStep, PyDict.get?, PyDict.set, PyDict.del, mkSig,
    NMap.anyNonpositive, HV.beq_def, List.isPerm]

/-! ### C50 -/

/-- C50 where it holds: if the units of the nomial and of the variable have different dimensions or the same size, the
derivative is the physical derivative (per base unit of the variable). -/
theorem C50_diff_units_partial (h : NMap V ℝ D) (hc : TermsCanonical h.terms) (v : V) (vu : Option (UnitQ D ℝ))
    (hvu : UnitOK vu)
    (hcase : h.units = none ∨ vu = none ∨ unitDim h.units ≠ unitDim vu ∨ unitScale h.units = unitScale vu)
    (pt : V → ℝ) (hpos : 0 < pt v) :
    HasDerivAt (fun y => physVal (Function.update pt v (y / unitScale vu)) h) (physVal pt (h.diff v vu))
      (unitScale vu * pt v) ∧ unitDim (h.diff v vu).units = unitDim h.units - unitDim vu := by
  have hs : unitScale vu ≠ 0 := ne_of_gt hvu
  have hinv : unitScale (vu.map UnitQ.inv) = (unitScale vu)⁻¹ := by
    cases vu <;> simp [unitScale, UnitQ.inv]
  have hdinv : unitDim (vu.map UnitQ.inv) = -unitDim vu := by
    cases vu <;> simp [unitDim, UnitQ.inv]
  have hun : (h.diff v vu).units = ((⟨[], none⟩ : NMap V ℝ D).unitsOfProduct h.units (vu.map UnitQ.inv)).units := rfl
  constructor
  · have hsc : unitScale (h.diff v vu).units = unitScale h.units / unitScale vu := by
      rw [hun]
      unfold NMap.unitsOfProduct
      match hu : h.units, hv : vu with
      | none, none => simp [unitScale]
      | none, some b => simp [unitScale, UnitQ.inv]
      | some a, none => simp [unitScale]
      | some a, some b =>
        simp only [Option.map_some]
        match hp : ofProduct a b.inv with
        | (u, some conv) =>
          obtain ⟨rfl, rfl, h0⟩ := ofProduct_fst_none hp
          simp only [unitScale]
          rcases hcase with h1 | h1 | h1 | h1
          · rw [hu] at h1; cases h1
          · cases h1
          · exfalso; apply h1
            rw [hu]; simp only [unitDim]
            simp only [UnitQ.inv] at h0
            exact add_neg_eq_zero.1 h0
          · rw [hu] at h1
            simp only [unitScale] at h1 hs
            rw [h1, div_self hs]
        | (u, none) =>
          obtain ⟨rfl, _⟩ := ofProduct_snd_none hp
          simp [unitScale, UnitQ.mul, UnitQ.inv, div_eq_mul_inv]
    have hd := termsVal_hasDerivAt hpos (v := v) (ts := h.terms)
      (fun t ht => ((expCanonical_iff _).1 (hc.1 t ht).1).1)
    have hpv : pt v = (unitScale vu * pt v) / unitScale vu := by field_simp
    have hin : HasDerivAt (fun y : ℝ => y / unitScale vu) (1 / unitScale vu) (unitScale vu * pt v) :=
      (hasDerivAt_id _).div_const _
    have hd' := hd
    rw [hpv] at hd'
    have hcomp := (hd'.comp (unitScale vu * pt v) hin).const_mul (unitScale h.units)
    unfold physVal
    rw [hsc, NMap.diff_terms hc]
    refine hcomp.congr_deriv ?_
    field_simp
  · rw [hun, unitDim_unitsOfProduct, hdinv, sub_eq_add_neg]

/-- C50 fails for units of one dimension and different size: with `x` in centimetres, `x.to("m").diff(x)` is `0.01`; the
derivative of a length with respect to the same length is `1`. -/
theorem C50_diff_units_fails :
    let cm : UnitQ ℝ ℝ := ⟨1, 1/100⟩
    let m : UnitQ ℝ ℝ := ⟨1, 1⟩
    let x : NMap ℕ ℝ ℝ := ⟨[(⟨[(0, 1)]⟩, 1)], some cm⟩
    ∃ p, x.convertTo m = .ok p ∧ (∀ pt, physVal pt p = physVal pt x) ∧
      (p.diff 0 (some cm)).units = none ∧ (∀ pt, physVal pt (p.diff 0 (some cm)) = 1/100) ∧
      ∀ pt : ℕ → ℝ, HasDerivAt (fun y => physVal (Function.update pt 0 (y / cm.scale)) p) 1 (cm.scale * pt 0) := by
  intro cm m x
  refine ⟨⟨[(⟨[(0, 1)]⟩, 1/100)], some m⟩, ?_, ?_, ?_, ?_, ?_⟩
  · norm_num [NMap.convertTo, x, cm, m, UnitQ.convert, NMap.scale, dictScale, NMap.unitsOfProduct, bind, Except.bind, pure, Except.pure]
  · intro pt; simp [physVal, unitScale, termsVal, x, cm, m]
  · simp [NMap.diff, NMap.unitsOfProduct, ofProduct, UnitQ.float, UnitQ.mul, UnitQ.inv, cm, m]
  · intro pt
    simp [NMap.diff, NMap.unitsOfProduct, ofProduct, UnitQ.float, UnitQ.mul, UnitQ.inv, cm, m, NMap.diffStep, PyDict.get?,
      PyDict.set, PyDict.del, physVal, unitScale, termsVal, monVal]
  · intro pt
    have : (fun y => physVal (Function.update pt 0 (y / cm.scale)) ⟨[(⟨[(0, 1)]⟩, 1/100)], some m⟩) = fun y => y := by
      funext y
      simp [physVal, unitScale, termsVal, monVal, cm, m]
      ring
    rw [this]
    exact hasDerivAt_id _

/-! ### C08 -/

theorem posyNegy_foldl {ts p n : PyDict (HV V ℝ) ℝ} (hp : WF (p ++ ts)) (hn : WF (n ++ ts)) :
    ts.foldl Nomial.posyNegyStep (p, n) =
      (p ++ ts.filter (fun t => 0 < t.2), n ++ (ts.filter (fun t => t.2 < 0)).map (fun t => (t.1, -t.2))) := by
  induction ts generalizing p n with
  | nil => simp
  | cons t ts ih =>
    have hnp : PyDict.get? p t.1 = none := by
      rw [get?_eq_none_iff]; intro q hq
      exact (List.pairwise_append.1 hp).2.2 q hq t List.mem_cons_self
    have hnn : PyDict.get? n t.1 = none := by
      rw [get?_eq_none_iff]; intro q hq
      exact (List.pairwise_append.1 hn).2.2 q hq t List.mem_cons_self
    have drop : ∀ q : PyDict (HV V ℝ) ℝ, WF (q ++ t :: ts) → WF (q ++ ts) := fun q hq =>
      hq.sublist ((List.Sublist.refl q).append (List.sublist_cons_self t ts))
    rw [List.foldl_cons]
    have hstep : Nomial.posyNegyStep (p, n) t = if t.2 > 0 then (p.set t.1 t.2, n)
      else if t.2 < 0 then (p, n.set t.1 (-t.2)) else (p, n) := rfl
    rw [hstep]
    split_ifs with h1 h2
    · rw [set_of_not_contains hnp, ih (by simpa using hp) (drop n hn)]
      rw [List.filter_cons_of_pos (by simpa using h1), List.filter_cons_of_neg (by simp; linarith)]
      simp
    · rw [set_of_not_contains hnn, ih (drop p hp) ?_]
      · rw [List.filter_cons_of_neg (by simp; linarith), List.filter_cons_of_pos (by simpa using h2)]
        simp
      · have : WF (n ++ [(t.1, -t.2)] ++ ts) := by
          have h3 : (n ++ [(t.1, -t.2)] ++ ts).map (·.1) = (n ++ t :: ts).map (·.1) := by simp
          have h4 : ((n ++ t :: ts).map (·.1)).Pairwise (fun a b => (a == b) = false) := List.pairwise_map.2 hn
          rw [← h3, List.pairwise_map] at h4
          exact h4
        exact this
    · rw [ih (drop p hp) (drop n hn)]
      rw [List.filter_cons_of_neg (by simpa using h1), List.filter_cons_of_neg (by simpa using h2)]

theorem mkSig_pos {se rp : Bool} {h : NMap V ℝ D} (hp : ∀ t ∈ h.terms, 0 < t.2) :
    ∃ n, mkSig se rp h = .ok n ∧ n.hmap = h ∧ n.cls ≠ .signomial := by
  have h1 : h.anyNonpositive = false := by
    rw [Bool.eq_false_iff]
    intro hh
    simp only [NMap.anyNonpositive, List.any_eq_true, decide_eq_true_eq] at hh
    obtain ⟨t, ht, h0⟩ := hh
    exact absurd (hp t ht) (not_lt.2 h0)
  unfold mkSig
  rw [h1]
  by_cases hl : h.terms.length = 1
  · exact ⟨⟨h, .monomial⟩, by simp [hl], rfl, by simp⟩
  · exact ⟨⟨h, .posynomial⟩, by simp [hl], rfl, by simp⟩

/-- The terms of an optional posynomial (`0` counts as no terms). -/
def optTerms (o : Option (Nomial V ℝ D)) : PyDict (HV V ℝ) ℝ := (o.map (·.hmap.terms)).getD []

/-- C08. `posy_negy` raises nothing (also outside SignomialsEnabled); the two parts are positive with the units of the
nomial, their difference is the nomial at every point, a term is in the first part exactly if its coefficient is positive and in the
second, negated, exactly if it is negative. A part without terms is the number 0. -/
theorem C08_posy_negy (se : Bool) (a : Nomial V ℝ D) (hwf : WF a.hmap.terms) :
    ∃ p n, a.posyNegy se = .ok (p, n) ∧
      (∀ q, (p = some q ∨ n = some q) → q.AllPos ∧ q.hmap.units = a.hmap.units ∧ q.cls ≠ .signomial ∧ q.hmap.terms ≠ []) ∧
      (∀ pt, termsVal pt (optTerms p) - termsVal pt (optTerms n) = termsVal pt a.hmap.terms) ∧
      (∀ t, t ∈ optTerms p ↔ t ∈ a.hmap.terms ∧ 0 < t.2) ∧
      (∀ t : HV V ℝ × ℝ, t ∈ optTerms n ↔ (t.1, -t.2) ∈ a.hmap.terms ∧ 0 < t.2) := by
  have hf := posyNegy_foldl (p := []) (n := []) (ts := a.hmap.terms) (by simpa using hwf) (by simpa using hwf)
  simp only [List.nil_append] at hf
  unfold Nomial.posyNegy
  rw [hf]
  set P := a.hmap.terms.filter (fun t => 0 < t.2) with hP
  set N := (a.hmap.terms.filter (fun t => t.2 < 0)).map (fun t => (t.1, -t.2)) with hN
  have hPpos : ∀ t ∈ P, 0 < t.2 := by intro t ht; rw [hP, List.mem_filter] at ht; simpa using ht.2
  have hNpos : ∀ t ∈ N, 0 < t.2 := by
    intro t ht; rw [hN, List.mem_map] at ht
    obtain ⟨s, hs, rfl⟩ := ht
    have := (List.mem_filter.1 hs).2
    simp at this; simpa using this
  have mk : ∀ Q : PyDict (HV V ℝ) ℝ, (∀ t ∈ Q, 0 < t.2) → ∃ o : Option (Nomial V ℝ D),
      Nomial.posyOrZero se ⟨Q, a.hmap.units⟩ = .ok o ∧
      optTerms o = Q ∧ ∀ q, o = some q → q.AllPos ∧ q.hmap.units = a.hmap.units ∧ q.cls ≠ .signomial ∧ q.hmap.terms ≠ [] := by
    intro Q hQ
    by_cases he : Q = []
    · refine ⟨none, ?_, ?_, ?_⟩
      · simp [Nomial.posyOrZero, he]
      · simp [optTerms, he]
      · intro q hq; cases hq
    · obtain ⟨m, h1, h2, h3⟩ := mkSig_pos (se := se) (rp := true) (h := (⟨Q, a.hmap.units⟩ : NMap V ℝ D)) hQ
      refine ⟨some m, ?_, ?_, ?_⟩
      · have : Q.isEmpty = false := by simpa using he
        simp [Nomial.posyOrZero, this, h1, Except.map]
      · simp [optTerms, h2]
      · rintro q ⟨⟩
        exact ⟨by intro t ht; rw [h2] at ht; exact hQ t ht, by rw [h2], h3, by rw [h2]; exact he⟩
  obtain ⟨p, p1, p2, p3⟩ := mk P hPpos
  obtain ⟨n, n1, n2, n3⟩ := mk N hNpos
  refine ⟨p, n, ?_, ?_, ?_, ?_, ?_⟩
  · simp only [p1, n1, bind, Except.bind, pure, Except.pure]
  · rintro q (h | h)
    · exact p3 q h
    · exact n3 q h
  · intro pt
    rw [p2, n2, hP, hN]
    generalize a.hmap.terms = ts
    induction ts with
    | nil => simp
    | cons t ts ih =>
      rcases lt_trichotomy 0 t.2 with h | h | h
      · rw [List.filter_cons_of_pos (by simpa using h), List.filter_cons_of_neg (by simp; linarith), termsVal_cons, termsVal_cons,
          ← ih]; ring
      · rw [List.filter_cons_of_neg (by simp; linarith), List.filter_cons_of_neg (by simp; linarith), termsVal_cons, ← h, ← ih]; ring
      · rw [List.filter_cons_of_neg (by simp; linarith), List.filter_cons_of_pos (by simpa using h), List.map_cons, termsVal_cons,
          termsVal_cons, ← ih]; ring
  · intro t; rw [p2, hP, List.mem_filter]; simp
  · intro t
    rw [n2, hN, List.mem_map]
    constructor
    · rintro ⟨s, hs, rfl⟩
      obtain ⟨h1, h2⟩ := List.mem_filter.1 hs
      simp at h2
      exact ⟨by simpa using h1, by simpa using h2⟩
    · rintro ⟨h1, h2⟩
      exact ⟨(t.1, -t.2), List.mem_filter.2 ⟨h1, by simpa using h2⟩, by simp⟩

theorem chop_mapM {se : Bool} {u : Option (UnitQ D ℝ)} {ts : PyDict (HV V ℝ) ℝ} {l : List (Nomial V ℝ D)}
    (h : ts.mapM (fun t => mkSig se true (⟨[(t.1, t.2)], u⟩ : NMap V ℝ D)) = .ok l) :
    l.map (·.hmap) = ts.map (fun t => ⟨[t], u⟩) := by
  induction ts generalizing l with
  | nil => simp [pure, Except.pure] at h; subst h; rfl
  | cons t ts ih =>
    rw [List.mapM_cons] at h
    obtain ⟨n, h1, h2⟩ := except_bind_ok h
    obtain ⟨l', h3, h4⟩ := except_bind_ok h2
    cases h4
    rw [List.map_cons, List.map_cons, ih h3, mkSig_ok h1]

/-- C08. `chop` of a nomial with positive coefficients, or of any under SignomialsEnabled, returns one single-term nomial per
term, in order, with the units of the nomial; their values sum to that of the nomial. -/
theorem C08_chop (se : Bool) (a : Nomial V ℝ D) (hok : se = true ∨ a.AllPos) :
    ∃ l, a.chop se = .ok l ∧ l.map (·.hmap) = a.hmap.terms.map (fun t => ⟨[t], a.hmap.units⟩) ∧
      (∀ m ∈ l, m.ClassTrue) ∧ ∀ pt, (l.map (fun m => physVal pt m.hmap)).sum = physVal pt a.hmap := by
  have hex : ∀ ts : PyDict (HV V ℝ) ℝ, (se = true ∨ ∀ t ∈ ts, 0 < t.2) →
      ∃ l, ts.mapM (fun t => mkSig se true (⟨[(t.1, t.2)], a.hmap.units⟩ : NMap V ℝ D)) = .ok l ∧ ∀ m ∈ l, m.ClassTrue := by
    intro ts
    induction ts with
    | nil => intro _; exact ⟨[], rfl, by simp⟩
    | cons t ts ih =>
      intro hp
      have h1 : ∃ n, mkSig se true (⟨[(t.1, t.2)], a.hmap.units⟩ : NMap V ℝ D) = .ok n := by
        rcases hp with rfl | hp
        · unfold mkSig; split_ifs <;> simp_all
        · obtain ⟨n, hn, _⟩ := mkSig_pos (se := se) (rp := true) (h := (⟨[(t.1, t.2)], a.hmap.units⟩ : NMap V ℝ D))
            (by intro s hs; simp at hs; rw [hs]; exact hp t List.mem_cons_self)
          exact ⟨n, hn⟩
      obtain ⟨n, hn⟩ := h1
      obtain ⟨l, hl, hcl⟩ := ih (hp.imp id (fun hp s hs => hp s (List.mem_cons_of_mem _ hs)))
      refine ⟨n :: l, ?_, ?_⟩
      · rw [List.mapM_cons, hn, hl]; rfl
      · intro m hm
        rcases List.mem_cons.1 hm with rfl | hm
        · exact mkSig_classTrue hn
        · exact hcl m hm
  obtain ⟨l, hl, hcl⟩ := hex a.hmap.terms hok
  have hmap := chop_mapM hl
  refine ⟨l, hl, hmap, hcl, fun pt => ?_⟩
  have : l.map (fun m => physVal pt m.hmap) = (l.map (·.hmap)).map (physVal pt) := by simp
  rw [this, hmap, List.map_map]
  unfold physVal
  generalize a.hmap.terms = ts
  induction ts with
  | nil => simp
  | cons t ts ih => rw [List.map_cons, List.sum_cons, ih, termsVal_cons]; simp; ring

/-- `x - 3*y` splits into `x` and `3*y`. -/
example : (⟨⟨[(⟨[(0, 1)]⟩, 1), (⟨[(1, 1)]⟩, -3)], none⟩, .signomial⟩ : Nomial ℕ ℝ ℝ).posyNegy false
    = .ok (some ⟨⟨[(⟨[(0, 1)]⟩, 1)], none⟩, .monomial⟩, some ⟨⟨[(⟨[(1, 1)]⟩, 3)], none⟩, .monomial⟩) := by
  norm_num [Nomial.posyNegy, Nomial.posyNegyStep, Nomial.posyOrZero, PyDict.set, mkSig, NMap.anyNonpositive, bind, Except.bind, pure, Except.pure,
    Functor.map, Except.map]

end Verif
