import Verif.Spec.Pipeline
import Verif.Props.Inequality
import Verif.Props.Optimality

/-! From models to solutions: C60. -/

set_option linter.unusedSectionVars false

namespace Verif
open PyDict GP Pipeline
variable {V D : Type} [DecidableEq V] [AddCommGroup D] [DecidableEq D]

/-- The constraints C12 and C14 speak of: a posynomial and a monomial, or two monomials, with positive coefficients; inequalities are made outside
`SignomialsEnabled` or can be satisfied, and do not have the defect of `C12_form_fails`. -/
def ConOK : Con V D → Prop
  | .le se p m => (se = false ∨ ∃ pt : V → ℝ, (∀ v, 0 < pt v) ∧ physVal pt p ≤ physVal pt m) ∧ TermsCanonical p.terms ∧ (∀ t ∈ p.terms, 0 < t.2) ∧
      ∃ e c, m.terms = [(e, c)] ∧ ExpCanonical e.items ∧ 0 < c ∧ UnitOK p.units ∧ UnitOK m.units ∧ NoClash e p.terms
  | .eq _ l r => ∃ el er cl cr, l.terms = [(el, cl)] ∧ r.terms = [(er, cr)] ∧ ExpCanonical el.items ∧ ExpCanonical er.items ∧ 0 < cl ∧ 0 < cr ∧
      UnitOK l.units ∧ UnitOK r.units

/-- No constant that is zero stands on the greater side of an inequality or in an equality. -/
def Pipeline.Con.NoZero (fixed : PyDict V ℝ) : Con V D → Prop
  | .le _ _ m => ∀ t ∈ m.terms, ∀ x ∈ t.1.items, fixed.get? x.1 ≠ some 0
  | .eq _ l r => (∀ t ∈ l.terms, ∀ x ∈ t.1.items, fixed.get? x.1 ≠ some 0) ∧ ∀ t ∈ r.terms, ∀ x ∈ t.1.items, fixed.get? x.1 ≠ some 0

/-- No value is negative, and those on the greater side of an inequality or in an equality are positive. -/
def Pipeline.Con.PosSides (pt : V → ℝ) : Con V D → Prop
  | .le _ _ m => (∀ v, 0 ≤ pt v) ∧ ∀ t ∈ m.terms, ∀ x ∈ t.1.items, 0 < pt x.1
  | .eq _ l r => (∀ v, 0 ≤ pt v) ∧ (∀ t ∈ l.terms, ∀ x ∈ t.1.items, 0 < pt x.1) ∧ ∀ t ∈ r.terms, ∀ x ∈ t.1.items, 0 < pt x.1

theorem posSides_of_pos {pt : V → ℝ} (h : ∀ v, 0 < pt v) : ∀ c : Con V D, c.PosSides pt
  | .le _ _ _ => ⟨fun v => (h v).le, fun _ _ x _ => h x.1⟩
  | .eq _ _ _ => ⟨fun v => (h v).le, fun _ _ x _ => h x.1, fun _ _ x _ => h x.1⟩

theorem noZero_of_pos {fixed : PyDict V ℝ} (h : ∀ v c, fixed.get? v = some c → 0 < c) : ∀ c : Con V D, c.NoZero fixed
  | .le _ _ _ => fun _ _ _ _ hx => lt_irrefl _ (h _ _ hx)
  | .eq _ _ _ => ⟨fun _ _ _ _ hx => lt_irrefl _ (h _ _ hx), fun _ _ _ _ hx => lt_irrefl _ (h _ _ hx)⟩

theorem override_nonneg {pt : V → ℝ} {fixed : PyDict V ℝ} (hpt : ∀ v, 0 < pt v) (hfix : ∀ v c, fixed.get? v = some c → 0 ≤ c) (v : V) :
    0 ≤ override pt fixed v := by
  unfold override
  cases h : fixed.get? v with
  | none => exact (hpt v).le
  | some c => exact hfix v c h

theorem override_pos_of {pt : V → ℝ} {fixed : PyDict V ℝ} (hpt : ∀ v, 0 < pt v) (hfix : ∀ v c, fixed.get? v = some c → 0 ≤ c) {v : V}
    (hv : fixed.get? v ≠ some 0) : 0 < override pt fixed v := by
  unfold override
  cases h : fixed.get? v with
  | none => exact hpt v
  | some c => exact lt_of_le_of_ne (hfix v c h) (fun h0 => hv (by rw [h, show c = 0 from h0.symm]))

theorem posSides_override {pt : V → ℝ} {fixed : PyDict V ℝ} (hpt : ∀ v, 0 < pt v) (hfix : ∀ v c, fixed.get? v = some c → 0 ≤ c) :
    ∀ {c : Con V D}, c.NoZero fixed → c.PosSides (override pt fixed)
  | .le _ _ _, h => ⟨override_nonneg hpt hfix, fun t ht x hx => override_pos_of hpt hfix (h t ht x hx)⟩
  | .eq _ _ _, h => ⟨override_nonneg hpt hfix, fun t ht x hx => override_pos_of hpt hfix (h.1 t ht x hx),
      fun t ht x hx => override_pos_of hpt hfix (h.2 t ht x hx)⟩

/-- A point with the values of the constants, which need not be positive, whose other values are positive. -/
theorem override_lifted {pt : V → ℝ} {fixed : PyDict V ℝ} (hpt : ∀ v, fixed.get? v = none → 0 < pt v) (hag : Agrees pt fixed) :
    override (lifted pt) fixed = pt := by
  funext v
  unfold override
  cases hg : fixed.get? v with
  | some d => exact (hag v d hg).symm
  | none => simp [lifted, hpt v hg]

theorem physVal_mono_on {m : NMap V ℝ D} {e : HV V ℝ} {c : ℝ} (hm : m.terms = [(e, c)]) (hc : 0 < c) (hu : UnitOK m.units)
    {pt : V → ℝ} (hpt : ∀ x ∈ e.items, 0 < pt x.1) : 0 < physVal pt m := by
  unfold physVal
  rw [hm]
  simp only [termsVal_cons, termsVal_nil, add_zero]
  exact mul_pos hu (mul_pos hc (monVal_pos_on hpt))

theorem termsVal_lifted_one {pt : V → ℝ} {e : HV V ℝ} (hpt : ∀ x ∈ e.items, 0 < pt x.1) (c : ℝ) : termsVal (lifted pt) [(e, c)] = termsVal pt [(e, c)] := by
  simp only [termsVal_cons, termsVal_nil, add_zero]
  rw [monVal_lifted_of_pos hpt]

theorem physVal_lifted {m : NMap V ℝ D} {e : HV V ℝ} {c : ℝ} (hm : m.terms = [(e, c)]) {pt : V → ℝ} (hpt : ∀ x ∈ e.items, 0 < pt x.1) :
    physVal (lifted pt) m = physVal pt m := by
  unfold physVal
  rw [hm, termsVal_lifted_one hpt]

theorem sub_pos_on {pt : V → ℝ} {a b : HV V ℝ} (ha : ∀ x ∈ a.items, 0 < pt x.1) (hb : ∀ x ∈ b.items, 0 < pt x.1) : ∀ x ∈ (a.sub b).items, 0 < pt x.1 := by
  intro x hx
  have h1 : ((a.sub b).items).filter (fun x => decide (¬ 0 < pt x.1)) = a.items.filter (fun x => decide (¬ 0 < pt x.1)) := sub_filter hb a
  by_contra hcon
  have h2 : x ∈ ((a.sub b).items).filter (fun x => decide (¬ 0 < pt x.1)) := List.mem_filter.2 ⟨hx, by simpa using hcon⟩
  rw [h1] at h2
  exact hcon (ha x (List.mem_filter.1 h2).1)

/-- A constraint and its unsubstituted forms say the same, up to tolerances. -/
theorem unsubbed_nonneg {feastol T : ℝ} (hf : 0 ≤ feastol) (hT : feastol ≤ T) {c : Con V D} (hc : ConOK c) {u : List (Nomial V ℝ D)}
    (h : c.unsubbed feastol = .ok u) :
    (∀ n ∈ u, TermsCanonical n.hmap.terms ∧ n.hmap.terms ≠ [] ∧ ∀ t ∈ n.hmap.terms, 0 < t.2) ∧
    ∀ pt : V → ℝ, c.PosSides pt →
      ((∀ n ∈ u, termsVal pt n.hmap.terms ≤ 1 + T) → c.Holds (1 + T) pt) ∧
      (c.Holds 1 pt → ∀ n ∈ u, termsVal pt n.hmap.terms ≤ 1) := by
  cases c with
  | le se p m =>
    obtain ⟨hse, h1, h3, e, k, hm, he, hk, hpu, hmu, hcl⟩ := hc
    have hon : ∀ pt : V → ℝ, (Con.le se p m).PosSides pt → PosOn e pt := by
      rintro pt ⟨g1, g2⟩
      exact ⟨g1, fun x hx => g2 _ (by rw [hm]; exact List.mem_singleton.2 rfl) x hx⟩
    have hmp : ∀ pt : V → ℝ, (Con.le se p m).PosSides pt → 0 < physVal pt m := fun pt hpt => physVal_mono_on hm hk hmu (hon pt hpt).2
    by_cases h2 : p.terms = []
    · have hu : u = [] := by
        replace h : genUnsubbed se feastol p m = .ok u := h
        unfold genUnsubbed at h
        rw [hm] at h
        simp only at h
        obtain ⟨r, hr, h5⟩ := except_bind_ok h
        rw [h2] at h5
        obtain ⟨ts, hts, h6⟩ := except_bind_ok h5
        cases hts
        obtain ⟨s, hs, h7⟩ := except_bind_ok h6
        cases hs
        cases h7
        rfl
      subst hu
      refine ⟨by simp, fun pt hpt => ⟨fun _ => ?_, by simp⟩⟩
      show physVal pt p ≤ (1 + T) * physVal pt m
      have h0 : physVal pt p = 0 := by simp [physVal, h2]
      rw [h0]
      exact mul_nonneg (by linarith) (hmp pt hpt).le
    rcases C12_nonneg_partial hf h1 h2 h3 hm he hk hpu hmu hcl h with ⟨rfl, q, hq, hv⟩ | ⟨f, rfl, h4, h5, h6, _, h8, c0, h9, h10, h11⟩ | ⟨h4, _⟩
    · refine ⟨by simp, fun pt hpt => ⟨fun _ => ?_, by simp⟩⟩
      show physVal pt p ≤ (1 + T) * physVal pt m
      rw [hv pt (hon pt hpt)]
      exact mul_le_mul_of_nonneg_right (by linarith) (hmp pt hpt).le
    · refine ⟨?_, fun pt hpt => ⟨fun hn => ?_, fun hh => ?_⟩⟩
      · intro n hn
        rw [List.mem_singleton] at hn
        subst hn
        exact ⟨h5, h6, h4⟩
      · show physVal pt p ≤ (1 + T) * physVal pt m
        rw [h11 pt (hon pt hpt)]
        refine mul_le_mul_of_nonneg_right ?_ (hmp pt hpt).le
        have := hn f (by simp)
        nlinarith
      · intro n hn
        rw [List.mem_singleton] at hn
        subst hn
        have hh' : physVal pt p ≤ 1 * physVal pt m := hh
        rw [one_mul] at hh'
        exact (h8 pt (hon pt hpt)).2 hh'
    · rename_i h5
      rcases hse with h6 | ⟨pt, hpt, hle⟩
      · rw [h6] at h4
        cases h4
      · obtain ⟨_, -, -, -, h7⟩ := h5
        exact absurd hle (not_le.2 (h7 pt (posOn_of_pos hpt _)))
  | eq se l r =>
    obtain ⟨el, er, cl, cr, hl, hr, hel, her, hcl, hcr, hlu, hru⟩ := hc
    have hlon : ∀ pt : V → ℝ, (Pipeline.Con.eq se l r).PosSides pt → ∀ x ∈ el.items, 0 < pt x.1 :=
      fun pt hpt x hx => hpt.2.1 _ (by rw [hl]; exact List.mem_singleton.2 rfl) x hx
    have hron : ∀ pt : V → ℝ, (Pipeline.Con.eq se l r).PosSides pt → ∀ x ∈ er.items, 0 < pt x.1 :=
      fun pt hpt x hx => hpt.2.2 _ (by rw [hr]; exact List.mem_singleton.2 rfl) x hx
    have hlp : ∀ pt : V → ℝ, (Pipeline.Con.eq se l r).PosSides pt → 0 < physVal pt l := fun pt hpt => physVal_mono_on hl hcl hlu (hlon pt hpt)
    have hrp : ∀ pt : V → ℝ, (Pipeline.Con.eq se l r).PosSides pt → 0 < physVal pt r := fun pt hpt => physVal_mono_on hr hcr hru (hron pt hpt)
    have hll : ∀ pt : V → ℝ, (Pipeline.Con.eq se l r).PosSides pt → physVal (lifted pt) l = physVal pt l := fun pt hpt => physVal_lifted hl (hlon pt hpt)
    have hrl : ∀ pt : V → ℝ, (Pipeline.Con.eq se l r).PosSides pt → physVal (lifted pt) r = physVal pt r := fun pt hpt => physVal_lifted hr (hron pt hpt)
    rcases C14_pair hl hr hel her hcl hcr hlu hru h with ⟨rfl, q, hq, hq1, hq2, hv⟩ | ⟨a, b, rfl, ⟨ca, ha1, ha2, cb, hb1, hb2⟩, hne, h5⟩
    · have hv' : ∀ pt : V → ℝ, (Pipeline.Con.eq se l r).PosSides pt → physVal pt l = q * physVal pt r := by
        intro pt hpt
        rw [← hll pt hpt, ← hrl pt hpt]
        exact hv _ (lifted_pos pt)
      refine ⟨by simp, fun pt hpt => ⟨fun _ => ⟨?_, ?_⟩, by simp⟩⟩
      · rw [hv' pt hpt]
        exact mul_le_mul_of_nonneg_right (by linarith) (hrp pt hpt).le
      · have : physVal pt r = q⁻¹ * physVal pt l := by rw [hv' pt hpt]; field_simp
        rw [this]
        exact mul_le_mul_of_nonneg_right (by linarith) (hlp pt hpt).le
    · have hca := HV.sub_canonical hel her
      have hcb := HV.sub_canonical her hel
      refine ⟨?_, fun pt hpt => ?_⟩
      · intro n hn
        simp only [List.mem_cons, List.not_mem_nil, or_false] at hn
        rcases hn with rfl | rfl
        · rw [ha1]
          exact ⟨⟨by intro t ht; simp at ht; rw [ht]; exact ⟨hca, ha2.ne'⟩, by simp⟩, by simp, by simpa using ha2⟩
        · rw [hb1]
          exact ⟨⟨by intro t ht; simp at ht; rw [ht]; exact ⟨hcb, hb2.ne'⟩, by simp⟩, by simp, by simpa using hb2⟩
      · obtain ⟨h6, h7, h8, h9⟩ := h5 _ (lifted_pos pt)
        have e1 : termsVal (lifted pt) a.hmap.terms = termsVal pt a.hmap.terms := by
          rw [ha1]
          exact termsVal_lifted_one (sub_pos_on (hlon pt hpt) (hron pt hpt)) _
        have e2 : termsVal (lifted pt) b.hmap.terms = termsVal pt b.hmap.terms := by
          rw [hb1]
          exact termsVal_lifted_one (sub_pos_on (hron pt hpt) (hlon pt hpt)) _
        rw [e1, hll pt hpt, hrl pt hpt] at h6
        rw [e2, hll pt hpt, hrl pt hpt] at h7
        rw [e1, hll pt hpt, hrl pt hpt] at h8
        rw [e1, e2] at h9
        constructor
        · intro hn
          have hna := hn a (by simp)
          have hnb := hn b (by simp)
          refine ⟨?_, ?_⟩
          · rw [h8]
            exact mul_le_mul_of_nonneg_right hna (hrp pt hpt).le
          · have : physVal pt r = termsVal pt b.hmap.terms * physVal pt l := by
              rw [h8, ← mul_assoc, mul_comm (termsVal pt b.hmap.terms), h9, one_mul]
            rw [this]
            exact mul_le_mul_of_nonneg_right hnb (hlp pt hpt).le
        · intro hh n hn
          have hh' : physVal pt l ≤ 1 * physVal pt r ∧ physVal pt r ≤ 1 * physVal pt l := hh
          rw [one_mul, one_mul] at hh'
          simp only [List.mem_cons, List.not_mem_nil, or_false] at hn
          rcases hn with rfl | rfl
          · exact h6.2 hh'.1
          · exact h7.2 hh'.2

/-- A constraint and its unsubstituted forms say the same at positive points, up to tolerances. -/
theorem unsubbed_spec {feastol T : ℝ} (hf : 0 ≤ feastol) (hT : feastol ≤ T) {c : Con V D} (hc : ConOK c) {u : List (Nomial V ℝ D)}
    (h : c.unsubbed feastol = .ok u) :
    (∀ n ∈ u, TermsCanonical n.hmap.terms ∧ n.hmap.terms ≠ [] ∧ ∀ t ∈ n.hmap.terms, 0 < t.2) ∧
    ∀ pt : V → ℝ, (∀ v, 0 < pt v) →
      ((∀ n ∈ u, termsVal pt n.hmap.terms ≤ 1 + T) → c.Holds (1 + T) pt) ∧
      (c.Holds 1 pt → ∀ n ∈ u, termsVal pt n.hmap.terms ≤ 1) :=
  ⟨(unsubbed_nonneg hf hT hc h).1, fun pt hpt => (unsubbed_nonneg hf hT hc h).2 pt (posSides_of_pos hpt c)⟩

/-- Substituting constants into a list of forms. -/
theorem forms_spec {feastol T : ℝ} (hf : 0 ≤ feastol) (hT : feastol ≤ T) {fixed : PyDict V ℝ} (hfix : ∀ v c, fixed.get? v = some c → 0 ≤ c)
    {ord : Orders V ℝ} (hord : ord.Valid)
    (F : Except Err (List (PyDict (HV V ℝ) ℝ)) × Memo ℝ → PyDict (HV V ℝ) ℝ → Except Err (List (PyDict (HV V ℝ) ℝ)) × Memo ℝ)
    (hF1 : ∀ out m p, F (.ok out, m) p = ((formStep feastol p fixed (ord p fixed) m).1.map (fun new => out ++ new),
      (formStep feastol p fixed (ord p fixed) m).2)) (hF2 : ∀ e m p, F (.error e, m) p = (.error e, m)) :
    ∀ (posys : List (PyDict (HV V ℝ) ℝ)) (out0 : List (PyDict (HV V ℝ) ℝ)) (memo : Memo ℝ)
    (forms : List (PyDict (HV V ℝ) ℝ)),
    (∀ p ∈ posys, TermsCanonical p ∧ p ≠ [] ∧ ∀ t ∈ p, 0 < t.2) →
    (posys.foldl F (.ok out0, memo)).1 = .ok forms →
    ∃ new, forms = out0 ++ new ∧ (∀ f ∈ new, TermsCanonical f ∧ f ≠ [] ∧ ∀ t ∈ f, 0 < t.2) ∧
      ∀ pt : V → ℝ, ((∀ f ∈ new, termsVal pt f ≤ 1 + T) → ∀ p ∈ posys, termsVal (override pt fixed) p ≤ 1 + T) ∧
        ((∀ p ∈ posys, termsVal (override pt fixed) p ≤ 1) → ∀ f ∈ new, termsVal pt f ≤ 1)
  | [], out0, memo, forms, _, h => by
    simp only [List.foldl_nil, Except.ok.injEq] at h
    exact ⟨[], by simp [h], by simp, by simp⟩
  | p :: posys, out0, memo, forms, hp, h => by
    rw [List.foldl_cons, hF1] at h
    generalize h1 : formStep feastol p fixed (ord p fixed) memo = r1 at h
    obtain ⟨r1, m1⟩ := r1
    cases r1 with
    | error e =>
      exfalso
      simp only [Except.map] at h
      have : ∀ (l : List (PyDict (HV V ℝ) ℝ)) (m : Memo ℝ), (l.foldl F (.error e, m)).1 = .error e := by
        intro l
        induction l with
        | nil => intro m; rfl
        | cons a l ih => intro m; rw [List.foldl_cons, hF2]; exact ih m
      have h' := (this posys m1).symm.trans h
      cases h'
    | ok fs =>
      simp only [Except.map] at h
      obtain ⟨hc, hne, hpos⟩ := hp p (by simp)
      obtain ⟨new, hnew, h3, h4⟩ := forms_spec hf hT hfix hord F hF1 hF2 posys (out0 ++ fs) m1 forms (fun q hq => hp q (by simp [hq])) h
      refine ⟨fs ++ new, by rw [hnew, List.append_assoc], ?_, ?_⟩
      · rcases C13_value hf hc hne hpos hfix (hord _ _) h1 with ⟨rfl, _⟩ | ⟨f, rfl, h5, h6, h7, _⟩
        · simpa using h3
        · intro g hg
          rw [List.singleton_append, List.mem_cons] at hg
          rcases hg with rfl | hg
          · exact ⟨h7, h5, h6⟩
          · exact h3 g hg
      · intro pt
        rcases C13_value hf hc hne hpos hfix (hord _ _) h1 with ⟨rfl, k, hk, hv⟩ | ⟨f, rfl, h5, h6, h7, _, c0, h8, h9, h10⟩
        · refine ⟨?_, ?_⟩
          · intro hall q hq
            rcases List.mem_cons.1 hq with rfl | hq
            · rw [hv pt]; linarith
            · exact (h4 pt).1 (by simpa using hall) q hq
          · intro hall
            simpa using (h4 pt).2 (fun q hq => hall q (by simp [hq]))
        · refine ⟨?_, ?_⟩
          · intro hall q hq
            rcases List.mem_cons.1 hq with rfl | hq
            · have := hall f (by simp)
              rw [h10 pt]
              nlinarith
            · exact (h4 pt).1 (fun g hg => hall g (by simp [hg])) q hq
          · intro hall g hg
            rw [List.singleton_append, List.mem_cons] at hg
            rcases hg with rfl | hg
            · have := hall p (by simp)
              rw [h10 pt] at this
              nlinarith
            · exact (h4 pt).2 (fun q hq => hall q (by simp [hq])) g hg

/-- A constraint and what the solver gets say the same, up to tolerances. -/
theorem hmaps_nonneg {feastol T : ℝ} (hf : 0 ≤ feastol) (hT : feastol ≤ T) {fixed : PyDict V ℝ} (hfix : ∀ v c, fixed.get? v = some c → 0 ≤ c)
    {ord : Orders V ℝ} (hord : ord.Valid) {c : Con V D} (hc : ConOK c) (hz : c.NoZero fixed) {hs : List (Hmap V ℝ)} (h : c.hmaps feastol fixed ord = .ok hs) :
    (∀ f ∈ hs, TermsCanonical f.terms ∧ f.terms ≠ [] ∧ ∀ t ∈ f.terms, 0 < t.2) ∧
    ∀ pt : V → ℝ, (∀ v, 0 < pt v) →
      ((∀ f ∈ hs, termsVal pt f.terms ≤ 1 + T) → c.Holds (1 + T) (override pt fixed)) ∧
      (c.Holds 1 (override pt fixed) → ∀ f ∈ hs, termsVal pt f.terms ≤ 1) := by
  unfold Con.hmaps at h
  obtain ⟨u, hu, h1⟩ := except_bind_ok h
  obtain ⟨forms, hforms, h2⟩ := except_bind_ok h1
  cases h2
  obtain ⟨h3, h4⟩ := unsubbed_nonneg hf hT hc hu
  unfold asHmapslt1 at hforms
  obtain ⟨new, hnew, h5, h6⟩ := forms_spec hf hT hfix hord _ (fun _ _ _ => rfl) (fun _ _ _ => rfl) (u.map (fun n : Nomial V ℝ D => n.hmap.terms)) [] {} forms
    (by intro p hp; obtain ⟨n, hn, rfl⟩ := List.mem_map.1 hp; exact h3 n hn) hforms
  rw [List.nil_append] at hnew
  subst hnew
  refine ⟨?_, fun pt hpt => ⟨fun hall => ?_, fun hh => ?_⟩⟩
  · intro f hf'
    obtain ⟨g, hg, rfl⟩ := List.mem_map.1 hf'
    exact h5 g hg
  · refine (h4 _ (posSides_override hpt hfix hz)).1 ?_
    intro n hn
    exact (h6 pt).1 (fun f hf' => hall ⟨f, c.isEq⟩ (List.mem_map.2 ⟨f, hf', rfl⟩)) _ (List.mem_map.2 ⟨n, hn, rfl⟩)
  · intro f hf'
    obtain ⟨g, hg, rfl⟩ := List.mem_map.1 hf'
    refine (h6 pt).2 ?_ g hg
    intro p hp
    obtain ⟨n, hn, rfl⟩ := List.mem_map.1 hp
    exact (h4 _ (posSides_override hpt hfix hz)).2 hh n hn

/-- A constraint and what the solver gets say the same, up to tolerances, if all constants are positive. -/
theorem hmaps_spec {feastol T : ℝ} (hf : 0 ≤ feastol) (hT : feastol ≤ T) {fixed : PyDict V ℝ} (hfix : ∀ v c, fixed.get? v = some c → 0 < c)
    {ord : Orders V ℝ} (hord : ord.Valid) {c : Con V D} (hc : ConOK c) {hs : List (Hmap V ℝ)} (h : c.hmaps feastol fixed ord = .ok hs) :
    (∀ f ∈ hs, TermsCanonical f.terms ∧ f.terms ≠ [] ∧ ∀ t ∈ f.terms, 0 < t.2) ∧
    ∀ pt : V → ℝ, (∀ v, 0 < pt v) →
      ((∀ f ∈ hs, termsVal pt f.terms ≤ 1 + T) → c.Holds (1 + T) (override pt fixed)) ∧
      (c.Holds 1 (override pt fixed) → ∀ f ∈ hs, termsVal pt f.terms ≤ 1) :=
  hmaps_nonneg hf hT (fun v c hv => (hfix v c hv).le) hord hc (noZero_of_pos hfix c) h

theorem mapM_hmaps {α β : Type} {f : α → Except Err β} : ∀ {l : List α} {r : List β}, l.mapM f = .ok r → List.Forall₂ (fun a b => f a = .ok b) l r
  | [], r, h => by
    rw [List.mapM_nil] at h
    cases h
    exact .nil
  | a :: l, r, h => by
    rw [List.mapM_cons] at h
    obtain ⟨b, hb, h1⟩ := except_bind_ok h
    obtain ⟨bs, hbs, h2⟩ := except_bind_ok h1
    cases h2
    exact .cons hb (mapM_hmaps hbs)

/-- The program made of a model says the same as the model. -/
theorem program_spec {feastol T : ℝ} (hf : 0 ≤ feastol) (hT : feastol ≤ T) {cost : NMap V ℝ D} (hcc : TermsCanonical cost.terms)
    (hcne : cost.terms ≠ []) {cons : List (Con V D)} {fixed : PyDict V ℝ} (hcons : ∀ c ∈ cons, ConOK c ∧ c.NoZero fixed)
    (hfix : ∀ v c, fixed.get? v = some c → 0 ≤ c) {ord : Orders V ℝ} (hord : ord.Valid) {H : List (Hmap V ℝ)}
    (h : hmaps feastol cost cons fixed ord = .ok H) :
    ∃ h0 hs, H = h0 :: hs ∧ (∀ h ∈ h0 :: hs, TermsCanonical h.terms ∧ h.terms ≠ [] ∧ ∀ t ∈ h.terms, 0 < t.2) ∧
      ∀ pt : V → ℝ, (∀ v, 0 < pt v) →
        termsVal pt h0.terms = termsVal (override pt fixed) cost.terms ∧
        ((∀ h ∈ hs, termsVal pt h.terms ≤ 1 + T) → ∀ c ∈ cons, c.Holds (1 + T) (override pt fixed)) ∧
        ((∀ c ∈ cons, c.Holds 1 (override pt fixed)) → ∀ h ∈ hs, termsVal pt h.terms ≤ 1) := by
  unfold hmaps at h
  obtain ⟨h0, hh0, h1⟩ := except_bind_ok h
  split at h1
  · cases h1
  rename_i hany
  obtain ⟨hss, hhs, h2⟩ := except_bind_ok h1
  cases h2
  have hall := mapM_hmaps hhs
  obtain ⟨-, -, -, h4, h5⟩ := sub_ok hcc hcne (hord _ _) hh0
  have hpos0 : ∀ t ∈ h0.terms, 0 < t.2 := by
    intro t ht
    by_contra hlt
    exact hany (List.any_eq_true.2 ⟨t, ht, by simpa using not_lt.1 hlt⟩)
  have hcan0 : TermsCanonical h0.terms := by
    rcases h5 with h5 | h5
    · exact h5
    · have := hpos0 (HV.empty, 0) (by rw [h5]; simp)
      exact absurd this (lt_irrefl _)
  have hspec : ∀ hs : List (Hmap V ℝ), hs ∈ hss → ∃ c ∈ cons, c.hmaps feastol fixed ord = .ok hs := by
    clear h1 h hhs
    induction hall with
    | nil => simp
    | cons hab _ ih =>
      intro hs hm
      rcases List.mem_cons.1 hm with rfl | hm
      · exact ⟨_, by simp, hab⟩
      · obtain ⟨c, hc, he⟩ := ih (fun c hc => hcons c (by simp [hc])) hs hm
        exact ⟨c, by simp [hc], he⟩
  have hspec' : ∀ c ∈ cons, ∃ hs ∈ hss, c.hmaps feastol fixed ord = .ok hs := by
    clear h1 h hhs hspec
    induction hall with
    | nil => simp
    | cons hab _ ih =>
      intro c hm
      rcases List.mem_cons.1 hm with rfl | hm
      · exact ⟨_, by simp, hab⟩
      · obtain ⟨hs, hc, he⟩ := ih (fun c hc => hcons c (by simp [hc])) c hm
        exact ⟨hs, by simp [hc], he⟩
  refine ⟨⟨h0.terms, false⟩, hss.flatten, rfl, ?_, ?_⟩
  · intro g hg
    rcases List.mem_cons.1 hg with rfl | hg
    · exact ⟨hcan0, h4, hpos0⟩
    · obtain ⟨hs, hm, hg⟩ := List.mem_flatten.1 hg
      obtain ⟨c, hc, he⟩ := hspec hs hm
      exact (hmaps_nonneg hf hT hfix hord (hcons c hc).1 (hcons c hc).2 he).1 g hg
  · intro pt hpt
    refine ⟨(C06_sub_evaluates hcc hcne (hord _ _) hh0 pt).1, ?_, ?_⟩
    · intro hle c hc
      obtain ⟨hs, hm, he⟩ := hspec' c hc
      exact ((hmaps_nonneg hf hT hfix hord (hcons c hc).1 (hcons c hc).2 he).2 pt hpt).1 (fun f hf' => hle f (List.mem_flatten.2 ⟨hs, hm, hf'⟩))
    · intro hh g hg
      obtain ⟨hs, hm, hg⟩ := List.mem_flatten.1 hg
      obtain ⟨c, hc, he⟩ := hspec hs hm
      exact ((hmaps_nonneg hf hT hfix hord (hcons c hc).1 (hcons c hc).2 he).2 pt hpt).2 (hh c hc) g hg

theorem update_get? (e : PyDict V ℝ) (he : WF e) : ∀ (d : PyDict V ℝ) (v : V), (update d e).get? v = (e.get? v).or (d.get? v) := by
  unfold update
  induction e with
  | nil => intro d v; simp
  | cons p e ih =>
    intro d v
    rw [wf_cons] at he
    rw [List.foldl_cons, ih he.2, get?_set, get?_cons]
    by_cases hk : (p.1 == v) = true
    · rw [if_pos hk, if_pos hk]
      have : PyDict.get? e v = none := by
        cases hg : PyDict.get? e v with
        | none => rfl
        | some x =>
          obtain ⟨k, hk1, hk2⟩ := exists_mem_of_get? hg
          have h1 := he.1 _ hk1
          rw [eq_of_beq hk, ← eq_of_beq hk2] at h1
          simp at h1
      rw [this]
      rfl
    · rw [if_neg hk, if_neg hk]

/-- Looking up in a dict made of a list of keys and a list of values. -/
theorem get?_zip : ∀ (ks : List V) (xs : List ℝ), ks.Nodup → ∀ (j : Nat) (v : V) (x : ℝ), ks[j]? = some v → xs[j]? = some x →
    PyDict.get? (ks.zip xs) v = some x
  | [], _, _, j, v, x, h, _ => by simp at h
  | k :: ks, [], _, j, v, x, _, h => by simp at h
  | k :: ks, y :: xs, hnd, 0, v, x, h1, h2 => by
    simp only [List.getElem?_cons_zero, Option.some.injEq] at h1 h2
    rw [List.zip_cons_cons, get?_cons, h1, h2]
    simp
  | k :: ks, y :: xs, hnd, j + 1, v, x, h1, h2 => by
    rw [List.getElem?_cons_succ] at h1 h2
    rw [List.zip_cons_cons, get?_cons]
    have hne : ¬ (k == v) = true := by
      intro h
      rw [eq_of_beq h] at hnd
      exact (List.nodup_cons.1 hnd).1 (List.mem_of_getElem? h1)
    rw [if_neg hne]
    exact get?_zip ks xs (List.nodup_cons.1 hnd).2 j v x h1 h2

theorem almostEqual_close {tol abstol a b : ℝ} (h : almostEqual tol abstol a b = true) : Close tol abstol a b := by
  unfold almostEqual at h
  rw [decide_eq_true_eq] at h
  rcases h with h | ⟨h1, h2⟩ | h
  · exact .inl h
  · refine .inr (.inl ?_)
    rw [abs_div, div_lt_iff₀ (abs_pos.2 h1)] at h2
    exact h2
  · exact .inr (.inr h)

/-- The steps of a solve that returned. -/
theorem solve_ok {feastol tol abstol : ℝ} {optimize : Data V ℝ → Except Err SolverOut} {cost : NMap V ℝ D} {cons : List (Con V D)}
    {fixed : PyDict V ℝ} {ord : Orders V ℝ} {r : Result V} {b : Bool} (h : solve feastol tol abstol optimize cost cons fixed ord = .ok (r, b)) :
    ∃ H out la nu, hmaps feastol cost cons fixed ord = .ok H ∧ optimize (genLoop H) = .ok out ∧ (genLoop H).varlocs.length = out.primal.length ∧
      r = ⟨out.objective, ((genLoop H).varlocs.map (·.1)).zip (out.primal.map Real.exp),
        update (((genLoop H).varlocs.map (·.1)).zip (out.primal.map Real.exp)) fixed⟩ ∧
      generateNula (genLoop H) (vec out.primal) out.dual = some (la, nu) ∧
      b = checkSolution (genLoop H) out.objective (vec out.primal) nu la tol abstol := by
  unfold solve at h
  obtain ⟨H, hH, h1⟩ := except_bind_ok h
  obtain ⟨out, ho, h2⟩ := except_bind_ok h1
  unfold generateResult at h2
  obtain ⟨r', hr, h3⟩ := except_bind_ok h2
  unfold compileVars at hr
  split at hr
  · cases hr
  rename_i hl
  rw [ne_eq, not_not] at hl
  cases hr
  split at h3
  · cases h3
  rename_i la nu hnu
  cases h3
  exact ⟨H, out, la, nu, hH, ho, hl, rfl, hnu, rfl⟩

/-- C60, feasibility: if a solve returns without a warning, every constant has its value in the solution, the other values are positive, and at every
point with the values of the solution every constraint of the model holds and the cost is the reported one, up to tolerances. Missing: inequalities
made inside `SignomialsEnabled` that cannot be satisfied and those with the defect of `C12_form_fails`, negative constants, and constants that are
zero and stand in equalities or on the greater side of inequalities. -/
theorem C60_feasible_partial {feastol tol abstol : ℝ} (hf : 0 ≤ feastol) {optimize : Data V ℝ → Except Err SolverOut} {cost : NMap V ℝ D}
    (hcc : TermsCanonical cost.terms) (hcne : cost.terms ≠ []) {cons : List (Con V D)} {fixed : PyDict V ℝ} (hcons : ∀ c ∈ cons, ConOK c ∧ c.NoZero fixed)
    (hwf : WF fixed) (hfix : ∀ v c, fixed.get? v = some c → 0 ≤ c) {ord : Orders V ℝ} (hord : ord.Valid) {r : Result V}
    (h : solve feastol tol abstol optimize cost cons fixed ord = .ok (r, true)) :
    (∀ v c, fixed.get? v = some c → r.vars.get? v = some c) ∧
    (∀ v c, r.vars.get? v = some c → 0 ≤ c ∧ (fixed.get? v = none → 0 < c)) ∧
    ∀ pt : V → ℝ, (∀ v, fixed.get? v = none → 0 < pt v) → Agrees pt r.vars →
      (∀ c ∈ cons, c.Holds (1 + max feastol tol) pt) ∧ Close tol abstol (termsVal pt cost.terms) r.cost := by
  obtain ⟨H, out, la, nu, hH, ho, hl, rfl, hnu, hchk⟩ := solve_ok h
  obtain ⟨h0, hs, rfl, hok, hspec⟩ := program_spec hf (le_max_left feastol tol) hcc hcne hcons hfix hord hH
  simp only
  have hget := update_get? fixed hwf (((genLoop (h0 :: hs)).varlocs.map (·.1)).zip (out.primal.map Real.exp))
  have hw : ∀ h ∈ h0 :: hs, ∀ t ∈ h.terms, (t.1.items.map (·.1)).Nodup := fun h hh t ht => ((hok h hh).1.1 t ht).1.1
  have hnd := (C20_columns (h0 :: hs) hw).1
  set ks := (genLoop (h0 :: hs)).varlocs.map (·.1) with hks
  have hfree : ∀ j v, ks[j]? = some v → PyDict.get? (ks.zip (out.primal.map Real.exp)) v = some (Real.exp (vec out.primal j)) := by
    intro j v hj
    refine get?_zip ks _ hnd j v _ hj ?_
    have hjl : j < out.primal.length := by
      rw [← hl]
      have := (List.getElem?_eq_some_iff.1 hj).1
      rwa [hks, List.length_map] at this
    rw [List.getElem?_map, List.getElem?_eq_getElem hjl, vec, List.getElem?_eq_getElem hjl]
    rfl
  refine ⟨fun v c hv => by rw [hget, hv]; rfl, ?_, ?_⟩
  · intro v c hv
    rw [hget] at hv
    cases hg : fixed.get? v with
    | some d =>
      rw [hg] at hv
      cases hv
      exact ⟨hfix v _ hg, by simp⟩
    | none =>
      rw [hg, Option.none_or] at hv
      obtain ⟨k, hk, -⟩ := exists_mem_of_get? hv
      obtain ⟨x, -, hx⟩ := List.mem_map.1 (List.of_mem_zip hk).2
      rw [← hx]
      exact ⟨(Real.exp_pos x).le, fun _ => Real.exp_pos x⟩
  · intro pt hpt hag
    classical
    set q : V → ℝ := fun v => if v ∈ ks then Real.exp (vec out.primal (ks.idxOf v)) else lifted pt v with hq
    have hqpos : ∀ v, 0 < q v := by
      intro v
      rw [hq]
      simp only
      split
      · exact Real.exp_pos _
      · exact lifted_pos pt v
    have hcol : ∀ j v, ks[j]? = some v → vec out.primal j = Real.log (q v) := by
      intro j v hj
      have hm := List.mem_of_getElem? hj
      obtain ⟨hjl, hj2⟩ := List.getElem?_eq_some_iff.1 hj
      have : ks.idxOf v = j := by rw [← hj2]; exact hnd.idxOf_getElem j hjl
      rw [hq]
      simp only [hm, if_true, this, Real.log_exp]
    have hover : override q fixed = pt := by
      funext v
      unfold override
      cases hg : fixed.get? v with
      | some d => exact (hag v d (by rw [hget, hg]; rfl)).symm
      | none =>
        rw [Option.getD_none, hq]
        simp only
        split
        · rename_i hm
          have hj : ks[ks.idxOf v]? = some v := by
            rw [List.getElem?_eq_getElem (List.idxOf_lt_length_of_mem hm), List.getElem_idxOf]
          refine (hag v _ ?_).symm
          rw [hget, hg, Option.none_or]
          exact hfree _ v hj
        · simp [lifted, hpt v hg]
    obtain ⟨h1, h2⟩ := C40_feasible h0 hs hw out.objective (vec out.primal) nu la tol abstol hchk.symm q hqpos hcol
    obtain ⟨h3, h4, -⟩ := hspec q hqpos
    rw [hover] at h3 h4
    refine ⟨h4 (fun g hg => (h2 g hg).trans (by linarith [le_max_right feastol tol])), ?_⟩
    rw [← h3]
    exact almostEqual_close h1

/-- C60, optimality: if a solve returns without a warning from an exact check, no point that satisfies the constraints of the model and has the
values of the constants has lower cost. Missing: as in `C60_feasible_partial`. -/
theorem C60_optimal_partial {feastol : ℝ} (hf : 0 ≤ feastol) {optimize : Data V ℝ → Except Err SolverOut} {cost : NMap V ℝ D}
    (hcc : TermsCanonical cost.terms) (hcne : cost.terms ≠ []) {cons : List (Con V D)} {fixed : PyDict V ℝ} (hcons : ∀ c ∈ cons, ConOK c ∧ c.NoZero fixed)
    (hfix : ∀ v c, fixed.get? v = some c → 0 ≤ c) {ord : Orders V ℝ} (hord : ord.Valid)
    (hopt : ∀ d out l, optimize d = .ok out → out.dual = .la l → l.length = d.mIdxs.length ∨ l.length + 1 = d.mIdxs.length) {r : Result V}
    (h : solve feastol 0 0 optimize cost cons fixed ord = .ok (r, true)) (pt : V → ℝ) (hpt : ∀ v, fixed.get? v = none → 0 < pt v)
    (hag : Agrees pt fixed)
    (hh : ∀ c ∈ cons, c.Holds 1 pt) : r.cost ≤ termsVal pt cost.terms := by
  obtain ⟨H, out, la, nu, hH, ho, hl, rfl, hnu, hchk⟩ := solve_ok h
  obtain ⟨h0, hs, rfl, hok, hspec⟩ := program_spec hf (le_refl feastol) hcc hcne hcons hfix hord hH
  have hw : ∀ h ∈ h0 :: hs, ∀ t ∈ h.terms, (t.1.items.map (·.1)).Nodup := fun h hh t ht => ((hok h hh).1.1 t ht).1.1
  have hover := override_lifted hpt hag
  obtain ⟨h3, -, h5⟩ := hspec (lifted pt) (lifted_pos pt)
  rw [hover] at h3 h5
  have hla := C40_multipliers (h0 :: hs) (fun h hh => (hok h hh).2) (vec out.primal) out.dual
    (by intro l hl'; have := hopt _ out l ho hl'; rwa [gen_mIdxs_length] at this) la nu hnu
  have := (C40_optimal h0 hs hw (fun h hh => (hok h hh).2.2) (hok h0 (by simp)).2.1 out.objective (vec out.primal) nu la hla hchk.symm).2 (lifted pt) (lifted_pos pt) (h5 hh)
  rwa [h3] at this

/-- As `C60_feasible_partial`, for constants that are all positive. -/
theorem feasible_of_pos {feastol tol abstol : ℝ} (hf : 0 ≤ feastol) {optimize : Data V ℝ → Except Err SolverOut} {cost : NMap V ℝ D}
    (hcc : TermsCanonical cost.terms) (hcne : cost.terms ≠ []) {cons : List (Con V D)} (hcons : ∀ c ∈ cons, ConOK c) {fixed : PyDict V ℝ}
    (hwf : WF fixed) (hfix : ∀ v c, fixed.get? v = some c → 0 < c) {ord : Orders V ℝ} (hord : ord.Valid) {r : Result V}
    (h : solve feastol tol abstol optimize cost cons fixed ord = .ok (r, true)) :
    (∀ v c, fixed.get? v = some c → r.vars.get? v = some c) ∧ (∀ v c, r.vars.get? v = some c → 0 < c) ∧
    ∀ pt : V → ℝ, (∀ v, 0 < pt v) → Agrees pt r.vars →
      (∀ c ∈ cons, c.Holds (1 + max feastol tol) pt) ∧ Close tol abstol (termsVal pt cost.terms) r.cost := by
  obtain ⟨h1, h2, h3⟩ := C60_feasible_partial hf hcc hcne (fun c hc => ⟨hcons c hc, noZero_of_pos hfix c⟩) hwf (fun v c hv => (hfix v c hv).le) hord h
  refine ⟨h1, fun v c hv => ?_, fun pt hpt => h3 pt (fun v _ => hpt v)⟩
  cases hg : fixed.get? v with
  | none => exact (h2 v c hv).2 hg
  | some d =>
    have := h1 v d hg
    rw [hv] at this
    cases this
    exact hfix v _ hg

/-- As `C60_optimal_partial`, for constants that are all positive. -/
theorem optimal_of_pos {feastol : ℝ} (hf : 0 ≤ feastol) {optimize : Data V ℝ → Except Err SolverOut} {cost : NMap V ℝ D}
    (hcc : TermsCanonical cost.terms) (hcne : cost.terms ≠ []) {cons : List (Con V D)} (hcons : ∀ c ∈ cons, ConOK c) {fixed : PyDict V ℝ}
    (hfix : ∀ v c, fixed.get? v = some c → 0 < c) {ord : Orders V ℝ} (hord : ord.Valid)
    (hopt : ∀ d out l, optimize d = .ok out → out.dual = .la l → l.length = d.mIdxs.length ∨ l.length + 1 = d.mIdxs.length) {r : Result V}
    (h : solve feastol 0 0 optimize cost cons fixed ord = .ok (r, true)) (pt : V → ℝ) (hpt : ∀ v, 0 < pt v) (hag : Agrees pt fixed)
    (hh : ∀ c ∈ cons, c.Holds 1 pt) : r.cost ≤ termsVal pt cost.terms :=
  C60_optimal_partial hf hcc hcne (fun c hc => ⟨hcons c hc, noZero_of_pos hfix c⟩) (fun v c hv => (hfix v c hv).le) hord hopt h pt (fun v _ => hpt v) hag hh

/-- C60, optimality with tolerances: if a solve returns without a warning and the multipliers of the solver are not negative, the cost of every point
that satisfies the constraints of the model and has the values of the constants is bounded below by the reported cost: there are a number `e` whose
exponential is the reported cost and a number `n` that is one, up to the tolerances of the check, with `e - tol * Σ|log pt v| ≤ n * log (cost at pt)`.
The sum is over the variables of the program. Missing: as in `C60_feasible_partial`. -/
theorem C60_near_optimal_partial {feastol tol abstol : ℝ} (hf : 0 ≤ feastol) (htol : 0 ≤ tol) {optimize : Data V ℝ → Except Err SolverOut}
    {cost : NMap V ℝ D} (hcc : TermsCanonical cost.terms) (hcne : cost.terms ≠ []) {cons : List (Con V D)}
    {fixed : PyDict V ℝ} (hcons : ∀ c ∈ cons, ConOK c ∧ c.NoZero fixed) (hfix : ∀ v c, fixed.get? v = some c → 0 ≤ c) {ord : Orders V ℝ} (hord : ord.Valid)
    (hopt : ∀ d out l, optimize d = .ok out → out.dual = .la l →
      (l.length = d.mIdxs.length ∨ l.length + 1 = d.mIdxs.length) ∧ ∀ x ∈ l, 0 ≤ x)
    (hopt' : ∀ d out n, optimize d = .ok out → out.dual = .nu n → ∀ i, 0 ≤ n i) {r : Result V}
    (h : solve feastol tol abstol optimize cost cons fixed ord = .ok (r, true)) :
    ∃ e n, Close tol abstol (Real.exp e) r.cost ∧ Close tol abstol n 1 ∧ ∀ pt : V → ℝ, (∀ v, fixed.get? v = none → 0 < pt v) → Agrees pt fixed →
      (∀ c ∈ cons, c.Holds 1 pt) → e - tol * ((r.free.map (·.1)).map (fun v => |Real.log (pt v)|)).sum ≤ n * Real.log (termsVal pt cost.terms) := by
  obtain ⟨H, out, la, nu, hH, ho, hl, rfl, hnu, hchk⟩ := solve_ok h
  obtain ⟨h0, hs, rfl, hok, hspec⟩ := program_spec hf (le_refl feastol) hcc hcne hcons hfix hord hH
  have hw : ∀ h ∈ h0 :: hs, ∀ t ∈ h.terms, (t.1.items.map (·.1)).Nodup := fun h hh t ht => ((hok h hh).1.1 t ht).1.1
  have hla := C40_multipliers (h0 :: hs) (fun h hh => (hok h hh).2) (vec out.primal) out.dual
    (by intro l hl'; have := (hopt _ out l ho hl').1; rwa [gen_mIdxs_length] at this) la nu hnu
  have hnn : ∀ i, 0 ≤ nu i := by
    intro i
    cases hd : out.dual with
    | none => rw [hd] at hnu; simp [generateNula] at hnu
    | nu n =>
      rw [hd] at hnu
      simp only [generateNula, Option.some.injEq, Prod.mk.injEq] at hnu
      rw [← hnu.2]
      exact hopt' _ out n ho hd i
    | la l =>
      rw [hd] at hnu
      simp only [generateNula, Option.some.injEq, Prod.mk.injEq] at hnu
      rw [← hnu.2]
      simp only
      have hl0 := (hopt _ out l ho hd).2
      refine div_nonneg (mul_nonneg ?_ (Real.exp_pos _).le) (List.sum_nonneg ?_)
      · have hall : ∀ x ∈ (if l.length + 1 = (genLoop (h0 :: hs)).mIdxs.length then 1 :: l else l), (0 : ℝ) ≤ x := by
          intro x hx
          split at hx
          · rcases List.mem_cons.1 hx with rfl | hx
            · exact zero_le_one
            · exact hl0 x hx
          · exact hl0 x hx
        generalize (if l.length + 1 = (genLoop (h0 :: hs)).mIdxs.length then 1 :: l else l) = l' at hall
        cases hg : l'[((genLoop (h0 :: hs)).pIdxs[i]?).getD 0]? with
        | none => exact le_refl _
        | some x => exact hall x (List.mem_of_getElem? hg)
      · intro x hx
        obtain ⟨_, -, rfl⟩ := List.mem_map.1 hx
        exact (Real.exp_pos _).le
  have hms : ∃ ms, (genLoop (h0 :: hs)).mIdxs = (0, h0.terms.length) :: ms := by
    have hg := gen_mIdxs (h0 :: hs) 0
    cases hml : (genLoop (h0 :: hs)).mIdxs with
    | nil => rw [hml] at hg; simp at hg
    | cons m ms =>
      rw [hml] at hg
      simp [start] at hg
      exact ⟨ms, by rw [hg]⟩
  obtain ⟨ms, hms⟩ := hms
  have hchk' := hchk.symm
  unfold checkSolution at hchk'
  rw [hms] at hchk'
  simp only [Bool.and_eq_true, Bool.not_eq_true'] at hchk'
  obtain ⟨⟨⟨⟨⟨⟨c1, c2⟩, c3⟩, c4⟩, c5⟩, c6⟩, c7⟩ := hchk'
  refine ⟨dualCost (genLoop (h0 :: hs)) nu la, ((List.range h0.terms.length).map nu).sum, almostEqual_close c7, ?_, ?_⟩
  · have := almostEqual_close c3
    unfold sliceSum at this
    rwa [Nat.sub_zero, ← List.range_eq_range'] at this
  · intro pt hpt hag hh
    have hover := override_lifted hpt hag
    obtain ⟨h3, -, h5⟩ := hspec (lifted pt) (lifted_pos pt)
    rw [hover] at h3 h5
    have := C40_near_optimal h0 hs hw (fun h hh => (hok h hh).2.2) out.objective (vec out.primal) nu la tol abstol htol hla (fun i _ => hnn i) hchk.symm (lifted pt)
      (lifted_pos pt) (h5 hh)
    rw [h3] at this
    have hz : ((((genLoop (h0 :: hs)).varlocs.map (·.1)).zip (out.primal.map Real.exp)).map (·.1)) = (genLoop (h0 :: hs)).varlocs.map (·.1) := by
      rw [List.map_fst_zip]
      simp [hl]
    simp only [hz]
    have hlog : ∀ v, |Real.log (pt v)| = |Real.log (lifted pt v)| := by
      intro v
      unfold lifted
      split
      · rfl
      · rename_i hn
        have h0 : 0 ≤ pt v := by
          cases hg : fixed.get? v with
          | none => exact (hpt v hg).le
          | some d => rw [hag v d hg]; exact hfix v d hg
        rw [le_antisymm (not_lt.1 hn) h0, Real.log_zero, Real.log_one]
    simp only [hlog]
    exact this

/-- The units of the two sides of a constraint can be compared. -/
def UnitsMatch : Con V D → Prop
  | .le _ p m => ∃ r, UnitCache.ratio m.units p.units = .ok r
  | .eq _ l r => ∃ x, UnitCache.ratio r.units l.units = .ok x

/-- If substituting constants into a list of forms raises, no point satisfies them. -/
theorem forms_error {feastol : ℝ} (hf : 0 ≤ feastol) {fixed : PyDict V ℝ} (hfix : ∀ v c, fixed.get? v = some c → 0 < c)
    {ord : Orders V ℝ} (hord : ord.Valid)
    (F : Except Err (List (PyDict (HV V ℝ) ℝ)) × Memo ℝ → PyDict (HV V ℝ) ℝ → Except Err (List (PyDict (HV V ℝ) ℝ)) × Memo ℝ)
    (hF1 : ∀ out m p, F (.ok out, m) p = ((formStep feastol p fixed (ord p fixed) m).1.map (fun new => out ++ new),
      (formStep feastol p fixed (ord p fixed) m).2)) :
    ∀ (posys : List (PyDict (HV V ℝ) ℝ)) (out0 : List (PyDict (HV V ℝ) ℝ)) (memo : Memo ℝ) (e : Err),
    (∀ p ∈ posys, TermsCanonical p ∧ p ≠ [] ∧ ∀ t ∈ p, 0 < t.2) → (posys.foldl F (.ok out0, memo)).1 = .error e →
    ∃ p ∈ posys, ∀ pt : V → ℝ, (∀ v, 0 < pt v) → 1 < termsVal (override pt fixed) p
  | [], out0, memo, e, _, h => by simp at h
  | p :: posys, out0, memo, e, hp, h => by
    rw [List.foldl_cons, hF1] at h
    generalize h1 : formStep feastol p fixed (ord p fixed) memo = r1 at h
    obtain ⟨r1, m1⟩ := r1
    obtain ⟨hc, hne, hpos⟩ := hp p (by simp)
    cases r1 with
    | error e' => exact ⟨p, by simp, (C13_error_partial hf hc hne hpos hfix (hord _ _) h1).1⟩
    | ok fs =>
      obtain ⟨q, hq, h2⟩ := forms_error hf hfix hord F hF1 posys (out0 ++ fs) m1 e (fun q hq => hp q (by simp [hq])) h
      exact ⟨q, by simp [hq], h2⟩

/-- If the forms of a constraint cannot be made, no point satisfies the constraint. -/
theorem hmaps_error {feastol : ℝ} (hf : 0 ≤ feastol) {fixed : PyDict V ℝ} (hfix : ∀ v c, fixed.get? v = some c → 0 < c) {ord : Orders V ℝ}
    (hord : ord.Valid) {c : Con V D} (hc : ConOK c) (hu : UnitsMatch c) {e : Err} (h : c.hmaps feastol fixed ord = .error e) (pt : V → ℝ)
    (hpt : ∀ v, 0 < pt v) : ¬ c.Holds 1 (override pt fixed) := by
  intro hh
  unfold Con.hmaps at h
  cases hun : c.unsubbed feastol with
  | error e' =>
    cases c with
    | le se p m =>
      obtain ⟨-, h1, h3, ex, k, hm, he, hk, hpu, hmu, hcl⟩ := hc
      obtain ⟨r, hr⟩ := hu
      have := C12_error_partial hf h1 h3 hm he hk hpu hmu hcl hr hun (override pt fixed) (override_pos hpt hfix)
      have hh' : physVal (override pt fixed) p ≤ 1 * physVal (override pt fixed) m := hh
      linarith
    | eq se l r =>
      obtain ⟨el, er, cl, cr, hl, hr, hel, her, hcl, hcr, hlu, hru⟩ := hc
      obtain ⟨x, hx⟩ := hu
      obtain ⟨-, q, hq, hq1, hq2⟩ := C14_error hl hr hel her hcl hcr hlu hru hx hun
      have hv := hq2 (override pt fixed) (override_pos hpt hfix)
      have hrp := physVal_mono_pos hr hcr hru (override_pos hpt hfix)
      have hh' : physVal (override pt fixed) l ≤ 1 * physVal (override pt fixed) r ∧ physVal (override pt fixed) r ≤ 1 * physVal (override pt fixed) l := hh
      rw [hv] at hh'
      have ha : q ≤ 1 := by
        by_contra hlt
        nlinarith [hh'.1]
      have hb : 1 ≤ q := by
        by_contra hlt
        nlinarith [hh'.2]
      have : q = 1 := le_antisymm ha hb
      subst this
      rcases hq1 with h1 | h1
      · linarith
      · rw [inv_one] at h1; linarith
  | ok u =>
    rw [hun] at h
    obtain ⟨h3, h4⟩ := unsubbed_spec hf (le_refl feastol) hc hun
    simp only [bind, Except.bind] at h
    cases ha : (asHmapslt1 feastol (u.map (fun n => n.hmap.terms)) fixed ord {}).1 with
    | ok forms => rw [ha] at h; cases h
    | error e' =>
      unfold asHmapslt1 at ha
      obtain ⟨p, hp, h5⟩ := forms_error hf hfix hord _ (fun _ _ _ => rfl) (u.map (fun n : Nomial V ℝ D => n.hmap.terms)) [] {} e'
        (by intro p hp; obtain ⟨n, hn, rfl⟩ := List.mem_map.1 hp; exact h3 n hn) ha
      obtain ⟨n, hn, rfl⟩ := List.mem_map.1 hp
      have h6 := (h4 _ (override_pos hpt hfix)).2 hh n hn
      linarith [h5 pt hpt]

theorem mapM_error {α β : Type} {f : α → Except Err β} {e : Err} : ∀ {l : List α}, l.mapM f = .error e → ∃ a ∈ l, f a = .error e
  | [], h => by rw [List.mapM_nil] at h; cases h
  | a :: l, h => by
    rw [List.mapM_cons] at h
    cases ha : f a with
    | error e' =>
      rw [ha] at h
      simp only [bind, Except.bind] at h
      exact ⟨a, by simp, ha.trans (congrArg _ (Except.error.inj h))⟩
    | ok b =>
      rw [ha] at h
      simp only [bind, Except.bind] at h
      cases hl : l.mapM f with
      | ok bs => rw [hl] at h; cases h
      | error e' =>
        rw [hl] at h
        simp only at h
        obtain ⟨x, hx, hx2⟩ := mapM_error (hl.trans h)
        exact ⟨x, by simp [hx], hx2⟩

/-- C60, exceptions: if the program of a model whose units match cannot be made, no point satisfies the constraints of the model and has the values
of its constants. Missing: as in `C60_feasible_partial`. -/
theorem C60_error_partial {feastol : ℝ} (hf : 0 ≤ feastol) {cost : NMap V ℝ D} (hcc : TermsCanonical cost.terms) (hcne : cost.terms ≠ [])
    (hcpos : ∀ t ∈ cost.terms, 0 < t.2) {cons : List (Con V D)} (hcons : ∀ c ∈ cons, ConOK c ∧ UnitsMatch c) {fixed : PyDict V ℝ}
    (hfix : ∀ v c, fixed.get? v = some c → 0 < c) {ord : Orders V ℝ} (hord : ord.Valid) {e : Err}
    (h : hmaps feastol cost cons fixed ord = .error e) (pt : V → ℝ) (hpt : ∀ v, 0 < pt v) (hag : Agrees pt fixed) : ∃ c ∈ cons, ¬ c.Holds 1 pt := by
  have hover : override pt fixed = pt := by
    funext v
    unfold override
    cases hg : fixed.get? v with
    | some d => exact (hag v d hg).symm
    | none => rfl
  unfold hmaps at h
  obtain ⟨h0, hh0⟩ := C06_sub_total hcc hcne (hord _ _) (fun v c hv => .inl (hfix v c hv))
  rw [hh0] at h
  simp only [bind, Except.bind] at h
  split at h
  · rename_i hany
    exfalso
    obtain ⟨t, ht, ht2⟩ := List.any_eq_true.1 hany
    unfold NMap.sub at hh0
    obtain ⟨st, hst, h1⟩ := except_bind_ok hh0
    cases h1
    have := subState_pos ((termsCanonical_iff _).1 hcc).1 hcpos hfix hst t ht
    have h2 := of_decide_eq_true ht2
    linarith
  · cases hm : cons.mapM (Con.hmaps feastol fixed ord) with
    | ok hs => rw [hm] at h; cases h
    | error e' =>
      obtain ⟨c, hc, he⟩ := mapM_error hm
      refine ⟨c, hc, ?_⟩
      have := hmaps_error hf hfix hord (hcons c hc).1 (hcons c hc).2 he pt hpt
      rwa [hover] at this

/-- C60 fails without looking at what is printed: whatever numbers the solver returns, they are returned as the solution, even if the check finds that
they violate the constraints. -/
theorem C60_warning_fails {feastol tol abstol : ℝ} {optimize : Data V ℝ → Except Err SolverOut} {cost : NMap V ℝ D} {cons : List (Con V D)}
    {fixed : PyDict V ℝ} {ord : Orders V ℝ} {H : List (Hmap V ℝ)} {out : SolverOut} (hH : hmaps feastol cost cons fixed ord = .ok H)
    (ho : optimize (genLoop H) = .ok out) (hl : (genLoop H).varlocs.length = out.primal.length) (nu : Nat → ℝ) (hd : out.dual = .nu nu) :
    ∃ r b, solve feastol tol abstol optimize cost cons fixed ord = .ok (r, b) ∧ r.cost = out.objective ∧
      r.free = ((genLoop H).varlocs.map (·.1)).zip (out.primal.map Real.exp) := by
  refine ⟨⟨out.objective, ((genLoop H).varlocs.map (·.1)).zip (out.primal.map Real.exp),
    update (((genLoop H).varlocs.map (·.1)).zip (out.primal.map Real.exp)) fixed⟩,
    checkSolution (genLoop H) out.objective (vec out.primal) nu ((genLoop H).mIdxs.map (sliceSum nu)) tol abstol, ?_, rfl, rfl⟩
  unfold solve
  rw [hH]
  simp only [bind, Except.bind, ho, generateResult, compileVars, hl, ne_eq, not_true_eq_false, if_false, hd, generateNula]

/-- `1 <= x`, to be met by minimising `x`. -/
theorem one_le_x : hmaps (1 / 1000) (⟨[(⟨[(0, 1)]⟩, 1)], none⟩ : NMap ℕ ℝ D) [.le false ⟨[(HV.empty, 1)], none⟩ ⟨[(⟨[(0, 1)]⟩, 1)], none⟩] [] (fun h f => varlocs h f) =
    .ok [⟨[(⟨[(0, 1)]⟩, 1)], false⟩, ⟨[(⟨[(0, -1)]⟩, 1)], false⟩] := by
  have h1 : Con.hmaps (1 / 1000) [] (fun h f => varlocs h f) (.le false ⟨[(HV.empty, 1)], none⟩ ⟨[(⟨[(0, 1)]⟩, 1)], none⟩ : Con ℕ D) =
      .ok [⟨[(⟨[(0, -1)]⟩, 1)], false⟩] := by
    have h2 : genUnsubbed false (1 / 1000) (⟨[(HV.empty, 1)], none⟩ : NMap ℕ ℝ D) ⟨[(⟨[(0, 1)]⟩, 1)], none⟩ =
        .ok [⟨⟨[(⟨[(0, -1)]⟩, 1)], none⟩, .monomial⟩] := by
      norm_num [genUnsubbed, UnitCache.ratio, renameTerms, renameStep, List.foldlM, PyDict.get?, PyDict.set, PyDict.del,
        bind, pure, Except.bind, Except.pure, HV.beq_def, List.isPerm, HV.sub, HV.add, HV.scale, dictAdd, dictAddStep, dictScale, HV.empty,
        simplifyPosyIneq, wrapForm, mkSig, NMap.anyNonpositive, Except.map]
    unfold Con.hmaps
    rw [Con.unsubbed, h2]
    norm_num [bind, Except.bind, asHmapslt1, formStep, subState, mmap, mmapStep, checkForm, simplifyPosyIneq, PyDict.get?, HV.beq_def, List.isPerm, HV.empty,
      Except.map, pure, Except.pure, Con.isEq, List.foldlM, pyIndex, PyDict.keys, List.findIdx?_cons]
  unfold hmaps
  rw [List.mapM_cons, List.mapM_nil, h1]
  norm_num [NMap.sub, subState, bind, Except.bind, pure, Except.pure]

theorem varlocs_valid : Orders.Valid (fun h f => varlocs h f : Orders ℕ ℝ) := by
  intro h f
  unfold SetOrder
  exact List.forall₂_same.2 (fun _ _ => ⟨rfl, List.Perm.refl _⟩)

theorem one_le_x_ok : ConOK (.le false ⟨[(HV.empty, 1)], none⟩ ⟨[(⟨[(0, 1)]⟩, 1)], none⟩ : Con ℕ ℤ) := by
  refine ⟨.inl rfl, ?_, by simp, ⟨[(0, 1)]⟩, 1, rfl, by simp [ExpCanonical], one_pos, by simp [UnitOK, unitScale], by simp [UnitOK, unitScale], ?_⟩
  · constructor
    · intro t ht
      simp at ht
      rw [ht]
      simp [ExpCanonical, HV.empty]
    · simp
  · simp [NoClash]

/-- C60 fails without looking at what is printed, a case: minimising `x` with `1 <= x`, a solver that returns `x = exp(-1)` gets its way. The check
notices, but the solution is returned. -/
theorem C60_violated_fails : ∃ (r : Result ℕ) (pt : ℕ → ℝ),
    solve (1 / 1000) (1 / 1000) 0 (fun _ => .ok ⟨1, [-1], .nu (fun _ => 1)⟩) (⟨[(⟨[(0, 1)]⟩, 1)], none⟩ : NMap ℕ ℝ ℤ)
      [.le false ⟨[(HV.empty, 1)], none⟩ ⟨[(⟨[(0, 1)]⟩, 1)], none⟩] [] (fun h f => varlocs h f) = .ok (r, false) ∧
    (∀ v, 0 < pt v) ∧ Agrees pt r.vars ∧
    ¬ (Con.le false ⟨[(HV.empty, 1)], none⟩ ⟨[(⟨[(0, 1)]⟩, 1)], none⟩ : Con ℕ ℤ).Holds 2 pt := by
  have hv : (genLoop ([⟨[(⟨[(0, 1)]⟩, 1)], false⟩, ⟨[(⟨[(0, -1)]⟩, 1)], false⟩] : List (Hmap ℕ ℝ))).varlocs = [(0, [0, 1])] := by
    simp [genLoop, genStep, expStep, locAppend, PyDict.set, PyDict.get?]
  obtain ⟨r, b, h1, h2, h3⟩ := C60_warning_fails (tol := 1 / 1000) (abstol := 0) (optimize := fun _ => .ok ⟨1, [-1], .nu (fun _ => 1)⟩) (one_le_x (D := ℤ)) rfl
    (by rw [hv]; rfl) (fun _ => 1) rfl
  obtain ⟨H, out, la, nu, hH, ho, hl, hr, -, -⟩ := solve_ok h1
  rw [one_le_x] at hH
  cases hH
  cases ho
  rw [hv] at hr
  have hvars : r.vars = [(0, Real.exp (-1))] := by rw [hr]; rfl
  have hag : Agrees (fun _ => Real.exp (-1)) r.vars := by
    intro v c hv
    rw [hvars] at hv
    simp only [PyDict.get?] at hv
    split at hv
    · exact Option.some.inj hv
    · cases hv
  have hnot : ¬ (Con.le false ⟨[(HV.empty, 1)], none⟩ ⟨[(⟨[(0, 1)]⟩, 1)], none⟩ : Con ℕ ℤ).Holds 2 (fun _ => Real.exp (-1)) := by
    intro h
    have h' : physVal (fun _ => Real.exp (-1)) (⟨[(HV.empty, 1)], none⟩ : NMap ℕ ℝ ℤ) ≤
        2 * physVal (fun _ => Real.exp (-1)) (⟨[(⟨[(0, 1)]⟩, 1)], none⟩ : NMap ℕ ℝ ℤ) := h
    simp [physVal, termsVal, monVal, unitScale, HV.empty] at h'
    have h4 : Real.exp (-1) * Real.exp 1 = 1 := by rw [← Real.exp_add]; simp
    have h5 : (1 : ℝ) + 1 < Real.exp 1 := Real.add_one_lt_exp one_ne_zero
    nlinarith [Real.exp_pos (-1)]
  refine ⟨r, fun _ => Real.exp (-1), ?_, fun _ => Real.exp_pos _, hag, hnot⟩
  cases b with
  | false => exact h1
  | true =>
    exfalso
    have := (C60_feasible_partial (by norm_num) (by constructor <;> simp [ExpCanonical]) (by simp)
      (by intro c hc; rw [List.mem_singleton] at hc; subst hc; exact ⟨one_le_x_ok, by simp [Con.NoZero, PyDict.get?]⟩) (by simp [WF]) (by simp [PyDict.get?]) varlocs_valid h1).2.2
      (fun _ => Real.exp (-1)) (fun _ _ => Real.exp_pos _) hag
    have h6 := this.1 _ (List.mem_singleton.2 rfl)
    apply hnot
    have h7 : physVal (fun _ => Real.exp (-1)) (⟨[(HV.empty, 1)], none⟩ : NMap ℕ ℝ ℤ) ≤
        (1 + max (1 / 1000) (1 / 1000)) * physVal (fun _ => Real.exp (-1)) (⟨[(⟨[(0, 1)]⟩, 1)], none⟩ : NMap ℕ ℝ ℤ) := h6
    refine h7.trans ?_
    refine mul_le_mul_of_nonneg_right (by norm_num) ?_
    simp [physVal, termsVal, monVal, unitScale, Real.exp_nonneg]

/-- The hypotheses of the C60 theorems are met by the same model and a solver that returns `x = 1`: the check passes without tolerance. -/
theorem one_le_x_solved : ∃ r : Result ℕ, solve (1 / 1000) 0 0 (fun _ => .ok ⟨1, [0], .nu (fun _ => 1)⟩) (⟨[(⟨[(0, 1)]⟩, 1)], none⟩ : NMap ℕ ℝ D)
      [.le false ⟨[(HV.empty, 1)], none⟩ ⟨[(⟨[(0, 1)]⟩, 1)], none⟩] [] (fun h f => varlocs h f) = .ok (r, true) := by
  unfold solve
  rw [one_le_x]
  have hg : genLoop ([⟨[(⟨[(0, 1)]⟩, 1)], false⟩, ⟨[(⟨[(0, -1)]⟩, 1)], false⟩] : List (Hmap ℕ ℝ)) =
      ⟨[(0, 1), (1, 2)], [0, 1], [1, 1], [⟨[(0, 1)]⟩, ⟨[(0, -1)]⟩], [(0, [0, 1])], [], [], []⟩ := by
    simp [genLoop, genStep, expStep, locAppend, PyDict.set, PyDict.get?]
  refine ⟨⟨1, [(0, Real.exp 0)], [(0, Real.exp 0)]⟩, ?_⟩
  simp only [bind, Except.bind]
  rw [hg]
  simp [generateResult, compileVars, generateNula, bind, Except.bind, update]
  simp [checkSolution, almostEqual, sliceSum, Data.A, Data.colEntries, Data.expOf, HV.get?, PyDict.get?, Coot.dot, Coot.tdot, Coot.ncols,
    dualNan, dualCost, List.range_succ, vec]

end Verif
