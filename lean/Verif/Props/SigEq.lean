import Verif.Model.SigEq
import Verif.Spec.SigEq
import Verif.Lemmas.SigEq
import Mathlib.Topology.Order.OrderClosed
import Mathlib.Analysis.SpecialFunctions.Pow.Continuity

/-!
# C87: signomial equalities and their approximations
-/

set_option linter.unusedSectionVars false

namespace Verif
open PyDict

section
variable {V D : Type} [DecidableEq V] [AddCommGroup D] [DecidableEq D]

/-- What is used of the two approximating monomials `lo` and `ro`. -/
structure EqCore (tol : ℝ) (sig : Nomial V ℝ D) (pt0 : V → ℝ) (forms : List (Nomial V ℝ D)) (lo ro : (V → ℝ) → ℝ) : Prop where
  pos : ∀ pt, (∀ v, 0 < pt v) → 0 < lo pt ∧ 0 < ro pt
  below : ∀ pt, (∀ v, 0 < pt v) → lo pt ≤ posPart pt sig.hmap.terms ∧ ro pt ≤ negPart pt sig.hmap.terms
  above : ∀ pt, (∀ v, 0 < pt v) → ∀ B, MovesWithin B pt0 pt sig.hmap.terms →
    posPart pt sig.hmap.terms ≤ B * lo pt ∧ negPart pt sig.hmap.terms ≤ B * ro pt
  at0 : lo pt0 = posPart pt0 sig.hmap.terms ∧ ro pt0 = negPart pt0 sig.hmap.terms
  forms : (forms = [] ∧ ∃ c, c ≤ 1 + tol ∧ c⁻¹ ≤ 1 + tol ∧ 0 < c ∧ ∀ pt, (∀ v, 0 < pt v) → lo pt = c * ro pt) ∨
    ∃ a b, forms = [a, b] ∧ (∃ ea ca, a.hmap.terms = [(ea, ca)] ∧ 0 < ca ∧ ExpCanonical ea.items) ∧
      (∃ eb cb, b.hmap.terms = [(eb, cb)] ∧ 0 < cb ∧ ExpCanonical eb.items) ∧
      ∀ pt, (∀ v, 0 < pt v) → lo pt = termsVal pt a.hmap.terms * ro pt ∧ ro pt = termsVal pt b.hmap.terms * lo pt

theorem meqConstr_ok {se : Bool} {tol : ℝ} {l r : NMap V ℝ D} {forms : List (Nomial V ℝ D)} (h : meqConstr se tol l r = .ok forms) :
    meqUnsubbed se tol l r = .ok forms := by
  unfold meqConstr at h
  split at h
  · cases h
  · cases h
  · exact h

theorem guess_pos {x0 : PyDict V ℝ} (hx0 : ∀ v c, x0.get? v = some c → 0 < c) (v : V) : 0 < (x0.get? v).getD 1 := by
  cases hv : x0.get? v with
  | none => simp
  | some c => exact hx0 v c hv

theorem eqGpconstr_core {se : Bool} {tol : ℝ} {sig : Nomial V ℝ D} {vunits : V → Option (UnitQ D ℝ)} {x0 : PyDict V ℝ}
    {ord : Orders V ℝ} {setord : List V → List V} {forms : List (Nomial V ℝ D)}
    (hc : TermsTidy sig.hmap.terms) (hu : UnitOK sig.hmap.units) (ho : ord.Valid) (hset : ∀ l, (setord l).Perm l)
    (hx0 : ∀ v c, x0.get? v = some c → 0 < c) (h : eqGpconstr se tol sig vunits x0 ord setord = .ok forms) :
    ∃ lo ro, EqCore tol sig (fun v => (x0.get? v).getD 1) forms lo ro := by
  have hwf := hc.1
  unfold eqGpconstr at h
  obtain ⟨⟨op, on⟩, hpn, h'⟩ := except_bind_ok h
  clear h
  match op, on with
  | _, none => simp at h'
  | none, some _ => simp at h'
  | some posy, some negy =>
    simp only at h'
    obtain ⟨l, hl, h2⟩ := except_bind_ok h'
    obtain ⟨r, hr, h3⟩ := except_bind_ok h2
    have hmeq := meqConstr_ok h3
    obtain ⟨hp1, hp2, hn1, hn2⟩ := posyNegy_some hwf hpn
    obtain ⟨hpct, hnct⟩ := posyNegy_classTrue hpn
    have hPc : TermsCanonical posy.hmap.terms := by
      rw [hp1]
      rw [termsCanonical_iff]
      refine ⟨hwf.sublist List.filter_sublist, fun t ht => ?_, fun t ht => hc.2 t (List.mem_filter.1 ht).1⟩
      have : 0 < t.2 := by simpa using (List.mem_filter.1 ht).2
      exact this.ne'
    have hNc : TermsCanonical negy.hmap.terms := by
      rw [hn1]
      rw [termsCanonical_iff]
      refine ⟨?_, fun t ht => ?_, fun t ht => ?_⟩
      · unfold WF
        simp only
        rw [List.pairwise_map]
        exact hwf.sublist List.filter_sublist
      · obtain ⟨u, hu, rfl⟩ := List.mem_map.1 ht
        have : u.2 < 0 := by simpa using (List.mem_filter.1 hu).2
        exact neg_ne_zero.2 this.ne
      · obtain ⟨u, hu, rfl⟩ := List.mem_map.1 ht
        exact hc.2 u (List.mem_filter.1 hu).1
    have hPmem : ∀ t, t ∈ posy.hmap.terms ↔ t ∈ sig.hmap.terms ∧ 0 < t.2 := by
      intro t; rw [hp1]; simp
    have hNmem : ∀ t, t ∈ negy.hmap.terms ↔ ∃ u ∈ sig.hmap.terms, u.2 < 0 ∧ (u.1, -u.2) = t := by
      intro t; rw [hn1]; simp [and_assoc]
    have hPpos : posy.AllPos := fun t ht => ((hPmem t).1 ht).2
    have hNpos : negy.AllPos := by
      intro t ht
      obtain ⟨u, -, hu, rfl⟩ := (hNmem t).1 ht
      simpa using hu
    obtain ⟨el, cl, hle, hlec, hclpos⟩ := monoLowerBound_shape hPc hpct hl
    obtain ⟨er, cr, hre, hrec, hcrpos⟩ := monoLowerBound_shape hNc hnct hr
    have hxP : ∀ t ∈ posy.hmap.terms, ∀ v x, t.1.get? v = some x → (fillX0 sig.hmap.vks x0).contains v = true := by
      intro t ht v x hx
      rw [contains_iff, fillX0_get?, if_pos (mem_vks.2 ⟨t, ((hPmem t).1 ht).1, by rw [hx]; simp⟩)]
      exact ⟨_, rfl⟩
    have hxN : ∀ t ∈ negy.hmap.terms, ∀ v x, t.1.get? v = some x → (fillX0 sig.hmap.vks x0).contains v = true := by
      intro t ht v x hx
      obtain ⟨u, hu, -, rfl⟩ := (hNmem t).1 ht
      rw [contains_iff, fillX0_get?, if_pos (mem_vks.2 ⟨u, hu, by rw [hx]; simp⟩)]
      exact ⟨_, rfl⟩
    have hagree : ∀ v c, (fillX0 sig.hmap.vks x0).get? v = some c → (fun v => (x0.get? v).getD 1) v = c := by
      intro v c hv
      rw [fillX0_get?] at hv
      split_ifs at hv
      cases hv; rfl
    have hpt0 : ∀ v, 0 < (fun v => (x0.get? v).getD 1) v := guess_pos hx0
    have tl := C11_tangent_lower_bound hPc hp2 hPpos ho (hset _) hxP hl _ hagree hpt0
    have tr := C11_tangent_lower_bound hNc hn2 hNpos ho (hset _) hxN hr _ hagree hpt0
    have hPval : ∀ pt, termsVal pt posy.hmap.terms = posPart pt sig.hmap.terms := by
      intro pt; rw [hp1]; rfl
    have hNval : ∀ pt, termsVal pt negy.hmap.terms = negPart pt sig.hmap.terms := by
      intro pt; rw [hn1]; unfold negPart; simp only
      generalize sig.hmap.terms.filter (fun t => t.2 < 0) = l
      induction l with
      | nil => simp
      | cons t l ih => rw [List.map_cons, termsVal_cons, termsVal_cons, ih]; ring
    have hu' : 0 < unitScale sig.hmap.units := hu
    have hlu : l.hmap.units = sig.hmap.units := by rw [tl.1, hp1]
    have hru : r.hmap.units = sig.hmap.units := by rw [tr.1, hn1]
    have hphysl : ∀ pt, physVal pt l.hmap = unitScale sig.hmap.units * termsVal pt l.hmap.terms := by
      intro pt; unfold physVal; rw [hlu]
    have hphysr : ∀ pt, physVal pt r.hmap = unitScale sig.hmap.units * termsVal pt r.hmap.terms := by
      intro pt; unfold physVal; rw [hru]
    refine ⟨fun pt => termsVal pt l.hmap.terms, fun pt => termsVal pt r.hmap.terms, ⟨?_, ?_, ?_, ?_, ?_⟩⟩
    · intro pt hpt
      simp only [hle, hre, termsVal_cons, termsVal_nil, add_zero]
      exact ⟨mul_pos hclpos (monVal_pos hpt _), mul_pos hcrpos (monVal_pos hpt _)⟩
    · intro pt hpt
      exact ⟨by rw [← hPval]; exact tl.2.2.2 pt hpt, by rw [← hNval]; exact tr.2.2.2 pt hpt⟩
    · intro pt hpt B hB
      constructor
      · rw [← hPval]
        refine monoLowerBound_upper hPc hp2 hpct hPpos ho (hset _) hxP hl _ hagree hpt0 pt hpt B fun t ht u hu => ?_
        obtain ⟨ht1, ht2⟩ := (hPmem t).1 ht
        obtain ⟨hu1, hu2⟩ := (hPmem u).1 hu
        exact hB t ht1 u hu1 (mul_pos ht2 hu2)
      · rw [← hNval]
        refine monoLowerBound_upper hNc hn2 hnct hNpos ho (hset _) hxN hr _ hagree hpt0 pt hpt B fun t ht u hu => ?_
        obtain ⟨t', ht1, ht2, rfl⟩ := (hNmem t).1 ht
        obtain ⟨u', hu1, hu2, rfl⟩ := (hNmem u).1 hu
        exact hB t' ht1 u' hu1 (mul_pos_of_neg_of_neg ht2 hu2)
    · exact ⟨by rw [← hPval]; exact tl.2.1, by rw [← hNval]; exact tr.2.1⟩
    · rcases C14_pair hle hre hlec hrec hclpos hcrpos (by rw [hlu]; exact hu) (by rw [hru]; exact hu) hmeq with
        ⟨rfl, c, c0, c1, c2, c3⟩ | ⟨a, b, rfl, ⟨ca, ha, ha', cb, hb, hb'⟩, -, hab⟩
      · refine .inl ⟨rfl, c, c1, c2, c0, fun pt hpt => ?_⟩
        have := c3 pt hpt
        rw [hphysl, hphysr] at this
        apply mul_left_cancel₀ hu'.ne'
        rw [this]; ring
      · refine .inr ⟨a, b, rfl, ⟨_, ca, ha, ha', HV.sub_canonical hlec hrec⟩, ⟨_, cb, hb, hb', HV.sub_canonical hrec hlec⟩, fun pt hpt => ?_⟩
        obtain ⟨-, -, h4, h5⟩ := hab pt hpt
        rw [hphysl, hphysr] at h4
        have h6 : termsVal pt l.hmap.terms = termsVal pt a.hmap.terms * termsVal pt r.hmap.terms := by
          apply mul_left_cancel₀ hu'.ne'
          rw [h4]; ring
        refine ⟨h6, ?_⟩
        rw [h6, ← mul_assoc, mul_comm (termsVal pt b.hmap.terms), h5, one_mul]

/-- C87: at the point of approximation nothing is lost. A signomial equality is replaced at `x0` by none or two forms. If by two, both are at most `s` at
`x0` exactly if the two sides of the equality are within the factor `s` of each other there. If by none, they are within the tolerance there. -/
theorem C87_exact {se : Bool} {tol : ℝ} {sig : Nomial V ℝ D} {vunits : V → Option (UnitQ D ℝ)} {x0 : PyDict V ℝ}
    {ord : Orders V ℝ} {setord : List V → List V} {forms : List (Nomial V ℝ D)}
    (hc : TermsTidy sig.hmap.terms) (hu : UnitOK sig.hmap.units) (ho : ord.Valid) (hset : ∀ l, (setord l).Perm l)
    (hx0 : ∀ v c, x0.get? v = some c → 0 < c) (h : eqGpconstr se tol sig vunits x0 ord setord = .ok forms) :
    (forms = [] ∧ EqualWithin (1 + tol) (fun v => (x0.get? v).getD 1) sig.hmap.terms) ∨
    ∃ a b, forms = [a, b] ∧ a.AllPos ∧ b.AllPos ∧ ∀ s,
      (termsVal (fun v => (x0.get? v).getD 1) a.hmap.terms ≤ s ∧ termsVal (fun v => (x0.get? v).getD 1) b.hmap.terms ≤ s ↔
        EqualWithin s (fun v => (x0.get? v).getD 1) sig.hmap.terms) := by
  obtain ⟨lo, ro, hk⟩ := eqGpconstr_core hc hu ho hset hx0 h
  have hp := hk.pos _ (guess_pos hx0)
  unfold EqualWithin
  rw [← hk.at0.1, ← hk.at0.2]
  rcases hk.forms with ⟨rfl, c, c1, c2, c0, c3⟩ | ⟨a, b, rfl, ⟨ea, ca, ha, ha', -⟩, ⟨eb, cb, hb, hb', -⟩, hab⟩
  · left
    have h1 := c3 _ (guess_pos hx0)
    refine ⟨rfl, ?_, ?_⟩
    · rw [h1]
      exact mul_le_mul_of_nonneg_right c1 hp.2.le
    · have h2 : ro (fun v => (x0.get? v).getD 1) = c⁻¹ * lo (fun v => (x0.get? v).getD 1) := by
        rw [h1, ← mul_assoc, inv_mul_cancel₀ c0.ne', one_mul]
      calc ro (fun v => (x0.get? v).getD 1) = c⁻¹ * lo (fun v => (x0.get? v).getD 1) := h2
        _ ≤ _ := mul_le_mul_of_nonneg_right c2 hp.1.le
  · right
    refine ⟨a, b, rfl, ?_, ?_, fun s => ?_⟩
    · intro t ht; rw [ha, List.mem_singleton] at ht; rw [ht]; exact ha'
    · intro t ht; rw [hb, List.mem_singleton] at ht; rw [ht]; exact hb'
    · obtain ⟨h1, h2⟩ := hab _ (guess_pos hx0)
      refine and_congr ?_ ?_
      · rw [h1]
        exact (mul_le_mul_iff_left₀ hp.2).symm
      · rw [h2]
        exact (mul_le_mul_iff_left₀ hp.1).symm

/-- C87: away from the point of approximation, what is lost is at most the factor `B` by which terms of one side have moved apart. Where the forms hold
within `s`, the two sides of the equality are within the factor `s * B`. -/
theorem C87_error_partial {se : Bool} {tol : ℝ} {sig : Nomial V ℝ D} {vunits : V → Option (UnitQ D ℝ)} {x0 : PyDict V ℝ}
    {ord : Orders V ℝ} {setord : List V → List V} {forms : List (Nomial V ℝ D)}
    (hc : TermsTidy sig.hmap.terms) (hu : UnitOK sig.hmap.units) (ho : ord.Valid) (hset : ∀ l, (setord l).Perm l)
    (hx0 : ∀ v c, x0.get? v = some c → 0 < c) (h : eqGpconstr se tol sig vunits x0 ord setord = .ok forms)
    {pt : V → ℝ} (hpt : ∀ v, 0 < pt v) {s : ℝ} (hs : ∀ f ∈ forms, termsVal pt f.hmap.terms ≤ s) (hs0 : forms = [] → 1 + tol ≤ s)
    {B : ℝ} (hB0 : 0 ≤ B) (hB : MovesWithin B (fun v => (x0.get? v).getD 1) pt sig.hmap.terms) :
    EqualWithin (s * B) pt sig.hmap.terms := by
  obtain ⟨lo, ro, hk⟩ := eqGpconstr_core hc hu ho hset hx0 h
  obtain ⟨p1, p2⟩ := hk.pos pt hpt
  obtain ⟨b1, b2⟩ := hk.below pt hpt
  obtain ⟨a1, a2⟩ := hk.above pt hpt B hB
  have key : lo pt ≤ s * ro pt ∧ ro pt ≤ s * lo pt ∧ 0 ≤ s := by
    rcases hk.forms with ⟨rfl, c, c1, c2, c0, c3⟩ | ⟨a, b, rfl, ⟨ea, ca, ha, ha', -⟩, -, hab⟩
    · have hs1 := hs0 rfl
      refine ⟨?_, ?_, c0.le.trans (c1.trans hs1)⟩
      · rw [c3 pt hpt]; exact mul_le_mul_of_nonneg_right (c1.trans hs1) p2.le
      · have h2 : ro pt = c⁻¹ * lo pt := by rw [c3 pt hpt, ← mul_assoc, inv_mul_cancel₀ c0.ne', one_mul]
        calc ro pt = c⁻¹ * lo pt := h2
          _ ≤ _ := mul_le_mul_of_nonneg_right (c2.trans hs1) p1.le
    · obtain ⟨h1, h2⟩ := hab pt hpt
      have ha1 := hs a (by simp)
      refine ⟨?_, ?_, le_trans ?_ ha1⟩
      · calc lo pt = _ := h1
          _ ≤ _ := mul_le_mul_of_nonneg_right ha1 p2.le
      · calc ro pt = _ := h2
          _ ≤ _ := mul_le_mul_of_nonneg_right (hs b (by simp)) p1.le
      · rw [ha]
        simp only [termsVal_cons, termsVal_nil, add_zero]
        exact (mul_pos ha' (monVal_pos hpt _)).le
  obtain ⟨k1, k2, k3⟩ := key
  have hsB : 0 ≤ s * B := mul_nonneg k3 hB0
  constructor
  · calc posPart pt sig.hmap.terms ≤ B * lo pt := a1
      _ ≤ B * (s * ro pt) := mul_le_mul_of_nonneg_left k1 hB0
      _ = s * B * ro pt := by ring
      _ ≤ _ := mul_le_mul_of_nonneg_left b2 hsB
  · calc negPart pt sig.hmap.terms ≤ B * ro pt := a2
      _ ≤ B * (s * lo pt) := mul_le_mul_of_nonneg_left k2 hB0
      _ = s * B * lo pt := by ring
      _ ≤ _ := mul_le_mul_of_nonneg_left b1 hsB

open Filter Topology

theorem tendsto_monVal {x : ℕ → V → ℝ} {z : V → ℝ} (hz : ∀ v, 0 < z v) (hx : ∀ v, Tendsto (fun n => x n v) atTop (𝓝 (z v))) (e : List (V × ℝ)) :
    Tendsto (fun n => monVal (x n) e) atTop (𝓝 (monVal z e)) := by
  unfold monVal
  induction e with
  | nil => simp
  | cons kx e ih =>
    simp only [List.map_cons, List.prod_cons]
    exact ((hx kx.1).rpow_const (.inl (hz kx.1).ne')).mul ih

theorem tendsto_termsVal {x : ℕ → V → ℝ} {z : V → ℝ} (hz : ∀ v, 0 < z v) (hx : ∀ v, Tendsto (fun n => x n v) atTop (𝓝 (z v)))
    (ts : PyDict (HV V ℝ) ℝ) : Tendsto (fun n => termsVal (x n) ts) atTop (𝓝 (termsVal z ts)) := by
  induction ts with
  | nil => simp
  | cons t ts ih =>
    simp only [termsVal_cons]
    exact ((tendsto_monVal hz hx t.1.items).const_mul t.2).add ih

/-- The factor by which `t` moves from `y` to `x` more than `u` does. -/
noncomputable def moveRatio (y x : V → ℝ) (t u : HV V ℝ × ℝ) : ℝ :=
  monVal x t.1.items * monVal y u.1.items / (monVal y t.1.items * monVal x u.1.items)

/-- A factor within which all terms move. -/
noncomputable def moveBound (y x : V → ℝ) (ts : PyDict (HV V ℝ) ℝ) : ℝ :=
  1 + ((ts.flatMap (fun t => ts.map (fun u => (t, u)))).map (fun tu => |moveRatio y x tu.1 tu.2 - 1|)).sum

theorem movesWithin_moveBound {y x : V → ℝ} (hy : ∀ v, 0 < y v) (hx : ∀ v, 0 < x v) (ts : PyDict (HV V ℝ) ℝ) :
    0 ≤ moveBound y x ts ∧ MovesWithin (moveBound y x ts) y x ts := by
  have h0 : ∀ a ∈ (ts.flatMap (fun t => ts.map (fun u => (t, u)))).map (fun tu => |moveRatio y x tu.1 tu.2 - 1|), 0 ≤ a := by
    intro a ha
    obtain ⟨tu, -, rfl⟩ := List.mem_map.1 ha
    exact abs_nonneg _
  refine ⟨add_nonneg zero_le_one (List.sum_nonneg h0), fun t ht u hu _ => ?_⟩
  have h1 : 0 < monVal y t.1.items * monVal x u.1.items := mul_pos (monVal_pos hy _) (monVal_pos hx _)
  have h2 : |moveRatio y x t u - 1| ≤ ((ts.flatMap (fun t => ts.map (fun u => (t, u)))).map (fun tu => |moveRatio y x tu.1 tu.2 - 1|)).sum :=
    List.single_le_sum h0 _ (List.mem_map.2 ⟨(t, u), by simp [ht, hu], rfl⟩)
  have h3 : moveRatio y x t u ≤ moveBound y x ts := by
    have := le_abs_self (moveRatio y x t u - 1)
    unfold moveBound
    linarith
  unfold moveRatio at h3
  exact (div_le_iff₀ h1).1 h3

theorem tendsto_moveBound {y x : ℕ → V → ℝ} {z : V → ℝ} (hz : ∀ v, 0 < z v) (hy : ∀ v, Tendsto (fun n => y n v) atTop (𝓝 (z v)))
    (hx : ∀ v, Tendsto (fun n => x n v) atTop (𝓝 (z v))) (ts : PyDict (HV V ℝ) ℝ) :
    Tendsto (fun n => moveBound (y n) (x n) ts) atTop (𝓝 1) := by
  have h1 : ∀ t u : HV V ℝ × ℝ, Tendsto (fun n => |moveRatio (y n) (x n) t u - 1|) atTop (𝓝 0) := by
    intro t u
    have hne : monVal z t.1.items * monVal z u.1.items ≠ 0 := (mul_pos (monVal_pos hz _) (monVal_pos hz _)).ne'
    have h2 : Tendsto (fun n => moveRatio (y n) (x n) t u) atTop (𝓝 1) := by
      have := ((tendsto_monVal hz hx t.1.items).mul (tendsto_monVal hz hy u.1.items)).div
        ((tendsto_monVal hz hy t.1.items).mul (tendsto_monVal hz hx u.1.items)) hne
      rwa [div_self hne] at this
    have h3 := (h2.sub_const 1).abs
    simpa using h3
  unfold moveBound
  generalize ts.flatMap (fun t => ts.map (fun u => (t, u))) = l
  have h2 : Tendsto (fun n => (l.map (fun tu => |moveRatio (y n) (x n) tu.1 tu.2 - 1|)).sum) atTop (𝓝 0) := by
    induction l with
    | nil => simp
    | cons a l ih =>
      simp only [List.map_cons, List.sum_cons]
      simpa using (h1 a.1 a.2).add ih
  simpa using h2.const_add 1

/-- C87: passes that converge satisfy the equality in the end. The equality is replaced at points `x0 n`, the forms hold within `s n` at `x n`, and both
sequences of points have the same positive limit. If `s n` tends to `s`, the two sides of the equality are within the factor `s` in the limit. -/
theorem C87_limit_partial {tol : ℝ} {sig : Nomial V ℝ D} {vunits : V → Option (UnitQ D ℝ)} {x0 : ℕ → PyDict V ℝ}
    {ord : Orders V ℝ} {setord : List V → List V} {forms : ℕ → List (Nomial V ℝ D)}
    (hc : TermsTidy sig.hmap.terms) (hu : UnitOK sig.hmap.units) (ho : ord.Valid) (hset : ∀ l, (setord l).Perm l)
    (hx0 : ∀ n v c, (x0 n).get? v = some c → 0 < c) (h : ∀ n, eqGpconstr false tol sig vunits (x0 n) ord setord = .ok (forms n))
    {x : ℕ → V → ℝ} (hx : ∀ n v, 0 < x n v) {s : ℕ → ℝ} (hs : ∀ n, ∀ f ∈ forms n, termsVal (x n) f.hmap.terms ≤ s n)
    (hs0 : ∀ n, forms n = [] → 1 + tol ≤ s n)
    {z : V → ℝ} (hz : ∀ v, 0 < z v) (hlim : ∀ v, Tendsto (fun n => x n v) atTop (𝓝 (z v)))
    (hlim0 : ∀ v, Tendsto (fun n => ((x0 n).get? v).getD 1) atTop (𝓝 (z v))) {s' : ℝ} (hslim : Tendsto s atTop (𝓝 s')) :
    EqualWithin s' z sig.hmap.terms := by
  have hB := tendsto_moveBound hz hlim0 hlim sig.hmap.terms
  have hsB : Tendsto (fun n => s n * moveBound (fun v => ((x0 n).get? v).getD 1) (x n) sig.hmap.terms) atTop (𝓝 s') := by
    simpa using hslim.mul hB
  have hP := tendsto_termsVal hz hlim (sig.hmap.terms.filter (fun t => 0 < t.2))
  have hN := (tendsto_termsVal hz hlim (sig.hmap.terms.filter (fun t => t.2 < 0))).neg
  have hall : ∀ n, EqualWithin (s n * moveBound (fun v => ((x0 n).get? v).getD 1) (x n) sig.hmap.terms) (x n) sig.hmap.terms := by
    intro n
    obtain ⟨m0, m1⟩ := movesWithin_moveBound (guess_pos (hx0 n)) (hx n) sig.hmap.terms
    exact C87_error_partial hc hu ho hset (hx0 n) (h n) (hx n) (hs n) (hs0 n) m0 m1
  exact ⟨le_of_tendsto_of_tendsto' hP (hsB.mul hN) (fun n => (hall n).1), le_of_tendsto_of_tendsto' hN (hsB.mul hP) (fun n => (hall n).2)⟩

/-- Within the factor 1 is equal. -/
theorem equalWithin_one {ts : PyDict (HV V ℝ) ℝ} {pt : V → ℝ} : EqualWithin 1 pt ts ↔ termsVal pt ts = 0 := by
  have h := termsVal_parts (l := ts) pt
  unfold EqualWithin posPart negPart
  rw [one_mul, one_mul, h]
  constructor
  · rintro ⟨h1, h2⟩; linarith
  · intro h1; constructor <;> linarith

/-- C87: where the passes stay at a point, the equality holds there exactly (if it is replaced by forms at all). -/
theorem C87_fixed {tol : ℝ} {sig : Nomial V ℝ D} {vunits : V → Option (UnitQ D ℝ)} {x0 : PyDict V ℝ}
    {ord : Orders V ℝ} {setord : List V → List V} {forms : List (Nomial V ℝ D)}
    (hc : TermsTidy sig.hmap.terms) (hu : UnitOK sig.hmap.units) (ho : ord.Valid) (hset : ∀ l, (setord l).Perm l)
    (hx0 : ∀ v c, x0.get? v = some c → 0 < c) (h : eqGpconstr false tol sig vunits x0 ord setord = .ok forms) (hne : forms ≠ []) :
    (∀ f ∈ forms, termsVal (fun v => (x0.get? v).getD 1) f.hmap.terms ≤ 1) ↔ termsVal (fun v => (x0.get? v).getD 1) sig.hmap.terms = 0 := by
  rw [← equalWithin_one]
  rcases C87_exact hc hu ho hset hx0 h with ⟨h1, -⟩ | ⟨a, b, rfl, -, -, h1⟩
  · exact absurd h1 hne
  · rw [← h1 1]
    simp

end

/-- `x**2 + 1 == 2*y`, as `x**2 + 1 - 2*y`. -/
noncomputable def sqSig : Nomial Bool ℝ ℤ := ⟨⟨[(⟨[(true, 2)]⟩, 1), (⟨[]⟩, 1), (⟨[(false, 1)]⟩, -2)], none⟩, .signomial⟩

theorem sqSig_forms : eqGpconstr false (1 / 1000) sqSig (fun _ => none) [] varlocs id =
    .ok [⟨⟨[(⟨[(true, 1), (false, -1)]⟩, 1)], none⟩, .monomial⟩, ⟨⟨[(⟨[(false, 1), (true, -1)]⟩, 1)], none⟩, .monomial⟩] := by
  norm_num [sqSig, eqGpconstr, meqConstr, meqUnsubbed, Nomial.posyNegy, Nomial.posyNegyStep, Nomial.posyOrZero, Nomial.monoLowerBound,
      monoApprox, monoApproxStep, fillX0, NMap.vks, NMap.diff, NMap.diffStep, NMap.unitsOfProduct, (by decide : Cls.posynomial ≠ Cls.monomial),
      genUnsubbed, UnitCache.ratio, renameTerms, renameStep, List.foldlM, PyDict.get?, PyDict.set, PyDict.del,
      bind, pure, Except.bind, Except.pure, HV.beq_def, List.isPerm, HV.sub, HV.add, HV.scale, dictAdd, dictAddStep, dictScale, HV.empty,
      simplifyPosyIneq, wrapForm, mkSig, NMap.anyNonpositive, Except.map,
      NMap.sub, subState, subRound, subinplace, subInit, csUpdate, subAdd, varlocs, varlocKeys,
      PyDict.contains, PyDict.keys, HV.get?, HV.del, pwDom, pw_real, List.modify_succ_cons]

/-- C87 does not hold in full: after one pass the result can violate the equality by any factor. `x**2 + 1 == 2*y` is replaced at 1 by `x == y`, which holds
at `x = y = 10` although one side is 101 and the other 20. -/
theorem C87_pass_fails : ∃ forms, eqGpconstr false (1 / 1000) sqSig (fun _ => none) [] varlocs id = .ok forms ∧ forms ≠ [] ∧
    (∀ f ∈ forms, termsVal (fun _ => 10) f.hmap.terms ≤ 1) ∧ ¬ EqualWithin 5 (fun _ => 10) sqSig.hmap.terms := by
  refine ⟨_, sqSig_forms, by simp, ?_, ?_⟩
  · intro f hf
    simp only [List.mem_cons, List.not_mem_nil, or_false] at hf
    rcases hf with rfl | rfl <;> norm_num [termsVal, monVal, Real.rpow_neg]
  · rintro ⟨h, -⟩
    norm_num [posPart, negPart, sqSig, termsVal, monVal] at h

/-- `x + 1/x == 2*y`, as `x + 1/x - 2*y`. -/
noncomputable def invSig : Nomial Bool ℝ ℤ := ⟨⟨[(⟨[(true, 1)]⟩, 1), (⟨[(true, -1)]⟩, 1), (⟨[(false, 1)]⟩, -2)], none⟩, .signomial⟩

/-- C87 does not hold in full: the point of approximation may never move. `x + 1/x == 2*y` is replaced at `x = 1` by `y == 1`. As the forms do not mention
`x`, it is not among the variables whose guesses are updated (gpkit/constraints/sgp.py 81-87 and 221), so every pass uses these forms. They hold at
`x = 100`, `y = 1`, where one side is 100.01 and the other 2. -/
theorem C87_stuck_fails : ∃ forms, eqGpconstr false (1 / 1000) invSig (fun _ => none) [] varlocs id = .ok forms ∧ forms ≠ [] ∧
    (∀ f ∈ forms, ∀ t ∈ f.hmap.terms, t.1.get? true = none) ∧
    (∀ f ∈ forms, termsVal (fun v => if v then 100 else 1) f.hmap.terms ≤ 1) ∧
    ¬ EqualWithin 50 (fun v => if v then 100 else 1) invSig.hmap.terms := by
  refine ⟨[⟨⟨[(⟨[(false, -1)]⟩, 1)], none⟩, .monomial⟩, ⟨⟨[(⟨[(false, 1)]⟩, 1)], none⟩, .monomial⟩], ?_, by simp, ?_, ?_, ?_⟩
  · norm_num [invSig, eqGpconstr, meqConstr, meqUnsubbed, Nomial.posyNegy, Nomial.posyNegyStep, Nomial.posyOrZero, Nomial.monoLowerBound,
      monoApprox, monoApproxStep, fillX0, NMap.vks, NMap.diff, NMap.diffStep, NMap.unitsOfProduct, (by decide : Cls.posynomial ≠ Cls.monomial),
      genUnsubbed, UnitCache.ratio, renameTerms, renameStep, List.foldlM, PyDict.get?, PyDict.set, PyDict.del,
      bind, pure, Except.bind, Except.pure, HV.beq_def, List.isPerm, HV.sub, HV.add, HV.scale, dictAdd, dictAddStep, dictScale, HV.empty,
      simplifyPosyIneq, wrapForm, mkSig, NMap.anyNonpositive, Except.map,
      NMap.sub, subState, subRound, subinplace, subInit, csUpdate, subAdd, varlocs, varlocKeys,
      PyDict.contains, PyDict.keys, HV.get?, HV.del, pwDom, pw_real, List.modify_succ_cons]
  · simp [HV.get?, PyDict.get?]
  · intro f hf
    simp only [List.mem_cons, List.not_mem_nil, or_false] at hf
    rcases hf with rfl | rfl <;> norm_num [termsVal, monVal]
  · rintro ⟨h, -⟩
    norm_num [posPart, negPart, invSig, termsVal, monVal, Real.rpow_neg_one] at h

/-- `x + 1/x == 5/2`, as `x + 1/x - 5/2`. -/
noncomputable def solvableSig : Nomial Bool ℝ ℤ := ⟨⟨[(⟨[(true, 1)]⟩, 1), (⟨[(true, -1)]⟩, 1), (⟨[]⟩, -5 / 2)], none⟩, .signomial⟩

/-- C87 does not hold in full: an equality that can be satisfied may not be accepted. `x + 1/x == 5/2` holds at `x = 2`, but as its constructor approximates it
at `x = 1`, where it reads `2 == 5/2`, it raises `PrimalInfeasible`. -/
theorem C87_constructor_fails : eqGpconstr false (1 / 1000) solvableSig (fun _ => none) [] varlocs id = .error .primalInfeasible ∧
    termsVal (fun _ => 2) solvableSig.hmap.terms = 0 := by
  constructor
  · norm_num [solvableSig, eqGpconstr, meqConstr, meqUnsubbed, Nomial.posyNegy, Nomial.posyNegyStep, Nomial.posyOrZero, Nomial.monoLowerBound,
      monoApprox, monoApproxStep, fillX0, NMap.vks, NMap.diff, NMap.diffStep, NMap.unitsOfProduct, (by decide : Cls.posynomial ≠ Cls.monomial),
      genUnsubbed, UnitCache.ratio, renameTerms, renameStep, List.foldlM, PyDict.get?, PyDict.set, PyDict.del,
      bind, pure, Except.bind, Except.pure, HV.beq_def, List.isPerm, HV.sub, HV.add, HV.scale, dictAdd, dictAddStep, dictScale, HV.empty,
      simplifyPosyIneq, wrapForm, mkSig, NMap.anyNonpositive, Except.map,
      NMap.sub, subState, subRound, subinplace, subInit, csUpdate, subAdd, varlocs, varlocKeys,
      PyDict.contains, PyDict.keys, HV.get?, HV.del, pwDom, pw_real, List.modify_succ_cons]
  · norm_num [solvableSig, termsVal, monVal, Real.rpow_neg_one]

/-- `x + 1/x == 2`, as `x + 1/x - 2`. -/
noncomputable def touchSig : Nomial Bool ℝ ℤ := ⟨⟨[(⟨[(true, 1)]⟩, 1), (⟨[(true, -1)]⟩, 1), (⟨[]⟩, -2)], none⟩, .signomial⟩

/-- C87 does not hold in full: an equality may be dropped. `x + 1/x == 2` is replaced at `x = 1` by no forms, so no pass constrains `x`. -/
theorem C87_dropped_fails : eqGpconstr false (1 / 1000) touchSig (fun _ => none) [] varlocs id = .ok [] ∧
    ¬ EqualWithin 50 (fun _ => 100) touchSig.hmap.terms := by
  constructor
  · norm_num [touchSig, eqGpconstr, meqConstr, meqUnsubbed, Nomial.posyNegy, Nomial.posyNegyStep, Nomial.posyOrZero, Nomial.monoLowerBound,
      monoApprox, monoApproxStep, fillX0, NMap.vks, NMap.diff, NMap.diffStep, NMap.unitsOfProduct, (by decide : Cls.posynomial ≠ Cls.monomial),
      genUnsubbed, UnitCache.ratio, renameTerms, renameStep, List.foldlM, PyDict.get?, PyDict.set, PyDict.del,
      bind, pure, Except.bind, Except.pure, HV.beq_def, List.isPerm, HV.sub, HV.add, HV.scale, dictAdd, dictAddStep, dictScale, HV.empty,
      simplifyPosyIneq, wrapForm, mkSig, NMap.anyNonpositive, Except.map,
      NMap.sub, subState, subRound, subinplace, subInit, csUpdate, subAdd, varlocs, varlocKeys,
      PyDict.contains, PyDict.keys, HV.get?, HV.del, pwDom, pw_real, List.modify_succ_cons]
  · rintro ⟨h, -⟩
    norm_num [posPart, negPart, touchSig, termsVal, monVal, Real.rpow_neg_one] at h

/-- The hypotheses of `C87_exact`, `C87_fixed`, `C87_error_partial` and, with constant sequences, `C87_limit_partial` hold for `x**2 + 1 == 2*y` at 1. -/
example : TermsTidy sqSig.hmap.terms ∧ UnitOK sqSig.hmap.units ∧ Orders.Valid (varlocs : Orders Bool ℝ) ∧
    (∃ forms, eqGpconstr false (1 / 1000) sqSig (fun _ => none) [] varlocs id = .ok forms ∧ forms ≠ [] ∧
      ∀ f ∈ forms, termsVal (fun _ => 1) f.hmap.terms ≤ 1) ∧
    MovesWithin 4 (fun _ => 1) (fun _ => 2) sqSig.hmap.terms := by
  refine ⟨?_, ?_, fun h f => List.forall₂_same.2 (fun _ _ => ⟨rfl, List.Perm.refl _⟩), ⟨_, sqSig_forms, by simp, ?_⟩, ?_⟩
  · refine ⟨by simp [sqSig, wf_cons, HV.beq_def, List.isPerm], ?_⟩
    intro t ht
    simp only [sqSig, List.mem_cons, List.not_mem_nil, or_false] at ht
    rcases ht with rfl | rfl | rfl <;> simp [ExpCanonical]
  · norm_num [UnitOK, unitScale, sqSig]
  · intro f hf
    simp only [List.mem_cons, List.not_mem_nil, or_false] at hf
    rcases hf with rfl | rfl <;> norm_num [termsVal, monVal]
  · intro t ht u hu htu
    simp only [sqSig, List.mem_cons, List.not_mem_nil, or_false] at ht hu
    rcases ht with rfl | rfl | rfl <;> rcases hu with rfl | rfl | rfl <;> first | (exfalso; revert htu; norm_num; done) | norm_num [monVal]

end Verif
