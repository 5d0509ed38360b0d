import Verif.Lemmas.Approx
import Verif.Lemmas.Arith

/-! Property theorems about monomial approximation: C11. -/

set_option linter.unusedSectionVars false

namespace Verif
open PyDict

variable {V D : Type} [DecidableEq V] [AddCommGroup D] [DecidableEq D]

theorem logGrad_interchange (pt0 : V → ℝ) (g : V → ℝ) (ts : PyDict (HV V ℝ) ℝ) (vs : List V) :
    (ts.map (fun t => t.2 * monVal pt0 t.1.items * (vs.map (fun v => expo t.1 v * g v)).sum)).sum =
      (vs.map (fun v => logGrad pt0 ts v * g v)).sum := by
  induction vs with
  | nil => simp
  | cons v vs ih =>
    simp only [List.map_cons, List.sum_cons]
    rw [← ih]
    unfold logGrad
    clear ih
    induction ts with
    | nil => simp
    | cons t ts ih => simp only [List.map_cons, List.sum_cons]; rw [ih]; ring

theorem monVal_exp_vs {pt : V → ℝ} (hpt : ∀ v, 0 < pt v) {e : HV V ℝ} (he : WF e.items) {vs : List V} (hnd : vs.Nodup)
    (hsub : ∀ kx ∈ e.items, kx.1 ∈ vs) :
    monVal pt e.items = Real.exp (vs.map (fun v => expo e v * Real.log (pt v))).sum := by
  rw [monVal_eq_exp hpt, wsum_eq_sum_vs he hnd hsub]

theorem termsVal_pos {pt : V → ℝ} (hpt : ∀ v, 0 < pt v) {ts : PyDict (HV V ℝ) ℝ} (hne : ts ≠ [])
    (hpos : ∀ t ∈ ts, 0 < t.2) : 0 < termsVal pt ts := by
  unfold termsVal
  apply List.sum_pos
  · intro x hx
    obtain ⟨t, ht, rfl⟩ := List.mem_map.1 hx
    exact mul_pos (hpos t ht) (monVal_pos hpt _)
  · simpa using hne

theorem monoApprox_loop_total {h : NMap V ℝ D} {vunits : V → Option (UnitQ D ℝ)} {x0 : PyDict V ℝ} {ord : Orders V ℝ} {c0 : ℝ}
    (hc : TermsCanonical h.terms) (ho : ord.Valid) (hx0 : ∀ t ∈ h.terms, ∀ v x, t.1.get? v = some x → x0.contains v = true)
    (hpos : ∀ v c, x0.get? v = some c → 0 < c) (hc0 : c0 ≠ 0) :
    ∀ (vs : List V) (st : ℝ × PyDict V ℝ), (∀ v ∈ vs, v ∈ h.vks) →
    ∃ st', vs.foldlM (monoApproxStep h vunits x0 ord c0) st = .ok st' := by
  intro vs
  induction vs with
  | nil => intro st _; exact ⟨st, rfl⟩
  | cons v vs ih =>
    intro st hvs
    rw [List.foldlM_cons]
    obtain ⟨t, ht, htv⟩ := mem_vks.1 (hvs v List.mem_cons_self)
    obtain ⟨x, hx'⟩ := Option.ne_none_iff_exists'.1 htv
    obtain ⟨val, hval⟩ := contains_iff.1 (hx0 t ht v x hx')
    have hdt := NMap.diff_terms hc v (vunits v)
    have hdc : TermsCanonical (h.diff v (vunits v)).terms := by rw [hdt]; exact filterMap_dterm_canonical hc
    have hdne : (h.diff v (vunits v)).terms ≠ [] := by
      rw [hdt]
      intro hnil
      have : (dexp v t.1 x, t.2 * x) ∈ h.terms.filterMap (dterm v) :=
        List.mem_filterMap.2 ⟨t, ht, by unfold dterm; rw [hx']; rfl⟩
      rw [hnil] at this; cases this
    have hall : ∀ t ∈ (h.diff v (vunits v)).terms, ∀ w x, t.1.get? w = some x → x0.contains w = true := by
      rw [hdt]
      intro r hr w x hwx
      obtain ⟨t, ht, htr⟩ := List.mem_filterMap.1 hr
      unfold dterm at htr
      obtain ⟨y, hy, rfl⟩ := Option.map_eq_some_iff.1 htr
      have hwf : WF t.1.items := ((expCanonical_iff _).1 (hc.1 t ht).1).1
      simp only at hwx
      rw [dexp_get? hwf] at hwx
      by_cases hvw : v = w
      · rw [← hvw]; exact contains_iff.2 ⟨val, hval⟩
      · rw [if_neg hvw] at hwx; exact hx0 t ht w x hwx
    obtain ⟨d, hd⟩ := C06_sub_total (D := D) hdc hdne (ho (h.diff v (vunits v)).terms x0)
      (fun v c hv => Or.inl (hpos v c hv))
    have hone := C06_sub_all hdc hdne (ho _ _) hd hall (override (fun _ => 1) x0) (override_agrees _ _)
    have hstep : ∃ st1, monoApproxStep h vunits x0 ord c0 st v = .ok st1 := by
      unfold monoApproxStep
      rw [hval]
      simp only
      rw [hd]
      simp only
      rw [hone]
      simp only
      rw [if_neg hc0, if_pos (by simp [pwDom, hpos v val hval])]
      exact ⟨_, rfl⟩
    obtain ⟨st1, hst1⟩ := hstep
    rw [hst1]
    exact ih st1 (fun w hw => hvs w (List.mem_cons_of_mem _ hw))

/-- C11, first half: `mono_lower_bound` at a positive point that gives a value to every variable returns a monomial. -/
theorem C11_total {p : Nomial V ℝ D} {vunits : V → Option (UnitQ D ℝ)} {x0 : PyDict V ℝ} {ord : Orders V ℝ} {vs : List V}
    (hc : TermsCanonical p.hmap.terms) (hne : p.hmap.terms ≠ []) (hpos : p.AllPos) (ho : ord.Valid)
    (hvs : vs.Perm p.hmap.vks) (hx0 : ∀ t ∈ p.hmap.terms, ∀ v x, t.1.get? v = some x → x0.contains v = true)
    (hx0pos : ∀ v c, x0.get? v = some c → 0 < c) :
    ∃ m, p.monoLowerBound vunits x0 ord vs = .ok m ∧ m.cls = .monomial := by
  unfold Nomial.monoLowerBound
  by_cases hm : p.cls = .monomial
  · rw [if_pos hm]; exact ⟨p, rfl, hm⟩
  rw [if_neg hm]
  obtain ⟨ps, hps⟩ := C06_sub_total (D := D) hc hne (ho p.hmap.terms x0) (fun v c hv => Or.inl (hx0pos v c hv))
  have hone := C06_sub_all hc hne (ho _ _) hps hx0 (override (fun _ => 1) x0) (override_agrees _ _)
  have hpt0 : ∀ v, 0 < override (fun _ => (1:ℝ)) x0 v := by
    intro v
    unfold override
    cases h : x0.get? v with
    | none => simp
    | some c => simpa using hx0pos v c h
  have hc0 : 0 < termsVal (override (fun _ => 1) x0) p.hmap.terms := termsVal_pos hpt0 hne hpos
  obtain ⟨st, hst⟩ := monoApprox_loop_total (vunits := vunits) hc ho hx0 hx0pos hc0.ne' vs
    (termsVal (override (fun _ => 1) x0) p.hmap.terms, []) (fun v hv => hvs.mem_iff.1 hv)
  have hma : monoApprox p.hmap vunits x0 ord vs = .ok ⟨[(⟨st.2⟩, st.1)], p.hmap.units⟩ := by
    unfold monoApprox
    rw [hps]
    simp only
    rw [hone]
    simp only [HV.empty, List.isEmpty_nil, if_true]
    rw [hst]; rfl
  rw [hma]
  have hl := (monoApprox_loop hc ho _ (override_agrees (fun _ => (1:ℝ)) x0) hx0 hpt0 vs
    (termsVal (override (fun _ => 1) x0) p.hmap.terms, []) st (hvs.nodup_iff.2 (List.nodup_dedup _))
    (fun v hv => hvs.mem_iff.1 hv) (by simp) (by simp) (by intro q hq; cases hq) hst).2.2.2.2
  have hst1 : 0 < st.1 := by
    have hprod : 0 < (vs.map (fun v => override (fun _ => (1:ℝ)) x0 v ^
        (logGrad (override (fun _ => 1) x0) p.hmap.terms v / termsVal (override (fun _ => 1) x0) p.hmap.terms))).prod := by
      apply List.prod_pos
      intro x hx
      obtain ⟨v, _, rfl⟩ := List.mem_map.1 hx
      exact Real.rpow_pos_of_pos (hpt0 v) _
    simp only at hl
    exact (pos_iff_pos_of_mul_pos (by rw [hl]; exact hc0)).2 hprod
  refine ⟨⟨⟨[(⟨st.2⟩, st.1)], p.hmap.units⟩, .monomial⟩, ?_, rfl⟩
  show mkSig false true _ = _
  unfold mkSig NMap.anyNonpositive
  simp [not_le.2 hst1]

/-- C11. What `mono_lower_bound` returns for a posynomial `p` at `x0` equals `p` at `x0`, has the same partial derivatives
there, and is at most `p` at every positive point. `pt0` is any positive point with the values of `x0`. -/
theorem C11_tangent_lower_bound {p m : Nomial V ℝ D} {vunits : V → Option (UnitQ D ℝ)} {x0 : PyDict V ℝ}
    {ord : Orders V ℝ} {vs : List V}
    (hc : TermsCanonical p.hmap.terms) (hne : p.hmap.terms ≠ []) (hpos : p.AllPos) (ho : ord.Valid)
    (hvs : vs.Perm p.hmap.vks) (hx0 : ∀ t ∈ p.hmap.terms, ∀ v x, t.1.get? v = some x → x0.contains v = true)
    (hm : p.monoLowerBound vunits x0 ord vs = .ok m)
    (pt0 : V → ℝ) (hpt0 : ∀ v c, x0.get? v = some c → pt0 v = c) (hpt0pos : ∀ v, 0 < pt0 v) :
    m.hmap.units = p.hmap.units ∧
    termsVal pt0 m.hmap.terms = termsVal pt0 p.hmap.terms ∧
    (∀ v, ∃ d, HasDerivAt (fun y => termsVal (Function.update pt0 v y) m.hmap.terms) d (pt0 v) ∧
      HasDerivAt (fun y => termsVal (Function.update pt0 v y) p.hmap.terms) d (pt0 v)) ∧
    ∀ pt, (∀ v, 0 < pt v) → termsVal pt m.hmap.terms ≤ termsVal pt p.hmap.terms := by
  have hwf : ∀ t ∈ p.hmap.terms, WF t.1.items := fun t ht => ((expCanonical_iff _).1 (hc.1 t ht).1).1
  unfold Nomial.monoLowerBound at hm
  by_cases hcls : p.cls = .monomial
  · rw [if_pos hcls] at hm; cases hm
    exact ⟨rfl, rfl, fun v => ⟨_, termsVal_hasDerivAt (hpt0pos v) hwf, termsVal_hasDerivAt (hpt0pos v) hwf⟩, fun _ _ => le_refl _⟩
  rw [if_neg hcls] at hm
  obtain ⟨mm, hm1, hm2⟩ := except_bind_ok hm
  have hmm := mkSig_ok hm2
  rw [hmm]
  unfold monoApprox at hm1
  cases hps : p.hmap.sub x0 (ord p.hmap.terms x0) with
  | error e => rw [hps] at hm1; cases hm1
  | ok ps =>
    rw [hps] at hm1
    simp only at hm1
    rw [C06_sub_all hc hne (ho _ _) hps hx0 pt0 hpt0] at hm1
    simp only [HV.empty, List.isEmpty_nil, if_true] at hm1
    obtain ⟨st, hst, hm3⟩ := except_bind_ok hm1
    cases hm3
    have hnd : vs.Nodup := hvs.nodup_iff.2 (List.nodup_dedup _)
    obtain ⟨l1, l2, _, l4, l5⟩ := monoApprox_loop hc ho pt0 hpt0 hx0 hpt0pos vs _ st hnd
      (fun v hv => hvs.mem_iff.1 hv) (by simp) (by simp) (by intro q hq; cases hq) hst
    have hc0 : 0 < termsVal pt0 p.hmap.terms := termsVal_pos hpt0pos hne hpos
    set c0 := termsVal pt0 p.hmap.terms with hc0def
    have hexpo : ∀ v ∈ vs, expo ⟨st.2⟩ v = logGrad pt0 p.hmap.terms v / c0 := by
      intro v hv
      have := l4 v
      rw [if_pos hv] at this
      exact this
    have hsub : ∀ kx ∈ st.2, kx.1 ∈ vs := by
      intro kx hkx
      by_contra hk
      have h1 := l4 kx.1
      rw [if_neg hk, get?_of_mem l1 hkx] at h1
      exact l2 kx hkx (by simpa using h1)
    have hsubp : ∀ t ∈ p.hmap.terms, ∀ kx ∈ t.1.items, kx.1 ∈ vs := by
      intro t ht kx hkx
      apply hvs.mem_iff.2
      refine mem_vks.2 ⟨t, ht, ?_⟩
      unfold HV.get?
      rw [get?_of_mem (hwf t ht) hkx]; simp
    have hE : ∀ pt : V → ℝ, (∀ v, 0 < pt v) → monVal pt st.2 =
        Real.exp (vs.map (fun v => logGrad pt0 p.hmap.terms v / c0 * Real.log (pt v))).sum := by
      intro pt hpt
      have := monVal_exp_vs hpt (e := ⟨st.2⟩) l1 hnd hsub
      simp only at this
      rw [this]
      congr 2
      apply List.map_congr_left
      intro v hv
      rw [hexpo v hv]
    have hl5 : st.1 * monVal pt0 st.2 = c0 := by
      have hprod : ∀ vs : List V, (vs.map (fun v => pt0 v ^ (logGrad pt0 p.hmap.terms v / c0))).prod =
          Real.exp (vs.map (fun v => logGrad pt0 p.hmap.terms v / c0 * Real.log (pt0 v))).sum := by
        intro vs
        induction vs with
        | nil => simp
        | cons v vs ih =>
          simp only [List.map_cons, List.sum_cons, List.prod_cons]
          rw [Real.exp_add, ih, Real.rpow_def_of_pos (hpt0pos v), mul_comm (Real.log (pt0 v))]
      rw [hE pt0 hpt0pos, ← hprod]
      exact l5
    have hval0 : termsVal pt0 [((⟨st.2⟩ : HV V ℝ), st.1)] = c0 := by simpa using hl5
    refine ⟨rfl, hval0, ?_, ?_⟩
    · intro v
      refine ⟨_, termsVal_hasDerivAt (hpt0pos v) (ts := [((⟨st.2⟩ : HV V ℝ), st.1)]) (by intro t ht; simp at ht; rw [ht]; exact l1), ?_⟩
      refine (termsVal_hasDerivAt (hpt0pos v) hwf).congr_deriv ?_
      have e1 := val_diff_eq (hpt0pos v) hwf
      have e2 := val_diff_eq (hpt0pos v) (ts := [((⟨st.2⟩ : HV V ℝ), st.1)])
        (by intro t ht; simp at ht; rw [ht]; exact l1)
      apply mul_left_cancel₀ (hpt0pos v).ne'
      rw [e1, e2]
      have e3 : logGrad pt0 [((⟨st.2⟩ : HV V ℝ), st.1)] v = c0 * expo ⟨st.2⟩ v := by
        unfold logGrad; simp [hl5]
      rw [e3]
      by_cases hv : v ∈ vs
      · rw [hexpo v hv]; field_simp
      · have h1 := l4 v
        rw [if_neg hv] at h1
        have h2 : expo ⟨st.2⟩ v = 0 := by simpa [expo, HV.get?] using h1
        rw [h2, mul_zero]
        unfold logGrad
        apply List.sum_eq_zero
        intro x hx
        obtain ⟨t, ht, rfl⟩ := List.mem_map.1 hx
        have : t.1.get? v = none := by
          by_contra hcon
          exact hv (hvs.mem_iff.2 (mem_vks.2 ⟨t, ht, hcon⟩))
        simp [expo, this]
    · intro pt hpt
      let g : V → ℝ := fun v => Real.log (pt v) - Real.log (pt0 v)
      let L : ℝ := (vs.map (fun v => logGrad pt0 p.hmap.terms v / c0 * g v)).sum
      let ℓ : HV V ℝ × ℝ → ℝ := fun t => (vs.map (fun v => expo t.1 v * g v)).sum
      let w : HV V ℝ × ℝ → ℝ := fun t => t.2 * monVal pt0 t.1.items
      have hdiff : ∀ (f : V → ℝ) (vs : List V), (vs.map (fun v => f v * Real.log (pt v))).sum =
          (vs.map (fun v => f v * Real.log (pt0 v))).sum + (vs.map (fun v => f v * g v)).sum := by
        intro f vs
        induction vs with
        | nil => simp
        | cons v vs ih => simp only [List.map_cons, List.sum_cons]; rw [ih]; simp only [g]; ring
      have hmpt : termsVal pt [((⟨st.2⟩ : HV V ℝ), st.1)] = c0 * Real.exp L := by
        simp only [termsVal_cons, termsVal_nil, add_zero]
        rw [hE pt hpt, hdiff, Real.exp_add, ← mul_assoc, ← hE pt0 hpt0pos, hl5]
      have hppt : termsVal pt p.hmap.terms = (p.hmap.terms.map (fun t => w t * Real.exp (ℓ t))).sum := by
        unfold termsVal
        apply congrArg List.sum
        apply List.map_congr_left
        intro t ht
        simp only [w, ℓ]
        rw [monVal_exp_vs hpt (hwf t ht) hnd (hsubp t ht), hdiff, Real.exp_add,
          ← monVal_exp_vs hpt0pos (hwf t ht) hnd (hsubp t ht)]
        ring
      have hw : (p.hmap.terms.map w).sum = c0 := rfl
      have hL : (p.hmap.terms.map (fun t => w t * ℓ t)).sum = (p.hmap.terms.map w).sum * L := by
        rw [hw]
        simp only [w, ℓ, L]
        rw [logGrad_interchange]
        have hmul : ∀ vs : List V, (vs.map (fun v => logGrad pt0 p.hmap.terms v * g v)).sum =
            c0 * (vs.map (fun v => logGrad pt0 p.hmap.terms v / c0 * g v)).sum := by
          intro vs
          induction vs with
          | nil => simp
          | cons v vs ih =>
            simp only [List.map_cons, List.sum_cons]
            rw [ih, mul_add, ← mul_assoc, mul_div_cancel₀ _ hc0.ne']
        exact hmul vs
      rw [hmpt, hppt]
      have := amgm p.hmap.terms w ℓ (fun t ht => mul_pos (hpos t ht) (monVal_pos hpt0pos _)) L hL
      rw [hw] at this
      exact this

/-- `x + y` at `x = 1, y = 3` meets the hypotheses of both theorems. -/
example : ∃ (p : Nomial ℕ ℝ ℝ) (x0 : PyDict ℕ ℝ) (ord : Orders ℕ ℝ) (vs : List ℕ),
    TermsCanonical p.hmap.terms ∧ p.hmap.terms ≠ [] ∧ p.AllPos ∧ ord.Valid ∧ vs.Perm p.hmap.vks ∧
    (∀ t ∈ p.hmap.terms, ∀ v x, t.1.get? v = some x → x0.contains v = true) ∧
    (∀ v c, x0.get? v = some c → 0 < c) ∧ p.cls = .posynomial := by
  refine ⟨⟨⟨[(⟨[(0, 1)]⟩, 1), (⟨[(1, 1)]⟩, 1)], none⟩, .posynomial⟩, [(0, 1), (1, 3)], varlocs, [0, 1], ?_, by simp, ?_, ?_, ?_, ?_, ?_, rfl⟩
  · constructor
    · simp [ExpCanonical]
    · simp
  · intro t ht; simp at ht; rcases ht with rfl | rfl <;> norm_num
  · intro h f
    unfold SetOrder
    apply List.forall₂_same.2
    intro a _
    exact ⟨rfl, List.Perm.refl _⟩
  · simp [NMap.vks]
  · intro t ht v x hx
    simp at ht
    rcases ht with rfl | rfl <;> · simp [HV.get?, get?_cons] at hx; simp [PyDict.contains, get?_cons, ← hx.1]
  · intro v c hv
    simp [get?_cons] at hv
    split_ifs at hv
    · simp at hv; rw [← hv]; norm_num
    · simp at hv; rw [← hv]; norm_num

end Verif
