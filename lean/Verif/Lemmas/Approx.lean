import Verif.Model.Approx
import Verif.Props.Substitution
import Verif.Lemmas.Diff

/-! The monomial approximation of a posynomial: its exponents, and weighted AM-GM. -/

set_option linter.unusedSectionVars false

namespace Verif
open PyDict

variable {V D : Type} [DecidableEq V] [AddCommGroup D] [DecidableEq D]

/-- the exponent of `v` in a term, zero if it does not occur -/
noncomputable def expo (e : HV V ℝ) (v : V) : ℝ := (e.get? v).getD 0

/-- `x_v` times the derivative of a term list with respect to `v` -/
noncomputable def logGrad (pt : V → ℝ) (ts : PyDict (HV V ℝ) ℝ) (v : V) : ℝ :=
  (ts.map (fun t => t.2 * monVal pt t.1.items * expo t.1 v)).sum

theorem wsum_eq_sum_vs {e : HV V ℝ} (he : WF e.items) {vs : List V} (hnd : vs.Nodup)
    (hsub : ∀ kx ∈ e.items, kx.1 ∈ vs) (f : V → ℝ) :
    wsum f e.items = (vs.map (fun v => expo e v * f v)).sum := by
  obtain ⟨items⟩ := e
  simp only at he hsub
  unfold expo HV.get?
  simp only
  induction items with
  | nil =>
    rw [wsum_nil]; symm
    apply List.sum_eq_zero
    intro x hx
    obtain ⟨v, _, rfl⟩ := List.mem_map.1 hx
    simp
  | cons p d ih =>
    obtain ⟨k, x⟩ := p
    obtain ⟨h1, h2⟩ := wf_cons.1 he
    rw [wsum_cons, ih h2 (fun kx hkx => hsub kx (List.mem_cons_of_mem _ hkx))]
    have hkd : PyDict.get? d k = none := by
      apply get?_eq_none_iff.2
      intro q hq
      have := h1 q hq
      rw [BEq.comm]; exact this
    have hk : k ∈ vs := hsub (k, x) List.mem_cons_self
    have hsplit : ∀ vs : List V, vs.Nodup → k ∈ vs →
        (vs.map (fun v => (PyDict.get? ((k, x) :: d) v).getD 0 * f v)).sum =
          x * f k + (vs.map (fun v => (PyDict.get? d v).getD 0 * f v)).sum := by
      intro vs
      induction vs with
      | nil => intro _ h; simp at h
      | cons w vs ihv =>
        intro hnd hk
        rw [List.map_cons, List.sum_cons, List.map_cons, List.sum_cons]
        obtain ⟨hw, hnd'⟩ := List.nodup_cons.1 hnd
        by_cases hwk : w = k
        · rw [get?_cons]
          simp only [hwk, beq_self_eq_true, if_true, hkd, Option.getD_some, Option.getD_none, zero_mul, zero_add]
          congr 1
          apply congrArg List.sum
          apply List.map_congr_left
          intro u hu
          rw [get?_cons]
          have : ¬ (k == u) = true := by
            intro h; rw [beq_iff_eq] at h; exact hw (by rw [hwk, h]; exact hu)
          rw [if_neg this]
        · have hk' : k ∈ vs := by
            rcases List.mem_cons.1 hk with h | h
            · exact absurd h.symm hwk
            · exact h
          rw [ihv hnd' hk', get?_cons]
          have : ¬ (k == w) = true := by
            intro h; rw [beq_iff_eq] at h; exact hwk h.symm
          rw [if_neg this]; ring
    rw [hsplit vs hnd hk]

/-- Value of the derivative, times the point, is the logarithmic gradient. -/
theorem val_diff_eq {pt : V → ℝ} {v : V} (hpos : 0 < pt v) {ts : PyDict (HV V ℝ) ℝ} (h : ∀ t ∈ ts, WF t.1.items) :
    pt v * termsVal pt (ts.filterMap (dterm v)) = logGrad pt ts v := by
  induction ts with
  | nil => simp [logGrad]
  | cons t ts ih =>
    have ih' := ih (fun s hs => h s (List.mem_cons_of_mem _ hs))
    unfold logGrad at ih' ⊢
    rw [List.map_cons, List.sum_cons, ← ih']
    have he := h t List.mem_cons_self
    cases hx : t.1.get? v with
    | none =>
      have : dterm v t = none := by unfold dterm; rw [hx]; rfl
      rw [List.filterMap_cons_none this]
      simp [expo, hx]
    | some x =>
      have hd : dterm v t = some (dexp v t.1 x, t.2 * x) := by unfold dterm; rw [hx]; rfl
      rw [List.filterMap_cons_some hd, termsVal_cons, mul_add]
      congr 1
      simp only [expo, hx, Option.getD_some]
      have h1 := monVal_del pt hx
      have h2 : monVal pt (dexp v t.1 x).items = pt v ^ (x - 1) * monVal pt (t.1.del v).items := by
        by_cases h1x : x = 1
        · unfold dexp; rw [if_pos h1x, h1x]; simp
        · have h3 : (dexp v t.1 x).get? v = some (x - 1) := by rw [dexp_get? he]; simp [h1x]
          rw [monVal_del pt h3]
          congr 2
          unfold dexp HV.del; rw [if_neg h1x]; exact del_set_self _ _ _
      rw [h2, h1, Real.rpow_sub hpos, Real.rpow_one]
      field_simp

/-- Weighted AM-GM on lists, in the form needed: if `L` is the mean of the `ℓ i` with weights `w i`, then
`(∑ w) e^L ≤ ∑ w e^ℓ`. -/
theorem amgm {ι : Type} (l : List ι) (w ℓ : ι → ℝ) (hw : ∀ i ∈ l, 0 < w i) (L : ℝ)
    (hL : (l.map (fun i => w i * ℓ i)).sum = (l.map w).sum * L) :
    (l.map w).sum * Real.exp L ≤ (l.map (fun i => w i * Real.exp (ℓ i))).sum := by
  have h1 : (l.map (fun i => w i * Real.exp L * (1 + (ℓ i - L)))).sum ≤ (l.map (fun i => w i * Real.exp (ℓ i))).sum := by
    apply List.sum_le_sum
    intro i hi
    have h2 := Real.add_one_le_exp (ℓ i - L)
    have h3 : Real.exp (ℓ i) = Real.exp L * Real.exp (ℓ i - L) := by rw [← Real.exp_add]; congr 1; ring
    rw [h3, mul_assoc]
    apply mul_le_mul_of_nonneg_left _ (hw i hi).le
    apply mul_le_mul_of_nonneg_left _ (Real.exp_pos L).le
    linarith
  have h4 : (l.map (fun i => w i * Real.exp L * (1 + (ℓ i - L)))).sum =
      Real.exp L * ((l.map w).sum + (l.map (fun i => w i * ℓ i)).sum - (l.map w).sum * L) := by
    clear hL h1 hw
    induction l with
    | nil => simp
    | cons i l ih => simp only [List.map_cons, List.sum_cons]; rw [ih]; ring
  rw [h4, hL] at h1
  linarith

/-- What the loop of `mono_approximation` computes. -/
theorem monoApprox_loop {h : NMap V ℝ D} {vunits : V → Option (UnitQ D ℝ)} {x0 : PyDict V ℝ} {ord : Orders V ℝ} {c0 : ℝ}
    (hc : TermsCanonical h.terms) (ho : ord.Valid) (pt0 : V → ℝ) (hpt0 : ∀ v c, x0.get? v = some c → pt0 v = c)
    (hx0 : ∀ t ∈ h.terms, ∀ v x, t.1.get? v = some x → x0.contains v = true)
    (hpos : ∀ v, 0 < pt0 v) :
    ∀ (vs : List V) (st st' : ℝ × PyDict V ℝ), vs.Nodup → (∀ v ∈ vs, v ∈ h.vks) → (∀ v ∈ vs, st.2.get? v = none) →
    WF st.2 → NZ st.2 →
    vs.foldlM (monoApproxStep h vunits x0 ord c0) st = .ok st' →
    WF st'.2 ∧ NZ st'.2 ∧ (vs ≠ [] → c0 ≠ 0) ∧
    (∀ v, (st'.2.get? v).getD 0 = if v ∈ vs then logGrad pt0 h.terms v / c0 else (st.2.get? v).getD 0) ∧
    (st'.1 * (vs.map (fun v => pt0 v ^ (logGrad pt0 h.terms v / c0))).prod = st.1) := by
  intro vs
  induction vs with
  | nil =>
    intro st st' _ _ _ hw hn hs
    cases hs
    exact ⟨hw, hn, by simp, by simp, by simp⟩
  | cons v vs ih =>
    intro st st' hnd hvs hfresh hw hn hs
    rw [List.foldlM_cons] at hs
    obtain ⟨st1, hs1, hs2⟩ := except_bind_ok hs
    obtain ⟨hv, hnd'⟩ := List.nodup_cons.1 hnd
    unfold monoApproxStep at hs1
    cases hx : x0.get? v with
    | none => rw [hx] at hs1; cases hs1
    | some val =>
      rw [hx] at hs1
      simp only at hs1
      cases hd : (h.diff v (vunits v)).sub x0 (ord (h.diff v (vunits v)).terms x0) with
      | error e => rw [hd] at hs1; cases hs1
      | ok d =>
        rw [hd] at hs1
        simp only at hs1
        have hdt := NMap.diff_terms hc v (vunits v)
        have hdc : TermsCanonical (h.diff v (vunits v)).terms := by rw [hdt]; exact filterMap_dterm_canonical hc
        have hdne : (h.diff v (vunits v)).terms ≠ [] := by
          rw [hdt]
          obtain ⟨t, ht, htv⟩ := mem_vks.1 (hvs v List.mem_cons_self)
          obtain ⟨x, hx'⟩ := Option.ne_none_iff_exists'.1 htv
          intro hnil
          have : (dexp v t.1 x, t.2 * x) ∈ h.terms.filterMap (dterm v) :=
            List.mem_filterMap.2 ⟨t, ht, by unfold dterm; rw [hx']; rfl⟩
          rw [hnil] at this; cases this
        have hall : ∀ t ∈ (h.diff v (vunits v)).terms, ∀ w x, t.1.get? w = some x → x0.contains w = true := by
          rw [hdt]
          intro r hr w x hwx
          obtain ⟨t, ht, htr⟩ := List.mem_filterMap.1 hr
          unfold dterm at htr
          obtain ⟨y, hy, rfl⟩ := Option.map_eq_some_iff.1 htr
          have hwf : WF t.1.items := ((expCanonical_iff _).1 (hc.1 t ht).1).1
          simp only at hwx
          rw [dexp_get? hwf] at hwx
          by_cases hvw : v = w
          · rw [← hvw]; exact contains_iff.2 ⟨val, hx⟩
          · rw [if_neg hvw] at hwx; exact hx0 t ht w x hwx
        have hval := C06_sub_all hdc hdne (ho _ _) hd hall pt0 hpt0
        rw [hval] at hs1
        simp only at hs1
        by_cases hc0 : c0 = 0
        · rw [if_pos hc0] at hs1; cases hs1
        rw [if_neg hc0] at hs1
        by_cases hdom : pwDom val (val * termsVal pt0 (h.diff v (vunits v)).terms / c0) = true
        swap
        · rw [if_neg hdom] at hs1; cases hs1
        rw [if_pos hdom] at hs1
        cases hs1
        have hptv : pt0 v = val := hpt0 v val hx
        have hgrad : val * termsVal pt0 (h.diff v (vunits v)).terms = logGrad pt0 h.terms v := by
          rw [← hptv, hdt]
          exact val_diff_eq (hpos v) (fun t ht => ((expCanonical_iff _).1 (hc.1 t ht).1).1)
        rw [hgrad] at hs2
        have hvnone : st.2.get? v = none := hfresh v List.mem_cons_self
        have hfresh' : ∀ w ∈ vs, PyDict.get? (if logGrad pt0 h.terms v / c0 ≠ 0 then
            st.2.set v (logGrad pt0 h.terms v / c0) else st.2) w = none := by
          intro w hw'
          have hvw : ¬ (v == w) = true := by
            intro h; rw [beq_iff_eq] at h; rw [h] at hv; exact hv hw'
          split_ifs
          · rw [get?_set, if_neg hvw]; exact hfresh w (List.mem_cons_of_mem _ hw')
          · exact hfresh w (List.mem_cons_of_mem _ hw')
        have hw1 : WF (if logGrad pt0 h.terms v / c0 ≠ 0 then st.2.set v (logGrad pt0 h.terms v / c0) else st.2) := by
          split_ifs
          · exact wf_set hw _ _
          · exact hw
        have hn1 : NZ (if logGrad pt0 h.terms v / c0 ≠ 0 then st.2.set v (logGrad pt0 h.terms v / c0) else st.2) := by
          split_ifs with hz
          · exact hn.set hz
          · exact hn
        obtain ⟨i1, i2, _, i4, i5⟩ := ih _ st' hnd' (fun w hw => hvs w (List.mem_cons_of_mem _ hw)) hfresh' hw1 hn1 hs2
        refine ⟨i1, i2, fun _ => hc0, ?_, ?_⟩
        · intro w
          rw [i4 w]
          by_cases hwv : w ∈ vs
          · rw [if_pos hwv, if_pos (List.mem_cons_of_mem _ hwv)]
          · rw [if_neg hwv]
            by_cases hvw : w = v
            · rw [hvw, if_pos List.mem_cons_self]
              split_ifs with hz
              · rw [get?_set_self]; rfl
              · rw [hvnone]; rw [not_not] at hz; rw [hz]; rfl
            · have hnm : w ∉ v :: vs := by simp [hvw, hwv]
              rw [if_neg hnm]
              have hvw' : ¬ (v == w) = true := by
                intro h; rw [beq_iff_eq] at h; exact hvw h.symm
              split_ifs
              · rw [get?_set, if_neg hvw']
              · rfl
        · rw [List.map_cons, List.prod_cons, mul_left_comm, i5, hptv, pw_real]
          have : val ^ (logGrad pt0 h.terms v / c0) ≠ 0 := by
            rw [← hptv]; exact (Real.rpow_pos_of_pos (hpos v) _).ne'
          field_simp

end Verif
