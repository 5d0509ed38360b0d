import Verif.Spec.SigForm
import Verif.Spec.SolverForm
import Verif.Lemmas.SigSens
import Verif.Props.SensDual

/-!
# C53: sensitivities of signomial constraints
-/

set_option linter.unusedSectionVars false

namespace Verif
open PyDict

variable {V : Type} [DecidableEq V]

theorem inMap_neg {l : PyDict (HV V ℝ) ℝ} {v : V} : InMap (l.map (fun t => (t.1, -t.2))) v ↔ InMap l v := by
  constructor
  · rintro ⟨t, ht, h⟩
    obtain ⟨u, hu, rfl⟩ := List.mem_map.1 ht
    exact ⟨u, hu, h⟩
  · rintro ⟨t, ht, h⟩
    exact ⟨_, List.mem_map.2 ⟨t, ht, rfl⟩, h⟩

theorem inMap_filter {l : PyDict (HV V ℝ) ℝ} {p : HV V ℝ × ℝ → Bool} {v : V} (h : InMap (l.filter p) v) : InMap l v := by
  obtain ⟨t, ht, h1⟩ := h
  exact ⟨t, List.mem_of_mem_filter ht, h1⟩

theorem termsVal_negate (x : V → ℝ) (l : PyDict (HV V ℝ) ℝ) : termsVal x (l.map (fun t => (t.1, -t.2))) = -termsVal x l := by
  induction l with
  | nil => simp [termsVal]
  | cons t l ih => rw [List.map_cons, termsVal_cons, termsVal_cons, ih]; ring

theorem logGrad_negate (x : V → ℝ) (l : PyDict (HV V ℝ) ℝ) (v : V) : logGrad x (l.map (fun t => (t.1, -t.2))) v = -logGrad x l v := by
  unfold logGrad
  induction l with
  | nil => simp
  | cons t l ih => rw [List.map_cons, List.map_cons, List.sum_cons, ih, List.map_cons, List.sum_cons]; ring

theorem canonical_negate {l : PyDict (HV V ℝ) ℝ} (h : TermsCanonical l) : TermsCanonical (l.map (fun t => (t.1, -t.2))) := by
  refine ⟨?_, ?_⟩
  · intro t ht
    obtain ⟨u, hu, rfl⟩ := List.mem_map.1 ht
    exact ⟨(h.1 u hu).1, neg_ne_zero.2 (h.1 u hu).2⟩
  · rw [List.pairwise_map]; exact h.2

theorem canonical_filter {l : PyDict (HV V ℝ) ℝ} (h : TermsCanonical l) (p : HV V ℝ × ℝ → Bool) : TermsCanonical (l.filter p) :=
  ⟨fun t ht => h.1 t (List.mem_of_mem_filter ht), h.2.sublist List.filter_sublist⟩

/-- `(times, derivative)` for the terms with the free part `e` -/
noncomputable def classTimes (vs : List V) (ne : HV V ℝ) (h : PyDict (HV V ℝ) ℝ) (v : V) (e : HV V ℝ) : ℝ :=
  seenTimes (h.filter (denom vs ne)) (h.filter (denom vs e)) v

/-- the logarithmic derivative of the terms with free part `e` over the denominator -/
noncomputable def classGrad (vs : List V) (ne : HV V ℝ) (h : PyDict (HV V ℝ) ℝ) (x : V → ℝ) (v : V) (e : HV V ℝ) : ℝ :=
  logGrad x (h.filter (denom vs e)) v / termsVal x (h.filter (denom vs e)) - logGrad x (h.filter (denom vs ne)) v / termsVal x (h.filter (denom vs ne))

theorem get?_sub_ne {a b : HV V ℝ} {v : V} (h : (a.sub b).get? v ≠ none) : a.get? v ≠ none ∨ b.get? v ≠ none := by
  by_contra hn
  push Not at hn
  obtain ⟨h1, h2⟩ := hn
  apply h
  unfold HV.sub HV.add HV.scale HV.get? at *
  simp only at *
  rw [get?_eq_none_iff]
  refine dictAdd_keys (P := fun k => (k == v) = false) (fun p hp => (get?_eq_none_iff.1 h1) p hp) ?_
  intro p hp
  obtain ⟨q, hq, rfl⟩ := List.mem_map.1 hp
  exact (get?_eq_none_iff.1 h2) q hq

section
variable {h : PyDict (HV V ℝ) ℝ} {fixed : PyDict V ℝ} {m : SigMemo V ℝ} {posy : PyDict (HV V ℝ) ℝ} {ne : HV V ℝ} {nc : ℝ}

/-- a value that does not vanish has a term, and every term of a class has the free part of that class -/
theorem class_inMap {vs : List V} {e : HV V ℝ} {x : V → ℝ} (hw : ∀ t ∈ h, WF t.1.items) (hval : termsVal x (h.filter (denom vs e)) ≠ 0) {v : V} (hv : e.get? v ≠ none) :
    InMap (h.filter (denom vs e)) v := by
  have : h.filter (denom vs e) ≠ [] := by intro h0; rw [h0] at hval; simp [termsVal] at hval
  obtain ⟨t, ht⟩ := List.exists_mem_of_ne_nil _ this
  refine ⟨t, ht, ?_⟩
  obtain ⟨ht1, ht2⟩ := List.mem_filter.1 ht
  have h1 : (strip vs t.1 == e) = true := ht2
  rw [← hv_get?_congr (strip_wf (hw t ht1) _) h1, strip_get?] at hv
  split_ifs at hv
  · exact absurd rfl hv
  · exact hv

theorem SigKept.monVal_eq (hk : SigKept h fixed m posy ne nc) {x : V → ℝ} (hx : ∀ v, 0 < x v) (hxf : ∀ v c, fixed.get? v = some c → x v = c)
    {u : HV V ℝ × ℝ} (hu : u ∈ posy) :
    u.2 / nc * monVal x (u.1.sub ne).items = termsVal x (h.filter (denom (varlocKeys h fixed) u.1)) / -termsVal x (h.filter (denom (varlocKeys h fixed) ne)) := by
  rw [← (hk.posyval u hu).2 x hxf, ← hk.negval.2 x hxf, monVal_sub hx]
  have := (monVal_pos hx ne.items).ne'
  have := hk.negval.1.ne'
  field_simp

theorem SigKept.report (hk : SigKept h fixed m posy ne nc) (hc : TermsCanonical h) {x : V → ℝ} (hx : ∀ v, 0 < x v)
    (hxf : ∀ v c, fixed.get? v = some c → x v = c) {vals : PyDict V ℝ} (hv : Solved vals x (InMap h)) {ord : Orders V ℝ} (ho : ord.Valid)
    {setord : List V → List V} (hso : ∀ l, (setord l).Perm l) {nu : List ℝ} (hnu : nu.length ≤ m.mons.length) :
    ∃ out, sigSens ord setord vals m nu = .ok out ∧ ∀ v, sensAt out v =
      ((posy.zip nu).map (fun un => un.2 * (classTimes (varlocKeys h fixed) ne h v un.1.1 * classGrad (varlocKeys h fixed) ne h x v un.1.1))).sum := by
  have hw : ∀ t ∈ h, WF t.1.items := fun t ht => ((expCanonical_iff _).1 (hc.1 t ht).1).1
  set vs := varlocKeys h fixed with hvs
  have hD : 0 < -termsVal x (h.filter (denom vs ne)) := by
    rw [← hk.negval.2 x hxf]
    exact mul_pos hk.negval.1 (monVal_pos hx _)
  have hN : ∀ u ∈ posy, 0 < termsVal x (h.filter (denom vs u.1)) := by
    intro u hu
    rw [← (hk.posyval u hu).2 x hxf]
    exact mul_pos (hk.posyval u hu).1 (monVal_pos hx _)
  have hnegval : termsVal x m.negysig = -termsVal x (h.filter (denom vs ne)) := by rw [hk.neg, termsVal_negate]
  have hnegc : TermsCanonical m.negysig := by rw [hk.neg]; exact canonical_negate (canonical_filter hc _)
  have hneg0 : m.negysig ≠ [] := by intro h0; rw [h0] at hnegval; rw [← hnegval] at hD; simp [termsVal] at hD
  have hsn : ∀ p : V → Prop, (∀ v, p v → InMap h v) → Solved vals x p := fun p hp => ⟨fun v h => hv.has v (hp v h), hv.agrees, hv.pos⟩
  have hnegin : ∀ v, InMap m.negysig v ↔ InMap (h.filter (denom vs ne)) v := by intro v; rw [hk.neg]; exact inMap_neg
  have hloop : ∀ (ps : PyDict (HV V ℝ) ℝ) (nu : List ℝ) (acc : PyDict V ℝ), (∀ u ∈ ps, u ∈ posy) →
      ∃ out, ((ps.map (fun t => (t.1.sub ne, t.2 / nc))).zip nu).foldlM (sigSensMon ord setord vals m (1 / termsVal x m.negysig)) acc = .ok out ∧
        ∀ v, sensAt out v = sensAt acc v + ((ps.zip nu).map (fun un => un.2 * (classTimes vs ne h v un.1.1 * classGrad vs ne h x v un.1.1))).sum := by
    intro ps
    induction ps with
    | nil => intro nu acc _; exact ⟨acc, rfl, fun v => by simp⟩
    | cons u ps ih =>
      intro nu acc hps
      cases nu with
      | nil => exact ⟨acc, rfl, fun v => by simp⟩
      | cons n nu =>
        have hu := hps u List.mem_cons_self
        have hNu := hN u hu
        have hmv : termsVal x [(u.1.sub ne, u.2 / nc)] = termsVal x (h.filter (denom vs u.1)) / -termsVal x (h.filter (denom vs ne)) := by
          rw [← hk.monVal_eq hx hxf hu]; simp [termsVal]
        have hmc : TermsCanonical [(u.1.sub ne, u.2 / nc)] := by
          refine ⟨?_, by simp⟩
          intro t ht
          rw [List.mem_singleton.1 ht]
          exact ⟨HV.sub_canonical (hk.posycan.1 u hu).1 hk.necan, div_ne_zero (hk.posyval u hu).1.ne' hk.negval.1.ne'⟩
        obtain ⟨a1, h1, h2⟩ := sigSensMon_ok ho hso (vals := vals) (x := x) (m := m) (mn := ((u.1.sub ne, u.2 / nc), n)) (hk.co u hu)
          (hsn _ (by
            rintro v (h3 | h3)
            · exact inMap_filter ((hnegin v).1 h3)
            · exact inMap_filter h3))
          (hsn _ (by
            rintro v ⟨t, ht, h3⟩
            rw [List.mem_singleton.1 ht] at h3
            rcases get?_sub_ne h3 with h4 | h4
            · exact inMap_filter (class_inMap hw hNu.ne' h4)
            · exact inMap_filter (class_inMap (vs := vs) (e := ne) (x := x) hw (by linarith) h4)))
          hnegc (canonical_filter hc _) hmc (by intro h0; rw [hvs] at hNu; rw [h0] at hNu; simp [termsVal] at hNu)
          (by simp only; rw [hmv]; exact (div_pos hNu hD).ne') acc
        obtain ⟨a2, h3, h4⟩ := ih nu a1 (fun q hq => hps q (List.mem_cons_of_mem _ hq))
        refine ⟨a2, ?_, ?_⟩
        · rw [List.map_cons, List.zip_cons_cons, List.foldlM_cons, h1]; exact h3
        · intro v
          rw [h4, h2, List.zip_cons_cons, List.map_cons, List.sum_cons, add_assoc]
          congr 2
          simp only
          unfold classTimes classGrad
          have ht : seenTimes m.negysig (h.filter (denom vs u.1)) v = seenTimes (h.filter (denom vs ne)) (h.filter (denom vs u.1)) v := by
            unfold seenTimes; rw [propext (hnegin v)]
          rw [← hvs, ht, mul_comm n, mul_assoc]
          congr 1
          unfold passVal
          rw [hmv, hnegval]
          rw [hk.neg, logGrad_negate]
          have := hD.ne'
          have := hNu.ne'
          have : termsVal x (h.filter (denom vs ne)) ≠ 0 := by linarith
          rw [← hvs]
          field_simp
          ring
  obtain ⟨out, h1, h2⟩ := hloop posy nu [] (fun u hu => hu)
  refine ⟨out, ?_, ?_⟩
  · unfold sigSens invPy
    rw [subval_ok ho (hsn _ (fun v h3 => inMap_filter ((hnegin v).1 h3))) hnegc hneg0]
    simp only [bind, Except.bind]
    rw [if_neg (by rw [hnegval]; exact hD.ne')]
    simp only
    rw [hk.mons] at hnu ⊢
    rw [h1]
    simp only
    rw [if_neg (by omega)]
    rfl
  · intro v
    rw [h2]; simp [sensAt]

theorem log_ratio_hasDerivAt {A B : PyDict (HV V ℝ) ℝ} (hA : ∀ t ∈ A, WF t.1.items) (hB : ∀ t ∈ B, WF t.1.items) {x : V → ℝ} {v : V} (hv : 0 < x v)
    (hA0 : 0 < termsVal x A) (hB0 : termsVal x B < 0) :
    HasDerivAt (fun s => Real.log (termsVal (Function.update x v (Real.exp s)) A / -termsVal (Function.update x v (Real.exp s)) B))
      (logGrad x A v / termsVal x A - logGrad x B v / termsVal x B) (Real.log (x v)) := by
  have hx : Real.exp (Real.log (x v)) = x v := Real.exp_log hv
  have dA := termsVal_hasDerivAt hv hA
  have dB := termsVal_hasDerivAt hv hB
  rw [← hx] at dA dB
  have eA := dA.comp (Real.log (x v)) (Real.hasDerivAt_exp _)
  have eB := (dB.comp (Real.log (x v)) (Real.hasDerivAt_exp _)).neg
  have hu : Function.update x v (Real.exp (Real.log (x v))) = x := by rw [hx, Function.update_eq_self]
  have hB1 : -termsVal x B ≠ 0 := by linarith
  have hd := eA.div eB (by simp only [Function.comp, Pi.neg_apply, hu]; exact hB1)
  have hl := hd.log (by
    simp only [Function.comp, hu, Pi.div_apply, Pi.neg_apply]
    exact (div_pos hA0 (by linarith)).ne')
  refine hl.congr_deriv ?_
  simp only [Function.comp, hu, Pi.div_apply, Pi.neg_apply]
  rw [← val_diff_eq hv hA, ← val_diff_eq hv hB, hx]
  have : termsVal x B ≠ 0 := by linarith
  field_simp
  ring

end

/-- C53, what is reported, for every assignment of multipliers to the terms of the form: the right derivative of each term, times its multiplier, times the
number of times that the variable is gone through. That is twice where a variable is in the denominator and also in the terms that were merged into this one.
The monomials have the values `N_e / D` of the classes of terms with the same free part. -/
theorem C53_counted {feastol : ℝ} {h : PyDict (HV V ℝ) ℝ} (hc : TermsCanonical h) (hne : h ≠ []) {fixed : PyDict V ℝ}
    (hfix : ∀ v c, fixed.get? v = some c → 0 < c) {r1 r2 : List (V × List (HV V ℝ))} (ho1 : SetOrder (varlocs h fixed) r1)
    (ho2 : SetOrder (varlocs h fixed) r2) (hlate : MergesLate h (varlocKeys h fixed)) {ord : Orders V ℝ} (ho : ord.Valid) {fs : List (PyDict (HV V ℝ) ℝ)}
    {m : SigMemo V ℝ} (hf : sigForm feastol h fixed r1 r2 ord = .ok (.forms fs m)) {x : V → ℝ} (hx : ∀ v, 0 < x v)
    (hxf : ∀ v c, fixed.get? v = some c → x v = c) {vals : PyDict V ℝ} (hv : Solved vals x (InMap h)) {setord : List V → List V}
    (hso : ∀ l, (setord l).Perm l) {nu : List ℝ} (hnu : nu.length ≤ m.mons.length) :
    ∃ (es : List (HV V ℝ)) (ne : HV V ℝ) (out : PyDict V ℝ) (d : V → HV V ℝ → ℝ),
      m.mons.map (fun t => t.2 * monVal x t.1.items) = es.map (fun e => termsVal x (h.filter (denom (varlocKeys h fixed) e)) /
        -termsVal x (h.filter (denom (varlocKeys h fixed) ne))) ∧
      sigSens ord setord vals m nu = .ok out ∧
      ∀ v, (∀ e ∈ es, HasDerivAt (fun s => Real.log (termsVal (Function.update x v (Real.exp s)) (h.filter (denom (varlocKeys h fixed) e)) /
          -termsVal (Function.update x v (Real.exp s)) (h.filter (denom (varlocKeys h fixed) ne)))) (d v e) (Real.log (x v))) ∧
        sensAt out v = ((es.zip nu).map (fun en => en.2 *
          (seenTimes (h.filter (denom (varlocKeys h fixed) ne)) (h.filter (denom (varlocKeys h fixed) en.1)) v * d v en.1))).sum := by
  have hw : ∀ t ∈ h, WF t.1.items := fun t ht => ((expCanonical_iff _).1 (hc.1 t ht).1).1
  obtain ⟨posy, ne, nc, hk⟩ := kept_of_form hc hne hfix ho1 ho2 hlate hf
  obtain ⟨out, h1, h2⟩ := hk.report hc hx hxf hv ho hso hnu
  refine ⟨posy.map (·.1), ne, out, fun v e => classGrad (varlocKeys h fixed) ne h x v e, ?_, h1, ?_⟩
  · rw [hk.mons, List.map_map, List.map_map]
    apply List.map_congr_left
    intro u hu
    exact hk.monVal_eq hx hxf hu
  · intro v
    refine ⟨?_, ?_⟩
    · intro e he
      obtain ⟨u, hu, rfl⟩ := List.mem_map.1 he
      refine log_ratio_hasDerivAt (fun t ht => hw t (List.mem_of_mem_filter ht)) (fun t ht => hw t (List.mem_of_mem_filter ht)) (hx v) ?_ ?_
      · rw [← (hk.posyval u hu).2 x hxf]
        exact mul_pos (hk.posyval u hu).1 (monVal_pos hx _)
      · have := hk.negval.2 x hxf
        have := mul_pos hk.negval.1 (monVal_pos hx ne.items)
        linarith
    · rw [h2 v]
      have : (posy.map (·.1)).zip nu = (posy.zip nu).map (fun un => (un.1.1, un.2)) := by
        rw [← List.map_id nu, List.zip_map]
        simp [Prod.map]
      rw [this, List.map_map]
      rfl

theorem sum_ite_filter {α : Type} (p : α → Bool) (c : ℝ) (l : List α) : (l.map (fun u => if p u = true then c else 0)).sum = ((l.filter p).map (fun _ => c)).sum := by
  induction l with
  | nil => rfl
  | cons q l ih =>
    rw [List.map_cons, List.sum_cons, ih, List.filter_cons]
    by_cases hb : p q <;> simp [hb]

/-- Sums over the classes of terms, when all terms are in one of them. -/
theorem class_sum {h posy : PyDict (HV V ℝ) ℝ} (vs : List V) (ne : HV V ℝ) (hwf : WF posy) (hap : ∀ u ∈ posy, (u.1 == ne) = false) (f : HV V ℝ × ℝ → ℝ)
    (hall : ∀ t ∈ h, denom vs ne t = true ∨ ∃ u ∈ posy, denom vs u.1 t = true) :
    (posy.map (fun u => ((h.filter (denom vs u.1)).map f).sum)).sum = ((h.filter (fun t => !denom vs ne t)).map f).sum := by
  induction h with
  | nil => simp
  | cons t h ih =>
    have ih := ih (fun q hq => hall q (List.mem_cons_of_mem _ hq))
    have hsplit : ∀ (p : HV V ℝ × ℝ → Bool), (((t :: h).filter p).map f).sum = (if p t then f t else 0) + ((h.filter p).map f).sum := by
      intro p
      rw [List.filter_cons]
      by_cases hp : p t <;> simp [hp]
    simp only [hsplit]
    rw [List.sum_map_add, ih]
    congr 1
    rcases hall t List.mem_cons_self with h1 | ⟨u, hu, h1⟩
    · rw [h1]
      simp only [Bool.not_true, Bool.false_eq_true, if_false]
      apply List.sum_eq_zero
      intro y hy
      obtain ⟨u, hu, rfl⟩ := List.mem_map.1 hy
      have : denom vs u.1 t = false := by
        by_contra hb
        simp only [Bool.not_eq_false] at hb
        have h2 : (strip vs t.1 == ne) = true := h1
        have h3 : (strip vs t.1 == u.1) = true := hb
        have := hap u hu
        rw [BEq.trans (BEq.symm h3) h2] at this; cases this
      simp [this]
    · have hn : denom vs ne t = false := by
        by_contra hb
        simp only [Bool.not_eq_false] at hb
        have h2 : (strip vs t.1 == ne) = true := hb
        have h3 : (strip vs t.1 == u.1) = true := h1
        have := hap u hu
        rw [BEq.trans (BEq.symm h3) h2] at this; cases this
      rw [hn]
      simp only [Bool.not_false, if_true]
      have h3 : (strip vs t.1 == u.1) = true := h1
      have hg : PyDict.get? posy (strip vs t.1) = some u.2 := by
        rw [get?_congr _ h3]; exact get?_of_mem hwf hu
      obtain ⟨u', hfil, _, _⟩ := filter_key hwf hg
      have : (posy.map (fun u => if denom vs u.1 t = true then f t else 0)).sum = ((posy.filter (fun u => strip vs t.1 == u.1)).map (fun _ => f t)).sum :=
        sum_ite_filter _ _ posy
      rw [this, hfil]
      simp

theorem sigVal_hasDerivAt {den : HV V ℝ × ℝ → Bool} {h : PyDict (HV V ℝ) ℝ} (hw : ∀ t ∈ h, WF t.1.items) {x : V → ℝ} {v : V} (hx : 0 < x v)
    (hD : termsVal x (h.filter den) ≠ 0) :
    HasDerivAt (fun s => sigVal den (Function.update x v (Real.exp s)) h)
      ((logGrad x (h.filter (fun t => !den t)) v * -termsVal x (h.filter den) + termsVal x (h.filter (fun t => !den t)) * logGrad x (h.filter den) v) /
        (termsVal x (h.filter den)) ^ 2) (Real.log (x v)) := by
  have hA : ∀ t ∈ h.filter (fun t => !den t), WF t.1.items := fun t ht => hw t (List.mem_of_mem_filter ht)
  have hB : ∀ t ∈ h.filter den, WF t.1.items := fun t ht => hw t (List.mem_of_mem_filter ht)
  have hxe : Real.exp (Real.log (x v)) = x v := Real.exp_log hx
  have dA := termsVal_hasDerivAt hx hA
  have dB := termsVal_hasDerivAt hx hB
  rw [← hxe] at dA dB
  have eA := dA.comp (Real.log (x v)) (Real.hasDerivAt_exp _)
  have eB := (dB.comp (Real.log (x v)) (Real.hasDerivAt_exp _)).neg
  have hu : Function.update x v (Real.exp (Real.log (x v))) = x := by rw [hxe, Function.update_eq_self]
  have hB1 : -termsVal x (h.filter den) ≠ 0 := neg_ne_zero.2 hD
  have hd := eA.div eB (by simp only [Function.comp, Pi.neg_apply, hu]; exact hB1)
  refine hd.congr_deriv ?_
  simp only [Function.comp, hu, Pi.neg_apply]
  rw [← val_diff_eq hx hA, ← val_diff_eq hx hB, hxe]
  ring

/-- C53 when no variable is counted twice and no terms cancelled: with the multipliers that belong to a multiplier `la` of the form, what is reported is `la` times the derivative of
`N / D`, the left-hand side of the constraint written as `N / D <= 1`, of which the monomials handed to the solver are the terms.
Missing: variables that are in the denominator and also in some terms merged with a term of `N` (`C53_twice_fails`); terms that cancelled (`C53_cancelled_fails`). -/
theorem C53_once_partial {feastol : ℝ} {h : PyDict (HV V ℝ) ℝ} (hc : TermsCanonical h) (hne : h ≠ []) {fixed : PyDict V ℝ}
    (hfix : ∀ v c, fixed.get? v = some c → 0 < c) {r1 r2 : List (V × List (HV V ℝ))} (ho1 : SetOrder (varlocs h fixed) r1)
    (ho2 : SetOrder (varlocs h fixed) r2) (hlate : MergesLate h (varlocKeys h fixed)) {ord : Orders V ℝ} (ho : ord.Valid) {fs : List (PyDict (HV V ℝ) ℝ)}
    {m : SigMemo V ℝ} (hf : sigForm feastol h fixed r1 r2 ord = .ok (.forms fs m)) {x : V → ℝ} (hx : ∀ v, 0 < x v)
    (hxf : ∀ v c, fixed.get? v = some c → x v = c) {vals : PyDict V ℝ} (hv : Solved vals x (InMap h)) {setord : List V → List V}
    (hso : ∀ l, (setord l).Perm l) (la : ℝ)
    (hcancel : ∀ t ∈ h, termsVal x (h.filter (fun s => strip (varlocKeys h fixed) s.1 == strip (varlocKeys h fixed) t.1)) ≠ 0) :
    ∃ (den : HV V ℝ × ℝ → Bool) (out : PyDict V ℝ),
      termsVal x m.mons = sigVal den x h ∧ (sigVal den x h ≤ 1 ↔ termsVal x h ≤ 0) ∧
      sigSens ord setord vals m (termDuals la x m.mons) = .ok out ∧
      ∀ v, (∀ s ∈ h, ∀ t ∈ h, den s = true → den t = false → s.1.get? v = none ∨ t.1.get? v = none) →
        ∃ d, HasDerivAt (fun s => sigVal den (Function.update x v (Real.exp s)) h) d (Real.log (x v)) ∧ sensAt out v = la * d := by
  have hw : ∀ t ∈ h, WF t.1.items := fun t ht => ((expCanonical_iff _).1 (hc.1 t ht).1).1
  obtain ⟨posy, ne, nc, hk⟩ := kept_of_form hc hne hfix ho1 ho2 hlate hf
  obtain ⟨out, h1, h2⟩ := hk.report hc hx hxf hv ho hso (nu := termDuals la x m.mons) (by simp [termDuals])
  set vs := varlocKeys h fixed with hvs
  have hall : ∀ t ∈ h, denom vs ne t = true ∨ ∃ u ∈ posy, denom vs u.1 t = true := by
    intro t ht
    rcases hk.rest t ht with h3 | h3 | h3
    · exact Or.inl h3
    · exact Or.inr h3
    · exact absurd (h3 x hxf) (hcancel t ht)
  have hpwf : WF posy := ((termsCanonical_iff _).1 hk.posycan).1
  have hD : termsVal x (h.filter (denom vs ne)) < 0 := by
    have := hk.negval.2 x hxf
    have := mul_pos hk.negval.1 (monVal_pos hx ne.items)
    linarith
  have hN : ∀ u ∈ posy, 0 < termsVal x (h.filter (denom vs u.1)) := by
    intro u hu
    rw [← (hk.posyval u hu).2 x hxf]
    exact mul_pos (hk.posyval u hu).1 (monVal_pos hx _)
  have hsum : ∀ f : HV V ℝ × ℝ → ℝ, (posy.map (fun u => ((h.filter (denom vs u.1)).map f).sum)).sum = ((h.filter (fun t => !denom vs ne t)).map f).sum :=
    fun f => class_sum vs ne hpwf hk.apart f hall
  refine ⟨denom vs ne, out, ?_, sigVal_le_one hD, h1, ?_⟩
  · have h3 := hsum (fun t => t.2 * monVal x t.1.items)
    unfold sigVal
    unfold termsVal at h3 ⊢
    rw [← h3, hk.mons, div_eq_mul_inv, ← List.sum_map_mul_right, List.map_map]
    congr 1
    apply List.map_congr_left
    intro u hu
    have := hk.monVal_eq hx hxf hu
    unfold termsVal at this
    rw [div_eq_mul_inv] at this
    exact this
  · intro v honce
    have hA : ∀ t ∈ h.filter (fun t => !denom vs ne t), WF t.1.items := fun t ht => hw t (List.mem_of_mem_filter ht)
    have hB : ∀ t ∈ h.filter (denom vs ne), WF t.1.items := fun t ht => hw t (List.mem_of_mem_filter ht)
    set A := h.filter (fun t => !denom vs ne t) with hAdef
    set B := h.filter (denom vs ne) with hBdef
    refine ⟨(logGrad x A v * -termsVal x B + termsVal x A * logGrad x B v) / (termsVal x B) ^ 2, ?_, ?_⟩
    · exact sigVal_hasDerivAt hw (hx v) hD.ne
    · have hnuz : posy.zip (termDuals la x m.mons) = posy.map (fun u => (u, la * (termsVal x (h.filter (denom vs u.1)) / -termsVal x B))) := by
        unfold termDuals
        rw [hk.mons, List.map_map, List.zip_map_right]
        have : posy.zip posy = posy.map (fun u => (u, u)) := by
          have : ∀ l : PyDict (HV V ℝ) ℝ, l.zip l = l.map (fun u => (u, u)) := by
            intro l
            induction l with
            | nil => rfl
            | cons a l ih => rw [List.zip_cons_cons, ih]; rfl
          exact this posy
        rw [this, List.map_map]
        apply List.map_congr_left
        intro u hu
        simp only [Function.comp, Prod.map, id]
        rw [hk.monVal_eq hx hxf hu]
      rw [h2 v, hnuz, List.map_map]
      have hterm : ∀ u ∈ posy, ((fun un : (HV V ℝ × ℝ) × ℝ => un.2 * (classTimes vs ne h v un.1.1 * classGrad vs ne h x v un.1.1)) ∘
          fun u => (u, la * (termsVal x (h.filter (denom vs u.1)) / -termsVal x B))) u =
          la * (logGrad x (h.filter (denom vs u.1)) v / -termsVal x B + termsVal x (h.filter (denom vs u.1)) * (logGrad x B v / (termsVal x B) ^ 2)) := by
        intro u hu
        simp only [Function.comp]
        have hN' := (hN u hu).ne'
        have hD' := hD.ne
        have hzero : ∀ l : PyDict (HV V ℝ) ℝ, ¬ InMap l v → logGrad x l v = 0 := by
          intro l hl
          unfold logGrad
          apply List.sum_eq_zero
          intro y hy
          obtain ⟨t, ht, rfl⟩ := List.mem_map.1 hy
          have : t.1.get? v = none := by
            by_contra h5
            exact hl ⟨t, ht, h5⟩
          unfold expo; rw [this]; simp
        have hgrad : la * (termsVal x (h.filter (denom vs u.1)) / -termsVal x B) * classGrad vs ne h x v u.1 =
            la * (logGrad x (h.filter (denom vs u.1)) v / -termsVal x B + termsVal x (h.filter (denom vs u.1)) * (logGrad x B v / (termsVal x B) ^ 2)) := by
          unfold classGrad
          rw [← hBdef]
          field_simp
          ring
        rw [← hgrad]
        have hone : classTimes vs ne h v u.1 * classGrad vs ne h x v u.1 = classGrad vs ne h x v u.1 := by
          unfold classTimes seenTimes
          by_cases hb : InMap B v
          · have hnb : ¬ InMap (h.filter (denom vs u.1)) v := by
              rintro ⟨t, ht, h5⟩
              obtain ⟨s, hs, h6⟩ := hb
              obtain ⟨hs1, hs2⟩ := List.mem_filter.1 hs
              obtain ⟨ht1, ht2⟩ := List.mem_filter.1 ht
              have ht3 : denom vs ne t = false := by
                by_contra h7
                simp only [Bool.not_eq_false] at h7
                have h8 : (strip vs t.1 == ne) = true := h7
                have h9 : (strip vs t.1 == u.1) = true := ht2
                have := hk.apart u hu
                rw [BEq.trans (BEq.symm h9) h8] at this; cases this
              rcases honce s hs1 t ht1 hs2 ht3 with h7 | h7
              · exact h6 h7
              · exact h5 h7
            rw [← hBdef, if_pos hb, if_neg hnb]; ring
          · by_cases hnb : InMap (h.filter (denom vs u.1)) v
            · rw [← hBdef, if_neg hb, if_pos hnb]; ring
            · unfold classGrad
              rw [← hBdef, hzero _ hb, hzero _ hnb]; ring
        rw [hone]
      rw [List.map_congr_left hterm, List.sum_map_mul_left, List.sum_map_add]
      have e1 : (posy.map (fun u => logGrad x (h.filter (denom vs u.1)) v / -termsVal x B)).sum = logGrad x A v / -termsVal x B := by
        have := hsum (fun t => t.2 * monVal x t.1.items * expo t.1 v)
        unfold logGrad
        rw [← this, div_eq_mul_inv, ← List.sum_map_mul_right]
        simp only [div_eq_mul_inv]
      have e2 : (posy.map (fun u => termsVal x (h.filter (denom vs u.1)) * (logGrad x B v / (termsVal x B) ^ 2))).sum = termsVal x A * (logGrad x B v / (termsVal x B) ^ 2) := by
        have := hsum (fun t => t.2 * monVal x t.1.items)
        unfold termsVal at this ⊢
        rw [← this, ← List.sum_map_mul_right]
      rw [e1, e2]
      have hD' := hD.ne
      field_simp

/-! ## Cases -/

/-- `1 + b*y + y <= a*x` with `a` and `b` fixed meets the hypotheses. -/
example : let h : PyDict (HV ℕ ℝ) ℝ := [(⟨[]⟩, 1), (⟨[(0, 1), (3, 1)]⟩, 1), (⟨[(0, 1)]⟩, 1), (⟨[(1, 1), (2, 1)]⟩, -1)]
    let fixed : PyDict ℕ ℝ := [(2, 3), (3, 1)]
    ∃ fs m, TermsCanonical h ∧ SetOrder (varlocs h fixed) (varlocs h fixed) ∧ MergesLate h (varlocKeys h fixed) ∧
      sigForm 0 h fixed (varlocs h fixed) (varlocs h fixed) varlocs = .ok (.forms fs m) := by
  intro h fixed
  refine ⟨[[(⟨[(1, -1)]⟩, 1 / 3), (⟨[(0, 1), (1, -1)]⟩, 2 / 3)]],
    ⟨[(⟨[(1, -1)]⟩, 1 / 3), (⟨[(0, 1), (1, -1)]⟩, 2 / 3)], [(⟨[(1, 1), (2, 1)]⟩, 1)],
      [(⟨[(1, -1)]⟩, [(⟨[]⟩, 1)]), (⟨[(0, 1), (1, -1)]⟩, [(⟨[(0, 1), (3, 1)]⟩, 1), (⟨[(0, 1)]⟩, 1)])]⟩, ?_, ?_, ?_, ?_⟩
  · simp only [h, TermsCanonical, ExpCanonical, ← List.isPerm_iff]
    norm_num [List.isPerm]
    refine ⟨⟨?_, ?_⟩, by simp, by simp⟩ <;> rintro a b (⟨_, rfl⟩ | ⟨_, rfl⟩) <;> norm_num
  · exact List.forall₂_same.2 (fun _ _ => ⟨rfl, List.Perm.refl _⟩)
  · have h1 : varlocKeys h fixed = [3, 2] := by simp [h, fixed, varlocKeys, PyDict.keys, PyDict.contains, PyDict.get?]
    rw [h1]
    intro t1 ht1 t2 _ _ done v later hvs _ hv w hw
    have hd : done = [] ∧ v = 3 ∧ later = [2] := by
      cases done with
      | nil => simpa [eq_comm] using hvs
      | cons a done =>
        exfalso
        have h2 := congrArg List.length hvs
        have hl : 0 < later.length := List.length_pos_of_mem hw
        simp only [List.length_append, List.length_cons, List.length_nil] at h2
        omega
    obtain ⟨rfl, rfl, rfl⟩ := hd
    rw [List.mem_singleton.1 hw]
    simp only [h, List.mem_cons, List.not_mem_nil, or_false] at ht1
    rcases ht1 with rfl | rfl | rfl | rfl <;> simp [HV.get?, PyDict.get?] at hv ⊢
  · norm_num [h, fixed, sigForm, sigInner, splitStep, Nomial.posyNegyStep, renameTerms, renameStep, HV.sub, HV.add, HV.scale, dictAdd, dictAddStep, formStep, noteConst,
      checkForm, simplifyPosyIneq, mmap, mmapStep, dictScale, pyIndex, subState, subRound, subinplace, subInit, csUpdate, subAdd,
      varlocs, varlocKeys, PyDict.get?, PyDict.set, PyDict.del, PyDict.contains, PyDict.keys, HV.get?, HV.del, HV.empty, pwDom, pw_real, HV.beq_def, bind, pure,
      Except.bind, Except.pure, List.foldlM, List.isPerm, List.findIdx?_cons, List.modify_succ_cons]

/-! ## Findings -/

/-- `1 + a**2*y <= a*x` as `1 + a**2*y - a*x <= 0`, with `a` = 0, `x` = 1, `y` = 2 -/
def twiceTerms (K : Type) [Field K] : PyDict (HV ℕ K) K := [(⟨[]⟩, 1), (⟨[(0, 2), (2, 1)]⟩, 1), (⟨[(0, 1), (1, 1)]⟩, -1)]

/-- `1 + (a - b)*y <= x`, with `a` = 0, `b` = 1, `x` = 2, `y` = 3 -/
def cancelTerms (K : Type) [Field K] : PyDict (HV ℕ K) K := [(⟨[]⟩, 1), (⟨[(0, 1), (3, 1)]⟩, 1), (⟨[(1, 1), (3, 1)]⟩, -1), (⟨[(2, 1)]⟩, -1)]

/-- what is reported for a signomial inequality at a solution -/
def sigReport (h : PyDict (HV ℕ ℚ) ℚ) (fixed vals : PyDict ℕ ℚ) (nu : List ℚ) : Option (PyDict ℕ ℚ) :=
  match sigForm 0 h fixed (varlocs h fixed) (varlocs h fixed) varlocs with
  | .ok (.forms _ m) =>
    match sigSens varlocs id vals m nu with
    | .ok out => some out
    | .error _ => none
  | _ => none

/-- C53 is violated: for `1 + a**2*y <= a*x` with `a = 1`, at `x = 2` and `y = 1` (where both terms of the form are 1/2 and have multiplier 1/2), the sensitivity of `a` is reported
as 1/2. The derivative of the form is 0. -/
theorem C53_twice_fails :
    (sigReport (twiceTerms ℚ) [(0, 1)] [(0, 1), (1, 2), (2, 1)] [1 / 2, 1 / 2]).map (fun o => o.get? 0) = some (some (1 / 2)) ∧
    sigVal (fun t => decide (t.2 < 0)) (fun v => if v = 1 then 2 else 1) (twiceTerms ℝ) = 1 ∧
    HasDerivAt (fun s => sigVal (fun t => decide (t.2 < 0)) (Function.update (fun v => if v = 1 then 2 else 1) 0 (Real.exp s)) (twiceTerms ℝ)) 0 (Real.log 1) := by
  refine ⟨by decide +kernel, ?_, ?_⟩
  · norm_num [sigVal, twiceTerms, termsVal, monVal]
  · have h1 := sigVal_hasDerivAt (den := fun t : HV ℕ ℝ × ℝ => decide (t.2 < 0)) (h := twiceTerms ℝ) (x := fun v => if v = 1 then 2 else 1) (v := 0)
      (by simp [twiceTerms, WF]) (by simp) (by norm_num [twiceTerms, termsVal, monVal])
    have h2 : (if (0 : ℕ) = 1 then (2 : ℝ) else 1) = 1 := by simp
    rw [h2] at h1
    refine h1.congr_deriv ?_
    norm_num [twiceTerms, termsVal, monVal, logGrad, expo, HV.get?, PyDict.get?]

/-- C53 is violated: for `1 + (a - b)*y <= x` with `a = b = 1`, nothing is reported for `a`. At `x = y = 1` the derivative of the form is 1. -/
theorem C53_cancelled_fails :
    (sigReport (cancelTerms ℚ) [(0, 1), (1, 1)] [(0, 1), (1, 1), (2, 1), (3, 1)] [1]).map (fun o => o.get? 0) = some none ∧
    sigVal (fun t => t.1.items.contains 2) (fun _ => 1) (cancelTerms ℝ) = 1 ∧
    HasDerivAt (fun s => sigVal (fun t => t.1.items.contains 2) (Function.update (fun _ => 1) 0 (Real.exp s)) (cancelTerms ℝ)) 1 (Real.log 1) := by
  refine ⟨by decide +kernel, ?_, ?_⟩
  · norm_num [sigVal, cancelTerms, termsVal, monVal, PyDict.contains, PyDict.get?, List.filter_cons]
  · have h1 := sigVal_hasDerivAt (den := fun t : HV ℕ ℝ × ℝ => t.1.items.contains 2) (h := cancelTerms ℝ) (x := fun _ => 1) (v := 0)
      (by simp [cancelTerms, WF]) (by simp) (by norm_num [cancelTerms, termsVal, monVal, PyDict.contains, PyDict.get?])
    refine h1.congr_deriv ?_
    norm_num [cancelTerms, termsVal, monVal, logGrad, expo, HV.get?, PyDict.contains, PyDict.get?, List.filter_cons]

end Verif
