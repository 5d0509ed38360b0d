import Verif.Props.Relax
import Verif.Model.RelaxSubs
import Verif.Lemmas.PyDict

/-! Properties of relaxed constants and of the report: C33 and C55. -/

set_option linter.unusedSectionVars false

namespace Verif
open PyDict Relax

section feasible
variable {V D : Type} [DecidableEq V] [AddCommGroup D] [DecidableEq D]

/-- A monomial with coefficient 1. -/
def mon1 (e : HV V ℝ) (u : Option (UnitQ D ℝ)) : Nomial V ℝ D := ⟨⟨[(e, 1)], u⟩, .monomial⟩

theorem mon1_le {E : Env V ℝ D} {se : Bool} {el er : HV V ℝ} {u : Option (UnitQ D ℝ)} (hel : ExpCanonical el.items) (her : ExpCanonical er.items)
    (hu : UnitOK u) (hne : el.sub er ≠ HV.empty) :
    ∃ c, leNom E se (mon1 el u) (mon1 er u) = .ok c ∧ c.Faithful ∧ ∀ pt, (∀ v, 0 < pt v) → (c.Holds pt ↔ monVal pt el.items ≤ monVal pt er.items) := by
  obtain ⟨r, hr⟩ : ∃ r, UnitCache.ratio u u = .ok r := by
    unfold UnitCache.ratio UnitQ.float UnitQ.mul UnitQ.inv
    cases u <;> simp
  obtain ⟨k, hk, hval, h⟩ := genUnsubbed_mono (se := se) (tol := E.tol) (l := (mon1 el u).hmap) (r := (mon1 er u).hmap) rfl rfl hel her one_pos one_pos
    hu hu hr
  rcases h with ⟨h, _⟩ | ⟨h, _⟩ | ⟨_, n, hn, hterms⟩
  · exact (hne h).elim
  · exact (hne h).elim
  refine ⟨⟨.posy, mon1 el u, .le, mon1 er u, [n]⟩, ?_, ?_, ?_⟩
  · unfold leNom mkPosy
    simp only [mon1] at hn ⊢
    rw [hn]; rfl
  · intro pt hpt
    simp only [List.mem_singleton, forall_eq, Con.Holds]
    rw [hterms, hval pt hpt]
    have := physVal_mono_pos (m := (mon1 er u).hmap) rfl one_pos hu hpt
    simp only [termsVal_cons, termsVal_nil, add_zero]
    exact (mul_le_iff_le_one_left this).symm
  · intro pt hpt
    simp only [Con.Holds, physVal, mon1, termsVal_cons, termsVal_nil, add_zero, one_mul]
    exact mul_le_mul_iff_of_pos_left hu

theorem sub_ne_empty {el er : HV V ℝ} (h : ∃ pt : V → ℝ, (∀ v, 0 < pt v) ∧ monVal pt el.items ≠ monVal pt er.items) : el.sub er ≠ HV.empty := by
  obtain ⟨pt, hpt, hne⟩ := h
  intro he
  have h1 := monVal_sub hpt el er
  rw [he] at h1
  apply hne
  have := monVal_pos hpt er.items
  field_simp at h1
  simpa [HV.empty, monVal] using h1.symm

/-- C33, feasible points. The constraints added for a constant can always be built, the solver gets exactly what they say, and they hold if the
relaxation is at least 1 and the freed value is within that factor of the old value. -/
theorem C33_within [Module ℝ D] {E : Env V ℝ D} {se : Bool} {relaxvar new freed : V} (_h1 : relaxvar ≠ new) (h2 : relaxvar ≠ freed) (h3 : new ≠ freed)
    (hr : E.vunits relaxvar = none) (hu : UnitOK (E.vunits new)) (hnf : E.vunits freed = E.vunits new) :
    ∃ cs, constCons E se relaxvar new freed = .ok cs ∧ (∀ c ∈ cs, c.Faithful) ∧
      ∀ pt, (∀ v, 0 < pt v) → ((∀ c ∈ cs, c.Holds pt) ↔
        1 ≤ pt relaxvar ∧ pt new / pt relaxvar ≤ pt freed ∧ pt freed ≤ pt new * pt relaxvar) := by
  obtain ⟨a, ha1, ha2, ha3⟩ := atLeastOne_ok (E := E) se hr
  have hvar : ∀ v, varNomial E.vunits v = mon1 ⟨[(v, 1)]⟩ (E.vunits v) := fun v => rfl
  have hone : ∀ v : V, (0 : ℝ) < (fun _ => 1) v := fun _ => one_pos
  have hexp : ∀ v (x : ℝ), x ≠ 0 → ExpCanonical ([(v, x)] : List (V × ℝ)) := by intro v x hx; simp [ExpCanonical, hx]
  have hm1 : ∀ l : List (V × ℝ), monVal (fun _ : V => (1 : ℝ)) l = 1 := by intro l; unfold monVal; simp
  have hval : ∀ (pt : V → ℝ) v x, monVal pt [(v, x)] = pt v ^ x := by intro pt v x; simp [monVal]
  -- the quotient
  have hdiv : PyVal.div se (.nom (varNomial E.vunits new)) (.nom (varNomial E.vunits relaxvar)) =
      .ok (.nom (mon1 ((⟨[(new, 1)]⟩ : HV V ℝ).add ⟨[(relaxvar, -1)]⟩) (E.vunits new))) := by
    have hp : (varNomial E.vunits relaxvar).monoPow se (-1) = .ok (mon1 ⟨[(relaxvar, -1)]⟩ none) := by
      unfold Nomial.monoPow varNomial
      simp only [hr]
      rw [if_pos (by norm_num), if_pos (by norm_num)]
      simp [mkSig, NMap.anyNonpositive, mon1, HV.scale, dictScale, pw_real]
    have hmul : (varNomial E.vunits new).mul se (mon1 ⟨[(relaxvar, -1)]⟩ none) =
        .ok (mon1 ((⟨[(new, 1)]⟩ : HV V ℝ).add ⟨[(relaxvar, -1)]⟩) (E.vunits new)) := by
      unfold Nomial.mul
      have e1 : (varNomial E.vunits new).hmap.terms = [(⟨[(new, 1)]⟩, 1)] := rfl
      have e2 : (mon1 (⟨[(relaxvar, -1)]⟩ : HV V ℝ) (none : Option (UnitQ D ℝ))).hmap.terms = [(⟨[(relaxvar, -1)]⟩, 1)] := rfl
      have e3 : (varNomial E.vunits new).hmap.units = E.vunits new := rfl
      have e4 : (mon1 (⟨[(relaxvar, -1)]⟩ : HV V ℝ) (none : Option (UnitQ D ℝ))).hmap.units = none := rfl
      rw [e1, e2, e3, e4, mulTerms_single _ _ (by norm_num)]
      unfold NMap.unitsOfProduct mkSig NMap.anyNonpositive mon1
      cases E.vunits new <;> simp
    show (if (varNomial E.vunits relaxvar).cls = .monomial then PyVal.rdiv se (.nom (varNomial E.vunits new)) (varNomial E.vunits relaxvar)
      else .error .typeError) = _
    rw [if_pos (show (varNomial E.vunits relaxvar).cls = .monomial from rfl)]
    unfold PyVal.rdiv
    rw [hp]
    show (PyVal.mul se (.nom (varNomial E.vunits new)) (.nom (mon1 ⟨[(relaxvar, -1)]⟩ none)) >>= _) = _
    unfold PyVal.mul
    simp only
    rw [hmul]; rfl
  -- the product
  have hprod : (varNomial E.vunits new).mul se (varNomial E.vunits relaxvar) =
      .ok (mon1 ((⟨[(new, 1)]⟩ : HV V ℝ).add ⟨[(relaxvar, 1)]⟩) (E.vunits new)) := by
    unfold Nomial.mul
    have e1 : (varNomial E.vunits new).hmap.terms = [(⟨[(new, 1)]⟩, 1)] := rfl
    have e2 : (varNomial E.vunits relaxvar).hmap.terms = [(⟨[(relaxvar, 1)]⟩, 1)] := rfl
    have e3 : (varNomial E.vunits new).hmap.units = E.vunits new := rfl
    have e4 : (varNomial E.vunits relaxvar).hmap.units = none := hr
    rw [e1, e2, e3, e4, mulTerms_single _ _ (by norm_num)]
    unfold NMap.unitsOfProduct mkSig NMap.anyNonpositive mon1
    cases E.vunits new <;> simp
  have hfvar : varNomial E.vunits freed = mon1 ⟨[(freed, 1)]⟩ (E.vunits new) := by rw [hvar, hnf]
  have hpt2 : ∀ v : V, 0 < Function.update (fun _ => (1 : ℝ)) freed 2 v := update_pos hone freed two_pos
  have hq : ∀ x : ℝ, x ≠ 0 → ExpCanonical ((⟨[(new, 1)]⟩ : HV V ℝ).add ⟨[(relaxvar, x)]⟩).items :=
    fun x hx => HV.add_canonical (hexp _ _ one_ne_zero) (hexp _ _ hx)
  have hdist : ∀ x, monVal (Function.update (fun _ => (1 : ℝ)) freed 2) ((⟨[(new, 1)]⟩ : HV V ℝ).add ⟨[(relaxvar, x)]⟩).items = 1 := by
    intro x
    rw [monVal_add hpt2, hval, hval, Function.update_of_ne h3, Function.update_of_ne h2]
    simp
  have hf2 : monVal (Function.update (fun _ => (1 : ℝ)) freed 2) [(freed, (1 : ℝ))] = 2 := by rw [hval]; simp
  obtain ⟨b, hb1, hb2, hb3⟩ := mon1_le (E := E) (se := se) (u := E.vunits new) (hq (-1) (by norm_num)) (hexp freed 1 one_ne_zero) hu
    (er := ⟨[(freed, 1)]⟩) (sub_ne_empty ⟨_, hpt2, by rw [hdist, hf2]; norm_num⟩)
  obtain ⟨c, hc1, hc2, hc3⟩ := mon1_le (E := E) (se := se) (u := E.vunits new) (el := ⟨[(freed, 1)]⟩) (hexp freed 1 one_ne_zero) (hq 1 (by norm_num)) hu
    (sub_ne_empty ⟨_, hpt2, by rw [hdist, hf2]; norm_num⟩)
  refine ⟨[a, b, c], ?_, ?_, ?_⟩
  · unfold constCons
    rw [ha1, hdiv]
    show (leNom E se _ _ >>= _) = _
    rw [hfvar, hb1, hprod]
    show (leNom E se _ _ >>= _) = _
    rw [hc1]; rfl
  · intro d hd
    simp only [List.mem_cons, List.not_mem_nil, or_false] at hd
    rcases hd with rfl | rfl | rfl
    · exact ha2
    · exact hb2
    · exact hc2
  · intro pt hpt
    simp only [List.mem_cons, List.not_mem_nil, or_false, forall_eq_or_imp, forall_eq]
    rw [ha3, hb3 pt hpt, hc3 pt hpt, monVal_add hpt, monVal_add hpt, hval, hval, hval, hval, Real.rpow_one, Real.rpow_one, Real.rpow_one,
      Real.rpow_neg_one, div_eq_mul_inv]

/-- C33, no relaxation: with relaxation 1 the freed constant has its old value. -/
theorem C33_one [Module ℝ D] {E : Env V ℝ D} {se : Bool} {relaxvar new freed : V} (h1 : relaxvar ≠ new) (h2 : relaxvar ≠ freed) (h3 : new ≠ freed)
    (hr : E.vunits relaxvar = none) (hu : UnitOK (E.vunits new)) (hnf : E.vunits freed = E.vunits new) {cs : List (Con V ℝ D)}
    (h : constCons E se relaxvar new freed = .ok cs) {pt : V → ℝ} (hpt : ∀ v, 0 < pt v) (h0 : pt relaxvar = 1) :
    (∀ c ∈ cs, c.Holds pt) ↔ pt freed = pt new := by
  obtain ⟨cs', h4, _, h5⟩ := C33_within (E := E) (se := se) h1 h2 h3 hr hu hnf
  rw [h] at h4; cases h4
  rw [h5 pt hpt, h0]
  simp only [le_refl, true_and, div_one, mul_one]
  exact ⟨fun h => le_antisymm h.2 h.1, fun h => ⟨h.ge, h.le⟩⟩

/-- The hypotheses of `C33_within` hold for a constant in metres. -/
example := C33_within (V := String) (D := ℝ) (E := ⟨1 / 1000, fun v => if v = "r" then none else some ⟨1, 1⟩, fun _ _ => [], id⟩) (se := false)
  (relaxvar := "r") (new := "n") (freed := "f") (by decide) (by decide) (by decide) rfl (by simp [UnitOK, unitScale]) rfl

end feasible

/-! ### The report -/

section report
variable {α : Type}

theorem relaxedPrefix_eq {most : ℝ} {l : List (ℝ × α)} (h : l.Pairwise (fun a b => b.1 ≤ a.1)) :
    relaxedPrefix most l = l.filter (fun p => decide (101 / 100 < p.1 ∨ (most - 1) / 10 < p.1 - 1)) := by
  induction l with
  | nil => rfl
  | cons p l ih =>
    rw [List.pairwise_cons] at h
    unfold relaxedPrefix
    by_cases h1 : p.1 ≤ 101 / 100 ∧ p.1 - 1 ≤ (most - 1) / 10
    · rw [if_pos h1]
      symm
      rw [List.filter_eq_nil_iff]
      intro q hq
      simp only [decide_eq_true_eq, not_or, not_lt]
      rcases List.mem_cons.1 hq with rfl | hq
      · exact h1
      · have := h.1 q hq
        constructor <;> linarith
    · rw [if_neg h1, List.filter_cons_of_pos, ih h.2]
      simp only [decide_eq_true_eq]
      rw [not_and_or, not_le, not_le] at h1
      exact h1

theorem sortDown_sorted (l : List (ℝ × α)) : (sortDown l).Pairwise (fun a b => b.1 ≤ a.1) := by
  have := List.pairwise_mergeSort (le := fun a b : ℝ × α => decide (-a.1 ≤ -b.1)) (by intro a b c; simp only [decide_eq_true_eq]; intro h1 h2; linarith)
    (by intro a b; simp only [Bool.or_eq_true, decide_eq_true_eq]; exact le_total _ _) l
  refine this.imp ?_
  intro a b h
  simp only [decide_eq_true_eq] at h
  linarith

theorem sortDown_perm (l : List (ℝ × α)) : (sortDown l).Perm l := List.mergeSort_perm l _

/-- C33, the report. For any solved values, `get_relaxed` lists, largest first, exactly those above 1.01 or above 1 by more than a tenth of the
largest excess (taken as at least 0.01). -/
theorem C33_report {vals : List ℝ} {mapped : List α} {out : List (ℝ × α)} (h : getRelaxed vals mapped = .ok out) :
    ∃ most, (∀ p ∈ vals.zip mapped, p.1 ≤ most) ∧ 101 / 100 ≤ most ∧ (most = 101 / 100 ∨ ∃ p ∈ vals.zip mapped, p.1 = most) ∧
    out.Pairwise (fun a b => b.1 ≤ a.1) ∧
    out.Perm ((vals.zip mapped).filter (fun p => decide (101 / 100 < p.1 ∨ (most - 1) / 10 < p.1 - 1))) := by
  unfold getRelaxed at h
  simp only at h
  have hs := sortDown_sorted (vals.zip mapped)
  have hp := sortDown_perm (vals.zip mapped)
  cases hl : sortDown (vals.zip mapped) with
  | nil => rw [hl] at h; cases h
  | cons p l =>
    rw [hl] at h hs hp
    simp only [Except.ok.injEq] at h
    subst h
    have hmem : ∀ q ∈ vals.zip mapped, q.1 ≤ p.1 := by
      intro q hq
      rcases List.mem_cons.1 (hp.mem_iff.2 hq) with rfl | h2
      · exact le_refl _
      · exact (List.pairwise_cons.1 hs).1 q h2
    refine ⟨max p.1 (101 / 100), fun q hq => le_trans (hmem q hq) (le_max_left _ _), le_max_right _ _, ?_, ?_, ?_⟩
    · rcases le_total p.1 (101 / 100) with h2 | h2
      · left; exact max_eq_right h2
      · right; exact ⟨p, hp.mem_iff.1 List.mem_cons_self, (max_eq_left h2).symm⟩
    · rw [relaxedPrefix_eq hs]; exact hs.filter _
    · rw [relaxedPrefix_eq hs]; exact hp.filter _

/-- C33, the report, in the terms of its documentation: everything above the threshold of 1.01 is reported. -/
theorem C33_threshold_partial {vals : List ℝ} {mapped : List α} (hne : vals.zip mapped ≠ []) :
    ∃ out, getRelaxed vals mapped = .ok out ∧ ∀ p ∈ vals.zip mapped, 101 / 100 < p.1 → p ∈ out := by
  cases h : getRelaxed vals mapped with
  | error e =>
    unfold getRelaxed at h
    simp only at h
    cases hl : sortDown (vals.zip mapped) with
    | nil =>
      have := sortDown_perm (vals.zip mapped)
      rw [hl] at this
      exact (hne this.nil_eq.symm).elim
    | cons p l => rw [hl] at h; cases h
  | ok out =>
    obtain ⟨most, _, _, _, _, h5⟩ := C33_report h
    refine ⟨out, rfl, fun p hp h6 => h5.mem_iff.2 (List.mem_filter.2 ⟨hp, by simpa using Or.inl h6⟩)⟩

/-- C33 does not hold in full: a value of 1.005, below the threshold of 1.01, is reported; and with no relaxed constants at all the report raises
`IndexError`. -/
theorem C33_threshold_fails :
    getRelaxed [(201 / 200 : ℚ)] ["x"] = .ok [((201 / 200 : ℚ), "x")] ∧ getRelaxed ([] : List ℚ) ([] : List String) = .error .indexError := by
  constructor <;> decide +kernel

end report

/-! ### Variables -/

open RelaxSubs in
/-- C33, variables. Outside models' environments the freed variable is the constant itself, and the three variables differ. -/
theorem C33_variables_partial (own : String × Nat) (const : VKey) :
    let v := constVars [] own const
    v.2.1 = const ∧ v.1 ≠ v.2.1 ∧ v.1 ≠ v.2.2 ∧ v.2.1 ≠ v.2.2 := by
  refine ⟨rfl, ?_, ?_, ?_⟩
  · intro h
    have := congrArg (fun k => k.lineage.length) h
    simp [constVars, mkVariable] at this
  · intro h
    have := congrArg (fun k => k.lineage.length) h
    simp [constVars, mkVariable] at this
  · intro h
    have := congrArg (fun k => k.lineage.length) h
    simp [constVars, mkVariable] at this

open RelaxSubs in
/-- C33 does not hold in full: if `ConstantsRelaxed` is called while a model is being set up, all three variables made for a dimensionless constant
are the same one, and it is not the constant if that comes from another model. -/
theorem C33_variables_fails {env : List (String × Nat)} (he : env ≠ []) (own : String × Nat) (const : VKey) (hu : const.unitrepr = "-") :
    let v := constVars env own const
    v.1 = v.2.1 ∧ v.1 = v.2.2 ∧ (const.lineage ≠ env → v.2.1 ≠ const) := by
  obtain ⟨n, l, i, u⟩ := const
  simp only at hu
  subst hu
  simp only [constVars, mkVariable, if_pos he, true_and]
  intro h1 h2
  exact h1 (VKey.mk.injEq .. ▸ h2).2.1.symm

end Verif
