import Verif.Lemmas.Sub
import Mathlib.Analysis.SpecialFunctions.Pow.Deriv

/-! Differentiation of nomials. -/

set_option linter.unusedSectionVars false

namespace Verif
open PyDict

section
variable {V : Type} [DecidableEq V]

theorem del_set_self {β : Type} (d : PyDict V β) (k : V) (x : β) : (d.set k x).del k = d.del k := by
  induction d with
  | nil => simp [del_cons]
  | cons p d ih =>
    obtain ⟨k', y⟩ := p
    rw [set_cons, del_cons]
    by_cases h : k' == k
    · rw [if_pos h, if_pos h, del_cons, if_pos h]
    · rw [if_neg h, if_neg h, del_cons, if_neg h, ih]

/-- the exponents of the derivative of a term -/
noncomputable def dexp (v : V) (e : HV V ℝ) (x : ℝ) : HV V ℝ := if x = 1 then e.del v else ⟨e.items.set v (x - 1)⟩

/-- the derivative of a term -/
noncomputable def dterm (v : V) (t : HV V ℝ × ℝ) : Option (HV V ℝ × ℝ) :=
  (t.1.get? v).map (fun x => (dexp v t.1 x, t.2 * x))

theorem diffStep_eq (v : V) (out : PyDict (HV V ℝ) ℝ) (t : HV V ℝ × ℝ) :
    NMap.diffStep v out t = match dterm v t with | none => out | some r => PyDict.set out r.1 r.2 := by
  unfold NMap.diffStep dterm dexp HV.get? HV.del
  cases PyDict.get? t.1.items v with
  | none => rfl
  | some x =>
    simp only [Option.map_some]
    by_cases h : x = 1
    · rw [if_pos h, if_pos h]
    · rw [if_neg h, if_neg h]

theorem foldl_diffStep (v : V) (ts out : PyDict (HV V ℝ) ℝ) :
    ts.foldl (NMap.diffStep v) out = (ts.filterMap (dterm v)).foldl (fun cp t => PyDict.set cp t.1 t.2) out := by
  induction ts generalizing out with
  | nil => rfl
  | cons t ts ih =>
    rw [List.foldl_cons, ih, diffStep_eq]
    cases h : dterm v t with
    | none => rw [List.filterMap_cons_none h]
    | some r => rw [List.filterMap_cons_some h, List.foldl_cons]

theorem dexp_get? {v : V} {e : HV V ℝ} (he : WF e.items) (x : ℝ) (w : V) :
    (dexp v e x).get? w = if v = w then (if x = 1 then none else some (x - 1)) else e.get? w := by
  unfold dexp
  split_ifs with h1 h2 h2
  · rw [hv_get?_del he, if_pos h2]
  · rw [hv_get?_del he, if_neg h2]
  · unfold HV.get?; simp only; rw [get?_set]; simp [h2]
  · unfold HV.get?; simp only; rw [get?_set]; simp [h2]

theorem dexp_wf {v : V} {e : HV V ℝ} (he : WF e.items) (x : ℝ) : WF (dexp v e x).items := by
  unfold dexp
  split_ifs
  · exact wf_del he _
  · exact wf_set he _ _

theorem dexp_canonical {v : V} {e : HV V ℝ} (he : ExpCanonical e.items) (x : ℝ) :
    ExpCanonical (dexp v e x).items := by
  obtain ⟨h1, h2⟩ := (expCanonical_iff _).1 he
  refine (expCanonical_iff _).2 ⟨dexp_wf h1 x, ?_⟩
  unfold dexp
  split_ifs with h
  · exact h2.del _
  · exact h2.set (sub_ne_zero.2 h)

theorem filterMap_dterm_canonical {v : V} {ts : PyDict (HV V ℝ) ℝ} (h : TermsCanonical ts) :
    TermsCanonical (ts.filterMap (dterm v)) := by
  obtain ⟨h1, h2⟩ := h
  constructor
  · intro r hr
    obtain ⟨t, ht, htr⟩ := List.mem_filterMap.1 hr
    unfold dterm at htr
    obtain ⟨x, hx, rfl⟩ := Option.map_eq_some_iff.1 htr
    obtain ⟨h3, h4⟩ := h1 t ht
    refine ⟨dexp_canonical h3 x, mul_ne_zero h4 ?_⟩
    obtain ⟨k, hk, _⟩ := exists_mem_of_get? hx
    exact h3.2 _ hk
  · rw [List.pairwise_filterMap]
    refine (List.pairwise_iff_forall_sublist.2 ?_)
    intro s t hst
    have hs := hst.subset (List.mem_cons_self)
    have ht := hst.subset (List.mem_cons_of_mem _ (List.mem_singleton.2 rfl))
    have hne := List.pairwise_iff_forall_sublist.1 h2 hst
    intro a ha b hb hperm
    unfold dterm at ha hb
    obtain ⟨x, hx, rfl⟩ := Option.map_eq_some_iff.1 ha
    obtain ⟨y, hy, rfl⟩ := Option.map_eq_some_iff.1 hb
    have ws := ((expCanonical_iff _).1 (h1 s hs).1).1
    have wt := ((expCanonical_iff _).1 (h1 t ht).1).1
    have hg : ∀ w, (dexp v s.1 x).get? w = (dexp v t.1 y).get? w := fun w =>
      get?_perm (dexp_wf ws x) hperm w
    apply hne
    apply perm_of_get?_eq ws wt
    intro w
    by_cases hw : v = w
    · subst hw
      have := hg v
      rw [dexp_get? ws, dexp_get? wt] at this
      simp only [if_true] at this
      have hxy : x = y := by
        split_ifs at this with h5 h6 h6
        · rw [h5, h6]
        · simp at this; linarith
      exact (hx.trans (by rw [hxy])).trans hy.symm
    · have := hg w
      rw [dexp_get? ws, dexp_get? wt, if_neg hw, if_neg hw] at this
      exact this

theorem foldl_diffStep_eq {v : V} {ts : PyDict (HV V ℝ) ℝ} (h : TermsCanonical ts) :
    ts.foldl (NMap.diffStep v) [] = ts.filterMap (dterm v) := by
  rw [foldl_diffStep, foldl_set_eq]
  · simp
  · simpa using ((termsCanonical_iff _).1 (filterMap_dterm_canonical h)).1

theorem monVal_update_of_absent (pt : V → ℝ) (v : V) (y : ℝ) {e : HV V ℝ} (he : e.get? v = none) :
    monVal (Function.update pt v y) e.items = monVal pt e.items := by
  unfold monVal
  congr 1
  apply List.map_congr_left
  intro kx hkx
  have := (get?_eq_none_iff.1 he) kx hkx
  rw [Function.update_of_ne (by simpa using this)]

theorem monVal_hasDerivAt {pt : V → ℝ} {v : V} (hpos : 0 < pt v) {t : HV V ℝ × ℝ} (he : WF t.1.items) :
    HasDerivAt (fun y => t.2 * monVal (Function.update pt v y) t.1.items)
      (((dterm v t).map (fun r => r.2 * monVal pt r.1.items)).getD 0) (pt v) := by
  unfold dterm
  cases hx : t.1.get? v with
  | none =>
    have : (fun y => t.2 * monVal (Function.update pt v y) t.1.items) = fun _ => t.2 * monVal pt t.1.items := by
      funext y; rw [monVal_update_of_absent pt v y hx]
    rw [this]
    simpa using hasDerivAt_const (pt v) _
  | some x =>
    have hd : (t.1.del v).get? v = none := by rw [hv_get?_del he]; simp
    have h1 : (fun y => t.2 * monVal (Function.update pt v y) t.1.items)
        = fun y => (t.2 * monVal pt (t.1.del v).items) * y ^ x := by
      funext y
      rw [monVal_del _ hx, monVal_update_of_absent pt v y hd, Function.update_self]; ring
    rw [h1]
    have h2 : monVal pt (dexp v t.1 x).items = pt v ^ (x - 1) * monVal pt (t.1.del v).items := by
      unfold dexp
      split_ifs with h
      · rw [h]; simp
      · have hget : (⟨t.1.items.set v (x - 1)⟩ : HV V ℝ).get? v = some (x - 1) := by
          unfold HV.get?; simp only; rw [get?_set]; simp
        rw [monVal_del pt hget]
        unfold HV.del
        simp only
        rw [del_set_self]
    simp only [Option.map_some, Option.getD_some]
    have h3 := (Real.hasDerivAt_rpow_const (p := x) (Or.inl hpos.ne')).const_mul (t.2 * monVal pt (t.1.del v).items)
    refine h3.congr_deriv ?_
    rw [h2]; ring

theorem termsVal_hasDerivAt {pt : V → ℝ} {v : V} (hpos : 0 < pt v) {ts : PyDict (HV V ℝ) ℝ}
    (h : ∀ t ∈ ts, WF t.1.items) :
    HasDerivAt (fun y => termsVal (Function.update pt v y) ts) (termsVal pt (ts.filterMap (dterm v))) (pt v) := by
  induction ts with
  | nil => simpa using hasDerivAt_const (pt v) (0:ℝ)
  | cons t ts ih =>
    simp only [termsVal_cons]
    have h1 := monVal_hasDerivAt hpos (h t List.mem_cons_self)
    refine (h1.fun_add (ih (fun s hs => h s (List.mem_cons_of_mem _ hs)))).congr_deriv ?_
    cases hd : dterm v t with
    | none => rw [List.filterMap_cons_none hd]; simp
    | some r => rw [List.filterMap_cons_some hd, termsVal_cons]; simp

theorem termsVal_update_of_absent (pt : V → ℝ) (v : V) (y : ℝ) {ts : PyDict (HV V ℝ) ℝ}
    (h : ∀ t ∈ ts, t.1.get? v = none) : termsVal (Function.update pt v y) ts = termsVal pt ts := by
  induction ts with
  | nil => rfl
  | cons t ts ih =>
    rw [termsVal_cons, termsVal_cons, monVal_update_of_absent pt v y (h t List.mem_cons_self),
      ih (fun s hs => h s (List.mem_cons_of_mem _ hs))]

variable {D : Type} [AddCommGroup D] [DecidableEq D]

theorem NMap.diff_terms {h : NMap V ℝ D} (hc : TermsCanonical h.terms) (v : V) (vu : Option (UnitQ D ℝ)) :
    (h.diff v vu).terms = h.terms.filterMap (dterm v) := by
  unfold NMap.diff
  simp only
  have : ((⟨[], none⟩ : NMap V ℝ D).unitsOfProduct h.units (vu.map UnitQ.inv)).terms = [] := by
    unfold NMap.unitsOfProduct
    split
    · rfl
    · split <;> rfl
    · rfl
    · rfl
  rw [this, foldl_diffStep_eq hc]

theorem mem_vks {h : NMap V ℝ D} {v : V} : v ∈ h.vks ↔ ∃ t ∈ h.terms, t.1.get? v ≠ none := by
  unfold NMap.vks
  rw [List.mem_dedup, List.mem_flatMap]
  refine exists_congr fun t => and_congr_right fun _ => ?_
  rw [List.mem_map]
  constructor
  · rintro ⟨kx, hk, rfl⟩ hn
    have := (get?_eq_none_iff.1 hn) kx hk
    simp at this
  · intro hn
    obtain ⟨x, hx⟩ := Option.ne_none_iff_exists'.1 hn
    obtain ⟨k, hk, hkv⟩ := exists_mem_of_get? hx
    exact ⟨_, hk, eq_of_beq hkv⟩

end
end Verif
