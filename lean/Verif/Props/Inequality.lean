import Verif.Lemmas.Constraint
import Verif.Lemmas.Nonneg
import Verif.Lemmas.PyEval
import Verif.Props.Substitution
import Verif.Props.Approx
import Verif.Props.Calculus

/-! Property theorems about single constraints: C12, C13, C14, C17. -/

set_option linter.unusedSectionVars false

namespace Verif
open PyDict

variable {V D : Type} [DecidableEq V] [AddCommGroup D] [DecidableEq D]

/-- No term of `ts` divided by the monomial `m` is, up to its coefficient, a later term of `ts`. -/
def NoClash (m : HV V ℝ) (ts : PyDict (HV V ℝ) ℝ) : Prop :=
  ts.Pairwise (fun s t => ¬ ∀ pt : V → ℝ, (∀ v, 0 < pt v) → monVal pt s.1.items = monVal pt t.1.items * monVal pt m.items)

theorem NoClash.pairwise {m : HV V ℝ} {ts : PyDict (HV V ℝ) ℝ} (h : NoClash m ts) :
    ts.Pairwise (fun s t => (s.1.sub m == t.1) = false) := by
  refine h.imp ?_
  intro s t hst
  by_contra hcon
  rw [Bool.not_eq_false] at hcon
  apply hst
  intro pt hpt
  rw [← monVal_perm (HV.beq_iff.1 hcon), monVal_sub hpt]
  have := (monVal_pos hpt m.items).ne'
  field_simp

/-! ### C12 -/

/-- C12 where it holds, at all points at which no variable is negative and those of the monomial side `m` are positive. If no quotient meets a
later term, then `p <= m` has one of these forms: nothing, if `p` is at most `1 + tol` times `m`; one posynomial that is at most 1 exactly where
`p <= m` (and gives `p / m` after adding back a constant part `c0`); or, only inside `SignomialsEnabled` and if `p <= m` holds nowhere, a signomial
(which later raises, see `C13_form`). -/
theorem C12_nonneg_partial {se : Bool} {tol : ℝ} (htol : 0 ≤ tol) {p m : NMap V ℝ D} {mexp : HV V ℝ} {mc : ℝ} {forms : List (Nomial V ℝ D)}
    (hp : TermsCanonical p.terms) (hne : p.terms ≠ []) (hpos : ∀ t ∈ p.terms, 0 < t.2)
    (hm : m.terms = [(mexp, mc)]) (hme : ExpCanonical mexp.items) (hmc : 0 < mc)
    (hpu : UnitOK p.units) (hmu : UnitOK m.units) (hclash : NoClash mexp p.terms)
    (h : genUnsubbed se tol p m = .ok forms) :
    (forms = [] ∧ ∃ c, c ≤ 1 + tol ∧ ∀ pt, PosOn mexp pt → physVal pt p = c * physVal pt m) ∨
    (∃ f, forms = [f] ∧ f.AllPos ∧ TermsCanonical f.hmap.terms ∧ f.hmap.terms ≠ [] ∧ f.hmap.terms.get? HV.empty = none ∧
      (∀ pt, PosOn mexp pt → (termsVal pt f.hmap.terms ≤ 1 ↔ physVal pt p ≤ physVal pt m)) ∧
      ∃ c0, 0 ≤ c0 ∧ c0 < 1 ∧ ∀ pt, PosOn mexp pt → physVal pt p = (c0 + (1 - c0) * termsVal pt f.hmap.terms) * physVal pt m) ∨
    (se = true ∧ ∃ f, forms = [f] ∧ f.hmap.terms ≠ [] ∧ (∀ t ∈ f.hmap.terms, t.2 ≤ 0) ∧
      ∀ pt, PosOn mexp pt → physVal pt m < physVal pt p) := by
  unfold genUnsubbed at h
  rw [hm] at h
  simp only at h
  obtain ⟨r, hr, h1⟩ := except_bind_ok h
  obtain ⟨hr1, hr2⟩ := ratio_scale hmu hpu hr
  have hmr : 0 < mc * r := mul_pos hmc hr2
  rw [renameTerms_ok hme hmr.ne' hp hclash.pairwise] at h1
  set q := p.terms.map (fun t => (t.1.sub mexp, t.2 / (mc * r))) with hq
  have hqc : TermsCanonical q := quotient_canonical hme hmr.ne' hp
  have hqne : q ≠ [] := by rw [hq]; simpa using hne
  have hqpos : ∀ t ∈ q, 0 < t.2 := by
    intro t ht
    obtain ⟨s, hs, rfl⟩ := List.mem_map.1 ht
    exact div_pos (hpos s hs) hmr
  have hmphys : ∀ pt, PosOn mexp pt → 0 < physVal pt m := by
    intro pt hpt
    unfold physVal
    rw [hm]
    have := monVal_pos_on hpt.2
    simp only [termsVal_cons, termsVal_nil, add_zero]
    exact mul_pos hmu (mul_pos hmc this)
  have hval : ∀ pt, PosOn mexp pt → physVal pt p = termsVal pt q * physVal pt m := by
    intro pt hpt
    have h2 := quotient_val_on hpt.2 hmr.ne' p.terms
    unfold physVal
    rw [← h2, hm, ← hr1]
    simp only [termsVal_cons, termsVal_nil, add_zero]
    ring
  have hiff : ∀ pt, PosOn mexp pt → (termsVal pt q ≤ 1 ↔ physVal pt p ≤ physVal pt m) := by
    intro pt hpt
    rw [hval pt hpt]
    exact (mul_le_iff_le_one_left (hmphys pt hpt)).symm
  obtain ⟨s, hs, h3⟩ := except_bind_ok (show (simplifyPosyIneq tol q >>= fun s => wrapForm se s none) = .ok forms from h1)
  have hspec := simplify_spec htol (fun t ht => (hqpos t ht).le)
  rw [hs] at hspec
  cases s with
  | none =>
    left
    cases h3
    obtain ⟨c, hc1, hc2⟩ := hspec
    refine ⟨rfl, c, hc2, fun pt hpt => ?_⟩
    rw [hval pt hpt, hc1]; simp
  | some f =>
    right
    simp only at hspec
    have hfne : f ≠ [] := by
      rcases hspec with ⟨_, h4⟩ | ⟨_, _, _, _, h4⟩ | ⟨_, _, _, _, h4, _⟩
      · rw [h4]; exact hqne
      · exact h4
      · exact h4
    have hwrap : ∃ n, mkSig se true (⟨f, none⟩ : NMap V ℝ D) = .ok n ∧ forms = [n] := by
      unfold wrapForm at h3
      simp only at h3
      rw [if_neg (by simpa using hfne)] at h3
      cases hk : mkSig se true (⟨f, none⟩ : NMap V ℝ D) with
      | error e => rw [hk] at h3; cases h3
      | ok n => rw [hk] at h3; cases h3; exact ⟨n, rfl, rfl⟩
    obtain ⟨n, hn1, hn2⟩ := hwrap
    have hnh := mkSig_ok hn1
    rcases hspec with ⟨h4, h5⟩ | ⟨c, h4, h5, h6, _⟩ | ⟨c, h4, h5, _, _, h6, h7⟩
    · left
      refine ⟨n, hn2, ?_, ?_, ?_, ?_, ?_⟩
      · unfold Nomial.AllPos; rw [hnh, h5]; exact hqpos
      · rw [hnh, h5]; exact hqc
      · rw [hnh]; exact hfne
      · rw [hnh, h5]; exact h4
      · refine ⟨?_, 0, le_refl _, by norm_num, ?_⟩
        · intro pt hpt; rw [hnh, h5]; exact hiff pt hpt
        · intro pt hpt; rw [hnh, h5, hval pt hpt]; simp
    · left
      have hwq := ((termsCanonical_iff _).1 hqc).1
      have hqd : TermsCanonical (PyDict.del q HV.empty) := by
        rw [termsCanonical_iff] at *
        exact ⟨wf_del hqc.1 _, hqc.2.1.del _, fun t ht => hqc.2.2 t ((del_sublist _ _).subset ht)⟩
      refine ⟨n, hn2, ?_, ?_, ?_, ?_, ?_⟩
      · unfold Nomial.AllPos; rw [hnh, h6]
        intro t ht
        unfold dictScale at ht
        obtain ⟨u, hu, rfl⟩ := List.mem_map.1 ht
        exact mul_pos (hqpos u ((del_sublist _ _).subset hu)) (inv_pos.2 (by linarith))
      · rw [hnh, h6]; exact dictScale_canonical hqd (inv_ne_zero (by linarith))
      · rw [hnh]; exact hfne
      · rw [hnh, h6]; simp only; rw [get?_dictScale, get?_del hwq]; simp
      · refine ⟨?_, c, ?_, h5, ?_⟩
        · intro pt hpt; rw [hnh, h6]
          exact (moved_iff pt h4 h5).trans (hiff pt hpt)
        · obtain ⟨k', h7, _⟩ := exists_mem_of_get? h4
          exact (hqpos _ h7).le
        · intro pt hpt
          have : 1 - c ≠ 0 := by linarith
          rw [hval pt hpt, hnh, h6, termsVal_split pt h4]
          simp only
          rw [termsVal_dictScale]
          field_simp
    · right
      refine ⟨?_, n, hn2, by rw [hnh]; exact hfne, by rw [hnh]; exact h7, ?_⟩
      · by_contra hse
        rw [Bool.not_eq_true] at hse
        subst hse
        obtain ⟨t, ht⟩ := List.exists_mem_of_ne_nil _ hfne
        have := mkSig_allPos (rp := true) rfl hn1
        unfold Nomial.AllPos at this
        rw [hnh] at this
        linarith [this t ht, h7 t ht]
      · intro pt hpt
        rw [hval pt hpt]
        have h8 := hmphys pt hpt
        have h9 : 1 < termsVal pt q := by
          rw [termsVal_split pt h4]
          have : 0 ≤ termsVal pt (PyDict.del q HV.empty) := by
            unfold termsVal
            apply List.sum_nonneg
            intro x hx
            obtain ⟨t, ht, rfl⟩ := List.mem_map.1 hx
            exact mul_nonneg (hqpos t ((del_sublist _ _).subset ht)).le (monVal_nonneg hpt.1 _)
          linarith
        nlinarith

/-- `C12_nonneg_partial` at positive points. -/
theorem C12_form_partial {se : Bool} {tol : ℝ} (htol : 0 ≤ tol) {p m : NMap V ℝ D} {mexp : HV V ℝ} {mc : ℝ} {forms : List (Nomial V ℝ D)}
    (hp : TermsCanonical p.terms) (hne : p.terms ≠ []) (hpos : ∀ t ∈ p.terms, 0 < t.2)
    (hm : m.terms = [(mexp, mc)]) (hme : ExpCanonical mexp.items) (hmc : 0 < mc)
    (hpu : UnitOK p.units) (hmu : UnitOK m.units) (hclash : NoClash mexp p.terms)
    (h : genUnsubbed se tol p m = .ok forms) :
    (forms = [] ∧ ∃ c, c ≤ 1 + tol ∧ ∀ pt, (∀ v, 0 < pt v) → physVal pt p = c * physVal pt m) ∨
    (∃ f, forms = [f] ∧ f.AllPos ∧ TermsCanonical f.hmap.terms ∧ f.hmap.terms ≠ [] ∧ f.hmap.terms.get? HV.empty = none ∧
      (∀ pt, (∀ v, 0 < pt v) → (termsVal pt f.hmap.terms ≤ 1 ↔ physVal pt p ≤ physVal pt m)) ∧
      ∃ c0, 0 ≤ c0 ∧ c0 < 1 ∧ ∀ pt, (∀ v, 0 < pt v) → physVal pt p = (c0 + (1 - c0) * termsVal pt f.hmap.terms) * physVal pt m) ∨
    (se = true ∧ ∃ f, forms = [f] ∧ f.hmap.terms ≠ [] ∧ (∀ t ∈ f.hmap.terms, t.2 ≤ 0) ∧
      ∀ pt, (∀ v, 0 < pt v) → physVal pt m < physVal pt p) := by
  rcases C12_nonneg_partial htol hp hne hpos hm hme hmc hpu hmu hclash h with
    ⟨h1, c, hc, h2⟩ | ⟨f, h1, h2, h3, h4, h5, h6, c0, h7, h8, h9⟩ | ⟨h1, f, h2, h3, h4, h5⟩
  · exact .inl ⟨h1, c, hc, fun pt hpt => h2 pt (posOn_of_pos hpt _)⟩
  · exact .inr (.inl ⟨f, h1, h2, h3, h4, h5, fun pt hpt => h6 pt (posOn_of_pos hpt _), c0, h7, h8, fun pt hpt => h9 pt (posOn_of_pos hpt _)⟩)
  · exact .inr (.inr ⟨h1, f, h2, h3, h4, fun pt hpt => h5 pt (posOn_of_pos hpt _)⟩)

/-- C12, exceptions. If units match and building the form raises, then `p <= m` holds at no positive point. -/
theorem C12_error_partial {se : Bool} {tol : ℝ} (htol : 0 ≤ tol) {p m : NMap V ℝ D} {mexp : HV V ℝ} {mc r : ℝ} {e : Err}
    (hp : TermsCanonical p.terms) (hpos : ∀ t ∈ p.terms, 0 < t.2)
    (hm : m.terms = [(mexp, mc)]) (hme : ExpCanonical mexp.items) (hmc : 0 < mc)
    (hpu : UnitOK p.units) (hmu : UnitOK m.units) (hclash : NoClash mexp p.terms)
    (hr : UnitCache.ratio m.units p.units = .ok r)
    (h : genUnsubbed se tol p m = .error e) :
    ∀ pt, (∀ v, 0 < pt v) → physVal pt m < physVal pt p := by
  unfold genUnsubbed at h
  rw [hm] at h
  simp only at h
  rw [hr] at h
  obtain ⟨hr1, hr2⟩ := ratio_scale hmu hpu hr
  have hmr : 0 < mc * r := mul_pos hmc hr2
  have h1 : (renameTerms mexp (mc * r) p.terms >>= fun ts => simplifyPosyIneq tol ts >>= fun s => wrapForm se s none) =
      (Except.error e : Except Err (List (Nomial V ℝ D))) := h
  rw [renameTerms_ok hme hmr.ne' hp hclash.pairwise] at h1
  set q := p.terms.map (fun t => (t.1.sub mexp, t.2 / (mc * r))) with hq
  have hqpos : ∀ t ∈ q, 0 < t.2 := by
    intro t ht
    obtain ⟨s, hs, rfl⟩ := List.mem_map.1 ht
    exact div_pos (hpos s hs) hmr
  intro pt hpt
  have hmphys : 0 < physVal pt m := by
    unfold physVal
    rw [hm]
    have := monVal_pos hpt mexp.items
    simp only [termsVal_cons, termsVal_nil, add_zero]
    exact mul_pos hmu (mul_pos hmc this)
  have hval : physVal pt p = termsVal pt q * physVal pt m := by
    have h2 := quotient_val hpt mexp hmr.ne' p.terms
    unfold physVal
    rw [← h2, hm, ← hr1]
    simp only [termsVal_cons, termsVal_nil, add_zero]
    ring
  have hrest : 0 ≤ termsVal pt (PyDict.del q HV.empty) := by
    unfold termsVal
    apply List.sum_nonneg
    intro x hx
    obtain ⟨t, ht, rfl⟩ := List.mem_map.1 hx
    exact mul_nonneg (hqpos t ((del_sublist _ _).subset ht)).le (monVal_pos hpt _).le
  have hspec := simplify_spec htol (fun t ht => (hqpos t ht).le)
  have h2 : (simplifyPosyIneq tol q >>= fun s => wrapForm se s none) =
      (Except.error e : Except Err (List (Nomial V ℝ D))) := h1
  have h9 : 1 < termsVal pt q := by
    cases hs : simplifyPosyIneq tol q with
    | error e' =>
      rw [hs] at hspec
      obtain ⟨c, h4, h5, h6⟩ := hspec
      rw [termsVal_split pt h4]
      rcases h6 with ⟨_, h6⟩ | ⟨_, h6, h7⟩
      · linarith
      · have : 0 < termsVal pt (PyDict.del q HV.empty) :=
          termsVal_pos hpt h7 (fun t ht => hqpos t ((del_sublist _ _).subset ht))
        linarith
    | ok s =>
      rw [hs] at hspec h2
      cases s with
      | none => cases h2
      | some f =>
        have h3 : wrapForm se (some f) none = (Except.error e : Except Err (List (Nomial V ℝ D))) := h2
        unfold wrapForm at h3
        simp only at h3
        split_ifs at h3
        simp only at hspec
        have hpn : (∀ t ∈ f, 0 < t.2) → False := by
          intro hfp
          have : (⟨f, none⟩ : NMap V ℝ D).anyNonpositive = false := by
            unfold NMap.anyNonpositive
            rw [List.any_eq_false]
            intro t ht
            have := hfp t ht
            simpa using this
          unfold mkSig at h3
          rw [this] at h3
          simp only [Bool.false_eq_true, if_false] at h3
          split_ifs at h3 <;> cases h3
        rcases hspec with ⟨h4, h5⟩ | ⟨c, h4, h5, h6, _⟩ | ⟨c, h4, h5, _, _, h6, h7⟩
        · exact (hpn (by rw [h5]; exact hqpos)).elim
        · refine (hpn ?_).elim
          rw [h6]
          intro t ht
          unfold dictScale at ht
          obtain ⟨u, hu, rfl⟩ := List.mem_map.1 ht
          exact mul_pos (hqpos u ((del_sublist _ _).subset hu)) (inv_pos.2 (by linarith))
        · rw [termsVal_split pt h4]; linarith
  rw [hval]
  nlinarith

/-- C12 does not hold in full: `x**2 + x <= 5*x` becomes no constraint at all (dividing `x**2` by `x` overwrites the term `x`
before it is treated), though `x = 10` violates it. -/
theorem C12_form_fails :
    let p : NMap Unit ℝ ℤ := ⟨[(⟨[((), 2)]⟩, 1), (⟨[((), 1)]⟩, 1)], none⟩
    let m : NMap Unit ℝ ℤ := ⟨[(⟨[((), 1)]⟩, 5)], none⟩
    TermsCanonical p.terms ∧ (∀ t ∈ p.terms, 0 < t.2) ∧ TermsCanonical m.terms ∧
    genUnsubbed false (1 / 1000) p m = .ok [] ∧ physVal (fun _ => 10) p = 110 ∧ physVal (fun _ => 10) m = 50 := by
  refine ⟨?_, ?_, ?_, ?_, ?_, ?_⟩
  · constructor
    · intro t ht; simp at ht; rcases ht with rfl | rfl <;> simp [ExpCanonical]
    · simp
  · intro t ht; simp at ht; rcases ht with rfl | rfl <;> norm_num
  · constructor
    · intro t ht; simp at ht; rcases ht with rfl; simp [ExpCanonical]
    · simp
  · norm_num [genUnsubbed, UnitCache.ratio, renameTerms, renameStep, List.foldlM, PyDict.get?, PyDict.set, PyDict.del,
      bind, pure, Except.bind, Except.pure, HV.beq_def, List.isPerm, HV.sub, HV.add, HV.scale, dictAdd, dictAddStep, dictScale, HV.empty,
      simplifyPosyIneq, wrapForm]
  · norm_num [physVal, unitScale, termsVal, monVal]
  · norm_num [physVal, unitScale, termsVal, monVal]

/-- The hypotheses of the C12 theorems hold for `x**2 + y + 1 <= 5*x`, in this order of terms. -/
example :
    let p : NMap Bool ℝ ℤ := ⟨[(⟨[(true, 2)]⟩, 1), (⟨[(false, 1)]⟩, 1), (HV.empty, 1)], none⟩
    let m : NMap Bool ℝ ℤ := ⟨[(⟨[(true, 1)]⟩, 5)], none⟩
    TermsCanonical p.terms ∧ NoClash ⟨[(true, 1)]⟩ p.terms ∧ ∃ forms, genUnsubbed false (1 / 1000) p m = .ok forms := by
  refine ⟨?_, ?_, ?_⟩
  · constructor
    · intro t ht; simp at ht; rcases ht with rfl | rfl | rfl <;> simp [ExpCanonical, HV.empty]
    · simp [HV.empty]
  · unfold NoClash
    simp only [List.pairwise_cons, List.mem_cons, List.not_mem_nil, or_false, forall_eq_or_imp, forall_eq, HV.empty, not_forall]
    refine ⟨⟨⟨fun b => cond b 1 2, by intro v; cases v <;> norm_num, by norm_num [monVal]⟩,
      ⟨fun b => cond b 2 2, by intro v; cases v <;> norm_num, by norm_num [monVal]⟩⟩,
      ⟨fun b => cond b 1 2, by intro v; cases v <;> norm_num, by norm_num [monVal]⟩, by simp⟩
  · norm_num [genUnsubbed, UnitCache.ratio, renameTerms, renameStep, List.foldlM, PyDict.get?, PyDict.set, PyDict.del,
      bind, pure, Except.bind, Except.pure, HV.beq_def, List.isPerm, HV.sub, HV.add, HV.scale, dictAdd, dictAddStep, dictScale, HV.empty,
      simplifyPosyIneq, wrapForm, mkSig, NMap.anyNonpositive, Except.map]

/-! ### C13 -/

theorem subState_spec {posy : PyDict (HV V ℝ) ℝ} {fixed : PyDict V ℝ} {rounds : List (V × List (HV V ℝ))} {s : SubState V ℝ}
    (hc : TermsCanonical posy) (hne : posy ≠ []) (ho : SetOrder (varlocs posy fixed) rounds)
    (hs : subState posy fixed rounds = .ok s) :
    (∀ pt, termsVal pt s.cp = termsVal (override pt fixed) posy) ∧ s.cp ≠ [] ∧ (TermsCanonical s.cp ∨ s.cp = [(HV.empty, 0)]) := by
  have h1 : (⟨posy, none⟩ : NMap V ℝ ℤ).sub fixed rounds = .ok ⟨s.cp, none⟩ := by
    unfold NMap.sub; simp only; rw [hs]; rfl
  have h2 := sub_ok hc hne ho h1
  exact ⟨fun pt => (C06_sub_evaluates (h := ⟨posy, none⟩) hc hne ho h1 pt).1, h2.2.2.2.1, h2.2.2.2.2⟩

/-- C13, values. If substituting constants into `posy <= 1` raises nothing, then either the form is dropped and the left side is a constant at most
`1 + tol`, or there is one form, with positive coefficients and without constant, from which the left side with the constants filled in is recovered by
adding back a constant part `c0`. -/
theorem C13_value {tol : ℝ} (htol : 0 ≤ tol) {posy : PyDict (HV V ℝ) ℝ} {fixed : PyDict V ℝ} {rounds : List (V × List (HV V ℝ))}
    {memo memo' : Memo ℝ} {forms : List (PyDict (HV V ℝ) ℝ)}
    (hc : TermsCanonical posy) (hne : posy ≠ []) (hpos : ∀ t ∈ posy, 0 < t.2) (hfix : ∀ v c, fixed.get? v = some c → 0 ≤ c)
    (ho : SetOrder (varlocs posy fixed) rounds)
    (h : formStep tol posy fixed rounds memo = (.ok forms, memo')) :
    (forms = [] ∧ ∃ c, c ≤ 1 + tol ∧ ∀ pt, termsVal (override pt fixed) posy = c) ∨
    (∃ f, forms = [f] ∧ f ≠ [] ∧ (∀ t ∈ f, 0 < t.2) ∧ TermsCanonical f ∧ f.get? HV.empty = none ∧
      ∃ c0, 0 ≤ c0 ∧ c0 < 1 ∧ ∀ pt, termsVal (override pt fixed) posy = c0 + (1 - c0) * termsVal pt f) := by
  unfold formStep at h
  cases hs : subState posy fixed rounds with
  | error e => rw [hs] at h; simp at h
  | ok s =>
    rw [hs] at h
    simp only at h
    cases hm : mmap s posy with
    | error e => rw [hm] at h; simp at h
    | ok pmap =>
      rw [hm] at h
      simp only [Prod.mk.injEq] at h
      have h1 := h.1
      obtain ⟨hval, hcpne, hcan⟩ := subState_spec hc hne ho hs
      have hwf := ((termsCanonical_iff _).1 hc).1
      have hnn := subState_nonneg hwf (fun t ht => (hpos t ht).le) hfix hs
      have hspec := simplify_spec htol hnn
      cases hq : simplifyPosyIneq tol s.cp with
      | error e => rw [hq] at h1; cases h1
      | ok r =>
        rw [hq] at hspec h1
        cases r with
        | none =>
          cases h1
          obtain ⟨c, h2, h3⟩ := hspec
          exact Or.inl ⟨rfl, c, h3, fun pt => by rw [← hval, h2]; simp⟩
        | some f =>
          right
          simp only [checkForm] at h1
          by_cases hany : f.any (fun t => decide (t.2 ≤ 0)) = true
          · rw [if_pos hany] at h1; cases h1
          rw [if_neg hany] at h1
          cases h1
          rw [Bool.not_eq_true, List.any_eq_false] at hany
          have hfp : ∀ t ∈ f, 0 < t.2 := fun t ht => by have := hany t ht; simpa using this
          have hcan' : ∀ c, s.cp.get? HV.empty = some c → s.cp.del HV.empty ≠ [] → TermsCanonical (s.cp.del HV.empty) := by
            intro c _ hd
            rcases hcan with hcan | hcan
            · rw [termsCanonical_iff] at *
              exact ⟨wf_del hcan.1 _, hcan.2.1.del _, fun t ht => hcan.2.2 t ((del_sublist _ _).subset ht)⟩
            · rw [hcan] at hd
              exact absurd (by simp [PyDict.del]) hd
          have hwfc : WF s.cp := by
            rcases hcan with hcan | hcan
            · exact ((termsCanonical_iff _).1 hcan).1
            · rw [hcan]; simp [wf_cons]
          rcases hspec with ⟨h4, h5⟩ | ⟨c, h4, h5, h6, h7⟩ | ⟨c, h4, h5, _, h6, _, h7⟩
          · refine ⟨f, rfl, by rw [h5]; exact hcpne, hfp, ?_, by rw [h5]; exact h4, 0, le_refl _, one_pos, fun pt => by rw [h5, ← hval]; ring⟩
            rw [h5]
            rcases hcan with hcan | hcan
            · exact hcan
            · rw [hcan] at h4; simp [get?_cons] at h4
          · have hd : s.cp.del HV.empty ≠ [] := by
              intro hd; rw [h6, hd] at h7; simp [dictScale] at h7
            refine ⟨f, rfl, h7, hfp, ?_, ?_, c, ?_, h5, fun pt => ?_⟩
            · rw [h6]; exact dictScale_canonical (hcan' c h4 hd) (inv_ne_zero (by linarith))
            · rw [h6, get?_dictScale, get?_del hwfc]; simp
            · obtain ⟨k, hk, -⟩ := exists_mem_of_get? h4
              exact hnn _ hk
            · have h8 : 1 - c ≠ 0 := by linarith
              rw [h6, termsVal_dictScale, ← hval, termsVal_split pt h4]
              field_simp
          · obtain ⟨t, ht⟩ := List.exists_mem_of_ne_nil _ h6
            linarith [h7 t ht, hfp t ht]

/-- C13. If substituting constants into `posy <= 1` raises nothing, then either the form is dropped and the left side is a
constant at most `1 + tol`, or there is one form, with positive coefficients and without constant, that holds at a point
exactly where the original does with the constants filled in. -/
theorem C13_form {tol : ℝ} (htol : 0 ≤ tol) {posy : PyDict (HV V ℝ) ℝ} {fixed : PyDict V ℝ} {rounds : List (V × List (HV V ℝ))}
    {memo memo' : Memo ℝ} {forms : List (PyDict (HV V ℝ) ℝ)}
    (hc : TermsCanonical posy) (hne : posy ≠ []) (hpos : ∀ t ∈ posy, 0 < t.2) (hfix : ∀ v c, fixed.get? v = some c → 0 ≤ c)
    (ho : SetOrder (varlocs posy fixed) rounds)
    (h : formStep tol posy fixed rounds memo = (.ok forms, memo')) :
    (forms = [] ∧ ∃ c, c ≤ 1 + tol ∧ ∀ pt, termsVal (override pt fixed) posy = c) ∨
    (∃ f, forms = [f] ∧ f ≠ [] ∧ (∀ t ∈ f, 0 < t.2) ∧ TermsCanonical f ∧ f.get? HV.empty = none ∧
      ∀ pt, termsVal pt f ≤ 1 ↔ termsVal (override pt fixed) posy ≤ 1) := by
  rcases C13_value htol hc hne hpos hfix ho h with h1 | ⟨f, h1, h2, h3, h4, h5, c0, h6, h7, h8⟩
  · exact Or.inl h1
  · refine Or.inr ⟨f, h1, h2, h3, h4, h5, fun pt => ?_⟩
    rw [h8 pt]
    constructor <;> intro h9 <;> nlinarith

/-- C13, exceptions. With positive constants, if substituting raises then no positive point satisfies the inequality; and if all
variables are constants the exception says "infeasible" and the left side exceeds `1 + tol`. -/
theorem C13_error_partial {tol : ℝ} (htol : 0 ≤ tol) {posy : PyDict (HV V ℝ) ℝ} {fixed : PyDict V ℝ} {rounds : List (V × List (HV V ℝ))}
    {memo memo' : Memo ℝ} {e : Err}
    (hc : TermsCanonical posy) (hne : posy ≠ []) (hpos : ∀ t ∈ posy, 0 < t.2) (hfix : ∀ v c, fixed.get? v = some c → 0 < c)
    (ho : SetOrder (varlocs posy fixed) rounds)
    (h : formStep tol posy fixed rounds memo = (.error e, memo')) :
    (∀ pt, (∀ v, 0 < pt v) → 1 < termsVal (override pt fixed) posy) ∧
    ((∀ t ∈ posy, ∀ v x, t.1.get? v = some x → fixed.contains v = true) →
      e = .primalInfeasible ∧ ∀ pt, 1 + tol < termsVal (override pt fixed) posy) := by
  have hwf := ((termsCanonical_iff _).1 hc).1
  obtain ⟨hm, hm1⟩ := C06_sub_total (h := (⟨posy, none⟩ : NMap V ℝ ℤ)) hc hne ho (fun v c hv => Or.inl (hfix v c hv))
  have hm2 := hm1
  unfold NMap.sub at hm1
  obtain ⟨s, hs, hs2⟩ := except_bind_ok hm1
  cases hs2
  simp only at hs
  obtain ⟨hval, hcpne, _⟩ := subState_spec hc hne ho hs
  have hcp := subState_pos hwf hpos hfix hs
  obtain ⟨pmap, hpm⟩ := mmap_total (subState_emk hwf hs) (fun t ht => (hcp t ht).ne')
  unfold formStep at h
  rw [hs] at h
  simp only at h
  rw [hpm] at h
  simp only [Prod.mk.injEq] at h
  have h1 := h.1
  have hspec := simplify_spec htol (fun t ht => (hcp t ht).le)
  have hrest : ∀ pt : V → ℝ, (∀ v, 0 < pt v) → 0 ≤ termsVal pt (s.cp.del HV.empty) := by
    intro pt hpt
    unfold termsVal
    apply List.sum_nonneg
    intro x hx
    obtain ⟨t, ht, rfl⟩ := List.mem_map.1 hx
    exact mul_nonneg (hcp t ((del_sublist _ _).subset ht)).le (monVal_pos hpt _).le
  have hall : (∀ t ∈ posy, ∀ v x, t.1.get? v = some x → fixed.contains v = true) → ∀ pt,
      s.cp = [(HV.empty, termsVal (override pt fixed) posy)] := by
    intro h3 pt
    exact C06_sub_all (h := ⟨posy, none⟩) hc hne ho hm2 h3 (override pt fixed) (override_agrees pt fixed)
  cases hq : simplifyPosyIneq tol s.cp with
  | error e' =>
    rw [hq] at hspec h1
    cases h1
    obtain ⟨c, h4, h5, h6⟩ := hspec
    constructor
    · intro pt hpt
      rw [← hval, termsVal_split pt h4]
      rcases h6 with ⟨_, h6⟩ | ⟨_, h6, h7⟩
      · linarith [hrest pt hpt]
      · have : 0 < termsVal pt (s.cp.del HV.empty) :=
          termsVal_pos hpt h7 (fun t ht => hcp t ((del_sublist _ _).subset ht))
        linarith
    · intro h3
      rcases h6 with ⟨h6, h7⟩ | ⟨_, _, h7⟩
      · refine ⟨h6, fun pt => ?_⟩
        have := hall h3 pt
        rw [this] at h4
        simp [get?_cons] at h4
        rw [h4]; exact h7
      · exact absurd (by rw [hall h3 (fun _ => 1)]; simp [PyDict.del]) h7
  | ok r =>
    rw [hq] at hspec h1
    cases r with
    | none => cases h1
    | some f =>
      simp only [checkForm] at h1
      by_cases hany : f.any (fun t => decide (t.2 ≤ 0)) = true
      swap
      · rw [if_neg hany] at h1; cases h1
      rw [List.any_eq_true] at hany
      obtain ⟨t, ht, ht2⟩ := hany
      rw [decide_eq_true_eq] at ht2
      rcases hspec with ⟨h4, h5⟩ | ⟨c, h4, h5, h6, h7⟩ | ⟨c, h4, h5, _, h6, h7, _⟩
      · rw [h5] at ht; linarith [hcp t ht]
      · rw [h6] at ht
        unfold dictScale at ht
        obtain ⟨u, hu, rfl⟩ := List.mem_map.1 ht
        have := mul_pos (hcp u ((del_sublist _ _).subset hu)) (inv_pos.2 (show 0 < 1 - c by linarith))
        exact absurd ht2 (not_le.2 this)
      · constructor
        · intro pt hpt
          rw [← hval, termsVal_split pt h4]
          linarith [hrest pt hpt]
        · intro h3
          refine absurd ?_ h6
          rw [h7, hall h3 (fun _ => 1)]; simp [PyDict.del, dictScale]

theorem asHmapslt1_single {tol : ℝ} {posy : PyDict (HV V ℝ) ℝ} {fixed : PyDict V ℝ} {ord : Orders V ℝ} {memo : Memo ℝ} :
    asHmapslt1 tol [posy] fixed ord memo = formStep tol posy fixed (ord posy fixed) memo := by
  unfold asHmapslt1
  simp only [List.foldl_cons, List.foldl_nil, List.nil_append]
  generalize formStep tol posy fixed (ord posy fixed) memo = r
  obtain ⟨r1, r2⟩ := r
  cases r1 <;> rfl

theorem override_pos {pt : V → ℝ} {fixed : PyDict V ℝ} (hpt : ∀ v, 0 < pt v) (hfix : ∀ v c, fixed.get? v = some c → 0 < c) :
    ∀ v, 0 < override pt fixed v := by
  intro v
  unfold override
  cases h : fixed.get? v with
  | none => exact hpt v
  | some c => exact hfix v c h

/-- C13 for a whole constraint `p <= m` (where C12 holds, outside `SignomialsEnabled`): from the two sides to what the solver gets. -/
theorem C13_constraint_partial {tol : ℝ} (htol : 0 ≤ tol) {p m : NMap V ℝ D} {mexp : HV V ℝ} {mc : ℝ} {unsubbed : List (Nomial V ℝ D)}
    (hp : TermsCanonical p.terms) (hne : p.terms ≠ []) (hpos : ∀ t ∈ p.terms, 0 < t.2)
    (hm : m.terms = [(mexp, mc)]) (hme : ExpCanonical mexp.items) (hmc : 0 < mc)
    (hpu : UnitOK p.units) (hmu : UnitOK m.units) (hclash : NoClash mexp p.terms)
    (hu : genUnsubbed false tol p m = .ok unsubbed)
    {fixed : PyDict V ℝ} (hfix : ∀ v c, fixed.get? v = some c → 0 < c) {ord : Orders V ℝ} (hord : ord.Valid)
    {memo memo' : Memo ℝ} {forms : List (PyDict (HV V ℝ) ℝ)}
    (h : asHmapslt1 tol (unsubbed.map (fun n => n.hmap.terms)) fixed ord memo = (.ok forms, memo')) :
    (forms = [] ∧ ∃ c, c ≤ 1 + tol ∧ ∀ pt, (∀ v, 0 < pt v) → physVal (override pt fixed) p = c * physVal (override pt fixed) m) ∨
    (∃ f, forms = [f] ∧ f ≠ [] ∧ (∀ t ∈ f, 0 < t.2) ∧ f.get? HV.empty = none ∧
      ∀ pt, (∀ v, 0 < pt v) → (termsVal pt f ≤ 1 ↔ physVal (override pt fixed) p ≤ physVal (override pt fixed) m)) := by
  rcases C12_form_partial htol hp hne hpos hm hme hmc hpu hmu hclash hu with
    ⟨rfl, c, hc, hc2⟩ | ⟨f, rfl, hf1, hf2, hf3, hf4, hf5, c0, hc0, hc1, hc2⟩ | ⟨h1, _⟩
  · left
    have : forms = [] := by
      unfold asHmapslt1 at h
      simp only [List.map_nil, List.foldl_nil, Prod.mk.injEq] at h
      have := h.1
      cases this; rfl
    exact ⟨this, c, hc, fun pt hpt => hc2 _ (override_pos hpt hfix)⟩
  · simp only [List.map_cons, List.map_nil] at h
    rw [asHmapslt1_single] at h
    rcases C13_form htol hf2 hf3 hf1 (fun v c hv => (hfix v c hv).le) (hord _ _) h with
      ⟨h1, c, h2, h3⟩ | ⟨g, h1, h2, h3, _, h4, h5⟩
    · left
      refine ⟨h1, c0 + (1 - c0) * c, ?_, ?_⟩
      · nlinarith
      · intro pt hpt
        rw [hc2 _ (override_pos hpt hfix), h3 pt]
    · right
      refine ⟨g, h1, h2, h3, h4, fun pt hpt => ?_⟩
      rw [h5 pt, hf5 _ (override_pos hpt hfix)]
  · cases h1

/-- C13 does not hold for constants that are zero: `x <= 1` with `x = 0` raises ZeroDivisionError (in `mmap`). -/
theorem C13_error_fails :
    (formStep (1 / 1000) ([(⟨[((), 1)]⟩, 1)] : PyDict (HV Unit ℝ) ℝ) [((), 0)] [((), [⟨[((), 1)]⟩])] {}).1 = .error .zeroDivision ∧
    SetOrder (varlocs ([(⟨[((), 1)]⟩, 1)] : PyDict (HV Unit ℝ) ℝ) [((), 0)]) [((), [⟨[((), 1)]⟩])] ∧
    termsVal (override (fun _ => 1) [((), 0)]) ([(⟨[((), 1)]⟩, 1)] : PyDict (HV Unit ℝ) ℝ) ≤ 1 := by
  refine ⟨?_, ?_, ?_⟩
  · norm_num [formStep, subState, subRound, subinplace, subInit, csUpdate, subAdd, PyDict.get?, PyDict.set, PyDict.del, PyDict.contains,
      PyDict.keys, HV.get?, HV.del, HV.empty, pwDom, pw_real, HV.beq_def, mmap, mmapStep, pyIndex, bind, pure, Except.bind, Except.pure,
      List.foldlM, List.isPerm]
  · norm_num [SetOrder, varlocs, varlocKeys, PyDict.contains, PyDict.get?, PyDict.keys]
  · norm_num [termsVal, monVal, override, PyDict.get?]

/-- C13 does not hold for inequalities made inside `SignomialsEnabled`: `x + 1.0005 <= 1` is kept as `-2000*x <= 1`, and with
`x = 5` it is dropped as always true. -/
theorem C13_signomial_fails :
    let p : NMap Unit ℝ ℤ := ⟨[(⟨[((), 1)]⟩, 1), (HV.empty, 2001 / 2000)], none⟩
    let m : NMap Unit ℝ ℤ := ⟨[(HV.empty, 1)], none⟩
    let f : PyDict (HV Unit ℝ) ℝ := [(⟨[((), 1)]⟩, -2000)]
    (∃ n, genUnsubbed true (1 / 1000) p m = .ok [n] ∧ n.hmap.terms = f) ∧
    SetOrder (varlocs f [((), 5)]) [((), [⟨[((), 1)]⟩])] ∧
    (formStep (1 / 1000) f [((), 5)] [((), [⟨[((), 1)]⟩])] {}).1 = .ok [] ∧
    physVal (fun _ => 5) p > 6 ∧ physVal (fun _ => 5) m = 1 := by
  refine ⟨?_, ?_, ?_, ?_, ?_⟩
  · refine ⟨⟨⟨[(⟨[((), 1)]⟩, -2000)], none⟩, .signomial⟩, ?_, rfl⟩
    norm_num [genUnsubbed, UnitCache.ratio, renameTerms, renameStep, List.foldlM, PyDict.get?, PyDict.set, PyDict.del,
      bind, pure, Except.bind, Except.pure, HV.beq_def, List.isPerm, HV.sub, HV.add, HV.scale, dictAdd, dictAddStep, dictScale, HV.empty,
      simplifyPosyIneq, wrapForm, mkSig, NMap.anyNonpositive, Except.map]
  · norm_num [SetOrder, varlocs, varlocKeys, PyDict.contains, PyDict.get?, PyDict.keys]
  · norm_num [formStep, subState, subRound, subinplace, subInit, csUpdate, subAdd, PyDict.get?, PyDict.set, PyDict.del, PyDict.contains,
      PyDict.keys, HV.get?, HV.del, HV.empty, pwDom, pw_real, HV.beq_def, mmap, mmapStep, pyIndex, bind, pure, Except.bind, Except.pure,
      List.foldlM, checkForm, simplifyPosyIneq, List.isPerm]
  · norm_num [physVal, unitScale, termsVal, monVal, HV.empty]
  · norm_num [physVal, unitScale, termsVal, monVal, HV.empty]

/-! ### C14 -/

theorem ratio_flip {a b : Option (UnitQ D ℝ)} {r : ℝ} (h : UnitCache.ratio a b = .ok r) : ∃ r', UnitCache.ratio b a = .ok r' := by
  unfold UnitCache.ratio UnitQ.float UnitQ.mul UnitQ.inv at *
  match a, b with
  | none, none => exact ⟨_, rfl⟩
  | some a, none =>
    simp only at h ⊢
    split_ifs at h with h1
    exact ⟨_, by rw [if_pos (by rw [h1]; simp)]⟩
  | none, some b =>
    simp only at h ⊢
    split_ifs at h with h1
    exact ⟨_, by rw [if_pos (by simpa using h1)]⟩
  | some a, some b =>
    simp only at h ⊢
    split_ifs at h with h1
    exact ⟨_, by rw [if_pos (by rw [← neg_eq_zero, neg_add]; simpa [add_comm] using h1)]⟩

/-- One half of a monomial equality. -/
theorem genUnsubbed_mono {se : Bool} {tol : ℝ} {l r : NMap V ℝ D} {el er : HV V ℝ} {cl cr : ℝ}
    (hl : l.terms = [(el, cl)]) (hr : r.terms = [(er, cr)]) (hel : ExpCanonical el.items) (her : ExpCanonical er.items)
    (hcl : 0 < cl) (hcr : 0 < cr) (hlu : UnitOK l.units) (hru : UnitOK r.units) {rho : ℝ}
    (hrho : UnitCache.ratio r.units l.units = .ok rho) :
    ∃ c, 0 < c ∧ (∀ pt, (∀ v, 0 < pt v) → physVal pt l = c * monVal pt (el.sub er).items * physVal pt r) ∧
    ((el.sub er = HV.empty ∧ c ≤ 1 + tol ∧ genUnsubbed se tol l r = .ok []) ∨
     (el.sub er = HV.empty ∧ 1 + tol < c ∧ genUnsubbed se tol l r = .error .primalInfeasible) ∨
     (el.sub er ≠ HV.empty ∧ ∃ n, genUnsubbed se tol l r = .ok [n] ∧ n.hmap.terms = [(el.sub er, c)])) := by
  obtain ⟨hr1, hr2⟩ := ratio_scale hru hlu hrho
  have hmr : 0 < cr * rho := mul_pos hcr hr2
  have hlc : TermsCanonical l.terms := by
    rw [hl]; exact ⟨by intro t ht; simp at ht; rw [ht]; exact ⟨hel, hcl.ne'⟩, by simp⟩
  have hren : renameTerms er (cr * rho) l.terms = .ok [(el.sub er, cl / (cr * rho))] := by
    rw [renameTerms_ok her hmr.ne' hlc (by rw [hl]; simp), hl]; rfl
  refine ⟨cl / (cr * rho), div_pos hcl hmr, ?_, ?_⟩
  · intro pt hpt
    have h2 := quotient_val hpt er hmr.ne' l.terms
    unfold physVal
    rw [← h2, hr, hl, ← hr1]
    simp only [termsVal_cons, termsVal_nil, add_zero, List.map_cons, List.map_nil]
    ring
  · have hgen : genUnsubbed se tol l r = (simplifyPosyIneq tol [(el.sub er, cl / (cr * rho))] >>= fun s => wrapForm se s none) := by
      unfold genUnsubbed
      rw [hr]
      simp only
      rw [hrho]
      show (renameTerms er (cr * rho) l.terms >>= fun ts => simplifyPosyIneq tol ts >>= fun s => wrapForm se s none) = _
      rw [hren]; rfl
    by_cases he : el.sub er = HV.empty
    · by_cases hc : cl / (cr * rho) ≤ 1 + tol
      · left
        refine ⟨he, hc, ?_⟩
        rw [hgen, he]
        have : simplifyPosyIneq tol [((HV.empty : HV V ℝ), cl / (cr * rho))] = .ok none := by
          unfold simplifyPosyIneq
          simp only [get?_cons, BEq.rfl, if_true]
          rw [if_pos ⟨by linarith, rfl⟩]
        rw [this]; rfl
      · right; left
        rw [not_le] at hc
        refine ⟨he, hc, ?_⟩
        rw [hgen, he]
        have : simplifyPosyIneq tol [((HV.empty : HV V ℝ), cl / (cr * rho))] = .error .primalInfeasible := by
          unfold simplifyPosyIneq
          simp only [get?_cons, BEq.rfl, if_true]
          rw [if_neg (by intro h; linarith [h.1]), if_pos (by linarith)]
        rw [this]; rfl
    · right; right
      refine ⟨he, ?_⟩
      have h1 : (el.sub er == HV.empty) = false := by
        by_contra h; rw [Bool.not_eq_false] at h; exact he (beq_empty_iff.1 h)
      have : simplifyPosyIneq tol [(el.sub er, cl / (cr * rho))] = .ok (some [(el.sub er, cl / (cr * rho))]) := by
        unfold simplifyPosyIneq
        simp only [get?_cons, h1, Bool.false_eq_true, if_false, get?_nil]
      rw [hgen, this]
      have hk : ∃ n, mkSig se true (⟨[(el.sub er, cl / (cr * rho))], none⟩ : NMap V ℝ D) = .ok n := by
        have h2 : (⟨[(el.sub er, cl / (cr * rho))], none⟩ : NMap V ℝ D).anyNonpositive = false := by
          have := div_pos hcl hmr
          simp only [NMap.anyNonpositive, List.any_cons, List.any_nil, Bool.or_false, decide_eq_false_iff_not, not_le]
          exact this
        unfold mkSig
        rw [h2]
        simp only [Bool.false_eq_true, if_false]
        exact ⟨_, rfl⟩
      obtain ⟨n, hn⟩ := hk
      refine ⟨n, ?_, by rw [mkSig_ok hn]⟩
      show wrapForm se (some [(el.sub er, cl / (cr * rho))]) none = _
      unfold wrapForm
      simp only [List.isEmpty_cons, Bool.false_eq_true, if_false]
      rw [hn]; rfl

theorem sub_empty_symm {a b : HV V ℝ} (ha : ExpCanonical a.items) (hb : ExpCanonical b.items) (h : a.sub b = HV.empty) :
    b.sub a = HV.empty := by
  have hw := ((expCanonical_iff _).1 ha).1
  have hw2 := ((expCanonical_iff _).1 hb).1
  refine beq_empty_iff.1 (beq_of_getD (HV.sub_canonical hb ha) (by simp [ExpCanonical, HV.empty]) ?_)
  intro k
  have h1 := getD_sub hw hw2 k
  rw [getD_sub hw2 hw k]
  rw [h] at h1
  simp [HV.empty, HV.get?] at h1 ⊢
  linarith

theorem monVal_sub_flip {pt : V → ℝ} (hpt : ∀ v, 0 < pt v) (a b : HV V ℝ) :
    monVal pt (a.sub b).items * monVal pt (b.sub a).items = 1 := by
  rw [monVal_sub hpt, monVal_sub hpt]
  have h1 := (monVal_pos hpt a.items).ne'
  have h2 := (monVal_pos hpt b.items).ne'
  field_simp

theorem physVal_mono_pos {m : NMap V ℝ D} {e : HV V ℝ} {c : ℝ} (hm : m.terms = [(e, c)]) (hc : 0 < c) (hu : UnitOK m.units)
    {pt : V → ℝ} (hpt : ∀ v, 0 < pt v) : 0 < physVal pt m := by
  unfold physVal
  rw [hm]
  simp only [termsVal_cons, termsVal_nil, add_zero]
  exact mul_pos hu (mul_pos hc (monVal_pos hpt _))

/-- C14, before substitution. The forms of `l == r` are none, if both sides are a constant multiple of each other and equal to within
`tol`; or two, `a <= 1` equivalent to `l <= r` and `b <= 1` equivalent to `r <= l`. -/
theorem C14_pair {se : Bool} {tol : ℝ} {l r : NMap V ℝ D} {el er : HV V ℝ} {cl cr : ℝ} {forms : List (Nomial V ℝ D)}
    (hl : l.terms = [(el, cl)]) (hr : r.terms = [(er, cr)]) (hel : ExpCanonical el.items) (her : ExpCanonical er.items)
    (hcl : 0 < cl) (hcr : 0 < cr) (hlu : UnitOK l.units) (hru : UnitOK r.units)
    (h : meqUnsubbed se tol l r = .ok forms) :
    (forms = [] ∧ ∃ c, 0 < c ∧ c ≤ 1 + tol ∧ c⁻¹ ≤ 1 + tol ∧ ∀ pt, (∀ v, 0 < pt v) → physVal pt l = c * physVal pt r) ∨
    (∃ a b, forms = [a, b] ∧
      (∃ ca, a.hmap.terms = [(el.sub er, ca)] ∧ 0 < ca ∧ ∃ cb, b.hmap.terms = [(er.sub el, cb)] ∧ 0 < cb) ∧ el.sub er ≠ HV.empty ∧
      ∀ pt, (∀ v, 0 < pt v) →
        (termsVal pt a.hmap.terms ≤ 1 ↔ physVal pt l ≤ physVal pt r) ∧
        (termsVal pt b.hmap.terms ≤ 1 ↔ physVal pt r ≤ physVal pt l) ∧
        physVal pt l = termsVal pt a.hmap.terms * physVal pt r ∧ termsVal pt a.hmap.terms * termsVal pt b.hmap.terms = 1) := by
  unfold meqUnsubbed at h
  obtain ⟨fa, ha, h1⟩ := except_bind_ok h
  obtain ⟨fb, hb, h2⟩ := except_bind_ok h1
  cases h2
  have hrho : ∃ rho, UnitCache.ratio r.units l.units = .ok rho := by
    unfold genUnsubbed at ha
    rw [hr] at ha
    simp only at ha
    obtain ⟨rho, h3, _⟩ := except_bind_ok ha
    exact ⟨rho, h3⟩
  obtain ⟨rho, hrho⟩ := hrho
  obtain ⟨rho', hrho'⟩ := ratio_flip hrho
  obtain ⟨c, hc0, hcv, hc⟩ := genUnsubbed_mono (se := se) (tol := tol) hl hr hel her hcl hcr hlu hru hrho
  obtain ⟨d, hd0, hdv, hd⟩ := genUnsubbed_mono (se := se) (tol := tol) hr hl her hel hcr hcl hru hlu hrho'
  have hcd : c * d = 1 := by
    have hp : ∀ v : V, (0:ℝ) < (fun _ => 1) v := by simp
    have e1 := hcv (fun _ => 1) hp
    have e2 := hdv (fun _ => 1) hp
    have e3 := monVal_sub_flip hp el er
    have e4 := physVal_mono_pos hr hcr hru hp
    rw [e1] at e2
    have : physVal (fun _ => 1) r * 1 = physVal (fun _ => 1) r * (c * d * (monVal (fun _ => 1) (el.sub er).items * monVal (fun _ => 1) (er.sub el).items)) := by
      rw [mul_one]; nth_rewrite 1 [e2]; ring
    rw [e3] at this
    have := mul_left_cancel₀ e4.ne' this
    linarith
  rcases hc with ⟨he, hc1, hc2⟩ | ⟨_, _, hc2⟩ | ⟨he, n, hc2, hc3⟩
  · left
    rcases hd with ⟨_, hd1, hd2⟩ | ⟨_, _, hd2⟩ | ⟨he', _⟩
    · rw [hc2] at ha; rw [hd2] at hb; cases ha; cases hb
      refine ⟨rfl, c, hc0, hc1, ?_, ?_⟩
      · rw [← eq_inv_of_mul_eq_one_right hcd]; exact hd1
      · intro pt hpt; rw [hcv pt hpt, he]; simp
    · rw [hd2] at hb; cases hb
    · exact absurd (sub_empty_symm hel her he) he'
  · rw [hc2] at ha; cases ha
  · right
    rcases hd with ⟨he', _⟩ | ⟨he', _⟩ | ⟨_, m, hd2, hd3⟩
    · exact absurd (sub_empty_symm her hel he') he
    · exact absurd (sub_empty_symm her hel he') he
    · rw [hc2] at ha; rw [hd2] at hb; cases ha; cases hb
      refine ⟨n, m, rfl, ⟨c, hc3, hc0, d, hd3, hd0⟩, he, ?_⟩
      intro pt hpt
      have e1 := hcv pt hpt
      have e2 := hdv pt hpt
      have e4 := physVal_mono_pos hr hcr hru hpt
      have e5 := physVal_mono_pos hl hcl hlu hpt
      have e3 := monVal_sub_flip hpt el er
      rw [hc3, hd3]
      simp only [termsVal_cons, termsVal_nil, add_zero]
      refine ⟨?_, ?_, e1, ?_⟩
      · rw [e1]; exact (mul_le_iff_le_one_left e4).symm
      · rw [e2]; exact (mul_le_iff_le_one_left e5).symm
      · calc _ = (c * d) * (monVal pt (el.sub er).items * monVal pt (er.sub el).items) := by ring
          _ = 1 := by rw [e3, hcd]; norm_num

/-- C14, exceptions before substitution. If the units match and `l == r` raises, the sides are constant multiples of each other that
differ by more than `tol`, and the exception says "infeasible". -/
theorem C14_error {se : Bool} {tol : ℝ} {l r : NMap V ℝ D} {el er : HV V ℝ} {cl cr rho : ℝ} {e : Err}
    (hl : l.terms = [(el, cl)]) (hr : r.terms = [(er, cr)]) (hel : ExpCanonical el.items) (her : ExpCanonical er.items)
    (hcl : 0 < cl) (hcr : 0 < cr) (hlu : UnitOK l.units) (hru : UnitOK r.units)
    (hrho : UnitCache.ratio r.units l.units = .ok rho)
    (h : meqUnsubbed se tol l r = .error e) :
    e = .primalInfeasible ∧ ∃ c, 0 < c ∧ (1 + tol < c ∨ 1 + tol < c⁻¹) ∧ ∀ pt, (∀ v, 0 < pt v) → physVal pt l = c * physVal pt r := by
  obtain ⟨rho', hrho'⟩ := ratio_flip hrho
  obtain ⟨c, hc0, hcv, hc⟩ := genUnsubbed_mono (se := se) (tol := tol) hl hr hel her hcl hcr hlu hru hrho
  obtain ⟨d, hd0, hdv, hd⟩ := genUnsubbed_mono (se := se) (tol := tol) hr hl her hel hcr hcl hru hlu hrho'
  unfold meqUnsubbed at h
  rcases hc with ⟨he, hc1, hc2⟩ | ⟨he, hc1, hc2⟩ | ⟨he, n, hc2, hc3⟩
  · rw [hc2] at h
    rcases hd with ⟨_, _, hd2⟩ | ⟨he', hd1, hd2⟩ | ⟨he', _⟩
    · rw [hd2] at h; cases h
    · rw [hd2] at h; cases h
      refine ⟨rfl, d⁻¹, inv_pos.2 hd0, Or.inr (by rw [inv_inv]; exact hd1), fun pt hpt => ?_⟩
      rw [hdv pt hpt, he']
      simp only [monVal_empty]
      field_simp
    · exact absurd (sub_empty_symm hel her he) he'
  · rw [hc2] at h; cases h
    exact ⟨rfl, c, hc0, Or.inl hc1, fun pt hpt => by rw [hcv pt hpt, he]; simp⟩
  · rw [hc2] at h
    rcases hd with ⟨he', _⟩ | ⟨he', _⟩ | ⟨_, m, hd2, hd3⟩
    · exact absurd (sub_empty_symm her hel he') he
    · exact absurd (sub_empty_symm her hel he') he
    · rw [hd2] at h; cases h

/-- The form of one monomial is dropped exactly if all its variables are constants. -/
theorem mono_dropped {tol : ℝ} (htol : 0 ≤ tol) {e : HV V ℝ} {k : ℝ} {fixed : PyDict V ℝ} {rounds : List (V × List (HV V ℝ))}
    {memo memo' : Memo ℝ} {forms : List (PyDict (HV V ℝ) ℝ)}
    (hc : ExpCanonical e.items) (hk : 0 < k) (hfix : ∀ v c, fixed.get? v = some c → 0 < c)
    (ho : SetOrder (varlocs [(e, k)] fixed) rounds)
    (h : formStep tol [(e, k)] fixed rounds memo = (.ok forms, memo')) :
    forms = [] ↔ ∀ v, e.get? v ≠ none → fixed.contains v = true := by
  have hcan : TermsCanonical [(e, k)] := ⟨by intro t ht; simp at ht; rw [ht]; exact ⟨hc, hk.ne'⟩, by simp⟩
  have hpos : ∀ t ∈ [(e, k)], 0 < t.2 := by intro t ht; simp at ht; rw [ht]; exact hk
  constructor
  · intro hf v hv
    by_contra hnf
    rw [Bool.not_eq_true, contains_eq_false] at hnf
    rcases C13_form htol hcan (by simp) hpos (fun v c h => (hfix v c h).le) ho h with ⟨_, c, _, h2⟩ | ⟨f, h1, _⟩
    swap
    · rw [hf] at h1; cases h1
    obtain ⟨x, hx⟩ := Option.ne_none_iff_exists'.1 hv
    have hx0 : x ≠ 0 := by
      have := (expCanonical_iff _).1 hc
      exact this.2 (v, x) ((mem_iff_get? this.1 v x).2 hx)
    have h3 := (h2 (fun _ => 1)).trans (h2 (fun w => if w = v then 2 else 1)).symm
    simp only [termsVal_cons, termsVal_nil, add_zero] at h3
    have h4 := mul_left_cancel₀ hk.ne' h3
    rw [monVal_del _ hx, monVal_del _ hx] at h4
    have h5 : monVal (override (fun w => if w = v then (2:ℝ) else 1) fixed) (e.del v).items =
        monVal (override (fun _ => (1:ℝ)) fixed) (e.del v).items := by
      unfold monVal
      congr 1
      apply List.map_congr_left
      intro kx hkx
      have hne : kx.1 ≠ v := by
        intro hkv
        have hw := ((expCanonical_iff _).1 hc).1
        have h6 := hv_get?_del hw v v
        rw [if_pos rfl] at h6
        unfold HV.get? at h6
        rw [get?_eq_none_iff] at h6
        have := h6 kx hkx
        rw [hkv] at this; simp at this
      simp [override, hne]
    rw [h5] at h4
    have h6 : 0 < monVal (override (fun _ => (1:ℝ)) fixed) (e.del v).items :=
      monVal_pos (override_pos (by simp) hfix) _
    have h7 := mul_right_cancel₀ h6.ne' h4
    simp [override, hnf] at h7
    have h8 : (1:ℝ) = 2 := Real.rpow_left_injOn hx0 (show (1:ℝ) ∈ {y | 0 ≤ y} by simp) (show (2:ℝ) ∈ {y | 0 ≤ y} by simp)
      (show (1:ℝ) ^ x = 2 ^ x by simpa using h7)
    norm_num at h8
  · intro hall
    rcases C13_form htol hcan (by simp) hpos (fun v c h => (hfix v c h).le) ho h with ⟨h1, _⟩ | ⟨f, h1, h2, h3, h4, h5, h6⟩
    · exact h1
    · exfalso
      unfold formStep at h
      cases hs : subState [(e, k)] fixed rounds with
      | error e => rw [hs] at h; simp at h
      | ok s =>
        have hs1 : (⟨[(e, k)], none⟩ : NMap V ℝ ℤ).sub fixed rounds = .ok ⟨s.cp, none⟩ := by
          unfold NMap.sub; simp only; rw [hs]; rfl
        have hcp := C06_sub_all (h := ⟨[(e, k)], none⟩) hcan (by simp) ho hs1 (by
          intro t ht v x hx
          simp at ht; rw [ht] at hx
          exact hall v (by rw [hx]; simp)) (override (fun _ => 1) fixed) (override_agrees _ _)
        simp only at hcp
        rw [hs] at h
        simp only at h
        cases hm : mmap s [(e, k)] with
        | error e => rw [hm] at h; simp at h
        | ok pmap =>
          rw [hm] at h
          simp only [Prod.mk.injEq] at h
          have h7 := h.1
          rw [hcp] at h7
          have hspec := simplify_spec htol (ts := s.cp) (fun t ht => (subState_pos ((termsCanonical_iff _).1 hcan).1 hpos hfix hs t ht).le)
          rw [hcp] at hspec
          cases hq : simplifyPosyIneq tol [((HV.empty : HV V ℝ), termsVal (override (fun _ => 1) fixed) [(e, k)])] with
          | error _ => rw [hq] at h7; cases h7
          | ok r =>
            rw [hq] at h7 hspec
            cases r with
            | none => rw [h1] at h7; cases h7
            | some g =>
              simp only at hspec
              rcases hspec with ⟨h8, _⟩ | ⟨c, _, _, h8, h9⟩ | ⟨c, _, _, _, h9, h8, _⟩
              · simp [get?_cons] at h8
              · rw [h8] at h9; simp [PyDict.del, dictScale] at h9
              · rw [h8] at h9; simp [PyDict.del, dictScale] at h9

theorem asHmapslt1_pair {tol : ℝ} {p q : PyDict (HV V ℝ) ℝ} {fixed : PyDict V ℝ} {ord : Orders V ℝ} {memo memo' : Memo ℝ}
    {out : List (PyDict (HV V ℝ) ℝ)} (h : asHmapslt1 tol [p, q] fixed ord memo = (.ok out, memo')) :
    ∃ f g m1 m2, formStep tol p fixed (ord p fixed) memo = (.ok f, m1) ∧ formStep tol q fixed (ord q fixed) m1 = (.ok g, m2) ∧
      out = f ++ g := by
  unfold asHmapslt1 at h
  simp only [List.foldl_cons, List.foldl_nil, List.nil_append] at h
  generalize h1 : formStep tol p fixed (ord p fixed) memo = r1 at h
  obtain ⟨r1, m1⟩ := r1
  cases r1 with
  | error e => simp [Except.map] at h
  | ok f =>
    simp only [Except.map] at h
    generalize h2 : formStep tol q fixed (ord q fixed) m1 = r2 at h
    obtain ⟨r2, m2⟩ := r2
    cases r2 with
    | error e => simp at h
    | ok g =>
      simp only [Prod.mk.injEq, Except.ok.injEq] at h
      exact ⟨f, g, m1, m2, rfl, h2, h.1.symm⟩

/-- The same variables occur in both halves. -/
theorem sub_get?_ne_none {a b : HV V ℝ} (ha : ExpCanonical a.items) (hb : ExpCanonical b.items) (v : V) :
    (a.sub b).get? v ≠ none ↔ (b.sub a).get? v ≠ none := by
  have hw := ((expCanonical_iff _).1 ha).1
  have hw2 := ((expCanonical_iff _).1 hb).1
  have h1 := (expCanonical_iff _).1 (HV.sub_canonical ha hb)
  have h2 := (expCanonical_iff _).1 (HV.sub_canonical hb ha)
  have e1 := get?_eq_of_getD h1.1 h1.2 v
  have e2 := get?_eq_of_getD h2.1 h2.2 v
  have e3 := getD_sub hw hw2 v
  have e4 := getD_sub hw2 hw v
  unfold HV.get? at *
  rw [e1, e2, e3, e4]
  have : (PyDict.get? a.items v).getD 0 - (PyDict.get? b.items v).getD 0 = 0 ↔ (PyDict.get? b.items v).getD 0 - (PyDict.get? a.items v).getD 0 = 0 := by
    constructor <;> intro h <;> linarith
  by_cases hz : (PyDict.get? a.items v).getD 0 - (PyDict.get? b.items v).getD 0 = 0
  · rw [if_pos hz, if_pos (this.1 hz)]
  · rw [if_neg hz, if_neg (fun h => hz (this.2 h))]; simp

/-- C14. What the solver gets for `l == r` after substituting positive constants: nothing, if the sides have become constant
multiples of each other, equal to within `tol`; or exactly two forms which hold together exactly where `l = r`. -/
theorem C14_solver_form {se : Bool} {tol : ℝ} (htol : 0 ≤ tol) {l r : NMap V ℝ D} {el er : HV V ℝ} {cl cr : ℝ} {unsubbed : List (Nomial V ℝ D)}
    (hl : l.terms = [(el, cl)]) (hr : r.terms = [(er, cr)]) (hel : ExpCanonical el.items) (her : ExpCanonical er.items)
    (hcl : 0 < cl) (hcr : 0 < cr) (hlu : UnitOK l.units) (hru : UnitOK r.units)
    (hu : meqUnsubbed se tol l r = .ok unsubbed)
    {fixed : PyDict V ℝ} (hfix : ∀ v c, fixed.get? v = some c → 0 < c) {ord : Orders V ℝ} (hord : ord.Valid)
    {memo memo' : Memo ℝ} {forms : List (PyDict (HV V ℝ) ℝ)}
    (h : asHmapslt1 tol (unsubbed.map (fun n => n.hmap.terms)) fixed ord memo = (.ok forms, memo')) :
    (forms = [] ∧ ∃ c, 0 < c ∧ c ≤ 1 + tol ∧ c⁻¹ ≤ 1 + tol ∧
      ∀ pt, (∀ v, 0 < pt v) → physVal (override pt fixed) l = c * physVal (override pt fixed) r) ∨
    (∃ a b, forms = [a, b] ∧ (∀ t ∈ a, 0 < t.2) ∧ (∀ t ∈ b, 0 < t.2) ∧ ∀ pt, (∀ v, 0 < pt v) →
      (termsVal pt a ≤ 1 ↔ physVal (override pt fixed) l ≤ physVal (override pt fixed) r) ∧
      (termsVal pt b ≤ 1 ↔ physVal (override pt fixed) r ≤ physVal (override pt fixed) l)) := by
  rcases C14_pair hl hr hel her hcl hcr hlu hru hu with ⟨rfl, c, h1, h2, h3, h4⟩ | ⟨a, b, rfl, ⟨ca, ha1, ha2, cb, hb1, hb2⟩, hne, h5⟩
  · left
    have : forms = [] := by
      unfold asHmapslt1 at h
      simp only [List.map_nil, List.foldl_nil, Prod.mk.injEq] at h
      have := h.1
      cases this; rfl
    exact ⟨this, c, h1, h2, h3, fun pt hpt => h4 _ (override_pos hpt hfix)⟩
  · simp only [List.map_cons, List.map_nil] at h
    obtain ⟨f, g, m1, m2, hf, hg, hfg⟩ := asHmapslt1_pair h
    rw [ha1] at hf
    rw [hb1] at hg
    have hca := HV.sub_canonical hel her
    have hcb := HV.sub_canonical her hel
    have hda := mono_dropped htol hca ha2 hfix (hord _ _) hf
    have hdb := mono_dropped htol hcb hb2 hfix (hord _ _) hg
    have hiff : f = [] ↔ g = [] := by
      rw [hda, hdb]
      constructor
      · intro h6 v hv; exact h6 v ((sub_get?_ne_none hel her v).2 hv)
      · intro h6 v hv; exact h6 v ((sub_get?_ne_none hel her v).1 hv)
    have hcana : TermsCanonical [(el.sub er, ca)] := ⟨by intro t ht; simp at ht; rw [ht]; exact ⟨hca, ha2.ne'⟩, by simp⟩
    have hcanb : TermsCanonical [(er.sub el, cb)] := ⟨by intro t ht; simp at ht; rw [ht]; exact ⟨hcb, hb2.ne'⟩, by simp⟩
    rcases C13_form htol hcana (by simp) (by intro t ht; simp at ht; rw [ht]; exact ha2) (fun v c hv => (hfix v c hv).le) (hord _ _) hf with
      ⟨h6, c, h7, h8⟩ | ⟨f1, h6, _, h7, _, _, h8⟩
    · left
      have h9 := hiff.1 h6
      rcases C13_form htol hcanb (by simp) (by intro t ht; simp at ht; rw [ht]; exact hb2) (fun v c hv => (hfix v c hv).le) (hord _ _) hg with
        ⟨_, d, h11, h12⟩ | ⟨f1, h10, _⟩
      · have hp1 := h5 (override (fun _ => 1) fixed) (override_pos (by simp) hfix)
        rw [ha1, hb1, h8, h12] at hp1
        have hcd := hp1.2.2.2
        have hc0 : 0 < c := by
          rw [← h8 (fun _ => 1)]
          exact termsVal_pos (override_pos (by simp) hfix) (by simp) (by intro t ht; simp at ht; rw [ht]; exact ha2)
        refine ⟨by rw [hfg, h6, h9]; rfl, c, hc0, h7, ?_, ?_⟩
        · rw [← eq_inv_of_mul_eq_one_right hcd]; exact h11
        · intro pt hpt
          have := (h5 _ (override_pos hpt hfix)).2.2.1
          rw [ha1, h8] at this
          exact this
      · rw [h9] at h10; cases h10
    · right
      rcases C13_form htol hcanb (by simp) (by intro t ht; simp at ht; rw [ht]; exact hb2) (fun v c hv => (hfix v c hv).le) (hord _ _) hg with
        ⟨h10, _⟩ | ⟨g1, h10, _, h11, _, _, h12⟩
      · rw [hiff.2 h10] at h6; cases h6
      · refine ⟨f1, g1, by rw [hfg, h6, h10]; rfl, h7, h11, fun pt hpt => ?_⟩
        have := h5 _ (override_pos hpt hfix)
        rw [ha1, hb1] at this
        exact ⟨(h8 pt).trans this.1, (h12 pt).trans this.2.1⟩

/-- Substituting positive constants into one monomial raises only if all its variables are constants. -/
theorem mono_error {tol : ℝ} (htol : 0 ≤ tol) {e : HV V ℝ} {k : ℝ} {fixed : PyDict V ℝ} {rounds : List (V × List (HV V ℝ))}
    {memo memo' : Memo ℝ} {err : Err}
    (hc : ExpCanonical e.items) (hk : 0 < k) (hfix : ∀ v c, fixed.get? v = some c → 0 < c)
    (ho : SetOrder (varlocs [(e, k)] fixed) rounds)
    (h : formStep tol [(e, k)] fixed rounds memo = (.error err, memo')) :
    err = .primalInfeasible ∧ ∃ c, 1 + tol < c ∧ ∀ pt, termsVal (override pt fixed) [(e, k)] = c := by
  have hcan : TermsCanonical [(e, k)] := ⟨by intro t ht; simp at ht; rw [ht]; exact ⟨hc, hk.ne'⟩, by simp⟩
  have hpos : ∀ t ∈ [(e, k)], 0 < t.2 := by intro t ht; simp at ht; rw [ht]; exact hk
  obtain ⟨h1, h2⟩ := C13_error_partial htol hcan (by simp) hpos hfix ho h
  have hw := ((expCanonical_iff _).1 hc)
  have hall : ∀ t ∈ [(e, k)], ∀ v x, t.1.get? v = some x → fixed.contains v = true := by
    intro t ht v x hx
    simp at ht; rw [ht] at hx
    simp only at hx
    by_contra hnf
    rw [Bool.not_eq_true, contains_eq_false] at hnf
    have hx0 : x ≠ 0 := hw.2 (v, x) ((mem_iff_get? hw.1 v x).2 hx)
    set R := monVal (override (fun _ => (1:ℝ)) fixed) (e.del v).items with hR
    have hRpos : 0 < R := monVal_pos (override_pos (by simp) hfix) _
    have hkR : 0 < (k * R)⁻¹ := inv_pos.2 (mul_pos hk hRpos)
    set y := (k * R)⁻¹ ^ x⁻¹ with hy
    have hyp : 0 < y := Real.rpow_pos_of_pos hkR _
    have h3 := h1 (fun w => if w = v then y else 1) (by intro w; split_ifs <;> [exact hyp; norm_num])
    simp only [termsVal_cons, termsVal_nil, add_zero] at h3
    rw [monVal_del _ hx] at h3
    have h5 : monVal (override (fun w => if w = v then y else 1) fixed) (e.del v).items = R := by
      rw [hR]
      unfold monVal
      congr 1
      apply List.map_congr_left
      intro kx hkx
      have hne : kx.1 ≠ v := by
        intro hkv
        have h6 := hv_get?_del hw.1 v v
        rw [if_pos rfl] at h6
        unfold HV.get? at h6
        rw [get?_eq_none_iff] at h6
        have := h6 kx hkx
        rw [hkv] at this; simp at this
      simp [override, hne]
    rw [h5] at h3
    have h6 : override (fun w => if w = v then y else 1) fixed v = y := by simp [override, hnf]
    rw [h6, hy, ← Real.rpow_mul hkR.le, inv_mul_cancel₀ hx0, Real.rpow_one] at h3
    have h7 : k * ((k * R)⁻¹ * R) = 1 := by field_simp
    linarith
  obtain ⟨h3, h4⟩ := h2 hall
  refine ⟨h3, termsVal (override (fun _ => 1) fixed) [(e, k)], h4 _, fun pt => ?_⟩
  apply termsVal_congr
  intro t ht kx hkx
  have htk := ht
  simp at ht; rw [ht] at hkx
  obtain ⟨c, hc⟩ := contains_iff.1 (hall (e, k) (by simp) kx.1 kx.2 (get?_of_mem hw.1 hkx))
  simp [override, hc]

/-- C14, exceptions after substituting positive constants: "infeasible" is raised, and the sides have become constant multiples of
each other that differ by more than `tol`. -/
theorem C14_solver_error {se : Bool} {tol : ℝ} (htol : 0 ≤ tol) {l r : NMap V ℝ D} {el er : HV V ℝ} {cl cr : ℝ} {unsubbed : List (Nomial V ℝ D)}
    (hl : l.terms = [(el, cl)]) (hr : r.terms = [(er, cr)]) (hel : ExpCanonical el.items) (her : ExpCanonical er.items)
    (hcl : 0 < cl) (hcr : 0 < cr) (hlu : UnitOK l.units) (hru : UnitOK r.units)
    (hu : meqUnsubbed se tol l r = .ok unsubbed)
    {fixed : PyDict V ℝ} (hfix : ∀ v c, fixed.get? v = some c → 0 < c) {ord : Orders V ℝ} (hord : ord.Valid)
    {memo memo' : Memo ℝ} {e : Err}
    (h : asHmapslt1 tol (unsubbed.map (fun n => n.hmap.terms)) fixed ord memo = (.error e, memo')) :
    e = .primalInfeasible ∧ ∃ c, 0 < c ∧ (1 + tol < c ∨ 1 + tol < c⁻¹) ∧
      ∀ pt, (∀ v, 0 < pt v) → physVal (override pt fixed) l = c * physVal (override pt fixed) r := by
  rcases C14_pair hl hr hel her hcl hcr hlu hru hu with ⟨rfl, c, h1, h2, h3, h4⟩ | ⟨a, b, rfl, ⟨ca, ha1, ha2, cb, hb1, hb2⟩, hne, h5⟩
  · unfold asHmapslt1 at h
    simp at h
  · simp only [List.map_cons, List.map_nil] at h
    have hca := HV.sub_canonical hel her
    have hcb := HV.sub_canonical her hel
    unfold asHmapslt1 at h
    simp only [List.foldl_cons, List.foldl_nil, List.nil_append] at h
    rw [ha1, hb1] at h
    generalize h1 : formStep tol [(el.sub er, ca)] fixed (ord [(el.sub er, ca)] fixed) memo = r1 at h
    obtain ⟨r1, m1⟩ := r1
    cases r1 with
    | error e' =>
      simp only [Except.map, Prod.mk.injEq, Except.error.injEq] at h
      obtain ⟨h6, c, h7, h8⟩ := mono_error htol hca ha2 hfix (hord _ _) h1
      refine ⟨h.1 ▸ h6, c, by linarith, Or.inl h7, fun pt hpt => ?_⟩
      have := (h5 _ (override_pos hpt hfix)).2.2.1
      rw [ha1, h8] at this
      exact this
    | ok f =>
      simp only [Except.map] at h
      generalize h2 : formStep tol [(er.sub el, cb)] fixed (ord [(er.sub el, cb)] fixed) m1 = r2 at h
      obtain ⟨r2, m2⟩ := r2
      cases r2 with
      | ok g => simp at h
      | error e' =>
        simp only [Prod.mk.injEq, Except.error.injEq] at h
        obtain ⟨h6, c, h7, h8⟩ := mono_error htol hcb hb2 hfix (hord _ _) h2
        have hc0 : 0 < c := by linarith
        refine ⟨h.1 ▸ h6, c⁻¹, inv_pos.2 hc0, Or.inr (by rw [inv_inv]; exact h7), fun pt hpt => ?_⟩
        have h9 := h5 _ (override_pos hpt hfix)
        have h10 := h9.2.2.2
        rw [hb1, h8] at h10
        rw [← eq_inv_of_mul_eq_one_left h10]
        exact h9.2.2.1

/-- The hypotheses of C14 hold for `x*y == 2*x**2`: it has two forms, and with `x = 3`, `y = 6` none. -/
example :
    let l : NMap Bool ℝ ℤ := ⟨[(⟨[(true, 1), (false, 1)]⟩, 1)], none⟩
    let r : NMap Bool ℝ ℤ := ⟨[(⟨[(true, 2)]⟩, 2)], none⟩
    ExpCanonical [(true, (1:ℝ)), (false, 1)] ∧ ExpCanonical [(true, (2:ℝ))] ∧
    ∃ a b, meqUnsubbed false (1 / 1000) l r = .ok [a, b] := by
  refine ⟨by simp [ExpCanonical], by simp [ExpCanonical], ?_⟩
  norm_num [meqUnsubbed, genUnsubbed, UnitCache.ratio, renameTerms, renameStep, List.foldlM, PyDict.get?, PyDict.set, PyDict.del,
    bind, pure, Except.bind, Except.pure, HV.beq_def, List.isPerm, HV.sub, HV.add, HV.scale, dictAdd, dictAddStep, dictScale, HV.empty,
    simplifyPosyIneq, wrapForm, mkSig, NMap.anyNonpositive, Except.map]

/-! ### C17 -/

theorem monoApproxStep_canonical {h : NMap V ℝ D} {vunits : V → Option (UnitQ D ℝ)} {x0 : PyDict V ℝ} {ord : Orders V ℝ} {c0 : ℝ}
    {st st' : ℝ × PyDict V ℝ} {vk : V} (hs : WF st.2 ∧ NZ st.2) (hok : monoApproxStep h vunits x0 ord c0 st vk = .ok st') :
    WF st'.2 ∧ NZ st'.2 := by
  unfold monoApproxStep at hok
  cases hv : x0.get? vk with
  | none => rw [hv] at hok; cases hok
  | some val =>
    rw [hv] at hok
    simp only at hok
    cases hd : (h.diff vk (vunits vk)).sub x0 (ord (h.diff vk (vunits vk)).terms x0) with
    | error e => rw [hd] at hok; cases hok
    | ok d =>
      rw [hd] at hok
      simp only at hok
      split at hok
      · rename_i t ht
        by_cases h0 : c0 = 0
        · rw [if_pos h0] at hok; cases hok
        rw [if_neg h0] at hok
        by_cases hp : pwDom val (val * t.2 / c0) = true
        swap
        · rw [if_neg hp] at hok; cases hok
        rw [if_pos hp] at hok
        cases hok
        split_ifs with hz
        · exact ⟨wf_set hs.1 _ _, hs.2.set hz⟩
        · exact hs
      · cases hok

/-- The approximating monomial is one canonical term with a positive coefficient. -/
theorem monoLowerBound_shape {p m : Nomial V ℝ D} {vunits : V → Option (UnitQ D ℝ)} {x0 : PyDict V ℝ} {ord : Orders V ℝ} {vs : List V}
    (hc : TermsCanonical p.hmap.terms) (hct : p.ClassTrue) (hm : p.monoLowerBound vunits x0 ord vs = .ok m) :
    ∃ e c, m.hmap.terms = [(e, c)] ∧ ExpCanonical e.items ∧ 0 < c := by
  unfold Nomial.monoLowerBound at hm
  by_cases hcls : p.cls = .monomial
  · rw [if_pos hcls] at hm; cases hm
    obtain ⟨e, c, h1, h2⟩ := hct.1.1 hcls
    exact ⟨e, c, h1, (hc.1 (e, c) (by rw [h1]; simp)).1, h2⟩
  · rw [if_neg hcls] at hm
    obtain ⟨mm, hm1, hm2⟩ := except_bind_ok hm
    have hmm := mkSig_ok hm2
    have hpos := mkSig_allPos (rp := true) rfl hm2
    unfold monoApprox at hm1
    cases hps : p.hmap.sub x0 (ord p.hmap.terms x0) with
    | error e => rw [hps] at hm1; cases hm1
    | ok ps =>
      rw [hps] at hm1
      simp only at hm1
      split at hm1
      · rename_i e0 c0 _
        by_cases he : e0.items.isEmpty = true
        swap
        · rw [if_neg he] at hm1; cases hm1
        rw [if_pos he] at hm1
        obtain ⟨st, hst, h2⟩ := except_bind_ok hm1
        cases h2
        have hinv : ∀ (vs : List V) (st st' : ℝ × PyDict V ℝ), WF st.2 ∧ NZ st.2 →
            vs.foldlM (monoApproxStep p.hmap vunits x0 ord c0) st = .ok st' → WF st'.2 ∧ NZ st'.2 := by
          intro vs
          induction vs with
          | nil => intro st st' h h1; cases h1; exact h
          | cons v vs ih =>
            intro st st' h h1
            rw [List.foldlM_cons] at h1
            obtain ⟨s1, h2, h3⟩ := except_bind_ok h1
            exact ih s1 st' (monoApproxStep_canonical h h2) h3
        have hcan := hinv vs (c0, []) st ⟨by simp, by intro p hp; cases hp⟩ hst
        rw [hmm]
        refine ⟨⟨st.2⟩, st.1, rfl, (expCanonical_iff _).2 hcan, ?_⟩
        unfold Nomial.AllPos at hpos
        rw [hmm] at hpos
        exact hpos (⟨st.2⟩, st.1) (by simp)
      · cases hm1

theorem fillX0_get? (vs : List V) (x0 : PyDict V ℝ) (v : V) :
    (fillX0 vs x0).get? v = if v ∈ vs then some ((x0.get? v).getD 1) else none := by
  induction vs with
  | nil => rfl
  | cons w vs ih =>
    have h1 : fillX0 (w :: vs) x0 = (w, (x0.get? w).getD 1) :: fillX0 vs x0 := rfl
    rw [h1, get?_cons, ih]
    by_cases hwv : w = v
    · subst hwv; simp
    · have h2 : ¬ v = w := fun h => hwv h.symm
      simp [hwv, h2]

theorem posyOrZero_some {se : Bool} {h : NMap V ℝ D} {n : Nomial V ℝ D} (hn : Nomial.posyOrZero se h = .ok (some n)) :
    n.hmap = h ∧ h.terms ≠ [] ∧ n.ClassTrue := by
  unfold Nomial.posyOrZero at hn
  by_cases he : h.terms.isEmpty = true
  · rw [if_pos he] at hn; cases hn
  rw [if_neg he] at hn
  cases hk : mkSig se true h with
  | error e => rw [hk] at hn; cases hn
  | ok k =>
    rw [hk] at hn
    cases hn
    exact ⟨mkSig_ok hk, by simpa using he, mkSig_classTrue hk⟩

theorem posyNegy_some {se : Bool} {a p n : Nomial V ℝ D} (hwf : WF a.hmap.terms) (h : a.posyNegy se = .ok (some p, some n)) :
    p.hmap = ⟨a.hmap.terms.filter (fun t => 0 < t.2), a.hmap.units⟩ ∧ p.hmap.terms ≠ [] ∧
    n.hmap = ⟨(a.hmap.terms.filter (fun t => t.2 < 0)).map (fun t => (t.1, -t.2)), a.hmap.units⟩ ∧ n.hmap.terms ≠ [] := by
  have hf := posyNegy_foldl (p := []) (n := []) (ts := a.hmap.terms) (by simpa using hwf) (by simpa using hwf)
  simp only [List.nil_append] at hf
  unfold Nomial.posyNegy at h
  rw [hf] at h
  obtain ⟨op, h1, h2⟩ := except_bind_ok h
  obtain ⟨on, h3, h4⟩ := except_bind_ok h2
  cases h4
  obtain ⟨p1, p2, _⟩ := posyOrZero_some h1
  obtain ⟨n1, n2, _⟩ := posyOrZero_some h3
  exact ⟨p1, by rw [p1]; exact p2, n1, by rw [n1]; exact n2⟩

theorem posyNegy_classTrue {se : Bool} {a p n : Nomial V ℝ D} (h : a.posyNegy se = .ok (some p, some n)) :
    p.ClassTrue ∧ n.ClassTrue := by
  unfold Nomial.posyNegy at h
  obtain ⟨op, h1, h2⟩ := except_bind_ok h
  obtain ⟨on, h3, h4⟩ := except_bind_ok h2
  cases h4
  exact ⟨(posyOrZero_some h1).2.2, (posyOrZero_some h3).2.2⟩

/-- C17 where C12 holds, with the factor by which the approximation is slackened. `sig <= 0` is replaced at `x0` (outside `SignomialsEnabled`). If
there is a form, the positive part of `sig` is at most `s` times the negative part wherever the form is at most `s`, and the form holds at `x0` if
`sig <= 0` does. If there is none, the positive part is at most `1 + tol` times the negative part everywhere. -/
theorem C17_slack_partial {tol : ℝ} (htol : 0 ≤ tol) {sig : Nomial V ℝ D} {vunits : V → Option (UnitQ D ℝ)} {x0 : PyDict V ℝ}
    {ord : Orders V ℝ} {setord : List V → List V} {forms : List (Nomial V ℝ D)}
    (hc : TermsTidy sig.hmap.terms) (hu : UnitOK sig.hmap.units) (ho : ord.Valid) (hset : ∀ l, (setord l).Perm l)
    (hx0 : ∀ v c, x0.get? v = some c → 0 < c)
    (hclash : ∀ posy negy m e c, sig.posyNegy false = .ok (some posy, some negy) →
      negy.monoLowerBound vunits (fillX0 negy.hmap.vks x0) ord (setord negy.hmap.vks) = .ok m →
      m.hmap.terms = [(e, c)] → NoClash e posy.hmap.terms)
    (h : asGpconstr false tol sig vunits x0 ord setord = .ok forms) :
    (forms = [] ∧ ∀ pt, (∀ v, 0 < pt v) →
      termsVal pt (sig.hmap.terms.filter (fun t => 0 < t.2)) ≤
        (1 + tol) * -termsVal pt (sig.hmap.terms.filter (fun t => t.2 < 0))) ∨
    (∃ f, forms = [f] ∧ f.AllPos ∧ TermsCanonical f.hmap.terms ∧ f.hmap.terms ≠ [] ∧
      (∀ pt, (∀ v, 0 < pt v) → ∀ s, 1 ≤ s → termsVal pt f.hmap.terms ≤ s →
        termsVal pt (sig.hmap.terms.filter (fun t => 0 < t.2)) ≤ s * -termsVal pt (sig.hmap.terms.filter (fun t => t.2 < 0))) ∧
      ∀ pt, (∀ v, pt v = (x0.get? v).getD 1) → termsVal pt sig.hmap.terms ≤ 0 → termsVal pt f.hmap.terms ≤ 1) := by
  have hwf := hc.1
  unfold asGpconstr at h
  obtain ⟨⟨op, on⟩, hpn, h'⟩ := except_bind_ok h
  clear h
  match op, on with
  | _, none => simp at h'
  | none, some _ => simp at h'
  | some posy, some negy =>
    simp only at h'
    obtain ⟨m, hm, h2⟩ := except_bind_ok h'
    obtain ⟨hp1, hp2, hn1, hn2⟩ := posyNegy_some hwf hpn
    set P := sig.hmap.terms.filter (fun t => 0 < t.2) with hP
    set N := sig.hmap.terms.filter (fun t => t.2 < 0) with hN
    have hPc : TermsCanonical posy.hmap.terms := by
      rw [hp1]
      rw [termsCanonical_iff]
      refine ⟨hwf.sublist List.filter_sublist, fun t ht => ?_, fun t ht => hc.2 t (List.mem_filter.1 ht).1⟩
      have : 0 < t.2 := by simpa using (List.mem_filter.1 ht).2
      exact this.ne'
    have hNc : TermsCanonical negy.hmap.terms := by
      rw [hn1]
      rw [termsCanonical_iff]
      refine ⟨?_, fun t ht => ?_, fun t ht => ?_⟩
      · unfold WF
        simp only
        rw [List.pairwise_map]
        exact hwf.sublist List.filter_sublist
      · obtain ⟨u, hu, rfl⟩ := List.mem_map.1 ht
        have : u.2 < 0 := by simpa using (List.mem_filter.1 hu).2
        exact neg_ne_zero.2 this.ne
      · obtain ⟨u, hu, rfl⟩ := List.mem_map.1 ht
        exact hc.2 u (List.mem_filter.1 hu).1
    have hPpos : ∀ t ∈ posy.hmap.terms, 0 < t.2 := by
      rw [hp1]; intro t ht; simpa using (List.mem_filter.1 ht).2
    have hNpos : negy.AllPos := by
      unfold Nomial.AllPos
      rw [hn1]; intro t ht
      obtain ⟨u, hu, rfl⟩ := List.mem_map.1 ht
      have := (List.mem_filter.1 hu).2
      simp only [decide_eq_true_eq] at this
      simpa using this
    obtain ⟨e, c, hme, hec, hcpos⟩ := monoLowerBound_shape hNc (posyNegy_classTrue hpn).2 hm
    have hx0c : ∀ t ∈ negy.hmap.terms, ∀ v x, t.1.get? v = some x → (fillX0 negy.hmap.vks x0).contains v = true := by
      intro t ht v x hx
      rw [contains_iff, fillX0_get?, if_pos (mem_vks.2 ⟨t, ht, by rw [hx]; simp⟩)]
      exact ⟨_, rfl⟩
    have hpt1 : ∀ v, 0 < (x0.get? v).getD 1 := by
      intro v
      cases hv : x0.get? v with
      | none => simp
      | some c => exact hx0 v c hv
    have htan := C11_tangent_lower_bound hNc hn2 hNpos ho (hset _) hx0c hm (fun v => (x0.get? v).getD 1)
      (by
        intro v c hv
        rw [fillX0_get?] at hv
        split_ifs at hv
        cases hv; rfl) hpt1
    have hmu : m.hmap.units = sig.hmap.units := by rw [htan.1, hn1]
    have hpu : posy.hmap.units = sig.hmap.units := by rw [hp1]
    have hnegval : ∀ pt, termsVal pt negy.hmap.terms = -termsVal pt N := by
      intro pt; rw [hn1]; simp only
      generalize N = l
      induction l with
      | nil => simp
      | cons t l ih => rw [List.map_cons, termsVal_cons, termsVal_cons, ih]; ring
    have hsig : ∀ pt, termsVal pt sig.hmap.terms = termsVal pt posy.hmap.terms - termsVal pt negy.hmap.terms := by
      intro pt
      obtain ⟨op, on, hpn2, _, hval, _⟩ := C08_posy_negy false sig hwf
      rw [hpn] at hpn2
      cases hpn2
      exact (hval pt).symm
    have hphys : ∀ pt, physVal pt posy.hmap = unitScale sig.hmap.units * termsVal pt posy.hmap.terms := by
      intro pt; unfold physVal; rw [hpu]
    have hphysm : ∀ pt, physVal pt m.hmap = unitScale sig.hmap.units * termsVal pt m.hmap.terms := by
      intro pt; unfold physVal; rw [hmu]
    rcases C12_form_partial htol hPc hp2 hPpos hme hec hcpos (by rw [hpu]; exact hu) (by rw [hmu]; exact hu)
      (hclash posy negy m e c hpn hm hme) h2 with ⟨rfl, k, hk, hk2⟩ | ⟨f, rfl, hf1, hf2, hf3, _, hf5, c0, hc0, hc1, hf6⟩ | ⟨h3, _⟩
    · left
      refine ⟨rfl, fun pt hpt => ?_⟩
      have h3 := hk2 pt hpt
      rw [hphys, hphysm] at h3
      have hu' : 0 < unitScale sig.hmap.units := hu
      have h4 : termsVal pt posy.hmap.terms = k * termsVal pt m.hmap.terms := by
        apply mul_left_cancel₀ hu'.ne'; rw [h3]; ring
      rw [← hnegval]
      have h5 := htan.2.2.2 pt hpt
      have h6 : 0 < termsVal pt m.hmap.terms := by
        rw [hme]; simp only [termsVal_cons, termsVal_nil, add_zero]; exact mul_pos hcpos (monVal_pos hpt _)
      have h7 : posy.hmap.terms = P := by rw [hp1]
      rw [← h7, h4]
      calc k * termsVal pt m.hmap.terms ≤ (1 + tol) * termsVal pt m.hmap.terms := by gcongr
        _ ≤ (1 + tol) * termsVal pt negy.hmap.terms := by gcongr
    · right
      have hu' : 0 < unitScale sig.hmap.units := hu
      refine ⟨f, rfl, hf1, hf2, hf3, ?_, ?_⟩
      · intro pt hpt s hs h3
        have h4 := hf6 pt hpt
        rw [hphys, hphysm] at h4
        have h5 : termsVal pt posy.hmap.terms = (c0 + (1 - c0) * termsVal pt f.hmap.terms) * termsVal pt m.hmap.terms := by
          apply mul_left_cancel₀ hu'.ne'; rw [h4]; ring
        have h6 : 0 < termsVal pt m.hmap.terms := by
          rw [hme]; simp only [termsVal_cons, termsVal_nil, add_zero]; exact mul_pos hcpos (monVal_pos hpt _)
        have h7 : posy.hmap.terms = P := by rw [hp1]
        have h8 : c0 + (1 - c0) * termsVal pt f.hmap.terms ≤ s := by nlinarith
        rw [← h7, ← hnegval, h5]
        calc (c0 + (1 - c0) * termsVal pt f.hmap.terms) * termsVal pt m.hmap.terms ≤ s * termsVal pt m.hmap.terms := by gcongr
          _ ≤ s * termsVal pt negy.hmap.terms := by have := htan.2.2.2 pt hpt; gcongr
      · intro pt hpt h3
        have hpt' : pt = fun v => (x0.get? v).getD 1 := funext hpt
        rw [hpt'] at h3 ⊢
        apply (hf5 _ hpt1).2
        rw [hphys, hphysm]
        apply mul_le_mul_of_nonneg_left _ hu'.le
        rw [htan.2.1]
        rw [hsig] at h3
        linarith
    · cases h3

theorem termsVal_parts {l : PyDict (HV V ℝ) ℝ} (pt : V → ℝ) :
    termsVal pt l = termsVal pt (l.filter (fun t => 0 < t.2)) + termsVal pt (l.filter (fun t => t.2 < 0)) := by
  induction l with
  | nil => simp
  | cons t l ih =>
    rw [termsVal_cons, ih, List.filter_cons, List.filter_cons]
    rcases lt_trichotomy t.2 0 with hlt | h0 | hgt
    · rw [if_neg (by simpa using hlt.le), if_pos (by simpa using hlt), termsVal_cons]; ring
    · rw [if_neg (by simp [h0]), if_neg (by simp [h0]), h0]; ring
    · rw [if_pos (by simpa using hgt), if_neg (by simpa using hgt.le), termsVal_cons]; ring

/-- C17 where C12 holds. `sig <= 0` is replaced at `x0` (outside `SignomialsEnabled`). If there is a form, it implies `sig <= 0` at
every positive point, and it holds at `x0` if `sig <= 0` does. If there is none, the positive part is at most `1 + tol` times the
negative part everywhere. -/
theorem C17_inner_approximation_partial {tol : ℝ} (htol : 0 ≤ tol) {sig : Nomial V ℝ D} {vunits : V → Option (UnitQ D ℝ)} {x0 : PyDict V ℝ}
    {ord : Orders V ℝ} {setord : List V → List V} {forms : List (Nomial V ℝ D)}
    (hc : TermsTidy sig.hmap.terms) (hu : UnitOK sig.hmap.units) (ho : ord.Valid) (hset : ∀ l, (setord l).Perm l)
    (hx0 : ∀ v c, x0.get? v = some c → 0 < c)
    (hclash : ∀ posy negy m e c, sig.posyNegy false = .ok (some posy, some negy) →
      negy.monoLowerBound vunits (fillX0 negy.hmap.vks x0) ord (setord negy.hmap.vks) = .ok m →
      m.hmap.terms = [(e, c)] → NoClash e posy.hmap.terms)
    (h : asGpconstr false tol sig vunits x0 ord setord = .ok forms) :
    (forms = [] ∧ ∀ pt, (∀ v, 0 < pt v) →
      termsVal pt (sig.hmap.terms.filter (fun t => 0 < t.2)) ≤
        (1 + tol) * -termsVal pt (sig.hmap.terms.filter (fun t => t.2 < 0))) ∨
    (∃ f, forms = [f] ∧ f.AllPos ∧ (∀ pt, (∀ v, 0 < pt v) → termsVal pt f.hmap.terms ≤ 1 → termsVal pt sig.hmap.terms ≤ 0) ∧
      ∀ pt, (∀ v, pt v = (x0.get? v).getD 1) → termsVal pt sig.hmap.terms ≤ 0 → termsVal pt f.hmap.terms ≤ 1) := by
  rcases C17_slack_partial htol hc hu ho hset hx0 hclash h with h1 | ⟨f, rfl, h1, _, _, h2, h3⟩
  · exact .inl h1
  · refine .inr ⟨f, rfl, h1, fun pt hpt h4 => ?_, h3⟩
    have h5 := h2 pt hpt 1 le_rfl h4
    have h6 := termsVal_parts (l := sig.hmap.terms) pt
    linarith

/-- C17 does not hold in full: `x**3 + x**2 - x <= 0` is replaced by `x <= 1`, but `x = 1` violates it (cf. `C12_form_fails`). -/
theorem C17_inner_approximation_fails :
    let sig : Nomial Unit ℝ ℤ := ⟨⟨[(⟨[((), 3)]⟩, 1), (⟨[((), 2)]⟩, 1), (⟨[((), 1)]⟩, -1)], none⟩, .signomial⟩
    (∃ f, asGpconstr false (1 / 1000) sig (fun _ => none) [] varlocs id = .ok [f] ∧ termsVal (fun _ => 1) f.hmap.terms ≤ 1) ∧
    termsVal (fun _ => 1) sig.hmap.terms = 1 := by
  constructor
  · refine ⟨⟨⟨[(⟨[((), 1)]⟩, 1)], none⟩, .monomial⟩, ?_, by norm_num [termsVal, monVal]⟩
    norm_num [asGpconstr, Nomial.posyNegy, Nomial.posyNegyStep, Nomial.posyOrZero, Nomial.monoLowerBound,
      genUnsubbed, UnitCache.ratio, renameTerms, renameStep, List.foldlM, PyDict.get?, PyDict.set, PyDict.del,
      bind, pure, Except.bind, Except.pure, HV.beq_def, List.isPerm, HV.sub, HV.add, HV.scale, dictAdd, dictAddStep, dictScale, HV.empty,
      simplifyPosyIneq, wrapForm, mkSig, NMap.anyNonpositive, Except.map]
  · norm_num [termsVal, monVal]

/-- The hypotheses of `C17_inner_approximation_partial` hold for `x**2 - y <= 0` at any guess. -/
example :
    let sig : Nomial Bool ℝ ℤ := ⟨⟨[(⟨[(true, 2)]⟩, 1), (⟨[(false, 1)]⟩, -1)], none⟩, .signomial⟩
    (∃ forms, asGpconstr false (1 / 1000) sig (fun _ => none) [] varlocs id = .ok forms) ∧
    ∀ posy negy m e c, sig.posyNegy false = .ok (some posy, some negy) →
      negy.monoLowerBound (fun _ => none) (fillX0 negy.hmap.vks []) varlocs (id negy.hmap.vks) = .ok m →
      m.hmap.terms = [(e, c)] → NoClash e posy.hmap.terms := by
  constructor
  · norm_num [asGpconstr, Nomial.posyNegy, Nomial.posyNegyStep, Nomial.posyOrZero, Nomial.monoLowerBound,
      genUnsubbed, UnitCache.ratio, renameTerms, renameStep, List.foldlM, PyDict.get?, PyDict.set, PyDict.del,
      bind, pure, Except.bind, Except.pure, HV.beq_def, List.isPerm, HV.sub, HV.add, HV.scale, dictAdd, dictAddStep, dictScale, HV.empty,
      simplifyPosyIneq, wrapForm, mkSig, NMap.anyNonpositive, Except.map]
  · intro posy negy m e c h _ _
    have : posy.hmap.terms = [(⟨[(true, 2)]⟩, 1)] := by
      rw [(posyNegy_some (by simp [wf_cons, HV.beq_def, List.isPerm]) h).1]; norm_num
    rw [this]
    simp [NoClash]

end Verif
