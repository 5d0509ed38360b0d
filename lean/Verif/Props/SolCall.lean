import Verif.Model.SolCall
import Verif.Props.Substitution

/-! Properties of evaluating expressions at a solution: C59. -/

set_option linter.unusedSectionVars false

namespace Verif
open PyDict SolCall
variable {V D : Type} [DecidableEq V]

/-- C59, variables: a variable of the solution has its value, in its units. -/
theorem C59_variable (vunits : V → Option (UnitQ D ℝ)) (se : Bool) (vars : PyDict V ℝ) (rounds : List (V × List (HV V ℝ))) (v : V) (c : ℝ)
    (hv : vars.get? v = some c) : call vunits se vars rounds (.var v : Query V ℝ D) = .ok (.num ⟨c, vunits v⟩) := by
  simp [call, subinto, hv, Except.map, coeff]

/-- C59, expressions: if the solution has positive values for all variables of an expression and the expression is positive there, `sol(expression)`
is its value, in its units; for every order of sets. -/
theorem C59_value (vunits : V → Option (UnitQ D ℝ)) (se : Bool) (vars : PyDict V ℝ) (rounds : List (V × List (HV V ℝ))) (n : Nomial V ℝ D)
    (hc : TermsCanonical n.hmap.terms) (hne : n.hmap.terms ≠ []) (ho : SetOrder (varlocs n.hmap.terms vars) rounds)
    (hall : ∀ t ∈ n.hmap.terms, ∀ v x, t.1.get? v = some x → vars.contains v = true) (hpos : ∀ v c, vars.get? v = some c → 0 < c) (pt : V → ℝ)
    (hpt : ∀ v c, vars.get? v = some c → pt v = c) (hval : 0 < termsVal pt n.hmap.terms) :
    call vunits se vars rounds (.nom n) = .ok (.num ⟨termsVal pt n.hmap.terms, n.hmap.units⟩) := by
  obtain ⟨h', hs⟩ := C06_sub_total hc hne ho (fun v c h => .inl (hpos v c h))
  have h1 := C06_sub_all hc hne ho hs hall pt hpt
  have h2 := (sub_ok hc hne ho hs).1
  have hm : mkSig se true h' = .ok ⟨h', .monomial⟩ := by
    unfold mkSig NMap.anyNonpositive
    rw [h1]
    simp [hval]
  simp [call, subinto, subOne, hs, bind, Except.bind, hm, Except.map, coeff, h1, h2]

/-- C59, sweeps: the answer has one entry for every solution, in order, each a constant monomial with the value at that solution. -/
theorem C59_sweep (vunits : V → Option (UnitQ D ℝ)) (se : Bool) (sols : List (PyDict V ℝ × List (V × List (HV V ℝ)))) (n : Nomial V ℝ D)
    (hc : TermsCanonical n.hmap.terms) (hne : n.hmap.terms ≠ [])
    (hs : ∀ s ∈ sols, SetOrder (varlocs n.hmap.terms s.1) s.2 ∧ (∀ t ∈ n.hmap.terms, ∀ v x, t.1.get? v = some x → s.1.contains v = true) ∧
      ∀ v c, s.1.get? v = some c → 0 < c) (pt : PyDict V ℝ → V → ℝ)
    (hpt : ∀ s ∈ sols, ∀ v c, s.1.get? v = some c → pt s.1 v = c) (hval : ∀ s ∈ sols, 0 < termsVal (pt s.1) n.hmap.terms) :
    callSweep vunits se sols (.nom n) =
      .ok (sols.map (fun s => .nom ⟨⟨[(HV.empty, termsVal (pt s.1) n.hmap.terms)], n.hmap.units⟩, .monomial⟩)) := by
  unfold callSweep
  induction sols with
  | nil => rfl
  | cons s sols ih =>
    obtain ⟨ho, hall, hpos⟩ := hs s (by simp)
    obtain ⟨h', hsub⟩ := C06_sub_total hc hne ho (fun v c h => .inl (hpos v c h))
    have h1 := C06_sub_all hc hne ho hsub hall (pt s.1) (hpt s (by simp))
    have h2 := (sub_ok hc hne ho hsub).1
    have hm : mkSig se true h' = .ok ⟨h', .monomial⟩ := by
      unfold mkSig NMap.anyNonpositive
      rw [h1]
      simp [hval s (by simp)]
    have hh : h' = ⟨[(HV.empty, termsVal (pt s.1) n.hmap.terms)], n.hmap.units⟩ := by
      rw [← h1, ← h2]
    rw [List.mapM_cons, ih (fun u hu => hs u (by simp [hu])) (fun u hu => hpt u (by simp [hu])) (fun u hu => hval u (by simp [hu]))]
    rw [hh] at hm
    simp [subinto, subOne, hsub, bind, Except.bind, hm, Except.map, pure, Except.pure, hh]

/-- C59 fails for values that are not positive: outside `SignomialsEnabled`, asking for the value of an expression that is zero or negative at the
solution raises InvalidPosynomial. -/
theorem C59_negative_fails (vunits : V → Option (UnitQ D ℝ)) (vars : PyDict V ℝ) (rounds : List (V × List (HV V ℝ))) (n : Nomial V ℝ D)
    (hc : TermsCanonical n.hmap.terms) (hne : n.hmap.terms ≠ []) (ho : SetOrder (varlocs n.hmap.terms vars) rounds)
    (hall : ∀ t ∈ n.hmap.terms, ∀ v x, t.1.get? v = some x → vars.contains v = true) (hpos : ∀ v c, vars.get? v = some c → 0 < c) (pt : V → ℝ)
    (hpt : ∀ v c, vars.get? v = some c → pt v = c) (hval : termsVal pt n.hmap.terms ≤ 0) :
    call vunits false vars rounds (.nom n) = .error .invalidPosynomial := by
  obtain ⟨h', hs⟩ := C06_sub_total hc hne ho (fun v c h => .inl (hpos v c h))
  have h1 := C06_sub_all hc hne ho hs hall pt hpt
  have hm : mkSig false true h' = .error .invalidPosynomial := by
    unfold mkSig NMap.anyNonpositive
    rw [h1]
    simp [hval]
  simp [call, subinto, subOne, hs, bind, Except.bind, hm, Except.map]

/-- C59 fails for variables the solution does not have: `sol(v)` is 1. -/
theorem C59_unknown_fails (vunits : V → Option (UnitQ D ℝ)) (se : Bool) (vars : PyDict V ℝ) (v : V) (hv : vars.get? v = none) :
    call vunits se vars [] (.var v : Query V ℝ D) = .ok (.num ⟨1, vunits v⟩) := by
  have hsub : ((varNomial vunits v : Nomial V ℝ D).hmap.sub vars []) = .ok (varNomial vunits v : Nomial V ℝ D).hmap := by
    unfold NMap.sub subState
    split
    · rfl
    · simp [bind, Except.bind, pure, Except.pure, subInit, varNomial, PyDict.set]
  have hm : mkSig se true (varNomial vunits v : Nomial V ℝ D).hmap = .ok ⟨(varNomial vunits v : Nomial V ℝ D).hmap, .monomial⟩ := by
    simp [mkSig, NMap.anyNonpositive, varNomial]
  have h1 : subOne se vars [] (varNomial vunits v : Nomial V ℝ D).hmap = .ok ⟨(varNomial vunits v : Nomial V ℝ D).hmap, .monomial⟩ := by
    rw [subOne, hsub]
    exact hm
  simp only [call, subinto, hv, h1, Except.map, coeff]
  simp [varNomial]

/-- The iteration order used in `C59_unknown_fails` is the only one. -/
theorem unknown_order (vunits : V → Option (UnitQ D ℝ)) (vars : PyDict V ℝ) (v : V) (hv : vars.get? v = none) :
    SetOrder (varlocs (varNomial vunits v : Nomial V ℝ D).hmap.terms vars) [] := by
  have hc : vars.contains v = false := contains_eq_false.2 hv
  have : varlocs (varNomial vunits v : Nomial V ℝ D).hmap.terms vars = [] := by
    simp [varlocs, varlocKeys, varNomial, PyDict.keys, hc]
  rw [this]
  exact List.Forall₂.nil

theorem expCanonical_filter {e : PyDict V ℝ} (h : ExpCanonical e) (p : V × ℝ → Bool) : ExpCanonical (e.filter p) :=
  ⟨h.1.sublist (List.filter_sublist.map _), fun kx hkx => h.2 kx (List.mem_filter.1 hkx).1⟩

/-- The value of an exponent vector when some variables are given. -/
theorem missing_split (vars : PyDict V ℝ) (pt : V → ℝ) (e : PyDict V ℝ) :
    monVal (override pt vars) e = monVal (fun v => (vars.get? v).getD 1) e * monVal pt (e.filter (fun p => !(vars.contains p.1))) := by
  induction e with
  | nil => simp [monVal]
  | cons p e ih =>
    have h1 : ∀ (q : V → ℝ) (l : PyDict V ℝ), monVal q (p :: l) = q p.1 ^ p.2 * monVal q l := by intro q l; simp [monVal]
    rw [h1, h1, ih, List.filter_cons]
    cases hg : vars.get? p.1 with
    | none =>
      have : vars.contains p.1 = false := contains_eq_false.2 hg
      simp only [override, hg, this, Bool.not_false, if_true, Option.getD_none, Real.one_rpow, one_mul, h1]
      ring
    | some d =>
      have : vars.contains p.1 = true := contains_iff.2 ⟨d, hg⟩
      simp only [override, hg, this, Bool.not_true, Option.getD_some]
      simp only [Bool.false_eq_true, if_false]
      ring

/-- C59 fails for monomials with variables the solution does not have: the answer is a number, computed as if these variables were 1. -/
theorem C59_missing_fails (vunits : V → Option (UnitQ D ℝ)) (se : Bool) (vars : PyDict V ℝ) (rounds : List (V × List (HV V ℝ))) (n : Nomial V ℝ D)
    (hc : TermsCanonical n.hmap.terms) (e : HV V ℝ) (c : ℝ) (hn : n.hmap.terms = [(e, c)]) (hcpos : 0 < c)
    (ho : SetOrder (varlocs n.hmap.terms vars) rounds) (hpos : ∀ v c, vars.get? v = some c → 0 < c) :
    call vunits se vars rounds (.nom n) = .ok (.num ⟨termsVal (fun v => (vars.get? v).getD 1) n.hmap.terms, n.hmap.units⟩) := by
  have hne : n.hmap.terms ≠ [] := by rw [hn]; simp
  obtain ⟨h', hs⟩ := C06_sub_total hc hne ho (fun v c h => .inl (hpos v c h))
  obtain ⟨h1, h2, h3, h4, h5⟩ := sub_ok hc hne ho hs
  set out : List (HV V ℝ × ℝ) := [(⟨e.items.filter (fun p => !(vars.contains p.1))⟩, termsVal (fun v => (vars.get? v).getD 1) n.hmap.terms)] with hout
  have hcpos' : 0 < termsVal (fun v => (vars.get? v).getD 1) n.hmap.terms := by
    rw [hn]
    simp only [termsVal, List.map_cons, List.map_nil, List.sum_cons, List.sum_nil, add_zero]
    refine mul_pos hcpos (List.prod_pos ?_)
    intro x hx
    obtain ⟨p, -, rfl⟩ := List.mem_map.1 hx
    apply Real.rpow_pos_of_pos
    show 0 < (vars.get? p.1).getD 1
    rcases hg : vars.get? p.1 with _ | d
    · exact one_pos
    · exact hpos _ _ hg
  have hce : ExpCanonical e.items := (hc.1 (e, c) (by rw [hn]; simp)).1
  have hco : TermsCanonical out := by
    refine ⟨?_, by simp [hout]⟩
    intro t ht
    rw [hout, List.mem_singleton] at ht
    subst ht
    exact ⟨expCanonical_filter hce _, ne_of_gt hcpos'⟩
  have hsame : ∀ pt : V → ℝ, termsVal pt h'.terms = termsVal pt out := by
    intro pt
    rw [(C06_sub_evaluates hc hne ho hs pt).1, hn, hout, hn]
    simp only [termsVal, List.map_cons, List.map_nil, List.sum_cons, List.sum_nil, add_zero]
    rw [mul_assoc, missing_split]
  have hone : h'.terms.length = 1 ∧ ∀ t ∈ h'.terms, t.2 = termsVal (fun v => (vars.get? v).getD 1) n.hmap.terms := by
    rcases h5 with h5 | h5
    · have := (hmapEq_iff h5 hco).2 (fun pt _ => hsame pt)
      unfold Nomial.hmapEq at this
      rw [Bool.and_eq_true, decide_eq_true_eq, List.all_eq_true] at this
      refine ⟨by rw [this.1, hout]; rfl, ?_⟩
      intro t ht
      have h7 := of_decide_eq_true (this.2 t ht)
      obtain ⟨k, hk, -⟩ := PyDict.exists_mem_of_get? h7
      rw [hout, List.mem_singleton] at hk
      exact congrArg Prod.snd hk
    · have := hsame (fun _ => 1)
      rw [h5, hout] at this
      simp only [termsVal, monVal, List.map_cons, List.map_nil, List.sum_cons, List.sum_nil, add_zero, zero_mul, Real.one_rpow] at this
      rw [List.prod_eq_one (by intro x hx; obtain ⟨_, -, rfl⟩ := List.mem_map.1 hx; rfl), mul_one] at this
      exact absurd this.symm (ne_of_gt hcpos')
  obtain ⟨t, ht⟩ := List.length_eq_one_iff.1 hone.1
  have ht2 := hone.2 t (by rw [ht]; simp)
  have hm : mkSig se true h' = .ok ⟨h', .monomial⟩ := by
    unfold mkSig NMap.anyNonpositive
    rw [ht]
    simp [ht2, hcpos']
  have h6 : subOne se vars rounds n.hmap = .ok ⟨h', .monomial⟩ := by
    rw [subOne, hs]
    exact hm
  simp only [call, subinto, h6, Except.map, coeff, ht, ht2, h1]

/-- The hypotheses of `C59_value` hold for 3·x with x = 2; the answer is 6. -/
example : call (fun _ => none) false ([(0, 2)] : PyDict ℕ ℝ) [(0, [⟨[(0, 1)]⟩])] (.nom ⟨⟨[(⟨[(0, 1)]⟩, 3)], none⟩, .monomial⟩ : Query ℕ ℝ ℕ) =
    .ok (.num ⟨6, none⟩) := by
  have hp : ∀ (v : ℕ) (c : ℝ), PyDict.get? [(0, (2 : ℝ))] v = some c → c = 2 ∧ v = 0 := by
    intro v c h
    simp only [PyDict.get?] at h
    split at h
    · rename_i h0
      exact ⟨(Option.some.inj h).symm, (eq_of_beq h0).symm⟩
    · cases h
  have := C59_value (fun _ => none) false ([(0, 2)] : PyDict ℕ ℝ) [(0, [⟨[(0, 1)]⟩])] (⟨⟨[(⟨[(0, 1)]⟩, 3)], none⟩, .monomial⟩ : Nomial ℕ ℝ ℕ)
    (by constructor <;> simp [ExpCanonical]) (by simp)
    (by
      have : varlocs ([(⟨[(0, 1)]⟩, 3)] : PyDict (HV ℕ ℝ) ℝ) [(0, (2:ℝ))] = [(0, [⟨[(0, 1)]⟩])] := by
        simp [varlocs, varlocKeys, PyDict.keys, PyDict.contains, PyDict.get?]
      rw [this]
      exact List.Forall₂.cons ⟨rfl, List.Perm.refl _⟩ List.Forall₂.nil)
    (by
      intro t ht v x hv
      rw [List.mem_singleton] at ht
      subst ht
      simp only [HV.get?, PyDict.get?] at hv
      split at hv
      · rename_i h0
        rw [← eq_of_beq h0]
        simp [PyDict.contains, PyDict.get?]
      · cases hv)
    (by intro v c h; rw [(hp v c h).1]; norm_num) (fun _ => 2) (by intro v c h; exact (hp v c h).1.symm) (by simp [termsVal, monVal])
  rw [this]
  norm_num [termsVal, monVal]

end Verif
