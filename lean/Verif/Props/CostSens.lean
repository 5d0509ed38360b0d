import Verif.Props.Sens
import Verif.Lemmas.Approx

/-!
# C56: sensitivities of constants in the cost
-/

set_option linter.unusedSectionVars false

namespace Verif
open PyDict Sens

section
variable {V D : Type} [DecidableEq V]

/-- The dual variables of the terms of the cost at a point: the share of each term in the value. -/
noncomputable def costDuals (pt : V → ℝ) (ts : PyDict (HV V ℝ) ℝ) : List ℝ := ts.map (fun t => t.2 * monVal pt t.1.items / termsVal pt ts)

/-- The logarithm of the value of the cost as a function of the logarithm of one constant. -/
noncomputable def logCost (pt : V → ℝ) (ts : PyDict (HV V ℝ) ℝ) (v : V) : ℝ → ℝ :=
  fun s => Real.log (termsVal (Function.update pt v (Real.exp s)) ts)

theorem logCost_hasDerivAt {pt : V → ℝ} {v : V} (hv : 0 < pt v) {ts : PyDict (HV V ℝ) ℝ} (h : ∀ t ∈ ts, WF t.1.items) (hpos : 0 < termsVal pt ts) :
    HasDerivAt (logCost pt ts v) (logGrad pt ts v / termsVal pt ts) (Real.log (pt v)) := by
  have hx : Real.exp (Real.log (pt v)) = pt v := Real.exp_log hv
  have h1 := termsVal_hasDerivAt hv h
  rw [← hx] at h1
  have h2 := h1.comp (Real.log (pt v)) (Real.hasDerivAt_exp _)
  have h3 := h2.log (by simp only [Function.comp]; rw [hx, Function.update_eq_self]; exact hpos.ne')
  refine h3.congr_deriv ?_
  simp only [Function.comp]
  rw [hx, Function.update_eq_self, ← val_diff_eq hv h, mul_comm]

theorem foldl_costSens : ∀ (l : List (ℝ × HV V ℝ)) (acc : PyDict V ℝ), WF acc → (∀ p ∈ l, WF p.2.items) → ∀ v,
    sensAt (l.foldl (fun acc p => dictAdd acc (dictScale p.2.items p.1)) acc) v = sensAt acc v + (l.map (fun p => p.1 * expo p.2 v)).sum := by
  intro l
  induction l with
  | nil => intros; simp
  | cons p l ih =>
    intro acc h1 h2 v
    have hp := h2 p List.mem_cons_self
    rw [List.foldl_cons, ih _ (dictAdd_wf h1 _) (fun q hq => h2 q (List.mem_cons_of_mem _ hq)), List.map_cons, List.sum_cons]
    have : sensAt (dictAdd acc (dictScale p.2.items p.1)) v = sensAt acc v + p.1 * expo p.2 v := by
      unfold sensAt
      rw [getD_dictAdd h1 (dictScale_wf hp _), get?_dictScale]
      unfold expo HV.get?
      cases p.2.items.get? v <;> simp [mul_comm]
    rw [this]; ring

theorem sensAt_costSens {nus : List ℝ} {exps : List (HV V ℝ)} (h : ∀ e ∈ exps, WF e.items) (v : V) :
    sensAt (costSens nus exps) v = ((nus.zip exps).map (fun p => p.1 * expo p.2 v)).sum := by
  unfold costSens
  rw [foldl_costSens _ _ wf_nil (fun p hp => h _ (List.of_mem_zip hp).2)]
  simp [sensAt]

theorem aligned_sum {pt pt' : V → ℝ} (T : ℝ) (v : V) {ts ts' : PyDict (HV V ℝ) ℝ}
    (hal : List.Forall₂ (fun t t' : HV V ℝ × ℝ => t.2 * monVal pt t.1.items = t'.2 * monVal pt' t'.1.items) ts ts') :
    (((ts'.map (fun t => t.2 * monVal pt' t.1.items / T)).zip ts.keys).map (fun p => p.1 * expo p.2 v)).sum = logGrad pt ts v / T := by
  unfold logGrad
  induction hal with
  | nil => simp [PyDict.keys]
  | cons h _ ih =>
    simp only [PyDict.keys, List.map_cons, List.zip_cons_cons, List.sum_cons] at ih ⊢
    rw [ih, ← h]; ring

/-- C56, where the terms of the substituted cost are in the same places as in the original: the sensitivity of the cost reported for a variable is the derivative of the
logarithm of the cost with respect to that of the variable. Missing: any other order, and merged terms (`C56_order_fails`, `C56_merge_fails`). -/
theorem C56_aligned_partial {h h' : NMap V ℝ D} {fixed : PyDict V ℝ} {rounds : List (V × List (HV V ℝ))}
    (hc : TermsCanonical h.terms) (hne : h.terms ≠ []) (ho : SetOrder (varlocs h.terms fixed) rounds)
    (hs : h.sub fixed rounds = .ok h') (pt : V → ℝ) (hpos : 0 < termsVal pt h'.terms) (v : V) (hv : 0 < override pt fixed v)
    (hal : List.Forall₂ (fun t t' : HV V ℝ × ℝ => t.2 * monVal (override pt fixed) t.1.items = t'.2 * monVal pt t'.1.items) h.terms h'.terms) :
    HasDerivAt (logCost (override pt fixed) h.terms v) (sensAt (costSens (costDuals pt h'.terms) h.terms.keys) v)
      (Real.log (override pt fixed v)) := by
  have hT := (C06_sub_evaluates hc hne ho hs pt).1
  have hw : ∀ t ∈ h.terms, WF t.1.items := fun t ht => ((expCanonical_iff _).1 (hc.1 t ht).1).1
  have h1 := logCost_hasDerivAt (ts := h.terms) hv hw (by rw [← hT]; exact hpos)
  refine h1.congr_deriv ?_
  rw [sensAt_costSens (by
    intro e he
    obtain ⟨t, ht, rfl⟩ := List.mem_map.1 he
    exact hw t ht)]
  unfold costDuals
  rw [aligned_sum _ v hal, hT]

theorem sub_nothing {h h' : NMap V ℝ D} {fixed : PyDict V ℝ} {rounds : List (V × List (HV V ℝ))}
    (hc : TermsCanonical h.terms) (ho : SetOrder (varlocs h.terms fixed) rounds) (hs : h.sub fixed rounds = .ok h')
    (hfree : ∀ t ∈ h.terms, ∀ kx ∈ t.1.items, fixed.get? kx.1 = none) : h'.terms = h.terms := by
  have hk : varlocKeys h.terms fixed = [] := by
    unfold varlocKeys
    have : ∀ l : List V, (∀ v ∈ l, fixed.contains v = false) →
        l.foldl (fun vs v => if fixed.contains v && !vs.contains v then vs ++ [v] else vs) [] = [] := by
      intro l
      induction l with
      | nil => intro _; rfl
      | cons a l ih =>
        intro hl
        rw [List.foldl_cons, hl a List.mem_cons_self]
        simpa using ih (fun v hv => hl v (List.mem_cons_of_mem _ hv))
    apply this
    intro v hv
    obtain ⟨t, ht, hv⟩ := List.mem_flatMap.1 hv
    obtain ⟨kx, hkx, rfl⟩ := List.mem_map.1 hv
    unfold PyDict.contains
    rw [hfree t ht kx hkx]; rfl
  have hr : rounds = [] := by
    unfold varlocs at ho
    rw [hk] at ho
    cases ho; rfl
  subst hr
  unfold NMap.sub subState at hs
  have hwf : WF h.terms := by
    refine hc.2.imp ?_
    intro a b hab
    rw [HV.beq_def]
    simpa [← List.isPerm_iff] using hab
  rw [subInit_eq hwf] at hs
  split_ifs at hs
  · cases hs; rfl
  · cases hs; rfl

/-- C56 for a cost in which no variable is fixed: `C56_aligned_partial` applies. (The constants it is about then only occur in constraints, and for them the sensitivity
of the cost is zero.) -/
theorem C56_free {h h' : NMap V ℝ D} {fixed : PyDict V ℝ} {rounds : List (V × List (HV V ℝ))}
    (hc : TermsCanonical h.terms) (hne : h.terms ≠ []) (ho : SetOrder (varlocs h.terms fixed) rounds)
    (hs : h.sub fixed rounds = .ok h') (hfree : ∀ t ∈ h.terms, ∀ kx ∈ t.1.items, fixed.get? kx.1 = none)
    (pt : V → ℝ) (hpos : 0 < termsVal pt h'.terms) (v : V) (hv : 0 < override pt fixed v) :
    HasDerivAt (logCost (override pt fixed) h.terms v) (sensAt (costSens (costDuals pt h'.terms) h.terms.keys) v)
      (Real.log (override pt fixed v)) := by
  refine C56_aligned_partial hc hne ho hs pt hpos v hv ?_
  rw [sub_nothing hc ho hs hfree]
  rw [List.forall₂_same]
  intro t ht
  congr 1
  unfold monVal
  congr 1
  apply List.map_congr_left
  intro kx hkx
  simp [override, hfree t ht kx hkx]

theorem subinplace_one {s s' : SubState V ℝ} {o : HV V ℝ} {vk : V} {c : ℝ} {p : HV V ℝ × ℝ} (hs : s.cp = [p])
    (h : subinplace s o vk c = .ok s') : ∃ p', s'.cp = [p'] := by
  unfold subinplace at h
  split at h
  · cases h
  · split at h
    · cases h
    · split at h
      · dsimp only at h
        split at h
        · rename_i e _ _ _ _ _ _ cc hcc
          cases h
          rw [hs] at hcc ⊢
          have hp : (p.1 == e) = true := by
            by_contra hp
            rw [get?_cons, if_neg hp] at hcc
            cases hcc
          have : PyDict.del [p] e = [] := by simp [PyDict.del, hp]
          rw [this]
          simp only [subAdd, get?_nil]
          split_ifs with h1 h2 h2 <;> first | exact ⟨_, rfl⟩ | simp_all [PyDict.set]
        · split at h
          · cases h; exact ⟨_, hs⟩
          · cases h; exact ⟨_, hs⟩
      · cases h

theorem sub_one {h h' : NMap V ℝ D} {fixed : PyDict V ℝ} {rounds : List (V × List (HV V ℝ))} {t : HV V ℝ × ℝ} (ht : h.terms = [t])
    (hs : h.sub fixed rounds = .ok h') : ∃ t', h'.terms = [t'] := by
  unfold NMap.sub at hs
  rw [ht] at hs
  cases hst : subState [t] fixed rounds with
  | error e => rw [hst] at hs; cases hs
  | ok s =>
    rw [hst] at hs
    cases hs
    show ∃ t', s.cp = [t']
    unfold subState at hst
    split_ifs at hst with hf
    · cases hst; exact ⟨_, rfl⟩
    · have hin : ∀ (l : List (HV V ℝ)) (vk : V) (c : ℝ) (s s' : SubState V ℝ), (∃ p, s.cp = [p]) →
          l.foldlM (fun s o => subinplace s o vk c) s = .ok s' → ∃ p, s'.cp = [p] := by
        intro l vk c
        induction l with
        | nil => intro s s' h1 h2; cases h2; exact h1
        | cons o l ih =>
          intro s s' ⟨p, h1⟩ h2
          rw [List.foldlM_cons] at h2
          cases h3 : subinplace s o vk c with
          | error e => rw [h3] at h2; cases h2
          | ok s1 => rw [h3] at h2; exact ih s1 s' (subinplace_one h1 h3) h2
      have hout : ∀ (l : List (V × List (HV V ℝ))) (s s' : SubState V ℝ), (∃ p, s.cp = [p]) →
          l.foldlM (subRound fixed) s = .ok s' → ∃ p, s'.cp = [p] := by
        intro l
        induction l with
        | nil => intro s s' h1 h2; cases h2; exact h1
        | cons r l ih =>
          intro s s' h1 h2
          rw [List.foldlM_cons] at h2
          cases h3 : subRound fixed s r with
          | error e => rw [h3] at h2; cases h2
          | ok s1 =>
            rw [h3] at h2
            refine ih s1 s' ?_ h2
            unfold subRound at h3
            split at h3
            · cases h3
            · exact hin _ _ _ _ _ h1 h3
      exact hout rounds _ s ⟨t, by simp [subInit, PyDict.set]⟩ hst

/-- C56 for a cost with one term. -/
theorem C56_monomial {h h' : NMap V ℝ D} {fixed : PyDict V ℝ} {rounds : List (V × List (HV V ℝ))} {t : HV V ℝ × ℝ}
    (hc : TermsCanonical h.terms) (ht : h.terms = [t]) (ho : SetOrder (varlocs h.terms fixed) rounds)
    (hs : h.sub fixed rounds = .ok h') (pt : V → ℝ) (hpos : 0 < termsVal pt h'.terms) (v : V) (hv : 0 < override pt fixed v) :
    HasDerivAt (logCost (override pt fixed) h.terms v) (sensAt (costSens (costDuals pt h'.terms) h.terms.keys) v)
      (Real.log (override pt fixed v)) := by
  have hne : h.terms ≠ [] := by rw [ht]; simp
  refine C56_aligned_partial hc hne ho hs pt hpos v hv ?_
  obtain ⟨t', ht'⟩ := sub_one ht hs
  have := (C06_sub_evaluates hc hne ho hs pt).1
  rw [ht, ht'] at this
  rw [ht, ht']
  simp only [termsVal, List.map_cons, List.map_nil, List.sum_cons, List.sum_nil, add_zero] at this
  exact List.Forall₂.cons this.symm .nil

end

/-- The hypotheses of `C56_aligned_partial` can be met by a cost with two terms: `x + a*y` with `a = 2`. -/
example : let h : NMap ℕ ℝ ℤ := ⟨[(⟨[(1, 1)]⟩, 1), (⟨[(0, 1), (2, 1)]⟩, 1)], none⟩
    let h' : NMap ℕ ℝ ℤ := ⟨[(⟨[(1, 1)]⟩, 1), (⟨[(2, 1)]⟩, 2)], none⟩
    let pt : ℕ → ℝ := fun _ => 1
    h.sub [(0, 2)] (varlocs h.terms [(0, 2)]) = .ok h' ∧ 0 < termsVal pt h'.terms ∧
    List.Forall₂ (fun t t' : HV ℕ ℝ × ℝ => t.2 * monVal (override pt [(0, 2)]) t.1.items = t'.2 * monVal pt t'.1.items) h.terms h'.terms ∧
    sensAt (costSens (costDuals pt h'.terms) h.terms.keys) 0 = 2 / 3 := by
  intro h h' pt
  refine ⟨?_, ?_, ?_, ?_⟩
  · norm_num [h, h', NMap.sub, subState, subRound, subinplace, subInit, csUpdate, subAdd, varlocs, varlocKeys, PyDict.get?, PyDict.set, PyDict.del, PyDict.contains,
      PyDict.keys, HV.get?, HV.del, HV.empty, pwDom, pw_real, HV.beq_def, bind, pure, Except.bind, Except.pure, List.foldlM, List.isPerm]
  · norm_num [h', pt, termsVal, monVal]
  · norm_num [h, h', pt, monVal, override, PyDict.get?]
  · rw [sensAt_costSens (by simp [h, PyDict.keys, WF])]
    norm_num [h, h', pt, costDuals, termsVal, monVal, PyDict.keys, expo, HV.get?, PyDict.get?]

/-! ## Findings -/

/-- C56 is violated: the cost `a*x + y` with `a = 1`. Substituting moves the first term to the end, so `a` is given the share of `y`: at `x = 3`, `y = 1` it is reported as
1/4 and is 3/4. (`a`, `x`, `y` are 0, 1, 2.) -/
theorem C56_order_fails :
    let h : NMap ℕ ℝ ℤ := ⟨[(⟨[(0, 1), (1, 1)]⟩, 1), (⟨[(2, 1)]⟩, 1)], none⟩
    let h' : NMap ℕ ℝ ℤ := ⟨[(⟨[(2, 1)]⟩, 1), (⟨[(1, 1)]⟩, 1)], none⟩
    let pt : ℕ → ℝ := fun v => if v = 1 then 3 else 1
    h.sub [(0, 1)] (varlocs h.terms [(0, 1)]) = .ok h' ∧ sensAt (costSens (costDuals pt h'.terms) h.terms.keys) 0 = 1 / 4 ∧
      HasDerivAt (logCost pt h.terms 0) (3 / 4) (Real.log (pt 0)) := by
  intro h h' pt
  refine ⟨?_, ?_, ?_⟩
  · norm_num [h, h', NMap.sub, subState, subRound, subinplace, subInit, csUpdate, subAdd, varlocs, varlocKeys, PyDict.get?, PyDict.set, PyDict.del, PyDict.contains,
      PyDict.keys, HV.get?, HV.del, HV.empty, pwDom, pw_real, HV.beq_def, bind, pure, Except.bind, Except.pure, List.foldlM, List.isPerm]
  · rw [sensAt_costSens (by simp [h, PyDict.keys, WF])]
    norm_num [h, h', pt, costDuals, termsVal, monVal, PyDict.keys, expo, HV.get?, PyDict.get?]
  · refine (logCost_hasDerivAt (by norm_num [pt]) (by simp [h, WF]) (by norm_num [h, pt, termsVal, monVal])).congr_deriv ?_
    norm_num [h, pt, logGrad, termsVal, monVal, expo, HV.get?, PyDict.get?]

/-- C56 is violated: the cost `a*x + b*x` with `a = b = 1`. The terms are merged, so `a` gets all of the cost and `b` none; both are 1/2. -/
theorem C56_merge_fails :
    let h : NMap ℕ ℝ ℤ := ⟨[(⟨[(0, 1), (2, 1)]⟩, 1), (⟨[(1, 1), (2, 1)]⟩, 1)], none⟩
    let h' : NMap ℕ ℝ ℤ := ⟨[(⟨[(2, 1)]⟩, 2)], none⟩
    let pt : ℕ → ℝ := fun _ => 1
    h.sub [(0, 1), (1, 1)] (varlocs h.terms [(0, 1), (1, 1)]) = .ok h' ∧
      sensAt (costSens (costDuals pt h'.terms) h.terms.keys) 0 = 1 ∧ sensAt (costSens (costDuals pt h'.terms) h.terms.keys) 1 = 0 ∧
      HasDerivAt (logCost pt h.terms 0) (1 / 2) (Real.log (pt 0)) ∧ HasDerivAt (logCost pt h.terms 1) (1 / 2) (Real.log (pt 1)) := by
  intro h h' pt
  refine ⟨?_, ?_, ?_, ?_, ?_⟩
  · norm_num [h, h', NMap.sub, subState, subRound, subinplace, subInit, csUpdate, subAdd, varlocs, varlocKeys, PyDict.get?, PyDict.set, PyDict.del, PyDict.contains,
      PyDict.keys, HV.get?, HV.del, HV.empty, pwDom, pw_real, HV.beq_def, bind, pure, Except.bind, Except.pure, List.foldlM, List.isPerm]
  · rw [sensAt_costSens (by simp [h, PyDict.keys, WF])]
    norm_num [h, h', pt, costDuals, termsVal, monVal, PyDict.keys, expo, HV.get?, PyDict.get?]
  · rw [sensAt_costSens (by simp [h, PyDict.keys, WF])]
    norm_num [h, h', pt, costDuals, termsVal, monVal, PyDict.keys, expo, HV.get?, PyDict.get?]
  · refine (logCost_hasDerivAt (by norm_num [pt]) (by simp [h, WF]) (by norm_num [h, pt, termsVal, monVal])).congr_deriv ?_
    norm_num [h, pt, logGrad, termsVal, monVal, expo, HV.get?, PyDict.get?]
  · refine (logCost_hasDerivAt (by norm_num [pt]) (by simp [h, WF]) (by norm_num [h, pt, termsVal, monVal])).congr_deriv ?_
    norm_num [h, pt, logGrad, termsVal, monVal, expo, HV.get?, PyDict.get?]

/-- C56 is violated: the cost `a*x + a**2*y` with `a = 1`. The order of the terms after substitution is that of a Python set, which may differ from run to run, and with it
the sensitivity of `a`: at `x = 3`, `y = 1` it is `5/4` or `7/4`. -/
theorem C56_sets_fails :
    let h : NMap ℕ ℝ ℤ := ⟨[(⟨[(0, 1), (1, 1)]⟩, 1), (⟨[(0, 2), (2, 1)]⟩, 1)], none⟩
    let r1 : List (ℕ × List (HV ℕ ℝ)) := [(0, [⟨[(0, 1), (1, 1)]⟩, ⟨[(0, 2), (2, 1)]⟩])]
    let r2 : List (ℕ × List (HV ℕ ℝ)) := [(0, [⟨[(0, 2), (2, 1)]⟩, ⟨[(0, 1), (1, 1)]⟩])]
    let pt : ℕ → ℝ := fun v => if v = 1 then 3 else 1
    SetOrder (varlocs h.terms [(0, 1)]) r1 ∧ SetOrder (varlocs h.terms [(0, 1)]) r2 ∧
    (∃ h' : NMap ℕ ℝ ℤ, h.sub [(0, 1)] r1 = .ok h' ∧ sensAt (costSens (costDuals pt h'.terms) h.terms.keys) 0 = 5 / 4) ∧
    (∃ h' : NMap ℕ ℝ ℤ, h.sub [(0, 1)] r2 = .ok h' ∧ sensAt (costSens (costDuals pt h'.terms) h.terms.keys) 0 = 7 / 4) := by
  intro h r1 r2 pt
  refine ⟨?_, ?_, ?_, ?_⟩
  · norm_num [h, r1, SetOrder, varlocs, varlocKeys, PyDict.contains, PyDict.get?, PyDict.keys]
  · norm_num [h, r2, SetOrder, varlocs, varlocKeys, PyDict.contains, PyDict.get?, PyDict.keys, List.Perm.swap]
  · refine ⟨⟨[(⟨[(1, 1)]⟩, 1), (⟨[(2, 1)]⟩, 1)], none⟩, ?_, ?_⟩
    · norm_num [h, r1, NMap.sub, subState, subRound, subinplace, subInit, csUpdate, subAdd, PyDict.get?, PyDict.set, PyDict.del, PyDict.contains,
        PyDict.keys, HV.get?, HV.del, HV.empty, pwDom, pw_real, HV.beq_def, bind, pure, Except.bind, Except.pure, List.foldlM, List.isPerm]
    · rw [sensAt_costSens (by simp [h, PyDict.keys, WF])]
      norm_num [h, pt, costDuals, termsVal, monVal, PyDict.keys, expo, HV.get?, PyDict.get?]
  · refine ⟨⟨[(⟨[(2, 1)]⟩, 1), (⟨[(1, 1)]⟩, 1)], none⟩, ?_, ?_⟩
    · norm_num [h, r2, NMap.sub, subState, subRound, subinplace, subInit, csUpdate, subAdd, PyDict.get?, PyDict.set, PyDict.del, PyDict.contains,
        PyDict.keys, HV.get?, HV.del, HV.empty, pwDom, pw_real, HV.beq_def, bind, pure, Except.bind, Except.pure, List.foldlM, List.isPerm]
    · rw [sensAt_costSens (by simp [h, PyDict.keys, WF])]
      norm_num [h, pt, costDuals, termsVal, monVal, PyDict.keys, expo, HV.get?, PyDict.get?]

end Verif
