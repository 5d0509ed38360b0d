import Verif.Props.SigSens
import Verif.Props.Inequality

/-! # C53: what the solver is given for a signomial inequality in a geometric program -/

set_option linter.unusedSectionVars false

namespace Verif
open PyDict

variable {V : Type} [DecidableEq V]

theorem override_self {pt : V → ℝ} {fixed : PyDict V ℝ} (h : ∀ v c, fixed.get? v = some c → pt v = c) : override pt fixed = pt := by
  funext v
  unfold override
  cases hv : fixed.get? v with
  | none => rfl
  | some c => exact (h v c hv).symm

/-- The inner constraint is the one of C12 and C13. -/
theorem sigInner_eq {tol : ℝ} {posy : PyDict (HV V ℝ) ℝ} {ne : HV V ℝ} {nc : ℝ} {fixed : PyDict V ℝ} {ord : Orders V ℝ}
    {fs : List (PyDict (HV V ℝ) ℝ)} (h : sigInner tol posy ne nc fixed ord = .ok fs) :
    ∃ (us : List (Nomial V ℝ ℤ)) (memo : Memo ℝ), genUnsubbed false tol ⟨posy, none⟩ ⟨[(ne, nc)], none⟩ = .ok us ∧
      asHmapslt1 tol (us.map (fun n => n.hmap.terms)) fixed ord {} = (.ok fs, memo) := by
  unfold sigInner at h
  have hg : genUnsubbed (D := ℤ) false tol ⟨posy, none⟩ ⟨[(ne, nc)], none⟩ =
      (renameTerms ne nc posy).bind (fun ts => (simplifyPosyIneq tol ts).bind (fun s => wrapForm false s none)) := by
    unfold genUnsubbed
    change (renameTerms ne (nc * 1) posy).bind _ = _
    rw [mul_one]
    rfl
  cases hr : renameTerms ne nc posy with
  | error e => rw [hr] at h; cases h
  | ok ts =>
  rw [hr] at h hg
  dsimp only at h
  change _ = (simplifyPosyIneq tol ts).bind (fun s => wrapForm false s none) at hg
  cases hs : simplifyPosyIneq tol ts with
  | error e => rw [hs] at h; cases h
  | ok s =>
  rw [hs] at h hg
  change _ = wrapForm false s none at hg
  cases s with
  | none =>
    dsimp only at h
    cases h
    exact ⟨[], {}, hg, rfl⟩
  | some us =>
    dsimp only at h
    change _ = (if us.isEmpty = true then Except.ok [] else (mkSig false true ⟨us, none⟩).map (fun n => [n])) at hg
    by_cases he : us.isEmpty = true
    · rw [if_pos he] at h hg
      cases h
      exact ⟨[], {}, hg, rfl⟩
    · rw [if_neg he] at h hg
      by_cases ha : us.any (fun t => t.2 ≤ 0) = true
      · rw [if_pos ha] at h; cases h
      · rw [if_neg ha] at h
        have hm : ∃ n : Nomial V ℝ ℤ, mkSig false true ⟨us, none⟩ = .ok n ∧ n.hmap = ⟨us, none⟩ := by
          unfold mkSig
          rw [if_neg (by exact ha)]
          split_ifs
          · exact ⟨_, rfl, rfl⟩
          · exact ⟨_, rfl, rfl⟩
        obtain ⟨n, hn1, hn2⟩ := hm
        rw [hn1] at hg
        refine ⟨[n], (formStep tol us fixed (ord us fixed) {}).2, hg, ?_⟩
        rw [List.map_cons, List.map_nil, asHmapslt1_single, hn2]
        exact Prod.ext h rfl

theorem termsVal_posneg (x : V → ℝ) (ts : PyDict (HV V ℝ) ℝ) :
    termsVal x ts = termsVal x (ts.filter (fun t => 0 < t.2)) - termsVal x ((ts.filter (fun t => t.2 < 0)).map (fun t => (t.1, -t.2))) := by
  rw [termsVal_negate]
  induction ts with
  | nil => simp [termsVal]
  | cons t ts ih =>
    have hc : ∀ (a : HV V ℝ × ℝ) l, termsVal x (a :: l) = a.2 * monVal x a.1.items + termsVal x l := by
      intro a l; simp [termsVal]
    rw [hc, ih]
    rcases lt_trichotomy t.2 0 with h | h | h
    · rw [List.filter_cons_of_neg (by simp; linarith), List.filter_cons_of_pos (by simpa using h), hc]; ring
    · rw [List.filter_cons_of_neg (by simp [h]), List.filter_cons_of_neg (by simp [h]), h]; ring
    · rw [List.filter_cons_of_pos (by simpa using h), List.filter_cons_of_neg (by simp; linarith), hc]; ring

/-- **C53** (what is solved). If a signomial inequality `h <= 0` is given to the solver as posynomials `fs`, then after substitution it is
`posy <= n` with one monomial `n`, whose quotients are the monomials kept for the sensitivities, and either there is one form, of positive terms,
which is met exactly where the inequality is, or there is none, and `posy` is everywhere at most `1 + tol` times `n`.
Missing: the defect of `C12_form_fails`. -/
theorem C53_form_partial {tol : ℝ} (htol : 0 ≤ tol) {h : PyDict (HV V ℝ) ℝ} (hc : TermsCanonical h) (hne : h ≠ []) {fixed : PyDict V ℝ}
    (hfix : ∀ v c, fixed.get? v = some c → 0 < c) {r1 r2 : List (V × List (HV V ℝ))} (ho1 : SetOrder (varlocs h fixed) r1)
    {ord : Orders V ℝ} (ho : ord.Valid) {fs : List (PyDict (HV V ℝ) ℝ)} {m : SigMemo V ℝ}
    (hf : sigForm tol h fixed r1 r2 ord = .ok (.forms fs m))
    (hclash : ∀ h' : NMap V ℝ ℤ, NMap.sub ⟨h, none⟩ fixed r1 = .ok h' → ∀ n ∈ h'.terms, n.2 < 0 →
      NoClash n.1 (h'.terms.filter (fun t => 0 < t.2))) :
    ∃ (posy : PyDict (HV V ℝ) ℝ) (ne : HV V ℝ) (nc : ℝ), (∀ t ∈ posy, 0 < t.2) ∧ 0 < nc ∧
      m.mons = posy.map (fun t => (t.1.sub ne, t.2 / nc)) ∧
      (∀ pt, (∀ v c, fixed.get? v = some c → pt v = c) → termsVal pt h = termsVal pt posy - nc * monVal pt ne.items) ∧
      ((fs = [] ∧ ∀ pt, (∀ v, 0 < pt v) → (∀ v c, fixed.get? v = some c → pt v = c) →
          termsVal pt posy ≤ (1 + tol) * (nc * monVal pt ne.items)) ∨
        ∃ f, fs = [f] ∧ f ≠ [] ∧ (∀ t ∈ f, 0 < t.2) ∧ f.get? HV.empty = none ∧
          ∀ pt, (∀ v, 0 < pt v) → (∀ v c, fixed.get? v = some c → pt v = c) → (termsVal pt f ≤ 1 ↔ termsVal pt h ≤ 0)) := by
  unfold sigForm at hf
  cases hs1 : subState h fixed r1 with
  | error e => rw [hs1] at hf; cases hf
  | ok s1 =>
  rw [hs1] at hf
  simp only at hf
  have hsub : NMap.sub (⟨h, none⟩ : NMap V ℝ ℤ) fixed r1 = .ok ⟨s1.cp, none⟩ := by
    unfold NMap.sub
    rw [hs1]
    rfl
  obtain ⟨_, hval, _, _, hcan0⟩ := sub_ok (h := (⟨h, none⟩ : NMap V ℝ ℤ)) hc hne ho1 hsub
  dsimp only at hval hcan0
  have hcwf : WF s1.cp := by
    rcases hcan0 with h1 | h1
    · exact ((termsCanonical_iff _).1 h1).1
    · rw [h1]; simp [WF]
  have hpn := posyNegy_foldl (p := []) (n := []) (ts := s1.cp) (by simpa using hcwf) (by simpa using hcwf)
  rw [hpn] at hf
  simp only [List.nil_append] at hf
  split at hf
  · simp at hf
  rename_i hposy
  split at hf
  · cases hf
  · rename_i ne nc hneg
    cases hs2 : subState h fixed r2 with
    | error e => rw [hs2] at hf; cases hf
    | ok s2 =>
    rw [hs2] at hf
    simp only at hf
    split at hf
    · cases hf
    split at hf
    · cases hf
    rename_i fs' hin
    simp only [Except.ok.injEq, SigForm.forms.injEq] at hf
    obtain ⟨rfl, hf⟩ := hf
    have hcan : TermsCanonical s1.cp := by
      rcases hcan0 with h1 | h1
      · exact h1
      · rw [h1] at hposy; simp at hposy
    obtain ⟨_, _, hcw⟩ := (termsCanonical_iff _).1 hcan
    have hnem : (ne, -nc) ∈ s1.cp ∧ 0 < nc := by
      have : (ne, nc) ∈ (s1.cp.filter (fun t => t.2 < 0)).map (fun t => (t.1, -t.2)) := by rw [hneg]; simp
      obtain ⟨q, hq, hqe⟩ := List.mem_map.1 this
      obtain ⟨hq1, hq2⟩ := List.mem_filter.1 hq
      simp only [Prod.mk.injEq] at hqe
      obtain ⟨rfl, rfl⟩ := hqe
      refine ⟨by simpa using hq1, ?_⟩
      simpa using hq2
    have hpp : ∀ t ∈ s1.cp.filter (fun t => 0 < t.2), 0 < t.2 := fun t ht => by simpa using (List.mem_filter.1 ht).2
    have hdiff : ∀ pt, (∀ v c, fixed.get? v = some c → pt v = c) →
        termsVal pt h = termsVal pt (s1.cp.filter (fun t => 0 < t.2)) - nc * monVal pt ne.items := by
      intro pt hpt
      rw [← hval pt hpt, termsVal_posneg pt s1.cp, hneg]
      simp [termsVal]
    refine ⟨s1.cp.filter (fun t => 0 < t.2), ne, nc, hpp, hnem.2, by rw [← hf], hdiff, ?_⟩
    obtain ⟨us, memo, hg, ha⟩ := sigInner_eq hin
    have hphys : ∀ (pt : V → ℝ) (ts : PyDict (HV V ℝ) ℝ), physVal pt (⟨ts, none⟩ : NMap V ℝ ℤ) = termsVal pt ts := by
      intro pt ts; simp [physVal, unitScale]
    have hone : ∀ pt : V → ℝ, termsVal pt [(ne, nc)] = nc * monVal pt ne.items := by intro pt; simp [termsVal]
    rcases C13_constraint_partial (p := (⟨s1.cp.filter (fun t => 0 < t.2), none⟩ : NMap V ℝ ℤ)) (m := ⟨[(ne, nc)], none⟩) htol
      (canonical_filter hcan _) (by simpa using hposy) hpp rfl (hcw _ hnem.1) hnem.2 (by simp [UnitOK, unitScale]) (by simp [UnitOK, unitScale])
      (hclash _ hsub (ne, -nc) hnem.1 (by simpa using hnem.2)) hg hfix ho ha with ⟨h1, c, h2, h3⟩ | ⟨f, h1, h2, h3, h4, h5⟩
    · refine Or.inl ⟨h1, fun pt hpt hpf => ?_⟩
      have := h3 pt hpt
      rw [override_self hpf, hphys, hphys, hone] at this
      rw [this]
      exact mul_le_mul_of_nonneg_right h2 (mul_pos hnem.2 (monVal_pos hpt _)).le
    · refine Or.inr ⟨f, h1, h2, h3, h4, fun pt hpt hpf => ?_⟩
      rw [h5 pt hpt, override_self hpf, hphys, hphys, hone, hdiff pt hpf]
      exact sub_nonpos.symm
  · cases hf

/-- **C53** (tautologies). If the inequality is dropped as a tautology, it holds everywhere. -/
theorem C53_dropped {tol : ℝ} {h : PyDict (HV V ℝ) ℝ} (hc : TermsCanonical h) (hne : h ≠ []) {fixed : PyDict V ℝ}
    {r1 r2 : List (V × List (HV V ℝ))} (ho1 : SetOrder (varlocs h fixed) r1) {ord : Orders V ℝ}
    (hf : sigForm tol h fixed r1 r2 ord = .ok .none) {pt : V → ℝ} (hpt : ∀ v, 0 < pt v)
    (hpf : ∀ v c, fixed.get? v = some c → pt v = c) : termsVal pt h ≤ 0 := by
  unfold sigForm at hf
  cases hs1 : subState h fixed r1 with
  | error e => rw [hs1] at hf; cases hf
  | ok s1 =>
  rw [hs1] at hf
  simp only at hf
  have hsub : NMap.sub (⟨h, none⟩ : NMap V ℝ ℤ) fixed r1 = .ok ⟨s1.cp, none⟩ := by
    unfold NMap.sub
    rw [hs1]
    rfl
  obtain ⟨_, hval, _, _, hcan0⟩ := sub_ok (h := (⟨h, none⟩ : NMap V ℝ ℤ)) hc hne ho1 hsub
  dsimp only at hval hcan0
  have hcwf : WF s1.cp := by
    rcases hcan0 with h1 | h1
    · exact ((termsCanonical_iff _).1 h1).1
    · rw [h1]; simp [WF]
  have hpn := posyNegy_foldl (p := []) (n := []) (ts := s1.cp) (by simpa using hcwf) (by simpa using hcwf)
  rw [hpn] at hf
  simp only [List.nil_append] at hf
  split at hf
  · rename_i hposy
    rw [← hval pt hpf, termsVal_posneg pt s1.cp, List.isEmpty_iff.1 hposy]
    have h0 : 0 ≤ termsVal pt ((s1.cp.filter (fun t => t.2 < 0)).map (fun t => (t.1, -t.2))) := by
      unfold termsVal
      refine List.sum_nonneg ?_
      intro y hy
      obtain ⟨t, ht, rfl⟩ := List.mem_map.1 hy
      obtain ⟨q, hq, rfl⟩ := List.mem_map.1 ht
      have := (List.mem_filter.1 hq).2
      have h2 : q.2 < 0 := by simpa using this
      exact mul_nonneg (by dsimp only; linarith) (monVal_pos hpt _).le
    have h1 : termsVal pt ([] : PyDict (HV V ℝ) ℝ) = 0 := by simp [termsVal]
    linarith
  · split at hf
    · cases hf
    · split at hf
      · cases hf
      split at hf
      · cases hf
      split at hf <;> cases hf
    · cases hf

/-- The hypotheses can be met: `x - 2*y <= 0`, which is given to the solver as `x/(2*y) <= 1`. -/
example : ∃ (h : PyDict (HV Bool ℝ) ℝ) (ord : Orders Bool ℝ) (fs : List (PyDict (HV Bool ℝ) ℝ)) (m : SigMemo Bool ℝ),
    TermsCanonical h ∧ h ≠ [] ∧ SetOrder (varlocs h []) [] ∧ ord.Valid ∧ sigForm (1 / 1000) h [] [] [] ord = .ok (.forms fs m) ∧
    fs.length = 1 ∧ ∀ h' : NMap Bool ℝ ℤ, NMap.sub ⟨h, none⟩ [] [] = .ok h' → ∀ n ∈ h'.terms, n.2 < 0 →
      NoClash n.1 (h'.terms.filter (fun t => 0 < t.2)) := by
  refine ⟨[(⟨[(true, 1)]⟩, 1), (⟨[(false, 1)]⟩, -2)], fun h f => varlocs h f, [[(⟨[(true, 1), (false, -1)]⟩, 1 / 2)]],
    ⟨[(⟨[(true, 1), (false, -1)]⟩, 1 / 2)], [(⟨[(false, 1)]⟩, 2)], [(⟨[(true, 1), (false, -1)]⟩, [(⟨[(true, 1)]⟩, 1)])]⟩, ?_, by simp, ?_, ?_, ?_, rfl, ?_⟩
  · constructor
    · intro t ht; simp at ht; rcases ht with rfl | rfl <;> simp [ExpCanonical]
    · simp
  · norm_num [SetOrder, varlocs, varlocKeys, PyDict.contains, PyDict.get?]
  · intro h f
    exact List.forall₂_same.2 (fun a _ => ⟨rfl, List.Perm.refl _⟩)
  · norm_num [sigForm, sigInner, splitStep, Nomial.posyNegyStep, renameTerms, renameStep, HV.sub, HV.add, HV.scale, dictAdd, dictAddStep, formStep, noteConst,
      checkForm, simplifyPosyIneq, mmap, mmapStep, dictScale, pyIndex, subState, subRound, subinplace, subInit, csUpdate, subAdd,
      varlocs, varlocKeys, PyDict.get?, PyDict.set, PyDict.del, PyDict.contains, PyDict.keys, HV.get?, HV.del, HV.empty, pwDom, pw_real, HV.beq_def, bind, pure,
      Except.bind, Except.pure, List.foldlM, List.isPerm, List.findIdx?_cons, List.modify_succ_cons]
  · intro h' hs n _ _
    have : h' = ⟨[(⟨[(true, 1)]⟩, 1), (⟨[(false, 1)]⟩, -2)], none⟩ := by
      have h2 : NMap.sub (⟨[(⟨[(true, 1)]⟩, 1), (⟨[(false, 1)]⟩, -2)], none⟩ : NMap Bool ℝ ℤ) [] [] = .ok ⟨[(⟨[(true, 1)]⟩, 1), (⟨[(false, 1)]⟩, -2)], none⟩ := by
        norm_num [NMap.sub, subState, subInit, csUpdate, subAdd, PyDict.set, PyDict.get?, HV.beq_def, List.isPerm, bind, pure, Except.bind, Except.pure]
      rw [h2] at hs
      exact (Except.ok.inj hs).symm
    rw [this]
    norm_num [NoClash]

/-- The same for `-x <= 0`, which is dropped. -/
example : ∃ (h : PyDict (HV Bool ℝ) ℝ), TermsCanonical h ∧ h ≠ [] ∧ SetOrder (varlocs h []) [] ∧
    sigForm (1 / 1000) h [] [] [] (fun h f => varlocs h f) = .ok .none := by
  refine ⟨[(⟨[(true, 1)]⟩, -1)], ?_, by simp, ?_, ?_⟩
  · constructor
    · intro t ht; simp at ht; rcases ht with rfl; simp [ExpCanonical]
    · simp
  · norm_num [SetOrder, varlocs, varlocKeys, PyDict.contains, PyDict.get?]
  · norm_num [sigForm, Nomial.posyNegyStep, subState, subInit, csUpdate, subAdd, PyDict.set, PyDict.get?, HV.beq_def, List.isPerm, bind, pure, Except.bind, Except.pure]

end Verif
