import Verif.Props.Shadow
import Verif.Spec.ModelSens
import Verif.Lemmas.Names

/-! C80: sensitivities of constraints and models bound the cost of every relaxed model. -/

set_option linter.unusedSectionVars false

namespace Verif
open PyDict GP Pipeline VK

section
variable {V D : Type} [DecidableEq V] [AddCommGroup D] [DecidableEq D]

/-! ## What constraints answer -/

theorem unsubbed_le_one {se : Bool} {feastol : ℝ} {p m : NMap V ℝ D} {u : List (Nomial V ℝ D)} (h : genUnsubbed se feastol p m = .ok u) : u.length ≤ 1 := by
  unfold genUnsubbed at h
  split at h
  · obtain ⟨r, -, h⟩ := except_bind_ok h
    obtain ⟨ts, -, h⟩ := except_bind_ok h
    obtain ⟨s, -, h⟩ := except_bind_ok h
    unfold wrapForm at h
    split at h
    · cases h; simp
    · split at h
      · cases h; simp
      · rename_i ts' _
        cases hk : mkSig se true (⟨ts', none⟩ : NMap V ℝ D) with
        | error e => rw [hk] at h; cases h
        | ok n => rw [hk] at h; cases h; simp
  · cases h

theorem forms_length {feastol : ℝ} {fixed : PyDict V ℝ} {ord : Orders V ℝ} {us : List (PyDict (HV V ℝ) ℝ)} {fs : List (PyDict (HV V ℝ) ℝ)}
    (h : (asHmapslt1 feastol us fixed ord {}).1 = .ok fs) : fs.length ≤ us.length := by
  induction us using List.reverseRecOn generalizing fs with
  | nil => cases h; simp
  | append_singleton us u ih =>
    unfold asHmapslt1 at h
    rw [List.foldl_append, List.foldl_cons, List.foldl_nil] at h
    generalize hacc : List.foldl _ _ us = acc at h
    have ih' : ∀ {fs}, acc.1 = .ok fs → fs.length ≤ us.length := by subst hacc; exact ih
    split at h
    · cases h
    · rename_i out ho
      simp only at h
      have ho' := ih' ho
      cases hst : (formStep feastol u fixed (ord u fixed) acc.2).1 with
      | error e => rw [hst] at h; cases h
      | ok new =>
        rw [hst] at h
        cases h
        have : new.length ≤ 1 := by
          unfold formStep at hst
          split at hst
          · cases hst
          split at hst
          · cases hst
          simp only at hst
          unfold checkForm at hst
          split at hst
          · cases hst
          · cases hst; simp
          · split at hst
            · cases hst
            · cases hst; simp
        rw [List.length_append, List.length_append, List.length_singleton]
        omega

/-- Of the answers of a constraint at most the last is not zero. -/
theorem senss_abs {feastol : ℝ} {fixed : PyDict V ℝ} {ord : Orders V ℝ} {c : Con V D} {hs : List (Hmap V ℝ)} (h : c.hmaps feastol fixed ord = .ok hs)
    {blocks : List (ℝ × List ℝ)} (hb : blocks.length ≤ hs.length) {vss : List (PyDict V ℝ × ℝ)} (hv : c.senss feastol fixed ord blocks = .ok vss) :
    ((vss.map (·.2)).map (|·|)).sum = lastSens (vss.map (·.2)) := by
  unfold Con.hmaps at h
  obtain ⟨u, hu, h1⟩ := except_bind_ok h
  obtain ⟨forms, hforms, h2⟩ := except_bind_ok h1
  cases h2
  have hfl := forms_length hforms
  rw [List.length_map] at hb hfl
  unfold Con.senss at hv
  rw [hu] at hv
  simp only [bind, Except.bind] at hv
  cases blocks with
  | nil => cases hv; simp [lastSens]
  | cons b bs =>
    cases c with
    | le se p m =>
      have := unsubbed_le_one (show genUnsubbed se feastol p m = .ok u from hu)
      have hbs : bs = [] := List.eq_nil_of_length_eq_zero (by rw [List.length_cons] at hb; omega)
      subst hbs
      simp only at hv
      split at hv
      · cases hv; simp [leSenss, lastSens]
      · cases hv
    | eq se l r =>
      have hu2 : u.length ≤ 2 := by
        have hu' : meqUnsubbed se feastol l r = .ok u := hu
        unfold meqUnsubbed at hu'
        obtain ⟨u1, g1, g2⟩ := except_bind_ok hu'
        obtain ⟨u2, g3, g4⟩ := except_bind_ok g2
        cases g4
        have := unsubbed_le_one g1
        have := unsubbed_le_one g3
        rw [List.length_append]
        omega
      rw [List.length_cons] at hb
      simp only at hv
      split at hv
      · split at hv
        · cases hv
          rcases bs with _ | ⟨b2, _ | ⟨b3, bs⟩⟩
          · simp [eqSenss, meqSens, lastSens]
          · simp [eqSenss, meqSens, lastSens]
          · simp only [List.length_cons] at hb; omega
        · cases hv
      · cases hv

theorem conSenss_abs {feastol : ℝ} {fixed : PyDict V ℝ} {ord : Orders V ℝ} : ∀ {cons : List (Con V D)} {blocks : List (ℝ × List ℝ)}
    {vss : List (List (PyDict V ℝ × ℝ))}, conSenss feastol fixed ord cons blocks = .ok vss →
    vss.length = cons.length ∧ ∀ l ∈ vss, ((l.map (·.2)).map (|·|)).sum = lastSens (l.map (·.2))
  | [], _, _, h => by cases h; simp
  | c :: cs, blocks, vss, h => by
    unfold conSenss at h
    obtain ⟨hs, h1, h⟩ := except_bind_ok h
    obtain ⟨here, h2, h⟩ := except_bind_ok h
    obtain ⟨rest, h3, h⟩ := except_bind_ok h
    cases h
    obtain ⟨e1, e2⟩ := conSenss_abs h3
    refine ⟨by simp [e1], fun l hl => ?_⟩
    rcases List.mem_cons.1 hl with rfl | hl
    · exact senss_abs h1 (by rw [List.length_take]; omega) h2
    · exact e2 l hl

theorem senss_spec {feastol tol abstol : ℝ} {optimize : Data V ℝ → Except Err SolverOut} {cost : NMap V ℝ D} {cons : List (Con V D)} {fixed : PyDict V ℝ}
    {ord : Orders V ℝ} {r : Result V} {ss : Senss V} {b : Bool} (h : solveSens feastol tol abstol optimize cost cons fixed ord = .ok (r, ss, b)) :
    ss.cons.length = cons.length ∧ ∀ l ∈ ss.cons, (l.map (|·|)).sum = lastSens l := by
  unfold solveSens at h
  obtain ⟨hs, -, h⟩ := except_bind_ok h
  obtain ⟨out, -, h⟩ := except_bind_ok h
  obtain ⟨r', -, h⟩ := except_bind_ok h
  split at h
  · cases h
  obtain ⟨ss', h1, h2⟩ := except_bind_ok h
  cases h2
  unfold compileSens at h1
  obtain ⟨vss, h3, h4⟩ := except_bind_ok h1
  cases h4
  obtain ⟨e1, e2⟩ := conSenss_abs h3
  refine ⟨by simp [e1], fun l hl => ?_⟩
  obtain ⟨l', hl', rfl⟩ := List.mem_map.1 hl
  exact e2 l' hl'

/-! ## Bounds -/

theorem prod_consts {fixed : PyDict V ℝ} (hwf : WF fixed) (hfix : ∀ v c, fixed.get? v = some c → 0 < c) {pt : V → ℝ} (hpt : ∀ v, 0 < pt v) (S : V → ℝ) :
    (fixed.map (fun p => (pt p.1 / p.2) ^ (S p.1))).prod = Real.exp (shift fixed pt S) := by
  unfold shift
  rw [Real.exp_list_sum, List.map_map]
  congr 1
  apply List.map_congr_left
  intro p hp
  have hpos := hfix p.1 p.2 ((mem_iff_get? hwf _ _).1 hp)
  simp only [Function.comp]
  rw [Real.rpow_def_of_pos (div_pos (hpt _) hpos), Real.log_div (hpt _).ne' hpos.ne', mul_comm]

theorem prod_relaxed {ls : List (List ℝ)} {σs : List ℝ} (h : ∀ σ ∈ σs, 0 < σ) :
    ((ls.zip σs).map (fun p => p.2 ^ (lastSens p.1))).prod = Real.exp ((ls.zip σs).map (fun p => lastSens p.1 * Real.log p.2)).sum := by
  rw [Real.exp_list_sum, List.map_map]
  congr 1
  apply List.map_congr_left
  intro p hp
  simp only [Function.comp]
  rw [Real.rpow_def_of_pos (h _ (List.of_mem_zip hp).2), mul_comm]

theorem cost_pos {cost : NMap V ℝ D} (hcne : cost.terms ≠ []) (hcpos : ∀ t ∈ cost.terms, 0 < t.2) {pt : V → ℝ} (hpt : ∀ v, 0 < pt v) : 0 < termsVal pt cost.terms := by
  unfold termsVal
  apply List.sum_pos
  · intro x hx
    obtain ⟨t, ht, rfl⟩ := List.mem_map.1 hx
    exact mul_pos (hcpos t ht) (monVal_pos hpt _)
  · simpa using hcne

/-- C80, with tolerances: if a solve returns without a warning, the sensitivities of the constraints and constants bound the cost of every point that satisfies the
constraints relaxed by any factors, up to the tolerances of the check. Missing: as in `C77_bound_partial`; and constraints with a term of constants alone (see
`C80_constant_fails`), which may not be relaxed. -/
theorem C80_bound_partial {feastol tol abstol : ℝ} (hf : 0 ≤ feastol) (htol : 0 ≤ tol) {optimize : Data V ℝ → Except Err SolverOut}
    {cost : NMap V ℝ D} (hcc : TermsCanonical cost.terms) (hcne : cost.terms ≠ []) (hcpos : ∀ t ∈ cost.terms, 0 < t.2) {cons : List (Con V D)}
    {fixed : PyDict V ℝ} (hcons : ∀ c ∈ cons, ConOK c)
    (hwf : WF fixed) (hfix : ∀ v c, fixed.get? v = some c → 0 < c) {ord : Orders V ℝ} (hord : ord.Valid) (hal : CostAligned cost fixed ord)
    (hlate : ∀ c ∈ cons, ∀ u, c.unsubbed feastol = .ok u → ∀ n ∈ u, MergesLate n.hmap.terms (varlocKeys n.hmap.terms fixed))
    (hopt : ∀ d out l, optimize d = .ok out → out.dual = .la l →
      (l.length = d.mIdxs.length ∨ l.length + 1 = d.mIdxs.length) ∧ ∀ x ∈ l, 0 ≤ x)
    (hopt' : ∀ d out n, optimize d = .ok out → out.dual = .nu n → ∀ i, 0 ≤ n i) {r : Result V} {ss : Senss V}
    (h : solveSens feastol tol abstol optimize cost cons fixed ord = .ok (r, ss, true)) :
    ss.cons.length = cons.length ∧ ∃ e n, Close tol abstol (Real.exp e) r.cost ∧ Close tol abstol n 1 ∧ ∀ pt : V → ℝ, (∀ v, 0 < pt v) → ∀ σs : List ℝ,
      List.Forall₂ (fun c σ => 0 < σ ∧ (σ = 1 ∨ c.NoConst fixed) ∧ Con.Holds σ pt c) cons σs →
      e - tol * ((r.free.map (·.1)).map (fun v => |Real.log (pt v)|)).sum + (fixed.map (fun p => sensAt ss.vars p.1 * (Real.log (pt p.1) - Real.log p.2))).sum ≤
        n * Real.log (termsVal pt cost.terms) + ((ss.cons.zip σs).map (fun p => lastSens p.1 * Real.log p.2)).sum :=
  shadow_relaxed hf htol hcc hcne hcpos hcons hwf hfix hord hal hlate (fun d out l h1 h2 => (hopt d out l h1 h2).1)
    (fun _ _ _ _ ho hnu _ i _ => dual_nonneg hopt hopt' ho hnu i) h

/-- C80: if a solve returns without a warning from an exact check, the cost of every point that satisfies the constraints relaxed by any factors is at least the reported
cost, times the ratios of the constants to the power of their sensitivities, divided by the factors to the power of the sensitivities of the constraints. Missing: as in
`C80_bound_partial`. -/
theorem C80_exact_partial {feastol : ℝ} (hf : 0 ≤ feastol) {optimize : Data V ℝ → Except Err SolverOut}
    {cost : NMap V ℝ D} (hcc : TermsCanonical cost.terms) (hcne : cost.terms ≠ []) (hcpos : ∀ t ∈ cost.terms, 0 < t.2) {cons : List (Con V D)}
    {fixed : PyDict V ℝ} (hcons : ∀ c ∈ cons, ConOK c)
    (hwf : WF fixed) (hfix : ∀ v c, fixed.get? v = some c → 0 < c) {ord : Orders V ℝ} (hord : ord.Valid) (hal : CostAligned cost fixed ord)
    (hlate : ∀ c ∈ cons, ∀ u, c.unsubbed feastol = .ok u → ∀ n ∈ u, MergesLate n.hmap.terms (varlocKeys n.hmap.terms fixed))
    (hlen : ∀ d out l, optimize d = .ok out → out.dual = .la l → l.length = d.mIdxs.length ∨ l.length + 1 = d.mIdxs.length)
    {r : Result V} {ss : Senss V} (h : solveSens feastol 0 0 optimize cost cons fixed ord = .ok (r, ss, true)) (pt : V → ℝ) (hpt : ∀ v, 0 < pt v) {σs : List ℝ}
    (hh : List.Forall₂ (fun c σ => 0 < σ ∧ (σ = 1 ∨ c.NoConst fixed) ∧ Con.Holds σ pt c) cons σs) :
    r.cost * (fixed.map (fun p => (pt p.1 / p.2) ^ (sensAt ss.vars p.1))).prod ≤
      termsVal pt cost.terms * ((ss.cons.zip σs).map (fun p => p.2 ^ (lastSens p.1))).prod := by
  obtain ⟨h1, h2⟩ := shadow_exact_relaxed hf hcc hcne hcpos hcons hwf hfix hord hal hlate hlen h
  have h3 := h2 pt hpt σs hh
  have hT := cost_pos hcne hcpos hpt
  have hσ : ∀ σ ∈ σs, 0 < σ := by
    intro σ hσ
    obtain ⟨i, hi, rfl⟩ := List.mem_iff_getElem.1 hσ
    exact (hh.get (i := i) (by rw [hh.length_eq]; exact hi) hi).1
  rw [prod_consts hwf hfix hpt, prod_relaxed hσ, ← Real.log_le_log_iff (mul_pos h1 (Real.exp_pos _)) (mul_pos hT (Real.exp_pos _)),
    Real.log_mul h1.ne' (Real.exp_pos _).ne', Real.log_mul hT.ne' (Real.exp_pos _).ne', Real.log_exp, Real.log_exp]
  exact h3

/-- Logarithms of the costs of the points that have the values of the constants and satisfy the constraints, one of them (`c`) relaxed by a factor `σ`. -/
def relaxedCosts (cost : NMap V ℝ D) (pre : List (Con V D)) (c : Con V D) (post : List (Con V D)) (fixed : PyDict V ℝ) (σ : ℝ) : Set ℝ :=
  {y | ∃ pt : V → ℝ, (∀ v, 0 < pt v) ∧ Agrees pt fixed ∧ (∀ k ∈ pre ++ post, k.Holds 1 pt) ∧ c.Holds σ pt ∧ y = Real.log (termsVal pt cost.terms)}

/-- C80, derivatives: if a solve returns without a warning from an exact check, the optimal cost falls with the factor a constraint is relaxed by at the rate of the
constraint's sensitivity (logarithms against logarithms), if it has a derivative. Missing: as in `C80_bound_partial`. -/
theorem C80_derivative_partial {optimize : Data V ℝ → Except Err SolverOut}
    {cost : NMap V ℝ D} (hcc : TermsCanonical cost.terms) (hcne : cost.terms ≠ []) (hcpos : ∀ t ∈ cost.terms, 0 < t.2) {pre post : List (Con V D)} {c : Con V D}
    {fixed : PyDict V ℝ} (hcons : ∀ k ∈ pre ++ c :: post, ConOK k) (hwf : WF fixed) (hfix : ∀ v x, fixed.get? v = some x → 0 < x)
    {ord : Orders V ℝ} (hord : ord.Valid) (hal : CostAligned cost fixed ord)
    (hlate : ∀ k ∈ pre ++ c :: post, ∀ u, k.unsubbed 0 = .ok u → ∀ n ∈ u, MergesLate n.hmap.terms (varlocKeys n.hmap.terms fixed))
    (hlen : ∀ d out l, optimize d = .ok out → out.dual = .la l → l.length = d.mIdxs.length ∨ l.length + 1 = d.mIdxs.length)
    {r : Result V} {ss : Senss V} (h : solveSens 0 0 0 optimize cost (pre ++ c :: post) fixed ord = .ok (r, ss, true)) (hc : c.NoConst fixed)
    {J : ℝ → ℝ} (hJ : ∀ᶠ s in nhds 0, IsGLB (relaxedCosts cost pre c post fixed (Real.exp s)) (J s)) {d : ℝ} (hd : HasDerivAt J d 0) :
    ∃ answers, ss.cons[pre.length]? = some answers ∧ d = -lastSens answers := by
  obtain ⟨h1, h2⟩ := shadow_exact_relaxed (le_refl 0) hcc hcne hcpos hcons hwf hfix hord hal hlate hlen h
  have hl := (senss_spec h).1
  obtain ⟨as, a, bs, hab, has⟩ : ∃ as a bs, ss.cons = as ++ a :: bs ∧ as.length = pre.length := by
    have hlt : pre.length < ss.cons.length := by rw [hl]; simp
    exact ⟨ss.cons.take pre.length, ss.cons[pre.length], ss.cons.drop (pre.length + 1), by rw [List.getElem_cons_drop, List.take_append_drop],
      by rw [List.length_take]; omega⟩
  refine ⟨a, by rw [hab, ← has]; simp, ?_⟩
  have hlow : ∀ s j, IsGLB (relaxedCosts cost pre c post fixed (Real.exp s)) j → Real.log r.cost - lastSens a * s ≤ j := by
    intro s j hj
    refine hj.2 ?_
    rintro y ⟨pt, hpt, hag, hh, hhc, rfl⟩
    have h3 := h2 pt hpt (pre.map (fun _ => (1 : ℝ)) ++ Real.exp s :: post.map (fun _ => (1 : ℝ)))
      (List.rel_append (unrelaxed (fun k hk => hh k (by simp [hk]))) (.cons ⟨Real.exp_pos _, .inr hc, hhc⟩ (unrelaxed (fun k hk => hh k (by simp [hk])))))
    rw [hab, List.zip_append (by simp [has]), List.map_append, List.sum_append, List.zip_cons_cons, List.map_cons, List.sum_cons, unrelaxed_sum, unrelaxed_sum,
      Real.log_exp] at h3
    have hz : shift fixed pt (sensAt ss.vars) = 0 := by
      unfold shift
      apply List.sum_eq_zero
      intro x hx
      obtain ⟨p, hp, rfl⟩ := List.mem_map.1 hx
      rw [hag p.1 p.2 ((mem_iff_get? hwf _ _).1 hp), sub_self, mul_zero]
    rw [hz] at h3
    linarith
  have hat : J 0 ≤ Real.log r.cost := by
    refine hJ.self_of_nhds.1 ?_
    rw [Real.exp_zero]
    obtain ⟨f1, f2, f3⟩ := feasible_of_pos (le_refl 0) hcc hcne hcons hwf hfix hord (solveSens_ok h).1
    have hpos : ∀ w, 0 < (r.vars.get? w).getD 1 := by
      intro w
      cases hw : r.vars.get? w with
      | none => simp
      | some x => exact f2 w x hw
    obtain ⟨f4, f5⟩ := f3 (fun w => (r.vars.get? w).getD 1) hpos (fun w x hw => by simp [hw])
    have f6 : ∀ k ∈ pre ++ c :: post, k.Holds 1 (fun w => (r.vars.get? w).getD 1) := by
      intro k hk
      have := f4 k hk
      rwa [max_self, add_zero] at this
    refine ⟨_, hpos, ?_, fun k hk => f6 k ?_, f6 c (by simp), congrArg Real.log (close_zero f5).symm⟩
    · intro w x hw
      show (r.vars.get? w).getD 1 = x
      rw [f1 w x hw]
      rfl
    · rcases List.mem_append.1 hk with hk | hk <;> simp [hk]
  have hmin : IsLocalMin (fun s => J s + lastSens a * s) 0 := by
    filter_upwards [hJ] with s hs
    have := hlow s _ hs
    have h3 := hat
    linarith
  have hd2 : HasDerivAt (fun s => J s + lastSens a * s) (d + lastSens a) 0 := by
    have h5 : HasDerivAt (fun s : ℝ => lastSens a * s) (lastSens a) 0 := by simpa using (hasDerivAt_id (0 : ℝ)).const_mul (lastSens a)
    exact hd.add h5
  have := hmin.hasDerivAt_eq_zero hd2
  linarith

/-! ## The dicts -/

theorem set_all {I : Type} [DecidableEq I] (i : I) (l : List ℝ) (d : PyDict I ℝ) (k : I) :
    (l.foldl (fun d x => d.set i |x|) d).get? k = if i = k ∧ l ≠ [] then some (lastSens l) else d.get? k := by
  induction l using List.reverseRecOn with
  | nil => simp
  | append_singleton l x ih =>
    rw [List.foldl_append, List.foldl_cons, List.foldl_nil, get?_set, ih]
    by_cases h : i = k
    · simp [h, lastSens]
    · simp [h]

/-- C80, constraints: the dict of sensitivities gives for each constraint that reached the solver what it answered last. -/
theorem C80_constraints {I : Type} [DecidableEq I] {answers : List (I × List ℝ)} (hn : (answers.map (·.1)).Nodup) (i : I) (x : ℝ) :
    (consDict answers).get? i = some x ↔ ∃ l, (i, l) ∈ answers ∧ l ≠ [] ∧ x = lastSens l := by
  unfold consDict
  suffices ∀ (answers : List (I × List ℝ)) (d : PyDict I ℝ), (answers.map (·.1)).Nodup → (∀ a ∈ answers, d.get? a.1 = none) →
      ((answers.foldl (fun d a => a.2.foldl (fun d x => d.set a.1 |x|) d) d).get? i = some x ↔
        d.get? i = some x ∨ ∃ l, (i, l) ∈ answers ∧ l ≠ [] ∧ x = lastSens l) by
    have := this answers [] hn (by simp [PyDict.get?])
    simpa [PyDict.get?] using this
  intro answers
  induction answers with
  | nil => intro d _ _; simp
  | cons a as ih =>
    intro d hn hd
    rw [List.map_cons, List.nodup_cons] at hn
    rw [List.foldl_cons, ih _ hn.2, set_all]
    · by_cases h : a.1 = i ∧ a.2 ≠ []
      · rw [if_pos h]
        obtain ⟨rfl, h⟩ := h
        rw [hd a (by simp)]
        constructor
        · rintro (h1 | ⟨l, hl, h2⟩)
          · cases h1; exact .inr ⟨a.2, by simp, h, rfl⟩
          · exact .inr ⟨l, by simp [hl], h2⟩
        · rintro (h1 | ⟨l, hl, h2, rfl⟩)
          · cases h1
          · rcases List.mem_cons.1 hl with hl | hl
            · rw [← hl]; exact .inl rfl
            · exact .inr ⟨l, hl, h2, rfl⟩
      · rw [if_neg h]
        constructor
        · rintro (h1 | ⟨l, hl, h2⟩)
          · exact .inl h1
          · exact .inr ⟨l, by simp [hl], h2⟩
        · rintro (h1 | ⟨l, hl, h2, rfl⟩)
          · exact .inl h1
          · rcases List.mem_cons.1 hl with rfl | hl
            · exact absurd ⟨rfl, h2⟩ h
            · exact .inr ⟨l, hl, h2, rfl⟩
    · intro b hb
      rw [set_all, if_neg, hd b (by simp [hb])]
      rintro ⟨h, -⟩
      exact hn.1 (List.mem_map.2 ⟨b, hb, h.symm⟩)

theorem sensAt_addTo (m : PyDict Str ℝ) (k n : Str) (x : ℝ) : sensAt (addTo m k x) n = sensAt m n + if k = n then x else 0 := by
  unfold addTo
  rw [sensAt_set]
  by_cases h : k = n
  · subst h; simp [sensAt]
  · simp [h]

theorem sensAt_addAll {A : Type} (key : A → Str) (f : A → ℝ) (n : Str) : ∀ (l : List A) (m : PyDict Str ℝ),
    sensAt (l.foldl (fun m a => addTo m (key a) (f a)) m) n = sensAt m n + (l.map (fun a => if key a = n then f a else 0)).sum
  | [], m => by simp
  | a :: l, m => by rw [List.foldl_cons, sensAt_addAll key f n l, sensAt_addTo, List.map_cons, List.sum_cons]; ring

theorem sensAt_models (linC : List Lineage) (linV : V → Lineage) (ss : Senss V) (n : Str) :
    sensAt (modelSenss linC linV ss) n =
      ((linC.zip ss.cons).map (fun p => if Names.lineageStr true p.1 = n then (p.2.map (|·|)).sum else 0)).sum +
        (ss.vars.map (fun p => if Names.lineageStr true (linV p.1) = n then |p.2| else 0)).sum := by
  unfold modelSenss
  rw [sensAt_addAll (fun p : V × ℝ => Names.lineageStr true (linV p.1)) (fun p => |p.2|)]
  congr 1
  suffices ∀ (l : List (Lineage × List ℝ)) (m : PyDict Str ℝ),
      sensAt (l.foldl (fun m p => p.2.foldl (fun m x => addTo m (Names.lineageStr true p.1) |x|) m) m) n =
        sensAt m n + (l.map (fun p => if Names.lineageStr true p.1 = n then (p.2.map (|·|)).sum else 0)).sum by
    rw [this]; simp [sensAt, PyDict.get?]
  intro l
  induction l with
  | nil => simp
  | cons p l ih =>
    intro m
    rw [List.foldl_cons, ih, sensAt_addAll (fun _ => Names.lineageStr true p.1) (fun x => |x|), List.map_cons, List.sum_cons]
    by_cases h : Names.lineageStr true p.1 = n <;> simp [h]
    ring

theorem lineageStr_inj {a b : Lineage} (ha : ClearLineage a) (hb : ClearLineage b) (h : Names.lineageStr true a = Names.lineageStr true b) : a = b := by
  have hp : ∀ {l : Lineage}, ClearLineage l → ∀ s ∈ l.map (Names.piece true), '.' ∉ s := by
    intro l hl s hs
    obtain ⟨x, hx, rfl⟩ := List.mem_map.1 hs
    have hd := (hl x hx).2.1
    unfold Names.piece
    split
    · rw [List.mem_append]
      rintro (h1 | h1)
      · exact hd h1
      · exact num_ne h1 (by decide) rfl
    · exact hd
  have hne : ∀ {x : Str × Nat} {l : Lineage}, ClearLineage (x :: l) → Names.lineageStr true (x :: l) ≠ [] := by
    intro x l hl h
    have hx := (hl x (by simp)).1
    have hpx : Names.piece true x ≠ [] := by
      unfold Names.piece
      split
      · simp [hx]
      · exact hx
    unfold Names.lineageStr at h
    cases l with
    | nil => simp only [List.map_cons, List.map_nil, join] at h; exact hpx h
    | cons y l =>
      simp only [List.map_cons, join, List.append_eq_nil_iff] at h
      exact hpx h.1.1
  cases a with
  | nil =>
    cases b with
    | nil => rfl
    | cons y b => exact absurd h.symm (hne hb)
  | cons x a =>
    cases b with
    | nil => exact absurd h (hne ha)
    | cons y b =>
      exact Names.lineage_pieces (fun z hz => (ha z hz).2.2) (fun z hz => (hb z hz).2.2)
        (Names.dotfree_join (by simp) (by simp) (hp ha) (hp hb) h)

/-- C80, models: the sensitivity of a model is the sum of the sensitivities of its constraints and the magnitudes of those of its variables. Missing: models whose
names end in a digit (see `C80_names_fails`). -/
theorem C80_models_partial {feastol tol abstol : ℝ} {optimize : Data V ℝ → Except Err SolverOut} {cost : NMap V ℝ D} {cons : List (Con V D)} {fixed : PyDict V ℝ}
    {ord : Orders V ℝ} {r : Result V} {ss : Senss V} {b : Bool} (h : solveSens feastol tol abstol optimize cost cons fixed ord = .ok (r, ss, b))
    {linC : List Lineage} (hC : ∀ l ∈ linC, ClearLineage l) {linV : V → Lineage} (hV : ∀ v, ClearLineage (linV v)) {l : Lineage} (hl : ClearLineage l) :
    sensAt (modelSenss linC linV ss) (Names.lineageStr true l) =
      ((linC.zip ss.cons).map (fun p => if p.1 = l then lastSens p.2 else 0)).sum + (ss.vars.map (fun p => if linV p.1 = l then |p.2| else 0)).sum := by
  rw [sensAt_models]
  congr 2
  · apply List.map_congr_left
    intro p hp
    obtain ⟨h1, h2⟩ := List.of_mem_zip (a := p.1) (b := p.2) hp
    rw [(senss_spec h).2 _ h2]
    congr 1
    exact propext ⟨lineageStr_inj (hC _ h1) hl, fun h => by rw [h]⟩
  · apply List.map_congr_left
    intro p _
    congr 1
    exact propext ⟨lineageStr_inj (hV _) hl, fun h => by rw [h]⟩

theorem gather_wf (cost : PyDict V ℝ) (l : List (PyDict V ℝ)) (h : WF cost) : WF (Sens.gather cost l) := by
  unfold Sens.gather
  induction l generalizing cost with
  | nil => exact h
  | cons e l ih =>
    rw [List.foldl_cons]
    apply ih
    unfold Sens.addSens
    clear ih
    induction e generalizing cost with
    | nil => exact h
    | cons p e ih => rw [List.foldl_cons]; exact ih _ (wf_set h _ _)

theorem costSens_wf (nus : List ℝ) (exps : List (HV V ℝ)) : WF (Sens.costSens nus exps) := by
  unfold Sens.costSens
  suffices ∀ (l : List (ℝ × HV V ℝ)) (acc : PyDict V ℝ), WF acc → WF (l.foldl (fun acc p => dictAdd acc (dictScale p.2.items p.1)) acc) from this _ _ wf_nil
  intro l
  induction l with
  | nil => exact fun _ h => h
  | cons p l ih => exact fun acc h => ih _ (dictAdd_wf h _)

theorem vars_wf {feastol tol abstol : ℝ} {optimize : Data V ℝ → Except Err SolverOut} {cost : NMap V ℝ D} {cons : List (Con V D)} {fixed : PyDict V ℝ}
    {ord : Orders V ℝ} {r : Result V} {ss : Senss V} {b : Bool} (h : solveSens feastol tol abstol optimize cost cons fixed ord = .ok (r, ss, b)) : WF ss.vars := by
  unfold solveSens at h
  obtain ⟨hs, -, h⟩ := except_bind_ok h
  obtain ⟨out, -, h⟩ := except_bind_ok h
  obtain ⟨r', -, h⟩ := except_bind_ok h
  split at h
  · cases h
  obtain ⟨ss', h1, h2⟩ := except_bind_ok h
  cases h2
  unfold compileSens at h1
  obtain ⟨vss, h3, h4⟩ := except_bind_ok h1
  cases h4
  exact gather_wf _ _ (costSens_wf _ _)

/-- What a dict has at some of its keys is at most what it has altogether. -/
theorem sum_keys_le {d e : PyDict V ℝ} (hd : WF d) (he : WF e) (g : V → ℝ) (hg : ∀ v, 0 ≤ g v) :
    (e.map (fun p => g p.1 * |sensAt d p.1|)).sum ≤ (d.map (fun p => g p.1 * |p.2|)).sum := by
  have h1 : (d.map (fun p => g p.1 * |p.2|)).sum = ∑ k ∈ (d.map (·.1)).toFinset, g k * |sensAt d k| := by
    rw [List.sum_toFinset _ (GP.wf_nodup.1 hd), List.map_map]
    congr 1
    apply List.map_congr_left
    intro p hp
    have := (mem_iff_get? hd _ _).1 hp
    simp [sensAt, this]
  have h2 : (e.map (fun p => g p.1 * |sensAt d p.1|)).sum = ∑ k ∈ (e.map (·.1)).toFinset, g k * |sensAt d k| := by
    rw [List.sum_toFinset _ (GP.wf_nodup.1 he), List.map_map]
    rfl
  rw [h1, h2, ← Finset.sum_filter_add_sum_filter_not _ (fun k => k ∈ d.map (·.1))]
  have h3 : ∑ k ∈ (e.map (·.1)).toFinset with ¬ k ∈ d.map (·.1), g k * |sensAt d k| = 0 := by
    apply Finset.sum_eq_zero
    intro k hk
    have hn := (Finset.mem_filter.1 hk).2
    have : d.get? k = none := by
      cases hg : d.get? k with
      | none => rfl
      | some x => exact absurd (List.mem_map.2 ⟨(k, x), (mem_iff_get? hd _ _).2 hg, rfl⟩) hn
    simp [sensAt, this]
  rw [h3, add_zero]
  apply Finset.sum_le_sum_of_subset_of_nonneg
  · intro k hk
    exact List.mem_toFinset.2 (Finset.mem_filter.1 hk).2
  · intro k _ _
    exact mul_nonneg (hg k) (abs_nonneg _)

/-- C80, relaxed models: if a solve returns without a warning from an exact check, the cost of every point that satisfies all constraints, those of one model relaxed by a
factor `σ`, and has the constants' values, those of the model changed by at most the factor `σ`, is at least the reported cost divided by `σ` to the power of
the sensitivity of the model. Missing: as in `C80_bound_partial` and `C80_models_partial`. -/
theorem C80_model_bound_partial {feastol : ℝ} (hf : 0 ≤ feastol) {optimize : Data V ℝ → Except Err SolverOut}
    {cost : NMap V ℝ D} (hcc : TermsCanonical cost.terms) (hcne : cost.terms ≠ []) (hcpos : ∀ t ∈ cost.terms, 0 < t.2) {cons : List (Con V D)}
    {fixed : PyDict V ℝ} (hcons : ∀ c ∈ cons, ConOK c)
    (hwf : WF fixed) (hfix : ∀ v c, fixed.get? v = some c → 0 < c) {ord : Orders V ℝ} (hord : ord.Valid) (hal : CostAligned cost fixed ord)
    (hlate : ∀ c ∈ cons, ∀ u, c.unsubbed feastol = .ok u → ∀ n ∈ u, MergesLate n.hmap.terms (varlocKeys n.hmap.terms fixed))
    (hlen : ∀ d out l, optimize d = .ok out → out.dual = .la l → l.length = d.mIdxs.length ∨ l.length + 1 = d.mIdxs.length)
    {r : Result V} {ss : Senss V} (h : solveSens feastol 0 0 optimize cost cons fixed ord = .ok (r, ss, true))
    {linC : List Lineage} (hC : ∀ l ∈ linC, ClearLineage l) {linV : V → Lineage} (hV : ∀ v, ClearLineage (linV v)) {l : Lineage} (hl : ClearLineage l)
    {σ : ℝ} (hσ : 1 ≤ σ) (pt : V → ℝ) (hpt : ∀ v, 0 < pt v)
    (hrel : List.Forall₂ (fun c k => if k = l then c.NoConst fixed ∧ Con.Holds σ pt c else Con.Holds 1 pt c) cons linC)
    (hch : ∀ v c, fixed.get? v = some c → if linV v = l then c / σ ≤ pt v ∧ pt v ≤ σ * c else pt v = c) :
    r.cost / σ ^ (sensAt (modelSenss linC linV ss) (Names.lineageStr true l)) ≤ termsVal pt cost.terms := by
  have hσ0 : 0 < σ := lt_of_lt_of_le one_pos hσ
  have hlσ : 0 ≤ Real.log σ := Real.log_nonneg hσ
  obtain ⟨h1, h2⟩ := shadow_exact_relaxed hf hcc hcne hcpos hcons hwf hfix hord hal hlate hlen h
  have hT := cost_pos hcne hcpos hpt
  have h3 := h2 pt hpt (linC.map (fun k => if k = l then σ else 1)) (by
    rw [List.forall₂_map_right_iff]
    refine hrel.imp ?_
    intro c k hck
    split at hck
    · rename_i hk
      simp only [hk, if_true]
      exact ⟨hσ0, .inr hck.1, hck.2⟩
    · rename_i hk
      simp only [hk, if_false]
      exact ⟨one_pos, .inl trivial, hck⟩)
  have hsum : ((ss.cons.zip (linC.map (fun k => if k = l then σ else 1))).map (fun p => lastSens p.1 * Real.log p.2)).sum =
      ((linC.zip ss.cons).map (fun p => if p.1 = l then lastSens p.2 else 0)).sum * Real.log σ := by
    generalize ss.cons = as
    clear h3 hrel hC
    induction linC generalizing as with
    | nil => simp
    | cons k linC ih =>
      cases as with
      | nil => simp
      | cons a as =>
        rw [List.map_cons, List.zip_cons_cons, List.map_cons, List.sum_cons, ih, List.zip_cons_cons, List.map_cons, List.sum_cons, add_mul]
        congr 1
        by_cases hk : k = l <;> simp [hk]
  have hshift : -((ss.vars.map (fun p => if linV p.1 = l then |p.2| else 0)).sum * Real.log σ) ≤ shift fixed pt (sensAt ss.vars) := by
    have hk := sum_keys_le (vars_wf h) hwf (fun v => if linV v = l then 1 else 0) (by intro v; split <;> simp)
    have hk1 : (ss.vars.map (fun p => (if linV p.1 = l then 1 else 0) * |p.2|)).sum = (ss.vars.map (fun p => if linV p.1 = l then |p.2| else 0)).sum := by
      congr 1
      apply List.map_congr_left
      intro p _
      split <;> simp
    rw [hk1] at hk
    refine le_trans (neg_le_neg (mul_le_mul_of_nonneg_right hk hlσ)) ?_
    rw [← List.sum_map_mul_right, ← neg_one_mul, ← List.sum_map_mul_left]
    unfold shift
    apply List.sum_le_sum
    intro p hp
    have hg := (mem_iff_get? hwf _ _).1 hp
    have hc0 := hfix p.1 p.2 hg
    have hc := hch p.1 p.2 hg
    by_cases hk : linV p.1 = l
    · rw [if_pos hk] at hc
      rw [if_pos hk, one_mul, neg_one_mul]
      have hb : |Real.log (pt p.1) - Real.log p.2| ≤ Real.log σ := by
        rw [abs_le]
        constructor
        · have := Real.log_le_log (div_pos hc0 hσ0) hc.1
          rw [Real.log_div hc0.ne' hσ0.ne'] at this
          linarith
        · have := Real.log_le_log (hpt _) hc.2
          rw [Real.log_mul hσ0.ne' hc0.ne'] at this
          linarith
      have h5 : -(|sensAt ss.vars p.1| * |Real.log (pt p.1) - Real.log p.2|) ≤ sensAt ss.vars p.1 * (Real.log (pt p.1) - Real.log p.2) := by
        rw [← abs_mul]; exact neg_abs_le _
      have h6 := mul_le_mul_of_nonneg_left hb (abs_nonneg (sensAt ss.vars p.1))
      linarith
    · rw [if_neg hk] at hc
      rw [if_neg hk, hc]
      simp
  rw [C80_models_partial h hC hV hl, div_le_iff₀ (Real.rpow_pos_of_pos hσ0 _), ← Real.log_le_log_iff h1 (mul_pos hT (Real.rpow_pos_of_pos hσ0 _)),
    Real.log_mul hT.ne' (Real.rpow_pos_of_pos hσ0 _).ne', Real.log_rpow hσ0, add_mul]
  rw [hsum] at h3
  linarith

/-! ## The table -/

open Classical in
theorem mText_true {s : ℝ} (hs : 0 ≤ s) : (mText s).True s := by
  unfold mText
  split
  · rename_i h1
    split
    · rename_i h0
      have hp : 0 < s := lt_of_le_of_ne hs (Ne.symm h0)
      have hlog : Real.logb 10 s < 0 := Real.logb_neg (by norm_num) hp (lt_trans h1 (by norm_num))
      unfold trunc
      rw [if_neg (not_le.2 hlog)]
      have e1 : (10 : ℝ) ^ (Real.logb 10 s) = s := Real.rpow_logb (by norm_num) (by norm_num) hp
      constructor
      · rw [← Real.rpow_intCast]
        conv_rhs => rw [← e1]
        apply Real.rpow_lt_rpow_of_exponent_lt (by norm_num)
        have := Int.ceil_lt_add_one (Real.logb 10 s)
        push_cast
        linarith
      · rw [← Real.rpow_intCast]
        conv_lhs => rw [← e1]
        exact Real.rpow_le_rpow_of_exponent_le (by norm_num) (Int.le_ceil _)
    · rename_i h0
      simpa [MText.True] using h0
  · exact rfl

open Classical in
/-- C80, table: with at least two named models, the table has one line for each, from the most to the least sensitive, and what it says is true. Missing: solutions with
one named model (see `C80_table_fails`), and that less is less (see `C80_below_fails`). -/
theorem C80_table_partial {models : PyDict Str ℝ} (hpos : ∀ p ∈ models, 0 ≤ p.2) (hn : 1 < (models.filter (fun p => !p.1.isEmpty)).length) :
    ∃ rows : List (Str × ℝ), rows.Perm (models.filter (fun p => !p.1.isEmpty)) ∧ rows.Pairwise (fun a b => b.2 ≤ a.2) ∧
      List.Forall₂ (fun line row => line.2 = row.1 ∧ line.1.True row.2) (msenssTable models) rows := by
  have hperm : ((models.mergeSort (fun a b => decide (-a.2 ≤ -b.2))).filter (fun p => !p.1.isEmpty)).Perm (models.filter (fun p => !p.1.isEmpty)) :=
    (List.mergeSort_perm _ _).filter _
  refine ⟨_, hperm, ?_, ?_⟩
  · apply List.Pairwise.filter
    have := List.pairwise_mergeSort (le := fun a b : Str × ℝ => decide (-a.2 ≤ -b.2))
      (by intro a b c h1 h2; simp only [decide_eq_true_eq] at *; linarith)
      (by intro a b; simp only [Bool.or_eq_true, decide_eq_true_eq]; exact le_total _ _) models
    exact this.imp (by intro a b h; simp only [decide_eq_true_eq] at h; linarith)
  · unfold msenssTable
    simp only
    rw [if_pos (by rw [List.length_map, hperm.length_eq]; omega), List.forall₂_map_left_iff, List.forall₂_same]
    intro p hp
    exact ⟨rfl, mText_true (hpos p (List.mem_filter.1 (hperm.subset hp)).1)⟩

/-- C80 is violated: the sensitivity of a model is not shown if it is the only one with a name. -/
theorem C80_table_fails : msenssTable [(['A'], 1)] = [] := by
  unfold msenssTable
  rw [List.mergeSort_singleton]
  simp

/-- C80 is violated: 0.01 is shown as less than `1E-2`. -/
theorem C80_below_fails : mText (1 / 100) = .below (-2) ∧ ¬ (1 / 100 : ℝ) < (10 : ℝ) ^ (-2 : ℤ) := by
  have : Real.logb 10 (1 / 100) = ((-2 : ℤ) : ℝ) := by
    rw [show (1 / 100 : ℝ) = (10 : ℝ) ^ (((-2 : ℤ) : ℝ)) by rw [Real.rpow_intCast]; norm_num]
    exact Real.logb_rpow (by norm_num) (by norm_num)
  constructor
  · unfold mText trunc
    rw [if_pos (by norm_num), if_pos (by norm_num), this, if_neg (by norm_num), Int.ceil_intCast]
  · norm_num

/-! ## Violations -/

/-- C80 is violated: the second `A` and the first `A1` share an entry. -/
theorem C80_names_fails : sensAt (modelSenss [[(['A'], 1)], [(['A', '1'], 0)]] (fun _ : ℕ => []) ⟨[], [[1], [2]]⟩) ['A', '1'] = 3 := by
  have h1 : Names.lineageStr true [(['A'], 1)] = ['A', '1'] := by decide
  have h2 : Names.lineageStr true [(['A', '1'], 0)] = ['A', '1'] := by decide
  rw [sensAt_models]
  norm_num [h1, h2]

/-- C80 is violated: minimising `1/x` with `x + 1 <= 2`. The sensitivity of the constraint is 1, and the cost is 1; but relaxed by a factor 2 the constraint holds at
`x = 3`, where the cost is 1/3, less than 1/2. (The constant is subtracted before the constraint is given to the solver.) -/
theorem C80_constant_fails : ∃ (r : Result ℕ) (ss : Senss ℕ) (pt : ℕ → ℝ) (c : Con ℕ ℤ),
    solveSens 0 0 0 (fun _ => .ok ⟨1, [0], .nu (fun _ => 1)⟩) (⟨[(⟨[(0, -1)]⟩, 1)], none⟩ : NMap ℕ ℝ ℤ) [c] [] (fun h f => varlocs h f) = .ok (r, ss, true) ∧
    ConOK c ∧ r.cost = 1 ∧ ss.cons = [[1]] ∧ (∀ v, 0 < pt v) ∧ c.Holds 2 pt ∧
    termsVal pt [(⟨[(0, -1)]⟩, 1)] < r.cost / 2 ^ lastSens [1] := by
  set c : Con ℕ ℤ := .le false ⟨[(⟨[(0, 1)]⟩, 1), (HV.empty, 1)], none⟩ ⟨[(HV.empty, 2)], none⟩ with hc
  have hun : c.unsubbed 0 = .ok [⟨⟨[(⟨[(0, 1)]⟩, 1)], none⟩, .monomial⟩] := by
    norm_num [hc, Con.unsubbed, genUnsubbed, UnitCache.ratio, renameTerms, renameStep, List.foldlM, PyDict.get?, PyDict.set, PyDict.del,
      bind, pure, Except.bind, Except.pure, HV.beq_def, List.isPerm, HV.sub, HV.add, HV.scale, dictAdd, dictAddStep, dictScale, HV.empty,
      simplifyPosyIneq, wrapForm, mkSig, NMap.anyNonpositive, Except.map]
  have hform : asHmapslt1 0 [[(⟨[(0, 1)]⟩, 1)]] [] (fun h f => varlocs h f : Orders ℕ ℝ) {} =
      (.ok [[(⟨[(0, 1)]⟩, 1)]], ⟨some [[(0, 1)]], none, none⟩) := by
    norm_num [asHmapslt1, formStep, noteConst, checkForm, simplifyPosyIneq, mmap, mmapStep, dictScale, pyIndex, subState, subRound, subinplace, subInit, csUpdate, subAdd,
      varlocs, varlocKeys, PyDict.get?, PyDict.set, PyDict.del, PyDict.contains, PyDict.keys, HV.get?, HV.del, HV.empty, pwDom, pw_real, HV.beq_def, bind, pure,
      Except.bind, Except.pure, Except.map, List.foldlM, List.isPerm]
  have h1 : Con.hmaps 0 [] (fun h f => varlocs h f) c = .ok [⟨[(⟨[(0, 1)]⟩, 1)], false⟩] := by
    unfold Con.hmaps
    rw [hun]
    simp only [bind, Except.bind, List.map_cons, List.map_nil, hform]
    rfl
  have h2 : hmaps 0 (⟨[(⟨[(0, -1)]⟩, 1)], none⟩ : NMap ℕ ℝ ℤ) [c] [] (fun h f => varlocs h f) =
      .ok [⟨[(⟨[(0, -1)]⟩, 1)], false⟩, ⟨[(⟨[(0, 1)]⟩, 1)], false⟩] := by
    unfold hmaps
    rw [List.mapM_cons, List.mapM_nil, h1]
    norm_num [NMap.sub, subState, subInit, csUpdate, subAdd, varlocs, varlocKeys, PyDict.get?, PyDict.set, PyDict.contains, PyDict.keys, bind, Except.bind, pure, Except.pure,
      List.foldlM]
  have hg : genLoop ([⟨[(⟨[(0, -1)]⟩, 1)], false⟩, ⟨[(⟨[(0, 1)]⟩, 1)], false⟩] : List (Hmap ℕ ℝ)) =
      ⟨[(0, 1), (1, 2)], [0, 1], [1, 1], [⟨[(0, -1)]⟩, ⟨[(0, 1)]⟩], [(0, [0, 1])], [], [], []⟩ := by
    simp [genLoop, genStep, expStep, locAppend, PyDict.set, PyDict.get?]
  have h3 : conSenss 0 [] (fun h f => varlocs h f) [c] [(1, [1])] = .ok [[([(0, 1)], 1)]] := by
    unfold conSenss
    rw [h1]
    simp only [bind, Except.bind, List.length_singleton, List.take_one, List.head?_cons, Option.toList, conSenss]
    unfold Con.senss
    rw [hun]
    simp only [bind, Except.bind, hc, hform]
    norm_num [leSenss, sensFromDual, liftNu, addShares, sensOfNu, Verif.addSens, PyDict.get?, PyDict.set, pure, Except.pure, Memo.constMmap]
  refine ⟨⟨1, [(0, Real.exp 0)], [(0, Real.exp 0)]⟩, _, fun _ => 3, c,
    solveSens_intro h2 hg rfl rfl rfl ?_ (l0 := 1) (ls := [1]) ?_ (n0 := [1]) (ns := [[1]]) ?_ h3, ?_, rfl, rfl, fun _ => by norm_num, ?_, ?_⟩
  · simp [checkSolution, almostEqual, sliceSum, Data.A, Data.colEntries, Data.expOf, HV.get?, PyDict.get?, Coot.dot, Coot.tdot, Coot.ncols,
      dualNan, dualCost, List.range_succ, vec]
  · simp [sliceSum]
  · simp [nuByPosy]
  · refine ⟨.inl rfl, ?_, by simp, HV.empty, 2, rfl, by simp [ExpCanonical, HV.empty], two_pos, by simp [UnitOK, unitScale], by simp [UnitOK, unitScale], ?_⟩
    · constructor <;> simp [ExpCanonical, HV.empty]
    · simp only [NoClash, HV.empty, List.pairwise_cons, List.mem_singleton, forall_eq, List.not_mem_nil, false_implies, implies_true, List.Pairwise.nil, and_true]
      intro h
      have := h (fun _ => 2) (fun _ => two_pos)
      norm_num [monVal] at this
  · norm_num [hc, Con.Holds, physVal, termsVal, monVal, unitScale, HV.empty]
  · norm_num [termsVal, monVal, lastSens]

/-- `1 <= x`. -/
def oneLeX : Con ℕ ℤ := .le false ⟨[(HV.empty, 1)], none⟩ ⟨[(⟨[(0, 1)]⟩, 1)], none⟩

/-- C80 is violated: minimising `x` with a constraint `1 <= x` that occurs twice. The solver may divide the price of the constraint between its occurrences; the entry of
the constraint is what it answered last, here 1/2. But if the constraint (both times) is relaxed by a factor 4, the cost is 1/4, less than `4 ** (-1/2)`. -/
theorem C80_twice_fails : ∃ (r : Result ℕ) (ss : Senss ℕ) (pt : ℕ → ℝ),
    solveSens 0 0 0 (fun _ => .ok ⟨1, [0], .nu (fun i => if i = 0 then 1 else 1 / 2)⟩) (⟨[(⟨[(0, 1)]⟩, 1)], none⟩ : NMap ℕ ℝ ℤ) [oneLeX, oneLeX] []
      (fun h f => varlocs h f) = .ok (r, ss, true) ∧
    r.cost = 1 ∧ (consDict ((["c", "c"] : List String).zip ss.cons)).get? "c" = some (1 / 2) ∧ (∀ v, 0 < pt v) ∧ oneLeX.NoConst [] ∧ oneLeX.Holds 4 pt ∧
    termsVal pt [(⟨[(0, 1)]⟩, 1)] < r.cost / (4 : ℝ) ^ (1 / 2 : ℝ) := by
  have hun : oneLeX.unsubbed 0 = .ok [⟨⟨[(⟨[(0, -1)]⟩, 1)], none⟩, .monomial⟩] := by
    norm_num [oneLeX, Con.unsubbed, genUnsubbed, UnitCache.ratio, renameTerms, renameStep, List.foldlM, PyDict.get?, PyDict.set, PyDict.del,
      bind, pure, Except.bind, Except.pure, HV.beq_def, List.isPerm, HV.sub, HV.add, HV.scale, dictAdd, dictAddStep, dictScale, HV.empty,
      simplifyPosyIneq, wrapForm, mkSig, NMap.anyNonpositive, Except.map]
  have hform : asHmapslt1 0 [[(⟨[(0, -1)]⟩, 1)]] [] (fun h f => varlocs h f : Orders ℕ ℝ) {} =
      (.ok [[(⟨[(0, -1)]⟩, 1)]], ⟨some [[(0, 1)]], none, none⟩) := by
    norm_num [asHmapslt1, formStep, noteConst, checkForm, simplifyPosyIneq, mmap, mmapStep, dictScale, pyIndex, subState, subRound, subinplace, subInit, csUpdate, subAdd,
      varlocs, varlocKeys, PyDict.get?, PyDict.set, PyDict.del, PyDict.contains, PyDict.keys, HV.get?, HV.del, HV.empty, pwDom, pw_real, HV.beq_def, bind, pure,
      Except.bind, Except.pure, Except.map, List.foldlM, List.isPerm]
  have h1 : Con.hmaps 0 [] (fun h f => varlocs h f) oneLeX = .ok [⟨[(⟨[(0, -1)]⟩, 1)], false⟩] := by
    unfold Con.hmaps
    rw [hun]
    simp only [bind, Except.bind, List.map_cons, List.map_nil, hform]
    rfl
  have h2 : hmaps 0 (⟨[(⟨[(0, 1)]⟩, 1)], none⟩ : NMap ℕ ℝ ℤ) [oneLeX, oneLeX] [] (fun h f => varlocs h f) =
      .ok [⟨[(⟨[(0, 1)]⟩, 1)], false⟩, ⟨[(⟨[(0, -1)]⟩, 1)], false⟩, ⟨[(⟨[(0, -1)]⟩, 1)], false⟩] := by
    unfold hmaps
    rw [List.mapM_cons, List.mapM_cons, List.mapM_nil, h1]
    norm_num [NMap.sub, subState, subInit, csUpdate, subAdd, varlocs, varlocKeys, PyDict.get?, PyDict.set, PyDict.contains, PyDict.keys, bind, Except.bind, pure, Except.pure,
      List.foldlM]
  have hg : genLoop ([⟨[(⟨[(0, 1)]⟩, 1)], false⟩, ⟨[(⟨[(0, -1)]⟩, 1)], false⟩, ⟨[(⟨[(0, -1)]⟩, 1)], false⟩] : List (Hmap ℕ ℝ)) =
      ⟨[(0, 1), (1, 2), (2, 3)], [0, 1, 2], [1, 1, 1], [⟨[(0, 1)]⟩, ⟨[(0, -1)]⟩, ⟨[(0, -1)]⟩], [(0, [0, 1, 2])], [], [], []⟩ := by
    simp [genLoop, genStep, expStep, locAppend, PyDict.set, PyDict.get?]
  have h4 : Con.senss 0 [] (fun h f => varlocs h f) oneLeX [(1 / 2, [1 / 2])] = .ok [([(0, -(1 / 2))], 1 / 2)] := by
    unfold Con.senss
    rw [hun]
    simp only [bind, Except.bind, oneLeX, hform]
    norm_num [leSenss, sensFromDual, liftNu, addShares, sensOfNu, Verif.addSens, PyDict.get?, PyDict.set, pure, Except.pure, Memo.constMmap]
  have h3 : conSenss 0 [] (fun h f => varlocs h f) [oneLeX, oneLeX] [(1 / 2, [1 / 2]), (1 / 2, [1 / 2])] =
      .ok [[([(0, -(1 / 2))], 1 / 2)], [([(0, -(1 / 2))], 1 / 2)]] := by
    simp only [conSenss, h1, bind, Except.bind, List.length_singleton, List.take_one, List.head?_cons, Option.toList, List.drop_one, List.tail_cons, h4]
    rfl
  refine ⟨⟨1, [(0, Real.exp 0)], [(0, Real.exp 0)]⟩, _, fun _ => 1 / 4,
    solveSens_intro h2 hg rfl rfl rfl ?_ (l0 := 1) (ls := [1 / 2, 1 / 2]) ?_ (n0 := [1]) (ns := [[1 / 2], [1 / 2]]) ?_ h3, rfl, ?_, fun _ => by norm_num, ?_, ?_, ?_⟩
  · norm_num [checkSolution, almostEqual, sliceSum, Data.A, Data.colEntries, Data.expOf, HV.get?, PyDict.get?, Coot.dot, Coot.tdot, Coot.ncols,
      dualNan, dualCost, List.range_succ, vec]
  · simp [sliceSum]
  · simp [nuByPosy]
  · norm_num [consDict, PyDict.set, PyDict.get?]
  · intro s hs t ht
    simp only [List.mem_singleton] at hs ht
    subst hs ht
    exact ⟨0, by simp [PyDict.get?], by simp [HV.get?, PyDict.get?, HV.empty]⟩
  · norm_num [oneLeX, Con.Holds, physVal, termsVal, monVal, unitScale, HV.empty]
  · have : (4 : ℝ) ^ (1 / 2 : ℝ) = 2 := by
      rw [show (4 : ℝ) = 2 ^ (2 : ℝ) by norm_num, ← Real.rpow_mul (by norm_num)]
      norm_num
    rw [this]
    norm_num [termsVal, monVal]

/-- The C80 theorems applied to the model of `aLeX_solved`: for every `a` and `x` with `a <= σ*x`, `a <= x*σ` follows. -/
example (pt : ℕ → ℝ) (hpt : ∀ v, 0 < pt v) {σ : ℝ} (hσ : 0 < σ) (h : aLeX.Holds σ pt) : pt 1 ≤ pt 0 * σ := by
  obtain ⟨r, ss, h1, h2, h3⟩ := aLeX_solved
  have hcc : TermsCanonical ([(⟨[(0, 1)]⟩, 1)] : PyDict (HV ℕ ℝ) ℝ) := by constructor <;> simp [ExpCanonical]
  have hok : ConOK aLeX := by
    refine ⟨.inl rfl, ?_, by simp, ⟨[(0, 1)]⟩, 1, rfl, by simp [ExpCanonical], one_pos, by simp [UnitOK, unitScale], by simp [UnitOK, unitScale], ?_⟩
    · constructor <;> simp [ExpCanonical]
    · simp [NoClash]
  have hno : aLeX.NoConst [(1, 1)] := by
    intro s hs t ht
    simp only [List.mem_singleton] at hs ht
    subst hs ht
    exact ⟨0, by simp [PyDict.get?], by simp [HV.get?, PyDict.get?]⟩
  have hc : r.cost = 1 := by
    obtain ⟨H, out, la, nu, -, ho, -, hr, -, -⟩ := solve_ok (solveSens_ok h1).1
    cases ho
    rw [hr]
  have := C80_exact_partial (le_refl 0) hcc (by simp) (by simp) (by simpa using hok) (by simp [WF])
    (by intro v c hv; simp only [PyDict.get?] at hv; split at hv <;> cases hv; exact one_pos) varlocs_valid (C77_aligned hcc (by simp) varlocs_valid (.inl ⟨_, rfl⟩))
    (by
      intro c hc u hu n hn t1 ht1 t2 ht2 hne
      rw [List.mem_singleton] at hc
      subst hc
      rw [aLeX_unsubbed] at hu
      cases hu
      rw [List.mem_singleton] at hn
      subst hn
      simp only [List.mem_singleton] at ht1 ht2
      exact absurd (by rw [ht1, ht2]) hne)
    (by intro d out l ho hd; cases ho; cases hd) h1 pt hpt (σs := [σ]) (.cons ⟨hσ, .inr hno, h⟩ .nil)
  rw [hc, one_mul, h3] at this
  simpa [h2, termsVal, monVal, lastSens] using this

/-- A model of `C80_model_bound_partial`: both the constraint and the constant of `aLeX` belong to the model `A`, of sensitivity 2. -/
example : ∃ (r : Result ℕ) (ss : Senss ℕ), solveSens 0 0 0 (fun _ => .ok ⟨1, [0], .nu (fun _ => 1)⟩) (⟨[(⟨[(0, 1)]⟩, 1)], none⟩ : NMap ℕ ℝ ℤ)
      [aLeX] [(1, 1)] (fun h f => varlocs h f) = .ok (r, ss, true) ∧
    2 ≤ sensAt (modelSenss [[(['A'], 0)]] (fun _ => [(['A'], 0)]) ss) (Names.lineageStr true [(['A'], 0)]) := by
  obtain ⟨r, ss, h1, h2, h3⟩ := aLeX_solved
  refine ⟨r, ss, h1, ?_⟩
  have hcl : ClearLineage [(['A'], 0)] := by
    intro x hx
    rw [List.mem_singleton] at hx
    subst hx
    refine ⟨by simp, by decide, ?_⟩
    intro c hc
    cases hc
    decide
  rw [C80_models_partial h1 (by simpa using hcl) (fun _ => hcl) hcl, h3]
  have := sum_keys_le (vars_wf h1) (e := [(1, 1)]) (by simp [WF]) (fun _ => 1) (by simp)
  simp only [List.map_cons, List.map_nil, List.sum_cons, List.sum_nil, h2, abs_one, one_mul, add_zero] at this
  simp [lastSens]
  linarith

end
end Verif
