import Verif.Model.AutosweepGP
import Verif.Spec.AutosweepGP
import Verif.Props.AutoBounds
import Verif.Props.Oracle
import Verif.Props.Shadow

/-!
# C88: an autosweep brackets the optimal cost of a model

C31 takes for granted that the cost is convex and that sensitivities are slopes of it. For a geometric program both follow: the points of two solutions have
geometric means that satisfy the constraints (C71), and sensitivities bound the cost at other values (C77).
-/

set_option linter.unusedSectionVars false

namespace Verif
open PyDict GP Pipeline Auto

section
variable {V D F : Type} [DecidableEq V] [AddCommGroup D] [DecidableEq D]

/-! ### Constants -/

theorem numbers_get? : ∀ {subs : PyDict V (Val ℝ F)} {fixed : PyDict V ℝ}, numbers subs = .ok fixed →
    ∀ k, subs.get? k = (fixed.get? k).map .num
  | [], _, h, k => by cases h; rfl
  | (k', .num x) :: l, fixed, h, k => by
    rw [numbers] at h
    cases hl : numbers l with
    | error e => rw [hl] at h; cases h
    | ok l' =>
      rw [hl] at h
      cases h
      have := numbers_get? hl k
      simp only [PyDict.get?]
      split
      · rfl
      · exact this
  | (_, .nan) :: _, _, h, _ => by cases h
  | (_, .fn _) :: _, _, h, _ => by cases h
  | (_, .sweep _) :: _, _, h, _ => by cases h
  | (_, .arr _) :: _, _, h, _ => by cases h

theorem numbers_keys : ∀ {subs : PyDict V (Val ℝ F)} {fixed : PyDict V ℝ}, numbers subs = .ok fixed → fixed.keys = subs.keys
  | [], _, h => by cases h; rfl
  | (k', .num x) :: l, fixed, h => by
    rw [numbers] at h
    cases hl : numbers l with
    | error e => rw [hl] at h; cases h
    | ok l' =>
      rw [hl] at h
      cases h
      have := numbers_keys hl
      simp only [PyDict.keys, List.map_cons] at this ⊢
      rw [this]
  | (_, .nan) :: _, _, h => by cases h
  | (_, .fn _) :: _, _, h => by cases h
  | (_, .sweep _) :: _, _, h => by cases h
  | (_, .arr _) :: _, _, h => by cases h

/-! ### Geometric means of points -/

theorem con_geo {c : Con V D} (hc : ConOK c) {p q : V → ℝ} (hp : ∀ w, 0 < p w) (hq : ∀ w, 0 < q w) {θ : ℝ} (h0 : 0 ≤ θ) (h1 : θ ≤ 1)
    (hcp : c.Holds 1 p) (hcq : c.Holds 1 q) : c.Holds 1 (fun w => geo θ (p w) (q w)) := by
  have one : ∀ (m : NMap V ℝ D) (e : HV V ℝ) (c : ℝ), m.terms = [(e, c)] → 0 < c → UnitOK m.units →
      (∀ pt : V → ℝ, (∀ w, 0 < pt w) → 0 < physVal pt m) ∧ physVal (fun w => geo θ (p w) (q w)) m = geo θ (physVal p m) (physVal q m) := by
    intro m e c hm hc hu
    have hl : m.terms.length = 1 := by rw [hm]; rfl
    have hpos : ∀ t ∈ m.terms, 0 < t.2 := by rw [hm]; intro t ht; cases List.mem_singleton.1 ht; exact hc
    have hne : m.terms ≠ [] := by rw [hm]; simp
    have hvp : ∀ pt : V → ℝ, (∀ w, 0 < pt w) → 0 < termsVal pt m.terms := fun pt hpt => termsVal_pos' hpt hne hpos
    refine ⟨fun pt hpt => mul_pos hu (hvp pt hpt), ?_⟩
    unfold physVal
    rw [termsVal_geo_one hp hq θ hl hpos, geo_mul hu hu (hvp p hp) (hvp q hq), geo_self θ hu]
  cases c with
  | le se l r =>
    obtain ⟨-, -, hlpos, e, cm, hm, -, hcm, hul, hur, -⟩ := hc
    simp only [Con.Holds, one_mul] at hcp hcq ⊢
    obtain ⟨hrp, hr⟩ := one r e cm hm hcm hur
    rw [hr]
    by_cases hne : l.terms = []
    · unfold physVal
      rw [hne, termsVal_nil, mul_zero]
      exact (geo_pos _ _ _).le
    · have hlp := mul_pos hul (termsVal_pos' hp hne hlpos)
      have hlq := mul_pos hul (termsVal_pos' hq hne hlpos)
      refine le_trans ?_ (geo_le h0 h1 hlp hlq hcp hcq)
      rw [geo_mul hul hul (termsVal_pos' hp hne hlpos) (termsVal_pos' hq hne hlpos), geo_self θ hul]
      exact mul_le_mul_of_nonneg_left (termsVal_geo hp hq h0 h1 hne hlpos) (le_of_lt hul)
  | eq se l r =>
    obtain ⟨el, er, cl, cr, hl, hr, -, -, hcl, hcr, hul, hur⟩ := hc
    simp only [Con.Holds, one_mul] at hcp hcq ⊢
    obtain ⟨hlp, hlg⟩ := one l el cl hl hcl hul
    obtain ⟨hrp, hrg⟩ := one r er cr hr hcr hur
    rw [hlg, hrg]
    exact ⟨geo_le h0 h1 (hlp p hp) (hlp q hq) hcp.1 hcq.1, geo_le h0 h1 (hrp p hp) (hrp q hq) hcp.2 hcq.2⟩

/-- What C88 asks of a model and its sweep. -/
structure Sweepable (optimize : GP.Data V ℝ → Except Err SolverOut) (cost : NMap V ℝ D) (cons : List (Con V D)) (ord : Orders V ℝ) (v : V) (lo hi : ℝ)
    (subs : PyDict V (Val ℝ F)) : Prop where
  low : 0 < lo
  canon : TermsCanonical cost.terms
  nonempty : cost.terms ≠ []
  coefs : ∀ t ∈ cost.terms, 0 < t.2
  conok : ∀ c ∈ cons, ConOK c
  wf : WF subs
  consts : ∀ w c, w ≠ v → subs.get? w = some (.num c) → 0 < c
  orders : ord.Valid
  aligned : ∀ x fixed, numbers (subs.set v (.num x)) = .ok fixed → CostAligned cost fixed ord
  late : ∀ x fixed, numbers (subs.set v (.num x)) = .ok fixed → ∀ c ∈ cons, ∀ u, c.unsubbed 0 = .ok u → ∀ n ∈ u,
    MergesLate n.hmap.terms (varlocKeys n.hmap.terms fixed)
  len : ∀ d out l, optimize d = .ok out → out.dual = .la l → l.length = d.mIdxs.length ∨ l.length + 1 = d.mIdxs.length
  /-- every solution in the range passed the check -/
  checked : ∀ x, lo ≤ x → x ≤ hi → ∀ s, solveAt 0 0 0 optimize cost cons ord (subs.set v (.num x)) = .ok s → s.2.2 = true

variable {optimize : GP.Data V ℝ → Except Err SolverOut} {cost : NMap V ℝ D} {cons : List (Con V D)} {ord : Orders V ℝ} {v : V} {lo hi : ℝ}
  {subs : PyDict V (Val ℝ F)}

/-- A solution at a value: there is a point with its cost, and the cost at other values is bounded. -/
theorem Sweepable.solved (h : Sweepable optimize cost cons ord v lo hi subs) {x : ℝ} (h0 : lo ≤ x) (h1 : x ≤ hi) {s : Result V × Senss V × Bool}
    (hs : solveAt 0 0 0 optimize cost cons ord (subs.set v (.num x)) = .ok s) :
    (∃ pt, Feasible cons subs v x pt ∧ termsVal pt cost.terms = solCost s) ∧ 0 < solCost s ∧
    ∀ value pt, Feasible cons subs v value pt → Real.log (solCost s) + solSens v s * (Real.log value - Real.log x) ≤ Real.log (termsVal pt cost.terms) := by
  have hchk := h.checked x h0 h1 s hs
  unfold solveAt at hs
  obtain ⟨fixed, hf, hs⟩ := except_bind_ok hs
  obtain ⟨r, ss, b⟩ := s
  cases (show b = true from hchk)
  have hx : 0 < x := h.low.trans_le h0
  have hget : ∀ w c, fixed.get? w = some c ↔ (subs.set v (.num x)).get? w = some (.num c) := by
    intro w c
    rw [numbers_get? hf]
    cases fixed.get? w <;> simp
  have hgv : fixed.get? v = some x := by rw [hget, get?_set, if_pos (by simp)]
  have hgw : ∀ w c, w ≠ v → (fixed.get? w = some c ↔ subs.get? w = some (.num c)) := by
    intro w c hw
    rw [hget, get?_set, if_neg (by simpa using fun h => hw h.symm)]
  have hwf : WF fixed := by
    have hw := wf_set h.wf v (.num x)
    have e := numbers_keys hf
    unfold PyDict.keys at e
    unfold WF at hw ⊢
    rw [← List.pairwise_map (f := Prod.fst) (R := fun a b => (a == b) = false)] at hw ⊢
    rwa [e]
  have hfix : ∀ w c, fixed.get? w = some c → 0 < c := by
    intro w c hc
    by_cases hw : w = v
    · rw [hw, hgv] at hc; cases hc; exact hx
    · exact h.consts w c hw ((hgw w c hw).1 hc)
  obtain ⟨e1, e2⟩ := shadow_exact (le_refl 0) h.canon h.nonempty h.coefs h.conok hwf hfix h.orders (h.aligned x fixed hf) (h.late x fixed hf) h.len hs
  refine ⟨?_, e1, fun value pt hpt => ?_⟩
  · obtain ⟨f1, f2, f3⟩ := feasible_of_pos (le_refl 0) h.canon h.nonempty h.conok hwf hfix h.orders (solveSens_ok hs).1
    have hpt : ∀ w, 0 < (r.vars.get? w).getD 1 := by
      intro w
      cases hg : r.vars.get? w with
      | none => simp
      | some c => simpa using f2 w c hg
    have hag : ∀ w c, r.vars.get? w = some c → (r.vars.get? w).getD 1 = c := fun w c hc => by rw [hc]; rfl
    obtain ⟨g1, g2⟩ := f3 (fun w => (r.vars.get? w).getD 1) hpt hag
    refine ⟨_, ⟨hpt, hag v x (f1 v x hgv), fun w c hw hc => hag w c (f1 w c ((hgw w c hw).2 hc)), ?_⟩, close_zero g2⟩
    simpa using g1
  · have := e2 pt hpt.pos hpt.cons
    refine le_trans (le_of_eq ?_) this
    congr 1
    have hz : ∀ p ∈ fixed, sensAt ss.vars p.1 * (Real.log (pt p.1) - Real.log p.2) = if p.1 = v then sensAt ss.vars v * (Real.log value - Real.log x) else 0 := by
      intro p hp
      have hg := (mem_iff_get? hwf _ _).1 hp
      by_cases hpv : p.1 = v
      · rw [if_pos hpv]
        rw [hpv] at hg ⊢
        rw [hgv] at hg
        cases hg
        rw [hpt.swept]
      · rw [if_neg hpv, hpt.consts p.1 p.2 hpv ((hgw _ _ hpv).1 hg), sub_self, mul_zero]
    unfold shift
    rw [List.map_congr_left hz]
    exact (sum_one hwf hgv _).symm

/-- Between two solutions there are points. -/
theorem Sweepable.between (h : Sweepable optimize cost cons ord v lo hi subs) {a b : ℝ} (ha : 0 < a) (hab : a < b) {p q : V → ℝ}
    (hp : Feasible cons subs v a p) (hq : Feasible cons subs v b q) {value : ℝ} (h0 : a ≤ value) (h1 : value ≤ b) :
    ∃ pt, Feasible cons subs v value pt ∧ termsVal pt cost.terms ≤ geo (weight a b value) (termsVal p cost.terms) (termsVal q cost.terms) := by
  obtain ⟨t0, t1⟩ := weight_range ha hab h0 h1
  refine ⟨fun w => geo (weight a b value) (p w) (q w), ⟨fun w => geo_pos _ _ _, ?_, fun w c hw hc => ?_, fun c hc => ?_⟩, ?_⟩
  · simp only [hp.swept, hq.swept]
    exact geo_weight ha hab h0
  · simp only [hp.consts w c hw hc, hq.consts w c hw hc]
    exact geo_self _ (h.consts w c hw hc)
  · exact con_geo (h.conok c hc) hp.pos hq.pos t0 t1 (hp.cons c hc) (hq.cons c hc)
  · exact termsVal_geo hp.pos hq.pos t0 t1 h.nonempty h.coefs

/-- C88 (upper bound): at every value in the range of a finished autosweep there is a point that satisfies the constraints with that value of the swept
variable, and whose cost is not above the upper cost. Missing: as in `C77_bound_partial`; checks with tolerances. -/
theorem C88_upper_partial (h : Sweepable optimize cost cons ord v lo hi subs) {depth : Nat} {logtol : ℝ} {s' : AS V ℝ F}
    {t : Tree ℝ (Result V × Senss V × Bool)} {n : Nat} {tol : ℝ}
    (hrun : autosweepGP 0 0 0 optimize cost cons ord depth logtol v lo hi subs = (s', .ok (t, n, tol))) {value : ℝ} (hv0 : lo ≤ value) (hv1 : value ≤ hi) :
    ∃ u, costAt solCost t value .ub = .ok u ∧ ∃ pt, Feasible cons subs v value pt ∧ termsVal pt cost.terms ≤ u := by
  obtain ⟨w2, w3, a, b, sol0, sol1, x, lb, ub, X, hm, ha, hab, hb, hva, hvb, s0, s1, hx, hX0, hX1, hub⟩ := leaf_of h.low hrun hv0 hv1
  have ha0 : 0 < a := h.low.trans_le ha
  obtain ⟨⟨p, hp, ep⟩, -, -⟩ := h.solved ha (hab.le.trans hb) s0
  obtain ⟨⟨q, hq, eq⟩, -, -⟩ := h.solved (ha.trans hab.le) hb s1
  refine ⟨_, costAt_ub (w2 ▸ hv0) (w3 ▸ hv1) hm ha0 hva hx hX0 hX1 hub, ?_⟩
  obtain ⟨pt, hpt, hle⟩ := h.between ha0 hab hp hq hva hvb
  rw [ep, eq] at hle
  exact ⟨pt, hpt, hle⟩

/-- Logarithms of the costs at a value, by its logarithm. -/
def logCostsAt (cost : NMap V ℝ D) (cons : List (Con V D)) (v : V) (subs : PyDict V (Val ℝ F)) (s : ℝ) : Set ℝ :=
  {y | ∃ pt, Feasible cons subs v (Real.exp s) pt ∧ y = Real.log (termsVal pt cost.terms)}

/-- C88 (lower bound): where the lower bound of the interval is not exactly zero (see `C31_zero_fails`), no point that satisfies the constraints with that
value of the swept variable has a cost below the lower cost, if the interval was not taken for a straight line (`lb < ub`) or is one, and at most by a small
factor below it otherwise (see `C31_straight_fails`). The two costs are closer than twice the tolerance, and the estimate lies between them. Missing: as in
`C77_bound_partial`; checks with tolerances. -/
theorem C88_lower_partial (h : Sweepable optimize cost cons ord v lo hi subs) {depth : Nat} {logtol : ℝ} {s' : AS V ℝ F}
    {t : Tree ℝ (Result V × Senss V × Bool)} {n : Nat} {tol : ℝ}
    (hrun : autosweepGP 0 0 0 optimize cost cons ord depth logtol v lo hi subs = (s', .ok (t, n, tol))) {value : ℝ} (hv0 : lo ≤ value) (hv1 : value ≤ hi)
    {a b x lb ub : ℝ} {sol0 sol1 : Result V × Senss V × Bool} (hm : t.minBst value = .costed a b sol0 sol1 x lb ub) (hlb : lb ≠ 0) :
    ∃ l m u, costAt solCost t value .lb = .ok l ∧ costAt solCost t value .mean = .ok m ∧ costAt solCost t value .ub = .ok u ∧
      (solSens v sol0 = solSens v sol1 ∨ lb < ub → ∀ pt, Feasible cons subs v value pt → l ≤ termsVal pt cost.terms) ∧
      (∀ pt, Feasible cons subs v value pt →
        l ≤ termsVal pt cost.terms * Real.exp ((solSens v sol1 - solSens v sol0) * (Real.log b - Real.log a) / 10000000)) ∧
      l ≤ m ∧ m ≤ u ∧ u < l * Real.exp (2 * logtol) := by
  have hends : ∃ slo shi, solveAt 0 0 0 optimize cost cons ord (subs.set v (.num lo)) = .ok slo ∧
      solveAt 0 0 0 optimize cost cons ord (subs.set v (.num hi)) = .ok shi ∧ lo < hi := by
    obtain ⟨-, -, a', b', -, -, -, -, -, -, -, ha, hab, hb, -⟩ := leaf_of h.low hrun (le_refl lo) (hv0.trans hv1)
    obtain ⟨-, w2, w3, w4, -⟩ := autosweep_ok _ _ depth logtol v h.low subs hrun
    have e0 : (lo, t.s0) ∈ t.pts := by rw [← w2, Tree.mem_pts]; exact Or.inl rfl
    have e1 : (hi, t.s1) ∈ t.pts := by rw [← w3, Tree.mem_pts]; exact Or.inr (Or.inr rfl)
    exact ⟨t.s0, t.s1, w4 _ e0, w4 _ e1, ha.trans_lt (hab.trans_le hb)⟩
  obtain ⟨slo, shi, hlo, hhi, hlt⟩ := hends
  obtain ⟨⟨p, hp, ep⟩, -, blo⟩ := h.solved le_rfl hlt.le hlo
  obtain ⟨⟨q, hq, eq⟩, -, -⟩ := h.solved hlt.le le_rfl hhi
  have hbdd : ∀ s, BddBelow (logCostsAt cost cons v subs s) := by
    intro s
    refine ⟨Real.log (solCost slo) + solSens v slo * (Real.log (Real.exp s) - Real.log lo), ?_⟩
    rintro y ⟨pt, hpt, rfl⟩
    exact blo _ pt hpt
  have hH : Honest (solveAt 0 0 0 optimize cost cons ord) solCost (solSens v) subs v (fun s => sInf (logCostsAt cost cons v subs s)) lo hi := by
    intro x hx0 hx1 s hs
    have hx : 0 < x := h.low.trans_le hx0
    obtain ⟨⟨pt, hpt, e⟩, -, hb⟩ := h.solved hx0 hx1 hs
    have hat : Real.log (solCost s) = sInf (logCostsAt cost cons v subs (Real.log x)) := by
      have hl : IsLeast (logCostsAt cost cons v subs (Real.log x)) (Real.log (solCost s)) := ⟨⟨pt, ?_, by rw [e]⟩, ?_⟩
      · exact hl.csInf_eq.symm
      · rwa [Real.exp_log hx]
      · rintro y ⟨pt', hpt', rfl⟩
        have := hb _ pt' hpt'
        rwa [Real.log_exp, sub_self, mul_zero, add_zero] at this
    refine ⟨hat, fun y hy0 hy1 => ?_⟩
    dsimp only
    rw [← hat]
    refine le_csInf ?_ ?_
    · obtain ⟨pt', hpt', -⟩ := h.between h.low hlt hp hq (value := Real.exp y) ((Real.log_le_iff_le_exp h.low).1 hy0)
        ((Real.le_log_iff_exp_le (h.low.trans hlt)).1 hy1)
      exact ⟨_, pt', hpt', rfl⟩
    · rintro z ⟨pt', hpt', rfl⟩
      have := hb _ pt' hpt'
      rwa [Real.log_exp] at this
  have hvp : 0 < value := h.low.trans_le hv0
  obtain ⟨l, m, u, c1, c2, c3, c4, c5, c6, c7, c8⟩ := C31_lower_partial h.low hrun hH hv0 hv1 hm hlb
  have hle : ∀ pt, Feasible cons subs v value pt → Real.exp (sInf (logCostsAt cost cons v subs (Real.log value))) ≤ termsVal pt cost.terms := by
    intro pt hpt
    have hT := termsVal_pos' hpt.pos h.nonempty h.coefs
    rw [← Real.le_log_iff_exp_le hT]
    refine csInf_le (hbdd _) ⟨pt, ?_, rfl⟩
    rwa [Real.exp_log hvp]
  refine ⟨l, m, u, c1, c2, c3, fun hs pt hpt => (c4 hs).trans (hle pt hpt), fun pt hpt => c5.trans ?_, c6, c7, c8⟩
  rw [Real.exp_add]
  exact mul_le_mul_of_nonneg_right (hle pt hpt) (Real.exp_pos _).le

end

/-! ### Examples -/

theorem aLeX_formc {c : ℝ} (hc : 0 < c) : asHmapslt1 0 [[(⟨[(1, 1), (0, -1)]⟩, 1)]] [(1, c)] (fun h f => varlocs h f : Orders ℕ ℝ) {} =
    (.ok [[(⟨[(0, -1)]⟩, c)]], ⟨some [[(0, 1)]], none, none⟩) := by
  have h1 : ¬ c < 0 := not_lt.2 hc.le
  have h2 : c ≠ 0 := hc.ne'
  norm_num [asHmapslt1, formStep, noteConst, checkForm, simplifyPosyIneq, mmap, mmapStep, dictScale, pyIndex, subState, subRound, subinplace, subInit, csUpdate, subAdd,
      varlocs, varlocKeys, PyDict.get?, PyDict.set, PyDict.del, PyDict.contains, PyDict.keys, HV.get?, HV.del, HV.empty, pwDom, pw_real, HV.beq_def, bind, pure,
      Except.bind, Except.pure, Except.map, List.foldlM, List.isPerm, h1, h2, hc, not_le.2 hc]

/-- The solver: the coefficient of the constraint is the least value of `x`. -/
noncomputable def leastX (d : Data ℕ ℝ) : Except Err SolverOut :=
  match d.cs with
  | [_, c] => .ok ⟨c, [Real.log c], .nu (fun _ => 1)⟩
  | _ => .error .runtimeWarning

theorem aLeX_solvedc {c : ℝ} (hc : 0 < c) : ∃ ss : Senss ℕ, solveSens 0 0 0 leastX (⟨[(⟨[(0, 1)]⟩, 1)], none⟩ : NMap ℕ ℝ ℤ)
      [aLeX] [(1, c)] (fun h f => varlocs h f) = .ok (⟨c, [(0, c)], [(0, c), (1, c)]⟩, ss, true) ∧ sensAt ss.vars 1 = 1 := by
  have h1 : Con.hmaps 0 [(1, c)] (fun h f => varlocs h f) aLeX = .ok [⟨[(⟨[(0, -1)]⟩, c)], false⟩] := by
    unfold Con.hmaps
    rw [aLeX_unsubbed]
    simp only [bind, Except.bind, List.map_cons, List.map_nil, aLeX_formc hc]
    rfl
  have h2 : hmaps 0 (⟨[(⟨[(0, 1)]⟩, 1)], none⟩ : NMap ℕ ℝ ℤ) [aLeX] [(1, c)] (fun h f => varlocs h f) =
      .ok [⟨[(⟨[(0, 1)]⟩, 1)], false⟩, ⟨[(⟨[(0, -1)]⟩, c)], false⟩] := by
    unfold hmaps
    rw [List.mapM_cons, List.mapM_nil, h1]
    norm_num [NMap.sub, subState, subInit, csUpdate, subAdd, varlocs, varlocKeys, PyDict.get?, PyDict.set, PyDict.contains, PyDict.keys, bind, Except.bind, pure, Except.pure,
      List.foldlM]
  have hg : genLoop ([⟨[(⟨[(0, 1)]⟩, 1)], false⟩, ⟨[(⟨[(0, -1)]⟩, c)], false⟩] : List (Hmap ℕ ℝ)) =
      ⟨[(0, 1), (1, 2)], [0, 1], [1, c], [⟨[(0, 1)]⟩, ⟨[(0, -1)]⟩], [(0, [0, 1])], [], [], []⟩ := by
    simp [genLoop, genStep, expStep, locAppend, PyDict.set, PyDict.get?]
  have h3 : conSenss 0 [(1, c)] (fun h f => varlocs h f) [aLeX] [(1, [1])] = .ok [[([(1, 1), (0, -1)], 1)]] := by
    unfold conSenss
    rw [h1]
    simp only [bind, Except.bind, List.length_singleton, List.take_one, List.head?_cons, Option.toList, conSenss]
    unfold Con.senss
    rw [aLeX_unsubbed]
    simp only [bind, Except.bind, aLeX, aLeX_formc hc]
    norm_num [leSenss, sensFromDual, liftNu, addShares, sensOfNu, Verif.addSens, PyDict.get?, PyDict.set, pure, Except.pure, Memo.constMmap]
  have he : Real.exp (Real.log c) = c := Real.exp_log hc
  refine ⟨_, solveSens_intro h2 hg rfl (by simp [compileVars, he]; rfl) rfl ?_ (l0 := 1) (ls := [1]) ?_ (n0 := [1]) (ns := [[1]]) ?_ h3, ?_⟩
  · simp [checkSolution, almostEqual, sliceSum, Data.A, Data.colEntries, Data.expOf, HV.get?, PyDict.get?, Coot.dot, Coot.tdot, Coot.ncols,
      dualNan, dualCost, List.range_succ, vec, he, Real.exp_neg, hc.ne']
  · simp [sliceSum]
  · simp [nuByPosy]
  · rw [C41_gather (by simp [WF]), sensAt_costSens (by simp [WF, PyDict.keys])]
    norm_num [expo, HV.get?, PyDict.get?, sensAt, PyDict.keys]

/-- An autosweep that ends at once. -/
theorem auto_once {V F Sol : Type} [DecidableEq V] {solve : PyDict V (Val ℝ F) → Except Err Sol} {cost sens : Sol → ℝ} {v : V} {lo hi x lb ub logtol : ℝ} {s0 s1 : Sol}
    (hlt : lo < hi) (h0 : solve [(v, .num lo)] = .ok s0) (h1 : solve [(v, .num hi)] = .ok s1)
    (hg : getTol cost sens lo hi s0 s1 = (x, lb, ub)) (hx0 : lo < x) (hx1 : x < hi) (ht : (ub - lb) / 2 < logtol) :
    autosweep solve (getTol cost sens) 1 logtol v lo hi [] = (⟨[], 3⟩, .ok (.costed lo hi s0 s1 x lb ub, 2, (ub - lb) / 2)) := by
  have f : firstSols solve v [lo, hi] ⟨[], 0⟩ = (⟨[(v, .num hi)], 2⟩, .ok [s0, s1]) := by
    simp [firstSols, PyDict.set, h0, h1]
  have m : Tree.make lo hi s0 s1 = .ok (.fresh lo hi s0 s1) := by
    unfold Tree.make
    rw [if_neg (not_le.2 hlt)]
  have ac : (Tree.fresh lo hi s0 s1).addSplitcost x lb ub = .ok (.costed lo hi s0 s1 x lb ub) := by
    unfold Tree.addSplitcost
    rw [if_neg (by simp [Tree.hasSplitval]), if_neg]
    · rfl
    · rw [not_or, not_le, not_le]
      exact ⟨hx0, hx1⟩
  unfold autosweep
  dsimp only
  rw [f]
  dsimp only
  rw [m]
  dsimp only
  unfold recurse
  simp only [Tree.lo, Tree.hi, Tree.s0, Tree.s1, hg]
  rw [if_neg (not_le.2 ht), ac]
  simp [restore, truth, PyDict.get?, PyDict.del]

theorem aLeX_sweepable (hi : ℝ) : Sweepable leastX (⟨[(⟨[(0, 1)]⟩, 1)], none⟩ : NMap ℕ ℝ ℤ) [aLeX] (fun h f => varlocs h f) 1 1 hi ([] : PyDict ℕ (Val ℝ Unit)) := by
  have hcc : TermsCanonical ([(⟨[(0, 1)]⟩, 1)] : PyDict (HV ℕ ℝ) ℝ) := by constructor <;> simp [ExpCanonical]
  have hok : ConOK aLeX := by
    refine ⟨.inl rfl, ?_, by simp, ⟨[(0, 1)]⟩, 1, rfl, by simp [ExpCanonical], one_pos, by simp [UnitOK, unitScale], by simp [UnitOK, unitScale], ?_⟩
    · constructor <;> simp [ExpCanonical]
    · simp [NoClash]
  refine ⟨one_pos, hcc, by simp, by simp, by simpa using hok, by simp [WF], by simp [PyDict.get?], varlocs_valid,
    fun _ _ _ => C77_aligned hcc (by simp) varlocs_valid (.inl ⟨_, rfl⟩), ?_, ?_, ?_⟩
  · intro x fixed _ c hc u hu n hn t1 ht1 t2 ht2 hne
    rw [List.mem_singleton] at hc
    subst hc
    rw [aLeX_unsubbed] at hu
    cases hu
    rw [List.mem_singleton] at hn
    subst hn
    simp only [List.mem_singleton] at ht1 ht2
    exact absurd (by rw [ht1, ht2]) hne
  · intro d out l ho hd
    unfold leastX at ho
    split at ho
    · cases ho; cases hd
    · cases ho
  · intro x hx _ s hs
    obtain ⟨ss, h1, -⟩ := aLeX_solvedc (one_pos.trans_le hx)
    have : solveAt 0 0 0 leastX (⟨[(⟨[(0, 1)]⟩, 1)], none⟩ : NMap ℕ ℝ ℤ) [aLeX] (fun h f => varlocs h f) (PyDict.set ([] : PyDict ℕ (Val ℝ Unit)) 1 (.num x)) =
      .ok (⟨x, [(0, x)], [(0, x), (1, x)]⟩, ss, true) := h1
    rw [this] at hs
    cases hs
    rfl

theorem aLeX_swept : ∃ s0 s1 : Result ℕ × Senss ℕ × Bool, autosweepGP 0 0 0 leastX (⟨[(⟨[(0, 1)]⟩, 1)], none⟩ : NMap ℕ ℝ ℤ) [aLeX] (fun h f => varlocs h f) 1 1 1 1 (Real.exp 2)
      ([] : PyDict ℕ (Val ℝ Unit)) = (⟨[], 3⟩, .ok (.costed 1 (Real.exp 2) s0 s1 (Real.exp 1) 1 1, 2, 0)) ∧ solSens 1 s0 = solSens 1 s1 := by
  obtain ⟨ss, a1, a2⟩ := aLeX_solvedc one_pos
  obtain ⟨st, b1, b2⟩ := aLeX_solvedc (Real.exp_pos 2)
  have h0 : solSens 1 (⟨⟨1, [(0, 1)], [(0, 1), (1, 1)]⟩, ss, true⟩ : Result ℕ × Senss ℕ × Bool) = 1 := a2
  have h1 : solSens 1 (⟨⟨Real.exp 2, [(0, Real.exp 2)], [(0, Real.exp 2), (1, Real.exp 2)]⟩, st, true⟩ : Result ℕ × Senss ℕ × Bool) = 1 := b2
  have := auto_once (solve := solveAt 0 0 0 leastX (⟨[(⟨[(0, 1)]⟩, 1)], none⟩ : NMap ℕ ℝ ℤ) [aLeX] (fun h f => varlocs h f)) (F := Unit) (cost := solCost) (sens := solSens 1)
    (x := Real.exp 1) (lb := 1) (ub := 1) (logtol := 1) (Real.one_lt_exp_iff.2 two_pos) a1 b1
    (by unfold getTol; rw [h0, h1]; norm_num [solCost]) (Real.one_lt_exp_iff.2 one_pos) (Real.exp_lt_exp.2 one_lt_two) (by norm_num)
  refine ⟨_, _, ?_, h0.trans h1.symm⟩
  unfold autosweepGP
  rw [this]
  norm_num

/-- The C88 theorems apply: minimising `x` with `a <= x`, `a` swept from 1 to `e²`. -/
example {value : ℝ} (hv0 : 1 ≤ value) (hv1 : value ≤ Real.exp 2) : ∃ t : Tree ℝ (Result ℕ × Senss ℕ × Bool),
    (∃ u, costAt solCost t value .ub = .ok u ∧ ∃ pt, Feasible [aLeX] ([] : PyDict ℕ (Val ℝ Unit)) 1 value pt ∧ termsVal pt [(⟨[(0, 1)]⟩, 1)] ≤ u) ∧
    ∃ l, costAt solCost t value .lb = .ok l ∧ ∀ pt, Feasible [aLeX] ([] : PyDict ℕ (Val ℝ Unit)) 1 value pt → l ≤ termsVal pt [(⟨[(0, 1)]⟩, 1)] := by
  obtain ⟨s0, s1, h, hs⟩ := aLeX_swept
  obtain ⟨l, _, _, hl, -, -, hle, -⟩ := C88_lower_partial (aLeX_sweepable (Real.exp 2)) h hv0 hv1 rfl one_ne_zero
  exact ⟨_, C88_upper_partial (aLeX_sweepable (Real.exp 2)) h hv0 hv1, l, hl, hle (.inl hs)⟩

/-- `1 <= x`. -/
def oneLe (v : ℕ) : Con ℕ ℤ := .le false ⟨[(HV.empty, 1)], none⟩ ⟨[(⟨[(v, 1)]⟩, 1)], none⟩

/-- The solver of `c*x + 3*y` with `1 <= x` and `1 <= y`. -/
noncomputable def sumOut (d : Data ℕ ℝ) : Except Err SolverOut :=
  match d.cs with
  | [_, c, _, _] => .ok ⟨c + 3, [0, 0], .nu (fun i => if i = 0 ∨ i = 3 then 3 / (c + 3) else c / (c + 3))⟩
  | _ => .error .runtimeWarning

theorem swap_solved {c : ℝ} (hc : 0 < c) : ∃ (r : Result ℕ) (ss : Senss ℕ),
    solveSens 0 0 0 sumOut (⟨[(⟨[(0, 1), (1, 1)]⟩, 1), (⟨[(2, 1)]⟩, 3)], none⟩ : NMap ℕ ℝ ℤ) [oneLe 1, oneLe 2] [(0, c)]
      (fun h f => varlocs h f) = .ok (r, ss, true) ∧ r.cost = c + 3 ∧ sensAt ss.vars 0 = 3 / (c + 3) := by
  have h0 : c ≠ 0 := hc.ne'
  have hn : ¬ c < 0 := not_lt.2 hc.le
  have hn' : ¬ c ≤ 0 := not_le.2 hc
  have h3 : 0 < c + 3 := by linarith
  have h3' := h3.ne'
  have hun : ∀ v : ℕ, Con.unsubbed 0 (oneLe v) = .ok [⟨⟨[(⟨[(v, -1)]⟩, 1)], none⟩, .monomial⟩] := by
    intro v
    norm_num [oneLe, Con.unsubbed, genUnsubbed, UnitCache.ratio, renameTerms, renameStep, List.foldlM, PyDict.get?, PyDict.set, PyDict.del,
      bind, pure, Except.bind, Except.pure, HV.beq_def, List.isPerm, HV.sub, HV.add, HV.scale, dictAdd, dictAddStep, dictScale, HV.empty,
      simplifyPosyIneq, wrapForm, mkSig, NMap.anyNonpositive, Except.map]
  have hform : ∀ v : ℕ, v ≠ 0 → asHmapslt1 0 [[(⟨[(v, -1)]⟩, 1)]] [(0, c)] (fun h f => varlocs h f : Orders ℕ ℝ) {} =
      (.ok [[(⟨[(v, -1)]⟩, 1)]], ⟨some [[(0, 1)]], none, none⟩) := by
    intro v hv
    norm_num [asHmapslt1, formStep, noteConst, checkForm, simplifyPosyIneq, mmap, mmapStep, dictScale, pyIndex, subState, subRound, subinplace, subInit, csUpdate, subAdd,
      varlocs, varlocKeys, PyDict.get?, PyDict.set, PyDict.del, PyDict.contains, PyDict.keys, HV.get?, HV.del, HV.empty, pwDom, pw_real, HV.beq_def, bind, pure,
      Except.bind, Except.pure, Except.map, List.foldlM, List.isPerm, Ne.symm hv]
  have hcon : ∀ v : ℕ, v ≠ 0 → Con.hmaps 0 [(0, c)] (fun h f => varlocs h f) (oneLe v) = .ok [⟨[(⟨[(v, -1)]⟩, 1)], false⟩] := by
    intro v hv
    unfold Con.hmaps
    rw [hun]
    simp only [bind, Except.bind, List.map_cons, List.map_nil, hform v hv]
    rfl
  have hsens : ∀ v : ℕ, v ≠ 0 → ∀ x : ℝ, x ≠ 0 → Con.senss 0 [(0, c)] (fun h f => varlocs h f) (oneLe v) [(x, [x])] = .ok [([(v, -x)], x)] := by
    intro v hv x hx
    unfold Con.senss
    rw [hun]
    simp only [bind, Except.bind, hform v hv, oneLe]
    norm_num [leSenss, sensFromDual, liftNu, addShares, sensOfNu, Verif.addSens, PyDict.get?, PyDict.set, pure, Except.pure, Memo.constMmap]
  have h3 : conSenss 0 [(0, c)] (fun h f => varlocs h f) [oneLe 1, oneLe 2]
      [(c / (c + 3), [c / (c + 3)]), (3 / (c + 3), [3 / (c + 3)])] = .ok [[([(1, -(c / (c + 3)))], c / (c + 3))], [([(2, -(3 / (c + 3)))], 3 / (c + 3))]] := by
    simp only [conSenss, hcon 1 one_ne_zero, hcon 2 two_ne_zero, bind, Except.bind, List.length_singleton, List.take_one, List.head?_cons, Option.toList, List.drop_one,
      List.tail_cons, hsens 1 one_ne_zero _ (div_ne_zero h0 h3'), hsens 2 two_ne_zero _ (div_ne_zero (by norm_num : (3 : ℝ) ≠ 0) h3')]
    rfl
  have hcost : NMap.sub (⟨[(⟨[(0, 1), (1, 1)]⟩, 1), (⟨[(2, 1)]⟩, 3)], none⟩ : NMap ℕ ℝ ℤ) [(0, c)]
      (varlocs [(⟨[(0, 1), (1, 1)]⟩, 1), (⟨[(2, 1)]⟩, 3)] [(0, c)]) = .ok ⟨[(⟨[(2, 1)]⟩, 3), (⟨[(1, 1)]⟩, c)], none⟩ := by
    norm_num [NMap.sub, subState, subRound, subinplace, subInit, csUpdate, subAdd, varlocs, varlocKeys, PyDict.get?, PyDict.set, PyDict.del, PyDict.contains,
      PyDict.keys, HV.get?, HV.del, HV.empty, pwDom, pw_real, HV.beq_def, bind, pure, Except.bind, Except.pure, List.foldlM, List.isPerm, hn, h0, hn', hc]
  have h2 : hmaps 0 (⟨[(⟨[(0, 1), (1, 1)]⟩, 1), (⟨[(2, 1)]⟩, 3)], none⟩ : NMap ℕ ℝ ℤ) [oneLe 1, oneLe 2] [(0, c)] (fun h f => varlocs h f) =
      .ok [⟨[(⟨[(2, 1)]⟩, 3), (⟨[(1, 1)]⟩, c)], false⟩, ⟨[(⟨[(1, -1)]⟩, 1)], false⟩, ⟨[(⟨[(2, -1)]⟩, 1)], false⟩] := by
    unfold hmaps
    rw [List.mapM_cons, List.mapM_cons, List.mapM_nil, hcon 1 one_ne_zero, hcon 2 two_ne_zero, hcost]
    norm_num [bind, Except.bind, pure, Except.pure, hn']
  have hg : genLoop ([⟨[(⟨[(2, 1)]⟩, 3), (⟨[(1, 1)]⟩, c)], false⟩, ⟨[(⟨[(1, -1)]⟩, 1)], false⟩, ⟨[(⟨[(2, -1)]⟩, 1)], false⟩] : List (Hmap ℕ ℝ)) =
      ⟨[(0, 2), (2, 3), (3, 4)], [0, 0, 1, 2], [3, c, 1, 1], [⟨[(2, 1)]⟩, ⟨[(1, 1)]⟩, ⟨[(1, -1)]⟩, ⟨[(2, -1)]⟩], [(2, [0, 3]), (1, [1, 2])], [], [], []⟩ := by
    simp [genLoop, genStep, expStep, locAppend, PyDict.set, PyDict.get?]
  have h1 : 3 / (c + 3) + c / (c + 3) = 1 := by field_simp; ring
  have hh := solveSens_intro (optimize := sumOut) (tol := 0) (abstol := 0) h2 hg rfl
    (r := ⟨c + 3, [(2, Real.exp 0), (1, Real.exp 0)], [(2, Real.exp 0), (1, Real.exp 0), (0, c)]⟩) rfl rfl ?_ (l0 := 1) (ls := [c / (c + 3), 3 / (c + 3)]) ?_
    (n0 := [3 / (c + 3), c / (c + 3)]) (ns := [[c / (c + 3)], [3 / (c + 3)]]) ?_ h3
  refine ⟨_, _, hh, rfl, ?_⟩
  · rw [C41_gather (by simp [WF]), sensAt_costSens (by simp [WF, PyDict.keys])]
    norm_num [expo, HV.get?, PyDict.get?, sensAt, PyDict.keys]
  · have hr : List.range' 0 2 = [0, 1] := rfl
    have h4 : Real.exp (3 / (c + 3) * (Real.log 3 - Real.log (3 / (c + 3))) + c / (c + 3) * (Real.log c - Real.log (c / (c + 3)))) = c + 3 := by
      rw [Real.log_div (by norm_num) h3', Real.log_div h0 h3']
      rw [show 3 / (c + 3) * (Real.log 3 - (Real.log 3 - Real.log (c + 3))) + c / (c + 3) * (Real.log c - (Real.log c - Real.log (c + 3))) =
        (3 / (c + 3) + c / (c + 3)) * Real.log (c + 3) by ring, h1, one_mul]
      exact Real.exp_log ‹_›
    norm_num [hr, h1, h4, checkSolution, almostEqual, sliceSum, Data.A, Data.colEntries, Data.expOf, HV.get?, PyDict.get?, Coot.dot, Coot.tdot, Coot.ncols,
      dualNan, dualCost, List.range_succ, vec]
    exact ⟨⟨.inl (by ring), by positivity, by positivity, by positivity⟩, ⟨by positivity, by positivity⟩, .inr (by positivity), .inr (by positivity)⟩
  · norm_num [sliceSum, List.range', h1]
  · norm_num [nuByPosy, List.range']
/-- C88 is violated where putting in the swept variable changes the order of the terms of the cost: minimising `a*x + 3*y` with `1 <= x`, `1 <= y`, `a` swept from
1 to 9. Both solutions pass the check without tolerances. At `a = 3` the lower cost is `4 * 3 ** (3/4)`, more than the upper cost, which is `4 * 3 ** (1/2)`; the cost at
`x = y = 1` is 6. (`a`, `x`, `y` are 0, 1, 2.) -/
theorem C88_aligned_fails : ∃ (s' : AS ℕ ℝ Unit) (t : Tree ℝ (Result ℕ × Senss ℕ × Bool)) (n : Nat) (tol l u : ℝ) (pt : ℕ → ℝ),
    autosweepGP 0 0 0 sumOut (⟨[(⟨[(0, 1), (1, 1)]⟩, 1), (⟨[(2, 1)]⟩, 3)], none⟩ : NMap ℕ ℝ ℤ) [oneLe 1, oneLe 2] (fun h f => varlocs h f) 1 (1 / 100) 0 1 9 [] =
      (s', .ok (t, n, tol)) ∧ (∀ p ∈ t.pts, p.2.2.2 = true) ∧
    costAt solCost t 3 .lb = .ok l ∧ costAt solCost t 3 .ub = .ok u ∧ u < l ∧
    Feasible [oneLe 1, oneLe 2] ([] : PyDict ℕ (Val ℝ Unit)) 0 3 pt ∧ termsVal pt [(⟨[(0, 1), (1, 1)]⟩, 1), (⟨[(2, 1)]⟩, 3)] < l := by
  obtain ⟨r0, ss0, a1, a2, a3⟩ := swap_solved one_pos
  obtain ⟨r1, ss1, b1, b2, b3⟩ := swap_solved (c := 9) (by norm_num)
  have c0 : solCost (r0, ss0, true) = 4 := by rw [show solCost (r0, ss0, true) = r0.cost from rfl, a2]; norm_num
  have c1 : solCost (r1, ss1, true) = 12 := by rw [show solCost (r1, ss1, true) = r1.cost from rfl, b2]; norm_num
  have d0 : solSens 0 (r0, ss0, true) = 3 / 4 := by rw [show solSens 0 (r0, ss0, true) = sensAt ss0.vars 0 from rfl, a3]; norm_num
  have d1 : solSens 0 (r1, ss1, true) = 1 / 4 := by rw [show solSens 0 (r1, ss1, true) = sensAt ss1.vars 0 from rfl, b3]; norm_num
  have l9 : Real.log 9 = 2 * Real.log 3 := by rw [show (9 : ℝ) = 3 ^ 2 by norm_num, Real.log_pow]; norm_num
  have l12 : Real.log 12 = Real.log 4 + Real.log 3 := by rw [← Real.log_mul (by norm_num) (by norm_num)]; norm_num
  have p3 : 0 < Real.log 3 := Real.log_pos (by norm_num)
  have p4 : 0 < Real.log 4 := Real.log_pos (by norm_num)
  have hg : getTol solCost (solSens 0) 1 9 (r0, ss0, true) (r1, ss1, true) = (3, Real.log 4 + 3 / 4 * Real.log 3, Real.log 4 + 1 / 2 * Real.log 3) := by
    unfold getTol
    rw [c0, c1, d0, d1, l9, l12, Real.log_one]
    have e1 : (Real.log 4 + Real.log 3 - Real.log 4 + 0 * (3 / 4) - 2 * Real.log 3 * (1 / 4)) / (3 / 4 - 1 / 4) = Real.log 3 := by ring
    have e2 : (2 * Real.log 3 - Real.log 3) / (2 * Real.log 3 - 0) = 1 / 2 := by field_simp; ring
    simp only [e1, e2]
    rw [if_neg (by norm_num : ¬ ((3 / 4 : ℝ) - 1 / 4 = 0)), if_neg (by norm_num), Real.exp_log (by norm_num)]
    refine Prod.ext rfl (Prod.ext ?_ ?_) <;> dsimp only <;> ring
  have hrun := auto_once (solve := solveAt 0 0 0 sumOut (⟨[(⟨[(0, 1), (1, 1)]⟩, 1), (⟨[(2, 1)]⟩, 3)], none⟩ : NMap ℕ ℝ ℤ) [oneLe 1, oneLe 2] (fun h f => varlocs h f))
    (F := Unit) (logtol := 1 / 100) (by norm_num) a1 b1 hg (by norm_num) (by norm_num) (by linarith)
  have hat : ∀ b, costAt solCost (.costed 1 9 (r0, ss0, true) (r1, ss1, true) 3 (Real.log 4 + 3 / 4 * Real.log 3) (Real.log 4 + 1 / 2 * Real.log 3)) 3 b =
      .ok (splitcost b (Real.log 4 + 3 / 4 * Real.log 3) (Real.log 4 + 1 / 2 * Real.log 3)) := by
    intro b
    have hp : 0 < splitcost b (Real.log 4 + 3 / 4 * Real.log 3) (Real.log 4 + 1 / 2 * Real.log 3) := by cases b <;> exact Real.exp_pos _
    unfold costAt
    rw [if_neg (by simp only [Tree.lo, Tree.hi]; norm_num)]
    simp only [Tree.minBst]
    rw [if_pos (by positivity), if_pos le_rfl]
    unfold interpolate
    simp only [sub_self, zero_div, zero_mul, sub_zero, one_mul, zero_add, Real.exp_log hp]
  refine ⟨_, _, _, _, _, _, fun v => if v = 0 then 3 else 1, hrun, ?_, hat .lb, hat .ub, Real.exp_lt_exp.2 (by linarith), ⟨fun v => ?_, rfl, by simp [PyDict.get?], ?_⟩, ?_⟩
  · intro p hp
    rw [Tree.mem_pts] at hp
    rcases hp with rfl | hp | rfl
    · rfl
    · cases hp
    · rfl
  · show (0 : ℝ) < if v = 0 then 3 else 1
    split <;> norm_num
  · intro c hc
    simp only [List.mem_cons, List.not_mem_nil, or_false] at hc
    rcases hc with rfl | rfl <;> norm_num [oneLe, Con.Holds, physVal, termsVal, monVal, unitScale, HV.empty]
  · show _ < Real.exp _
    rw [Real.exp_add, Real.exp_log (by norm_num)]
    have h6 : termsVal (fun v : ℕ => if v = 0 then (3 : ℝ) else 1) [(⟨[(0, 1), (1, 1)]⟩, 1), (⟨[(2, 1)]⟩, 3)] = 6 := by norm_num [termsVal, monVal]
    rw [h6]
    have h1 : 4 * Real.log (3 / 2) < 3 * Real.log 3 := by
      have := Real.log_lt_log (by norm_num) (show ((3 : ℝ) / 2) ^ 4 < 3 ^ 3 by norm_num)
      rw [Real.log_pow, Real.log_pow] at this
      exact_mod_cast this
    have h2 : (3 / 2 : ℝ) < Real.exp (3 / 4 * Real.log 3) := by
      rw [← Real.log_lt_iff_lt_exp (by norm_num)]
      linarith
    linarith

end Verif
