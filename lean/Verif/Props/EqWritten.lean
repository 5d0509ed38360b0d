import Verif.Model.EqWritten
import Verif.Props.SigWritten

/-! Models with signomial equalities are solved as they are written: C75. -/

set_option linter.unusedSectionVars false

namespace Verif
open PyDict GP Pipeline Compare Written SeqGP

section
variable {V D : Type} [DecidableEq V] [AddCommGroup D] [DecidableEq D] [Module ℝ D]

/-- Two parts that are within a factor differ by a share of their sum. -/
theorem equalWithin_share {s : ℝ} (hs : 1 ≤ s) {pt : V → ℝ} {ts : PyDict (HV V ℝ) ℝ} (h : EqualWithin s pt ts) :
    |termsVal pt ts| ≤ share s * absVal pt ts := by
  obtain ⟨h1, h2⟩ := h
  rw [le_mul_iff_share hs] at h1 h2
  have e1 := absVal_parts pt ts
  have e2 := termsVal_parts (l := ts) pt
  unfold posPart negPart at h1 h2
  rw [abs_le, e1, e2]
  constructor <;> nlinarith

/-- What a signomial equality is made of. -/
theorem equalsOf_ok {se : Bool} {feastol : ℝ} {vunits : V → Option (UnitQ D ℝ)} (hu : ∀ v, UnitOK (vunits v)) {ord : Orders V ℝ} {setord : List V → List V}
    {l r : Verif.Expr V} {x : Single V D} (h : equalsOf se feastol vunits ord setord l r = .ok x) :
    ∃ n : Nomial V ℝ D, x = .eqn n ∧ TermsTidy n.hmap.terms ∧ UnitOK n.hmap.units ∧ (∀ v, v ∉ l.vars → v ∉ r.vars → Absent v n.hmap.terms) ∧
      ∀ pt : V → ℝ, (∀ v, 0 < pt v) →
        physVal pt n.hmap = l.denote (physical vunits pt) - r.denote (physical vunits pt) ∧
        physSize pt n.hmap ≤ l.size (physical vunits pt) + r.size (physical vunits pt) := by
  unfold equalsOf at h
  obtain ⟨a, ha, h1⟩ := except_bind_ok h
  obtain ⟨b, hb, h2⟩ := except_bind_ok h1
  obtain ⟨m, hm, h3⟩ := except_bind_ok h2
  unfold sigIneq at hm
  obtain ⟨na, sa, h4⟩ := except_bind_ok hm
  obtain ⟨nb, sb, h5⟩ := except_bind_ok h4
  split at h5
  · obtain ⟨u, hsub, h6⟩ := except_bind_ok h5
    obtain ⟨_, -, h7⟩ := except_bind_ok h6
    cases h7
    cases u with
    | num q => cases h3
    | nom n =>
      cases h3
      obtain ⟨ga, va⟩ := build_ok hu l ha
      obtain ⟨gb, vb⟩ := build_ok hu r hb
      obtain ⟨gx, vx⟩ := side_ok ga sa
      obtain ⟨gy, vy⟩ := side_ok gb sb
      obtain ⟨g, vu⟩ := pySub_ok gx gy hsub
      refine ⟨n, rfl, pySub_tidy (a := .nom na) (b := .nom nb) (side_tidy (build_canon hu l ha).tidy sa) (side_tidy (build_canon hu r hb).tidy sb) hsub, g.1,
        fun v hl hr => ?_, fun pt hpt => ⟨?_, ?_⟩⟩
      · exact pySub_lacks (a := .nom na) (b := .nom nb) (side_lacks (build_lacks hu l hl ha) sa) (side_lacks (build_lacks hu r hr hb) sb) hsub
      · have h8 : physVal pt n.hmap = physVal pt na.hmap - physVal pt nb.hmap := vu pt
        rw [h8, vx pt, vy pt]
        exact congrArg₂ _ (va pt hpt) (vb pt hpt)
      · have h8 : physSize pt n.hmap ≤ physSize pt na.hmap + physSize pt nb.hmap := pySub_size hpt gx gy hsub
        rw [side_size sa pt, side_size sb pt] at h8
        exact h8.trans (add_le_add (build_size hpt hu l ha) (build_size hpt hu r hb))
  · cases h5

/-- C75, equalities: the constraint made from a `SignomialEquality` holds exactly where its sides are equal. With a factor `s` to spare between its two parts, the
sides differ by no more than the share `(s - 1)/(s + 1)` of their size. -/
theorem C75_equality {se : Bool} {feastol : ℝ} {vunits : V → Option (UnitQ D ℝ)} (hu : ∀ v, UnitOK (vunits v)) {ord : Orders V ℝ} {setord : List V → List V}
    {l r : Verif.Expr V} {x : Single V D} (h : equalsOf se feastol vunits ord setord l r = .ok x) (pt : V → ℝ) (hpt : ∀ v, 0 < pt v) :
    (x.Holds 1 pt ↔ l.denote (physical vunits pt) = r.denote (physical vunits pt)) ∧
    ∀ s, 1 ≤ s → x.Holds s pt → |l.denote (physical vunits pt) - r.denote (physical vunits pt)| ≤
      share s * (l.size (physical vunits pt) + r.size (physical vunits pt)) := by
  obtain ⟨n, rfl, -, hun, -, hval⟩ := equalsOf_ok hu h
  obtain ⟨hv, hsz⟩ := hval pt hpt
  have hup : 0 < unitScale n.hmap.units := hun
  refine ⟨?_, fun s hs hh => ?_⟩
  · show EqualWithin 1 pt n.hmap.terms ↔ _
    rw [equalWithin_one, ← sub_eq_zero (b := r.denote _), ← hv, physVal, mul_eq_zero, or_iff_right hup.ne']
  · have h1 := equalWithin_share hs (show EqualWithin s pt n.hmap.terms from hh)
    rw [← hv]
    have h2 : |physVal pt n.hmap| ≤ share s * physSize pt n.hmap := by
      unfold physVal physSize
      rw [abs_mul, abs_of_pos hup, mul_left_comm]
      exact mul_le_mul_of_nonneg_left h1 hup.le
    exact h2.trans (mul_le_mul_of_nonneg_left hsz (share_nonneg hs))

open Building in
/-- What C75 asks of a model with signomial equalities: the same as of one without, for its statements. -/
structure LineSound (S : Setting V D (Line V)) (cost : Verif.Expr V) (tree : Building.Expr V ℝ (Line V)) : Prop where
  feastol : 0 ≤ S.feastol
  ord : S.ord.Valid
  units : ∀ v, UnitOK (S.vunits v)
  isSet : tree.isSet
  fair : Fair tree
  values : ∀ k w, GivenValue S tree k w → 0 < w
  cost : ∃ x : V → ℝ, (∀ v, 0 < x v) ∧ cost.denote (physical S.vunits x) ≠ 0
  gp : ∀ st c, Writes (.stmt st) tree → st.single (S.enabled (.stmt st)) S.feastol S.approx S.vunits = .ok (.con c) →
    Attainable (S.enabled (.stmt st)) S.vunits st ∧ Unharmed c
  sigs : ∀ st n, Writes (.stmt st) tree → st.single (S.enabled (.stmt st)) S.feastol S.approx S.vunits = .ok (.sig n) →
    ∀ fixed : PyDict V ℝ, (∀ k w, fixed.get? k = some w → GivenValue S tree k w) →
      ∀ l, (Single.sig n).become fixed S.ord = .ok l → ∀ c ∈ l, Unharmed c

theorem lineSingle_stmt {S : Setting V D (Line V)} {setord : List V → List V} {st : Stmt V} {l : List (Single V D)}
    (h : lineSingle S setord (.stmt st) = .ok l) :
    ∃ x, st.single (S.enabled (.stmt st)) S.feastol S.approx S.vunits = .ok x ∧ l = [x] := by
  unfold lineSingle at h
  dsimp only at h
  cases hx : st.single (S.enabled (.stmt st)) S.feastol S.approx S.vunits with
  | error e => rw [hx] at h; cases h
  | ok x => rw [hx] at h; cases h; exact ⟨x, rfl, rfl⟩

theorem lineSingle_equals {S : Setting V D (Line V)} {setord : List V → List V} {a b : Verif.Expr V} {l : List (Single V D)}
    (h : lineSingle S setord (.equals a b) = .ok l) :
    ∃ x, equalsOf (S.enabled (.equals a b)) S.feastol S.vunits S.ord setord a b = .ok x ∧ l = [x] := by
  unfold lineSingle at h
  dsimp only at h
  cases hx : equalsOf (S.enabled (.equals a b)) S.feastol S.vunits S.ord setord a b with
  | error e => rw [hx] at h; cases h
  | ok x => rw [hx] at h; cases h; exact ⟨x, rfl, rfl⟩

open Building in
theorem LineSound.model {S : Setting V D (Line V)} {cost : Verif.Expr V} {tree : Building.Expr V ℝ (Line V)} (hS : LineSound S cost tree)
    (setord : List V → List V) :
    SigModel S (lineSingle S setord) (cost.build false S.vunits) (fun pt => cost.denote (physical S.vunits pt)) tree where
  feastol := hS.feastol
  ord := hS.ord
  isSet := hS.isSet
  fair := hS.fair
  values := hS.values
  cost := by
    intro n hx
    obtain ⟨g, v⟩ := build_ok hS.units cost hx
    refine ⟨build_canon hS.units cost hx, ?_, g.1, v⟩
    obtain ⟨pt, hpt, hne⟩ := hS.cost
    intro h0
    have := v pt hpt
    apply hne
    show cost.denote (fun v => unitScale (S.vunits v) * pt v) = 0
    rw [← this]
    simp [PyVal.phys, physVal, h0]
  cons := by
    intro ln l hw hl x hx fixed hfix
    cases ln with
    | stmt st =>
      obtain ⟨x', hx', rfl⟩ := lineSingle_stmt hl
      rw [List.mem_singleton] at hx
      subst hx
      cases x with
      | con c =>
        obtain ⟨a, b⟩ := hS.gp st c hw hx'
        exact con_ok hS.units (single_con hx') a b
      | sig n =>
        obtain ⟨a, b⟩ := single_tidy hS.units hx'
        exact ⟨a, b, hS.sigs st n hw hx' fixed hfix⟩
      | eqn n => exact absurd hx' single_ne
    | equals a b =>
      obtain ⟨x', hx', rfl⟩ := lineSingle_equals hl
      rw [List.mem_singleton] at hx
      subst hx
      obtain ⟨n, rfl, h1, h2, -⟩ := equalsOf_ok hS.units hx'
      exact ⟨h1, h2⟩

open Building in
/-- The slack variable is one of its own. -/
def LineSlack {N : Type} (S : Setting V D (Line V)) (L : Local V N D) (cost : Verif.Expr V) (tree : Building.Expr V ℝ (Line V)) : Prop :=
  ∀ v, L.slack = some v → (∀ w, ¬ GivenValue S tree v w) ∧ v ∉ cost.vars ∧
    (∀ st, Writes (.stmt st) tree → v ∉ st.left.vars ∧ v ∉ st.right.vars) ∧ ∀ l r, Writes (.equals l r) tree → v ∉ l.vars ∧ v ∉ r.vars

open Building in
/-- C75, `localsolve` with signomial equalities: statements and the cost are as in `C75_local_partial`; the sides of a signomial equality differ by no more than a
share of their size, which vanishes with the tolerances, the slack, and the factor `B` by which the terms of either sign of `left - right` have moved apart since
the guess `y` of the last pass. Missing: see `LineSound`, and what C62 and C87 are missing. -/
theorem C75_equalities_partial {N : Type} [DecidableEq N] {S : Setting V D (Line V)} {L : Local V N D} {cost : Verif.Expr V}
    {tree : Building.Expr V ℝ (Line V)} (hS : LineSound S cost tree) (hL : LocalOK S L (lineSingle S L.setord) (cost.build false S.vunits) tree)
    (hslack : LineSlack S L cost tree) {r : Result V} {w : Bool} (h : localsolveLines S L cost tree = .ok (r, true, w)) :
    (∀ k w, GivenValue S tree k w → ∃ w', GivenValue S tree k w' ∧ r.vars.get? k = some w') ∧
    (∀ v c, r.vars.get? v = some c → 0 < c) ∧
    ∃ u σ y, 0 < u ∧ 0 < σ ∧ (L.slack = none → σ = 1) ∧ (w = false → σ ≤ 1 + L.eps) ∧
      (w = true → ∃ v, L.slack = some v ∧ r.vars.get? v = some σ) ∧
      (∃ Z sp n s' out, setupOf S L (lineSingle S L.setord) (cost.build false S.vunits) tree = .ok Z ∧ Z.init = .ok sp ∧ n ≤ L.lim ∧
        Z.passes L.optimize sp L.x0 n = .ok (s', out) ∧ ∀ v, y v = (s'.guess.x0.get? v).getD 1) ∧
      ∀ pt : V → ℝ, (∀ v, 0 < pt v) → Agrees pt r.vars →
        (∀ st, Writes (.stmt st) tree → st.Within (share ((1 + max S.feastol S.tol) * max 1 σ)) (physical S.vunits pt)) ∧
        (∀ l r, Writes (.equals l r) tree → ∃ n : Nomial V ℝ D,
          (∀ x : V → ℝ, (∀ v, 0 < x v) → physVal x n.hmap = l.denote (physical S.vunits x) - r.denote (physical S.vunits x)) ∧
          ∀ B, 1 ≤ B → MovesWithin B y pt n.hmap.terms → |l.denote (physical S.vunits pt) - r.denote (physical S.vunits pt)| ≤
            share ((1 + max S.feastol S.tol) * max 1 σ * B) * (l.size (physical S.vunits pt) + r.size (physical S.vunits pt))) ∧
        Close S.tol S.abstol (cost.denote (physical S.vunits pt) / u * σ ^ L.penalty) r.cost := by
  have hsl : ∀ v, L.slack = some v → (∀ w, ¬ GivenValue S tree v w) ∧ (∀ n, cost.build false S.vunits = .ok (.nom n) → Absent v n.hmap.terms) ∧
      ∀ ln l, Writes ln tree → lineSingle S L.setord ln = .ok l → ∀ x ∈ l, x.Lacks v := by
    intro v hv
    obtain ⟨a, b, c, d⟩ := hslack v hv
    refine ⟨a, fun n hn => build_lacks hS.units cost b hn, fun ln l hw hl x hx => ?_⟩
    cases ln with
    | stmt st =>
      obtain ⟨x', hx', rfl⟩ := lineSingle_stmt hl
      rw [List.mem_singleton] at hx
      subst hx
      exact single_lacks hS.units hx' (c st hw).1 (c st hw).2
    | equals p q =>
      obtain ⟨x', hx', rfl⟩ := lineSingle_equals hl
      rw [List.mem_singleton] at hx
      subst hx
      obtain ⟨n, rfl, -, -, h3, -⟩ := equalsOf_ok hS.units hx'
      exact h3 v (d p q hw).1 (d p q hw).2
  obtain ⟨f1, f2, u, σ, y, hu, s1, s2, s3, s4, hy, f3⟩ := local_feasible (hS.model L.setord) hL hsl h
  have h1 : 1 ≤ (1 + max S.feastol S.tol) * max 1 σ := by
    have : 1 ≤ 1 + max S.feastol S.tol := by linarith [hS.feastol.trans (le_max_left S.feastol S.tol)]
    exact this.trans (le_mul_of_one_le_right (by linarith) (le_max_left 1 σ))
  refine ⟨f1, f2, u, σ, y, hu, s1, s2, s3, s4, hy, fun pt hpt hag => ⟨fun st hst => ?_, fun a b hst => ?_, (f3 pt hpt hag).2⟩⟩
  · obtain ⟨l, hl, hall⟩ := (f3 pt hpt hag).1 _ hst
    obtain ⟨x, hx, rfl⟩ := lineSingle_stmt hl
    exact (C75_meaning hS.units hx pt hpt).2 _ h1 ((hall x (by simp)).1.of_single hx)
  · obtain ⟨l, hl, hall⟩ := (f3 pt hpt hag).1 _ hst
    obtain ⟨x, hx, rfl⟩ := lineSingle_equals hl
    obtain ⟨n, rfl, -, -, -, hval⟩ := equalsOf_ok hS.units hx
    refine ⟨n, fun x hx => (hval x hx).1, fun B hB hmv => ?_⟩
    have hh := (hall (.eqn n) (by simp)).1 B (by linarith) hmv
    exact (C75_equality hS.units hx pt hpt).2 _ (one_le_mul_of_one_le_of_one_le h1 hB) hh

/-- C75: a model with a signomial equality cannot be solved with `solve`. -/
theorem C75_not_gp {S : Setting V D (Line V)} {setord : List V → List V} {cost : Verif.Expr V} {tree : Building.Expr V ℝ (Line V)}
    (hS : LineSound S cost tree) {l r : Verif.Expr V} (hw : Building.Writes (.equals l r) tree) (res : Result V × Bool) :
    solveLines S setord cost tree ≠ .ok res := by
  intro h
  unfold solveLines solveOf at h
  obtain ⟨hv, h1, h2⟩ := except_bind_ok h
  obtain ⟨s, hs, h3⟩ := except_bind_ok h2
  obtain ⟨singles, hm, h4⟩ := except_bind_ok h3
  obtain ⟨cons, hc, -⟩ := except_bind_ok h4
  obtain ⟨-, a2, -⟩ := made_ok (hS.model setord) h1 hs hm
  obtain ⟨k, hk, hin⟩ := a2 _ hw
  obtain ⟨x, hx, rfl⟩ := lineSingle_equals hk
  obtain ⟨n, rfl, -⟩ := equalsOf_ok hS.units hx
  obtain ⟨m1, -⟩ := mapM_forall hc
  obtain ⟨_, -, hb⟩ := m1 (.eqn n) (hin _ (by simp))
  cases hb

end

/-! ### A model that meets the hypotheses -/

/-- Minimizing `x` subject to `2 == x + x**2` as a signomial equality, with slack 1. -/
noncomputable def seqE : Setup ℕ ℝ :=
  ⟨1 / 1000, fun _ => none, fun h f => varlocs h f, id, some 1, 200, [], ⟨[(⟨[(0, 1)]⟩, 1)], none⟩, [], [⟨seqSig, true⟩]⟩

theorem seqE_gpconstr (se : Bool) (x0 : PyDict ℕ ℝ) (h : x0 = [] ∨ x0 = [(0, 1), (1, 1)]) :
    eqGpconstr se (1 / 1000) seqSig (fun _ => none) x0 (fun h f => varlocs h f) id =
      .ok [⟨⟨[(⟨[(0, -(3 / 2))]⟩, 1)], none⟩, .monomial⟩, ⟨⟨[(⟨[(0, 3 / 2)]⟩, 1)], none⟩, .monomial⟩] := by
  rcases h with rfl | rfl <;> cases se <;>
  norm_num [seqSig, eqGpconstr, meqConstr, meqUnsubbed, Nomial.posyNegy, Nomial.posyNegyStep, Nomial.posyOrZero, Nomial.monoLowerBound,
      monoApprox, monoApproxStep, fillX0, NMap.vks, NMap.diff, NMap.diffStep, NMap.unitsOfProduct, (by decide : Cls.posynomial ≠ Cls.monomial),
      genUnsubbed, UnitCache.ratio, renameTerms, renameStep, List.foldlM, PyDict.get?, PyDict.set, PyDict.del,
      bind, pure, Except.bind, Except.pure, HV.beq_def, List.isPerm, HV.sub, HV.add, HV.scale, dictAdd, dictAddStep, dictScale, HV.empty,
      simplifyPosyIneq, wrapForm, mkSig, NMap.anyNonpositive, Except.map,
      NMap.sub, subState, subRound, subinplace, subInit, csUpdate, subAdd, varlocs, varlocKeys,
      PyDict.contains, PyDict.keys, HV.get?, HV.del, pwDom, pw_real, List.modify_succ_cons]

theorem seqE_approxOf (x0 : PyDict ℕ ℝ) (h : x0 = [] ∨ x0 = [(0, 1), (1, 1)]) :
    approxOf (1 / 1000) (fun _ => none) (fun h f => varlocs h f) id x0 ⟨seqSig, true⟩ = .ok [[(⟨[(0, -(3 / 2))]⟩, 1)], [(⟨[(0, 3 / 2)]⟩, 1)]] := by
  unfold approxOf eqApprox
  rw [if_pos rfl, seqE_gpconstr false x0 h]
  norm_num [asHmapslt1, List.mapM_cons, simplifyPosyIneq, bind, pure, Except.bind, Except.pure, Except.map,
      formStep, noteConst, checkForm, mmap, mmapStep, pyIndex, NMap.sub, subState, varlocs, varlocKeys, HV.beq_def, List.isPerm, HV.empty,
      PyDict.contains, PyDict.keys, PyDict.get?, PyDict.set, List.findIdx?_cons]

/-- what the solver gets -/
noncomputable def seqEHmaps : List (Hmap ℕ ℝ) :=
  [⟨[(⟨[(0, 1), (1, 200)]⟩, 1)], false⟩, ⟨[(⟨[(0, -(3 / 2)), (1, -1)]⟩, 1)], false⟩, ⟨[(⟨[(0, 3 / 2), (1, -1)]⟩, 1)], false⟩, ⟨[(⟨[(1, -1)]⟩, 1)], false⟩]

theorem seqE_init : seqE.init = .ok ⟨SGP.initProg 2 seqEHmaps, ⟨[], [0, 1]⟩, 2⟩ := by
  have ha := seqE_approxOf [] (Or.inl rfl)
  unfold Setup.init
  simp only [seqE, List.any_cons, List.any_nil, Guess.Sgp.ofForms, List.mapM_cons, List.mapM_nil, ha, bind, pure, Except.bind, Except.pure]
  norm_num [Setup.slackCost, slackPow, approxCon, slackCons, hmaps, Con.hmaps, Con.unsubbed, Con.isEq, seqEHmaps, Nomial.mulTerms, Nomial.mulStep,
      asHmapslt1, List.mapM_cons,
      genUnsubbed, UnitCache.ratio, renameTerms, renameStep, List.foldlM, PyDict.get?, PyDict.set, PyDict.del,
      bind, pure, Except.bind, Except.pure, HV.beq_def, List.isPerm, HV.sub, HV.add, HV.scale, dictAdd, dictAddStep, dictScale, HV.empty,
      simplifyPosyIneq, wrapForm, mkSig, NMap.anyNonpositive, Except.map,
      formStep, noteConst, checkForm, mmap, mmapStep, pyIndex, NMap.sub, subState, subRound, subinplace, subInit, csUpdate, subAdd, varlocs, varlocKeys,
      PyDict.contains, PyDict.keys, HV.get?, HV.del, pwDom, pw_real, List.findIdx?_cons, List.modify_succ_cons]

theorem seqE_gen : genLoop seqEHmaps = ⟨[(0, 1), (1, 2), (2, 3), (3, 4)], [0, 1, 2, 3], [1, 1, 1, 1],
    [⟨[(0, 1), (1, 200)]⟩, ⟨[(0, -(3 / 2)), (1, -1)]⟩, ⟨[(0, 3 / 2), (1, -1)]⟩, ⟨[(1, -1)]⟩],
    [(0, [0, 1, 2]), (1, [0, 1, 2, 3])], [], [], []⟩ := by
  simp [seqEHmaps, genLoop, genStep, expStep, locAppend, PyDict.set, PyDict.get?]

theorem seqE_A : (genLoop seqEHmaps).A = [(0, 0, 1), (1, 0, -(3 / 2)), (2, 0, 3 / 2), (0, 1, 200), (1, 1, -1), (2, 1, -1), (3, 1, -1)] := by
  rw [seqE_gen]
  simp [Data.A, Data.colEntries, Data.expOf, HV.get?, PyDict.get?]

/-- what the solver returns -/
noncomputable def seqEOut : SolverOut := ⟨1, [0, 0], .nu (fun i => if i = 0 then 1 else if i = 1 then 5 / 3 else if i = 2 then 1 else 200 - 8 / 3)⟩

theorem seqE_aIdxs : (SGP.initProg 2 seqEHmaps).aIdxs 1 = [1, 4] ∧ (SGP.initProg 2 seqEHmaps).aIdxs 2 = [2, 5] := by
  have hk : ks seqEHmaps = [1, 1, 1, 1] := by simp [ks, seqEHmaps]
  unfold SGP.initProg
  simp only [seqE_A, hk]
  simp [seqE_gen, List.zipIdx]

/-- the program of the second pass -/
noncomputable def seqEProg : SGP.Prog ℕ ℝ :=
  ⟨genLoop seqEHmaps, seqEHmaps, [1, 1, 1, 1], [⟨[(0, 1), (1, 200)]⟩, ⟨[(0, -(3 / 2)), (1, -1)]⟩, ⟨[(0, 3 / 2), (1, -1)]⟩, ⟨[(1, -1)]⟩],
    [(0, 0, 1), (1, 1, -1), (2, 1, -1), (0, 1, 200), (1, 0, -(3 / 2)), (2, 0, 3 / 2), (3, 1, -1)],
    fun q => if q = 2 then [2, 5] else if q = 1 then [1, 4] else (SGP.initProg 2 seqEHmaps).aIdxs q⟩

theorem seqE_replace : SGP.replaceAll (SGP.initProg 2 seqEHmaps) [(1, ⟨[(⟨[(0, -(3 / 2)), (1, -1)]⟩, 1)], false⟩), (2, ⟨[(⟨[(0, 3 / 2), (1, -1)]⟩, 1)], false⟩)] =
    .ok seqEProg := by
  have hm : ((SGP.initProg 2 seqEHmaps).gen.mIdxs[1]?) = some (1, 2) := by
    show (genLoop seqEHmaps).mIdxs[1]? = _
    rw [seqE_gen]; rfl
  have hg : (SGP.initProg 2 seqEHmaps).gen = genLoop seqEHmaps := rfl
  have h1 : (SGP.initProg 2 seqEHmaps).hmaps = seqEHmaps := rfl
  have h2 : (SGP.initProg 2 seqEHmaps).A = (genLoop seqEHmaps).A := rfl
  have h3 : (SGP.initProg 2 seqEHmaps).cs = (genLoop seqEHmaps).cs := rfl
  have h4 : (SGP.initProg 2 seqEHmaps).exps = (genLoop seqEHmaps).exps := rfl
  have h5 : seqEHmaps.set 1 ⟨[(⟨[(0, -(3 / 2)), (1, -1)]⟩, 1)], false⟩ = seqEHmaps := by simp [seqEHmaps]
  have h7 : seqEHmaps.set 2 ⟨[(⟨[(0, 3 / 2), (1, -1)]⟩, 1)], false⟩ = seqEHmaps := by simp [seqEHmaps]
  have h6 : 1 < seqEHmaps.length := by simp [seqEHmaps]
  have h8 : 2 < seqEHmaps.length := by simp [seqEHmaps]
  have hfst : SGP.replace 1 ⟨[(⟨[(0, -(3 / 2)), (1, -1)]⟩, 1)], false⟩ (SGP.initProg 2 seqEHmaps) =
      .ok ⟨genLoop seqEHmaps, seqEHmaps, [1, 1, 1, 1], [⟨[(0, 1), (1, 200)]⟩, ⟨[(0, -(3 / 2)), (1, -1)]⟩, ⟨[(0, 3 / 2), (1, -1)]⟩, ⟨[(1, -1)]⟩],
        [(0, 0, 1), (1, 1, -1), (2, 0, 3 / 2), (0, 1, 200), (1, 0, -(3 / 2)), (2, 1, -1), (3, 1, -1)],
        fun q => if q = 1 then [1, 4] else (SGP.initProg 2 seqEHmaps).aIdxs q⟩ := by
    simp only [SGP.replace, hm, seqE_aIdxs.1, h1, h2, h3, h4, h6, if_true, seqE_A, h5]
    simp only [hg, seqE_gen]
    simp [SGP.termStep, SGP.entryStep, SGP.colOf, Data.varidx, SGP.zeroOut, bind, Except.bind, pure, Except.pure, Except.map]
  have hm2 : (genLoop seqEHmaps).mIdxs[2]? = some (2, 3) := by
    rw [seqE_gen]; rfl
  simp only [SGP.replaceAll, List.foldlM_cons, List.foldlM_nil, hfst, bind, Except.bind]
  simp only [SGP.replace, hm2, seqE_aIdxs.2, h8, if_true, h7, if_neg (by decide : ¬ (2 = 1))]
  simp only [seqE_gen]
  simp [SGP.termStep, SGP.entryStep, SGP.colOf, Data.varidx, SGP.zeroOut, bind, Except.bind, pure, Except.pure, Except.map, seqEProg, seqE_gen]

/-- the state of the second pass -/
noncomputable def seqESp : Sp ℕ := ⟨seqEProg, ⟨[(0, 1), (1, 1)], [0, 1]⟩, 2⟩

theorem seqE_update : seqE.update ⟨SGP.initProg 2 seqEHmaps, ⟨[(0, 1), (1, 1)], [0, 1]⟩, 2⟩ = .ok seqESp := by
  have ha := seqE_approxOf [(0, 1), (1, 1)] (Or.inr rfl)
  have hu : seqE.updateForm 2 [(⟨[(0, -(3 / 2))]⟩, 1)] 0 = .ok (1, ⟨[(⟨[(0, -(3 / 2)), (1, -1)]⟩, 1)], false⟩) ∧
      seqE.updateForm 2 [(⟨[(0, 3 / 2)]⟩, 1)] 1 = .ok (2, ⟨[(⟨[(0, 3 / 2), (1, -1)]⟩, 1)], false⟩) := by
    unfold Setup.updateForm
    constructor <;>
    norm_num [seqE, slackPow, Nomial.mulTerms, Nomial.mulStep, asHmapslt1, PyDict.get?, PyDict.set, PyDict.del,
      bind, pure, Except.bind, Except.pure, HV.beq_def, List.isPerm, HV.sub, HV.add, HV.scale, dictAdd, dictAddStep, dictScale, HV.empty,
      simplifyPosyIneq, Except.map,
      formStep, noteConst, checkForm, mmap, mmapStep, pyIndex, NMap.sub, subState, subRound, subinplace, subInit, csUpdate, subAdd, varlocs, varlocKeys,
      PyDict.contains, PyDict.keys, HV.get?, HV.del, pwDom, pw_real, List.findIdx?_cons, List.modify_succ_cons]
  unfold Setup.update
  have e1 : seqE.sigs.mapM (approxOf seqE.feastol seqE.vunits seqE.ord seqE.setord [(0, 1), (1, 1)]) =
      .ok [[[(⟨[(0, -(3 / 2))]⟩, 1)], [(⟨[(0, 3 / 2)]⟩, 1)]]] := by
    simp only [seqE, List.mapM_cons, List.mapM_nil, ha, bind, pure, Except.bind, Except.pure]
  simp only [e1, List.flatten_cons, List.flatten_nil, List.append_nil, List.zipIdx_cons, List.zipIdx_nil, List.mapM_cons, List.mapM_nil, hu.1, hu.2, bind, pure,
    Except.bind, Except.pure, seqE_replace, zero_add]
  rfl

/-- the state after the constructor -/
noncomputable def seqESp0 : Sp ℕ := ⟨SGP.initProg 2 seqEHmaps, ⟨[], [0, 1]⟩, 2⟩

theorem seqE_pass0 : seqE.passes (fun _ _ => .ok seqEOut) seqESp0 (none : Option (Guess.Arg ℕ String ℝ)) 0 = .ok (seqESp0, seqEOut) := rfl

theorem seqE_pass1 : seqE.passes (fun _ _ => .ok seqEOut) seqESp0 (none : Option (Guess.Arg ℕ String ℝ)) 1 = .ok (seqESp, seqEOut) := by
  rw [Setup.passes, seqE_pass0]
  have hpt : seqESp0.point seqEOut = [(0, 1), (1, 1)] := by
    unfold Sp.point
    have : seqESp0.prog.gen = genLoop seqEHmaps := rfl
    rw [this, seqE_gen]
    simp [seqEOut]
  simp only [bind, Except.bind, hpt]
  unfold Setup.pass Setup.gp
  have hf : falsy (some (Guess.ofSolve (N := String) ([(0, 1), (1, 1)] : PyDict ℕ ℝ))) = false := rfl
  have hg : seqESp0.guess.gp (some (Guess.ofSolve (N := String) [(0, 1), (1, 1)])) true = .ok ⟨[(0, 1), (1, 1)], [0, 1]⟩ := by
    simp [Guess.Sgp.gp, Guess.Sgp.move, Guess.ofSolve, Guess.Arg.look, seqESp0, PyDict.get?, PyDict.set]
  simp only [hf, hg, bind, Except.bind]
  have := seqE_update
  simp only [seqESp0, this]
  rfl

theorem seqE_localsolve : ∃ r, seqE.localsolve (fun _ _ => .ok seqEOut) (1 / 1000000) (1 / 10000) 0 0 1 true seqESp0
    (none : Option (Guess.Arg ℕ String ℝ)) = .ok (r, true, false) := by
  have hl : SGP.localsolve (1 / 1000000 : ℝ) (1 / 10000) 1 true (fun n => (seqE.passes (fun _ _ => .ok seqEOut) seqESp0
      (none : Option (Guess.Arg ℕ String ℝ)) n).toOption.map (fun so => so.2.objective)) = some (.done ⟨2, some 1, some 0, false⟩) := by
    have key : ∀ f : Nat → Option ℝ, f 0 = some 1 → f 1 = some 1 →
        SGP.localsolve (1 / 1000000 : ℝ) (1 / 10000) 1 true f = some (.done ⟨2, some 1, some 0, false⟩) := by
      intro f h0 h1
      norm_num [SGP.localsolve, SGP.localLoop, SGP.localStep, h0, h1]
    exact key _ (by rw [seqE_pass0]; rfl) (by rw [seqE_pass1]; rfl)
  unfold Setup.localsolve
  rw [hl]
  refine ⟨⟨1, [(0, 1)], [(0, 1)]⟩, ?_⟩
  have hc : generateResult seqESp.data seqEOut seqE.fixed 0 0 seqESp.prog.A = .ok (⟨1, [(0, 1), (1, 1)], [(0, 1), (1, 1)]⟩, true) := by
    unfold generateResult compileVars
    have hd : seqESp.data = ⟨[(0, 1), (1, 2), (2, 3), (3, 4)], [0, 1, 2, 3], [1, 1, 1, 1],
        [⟨[(0, 1), (1, 200)]⟩, ⟨[(0, -(3 / 2)), (1, -1)]⟩, ⟨[(0, 3 / 2), (1, -1)]⟩, ⟨[(1, -1)]⟩],
        [(0, [0, 1, 2]), (1, [0, 1, 2, 3])], [], [], []⟩ := by
      unfold Sp.data
      have : seqESp.prog.gen = genLoop seqEHmaps := rfl
      rw [this, seqE_gen]
      rfl
    rw [hd]
    simp [seqEOut, generateNula, bind, Except.bind, update, seqE]
    norm_num [checkSolution, almostEqual, sliceSum, Coot.dot, Coot.tdot, Coot.ncols, seqESp, seqEProg,
      dualNan, dualCost, List.range_succ, vec]
  have hs : seqE.slack = some 1 := rfl
  show ((seqE.passes (fun _ _ => .ok seqEOut) seqESp0 (none : Option (Guess.Arg ℕ String ℝ)) 1).bind _) = _
  rw [seqE_pass1]
  simp only [bind, Except.bind, hc, dropSlack, hs, PyDict.get?]
  norm_num [PyDict.del, PyDict.get?, pure, Except.pure]

/-- `SignomialEquality(2, x + x**2)`. -/
def lineE : Line ℕ := .equals (.num 2) (.add (.var 0) (.pow (.var 0) (.int 2)))

/-- A model with a submodel that has it. -/
def treeE : Building.Expr ℕ ℝ (Line ℕ) := .mdl [] [0] (.lst [.mdl [] [] (.lst [.con lineE [0] true]) [] none]) [] none

/-- As `settingSE`. -/
noncomputable def settingE : Setting ℕ ℝ (Line ℕ) where
  feastol := 1 / 1000
  tol := 0
  abstol := 0
  vunits := fun _ => none
  enabled := fun _ => true
  approx := fun _ => .ok ()
  optimize := fun _ => .ok ⟨1, [0], .nu (fun _ => 1)⟩
  ord := fun h f => varlocs h f
  world := ⟨fun i => i, fun _ => false⟩
  heap := fun _ => none

/-- How it is solved. -/
noncomputable def localE : Local ℕ String ℝ := { localSE with optimize := fun _ _ => .ok seqEOut }

theorem lineE_single : lineSingle settingE id lineE = .ok [.eqn seqSig] := by
  have hr : (Verif.Expr.add (.var 0) (.pow (.var 0) (.int 2))).build true (fun _ => none) =
      .ok (.nom ⟨⟨[(⟨[(0, 1)]⟩, 1), (⟨[(0, 2)]⟩, 1)], none⟩, .posynomial⟩ : PyVal ℕ ℝ ℝ) := sig1_right
  have hsub : PyVal.sub true (.nom ⟨⟨[(HV.empty, 2)], none⟩, .monomial⟩) (.nom ⟨⟨[(⟨[(0, 1)]⟩, 1), (⟨[(0, 2)]⟩, 1)], none⟩, .posynomial⟩) =
      .ok (.nom seqSig : PyVal ℕ ℝ ℝ) := by
    norm_num [seqSig, mkSig, numMap, NMap.anyNonpositive, bind, Except.bind,
      pure, Except.pure, PyVal.sub, PyVal.neg, PyVal.add, Nomial.add, Nomial.neg, Nomial.mulNum, NMap.scale, NMap.unitsOfProduct, NMap.add,
      dictAdd, dictAddStep, dictScale, PyDict.get?, PyDict.set, PyDict.del, HV.beq_def, List.isPerm, HV.empty]
  have hmade : eqMade true (1 / 1000) (fun _ => none) (fun h f => varlocs h f) id (.nom seqSig : PyVal ℕ ℝ ℝ) = .ok () := by
    show (eqGpconstr true (1 / 1000) seqSig (fun _ => none) [] (fun h f => varlocs h f) id).map (fun _ => ()) = _
    rw [seqE_gpconstr true [] (.inl rfl)]
    rfl
  show (equalsOf true (1 / 1000) (fun _ => none) (fun h f => varlocs h f) id (.num 2) (.add (.var 0) (.pow (.var 0) (.int 2)))).map (fun x => [x]) = _
  unfold equalsOf
  rw [hr]
  have hl : (Verif.Expr.num 2 : Verif.Expr ℕ).build true (fun _ => none) = .ok (.num ⟨2, none⟩ : PyVal ℕ ℝ ℝ) := by
    simp [Verif.Expr.build]
  have ha : side true (.num ⟨2, none⟩ : PyVal ℕ ℝ ℝ) = .ok ⟨⟨[(HV.empty, 2)], none⟩, .monomial⟩ := by
    norm_num [side, mkSig, numMap, NMap.anyNonpositive, bind, Except.bind, pure, Except.pure]
  have hb : side true (.nom ⟨⟨[(⟨[(0, 1)]⟩, 1), (⟨[(0, 2)]⟩, 1)], none⟩, .posynomial⟩ : PyVal ℕ ℝ ℝ) =
      .ok ⟨⟨[(⟨[(0, 1)]⟩, 1), (⟨[(0, 2)]⟩, 1)], none⟩, .posynomial⟩ := rfl
  rw [hl]
  simp only [bind, Except.bind, sigIneq, ha, hb, hsub, hmade, if_true, Op.order, Except.map]
  rfl

theorem inside_treeE {x : Building.Expr ℕ ℝ (Line ℕ)} (h : Building.Inside x treeE) :
    x = treeE ∨ x = .lst [.mdl [] [] (.lst [.con lineE [0] true]) [] none] ∨ x = .mdl [] [] (.lst [.con lineE [0] true]) [] none ∨
      x = .lst [.con lineE [0] true] ∨ x = .con lineE [0] true := by
  simpa only [treeE, Building.inside_mdl, Building.inside_lst, Building.inside_con, List.mem_cons, List.not_mem_nil, or_false, exists_eq_left] using h

theorem writes_treeE {ln : Line ℕ} (h : Building.Writes ln treeE) : ln = lineE := by
  obtain ⟨vks, t, h⟩ := h
  rcases inside_treeE h with h | h | h | h | h <;> cases h
  rfl

theorem given_treeE {k : ℕ} {w : ℝ} : ¬ GivenValue settingE treeE k w := by
  rintro ((⟨arg, subs, h, hx⟩ | ⟨setup, cost, arg, subs, ret, h, hx⟩) | ⟨i, -, -, h⟩)
  · rcases inside_treeE h with h | h | h | h | h <;> cases h
  · rcases inside_treeE h with h | h | h | h | h <;> cases h <;> simp at hx
  · cases h

theorem eval_treeE : Building.eval settingE.world treeE settingE.heap = .ok ((fun _ => none), .set ⟨[0], [], [lineE], 1⟩) := by
  simp [treeE, settingE, Building.eval, Building.evalL, Building.model, Building.costed, Building.construct, Building.Val.elements, Building.Val.truth,
    Building.defaults, Building.default1, Building.updated, Building.filled, Building.gathered, Building.partsL, Building.Val.parts,
    Building.update, Building.Part.vks, Building.Part.subs, Building.Part.cons, Building.addKeys, Building.addKey, Except.bind, Except.map]
  constructor
  · funext i
    simp [Building.taken]
  · simp [Building.taken]

theorem seqE_setup : setupOf settingE localE (lineSingle settingE localE.setord) ((Verif.Expr.var 0).build false settingE.vunits) treeE = .ok seqE := by
  unfold setupOf
  rw [eval_treeE]
  simp only [bind, Except.bind, theSet]
  rw [List.mapM_cons, List.mapM_nil, show lineSingle settingE localE.setord lineE = _ from lineE_single]
  simp only [bind, Except.bind, pure, Except.pure, List.flatten_cons, List.flatten_nil, List.append_nil]
  rfl

theorem seqE_sigOK (x0 : PyDict ℕ ℝ) : ∀ sig ∈ seqE.sigs, SigOK seqE.vunits seqE.ord seqE.setord x0 sig := by
  intro sig hs
  have : sig = ⟨seqSig, true⟩ := by simpa [seqE] using hs
  subst this
  intro h
  cases h

theorem lineSound_treeE : LineSound settingE (.var 0) treeE where
  feastol := by norm_num [settingE]
  ord := varlocs_valid
  units := fun v => by simp [settingE, UnitOK, unitScale]
  isSet := trivial
  fair := by
    refine ⟨fun arg subs h => ?_, fun setup cost arg subs ret h => ?_⟩
    · rcases inside_treeE h with h | h | h | h | h <;> cases h
    · rcases inside_treeE h with h | h | h | h | h <;> cases h <;> exact ⟨trivial, .inr rfl⟩
  values := fun k w h => (given_treeE h).elim
  cost := ⟨fun _ => 1, fun _ => one_pos, by simp [Expr.denote, physical, settingE, unitScale]⟩
  gp := fun st c hw _ => nomatch writes_treeE hw
  sigs := fun st n hw _ => nomatch writes_treeE hw

/-- The hypotheses of the theorem about `localsolve` are met by minimizing `x` subject to `2 == x + x**2`. -/
example : LineSound settingE (.var 0) treeE ∧
    LocalOK settingE localE (lineSingle settingE localE.setord) ((Verif.Expr.var 0).build false settingE.vunits) treeE ∧
    LineSlack settingE localE (.var 0) treeE ∧ Building.Writes lineE treeE ∧
    ∃ r : Result ℕ, localsolveLines settingE localE (.var 0) treeE = .ok (r, true, false) := by
  refine ⟨lineSound_treeE, ?_, ?_, ?_, ?_⟩
  · refine ⟨fun l => List.Perm.refl l, by norm_num [localE, localSE], by simp [localE, localSE], fun Z sp hZ hsp => ?_⟩
    rw [seqE_setup] at hZ
    cases hZ
    rw [seqE_init] at hsp
    cases hsp
    refine ⟨seqE_sigOK _, fun hn => by simp [seqE] at hn, fun _ _ _ _ _ => seqE_sigOK _, fun n s' out hn h => ?_⟩
    have hn' : n ≤ 1 := hn
    obtain rfl | rfl : n = 0 ∨ n = 1 := by omega
    · have e := seqE_pass0.symm.trans h
      cases e
      rfl
    · have e := seqE_pass1.symm.trans h
      cases e
      rfl
  · intro v hv
    have : v = 1 := by simpa [localE, localSE] using hv.symm
    subst this
    refine ⟨fun w => given_treeE, by simp [Expr.vars], fun st hst => (by cases writes_treeE hst), fun l r hst => ?_⟩
    cases writes_treeE hst
    simp [Expr.vars]
  · exact ⟨[0], true, by simp [treeE, Building.inside_mdl, Building.inside_lst, Building.inside_con]⟩
  · obtain ⟨r, hr⟩ := seqE_localsolve
    refine ⟨r, ?_⟩
    unfold localsolveLines localOf
    rw [seqE_setup]
    simp only [bind, Except.bind]
    rw [seqE_init]
    exact hr

end Verif
