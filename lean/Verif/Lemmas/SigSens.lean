import Verif.Model.SigSens
import Verif.Lemmas.Track
import Verif.Lemmas.ShareMap
import Verif.Lemmas.Approx
import Verif.Props.Substitution
import Verif.Props.Calculus
import Verif.Props.Sens

/-! What the bookkeeping of a signomial inequality holds. -/

set_option linter.unusedSectionVars false

namespace Verif
open PyDict

variable {V : Type} [DecidableEq V]

/-! ## Values at the solution -/

/-- `vals` has the value of every variable at `x`, all of them positive. -/
structure Solved (vals : PyDict V ℝ) (x : V → ℝ) (vs : V → Prop) : Prop where
  has : ∀ v, vs v → vals.get? v = some (x v)
  agrees : ∀ v c, vals.get? v = some c → x v = c
  pos : ∀ v c, vals.get? v = some c → 0 < c

/-- the variables of a map -/
def InMap (ts : PyDict (HV V ℝ) ℝ) (v : V) : Prop := ∃ t ∈ ts, t.1.get? v ≠ none

theorem mem_mapVks {ts : PyDict (HV V ℝ) ℝ} {v : V} : v ∈ mapVks ts ↔ InMap ts v := by
  have := mem_vks (h := (⟨ts, none⟩ : NMap V ℝ ℤ)) (v := v)
  exact this

theorem subval_ok {ord : Orders V ℝ} (ho : ord.Valid) {vals : PyDict V ℝ} {x : V → ℝ} {ts : PyDict (HV V ℝ) ℝ} (hv : Solved vals x (InMap ts))
    (hc : TermsCanonical ts) (hne : ts ≠ []) : subval ord vals ts = .ok (termsVal x ts) := by
  obtain ⟨h', hs⟩ := C06_sub_total (h := (⟨ts, none⟩ : NMap V ℝ ℤ)) hc hne (ho ts vals) (fun v c h => Or.inl (hv.pos v c h))
  have h1 := C06_sub_all hc hne (ho ts vals) hs (fun t ht v y hy => contains_iff.2 ⟨_, hv.has v ⟨t, ht, by rw [hy]; simp⟩⟩) x hv.agrees
  unfold NMap.sub at hs
  unfold subval
  simp only at hs h1
  cases hst : subState ts vals (ord ts vals) with
  | error e => rw [hst] at hs; cases hs
  | ok s =>
    rw [hst] at hs
    cases hs
    simp only at h1
    simp [h1, HV.empty]

theorem subval_zero {ord : Orders V ℝ} (ho : ord.Valid) (vals : PyDict V ℝ) : subval ord vals ([(HV.empty, 0)] : PyDict (HV V ℝ) ℝ) = .ok 0 := by
  have hk : varlocs ([(HV.empty, 0)] : PyDict (HV V ℝ) ℝ) vals = [] := by simp [varlocs, varlocKeys, HV.empty, PyDict.keys]
  have hr : ord [(HV.empty, 0)] vals = [] := by
    have := ho [(HV.empty, 0)] vals
    rw [hk] at this
    cases h : ord [(HV.empty, 0)] vals with
    | nil => rfl
    | cons a b => rw [h] at this; cases this
  unfold subval subState
  rw [hr]
  split_ifs with h1 <;> simp [subInit, PyDict.set, HV.empty, pure, Except.pure]

theorem subval_diff {ord : Orders V ℝ} (ho : ord.Valid) {vals : PyDict V ℝ} {x : V → ℝ} {ts : PyDict (HV V ℝ) ℝ} (hv : Solved vals x (InMap ts))
    (hc : TermsCanonical ts) (v : V) (hx : 0 < x v) : ∃ d, subval ord vals (mapDiff v ts) = .ok d ∧ x v * d = logGrad x ts v := by
  have hw : ∀ t ∈ ts, WF t.1.items := fun t ht => ((expCanonical_iff _).1 (hc.1 t ht).1).1
  unfold mapDiff
  split_ifs with h1
  · rw [foldl_diffStep_eq hc]
    refine ⟨_, subval_ok ho (x := x) ?_ (filterMap_dterm_canonical hc) ?_, val_diff_eq hx hw⟩
    · refine ⟨?_, hv.agrees, hv.pos⟩
      rintro w ⟨r, hr, hrw⟩
      obtain ⟨t, ht, htr⟩ := List.mem_filterMap.1 hr
      unfold dterm at htr
      obtain ⟨y, hy, rfl⟩ := Option.map_eq_some_iff.1 htr
      simp only at hrw
      rw [dexp_get? (hw t ht)] at hrw
      apply hv.has
      refine ⟨t, ht, ?_⟩
      split_ifs at hrw with h2 h3
      · rw [← h2, hy]; simp
      · rw [← h2, hy]; simp
      · exact hrw
    · obtain ⟨t, ht, h2⟩ := mem_mapVks.1 h1
      obtain ⟨y, hy⟩ := Option.ne_none_iff_exists'.1 h2
      intro h3
      have : (dexp v t.1 y, t.2 * y) ∈ ts.filterMap (dterm v) := by
        rw [List.mem_filterMap]
        exact ⟨t, ht, by unfold dterm; rw [hy]; rfl⟩
      rw [h3] at this; cases this
  · refine ⟨0, subval_zero ho vals, ?_⟩
    unfold logGrad
    rw [mul_zero, eq_comm]
    apply List.sum_eq_zero
    intro y hy
    obtain ⟨t, ht, rfl⟩ := List.mem_map.1 hy
    have : t.1.get? v = none := by
      by_contra h2
      exact h1 (mem_mapVks.2 ⟨t, ht, h2⟩)
    unfold expo
    rw [this]; simp

/-! ## One monomial -/

/-- what one pass of the inner loop adds -/
noncomputable def passVal (x : V → ℝ) (neg coeff : PyDict (HV V ℝ) ℝ) (nu mv : ℝ) (v : V) : ℝ :=
  nu / mv * (logGrad x coeff v / termsVal x neg - logGrad x neg v * termsVal x coeff / (termsVal x neg) ^ 2)

theorem sigSensVar_ok {ord : Orders V ℝ} (ho : ord.Valid) {vals : PyDict V ℝ} {x : V → ℝ} {neg coeff : PyDict (HV V ℝ) ℝ}
    (hv : Solved vals x (fun v => InMap neg v ∨ InMap coeff v)) (hcn : TermsCanonical neg) (hcc : TermsCanonical coeff) (hne : coeff ≠ [])
    (nu mv : ℝ) (acc : PyDict V ℝ) {v : V} (hin : InMap neg v ∨ InMap coeff v) :
    ∃ acc', sigSensVar ord vals neg coeff (1 / termsVal x neg) nu (1 / mv) acc v = .ok acc' ∧
      ∀ w, sensAt acc' w = sensAt acc w + if v = w then passVal x neg coeff nu mv w else 0 := by
  have hvn : Solved vals x (InMap neg) := ⟨fun w h => hv.has w (Or.inl h), hv.agrees, hv.pos⟩
  have hvc : Solved vals x (InMap coeff) := ⟨fun w h => hv.has w (Or.inr h), hv.agrees, hv.pos⟩
  have hget := hv.has v hin
  have hx : 0 < x v := hv.pos v _ hget
  obtain ⟨dc, h1, h2⟩ := subval_diff ho hvc hcc v hx
  obtain ⟨dn, h3, h4⟩ := subval_diff ho hvn hcn v hx
  unfold sigSensVar
  rw [h1, h3, subval_ok ho hvc hcc hne]
  simp only [bind, Except.bind]
  rw [hget]
  refine ⟨_, rfl, ?_⟩
  intro w
  rw [sensAt_set]
  by_cases hvw : v = w
  · subst hvw
    rw [if_pos rfl, if_pos rfl]
    unfold passVal
    rw [← h2, ← h4]
    unfold sensAt
    ring
  · rw [if_neg hvw, if_neg hvw, add_zero]

/-- how often a variable is gone through -/
noncomputable def seenTimes (neg coeff : PyDict (HV V ℝ) ℝ) (v : V) : ℝ :=
  open Classical in (if InMap neg v then 1 else 0) + (if InMap coeff v then 1 else 0)

theorem sigSensVars_ok {ord : Orders V ℝ} (ho : ord.Valid) {vals : PyDict V ℝ} {x : V → ℝ} {neg coeff : PyDict (HV V ℝ) ℝ}
    (hv : Solved vals x (fun v => InMap neg v ∨ InMap coeff v)) (hcn : TermsCanonical neg) (hcc : TermsCanonical coeff) (hne : coeff ≠ [])
    (nu mv : ℝ) : ∀ (vs : List V) (acc : PyDict V ℝ), (∀ v ∈ vs, InMap neg v ∨ InMap coeff v) →
    ∃ acc', vs.foldlM (sigSensVar ord vals neg coeff (1 / termsVal x neg) nu (1 / mv)) acc = .ok acc' ∧
      ∀ w, sensAt acc' w = sensAt acc w + (vs.count w : ℝ) * passVal x neg coeff nu mv w := by
  intro vs
  induction vs with
  | nil => intro acc _; exact ⟨acc, rfl, fun w => by simp⟩
  | cons v vs ih =>
    intro acc hin
    obtain ⟨a1, h1, h2⟩ := sigSensVar_ok ho hv hcn hcc hne nu mv acc (hin v List.mem_cons_self)
    obtain ⟨a2, h3, h4⟩ := ih a1 (fun w hw => hin w (List.mem_cons_of_mem _ hw))
    refine ⟨a2, ?_, ?_⟩
    · rw [List.foldlM_cons, h1]; exact h3
    · intro w
      rw [h4, h2, List.count_cons]
      by_cases hvw : v = w
      · subst hvw; simp; ring
      · simp [hvw]

theorem count_setord {setord : List V → List V} (hso : ∀ l, (setord l).Perm l) (ts : PyDict (HV V ℝ) ℝ) (v : V) :
    ((setord (mapVks ts)).count v : ℝ) = open Classical in if InMap ts v then 1 else 0 := by
  rw [(hso _).count_eq]
  have hnd : (mapVks ts).Nodup := List.nodup_dedup _
  split_ifs with h
  · rw [List.count_eq_one_of_mem hnd (mem_mapVks.2 h)]; simp
  · rw [List.count_eq_zero_of_not_mem (fun h2 => h (mem_mapVks.1 h2))]; simp

theorem sigSensMon_ok {ord : Orders V ℝ} (ho : ord.Valid) {setord : List V → List V} (hso : ∀ l, (setord l).Perm l) {vals : PyDict V ℝ} {x : V → ℝ}
    {m : SigMemo V ℝ} {mn : (HV V ℝ × ℝ) × ℝ} {coeff : PyDict (HV V ℝ) ℝ} (hco : m.coeffsigs.get? mn.1.1 = some coeff)
    (hv : Solved vals x (fun v => InMap m.negysig v ∨ InMap coeff v)) (hvm : Solved vals x (InMap [mn.1]))
    (hcn : TermsCanonical m.negysig) (hcc : TermsCanonical coeff) (hcm : TermsCanonical [mn.1]) (hne : coeff ≠ []) (hm0 : termsVal x [mn.1] ≠ 0)
    (acc : PyDict V ℝ) :
    ∃ acc', sigSensMon ord setord vals m (1 / termsVal x m.negysig) acc mn = .ok acc' ∧
      ∀ w, sensAt acc' w = sensAt acc w + seenTimes m.negysig coeff w * passVal x m.negysig coeff mn.2 (termsVal x [mn.1]) w := by
  obtain ⟨a, h1, h2⟩ := sigSensVars_ok ho hv hcn hcc hne mn.2 (termsVal x [mn.1]) (setord (mapVks m.negysig) ++ setord (mapVks coeff)) acc (by
    intro w hw
    rcases List.mem_append.1 hw with h | h
    · exact Or.inl (mem_mapVks.1 ((hso _).mem_iff.1 h))
    · exact Or.inr (mem_mapVks.1 ((hso _).mem_iff.1 h)))
  refine ⟨a, ?_, ?_⟩
  · unfold sigSensMon invPy
    rw [subval_ok ho hvm hcm (by simp)]
    simp only [bind, Except.bind]
    rw [if_neg hm0]
    simp only
    rw [hco]
    exact h1
  · intro w
    rw [h2, List.count_append, Nat.cast_add, count_setord hso, count_setord hso]
    rfl

/-! ## Coefficients after substitution -/

/-- the coefficient with the fixed variables multiplied in -/
noncomputable def fixedCoef (vs : List V) (x : V → ℝ) (t : HV V ℝ × ℝ) : ℝ := t.2 * monVal x (t.1.items.filter (fun kx => vs.contains kx.1))

theorem monVal_fixed_strip (x : V → ℝ) (vs : List V) (e : HV V ℝ) :
    monVal x (e.items.filter (fun kx => vs.contains kx.1)) * monVal x (strip vs e).items = monVal x e.items := by
  unfold strip
  simp only
  have : (e.items.filter (fun kx => vs.contains kx.1) ++ e.items.filter (fun kx => !vs.contains kx.1)).Perm e.items := List.filter_append_perm _ _
  rw [← monVal_perm this]
  simp [monVal]

theorem fixedCoef_strip (vs : List V) (x : V → ℝ) (t : HV V ℝ × ℝ) : fixedCoef vs x t * monVal x (strip vs t.1).items = t.2 * monVal x t.1.items := by
  unfold fixedCoef
  rw [mul_assoc, monVal_fixed_strip]

theorem coef_of_sub {h : PyDict (HV V ℝ) ℝ} (hc : TermsCanonical h) (hne : h ≠ []) {fixed : PyDict V ℝ} (hfix : ∀ v c, fixed.get? v = some c → 0 < c)
    {rounds : List (V × List (HV V ℝ))} (ho : SetOrder (varlocs h fixed) rounds) {s : SubState V ℝ} (hs : subState h fixed rounds = .ok s)
    (y : V → ℝ) (hy : ∀ v c, fixed.get? v = some c → y v = c) :
    (TermsCanonical s.cp ∨ s.cp = [(HV.empty, 0)]) ∧
    ∀ e : HV V ℝ, ExpCanonical e.items →
      (s.cp.get? e).getD 0 = ((h.filter (fun t => strip (varlocKeys h fixed) t.1 == e)).map (fixedCoef (varlocKeys h fixed) y)).sum := by
  obtain ⟨hwf, hnz, hw⟩ := (termsCanonical_iff _).1 hc
  have hw' : ∀ t ∈ h, WF t.1.items := fun t ht => ((expCanonical_iff _).1 (hw t ht)).1
  have hsub : (⟨h, none⟩ : NMap V ℝ ℤ).sub fixed rounds = .ok ⟨s.cp, none⟩ := by unfold NMap.sub; rw [hs]; rfl
  have hval := fun pt => (C06_sub_evaluates (h := ⟨h, none⟩) hc hne ho hsub pt).1
  have hcan := (sub_ok (h := ⟨h, none⟩) hc hne ho hsub).2.2.2.2
  simp only at hval hcan
  refine ⟨hcan, ?_⟩
  set vs := varlocKeys h fixed with hvs
  have hpos : ∀ t ∈ h, fixedCoef vs y t ≠ 0 := by
    intro t ht
    unfold fixedCoef
    refine mul_ne_zero (hnz t ht) ?_
    unfold monVal
    apply List.prod_ne_zero
    intro h0
    obtain ⟨kx, hkx, h1⟩ := List.mem_map.1 h0
    obtain ⟨_, h2⟩ := List.mem_filter.1 hkx
    have h3 : kx.1 ∈ varlocKeys h fixed := by simpa using h2
    obtain ⟨c, hcc⟩ := contains_iff.1 (mem_varlocKeys.1 h3).2
    have h4 := hfix _ _ hcc
    rw [hy _ _ hcc] at h1
    exact (Real.rpow_pos_of_pos h4 _).ne' h1
  let l : PyDict (HV V ℝ) ℝ := h.map (fun t => (strip vs t.1, fixedCoef vs y t))
  have hB : TermsCanonical (dictAdd [] l) := by
    rw [termsCanonical_iff]
    refine ⟨dictAdd_wf wf_nil _, dictAdd_nz (by intro p hp; cases hp) ?_, ?_⟩
    · intro p hp
      obtain ⟨t, ht, rfl⟩ := List.mem_map.1 hp
      exact hpos t ht
    · refine dictAdd_keys (P := fun e : HV V ℝ => ExpCanonical e.items) (by intro p hp; cases hp) ?_
      intro p hp
      obtain ⟨t, ht, rfl⟩ := List.mem_map.1 hp
      rw [expCanonical_iff]
      refine ⟨strip_wf (hw' t ht) _, ?_⟩
      intro kx hkx
      exact ((expCanonical_iff _).1 (hw t ht)).2 kx (List.mem_of_mem_filter hkx)
  have hvalB : ∀ pt, termsVal pt (dictAdd [] l) = termsVal pt s.cp := by
    intro pt
    rw [termsVal_dictAdd, hval pt]
    simp only [termsVal, List.map_nil, List.sum_nil, zero_add, l, List.map_map]
    congr 1
    apply List.map_congr_left
    intro t ht
    have h1 := fixedCoef_strip vs (override pt fixed) t
    rw [← h1, monVal_strip_override ht (hw' t ht)]
    simp only [Function.comp_apply]
    congr 1
    unfold fixedCoef monVal
    congr 2
    apply List.map_congr_left
    intro kx hkx
    obtain ⟨_, h2⟩ := List.mem_filter.1 hkx
    have h3 : kx.1 ∈ varlocKeys h fixed := by simpa using h2
    obtain ⟨c, hcc⟩ := contains_iff.1 (mem_varlocKeys.1 h3).2
    rw [hy _ _ hcc, override_agrees pt fixed _ _ hcc]
  intro e _
  have h2 := getD_dictAdd_list e l [] wf_nil
  simp only [get?_nil, Option.getD_none, zero_add] at h2
  have h4 : ((l.filter (fun p => p.1 == e)).map (·.2)).sum = ((h.filter (fun t => strip vs t.1 == e)).map (fixedCoef vs y)).sum := by
    simp only [l, List.filter_map, List.map_map]; rfl
  rw [← h4, ← h2]
  rcases hcan with hcan | hcan
  · have heq := (hmapEq_iff hcan hB).2 (fun pt _ => (hvalB pt).symm)
    unfold Nomial.hmapEq at heq
    simp only [Bool.and_eq_true, List.all_eq_true, decide_eq_true_eq] at heq
    have heq2 := (hmapEq_iff hB hcan).2 (fun pt _ => hvalB pt)
    unfold Nomial.hmapEq at heq2
    simp only [Bool.and_eq_true, List.all_eq_true, decide_eq_true_eq] at heq2
    cases hg : s.cp.get? e with
    | some c =>
      obtain ⟨k, hk, hke⟩ := exists_mem_of_get? hg
      have := heq.2 _ hk
      rw [get?_congr _ hke] at this
      rw [this]
    | none =>
      cases hg2 : PyDict.get? (dictAdd [] l) e with
      | none => rfl
      | some c =>
        obtain ⟨k, hk, hke⟩ := exists_mem_of_get? hg2
        have := heq2.2 _ hk
        rw [get?_congr _ hke, hg] at this
        cases this
  · have hz : ∀ pt, termsVal pt (dictAdd [] l) = 0 := by
      intro pt; rw [hvalB, hcan]; simp [termsVal]
    have hnil : TermsCanonical ([] : PyDict (HV V ℝ) ℝ) := by rw [termsCanonical_iff]; exact ⟨wf_nil, (by intro p hp; cases hp), (by intro p hp; cases hp)⟩
    have heq := (hmapEq_iff hB hnil).2 (fun pt _ => by rw [hz]; simp [termsVal])
    unfold Nomial.hmapEq at heq
    simp only [Bool.and_eq_true, List.length_nil, decide_eq_true_eq, List.length_eq_zero_iff] at heq
    rw [heq.1, hcan, get?_cons]
    split_ifs <;> simp

/-! ## The attributes -/

/-- the term goes to the denominator -/
noncomputable def denom (vs : List V) (ne : HV V ℝ) (t : HV V ℝ × ℝ) : Bool := strip vs t.1 == ne

theorem splitStep_fold {h : PyDict (HV V ℝ) ℝ} (hwf : WF h) (vs : List V) (ne : HV V ℝ) : ∀ (post pre : PyDict (HV V ℝ) ℝ) (co : PyDict (HV V ℝ) (PyDict (HV V ℝ) ℝ)),
    h = pre ++ post → (∀ k, (co.get? k).getD [] = pre.filter (fun t => !denom vs ne t && (strip vs t.1).sub ne == k)) →
    ∃ co', (post.map (fun t => (t.1, strip vs t.1))).foldlM (splitStep h ne) ((pre.filter (denom vs ne)).map (fun t => (t.1, -t.2)), co) =
        .ok ((h.filter (denom vs ne)).map (fun t => (t.1, -t.2)), co') ∧
      ∀ k, (co'.get? k).getD [] = h.filter (fun t => !denom vs ne t && (strip vs t.1).sub ne == k) := by
  intro post
  induction post with
  | nil => intro pre co hh hco; rw [List.append_nil] at hh; subst hh; exact ⟨co, rfl, hco⟩
  | cons t post ih =>
    intro pre co hh hco
    have ht : t ∈ h := by rw [hh]; simp
    have hnew : ∀ q ∈ pre, (q.1 == t.1) = false := by
      intro q hq
      rw [hh] at hwf
      exact (List.pairwise_append.1 hwf).2.2 q hq t List.mem_cons_self
    have hnot : ∀ (p : HV V ℝ × ℝ → Bool) (g : HV V ℝ × ℝ → ℝ), PyDict.get? ((pre.filter p).map (fun t => (t.1, g t))) t.1 = none := by
      intro p g
      rw [get?_eq_none_iff]
      intro q hq
      obtain ⟨r, hr, rfl⟩ := List.mem_map.1 hq
      exact hnew r (List.mem_of_mem_filter hr)
    rw [List.map_cons, List.foldlM_cons]
    unfold splitStep
    simp only
    rw [get?_of_mem hwf ht]
    simp only
    by_cases hd : strip vs t.1 == ne
    · rw [if_pos hd]
      have hden : denom vs ne t = true := hd
      have h1 : PyDict.set ((pre.filter (denom vs ne)).map (fun t => (t.1, -t.2))) t.1 (-t.2) = ((pre ++ [t]).filter (denom vs ne)).map (fun t => (t.1, -t.2)) := by
        rw [set_of_not_contains (hnot _ _), List.filter_append]
        simp [hden]
      rw [h1]
      refine ih (pre ++ [t]) co (by rw [hh]; simp) ?_
      intro k
      rw [hco k, List.filter_append]
      simp [hden]
    · rw [if_neg hd]
      have hden : denom vs ne t = false := by unfold denom; simpa using hd
      have h1 : (pre.filter (denom vs ne)).map (fun t => (t.1, -t.2)) = ((pre ++ [t]).filter (denom vs ne)).map (fun t => (t.1, -t.2)) := by
        rw [List.filter_append]
        simp [hden]
      rw [h1]
      refine ih (pre ++ [t]) _ (by rw [hh]; simp) ?_
      intro k
      rw [get?_set, List.filter_append, List.filter_cons, hden]
      by_cases hk : (strip vs t.1).sub ne == k
      · rw [if_pos hk]
        simp only [Option.getD_some, Bool.not_false, Bool.true_and, hk, if_true, List.filter_nil]
        rw [hco]
        have h2 : pre.filter (fun t_1 => !denom vs ne t_1 && (strip vs t_1.1).sub ne == (strip vs t.1).sub ne) =
            pre.filter (fun t_1 => !denom vs ne t_1 && (strip vs t_1.1).sub ne == k) := by
          apply List.filter_congr
          intro q _
          rw [beq_congr_right hk]
        rw [h2, set_of_not_contains]
        have := hnot (fun t_1 => !denom vs ne t_1 && (strip vs t_1.1).sub ne == k) (fun t => t.2)
        simpa using this
      · rw [if_neg hk, hco k]
        simp [hk]

/-- What the constraint remembers after making its form. -/
structure SigKept (h : PyDict (HV V ℝ) ℝ) (fixed : PyDict V ℝ) (m : SigMemo V ℝ) (posy : PyDict (HV V ℝ) ℝ) (ne : HV V ℝ) (nc : ℝ) : Prop where
  mons : m.mons = posy.map (fun t => (t.1.sub ne, t.2 / nc))
  neg : m.negysig = (h.filter (denom (varlocKeys h fixed) ne)).map (fun t => (t.1, -t.2))
  co : ∀ u ∈ posy, m.coeffsigs.get? (u.1.sub ne) = some (h.filter (denom (varlocKeys h fixed) u.1))
  posycan : TermsCanonical posy
  necan : ExpCanonical ne.items
  apart : ∀ u ∈ posy, (u.1 == ne) = false
  posyval : ∀ u ∈ posy, 0 < u.2 ∧ ∀ y : V → ℝ, (∀ v c, fixed.get? v = some c → y v = c) →
    u.2 * monVal y u.1.items = termsVal y (h.filter (denom (varlocKeys h fixed) u.1))
  negval : 0 < nc ∧ ∀ y : V → ℝ, (∀ v c, fixed.get? v = some c → y v = c) → nc * monVal y ne.items = -termsVal y (h.filter (denom (varlocKeys h fixed) ne))
  rest : ∀ t ∈ h, denom (varlocKeys h fixed) ne t = true ∨ (∃ u ∈ posy, denom (varlocKeys h fixed) u.1 t = true) ∨
    ∀ y : V → ℝ, (∀ v c, fixed.get? v = some c → y v = c) → termsVal y (h.filter (denom (varlocKeys h fixed) (strip (varlocKeys h fixed) t.1))) = 0

theorem class_val {h : PyDict (HV V ℝ) ℝ} (vs : List V) (e : HV V ℝ) (y : V → ℝ) :
    ((h.filter (fun t => strip vs t.1 == e)).map (fixedCoef vs y)).sum * monVal y e.items = termsVal y (h.filter (denom vs e)) := by
  have : h.filter (denom vs e) = h.filter (fun t => strip vs t.1 == e) := rfl
  rw [this, ← List.sum_map_mul_right]
  unfold termsVal
  congr 1
  apply List.map_congr_left
  intro t ht
  obtain ⟨_, h2⟩ := List.mem_filter.1 ht
  rw [← fixedCoef_strip vs y t, monVal_perm (HV.beq_iff.1 h2)]

theorem kept_of_form {feastol : ℝ} {h : PyDict (HV V ℝ) ℝ} (hc : TermsCanonical h) (hne : h ≠ []) {fixed : PyDict V ℝ}
    (hfix : ∀ v c, fixed.get? v = some c → 0 < c) {r1 r2 : List (V × List (HV V ℝ))} (ho1 : SetOrder (varlocs h fixed) r1)
    (ho2 : SetOrder (varlocs h fixed) r2) (hlate : MergesLate h (varlocKeys h fixed)) {ord : Orders V ℝ} {fs : List (PyDict (HV V ℝ) ℝ)} {m : SigMemo V ℝ}
    (hf : sigForm feastol h fixed r1 r2 ord = .ok (.forms fs m)) : ∃ posy ne nc, SigKept h fixed m posy ne nc := by
  obtain ⟨hwf, hnz, hw⟩ := (termsCanonical_iff _).1 hc
  unfold sigForm at hf
  cases hs1 : subState h fixed r1 with
  | error e => rw [hs1] at hf; cases hf
  | ok s1 =>
  rw [hs1] at hf
  simp only at hf
  have hcoef := fun y hy => coef_of_sub hc hne hfix ho1 hs1 y hy
  have hcan0 := (coef_of_sub hc hne hfix ho1 hs1 (override (fun _ => 1) fixed) (override_agrees _ _)).1
  have hcwf : WF s1.cp := by
    rcases hcan0 with h1 | h1
    · exact ((termsCanonical_iff _).1 h1).1
    · rw [h1]; simp [WF]
  have hpn := posyNegy_foldl (p := []) (n := []) (ts := s1.cp) (by simpa using hcwf) (by simpa using hcwf)
  rw [hpn] at hf
  simp only [List.nil_append] at hf
  split at hf
  · simp at hf
  rename_i hposy
  split at hf
  · cases hf
  · rename_i ne nc hneg
    cases hs2 : subState h fixed r2 with
    | error e => rw [hs2] at hf; cases hf
    | ok s2 =>
    rw [hs2] at hf
    simp only at hf
    have hem := tracked_of_sub hc hfix ho2 hlate hs2
    obtain ⟨co, hsp, hco⟩ := splitStep_fold hwf (varlocKeys h fixed) ne h [] [] rfl (by intro k; simp)
    rw [List.filter_nil, List.map_nil] at hsp
    rw [hem, hsp] at hf
    simp only at hf
    split at hf
    · cases hf
    rename_i fs' _
    simp only [Except.ok.injEq, SigForm.forms.injEq] at hf
    obtain ⟨_, hf⟩ := hf
    have hcan : TermsCanonical s1.cp := by
      rcases hcan0 with h1 | h1
      · exact h1
      · rw [h1] at hposy; simp at hposy
    obtain ⟨hcwf', hcnz, hcw⟩ := (termsCanonical_iff _).1 hcan
    have hnem : (ne, -nc) ∈ s1.cp ∧ 0 < nc := by
      have : (ne, nc) ∈ (s1.cp.filter (fun t => t.2 < 0)).map (fun t => (t.1, -t.2)) := by rw [hneg]; simp
      obtain ⟨q, hq, hqe⟩ := List.mem_map.1 this
      obtain ⟨hq1, hq2⟩ := List.mem_filter.1 hq
      simp only [Prod.mk.injEq] at hqe
      obtain ⟨rfl, rfl⟩ := hqe
      refine ⟨by simpa using hq1, ?_⟩
      simpa using hq2
    have hnecan : ExpCanonical ne.items := hcw _ hnem.1
    have hup : ∀ u ∈ s1.cp.filter (fun t => 0 < t.2), u ∈ s1.cp ∧ 0 < u.2 := by
      intro u hu
      obtain ⟨h1, h2⟩ := List.mem_filter.1 hu
      exact ⟨h1, by simpa using h2⟩
    have hapart : ∀ u ∈ s1.cp.filter (fun t => 0 < t.2), (u.1 == ne) = false := by
      intro u hu
      obtain ⟨h1, h2⟩ := hup u hu
      by_contra hb
      simp only [Bool.not_eq_false] at hb
      have h3 := get?_of_mem hcwf h1
      rw [get?_congr _ hb, get?_of_mem hcwf hnem.1] at h3
      injection h3 with h3
      linarith [hnem.2]
    have hval : ∀ u ∈ s1.cp, ∀ y : V → ℝ, (∀ v c, fixed.get? v = some c → y v = c) →
        u.2 * monVal y u.1.items = termsVal y (h.filter (denom (varlocKeys h fixed) u.1)) := by
      intro u hu y hy
      have := (hcoef y hy).2 u.1 (hcw u hu)
      rw [get?_of_mem hcwf hu, Option.getD_some] at this
      rw [this, class_val]
    have hstripcan : ∀ t ∈ h, ExpCanonical (strip (varlocKeys h fixed) t.1).items := by
      intro t ht
      have h1 := (expCanonical_iff _).1 (hw t ht)
      rw [expCanonical_iff]
      exact ⟨strip_wf h1.1 _, fun kx hkx => h1.2 kx (List.mem_of_mem_filter hkx)⟩
    refine ⟨s1.cp.filter (fun t => 0 < t.2), ne, nc, ?_, ?_, ?_, ?_, hnecan, hapart, ?_, ?_, ?_⟩
    · rw [← hf]
    · rw [← hf]
    · intro u hu
      rw [← hf]
      simp only
      obtain ⟨h1, h2⟩ := hup u hu
      have h3 := hco (u.1.sub ne)
      have h4 : h.filter (fun t => !denom (varlocKeys h fixed) ne t && (strip (varlocKeys h fixed) t.1).sub ne == u.1.sub ne) =
          h.filter (denom (varlocKeys h fixed) u.1) := by
        apply List.filter_congr
        intro t ht
        rw [Bool.eq_iff_iff, Bool.and_eq_true]
        have hnewf := ((expCanonical_iff _).1 hnecan).1
        constructor
        · rintro ⟨_, h6⟩
          refine sub_injective (hstripcan t ht) (hcw u h1) hnewf h6 ?_
          exact ((expCanonical_iff _).1 (HV.sub_canonical (hstripcan t ht) hnecan)).1
        · intro h5
          have h5' : (strip (varlocKeys h fixed) t.1 == u.1) = true := h5
          refine ⟨?_, ?_⟩
          · rw [Bool.not_eq_true']
            by_contra h6
            simp only [Bool.not_eq_false] at h6
            have h6' : (strip (varlocKeys h fixed) t.1 == ne) = true := h6
            have := hapart u hu
            rw [BEq.trans (BEq.symm h5') h6'] at this; cases this
          · apply beq_of_getD (HV.sub_canonical (hstripcan t ht) hnecan) (HV.sub_canonical (hcw u h1) hnecan)
            intro k
            rw [getD_sub ((expCanonical_iff _).1 (hstripcan t ht)).1 hnewf, getD_sub ((expCanonical_iff _).1 (hcw u h1)).1 hnewf,
              hv_get?_congr ((expCanonical_iff _).1 (hstripcan t ht)).1 h5']
      rw [h4] at h3
      cases hg : PyDict.get? co (u.1.sub ne) with
      | some c => rw [hg] at h3; simpa using h3
      | none =>
        exfalso
        rw [hg, Option.getD_none] at h3
        have h5 := (hcoef (override (fun _ => 1) fixed) (override_agrees _ _)).2 u.1 (hcw u h1)
        have h6 : h.filter (fun t => strip (varlocKeys h fixed) t.1 == u.1) = [] := h3.symm
        rw [get?_of_mem hcwf h1, h6] at h5
        simp at h5
        linarith
    · rw [termsCanonical_iff]
      exact ⟨hcwf.sublist List.filter_sublist, fun p hp => hcnz p (List.mem_of_mem_filter hp), fun p hp => hcw p (List.mem_of_mem_filter hp)⟩
    · intro u hu
      exact ⟨(hup u hu).2, hval u (hup u hu).1⟩
    · refine ⟨hnem.2, ?_⟩
      intro y hy
      have := hval _ hnem.1 y hy
      simp only at this
      linarith
    · intro t ht
      by_cases hg : s1.cp.contains (strip (varlocKeys h fixed) t.1)
      · obtain ⟨c, hgc⟩ := contains_iff.1 hg
        obtain ⟨k, hk, hke⟩ := exists_mem_of_get? hgc
        have hc0 := hcnz _ hk
        rcases lt_or_gt_of_ne hc0 with h1 | h1
        · left
          have : (k, -c) ∈ (s1.cp.filter (fun t => t.2 < 0)).map (fun t => (t.1, -t.2)) :=
            List.mem_map.2 ⟨(k, c), List.mem_filter.2 ⟨hk, by simpa using h1⟩, rfl⟩
          rw [hneg] at this
          simp only [List.mem_singleton, Prod.mk.injEq] at this
          unfold denom
          rw [← this.1]
          exact BEq.symm hke
        · right; left
          exact ⟨(k, c), List.mem_filter.2 ⟨hk, by simpa using h1⟩, BEq.symm hke⟩
      · right; right
        intro y hy
        have h1 := (hcoef y hy).2 _ (hstripcan t ht)
        have h2 : s1.cp.get? (strip (varlocKeys h fixed) t.1) = none := by
          cases h3 : s1.cp.get? (strip (varlocKeys h fixed) t.1) with
          | none => rfl
          | some c => exact absurd (contains_iff.2 ⟨c, h3⟩) hg
        rw [h2, Option.getD_none] at h1
        rw [← class_val, ← h1, zero_mul]
  · cases hf

end Verif
