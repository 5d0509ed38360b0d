import Verif.Model.Sens
import Verif.Spec.Eval
import Verif.Lemmas.Canonical
import Mathlib.Analysis.SpecialFunctions.Log.Deriv
import Mathlib.Analysis.Calculus.Deriv.Prod
import Mathlib.Analysis.Calculus.FDeriv.Comp

/-!
# C41: sensitivities of linked constants follow the chain rule
-/

set_option linter.unusedSectionVars false

namespace Verif
open PyDict Sens

section
variable {V : Type} [DecidableEq V]

/-- The entry of a dict of sensitivities; missing means zero. -/
def sensAt (d : PyDict V ℝ) (v : V) : ℝ := (d.get? v).getD 0

/-- Own sensitivity plus, for each linked variable, its sensitivity times its logarithmic derivative. -/
noncomputable def chainSens (E : Env V ℝ) (linked : List V) (d : PyDict V ℝ) (c : V) : ℝ :=
  sensAt d c + (linked.map (fun v => sensAt d v * (sensAt (E.grads v) c * sensAt E.consts c / sensAt E.consts v))).sum

theorem sensAt_set (d : PyDict V ℝ) (k q : V) (x : ℝ) : sensAt (d.set k x) q = if k = q then x else sensAt d q := by
  unfold sensAt
  rw [get?_set]
  by_cases h : k = q <;> simp [h]

theorem get?_set_ne (d : PyDict V ℝ) {k q : V} (h : q ≠ k) (x : ℝ) : (d.set k x).get? q = d.get? q := by
  rw [get?_set, if_neg (by simpa using fun h2 => h h2.symm)]

theorem get?_del_ne {d : PyDict V ℝ} (hd : WF d) {k q : V} (h : q ≠ k) : (d.del k).get? q = d.get? q := by
  rw [get?_del hd, if_neg (by simpa using fun h2 => h h2.symm)]

/-- What a linked variable must be like. -/
structure LinkOK (E : Env V ℝ) (v : V) : Prop where
  /-- one entry per constant -/
  wf : WF (E.grads v)
  /-- its value is known and not zero -/
  val : ∃ x, E.consts.get? v = some x ∧ x ≠ 0
  /-- the constants it depends on are known and not linked themselves -/
  args : ∀ g ∈ E.grads v, (∃ x, E.consts.get? g.1 = some x) ∧ E.grads g.1 = []

theorem inner_ok {E : Env V ℝ} {v : V} {val : ℝ} (hval : val ≠ 0) :
    ∀ (gs : PyDict V ℝ) (s : State V ℝ), WF s.gpv → WF s.cost → WF gs → (∀ g ∈ gs, (∃ x, E.consts.get? g.1 = some x) ∧ g.1 ≠ v) →
      (∀ g ∈ gs.dropLast, s.cost.get? v = none ∨ E.inCost g.1 = false) →
    ∃ s', gs.foldlM (innerStep E v val) s = .ok s' ∧ WF s'.gpv ∧ WF s'.cost ∧
      (∀ k, sensAt s'.gpv k = sensAt s.gpv k + s.dlog * (sensAt gs k * sensAt E.consts k / val)) ∧
      (∀ k, (∀ g ∈ gs, g.1 ≠ k) → s'.gpv.get? k = s.gpv.get? k) ∧
      (∀ k, k ≠ v → (∀ g ∈ gs, g.1 ≠ k) → s'.cost.get? k = s.cost.get? k) ∧ (s.cost.get? v = none → s'.cost = s.cost) := by
  intro gs
  induction gs with
  | nil =>
    intro s w1 w2 _ _ _
    exact ⟨s, rfl, w1, w2, by simp [sensAt], fun _ _ => rfl, fun _ _ _ => rfl, fun _ => rfl⟩
  | cons g gs ih =>
    intro s w1 w2 wg hargs hlast
    obtain ⟨⟨cc, hcc⟩, hgv⟩ := hargs g List.mem_cons_self
    obtain ⟨g1, g2⟩ := g
    simp only at hcc hgv
    obtain ⟨wg1, wg2⟩ := wf_cons.1 wg
    have hg1 : sensAt gs g1 = 0 := by
      have : PyDict.get? gs g1 = none := get?_eq_none_iff.2 (fun q hq => by rw [BEq.comm]; exact wg1 q hq)
      unfold sensAt; rw [this]; rfl
    -- the value of `gpv` after the whole loop, from the state after the first step
    have fin : ∀ s1 : State V ℝ, s1.gpv = s.gpv.set g1 ((s.gpv.get? g1).getD 0 + s.dlog * (g2 * cc / val)) → (gs = [] ∨ s1.dlog = s.dlog) →
        ∀ s' : State V ℝ, (∀ k, sensAt s'.gpv k = sensAt s1.gpv k + s1.dlog * (sensAt gs k * sensAt E.consts k / val)) →
        ∀ k, sensAt s'.gpv k = sensAt s.gpv k + s.dlog * (sensAt ((g1, g2) :: gs) k * sensAt E.consts k / val) := by
      intro s1 h1 hd s' h k
      rw [h k, h1, sensAt_set]
      have hc : sensAt ((g1, g2) :: gs) k = if g1 = k then g2 else sensAt gs k := by
        unfold sensAt; rw [get?_cons]; by_cases hk : g1 = k <;> simp [hk]
      rw [hc]
      by_cases hk : g1 = k
      · subst hk
        rw [if_pos rfl, if_pos rfl, hg1]
        have : sensAt E.consts g1 = cc := by unfold sensAt; rw [hcc]; rfl
        rw [this]
        unfold sensAt
        ring
      · rw [if_neg hk, if_neg hk]
        rcases hd with hd | hd
        · subst hd; simp [sensAt]
        · rw [hd]
    have keep : ∀ k, (∀ g ∈ (g1, g2) :: gs, g.1 ≠ k) → (s.gpv.set g1 ((s.gpv.get? g1).getD 0 + s.dlog * (g2 * cc / val))).get? k = s.gpv.get? k := by
      intro k hk
      exact get?_set_ne _ (fun h => hk (g1, g2) List.mem_cons_self h.symm) _
    have step : ∃ s1, innerStep E v val s (g1, g2) = .ok s1 ∧ s1.gpv = s.gpv.set g1 ((s.gpv.get? g1).getD 0 + s.dlog * (g2 * cc / val)) ∧ WF s1.cost ∧
        (gs = [] ∨ s1.dlog = s.dlog) ∧ (∀ k, k ≠ v → g1 ≠ k → s1.cost.get? k = s.cost.get? k) ∧ (s.cost.get? v = none → s1.cost = s.cost) ∧
        (gs = [] ∨ s1.cost = s.cost) := by
      unfold innerStep
      rw [hcc]
      simp only [if_neg hval]
      cases hv : s.cost.get? v with
      | none => exact ⟨_, rfl, rfl, w2, Or.inr rfl, fun _ _ _ => rfl, fun _ => rfl, Or.inr rfl⟩
      | some d =>
        simp only
        by_cases hi : E.inCost g1 = true
        · rw [if_pos hi]
          have hnil : gs = [] := by
            by_contra hne
            have : (g1, g2) ∈ ((g1, g2) :: gs).dropLast := by
              cases gs with
              | nil => exact (hne rfl).elim
              | cons a l => simp [List.dropLast]
            rcases hlast _ this with h | h
            · rw [hv] at h; cases h
            · rw [hi] at h; cases h
          refine ⟨_, rfl, rfl, wf_set (wf_del w2 _) _ _, Or.inl hnil, ?_, fun h => (by cases h), Or.inl hnil⟩
          intro k hk hg
          rw [get?_set_ne _ (fun h => hg h.symm), get?_del_ne w2 hk]
        · rw [if_neg hi]
          exact ⟨_, rfl, rfl, w2, Or.inr rfl, fun _ _ _ => rfl, fun _ => rfl, Or.inr rfl⟩
    obtain ⟨s1, e1, e2, e3, e4, e5, e6, e7⟩ := step
    obtain ⟨s', f1, f2, f3, f4, f5, f6, f7⟩ := ih s1 (by rw [e2]; exact wf_set w1 _ _) e3 wg2 (fun g hg => hargs g (List.mem_cons_of_mem _ hg)) (by
      intro g hg
      rcases e7 with h | h
      · subst h; simp at hg
      · rw [h]
        refine hlast g ?_
        cases gs with
        | nil => simp at hg
        | cons a l => rw [List.dropLast_cons_of_ne_nil (by simp)]; exact List.mem_cons_of_mem _ hg)
    refine ⟨s', ?_, f2, f3, fin s1 e2 e4 s' f4, ?_, ?_, ?_⟩
    · rw [List.foldlM_cons, e1]; exact f1
    · intro k hk
      rw [f5 k (fun g hg => hk g (List.mem_cons_of_mem _ hg)), e2, keep k hk]
    · intro k hkv hk
      rw [f6 k hkv (fun g hg => hk g (List.mem_cons_of_mem _ hg)), e5 k hkv (hk (g1, g2) List.mem_cons_self)]
    · intro h
      have h1 := e6 h
      rw [← h1]
      exact f7 (by rw [h1]; exact h)

/-- The dict as seen by a constant that is not linked does not change when linked variables are dropped from it. -/
theorem outer_ok {E : Env V ℝ} (gpv0 cost0 : PyDict V ℝ) :
    ∀ (vs : List V) (s : State V ℝ), vs.Nodup → WF s.gpv → WF s.cost → (∀ v ∈ vs, E.grads v ≠ [] ∧ LinkOK E v ∧
        s.gpv.get? v = gpv0.get? v ∧ gpv0.get? v ≠ none ∧ s.cost.get? v = cost0.get? v ∧
        ∀ g ∈ (E.grads v).dropLast, cost0.get? v = none ∨ E.inCost g.1 = false) →
    ∃ s', vs.foldlM (outerStep E) s = .ok s' ∧ WF s'.gpv ∧ WF s'.cost ∧ (∀ v ∈ vs, s'.gpv.get? v = none) ∧
      (∀ k, E.grads k ≠ [] → k ∉ vs → s'.gpv.get? k = s.gpv.get? k) ∧
      (∀ k, E.grads k = [] → sensAt s'.gpv k = sensAt s.gpv k +
        (vs.map (fun v => sensAt gpv0 v * (sensAt (E.grads v) k * sensAt E.consts k / sensAt E.consts v))).sum) ∧
      ((∀ v ∈ vs, cost0.get? v = none ∨ ∃ g, E.grads v = [g] ∧ E.inCost g.1 = true) →
        (∀ v ∈ vs, s'.cost.get? v = none) ∧ ∀ k, E.grads k = [] → sensAt s'.cost k = sensAt s.cost k +
        (vs.map (fun v => sensAt cost0 v * (sensAt (E.grads v) k * sensAt E.consts k / sensAt E.consts v))).sum) ∧
      (∀ k, E.grads k ≠ [] → k ∉ vs → s'.cost.get? k = s.cost.get? k) := by
  intro vs
  induction vs with
  | nil =>
    intro s _ w1 w2 _
    exact ⟨s, rfl, w1, w2, by simp, fun _ _ _ => rfl, by simp, by simp, fun _ _ _ => rfl⟩
  | cons v vs ih =>
    intro s hnd w1 w2 h
    rw [List.nodup_cons] at hnd
    obtain ⟨hg, hl, hgp, hgp0, hco, hdl⟩ := h v List.mem_cons_self
    obtain ⟨val, hval, hval0⟩ := hl.val
    cases hd : gpv0.get? v with
    | none => exact (hgp0 hd).elim
    | some d =>
      have hself : ∀ g ∈ E.grads v, g.1 ≠ v := fun g hgm h2 => hg (by rw [← h2]; exact (hl.args g hgm).2)
      obtain ⟨s1, e1, e2, e3, e4, e5, e6, e7⟩ := inner_ok (E := E) (v := v) hval0 (E.grads v) ⟨s.gpv.del v, s.cost, d⟩ (wf_del w1 _) w2 hl.wf
        (fun g hgm => ⟨(hl.args g hgm).1, hself g hgm⟩) (by rw [hco]; exact hdl)
      simp only at e4 e5 e6 e7
      have hstep : outerStep E s v = .ok s1 := by
        unfold outerStep
        rw [hgp, hd]; simp only
        rw [hval]; exact e1
      have hsv : sensAt E.consts v = val := by unfold sensAt; rw [hval]; rfl
      have hother : ∀ k, E.grads k ≠ [] → ∀ g ∈ E.grads v, g.1 ≠ k := fun k hk g hgm h2 => hk (by rw [← h2]; exact (hl.args g hgm).2)
      have g1 : s1.gpv.get? v = none := by
        rw [e5 v (hother v hg), get?_del w1]; simp
      have g2 : ∀ k, E.grads k ≠ [] → k ≠ v → s1.gpv.get? k = s.gpv.get? k := by
        intro k hk hkv
        rw [e5 k (hother k hk), get?_del_ne w1 hkv]
      have g3 : ∀ k, E.grads k ≠ [] → k ≠ v → s1.cost.get? k = s.cost.get? k := fun k hk hkv => e6 k hkv (hother k hk)
      obtain ⟨s', f1, f2, f3, f4, f5, f6, f7, f8⟩ := ih s1 hnd.2 e2 e3 (by
        intro w hw
        obtain ⟨i1, i2, i3, i4, i5, i6⟩ := h w (List.mem_cons_of_mem _ hw)
        have hwv : w ≠ v := fun h2 => hnd.1 (h2 ▸ hw)
        exact ⟨i1, i2, by rw [g2 w i1 hwv]; exact i3, i4, by rw [g3 w i1 hwv]; exact i5, i6⟩)
      refine ⟨s', by rw [List.foldlM_cons, hstep]; exact f1, f2, f3, ?_, ?_, ?_, ?_, ?_⟩
      · intro w hw
        rcases List.mem_cons.1 hw with rfl | hw
        · rw [f5 w hg hnd.1, g1]
        · exact f4 w hw
      · intro k hk hkv
        rw [List.mem_cons, not_or] at hkv
        rw [f5 k hk hkv.2, g2 k hk hkv.1]
      · intro k hk
        have hkv : k ≠ v := fun h2 => hg (by rw [← h2]; exact hk)
        have : sensAt (s.gpv.del v) k = sensAt s.gpv k := by unfold sensAt; rw [get?_del_ne w1 hkv]
        have hdv : sensAt gpv0 v = d := by unfold sensAt; rw [hd]; rfl
        rw [f6 k hk, e4 k, this, List.map_cons, List.sum_cons, hsv, hdv]
        ring
      · intro hc
        obtain ⟨q1, q2⟩ := f7 (fun w hw => hc w (List.mem_cons_of_mem _ hw))
        -- the cost dict after the step
        have hstepc : s1.cost.get? v = none ∧ ∀ k, k ≠ v → sensAt s1.cost k = sensAt s.cost k +
            sensAt cost0 v * (sensAt (E.grads v) k * sensAt E.consts k / sensAt E.consts v) := by
          rcases hc v List.mem_cons_self with h0 | ⟨g, h0, hin⟩
          · have : s1.cost = s.cost := e7 (by rw [hco]; exact h0)
            rw [this]
            refine ⟨by rw [hco]; exact h0, ?_⟩
            intro k _
            have : sensAt cost0 v = 0 := by unfold sensAt; rw [h0]; rfl
            rw [this]; ring
          · cases hcv : cost0.get? v with
            | none =>
              have : s1.cost = s.cost := e7 (by rw [hco]; exact hcv)
              rw [this]
              refine ⟨by rw [hco]; exact hcv, ?_⟩
              intro k _
              have : sensAt cost0 v = 0 := by unfold sensAt; rw [hcv]; rfl
              rw [this]; ring
            | some dc =>
              obtain ⟨⟨cc, hcc⟩, _⟩ := hl.args g (by rw [h0]; simp)
              have hgv : g.1 ≠ v := hself g (by rw [h0]; simp)
              rw [h0, List.foldlM_cons] at e1
              unfold innerStep at e1
              rw [hcc] at e1
              simp only [if_neg hval0, hco, hcv, if_pos hin, bind, Except.bind, List.foldlM_nil, pure, Except.pure] at e1
              cases e1
              simp only
              refine ⟨?_, ?_⟩
              · rw [get?_set_ne _ hgv.symm, get?_del w2]; simp
              · intro k hk
                have e : sensAt cost0 v = dc := by unfold sensAt; rw [hcv]; rfl
                rw [sensAt_set, e, hsv, h0]
                by_cases hgk : g.1 = k
                · subst hgk
                  have e1 : sensAt E.consts g.1 = cc := by unfold sensAt; rw [hcc]; rfl
                  have e2 : sensAt [g] g.1 = g.2 := by unfold sensAt; rw [get?_cons]; simp
                  rw [if_pos rfl, e1, e2, get?_del_ne w2 hk]
                  rfl
                · have e2 : sensAt [g] k = 0 := by unfold sensAt; rw [get?_cons]; simp [hgk]
                  rw [if_neg hgk, e2]
                  unfold sensAt
                  rw [get?_del_ne w2 hk]
                  ring
        refine ⟨?_, ?_⟩
        · intro w hw
          rcases List.mem_cons.1 hw with rfl | hw
          · rw [f8 w hg hnd.1]; exact hstepc.1
          · exact q1 w hw
        · intro k hk
          have hkv : k ≠ v := fun h2 => hg (by rw [← h2]; exact hk)
          rw [q2 k hk, hstepc.2 k hkv, List.map_cons, List.sum_cons]
          ring
      · intro k hk hkv
        rw [List.mem_cons, not_or] at hkv
        rw [f8 k hk hkv.2, g3 k hk hkv.1]

theorem linkedKeys_nodup {E : Env V ℝ} {gpv : PyDict V ℝ} (h : WF gpv) : (linkedKeys E gpv).Nodup := by
  unfold linkedKeys
  refine List.Nodup.filter _ ?_
  have hp : (gpv.map (·.1)).Pairwise (fun a b => (a == b) = false) := List.pairwise_map.2 h
  refine hp.imp ?_
  intro a b hab h2
  rw [h2] at hab; simp at hab

theorem mem_linkedKeys {E : Env V ℝ} {gpv : PyDict V ℝ} {v : V} : v ∈ linkedKeys E gpv ↔ gpv.get? v ≠ none ∧ E.grads v ≠ [] := by
  unfold linkedKeys
  rw [List.mem_filter]
  have : v ∈ gpv.keys ↔ gpv.get? v ≠ none := by
    rw [ne_eq, get?_eq_none_iff]
    simp [PyDict.keys]
  rw [this]
  simp

/-- C41. The sensitivities reported for variables: those that are not linked get their own plus the chain rule's share of the linked ones, which are dropped. Holds if
linked values do not depend on other linked ones, and if at most the last constant that a linked variable of the cost depends on occurs in the cost itself. -/
theorem C41_variables_partial {E : Env V ℝ} {gpv cost : PyDict V ℝ} (w1 : WF gpv) (w2 : WF cost) (hl : ∀ v ∈ linkedKeys E gpv, LinkOK E v)
    (hlast : ∀ v ∈ linkedKeys E gpv, ∀ g ∈ (E.grads v).dropLast, cost.get? v = none ∨ E.inCost g.1 = false) :
    ∃ out cost', carry E gpv cost = .ok (out, cost') ∧ (∀ v, E.grads v ≠ [] → out.get? v = none) ∧
      ∀ c, E.grads c = [] → sensAt out c = chainSens E (linkedKeys E gpv) gpv c := by
  obtain ⟨s', h1, _, _, h4, h5, h6, _, _⟩ := outer_ok (E := E) gpv cost (linkedKeys E gpv) ⟨gpv, cost, 0⟩ (linkedKeys_nodup w1) w1 w2 (by
    intro v hv
    have := mem_linkedKeys.1 hv
    exact ⟨this.2, hl v hv, rfl, this.1, rfl, hlast v hv⟩)
  refine ⟨s'.gpv, s'.cost, ?_, ?_, h6⟩
  · unfold carry; rw [h1]; rfl
  · intro v hv
    by_cases hm : v ∈ linkedKeys E gpv
    · exact h4 v hm
    · rw [h5 v hv hm]
      by_contra h
      exact hm (mem_linkedKeys.2 ⟨h, hv⟩)

/-- C41. The same for the sensitivities of the cost, if each linked variable of the cost depends on one constant, which occurs in the cost itself. -/
theorem C41_cost_partial {E : Env V ℝ} {gpv cost : PyDict V ℝ} (w1 : WF gpv) (w2 : WF cost) (hl : ∀ v ∈ linkedKeys E gpv, LinkOK E v)
    (hone : ∀ v ∈ linkedKeys E gpv, cost.get? v = none ∨ ∃ g, E.grads v = [g] ∧ E.inCost g.1 = true) :
    ∃ out cost', carry E gpv cost = .ok (out, cost') ∧ (∀ v ∈ linkedKeys E gpv, cost'.get? v = none) ∧
      ∀ c, E.grads c = [] → sensAt cost' c = chainSens E (linkedKeys E gpv) cost c := by
  obtain ⟨s', h1, _, _, _, _, _, h7, _⟩ := outer_ok (E := E) gpv cost (linkedKeys E gpv) ⟨gpv, cost, 0⟩ (linkedKeys_nodup w1) w1 w2 (by
    intro v hv
    have := mem_linkedKeys.1 hv
    refine ⟨this.2, hl v hv, rfl, this.1, rfl, ?_⟩
    intro g hg
    rcases hone v hv with h | ⟨g', h, _⟩
    · exact Or.inl h
    · rw [h] at hg; simp at hg)
  refine ⟨s'.gpv, s'.cost, ?_, (h7 hone).1, (h7 hone).2⟩
  unfold carry; rw [h1]; rfl

/-- C41. What `C41_variables_partial` says is reported is the derivative of the logarithm of the cost with respect to the logarithm of the constant, when linked
values follow it: `J` is the logarithm of the cost as a function of the logarithms of all values, with the given sensitivities as its derivative. -/
theorem C41_derivative [Fintype V] {E : Env V ℝ} {gpv : PyDict V ℝ} (w1 : WF gpv) (x : V → ℝ) (hx : ∀ v, E.consts.get? v = some (x v) ∧ 0 < x v)
    (J : (V → ℝ) → ℝ) (L : (V → ℝ) →L[ℝ] ℝ) (hJ : HasFDerivAt J L (fun w => Real.log (x w))) (hL : ∀ v, L (Pi.single v 1) = sensAt gpv v)
    (f : V → (V → ℝ) → ℝ) (c : V) (hc : E.grads c = []) (hf : ∀ v, E.grads v ≠ [] → f v x = x v ∧
      HasDerivAt (fun t => f v (Function.update x c t)) (sensAt (E.grads v) c) (x c)) :
    HasDerivAt (fun s => J (fun w => if E.grads w = [] then Real.log (Function.update x c (Real.exp s) w)
      else Real.log (f w (Function.update x c (Real.exp s))))) (chainSens E (linkedKeys E gpv) gpv c) (Real.log (x c)) := by
  have hxc : Real.exp (Real.log (x c)) = x c := Real.exp_log (hx c).2
  have hupd : Function.update x c (x c) = x := Function.update_eq_self c x
  have hcon : ∀ v, sensAt E.consts v = x v := fun v => by unfold sensAt; rw [(hx v).1]; rfl
  let d : V → ℝ := fun w => if E.grads w = [] then (if w = c then 1 else 0) else sensAt (E.grads w) c * x c / x w
  have hin : HasDerivAt (fun s => (fun w => if E.grads w = [] then Real.log (Function.update x c (Real.exp s) w)
      else Real.log (f w (Function.update x c (Real.exp s))))) d (Real.log (x c)) := by
    rw [hasDerivAt_pi]
    intro w
    show HasDerivAt _ (if E.grads w = [] then (if w = c then 1 else 0) else sensAt (E.grads w) c * x c / x w) _
    by_cases hw : E.grads w = []
    · simp only [if_pos hw]
      by_cases hwc : w = c
      · subst hwc
        simp only [Function.update_self, Real.log_exp, if_true]
        exact hasDerivAt_id _
      · simp only [Function.update_of_ne hwc, if_neg hwc]
        exact hasDerivAt_const _ _
    · simp only [if_neg hw]
      obtain ⟨h1, h2⟩ := hf w hw
      have h3 : HasDerivAt (fun s => f w (Function.update x c (Real.exp s))) (sensAt (E.grads w) c * x c) (Real.log (x c)) := by
        have h4 := Real.hasDerivAt_exp (Real.log (x c))
        rw [← hxc] at h2
        have := HasDerivAt.comp (Real.log (x c)) h2 h4
        rw [hxc] at this
        exact this
      have h5 : f w (Function.update x c (Real.exp (Real.log (x c)))) = x w := by rw [hxc, hupd, h1]
      have := h3.log (by rw [h5]; exact (hx w).2.ne')
      rw [h5] at this
      exact this
  have hpt : (fun w => if E.grads w = [] then Real.log (Function.update x c (Real.exp (Real.log (x c))) w)
      else Real.log (f w (Function.update x c (Real.exp (Real.log (x c)))))) = fun w => Real.log (x w) := by
    funext w
    rw [hxc, hupd]
    split_ifs with h
    · rfl
    · rw [(hf w h).1]
  rw [← hpt] at hJ
  have hcomp := HasFDerivAt.comp_hasDerivAt (Real.log (x c)) hJ hin
  have hval : L d = chainSens E (linkedKeys E gpv) gpv c := by
    have h1 : d = ∑ w, d w • (Pi.single w (1:ℝ) : V → ℝ) := by
      funext u
      simp [Finset.sum_apply, Pi.single_apply]
    have h2 : L d = ∑ w, d w * sensAt gpv w := by
      conv_lhs => rw [h1]
      rw [map_sum]
      refine Finset.sum_congr rfl ?_
      intro w _
      rw [map_smul, hL, smul_eq_mul]
    rw [h2]
    unfold chainSens
    have hnd := linkedKeys_nodup (E := E) w1
    rw [← List.sum_toFinset _ hnd]
    have h3 : ∀ w, d w * sensAt gpv w = (if w = c then sensAt gpv w else 0) +
        (if w ∈ (linkedKeys E gpv).toFinset then sensAt gpv w * (sensAt (E.grads w) c * sensAt E.consts c / sensAt E.consts w) else 0) := by
      intro w
      show (if E.grads w = [] then (if w = c then 1 else 0) else sensAt (E.grads w) c * x c / x w) * sensAt gpv w = _
      simp only [List.mem_toFinset, hcon]
      by_cases hw : E.grads w = []
      · have : w ∉ linkedKeys E gpv := fun h => (mem_linkedKeys.1 h).2 hw
        rw [if_pos hw, if_neg this]
        split_ifs <;> ring
      · have hwc : w ≠ c := fun h => hw (by rw [h]; exact hc)
        rw [if_neg hw, if_neg hwc]
        by_cases hm : w ∈ linkedKeys E gpv
        · rw [if_pos hm]; ring
        · rw [if_neg hm]
          have : gpv.get? w = none := by
            by_contra h
            exact hm (mem_linkedKeys.2 ⟨h, hw⟩)
          have h0 : sensAt gpv w = 0 := by unfold sensAt; rw [this]; rfl
          rw [h0]; ring
    rw [Finset.sum_congr rfl (fun w _ => h3 w), Finset.sum_add_distrib]
    congr 1
    · simp
    · rw [Finset.sum_ite_mem, Finset.univ_inter]
  rw [← hval]
  exact hcomp

theorem sensAt_addSens {d e : PyDict V ℝ} (he : WF e) (v : V) : sensAt (addSens d e) v = sensAt d v + sensAt e v := by
  unfold addSens
  induction e generalizing d with
  | nil => simp [sensAt]
  | cons p e ih =>
    obtain ⟨k, x⟩ := p
    obtain ⟨w1, w2⟩ := wf_cons.1 he
    rw [List.foldl_cons, ih w2, sensAt_set]
    have hc : sensAt ((k, x) :: e) v = if k = v then x else sensAt e v := by
      unfold sensAt; rw [get?_cons]; by_cases hk : k = v <;> simp [hk]
    rw [hc]
    by_cases hk : k = v
    · subst hk
      have : PyDict.get? e k = none := get?_eq_none_iff.2 (fun q hq => by rw [BEq.comm]; exact w1 q hq)
      rw [if_pos rfl, if_pos rfl]
      unfold sensAt
      rw [this]
      simp [add_comm]
    · rw [if_neg hk, if_neg hk]

/-- C41. Before linked variables are looked at, a variable's sensitivity is the sum over the cost and all constraints. -/
theorem C41_gather {cost : PyDict V ℝ} {l : List (PyDict V ℝ)} (hl : ∀ e ∈ l, WF e) (v : V) :
    sensAt (gather cost l) v = sensAt cost v + (l.map (fun e => sensAt e v)).sum := by
  unfold gather
  induction l generalizing cost with
  | nil => simp
  | cons e l ih =>
    rw [List.foldl_cons, ih (fun e' he => hl e' (List.mem_cons_of_mem _ he)), sensAt_addSens (hl e List.mem_cons_self), List.map_cons, List.sum_cons]
    ring

theorem evaluateLinked_fresh : ∀ (linked : List (V × Called V ℝ)) (t1 t2 : PyDict V (PyDict V ℝ)) (c : PyDict V ℝ), WF t1 → WF t2 →
    (∀ v, v ∉ linked.map (·.1) → t1.get? v = t2.get? v) →
    (∀ v, (evaluateLinked linked (t1, c)).1.get? v = (evaluateLinked linked (t2, c)).1.get? v) ∧
      (evaluateLinked linked (t1, c)).2 = (evaluateLinked linked (t2, c)).2 := by
  intro linked
  induction linked with
  | nil => exact fun t1 t2 c _ _ h => ⟨fun v => h v (by simp), rfl⟩
  | cons p linked ih =>
    intro t1 t2 c w1 w2 h
    have hstep : ∀ t : PyDict V (PyDict V ℝ), evaluateLinked (p :: linked) (t, c) =
        evaluateLinked linked (match p.2.grads with | some g => t.set p.1 g | none => t.del p.1, c.set p.1 p.2.value) := by
      intro t
      obtain ⟨k, val, g⟩ := p
      cases g <;> rfl
    rw [hstep, hstep]
    have hv : ∀ v, v ≠ p.1 → v ∉ linked.map (·.1) → t1.get? v = t2.get? v := by
      intro v h1 h2
      exact h v (by simp only [List.map_cons, List.mem_cons, not_or]; exact ⟨h1, h2⟩)
    cases hg : p.2.grads with
    | some g =>
      refine ih _ _ _ (wf_set w1 _ _) (wf_set w2 _ _) ?_
      intro v hvl
      rw [get?_set, get?_set]
      by_cases hk : p.1 = v
      · simp [hk]
      · simp only [beq_iff_eq, hk, if_false]; exact hv v (Ne.symm hk) hvl
    | none =>
      refine ih _ _ _ (wf_del w1 _) (wf_del w2 _) ?_
      intro v hvl
      rw [get?_del w1, get?_del w2]
      by_cases hk : p.1 = v
      · simp [hk]
      · simp only [beq_iff_eq, hk, if_false]; exact hv v (Ne.symm hk) hvl

/-- C41. Gradients from earlier solves play no role if all keys that have some are linked now. Missing: keys that were linked earlier and now are not
(`C41_stale_fails`, `C41_freed_fails`). -/
theorem C41_fresh_partial {tbl : PyDict V (PyDict V ℝ)} (hw : WF tbl) (p : Solve V ℝ) (h : ∀ v, tbl.get? v ≠ none → v ∈ p.linked.map (·.1)) :
    (solve tbl p).2 = (solve [] p).2 := by
  obtain ⟨h1, h2⟩ := evaluateLinked_fresh p.linked tbl [] p.consts hw wf_nil (by
    intro v hv
    by_contra hne
    exact hv (h v hne))
  unfold solve
  simp only
  rw [h2]
  congr 2
  funext v
  rw [h1]

end

/-- The hypotheses of `C41_fresh_partial` can be met, by a function that cannot be differentiated any more. -/
example : let tbl : PyDict ℕ (PyDict ℕ ℝ) := [(0, [(1, 6)])]
    WF tbl ∧ ∀ v, tbl.get? v ≠ none → v ∈ ([(0, ⟨9, none⟩)] : List (ℕ × Called ℕ ℝ)).map (·.1) := by
  refine ⟨by simp [WF], ?_⟩
  intro v hv
  by_contra h
  simp only [List.map_cons, List.map_nil, List.mem_singleton] at h
  exact hv (by simp [PyDict.get?, Ne.symm h])

/-- The hypotheses of `C41_variables_partial` and `C41_cost_partial` can be met: `v = c**2` (0 and 1) with `c = 3`, in the cost and in a constraint. -/
example : let E : Env ℕ ℝ := ⟨fun v => if v = 0 then [(1, 6)] else [], [(0, 9), (1, 3)], fun _ => true⟩
    linkedKeys E [(0, 5), (1, 1)] = [0] ∧ (∀ v ∈ linkedKeys E [(0, 5), (1, 1)], LinkOK E v) ∧
      (∀ v ∈ linkedKeys E [(0, 5), (1, 1)], PyDict.get? [(0, (2:ℝ)), (1, 1)] v = none ∨ ∃ g, E.grads v = [g] ∧ E.inCost g.1 = true) ∧
      chainSens E [0] [(0, 5), (1, 1)] 1 = 11 := by
  intro E
  have hk : linkedKeys E [(0, 5), (1, 1)] = [0] := by simp [E, linkedKeys, PyDict.keys]
  refine ⟨hk, ?_, ?_, ?_⟩
  · rw [hk]
    intro v hv
    simp only [List.mem_singleton] at hv
    subst hv
    refine ⟨by simp [E, WF], ⟨9, by simp [E, PyDict.get?]⟩, ?_⟩
    intro g hg
    simp only [E, if_true, List.mem_singleton] at hg
    subst hg
    exact ⟨⟨3, by simp [E, PyDict.get?]⟩, by simp [E]⟩
  · rw [hk]
    intro v hv
    simp only [List.mem_singleton] at hv
    subst hv
    exact Or.inr ⟨(1, 6), by simp [E], rfl⟩
  · norm_num [chainSens, sensAt, E, PyDict.get?]

/-- The hypotheses of `C41_derivative` can be met: `v = c**2`, `c = 3`, and the cost is `v**2`. -/
example : let E : Env (Fin 2) ℝ := ⟨fun v => if v = 0 then [(1, 6)] else [], [(0, 9), (1, 3)], fun _ => true⟩
    let x : Fin 2 → ℝ := fun v => if v = 0 then 9 else 3
    let L : (Fin 2 → ℝ) →L[ℝ] ℝ := (2 : ℝ) • ContinuousLinearMap.proj 0
    let f : Fin 2 → (Fin 2 → ℝ) → ℝ := fun _ y => y 1 ^ 2
    (∀ v, E.consts.get? v = some (x v) ∧ 0 < x v) ∧ HasFDerivAt (fun y => L y) L (fun w => Real.log (x w)) ∧
      (∀ v, L (Pi.single v 1) = sensAt [(0, 2)] v) ∧
      ∀ v, E.grads v ≠ [] → f v x = x v ∧ HasDerivAt (fun t => f v (Function.update x 1 t)) (sensAt (E.grads v) 1) (x 1) := by
  intro E x L f
  refine ⟨?_, L.hasFDerivAt, ?_, ?_⟩
  · intro v
    fin_cases v <;> norm_num [E, x, PyDict.get?]
  · intro v
    fin_cases v <;> norm_num [L, sensAt, PyDict.get?]
  · intro v hv
    fin_cases v
    · refine ⟨by norm_num [f, x], ?_⟩
      have := hasDerivAt_pow 2 (x 1)
      refine (this.congr_deriv ?_).congr_of_eventuallyEq ?_
      · norm_num [x, E, sensAt, PyDict.get?]
      · exact Filter.Eventually.of_forall (fun t => by simp [f])
    · exact absurd rfl hv

/-! ## Findings -/

/-- C41 is violated: `v = a*b` is linked, and `a`, `b` and `v` are in the cost and `v` is in a constraint as well. After `a` was looked at, the sensitivity of `v` in the
cost alone is used for `b`. Values 1; sensitivities: 1 for `v` in the cost, 2 more in a constraint. -/
theorem C41_overwritten_fails :
    let E : Env ℕ ℚ := ⟨fun v => if v = 0 then [(1, 1), (2, 1)] else [], [(0, 1), (1, 1), (2, 1)], fun _ => true⟩
    ∃ out cost', carry E [(0, 3), (1, 0), (2, 0)] [(0, 1), (1, 0), (2, 0)] = .ok (out, cost') ∧ out.get? 1 = some 3 ∧ out.get? 2 = some 1 ∧
      cost'.get? 1 = some 1 ∧ cost'.get? 2 = some 0 := by
  refine ⟨[(1, 3), (2, 1)], [(1, 1), (2, 0)], ?_⟩
  decide +kernel

/-- C41 is violated: a linked variable of the cost stays in the sensitivities of the cost, and the constant it depends on gets nothing, when that constant is not itself
in the cost. -/
theorem C41_cost_fails :
    let E : Env ℕ ℚ := ⟨fun v => if v = 0 then [(1, 1)] else [], [(0, 1), (1, 1)], fun v => v = 0⟩
    ∃ out cost', carry E [(0, 1)] [(0, 1)] = .ok (out, cost') ∧ out.get? 1 = some 1 ∧ cost'.get? 0 = some 1 ∧ cost'.get? 1 = none := by
  refine ⟨[(1, 1)], [(0, 1)], ?_⟩
  decide +kernel

/-- C41 is violated: `v` depends on `w`, which depends on `c`. What `w` passes on to `c` does not include what `v` passes on to `w`, and `w` is still reported. -/
theorem C41_nested_fails :
    let E : Env ℕ ℚ := ⟨fun v => if v = 1 then [(2, 1)] else if v = 0 then [(1, 1)] else [], [(0, 1), (1, 1), (2, 1)], fun _ => false⟩
    ∃ out cost', carry E [(1, 1), (0, 5)] [] = .ok (out, cost') ∧ out.get? 2 = some 1 ∧ out.get? 1 = some 5 := by
  refine ⟨[(2, 1), (1, 5)], [], ?_⟩
  decide +kernel

/-- C41 is violated: gradients stay in the keys. A first solve links `v` (0) to `c` (1); a second has a number for `v`, yet the sensitivity of `v` is reported as one of `c`. -/
theorem C41_stale_fails :
    let p1 : Solve ℕ ℚ := ⟨[(1, 1)], [(0, ⟨1, some [(1, 1)]⟩)], [(0, 1)], [], fun v => v = 0⟩
    let p2 : Solve ℕ ℚ := ⟨[(0, 7), (1, 1)], [], [(0, 1)], [], fun v => v = 0⟩
    (∃ out, (Sens.solve [] p2).2 = .ok out ∧ out.1.get? 0 = some 1 ∧ out.1.get? 1 = none) ∧
    ∃ out, (Sens.solve (Sens.solve [] p1).1 p2).2 = .ok out ∧ out.1.get? 0 = none ∧ out.1.get? 1 = some (1 / 7) := by
  refine ⟨⟨([(0, 1)], [(0, 1)]), ?_⟩, ⟨([(1, 1 / 7)], [(0, 1)]), ?_⟩⟩ <;> decide +kernel

/-- C41 is violated: once linked, a variable that is then left free makes the result raise KeyError. -/
theorem C41_freed_fails :
    let p1 : Solve ℕ ℚ := ⟨[(1, 1)], [(0, ⟨1, some [(1, 1)]⟩)], [(0, 1)], [], fun v => v = 0⟩
    let p2 : Solve ℕ ℚ := ⟨[(1, 1)], [], [(0, 1)], [[(0, -1)]], fun v => v = 0⟩
    (∃ out, (Sens.solve [] p2).2 = .ok out) ∧ (Sens.solve (Sens.solve [] p1).1 p2).2 = .error .keyError := by
  refine ⟨⟨([(0, 0)], [(0, 1)]), ?_⟩, ?_⟩ <;> decide +kernel

end Verif
