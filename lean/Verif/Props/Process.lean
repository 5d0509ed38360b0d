import Verif.Lemmas.Process
import Verif.Props.Warnings
import Verif.Props.RelaxConst

/-!
# C81: processing results
-/

set_option linter.unusedSectionVars false

namespace Verif
open PyDict Proc

section
variable {ι V K D : Type} [DecidableEq ι] [DecidableEq V] [Field K] [LinearOrder K] [FloorRing K] [HasPow K]
variable [AddCommGroup D] [DecidableEq D]

/-! ### Which sets -/

/-- C81 (all sets). Solving processes the result with every set of constraints in the model, however deep, once for each time it occurs, those inside
before those around them: first the computed variables of a set, then what its class does. -/
theorem C81_sets_partial {t : Tree ι V K D} (h : t.Shallow) (r : Proc.Res ι V K) :
    proc t r = t.sets.foldlM (fun r s => (compute s.2 r).bind (ownStep s.1)) r := proc_sets t h r

/-! ### Values -/

/-- What was solved for is as the solver gave it. -/
def Kept (r0 s : Proc.Res ι V K) : Prop :=
  ∀ v, r0.base.vars.contains v = true → s.base.vars.get? v = r0.base.vars.get? v ∧ s.free.get? v = r0.free.get? v

theorem Kept.contains {r0 s : Proc.Res ι V K} (h : Kept r0 s) {v : V} (hv : r0.base.vars.contains v = true) : s.base.vars.contains v = true := by
  obtain ⟨x, hx⟩ := contains_iff.1 hv
  rw [contains_iff]
  exact ⟨x, by rw [(h v hv).1, hx]⟩

theorem due_missing {d : PyDict V K} {c : Comp V K} (h : due d c = true) : ∃ v ∈ c.elems, d.contains v = false := by
  unfold due at h
  obtain ⟨v, h1, h2⟩ := List.any_eq_true.1 h
  exact ⟨v, h1, by simpa using h2⟩

theorem not_due {d : PyDict V K} {c : Comp V K} (h : due d c = false) : ∀ v ∈ c.elems, d.contains v = true := by
  unfold due at h
  intro v hv
  have := List.any_eq_false.1 h v hv
  simpa using this

theorem steps_kept {r0 : Proc.Res ι V K} {l : List (Comp V K)} {s s' : Proc.Res ι V K} (hk : Kept r0 s)
    (hl : ∀ c ∈ l, ∀ v ∈ c.elems, r0.base.vars.contains v = false) (h : l.foldlM computeStep s = .ok s') : Kept r0 s' := by
  induction l generalizing s with
  | nil => cases h; exact hk
  | cons c l ih =>
    rw [List.foldlM_cons] at h
    obtain ⟨s1, h1, h⟩ := except_bind_ok h
    obtain ⟨val, _, _, rfl⟩ := computeStep_ok h1
    refine ih ?_ (fun d hd => hl d (List.mem_cons_of_mem _ hd)) h
    intro v hv
    have hn : v ∉ c.elems := fun h2 => by rw [hl c List.mem_cons_self v h2] at hv; cases hv
    obtain ⟨e1, e2⟩ := hk v hv
    exact ⟨(setAll_other hn).trans e1, (setAll_other hn).trans e2⟩

theorem compute_kept {r0 : Proc.Res ι V K} {cs : List (Comp V K)} {s s' : Proc.Res ι V K} (hk : Kept r0 s)
    (hl : ∀ c ∈ cs, c.Apart r0.base.vars) (h : compute cs s = .ok s') : Kept r0 s' := by
  refine steps_kept hk ?_ h
  intro c hc v hv
  obtain ⟨hc1, hc2⟩ := List.mem_filter.1 hc
  rcases hl c hc1 with h1 | h1
  · obtain ⟨w, hw1, hw2⟩ := due_missing hc2
    rw [hk.contains (h1 w hw1)] at hw2
    cases hw2
  · exact h1 v hv

/-- C81 (solved values). Processing leaves the values that were solved for or given, and the sensitivities of constraints, as they are. -/
theorem C81_values_partial {t : Tree ι V K D} (hs : t.Shallow) {r r' : Proc.Res ι V K} (h : proc t r = .ok r')
    (ha : ∀ s ∈ t.sets, ∀ c ∈ s.2, c.Apart r.base.vars) :
    (∀ v, r.base.vars.contains v = true → r'.base.vars.get? v = r.base.vars.get? v ∧ r'.free.get? v = r.free.get? v) ∧
      r'.base.sens = r.base.sens := by
  rw [proc_sets t hs] at h
  revert h ha
  generalize t.sets = l
  intro h ha
  suffices ∀ s : Proc.Res ι V K, l.foldlM visit s = .ok r' → Kept r s → s.base.sens = r.base.sens → Kept r r' ∧ r'.base.sens = r.base.sens from
    this r h (fun _ _ => ⟨rfl, rfl⟩) rfl
  clear h
  induction l with
  | nil => intro s h hk he; cases h; exact ⟨hk, he⟩
  | cons p l ih =>
    intro s h hk he
    rw [List.foldlM_cons] at h
    obtain ⟨s1, h1, h⟩ := except_bind_ok h
    obtain ⟨s2, h2, h3⟩ := except_bind_ok h1
    obtain ⟨e, _, _⟩ := ownStep_ok h3
    have hk2 := compute_kept hk (ha p List.mem_cons_self) h2
    refine ih (fun q hq => ha q (List.mem_cons_of_mem _ hq)) s1 h ?_ (e.sens.trans ((compute_rest h2).2.2.1.trans he))
    intro v hv
    rw [e.vars, e.free]
    exact hk2 v hv

/-! ### Computed values -/

theorem Right.congr {c : Comp V K} {reads : List V} (hr : c.Reads reads) {d d' f f' : PyDict V K} (h : c.Right d f)
    (h1 : ∀ v ∈ reads, d'.get? v = d.get? v) (h2 : ∀ v ∈ c.elems, d'.get? v = d.get? v ∧ f'.get? v = f.get? v) : c.Right d' f' := by
  obtain ⟨val, e1, e2, e3⟩ := h
  refine ⟨val, by rw [hr.only d' d h1]; exact e1, e2, ?_⟩
  intro i v x hv hx
  obtain ⟨e4, e5⟩ := h2 v (List.mem_of_getElem? hv)
  rw [e4, e5]
  exact e3 i v x hv hx

/-- The loop over `evalfn_vars` when what is read is not written. -/
theorem steps_right {S : V → Prop} {reads : Comp V K → List V} {l : List (Comp V K)} {s : Proc.Res ι V K}
    (hr : ∀ c ∈ l, c.Reads (reads c)) (hn : ∀ c ∈ l, c.elems.Nodup) (hS : ∀ v, S v → s.base.vars.contains v = true)
    (hreads : ∀ c ∈ l, ∀ v ∈ reads c, S v) (hw : ∀ c ∈ l, ∀ v ∈ c.elems, ¬ S v)
    (hd : l.Pairwise (fun a b => ∀ v ∈ a.elems, v ∉ b.elems)) :
    ∃ s', l.foldlM computeStep s = .ok s' ∧
      (∀ v, (∀ c ∈ l, v ∉ c.elems) → s'.base.vars.get? v = s.base.vars.get? v ∧ s'.free.get? v = s.free.get? v) ∧
      ∀ c ∈ l, c.Right s'.base.vars s'.free ∧ ∀ v ∈ c.elems, s'.base.vars.contains v = true := by
  induction l generalizing s with
  | nil => exact ⟨s, rfl, fun _ _ => ⟨rfl, rfl⟩, fun c hc => by cases hc⟩
  | cons c l ih =>
    obtain ⟨hd1, hd2⟩ := List.pairwise_cons.1 hd
    obtain ⟨val, h1, h2⟩ := (hr c List.mem_cons_self).total s.base.vars (fun v hv => hS v (hreads c List.mem_cons_self v hv))
    have hstep : computeStep s c = .ok ({ s with base := { s.base with vars := setAll s.base.vars c.elems val }, free := setAll s.free c.elems val }) := by
      unfold computeStep
      rw [h1]
      show (if _ then _ else _) = _
      rw [if_pos h2]
      rfl
    obtain ⟨s', e1, e2, e3⟩ := ih (s := { s with base := { s.base with vars := setAll s.base.vars c.elems val }, free := setAll s.free c.elems val })
      (fun d hd => hr d (List.mem_cons_of_mem _ hd)) (fun d hd => hn d (List.mem_cons_of_mem _ hd))
      (fun v hv => setAll_contains h2 (.inr (hS v hv))) (fun d hd => hreads d (List.mem_cons_of_mem _ hd))
      (fun d hd => hw d (List.mem_cons_of_mem _ hd)) hd2
    refine ⟨s', ?_, ?_, ?_⟩
    · rw [List.foldlM_cons, hstep]; exact e1
    · intro v hv
      obtain ⟨e4, e5⟩ := e2 v (fun d hd => hv d (List.mem_cons_of_mem _ hd))
      have hvc := hv c List.mem_cons_self
      exact ⟨e4.trans (setAll_other hvc), e5.trans (setAll_other hvc)⟩
    · intro d hd
      rcases List.mem_cons.1 hd with rfl | hd
      · have hel : ∀ v ∈ d.elems, s'.base.vars.get? v = (setAll s.base.vars d.elems val).get? v ∧ s'.free.get? v = (setAll s.free d.elems val).get? v :=
          fun v hv => e2 v (fun d' hd' => hd1 d' hd' v hv)
        have hnow : d.Right (setAll s.base.vars d.elems val) (setAll s.free d.elems val) := by
          refine ⟨val, ?_, h2, fun i v x hv hx => ⟨setAll_at (hn d List.mem_cons_self) hv hx, setAll_at (hn d List.mem_cons_self) hv hx⟩⟩
          rw [(hr d List.mem_cons_self).only _ s.base.vars]
          · exact h1
          · intro v hv
            exact setAll_other (fun h3 => hw d List.mem_cons_self v h3 (hreads d List.mem_cons_self v hv))
        refine ⟨Right.congr (hr d List.mem_cons_self) hnow ?_ hel, ?_⟩
        · intro v hv
          refine (e2 v ?_).1
          intro d' hd' h3
          exact hw d' (List.mem_cons_of_mem _ hd') v h3 (hreads d List.mem_cons_self v hv)
        · intro v hv
          have := setAll_contains (d := s.base.vars) h2 (.inl hv)
          rw [contains_iff] at this ⊢
          rw [(hel v hv).1]
          exact this
      · exact e3 d hd

/-- What computed variables have to be like. -/
structure Orderly (solved : PyDict V K) (reads : Comp V K → List V) (l : List (List (Comp V K))) : Prop where
  /-- each depends on what it reads only -/
  only : ∀ cs ∈ l, ∀ c ∈ cs, c.Reads (reads c)
  /-- the elements of a vector are different variables; a vector is solved for as a whole or not at all -/
  elems : ∀ cs ∈ l, ∀ c ∈ cs, c.elems.Nodup ∧ c.elems ≠ [] ∧ c.Apart solved
  /-- no variable is computed in two ways -/
  apart : ∀ cs ∈ l, ∀ c ∈ cs, ∀ cs' ∈ l, ∀ c' ∈ cs', ∀ v ∈ c.elems, v ∈ c'.elems → c = c'
  /-- the computed variables of a set are a set -/
  nodup : ∀ cs ∈ l, cs.Nodup
  /-- what is read was solved for or computed by a set before -/
  layers : Layered solved reads [] l

/-- The state while sets are processed. -/
structure Sofar (r0 s : Proc.Res ι V K) (done : List (Comp V K)) : Prop where
  kept : Kept r0 s
  known : ∀ v ∈ done.flatMap (·.elems), s.base.vars.contains v = true
  right : ∀ c ∈ done, (∀ v ∈ c.elems, r0.base.vars.contains v = true) ∨ c.Right s.base.vars s.free
  from_ : ∀ v, s.base.vars.contains v = true → r0.base.vars.contains v = true ∨ ∃ c ∈ done, v ∈ c.elems

theorem compute_sofar {r0 : Proc.Res ι V K} {reads : Comp V K → List V} {done cs : List (Comp V K)} {s : Proc.Res ι V K} (hs : Sofar r0 s done)
    (hr : ∀ c ∈ done ++ cs, c.Reads (reads c)) (he : ∀ c ∈ cs, c.elems.Nodup ∧ c.elems ≠ [] ∧ c.Apart r0.base.vars)
    (ha : ∀ c ∈ done ++ cs, ∀ c' ∈ done ++ cs, ∀ v ∈ c.elems, v ∈ c'.elems → c = c') (hn : cs.Nodup)
    (hl0 : ∀ c ∈ done, ∀ v ∈ reads c, r0.base.vars.contains v = true ∨ v ∈ done.flatMap (·.elems))
    (hl : ∀ c ∈ cs, ∀ v ∈ reads c, r0.base.vars.contains v = true ∨ v ∈ done.flatMap (·.elems)) :
    ∃ s', compute cs s = .ok s' ∧ Sofar r0 s' (done ++ cs) := by
  set S : V → Prop := fun v => r0.base.vars.contains v = true ∨ v ∈ done.flatMap (·.elems) with hS
  have hSc : ∀ v, S v → s.base.vars.contains v = true := fun v hv => hv.elim hs.kept.contains (hs.known v)
  have hw : ∀ c ∈ cs.filter (due s.base.vars), ∀ v ∈ c.elems, ¬ S v := by
    intro c hc v hv hSv
    obtain ⟨hc1, hc2⟩ := List.mem_filter.1 hc
    obtain ⟨w, hw1, hw2⟩ := due_missing hc2
    rcases hSv with h1 | h1
    · rcases (he c hc1).2.2 with h2 | h2
      · rw [hs.kept.contains (h2 w hw1)] at hw2; cases hw2
      · rw [h2 v hv] at h1; cases h1
    · obtain ⟨c', hc', hv'⟩ := List.mem_flatMap.1 h1
      have : c = c' := ha c (List.mem_append_right _ hc1) c' (List.mem_append_left _ hc') v hv hv'
      subst this
      rw [hs.known w (List.mem_flatMap.2 ⟨c, hc', hw1⟩)] at hw2
      cases hw2
  have hpw : (cs.filter (due s.base.vars)).Pairwise (fun a b => ∀ v ∈ a.elems, v ∉ b.elems) := by
    have h1 : (cs.filter (due s.base.vars)).Pairwise (fun a b => a ≠ b) := hn.filter _
    refine h1.imp_of_mem ?_
    intro a b ha' hb' hab v hva hvb
    exact hab (ha a (List.mem_append_right _ (List.mem_filter.1 ha').1) b (List.mem_append_right _ (List.mem_filter.1 hb').1) v hva hvb)
  obtain ⟨s', e1, e2, e3⟩ := steps_right (S := S) (reads := reads) (l := cs.filter (due s.base.vars)) (s := s)
    (fun c hc => hr c (List.mem_append_right _ (List.mem_filter.1 hc).1)) (fun c hc => (he c (List.mem_filter.1 hc).1).1) hSc
    (fun c hc => hl c (List.mem_filter.1 hc).1) hw hpw
  have hSame : ∀ v, S v → s'.base.vars.get? v = s.base.vars.get? v ∧ s'.free.get? v = s.free.get? v :=
    fun v hv => e2 v (fun c hc h => hw c hc v h hv)
  have hcont : ∀ v, s.base.vars.contains v = true → s'.base.vars.contains v = true := by
    intro v hv
    by_cases h : ∀ c ∈ cs.filter (due s.base.vars), v ∉ c.elems
    · rw [contains_iff] at hv ⊢
      rw [(e2 v h).1]; exact hv
    · push Not at h
      obtain ⟨c, hc, h⟩ := h
      exact (e3 c hc).2 v h
  refine ⟨s', e1, ?_, ?_, ?_, ?_⟩
  · intro v hv
    obtain ⟨a, b⟩ := hSame v (.inl hv)
    obtain ⟨a', b'⟩ := hs.kept v hv
    exact ⟨a.trans a', b.trans b'⟩
  · intro v hv
    obtain ⟨c, hc, hv⟩ := List.mem_flatMap.1 hv
    rcases List.mem_append.1 hc with hc | hc
    · exact hcont v (hs.known v (List.mem_flatMap.2 ⟨c, hc, hv⟩))
    · by_cases hdue : due s.base.vars c = true
      · exact (e3 c (List.mem_filter.2 ⟨hc, hdue⟩)).2 v hv
      · exact hcont v (not_due (by simpa using hdue) v hv)
  · have hold : ∀ c ∈ done, (∀ v ∈ c.elems, r0.base.vars.contains v = true) ∨ c.Right s'.base.vars s'.free := by
      intro c hc
      rcases hs.right c hc with h | h
      · exact .inl h
      · right
        refine Right.congr (hr c (List.mem_append_left _ hc)) h (fun v hv => (hSame v (hl0 c hc v hv)).1) ?_
        exact fun v hv => hSame v (.inr (List.mem_flatMap.2 ⟨c, hc, hv⟩))
    intro c hc
    rcases List.mem_append.1 hc with hc | hc
    · exact hold c hc
    · by_cases hdue : due s.base.vars c = true
      · exact .inr (e3 c (List.mem_filter.2 ⟨hc, hdue⟩)).1
      · have hall := not_due (d := s.base.vars) (c := c) (by simpa using hdue)
        rcases (he c hc).2.2 with h | h
        · exact .inl h
        · obtain ⟨v, hv⟩ := List.exists_mem_of_ne_nil _ (he c hc).2.1
          rcases hs.from_ v (hall v hv) with h2 | ⟨c', hc', hv'⟩
          · rw [h v hv] at h2; cases h2
          · have : c = c' := ha c (List.mem_append_right _ hc) c' (List.mem_append_left _ hc') v hv hv'
            subst this
            exact hold c hc'
  · intro v hv
    by_cases h : ∀ c ∈ cs.filter (due s.base.vars), v ∉ c.elems
    · have : s.base.vars.contains v = true := by
        rw [contains_iff] at hv ⊢
        rw [← (e2 v h).1]; exact hv
      rcases hs.from_ v this with h2 | ⟨c, hc, h2⟩
      · exact .inl h2
      · exact .inr ⟨c, List.mem_append_left _ hc, h2⟩
    · push Not at h
      obtain ⟨c, hc, h⟩ := h
      exact .inr ⟨c, List.mem_append_right _ (List.mem_filter.1 hc).1, h⟩

theorem Sofar.own {r0 s s' : Proc.Res ι V K} {done : List (Comp V K)} (h : Sofar r0 s done) (e : SameVals s s') : Sofar r0 s' done := by
  refine ⟨?_, ?_, ?_, ?_⟩
  · intro v hv; rw [e.vars, e.free]; exact h.kept v hv
  · rw [e.vars]; exact h.known
  · rw [e.vars, e.free]; exact h.right
  · rw [e.vars]; exact h.from_

/-- Processing the sets one after the other. -/
theorem sets_sofar {r0 : Proc.Res ι V K} {reads : Comp V K → List V} (todo : List (Own ι V K D × List (Comp V K))) :
    ∀ (before : List (List (Comp V K))) (s : Proc.Res ι V K), Sofar r0 s before.flatten →
    (∀ cs ∈ before ++ todo.map (·.2), ∀ c ∈ cs, c.Reads (reads c)) →
    (∀ cs ∈ todo.map (·.2), ∀ c ∈ cs, c.elems.Nodup ∧ c.elems ≠ [] ∧ c.Apart r0.base.vars) →
    (∀ cs ∈ before ++ todo.map (·.2), ∀ c ∈ cs, ∀ cs' ∈ before ++ todo.map (·.2), ∀ c' ∈ cs', ∀ v ∈ c.elems, v ∈ c'.elems → c = c') →
    (∀ cs ∈ todo.map (·.2), cs.Nodup) →
    (∀ c ∈ before.flatten, ∀ v ∈ reads c, r0.base.vars.contains v = true ∨ v ∈ before.flatten.flatMap (·.elems)) →
    Layered r0.base.vars reads (before.flatten.flatMap (·.elems)) (todo.map (·.2)) →
    (∀ s', todo.foldlM visit s = .ok s' → Sofar r0 s' (before ++ todo.map (·.2)).flatten) ∧
      ((∀ p ∈ todo, p.1 = .plain) → ∃ s', todo.foldlM visit s = .ok s') := by
  induction todo with
  | nil =>
    intro before s hs _ _ _ _ _ _
    refine ⟨fun s' h => ?_, fun _ => ⟨s, rfl⟩⟩
    cases h
    rw [List.map_nil, List.append_nil]
    exact hs
  | cons p todo ih =>
    intro before s hs hr he ha hn hl0 hl
    rw [List.map_cons, Layered] at hl
    have hmem : ∀ c ∈ before.flatten ++ p.2, ∃ cs ∈ before ++ (p :: todo).map (·.2), c ∈ cs := by
      intro c hc
      rcases List.mem_append.1 hc with hc | hc
      · obtain ⟨cs, h1, h2⟩ := List.mem_flatten.1 hc
        exact ⟨cs, List.mem_append_left _ h1, h2⟩
      · exact ⟨p.2, List.mem_append_right _ (by simp), hc⟩
    obtain ⟨s1, h1, hs1⟩ := compute_sofar (reads := reads) hs (cs := p.2)
      (fun c hc => by obtain ⟨cs, h1, h2⟩ := hmem c hc; exact hr cs h1 c h2) (he p.2 (by simp))
      (fun c hc c' hc' => by
        obtain ⟨cs, h1, h2⟩ := hmem c hc
        obtain ⟨cs', h1', h2'⟩ := hmem c' hc'
        exact ha cs h1 c h2 cs' h1' c' h2')
      (hn p.2 (by simp)) hl0 hl.1
    have hfl : (before ++ [p.2]).flatten = before.flatten ++ p.2 := by simp
    have happ : before ++ [p.2] ++ todo.map (·.2) = before ++ (p :: todo).map (·.2) := by simp
    have step := fun s2 (e : SameVals s1 s2) => ih (before ++ [p.2]) s2 (by rw [hfl]; exact hs1.own e) (by rw [happ]; exact hr)
      (fun cs hcs => he cs (by simp only [List.map_cons]; exact List.mem_cons_of_mem _ hcs)) (by rw [happ]; exact ha)
      (fun cs hcs => hn cs (by simp only [List.map_cons]; exact List.mem_cons_of_mem _ hcs))
      (by
        rw [hfl]
        intro c hc v hv
        rcases List.mem_append.1 hc with hc | hc
        · rcases hl0 c hc v hv with h | h
          · exact .inl h
          · exact .inr (by rw [List.flatMap_append]; exact List.mem_append_left _ h)
        · rcases hl.1 c hc v hv with h | h
          · exact .inl h
          · exact .inr (by rw [List.flatMap_append]; exact List.mem_append_left _ h))
      (by rw [hfl, List.flatMap_append]; exact hl.2)
    refine ⟨?_, ?_⟩
    · intro s' h
      rw [List.foldlM_cons] at h
      obtain ⟨s2, h2, h⟩ := except_bind_ok h
      obtain ⟨s1', h1', h2⟩ := except_bind_ok h2
      rw [h1] at h1'
      cases h1'
      have := (step s2 (ownStep_ok h2).1).1 s' h
      rw [happ] at this
      exact this
    · intro hp
      obtain ⟨s', h'⟩ := (step s1 (.refl _)).2 (fun q hq => hp q (List.mem_cons_of_mem _ hq))
      refine ⟨s', ?_⟩
      rw [List.foldlM_cons]
      have : visit s p = .ok s1 := by
        unfold visit
        rw [h1, hp p List.mem_cons_self]
        rfl
      rw [this]
      exact h'

theorem sofar_start (r : Proc.Res ι V K) : Sofar r r ([] : List (List (Comp V K))).flatten :=
  ⟨fun _ _ => ⟨rfl, rfl⟩, fun v hv => (by cases hv), fun c hc => (by cases hc), fun v hv => .inl hv⟩

/-- C81 (computed values). If computed variables read only what was solved for and what sets inside (or before) computed, then in the final result each has
the value that its function gives for the values in that result, whatever the order in which Python goes through its sets; unless it was solved for. -/
theorem C81_computed_partial {t : Tree ι V K D} (hs : t.Shallow) {r r' : Proc.Res ι V K} (h : proc t r = .ok r') {reads : Comp V K → List V}
    (hp : Orderly r.base.vars reads (t.sets.map (·.2))) :
    ∀ s ∈ t.sets, ∀ c ∈ s.2, (∀ v ∈ c.elems, r.base.vars.contains v = true) ∨ c.Right r'.base.vars r'.free := by
  rw [proc_sets t hs] at h
  have := (sets_sofar (r0 := r) t.sets [] r (sofar_start r) hp.only hp.elems hp.apart hp.nodup (fun c hc => by cases hc) hp.layers).1 r' h
  intro s hs c hc
  exact this.right c (by rw [List.nil_append]; exact List.mem_flatten.2 ⟨s.2, List.mem_map_of_mem hs, hc⟩)

/-- C81 (computing succeeds). Under the same conditions computing raises nothing. -/
theorem C81_computes_partial {t : Tree ι V K D} (hs : t.Shallow) {r : Proc.Res ι V K} {reads : Comp V K → List V}
    (hp : Orderly r.base.vars reads (t.sets.map (·.2))) (hplain : ∀ s ∈ t.sets, s.1 = .plain) : ∃ r', proc t r = .ok r' := by
  rw [proc_sets t hs]
  exact (sets_sofar (r0 := r) t.sets [] r (sofar_start r) hp.only hp.elems hp.apart hp.nodup (fun c hc => by cases hc) hp.layers).2 hplain

/-! ### Sensitivities of relaxed constants -/

theorem transfer_ok {d d' : PyDict V K} {p : V × V} (h : transfer d p = .ok d') : ∃ s, d.get? p.1 = some s ∧ d' = (d.set p.2 s).del p.1 := by
  unfold transfer at h
  obtain ⟨s, h1, h⟩ := except_bind_ok h
  cases h
  refine ⟨s, ?_, rfl⟩
  unfold getItem at h1
  cases h2 : d.get? p.1 with
  | none => rw [h2] at h1; cases h1
  | some x => rw [h2] at h1; cases h1; rfl

theorem get?_transfer {d : PyDict V K} (hd : WF d) (n f q : V) (s : K) :
    ((d.set f s).del n).get? q = if n = q then none else if f = q then some s else d.get? q := by
  rw [get?_del (wf_set hd _ _), get?_set]
  simp

theorem transfers_ok {m : List (V × V)} {d d' : PyDict V K} (hd : WF d) (h : m.foldlM transfer d = .ok d') (hn : (m.map (·.1)).Nodup)
    (hf : (m.map (·.2)).Nodup) (hx : ∀ a ∈ m, ∀ b ∈ m, a.1 ≠ b.2) :
    (∀ p ∈ m, d'.get? p.2 = d.get? p.1 ∧ d'.get? p.1 = none ∧ d.contains p.1 = true) ∧
      ∀ v, (∀ p ∈ m, v ≠ p.1 ∧ v ≠ p.2) → d'.get? v = d.get? v := by
  induction m generalizing d with
  | nil => cases h; exact ⟨fun p hp => (by cases hp), fun _ _ => rfl⟩
  | cons p m ih =>
    rw [List.foldlM_cons] at h
    obtain ⟨d1, h1, h⟩ := except_bind_ok h
    obtain ⟨s, hs, rfl⟩ := transfer_ok h1
    rw [List.map_cons, List.nodup_cons] at hn hf
    have hd1 : WF ((d.set p.2 s).del p.1) := wf_del (wf_set hd _ _) _
    obtain ⟨e1, e2⟩ := ih hd1 h hn.2 hf.2 (fun a ha b hb => hx a (List.mem_cons_of_mem _ ha) b (List.mem_cons_of_mem _ hb))
    have hpp : p.1 ≠ p.2 := hx p List.mem_cons_self p List.mem_cons_self
    have hne : ∀ q ∈ m, p.1 ≠ q.1 ∧ p.1 ≠ q.2 ∧ p.2 ≠ q.1 ∧ p.2 ≠ q.2 := by
      intro q hq
      refine ⟨fun h3 => hn.1 (h3 ▸ List.mem_map_of_mem hq), hx p List.mem_cons_self q (List.mem_cons_of_mem _ hq), ?_,
        fun h3 => hf.1 (h3 ▸ List.mem_map_of_mem hq)⟩
      exact fun h3 => hx q (List.mem_cons_of_mem _ hq) p List.mem_cons_self h3.symm
    refine ⟨?_, ?_⟩
    · intro q hq
      rcases List.mem_cons.1 hq with rfl | hq
      · refine ⟨?_, ?_, ?_⟩
        · rw [e2 q.2 (fun a ha => ⟨(hne a ha).2.2.1, (hne a ha).2.2.2⟩), get?_transfer hd, if_neg hpp, if_pos rfl, hs]
        · rw [e2 q.1 (fun a ha => ⟨(hne a ha).1, (hne a ha).2.1⟩), get?_transfer hd, if_pos rfl]
        · rw [contains_iff]; exact ⟨s, hs⟩
      · obtain ⟨e3, e4, e5⟩ := e1 q hq
        obtain ⟨n1, n2, n3, n4⟩ := hne q hq
        refine ⟨?_, e4, ?_⟩
        · rw [e3, get?_transfer hd, if_neg n1, if_neg n3]
        · rw [contains_iff] at e5 ⊢
          rw [get?_transfer hd, if_neg n1, if_neg n3] at e5
          exact e5
    · intro v hv
      obtain ⟨v1, v2⟩ := hv p List.mem_cons_self
      rw [e2 v (fun a ha => hv a (List.mem_cons_of_mem _ ha)), get?_transfer hd, if_neg (Ne.symm v1), if_neg (Ne.symm v2)]

theorem sets_senss {l : List (Own ι V K D × List (Comp V K))} {r r' : Proc.Res ι V K} (h : l.foldlM visit r = .ok r') :
    (derelaxes l).flatten.foldlM transfer r.senss = .ok r'.senss := by
  induction l generalizing r with
  | nil => cases h; rfl
  | cons p l ih =>
    rw [List.foldlM_cons] at h
    obtain ⟨s1, h1, h⟩ := except_bind_ok h
    obtain ⟨s2, h2, h3⟩ := except_bind_ok h1
    have e := ih h
    obtain ⟨_, e1, _⟩ := ownStep_ok h3
    rw [(compute_rest h2).1] at e1
    obtain ⟨own, cs⟩ := p
    cases own with
    | constants m vars =>
      have : derelaxes ((Own.constants m vars, cs) :: l) = m :: derelaxes l := rfl
      rw [this, List.flatten_cons, List.foldlM_append]
      have e1' : m.foldlM transfer r.senss = .ok s1.senss := e1
      rw [e1']
      exact e
    | _ =>
      have e2 : r.senss = s1.senss := Except.ok.inj e1
      rw [← e2] at e
      exact e

/-- C81 (relaxed constants). After processing, the sensitivity of each relaxed constant is the one that the solver found for the constant that took its value,
which is gone; other sensitivities stay. -/
theorem C81_transfer_partial {t : Tree ι V K D} (hs : t.Shallow) {r r' : Proc.Res ι V K} (h : proc t r = .ok r') (hd : WF r.senss)
    (hn : ((derelaxes t.sets).flatten.map (·.1)).Nodup) (hf : ((derelaxes t.sets).flatten.map (·.2)).Nodup)
    (hx : ∀ a ∈ (derelaxes t.sets).flatten, ∀ b ∈ (derelaxes t.sets).flatten, a.1 ≠ b.2) :
    (∀ p ∈ (derelaxes t.sets).flatten, r'.senss.get? p.2 = r.senss.get? p.1 ∧ r'.senss.get? p.1 = none ∧ r.senss.contains p.1 = true) ∧
      ∀ v, (∀ p ∈ (derelaxes t.sets).flatten, v ≠ p.1 ∧ v ≠ p.2) → r'.senss.get? v = r.senss.get? v := by
  rw [proc_sets t hs] at h
  exact transfers_ok hd (sets_senss h) hn hf hx

/-! ### Warnings -/

/-- C81 (warnings about relaxing stay). What was reported before stays in front. -/
theorem C81_reports {t : Tree ι V K D} (hs : t.Shallow) {r r' : Proc.Res ι V K} (h : proc t r = .ok r') : ∃ notes, r'.relaxed = r.relaxed ++ notes := by
  rw [proc_sets t hs] at h
  revert h
  generalize t.sets = l
  intro h
  induction l generalizing r with
  | nil => cases h; exact ⟨[], by simp⟩
  | cons p l ih =>
    rw [List.foldlM_cons] at h
    obtain ⟨s1, h1, h⟩ := except_bind_ok h
    obtain ⟨s2, h2, h3⟩ := except_bind_ok h1
    obtain ⟨_, _, n1, e1⟩ := ownStep_ok h3
    obtain ⟨n2, e2⟩ := ih h
    exact ⟨n1 ++ n2, by rw [e2, e1, (compute_rest h2).2.1, List.append_assoc]⟩

end

section
variable {ι V D : Type} [DecidableEq ι] [DecidableEq V] [AddCommGroup D] [DecidableEq D]

theorem tight_notes {tol : ℝ} {cons : List (Warn.Con ι V ℝ D)} {r r' : Warn.Res ι V ℝ} (h : Warn.tight tol cons r = .ok r') {cat : String}
    (hc : cat ≠ "Unexpectedly Loose Constraints") : Warn.notes r' cat = Warn.notes r cat := by
  unfold Warn.tight at h
  induction cons generalizing r with
  | nil => cases h; rfl
  | cons c cons ih =>
    rw [List.foldlM_cons] at h
    obtain ⟨r1, h1, h2⟩ := except_bind_ok h
    rw [ih h2]
    unfold Warn.tightStep at h1
    obtain ⟨l, _, h1⟩ := except_bind_ok h1
    obtain ⟨rt, _, h1⟩ := except_bind_ok h1
    by_cases h3 : rt = 0
    · rw [if_pos h3] at h1; cases h1
    · rw [if_neg h3] at h1
      obtain ⟨q, _, h1⟩ := except_bind_ok h1
      by_cases h4 : tol ≤ |1 - l / rt * q|
      · simp only [if_pos h4] at h1
        obtain ⟨b, _, h1⟩ := except_bind_ok h1
        cases h1
        rw [notes_append, if_neg hc]
      · simp only [if_neg h4] at h1
        cases h1
        rfl

theorem bounded_notes {b : Warn.Bounder ℝ} {xs : List (Warn.BVar ι V)} {r r' : Warn.Res ι V ℝ} (h : Warn.bounded b xs r = .ok r') {cat : String}
    (hc : cat ≠ "Arbitrarily Bounded Variables") : Warn.notes r' cat = Warn.notes r cat := by
  unfold Warn.bounded at h
  obtain ⟨out, _, h⟩ := except_bind_ok h
  cases h
  show Warn.notes (out.foldl (fun r p => Warn.append r "Arbitrarily Bounded Variables" (.bound p.1 p.2)) r) cat = _
  clear * - hc
  induction out generalizing r with
  | nil => rfl
  | cons p l ih => rw [List.foldl_cons, ih, notes_append, if_neg hc]

theorem ownStep_notes {own : Own ι V ℝ D} {cs : List (Comp V ℝ)} {r r' : Proc.Res ι V ℝ} (h : ownStep own r = .ok r') :
    Warn.notes r'.base "Unexpectedly Tight Constraints" =
      Warn.notes r.base "Unexpectedly Tight Constraints" ++ looseNotes r.base.sens (own, cs) := by
  cases own with
  | plain => cases h; simp [looseNotes]
  | tight tol cons =>
    obtain ⟨b, h1, rfl⟩ := onBase_ok h
    rw [tight_notes h1 (by decide)]
    simp [looseNotes]
  | loose tol re cons =>
    obtain ⟨b, h1, rfl⟩ := onBase_ok h
    unfold looseRaise at h1
    split_ifs at h1 with h2
    cases h1
    show _ = _ ++ (cons.filter (fun c => decide (tol ≤ (r.base.sens.get? c).getD 0))).map (fun c => Warn.Note.tight c ((r.base.sens.get? c).getD 0))
    cases re with
    | false =>
      rw [(C46_loose (tol := tol) (r := r.base) (cons := cons)).2.2.2.2.1]
      unfold Warn.sensOf
      congr 2
    | true =>
      obtain ⟨e1, e2, _⟩ := C46_loose_raises (tol := tol) (r := r.base) (cons := cons)
      have hf : (Warn.loose tol true cons r.base).1 = false := by simpa using h2
      rw [e2 hf]
      have : cons.filter (fun c => decide (tol ≤ (r.base.sens.get? c).getD 0)) = [] := by
        rw [List.filter_eq_nil_iff]
        intro c hc h3
        exact h2 (e1.2 ⟨c, hc, by simpa [Warn.sensOf] using h3⟩)
      rw [this]
      simp
  | bounded b xs =>
    obtain ⟨b, h1, rfl⟩ := onBase_ok h
    rw [bounded_notes h1 (by decide)]
    simp [looseNotes]
  | relaxedEqually v =>
    obtain ⟨val, l, _, _, rfl⟩ := checkEqually_ok h
    simp [looseNotes]
  | relaxed vs single n =>
    obtain ⟨vals, l, notes, _, _, _, rfl⟩ := checkRelaxed_ok h
    simp [looseNotes]
  | constants m vars =>
    unfold ownStep at h
    obtain ⟨s, h1, h⟩ := except_bind_ok h
    obtain ⟨notes, rfl⟩ := checkConstants_ok h
    simp [looseNotes]

/-- C81 (loose constraints of a whole model). The constraints reported as unexpectedly tight are those of the model's `Loose` sets, wherever they are, whose
sensitivity is at the threshold or above; in order, once for each time they occur. -/
theorem C81_loose_partial {t : Tree ι V ℝ D} (hs : t.Shallow) {r r' : Proc.Res ι V ℝ} (h : proc t r = .ok r') :
    Warn.notes r'.base "Unexpectedly Tight Constraints" =
      Warn.notes r.base "Unexpectedly Tight Constraints" ++ t.sets.flatMap (looseNotes r.base.sens) := by
  rw [proc_sets t hs] at h
  revert h
  generalize t.sets = l
  intro h
  induction l generalizing r with
  | nil => cases h; simp
  | cons p l ih =>
    rw [List.foldlM_cons] at h
    obtain ⟨s1, h1, h⟩ := except_bind_ok h
    obtain ⟨s2, h2, h3⟩ := except_bind_ok h1
    obtain ⟨_, _, e1, e2, _⟩ := compute_rest h2
    obtain ⟨e, _, _⟩ := ownStep_ok h3
    have hw : Warn.notes s2.base "Unexpectedly Tight Constraints" = Warn.notes r.base "Unexpectedly Tight Constraints" := by
      unfold Warn.notes; rw [e2]
    rw [ih h, ownStep_notes (cs := p.2) h3, hw, e.sens, e1, List.flatMap_cons, List.append_assoc]

theorem relaxed_single {val : ℝ} {l : List (ℝ × Unit)} (h : Relax.getRelaxed [val] [()] = .ok l) : l = if 1001 / 1000 < val then [(val, ())] else [] := by
  unfold Relax.getRelaxed Relax.sortDown at h
  simp only [List.zip_cons_cons, List.zip_nil_right, List.mergeSort_singleton] at h
  cases h
  unfold Relax.relaxedPrefix
  by_cases h1 : 1001 / 1000 < val
  · rw [if_pos h1, if_neg]
    · rfl
    · rintro ⟨h2, h3⟩
      rw [max_eq_right h2] at h3
      linarith
  · rw [if_neg h1, if_pos]
    have : val ≤ 101 / 100 := by linarith
    exact ⟨this, by rw [max_eq_right this]; linarith⟩

/-- C81 (all constraints relaxed). A `ConstraintsRelaxedEqually` reports that all constraints were relaxed exactly if its variable is above 1.001, and the
percentage reported is the relaxation rounded: up, unless it is within a tenth of a percent of the one below. -/
theorem C81_equally {v : V} {comps : List (Comp V ℝ)} {kids : List (Tree ι V ℝ D)} {r r' : Proc.Res ι V ℝ}
    (hs : (Tree.cset (.relaxedEqually v) comps kids : Tree ι V ℝ D).Shallow) (h : proc (.cset (.relaxedEqually v) comps kids) r = .ok r') :
    ∃ val before, r'.free.get? v = some val ∧
      ((val ≤ 1001 / 1000 ∧ r'.relaxed = r.relaxed ++ before) ∨
        (1001 / 1000 < val ∧ ∃ n : ℤ, r'.relaxed = r.relaxed ++ before ++ [.all n] ∧ 1 ≤ n ∧ n - 9 / 10 ≤ 100 * (val - 1) ∧ 100 * (val - 1) < n + 1 / 10)) := by
  rw [proc] at h
  obtain ⟨r1, h1, h⟩ := except_bind_ok h
  obtain ⟨r2, h2, h⟩ := except_bind_ok h
  obtain ⟨val, l, e1, e2, rfl⟩ := checkEqually_ok h
  have hk : (Tree.lst kids : Tree ι V ℝ D).Shallow := by simpa only [Tree.Shallow] using hs
  obtain ⟨before, e3⟩ := C81_reports hk (r := r) (r' := r1) (by rw [proc]; exact h1)
  refine ⟨val, before, e1, ?_⟩
  rw [relaxed_single e2]
  have e4 := (compute_rest h2).2.1
  by_cases hv : 1001 / 1000 < val
  · right
    refine ⟨hv, ⌊9 / 10 + (val - 1) * 100⌋, ?_, ?_, ?_, ?_⟩
    · simp only [if_pos hv, List.map_cons, List.map_nil]
      rw [e4, e3, trunc, if_pos (by linarith)]
    · rw [Int.le_floor]; push_cast; linarith
    · have := Int.floor_le (9 / 10 + (val - 1) * 100); linarith
    · have := Int.lt_floor_add_one (9 / 10 + (val - 1) * 100); linarith
  · left
    refine ⟨not_lt.1 hv, ?_⟩
    simp only [if_neg hv, List.map_nil, List.append_nil]
    rw [e4, e3]

theorem relaxNote_ok {single : List Bool} {p : ℝ × Nat} {n : Note V ℝ} (h : relaxNote single p = .ok n) :
    single[p.2]? = some true ∧ n = .one p.2 (trunc (1 / 2 + (p.1 - 1) * 100)) := by
  unfold relaxNote at h
  split at h <;> cases h
  rename_i h2
  exact ⟨h2, rfl⟩

theorem getItem_ok {d : PyDict V ℝ} {v : V} {x : ℝ} (h : getItem d v = .ok x) : d.get? v = some x := by
  unfold getItem at h
  split at h <;> cases h
  assumption

theorem mapM_getElem {α β : Type} {f : α → Except Err β} : ∀ {l : List α} {l' : List β}, l.mapM f = .ok l' →
    l'.length = l.length ∧ ∀ (i : Nat) a, l[i]? = some a → ∃ b, l'[i]? = some b ∧ f a = .ok b := by
  intro l
  induction l with
  | nil => intro l' h; cases h; exact ⟨rfl, fun i a h => by cases h⟩
  | cons a l ih =>
    intro l' h
    rw [List.mapM_cons] at h
    obtain ⟨b, h1, h⟩ := except_bind_ok h
    obtain ⟨bs, h2, h⟩ := except_bind_ok h
    cases h
    obtain ⟨e1, e2⟩ := ih h2
    refine ⟨by simp [e1], ?_⟩
    intro i x hx
    cases i with
    | zero => cases hx; exact ⟨b, rfl, h1⟩
    | succ i => exact e2 i x hx

/-- C81 (constraints relaxed). A `ConstraintsRelaxed` reports every constraint whose variable is above 1.01. The percentage reported for a constraint is the
relaxation rounded to the nearest number. -/
theorem C81_constraints {vs : List V} {single : List Bool} {k : Nat} {comps : List (Comp V ℝ)} {kids : List (Tree ι V ℝ D)} {r r' : Proc.Res ι V ℝ}
    (hs : (Tree.cset (.relaxed vs single k) comps kids : Tree ι V ℝ D).Shallow) (h : proc (.cset (.relaxed vs single k) comps kids) r = .ok r') :
    ∃ before notes, r'.relaxed = r.relaxed ++ before ++ notes ∧
      (∀ (i : Nat) v val, i < k → vs[i]? = some v → r'.free.get? v = some val → 101 / 100 < val → ∃ n, Note.one i n ∈ notes) ∧
      ∀ note ∈ notes, ∃ (i : Nat) (n : ℤ) (v : V) (val : ℝ), note = .one i n ∧ i < k ∧ vs[i]? = some v ∧ r'.free.get? v = some val ∧
        (1 ≤ val → n - 1 / 2 ≤ 100 * (val - 1) ∧ 100 * (val - 1) < n + 1 / 2) := by
  rw [proc] at h
  obtain ⟨r1, h1, h⟩ := except_bind_ok h
  obtain ⟨r2, h2, h⟩ := except_bind_ok h
  obtain ⟨vals, l, notes, e1, e2, e3, rfl⟩ := checkRelaxed_ok h
  have hk : (Tree.lst kids : Tree ι V ℝ D).Shallow := by simpa only [Tree.Shallow] using hs
  obtain ⟨before, e4⟩ := C81_reports hk (r := r) (r' := r1) (by rw [proc]; exact h1)
  have e5 := (compute_rest h2).2.1
  obtain ⟨l1, l2⟩ := mapM_getElem e1
  obtain ⟨n1, n2⟩ := mapM_getElem e3
  obtain ⟨most, _, _, _, _, hperm⟩ := C33_report e2
  have hzip : ∀ p ∈ vals.zip (List.range k), p.2 < k ∧ ∃ v, vs[p.2]? = some v ∧ r2.free.get? v = some p.1 := by
    intro p hp
    obtain ⟨i, hi⟩ := List.getElem?_of_mem hp
    rw [List.getElem?_zip_eq_some] at hi
    obtain ⟨hi1, hi2⟩ := hi
    obtain ⟨hi3, hi4⟩ := List.getElem?_eq_some_iff.1 hi2
    rw [List.getElem_range] at hi4
    rw [List.length_range] at hi3
    refine ⟨by rw [← hi4]; exact hi3, ?_⟩
    have hlt : i < vs.length := by rw [← l1]; exact (List.getElem?_eq_some_iff.1 hi1).1
    obtain ⟨b, hb1, hb2⟩ := l2 i vs[i] (List.getElem?_eq_getElem hlt)
    rw [hi1] at hb1
    cases hb1
    rw [← hi4]
    exact ⟨vs[i], List.getElem?_eq_getElem hlt, getItem_ok hb2⟩
  refine ⟨before, notes, by rw [e5, e4], ?_, ?_⟩
  · intro i v val hi hv hval hgt
    obtain ⟨b, hb1, hb2⟩ := l2 i v hv
    have hb3 := getItem_ok hb2
    have hval' : r2.free.get? v = some val := hval
    rw [hval'] at hb3
    cases hb3
    have hmem : (val, i) ∈ vals.zip (List.range k) := by
      refine List.mem_of_getElem? (i := i) ?_
      rw [List.getElem?_zip_eq_some]
      exact ⟨hb1, by rw [List.getElem?_range hi]⟩
    have hl : (val, i) ∈ l := hperm.mem_iff.2 (List.mem_filter.2 ⟨hmem, by simpa using .inl hgt⟩)
    obtain ⟨j, hj⟩ := List.getElem?_of_mem hl
    obtain ⟨note, hn1, hn2⟩ := n2 j _ hj
    obtain ⟨_, rfl⟩ := relaxNote_ok hn2
    exact ⟨_, List.mem_of_getElem? hn1⟩
  · intro note hnote
    obtain ⟨j, hj⟩ := List.getElem?_of_mem hnote
    have hlt : j < l.length := by rw [← n1]; exact (List.getElem?_eq_some_iff.1 hj).1
    obtain ⟨note', hn1, hn2⟩ := n2 j l[j] (List.getElem?_eq_getElem hlt)
    rw [hj] at hn1
    cases hn1
    obtain ⟨_, rfl⟩ := relaxNote_ok hn2
    have hmem := (List.mem_filter.1 (hperm.mem_iff.1 (List.getElem_mem hlt))).1
    obtain ⟨hz1, v, hz2, hz3⟩ := hzip _ hmem
    refine ⟨_, _, v, _, rfl, hz1, hz2, hz3, ?_⟩
    intro h1
    rw [trunc, if_pos (by linarith)]
    have f1 := Int.floor_le (1 / 2 + ((l[j]).1 - 1) * 100)
    have f2 := Int.lt_floor_add_one (1 / 2 + ((l[j]).1 - 1) * 100)
    constructor <;> linarith

/-- C81 (constants relaxed). A `ConstantsRelaxed` reports every constant whose variable is above 1.01. What it reports of a constant is the value given for
it and the value in the solution. -/
theorem C81_constants {m : List (V × V)} {vars : List (V × V × ℝ)} {comps : List (Comp V ℝ)} {kids : List (Tree ι V ℝ D)} {r r' : Proc.Res ι V ℝ}
    (hs : (Tree.cset (.constants m vars) comps kids : Tree ι V ℝ D).Shallow) (h : proc (.cset (.constants m vars) comps kids) r = .ok r') :
    ∃ before notes, r'.relaxed = r.relaxed ++ before ++ notes ∧
      (∀ x ∈ vars, ∃ val, r'.free.get? x.1 = some val ∧
        (101 / 100 < val → ∃ new, r'.free.get? x.2.1 = some new ∧ Note.const x.2.1 x.2.2 new ∈ notes)) ∧
      ∀ note ∈ notes, ∃ x ∈ vars, ∃ new, note = .const x.2.1 x.2.2 new ∧ r'.free.get? x.2.1 = some new := by
  rw [proc] at h
  obtain ⟨r1, h1, h⟩ := except_bind_ok h
  obtain ⟨r2, h2, h⟩ := except_bind_ok h
  obtain ⟨s, hs', h⟩ := except_bind_ok h
  obtain ⟨vals, l, notes, e1, e2, e3, rfl⟩ := checkConstants_notes h
  have hk : (Tree.lst kids : Tree ι V ℝ D).Shallow := by simpa only [Tree.Shallow] using hs
  obtain ⟨before, e4⟩ := C81_reports hk (r := r) (r' := r1) (by rw [proc]; exact h1)
  have e5 := (compute_rest h2).2.1
  obtain ⟨l1, l2⟩ := mapM_getElem e1
  obtain ⟨n1, n2⟩ := mapM_getElem e3
  obtain ⟨most, _, _, _, _, hperm⟩ := C33_report e2
  have hnote : ∀ p n, constNote r2.free p = .ok n → ∃ new, r2.free.get? p.2.1 = some new ∧ n = .const p.2.1 p.2.2 new := by
    intro p n hn
    obtain ⟨new, hn1, hn2⟩ := except_bind_ok hn
    exact ⟨new, getItem_ok hn1, (Except.ok.inj hn2).symm⟩
  refine ⟨before, notes, by rw [e5, e4], ?_, ?_⟩
  · intro x hx
    obtain ⟨i, hi⟩ := List.getElem?_of_mem hx
    obtain ⟨b, hb1, hb2⟩ := l2 i x hi
    refine ⟨b, getItem_ok hb2, fun hgt => ?_⟩
    have hmem : (b, x.2) ∈ vals.zip (vars.map (fun x => x.2)) := by
      refine List.mem_of_getElem? (i := i) ?_
      rw [List.getElem?_zip_eq_some]
      exact ⟨hb1, by rw [List.getElem?_map, hi]; rfl⟩
    have hl : (b, x.2) ∈ l := hperm.mem_iff.2 (List.mem_filter.2 ⟨hmem, by simpa using .inl hgt⟩)
    obtain ⟨j, hj⟩ := List.getElem?_of_mem hl
    obtain ⟨note, hn1, hn2⟩ := n2 j _ hj
    obtain ⟨new, hn3, rfl⟩ := hnote _ _ hn2
    exact ⟨new, hn3, List.mem_of_getElem? hn1⟩
  · intro note hnm
    obtain ⟨j, hj⟩ := List.getElem?_of_mem hnm
    have hlt : j < l.length := by rw [← n1]; exact (List.getElem?_eq_some_iff.1 hj).1
    obtain ⟨note', hn1, hn2⟩ := n2 j l[j] (List.getElem?_eq_getElem hlt)
    rw [hj] at hn1
    cases hn1
    obtain ⟨new, hn3, rfl⟩ := hnote _ _ hn2
    have hlm : l[j] ∈ vals.zip (vars.map (fun x => x.2)) := List.mem_of_mem_filter (hperm.mem_iff.1 (List.getElem_mem hlt))
    obtain ⟨x, hx, hx'⟩ := List.mem_map.1 (List.of_mem_zip hlm).2
    have hx2 : x.2 = l[j].2 := hx'
    refine ⟨x, hx, new, ?_, ?_⟩
    · rw [hx2]
    · rw [hx2]; exact hn3

end

/-! ### The conditions can be met -/

/-- `x = 2` was solved for. -/
def solvedRes (K : Type) [OfNat K 2] : Proc.Res ℕ String K := ⟨⟨[("x", 2)], [], none, none⟩, [("x", 2)], [("x", 2)], []⟩

/-- `y = x²` -/
def squareComp (K : Type) [Mul K] : Comp String K :=
  ⟨["y"], fun d => match d.get? "x" with
    | some x => .ok [x * x]
    | none => .error .keyError⟩

/-- `(z₀, z₁) = (y, x)` -/
def pairComp (K : Type) : Comp String K :=
  ⟨["z0", "z1"], fun d => match d.get? "x", d.get? "y" with
    | some x, some y => .ok [y, x]
    | _, _ => .error .keyError⟩

/-- A model that computes a pair from a variable that a model inside computes. -/
def layeredTree (K : Type) : Proc.Tree ℕ String K ℤ → Proc.Tree ℕ String K ℤ := fun inner => .cset .plain [pairComp K] [.leaf, .lst [.arr [inner]]]

/-- The conditions of C81 about computed variables can be met: here a model computes a vector from what a model inside it computes. -/
example : (layeredTree ℚ (.cset .plain [squareComp ℚ] [])).Shallow ∧
    Orderly (solvedRes ℚ).base.vars (fun c => if c.elems = ["y"] then ["x"] else ["x", "y"]) ((layeredTree ℚ (.cset .plain [squareComp ℚ] [])).sets.map (·.2)) ∧
    (match proc (layeredTree ℚ (.cset .plain [squareComp ℚ] [])) (solvedRes ℚ) with
      | .ok r => r.base.vars == [("x", 2), ("y", 4), ("z0", 4), ("z1", 2)]
      | .error _ => false) = true := by
  refine ⟨by simp [layeredTree, Tree.Shallow, ShallowL], ?_, by decide +kernel⟩
  have hl : (layeredTree ℚ (.cset .plain [squareComp ℚ] [])).sets.map (·.2) = [[squareComp ℚ], [pairComp ℚ]] := by
    simp [layeredTree, Tree.sets, setsL]
  rw [hl]
  have hsq : (squareComp ℚ).Reads ["x"] := by
    refine ⟨fun d d' h => ?_, fun d h => ?_⟩
    · unfold squareComp; simp only [h "x" (by simp)]
    · obtain ⟨x, hx⟩ := contains_iff.1 (h "x" (by simp))
      exact ⟨[x * x], by unfold squareComp; simp only [hx], rfl⟩
  have hpr : (pairComp ℚ).Reads ["x", "y"] := by
    refine ⟨fun d d' h => ?_, fun d h => ?_⟩
    · unfold pairComp; simp only [h "x" (by simp), h "y" (by simp)]
    · obtain ⟨x, hx⟩ := contains_iff.1 (h "x" (by simp))
      obtain ⟨y, hy⟩ := contains_iff.1 (h "y" (by simp))
      exact ⟨[y, x], by unfold pairComp; simp only [hx, hy], rfl⟩
  have e1 : (squareComp ℚ).elems = ["y"] := rfl
  have e2 : (pairComp ℚ).elems = ["z0", "z1"] := rfl
  refine ⟨?_, ?_, ?_, ?_, ?_⟩
  · simp only [List.mem_cons, List.not_mem_nil, or_false, forall_eq_or_imp, forall_eq]
    exact ⟨by rw [if_pos e1]; exact hsq, by rw [if_neg (by rw [e2]; decide)]; exact hpr⟩
  · simp only [List.mem_cons, List.not_mem_nil, or_false, forall_eq_or_imp, forall_eq]
    exact ⟨⟨by decide, by decide, .inr (by decide)⟩, ⟨by decide, by decide, .inr (by decide)⟩⟩
  · simp only [List.mem_cons, List.not_mem_nil, or_false, forall_eq_or_imp, forall_eq, e1, e2]
    simp
  · simp only [List.mem_cons, List.not_mem_nil, or_false, forall_eq_or_imp, forall_eq, List.nodup_singleton, and_self]
  · simp only [Layered, List.mem_cons, List.not_mem_nil, or_false, forall_eq, and_true]
    rw [if_pos e1, if_neg (by rw [e2]; decide)]
    exact ⟨by decide, by decide⟩

/-- The conditions of `C81_transfer_partial` can be met: the sensitivity found for the new constant goes to the original one. -/
example :
    let t : Proc.Tree ℕ String ℚ ℤ := .lst [.leaf, .cset (.constants [("new", "old")] [("relax", "old", 3)]) [] [.leaf]]
    let r : Proc.Res ℕ String ℚ := ⟨⟨[("old", 2), ("relax", 3 / 2), ("new", 3)], [], none, none⟩, [("old", 2), ("relax", 3 / 2)],
      [("old", 0), ("relax", 0), ("new", 7)], []⟩
    t.Shallow ∧ ((derelaxes t.sets).flatten.map (·.1)).Nodup ∧ ((derelaxes t.sets).flatten.map (·.2)).Nodup ∧
    (∀ a ∈ (derelaxes t.sets).flatten, ∀ b ∈ (derelaxes t.sets).flatten, a.1 ≠ b.2) ∧
    (match proc t r with
      | .ok r' => r'.senss == [("old", 7), ("relax", 0)] && decide (r'.relaxed = [.const "old" 3 2])
      | .error _ => false) = true := by
  refine ⟨by simp [Tree.Shallow, ShallowL], ?_, ?_, ?_, by decide +kernel⟩ <;> simp [derelaxes, Tree.sets, setsL]

/-- A model whose constraints were all relaxed by three per cent. -/
example :
    let t : Proc.Tree ℕ String ℚ ℤ := .cset (.relaxedEqually "C") [] [.leaf]
    let r : Proc.Res ℕ String ℚ := ⟨⟨[("C", 103 / 100)], [], none, none⟩, [("C", 103 / 100)], [], []⟩
    t.Shallow ∧ (match proc t r with
      | .ok r' => decide (r'.relaxed = [.all 3])
      | .error _ => false) = true := by
  refine ⟨by simp [Tree.Shallow, ShallowL], by decide +kernel⟩

/-- A `ConstraintsRelaxed` of one constraint. -/
example :
    let t : Proc.Tree ℕ String ℚ ℤ := .cset (.relaxed ["C"] [true] 1) [] [.leaf]
    let r : Proc.Res ℕ String ℚ := ⟨⟨[("C", 5 / 4)], [], none, none⟩, [("C", 5 / 4)], [], []⟩
    t.Shallow ∧ (match proc t r with
      | .ok r' => decide (r'.relaxed = [.one 0 25])
      | .error _ => false) = true := by
  refine ⟨by simp [Tree.Shallow, ShallowL], by decide +kernel⟩

/-! ### Where it fails -/

/-- C81 fails: sets in a list inside a numpy array are not processed, only those that are themselves elements. Here a computed variable gets no value. -/
theorem C81_array_fails :
    let t : Proc.Tree ℕ String ℚ ℤ → Proc.Tree ℕ String ℚ ℤ := fun k => .cset .plain [] [.arr [k, .cset .plain [⟨["w"], fun _ => .ok [5]⟩] []]]
    (t (.lst [.cset .plain [squareComp ℚ] []])).sets.length = 3 ∧
    (match proc (t (.lst [.cset .plain [squareComp ℚ] []])) (solvedRes ℚ) with
      | .ok r => !r.base.vars.contains "y" && r.base.vars.get? "w" == some 5
      | .error _ => false) = true ∧
    (match proc (t (.cset .plain [squareComp ℚ] [])) (solvedRes ℚ) with
      | .ok r => r.base.vars.get? "y" == some 4 && r.base.vars.get? "w" == some 5
      | .error _ => false) = true := by
  refine ⟨by simp [Tree.sets, setsL], by decide +kernel, by decide +kernel⟩

/-- C81 fails: a variable that is computed from another of the same set. Whether the solution comes out or a `KeyError` depends on the order in which Python
goes through the set. -/
theorem C81_order_fails :
    let t : List (Comp String ℚ) → Proc.Tree ℕ String ℚ ℤ := fun l => .cset .plain l []
    (match proc (t [squareComp ℚ, pairComp ℚ]) (solvedRes ℚ) with
      | .ok r => r.base.vars == [("x", 2), ("y", 4), ("z0", 4), ("z1", 2)]
      | .error _ => false) = true ∧
    (match proc (t [pairComp ℚ, squareComp ℚ]) (solvedRes ℚ) with
      | .ok _ => false
      | .error e => decide (e = .keyError)) = true := by
  constructor <;> decide +kernel

/-- C81 fails: if only some elements of a computed vector are in constraints, the solved values are written over, also among the free variables. -/
theorem C81_overwrites_fails :
    let r : Proc.Res ℕ String ℚ := ⟨⟨[("x", 2), ("y", 3), ("z0", 10)], [], none, none⟩, [("x", 2), ("z0", 10)], [], []⟩
    (match proc (.cset .plain [pairComp ℚ] [] : Proc.Tree ℕ String ℚ ℤ) r with
      | .ok r' => r'.base.vars.get? "z0" == some 3 && r'.free.get? "z0" == some 3
      | .error _ => false) = true := by
  decide +kernel

/-- C81 fails: a `ConstantsRelaxed` that occurs twice in a model. The second time there is nothing left to transfer, and solving raises a `KeyError`. -/
theorem C81_twice_fails :
    let s : Proc.Tree ℕ String ℚ ℤ := .cset (.constants [("new", "old")] [("relax", "old", 3)]) [] []
    let r : Proc.Res ℕ String ℚ := ⟨⟨[("old", 2), ("relax", 3 / 2), ("new", 3)], [], none, none⟩, [("old", 2), ("relax", 3 / 2)],
      [("old", 0), ("relax", 0), ("new", 7)], []⟩
    (match proc (.cset .plain [] [s]) r with
      | .ok _ => true
      | .error _ => false) = true ∧
    (match proc (.cset .plain [] [s, .lst [s]]) r with
      | .ok _ => false
      | .error e => decide (e = .keyError)) = true := by
  constructor <;> decide +kernel

/-- C81 fails: relaxing constants of a model whose constants are relaxed already. The set inside is processed first, so the original constant gets the
sensitivity of a free variable and the actual sensitivity stays with an auxiliary one. -/
theorem C81_nested_fails :
    let t : Proc.Tree ℕ String ℚ ℤ := .cset (.constants [("new2", "new")] [("relax2", "new", 3)]) []
      [.cset (.constants [("new", "old")] [("relax", "old", 3)]) [] []]
    let r : Proc.Res ℕ String ℚ := ⟨⟨[("old", 2), ("relax", 3 / 2), ("new", 3), ("relax2", 1), ("new2", 3)], [], none, none⟩,
      [("old", 2), ("relax", 3 / 2), ("new", 3), ("relax2", 1)], [("old", 0), ("relax", 0), ("new", 0), ("relax2", 0), ("new2", 7)], []⟩
    (match proc t r with
      | .ok r' => r'.senss.get? "old" == some 0 && r'.senss.get? "new" == some 7
      | .error _ => false) = true := by
  decide +kernel

/-- C81 fails: warnings of a set that occurs twice in a model are given twice. -/
theorem C81_repeated_fails :
    let s : Proc.Tree ℕ String ℚ ℤ := .cset (.loose (1 / 100) false [0]) [] []
    let r : Proc.Res ℕ String ℚ := ⟨⟨[], [(0, 1)], none, none⟩, [], [], []⟩
    (match proc (.cset .plain [] [s, s]) r with
      | .ok r' => (((r'.base.warnings.getD []).get? "Unexpectedly Tight Constraints").getD []).length == 2
      | .error _ => false) = true := by
  decide +kernel

/-- C81 fails: a `ConstantsRelaxed` without constants to relax raises an `IndexError` whenever a solution is found. -/
theorem C81_empty_fails (r : Proc.Res ℕ String ℚ) :
    (match proc (.cset (.constants [] []) [] [] : Proc.Tree ℕ String ℚ ℤ) r with
      | .ok _ => false
      | .error e => decide (e = .indexError)) = true := by
  have h : Relax.getRelaxed ([] : List ℚ) ([] : List (String × ℚ)) = .error .indexError := by
    unfold Relax.getRelaxed Relax.sortDown
    simp
  have h2 : proc (.cset (.constants [] []) [] [] : Proc.Tree ℕ String ℚ ℤ) r = .error .indexError := by
    rw [proc, procL]
    show (Relax.getRelaxed ([] : List ℚ) ([] : List (String × ℚ))).bind _ = _
    rw [h]
    rfl
  rw [h2]
  rfl

end Verif
