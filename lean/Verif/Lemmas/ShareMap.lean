import Verif.Lemmas.Share
import Verif.Lemmas.Constraint

/-! The result of `mmap`. -/

set_option linter.unusedSectionVars false

namespace Verif
open PyDict

variable {V : Type} [DecidableEq V]

/-- What is known after substituting. -/
structure Shared (h : PyDict (HV V ℝ) ℝ) (fixed : PyDict V ℝ) (s : SubState V ℝ) (w : HV V ℝ × ℝ → ℝ) : Prop where
  em : s.expmap = h.map (fun t => (t.1, strip (varlocKeys h fixed) t.1))
  cs : ∀ t ∈ h, (s.csmap.get? t.1 <|> h.get? t.1) = some (w t)
  ok : ∀ t ∈ h, CsOK fixed t (strip (varlocKeys h fixed) t.1) (w t)
  canon : TermsCanonical s.cp
  pos : ∀ t ∈ s.cp, 0 < t.2
  k : ∀ t ∈ h, s.cp.contains (strip (varlocKeys h fixed) t.1) = true
  val : ∀ pt, termsVal pt s.cp = termsVal (override pt fixed) h

theorem shared_of_sub {h : PyDict (HV V ℝ) ℝ} (hc : TermsCanonical h) (hne : h ≠ []) (hpos : ∀ t ∈ h, 0 < t.2) {fixed : PyDict V ℝ}
    (hfix : ∀ v c, fixed.get? v = some c → 0 < c) {rounds : List (V × List (HV V ℝ))} (ho : SetOrder (varlocs h fixed) rounds)
    (hlate : MergesLate h (varlocKeys h fixed)) {s : SubState V ℝ} (hs : subState h fixed rounds = .ok s) : ∃ w, Shared h fixed s w := by
  obtain ⟨hwf, _, hw⟩ := (termsCanonical_iff _).1 hc
  have hw' : ∀ t ∈ h, WF t.1.items := fun t ht => ((expCanonical_iff _).1 (hw t ht)).1
  have hsub : (⟨h, none⟩ : NMap V ℝ ℤ).sub fixed rounds = .ok ⟨s.cp, none⟩ := by unfold NMap.sub; rw [hs]; rfl
  have hval := fun pt => (C06_sub_evaluates (h := ⟨h, none⟩) hc hne ho hsub pt).1
  have hcan := (sub_ok (h := ⟨h, none⟩) hc hne ho hsub).2.2.2.2
  simp only at hval hcan
  unfold subState at hs
  by_cases hf : fixed.isEmpty
  · rw [if_pos hf] at hs
    cases hs
    rw [List.isEmpty_iff] at hf
    subst hf
    have hk : varlocKeys h ([] : PyDict V ℝ) = [] := by
      rw [List.eq_nil_iff_forall_not_mem]
      intro v hv
      have := (mem_varlocKeys.1 hv).2
      cases this
    refine ⟨fun t => t.2, ?_, ?_, ?_, hc, hpos, ?_, hval⟩
    · rw [hk]; simp [strip_nil]
    · intro t ht
      simp only [get?_nil, Option.orElse_eq_orElse, Option.orElse_none]
      exact get?_of_mem hwf ht
    · intro t ht
      rw [hk, strip_nil]
      exact ⟨hpos t ht, fun _ _ => rfl⟩
    · intro t ht
      rw [hk, strip_nil]
      exact contains_iff.2 ⟨_, get?_of_mem hwf ht⟩
  · rw [if_neg hf, subInit_eq hwf] at hs
    obtain ⟨hk, hnd, hperm⟩ := setOrder_facts ho
    have inv0 : ShareI h fixed [] (rounds.map (·.1)) ⟨h, h.map (fun t => (t.1, t.1)), h, []⟩ := by
      refine ⟨by simp [strip_nil], ⟨fun t => t.2, by simp, ?_⟩, hwf, hpos, ?_, ?_⟩
      · intro t ht; rw [strip_nil]; exact ⟨hpos t ht, fun _ _ => rfl⟩
      · intro t ht; rw [strip_nil]; exact contains_iff.2 ⟨_, get?_of_mem hwf ht⟩
      · intro t1 h1 t2 h2 hne hbe
        rw [strip_nil, strip_nil] at hbe
        exfalso
        have hsym : ∀ a b : HV V ℝ × ℝ, (a.1 == b.1) = false → (b.1 == a.1) = false := by
          intro a b h; rw [BEq.comm]; exact h
        have := List.Pairwise.forall_of_forall_of_flip (R := fun a b : HV V ℝ × ℝ => a ≠ b → (a.1 == b.1) = false) (l := h)
          (fun a _ h => absurd rfl h) (List.Pairwise.imp (fun {a b} h (_ : a ≠ b) => h) hwf)
          (List.Pairwise.imp (fun {a b} h (_ : b ≠ a) => hsym a b h) hwf) h1 h2 (fun h => hne (by rw [h]))
        rw [hbe] at this; cases this
    have inv := share_rounds hwf hw' hfix rounds [] _ s (by rw [hk]; simpa using hlate) (by simpa using hnd) hperm inv0 hs
    rw [List.nil_append, hk] at inv
    obtain ⟨w, hw1, hw2⟩ := inv.cs
    refine ⟨w, inv.em, ?_, hw2, ?_, inv.pos, inv.k, hval⟩
    · intro t ht
      rw [hw1, get?_map_eq hwf ht w]; rfl
    · rcases hcan with h1 | h1
      · exact h1
      · exfalso
        have := inv.pos (HV.empty, 0) (by rw [h1]; simp)
        simp at this

theorem monVal_strip_override {h : PyDict (HV V ℝ) ℝ} {fixed : PyDict V ℝ} {t : HV V ℝ × ℝ} (ht : t ∈ h) (hw : WF t.1.items) (pt : V → ℝ) :
    monVal (override pt fixed) (strip (varlocKeys h fixed) t.1).items = monVal pt (strip (varlocKeys h fixed) t.1).items := by
  unfold monVal
  congr 1
  apply List.map_congr_left
  intro kx hkx
  have h1 := get?_of_mem (strip_wf hw _) hkx
  have h2 := strip_get? (e := t.1) (varlocKeys h fixed) kx.1
  unfold HV.get? at h2
  rw [h1] at h2
  split_ifs at h2 with h3
  have : fixed.get? kx.1 = none := by
    cases hf : fixed.get? kx.1 with
    | none => rfl
    | some c =>
      exfalso
      apply h3
      rw [mem_varlocKeys]
      refine ⟨⟨t, ht, ?_⟩, contains_iff.2 ⟨c, hf⟩⟩
      unfold HV.get?; rw [← h2]; simp
  simp [override, this]

theorem getD_dictAdd_list (k : HV V ℝ) : ∀ (l a : PyDict (HV V ℝ) ℝ), WF a →
    ((dictAdd a l).get? k).getD 0 = (a.get? k).getD 0 + ((l.filter (fun p => p.1 == k)).map (·.2)).sum := by
  intro l
  induction l with
  | nil => intro a _; simp [dictAdd_nil]
  | cons p l ih =>
    intro a ha
    rw [dictAdd_cons, ih _ (dictAddStep_wf ha p), getD_dictAddStep ha, List.filter_cons]
    by_cases h : p.1 == k
    · simp [h]; ring
    · simp [h]

/-- The coefficient of a term after substitution is the sum of those that were merged into it. -/
theorem Shared.coef {h : PyDict (HV V ℝ) ℝ} {fixed : PyDict V ℝ} {s : SubState V ℝ} {w : HV V ℝ × ℝ → ℝ} (hc : TermsCanonical h)
    (hs : Shared h fixed s w) {u : HV V ℝ × ℝ} (hu : u ∈ s.cp) :
    u.2 = ((h.filter (fun t => strip (varlocKeys h fixed) t.1 == u.1)).map w).sum := by
  obtain ⟨hwf, hnz, hw⟩ := (termsCanonical_iff _).1 hc
  have hw' : ∀ t ∈ h, WF t.1.items := fun t ht => ((expCanonical_iff _).1 (hw t ht)).1
  set vs := varlocKeys h fixed with hvs
  let l : PyDict (HV V ℝ) ℝ := h.map (fun t => (strip vs t.1, w t))
  have hlw : ∀ p ∈ l, 0 < p.2 := by
    intro p hp
    obtain ⟨t, ht, rfl⟩ := List.mem_map.1 hp
    exact (hs.ok t ht).1
  have hB : TermsCanonical (dictAdd [] l) := by
    rw [termsCanonical_iff]
    refine ⟨dictAdd_wf wf_nil _, dictAdd_nz (by intro p hp; cases hp) (fun p hp => (hlw p hp).ne'), ?_⟩
    refine dictAdd_keys (P := fun e : HV V ℝ => ExpCanonical e.items) (by intro p hp; cases hp) ?_
    intro p hp
    obtain ⟨t, ht, rfl⟩ := List.mem_map.1 hp
    rw [expCanonical_iff]
    refine ⟨strip_wf (hw' t ht) _, ?_⟩
    intro kx hkx
    exact ((expCanonical_iff _).1 (hw t ht)).2 kx (List.mem_of_mem_filter hkx)
  have hval : ∀ pt, termsVal pt (dictAdd [] l) = termsVal pt s.cp := by
    intro pt
    rw [termsVal_dictAdd, hs.val pt]
    simp only [termsVal, List.map_nil, List.sum_nil, zero_add, l, List.map_map]
    congr 1
    apply List.map_congr_left
    intro t ht
    have := (hs.ok t ht).2 (override pt fixed) (override_agrees pt fixed)
    rw [monVal_strip_override ht (hw' t ht)] at this
    exact this
  have heq := (hmapEq_iff hs.canon hB).2 (fun pt _ => (hval pt).symm)
  unfold Nomial.hmapEq at heq
  simp only [Bool.and_eq_true, List.all_eq_true, decide_eq_true_eq] at heq
  have h1 := heq.2 u hu
  have h2 := getD_dictAdd_list u.1 l [] wf_nil
  rw [h1] at h2
  simp only [Option.getD_some, get?_nil, Option.getD_none, zero_add] at h2
  rw [h2]
  simp only [l, List.filter_map, List.map_map]
  rfl

/-- `mmap` for a canonical substituted map -/
noncomputable def shareList (w : HV V ℝ × ℝ → ℝ) (vs : List V) (pre : PyDict (HV V ℝ) ℝ) (u : HV V ℝ × ℝ) : PyDict Nat ℝ :=
  (pre.zipIdx.filter (fun q => strip vs q.1.1 == u.1)).map (fun q => (q.2, w q.1 / u.2))

theorem modify_map_eq {β : Type} : ∀ {cp : PyDict (HV V ℝ) ℝ} (_ : WF cp) {e : HV V ℝ} {j : ℕ} (_ : pyIndex cp.keys e = some j) (f : HV V ℝ × ℝ → β) (g : β → β),
    (cp.map f).modify j g = cp.map (fun p => if p.1 == e then g (f p) else f p) := by
  intro cp
  induction cp with
  | nil => intro _ e j hj; simp [pyIndex, PyDict.keys] at hj
  | cons p cp ih =>
    intro hwf e j hj f g
    obtain ⟨h1, h2⟩ := wf_cons.1 hwf
    unfold pyIndex PyDict.keys at hj
    rw [List.map_cons, List.findIdx?_cons] at hj
    by_cases hp : p.1 == e
    · rw [if_pos hp] at hj
      cases hj
      rw [List.map_cons, List.map_cons, if_pos hp, List.modify_zero_cons]
      congr 1
      apply List.map_congr_left
      intro q hq
      have := h1 q hq
      have hqe : (q.1 == e) = false := by
        by_contra hqe
        simp only [Bool.not_eq_false] at hqe
        rw [BEq.trans hp (BEq.symm hqe)] at this; cases this
      rw [hqe]; simp
    · rw [if_neg hp] at hj
      obtain ⟨i, hi, rfl⟩ := Option.map_eq_some_iff.1 hj
      rw [List.map_cons, List.map_cons, if_neg hp, List.modify_succ_cons, ih h2 hi]

theorem pyIndex_pre {pre post : PyDict (HV V ℝ) ℝ} {t : HV V ℝ × ℝ} (hwf : WF (pre ++ t :: post)) :
    pyIndex (pre ++ t :: post).keys t.1 = some pre.length := by
  induction pre with
  | nil => simp [pyIndex, PyDict.keys, List.findIdx?_cons]
  | cons p pre ih =>
    obtain ⟨h1, h2⟩ := wf_cons.1 hwf
    have := ih h2
    unfold pyIndex PyDict.keys at this ⊢
    rw [List.cons_append, List.map_cons, List.findIdx?_cons, h1 t (by simp), this]
    simp

theorem Shared.mmap {h : PyDict (HV V ℝ) ℝ} {fixed : PyDict V ℝ} {s : SubState V ℝ} {w : HV V ℝ × ℝ → ℝ} (hc : TermsCanonical h)
    (hs : Shared h fixed s w) : mmap s h = .ok (s.cp.map (shareList w (varlocKeys h fixed) h)) := by
  have hwf := ((termsCanonical_iff _).1 hc).1
  have hcw := ((termsCanonical_iff _).1 hs.canon).1
  unfold Verif.mmap
  rw [hs.em]
  have key : ∀ post pre, h = pre ++ post →
      (post.map (fun t => (t.1, strip (varlocKeys h fixed) t.1))).foldlM (mmapStep s h) (s.cp.map (shareList w (varlocKeys h fixed) pre)) =
        .ok (s.cp.map (shareList w (varlocKeys h fixed) h)) := by
    intro post
    induction post with
    | nil => intro pre hh; rw [List.append_nil] at hh; subst hh; rfl
    | cons t post ih =>
      intro pre hh
      have ht : t ∈ h := by rw [hh]; simp
      rw [List.map_cons, List.foldlM_cons]
      obtain ⟨c, hcc⟩ := contains_iff.1 (hs.k t ht)
      obtain ⟨k, hk1, hk2⟩ := exists_mem_of_get? hcc
      have hc0 : c ≠ 0 := (hs.pos _ hk1).ne'
      obtain ⟨j, hj⟩ := pyIndex_some (l := s.cp.keys) (e := strip (varlocKeys h fixed) t.1) ⟨k, List.mem_map_of_mem (f := (·.1)) hk1, hk2⟩
      have hi : pyIndex h.keys t.1 = some pre.length := by
        have := pyIndex_pre (pre := pre) (post := post) (t := t) (by rw [← hh]; exact hwf)
        rw [← hh] at this; exact this
      have hstep : mmapStep s h (s.cp.map (shareList w (varlocKeys h fixed) pre)) (t.1, strip (varlocKeys h fixed) t.1) =
          .ok (s.cp.map (shareList w (varlocKeys h fixed) (pre ++ [t]))) := by
        unfold mmapStep
        simp only
        rw [hcc]
        simp only
        rw [hs.cs t ht, hi, hj]
        simp only
        rw [if_neg hc0, modify_map_eq hcw hj]
        congr 1
        apply List.map_congr_left
        intro u hu
        unfold shareList
        rw [List.zipIdx_append, List.filter_append, List.map_append]
        by_cases hue : u.1 == strip (varlocKeys h fixed) t.1
        · have huc : u.2 = c := by
            have h1 := get?_of_mem hcw hu
            rw [get?_congr _ hue, hcc] at h1
            injection h1 with h1; exact h1.symm
          rw [if_pos hue]
          have : (strip (varlocKeys h fixed) t.1 == u.1) = true := BEq.symm hue
          simp only [List.zipIdx_cons, List.zipIdx_nil, zero_add, List.filter_cons, this, if_true, List.filter_nil, List.map_cons, List.map_nil, huc]
          rw [set_of_not_contains]
          rw [get?_eq_none_iff]
          intro q hq
          obtain ⟨r, hr, rfl⟩ := List.mem_map.1 hq
          have hr2 := (List.mem_zipIdx (List.mem_of_mem_filter hr)).2.1
          simp only [beq_eq_false_iff_ne, ne_eq]
          omega
        · rw [if_neg hue]
          have : (strip (varlocKeys h fixed) t.1 == u.1) = false := by rw [BEq.comm]; simpa using hue
          simp [this]
      rw [hstep]
      exact ih (pre ++ [t]) (by rw [hh]; simp)
  have h0 := key h [] rfl
  have hempty : s.cp.map (shareList w (varlocKeys h fixed) []) = s.cp.map (fun _ => []) := by
    apply List.map_congr_left
    intro u _
    rfl
  rw [hempty] at h0
  exact h0

end Verif
