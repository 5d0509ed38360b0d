import Verif.Lemmas.Share
import Verif.Lemmas.Constraint

/-! What `sub` keeps in `expmap`, for coefficients of any sign. -/

set_option linter.unusedSectionVars false

namespace Verif
open PyDict

variable {V : Type} [DecidableEq V]

/-- no variable of `vs` occurs in `q` -/
def Free (vs : List V) (q : HV V ℝ) : Prop := ∀ v ∈ vs, q.get? v = none

/-- Invariant during the round for `vk`. -/
structure TrackR (h : PyDict (HV V ℝ) ℝ) (done : List V) (vk : V) (later : List V) (L : List (HV V ℝ)) (s : SubState V ℝ) : Prop where
  em : s.expmap = h.map (fun t => (t.1, cur done vk L t.1))
  wf : WF s.cp
  nz : ∀ t ∈ s.cp, t.2 = 0 → t.1.items = []
  keys : ∀ p ∈ s.cp, p.1.items = [] ∨ ∃ u ∈ h, (cur done vk L u.1 == p.1) = true
  sq0 : ∀ q ∈ s.squished, q.get? vk ≠ none → ∃ u1 ∈ h, ∃ u2 ∈ h, u1.1 ≠ u2.1 ∧ (Free done q → (strip done u1.1 == q) = true ∧ (strip done u2.1 == q) = true)
  sq1 : ∀ q ∈ s.squished, q.items = [] ∨ ∃ u1 ∈ h, ∃ u2 ∈ h, u1.1 ≠ u2.1 ∧
    (Free (done ++ [vk]) q → (strip (done ++ [vk]) u1.1 == q) = true ∧ (strip (done ++ [vk]) u2.1 == q) = true)
  k1 : ∀ t ∈ h, t.1 ∉ L → s.cp.contains (strip (done ++ [vk]) t.1) = true ∨ s.squished.contains (strip (done ++ [vk]) t.1) = true ∨
    ∀ w ∈ later, t.1.get? w = none
  k2 : ∀ t ∈ h, t.1 ∈ L → s.cp.contains (strip done t.1) = true ∨ s.squished.contains (strip done t.1) = true ∨
    ∃ t' ∈ h, t'.1 ≠ t.1 ∧ (strip done t.1 == strip done t'.1) = true
  c0 : ∀ t1 ∈ h, ∀ t2 ∈ h, t1.1 ≠ t2.1 → (strip done t1.1 == strip done t2.1) = true →
    s.squished.contains (strip done t1.1) = true ∨ ∀ w ∈ vk :: later, t1.1.get? w = none
  c1 : ∀ t1 ∈ h, ∀ t2 ∈ h, t1.1 ≠ t2.1 → t1.1 ∉ L → t2.1 ∉ L → (strip (done ++ [vk]) t1.1 == strip (done ++ [vk]) t2.1) = true →
    s.squished.contains (strip (done ++ [vk]) t1.1) = true ∨ ∀ w ∈ later, t1.1.get? w = none

/-- Invariant between rounds. -/
structure TrackI (h : PyDict (HV V ℝ) ℝ) (done later : List V) (s : SubState V ℝ) : Prop where
  em : s.expmap = h.map (fun t => (t.1, strip done t.1))
  wf : WF s.cp
  nz : ∀ t ∈ s.cp, t.2 = 0 → t.1.items = []
  keys : ∀ p ∈ s.cp, p.1.items = [] ∨ ∃ u ∈ h, (strip done u.1 == p.1) = true
  sq : ∀ q ∈ s.squished, q.items = [] ∨ ∃ u1 ∈ h, ∃ u2 ∈ h, u1.1 ≠ u2.1 ∧ (Free done q → (strip done u1.1 == q) = true ∧ (strip done u2.1 == q) = true)
  k : ∀ t ∈ h, s.cp.contains (strip done t.1) = true ∨ s.squished.contains (strip done t.1) = true ∨ ∀ w ∈ later, t.1.get? w = none
  c : ∀ t1 ∈ h, ∀ t2 ∈ h, t1.1 ≠ t2.1 → (strip done t1.1 == strip done t2.1) = true →
    s.squished.contains (strip done t1.1) = true ∨ ∀ w ∈ later, t1.1.get? w = none

theorem strip_free (vs : List V) (e : HV V ℝ) : Free vs (strip vs e) := by
  intro v hv
  rw [strip_get?, if_pos hv]

theorem strip_snoc_of_free {a q : HV V ℝ} (ha : WF a.items) {vs : List V} {v : V} (h : (strip vs a == q) = true) (hv : q.get? v = none) :
    (strip (vs ++ [v]) a == q) = true := by
  have hq : WF q.items := hv_wf_congr (strip_wf ha vs) h
  have h1 : a.get? v = none ∨ v ∈ vs := by
    have := hv_get?_congr (strip_wf ha vs) h v
    rw [strip_get?, hv] at this
    split_ifs at this with h2
    · exact Or.inr h2
    · exact Or.inl this
  rcases h1 with h1 | h1
  · rw [strip_of_absent _ h1]; exact h
  · have : strip (vs ++ [v]) a = strip vs a := by
      unfold strip
      congr 1
      apply List.filter_congr
      intro kx _
      rw [Bool.eq_iff_iff]
      simp only [List.contains_eq_mem, List.mem_append, List.mem_singleton, Bool.not_eq_eq_eq_not, Bool.not_true, decide_eq_false_iff_not, not_or]
      exact ⟨fun h => h.1, fun h => ⟨h, fun h2 => h (h2 ▸ h1)⟩⟩
    rw [this]; exact h

/-- a term whose stripped exponents were noted shares them with another term -/
theorem merged_of_squished {h : PyDict (HV V ℝ) ℝ} {done : List V} {t : HV V ℝ × ℝ} {q : HV V ℝ} {vs : List V}
    (hsq : ∃ u1 ∈ h, ∃ u2 ∈ h, u1.1 ≠ u2.1 ∧ (Free vs q → (strip done u1.1 == q) = true ∧ (strip done u2.1 == q) = true))
    (hfree : Free vs q) (hq : (strip done t.1 == q) = true) : ∃ t' ∈ h, t'.1 ≠ t.1 ∧ (strip done t.1 == strip done t'.1) = true := by
  obtain ⟨u1, hu1, u2, hu2, hne, h1⟩ := hsq
  obtain ⟨h2, h3⟩ := h1 hfree
  by_cases h4 : u1.1 = t.1
  · exact ⟨u2, hu2, fun h5 => hne (h4.trans h5.symm), BEq.trans hq (BEq.symm h3)⟩
  · exact ⟨u1, hu1, h4, BEq.trans hq (BEq.symm h2)⟩

/-- the map after a term was added to it -/
theorem subFill_subAdd {cp : PyDict (HV V ℝ) ℝ} (hwf : WF cp) (hnz : ∀ t ∈ cp, t.2 = 0 → t.1.items = []) (e : HV V ℝ) {v : ℝ} (hv : v ≠ 0) :
    WF (subFill (subAdd cp e v)) ∧ (∀ t ∈ subFill (subAdd cp e v), t.2 = 0 → t.1.items = []) ∧
    (∀ t ∈ subFill (subAdd cp e v), t.1.items = [] ∨ (e == t.1) = true ∨ ∃ w, (t.1, w) ∈ cp) ∧
    (∀ q, cp.contains q = true → (subFill (subAdd cp e v)).contains q = true ∨ (e == q) = true ∧ cp.contains e = true) ∧
    ((subFill (subAdd cp e v)).contains e = true ∨ cp.contains e = true) := by
  have hfill : ∀ d : PyDict (HV V ℝ) ℝ, ∀ q, d.contains q = true → (subFill d).contains q = true := by
    intro d q hd
    unfold subFill
    split_ifs with h1
    · rw [List.isEmpty_iff] at h1; subst h1; cases hd
    · exact hd
  have hadd : (∀ t ∈ subAdd cp e v, t.2 = 0 → t.1.items = []) ∧
      (∀ q, cp.contains q = true → (subAdd cp e v).contains q = true ∨ (e == q) = true ∧ cp.contains e = true) ∧
      ((subAdd cp e v).contains e = true ∨ cp.contains e = true) := by
    unfold subAdd
    cases hg : cp.get? e with
    | none =>
      simp only [hv, ne_eq, not_false_eq_true, if_true]
      refine ⟨?_, ?_, ?_⟩
      · intro t ht h0
        rcases keys_beq_of_mem_set ht with ⟨_, h2⟩ | h2
        · rw [h2] at h0; exact absurd h0 hv
        · exact hnz t h2 h0
      · intro q hq
        left
        rw [contains_set_iff, hq]; simp
      · left
        rw [contains_set_iff]; simp
    | some c =>
      have hce : cp.contains e = true := contains_iff.2 ⟨c, hg⟩
      simp only
      split_ifs with h1
      · refine ⟨?_, ?_, Or.inr hce⟩
        · intro t ht h0
          rcases keys_beq_of_mem_set ht with ⟨_, h2⟩ | h2
          · rw [h2] at h0
            exact absurd (by linarith : v = -c) h1
          · exact hnz t h2 h0
        · intro q hq
          left
          rw [contains_set_iff, hq]; simp
      · refine ⟨?_, ?_, Or.inr hce⟩
        · exact fun t ht => hnz t ((del_sublist _ _).subset ht)
        · intro q hq
          rw [contains_del_iff hwf, hq]
          by_cases hb : e == q
          · exact Or.inr ⟨hb, hce⟩
          · left; simp [hb]
  refine ⟨subFill_wf (subAdd_wf hwf _ _), ?_, ?_, ?_, ?_⟩
  · intro t ht h0
    rcases subFill_keys ht with h1 | h1
    · exact h1
    · exact hadd.1 t h1 h0
  · intro t ht
    rcases subFill_keys ht with h1 | h1
    · exact Or.inl h1
    · rcases subAdd_keys h1 with h2 | h2
      · right; left; rw [h2]; exact BEq.rfl
      · exact Or.inr (Or.inr h2)
  · intro q hq
    rcases hadd.2.1 q hq with h1 | h1
    · exact Or.inl (hfill _ _ h1)
    · exact Or.inr h1
  · rcases hadd.2.2 with h1 | h1
    · exact Or.inl (hfill _ _ h1)
    · exact Or.inr h1

theorem track_step {h : PyDict (HV V ℝ) ℝ} (hwf : WF h) (hw : ∀ t ∈ h, WF t.1.items) {done later : List V} {vk : V}
    (hlate : MergesLate h (done ++ vk :: later)) (hnd : (done ++ vk :: later).Nodup) {cval : ℝ} (hcv : 0 < cval)
    {t : HV V ℝ × ℝ} (ht : t ∈ h) (hvt : t.1.get? vk ≠ none) {L : List (HV V ℝ)} (hnL : t.1 ∉ L) (hLv : ∀ o ∈ L, o.get? vk ≠ none) {s s' : SubState V ℝ}
    (inv : TrackR h done vk later (t.1 :: L) s) (hs : subinplace s t.1 vk cval = .ok s') : TrackR h done vk later L s' := by
  obtain ⟨e, x, he, hx, hd, _, hcase⟩ := subinplace_ok hs
  have hvd : vk ∉ done := fun h2 => (List.nodup_append.1 hnd).2.2 vk h2 vk (by simp) rfl
  have hcur : ∀ u ∈ h, cur done vk L u.1 = open Classical in if u.1 = t.1 then strip (done ++ [vk]) u.1 else cur done vk (t.1 :: L) u.1 := by
    intro u _
    unfold cur
    by_cases hu : u.1 = t.1
    · rw [if_pos hu, hu, if_neg hnL]
    · rw [if_neg hu]
      by_cases hL : u.1 ∈ L
      · rw [if_pos hL, if_pos (List.mem_cons_of_mem _ hL)]
      · rw [if_neg hL, if_neg (by rw [List.mem_cons, not_or]; exact ⟨hu, hL⟩)]
  have he' : e = strip done t.1 := by
    rw [inv.em, get?_map_eq hwf ht (fun u => cur done vk (t.1 :: L) u.1)] at he
    injection he with he
    rw [← he]; simp [cur]
  have hed : e.del vk = strip (done ++ [vk]) t.1 := by rw [he', strip_del (hw t ht)]
  have hwe : WF e.items := by rw [he']; exact strip_wf (hw t ht) _
  have hpw : pw cval x ≠ 0 := by rw [pw_real]; exact (Real.rpow_pos_of_pos hcv x).ne'
  have hem : s'.expmap = s.expmap.set t.1 (e.del vk) → s'.expmap = h.map (fun u => (u.1, cur done vk L u.1)) := by
    intro h1
    rw [h1, inv.em, set_map_eq hwf ht (fun u => cur done vk (t.1 :: L) u.1)]
    apply List.map_congr_left
    intro u hu
    rw [hcur u hu]
    by_cases hut : u.1 = t.1
    · simp only [hut, if_true]; rw [hed]
    · simp only [hut, if_false]
  have hnote : ∀ u : HV V ℝ × ℝ, (e == strip (done ++ [vk]) u.1) = false := by
    intro u
    by_contra h1
    simp only [Bool.not_eq_false] at h1
    have := hv_get?_congr hwe h1 vk
    rw [hx, strip_get?] at this
    simp at this
  have hlater : ∀ t1 ∈ h, ∀ t2 ∈ h, (strip (done ++ [vk]) t1.1 == strip (done ++ [vk]) t2.1) = true → (∀ w ∈ later, t2.1.get? w = none) →
      ∀ w ∈ later, t1.1.get? w = none := by
    intro t1 ht1 t2 _ hbe h2 w hwl
    have h6 := hv_get?_congr (strip_wf (hw t1 ht1) _) hbe w
    have hwd : w ∉ done ++ [vk] := by
      have hnd' : ((done ++ [vk]) ++ later).Nodup := by simpa using hnd
      exact fun h7 => (List.nodup_append.1 hnd').2.2 w h7 w hwl rfl
    rw [strip_get?, strip_get?, if_neg hwd, if_neg hwd, h2 w hwl] at h6
    exact h6
  rcases hcase with ⟨c, hc, hcp, hexp, hsq⟩ | ⟨hc, hcp, hsq, hexp⟩
  · have hc0 : c ≠ 0 := by
      intro h0
      obtain ⟨k, hk, hke⟩ := exists_mem_of_get? hc
      have h1 := inv.nz _ hk h0
      have h2 := hv_get?_congr (by rw [h1]; simp [WF]) hke vk
      rw [hx] at h2
      simp only at h1
      unfold HV.get? at h2
      rw [h1] at h2
      cases h2
    obtain ⟨f1, f2, f3, f4, f5⟩ := subFill_subAdd (cp := s.cp.del e) (wf_del inv.wf e) (fun u hu => inv.nz u ((del_sublist _ _).subset hu)) (e.del vk)
      (mul_ne_zero hpw hc0)
    rw [← hcp] at f1 f2 f3 f4 f5
    have hmono : ∀ q, s.squished.contains q = true → s'.squished.contains q = true := by
      intro q hq
      rw [hsq]
      split_ifs
      · simp only [List.contains_iff_exists_mem_beq, List.mem_append] at hq ⊢
        obtain ⟨a, ha, hb⟩ := hq
        exact ⟨a, Or.inl ha, hb⟩
      · exact hq
    have hnoted : (s.cp.del e).contains (e.del vk) = true → ∀ q, (e.del vk == q) = true → s'.squished.contains q = true := by
      intro h2 q hq
      rw [hsq, if_pos h2]
      simp only [List.contains_iff_exists_mem_beq, List.mem_append, List.mem_singleton]
      exact ⟨e.del vk, Or.inr rfl, BEq.symm hq⟩
    have hold : ∀ q ∈ s'.squished, q ∈ s.squished ∨ q = e.del vk ∧ (s.cp.del e).contains (e.del vk) = true := by
      intro q hq
      rw [hsq] at hq
      split_ifs at hq with h1
      · rcases List.mem_append.1 hq with h2 | h2
        · exact Or.inl h2
        · exact Or.inr ⟨by simpa using h2, h1⟩
      · exact Or.inl hq
    have hnov : (e.del vk).get? vk = none := by rw [hed, strip_get?]; simp
    -- another term that has the new exponents
    have hother : (s.cp.del e).contains (e.del vk) = true → (e.del vk).items = [] ∨
        ∃ u ∈ h, u.1 ≠ t.1 ∧ (strip (done ++ [vk]) u.1 == e.del vk) = true := by
      intro h1
      obtain ⟨y, hy⟩ := contains_iff.1 h1
      obtain ⟨k, hk, hke⟩ := exists_mem_of_get? hy
      have hkm := (del_sublist _ _).subset hk
      rcases inv.keys _ hkm with h2 | ⟨u, hu, h2⟩
      · left
        have := HV.beq_iff.1 hke
        simp only at h2
        rw [h2] at this
        exact List.nil_perm.1 this
      · right
        have hcu : (cur done vk (t.1 :: L) u.1 == e.del vk) = true := BEq.trans h2 hke
        have huL : u.1 ∉ t.1 :: L := by
          intro h3
          have h4 : cur done vk (t.1 :: L) u.1 = strip done u.1 := by unfold cur; rw [if_pos h3]
          rw [h4] at hcu
          have h5 := hv_get?_congr (strip_wf (hw u hu) _) hcu vk
          rw [hnov, strip_get?, if_neg hvd] at h5
          rcases List.mem_cons.1 h3 with h6 | h6
          · rw [h6] at h5; exact hvt h5
          · exact hLv _ h6 h5
        have h4 : cur done vk (t.1 :: L) u.1 = strip (done ++ [vk]) u.1 := by unfold cur; rw [if_neg huL]
        rw [h4] at hcu
        exact ⟨u, hu, fun h5 => huL (by rw [h5]; simp), hcu⟩
    refine ⟨hem hexp, f1, f2, ?_, ?_, ?_, ?_, ?_, ?_, ?_⟩
    · intro p hp
      rcases f3 p hp with h1 | h1 | ⟨y, h1⟩
      · exact Or.inl h1
      · right
        refine ⟨t, ht, ?_⟩
        rw [hcur t ht, if_pos rfl, ← hed]; exact h1
      · have h2 := (del_sublist _ _).subset h1
        rcases inv.keys _ h2 with h3 | ⟨u, hu, h3⟩
        · exact Or.inl h3
        · right
          refine ⟨u, hu, ?_⟩
          rw [hcur u hu]
          by_cases hut : u.1 = t.1
          · exfalso
            have h4 : cur done vk (t.1 :: L) u.1 = e := by rw [he', hut]; unfold cur; rw [if_pos (by simp)]
            rw [h4] at h3
            have := not_mem_del inv.wf h1
            simp only at this h3
            rw [BEq.comm, h3] at this
            cases this
          · rw [if_neg hut]; exact h3
    · intro q hq hqv
      rcases hold q hq with h1 | ⟨h1, _⟩
      · exact inv.sq0 q h1 hqv
      · rw [h1] at hqv; exact absurd hnov hqv
    · intro q hq
      rcases hold q hq with h1 | ⟨h1, h2⟩
      · exact inv.sq1 q h1
      · rcases hother h2 with h3 | ⟨u, hu, hut, h3⟩
        · left; rw [h1]; exact h3
        · right
          refine ⟨t, ht, u, hu, Ne.symm hut, fun _ => ⟨?_, ?_⟩⟩
          · rw [h1, hed]; exact BEq.rfl
          · rw [h1]; exact h3
    · intro u hu huL
      by_cases hut : u.1 = t.1
      · rw [hut, ← hed]
        rcases f5 with h1 | h1
        · exact Or.inl h1
        · exact Or.inr (Or.inl (hnoted h1 _ BEq.rfl))
      · rcases inv.k1 u hu (by rw [List.mem_cons, not_or]; exact ⟨hut, huL⟩) with h1 | h1 | h1
        · have h2 : (s.cp.del e).contains (strip (done ++ [vk]) u.1) = true := by
            rw [contains_del_iff inv.wf, hnote u, h1]; rfl
          rcases f4 _ h2 with h3 | ⟨h3, h4⟩
          · exact Or.inl h3
          · exact Or.inr (Or.inl (hnoted h4 _ h3))
        · exact Or.inr (Or.inl (hmono _ h1))
        · exact Or.inr (Or.inr h1)
    · intro u hu huL
      have hut : u.1 ≠ t.1 := fun h1 => hnL (h1 ▸ huL)
      rcases inv.k2 u hu (List.mem_cons_of_mem _ huL) with h1 | h1 | h1
      · by_cases hbe : (e == strip done u.1) = true
        · exact Or.inr (Or.inr ⟨t, ht, Ne.symm hut, by rw [← he']; exact BEq.symm hbe⟩)
        · have h2 : (s.cp.del e).contains (strip done u.1) = true := by
            rw [contains_del_iff inv.wf, h1]; simp [hbe]
          rcases f4 _ h2 with h3 | ⟨h3, h4⟩
          · exact Or.inl h3
          · exact Or.inr (Or.inl (hnoted h4 _ h3))
      · exact Or.inr (Or.inl (hmono _ h1))
      · exact Or.inr (Or.inr h1)
    · intro t1 ht1 t2 ht2 hne hbe
      rcases inv.c0 t1 ht1 t2 ht2 hne hbe with h1 | h1
      · exact Or.inl (hmono _ h1)
      · exact Or.inr h1
    · have hpair : ∀ u ∈ h, u.1 ≠ t.1 → u.1 ∉ L → (strip (done ++ [vk]) u.1 == e.del vk) = true →
          s'.squished.contains (e.del vk) = true ∨ ∀ w ∈ later, u.1.get? w = none := by
        intro u hu hut huL hbe
        rcases inv.k1 u hu (by rw [List.mem_cons, not_or]; exact ⟨hut, huL⟩) with h1 | h1 | h1
        · left
          refine hnoted ?_ _ BEq.rfl
          rw [← contains_congr _ hbe, contains_del_iff inv.wf, hnote u, h1]; rfl
        · left
          have h2 := hmono _ h1
          simp only [List.contains_iff_exists_mem_beq] at h2 ⊢
          obtain ⟨a, ha, hb⟩ := h2
          exact ⟨a, ha, BEq.trans (BEq.symm hbe) hb⟩
        · exact Or.inr h1
      intro t1 ht1 t2 ht2 hne h1L h2L hbe
      by_cases h1 : t1.1 = t.1
      · have h2 : t2.1 ≠ t.1 := fun h3 => hne (h1.trans h3.symm)
        rcases hpair t2 ht2 h2 h2L (by rw [hed, ← h1]; exact BEq.symm hbe) with h3 | h3
        · left; rw [h1, ← hed]; exact h3
        · right; exact hlater t1 ht1 t2 ht2 hbe h3
      · by_cases h2 : t2.1 = t.1
        · rcases hpair t1 ht1 h1 h1L (by rw [hed, ← h2]; exact hbe) with h3 | h3
          · left
            simp only [List.contains_iff_exists_mem_beq] at h3 ⊢
            obtain ⟨a, ha, hb⟩ := h3
            refine ⟨a, ha, BEq.trans ?_ hb⟩
            rw [hed, ← h2]; exact hbe
          · exact Or.inr h3
        · rcases inv.c1 t1 ht1 t2 ht2 hne (by rw [List.mem_cons, not_or]; exact ⟨h1, h1L⟩) (by rw [List.mem_cons, not_or]; exact ⟨h2, h2L⟩) hbe with h3 | h3
          · exact Or.inl (hmono _ h3)
          · exact Or.inr h3
  · -- the term was moved or cancelled with another one
    have hmer : s.squished.contains e = true ∧ ∃ t' ∈ h, t'.1 ≠ t.1 ∧ (strip done t.1 == strip done t'.1) = true := by
      have hk2 := inv.k2 t ht List.mem_cons_self
      rw [← he'] at hk2
      rcases hk2 with h1 | h1 | ⟨t', ht', h1, h2⟩
      · unfold PyDict.contains at h1; rw [hc] at h1; cases h1
      · refine ⟨h1, ?_⟩
        simp only [List.contains_iff_exists_mem_beq] at h1
        obtain ⟨q, hq, hb⟩ := h1
        have hqv : q.get? vk ≠ none := by rw [← hv_get?_congr hwe hb, hx]; simp
        have hfr : Free done q := by
          intro v hv
          rw [← hv_get?_congr hwe hb, he', strip_get?, if_pos hv]
        exact merged_of_squished (inv.sq0 q hq hqv) hfr (by rw [← he']; exact hb)
      · refine ⟨?_, t', ht', h1, by rw [← he']; exact h2⟩
        rcases inv.c0 t ht t' ht' (Ne.symm h1) (by rw [← he']; exact h2) with h3 | h3
        · rw [he']; exact h3
        · exact absurd (h3 vk (by simp)) hvt
    obtain ⟨hsqe, t', ht', h3, h5⟩ := hmer
    have hexp' : s'.expmap = s.expmap.set t.1 (e.del vk) := by
      rcases hexp with ⟨_, h1⟩ | ⟨h1, _⟩
      · exact h1
      · rw [hsqe] at h1; cases h1
    have hlt : ∀ w ∈ later, t.1.get? w = none := hlate t ht t' ht' (Ne.symm h3) done vk later rfl h5 hvt
    refine ⟨hem hexp', by rw [hcp]; exact inv.wf, by rw [hcp]; exact inv.nz, ?_, by rw [hsq]; exact inv.sq0, by rw [hsq]; exact inv.sq1, ?_, ?_,
      by rw [hsq]; exact inv.c0, ?_⟩
    · rw [hcp]
      intro p hp
      rcases inv.keys p hp with h1 | ⟨u, hu, h1⟩
      · exact Or.inl h1
      · by_cases hut : u.1 = t.1
        · exfalso
          have h4 : cur done vk (t.1 :: L) u.1 = e := by rw [he', hut]; unfold cur; rw [if_pos (by simp)]
          rw [h4] at h1
          have h6 := get?_congr s.cp h1
          rw [hc] at h6
          have h7 := get?_of_mem inv.wf hp
          rw [← h6] at h7; cases h7
        · right
          refine ⟨u, hu, ?_⟩
          rw [hcur u hu, if_neg hut]; exact h1
    · intro u hu huL
      rw [hcp, hsq]
      by_cases hut : u.1 = t.1
      · right; right; rw [hut]; exact hlt
      · exact inv.k1 u hu (by rw [List.mem_cons, not_or]; exact ⟨hut, huL⟩)
    · intro u hu huL
      rw [hcp, hsq]
      exact inv.k2 u hu (List.mem_cons_of_mem _ huL)
    · intro t1 ht1 t2 ht2 hne h1L h2L hbe
      rw [hsq]
      by_cases h1 : t1.1 = t.1
      · right; rw [h1]; exact hlt
      · by_cases h2' : t2.1 = t.1
        · right
          exact hlater t1 ht1 t2 ht2 hbe (by rw [h2']; exact hlt)
        · exact inv.c1 t1 ht1 t2 ht2 hne (by rw [List.mem_cons, not_or]; exact ⟨h1, h1L⟩) (by rw [List.mem_cons, not_or]; exact ⟨h2', h2L⟩) hbe

theorem track_loop {h : PyDict (HV V ℝ) ℝ} (hwf : WF h) (hw : ∀ t ∈ h, WF t.1.items) {done later : List V} {vk : V}
    (hlate : MergesLate h (done ++ vk :: later)) (hnd : (done ++ vk :: later).Nodup) {cval : ℝ} (hcv : 0 < cval) :
    ∀ (L : List (HV V ℝ)) (s s' : SubState V ℝ), L.Nodup → (∀ o ∈ L, o ∈ h.map (·.1) ∧ o.get? vk ≠ none) → TrackR h done vk later L s →
      L.foldlM (fun s o => subinplace s o vk cval) s = .ok s' → TrackR h done vk later [] s' := by
  intro L
  induction L with
  | nil => intro s s' _ _ inv hs; cases hs; exact inv
  | cons o L ih =>
    intro s s' hndL hL inv hs
    rw [List.foldlM_cons] at hs
    cases h1 : subinplace s o vk cval with
    | error e => rw [h1] at hs; cases hs
    | ok s1 =>
      rw [h1] at hs
      obtain ⟨h2, h3⟩ := hL o List.mem_cons_self
      obtain ⟨t, ht, rfl⟩ := List.mem_map.1 h2
      exact ih s1 s' (List.nodup_cons.1 hndL).2 (fun q hq => hL q (List.mem_cons_of_mem _ hq))
        (track_step hwf hw hlate hnd hcv ht h3 (List.nodup_cons.1 hndL).1 (fun q hq => (hL q (List.mem_cons_of_mem _ hq)).2) inv h1) hs

theorem track_round {h : PyDict (HV V ℝ) ℝ} (hwf : WF h) (hw : ∀ t ∈ h, WF t.1.items) {fixed : PyDict V ℝ} {done later : List V} {r : V × List (HV V ℝ)}
    (hlate : MergesLate h (done ++ r.1 :: later)) (hnd : (done ++ r.1 :: later).Nodup) (hpos : ∀ v c, fixed.get? v = some c → 0 < c)
    (hperm : (locs h r.1).Perm r.2) {s s' : SubState V ℝ} (inv : TrackI h done (r.1 :: later) s) (hs : subRound fixed s r = .ok s') :
    TrackI h (done ++ [r.1]) later s' := by
  unfold subRound at hs
  cases hf : fixed.get? r.1 with
  | none => rw [hf] at hs; cases hs
  | some cval =>
    rw [hf] at hs
    simp only at hs
    have hin : ∀ o, o ∈ r.2 ↔ o ∈ h.map (·.1) ∧ o.get? r.1 ≠ none := by
      intro o; rw [← hperm.mem_iff]; exact mem_locs
    have habs : ∀ t ∈ h, t.1 ∉ r.2 → t.1.get? r.1 = none := by
      intro t ht h1
      by_contra h2
      exact h1 ((hin _).2 ⟨List.mem_map.2 ⟨t, ht, rfl⟩, h2⟩)
    have hc : ∀ t ∈ h, cur done r.1 r.2 t.1 = strip done t.1 := by
      intro t ht
      unfold cur
      split_ifs with h1
      · rfl
      · exact strip_of_absent _ (habs t ht h1)
    have inv0 : TrackR h done r.1 later r.2 s := by
      refine ⟨?_, inv.wf, inv.nz, ?_, ?_, ?_, ?_, ?_, inv.c, ?_⟩
      · rw [inv.em]
        apply List.map_congr_left
        intro t ht
        rw [hc t ht]
      · intro p hp
        rcases inv.keys p hp with h1 | ⟨u, hu, h1⟩
        · exact Or.inl h1
        · exact Or.inr ⟨u, hu, by rw [hc u hu]; exact h1⟩
      · intro q hq hqv
        rcases inv.sq q hq with h1 | h1
        · unfold HV.get? at hqv; rw [h1] at hqv; exact absurd rfl hqv
        · exact h1
      · intro q hq
        rcases inv.sq q hq with h1 | ⟨u1, hu1, u2, hu2, hne, h1⟩
        · exact Or.inl h1
        · right
          refine ⟨u1, hu1, u2, hu2, hne, ?_⟩
          intro hfr
          obtain ⟨h2, h3⟩ := h1 (fun v hv => hfr v (List.mem_append_left _ hv))
          have h4 := hfr r.1 (by simp)
          exact ⟨strip_snoc_of_free (hw u1 hu1) h2 h4, strip_snoc_of_free (hw u2 hu2) h3 h4⟩
      · intro t ht h1
        rw [strip_of_absent _ (habs t ht h1)]
        rcases inv.k t ht with h2 | h2 | h2
        · exact Or.inl h2
        · exact Or.inr (Or.inl h2)
        · exact Or.inr (Or.inr (fun w hwl => h2 w (List.mem_cons_of_mem _ hwl)))
      · intro t ht h1
        rcases inv.k t ht with h2 | h2 | h2
        · exact Or.inl h2
        · exact Or.inr (Or.inl h2)
        · exact absurd (h2 r.1 (by simp)) ((hin _).1 h1).2
      · intro t1 ht1 t2 ht2 hne h1 h2 hbe
        rw [strip_of_absent _ (habs t1 ht1 h1)] at hbe ⊢
        rw [strip_of_absent _ (habs t2 ht2 h2)] at hbe
        rcases inv.c t1 ht1 t2 ht2 hne hbe with h3 | h3
        · exact Or.inl h3
        · exact Or.inr (fun w hwl => h3 w (List.mem_cons_of_mem _ hwl))
    have inv1 := track_loop hwf hw hlate hnd (hpos _ _ hf) r.2 s s' (hperm.nodup_iff.1 (locs_nodup hwf _)) (fun o ho => (hin o).1 ho) inv0 hs
    refine ⟨?_, inv1.wf, inv1.nz, ?_, inv1.sq1, fun t ht => inv1.k1 t ht (by simp), fun t1 ht1 t2 ht2 hne hbe => inv1.c1 t1 ht1 t2 ht2 hne (by simp) (by simp) hbe⟩
    · rw [inv1.em]; simp [cur]
    · intro p hp
      have := inv1.keys p hp
      simpa [cur] using this

theorem track_rounds {h : PyDict (HV V ℝ) ℝ} (hwf : WF h) (hw : ∀ t ∈ h, WF t.1.items) {fixed : PyDict V ℝ}
    (hpos : ∀ v c, fixed.get? v = some c → 0 < c) :
    ∀ (rounds : List (V × List (HV V ℝ))) (done : List V) (s s' : SubState V ℝ), MergesLate h (done ++ rounds.map (·.1)) →
      (done ++ rounds.map (·.1)).Nodup → (∀ r ∈ rounds, (locs h r.1).Perm r.2) → TrackI h done (rounds.map (·.1)) s →
      rounds.foldlM (subRound fixed) s = .ok s' → TrackI h (done ++ rounds.map (·.1)) [] s' := by
  intro rounds
  induction rounds with
  | nil => intro done s s' _ _ _ inv hs; cases hs; simpa using inv
  | cons r rounds ih =>
    intro done s s' hlate hnd hperm inv hs
    rw [List.foldlM_cons] at hs
    rw [List.map_cons] at hlate hnd inv ⊢
    cases h1 : subRound fixed s r with
    | error e => rw [h1] at hs; cases hs
    | ok s1 =>
      rw [h1] at hs
      have inv1 := track_round hwf hw hlate hnd hpos (hperm r List.mem_cons_self) inv h1
      have hass : done ++ r.1 :: rounds.map (·.1) = (done ++ [r.1]) ++ rounds.map (·.1) := by simp
      rw [hass] at hlate hnd ⊢
      exact ih _ s1 s' hlate hnd (fun q hq => hperm q (List.mem_cons_of_mem _ hq)) inv1 hs

/-- After `sub`, `expmap` has the exponents without the substituted variables. -/
theorem tracked_of_sub {h : PyDict (HV V ℝ) ℝ} (hc : TermsCanonical h) {fixed : PyDict V ℝ}
    (hfix : ∀ v c, fixed.get? v = some c → 0 < c) {rounds : List (V × List (HV V ℝ))} (ho : SetOrder (varlocs h fixed) rounds)
    (hlate : MergesLate h (varlocKeys h fixed)) {s : SubState V ℝ} (hs : subState h fixed rounds = .ok s) :
    s.expmap = h.map (fun t => (t.1, strip (varlocKeys h fixed) t.1)) := by
  obtain ⟨hwf, hnz, hw⟩ := (termsCanonical_iff _).1 hc
  have hw' : ∀ t ∈ h, WF t.1.items := fun t ht => ((expCanonical_iff _).1 (hw t ht)).1
  unfold subState at hs
  by_cases hf : fixed.isEmpty
  · rw [if_pos hf] at hs
    cases hs
    rw [List.isEmpty_iff] at hf
    subst hf
    have hk : varlocKeys h ([] : PyDict V ℝ) = [] := by
      rw [List.eq_nil_iff_forall_not_mem]
      intro v hv
      have := (mem_varlocKeys.1 hv).2
      cases this
    rw [hk]; simp [strip_nil]
  · rw [if_neg hf, subInit_eq hwf] at hs
    obtain ⟨hk, hnd, hperm⟩ := setOrder_facts ho
    have inv0 : TrackI h [] (rounds.map (·.1)) ⟨h, h.map (fun t => (t.1, t.1)), h, []⟩ := by
      refine ⟨by simp [strip_nil], hwf, fun t ht h0 => absurd h0 (hnz t ht), ?_, (by intro q hq; cases hq), ?_, ?_⟩
      · intro p hp
        right
        exact ⟨p, hp, by rw [strip_nil]; exact BEq.rfl⟩
      · intro t ht; left; rw [strip_nil]; exact contains_iff.2 ⟨_, get?_of_mem hwf ht⟩
      · intro t1 h1 t2 h2 hne hbe
        rw [strip_nil, strip_nil] at hbe
        exfalso
        have hsym : ∀ a b : HV V ℝ × ℝ, (a.1 == b.1) = false → (b.1 == a.1) = false := by
          intro a b h; rw [BEq.comm]; exact h
        have := List.Pairwise.forall_of_forall_of_flip (R := fun a b : HV V ℝ × ℝ => a ≠ b → (a.1 == b.1) = false) (l := h)
          (fun a _ h => absurd rfl h) (List.Pairwise.imp (fun {a b} h (_ : a ≠ b) => h) hwf)
          (List.Pairwise.imp (fun {a b} h (_ : b ≠ a) => hsym a b h) hwf) h1 h2 (fun h => hne (by rw [h]))
        rw [hbe] at this; cases this
    have inv := track_rounds hwf hw' hfix rounds [] _ s (by rw [hk]; simpa using hlate) (by simpa using hnd) hperm inv0 hs
    rw [List.nil_append, hk] at inv
    exact inv.em

end Verif
