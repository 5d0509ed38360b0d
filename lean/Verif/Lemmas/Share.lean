import Verif.Spec.Share
import Verif.Props.Substitution

/-! What `sub` keeps in `expmap` and `csmap`. -/

set_option linter.unusedSectionVars false

namespace Verif
open PyDict

variable {V : Type} [DecidableEq V]

theorem pydel_eq_filter {d : PyDict V ℝ} (h : WF d) (v : V) : d.del v = d.filter (fun kx => !(kx.1 == v)) := by
  induction d with
  | nil => rfl
  | cons p d ih =>
    obtain ⟨k, x⟩ := p
    obtain ⟨h1, h2⟩ := wf_cons.1 h
    rw [del_cons, List.filter_cons]
    by_cases hk : k == v
    · simp only [hk, if_true, Bool.not_true, Bool.false_eq_true, if_false]
      symm
      rw [List.filter_eq_self]
      intro q hq
      have := h1 q hq
      simp only [beq_iff_eq] at hk
      rw [← hk]
      simp only [beq_eq_false_iff_ne, ne_eq] at this
      simpa using fun h' => this (Eq.symm h')
    · simp only [hk, Bool.not_false, if_true, if_false, Bool.false_eq_true]
      rw [ih h2]

theorem strip_nil (e : HV V ℝ) : strip [] e = e := by
  obtain ⟨i⟩ := e
  simp [strip]

theorem strip_wf {e : HV V ℝ} (h : WF e.items) (vs : List V) : WF (strip vs e).items :=
  List.Pairwise.sublist List.filter_sublist h

theorem strip_del {e : HV V ℝ} (h : WF e.items) (vs : List V) (v : V) : (strip vs e).del v = strip (vs ++ [v]) e := by
  have hw := strip_wf h vs
  unfold HV.del
  rw [pydel_eq_filter hw]
  unfold strip
  simp only [List.filter_filter]
  congr 1
  apply List.filter_congr
  intro kx _
  rw [Bool.eq_iff_iff]
  simp [and_comm]

theorem strip_get? {e : HV V ℝ} (vs : List V) (v : V) : (strip vs e).get? v = if v ∈ vs then none else e.get? v := by
  obtain ⟨i⟩ := e
  unfold strip HV.get?
  simp only
  induction i with
  | nil => simp
  | cons p i ih =>
    obtain ⟨k, x⟩ := p
    rw [List.filter_cons, get?_cons]
    by_cases hv : k ∈ vs
    · rw [if_neg (by simp [hv]), ih]
      by_cases hk : k = v
      · subst hk; simp [hv]
      · simp [hk]
    · rw [if_pos (by simp [hv]), get?_cons, ih]
      by_cases hk : k = v
      · subst hk; simp [hv]
      · simp [hk]

theorem strip_of_absent {e : HV V ℝ} (vs : List V) {v : V} (h : e.get? v = none) : strip (vs ++ [v]) e = strip vs e := by
  unfold strip
  congr 1
  apply List.filter_congr
  intro kx hkx
  have := (get?_eq_none_iff.1 h) kx hkx
  rw [Bool.eq_iff_iff]
  simp only [beq_eq_false_iff_ne, ne_eq] at this
  simp [this]

theorem strip_snoc_congr {a b : HV V ℝ} (ha : WF a.items) (hb : WF b.items) {vs : List V} {v : V} (h : (strip vs a == strip vs b) = true) :
    (strip (vs ++ [v]) a == strip (vs ++ [v]) b) = true := by
  rw [HV.beq_iff] at h ⊢
  rw [← strip_del ha, ← strip_del hb]
  unfold HV.del
  simp only
  rw [pydel_eq_filter (strip_wf ha _), pydel_eq_filter (strip_wf hb _)]
  exact h.filter _

theorem set_map_eq {β : Type} {h : PyDict (HV V ℝ) ℝ} (hwf : WF h) {t : HV V ℝ × ℝ} (ht : t ∈ h) (f : HV V ℝ × ℝ → β) (v : β) :
    PyDict.set (h.map (fun s => (s.1, f s))) t.1 v = h.map (fun s => (s.1, open Classical in if s.1 = t.1 then v else f s)) := by
  induction h with
  | nil => cases ht
  | cons p h ih =>
    obtain ⟨h1, h2⟩ := wf_cons.1 hwf
    rw [List.map_cons, set_cons, List.map_cons]
    by_cases hp : p.1 == t.1
    · have hpt : p = t := by
        rcases List.mem_cons.1 ht with h3 | h3
        · exact h3.symm
        · have := h1 t h3; rw [hp] at this; cases this
      subst hpt
      rw [if_pos hp]
      simp only [if_true]
      congr 1
      apply List.map_congr_left
      intro s hs
      have := h1 s hs
      have hne : s.1 ≠ p.1 := by intro h3; rw [h3] at this; simp at this
      rw [if_neg hne]
    · rw [if_neg hp]
      have hne : p.1 ≠ t.1 := by intro h3; rw [h3] at hp; simp at hp
      rw [if_neg hne]
      congr 1
      refine ih h2 ?_
      rcases List.mem_cons.1 ht with h3 | h3
      · exact absurd (by rw [h3]) hne
      · exact h3

theorem get?_map_eq {β : Type} {h : PyDict (HV V ℝ) ℝ} (hwf : WF h) {t : HV V ℝ × ℝ} (ht : t ∈ h) (f : HV V ℝ × ℝ → β) :
    PyDict.get? (h.map (fun s => (s.1, f s))) t.1 = some (f t) := by
  have hw : WF (h.map (fun s => (s.1, f s))) := by
    unfold WF
    rw [List.pairwise_map]
    exact hwf
  exact get?_of_mem hw (List.mem_map.2 ⟨t, ht, rfl⟩)

/-- the exponents of `o` during the round for `vk`, when `L` are still to be treated -/
noncomputable def cur (done : List V) (vk : V) (L : List (HV V ℝ)) (o : HV V ℝ) : HV V ℝ :=
  open Classical in strip (if o ∈ L then done else done ++ [vk]) o

/-- A coefficient with the values of some variables multiplied in. -/
def CsOK (fixed : PyDict V ℝ) (t : HV V ℝ × ℝ) (e : HV V ℝ) (w : ℝ) : Prop :=
  0 < w ∧ ∀ pt : V → ℝ, (∀ v c, fixed.get? v = some c → pt v = c) → w * monVal pt e.items = t.2 * monVal pt t.1.items

/-- Invariant during the round for `vk`. -/
structure ShareR (h : PyDict (HV V ℝ) ℝ) (fixed : PyDict V ℝ) (done : List V) (vk : V) (later : List V) (L : List (HV V ℝ)) (s : SubState V ℝ) : Prop where
  em : s.expmap = h.map (fun t => (t.1, cur done vk L t.1))
  cs : ∃ w : HV V ℝ × ℝ → ℝ, s.csmap = h.map (fun t => (t.1, w t)) ∧ ∀ t ∈ h, CsOK fixed t (cur done vk L t.1) (w t)
  wf : WF s.cp
  pos : ∀ t ∈ s.cp, 0 < t.2
  k1 : ∀ t ∈ h, t.1 ∉ L → s.cp.contains (strip (done ++ [vk]) t.1) = true
  k2 : ∀ t ∈ h, t.1 ∈ L → s.cp.contains (strip done t.1) = true ∨
    ∃ t' ∈ h, t'.1 ∉ L ∧ t'.1 ≠ t.1 ∧ t'.1.get? vk ≠ none ∧ (strip done t.1 == strip done t'.1) = true
  c0 : ∀ t1 ∈ h, ∀ t2 ∈ h, t1.1 ≠ t2.1 → (strip done t1.1 == strip done t2.1) = true →
    s.squished.contains (strip done t1.1) = true ∨ ∀ w ∈ vk :: later, t1.1.get? w = none
  c1 : ∀ t1 ∈ h, ∀ t2 ∈ h, t1.1 ≠ t2.1 → t1.1 ∉ L → t2.1 ∉ L → (strip (done ++ [vk]) t1.1 == strip (done ++ [vk]) t2.1) = true →
    s.squished.contains (strip (done ++ [vk]) t1.1) = true ∨ ∀ w ∈ later, t1.1.get? w = none

/-- Invariant between rounds. -/
structure ShareI (h : PyDict (HV V ℝ) ℝ) (fixed : PyDict V ℝ) (done later : List V) (s : SubState V ℝ) : Prop where
  em : s.expmap = h.map (fun t => (t.1, strip done t.1))
  cs : ∃ w : HV V ℝ × ℝ → ℝ, s.csmap = h.map (fun t => (t.1, w t)) ∧ ∀ t ∈ h, CsOK fixed t (strip done t.1) (w t)
  wf : WF s.cp
  pos : ∀ t ∈ s.cp, 0 < t.2
  k : ∀ t ∈ h, s.cp.contains (strip done t.1) = true
  c : ∀ t1 ∈ h, ∀ t2 ∈ h, t1.1 ≠ t2.1 → (strip done t1.1 == strip done t2.1) = true →
    s.squished.contains (strip done t1.1) = true ∨ ∀ w ∈ later, t1.1.get? w = none

theorem subAdd_pos {cp : PyDict (HV V ℝ) ℝ} (h : ∀ t ∈ cp, 0 < t.2) (e : HV V ℝ) {v : ℝ} (hv : 0 < v) :
    (∀ t ∈ subFill (subAdd cp e v), 0 < t.2) ∧ ∃ x, subFill (subAdd cp e v) = cp.set e x := by
  have hex : ∃ x, subAdd cp e v = cp.set e x ∧ 0 < x := by
    unfold subAdd
    cases hg : cp.get? e with
    | none => exact ⟨v, by simp only; rw [if_pos hv.ne'], hv⟩
    | some c =>
      obtain ⟨k, hk, _⟩ := exists_mem_of_get? hg
      have hc := h _ hk
      refine ⟨c + v, ?_, add_pos hc hv⟩
      simp only
      rw [if_pos (by intro h2; rw [h2] at hv; simp only at hc; linarith)]
  obtain ⟨x, hx, hx0⟩ := hex
  have hne : (cp.set e x).isEmpty = false := by
    cases cp with
    | nil => rfl
    | cons p d => obtain ⟨k, y⟩ := p; rw [set_cons]; split_ifs <;> rfl
  have hfill : subFill (subAdd cp e v) = cp.set e x := by
    unfold subFill; rw [hx, if_neg (by rw [hne]; simp)]
  refine ⟨?_, x, hfill⟩
  rw [hfill]
  intro t ht
  rcases keys_beq_of_mem_set ht with ⟨_, h2⟩ | h2
  · rw [h2]; exact hx0
  · exact h t h2

theorem contains_set_iff (d : PyDict (HV V ℝ) ℝ) (e q : HV V ℝ) (x : ℝ) : (d.set e x).contains q = ((e == q) || d.contains q) := by
  unfold PyDict.contains
  rw [get?_set]
  by_cases h : e == q <;> simp [h]

theorem contains_del_iff {d : PyDict (HV V ℝ) ℝ} (h : WF d) (e q : HV V ℝ) : (d.del e).contains q = (!(e == q) && d.contains q) := by
  unfold PyDict.contains
  rw [get?_del h]
  by_cases h : e == q <;> simp [h]

theorem share_step {h : PyDict (HV V ℝ) ℝ} (hwf : WF h) (hw : ∀ t ∈ h, WF t.1.items) {fixed : PyDict V ℝ} {done later : List V} {vk : V}
    (hlate : MergesLate h (done ++ vk :: later)) (hnd : (done ++ vk :: later).Nodup) {cval : ℝ} (hf : fixed.get? vk = some cval) (hcv : 0 < cval)
    {t : HV V ℝ × ℝ} (ht : t ∈ h) (hvt : t.1.get? vk ≠ none) {L : List (HV V ℝ)} (hnL : t.1 ∉ L) {s s' : SubState V ℝ}
    (inv : ShareR h fixed done vk later (t.1 :: L) s) (hs : subinplace s t.1 vk cval = .ok s') : ShareR h fixed done vk later L s' := by
  obtain ⟨e, x, he, hx, hd, hcs, hcase⟩ := subinplace_ok hs
  have hvd : vk ∉ done := fun h2 => (List.nodup_append.1 hnd).2.2 vk h2 vk (by simp) rfl
  have hcur : ∀ u ∈ h, cur done vk L u.1 = open Classical in if u.1 = t.1 then strip (done ++ [vk]) u.1 else cur done vk (t.1 :: L) u.1 := by
    intro u _
    unfold cur
    by_cases hu : u.1 = t.1
    · rw [if_pos hu, hu, if_neg hnL]
    · rw [if_neg hu]
      by_cases hL : u.1 ∈ L
      · rw [if_pos hL, if_pos (List.mem_cons_of_mem _ hL)]
      · rw [if_neg hL, if_neg (by rw [List.mem_cons, not_or]; exact ⟨hu, hL⟩)]
  -- the exponents before
  have he' : e = strip done t.1 := by
    rw [inv.em, get?_map_eq hwf ht (fun u => cur done vk (t.1 :: L) u.1)] at he
    injection he with he
    rw [← he]; simp [cur]
  have hed : e.del vk = strip (done ++ [vk]) t.1 := by rw [he', strip_del (hw t ht)]
  have hxt : t.1.get? vk = some x := by rw [he', strip_get?, if_neg hvd] at hx; exact hx
  have hpw : 0 < pw cval x := by rw [pw_real]; exact Real.rpow_pos_of_pos hcv x
  -- coefficients
  have hcsok : ∃ w : HV V ℝ × ℝ → ℝ, s'.csmap = h.map (fun t => (t.1, w t)) ∧ ∀ u ∈ h, CsOK fixed u (cur done vk L u.1) (w u) := by
    obtain ⟨w, hw1, hw2⟩ := inv.cs
    refine ⟨fun u => open Classical in if u.1 = t.1 then w t * pw cval x else w u, ?_, ?_⟩
    · rw [hcs, hw1]
      unfold csUpdate
      rw [get?_map_eq hwf ht w]
      simp only
      rw [set_map_eq hwf ht w]
    · intro u hu
      rw [hcur u hu]
      by_cases hut : u.1 = t.1
      · have : u = t := by
          have h1 := get?_of_mem hwf hu
          have h2 := get?_of_mem hwf ht
          rw [hut, h2] at h1
          injection h1 with h1
          exact Prod.ext hut h1.symm
        subst this
        simp only [if_true]
        obtain ⟨h1, h2⟩ := hw2 u hu
        refine ⟨mul_pos h1 hpw, ?_⟩
        intro pt hpt
        rw [← h2 pt hpt]
        have : cur done vk (u.1 :: L) u.1 = e := by rw [he']; simp [cur]
        rw [this, monVal_del pt hx, hpt vk cval hf, hed, pw_real]
        ring
      · simp only [hut, if_false]
        exact hw2 u hu
  -- the exponents after, when they are updated
  have hem : s'.expmap = s.expmap.set t.1 (e.del vk) → s'.expmap = h.map (fun u => (u.1, cur done vk L u.1)) := by
    intro h1
    rw [h1, inv.em, set_map_eq hwf ht (fun u => cur done vk (t.1 :: L) u.1)]
    apply List.map_congr_left
    intro u hu
    rw [hcur u hu]
    by_cases hut : u.1 = t.1
    · simp only [hut, if_true]; rw [hed]
    · simp only [hut, if_false]
  -- treated terms do not have the exponents `e`
  have hnote : ∀ u : HV V ℝ × ℝ, (e == strip (done ++ [vk]) u.1) = false := by
    intro u
    by_contra h1
    simp only [Bool.not_eq_false] at h1
    have hwe : WF e.items := by rw [he']; exact strip_wf (hw t ht) _
    have := hv_get?_congr hwe h1 vk
    rw [hx, strip_get?] at this
    simp at this
  rcases hcase with ⟨c, hc, hcp, hexp, hsq⟩ | ⟨hc, hcp, hsq, hexp⟩
  · have hc0 : 0 < c := by
      obtain ⟨k, hk, _⟩ := exists_mem_of_get? hc
      exact inv.pos _ hk
    obtain ⟨hp1, y, hp2⟩ := subAdd_pos (cp := s.cp.del e) (fun u hu => inv.pos u ((del_sublist _ _).subset hu)) (e.del vk) (mul_pos hpw hc0)
    have hcon : ∀ q, s'.cp.contains q = ((e.del vk == q) || (!(e == q) && s.cp.contains q)) := by
      intro q
      rw [hcp, hp2, contains_set_iff, contains_del_iff inv.wf]
    have hmono : ∀ q, s.squished.contains q = true → s'.squished.contains q = true := by
      intro q hq
      rw [hsq]
      split_ifs
      · simp only [List.contains_iff_exists_mem_beq, List.mem_append] at hq ⊢
        obtain ⟨a, ha, hb⟩ := hq
        exact ⟨a, Or.inl ha, hb⟩
      · exact hq
    have hnew : ∀ u ∈ h, u.1 ∉ t.1 :: L → (e.del vk == strip (done ++ [vk]) u.1) = true →
        ∀ q, (e.del vk == q) = true → s'.squished.contains q = true := by
      intro u hu huL hbe q hq
      have h1 := inv.k1 u hu huL
      have h2 : (s.cp.del e).contains (e.del vk) = true := by
        rw [contains_congr _ hbe, contains_del_iff inv.wf, hnote u, h1]; rfl
      rw [hsq, if_pos h2]
      simp only [List.contains_iff_exists_mem_beq, List.mem_append, List.mem_singleton]
      exact ⟨e.del vk, Or.inr rfl, BEq.symm hq⟩
    refine ⟨hem hexp, hcsok, ?_, ?_, ?_, ?_, ?_, ?_⟩
    · rw [hcp, hp2]; exact wf_set (wf_del inv.wf _) _ _
    · rw [hcp]; exact hp1
    · intro u hu huL
      by_cases hut : u.1 = t.1
      · rw [hcon, hut, ← hed]; simp
      · rw [hcon, hnote u, inv.k1 u hu (by simp [hut, huL])]; simp
    · intro u hu huL
      have hut : u.1 ≠ t.1 := fun h1 => hnL (h1 ▸ huL)
      rcases inv.k2 u hu (List.mem_cons_of_mem _ huL) with h1 | ⟨t', ht', h2, h3, h4, h5⟩
      · by_cases hbe : (e == strip done u.1) = true
        · right
          refine ⟨t, ht, hnL, Ne.symm hut, hvt, ?_⟩
          rw [← he']; exact BEq.symm hbe
        · left
          rw [hcon, h1]; simp [hbe]
      · right
        exact ⟨t', ht', fun h6 => h2 (List.mem_cons_of_mem _ h6), h3, h4, h5⟩
    · intro t1 ht1 t2 ht2 hne hbe
      rcases inv.c0 t1 ht1 t2 ht2 hne hbe with h1 | h1
      · exact Or.inl (hmono _ h1)
      · exact Or.inr h1
    · intro t1 ht1 t2 ht2 hne h1L h2L hbe
      by_cases h1 : t1.1 = t.1
      · left
        refine hnew t2 ht2 (by
          rw [List.mem_cons, not_or]
          exact ⟨fun h3 => hne (h1.trans h3.symm), h2L⟩) ?_ _ ?_
        · rw [hed, ← h1]; exact hbe
        · rw [hed, h1]; exact BEq.rfl
      · by_cases h2 : t2.1 = t.1
        · left
          refine hnew t1 ht1 (by simp [h1L, h1]) ?_ _ ?_
          · rw [hed, ← h2]; exact BEq.symm hbe
          · rw [hed, ← h2]; exact BEq.symm hbe
        · rcases inv.c1 t1 ht1 t2 ht2 hne (by simp [h1, h1L]) (by simp [h2, h2L]) hbe with h3 | h3
          · exact Or.inl (hmono _ h3)
          · exact Or.inr h3
  · -- the term was moved with another one
    have hk2 := inv.k2 t ht List.mem_cons_self
    rw [← he'] at hk2
    obtain ⟨t', ht', h2, h3, h4, h5⟩ : ∃ t' ∈ h, t'.1 ∉ t.1 :: L ∧ t'.1 ≠ t.1 ∧ t'.1.get? vk ≠ none ∧ (e == strip done t'.1) = true := by
      rcases hk2 with h1 | h1
      · unfold PyDict.contains at h1; rw [hc] at h1; cases h1
      · exact h1
    have hsqe : s.squished.contains e = true := by
      rcases inv.c0 t ht t' ht' (Ne.symm h3) (by rw [← he']; exact h5) with h1 | h1
      · rw [he']; exact h1
      · exact absurd (h1 vk (by simp)) hvt
    have hexp' : s'.expmap = s.expmap.set t.1 (e.del vk) := by
      rcases hexp with ⟨_, h1⟩ | ⟨h1, _⟩
      · exact h1
      · rw [hsqe] at h1; cases h1
    have hlt : ∀ w ∈ later, t.1.get? w = none :=
      hlate t ht t' ht' (Ne.symm h3) done vk later rfl (by rw [← he']; exact h5) hvt
    have hsame : (strip (done ++ [vk]) t.1 == strip (done ++ [vk]) t'.1) = true :=
      strip_snoc_congr (hw t ht) (hw t' ht') (by rw [← he']; exact h5)
    refine ⟨hem hexp', hcsok, by rw [hcp]; exact inv.wf, by rw [hcp]; exact inv.pos, ?_, ?_, by rw [hsq]; exact inv.c0, ?_⟩
    · intro u hu huL
      rw [hcp]
      by_cases hut : u.1 = t.1
      · rw [hut, contains_congr _ hsame]; exact inv.k1 t' ht' h2
      · exact inv.k1 u hu (by simp [hut, huL])
    · intro u hu huL
      rw [hcp]
      rcases inv.k2 u hu (List.mem_cons_of_mem _ huL) with h6 | ⟨u', hu', h7, h8, h9, h10⟩
      · exact Or.inl h6
      · exact Or.inr ⟨u', hu', fun h11 => h7 (List.mem_cons_of_mem _ h11), h8, h9, h10⟩
    · intro t1 ht1 t2 ht2 hne h1L h2L hbe
      rw [hsq]
      by_cases h1 : t1.1 = t.1
      · right; rw [h1]; exact hlt
      · by_cases h2' : t2.1 = t.1
        · right
          intro w hwl
          have h6 := hv_get?_congr (strip_wf (hw t1 ht1) _) hbe w
          have hwd : w ∉ done ++ [vk] := by
            have hnd' : ((done ++ [vk]) ++ later).Nodup := by simpa using hnd
            exact fun h7 => (List.nodup_append.1 hnd').2.2 w h7 w hwl rfl
          rw [strip_get?, strip_get?, if_neg hwd, if_neg hwd, h2', hlt w hwl] at h6
          exact h6
        · exact inv.c1 t1 ht1 t2 ht2 hne (by simp [h1, h1L]) (by simp [h2', h2L]) hbe

theorem share_loop {h : PyDict (HV V ℝ) ℝ} (hwf : WF h) (hw : ∀ t ∈ h, WF t.1.items) {fixed : PyDict V ℝ} {done later : List V} {vk : V}
    (hlate : MergesLate h (done ++ vk :: later)) (hnd : (done ++ vk :: later).Nodup) {cval : ℝ} (hf : fixed.get? vk = some cval) (hcv : 0 < cval) :
    ∀ (L : List (HV V ℝ)) (s s' : SubState V ℝ), L.Nodup → (∀ o ∈ L, o ∈ h.map (·.1) ∧ o.get? vk ≠ none) → ShareR h fixed done vk later L s →
      L.foldlM (fun s o => subinplace s o vk cval) s = .ok s' → ShareR h fixed done vk later [] s' := by
  intro L
  induction L with
  | nil => intro s s' _ _ inv hs; cases hs; exact inv
  | cons o L ih =>
    intro s s' hndL hL inv hs
    rw [List.foldlM_cons] at hs
    cases h1 : subinplace s o vk cval with
    | error e => rw [h1] at hs; cases hs
    | ok s1 =>
      rw [h1] at hs
      obtain ⟨h2, h3⟩ := hL o List.mem_cons_self
      obtain ⟨t, ht, rfl⟩ := List.mem_map.1 h2
      exact ih s1 s' (List.nodup_cons.1 hndL).2 (fun q hq => hL q (List.mem_cons_of_mem _ hq))
        (share_step hwf hw hlate hnd hf hcv ht h3 (List.nodup_cons.1 hndL).1 inv h1) hs

theorem share_round {h : PyDict (HV V ℝ) ℝ} (hwf : WF h) (hw : ∀ t ∈ h, WF t.1.items) {fixed : PyDict V ℝ} {done later : List V} {r : V × List (HV V ℝ)}
    (hlate : MergesLate h (done ++ r.1 :: later)) (hnd : (done ++ r.1 :: later).Nodup) (hpos : ∀ v c, fixed.get? v = some c → 0 < c)
    (hperm : (locs h r.1).Perm r.2) {s s' : SubState V ℝ} (inv : ShareI h fixed done (r.1 :: later) s) (hs : subRound fixed s r = .ok s') :
    ShareI h fixed (done ++ [r.1]) later s' := by
  unfold subRound at hs
  cases hf : fixed.get? r.1 with
  | none => rw [hf] at hs; cases hs
  | some cval =>
    rw [hf] at hs
    simp only at hs
    have hin : ∀ o, o ∈ r.2 ↔ o ∈ h.map (·.1) ∧ o.get? r.1 ≠ none := by
      intro o; rw [← hperm.mem_iff]; exact mem_locs
    have habs : ∀ t ∈ h, t.1 ∉ r.2 → t.1.get? r.1 = none := by
      intro t ht h1
      by_contra h2
      exact h1 ((hin _).2 ⟨List.mem_map.2 ⟨t, ht, rfl⟩, h2⟩)
    have hc : ∀ t ∈ h, cur done r.1 r.2 t.1 = strip done t.1 := by
      intro t ht
      unfold cur
      split_ifs with h1
      · rfl
      · exact strip_of_absent _ (habs t ht h1)
    have inv0 : ShareR h fixed done r.1 later r.2 s := by
      refine ⟨?_, ?_, inv.wf, inv.pos, ?_, ?_, inv.c, ?_⟩
      · rw [inv.em]
        apply List.map_congr_left
        intro t ht
        rw [hc t ht]
      · obtain ⟨w, hw1, hw2⟩ := inv.cs
        exact ⟨w, hw1, fun t ht => by rw [hc t ht]; exact hw2 t ht⟩
      · intro t ht h1
        rw [strip_of_absent _ (habs t ht h1)]
        exact inv.k t ht
      · intro t ht _
        exact Or.inl (inv.k t ht)
      · intro t1 ht1 t2 ht2 hne h1 h2 hbe
        rw [strip_of_absent _ (habs t1 ht1 h1)] at hbe ⊢
        rw [strip_of_absent _ (habs t2 ht2 h2)] at hbe
        rcases inv.c t1 ht1 t2 ht2 hne hbe with h3 | h3
        · exact Or.inl h3
        · exact Or.inr (fun w hwl => h3 w (List.mem_cons_of_mem _ hwl))
    have inv1 := share_loop hwf hw hlate hnd hf (hpos _ _ hf) r.2 s s' (hperm.nodup_iff.1 (locs_nodup hwf _)) (fun o ho => (hin o).1 ho) inv0 hs
    refine ⟨?_, ?_, inv1.wf, inv1.pos, fun t ht => inv1.k1 t ht (by simp), fun t1 ht1 t2 ht2 hne hbe => inv1.c1 t1 ht1 t2 ht2 hne (by simp) (by simp) hbe⟩
    · rw [inv1.em]; simp [cur]
    · obtain ⟨w, hw1, hw2⟩ := inv1.cs
      exact ⟨w, hw1, fun t ht => by have := hw2 t ht; simpa [cur] using this⟩

theorem share_rounds {h : PyDict (HV V ℝ) ℝ} (hwf : WF h) (hw : ∀ t ∈ h, WF t.1.items) {fixed : PyDict V ℝ}
    (hpos : ∀ v c, fixed.get? v = some c → 0 < c) :
    ∀ (rounds : List (V × List (HV V ℝ))) (done : List V) (s s' : SubState V ℝ), MergesLate h (done ++ rounds.map (·.1)) →
      (done ++ rounds.map (·.1)).Nodup → (∀ r ∈ rounds, (locs h r.1).Perm r.2) → ShareI h fixed done (rounds.map (·.1)) s →
      rounds.foldlM (subRound fixed) s = .ok s' → ShareI h fixed (done ++ rounds.map (·.1)) [] s' := by
  intro rounds
  induction rounds with
  | nil => intro done s s' _ _ _ inv hs; cases hs; simpa using inv
  | cons r rounds ih =>
    intro done s s' hlate hnd hperm inv hs
    rw [List.foldlM_cons] at hs
    rw [List.map_cons] at hlate hnd inv ⊢
    cases h1 : subRound fixed s r with
    | error e => rw [h1] at hs; cases hs
    | ok s1 =>
      rw [h1] at hs
      have inv1 := share_round hwf hw hlate hnd hpos (hperm r List.mem_cons_self) inv h1
      have hass : done ++ r.1 :: rounds.map (·.1) = (done ++ [r.1]) ++ rounds.map (·.1) := by simp
      rw [hass] at hlate hnd ⊢
      exact ih _ s1 s' hlate hnd (fun q hq => hperm q (List.mem_cons_of_mem _ hq)) inv1 hs

end Verif
