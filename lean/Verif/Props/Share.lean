import Verif.Lemmas.ShareMap

/-!
# C15: every original term keeps its share of a merged term
-/

set_option linter.unusedSectionVars false

namespace Verif
open PyDict

section
variable {V : Type} [DecidableEq V]

/-- What the shares have to be: each original term belongs to exactly one of the remaining terms; its share of that term is the part of the value it makes up, at every point;
shares of a term add up to one. -/
structure GoodShares (h : PyDict (HV V ℝ) ℝ) (fixed : PyDict V ℝ) (cp : PyDict (HV V ℝ) ℝ) (pmap : List (PyDict Nat ℝ)) : Prop where
  /-- one dict per remaining term -/
  len : pmap.length = cp.length
  /-- each original term is in exactly one of them -/
  one : ∀ i < h.length, ∃! j : ℕ, ∃ d : PyDict Nat ℝ, pmap[j]? = some d ∧ d.contains i = true
  /-- no number is in a dict twice -/
  wf : ∀ d ∈ pmap, WF d
  /-- shares add up to one -/
  total : ∀ d ∈ pmap, d.values.sum = 1
  /-- shares are parts of the value -/
  part : ∀ (j : ℕ) (d : PyDict Nat ℝ), pmap[j]? = some d → ∀ i f, d.get? i = some f → 0 < f ∧ ∃ t u, h[i]? = some t ∧ cp[j]? = some u ∧
    ∀ pt : V → ℝ, f * (u.2 * monVal pt u.1.items) = t.2 * monVal (override pt fixed) t.1.items

theorem shareList_wf (w : HV V ℝ × ℝ → ℝ) (vs : List V) (h : PyDict (HV V ℝ) ℝ) (u : HV V ℝ × ℝ) : WF (shareList w vs h u) := by
  unfold shareList WF
  rw [List.pairwise_map]
  have h1 : (h.zipIdx).Pairwise (fun a b => a.2 ≠ b.2) := by
    have := List.nodup_range' (s := 0) (n := h.length) (step := 1)
    rw [← List.zipIdx_map_snd 0 h] at this
    rw [List.Nodup, List.pairwise_map] at this
    exact this
  refine (h1.sublist List.filter_sublist).imp ?_
  intro a b hab
  simpa using hab

theorem get?_shareList {w : HV V ℝ × ℝ → ℝ} {vs : List V} {h : PyDict (HV V ℝ) ℝ} {u : HV V ℝ × ℝ} {i : ℕ} {f : ℝ}
    (hf : (shareList w vs h u).get? i = some f) : ∃ t, h[i]? = some t ∧ (strip vs t.1 == u.1) = true ∧ f = w t / u.2 := by
  obtain ⟨k, hk1, hk2⟩ := exists_mem_of_get? hf
  simp only [beq_iff_eq] at hk2
  subst hk2
  unfold shareList at hk1
  obtain ⟨q, hq1, hq2⟩ := List.mem_map.1 hk1
  obtain ⟨hq3, hq4⟩ := List.mem_filter.1 hq1
  have hq5 := List.mem_zipIdx_iff_getElem?.1 hq3
  injection hq2 with h1 h2
  subst h1
  exact ⟨q.1, hq5, hq4, h2.symm⟩

theorem contains_shareList {w : HV V ℝ × ℝ → ℝ} {vs : List V} {h : PyDict (HV V ℝ) ℝ} {u : HV V ℝ × ℝ} {i : ℕ} {t : HV V ℝ × ℝ}
    (ht : h[i]? = some t) : (shareList w vs h u).contains i = (strip vs t.1 == u.1) := by
  rw [Bool.eq_iff_iff, contains_iff]
  constructor
  · rintro ⟨f, hf⟩
    obtain ⟨t', ht', hb, _⟩ := get?_shareList hf
    rw [ht] at ht'
    injection ht' with ht'
    rw [ht']; exact hb
  · intro hb
    refine ⟨w t / u.2, get?_of_mem (shareList_wf w vs h u) ?_⟩
    unfold shareList
    refine List.mem_map.2 ⟨(t, i), List.mem_filter.2 ⟨List.mem_zipIdx_iff_getElem?.2 ht, hb⟩, rfl⟩

theorem shareList_sum (w : HV V ℝ × ℝ → ℝ) (vs : List V) (h : PyDict (HV V ℝ) ℝ) (u : HV V ℝ × ℝ) :
    (shareList w vs h u).values.sum = ((h.filter (fun t => strip vs t.1 == u.1)).map w).sum / u.2 := by
  unfold shareList PyDict.values
  rw [List.map_map]
  have : ∀ n, ((h.zipIdx n).filter (fun q => strip vs q.1.1 == u.1)).map ((fun x : ℕ × ℝ => x.2) ∘ fun q => (q.2, w q.1 / u.2)) =
      (h.filter (fun t => strip vs t.1 == u.1)).map (fun t => w t / u.2) := by
    induction h with
    | nil => intro n; rfl
    | cons t h ih =>
      intro n
      rw [List.zipIdx_cons, List.filter_cons, List.filter_cons]
      by_cases hb : strip vs t.1 == u.1
      · simp [hb, ← ih (n + 1)]
      · simp only [hb, Bool.false_eq_true, if_false]; exact ih (n + 1)
  rw [this 0]
  generalize h.filter _ = l
  induction l with
  | nil => simp
  | cons a l ih => simp only [List.map_cons, List.sum_cons]; rw [ih]; ring

theorem Shared.good {h : PyDict (HV V ℝ) ℝ} {fixed : PyDict V ℝ} {s : SubState V ℝ} {w : HV V ℝ × ℝ → ℝ} (hc : TermsCanonical h)
    (hs : Shared h fixed s w) : GoodShares h fixed s.cp (s.cp.map (shareList w (varlocKeys h fixed) h)) := by
  have hcw := ((termsCanonical_iff _).1 hs.canon).1
  have hw' : ∀ t ∈ h, WF t.1.items := fun t ht => ((expCanonical_iff _).1 (((termsCanonical_iff _).1 hc).2.2 t ht)).1
  refine ⟨by simp, ?_, ?_, ?_, ?_⟩
  · intro i hi
    have ht : h[i]? = some h[i] := List.getElem?_eq_getElem hi
    obtain ⟨c, hcc⟩ := contains_iff.1 (hs.k h[i] (List.getElem_mem hi))
    obtain ⟨k, hk1, hk2⟩ := exists_mem_of_get? hcc
    obtain ⟨j, hj⟩ := List.getElem?_of_mem hk1
    refine ⟨j, ⟨shareList w (varlocKeys h fixed) h (k, c), by rw [List.getElem?_map, hj]; rfl, ?_⟩, ?_⟩
    · rw [contains_shareList ht]; exact BEq.symm hk2
    · rintro j' ⟨d, hd1, hd2⟩
      rw [List.getElem?_map] at hd1
      obtain ⟨u, hu1, hu2⟩ := Option.map_eq_some_iff.1 hd1
      subst hu2
      rw [contains_shareList ht] at hd2
      by_contra hne
      have hb : (u.1 == k) = true := BEq.trans (BEq.symm hd2) (BEq.symm hk2)
      obtain ⟨hj1, hj2⟩ := List.getElem?_eq_some_iff.1 hj
      obtain ⟨hu3, hu4⟩ := List.getElem?_eq_some_iff.1 hu1
      rcases Nat.lt_or_gt_of_ne hne with h1 | h1
      · have := List.pairwise_iff_getElem.1 hcw j' j hu3 hj1 h1
        rw [hj2, hu4, hb] at this; cases this
      · have := List.pairwise_iff_getElem.1 hcw j j' hj1 hu3 h1
        rw [hj2, hu4, BEq.symm hb] at this; cases this
  · intro d hd
    obtain ⟨u, _, rfl⟩ := List.mem_map.1 hd
    exact shareList_wf _ _ _ _
  · intro d hd
    obtain ⟨u, hu, rfl⟩ := List.mem_map.1 hd
    rw [shareList_sum, ← hs.coef hc hu]
    exact div_self (hs.pos u hu).ne'
  · intro j d hd i f hf
    rw [List.getElem?_map] at hd
    obtain ⟨u, hu1, hu2⟩ := Option.map_eq_some_iff.1 hd
    subst hu2
    obtain ⟨t, ht, hb, rfl⟩ := get?_shareList hf
    have hum : u ∈ s.cp := List.mem_of_getElem? hu1
    have htm : t ∈ h := List.mem_of_getElem? ht
    have hu0 := hs.pos u hum
    refine ⟨div_pos (hs.ok t htm).1 hu0, t, u, ht, hu1, ?_⟩
    intro pt
    rw [← (hs.ok t htm).2 (override pt fixed) (override_agrees pt fixed), monVal_strip_override htm (hw' t htm),
      monVal_perm (HV.beq_iff.1 hb)]
    field_simp

/-- C15 for posynomials and positive constants, where terms that become equal contain at most one more constant from then on (`MergesLate`). Missing: terms that are moved
together twice (`C15_moved_fails`), and constants that are zero (`C15_zero_fails`). -/
theorem C15_shares_partial {h : PyDict (HV V ℝ) ℝ} (hc : TermsCanonical h) (hne : h ≠ []) (hpos : ∀ t ∈ h, 0 < t.2) {fixed : PyDict V ℝ}
    (hfix : ∀ v c, fixed.get? v = some c → 0 < c) {rounds : List (V × List (HV V ℝ))} (ho : SetOrder (varlocs h fixed) rounds)
    (hlate : MergesLate h (varlocKeys h fixed)) :
    ∃ s pmap, subState h fixed rounds = .ok s ∧ mmap s h = .ok pmap ∧ GoodShares h fixed s.cp pmap := by
  obtain ⟨h', hs⟩ := C06_sub_total (h := (⟨h, none⟩ : NMap V ℝ ℤ)) hc hne ho (fun v c hv => Or.inl (hfix v c hv))
  unfold NMap.sub at hs
  obtain ⟨s, h1, _⟩ := except_bind_ok hs
  obtain ⟨w, hw⟩ := shared_of_sub hc hne hpos hfix ho hlate h1
  exact ⟨s, _, h1, hw.mmap hc, hw.good hc⟩

/-- C15 if terms stay different. -/
theorem C15_distinct {h : PyDict (HV V ℝ) ℝ} (hc : TermsCanonical h) (hne : h ≠ []) (hpos : ∀ t ∈ h, 0 < t.2) {fixed : PyDict V ℝ}
    (hfix : ∀ v c, fixed.get? v = some c → 0 < c) {rounds : List (V × List (HV V ℝ))} (ho : SetOrder (varlocs h fixed) rounds)
    (hdist : ∀ t1 ∈ h, ∀ t2 ∈ h, t1.1 ≠ t2.1 → ∃ v, fixed.get? v = none ∧ t1.1.get? v ≠ t2.1.get? v) :
    ∃ s pmap, subState h fixed rounds = .ok s ∧ mmap s h = .ok pmap ∧ GoodShares h fixed s.cp pmap := by
  refine C15_shares_partial hc hne hpos hfix ho ?_
  intro t1 h1 t2 h2 hne2 done v later hvs hbe
  exfalso
  obtain ⟨x, hx1, hx2⟩ := hdist t1 h1 t2 h2 hne2
  have hw1 : WF t1.1.items := ((expCanonical_iff _).1 (hc.1 t1 h1).1).1
  have h3 := hv_get?_congr (strip_wf hw1 _) hbe x
  have hxd : x ∉ done := by
    intro hxd
    have : x ∈ varlocKeys h fixed := by rw [hvs]; simp [hxd]
    obtain ⟨c, hc2⟩ := contains_iff.1 (mem_varlocKeys.1 this).2
    rw [hx1] at hc2; cases hc2
  rw [strip_get?, strip_get?, if_neg hxd, if_neg hxd] at h3
  exact hx2 h3

/-- C15 if at most two constants occur. -/
theorem C15_two {h : PyDict (HV V ℝ) ℝ} (hc : TermsCanonical h) (hne : h ≠ []) (hpos : ∀ t ∈ h, 0 < t.2) {fixed : PyDict V ℝ}
    (hfix : ∀ v c, fixed.get? v = some c → 0 < c) {rounds : List (V × List (HV V ℝ))} (ho : SetOrder (varlocs h fixed) rounds)
    (htwo : (varlocKeys h fixed).length ≤ 2) :
    ∃ s pmap, subState h fixed rounds = .ok s ∧ mmap s h = .ok pmap ∧ GoodShares h fixed s.cp pmap := by
  refine C15_shares_partial hc hne hpos hfix ho ?_
  intro t1 h1 t2 h2 hne2 done v later hvs hbe _ w hw
  exfalso
  rw [hvs] at htwo
  have hl : 0 < later.length := List.length_pos_of_mem hw
  simp only [List.length_append, List.length_cons] at htwo
  have hd : done = [] := List.length_eq_zero_iff.1 (by omega)
  subst hd
  rw [strip_nil, strip_nil] at hbe
  have h3 : t1.1.items.Perm t2.1.items := HV.beq_iff.1 hbe
  have := List.Pairwise.forall_of_forall_of_flip (R := fun a b : HV V ℝ × ℝ => a ≠ b → ¬ a.1.items.Perm b.1.items) (l := h)
    (fun a _ h => absurd rfl h) (List.Pairwise.imp (fun {a b} h (_ : a ≠ b) => h) hc.2)
    (List.Pairwise.imp (fun {a b} h (_ : b ≠ a) h4 => h h4.symm) hc.2) h1 h2 (fun h => hne2 (by rw [h]))
  exact this h3

end

/-- The hypotheses of `C15_shares_partial` can be met with merging: `x*y*u + x**2*y*u` with `x = 2`, `y = 3` (0 and 1; `u` is 2). -/
example : let h : PyDict (HV ℕ ℝ) ℝ := [(⟨[(0, 1), (1, 1), (2, 1)]⟩, 1), (⟨[(0, 2), (1, 1), (2, 1)]⟩, 1)]
    TermsCanonical h ∧ h ≠ [] ∧ (∀ t ∈ h, 0 < t.2) ∧ (∀ v c, PyDict.get? ([(0, 2), (1, 3)] : PyDict ℕ ℝ) v = some c → 0 < c) ∧
      (varlocKeys h [(0, 2), (1, 3)]).length ≤ 2 := by
  intro h
  refine ⟨?_, by simp [h], by simp [h], ?_, ?_⟩
  · simp only [h, TermsCanonical, ExpCanonical, ← List.isPerm_iff]
    norm_num [List.isPerm]
    constructor <;> rintro a b (⟨_, rfl⟩ | ⟨_, rfl⟩ | ⟨_, rfl⟩) <;> norm_num
  · intro v c hv
    obtain ⟨k, hk, _⟩ := exists_mem_of_get? hv
    simp only [List.mem_cons, Prod.mk.injEq, List.not_mem_nil, or_false] at hk
    rcases hk with ⟨_, rfl⟩ | ⟨_, rfl⟩ <;> norm_num
  · simp [h, varlocKeys, PyDict.keys, PyDict.contains, PyDict.get?]

/-! ## Findings -/

/-- The terms after substitution, and the shares. -/
def sharesOf (h : PyDict (HV ℕ ℚ) ℚ) (fixed : PyDict ℕ ℚ) (rounds : List (ℕ × List (HV ℕ ℚ))) :
    Except Err (List (List (ℕ × ℚ) × ℚ) × List (PyDict Nat ℚ)) := do
  let s ← subState h fixed rounds
  let m ← mmap s h
  pure (s.cp.map (fun t : HV ℕ ℚ × ℚ => (t.1.items, t.2)), m)

/-- C15 is violated: `x*y*z*u + x**2*y*z*u` with `x = y = z = 1`. The terms are merged when `x` is substituted; the second one follows the first when `y` is substituted but
not when `z` is, and has no share in the end. (The order of sets only decides which of them.) -/
theorem C15_moved_fails :
    let o1 : HV ℕ ℚ := ⟨[(0, 1), (1, 1), (2, 1), (3, 1)]⟩
    let o2 : HV ℕ ℚ := ⟨[(0, 2), (1, 1), (2, 1), (3, 1)]⟩
    let h : PyDict (HV ℕ ℚ) ℚ := [(o1, 1), (o2, 1)]
    let fixed : PyDict ℕ ℚ := [(0, 1), (1, 1), (2, 1)]
    SetOrder (varlocs h fixed) [(0, [o2, o1]), (1, [o2, o1]), (2, [o2, o1])] ∧
    sharesOf h fixed (varlocs h fixed) = .ok ([([(3, 1)], 2)], [[(0, 1 / 2)]]) ∧
    sharesOf h fixed [(0, [o2, o1]), (1, [o2, o1]), (2, [o2, o1])] = .ok ([([(3, 1)], 2)], [[(1, 1 / 2)]]) := by
  intro o1 o2 h fixed
  refine ⟨?_, by decide +kernel, by decide +kernel⟩
  exact .cons ⟨rfl, List.Perm.swap _ _ _⟩ (.cons ⟨rfl, List.Perm.swap _ _ _⟩ (.cons ⟨rfl, List.Perm.swap _ _ _⟩ .nil))

/-- C15 is violated with a constant that is zero: `x + z + x*y + z*y` with `x = 0`, `z = 2`, `y = 3` (0, 1, 2). If `x*y`, which has vanished, comes before `z*y` in a set,
it takes the place of `z*y`, and three quarters of the sum belong to no term. -/
theorem C15_zero_fails :
    let h : PyDict (HV ℕ ℚ) ℚ := [(⟨[(0, 1)]⟩, 1), (⟨[(1, 1)]⟩, 1), (⟨[(0, 1), (2, 1)]⟩, 1), (⟨[(1, 1), (2, 1)]⟩, 1)]
    let fixed : PyDict ℕ ℚ := [(0, 0), (1, 2), (2, 3)]
    sharesOf h fixed (varlocs h fixed) = .ok ([([], 8)], [[(0, 0), (1, 1 / 4), (2, 0)]]) := by
  decide +kernel

end Verif
