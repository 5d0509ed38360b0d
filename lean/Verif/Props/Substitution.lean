import Verif.Lemmas.Sub

/-! Property theorems about substitution: C06. -/

set_option linter.unusedSectionVars false

namespace Verif
open PyDict

variable {V D : Type} [DecidableEq V]

/-- The point `pt` with the substituted variables set to their values. -/
def override (pt : V → ℝ) (fixed : PyDict V ℝ) : V → ℝ := fun v => (fixed.get? v).getD (pt v)

theorem override_agrees (pt : V → ℝ) (fixed : PyDict V ℝ) :
    ∀ v c, fixed.get? v = some c → override pt fixed v = c := by
  intro v c h; simp [override, h]

theorem termsVal_congr {pt pt' : V → ℝ} {ts : PyDict (HV V ℝ) ℝ}
    (h : ∀ t ∈ ts, ∀ kx ∈ t.1.items, pt kx.1 = pt' kx.1) : termsVal pt ts = termsVal pt' ts := by
  unfold termsVal monVal
  congr 1
  apply List.map_congr_left
  intro t ht
  congr 2
  apply List.map_congr_left
  intro kx hkx
  rw [h t ht kx hkx]

/-- C06. Substituting numbers and evaluating the rest at `pt` gives the value of the original at `pt` overridden by the
substitutions, for every order in which Python iterates over its sets. No sign condition on `pt`: also zero and negative
values are covered where Python's power is a float. -/
theorem C06_sub_evaluates {h h' : NMap V ℝ D} {fixed : PyDict V ℝ} {rounds : List (V × List (HV V ℝ))}
    (hc : TermsCanonical h.terms) (hne : h.terms ≠ []) (ho : SetOrder (varlocs h.terms fixed) rounds)
    (hs : h.sub fixed rounds = .ok h') (pt : V → ℝ) :
    termsVal pt h'.terms = termsVal (override pt fixed) h.terms ∧ h'.units = h.units := by
  obtain ⟨h1, h2, h3, _, h5⟩ := sub_ok hc hne ho hs
  refine ⟨?_, h1⟩
  rw [← h2 (override pt fixed) (override_agrees pt fixed)]
  apply termsVal_congr
  intro t ht kx hkx
  have hwf : WF t.1.items := by
    rcases h5 with h5 | h5
    · exact ((expCanonical_iff _).1 (h5.1 t ht).1).1
    · rw [h5] at ht; simp at ht; rw [ht]; simp [HV.empty]
  have h6 := (h3 t ht kx.1 kx.2 (get?_of_mem hwf hkx)).1
  simp [override, h6]

/-- C06. Substituted variables do not occur in the result, and other variables keep their exponents. -/
theorem C06_sub_removes {h h' : NMap V ℝ D} {fixed : PyDict V ℝ} {rounds : List (V × List (HV V ℝ))}
    (hc : TermsCanonical h.terms) (hne : h.terms ≠ []) (ho : SetOrder (varlocs h.terms fixed) rounds)
    (hs : h.sub fixed rounds = .ok h') :
    ∀ t ∈ h'.terms, ∀ v x, t.1.get? v = some x → fixed.get? v = none ∧ ∃ s ∈ h.terms, s.1.get? v = some x :=
  (sub_ok hc hne ho hs).2.2.1

/-- C06. Substituting for every variable gives one constant: the value. -/
theorem C06_sub_all {h h' : NMap V ℝ D} {fixed : PyDict V ℝ} {rounds : List (V × List (HV V ℝ))}
    (hc : TermsCanonical h.terms) (hne : h.terms ≠ []) (ho : SetOrder (varlocs h.terms fixed) rounds)
    (hs : h.sub fixed rounds = .ok h')
    (hall : ∀ t ∈ h.terms, ∀ v x, t.1.get? v = some x → fixed.contains v = true) (pt : V → ℝ)
    (hpt : ∀ v c, fixed.get? v = some c → pt v = c) :
    h'.terms = [(HV.empty, termsVal pt h.terms)] := by
  obtain ⟨_, h2, h3, h4, h5⟩ := sub_ok hc hne ho hs
  have hempty : ∀ t ∈ h'.terms, t.1.items = [] := by
    intro t ht
    by_contra hne2
    obtain ⟨kx, hkx⟩ := List.exists_mem_of_ne_nil _ hne2
    have hwf : WF t.1.items := by
      rcases h5 with h5 | h5
      · exact ((expCanonical_iff _).1 (h5.1 t ht).1).1
      · rw [h5] at ht; simp at ht; rw [ht]; simp [HV.empty]
    obtain ⟨h6, s, hs1, hs2⟩ := h3 t ht kx.1 kx.2 (get?_of_mem hwf hkx)
    obtain ⟨c, hc⟩ := contains_iff.1 (hall s hs1 _ _ hs2)
    rw [h6] at hc; cases hc
  rw [← h2 pt hpt]
  match hts : h'.terms with
  | [] => exact absurd hts h4
  | [t] =>
    have h6 := hempty t (by rw [hts]; simp)
    obtain ⟨⟨it⟩, c⟩ := t
    simp only at h6
    subst h6
    simp [termsVal, monVal, HV.empty]
  | t :: u :: ts =>
    exfalso
    have ht := hempty t (by rw [hts]; simp)
    have hu := hempty u (by rw [hts]; simp)
    rcases h5 with h5 | h5
    · have h7 := h5.2
      rw [hts] at h7
      have := (List.pairwise_cons.1 h7).1 u List.mem_cons_self
      rw [ht, hu] at this
      exact this (List.Perm.refl _)
    · rw [hts] at h5; simp at h5

/-- C06. Substitution raises nothing as long as the powers are floats; with positive values they always are. -/
theorem C06_sub_total {h : NMap V ℝ D} {fixed : PyDict V ℝ} {rounds : List (V × List (HV V ℝ))}
    (hc : TermsCanonical h.terms) (hne : h.terms ≠ []) (ho : SetOrder (varlocs h.terms fixed) rounds)
    (hpos : ∀ v c, fixed.get? v = some c → 0 < c ∨ (c = 0 ∧ ∀ t ∈ h.terms, ∀ x, t.1.get? v = some x → 0 ≤ x)) :
    ∃ h', h.sub fixed rounds = .ok h' := by
  refine sub_total hc hne ho ?_
  intro v c hv t ht x hx
  rcases hpos v c hv with h1 | ⟨h1, h2⟩
  · simp [pwDom, h1]
  · simp [pwDom, h1, h2 t ht x hx]

/-- C06. The result does not depend on the order in which Python iterates over its sets: the two results are equal as
Python dicts. -/
theorem C06_sub_order_independent {h h1 h2 : NMap V ℝ D} {fixed : PyDict V ℝ} {r1 r2 : List (V × List (HV V ℝ))}
    (hc : TermsCanonical h.terms) (hne : h.terms ≠ []) (ho1 : SetOrder (varlocs h.terms fixed) r1)
    (ho2 : SetOrder (varlocs h.terms fixed) r2)
    (hs1 : h.sub fixed r1 = .ok h1) (hs2 : h.sub fixed r2 = .ok h2) :
    Nomial.hmapEq h1.terms h2.terms = true := by
  have hsame : ∀ pt, termsVal pt h1.terms = termsVal pt h2.terms := fun pt => by
    rw [(C06_sub_evaluates hc hne ho1 hs1 pt).1, (C06_sub_evaluates hc hne ho2 hs2 pt).1]
  obtain ⟨_, _, _, n1, c1⟩ := sub_ok hc hne ho1 hs1
  obtain ⟨_, _, _, n2, c2⟩ := sub_ok hc hne ho2 hs2
  have hz : ∀ pt : V → ℝ, termsVal pt ([(HV.empty, 0)] : List (HV V ℝ × ℝ)) = 0 := by
    intro pt; simp [termsVal]
  rcases c1 with c1 | c1 <;> rcases c2 with c2 | c2
  · exact (hmapEq_iff c1 c2).2 (fun pt _ => hsame pt)
  · exact absurd (canonical_zero c1 (fun pt _ => by rw [hsame, c2, hz])) n1
  · exact absurd (canonical_zero c2 (fun pt _ => by rw [← hsame, c1, hz])) n2
  · rw [c1, c2]; simp [Nomial.hmapEq, PyDict.get?, HV.beq_def, HV.empty, List.isPerm]

/-- C06. Substituting in two steps is the same as substituting at once. -/
theorem C06_sub_twice {h h1 h2 h3 : NMap V ℝ D} {f g : PyDict V ℝ} {r1 r2 r3 : List (V × List (HV V ℝ))}
    (hc : TermsCanonical h.terms) (hne : h.terms ≠ []) (ho1 : SetOrder (varlocs h.terms f) r1)
    (hs1 : h.sub f r1 = .ok h1) (hc1 : TermsCanonical h1.terms)
    (ho2 : SetOrder (varlocs h1.terms g) r2) (hs2 : h1.sub g r2 = .ok h2)
    (ho3 : SetOrder (varlocs h.terms (f ++ g)) r3) (hs3 : h.sub (f ++ g) r3 = .ok h3) (pt : V → ℝ) :
    termsVal pt h2.terms = termsVal pt h3.terms := by
  obtain ⟨_, _, _, n1, _⟩ := sub_ok hc hne ho1 hs1
  rw [(C06_sub_evaluates hc1 n1 ho2 hs2 pt).1, (C06_sub_evaluates hc hne ho1 hs1 _).1,
    (C06_sub_evaluates hc hne ho3 hs3 pt).1]
  congr 1
  funext v
  have happ : ∀ (f g : PyDict V ℝ), PyDict.get? (f ++ g) v = (PyDict.get? f v).or (PyDict.get? g v) := by
    intro f g
    induction f with
    | nil => simp
    | cons p f ih =>
      obtain ⟨k, c⟩ := p
      rw [List.cons_append, get?_cons, get?_cons, ih]
      by_cases hk : k == v <;> simp [hk]
  simp only [override, happ]
  cases PyDict.get? f v <;> simp

/-- `x*y + 3*y` with `x = 2` meets the hypotheses; the two terms merge into `5*y`. -/
example : ∃ (h h' : NMap ℕ ℝ ℝ) (fixed : PyDict ℕ ℝ) (rounds : List (ℕ × List (HV ℕ ℝ))),
    TermsCanonical h.terms ∧ h.terms ≠ [] ∧ SetOrder (varlocs h.terms fixed) rounds ∧
    h.sub fixed rounds = .ok h' ∧ h'.terms = [(⟨[(1, 1)]⟩, 5)] := by
  refine ⟨⟨[(⟨[(0, 1), (1, 1)]⟩, 1), (⟨[(1, 1)]⟩, 3)], none⟩, ⟨[(⟨[(1, 1)]⟩, 5)], none⟩, [(0, 2)],
    [(0, [⟨[(0, 1), (1, 1)]⟩])], ?_, by simp, ?_, ?_, rfl⟩
  · constructor
    · simp [ExpCanonical]
      rintro a b (⟨_, rfl⟩ | ⟨_, rfl⟩) <;> norm_num
    · simp
  · have : varlocs ([(⟨[(0, 1), (1, 1)]⟩, 1), (⟨[(1, 1)]⟩, 3)] : PyDict (HV ℕ ℝ) ℝ) [(0, (2:ℝ))]
        = [(0, [⟨[(0, 1), (1, 1)]⟩])] := by
      simp [varlocs, varlocKeys, PyDict.keys, PyDict.contains, PyDict.get?]
    rw [this]
    exact List.Forall₂.cons ⟨rfl, List.Perm.refl _⟩ List.Forall₂.nil
  · norm_num [NMap.sub, subState, subInit, subRound, subinplace, PyDict.get?, PyDict.set, PyDict.del, HV.get?, HV.del, HV.beq_def,
      List.isPerm, pwDom, pw, subAdd, csUpdate, bind, pure, Except.bind, Except.pure, PyDict.contains]

end Verif
