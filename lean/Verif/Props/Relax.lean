import Verif.Spec.Relax
import Verif.Props.Inequality

/-! Properties of relaxed constraints: C32. -/

set_option linter.unusedSectionVars false

namespace Verif
open PyDict Relax

variable {V D : Type} [DecidableEq V] [AddCommGroup D] [DecidableEq D]

/-! ### The operators -/

theorem mkPosy_holds {E : Env V ℝ D} {se : Bool} {l r : Nomial V ℝ D} {op : Oper} {c : Con V ℝ D} (h : mkPosy E se l op r = .ok c) :
    c.kind = .posy ∧ c.left = l ∧ c.oper = op ∧ c.right = r ∧ op ≠ .eq := by
  unfold mkPosy at h
  cases op with
  | le => obtain ⟨u, _, h2⟩ := except_bind_ok h; cases h2; simp
  | ge => obtain ⟨u, _, h2⟩ := except_bind_ok h; cases h2; simp
  | eq => cases h

theorem mkSigIneq_holds {E : Env V ℝ D} {se : Bool} {l r : Nomial V ℝ D} {op : Oper} {c : Con V ℝ D} (h : mkSigIneq E se l op r = .ok c) :
    c.kind = .sig ∧ c.left = l ∧ c.oper = op ∧ c.right = r ∧ op ≠ .eq := by
  unfold mkSigIneq at h
  split_ifs at h
  cases op with
  | le => obtain ⟨u, _, h2⟩ := except_bind_ok h; cases h2; simp
  | ge => obtain ⟨u, _, h2⟩ := except_bind_ok h; cases h2; simp
  | eq => cases h

theorem mk_le_holds {c : Con V ℝ D} {l r : Nomial V ℝ D} (h : c.left = l ∧ c.oper = .le ∧ c.right = r) (pt : V → ℝ) :
    c.Holds pt ↔ physVal pt l.hmap ≤ physVal pt r.hmap := by
  unfold Con.Holds; rw [h.2.1, h.1, h.2.2]

theorem mk_ge_holds {c : Con V ℝ D} {l r : Nomial V ℝ D} (h : c.left = l ∧ c.oper = .ge ∧ c.right = r) (pt : V → ℝ) :
    c.Holds pt ↔ physVal pt r.hmap ≤ physVal pt l.hmap := by
  unfold Con.Holds; rw [h.2.1, h.1, h.2.2]

theorem leNom_holds {E : Env V ℝ D} {se : Bool} {a b : Nomial V ℝ D} {c : Con V ℝ D} (h : leNom E se a b = .ok c) (pt : V → ℝ) :
    c.Holds pt ↔ physVal pt a.hmap ≤ physVal pt b.hmap := by
  unfold leNom at h
  split at h
  · have := mkPosy_holds h; exact mk_le_holds ⟨this.2.1, this.2.2.1, this.2.2.2.1⟩ pt
  · have := mkPosy_holds h; exact mk_ge_holds ⟨this.2.1, this.2.2.1, this.2.2.2.1⟩ pt
  · have := mkSigIneq_holds h; exact mk_le_holds ⟨this.2.1, this.2.2.1, this.2.2.2.1⟩ pt
  · have := mkSigIneq_holds h; exact mk_le_holds ⟨this.2.1, this.2.2.1, this.2.2.2.1⟩ pt
  · have := mkSigIneq_holds h; exact mk_ge_holds ⟨this.2.1, this.2.2.1, this.2.2.2.1⟩ pt

theorem geNom_holds {E : Env V ℝ D} {se : Bool} {a b : Nomial V ℝ D} {c : Con V ℝ D} (h : geNom E se a b = .ok c) (pt : V → ℝ) :
    c.Holds pt ↔ physVal pt b.hmap ≤ physVal pt a.hmap := by
  unfold geNom at h
  split at h
  · have := mkPosy_holds h; exact mk_ge_holds ⟨this.2.1, this.2.2.1, this.2.2.2.1⟩ pt
  · have := mkPosy_holds h; exact mk_ge_holds ⟨this.2.1, this.2.2.1, this.2.2.2.1⟩ pt
  · have := mkSigIneq_holds h; exact mk_le_holds ⟨this.2.1, this.2.2.1, this.2.2.2.1⟩ pt
  · have := mkSigIneq_holds h; exact mk_ge_holds ⟨this.2.1, this.2.2.1, this.2.2.2.1⟩ pt

/-! ### Variables that do not occur -/

theorem mem_vks_items {h : NMap V ℝ D} {v : V} : v ∈ h.vks ↔ ∃ t ∈ h.terms, ∃ x, (v, x) ∈ t.1.items := by
  unfold NMap.vks
  rw [List.mem_dedup, List.mem_flatMap]
  constructor
  · rintro ⟨t, ht, hv⟩
    obtain ⟨⟨w, x⟩, hx, rfl⟩ := List.mem_map.1 hv
    exact ⟨t, ht, x, hx⟩
  · rintro ⟨t, ht, x, hx⟩
    exact ⟨t, ht, List.mem_map.2 ⟨_, hx, rfl⟩⟩

theorem monVal_update {pt : V → ℝ} {C : V} {r : ℝ} {e : List (V × ℝ)} (h : ∀ x, (C, x) ∉ e) :
    monVal (Function.update pt C r) e = monVal pt e := by
  unfold monVal
  congr 1
  refine List.map_congr_left ?_
  rintro ⟨v, x⟩ hx
  have : v ≠ C := by rintro rfl; exact h x hx
  simp only [Function.update_of_ne this]

theorem physVal_update {pt : V → ℝ} {C : V} {r : ℝ} {h : NMap V ℝ D} (hC : C ∉ h.vks) :
    physVal (Function.update pt C r) h = physVal pt h := by
  unfold physVal termsVal
  congr 2
  refine List.map_congr_left ?_
  intro t ht
  rw [monVal_update]
  intro x hx
  exact hC (mem_vks_items.2 ⟨t, ht, x, hx⟩)

theorem update_pos {pt : V → ℝ} (hpt : ∀ v, 0 < pt v) (C : V) {r : ℝ} (hr : 0 < r) : ∀ v, 0 < Function.update pt C r v := by
  intro v
  by_cases h : v = C
  · subst h; simpa using hr
  · rw [Function.update_of_ne h]; exact hpt v

theorem physVal_var {vunits : V → Option (UnitQ D ℝ)} {C : V} (hC : vunits C = none) (pt : V → ℝ) :
    physVal pt (varNomial vunits C).hmap = pt C := by
  simp [physVal, varNomial, hC, unitScale, termsVal, monVal]

theorem good_varOne {vunits : V → Option (UnitQ D ℝ)} {C : V} (hC : UnitOK (vunits C)) : (PyVal.nom (varNomial vunits C)).Good := by
  have := good_var (vunits := fun _ => vunits C) (fun _ => hC) C
  exact this

/-! ### C32 -/

/-- Both sides are what arithmetic on nomials gives (C01, C05), and the relaxation variable is new. -/
def Con.Fine (c : Con V ℝ D) (C : V) : Prop :=
  (PyVal.nom c.left).Good ∧ (PyVal.nom c.right).Good ∧ C ∉ c.left.hmap.vks ∧ C ∉ c.right.hmap.vks

theorem holdsWithin_update {c : Con V ℝ D} {C : V} (hc : Con.Fine c C) (r s : ℝ) (pt : V → ℝ) :
    c.HoldsWithin r (Function.update pt C s) ↔ c.HoldsWithin r pt := by
  unfold Con.HoldsWithin
  cases c.oper <;> simp only [physVal_update hc.2.2.1, physVal_update hc.2.2.2]

theorem relaxed_holds {E : Env V ℝ D} {c : Con V ℝ D} {C : V} {cs : List (Con V ℝ D)} (hC : E.vunits C = none)
    (hl : (PyVal.nom c.left).Good) (hr : (PyVal.nom c.right).Good)
    (h : relaxed E c (varNomial E.vunits C) = .ok cs) {pt : V → ℝ} (hpt : ∀ v, 0 < pt v) :
    (∀ c' ∈ cs, c'.Holds pt) ↔ c.HoldsWithin (pt C) pt := by
  have hu : UnitOK (E.vunits C) := by rw [hC]; exact one_pos
  have hmul : ∀ {x n : Nomial V ℝ D}, (PyVal.nom x).Good → (varNomial E.vunits C).mul true x = .ok n → physVal pt n.hmap = pt C * physVal pt x.hmap := by
    intro x n hx hn
    rw [(mul_ok (good_varOne hu) hx hn).2 pt hpt, physVal_var hC]
  unfold relaxed at h
  unfold Con.HoldsWithin
  cases ho : c.oper with
  | ge =>
    rw [ho] at h
    obtain ⟨n, h1, h2⟩ := except_bind_ok h
    obtain ⟨a, h3, h4⟩ := except_bind_ok h2
    cases h4
    simp only [List.mem_singleton, forall_eq]
    rw [geNom_holds h3, hmul hl h1]
  | le =>
    rw [ho] at h
    obtain ⟨n, h1, h2⟩ := except_bind_ok h
    obtain ⟨a, h3, h4⟩ := except_bind_ok h2
    cases h4
    simp only [List.mem_singleton, forall_eq]
    rw [leNom_holds h3, hmul hr h1]
  | eq =>
    rw [ho] at h
    obtain ⟨n, h1, h2⟩ := except_bind_ok h
    obtain ⟨a, h3, h4⟩ := except_bind_ok h2
    obtain ⟨n', h5, h6⟩ := except_bind_ok h4
    obtain ⟨b, h7, h8⟩ := except_bind_ok h6
    cases h8
    simp only [List.mem_cons, List.not_mem_nil, or_false, forall_eq_or_imp, forall_eq]
    rw [leNom_holds h3, hmul hr h1, geNom_holds h7, hmul hl h5]

theorem holdsWithin_one {c : Con V ℝ D} {pt : V → ℝ} : c.HoldsWithin 1 pt ↔ c.Holds pt := by
  unfold Con.HoldsWithin Con.Holds
  cases c.oper <;> simp only [one_mul]
  exact ⟨fun h => le_antisymm h.1 h.2, fun h => ⟨h.le, h.ge⟩⟩

/-- C32, no relaxation. With relaxation 1 the relaxed constraint holds exactly where the original one does, for all constraints. -/
theorem C32_one {E : Env V ℝ D} {c : Con V ℝ D} {C : V} {cs : List (Con V ℝ D)} (hC : E.vunits C = none) (hc : Con.Fine c C)
    (h : relaxed E c (varNomial E.vunits C) = .ok cs) {pt : V → ℝ} (hpt : ∀ v, 0 < pt v) :
    (∀ c' ∈ cs, c'.Holds (Function.update pt C 1)) ↔ c.Holds pt := by
  rw [relaxed_holds hC hc.1 hc.2.1 h (update_pos hpt C one_pos), holdsWithin_update hc, Function.update_self, holdsWithin_one]

theorem physVal_pos {n : Nomial V ℝ D} (hg : (PyVal.nom n).Good) (hne : n.hmap.terms ≠ []) (hp : n.AllPos) {pt : V → ℝ} (hpt : ∀ v, 0 < pt v) :
    0 < physVal pt n.hmap := mul_pos hg.1 (termsVal_pos hpt hne hp)

theorem within_mono {c : Con V ℝ D} {pt : V → ℝ} (hl : 0 < physVal pt c.left.hmap) (hr : 0 < physVal pt c.right.hmap) {r s : ℝ} (hrs : r ≤ s)
    (h : c.HoldsWithin r pt) : c.HoldsWithin s pt := by
  unfold Con.HoldsWithin at *
  cases ho : c.oper <;> rw [ho] at h <;> simp only at *
  · nlinarith
  · nlinarith
  · exact ⟨by nlinarith [h.1], by nlinarith [h.2]⟩

theorem within_large {c : Con V ℝ D} {pt : V → ℝ} (hl : 0 < physVal pt c.left.hmap) (hr : 0 < physVal pt c.right.hmap) :
    ∃ r, 1 ≤ r ∧ c.HoldsWithin r pt := by
  set a := physVal pt c.left.hmap with ha
  set b := physVal pt c.right.hmap with hb
  have h1 : a ≤ (1 + a / b + b / a) * b := by
    have : (1 + a / b + b / a) * b = b + a + b / a * b := by field_simp
    rw [this]; have : 0 < b / a * b := by positivity
    linarith
  have h2 : b ≤ (1 + a / b + b / a) * a := by
    have : (1 + a / b + b / a) * a = a + b + a / b * a := by field_simp; ring
    rw [this]; have : 0 < a / b * a := by positivity
    linarith
  refine ⟨1 + a / b + b / a, ?_, ?_⟩
  · have : 0 < a / b := div_pos hl hr
    have : 0 < b / a := div_pos hr hl
    linarith
  · unfold Con.HoldsWithin
    cases c.oper
    · exact h1
    · exact h2
    · exact ⟨h1, h2⟩

/-- C32 where it holds: both sides are posynomials (`PosynomialInequality`, `MonomialEquality`, and signomial constraints without
minus signs). The relaxed constraint grows with the relaxation, and every positive point satisfies it from some relaxation on. -/
theorem C32_grows_partial {E : Env V ℝ D} {c : Con V ℝ D} {C : V} {cs : List (Con V ℝ D)} (hC : E.vunits C = none) (hc : Con.Fine c C)
    (hl : c.left.hmap.terms ≠ [] ∧ c.left.AllPos) (hr : c.right.hmap.terms ≠ [] ∧ c.right.AllPos)
    (h : relaxed E c (varNomial E.vunits C) = .ok cs) {pt : V → ℝ} (hpt : ∀ v, 0 < pt v) :
    (∀ r s, 0 < r → r ≤ s → (∀ c' ∈ cs, c'.Holds (Function.update pt C r)) → ∀ c' ∈ cs, c'.Holds (Function.update pt C s)) ∧
    ∃ r, 1 ≤ r ∧ ∀ s, r ≤ s → ∀ c' ∈ cs, c'.Holds (Function.update pt C s) := by
  have h1 := physVal_pos hc.1 hl.1 hl.2 hpt
  have h2 := physVal_pos hc.2.1 hr.1 hr.2 hpt
  have key : ∀ r, 0 < r → ((∀ c' ∈ cs, c'.Holds (Function.update pt C r)) ↔ c.HoldsWithin r pt) := by
    intro r hr
    rw [relaxed_holds hC hc.1 hc.2.1 h (update_pos hpt C hr), holdsWithin_update hc, Function.update_self]
  constructor
  · intro r s h0 hrs h3
    exact (key s (lt_of_lt_of_le h0 hrs)).2 (within_mono h1 h2 hrs ((key r h0).1 h3))
  · obtain ⟨r, hr1, hr2⟩ := within_large h1 h2
    exact ⟨r, hr1, fun s hs => (key s (by linarith)).2 (within_mono h1 h2 hs hr2)⟩

/-! ### What the solver gets -/

theorem mulTerms_single (e1 e2 : HV V ℝ) {c1 c2 : ℝ} (h : c1 * c2 ≠ 0) :
    Nomial.mulTerms [(e1, c1)] [(e2, c2)] = [(e1.add e2, c1 * c2)] := by
  simp [Nomial.mulTerms, Nomial.mulStep, PyDict.get?, PyDict.set, h]

theorem mul_var {E : Env V ℝ D} {C : V} (hC : E.vunits C = none) {m : Nomial V ℝ D} {e : HV V ℝ} {c : ℝ} (hm : m.hmap.terms = [(e, c)])
    (hc : 0 < c) :
    (varNomial E.vunits C).mul true m = .ok ⟨⟨[((⟨[(C, 1)]⟩ : HV V ℝ).add e, c)], m.hmap.units⟩, .monomial⟩ := by
  unfold Nomial.mul
  have h1 : (varNomial E.vunits C).hmap.terms = [(⟨[(C, 1)]⟩, 1)] := rfl
  have h2 : (varNomial E.vunits C).hmap.units = none := hC
  rw [h1, h2, hm, mulTerms_single _ _ (by simpa using hc.ne')]
  have h3 : ((⟨[((⟨[(C, 1)]⟩ : HV V ℝ).add e, 1 * c)], none⟩ : NMap V ℝ D).unitsOfProduct none m.hmap.units) =
      ⟨[((⟨[(C, 1)]⟩ : HV V ℝ).add e, c)], m.hmap.units⟩ := by
    unfold NMap.unitsOfProduct
    cases m.hmap.units <;> simp
  rw [h3]
  unfold mkSig NMap.anyNonpositive
  simp [hc]

theorem relax_form {E : Env V ℝ D} (htol : 0 ≤ E.tol) {C : V} (hC : E.vunits C = none) {p m n : Nomial V ℝ D} {e : HV V ℝ} {c r : ℝ}
    (hp : TermsCanonical p.hmap.terms) (hpg : (PyVal.nom p).Good) (hpne : p.hmap.terms ≠ []) (hpp : p.AllPos) (hpC : C ∉ p.hmap.vks)
    (hm : m.hmap.terms = [(e, c)]) (hme : ExpCanonical e.items) (hmc : 0 < c) (hmg : (PyVal.nom m).Good) (hmC : C ∉ m.hmap.vks)
    (hr : UnitCache.ratio m.hmap.units p.hmap.units = .ok r) (hn : (varNomial E.vunits C).mul true m = .ok n) :
    ∃ f, genUnsubbed true E.tol p.hmap n.hmap = .ok [f] ∧ f.AllPos ∧
      ∀ pt, (∀ v, 0 < pt v) → (termsVal pt f.hmap.terms ≤ 1 ↔ physVal pt p.hmap ≤ physVal pt n.hmap) := by
  have hu : UnitOK (E.vunits C) := by rw [hC]; exact one_pos
  obtain ⟨hng, hnval⟩ := mul_ok (good_varOne hu) hmg hn
  have hn' := hn
  rw [mul_var hC hm hmc] at hn'
  have hnt : n.hmap.terms = [((⟨[(C, 1)]⟩ : HV V ℝ).add e, c)] := by cases hn'; rfl
  have hnu : n.hmap.units = m.hmap.units := by cases hn'; rfl
  have hce : ExpCanonical ((⟨[(C, 1)]⟩ : HV V ℝ).add e).items := HV.add_canonical (by simp [ExpCanonical]) hme
  have hcm : ∀ x, (C, x) ∉ e.items := by
    intro x hx
    exact hmC (mem_vks_items.2 ⟨(e, c), by rw [hm]; exact List.mem_singleton_self _, x, hx⟩)
  have hclash : NoClash ((⟨[(C, 1)]⟩ : HV V ℝ).add e) p.hmap.terms := by
    unfold NoClash
    refine List.Pairwise.imp_of_mem ?_ (List.pairwise_of_forall (R := fun _ _ => True) (fun _ _ => trivial))
    intro s t hs ht _ hall
    have hone : ∀ v : V, (0 : ℝ) < (fun _ => 1) v := fun _ => one_pos
    have h2 := hall (Function.update (fun _ => 1) C 2) (update_pos hone C two_pos)
    rw [monVal_add (update_pos hone C two_pos), monVal_update (fun x hx => hpC (mem_vks_items.2 ⟨s, hs, x, hx⟩)),
      monVal_update (fun x hx => hpC (mem_vks_items.2 ⟨t, ht, x, hx⟩)), monVal_update hcm] at h2
    have h3 : ∀ l : List (V × ℝ), monVal (fun _ : V => (1 : ℝ)) l = 1 := by
      intro l; unfold monVal; simp
    rw [h3, h3, h3] at h2
    simp [monVal] at h2
  have hr' : UnitCache.ratio n.hmap.units p.hmap.units = .ok r := by rw [hnu]; exact hr
  have hval : ∀ (pt : V → ℝ), (∀ v, 0 < pt v) → ∀ s, 0 < s → physVal (Function.update pt C s) n.hmap = s * physVal pt m.hmap := by
    intro pt hpt s hs
    rw [hnval _ (update_pos hpt C hs), physVal_var hC, Function.update_self, physVal_update hmC]
  have hmpos : ∀ (pt : V → ℝ), (∀ v, 0 < pt v) → 0 < physVal pt m.hmap := fun pt hpt => physVal_mono_pos hm hmc hmg.1 hpt
  have hone : ∀ v : V, (0 : ℝ) < (fun _ => 1) v := fun _ => one_pos
  have hnever : ¬ ∀ pt : V → ℝ, (∀ v, 0 < pt v) → physVal pt n.hmap < physVal pt p.hmap := by
    intro hall
    have h1 := hmpos _ hone
    have h2 := physVal_pos hpg hpne hpp hone
    have h3 : 0 < physVal (fun _ => 1) p.hmap / physVal (fun _ => 1) m.hmap := div_pos h2 h1
    have := hall _ (update_pos hone C h3)
    rw [hval _ hone _ h3, physVal_update hpC] at this
    field_simp at this
    exact lt_irrefl _ this
  cases hg : genUnsubbed true E.tol p.hmap n.hmap with
  | error err => exact (hnever (C12_error_partial htol hp hpp hnt hce hmc hpg.1 hng.1 hclash hr' hg)).elim
  | ok forms =>
    rcases C12_form_partial htol hp hpne hpp hnt hce hmc hpg.1 hng.1 hclash hg with
      ⟨_, k, _, hk⟩ | ⟨f, rfl, hf1, _, _, _, hf5, _⟩ | ⟨_, _, _, _, _, h5⟩
    · exfalso
      have h1 := hk _ hone
      have h2 := hk _ (update_pos hone C two_pos)
      rw [physVal_update hpC, hval _ hone _ two_pos] at h2
      have h3 := hval _ hone 1 one_pos
      rw [Function.update_eq_self_iff.2 rfl, one_mul] at h3
      rw [h3] at h1
      have h4 := hmpos _ hone
      have h5 := physVal_pos hpg hpne hpp hone
      nlinarith
    · exact ⟨f, rfl, hf1, hf5⟩
    · exact (hnever h5).elim

/-- A posynomial constraint as Python has it: one side is a monomial, the other a posynomial, and units agree. -/
structure PosyCon (c : Con V ℝ D) : Prop where
  /-- canonical form (C02) -/
  canonL : TermsCanonical c.left.hmap.terms
  /-- canonical form (C02) -/
  canonR : TermsCanonical c.right.hmap.terms
  /-- not empty -/
  neL : c.left.hmap.terms ≠ []
  /-- not empty -/
  neR : c.right.hmap.terms ≠ []
  /-- positive coefficients -/
  posL : c.left.AllPos
  /-- positive coefficients -/
  posR : c.right.AllPos
  /-- the larger side is a monomial -/
  mono : (c.oper ≠ .le → c.left.hmap.terms.length = 1) ∧ (c.oper ≠ .ge → c.right.hmap.terms.length = 1)
  /-- units agree -/
  units : ∃ r, UnitCache.ratio c.left.hmap.units c.right.hmap.units = .ok r

theorem cls_of {n : Nomial V ℝ D} (hg : (PyVal.nom n).Good) (hp : n.AllPos) :
    (n.hmap.terms.length = 1 → n.cls = .monomial) ∧ (n.cls = .monomial ∨ n.cls = .posynomial) := by
  obtain ⟨h1, h2, h3⟩ := hg.2
  constructor
  · intro hl
    obtain ⟨⟨e, c⟩, he⟩ := List.length_eq_one_iff.1 hl
    exact h1.2 ⟨e, c, he, hp (e, c) (by rw [he]; exact List.mem_singleton_self _)⟩
  · by_cases hl : n.hmap.terms.length = 1
    · left
      obtain ⟨⟨e, c⟩, he⟩ := List.length_eq_one_iff.1 hl
      exact h1.2 ⟨e, c, he, hp (e, c) (by rw [he]; exact List.mem_singleton_self _)⟩
    · exact Or.inr (h3.2 ⟨hp, hl⟩)

theorem single_of {n : Nomial V ℝ D} (hl : n.hmap.terms.length = 1) (hc : TermsCanonical n.hmap.terms) (hp : n.AllPos) :
    ∃ e c, n.hmap.terms = [(e, c)] ∧ ExpCanonical e.items ∧ 0 < c := by
  obtain ⟨⟨e, c⟩, he⟩ := List.length_eq_one_iff.1 hl
  have hm : (e, c) ∈ n.hmap.terms := by rw [he]; exact List.mem_singleton_self _
  exact ⟨e, c, he, (hc.1 _ hm).1, hp _ hm⟩

/-- The relaxed `p <= m` can always be built, as a posynomial inequality, and the solver gets exactly what it says. -/
theorem relax_le {E : Env V ℝ D} (htol : 0 ≤ E.tol) {C : V} (hC : E.vunits C = none) {p m : Nomial V ℝ D} {r : ℝ}
    (hp : TermsCanonical p.hmap.terms) (hpg : (PyVal.nom p).Good) (hpne : p.hmap.terms ≠ []) (hpp : p.AllPos) (hpC : C ∉ p.hmap.vks)
    (hm : TermsCanonical m.hmap.terms) (hmg : (PyVal.nom m).Good) (hm1 : m.hmap.terms.length = 1) (hmp : m.AllPos) (hmC : C ∉ m.hmap.vks)
    (hr : UnitCache.ratio m.hmap.units p.hmap.units = .ok r) :
    ∃ n, (varNomial E.vunits C).mul true m = .ok n ∧
      (∃ c, leNom E true p n = .ok c ∧ c.kind = .posy ∧ c.Faithful) ∧ ∃ c, geNom E true n p = .ok c ∧ c.kind = .posy ∧ c.Faithful := by
  obtain ⟨e, k, hm2, hme, hmc⟩ := single_of hm1 hm hmp
  have hn := mul_var hC hm2 hmc
  set n : Nomial V ℝ D := ⟨⟨[((⟨[(C, 1)]⟩ : HV V ℝ).add e, k)], m.hmap.units⟩, .monomial⟩ with hnd
  obtain ⟨f, hf1, hf2, hf3⟩ := relax_form htol hC hp hpg hpne hpp hpC hm2 hme hmc hmg hmC hr hn
  have hge : ∃ c, mkPosy E true n .ge p = .ok c ∧ c.kind = .posy ∧ c.Faithful := by
    refine ⟨⟨.posy, n, .ge, p, [f]⟩, ?_, rfl, ?_⟩
    · unfold mkPosy; simp only; rw [hf1]; rfl
    · intro pt hpt
      simp only [List.mem_singleton, forall_eq, Con.Holds]
      exact hf3 pt hpt
  have hle : ∃ c, mkPosy E true p .le n = .ok c ∧ c.kind = .posy ∧ c.Faithful := by
    refine ⟨⟨.posy, p, .le, n, [f]⟩, ?_, rfl, ?_⟩
    · unfold mkPosy; simp only; rw [hf1]; rfl
    · intro pt hpt
      simp only [List.mem_singleton, forall_eq, Con.Holds]
      exact hf3 pt hpt
  refine ⟨n, hn, ?_, ?_⟩
  · unfold leNom
    rcases (cls_of hpg hpp).2 with h | h <;> rw [h]
    · exact hle
    · exact hge
  · unfold geNom
    rcases (cls_of hpg hpp).2 with h | h <;> rw [h]
    · exact hge
    · exact hge

/-- C32, what the solver gets. Relaxing a posynomial inequality or monomial equality with a new variable never raises, gives posynomial
inequalities again, and for these the solver form says exactly what the inequality says (also where C12 fails for the original). -/
theorem C32_solver {E : Env V ℝ D} (htol : 0 ≤ E.tol) {c : Con V ℝ D} {C : V} (hC : E.vunits C = none) (hc : Con.Fine c C) (hp : PosyCon c) :
    ∃ cs, relaxed E c (varNomial E.vunits C) = .ok cs ∧ ∀ c' ∈ cs, c'.kind = .posy ∧ c'.Faithful := by
  obtain ⟨r, hr⟩ := hp.units
  obtain ⟨r', hr'⟩ := ratio_flip hr
  obtain ⟨hg1, hg2, hf1, hf2⟩ := hc
  unfold relaxed
  cases ho : c.oper with
  | ge =>
    obtain ⟨n, h1, _, c', h2, h3⟩ := relax_le htol hC hp.canonR hg2 hp.neR hp.posR hf2 hp.canonL hg1 (hp.mono.1 (by rw [ho]; simp)) hp.posL hf1 hr
    refine ⟨[c'], ?_, ?_⟩
    · simp only; rw [h1]; show (geNom E true n c.right >>= _) = _; rw [h2]; rfl
    · intro c'' hc''; rw [List.mem_singleton] at hc''; subst hc''; exact h3
  | le =>
    obtain ⟨n, h1, ⟨c', h2, h3⟩, _⟩ := relax_le htol hC hp.canonL hg1 hp.neL hp.posL hf1 hp.canonR hg2 (hp.mono.2 (by rw [ho]; simp)) hp.posR hf2 hr'
    refine ⟨[c'], ?_, ?_⟩
    · simp only; rw [h1]; show (leNom E true c.left n >>= _) = _; rw [h2]; rfl
    · intro c'' hc''; rw [List.mem_singleton] at hc''; subst hc''; exact h3
  | eq =>
    obtain ⟨n, h1, ⟨c', h2, h3⟩, _⟩ := relax_le htol hC hp.canonL hg1 hp.neL hp.posL hf1 hp.canonR hg2 (hp.mono.2 (by rw [ho]; simp)) hp.posR hf2 hr'
    obtain ⟨n', h4, _, d', h5, h6⟩ := relax_le htol hC hp.canonR hg2 hp.neR hp.posR hf2 hp.canonL hg1 (hp.mono.1 (by rw [ho]; simp)) hp.posL hf1 hr
    refine ⟨[c', d'], ?_, ?_⟩
    · simp only; rw [h1]
      show (leNom E true c.left n >>= _) = _
      rw [h2, h4]
      show (geNom E true n' c.right >>= _) = _
      rw [h5]; rfl
    · intro c'' hc''
      simp only [List.mem_cons, List.not_mem_nil, or_false] at hc''
      rcases hc'' with rfl | rfl
      · exact h3
      · exact h6

/-! ### Sets of constraints -/

theorem mapM_ok {α β ε : Type} {f : α → Except ε β} {l : List α} {bs : List β} (h : l.mapM f = .ok bs) :
    List.Forall₂ (fun a b => f a = .ok b) l bs := by
  induction l generalizing bs with
  | nil => cases h; exact .nil
  | cons a l ih =>
    rw [List.mapM_cons] at h
    obtain ⟨b, h1, h2⟩ := except_bind_ok h
    obtain ⟨bs', h3, h4⟩ := except_bind_ok h2
    cases h4
    exact .cons h1 (ih h3)

theorem forall₂_mem {α β : Type} {R : α → β → Prop} {l : List α} {bs : List β} (h : List.Forall₂ R l bs) {b : β} (hb : b ∈ bs) : ∃ a ∈ l, R a b := by
  induction h with
  | nil => cases hb
  | cons ha _ ih =>
    rcases List.mem_cons.1 hb with rfl | hb
    · exact ⟨_, List.mem_cons_self, ha⟩
    · obtain ⟨a, h1, h2⟩ := ih hb
      exact ⟨a, List.mem_cons_of_mem _ h1, h2⟩

theorem mapM_total {α β ε : Type} {f : α → Except ε β} {l : List α} (h : ∀ a ∈ l, ∃ b, f a = .ok b) : ∃ bs, l.mapM f = .ok bs := by
  induction l with
  | nil => exact ⟨[], rfl⟩
  | cons a l ih =>
    obtain ⟨b, h1⟩ := h a List.mem_cons_self
    obtain ⟨bs, h2⟩ := ih (fun a' ha' => h a' (List.mem_cons_of_mem _ ha'))
    exact ⟨b :: bs, by rw [List.mapM_cons, h1]; show (l.mapM f >>= _) = _; rw [h2]; rfl⟩

/-- `relaxvar >= 1` can be built and says so, to the solver as well. -/
theorem atLeastOne_ok {E : Env V ℝ D} (se : Bool) {v : V} (hv : E.vunits v = none) :
    ∃ c, atLeastOne E se v = .ok c ∧ c.Faithful ∧ ∀ pt, c.Holds pt ↔ 1 ≤ pt v := by
  have h1 : genUnsubbed se E.tol (numMap (⟨1, none⟩ : PyQ D ℝ) : NMap V ℝ D) (varNomial E.vunits v).hmap =
      .ok [⟨⟨[(⟨[(v, -1)]⟩, 1)], none⟩, .monomial⟩] := by
    have h2 : (varNomial E.vunits v).hmap = ⟨[(⟨[(v, 1)]⟩, 1)], none⟩ := by unfold varNomial; rw [hv]
    rw [h2]
    norm_num [genUnsubbed, numMap, UnitCache.ratio, renameTerms, renameStep, List.foldlM, PyDict.get?, PyDict.set, PyDict.del,
      bind, pure, Except.bind, Except.pure, HV.beq_def, List.isPerm, HV.sub, HV.add, HV.scale, dictAdd, dictAddStep, dictScale, HV.empty,
      simplifyPosyIneq, wrapForm, mkSig, NMap.anyNonpositive, Except.map]
  refine ⟨⟨.posy, varNomial E.vunits v, .ge, ⟨numMap ⟨1, none⟩, .monomial⟩, [⟨⟨[(⟨[(v, -1)]⟩, 1)], none⟩, .monomial⟩]⟩, ?_, ?_, ?_⟩
  · unfold atLeastOne mkPosy
    simp only
    rw [h1]; rfl
  · intro pt hpt
    simp only [List.mem_singleton, forall_eq, Con.Holds]
    rw [physVal_var hv]
    simp only [termsVal, monVal, physVal, numMap, HV.empty, unitScale, List.map_cons, List.map_nil, List.sum_cons, List.sum_nil, List.prod_cons,
      List.prod_nil, mul_one, one_mul, add_zero, Real.rpow_neg_one]
    exact inv_le_one₀ (hpt v)
  · intro pt
    simp only [Con.Holds]
    rw [physVal_var hv]
    simp [termsVal, monVal, physVal, numMap, HV.empty, unitScale]

/-- C32 for `ConstraintsRelaxedEqually`. Its points are those with a relaxation of at least 1 within which all constraints hold. -/
theorem C32_equally {E : Env V ℝ D} {se : Bool} {C : V} (hC : E.vunits C = none) {orig cs : List (Con V ℝ D)}
    (hc : ∀ c ∈ orig, Con.Fine c C) (h : relaxedEqually E se C orig = .ok cs) {pt : V → ℝ} (hpt : ∀ v, 0 < pt v) :
    (∀ c ∈ cs, c.Holds pt) ↔ 1 ≤ pt C ∧ ∀ c ∈ orig, c.HoldsWithin (pt C) pt := by
  unfold relaxedEqually at h
  obtain ⟨rs, h1, h2⟩ := except_bind_ok h
  obtain ⟨m, h3, h4⟩ := except_bind_ok h2
  cases h4
  obtain ⟨m', h5, _, h6⟩ := atLeastOne_ok se hC
  rw [h5] at h3; cases h3
  simp only [List.mem_cons, forall_eq_or_imp]
  refine and_congr (h6 pt) ?_
  have h7 := mapM_ok h1
  clear h h1 h2
  induction h7 with
  | nil => simp
  | cons ha _ ih =>
    rename_i a b l bs _
    have h8 := relaxed_holds hC (hc a List.mem_cons_self).1 (hc a List.mem_cons_self).2.1 ha hpt
    have h9 := ih (fun c hc' => hc c (List.mem_cons_of_mem _ hc'))
    simp only [List.flatten_cons, List.mem_append, List.mem_cons, or_imp, forall_and, forall_eq]
    exact and_congr h8 h9

/-- C32 for `ConstraintsRelaxedEqually` of posynomial constraints: it never raises, and the solver gets exactly its constraints. -/
theorem C32_equally_solver {E : Env V ℝ D} (htol : 0 ≤ E.tol) {se : Bool} {C : V} (hC : E.vunits C = none) {orig : List (Con V ℝ D)}
    (hc : ∀ c ∈ orig, Con.Fine c C ∧ PosyCon c) :
    ∃ cs, relaxedEqually E se C orig = .ok cs ∧ ∀ c ∈ cs, c.Faithful := by
  obtain ⟨rs, h1⟩ := mapM_total (f := fun c => relaxed E c (varNomial E.vunits C)) (l := orig) (fun c hc' => by
    obtain ⟨cs, h2, _⟩ := C32_solver htol hC (hc c hc').1 (hc c hc').2
    exact ⟨cs, h2⟩)
  obtain ⟨m, h5, h6, _⟩ := atLeastOne_ok se hC
  refine ⟨m :: rs.flatten, ?_, ?_⟩
  · unfold relaxedEqually; rw [h1]; show (atLeastOne E se C >>= _) = _; rw [h5]; rfl
  · intro c hm
    rcases List.mem_cons.1 hm with rfl | hm
    · exact h6
    obtain ⟨r, hr, hcr⟩ := List.mem_flatten.1 hm
    obtain ⟨a, ha1, ha2⟩ := forall₂_mem (mapM_ok h1) hr
    obtain ⟨cs, h8, h9⟩ := C32_solver htol hC (hc a ha1).1 (hc a ha1).2
    rw [ha2] at h8; cases h8
    exact (h9 c hcr).2

theorem relaxedEach_ok {E : Env V ℝ D} {Cs : List V} (hC : ∀ C ∈ Cs, E.vunits C = none) {flat cs : List (Con V ℝ D)}
    (hg : ∀ c ∈ flat, (PyVal.nom c.left).Good ∧ (PyVal.nom c.right).Good) (h : relaxedEach E Cs flat = .ok cs) {pt : V → ℝ} (hpt : ∀ v, 0 < pt v) :
    flat.length ≤ Cs.length ∧ ((∀ c ∈ cs, c.Holds pt) ↔ ∀ p ∈ flat.zip Cs, p.1.HoldsWithin (pt p.2) pt) := by
  induction flat generalizing Cs cs with
  | nil => cases Cs <;> (unfold relaxedEach at h; cases h; simp)
  | cons c flat ih =>
    cases Cs with
    | nil => unfold relaxedEach at h; cases h
    | cons C Cs =>
      unfold relaxedEach at h
      obtain ⟨r, h1, h2⟩ := except_bind_ok h
      obtain ⟨rs, h3, h4⟩ := except_bind_ok h2
      cases h4
      obtain ⟨h5, h6⟩ := ih (fun C hC' => hC C (List.mem_cons_of_mem _ hC')) (fun c hc' => hg c (List.mem_cons_of_mem _ hc')) h3
      have h7 := relaxed_holds (hC C List.mem_cons_self) (hg c List.mem_cons_self).1 (hg c List.mem_cons_self).2 h1 hpt
      refine ⟨by simpa using h5, ?_⟩
      simp only [List.zip_cons_cons, List.mem_append, List.mem_cons, or_imp, forall_and, forall_eq]
      exact and_congr h7 h6

theorem ones_ok {E : Env V ℝ D} {se : Bool} {Cs : List V} (hC : ∀ C ∈ Cs, E.vunits C = none) :
    ∃ ms, Cs.mapM (atLeastOne E se) = .ok ms ∧ (∀ c ∈ ms, c.Faithful) ∧ ∀ pt : V → ℝ, (∀ c ∈ ms, c.Holds pt) ↔ ∀ C ∈ Cs, 1 ≤ pt C := by
  induction Cs with
  | nil => exact ⟨[], rfl, by simp, by simp⟩
  | cons C Cs ih =>
    obtain ⟨ms, h1, h2, h3⟩ := ih (fun C hC' => hC C (List.mem_cons_of_mem _ hC'))
    obtain ⟨m, h4, h5, h6⟩ := atLeastOne_ok se (hC C List.mem_cons_self)
    refine ⟨m :: ms, ?_, ?_, ?_⟩
    · rw [List.mapM_cons, h4]; show (Cs.mapM (atLeastOne E se) >>= _) = _; rw [h1]; rfl
    · intro c hc
      rcases List.mem_cons.1 hc with rfl | hc
      · exact h5
      · exact h2 c hc
    · intro pt
      simp only [List.mem_cons, forall_eq_or_imp]
      exact and_congr (h6 pt) (h3 pt)

/-- C32 for `ConstraintsRelaxed`. If it can be built, its points are those where each constraint holds within its own relaxation, all of
which are at least 1. -/
theorem C32_each {E : Env V ℝ D} {se : Bool} {Cs : List V} (hC : ∀ C ∈ Cs, E.vunits C = none) {flat cs : List (Con V ℝ D)}
    (hg : ∀ c ∈ flat, (PyVal.nom c.left).Good ∧ (PyVal.nom c.right).Good) (h : relaxedAll E se Cs flat = .ok cs) {pt : V → ℝ} (hpt : ∀ v, 0 < pt v) :
    flat.length ≤ Cs.length ∧
    ((∀ c ∈ cs, c.Holds pt) ↔ (∀ C ∈ Cs, 1 ≤ pt C) ∧ ∀ p ∈ flat.zip Cs, p.1.HoldsWithin (pt p.2) pt) := by
  unfold relaxedAll at h
  obtain ⟨rs, h1, h2⟩ := except_bind_ok h
  obtain ⟨ms, h3, _, h4⟩ := ones_ok (E := E) (se := se) hC
  have h5 : (ms ++ rs) = cs := by
    rw [h3] at h2
    cases h2; rfl
  subst h5
  obtain ⟨h6, h7⟩ := relaxedEach_ok hC hg h1 hpt
  refine ⟨h6, ?_⟩
  simp only [List.mem_append, or_imp, forall_and]
  exact and_congr (h4 pt) h7

/-- C32 for `ConstraintsRelaxed` of posynomial constraints where the set has no nested sets or vectors, so that the vector is long enough:
it can be built, and the solver gets exactly its constraints. -/
theorem C32_each_solver_partial {E : Env V ℝ D} (htol : 0 ≤ E.tol) {se : Bool} {Cs : List V} (hC : ∀ C ∈ Cs, E.vunits C = none)
    {flat : List (Con V ℝ D)} (hc : ∀ c ∈ flat, PosyCon c ∧ ∀ C ∈ Cs, Con.Fine c C) (hlen : flat.length ≤ Cs.length) :
    ∃ cs, relaxedAll E se Cs flat = .ok cs ∧ ∀ c ∈ cs, c.Faithful := by
  have h1 : ∀ (flat : List (Con V ℝ D)) (Cs : List V), (∀ C ∈ Cs, E.vunits C = none) → (∀ c ∈ flat, PosyCon c ∧ ∀ C ∈ Cs, Con.Fine c C) →
      flat.length ≤ Cs.length → ∃ rs, relaxedEach E Cs flat = .ok rs ∧ ∀ c ∈ rs, c.Faithful := by
    intro flat
    induction flat with
    | nil => intro Cs _ _ _; exact ⟨[], by cases Cs <;> rfl, by simp⟩
    | cons c flat ih =>
      intro Cs hC hc hl
      cases Cs with
      | nil => simp at hl
      | cons C Cs =>
        obtain ⟨r, h2, h3⟩ := C32_solver htol (hC C List.mem_cons_self) ((hc c List.mem_cons_self).2 C List.mem_cons_self) (hc c List.mem_cons_self).1
        obtain ⟨rs, h4, h5⟩ := ih Cs (fun C hC' => hC C (List.mem_cons_of_mem _ hC'))
          (fun c hc' => ⟨(hc c (List.mem_cons_of_mem _ hc')).1, fun C hC' => (hc c (List.mem_cons_of_mem _ hc')).2 C (List.mem_cons_of_mem _ hC')⟩)
          (by simpa using hl)
        refine ⟨r ++ rs, ?_, ?_⟩
        · unfold relaxedEach; rw [h2]; show (relaxedEach E Cs flat >>= _) = _; rw [h4]; rfl
        · intro c' hc'
          rcases List.mem_append.1 hc' with h | h
          · exact (h3 c' h).2
          · exact h5 c' h
  obtain ⟨rs, h2, h3⟩ := h1 flat Cs hC hc hlen
  obtain ⟨ms, h4, h5, _⟩ := ones_ok (E := E) (se := se) hC
  refine ⟨ms ++ rs, ?_, ?_⟩
  · unfold relaxedAll; rw [h2]; show (Cs.mapM (atLeastOne E se) >>= _) = _; rw [h4]; rfl
  · intro c hc'
    rcases List.mem_append.1 hc' with h | h
    · exact h5 c h
    · exact h3 c h

/-! ### Where C32 fails, and examples -/

/-- Orders and units for the examples below. Variables are numbers: `C` is 0 (or 10, 11), `x` is 1, `y` is 2, `z` is 3. -/
noncomputable def relaxEnv : Env ℕ ℝ ℤ := ⟨1 / 1000, fun _ => none, fun _ _ => [], id⟩

/-- A nomial without units. -/
def plain (ts : PyDict (HV ℕ ℝ) ℝ) (c : Cls) : Nomial ℕ ℝ ℤ := ⟨⟨ts, none⟩, c⟩

/-- `x - y >= z`, a `SignomialInequality`. -/
noncomputable def gapCon : Con ℕ ℝ ℤ :=
  ⟨.sig, plain [(⟨[(1, 1)]⟩, 1), (⟨[(2, 1)]⟩, -1)] .signomial, .ge, plain [(⟨[(3, 1)]⟩, 1)] .monomial, []⟩

/-- `-y >= -z`, a `SignomialInequality`. -/
noncomputable def minusCon : Con ℕ ℝ ℤ :=
  ⟨.sig, plain [(⟨[(2, 1)]⟩, -1)] .signomial, .ge, plain [(⟨[(3, 1)]⟩, -1)] .signomial, []⟩

/-- `x*y <= 1`. -/
noncomputable def prodCon : Con ℕ ℝ ℤ :=
  ⟨.posy, plain [(⟨[(1, 1), (2, 1)]⟩, 1)] .monomial, .le, plain [(HV.empty, 1)] .monomial, []⟩

theorem sig_class {ts : PyDict (HV ℕ ℝ) ℝ} (h : ∃ t ∈ ts, t.2 < 0) : (plain ts .signomial).ClassTrue := by
  obtain ⟨t, ht, h0⟩ := h
  refine ⟨⟨fun h => (by cases h), ?_⟩, ⟨fun _ => ⟨t, ht, h0.le⟩, fun _ => rfl⟩, ⟨fun h => (by cases h), ?_⟩⟩
  · rintro ⟨e, c, h, hc⟩
    have h : ts = [(e, c)] := h
    rw [h, List.mem_singleton] at ht
    subst ht
    exact absurd h0 (not_lt.2 hc.le)
  · rintro ⟨h, _⟩
    have := h t ht
    linarith

theorem mono_class (e : HV ℕ ℝ) : (plain [(e, 1)] .monomial).ClassTrue := by
  refine ⟨⟨fun _ => ⟨e, 1, rfl, one_pos⟩, fun _ => rfl⟩, ⟨fun h => (by cases h), ?_⟩, ⟨fun h => (by cases h), ?_⟩⟩
  · rintro ⟨t, ht, h0⟩; simp [plain] at ht; subst ht; norm_num at h0
  · rintro ⟨_, h0⟩; simp [plain] at h0

theorem minus_fine : Con.Fine minusCon 0 := by
  refine ⟨⟨one_pos, sig_class ⟨_, List.mem_singleton_self _, by norm_num⟩⟩, ⟨one_pos, sig_class ⟨_, List.mem_singleton_self _, by norm_num⟩⟩, ?_, ?_⟩
  · rw [mem_vks_items]; simp [minusCon, plain]
  · rw [mem_vks_items]; simp [minusCon, plain]

theorem gap_fine : Con.Fine gapCon 0 := by
  refine ⟨⟨one_pos, sig_class ⟨(⟨[(2, 1)]⟩, -1), by simp, by norm_num⟩⟩, ⟨one_pos, mono_class _⟩, ?_, ?_⟩
  · rw [mem_vks_items]; simp [gapCon, plain]
  · rw [mem_vks_items]; simp [gapCon, plain]

/-- The relaxation of `-y >= -z` can be built. -/
theorem minus_relaxes : ∃ cs, relaxed relaxEnv minusCon (varNomial relaxEnv.vunits 0) = .ok cs := by
  norm_num [relaxed, minusCon, plain, relaxEnv, varNomial, Nomial.mul, Nomial.mulTerms, Nomial.mulStep, PyDict.get?, PyDict.set, PyDict.del,
    bind, pure, Except.bind, Except.pure, HV.beq_def, List.isPerm, HV.sub, HV.add, HV.scale, dictAdd, dictAddStep, dictScale, HV.empty,
    NMap.unitsOfProduct, mkSig, NMap.anyNonpositive, geNom, mkSigIneq, mkSigBody, PyVal.sub, PyVal.neg, Nomial.neg, Nomial.mulNum, NMap.scale,
    PyVal.add, Nomial.add, NMap.add, asGpconstr, Nomial.posyNegy, Nomial.posyNegyStep, Nomial.posyOrZero, Except.map, Nomial.monoLowerBound, genUnsubbed,
    UnitCache.ratio, renameTerms, renameStep, List.foldlM, simplifyPosyIneq, wrapForm]

/-- The relaxation of `x - y >= z` can be built. -/
theorem gap_relaxes : ∃ cs, relaxed relaxEnv gapCon (varNomial relaxEnv.vunits 0) = .ok cs := by
  norm_num [relaxed, gapCon, plain, relaxEnv, varNomial, Nomial.mul, Nomial.mulTerms, Nomial.mulStep, PyDict.get?, PyDict.set, PyDict.del,
    bind, pure, Except.bind, Except.pure, HV.beq_def, List.isPerm, HV.sub, HV.add, HV.scale, dictAdd, dictAddStep, dictScale, HV.empty,
    NMap.unitsOfProduct, mkSig, NMap.anyNonpositive, geNom, mkSigIneq, mkSigBody, PyVal.sub, PyVal.neg, Nomial.neg, Nomial.mulNum, NMap.scale,
    PyVal.add, Nomial.add, NMap.add, asGpconstr, Nomial.posyNegy, Nomial.posyNegyStep, Nomial.posyOrZero, Except.map, Nomial.monoLowerBound, genUnsubbed,
    UnitCache.ratio, renameTerms, renameStep, List.foldlM, simplifyPosyIneq, wrapForm]

/-- C32 does not hold in full: the relaxation of `-y >= -z` shrinks. At `y = z` the constraint and its relaxation by 1 hold, but no larger
relaxation does. -/
theorem C32_shrinks_fails : ∃ cs, relaxed relaxEnv minusCon (varNomial relaxEnv.vunits 0) = .ok cs ∧
    let pt : ℕ → ℝ := fun _ => 1
    minusCon.Holds pt ∧ (∀ c ∈ cs, c.Holds (Function.update pt 0 1)) ∧ ∀ r, 1 < r → ¬ ∀ c ∈ cs, c.Holds (Function.update pt 0 r) := by
  obtain ⟨cs, h⟩ := minus_relaxes
  refine ⟨cs, h, ?_⟩
  intro pt
  have hpt : ∀ v, 0 < pt v := fun v => one_pos
  have h0 : minusCon.Holds pt := by simp [Con.Holds, minusCon, plain, physVal, termsVal, monVal, unitScale, pt]
  refine ⟨h0, (C32_one (E := relaxEnv) rfl minus_fine h hpt).2 h0, ?_⟩
  intro r hr hall
  rw [relaxed_holds (E := relaxEnv) rfl minus_fine.1 minus_fine.2.1 h (update_pos hpt 0 (by linarith)), holdsWithin_update minus_fine,
    Function.update_self] at hall
  simp [Con.HoldsWithin, minusCon, plain, physVal, termsVal, monVal, unitScale, pt] at hall
  linarith

/-- C32 does not hold in full: no relaxation of `x - y >= z` is enough for `x = z = 1`, `y = 2`. -/
theorem C32_never_fails : ∃ cs, relaxed relaxEnv gapCon (varNomial relaxEnv.vunits 0) = .ok cs ∧
    let pt : ℕ → ℝ := fun v => if v = 2 then 2 else 1
    ∀ r, 0 < r → ¬ ∀ c ∈ cs, c.Holds (Function.update pt 0 r) := by
  obtain ⟨cs, h⟩ := gap_relaxes
  refine ⟨cs, h, ?_⟩
  intro pt r hr hall
  have hpt : ∀ v, 0 < pt v := by intro v; show 0 < (if v = 2 then (2 : ℝ) else 1); split_ifs <;> norm_num
  rw [relaxed_holds (E := relaxEnv) rfl gap_fine.1 gap_fine.2.1 h (update_pos hpt 0 hr), holdsWithin_update gap_fine,
    Function.update_self] at hall
  simp [Con.HoldsWithin, gapCon, plain, physVal, termsVal, monVal, unitScale, pt] at hall
  norm_num at hall
  linarith

theorem prod_fine (C : ℕ) (h : C ≠ 1 ∧ C ≠ 2) : Con.Fine prodCon C ∧ PosyCon prodCon := by
  have hp : ∀ e : HV ℕ ℝ, (plain [(e, 1)] .monomial).AllPos := by
    intro e t ht; simp [plain] at ht; subst ht; exact one_pos
  refine ⟨⟨⟨one_pos, mono_class _⟩, ⟨one_pos, mono_class _⟩, ?_, ?_⟩, ⟨?_, ?_, by simp [prodCon, plain], by simp [prodCon, plain], hp _, hp _, ⟨?_, ?_⟩, ⟨1, rfl⟩⟩⟩
  · rw [mem_vks_items]; simp [prodCon, plain, h.1, h.2]
  · rw [mem_vks_items]; simp [prodCon, plain, HV.empty]
  · constructor
    · intro t ht; simp [prodCon, plain] at ht; subst ht; simp [ExpCanonical]
    · simp [prodCon, plain]
  · constructor
    · intro t ht; simp [prodCon, plain] at ht; subst ht; simp [ExpCanonical, HV.empty]
    · simp [prodCon, plain]
  · intro _; rfl
  · intro _; rfl

/-- C32 does not hold in full: `ConstraintsRelaxed([[x*y <= 1, x*y <= 1]])` raises `IndexError`. The set has one element, a list, so the vector
of relaxations has length one. -/
theorem C32_nested_fails : relaxedAll relaxEnv false [10] [prodCon, prodCon] = .error .indexError := by
  obtain ⟨cs, h1, _⟩ := C32_solver (E := relaxEnv) (by norm_num [relaxEnv]) (C := 10) rfl (prod_fine 10 (by decide)).1 (prod_fine 10 (by decide)).2
  unfold relaxedAll relaxedEach
  rw [h1]
  rfl

/-- The hypotheses of the theorems above hold for `x*y <= 1`. -/
example := C32_equally_solver (E := relaxEnv) (by norm_num [relaxEnv]) (se := false) (C := 0) rfl (orig := [prodCon, prodCon])
  (by intro c hc; simp at hc; subst hc; exact prod_fine 0 (by decide))

/-- The hypotheses of the theorems above hold for `x*y <= 1`. -/
example := C32_each_solver_partial (E := relaxEnv) (by norm_num [relaxEnv]) (se := false) (Cs := [10, 11]) (fun _ _ => rfl) (flat := [prodCon, prodCon])
  (by intro c hc; simp at hc; subst hc; exact ⟨(prod_fine 0 (by decide)).2, by intro C hC; exact (prod_fine C (by
    simp at hC; rcases hC with rfl | rfl <;> decide)).1⟩) (by simp)

end Verif
