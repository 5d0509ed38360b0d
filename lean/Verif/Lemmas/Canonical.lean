import Verif.Lemmas.Arith
import Mathlib.LinearAlgebra.LinearIndependent.Lemmas
import Mathlib.FieldTheory.Fixed
import Mathlib.Data.List.OfFn

/-! Canonical form is preserved; canonical nomials that agree as functions are equal. -/

set_option linter.unusedSectionVars false

namespace Verif
open PyDict

section Generic
variable {α K : Type} [BEq α] [EquivBEq α] [Field K] [DecidableEq K]

/-- no value is zero -/
def NZ (d : PyDict α K) : Prop := ∀ p ∈ d, p.2 ≠ 0

theorem NZ.set {d : PyDict α K} (h : NZ d) {k : α} {v : K} (hv : v ≠ 0) : NZ (d.set k v) := by
  intro p hp
  rcases keys_beq_of_mem_set hp with ⟨_, h2⟩ | h2
  · rw [h2]; exact hv
  · exact h p h2

theorem NZ.del {d : PyDict α K} (h : NZ d) (k : α) : NZ (d.del k) :=
  fun p hp => h p ((del_sublist d k).subset hp)

theorem dictAddStep_wf {a : PyDict α K} (h : WF a) (kv : α × K) : WF (dictAddStep a kv) := by
  unfold dictAddStep
  split
  · split_ifs
    · exact wf_del h _
    · exact wf_set h _ _
  · exact wf_set h _ _

theorem dictAddStep_nz {a : PyDict α K} (h : NZ a) {kv : α × K} (hkv : kv.2 ≠ 0) :
    NZ (dictAddStep a kv) := by
  unfold dictAddStep
  split
  · split_ifs with h2
    · exact h.del _
    · exact h.set (fun h3 => h2 (eq_neg_of_add_eq_zero_left h3))
  · exact h.set hkv

theorem dictAdd_wf {a : PyDict α K} (h : WF a) (b : PyDict α K) : WF (dictAdd a b) := by
  induction b generalizing a with
  | nil => exact h
  | cons kv b ih => rw [dictAdd_cons]; exact ih (dictAddStep_wf h kv)

theorem dictAdd_nz {a b : PyDict α K} (h : NZ a) (hb : NZ b) : NZ (dictAdd a b) := by
  induction b generalizing a with
  | nil => exact h
  | cons kv b ih =>
    rw [dictAdd_cons]
    exact ih (dictAddStep_nz h (hb kv List.mem_cons_self)) (fun p hp => hb p (List.mem_cons_of_mem _ hp))

theorem keys_of_mem_set' {d : PyDict α K} {k : α} {v : K} {p : α × K} (h : p ∈ d.set k v) :
    p.1 = k ∨ ∃ w, (p.1, w) ∈ d := by
  induction d with
  | nil => simp at h; left; rw [h]
  | cons a d ih =>
    obtain ⟨k', v'⟩ := a
    rw [set_cons] at h
    by_cases hk : k' == k
    · rw [if_pos hk] at h
      rcases List.mem_cons.1 h with h | h
      · right; exact ⟨v', by rw [h]; simp⟩
      · right; exact ⟨p.2, List.mem_cons_of_mem _ h⟩
    · rw [if_neg hk] at h
      rcases List.mem_cons.1 h with h | h
      · right; exact ⟨v', by rw [h]; simp⟩
      · rcases ih h with h | ⟨w, h⟩
        · left; exact h
        · right; exact ⟨w, List.mem_cons_of_mem _ h⟩

/-- keys of a sum come from the summands -/
theorem dictAdd_keys {P : α → Prop} {a b : PyDict α K} (ha : ∀ p ∈ a, P p.1) (hb : ∀ p ∈ b, P p.1) :
    ∀ p ∈ dictAdd a b, P p.1 := by
  induction b generalizing a with
  | nil => exact ha
  | cons kv b ih =>
    rw [dictAdd_cons]
    refine ih ?_ (fun p hp => hb p (List.mem_cons_of_mem _ hp))
    intro p hp
    unfold dictAddStep at hp
    split at hp
    · split_ifs at hp
      · exact ha p ((del_sublist _ _).subset hp)
      · rcases keys_of_mem_set' hp with h | ⟨w, h⟩
        · rw [h]; exact hb kv List.mem_cons_self
        · exact ha (p.1, w) h
    · rcases keys_of_mem_set' hp with h | ⟨w, h⟩
      · rw [h]; exact hb kv List.mem_cons_self
      · exact ha (p.1, w) h

theorem getD_dictAddStep {a : PyDict α K} (h : WF a) (kv : α × K) (k : α) :
    ((dictAddStep a kv).get? k).getD 0 = (a.get? k).getD 0 + if kv.1 == k then kv.2 else 0 := by
  unfold dictAddStep
  cases hs : a.get? kv.1 with
  | none =>
    simp only
    rw [get?_set]
    by_cases hk : kv.1 == k
    · rw [← get?_congr a hk, hs]; simp [hk]
    · simp [hk]
  | some s =>
    simp only
    by_cases h2 : kv.2 = -s
    · rw [if_pos h2, get?_del h]
      by_cases hk : kv.1 == k
      · rw [← get?_congr a hk, hs, h2]; simp [hk]
      · simp [hk]
    · rw [if_neg h2, get?_set]
      by_cases hk : kv.1 == k
      · rw [← get?_congr a hk, hs]; simp [hk, add_comm]
      · simp [hk]

theorem getD_dictAdd {a b : PyDict α K} (ha : WF a) (hb : WF b) (k : α) :
    ((dictAdd a b).get? k).getD 0 = (a.get? k).getD 0 + (b.get? k).getD 0 := by
  induction b generalizing a with
  | nil => simp [dictAdd_nil]
  | cons kv b ih =>
    obtain ⟨h1, h2⟩ := wf_cons.1 hb
    rw [dictAdd_cons, ih (dictAddStep_wf ha kv) h2, getD_dictAddStep ha]
    obtain ⟨k', v⟩ := kv
    rw [get?_cons]
    by_cases hk : k' == k
    · have : PyDict.get? b k = none := by
        rw [get?_eq_none_iff]
        intro p hp
        have := h1 p hp
        rw [BEq.comm, ← beq_congr_left hk]; exact this
      simp [hk, this]
    · simp [hk]

theorem dictScale_wf {a : PyDict α K} (h : WF a) (c : K) : WF (dictScale a c) := by
  unfold dictScale WF
  rw [List.pairwise_map]
  exact h

theorem dictScale_nz {a : PyDict α K} (h : NZ a) {c : K} (hc : c ≠ 0) : NZ (dictScale a c) := by
  intro p hp
  unfold dictScale at hp
  obtain ⟨q, hq, rfl⟩ := List.mem_map.1 hp
  exact mul_ne_zero (h q hq) hc

theorem get?_dictScale (a : PyDict α K) (c : K) (k : α) :
    (dictScale a c).get? k = (a.get? k).map (· * c) := by
  induction a with
  | nil => rfl
  | cons p a ih =>
    obtain ⟨k', v⟩ := p
    have : dictScale ((k', v) :: a) c = (k', v * c) :: dictScale a c := rfl
    rw [this, get?_cons, get?_cons, ih]
    by_cases hk : k' == k <;> simp [hk]

theorem length_le_of_contains {a b : PyDict α K} (ha : WF a) (hb : WF b)
    (h : ∀ p ∈ a, b.contains p.1 = true) : a.length ≤ b.length := by
  induction a generalizing b with
  | nil => simp
  | cons p a ih =>
    obtain ⟨h1, h2⟩ := wf_cons.1 ha
    have hlen : ∀ (d : PyDict α K) (k : α), d.contains k = true → (d.del k).length + 1 = d.length := by
      intro d k
      induction d with
      | nil => intro h; simp [contains] at h
      | cons q d ih =>
        obtain ⟨k', v'⟩ := q
        intro h
        rw [del_cons]
        by_cases hk : k' == k
        · rw [if_pos hk]; simp
        · rw [if_neg hk]
          have : PyDict.contains d k = true := by
            obtain ⟨v, hv⟩ := contains_iff.1 h
            rw [get?_cons, if_neg hk] at hv
            exact contains_iff.2 ⟨v, hv⟩
          simp [← ih this]
    have hp := hlen b p.1 (h p List.mem_cons_self)
    have := ih h2 (wf_del hb p.1) (fun q hq => by
      have hq1 := h q (List.mem_cons_of_mem _ hq)
      obtain ⟨v, hv⟩ := contains_iff.1 hq1
      refine contains_iff.2 ⟨v, ?_⟩
      rw [get?_del hb, h1 q hq]; simpa using hv)
    simp only [List.length_cons]
    omega

end Generic

section Exp
variable {V K : Type} [DecidableEq V] [Field K] [DecidableEq K]

theorem expCanonical_iff (e : PyDict V K) : ExpCanonical e ↔ WF e ∧ NZ e := by
  unfold ExpCanonical WF NZ List.Nodup
  rw [List.pairwise_map]
  constructor
  · rintro ⟨h1, h2⟩
    exact ⟨h1.imp (fun h => by simpa using h), h2⟩
  · rintro ⟨h1, h2⟩
    exact ⟨h1.imp (fun h => by simpa using h), h2⟩

theorem termsCanonical_iff (ts : PyDict (HV V K) K) :
    TermsCanonical ts ↔ WF ts ∧ NZ ts ∧ ∀ t ∈ ts, ExpCanonical t.1.items := by
  unfold TermsCanonical WF NZ
  constructor
  · rintro ⟨h1, h2⟩
    refine ⟨h2.imp (fun h => ?_), fun t ht => (h1 t ht).2, fun t ht => (h1 t ht).1⟩
    rw [← Bool.not_eq_true]; exact fun h3 => h (HV.beq_iff.1 h3)
  · rintro ⟨h1, h2, h3⟩
    refine ⟨fun t ht => ⟨h3 t ht, h2 t ht⟩, h1.imp (fun h => ?_)⟩
    intro h4
    rw [HV.beq_iff.2 h4] at h; cases h

theorem HV.add_canonical {a b : HV V K} (ha : ExpCanonical a.items) (hb : ExpCanonical b.items) :
    ExpCanonical (a.add b).items := by
  rw [expCanonical_iff] at *
  exact ⟨dictAdd_wf ha.1 _, dictAdd_nz ha.2 hb.2⟩

theorem HV.scale_canonical {a : HV V K} (ha : ExpCanonical a.items) {c : K} (hc : c ≠ 0) :
    ExpCanonical (a.scale c).items := by
  rw [expCanonical_iff] at *
  exact ⟨dictScale_wf ha.1 _, dictScale_nz ha.2 hc⟩

theorem HV.sub_canonical {a b : HV V K} (ha : ExpCanonical a.items) (hb : ExpCanonical b.items) :
    ExpCanonical (a.sub b).items :=
  HV.add_canonical ha (HV.scale_canonical hb (neg_ne_zero.2 one_ne_zero))

theorem dictAdd_canonical {a b : PyDict (HV V K) K} (ha : TermsCanonical a) (hb : TermsCanonical b) :
    TermsCanonical (dictAdd a b) := by
  rw [termsCanonical_iff] at *
  exact ⟨dictAdd_wf ha.1 _, dictAdd_nz ha.2.1 hb.2.1,
    dictAdd_keys (P := fun e : HV V K => ExpCanonical e.items) ha.2.2 hb.2.2⟩

theorem dictScale_canonical {a : PyDict (HV V K) K} (ha : TermsCanonical a) {c : K} (hc : c ≠ 0) :
    TermsCanonical (dictScale a c) := by
  rw [termsCanonical_iff] at *
  refine ⟨dictScale_wf ha.1 _, dictScale_nz ha.2.1 hc, ?_⟩
  intro t ht
  unfold dictScale at ht
  obtain ⟨q, hq, rfl⟩ := List.mem_map.1 ht
  exact ha.2.2 q hq

end Exp

section Mul
variable {V K : Type} [DecidableEq V] [Field K] [LinearOrder K]

theorem mulStep_canonical {e1 : HV V K} (he : ExpCanonical e1.items) (c1 : K)
    {acc : PyDict (HV V K) K} (ha : TermsCanonical acc) {t : HV V K × K} (ht : ExpCanonical t.1.items) :
    TermsCanonical (Nomial.mulStep e1 c1 acc t) := by
  rw [termsCanonical_iff] at *
  obtain ⟨h1, h2, h3⟩ := ha
  unfold Nomial.mulStep
  simp only
  split_ifs with h4 h5
  · refine ⟨wf_set h1 _ _, h2.set (fun h => h4 ?_), ?_⟩
    · exact eq_neg_of_add_eq_zero_right h
    · intro p hp
      rcases keys_of_mem_set' hp with h | ⟨w, h⟩
      · rw [h]; exact HV.add_canonical he ht
      · exact h3 (p.1, w) h
  · exact ⟨wf_del h1 _, h2.del _, fun p hp => h3 p ((del_sublist _ _).subset hp)⟩
  · exact ⟨h1, h2, h3⟩

theorem mulTerms_canonical {a b : PyDict (HV V K) K} (ha : TermsCanonical a) (hb : TermsCanonical b) :
    TermsCanonical (Nomial.mulTerms a b) := by
  unfold Nomial.mulTerms
  have hinner : ∀ (e1 : HV V K) (c1 : K), ExpCanonical e1.items → ∀ (b acc : PyDict (HV V K) K),
      (∀ t ∈ b, ExpCanonical t.1.items) → TermsCanonical acc →
      TermsCanonical (b.foldl (Nomial.mulStep e1 c1) acc) := by
    intro e1 c1 he b
    induction b with
    | nil => intro acc _ h; exact h
    | cons t b ih =>
      intro acc hb h
      rw [List.foldl_cons]
      exact ih _ (fun s hs => hb s (List.mem_cons_of_mem _ hs))
        (mulStep_canonical he c1 h (hb t List.mem_cons_self))
  have hb' : ∀ t ∈ b, ExpCanonical t.1.items := fun t ht => (hb.1 t ht).1
  have houter : ∀ (a acc : PyDict (HV V K) K), (∀ t ∈ a, ExpCanonical t.1.items) → TermsCanonical acc →
      TermsCanonical (a.foldl (fun acc s => b.foldl (Nomial.mulStep s.1 s.2) acc) acc) := by
    intro a
    induction a with
    | nil => intro acc _ h; exact h
    | cons s a ih =>
      intro acc ha h
      rw [List.foldl_cons]
      exact ih _ (fun s hs => ha s (List.mem_cons_of_mem _ hs))
        (hinner _ _ (ha s List.mem_cons_self) b acc hb' h)
  exact houter a [] (fun t ht => (ha.1 t ht).1) ⟨by simp, List.Pairwise.nil⟩

end Mul

/-! ### Expressions evaluate to canonical nomials -/

section Build
variable {V D : Type} [DecidableEq V] [AddCommGroup D] [DecidableEq D]

/-- nomials are canonical -/
def PyVal.Canon : PyVal V ℝ D → Prop
  | .num _ => True
  | .nom n => TermsCanonical n.hmap.terms

theorem unitsOfProduct_canonical {h : NMap V ℝ D} {u1 u2 : Option (UnitQ D ℝ)}
    (hc : TermsCanonical h.terms) (h1 : UnitOK u1) (h2 : UnitOK u2) :
    TermsCanonical (h.unitsOfProduct u1 u2).terms := by
  unfold NMap.unitsOfProduct
  match u1, u2 with
  | none, none => exact hc
  | some a, none => exact hc
  | none, some b => exact hc
  | some a, some b =>
    simp only
    match hp : ofProduct a b with
    | (u, some conv) =>
      obtain ⟨rfl, rfl, _⟩ := ofProduct_fst_none hp
      exact dictScale_canonical hc (mul_pos h1 h2).ne'
    | (u, none) => exact hc

theorem NMap.add_canonical {a b h : NMap V ℝ D} (ha : TermsCanonical a.terms)
    (hb : TermsCanonical b.terms) (ua : UnitOK a.units) (ub : UnitOK b.units)
    (hh : a.add b = .ok h) : TermsCanonical h.terms := by
  unfold NMap.add at hh
  split_ifs at hh with hu
  · cases hh; exact dictAdd_canonical ha hb
  · cases hua : a.units with
    | none => rw [hua] at hh; simp at hh
    | some u =>
      cases hub : b.units with
      | none => rw [hua, hub] at hh; simp at hh
      | some w =>
        rw [hua, hub] at hh
        rw [hua] at ua; rw [hub] at ub
        simp only [UnitQ.float, UnitQ.mul, UnitQ.inv] at hh
        by_cases hd : w.dim + -u.dim = 0
        · simp only [hd, if_true] at hh
          injection hh with hh
          subst hh
          exact dictAdd_canonical ha (dictScale_canonical hb (mul_pos ub (inv_pos.2 ua)).ne')
        · simp [hd] at hh

theorem numMap_canonical {q : PyQ D ℝ} (h : q.mag ≠ 0) : TermsCanonical (numMap q : NMap V ℝ D).terms := by
  simp [numMap, TermsCanonical, HV.empty, ExpCanonical, h]

theorem addNum_canon {se : Bool} {a n : Nomial V ℝ D} {q : PyQ D ℝ} (ha : TermsCanonical a.hmap.terms)
    (hu : UnitOK a.hmap.units) (hq : UnitOK q.units) (h : a.addNum se q = .ok n) :
    TermsCanonical n.hmap.terms := by
  unfold Nomial.addNum at h
  by_cases h0 : q.mag = 0
  · rw [if_pos h0] at h; rw [mkSig_ok h]; exact ha
  · rw [if_neg h0] at h
    obtain ⟨m, h1, h2⟩ := except_bind_ok h
    rw [mkSig_ok h2]
    exact NMap.add_canonical (b := numMap q) ha (numMap_canonical h0) hu hq h1

theorem add_canon {se : Bool} {a b n : Nomial V ℝ D} (ha : TermsCanonical a.hmap.terms)
    (hb : TermsCanonical b.hmap.terms) (ua : UnitOK a.hmap.units) (ub : UnitOK b.hmap.units)
    (h : a.add se b = .ok n) : TermsCanonical n.hmap.terms := by
  unfold Nomial.add at h
  split_ifs at h
  · obtain ⟨m, h1, h2⟩ := except_bind_ok h
    rw [mkSig_ok h2]; exact NMap.add_canonical hb ha ub ua h1
  · obtain ⟨m, h1, h2⟩ := except_bind_ok h
    rw [mkSig_ok h2]; exact NMap.add_canonical ha hb ua ub h1

theorem mulNum_canon {se : Bool} {a : Nomial V ℝ D} {q : PyQ D ℝ} {r : PyVal V ℝ D}
    (ha : TermsCanonical a.hmap.terms) (ua : UnitOK a.hmap.units) (uq : UnitOK q.units)
    (h : a.mulNum se q = .ok r) : r.Canon := by
  unfold Nomial.mulNum at h
  by_cases h0 : q.mag = 0
  · rw [if_pos h0] at h; cases h; trivial
  · rw [if_neg h0] at h
    obtain ⟨m, h1, h2⟩ := except_bind_ok h
    cases h2
    show TermsCanonical m.hmap.terms
    rw [mkSig_ok h1]
    exact unitsOfProduct_canonical (dictScale_canonical ha h0) ua uq

theorem mul_canon {se : Bool} {a b n : Nomial V ℝ D} (ha : TermsCanonical a.hmap.terms)
    (hb : TermsCanonical b.hmap.terms) (ua : UnitOK a.hmap.units) (ub : UnitOK b.hmap.units)
    (h : a.mul se b = .ok n) : TermsCanonical n.hmap.terms := by
  unfold Nomial.mul at h
  rw [mkSig_ok h]
  exact unitsOfProduct_canonical (mulTerms_canonical ha hb) ua ub

theorem monoPow_canon [Module ℝ D] {se : Bool} {a n : Nomial V ℝ D} {x : ℝ}
    (ha : TermsCanonical a.hmap.terms) (hg : (PyVal.nom a).Good) (hm : a.cls = .monomial)
    (h : a.monoPow se x = .ok n) : TermsCanonical n.hmap.terms := by
  obtain ⟨e, c, hx, hc⟩ := hg.2.1.1 hm
  unfold Nomial.monoPow at h
  rw [hx] at h ha
  simp only at h
  rw [mkSig_ok h]
  have hp : pw c x ≠ 0 := (Real.rpow_pos_of_pos hc x).ne'
  have he := (ha.1 (e, c) (by simp)).1
  refine ⟨?_, by simp⟩
  intro t ht
  simp only [List.mem_singleton] at ht
  subst ht
  refine ⟨?_, hp⟩
  by_cases h0 : x = 0
  · simp [h0, HV.empty, ExpCanonical]
  · simpa [h0] using HV.scale_canonical he h0

theorem powLoop_canon {se : Bool} {a : Nomial V ℝ D} (ha : TermsCanonical a.hmap.terms)
    (hg : (PyVal.nom a).Good) (n : ℕ) {r : PyVal V ℝ D} (h : a.powLoop se n = .ok r) : r.Canon := by
  induction n generalizing r with
  | zero => cases h; trivial
  | succ n ih =>
    obtain ⟨p, h1, h2⟩ := except_bind_ok h
    have hp := powLoop_ok hg n h1
    cases p with
    | num q => exact mulNum_canon ha hg.1 hp.1 h2
    | nom m =>
      obtain ⟨k, h3, h4⟩ := except_bind_ok h2
      cases h4
      exact mul_canon (ih h1) ha hp.1.1 hg.1 h3

theorem pyAdd_canon {se : Bool} {a b r : PyVal V ℝ D} (ha : a.Canon) (hb : b.Canon) (ga : a.Good)
    (gb : b.Good) (h : PyVal.add se a b = .ok r) : r.Canon := by
  cases a with
  | num p =>
    cases b with
    | num q =>
      unfold PyVal.add PyVal.numOp at h; dsimp only at h; split_ifs at h; cases h; trivial
    | nom b => obtain ⟨n, h1, h2⟩ := except_bind_ok h; cases h2; exact addNum_canon hb gb.1 ga h1
  | nom a =>
    cases b with
    | num q => obtain ⟨n, h1, h2⟩ := except_bind_ok h; cases h2; exact addNum_canon ha ga.1 gb h1
    | nom b => obtain ⟨n, h1, h2⟩ := except_bind_ok h; cases h2; exact add_canon ha hb ga.1 gb.1 h1

theorem pyMul_canon {se : Bool} {a b r : PyVal V ℝ D} (ha : a.Canon) (hb : b.Canon) (ga : a.Good)
    (gb : b.Good) (h : PyVal.mul se a b = .ok r) : r.Canon := by
  cases a with
  | num p =>
    cases b with
    | num q =>
      unfold PyVal.mul PyVal.numOp at h; dsimp only at h; split_ifs at h; cases h; trivial
    | nom b => exact mulNum_canon hb gb.1 ga h
  | nom a =>
    cases b with
    | num q => exact mulNum_canon ha ga.1 gb h
    | nom b => obtain ⟨n, h1, h2⟩ := except_bind_ok h; cases h2; exact mul_canon ha hb ga.1 gb.1 h1

theorem pyNeg_canon {se : Bool} {a r : PyVal V ℝ D} (ha : a.Canon) (ga : a.Good)
    (h : PyVal.neg se a = .ok r) : r.Canon := by
  cases a with
  | num q => cases h; trivial
  | nom a =>
    unfold PyVal.neg Nomial.neg at h
    dsimp only at h
    split_ifs at h
    exact mulNum_canon ha ga.1 (by simp [UnitOK, unitScale]) h

theorem pySub_canon {se : Bool} {a b r : PyVal V ℝ D} (ha : a.Canon) (hb : b.Canon) (ga : a.Good)
    (gb : b.Good) (h : PyVal.sub se a b = .ok r) : r.Canon := by
  have key : ∀ a b : PyVal V ℝ D, a.Canon → b.Canon → a.Good → b.Good →
      (if se then (do PyVal.add se a (← PyVal.neg se b)) else .error .typeError) = .ok r → r.Canon := by
    intro a b ha hb ga gb h
    split_ifs at h
    obtain ⟨m, h1, h2⟩ := except_bind_ok h
    exact pyAdd_canon ha (pyNeg_canon hb gb h1) ga (pyNeg_ok gb h1).1 h2
  cases a with
  | num p =>
    cases b with
    | num q =>
      unfold PyVal.sub PyVal.numOp at h; dsimp only at h; split_ifs at h; cases h; trivial
    | nom b => exact key _ _ ha hb ga gb h
  | nom a => cases b <;> exact key _ _ ha hb ga gb h

theorem pyDiv_canon [Module ℝ D] {se : Bool} {a b r : PyVal V ℝ D} (ha : a.Canon) (hb : b.Canon)
    (ga : a.Good) (gb : b.Good) (h : PyVal.div se a b = .ok r) : r.Canon := by
  cases b with
  | num q =>
    cases a with
    | num p =>
      unfold PyVal.div PyVal.numOp at h; dsimp only at h; split_ifs at h; cases h; trivial
    | nom a =>
      unfold PyVal.div at h
      dsimp only at h
      split_ifs at h with h0
      have hiu : unitScale (q.units.map UnitQ.inv) = (unitScale q.units)⁻¹ := by
        cases q.units <;> simp [unitScale, UnitQ.inv]
      have hi : UnitOK (q.units.map UnitQ.inv) := by
        unfold UnitOK; rw [hiu]; exact inv_pos.2 gb
      exact mulNum_canon ha ga.1 (q := ⟨q.mag⁻¹, q.units.map UnitQ.inv⟩) hi h
  | nom m =>
    have h' : (if m.cls = .monomial then PyVal.rdiv se a m else .error .typeError) = .ok r := by
      cases a <;> exact h
    split_ifs at h' with hc
    obtain ⟨i, h1, h2⟩ := except_bind_ok h'
    have h3 := monoPow_ok gb hc h1
    obtain ⟨p, h5, h6⟩ := except_bind_ok h2
    have h7 := pyMul_canon (b := .nom i) ha (monoPow_canon hb gb hc h1) ga h3.1 h5
    cases p with
    | num q => cases h6
    | nom n => cases h6; exact h7

theorem pyPow_canon [Module ℝ D] {se : Bool} {a r : PyVal V ℝ D} {x : PyExpo ℝ} (ha : a.Canon)
    (ga : a.Good) (h : PyVal.pow se a x = .ok r) : r.Canon := by
  cases a with
  | num q =>
    unfold PyVal.pow at h
    dsimp only at h
    split_ifs at h
    cases h
    trivial
  | nom n =>
    unfold PyVal.pow at h
    dsimp only at h
    split_ifs at h with hc
    · obtain ⟨m, h1, h2⟩ := except_bind_ok h
      cases h2
      exact monoPow_canon ha ga hc h1
    · cases x with
      | float y => cases h
      | int z =>
        unfold Nomial.sigPow at h
        dsimp only at h
        split_ifs at h with hz
        obtain ⟨p, h1, h2⟩ := except_bind_ok h
        have := powLoop_canon ha ga _ h1
        cases p with
        | num q => cases h2
        | nom m => cases h2; exact this

theorem build_canon [Module ℝ D] {se : Bool} {vunits : V → Option (UnitQ D ℝ)}
    (hu : ∀ v, UnitOK (vunits v)) (e : Expr V) {r : PyVal V ℝ D} (h : e.build se vunits = .ok r) :
    r.Canon := by
  induction e generalizing r with
  | var v => cases h; simp [PyVal.Canon, varNomial, TermsCanonical, ExpCanonical]
  | num c => cases h; trivial
  | add a b iha ihb =>
    obtain ⟨x, h1, h2⟩ := except_bind_ok h
    obtain ⟨y, h3, h4⟩ := except_bind_ok h2
    exact pyAdd_canon (iha h1) (ihb h3) (build_ok hu _ h1).1 (build_ok hu _ h3).1 h4
  | sub a b iha ihb =>
    obtain ⟨x, h1, h2⟩ := except_bind_ok h
    obtain ⟨y, h3, h4⟩ := except_bind_ok h2
    exact pySub_canon (iha h1) (ihb h3) (build_ok hu _ h1).1 (build_ok hu _ h3).1 h4
  | mul a b iha ihb =>
    obtain ⟨x, h1, h2⟩ := except_bind_ok h
    obtain ⟨y, h3, h4⟩ := except_bind_ok h2
    exact pyMul_canon (iha h1) (ihb h3) (build_ok hu _ h1).1 (build_ok hu _ h3).1 h4
  | div a b iha ihb =>
    obtain ⟨x, h1, h2⟩ := except_bind_ok h
    obtain ⟨y, h3, h4⟩ := except_bind_ok h2
    exact pyDiv_canon (iha h1) (ihb h3) (build_ok hu _ h1).1 (build_ok hu _ h3).1 h4
  | neg a iha =>
    obtain ⟨x, h1, h2⟩ := except_bind_ok h
    exact pyNeg_canon (iha h1) (build_ok hu _ h1).1 h2
  | pow a x iha =>
    obtain ⟨y, h1, h2⟩ := except_bind_ok h
    exact pyPow_canon (iha h1) (build_ok hu _ h1).1 h2

end Build

/-! ### Functions determine canonical nomials -/

section Characters
variable {V : Type} [DecidableEq V]

theorem mem_iff_get? {α β : Type} [BEq α] [LawfulBEq α] {d : PyDict α β} (h : WF d) (k : α) (x : β) :
    (k, x) ∈ d ↔ d.get? k = some x := by
  constructor
  · exact get?_of_mem h
  · intro h2
    obtain ⟨k', h3, h4⟩ := exists_mem_of_get? h2
    rw [← eq_of_beq h4]; exact h3

theorem wf_nodup {α β : Type} [BEq α] [LawfulBEq α] {d : PyDict α β} (h : WF d) : d.Nodup := by
  refine List.Pairwise.imp ?_ h
  intro a b hab hab2
  rw [hab2] at hab; simp at hab

theorem perm_of_get?_eq {α β : Type} [BEq α] [LawfulBEq α] {d e : PyDict α β} (hd : WF d) (he : WF e)
    (h : ∀ k, d.get? k = e.get? k) : d.Perm e := by
  rw [List.perm_ext_iff_of_nodup (wf_nodup hd) (wf_nodup he)]
  rintro ⟨k, x⟩
  rw [mem_iff_get? hd, mem_iff_get? he, h]

theorem wsum_indicator {V : Type} [DecidableEq V] {e : PyDict V ℝ} (he : WF e) (v : V) :
    wsum (fun k => if k = v then 1 else 0) e = (e.get? v).getD 0 := by
  induction e with
  | nil => simp
  | cons p e ih =>
    obtain ⟨k, x⟩ := p
    obtain ⟨h1, h2⟩ := wf_cons.1 he
    rw [wsum_cons, ih h2, get?_cons]
    by_cases hk : k = v
    · subst hk
      have : PyDict.get? e k = none := by
        rw [get?_eq_none_iff]; intro p hp; rw [BEq.comm]; exact h1 p hp
      simp [this]
    · simp [hk]

/-- the character `g ↦ exp (∑ xₖ gₖ)` -/
noncomputable def chi (e : PyDict V ℝ) : Multiplicative (V → ℝ) →* ℝ where
  toFun g := Real.exp (wsum (Multiplicative.toAdd g) e)
  map_one' := by
    have : wsum (fun _ : V => (0 : ℝ)) e = 0 := by
      induction e with
      | nil => simp
      | cons p e ih => rw [wsum_cons, ih]; simp
    show Real.exp (wsum (fun _ => 0) e) = 1
    rw [this, Real.exp_zero]
  map_mul' g h := by
    rw [← Real.exp_add]
    congr 1
    induction e with
    | nil => simp
    | cons p e ih => rw [wsum_cons, wsum_cons, wsum_cons, ih, toAdd_mul, Pi.add_apply]; ring

theorem chi_injective {e e' : PyDict V ℝ} (h : ExpCanonical e) (h' : ExpCanonical e')
    (heq : chi e = chi e') : e.Perm e' := by
  rw [expCanonical_iff] at h h'
  refine perm_of_get?_eq h.1 h'.1 (fun v => ?_)
  have h1 := DFunLike.congr_fun heq (Multiplicative.ofAdd (fun k => if k = v then (1 : ℝ) else 0))
  have h2 : wsum (fun k => if k = v then (1 : ℝ) else 0) e = wsum (fun k => if k = v then (1 : ℝ) else 0) e' :=
    Real.exp_injective h1
  rw [wsum_indicator h.1, wsum_indicator h'.1] at h2
  have nz : ∀ {d : PyDict V ℝ} {x}, NZ d → d.get? v = some x → x ≠ 0 := by
    intro d x hd hx
    obtain ⟨k, hk, _⟩ := exists_mem_of_get? hx
    exact hd _ hk
  cases ha : e.get? v with
  | none =>
    cases hb : e'.get? v with
    | none => rfl
    | some y => rw [ha, hb] at h2; exact absurd h2.symm (nz h'.2 hb)
  | some x =>
    cases hb : e'.get? v with
    | none => rw [ha, hb] at h2; exact absurd h2 (nz h.2 ha)
    | some y => rw [ha, hb] at h2; simp at h2; rw [h2]

/-- A canonical list of terms that is zero at every positive point is empty. -/
theorem canonical_zero {ts : PyDict (HV V ℝ) ℝ} (h : TermsCanonical ts)
    (hz : ∀ pt : V → ℝ, (∀ v, 0 < pt v) → termsVal pt ts = 0) : ts = [] := by
  by_contra hne
  have hli := linearIndependent_monoidHom (Multiplicative (V → ℝ)) ℝ
  let f : Fin ts.length → (Multiplicative (V → ℝ) →* ℝ) := fun i => chi ts[i].1.items
  have hinj : Function.Injective f := by
    intro i j hij
    by_contra hne2
    have hperm := chi_injective (h.1 _ (List.getElem_mem i.2)).1 (h.1 _ (List.getElem_mem j.2)).1 hij
    have hpw := List.pairwise_iff_getElem.1 h.2
    rcases lt_or_gt_of_ne (fun h : (i : ℕ) = j => hne2 (Fin.ext h)) with hlt | hlt
    · exact hpw i j i.2 j.2 hlt hperm
    · exact hpw j i j.2 i.2 hlt hperm.symm
  have hli2 := hli.comp f hinj
  rw [Fintype.linearIndependent_iff] at hli2
  have hsum : ∑ i : Fin ts.length, ts[i].2 • (⇑(f i) : Multiplicative (V → ℝ) → ℝ) = 0 := by
    funext g
    have hv := hz (fun v => Real.exp (Multiplicative.toAdd g v)) (fun v => Real.exp_pos _)
    rw [Finset.sum_apply]
    simp only [Pi.smul_apply, smul_eq_mul, Pi.zero_apply]
    have hterm : ∀ i : Fin ts.length, f i g = monVal (fun v => Real.exp (Multiplicative.toAdd g v)) ts[i].1.items := by
      intro i
      rw [monVal_eq_exp (fun v => Real.exp_pos _)]
      simp only [Real.log_exp]
      rfl
    rw [← hv, termsVal]
    rw [← List.sum_ofFn]
    congr 1
    apply List.ext_getElem
    · simp
    · intro n h1 h2
      simp only [List.getElem_ofFn, List.getElem_map]
      rw [hterm]; rfl
  have h0 : 0 < ts.length := List.length_pos_iff.2 hne
  have := hli2 (fun i => ts[i].2) hsum ⟨0, h0⟩
  exact (h.1 _ (List.getElem_mem h0)).2 this

theorem get?_eq_of_same_function {a b : PyDict (HV V ℝ) ℝ} (ha : TermsCanonical a) (hb : TermsCanonical b)
    (h : ∀ pt : V → ℝ, (∀ v, 0 < pt v) → termsVal pt a = termsVal pt b) (k : HV V ℝ) :
    a.get? k = b.get? k := by
  have hd : dictAdd a (dictScale b (-1)) = [] := by
    apply canonical_zero (dictAdd_canonical ha (dictScale_canonical hb (by norm_num)))
    intro pt hpt
    rw [termsVal_dictAdd, termsVal_dictScale, h pt hpt]; ring
  have ha' := (termsCanonical_iff a).1 ha
  have hb' := (termsCanonical_iff b).1 hb
  have h1 := getD_dictAdd ha'.1 (dictScale_wf hb'.1 (-1)) k
  rw [hd, get?_dictScale] at h1
  simp only [get?_nil, Option.getD_none] at h1
  have nz : ∀ {d : PyDict (HV V ℝ) ℝ} {x}, NZ d → d.get? k = some x → x ≠ 0 := by
    intro d x hd hx
    obtain ⟨k, hk, _⟩ := exists_mem_of_get? hx
    exact hd _ hk
  cases hak : a.get? k with
  | none =>
    cases hbk : b.get? k with
    | none => rfl
    | some y => rw [hak, hbk] at h1; simp at h1; exact absurd h1 (nz hb'.2.1 hbk)
  | some x =>
    cases hbk : b.get? k with
    | none => rw [hak, hbk] at h1; simp at h1; exact absurd h1.symm (nz ha'.2.1 hak)
    | some y => rw [hak, hbk] at h1; simp at h1; congr 1; linarith

end Characters
end Verif

/-! ### Without SignomialsEnabled every coefficient is positive -/

namespace Verif
section AllPos
variable {V D : Type} [DecidableEq V] [AddCommGroup D] [DecidableEq D]

/-- nomials have positive coefficients only -/
def PyVal.Pos : PyVal V ℝ D → Prop
  | .num _ => True
  | .nom n => n.AllPos

theorem addNum_pos {a n : Nomial V ℝ D} {q : PyQ D ℝ} (h : a.addNum false q = .ok n) : n.AllPos := by
  unfold Nomial.addNum at h
  split_ifs at h
  · exact mkSig_allPos rfl h
  · obtain ⟨m, _, h2⟩ := except_bind_ok h
    exact mkSig_allPos rfl h2

theorem add_pos' {a b n : Nomial V ℝ D} (h : a.add false b = .ok n) : n.AllPos := by
  unfold Nomial.add at h
  split_ifs at h
  · obtain ⟨m, _, h2⟩ := except_bind_ok h
    exact mkSig_allPos rfl h2
  · obtain ⟨m, _, h2⟩ := except_bind_ok h
    exact mkSig_allPos rfl h2

theorem mulNum_pos {a : Nomial V ℝ D} {q : PyQ D ℝ} {r : PyVal V ℝ D} (h : a.mulNum false q = .ok r) : r.Pos := by
  unfold Nomial.mulNum at h
  split_ifs at h
  · cases h; trivial
  · obtain ⟨m, h1, h2⟩ := except_bind_ok h
    cases h2
    exact mkSig_allPos rfl h1

theorem monoPow_pos [Module ℝ D] {a n : Nomial V ℝ D} {x : ℝ} (h : a.monoPow false x = .ok n) : n.AllPos := by
  unfold Nomial.monoPow at h
  split at h
  · exact mkSig_allPos rfl h
  · cases h

theorem pyMul_pos {a b r : PyVal V ℝ D} (h : PyVal.mul false a b = .ok r) : r.Pos := by
  cases a with
  | num p =>
    cases b with
    | num q => unfold PyVal.mul PyVal.numOp at h; dsimp only at h; split_ifs at h; cases h; trivial
    | nom b => exact mulNum_pos h
  | nom a =>
    cases b with
    | num q => exact mulNum_pos h
    | nom b => obtain ⟨n, h1, h2⟩ := except_bind_ok h; cases h2; exact mkSig_allPos rfl h1

theorem powLoop_pos {a : Nomial V ℝ D} (n : ℕ) {r : PyVal V ℝ D} (h : a.powLoop false n = .ok r) : r.Pos := by
  cases n with
  | zero => cases h; trivial
  | succ n =>
    obtain ⟨p, h1, h2⟩ := except_bind_ok h
    cases p with
    | num q => exact mulNum_pos h2
    | nom m => obtain ⟨k, h3, h4⟩ := except_bind_ok h2; cases h4; exact mkSig_allPos rfl h3

theorem build_pos [Module ℝ D] {vunits : V → Option (UnitQ D ℝ)} (e : Expr V) {r : PyVal V ℝ D}
    (h : e.build false vunits = .ok r) : r.Pos := by
  induction e generalizing r with
  | var v => cases h; simp [PyVal.Pos, varNomial, Nomial.AllPos]
  | num c => cases h; trivial
  | add a b iha ihb =>
    obtain ⟨x, h1, h2⟩ := except_bind_ok h
    obtain ⟨y, h3, h4⟩ := except_bind_ok h2
    cases x with
    | num p =>
      cases y with
      | num q => unfold PyVal.add PyVal.numOp at h4; dsimp only at h4; split_ifs at h4; cases h4; trivial
      | nom b => obtain ⟨n, h5, h6⟩ := except_bind_ok h4; cases h6; exact addNum_pos h5
    | nom a =>
      cases y with
      | num q => obtain ⟨n, h5, h6⟩ := except_bind_ok h4; cases h6; exact addNum_pos h5
      | nom b => obtain ⟨n, h5, h6⟩ := except_bind_ok h4; cases h6; exact add_pos' h5
  | sub a b iha ihb =>
    obtain ⟨x, h1, h2⟩ := except_bind_ok h
    obtain ⟨y, h3, h4⟩ := except_bind_ok h2
    cases x with
    | num p =>
      cases y with
      | num q => unfold PyVal.sub PyVal.numOp at h4; dsimp only at h4; split_ifs at h4; cases h4; trivial
      | nom b => simp [PyVal.sub] at h4
    | nom a => cases y <;> simp [PyVal.sub] at h4
  | mul a b iha ihb =>
    obtain ⟨x, h1, h2⟩ := except_bind_ok h
    obtain ⟨y, h3, h4⟩ := except_bind_ok h2
    exact pyMul_pos h4
  | div a b iha ihb =>
    obtain ⟨x, h1, h2⟩ := except_bind_ok h
    obtain ⟨y, h3, h4⟩ := except_bind_ok h2
    cases y with
    | num q =>
      cases x with
      | num p =>
        unfold PyVal.div PyVal.numOp at h4; dsimp only at h4; split_ifs at h4; cases h4; trivial
      | nom a => unfold PyVal.div at h4; dsimp only at h4; split_ifs at h4; exact mulNum_pos h4
    | nom m =>
      have h' : (if m.cls = .monomial then PyVal.rdiv false x m else .error .typeError) = .ok r := by
        cases x <;> exact h4
      split_ifs at h'
      obtain ⟨i, h5, h6⟩ := except_bind_ok h'
      obtain ⟨p, h7, h8⟩ := except_bind_ok h6
      have := pyMul_pos h7
      cases p with
      | num q => cases h8
      | nom n => cases h8; exact this
  | neg a iha =>
    obtain ⟨x, h1, h2⟩ := except_bind_ok h
    cases x with
    | num q => cases h2; trivial
    | nom n => simp [PyVal.neg, Nomial.neg] at h2
  | pow a x iha =>
    obtain ⟨y, h1, h2⟩ := except_bind_ok h
    cases y with
    | num q =>
      unfold PyVal.pow at h2
      dsimp only at h2
      split_ifs at h2
      cases h2
      trivial
    | nom n =>
      unfold PyVal.pow at h2
      dsimp only at h2
      split_ifs at h2 with hc
      · obtain ⟨m, h3, h4⟩ := except_bind_ok h2
        cases h4
        exact monoPow_pos h3
      · cases x with
        | float y => cases h2
        | int z =>
          unfold Nomial.sigPow at h2
          dsimp only at h2
          split_ifs at h2
          obtain ⟨p, h3, h4⟩ := except_bind_ok h2
          have := powLoop_pos _ h3
          cases p with
          | num q => cases h4
          | nom m => cases h4; exact this

end AllPos

section Eq
variable {V : Type} [DecidableEq V]
open PyDict

theorem hmapEq_iff {a b : PyDict (HV V ℝ) ℝ} (ha : TermsCanonical a) (hb : TermsCanonical b) :
    Nomial.hmapEq a b = true ↔ ∀ pt : V → ℝ, (∀ v, 0 < pt v) → termsVal pt a = termsVal pt b := by
  have ha' := (termsCanonical_iff a).1 ha
  have hb' := (termsCanonical_iff b).1 hb
  constructor
  · intro h
    simp only [Nomial.hmapEq, Bool.and_eq_true, decide_eq_true_eq, List.all_eq_true] at h
    obtain ⟨hlen, hall⟩ := h
    -- the difference is the empty map
    have hget : ∀ k, a.get? k = b.get? k := by
      intro k
      cases hk : a.get? k with
      | some x =>
        obtain ⟨k', h1, h2⟩ := exists_mem_of_get? hk
        have := hall _ h1
        simp only at this
        rw [← get?_congr b h2, this]
      | none =>
        cases hbk : b.get? k with
        | none => rfl
        | some y =>
          exfalso
          have hle : List.length b ≤ List.length (b.del k) := by
            rw [← hlen]
            refine length_le_of_contains ha'.1 (wf_del hb'.1 k) (fun p hp => ?_)
            refine contains_iff.2 ⟨p.2, ?_⟩
            rw [get?_del hb'.1, hall p hp]
            have : (k == p.1) = false := by
              rw [← Bool.not_eq_true]
              intro hkp
              have h3 := get?_of_mem ha'.1 hp
              rw [← get?_congr a hkp, hk] at h3
              cases h3
            simp [this]
          have hlt : List.length (b.del k) < List.length b := by
            have hlen2 : ∀ (d : PyDict (HV V ℝ) ℝ), d.get? k ≠ none → (d.del k).length < d.length := by
              intro d
              induction d with
              | nil => intro h; simp at h
              | cons q d ih =>
                intro h
                obtain ⟨k', v'⟩ := q
                rw [del_cons]
                rw [get?_cons] at h
                by_cases hk : k' == k
                · rw [if_pos hk]; simp
                · rw [if_neg hk] at h ⊢
                  have := ih h
                  simp only [List.length_cons]; omega
            exact hlen2 b (by rw [hbk]; simp)
          omega
    have hdiff : ∀ k, ((dictAdd a (dictScale b (-1))).get? k) = none := by
      intro k
      have h1 := getD_dictAdd ha'.1 (dictScale_wf hb'.1 (-1)) k
      rw [get?_dictScale, hget k] at h1
      cases hd : (dictAdd a (dictScale b (-1))).get? k with
      | none => rfl
      | some x =>
        exfalso
        obtain ⟨k', h3, _⟩ := exists_mem_of_get? hd
        have hnz := dictAdd_nz ha'.2.1 (dictScale_nz hb'.2.1 (by norm_num : (-1:ℝ) ≠ 0)) _ h3
        rw [hd] at h1
        cases hbk : b.get? k with
        | none => rw [hbk] at h1; simp at h1; exact hnz h1
        | some y => rw [hbk] at h1; simp at h1; exact hnz h1
    have hnil : dictAdd a (dictScale b (-1)) = [] := by
      cases hd : dictAdd a (dictScale b (-1)) with
      | nil => rfl
      | cons p d =>
        have := hdiff p.1
        rw [hd, get?_cons] at this
        simp at this
    intro pt hpt
    have := termsVal_dictAdd pt a (dictScale b (-1))
    rw [hnil, termsVal_dictScale] at this
    simp [termsVal] at this
    simp only [termsVal]
    linarith
  · intro h
    have hget := get?_eq_of_same_function ha hb h
    simp only [Nomial.hmapEq, Bool.and_eq_true, decide_eq_true_eq, List.all_eq_true]
    constructor
    · apply le_antisymm
      · refine length_le_of_contains ha'.1 hb'.1 (fun p hp => contains_iff.2 ⟨p.2, ?_⟩)
        rw [← hget]; exact get?_of_mem ha'.1 hp
      · refine length_le_of_contains hb'.1 ha'.1 (fun p hp => contains_iff.2 ⟨p.2, ?_⟩)
        rw [hget]; exact get?_of_mem hb'.1 hp
    · intro p hp
      rw [← hget]; exact get?_of_mem ha'.1 hp

end Eq
end Verif
