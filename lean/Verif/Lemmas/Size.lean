import Verif.Spec.SigWritten
import Verif.Lemmas.Arith
import Verif.Lemmas.Sub

/-! Operators do not make nomials larger than what is written: the sum of the absolute values of the terms. -/

set_option linter.unusedSectionVars false

namespace Verif
open PyDict

section Dict
variable {α : Type} [BEq α]

/-- The dict with all values made positive. -/
def absT (d : PyDict α ℝ) : PyDict α ℝ := d.map (fun p => (p.1, |p.2|))

theorem absT_cons (p : α × ℝ) (d : PyDict α ℝ) : absT (p :: d) = (p.1, |p.2|) :: absT d := rfl

theorem absT_get? (d : PyDict α ℝ) (k : α) : PyDict.get? (absT d) k = (PyDict.get? d k).map (fun c => |c|) := by
  induction d with
  | nil => rfl
  | cons p d ih =>
    obtain ⟨a, w⟩ := p
    rw [absT_cons, get?_cons, get?_cons]
    by_cases hk : a == k
    · simp [hk]
    · simp [hk, ih]

theorem absT_set (d : PyDict α ℝ) (k : α) (v : ℝ) : absT (PyDict.set d k v) = PyDict.set (absT d) k |v| := by
  induction d with
  | nil => rfl
  | cons p d ih =>
    obtain ⟨a, w⟩ := p
    rw [absT_cons, set_cons, set_cons]
    by_cases hk : a == k
    · simp [hk, absT_cons]
    · simp [hk, absT_cons, ih]

theorem absT_del (d : PyDict α ℝ) (k : α) : absT (PyDict.del d k) = PyDict.del (absT d) k := by
  induction d with
  | nil => rfl
  | cons p d ih =>
    obtain ⟨a, w⟩ := p
    rw [absT_cons, del_cons, del_cons]
    by_cases hk : a == k
    · simp [hk]
    · simp [hk, absT_cons, ih]

theorem getD_abs (o : Option ℝ) : (o.map (fun c => |c|)).getD 0 = |o.getD 0| := by cases o <;> simp

end Dict

section Terms
variable {V : Type} [DecidableEq V]

/-- Sum of the absolute values of the terms. -/
noncomputable def absVal (pt : V → ℝ) (ts : PyDict (HV V ℝ) ℝ) : ℝ := termsVal pt (absT ts)

@[simp] theorem absVal_nil (pt : V → ℝ) : absVal pt ([] : PyDict (HV V ℝ) ℝ) = 0 := rfl

@[simp] theorem absVal_cons (pt : V → ℝ) (t : HV V ℝ × ℝ) (ts : PyDict (HV V ℝ) ℝ) :
    absVal pt (t :: ts) = |t.2| * monVal pt t.1.items + absVal pt ts := by simp [absVal, absT_cons]

theorem absVal_set (pt : V → ℝ) (d : PyDict (HV V ℝ) ℝ) (k : HV V ℝ) (v : ℝ) :
    absVal pt (PyDict.set d k v) = absVal pt d - |(PyDict.get? d k).getD 0| * monVal pt k.items + |v| * monVal pt k.items := by
  unfold absVal
  rw [absT_set, termsVal_eq_wsum, wsum_set (monVal_respects pt), absT_get?, getD_abs]
  rfl

theorem absVal_del (pt : V → ℝ) (d : PyDict (HV V ℝ) ℝ) (k : HV V ℝ) :
    absVal pt (PyDict.del d k) = absVal pt d - |(PyDict.get? d k).getD 0| * monVal pt k.items := by
  unfold absVal
  rw [absT_del, termsVal_eq_wsum, wsum_del (monVal_respects pt), absT_get?, getD_abs]
  rfl

variable {pt : V → ℝ} (hpt : ∀ v, 0 < pt v)
include hpt

theorem absVal_nonneg (d : PyDict (HV V ℝ) ℝ) : 0 ≤ absVal pt d := by
  induction d with
  | nil => simp
  | cons t d ih =>
    rw [absVal_cons]
    have := monVal_pos hpt t.1.items
    positivity

theorem termsVal_le_absVal (d : PyDict (HV V ℝ) ℝ) : |termsVal pt d| ≤ absVal pt d := by
  induction d with
  | nil => simp
  | cons t d ih =>
    rw [absVal_cons, termsVal_cons]
    refine (abs_add_le _ _).trans ?_
    rw [abs_mul, abs_of_pos (monVal_pos hpt t.1.items)]
    linarith

theorem absVal_dictAddStep (a : PyDict (HV V ℝ) ℝ) (kv : HV V ℝ × ℝ) :
    absVal pt (dictAddStep a kv) ≤ absVal pt a + |kv.2| * monVal pt kv.1.items := by
  have hm := (monVal_pos hpt kv.1.items).le
  unfold dictAddStep
  cases h : PyDict.get? a kv.1 with
  | none => simp only; rw [absVal_set, h]; simp
  | some s =>
    simp only
    split
    · rw [absVal_del, h]
      simp only [Option.getD_some]
      nlinarith [abs_nonneg s, abs_nonneg kv.2]
    · rw [absVal_set, h]
      simp only [Option.getD_some]
      nlinarith [abs_add_le kv.2 s]

theorem absVal_dictAdd (a b : PyDict (HV V ℝ) ℝ) : absVal pt (dictAdd a b) ≤ absVal pt a + absVal pt b := by
  induction b generalizing a with
  | nil => simp [dictAdd_nil]
  | cons kv b ih =>
    rw [dictAdd_cons, absVal_cons]
    have := ih (dictAddStep a kv)
    have := absVal_dictAddStep hpt a kv
    linarith

omit hpt in
theorem absVal_dictScale (a : PyDict (HV V ℝ) ℝ) (c : ℝ) : absVal pt (dictScale a c) = |c| * absVal pt a := by
  induction a with
  | nil => simp [dictScale]
  | cons p a ih =>
    have : dictScale (p :: a) c = (p.1, p.2 * c) :: dictScale a c := rfl
    rw [this, absVal_cons, absVal_cons, ih, abs_mul]; ring

theorem absVal_mulStep (e1 : HV V ℝ) (c1 : ℝ) (acc : PyDict (HV V ℝ) ℝ) (t : HV V ℝ × ℝ) :
    absVal pt (Nomial.mulStep e1 c1 acc t) ≤ absVal pt acc + |c1| * monVal pt e1.items * (|t.2| * monVal pt t.1.items) := by
  unfold Nomial.mulStep
  simp only
  have hm : |c1| * monVal pt e1.items * (|t.2| * monVal pt t.1.items) = |c1 * t.2| * monVal pt (e1.add t.1).items := by
    rw [monVal_add hpt, abs_mul]; ring
  have hp := (monVal_pos hpt (e1.add t.1).items).le
  rw [hm]
  split_ifs with h1 h2
  · rw [absVal_set]
    nlinarith [abs_add_le ((PyDict.get? acc (e1.add t.1)).getD 0) (c1 * t.2)]
  · rw [absVal_del]
    nlinarith [abs_nonneg ((PyDict.get? acc (e1.add t.1)).getD 0), abs_nonneg (c1 * t.2)]
  · nlinarith [abs_nonneg (c1 * t.2)]

theorem absVal_mulInner (e1 : HV V ℝ) (c1 : ℝ) (b acc : PyDict (HV V ℝ) ℝ) :
    absVal pt (b.foldl (Nomial.mulStep e1 c1) acc) ≤ absVal pt acc + |c1| * monVal pt e1.items * absVal pt b := by
  induction b generalizing acc with
  | nil => simp
  | cons t b ih =>
    rw [List.foldl_cons, absVal_cons]
    have := ih (Nomial.mulStep e1 c1 acc t)
    have := absVal_mulStep hpt e1 c1 acc t
    linarith

theorem absVal_mulTerms (a b : PyDict (HV V ℝ) ℝ) : absVal pt (Nomial.mulTerms a b) ≤ absVal pt a * absVal pt b := by
  have outer : ∀ a acc : PyDict (HV V ℝ) ℝ,
      absVal pt (a.foldl (fun acc s => b.foldl (Nomial.mulStep s.1 s.2) acc) acc) ≤ absVal pt acc + absVal pt a * absVal pt b := by
    intro a
    induction a with
    | nil => intro acc; simp
    | cons s a ih =>
      intro acc
      rw [List.foldl_cons, absVal_cons]
      have := ih (b.foldl (Nomial.mulStep s.1 s.2) acc)
      have := absVal_mulInner hpt s.1 s.2 b acc
      linarith
  have := outer a []
  unfold Nomial.mulTerms
  simpa using this

theorem absVal_subAdd (cp : PyDict (HV V ℝ) ℝ) (e : HV V ℝ) (v : ℝ) : absVal pt (subAdd cp e v) ≤ absVal pt cp + |v| * monVal pt e.items := by
  have hm := (monVal_pos hpt e.items).le
  unfold subAdd
  cases h : PyDict.get? cp e with
  | some cur =>
    simp only
    split
    · rw [absVal_set, h]
      simp only [Option.getD_some]
      nlinarith [abs_add_le cur v]
    · rw [absVal_del, h]
      simp only [Option.getD_some]
      nlinarith [abs_nonneg cur, abs_nonneg v]
  | none =>
    simp only
    split
    · rw [absVal_set, h]; simp
    · nlinarith [abs_nonneg v]

theorem absVal_subFill (cp : PyDict (HV V ℝ) ℝ) : absVal pt (subFill cp) = absVal pt cp := by
  unfold subFill
  split
  · rename_i h
    rw [List.isEmpty_iff] at h; subst h; simp
  · rfl

theorem absVal_subinplace {s s' : SubState V ℝ} {o : HV V ℝ} {vk : V} {cval : ℝ} (hv : pt vk = cval) (h : subinplace s o vk cval = .ok s') :
    absVal pt s'.cp ≤ absVal pt s.cp := by
  obtain ⟨e, x, -, hx, -, -, ⟨c, hc, hcp, -, -⟩ | ⟨-, hcp, -⟩⟩ := subinplace_ok h
  · rw [hcp, absVal_subFill hpt]
    refine (absVal_subAdd hpt _ _ _).trans ?_
    rw [absVal_del, hc, monVal_del pt hx, hv, pw_real, abs_mul]
    have : |cval ^ x| = cval ^ x := abs_of_pos (Real.rpow_pos_of_pos (by rw [← hv]; exact hpt vk) x)
    rw [this]
    simp only [Option.getD_some]
    linarith
  · rw [hcp]

theorem absVal_subRound {fixed : PyDict V ℝ} (hf : ∀ v c, fixed.get? v = some c → pt v = c) {s s' : SubState V ℝ} {r : V × List (HV V ℝ)}
    (h : subRound fixed s r = .ok s') : absVal pt s'.cp ≤ absVal pt s.cp := by
  unfold subRound at h
  split at h
  · cases h
  · rename_i cval hg
    have hv := hf _ _ hg
    generalize r.2 = l at h
    induction l generalizing s with
    | nil => cases h; exact le_rfl
    | cons o l ih =>
      rw [List.foldlM_cons] at h
      obtain ⟨s1, h1, h2⟩ := except_bind_ok h
      exact (ih h2).trans (absVal_subinplace hpt hv h1)

theorem absVal_sub {D : Type} {fixed : PyDict V ℝ} (hf : ∀ v c, fixed.get? v = some c → pt v = c) {h h' : NMap V ℝ D} {rounds : List (V × List (HV V ℝ))}
    (hwf : WF h.terms) (hs : h.sub fixed rounds = .ok h') : absVal pt h'.terms ≤ absVal pt h.terms := by
  unfold NMap.sub at hs
  obtain ⟨s, h1, h2⟩ := except_bind_ok hs
  cases h2
  unfold subState at h1
  split at h1
  · cases h1; exact le_rfl
  · rw [subInit_eq hwf] at h1
    have : ∀ (l : List (V × List (HV V ℝ))) (s0 s : SubState V ℝ), l.foldlM (subRound fixed) s0 = .ok s → absVal pt s.cp ≤ absVal pt s0.cp := by
      intro l
      induction l with
      | nil => intro s0 s h; cases h; exact le_rfl
      | cons r l ih =>
        intro s0 s h
        rw [List.foldlM_cons] at h
        obtain ⟨s1, h1, h2⟩ := except_bind_ok h
        exact (ih _ _ h2).trans (absVal_subRound hpt hf h1)
    exact this _ _ _ h1

end Terms

section Units
variable {V D : Type} [DecidableEq V] [AddCommGroup D] [DecidableEq D]

/-- Size of a coefficient map in base units. -/
noncomputable def physSize (pt : V → ℝ) (h : NMap V ℝ D) : ℝ := unitScale h.units * absVal pt h.terms

/-- Size of a number or nomial. -/
noncomputable def PyVal.size (pt : V → ℝ) : PyVal V ℝ D → ℝ
  | .num q => unitScale q.units * |q.mag|
  | .nom n => physSize pt n.hmap

theorem physSize_unitsOfProduct (pt : V → ℝ) (h : NMap V ℝ D) {u1 u2 : Option (UnitQ D ℝ)} (h1 : UnitOK u1) (h2 : UnitOK u2) :
    physSize pt (h.unitsOfProduct u1 u2) = unitScale u1 * unitScale u2 * absVal pt h.terms := by
  unfold NMap.unitsOfProduct
  match u1, u2 with
  | none, none => simp [physSize, unitScale]
  | some a, none => simp [physSize, unitScale]
  | none, some b => simp [physSize, unitScale]
  | some a, some b =>
    simp only
    match hp : ofProduct a b with
    | (u, some conv) =>
      obtain ⟨rfl, rfl, _⟩ := ofProduct_fst_none hp
      simp only [physSize, unitScale]
      have := absVal_dictScale (pt := pt) h.terms (a.scale * b.scale)
      unfold dictScale at this
      have h3 : 0 < a.scale * b.scale := mul_pos h1 h2
      rw [this, abs_of_pos h3]; ring
    | (u, none) =>
      obtain ⟨rfl, _⟩ := ofProduct_snd_none hp
      simp [physSize, unitScale, UnitQ.mul]

variable {pt : V → ℝ} (hpt : ∀ v, 0 < pt v)
include hpt

theorem PyVal.size_nonneg {a : PyVal V ℝ D} (ha : a.Good) : 0 ≤ a.size pt := by
  cases a with
  | num q => exact mul_nonneg (le_of_lt ha) (abs_nonneg _)
  | nom n => exact mul_nonneg (le_of_lt ha.1) (absVal_nonneg hpt _)

theorem PyVal.phys_le_size {a : PyVal V ℝ D} (ha : a.Good) : |a.phys pt| ≤ a.size pt := by
  cases a with
  | num q =>
    have hq : 0 < unitScale q.units := ha
    simp only [PyVal.phys, PyVal.size]
    rw [abs_mul, abs_of_pos hq]
  | nom n =>
    have hq : 0 < unitScale n.hmap.units := ha.1
    simp only [PyVal.phys, PyVal.size, physVal, physSize]
    rw [abs_mul, abs_of_pos hq]
    exact mul_le_mul_of_nonneg_left (termsVal_le_absVal hpt _) hq.le

/-- A monomial is as large as its value. -/
theorem size_monomial {n : Nomial V ℝ D} (hn : (PyVal.nom n : PyVal V ℝ D).Good) (hm : n.cls = .monomial) :
    (PyVal.nom n).size pt = physVal pt n.hmap ∧ 0 < physVal pt n.hmap := by
  obtain ⟨e, c, hx, hc⟩ := hn.2.1.1 hm
  have hu : 0 < unitScale n.hmap.units := hn.1
  have := monVal_pos hpt e.items
  simp only [PyVal.size, physSize, physVal, hx, absVal_cons, absVal_nil, termsVal_cons, termsVal_nil, abs_of_pos hc]
  exact ⟨trivial, by positivity⟩

theorem physSize_add {a b h : NMap V ℝ D} (ha : UnitOK a.units) (hb : UnitOK b.units) (hh : a.add b = .ok h) :
    physSize pt h ≤ physSize pt a + physSize pt b := by
  unfold NMap.add at hh
  split_ifs at hh with hu
  · cases hh
    simp only [physSize]
    rw [← hu]
    have h1 := mul_le_mul_of_nonneg_left (absVal_dictAdd hpt a.terms b.terms) (le_of_lt ha)
    linarith
  · cases hua : a.units with
    | none => rw [hua] at hh; simp at hh
    | some ua =>
      cases hub : b.units with
      | none => rw [hua, hub] at hh; simp at hh
      | some ub =>
        rw [hua, hub] at hh
        simp only [UnitQ.float, UnitQ.mul, UnitQ.inv] at hh
        by_cases hd : ub.dim + -ua.dim = 0
        · simp only [hd, if_true] at hh
          injection hh with hh
          subst hh
          rw [hua] at ha
          rw [hub] at hb
          have hs : 0 < ua.scale := ha
          have ht : 0 < ub.scale := hb
          simp only [physSize, hua, hub, unitScale]
          have h1 := mul_le_mul_of_nonneg_left (absVal_dictAdd hpt a.terms (dictScale b.terms (ub.scale * ua.scale⁻¹))) hs.le
          rw [absVal_dictScale, abs_of_pos (by positivity)] at h1
          refine h1.trans (le_of_eq ?_)
          field_simp
        · simp [hd] at hh

theorem addNum_size {se : Bool} {a n : Nomial V ℝ D} {q : PyQ D ℝ} (ha : (PyVal.nom a).Good) (hq : UnitOK q.units) (h : a.addNum se q = .ok n) :
    physSize pt n.hmap ≤ physSize pt a.hmap + unitScale q.units * |q.mag| := by
  unfold Nomial.addNum at h
  by_cases h0 : q.mag = 0
  · rw [if_pos h0] at h
    rw [mkSig_ok h, h0]; simp
  · rw [if_neg h0] at h
    obtain ⟨m, h1, h2⟩ := except_bind_ok h
    rw [mkSig_ok h2]
    have := physSize_add hpt ha.1 (b := numMap q) hq h1
    refine this.trans (le_of_eq ?_)
    simp [physSize, numMap, HV.empty, monVal]

theorem add_size {se : Bool} {a b n : Nomial V ℝ D} (ha : (PyVal.nom a).Good) (hb : (PyVal.nom b).Good) (h : a.add se b = .ok n) :
    physSize pt n.hmap ≤ physSize pt a.hmap + physSize pt b.hmap := by
  unfold Nomial.add at h
  split_ifs at h with h1 h2 h3
  · obtain ⟨m, h4, h5⟩ := except_bind_ok h
    rw [mkSig_ok h5]
    linarith [physSize_add hpt hb.1 ha.1 h4]
  · obtain ⟨m, h4, h5⟩ := except_bind_ok h
    rw [mkSig_ok h5]
    exact physSize_add hpt ha.1 hb.1 h4

omit hpt in
theorem mulNum_size {se : Bool} {a : Nomial V ℝ D} {q : PyQ D ℝ} {r : PyVal V ℝ D} (ha : (PyVal.nom a).Good) (hq : UnitOK q.units)
    (h : a.mulNum se q = .ok r) : r.size pt = physSize pt a.hmap * (unitScale q.units * |q.mag|) := by
  unfold Nomial.mulNum at h
  by_cases h0 : q.mag = 0
  · rw [if_pos h0] at h
    cases h
    simp [PyVal.size, h0]
  · rw [if_neg h0] at h
    obtain ⟨m, h1, h2⟩ := except_bind_ok h
    cases h2
    rw [PyVal.size, mkSig_ok h1, physSize_unitsOfProduct _ _ ha.1 hq]
    simp only [NMap.scale, physSize]
    rw [absVal_dictScale]; ring

theorem mul_size {se : Bool} {a b n : Nomial V ℝ D} (ha : (PyVal.nom a).Good) (hb : (PyVal.nom b).Good) (h : a.mul se b = .ok n) :
    physSize pt n.hmap ≤ physSize pt a.hmap * physSize pt b.hmap := by
  unfold Nomial.mul at h
  rw [mkSig_ok h, physSize_unitsOfProduct _ _ ha.1 hb.1]
  simp only [physSize]
  have := mul_le_mul_of_nonneg_left (absVal_mulTerms hpt a.hmap.terms b.hmap.terms) (mul_pos ha.1 hb.1).le
  linarith

theorem pyAdd_size {se : Bool} {a b r : PyVal V ℝ D} (ha : a.Good) (hb : b.Good) (h : PyVal.add se a b = .ok r) :
    r.size pt ≤ a.size pt + b.size pt := by
  cases a with
  | num p =>
    cases b with
    | num q =>
      unfold PyVal.add PyVal.numOp at h
      dsimp only at h
      split_ifs at h with hu
      cases h
      simpa [PyVal.size, hu.1, hu.2, unitScale] using abs_add_le p.mag q.mag
    | nom b =>
      obtain ⟨n, h1, h2⟩ := except_bind_ok h
      cases h2
      have := addNum_size hpt hb ha h1
      simp only [PyVal.size]
      linarith
  | nom a =>
    cases b with
    | num q =>
      obtain ⟨n, h1, h2⟩ := except_bind_ok h
      cases h2
      exact addNum_size hpt ha hb h1
    | nom b =>
      obtain ⟨n, h1, h2⟩ := except_bind_ok h
      cases h2
      exact add_size hpt ha hb h1

theorem pyMul_size {se : Bool} {a b r : PyVal V ℝ D} (ha : a.Good) (hb : b.Good) (h : PyVal.mul se a b = .ok r) :
    r.size pt ≤ a.size pt * b.size pt := by
  cases a with
  | num p =>
    cases b with
    | num q =>
      unfold PyVal.mul PyVal.numOp at h
      dsimp only at h
      split_ifs at h with hu
      cases h
      simp [PyVal.size, hu.1, hu.2, unitScale, abs_mul]
    | nom b =>
      rw [mulNum_size hb ha h]
      simp only [PyVal.size]
      exact le_of_eq (mul_comm _ _)
  | nom a =>
    cases b with
    | num q =>
      rw [mulNum_size ha hb h]
      exact le_rfl
    | nom b =>
      obtain ⟨n, h1, h2⟩ := except_bind_ok h
      cases h2
      exact mul_size hpt ha hb h1

omit hpt in
theorem pyNeg_size {se : Bool} {a r : PyVal V ℝ D} (ha : a.Good) (h : PyVal.neg se a = .ok r) : r.size pt = a.size pt := by
  cases a with
  | num q => cases h; simp [PyVal.size]
  | nom a =>
    replace h : a.neg se = .ok r := h
    unfold Nomial.neg at h
    split_ifs at h
    rw [mulNum_size ha (by simp [UnitOK, unitScale]) h]
    simp [PyVal.size, unitScale]

theorem pySub_size {se : Bool} {a b r : PyVal V ℝ D} (ha : a.Good) (hb : b.Good) (h : PyVal.sub se a b = .ok r) :
    r.size pt ≤ a.size pt + b.size pt := by
  have key : ∀ a b : PyVal V ℝ D, a.Good → b.Good → (if se then (do PyVal.add se a (← PyVal.neg se b)) else .error .typeError) = .ok r →
      r.size pt ≤ a.size pt + b.size pt := by
    intro a b ha hb h
    split_ifs at h
    obtain ⟨m, h1, h2⟩ := except_bind_ok h
    rw [← pyNeg_size (pt := pt) hb h1]
    exact pyAdd_size hpt ha (pyNeg_ok hb h1).1 h2
  cases a with
  | num p =>
    cases b with
    | num q =>
      unfold PyVal.sub PyVal.numOp at h
      dsimp only at h
      split_ifs at h with hu
      cases h
      simpa [PyVal.size, hu.1, hu.2, unitScale] using abs_sub p.mag q.mag
    | nom b => exact key _ _ ha hb h
  | nom a => cases b <;> exact key _ _ ha hb h

theorem monoPow_size [Module ℝ D] {se : Bool} {a n : Nomial V ℝ D} {x : ℝ} (ha : (PyVal.nom a).Good) (hm : a.cls = .monomial)
    (h : a.monoPow se x = .ok n) : physSize pt n.hmap = physVal pt a.hmap ^ x := by
  obtain ⟨hg, hv⟩ := monoPow_ok ha hm h
  rw [← hv pt hpt]
  obtain ⟨e, c, hx, hc⟩ := ha.2.1.1 hm
  unfold Nomial.monoPow at h
  rw [hx] at h
  simp only at h
  have hc' : 0 < c ^ x := Real.rpow_pos_of_pos hc x
  rw [mkSig_ok h]
  simp [physSize, physVal, pw_real, abs_of_pos hc']

theorem pyDiv_size [Module ℝ D] {se : Bool} {a b r : PyVal V ℝ D} (ha : a.Good) (hb : b.Good) (h : PyVal.div se a b = .ok r) :
    r.size pt ≤ a.size pt / |b.phys pt| := by
  cases b with
  | num q =>
    cases a with
    | num p =>
      unfold PyVal.div PyVal.numOp at h
      dsimp only at h
      split_ifs at h with h0 hu
      cases h
      simp [PyVal.size, PyVal.phys, hu.1, hu.2, unitScale, abs_div]
    | nom a =>
      unfold PyVal.div at h
      dsimp only at h
      split_ifs at h with h0
      have hq : 0 < unitScale q.units := hb
      have hiu : unitScale (q.units.map UnitQ.inv) = (unitScale q.units)⁻¹ := by
        cases q.units <;> simp [unitScale, UnitQ.inv]
      have hi : UnitOK (q.units.map UnitQ.inv) := by
        unfold UnitOK; rw [hiu]; exact inv_pos.2 hq
      rw [mulNum_size ha (q := ⟨q.mag⁻¹, q.units.map UnitQ.inv⟩) hi h]
      simp only [PyVal.phys, hiu, PyVal.size]
      rw [abs_mul, abs_of_pos hq, abs_inv, div_eq_mul_inv, mul_inv]
  | nom m =>
    have h' : (if m.cls = .monomial then PyVal.rdiv se a m else .error .typeError) = .ok r := by
      cases a <;> exact h
    split_ifs at h' with hc
    obtain ⟨i, h1, h2⟩ := except_bind_ok h'
    obtain ⟨h3, -⟩ := monoPow_ok hb hc h1
    obtain ⟨p, h5, h6⟩ := except_bind_ok h2
    have h7 := pyMul_size hpt ha h3 h5
    have h8 := monoPow_size hpt hb hc h1
    cases p with
    | num q => cases h6
    | nom n =>
      cases h6
      refine h7.trans (le_of_eq ?_)
      simp only [PyVal.size, PyVal.phys]
      rw [h8, Real.rpow_neg_one, abs_of_pos (size_monomial hpt hb hc).2, div_eq_mul_inv]

theorem powLoop_size {se : Bool} {a : Nomial V ℝ D} (ha : (PyVal.nom a).Good) (n : ℕ) {r : PyVal V ℝ D} (h : a.powLoop se n = .ok r) :
    r.size pt ≤ physSize pt a.hmap ^ n := by
  have h0 : 0 ≤ physSize pt a.hmap := PyVal.size_nonneg hpt ha
  induction n generalizing r with
  | zero => cases h; simp [PyVal.size, unitScale]
  | succ n ih =>
    obtain ⟨p, h1, h2⟩ := except_bind_ok h
    have hp := ih h1
    obtain ⟨hg, -⟩ := powLoop_ok ha n h1
    cases p with
    | num q =>
      rw [mulNum_size ha hg h2, pow_succ, mul_comm]
      exact mul_le_mul_of_nonneg_right hp h0
    | nom m =>
      obtain ⟨k, h3, h4⟩ := except_bind_ok h2
      cases h4
      refine (mul_size hpt hg ha h3).trans ?_
      rw [pow_succ]
      exact mul_le_mul_of_nonneg_right hp h0

/-- What is built for an expression is no larger than what is written. -/
theorem build_size [Module ℝ D] {se : Bool} {vunits : V → Option (UnitQ D ℝ)} (hu : ∀ v, UnitOK (vunits v)) (e : Expr V) {r : PyVal V ℝ D}
    (h : e.build se vunits = .ok r) : r.size pt ≤ e.size (Written.physical vunits pt) := by
  have hden : ∀ (e : Expr V) {r : PyVal V ℝ D}, e.build se vunits = .ok r → r.phys pt = e.denote (Written.physical vunits pt) :=
    fun e r h => (build_ok hu e h).2 pt hpt
  induction e generalizing r with
  | var v =>
    cases h
    have h1 : 0 < unitScale (vunits v) := hu v
    have h2 := hpt v
    simp [PyVal.size, physSize, varNomial, monVal, Expr.size, Written.physical, abs_of_pos h1, abs_of_pos h2]
  | num c => cases h; simp [PyVal.size, unitScale, Expr.size]
  | add a b iha ihb =>
    obtain ⟨x, h1, h2⟩ := except_bind_ok h
    obtain ⟨y, h3, h4⟩ := except_bind_ok h2
    exact (pyAdd_size hpt (build_ok hu a h1).1 (build_ok hu b h3).1 h4).trans (add_le_add (iha h1) (ihb h3))
  | sub a b iha ihb =>
    obtain ⟨x, h1, h2⟩ := except_bind_ok h
    obtain ⟨y, h3, h4⟩ := except_bind_ok h2
    exact (pySub_size hpt (build_ok hu a h1).1 (build_ok hu b h3).1 h4).trans (add_le_add (iha h1) (ihb h3))
  | mul a b iha ihb =>
    obtain ⟨x, h1, h2⟩ := except_bind_ok h
    obtain ⟨y, h3, h4⟩ := except_bind_ok h2
    have g1 := (build_ok hu a h1).1
    have g2 := (build_ok hu b h3).1
    exact (pyMul_size hpt g1 g2 h4).trans (mul_le_mul (iha h1) (ihb h3) (PyVal.size_nonneg hpt g2) ((PyVal.size_nonneg hpt g1).trans (iha h1)))
  | div a b iha ihb =>
    obtain ⟨x, h1, h2⟩ := except_bind_ok h
    obtain ⟨y, h3, h4⟩ := except_bind_ok h2
    refine (pyDiv_size hpt (build_ok hu a h1).1 (build_ok hu b h3).1 h4).trans ?_
    rw [hden b h3]
    exact div_le_div_of_nonneg_right (iha h1) (abs_nonneg _)
  | neg a iha =>
    obtain ⟨x, h1, h2⟩ := except_bind_ok h
    rw [pyNeg_size (build_ok hu a h1).1 h2]
    exact iha h1
  | pow a x iha =>
    obtain ⟨y, h1, h2⟩ := except_bind_ok h
    have g1 := (build_ok hu a h1).1
    have hv := hden a h1
    have hs := iha h1
    have hs0 : 0 ≤ y.size pt := PyVal.size_nonneg hpt g1
    have hle := PyVal.phys_le_size hpt g1
    -- the size of the result, when it is that of a power of the value
    have fin : r.size pt ≤ |y.phys pt ^ x.toK| → r.size pt ≤ (Expr.pow a x).size (Written.physical vunits pt) := by
      intro hr
      refine hr.trans ?_
      rw [hv]
      cases x with
      | float z => exact le_rfl
      | int z =>
        unfold Expr.size
        split
        · rename_i hz
          have : ((z.toNat : ℤ)) = z := Int.toNat_of_nonneg hz
          have hz' : (PyExpo.int z : PyExpo ℝ).toK = (z.toNat : ℝ) := by
            simp only [PyExpo.toK]
            conv_lhs => rw [← this]
            push_cast; rfl
          rw [hz', Real.rpow_natCast, abs_pow, ← hv]
          exact pow_le_pow_left₀ (abs_nonneg _) (hle.trans hs) _
        · exact le_rfl
    unfold PyVal.pow at h2
    cases y with
    | num q =>
      simp only at h2
      split_ifs at h2 with hz hk
      cases h2
      refine fin (le_of_eq ?_)
      simp [PyVal.size, PyVal.phys, not_not.1 hz, unitScale, pw_real]
    | nom n =>
      simp only at h2
      split_ifs at h2 with hc
      · obtain ⟨m, h3, h4⟩ := except_bind_ok h2
        cases h4
        refine fin (le_of_eq ?_)
        simp only [PyVal.size, PyVal.phys]
        rw [monoPow_size hpt g1 hc h3, abs_of_pos (Real.rpow_pos_of_pos (size_monomial hpt g1 hc).2 _)]
      · cases x with
        | float z => cases h2
        | int z =>
          unfold Nomial.sigPow at h2
          dsimp only at h2
          split_ifs at h2 with hz
          obtain ⟨p, h3, h4⟩ := except_bind_ok h2
          have h5 := powLoop_size hpt g1 _ h3
          cases p with
          | num q => cases h4
          | nom m =>
            cases h4
            refine h5.trans ?_
            unfold Expr.size
            rw [if_pos (not_lt.1 hz)]
            exact pow_le_pow_left₀ hs0 hs _

end Units
end Verif
