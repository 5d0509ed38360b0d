import Verif.Spec.Eval
import Verif.Lemmas.Tidy

/-! Properties of all exponents of nomials, kept by arithmetic. -/

set_option linter.unusedSectionVars false

namespace Verif
open PyDict

variable {V D : Type} [DecidableEq V] [AddCommGroup D] [DecidableEq D]

theorem set_keys {α K : Type} [BEq α] {P : α → Prop} {a : PyDict α K} (ha : ∀ p ∈ a, P p.1) {k : α} (hk : P k) (c : K) : ∀ p ∈ a.set k c, P p.1 := by
  induction a with
  | nil => intro p hp; simp [PyDict.set] at hp; rw [hp]; exact hk
  | cons x a ih =>
    intro p hp
    rw [PyDict.set] at hp
    split at hp
    · rcases List.mem_cons.1 hp with rfl | hp
      · exact ha x (by simp)
      · exact ha p (by simp [hp])
    · rcases List.mem_cons.1 hp with rfl | hp
      · exact ha _ (by simp)
      · exact ih (fun q hq => ha q (by simp [hq])) p hp

theorem del_keys {α K : Type} [BEq α] {P : α → Prop} {a : PyDict α K} (ha : ∀ p ∈ a, P p.1) (k : α) : ∀ p ∈ a.del k, P p.1 := by
  induction a with
  | nil => intro p hp; simp [PyDict.del] at hp
  | cons x a ih =>
    intro p hp
    rw [PyDict.del] at hp
    split at hp
    · exact ha p (by simp [hp])
    · rcases List.mem_cons.1 hp with rfl | hp
      · exact ha _ (by simp)
      · exact ih (fun q hq => ha q (by simp [hq])) p hp

/-- The exponents of every term have a property. -/
def EveryTerm (P : HV V ℝ → Prop) (ts : PyDict (HV V ℝ) ℝ) : Prop := ∀ t ∈ ts, P t.1

/-- The exponents of every term of a number or nomial have a property. -/
def PyVal.Every (P : HV V ℝ → Prop) : PyVal V ℝ D → Prop
  | .num _ => True
  | .nom n => EveryTerm P n.hmap.terms

/-- The property holds for constants and for products. -/
structure Closed (P : HV V ℝ → Prop) : Prop where
  empty : P HV.empty
  add : ∀ {a b}, P a → P b → P (a.add b)

variable {P : HV V ℝ → Prop} (hP : Closed P)
include hP

theorem dictAdd_every {a b : PyDict (HV V ℝ) ℝ} (ha : EveryTerm P a) (hb : EveryTerm P b) : EveryTerm P (dictAdd a b) :=
  dictAdd_keys ha hb

theorem dictScale_every {a : PyDict (HV V ℝ) ℝ} (ha : EveryTerm P a) (c : ℝ) : EveryTerm P (dictScale a c) := by
  intro t ht
  obtain ⟨q, hq, rfl⟩ := List.mem_map.1 ht
  exact ha q hq

theorem mulTerms_every {a b : PyDict (HV V ℝ) ℝ} (ha : EveryTerm P a) (hb : EveryTerm P b) : EveryTerm P (Nomial.mulTerms a b) := by
  unfold Nomial.mulTerms
  have hinner : ∀ (e1 : HV V ℝ) (c1 : ℝ), P e1 → ∀ (b acc : PyDict (HV V ℝ) ℝ), EveryTerm P b → EveryTerm P acc →
      EveryTerm P (b.foldl (Nomial.mulStep e1 c1) acc) := by
    intro e1 c1 he b
    induction b with
    | nil => intro acc _ h; exact h
    | cons t b ih =>
      intro acc hb h
      rw [List.foldl_cons]
      refine ih _ (fun s hs => hb s (List.mem_cons_of_mem _ hs)) ?_
      unfold Nomial.mulStep
      simp only
      split_ifs
      · exact set_keys h (hP.add he (hb t List.mem_cons_self)) _
      · exact del_keys h _
      · exact h
  have houter : ∀ (a acc : PyDict (HV V ℝ) ℝ), EveryTerm P a → EveryTerm P acc →
      EveryTerm P (a.foldl (fun acc s => b.foldl (Nomial.mulStep s.1 s.2) acc) acc) := by
    intro a
    induction a with
    | nil => intro acc _ h; exact h
    | cons s a ih =>
      intro acc ha h
      rw [List.foldl_cons]
      exact ih _ (fun t ht => ha t (List.mem_cons_of_mem _ ht)) (hinner _ _ (ha s List.mem_cons_self) b acc hb h)
  exact houter a [] ha (by simp [EveryTerm])

theorem unitsOfProduct_every {h : NMap V ℝ D} (hc : EveryTerm P h.terms) (u1 u2 : Option (UnitQ D ℝ)) : EveryTerm P (h.unitsOfProduct u1 u2).terms := by
  unfold NMap.unitsOfProduct
  match u1, u2 with
  | none, none => exact hc
  | some a, none => exact hc
  | none, some b => exact hc
  | some a, some b =>
    simp only
    match ofProduct a b with
    | (u, some conv) => exact dictScale_every hP hc _
    | (u, none) => exact hc

theorem NMap.add_every {a b h : NMap V ℝ D} (ha : EveryTerm P a.terms) (hb : EveryTerm P b.terms) (hh : a.add b = .ok h) : EveryTerm P h.terms := by
  unfold NMap.add at hh
  split_ifs at hh with hu
  · cases hh; exact dictAdd_every hP ha hb
  · cases hua : a.units with
    | none => rw [hua] at hh; simp at hh
    | some u =>
      cases hub : b.units with
      | none => rw [hua, hub] at hh; simp at hh
      | some w =>
        rw [hua, hub] at hh
        simp only [UnitQ.float, UnitQ.mul, UnitQ.inv] at hh
        by_cases hd : w.dim + -u.dim = 0
        · simp only [hd, if_true] at hh
          injection hh with hh
          subst hh
          exact dictAdd_every hP ha (dictScale_every hP hb _)
        · simp [hd] at hh

theorem numMap_every (q : PyQ D ℝ) : EveryTerm P (numMap q : NMap V ℝ D).terms := by
  intro t ht
  simp only [numMap, List.mem_singleton] at ht
  subst ht
  exact hP.empty

theorem addNum_every {se : Bool} {a n : Nomial V ℝ D} {q : PyQ D ℝ} (ha : EveryTerm P a.hmap.terms) (h : a.addNum se q = .ok n) :
    EveryTerm P n.hmap.terms := by
  unfold Nomial.addNum at h
  by_cases h0 : q.mag = 0
  · rw [if_pos h0] at h; rw [mkSig_ok h]; exact ha
  · rw [if_neg h0] at h
    obtain ⟨m, h1, h2⟩ := except_bind_ok h
    rw [mkSig_ok h2]
    exact NMap.add_every hP (b := numMap q) ha (numMap_every hP q) h1

theorem add_every {se : Bool} {a b n : Nomial V ℝ D} (ha : EveryTerm P a.hmap.terms) (hb : EveryTerm P b.hmap.terms) (h : a.add se b = .ok n) :
    EveryTerm P n.hmap.terms := by
  unfold Nomial.add at h
  split_ifs at h
  · obtain ⟨m, h1, h2⟩ := except_bind_ok h
    rw [mkSig_ok h2]; exact NMap.add_every hP hb ha h1
  · obtain ⟨m, h1, h2⟩ := except_bind_ok h
    rw [mkSig_ok h2]; exact NMap.add_every hP ha hb h1

theorem mulNum_every {se : Bool} {a : Nomial V ℝ D} {q : PyQ D ℝ} {r : PyVal V ℝ D} (ha : EveryTerm P a.hmap.terms) (h : a.mulNum se q = .ok r) :
    r.Every P := by
  unfold Nomial.mulNum at h
  by_cases h0 : q.mag = 0
  · rw [if_pos h0] at h; cases h; trivial
  · rw [if_neg h0] at h
    obtain ⟨m, h1, h2⟩ := except_bind_ok h
    cases h2
    show EveryTerm P m.hmap.terms
    rw [mkSig_ok h1]
    exact unitsOfProduct_every hP (dictScale_every hP ha _) _ _

theorem mul_every {se : Bool} {a b n : Nomial V ℝ D} (ha : EveryTerm P a.hmap.terms) (hb : EveryTerm P b.hmap.terms) (h : a.mul se b = .ok n) :
    EveryTerm P n.hmap.terms := by
  unfold Nomial.mul at h
  rw [mkSig_ok h]
  exact unitsOfProduct_every hP (mulTerms_every hP ha hb) _ _

theorem monoPow_every [Module ℝ D] {se : Bool} {a n : Nomial V ℝ D} {x : ℝ}
    (hs : ∀ e c, a.hmap.terms = [(e, c)] → P (e.scale x)) (hg : (PyVal.nom a).Good)
    (hm : a.cls = .monomial) (h : a.monoPow se x = .ok n) : EveryTerm P n.hmap.terms := by
  obtain ⟨e, c, hx, hc⟩ := hg.2.1.1 hm
  unfold Nomial.monoPow at h
  have hs' := hs e c hx
  rw [hx] at h
  simp only at h
  rw [mkSig_ok h]
  intro t ht
  simp only [List.mem_singleton] at ht
  subst ht
  by_cases h0 : x = 0
  · simp only [h0, ne_eq, not_true_eq_false, if_false]
    exact hP.empty
  · simp only [ne_eq, h0, not_false_eq_true, if_true]
    exact hs'

theorem powLoop_every {se : Bool} {a : Nomial V ℝ D} (ha : EveryTerm P a.hmap.terms) (n : ℕ) {r : PyVal V ℝ D} (h : a.powLoop se n = .ok r) :
    r.Every P := by
  induction n generalizing r with
  | zero => cases h; trivial
  | succ n ih =>
    obtain ⟨p, h1, h2⟩ := except_bind_ok h
    cases p with
    | num q => exact mulNum_every hP ha h2
    | nom m =>
      obtain ⟨k, h3, h4⟩ := except_bind_ok h2
      cases h4
      exact mul_every hP (ih h1) ha h3

theorem pyAdd_every {se : Bool} {a b r : PyVal V ℝ D} (ha : a.Every P) (hb : b.Every P) (h : PyVal.add se a b = .ok r) : r.Every P := by
  cases a with
  | num p =>
    cases b with
    | num q =>
      unfold PyVal.add PyVal.numOp at h; dsimp only at h; split_ifs at h; cases h; trivial
    | nom b => obtain ⟨n, h1, h2⟩ := except_bind_ok h; cases h2; exact addNum_every hP hb h1
  | nom a =>
    cases b with
    | num q => obtain ⟨n, h1, h2⟩ := except_bind_ok h; cases h2; exact addNum_every hP ha h1
    | nom b => obtain ⟨n, h1, h2⟩ := except_bind_ok h; cases h2; exact add_every hP ha hb h1

theorem pyMul_every {se : Bool} {a b r : PyVal V ℝ D} (ha : a.Every P) (hb : b.Every P) (h : PyVal.mul se a b = .ok r) : r.Every P := by
  cases a with
  | num p =>
    cases b with
    | num q =>
      unfold PyVal.mul PyVal.numOp at h; dsimp only at h; split_ifs at h; cases h; trivial
    | nom b => exact mulNum_every hP hb h
  | nom a =>
    cases b with
    | num q => exact mulNum_every hP ha h
    | nom b => obtain ⟨n, h1, h2⟩ := except_bind_ok h; cases h2; exact mul_every hP ha hb h1

theorem pyNeg_every {se : Bool} {a r : PyVal V ℝ D} (ha : a.Every P) (h : PyVal.neg se a = .ok r) : r.Every P := by
  cases a with
  | num q => cases h; trivial
  | nom a =>
    unfold PyVal.neg Nomial.neg at h
    dsimp only at h
    split_ifs at h
    exact mulNum_every hP ha h

theorem pySub_every {se : Bool} {a b r : PyVal V ℝ D} (ha : a.Every P) (hb : b.Every P) (h : PyVal.sub se a b = .ok r) : r.Every P := by
  have key : ∀ a b : PyVal V ℝ D, a.Every P → b.Every P →
      (if se then (do PyVal.add se a (← PyVal.neg se b)) else .error .typeError) = .ok r → r.Every P := by
    intro a b ha hb h
    split_ifs at h
    obtain ⟨m, h1, h2⟩ := except_bind_ok h
    exact pyAdd_every hP ha (pyNeg_every hP hb h1) h2
  cases a with
  | num p =>
    cases b with
    | num q =>
      unfold PyVal.sub PyVal.numOp at h; dsimp only at h; split_ifs at h; cases h; trivial
    | nom b => exact key _ _ ha hb h
  | nom a => cases b <;> exact key _ _ ha hb h

theorem pyDiv_every [Module ℝ D] {se : Bool} {a b r : PyVal V ℝ D} (ha : a.Every P)
    (hs : ∀ n e c, b = .nom n → n.hmap.terms = [(e, c)] → P (e.scale (-1))) (gb : b.Good) (h : PyVal.div se a b = .ok r) :
    r.Every P := by
  cases b with
  | num q =>
    cases a with
    | num p =>
      unfold PyVal.div PyVal.numOp at h; dsimp only at h; split_ifs at h; cases h; trivial
    | nom a =>
      unfold PyVal.div at h
      dsimp only at h
      split_ifs at h with h0
      exact mulNum_every hP ha h
  | nom m =>
    have h' : (if m.cls = .monomial then PyVal.rdiv se a m else .error .typeError) = .ok r := by
      cases a <;> exact h
    split_ifs at h' with hc
    obtain ⟨i, h1, h2⟩ := except_bind_ok h'
    obtain ⟨p, h5, h6⟩ := except_bind_ok h2
    have h7 := pyMul_every hP (b := .nom i) ha (monoPow_every hP (fun e c he => hs m e c rfl he) gb hc h1) h5
    cases p with
    | num q => cases h6
    | nom n => cases h6; exact h7

theorem pyPow_every [Module ℝ D] {se : Bool} {a r : PyVal V ℝ D} {x : PyExpo ℝ} (ha : a.Every P)
    (hs : ∀ n e c, a = .nom n → n.hmap.terms = [(e, c)] → P (e.scale x.toK)) (ga : a.Good) (h : PyVal.pow se a x = .ok r) :
    r.Every P := by
  cases a with
  | num q =>
    unfold PyVal.pow at h
    dsimp only at h
    split_ifs at h
    cases h
    trivial
  | nom n =>
    unfold PyVal.pow at h
    dsimp only at h
    split_ifs at h with hc
    · obtain ⟨m, h1, h2⟩ := except_bind_ok h
      cases h2
      exact monoPow_every hP (fun e c he => hs n e c rfl he) ga hc h1
    · cases x with
      | float y => cases h
      | int z =>
        unfold Nomial.sigPow at h
        dsimp only at h
        split_ifs at h with hz
        obtain ⟨p, h1, h2⟩ := except_bind_ok h
        have := powLoop_every hP ha _ h1
        cases p with
        | num q => cases h2
        | nom m => cases h2; exact this

end Verif
