import Verif.Lemmas.Canonical
import Verif.Props.Array

/-! Keys of nomials stay distinct and canonical, also if some coefficients are zero (as in sums of arrays). -/

set_option linter.unusedSectionVars false

namespace Verif
open PyDict

section Terms
variable {V K : Type} [DecidableEq V] [Field K]

theorem dictAdd_tidy [DecidableEq K] {a b : PyDict (HV V K) K} (ha : TermsTidy a) (hb : TermsTidy b) : TermsTidy (dictAdd a b) :=
  ⟨dictAdd_wf ha.1 _, dictAdd_keys (P := fun e : HV V K => ExpCanonical e.items) ha.2 hb.2⟩

theorem dictScale_tidy [DecidableEq K] {a : PyDict (HV V K) K} (ha : TermsTidy a) (c : K) : TermsTidy (dictScale a c) := by
  refine ⟨dictScale_wf ha.1 _, fun t ht => ?_⟩
  unfold dictScale at ht
  obtain ⟨q, hq, rfl⟩ := List.mem_map.1 ht
  exact ha.2 q hq

theorem set_tidy [DecidableEq K] {a : PyDict (HV V K) K} (ha : TermsTidy a) {e : HV V K} (he : ExpCanonical e.items) (c : K) :
    TermsTidy (PyDict.set a e c) := by
  refine ⟨wf_set ha.1 _ _, fun p hp => ?_⟩
  rcases keys_of_mem_set' hp with h | ⟨w, h⟩
  · rw [h]; exact he
  · exact ha.2 (p.1, w) h

theorem mulStep_tidy [LinearOrder K] {e1 : HV V K} (he : ExpCanonical e1.items) (c1 : K) {acc : PyDict (HV V K) K} (ha : TermsTidy acc)
    {t : HV V K × K} (ht : ExpCanonical t.1.items) : TermsTidy (Nomial.mulStep e1 c1 acc t) := by
  unfold Nomial.mulStep
  simp only
  split_ifs
  · exact set_tidy ha (HV.add_canonical he ht) _
  · exact ⟨wf_del ha.1 _, fun p hp => ha.2 p ((del_sublist _ _).subset hp)⟩
  · exact ha

theorem mulTerms_tidy [LinearOrder K] {a b : PyDict (HV V K) K} (ha : TermsTidy a) (hb : TermsTidy b) : TermsTidy (Nomial.mulTerms a b) := by
  unfold Nomial.mulTerms
  have hinner : ∀ (e1 : HV V K) (c1 : K), ExpCanonical e1.items → ∀ (b acc : PyDict (HV V K) K),
      (∀ t ∈ b, ExpCanonical t.1.items) → TermsTidy acc → TermsTidy (b.foldl (Nomial.mulStep e1 c1) acc) := by
    intro e1 c1 he b
    induction b with
    | nil => intro acc _ h; exact h
    | cons t b ih =>
      intro acc hb h
      rw [List.foldl_cons]
      exact ih _ (fun s hs => hb s (List.mem_cons_of_mem _ hs)) (mulStep_tidy he c1 h (hb t List.mem_cons_self))
  have houter : ∀ (a acc : PyDict (HV V K) K), (∀ t ∈ a, ExpCanonical t.1.items) → TermsTidy acc →
      TermsTidy (a.foldl (fun acc s => b.foldl (Nomial.mulStep s.1 s.2) acc) acc) := by
    intro a
    induction a with
    | nil => intro acc _ h; exact h
    | cons s a ih =>
      intro acc ha h
      rw [List.foldl_cons]
      exact ih _ (fun s hs => ha s (List.mem_cons_of_mem _ hs)) (hinner _ _ (ha s List.mem_cons_self) b acc hb.2 h)
  exact houter a [] ha.2 ⟨List.Pairwise.nil, by simp⟩

end Terms

section Build
variable {V D : Type} [DecidableEq V] [AddCommGroup D] [DecidableEq D]

/-- The keys of a nomial are distinct and canonical. -/
def PyVal.Tidy : PyVal V ℝ D → Prop
  | .num _ => True
  | .nom n => TermsTidy n.hmap.terms

theorem PyVal.Canon.tidy {a : PyVal V ℝ D} (h : a.Canon) : a.Tidy := by
  cases a with
  | num q => trivial
  | nom n =>
    obtain ⟨h1, -, h3⟩ := (termsCanonical_iff _).1 h
    exact ⟨h1, h3⟩

theorem unitsOfProduct_tidy {h : NMap V ℝ D} (hc : TermsTidy h.terms) (u1 u2 : Option (UnitQ D ℝ)) : TermsTidy (h.unitsOfProduct u1 u2).terms := by
  unfold NMap.unitsOfProduct
  match u1, u2 with
  | none, none => exact hc
  | some a, none => exact hc
  | none, some b => exact hc
  | some a, some b =>
    simp only
    match ofProduct a b with
    | (u, some conv) => exact dictScale_tidy hc _
    | (u, none) => exact hc

theorem NMap.add_tidy {a b h : NMap V ℝ D} (ha : TermsTidy a.terms) (hb : TermsTidy b.terms) (hh : a.add b = .ok h) : TermsTidy h.terms := by
  unfold NMap.add at hh
  split_ifs at hh with hu
  · cases hh; exact dictAdd_tidy ha hb
  · cases hua : a.units with
    | none => rw [hua] at hh; simp at hh
    | some u =>
      cases hub : b.units with
      | none => rw [hua, hub] at hh; simp at hh
      | some w =>
        rw [hua, hub] at hh
        simp only [UnitQ.float, UnitQ.mul, UnitQ.inv] at hh
        by_cases hd : w.dim + -u.dim = 0
        · simp only [hd, if_true] at hh
          injection hh with hh
          subst hh
          exact dictAdd_tidy ha (dictScale_tidy hb _)
        · simp [hd] at hh

theorem numMap_tidy (q : PyQ D ℝ) : TermsTidy (numMap q : NMap V ℝ D).terms := by
  simp [numMap, TermsTidy, HV.empty, ExpCanonical, WF]

theorem addNum_tidy {se : Bool} {a n : Nomial V ℝ D} {q : PyQ D ℝ} (ha : TermsTidy a.hmap.terms) (h : a.addNum se q = .ok n) :
    TermsTidy n.hmap.terms := by
  unfold Nomial.addNum at h
  by_cases h0 : q.mag = 0
  · rw [if_pos h0] at h; rw [mkSig_ok h]; exact ha
  · rw [if_neg h0] at h
    obtain ⟨m, h1, h2⟩ := except_bind_ok h
    rw [mkSig_ok h2]
    exact NMap.add_tidy (b := numMap q) ha (numMap_tidy q) h1

theorem add_tidy {se : Bool} {a b n : Nomial V ℝ D} (ha : TermsTidy a.hmap.terms) (hb : TermsTidy b.hmap.terms) (h : a.add se b = .ok n) :
    TermsTidy n.hmap.terms := by
  unfold Nomial.add at h
  split_ifs at h
  · obtain ⟨m, h1, h2⟩ := except_bind_ok h
    rw [mkSig_ok h2]; exact NMap.add_tidy hb ha h1
  · obtain ⟨m, h1, h2⟩ := except_bind_ok h
    rw [mkSig_ok h2]; exact NMap.add_tidy ha hb h1

theorem mulNum_tidy {se : Bool} {a : Nomial V ℝ D} {q : PyQ D ℝ} {r : PyVal V ℝ D} (ha : TermsTidy a.hmap.terms) (h : a.mulNum se q = .ok r) :
    r.Tidy := by
  unfold Nomial.mulNum at h
  by_cases h0 : q.mag = 0
  · rw [if_pos h0] at h; cases h; trivial
  · rw [if_neg h0] at h
    obtain ⟨m, h1, h2⟩ := except_bind_ok h
    cases h2
    show TermsTidy m.hmap.terms
    rw [mkSig_ok h1]
    exact unitsOfProduct_tidy (dictScale_tidy ha _) _ _

theorem mul_tidy {se : Bool} {a b n : Nomial V ℝ D} (ha : TermsTidy a.hmap.terms) (hb : TermsTidy b.hmap.terms) (h : a.mul se b = .ok n) :
    TermsTidy n.hmap.terms := by
  unfold Nomial.mul at h
  rw [mkSig_ok h]
  exact unitsOfProduct_tidy (mulTerms_tidy ha hb) _ _

theorem monoPow_tidy [Module ℝ D] {se : Bool} {a n : Nomial V ℝ D} {x : ℝ} (ha : TermsTidy a.hmap.terms) (hg : (PyVal.nom a).Good)
    (hm : a.cls = .monomial) (h : a.monoPow se x = .ok n) : TermsTidy n.hmap.terms := by
  obtain ⟨e, c, hx, hc⟩ := hg.2.1.1 hm
  unfold Nomial.monoPow at h
  rw [hx] at h ha
  simp only at h
  rw [mkSig_ok h]
  have he := ha.2 (e, c) (by simp)
  refine ⟨by simp [WF], ?_⟩
  intro t ht
  simp only [List.mem_singleton] at ht
  subst ht
  by_cases h0 : x = 0
  · simp [h0, HV.empty, ExpCanonical]
  · simpa [h0] using HV.scale_canonical he h0

theorem powLoop_tidy {se : Bool} {a : Nomial V ℝ D} (ha : TermsTidy a.hmap.terms) (n : ℕ) {r : PyVal V ℝ D} (h : a.powLoop se n = .ok r) :
    r.Tidy := by
  induction n generalizing r with
  | zero => cases h; trivial
  | succ n ih =>
    obtain ⟨p, h1, h2⟩ := except_bind_ok h
    cases p with
    | num q => exact mulNum_tidy ha h2
    | nom m =>
      obtain ⟨k, h3, h4⟩ := except_bind_ok h2
      cases h4
      exact mul_tidy (ih h1) ha h3

theorem pyAdd_tidy {se : Bool} {a b r : PyVal V ℝ D} (ha : a.Tidy) (hb : b.Tidy) (h : PyVal.add se a b = .ok r) : r.Tidy := by
  cases a with
  | num p =>
    cases b with
    | num q =>
      unfold PyVal.add PyVal.numOp at h; dsimp only at h; split_ifs at h; cases h; trivial
    | nom b => obtain ⟨n, h1, h2⟩ := except_bind_ok h; cases h2; exact addNum_tidy hb h1
  | nom a =>
    cases b with
    | num q => obtain ⟨n, h1, h2⟩ := except_bind_ok h; cases h2; exact addNum_tidy ha h1
    | nom b => obtain ⟨n, h1, h2⟩ := except_bind_ok h; cases h2; exact add_tidy ha hb h1

theorem pyMul_tidy {se : Bool} {a b r : PyVal V ℝ D} (ha : a.Tidy) (hb : b.Tidy) (h : PyVal.mul se a b = .ok r) : r.Tidy := by
  cases a with
  | num p =>
    cases b with
    | num q =>
      unfold PyVal.mul PyVal.numOp at h; dsimp only at h; split_ifs at h; cases h; trivial
    | nom b => exact mulNum_tidy hb h
  | nom a =>
    cases b with
    | num q => exact mulNum_tidy ha h
    | nom b => obtain ⟨n, h1, h2⟩ := except_bind_ok h; cases h2; exact mul_tidy ha hb h1

theorem pyNeg_tidy {se : Bool} {a r : PyVal V ℝ D} (ha : a.Tidy) (h : PyVal.neg se a = .ok r) : r.Tidy := by
  cases a with
  | num q => cases h; trivial
  | nom a =>
    unfold PyVal.neg Nomial.neg at h
    dsimp only at h
    split_ifs at h
    exact mulNum_tidy ha h

theorem pySub_tidy {se : Bool} {a b r : PyVal V ℝ D} (ha : a.Tidy) (hb : b.Tidy) (h : PyVal.sub se a b = .ok r) : r.Tidy := by
  have key : ∀ a b : PyVal V ℝ D, a.Tidy → b.Tidy →
      (if se then (do PyVal.add se a (← PyVal.neg se b)) else .error .typeError) = .ok r → r.Tidy := by
    intro a b ha hb h
    split_ifs at h
    obtain ⟨m, h1, h2⟩ := except_bind_ok h
    exact pyAdd_tidy ha (pyNeg_tidy hb h1) h2
  cases a with
  | num p =>
    cases b with
    | num q =>
      unfold PyVal.sub PyVal.numOp at h; dsimp only at h; split_ifs at h; cases h; trivial
    | nom b => exact key _ _ ha hb h
  | nom a => cases b <;> exact key _ _ ha hb h

theorem pyDiv_tidy [Module ℝ D] {se : Bool} {a b r : PyVal V ℝ D} (ha : a.Tidy) (hb : b.Tidy) (gb : b.Good) (h : PyVal.div se a b = .ok r) :
    r.Tidy := by
  cases b with
  | num q =>
    cases a with
    | num p =>
      unfold PyVal.div PyVal.numOp at h; dsimp only at h; split_ifs at h; cases h; trivial
    | nom a =>
      unfold PyVal.div at h
      dsimp only at h
      split_ifs at h with h0
      exact mulNum_tidy ha h
  | nom m =>
    have h' : (if m.cls = .monomial then PyVal.rdiv se a m else .error .typeError) = .ok r := by
      cases a <;> exact h
    split_ifs at h' with hc
    obtain ⟨i, h1, h2⟩ := except_bind_ok h'
    obtain ⟨p, h5, h6⟩ := except_bind_ok h2
    have h7 := pyMul_tidy (b := .nom i) ha (monoPow_tidy hb gb hc h1) h5
    cases p with
    | num q => cases h6
    | nom n => cases h6; exact h7

theorem pyPow_tidy [Module ℝ D] {se : Bool} {a r : PyVal V ℝ D} {x : PyExpo ℝ} (ha : a.Tidy) (ga : a.Good) (h : PyVal.pow se a x = .ok r) :
    r.Tidy := by
  cases a with
  | num q =>
    unfold PyVal.pow at h
    dsimp only at h
    split_ifs at h
    cases h
    trivial
  | nom n =>
    unfold PyVal.pow at h
    dsimp only at h
    split_ifs at h with hc
    · obtain ⟨m, h1, h2⟩ := except_bind_ok h
      cases h2
      exact monoPow_tidy ha ga hc h1
    · cases x with
      | float y => cases h
      | int z =>
        unfold Nomial.sigPow at h
        dsimp only at h
        split_ifs at h with hz
        obtain ⟨p, h1, h2⟩ := except_bind_ok h
        have := powLoop_tidy ha _ h1
        cases p with
        | num q => cases h2
        | nom m => cases h2; exact this

/-! ### Sums and products of arrays -/

open Arr

theorem addConst_tidy {h : NMap V ℝ D} (hh : TermsTidy h.terms) (p : ℝ) : TermsTidy (addConst h p).terms :=
  set_tidy hh (by simp [HV.empty, ExpCanonical]) _

theorem setUnits_terms (h : NMap V ℝ D) (u : Option (UnitQ D ℝ)) : (setUnits h u).terms = h.terms := by
  unfold setUnits
  split <;> rfl

theorem sumStep_tidy {h h' : NMap V ℝ D} {e : PyVal V ℝ D} (hh : TermsTidy h.terms) (he : e.Tidy) (hs : sumStep h e = .ok h') :
    TermsTidy h'.terms := by
  match e with
  | .nom n => exact NMap.add_tidy (by rw [setUnits_terms]; exact hh) he hs
  | .num ⟨p, some u⟩ =>
    simp only [sumStep] at hs
    split at hs
    · cases hs
    · obtain ⟨c, -, h2⟩ := except_bind_ok hs
      cases h2
      exact addConst_tidy (by rw [setUnits_terms]; exact hh) _
  | .num ⟨p, none⟩ =>
    simp only [sumStep] at hs
    split at hs
    · cases hs; exact addConst_tidy hh _
    · split at hs
      · split at hs
        · cases hs
        · cases hs; exact addConst_tidy hh _
      · cases hs; exact addConst_tidy hh _

theorem sumFold_tidy : ∀ (l : List (PyVal V ℝ D)) {h h' : NMap V ℝ D}, TermsTidy h.terms → (∀ e ∈ l, e.Tidy) → l.foldlM sumStep h = .ok h' →
    TermsTidy h'.terms
  | [], h, h', hh, _, hs => by cases hs; exact hh
  | e :: l, h, h', hh, hl, hs => by
    rw [List.foldlM_cons] at hs
    obtain ⟨h1, hs1, hs⟩ := except_bind_ok hs
    exact sumFold_tidy l (sumStep_tidy hh (hl e (by simp)) hs1) (fun x hx => hl x (by simp [hx])) hs

/-- Sums of arrays. -/
theorem arrSum_ok {se : Bool} {l : List (PyVal V ℝ D)} {n : Nomial V ℝ D} (hl : ∀ e ∈ l, e.Good) (hp : ∀ e ∈ l, e.Tidy) (h : Arr.sum se l = .ok n) :
    (PyVal.nom n).Good ∧ (PyVal.nom n).Tidy := by
  unfold Arr.sum at h
  split_ifs at h with h0
  obtain ⟨m, h1, h2⟩ := except_bind_ok h
  refine ⟨good_mkSig (sumFold_ok l (h := ⟨[], none⟩) (by simp [UnitOK, unitScale]) hl h1).1 h2, ?_⟩
  show TermsTidy n.hmap.terms
  rw [mkSig_ok h2]
  exact sumFold_tidy l (h := ⟨[], none⟩) ⟨List.Pairwise.nil, by simp⟩ hp h1

theorem foldlM_ok {P : PyVal V ℝ D → Prop} {op : PyVal V ℝ D → PyVal V ℝ D → Except Err (PyVal V ℝ D)}
    (hop : ∀ a b r, P a → P b → op a b = .ok r → P r) : ∀ (l : List (PyVal V ℝ D)) {a r : PyVal V ℝ D}, P a → (∀ e ∈ l, P e) →
    l.foldlM op a = .ok r → P r
  | [], a, r, ha, _, h => by cases h; exact ha
  | e :: l, a, r, ha, hl, h => by
    rw [List.foldlM_cons] at h
    obtain ⟨b, h1, h2⟩ := except_bind_ok h
    exact foldlM_ok hop l (hop a e b ha (hl e (by simp)) h1) (fun x hx => hl x (by simp [hx])) h2

theorem prodFold_tidy : ∀ (l : List (PyVal V ℝ D)) {a b : Acc V ℝ D}, UnitOK a.units → ExpCanonical a.exp.items → (∀ e ∈ l, e.Good) →
    (∀ e ∈ l, e.Tidy) → l.foldlM prodStep a = some b → UnitOK b.units ∧ ExpCanonical b.exp.items
  | [], a, b, hu, he, _, _, h => by cases h; exact ⟨hu, he⟩
  | x :: l, a, b, hu, he, hg, hp, h => by
    rw [List.foldlM_cons] at h
    obtain ⟨c, h1, h2⟩ := Option.bind_eq_some_iff.1 h
    have key : UnitOK c.units ∧ ExpCanonical c.exp.items := by
      cases x with
      | num q => cases h1
      | nom n =>
        match ht : n.hmap.terms with
        | [] => simp [prodStep, ht] at h1
        | _ :: _ :: _ => simp [prodStep, ht] at h1
        | [(e, k)] =>
          simp only [prodStep, ht, Option.some.injEq] at h1
          subst h1
          have gx := hg (.nom n) (by simp)
          have px : TermsTidy n.hmap.terms := hp (.nom n) (by simp)
          rw [ht] at px
          refine ⟨?_, HV.add_canonical he (px.2 (e, k) (by simp))⟩
          have gu := gx.1
          cases hun : n.hmap.units with
          | none => exact hu
          | some u =>
            rw [hun] at gu
            cases hua : a.units with
            | none => exact gu
            | some w =>
              rw [hua] at hu
              exact mul_pos hu gu
    exact prodFold_tidy l key.1 key.2 (fun y hy => hg y (by simp [hy])) (fun y hy => hp y (by simp [hy])) h2

/-- Products of arrays. -/
theorem arrProd_ok {se : Bool} {l : List (PyVal V ℝ D)} {r : PyVal V ℝ D} (hl : ∀ e ∈ l, e.Good) (hp : ∀ e ∈ l, e.Tidy) (h : Arr.prod se l = .ok r) :
    r.Good ∧ r.Tidy := by
  unfold Arr.prod at h
  split_ifs at h with h0
  cases hf : l.foldlM prodStep (⟨1, HV.empty, none⟩ : Acc V ℝ D) with
  | none =>
    rw [hf] at h
    dsimp only at h
    match l with
    | [] => cases h
    | x :: l =>
      exact foldlM_ok (P := fun v => v.Good ∧ v.Tidy) (fun a b r ha hb hr => ⟨(pyMul_ok ha.1 hb.1 hr).1, pyMul_tidy ha.2 hb.2 hr⟩) l
        ⟨hl x (by simp), hp x (by simp)⟩ (fun e he => ⟨hl e (by simp [he]), hp e (by simp [he])⟩) h
  | some a =>
    rw [hf] at h
    obtain ⟨n, h1, h2⟩ := except_bind_ok h
    cases h2
    obtain ⟨a1, a2⟩ := prodFold_tidy l (a := ⟨1, HV.empty, none⟩) (by simp [UnitOK, unitScale]) (by simp [HV.empty, ExpCanonical]) hl hp hf
    refine ⟨good_mkSig a1 h1, ?_⟩
    show TermsTidy n.hmap.terms
    rw [mkSig_ok h1]
    exact ⟨by simp [WF], by simpa using a2⟩

/-! ### Without SignomialsEnabled -/

theorem pyAdd_pos {a b r : PyVal V ℝ D} (h : PyVal.add false a b = .ok r) : r.Pos := by
  cases a with
  | num p =>
    cases b with
    | num q => unfold PyVal.add PyVal.numOp at h; dsimp only at h; split_ifs at h; cases h; trivial
    | nom b => obtain ⟨n, h5, h6⟩ := except_bind_ok h; cases h6; exact addNum_pos h5
  | nom a =>
    cases b with
    | num q => obtain ⟨n, h5, h6⟩ := except_bind_ok h; cases h6; exact addNum_pos h5
    | nom b => obtain ⟨n, h5, h6⟩ := except_bind_ok h; cases h6; exact add_pos' h5

theorem pySub_pos {a b r : PyVal V ℝ D} (h : PyVal.sub false a b = .ok r) : r.Pos := by
  cases a with
  | num p =>
    cases b with
    | num q => unfold PyVal.sub PyVal.numOp at h; dsimp only at h; split_ifs at h; cases h; trivial
    | nom b => simp [PyVal.sub] at h
  | nom a => cases b <;> simp [PyVal.sub] at h

theorem pyDiv_pos [Module ℝ D] {a b r : PyVal V ℝ D} (h : PyVal.div false a b = .ok r) : r.Pos := by
  cases b with
  | num q =>
    cases a with
    | num p => unfold PyVal.div PyVal.numOp at h; dsimp only at h; split_ifs at h; cases h; trivial
    | nom a => unfold PyVal.div at h; dsimp only at h; split_ifs at h; exact mulNum_pos h
  | nom m =>
    have h' : (if m.cls = .monomial then PyVal.rdiv false a m else .error .typeError) = .ok r := by
      cases a <;> exact h
    split_ifs at h'
    obtain ⟨i, h5, h6⟩ := except_bind_ok h'
    obtain ⟨p, h7, h8⟩ := except_bind_ok h6
    have := pyMul_pos h7
    cases p with
    | num q => cases h8
    | nom n => cases h8; exact this

theorem pyNeg_pos {a r : PyVal V ℝ D} (h : PyVal.neg false a = .ok r) : r.Pos := by
  cases a with
  | num q => cases h; trivial
  | nom n => simp [PyVal.neg, Nomial.neg] at h

theorem pyPow_pos [Module ℝ D] {a r : PyVal V ℝ D} {x : PyExpo ℝ} (h : PyVal.pow false a x = .ok r) : r.Pos := by
  cases a with
  | num q =>
    unfold PyVal.pow at h
    dsimp only at h
    split_ifs at h
    cases h
    trivial
  | nom n =>
    unfold PyVal.pow at h
    dsimp only at h
    split_ifs at h with hc
    · obtain ⟨m, h3, h4⟩ := except_bind_ok h
      cases h4
      exact monoPow_pos h3
    · cases x with
      | float y => cases h
      | int z =>
        unfold Nomial.sigPow at h
        dsimp only at h
        split_ifs at h
        obtain ⟨p, h3, h4⟩ := except_bind_ok h
        have := powLoop_pos _ h3
        cases p with
        | num q => cases h4
        | nom m => cases h4; exact this

theorem arrSum_pos {l : List (PyVal V ℝ D)} {n : Nomial V ℝ D} (h : Arr.sum false l = .ok n) : n.AllPos := by
  unfold Arr.sum at h
  split_ifs at h with h0
  obtain ⟨m, h1, h2⟩ := except_bind_ok h
  exact mkSig_allPos rfl h2

theorem arrProd_pos {l : List (PyVal V ℝ D)} {r : PyVal V ℝ D} (hl : ∀ e ∈ l, e.Pos) (h : Arr.prod false l = .ok r) : r.Pos := by
  unfold Arr.prod at h
  split_ifs at h with h0
  cases hf : l.foldlM prodStep (⟨1, HV.empty, none⟩ : Acc V ℝ D) with
  | none =>
    rw [hf] at h
    dsimp only at h
    match l with
    | [] => cases h
    | x :: l => exact foldlM_ok (P := PyVal.Pos) (fun a b r _ _ hr => pyMul_pos hr) l (hl x (by simp)) (fun e he => hl e (by simp [he])) h
  | some a =>
    rw [hf] at h
    obtain ⟨n, h1, h2⟩ := except_bind_ok h
    cases h2
    exact mkSig_allPos rfl h1

end Build
end Verif
