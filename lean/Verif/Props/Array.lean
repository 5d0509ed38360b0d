import Verif.Model.Array
import Verif.Lemmas.Arith
import Verif.Lemmas.Positive

/-! Sums and products of arrays: C45. -/

set_option linter.unusedSectionVars false

namespace Verif
open Arr PyDict
namespace Arr

variable {V D : Type} [DecidableEq V] [AddCommGroup D] [DecidableEq D]

theorem addConst_val (pt : V → ℝ) (h : NMap V ℝ D) (p : ℝ) : physVal pt (addConst h p) = physVal pt h + unitScale h.units * p := by
  unfold physVal addConst
  dsimp only
  rw [termsVal_eq_wsum, wsum_set (monVal_respects pt), termsVal_eq_wsum]
  have : monVal pt (HV.empty : HV V ℝ).items = 1 := by simp [HV.empty, monVal]
  rw [this]
  ring

theorem setUnits_ok {h : NMap V ℝ D} {u : Option (UnitQ D ℝ)} (hh : UnitOK h.units) (hu : UnitOK u) :
    UnitOK (setUnits h u).units ∧ ∀ pt, physVal pt (setUnits h u) = physVal pt h := by
  unfold setUnits
  split_ifs with he
  · refine ⟨hu, fun pt => ?_⟩
    have : h.terms = [] := by simpa using he
    simp [physVal, this]
  · exact ⟨hh, fun _ => rfl⟩

theorem sumStep_ok {h h' : NMap V ℝ D} {e : PyVal V ℝ D} (hh : UnitOK h.units) (he : e.Good) (hs : sumStep h e = .ok h') :
    UnitOK h'.units ∧ ∀ pt, physVal pt h' = physVal pt h + e.phys pt := by
  match e with
  | .nom n =>
    obtain ⟨h1, h2⟩ := setUnits_ok hh he.1
    have ha := NMap.add_ok hs
    refine ⟨by rw [ha.1]; exact h1, fun pt => ?_⟩
    rw [physVal_add h1 hs, h2 pt]
    rfl
  | .num ⟨p, some u⟩ =>
    obtain ⟨h1, h2⟩ := setUnits_ok hh he
    unfold sumStep at hs
    dsimp only at hs
    cases hu : (setUnits h (some u)).units with
    | none => rw [hu] at hs; cases hs
    | some hu' =>
      rw [hu] at hs
      dsimp only at hs
      obtain ⟨c, hc, hs⟩ := except_bind_ok hs
      cases hs
      have hc' : c = u.scale / hu'.scale := by
        unfold UnitQ.convert at hc
        split_ifs at hc
        cases hc; rfl
      rw [hu] at h1
      refine ⟨by simpa [addConst, hu] using h1, fun pt => ?_⟩
      rw [addConst_val, h2, hu, hc']
      have : hu'.scale ≠ 0 := ne_of_gt h1
      simp only [PyVal.phys, unitScale]
      field_simp
  | .num ⟨p, none⟩ =>
    unfold sumStep at hs
    dsimp only at hs
    cases hu : h.units with
    | none =>
      rw [hu] at hs
      cases hs
      refine ⟨by simp [addConst, hu, UnitOK, unitScale], fun pt => ?_⟩
      rw [addConst_val, hu]
      simp [PyVal.phys, unitScale]
    | some u =>
      rw [hu] at hs hh
      dsimp only at hs
      by_cases h0 : p = 0
      · rw [if_neg (by simpa using h0)] at hs
        cases hs
        refine ⟨by simpa [addConst, hu] using hh, fun pt => ?_⟩
        rw [addConst_val]
        simp [PyVal.phys, unitScale, h0]
      · rw [if_pos h0] at hs
        cases hf : u.float with
        | none => rw [hf] at hs; cases hs
        | some f =>
          rw [hf] at hs
          cases hs
          have : f = u.scale := by
            unfold UnitQ.float at hf
            split_ifs at hf
            cases hf; rfl
          refine ⟨by simpa [addConst, hu] using hh, fun pt => ?_⟩
          rw [addConst_val, hu, this]
          have hne : u.scale ≠ 0 := ne_of_gt hh
          simp only [PyVal.phys, unitScale]
          field_simp

theorem sumFold_ok : ∀ (l : List (PyVal V ℝ D)) {h h' : NMap V ℝ D}, UnitOK h.units → (∀ e ∈ l, e.Good) → l.foldlM sumStep h = .ok h' →
    UnitOK h'.units ∧ ∀ pt, physVal pt h' = physVal pt h + (l.map (fun e => e.phys pt)).sum
  | [], h, h', hh, _, hs => by
    cases hs
    exact ⟨hh, fun pt => by simp⟩
  | e :: l, h, h', hh, hl, hs => by
    rw [List.foldlM_cons] at hs
    obtain ⟨h1, hs1, hs⟩ := except_bind_ok hs
    obtain ⟨g1, v1⟩ := sumStep_ok hh (hl e (by simp)) hs1
    obtain ⟨g2, v2⟩ := sumFold_ok l g1 (fun e he => hl e (by simp [he])) hs
    refine ⟨g2, fun pt => ?_⟩
    rw [v2, v1, List.map_cons, List.sum_cons]
    ring

/-- What units an entry has. -/
def unitsOf : PyVal V ℝ D → Option (UnitQ D ℝ)
  | .num q => q.units
  | .nom n => n.hmap.units

/-- A positive number, or a nomial with positive coefficients. -/
def Pos : PyVal V ℝ D → Prop
  | .num q => 0 < q.mag
  | .nom n => n.AllPos

/-- Units of the same kind: none, or some of the dimension `d`. -/
def Fits (d : Option D) (u : Option (UnitQ D ℝ)) : Prop := u.map UnitQ.dim = d

theorem add_fits {d : Option D} {a b : NMap V ℝ D} (ha : Fits d a.units) (hb : Fits d b.units) (hub : UnitOK b.units) (hua : UnitOK a.units) :
    ∃ h, a.add b = .ok h ∧ Fits d h.units ∧
      ((∀ t ∈ a.terms, 0 < t.2) → (∀ t ∈ b.terms, 0 < t.2) → ∀ t ∈ h.terms, 0 < t.2) := by
  unfold NMap.add
  by_cases hu : a.units = b.units
  · rw [if_pos hu]
    exact ⟨_, rfl, ha, dictAdd_pos⟩
  · rw [if_neg hu]
    unfold Fits at ha hb
    cases hua' : a.units with
    | none =>
      rw [hua'] at ha hu
      cases hub' : b.units with
      | none => exact absurd hub'.symm hu
      | some ub => rw [hub', ← ha] at hb; cases hb
    | some ua =>
      cases hub' : b.units with
      | none => rw [hub'] at hb; rw [hua', ← hb] at ha; cases ha
      | some ub =>
        rw [hua'] at ha; rw [hub'] at hb
        have hd : ub.dim = ua.dim := by
          rw [← hb] at ha
          simpa using ha.symm
        dsimp only
        have hf : (ub.mul ua.inv).float = some (ub.scale * ua.scale⁻¹) := by
          simp [UnitQ.float, UnitQ.mul, UnitQ.inv, hd]
        rw [hf]
        refine ⟨_, rfl, by simpa [Fits] using ha, fun pa pb => dictAdd_pos pa ?_⟩
        intro t ht
        obtain ⟨s, hs, rfl⟩ := List.mem_map.1 ht
        rw [hub'] at hub; rw [hua'] at hua
        exact mul_pos (pb s hs) (mul_pos hub (inv_pos.2 hua))

theorem addConst_pos {h : NMap V ℝ D} {p : ℝ} (hp : 0 < p) (hh : ∀ t ∈ h.terms, 0 < t.2) : ∀ t ∈ (addConst h p).terms, 0 < t.2 := by
  unfold addConst
  dsimp only
  refine mem_set_pos hh ?_
  cases hg : PyDict.get? h.terms HV.empty with
  | none => simpa using hp
  | some c => exact add_pos hp (get?_pos hh hg)

theorem setUnits_fits {d : Option D} {h : NMap V ℝ D} {u : Option (UnitQ D ℝ)} (hh : h.terms = [] ∨ Fits d h.units) (hu : Fits d u) :
    Fits d (setUnits h u).units ∧ (setUnits h u).terms = h.terms := by
  unfold setUnits
  split_ifs with he
  · exact ⟨hu, rfl⟩
  · rcases hh with hh | hh
    · exact absurd (by simp [hh]) he
    · exact ⟨hh, rfl⟩

theorem sumStep_fits {d : Option D} {h : NMap V ℝ D} {e : PyVal V ℝ D} (hok : UnitOK h.units) (hg : e.Good)
    (hh : Fits d h.units ∨ h.terms = [] ∧ h.units = none) (he : Fits d (unitsOf e)) :
    ∃ h', sumStep h e = .ok h' ∧ Fits d h'.units ∧ (Pos e → (∀ t ∈ h.terms, 0 < t.2) → ∀ t ∈ h'.terms, 0 < t.2) := by
  have hh' : h.terms = [] ∨ Fits d h.units := by
    rcases hh with h | h
    · exact Or.inr h
    · exact Or.inl h.1
  match e with
  | .nom n =>
    obtain ⟨h1, h2⟩ := setUnits_fits hh' he
    obtain ⟨h3, _⟩ := setUnits_ok hok hg.1
    obtain ⟨r, e1, e2, e3⟩ := add_fits h1 he hg.1 h3
    refine ⟨r, e1, e2, fun hp ht => e3 ?_ hp⟩
    rw [h2]; exact ht
  | .num ⟨p, some u⟩ =>
    obtain ⟨h1, h2⟩ := setUnits_fits (u := some u) hh' he
    obtain ⟨h3, _⟩ := setUnits_ok (u := some u) hok hg
    unfold sumStep
    dsimp only
    have hd : d = some u.dim := by simpa [Fits, unitsOf] using he.symm
    cases hu : (setUnits h (some u)).units with
    | none => rw [hu, hd] at h1; simp [Fits] at h1
    | some hu' =>
      rw [hu, hd] at h1
      have hdim : u.dim = hu'.dim := by simpa [Fits] using h1.symm
      dsimp only
      have hc : u.convert hu' = .ok (u.scale / hu'.scale) := by simp [UnitQ.convert, hdim]
      rw [hc]
      refine ⟨_, rfl, ?_, fun hp ht => addConst_pos ?_ (by rw [h2]; exact ht)⟩
      · simp [addConst, hu, hd, hdim, Fits]
      · rw [hu] at h3
        exact mul_pos hp (div_pos hg h3)
  | .num ⟨p, none⟩ =>
    have hd : d = none := by simpa [Fits, unitsOf] using he.symm
    have hn : h.units = none := by
      rcases hh with hh | hh
      · rw [hd] at hh; simpa [Fits] using hh
      · exact hh.2
    unfold sumStep
    dsimp only
    rw [hn]
    exact ⟨_, rfl, by simp [addConst, hn, hd, Fits], fun hp ht => addConst_pos hp ht⟩

theorem sumFold_fits {d : Option D} : ∀ (l : List (PyVal V ℝ D)) {h : NMap V ℝ D}, UnitOK h.units → (∀ e ∈ l, e.Good) →
    (Fits d h.units ∨ h.terms = [] ∧ h.units = none) → (∀ e ∈ l, Fits d (unitsOf e)) →
    ∃ h', l.foldlM sumStep h = .ok h' ∧ ((∀ e ∈ l, Pos e) → (∀ t ∈ h.terms, 0 < t.2) → ∀ t ∈ h'.terms, 0 < t.2)
  | [], h, _, _, _, _ => ⟨h, rfl, fun _ ht => ht⟩
  | e :: l, h, hok, hg, hh, hf => by
    obtain ⟨h1, s1, f1, p1⟩ := sumStep_fits hok (hg e (by simp)) hh (hf e (by simp))
    obtain ⟨g1, _⟩ := sumStep_ok hok (hg e (by simp)) s1
    obtain ⟨h2, s2, p2⟩ := sumFold_fits l g1 (fun e he => hg e (by simp [he])) (Or.inl f1) (fun e he => hf e (by simp [he]))
    refine ⟨h2, ?_, fun hp ht => p2 (fun e he => hp e (by simp [he])) (p1 (hp e (by simp)) ht)⟩
    rw [List.foldlM_cons, s1]
    exact s2

theorem addFold_ok {se : Bool} : ∀ (l : List (PyVal V ℝ D)) {a r : PyVal V ℝ D}, a.Good → (∀ e ∈ l, e.Good) → l.foldlM (PyVal.add se) a = .ok r →
    ∀ pt, r.phys pt = a.phys pt + (l.map (fun e => e.phys pt)).sum
  | [], a, r, _, _, hs => by cases hs; intro pt; simp
  | e :: l, a, r, ha, hl, hs => by
    rw [List.foldlM_cons] at hs
    obtain ⟨b, h1, hs⟩ := except_bind_ok hs
    obtain ⟨g, v⟩ := pyAdd_ok ha (hl e (by simp)) h1
    intro pt
    rw [addFold_ok l g (fun e he => hl e (by simp [he])) hs pt, v pt, List.map_cons, List.sum_cons]
    ring

theorem mulFold_ok {se : Bool} : ∀ (l : List (PyVal V ℝ D)) {a r : PyVal V ℝ D}, a.Good → (∀ e ∈ l, e.Good) → l.foldlM (PyVal.mul se) a = .ok r →
    ∀ pt, (∀ v, 0 < pt v) → r.phys pt = a.phys pt * (l.map (fun e => e.phys pt)).prod
  | [], a, r, _, _, hs => by cases hs; intro pt _; simp
  | e :: l, a, r, ha, hl, hs => by
    rw [List.foldlM_cons] at hs
    obtain ⟨b, h1, hs⟩ := except_bind_ok hs
    obtain ⟨g, v⟩ := pyMul_ok ha (hl e (by simp)) h1
    intro pt hpt
    rw [mulFold_ok l g (fun e he => hl e (by simp [he])) hs pt hpt, v pt hpt, List.map_cons, List.prod_cons]
    ring

/-- Value of what `prod` has accumulated. -/
noncomputable def Acc.val (pt : V → ℝ) (a : Acc V ℝ D) : ℝ := unitScale a.units * (a.c * monVal pt a.exp.items)

theorem prodStep_ok {a b : Acc V ℝ D} {e : PyVal V ℝ D} (h : prodStep a e = some b) :
    (∀ pt, (∀ v, 0 < pt v) → b.val pt = a.val pt * e.phys pt) := by
  match e with
  | .num q => cases h
  | .nom n =>
    unfold prodStep at h
    dsimp only at h
    split at h
    · rename_i e c ht
      cases h
      intro pt hpt
      simp only [Acc.val, PyVal.phys, physVal, ht, termsVal_cons, termsVal_nil, monVal_add hpt]
      cases n.hmap.units with
      | none => simp only [unitScale]; ring
      | some u =>
        cases a.units with
        | none => simp only [unitScale]; ring
        | some v => simp only [unitScale, UnitQ.mul]; ring
    · cases h

theorem prodFold_ok : ∀ (l : List (PyVal V ℝ D)) {a b : Acc V ℝ D}, l.foldlM prodStep a = some b →
    ∀ pt, (∀ v, 0 < pt v) → b.val pt = a.val pt * (l.map (fun e => e.phys pt)).prod
  | [], a, b, h => by cases h; intro pt _; simp
  | e :: l, a, b, h => by
    rw [List.foldlM_cons] at h
    cases h1 : prodStep a e with
    | none => rw [h1] at h; cases h
    | some c =>
      rw [h1] at h
      intro pt hpt
      rw [prodFold_ok l h pt hpt, prodStep_ok h1 pt hpt, List.map_cons, List.prod_cons]
      ring

theorem prodFold_mono : ∀ (l : List (PyVal V ℝ D)) {a : Acc V ℝ D}, 0 < a.c → (∀ e ∈ l, ∃ n, e = .nom n ∧ n.cls = .monomial ∧ n.ClassTrue) →
    ∃ b, l.foldlM prodStep a = some b ∧ 0 < b.c
  | [], a, ha, _ => ⟨a, rfl, ha⟩
  | e :: l, a, ha, h => by
    obtain ⟨n, rfl, hm, hc⟩ := h e (by simp)
    obtain ⟨x, c, ht, hp⟩ := hc.1.1 hm
    rw [List.foldlM_cons]
    have : ∃ b, prodStep a (.nom n) = some b ∧ 0 < b.c := by
      unfold prodStep
      dsimp only
      rw [ht]
      exact ⟨_, rfl, mul_pos ha hp⟩
    obtain ⟨b, h1, h2⟩ := this
    rw [h1]
    exact prodFold_mono l h2 (fun e he => h e (by simp [he]))

end Arr

variable {V D : Type} [DecidableEq V] [AddCommGroup D] [DecidableEq D]

/-- C45 for the values of sums: whatever the entries are (nomials, numbers, quantities, zeros), a sum that is returned has at every point the
sum of the values of the entries. -/
theorem C45_sum {se : Bool} {l : List (PyVal V ℝ D)} {n : Nomial V ℝ D} (hl : ∀ e ∈ l, e.Good) (h : Arr.sum se l = .ok n) :
    ∀ pt, (PyVal.nom n).phys pt = (l.map (fun e => e.phys pt)).sum := by
  unfold Arr.sum at h
  split_ifs at h with h0
  obtain ⟨m, h1, h2⟩ := except_bind_ok h
  obtain ⟨_, h4⟩ := sumFold_ok l (h := ⟨[], none⟩) (by simp [UnitOK, unitScale]) hl h1
  intro pt
  show physVal pt n.hmap = _
  rw [mkSig_ok h2, h4 pt]
  simp [physVal]

/-- C45 for sums: if the entries can also be added one after the other, the result has the same value. -/
theorem C45_sum_fold {se : Bool} {x : PyVal V ℝ D} {l : List (PyVal V ℝ D)} {n : Nomial V ℝ D} {r : PyVal V ℝ D} (hl : ∀ e ∈ x :: l, e.Good)
    (h : Arr.sum se (x :: l) = .ok n) (hr : l.foldlM (PyVal.add se) x = .ok r) : ∀ pt, (PyVal.nom n).phys pt = r.phys pt := by
  intro pt
  rw [C45_sum hl h pt, addFold_ok l (hl x (by simp)) (fun e he => hl e (by simp [he])) hr pt, List.map_cons, List.sum_cons]

/-- C45 for sums, when they are returned: entries of one dimension, none or all with units, if signomials are allowed or all coefficients and
numbers are positive. The full statement is that a sum is returned whenever the entries can be added one after the other; this fails for numbers that
are zero or cancel (`C45_zero_fails`). -/
theorem C45_sum_returns_partial {se : Bool} {l : List (PyVal V ℝ D)} {d : Option D} (hne : l ≠ []) (hl : ∀ e ∈ l, e.Good)
    (hu : ∀ e ∈ l, (Arr.unitsOf e).map UnitQ.dim = d) (hp : se = true ∨ ∀ e ∈ l, Arr.Pos e) :
    ∃ n, Arr.sum se l = .ok n ∧ ((∀ e ∈ l, Arr.Pos e) → n.AllPos) := by
  obtain ⟨h, h1, h2⟩ := sumFold_fits (d := d) l (h := ⟨[], none⟩) (by simp [UnitOK, unitScale]) hl (Or.inr ⟨rfl, rfl⟩) hu
  have hm : ∃ n : Nomial V ℝ D, mkSig se true h = .ok n := by
    unfold mkSig
    split_ifs with g1 g2 g3
    · rcases hp with rfl | hp
      · simp at g2
      · have := h2 hp (by simp)
        simp only [NMap.anyNonpositive, List.any_eq_true, decide_eq_true_eq] at g1
        obtain ⟨t, ht, h0⟩ := g1
        exact absurd (this t ht) (not_lt.2 h0)
    · exact ⟨_, rfl⟩
    · exact ⟨_, rfl⟩
    · exact ⟨_, rfl⟩
  obtain ⟨n, hn⟩ := hm
  refine ⟨n, ?_, fun hp t ht => ?_⟩
  · unfold Arr.sum
    rw [if_neg (by simpa using hne), h1]
    exact hn
  · rw [mkSig_ok hn] at ht
    exact h2 hp (by simp) t ht

/-- C45 for the values of products: whatever the entries are, a product that is returned has at every point the product of the values of the
entries. -/
theorem C45_prod {se : Bool} {l : List (PyVal V ℝ D)} {r : PyVal V ℝ D} (hl : ∀ e ∈ l, e.Good) (h : Arr.prod se l = .ok r) :
    ∀ pt, (∀ v, 0 < pt v) → r.phys pt = (l.map (fun e => e.phys pt)).prod := by
  unfold Arr.prod at h
  split_ifs at h with h0
  intro pt hpt
  cases hf : l.foldlM prodStep (⟨1, HV.empty, none⟩ : Acc V ℝ D) with
  | none =>
    rw [hf] at h
    dsimp only at h
    match l with
    | [] => cases h
    | x :: l =>
      rw [mulFold_ok l (hl x (by simp)) (fun e he => hl e (by simp [he])) h pt hpt, List.map_cons, List.prod_cons]
  | some a =>
    rw [hf] at h
    obtain ⟨n, h1, h2⟩ := except_bind_ok h
    cases h2
    have := prodFold_ok l hf pt hpt
    show physVal pt n.hmap = _
    rw [mkSig_ok h1]
    simpa [physVal, Acc.val, unitScale, HV.empty, monVal] using this

/-- C45 for products of monomials: they are returned, as monomials. -/
theorem C45_prod_returns {se : Bool} {l : List (PyVal V ℝ D)} (hne : l ≠ []) (hl : ∀ e ∈ l, ∃ n, e = .nom n ∧ n.cls = .monomial ∧ n.ClassTrue) :
    ∃ n, Arr.prod se l = .ok (.nom n) ∧ n.cls = .monomial := by
  obtain ⟨b, h1, h2⟩ := prodFold_mono l (a := ⟨1, HV.empty, none⟩) one_pos hl
  unfold Arr.prod
  rw [if_neg (by simpa using hne), h1]
  dsimp only
  have : mkSig se true (⟨[(b.exp, b.c)], b.units⟩ : NMap V ℝ D) = .ok ⟨⟨[(b.exp, b.c)], b.units⟩, .monomial⟩ := by
    unfold mkSig
    rw [if_neg (by simpa [NMap.anyNonpositive] using h2)]
    simp
  rw [this]
  exact ⟨_, rfl, rfl⟩

/-- A variable in the examples. -/
def C45_var (u : Option (UnitQ ℤ ℚ)) (v : ℕ) : PyVal ℕ ℚ ℤ := .nom ⟨⟨[(⟨[(v, 1)]⟩, 1)], u⟩, .monomial⟩

/-- Whether something raised the given exception. -/
def raises {α : Type} (x : Except Err α) (e : Err) : Bool := match x with | .ok _ => false | .error e' => e = e'

/-- C45 fails for zeros: `0 + x` is `x` but the sum of `[0, x]` raises `InvalidPosynomial`, and with units `DimensionalityError`; likewise `x + 1 - 1`
is `x` but the sum of `[x, 1, -1]` raises. -/
theorem C45_zero_fails :
    ((PyVal.add false (.num ⟨0, none⟩) (C45_var none 0)).isOk ∧ raises (Arr.sum false [.num ⟨0, none⟩, C45_var none 0]) .invalidPosynomial) ∧
    ((PyVal.add false (.num ⟨0, none⟩) (C45_var (some ⟨1, 1⟩) 0)).isOk ∧
      raises (Arr.sum false [.num ⟨0, none⟩, C45_var (some ⟨1, 1⟩) 0]) .dimensionality) ∧
    (([.num ⟨1, none⟩, .num ⟨-1, none⟩].foldlM (PyVal.add false) (C45_var none 0)).isOk ∧
      raises (Arr.sum false [C45_var none 0, .num ⟨1, none⟩, .num ⟨-1, none⟩]) .invalidPosynomial) := by
  decide +kernel

/-- C45 fails for products whose units cancel: `x*y + 1` with `x` in m and `y` in 1/m is an expression, but `1` cannot be added to the product of
`[x, y]`. -/
theorem C45_units_fails :
    (do PyVal.add false (← PyVal.mul false (C45_var (some ⟨1, 1⟩) 0) (C45_var (some ⟨-1, 1⟩) 1)) (.num ⟨1, none⟩)).isOk ∧
    raises (do PyVal.add false (← Arr.prod false [C45_var (some ⟨1, 1⟩) 0, C45_var (some ⟨-1, 1⟩) 1]) (.num ⟨1, none⟩)) .dimensionality := by
  decide +kernel

/-- The hypotheses can be met: `x` in m, `3 ft` and `y` in ft. -/
example (u v : UnitQ ℤ ℝ) (hu : u = ⟨1, 1⟩) (hv : v = ⟨1, 3048 / 10000⟩) (e : ℕ → UnitQ ℤ ℝ → PyVal ℕ ℝ ℤ)
    (he : e = fun n u => .nom (varNomial (fun _ => some u) n)) :
    ∃ n, Arr.sum false [e 0 u, .num ⟨3, some v⟩, e 1 v] = .ok n ∧ n.AllPos ∧
      ∀ pt, (PyVal.nom n).phys pt = ([e 0 u, .num ⟨3, some v⟩, e 1 v].map (fun e => e.phys pt)).sum := by
  subst hu hv he
  have hg : ∀ e ∈ [PyVal.nom (varNomial (fun _ => some (⟨1, 1⟩ : UnitQ ℤ ℝ)) 0), .num ⟨3, some ⟨1, 3048 / 10000⟩⟩,
      .nom (varNomial (fun _ => some (⟨1, 3048 / 10000⟩ : UnitQ ℤ ℝ)) 1)], e.Good := by
    intro e he
    simp only [List.mem_cons, List.not_mem_nil, or_false] at he
    rcases he with rfl | rfl | rfl
    · exact good_var (fun _ => by norm_num [UnitOK, unitScale]) 0
    · norm_num [PyVal.Good, UnitOK, unitScale]
    · exact good_var (fun _ => by norm_num [UnitOK, unitScale]) 1
  have hp : ∀ e ∈ [PyVal.nom (varNomial (fun _ => some (⟨1, 1⟩ : UnitQ ℤ ℝ)) 0), .num ⟨3, some ⟨1, 3048 / 10000⟩⟩,
      .nom (varNomial (fun _ => some (⟨1, 3048 / 10000⟩ : UnitQ ℤ ℝ)) 1)], Arr.Pos e := by
    intro e he
    simp only [List.mem_cons, List.not_mem_nil, or_false] at he
    rcases he with rfl | rfl | rfl <;> simp [Arr.Pos, varNomial, Nomial.AllPos]
  obtain ⟨n, h1, h2⟩ := C45_sum_returns_partial (se := false) (d := some 1) (by simp) hg (by
    intro e he
    simp only [List.mem_cons, List.not_mem_nil, or_false] at he
    rcases he with rfl | rfl | rfl <;> rfl) (Or.inr hp)
  exact ⟨n, h1, h2 hp, C45_sum hg h1⟩

end Verif
