import Verif.Spec.Warnings
import Verif.Props.Substitution
import Verif.Lemmas.Constraint

/-!
# C46: warnings appear exactly past their thresholds
-/

set_option linter.unusedSectionVars false

namespace Verif
open PyDict Warn

section
variable {ι V D : Type} [DecidableEq ι] [DecidableEq V] [AddCommGroup D] [DecidableEq D]

theorem notes_append (r : Res ι V ℝ) (cat : String) (n : Note ι V ℝ) (k : String) :
    notes (append r cat n) k = if k = cat then notes r k ++ [n] else notes r k := by
  unfold notes append warnDict
  simp only [Option.getD_some]
  rw [get?_set]
  by_cases h : k = cat
  · subst h; simp
  · have : (cat == k) = false := by simpa using fun h2 => h h2.symm
    simp [h, this]

/-- A side of a constraint: a canonical coefficient map, or zero. -/
def SideOK (h : NMap V ℝ D) : Prop :=
  ((TermsCanonical h.terms ∧ h.terms ≠ []) ∨ h.terms = [(HV.empty, 0)]) ∧ UnitOK h.units

theorem sideValue_ok {h : NMap V ℝ D} {vars : PyDict V ℝ} {order : List (V × List (HV V ℝ))} (hs : SideOK h)
    (ho : SetOrder (varlocs h.terms vars) order)
    (hall : ∀ t ∈ h.terms, ∀ v x, t.1.get? v = some x → vars.contains v = true) (pt : V → ℝ)
    (hpt : ∀ v c, vars.get? v = some c → pt v = c ∧ 0 < c) :
    sideValue h vars order = .ok (termsVal pt h.terms) := by
  unfold sideValue
  rcases hs.1 with ⟨hc, hne⟩ | hz
  · obtain ⟨h', hh⟩ := C06_sub_total hc hne ho (fun v c hv => Or.inl (hpt v c hv).2)
    have := C06_sub_all hc hne ho hh hall pt (fun v c hv => (hpt v c hv).1)
    rw [hh]
    simp only [bind, Except.bind]
    rw [this]
    simp [HV.empty]
  · obtain ⟨terms, units⟩ := h
    simp only at hz ho ⊢
    subst hz
    have hv : varlocs ([(HV.empty, 0)] : PyDict (HV V ℝ) ℝ) vars = [] := by
      simp [varlocs, varlocKeys, HV.empty, PyDict.keys]
    rw [hv] at ho
    cases ho
    have : NMap.sub (⟨[(HV.empty, 0)], units⟩ : NMap V ℝ D) vars [] = .ok ⟨[(HV.empty, 0)], units⟩ := by
      unfold NMap.sub subState
      split_ifs
      · rfl
      · simp [subInit, PyDict.set]; rfl
    rw [this]
    simp [HV.empty, termsVal, bind, Except.bind]

theorem ratio_of_dim {a b : Option (UnitQ D ℝ)} (ha : UnitOK a) (hb : UnitOK b) (h : unitDim a = unitDim b) :
    UnitCache.ratio a b = .ok (unitScale a / unitScale b) := by
  have : ∃ r, UnitCache.ratio a b = .ok r := by
    unfold UnitCache.ratio UnitQ.float UnitQ.mul UnitQ.inv
    rcases a with _ | a <;> rcases b with _ | b <;> simp only [unitDim] at h
    · exact ⟨_, rfl⟩
    · simp [← h]
    · simp [h]
    · simp [h]
  obtain ⟨r, hr⟩ := this
  rw [hr, ← (ratio_scale ha hb hr).1, mul_div_cancel_right₀ _ (ne_of_gt hb)]

/-- What a constraint must be like for `Tight` to judge it: sides of the same dimension, known variables, a right side other than zero. -/
structure Judged (vars : PyDict V ℝ) (pt : V → ℝ) (c : Con ι V ℝ D) : Prop where
  /-- left side -/
  left : SideOK c.left
  /-- right side -/
  right : SideOK c.right
  /-- any iteration order -/
  lorder : SetOrder (varlocs c.left.terms vars) c.lorder
  /-- any iteration order -/
  rorder : SetOrder (varlocs c.right.terms vars) c.rorder
  /-- the solution has all variables -/
  lvars : ∀ t ∈ c.left.terms, ∀ v x, t.1.get? v = some x → vars.contains v = true
  /-- the solution has all variables -/
  rvars : ∀ t ∈ c.right.terms, ∀ v x, t.1.get? v = some x → vars.contains v = true
  /-- same dimension -/
  dim : unitDim c.left.units = unitDim c.right.units
  /-- not zero -/
  nonzero : physVal pt c.right ≠ 0

open Classical in
theorem tightStep_ok {tol : ℝ} {r : Res ι V ℝ} {pt : V → ℝ} {c : Con ι V ℝ D} (hpt : ∀ v x, r.vars.get? v = some x → pt v = x ∧ 0 < x)
    (hc : Judged r.vars pt c) :
    tightStep tol r c = .ok (if IsLoose pt tol c then append r "Unexpectedly Loose Constraints"
      (.loose c.name (physVal pt c.left / unitScale c.left.units) (physVal pt c.right / unitScale c.left.units)) else r) := by
  have hl := hc.left.2
  have hr := hc.right.2
  unfold UnitOK at hl hr
  have hr0 : termsVal pt c.right.terms ≠ 0 := fun h => hc.nonzero (by unfold physVal; rw [h, mul_zero])
  unfold tightStep
  rw [sideValue_ok hc.left hc.lorder hc.lvars pt hpt, sideValue_ok hc.right hc.rorder hc.rvars pt hpt]
  simp only [bind, Except.bind]
  rw [if_neg hr0, ratio_of_dim hc.left.2 hc.right.2 hc.dim, ratio_of_dim hc.right.2 hc.left.2 hc.dim.symm]
  simp only
  have hiff : tol ≤ |1 - termsVal pt c.left.terms / termsVal pt c.right.terms * (unitScale c.left.units / unitScale c.right.units)| ↔ IsLoose pt tol c := by
    unfold IsLoose
    have e : 1 - termsVal pt c.left.terms / termsVal pt c.right.terms * (unitScale c.left.units / unitScale c.right.units)
        = -((physVal pt c.left - physVal pt c.right) / physVal pt c.right) := by
      unfold physVal
      field_simp
      ring
    rw [e, abs_neg, abs_div, le_div_iff₀ (abs_pos.2 hc.nonzero)]
  by_cases h : IsLoose pt tol c
  · rw [if_pos (hiff.2 h), if_pos h]
    have e1 : physVal pt c.left / unitScale c.left.units = termsVal pt c.left.terms := by
      unfold physVal; field_simp
    have e2 : physVal pt c.right / unitScale c.left.units = termsVal pt c.right.terms * (unitScale c.right.units / unitScale c.left.units) := by
      unfold physVal; ring
    rw [e1, e2]
  · rw [if_neg (fun h2 => h (hiff.1 h2)), if_neg h]

open Classical in
/-- C46. `Tight` adds a warning, with the values of both sides in the units of the left one, exactly for those of its constraints whose sides differ by the
tolerance or more; earlier warnings and the rest of the result stay. -/
theorem C46_tight {tol : ℝ} {r : Res ι V ℝ} {pt : V → ℝ} {cons : List (Con ι V ℝ D)} (hpt : ∀ v x, r.vars.get? v = some x → pt v = x ∧ 0 < x)
    (hc : ∀ c ∈ cons, Judged r.vars pt c) :
    ∃ r', tight tol cons r = .ok r' ∧ r'.vars = r.vars ∧ r'.sens = r.sens ∧ r'.bounded = r.bounded ∧
      notes r' "Unexpectedly Loose Constraints" = notes r "Unexpectedly Loose Constraints" ++ (cons.filter (fun c => IsLoose pt tol c)).map
        (fun c => .loose c.name (physVal pt c.left / unitScale c.left.units) (physVal pt c.right / unitScale c.left.units)) ∧
      ∀ cat, cat ≠ "Unexpectedly Loose Constraints" → notes r' cat = notes r cat := by
  induction cons generalizing r with
  | nil => exact ⟨r, rfl, rfl, rfl, rfl, by simp, fun _ _ => rfl⟩
  | cons c cons ih =>
    unfold tight
    rw [List.foldlM_cons, tightStep_ok hpt (hc c List.mem_cons_self)]
    by_cases h : IsLoose pt tol c
    · rw [if_pos h]
      obtain ⟨r', h1, h2, h3, h4, h5, h6⟩ := ih (r := append r "Unexpectedly Loose Constraints"
        (.loose c.name (physVal pt c.left / unitScale c.left.units) (physVal pt c.right / unitScale c.left.units))) hpt
        (fun d hd => hc d (List.mem_cons_of_mem _ hd))
      refine ⟨r', h1, h2, h3, h4, ?_, ?_⟩
      · rw [h5, notes_append, if_pos rfl, List.filter_cons_of_pos (by simpa using h)]
        simp
      · intro cat hcat
        rw [h6 cat hcat, notes_append, if_neg hcat]
    · rw [if_neg h]
      obtain ⟨r', h1, h2, h3, h4, h5, h6⟩ := ih (r := r) hpt (fun d hd => hc d (List.mem_cons_of_mem _ hd))
      refine ⟨r', h1, h2, h3, h4, ?_, h6⟩
      rw [h5, List.filter_cons_of_neg (by simpa using h)]

theorem notes_looseStep (tol : ℝ) (r : Res ι V ℝ) (c : ι) (cat : String) :
    notes (looseStep tol r c) cat = if cat = "Unexpectedly Tight Constraints" ∧ tol ≤ sensOf r c then notes r cat ++ [.tight c (sensOf r c)] else notes r cat := by
  unfold looseStep sensOf
  by_cases h : tol ≤ (r.sens.get? c).getD 0
  · rw [if_pos h, notes_append]; simp [h]
  · rw [if_neg h]; simp [h]

theorem looseStep_rest (tol : ℝ) (r : Res ι V ℝ) (c : ι) :
    (looseStep tol r c).vars = r.vars ∧ (looseStep tol r c).sens = r.sens ∧ (looseStep tol r c).bounded = r.bounded := by
  unfold looseStep append
  split_ifs <;> simp

open Classical in
/-- C46. `Loose` adds a warning exactly for those of its constraints whose sensitivity is at the threshold or above; earlier warnings and the rest of the result
stay. -/
theorem C46_loose {tol : ℝ} {r : Res ι V ℝ} {cons : List ι} :
    (loose tol false cons r).1 = false ∧ (loose tol false cons r).2.vars = r.vars ∧ (loose tol false cons r).2.sens = r.sens ∧
      (loose tol false cons r).2.bounded = r.bounded ∧
      notes (loose tol false cons r).2 "Unexpectedly Tight Constraints" =
        notes r "Unexpectedly Tight Constraints" ++ (cons.filter (fun c => tol ≤ sensOf r c)).map (fun c => .tight c (sensOf r c)) ∧
      ∀ cat, cat ≠ "Unexpectedly Tight Constraints" → notes (loose tol false cons r).2 cat = notes r cat := by
  induction cons generalizing r with
  | nil => exact ⟨rfl, rfl, rfl, rfl, by simp [loose], fun _ _ => rfl⟩
  | cons c cons ih =>
    unfold loose
    simp only [Bool.false_eq_true, and_false, if_false]
    obtain ⟨h1, h2, h3, h4, h5, h6⟩ := ih (r := looseStep tol r c)
    obtain ⟨e1, e2, e3⟩ := looseStep_rest tol r c
    refine ⟨h1, h2.trans e1, h3.trans e2, h4.trans e3, ?_, ?_⟩
    · have hs : ∀ d, sensOf (looseStep tol r c) d = sensOf r d := fun d => by unfold sensOf; rw [e2]
      rw [h5, notes_looseStep]
      simp only [hs, true_and]
      by_cases h : tol ≤ sensOf r c
      · rw [if_pos h, List.filter_cons_of_pos (by simpa using h)]; simp
      · rw [if_neg h, List.filter_cons_of_neg (by simpa using h)]
    · intro cat hcat
      rw [h6 cat hcat, notes_looseStep, if_neg (fun h => hcat h.1)]

/-- C46. With `raiseerror`, `Loose` raises exactly when some constraint is at the threshold or above, and the warnings it adds are only about the first one. -/
theorem C46_loose_raises {tol : ℝ} {r : Res ι V ℝ} {cons : List ι} :
    ((loose tol true cons r).1 = true ↔ ∃ c ∈ cons, tol ≤ sensOf r c) ∧
      ((loose tol true cons r).1 = false → (loose tol true cons r).2 = r) ∧
      ((loose tol true cons r).1 = true → ∃ c ∈ cons, tol ≤ sensOf r c ∧
        notes (loose tol true cons r).2 "Unexpectedly Tight Constraints" = notes r "Unexpectedly Tight Constraints" ++ [.tight c (sensOf r c)]) := by
  induction cons with
  | nil => simp [loose]
  | cons c cons ih =>
    unfold loose
    by_cases h : tol ≤ (r.sens.get? c).getD 0
    · rw [if_pos ⟨h, rfl⟩]
      refine ⟨⟨fun _ => ⟨c, List.mem_cons_self, h⟩, fun _ => rfl⟩, fun h => (by cases h), fun _ => ⟨c, List.mem_cons_self, h, ?_⟩⟩
      rw [notes_looseStep, if_pos ⟨rfl, h⟩]
    · rw [if_neg (fun h2 => h h2.1)]
      have hs : looseStep tol r c = r := by unfold looseStep; rw [if_neg h]
      rw [hs]
      obtain ⟨i1, i2, i3⟩ := ih
      refine ⟨?_, i2, fun h2 => ?_⟩
      · rw [i1]
        constructor
        · rintro ⟨d, hd, h2⟩; exact ⟨d, List.mem_cons_of_mem _ hd, h2⟩
        · rintro ⟨d, hd, h2⟩
          rcases List.mem_cons.1 hd with rfl | hd
          · exact (h h2).elim
          · exact ⟨d, hd, h2⟩
      · obtain ⟨d, hd, h3⟩ := i3 h2
        exact ⟨d, List.mem_cons_of_mem _ hd, h3⟩

/-! ## Bounded -/

theorem get?_addTo (out : PyDict Label (List V)) (lab k : Label) (v : V) :
    ((addTo out lab v).get? k).getD [] = if k = lab then
      (if v ∈ (out.get? k).getD [] then (out.get? k).getD [] else (out.get? k).getD [] ++ [v]) else (out.get? k).getD [] := by
  unfold addTo
  rw [get?_set]
  by_cases h : k = lab
  · subst h; simp
  · have : (lab == k) = false := by simpa using fun h2 => h h2.symm
    simp [h, this]

/-- The lists of a dictionary of labels are never empty, and its keys occur once. -/
def OutOK (out : PyDict Label (List V)) : Prop := WF out ∧ ∀ lab vs, out.get? lab = some vs → vs ≠ []

theorem OutOK.addIf {out : PyDict Label (List V)} (h : OutOK out) (t : Bool) (lab : Label) (v : V) : OutOK (addIf out t lab v) := by
  unfold Warn.addIf
  split_ifs
  · refine ⟨wf_set h.1 _ _, ?_⟩
    intro k vs hk
    unfold addTo at hk
    rw [get?_set] at hk
    by_cases hl : (lab == k) = true
    · rw [if_pos hl] at hk
      injection hk with hk
      rw [← hk]
      split_ifs with hc
      · intro h0; rw [h0] at hc; simp at hc
      · simp
    · rw [if_neg hl] at hk
      exact h.2 k vs hk
  · exact h

theorem get?_addIf (out : PyDict Label (List V)) (t : Bool) (lab k : Label) (v : V) (hv : k = lab → v ∉ (out.get? k).getD []) :
    ((addIf out t lab v).get? k).getD [] = (out.get? k).getD [] ++ (if k = lab ∧ t = true then [v] else []) := by
  unfold addIf
  cases t with
  | false => simp
  | true =>
    simp only [if_true]
    rw [get?_addTo]
    by_cases h : k = lab
    · have := hv h
      simp only [h, and_self, if_true] at this ⊢
      rw [if_neg this]
    · simp [h]

theorem get?_addIf2 (out : PyDict Label (List V)) (t1 t2 : Bool) (u : Bool) (n : String) (k : Label) (v : V)
    (hv : k.upper = u → v ∉ (out.get? k).getD []) :
    ((addIf (addIf out t1 ⟨false, u, n⟩ v) t2 ⟨true, u, n⟩ v).get? k).getD [] =
      (out.get? k).getD [] ++ (if k.upper = u ∧ k.num = n ∧ (if k.near then t2 else t1) = true then [v] else []) := by
  have h1 : ((addIf out t1 ⟨false, u, n⟩ v).get? k).getD [] = (out.get? k).getD [] ++ (if k = ⟨false, u, n⟩ ∧ t1 = true then [v] else []) :=
    get?_addIf _ _ _ _ _ (fun h => hv (by rw [h]))
  rw [get?_addIf, h1]
  · obtain ⟨near, up, m⟩ := k
    cases near <;> simp [and_assoc]
  · intro h
    rw [h1]
    have := hv (by rw [h])
    rw [h] at this ⊢
    simpa using this

open Classical in
theorem checkOne_ok {b : Bounder ℝ} (hlog : b.log = Real.log) (hlo : 0 ≤ b.lower) (hhi : 0 ≤ b.upper) {r : Res ι V ℝ}
    {out : PyDict Label (List V)} (ho : OutOK out) {x : BVar ι V} {val : ℝ} (hv : r.vars.get? x.vk = some val) (hpos : 0 < val)
    (hnew : ∀ lab, x.vk ∉ (out.get? lab).getD []) :
    ∃ out', checkOne b r out x = .ok out' ∧ OutOK out' ∧
      ∀ lab, (out'.get? lab).getD [] = (out.get? lab).getD [] ++ (if AtBound b val (sensOf r x.lo) (sensOf r x.hi) lab then [x.vk] else []) := by
  have hlow : ∀ _h : b.lower ≠ 0, (b.log (val / b.lower) ≤ b.logtol ↔ val ≤ b.lower * Real.exp b.logtol) := by
    intro h
    have : 0 < b.lower := lt_of_le_of_ne hlo (Ne.symm h)
    rw [hlog, Real.log_le_iff_le_exp (div_pos hpos this), div_le_iff₀ this, mul_comm]
  have hup : ∀ _h : b.upper ≠ 0, (b.log (b.upper / val) ≤ b.logtol ↔ b.upper ≤ val * Real.exp b.logtol) := by
    intro h
    have : 0 < b.upper := lt_of_le_of_ne hhi (Ne.symm h)
    rw [hlog, Real.log_le_iff_le_exp (div_pos this hpos), div_le_iff₀ hpos, mul_comm]
  unfold checkOne
  rw [hv]
  simp only
  have hfirst : ∃ out1, checkLow b ((boundCons b.lower b.upper x).map (fun c => (r.sens.get? c).getD 0)) val x.vk out = .ok out1 ∧ OutOK out1 ∧
      ∀ lab, (out1.get? lab).getD [] = (out.get? lab).getD [] ++
        (if lab.upper = false ∧ AtBound b val (sensOf r x.lo) (sensOf r x.hi) lab then [x.vk] else []) := by
    unfold checkLow
    by_cases h1 : b.lower = 0
    · refine ⟨out, by simp [h1], ho, ?_⟩
      rintro ⟨_ | _, _ | _, n⟩ <;> simp [AtBound, h1]
    · have hs : ((boundCons b.lower b.upper x).map (fun c => (r.sens.get? c).getD 0)).head? = some (sensOf r x.lo) := by
        simp [boundCons, h1, sensOf]
      refine ⟨addIf (addIf out (b.senstol ≤ sensOf r x.lo) ⟨false, false, b.fmt b.lower⟩ x.vk)
            (b.log (val / b.lower) ≤ b.logtol) ⟨true, false, b.fmt b.lower⟩ x.vk, ?_, ?_, ?_⟩
      · rw [if_pos h1, hs]
      · exact (ho.addIf _ _ _).addIf _ _ _
      · intro lab
        rw [get?_addIf2 _ _ _ _ _ _ _ (fun _ => hnew lab)]
        congr 1
        have hl := hlow h1
        rcases lab with ⟨_ | _, _ | _, n⟩ <;> simp [AtBound, h1, hl]
  obtain ⟨out1, e1, o1, g1⟩ := hfirst
  rw [e1]
  simp only [bind, Except.bind]
  unfold checkHigh
  by_cases h2 : b.upper = 0
  · refine ⟨out1, by simp [h2], o1, ?_⟩
    intro lab
    rw [g1]
    rcases lab with ⟨_ | _, _ | _, n⟩ <;> simp [AtBound, h2] <;> congr
  · have hs : ((boundCons b.lower b.upper x).map (fun c => (r.sens.get? c).getD 0)).getLast? = some (sensOf r x.hi) := by
      by_cases h1 : b.lower = 0 <;> simp [boundCons, h1, h2, sensOf]
    refine ⟨addIf (addIf out1 (b.senstol ≤ sensOf r x.hi) ⟨false, true, b.fmt b.upper⟩ x.vk)
            (b.log (b.upper / val) ≤ b.logtol) ⟨true, true, b.fmt b.upper⟩ x.vk, ?_, ?_, ?_⟩
    · rw [if_pos h2, hs]
      simp only
      rw [if_neg hpos.ne']
    · exact (o1.addIf _ _ _).addIf _ _ _
    · intro lab
      rw [get?_addIf2 _ _ _ _ _ _ _ ?_, g1]
      · have hl := hup h2
        rcases lab with ⟨_ | _, _ | _, n⟩ <;> simp [AtBound, h2, hl] <;> congr
      · intro hu
        rw [g1, hu]
        simpa using hnew lab

open Classical in
theorem boundedOut_ok {b : Bounder ℝ} (hlog : b.log = Real.log) (hlo : 0 ≤ b.lower) (hhi : 0 ≤ b.upper) {r : Res ι V ℝ} {pt : V → ℝ} :
    ∀ (xs : List (BVar ι V)) (out : PyDict Label (List V)), OutOK out → (xs.map (·.vk)).Nodup →
      (∀ x ∈ xs, r.vars.get? x.vk = some (pt x.vk) ∧ 0 < pt x.vk) → (∀ x ∈ xs, ∀ lab, x.vk ∉ (out.get? lab).getD []) →
    ∃ out', xs.foldlM (checkOne b r) out = .ok out' ∧ OutOK out' ∧ ∀ lab, (out'.get? lab).getD [] = (out.get? lab).getD [] ++
      (xs.filter (fun x => AtBound b (pt x.vk) (sensOf r x.lo) (sensOf r x.hi) lab)).map (·.vk) := by
  intro xs
  induction xs with
  | nil => intro out ho _ _ _; exact ⟨out, rfl, ho, by simp⟩
  | cons x xs ih =>
    intro out ho hnd hv hnew
    obtain ⟨out1, h1, o1, g1⟩ := checkOne_ok hlog hlo hhi ho (hv x List.mem_cons_self).1 (hv x List.mem_cons_self).2 (hnew x List.mem_cons_self)
    rw [List.map_cons, List.nodup_cons] at hnd
    obtain ⟨out2, h2, o2, g2⟩ := ih out1 o1 hnd.2 (fun y hy => hv y (List.mem_cons_of_mem _ hy)) (by
      intro y hy lab
      rw [g1]
      have := hnew y (List.mem_cons_of_mem _ hy) lab
      have hne : y.vk ≠ x.vk := fun h => hnd.1 (h ▸ List.mem_map_of_mem hy)
      split_ifs <;> simp [this, hne])
    refine ⟨out2, ?_, o2, ?_⟩
    · rw [List.foldlM_cons, h1]; exact h2
    · intro lab
      rw [g2, g1]
      by_cases h : AtBound b (pt x.vk) (sensOf r x.lo) (sensOf r x.hi) lab
      · rw [if_pos h, List.filter_cons_of_pos (by simpa using h)]; simp
      · rw [if_neg h, List.filter_cons_of_neg (by simpa using h)]; simp

theorem foldl_append (r : Res ι V ℝ) (out : List (Label × List V)) :
    (out.foldl (fun r p => append r "Arbitrarily Bounded Variables" (.bound p.1 p.2)) r).vars = r.vars ∧
    (out.foldl (fun r p => append r "Arbitrarily Bounded Variables" (.bound p.1 p.2)) r).sens = r.sens ∧
    (out.foldl (fun r p => append r "Arbitrarily Bounded Variables" (.bound p.1 p.2)) r).bounded = r.bounded ∧
    ∀ cat, notes (out.foldl (fun r p => append r "Arbitrarily Bounded Variables" (.bound p.1 p.2)) r) cat =
      notes r cat ++ (if cat = "Arbitrarily Bounded Variables" then out.map (fun p => .bound p.1 p.2) else []) := by
  induction out generalizing r with
  | nil => simp
  | cons p out ih =>
    obtain ⟨h1, h2, h3, h4⟩ := ih (append r "Arbitrarily Bounded Variables" (.bound p.1 p.2))
    rw [List.foldl_cons]
    refine ⟨h1, h2, h3, ?_⟩
    intro cat
    rw [h4, notes_append]
    split_ifs <;> simp

theorem get?_dictUpdate (d e : PyDict Label (List V)) (he : WF e) (k : Label) : (dictUpdate d e).get? k = (e.get? k).or (d.get? k) := by
  unfold dictUpdate
  induction e generalizing d with
  | nil => simp
  | cons p e ih =>
    rw [List.foldl_cons]
    obtain ⟨a, v⟩ := p
    obtain ⟨w1, w2⟩ := wf_cons.1 he
    rw [ih _ w2, get?_set, get?_cons]
    by_cases h : (a == k) = true
    · have hk : a = k := by simpa using h
      subst hk
      have : PyDict.get? e a = none := get?_eq_none_iff.2 (fun q hq => by
        have := w1 q hq
        first | exact this | (rw [BEq.comm]; exact this))
      simp [this]
    · simp [h]

open Classical in
/-- C46. `Bounded` adds one warning for each of its four kinds of trouble that some variable has, naming exactly the variables that have it; the same lists enter
`boundedness`; earlier warnings and the rest of the result stay. -/
theorem C46_bounded {b : Bounder ℝ} (hlog : b.log = Real.log) (hlo : 0 ≤ b.lower) (hhi : 0 ≤ b.upper) {r : Res ι V ℝ} {pt : V → ℝ}
    {xs : List (BVar ι V)} (hnd : (xs.map (·.vk)).Nodup) (hv : ∀ x ∈ xs, r.vars.get? x.vk = some (pt x.vk) ∧ 0 < pt x.vk) :
    ∃ r', ∃ out : List (Label × List V), bounded b xs r = .ok r' ∧ r'.vars = r.vars ∧ r'.sens = r.sens ∧
      (∀ cat, notes r' cat = notes r cat ++ (if cat = "Arbitrarily Bounded Variables" then out.map (fun p => .bound p.1 p.2) else [])) ∧
      (out.map (·.1)).Nodup ∧
      (∀ lab vs, (lab, vs) ∈ out ↔ vs ≠ [] ∧ vs = (xs.filter (fun x => AtBound b (pt x.vk) (sensOf r x.lo) (sensOf r x.hi) lab)).map (·.vk)) ∧
      (∀ p ∈ out, (r'.bounded.getD []).get? p.1 = some p.2) ∧
      ∀ lab, lab ∉ out.map (·.1) → (r'.bounded.getD []).get? lab = (r.bounded.getD []).get? lab := by
  obtain ⟨out, h1, o1, g1⟩ := boundedOut_ok hlog hlo hhi (r := r) (pt := pt) xs [] ⟨wf_nil, by simp⟩ hnd hv (by simp)
  obtain ⟨f1, f2, f3, f4⟩ := foldl_append r out
  refine ⟨{ out.foldl (fun r p => append r "Arbitrarily Bounded Variables" (.bound p.1 p.2)) r with
      bounded := some (dictUpdate (r.bounded.getD []) out) }, out, ?_, f1, f2, f4, ?_, ?_, ?_, ?_⟩
  · unfold bounded boundedOut
    rw [h1]
    show Except.ok _ = _
    rw [f3]
  · have hp : (out.map (·.1)).Pairwise (fun a b => (a == b) = false) := List.pairwise_map.2 o1.1
    refine hp.imp ?_
    intro a b hab h2
    rw [h2] at hab; simp at hab
  · intro lab vs
    have hg := g1 lab
    simp only [get?_nil, Option.getD_none, List.nil_append] at hg
    rw [← hg]
    constructor
    · intro hm
      have := get?_of_mem o1.1 hm
      exact ⟨o1.2 lab vs this, by rw [this]; rfl⟩
    · rintro ⟨hne, he⟩
      cases hk : out.get? lab with
      | none => rw [hk] at he; exact (hne he).elim
      | some ws =>
        rw [hk] at he
        obtain ⟨k', hm, hb⟩ := exists_mem_of_get? hk
        have : k' = lab := by simpa using hb
        rw [he, ← this]; exact hm
  · intro p hp
    show (dictUpdate (r.bounded.getD []) out).get? p.1 = _
    rw [get?_dictUpdate _ _ o1.1, get?_of_mem o1.1 hp]
    rfl
  · intro lab hlab
    show (dictUpdate (r.bounded.getD []) out).get? lab = _
    rw [get?_dictUpdate _ _ o1.1]
    cases hk : out.get? lab with
    | none => rfl
    | some ws =>
      obtain ⟨k', hm, hb⟩ := exists_mem_of_get? hk
      have : k' = lab := by simpa using hb
      exact (hlab (this ▸ List.mem_map_of_mem (f := Prod.fst) hm)).elim

/-- C46. A tolerance the user gives is used, unless it is zero; without one it is the default. -/
theorem C46_tolerance_partial (given : Option ℝ) (dflt : ℝ) (h : given ≠ some 0) : orDefault given dflt = given.getD dflt := by
  unfold orDefault
  cases given with
  | none => rfl
  | some t => simp only [Option.getD_some]; rw [if_neg (fun h2 => h (by rw [h2]))]

/-- C46. The bounds of `Bounded` are the given ones; those left out are `eps` and `1/eps`. -/
theorem C46_bounds {eps : ℝ} (he : 0 < eps) {lower upper : Option ℝ} (hl : ∀ x ∈ lower, x ≠ 0) (hu : ∀ x ∈ upper, x ≠ 0) :
    boundsOf eps lower upper = .ok (lower.getD eps, upper.getD (1 / eps)) := by
  have h1 : orDefault lower eps = lower.getD eps := C46_tolerance_partial _ _ (fun h => hl 0 (by rw [h]; rfl) rfl)
  unfold boundsOf
  rw [h1]
  cases upper with
  | none => simp [he.ne']
  | some u => simp [hu u rfl]

end

/-! ## Findings -/

/-- C46 is violated: with `reltol=0` a constraint whose sides differ is not reported, since the zero is replaced by the default. -/
theorem C46_zero_tolerance_fails :
    ∃ (c : Con Unit Unit ℝ ℤ) (r : Res Unit Unit ℝ), Judged r.vars (fun _ => 1) c ∧ physVal (fun _ => 1) c.left ≠ physVal (fun _ => 1) c.right ∧
      tight (orDefault (some 0) (1 / 1000)) [c] r = .ok r := by
  have hs : ∀ x : ℝ, x ≠ 0 → SideOK (⟨[(HV.empty, x)], none⟩ : NMap Unit ℝ ℤ) := by
    intro x hx
    refine ⟨Or.inl ⟨⟨?_, by simp⟩, by simp⟩, by simp [UnitOK, unitScale]⟩
    intro t ht
    simp only [List.mem_singleton] at ht
    subst ht
    exact ⟨by simp [ExpCanonical, HV.empty], hx⟩
  have hv : ∀ x : ℝ, varlocs ([(HV.empty, x)] : PyDict (HV Unit ℝ) ℝ) ([] : PyDict Unit ℝ) = [] := by
    intro x; simp [varlocs, varlocKeys, HV.empty, PyDict.keys]
  have hj : Judged ([] : PyDict Unit ℝ) (fun _ => 1) (⟨(), ⟨[(HV.empty, 10001 / 10000)], none⟩, ⟨[(HV.empty, 1)], none⟩, [], []⟩ : Con Unit Unit ℝ ℤ) := by
    refine ⟨hs _ (by norm_num), hs _ (by norm_num), ?_, ?_, ?_, ?_, rfl, ?_⟩
    · rw [hv]; exact List.Forall₂.nil
    · rw [hv]; exact List.Forall₂.nil
    · intro t ht v x hx
      simp only [List.mem_singleton] at ht
      subst ht
      simp [HV.empty, HV.get?] at hx
    · intro t ht v x hx
      simp only [List.mem_singleton] at ht
      subst ht
      simp [HV.empty, HV.get?] at hx
    · simp [physVal, termsVal, monVal, unitScale, HV.empty]
  refine ⟨⟨(), ⟨[(HV.empty, 10001 / 10000)], none⟩, ⟨[(HV.empty, 1)], none⟩, [], []⟩, ⟨[], [], none, none⟩, hj, ?_, ?_⟩
  · simp [physVal, termsVal, monVal, unitScale, HV.empty]; norm_num
  · unfold tight
    rw [List.foldlM_cons, tightStep_ok (pt := fun _ => 1) (by simp) hj, if_neg]
    · rfl
    · simp only [IsLoose, orDefault, physVal, termsVal, monVal, unitScale, HV.empty]
      norm_num [abs_of_pos]

/-- C46 is violated: `Tight` raises when the right side is zero at the solution, whatever the left side is. -/
theorem C46_zero_side_fails {V D : Type} [DecidableEq V] [AddCommGroup D] [DecidableEq D] (tol x : ℝ) (r : Res Unit V ℝ) (hr : r.vars = []) :
    tight tol [(⟨(), ⟨[(HV.empty, x)], none⟩, ⟨[(HV.empty, 0)], none⟩, [], []⟩ : Con Unit V ℝ D)] r = .error .zeroDivision := by
  have h : ∀ x : ℝ, sideValue (⟨[(HV.empty, x)], none⟩ : NMap V ℝ D) [] [] = .ok x := by
    intro x
    simp [sideValue, NMap.sub, subState, HV.empty, bind, Except.bind, pure, Except.pure]
  unfold tight tightStep
  rw [List.foldlM_cons, hr]
  simp only [h, bind, Except.bind, if_true]

/-- C46 is violated: of several solver inequalities made from one constraint, as for a signomial equality, only the last one's sensitivity is kept, so `Loose`
stays silent about the others. -/
theorem C46_sens_fails {V : Type} [DecidableEq V] (tol la : ℝ) (htol : 0 < tol) (hla : tol ≤ |la|) :
    ∃ (l : List (Unit × ℝ)) (r : Res Unit V ℝ), ((), la) ∈ l ∧ tol ≤ |la| ∧ r.sens = compileSens l ∧ loose tol false [()] r = (false, r) := by
  refine ⟨[((), la), ((), 0)], ⟨[], compileSens [((), la), ((), 0)], none, none⟩, by simp, hla, rfl, ?_⟩
  simp only [loose, looseStep, compileSens, List.foldl_cons, List.foldl_nil, PyDict.set]
  simp [PyDict.get?, htol]

/-- C46 is violated: two `Bounded` sets with the same bounds. The variable that the first one found does not stay in `boundedness`. -/
theorem C46_boundedness_fails :
    ∃ (b : Bounder ℝ) (x y : BVar ℕ Bool) (r r1 r2 : Res ℕ Bool ℝ), bounded b [x] r = .ok r1 ∧ bounded b [y] r1 = .ok r2 ∧
      (r1.bounded.getD []).get? ⟨true, false, b.fmt b.lower⟩ = some [x.vk] ∧ (r2.bounded.getD []).get? ⟨true, false, b.fmt b.lower⟩ = some [y.vk] ∧ x.vk ≠ y.vk := by
  classical
  have key : ∀ (v : Bool) (n : ℕ) (r : Res ℕ Bool ℝ), r.vars = [(false, 1), (true, 1)] →
      ∃ r', bounded ⟨1, 1000, 1, 3, Real.log, fun _ => "1"⟩ [⟨v, n, n⟩] r = .ok r' ∧ r'.vars = r.vars ∧
        (r'.bounded.getD []).get? ⟨true, false, "1"⟩ = some [v] := by
    intro v n r hr
    obtain ⟨r', out, h1, h2, _, _, _, h5, h6, _⟩ := C46_bounded (ι := ℕ) (b := ⟨1, 1000, 1, 3, Real.log, fun _ => "1"⟩) rfl (by norm_num) (by norm_num)
      (r := r) (pt := fun _ => 1) (xs := [⟨v, n, n⟩]) (by simp) (by rw [hr]; cases v <;> simp [PyDict.get?])
    refine ⟨r', h1, h2, h6 (⟨true, false, "1"⟩, [v]) ((h5 _ _).2 ⟨by simp, ?_⟩)⟩
    rw [List.filter_cons_of_pos]
    · rfl
    · simp [AtBound]
  obtain ⟨r1, a1, a2, a3⟩ := key false 0 ⟨[(false, 1), (true, 1)], [], none, none⟩ rfl
  obtain ⟨r2, b1, b2, b3⟩ := key true 1 r1 a2
  exact ⟨_, _, _, _, r1, r2, a1, b1, a3, b3, by simp⟩

/-! ## The hypotheses can be met -/

example := C46_loose (ι := ℕ) (V := Unit) (tol := 1) (r := ⟨[], [(3, 2), (4, 1 / 2)], none, none⟩) (cons := [3, 4])

example := C46_bounded (ι := ℕ) (V := Bool) (b := ⟨1, 1000, 1 / 10, 3, Real.log, fun x => if x = 1 then "1" else "1e+03"⟩) rfl (by norm_num) (by norm_num)
  (r := ⟨[(false, 2), (true, 900)], [(0, 1), (3, 2)], none, none⟩) (pt := fun v => if v then 900 else 2) (xs := [⟨false, 0, 1⟩, ⟨true, 2, 3⟩])
  (by simp) (by simp [PyDict.get?])

/-- `x*y` in units of size 1000 against `2000*x`, at x = 3, y = 2: judged, and tight. -/
def tightExample : Con Unit Bool ℝ ℤ :=
  ⟨(), ⟨[(⟨[(true, 1), (false, 1)]⟩, 1)], some ⟨1, 1000⟩⟩, ⟨[(⟨[(true, 1)]⟩, 2000)], some ⟨1, 1⟩⟩, [(true, [⟨[(true, 1), (false, 1)]⟩]), (false, [⟨[(true, 1), (false, 1)]⟩])],
    [(true, [⟨[(true, 1)]⟩])]⟩

example : Judged [(true, 3), (false, 2)] (fun v => if v then 3 else 2) tightExample := by
  refine ⟨⟨Or.inl ⟨⟨?_, by simp [tightExample]⟩, by simp [tightExample]⟩, by simp [UnitOK, unitScale, tightExample]⟩,
    ⟨Or.inl ⟨⟨?_, by simp [tightExample]⟩, by simp [tightExample]⟩, by simp [UnitOK, unitScale, tightExample]⟩, ?_, ?_, ?_, ?_, rfl, ?_⟩
  · simp [tightExample, ExpCanonical]
  · simp [tightExample, ExpCanonical]
  · simp [tightExample, varlocs, varlocKeys, SetOrder, PyDict.keys, PyDict.contains, PyDict.get?]
  · simp [tightExample, varlocs, varlocKeys, SetOrder, PyDict.keys, PyDict.contains, PyDict.get?]
  · intro t _ v _ _; cases v <;> simp [PyDict.contains, PyDict.get?]
  · intro t _ v _ _; cases v <;> simp [PyDict.contains, PyDict.get?]
  · simp [physVal, termsVal, monVal, unitScale, tightExample]

end Verif
