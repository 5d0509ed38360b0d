import Verif.Props.SensDual
import Verif.Props.Pipeline
import Verif.Model.Shadow
import Verif.Spec.Shadow

/-! Bounds on the parts of the dual cost that belong to one posynomial, for C77. -/

set_option linter.unusedSectionVars false

namespace Verif
open PyDict GP Pipeline

section
variable {V : Type} [DecidableEq V]

/-- The part of one posynomial in the dual cost, together with the terms of the point. -/
noncomputable def blockVal (nus : List ℝ) (ts : PyDict (HV V ℝ) ℝ) (pt : V → ℝ) : ℝ :=
  ((nus.zip ts).map (fun p => p.1 * (Real.log (p.2.2 * monVal pt p.2.1.items) - Real.log (p.1 / nus.sum)))).sum

/-- The sum of the sensitivities of all constants, each times the change of the logarithm of the constant. -/
noncomputable def shift (fixed : PyDict V ℝ) (pt : V → ℝ) (S : V → ℝ) : ℝ :=
  (fixed.map (fun p => S p.1 * (Real.log (pt p.1) - Real.log p.2))).sum

theorem shift_add (fixed : PyDict V ℝ) (pt : V → ℝ) (S T : V → ℝ) : shift fixed pt (fun v => S v + T v) = shift fixed pt S + shift fixed pt T := by
  unfold shift
  rw [← List.sum_map_add]
  congr 1
  apply List.map_congr_left
  intro p _
  ring

theorem shift_zero (fixed : PyDict V ℝ) (pt : V → ℝ) : shift fixed pt (fun _ => 0) = 0 := by
  unfold shift
  simp

theorem shift_smul (fixed : PyDict V ℝ) (pt : V → ℝ) (a : ℝ) (S : V → ℝ) : shift fixed pt (fun v => a * S v) = a * shift fixed pt S := by
  unfold shift
  rw [← List.sum_map_mul_left]
  congr 1
  apply List.map_congr_left
  intro p _
  ring

theorem shift_sum {α : Type} (fixed : PyDict V ℝ) (pt : V → ℝ) (S : α → V → ℝ) : ∀ l : List α,
    shift fixed pt (fun v => (l.map (fun a => S a v)).sum) = (l.map (fun a => shift fixed pt (S a))).sum
  | [] => by simpa using shift_zero fixed pt
  | a :: l => by
    simp only [List.map_cons, List.sum_cons]
    rw [shift_add fixed pt (S a), shift_sum fixed pt S l]

theorem shift_congr {fixed : PyDict V ℝ} {pt : V → ℝ} {S T : V → ℝ} (h : ∀ v, S v = T v) : shift fixed pt S = shift fixed pt T := by
  have : S = T := funext h
  rw [this]

theorem log_monVal {pt : V → ℝ} (hpt : ∀ v, 0 < pt v) (e : List (V × ℝ)) : Real.log (monVal pt e) = (e.map (fun p => p.2 * Real.log (pt p.1))).sum := by
  rw [← exp_expDot pt hpt, Real.log_exp]
  rfl

/-- The logarithm of a monomial and its value with the constants put in. -/
theorem log_mon_override {pt : V → ℝ} (hpt : ∀ v, 0 < pt v) {fixed : PyDict V ℝ} (hwf : WF fixed) (hfix : ∀ v c, fixed.get? v = some c → 0 < c)
    {e : PyDict V ℝ} (he : WF e) :
    Real.log (monVal pt e) = Real.log (monVal (override pt fixed) e) + shift fixed pt (fun v => (e.get? v).getD 0) := by
  have ho : ∀ v, 0 < override pt fixed v := by
    intro v
    unfold override
    cases hg : fixed.get? v with
    | none => exact hpt v
    | some c => exact hfix v c hg
  rw [log_monVal hpt, log_monVal ho]
  set d : V → ℝ := fun v => Real.log (pt v) - Real.log (override pt fixed v) with hd
  have hsh : ∀ S : V → ℝ, shift fixed pt S = (fixed.map (fun p => S p.1 * d p.1)).sum := by
    intro S
    unfold shift
    congr 1
    apply List.map_congr_left
    intro p hp
    have : override pt fixed p.1 = p.2 := by
      unfold override
      rw [get?_of_mem hwf hp]; rfl
    rw [hd]
    simp only [this]
  have hd0 : ∀ v, fixed.get? v = none → d v = 0 := by
    intro v hv
    rw [hd]
    simp [override, hv]
  have hone : ∀ (k : V) (y : ℝ) (l : PyDict V ℝ), WF l → (l.map (fun p => if k = p.1 then y else 0)).sum = if (l.get? k).isSome then y else 0 := by
    intro k y l
    induction l with
    | nil => intro _; simp
    | cons p l ih =>
      intro hw
      obtain ⟨h1, h2⟩ := wf_cons.1 hw
      rw [List.map_cons, List.sum_cons, ih h2, get?_cons]
      by_cases hk : k = p.1
      · subst hk
        have : PyDict.get? l p.1 = none := get?_eq_none_iff.2 (fun q hq => by rw [BEq.comm]; exact h1 q hq)
        simp [this]
      · have : ¬ (p.1 == k) = true := by simpa using Ne.symm hk
        rw [if_neg hk, if_neg this, zero_add]
  rw [hsh]
  clear hsh
  induction e with
  | nil => simp
  | cons q e ih =>
    obtain ⟨k, x⟩ := q
    obtain ⟨h1, h2⟩ := wf_cons.1 he
    have ih := ih h2
    have hsplit : (fixed.map (fun p => (PyDict.get? ((k, x) :: e) p.1).getD 0 * d p.1)).sum =
        (fixed.map (fun p => if k = p.1 then x * d k else 0)).sum + (fixed.map (fun p => (PyDict.get? e p.1).getD 0 * d p.1)).sum := by
      rw [← List.sum_map_add]
      congr 1
      apply List.map_congr_left
      intro p _
      rw [get?_cons]
      by_cases hk : k = p.1
      · have : PyDict.get? e p.1 = none := get?_eq_none_iff.2 (fun q hq => by rw [BEq.comm, ← hk]; exact h1 q hq)
        rw [this]
        simp [hk]
      · simp [hk]
    rw [hsplit, hone k _ fixed hwf]
    simp only [List.map_cons, List.sum_cons]
    rw [ih]
    have : (if (fixed.get? k).isSome then x * d k else 0) = x * Real.log (pt k) - x * Real.log (override pt fixed k) := by
      cases hg : fixed.get? k with
      | none =>
        have := hd0 k hg
        simp only [Option.isSome_none, Bool.false_eq_true, if_false]
        rw [hd] at this
        simp only at this
        rw [← mul_sub, this, mul_zero]
      | some c => simp [hd, mul_sub]
    rw [this]
    ring

/-- A list of numbers is the image of a list without repetitions. -/
theorem exists_map_eq {α : Type} [DecidableEq α] : ∀ (l : List α) (xs : List ℝ), l.Nodup → xs.length = l.length → ∃ F : α → ℝ, xs = l.map F
  | [], [], _, _ => ⟨fun _ => 0, rfl⟩
  | [], _ :: _, _, h => by simp at h
  | _ :: _, [], _, h => by simp at h
  | a :: l, x :: xs, hn, h => by
    obtain ⟨h1, h2⟩ := List.nodup_cons.1 hn
    obtain ⟨F, hF⟩ := exists_map_eq l xs h2 (by simpa using h)
    refine ⟨fun b => if b = a then x else F b, ?_⟩
    rw [List.map_cons, if_pos rfl, hF]
    congr 1
    apply List.map_congr_left
    intro b hb
    have : b ≠ a := fun hba => h1 (hba ▸ hb)
    rw [if_neg this]

theorem zip_map_left' {α β : Type} (l : List α) (F : α → β) : (l.map F).zip l = l.map (fun a => (F a, a)) := by
  induction l with
  | nil => rfl
  | cons a l ih => simp [ih]

/-- The weights of the terms before substitution add up to those after it, group by group. -/
theorem sum_swap (w : HV V ℝ × ℝ → ℝ) (vs : List V) (G : HV V ℝ × ℝ → ℝ) (h : PyDict (HV V ℝ) ℝ) : ∀ cp : PyDict (HV V ℝ) ℝ,
    (h.map (fun t => ((cp.filter (fun u => strip vs t.1 == u.1)).map (fun u => w t / u.2 * G u)).sum)).sum =
      (cp.map (fun u => ((h.filter (fun t => strip vs t.1 == u.1)).map w).sum / u.2 * G u)).sum
  | [] => by simp
  | u :: cp => by
    rw [List.map_cons, List.sum_cons, ← sum_swap w vs G h cp]
    have : ∀ l : PyDict (HV V ℝ) ℝ, ((l.filter (fun t => strip vs t.1 == u.1)).map w).sum / u.2 * G u =
        (l.map (fun t => if strip vs t.1 == u.1 then w t / u.2 * G u else 0)).sum := by
      intro l
      induction l with
      | nil => simp
      | cons t l ih =>
        rw [List.filter_cons, List.map_cons, List.sum_cons, ← ih]
        by_cases hb : (strip vs t.1 == u.1) = true
        · simp only [hb, if_true, List.map_cons, List.sum_cons]; ring
        · simp [hb]
    rw [this h, ← List.sum_map_add]
    congr 1
    apply List.map_congr_left
    intro t _
    rw [List.filter_cons]
    by_cases hb : (strip vs t.1 == u.1) = true
    · simp [hb]
    · simp [hb]

/-- Weights on the merged terms, carried back to the original ones: Gibbs' inequality for the original posynomial at any point. -/
theorem Shared.gibbs {h : PyDict (HV V ℝ) ℝ} {fixed : PyDict V ℝ} {s : SubState V ℝ} {w : HV V ℝ × ℝ → ℝ} (hc : TermsCanonical h)
    (hs : Shared h fixed s w) (hpos : ∀ t ∈ h, 0 < t.2) (hwf : WF fixed) (hfix : ∀ v c, fixed.get? v = some c → 0 < c)
    (F : HV V ℝ × ℝ → ℝ) (hF : ∀ u ∈ s.cp, 0 ≤ F u) {pt : V → ℝ} (hpt : ∀ v, 0 < pt v) {L : ℝ} (hL : (s.cp.map F).sum = L) :
    (s.cp.map (fun u => F u * (Real.log (u.2 * monVal pt u.1.items) - Real.log (F u / L)))).sum +
      shift fixed pt (fun v => (h.map (fun t => ((s.cp.filter (fun u => strip (varlocKeys h fixed) t.1 == u.1)).map (fun u => w t / u.2 * F u)).sum * expo t.1 v)).sum) ≤
      L * Real.log (termsVal pt h) := by
  have hw' : ∀ t ∈ h, WF t.1.items := fun t ht => ((expCanonical_iff _).1 (hc.1 t ht).1).1
  have hcw := ((termsCanonical_iff _).1 hs.canon).1
  set vs := varlocKeys h fixed with hvs
  set N : HV V ℝ × ℝ → ℝ := fun t => ((s.cp.filter (fun u => strip vs t.1 == u.1)).map (fun u => w t / u.2 * F u)).sum with hN
  have hone : ∀ t ∈ h, ∃ u ∈ s.cp, s.cp.filter (fun u => strip vs t.1 == u.1) = [u] ∧ (strip vs t.1 == u.1) = true := by
    intro t ht
    obtain ⟨c, hcc⟩ := contains_iff.1 (hs.k t ht)
    obtain ⟨u, hu1, hu2, hu3⟩ := filter_key hcw hcc
    refine ⟨u, ?_, hu1, hu2⟩
    have : u ∈ s.cp.filter (fun u => strip vs t.1 == u.1) := by rw [hu1]; simp
    exact List.mem_of_mem_filter this
  have hN0 : ∀ t ∈ h, 0 ≤ N t := by
    intro t ht
    obtain ⟨u, hu, hu1, -⟩ := hone t ht
    rw [hN]
    simp only [hu1, List.map_cons, List.map_nil, List.sum_cons, List.sum_nil, add_zero]
    exact mul_nonneg (div_pos (hs.ok t ht).1 (hs.pos u hu)).le (hF u hu)
  have hcoef : ∀ (G : HV V ℝ × ℝ → ℝ), (h.map (fun t => ((s.cp.filter (fun u => strip vs t.1 == u.1)).map (fun u => w t / u.2 * G u)).sum)).sum = (s.cp.map G).sum := by
    intro G
    rw [sum_swap]
    congr 1
    apply List.map_congr_left
    intro u hu
    rw [← hs.coef hc hu, div_self (hs.pos u hu).ne', one_mul]
  have hNs : (h.map N).sum = L := by rw [← hL, ← hcoef F]
  have hg := GP.gibbs h N (fun t => t.2 * monVal pt t.1.items) hN0 (fun t ht => mul_pos (hpos t ht) (monVal_pos hpt _)) L hNs
  refine le_trans (le_of_eq ?_) hg
  have hsh : shift fixed pt (fun v => (h.map (fun t => N t * expo t.1 v)).sum) = (h.map (fun t => N t * shift fixed pt (fun v => expo t.1 v))).sum := by
    rw [shift_sum]
    congr 1
    apply List.map_congr_left
    intro t _
    rw [shift_smul]
  rw [hsh, ← hcoef (fun u => F u * (Real.log (u.2 * monVal pt u.1.items) - Real.log (F u / L))), ← List.sum_map_add]
  congr 1
  apply List.map_congr_left
  intro t ht
  obtain ⟨u, hu, hu1, hu2⟩ := hone t ht
  have hNt : N t = w t / u.2 * F u := by rw [hN]; simp [hu1]
  rw [hNt, hu1]
  simp only [List.map_cons, List.map_nil, List.sum_cons, List.sum_nil, add_zero]
  by_cases h0 : F u = 0
  · rw [h0]; simp
  have hFu : 0 < F u := lt_of_le_of_ne (hF u hu) (Ne.symm h0)
  have hu0 := hs.pos u hu
  have hwt := (hs.ok t ht).1
  have hval := (hs.ok t ht).2 (override pt fixed) (override_agrees pt fixed)
  rw [monVal_strip_override ht (hw' t ht), monVal_perm (HV.beq_iff.1 hu2)] at hval
  have hmu := monVal_pos hpt u.1.items
  have ho : ∀ v, 0 < override pt fixed v := by
    intro v
    unfold override
    cases hg : fixed.get? v with
    | none => exact hpt v
    | some c => exact hfix v c hg
  have hmt := monVal_pos ho t.1.items
  have hmt' := monVal_pos hpt t.1.items
  have hL0 : 0 < L := by
    have hle : F u ≤ L := by
      rw [← hL]
      exact List.single_le_sum (by intro x hx; obtain ⟨q, hq, rfl⟩ := List.mem_map.1 hx; exact hF q hq) _ (List.mem_map.2 ⟨u, hu, rfl⟩)
    linarith
  have h1 : Real.log (t.2 * monVal pt t.1.items) = Real.log (w t * monVal pt u.1.items) + shift fixed pt (fun v => expo t.1 v) := by
    rw [hval, Real.log_mul (hpos t ht).ne' hmt'.ne', Real.log_mul (hpos t ht).ne' hmt.ne', log_mon_override hpt hwf hfix (hw' t ht)]
    unfold expo HV.get?
    ring
  rw [h1, Real.log_mul hwt.ne' hmu.ne', Real.log_mul hu0.ne' hmu.ne', Real.log_div hFu.ne' hL0.ne',
    Real.log_div (mul_pos (div_pos hwt hu0) hFu).ne' hL0.ne', Real.log_mul (div_pos hwt hu0).ne' hFu.ne', Real.log_div hwt.ne' hu0.ne']
  ring

/-- The bound for one inequality: the part of its form in the dual cost, and the reported sensitivities times the changes of the constants, at any point. -/
theorem Formed.gibbs {h : PyDict (HV V ℝ) ℝ} {fixed : PyDict V ℝ} {s : SubState V ℝ} {w : HV V ℝ × ℝ → ℝ} {m0 m : Memo ℝ} {ts : PyDict (HV V ℝ) ℝ}
    (hc : TermsCanonical h) (hs : Shared h fixed s w) (hm0 : m0.constMmap = none) (hf : Formed h fixed s.cp w m0 m ts) (hne : ts ≠ [])
    (hpos : ∀ t ∈ h, 0 < t.2) (hwf : WF fixed) (hfix : ∀ v c, fixed.get? v = some c → 0 < c) {nus : List ℝ} (hlen : nus.length = ts.length)
    (hnu : ∀ x ∈ nus, 0 ≤ x) :
    ∃ L, 0 ≤ L ∧ (L = nus.sum ∨ s.cp.get? HV.empty ≠ none) ∧ ∀ pt : V → ℝ, (∀ v, 0 < pt v) →
      blockVal nus ts pt + shift fixed pt (sensAt (sensFromDual h m nus.sum nus).1) ≤ L * Real.log (termsVal pt h) := by
  classical
  have hw' : ∀ t ∈ h, WF t.1.items := fun t ht => ((expCanonical_iff _).1 (hc.1 t ht).1).1
  have hcw := ((termsCanonical_iff _).1 hs.canon).1
  have hnd : ∀ l : PyDict (HV V ℝ) ℝ, WF l → l.Nodup := by
    intro l hl
    refine hl.imp ?_
    intro a b hab heq
    rw [heq] at hab
    simp at hab
  have hla0 : 0 ≤ nus.sum := List.sum_nonneg hnu
  rcases hf.parts with ⟨h1, h2, h3⟩ | ⟨k, c, h1, h2, h3, h4, h5, h6⟩
  · subst h2
    obtain ⟨F, hF⟩ := exists_map_eq s.cp nus (hnd _ hcw) hlen
    have hF0 : ∀ u ∈ s.cp, 0 ≤ F u := fun u hu => hnu _ (by rw [hF]; exact List.mem_map.2 ⟨u, hu, rfl⟩)
    refine ⟨nus.sum, hla0, .inl rfl, fun pt hpt => ?_⟩
    have hg := hs.gibbs hc hpos hwf hfix F hF0 hpt (L := nus.sum) (by rw [hF])
    have hlift : liftNu h m nus.sum nus = h.map (fun t => ((s.cp.filter (fun u => strip (varlocKeys h fixed) t.1 == u.1)).map (fun u => w t / u.2 * F u)).sum) := by
      unfold liftNu
      rw [h3]
      simp only [hm0]
      have h7 := fold_addShares w (varlocKeys h fixed) h F s.cp (fun _ => 0)
      conv_lhs => rw [hF]
      rw [h7]
      simp only [zero_add]
    have hsens : ∀ v, sensAt (sensFromDual h m nus.sum nus).1 v = (h.map (fun t => ((s.cp.filter (fun u => strip (varlocKeys h fixed) t.1 == u.1)).map
        (fun u => w t / u.2 * F u)).sum * expo t.1 v)).sum := by
      intro v
      show sensAt (sensOfNu h (liftNu h m nus.sum nus)) v = _
      rw [hlift, sensAt_sensOfNu hw']
    rw [shift_congr hsens]
    have hb : blockVal nus s.cp pt = (s.cp.map (fun u => F u * (Real.log (u.2 * monVal pt u.1.items) - Real.log (F u / nus.sum)))).sum := by
      unfold blockVal
      generalize nus.sum = L
      rw [hF, zip_map_left', List.map_map]
      rfl
    rw [hb]
    exact hg
  · set cpd := s.cp.del HV.empty with hcpd
    have hcp0 : ∀ u ∈ cpd, u ∈ s.cp := fun u hu => (del_sublist _ _).subset hu
    have hc1 : 0 < 1 - c := by
      obtain ⟨t, ht⟩ := List.exists_mem_of_ne_nil _ hne
      have ht0 := hf.pos t ht
      rw [h4] at ht
      obtain ⟨u, hu, rfl⟩ := List.mem_map.1 ht
      exact inv_pos.1 ((pos_iff_pos_of_mul_pos ht0).1 (hs.pos u (hcp0 u hu)))
    have hcpos : 0 < c := hs.pos (k, c) (h5.subset (by simp))
    have hk : k.items = [] := List.perm_nil.1 (HV.beq_iff.1 h2)
    have hdw : WF cpd := List.Pairwise.sublist (del_sublist _ _) hcw
    have hlen' : nus.length = cpd.length := by rw [hlen, h4]; simp [dictScale]
    obtain ⟨F, hF⟩ := exists_map_eq cpd nus (hnd _ hdw) hlen'
    have hkne : ∀ u ∈ cpd, u ≠ (k, c) := by
      intro u hu heq
      have hnd2 := (h5.nodup_iff).2 (hnd _ hcw)
      rw [List.nodup_append] at hnd2
      exact hnd2.2.2 u hu (k, c) (by simp) heq
    set G : HV V ℝ × ℝ → ℝ := fun u => if u = (k, c) then nus.sum * (c / (1 - c)) else F u with hG
    have hGk : G (k, c) = nus.sum * (c / (1 - c)) := by rw [hG]; simp
    have hGd : ∀ u ∈ cpd, G u = F u := by intro u hu; rw [hG]; simp [hkne u hu]
    have hmapG : ∀ (φ : ℝ → HV V ℝ × ℝ → ℝ), (s.cp.map (fun u => φ (G u) u)).sum = (cpd.map (fun u => φ (F u) u)).sum + φ (nus.sum * (c / (1 - c))) (k, c) := by
      intro φ
      rw [← (h5.map _).sum_eq, List.map_append, List.sum_append]
      simp only [List.map_cons, List.map_nil, List.sum_cons, List.sum_nil, add_zero, hGk]
      congr 2
      apply List.map_congr_left
      intro u hu
      rw [hGd u hu]
    have hG0 : ∀ u ∈ s.cp, 0 ≤ G u := by
      intro u hu
      rw [hG]
      simp only
      split
      · exact mul_nonneg hla0 (div_pos hcpos hc1).le
      · rename_i hn
        have : u ∈ cpd := by
          have := h5.symm.subset hu
          rw [List.mem_append, List.mem_singleton] at this
          exact this.resolve_right hn
        exact hnu _ (by rw [hF]; exact List.mem_map.2 ⟨u, this, rfl⟩)
    have hGs : (s.cp.map G).sum = nus.sum / (1 - c) := by
      have := hmapG (fun x _ => x)
      rw [this]
      have hFs : (cpd.map (fun u => F u)).sum = nus.sum := by rw [hF]
      rw [hFs]
      field_simp
      ring
    refine ⟨nus.sum / (1 - c), div_nonneg hla0 hc1.le, .inr (by rw [h1]; simp), fun pt hpt => ?_⟩
    have hg := hs.gibbs hc hpos hwf hfix G hG0 hpt hGs
    have hlift : liftNu h m nus.sum nus = h.map (fun t => ((s.cp.filter (fun u => strip (varlocKeys h fixed) t.1 == u.1)).map (fun u => w t / u.2 * G u)).sum) := by
      unfold liftNu
      rw [h6]
      simp only
      have h7 := fold_addShares w (varlocKeys h fixed) h F cpd (fun _ => 0)
      have h8 : ((cpd.map (shareList w (varlocKeys h fixed) h)).zip nus).foldl (fun acc sn => addShares acc sn.1 sn.2) (h.map (fun _ => 0)) =
          h.map (fun t => 0 + ((cpd.filter (fun u => strip (varlocKeys h fixed) t.1 == u.1)).map (fun u => w t / u.2 * F u)).sum) := by
        rw [hF]; exact h7
      rw [h8]
      have h9 := addShares_eq w (varlocKeys h fixed) (k, c) (nus.sum * ((1 - (1 - c)) / (1 - c)))
        (fun t => 0 + ((cpd.filter (fun u => strip (varlocKeys h fixed) t.1 == u.1)).map (fun u => w t / u.2 * F u)).sum) h []
      simp only [List.nil_append, List.length_nil] at h9
      refine Eq.trans h9 ?_
      apply List.map_congr_left
      intro t ht
      have hperm := ((h5.filter (fun u => strip (varlocKeys h fixed) t.1 == u.1)).map (fun u => w t / u.2 * G u)).sum_eq
      rw [← hperm, List.filter_append, List.map_append, List.sum_append, zero_add]
      congr 1
      · congr 1
        apply List.map_congr_left
        intro u hu
        rw [hGd u (List.mem_of_mem_filter hu)]
      · rw [List.filter_cons]
        by_cases hb : (strip (varlocKeys h fixed) t.1 == k) = true
        · simp only [hb, if_true, List.filter_nil, List.map_cons, List.map_nil, List.sum_cons, List.sum_nil, add_zero, hGk]
          ring
        · simp [hb]
    have hsens : ∀ v, sensAt (sensFromDual h m nus.sum nus).1 v = (h.map (fun t => ((s.cp.filter (fun u => strip (varlocKeys h fixed) t.1 == u.1)).map
        (fun u => w t / u.2 * G u)).sum * expo t.1 v)).sum := by
      intro v
      show sensAt (sensOfNu h (liftNu h m nus.sum nus)) v = _
      rw [hlift, sensAt_sensOfNu hw']
    rw [shift_congr hsens]
    have hb : blockVal nus ts pt = (s.cp.map (fun u => G u * (Real.log (u.2 * monVal pt u.1.items) - Real.log (G u / (nus.sum / (1 - c)))))).sum := by
      rw [hmapG (fun x u => x * (Real.log (u.2 * monVal pt u.1.items) - Real.log (x / (nus.sum / (1 - c)))))]
      have hz : nus.sum * (c / (1 - c)) * (Real.log ((k, c).2 * monVal pt (k, c).1.items) - Real.log (nus.sum * (c / (1 - c)) / (nus.sum / (1 - c)))) = 0 := by
        by_cases hn0 : nus.sum = 0
        · rw [hn0]; ring
        · have e1 : nus.sum * (c / (1 - c)) / (nus.sum / (1 - c)) = c := by field_simp
          have e2 : monVal pt (k, c).1.items = 1 := by
            show monVal pt k.items = 1
            rw [hk]; simp [monVal]
          rw [e1, e2, mul_one]
          simp
      rw [hz, add_zero]
      unfold blockVal
      rw [h4]
      have hzip : nus.zip (dictScale cpd (1 - c)⁻¹) = cpd.map (fun u => (F u, (u.1, u.2 * (1 - c)⁻¹))) := by
        rw [hF]
        unfold dictScale
        generalize cpd = l
        induction l with
        | nil => rfl
        | cons a l ih => simp [ih]
      rw [hzip, List.map_map]
      congr 1
      apply List.map_congr_left
      intro u hu
      simp only [Function.comp]
      by_cases h0 : F u = 0
      · rw [h0]; simp
      have hFu : 0 < F u := lt_of_le_of_ne (hnu _ (by rw [hF]; exact List.mem_map.2 ⟨u, hu, rfl⟩)) (Ne.symm h0)
      have hL0 : 0 < nus.sum := by
        have hle : F u ≤ nus.sum := List.single_le_sum hnu _ (by rw [hF]; exact List.mem_map.2 ⟨u, hu, rfl⟩)
        linarith
      have hu0 := hs.pos u (hcp0 u hu)
      have hmu := monVal_pos hpt u.1.items
      rw [Real.log_mul (mul_pos hu0 (inv_pos.2 hc1)).ne' hmu.ne', Real.log_mul hu0.ne' (inv_pos.2 hc1).ne', Real.log_inv,
        Real.log_mul hu0.ne' hmu.ne', Real.log_div hFu.ne' hL0.ne', Real.log_div hFu.ne' (div_pos hL0 hc1).ne', Real.log_div hL0.ne' hc1.ne']
      ring
    rw [hb]
    exact hg

/-- The dual cost is the sum over the posynomials of the program, up to the tolerance on the dual constraints, whichever point is taken. -/
theorem blocks_bound (h0 : Hmap V ℝ) (hs : List (Hmap V ℝ))
    (hw : ∀ h ∈ h0 :: hs, ∀ t ∈ h.terms, (t.1.items.map (·.1)).Nodup)
    (hpos : ∀ h ∈ h0 :: hs, ∀ t ∈ h.terms, 0 < t.2)
    (cost : ℝ) (primal nu : Nat → ℝ) (la : List ℝ) (tol abstol : ℝ) (htol : 0 ≤ tol)
    (hla : la = (genLoop (h0 :: hs)).mIdxs.map (fun mi => ((List.range' mi.1 (mi.2 - mi.1)).map nu).sum))
    (hnu : ∀ i < (genLoop (h0 :: hs)).cs.length, 0 ≤ nu i)
    (hchk : checkSolution (genLoop (h0 :: hs)) cost primal nu la tol abstol = true)
    (pt : V → ℝ) (hpt : ∀ v, 0 < pt v) :
    dualCost (genLoop (h0 :: hs)) nu la
      - tol * (((genLoop (h0 :: hs)).varlocs.map (·.1)).map (fun v => |Real.log (pt v)|)).sum
      ≤ (((nuByPosy (genLoop (h0 :: hs)) nu).zip (h0 :: hs)).map (fun p => blockVal p.1 p.2.terms pt)).sum := by
  have hms : ∃ ms, (genLoop (h0 :: hs)).mIdxs = (0, h0.terms.length) :: ms := by
    have hg := gen_mIdxs (h0 :: hs) 0
    cases hml : (genLoop (h0 :: hs)).mIdxs with
    | nil => rw [hml] at hg; simp at hg
    | cons m ms =>
      rw [hml] at hg
      simp [start] at hg
      exact ⟨ms, by rw [hg]⟩
  obtain ⟨ms, hms⟩ := hms
  set H := h0 :: hs with hH
  set d := genLoop H with hd
  have hw' : ∀ t ∈ allTerms H, WF t.1.items := by
    intro t ht
    obtain ⟨h, hh, ht⟩ := List.mem_flatMap.1 ht
    exact GP.wf_nodup.2 (hw h hh t ht)
  have hn : d.cs.length = (allTerms H).length := by rw [hd, gen_cs, List.length_map]
  set y := logVec H pt with hy
  have hylog : ∀ j v, (d.varlocs.map (·.1))[j]? = some v → y j = Real.log (pt v) := by
    intro j v hv; rw [hy]; unfold logVec; rw [hv]; rfl
  set N := (d.varlocs.map (·.1)).length with hN
  have hy0 : ∀ j, N ≤ j → y j = 0 := by
    intro j hj; rw [hy]; unfold logVec; rw [List.getElem?_eq_none hj]; rfl
  have htd : ∀ j, |d.A.tdot nu j| ≤ tol := by
    intro j
    by_cases hj : j < d.A.ncols
    · unfold checkSolution at hchk
      rw [hms] at hchk
      simp only [Bool.and_eq_true, Bool.not_eq_true'] at hchk
      have h5 := hchk.1.1.2
      rw [List.any_eq_false] at h5
      have := h5 j (List.mem_range.2 hj)
      simpa using this
    · rw [Coot.tdot_eq]
      have : d.A.filter (fun t => decide (t.2.1 = j)) = [] := by
        rw [List.filter_eq_nil_iff]
        intro t ht
        have := Coot.le_ncols d.A t ht
        simp; omega
      rw [this]; simpa using htol
  have hslice_add : ∀ (f g : Nat → ℝ) (mi : Nat × Nat), sliceSum (fun i => f i + g i) mi = sliceSum f mi + sliceSum g mi := by
    intro f g mi; unfold sliceSum; rw [List.sum_map_add]
  -- the dual cost as a plain sum over blocks
  have hdual : dualCost d nu la = (d.mIdxs.map (fun mi =>
      sliceSum (fun i => nu i * (Real.log ((d.cs[i]?).getD 0) - Real.log (nu i / sliceSum nu mi))) mi)).sum := by
    unfold dualCost
    have hz : d.mIdxs.zip la = d.mIdxs.map (fun mi => (mi, sliceSum nu mi)) := by
      rw [hla]
      have : (d.mIdxs.map (fun mi => ((List.range' mi.1 (mi.2 - mi.1)).map nu).sum)) = d.mIdxs.map (sliceSum nu) := rfl
      rw [this]
      clear_value d
      generalize d.mIdxs = l
      induction l with
      | nil => rfl
      | cons a l ih => simp [ih]
    rw [hz, List.map_map]
    congr 1
    apply List.map_congr_left
    intro mi hmi
    simp only [Function.comp]
    split_ifs with h0'
    · obtain ⟨p, hp, hp2⟩ := List.getElem_of_mem hmi
      have hpl : p < H.length := by rw [hd, gen_mIdxs_length] at hp; exact hp
      have hm := gen_mIdxs H p
      rw [← hd, List.getElem?_eq_getElem hp, hp2, List.getElem?_eq_getElem hpl] at hm
      simp only [Option.map_some, Option.some.injEq] at hm
      have hle := start_le (List.getElem?_eq_getElem hpl)
      have hzero : ∀ i ∈ List.range' mi.1 (mi.2 - mi.1), nu i = 0 := by
        intro i hi
        have hnn : ∀ x ∈ (List.range' mi.1 (mi.2 - mi.1)).map nu, 0 ≤ x := by
          intro x hx
          obtain ⟨j, hj, rfl⟩ := List.mem_map.1 hx
          rw [List.mem_range'_1, hm] at hj
          simp only at hj
          exact hnu j (by rw [hn]; omega)
        have hle := List.single_le_sum hnn (nu i) (List.mem_map.2 ⟨i, hi, rfl⟩)
        have : ((List.range' mi.1 (mi.2 - mi.1)).map nu).sum = 0 := h0'
        rw [this] at hle
        exact le_antisymm hle (hnn _ (List.mem_map.2 ⟨i, hi, rfl⟩))
      symm
      unfold sliceSum
      apply List.sum_eq_zero
      intro x hx
      obtain ⟨j, hj, rfl⟩ := List.mem_map.1 hx
      rw [hzero j hj]; simp
    · rfl
  -- the linear part
  have hlin : (d.mIdxs.map (sliceSum (fun i => nu i * d.A.dot y i))).sum ≥
      - (tol * ((d.varlocs.map (·.1)).map (fun v => |Real.log (pt v)|)).sum) := by
    rw [hd, gen_slices_sum, ← hd]
    rw [dot_tdot d.A nu y (allTerms H).length (max d.A.ncols N) (gen_rows_lt H hw')
      (fun t ht => lt_of_lt_of_le (Coot.le_ncols _ t ht) (le_max_left _ _))]
    have habs : ((d.varlocs.map (·.1)).map (fun v => |Real.log (pt v)|)).sum
        = ((List.range (max d.A.ncols N)).map (fun j => |y j|)).sum := by
      rw [sum_range_pad (fun j => |y j|) N _ (fun j hj => by simp [hy0 j hj]) (le_max_right _ _)]
      congr 1
      apply List.ext_getElem?
      intro j
      rw [List.getElem?_map (f := fun v => |Real.log (pt v)|), List.getElem?_map (f := fun j => |y j|)]
      by_cases hj : j < N
      · rw [List.getElem?_range hj, List.getElem?_eq_getElem hj]
        simp only [Option.map_some]
        rw [hylog j _ (List.getElem?_eq_getElem hj)]
      · rw [List.getElem?_eq_none (by omega), List.getElem?_eq_none (by simpa using hj)]; rfl
    rw [habs, ← List.sum_map_mul_left]
    have hneg : ∀ l : List Nat, -(l.map (fun j => tol * |y j|)).sum ≤ (l.map (fun j => d.A.tdot nu j * y j)).sum := by
      intro l
      induction l with
      | nil => simp
      | cons j l ih =>
        simp only [List.map_cons, List.sum_cons]
        have h1 : -(tol * |y j|) ≤ d.A.tdot nu j * y j := by
          have h2 : |d.A.tdot nu j * y j| ≤ tol * |y j| := by
            rw [abs_mul]; exact mul_le_mul_of_nonneg_right (htd j) (abs_nonneg _)
          exact le_trans (neg_le_neg h2) (neg_abs_le _)
        linarith
    exact hneg _
  -- block by block
  have hblocks : ((nuByPosy d nu).zip H).map (fun p => blockVal p.1 p.2.terms pt) =
      d.mIdxs.map (fun mi => sliceSum (fun i => nu i * (Real.log ((d.cs[i]?).getD 0) - Real.log (nu i / sliceSum nu mi)) + nu i * d.A.dot y i) mi) := by
    apply List.ext_getElem?
    intro p
    rw [List.getElem?_map, List.getElem?_map]
    cases hp : H[p]? with
    | none =>
      have hlen : H.length ≤ p := List.getElem?_eq_none_iff.1 hp
      rw [List.getElem?_eq_none (by simp; omega), List.getElem?_eq_none (by rw [hd, gen_mIdxs_length]; exact hlen)]
      rfl
    | some h =>
      have hm : d.mIdxs[p]? = some (start H p, start H p + h.terms.length) := by rw [hd, gen_mIdxs, hp]; rfl
      have hz : ((nuByPosy d nu).zip H)[p]? = some ((List.range' (start H p) h.terms.length).map nu, h) := by
        rw [List.getElem?_zip_eq_some]
        refine ⟨?_, hp⟩
        unfold nuByPosy
        rw [List.getElem?_map, hm]
        simp
      rw [hz, hm]
      simp only [Option.map_some, Option.some.injEq]
      unfold blockVal sliceSum
      simp only [Nat.add_sub_cancel_left]
      congr 1
      apply List.ext_getElem?
      intro j
      rw [List.getElem?_map, List.getElem?_map]
      by_cases hj : j < h.terms.length
      · have h1 : (((List.range' (start H p) h.terms.length).map nu).zip h.terms)[j]? = some (nu (start H p + j), h.terms[j]) := by
          rw [List.getElem?_zip_eq_some]
          refine ⟨?_, List.getElem?_eq_getElem hj⟩
          rw [List.getElem?_map, List.getElem?_range' hj]
          simp
        have h2 : (List.range' (start H p) h.terms.length)[j]? = some (start H p + j) := by
          rw [List.getElem?_range' hj]; simp
        rw [h1, h2]
        simp only [Option.map_some, Option.some.injEq]
        have hlt : p < H.length := by
          by_contra hh; rw [List.getElem?_eq_none (by omega)] at hp; cases hp
        have hg : (H.flatMap (·.terms))[start H p + j]? = some h.terms[j] := by
          have hsplit : H = H.take p ++ h :: H.drop (p + 1) := by
            conv_lhs => rw [← List.take_append_drop p H, List.drop_eq_getElem_cons hlt]
            congr 2
            rw [List.getElem?_eq_getElem hlt] at hp
            exact Option.some.inj hp
          have hst : start H p = ((H.take p).flatMap (·.terms)).length := by
            simp [start, List.length_flatMap]
          rw [hst]
          conv_lhs => rw [hsplit]
          rw [List.flatMap_append, List.flatMap_cons, List.getElem?_append_right (by
            conv_rhs => rw [← hsplit]
            omega)]
          conv_lhs => rw [← hsplit]
          rw [List.getElem?_append_left (by omega), ← List.getElem?_eq_getElem hj]
          congr 1; omega
        obtain ⟨c, hc, -, hval⟩ := C20_rows H hw pt hpt y hylog _ _ hg
        have hhp := hpos h (List.mem_of_getElem? hp) _ (List.getElem_mem hj)
        rw [← hval hhp, Coot.dot_eq, hc]
        simp only [Option.getD_some]
        ring
      · rw [List.getElem?_eq_none (by simp; omega), List.getElem?_eq_none (by simp; omega)]
        rfl
  rw [hblocks]
  have hsum : (d.mIdxs.map (fun mi => sliceSum (fun i => nu i * (Real.log ((d.cs[i]?).getD 0) - Real.log (nu i / sliceSum nu mi))
        + nu i * d.A.dot y i) mi)).sum
      = dualCost d nu la + (d.mIdxs.map (sliceSum (fun i => nu i * d.A.dot y i))).sum := by
    rw [hdual, ← List.sum_map_add]
    congr 1
    apply List.map_congr_left
    intro mi _
    rw [hslice_add]
  rw [hsum]
  linarith

end

section
variable {V D : Type} [DecidableEq V] [AddCommGroup D] [DecidableEq D]

theorem mon_nonconst {e : HV V ℝ} (he : ExpCanonical e.items) (hne : e.items ≠ []) {c : ℝ} (hc : 0 < c) (k : ℝ) :
    ¬ ∀ pt : V → ℝ, (∀ v, 0 < pt v) → c * monVal pt e.items = k := by
  intro h
  cases hi : e.items with
  | nil => exact hne hi
  | cons p rest =>
    obtain ⟨v, x⟩ := p
    rw [hi] at he h
    have hx : x ≠ 0 := he.2 (v, x) (by simp)
    have h1 := h (fun _ => 1) (fun _ => one_pos)
    have h2 := h (fun w => if w = v then 2 else 1) (by intro w; split <;> norm_num)
    have hr : ∀ p ∈ rest, p.1 ≠ v := by
      intro p hp heq
      have := he.1
      rw [List.map_cons, List.nodup_cons] at this
      exact this.1 (List.mem_map.2 ⟨p, hp, heq⟩)
    have hrest : monVal (fun w => if w = v then (2 : ℝ) else 1) rest = monVal (fun _ => (1 : ℝ)) rest := by
      unfold monVal
      congr 1
      apply List.map_congr_left
      intro p hp
      simp [hr p hp]
    have hm1 : monVal (fun _ : V => (1 : ℝ)) rest = 1 := by
      unfold monVal
      rw [List.prod_eq_one]
      intro y hy
      obtain ⟨p, -, rfl⟩ := List.mem_map.1 hy
      exact Real.one_rpow _
    have e1 : monVal (fun _ : V => (1 : ℝ)) ((v, x) :: rest) = 1 := by
      have : monVal (fun _ : V => (1 : ℝ)) ((v, x) :: rest) = (1 : ℝ) ^ x * monVal (fun _ : V => (1 : ℝ)) rest := by simp [monVal]
      rw [this, hm1, Real.one_rpow, one_mul]
    have e2 : monVal (fun w => if w = v then (2 : ℝ) else 1) ((v, x) :: rest) = (2 : ℝ) ^ x := by
      have : monVal (fun w => if w = v then (2 : ℝ) else 1) ((v, x) :: rest) = (2 : ℝ) ^ x * monVal (fun w => if w = v then (2 : ℝ) else 1) rest := by
        simp [monVal]
      rw [this, hrest, hm1, mul_one]
    rw [e1] at h1
    rw [e2] at h2
    have h3 : (2 : ℝ) ^ x = 1 := by
      have : c * (2 : ℝ) ^ x = c * 1 := by rw [h1, h2]
      exact mul_left_cancel₀ hc.ne' this
    have h4 := congrArg Real.log h3
    rw [Real.log_rpow two_pos, Real.log_one] at h4
    rcases mul_eq_zero.1 h4 with h5 | h5
    · exact hx h5
    · exact (Real.log_pos one_lt_two).ne' h5

/-- The form of a monomial: none if it has become a number, else a monomial. -/
theorem mono_form {feastol : ℝ} {e : HV V ℝ} {c : ℝ} (he : ExpCanonical e.items) (hc : 0 < c) {fixed : PyDict V ℝ} {rounds : List (V × List (HV V ℝ))}
    (ho : SetOrder (varlocs [(e, c)] fixed) rounds) {m m' : Memo ℝ} {forms : List (PyDict (HV V ℝ) ℝ)}
    (h : formStep feastol [(e, c)] fixed rounds m = (.ok forms, m')) :
    (forms = [] ∧ ∃ k, ∀ pt : V → ℝ, termsVal (override pt fixed) [(e, c)] = k) ∨
    ∃ t : HV V ℝ × ℝ, forms = [[t]] ∧ t.1.items ≠ [] ∧ ExpCanonical t.1.items ∧ 0 < t.2 ∧
      ∀ pt : V → ℝ, t.2 * monVal pt t.1.items = termsVal (override pt fixed) [(e, c)] := by
  have hcan : TermsCanonical [(e, c)] := ⟨by intro t ht; rw [List.mem_singleton] at ht; rw [ht]; exact ⟨he, hc.ne'⟩, by simp⟩
  unfold formStep at h
  cases hs : subState [(e, c)] fixed rounds with
  | error er => rw [hs] at h; simp at h
  | ok s =>
    rw [hs] at h
    simp only at h
    have hsub : (⟨[(e, c)], none⟩ : NMap V ℝ ℤ).sub fixed rounds = .ok ⟨s.cp, none⟩ := by unfold NMap.sub; rw [hs]; rfl
    have hval := fun pt => (C06_sub_evaluates (h := ⟨[(e, c)], none⟩) hcan (by simp) ho hsub pt).1
    have hcan' := (sub_ok (h := ⟨[(e, c)], none⟩) hcan (by simp) ho hsub).2.2.2.2
    obtain ⟨t, ht⟩ := sub_one (h := ⟨[(e, c)], none⟩) rfl hsub
    replace ht : s.cp = [t] := ht
    replace hval : ∀ pt : V → ℝ, termsVal pt s.cp = termsVal (override pt fixed) [(e, c)] := hval
    replace hcan' : TermsCanonical s.cp ∨ s.cp = [(HV.empty, 0)] := hcan'
    rw [ht] at h hval hcan'
    cases hm : mmap s [(e, c)] with
    | error er => rw [hm] at h; simp at h
    | ok pmap =>
      rw [hm] at h
      simp only [Prod.mk.injEq] at h
      obtain ⟨h1, -⟩ := h
      have hv : ∀ pt : V → ℝ, t.2 * monVal pt t.1.items = termsVal (override pt fixed) [(e, c)] := by
        intro pt
        rw [← hval pt]
        simp [termsVal]
      by_cases hb : (t.1 == HV.empty) = true
      · left
        have hi : t.1.items = [] := List.perm_nil.1 (HV.beq_iff.1 hb)
        have hg : PyDict.get? [t] HV.empty = some t.2 := by rw [get?_cons, if_pos hb]
        refine ⟨?_, t.2, fun pt => ?_⟩
        · unfold simplifyPosyIneq at h1
          rw [hg] at h1
          simp only [List.length_singleton] at h1
          by_cases h2 : -feastol ≤ 1 - t.2
          · rw [if_pos ⟨h2, trivial⟩] at h1
            simp only [checkForm, Except.ok.injEq] at h1
            exact h1.symm
          · rw [if_neg (fun hh => h2 hh.1), if_pos (not_le.1 h2)] at h1
            cases h1
        · rw [← hv pt, hi]
          simp [monVal]
      · right
        have hg : PyDict.get? [t] HV.empty = none := by rw [get?_cons, if_neg hb]; rfl
        unfold simplifyPosyIneq at h1
        rw [hg] at h1
        simp only [checkForm] at h1
        split at h1
        · cases h1
        rename_i hany
        simp only [Except.ok.injEq] at h1
        refine ⟨t, h1.symm, ?_, ?_, ?_, hv⟩
        · intro hi
          exact hb (HV.beq_iff.2 (by rw [hi]; exact List.Perm.refl _))
        · rcases hcan' with h2 | h2
          · exact (h2.1 t (by simp)).1
          · rw [List.cons.injEq] at h2
            rw [h2.1]
            exact ⟨by simp [HV.empty], by simp [HV.empty]⟩
        · by_contra hle
          apply hany
          rw [List.any_eq_true]
          exact ⟨t, by simp, by simpa using hle⟩

/-- The multipliers of the terms of a form, and their sum. -/
def BlockOK (b : ℝ × List ℝ) (h : Hmap V ℝ) : Prop := b.1 = b.2.sum ∧ b.2.length = h.terms.length ∧ ∀ x ∈ b.2, 0 ≤ x

theorem blockVal_one (x : ℝ) (t : HV V ℝ × ℝ) (pt : V → ℝ) : blockVal [x] [t] pt = x * Real.log (t.2 * monVal pt t.1.items) := by
  unfold blockVal
  simp only [List.zip_cons_cons, List.zip_nil_right, List.map_cons, List.map_nil, List.sum_cons, List.sum_nil, add_zero]
  by_cases hx : x = 0
  · simp [hx]
  · rw [div_self hx, Real.log_one, sub_zero]

theorem addSens_wf (e : PyDict V ℝ) (nu : ℝ) : ∀ acc : PyDict V ℝ, WF acc →
    WF (e.foldl (fun acc kx => acc.set kx.1 (nu * kx.2 + (acc.get? kx.1).getD 0)) acc) := by
  induction e with
  | nil => exact fun _ h => h
  | cons p e ih => exact fun acc h => ih _ (wf_set h _ _)

theorem sensOfNu_wf (h : PyDict (HV V ℝ) ℝ) (nu : List ℝ) : WF (sensOfNu h nu) := by
  unfold sensOfNu
  have : ∀ (l : List ((HV V ℝ × ℝ) × ℝ)) (acc : PyDict V ℝ), WF acc → WF (l.foldl (fun acc tn => Verif.addSens acc tn.1.1 tn.2) acc) := by
    intro l
    induction l with
    | nil => exact fun _ h => h
    | cons p l ih => exact fun acc h => ih _ (addSens_wf _ _ _ h)
  exact this _ _ wf_nil

/-- The form of an inequality without constant terms is the quotient of its sides. -/
theorem noConst_form {se : Bool} {feastol : ℝ} {fixed : PyDict V ℝ} {p m : NMap V ℝ D} (hc : ConOK (.le se p m)) (hn : Con.NoConst fixed (.le se p m))
    {n : Nomial V ℝ D} (h : genUnsubbed se feastol p m = .ok [n]) :
    (∀ t ∈ n.hmap.terms, ∃ kx ∈ t.1.items, fixed.get? kx.1 = none) ∧
      ∀ pt : V → ℝ, (∀ v, 0 < pt v) → 0 < physVal pt m ∧ physVal pt p = termsVal pt n.hmap.terms * physVal pt m := by
  obtain ⟨-, hp, hpos, mexp, mc, hm, hme, hmc, hpu, hmu, hclash⟩ := hc
  unfold genUnsubbed at h
  rw [hm] at h
  simp only at h
  obtain ⟨r, hr, h1⟩ := except_bind_ok h
  obtain ⟨hr1, hr2⟩ := ratio_scale hmu hpu hr
  have hmr : 0 < mc * r := mul_pos hmc hr2
  rw [renameTerms_ok hme hmr.ne' hp hclash.pairwise] at h1
  set q := p.terms.map (fun t => (t.1.sub mexp, t.2 / (mc * r))) with hq
  have hqc : TermsCanonical q := quotient_canonical hme hmr.ne' hp
  have hfree : ∀ t ∈ q, ∃ kx ∈ t.1.items, fixed.get? kx.1 = none := by
    intro t ht
    obtain ⟨s, hs, rfl⟩ := List.mem_map.1 ht
    obtain ⟨v, hv1, hv2⟩ := hn (mexp, mc) (by rw [hm]; simp) s hs
    have hd : ((s.1.sub mexp).get? v).getD 0 = (s.1.get? v).getD 0 - (mexp.get? v).getD 0 :=
      getD_sub ((expCanonical_iff _).1 (hp.1 s hs).1).1 ((expCanonical_iff _).1 hme).1 v
    cases hg : (s.1.sub mexp).get? v with
    | none => rw [hg] at hd; exact absurd (sub_eq_zero.1 (by simpa using hd.symm)) hv2
    | some x =>
      obtain ⟨k', hk, hk'⟩ := exists_mem_of_get? hg
      have : k' = v := by simpa using hk'
      subst this
      exact ⟨_, hk, hv1⟩
  have hnone : PyDict.get? q HV.empty = none := by
    cases hg : PyDict.get? q HV.empty with
    | none => rfl
    | some c =>
      obtain ⟨k', hk, hk'⟩ := exists_mem_of_get? hg
      obtain ⟨kx, hkx, -⟩ := hfree _ hk
      have : k'.items = [] := List.perm_nil.1 (HV.beq_iff.1 hk')
      rw [this] at hkx
      cases hkx
  have hsim : simplifyPosyIneq feastol q = .ok (some q) := by unfold simplifyPosyIneq; rw [hnone]
  have h2 : wrapForm se (some q) none = .ok [n] := by
    obtain ⟨s, hs, h3⟩ := except_bind_ok (show (simplifyPosyIneq feastol q >>= fun s => wrapForm se s none) = .ok [n] from h1)
    rw [hsim] at hs
    cases hs
    exact h3
  have hterms : n.hmap.terms = q := by
    unfold wrapForm at h2
    simp only at h2
    split at h2
    · cases h2
    cases hk : mkSig se true (⟨q, none⟩ : NMap V ℝ D) with
    | error e => rw [hk] at h2; cases h2
    | ok n' => rw [hk] at h2; cases h2; rw [mkSig_ok hk]
  rw [hterms]
  refine ⟨hfree, fun pt hpt => ⟨physVal_mono_pos hm hmc hmu hpt, ?_⟩⟩
  have h3 := quotient_val_on (mexp := mexp) (pt := pt) (fun x _ => hpt x.1) hmr.ne' p.terms
  unfold physVal
  rw [← h3, hm, ← hr1]
  simp only [termsVal_cons, termsVal_nil, add_zero]
  ring

/-- A posynomial all of whose terms have a free variable has no constant term after substitution. -/
theorem Shared.noConst {h : PyDict (HV V ℝ) ℝ} {fixed : PyDict V ℝ} {s : SubState V ℝ} {w : HV V ℝ × ℝ → ℝ} (hc : TermsCanonical h)
    (hs : Shared h fixed s w) (hfree : ∀ t ∈ h, ∃ kx ∈ t.1.items, fixed.get? kx.1 = none) : s.cp.get? HV.empty = none := by
  cases hg : s.cp.get? HV.empty with
  | none => rfl
  | some c =>
    exfalso
    obtain ⟨k', hk, hk'⟩ := exists_mem_of_get? hg
    have hitems : k'.items = [] := List.perm_nil.1 (HV.beq_iff.1 hk')
    have hpos := hs.pos _ hk
    rw [hs.coef hc hk] at hpos
    have hempty : h.filter (fun t => strip (varlocKeys h fixed) t.1 == k') = [] := by
      rw [List.filter_eq_nil_iff]
      intro t ht hb
      obtain ⟨kx, hkx, hf⟩ := hfree t ht
      have hi : (strip (varlocKeys h fixed) t.1).items = [] := by
        have := HV.beq_iff.1 hb
        rw [hitems] at this
        exact List.perm_nil.1 this
      have hmem : kx ∈ (strip (varlocKeys h fixed) t.1).items := by
        unfold strip
        simp only [List.mem_filter]
        refine ⟨hkx, ?_⟩
        have : kx.1 ∉ varlocKeys h fixed := by
          intro hm
          have h1 := (mem_varlocKeys.1 hm).2
          obtain ⟨c, h1⟩ := contains_iff.1 h1
          rw [hf] at h1
          cases h1
        simpa using this
      rw [hi] at hmem
      cases hmem
    rw [hempty] at hpos
    simp at hpos

/-- The bound for one constraint, relaxed by a factor `σ`. -/
theorem con_bound {feastol : ℝ} (hf : 0 ≤ feastol) {fixed : PyDict V ℝ} (hwf : WF fixed) (hfix : ∀ v c, fixed.get? v = some c → 0 < c)
    {ord : Orders V ℝ} (hord : ord.Valid) {c : Con V D} (hc : ConOK c)
    (hlate : ∀ u, c.unsubbed feastol = .ok u → ∀ n ∈ u, MergesLate n.hmap.terms (varlocKeys n.hmap.terms fixed)) {hs : List (Hmap V ℝ)}
    (h : c.hmaps feastol fixed ord = .ok hs) {blocks : List (ℝ × List ℝ)} (hb : List.Forall₂ BlockOK blocks hs) {vss : List (PyDict V ℝ × ℝ)}
    (hv : c.senss feastol fixed ord blocks = .ok vss) :
    (∀ e ∈ vss, WF e.1) ∧ ∀ pt : V → ℝ, (∀ v, 0 < pt v) → ∀ σ : ℝ, 0 < σ → (σ = 1 ∨ c.NoConst fixed) → c.Holds σ pt →
      ((blocks.zip hs).map (fun p => blockVal p.1.2 p.2.terms pt)).sum + (vss.map (fun e => shift fixed pt (sensAt e.1))).sum ≤
        lastSens (vss.map (·.2)) * Real.log σ := by
  unfold Con.hmaps at h
  obtain ⟨u, hu, h1⟩ := except_bind_ok h
  obtain ⟨forms, hforms, h2⟩ := except_bind_ok h1
  cases h2
  obtain ⟨h3, h4⟩ := unsubbed_spec hf (le_refl feastol) hc hu
  unfold Con.senss at hv
  rw [hu] at hv
  simp only [bind, Except.bind] at hv
  cases blocks with
  | nil =>
    cases hv
    exact ⟨by simp, fun pt _ σ _ _ _ => by simp [lastSens]⟩
  | cons b bs =>
    cases c with
    | le se p m =>
      simp only at hv
      split at hv
      · rename_i n
        cases hv
        obtain ⟨hcan, hne, hpos⟩ := h3 n (by simp)
        rw [List.map_cons, List.map_nil] at hforms
        have hfs : ∀ q : PyDict (HV V ℝ) ℝ, asHmapslt1 feastol [q] fixed ord {} =
            ((formStep feastol q fixed (ord q fixed) {}).1.map (fun new => [] ++ new), (formStep feastol q fixed (ord q fixed) {}).2) := fun _ => rfl
        rw [hfs] at hforms
        rcases hst : formStep feastol n.hmap.terms fixed (ord n.hmap.terms fixed) {} with ⟨r, m'⟩
        rw [hst] at hforms
        cases r with
        | error er => cases hforms
        | ok fs =>
          have hfo : forms = fs := by cases hforms; simp
          subst hfo
          rcases C13_value hf hcan hne hpos (fun v c hv => (hfix v c hv).le) (hord _ _) hst with ⟨rfl, -⟩ | ⟨ts, rfl, hts, htpos, htcan, -⟩
          · cases hb
          · rw [List.map_cons, List.map_nil] at hb
            cases hb with
            | cons hb0 hbs =>
              cases hbs
              obtain ⟨hb1, hb2, hb3⟩ := hb0
              rw [hfs, hst]
              simp only [leSenss]
              refine ⟨?_, ?_⟩
              · intro e he
                rw [List.mem_singleton] at he
                rw [he]
                exact sensOfNu_wf _ _
              · intro pt hpt σ hσ hnc hh
                cases hsub : subState n.hmap.terms fixed (ord n.hmap.terms fixed) with
                | error er => unfold formStep at hst; rw [hsub] at hst; simp at hst
                | ok s =>
                  obtain ⟨w, hsh⟩ := shared_of_sub hcan hne hpos hfix (hord _ _) (hlate _ hu n (by simp)) hsub
                  have hfm := formed_of_step hsh hcan hsub hst
                  obtain ⟨L, hL0, hL1, hL2⟩ := hfm.gibbs hcan hsh rfl hts hpos hwf hfix hb2 hb3
                  have hg := hL2 pt hpt
                  have hT : 0 < termsVal pt n.hmap.terms := by
                    unfold termsVal
                    apply List.sum_pos
                    · intro x hx
                      obtain ⟨t, ht, rfl⟩ := List.mem_map.1 hx
                      exact mul_pos (hpos t ht) (monVal_pos hpt _)
                    · simpa using hne
                  have hla : 0 ≤ b.1 := by rw [hb1]; exact List.sum_nonneg hb3
                  have key : L * Real.log (termsVal pt n.hmap.terms) ≤ b.1 * Real.log σ := by
                    rcases hnc with rfl | hnc
                    · rw [Real.log_one, mul_zero]
                      exact mul_nonpos_of_nonneg_of_nonpos hL0 (Real.log_nonpos hT.le ((h4 pt hpt).2 hh n (by simp)))
                    · obtain ⟨hfree, hval⟩ := noConst_form hc hnc hu
                      obtain ⟨hm0, hval⟩ := hval pt hpt
                      have hle : termsVal pt n.hmap.terms ≤ σ := by
                        have : physVal pt p ≤ σ * physVal pt m := hh
                        rw [hval] at this
                        exact le_of_mul_le_mul_right this hm0
                      rcases hL1 with rfl | hL1
                      · rw [hb1]
                        exact mul_le_mul_of_nonneg_left (Real.log_le_log hT hle) hL0
                      · exact absurd (hsh.noConst hcan hfree) hL1
                  rw [← hb1] at hg
                  have hlast : lastSens [b.1] = b.1 := by simp [lastSens, abs_of_nonneg hla]
                  simp only [List.map_cons, List.map_nil, List.zip_cons_cons, List.zip_nil_right, List.sum_cons, List.sum_nil, add_zero, hlast]
                  exact hg.trans key
      · cases hv
    | eq se l r =>
      simp only at hv
      obtain ⟨el, er, cl, cr, hl, hr, hel, her, hcl, hcr, hlu, hru⟩ := hc
      rcases C14_pair hl hr hel her hcl hcr hlu hru hu with ⟨rfl, -⟩ | ⟨a, b', rfl, ⟨ca, ha1, ha2, cb, hb1, hb2⟩, hne, h5⟩
      · cases hforms
        cases hb
      · simp only [ha1] at hv
        cases hv
        have hca := HV.sub_canonical hel her
        have hcb := HV.sub_canonical her hel
        have hfs : ∀ q1 q2 : PyDict (HV V ℝ) ℝ, (asHmapslt1 feastol [q1, q2] fixed ord {}).1 =
            match (formStep feastol q1 fixed (ord q1 fixed) {}).1 with
            | .error e => .error e
            | .ok f1 => (formStep feastol q2 fixed (ord q2 fixed) (formStep feastol q1 fixed (ord q1 fixed) {}).2).1.map (fun new => ([] ++ f1) ++ new) := by
          intro q1 q2
          unfold asHmapslt1
          simp only [List.foldl_cons, List.foldl_nil]
          cases (formStep feastol q1 fixed (ord q1 fixed) {}).1 <;> rfl
        rw [List.map_cons, List.map_cons, List.map_nil, hfs, ha1, hb1] at hforms
        rcases hst1 : formStep feastol [(el.sub er, ca)] fixed (ord [(el.sub er, ca)] fixed) {} with ⟨r1, m1⟩
        rw [hst1] at hforms
        cases r1 with
        | error e => cases hforms
        | ok f1 =>
          simp only at hforms
          rcases hst2 : formStep feastol [(er.sub el, cb)] fixed (ord [(er.sub el, cb)] fixed) m1 with ⟨r2, m2⟩
          rw [hst2] at hforms
          cases r2 with
          | error e => cases hforms
          | ok f2 =>
            have hfo : forms = f1 ++ f2 := by cases hforms; simp
            subst hfo
            have hov : ∀ pt : V → ℝ, (∀ v, 0 < pt v) → ∀ v, 0 < override pt fixed v := fun pt hpt => override_pos hpt hfix
            have hprod : ∀ pt : V → ℝ, (∀ v, 0 < pt v) → termsVal pt [(el.sub er, ca)] * termsVal pt [(er.sub el, cb)] = 1 := by
              intro pt hpt
              have := (h5 pt hpt).2.2.2
              rwa [ha1, hb1] at this
            rcases mono_form hca ha2 (hord _ _) hst1 with ⟨rfl, k1, hk1⟩ | ⟨t1, rfl, hi1, hc1, hp1, hv1⟩ <;>
              rcases mono_form hcb hb2 (hord _ _) hst2 with ⟨rfl, k2, hk2⟩ | ⟨t2, rfl, hi2, hc2, hp2, hv2⟩
            · cases hb
            · exfalso
              refine mon_nonconst hc2 hi2 hp2 k1⁻¹ ?_
              intro pt hpt
              rw [hv2 pt, ← hk1 pt]
              exact (eq_inv_of_mul_eq_one_right (hprod _ (hov pt hpt)))
            · exfalso
              refine mon_nonconst hc1 hi1 hp1 k2⁻¹ ?_
              intro pt hpt
              rw [hv1 pt, ← hk2 pt]
              exact (eq_inv_of_mul_eq_one_left (hprod _ (hov pt hpt)))
            · simp only [List.map_cons, List.map_nil, List.cons_append, List.nil_append] at hb
              cases hb with
              | cons hb0 hbs =>
                cases hbs with
                | cons hb1' hbs =>
                  rename_i b2 bs'
                  cases hbs
                  obtain ⟨la0, nus0⟩ := b
                  obtain ⟨la1, nus1⟩ := b2
                  obtain ⟨g1, g2, g3⟩ := hb0
                  obtain ⟨g4, g5, g6⟩ := hb1'
                  simp only [List.length_singleton] at g2 g5
                  obtain ⟨x0, rfl⟩ := List.length_eq_one_iff.1 g2
                  obtain ⟨x1, rfl⟩ := List.length_eq_one_iff.1 g5
                  simp only [List.sum_singleton] at g1 g4
                  subst g1 g4
                  have hsens : eqSenss (el.sub er) [] [(la0, [la0]), (la1, [la1])] = [([], 0), (((el.sub er).scale (la0 - la1)).items, la0 - la1)] := rfl
                  rw [hsens]
                  refine ⟨?_, ?_⟩
                  · intro e he
                    simp only [List.mem_cons, List.not_mem_nil, or_false] at he
                    rcases he with rfl | rfl
                    · exact wf_nil
                    · exact dictScale_wf ((expCanonical_iff _).1 hca).1 _
                  · intro pt hpt σ hσ _ hh
                    have hr0 : 0 < physVal pt r := physVal_mono_pos hr hcr hru hpt
                    have hlr : physVal pt l = termsVal pt [(el.sub er, ca)] * physVal pt r := by
                      have := (h5 pt hpt).2.2.1; rwa [ha1] at this
                    have hA : termsVal pt [(el.sub er, ca)] ≤ σ := by
                      have := hh.1
                      rw [hlr] at this
                      exact le_of_mul_le_mul_right this hr0
                    have hB : 1 ≤ σ * termsVal pt [(el.sub er, ca)] := by
                      have := hh.2
                      rw [hlr, ← mul_assoc] at this
                      exact le_of_mul_le_mul_right (by rwa [one_mul]) hr0
                    have hApos : ∀ q : V → ℝ, (∀ v, 0 < q v) → 0 < termsVal q [(el.sub er, ca)] := by
                      intro q hq
                      simpa [termsVal] using mul_pos ha2 (monVal_pos hq (el.sub er).items)
                    have hBlog : ∀ q : V → ℝ, (∀ v, 0 < q v) → Real.log (termsVal q [(er.sub el, cb)]) = - Real.log (termsVal q [(el.sub er, ca)]) := by
                      intro q hq
                      rw [eq_inv_of_mul_eq_one_right (hprod q hq), Real.log_inv]
                    have hshift : Real.log (termsVal pt [(el.sub er, ca)]) = Real.log (termsVal (override pt fixed) [(el.sub er, ca)]) +
                        shift fixed pt (fun v => expo (el.sub er) v) := by
                      have h7 := log_mon_override hpt hwf hfix ((expCanonical_iff _).1 hca).1
                      simp only [termsVal, List.map_cons, List.map_nil, List.sum_cons, List.sum_nil, add_zero]
                      rw [Real.log_mul ha2.ne' (monVal_pos hpt _).ne', Real.log_mul ha2.ne' (monVal_pos (hov pt hpt) _).ne', h7]
                      unfold expo HV.get?
                      ring
                    have hs2 : shift fixed pt (sensAt ((el.sub er).scale (la0 - la1)).items) = (la0 - la1) * shift fixed pt (fun v => expo (el.sub er) v) := by
                      rw [← shift_smul]
                      apply shift_congr
                      intro v
                      simp only [sensAt, HV.scale, get?_dictScale, expo, HV.get?]
                      cases (el.sub er).items.get? v <;> simp
                      ring
                    have hs0 : shift fixed pt (sensAt ([] : PyDict V ℝ)) = 0 := shift_zero fixed pt
                    simp only [List.cons_append, List.nil_append, List.zip_cons_cons, List.zip_nil_right, List.map_cons, List.map_nil, List.sum_cons, List.sum_nil, add_zero, blockVal_one, hs0, hs2,
                      hv1, hv2, zero_add]
                    have hlast : lastSens [0, la0 - la1] = |la0 - la1| := by simp [lastSens]
                    rw [hlast, hBlog _ (hov pt hpt)]
                    have hlA : Real.log (termsVal pt [(el.sub er, ca)]) ≤ Real.log σ := Real.log_le_log (hApos pt hpt) hA
                    have hlB : - Real.log σ ≤ Real.log (termsVal pt [(el.sub er, ca)]) := by
                      have := Real.log_le_log one_pos hB
                      rw [Real.log_one, Real.log_mul hσ.ne' (hApos pt hpt).ne'] at this
                      linarith
                    have habs : (la0 - la1) * Real.log (termsVal pt [(el.sub er, ca)]) ≤ |la0 - la1| * Real.log σ := by
                      refine (le_abs_self _).trans ?_
                      rw [abs_mul]
                      exact mul_le_mul_of_nonneg_left (abs_le.2 ⟨hlB, hlA⟩) (abs_nonneg _)
                    have : la0 * Real.log (termsVal (override pt fixed) [(el.sub er, ca)]) + la1 * -Real.log (termsVal (override pt fixed) [(el.sub er, ca)]) +
                        (la0 - la1) * shift fixed pt (fun v => expo (el.sub er) v) = (la0 - la1) * Real.log (termsVal pt [(el.sub er, ca)]) := by
                      rw [hshift]; ring
                    rw [this]
                    exact habs

/-- The bound for the cost, if its terms are in the same places after substitution. -/
theorem cost_bound {ts ts' : PyDict (HV V ℝ) ℝ} (hw : ∀ t ∈ ts, WF t.1.items) (hpos : ∀ t ∈ ts, 0 < t.2) {fixed : PyDict V ℝ} (hwf : WF fixed)
    (hfix : ∀ v c, fixed.get? v = some c → 0 < c) {pt : V → ℝ} (hpt : ∀ v, 0 < pt v)
    (hal : List.Forall₂ (fun t t' : HV V ℝ × ℝ => t.2 * monVal (override pt fixed) t.1.items = t'.2 * monVal pt t'.1.items) ts ts')
    {nus : List ℝ} (hlen : nus.length = ts'.length) (hnu : ∀ x ∈ nus, 0 ≤ x) :
    blockVal nus ts' pt + shift fixed pt (sensAt (Sens.costSens nus ts.keys)) ≤ nus.sum * Real.log (termsVal pt ts) := by
  have hlen' : nus.length = ts.length := hlen.trans hal.length_eq.symm
  have hg := GP.gibbs (nus.zip ts) (fun p => p.1) (fun p => p.2.2 * monVal pt p.2.1.items) (fun p hp => hnu _ (List.of_mem_zip hp).1)
    (fun p hp => mul_pos (hpos _ (List.of_mem_zip hp).2) (monVal_pos hpt _)) nus.sum (by
      rw [List.map_fst_zip (by omega)])
  have hT : ((nus.zip ts).map (fun p => p.2.2 * monVal pt p.2.1.items)).sum = termsVal pt ts := by
    unfold termsVal
    have : (nus.zip ts).map (fun p => p.2.2 * monVal pt p.2.1.items) = ((nus.zip ts).map (·.2)).map (fun t => t.2 * monVal pt t.1.items) := by
      rw [List.map_map]; rfl
    rw [this, List.map_snd_zip (by omega)]
  rw [hT] at hg
  refine le_trans (le_of_eq ?_) hg
  have hsens : ∀ v, sensAt (Sens.costSens nus ts.keys) v = ((nus.zip ts).map (fun p => p.1 * expo p.2.1 v)).sum := by
    intro v
    rw [sensAt_costSens (by
      intro e he
      obtain ⟨t, ht, rfl⟩ := List.mem_map.1 he
      exact hw t ht)]
    unfold PyDict.keys
    rw [List.zip_map_right, List.map_map]
    rfl
  rw [shift_congr hsens, shift_sum]
  have hsm : ∀ p : ℝ × (HV V ℝ × ℝ), shift fixed pt (fun v => p.1 * expo p.2.1 v) = p.1 * shift fixed pt (fun v => expo p.2.1 v) := fun p => shift_smul _ _ _ _
  simp only [hsm]
  unfold blockVal
  generalize nus.sum = L
  clear hg hT hsens hlen hlen' hnu
  have hov : ∀ v, 0 < override pt fixed v := override_pos hpt hfix
  induction hal generalizing nus with
  | nil => simp
  | cons hab _ ih =>
    rename_i t t' ts ts' _
    cases nus with
    | nil => simp
    | cons x nus =>
      have ih := ih (fun s hs => hw s (by simp [hs])) (fun s hs => hpos s (by simp [hs])) (nus := nus)
      simp only [List.zip_cons_cons, List.map_cons, List.sum_cons]
      have hlog : Real.log (t.2 * monVal pt t.1.items) = Real.log (t'.2 * monVal pt t'.1.items) + shift fixed pt (fun v => expo t.1 v) := by
        have ht := hpos t (by simp)
        rw [← hab, Real.log_mul ht.ne' (monVal_pos hpt _).ne', Real.log_mul ht.ne' (monVal_pos hov _).ne', log_mon_override hpt hwf hfix (hw t (by simp))]
        unfold expo HV.get?
        ring
      rw [hlog, ← ih]
      ring

end
end Verif
