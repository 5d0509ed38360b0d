import Verif.Lemmas.Duality
import Verif.Props.Program

/-! Accepted solutions are optimal: C40. -/

set_option linter.unusedSectionVars false

namespace Verif
open PyDict GP
variable {V : Type} [DecidableEq V]

/-- The vector of logarithms of a point, in the order of the columns. -/
noncomputable def logVec (hs : List (Hmap V ℝ)) (pt : V → ℝ) (j : Nat) : ℝ :=
  ((((genLoop hs).varlocs.map (·.1))[j]?).map (fun v => Real.log (pt v))).getD 0

theorem sum_range_pad (f : Nat → ℝ) (N M : Nat) (h : ∀ j, N ≤ j → f j = 0) (hNM : N ≤ M) :
    ((List.range M).map f).sum = ((List.range N).map f).sum := by
  obtain ⟨k, rfl⟩ := Nat.exists_eq_add_of_le hNM
  rw [List.range_eq_range', List.range_eq_range', ← List.range'_append_1, List.map_append, List.sum_append]
  have : ((List.range' (0 + N) k).map f).sum = 0 := by
    apply List.sum_eq_zero
    intro x hx
    obtain ⟨j, hj, rfl⟩ := List.mem_map.1 hx
    rw [List.mem_range'_1] at hj
    exact h j (by omega)
  rw [this, add_zero]

theorem sum_nonpos' : ∀ (l : List ℝ), (∀ x ∈ l, x ≤ 0) → l.sum ≤ 0
  | [], _ => le_refl _
  | a :: l, h => by
    rw [List.sum_cons]
    have h1 := h a (by simp)
    have h2 := sum_nonpos' l (fun x hx => h x (by simp [hx]))
    linarith

/-- C40 with tolerances: if the check passes and the multipliers are not negative, the cost of every feasible positive point is
bounded below by the dual cost, up to the tolerance on the dual constraints. -/
theorem C40_near_optimal (h0 : Hmap V ℝ) (hs : List (Hmap V ℝ))
    (hw : ∀ h ∈ h0 :: hs, ∀ t ∈ h.terms, (t.1.items.map (·.1)).Nodup)
    (hpos : ∀ h ∈ h0 :: hs, ∀ t ∈ h.terms, 0 < t.2)
    (cost : ℝ) (primal nu : Nat → ℝ) (la : List ℝ) (tol abstol : ℝ) (htol : 0 ≤ tol)
    (hla : la = (genLoop (h0 :: hs)).mIdxs.map (fun mi => ((List.range' mi.1 (mi.2 - mi.1)).map nu).sum))
    (hnu : ∀ i < (genLoop (h0 :: hs)).cs.length, 0 ≤ nu i)
    (hchk : checkSolution (genLoop (h0 :: hs)) cost primal nu la tol abstol = true)
    (pt : V → ℝ) (hpt : ∀ v, 0 < pt v) (hfeas : ∀ h ∈ hs, termsVal pt h.terms ≤ 1) :
    dualCost (genLoop (h0 :: hs)) nu la
      - tol * (((genLoop (h0 :: hs)).varlocs.map (·.1)).map (fun v => |Real.log (pt v)|)).sum
      ≤ ((List.range h0.terms.length).map nu).sum * Real.log (termsVal pt h0.terms) := by
  set H := h0 :: hs with hH
  set d := genLoop H with hd
  have hw' : ∀ t ∈ allTerms H, WF t.1.items := by
    intro t ht
    obtain ⟨h, hh, ht⟩ := List.mem_flatMap.1 ht
    exact wf_nodup.2 (hw h hh t ht)
  have hn : d.cs.length = (allTerms H).length := by rw [hd, gen_cs, List.length_map]
  set y := logVec H pt with hy
  have hylog : ∀ j v, (d.varlocs.map (·.1))[j]? = some v → y j = Real.log (pt v) := by
    intro j v hv; rw [hy]; unfold logVec; rw [hv]; rfl
  set N := (d.varlocs.map (·.1)).length with hN
  have hy0 : ∀ j, N ≤ j → y j = 0 := by
    intro j hj; rw [hy]; unfold logVec; rw [List.getElem?_eq_none hj]; rfl
  have hcpos : ∀ i < (allTerms H).length, 0 < (d.cs[i]?).getD 0 := by
    intro i hi
    rw [hd, gen_cs, List.getElem?_map, List.getElem?_eq_getElem hi]
    simp only [Option.map_some, Option.getD_some]
    obtain ⟨h, hh, ht⟩ := List.mem_flatMap.1 (List.getElem_mem hi)
    exact hpos h hh _ ht
  -- the values of the posynomials at the competing point
  have hblock : ∀ (p : Nat) (h : Hmap V ℝ), H[p]? = some h → ∃ mi, d.mIdxs[p]? = some mi ∧
      mi.2 ≤ (allTerms H).length ∧ mi.1 ≤ mi.2 ∧ mi.2 - mi.1 = h.terms.length ∧ (p = 0 → mi.1 = 0) ∧
      termsVal pt h.terms = sliceSum (fun i => (d.cs[i]?).getD 0 * Real.exp (d.A.dot y i)) mi := by
    intro p h hp
    obtain ⟨a, b, h1, h2, h3, _, _, _, h7⟩ := C20_blocks H hw pt hpt y hylog p h hp
    have hm := gen_mIdxs H p
    rw [hp, h1] at hm
    simp only [Option.map_some, Option.some.injEq, Prod.mk.injEq] at hm
    refine ⟨(a, b), h1, ?_, ?_, ?_, h3, ?_⟩
    · have := start_le hp; simp only; omega
    · simp only; omega
    · simp only; omega
    · rw [h7]; unfold sliceSum; simp only [Coot.dot_eq]; rfl
  -- what the check says about the dual constraints
  have hm0 : ∃ ms, d.mIdxs = (0, h0.terms.length) :: ms := by
    obtain ⟨mi, h1, _, _, h4, h5, _⟩ := hblock 0 h0 (by simp [hH])
    cases hml : d.mIdxs with
    | nil => rw [hml] at h1; cases h1
    | cons m ms =>
      rw [hml] at h1
      simp only [List.getElem?_cons_zero, Option.some.injEq] at h1
      have h5 := h5 rfl
      refine ⟨ms, ?_⟩
      congr 1
      rw [h1]
      ext
      · exact h5
      · simp only; omega
  obtain ⟨ms, hms⟩ := hm0
  have htd : ∀ j, |d.A.tdot nu j| ≤ tol := by
    intro j
    by_cases hj : j < d.A.ncols
    · unfold checkSolution at hchk
      rw [hms] at hchk
      simp only [Bool.and_eq_true, Bool.not_eq_true'] at hchk
      have h5 := hchk.1.1.2
      rw [List.any_eq_false] at h5
      have := h5 j (List.mem_range.2 hj)
      simpa using this
    · rw [Coot.tdot_eq]
      have : d.A.filter (fun t => decide (t.2.1 = j)) = [] := by
        rw [List.filter_eq_nil_iff]
        intro t ht
        have := Coot.le_ncols d.A t ht
        simp; omega
      rw [this]; simpa using htol
  -- Gibbs' inequality on each block
  have hgibbs : ∀ (p : Nat) (h : Hmap V ℝ), H[p]? = some h → ∃ mi, d.mIdxs[p]? = some mi ∧
      sliceSum (fun i => nu i * (Real.log ((d.cs[i]?).getD 0) - Real.log (nu i / sliceSum nu mi)) + nu i * d.A.dot y i) mi
        ≤ sliceSum nu mi * Real.log (termsVal pt h.terms) := by
    intro p h hp
    obtain ⟨mi, h1, h2, h3, _, _, h7⟩ := hblock p h hp
    refine ⟨mi, h1, ?_⟩
    rw [h7]
    have hlt : ∀ i ∈ List.range' mi.1 (mi.2 - mi.1), i < (allTerms H).length := by
      intro i hi; rw [List.mem_range'_1] at hi; omega
    have := gibbs (List.range' mi.1 (mi.2 - mi.1)) nu (fun i => (d.cs[i]?).getD 0 * Real.exp (d.A.dot y i))
      (fun i hi => hnu i (by rw [hn]; exact hlt i hi)) (fun i hi => mul_pos (hcpos i (hlt i hi)) (Real.exp_pos _)) _ rfl
    refine le_trans (le_of_eq ?_) this
    unfold sliceSum
    congr 1
    apply List.map_congr_left
    intro i hi
    rw [Real.log_mul (ne_of_gt (hcpos i (hlt i hi))) (Real.exp_ne_zero _), Real.log_exp]
    ring
  have hslice_add : ∀ (f g : Nat → ℝ) (mi : Nat × Nat), sliceSum (fun i => f i + g i) mi = sliceSum f mi + sliceSum g mi := by
    intro f g mi; unfold sliceSum; rw [List.sum_map_add]
  -- the dual cost as a plain sum over blocks
  have hdual : dualCost d nu la = (d.mIdxs.map (fun mi =>
      sliceSum (fun i => nu i * (Real.log ((d.cs[i]?).getD 0) - Real.log (nu i / sliceSum nu mi))) mi)).sum := by
    unfold dualCost
    have hz : d.mIdxs.zip la = d.mIdxs.map (fun mi => (mi, sliceSum nu mi)) := by
      rw [hla]
      have : (d.mIdxs.map (fun mi => ((List.range' mi.1 (mi.2 - mi.1)).map nu).sum)) = d.mIdxs.map (sliceSum nu) := rfl
      rw [this]
      clear_value d
      generalize d.mIdxs = l
      induction l with
      | nil => rfl
      | cons a l ih => simp [ih]
    rw [hz, List.map_map]
    congr 1
    apply List.map_congr_left
    intro mi hmi
    simp only [Function.comp]
    split_ifs with h0'
    · obtain ⟨p, hp, hp2⟩ := List.getElem_of_mem hmi
      have hpl : p < H.length := by rw [hd, gen_mIdxs_length] at hp; exact hp
      obtain ⟨mi', h1, h2, h3, _⟩ := hblock p H[p] (List.getElem?_eq_getElem hpl)
      rw [List.getElem?_eq_getElem hp, hp2] at h1
      cases h1
      have hzero : ∀ i ∈ List.range' mi.1 (mi.2 - mi.1), nu i = 0 := by
        intro i hi
        have hnn : ∀ x ∈ (List.range' mi.1 (mi.2 - mi.1)).map nu, 0 ≤ x := by
          intro x hx
          obtain ⟨j, hj, rfl⟩ := List.mem_map.1 hx
          rw [List.mem_range'_1] at hj
          exact hnu j (by rw [hn]; omega)
        have hle := List.single_le_sum hnn (nu i) (List.mem_map.2 ⟨i, hi, rfl⟩)
        have : ((List.range' mi.1 (mi.2 - mi.1)).map nu).sum = 0 := h0'
        rw [this] at hle
        exact le_antisymm hle (hnn _ (List.mem_map.2 ⟨i, hi, rfl⟩))
      symm
      unfold sliceSum
      apply List.sum_eq_zero
      intro x hx
      obtain ⟨j, hj, rfl⟩ := List.mem_map.1 hx
      rw [hzero j hj]; simp
    · rfl
  -- the linear part
  have hlin : (d.mIdxs.map (sliceSum (fun i => nu i * d.A.dot y i))).sum ≥
      - (tol * ((d.varlocs.map (·.1)).map (fun v => |Real.log (pt v)|)).sum) := by
    rw [hd, gen_slices_sum, ← hd]
    rw [dot_tdot d.A nu y (allTerms H).length (max d.A.ncols N) (gen_rows_lt H hw')
      (fun t ht => lt_of_lt_of_le (Coot.le_ncols _ t ht) (le_max_left _ _))]
    have habs : ((d.varlocs.map (·.1)).map (fun v => |Real.log (pt v)|)).sum
        = ((List.range (max d.A.ncols N)).map (fun j => |y j|)).sum := by
      rw [sum_range_pad (fun j => |y j|) N _ (fun j hj => by simp [hy0 j hj]) (le_max_right _ _)]
      congr 1
      apply List.ext_getElem?
      intro j
      rw [List.getElem?_map (f := fun v => |Real.log (pt v)|), List.getElem?_map (f := fun j => |y j|)]
      by_cases hj : j < N
      · rw [List.getElem?_range hj, List.getElem?_eq_getElem hj]
        simp only [Option.map_some]
        rw [hylog j _ (List.getElem?_eq_getElem hj)]
      · rw [List.getElem?_eq_none (by omega), List.getElem?_eq_none (by simpa using hj)]; rfl
    rw [habs, ← List.sum_map_mul_left]
    have hneg : ∀ l : List Nat, -(l.map (fun j => tol * |y j|)).sum ≤ (l.map (fun j => d.A.tdot nu j * y j)).sum := by
      intro l
      induction l with
      | nil => simp
      | cons j l ih =>
        simp only [List.map_cons, List.sum_cons]
        have h1 : -(tol * |y j|) ≤ d.A.tdot nu j * y j := by
          have h2 : |d.A.tdot nu j * y j| ≤ tol * |y j| := by
            rw [abs_mul]; exact mul_le_mul_of_nonneg_right (htd j) (abs_nonneg _)
          exact le_trans (neg_le_neg h2) (neg_abs_le _)
        linarith
    exact hneg _
  -- add everything up
  have hsum : (d.mIdxs.map (fun mi => sliceSum (fun i => nu i * (Real.log ((d.cs[i]?).getD 0) - Real.log (nu i / sliceSum nu mi))
        + nu i * d.A.dot y i) mi)).sum
      = dualCost d nu la + (d.mIdxs.map (sliceSum (fun i => nu i * d.A.dot y i))).sum := by
    rw [hdual, ← List.sum_map_add]
    congr 1
    apply List.map_congr_left
    intro mi _
    rw [hslice_add]
  have hrest : (ms.map (fun mi => sliceSum (fun i => nu i * (Real.log ((d.cs[i]?).getD 0) - Real.log (nu i / sliceSum nu mi))
        + nu i * d.A.dot y i) mi)).sum ≤ 0 := by
    apply sum_nonpos'
    intro x hx
    obtain ⟨mi, hmi, rfl⟩ := List.mem_map.1 hx
    obtain ⟨q, hq, hq2⟩ := List.getElem_of_mem hmi
    have hidx : d.mIdxs[q + 1]? = some mi := by
      rw [hms, List.getElem?_cons_succ, List.getElem?_eq_getElem hq, hq2]
    have hql : q + 1 < H.length := by
      by_contra hh
      have : d.mIdxs.length ≤ q + 1 := by rw [hd, gen_mIdxs_length]; omega
      rw [List.getElem?_eq_none this] at hidx; cases hidx
    have hHq : H[q + 1]? = some H[q + 1] := List.getElem?_eq_getElem hql
    obtain ⟨mi', h1, h2⟩ := hgibbs (q + 1) _ hHq
    rw [hidx] at h1
    cases h1
    obtain ⟨mi', h1, h2', h3', _⟩ := hblock (q + 1) _ hHq
    rw [hidx] at h1
    cases h1
    have hmem : H[q + 1] ∈ hs := by
      have hql' : q < hs.length := by rw [hH] at hql; simpa using hql
      have : H[q + 1] = hs[q] := by simp [hH]
      rw [this]; exact List.getElem_mem _
    have hle := hfeas _ hmem
    have hnn : 0 ≤ termsVal pt H[q + 1].terms := by
      unfold termsVal
      apply List.sum_nonneg
      intro x hx
      obtain ⟨t, ht, rfl⟩ := List.mem_map.1 hx
      have h1 := hpos _ (List.getElem_mem hql) t ht
      have h2 : 0 ≤ monVal pt t.1.items := by rw [← exp_expDot pt hpt]; exact le_of_lt (Real.exp_pos _)
      positivity
    have hlog := Real.log_nonpos hnn hle
    have hla0 : 0 ≤ sliceSum nu mi := by
      unfold sliceSum
      apply List.sum_nonneg
      intro x hx
      obtain ⟨j, hj, rfl⟩ := List.mem_map.1 hx
      rw [List.mem_range'_1] at hj
      exact hnu j (by rw [hn]; omega)
    exact le_trans h2 (mul_nonpos_of_nonneg_of_nonpos hla0 hlog)
  obtain ⟨mi, h1, h2⟩ := hgibbs 0 h0 (by simp [hH])
  rw [hms] at h1
  simp only [List.getElem?_cons_zero, Option.some.injEq] at h1
  subst h1
  have hfirst : sliceSum nu (0, h0.terms.length) = ((List.range h0.terms.length).map nu).sum := by
    unfold sliceSum; simp [List.range_eq_range']
  rw [hfirst] at h2
  have hcons : ∀ g : Nat × Nat → ℝ, (d.mIdxs.map g).sum = g (0, h0.terms.length) + (ms.map g).sum := by
    intro g; rw [hms]; simp
  rw [hcons] at hsum
  rw [hfirst] at hsum
  linarith

/-- The primal side of the check, for data that are those of a program up to the order of columns. -/
theorem check_feasible (h0 : Hmap V ℝ) (hs : List (Hmap V ℝ))
    (hw : ∀ h ∈ h0 :: hs, ∀ t ∈ h.terms, (t.1.items.map (·.1)).Nodup) (d : Data V ℝ) (A : Coot ℝ)
    (hcs : d.cs = (genLoop (h0 :: hs)).cs) (hmi : d.mIdxs = (genLoop (h0 :: hs)).mIdxs)
    (cost : ℝ) (primal nu : Nat → ℝ) (la : List ℝ) (tol abstol : ℝ)
    (hchk : checkSolution d cost primal nu la tol abstol A = true)
    (pt : V → ℝ) (hpt : ∀ v, 0 < pt v) (y : Nat → ℝ)
    (hy : ∀ j v, ((genLoop (h0 :: hs)).varlocs.map (·.1))[j]? = some v → y j = Real.log (pt v))
    (hrow : ∀ i, i < d.cs.length → rowDot A primal i = rowDot (genLoop (h0 :: hs)).A y i) :
    almostEqual tol abstol (termsVal pt h0.terms) cost = true ∧ ∀ h ∈ hs, termsVal pt h.terms ≤ 1 + tol := by
  set H := h0 :: hs with hH
  have hms : ∃ ms, (genLoop H).mIdxs = (0, h0.terms.length) :: ms := by
    have hg := gen_mIdxs H 0
    cases hml : (genLoop H).mIdxs with
    | nil => rw [hml] at hg; simp [hH] at hg
    | cons m ms =>
      rw [hml] at hg
      simp [hH, start] at hg
      exact ⟨ms, by rw [hg]⟩
  obtain ⟨ms, hms⟩ := hms
  have hpev : ∀ i, (d.cs[i]?).getD 0 * Real.exp (A.dot primal i) = ((genLoop H).cs[i]?).getD 0 * Real.exp (rowDot (genLoop H).A y i) := by
    intro i
    rw [← hcs, Coot.dot_eq]
    by_cases hi : i < d.cs.length
    · rw [hrow i hi]
    · rw [List.getElem?_eq_none (by omega)]; simp
  unfold checkSolution at hchk
  rw [hmi, hms] at hchk
  simp only [Bool.and_eq_true, Bool.not_eq_true', hpev] at hchk
  obtain ⟨⟨⟨⟨⟨⟨c1, c2⟩, c3⟩, c4⟩, c5⟩, c6⟩, c7⟩ := hchk
  constructor
  · obtain ⟨a, b, h1, h2, h3, _, _, _, h7⟩ := C20_blocks H hw pt hpt y hy 0 h0 (by simp [hH])
    rw [hms] at h1
    simp only [List.getElem?_cons_zero, Option.some.injEq, Prod.mk.injEq] at h1
    rw [h7, ← h1.1, ← h1.2, ← c1]
    unfold sliceSum
    rfl
  · intro h hh
    obtain ⟨q, hq, hq2⟩ := List.getElem_of_mem hh
    have hHq : H[q + 1]? = some h := by rw [hH, List.getElem?_cons_succ, List.getElem?_eq_getElem hq, hq2]
    obtain ⟨a, b, h1, h2, h3, _, _, _, h7⟩ := C20_blocks H hw pt hpt y hy (q + 1) h hHq
    rw [hms, List.getElem?_cons_succ] at h1
    rw [List.all_eq_true] at c2
    have := c2 _ (List.mem_of_getElem? h1)
    simp only [Bool.not_eq_true', decide_eq_false_iff_not, not_lt, gt_iff_lt] at this
    rw [h7]
    refine le_trans (le_of_eq ?_) this
    unfold sliceSum
    rfl

/-- C40, primal side with tolerances: if the check passes, the cost at the solution is the reported one and the constraints hold there, up to the
tolerance of the check. -/
theorem C40_feasible (h0 : Hmap V ℝ) (hs : List (Hmap V ℝ))
    (hw : ∀ h ∈ h0 :: hs, ∀ t ∈ h.terms, (t.1.items.map (·.1)).Nodup)
    (cost : ℝ) (primal nu : Nat → ℝ) (la : List ℝ) (tol abstol : ℝ)
    (hchk : checkSolution (genLoop (h0 :: hs)) cost primal nu la tol abstol = true)
    (pt : V → ℝ) (hpt : ∀ v, 0 < pt v)
    (hprim : ∀ j v, ((genLoop (h0 :: hs)).varlocs.map (·.1))[j]? = some v → primal j = Real.log (pt v)) :
    almostEqual tol abstol (termsVal pt h0.terms) cost = true ∧ ∀ h ∈ hs, termsVal pt h.terms ≤ 1 + tol := by
  exact check_feasible h0 hs hw _ _ rfl rfl cost primal nu la tol abstol hchk pt hpt primal hprim (fun _ _ => rfl)

/-- C40: if the check passes with zero tolerance, the primal solution is feasible, has the reported cost, and no feasible positive
point has lower cost. -/
theorem C40_optimal (h0 : Hmap V ℝ) (hs : List (Hmap V ℝ))
    (hw : ∀ h ∈ h0 :: hs, ∀ t ∈ h.terms, (t.1.items.map (·.1)).Nodup)
    (hpos : ∀ h ∈ h0 :: hs, ∀ t ∈ h.terms, 0 < t.2) (hne : h0.terms ≠ [])
    (cost : ℝ) (primal nu : Nat → ℝ) (la : List ℝ)
    (hla : la = (genLoop (h0 :: hs)).mIdxs.map (fun mi => ((List.range' mi.1 (mi.2 - mi.1)).map nu).sum))
    (hchk : checkSolution (genLoop (h0 :: hs)) cost primal nu la 0 0 = true) :
    (∀ pt : V → ℝ, (∀ v, 0 < pt v) →
      (∀ j v, ((genLoop (h0 :: hs)).varlocs.map (·.1))[j]? = some v → primal j = Real.log (pt v)) →
      termsVal pt h0.terms = cost ∧ ∀ h ∈ hs, termsVal pt h.terms ≤ 1) ∧
    (∀ pt : V → ℝ, (∀ v, 0 < pt v) → (∀ h ∈ hs, termsVal pt h.terms ≤ 1) → cost ≤ termsVal pt h0.terms) := by
  have hchk' := hchk
  set H := h0 :: hs with hH
  have hms : ∃ ms, (genLoop H).mIdxs = (0, h0.terms.length) :: ms := by
    have hg := gen_mIdxs H 0
    cases hml : (genLoop H).mIdxs with
    | nil => rw [hml] at hg; simp [hH] at hg
    | cons m ms =>
      rw [hml] at hg
      simp [hH, start] at hg
      exact ⟨ms, by rw [hg]⟩
  obtain ⟨ms, hms⟩ := hms
  unfold checkSolution at hchk
  rw [hms] at hchk
  simp only [Bool.and_eq_true, Bool.not_eq_true'] at hchk
  obtain ⟨⟨⟨⟨⟨⟨c1, c2⟩, c3⟩, c4⟩, c5⟩, c6⟩, c7⟩ := hchk
  have halm : ∀ a b : ℝ, almostEqual 0 0 a b = true → a = b := by
    intro a b h
    unfold almostEqual at h
    simp only [decide_eq_true_eq] at h
    rcases h with h | ⟨_, h⟩ | h
    · exact h
    · exact absurd h (not_lt.2 (abs_nonneg _))
    · exact absurd h (not_lt.2 (abs_nonneg _))
  have c1 := halm _ _ c1
  have c3 := halm _ _ c3
  have c7 := halm _ _ c7
  have hnu : ∀ i < (genLoop H).cs.length, 0 ≤ nu i := by
    intro i hi
    by_contra hlt
    have h1 : (List.range (genLoop H).cs.length).any (fun i => decide (nu i < 0)) = true :=
      List.any_eq_true.2 ⟨i, List.mem_range.2 hi, by simpa using lt_of_not_ge hlt⟩
    rw [h1, Bool.true_and, List.any_eq_false] at c4
    have := c4 i (List.mem_range.2 hi)
    simp at this
    exact hlt this
  refine ⟨?_, ?_⟩
  · intro pt hpt hprim
    constructor
    · obtain ⟨a, b, h1, h2, h3, _, _, _, h7⟩ := C20_blocks H hw pt hpt primal hprim 0 h0 (by simp [hH])
      rw [hms] at h1
      simp only [List.getElem?_cons_zero, Option.some.injEq, Prod.mk.injEq] at h1
      rw [h7, ← h1.1, ← h1.2, ← c1]
      unfold sliceSum
      simp only [Coot.dot_eq]
    · intro h hh
      obtain ⟨q, hq, hq2⟩ := List.getElem_of_mem hh
      have hHq : H[q + 1]? = some h := by rw [hH, List.getElem?_cons_succ, List.getElem?_eq_getElem hq, hq2]
      obtain ⟨a, b, h1, h2, h3, _, _, _, h7⟩ := C20_blocks H hw pt hpt primal hprim (q + 1) h hHq
      rw [hms, List.getElem?_cons_succ] at h1
      rw [List.all_eq_true] at c2
      have := c2 _ (List.mem_of_getElem? h1)
      simp only [Bool.not_eq_true', decide_eq_false_iff_not, not_lt, gt_iff_lt, add_zero] at this
      rw [h7]
      refine le_trans (le_of_eq ?_) this
      unfold sliceSum
      simp only [Coot.dot_eq]
  · intro pt hpt hfeas
    have hno := C40_near_optimal h0 hs hw hpos cost primal nu la 0 0 (le_refl _) hla hnu hchk' pt hpt hfeas
    have hone : ((List.range h0.terms.length).map nu).sum = 1 := by
      rw [← c3]; unfold sliceSum; simp [List.range_eq_range']
    rw [hone, zero_mul, sub_zero, one_mul] at hno
    have hpos0 : 0 < termsVal pt h0.terms := by
      unfold termsVal
      apply List.sum_pos
      · intro x hx
        obtain ⟨t, ht, rfl⟩ := List.mem_map.1 hx
        have h1 := hpos h0 List.mem_cons_self t ht
        have h2 : 0 < monVal pt t.1.items := by rw [← exp_expDot pt hpt]; exact Real.exp_pos _
        positivity
      · simpa using hne
    rw [← c7]
    calc Real.exp (dualCost (genLoop H) nu la) ≤ Real.exp (Real.log (termsVal pt h0.terms)) := Real.exp_le_exp.2 hno
      _ = termsVal pt h0.terms := Real.exp_log hpos0

/-- C40, multipliers: whichever multipliers the solver returns, those derived for posynomials are the sums of those of their terms, as
the check assumes. -/
theorem C40_multipliers (hs : List (Hmap V ℝ)) (hpos : ∀ h ∈ hs, h.terms ≠ [] ∧ ∀ t ∈ h.terms, 0 < t.2)
    (primal : Nat → ℝ) (out : DualOut) (hlen : ∀ l, out = .la l → l.length = hs.length ∨ l.length + 1 = hs.length)
    (la : List ℝ) (nu : Nat → ℝ) (hg : generateNula (genLoop hs) primal out = some (la, nu)) :
    la = (genLoop hs).mIdxs.map (fun mi => ((List.range' mi.1 (mi.2 - mi.1)).map nu).sum) := by
  cases out with
  | none => simp [generateNula] at hg
  | nu n =>
    simp only [generateNula, Option.some.injEq, Prod.mk.injEq] at hg
    obtain ⟨rfl, rfl⟩ := hg
    rfl
  | la l =>
    simp only [generateNula, Option.some.injEq, Prod.mk.injEq] at hg
    obtain ⟨hla, hnu⟩ := hg
    rw [gen_mIdxs_length] at hla hnu
    rw [hla] at hnu
    have hl : la.length = hs.length := by
      rw [← hla]
      rcases hlen l rfl with h | h
      · rw [if_neg (by omega)]; exact h
      · rw [if_pos h]; simpa using h
    apply List.ext_getElem?
    intro p
    rw [List.getElem?_map]
    by_cases hp : p < hs.length
    · have hhp : hs[p]? = some hs[p] := List.getElem?_eq_getElem hp
      rw [gen_mIdxs, hhp]
      simp only [Option.map_some, Nat.add_sub_cancel_left]
      have hpl : p < la.length := by omega
      rw [List.getElem?_eq_getElem hpl]
      congr 1
      set h := hs[p] with hh
      set z := fun i => Real.log (((genLoop hs).cs[i]?).getD 0) + (genLoop hs).A.dot primal i with hz
      have hpi : ∀ i, (genLoop hs).pIdxs[i]? = some p ↔ start hs p ≤ i ∧ i < start hs p + h.terms.length := by
        intro i
        rw [gen_pIdxs]
        constructor
        · rintro ⟨h', a, b, c⟩
          rw [hhp] at a; cases a; exact ⟨b, c⟩
        · rintro ⟨b, c⟩; exact ⟨h, hhp, b, c⟩
      have hfil : (List.range (genLoop hs).cs.length).filter (fun i' => (genLoop hs).pIdxs[i']? = some p)
          = List.range' (start hs p) h.terms.length := by
        have hle := start_le hhp
        have hcl : (genLoop hs).cs.length = (allTerms hs).length := by rw [gen_cs, List.length_map]
        have hnd : ((List.range (genLoop hs).cs.length).filter (fun i' => (genLoop hs).pIdxs[i']? = some p)).Pairwise (· < ·) :=
          List.Pairwise.filter _ (List.pairwise_lt_range)
        refine List.Pairwise.eq_of_mem_iff hnd (List.pairwise_lt_range' ) ?_
        intro i
        rw [List.mem_filter, List.mem_range, List.mem_range'_1, decide_eq_true_eq, hpi]
        omega
      have hnui : ∀ i ∈ List.range' (start hs p) h.terms.length, nu i = la[p] * Real.exp (z i) /
          ((List.range' (start hs p) h.terms.length).map (fun i' => Real.exp (z i'))).sum := by
        intro i hi
        rw [List.mem_range'_1] at hi
        have hpi' := (hpi i).2 hi
        rw [← hnu]
        simp only
        rw [hpi']
        simp only [Option.getD_some]
        rw [hfil, List.getElem?_eq_getElem hpl]
        rfl
      rw [List.map_congr_left hnui]
      have hS : 0 < ((List.range' (start hs p) h.terms.length).map (fun i' => Real.exp (z i'))).sum := by
        apply List.sum_pos
        · intro x hx
          obtain ⟨i, _, rfl⟩ := List.mem_map.1 hx
          exact Real.exp_pos _
        · have := (hpos h (List.getElem_mem hp)).1
          simpa using this
      have hdiv : ∀ (l' : List Nat) (S a : ℝ), (l'.map (fun i => a * Real.exp (z i) / S)).sum = a * (l'.map (fun i => Real.exp (z i))).sum / S := by
        intro l' S a
        induction l' with
        | nil => simp
        | cons i l' ih => simp only [List.map_cons, List.sum_cons, ih]; ring
      rw [hdiv]
      field_simp
    · rw [List.getElem?_eq_none (by omega), List.getElem?_eq_none (by rw [gen_mIdxs_length]; omega)]
      rfl

/-- C40, multipliers: what the solver returns is passed on. Multipliers of posynomials are completed by a one for the cost if that is
missing, and each is shared among the terms in proportion to their values at the solution. -/
theorem C40_shares (hs : List (Hmap V ℝ)) (hpos : ∀ h ∈ hs, h.terms ≠ [] ∧ ∀ t ∈ h.terms, 0 < t.2)
    (hw : ∀ h ∈ hs, ∀ t ∈ h.terms, (t.1.items.map (·.1)).Nodup)
    (pt : V → ℝ) (hpt : ∀ v, 0 < pt v) (primal : Nat → ℝ)
    (hy : ∀ j v, ((genLoop hs).varlocs.map (·.1))[j]? = some v → primal j = Real.log (pt v)) :
    (∀ n, ∃ la, generateNula (genLoop hs) primal (.nu n) = some (la, n)) ∧
    (∀ l, l.length = hs.length ∨ l.length + 1 = hs.length → ∃ nu la, generateNula (genLoop hs) primal (.la l) = some (la, nu) ∧
      la = (if l.length = hs.length then l else 1 :: l) ∧
      ∀ (p : Nat) (h : Hmap V ℝ) (x : ℝ) (j : Nat) (t : HV V ℝ × ℝ), hs[p]? = some h → la[p]? = some x → h.terms[j]? = some t →
        nu (((hs.take p).flatMap (·.terms)).length + j) * termsVal pt h.terms = x * (t.2 * monVal pt t.1.items)) := by
  refine ⟨fun n => ⟨_, rfl⟩, ?_⟩
  intro l hl
  refine ⟨_, _, rfl, ?_, ?_⟩
  · rw [gen_mIdxs_length]
    rcases hl with h | h
    · rw [if_neg (by omega), if_pos h]
    · rw [if_pos h, if_neg (by omega)]
  intro p h x j t hp hx ht
  have hst : ((hs.take p).flatMap (·.terms)).length = start hs p := by simp [start, List.length_flatMap]
  rw [hst]
  have hpl : p < hs.length := by
    by_contra hh; rw [List.getElem?_eq_none (by omega)] at hp; cases hp
  have hjl : j < h.terms.length := by
    by_contra hh; rw [List.getElem?_eq_none (by omega)] at ht; cases ht
  obtain ⟨a, b, e1, _, _, _, e4, e5, e6⟩ := C20_blocks hs hw pt hpt primal hy p h hp
  rw [gen_mIdxs, hp] at e1
  simp only [Option.map_some, Option.some.injEq, Prod.mk.injEq] at e1
  obtain ⟨rfl, rfl⟩ := e1
  have hpi := (e5 (start hs p + j)).2 ⟨by omega, by omega⟩
  simp only [hpi, Option.getD_some, hx]
  have hle := start_le hp
  have hcl : (genLoop hs).cs.length = (allTerms hs).length := by rw [gen_cs, List.length_map]
  have hfil : (List.range (genLoop hs).cs.length).filter (fun i' => (genLoop hs).pIdxs[i']? = some p)
      = List.range' (start hs p) h.terms.length := by
    have hnd : ((List.range (genLoop hs).cs.length).filter (fun i' => (genLoop hs).pIdxs[i']? = some p)).Pairwise (· < ·) :=
      List.Pairwise.filter _ (List.pairwise_lt_range)
    refine List.Pairwise.eq_of_mem_iff hnd (List.pairwise_lt_range' ) ?_
    intro i
    rw [List.mem_filter, List.mem_range, List.mem_range'_1, decide_eq_true_eq, e5]
    omega
  have hexp : ∀ i, start hs p ≤ i → i < start hs p + h.terms.length →
      Real.exp (Real.log (((genLoop hs).cs[i]?).getD 0) + (genLoop hs).A.dot primal i)
        = ((genLoop hs).cs[i]?).getD 0 * Real.exp (rowDot (genLoop hs).A primal i) := by
    intro i h1 h2
    have hlt : i < (allTerms hs).length := by omega
    have hc : 0 < ((genLoop hs).cs[i]?).getD 0 := by
      rw [gen_cs, List.getElem?_map, List.getElem?_eq_getElem hlt]
      obtain ⟨h', hh', ht'⟩ := List.mem_flatMap.1 (List.getElem_mem hlt)
      exact (hpos h' hh').2 _ ht'
    rw [Coot.dot_eq, Real.exp_add, Real.exp_log hc]
  rw [hfil]
  have hsum : ((List.range' (start hs p) h.terms.length).map (fun i' =>
      Real.exp (Real.log (((genLoop hs).cs[i']?).getD 0) + (genLoop hs).A.dot primal i'))).sum = termsVal pt h.terms := by
    rw [e6, Nat.add_sub_cancel_left]
    congr 1
    apply List.map_congr_left
    intro i hi
    rw [List.mem_range'_1] at hi
    exact hexp i hi.1 hi.2
  rw [hsum, hexp _ (by omega) (by omega)]
  have htt : (hs.flatMap (·.terms))[start hs p + j]? = some t := by
    have hsplit : hs = hs.take p ++ h :: hs.drop (p + 1) := by
      have hgp : hs[p] = h := by rw [List.getElem?_eq_getElem hpl, Option.some.injEq] at hp; exact hp
      rw [← hgp, ← List.drop_eq_getElem_cons hpl, List.take_append_drop]
    rw [← hst]
    conv_lhs => rw [hsplit]
    rw [List.flatMap_append, List.flatMap_cons]
    rw [List.take_append_of_le_length (by simp; omega), List.take_take, min_self]
    rw [List.getElem?_append_right (by omega), Nat.add_sub_cancel_left, List.getElem?_append_left hjl]
    exact ht
  obtain ⟨c, hc1, hc2, _⟩ := C20_rows hs hw pt hpt primal hy (start hs p + j) t htt
  rw [hc1, Option.getD_some, hc2]
  have hS : 0 < termsVal pt h.terms := by
    unfold termsVal
    have hh := hpos h (List.mem_of_getElem? hp)
    apply List.sum_pos
    · intro x hx
      obtain ⟨t, ht, rfl⟩ := List.mem_map.1 hx
      have h2 : 0 < monVal pt t.1.items := by rw [← exp_expDot pt hpt]; exact Real.exp_pos _
      exact mul_pos (hh.2 t ht) h2
    · simpa using hh.1
  field_simp

/-- The hypotheses of the C40 theorems can be met: minimise `x` subject to `1/x <= 1`. -/
example : let h0 : Hmap (Fin 1) ℝ := ⟨[(⟨[(0, 1)]⟩, 1)], false⟩
    let hs : List (Hmap (Fin 1) ℝ) := [⟨[(⟨[(0, -1)]⟩, 1)], false⟩]
    checkSolution (genLoop (h0 :: hs)) 1 (fun _ => 0) (fun _ => 1) [1, 1] 0 0 = true ∧
    [1, 1] = (genLoop (h0 :: hs)).mIdxs.map (fun mi => ((List.range' mi.1 (mi.2 - mi.1)).map (fun _ => (1 : ℝ))).sum) := by
  have hg : genLoop ([⟨[(⟨[(0, 1)]⟩, 1)], false⟩, ⟨[(⟨[(0, -1)]⟩, 1)], false⟩] : List (Hmap (Fin 1) ℝ)) =
      ⟨[(0, 1), (1, 2)], [0, 1], [1, 1], [⟨[(0, 1)]⟩, ⟨[(0, -1)]⟩], [(0, [0, 1])], [], [], []⟩ := by
    simp [genLoop, genStep, expStep, locAppend, PyDict.set, PyDict.get?]
  simp only
  rw [hg]
  constructor
  · simp [checkSolution, almostEqual, sliceSum, Data.A, Data.colEntries, Data.expOf, HV.get?, PyDict.get?, Coot.dot, Coot.tdot, Coot.ncols,
      dualNan, dualCost, List.range_succ]
  · simp

end Verif
