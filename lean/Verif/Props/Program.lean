import Verif.Lemmas.GP
import Mathlib.Analysis.SpecialFunctions.Pow.Real

/-! Properties of the data handed to a solver: C20. -/

set_option linter.unusedSectionVars false

namespace Verif
open PyDict GP
variable {V : Type} [DecidableEq V]

/-- The exponential of the linear form of an exponent vector is its value. -/
theorem exp_expDot (pt : V → ℝ) (hpt : ∀ v, 0 < pt v) (e : List (V × ℝ)) :
    Real.exp (expDot (fun v => Real.log (pt v)) e) = monVal pt e := by
  induction e with
  | nil => simp [expDot, monVal]
  | cons p e ih =>
    have : expDot (fun v => Real.log (pt v)) (p :: e) = p.2 * Real.log (pt p.1) + expDot (fun v => Real.log (pt v)) e := by
      simp [expDot]
    rw [this, Real.exp_add, ih]
    simp only [monVal, List.map_cons, List.prod_cons]
    rw [Real.rpow_def_of_pos (hpt _), mul_comm p.2]

theorem expDot_congr {f g : V → ℝ} (e : List (V × ℝ)) (h : ∀ p ∈ e, f p.1 = g p.1) : expDot f e = expDot g e := by
  unfold expDot
  congr 1
  apply List.map_congr_left
  intro p hp
  rw [h p hp]

/-- C20, rows: at every positive point, coefficient `i` times the exponential of row `i` of the matrix applied to the
logarithms of the variables is the value of term `i`. `y` is the vector of logarithms, in the order of the columns. -/
theorem C20_rows (hs : List (Hmap V ℝ)) (hw : ∀ h ∈ hs, ∀ t ∈ h.terms, (t.1.items.map (·.1)).Nodup)
    (pt : V → ℝ) (hpt : ∀ v, 0 < pt v) (y : Nat → ℝ)
    (hy : ∀ j v, ((genLoop hs).varlocs.map (·.1))[j]? = some v → y j = Real.log (pt v)) (i : Nat) (t : HV V ℝ × ℝ)
    (ht : (hs.flatMap (·.terms))[i]? = some t) :
    ∃ c, (genLoop hs).cs[i]? = some c ∧
      c * Real.exp (rowDot (genLoop hs).A y i) = t.2 * monVal pt t.1.items ∧
      (0 < t.2 → Real.log c + rowDot (genLoop hs).A y i = Real.log (t.2 * monVal pt t.1.items)) := by
  have hw' : ∀ t ∈ allTerms hs, WF t.1.items := by
    intro t ht
    obtain ⟨h, hh, ht⟩ := List.mem_flatMap.1 ht
    exact wf_nodup.2 (hw h hh t ht)
  have he : (genLoop hs).exps[i]? = some t.1 := by
    rw [gen_exps, List.getElem?_map]
    show Option.map _ ((hs.flatMap (·.terms))[i]?) = _
    rw [ht]; rfl
  have hc : (genLoop hs).cs[i]? = some t.2 := by
    rw [gen_cs, List.getElem?_map]
    show Option.map _ ((hs.flatMap (·.terms))[i]?) = _
    rw [ht]; rfl
  have hr := gen_rowDot hs hw' y i t.1 he
  have hloc := (gen_expOK hs hw').loc
  rw [← gen_exps] at hloc
  have hdot : expDot (fun v => y ((genLoop hs).varidx v)) t.1.items = expDot (fun v => Real.log (pt v)) t.1.items := by
    apply expDot_congr
    intro p hp
    have hm : p.1 ∈ (genLoop hs).varlocs.map (·.1) := by
      refine (locOK_mem hloc p.1).2 ⟨i, t.1, he, ?_⟩
      exact contains_iff_mem.2 (List.mem_map.2 ⟨p, hp, rfl⟩)
    apply hy
    unfold Data.varidx
    rw [List.getElem?_eq_getElem (List.idxOf_lt_length_of_mem hm), List.getElem_idxOf]
  rw [hr, hdot]
  refine ⟨t.2, hc, by rw [exp_expDot pt hpt], fun hpos => ?_⟩
  rw [← exp_expDot pt hpt, Real.log_mul (ne_of_gt hpos) (Real.exp_ne_zero _), Real.log_exp]

/-- C20, blocks: the value of posynomial `p` is the sum over its slice of rows; slices follow each other without gaps,
`p_idxs` names the slice a row is in, and `k` gives their sizes. -/
theorem C20_blocks (hs : List (Hmap V ℝ)) (hw : ∀ h ∈ hs, ∀ t ∈ h.terms, (t.1.items.map (·.1)).Nodup)
    (pt : V → ℝ) (hpt : ∀ v, 0 < pt v) (y : Nat → ℝ)
    (hy : ∀ j v, ((genLoop hs).varlocs.map (·.1))[j]? = some v → y j = Real.log (pt v)) (p : Nat) (h : Hmap V ℝ)
    (hp : hs[p]? = some h) :
    ∃ a b, (genLoop hs).mIdxs[p]? = some (a, b) ∧ (ks hs)[p]? = some (b - a) ∧
      (p = 0 → a = 0) ∧
      (∀ a' b', (genLoop hs).mIdxs[p + 1]? = some (a', b') → a' = b) ∧
      (p + 1 = hs.length → b = (genLoop hs).cs.length) ∧
      (∀ i, (genLoop hs).pIdxs[i]? = some p ↔ a ≤ i ∧ i < b) ∧
      termsVal pt h.terms = ((List.range' a (b - a)).map (fun i =>
        ((genLoop hs).cs[i]?).getD 0 * Real.exp (rowDot (genLoop hs).A y i))).sum := by
  have hlt : p < hs.length := by
    by_contra hh; rw [List.getElem?_eq_none (by omega)] at hp; cases hp
  refine ⟨start hs p, start hs p + h.terms.length, by rw [gen_mIdxs, hp]; rfl, ?_, ?_, ?_, ?_, ?_, ?_⟩
  · unfold ks; rw [List.getElem?_map, hp]; simp
  · rintro rfl; simp [start]
  · intro a' b' hh
    rw [gen_mIdxs] at hh
    cases hq : hs[p + 1]? with
    | none => rw [hq] at hh; cases hh
    | some h' =>
      rw [hq] at hh
      simp only [Option.map_some, Option.some.injEq, Prod.mk.injEq] at hh
      rw [← hh.1]
      unfold start
      rw [List.take_add_one, hp]
      simp
  · intro hlen
    rw [gen_cs, List.length_map, ← start_length, ← hlen]
    unfold start
    rw [List.take_add_one, hp]
    simp
  · intro i
    rw [gen_pIdxs]
    constructor
    · rintro ⟨h', hh, h1, h2⟩
      rw [hp] at hh; cases hh
      exact ⟨h1, h2⟩
    · rintro ⟨h1, h2⟩
      exact ⟨h, hp, h1, h2⟩
  · have hsl : ∀ n, n < h.terms.length → (hs.flatMap (·.terms))[start hs p + n]? = h.terms[n]? := by
      intro n hn
      have hsplit : hs = hs.take p ++ h :: hs.drop (p + 1) := by
        conv_lhs => rw [← List.take_append_drop p hs, List.drop_eq_getElem_cons hlt]
        congr 2
        rw [List.getElem?_eq_getElem hlt] at hp
        exact Option.some.inj hp
      have hst : start hs p = ((hs.take p).flatMap (·.terms)).length := by
        simp [start, List.length_flatMap]
      rw [hst]
      conv_lhs => rw [hsplit]
      rw [List.flatMap_append, List.flatMap_cons, List.getElem?_append_right (by
        conv_rhs => rw [← hsplit]
        omega)]
      conv_lhs => rw [← hsplit]
      rw [List.getElem?_append_left (by omega)]
      congr 1; omega
    unfold termsVal
    rw [Nat.add_sub_cancel_left]
    rw [List.range'_eq_map_range, List.map_map]
    have hmap : h.terms.map (fun t => t.2 * monVal pt t.1.items) =
        (List.range h.terms.length).map (fun n => ((h.terms[n]?).map (fun t => t.2 * monVal pt t.1.items)).getD 0) := by
      apply List.ext_getElem?
      intro n
      rw [List.getElem?_map, List.getElem?_map]
      by_cases hn : n < h.terms.length
      · rw [List.getElem?_range hn, List.getElem?_eq_getElem hn]; simp [hn]
      · rw [List.getElem?_eq_none (by omega), List.getElem?_eq_none (by simpa using hn)]; rfl
    rw [hmap]
    congr 1
    apply List.map_congr_left
    intro n hn
    have hn := List.mem_range.1 hn
    have hg := hsl n hn
    rw [List.getElem?_eq_getElem hn] at hg
    obtain ⟨c, hc, hval, _⟩ := C20_rows hs hw pt hpt y hy _ _ hg
    simp only [Function.comp]
    rw [hc, List.getElem?_eq_getElem hn]
    simp only [Option.map_some, Option.getD_some]
    exact hval.symm

/-- C20, columns: each variable that occurs has exactly one column, and every column belongs to one. Rows without variables
get an explicit zero entry, so every row of the matrix has an entry. -/
theorem C20_columns (hs : List (Hmap V ℝ)) (hw : ∀ h ∈ hs, ∀ t ∈ h.terms, (t.1.items.map (·.1)).Nodup) :
    ((genLoop hs).varlocs.map (·.1)).Nodup ∧
    (∀ v, v ∈ (genLoop hs).varlocs.map (·.1) ↔ ∃ h ∈ hs, ∃ t ∈ h.terms, v ∈ t.1.items.map (·.1)) ∧
    (∀ i < (genLoop hs).cs.length, ∃ t ∈ (genLoop hs).A, t.1 = i) := by
  have hw' : ∀ t ∈ allTerms hs, WF t.1.items := by
    intro t ht
    obtain ⟨h, hh, ht⟩ := List.mem_flatMap.1 ht
    exact wf_nodup.2 (hw h hh t ht)
  have hok := gen_expOK hs hw'
  have hmemv : ∀ v, v ∈ (genLoop hs).varlocs.map (·.1) ↔ ∃ h ∈ hs, ∃ t ∈ h.terms, v ∈ t.1.items.map (·.1) := by
    intro v
    rw [locOK_mem hok.loc v]
    constructor
    · rintro ⟨i, e, he, hc⟩
      obtain ⟨t, ht, rfl⟩ := List.mem_map.1 (List.mem_of_getElem? he)
      obtain ⟨h, hh, ht⟩ := List.mem_flatMap.1 ht
      exact ⟨h, hh, t, ht, contains_iff_mem.1 hc⟩
    · rintro ⟨h, hh, t, ht, hv⟩
      have : t.1 ∈ (allTerms hs).map (·.1) := List.mem_map.2 ⟨t, List.mem_flatMap.2 ⟨h, hh, ht⟩, rfl⟩
      obtain ⟨i, hi, hi2⟩ := List.getElem_of_mem this
      exact ⟨i, t.1, by rw [List.getElem?_eq_getElem hi, hi2], contains_iff_mem.2 hv⟩
  have hnd : ((genLoop hs).varlocs.map (·.1)).Nodup := by
    have := hok.loc.wf
    unfold WF at this
    unfold List.Nodup
    rw [List.pairwise_map]
    exact this.imp (fun hab => by simpa using hab)
  refine ⟨hnd, hmemv, ?_⟩
  intro i hi
  rw [gen_cs, List.length_map] at hi
  have hi' : i < ((allTerms hs).map (·.1)).length := by simpa using hi
  have he := List.getElem?_eq_getElem hi'
  set e := ((allTerms hs).map (·.1))[i] with hed
  by_cases hem : e.items = []
  · exact ⟨(i, 0, 0), List.mem_append_left _ (hok.tripAll i e he hem), rfl⟩
  · obtain ⟨p, hp⟩ := List.exists_mem_of_ne_nil _ hem
    have hc : e.items.contains p.1 = true := contains_iff_mem.2 (List.mem_map.2 ⟨p, hp, rfl⟩)
    have hv := (locOK_mem hok.loc p.1).2 ⟨i, e, he, hc⟩
    obtain ⟨q, hq, hqp⟩ := List.mem_map.1 hv
    obtain ⟨v, locs⟩ := q
    simp only at hqp
    subst hqp
    have hlocs := locOK_nonempty hok.loc hq
    obtain ⟨j, hj, hj2⟩ := List.getElem_of_mem hq
    refine ⟨(i, j, (genLoop hs).expOf i p.1), List.mem_append_right _ ?_, rfl⟩
    unfold Data.colEntries
    rw [List.mem_flatMap]
    refine ⟨((p.1, locs), j), ?_, ?_⟩
    · have hz := List.getElem_mem (l := (genLoop hs).varlocs.zipIdx) (n := j) (by simpa using hj)
      rw [List.getElem_zipIdx] at hz
      simpa [hj2] using hz
    · rw [List.mem_map]
      exact ⟨i, by rw [hlocs]; exact mem_occ.2 ⟨e, he, hc⟩, rfl⟩

/-- C20, equalities: rows marked as belonging to a monomial equality are exactly those of its halves, and of each
consecutive pair of halves the first is in `first_half`. -/
theorem C20_equalities (hs : List (Hmap V ℝ)) (hne : ∀ h ∈ hs, h.fromMeq = true → h.terms ≠ []) (m : Nat) :
    (m ∈ (genLoop hs).meqAll ↔ ∃ (p : Nat) (h : Hmap V ℝ), hs[p]? = some h ∧ h.fromMeq = true ∧
      ((hs.take p).flatMap (·.terms)).length = m) ∧
    (m ∈ (genLoop hs).firstHalf ↔ ∃ (p : Nat) (h : Hmap V ℝ), hs[p]? = some h ∧ h.fromMeq = true ∧
      ((hs.take p).flatMap (·.terms)).length = m ∧ Even ((hs.take p).countP (·.fromMeq))) := by
  obtain ⟨_, _, _, h4, h5⟩ := gen_meq hs hne
  have hst : ∀ p, ((hs.take p).flatMap (·.terms)).length = start hs p := by
    intro p; simp [start, List.length_flatMap]
  have hmb : ∀ p, Even ((hs.take p).countP (·.fromMeq)) ↔ meqBefore hs p % 2 = 0 := by
    intro p; unfold meqBefore; rw [List.countP_eq_length_filter, Nat.even_iff]
  constructor
  · rw [h4]
    simp only [hst]
  · rw [h5]
    simp only [hst, hmb]

/-- The hypotheses of the C20 theorems are met: cost `x + 2`, the equality `x*y = 3` and the inequality `y <= 1`. -/
example : let hs : List (Hmap (Fin 2) ℝ) :=
    [⟨[(⟨[(0, 1)]⟩, 1), (⟨[]⟩, 2)], false⟩, ⟨[(⟨[(0, 1), (1, 1)]⟩, 1/3)], true⟩, ⟨[(⟨[(0, -1), (1, -1)]⟩, 3)], true⟩, ⟨[(⟨[(1, 1)]⟩, 1)], false⟩]
    (∀ h ∈ hs, ∀ t ∈ h.terms, (t.1.items.map (·.1)).Nodup) ∧ (∀ h ∈ hs, h.fromMeq = true → h.terms ≠ []) ∧
    (genLoop hs).firstHalf = [2] ∧ (genLoop hs).meqAll = [2, 3] ∧ (genLoop hs).pIdxs = [0, 0, 1, 2, 3] ∧
    (genLoop hs).varlocs = [(0, [0, 2, 3]), (1, [2, 3, 4])] := by
  refine ⟨?_, ?_, ?_, ?_, ?_, ?_⟩
  · intro h hh t ht
    simp only [List.mem_cons, List.not_mem_nil, or_false] at hh
    rcases hh with rfl | rfl | rfl | rfl <;> simp only [List.mem_cons, List.not_mem_nil, or_false] at ht
    · rcases ht with rfl | rfl <;> simp
    all_goals subst ht; simp
  all_goals
    simp [genLoop, genStep, noteMeq, expStep, locAppend, PyDict.set, PyDict.get?]

end Verif
