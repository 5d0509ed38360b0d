import Verif.Model.Check
import Verif.Lemmas.GP
import Mathlib.Analysis.SpecialFunctions.Log.Basic
import Mathlib.Tactic.Linarith

/-! Weak duality of geometric programs, and sums over sparse matrices. -/

set_option linter.unusedSectionVars false

namespace Verif
namespace GP
open PyDict

section Coot
variable {K : Type} [Field K] [LinearOrder K]

theorem Coot.dot_eq (A : Coot K) (y : Nat → K) (i : Nat) : A.dot y i = rowDot A y i := by
  have : ∀ acc, A.foldl (fun acc t => if t.1 = i then acc + t.2.2 * y t.2.1 else acc) acc = acc + rowDot A y i := by
    induction A with
    | nil => intro acc; simp [rowDot]
    | cons t A ih =>
      intro acc
      rw [List.foldl_cons, ih, rowDot_cons]
      split_ifs <;> ring
  unfold Coot.dot
  rw [this, zero_add]

theorem Coot.tdot_eq (A : Coot K) (nu : Nat → K) (j : Nat) :
    A.tdot nu j = ((A.filter (fun t => t.2.1 = j)).map (fun t => t.2.2 * nu t.1)).sum := by
  have : ∀ acc, A.foldl (fun acc t => if t.2.1 = j then acc + t.2.2 * nu t.1 else acc) acc
      = acc + ((A.filter (fun t => t.2.1 = j)).map (fun t => t.2.2 * nu t.1)).sum := by
    induction A with
    | nil => intro acc; simp
    | cons t A ih =>
      intro acc
      rw [List.foldl_cons, ih, List.filter_cons]
      by_cases h : t.2.1 = j
      · simp [h]; ring
      · simp [h]
  unfold Coot.tdot
  rw [this, zero_add]

theorem Coot.le_ncols (A : Coot K) : ∀ t ∈ A, t.2.1 < A.ncols := by
  have : ∀ m, m ≤ A.foldl (fun m t => max m (t.2.1 + 1)) m ∧ ∀ t ∈ A, t.2.1 < A.foldl (fun m t => max m (t.2.1 + 1)) m := by
    induction A with
    | nil => intro m; simp
    | cons t A ih =>
      intro m
      rw [List.foldl_cons]
      obtain ⟨h1, h2⟩ := ih (max m (t.2.1 + 1))
      refine ⟨le_trans (le_max_left _ _) h1, ?_⟩
      intro t' ht'
      rcases List.mem_cons.1 ht' with rfl | ht'
      · exact lt_of_lt_of_le (Nat.lt_succ_self _) (le_trans (le_max_right _ _) h1)
      · exact h2 t' ht'
  exact (this 0).2

/-- `∑ᵢ νᵢ (A y)ᵢ = ∑ⱼ (Aᵀ ν)ⱼ yⱼ`. -/
theorem dot_tdot (A : Coot K) (nu y : Nat → K) (n m : Nat) (hr : ∀ t ∈ A, t.1 < n) (hc : ∀ t ∈ A, t.2.1 < m) :
    ((List.range n).map (fun i => nu i * A.dot y i)).sum = ((List.range m).map (fun j => A.tdot nu j * y j)).sum := by
  simp only [Coot.dot_eq, Coot.tdot_eq]
  induction A with
  | nil => simp [rowDot]
  | cons t A ih =>
    have ih := ih (fun t' h' => hr t' (by simp [h'])) (fun t' h' => hc t' (by simp [h']))
    have h1 : ((List.range n).map (fun i => nu i * rowDot (t :: A) y i)).sum
        = nu t.1 * (t.2.2 * y t.2.1) + ((List.range n).map (fun i => nu i * rowDot A y i)).sum := by
      have : (fun i => nu i * rowDot (t :: A) y i) =
          fun i => (if t.1 = i then nu t.1 * (t.2.2 * y t.2.1) else 0) + nu i * rowDot A y i := by
        funext i
        rw [rowDot_cons]
        by_cases h : t.1 = i
        · subst h; simp; ring
        · simp [h]
      rw [this, List.sum_map_add]
      congr 1
      rw [← List.sum_toFinset _ List.nodup_range, Finset.sum_ite_eq, if_pos (by simpa using hr t (by simp))]
    have h2 : ((List.range m).map (fun j => (((t :: A).filter (fun t => t.2.1 = j)).map (fun t => t.2.2 * nu t.1)).sum * y j)).sum
        = nu t.1 * (t.2.2 * y t.2.1) + ((List.range m).map (fun j => ((A.filter (fun t => t.2.1 = j)).map (fun t => t.2.2 * nu t.1)).sum * y j)).sum := by
      have : (fun j => (((t :: A).filter (fun t => t.2.1 = j)).map (fun t => t.2.2 * nu t.1)).sum * y j) =
          fun j => (if t.2.1 = j then nu t.1 * (t.2.2 * y t.2.1) else 0) +
            ((A.filter (fun t => t.2.1 = j)).map (fun t => t.2.2 * nu t.1)).sum * y j := by
        funext j
        rw [List.filter_cons]
        by_cases h : t.2.1 = j
        · subst h; simp; ring
        · simp [h]
      rw [this, List.sum_map_add]
      congr 1
      rw [← List.sum_toFinset _ List.nodup_range, Finset.sum_ite_eq, if_pos (by simpa using hc t (by simp))]
    rw [h1, h2, ih]

end Coot

/-- Gibbs' inequality in the form used by GP duality. -/
theorem gibbs {ι : Type} (l : List ι) (nu w : ι → ℝ) (hnu : ∀ i ∈ l, 0 ≤ nu i) (hw : ∀ i ∈ l, 0 < w i) (la : ℝ)
    (hla : (l.map nu).sum = la) :
    (l.map (fun i => nu i * (Real.log (w i) - Real.log (nu i / la)))).sum ≤ la * Real.log ((l.map w).sum) := by
  have hla0 : 0 ≤ la := by
    rw [← hla]
    apply List.sum_nonneg
    intro x hx
    obtain ⟨i, hi, rfl⟩ := List.mem_map.1 hx
    exact hnu i hi
  by_cases hz : la = 0
  · have hall : ∀ i ∈ l, nu i = 0 := by
      rw [hz] at hla
      intro i hi
      by_contra hne
      have hpos : 0 < nu i := lt_of_le_of_ne (hnu i hi) (Ne.symm hne)
      have : nu i ≤ (l.map nu).sum := List.single_le_sum (by
        intro x hx
        obtain ⟨j, hj, rfl⟩ := List.mem_map.1 hx
        exact hnu j hj) _ (List.mem_map.2 ⟨i, hi, rfl⟩)
      linarith
    have : (l.map (fun i => nu i * (Real.log (w i) - Real.log (nu i / la)))).sum = 0 := by
      rw [List.sum_eq_zero]
      intro x hx
      obtain ⟨i, hi, rfl⟩ := List.mem_map.1 hx
      rw [hall i hi]; simp
    rw [this, hz]; simp
  have hlapos : 0 < la := lt_of_le_of_ne hla0 (Ne.symm hz)
  set S := (l.map w).sum with hS
  have hSpos : 0 < S := by
    have hne : l ≠ [] := by
      rintro rfl
      simp at hla; exact hz hla.symm
    exact List.sum_pos _ (by
      intro x hx
      obtain ⟨i, hi, rfl⟩ := List.mem_map.1 hx
      exact hw i hi) (by simpa using hne)
  have hterm : ∀ i ∈ l, nu i * (Real.log (w i) - Real.log (nu i / la)) ≤ nu i * Real.log S + (la / S * w i - nu i) := by
    intro i hi
    have hwi := hw i hi
    rcases (hnu i hi).eq_or_lt with h0 | hpos
    · rw [← h0]
      have : 0 ≤ la / S * w i := by positivity
      simp; linarith
    · have hlog := Real.log_le_sub_one_of_pos (show 0 < w i * la / (nu i * S) by positivity)
      have hexp : Real.log (w i * la / (nu i * S)) = Real.log (w i) - Real.log (nu i / la) - Real.log S := by
        rw [Real.log_div (by positivity) (by positivity), Real.log_mul (by positivity) (by positivity),
          Real.log_mul (by positivity) (by positivity), Real.log_div (by positivity) (by positivity)]
        ring
      rw [hexp] at hlog
      have := mul_le_mul_of_nonneg_left hlog (le_of_lt hpos)
      have h3 : nu i * (w i * la / (nu i * S) - 1) = la / S * w i - nu i := by
        field_simp
      rw [h3] at this
      nlinarith
  have hsum := List.sum_le_sum hterm
  rw [List.sum_map_add] at hsum
  have e1 : (l.map (fun i => nu i * Real.log S)).sum = la * Real.log S := by
    rw [List.sum_map_mul_right, hla]
  have e2 : (l.map (fun i => la / S * w i - nu i)).sum = 0 := by
    have hsub : ∀ l' : List ι, (l'.map (fun i => la / S * w i - nu i)).sum = la / S * (l'.map w).sum - (l'.map nu).sum := by
      intro l'
      induction l' with
      | nil => simp
      | cons a l' ih => simp only [List.map_cons, List.sum_cons, ih]; ring
    rw [hsub, hla, ← hS]
    field_simp
    ring
  rw [e1, e2] at hsum
  linarith

section Blocks
variable {V : Type} [DecidableEq V]

theorem sliceSum_congr {f g : Nat → ℝ} {mi : Nat × Nat} (h : ∀ i, mi.1 ≤ i → i < mi.2 → f i = g i) : sliceSum f mi = sliceSum g mi := by
  unfold sliceSum
  congr 1
  apply List.map_congr_left
  intro i hi
  rw [List.mem_range'_1] at hi
  exact h i hi.1 (by omega)

theorem gen_slices_sum (hs : List (Hmap V ℝ)) (f : Nat → ℝ) :
    ((genLoop hs).mIdxs.map (sliceSum f)).sum = ((List.range (allTerms hs).length).map f).sum := by
  induction hs using List.reverseRecOn with
  | nil => rfl
  | append_singleton hs h ih =>
    rw [genLoop_append, allTerms_append]
    show (((genLoop hs).mIdxs ++ [((genLoop hs).exps.length, (genLoop hs).exps.length + h.terms.length)]).map (sliceSum f)).sum = _
    rw [List.map_append, List.sum_append, ih, gen_exps_length]
    rw [List.length_append, List.range_eq_range', List.range_eq_range', ← List.range'_append_1, List.map_append, List.sum_append]
    simp [sliceSum]

theorem gen_rows_lt (hs : List (Hmap V ℝ)) (hw : ∀ t ∈ allTerms hs, WF t.1.items) :
    ∀ t ∈ (genLoop hs).A, t.1 < (allTerms hs).length := by
  intro t ht
  have hok := gen_expOK hs hw
  rcases List.mem_append.1 ht with ht | ht
  · have := (hok.tripZero t ht).2.2
    simpa using this
  · unfold Data.colEntries at ht
    rw [List.mem_flatMap] at ht
    obtain ⟨⟨⟨v, locs⟩, j⟩, hm, ht⟩ := ht
    obtain ⟨i, hi, rfl⟩ := List.mem_map.1 ht
    have hvl : (v, locs) ∈ (genLoop hs).varlocs := by
      have := List.mem_zipIdx hm
      rw [this.2.2]; exact List.getElem_mem _
    have := locOK_nonempty hok.loc hvl
    rw [this] at hi
    obtain ⟨e, he, _⟩ := mem_occ.1 hi
    have : i < ((allTerms hs).map (·.1)).length := by
      by_contra hh; rw [List.getElem?_eq_none (by omega)] at he; cases he
    simpa using this

end Blocks
end GP
end Verif
