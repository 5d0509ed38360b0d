import Verif.Lemmas.MosekTask
import Mathlib.Tactic.Linarith

/-!
# Values of posynomials, and weak duality of the task
-/

set_option linter.unusedSectionVars false

namespace Verif
namespace Mosek
open GP

theorem fiber_aux (B : Nat → List Nat) : ∀ (l : List Nat) (s q : Nat),
    (((l.zipIdx s).flatMap (fun pq => (B pq.1).map (fun i => (i, pq.2)))).filter (fun rq => rq.2 = s + q)).map (·.1) =
      ((l[q]?).map B).getD [] := by
  have hlow : ∀ (l : List Nat) (s t : Nat), t < s →
      ((l.zipIdx s).flatMap (fun pq => (B pq.1).map (fun i => (i, pq.2)))).filter (fun rq => rq.2 = t) = [] := by
    intro l s t hts
    rw [List.filter_eq_nil_iff]
    intro rq hrq
    obtain ⟨pq, hpq, hrq⟩ := List.mem_flatMap.1 hrq
    obtain ⟨i, _, rfl⟩ := List.mem_map.1 hrq
    have := List.le_snd_of_mem_zipIdx hpq
    simp only [decide_eq_true_eq]
    omega
  intro l
  induction l with
  | nil => intro s q; simp
  | cons a l ih =>
    intro s q
    rw [List.zipIdx_cons, List.flatMap_cons, List.filter_append, List.map_append]
    cases q with
    | zero =>
      rw [hlow l (s + 1) (s + 0) (by omega), List.filter_eq_self.2 (by
        intro x hx; obtain ⟨i, _, rfl⟩ := List.mem_map.1 hx; simp), List.map_map]
      simp [Function.comp_def]
    | succ q =>
      rw [show s + (q + 1) = s + 1 + q by omega, ih, List.filter_eq_nil_iff.2 (by
        intro x hx; obtain ⟨i, _, rfl⟩ := List.mem_map.1 hx
        simp only [decide_eq_true_eq]; omega)]
      simp

theorem lseRows_fiber {k : List Nat} {q p : Nat} (h : (lsePosys k)[q]? = some p) :
    ((lseRows k).filter (fun rq => rq.2 = q)).map (·.1) = blk k p := by
  have := fiber_aux (blk k) (lsePosys k) 0 q
  rw [Nat.zero_add, h] at this
  exact this

theorem lseRows_row {k : List Nat} {i : Nat} {rq : Nat × Nat} (h : (lseRows k)[i]? = some rq) :
    ∃ p, (lsePosys k)[rq.2]? = some p ∧ rq.1 ∈ blk k p := by
  obtain ⟨pq, hpq, hrq⟩ := List.mem_flatMap.1 (List.mem_of_getElem? h)
  obtain ⟨r, hr, rfl⟩ := List.mem_map.1 hrq
  exact ⟨pq.1, List.mem_zipIdx_iff_getElem?.1 hpq, hr⟩

theorem sum_index {k : List Nat} (q : Nat) (H : Nat → ℝ) :
    (((lsePIdx k).zipIdx.filter (fun qi => qi.1 = q)).map (fun qi => H qi.2)).sum =
      (((lseRows k).zipIdx.filter (fun x => x.1.2 = q)).map (fun x => H x.2)).sum := by
  rw [← lseRows_snd, List.zipIdx_map, List.filter_map, List.map_map]
  rfl

theorem sum_row {k : List Nat} {q p : Nat} (h : (lsePosys k)[q]? = some p) (G : Nat → ℝ) :
    ((blk k p).map G).sum = (((lseRows k).zipIdx.filter (fun x => x.1.2 = q)).map (fun x => G x.1.1)).sum := by
  rw [← lseRows_fiber h, List.map_map]
  have : (lseRows k).filter (fun rq => rq.2 = q) = ((lseRows k).zipIdx.filter (fun x => x.1.2 = q)).map (·.1) := by
    have := List.filter_map (f := fun x : (Nat × Nat) × Nat => x.1) (p := fun rq : Nat × Nat => decide (rq.2 = q)) (l := (lseRows k).zipIdx)
    rw [List.zipIdx_map_fst] at this
    exact this
  rw [this, List.map_map]
  rfl

theorem fiber_sum_le {k : List Nat} {q p : Nat} (h : (lsePosys k)[q]? = some p) (G H : Nat → ℝ)
    (hGH : ∀ (i : Nat) (rq : Nat × Nat), (lseRows k)[i]? = some rq → rq.2 = q → G rq.1 ≤ H i) :
    ((blk k p).map G).sum ≤ (((lsePIdx k).zipIdx.filter (fun qi => qi.1 = q)).map (fun qi => H qi.2)).sum := by
  rw [sum_index, sum_row h]
  apply List.sum_le_sum
  intro x hx
  obtain ⟨h1, h2⟩ := List.mem_filter.1 hx
  exact hGH x.2 x.1 (List.mem_zipIdx_iff_getElem?.1 h1) (by simpa using h2)

theorem fiber_sum_eq {k : List Nat} {q p : Nat} (h : (lsePosys k)[q]? = some p) (G H : Nat → ℝ)
    (hGH : ∀ (i : Nat) (rq : Nat × Nat), (lseRows k)[i]? = some rq → rq.2 = q → G rq.1 = H i) :
    ((blk k p).map G).sum = (((lsePIdx k).zipIdx.filter (fun qi => qi.1 = q)).map (fun qi => H qi.2)).sum := by
  rw [sum_index, sum_row h]
  congr 1
  apply List.map_congr_left
  intro x hx
  obtain ⟨h1, h2⟩ := List.mem_filter.1 hx
  exact hGH x.2 x.1 (List.mem_zipIdx_iff_getElem?.1 h1) (by simpa using h2)

theorem posyVal_blk (cs : List ℝ) (A : Coot ℝ) (k : List Nat) (y : Nat → ℝ) (p : Nat) :
    posyVal cs A k y p = ((blk k p).map (fun i => (cs[i]?).getD 0 * Real.exp (rowDot A y i))).sum := rfl

theorem rowDot_cols {A : Coot ℝ} {X y : Nat → ℝ} (h : ∀ t ∈ A, X t.2.1 = y t.2.1) (i : Nat) : rowDot A X i = rowDot A y i := by
  unfold rowDot
  congr 1
  apply List.map_congr_left
  intro t ht
  rw [h t (List.mem_filter.1 ht).1]

theorem blk_lt {k : List Nat} {p i : Nat} (h : i ∈ blk k p) : i < k.sum := by
  rw [mem_blk] at h
  by_cases hp : p < k.length
  · have h1 : (k.take (p + 1)).sum = (k.take p).sum + (k[p]?).getD 0 := by
      rw [List.take_add_one, List.sum_append]
      simp [hp]
    have h2 : (k.take (p + 1)).sum + (k.drop (p + 1)).sum = k.sum := by
      rw [← List.sum_append, List.take_append_drop]
    omega
  · rw [List.getElem?_eq_none (by omega)] at h
    simp at h
    omega

/-- The point of the task used for given logarithms `y` and values `z`. -/
noncomputable def extend (cs : List ℝ) (A : Coot ℝ) (k : List Nat) (y z : Nat → ℝ) (j : Nat) : ℝ :=
  let m := ncols A
  let n := (kLse k).sum
  let t := fun i : Nat => (((lseRows k)[i]?).map (fun rq => rowDot A y rq.1 + Real.log ((cs[rq.1]?).getD 0) - z rq.2)).getD 0
  if j < m then y j
  else if j < m + 3 * n then
    if (j - m) % 3 = 0 then Real.exp (t ((j - m) / 3)) else if (j - m) % 3 = 1 then 1 else t ((j - m) / 3)
  else z (j - m - 3 * n)

section
variable (cs : List ℝ) (A : Coot ℝ) (k : List Nat) (y z : Nat → ℝ)

theorem extend_col {j : Nat} (h : j < ncols A) : extend cs A k y z j = y j := by
  simp [extend, h]

theorem extend_dot (i : Nat) : rowDot A (extend cs A k y z) i = rowDot A y i :=
  rowDot_cols (fun _ ht => extend_col cs A k y z (lt_ncols ht)) i

theorem extend_one {i : Nat} (h : i < (kLse k).sum) : extend cs A k y z (ncols A + 3 * i + 1) = 1 := by
  simp only [extend]
  rw [if_neg (by omega), if_pos (by omega), if_neg (by omega), if_pos (by omega)]

theorem extend_two {i : Nat} {rq : Nat × Nat} (h : (lseRows k)[i]? = some rq) : extend cs A k y z (ncols A + 3 * i + 2) =
    rowDot A y rq.1 + Real.log ((cs[rq.1]?).getD 0) - z rq.2 := by
  have hi : i < (kLse k).sum := by
    rw [← lseRows_length]; exact (List.getElem?_eq_some_iff.1 h).1
  simp only [extend]
  rw [if_neg (by omega), if_pos (by omega), if_neg (by omega), if_neg (by omega), show (ncols A + 3 * i + 2 - ncols A) / 3 = i by omega, h]
  rfl

theorem extend_zero {i : Nat} {rq : Nat × Nat} (h : (lseRows k)[i]? = some rq) : extend cs A k y z (ncols A + 3 * i) =
    Real.exp (rowDot A y rq.1 + Real.log ((cs[rq.1]?).getD 0) - z rq.2) := by
  have hi : i < (kLse k).sum := by
    rw [← lseRows_length]; exact (List.getElem?_eq_some_iff.1 h).1
  simp only [extend]
  rw [if_neg (by omega), if_pos (by omega), if_pos (by omega), show (ncols A + 3 * i - ncols A) / 3 = i by omega, h]
  rfl

theorem extend_z (q : Nat) : extend cs A k y z (ncols A + 3 * (kLse k).sum + q) = z q := by
  simp only [extend]
  rw [if_neg (by omega), if_neg (by omega), show ncols A + 3 * (kLse k).sum + q - ncols A - 3 * (kLse k).sum = q by omega]

end

section
variable {cs : List ℝ} {A : Coot ℝ} {k pIdxs : List Nat} (ok : DataOK cs A k pIdxs) (hc : ∀ c ∈ cs, 0 < c)
include ok hc

theorem cs_pos {i : Nat} (h : i < k.sum) : 0 < (cs[i]?).getD 0 := by
  have : i < cs.length := by rw [ok.len]; exact h
  rw [List.getElem?_eq_getElem this]
  exact hc _ (List.getElem_mem _)

theorem posyVal_pos (y : Nat → ℝ) {p : Nat} (h : 1 ≤ (k[p]?).getD 0) : 0 < posyVal cs A k y p := by
  rw [posyVal_blk]
  apply List.sum_pos
  · intro x hx
    obtain ⟨i, hi, rfl⟩ := List.mem_map.1 hx
    exact mul_pos (cs_pos ok hc (blk_lt hi)) (Real.exp_pos _)
  · simp [blk]
    omega

/-- A term scaled by `exp (-z)`. -/
theorem term_exp (y z : Nat → ℝ) {i : Nat} {rq : Nat × Nat} (h : (lseRows k)[i]? = some rq) :
    Real.exp (rowDot A y rq.1 + Real.log ((cs[rq.1]?).getD 0) - z rq.2) =
      (cs[rq.1]?).getD 0 * Real.exp (rowDot A y rq.1) * Real.exp (-z rq.2) := by
  obtain ⟨p, _, hp⟩ := lseRows_row h
  rw [sub_eq_add_neg, Real.exp_add, Real.exp_add, Real.exp_log (cs_pos ok hc (blk_lt hp))]
  ring

theorem extend_sum (y z : Nat → ℝ) {q p : Nat} (h : (lsePosys k)[q]? = some p) :
    (((lsePIdx k).zipIdx.filter (fun qi => qi.1 = q)).map (fun qi => extend cs A k y z (ncols A + 3 * qi.2))).sum =
      posyVal cs A k y p * Real.exp (-z q) := by
  rw [posyVal_blk, ← List.sum_map_mul_right]
  rw [← fiber_sum_eq h (fun i => (cs[i]?).getD 0 * Real.exp (rowDot A y i) * Real.exp (-z q)) (fun i => extend cs A k y z (ncols A + 3 * i))]
  intro i rq hi hq
  rw [extend_zero cs A k y z hi, term_exp ok hc y z hi, hq]

end

/-! ### Weak duality -/

/-- The violation of an upper bound, weighted. -/
def slack (b : Bnd) (u x : ℝ) : ℝ :=
  match b with
  | .up v => u * (x - v)
  | _ => 0

theorem gap_bound {b : Bnd} {l u x : ℝ} (hd : b.DualOK l u) (hx : ∀ v, b = .fx v → x = v) : (l - u) * x + slack b u x = b.dual l u := by
  cases b with
  | fr => obtain ⟨rfl, rfl⟩ := hd; simp [slack, Bnd.dual]
  | fx v => rw [hx v rfl]; simp [slack, Bnd.dual]; ring
  | up v => obtain ⟨rfl, _⟩ := hd; simp [slack, Bnd.dual]; ring

/-- Sum of the weighted violations of a list of bounds, from position `s`. -/
noncomputable def slacks (l : List Bnd) (u f : Nat → ℝ) (s : Nat) : ℝ := ((l.zipIdx s).map (fun bi => slack bi.1 (u bi.2) (f bi.2))).sum

theorem gap_sum (bs : List Bnd) (l u f : Nat → ℝ) (hd : ∀ (i : Nat) (b : Bnd), bs[i]? = some b → b.DualOK (l i) (u i))
    (hx : ∀ (i : Nat) (v : ℝ), bs[i]? = some (.fx v) → f i = v) :
    ((List.range bs.length).map (fun i => (l i - u i) * f i)).sum + slacks bs u f 0 =
      (bs.zipIdx.map (fun bi => bi.1.dual (l bi.2) (u bi.2))).sum := by
  have hr : (List.range bs.length).map (fun i => (l i - u i) * f i) = bs.zipIdx.map (fun bi => (l bi.2 - u bi.2) * f bi.2) := by
    have : List.range bs.length = bs.zipIdx.map (·.2) := by rw [List.zipIdx_map_snd, List.range_eq_range']
    rw [this, List.map_map]; rfl
  rw [hr, slacks, ← List.sum_map_add]
  congr 1
  apply List.map_congr_left
  intro bi hbi
  have hg := List.mem_zipIdx_iff_getElem?.1 hbi
  exact gap_bound (hd _ _ hg) (fun v hv => hx _ v (hv ▸ hg))

theorem weak_dual {T : Task} {slc suc slx sux : Nat → ℝ} {sn : Nat → ℝ × ℝ × ℝ} (h : DualFeasible T slc suc slx sux sn) (X : Nat → ℝ)
    (hc : ∀ (i : Nat) (v : ℝ), T.cons[i]? = some (.fx v) → rowVal T.puts X i = v)
    (hv : ∀ (j : Nat) (v : ℝ), T.vars[j]? = some (.fx v) → X j = v)
    (hk : ∀ s ∈ T.cones, ExpCone (X s) (X (s + 1)) (X (s + 2))) :
    dualObjective T slc suc slx sux ≤ objective T X + slacks T.cons suc (rowVal T.puts X) 0 + slacks T.vars sux X 0 := by
  have h1 := gap_sum T.cons slc suc (rowVal T.puts X) h.cons hc
  have h2 := gap_sum T.vars slx sux X h.vars hv
  have h3 : 0 ≤ (T.cones.map (fun s => (sn s).1 * X s + (sn s).2.1 * X (s + 1) + (sn s).2.2 * X (s + 2))).sum := by
    apply List.sum_nonneg
    intro x hx
    obtain ⟨s, hs, rfl⟩ := List.mem_map.1 hx
    exact h.cones s hs _ _ _ (hk s hs)
  have h4 := h.eqs X
  unfold dualObjective
  linarith

theorem slacks_append (l r : List Bnd) (u f : Nat → ℝ) (s : Nat) : slacks (l ++ r) u f s = slacks l u f s + slacks r u f (s + l.length) := by
  unfold slacks
  rw [List.zipIdx_append, List.map_append, List.sum_append, Nat.add_comm]

theorem slacks_zero {l : List Bnd} {u f : Nat → ℝ} {s : Nat} (h : ∀ (i : Nat) (b : Bnd), l[i]? = some b → slack b (u (s + i)) (f (s + i)) = 0) :
    slacks l u f s = 0 := by
  unfold slacks
  apply List.sum_eq_zero
  intro x hx
  obtain ⟨bi, hbi, rfl⟩ := List.mem_map.1 hx
  obtain ⟨h1, h2⟩ := List.mem_zipIdx_iff_le_and_getElem?_sub.1 hbi
  have := h _ _ h2
  rwa [show s + (bi.2 - s) = bi.2 by omega] at this

theorem zipIdx_range_from (l : List Nat) (s : Nat) : l.zipIdx s = (List.range l.length).map (fun j => ((l[j]?).getD 0, s + j)) := by
  apply List.ext_getElem?
  intro i
  rw [List.getElem?_zipIdx, List.getElem?_map]
  by_cases h : i < l.length
  · simp [h]
  · simp [h]

theorem slacks_map (l : List Nat) (h : Nat → ℝ) (u f : Nat → ℝ) (s : Nat) : slacks (l.map (fun r => .up (h r))) u f s =
    ((List.range l.length).map (fun j => u (s + j) * (f (s + j) - h ((l[j]?).getD 0)))).sum := by
  unfold slacks
  rw [List.zipIdx_map, List.map_map, zipIdx_range_from, List.map_map]
  rfl

theorem slacks_replicate (n : Nat) (v : ℝ) (u f : Nat → ℝ) (s : Nat) : slacks (List.replicate n (.up v)) u f s =
    ((List.range n).map (fun j => u (s + j) * (f (s + j) - v))).sum := by
  have := slacks_map (List.range n) (fun _ => v) u f s
  rw [List.map_const', List.length_range] at this
  exact this

end Mosek
end Verif
