import Verif.Lemmas.Mosek

/-!
# The rows of the task
-/

set_option linter.unusedSectionVars false

namespace Verif
namespace Mosek
open GP

section
variable {cs : List ℝ} {A : Coot ℝ} {k pIdxs : List Nat} (ok : DataOK cs A k pIdxs)
include ok

theorem build_nodup : ((build cs A k pIdxs).puts.map (fun t => (t.1, t.2.1))).Nodup := by
  obtain ⟨ha, han⟩ := aLse_facts ok
  simp only [build, List.map_append]
  have h2 : ∀ x ∈ ((List.range (kLse k).sum).map (fun i => (i, ncols A + 3 * i + 2, (-1 : ℝ)))).map (fun t => (t.1, t.2.1)),
      x.1 < (kLse k).sum ∧ x.2 = ncols A + 3 * x.1 + 2 := by
    intro x hx
    rw [List.map_map] at hx
    obtain ⟨i, hi, rfl⟩ := List.mem_map.1 hx
    exact ⟨List.mem_range.1 hi, rfl⟩
  have h3 : ∀ x ∈ ((lsePIdx k).zipIdx.map (fun qi => (qi.2, ncols A + 3 * (kLse k).sum + qi.1, (-1 : ℝ)))).map (fun t => (t.1, t.2.1)),
      x.1 < (kLse k).sum ∧ ncols A + 3 * (kLse k).sum ≤ x.2 := by
    intro x hx
    rw [List.map_map] at hx
    obtain ⟨qi, hi, rfl⟩ := List.mem_map.1 hx
    have := List.snd_lt_of_mem_zipIdx hi
    rw [lsePIdx_length] at this
    exact ⟨by simpa using this, Nat.le_add_right _ _⟩
  have h4 : ∀ x ∈ ((List.range (kLse k).length).flatMap (fun q => ((lsePIdx k).zipIdx.filter (fun qi => qi.1 = q)).map
      (fun qi => ((kLse k).sum + q, ncols A + 3 * qi.2, (1 : ℝ))))).map (fun t => (t.1, t.2.1)),
      (kLse k).sum ≤ x.1 ∧ x.1 < (kLse k).sum + (kLse k).length := by
    intro x hx
    rw [List.map_flatMap] at hx
    obtain ⟨q, hq, hx⟩ := List.mem_flatMap.1 hx
    rw [List.map_map] at hx
    obtain ⟨qi, hi, rfl⟩ := List.mem_map.1 hx
    have := List.mem_range.1 hq
    exact ⟨Nat.le_add_right _ _, Nat.add_lt_add_left this _⟩
  have h5 : ∀ x ∈ ((csrRows A (linIdxs k pIdxs)).map (fun t => ((kLse k).sum + (kLse k).length + t.1, t.2.1, t.2.2))).map
      (fun t => (t.1, t.2.1)), (kLse k).sum + (kLse k).length ≤ x.1 := by
    intro x hx
    rw [List.map_map] at hx
    obtain ⟨t, hi, rfl⟩ := List.mem_map.1 hx
    exact Nat.le_add_right _ _
  have h1 : ∀ x ∈ (aLse A k pIdxs cs.length).map (fun t => (t.1, t.2.1)), x.1 < (kLse k).sum ∧ x.2 < ncols A := by
    intro x hx
    obtain ⟨t, ht, rfl⟩ := List.mem_map.1 hx
    exact ha t ht
  rw [List.nodup_append, List.nodup_append, List.nodup_append, List.nodup_append]
  refine ⟨⟨⟨⟨han, ?_, ?_⟩, ?_, ?_⟩, ?_, ?_⟩, ?_, ?_⟩
  · rw [List.map_map]
    refine List.Nodup.map ?_ List.nodup_range
    intro i j hij
    exact (Prod.mk.inj hij).1
  · intro x hx y hy he
    have := h1 x hx; have := h2 y hy; subst he; omega
  · rw [List.map_map, zipIdx_range, List.map_map]
    refine List.Nodup.map ?_ List.nodup_range
    intro i j hij
    exact (Prod.mk.inj hij).1
  · intro x hx y hy he
    have hy := h3 y hy
    subst he
    rcases List.mem_append.1 hx with hx | hx
    · have := h1 _ hx; omega
    · have := h2 _ hx; omega
  · rw [List.map_flatMap, List.nodup_flatMap]
    constructor
    · intro q _
      rw [List.map_map, zipIdx_range, List.filter_map, List.map_map]
      refine List.Nodup.map ?_ (List.nodup_range.filter _)
      intro i j hij
      have := (Prod.mk.inj hij).2
      simp only at this
      omega
    · refine List.nodup_range.pairwise_of_forall_ne ?_
      intro a _ b _ hab
      rw [Function.onFun, List.disjoint_left]
      intro x hx hy
      rw [List.map_map] at hx hy
      obtain ⟨_, _, rfl⟩ := List.mem_map.1 hx
      obtain ⟨_, _, he⟩ := List.mem_map.1 hy
      have := (Prod.mk.inj he).1
      simp only at this
      omega
  · intro x hx y hy he
    have hy := h4 y hy
    subst he
    rcases List.mem_append.1 hx with hx | hx
    · rcases List.mem_append.1 hx with hx | hx
      · have := h1 _ hx; omega
      · have := h2 _ hx; omega
    · have := h3 _ hx; omega
  · have := csrRows_nodup A (linIdxs k pIdxs)
    have he : ((csrRows A (linIdxs k pIdxs)).map (fun t => ((kLse k).sum + (kLse k).length + t.1, t.2.1, t.2.2))).map
        (fun t => (t.1, t.2.1)) = ((csrRows A (linIdxs k pIdxs)).map (fun t => (t.1, t.2.1))).map
          (fun x => ((kLse k).sum + (kLse k).length + x.1, x.2)) := by
      rw [List.map_map, List.map_map]; rfl
    rw [he]
    refine List.Nodup.map ?_ this
    intro a b hab
    obtain ⟨h1, h2⟩ := Prod.mk.inj hab
    exact Prod.ext (by omega) h2
  · intro x hx y hy he
    have hy := h5 y hy
    subst he
    rcases List.mem_append.1 hx with hx | hx
    · rcases List.mem_append.1 hx with hx | hx
      · rcases List.mem_append.1 hx with hx | hx
        · have := h1 _ hx; omega
        · have := h2 _ hx; omega
      · have := h3 _ hx; omega
    · have := h4 _ hx; omega

/-- The value of a row. -/
theorem build_row (X : Nat → ℝ) (i : Nat) : rowVal (build cs A k pIdxs).puts X i =
    rowDot (aLse A k pIdxs cs.length) X i + rowDot ((List.range (kLse k).sum).map (fun i => (i, ncols A + 3 * i + 2, (-1 : ℝ)))) X i +
    rowDot ((lsePIdx k).zipIdx.map (fun qi => (qi.2, ncols A + 3 * (kLse k).sum + qi.1, (-1 : ℝ)))) X i +
    rowDot ((List.range (kLse k).length).flatMap (fun q => ((lsePIdx k).zipIdx.filter (fun qi => qi.1 = q)).map
      (fun qi => ((kLse k).sum + q, ncols A + 3 * qi.2, (1 : ℝ))))) X i +
    rowDot ((csrRows A (linIdxs k pIdxs)).map (fun t => ((kLse k).sum + (kLse k).length + t.1, t.2.1, t.2.2))) X i := by
  rw [rowVal_of_nodup (build_nodup ok)]
  simp only [build, rowDot_append]

/-- A row of a term with a cone. -/
theorem row_lse (X : Nat → ℝ) {i : Nat} {rq : Nat × Nat} (h : (lseRows k)[i]? = some rq) :
    rowVal (build cs A k pIdxs).puts X i =
      rowDot A X rq.1 - X (ncols A + 3 * i + 2) - X (ncols A + 3 * (kLse k).sum + rq.2) := by
  have hi : i < (kLse k).sum := by
    rw [← lseRows_length]; exact (List.getElem?_eq_some_iff.1 h).1
  rw [build_row ok, aLse_dot ok, h, rowDot_range _ _ _ _ _ hi, zipIdx_range, List.map_map]
  have h3 := rowDot_range (lsePIdx k).length (fun i => ncols A + 3 * (kLse k).sum + ((lsePIdx k)[i]?).getD 0) (fun _ => (-1 : ℝ)) X i
    (by rw [lsePIdx_length]; exact hi)
  have h3' : rowDot ((List.range (lsePIdx k).length).map ((fun qi : Nat × Nat => (qi.2, ncols A + 3 * (kLse k).sum + qi.1, (-1 : ℝ))) ∘
      fun i => (((lsePIdx k)[i]?).getD 0, i))) X i = -1 * X (ncols A + 3 * (kLse k).sum + ((lsePIdx k)[i]?).getD 0) := h3
  rw [h3']
  have hq : (lsePIdx k)[i]? = some rq.2 := by rw [← lseRows_snd, List.getElem?_map, h]; rfl
  rw [hq, rowDot_none (P := List.flatMap _ _), rowDot_none (P := List.map _ (csrRows _ _))]
  · simp; ring
  · intro t ht
    obtain ⟨u, _, rfl⟩ := List.mem_map.1 ht
    simp only; omega
  · intro t ht
    obtain ⟨q, _, ht⟩ := List.mem_flatMap.1 ht
    obtain ⟨u, _, rfl⟩ := List.mem_map.1 ht
    simp only; omega

/-- The row which adds up the terms of a posynomial with cones. -/
theorem row_sum (X : Nat → ℝ) {q : Nat} (hq : q < (kLse k).length) :
    rowVal (build cs A k pIdxs).puts X ((kLse k).sum + q) =
      (((lsePIdx k).zipIdx.filter (fun qi => qi.1 = q)).map (fun qi => X (ncols A + 3 * qi.2))).sum := by
  rw [build_row ok, aLse_dot ok, List.getElem?_eq_none (by rw [lseRows_length]; omega),
    rowDot_none (P := List.map _ (List.range _)), rowDot_none (P := List.map _ (List.zipIdx _)), rowDot_none (P := List.map _ (csrRows _ _))]
  · rw [rowDot_flatMap]
    have : ∀ q', rowDot (((lsePIdx k).zipIdx.filter (fun qi => qi.1 = q')).map
        (fun qi => ((kLse k).sum + q', ncols A + 3 * qi.2, (1 : ℝ)))) X ((kLse k).sum + q) =
        if q' = q then (((lsePIdx k).zipIdx.filter (fun qi => qi.1 = q)).map (fun qi => X (ncols A + 3 * qi.2))).sum else 0 := by
      intro q'
      by_cases h : q' = q
      · subst h
        rw [if_pos rfl]
        unfold rowDot
        rw [List.filter_eq_self.2 (by intro t ht; obtain ⟨u, _, rfl⟩ := List.mem_map.1 ht; simp), List.map_map]
        simp [Function.comp_def]
      · rw [if_neg h, rowDot_none]
        intro t ht
        obtain ⟨u, _, rfl⟩ := List.mem_map.1 ht
        simp only; omega
    simp only [this]
    rw [List.sum_map_ite_eq]
    simp [List.count_eq_one_of_mem List.nodup_range (List.mem_range.2 hq)]
  · intro t ht
    obtain ⟨u, _, rfl⟩ := List.mem_map.1 ht
    simp only; omega
  · intro t ht
    obtain ⟨u, hu, rfl⟩ := List.mem_map.1 ht
    have := List.snd_lt_of_mem_zipIdx hu
    rw [lsePIdx_length] at this
    simp only; omega
  · intro t ht
    obtain ⟨u, hu, rfl⟩ := List.mem_map.1 ht
    have := List.mem_range.1 hu
    simp only; omega

/-- The row of a linear posynomial. -/
theorem row_lin (X : Nat → ℝ) {j r : Nat} (hj : (linIdxs k pIdxs)[j]? = some r) :
    rowVal (build cs A k pIdxs).puts X ((kLse k).sum + (kLse k).length + j) = rowDot A X r := by
  rw [build_row ok, aLse_dot ok, List.getElem?_eq_none (by rw [lseRows_length]; omega),
    rowDot_none (P := List.map _ (List.range _)), rowDot_none (P := List.map _ (List.zipIdx _)), rowDot_none (P := List.flatMap _ _)]
  · have : rowDot ((csrRows A (linIdxs k pIdxs)).map (fun t => ((kLse k).sum + (kLse k).length + t.1, t.2.1, t.2.2))) X
        ((kLse k).sum + (kLse k).length + j) = rowDot (csrRows A (linIdxs k pIdxs)) X j := by
      unfold rowDot
      rw [List.filter_map, List.map_map]
      have h : ((fun t : Nat × Nat × ℝ => decide (t.1 = (kLse k).sum + (kLse k).length + j)) ∘
          fun t : Nat × Nat × ℝ => ((kLse k).sum + (kLse k).length + t.1, t.2.1, t.2.2)) = fun t => decide (t.1 = j) := by
        funext t; simp
      rw [h]; rfl
    rw [this, csrRows_dot, hj]
    simp
  · intro t ht
    obtain ⟨q, hq, ht⟩ := List.mem_flatMap.1 ht
    obtain ⟨u, _, rfl⟩ := List.mem_map.1 ht
    have := List.mem_range.1 hq
    simp only; omega
  · intro t ht
    obtain ⟨u, hu, rfl⟩ := List.mem_map.1 ht
    have := List.snd_lt_of_mem_zipIdx hu
    rw [lsePIdx_length] at this
    simp only; omega
  · intro t ht
    obtain ⟨u, hu, rfl⟩ := List.mem_map.1 ht
    have := List.mem_range.1 hu
    simp only; omega

end

/-! ### Bounds -/

/-- The bounds hold from position `s`. -/
def AllSat (l : List Bnd) (f : Nat → ℝ) (s : Nat) : Prop := ∀ (j : Nat) (b : Bnd), l[j]? = some b → b.Sat (f (s + j))

theorem allSat_nil (f : Nat → ℝ) (s : Nat) : AllSat [] f s ↔ True := by
  simp [AllSat]

theorem allSat_cons (b : Bnd) (l : List Bnd) (f : Nat → ℝ) (s : Nat) : AllSat (b :: l) f s ↔ b.Sat (f s) ∧ AllSat l f (s + 1) := by
  constructor
  · intro h
    refine ⟨h 0 b rfl, ?_⟩
    intro j c hc
    have := h (j + 1) c (by simpa using hc)
    rwa [show s + 1 + j = s + (j + 1) by omega]
  · intro ⟨h1, h2⟩ j c hc
    cases j with
    | zero => simp at hc; subst hc; exact h1
    | succ j =>
      have := h2 j c (by simpa using hc)
      rwa [show s + (j + 1) = s + 1 + j by omega]

theorem allSat_append (l r : List Bnd) (f : Nat → ℝ) (s : Nat) : AllSat (l ++ r) f s ↔ AllSat l f s ∧ AllSat r f (s + l.length) := by
  induction l generalizing s with
  | nil => simp [allSat_nil]
  | cons b l ih =>
    rw [List.cons_append, allSat_cons, allSat_cons, ih, and_assoc, List.length_cons, show s + 1 + l.length = s + (l.length + 1) by omega]

theorem allSat_replicate (n : Nat) (b : Bnd) (f : Nat → ℝ) (s : Nat) : AllSat (List.replicate n b) f s ↔ ∀ j < n, b.Sat (f (s + j)) := by
  constructor
  · intro h j hj
    exact h j b (by simp [hj])
  · intro h j c hc
    obtain ⟨h1, h2⟩ := List.getElem?_eq_some_iff.1 hc
    simp only [List.length_replicate, List.getElem_replicate] at h1 h2
    subst h2
    exact h j h1

theorem allSat_map (l : List Nat) (g : Nat → Bnd) (f : Nat → ℝ) (s : Nat) :
    AllSat (l.map g) f s ↔ ∀ (j r : Nat), l[j]? = some r → (g r).Sat (f (s + j)) := by
  constructor
  · intro h j r hr
    exact h j (g r) (by simp [hr])
  · intro h j c hc
    rw [List.getElem?_map] at hc
    obtain ⟨r, hr, rfl⟩ := Option.map_eq_some_iff.1 hc
    exact h j r hr

theorem allSat_cones (n : Nat) (f : Nat → ℝ) (s : Nat) : AllSat (List.replicate n [Bnd.fr, .fx 1, .fr]).flatten f s ↔
    ∀ i < n, f (s + 3 * i + 1) = 1 := by
  induction n generalizing s with
  | zero => simp [allSat_nil]
  | succ n ih =>
    rw [List.replicate_succ, List.flatten_cons, allSat_append, ih]
    simp only [allSat_cons, allSat_nil, Bnd.Sat, true_and, and_true, List.length_cons, List.length_nil]
    constructor
    · intro ⟨h1, h2⟩ i hi
      cases i with
      | zero => exact h1
      | succ i =>
        have := h2 i (by omega)
        rwa [show s + 3 * (i + 1) + 1 = s + (0 + 1 + 1 + 1) + 3 * i + 1 by omega]
    · intro h
      refine ⟨h 0 (by omega), ?_⟩
      intro i hi
      have := h (i + 1) (by omega)
      rwa [show s + (0 + 1 + 1 + 1) + 3 * i + 1 = s + 3 * (i + 1) + 1 by omega]

/-- Feasibility, constraint by constraint. `x` are the first columns; then come the triples of the cones; then the variables `z`. -/
structure Parts (cs : List ℝ) (A : Coot ℝ) (k : List Nat) (X : Nat → ℝ) : Prop where
  one : ∀ i < (kLse k).sum, X (ncols A + 3 * i + 1) = 1
  zneg : ∀ q, 1 ≤ q → q < (kLse k).length → X (ncols A + 3 * (kLse k).sum + q) ≤ 0
  cone : ∀ i < (kLse k).sum, Real.exp (X (ncols A + 3 * i + 2)) ≤ X (ncols A + 3 * i)
  term : ∀ (i : Nat) (rq : Nat × Nat), (lseRows k)[i]? = some rq →
    rowDot A X rq.1 - X (ncols A + 3 * i + 2) - X (ncols A + 3 * (kLse k).sum + rq.2) = -Real.log ((cs[rq.1]?).getD 0)
  sum : ∀ q < (kLse k).length, (((lsePIdx k).zipIdx.filter (fun qi => qi.1 = q)).map (fun qi => X (ncols A + 3 * qi.2))).sum ≤ 1
  lin : ∀ r ∈ (linPosys k).flatMap (blk k), rowDot A X r ≤ -Real.log ((cs[r]?).getD 0)

section
variable {cs : List ℝ} {A : Coot ℝ} {k pIdxs : List Nat} (ok : DataOK cs A k pIdxs)
include ok

theorem feasible_iff (X : Nat → ℝ) : Feasible (build cs A k pIdxs) X ↔ Parts cs A k X := by
  have hv : (∀ (j : Nat) (b : Bnd), (build cs A k pIdxs).vars[j]? = some b → b.Sat (X j)) ↔
      (∀ i < (kLse k).sum, X (ncols A + 3 * i + 1) = 1) ∧
      ∀ q, 1 ≤ q → q < (kLse k).length → X (ncols A + 3 * (kLse k).sum + q) ≤ 0 := by
    have : (∀ (j : Nat) (b : Bnd), (build cs A k pIdxs).vars[j]? = some b → b.Sat (X j)) ↔ AllSat (build cs A k pIdxs).vars X 0 := by
      simp [AllSat]
    rw [this]
    simp only [build]
    rw [allSat_append, allSat_append, allSat_replicate, allSat_cones, allSat_cons, allSat_replicate]
    simp only [Bnd.Sat, implies_true, true_and, List.length_append, List.length_replicate, List.length_flatten, Nat.zero_add,
      List.map_replicate, List.length_cons, List.length_nil, List.sum_replicate, smul_eq_mul]
    refine and_congr Iff.rfl ?_
    constructor
    · intro h q h1 h2
      have := h (q - 1) (by omega)
      rwa [show ncols A + (kLse k).sum * (1 + 1 + 1) + 1 + (q - 1) = ncols A + 3 * (kLse k).sum + q by omega] at this
    · intro h j hj
      have := h (j + 1) (by omega) (by omega)
      rwa [show ncols A + (kLse k).sum * (1 + 1 + 1) + 1 + j = ncols A + 3 * (kLse k).sum + (j + 1) by omega]
  have hc : (∀ (i : Nat) (b : Bnd), (build cs A k pIdxs).cons[i]? = some b → b.Sat (rowVal (build cs A k pIdxs).puts X i)) ↔
      (∀ (i : Nat) (rq : Nat × Nat), (lseRows k)[i]? = some rq →
        rowDot A X rq.1 - X (ncols A + 3 * i + 2) - X (ncols A + 3 * (kLse k).sum + rq.2) = -Real.log ((cs[rq.1]?).getD 0)) ∧
      (∀ q < (kLse k).length, (((lsePIdx k).zipIdx.filter (fun qi => qi.1 = q)).map (fun qi => X (ncols A + 3 * qi.2))).sum ≤ 1) ∧
      ∀ r ∈ (linPosys k).flatMap (blk k), rowDot A X r ≤ -Real.log ((cs[r]?).getD 0) := by
    have : (∀ (i : Nat) (b : Bnd), (build cs A k pIdxs).cons[i]? = some b → b.Sat (rowVal (build cs A k pIdxs).puts X i)) ↔
        AllSat (build cs A k pIdxs).cons (rowVal (build cs A k pIdxs).puts X) 0 := by
      simp [AllSat]
    rw [this]
    have hcons : (build cs A k pIdxs).cons = (lseIdxs k pIdxs cs.length).map (fun i => .fx (-Real.log ((cs[i]?).getD 0))) ++
      List.replicate (kLse k).length (.up 1) ++ (linIdxs k pIdxs).map (fun i => .up (-Real.log ((cs[i]?).getD 0))) := rfl
    rw [hcons, allSat_append, allSat_append, allSat_replicate, allSat_map, allSat_map, lseIdxs_rows ok, and_assoc]
    simp only [List.length_append, List.length_map, List.length_replicate, lseRows_length, Nat.zero_add]
    refine and_congr ?_ (and_congr ?_ ?_)
    · constructor
      · intro h i rq hi
        have := h i rq.1 (by rw [List.getElem?_map, hi]; rfl)
        rw [← row_lse ok X hi]
        exact this
      · intro h i r hi
        rw [List.getElem?_map] at hi
        obtain ⟨rq, hrq, rfl⟩ := Option.map_eq_some_iff.1 hi
        have := h i rq hrq
        rw [← row_lse ok X hrq] at this
        exact this
    · refine forall_congr' fun q => forall_congr' fun hq => ?_
      rw [row_sum ok X hq]
      rfl
    · rw [← linIdxs_eq ok.ne ok.rows]
      constructor
      · intro h r hr
        obtain ⟨j, hj⟩ := List.mem_iff_getElem?.1 hr
        have := h j r hj
        rw [row_lin ok X hj] at this
        exact this
      · intro h j r hj
        rw [row_lin ok X hj]
        exact h r (List.mem_iff_getElem?.2 ⟨j, hj⟩)
  have hk : (∀ i < (kLse k).sum, X (ncols A + 3 * i + 1) = 1) → ((∀ s ∈ (build cs A k pIdxs).cones, ExpCone (X s) (X (s + 1)) (X (s + 2))) ↔
      ∀ i < (kLse k).sum, Real.exp (X (ncols A + 3 * i + 2)) ≤ X (ncols A + 3 * i)) := by
    intro h1
    have he : ∀ i < (kLse k).sum, (ExpCone (X (ncols A + 3 * i)) (X (ncols A + 3 * i + 1)) (X (ncols A + 3 * i + 2)) ↔
        Real.exp (X (ncols A + 3 * i + 2)) ≤ X (ncols A + 3 * i)) := by
      intro i hi
      rw [h1 i hi]
      simp [ExpCone]
    constructor
    · intro h i hi
      exact (he i hi).1 (h _ (List.mem_map.2 ⟨i, List.mem_range.2 hi, rfl⟩))
    · intro h s hs
      obtain ⟨i, hi, rfl⟩ := List.mem_map.1 hs
      exact (he i (List.mem_range.1 hi)).2 (h i (List.mem_range.1 hi))
  constructor
  · intro h
    obtain ⟨h1, h2⟩ := hv.1 h.vars
    obtain ⟨h3, h4, h5⟩ := hc.1 h.cons
    exact ⟨h1, h2, (hk h1).1 h.cones, h3, h4, h5⟩
  · intro h
    exact ⟨hv.2 ⟨h.one, h.zneg⟩, hc.2 ⟨h.term, h.sum, h.lin⟩, (hk h.one).2 h.cone⟩

end

end Mosek
end Verif
