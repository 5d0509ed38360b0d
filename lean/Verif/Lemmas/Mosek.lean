import Verif.Spec.Conic
import Verif.Lemmas.Cvxopt
import Verif.Lemmas.Sub

/-! Lemmas about the conic program. -/

set_option linter.unusedSectionVars false

namespace Verif
namespace Mosek
open GP PyDict

/-! ### Coefficients put -/

theorem rowVal_of_nodup {puts : Coot ℝ} (h : (puts.map (fun t => (t.1, t.2.1))).Nodup) (X : Nat → ℝ) (i : Nat) :
    rowVal puts X i = rowDot puts X i := by
  have hc : coeffs puts = puts.map (fun t => ((t.1, t.2.1), t.2.2)) := by
    have hw : WF (([] : PyDict (Nat × Nat) ℝ) ++ puts.map (fun t => ((t.1, t.2.1), t.2.2))) := by
      simp only [List.nil_append, WF]
      rw [List.pairwise_map]
      unfold List.Nodup at h
      rw [List.pairwise_map] at h
      refine h.imp ?_
      intro a b hab
      simpa using hab
    have := foldl_set_eq hw
    rw [List.foldl_map] at this
    simpa [coeffs] using this
  unfold rowVal rowDot
  rw [hc, List.filter_map, List.map_map]
  rfl

theorem sum_fibers {α : Type} (g : α → Nat) (f : α → ℝ) (L : List α) : ∀ (J : List Nat), J.Nodup → (∀ t ∈ L, g t ∈ J) →
    (J.map (fun j => ((L.filter (fun t => g t = j)).map f).sum)).sum = (L.map f).sum := by
  induction L with
  | nil => intro J _ _; simp
  | cons t L ih =>
    intro J hJ h
    have ih := ih J hJ (fun u hu => h u (List.mem_cons_of_mem _ hu))
    have h1 : ∀ j, (((t :: L).filter (fun t => g t = j)).map f).sum = (if g t = j then f t else 0) + ((L.filter (fun t => g t = j)).map f).sum := by
      intro j
      by_cases hj : g t = j <;> simp [hj]
    simp only [h1, List.sum_map_add, List.map_cons, List.sum_cons, ih]
    congr 1
    have : ∀ J : List Nat, J.Nodup → g t ∈ J → (J.map (fun j => if g t = j then f t else 0)).sum = f t := by
      intro J
      induction J with
      | nil => intro _ h; simp at h
      | cons a J ihJ =>
        intro hn hm
        rw [List.nodup_cons] at hn
        by_cases ha : g t = a
        · have : (J.map (fun j => if g t = j then f t else 0)).sum = 0 := by
            apply List.sum_eq_zero
            intro x hx
            obtain ⟨j, hj, rfl⟩ := List.mem_map.1 hx
            rw [if_neg]
            rintro rfl
            exact hn.1 (ha ▸ hj)
          rw [List.map_cons, List.sum_cons, this, if_pos ha, add_zero]
        · rw [List.map_cons, List.sum_cons, if_neg ha, zero_add]
          exact ihJ hn.2 ((List.mem_cons.1 hm).resolve_left ha)
    exact this J hJ (h t (by simp))

theorem csrRow_sum (A : Coot ℝ) (y : Nat → ℝ) (r : Nat) : ((csrRow A r).map (fun e => e.2 * y e.1)).sum = rowDot A y r := by
  unfold csrRow rowDot
  rw [List.map_map]
  have := sum_fibers (fun t : Nat × Nat × ℝ => t.2.1) (fun t => t.2.2 * y t.2.1) (A.filter (fun t => t.1 = r))
    (((A.filter (fun t => t.1 = r)).map (fun t => t.2.1)).dedup) (List.nodup_dedup _)
    (fun t ht => List.mem_dedup.2 (List.mem_map.2 ⟨t, ht, rfl⟩))
  rw [← this]
  congr 1
  apply List.map_congr_left
  intro j _
  simp only [Function.comp]
  rw [← List.sum_map_mul_right, List.filter_filter]
  have h1 : (A.filter (fun t => decide (t.2.1 = j) && decide (t.1 = r))) = A.filter (fun t => decide (t.1 = r ∧ t.2.1 = j)) := by
    apply List.filter_congr
    intro t _
    rw [Bool.decide_and, Bool.and_comm]
  rw [h1]
  congr 1
  apply List.map_congr_left
  intro t ht
  have := (List.mem_filter.1 ht).2
  simp only [decide_eq_true_eq] at this
  rw [this.2]

theorem rowDot_csr (A : Coot ℝ) (y : Nat → ℝ) (r i q : Nat) :
    rowDot ((csrRow A r).map (fun e => (i, e.1, e.2))) y q = if i = q then rowDot A y r else 0 := by
  have hl : rowDot ((csrRow A r).map (fun e => (i, e.1, e.2))) y q =
      (((csrRow A r).map (fun e => (i, e.1, e.2))).filter (fun t => t.1 = q) |>.map (fun t => t.2.2 * y t.2.1)).sum := rfl
  rw [hl, List.filter_map, List.map_map, ← csrRow_sum A y r]
  by_cases h : i = q
  · simp only [h, if_true]
    have : List.filter ((fun t : Nat × Nat × ℝ => decide (t.1 = q)) ∘ fun e : Nat × ℝ => (q, e.1, e.2)) (csrRow A r) = csrRow A r := by
      rw [List.filter_eq_self]; intro a _; simp
    rw [this]
    rfl
  · have : List.filter ((fun t : Nat × Nat × ℝ => decide (t.1 = q)) ∘ fun e : Nat × ℝ => (i, e.1, e.2)) (csrRow A r) = [] := by
      rw [List.filter_eq_nil_iff]; intro a _; simp [h]
    rw [this]
    simp [h]

theorem csrRows_dot_aux (A : Coot ℝ) (y : Nat → ℝ) (q : Nat) : ∀ (idxs : List Nat) (s : Nat),
    rowDot ((idxs.zipIdx s).flatMap (fun mr => (csrRow A mr.1).map (fun e => (mr.2, e.1, e.2)))) y (s + q) =
      ((idxs[q]?).map (rowDot A y)).getD 0 := by
  induction q with
  | zero =>
    intro idxs s
    cases idxs with
    | nil => simp [rowDot]
    | cons r idxs =>
      rw [List.zipIdx_cons, List.flatMap_cons, rowDot_append, rowDot_csr]
      have hz : ∀ (l : List Nat) (s k : Nat), k < s → rowDot ((l.zipIdx s).flatMap (fun mr => (csrRow A mr.1).map (fun e => (mr.2, e.1, e.2)))) y k = 0 := by
        intro l
        induction l with
        | nil => intros; simp [rowDot]
        | cons a l ih =>
          intro s k hk
          rw [List.zipIdx_cons, List.flatMap_cons, rowDot_append, rowDot_csr, if_neg (by omega), ih (s + 1) k (by omega), add_zero]
      rw [hz _ _ _ (by omega)]
      simp
  | succ q ih =>
    intro idxs s
    cases idxs with
    | nil => simp [rowDot]
    | cons r idxs =>
      rw [List.zipIdx_cons, List.flatMap_cons, rowDot_append, rowDot_csr, if_neg (by omega), zero_add]
      have := ih idxs (s + 1)
      rw [show s + 1 + q = s + (q + 1) by omega] at this
      rw [this]
      simp

theorem csrRows_dot (A : Coot ℝ) (y : Nat → ℝ) (q : Nat) (idxs : List Nat) :
    rowDot (csrRows A idxs) y q = ((idxs[q]?).map (rowDot A y)).getD 0 := by
  have := csrRows_dot_aux A y q idxs 0
  rwa [Nat.zero_add] at this

theorem csrRows_mem {A : Coot ℝ} {idxs : List Nat} {t : Nat × Nat × ℝ} (h : t ∈ csrRows A idxs) :
    t.1 < idxs.length ∧ ∃ u ∈ A, u.2.1 = t.2.1 := by
  obtain ⟨mr, hmr, ht⟩ := List.mem_flatMap.1 h
  obtain ⟨e, he, rfl⟩ := List.mem_map.1 ht
  obtain ⟨j, hj, rfl⟩ := List.mem_map.1 he
  obtain ⟨u, hu, huj⟩ := List.mem_map.1 (List.mem_dedup.1 hj)
  refine ⟨?_, u, List.mem_of_mem_filter hu, huj⟩
  have := List.snd_lt_of_mem_zipIdx hmr
  simpa using this

theorem csrRows_nodup (A : Coot ℝ) (idxs : List Nat) : ((csrRows A idxs).map (fun t => (t.1, t.2.1))).Nodup := by
  unfold csrRows
  have : ∀ (l : List Nat) (s : Nat), (((l.zipIdx s).flatMap (fun mr => (csrRow A mr.1).map (fun e => (mr.2, e.1, e.2)))).map (fun t => (t.1, t.2.1))).Nodup := by
    intro l
    induction l with
    | nil => intro s; simp
    | cons r l ih =>
      intro s
      rw [List.zipIdx_cons, List.flatMap_cons, List.map_append, List.nodup_append]
      refine ⟨?_, ih (s + 1), ?_⟩
      · rw [List.map_map]
        unfold csrRow
        rw [List.map_map]
        refine List.Nodup.map ?_ (List.nodup_dedup _)
        intro a b hab
        simpa using hab
      · intro a ha b hb hab
        subst hab
        obtain ⟨t, ht, rfl⟩ := List.mem_map.1 ha
        obtain ⟨e, _, rfl⟩ := List.mem_map.1 ht
        obtain ⟨t', ht', hh⟩ := List.mem_map.1 hb
        obtain ⟨mr, hmr, ht'⟩ := List.mem_flatMap.1 ht'
        obtain ⟨e', _, rfl⟩ := List.mem_map.1 ht'
        have := List.le_snd_of_mem_zipIdx hmr
        simp only [Prod.mk.injEq] at hh
        omega
  exact this idxs 0

/-! ### Positions -/

/-- The rows of posynomial `p`. -/
def blk (k : List Nat) (p : Nat) : List Nat := List.range' (k.take p).sum ((k[p]?).getD 0)

theorem mem_blk {k : List Nat} {p i : Nat} : i ∈ blk k p ↔ (k.take p).sum ≤ i ∧ i < (k.take p).sum + (k[p]?).getD 0 := by
  unfold blk
  rw [List.mem_range'_1]

theorem range_blocks (k : List Nat) : List.range k.sum = (List.range k.length).flatMap (blk k) := by
  induction k using List.reverseRecOn with
  | nil => rfl
  | append_singleton k a ih =>
    rw [List.sum_append, List.length_append, List.length_singleton, List.range_succ, List.flatMap_append]
    have h1 : (List.range k.length).flatMap (blk (k ++ [a])) = (List.range k.length).flatMap (blk k) := by
      apply List.flatMap_congr
      intro p hp
      have hp := List.mem_range.1 hp
      unfold blk
      rw [List.take_append_of_le_length (by omega), List.getElem?_append_left hp]
    rw [h1, ← ih]
    simp only [List.sum_singleton, List.flatMap_singleton]
    unfold blk
    simp only [List.take_left', List.getElem?_concat_length, Option.getD_some]
    rw [List.range_add, List.range'_eq_map_range]

theorem zipIdx_filter {l : List Nat} (P : Nat → Bool) :
    (l.zipIdx.filter (fun x => P x.1)).map (·.2) = (List.range l.length).filter (fun i => P ((l[i]?).getD 0)) := by
  have : l.zipIdx = (List.range l.length).map (fun i => ((l[i]?).getD 0, i)) := by
    apply List.ext_getElem?
    intro i
    rw [List.getElem?_zipIdx, List.getElem?_map]
    by_cases h : i < l.length
    · simp [h]
    · simp [h]
  rw [this, List.filter_map, List.map_map]
  have : (Prod.snd ∘ fun i : Nat => ((l[i]?).getD 0, i)) = id := rfl
  rw [this, List.map_id]
  rfl

/-- Which rows belong to which posynomial. -/
structure Rows (k pIdxs : List Nat) : Prop where
  len : pIdxs.length = k.sum
  idx : ∀ i p, pIdxs[i]? = some p ↔ p < k.length ∧ i ∈ blk k p

theorem filter_blocks {k pIdxs : List Nat} (h : Rows k pIdxs) (S : Nat → Bool) :
    (List.range k.sum).filter (fun i => S ((pIdxs[i]?).getD 0)) = ((List.range k.length).filter S).flatMap (blk k) := by
  rw [range_blocks, List.filter_flatMap]
  have : ∀ p ∈ List.range k.length, (blk k p).filter (fun i => S ((pIdxs[i]?).getD 0)) = if S p then blk k p else [] := by
    intro p hp
    have hp := List.mem_range.1 hp
    have h1 : (blk k p).filter (fun i => S ((pIdxs[i]?).getD 0)) = (blk k p).filter (fun _ => S p) := by
      apply List.filter_congr
      intro i hi
      rw [(h.idx i p).2 ⟨hp, hi⟩]
      rfl
    rw [h1]
    cases S p <;> simp
  rw [List.flatMap_congr this]
  generalize List.range k.length = L
  induction L with
  | nil => rfl
  | cons a L ih =>
    rw [List.flatMap_cons, ih]
    cases hS : S a <;> simp [hS]

theorem range_tail (n : Nat) (h : 0 < n) : List.range n = 0 :: List.range' 1 (n - 1) := by
  rw [List.range_eq_range']
  obtain ⟨m, rfl⟩ : ∃ m, n = m + 1 := ⟨n - 1, by omega⟩
  rw [List.range'_succ]; rfl

/-- The posynomial is linear: not the cost, and at most one term. -/
def isLin (k : List Nat) (p : Nat) : Bool := decide (p ≠ 0 ∧ ¬ 1 < (k[p]?).getD 0)

theorem linPosys_eq {k : List Nat} (hk : k ≠ []) : linPosys k = (List.range k.length).filter (isLin k) := by
  rw [range_tail _ (List.length_pos_iff.2 hk), List.filter_cons]
  simp only [isLin, ne_eq, not_true_eq_false, false_and, decide_false]
  unfold linPosys
  apply List.filter_congr
  intro p hp
  have := (List.mem_range'_1.1 hp).1
  have h0 : p ≠ 0 := by omega
  simp [h0, isLin]

theorem lsePosys_eq {k : List Nat} (hk : k ≠ []) : lsePosys k = (List.range k.length).filter (fun p => !isLin k p) := by
  rw [range_tail _ (List.length_pos_iff.2 hk), List.filter_cons]
  simp only [isLin, ne_eq, not_true_eq_false, false_and, decide_false, Bool.not_false, if_true]
  unfold lsePosys
  congr 1
  apply List.filter_congr
  intro p hp
  have := (List.mem_range'_1.1 hp).1
  have h0 : p ≠ 0 := by omega
  by_cases h1 : 1 < (k[p]?).getD 0 <;> simp [h0, h1]

theorem mem_linPosys {k : List Nat} (hk : k ≠ []) {p : Nat} : p ∈ linPosys k ↔ p < k.length ∧ isLin k p = true := by
  rw [linPosys_eq hk, List.mem_filter, List.mem_range]

theorem mem_lsePosys {k : List Nat} (hk : k ≠ []) {p : Nat} : p ∈ lsePosys k ↔ p < k.length ∧ isLin k p = false := by
  rw [lsePosys_eq hk, List.mem_filter, List.mem_range]
  simp

theorem linIdxs_eq {k pIdxs : List Nat} (hk : k ≠ []) (h : Rows k pIdxs) : linIdxs k pIdxs = (linPosys k).flatMap (blk k) := by
  unfold linIdxs
  have := zipIdx_filter (l := pIdxs) (fun p => decide (p ∈ linPosys k))
  rw [this, h.len, filter_blocks h (fun p => decide (p ∈ linPosys k)), linPosys_eq hk]
  congr 1
  apply List.filter_congr
  intro p hp
  have := List.mem_range.1 hp
  simp [this, List.mem_filter]

theorem lseIdxs_eq {k pIdxs : List Nat} (hk : k ≠ []) (h : Rows k pIdxs) : lseIdxs k pIdxs k.sum = (lsePosys k).flatMap (blk k) := by
  unfold lseIdxs
  rw [lsePosys_eq hk, ← filter_blocks h]
  apply List.filter_congr
  intro i hi
  have hi := List.mem_range.1 hi
  have hlt : i < pIdxs.length := by rw [h.len]; exact hi
  have hp := List.getElem?_eq_getElem hlt
  have hb := (h.idx _ _).1 hp
  rw [hp]
  simp only [Option.getD_some]
  have : i ∈ linIdxs k pIdxs ↔ isLin k pIdxs[i] = true := by
    unfold linIdxs
    have := zipIdx_filter (l := pIdxs) (fun p => decide (p ∈ linPosys k))
    rw [this, List.mem_filter, List.mem_range]
    rw [hp]
    simp only [Option.getD_some, decide_eq_true_eq]
    rw [mem_linPosys hk]
    exact ⟨fun hh => hh.2.2, fun hh => ⟨hlt, hb.1, hh⟩⟩
  cases hl : isLin k pIdxs[i] <;> simp [this, hl]

/-! ### Rows with cones -/

/-- Row of the matrix and position of the posynomial, for each row that gets a cone. -/
def lseRows (k : List Nat) : List (Nat × Nat) := (lsePosys k).zipIdx.flatMap (fun pq => (blk k pq.1).map (fun i => (i, pq.2)))

theorem flatMap_zipIdx_fst {α β : Type} (f : α → List β) : ∀ (l : List α) (s : Nat),
    (l.zipIdx s).flatMap (fun pq => f pq.1) = l.flatMap f := by
  intro l
  induction l with
  | nil => intro s; rfl
  | cons a l ih => intro s; rw [List.zipIdx_cons, List.flatMap_cons, List.flatMap_cons, ih]

theorem lseRows_fst (k : List Nat) : (lseRows k).map (·.1) = (lsePosys k).flatMap (blk k) := by
  unfold lseRows
  rw [List.map_flatMap]
  have : (fun pq : Nat × Nat => ((blk k pq.1).map (fun i => (i, pq.2))).map (·.1)) = fun pq => blk k pq.1 := by
    funext pq
    rw [List.map_map]
    exact List.map_id _
  rw [this, flatMap_zipIdx_fst]

theorem lseRows_snd (k : List Nat) : (lseRows k).map (·.2) = lsePIdx k := by
  unfold lseRows lsePIdx kLse
  rw [List.map_flatMap, List.zipIdx_map, List.flatMap_map]
  apply List.flatMap_congr
  intro pq _
  rw [List.map_map]
  have : ((fun x : Nat × Nat => x.2) ∘ fun i => (i, pq.2)) = fun _ => pq.2 := rfl
  rw [this, List.map_const']
  simp [blk]

theorem lseRows_length (k : List Nat) : (lseRows k).length = (kLse k).sum := by
  rw [← List.length_map (f := fun x : Nat × Nat => x.2), lseRows_snd]
  unfold lsePIdx
  have : ∀ (l : List Nat) (s : Nat), ((l.zipIdx s).flatMap (fun ki => List.replicate ki.1 ki.2)).length = l.sum := by
    intro l
    induction l with
    | nil => intro s; rfl
    | cons a l ih => intro s; rw [List.zipIdx_cons, List.flatMap_cons, List.length_append, ih]; simp
  exact this _ 0

theorem lsePIdx_length (k : List Nat) : (lsePIdx k).length = (kLse k).sum := by
  rw [← lseRows_snd, List.length_map, lseRows_length]

theorem lsePIdx_lt {k : List Nat} {q : Nat} (h : q ∈ lsePIdx k) : q < (kLse k).length := by
  obtain ⟨ki, hki, hq⟩ := List.mem_flatMap.1 h
  rw [List.eq_of_mem_replicate hq]
  have := List.snd_lt_of_mem_zipIdx hki
  simpa using this

theorem kLse_length (k : List Nat) : (kLse k).length = (lsePosys k).length := by simp [kLse]

theorem kLse_pos (k : List Nat) : 0 < (kLse k).length := by simp [kLse, lsePosys]

/-! ### Rows of the task -/

theorem rowDot_none {P : Coot ℝ} {i : Nat} (h : ∀ t ∈ P, t.1 ≠ i) (X : Nat → ℝ) : rowDot P X i = 0 := by
  unfold rowDot
  have : P.filter (fun t => t.1 = i) = [] := by
    rw [List.filter_eq_nil_iff]; intro t ht; simpa using h t ht
  rw [this]; rfl

theorem rowDot_range (n : Nat) (c : Nat → Nat) (a : Nat → ℝ) (X : Nat → ℝ) (i : Nat) (hi : i < n) :
    rowDot ((List.range n).map (fun i => (i, c i, a i))) X i = a i * X (c i) := by
  unfold rowDot
  rw [List.filter_map, List.map_map]
  have : (List.range n).filter ((fun t : Nat × Nat × ℝ => decide (t.1 = i)) ∘ fun i => (i, c i, a i)) = [i] := by
    have h : ((fun t : Nat × Nat × ℝ => decide (t.1 = i)) ∘ fun i => (i, c i, a i)) = fun j => decide (j = i) := rfl
    rw [h]
    have : ∀ n, (List.range n).filter (fun j => decide (j = i)) = if i < n then [i] else [] := by
      intro n
      induction n with
      | zero => rfl
      | succ n ih =>
        rw [List.range_succ, List.filter_append, ih]
        by_cases h1 : i < n
        · have : ¬ n = i := by omega
          have h2 : i < n + 1 := by omega
          simp [h1, this, h2]
        · by_cases h2 : n = i
          · subst h2; simp
          · have h3 : ¬ i < n + 1 := by omega
            simp [h1, h2, h3]
    rw [this, if_pos hi]
  rw [this]
  simp

theorem zipIdx_range (l : List Nat) : l.zipIdx = (List.range l.length).map (fun i => ((l[i]?).getD 0, i)) := by
  apply List.ext_getElem?
  intro i
  rw [List.getElem?_zipIdx, List.getElem?_map]
  by_cases h : i < l.length
  · simp [h]
  · simp [h]

theorem lt_ncols {A : Coot ℝ} {t : Nat × Nat × ℝ} (h : t ∈ A) : t.2.1 < ncols A := by
  unfold ncols
  induction A with
  | nil => cases h
  | cons u A ih =>
    rw [List.map_cons, List.foldr_cons]
    rcases List.mem_cons.1 h with rfl | h
    · omega
    · have := ih h; omega

/-- The data of a program handed to a solver. `nodup`: without linear posynomials the matrix must not have repeated entries. -/
structure DataOK (cs : List ℝ) (A : Coot ℝ) (k pIdxs : List Nat) : Prop where
  rows : Rows k pIdxs
  ne : k ≠ []
  len : cs.length = k.sum
  inside : ∀ t ∈ A, t.1 < cs.length
  nodup : linPosys k = [] → (A.map (fun t => (t.1, t.2.1))).Nodup

section
variable {cs : List ℝ} {A : Coot ℝ} {k pIdxs : List Nat} (ok : DataOK cs A k pIdxs)
include ok

theorem lseIdxs_rows : lseIdxs k pIdxs cs.length = (lseRows k).map (·.1) := by
  rw [ok.len, lseIdxs_eq ok.ne ok.rows, lseRows_fst]

theorem lseIdxs_all (h : linPosys k = []) : lseIdxs k pIdxs cs.length = List.range cs.length := by
  unfold lseIdxs
  rw [List.filter_eq_self]
  intro i _
  rw [linIdxs_eq ok.ne ok.rows, h]
  simp

theorem aLse_dot (X : Nat → ℝ) (i : Nat) : rowDot (aLse A k pIdxs cs.length) X i = (((lseRows k)[i]?).map (fun rq => rowDot A X rq.1)).getD 0 := by
  unfold aLse
  by_cases h : linPosys k = []
  · have hr := lseIdxs_rows ok
    rw [lseIdxs_all ok h] at hr
    simp only [h, List.isEmpty_nil, if_true]
    by_cases hi : i < cs.length
    · have h1 : ((lseRows k).map (·.1))[i]? = some i := by rw [← hr]; simp [hi]
      rw [List.getElem?_map] at h1
      cases h2 : (lseRows k)[i]? with
      | none => rw [h2] at h1; simp at h1
      | some rq =>
        rw [h2] at h1
        simp only [Option.map_some, Option.some.injEq] at h1
        simp [h1]
    · have hl : (lseRows k).length = cs.length := by
        have := congrArg List.length hr
        simpa using this.symm
      rw [List.getElem?_eq_none (by omega), rowDot_none]
      · rfl
      · intro t ht
        have := ok.inside t ht
        omega
  · have hf : (linPosys k).isEmpty = false := by simp [h]
    rw [hf]
    simp only [Bool.false_eq_true, if_false]
    rw [csrRows_dot, lseIdxs_rows ok, List.getElem?_map, Option.map_map]
    rfl

theorem aLse_facts : (∀ t ∈ aLse A k pIdxs cs.length, t.1 < (kLse k).sum ∧ t.2.1 < ncols A) ∧
    ((aLse A k pIdxs cs.length).map (fun t => (t.1, t.2.1))).Nodup := by
  unfold aLse
  by_cases h : linPosys k = []
  · have hr := lseIdxs_rows ok
    rw [lseIdxs_all ok h] at hr
    have hl : (lseRows k).length = cs.length := by
      have := congrArg List.length hr
      simpa using this.symm
    simp only [h, List.isEmpty_nil, if_true]
    refine ⟨fun t ht => ⟨?_, lt_ncols ht⟩, ok.nodup h⟩
    rw [← lseRows_length, hl]
    exact ok.inside t ht
  · have hf : (linPosys k).isEmpty = false := by simp [h]
    rw [hf]
    simp only [Bool.false_eq_true, if_false]
    refine ⟨?_, csrRows_nodup _ _⟩
    intro t ht
    obtain ⟨h1, u, hu, h2⟩ := csrRows_mem ht
    refine ⟨?_, h2 ▸ lt_ncols hu⟩
    rw [lseIdxs_rows ok, List.length_map, lseRows_length] at h1
    exact h1

end

end Mosek
end Verif
