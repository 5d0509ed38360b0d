import Verif.Model.Cvxopt
import Verif.Spec.Cvx
import Verif.Lemmas.GP
import Mathlib.Tactic.Linarith
import Mathlib.Tactic.Ring

/-! # Lemmas about the cvxopt interface -/

set_option linter.unusedSectionVars false

namespace Verif
namespace Cvxopt
open GP

theorem rowDot_map_row (A : Coot ℝ) (y : Nat → ℝ) (m r q : Nat) :
    rowDot ((A.filter (fun t => t.1 = m)).map (fun t => (r, t.2.1, t.2.2))) y q = if r = q then rowDot A y m else 0 := by
  induction A with
  | nil => simp [rowDot]
  | cons t A ih =>
    rw [rowDot_cons]
    by_cases h : t.1 = m
    · rw [List.filter_cons_of_pos (by simpa using h), List.map_cons, rowDot_cons, ih, if_pos h]
      by_cases hr : r = q <;> simp [hr]
    · rw [List.filter_cons_of_neg (by simpa using h), ih, if_neg h]
      simp

theorem selectRows_aux (A : Coot ℝ) (y : Nat → ℝ) (mons : List Nat) (k q m : Nat) (h : mons[q]? = some m) :
    rowDot ((mons.zipIdx k).flatMap (fun mr => (A.filter (fun t => t.1 = mr.1)).map (fun t => (mr.2, t.2.1, t.2.2)))) y (k + q)
      = rowDot A y m := by
  have hz : ∀ (l : List Nat) (k q : Nat), q < k →
      rowDot ((l.zipIdx k).flatMap (fun mr => (A.filter (fun t => t.1 = mr.1)).map (fun t => (mr.2, t.2.1, t.2.2)))) y q = 0 := by
    intro l
    induction l with
    | nil => intro k q _; simp [rowDot]
    | cons a l ih =>
      intro k q hq
      rw [List.zipIdx_cons, List.flatMap_cons, rowDot_append, rowDot_map_row, ih _ _ (by omega), if_neg (by simp; omega)]
      simp
  induction mons generalizing k q with
  | nil => simp at h
  | cons a l ih =>
    rw [List.zipIdx_cons, List.flatMap_cons, rowDot_append, rowDot_map_row]
    cases q with
    | zero =>
      simp only [List.getElem?_cons_zero, Option.some.injEq] at h
      subst h
      rw [if_pos (by simp), hz _ _ _ (by omega), add_zero]
    | succ q =>
      simp only [List.getElem?_cons_succ] at h
      rw [if_neg (by simp), show k + (q + 1) = k + 1 + q by omega, ih _ _ h, zero_add]

theorem selectRows_dot (A : Coot ℝ) (y : Nat → ℝ) (mons : List Nat) (mc q m : Nat) (h : mons[q]? = some m) :
    rowDot (selectRows A mons mc) y q = rowDot A y m := by
  unfold selectRows
  rw [rowDot_append]
  have := selectRows_aux A y mons 0 q m h
  rw [Nat.zero_add] at this
  rw [this, rowDot_zero [(0, mc, 0)] y q (by simp), add_zero]

theorem zipIdx_map_map {α : Type} (mons : List Nat) (f : Nat → ℝ) (F : ℝ → Nat → α) :
    (mons.map f).zipIdx.map (fun gr => F gr.1 gr.2) = mons.zipIdx.map (fun mr => F (f mr.1) mr.2) := by
  rw [List.zipIdx_map, List.map_map]; rfl

theorem zipIdx_map_eq {α : Type} (mons : List Nat) (G : Nat → Nat → α) (W : Nat → α)
    (h : ∀ q m, mons[q]? = some m → G m q = W m) : mons.zipIdx.map (fun mr => G mr.1 mr.2) = mons.map W := by
  apply List.ext_getElem?
  intro q
  rw [List.getElem?_map, List.getElem?_map, List.getElem?_zipIdx]
  cases hq : mons[q]? with
  | none => rfl
  | some m => simp [h q m hq]

/-- The rows of `exp (F x + g)` are the selected terms. -/
theorem expRows_select (A : Coot ℝ) (y : Nat → ℝ) (mons : List Nat) (mc : Nat) (lc : Nat → ℝ) :
    expRows (selectRows A mons mc) (mons.map lc) y = mons.map (fun m => Real.exp (rowDot A y m + lc m)) := by
  unfold expRows
  rw [zipIdx_map_map mons lc (fun g r => Real.exp (rowDot (selectRows A mons mc) y r + g))]
  exact zipIdx_map_eq mons (fun m r => Real.exp (rowDot (selectRows A mons mc) y r + lc m)) _
    (fun q m h => by simp only [selectRows_dot A y mons mc q m h])

theorem residuals_select (A : Coot ℝ) (y : Nat → ℝ) (mons : List Nat) (mc : Nat) (lc : Nat → ℝ) :
    residuals (selectRows A mons mc) (mons.map (fun m => -lc m)) y = mons.map (fun m => rowDot A y m + lc m) := by
  unfold residuals
  rw [zipIdx_map_map mons (fun m => -lc m) (fun g r => rowDot (selectRows A mons mc) y r - g)]
  exact zipIdx_map_eq mons (fun m r => rowDot (selectRows A mons mc) y r - -lc m) _
    (fun q m h => by simp only [selectRows_dot A y mons mc q m h, sub_neg_eq_add])

theorem blockSums_flatMap {α : Type} (ps : List α) (len : α → Nat) (f : α → List ℝ) (h : ∀ p ∈ ps, (f p).length = len p) :
    blockSums (ps.map len) (ps.flatMap f) = ps.map (fun p => (f p).sum) := by
  induction ps with
  | nil => rfl
  | cons p ps ih =>
    simp only [List.map_cons, List.flatMap_cons, blockSums]
    rw [← h p (by simp), List.take_left, List.drop_left, ih (fun q hq => h q (by simp [hq]))]

section Split
variable (k all first : List Nat) (u : Bool)

/-- Treated as an equality. -/
def isEq (i : Nat) : Bool := u && decide ((k.take i).sum ∈ all)
/-- First half of an equality. -/
def isLeq (i : Nat) : Bool := isEq k all u i && decide ((k.take i).sum ∈ first)
/-- Linear inequality. -/
def isLin (i : Nat) : Bool := !isEq k all u i && (decide (i ≠ 0) && decide ((k[i]?).getD 0 = 1))
/-- Log-sum-exp. -/
def isLse (i : Nat) : Bool := !isEq k all u i && !(decide (i ≠ 0) && decide ((k[i]?).getD 0 = 1))
/-- Rows of a posynomial. -/
def mons (i : Nat) : List Nat := List.range' ((k.take i).sum) ((k[i]?).getD 0)

/-- The six lists are filters of the positions. -/
theorem split_eq (n : Nat) :
    (List.range n).foldl (splitStep k all first u) {} =
      { lseMons := ((List.range n).filter (isLse k all u)).flatMap (mons k)
        linMons := ((List.range n).filter (isLin k all u)).flatMap (mons k)
        leqMons := ((List.range n).filter (isLeq k all first u)).flatMap (mons k)
        lsePosys := (List.range n).filter (isLse k all u)
        linPosys := (List.range n).filter (isLin k all u)
        leqPosys := (List.range n).filter (isLeq k all first u) } := by
  induction n with
  | zero => rfl
  | succ n ih =>
    rw [List.range_succ, List.foldl_append, ih]
    simp only [List.foldl_cons, List.foldl_nil, List.filter_append, List.flatMap_append]
    unfold splitStep
    dsimp only
    by_cases h1 : (u && decide ((k.take n).sum ∈ all)) = true
    · rw [if_pos h1]
      have e1 : isEq k all u n = true := h1
      by_cases h2 : (k.take n).sum ∈ first
      · rw [if_pos h2]
        simp [isLse, isLin, isLeq, e1, h2, mons]
      · rw [if_neg h2]
        simp [isLse, isLin, isLeq, e1, h2]
    · rw [if_neg h1]
      have e1 : isEq k all u n = false := by simpa [isEq] using h1
      by_cases h2 : n ≠ 0 ∧ (k[n]?).getD 0 = 1
      · rw [if_pos h2]
        simp [isLse, isLin, isLeq, e1, h2, mons]
      · rw [if_neg h2]
        have h3 : (decide (n ≠ 0) && decide ((k[n]?).getD 0 = 1)) = false := by
          rw [← Bool.not_eq_true, Bool.and_eq_true, decide_eq_true_eq, decide_eq_true_eq]; exact h2
        have f1 : isLse k all u n = true := by unfold isLse; rw [e1, h3]; rfl
        have f2 : isLin k all u n = false := by unfold isLin; rw [e1, h3]; rfl
        have f3 : isLeq k all first u n = false := by unfold isLeq; rw [e1]; rfl
        simp [f1, f2, f3, mons]

end Split

/-! ### Putting multipliers back -/

/-- Weighted sum of a list. -/
noncomputable def wsum (la : List ℝ) (L : Nat → ℝ) : ℝ := (la.zipIdx.map (fun xi => xi.1 * L xi.2)).sum

theorem wsum_set (la : List ℝ) (L : Nat → ℝ) (i : Nat) (v : ℝ) (h : la[i]? = some 0) :
    wsum (la.set i v) L = wsum la L + v * L i := by
  have : ∀ (la : List ℝ) (k i : Nat), la[i]? = some 0 →
      (((la.set i v).zipIdx k).map (fun xi => xi.1 * L xi.2)).sum = ((la.zipIdx k).map (fun xi => xi.1 * L xi.2)).sum + v * L (k + i) := by
    intro la
    induction la with
    | nil => intro k i h; simp at h
    | cons a la ih =>
      intro k i h
      cases i with
      | zero =>
        simp only [List.getElem?_cons_zero, Option.some.injEq] at h
        subst h
        simp [List.zipIdx_cons]; ring
      | succ i =>
        simp only [List.getElem?_cons_succ] at h
        simp only [List.set_cons_succ, List.zipIdx_cons, List.map_cons, List.sum_cons]
        rw [ih _ _ h, show k + 1 + i = k + (i + 1) by omega]; ring
  have := this la 0 i h
  rwa [Nat.zero_add] at this

theorem wsum_replicate (n : Nat) (L : Nat → ℝ) : wsum (List.replicate n 0) L = 0 := by
  unfold wsum
  apply List.sum_eq_zero
  intro x hx
  obtain ⟨p, hp, rfl⟩ := List.mem_map.1 hx
  have := List.fst_mem_of_mem_zipIdx hp
  rw [(List.mem_replicate.1 this).2, zero_mul]

theorem assign_spec (idxs : List Nat) (vals : List ℝ) (la : List ℝ) (L : Nat → ℝ) (hl : idxs.length = vals.length) (hn : idxs.Nodup)
    (h0 : ∀ i ∈ idxs, la[i]? = some 0) :
    wsum (assign la idxs vals) L = wsum la L + dotList vals (idxs.map L) ∧
    (assign la idxs vals).length = la.length ∧
    (∀ i : Nat, i ∉ idxs → (assign la idxs vals)[i]? = la[i]?) ∧
    (∀ q i : Nat, idxs[q]? = some i → (assign la idxs vals)[i]? = vals[q]?) := by
  induction idxs generalizing vals la with
  | nil => simp [assign, dotList]
  | cons i idxs ih =>
    cases vals with
    | nil => simp at hl
    | cons v vals =>
      obtain ⟨hni, hn⟩ := List.nodup_cons.1 hn
      have hi := h0 i (by simp)
      have hil : i < la.length := by
        by_contra hh; rw [List.getElem?_eq_none (by omega)] at hi; cases hi
      obtain ⟨e1, e2, e3, e4⟩ := ih vals (la.set i v) (by simpa using hl) hn (by
        intro j hj
        rw [List.getElem?_set_ne (by rintro rfl; exact hni hj)]
        exact h0 j (by simp [hj]))
      have hs : assign la (i :: idxs) (v :: vals) = assign (la.set i v) idxs vals := rfl
      rw [hs]
      refine ⟨?_, by rw [e2, List.length_set], ?_, ?_⟩
      · rw [e1, wsum_set la L i v hi]
        simp [dotList]; ring
      · intro j hj
        simp only [List.mem_cons, not_or] at hj
        rw [e3 j hj.2, List.getElem?_set_ne (Ne.symm hj.1)]
      · intro q j hq
        cases q with
        | zero =>
          simp only [List.getElem?_cons_zero, Option.some.injEq] at hq
          subst hq
          rw [e3 _ hni, List.getElem?_set_self hil]; rfl
        | succ q =>
          simp only [List.getElem?_cons_succ] at hq
          rw [e4 q j hq]; rfl

theorem assignEq_spec (idxs : List Nat) (ys : List ℝ) (la : List ℝ) (L : Nat → ℝ) (hl : idxs.length = ys.length)
    (hn : (idxs.flatMap (fun i => [i, i + 1])).Nodup) (h0 : ∀ i ∈ idxs, la[i]? = some 0 ∧ la[i + 1]? = some 0)
    (hL : ∀ i ∈ idxs, L (i + 1) = -L i) :
    wsum ((idxs.zip ys).foldl assignEq la) L = wsum la L + dotList ys (idxs.map L) ∧
    ((idxs.zip ys).foldl assignEq la).length = la.length ∧
    (∀ i : Nat, i ∉ idxs.flatMap (fun i => [i, i + 1]) → ((idxs.zip ys).foldl assignEq la)[i]? = la[i]?) ∧
    ((∀ x ∈ la, 0 ≤ x) → ∀ x ∈ (idxs.zip ys).foldl assignEq la, 0 ≤ x) := by
  induction idxs generalizing ys la with
  | nil => simp [dotList]
  | cons i idxs ih =>
    cases ys with
    | nil => simp at hl
    | cons v ys =>
      rw [List.flatMap_cons, List.nodup_append] at hn
      obtain ⟨_, hn, hd⟩ := hn
      obtain ⟨hi, hi1⟩ := h0 i (by simp)
      have hkeep : ∀ j, j ∉ [i, i + 1] → (assignEq la (i, v))[j]? = la[j]? := by
        intro j hj
        simp only [List.mem_cons, List.not_mem_nil, or_false, not_or] at hj
        unfold assignEq
        dsimp only
        split_ifs
        · rw [List.getElem?_set_ne (Ne.symm hj.1)]
        · rw [List.getElem?_set_ne (Ne.symm hj.2)]
      have hj : ∀ j ∈ idxs, j ∉ [i, i + 1] ∧ j + 1 ∉ [i, i + 1] := by
        intro j hj
        constructor
        · intro hh; exact hd j hh j (List.mem_flatMap.2 ⟨j, hj, by simp⟩) rfl
        · intro hh; exact hd (j + 1) hh (j + 1) (List.mem_flatMap.2 ⟨j, hj, by simp⟩) rfl
      obtain ⟨e1, e2, e3, e4⟩ := ih ys (assignEq la (i, v)) (by simpa using hl) hn (by
        intro j hjm
        rw [hkeep _ (hj j hjm).1, hkeep _ (hj j hjm).2]
        exact h0 j (by simp [hjm])) (fun j hjm => hL j (by simp [hjm]))
      have hw : wsum (assignEq la (i, v)) L = wsum la L + v * L i := by
        unfold assignEq
        dsimp only
        split_ifs
        · exact wsum_set la L i v hi
        · rw [wsum_set la L (i + 1) (-v) hi1, hL i (by simp)]; ring
      simp only [List.zip_cons_cons, List.foldl_cons]
      refine ⟨?_, ?_, ?_, ?_⟩
      · rw [e1, hw]; simp [dotList]; ring
      · rw [e2]; unfold assignEq; dsimp only; split_ifs <;> simp
      · intro j hjm
        rw [List.flatMap_cons, List.mem_append, not_or] at hjm
        rw [e3 j hjm.2, hkeep j hjm.1]
      · intro hp
        apply e4
        intro x hx
        unfold assignEq at hx
        dsimp only at hx
        split_ifs at hx with hv
        · rcases List.mem_or_eq_of_mem_set hx with h | h
          · exact hp x h
          · rw [h]; exact hv
        · rcases List.mem_or_eq_of_mem_set hx with h | h
          · exact hp x h
          · rw [h]; linarith

/-! ### Positions of the constraints -/
variable {V : Type} [DecidableEq V]

/-- The posynomials of a constraint; those of an equality are tagged `from_meq` (gpkit/nomials/math.py 501-507, 532-544). -/
noncomputable def hmaps : Con V → List (Hmap V ℝ)
  | .ineq ts => [⟨ts, false⟩]
  | .eq e e' c => [⟨[(e, c)], true⟩, ⟨[(e', 1 / c)], true⟩]

/-- A statement about each element and what precedes it, element by element. -/
theorem forall_pos_cons {α : Type} (pre : List α) (a : α) (l : List α) (P : List α → α → Prop) :
    (∀ p h, pre.length ≤ p → (pre ++ a :: l)[p]? = some h → P ((pre ++ a :: l).take p) h) ↔
      P pre a ∧ ∀ p h, (pre ++ [a]).length ≤ p → ((pre ++ [a]) ++ l)[p]? = some h → P (((pre ++ [a]) ++ l).take p) h := by
  have hsh : pre ++ a :: l = (pre ++ [a]) ++ l := by simp
  constructor
  · intro H
    constructor
    · have := H pre.length a le_rfl (by simp)
      rwa [List.take_left] at this
    · intro p h hp hh
      rw [← hsh] at hh ⊢
      exact H p h (by simp at hp; omega) hh
  · rintro ⟨H1, H2⟩ p h hp hh
    rcases Nat.eq_or_lt_of_le hp with rfl | hlt
    · have : h = a := by simpa using hh.symm
      subst this
      rwa [List.take_left]
    · rw [hsh] at hh ⊢
      exact H2 p h (by simp; omega) hh

theorem forall_pos_nil {α : Type} (pre : List α) (P : List α → α → Prop) :
    (∀ p h, pre.length ≤ p → (pre ++ [])[p]? = some h → P ((pre ++ []).take p) h) ↔ True := by
  simp only [iff_true]
  intro p h hp hh
  rw [List.append_nil, List.getElem?_eq_none hp] at hh
  cases hh

/-- Two statements by position, one for inequalities, one for first halves of equalities, are a statement about constraints. -/
theorem positions (cons : List (Con V)) (pre : List (Hmap V ℝ)) (hpre : pre.countP (·.fromMeq) % 2 = 0)
    (B : Hmap V ℝ → Prop) (E F : Hmap V ℝ → Prop) (S : Con V → Prop)
    (hi : ∀ ts, Con.ineq ts ∈ cons → (B ⟨ts, false⟩ ↔ S (.ineq ts)))
    (he : ∀ e e' c, Con.eq e e' c ∈ cons → ((E ⟨[(e, c)], true⟩ ∧ F ⟨[(e', 1 / c)], true⟩) ↔ S (.eq e e' c))) :
    (∀ p h, pre.length ≤ p → (pre ++ cons.flatMap hmaps)[p]? = some h →
      (h.fromMeq = false → B h) ∧
      (h.fromMeq = true → ((pre ++ cons.flatMap hmaps).take p).countP (·.fromMeq) % 2 = 0 → E h) ∧
      (h.fromMeq = true → ((pre ++ cons.flatMap hmaps).take p).countP (·.fromMeq) % 2 = 1 → F h)) ↔
    ∀ c ∈ cons, S c := by
  induction cons generalizing pre with
  | nil =>
    have := forall_pos_nil pre (fun t h => (h.fromMeq = false → B h) ∧
      (h.fromMeq = true → t.countP (·.fromMeq) % 2 = 0 → E h) ∧ (h.fromMeq = true → t.countP (·.fromMeq) % 2 = 1 → F h))
    simp only [List.flatMap_nil]
    rw [this]; simp
  | cons c cons ih =>
    rw [List.flatMap_cons, List.forall_mem_cons]
    cases c with
    | ineq ts =>
      have := forall_pos_cons pre ⟨ts, false⟩ (cons.flatMap hmaps) (fun t h => (h.fromMeq = false → B h) ∧
        (h.fromMeq = true → t.countP (·.fromMeq) % 2 = 0 → E h) ∧ (h.fromMeq = true → t.countP (·.fromMeq) % 2 = 1 → F h))
      rw [show hmaps (Con.ineq ts) ++ cons.flatMap hmaps = (⟨ts, false⟩ : Hmap V ℝ) :: cons.flatMap hmaps from rfl, this,
        ih _ (by simpa using hpre) (fun ts h => hi ts (by simp [h])) (fun e e' c h => he e e' c (by simp [h])),
        ← hi ts (by simp)]
      simp
    | eq e e' c =>
      have h1 := forall_pos_cons pre ⟨[(e, c)], true⟩ (⟨[(e', 1 / c)], true⟩ :: cons.flatMap hmaps)
        (fun t h => (h.fromMeq = false → B h) ∧
        (h.fromMeq = true → t.countP (·.fromMeq) % 2 = 0 → E h) ∧ (h.fromMeq = true → t.countP (·.fromMeq) % 2 = 1 → F h))
      have h2 := forall_pos_cons (pre ++ [⟨[(e, c)], true⟩]) ⟨[(e', 1 / c)], true⟩ (cons.flatMap hmaps)
        (fun t h => (h.fromMeq = false → B h) ∧
        (h.fromMeq = true → t.countP (·.fromMeq) % 2 = 0 → E h) ∧ (h.fromMeq = true → t.countP (·.fromMeq) % 2 = 1 → F h))
      rw [show hmaps (Con.eq e e' c) ++ cons.flatMap hmaps
          = (⟨[(e, c)], true⟩ : Hmap V ℝ) :: ⟨[(e', 1 / c)], true⟩ :: cons.flatMap hmaps from rfl, h1, h2,
        ih _ (by simp [List.countP_append]; omega) (fun ts h => hi ts (by simp [h])) (fun e e' c h => he e e' c (by simp [h])),
        ← he e e' c (by simp)]
      have c1 : (pre ++ [(⟨[(e, c)], true⟩ : Hmap V ℝ)]).countP (·.fromMeq) % 2 = 1 := by
        simp [List.countP_append]; omega
      simp only [hpre, c1]
      simp [and_assoc]

end Cvxopt
end Verif
