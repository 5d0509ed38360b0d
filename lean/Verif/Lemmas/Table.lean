import Verif.Spec.Table
import Verif.Props.Vector
import Mathlib.Data.List.Basic
import Mathlib.Data.List.InsertIdx
import Mathlib.Tactic.Linarith

/-! Lemmas about tables. -/

set_option linter.unusedSectionVars false

namespace Verif
namespace Tables
open Vectors
variable {Q K A : Type}

section arrange

theorem chunks_flatten (n : Nat) (hn : 0 < n) : ∀ (p : Nat) (l : List A), l.length ≤ p → (chunks n p l).flatten = l := by
  intro p
  induction p with
  | zero => intro l h; rw [List.length_eq_zero_iff.1 (Nat.le_zero.1 h)]; rfl
  | succ p ih =>
    intro l h
    rw [chunks]
    split
    · rename_i he
      rw [List.isEmpty_iff.1 he]; rfl
    · rename_i he
      have : l ≠ [] := fun e => he (by rw [e]; rfl)
      have := List.length_pos_iff.2 this
      rw [List.flatten_cons, ih _ (by rw [List.length_drop]; omega), List.take_append_drop]

theorem chunks_flatMap {B : Type} (n : Nat) (hn : 0 < n) (f : B → List A) (hf : ∀ b, (f b).length = n) :
    ∀ (p : Nat) (l : List B), (l.flatMap f).length ≤ p → chunks n p (l.flatMap f) = l.map f := by
  intro p
  induction p with
  | zero =>
    intro l h
    cases l with
    | nil => rfl
    | cons b l => rw [List.flatMap_cons, List.length_append, hf] at h; omega
  | succ p ih =>
    intro l h
    cases l with
    | nil => rfl
    | cons b l =>
      rw [List.flatMap_cons, List.length_append, hf] at h
      rw [chunks, if_neg, List.flatMap_cons, List.take_append_of_le_length (by rw [hf]), List.take_of_length_le (by rw [hf]), List.map_cons,
        List.drop_append_of_le_length (by rw [hf]), List.drop_of_length_le (by rw [hf]), List.nil_append, ih l (by omega)]
      intro e
      have := congrArg List.length (List.isEmpty_iff.1 e)
      rw [List.flatMap_cons, List.length_append, hf, List.length_nil] at this
      omega

theorem chunks_one (p : Nat) (l : List A) (h : l.length ≤ p) : chunks 1 p l = l.map (fun x => [x]) := by
  have := chunks_flatMap 1 one_pos (fun x : A => [x]) (fun _ => rfl) p l (by simpa using h)
  simpa using this

/-- `pick` gives the longest axis that fits, or the last. -/
theorem pick_spec (cols : Nat) (shape : List Nat) :
    ((∀ d ∈ shape, d = 0 ∨ cols < d) ∧ pick cols shape = (shape.length - 1, 1)) ∨
    ∃ h d, Widest cols shape h ∧ shape[h]? = some d ∧ 0 < d ∧ pick cols shape = (h, d) := by
  unfold pick
  have key : ∀ (rest done : List Nat) (acc : Nat × Nat), 
      (((∀ d ∈ done, d = 0 ∨ cols < d) ∧ acc = (shape.length - 1, 1)) ∨
        ∃ h d, Widest cols done h ∧ done[h]? = some d ∧ 0 < d ∧ acc = (h, d)) →
      let r := (rest.zipIdx done.length).foldl (fun hn di => if hn.2 ≤ di.1 ∧ di.1 ≤ cols then (di.2, di.1) else hn) acc
      (((∀ d ∈ done ++ rest, d = 0 ∨ cols < d) ∧ r = (shape.length - 1, 1)) ∨
        ∃ h d, Widest cols (done ++ rest) h ∧ (done ++ rest)[h]? = some d ∧ 0 < d ∧ r = (h, d)) := by
    intro rest
    induction rest with
    | nil => intro done acc h; simpa using h
    | cons e rest ih =>
      intro done acc h
      have := ih (done ++ [e]) (if acc.2 ≤ e ∧ e ≤ cols then (done.length, e) else acc) ?_
      · simpa [List.zipIdx_cons, List.append_assoc] using this
      · rcases h with ⟨h1, rfl⟩ | ⟨h, d, ⟨d', w1, w2, w3⟩, hd, hp, rfl⟩
        · by_cases hc : 1 ≤ e ∧ e ≤ cols
          · right
            rw [if_pos hc]
            refine ⟨done.length, e, ⟨e, by simp, hc.2, ?_⟩, by simp, hc.1, rfl⟩
            intro j x hj hx
            rcases Nat.lt_trichotomy j done.length with hl | rfl | hl
            · rw [List.getElem?_append_left hl] at hj
              have := h1 x (List.mem_of_getElem? hj)
              omega
            · simp at hj; omega
            · rw [List.getElem?_eq_none (by simp; omega)] at hj; cases hj
          · left
            rw [if_neg hc]
            refine ⟨?_, rfl⟩
            intro x hx
            rcases List.mem_append.1 hx with hx | hx
            · exact h1 x hx
            · have : x = e := by simpa using hx
              subst this
              omega
        · right
          rw [hd] at w1
          cases w1
          have hlt : h < done.length := by
            by_contra hge
            rw [List.getElem?_eq_none (by omega)] at hd
            cases hd
          by_cases hc : d ≤ e ∧ e ≤ cols
          · rw [if_pos hc]
            refine ⟨done.length, e, ⟨e, by simp, hc.2, ?_⟩, by simp, by omega, rfl⟩
            intro j x hj hx
            rcases Nat.lt_trichotomy j done.length with hl | rfl | hl
            · rw [List.getElem?_append_left hl] at hj
              have := w3 j x hj hx
              omega
            · simp at hj; omega
            · rw [List.getElem?_eq_none (by simp; omega)] at hj; cases hj
          · rw [if_neg hc]
            refine ⟨h, d, ⟨d, by rw [List.getElem?_append_left hlt]; exact hd, w2, ?_⟩, by rw [List.getElem?_append_left hlt]; exact hd, hp, rfl⟩
            intro j x hj hx
            rcases Nat.lt_trichotomy j done.length with hl | rfl | hl
            · rw [List.getElem?_append_left hl] at hj
              exact w3 j x hj hx
            · simp at hj; omega
            · rw [List.getElem?_eq_none (by simp; omega)] at hj; cases hj
  have := key shape [] (shape.length - 1, 1) (Or.inl ⟨by simp, rfl⟩)
  simpa using this

theorem widest_unique {cols : Nat} {shape : List Nat} {h h' : Nat} (a : Widest cols shape h) (b : Widest cols shape h') : h = h' := by
  obtain ⟨d, a1, a2, a3⟩ := a
  obtain ⟨e, b1, b2, b3⟩ := b
  have := a3 h' e b1 b2
  have := b3 h d a1 a2
  omega

/-- Indices of a shape with one more axis at the end. -/
theorem indices_append (s : List Nat) (d : Nat) : indices (s ++ [d]) = (indices s).flatMap (fun i => (List.range d).map (fun j => i ++ [j])) := by
  induction s with
  | nil =>
    simp only [List.nil_append, indices, List.map_cons, List.map_nil, List.flatMap_cons, List.flatMap_nil, List.append_nil]
    induction List.range d with
    | nil => rfl
    | cons a l ih => simpa using ih
  | cons n s ih =>
    simp only [List.cons_append, indices, ih, List.map_flatMap, List.flatMap_assoc, List.flatMap_map, List.map_map]
    rfl

theorem inside_length {i s : List Nat} (h : Inside i s) : i.length = s.length := List.Forall₂.length_eq h

theorem insertIdx_len (l r : List A) (x : A) : (l ++ r).insertIdx l.length x = l ++ x :: r := by
  induction l with
  | nil => cases r <;> rfl
  | cons a l ih => simpa using ih

theorem dimOrder_last (m : Nat) : dimOrder (m + 1) m = List.range m ++ [m] := by
  have := insertIdx_len (List.range m) [] m
  rw [List.append_nil, List.length_range] at this
  exact this

theorem dimOrder_before (m : Nat) : dimOrder (m + 2) m = List.range m ++ [m + 1, m] := by
  have := insertIdx_len (List.range m) [m] (m + 1)
  rw [List.length_range, ← List.range_succ] at this
  exact this

theorem range_getD (s : List Nat) (m : Nat) (h : m ≤ s.length) : (List.range m).map (fun d => s.getD d 0) = s.take m := by
  apply List.ext_getElem?
  intro k
  rw [List.getElem?_map, List.getElem?_take]
  by_cases hk : k < m
  · rw [List.getElem?_range hk, if_pos hk, Option.map_some, List.getD_eq_getElem?_getD, List.getElem?_eq_getElem (by omega)]
    rfl
  · rw [List.getElem?_eq_none (by simpa using hk), if_neg hk]
    rfl

/-- The index in the array for an index in the transposed array. -/
def back (n : Nat) (order i : List Nat) : List Nat := (List.range n).map (fun d => i.getD (order.idxOf d) 0)

theorem back_last (m : Nat) (i : List Nat) (j : Nat) (hi : i.length = m) : back (m + 1) (List.range m ++ [m]) (i ++ [j]) = i.insertIdx m j := by
  unfold back
  rw [← List.range_succ]
  have h1 : i.insertIdx m j = i ++ [j] := by
    have := insertIdx_len i [] j
    rw [List.append_nil, hi] at this
    exact this
  rw [h1]
  have : (List.range (m + 1)).map (fun d => (i ++ [j]).getD (List.idxOf d (List.range (m + 1))) 0) =
      (List.range (m + 1)).map (fun d => (i ++ [j]).getD d 0) := by
    apply List.map_congr_left
    intro d hd
    have hd' : d < (List.range (m + 1)).length := by simpa using hd
    have h2 : List.idxOf ((List.range (m + 1))[d]) (List.range (m + 1)) = d := List.nodup_range.idxOf_getElem d hd'
    rw [List.getElem_range] at h2
    rw [h2]
  rw [this, range_getD _ _ (by simp [hi]), List.take_of_length_le (by simp [hi])]

theorem back_before (m : Nat) (i : List Nat) (x j : Nat) (hi : i.length = m) :
    back (m + 2) (List.range m ++ [m + 1, m]) (i ++ [x] ++ [j]) = (i ++ [x]).insertIdx m j := by
  unfold back
  have h1 : (i ++ [x]).insertIdx m j = i ++ [j, x] := by
    have := insertIdx_len i [x] j
    rw [hi] at this
    exact this
  rw [h1, List.range_succ, List.range_succ, List.map_append, List.map_append]
  have e0 : ∀ d, d < m → List.idxOf d (List.range m ++ [m + 1, m]) = d := by
    intro d hd
    have hd' : d < (List.range m).length := by simpa using hd
    rw [List.idxOf_append_of_mem (by simpa using hd)]
    have h2 : List.idxOf ((List.range m)[d]) (List.range m) = d := List.nodup_range.idxOf_getElem d hd'
    rw [List.getElem_range] at h2
    exact h2
  have e1 : List.idxOf m (List.range m ++ [m + 1, m]) = m + 1 := by
    rw [List.idxOf_append_of_notMem (by simp)]
    simp
  have e2 : List.idxOf (m + 1) (List.range m ++ [m + 1, m]) = m := by
    rw [List.idxOf_append_of_notMem (by simp)]
    simp
  have : (List.range m).map (fun d => (i ++ [x] ++ [j]).getD (List.idxOf d (List.range m ++ [m + 1, m])) 0) = i := by
    rw [List.map_congr_left (g := fun d => (i ++ [x] ++ [j]).getD d 0) (fun d hd => by rw [e0 d (by simpa using hd)]),
      range_getD _ _ (by simp [hi]), List.append_assoc, List.take_append_of_le_length (by omega), List.take_of_length_le (by omega)]
  rw [this]
  simp only [List.map_cons, List.map_nil]
  rw [e1, e2]
  subst hi
  simp [List.getD_eq_getElem?_getD]

/-- Lines along one of the last two axes. -/
theorem elems_transpose (a : Arr A) {h d : Nat} (hd : a.shape[h]? = some d) (hh : a.shape.length ≤ h + 2) :
    elems (transposeBy (dimOrder a.shape.length h) a) =
      (indices (a.shape.eraseIdx h)).flatMap (fun i => (List.range d).map (fun j => a.at' (i.insertIdx h j))) := by
  have hlt : h < a.shape.length := by
    by_contra hge
    rw [List.getElem?_eq_none (by omega)] at hd
    cases hd
  have hget : ∀ k, a.shape.getD k 0 = (a.shape[k]?).getD 0 := fun k => List.getD_eq_getElem?_getD ..
  obtain hn | hn : a.shape.length = h + 1 ∨ a.shape.length = h + 2 := by omega
  · have hs : a.shape.eraseIdx h = a.shape.take h := by
      rw [List.eraseIdx_eq_take_drop_succ, List.drop_of_length_le (by omega), List.append_nil]
    have hsh : (dimOrder a.shape.length h).map (fun d => a.shape.getD d 0) = a.shape.take h ++ [d] := by
      rw [hn, dimOrder_last, List.map_append, range_getD _ _ (by omega)]
      simp [hd]
    unfold elems transposeBy
    simp only
    rw [hsh, indices_append, hs, List.map_flatMap]
    apply List.flatMap_congr
    intro i hi
    rw [List.map_map]
    apply List.map_congr_left
    intro j _
    have hl := inside_length (mem_indices.1 hi)
    rw [List.length_take] at hl
    have := back_last h i j (by omega)
    unfold back at this
    simp only [Function.comp]
    rw [hn, dimOrder_last, this]
  · have hx : h + 1 < a.shape.length := by omega
    have hs : a.shape.eraseIdx h = a.shape.take h ++ [a.shape[h + 1]] := by
      rw [List.eraseIdx_eq_take_drop_succ, List.drop_eq_getElem_cons hx, List.drop_of_length_le (by omega)]
    have hsh : (dimOrder a.shape.length h).map (fun d => a.shape.getD d 0) = a.shape.take h ++ [a.shape[h + 1]] ++ [d] := by
      rw [hn, dimOrder_before, List.map_append, range_getD _ _ (by omega)]
      simp [hd, List.getElem?_eq_getElem hx]
    unfold elems transposeBy
    simp only
    rw [hsh, indices_append, hs, List.map_flatMap]
    apply List.flatMap_congr
    intro i hi
    rw [List.map_map]
    apply List.map_congr_left
    intro j _
    rw [indices_append, List.mem_flatMap] at hi
    obtain ⟨i', hi', hj⟩ := hi
    obtain ⟨x, -, rfl⟩ := List.mem_map.1 hj
    have hl := inside_length (mem_indices.1 hi')
    rw [List.length_take] at hl
    have := back_before h i' x j (by omega)
    unfold back at this
    simp only [Function.comp]
    rw [hn, dimOrder_before, this]

theorem arrange_widest (a : Arr A) {cols h : Nat} (hw : Widest cols a.shape h) (h0 : 0 ∉ a.shape) (hh : a.shape.length ≤ h + 2) :
    arrange cols a = fibres a h := by
  rcases pick_spec cols a.shape with ⟨hno, -⟩ | ⟨h', d, hw', hd, hp, he⟩
  · obtain ⟨d, hd, hle, -⟩ := hw
    have hm := List.mem_of_getElem? hd
    rcases hno d hm with rfl | hlt
    · exact absurd hm h0
    · omega
  · cases widest_unique hw' hw
    unfold arrange fibres
    simp only [he]
    rw [elems_transpose a hd hh, chunks_flatMap d hp _ (by simp) _ _ le_rfl]
    simp [hd]

theorem arrange_narrow (a : Arr A) {cols : Nat} (hw : ∀ d ∈ a.shape, cols < d) (hne : a.shape ≠ []) : arrange cols a = (elems a).map (fun x => [x]) := by
  have hpos := List.length_pos_iff.2 hne
  rcases pick_spec cols a.shape with ⟨-, he⟩ | ⟨h, d, ⟨d', h1, h2, -⟩, -⟩
  · unfold arrange
    simp only [he]
    obtain ⟨d, hd⟩ : ∃ d, a.shape[a.shape.length - 1]? = some d := ⟨_, List.getElem?_eq_getElem (by omega)⟩
    have e := elems_transpose a hd (by omega)
    rw [chunks_one _ _ le_rfl, e]
    congr 1
    unfold elems
    have hs : a.shape = a.shape.eraseIdx (a.shape.length - 1) ++ [d] := by
      have hlt : a.shape.length - 1 < a.shape.length := by omega
      rw [List.getElem?_eq_getElem hlt] at hd
      rw [List.eraseIdx_eq_take_drop_succ, List.drop_of_length_le (l := a.shape) (i := a.shape.length - 1 + 1) (by omega), List.append_nil, ← Option.some.inj hd,
        List.take_append_getElem, List.take_of_length_le (by omega)]
    conv_rhs => rw [hs, indices_append, List.map_flatMap]
    apply List.flatMap_congr
    intro i hi
    rw [List.map_map]
    apply List.map_congr_left
    intro j _
    have hl := inside_length (mem_indices.1 hi)
    rw [List.length_eraseIdx_of_lt (by omega)] at hl
    have := insertIdx_len i [] j
    rw [List.append_nil, hl] at this
    simp only [Function.comp]
    rw [this]
  · have := hw d' (List.mem_of_getElem? h1)
    omega

theorem dimOrder_perm {n h : Nat} (hn : 0 < n) (hh : h < n) : (dimOrder n h).Perm (List.range n) := by
  unfold dimOrder
  refine (List.perm_insertIdx _ _ (by simp; omega)).trans ?_
  obtain ⟨m, rfl⟩ : ∃ m, n = m + 1 := ⟨n - 1, by omega⟩
  rw [Nat.add_sub_cancel, List.range_succ]
  exact (List.perm_append_comm (l₁ := [m])).trans (List.Perm.refl _)

theorem inside_iff {i s : List Nat} : Inside i s ↔ i.length = s.length ∧ ∀ k, k < s.length → i.getD k 0 < s.getD k 0 := by
  unfold Inside
  rw [List.forall₂_iff_get]
  constructor
  · rintro ⟨h1, h2⟩
    refine ⟨h1, fun k hk => ?_⟩
    have := h2 k (by omega) hk
    simpa [List.getD_eq_getElem?_getD, List.getElem?_eq_getElem hk, List.getElem?_eq_getElem (show k < i.length by omega)] using this
  · rintro ⟨h1, h2⟩
    refine ⟨h1, fun k hk hk' => ?_⟩
    have := h2 k hk'
    simpa [List.getD_eq_getElem?_getD, List.getElem?_eq_getElem hk, List.getElem?_eq_getElem hk'] using this

theorem ext_getD {l l' : List Nat} (h : l.length = l'.length) (hk : ∀ k, k < l.length → l.getD k 0 = l'.getD k 0) : l = l' := by
  refine List.ext_getElem h (fun k h1 h2 => ?_)
  have := hk k h1
  rwa [List.getD_eq_getElem?_getD, List.getD_eq_getElem?_getD, List.getElem?_eq_getElem h1, List.getElem?_eq_getElem h2] at this

theorem back_getD {n : Nat} {order i : List Nat} {d : Nat} (hd : d < n) : (back n order i).getD d 0 = i.getD (order.idxOf d) 0 := by
  unfold back
  rw [List.getD_eq_getElem?_getD, List.getElem?_map, List.getElem?_range hd]
  rfl

/-- Transposing keeps all elements. -/
theorem elems_perm (a : Arr A) {order : List Nat} (ho : order.Perm (List.range a.shape.length)) : (elems (transposeBy order a)).Perm (elems a) := by
  have hlen : order.length = a.shape.length := by simpa using ho.length_eq
  have hnd : order.Nodup := ho.nodup_iff.2 List.nodup_range
  have hmem : ∀ d, d ∈ order ↔ d < a.shape.length := fun d => by rw [ho.mem_iff, List.mem_range]
  have hgetD : ∀ (s : List Nat) k, k < order.length → (order.map (fun d => s.getD d 0)).getD k 0 = s.getD (order.getD k 0) 0 := by
    intro s k hk
    rw [List.getD_eq_getElem?_getD, List.getElem?_map, List.getElem?_eq_getElem hk, List.getD_eq_getElem?_getD (l := order), List.getElem?_eq_getElem hk]
    rfl
  have hidx : ∀ k, k < order.length → order.idxOf (order.getD k 0) = k := by
    intro k hk
    rw [List.getD_eq_getElem?_getD, List.getElem?_eq_getElem hk]
    exact hnd.idxOf_getElem k hk
  have hidx' : ∀ d, d < a.shape.length → order.getD (order.idxOf d) 0 = d := by
    intro d hd
    have hk := List.idxOf_lt_length_of_mem ((hmem d).2 hd)
    rw [List.getD_eq_getElem?_getD, List.getElem?_eq_getElem hk]
    exact List.getElem_idxOf hk
  have hlt : ∀ k, k < order.length → order.getD k 0 < a.shape.length := by
    intro k hk
    rw [List.getD_eq_getElem?_getD, List.getElem?_eq_getElem hk]
    exact (hmem _).1 (List.getElem_mem hk)
  have e : elems (transposeBy order a) = ((indices (order.map (fun d => a.shape.getD d 0))).map (back a.shape.length order)).map a.at' := by
    rw [List.map_map]
    rfl
  rw [e]
  refine List.Perm.map _ ?_
  rw [List.perm_ext_iff_of_nodup ?_ (nodup_indices _)]
  · intro i
    rw [List.mem_map, mem_indices, inside_iff]
    constructor
    · rintro ⟨i', hi', rfl⟩
      rw [mem_indices, inside_iff, List.length_map] at hi'
      refine ⟨by simp [back], fun k hk => ?_⟩
      rw [back_getD hk]
      have hk' := List.idxOf_lt_length_of_mem ((hmem k).2 hk)
      have := hi'.2 _ hk'
      rwa [hgetD _ _ hk', hidx' k hk] at this
    · rintro ⟨h1, h2⟩
      refine ⟨order.map (fun d => i.getD d 0), ?_, ?_⟩
      · rw [mem_indices, inside_iff]
        refine ⟨by simp, fun k hk => ?_⟩
        rw [List.length_map] at hk
        rw [hgetD _ _ hk, hgetD _ _ hk]
        exact h2 _ (hlt k hk)
      · refine ext_getD (by simp [back, h1]) (fun k hk => ?_)
        have hk' : k < a.shape.length := by simpa [back] using hk
        rw [back_getD hk', hgetD _ _ (List.idxOf_lt_length_of_mem ((hmem k).2 hk')), hidx' k hk']
  · refine (nodup_indices _).map_on ?_
    intro i hi j hj hij
    rw [mem_indices, inside_iff, List.length_map] at hi hj
    refine ext_getD (by omega) (fun k hk => ?_)
    have hk' : k < order.length := by omega
    have := congrArg (fun l => l.getD (order.getD k 0) 0) hij
    simpa only [back_getD (hlt k hk'), hidx k hk'] using this

theorem pick_lt (cols : Nat) {shape : List Nat} (hne : shape ≠ []) : (pick cols shape).1 < shape.length ∧ 0 < (pick cols shape).2 := by
  have := List.length_pos_iff.2 hne
  rcases pick_spec cols shape with ⟨-, he⟩ | ⟨h, d, -, hd, hp, he⟩
  · rw [he]
    simp
    omega
  · rw [he]
    refine ⟨?_, hp⟩
    by_contra hge
    rw [List.getElem?_eq_none (by simpa using hge)] at hd
    cases hd

theorem arrange_perm (a : Arr A) (cols : Nat) (hne : a.shape ≠ []) : (arrange cols a).flatten.Perm (elems a) := by
  obtain ⟨h1, h2⟩ := pick_lt cols hne
  unfold arrange
  simp only
  rw [chunks_flatten _ h2 _ _ le_rfl]
  exact elems_perm a (dimOrder_perm (by omega) h1)

end arrange

theorem perm_map_inv {B : Type} {f : A → B} : ∀ (l : List A) {l' : List B}, l'.Perm (l.map f) → ∃ m : List A, m.Perm l ∧ l' = m.map f := by
  intro l
  induction l with
  | nil =>
    intro l' h
    exact ⟨[], List.Perm.nil, List.perm_nil.1 h⟩
  | cons a l ih =>
    intro l' h
    rw [List.map_cons] at h
    obtain ⟨s, t, rfl⟩ := List.append_of_mem (h.symm.subset (List.mem_cons_self))
    obtain ⟨m, hm, he⟩ := ih (List.Perm.cons_inv (List.perm_middle.symm.trans h))
    obtain ⟨m1, m2, rfl, rfl, rfl⟩ := List.append_eq_map_iff.1 he
    exact ⟨m1 ++ a :: m2, List.perm_middle.trans (List.Perm.cons a hm), by simp⟩

section layout
variable [Field K] [LinearOrder K]

/-- What is read of a row. -/
def Row.seen (cols : Nat) (w : Row Q K) : List (Str × Option Q × List (Option K)) := (w.val.lines cols).map (fun l => (w.model, some w.key, l))

theorem read_items {cols : Nat} {w : Row Q K} (hw : w.val.lines cols ≠ []) (k : Option Q) (rest : List (Item Q K)) :
    read w.model k (w.items cols ++ rest) = w.seen cols ++ read w.model (some w.key) rest := by
  unfold Row.items Row.seen
  cases hl : w.val.lines cols with
  | nil => exact absurd hl hw
  | cons l ls =>
    simp only [List.cons_append, read, List.map_cons]
    congr 1
    clear hl
    induction ls with
    | nil => rfl
    | cons l ls ih => simpa [read] using ih

theorem read_layout {cols : Nat} {ws : List (Row Q K)} (hw : ∀ w ∈ ws, w.val.lines cols ≠ []) (prev : Option Str) (k : Option Q) :
    read (prev.getD []) k (layout cols prev ws) = ws.flatMap (Row.seen cols) := by
  induction ws generalizing prev k with
  | nil => rfl
  | cons w ws ih =>
    rw [layout, List.flatMap_cons, List.append_assoc]
    have hh : ∀ rest : List (Item Q K), read (prev.getD []) k ((if prev = some w.model then [] else
        (if prev.isSome then [Item.spacer] else []) ++ (if w.model = [] then [] else [.heading w.model])) ++ rest) = read w.model k rest := by
      intro rest
      split
      · rename_i h
        rw [h]
        rfl
      · rename_i h
        cases prev with
        | none => by_cases hm : w.model = [] <;> simp [hm, read]
        | some p => by_cases hm : w.model = [] <;> simp [hm, read]
    rw [hh, read_items (hw w (by simp))]
    exact congrArg _ (ih (fun w' h => hw w' (List.mem_cons_of_mem _ h)) (some w.model) (some w.key))

theorem headings_append (l l' : List (Item Q K)) : headings (l ++ l') = headings l ++ headings l' := by
  unfold headings
  rw [List.filterMap_append]

theorem headings_items (cols : Nat) (w : Row Q K) : headings (w.items cols) = [] := by
  unfold headings Row.items
  split
  · rfl
  · simp

/-- Headings of sorted rows appear once. -/
theorem headings_layout {α : Type} [LinearOrder α] {f : Str → α} (hf : Function.Injective f) {cols : Nat} {ws : List (Row Q K)}
    (hs : ws.Pairwise (fun a b => f a.model ≤ f b.model)) (prev : Option Str) (hp : ∀ p ∈ prev, ∀ w ∈ ws, f p ≤ f w.model) :
    (headings (layout cols prev ws)).Nodup ∧ ∀ m ∈ headings (layout cols prev ws), m ≠ [] ∧ m ∉ prev ∧ ∃ w ∈ ws, w.model = m := by
  induction ws generalizing prev with
  | nil => simp [layout, headings]
  | cons w ws ih =>
    rw [List.pairwise_cons] at hs
    obtain ⟨i1, i2⟩ := ih hs.2 (some w.model) (by simpa using hs.1)
    rw [layout, headings_append, headings_append, headings_items, List.append_nil]
    split
    · rename_i h
      refine ⟨by simpa [headings] using i1, ?_⟩
      intro m hm
      have hm' : m ∈ headings (layout cols (some w.model) ws) := by simpa [headings] using hm
      obtain ⟨j1, j2, w', j3, j4⟩ := i2 m hm'
      exact ⟨j1, by rw [h]; exact j2, w', List.mem_cons_of_mem _ j3, j4⟩
    · rename_i h
      have hpre : headings ((if prev.isSome then [Item.spacer] else []) ++ (if w.model = [] then [] else [Item.heading w.model]) : List (Item Q K)) =
          if w.model = [] then [] else [w.model] := by
        cases prev <;> by_cases hm : w.model = [] <;> simp [headings, hm]
      rw [hpre]
      have key : ∀ m ∈ headings (layout cols (some w.model) ws), m ≠ [] ∧ m ∉ prev ∧ ∃ w' ∈ w :: ws, w'.model = m := by
        intro m hm
        obtain ⟨j1, j2, w', j3, j4⟩ := i2 m hm
        refine ⟨j1, ?_, w', List.mem_cons_of_mem _ j3, j4⟩
        intro hmp
        have a1 := hp m hmp w (by simp)
        have a2 := hs.1 w' j3
        rw [j4] at a2
        have := hf (le_antisymm a1 a2)
        subst this
        simp at j2
      by_cases hm : w.model = []
      · rw [if_pos hm]
        exact ⟨by simpa using i1, by simpa using key⟩
      · rw [if_neg hm]
        refine ⟨?_, ?_⟩
        · rw [List.singleton_append, List.nodup_cons]
          refine ⟨fun hin => ?_, i1⟩
          exact (i2 _ hin).2.1 rfl
        · intro m hin
          rw [List.singleton_append, List.mem_cons] at hin
          rcases hin with rfl | hin
          · exact ⟨hm, fun hmp => h (by simpa using hmp), w, by simp, rfl⟩
          · exact key m hin

end layout

end Tables
end Verif
