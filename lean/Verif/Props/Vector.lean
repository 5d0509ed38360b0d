import Verif.Spec.Vector
import Mathlib.Tactic.NormNum
import Mathlib.Data.List.Basic

/-! Vector variables and views: C61. -/

set_option linter.unusedSectionVars false

namespace Verif
namespace Vectors

theorem mem_indices {s i : List Nat} : i ∈ indices s ↔ Inside i s := by
  induction s generalizing i with
  | nil => simp [indices, Inside]
  | cons n s ih =>
    simp only [indices, List.mem_flatMap, List.mem_range, List.mem_map, ih, Inside]
    constructor
    · rintro ⟨k, hk, l, hl, rfl⟩
      exact .cons hk hl
    · intro h
      cases h with
      | cons hk hl => exact ⟨_, hk, _, hl, rfl⟩

theorem nodup_indices (s : List Nat) : (indices s).Nodup := by
  induction s with
  | nil => simp [indices]
  | cons n s ih =>
    simp only [indices]
    rw [List.nodup_flatMap]
    refine ⟨fun k _ => ih.map (fun a b h => (List.cons.inj h).2), ?_⟩
    refine List.nodup_range.imp ?_
    intro a b hab
    simp only [Function.onFun, List.disjoint_left, List.mem_map, not_exists, not_and]
    rintro l ⟨x, _, rfl⟩ y _ h
    exact hab (List.cons.inj h).1.symm

theorem indices_ne_nil {s : List Nat} (h : 0 ∉ s) : indices s ≠ [] := by
  have : List.replicate s.length 0 ∈ indices s := by
    rw [mem_indices]
    induction s with
    | nil => exact .nil
    | cons n s ih =>
      simp only [List.mem_cons, not_or] at h
      exact .cons (Nat.pos_of_ne_zero (Ne.symm h.1)) (ih h.2)
  intro e
  rw [e] at this
  simp at this

theorem elements_of {K C : Type} (s : List Nat) (f : List Nat → Elem K C) : Elements s f ((indices s).map (fun i => (i, f i))) := by
  constructor
  · rw [List.map_map]
    have : ((fun x : List Nat × Elem K C => x.1) ∘ fun i => (i, f i)) = id := rfl
    rw [this, List.map_id]
    exact nodup_indices s
  · intro i e
    simp only [List.mem_map, Prod.mk.injEq, mem_indices]
    constructor
    · rintro ⟨j, hj, rfl, rfl⟩; exact ⟨hj, rfl⟩
    · rintro ⟨hj, rfl⟩; exact ⟨i, hj, rfl, rfl⟩

theorem Elements.congr {K C : Type} {s : List Nat} {f g : List Nat → Elem K C} {l : List (List Nat × Elem K C)} (h : Elements s f l)
    (e : ∀ i, Inside i s → f i = g i) : Elements s g l := by
  refine ⟨h.once, fun i x => (h.mem i x).trans ?_⟩
  constructor
  · rintro ⟨hi, rfl⟩; exact ⟨hi, e i hi⟩
  · rintro ⟨hi, rfl⟩; exact ⟨hi, (e i hi).symm⟩

variable {K C : Type}

/-- The variable, once its array of values is known. -/
theorem arrayVariable_of (r32 : K → K) {own vec : List Nat} {v : Value K C} {a : Arr K} (h0 : 0 ∉ own ++ vec)
    (hv : values r32 (own ++ vec) vec v = .ok (some a)) (hn : ∀ f, v ≠ .fn f) (hs : a.shape = own ++ vec) :
    arrayVariable r32 own vec (some v) = .ok ((indices (own ++ vec)).map (fun i => (i, Elem.num (a.at' i)))) := by
  unfold arrayVariable
  simp only [hv, checked]
  rw [if_neg (by simp [hs])]
  simp only
  rw [if_neg (indices_ne_nil h0)]
  congr 2
  funext i
  cases v <;> first | rfl | exact absurd rfl (hn _)

theorem fits_self (s : List Nat) : fits s s = true := by
  induction s with
  | nil => rfl
  | cons a s ih => simp [fits, ih]

theorem fits_append {s t u : List Nat} (h : fits s t = true) : fits s (t ++ u) = true := by
  induction s generalizing t with
  | nil => rfl
  | cons a s ih =>
    cases t with
    | nil => simp [fits] at h
    | cons b t =>
      simp only [fits, Bool.and_eq_true] at h
      simp only [List.cons_append, fits, Bool.and_eq_true]
      exact ⟨h.1, ih h.2⟩

end Vectors

open Vectors

variable {K C : Type}

/-- C61: whatever value is given, a variable that is made has exactly one element for each index of its own shape followed by the lengths of the
environments around it, innermost first, and without a value the elements are free. -/
theorem C61_elements (r32 : K → K) (own vec : List Nat) (v : Option (Value K C)) (l : List (List Nat × Elem K C))
    (h : arrayVariable r32 own vec v = .ok l) :
    ∃ want, Elements (own ++ vec) want l ∧ (v = none → want = fun _ => .free) := by
  unfold arrayVariable at h
  simp only at h
  split at h
  · cases h
  · rename_i a ha
    split at h
    · cases h
    · rename_i b hb
      split at h
      · cases h
      · cases h
        exact ⟨_, elements_of _ _, fun e => by subst e; rfl⟩

/-- C61 outside of `Vectorize`: a list or an array with the shape of the vector gives each element its own value, and anything else is refused. -/
theorem C61_outside (r32 : K → K) (own : List Nat) (h0 : 0 ∉ own) (a : Arr K) (v : Value K C) (hv : v = .list a ∨ v = .array a) :
    (a.shape = own → ∃ l, arrayVariable r32 own [] (some v) = .ok l ∧ Elements own (fun i => .num (a.at' i)) l) ∧
    (a.shape ≠ own → arrayVariable r32 own [] (some v) = .error .valueError) := by
  have hvals : values r32 (own ++ []) [] v = .ok (some a) := by
    rcases hv with rfl | rfl <;> simp [values]
  constructor
  · intro hs
    refine ⟨_, arrayVariable_of r32 (by simpa using h0) hvals (by rcases hv with rfl | rfl <;> simp) (by simpa using hs), ?_⟩
    simpa using elements_of (K := K) (C := C) own (fun i => .num (a.at' i))
  · intro hs
    unfold arrayVariable
    simp only [hvals, checked]
    rw [if_pos (by simpa using hs)]

/-- C61 inside `Vectorize`: a numpy array with the shape of the vector, which has one axis at most, gives each copy of an element its value. What
is missing: lists, arrays with more axes and numbers that single precision changes. -/
theorem C61_vectorized_partial (r32 : K → K) (own vec : List Nat) (h0 : 0 ∉ own ++ vec) (hv : vec ≠ []) (a : Arr K) (hs : a.shape = own)
    (h1 : own.length ≤ 1) :
    ∃ l, arrayVariable r32 own vec (some (Value.array a : Value K C)) = .ok l ∧ Elements (own ++ vec) (meant own a.at') l := by
  have hr : own.reverse = own := by
    match own, h1 with
    | [], _ => rfl
    | [n], _ => rfl
  have hb : broadcastTo a (own ++ vec).reverse =
      .ok ⟨(own ++ vec).reverse, fun i => a.at' (source a.shape.reverse i.reverse).reverse⟩ := by
    unfold broadcastTo
    rw [if_pos]
    rw [hs, hr, List.reverse_reverse]
    exact fits_append (fits_self own)
  have hvals : values r32 (own ++ vec) vec (Value.array a : Value K C) =
      .ok (some (transpose ⟨(own ++ vec).reverse, fun i => a.at' (source a.shape.reverse i.reverse).reverse⟩)) := by
    rw [values, if_pos hv, hb]
    rfl
  refine ⟨_, arrayVariable_of r32 h0 hvals (by simp) (by simp [transpose]), ?_⟩
  refine (elements_of _ _).congr ?_
  intro i hi
  simp only [transpose, meant, List.reverse_reverse, hs, hr]
  congr 2
  match own, h1, hi with
  | [], _, _ => simp [source]
  | [n], _, .cons hk hl =>
    rename_i k l
    simp only [source, List.reverse_singleton, List.length_singleton, List.take_succ_cons, List.take_zero]
    split
    · rename_i e; subst e
      have : k = 0 := by omega
      rw [this]
    · rfl

/-- C61 inside `Vectorize`: a number is given to every element, rounded to single precision. -/
theorem C61_number_partial (r32 : K → K) (own vec : List Nat) (h0 : 0 ∉ own ++ vec) (hv : vec ≠ []) (k : K) :
    ∃ l, arrayVariable r32 own vec (some (Value.num k : Value K C)) = .ok l ∧ Elements (own ++ vec) (fun _ => .num (r32 k)) l := by
  have hvals : values r32 (own ++ vec) vec (Value.num k : Value K C) = .ok (some ⟨own ++ vec, fun _ => r32 k⟩) := by
    rw [values, if_pos hv]
    rfl
  exact ⟨_, arrayVariable_of r32 h0 hvals (by simp) rfl, elements_of _ _⟩

/-- C61: if the value is a function, the function of an element gives the element of what it returns, provided this has the shape of the vector. -/
theorem C61_linked (r32 : K → K) (own vec : List Nat) (h0 : 0 ∉ own ++ vec) (f : C → Arr K) :
    ∃ l, arrayVariable r32 own vec (some (Value.fn f)) = .ok l ∧ (l.map (·.1)).Nodup ∧ (∀ i, i ∈ l.map (·.1) ↔ Inside i (own ++ vec)) ∧
      ∀ i e, (i, e) ∈ l → ∃ g, e = .linked g ∧ ∀ c, (f c).shape = own ++ vec → ∃ x, g c = .ok x ∧ x.shape = [] ∧ x.at' [] = (f c).at' i := by
  have he : arrayVariable r32 own vec (some (Value.fn f)) = .ok ((indices (own ++ vec)).map (fun i => (i, Elem.linked (linkedFn f i)))) := by
    unfold arrayVariable
    simp only [values, checked]
    rw [if_neg (indices_ne_nil h0)]
    rfl
  have hel := elements_of (K := K) (C := C) (own ++ vec) (fun i => Elem.linked (linkedFn f i))
  refine ⟨_, he, hel.once, ?_, ?_⟩
  · intro i
    rw [List.mem_map]
    constructor
    · rintro ⟨x, hx, rfl⟩; exact ((hel.mem x.1 x.2).1 hx).1
    · intro hi; exact ⟨(i, _), (hel.mem i _).2 ⟨hi, rfl⟩, rfl⟩
  · intro i e hm
    obtain ⟨hi, rfl⟩ := (hel.mem i e).1 hm
    refine ⟨_, rfl, fun c hc => ?_⟩
    have hlen : i.length = (f c).shape.length := by rw [hc]; exact hi.length_eq
    have hz : ∀ x ∈ i.zip (f c).shape, x.1 < x.2 := by
      rw [hc]
      intro x hx
      exact (List.forall₂_iff_zip.1 hi).2 hx
    refine ⟨⟨(f c).shape.drop i.length, fun l => (f c).at' (i ++ l)⟩, ?_, ?_, ?_⟩
    · unfold linkedFn item
      rw [if_pos ⟨hlen.le, hz⟩]
    · simp [hlen]
    · simp

/-- C61: in a view, of a model inside environments `Vectorize`, with an index for each of them, an array attribute is the part that belongs to
this copy of the model: indices are given from the outermost environment on. -/
theorem C61_view {A : Type} (own vec : List Nat) (js : List Nat) (hj : Inside js vec.reverse) (hown : own ≠ []) (a : Arr A) (hs : a.shape = own ++ vec) :
    ∃ b, viewAttr a (js.foldl (fun self j => viewIndex self [j]) []) = .ok b ∧ b.shape = own ∧ ∀ i, Inside i own → b.at' i = a.at' (i ++ js.reverse) := by
  have hf : ∀ (l acc : List Nat), l.foldl (fun self j => viewIndex self [j]) acc = l.reverse ++ acc := by
    intro l
    induction l with
    | nil => intro acc; rfl
    | cons x l ih => intro acc; rw [List.foldl_cons, ih, List.reverse_cons, List.append_assoc]; rfl
  rw [hf, List.append_nil]
  have hlen : js.reverse.length = vec.length := by simpa using hj.length_eq
  have hr : Inside js.reverse vec := by
    have := List.forall₂_reverse_iff.2 hj
    rwa [List.reverse_reverse] at this
  have hpos : 0 < own.length := List.length_pos_iff.2 hown
  have hnew : a.shape.length - js.reverse.length = own.length := by rw [hs, List.length_append]; omega
  refine ⟨⟨a.shape.take own.length, fun l => a.at' (l ++ js.reverse)⟩, ?_, ?_, ?_⟩
  · unfold viewAttr
    rw [if_pos (by rw [hs, List.length_append]; omega)]
    simp only [hnew]
    rw [if_pos]
    rw [hs, List.drop_left]
    intro x hx
    exact (List.forall₂_iff_zip.1 hr).2 hx
  · simp [hs]
  · intro i _; rfl

/-- C61, a scalar in a view. -/
theorem C61_view_scalar {A : Type} (vec : List Nat) (js : List Nat) (hj : Inside js vec.reverse) (a : Arr A) (hs : a.shape = vec) :
    ∃ b, viewAttr a (js.foldl (fun self j => viewIndex self [j]) []) = .ok b ∧ b.shape = [] ∧ b.at' [] = a.at' js.reverse := by
  have hf : ∀ (l acc : List Nat), l.foldl (fun self j => viewIndex self [j]) acc = l.reverse ++ acc := by
    intro l
    induction l with
    | nil => intro acc; rfl
    | cons x l ih => intro acc; rw [List.foldl_cons, ih, List.reverse_cons, List.append_assoc]; rfl
  rw [hf, List.append_nil]
  have hlen : js.reverse.length = vec.length := by simpa using hj.length_eq
  have hr : Inside js.reverse vec := by
    have := List.forall₂_reverse_iff.2 hj
    rwa [List.reverse_reverse] at this
  refine ⟨⟨a.shape.drop js.reverse.length, fun l => a.at' (js.reverse ++ l)⟩, ?_, ?_, ?_⟩
  · unfold viewAttr
    rw [if_neg (by rw [hs, hlen]; omega)]
    unfold item
    rw [if_pos]
    refine ⟨by rw [hs, hlen], ?_⟩
    rw [hs]
    intro x hx
    exact (List.forall₂_iff_zip.1 hr).2 hx
  · simp only [hs, hlen, List.drop_length]
  · simp

/-- C61 inside `Vectorize`: an array with one axis is refused if its length is neither that of the vector nor one. -/
theorem C61_refused_partial (r32 : K → K) (m n : Nat) (vec : List Nat) (hv : vec ≠ []) (hn : n ≠ m) (hn1 : n ≠ 1) (f : List Nat → K) :
    arrayVariable r32 [m] vec (some (Value.array ⟨[n], f⟩ : Value K C)) = .error .valueError := by
  have hb : broadcastTo (⟨[n], f⟩ : Arr K) ([m] ++ vec).reverse = .error .valueError := by
    unfold broadcastTo
    rw [if_neg]
    simp [fits, hn, hn1]
  unfold arrayVariable
  simp only [values, if_pos hv, hb]
  rfl

/-- C61 is violated for numbers: inside `Vectorize` a value that single precision changes, such as 0.1, is changed, though outside it is not. -/
theorem C61_single_fails (r32 : ℚ → ℚ) (h : r32 (1 / 10) ≠ 1 / 10) :
    ∃ l, arrayVariable r32 [] [2] (some (Value.num (1 / 10) : Value ℚ Unit)) = .ok l ∧
      ∀ i, Inside i [2] → (i, Elem.num (1 / 10)) ∉ l := by
  obtain ⟨l, hl, he⟩ := C61_number_partial (C := Unit) r32 [] [2] (by simp) (by simp) (1 / 10)
  refine ⟨l, hl, fun i _ hm => h ?_⟩
  have := ((he.mem i _).1 hm).2
  exact (Elem.num.inj this).symm

/-- An array with one axis. -/
def vecOf (l : List Nat) : Arr Nat := ⟨[l.length], fun i => l.getD (i.headD 0) 0⟩

/-- C61 is violated for lists: `VectorVariable(2, "x", [5, 7])` inside `Vectorize(2)` has both values in each copy the wrong way round, `x[0,1]` is 7;
with `np.array([5, 7])` it is 5. Inside `Vectorize(3)` the list is refused. -/
theorem C61_list_fails :
    (∃ l, arrayVariable id [2] [2] (some (Value.list (vecOf [5, 7]) : Value Nat Unit)) = .ok l ∧ ([0, 1], Elem.num 7) ∈ l ∧ ([1, 0], Elem.num 5) ∈ l) ∧
    (∃ l, arrayVariable id [2] [2] (some (Value.array (vecOf [5, 7]) : Value Nat Unit)) = .ok l ∧ ([0, 1], Elem.num 5) ∈ l ∧ ([1, 0], Elem.num 7) ∈ l) ∧
    arrayVariable id [2] [3] (some (Value.list (vecOf [5, 7]) : Value Nat Unit)) = .error .valueError := by
  refine ⟨⟨_, rfl, ?_, ?_⟩, ⟨_, rfl, ?_, ?_⟩, rfl⟩ <;> simp [indices, List.range_succ, elem, source, vecOf, transpose]

/-- An array with two axes of length two. -/
def matOf (a b c d : Nat) : Arr Nat := ⟨[2, 2], fun i => match i with | [0, 0] => a | [0, 1] => b | [1, 0] => c | _ => d⟩

/-- C61 is violated for arrays with two axes: inside `Vectorize` they are transposed, or refused if their lengths differ. -/
theorem C61_matrix_fails :
    (∃ l, arrayVariable id [2, 2] [3] (some (Value.array (matOf 1 2 3 4) : Value Nat Unit)) = .ok l ∧
      ([0, 1, 0], Elem.num 3) ∈ l ∧ ([1, 0, 0], Elem.num 2) ∈ l) ∧
    ∀ f : List Nat → Nat, arrayVariable id [2, 3] [4] (some (Value.array ⟨[2, 3], f⟩ : Value Nat Unit)) = .error .valueError := by
  refine ⟨⟨_, rfl, ?_, ?_⟩, fun f => rfl⟩ <;> simp [indices, List.range_succ, elem, source, matOf, transpose]

/-- The hypotheses are satisfiable: a vector of two inside two environments. -/
example : ∃ l, arrayVariable id [2] [3, 4] (some (Value.array (vecOf [5, 7]) : Value Nat Unit)) = .ok l ∧
    Elements [2, 3, 4] (meant [2] (vecOf [5, 7]).at') l :=
  C61_vectorized_partial id [2] [3, 4] (by decide) (by decide) _ rfl (by decide)

example : ∃ b, viewAttr (⟨[2, 3, 4], fun i => i⟩ : Arr (List Nat)) (viewIndex (viewIndex [] [3]) [1]) = .ok b ∧ b.shape = [2] ∧
    ∀ i, Inside i [2] → b.at' i = i ++ [1, 3] :=
  C61_view [2] [3, 4] [3, 1] (by unfold Inside; repeat constructor) (by decide) _ rfl

end Verif
