import Verif.Spec.Diff
import Verif.Props.Table
import Verif.Props.Vector
import Verif.Props.Sens
import Mathlib.Tactic.Linarith
import Mathlib.Tactic.Ring

/-! Comparing solutions: C76. -/

set_option linter.unusedSectionVars false

namespace Verif
open Vectors Tables Diffs
variable {Q K A B C : Type}

namespace Diffs

theorem joint_self (s : List Nat) : joint s s = some s := by
  induction s with
  | nil => rfl
  | cons a s ih => simp [joint, ih]

theorem joint_nil (s : List Nat) : joint s [] = some s := by cases s <;> rfl

theorem source_inside {s i : List Nat} (h : Inside i s) : source s i = i := by
  induction h with
  | nil => rfl
  | @cons i a l s hi _ ih =>
    have ih' : source s l = l := ih
    have : (if a = 1 then 0 else i) = i := by
      split
      · omega
      · rfl
    simp [source, ih', this]

theorem inside_reverse {i s : List Nat} (h : Inside i s) : Inside i.reverse s.reverse := List.rel_reverse h

theorem source_reverse {s i : List Nat} (h : Inside i s) : (source s.reverse i.reverse).reverse = i := by
  rw [source_inside (inside_reverse h), List.reverse_reverse]

theorem source_nil (i : List Nat) : source [] i = [] := by cases i <;> rfl

theorem ufunc_same (f : A → B → C) {a : Arr A} {b : Arr B} (h : a.shape = b.shape) : ∃ d, ufunc f a b = .ok d ∧ Pairs f a b d := by
  unfold ufunc
  rw [← h, joint_self]
  refine ⟨_, rfl, h, List.reverse_reverse _, ?_⟩
  intro i hi
  simp only [source_reverse hi]

theorem inside_length {i s : List Nat} (h : Inside i s) : i.length = s.length := List.Forall₂.length_eq h

theorem joint_ones (s : List Nat) (n : Nat) (h : n ≤ s.length) : joint s (List.replicate n 1) = some s := by
  induction s generalizing n with
  | nil => simp at h; subst h; rfl
  | cons a s ih =>
    cases n with
    | zero => rfl
    | succ n =>
      rw [List.replicate_succ, joint, ih n (by simpa using h)]
      by_cases h1 : a = 1 <;> simp [h1]

theorem joint_ones' (s : List Nat) (n : Nat) (h : n ≤ s.length) : joint (List.replicate n 1) s = some s := by
  induction s generalizing n with
  | nil => simp at h; subst h; rfl
  | cons a s ih =>
    cases n with
    | zero => rfl
    | succ n =>
      rw [List.replicate_succ, joint, ih n (by simpa using h)]
      by_cases h1 : 1 = a <;> simp [h1]

end Diffs

/-- C76: values of the same shape are compared element by element. -/
theorem C76_cast (f : A → B → C) {a : Arr A} {b : Arr B} (h : a.shape = b.shape) : ∃ d, castV f a b = .ok d ∧ Pairs f a b d := by
  unfold castV
  rw [if_pos (congrArg List.length h)]
  exact ufunc_same f h

/-- C76: a number is compared with every point of a sweep, whichever comes first. Missing: vectors, see `C76_cast_fails`. -/
theorem C76_cast_partial (f : A → B → C) (g : B → A → C) (a : Arr A) {b : Arr B} (h : b.shape = []) :
    (∃ d, castV f a b = .ok d ∧ d.shape = a.shape ∧ ∀ i, Inside i a.shape → d.at' i = f (a.at' i) (b.at' [])) ∧
      ∃ d, castV g b a = .ok d ∧ d.shape = a.shape ∧ ∀ i, Inside i a.shape → d.at' i = g (b.at' []) (a.at' i) := by
  by_cases ha : a.shape = []
  · obtain ⟨d, h1, h2⟩ := C76_cast f (ha.trans h.symm)
    obtain ⟨e, h3, h4⟩ := C76_cast g (h.trans ha.symm)
    refine ⟨⟨d, h1, h2.2.1, ?_⟩, e, h3, h4.2.1.trans h4.1, ?_⟩
    · intro i hi
      rw [h2.2.2 i hi]
      rw [ha] at hi
      cases hi
      rfl
    · intro i hi
      rw [h4.2.2 i (by rw [h]; rwa [ha] at hi)]
      rw [ha] at hi
      cases hi
      rfl
  · have hl : 0 < a.shape.length := List.length_pos_iff.2 ha
    constructor
    · refine ⟨⟨a.shape, fun i => f (a.at' (source a.shape.reverse i.reverse).reverse) (b.at' [])⟩, ?_, rfl, ?_⟩
      · unfold castV
        rw [h, if_neg (by simp only [List.length_nil]; omega), if_neg (by simp)]
        unfold ufunc addAxes
        simp only [h, List.length_nil, Nat.sub_zero, List.nil_append, List.reverse_replicate]
        rw [joint_ones _ _ (by simp)]
        simp
      · intro i hi
        simp only [source_reverse hi]
    · refine ⟨⟨a.shape, fun i => g (b.at' []) (a.at' (source a.shape.reverse i.reverse).reverse)⟩, ?_, rfl, ?_⟩
      · unfold castV
        rw [h, if_neg (by simp only [List.length_nil]; omega), if_pos (by simpa using hl)]
        unfold ufunc addAxes
        simp only [h, List.length_nil, Nat.sub_zero, List.nil_append, List.reverse_replicate]
        rw [joint_ones' _ _ (by simp)]
        simp
      · intro i hi
        simp only [source_reverse hi]

/-- C76 is violated: a vector variable of `k` elements swept over `n` points can not be compared with its value in a solution without sweep, as the new axis is put
last and not first; if `n = k` elements are compared with those of other places. -/
theorem C76_cast_fails (f : A → B → C) (n k : Nat) (hn : 2 ≤ n) (hk : 2 ≤ k) (a : Arr A) (ha : a.shape = [n, k]) (b : Arr B) (hb : b.shape = [k]) :
    (n ≠ k → castV f a b = .error .valueError) ∧
      (n = k → ∃ d, castV f a b = .ok d ∧ ∀ p i, Inside [p, i] [n, k] → d.at' [p, i] = f (a.at' [p, i]) (b.at' [p])) := by
  have e : castV f a b = ufunc f a (addAxes 1 b) := by simp [castV, ha, hb]
  constructor
  · intro h
    rw [e]
    simp only [ufunc, addAxes, ha, hb, List.reverse_cons, List.reverse_nil, List.nil_append, List.cons_append, List.replicate_one, joint]
    simp [show n ≠ 1 by omega, show k ≠ 1 by omega, h]
  · rintro rfl
    rw [e]
    simp only [ufunc, addAxes, ha, hb, List.reverse_cons, List.reverse_nil, List.nil_append, List.cons_append, List.replicate_one, joint]
    simp only [show n ≠ 1 by omega, if_false, if_true]
    refine ⟨_, rfl, ?_⟩
    intro p i _
    simp [source, show n ≠ 1 by omega]

/-- Two points, two elements: the second element of the first point is compared with the first one. -/
example : ∃ d : Arr Int, castV (· - ·) (⟨[2, 2], fun i => 10 * i.getD 0 0 + i.getD 1 0⟩ : Arr Int) (⟨[2], fun i => i.getD 0 0⟩ : Arr Int) = .ok d ∧
    d.at' [0, 1] = 1 ∧ ¬ PairsSwept (· - ·) (⟨[2, 2], fun i => 10 * i.getD 0 0 + i.getD 1 0⟩ : Arr Int) (⟨[2], fun i => i.getD 0 0⟩ : Arr Int) d := by
  obtain ⟨d, h1, h2⟩ := (C76_cast_fails (· - ·) 2 2 (by omega) (by omega) (⟨[2, 2], fun i => 10 * i.getD 0 0 + i.getD 1 0⟩ : Arr Int) rfl
    (⟨[2], fun i => i.getD 0 0⟩ : Arr Int) rfl).2 rfl
  have hi : Inside [0, 1] [2, 2] := .cons (by omega) (.cons (by omega) .nil)
  have h3 := h2 0 1 hi
  refine ⟨d, h1, by simpa using h3, ?_⟩
  intro h
  have h4 := h.2 0 [1] hi
  rw [h3] at h4
  simp at h4

namespace Diffs
section
variable [Field K] [LinearOrder K] [IsStrictOrderedRing K] [DecidableEq Q]

theorem get?_isSome {β : Type} {d : PyDict Q β} {k : Q} : k ∈ d.keys ↔ ∃ x, d.get? k = some x := by
  induction d with
  | nil => simp [PyDict.keys]
  | cons p d ih =>
    have ih' : (∃ x, (k, x) ∈ d) ↔ ∃ x, PyDict.get? d k = some x := by
      rw [← ih]
      simp [PyDict.keys]
    by_cases h : p.1 = k
    · simp [PyDict.keys, PyDict.get?, h]
    · have : (p.1 == k) = false := by simpa using h
      have h' : ¬ k = p.1 := fun e => h e.symm
      simp only [PyDict.get?, this, Bool.false_eq_true, if_false, ← ih]
      simp [PyDict.keys, h']

/-- What the loop asks of a variable. -/
def Good (reltol abstol : K) (s o : Soln Q K) (k : Q) : Prop :=
  ∃ x y u v, s.vars.get? k = some x ∧ o.vars.get? k = some y ∧ s.senss.get? k = some u ∧ o.senss.get? k = some v ∧
    (castV (relFar reltol) x y).bind truth = .ok false ∧ (ufunc (absFar abstol) u v).bind truth = .ok false

theorem almostLoop_true {reltol abstol : K} {s o : Soln Q K} {ks : List Q} :
    almostLoop reltol abstol s o ks = .ok true ↔ ∀ k ∈ ks, Good reltol abstol s o k := by
  induction ks with
  | nil => simp [almostLoop]
  | cons k ks ih =>
    rw [List.forall_mem_cons, ← ih, almostLoop]
    unfold Good
    cases hx : s.vars.get? k with
    | none => simp
    | some x =>
    cases hy : o.vars.get? k with
    | none => simp
    | some y =>
    rcases hc : (castV (relFar reltol) x y).bind truth with e | ⟨_ | _⟩
    · simp [hc]
    · cases hu : s.senss.get? k with
      | none => simp [hc]
      | some u =>
      cases hv : o.senss.get? k with
      | none => simp [hc]
      | some v =>
      rcases hd : (ufunc (absFar abstol) u v).bind truth with e | ⟨_ | _⟩
      · simp [hc, hd]
      · simp [hc, hd]
      · simp [hc, hd]
    · simp [hc]

theorem almostLoop_ok {reltol abstol : K} {s o : Soln Q K} {ks : List Q} (h : ∀ k ∈ ks, ∃ x y u v b c, s.vars.get? k = some x ∧ o.vars.get? k = some y ∧
      s.senss.get? k = some u ∧ o.senss.get? k = some v ∧ (castV (relFar reltol) x y).bind truth = .ok b ∧ (ufunc (absFar abstol) u v).bind truth = .ok c) :
    ∃ b, almostLoop reltol abstol s o ks = .ok b := by
  induction ks with
  | nil => exact ⟨_, rfl⟩
  | cons k ks ih =>
    obtain ⟨x, y, u, v, b, c, h1, h2, h3, h4, h5, h6⟩ := h k List.mem_cons_self
    rw [almostLoop]
    simp only [h1, h2, h3, h4, h5, h6]
    cases b with
    | true => exact ⟨_, rfl⟩
    | false =>
    cases c with
    | true => exact ⟨_, rfl⟩
    | false => exact ih (fun k' hk' => h k' (List.mem_cons_of_mem _ hk'))

/-- One element. -/
theorem single_truth {f : Option K → Option K → Bool} {R : K → K → Prop} (hf : ∀ x y : K, f (some x) (some y) = false ↔ R x y) {a b : Arr (Option K)}
    {d : Arr Bool} (hp : Pairs f a b d) (h1 : (indices a.shape).length = 1) (hn : ∀ i, Inside i a.shape → a.at' i ≠ none ∧ b.at' i ≠ none) :
    ∃ t, truth d = .ok t ∧ (t = false ↔ All2 R a b) := by
  obtain ⟨i0, hi0⟩ := List.length_eq_one_iff.1 h1
  have hin : ∀ i, Inside i a.shape ↔ i = i0 := by
    intro i
    rw [← mem_indices, hi0, List.mem_singleton]
  have hi := (hin i0).2 rfl
  obtain ⟨ha, hb⟩ := hn i0 hi
  obtain ⟨x, hx⟩ := Option.ne_none_iff_exists'.1 ha
  obtain ⟨y, hy⟩ := Option.ne_none_iff_exists'.1 hb
  refine ⟨f (some x) (some y), ?_, ?_⟩
  · unfold truth elems
    rw [hp.2.1, hi0]
    simp only [List.map_cons, List.map_nil]
    rw [hp.2.2 i0 hi, hx, hy]
  · rw [hf]
    constructor
    · intro h
      refine ⟨hp.1, ?_⟩
      intro i hi'
      rw [(hin i).1 hi']
      exact ⟨x, y, hx, hy, h⟩
    · intro h
      obtain ⟨x', y', hx', hy', h'⟩ := h.2 i0 hi
      rw [hx] at hx'
      rw [hy] at hy'
      cases hx'
      cases hy'
      exact h'

theorem relFar_iff {reltol : K} (hr : 0 < reltol) (x y : K) : relFar reltol (some x) (some y) = false ↔ Close reltol x y := by
  unfold relFar Close
  by_cases hy : y = 0
  · subst hy
    simp
  · have h1 : |x / y - 1| = |x - y| / |y| := by
      rw [← abs_div, sub_div, div_self hy]
    have hp : 0 < |y| := abs_pos.2 hy
    simp only [hy, if_false, decide_eq_false_iff_not, not_le]
    rw [h1, div_lt_iff₀ hp]
    constructor
    · exact Or.inr
    · rintro (rfl | h)
      · rw [sub_self, abs_zero]
        exact mul_pos hr hp
      · exact h

theorem absFar_iff (abstol x y : K) : absFar abstol (some x) (some y) = false ↔ |x - y| < abstol := by
  simp [absFar]

theorem All2.single {R : K → K → Prop} {a b : Arr (Option K)} (h : All2 R a b) : a.shape = b.shape := h.1

/-- Arrays of one number each. -/
def Single (a b : Arr (Option K)) : Prop :=
  a.shape = b.shape ∧ (indices a.shape).length = 1 ∧ ∀ i, Inside i a.shape → a.at' i ≠ none ∧ b.at' i ≠ none

theorem rel_truth {reltol : K} (hr : 0 < reltol) {x y : Arr (Option K)} (h : Single x y) :
    ∃ t, (castV (relFar reltol) x y).bind truth = .ok t ∧ (t = false ↔ All2 (Close reltol) x y) := by
  obtain ⟨d, h1, h2⟩ := C76_cast (relFar reltol) h.1
  obtain ⟨t, h3, h4⟩ := single_truth (relFar_iff hr) h2 h.2.1 h.2.2
  exact ⟨t, by rw [h1]; exact h3, h4⟩

theorem abs_truth (abstol : K) {x y : Arr (Option K)} (h : Single x y) :
    ∃ t, (ufunc (absFar abstol) x y).bind truth = .ok t ∧ (t = false ↔ All2 (fun p q => |p - q| < abstol) x y) := by
  obtain ⟨d, h1, h2⟩ := ufunc_same (absFar abstol) h.1
  obtain ⟨t, h3, h4⟩ := single_truth (absFar_iff abstol) h2 h.2.1 h.2.2
  exact ⟨t, by rw [h1]; exact h3, h4⟩

end
end Diffs

section
variable [Field K] [LinearOrder K] [IsStrictOrderedRing K] [DecidableEq Q]

/-- C76: `almost_equal` tells whether two solutions have the same variables, with values and sensitivities that are close, if each variable has one value and one
sensitivity. Missing: vectors and sweeps, variables without sensitivities, and values that are not numbers, see `C76_vector_fails`, `C76_linked_fails` and
`C76_nan_fails`. -/
theorem C76_almost_partial {reltol : K} (hr : 0 < reltol) (abstol : K) {s o : Soln Q K} {order : List Q} (hord : ∀ k, k ∈ order ↔ k ∈ s.vars.keys)
    (hval : ∀ k x y, s.vars.get? k = some x → o.vars.get? k = some y → Single x y)
    (hsens : ∀ k ∈ s.vars.keys, ∃ u v, s.senss.get? k = some u ∧ o.senss.get? k = some v ∧ Single u v) :
    ∃ b, almostEqual order reltol abstol s o = .ok b ∧ (b = true ↔ Alike reltol abstol s o) := by
  unfold almostEqual
  have hkeys : ((∀ k ∈ s.vars.keys, k ∈ o.vars.keys) ∧ ∀ k ∈ o.vars.keys, k ∈ s.vars.keys) ↔ ∀ k, (s.vars.get? k).isSome ↔ (o.vars.get? k).isSome := by
    constructor
    · rintro ⟨h1, h2⟩ k
      rw [Option.isSome_iff_exists, Option.isSome_iff_exists, ← get?_isSome, ← get?_isSome]
      exact ⟨h1 k, h2 k⟩
    · intro h
      constructor <;> intro k hk <;> have := h k <;>
        rw [Option.isSome_iff_exists, Option.isSome_iff_exists, ← get?_isSome, ← get?_isSome] at this
      · exact this.1 hk
      · exact this.2 hk
  by_cases hk : (∀ k ∈ s.vars.keys, k ∈ o.vars.keys) ∧ ∀ k ∈ o.vars.keys, k ∈ s.vars.keys
  · rw [if_pos hk]
    have key : ∀ k ∈ order, ∃ x y u v, s.vars.get? k = some x ∧ o.vars.get? k = some y ∧ s.senss.get? k = some u ∧ o.senss.get? k = some v ∧
        Single x y ∧ Single u v := by
      intro k hko
      have hs := (hord k).1 hko
      obtain ⟨x, hx⟩ := get?_isSome.1 hs
      obtain ⟨y, hy⟩ := get?_isSome.1 (hk.1 k hs)
      obtain ⟨u, v, hu, hv, h⟩ := hsens k hs
      exact ⟨x, y, u, v, hx, hy, hu, hv, hval k x y hx hy, h⟩
    obtain ⟨b, hb⟩ := almostLoop_ok (reltol := reltol) (abstol := abstol) (s := s) (o := o) (ks := order) (by
      intro k hko
      obtain ⟨x, y, u, v, hx, hy, hu, hv, h1, h2⟩ := key k hko
      obtain ⟨b, hb, _⟩ := rel_truth hr h1
      obtain ⟨c, hc, _⟩ := abs_truth abstol h2
      exact ⟨x, y, u, v, b, c, hx, hy, hu, hv, hb, hc⟩)
    refine ⟨b, hb, ?_⟩
    have hb' : b = true ↔ almostLoop reltol abstol s o order = .ok true := by
      rw [hb]
      constructor
      · rintro rfl
        rfl
      · intro h
        cases h
        rfl
    rw [hb', almostLoop_true]
    constructor
    · intro h
      refine ⟨hkeys.1 hk, ?_⟩
      intro k x y hx hy
      obtain ⟨x', y', u, v, hx', hy', hu, hv, h1, h2⟩ := h k ((hord k).2 (get?_isSome.2 ⟨x, hx⟩))
      obtain ⟨_, _, u', v', _, _, hu', hv', _, hs2⟩ := key k ((hord k).2 (get?_isSome.2 ⟨x, hx⟩))
      rw [hx] at hx'
      rw [hy] at hy'
      rw [hu] at hu'
      rw [hv] at hv'
      cases hx'
      cases hy'
      cases hu'
      cases hv'
      obtain ⟨t, ht, hti⟩ := rel_truth hr (hval k x y hx hy)
      obtain ⟨t', ht', hti'⟩ := abs_truth abstol hs2
      rw [h1] at ht
      rw [h2] at ht'
      cases ht
      cases ht'
      refine ⟨hti.1 rfl, ?_⟩
      intro p q hp hq
      rw [hu] at hp
      rw [hv] at hq
      cases hp
      cases hq
      exact hti'.1 rfl
    · intro h k hko
      obtain ⟨x, y, u, v, hx, hy, hu, hv, h1, h2⟩ := key k hko
      obtain ⟨t, ht, hti⟩ := rel_truth hr h1
      obtain ⟨t', ht', hti'⟩ := abs_truth abstol h2
      have := h.2 k x y hx hy
      rw [hti.2 this.1] at ht
      rw [hti'.2 (this.2 u v hu hv)] at ht'
      exact ⟨x, y, u, v, hx, hy, hu, hv, ht, ht'⟩
  · rw [if_neg hk]
    refine ⟨false, rfl, ?_⟩
    simp only [Bool.false_eq_true, false_iff]
    intro h
    exact hk (hkeys.2 h.1)

/-- C76: solutions that are almost equal are so with the other one as the baseline, if the tolerance is slightly raised. Missing: the same tolerance, see
`C76_symmetric_fails`. -/
theorem C76_symmetric_partial {reltol : K} (h0 : 0 < reltol) (h1 : reltol < 1) {abstol : K} {s o : Soln Q K} (h : Alike reltol abstol s o) :
    Alike (reltol / (1 - reltol)) abstol o s := by
  have hr : 0 < 1 - reltol := by linarith
  refine ⟨fun k => (h.1 k).symm, ?_⟩
  intro k y x hy hx
  obtain ⟨h2, h3⟩ := h.2 k x y hx hy
  refine ⟨⟨h2.1.symm, ?_⟩, ?_⟩
  · intro i hi
    obtain ⟨a, b, ha, hb, hc⟩ := h2.2 i (by rw [h2.1]; exact hi)
    refine ⟨b, a, hb, ha, ?_⟩
    rcases hc with rfl | hc
    · exact Or.inl rfl
    · right
      rw [div_mul_eq_mul_div, lt_div_iff₀ hr, abs_sub_comm b a]
      have h4 : |b| ≤ |a| + |a - b| := by
        have := abs_sub_abs_le_abs_sub b a
        rw [abs_sub_comm b a] at this
        linarith
      have h5 := mul_le_mul_of_nonneg_left h4 h0.le
      rw [mul_add] at h5
      rw [mul_sub, mul_one, mul_comm (|a - b|) reltol]
      linarith
  · intro v u hv hu
    have h4 := h3 u v hu hv
    refine ⟨h4.1.symm, ?_⟩
    intro i hi
    obtain ⟨a, b, ha, hb, hc⟩ := h4.2 i (by rw [h4.1]; exact hi)
    exact ⟨b, a, hb, ha, by show |b - a| < abstol; rw [abs_sub_comm]; exact hc⟩

/-- C76 is violated: a solution with a vector variable, or a sweep, is never almost equal to itself: unless something else goes wrong first, the truth of an array is
asked for. -/
theorem C76_vector_fails (reltol abstol : K) (s : Soln Q K) {order : List Q} (hord : ∀ k, k ∈ order ↔ k ∈ s.vars.keys) {k : Q} {x : Arr (Option K)}
    (hx : s.vars.get? k = some x) (hl : 2 ≤ (indices x.shape).length) : almostEqual order reltol abstol s s ≠ .ok true := by
  unfold almostEqual
  rw [if_pos ⟨fun k hk => hk, fun k hk => hk⟩]
  intro h
  obtain ⟨x', y, u, v, hx', hy, _, _, h1, _⟩ := almostLoop_true.1 h k ((hord k).2 (get?_isSome.2 ⟨x, hx⟩))
  rw [hx] at hx' hy
  cases hx'
  cases hy
  obtain ⟨d, h2, h3⟩ := C76_cast (relFar reltol) (rfl : x.shape = x.shape)
  rw [h2] at h1
  change truth d = _ at h1
  unfold truth elems at h1
  rw [h3.2.1] at h1
  match hi : indices x.shape with
  | [] => rw [hi] at hl; simp at hl
  | [_] => rw [hi] at hl; simp at hl
  | _ :: _ :: _ =>
    rw [hi] at h1
    cases h1

/-- C76 is violated: a solution with a variable that has no sensitivity is not almost equal to itself. -/
theorem C76_missing_fails (reltol abstol : K) (s : Soln Q K) {order : List Q} (hord : ∀ k, k ∈ order ↔ k ∈ s.vars.keys) {k : Q} (hk : k ∈ s.vars.keys)
    (hn : s.senss.get? k = none) : almostEqual order reltol abstol s s ≠ .ok true := by
  unfold almostEqual
  rw [if_pos ⟨fun k hk => hk, fun k hk => hk⟩]
  intro h
  obtain ⟨x', y, u, v, _, _, hu, _⟩ := almostLoop_true.1 h k ((hord k).2 hk)
  rw [hn] at hu
  cases hu

end

/-- Sensitivities as they are kept in a solution. -/
def Diffs.ofSens (d : PyDict Q K) : PyDict Q (Arr (Option K)) := d.map (fun p => (p.1, ⟨[], fun _ => some p.2⟩))

theorem Diffs.ofSens_get? [DecidableEq Q] (d : PyDict Q K) (k : Q) (h : d.get? k = none) : (ofSens d).get? k = none := by
  induction d with
  | nil => rfl
  | cons p d ih =>
    unfold ofSens
    rw [PyDict.get?_cons] at h
    rw [List.map_cons, PyDict.get?_cons]
    by_cases hk : (p.1 == k) = true
    · simp [hk] at h
    · simp only [hk] at h ⊢
      exact ih h

open Sens in
/-- C76 is violated: a solution with a constant that is calculated from other constants is not almost equal to itself, as its sensitivity is replaced by those of the
others. -/
theorem C76_linked_fails {V : Type} [DecidableEq V] {E : Sens.Env V ℝ} {gpv cost : PyDict V ℝ} (w1 : PyDict.WF gpv) (w2 : PyDict.WF cost)
    (hl : ∀ v ∈ linkedKeys E gpv, LinkOK E v)
    (hlast : ∀ v ∈ linkedKeys E gpv, ∀ g ∈ (E.grads v).dropLast, cost.get? v = none ∨ E.inCost g.1 = false) (reltol abstol : ℝ)
    (vars : PyDict V (Arr (Option ℝ))) {order : List V} (hord : ∀ k, k ∈ order ↔ k ∈ vars.keys) {v : V} (hv : v ∈ vars.keys) (hg : E.grads v ≠ []) :
    ∃ out cost', carry E gpv cost = .ok (out, cost') ∧ almostEqual order reltol abstol ⟨vars, ofSens out⟩ ⟨vars, ofSens out⟩ ≠ .ok true := by
  obtain ⟨out, cost', h1, h2, _⟩ := C41_variables_partial w1 w2 hl hlast
  exact ⟨out, cost', h1, C76_missing_fails reltol abstol ⟨vars, ofSens out⟩ hord hv (ofSens_get? _ _ (h2 v hg))⟩

/-- C76 is violated: a sensitivity that is not a number, or a value, counts as close to any. -/
theorem C76_nan_fails : ∃ s o : Soln Nat ℚ, almostEqual [0] (1 / 1000) (1 / 100) s o = .ok true ∧ almostEqual [0] (1 / 1000) (1 / 100) o s = .ok true ∧
    ¬ Alike (1 / 1000) (1 / 100) s o ∧ (s.vars.map (fun p => elems p.2), s.senss.map (fun p => elems p.2)) = ([[some 1]], [[none]]) ∧
      (o.vars.map (fun p => elems p.2), o.senss.map (fun p => elems p.2)) = ([[some 1]], [[some 5]]) := by
  refine ⟨⟨[(0, ⟨[], fun _ => some 1⟩)], [(0, ⟨[], fun _ => none⟩)]⟩, ⟨[(0, ⟨[], fun _ => some 1⟩)], [(0, ⟨[], fun _ => some 5⟩)]⟩,
    by decide +kernel, by decide +kernel, ?_, by decide +kernel, by decide +kernel⟩
  intro h
  obtain ⟨x, y, hx, _⟩ := ((h.2 0 _ _ rfl rfl).2 _ _ rfl rfl).2 [] .nil
  cases hx

/-- C76 is violated: which solution is the baseline matters. -/
theorem C76_symmetric_fails : ∃ s o : Soln Nat ℚ, almostEqual [0] (1 / 10) (1 / 100) s o = .ok true ∧ almostEqual [0] (1 / 10) (1 / 100) o s = .ok false ∧
    (s.vars.map (fun p => elems p.2), s.senss.map (fun p => elems p.2)) = ([[some 10]], [[some 0]]) ∧
      (o.vars.map (fun p => elems p.2), o.senss.map (fun p => elems p.2)) = ([[some 11]], [[some 0]]) := by
  refine ⟨⟨[(0, ⟨[], fun _ => some 10⟩)], [(0, ⟨[], fun _ => some 0⟩)]⟩, ⟨[(0, ⟨[], fun _ => some 11⟩)], [(0, ⟨[], fun _ => some 0⟩)]⟩,
    by decide +kernel, by decide +kernel, by decide +kernel, by decide +kernel⟩

namespace Diffs
section
variable [Field K] [LinearOrder K] [IsStrictOrderedRing K]

theorem items_nil {T : Attrs Q} {r : K → K} {o : Opts K} {data : List (Q × Cell K)} : varTable T r o data = [] ↔ ∀ kv ∈ data, ¬ Shown T o kv := by
  classical
  obtain ⟨ms, h1, h2⟩ := rows_spec T r o data
  unfold varTable
  rw [h1]
  constructor
  · intro h kv hkv hs
    cases ms with
    | nil =>
      have := h2.symm.subset (List.mem_filter.2 ⟨hkv, decide_eq_true hs⟩)
      simp at this
    | cons m ms =>
      rw [List.map_cons, layout] at h
      simp only [List.append_eq_nil_iff] at h
      have := h.1.2
      unfold Row.items at this
      split at this <;> simp at this
  · intro h
    have : data.filter (fun kv => decide (Shown T o kv)) = [] := by
      rw [List.filter_eq_nil_iff]
      intro kv hkv
      simpa using h kv hkv
    rw [this] at h2
    have h3 := h2.eq_nil
    rw [List.map_eq_nil_iff] at h3
    rw [h3]
    rfl

theorem maxAbs_spec {l : List (Option K)} (hne : l ≠ []) (hs : ∀ x ∈ l, x ≠ none) :
    ∃ m, maxAbs l = some m ∧ (∃ x, some x ∈ l ∧ |x| = m) ∧ ∀ x, some x ∈ l → |x| ≤ m := by
  induction l with
  | nil => exact absurd rfl hne
  | cons a l ih =>
    obtain ⟨x, rfl⟩ := Option.ne_none_iff_exists'.1 (hs a List.mem_cons_self)
    cases l with
    | nil => exact ⟨|x|, rfl, ⟨x, List.mem_cons_self, rfl⟩, fun y hy => by simp at hy; rw [hy]⟩
    | cons b l =>
      obtain ⟨m, h1, ⟨y, h2, h3⟩, h4⟩ := ih (by simp) (fun x hx => hs x (List.mem_cons_of_mem _ hx))
      refine ⟨max |x| m, by simp only [maxAbs, h1], ?_, ?_⟩
      · rcases le_total |x| m with h | h
        · exact ⟨y, List.mem_cons_of_mem _ h2, by rw [h3, max_eq_right h]⟩
        · exact ⟨x, List.mem_cons_self, by rw [max_eq_left h]⟩
      · intro z hz
        rcases List.mem_cons.1 hz with h | h
        · cases h
          exact le_max_left _ _
        · exact (h4 z h).trans (le_max_right _ _)

/-- All differences are numbers, and there are some. -/
def Full (v : Cell K) : Prop := v.entries ≠ [] ∧ ∀ x ∈ v.entries, x ≠ none

theorem absmaxLoop_spec {vs : List (Cell K)} (hv : ∀ v ∈ vs, Full v) {est : K} {final : Option (Cell K)}
    (hf : ∀ v, final = some v → maxAbs v.entries = some est) (h0 : final = none → est = 0) (hne : final ≠ none ∨ vs ≠ []) :
    ∃ v m, absmaxLoop est final vs = some v ∧ (final = some v ∨ v ∈ vs) ∧ maxAbs v.entries = some m ∧ est ≤ m ∧
      ∀ w ∈ vs, ∀ y, some y ∈ w.entries → |y| ≤ m := by
  induction vs generalizing est final with
  | nil =>
    rcases hne with hne | hne
    · obtain ⟨v, rfl⟩ := Option.ne_none_iff_exists'.1 hne
      exact ⟨v, est, rfl, Or.inl rfl, hf v rfl, le_refl _, by simp⟩
    · exact absurd rfl hne
  | cons w vs ih =>
    obtain ⟨m, h1, ⟨x, _, hxm⟩, h3⟩ := maxAbs_spec (hv w List.mem_cons_self).1 (hv w List.mem_cons_self).2
    have hvs : ∀ v ∈ vs, Full v := fun v h => hv v (List.mem_cons_of_mem _ h)
    rw [absmaxLoop]
    simp only [h1]
    by_cases hm : est ≤ m
    · rw [if_pos hm]
      obtain ⟨v, m', g1, g2, g3, g4, g5⟩ := ih hvs (est := m) (final := some w) (fun v h => by cases h; exact h1) (fun h => by cases h) (Or.inl (by simp))
      refine ⟨v, m', g1, Or.inr ?_, g3, hm.trans g4, ?_⟩
      · rcases g2 with h | h
        · cases h
          exact List.mem_cons_self
        · exact List.mem_cons_of_mem _ h
      · intro u hu y hy
        rcases List.mem_cons.1 hu with rfl | hu
        · exact (h3 y hy).trans g4
        · exact g5 u hu y hy
    · rw [if_neg hm]
      have hnf : final ≠ none := by
        intro h
        rw [h0 h, ← hxm] at hm
        exact hm (abs_nonneg x)
      obtain ⟨v, m', g1, g2, g3, g4, g5⟩ := ih hvs hf h0 (Or.inl hnf)
      refine ⟨v, m', g1, ?_, g3, g4, ?_⟩
      · rcases g2 with h | h
        · exact Or.inl h
        · exact Or.inr (List.mem_cons_of_mem _ h)
      · intro u hu y hy
        rcases List.mem_cons.1 hu with rfl | hu
        · exact ((h3 y hy).trans (le_of_lt (not_le.1 hm))).trans g4
        · exact g5 u hu y hy

theorem absmax_spec {vs : List (Cell K)} (hv : ∀ v ∈ vs, Full v) (hne : vs ≠ []) :
    ∃ x, absmax vs = some x ∧ (∃ v ∈ vs, some x ∈ v.entries) ∧ ∀ v ∈ vs, ∀ y, some y ∈ v.entries → |y| ≤ |x| := by
  obtain ⟨v, m, h1, h2, h3, _, h5⟩ := absmaxLoop_spec hv (est := 0) (final := none) (fun v h => by cases h) (fun _ => rfl) (Or.inr hne)
  have hm : v ∈ vs := by
    rcases h2 with h | h
    · cases h
    · exact h
  unfold absmax
  simp only [h1]
  obtain ⟨m', g1, ⟨x, g2, g3⟩, _⟩ := maxAbs_spec (hv v hm).1 (hv v hm).2
  rw [h3] at g1
  cases g1
  cases hf : v.entries.find? (fun x => decide (x.map (fun x => |x|) = maxAbs v.entries)) with
  | none =>
    rw [List.find?_eq_none] at hf
    have := hf _ g2
    rw [h3] at this
    simp [g3] at this
  | some z =>
    have hz := List.find?_some hf
    have hz' := List.mem_of_find?_eq_some hf
    obtain ⟨w, rfl⟩ := Option.ne_none_iff_exists'.1 ((hv v hm).2 z hz')
    rw [h3] at hz
    have hw : |w| = m := by simpa using hz
    refine ⟨w, rfl, ⟨v, hm, hz'⟩, ?_⟩
    rw [hw]
    exact h5

end
end Diffs

namespace Diffs
section
variable [Field K] [LinearOrder K] [IsStrictOrderedRing K]

/-- Nothing is left out by the names of models. -/
def AllModels (o : Opts K) : Prop := o.incl = [] ∧ o.excl = []

theorem shown_iff {T : Attrs Q} {o : Opts K} (ho : AllModels o) (kv : Q × Cell K) : Shown T o kv ↔ ∃ x, some x ∈ kv.2.entries ∧ o.minval < |x| := by
  unfold Shown
  rw [ho.1, ho.2]
  simp

theorem reads_all {T : Attrs Q} {r : K → K} (hr : Monotone r) (o : Opts K) {data : List (Q × Cell K)} (hd : Proper data) :
    Reads T r o (fun _ => True) data (varTable T r o data) := by
  classical
  obtain ⟨vs, h1, h2, h3, h4⟩ := C64_shown T hr o hd
  refine ⟨vs, ?_, h2, h3, h4⟩
  refine h1.trans (List.Perm.of_eq ?_)
  congr 1
  funext kv
  simp

theorem section_tells (T : Attrs Q) {r : K → K} (hr : Monotone r) {o : Opts K} (ho : AllModels o) {data : List (Q × Cell K)} (hd : Proper data)
    (hf : ∀ kv ∈ data, Full kv.2) : ∃ res, section' T r o data = .ok res ∧ Tells T r o data res := by
  have hreads := reads_all (T := T) hr o hd
  unfold section'
  cases data with
  | nil =>
    refine ⟨([], none), rfl, ?_, by simp, by simp⟩
    have : varTable T r o ([] : List (Q × Cell K)) = [] := items_nil.2 (by simp)
    rwa [this] at hreads
  | cons kv0 data =>
    rw [if_neg (by simp)]
    generalize hdata : kv0 :: data = D at *
    have hne : D ≠ [] := by rw [← hdata]; simp
    by_cases hi : varTable T r o D = []
    · have hns := items_nil.1 hi
      have hb : ∀ kv ∈ D, kv.2.below o.minval = true := by
        intro kv hkv
        have := hns kv hkv
        rw [shown_iff ho, ← below_iff] at this
        simpa using this
      have ha : after o D = D.map (·.2) := by
        unfold after
        apply List.map_congr_left
        intro kv hkv
        rw [if_pos (hb kv hkv)]
      obtain ⟨x, h1, ⟨v, h2, h3⟩, h4⟩ := absmax_spec (vs := D.map (·.2)) (by
        intro v hv
        obtain ⟨kv, hkv, rfl⟩ := List.mem_map.1 hv
        exact hf kv hkv) (by simpa using hne)
      obtain ⟨kv, hkv, rfl⟩ := List.mem_map.1 h2
      simp only [hi, List.isEmpty_nil, if_true, ha, h1]
      refine ⟨_, rfl, by rw [← hi]; exact hreads, ?_, ?_⟩
      · rintro ⟨kv, hkv, hx⟩
        exact absurd ((shown_iff ho kv).2 hx) (hns kv hkv)
      · intro _ _
        exact ⟨x, rfl, ⟨kv, hkv, h3⟩, fun kv' hkv' y hy => h4 kv'.2 (List.mem_map_of_mem hkv') y hy⟩
    · have : (varTable T r o D).isEmpty = false := by simpa using hi
      simp only [this, Bool.false_eq_true, if_false]
      refine ⟨_, rfl, hreads, fun _ => rfl, ?_⟩
      intro _ h
      exfalso
      apply hi
      rw [items_nil]
      intro kv hkv hs
      obtain ⟨x, hx, hlt⟩ := (shown_iff ho kv).1 hs
      exact absurd (h kv hkv x hx) (not_le.2 hlt)

variable [DecidableEq Q]

/-- Values of a shared variable that can be compared: of the same shape, with elements, all of which are numbers fit for `P`. -/
def Comparable (P : K → K → Prop) (s o : PyDict Q (Arr (Option K))) (k : Q) : Prop :=
  ∃ x y, s.get? k = some x ∧ o.get? k = some y ∧ 0 ∉ x.shape ∧ All2 P x y

theorem deltas_ok {g : Option K → Option K → Option K} {f : K → K → K} {P : K → K → Prop} (hg : ∀ x y, P x y → g (some x) (some y) = some (f x y))
    {s o : PyDict Q (Arr (Option K))} {shared : List Q} (h : ∀ k ∈ shared, Comparable P s o k) :
    ∃ data, deltas g s o shared = .ok data ∧ Differences f s o shared data ∧ Proper data ∧ ∀ kv ∈ data, Full kv.2 := by
  induction shared with
  | nil => exact ⟨[], rfl, ⟨rfl, by simp⟩, by intro kv hkv; simp at hkv, by simp⟩
  | cons k ks ih =>
    obtain ⟨data, h1, ⟨h2, h3⟩, h4, h5⟩ := ih (fun k' hk' => h k' (List.mem_cons_of_mem _ hk'))
    obtain ⟨x, y, hx, hy, h0, hs, hxy⟩ := h k List.mem_cons_self
    obtain ⟨d, hd, hp⟩ := C76_cast g hs
    have hel : ∀ i, Inside i x.shape → ∃ p q, x.at' i = some p ∧ y.at' i = some q ∧ d.at' i = some (f p q) := by
      intro i hi
      obtain ⟨p, q, hp', hq', hpq⟩ := hxy i hi
      refine ⟨p, q, hp', hq', ?_⟩
      rw [hp.2.2 i hi, hp', hq', hg p q hpq]
    refine ⟨(k, toCell d) :: data, ?_, ⟨by simp [h2], ?_⟩, ?_, ?_⟩
    · rw [deltas]
      simp only [hx, hy, hd, h1]
      rfl
    · intro kv hkv
      rcases List.mem_cons.1 hkv with rfl | hkv
      · exact ⟨x, y, d, hx, hy, fun he => if_pos he, fun he => if_neg he, hp.2.1, hel⟩
      · exact h3 kv hkv
    · intro kv hkv a ha
      rcases List.mem_cons.1 hkv with rfl | hkv
      · by_cases he : d.shape = []
        · simp [toCell, he] at ha
        · simp only [toCell, he, if_false, Cell.arr.injEq] at ha
          rw [← ha]
          exact he
      · exact h4 kv hkv a ha
    · intro kv hkv
      rcases List.mem_cons.1 hkv with rfl | hkv
      · by_cases he : d.shape = []
        · have hn : x.shape = [] := by rw [← hp.2.1]; exact he
          obtain ⟨p, q, _, _, hpq⟩ := hel [] (by rw [hn]; exact .nil)
          simp [Full, toCell, he, Cell.entries, hpq]
        · simp only [Full, toCell, he, if_false, Cell.entries, elems]
          rw [hp.2.1]
          refine ⟨by simpa using indices_ne_nil h0, ?_⟩
          intro z hz
          obtain ⟨i, hi, rfl⟩ := List.mem_map.1 hz
          obtain ⟨p, q, _, _, hpq⟩ := hel i (mem_indices.1 hi)
          rw [hpq]
          simp
      · exact h5 kv hkv

theorem asked_tells (T : Attrs Q) {r : K → K} (hr : Monotone r) {o : Opts K} (ho : AllModels o) (want : Bool) {g : Option K → Option K → Option K}
    {f : K → K → K} {P : K → K → Prop} (hg : ∀ x y, P x y → g (some x) (some y) = some (f x y)) {s t : PyDict Q (Arr (Option K))} {shared : List Q}
    (h : want = true → ∀ k ∈ shared, Comparable P s t k) :
    ∃ out, asked T r o want (deltas g s t shared) = .ok out ∧
      (want = true → ∃ data res, out = some res ∧ Differences f s t shared data ∧ Tells T r o data res) ∧ (want = false → out = none) := by
  unfold asked
  cases want with
  | false => exact ⟨none, rfl, by simp, fun _ => rfl⟩
  | true =>
    obtain ⟨data, h1, h2, h3, h4⟩ := deltas_ok hg (h rfl)
    obtain ⟨res, h5, h6⟩ := section_tells T hr ho h3 h4
    refine ⟨some res, ?_, fun _ => ⟨data, res, rfl, h2, h6⟩, by simp⟩
    rw [h1]
    simp only [if_true]
    change Except.map some (section' T r o data) = _
    rw [h5]
    rfl

end
end Diffs

section
variable [Field K] [LinearOrder K] [IsStrictOrderedRing K] [DecidableEq Q]

/-- C76: `diff` lists the variables that are in one solution only, and its tables show, for all shared variables, the differences above the limit, or the largest if
there are none. Missing: values and sensitivities of other shapes (see `C76_cast_fails`), not numbers or absent, and baselines that are zero (see
`C76_largest_fails`, `C76_zero_fails` and `C76_senss_fails`); and tables from which models are left out. -/
theorem C76_diff_partial (T : Attrs Q) {r : K → K} (hr : Monotone r) (a : Args Q K) (ha : AllModels a.table) {s o : Soln Q K} {shared : List Q}
    (hrel : a.reldiff = true → ∀ k ∈ shared, Comparable (fun _ y => y ≠ 0) s.vars o.vars k)
    (habs : a.absdiff = true → ∀ k ∈ shared, Comparable (fun _ _ => True) s.vars o.vars k)
    (hsens : a.senssdiff = true → ∀ k ∈ shared, Comparable (fun _ _ => True) s.senss o.senss k) :
    ∃ rep, diff T r a shared s o = .ok rep ∧
      (∀ k, k ∈ rep.missing ↔ (a.showvars = [] ∨ k ∈ a.showvars) ∧ (s.vars.get? k).isSome ∧ ¬ (o.vars.get? k).isSome) ∧
      (∀ k, k ∈ rep.extra ↔ (a.showvars = [] ∨ k ∈ a.showvars) ∧ (o.vars.get? k).isSome ∧ ¬ (s.vars.get? k).isSome) ∧
      (a.reldiff = true → ∃ data res, rep.rel = some res ∧ Differences (fun x y => (x - y) / y * 100) s.vars o.vars shared data ∧
        Tells T r (a.opts a.reltol) data res) ∧
      (a.absdiff = true → ∃ data res, rep.abs = some res ∧ Differences (fun x y => x - y) s.vars o.vars shared data ∧ Tells T r (a.opts a.abstol) data res) ∧
      (a.senssdiff = true → ∃ data res, rep.sens = some res ∧ Differences (fun x y => x - y) s.senss o.senss shared data ∧
        Tells T r (a.opts a.sensstol) data res) := by
  have ho : ∀ m, AllModels (a.opts m) := fun m => ⟨ha.1, ha.2⟩
  obtain ⟨rel, h1, h2, _⟩ := asked_tells T hr (ho a.reltol) a.reldiff (g := relDiff) (f := fun x y => (x - y) / y * 100) (P := fun _ y => y ≠ 0) (by
    intro x y hy
    simp only [relDiff, hy, if_false, Option.some.injEq]
    rw [sub_div, div_self hy, mul_comm]) hrel
  obtain ⟨abs, h3, h4, _⟩ := asked_tells T hr (ho a.abstol) a.absdiff (g := absDiff) (f := fun x y => x - y) (P := fun _ _ => True) (fun _ _ _ => rfl) habs
  obtain ⟨sens, h5, h6, _⟩ := asked_tells T hr (ho a.sensstol) a.senssdiff (g := absDiff) (f := fun x y => x - y) (P := fun _ _ => True)
    (fun _ _ _ => rfl) hsens
  have hkeys : ∀ (d : PyDict Q (Arr (Option K))) k, k ∈ a.keys d ↔ (a.showvars = [] ∨ k ∈ a.showvars) ∧ (d.get? k).isSome := by
    intro d k
    unfold Args.keys
    rw [Option.isSome_iff_exists, ← get?_isSome]
    by_cases hs : a.showvars = []
    · simp [hs]
    · simp [hs, List.mem_filter]
  refine ⟨_, by unfold diff; rw [h1, h3, h5]; rfl, ?_, ?_, h2, h4, h6⟩
  · intro k
    rw [List.mem_filter, decide_eq_true_eq, hkeys, hkeys]
    exact ⟨fun h => ⟨h.1.1, h.1.2, fun hn => h.2 ⟨h.1.1, hn⟩⟩, fun h => ⟨⟨h.1, h.2.1⟩, fun hn => h.2.2 hn.2⟩⟩
  · intro k
    rw [List.mem_filter, decide_eq_true_eq, hkeys, hkeys]
    exact ⟨fun h => ⟨h.1.1, h.1.2, fun hn => h.2 ⟨h.1.1, hn⟩⟩, fun h => ⟨⟨h.1, h.2.1⟩, fun hn => h.2.2 hn.2⟩⟩

/-- C76 is violated: with `senssdiff` and a shared variable that has no sensitivity there is no comparison at all. -/
theorem C76_senss_fails (T : Attrs Q) (r : K → K) (a : Args Q K) (ha : a.senssdiff = true) (s o : Soln Q K) {shared : List Q} {k : Q} (hk : k ∈ shared)
    (hn : s.senss.get? k = none ∨ o.senss.get? k = none) : ∃ e, diff T r a shared s o = .error e := by
  have hd : ∃ e, deltas absDiff s.senss o.senss shared = .error e := by
    induction shared with
    | nil => simp at hk
    | cons k' ks ih =>
      rw [deltas]
      by_cases hkk : k = k'
      · subst hkk
        rcases hn with h | h
        · exact ⟨.keyError, by simp [h]⟩
        · exact ⟨.keyError, by cases s.senss.get? k <;> simp [h]⟩
      · obtain ⟨e, he⟩ := ih ((List.mem_cons.1 hk).resolve_left hkk)
        cases s.senss.get? k' with
        | none => exact ⟨_, rfl⟩
        | some x =>
        cases o.senss.get? k' with
        | none => exact ⟨_, rfl⟩
        | some y =>
        cases hc : castV absDiff x y with
        | error e' => exact ⟨e', by simp [hc]⟩
        | ok d => exact ⟨e, by simp [hc, he, Except.map]⟩
  obtain ⟨e, he⟩ := hd
  unfold diff
  cases asked T r (a.opts a.reltol) a.reldiff (deltas relDiff s.vars o.vars shared) with
  | error e' => exact ⟨_, rfl⟩
  | ok rel =>
  cases asked T r (a.opts a.abstol) a.absdiff (deltas absDiff s.vars o.vars shared) with
  | error e' => exact ⟨_, rfl⟩
  | ok abs =>
  refine ⟨e, ?_⟩
  unfold asked
  rw [he, ha]
  rfl

end

namespace Diffs

/-- Names. -/
def attrs : Attrs Nat := ⟨fun _ => [], fun _ => ['x'], fun _ => ['x'], fun _ => [], fun _ => []⟩

/-- A number. -/
def num1 (x : ℚ) : Arr (Option ℚ) := ⟨[], fun _ => some x⟩

/-- Two numbers. -/
def num2 (x y : ℚ) : Arr (Option ℚ) := ⟨[2], fun i => if i = [0] then some x else some y⟩

/-- The default arguments. -/
def args : Args Nat ℚ := { reltol := 1, abstol := 0, sensstol := 1 / 10, table := { minval := 0, msenss := fun _ => 0 } }

end Diffs

/-- C76 is violated: solutions whose only shared variable is zero in both can not be compared: there is no largest difference, and writing it raises. -/
theorem C76_zero_fails : diff attrs id args [0] (⟨[(0, num1 0), (1, num1 4)], []⟩ : Soln Nat ℚ) ⟨[(0, num1 0)], []⟩ = .error .typeError := by
  have h : (match diff attrs id args [0] (⟨[(0, num1 0), (1, num1 4)], []⟩ : Soln Nat ℚ) ⟨[(0, num1 0)], []⟩ with
    | .error e => decide (e = .typeError)
    | .ok _ => false) = true := by decide +kernel
  cases hd : diff attrs id args [0] (⟨[(0, num1 0), (1, num1 4)], []⟩ : Soln Nat ℚ) ⟨[(0, num1 0)], []⟩ with
  | error e =>
    rw [hd] at h
    rw [of_decide_eq_true h]
  | ok rep =>
    rw [hd] at h
    cases h

/-- C76 is violated: what is said to be the largest difference is not, if a vector has elements that are zero in both solutions: they hide the others. -/
theorem C76_largest_fails :
    let s : Soln Nat ℚ := ⟨[(0, num2 0 1001), (1, num1 100001)], []⟩
    let o : Soln Nat ℚ := ⟨[(0, num2 0 1000), (1, num1 100000)], []⟩
    (deltas relDiff s.vars o.vars [0, 1]).toOption.map (fun d => d.map (fun kv => kv.2.entries)) = some [[none, some (1 / 10)], [some (1 / 1000)]] ∧
      ((diff attrs id args [0, 1] s o).toOption.bind (·.rel)).map (fun t => (t.1.length, t.2)) = some (0, some (1 / 1000)) := by
  constructor <;> decide +kernel

/-- A vector and a number, both of which change, can be compared. -/
example : (∀ k ∈ [0, 1], Comparable (fun _ y => y ≠ 0) [(0, num2 1 2), (1, num1 3)] [(0, num2 1 4), (1, num1 3)] k) ∧ AllModels args.table ∧
    args.reldiff = true := by
  refine ⟨?_, ⟨rfl, rfl⟩, rfl⟩
  intro k hk
  simp only [List.mem_cons, List.not_mem_nil, or_false] at hk
  rcases hk with rfl | rfl
  · refine ⟨num2 1 2, num2 1 4, rfl, rfl, by simp [num2], rfl, ?_⟩
    intro i _
    by_cases h : i = [0]
    · exact ⟨1, 1, by simp [num2, h], by simp [num2, h], by norm_num⟩
    · exact ⟨2, 4, by simp [num2, h], by simp [num2, h], by norm_num⟩
  · exact ⟨num1 3, num1 3, rfl, rfl, by simp [num1], rfl, fun i _ => ⟨3, 3, rfl, rfl, by norm_num⟩⟩

/-- A vector variable: `sol.almost_equal(sol)` raises. -/
example : almostEqual [0] (1 / 1000) (1 / 100) (⟨[(0, num2 1 2)], [(0, num2 0 0)]⟩ : Soln Nat ℚ) ⟨[(0, num2 1 2)], [(0, num2 0 0)]⟩ = .error .valueError := by
  decide +kernel

/-- Two solutions with a variable each that are almost equal: the hypotheses of `C76_almost_partial` are met. -/
example : Alike (1 / 100) (1 / 100) (⟨[(0, num1 1000)], [(0, num1 1)]⟩ : Soln Nat ℚ) ⟨[(0, num1 1001)], [(0, num1 1)]⟩ ∧
    almostEqual [0] (1 / 100) (1 / 100) (⟨[(0, num1 1000)], [(0, num1 1)]⟩ : Soln Nat ℚ) ⟨[(0, num1 1001)], [(0, num1 1)]⟩ = .ok true := by
  have hs : ∀ x y, Single (num1 x) (num1 y) := fun x y => ⟨rfl, rfl, fun i _ => by simp [num1]⟩
  have hg : ∀ (c : ℚ) k x, PyDict.get? [(0, num1 c)] k = some x → x = num1 c := by
    intro c k x h
    by_cases hk : (0 == k) = true
    · rw [PyDict.get?_cons, if_pos hk] at h
      cases h
      rfl
    · rw [PyDict.get?_cons, if_neg hk] at h
      cases h
  obtain ⟨b, h1, h2⟩ := C76_almost_partial (reltol := 1 / 100) (by norm_num) (1 / 100) (s := (⟨[(0, num1 1000)], [(0, num1 1)]⟩ : Soln Nat ℚ))
    (o := ⟨[(0, num1 1001)], [(0, num1 1)]⟩) (order := [0]) (fun k => Iff.rfl) (by
      intro k x y hx hy
      rw [hg _ k x hx, hg _ k y hy]
      exact hs _ _) (by
      intro k hk
      have : k = 0 := by simpa [PyDict.keys] using hk
      subst this
      exact ⟨num1 1, num1 1, rfl, rfl, hs _ _⟩)
  have h3 : almostEqual [0] (1 / 100) (1 / 100) (⟨[(0, num1 1000)], [(0, num1 1)]⟩ : Soln Nat ℚ) ⟨[(0, num1 1001)], [(0, num1 1)]⟩ = .ok true := by
    decide +kernel
  rw [h3] at h1
  cases h1
  exact ⟨h2.1 rfl, h3⟩

end Verif
