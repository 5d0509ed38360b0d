import Verif.Model.Elementwise
import Verif.Lemmas.Canonical
import Verif.Props.Written

/-! Indices of arrays and broadcasting, for C74. -/

set_option linter.unusedSectionVars false

namespace Verif
namespace Elementwise

/-! ### Indices -/

theorem indices_eq : ∀ s : List Nat, Vectors.indices s = allIndices s
  | [] => rfl
  | n :: s => by simp only [Vectors.indices, allIndices, indices_eq s]

theorem mem_allIndices : ∀ {s i : List Nat}, i ∈ allIndices s ↔ InShape s i
  | [], i => by
    simp only [allIndices, List.mem_singleton]
    exact ⟨fun h => h ▸ .nil, fun h => by cases h; rfl⟩
  | n :: s, i => by
    simp only [allIndices, List.mem_flatMap, List.mem_range, List.mem_map]
    constructor
    · rintro ⟨k, hk, j, hj, rfl⟩
      exact .cons hk (mem_allIndices.1 hj)
    · intro h
      cases h with
      | cons hk hj => exact ⟨_, hk, _, mem_allIndices.2 hj, rfl⟩

theorem range_mul (n m : Nat) : (List.range n).flatMap (fun k => (List.range m).map (k * m + ·)) = List.range (n * m) := by
  induction n with
  | zero => simp
  | succ n ih =>
    rw [List.range_succ, List.flatMap_append, ih, Nat.succ_mul, List.range_add]
    simp

theorem position_indices : ∀ s : List Nat, (allIndices s).map (position s) = List.range s.prod
  | [] => rfl
  | n :: s => by
    simp only [allIndices, List.map_flatMap, List.map_map, List.prod_cons]
    rw [← range_mul]
    congr 1
    funext k
    rw [← position_indices s, List.map_map]
    rfl

theorem length_indices (s : List Nat) : (allIndices s).length = s.prod := by
  rw [← List.length_map (f := position s), position_indices, List.length_range]

theorem getElem?_position {s i : List Nat} (h : InShape s i) : (allIndices s)[position s i]? = some i := by
  obtain ⟨k, hk, e⟩ := List.mem_iff_getElem.1 (mem_allIndices.2 h)
  have : ((allIndices s).map (position s))[k]? = some (position s i) := by
    rw [List.getElem?_map, List.getElem?_eq_getElem hk, e]
    rfl
  rw [position_indices, List.getElem?_range (by rw [← length_indices]; exact hk)] at this
  cases this
  rw [List.getElem?_eq_getElem hk, e]

theorem position_lt {s i : List Nat} (h : InShape s i) : position s i < s.prod := by
  have := getElem?_position h
  rw [← length_indices]
  exact (List.getElem?_eq_some_iff.1 this).1

theorem getElem_position {s : List Nat} {k : Nat} (hk : k < (allIndices s).length) : position s (allIndices s)[k] = k := by
  have : ((allIndices s).map (position s))[k]? = some (position s (allIndices s)[k]) := by
    rw [List.getElem?_map, List.getElem?_eq_getElem hk]
    rfl
  rw [position_indices, List.getElem?_range (by rw [← length_indices]; exact hk)] at this
  exact (Option.some.inj this).symm

/-- A list of the right length is the list of its elements at all indices. -/
theorem eq_map_indices {A : Type} {s : List Nat} {l : List A} (hl : l.length = s.prod) {f : List Nat → A}
    (h : ∀ i, InShape s i → l[position s i]? = some (f i)) : l = (allIndices s).map f := by
  refine List.ext_getElem? (fun k => ?_)
  by_cases hk : k < (allIndices s).length
  · rw [List.getElem?_map, List.getElem?_eq_getElem hk]
    have := h _ (mem_allIndices.1 (List.getElem_mem hk))
    rw [getElem_position hk] at this
    exact this
  · rw [List.getElem?_eq_none (by rw [hl, ← length_indices]; omega), List.getElem?_eq_none (by rw [List.length_map]; omega)]

/-! ### Shapes -/

theorem pad_reverse (n : Nat) (s : List Nat) : pad n s.reverse = (s ++ List.replicate (n - s.length) 1).reverse := by
  simp [pad]

theorem joint_reverse (s t : List Nat) : joint s.reverse t.reverse =
    (List.zipWith (fun a b => if a = 1 then b else a) (s ++ List.replicate (t.length - s.length) 1) (t ++ List.replicate (s.length - t.length) 1)).reverse := by
  unfold joint
  rw [pad_reverse, pad_reverse, List.length_reverse, List.length_reverse,
    show max s.length t.length - s.length = t.length - s.length by omega, show max s.length t.length - t.length = s.length - t.length by omega,
    List.reverse_zipWith (by simp only [List.length_append, List.length_replicate]; omega)]

theorem zipWith_ones_left : ∀ t : List Nat, List.zipWith (fun a b => if a = 1 then b else a) (List.replicate t.length 1) t = t
  | [] => rfl
  | b :: t => by simp [List.replicate_succ, zipWith_ones_left t]

theorem zipWith_ones_right : ∀ s : List Nat, List.zipWith (fun a b => if a = 1 then b else a) s (List.replicate s.length 1) = s
  | [] => rfl
  | a :: s => by
    simp only [List.length_cons, List.replicate_succ, List.zipWith_cons_cons, zipWith_ones_right s, List.cons.injEq, and_true]
    split
    · rename_i h; rw [h]
    · rfl

/-- The shape numpy finds is the joint shape. -/
theorem common_joint : ∀ {s t u : List Nat}, common s t = some u →
    u = List.zipWith (fun a b => if a = 1 then b else a) (s ++ List.replicate (t.length - s.length) 1) (t ++ List.replicate (s.length - t.length) 1)
  | [], t, u, h => by
    cases h
    simp [zipWith_ones_left]
  | a :: s, [], u, h => by
    cases h
    have := zipWith_ones_right (a :: s)
    simp only [List.length_nil, Nat.sub_zero, List.nil_append, Nat.zero_sub, List.replicate_zero, List.append_nil]
    exact this.symm
  | a :: s, b :: t, u, h => by
    simp only [common] at h
    have key : ∀ c, (common s t).map (c :: ·) = some u → (if a = 1 then b else a) = c →
        u = List.zipWith (fun a b => if a = 1 then b else a) (a :: s ++ List.replicate ((b :: t).length - (a :: s).length) 1)
          (b :: t ++ List.replicate ((a :: s).length - (b :: t).length) 1) := by
      intro c h hc
      obtain ⟨v, hv, rfl⟩ := Option.map_eq_some_iff.1 h
      simp only [List.cons_append, List.zipWith_cons_cons, hc, List.length_cons, Nat.add_sub_add_right]
      rw [← common_joint hv]
    split at h
    · rename_i hab
      refine key a h ?_
      split
      · rcases hab with hab | hab <;> omega
      · rfl
    · split at h
      · rename_i ha
        exact key b h (if_pos ha)
      · cases h

theorem common_eq {s t u : List Nat} (h : common s.reverse t.reverse = some u) : u.reverse = joint s t := by
  have := joint_reverse s.reverse t.reverse
  rw [List.reverse_reverse, List.reverse_reverse] at this
  rw [this, ← common_joint h]

theorem source_inShape : ∀ {s t u i : List Nat}, common s t = some u → List.Forall₂ (fun n k => k < n) u i →
    List.Forall₂ (fun n k => k < n) s (Vectors.source s i) ∧ List.Forall₂ (fun n k => k < n) t (Vectors.source t i) := by
  have self : ∀ {s i : List Nat}, List.Forall₂ (fun n k => k < n) s i → List.Forall₂ (fun n k => k < n) s (Vectors.source s i) := by
    intro s i h
    induction h with
    | nil => exact .nil
    | cons hk _ ih =>
      refine .cons ?_ ih
      split
      · omega
      · exact hk
  intro s
  induction s with
  | nil =>
    intro t u i h hi
    simp only [common] at h
    cases h
    exact ⟨by cases i <;> exact .nil, self hi⟩
  | cons a s ih =>
    intro t u i h hi
    cases t with
    | nil =>
      cases h
      exact ⟨self hi, by cases i <;> exact .nil⟩
    | cons b t =>
      simp only [common] at h
      have key : ∀ c, (common s t).map (c :: ·) = some u → (c = a ∨ a = 1) → (c = b ∨ b = 1) →
          List.Forall₂ (fun n k => k < n) (a :: s) (Vectors.source (a :: s) i) ∧ List.Forall₂ (fun n k => k < n) (b :: t) (Vectors.source (b :: t) i) := by
        intro c h ha hb
        obtain ⟨v, hv, rfl⟩ := Option.map_eq_some_iff.1 h
        cases hi with
        | cons hk hl =>
          obtain ⟨h1, h2⟩ := ih hv hl
          refine ⟨.cons ?_ h1, .cons ?_ h2⟩ <;> (split <;> omega)
      split at h
      · rename_i hab
        exact key a h (.inl rfl) (hab.imp id id)
      · split at h
        · rename_i ha
          exact key b h (.inr ha) (.inl rfl)
        · cases h

theorem source_zipWith : ∀ (s i : List Nat), Vectors.source s i = List.zipWith (fun n k => if n = 1 then 0 else k) s i
  | [], _ => by cases ‹List Nat› <;> rfl
  | _ :: _, [] => rfl
  | a :: s, k :: i => by simp only [Vectors.source, List.zipWith_cons_cons, source_zipWith s i]

theorem source_reverse {s i : List Nat} (h : s.length ≤ i.length) : (Vectors.source s.reverse i.reverse).reverse = toward s i := by
  rw [source_zipWith]
  have : i.reverse = (i.drop (i.length - s.length)).reverse ++ (i.take (i.length - s.length)).reverse := by
    rw [← List.reverse_append, List.take_append_drop]
  rw [this]
  have hl : (i.drop (i.length - s.length)).reverse.length = s.reverse.length := by
    simp only [List.length_reverse, List.length_drop]; omega
  have h2 : List.zipWith (fun n k => if n = 1 then 0 else k) s.reverse ((i.drop (i.length - s.length)).reverse ++ (i.take (i.length - s.length)).reverse) =
      List.zipWith (fun n k => if n = 1 then 0 else k) s.reverse (i.drop (i.length - s.length)).reverse := by
    conv_lhs => rw [← List.append_nil s.reverse]
    rw [List.zipWith_append hl.symm, List.zipWith_nil_left, List.append_nil]
  rw [h2, List.reverse_zipWith hl.symm, List.reverse_reverse, List.reverse_reverse]
  rfl

theorem common_length : ∀ {s t u : List Nat}, common s t = some u → s.length ≤ u.length ∧ t.length ≤ u.length
  | [], t, u, h => by simp only [common] at h; cases h; simp
  | a :: s, [], u, h => by cases h; simp
  | a :: s, b :: t, u, h => by
    simp only [common] at h
    have key : ∀ c, (common s t).map (c :: ·) = some u → (a :: s).length ≤ u.length ∧ (b :: t).length ≤ u.length := by
      intro c h
      obtain ⟨v, hv, rfl⟩ := Option.map_eq_some_iff.1 h
      have := common_length hv
      simp only [List.length_cons]
      omega
    split at h
    · exact key a h
    · split at h
      · exact key b h
      · cases h

/-- An index of the joint shape points to an element of each array. -/
theorem toward_inShape {s t u i : List Nat} (h : common s.reverse t.reverse = some u) (hi : InShape (joint s t) i) :
    (Vectors.source s.reverse i.reverse).reverse = toward s i ∧ (Vectors.source t.reverse i.reverse).reverse = toward t i ∧
      InShape s (toward s i) ∧ InShape t (toward t i) := by
  rw [← common_eq h] at hi
  have hi' : List.Forall₂ (fun n k => k < n) u i.reverse := by
    have := List.rel_reverse hi
    rwa [List.reverse_reverse] at this
  obtain ⟨h1, h2⟩ := source_inShape h hi'
  have hl : i.length = u.length := by
    have := hi'.length_eq
    rw [List.length_reverse] at this
    exact this.symm
  obtain ⟨l1, l2⟩ := common_length h
  rw [List.length_reverse] at l1 l2
  have e1 := source_reverse (s := s) (i := i) (by omega)
  have e2 := source_reverse (s := t) (i := i) (by omega)
  have h1' := List.rel_reverse h1
  have h2' := List.rel_reverse h2
  rw [List.reverse_reverse, e1] at h1'
  rw [List.reverse_reverse, e2] at h2'
  exact ⟨e1, e2, h1', h2'⟩

/-- Shapes that fit are those numpy finds a common one for. -/
theorem common_fits : ∀ {s t : List Nat}, (∃ u, common s t = some u) ↔
    List.Forall₂ SideFits (s ++ List.replicate (t.length - s.length) 1) (t ++ List.replicate (s.length - t.length) 1)
  | [], t => by
    simp only [common, List.nil_append, List.length_nil, Nat.sub_zero, Nat.zero_sub, List.replicate_zero, List.append_nil, Option.some.injEq, exists_eq', true_iff]
    induction t with
    | nil => exact .nil
    | cons b t ih => exact .cons (.inr (.inl rfl)) ih
  | a :: s, [] => by
    have : ∀ s : List Nat, List.Forall₂ SideFits s (List.replicate s.length 1) := by
      intro s
      induction s with
      | nil => exact .nil
      | cons b t ih => exact .cons (.inr (.inr rfl)) ih
    simpa [common] using this (a :: s)
  | a :: s, b :: t => by
    simp only [List.cons_append, List.length_cons, Nat.add_sub_add_right, List.forall₂_cons, ← common_fits (s := s) (t := t), common, SideFits]
    by_cases h1 : a = b ∨ b = 1
    · rw [if_pos h1]
      constructor
      · rintro ⟨u, hu⟩
        obtain ⟨v, hv, -⟩ := Option.map_eq_some_iff.1 hu
        exact ⟨by tauto, v, hv⟩
      · rintro ⟨-, v, hv⟩
        exact ⟨_, by rw [hv]; rfl⟩
    · rw [if_neg h1]
      by_cases h2 : a = 1
      · rw [if_pos h2]
        constructor
        · rintro ⟨u, hu⟩
          obtain ⟨v, hv, -⟩ := Option.map_eq_some_iff.1 hu
          exact ⟨by tauto, v, hv⟩
        · rintro ⟨-, v, hv⟩
          exact ⟨_, by rw [hv]; rfl⟩
      · rw [if_neg h2]
        constructor
        · rintro ⟨u, hu⟩; cases hu
        · rintro ⟨h, -⟩; tauto

theorem fits_iff {s t : List Nat} : Fits s t ↔ ∃ u, common s.reverse t.reverse = some u := by
  rw [common_fits, ← List.forall₂_reverse_iff]
  unfold Fits
  have h1 := pad_reverse (max s.length t.length) s.reverse
  have h2 := pad_reverse (max s.length t.length) t.reverse
  rw [List.reverse_reverse] at h1 h2
  rw [h1, h2]
  simp only [List.length_reverse, show max s.length t.length - s.length = t.length - s.length by omega,
    show max s.length t.length - t.length = s.length - t.length by omega]

/-! ### Operations element by element -/

section
variable {A B : Type}

theorem mapM_getElem? {α β : Type} {f : α → Except Err β} {l : List α} {r : List β} (h : l.mapM f = .ok r) :
    r.length = l.length ∧ ∀ (k : Nat) (a : α), l[k]? = some a → ∃ b, r[k]? = some b ∧ f a = .ok b := by
  have h1 := mapM_hmaps h
  clear h
  induction h1 with
  | nil => exact ⟨rfl, by simp⟩
  | cons hab _ ih =>
    refine ⟨by simp [ih.1], fun k a ha => ?_⟩
    cases k with
    | zero => cases ha; exact ⟨_, rfl, hab⟩
    | succ k => exact ih.2 k a ha

theorem mapM_total {α β : Type} {f : α → Except Err β} : ∀ {l : List α}, (∀ a ∈ l, ∃ b, f a = .ok b) → ∃ r, l.mapM f = .ok r
  | [], _ => ⟨[], rfl⟩
  | a :: l, h => by
    obtain ⟨b, hb⟩ := h a (by simp)
    obtain ⟨r, hr⟩ := mapM_total (l := l) (fun x hx => h x (by simp [hx]))
    refine ⟨b :: r, ?_⟩
    rw [List.mapM_cons, hb]
    simp [bind, Except.bind, hr, pure, Except.pure]

/-- The elements of the result are the results for the elements that stand at the same index. -/
theorem both_ok {f : A → A → Except Err B} {a b : NArr A} {s : List Nat} {l : List B} (h : both f a b = .ok (s, l)) :
    Fits a.shape b.shape ∧ s = joint a.shape b.shape ∧ l.length = s.prod ∧ ∀ i, InShape s i →
      InShape a.shape (toward a.shape i) ∧ InShape b.shape (toward b.shape i) ∧
      ∃ x y z, a.elts[position a.shape (toward a.shape i)]? = some x ∧ b.elts[position b.shape (toward b.shape i)]? = some y ∧ f x y = .ok z ∧
        l[position s i]? = some z := by
  unfold both at h
  cases hc : common a.shape.reverse b.shape.reverse with
  | none => rw [hc] at h; cases h
  | some u =>
    rw [hc] at h
    dsimp only at h
    cases hm : (Vectors.indices u.reverse).mapM (fun i => pair f (a.pick i) (b.pick i)) with
    | error e => rw [hm] at h; cases h
    | ok r =>
      rw [hm] at h
      cases h
      have hu := common_eq hc
      rw [indices_eq] at hm
      obtain ⟨m1, m2⟩ := mapM_getElem? hm
      refine ⟨fits_iff.2 ⟨u, hc⟩, hu, by rw [m1, length_indices], fun i hi => ?_⟩
      obtain ⟨t1, t2, t3, t4⟩ := toward_inShape hc (hu ▸ hi)
      refine ⟨t3, t4, ?_⟩
      obtain ⟨z, hz, hf⟩ := m2 _ i (getElem?_position hi)
      unfold NArr.pick at hf
      rw [t1, t2] at hf
      cases hx : a.elts[position a.shape (toward a.shape i)]? with
      | none => rw [hx] at hf; cases hf
      | some x =>
        cases hy : b.elts[position b.shape (toward b.shape i)]? with
        | none => rw [hx, hy] at hf; cases hf
        | some y =>
          rw [hx, hy] at hf
          exact ⟨x, y, z, rfl, rfl, hf, hz⟩

/-- An operation succeeds exactly if the shapes fit and it succeeds for every pair of elements. -/
theorem both_total {f : A → A → Except Err B} {a b : NArr A} (hfit : Fits a.shape b.shape)
    (h : ∀ i, InShape (joint a.shape b.shape) i → ∃ x y z, a.elts[position a.shape (toward a.shape i)]? = some x ∧
      b.elts[position b.shape (toward b.shape i)]? = some y ∧ f x y = .ok z) : ∃ r, both f a b = .ok r := by
  obtain ⟨u, hc⟩ := fits_iff.1 hfit
  unfold both
  rw [hc]
  dsimp only
  have hu := common_eq hc
  obtain ⟨r, hr⟩ := mapM_total (f := fun i => pair f (a.pick i) (b.pick i)) (l := Vectors.indices u.reverse) (by
    intro i hi
    rw [indices_eq, mem_allIndices, hu] at hi
    obtain ⟨t1, t2, -, -⟩ := toward_inShape hc hi
    obtain ⟨x, y, z, hx, hy, hz⟩ := h i hi
    exact ⟨z, by unfold NArr.pick; rw [t1, t2, hx, hy]; exact hz⟩)
  rw [hr]
  exact ⟨_, rfl⟩

end
end Elementwise
end Verif
