import Verif.Model.PyDict
import Mathlib.Algebra.BigOperators.Group.List.Basic
import Mathlib.Data.List.Perm.Basic
import Mathlib.Tactic.Ring

/-! Lemmas about `PyDict`. -/

set_option linter.unusedSectionVars false

namespace Verif
namespace PyDict

variable {α β : Type _} [BEq α]

@[simp] theorem get?_nil (k : α) : get? ([] : PyDict α β) k = none := rfl
@[simp] theorem set_nil (k : α) (v : β) : set ([] : PyDict α β) k v = [(k, v)] := rfl
@[simp] theorem del_nil (k : α) : del ([] : PyDict α β) k = [] := rfl
@[simp] theorem wf_nil : WF ([] : PyDict α β) := List.Pairwise.nil

theorem get?_cons (k : α) (v : β) (d : PyDict α β) (q : α) :
    get? ((k, v) :: d) q = if k == q then some v else get? d q := rfl

theorem set_cons (k' : α) (v' : β) (d : PyDict α β) (k : α) (v : β) :
    set ((k', v') :: d) k v = if k' == k then (k', v) :: d else (k', v') :: set d k v := rfl

theorem del_cons (k' : α) (v' : β) (d : PyDict α β) (k : α) :
    del ((k', v') :: d) k = if k' == k then d else (k', v') :: del d k := rfl

theorem wf_cons {p : α × β} {d : PyDict α β} :
    WF (p :: d) ↔ (∀ b ∈ d, (p.1 == b.1) = false) ∧ WF d := List.pairwise_cons

theorem contains_iff {d : PyDict α β} {k : α} : contains d k = true ↔ ∃ v, get? d k = some v := by
  simp [contains, Option.isSome_iff_exists]

theorem contains_eq_false {d : PyDict α β} {k : α} : contains d k = false ↔ get? d k = none := by
  simp [contains]

theorem get?_eq_none_iff {d : PyDict α β} {k : α} :
    get? d k = none ↔ ∀ p ∈ d, (p.1 == k) = false := by
  induction d with
  | nil => simp
  | cons p d ih =>
    obtain ⟨k', v'⟩ := p
    rw [get?_cons]
    by_cases h : k' == k <;> simp [h, ih]

theorem exists_mem_of_get? {d : PyDict α β} {k : α} {v : β} (h : get? d k = some v) :
    ∃ k', (k', v) ∈ d ∧ (k' == k) = true := by
  induction d with
  | nil => simp at h
  | cons p d ih =>
    obtain ⟨k', v'⟩ := p
    rw [get?_cons] at h
    by_cases hk : k' == k
    · simp [hk] at h; subst h; exact ⟨k', by simp, hk⟩
    · simp [hk] at h
      obtain ⟨k'', h1, h2⟩ := ih h
      exact ⟨k'', List.mem_cons_of_mem _ h1, h2⟩

section Equiv
variable [EquivBEq α]

theorem beq_congr_right {a b c : α} (h : (b == c) = true) : (a == b) = (a == c) := by
  by_cases hb : a == b
  · rw [hb, BEq.trans hb h]
  · by_cases hc : a == c
    · exact absurd (BEq.trans hc (BEq.symm h)) hb
    · simp only [Bool.not_eq_true] at hb hc; rw [hb, hc]

theorem beq_congr_left {a b c : α} (h : (a == b) = true) : (a == c) = (b == c) := by
  rw [BEq.comm (a := a), BEq.comm (a := b)]; exact beq_congr_right h

theorem get?_congr (d : PyDict α β) {k k' : α} (h : (k == k') = true) : get? d k = get? d k' := by
  induction d with
  | nil => rfl
  | cons p d ih => obtain ⟨a, v⟩ := p; rw [get?_cons, get?_cons, beq_congr_right h, ih]

theorem contains_congr (d : PyDict α β) {k k' : α} (h : (k == k') = true) :
    contains d k = contains d k' := by simp [contains, get?_congr d h]

theorem del_congr (d : PyDict α β) {k k' : α} (h : (k == k') = true) : del d k = del d k' := by
  induction d with
  | nil => rfl
  | cons p d ih => obtain ⟨a, v⟩ := p; rw [del_cons, del_cons, beq_congr_right h, ih]

theorem get?_set (d : PyDict α β) (k q : α) (v : β) :
    get? (set d k v) q = if k == q then some v else get? d q := by
  induction d with
  | nil => rfl
  | cons p d ih =>
    obtain ⟨a, w⟩ := p
    rw [set_cons]
    by_cases h : a == k
    · rw [if_pos h, get?_cons, get?_cons, beq_congr_left h]
      by_cases h2 : k == q <;> simp [h2]
    · rw [if_neg h, get?_cons, get?_cons, ih]
      by_cases h2 : a == q
      · by_cases h3 : k == q
        · exact absurd (BEq.trans h2 (BEq.symm h3)) h
        · simp [h2, h3]
      · simp [h2]

theorem get?_set_self (d : PyDict α β) (k : α) (v : β) : get? (set d k v) k = some v := by
  rw [get?_set, if_pos BEq.rfl]

theorem keys_beq_of_mem_set {d : PyDict α β} {k : α} {v : β} {p : α × β} (h : p ∈ set d k v) :
    (p.1 == k) = true ∧ p.2 = v ∨ p ∈ d := by
  induction d with
  | nil => simp at h; left; subst h; exact ⟨BEq.rfl, rfl⟩
  | cons a d ih =>
    obtain ⟨k', v'⟩ := a
    rw [set_cons] at h
    by_cases hk : k' == k
    · rw [if_pos hk] at h
      rcases List.mem_cons.1 h with h | h
      · subst h; left; exact ⟨hk, rfl⟩
      · right; exact List.mem_cons_of_mem _ h
    · rw [if_neg hk] at h
      rcases List.mem_cons.1 h with h | h
      · right; rw [h]; exact List.mem_cons_self
      · rcases ih h with h | h
        · left; exact h
        · right; exact List.mem_cons_of_mem _ h

theorem wf_set {d : PyDict α β} (h : WF d) (k : α) (v : β) : WF (set d k v) := by
  induction d with
  | nil => simp [WF]
  | cons p d ih =>
    obtain ⟨a, w⟩ := p
    obtain ⟨h1, h2⟩ := wf_cons.1 h
    rw [set_cons]
    by_cases hk : a == k
    · rw [if_pos hk]; exact wf_cons.2 ⟨h1, h2⟩
    · rw [if_neg hk]
      refine wf_cons.2 ⟨?_, ih h2⟩
      intro b hb
      rcases keys_beq_of_mem_set hb with ⟨hb, _⟩ | hb
      · show (a == b.1) = false
        rw [beq_congr_right hb]; simpa using hk
      · exact h1 b hb

theorem del_sublist (d : PyDict α β) (k : α) : (del d k).Sublist d := by
  induction d with
  | nil => simp
  | cons p d ih =>
    obtain ⟨a, w⟩ := p
    rw [del_cons]
    by_cases hk : a == k
    · rw [if_pos hk]; exact List.sublist_cons_self _ _
    · rw [if_neg hk]; exact ih.cons_cons _

theorem wf_del {d : PyDict α β} (h : WF d) (k : α) : WF (del d k) :=
  List.Pairwise.sublist (del_sublist d k) h

theorem get?_del {d : PyDict α β} (h : WF d) (k q : α) :
    get? (del d k) q = if k == q then none else get? d q := by
  induction d with
  | nil => simp
  | cons p d ih =>
    obtain ⟨a, w⟩ := p
    obtain ⟨h1, h2⟩ := wf_cons.1 h
    rw [del_cons]
    by_cases hk : a == k
    · rw [if_pos hk, get?_cons, beq_congr_left hk]
      by_cases hq : k == q
      · simp only [hq, if_true]
        rw [get?_eq_none_iff]
        intro b hb
        have := h1 b hb
        rw [BEq.comm]
        rw [← beq_congr_left (BEq.trans hk hq)]; exact this
      · simp [hq]
    · rw [if_neg hk, get?_cons, get?_cons, ih h2]
      by_cases hq : a == q
      · by_cases hkq : k == q
        · exact absurd (BEq.trans hq (BEq.symm hkq)) hk
        · simp [hq, hkq]
      · simp [hq]

theorem get?_of_mem {d : PyDict α β} (h : WF d) {k : α} {v : β} (hm : (k, v) ∈ d) :
    get? d k = some v := by
  induction d with
  | nil => simp at hm
  | cons p d ih =>
    obtain ⟨a, w⟩ := p
    obtain ⟨h1, h2⟩ := wf_cons.1 h
    rw [get?_cons]
    rcases List.mem_cons.1 hm with hm | hm
    · cases hm; simp
    · have := h1 _ hm
      simp only at this
      rw [this]; simpa using ih h2 hm

theorem set_of_not_contains {d : PyDict α β} {k : α} (h : get? d k = none) (v : β) :
    set d k v = d ++ [(k, v)] := by
  induction d with
  | nil => rfl
  | cons p d ih =>
    obtain ⟨a, w⟩ := p
    rw [get?_cons] at h
    by_cases hk : a == k
    · simp [hk] at h
    · simp [hk] at h
      rw [set_cons, if_neg hk, ih h]; rfl

theorem del_of_not_contains {d : PyDict α β} {k : α} (h : get? d k = none) : del d k = d := by
  induction d with
  | nil => rfl
  | cons p d ih =>
    obtain ⟨a, w⟩ := p
    rw [get?_cons] at h
    by_cases hk : a == k
    · simp [hk] at h
    · simp [hk] at h
      rw [del_cons, if_neg hk, ih h]

end Equiv

/-! ### Weighted sums over items -/

section Sum
variable {K : Type _} [CommRing K]

/-- Sum of `c * f key` over the items. -/
def wsum (f : α → K) (d : PyDict α K) : K := (d.map (fun p => p.2 * f p.1)).sum

omit [BEq α] in
@[simp] theorem wsum_nil (f : α → K) : wsum f [] = 0 := rfl
omit [BEq α] in
@[simp] theorem wsum_cons (f : α → K) (p : α × K) (d : PyDict α K) :
    wsum f (p :: d) = p.2 * f p.1 + wsum f d := by simp [wsum]
omit [BEq α] in
@[simp] theorem wsum_append (f : α → K) (d e : PyDict α K) :
    wsum f (d ++ e) = wsum f d + wsum f e := by simp [wsum]

/-- `f` takes the same value on equal keys. -/
def Respects (f : α → K) : Prop := ∀ a b : α, (a == b) = true → f a = f b

theorem wsum_set {f : α → K} (hf : Respects f) (d : PyDict α K) (k : α) (v : K) :
    wsum f (set d k v) = wsum f d - (get? d k).getD 0 * f k + v * f k := by
  induction d with
  | nil => simp
  | cons p d ih =>
    obtain ⟨a, w⟩ := p
    rw [set_cons, get?_cons]
    by_cases hk : a == k
    · rw [if_pos hk, if_pos hk]; simp [hf a k hk]; ring
    · rw [if_neg hk, if_neg hk, wsum_cons, wsum_cons, ih]; ring

theorem wsum_del {f : α → K} (hf : Respects f) (d : PyDict α K) (k : α) :
    wsum f (del d k) = wsum f d - (get? d k).getD 0 * f k := by
  induction d with
  | nil => simp
  | cons p d ih =>
    obtain ⟨a, w⟩ := p
    rw [del_cons, get?_cons]
    by_cases hk : a == k
    · rw [if_pos hk, if_pos hk]; simp [hf a k hk]
    · rw [if_neg hk, if_neg hk, wsum_cons, wsum_cons, ih]; ring

end Sum
end PyDict
end Verif
