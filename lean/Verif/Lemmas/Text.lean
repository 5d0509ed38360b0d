import Verif.Model.Text
import Mathlib.Data.List.Infix
import Mathlib.Data.List.TakeWhile
import Mathlib.Tactic.Push
import Mathlib.Tactic.Linarith

/-!
# Facts about strings
-/

set_option linter.unusedSectionVars false

namespace Verif
namespace Str

/-! ## `index` -/

theorem isPrefixOf_iff {p s : Str} : p.isPrefixOf s = true ↔ p <+: s := List.isPrefixOf_iff_prefix

/-- What `index` finds: the first occurrence. -/
theorem index?_some {p s : Str} {i : Nat} (h : index? p s = some i) :
    p <+: s.drop i ∧ i ≤ s.length ∧ ∀ j < i, ¬ p <+: s.drop j := by
  induction s generalizing i with
  | nil =>
    simp only [index?] at h
    split at h
    · rename_i h'
      cases h
      exact ⟨isPrefixOf_iff.1 h', le_refl _, by simp⟩
    · cases h
  | cons c s ih =>
    simp only [index?] at h
    split at h
    · rename_i h'
      cases h
      exact ⟨isPrefixOf_iff.1 h', Nat.zero_le _, by simp⟩
    · rename_i h'
      cases hi : index? p s with
      | none => simp [hi] at h
      | some a =>
        simp only [hi, Option.map_some, Option.some.injEq] at h
        subst h
        obtain ⟨h1, h2, h3⟩ := ih hi
        refine ⟨h1, Nat.succ_le_succ h2, fun j hj => ?_⟩
        cases j with
        | zero => exact fun hp => h' (isPrefixOf_iff.2 hp)
        | succ j => exact h3 j (Nat.lt_of_succ_lt_succ hj)

theorem index?_none {p s : Str} : index? p s = none ↔ ¬ p <:+: s := by
  induction s with
  | nil =>
    simp only [index?]
    split
    · rename_i h'
      simp only [reduceCtorEq, false_iff, not_not]
      exact (isPrefixOf_iff.1 h').isInfix
    · rename_i h'
      simp only [true_iff]
      intro h
      have : p = [] := List.eq_nil_of_infix_nil h
      exact h' (by simp [this])
  | cons c s ih =>
    simp only [index?]
    rw [List.infix_cons_iff]
    split
    · rename_i h'
      simp [isPrefixOf_iff.1 h']
    · rename_i h'
      have : ¬ p <+: c :: s := fun hp => h' (isPrefixOf_iff.2 hp)
      simp [this, ih]

/-- The index is determined by being the first. -/
theorem index?_eq {p s : Str} {i : Nat} (h : p <+: s.drop i) (hf : ∀ j < i, ¬ p <+: s.drop j) : index? p s = some i := by
  cases hx : index? p s with
  | none =>
    exact absurd (h.isInfix.trans (List.drop_suffix i s).isInfix) (index?_none.1 hx)
  | some a =>
    obtain ⟨h1, h2, h3⟩ := index?_some hx
    rcases Nat.lt_trichotomy a i with h' | h' | h'
    · exact absurd h1 (hf a h')
    · rw [h']
    · exact absurd h (h3 i h')

theorem index?_cons {p : Str} {c : Char} {s : Str} (h : ¬ p <+: c :: s) : index? p (c :: s) = (index? p s).map (· + 1) := by
  rw [index?, if_neg (fun hp => h (isPrefixOf_iff.1 hp))]

/-- Going through text in which the pattern does not start. -/
theorem index?_append {p a b : Str} (h : ∀ j < a.length, ¬ p <+: (a ++ b).drop j) :
    index? p (a ++ b) = (index? p b).map (· + a.length) := by
  induction a with
  | nil => simp
  | cons c a ih =>
    have h0 := h 0 (by simp)
    rw [List.cons_append, index?_cons (by simpa using h0), ih (fun j hj => by simpa using h (j + 1) (by simpa using hj))]
    cases index? p b <;> simp [Nat.add_assoc]

/-- A single character that is not there. -/
theorem index?_char {c : Char} {a b : Str} (h : c ∉ a) : index? [c] (a ++ c :: b) = some a.length := by
  rw [index?_append]
  · simp [index?, List.isPrefixOf]
  · intro j hj hp
    have h1 : ((a ++ c :: b).drop j)[0]? = some c := by
      obtain ⟨t, ht⟩ := hp
      rw [← ht]; simp
    rw [List.getElem?_drop, List.getElem?_append_left (by simpa using hj)] at h1
    exact h (List.mem_of_getElem? (by simpa using h1))

/-! ## `count` and `replace` -/

theorem countAux_drop (p : Str) : ∀ (n : Nat) (s : Str), countAux p n s = countAux p 0 (s.drop n)
  | 0, s => by simp
  | n + 1, [] => by simp [countAux]
  | n + 1, c :: s => by simp [countAux, countAux_drop p n s]

theorem replaceAux_drop (p r : Str) : ∀ (n : Nat) (s : Str), replaceAux p r n s = replaceAux p r 0 (s.drop n)
  | 0, s => by simp
  | n + 1, [] => by simp [replaceAux]
  | n + 1, c :: s => by simp [replaceAux, replaceAux_drop p r n s]

theorem count_none {p s : Str} (h : ¬ p <:+: s) : count p s = 0 := by
  unfold count
  induction s with
  | nil => rfl
  | cons c s ih =>
    rw [List.infix_cons_iff, not_or] at h
    rw [countAux, if_neg (fun hp => h.1 (isPrefixOf_iff.1 hp)), ih h.2]

theorem replace_none {p r s : Str} (h : ¬ p <:+: s) : replace p r s = s := by
  unfold replace
  induction s with
  | nil => rfl
  | cons c s ih =>
    rw [List.infix_cons_iff, not_or] at h
    rw [replaceAux, if_neg (fun hp => h.1 (isPrefixOf_iff.1 hp)), ih h.2]

theorem count_append {p a b : Str} (h : ∀ j < a.length, ¬ p <+: (a ++ b).drop j) : count p (a ++ b) = count p b := by
  unfold count
  induction a with
  | nil => rfl
  | cons c a ih =>
    have h0 : ¬ p <+: c :: (a ++ b) := by simpa using h 0 (by simp)
    rw [List.cons_append, countAux, if_neg (fun hp => h0 (isPrefixOf_iff.1 hp)),
      ih (fun j hj => by simpa using h (j + 1) (by simpa using hj))]

theorem replace_append {p r a b : Str} (h : ∀ j < a.length, ¬ p <+: (a ++ b).drop j) : replace p r (a ++ b) = a ++ replace p r b := by
  unfold replace
  induction a with
  | nil => rfl
  | cons c a ih =>
    have h0 : ¬ p <+: c :: (a ++ b) := by simpa using h 0 (by simp)
    rw [List.cons_append, replaceAux, if_neg (fun hp => h0 (isPrefixOf_iff.1 hp)),
      ih (fun j hj => by simpa using h (j + 1) (by simpa using hj))]
    rfl

theorem count_self {p b : Str} (hp : p ≠ []) : count p (p ++ b) = count p b + 1 := by
  unfold count
  cases p with
  | nil => exact absurd rfl hp
  | cons c p =>
    rw [List.cons_append, countAux, if_pos (isPrefixOf_iff.2 (by simp)), countAux_drop]
    simp

theorem replace_self {p r b : Str} (hp : p ≠ []) : replace p r (p ++ b) = r ++ replace p r b := by
  unfold replace
  cases p with
  | nil => exact absurd rfl hp
  | cons c p =>
    rw [List.cons_append, replaceAux, if_pos (isPrefixOf_iff.2 (by simp)), replaceAux_drop]
    simp

/-- A character outside the pattern separates occurrences. -/
theorem prefix_sep {p a b : Str} {c : Char} (hc : c ∉ p) {j : Nat} (hj : j ≤ a.length) :
    p <+: (a ++ c :: b).drop j ↔ p <+: a.drop j := by
  rw [List.drop_append_of_le_length hj]
  constructor
  · intro h
    rcases Nat.lt_or_ge (a.drop j).length p.length with hl | hl
    · exfalso
      obtain ⟨t, ht⟩ := h
      have h1 : (p ++ t)[(a.drop j).length]? = some c := by rw [ht]; simp
      rw [List.getElem?_append_left hl] at h1
      exact hc (List.mem_of_getElem? h1)
    · exact List.prefix_of_prefix_length_le h (List.prefix_append _ _) hl
  · intro h
    exact h.trans (List.prefix_append _ _)

theorem infix_drop {p s : Str} {j : Nat} (h : p <+: s.drop j) : p <:+: s := h.isInfix.trans (List.drop_suffix j s).isInfix

theorem infix_iff_drop {p s : Str} : p <:+: s ↔ ∃ j ≤ s.length, p <+: s.drop j := by
  constructor
  · rintro ⟨a, b, h⟩
    refine ⟨a.length, by rw [← h]; simp, ?_⟩
    rw [← h]
    simp
  · rintro ⟨j, -, h⟩
    exact infix_drop h

theorem infix_sep {p a b : Str} {c : Char} (hc : c ∉ p) : p <:+: a ++ c :: b ↔ p <:+: a ∨ p <:+: b := by
  constructor
  · intro h
    obtain ⟨j, hj, h⟩ := infix_iff_drop.1 h
    rcases Nat.lt_or_ge a.length j with hl | hl
    · right
      have : (a ++ c :: b).drop j = b.drop (j - a.length - 1) := by
        rw [List.drop_append, List.drop_eq_nil_of_le hl.le]
        obtain ⟨m, hm⟩ : ∃ m, j - a.length = m + 1 := ⟨j - a.length - 1, by omega⟩
        rw [hm]; simp
      rw [this] at h
      exact infix_drop h
    · exact Or.inl (infix_drop ((prefix_sep hc hl).1 h))
  · rintro (h | h)
    · exact h.trans (List.prefix_append _ _).isInfix
    · exact h.trans ((List.suffix_cons c b).trans (List.suffix_append a _)).isInfix

theorem not_prefix_sep {p b : Str} {c : Char} (hc : c ∉ p) (hp : p ≠ []) : ¬ p <+: c :: b := by
  intro h
  cases p with
  | nil => exact hp rfl
  | cons d p =>
    obtain ⟨t, ht⟩ := h
    simp only [List.cons_append, List.cons.injEq] at ht
    exact hc (by simp [ht.1])

/-- Text before a separator without the pattern. -/
theorem no_start {p a b : Str} {c : Char} (hc : c ∉ p) (h : ¬ p <:+: a) :
    ∀ j < (a ++ [c]).length, ¬ p <+: ((a ++ [c]) ++ b).drop j := by
  intro j hj hpre
  simp only [List.length_append, List.length_singleton] at hj
  rw [List.append_assoc, List.singleton_append, prefix_sep hc (by omega)] at hpre
  exact h (infix_drop hpre)

theorem index?_sep {p a b : Str} {c : Char} (hc : c ∉ p) (h : ¬ p <:+: a) :
    index? p (a ++ c :: b) = (index? p b).map (· + (a.length + 1)) := by
  have := index?_append (no_start (b := b) hc h)
  simpa using this

theorem count_sep {p : Str} {c : Char} (hc : c ∉ p) (hp : p ≠ []) (a b : Str) : count p (a ++ c :: b) = count p a + count p b := by
  have key : ∀ (n : Nat) (a : Str), a.length ≤ n → count p (a ++ c :: b) = count p a + count p b := by
    intro n
    induction n with
    | zero =>
      intro a ha
      have : a = [] := List.length_eq_zero_iff.1 (by omega)
      subst this
      have h1 := count_append (p := p) (a := [c]) (b := b) (by
        intro j hj
        have : j = 0 := by simpa using hj
        subst this
        simpa using not_prefix_sep hc hp)
      simpa [count, countAux] using h1
    | succ n ih =>
      intro a ha
      cases hi : index? p a with
      | none =>
        have h := index?_none.1 hi
        have h1 := count_append (no_start (b := b) hc h)
        rw [count_none h]
        simpa using h1
      | some i =>
        obtain ⟨⟨t, ht⟩, h2, h3⟩ := index?_some hi
        have hl : t.length ≤ n := by
          have := congrArg List.length ht
          have hp' := List.length_pos_of_ne_nil hp
          simp at this; omega
        have ea : a = a.take i ++ (p ++ t) := by rw [ht]; simp
        have hlen : (a.take i).length = i := by simp [h2]
        have e1 : count p a = count p t + 1 := by
          conv_lhs => rw [ea]
          rw [count_append, count_self hp]
          intro j hj
          rw [← ea]
          exact h3 j (by omega)
        have e2 : count p (a ++ c :: b) = count p (t ++ c :: b) + 1 := by
          conv_lhs => rw [ea]
          rw [List.append_assoc, count_append, List.append_assoc, count_self hp]
          intro j hj
          rw [← List.append_assoc, ← ea, prefix_sep hc (by omega)]
          exact h3 j (by omega)
        rw [e1, e2, ih t hl]
        omega
  exact key a.length a (le_refl _)

theorem replace_sep {p r : Str} {c : Char} (hc : c ∉ p) (hp : p ≠ []) (a b : Str) :
    replace p r (a ++ c :: b) = replace p r a ++ c :: replace p r b := by
  have key : ∀ (n : Nat) (a : Str), a.length ≤ n → replace p r (a ++ c :: b) = replace p r a ++ c :: replace p r b := by
    intro n
    induction n with
    | zero =>
      intro a ha
      have : a = [] := List.length_eq_zero_iff.1 (by omega)
      subst this
      have h1 := replace_append (p := p) (r := r) (a := [c]) (b := b) (by
        intro j hj
        have : j = 0 := by simpa using hj
        subst this
        simpa using not_prefix_sep hc hp)
      simpa [replace, replaceAux] using h1
    | succ n ih =>
      intro a ha
      cases hi : index? p a with
      | none =>
        have h := index?_none.1 hi
        have h1 := replace_append (r := r) (no_start (b := b) hc h)
        rw [replace_none h]
        simpa using h1
      | some i =>
        obtain ⟨⟨t, ht⟩, h2, h3⟩ := index?_some hi
        have hl : t.length ≤ n := by
          have := congrArg List.length ht
          have hp' := List.length_pos_of_ne_nil hp
          simp at this; omega
        have ea : a = a.take i ++ (p ++ t) := by rw [ht]; simp
        have hlen : (a.take i).length = i := by simp [h2]
        have e1 : replace p r a = a.take i ++ (r ++ replace p r t) := by
          conv_lhs => rw [ea]
          rw [replace_append, replace_self hp]
          intro j hj
          rw [← ea]
          exact h3 j (by omega)
        have e2 : replace p r (a ++ c :: b) = a.take i ++ (r ++ replace p r (t ++ c :: b)) := by
          conv_lhs => rw [ea]
          rw [List.append_assoc, replace_append, List.append_assoc, replace_self hp]
          intro j hj
          rw [← List.append_assoc, ← ea, prefix_sep hc (by omega)]
          exact h3 j (by omega)
        rw [e1, e2, ih t hl]
        simp
  exact key a.length a (le_refl _)

/-! ## Lines -/

theorem lines_ne_nil (s : Str) : lines s ≠ [] := by
  cases s with
  | nil => simp [lines]
  | cons c s =>
    rw [lines]
    split
    · simp
    · split <;> simp

theorem lines_plain {s : Str} (h : '\n' ∉ s) : lines s = [s] := by
  induction s with
  | nil => rfl
  | cons c s ih =>
    simp only [List.mem_cons, not_or] at h
    rw [lines, if_neg (Ne.symm h.1), ih h.2]

theorem lines_append {a b : Str} (h : '\n' ∉ a) : lines (a ++ '\n' :: b) = a :: lines b := by
  induction a with
  | nil => simp [lines]
  | cons c a ih =>
    simp only [List.mem_cons, not_or] at h
    rw [List.cons_append, lines, if_neg (Ne.symm h.1), ih h.2]

theorem lines_unlines : ∀ {ls : List Str}, ls ≠ [] → (∀ l ∈ ls, '\n' ∉ l) → lines (unlines ls) = ls
  | [], h, _ => absurd rfl h
  | [l], _, h => by simp [unlines, lines_plain (h l (by simp))]
  | l :: m :: ls, _, h => by
    rw [unlines, lines_append (h l (by simp)), lines_unlines (by simp) (fun x hx => h x (List.mem_cons_of_mem _ hx))]
    simp

theorem unlines_lines (s : Str) : unlines (lines s) = s := by
  induction s with
  | nil => rfl
  | cons c s ih =>
    rw [lines]
    have hne := lines_ne_nil s
    split
    · rename_i hc
      cases hs : lines s with
      | nil => exact absurd hs hne
      | cons l ls => rw [hs] at ih; simp [unlines, ih, hc]
    · cases hs : lines s with
      | nil => exact absurd hs hne
      | cons l ls =>
        rw [hs] at ih
        rw [← ih]
        cases ls <;> simp [unlines]

theorem lines_no_newline (s : Str) : ∀ l ∈ lines s, '\n' ∉ l := by
  induction s with
  | nil => simp [lines]
  | cons c s ih =>
    rw [lines]
    split
    · intro l hl
      simp only [List.mem_cons] at hl
      rcases hl with rfl | hl
      · simp
      · exact ih l hl
    · rename_i hc
      cases hs : lines s with
      | nil => exact absurd hs (lines_ne_nil s)
      | cons m ms =>
        intro l hl
        simp only [List.mem_cons] at hl
        rcases hl with rfl | hl
        · simp only [List.mem_cons, not_or]
          exact ⟨Ne.symm hc, ih m (by simp [hs])⟩
        · exact ih l (by simp [hs, hl])

theorem unlines_cons {l : Str} {ls : List Str} (h : ls ≠ []) : unlines (l :: ls) = l ++ '\n' :: unlines ls := by
  cases ls with
  | nil => exact absurd rfl h
  | cons => rfl

theorem count_newline_plain {s : Str} (h : '\n' ∉ s) : count ['\n'] s = 0 :=
  count_none (fun hi => h (hi.subset (by simp)))

theorem count_newline (a b : Str) : count ['\n'] (a ++ '\n' :: b) = count ['\n'] a + count ['\n'] b + 1 := by
  induction a with
  | nil => simp [count, countAux, List.isPrefixOf]
  | cons c a ih =>
    by_cases hc : c = '\n'
    · subst hc
      have e : ∀ x, count ['\n'] ('\n' :: x) = count ['\n'] x + 1 := fun x => count_self (p := ['\n']) (by simp)
      rw [List.cons_append, e, e, ih]
      omega
    · have e : ∀ x, count ['\n'] (c :: x) = count ['\n'] x := fun x => by
        simp [count, countAux, List.isPrefixOf, Ne.symm hc]
      rw [List.cons_append, e, e, ih]

/-- The line on which the first occurrence of a text without newlines starts. -/
theorem line_of_index {l : Str} (hl : '\n' ∉ l) (hne : l ≠ []) : ∀ {L : List Str}, L ≠ [] → (∀ m ∈ L, '\n' ∉ m) → ∀ {i : Nat} {x : Str}, L[i]? = some x →
    l <:+: x → (∀ j < i, ∀ y, L[j]? = some y → ¬ l <:+: y) →
    ∃ n, index? l (unlines L) = some n ∧ count ['\n'] ((unlines L).take n) = i
  | [], h, _, _, _, _, _, _ => absurd rfl h
  | [m], _, hm, i, x, hx, hin, _ => by
    cases i with
    | succ i => simp at hx
    | zero =>
      simp only [List.getElem?_cons_zero, Option.some.injEq] at hx
      subst hx
      cases hi : index? l m with
      | none => exact absurd hin (index?_none.1 hi)
      | some n =>
        refine ⟨n, by simpa [unlines] using hi, ?_⟩
        apply count_newline_plain
        intro hmem
        exact hm m (by simp) (List.mem_of_mem_take (by simpa [unlines] using hmem))
  | m :: m' :: L, _, hm, i, x, hx, hin, hf => by
    cases i with
    | zero =>
      simp only [List.getElem?_cons_zero, Option.some.injEq] at hx
      subst hx
      cases hi : index? l m with
      | none => exact absurd hin (index?_none.1 hi)
      | some n =>
        obtain ⟨h1, h2, h3⟩ := index?_some hi
        refine ⟨n, ?_, ?_⟩
        · rw [unlines_cons (by simp)]
          refine index?_eq ?_ (fun j hj => ?_)
          · rw [prefix_sep hl h2]; exact h1
          · rw [prefix_sep hl (by omega)]; exact h3 j hj
        · apply count_newline_plain
          rw [unlines_cons (by simp), List.take_append_of_le_length h2]
          intro hmem
          exact hm m (by simp) (List.mem_of_mem_take hmem)
    | succ i =>
      have h0 : ¬ l <:+: m := hf 0 (by omega) m (by simp)
      obtain ⟨n, hn1, hn2⟩ := line_of_index hl hne (L := m' :: L) (by simp) (fun y hy => hm y (List.mem_cons_of_mem _ hy))
        (i := i) (x := x) (by simpa using hx) hin (fun j hj y hy => hf (j + 1) (by omega) y (by simpa using hy))
      refine ⟨n + (m.length + 1), ?_, ?_⟩
      · rw [unlines, index?_sep hl h0, hn1]
        · rfl
        · simp
      · rw [unlines]
        · have e : (m ++ '\n' :: unlines (m' :: L)).take (n + (m.length + 1)) = m ++ '\n' :: (unlines (m' :: L)).take n := by
            rw [List.take_append, List.take_of_length_le (by omega)]
            have : n + (m.length + 1) - m.length = n + 1 := by omega
            rw [this]
            rfl
          rw [e, count_newline, hn2, count_newline_plain (hm m (by simp))]
          omega
        · simp

theorem replace_lines {p r : Str} (hp : p ≠ []) (hn : '\n' ∉ p) (hr : '\n' ∉ r) (s : Str) :
    lines (replace p r s) = (lines s).map (replace p r) := by
  have nr : ∀ {x : Str}, '\n' ∉ x → '\n' ∉ replace p r x := by
    intro x
    unfold replace
    have : ∀ (n : Nat) (x : Str), '\n' ∉ x → '\n' ∉ replaceAux p r n x := by
      intro n x
      induction x generalizing n with
      | nil => cases n <;> simp [replaceAux]
      | cons c x ih =>
        intro hx
        simp only [List.mem_cons, not_or] at hx
        cases n with
        | zero =>
          rw [replaceAux]
          split
          · simp only [List.mem_append, not_or]
            exact ⟨hr, ih _ hx.2⟩
          · simp only [List.mem_cons, not_or]
            exact ⟨hx.1, ih _ hx.2⟩
        | succ n => exact ih _ hx.2
    exact this 0 x
  have key : ∀ L : List Str, L ≠ [] → (∀ l ∈ L, '\n' ∉ l) → lines (replace p r (unlines L)) = L.map (replace p r) := by
    intro L
    induction L with
    | nil => intro h; exact absurd rfl h
    | cons l L ih =>
      intro _ h
      cases L with
      | nil => simp [unlines, lines_plain (nr (h l (by simp)))]
      | cons m L =>
        rw [unlines, replace_sep hn hp, lines_append (nr (h l (by simp))), ih (by simp) (fun x hx => h x (List.mem_cons_of_mem _ hx))]
        · rfl
        · simp
  have := key (lines s) (lines_ne_nil s) (lines_no_newline s)
  rwa [unlines_lines] at this

theorem mem_strip {ws : Char → Bool} {s : Str} {c : Char} (h : c ∈ strip ws s) : c ∈ s := by
  unfold strip at h
  rw [List.mem_reverse] at h
  have := (List.dropWhile_suffix ws).subset h
  rw [List.mem_reverse] at this
  exact (List.dropWhile_suffix ws).subset this

theorem strip_eq_nil {ws : Char → Bool} {s : Str} : strip ws s = [] ↔ ∀ c ∈ s, ws c = true := by
  unfold strip
  rw [List.reverse_eq_nil_iff, List.dropWhile_eq_nil_iff]
  constructor
  · intro h
    have : s.dropWhile ws = [] := by
      by_contra hne
      have h1 := List.head_dropWhile_not ws hne
      have h2 := h _ (List.mem_reverse.2 (List.head_mem hne))
      rw [h2] at h1
      cases h1
    exact fun c hc => (List.dropWhile_eq_nil_iff.1 this) c hc
  · intro h c hc
    exact h c ((List.dropWhile_suffix ws).subset (List.mem_reverse.1 hc))

/-! ## Words -/

theorem words_blank {ws : Char → Bool} {s : Str} (h : ∀ c ∈ s, ws c = true) : words ws s = [] := by
  induction s with
  | nil => rfl
  | cons c s ih => rw [words, if_pos (h c (by simp)), ih (fun d hd => h d (by simp [hd]))]

theorem words_skip {ws : Char → Bool} {a s : Str} (h : ∀ c ∈ a, ws c = true) : words ws (a ++ s) = words ws s := by
  induction a with
  | nil => rfl
  | cons c a ih => rw [List.cons_append, words, if_pos (h c (by simp)), ih (fun d hd => h d (by simp [hd]))]

/-- A word followed by the end or by whitespace. -/
theorem words_word {ws : Char → Bool} {w s : Str} (hw : w ≠ []) (h : ∀ c ∈ w, ws c = false) (hs : ∀ c, s.head? = some c → ws c = true) :
    words ws (w ++ s) = w :: words ws s := by
  induction w with
  | nil => exact absurd rfl hw
  | cons c w ih =>
    have hc := h c (by simp)
    cases w with
    | nil =>
      rw [List.singleton_append, words, if_neg (by simp [hc])]
      cases s with
      | nil => rfl
      | cons d s => simp [hs d (by simp)]
    | cons d w =>
      have hd := h d (by simp)
      rw [List.cons_append, words, if_neg (by simp [hc])]
      have e := ih (by simp) (fun x hx => h x (List.mem_cons_of_mem _ hx))
      simp only [List.cons_append] at e ⊢
      simp [hd, e]

end Str
end Verif
