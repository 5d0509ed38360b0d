import Verif.Lemmas.DocSections

/-!
# Where declarations are written
-/

set_option linter.unusedSectionVars false

namespace Verif
namespace Docstring
open Str

variable {ws : Char → Bool}

theorem nonblank_iff {l : Str} : decide (strip ws l ≠ []) = true ↔ Nonblank ws l := by
  rw [decide_eq_true_iff, ne_eq, strip_eq_nil, Nonblank]
  push Not
  simp

theorem mem_takeWhile_zipIdx {q : Str → Bool} : ∀ (M : List Str) (c p : Nat) (x : Str), (x, p) ∈ (M.takeWhile q).zipIdx c ↔
    ∃ m, p = c + m ∧ M[m]? = some x ∧ ∀ m' ≤ m, ∃ l : Str, M[m']? = some l ∧ q l = true
  | [], c, p, x => by simp
  | y :: M, c, p, x => by
    have ih := mem_takeWhile_zipIdx (q := q) M (c + 1) p x
    rw [List.takeWhile_cons]
    by_cases hy : q y = true
    · rw [if_pos hy, List.zipIdx_cons, List.mem_cons, ih]
      constructor
      · rintro (h | ⟨m, rfl, hx, hm⟩)
        · cases h
          exact ⟨0, rfl, rfl, fun m' hm' => ⟨_, by have : m' = 0 := by omega
                                                   subst this; rfl, hy⟩⟩
        · refine ⟨m + 1, by omega, by simpa using hx, fun m' hm' => ?_⟩
          cases m' with
          | zero => exact ⟨y, rfl, hy⟩
          | succ m' => simpa using hm m' (by omega)
      · rintro ⟨m, rfl, hx, hm⟩
        cases m with
        | zero =>
          left
          simp at hx
          simp [hx]
        | succ m =>
          right
          exact ⟨m, by omega, by simpa using hx, fun m' hm' => by simpa using hm (m' + 1) (by omega)⟩
    · rw [if_neg hy]
      simp only [List.zipIdx_nil, List.not_mem_nil, false_iff]
      rintro ⟨m, rfl, hx, hm⟩
      obtain ⟨l, hl, hql⟩ := hm 0 (by omega)
      simp at hl
      subst hl
      exact hy hql

theorem heading_zero {k : Kind} {l : Str} {L : List Str} : Heading k (l :: L) 0 ↔ hd k l = true ∧ L ≠ [] := by
  unfold Heading
  have : (0 + 1 < (l :: L).length) ↔ L ≠ [] := by
    cases L <;> simp
  rw [this]
  cases k with
  | constants => simp [hd, and_comm]
  | scalars => simp [hd, and_comm]
  | vectors =>
    rw [hd_vectors]
    constructor
    · rintro ⟨h, x, hx, hin⟩
      have : l = x := by simpa using hx
      subst this
      refine ⟨?_, h⟩
      rw [Option.isSome_iff_ne_none, ne_eq, index?_none, not_not]
      exact hin
    · rintro ⟨h, h'⟩
      refine ⟨h', l, rfl, ?_⟩
      rwa [Option.isSome_iff_ne_none, ne_eq, index?_none, not_not] at h

theorem heading_succ {k : Kind} {l : Str} {L : List Str} {j : Nat} : Heading k (l :: L) (j + 1) ↔ Heading k L j := by
  simp [Heading]

theorem declares_succ {k : Kind} {l : Str} {L : List Str} {j i : Nat} : Declares ws k (l :: L) (j + 1) (i + 1) ↔ Declares ws k L j i := by
  unfold Declares
  rw [heading_succ]
  constructor
  · rintro ⟨h1, h2, h3⟩
    refine ⟨h1, by omega, fun m hm hm' => ?_⟩
    simpa using h3 (m + 1) (by omega) (by omega)
  · rintro ⟨h1, h2, h3⟩
    refine ⟨h1, by omega, fun m hm hm' => ?_⟩
    cases m with
    | zero => omega
    | succ m => simpa using h3 m (by omega) (by omega)

theorem declares_zero {k : Kind} {l : Str} {L : List Str} {i : Nat} : Declares ws k (l :: L) 0 i ↔
    (hd k l = true ∧ L ≠ []) ∧ ∃ m, i = m + 2 ∧ ∀ m' ≤ m, ∃ x : Str, (L.drop 1)[m']? = some x ∧ Nonblank ws x := by
  unfold Declares
  rw [heading_zero]
  refine and_congr_right (fun _ => ?_)
  constructor
  · rintro ⟨h2, h3⟩
    refine ⟨i - 2, by omega, fun m' hm' => ?_⟩
    have := h3 (m' + 2) (by omega) (by omega)
    simpa [Nat.add_comm] using this
  · rintro ⟨m, rfl, h⟩
    refine ⟨by omega, fun m' h1 h2 => ?_⟩
    obtain ⟨a, rfl⟩ : ∃ a, m' = a + 2 := ⟨m' - 2, by omega⟩
    have := h a (by omega)
    simpa [Nat.add_comm] using this

/-- The lines collected are those declared. -/
theorem mem_secs {k : Kind} : ∀ (L : List Str) (c p : Nat) (n x : Str), (n, p, x) ∈ secs ws k c L ↔
    ∃ j i, p = c + i ∧ Declares ws k L j i ∧ L[i]? = some x ∧ ∃ h : Str, L[j]? = some h ∧ n = lenText ws k h
  | [], c, p, n, x => by simp [secs]
  | l :: L, c, p, n, x => by
    have ih := mem_secs (k := k) L (c + 1) p n x
    rw [secs, List.mem_append, ih]
    have hsect : (n, p, x) ∈ (if hd k l = true ∧ L ≠ [] then sect ws k c l L else []) ↔
        ∃ i, p = c + i ∧ Declares ws k (l :: L) 0 i ∧ (l :: L)[i]? = some x ∧ n = lenText ws k l := by
      by_cases hh : hd k l = true ∧ L ≠ []
      · rw [if_pos hh, sect, List.mem_map]
        constructor
        · rintro ⟨⟨y, q⟩, hy, he⟩
          simp only [Prod.mk.injEq] at he
          obtain ⟨rfl, rfl, rfl⟩ := he
          obtain ⟨m, rfl, hm, hall⟩ := (mem_takeWhile_zipIdx _ _ _ _).1 hy
          refine ⟨m + 2, by omega, declares_zero.2 ⟨hh, m, rfl, fun m' hm' => ?_⟩, ?_, rfl⟩
          · obtain ⟨z, hz, hz'⟩ := hall m' hm'
            exact ⟨z, hz, nonblank_iff.1 hz'⟩
          · simpa [Nat.add_comm] using hm
        · rintro ⟨i, rfl, hd', hx, rfl⟩
          obtain ⟨-, m, rfl, hall⟩ := declares_zero.1 hd'
          refine ⟨(x, c + (m + 2)), ?_, rfl⟩
          rw [mem_takeWhile_zipIdx]
          refine ⟨m, by omega, ?_, fun m' hm' => ?_⟩
          · simpa [Nat.add_comm] using hx
          · obtain ⟨z, hz, hz'⟩ := hall m' hm'
            exact ⟨z, hz, nonblank_iff.2 hz'⟩
      · rw [if_neg hh]
        simp only [List.not_mem_nil, false_iff]
        rintro ⟨i, -, hd', -⟩
        exact hh (declares_zero.1 hd').1
    rw [hsect]
    constructor
    · rintro (⟨i, h1, h2, h3, h4⟩ | ⟨j, i, h1, h2, h3, h, h4, h5⟩)
      · exact ⟨0, i, h1, h2, h3, l, rfl, h4⟩
      · exact ⟨j + 1, i + 1, by omega, declares_succ.2 h2, by simpa using h3, h, by simpa using h4, h5⟩
    · rintro ⟨j, i, h1, h2, h3, h, h4, h5⟩
      cases j with
      | zero =>
        simp only [List.getElem?_cons_zero, Option.some.injEq] at h4
        subst h4
        exact Or.inl ⟨i, h1, h2, h3, h5⟩
      | succ j =>
        cases i with
        | zero => have := h2.2.1; omega
        | succ i => exact Or.inr ⟨j, i, by omega, declares_succ.1 h2, by simpa using h3, h, by simpa using h4, h5⟩

/-! ## Writing -/

theorem writeLine_length (out : List Str) (li : Str × Nat) : (writeLine ws out li).length = out.length := by simp [writeLine]

theorem foldl_writeLine_length (W : List (Str × Nat)) : ∀ out : List Str, (W.foldl (writeLine ws) out).length = out.length := by
  induction W with
  | nil => intro out; rfl
  | cons w W ih => intro out; rw [List.foldl_cons, ih, writeLine_length]

/-- Lines stay lines. -/
theorem foldl_writeLine_newline (W : List (Str × Nat)) (hW : ∀ w ∈ W, '\n' ∉ w.1) : ∀ out : List Str, (∀ l ∈ out, '\n' ∉ l) →
    ∀ l ∈ W.foldl (writeLine ws) out, '\n' ∉ l := by
  induction W with
  | nil => intro out h; exact h
  | cons w W ih =>
    intro out h
    rw [List.foldl_cons]
    apply ih (fun x hx => hW x (List.mem_cons_of_mem _ hx))
    intro l hl
    unfold writeLine at hl
    rcases List.mem_or_eq_of_mem_set hl with hl | rfl
    · exact h l hl
    · simp only [List.mem_append, not_or]
      refine ⟨⟨⟨hW w (by simp), by decide⟩, fun hm => ?_⟩, by decide⟩
      have h1 := List.mem_of_mem_drop (mem_strip hm)
      cases ho : out[w.2]? with
      | none => rw [ho] at h1; simp at h1
      | some x => rw [ho] at h1; exact h x (List.mem_of_getElem? ho) (by simpa using h1)

/-- What is on a line in the end. -/
theorem foldl_writeLine_get (W : List (Str × Nat)) : ∀ (out : List Str) (i : Nat) (o : Str), out[i]? = some o →
    ∃ o' : Str, (W.foldl (writeLine ws) out)[i]? = some o' ∧
      (((∀ t, (t, i) ∉ W) ∧ o' = o) ∨ ∃ t r, (t, i) ∈ W ∧ o' = t ++ "  # from '".toList ++ r ++ "'".toList) := by
  induction W with
  | nil => intro out i o h; exact ⟨o, h, Or.inl ⟨by simp, rfl⟩⟩
  | cons w W ih =>
    intro out i o h
    rw [List.foldl_cons]
    obtain ⟨t, p⟩ := w
    by_cases hp : p = i
    · subst hp
      obtain ⟨o', h1, h2⟩ := ih (writeLine ws out (t, p)) p (t ++ "  # from '".toList ++ strip ws (o.drop 1) ++ "'".toList) (by
        rw [writeLine, List.getElem?_set_self (List.getElem?_eq_some_iff.1 h).1, h]
        rfl)
      refine ⟨o', h1, Or.inr ?_⟩
      rcases h2 with ⟨-, h2⟩ | ⟨t', r, h2, h3⟩
      · exact ⟨t, _, by simp, h2⟩
      · exact ⟨t', r, by simp [h2], h3⟩
    · obtain ⟨o', h1, h2⟩ := ih (writeLine ws out (t, p)) i o (by
        rw [writeLine, List.getElem?_set_ne hp, h])
      refine ⟨o', h1, ?_⟩
      rcases h2 with ⟨h2, h3⟩ | ⟨t', r, h2, h3⟩
      · left
        refine ⟨fun t' ht' => ?_, h3⟩
        simp only [List.mem_cons, Prod.mk.injEq] at ht'
        rcases ht' with ⟨-, rfl⟩ | ht'
        · exact hp rfl
        · exact h2 t' ht'
      · exact Or.inr ⟨t', r, by simp [h2], h3⟩

theorem commented_ne (s : Str) : commented s ≠ [] := by
  unfold commented
  have := lines_ne_nil s
  cases hl : lines s with
  | nil => exact absurd hl this
  | cons l L => simp

theorem commented_length (s : Str) : (commented s).length = (lines s).length := by
  unfold commented
  cases lines s <;> simp

/-- Lines before declarations are written. -/
theorem commented_get (s : Str) (i : Nat) (l : Str) (h : (lines s)[i]? = some l) :
    (commented s)[i]? = some (if i = 0 then "from gpkit import Variable, VectorVariable".toList ++ "  ".toList ++ ("# ".toList ++ l) else "# ".toList ++ l) := by
  unfold commented
  cases hl : lines s with
  | nil => rw [hl] at h; simp at h
  | cons m L =>
    rw [hl] at h
    cases i with
    | zero =>
      have : m = l := by simpa using h
      subst this
      simp
    | succ i =>
      have h' : L[i]? = some l := by simpa using h
      simp [h']

theorem commented_newline (s : Str) : ∀ l ∈ commented s, '\n' ∉ l := by
  intro x hx
  obtain ⟨i, hi⟩ := List.getElem?_of_mem hx
  have hlt : i < (lines s).length := by
    rw [← commented_length]
    exact (List.getElem?_eq_some_iff.1 hi).1
  have hg := commented_get s i _ (List.getElem?_eq_getElem hlt)
  rw [hi] at hg
  have hno := lines_no_newline s _ (List.getElem_mem hlt)
  cases hg
  split
  · simp only [List.mem_append, not_or]
    exact ⟨⟨by decide, by decide⟩, by decide, hno⟩
  · simp only [List.mem_append, not_or]
    exact ⟨by decide, hno⟩

theorem lines_flat : ∀ {ds : List Str}, (∀ d ∈ ds, '\n' ∉ d) → lines (ds.flatMap (· ++ ['\n'])) = ds ++ [[]]
  | [], _ => rfl
  | d :: ds, h => by
    rw [List.flatMap_cons, List.append_assoc, List.singleton_append, lines_append (h d (by simp)), lines_flat (fun x hx => h x (by simp [hx]))]
    rfl

theorem mapM_ok {α β : Type} {f : α → Except Err β} {g : α → β} : ∀ {S : List α}, (∀ x ∈ S, f x = .ok (g x)) → S.mapM f = .ok (S.map g)
  | [], _ => rfl
  | x :: S, h => by
    rw [List.mapM_cons, h x (by simp), mapM_ok (fun y hy => h y (by simp [hy]))]
    rfl

theorem mapM_error {α β : Type} {f : α → Except Err β} : ∀ {S : List α} {x : α}, x ∈ S → (∃ e, f x = .error e) → ∃ e, S.mapM f = .error e
  | y :: S, x, hx, ⟨e, he⟩ => by
    rw [List.mapM_cons]
    cases hy : f y with
    | error e' => exact ⟨e', rfl⟩
    | ok z =>
      rcases List.mem_cons.1 hx with rfl | hx
      · rw [hy] at he; cases he
      · obtain ⟨e', he'⟩ := mapM_error (f := f) hx ⟨e, he⟩
        exact ⟨e', by rw [he']; rfl⟩

end Docstring
end Verif
