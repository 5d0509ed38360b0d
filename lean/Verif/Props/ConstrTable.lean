import Verif.Spec.ConstrTable
import Verif.Lemmas.Table
import Mathlib.Algebra.Order.Field.Rat
import Mathlib.Algebra.Order.Group.Defs
import Mathlib.Algebra.Order.Ring.Defs
import Mathlib.Tactic.NormNum
import Mathlib.Data.List.Nodup

/-! Tables of constraints: C68. -/

set_option linter.unusedSectionVars false

namespace Verif
namespace ConstrTables
variable {C K σ : Type}

theorem splitAux_flatten (s buf : Str) (n : Nat) : (splitAux buf n s).flatten = buf ++ s := by
  induction s generalizing buf n with
  | nil => cases n <;> (rw [splitAux]; split <;> simp_all)
  | cons c s ih =>
    cases n with
    | zero =>
      rw [splitAux]
      split
      · rw [List.flatten_append, ih]
        by_cases h : buf = [] <;> simp [h]
      · rw [ih]
        simp
    | succ n =>
      rw [splitAux]
      split
      · rw [List.flatten_cons, ih]
        simp
      · rw [ih]
        simp

theorem split_flatten (s : Str) : (split s).flatten = s := splitAux_flatten s [] 0

/-- Lines of a text: what is read of finished lines and the current one. -/
theorem cut_text {maxlen : Nat} (h2 : 2 ≤ maxlen) (p : Nat) (line : Str) (pre : List Str) (post : List Str) :
    unwrap (pre ++ ((cut maxlen p line).1 ++ (cut maxlen p line).2 :: post)) = unwrap (pre ++ line :: post) := by
  induction p generalizing line pre with
  | zero => rfl
  | succ p ih =>
    rw [cut]
    split
    · rename_i hl
      have := ih (' ' :: ' ' :: line.drop maxlen) (pre ++ [line.take maxlen])
      simp only [List.append_assoc, List.cons_append, List.nil_append] at this ⊢
      rw [this]
      cases pre with
      | nil => simp [unwrap, ← List.append_assoc]
      | cons a pre =>
        simp only [List.cons_append, unwrap, List.flatMap_append, List.flatMap_cons, List.drop_succ_cons, List.drop_zero]
        congr 2
        rw [← List.append_assoc]
        congr 1
        rw [show line.drop 2 = (line.take maxlen ++ line.drop maxlen).drop 2 by rw [List.take_append_drop],
          List.drop_append_of_le_length (by rw [List.length_take]; omega)]
    · rfl

theorem cut_len {maxlen : Nat} (h2 : 2 < maxlen) (p : Nat) (line : Str) (hp : line.length ≤ p) :
    (∀ l ∈ (cut maxlen p line).1, l.length ≤ maxlen) ∧ (cut maxlen p line).2.length ≤ maxlen ∧
      (line.length ≤ maxlen ∨ 2 ≤ (cut maxlen p line).2.length) := by
  induction p generalizing line with
  | zero => simp only [cut]; simp; omega
  | succ p ih =>
    rw [cut]
    split
    · rename_i hl
      obtain ⟨i1, i2, i3⟩ := ih (' ' :: ' ' :: line.drop maxlen) (by simp; omega)
      refine ⟨?_, i2, Or.inr ?_⟩
      · intro l hl
        rcases List.mem_cons.1 hl with rfl | hl
        · rw [List.length_take]; omega
        · exact i1 l hl
      · rcases i3 with i3 | i3
        · have : cut maxlen p (' ' :: ' ' :: line.drop maxlen) = ([], ' ' :: ' ' :: line.drop maxlen) := by
            cases p with
            | zero => rfl
            | succ p => rw [cut, if_neg (by omega)]
          simp [this]
        · exact i3
    · rename_i hl
      exact ⟨by simp, Nat.not_lt.1 hl, Or.inl (Nat.not_lt.1 hl)⟩

theorem unwrap_last (pre : List Str) (line s : Str) (h : pre = [] ∨ 2 ≤ line.length) : unwrap (pre ++ [line ++ s]) = unwrap (pre ++ [line]) ++ s := by
  cases pre with
  | nil => simp [unwrap]
  | cons a pre =>
    have h2 : 2 ≤ line.length := by simpa using h
    simp [unwrap, List.drop_append_of_le_length h2]

theorem wrapAux_spec {minlen maxlen : Nat} (h2 : 2 < maxlen) (segs : List Str) (line carry : Str) (pre : List Str)
    (hl : line.length ≤ maxlen) (hp : pre = [] ∨ 2 ≤ line.length) (hc : segs = [] → carry = []) :
    unwrap (pre ++ wrapAux minlen maxlen line carry segs) = unwrap (pre ++ [line]) ++ (carry ++ segs.flatten) ∧
      (∀ l ∈ wrapAux minlen maxlen line carry segs, l.length ≤ maxlen) ∧ wrapAux minlen maxlen line carry segs ≠ [] := by
  induction segs generalizing line carry pre with
  | nil => simp [wrapAux, hc rfl, hl]
  | cons s rest ih =>
    rw [wrapAux]
    simp only
    have step : ∀ (line' : Str) (pre' : List Str) (c' : Str), (pre' = [] ∨ 2 ≤ line'.length) → (rest = [] → c' = []) →
        unwrap (pre' ++ ((cut maxlen line'.length line').1 ++ wrapAux minlen maxlen (cut maxlen line'.length line').2 c' rest)) =
          unwrap (pre' ++ [line']) ++ (c' ++ rest.flatten) ∧
        (∀ l ∈ (cut maxlen line'.length line').1 ++ wrapAux minlen maxlen (cut maxlen line'.length line').2 c' rest, l.length ≤ maxlen) ∧
        wrapAux minlen maxlen (cut maxlen line'.length line').2 c' rest ≠ [] := by
      intro line' pre' c' hp' hc'
      obtain ⟨c1, c2, c3⟩ := cut_len h2 line'.length line' (Nat.le_refl _)
      have hcut : line'.length ≤ maxlen → cut maxlen line'.length line' = ([], line') := by
        intro hle
        cases hn : line'.length with
        | zero => rfl
        | succ n => rw [cut, if_neg (by omega)]
      obtain ⟨i1, i2, i3⟩ := ih (cut maxlen line'.length line').2 c' (pre' ++ (cut maxlen line'.length line').1) c2 (by
        rcases c3 with c3 | c3
        · rw [hcut c3]
          simpa using hp'
        · exact Or.inr c3) hc'
      have := cut_text (by omega : 2 ≤ maxlen) line'.length line' pre' []
      rw [List.append_assoc] at i1
      rw [i1]
      rw [List.append_assoc] at *
      rw [this]
      refine ⟨rfl, ?_, i3⟩
      intro l hl
      rcases List.mem_append.1 hl with hl | hl
      · exact c1 l hl
      · exact i2 l hl
    split
    · rename_i hop
      have hr : rest ≠ [] := by simpa using (Bool.and_eq_true_iff.1 hop).2
      obtain ⟨i1, i2, i3⟩ := step (line ++ (carry ++ s).take 1) pre ((carry ++ s).drop 1) (by
        rcases hp with hp | hp
        · exact Or.inl hp
        · exact Or.inr (by simp; omega)) (fun h => absurd h hr)
      refine ⟨?_, i2, ?_⟩
      · rw [i1, unwrap_last _ _ _ hp, List.flatten_cons, List.append_assoc, ← List.append_assoc (List.take _ _), List.take_append_drop]
        simp
      · exact fun h => i3 (List.append_eq_nil_iff.1 h).2
    · by_cases hn : maxlen < line.length + (carry ++ s).length ∧ minlen < line.length
      · simp only [hn, decide_true, if_true, and_self]
        obtain ⟨i1, i2, i3⟩ := step ([' ', ' '] ++ (carry ++ s)) (pre ++ [line]) [] (Or.inr (by simp)) (fun _ => rfl)
        refine ⟨?_, ?_, ?_⟩
        · simp only [List.append_assoc] at i1 ⊢
          refine i1.trans ?_
          cases pre with
          | nil => simp [unwrap]
          | cons a pre => simp [unwrap]
        · intro l hl'
          rw [List.append_assoc] at hl'
          rcases List.mem_append.1 hl' with hl' | hl'
          · rw [List.mem_singleton.1 hl']
            exact hl
          · exact i2 l hl'
        · simp
      · simp only [hn, decide_false, Bool.false_eq_true, if_false, List.nil_append]
        obtain ⟨i1, i2, i3⟩ := step (line ++ (carry ++ s)) pre [] (by
          rcases hp with hp | hp
          · exact Or.inl hp
          · exact Or.inr (by simp; omega)) (fun _ => rfl)
        refine ⟨?_, i2, ?_⟩
        · rw [i1, unwrap_last _ _ _ hp]
          simp
        · exact fun h => i3 (List.append_eq_nil_iff.1 h).2

end ConstrTables

open ConstrTables in
/-- However a text is broken into lines, none of it is lost, and no line is longer than asked. -/
theorem C68_text (minlen maxlen : Nat) (h : 2 < maxlen) (s : Str) :
    unwrap (wrap minlen maxlen s) = s ∧ (∀ l ∈ wrap minlen maxlen s, l.length ≤ maxlen) ∧ wrap minlen maxlen s ≠ [] := by
  obtain ⟨h1, h2, h3⟩ := wrapAux_spec (minlen := minlen) h (split s) [] [] [] (by simp) (Or.inl rfl) (fun _ => rfl)
  refine ⟨?_, h2, h3⟩
  have : unwrap (wrap minlen maxlen s) = unwrap ([] ++ wrapAux minlen maxlen [] [] (split s)) := rfl
  rw [this, h1, split_flatten]
  simp [unwrap]

open ConstrTables in
example : wrap 4 8 "x*y >= a + b*c".toList = ["x*y >= a".toList, "   + b*c".toList] := by decide +kernel

namespace ConstrTables

theorem replace_none {pat s : Str} (h : Str.index? pat s = none) : Str.replace pat [] s = s := by
  unfold Str.replace
  induction s with
  | nil => rfl
  | cons c s ih =>
    rw [Str.index?] at h
    split at h
    · exact absurd h (by simp)
    · rename_i hp
      rw [Str.replaceAux, if_neg hp, ih (by simpa using h)]

/-- The name of the model of a constraint does not occur in its text. -/
def Apart (T : Attrs C) (c : C) : Prop := T.model c = [] ∨ Str.index? (T.model c) (T.text c) = none

theorem without_eq {T : Attrs C} {c : C} (h : Apart T c) : without (T.model c) (T.text c) = T.text c := by
  unfold without
  split
  · rfl
  · rename_i hm
    exact replace_none (h.resolve_left hm)

/-- What is read of a row. -/
def seen (T : Attrs C) (d : Datum C σ) : Str × Str × Str := (T.model d.constr, d.opening, without (T.model d.constr) (T.text d.constr))

theorem items_cons (T : Attrs C) (d : Datum C σ) : ∃ l ls, items T d = .entry d.opening l :: ls.map .more ∧
    unwrap (l :: ls) = without (T.model d.constr) (T.text d.constr) := by
  obtain ⟨h1, _, h3⟩ := C68_text 25 80 (by omega) (without (T.model d.constr) (T.text d.constr))
  unfold items
  cases hw : wrap 25 80 (without (T.model d.constr) (T.text d.constr)) with
  | nil => exact absurd hw h3
  | cons l ls =>
    rw [hw] at h1
    exact ⟨l, ls, rfl, h1⟩

theorem lines_layout (T : Attrs C) (prev : Option Str) (ds : List (Datum C σ)) : readItems.lines (layout T prev ds) = [] := by
  cases ds with
  | nil => rfl
  | cons d ds =>
    rw [layout]
    obtain ⟨l, ls, h, _⟩ := items_cons T d
    rw [h]
    split
    · rfl
    · cases prev with
      | none => by_cases hm : T.model d.constr = [] <;> simp [hm, readItems.lines]
      | some p => simp [readItems.lines]

theorem lines_more (ls : List Str) (rest : List Item) : readItems.lines (ls.map .more ++ rest) = ls ++ readItems.lines rest := by
  induction ls with
  | nil => rfl
  | cons l ls ih => simp [readItems.lines, ih]

theorem read_more (m : Str) (ls : List Str) (rest : List Item) : readItems m (ls.map .more ++ rest) = readItems m rest := by
  induction ls with
  | nil => rfl
  | cons l ls ih => simpa [readItems] using ih

theorem read_layout (T : Attrs C) (ds : List (Datum C σ)) (prev : Option Str) :
    readItems (prev.getD []) (layout T prev ds) = ds.map (seen T) := by
  induction ds generalizing prev with
  | nil => rfl
  | cons d ds ih =>
    rw [layout, List.append_assoc]
    have hh : ∀ rest : List Item, readItems (prev.getD []) ((if prev = some (T.model d.constr) then [] else
        (if prev.isSome then [Item.spacer] else []) ++ (if T.model d.constr = [] ∧ prev = none then [] else [.heading (T.model d.constr)])) ++ rest) =
        readItems (T.model d.constr) rest := by
      intro rest
      split
      · rename_i h
        rw [h]
        rfl
      · cases prev with
        | none => by_cases hm : T.model d.constr = [] <;> simp [hm, readItems]
        | some p => simp [readItems]
    rw [hh]
    obtain ⟨l, ls, h, hu⟩ := items_cons T d
    rw [h, List.cons_append, readItems, lines_more, lines_layout, List.append_nil, hu, read_more, List.map_cons]
    exact congrArg _ (ih (some (T.model d.constr)))

theorem headings_append (l l' : List Item) : headings (l ++ l') = headings l ++ headings l' := by
  unfold headings
  rw [List.filterMap_append]

theorem headings_items (T : Attrs C) (d : Datum C σ) : headings (items T d) = [] := by
  obtain ⟨l, ls, h, _⟩ := items_cons T d
  rw [h]
  simp [headings]

theorem headings_layout (T : Attrs C) {f : Str → Nat} {ds : List (Datum C σ)}
    (hs : ds.Pairwise (fun a b => f (T.model a.constr) ≤ f (T.model b.constr)))
    (hf : ∀ a ∈ ds, ∀ s, f (T.model a.constr) = f s → T.model a.constr = s) (prev : Option Str)
    (hp : ∀ p ∈ prev, ∀ d ∈ ds, f p ≤ f (T.model d.constr)) :
    (headings (layout T prev ds)).Nodup ∧ ∀ m ∈ headings (layout T prev ds), m ∉ prev ∧ ∃ d ∈ ds, T.model d.constr = m := by
  induction ds generalizing prev with
  | nil => simp [layout, headings]
  | cons d ds ih =>
    rw [List.pairwise_cons] at hs
    obtain ⟨i1, i2⟩ := ih hs.2 (fun a ha => hf a (List.mem_cons_of_mem _ ha)) (some (T.model d.constr)) (by simpa using hs.1)
    rw [layout, headings_append, headings_append, headings_items, List.append_nil]
    split
    · rename_i h
      refine ⟨by simpa [headings] using i1, ?_⟩
      intro m hm
      have hm' : m ∈ headings (layout T (some (T.model d.constr)) ds) := by simpa [headings] using hm
      obtain ⟨j2, w', j3, j4⟩ := i2 m hm'
      exact ⟨by rw [h]; exact j2, w', List.mem_cons_of_mem _ j3, j4⟩
    · rename_i h
      have key : ∀ m ∈ headings (layout T (some (T.model d.constr)) ds), m ∉ prev ∧ ∃ w' ∈ d :: ds, T.model w'.constr = m := by
        intro m hm
        obtain ⟨j2, w', j3, j4⟩ := i2 m hm
        refine ⟨?_, w', List.mem_cons_of_mem _ j3, j4⟩
        intro hmp
        have a1 := hp m hmp d (by simp)
        have a2 := hs.1 w' j3
        rw [j4] at a2
        have := hf d (by simp) m (le_antisymm a2 a1)
        rw [this] at j2
        simp at j2
      by_cases hm : T.model d.constr = [] ∧ prev = none
      · have hpre : headings ((if prev.isSome then [Item.spacer] else []) ++
            (if T.model d.constr = [] ∧ prev = none then [] else [Item.heading (T.model d.constr)])) = [] := by
          rw [if_pos hm, hm.2]
          rfl
        rw [hpre]
        exact ⟨by simpa using i1, by simpa using key⟩
      · have hpre : headings ((if prev.isSome then [Item.spacer] else []) ++
            (if T.model d.constr = [] ∧ prev = none then [] else [Item.heading (T.model d.constr)])) = [T.model d.constr] := by
          rw [if_neg hm]
          cases prev <;> simp [headings]
        rw [hpre]
        refine ⟨?_, ?_⟩
        · rw [List.singleton_append, List.nodup_cons]
          refine ⟨fun hin => ?_, i1⟩
          exact (i2 _ hin).1 rfl
        · intro m hin
          rw [List.singleton_append, List.mem_cons] at hin
          rcases hin with rfl | hin
          · exact ⟨fun hmp => h (by simpa using hmp), d, by simp, rfl⟩
          · exact key m hin

theorem models_mem (T : Attrs C) (ds : List (Datum C σ)) : ∀ d ∈ ds, T.model d.constr ∈ models T ds := by
  have : ∀ (ds : List (Datum C σ)) (ms : List Str),
      (∀ m ∈ ms, m ∈ ds.foldl (fun ms d => if T.model d.constr ∈ ms then ms else ms ++ [T.model d.constr]) ms) ∧
      ∀ d ∈ ds, T.model d.constr ∈ ds.foldl (fun ms d => if T.model d.constr ∈ ms then ms else ms ++ [T.model d.constr]) ms := by
    intro ds
    induction ds with
    | nil => intro ms; simp
    | cons d ds ih =>
      intro ms
      rw [List.foldl_cons]
      obtain ⟨i1, i2⟩ := ih (if T.model d.constr ∈ ms then ms else ms ++ [T.model d.constr])
      refine ⟨fun m hm => i1 m (by split <;> simp [hm]), fun d' hd => ?_⟩
      rcases List.mem_cons.1 hd with rfl | hd
      · apply i1
        split
        · assumption
        · simp
      · exact i2 d' hd
  exact (this ds []).2

section
variable [LinearOrder σ]

theorem sort_pairwise {A α : Type} [LinearOrder α] (f : A → α) (l : List A) :
    (l.mergeSort (fun a b => decide (f a ≤ f b))).Pairwise (fun a b => f a ≤ f b) := by
  refine (List.pairwise_mergeSort ?_ ?_ l).imp (fun h => of_decide_eq_true h)
  · intro a b c
    simp only [decide_eq_true_eq]
    exact le_trans
  · intro a b
    simpa using le_total (f a) (f b)

theorem decorated_perm (T : Attrs C) (data : List (Datum C σ)) : (decorated T data).Perm data :=
  (List.mergeSort_perm ..).trans (List.mergeSort_perm ..)

theorem decorated_sorted (T : Attrs C) (data : List (Datum C σ)) :
    (decorated T data).Pairwise (fun a b => (models T (sorted T data)).idxOf (T.model a.constr) ≤ (models T (sorted T data)).idxOf (T.model b.constr)) ∧
    (decorated T data).Pairwise (fun a b => T.model a.constr = T.model b.constr → a.sortby ≤ b.sortby) := by
  have h := sort_pairwise (rowKey T (models T (sorted T data))) (sorted T data)
  refine ⟨h.imp ?_, h.imp ?_⟩
  · intro a b hab
    rw [rowKey, rowKey, Prod.Lex.le_iff] at hab
    rcases hab with hab | hab
    · exact le_of_lt hab
    · exact le_of_eq hab.1
  · intro a b hab hm
    rw [rowKey, rowKey, Prod.Lex.le_iff, Prod.Lex.le_iff, Prod.Lex.le_iff] at hab
    simp only [ofLex_toLex, hm, lt_irrefl, true_and, false_or] at hab
    rcases hab with hab | hab
    · exact le_of_lt hab
    · exact le_of_eq hab.1

/-- A table of constraints, read. -/
theorem table_spec (T : Attrs C) (data : List (Datum C σ)) (ha : ∀ d ∈ data, Apart T d.constr) :
    ∃ rows : List (Datum C σ), rows.Perm data ∧
      readItems [] (constraintTable T data) = rows.map (fun d => (T.model d.constr, d.opening, T.text d.constr)) ∧
      (headings (constraintTable T data)).Nodup ∧ rows.Pairwise (fun a b => T.model a.constr = T.model b.constr → a.sortby ≤ b.sortby) := by
  obtain ⟨s1, s2⟩ := decorated_sorted T data
  have hp := decorated_perm T data
  refine ⟨decorated T data, hp, ?_, ?_, s2⟩
  · have := read_layout T (decorated T data) none
    rw [show (none : Option Str).getD [] = [] from rfl] at this
    rw [constraintTable, this]
    apply List.map_congr_left
    intro d hd
    rw [seen, without_eq (ha d (hp.subset hd))]
  · refine (headings_layout T (f := fun m => (models T (sorted T data)).idxOf m) s1 ?_ none (by simp)).1
    intro a hd s he
    have hm := models_mem T (sorted T data) a ((List.mergeSort_perm ..).symm.subset (hp.subset hd))
    have hl := List.idxOf_lt_length_iff.2 hm
    have hm' : s ∈ models T (sorted T data) := List.idxOf_lt_length_iff.1 (he ▸ hl)
    rw [← List.getElem_idxOf hl, ← List.getElem_idxOf (List.idxOf_lt_length_iff.2 hm')]
    congr 1

end

end ConstrTables

open ConstrTables in
/-- The table of the most sensitive constraints: constraints whose sensitivity is at least `tight_senss`, each once, at most `ntightconstrs` of them. None left
out is rounded to a larger sensitivity than one shown. Each is below its model, with the text of its sensitivity and its own whole text; a model has one
heading, below which sensitivities decrease. Missing: constraints whose text has the name of their model in it (`C68_name_fails`). -/
theorem C68_tight_partial {C K : Type} [Field K] [LinearOrder K] [IsStrictOrderedRing K] (T : Attrs C) (r : K → K) (fmt : K → Str) (n : Nat) (tol : K)
    (senss : List (C × K)) (ha : ∀ cs ∈ senss, Apart T cs.1) :
    ∃ shown rest : List (C × K), (shown ++ rest).Perm (senss.filter (fun cs => decide (tol ≤ cs.2))) ∧ shown.length ≤ n ∧ (rest ≠ [] → shown.length = n) ∧
      (∀ a ∈ shown, ∀ b ∈ rest, r b.2 ≤ r a.2) ∧
      readItems [] (tightTable T r fmt n tol senss) = shown.map (fun cs => (T.model cs.1, fmt cs.2, T.text cs.1)) ∧
      (headings (tightTable T r fmt n tol senss)).Nodup ∧ shown.Pairwise (fun a b => T.model a.1 = T.model b.1 → r b.2 ≤ r a.2) := by
  obtain ⟨m, m1, m2⟩ := Tables.perm_map_inv (f := fun cs : C × K => (⟨toLex (-r cs.2, T.str cs.1), fmt cs.2, cs.1⟩ : Datum C (K ×ₗ Str)))
    (senss.filter (fun cs => decide (tol ≤ cs.2))) (List.mergeSort_perm _ (fun a b : Datum C (K ×ₗ Str) => decide (a.key T ≤ b.key T)))
  have hd : tightData T r fmt n tol senss = (m.take n).map (fun cs => ⟨toLex (-r cs.2, T.str cs.1), fmt cs.2, cs.1⟩) := by
    rw [tightData, sorted, m2, List.map_take]
  have hsort := sort_pairwise (Datum.key T) ((senss.filter (fun cs => decide (tol ≤ cs.2))).map
    (fun cs => (⟨toLex (-r cs.2, T.str cs.1), fmt cs.2, cs.1⟩ : Datum C (K ×ₗ Str))))
  rw [m2, List.pairwise_map] at hsort
  have hle : m.Pairwise (fun a b => r b.2 ≤ r a.2) := by
    refine hsort.imp ?_
    intro a b hab
    rw [Datum.key, Datum.key, Prod.Lex.le_iff] at hab
    simp only [ofLex_toLex] at hab
    have : toLex (-r a.2, T.str a.1) ≤ toLex (-r b.2, T.str b.1) := by
      rcases hab with hab | hab
      · exact le_of_lt hab
      · exact le_of_eq hab.1
    rw [Prod.Lex.le_iff] at this
    simp only [ofLex_toLex] at this
    rcases this with h | h
    · exact le_of_lt (neg_lt_neg_iff.1 h)
    · exact le_of_eq (neg_injective h.1).symm
  obtain ⟨rows, p1, p2, p3, p4⟩ := table_spec T (tightData T r fmt n tol senss) (by
    intro d hd'
    rw [hd, List.mem_map] at hd'
    obtain ⟨cs, hcs, rfl⟩ := hd'
    exact ha cs (List.mem_of_mem_filter (m1.subset (List.mem_of_mem_take hcs))))
  rw [hd] at p1
  obtain ⟨shown, q1, rfl⟩ := Tables.perm_map_inv _ p1
  rw [← List.take_append_drop n m, List.pairwise_append] at hle
  refine ⟨shown, m.drop n, ?_, ?_, ?_, ?_, ?_, p3, ?_⟩
  · exact ((q1.append_right _).trans (by rw [List.take_append_drop])).trans m1
  · rw [q1.length_eq, List.length_take]
    omega
  · intro h
    have : ¬ m.length ≤ n := fun hl => h (List.drop_eq_nil_of_le hl)
    rw [q1.length_eq, List.length_take]
    omega
  · intro a h b h'
    exact hle.2.2 a (q1.subset h) b h'
  · rw [tightTable, p2, List.map_map]
    rfl
  · rw [List.pairwise_map] at p4
    refine p4.imp ?_
    intro a b hab hm
    have := hab hm
    rw [Prod.Lex.le_iff] at this
    simp only [ofLex_toLex] at this
    rcases this with h | h
    · exact le_of_lt (neg_lt_neg_iff.1 h)
    · exact le_of_eq (neg_injective h.1).symm

open ConstrTables in
/-- The table of insensitive constraints: those whose sensitivity is at most `min_senss`, each once, below its model, with its whole text; a model has one
heading. Missing: constraints whose text has the name of their model in it (`C68_name_fails`). -/
theorem C68_loose_partial {C K : Type} [Field K] [LinearOrder K] (T : Attrs C) (tol : K) (senss : List (C × K)) (ha : ∀ cs ∈ senss, Apart T cs.1) :
    ∃ shown : List (C × K), shown.Perm (senss.filter (fun cs => decide (cs.2 ≤ tol))) ∧
      readItems [] (looseTable T tol senss) = shown.map (fun cs => (T.model cs.1, [], T.text cs.1)) ∧ (headings (looseTable T tol senss)).Nodup := by
  obtain ⟨rows, p1, p2, p3, _⟩ := table_spec T (looseData tol senss) (by
    intro d hd'
    rw [looseData, List.mem_map] at hd'
    obtain ⟨cs, hcs, rfl⟩ := hd'
    exact ha cs (List.mem_of_mem_filter hcs))
  rw [looseData] at p1
  obtain ⟨shown, q1, rfl⟩ := Tables.perm_map_inv _ p1
  refine ⟨shown, q1, ?_, p3⟩
  rw [looseTable, p2, List.map_map]
  rfl

/-- Constraints of the examples: one constraint, of the model `A`. -/
def ConstrTables.exAttrs (text : Str) : ConstrTables.Attrs Unit := ⟨fun _ => "A".toList, fun _ => text, fun _ => text, fun _ => 7⟩

open ConstrTables in
/-- The hypothesis of the theorems can be met. -/
example : Apart (exAttrs "w*h >= a".toList) () ∧
    tightTable (K := ℚ) (exAttrs "w*h >= a".toList) id (fun _ => "+1".toList) 5 (1 / 100) [((), 1)] =
      [.heading "A".toList, .entry "+1".toList "w*h >= a".toList] := by
  refine ⟨Or.inr (by decide +kernel), by decide +kernel⟩

open ConstrTables in
/-- The name of its model is removed from the text of a constraint wherever it occurs: the constraint `Area >= 2` of a model `A` is shown as
`rea >= 2`. -/
theorem C68_name_fails : readItems [] (tightTable (K := ℚ) (exAttrs "Area >= 2".toList) id (fun _ => "+1".toList) 5 (1 / 100) [((), 1)]) =
    [("A".toList, "+1".toList, "rea >= 2".toList)] := by
  decide +kernel

end Verif
