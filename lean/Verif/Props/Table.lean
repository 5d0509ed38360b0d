import Verif.Lemmas.Table
import Mathlib.Algebra.Order.Field.Rat
import Mathlib.Tactic.NormNum
import Mathlib.Tactic.FieldSimp

/-! Tables of solutions: C63, C64 and C66. -/

set_option linter.unusedSectionVars false

namespace Verif
open Vectors Tables
variable {Q K A : Type}

namespace Tables
section
variable [Field K] [LinearOrder K] [IsStrictOrderedRing K]

theorem below_iff {m : K} {v : Cell K} : v.below m = false ↔ ∃ x, some x ∈ v.entries ∧ m < |x| := by
  unfold Cell.below
  rw [List.all_eq_false]
  constructor
  · rintro ⟨x, hx, hn⟩
    cases x with
    | none => exact absurd rfl hn
    | some x => exact ⟨x, hx, by simpa using hn⟩
  · rintro ⟨x, hx, hn⟩
    exact ⟨some x, hx, by simpa using hn⟩

theorem allowed_iff {o : Opts K} {m : Str} : allowed o m = true ↔ (o.incl = [] ∨ m = [] ∨ m ∈ o.incl) ∧ m ∉ o.excl := by
  unfold allowed
  simp [or_assoc]

theorem hidden_isvec (o : Opts K) (v : Cell K) : (v.hidden o).isvec = v.isvec := by
  cases v with
  | num x => rfl
  | arr a =>
    rw [Cell.hidden]
    split <;> rfl

theorem hidden_arr (o : Opts K) (a : Arr (Option K)) : (Cell.arr a).hidden o = .arr ⟨a.shape, fun i => blank o (a.at' i)⟩ := by
  rw [Cell.hidden]
  unfold blank
  split
  · rename_i h
    congr 2
    funext i
    cases hx : a.at' i with
    | none => simp
    | some x => simp [h]
  · rename_i h
    have : ∀ i, ¬ ((o.hide : Prop) ∧ o.minval ≠ 0 ∧ ∃ y, a.at' i = some y ∧ |y| ≤ o.minval) := fun i hi => h ⟨hi.2.1, hi.1⟩
    simp only [this, if_false]

theorem hidden_entries {o : Opts K} {v : Cell K} (hv : v.below o.minval = false) : (v.hidden o).entries = v.entries.map (blank o) := by
  cases v with
  | num x =>
    obtain ⟨y, hy, hlt⟩ := below_iff.1 hv
    simp only [Cell.entries, List.mem_singleton] at hy
    subst hy
    have : ¬ |y| ≤ o.minval := not_le.2 hlt
    simp [Cell.hidden, Cell.entries, blank, this]
  | arr a =>
    rw [hidden_arr]
    simp [Cell.entries, elems, Function.comp_def]

theorem chunks_map {B : Type} (f : A → B) (n : Nat) : ∀ (p : Nat) (l : List A), chunks n p (l.map f) = (chunks n p l).map (List.map f) := by
  intro p
  induction p with
  | zero => intro l; rfl
  | succ p ih =>
    intro l
    rw [chunks, chunks]
    by_cases h : l = []
    · simp [h]
    · have h1 : ¬ (l.isEmpty = true) := fun e => h (List.isEmpty_iff.1 e)
      have h2 : ¬ ((l.map f).isEmpty = true) := by simpa using h
      rw [if_neg h1, if_neg h2, ← List.map_drop, ih, List.map_cons, List.map_take]

theorem arrange_map {B : Type} (f : A → B) (cols : Nat) (a : Arr A) :
    arrange cols ⟨a.shape, fun i => f (a.at' i)⟩ = (arrange cols a).map (List.map f) := by
  unfold arrange
  simp only
  have : elems (transposeBy (dimOrder a.shape.length (pick cols a.shape).1) (⟨a.shape, fun i => f (a.at' i)⟩ : Arr B)) =
      (elems (transposeBy (dimOrder a.shape.length (pick cols a.shape).1) a)).map f := by
    unfold elems transposeBy
    simp [Function.comp_def]
  rw [this, chunks_map, List.length_map]

theorem hidden_lines {o : Opts K} {v : Cell K} (hv : v.below o.minval = false) (cols : Nat) :
    (v.hidden o).lines cols = (v.lines cols).map (List.map (blank o)) := by
  cases v with
  | num x =>
    obtain ⟨y, hy, hlt⟩ := below_iff.1 hv
    simp only [Cell.entries, List.mem_singleton] at hy
    subst hy
    have : ¬ |y| ≤ o.minval := not_le.2 hlt
    simp [Cell.hidden, Cell.lines, blank, this]
  | arr a =>
    rw [hidden_arr, Cell.lines, Cell.lines, arrange_map]

/-- Arrays have axes. -/
def Proper (data : List (Q × Cell K)) : Prop := ∀ kv ∈ data, ∀ a, kv.2 = .arr a → a.shape ≠ []

theorem lines_ne {v : Cell K} (hp : ∀ a, v = .arr a → a.shape ≠ []) (he : v.entries ≠ []) (cols : Nat) : v.lines cols ≠ [] := by
  cases v with
  | num x => simp [Cell.lines]
  | arr a =>
    intro h
    have := arrange_perm a cols (hp a rfl)
    rw [Cell.lines] at h
    rw [h] at this
    exact he (List.Perm.nil_eq this).symm

/-- The row of a variable. -/
def rowOf (T : Attrs Q) (r : K → K) (o : Opts K) (kvi : (Q × Cell K) × Nat) : Row Q K :=
  ⟨below T o kvi.1.1, -o.msenss (below T o kvi.1.1), sortVal r (kvi.1.2.hidden o), kvi.2, kvi.1.1, kvi.1.2.hidden o⟩

theorem decorate_eq (T : Attrs Q) (r : K → K) (o : Opts K) (data : List (Q × Cell K)) :
    decorate T r o data = (data.zipIdx.filter (fun kvi => !kvi.1.2.below o.minval)).map (rowOf T r o) := by
  unfold decorate
  induction data.zipIdx with
  | nil => rfl
  | cons a l ih =>
    rw [List.filterMap_cons, List.filter_cons]
    by_cases h : a.1.2.below o.minval
    · simp only [h, if_true, Bool.not_true, Bool.false_eq_true, if_false]
      exact ih
    · simp only [h, Bool.not_false, if_true, Bool.false_eq_true, if_false, List.map_cons, ← ih]
      rfl

theorem sortRows_perm (T : Attrs Q) (o : Opts K) (ws : List (Row Q K)) : (sortRows T o ws).Perm ws := by
  unfold sortRows
  split <;> exact List.mergeSort_perm ..

theorem sortRows_name {T : Attrs Q} {o : Opts K} (h : o.byvals = false) (ws : List (Row Q K)) :
    (sortRows T o ws).Pairwise (fun a b => nameKey T a ≤ nameKey T b) := by
  unfold sortRows
  rw [if_neg (by simp [h])]
  refine (List.pairwise_mergeSort ?_ ?_ ws).imp (fun h => of_decide_eq_true h)
  · intro a b c
    simp only [decide_eq_true_eq]
    exact le_trans
  · intro a b
    simpa using le_total (nameKey T a) (nameKey T b)

theorem sortRows_val {T : Attrs Q} {o : Opts K} (h : o.byvals = true) (ws : List (Row Q K)) :
    (sortRows T o ws).Pairwise (fun a b => valKey T a ≤ valKey T b) := by
  unfold sortRows
  rw [if_pos h]
  refine (List.pairwise_mergeSort ?_ ?_ ws).imp (fun h => of_decide_eq_true h)
  · intro a b c
    simp only [decide_eq_true_eq]
    exact le_trans
  · intro a b
    simpa using le_total (valKey T a) (valKey T b)

/-- Rows of shown variables, in the order of the table. -/
theorem rows_spec (T : Attrs Q) (r : K → K) (o : Opts K) (data : List (Q × Cell K)) [DecidablePred (Shown T o)] :
    ∃ ms : List ((Q × Cell K) × Nat), (sortRows T o (decorate T r o data)).filter (fun w => allowed o w.model) = ms.map (rowOf T r o) ∧
      (ms.map (·.1)).Perm (data.filter (fun kv => decide (Shown T o kv))) := by
  have hp := sortRows_perm T o (decorate T r o data)
  rw [decorate_eq] at hp
  obtain ⟨ms, h1, h2⟩ := perm_map_inv _ hp
  refine ⟨ms.filter (fun kvi => allowed o (below T o kvi.1.1)), ?_, ?_⟩
  · rw [decorate_eq, h2, List.filter_map]
    rfl
  · have h3 := (h1.filter (fun kvi => allowed o (below T o kvi.1.1))).map (·.1)
    refine h3.trans (List.Perm.of_eq ?_)
    rw [List.filter_filter]
    have : data.filter (fun kv => decide (Shown T o kv)) = (data.zipIdx.map (·.1)).filter (fun kv => decide (Shown T o kv)) := by
      rw [List.zipIdx_map_fst]
    rw [this, List.filter_map]
    congr 1
    apply List.filter_congr
    intro kvi _
    simp only [Function.comp]
    rw [Bool.eq_iff_iff, decide_eq_true_iff, Bool.and_eq_true, allowed_iff, Bool.not_eq_true', below_iff]
    exact ⟨fun h => ⟨h.2, h.1⟩, fun h => ⟨h.2, h.1⟩⟩

theorem meanSize_eq {o : Opts K} {v : Cell K} (hv : v.below o.minval = false) {r : K → K} (hr : Monotone r) :
    r (-meanSize o v) ≤ sortVal r (v.hidden o) ∧ sortVal r (v.hidden o) ≤ r (-meanSize o v + 1 / 1000000000) := by
  unfold sortVal meanSize
  rw [hidden_entries hv]
  constructor
  · apply hr
    split
    · have : (0 : K) < 1 / 1000000000 := by positivity
      linarith
    · linarith
  · apply hr
    split
    · linarith
    · have : (0 : K) < 1 / 1000000000 := by positivity
      linarith

theorem shown_below {T : Attrs Q} {o : Opts K} {kv : Q × Cell K} (h : Shown T o kv) : kv.2.below o.minval = false := below_iff.2 h.1

end
end Tables

section
variable [Field K] [LinearOrder K] [IsStrictOrderedRing K]

open Classical in
/-- C64: a reader of a table finds every variable that is to be shown exactly once, below the heading of its model, with its values, and in order; each
model has one heading. -/
theorem C64_shown (T : Attrs Q) {r : K → K} (hr : Monotone r) (o : Opts K) {data : List (Q × Cell K)} (hd : Proper data) :
    ∃ vs : List (Q × Cell K), vs.Perm (data.filter (fun kv => decide (Shown T o kv))) ∧ vs.Pairwise (Ordered T r o) ∧
      read [] none (varTable T r o data) = vs.flatMap (fun kv => (kv.2.lines o.cols).map (fun l => (below T o kv.1, some kv.1, l.map (blank o)))) ∧
      (headings (varTable T r o data)).Nodup := by
  obtain ⟨ms, h1, h2⟩ := rows_spec T r o data
  have hsh : ∀ kvi ∈ ms, Shown T o kvi.1 ∧ kvi.1 ∈ data := by
    intro kvi hk
    have := h2.subset (List.mem_map_of_mem hk)
    rw [List.mem_filter, decide_eq_true_eq] at this
    exact ⟨this.2, this.1⟩
  have hpw : (ms.map (rowOf T r o)).Pairwise (fun a b => if o.byvals then valKey T a ≤ valKey T b else nameKey T a ≤ nameKey T b) := by
    rw [← h1]
    apply List.Pairwise.filter
    by_cases hb : o.byvals
    · simp only [hb, if_true]
      exact sortRows_val hb _
    · simp only [hb]
      exact sortRows_name (by simpa using hb) _
  have hpw' := hpw
  rw [List.pairwise_map] at hpw
  refine ⟨ms.map (·.1), h2, ?_, ?_, ?_⟩
  · rw [List.pairwise_map]
    refine hpw.imp_of_mem (fun {a b} ha hb h => ?_)
    have ba := shown_below (hsh a ha).1
    have bb := shown_below (hsh b hb).1
    unfold Ordered
    by_cases hb' : o.byvals
    · rw [if_pos hb'] at h
      rw [if_pos hb']
      unfold valKey at h
      rw [Prod.Lex.toLex_le_toLex] at h
      rcases h with h | ⟨h, h'⟩
      · exact Or.inl h
      · refine Or.inr ⟨h, ?_⟩
        rw [Prod.Lex.toLex_le_toLex] at h'
        refine le_trans (meanSize_eq ba hr).1 (le_trans ?_ (meanSize_eq bb hr).2)
        rcases h' with h' | ⟨h', -⟩
        · exact le_of_lt h'
        · exact le_of_eq h'
    · rw [if_neg hb'] at h
      rw [if_neg hb']
      unfold nameKey at h
      rw [Prod.Lex.toLex_le_toLex] at h
      rcases h with h | ⟨h, h'⟩
      · exact Or.inl (neg_lt_neg_iff.1 h)
      · refine Or.inr ⟨neg_injective h, ?_⟩
        rw [Prod.Lex.toLex_le_toLex] at h'
        rcases h' with h' | ⟨h', h''⟩
        · exact Or.inl h'
        · refine Or.inr ⟨h', ?_⟩
          simp only [rowOf, hidden_isvec] at h''
          rw [Prod.Lex.toLex_le_toLex] at h''
          rcases h'' with h'' | ⟨h'', h3⟩
          · exact Or.inl (Bool.lt_iff.1 h'')
          · refine Or.inr ⟨h'', ?_⟩
            rw [Prod.Lex.toLex_le_toLex] at h3
            rcases h3 with h3 | ⟨h3, -⟩
            · exact le_of_lt h3
            · exact le_of_eq h3
  · unfold varTable
    rw [h1]
    have := read_layout (cols := o.cols) (ws := ms.map (rowOf T r o)) ?_ none none
    · rw [Option.getD_none] at this
      rw [this, List.flatMap_map, List.flatMap_map]
      apply List.flatMap_congr
      intro kvi hk
      unfold Row.seen rowOf
      simp only
      rw [hidden_lines (shown_below (hsh kvi hk).1), List.map_map]
      rfl
    · intro w hw
      obtain ⟨kvi, hk, rfl⟩ := List.mem_map.1 hw
      obtain ⟨hs, hin⟩ := hsh kvi hk
      unfold rowOf
      simp only
      rw [hidden_lines (shown_below hs)]
      intro e
      refine lines_ne (hd _ hin) ?_ o.cols (List.map_eq_nil_iff.1 e)
      obtain ⟨x, hx, -⟩ := hs.1
      intro e'
      rw [e'] at hx
      cases hx
  · unfold varTable
    rw [h1]
    by_cases hb : o.byvals
    · refine (headings_layout (f := fun m : Str => m) (fun a b h => h) ?_ none (by simp)).1
      refine hpw'.imp (fun {a b} h => ?_)
      rw [if_pos hb] at h
      unfold valKey at h
      rw [Prod.Lex.toLex_le_toLex] at h
      rcases h with h | ⟨h, -⟩
      · exact le_of_lt h
      · exact le_of_eq h
    · refine (headings_layout (f := fun m : Str => toLex (-o.msenss m, m)) (fun a b h => (Prod.mk.inj (toLex_inj.1 h)).2) ?_ none (by simp)).1
      rw [List.pairwise_map]
      refine hpw.imp (fun {a b} h => ?_)
      rw [if_neg hb] at h
      unfold nameKey at h
      rw [Prod.Lex.toLex_le_toLex] at h ⊢
      rcases h with h | ⟨h, h'⟩
      · exact Or.inl h
      · refine Or.inr ⟨h, ?_⟩
        rw [Prod.Lex.toLex_le_toLex] at h'
        rcases h' with h' | ⟨h', -⟩
        · exact le_of_lt h'
        · exact le_of_eq h'

end

/-- C64: the lines of an array hold all its elements, each once. -/
theorem C64_complete (cols : Nat) (a : Arr A) (h : a.shape ≠ []) : (arrange cols a).flatten.Perm (elems a) := arrange_perm a cols h

/-- C64: lines run along the longest axis that fits, each along one. Missing: arrays in which that axis is before the last two, see `C64_lines_fails`. -/
theorem C64_lines_partial {cols h : Nat} {a : Arr A} (hw : Widest cols a.shape h) (h0 : 0 ∉ a.shape) (hh : a.shape.length ≤ h + 2) :
    arrange cols a = fibres a h := arrange_widest a hw h0 hh

/-- C64: if no axis fits, each line holds one element, in the order of `flatten`. -/
theorem C64_narrow {cols : Nat} {a : Arr A} (hw : ∀ d ∈ a.shape, cols < d) (hne : a.shape ≠ []) : arrange cols a = (elems a).map (fun x => [x]) :=
  arrange_narrow a hw hne

/-- C64 is violated: in an array of shape (3, 2, 1) the axis of length 3 fits, but its lines mix two axes. -/
theorem C64_lines_fails : ∃ a : Arr Nat, Widest 5 a.shape 0 ∧ 0 ∉ a.shape ∧ a.shape.length = 3 ∧ arrange 5 a ≠ fibres a 0 ∧
    arrange 5 a = [[0, 1, 10], [11, 20, 21]] ∧ fibres a 0 = [[0, 10, 20], [1, 11, 21]] := by
  refine ⟨⟨[3, 2, 1], fun i => 10 * i.getD 0 0 + i.getD 1 0⟩, ⟨3, rfl, by omega, ?_⟩, by decide, rfl, by decide, by decide, by decide⟩
  intro j e hj he
  match j with
  | 0 => simp at hj; omega
  | 1 => simp at hj; omega
  | 2 => simp at hj; omega
  | j + 3 => simp at hj

/-- A matrix with two columns is printed in lines of two. -/
example : arrange 5 (⟨[3, 2], fun i => 10 * i.getD 0 0 + i.getD 1 0⟩ : Arr Nat) = [[0, 10, 20], [1, 11, 21]] := by decide

namespace Tables
section
variable [Field K] [LinearOrder K]

theorem meanAbs_iff {v : Cell K} {m : K} : meanAbs v = some m ↔ MeanAbs v m := by
  unfold meanAbs MeanAbs
  have key : ∀ l : List (Option K), l.any Option.isNone = false → l = (l.filterMap id).map some := by
    intro l
    induction l with
    | nil => intro _; rfl
    | cons x l ih =>
      intro h
      cases x with
      | none => simp at h
      | some x =>
        simp only [List.any_cons, Option.isNone_some, Bool.false_or] at h
        simpa using ih h
  constructor
  · intro h
    split at h
    · cases h
    · rename_i hn
      exact ⟨_, key _ (by simpa only [Bool.not_eq_true] using hn), (Option.some.inj h).symm⟩
  · rintro ⟨xs, h1, rfl⟩
    have h2 : (xs.map some).any Option.isNone = false := by
      rw [List.any_eq_false]
      intro x hx
      obtain ⟨y, -, rfl⟩ := List.mem_map.1 hx
      simp
    have h3 : (xs.map some).filterMap id = xs := by
      rw [List.filterMap_map]
      simp
    rw [h1, if_neg (by rw [h2]; simp), h3]

theorem lower_eq (nvars n : Nat) : lower nvars n = if nvars ≤ 3 then nvars else max 3 (nvars - n) := by
  induction n generalizing nvars with
  | zero => rw [lower]; split <;> omega
  | succ n ih =>
    rw [lower, ih]
    split_ifs <;> omega

end
end Tables

section
variable [Field K] [LinearOrder K] [DecidableEq Q]

open Classical in
/-- C66: among the variables not shown already and without missing values, the top sensitivities are those of largest mean magnitude: as many as asked for,
or fewer if variables are shown already, but at least three. Missing: if none are asked for, see `C66_zero_fails`. -/
theorem C66_top_partial {data : List (Q × Cell K)} (hd : (data.map (·.1)).Nodup) (showvars : List Q) {nvars : Nat} (hn : 0 < nvars) :
    (topKeys data showvars nvars).Nodup ∧
    (∀ k ∈ topKeys data showvars nvars, k ∉ showvars ∧ ∃ v m, (k, v) ∈ data ∧ MeanAbs v m) ∧
    (topKeys data showvars nvars).length = min (if nvars ≤ 3 then nvars else
        max 3 (nvars - (data.filter (fun kv => decide (kv.1 ∈ showvars ∧ ∃ m, MeanAbs kv.2 m))).length))
      (data.filter (fun kv => decide (kv.1 ∉ showvars ∧ ∃ m, MeanAbs kv.2 m))).length ∧
    ∀ k v m k' v' m', (k, v) ∈ data → MeanAbs v m → k ∉ showvars → k ∉ topKeys data showvars nvars →
      k' ∈ topKeys data showvars nvars → (k', v') ∈ data → MeanAbs v' m' → m ≤ m' := by
  set L := data.filterMap (fun kv => (meanAbs kv.2).map (fun m => (kv.1, m))) with hL
  set S := L.mergeSort (fun a b => decide (a.2 ≤ b.2)) with hS
  have hperm : S.Perm L := List.mergeSort_perm ..
  have hsort : S.Pairwise (fun a b => a.2 ≤ b.2) := by
    refine (List.pairwise_mergeSort (le := fun a b : Q × K => decide (a.2 ≤ b.2)) ?_ ?_ L).imp (fun h => of_decide_eq_true h)
    · intro a b c
      simp only [decide_eq_true_eq]
      exact le_trans
    · intro a b
      simpa using le_total a.2 b.2
  have hmemL : ∀ k m, (k, m) ∈ L ↔ ∃ v, (k, v) ∈ data ∧ MeanAbs v m := by
    intro k m
    rw [hL, List.mem_filterMap]
    constructor
    · rintro ⟨⟨k', v⟩, hin, he⟩
      obtain ⟨m', hm', e⟩ := Option.map_eq_some_iff.1 he
      cases e
      exact ⟨v, hin, meanAbs_iff.1 hm'⟩
    · rintro ⟨v, hin, hm⟩
      exact ⟨(k, v), hin, by rw [meanAbs_iff.2 hm]; rfl⟩
  have hndL : (L.map (·.1)).Nodup := by
    have : (L.map (·.1)).Sublist (data.map (·.1)) := by
      rw [hL]
      clear * -
      induction data with
      | nil => simp
      | cons a l ih =>
        rw [List.filterMap_cons]
        cases meanAbs a.2 with
        | none => exact List.Sublist.cons _ ih
        | some m => exact List.Sublist.cons_cons _ ih
    exact this.nodup hd
  have hndS : (S.map (·.1)).Nodup := (hperm.map _).nodup_iff.2 hndL
  set C := S.filter (fun km => decide (km.1 ∉ showvars)) with hC
  have hCk : (ranked data).filter (fun k => decide (k ∉ showvars)) = C.map (·.1) := by
    unfold ranked
    rw [List.filter_map]
    rfl
  have hcount : ∀ (p : Q → Prop) (_ : DecidablePred p) (_ : DecidablePred fun kv : Q × Cell K => p kv.1 ∧ ∃ m, MeanAbs kv.2 m), ((ranked data).filter (fun k => decide (p k))).length =
      (data.filter (fun kv => decide (p kv.1 ∧ ∃ m, MeanAbs kv.2 m))).length := by
    intro p i1 i2
    have h1 : ((ranked data).filter (fun k => decide (p k))).Perm ((L.map (·.1)).filter (fun k => decide (p k))) := (hperm.map _).filter _
    rw [h1.length_eq, hL]
    clear * -
    induction data with
    | nil => rfl
    | cons a l ih =>
      rw [List.filterMap_cons]
      cases hm : meanAbs a.2 with
      | none =>
        have : ¬ ∃ m, MeanAbs a.2 m := by
          rintro ⟨m, h⟩
          rw [meanAbs_iff.2 h] at hm
          cases hm
        simp only [Option.map_none]
        rw [ih, List.filter_cons, if_neg (by simp [this])]
      | some m =>
        have : ∃ m, MeanAbs a.2 m := ⟨m, meanAbs_iff.1 hm⟩
        simp only [Option.map_some]
        rw [List.map_cons, List.filter_cons, List.filter_cons]
        by_cases hp : p a.1
        · rw [if_pos (by simpa using hp), if_pos (by simp [hp, this]), List.length_cons, List.length_cons, ih]
        · rw [if_neg (by simpa using hp), if_neg (by simp [hp]), ih]
  set n := lower nvars ((ranked data).filter (fun k => decide (k ∈ showvars))).length with hnn
  have hn' : n = if nvars ≤ 3 then nvars else max 3 (nvars - (data.filter (fun kv => decide (kv.1 ∈ showvars ∧ ∃ m, MeanAbs kv.2 m))).length) := by
    rw [hnn, lower_eq, hcount (fun k => k ∈ showvars) _ _]
  have hpos : n ≠ 0 := by
    rw [hn']
    split_ifs <;> omega
  have htop : topKeys data showvars nvars = (C.map (·.1)).drop ((C.map (·.1)).length - n) := by
    unfold topKeys lastOf
    simp only
    have e : List.filter (fun k => decide (k ∉ showvars)) (ranked data) = C.map (·.1) := hCk
    rw [if_neg hpos, e]
  have hCnd : (C.map (·.1)).Nodup := by
    rw [← hCk]
    have : (ranked data).Nodup := hndS
    exact this.filter _
  have hCsort : C.Pairwise (fun a b => a.2 ≤ b.2) := hsort.filter _
  have hval : ∀ {k v m m'}, (k, v) ∈ data → MeanAbs v m → (k, m') ∈ L → m' = m := by
    intro k v m m' hin hm hin'
    have a1 := (hmemL k m).2 ⟨v, hin, hm⟩
    have := List.inj_on_of_nodup_map hndL a1 hin' rfl
    exact (Prod.mk.inj this).2.symm
  rw [htop]
  refine ⟨hCnd.sublist (List.drop_sublist _ _), ?_, ?_, ?_⟩
  · intro k hk
    obtain ⟨⟨k', m⟩, hin, rfl⟩ := List.mem_map.1 (List.mem_of_mem_drop hk)
    rw [hC, List.mem_filter] at hin
    obtain ⟨v, h1, h2⟩ := (hmemL _ _).1 (hperm.subset hin.1)
    exact ⟨by simpa using hin.2, v, m, h1, h2⟩
  · rw [List.length_drop, ← hn', ← hcount (fun k => k ∉ showvars) (fun k => inferInstance) _, hCk]
    omega
  · intro k v m k' v' m' hin hm hs hno hyes hin' hm'
    have a1 : (k, m) ∈ C := by
      rw [hC, List.mem_filter]
      exact ⟨hperm.symm.subset ((hmemL k m).2 ⟨v, hin, hm⟩), by simpa using hs⟩
    rw [← List.map_drop] at hno hyes
    obtain ⟨⟨k'', m''⟩, b1, rfl⟩ := List.mem_map.1 hyes
    have b2 : m'' = m' := by
      refine hval hin' hm' (hperm.subset ?_)
      have := List.mem_of_mem_drop b1
      rw [hC, List.mem_filter] at this
      exact this.1
    subst b2
    rw [← List.take_append_drop ((C.map (·.1)).length - n) C] at a1 hCsort
    rcases List.mem_append.1 a1 with a1 | a1
    · exact (List.pairwise_append.1 hCsort).2.2 _ a1 _ b1
    · exact absurd (List.mem_map_of_mem (f := fun x : Q × K => x.1) a1) hno

end

/-- C66 is violated: if no top sensitivities are asked for, all are shown. -/
theorem C66_zero_fails : ∃ data : List (Nat × Cell ℚ), (data.map (·.1)).Nodup ∧ (topKeys data [] 0).length = 2 := by
  refine ⟨[(0, .num (some 1)), (1, .num (some 2))], by decide, ?_⟩
  simp [topKeys, ranked, meanAbs, Cell.entries, lower, lastOf, List.mergeSort, List.MergeSort.Internal.splitInTwo]

namespace Tables
section
variable [Field K] [LinearOrder K] [IsStrictOrderedRing K]

theorem hidden_off {o : Opts K} (ho : o.hide = false) (v : Cell K) : v.hidden o = v := by
  cases v with
  | num x => rfl
  | arr a => rw [Cell.hidden, if_neg (by simp [ho])]

theorem touch_off {o : Opts K} (ho : o.hide = false) (p : Q → Bool) (data : List (Q × Cell K)) : touch o p data = data := by
  unfold touch
  simp [hidden_off ho]

/-- All elements of arrays are above the limit. -/
def Large (m : K) (data : List (Q × Cell K)) : Prop := ∀ kv ∈ data, ∀ a, kv.2 = .arr a → ∀ x, some x ∈ elems a → m < |x|

theorem touch_large {o : Opts K} {data : List (Q × Cell K)} (h : Large o.minval data) (p : Q → Bool) :
    contents (touch o p data) = contents data ∧ Large o.minval (touch o p data) := by
  have key : ∀ kv ∈ data, ∀ a, kv.2 = .arr a → ∀ i ∈ indices a.shape, blank o (a.at' i) = a.at' i := by
    intro kv hkv a ha i hi
    unfold blank
    split
    · rename_i hb
      obtain ⟨-, -, y, hy, hle⟩ := hb
      have := h kv hkv a ha y (by rw [← hy]; exact List.mem_map_of_mem hi)
      exact absurd hle (not_le.2 this)
    · rfl
  have key2 : ∀ kv ∈ data, ∀ a, kv.2 = .arr a → elems (⟨a.shape, fun i => blank o (a.at' i)⟩ : Arr (Option K)) = elems a := by
    intro kv hkv a ha
    unfold elems
    exact List.map_congr_left (key kv hkv a ha)
  constructor
  · unfold contents touch
    rw [List.map_map]
    apply List.map_congr_left
    intro kv hkv
    simp only [Function.comp]
    split
    · obtain ⟨k, v⟩ := kv
      cases v with
      | num x => rfl
      | arr a =>
        simp only [hidden_arr, Cell.entries]
        rw [key2 _ hkv a rfl]
    · rfl
  · intro kv' hkv' a' ha' x hx
    obtain ⟨kv, hkv, rfl⟩ := List.mem_map.1 hkv'
    split at ha'
    · obtain ⟨k, v⟩ := kv
      cases v with
      | num x => cases ha'
      | arr a =>
        simp only [hidden_arr, Cell.arr.injEq] at ha'
        subst ha'
        rw [key2 _ hkv a rfl] at hx
        exact h _ hkv a rfl x hx
    · exact h _ hkv a' ha' x hx

end
end Tables

section
variable [Field K] [LinearOrder K] [IsStrictOrderedRing K] [DecidableEq Q]

/-- C63: printing tables other than the top sensitivities leaves the solution as it is. -/
theorem C63_tables (T : Attrs Q) (r : K → K) {o : Opts K} (ho : o.hide = false) (showvars : List Q) (n : Nat) {ts : List Kind} (ht : .top ∉ ts)
    (s : Sol Q K) : (s.table T r o showvars n ts).2 = s := by
  induction ts generalizing s with
  | nil => rfl
  | cons t ts ih =>
    simp only [List.mem_cons, not_or] at ht
    have h1 : (s.table1 T r o showvars n t).2 = s := by
      have ho' : (senssOpts o o.hide).hide = false := ho
      cases t with
      | top => exact absurd rfl ht.1
      | other => rfl
      | sweep => simp only [Sol.table1, touch_off ho]
      | free => simp only [Sol.table1, touch_off ho]
      | constants => simp only [Sol.table1, touch_off ho]
      | senss => simp only [Sol.table1, touch_off ho']
    rw [Sol.table]
    simp only [h1]
    exact ih ht.2 s

/-- C63: printing any tables leaves the contents of the solution as they are. Missing: solutions in which an array of sensitivities has an element of
magnitude at most 0.001, see `C63_summary_fails`. -/
theorem C63_top_partial (T : Attrs Q) (r : K → K) {o : Opts K} (ho : o.hide = false) (showvars : List Q) (n : Nat) (ts : List Kind) {s : Sol Q K}
    (hs : Large (1 / 1000) s.senss) :
    let s' := (s.table T r o showvars n ts).2
    s'.sweep = s.sweep ∧ s'.free = s.free ∧ s'.constants = s.constants ∧ contents s'.senss = contents s.senss := by
  induction ts generalizing s with
  | nil => exact ⟨rfl, rfl, rfl, rfl⟩
  | cons t ts ih =>
    have h1 : let s1 := (s.table1 T r o showvars n t).2
        s1.sweep = s.sweep ∧ s1.free = s.free ∧ s1.constants = s.constants ∧ contents s1.senss = contents s.senss ∧ Large (1 / 1000) s1.senss := by
      have ho' : (senssOpts o o.hide).hide = false := ho
      cases t with
      | top => exact ⟨rfl, rfl, rfl, touch_large (o := senssOpts o true) hs (fun k => decide (k ∈ topKeys s.senss showvars n))⟩
      | other => exact ⟨rfl, rfl, rfl, rfl, hs⟩
      | sweep => exact ⟨touch_off ho _ _, rfl, rfl, rfl, hs⟩
      | free => exact ⟨rfl, touch_off ho _ _, rfl, rfl, hs⟩
      | constants => exact ⟨rfl, rfl, touch_off ho _ _, rfl, hs⟩
      | senss => exact ⟨rfl, rfl, rfl, touch_large (o := senssOpts o o.hide) hs _⟩
    simp only at h1
    obtain ⟨a1, a2, a3, a4, a5⟩ := h1
    obtain ⟨b1, b2, b3, b4⟩ := ih a5
    rw [Sol.table]
    exact ⟨b1.trans a1, b2.trans a2, b3.trans a3, b4.trans a4⟩

/-- C64: the tables of a solution show the variables asked for, all if none are; the top sensitivities show the top ones. Several tables are shown one
after the other, as each would be alone. -/
theorem C64_tables (T : Attrs Q) {r : K → K} (hr : Monotone r) (o : Opts K) (showvars : List Q) (n : Nat) (s : Sol Q K) :
    (Proper s.sweep → Reads T r o (fun k => showvars = [] ∨ k ∈ showvars) s.sweep (s.table1 T r o showvars n .sweep).1) ∧
    (Proper s.free → Reads T r o (fun k => showvars = [] ∨ k ∈ showvars) s.free (s.table1 T r o showvars n .free).1) ∧
    (Proper s.constants → Reads T r o (fun k => showvars = [] ∨ k ∈ showvars) s.constants (s.table1 T r o showvars n .constants).1) ∧
    (Proper s.senss → Reads T r { o with minval := 1 / 1000, byvals := true } (fun k => showvars = [] ∨ k ∈ showvars) s.senss
      (s.table1 T r o showvars n .senss).1) ∧
    (Proper s.senss → Reads T r { o with minval := 1 / 1000, byvals := true, hide := true } (fun k => k ∈ topKeys s.senss showvars n) s.senss
      (s.table1 T r o showvars n .top).1) ∧
    ∀ ts : List Kind, o.hide = false → .top ∉ ts → (s.table T r o showvars n ts).1 = ts.map (fun t => (s.table1 T r o showvars n t).1) := by
  have key : ∀ (o : Opts K) (data : List (Q × Cell K)) (f : Q → Bool) (asked : Q → Prop), (∀ k, f k = true ↔ asked k) → Proper data →
      Reads T r o asked data (varTable T r o (data.filter (fun kv => f kv.1))) := by
    classical
    intro o data f asked hf hd
    have hd' : Proper (data.filter (fun kv => f kv.1)) := fun kv hkv => hd kv (List.mem_of_mem_filter hkv)
    obtain ⟨vs, h1, h2, h3, h4⟩ := C64_shown T hr o hd'
    refine ⟨vs, h1.trans (List.Perm.of_eq ?_), h2, h3, h4⟩
    rw [List.filter_filter]
    apply List.filter_congr
    intro kv _
    by_cases ha : asked kv.1
    · rw [(hf _).2 ha]; simp [ha]
    · have : f kv.1 = false := by rw [← Bool.not_eq_true]; exact fun h => ha ((hf _).1 h)
      rw [this]; simp [ha]
  have hp : ∀ k, picked showvars k = true ↔ showvars = [] ∨ k ∈ showvars := by intro k; simp [picked]
  refine ⟨key o _ _ _ hp, key o _ _ _ hp, key o _ _ _ hp, key _ _ _ _ hp, ?_, ?_⟩
  · exact key _ _ (fun k => decide (k ∈ topKeys s.senss showvars n)) _ (by simp)
  · intro ts ho ht
    induction ts with
    | nil => rfl
    | cons t ts ih =>
      simp only [List.mem_cons, not_or] at ht
      have h1 := C63_tables T r ho showvars n (ts := [t]) (by simpa using ht.1) s
      simp only [Sol.table] at h1
      rw [Sol.table]
      simp only [h1, List.map_cons]
      rw [ih ht.2]

end

/-- Attributes of variables without models. -/
def tableAttrs : Attrs Nat := ⟨fun _ => [], fun _ => ['x'], fun _ => ['x'], fun _ => [], fun _ => []⟩

/-- A solution with seven constants, the first of them a vector with sensitivities 1/2 and 1/2000. -/
def tableSol : Sol Nat ℚ :=
  ⟨[], [], (List.range 7).map (fun i => (i, .num (some 1))), [(0, .arr ⟨[2], fun i => if i = [0] then some (1 / 2) else some (1 / 2000)⟩)]⟩

/-- C63 is violated: `summary()` replaces small sensitivities in the solution by NaN. A second `summary()` does not show the variable any more. -/
theorem C63_summary_fails : ∃ (T : Attrs Nat) (o : Opts ℚ) (s : Sol Nat ℚ), o.hide = false ∧
    s.senss.map (fun kv => kv.2.entries) = [[some (1 / 2), some (1 / 2000)]] ∧
    (s.summary T id o [] 5).2.senss.map (fun kv => kv.2.entries) = [[some (1 / 2), none]] ∧
    topKeys s.senss [] 5 = [0] ∧ topKeys (s.summary T id o [] 5).2.senss [] 5 = [] := by
  refine ⟨tableAttrs, { minval := 0, msenss := fun _ => 0 }, tableSol, rfl, ?_, ?_, ?_, ?_⟩ <;> decide +kernel

/-- A vector with large sensitivities stays. -/
example : Large (1 / 1000) [(0, Cell.arr (⟨[2], fun _ => some (1 / 2 : ℚ)⟩ : Arr (Option ℚ)))] := by
  intro kv hkv a ha x hx
  simp only [List.mem_singleton] at hkv
  subst hkv
  cases ha
  obtain ⟨i, -, h⟩ := List.mem_map.1 hx
  cases h
  norm_num [abs_of_pos]

/-- Two variables of a model and one without: the hypotheses of C64 are met; a variable that is zero is not shown, the others are. -/
example : ∃ (T : Attrs Nat) (o : Opts ℚ) (u v w : Nat × Cell ℚ), Proper [u, v, w] ∧ Monotone (id : ℚ → ℚ) ∧ ¬ Shown T o u ∧ Shown T o v ∧ Shown T o w ∧
    v.2.lines 5 = [[some 4, some 5]] := by
  refine ⟨⟨fun k => if k = 2 then [] else ['M'], fun _ => ['x'], fun _ => ['x'], fun _ => [], fun _ => []⟩, { minval := 0, msenss := fun _ => 0 },
    (0, .num (some 0)), (1, .arr ⟨[2], fun i => if i = [0] then some 4 else some 5⟩), (2, .num (some 3)), ?_, fun _ _ h => h, ?_, ?_, ?_, ?_⟩
  · intro kv hkv a ha
    simp only [List.mem_cons, List.not_mem_nil, or_false] at hkv
    rcases hkv with rfl | rfl | rfl
    · cases ha
    · cases ha; simp
    · cases ha
  · simp [Shown, Cell.entries]
  · refine ⟨⟨4, ?_, by norm_num [abs_of_pos]⟩, by simp, by simp⟩
    simp [Cell.entries, elems, indices, List.range_succ]
  · exact ⟨⟨3, by simp [Cell.entries], by norm_num [abs_of_pos]⟩, by simp, by simp⟩
  · decide +kernel

end Verif
