import Verif.Model.Insens
import Verif.Props.Table

/-! C91: the table of insensitive variables. -/

set_option linter.unusedSectionVars false

namespace Verif
open Vectors Tables
variable {Q K : Type} [Field K] [LinearOrder K]

namespace Tables

theorem slight_iff {maxval : K} {v : Cell K} : v.slight maxval = true ↔ v.entries ≠ [] ∧ ∃ m, MeanAbs v m ∧ m < maxval := by
  unfold Cell.slight
  cases h : meanAbs v with
  | none =>
    simp only [Bool.false_eq_true, false_iff]
    rintro ⟨-, m, hm, -⟩
    rw [meanAbs_iff.2 hm] at h
    cases h
  | some m =>
    have hm := meanAbs_iff.1 h
    simp only [Bool.and_eq_true, Bool.not_eq_true', List.isEmpty_eq_false_iff, decide_eq_true_eq]
    refine and_congr_right (fun _ => ⟨fun hlt => ⟨m, hm, hlt⟩, ?_⟩)
    rintro ⟨m', hm', hlt⟩
    rw [meanAbs_iff.2 hm'] at h
    cases h
    exact hlt

/-- What sensitivity tables show at least. -/
def floor (o : Opts K) : Opts K := { o with minval := 1 / 1000, byvals := true }

end Tables

variable [IsStrictOrderedRing K]

open Classical in
/-- C91, what is listed: a reader finds the variables whose mean magnitude of sensitivity is below `maxval` and that have a sensitivity above 0.001, each once, below the
heading of its model and with its values, in order. Missing: variables none of whose sensitivities is above 0.001, see `C91_least_fails`. -/
theorem C91_listed_partial (T : Attrs Q) {r : K → K} (hr : Monotone r) (o : Opts K) (showvars : List Q) (maxval : K) {data : List (Q × Cell K)} (hd : Proper data) :
    ∃ vs : List (Q × Cell K), vs.Perm (data.filter (fun kv => decide ((kv.2.entries ≠ [] ∧ ∃ m, MeanAbs kv.2 m ∧ m < maxval) ∧ Shown T (floor o) kv))) ∧
      vs.Pairwise (Ordered T r (floor o)) ∧
      read [] none (insensTable T r o showvars maxval data) = vs.flatMap (fun kv => (kv.2.lines o.cols).map (fun l => (below T o kv.1, some kv.1, l.map (blank (floor o))))) ∧
      (headings (insensTable T r o showvars maxval data)).Nodup := by
  obtain ⟨vs, h1, h2, h3, h4⟩ := C64_shown T hr (senssOpts o o.hide) (data := data.filter (fun kv => kv.2.slight maxval)) (fun kv hkv => hd kv (List.mem_of_mem_filter hkv))
  refine ⟨vs, ?_, h2, h3, h4⟩
  rw [List.filter_filter] at h1
  refine h1.trans (List.Perm.of_eq (List.filter_congr (fun kv _ => ?_)))
  rw [Bool.eq_iff_iff, Bool.and_eq_true, slight_iff, decide_eq_true_eq, decide_eq_true_eq]
  exact and_comm

/-- C91, nothing else: a variable in the table has a mean magnitude of sensitivity below `maxval`. -/
theorem C91_sound (T : Attrs Q) {r : K → K} (hr : Monotone r) (o : Opts K) (showvars : List Q) (maxval : K) {data : List (Q × Cell K)} (hd : Proper data)
    {m : Str} {k : Q} {l : List (Option K)} (h : (m, some k, l) ∈ read [] none (insensTable T r o showvars maxval data)) :
    ∃ v x, (k, v) ∈ data ∧ MeanAbs v x ∧ x < maxval := by
  classical
  obtain ⟨vs, h1, -, h3, -⟩ := C91_listed_partial T hr o showvars maxval hd
  rw [h3, List.mem_flatMap] at h
  obtain ⟨kv, hkv, h⟩ := h
  obtain ⟨l', -, e⟩ := List.mem_map.1 h
  have hm := List.mem_filter.1 (h1.mem_iff.1 hkv)
  obtain ⟨⟨-, x, hx, hlt⟩, -⟩ := of_decide_eq_true hm.2
  have hk : kv.1 = k := Option.some.inj (congrArg (fun t : Str × Option Q × List (Option K) => t.2.1) e)
  exact ⟨kv.2, x, hk ▸ hm.1, hx, hlt⟩

/-- C91, the others: a variable with mean magnitude of sensitivity below `maxval` is in the table if it has a sensitivity above 0.001 and its model is not left out.
Missing: as above. -/
theorem C91_complete_partial (T : Attrs Q) {r : K → K} (hr : Monotone r) (o : Opts K) (showvars : List Q) (maxval : K) {data : List (Q × Cell K)} (hd : Proper data)
    {k : Q} {v : Cell K} {x y : K} (hk : (k, v) ∈ data) (hx : MeanAbs v x) (hlt : x < maxval) (hy : some y ∈ v.entries) (h0 : 1 / 1000 < |y|)
    (hi : o.incl = [] ∨ below T o k = [] ∨ below T o k ∈ o.incl) (he : below T o k ∉ o.excl) :
    ∃ l, (below T o k, some k, l) ∈ read [] none (insensTable T r o showvars maxval data) := by
  classical
  obtain ⟨vs, h1, -, h3, -⟩ := C91_listed_partial T hr o showvars maxval hd
  have hne : v.entries ≠ [] := List.ne_nil_of_mem hy
  have hmem : (k, v) ∈ vs := h1.mem_iff.2 (List.mem_filter.2 ⟨hk, decide_eq_true ⟨⟨hne, x, hx, hlt⟩, ⟨y, hy, h0⟩, hi, he⟩⟩)
  obtain ⟨l, ls, hl⟩ := List.exists_cons_of_ne_nil (lines_ne (fun a ha => hd _ hk a ha) hne o.cols)
  refine ⟨l.map (blank (floor o)), ?_⟩
  rw [h3, List.mem_flatMap]
  exact ⟨(k, v), hmem, List.mem_map.2 ⟨l, by rw [hl]; simp, rfl⟩⟩

/-- C91 fails: the least sensitive variables are not in the table. None is that has no sensitivity above 0.001, whatever `maxval`. -/
theorem C91_least_fails (T : Attrs Q) {r : K → K} (hr : Monotone r) (o : Opts K) (showvars : List Q) (maxval : K) {data : List (Q × Cell K)} (hd : Proper data)
    {k : Q} (hs : ∀ v x, (k, v) ∈ data → some x ∈ v.entries → |x| ≤ 1 / 1000) (m : Str) (l : List (Option K)) :
    (m, some k, l) ∉ read [] none (insensTable T r o showvars maxval data) := by
  classical
  intro h
  obtain ⟨vs, h1, -, h3, -⟩ := C91_listed_partial T hr o showvars maxval hd
  rw [h3, List.mem_flatMap] at h
  obtain ⟨kv, hkv, h⟩ := h
  obtain ⟨l', -, e⟩ := List.mem_map.1 h
  have hm := List.mem_filter.1 (h1.mem_iff.1 hkv)
  obtain ⟨-, ⟨x, hx, hlt⟩, -⟩ := of_decide_eq_true hm.2
  have hk : kv.1 = k := Option.some.inj (congrArg (fun t : Str × Option Q × List (Option K) => t.2.1) e)
  exact absurd (hs kv.2 x (hk ▸ hm.1) hx) (not_le.2 hlt)

/-- C91 fails: variables that were not asked for are listed too, just like others: asking makes no difference. -/
theorem C91_asked_fails (T : Attrs Q) {r : K → K} (hr : Monotone r) (o : Opts K) (hi : o.incl = []) (he : o.excl = []) (asked other : Q) :
    ∃ l, (below T o other, some other, l) ∈ read [] none (insensTable T r o [asked] (1 / 10) [(asked, .num (some (1 / 20))), (other, .num (some (1 / 20)))]) := by
  refine C91_complete_partial T hr o [asked] (1 / 10) (v := .num (some (1 / 20))) (x := 1 / 20) (y := 1 / 20) ?_ (by simp) ⟨[1 / 20], rfl, ?_⟩ ?_ (by simp [Cell.entries]) ?_
    (.inl hi) (by simp [he])
  · intro kv hkv a ha
    simp only [List.mem_cons, List.not_mem_nil, or_false] at hkv
    rcases hkv with rfl | rfl <;> cases ha
  · rw [List.map_singleton, List.sum_singleton, abs_of_pos (by norm_num)]
    norm_num
  · norm_num
  · rw [abs_of_pos (by norm_num)]
    norm_num

/-- Two variables, of sensitivities 0.05 and zero. -/
def slightData : List (Nat × Cell ℚ) := [(0, .num (some (1 / 20))), (1, .num (some 0))]

example : Proper slightData := by simp [Proper, slightData]
example : MeanAbs (.num (some (1 / 20 : ℚ))) (1 / 20) ∧ (1 / 20 : ℚ) < 1 / 10 ∧ (1 / 1000 : ℚ) < |1 / 20| :=
  ⟨⟨[1 / 20], rfl, by norm_num [abs_of_pos]⟩, by norm_num, by norm_num [abs_of_pos]⟩
example : ∀ v x, (1, v) ∈ slightData → some x ∈ v.entries → |x| ≤ 1 / 1000 := by
  rintro v x hv hx
  simp only [slightData, List.mem_cons, Prod.mk.injEq, one_ne_zero, false_and, true_and, List.not_mem_nil, or_false, false_or] at hv
  subst hv
  simp only [Cell.entries, List.mem_singleton, Option.some.injEq] at hx
  subst hx
  norm_num
example : MeanAbs (.num (some (0 : ℚ))) 0 := ⟨[0], rfl, by norm_num⟩

end Verif
