import Verif.Lemmas.Latex

/-!
# C89: LaTeX means what it shows

What is read in the LaTeX of a nomial is the nomial with its numbers rounded. The LaTeX of a set has a row for each constraint.
-/

set_option linter.unusedSectionVars false

namespace Verif
open VK Latex

variable {V : Type}

/-- C89, rounding: what is read in the LaTeX of a nomial is a nomial with the same variables in the same terms, of which the exponents are right to two digits and
the coefficients to four, or to two where `1` or `-1` is shown and a variable has a positive exponent. -/
theorem C89_rounded {F : Sorting V} (hF : F.Valid) {ts : List (HV V ℝ × ℝ)} (hne : ts ≠ []) :
    ∃ ts', List.Forall₂ NearTerm ts ts' ∧ ∀ pt : V → ℝ, (∀ v, 0 < pt v) → read pt (nomial F ts) = some (termsVal pt ts') := by
  refine ⟨ts.map shownTerm, ?_, fun pt hpt => read_nomial hF hpt hne⟩
  rw [List.forall₂_map_right_iff]
  exact List.forall₂_same.2 (fun t _ => near_shownTerm t)

/-- C89, expressions: the LaTeX of a nomial denotes it. Missing: numbers of more digits than are shown, coefficients that are shown as one (`C89_one_fails`), nomials
without terms (`C89_empty_fails`), and texts in which the name of a variable looks like something else. -/
theorem C89_expression_partial {F : Sorting V} (hF : F.Valid) {ts : List (HV V ℝ × ℝ)} (hne : ts ≠ []) (h : ∀ t ∈ ts, Fits t) {pt : V → ℝ} (hpt : ∀ v, 0 < pt v) :
    read pt (nomial F ts) = some (termsVal pt ts) := by
  have : ts.map shownTerm = ts := by
    conv_rhs => rw [← List.map_id ts]
    exact List.map_congr_left (fun t ht => shownTerm_fits (h t ht))
  rw [read_nomial hF hpt hne, this]

/-- C89, constraints: the LaTeX of a constraint says what it does. Missing: as for expressions. -/
theorem C89_constraint_partial {F : Sorting V} (hF : F.Valid) {l r : List (HV V ℝ × ℝ)} {o : Outline.Oper} (hl : l ≠ []) (hr : r ≠ []) (h : ∀ t ∈ l ++ r, Fits t)
    {pt : V → ℝ} (hpt : ∀ v, 0 < pt v) : Says pt (constraint F l o r) (relHolds o (termsVal pt l) (termsVal pt r)) :=
  ⟨_, _, _, _, _, sides_append (nomial_no_rel hF l) o _, C89_expression_partial hF hl (fun t ht => h t (by simp [ht])) hpt,
    C89_expression_partial hF hr (fun t ht => h t (by simp [ht])) hpt, Iff.rfl⟩

/-- C89, rows: the LaTeX of a set has a row for the cost, if it has one, and then one for each constraint in order, however deep it is. -/
theorem C89_rows (cost : Option Str) {l : List Item} (hp : AllPlain l) :
    ∃ rs, Rows l rs ∧ setLatex true cost l =
      unlines (["\\begin{array}{ll} \\text{}".toList] ++
        (match cost with
          | some c => ["\\text{minimize}".toList, row c, "\\text{subject to}".toList]
          | none => []) ++ rs.map row ++ ["\\end{array}".toList]) := by
  obtain ⟨rs, h⟩ := rows_exist l
  refine ⟨rs, h, ?_⟩
  have hi := itemLines_rows h hp
  have hn : itemLines l = [] ↔ rs.map row = [] := by
    have : itemLines l = [] ↔ l = [] := by cases l <;> simp [itemLines]
    rw [this, rows_nil h]
    simp
  have hend : unlines (itemLines l ++ [ends]) = unlines (rs.map row ++ [ends]) := by
    by_cases h0 : itemLines l = []
    · rw [h0, hn.1 h0]
    · rw [unlines_append h0 (by simp), unlines_append (fun hr => h0 (hn.2 hr)) (by simp), hi]
  unfold setLatex
  rw [if_pos rfl, joinLines_eq]
  cases cost with
  | none =>
    show unlines (begins :: (itemLines l ++ [ends])) = unlines (begins :: (rs.map row ++ [ends]))
    rw [unlines_cons _ (by simp), unlines_cons _ (by simp), hend]
  | some c =>
    show unlines (begins :: rootlatex c :: (itemLines l ++ [ends])) = unlines ([begins] ++ (["\\text{minimize}".toList, row c, "\\text{subject to}".toList] ++ (rs.map row ++ [ends])))
    rw [List.singleton_append, unlines_cons begins (by simp), unlines_cons begins (by simp), unlines_cons (rootlatex c) (by simp),
      unlines_append (a := ["\\text{minimize}".toList, row c, "\\text{subject to}".toList]) (by simp) (by simp), ← hend]
    have hr : rootlatex c = unlines ["\\text{minimize}".toList, row c, "\\text{subject to}".toList] := by
      unfold rootlatex
      rw [joinLines_eq]
      rfl
    rw [hr]

/-! ### Where LaTeX says something else -/

/-- C89 does not hold for all coefficients: `1.04*x` is shown as `x`, though four digits are shown of other coefficients. -/
theorem C89_one_fails : ∃ (ts : List (HV ℕ ℝ × ℝ)) (pt : ℕ → ℝ), (∀ v, 0 < pt v) ∧ (∀ t ∈ ts, Short 4 t.2 ∧ ∀ vx ∈ t.1.items, Short 2 vx.2) ∧
    read pt (nomial (asMade ℕ) ts) ≠ some (termsVal pt ts) := by
  have h1 : shown 2 (1 : ℝ) = 1 := shown_short ⟨1, 0, by norm_num, by norm_num⟩
  refine ⟨[(⟨[(0, 1)]⟩, 1.04)], fun _ => 1, fun _ => one_pos, ?_, ?_⟩
  · intro t ht
    rw [List.mem_singleton] at ht
    subst ht
    refine ⟨⟨104, -2, by norm_num, by norm_num⟩, fun vx hvx => ?_⟩
    rw [List.mem_singleton] at hvx
    subst hvx
    exact ⟨1, 0, by norm_num, by norm_num⟩
  · rw [read_nomial asMade_valid (fun _ => one_pos) (by simp)]
    have : shown 2 (1.04 : ℝ) = 1 := shown_104
    norm_num at this
    simp [termsVal, monVal, shownTerm, shownCoef]
    norm_num
    simp [this]
    norm_num

/-- Nor for a nomial without terms, of which the LaTeX is empty. -/
theorem C89_empty_fails {F : Sorting V} (hF : F.Valid) (pt : V → ℝ) : read pt (nomial F []) = none := by
  unfold nomial
  rw [List.map_nil, (hF.terms []).eq_nil]
  rfl

/-- LaTeX depends on earlier calls where `excluded` is a list: the second time the array around the rows is missing. -/
theorem C89_list_fails : ∃ (cost : Option Str) (l : List Item) (ex : List Str),
    (callLatex cost l (callLatex cost l ex).2).1 ≠ (callLatex cost l ex).1 := by
  refine ⟨none, [], ["units".toList], ?_⟩
  decide +kernel

/-- `2 x / y + 12000`, of which the LaTeX is `2\frac{x}{y} + 1.2 \times 10^{4}`. -/
example : read (fun _ => 2) (nomial (asMade ℕ) [(⟨[(0, 1), (1, -1)]⟩, 2), (⟨[]⟩, 12000)]) = some (termsVal (fun _ => 2) [(⟨[(0, 1), (1, -1)]⟩, 2), (⟨[]⟩, 12000)]) := by
  refine C89_expression_partial asMade_valid (by simp) (fun t ht => ?_) (fun _ => by norm_num)
  rcases List.mem_cons.1 ht with rfl | ht
  · refine ⟨⟨2, 0, by norm_num, by norm_num⟩, fun h => ?_, fun h => ?_, fun vx hvx => ?_⟩
    · unfold Near at h; norm_num [abs_le] at h
    · unfold Near at h; norm_num [abs_le] at h
    · rcases List.mem_cons.1 hvx with rfl | hvx
      · exact ⟨1, 0, by norm_num, by norm_num⟩
      · rw [List.mem_singleton] at hvx
        subst hvx
        exact ⟨-1, 0, by norm_num, by norm_num⟩
  · rw [List.mem_singleton] at ht
    subst ht
    refine ⟨⟨12, 3, by norm_num, by norm_num⟩, fun h => ?_, fun h => ?_, fun vx hvx => by simp at hvx⟩
    · unfold Near at h; norm_num [abs_le] at h
    · unfold Near at h; norm_num [abs_le] at h

/-- A set in which a set is. -/
example : AllPlain [.con "x".toList, .set [.con "y".toList, .set []]] ∧ Rows [.con "x".toList, .set [.con "y".toList, .set []]] ["x".toList, "y".toList, []] := by
  refine ⟨?_, .con (.set (rs := ["y".toList, []]) (.con (.empty .nil)) .nil)⟩
  rw [AllPlain, AllPlain, AllPlain, Item.Plain, Item.Plain, AllPlain, AllPlain, AllPlain, Item.Plain, Item.Plain, AllPlain]
  exact ⟨by decide, ⟨by decide, trivial, trivial⟩, trivial⟩

end Verif
