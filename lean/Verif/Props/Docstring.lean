import Verif.Lemmas.DocWrite

/-!
# C48: declarations in docstrings keep their line positions
-/

set_option linter.unusedSectionVars false

namespace Verif
open Docstring Str

variable {ws : Char → Bool}

namespace Docstring

theorem parse_writes {s : Str} {c v w : Str × List Nat} (h1 : parseFlag ws .constants s = .ok c) (h2 : parseFlag ws .scalars s = .ok v)
    (h3 : parseFlag ws .vectors s = .ok w) :
    parseLines ws s = .ok (((lines c.1).zip c.2 ++ ((lines v.1).zip v.2 ++ (lines w.1).zip w.2)).foldl (writeLine ws) (commented s)) := by
  rw [parseLines, h1, h2, h3]
  simp [bind, Except.bind, pure, Except.pure, List.foldl_append]

theorem writes_newline (c v w : Str × List Nat) :
    ∀ x ∈ ((lines c.1).zip c.2 ++ ((lines v.1).zip v.2 ++ (lines w.1).zip w.2)), '\n' ∉ x.1 := by
  intro x hx
  simp only [List.mem_append] at hx
  rcases hx with hx | hx | hx
  all_goals exact lines_no_newline _ _ (List.of_mem_zip (a := x.1) (b := x.2) hx).1

theorem parse_lines_facts {s : Str} {out : List Str} (h : parseLines ws s = .ok out) : out.length = (lines s).length ∧ lines (unlines out) = out := by
  cases h1 : parseFlag ws .constants s with
  | error e => rw [parseLines, h1] at h; cases h
  | ok c =>
    cases h2 : parseFlag ws .scalars s with
    | error e => rw [parseLines, h1, h2] at h; cases h
    | ok v =>
      cases h3 : parseFlag ws .vectors s with
      | error e => rw [parseLines, h1, h2, h3] at h; cases h
      | ok w =>
        rw [parse_writes h1 h2 h3] at h
        cases h
        have hlen : (((lines c.1).zip c.2 ++ ((lines v.1).zip v.2 ++ (lines w.1).zip w.2)).foldl (writeLine ws) (commented s)).length = (lines s).length := by
          rw [foldl_writeLine_length, commented_length]
        refine ⟨hlen, lines_unlines ?_ (foldl_writeLine_newline _ (writes_newline c v w) _ (commented_newline s))⟩
        intro h0
        rw [h0] at hlen
        exact lines_ne_nil s (List.length_eq_zero_iff.1 hlen.symm)

theorem reads_newline {line : Str} {f : Fields} (h : Reads ws line f) (hl : '\n' ∉ line) : ∀ x ∈ f.all, '\n' ∉ x := by
  obtain ⟨a, v, b, d, -, -, -, rfl, -, hv, -⟩ := h
  simp only [List.mem_append, List.mem_cons, not_or] at hl
  intro x hx
  simp only [Fields.all, List.mem_append, List.mem_cons, List.not_mem_nil, or_false, Option.mem_toList] at hx
  rcases hx with (rfl | rfl | rfl) | hx
  · exact hl.2.1
  · exact hl.2.2.2.2.2.1
  · exact hl.2.2.2.2.2.2.2.2
  · have : f.value = some x := by simpa using hx
    rw [this] at hv
    obtain ⟨m, -, -, rfl, -⟩ := hv
    have := hl.2.2.1
    simp only [List.mem_append, not_or] at this
    exact this.2

theorem quote_newline {l : Str} (h : '\n' ∉ l) : '\n' ∉ quote l := by
  intro hm
  simp only [quote, List.mem_flatMap] at hm
  obtain ⟨c, hc, hm⟩ := hm
  split at hm
  · revert hm; decide
  · simp only [List.mem_singleton] at hm
    subst hm
    exact h hc

theorem code_newline {k : Kind} {n : Str} {f : Fields} (hn : '\n' ∉ n) (hf : ∀ x ∈ f.all, '\n' ∉ x) : '\n' ∉ code k n f := by
  obtain ⟨h1, h2, h3, h4⟩ := plain_name hf
  have hv : '\n' ∉ f.valueText := by
    rw [Fields.valueText]
    cases hval : f.value with
    | none => simp
    | some v =>
      simp only [List.mem_append, not_or]
      exact ⟨h4 v hval, by decide⟩
  unfold code
  simp only [List.mem_append, not_or]
  refine ⟨⟨⟨⟨⟨⟨⟨⟨⟨⟨⟨⟨⟨⟨h1, by decide⟩, h1⟩, by decide⟩, ?_⟩, by decide⟩, h1⟩, by decide⟩, hv⟩, by decide⟩, h2⟩, by decide⟩, quote_newline h3⟩, by decide⟩, ?_⟩
  · split
    · simp only [List.mem_append, not_or]
      exact ⟨⟨by decide, hn⟩, by decide⟩
    · decide
  · split <;> decide

theorem declText_code {k : Kind} {f : Fields} (h : Plain k f) (n : Str) (hn : k ≠ .vectors → n = []) : declText k n (code .scalars [] f) = code k n f := by
  cases k with
  | scalars => rw [hn (by decide)]; rfl
  | constants => rw [hn (by decide)]; exact replace_constants h
  | vectors => exact replace_vectors h n

/-- The declarations of one kind, and where they go. -/
theorem parseFlag_ok (hb : ws '[' = false) (hb' : ws ']' = false) (k : Kind) (s : Str) (F : Nat → Fields)
    (hread : ∀ j i l, Declares ws k (lines s) j i → (lines s)[i]? = some l → Reads ws l (F i) ∧ Plain k (F i))
    (hown : ∀ j i, Declares ws k (lines s) j i → ∀ m < i, ∀ l l', (lines s)[i]? = some l → (lines s)[m]? = some l' → ¬ l <:+: l')
    (hvec : k = .vectors → Underlined (lines s)) :
    ∃ p, parseFlag ws k s = .ok p ∧ (lines p.1).zip p.2 = (secs ws k 0 (lines s)).map (fun x => (code k x.1 (F x.2.1), x.2.1)) := by
  have facts : ∀ x ∈ secs ws k 0 (lines s), ∃ j, Declares ws k (lines s) j x.2.1 ∧ (lines s)[x.2.1]? = some x.2.2 ∧ '\n' ∉ x.1 ∧ (k ≠ .vectors → x.1 = []) := by
    rintro ⟨n, p, x⟩ hx
    obtain ⟨j, i, hp, hD, hx, h, hj, hn⟩ := (mem_secs _ _ _ _ _).1 hx
    have : p = i := by omega
    subst this
    refine ⟨j, hD, hx, ?_, ?_⟩
    · rw [hn]
      cases k with
      | vectors => exact fun hm => lines_no_newline s h (List.mem_of_getElem? hj) (List.mem_of_mem_drop (mem_strip hm))
      | _ => simp [lenText]
    · intro hk
      rw [hn]
      cases k with
      | vectors => exact absurd rfl hk
      | _ => rfl
  have hmap : (secs ws k 0 (lines s)).mapM (fun x => (lineDecl ws x.2.2).map (declText k x.1)) =
      .ok ((secs ws k 0 (lines s)).map (fun x => code k x.1 (F x.2.1))) := by
    apply mapM_ok
    intro x hx
    obtain ⟨j, hD, hl, -, hn⟩ := facts x hx
    obtain ⟨hr, hpl⟩ := hread j _ _ hD hl
    rw [lineDecl_reads hb hb' hr]
    simp only [Except.map]
    rw [declText_code hpl _ hn]
  have hidx : (secs ws k 0 (lines s)).map (fun x => lineIdx s x.2.2) = (secs ws k 0 (lines s)).map (fun x => x.2.1) := by
    apply List.map_congr_left
    intro x hx
    obtain ⟨j, hD, hl, -⟩ := facts x hx
    obtain ⟨l', hl', hnb⟩ := hD.2.2 _ hD.2.1 (le_refl _)
    rw [hl] at hl'
    cases hl'
    have hne : x.2.2 ≠ [] := by
      intro h0
      rw [h0] at hnb
      obtain ⟨c, hc, -⟩ := hnb
      simp at hc
    obtain ⟨n, hn1, hn2⟩ := line_of_index (lines_no_newline s _ (List.mem_of_getElem? hl)) hne (lines_ne_nil s) (lines_no_newline s) hl
      (List.infix_refl _) (fun m hm y hy => hown j _ hD m hm _ _ hl hy)
    rw [unlines_lines] at hn1 hn2
    rw [lineIdx, hn1]
    exact hn2
  refine ⟨_, by rw [parseFlag_eq k s hvec, gather, hmap], ?_⟩
  simp only
  rw [lines_flat, hidx]
  · have : ∀ (S : List (Str × Nat × Str)), (S.map (fun x : Str × Nat × Str => code k x.1 (F x.2.1)) ++ [[]]).zip (S.map (fun x : Str × Nat × Str => x.2.1)) =
        S.map (fun x => (code k x.1 (F x.2.1), x.2.1)) := by
      intro S
      induction S with
      | nil => rfl
      | cons x S ih => simp [ih]
    exact this _
  · intro d hd
    obtain ⟨x, hx, rfl⟩ := List.mem_map.1 hd
    obtain ⟨j, hD, hl, hn, -⟩ := facts x hx
    obtain ⟨hr, -⟩ := hread j _ _ hD hl
    exact code_newline hn (reads_newline hr (lines_no_newline s _ (List.mem_of_getElem? hl)))

end Docstring

/-- Whatever the docstring, the code has as many lines. -/
theorem C48_lines (ws : Char → Bool) (s out : Str) (h : parseVarstring ws s = .ok out) : (lines out).length = (lines s).length := by
  rw [parseVarstring] at h
  cases hp : parseLines ws s with
  | error e => rw [hp] at h; cases h
  | ok o =>
    rw [hp] at h
    cases h
    obtain ⟨h1, h2⟩ := parse_lines_facts hp
    rw [h2, h1]

/-- Each line declared becomes its declaration, on the line where it was; every other line becomes a comment. Missing: lines whose text occurs in
an earlier line, fields containing pieces of the statements, headings of vectors with short underlines, lines in another format. -/
theorem C48_declared_partial (ws : Char → Bool) (hb : ws '[' = false) (hb' : ws ']' = false) (s : Str) (F : Nat → Fields)
    (hread : ∀ k j i l, Declares ws k (lines s) j i → (lines s)[i]? = some l → Reads ws l (F i) ∧ Plain k (F i))
    (hown : ∀ k j i, Declares ws k (lines s) j i → ∀ m < i, ∀ l l', (lines s)[i]? = some l → (lines s)[m]? = some l' → ¬ l <:+: l')
    (hvec : Underlined (lines s)) :
    ∃ out, parseVarstring ws s = .ok out ∧ (lines out).length = (lines s).length ∧ ∀ (i : Nat) (l : Str), (lines s)[i]? = some l →
      ∃ o : Str, (lines out)[i]? = some o ∧
        ((∃ k j n, Declares ws k (lines s) j i ∧ LengthOf ws k (lines s) j n ∧ ∃ r, o = code k n (F i) ++ "  # from '".toList ++ r ++ "'".toList) ∨
        ((¬ ∃ k j, Declares ws k (lines s) j i) ∧
          o = (if i = 0 then "from gpkit import Variable, VectorVariable  ".toList else []) ++ "# ".toList ++ l)) := by
  have hk : ∀ k, ∃ p, parseFlag ws k s = .ok p ∧ (lines p.1).zip p.2 = (secs ws k 0 (lines s)).map (fun x => (code k x.1 (F x.2.1), x.2.1)) :=
    fun k => parseFlag_ok hb hb' k s F (hread k) (hown k) (fun _ => hvec)
  obtain ⟨c, hc, ec⟩ := hk .constants
  obtain ⟨v, hv, ev⟩ := hk .scalars
  obtain ⟨w, hw, ew⟩ := hk .vectors
  have hp := parse_writes hc hv hw
  rw [ec, ev, ew] at hp
  obtain ⟨h1, h2⟩ := parse_lines_facts hp
  refine ⟨_, by rw [parseVarstring, hp]; rfl, ?_, ?_⟩
  · simp only [h2, h1]
  · intro i l hl
    simp only [h2]
    obtain ⟨o, ho, hcase⟩ := foldl_writeLine_get (ws := ws) ((secs ws .constants 0 (lines s)).map (fun x => (code .constants x.1 (F x.2.1), x.2.1)) ++
      ((secs ws .scalars 0 (lines s)).map (fun x => (code .scalars x.1 (F x.2.1), x.2.1)) ++
        (secs ws .vectors 0 (lines s)).map (fun x => (code .vectors x.1 (F x.2.1), x.2.1)))) _ i _ (commented_get s i l hl)
    refine ⟨o, ho, ?_⟩
    have mem : ∀ t, (t, i) ∈ ((secs ws .constants 0 (lines s)).map (fun x => (code .constants x.1 (F x.2.1), x.2.1)) ++
      ((secs ws .scalars 0 (lines s)).map (fun x => (code .scalars x.1 (F x.2.1), x.2.1)) ++
        (secs ws .vectors 0 (lines s)).map (fun x => (code .vectors x.1 (F x.2.1), x.2.1)))) ↔
          ∃ k n x, (n, i, x) ∈ secs ws k 0 (lines s) ∧ t = code k n (F i) := by
      intro t
      simp only [List.mem_append, List.mem_map, Prod.exists, Prod.mk.injEq]
      constructor
      · rintro (⟨n, _, x, h, rfl, rfl⟩ | ⟨n, _, x, h, rfl, rfl⟩ | ⟨n, _, x, h, rfl, rfl⟩)
        · exact ⟨_, n, x, h, rfl⟩
        · exact ⟨_, n, x, h, rfl⟩
        · exact ⟨_, n, x, h, rfl⟩
      · rintro ⟨k, n, x, h, rfl⟩
        cases k with
        | constants => exact Or.inl ⟨n, i, x, h, rfl, rfl⟩
        | scalars => exact Or.inr (Or.inl ⟨n, i, x, h, rfl, rfl⟩)
        | vectors => exact Or.inr (Or.inr ⟨n, i, x, h, rfl, rfl⟩)
    rcases hcase with ⟨hno, rfl⟩ | ⟨t, r, ht, rfl⟩
    · right
      constructor
      · rintro ⟨k, j, hD⟩
        obtain ⟨y, hy, -⟩ := hD.1.2
        exact hno _ ((mem _).2 ⟨k, lenText ws k y, l, (mem_secs _ _ _ _ _).2 ⟨j, i, by omega, hD, hl, y, hy, rfl⟩, rfl⟩)
      · by_cases h0 : i = 0
        · rw [if_pos h0, if_pos h0, ← List.append_assoc]
          rfl
        · rw [if_neg h0, if_neg h0, List.nil_append]
    · left
      obtain ⟨k, n, x, hx, rfl⟩ := (mem t).1 ht
      obtain ⟨j, i', hp', hD, hx', y, hy, rfl⟩ := (mem_secs _ _ _ _ _).1 hx
      have : i = i' := by omega
      subst this
      refine ⟨k, j, _, hD, ?_, r, rfl⟩
      intro hk
      subst hk
      obtain ⟨-, y', hy', hin⟩ := hD.1
      rw [hy] at hy'
      cases hy'
      cases hi : index? "Variables of length".toList y with
      | none => exact absurd hin (index?_none.1 hi)
      | some a =>
        obtain ⟨⟨b, hb⟩, -, -⟩ := index?_some hi
        refine ⟨y.take a, b, ?_, ?_⟩
        · rw [hy, List.append_assoc, hb, List.take_append_drop]
        · rw [lenText, hi, Option.getD_some, ← List.drop_drop, ← hb]
          congr 1

/-- A line declared without a unit in brackets is reported. -/
theorem C48_rejects (ws : Char → Bool) (s : Str) (k : Kind) (j i : Nat) (l : Str) (h : Declares ws k (lines s) j i) (hl : (lines s)[i]? = some l)
    (hb : '[' ∉ l ∨ ']' ∉ l) (hvec : k = .vectors → Underlined (lines s)) : ∃ e, parseVarstring ws s = .error e := by
  have hk : ∃ e, parseFlag ws k s = .error e := by
    obtain ⟨y, hy, -⟩ := h.1.2
    have hm : (lenText ws k y, i, l) ∈ secs ws k 0 (lines s) := (mem_secs _ _ _ _ _).2 ⟨j, i, by omega, h, hl, y, hy, rfl⟩
    obtain ⟨e, he⟩ := mapM_error (f := fun x : Str × Nat × Str => (lineDecl ws x.2.2).map (declText k x.1)) hm ⟨_, by rw [lineDecl_no_bracket hb]; rfl⟩
    exact ⟨e, by rw [parseFlag_eq k s hvec, gather, he]⟩
  obtain ⟨e, he⟩ := hk
  rw [parseVarstring, parseLines]
  cases h1 : parseFlag ws .constants s with
  | error e => exact ⟨e, rfl⟩
  | ok c =>
    cases h2 : parseFlag ws .scalars s with
    | error e => exact ⟨e, rfl⟩
    | ok v =>
      cases h3 : parseFlag ws .vectors s with
      | error e => exact ⟨e, rfl⟩
      | ok w =>
        exfalso
        cases k with
        | constants => rw [h1] at he; cases he
        | scalars => rw [h2] at he; cases he
        | vectors => rw [h3] at he; cases he

/-- Descriptions without backslashes are read back by Python as they were. -/
theorem C48_label_partial (l r : Str) (h1 : '\\' ∉ l) (h2 : '\n' ∉ l) : readLiteral (quote l ++ '\'' :: r) = some (l, r) := by
  unfold readLiteral
  induction l with
  | nil =>
    have : quote [] ++ '\'' :: r = '\'' :: r := rfl
    rw [this, readFrom, if_pos rfl]
  | cons c l ih =>
    simp only [List.mem_cons, not_or] at h1 h2
    have ih' := ih h1.2 h2.2
    by_cases hc : c = '\''
    · subst hc
      have : quote ('\'' :: l) ++ '\'' :: r = '\\' :: '\'' :: (quote l ++ '\'' :: r) := by simp [quote]
      rw [this, readFrom, if_neg (by decide), if_neg (by decide), if_pos rfl, readFrom, if_pos (Or.inl rfl), ih']
      rfl
    · have : quote (c :: l) ++ '\'' :: r = c :: (quote l ++ '\'' :: r) := by simp [quote, hc]
      rw [this, readFrom, if_neg hc, if_neg (Ne.symm h2.1), if_neg (Ne.symm h1.1), ih']
      rfl

/-- A description ending in a backslash swallows the closing quote. -/
theorem C48_label_fails : readLiteral (quote "a\\".toList ++ '\'' :: ")".toList) = none := by decide +kernel

/-- Spaces, tabs and newlines, for the examples. -/
def Docstring.blank (c : Char) : Bool := c = ' ' || c = '\t' || c = '\n'

/-- A line whose text occurs in an earlier line is written there: the other variable is not declared at all, and this one on the wrong line. -/
theorem C48_position_fails : ∃ s out : Str, ∃ f : Fields, (lines s)[3]? = some "x [m] a".toList ∧ Declares blank .scalars (lines s) 0 3 ∧
    Reads blank "x [m] a".toList f ∧ (lines s)[2]? = some "dx [m] a".toList ∧ parseVarstring blank s = .ok out ∧
    (lines out)[2]? = some "x = self.x = Variable('x', 'm', 'a')  # from 'x = self.dx = Variable('dx', 'm', 'a')  # from 'dx [m] a''".toList ∧
    (lines out)[3]? = some "# x [m] a".toList := by
  refine ⟨"Variables\n---------\ndx [m] a\nx [m] a".toList, ("from gpkit import Variable, VectorVariable  # Variables\n# ---------\n" ++
    "x = self.x = Variable('x', 'm', 'a')  # from 'x = self.dx = Variable('dx', 'm', 'a')  # from 'dx [m] a''\n# x [m] a").toList,
    ⟨"x".toList, none, "m".toList, "a".toList⟩, by decide +kernel, ?_, ?_, by decide +kernel, by decide +kernel, by decide +kernel, by decide +kernel⟩
  · refine ⟨⟨by decide +kernel, "Variables".toList, by decide +kernel, List.suffix_refl _⟩, by decide, fun m h1 h2 => ?_⟩
    have : m = 2 ∨ m = 3 := by omega
    rcases this with rfl | rfl
    · exact ⟨"dx [m] a".toList, by decide +kernel, 'd', by decide, by decide⟩
    · exact ⟨"x [m] a".toList, by decide +kernel, 'x', by decide, by decide⟩
  · exact ⟨[], [], [' '], [' '], by simp [Blank], by simp [Blank, blank], by simp, by decide, ⟨by decide, by simp [blank]⟩, rfl, by decide, by decide,
      by decide⟩

/-- A space after the units, with no description, is an error. -/
theorem C48_space_fails : parseVarstring blank "Variables\n---------\nx [m] ".toList = .error .indexError := by decide +kernel

/-- A short section of vectors hides the heading of the next. -/
theorem C48_vectors_fails : parseVarstring blank "Variables of length 3\n---\nx [m]\n\nVariables of length 4\n---\ny [m]".toList = .error .valueError := by
  decide +kernel

/-- The description of a constant can be changed. -/
theorem C48_constant_fails : ∃ out : Str, parseVarstring blank "Constants\n---------\nc 3 [m] speed ('max')".toList = .ok out ∧
    (lines out)[2]? = some ("c = self.c = Variable('c', 3, 'm', 'speed (\\'max\\', constant=True)', constant=True)" ++
      "  # from 'c 3 [m] speed ('max')'").toList :=
  ⟨("from gpkit import Variable, VectorVariable  # Constants\n# ---------\nc = self.c = Variable('c', 3, 'm', 'speed (\\'max\\', constant=True)', " ++
    "constant=True)  # from 'c 3 [m] speed ('max')'").toList, by decide +kernel, by decide +kernel⟩

/-! A docstring with both kinds of sections meets the hypotheses. -/

namespace Docstring

/-- The docstring of the example. -/
def exLines : List Str :=
  ["Variables".toList, "---------".toList, "x 2 [m] it's".toList, [], "Variables of length 3".toList, "---------------------".toList, "y [m]".toList]

/-- Its fields. -/
def exFields (i : Nat) : Fields :=
  if i = 2 then ⟨"x".toList, some "2".toList, "m".toList, "it's".toList⟩ else ⟨"y".toList, none, "m".toList, []⟩

theorem exLines_eq : lines (unlines exLines) = exLines := lines_unlines (by decide) (by decide)

theorem ex_cases {k : Kind} {j i : Nat} (h : Declares blank k exLines j i) : (k = .scalars ∧ i = 2) ∨ (k = .vectors ∧ i = 6) := by
  obtain ⟨⟨hj, l, hl, hk⟩, hji, hall⟩ := h
  have hlen : exLines.length = 7 := rfl
  have hi : i < 7 := by
    obtain ⟨x, hx, -⟩ := hall i hji (le_refl _)
    have := (List.getElem?_eq_some_iff.1 hx).1
    omega
  have h3 : ¬ (j + 2 ≤ 3 ∧ 3 ≤ i) := by
    rintro ⟨h1, h2⟩
    obtain ⟨x, hx, c, hc, -⟩ := hall 3 h1 h2
    have : x = [] := by simpa [exLines] using hx.symm
    subst this
    simp at hc
  rw [hlen] at hj
  have hj' : j = 0 ∨ j = 1 ∨ j = 2 ∨ j = 3 ∨ j = 4 ∨ j = 5 := by omega
  rcases hj' with rfl | rfl | rfl | rfl | rfl | rfl <;> (have hl' := (Option.some.inj hl).symm; subst hl') <;> cases k <;> dsimp only at hk
  all_goals first
    | (exfalso; revert hk; decide +kernel)
    | (left; exact ⟨rfl, by omega⟩)
    | (right; exact ⟨rfl, by omega⟩)

end Docstring

example : ∃ out, parseVarstring blank (unlines exLines) = .ok out ∧ ∃ r : Str,
    (lines out)[6]? = some ("y = self.y = VectorVariable(3, 'y', 'm', '')  # from '".toList ++ r ++ "'".toList) := by
  have hx : Reads blank "x 2 [m] it's".toList (exFields 2) := ⟨[], " 2".toList, [' '], [' '], by simp [Blank], by simp [Blank, blank], by simp, by decide,
    ⟨by decide, by simp [exFields, blank]⟩, ⟨[' '], by simp [Blank, blank], by simp, rfl, by decide, by simp [blank]⟩, by decide, by decide, by decide⟩
  have hy : Reads blank "y [m]".toList (exFields 6) := ⟨[], [], [' '], [], by simp [Blank], by simp [Blank, blank], by simp, by decide,
    ⟨by decide, by simp [exFields, blank]⟩, rfl, by decide, by decide, by decide⟩
  obtain ⟨out, ho, -, hlines⟩ := C48_declared_partial blank (by decide) (by decide) (unlines exLines) exFields
    (by
      rw [exLines_eq]
      intro k j i l hD hl
      rcases ex_cases hD with ⟨rfl, rfl⟩ | ⟨rfl, rfl⟩
      · have : l = "x 2 [m] it's".toList := (Option.some.inj hl).symm
        subst this
        exact ⟨hx, trivial⟩
      · have : l = "y [m]".toList := (Option.some.inj hl).symm
        subst this
        refine ⟨hy, ?_⟩
        show ∀ x ∈ (exFields 6).all, ¬ "Variable(".toList <:+: x
        decide +kernel)
    (by
      rw [exLines_eq]
      intro k j i hD m hm l l' hl hl'
      rcases ex_cases hD with ⟨rfl, rfl⟩ | ⟨rfl, rfl⟩
      · have : l = "x 2 [m] it's".toList := (Option.some.inj hl).symm
        subst this
        have hc : m = 0 ∨ m = 1 := by omega
        rcases hc with rfl | rfl <;> (have hl2 := (Option.some.inj hl').symm; subst hl2; decide +kernel)
      · have : l = "y [m]".toList := (Option.some.inj hl).symm
        subst this
        have hc : m = 0 ∨ m = 1 ∨ m = 2 ∨ m = 3 ∨ m = 4 ∨ m = 5 := by omega
        rcases hc with rfl | rfl | rfl | rfl | rfl | rfl <;> (have hl2 := (Option.some.inj hl').symm; subst hl2; decide +kernel))
    (by
      rw [exLines_eq]
      intro j l hl hin
      have hlt : j < 7 := (List.getElem?_eq_some_iff.1 hl).1
      have hc : j = 0 ∨ j = 1 ∨ j = 2 ∨ j = 3 ∨ j = 4 ∨ j = 5 ∨ j = 6 := by omega
      rcases hc with rfl | rfl | rfl | rfl | rfl | rfl | rfl <;> (have hl2 := (Option.some.inj hl).symm; subst hl2)
      all_goals first
        | (exfalso; revert hin; decide +kernel)
        | skip
      refine ⟨fun a b hab => ?_, "---------------------".toList, rfl, by decide, by decide +kernel⟩
      intro hin
      have := congrArg List.length hab
      have h2 := hin.length_le
      have e1 : ("Variables of length 3".toList : Str).length = 21 := rfl
      have e2 : ("Variables of length".toList : Str).length = 19 := rfl
      simp only [List.length_append, e1, e2] at this h2
      omega)
  refine ⟨out, ho, ?_⟩
  rw [exLines_eq] at hlines
  obtain ⟨o, ho', hcase⟩ := hlines 6 "y [m]".toList rfl
  have hD6 : Declares blank .vectors exLines 4 6 := by
    refine ⟨⟨by decide, "Variables of length 3".toList, rfl, by decide +kernel⟩, by decide, fun m h1 h2 => ?_⟩
    have : m = 6 := by omega
    subst this
    exact ⟨"y [m]".toList, rfl, 'y', by decide, by decide⟩
  rcases hcase with ⟨k, j, n, hD, hn, r, hr⟩ | ⟨hno, -⟩
  · refine ⟨r, ?_⟩
    rcases ex_cases hD with ⟨-, h⟩ | ⟨rfl, -⟩
    · omega
    · have hj : j = 4 := by
        have h2 := hD.2.1
        obtain ⟨-, l, hl, hin⟩ := hD.1
        dsimp only at hin
        have hc : j = 0 ∨ j = 1 ∨ j = 2 ∨ j = 3 ∨ j = 4 := by omega
        rcases hc with rfl | rfl | rfl | rfl | rfl <;> (have hl2 := (Option.some.inj hl).symm; subst hl2)
        all_goals first
          | rfl
          | (exfalso; revert hin; decide +kernel)
      subst hj
      obtain ⟨a, b, hab, rfl⟩ := hn rfl
      have hab' : "Variables of length 3".toList = a ++ "Variables of length".toList ++ b := Option.some.inj hab
      have ha : a = [] := by
        cases a with
        | nil => rfl
        | cons c a =>
          exfalso
          have hl := congrArg List.length hab'
          have e1 : ("Variables of length 3".toList : Str).length = 21 := rfl
          have e2 : ("Variables of length".toList : Str).length = 19 := rfl
          simp only [List.length_append, List.length_cons, e1, e2] at hl
          have hpre : "Variables of length".toList <+: ("Variables of length 3".toList : Str).drop (a.length + 1) := by
            rw [hab', List.append_assoc, show a.length + 1 = (c :: a).length from rfl, List.drop_left]
            exact List.prefix_append _ _
          have hcl : a.length = 0 ∨ a.length = 1 := by omega
          rcases hcl with h | h <;> rw [h] at hpre <;> revert hpre <;> decide +kernel
      subst ha
      have hb : b = " 3".toList := by
        have : "Variables of length".toList ++ " 3".toList = "Variables of length".toList ++ b := hab'
        exact (List.append_cancel_left this).symm
      subst hb
      rw [ho', hr]
      congr 1
  · exact absurd ⟨_, _, hD6⟩ hno

/-- A line without brackets, under a heading. -/
example : ∃ e, parseVarstring blank "Variables\n---------\nx m".toList = .error e :=
  C48_rejects blank _ .scalars 0 2 "x m".toList
    ⟨⟨by decide +kernel, "Variables".toList, by decide +kernel, List.suffix_refl _⟩, by decide, fun m h1 h2 => ⟨"x m".toList, by
      have : m = 2 := by omega
      subst this
      decide +kernel, 'x', by decide, by decide⟩⟩ (by decide +kernel) (Or.inl (by decide)) (fun h => by cases h)

end Verif
