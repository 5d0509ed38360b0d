import Verif.Spec.Splice
import Verif.Model.Splice
import Verif.Props.Docstring

/-! # C85: functions decorated by `parse_variables` -/

set_option linter.unusedSectionVars false

namespace Verif
namespace Splice
open Str

theorem isIndent_iff (c : Char) : isIndent c = true ↔ c ∈ [' ', '\t'] := by
  simp [isIndent]

theorem takeWhile_run {a b : Str} {c : Char} (ha : ∀ x ∈ a, x ∈ [' ', '\t']) (hc : c ∉ [' ', '\t']) : (a ++ c :: b).takeWhile isIndent = a := by
  rw [List.takeWhile_append_of_pos (fun x hx => (isIndent_iff x).2 (ha x hx)), List.takeWhile_cons, if_neg (by rwa [isIndent_iff]), List.append_nil]

theorem indentFrom_run {p a b : Str} {c : Char} (ha : ∀ x ∈ a, x ∈ [' ', '\t']) (hc : c ∉ [' ', '\t']) :
    indentFrom (p ++ (a ++ c :: b)) p.length = some (p.length + a.length) := by
  unfold indentFrom
  rw [List.drop_left, takeWhile_run ha hc]
  dsimp only
  rw [if_pos]
  simp only [List.length_append, List.length_cons]
  omega

theorem findIdx_at {p : Str → Bool} : ∀ {xs : List Str} {y : Str} {ys : List Str}, (∀ x ∈ xs, p x = false) → p y = true →
    (xs ++ y :: ys).findIdx? p = some xs.length
  | [], y, ys, _, hy => by simp [List.findIdx?_cons, hy]
  | x :: xs, y, ys, hx, hy => by
    rw [List.cons_append, List.findIdx?_cons, hx x (by simp), findIdx_at (fun z hz => hx z (by simp [hz])) hy]
    simp

theorem forall₂_mem {R : Str → Str → Prop} {as bs : List Str} (h : List.Forall₂ R as bs) {x : Str} (hx : x ∈ as) : ∃ y ∈ bs, R x y := by
  induction h with
  | nil => cases hx
  | cons hl _ ih =>
    rcases List.mem_cons.1 hx with rfl | hx
    · exact ⟨_, by simp, hl⟩
    · obtain ⟨y, hy, hr⟩ := ih hx
      exact ⟨y, by simp [hy], hr⟩

theorem filter_map_body {ind : Str} (hi : ∀ c ∈ ind, c ∈ [' ', '\t']) {bs body : List Str} (h : List.Forall₂ (BodyLine ind) bs body) :
    (bs.filter (fun l => decide ('#' ∉ l.take ind.length))).map (fun l => (l.drop ind.length).dropLast) = body := by
  have hno : '#' ∉ ind := fun hm => absurd (hi _ hm) (by decide)
  induction h with
  | nil => rfl
  | cons hl _ ih =>
    cases hl with
    | code text =>
      rw [List.filter_cons, if_pos, List.map_cons, ih]
      · rw [List.append_assoc, List.drop_left, List.dropLast_concat]
      · rw [List.append_assoc, List.take_left]
        simpa using hno
    | blank b hb hbl =>
      rw [List.filter_cons, if_pos, List.map_cons, ih]
      · congr 1
        rw [List.dropLast_eq_take, List.length_drop, List.length_append, List.length_singleton]
        rw [show b.length + 1 - ind.length - 1 = 0 by omega, List.take_zero]
      · rw [decide_eq_true_eq]
        intro hm
        rcases List.mem_append.1 (List.take_subset _ _ hm) with hm | hm
        · exact absurd (hb _ hm) (by decide)
        · exact absurd (List.mem_singleton.1 hm) (by decide)

theorem filter_map_texts {ind : Str} (hi : ∀ c ∈ ind, c ∈ [' ', '\t']) (ts : List Str) :
    ((ts.map (fun t => ind ++ t ++ ['\n'])).filter (fun l => decide ('#' ∉ l.take ind.length))).map (fun l => (l.drop ind.length).dropLast) = ts :=
  filter_map_body hi (by
    induction ts with
    | nil => exact .nil
    | cons t ts ih => exact .cons (.code t) ih)

/-- The lines put in, without the indentation of the function. -/
def inserted (deep : Str) (decls : List Str) (n : Nat) : List Str :=
  decls.map (deep ++ ·) ++ [deep ++ spacer1] ++ List.replicate n (deep ++ spacer2)

theorem parseLines_eq (ind deep : Str) (decls : List Str) (n : Nat) :
    parseLines (ind ++ deep) decls n = (inserted deep decls n).map (fun t => ind ++ t ++ ['\n']) := by
  unfold parseLines inserted
  simp [List.map_replicate]

theorem splice_function {orig : List Str} {ind deep : Str} {header body : List Str} (h : Function orig ind deep header body) (decls : List Str) :
    splice orig decls = .ok (header ++ inserted deep decls header.length ++ body, decls.length + 1 + header.length) := by
  obtain ⟨hind, ⟨c0, r0, hs0, hh0, hc0⟩, ⟨hs, l, hh, hcl, hncl⟩, ⟨deco, bs, rfl, hbs⟩, ⟨pre, c, r, post, hbody, hpre, hdeep, hdne, hc⟩⟩ := h
  have h1 : (deco :: header.map (fun t => ind ++ t ++ ['\n']) ++ bs)[1]? = some (ind ++ (c0 :: (r0 ++ ['\n']))) := by
    rw [hh0]; simp
  have hi1 : indentFrom (ind ++ (c0 :: (r0 ++ ['\n']))) 0 = some ind.length := by
    have := indentFrom_run (p := []) (b := r0 ++ ['\n']) hind hc0
    simpa using this
  have hsetup : findFrom (fun l => (index? close l).isSome) (deco :: header.map (fun t => ind ++ t ++ ['\n']) ++ bs) 1 = some header.length := by
    unfold findFrom
    have e : (deco :: header.map (fun t => ind ++ t ++ ['\n']) ++ bs).drop 1 = hs.map (fun t => ind ++ t ++ ['\n']) ++ (ind ++ l ++ ['\n']) :: bs := by
      rw [hh]; simp
    rw [e, findIdx_at]
    · rw [hh]; simp
    · intro x hx
      obtain ⟨t, ht, rfl⟩ := List.mem_map.1 hx
      rw [Option.isSome_eq_false_iff, Option.isNone_iff_eq_none, index?_none]
      exact hncl t ht
    · rw [Option.isSome_iff_ne_none, Ne, index?_none, not_not]
      exact hcl
  obtain ⟨bpre, b0, bpost, rfl, hpre2, hb0⟩ : ∃ bpre b0 bpost, bs = bpre ++ b0 :: bpost ∧ List.Forall₂ (BodyLine ind) bpre pre ∧
      BodyLine ind b0 (deep ++ c :: r) := by
    rw [hbody] at hbs
    have h2 := List.forall₂_drop_append _ _ _ hbs
    have h3 := List.forall₂_take_append _ _ _ hbs
    cases hd : bs.drop pre.length with
    | nil => rw [hd] at h2; cases h2
    | cons b0 bpost =>
      rw [hd] at h2
      cases h2 with
      | cons hb0 _ => exact ⟨bs.take pre.length, b0, bpost, by rw [← hd, List.take_append_drop], h3, hb0⟩
  have hb0' : b0 = ind ++ (deep ++ c :: (r ++ ['\n'])) := by
    generalize ht : deep ++ c :: r = t at hb0
    cases hb0 with
    | code => rw [← ht]; simp
    | blank b _ _ =>
      have := congrArg List.length ht
      simp at this
  have hshort : ∀ x ∈ bpre, decide (ind.length + 1 < x.length) = false := by
    intro x hx
    obtain ⟨y, hy, hxy⟩ := forall₂_mem hpre2 hx
    rw [hpre y hy] at hxy
    rw [decide_eq_false_iff_not]
    generalize ht : ([] : Str) = t at hxy
    cases hxy with
    | code => rw [← ht]; simp
    | blank b _ hl => simp; omega
  have hnext : findFrom (fun l => decide (ind.length + 1 < l.length)) (deco :: header.map (fun t => ind ++ t ++ ['\n']) ++ (bpre ++ b0 :: bpost)) (header.length + 1) =
      some (header.length + 1 + bpre.length) := by
    unfold findFrom
    have e : (deco :: header.map (fun t => ind ++ t ++ ['\n']) ++ (bpre ++ b0 :: bpost)).drop (header.length + 1) = bpre ++ b0 :: bpost := by
      rw [List.cons_append, List.drop_succ_cons]
      exact List.drop_left' (by simp)
    rw [e, findIdx_at hshort]
    · simp; omega
    · rw [hb0', decide_eq_true_eq]
      have := List.length_pos_iff.2 hdne
      simp only [List.length_append, List.length_cons]
      omega
  have hget : (deco :: header.map (fun t => ind ++ t ++ ['\n']) ++ (bpre ++ b0 :: bpost))[header.length + 1 + bpre.length]? = some b0 := by
    have : deco :: header.map (fun t => ind ++ t ++ ['\n']) ++ (bpre ++ b0 :: bpost) =
        (deco :: header.map (fun t => ind ++ t ++ ['\n']) ++ bpre) ++ b0 :: bpost := by simp
    rw [this, List.getElem?_append_right (by simp; omega)]
    have : header.length + 1 + bpre.length - (deco :: header.map (fun t => ind ++ t ++ ['\n']) ++ bpre).length = 0 := by simp; omega
    rw [this]
    rfl
  have hind2 : indentFrom b0 ind.length = some (ind.length + deep.length) := by
    rw [hb0']
    exact indentFrom_run hdeep hc
  have hsec : b0.take (ind.length + deep.length) = ind ++ deep := by
    rw [hb0', ← List.append_assoc, ← List.length_append, List.take_left]
  unfold splice
  rw [h1]
  dsimp only
  rw [hi1]
  dsimp only
  rw [hsetup]
  dsimp only
  rw [hnext]
  dsimp only
  rw [hget, Option.getD_some, hind2]
  dsimp only
  rw [hsec, parseLines_eq]
  have e1 : ((deco :: header.map (fun t => ind ++ t ++ ['\n']) ++ (bpre ++ b0 :: bpost)).drop 1).take header.length = header.map (fun t => ind ++ t ++ ['\n']) := by
    rw [List.cons_append, List.drop_succ_cons, List.drop_zero]
    exact List.take_left' (by simp)
  have e2 : (deco :: header.map (fun t => ind ++ t ++ ['\n']) ++ (bpre ++ b0 :: bpost)).drop (header.length + 1) = bpre ++ b0 :: bpost := by
    rw [List.cons_append, List.drop_succ_cons]
    exact List.drop_left' (by simp)
  rw [e1, e2, List.filter_append, List.filter_append, List.map_append, List.map_append, filter_map_texts hind, filter_map_texts hind, filter_map_body hind hbs]
  simp [inserted]
  omega

theorem mem_inserted {deep : Str} {decls : List Str} {n : Nat} {t : Str} (h : t ∈ inserted deep decls n) :
    (∃ d ∈ decls, t = deep ++ d) ∨ t = deep ++ spacer1 ∨ t = deep ++ spacer2 := by
  unfold inserted at h
  rcases List.mem_append.1 h with h | h
  · rcases List.mem_append.1 h with h | h
    · obtain ⟨d, hd, rfl⟩ := List.mem_map.1 h
      exact Or.inl ⟨d, hd, rfl⟩
    · exact Or.inr (Or.inl (List.mem_singleton.1 h))
  · exact Or.inr (Or.inr (List.eq_of_mem_replicate h))

theorem function_deep {orig : List Str} {ind deep : Str} {header body : List Str} (h : Function orig ind deep header body) : '\n' ∉ deep := by
  obtain ⟨pre, c, r, post, -, -, hd, -⟩ := h.first
  exact fun hm => absurd (hd _ hm) (by decide)

theorem decorate_function {ws : Char → Bool} {string out : Str} {orig : List Str} {ind deep : Str} {header body : List Str}
    (h : Function orig ind deep header body) (hn : ∀ t ∈ header ++ body, '\n' ∉ t) (hout : Docstring.parseVarstring ws string = .ok out) (lineno : Nat) :
    ∃ src, decorate ws string orig lineno = .ok (src, (lineno : Int) - ((lines string).length + 1 + header.length : Nat)) ∧
      lines src = header ++ inserted deep (lines out) header.length ++ body := by
  refine ⟨unlines (header ++ inserted deep (lines out) header.length ++ body), ?_, ?_⟩
  · unfold decorate
    rw [hout]
    dsimp only
    rw [splice_function h, C48_lines ws string out hout]
    rfl
  · apply lines_unlines
    · obtain ⟨c, r, hs, hh, -⟩ := h.start
      rw [hh]
      simp
    · intro t ht
      rcases List.mem_append.1 ht with ht | ht
      · rcases List.mem_append.1 ht with ht | ht
        · exact hn t (by simp [ht])
        · have hd := function_deep h
          rcases mem_inserted ht with ⟨d, hm, rfl⟩ | rfl | rfl
          · rw [List.mem_append, not_or]
            exact ⟨hd, lines_no_newline _ d hm⟩
          · rw [List.mem_append, not_or]
            exact ⟨hd, by decide +kernel⟩
          · rw [List.mem_append, not_or]
            exact ⟨hd, by decide +kernel⟩
      · exact hn t (by simp [ht])

end Splice

open Splice Str

/-- **C85.** The source of a decorated function is its own, with its declarations and nothing but comments besides put in before its body, indented like it:
no line of the header or the body is lost, changed or moved. Proved for functions that the text shows to be such: the first `):` after the decorator
ends the header, no line is indented less than the function unless blank, and the first line of the body that is longer than its blank lines has text. -/
theorem C85_source_partial (ws : Char → Bool) (string out : Str) (orig : List Str) (ind deep : Str) (header body : List Str) (lineno : Nat)
    (h : Function orig ind deep header body) (hn : ∀ t ∈ header ++ body, '\n' ∉ t) (hout : Docstring.parseVarstring ws string = .ok out) :
    ∃ src n spacers, decorate ws string orig lineno = .ok (src, n) ∧ lines src = header ++ (lines out).map (deep ++ ·) ++ spacers ++ body ∧
      ∀ s ∈ spacers, ∃ r, s = deep ++ '#' :: r := by
  obtain ⟨src, h1, h2⟩ := decorate_function h hn hout lineno
  refine ⟨src, _, [deep ++ spacer1] ++ List.replicate header.length (deep ++ spacer2), h1, by rw [h2]; simp [inserted], ?_⟩
  intro s hs
  rcases List.mem_append.1 hs with hs | hs
  · rw [List.mem_singleton.1 hs]
    exact ⟨spacer1.drop 1, rfl⟩
  · rw [List.eq_of_mem_replicate hs]
    exact ⟨spacer2.drop 1, rfl⟩

/-- **C85.** Tracebacks point to the right places: a line of the body is numbered as in its file, and what was made of a line of the docstring is numbered as
that line, if the docstring ends on the line before the decorator. -/
theorem C85_lineno_partial (ws : Char → Bool) (string out : Str) (orig : List Str) (ind deep : Str) (header body : List Str) (lineno : Nat)
    (h : Function orig ind deep header body) (hn : ∀ t ∈ header ++ body, '\n' ∉ t) (hout : Docstring.parseVarstring ws string = .ok out) :
    ∃ src n, decorate ws string orig lineno = .ok (src, n) ∧
      (∀ i t, (lines src)[i]? = some t → i < header.length ∨
        (∃ (j : Nat) (o : Str), (lines out)[j]? = some o ∧ t = deep ++ o ∧ fileLine n i = (lineno : Int) - (lines string).length + j) ∨ (∃ r, t = deep ++ '#' :: r) ∨
        ∃ j, body[j]? = some t ∧ fileLine n i = (lineno : Int) + (1 + header.length + j : Nat)) ∧
      (∀ (j : Nat) (o : Str), (lines out)[j]? = some o → ∃ i, (lines src)[i]? = some (deep ++ o) ∧ fileLine n i = (lineno : Int) - (lines string).length + j) ∧
      ∀ j t, body[j]? = some t → ∃ i, (lines src)[i]? = some t ∧ fileLine n i = (lineno : Int) + (1 + header.length + j : Nat) := by
  obtain ⟨src, h1, h2⟩ := decorate_function h hn hout lineno
  have hN := C48_lines ws string out hout
  have e : lines src = header ++ ((lines out).map (deep ++ ·) ++ (([deep ++ spacer1] ++ List.replicate header.length (deep ++ spacer2)) ++ body)) := by
    rw [h2]; simp [inserted]
  refine ⟨src, _, h1, ?_, ?_, ?_⟩
  · intro i t ht
    rcases Nat.lt_or_ge i header.length with hi | hi
    · exact Or.inl hi
    · right
      rw [e, List.getElem?_append_right hi] at ht
      rcases Nat.lt_or_ge (i - header.length) (lines out).length with hj | hj
      · left
        rw [List.getElem?_append_left (by simpa using hj), List.getElem?_map, Option.map_eq_some_iff] at ht
        obtain ⟨o, ho, rfl⟩ := ht
        refine ⟨i - header.length, o, ho, rfl, ?_⟩
        unfold fileLine
        omega
      · right
        rw [List.getElem?_append_right (by simpa using hj), List.length_map] at ht
        rcases Nat.lt_or_ge (i - header.length - (lines out).length) (1 + header.length) with hk | hk
        · left
          rw [List.getElem?_append_left (by simp; omega)] at ht
          rcases List.mem_append.1 (List.mem_of_getElem? ht) with hs | hs
          · rw [List.mem_singleton.1 hs]
            exact ⟨spacer1.drop 1, rfl⟩
          · rw [List.eq_of_mem_replicate hs]
            exact ⟨spacer2.drop 1, rfl⟩
        · right
          rw [List.getElem?_append_right (by simp; omega)] at ht
          refine ⟨_, ht, ?_⟩
          unfold fileLine
          simp only [List.length_append, List.length_singleton, List.length_replicate]
          omega
  · intro j o ho
    have hj : j < (lines out).length := by
      rw [List.getElem?_eq_some_iff] at ho
      exact ho.1
    refine ⟨header.length + j, ?_, ?_⟩
    · rw [e, List.getElem?_append_right (by omega), Nat.add_sub_cancel_left, List.getElem?_append_left (by simpa using hj), List.getElem?_map, ho]
      rfl
    · unfold fileLine
      omega
  · intro j t ht
    refine ⟨header.length + ((lines out).length + (1 + header.length + j)), ?_, ?_⟩
    · rw [e, List.getElem?_append_right (by omega), Nat.add_sub_cancel_left, List.getElem?_append_right (by simp), List.length_map, Nat.add_sub_cancel_left,
        List.getElem?_append_right (by simp; omega)]
      rw [show 1 + header.length + j - ([deep ++ spacer1] ++ List.replicate header.length (deep ++ spacer2)).length = j by simp; omega]
      exact ht
    · unfold fileLine
      omega

/-- **C85.** Every variable declared in the docstring is declared in the function before its body, on a line numbered as the one that declares it in the
docstring. Proved for docstrings as in `C48_declared_partial`. -/
theorem C85_declared_partial (ws : Char → Bool) (hb : ws '[' = false) (hb' : ws ']' = false) (string : Str) (F : Nat → Docstring.Fields)
    (hread : ∀ k j i l, Docstring.Declares ws k (lines string) j i → (lines string)[i]? = some l → Docstring.Reads ws l (F i) ∧ Docstring.Plain k (F i))
    (hown : ∀ k j i, Docstring.Declares ws k (lines string) j i → ∀ m < i, ∀ l l', (lines string)[i]? = some l → (lines string)[m]? = some l' → ¬ l <:+: l')
    (hvec : Docstring.Underlined (lines string)) (orig : List Str) (ind deep : Str) (header body : List Str) (lineno : Nat)
    (h : Function orig ind deep header body) (hn : ∀ t ∈ header ++ body, '\n' ∉ t) :
    ∃ src n, decorate ws string orig lineno = .ok (src, n) ∧ ∀ k j i, Docstring.Declares ws k (lines string) j i → i < (lines string).length →
      ∃ i' k' j' len r, Docstring.Declares ws k' (lines string) j' i ∧ Docstring.LengthOf ws k' (lines string) j' len ∧
        (lines src)[i']? = some (deep ++ (Docstring.code k' len (F i) ++ "  # from '".toList ++ r ++ "'".toList)) ∧ header.length ≤ i' ∧
        i' < header.length + (lines string).length ∧ fileLine n i' = (lineno : Int) - (lines string).length + i := by
  obtain ⟨out, hout, hlen, hlines⟩ := C48_declared_partial ws hb hb' string F hread hown hvec
  obtain ⟨src, h1, h2⟩ := decorate_function h hn hout lineno
  refine ⟨src, _, h1, ?_⟩
  intro k j i hd hi
  obtain ⟨o, ho, hcase⟩ := hlines i _ (List.getElem?_eq_getElem hi)
  rcases hcase with ⟨k', j', len, hd', hl', r, rfl⟩ | ⟨hno, _⟩
  · refine ⟨header.length + i, k', j', len, r, hd', hl', ?_, by omega, by omega, ?_⟩
    · rw [h2, List.append_assoc, List.getElem?_append_right (by omega), Nat.add_sub_cancel_left]
      unfold inserted
      rw [List.append_assoc, List.append_assoc, List.getElem?_append_left (by rw [List.length_map, hlen]; exact hi), List.getElem?_map, ho]
      rfl
    · unfold fileLine
      omega
  · exact absurd ⟨k, j, hd⟩ hno

/-- **C85 does not hold** of the lines of the header, for any function: they are numbered before their place in the file, by as many lines as were put in.
So what `inspect` or a traceback says of the function itself is about another place. -/
theorem C85_header_fails (ws : Char → Bool) (string out : Str) (orig : List Str) (ind deep : Str) (header body : List Str) (lineno : Nat)
    (h : Function orig ind deep header body) (hn : ∀ t ∈ header ++ body, '\n' ∉ t) (hout : Docstring.parseVarstring ws string = .ok out) :
    ∃ src n, decorate ws string orig lineno = .ok (src, n) ∧ ∀ j t, header[j]? = some t →
      (lines src)[j]? = some t ∧ fileLine n j = (lineno : Int) + (1 + j : Nat) - ((lines string).length + 1 + header.length : Nat) := by
  obtain ⟨src, h1, h2⟩ := decorate_function h hn hout lineno
  refine ⟨src, _, h1, ?_⟩
  intro j t ht
  have hj : j < header.length := by
    rw [List.getElem?_eq_some_iff] at ht
    exact ht.1
  refine ⟨by rw [h2, List.append_assoc, List.getElem?_append_left hj, ht], ?_⟩
  unfold fileLine
  omega

namespace Splice

/-- The lines of a decorated function in a class. -/
def exFunction : List Str := ["    @parse_variables(__doc__, globals())\n", "    def setup(self,\n", "              wing):\n", "\n", "        self.wing = wing\n", "\n",
  "        return [x >= 1]\n"].map String.toList

/-- A docstring. -/
def exDoc : Str := "Wing\n\nVariables\n---------\nx  [m]  span\n".toList

end Splice

/-- The hypotheses can be met: a function with a header of two lines and blank lines in its body. -/
example : Function exFunction "    ".toList "    ".toList ["def setup(self,".toList, "          wing):".toList]
    [[], "    self.wing = wing".toList, [], "    return [x >= 1]".toList] where
  indented := by decide +kernel
  start := ⟨'d', "ef setup(self,".toList, ["          wing):".toList], by decide +kernel, by decide⟩
  closed := ⟨["def setup(self,".toList], "          wing):".toList, by decide +kernel, by decide +kernel, by decide +kernel⟩
  layout := ⟨"    @parse_variables(__doc__, globals())\n".toList, ["\n", "        self.wing = wing\n", "\n", "        return [x >= 1]\n"].map String.toList, by decide +kernel,
    .cons (.blank [] (by simp) (by simp)) (.cons (.code "    self.wing = wing".toList) (.cons (.blank [] (by simp) (by simp)) (.cons (.code "    return [x >= 1]".toList) .nil)))⟩
  first := ⟨[[]], 's', "elf.wing = wing".toList, [[], "    return [x >= 1]".toList], by decide +kernel, by decide, by decide +kernel, by decide +kernel, by decide⟩

/-- What is made of it: the declaration has the number of its line in the docstring, if that ends on line 19. -/
example : ∃ src, decorate Docstring.blank exDoc exFunction 20 = .ok (src, 11) ∧ (lines src)[6]? =
    some "    x = self.x = Variable('x', 'm', 'span')  # from 'x  [m]  span'".toList ∧ fileLine 11 6 = 18 ∧
    (lines src)[12]? = some "    self.wing = wing".toList ∧ fileLine 11 12 = 24 := by
  refine ⟨_, rfl, ?_⟩
  decide +kernel

/-- **C85 does not hold** of functions whose result is annotated: the header is not seen to end, and the declarations are put in after the next `):`, here
inside an `if`. -/
theorem C85_annotation_fails : ∃ src n, decorate Docstring.blank exDoc
    (["@parse_variables(__doc__, globals())\n", "def setup(self) -> list:\n", "    if flag(self):\n", "        print(1)\n", "    return [x >= 1]\n"].map String.toList) 1 = .ok (src, n) ∧
    (lines src)[1]? = some "    if flag(self):".toList ∧
    (lines src)[6]? = some "        x = self.x = Variable('x', 'm', 'span')  # from 'x  [m]  span'".toList := by
  refine ⟨_, _, rfl, ?_⟩
  decide +kernel

/-- **C85 does not hold** of strings over several lines that begin further left than the function: the beginnings of their lines are cut off. -/
theorem C85_string_fails : ∃ src n, decorate Docstring.blank exDoc
    (["    @parse_variables(__doc__, globals())\n", "    def setup(self):\n", "        print('''\n", "Wing built\n", "''')\n"].map String.toList) 1 = .ok (src, n) ∧
    (lines src)[9]? = some "    print('''".toList ∧ (lines src)[10]? = some " built".toList ∧ (lines src)[11]? = some [] := by
  refine ⟨_, _, rfl, ?_⟩
  decide +kernel

/-- **C85 does not hold** of functions with comments further left than they are: these lines are left out, and all lines after them have the number of the line before
their own. -/
theorem C85_comment_fails : ∃ src n, decorate Docstring.blank exDoc
    (["    @parse_variables(__doc__, globals())\n", "    def setup(self):\n", "        y = 1\n", "# y = 2\n", "        return [y/0]\n"].map String.toList) 1 = .ok (src, n) ∧
    (lines src)[9]? = some "    y = 1".toList ∧ fileLine n 9 = 3 ∧ (lines src)[10]? = some "    return [y/0]".toList ∧ fileLine n 10 = 4 := by
  refine ⟨_, _, rfl, ?_⟩
  decide +kernel

/-- **C85 does not hold** of functions whose first line is blank and longer than the indentation of the body: the declarations are indented like it. -/
theorem C85_blank_fails : ∃ src n, decorate Docstring.blank exDoc
    (["@parse_variables(__doc__, globals())\n", "def setup(self):\n", "        \n", "    return [x >= 1]\n"].map String.toList) 1 = .ok (src, n) ∧
    (lines src)[5]? = some "        x = self.x = Variable('x', 'm', 'span')  # from 'x  [m]  span'".toList ∧ (lines src)[10]? = some "    return [x >= 1]".toList := by
  refine ⟨_, _, rfl, ?_⟩
  decide +kernel

/-- **C85 does not hold** of functions of one line: decorating them is an `IndexError`. -/
theorem C85_short_fails : decorate Docstring.blank exDoc
    (["@parse_variables(__doc__, globals())\n", "def setup(self): return []\n"].map String.toList) 1 = .error .indexError := by
  decide +kernel

end Verif
