import Verif.Spec.Docstring
import Verif.Lemmas.Text

/-!
# Facts about the parsing of docstrings
-/

set_option linter.unusedSectionVars false

namespace Verif
namespace Docstring
open Str

variable {ws : Char → Bool}

/-! ## A line -/

theorem replace_quote (l : Str) : replace "'".toList "\\'".toList l = quote l := by
  unfold replace
  induction l with
  | nil => rfl
  | cons c l ih =>
    rw [replaceAux]
    by_cases h : c = '\''
    · subst h
      simp only [quote, List.flatMap_cons, if_true] at ih ⊢
      rw [if_pos (by rfl)]
      rw [show ("'".toList.length - 1) = 0 from rfl, ih]
      rfl
    · rw [if_neg (by
        intro hp
        have : ("'".toList : Str) = ['\''] := rfl
        rw [this] at hp
        simp [List.isPrefixOf] at hp
        exact h hp.symm)]
      simp only [quote, List.flatMap_cons, if_neg h] at ih ⊢
      rw [ih]
      rfl

theorem dropWhile_spaces {d l : Str} (hd : ∀ c ∈ d, c = ' ') (hl : l.head? ≠ some ' ') : (d ++ l).dropWhile (· = ' ') = l := by
  induction d with
  | nil =>
    cases l with
    | nil => rfl
    | cons c l =>
      have : c ≠ ' ' := by simpa using hl
      simp [this]
  | cons c d ih =>
    have : c = ' ' := hd c (by simp)
    subst this
    simp only [List.cons_append, List.dropWhile_cons, decide_true, if_true]
    exact ih (fun x hx => hd x (by simp [hx]))

/-- A line in the format gives the statement it stands for. -/
theorem lineDecl_reads (h1 : ws '[' = false) (h2 : ws ']' = false) {line : Str} {f : Fields} (h : Reads ws line f) :
    lineDecl ws line = .ok (code .scalars [] f) := by
  obtain ⟨a, v, b, d, ha, hb, hd, rfl, hn, hv, hu, hlab, hhead⟩ := h
  have bl : ∀ {w : Str}, Blank ws w → '[' ∉ w ∧ ']' ∉ w := by
    intro w hw
    constructor
    · intro hm; have := hw _ hm; rw [h1] at this; cases this
    · intro hm; have := hw _ hm; rw [h2] at this; cases this
  have wd : ∀ {w : Str}, Word ws w → '[' ∉ w ∧ ']' ∉ w := fun hw => ⟨fun hm => (hw.2 _ hm).2.1 rfl, fun hm => (hw.2 _ hm).2.2 rfl⟩
  have hvb : '[' ∉ v ∧ ']' ∉ v := by
    cases hval : f.value with
    | none => rw [hval] at hv; simp only at hv; subst hv; simp
    | some x =>
      rw [hval] at hv
      obtain ⟨m, hm, -, rfl, hx⟩ := hv
      simp only [List.mem_append, not_or]
      exact ⟨⟨(bl hm).1, (wd hx).1⟩, ⟨(bl hm).2, (wd hx).2⟩⟩
  set pre := a ++ (f.name ++ (v ++ b)) with hpre
  have hp1 : '[' ∉ pre := by
    simp only [hpre, List.mem_append, not_or]
    exact ⟨(bl ha).1, (wd hn).1, hvb.1, (bl hb).1⟩
  have hp2 : ']' ∉ pre := by
    simp only [hpre, List.mem_append, not_or]
    exact ⟨(bl ha).2, (wd hn).2, hvb.2, (bl hb).2⟩
  have eline : a ++ (f.name ++ (v ++ (b ++ '[' :: (f.units ++ ']' :: (d ++ f.label))))) = pre ++ '[' :: (f.units ++ ']' :: (d ++ f.label)) := by
    simp [hpre]
  have eline2 : pre ++ '[' :: (f.units ++ ']' :: (d ++ f.label)) = (pre ++ '[' :: f.units) ++ ']' :: (d ++ f.label) := by simp
  rw [eline]
  have i1 : index? "[".toList (pre ++ '[' :: (f.units ++ ']' :: (d ++ f.label))) = some pre.length := index?_char hp1
  have i2 : index? "]".toList (pre ++ '[' :: (f.units ++ ']' :: (d ++ f.label))) = some (pre ++ '[' :: f.units).length := by
    rw [eline2]
    apply index?_char
    simp only [List.mem_append, List.mem_cons, not_or]
    exact ⟨hp2, by decide, hu⟩
  have hwords : words ws pre = f.name :: f.value.toList := by
    rw [hpre, words_skip ha]
    have hbw : ∀ c, b.head? = some c → ws c = true := fun c hc => hb c (List.mem_of_mem_head? hc)
    cases hval : f.value with
    | none =>
      rw [hval] at hv
      simp only at hv
      subst hv
      rw [List.nil_append, words_word hn.1 (fun c hc => (hn.2 c hc).1) hbw, words_blank hb]
      rfl
    | some x =>
      rw [hval] at hv
      obtain ⟨m, hm, hm0, rfl, hx⟩ := hv
      rw [words_word hn.1 (fun c hc => (hn.2 c hc).1), List.append_assoc, words_skip hm, words_word hx.1 (fun c hc => (hx.2 c hc).1) hbw,
        words_blank hb]
      · rfl
      · intro c hc
        obtain ⟨m0, m', rfl⟩ := List.exists_cons_of_ne_nil hm0
        simp only [List.cons_append, List.head?_cons, Option.some.injEq] at hc
        subst hc
        exact hm _ (by simp)
  have htake : (pre ++ '[' :: (f.units ++ ']' :: (d ++ f.label))).take pre.length = pre := by simp
  have hunits : ((pre ++ '[' :: (f.units ++ ']' :: (d ++ f.label))).take (pre ++ '[' :: f.units).length).drop (pre.length + 1) = f.units := by
    rw [eline2, List.take_left, List.drop_append]
    simp
  have hrest : (pre ++ '[' :: (f.units ++ ']' :: (d ++ f.label))).drop ((pre ++ '[' :: f.units).length + 1) = d ++ f.label := by
    rw [eline2, List.drop_append]
    simp
  have hdecl : ∀ l : Str, declaration (f.name :: f.value.toList) f.units (quote l) = .ok (code .scalars [] { f with label := l }) := by
    intro l
    cases hval : f.value with
    | none => simp [declaration, code, Fields.valueText]
    | some x => simp [declaration, code, Fields.valueText]
  rw [lineDecl, i1, i2]
  simp only [htake, hunits, hrest, hwords]
  by_cases hl : f.label = []
  · have : d ++ f.label = [] := by rw [hl, hlab hl]; rfl
    rw [if_pos this]
    have e := hdecl []
    rw [show ({ f with label := [] } : Fields) = f by rw [← hl]] at e
    exact e
  · rw [if_neg (by simp [hl]), dropWhile_spaces hd hhead]
    obtain ⟨c, l, hcl⟩ := List.exists_cons_of_ne_nil hl
    rw [hcl]
    simp only
    rw [← hcl, replace_quote]
    exact hdecl f.label

/-- A line without brackets is an error. -/
theorem lineDecl_no_bracket {line : Str} (h : '[' ∉ line ∨ ']' ∉ line) : lineDecl ws line = .error .valueError := by
  have no : ∀ c : Char, c ∉ line → index? [c] line = none := fun c hc => index?_none.2 (fun hi => hc (hi.subset (by simp)))
  rw [lineDecl]
  rcases h with h | h
  · rw [show index? "[".toList line = none from no _ h]
  · rw [show index? "]".toList line = none from no _ h]
    cases index? "[".toList line <;> rfl

/-! ## Text replaced in sections -/

theorem quote_infix_vec {p l : Str} (h1 : '\'' ∉ p) (h2 : '\\' ∉ p) (hp : p ≠ []) (h : p <:+: quote l) : p <:+: l := by
  have key : ∀ (n : Nat) (l : Str), l.length ≤ n → p <:+: quote l → p <:+: l := by
    intro n
    induction n with
    | zero =>
      intro l hl h
      have : l = [] := List.length_eq_zero_iff.1 (by omega)
      subst this
      exact h
    | succ n ih =>
      intro l hl h
      by_cases hq : '\'' ∈ l
      · obtain ⟨x, y, rfl, hx⟩ := List.eq_append_cons_of_mem hq
        have e : quote (x ++ '\'' :: y) = quote x ++ '\\' :: '\'' :: quote y := by
          simp [quote]
        rw [e, infix_sep h2] at h
        rw [infix_sep h1]
        simp at hl
        rcases h with h | h
        · exact Or.inl (ih x (by omega) h)
        · have h' := (infix_sep (a := []) h1).1 h
          rcases h' with h' | h'
          · exact absurd (List.eq_nil_of_infix_nil h') hp
          · exact Or.inr (ih y (by omega) h')
      · have e : quote l = l := by
          clear h hl ih
          induction l with
          | nil => rfl
          | cons c l ihl =>
            simp only [List.mem_cons, not_or] at hq
            simp only [quote, List.flatMap_cons, if_neg (Ne.symm hq.1)] at ihl ⊢
            rw [ihl hq.2]
            rfl
        rwa [e] at h
  exact key l.length l (le_refl _) h

theorem plain_name {f : Fields} {P : Str → Prop} (h : ∀ x ∈ f.all, P x) :
    P f.name ∧ P f.units ∧ P f.label ∧ ∀ v, f.value = some v → P v := by
  refine ⟨h _ (by simp [Fields.all]), h _ (by simp [Fields.all]), h _ (by simp [Fields.all]), fun v hv => h _ (by simp [Fields.all, hv])⟩

/-- The statements of vectors. -/
theorem replace_vectors {f : Fields} (h : Plain .vectors f) (n : Str) :
    replace "Variable(".toList ("VectorVariable(".toList ++ n ++ ", ".toList) (code .scalars [] f) = code .vectors n f := by
  obtain ⟨hn, hu, hl, hv⟩ := plain_name h
  have hp : ("Variable(".toList : Str) ≠ [] := by decide
  have hl' : ¬ "Variable(".toList <:+: quote f.label := fun hq => hl (quote_infix_vec (by decide) (by decide) hp hq)
  have e1 : code .scalars [] f = ((f.name ++ ' ' :: ("= self".toList ++ '.' :: (f.name ++ ' ' :: "=".toList))) ++ [' ']) ++
      ("Variable(".toList ++ ([] ++ '\'' :: (f.name ++ '\'' :: ([] ++ ',' :: ([] ++ ' ' :: (f.valueText ++
        '\'' :: (f.units ++ '\'' :: ([] ++ ',' :: ([] ++ ' ' :: ([] ++ '\'' :: (quote f.label ++ '\'' :: ")".toList))))))))))) := by
    simp [code]
  have hA : ¬ "Variable(".toList <:+: f.name ++ ' ' :: ("= self".toList ++ '.' :: (f.name ++ ' ' :: "=".toList)) := by
    rw [infix_sep (by decide), infix_sep (by decide), infix_sep (by decide)]
    simp only [not_or]
    exact ⟨hn, by decide, hn, by decide⟩
  have hval : ¬ "Variable(".toList <:+: f.valueText := by
    rw [Fields.valueText]
    cases hf : f.value with
    | none => decide
    | some v =>
      have : v ++ ", ".toList = v ++ ',' :: " ".toList := rfl
      simp only
      rw [this, infix_sep (by decide)]
      simp only [not_or]
      exact ⟨hv v hf, by decide⟩
  have hT : ¬ "Variable(".toList <:+: [] ++ '\'' :: (f.name ++ '\'' :: ([] ++ ',' :: ([] ++ ' ' :: (f.valueText ++
        '\'' :: (f.units ++ '\'' :: ([] ++ ',' :: ([] ++ ' ' :: ([] ++ '\'' :: (quote f.label ++ '\'' :: ")".toList))))))))) := by
    simp only [infix_sep (show '\'' ∉ "Variable(".toList by decide), infix_sep (show ',' ∉ "Variable(".toList by decide),
      infix_sep (show ' ' ∉ "Variable(".toList by decide), not_or]
    exact ⟨by decide, hn, by decide, by decide, hval, hu, by decide, by decide, by decide, hl', by decide⟩
  rw [e1, replace_append (no_start (by decide) hA), replace_self hp, replace_none hT]
  simp [code]

theorem qp_snoc {y : Str} (h : ¬ "')".toList <:+: y) : ¬ "')".toList <:+: y ++ ['\''] := by
  rintro ⟨a, b, hab⟩
  rcases List.eq_nil_or_concat b with rfl | ⟨b, c, rfl⟩
  · have := congrArg List.getLast? hab
    have e : ("')".toList : Str) = ['\''] ++ [')'] := rfl
    rw [List.append_nil, e, ← List.append_assoc, List.getLast?_concat, List.getLast?_concat] at this
    revert this
    decide
  · rw [List.concat_eq_append, ← List.append_assoc] at hab
    have := List.append_inj_left' hab rfl
    exact h ⟨a, b, this⟩

theorem qp_quote {l : Str} : ∀ {c : Char}, ¬ "')".toList <:+: c :: l → ¬ "')".toList <:+: c :: quote l := by
  induction l with
  | nil => intro c h; exact h
  | cons d l ih =>
    intro c h
    have hd : ¬ "')".toList <:+: d :: l := fun hi => h (List.infix_cons hi)
    by_cases hq : d = '\''
    · subst hq
      have e : quote ('\'' :: l) = '\\' :: '\'' :: quote l := by simp [quote]
      rw [e, List.infix_cons_iff, List.infix_cons_iff, not_or, not_or]
      refine ⟨?_, ?_, ih hd⟩
      · rintro ⟨t, ht⟩
        have e2 : ("')".toList ++ t : Str) = '\'' :: ')' :: t := rfl
        rw [e2] at ht
        injection ht with _ ht
        injection ht with ht _
        revert ht
        decide
      · rintro ⟨t, ht⟩
        have e2 : ("')".toList ++ t : Str) = '\'' :: ')' :: t := rfl
        rw [e2] at ht
        injection ht with ht _
        revert ht
        decide
    · have e : quote (d :: l) = d :: quote l := by simp [quote, hq]
      rw [e, List.infix_cons_iff, not_or]
      refine ⟨?_, ih hd⟩
      rintro ⟨t, ht⟩
      have e2 : ("')".toList ++ t : Str) = '\'' :: ')' :: t := rfl
      rw [e2] at ht
      injection ht with h1 ht
      injection ht with h2 _
      subst h1 h2
      exact h ⟨[], l, rfl⟩

theorem qp_no_start {B : Str} (h : ¬ "')".toList <:+: B ++ ['\'']) : ∀ j < B.length, ¬ "')".toList <+: (B ++ "')".toList).drop j := by
  intro j hj hp
  apply h
  have e : B ++ "')".toList = (B ++ ['\'']) ++ [')'] := by simp
  rw [e, List.drop_append_of_le_length (by simp; omega)] at hp
  have := List.prefix_of_prefix_length_le hp (List.prefix_append ((B ++ ['\'']).drop j) [')']) (by simp; omega)
  exact infix_drop this

/-- The statements of constants. -/
theorem replace_constants {f : Fields} (h : Plain .constants f) :
    replace "')".toList "', constant=True)".toList (code .scalars [] f) = code .constants [] f := by
  obtain ⟨hn, hu, hl, hv⟩ := plain_name h
  have hp : ("')".toList : Str) ≠ [] := by decide
  have tl : ∀ {x : Str}, ¬ "')".toList <:+: '\'' :: x → ¬ "')".toList <:+: x := fun h hi => h (List.infix_cons hi)
  set B : Str := f.name ++ " = self.".toList ++ f.name ++ " = Variable('".toList ++ f.name ++ "', ".toList ++
    f.valueText ++ "'".toList ++ f.units ++ "', '".toList ++ quote f.label with hB
  have e1 : code .scalars [] f = B ++ "')".toList := by simp [code, hB]
  have e2 : B ++ ['\''] = f.name ++ ' ' :: ("= self".toList ++ '.' :: (f.name ++ ' ' :: ("= Variable".toList ++ '(' :: (('\'' :: f.name ++ ['\'']) ++ ',' ::
      ([] ++ ' ' :: (f.valueText ++ (('\'' :: f.units ++ ['\'']) ++ ',' :: ([] ++ ' ' ::
        ('\'' :: quote f.label ++ ['\'']))))))))) := by
    simp [hB]
  have key : ¬ "')".toList <:+: B ++ ['\''] := by
    have hval : ∀ z : Str, ¬ "')".toList <:+: z → ¬ "')".toList <:+: f.valueText ++ z := by
      intro z hz
      rw [Fields.valueText]
      cases hf : f.value with
      | none => exact hz
      | some v =>
        have : (v ++ ", ".toList) ++ z = v ++ ',' :: ([] ++ ' ' :: z) := by simp
        simp only
        rw [this, infix_sep (by decide), infix_sep (by decide), not_or, not_or]
        exact ⟨tl (hv v hf), by decide, hz⟩
    rw [e2, infix_sep (c := ' ') (by decide), infix_sep (c := '.') (by decide), infix_sep (c := ' ') (by decide), infix_sep (c := '(') (by decide),
      infix_sep (c := ',') (by decide), infix_sep (c := ' ') (by decide)]
    simp only [not_or]
    refine ⟨tl hn, by decide, tl hn, by decide, qp_snoc hn, by decide, hval _ ?_⟩
    rw [infix_sep (c := ',') (by decide), infix_sep (c := ' ') (by decide)]
    simp only [not_or]
    exact ⟨qp_snoc hu, by decide, qp_snoc (qp_quote hl)⟩
  have e3 : replace "')".toList "', constant=True)".toList ("')".toList) = "', constant=True)".toList := by decide +kernel
  rw [e1, replace_append (qp_no_start key), e3]
  simp [code, hB]

end Docstring
end Verif
