import Verif.Lemmas.Outline

/-!
# C82: texts of models

The text of a model shows every constraint, once and in order, under the models and keys it belongs to: it can be read in one way.
-/

set_option linter.unusedSectionVars false

namespace Verif
open Outline VK

namespace Outline

theorem place_nl {names : Bool} {lines clines : List Str} {key : Option Str} {head : Option (Str × Nat)} (hl : ∀ s ∈ lines, '\n' ∉ s)
    (hc : ∀ s ∈ clines, '\n' ∉ s) (hk : KeyOK key) (hh : ∀ h ∈ head, NameOK h.1) : ∀ s ∈ place names lines key head clines, '\n' ∉ s := by
  have hident : ∀ {n : Str}, NameOK n → '\n' ∉ n := by
    intro n hn hm
    have := hn.2 _ hm
    revert this
    decide
  unfold place
  split
  · next h =>
    intro s hs
    dsimp only at hs
    rcases List.mem_append.1 hs with hs | hs
    · rcases List.mem_append.1 hs with hs | hs
      · split at hs
        · exact hl s hs
        · rcases List.mem_append.1 hs with hs | hs
          · exact hl s hs
          · rw [List.mem_singleton.1 hs]; simp
      · rw [List.mem_singleton.1 hs]
        exact hident (piece_ident (hh h rfl))
    · split at hs
      · exact hc s hs
      · rw [List.mem_singleton.1 hs]; decide +kernel
  · split
    · next k =>
      intro s hs
      rcases List.mem_append.1 hs with hs | hs
      · rcases List.mem_append.1 hs with hs | hs
        · exact hl s hs
        · rw [List.mem_singleton.1 hs]
          have := hk k rfl
          simp only [quote, List.mem_append, List.mem_cons, List.not_mem_nil, not_or]
          exact ⟨⟨by decide, this⟩, by decide, by decide, by simp⟩
      · obtain ⟨t, ht, rfl⟩ := List.mem_map.1 hs
        simp only [List.mem_cons, not_or]
        exact ⟨by decide, by decide, hc t ht⟩
    · intro s hs
      rcases List.mem_append.1 hs with hs | hs
      · exact hl s hs
      · exact hc s hs

theorem rstrip_nl {s : Str} (h : '\n' ∉ s) : '\n' ∉ rstrip s := by
  intro hm
  unfold rstrip at hm
  exact h (List.mem_reverse.1 ((List.dropWhile_sublist _).subset (List.mem_reverse.1 hm)))

theorem indented_nl {sp : Str} (hsp : ∀ c ∈ sp, c = ' ') {l : List Str} (h : ∀ s ∈ l, '\n' ∉ s) : ∀ s ∈ indented sp l, '\n' ∉ s := by
  intro s hs
  obtain ⟨t, ht, rfl⟩ := List.mem_map.1 hs
  apply rstrip_nl
  intro hm
  rcases List.mem_append.1 hm with hm | hm
  · exact absurd (hsp _ hm) (by decide)
  · exact h t ht hm

theorem recLine_nl {uni names : Bool} {kids : Kids} (h : kids.Plain uni) {lines : List Str} (hl : ∀ s ∈ lines, '\n' ∉ s) :
    ∀ s ∈ recLine uni names kids lines, '\n' ∉ s := by
  induction kids generalizing lines with
  | nil => exact hl
  | con key e rest ih => exact ih h.2.2 (place_nl hl (fun s hs => splitLines_mem hs) h.1 (by simp))
  | lst key kids rest ih1 ih2 => exact ih2 h.2.2 (place_nl hl (ih1 h.2.1 (by simp)) h.1 (by simp))
  | cset key head kids rest ih1 ih2 =>
    exact ih2 h.2.2.2 (place_nl hl (indented_nl (indentOf_space _) (ih1 h.2.2.1 (by simp))) h.1 h.2.1)

theorem indents_space (a b : Bool) : ∀ c ∈ indentOf a ++ indentOf b, c = ' ' := by
  intro c hc
  rcases List.mem_append.1 hc with hc | hc
  · exact indentOf_space _ c hc
  · exact indentOf_space _ c hc

theorem topLines_nl {uni names short named : Bool} {kids : Kids} (h : kids.Plain uni) : ∀ s ∈ topLines uni names short named kids, '\n' ∉ s :=
  indented_nl (indents_space _ _) (recLine_nl h (by simp))

theorem topLines_clean {uni names short named : Bool} {kids : Kids} (h : kids.Plain uni) :
    clean (topLines uni names short named kids) = ((outline names kids).lines uni).map ((indentOf named ++ indentOf short) ++ ·) := by
  rw [topLines, clean_indented (indents_space _ _), clean_recLine h, clean_nil, List.nil_append]

theorem rstripped_any {l : Str} (h : rstrip l = l) : l.any (· ≠ ' ') = !l.isEmpty := by
  cases hl : l.any (· ≠ ' ') with
  | true =>
    cases l with
    | nil => cases hl
    | cons => rfl
  | false =>
    have : ∀ c ∈ l, c = ' ' := by
      intro c hc
      have := List.any_eq_false.1 hl c hc
      simpa using this
    have h0 : rstrip l = [] := by
      unfold rstrip
      rw [dropWhile_spaces (fun c hc => this c (List.mem_reverse.1 hc))]
      rfl
    rw [h] at h0
    rw [h0]
    rfl

theorem notBlank_clean {l : List Str} (h : ∀ s ∈ l, rstrip s = s) : notBlank l = clean l := by
  unfold notBlank clean
  have : l.map rstrip = l := by
    conv_rhs => rw [← List.map_id l]
    exact List.map_congr_left (fun s hs => h s hs)
  rw [this]
  exact List.filter_congr (fun s hs => rstripped_any (h s hs))

theorem topLines_rstrip {uni names short named : Bool} {kids : Kids} : ∀ s ∈ topLines uni names short named kids, rstrip s = s := by
  intro s hs
  obtain ⟨t, _, rfl⟩ := List.mem_map.1 hs
  exact rstrip_idem _

theorem rootLines_ne (r : Root) : rootLines r ≠ [] := by
  unfold rootLines
  dsimp only
  split
  · split <;> simp
  · simp

theorem fullname_nl {l : List (Str × Nat)} (h : ∀ x ∈ l, NameOK x.1) : '\n' ∉ Names.lineageStr true l := by
  unfold Names.lineageStr
  induction l with
  | nil => simp [join]
  | cons x l ih =>
    have hx : '\n' ∉ Names.piece true x := by
      intro hm
      have := (piece_ident (h x (by simp))).2 _ hm
      revert this
      decide
    cases l with
    | nil => simpa [join] using hx
    | cons y l =>
      have := ih (fun z hz => h z (by simp [hz]))
      rw [List.map_cons, join_cons _ _ (by simp)]
      simp only [List.mem_append, not_or]
      exact ⟨⟨hx, by decide⟩, this⟩

theorem fullname_ne {l : List (Str × Nat)} (hl : l ≠ []) (h : ∀ x ∈ l, NameOK x.1) : Names.lineageStr true l ≠ [] := by
  unfold Names.lineageStr
  cases l with
  | nil => exact absurd rfl hl
  | cons x l =>
    have hx := (piece_ident (h x (by simp))).1
    cases l with
    | nil => simpa [join] using hx
    | cons y l => rw [List.map_cons, join_cons _ _ (by simp)]; simp [hx]

theorem rootLines_nl {uni : Bool} {r : Root} (h : r.Plain uni) : ∀ s ∈ rootLines r, '\n' ∉ s := by
  have hd : ∀ s ∈ (match r.cost with
      | some c => [[], "Cost Function".toList, "-------------".toList, ' ' :: c, [], "Constraints".toList, "-----------".toList]
      | none => [[], "Constraints".toList, "-----------".toList]), '\n' ∉ s := by
    have hc := h.cost
    cases hr : r.cost with
    | none => decide +kernel
    | some c =>
      rw [hr] at hc
      have hc := hc c rfl
      intro s hs
      simp only [List.mem_cons, List.not_mem_nil, or_false] at hs
      rcases hs with rfl | rfl | rfl | rfl | rfl | rfl | rfl
      · decide
      · decide +kernel
      · decide +kernel
      · simp only [List.mem_cons, not_or]; exact ⟨by decide, hc⟩
      · decide
      · decide +kernel
      · decide +kernel
  unfold rootLines
  dsimp only
  split
  · exact hd
  · intro s hs
    simp only [List.cons_append, List.nil_append, List.mem_cons] at hs
    rcases hs with rfl | rfl | hs
    · exact fullname_nl h.lineage
    · intro hm
      exact absurd (List.mem_replicate.1 hm).2 (by decide)
    · exact hd s hs

theorem modelText_lines {uni names short : Bool} {r : Root} (h : r.Plain uni) :
    splitLines (modelText uni names short r) = rootLines r ++ topLines uni names short (!r.lineage.isEmpty) r.kids := by
  rw [modelText, splitLines_join]
  · intro h0
    exact rootLines_ne r (List.append_eq_nil_iff.1 h0).1
  · intro s hs
    rcases List.mem_append.1 hs with hs | hs
    · exact rootLines_nl h s hs
    · exact topLines_nl h.kids s hs

/-- What the lines at the top say. -/
theorem rootLines_inj {uni : Bool} {r r' : Root} {b b' : List Str} (h : r.Plain uni) (h' : r'.Plain uni) (he : rootLines r ++ b = rootLines r' ++ b') :
    Names.lineageStr true r.lineage = Names.lineageStr true r'.lineage ∧ r.lineage.isEmpty = r'.lineage.isEmpty ∧ r.cost = r'.cost ∧ b = b' := by
  have hne := fun hl => fullname_ne hl h.lineage
  have hne' := fun hl => fullname_ne hl h'.lineage
  obtain ⟨l, c, k⟩ := r
  obtain ⟨l', c', k'⟩ := r'
  unfold rootLines at he
  dsimp only at he hne hne' ⊢
  have e1 : ∀ {x y : List Str}, "Cost Function".toList :: x ≠ "Constraints".toList :: y := by
    intro x y hxy
    exact absurd (List.cons.inj hxy).1 (by decide +kernel)
  cases l with
  | nil =>
    cases l' with
    | nil =>
      simp only [List.isEmpty_nil, if_true] at he
      cases c <;> cases c' <;> simp only [List.cons_append, List.nil_append, List.cons.injEq, true_and] at he
      · exact ⟨rfl, rfl, rfl, he⟩
      · exact absurd he.1 (by decide +kernel)
      · exact absurd he.1 (by decide +kernel)
      · exact ⟨rfl, rfl, by rw [he.1], he.2⟩
    | cons y l' =>
      simp only [List.isEmpty_nil, if_true, List.isEmpty_cons, Bool.false_eq_true, if_false] at he
      have := hne' (by simp)
      cases c <;> cases c' <;> simp only [List.cons_append, List.nil_append, List.cons.injEq] at he <;> exact absurd he.1.symm this
  | cons x l =>
    cases l' with
    | nil =>
      simp only [List.isEmpty_nil, if_true, List.isEmpty_cons, Bool.false_eq_true, if_false] at he
      have := hne (by simp)
      cases c <;> cases c' <;> simp only [List.cons_append, List.nil_append, List.cons.injEq] at he <;> exact absurd he.1 this
    | cons y l' =>
      simp only [List.isEmpty_cons, Bool.false_eq_true, if_false] at he
      cases c <;> cases c' <;> simp only [List.cons_append, List.nil_append, List.cons.injEq, true_and] at he
      · exact ⟨he.1, rfl, rfl, he.2.2⟩
      · exact absurd he.2.2.1 (by decide +kernel)
      · exact absurd he.2.2.1 (by decide +kernel)
      · exact ⟨he.1, rfl, by rw [he.2.2.1], he.2.2.2⟩

theorem shifted_inj {sp : Str} {a b : List Str} (h : a.map (sp ++ ·) = b.map (sp ++ ·)) : a = b :=
  List.map_injective_iff.2 (fun _ _ h => List.append_cancel_left h) h

/-- What is written above a constraint. -/
def Head.text : Head → Bool × Str
  | .model h => (true, Names.piece true h)
  | .key k => (false, k)

/-- The constraints of an outline with what is above them. -/
def Out.contents : Out → List (List (Bool × Str) × Eqn)
  | .nil => []
  | .con e rest => ([], e) :: rest.contents
  | .model h inside rest => inside.contents.map (fun p => ((true, h) :: p.1, p.2)) ++ rest.contents
  | .named k inside rest => inside.contents.map (fun p => ((false, k) :: p.1, p.2)) ++ rest.contents

theorem contents_append (a b : Out) : (a.append b).contents = a.contents ++ b.contents := by
  induction a with
  | nil => rfl
  | con e rest ih => simp only [Out.append, Out.contents, ih, List.cons_append]
  | model h inside rest _ ih => simp only [Out.append, Out.contents, ih, List.append_assoc]
  | named k inside rest _ ih => simp only [Out.append, Out.contents, ih, List.append_assoc]

theorem contents_outline (names : Bool) (kids : Kids) :
    (outline names kids).contents = (Outline.contents names kids).map (fun p => (p.1.map Head.text, p.2)) := by
  induction kids with
  | nil => rfl
  | con key e rest ih =>
    cases names <;> cases key <;> simp [outline, keyed, Out.contents, Outline.contents, contents_append, ih, Head.text, above]
  | lst key kids rest ih1 ih2 =>
    cases names <;> cases key <;> simp [outline, keyed, Out.contents, Outline.contents, contents_append, ih1, ih2, Head.text, above]
  | cset key head kids rest ih1 ih2 =>
    cases head with
    | none => cases names <;> cases key <;> simp [outline, keyed, Out.contents, Outline.contents, contents_append, ih1, ih2, Head.text, above]
    | some x => simp [outline, Out.contents, Outline.contents, ih1, ih2, Head.text, above]

theorem above_model {names : Bool} {key : Option Str} {head : Option (Str × Nat)} {x : Str × Nat} (h : Head.model x ∈ above names key head) :
    head = some x := by
  unfold above at h
  split at h
  · next y =>
    simp only [List.mem_singleton, Head.model.injEq] at h
    rw [h]
  · split at h <;> simp at h

theorem contents_nodigits {names : Bool} {kids : Kids} (h : kids.NoDigits) :
    ∀ p ∈ Outline.contents names kids, ∀ x, Head.model x ∈ p.1 → ∀ c, x.1.getLast? = some c → c.isDigit = false := by
  induction kids with
  | nil => simp [Outline.contents]
  | con key e rest ih =>
    intro p hp x hx
    rw [Outline.contents] at hp
    rcases List.mem_cons.1 hp with rfl | hp
    · cases above_model (show _ ∈ above names key none from hx)
    · exact ih h p hp x hx
  | lst key kids rest ih1 ih2 =>
    intro p hp x hx
    rw [Outline.contents] at hp
    rcases List.mem_append.1 hp with hp | hp
    · obtain ⟨q, hq, rfl⟩ := List.mem_map.1 hp
      rcases List.mem_append.1 hx with hx | hx
      · cases above_model hx
      · exact ih1 h.1 q hq x hx
    · exact ih2 h.2 p hp x hx
  | cset key head kids rest ih1 ih2 =>
    intro p hp x hx
    rw [Outline.contents] at hp
    rcases List.mem_append.1 hp with hp | hp
    · obtain ⟨q, hq, rfl⟩ := List.mem_map.1 hp
      rcases List.mem_append.1 hx with hx | hx
      · exact h.1 x (above_model hx)
      · exact ih1 h.2.1 q hq x hx
    · exact ih2 h.2.2 p hp x hx

theorem heads_inj {a b : List Head} (ha : ∀ x, Head.model x ∈ a → ∀ c, x.1.getLast? = some c → c.isDigit = false)
    (hb : ∀ x, Head.model x ∈ b → ∀ c, x.1.getLast? = some c → c.isDigit = false) (h : a.map Head.text = b.map Head.text) : a = b := by
  induction a generalizing b with
  | nil =>
    cases b with
    | nil => rfl
    | cons y b => cases h
  | cons x a ih =>
    cases b with
    | nil => cases h
    | cons y b =>
      simp only [List.map_cons, List.cons.injEq] at h
      rw [ih (fun z hz => ha z (by simp [hz])) (fun z hz => hb z (by simp [hz])) h.2]
      congr 1
      cases x with
      | model m =>
        cases y with
        | model n =>
          have : m = n := Names.digits_inj (a := m.1) (m := m.2) (b := n.1) (n := n.2) (ha m (by simp)) (hb n (by simp)) (Prod.mk.inj h.1).2
          rw [this]
        | key k => exact absurd (Prod.mk.inj h.1).1 (by decide)
      | key k =>
        cases y with
        | model n => exact absurd (Prod.mk.inj h.1).1 (by decide)
        | key k' => rw [(Prod.mk.inj h.1).2]

theorem contents_inj {a b : List (List Head × Eqn)} (ha : ∀ p ∈ a, ∀ x, Head.model x ∈ p.1 → ∀ c, x.1.getLast? = some c → c.isDigit = false)
    (hb : ∀ p ∈ b, ∀ x, Head.model x ∈ p.1 → ∀ c, x.1.getLast? = some c → c.isDigit = false)
    (h : a.map (fun p => (p.1.map Head.text, p.2)) = b.map (fun p => (p.1.map Head.text, p.2))) : a = b := by
  induction a generalizing b with
  | nil =>
    cases b with
    | nil => rfl
    | cons y b => cases h
  | cons x a ih =>
    cases b with
    | nil => cases h
    | cons y b =>
      simp only [List.map_cons, List.cons.injEq, Prod.mk.injEq] at h
      rw [ih (fun z hz => ha z (by simp [hz])) (fun z hz => hb z (by simp [hz])) h.2]
      congr 1
      exact Prod.ext (heads_inj (ha x (by simp)) (hb y (by simp)) h.1.1) h.1.2

end Outline

/-! ### What is printed -/

/-- C82 (what is printed). The lines of the text of a model, except blank ones, are those at its top and those of its outline: each constraint with its whole
text, once and in order, one space to the right of the heading of its model and two to the right of its key. -/
theorem C82_lines_partial {uni names short : Bool} {r : Root} (h : r.Plain uni) :
    ∃ body, splitLines (modelText uni names short r) = rootLines r ++ body ∧
      notBlank body = ((outline names r.kids).lines uni).map ((indentOf (!r.lineage.isEmpty) ++ indentOf short) ++ ·) :=
  ⟨_, modelText_lines h, by rw [notBlank_clean topLines_rstrip, topLines_clean h.kids]⟩

/-- C82 (what is printed, sets). The same for a set of constraints. -/
theorem C82_set_lines_partial {uni names short : Bool} {kids : Kids} (h : kids.Plain uni) :
    notBlank (splitLines (setText uni names short kids)) = ((outline names kids).lines uni).map (indentOf short ++ ·) := by
  have hc := topLines_clean (names := names) (short := short) (named := false) h
  rw [setText]
  cases ht : topLines uni names short false kids with
  | nil =>
    rw [ht] at hc
    exact hc
  | cons a l =>
    rw [← ht, splitLines_join (by rw [ht]; simp) (topLines_nl h), notBlank_clean topLines_rstrip]
    exact hc

/-! ### Reading -/

/-- C82 (models). Two models with the same text have the same name, the same text of the cost, and the same outline. -/
theorem C82_model_partial {uni names short : Bool} {r r' : Root} (h : r.Plain uni) (h' : r'.Plain uni)
    (ht : modelText uni names short r = modelText uni names short r') :
    Names.lineageStr true r.lineage = Names.lineageStr true r'.lineage ∧ r.cost = r'.cost ∧ outline names r.kids = outline names r'.kids := by
  have hl := congrArg splitLines ht
  rw [modelText_lines h, modelText_lines h'] at hl
  obtain ⟨e1, e2, e3, e4⟩ := rootLines_inj h h' hl
  refine ⟨e1, e3, ?_⟩
  have hc := congrArg clean e4
  rw [topLines_clean h.kids, topLines_clean h'.kids, e2] at hc
  exact lines_inj (outOK_outline h.kids) (outOK_outline h'.kids) (shifted_inj hc)

/-- C82 (sets). Two sets of constraints with the same text have the same outline. -/
theorem C82_set_partial {uni names short : Bool} {kids kids' : Kids} (h : kids.Plain uni) (h' : kids'.Plain uni)
    (ht : setText uni names short kids = setText uni names short kids') : outline names kids = outline names kids' := by
  have h1 := C82_set_lines_partial (names := names) (short := short) h
  rw [ht, C82_set_lines_partial h'] at h1
  exact (lines_inj (outOK_outline h') (outOK_outline h) (shifted_inj h1)).symm

/-- C82 (constraints). Two models with the same text have the same constraints in the same order, each in the same models and under the same keys, if names of
models do not end in digits. -/
theorem C82_contents_partial {uni names short : Bool} {r r' : Root} (h : r.Plain uni) (h' : r'.Plain uni) (hd : r.kids.NoDigits) (hd' : r'.kids.NoDigits)
    (ht : modelText uni names short r = modelText uni names short r') : contents names r.kids = contents names r'.kids := by
  have ho := congrArg Out.contents (C82_model_partial h h' ht).2.2
  rw [contents_outline, contents_outline] at ho
  exact contents_inj (contents_nodigits hd) (contents_nodigits hd') ho

/-- C82 (simple constraints). A constraint has a plain text if its sides are one line each, the left side has no operator and does not start with a space or
quotation mark, and the right side does not end with a space. -/
theorem C82_single (uni : Bool) {e : Eqn} (hop : ∀ c ∈ e.left, isOp c = false) (hl : '\n' ∉ e.left) (hr : '\n' ∉ e.right)
    (hhead : ∃ c, e.left.head? = some c ∧ c ≠ ' ' ∧ c ≠ '"') (hlast : ∃ c, e.right.getLast? = some c ∧ c ≠ ' ') : e.Plain uni := by
  have hnl : '\n' ∉ (if uni then e.oper.unicode else e.oper.ascii) := by
    cases e.oper <;> cases uni <;> decide +kernel
  have htext : e.text uni = e.left ++ ' ' :: ((if uni then e.oper.unicode else e.oper.ascii) ++ ' ' :: e.right) := by
    rw [text_eq, splitLines_line hr]
    rfl
  have hlines : e.lines uni = [e.text uni] := by
    rw [Eqn.lines, splitLines_line]
    rw [htext]
    simp only [List.mem_append, List.mem_cons, not_or]
    exact ⟨hl, by decide, hnl, by decide, hr⟩
  obtain ⟨c, hc, hc'⟩ := hhead
  obtain ⟨d, hd, hd'⟩ := hlast
  refine ⟨hop, ?_, ?_, ?_⟩
  · rw [hlines]
    intro l hl
    rw [List.mem_singleton.1 hl, htext]
    refine ⟨d, ?_, hd'⟩
    have : e.right ≠ [] := by
      intro h0
      rw [h0] at hd
      cases hd
    rw [show ∀ a b s : Str, a ++ ' ' :: (b ++ ' ' :: s) = (a ++ ' ' :: (b ++ [' '])) ++ s by simp, List.getLast?_append, hd]
    rfl
  · rw [hlines]
    intro l hl
    cases hl
    refine ⟨?_, ' ', ?_, by decide⟩
    · intro x hx
      rw [htext, List.head?_append, hc] at hx
      cases hx
      exact hc'
    · rw [htext]; simp
  · rw [hlines]
    simp

/-! ### Cases -/

/-- `x ≥ 1`. -/
def exEqn : Eqn := ⟨"x".toList, .ge, "1".toList⟩

theorem exEqn_plain (uni : Bool) : exEqn.Plain uni :=
  C82_single uni (by decide +kernel) (by decide +kernel) (by decide +kernel) ⟨'x', by decide +kernel⟩ ⟨'1', by decide +kernel⟩

/-- `c` is printed in two lines. -/
def exLong : Eqn := ⟨"c".toList, .eq, "[1 2\n 3 4]".toList⟩

theorem exLong_plain : exLong.Plain true where
  ops := by decide +kernel
  neat := by
    rw [show exLong.lines true = ["c = [1 2".toList, "     3 4]".toList] by decide +kernel]
    intro l hl
    simp only [List.mem_cons, List.not_mem_nil, or_false] at hl
    rcases hl with rfl | rfl
    · exact ⟨'2', by decide +kernel⟩
    · exact ⟨']', by decide +kernel⟩
  first := by
    rw [show exLong.lines true = ["c = [1 2".toList, "     3 4]".toList] by decide +kernel]
    intro l hl
    cases hl
    exact ⟨by decide +kernel, ' ', by decide +kernel⟩
  later := by decide +kernel

/-- A model of an aircraft with a wing, which has a constraint with a key and one printed in two lines, and an empty fuselage. -/
def exRoot : Root where
  lineage := [("Aircraft".toList, 0)]
  cost := some "x".toList
  kids := .lst none (.con none exEqn .nil) <| .cset none (some ("Wing".toList, 2)) (.con (some "low".toList) exEqn <| .con none exLong .nil) <|
    .cset none (some ("Fuselage".toList, 0)) .nil <| .con none exEqn .nil

theorem exRoot_plain : exRoot.Plain true where
  lineage := by
    intro x hx
    rw [List.mem_singleton.1 hx]
    exact ⟨by decide +kernel, by decide +kernel⟩
  cost := by intro c hc; cases hc; decide +kernel
  kids := by
    have hn : ∀ {s : String}, s.toList ≠ [] → (∀ c ∈ s.toList, isIdent c = true) → ∀ n : Nat, ∀ h ∈ some (s.toList, n), NameOK h.1 := by
      intro s h1 h2 n h hh
      cases hh
      exact ⟨h1, h2⟩
    have hk : KeyOK none := by intro k hk; cases hk
    refine ⟨hk, ⟨hk, exEqn_plain true, trivial⟩, hk, hn (by decide +kernel) (by decide +kernel) 2, ⟨?_, exEqn_plain true, hk, exLong_plain, trivial⟩, hk,
      hn (by decide +kernel) (by decide +kernel) 0, trivial, hk, exEqn_plain true, trivial⟩
    intro k hk
    cases hk
    decide +kernel

/-- The conditions of C82 can be met. -/
example : exRoot.Plain true ∧ exRoot.kids.NoDigits ∧
    modelText true true true exRoot = ("Aircraft\n========\n\nCost Function\n-------------\n x\n\nConstraints\n-----------\n" ++
      "  x ≥ 1\n\n  Wing2\n   \"low\":\n     x ≥ 1\n   c = [1 2\n        3 4]\n\n  Fuselage\n   (no constraints)\n  x ≥ 1").toList := by
  refine ⟨exRoot_plain, ?_, by decide +kernel⟩
  refine ⟨trivial, ?_, trivial, ?_, trivial, trivial⟩ <;>
  · intro h hh
    cases hh
    intro c hc
    revert hc
    revert c
    simp

/-- C82 fails: the first model of a class `Wing1` and the second of a class `Wing` have the same heading. -/
theorem C82_numbers_fails :
    let r : Str × Nat → Root := fun h => ⟨[], none, .cset none (some h) (.con none exEqn .nil) .nil⟩
    modelText true true true (r ("Wing".toList, 1)) = modelText true true true (r ("Wing1".toList, 0)) ∧
    contents true (r ("Wing".toList, 1)).kids ≠ contents true (r ("Wing1".toList, 0)).kids := by
  constructor <;> decide +kernel

/-- C82 fails: the key of a model in a dictionary does not show, so the text does not tell which of two models of a class has which key. Other sets show
their keys. -/
theorem C82_keys_fails :
    let w : Str → Nat → Kids → Kids := fun k n => .cset (some k) (some ("Wing".toList, n)) (.con none exEqn .nil)
    let u : Str → Kids → Kids := fun k => .cset (some k) none (.con none exEqn .nil)
    modelText true true true ⟨[], none, w "left".toList 0 (w "right".toList 1 .nil)⟩ =
      modelText true true true ⟨[], none, w "right".toList 0 (w "left".toList 1 .nil)⟩ ∧
    modelText true true true ⟨[], none, u "left".toList (u "right".toList .nil)⟩ ≠
      modelText true true true ⟨[], none, u "right".toList (u "left".toList .nil)⟩ := by
  constructor <;> decide +kernel

/-- C82 fails: the lines of a right side are out of line with its first one, by one place, if the operator is printed as one character. -/
theorem C82_align_fails :
    let e : Eqn := ⟨"x".toList, .le, "[1 2\n 3 4]".toList⟩
    e.lines true = ["x ≤ [1 2".toList, "      3 4]".toList] ∧ e.lines false = ["x <= [1 2".toList, "      3 4]".toList] := by
  constructor <;> decide +kernel

end Verif
