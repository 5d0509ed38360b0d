import Verif.Spec.Outline
import Verif.Lemmas.Names

/-!
# Lemmas about texts of models
-/

set_option linter.unusedSectionVars false

namespace Verif
namespace Outline
open VK

/-! ## Lines -/

theorem splitLines_ne (s : Str) : splitLines s ≠ [] := by
  cases s with
  | nil => simp [splitLines]
  | cons c s =>
    rw [splitLines]
    split
    · simp
    · split <;> simp

theorem join_cons (sep a : Str) {l : List Str} (h : l ≠ []) : join sep (a :: l) = a ++ sep ++ join sep l := by
  cases l with
  | nil => exact absurd rfl h
  | cons b l => rfl

theorem join_splitLines (s : Str) : join ['\n'] (splitLines s) = s := by
  induction s with
  | nil => rfl
  | cons c s ih =>
    rw [splitLines]
    split
    · next hc => rw [join_cons _ _ (splitLines_ne s), ih, hc]; rfl
    · split
      · next h => exact absurd h (splitLines_ne s)
      · next l ls h =>
        rw [h] at ih
        cases ls with
        | nil => exact congrArg (c :: ·) ih
        | cons b ls => exact congrArg (c :: ·) ih

theorem splitLines_line {s : Str} (h : '\n' ∉ s) : splitLines s = [s] := by
  induction s with
  | nil => rfl
  | cons c s ih =>
    simp only [List.mem_cons, not_or] at h
    rw [splitLines, if_neg (fun hc => h.1 hc.symm), ih h.2]

theorem splitLines_append {a : Str} (h : '\n' ∉ a) (s : Str) : splitLines (a ++ '\n' :: s) = a :: splitLines s := by
  induction a with
  | nil => rw [List.nil_append, splitLines, if_pos rfl]
  | cons c a ih =>
    simp only [List.mem_cons, not_or] at h
    rw [List.cons_append, splitLines, if_neg (fun hc => h.1 hc.symm), ih h.2]

theorem splitLines_join {l : List Str} (hl : l ≠ []) (h : ∀ s ∈ l, '\n' ∉ s) : splitLines (join ['\n'] l) = l := by
  induction l with
  | nil => exact absurd rfl hl
  | cons a l ih =>
    cases l with
    | nil => exact splitLines_line (h a (by simp))
    | cons b l =>
      rw [join_cons _ _ (by simp), List.append_assoc, List.cons_append, List.nil_append, splitLines_append (h a (by simp)),
        ih (by simp) (fun s hs => h s (by simp [hs]))]

theorem splitLines_mem {s l : Str} (h : l ∈ splitLines s) : '\n' ∉ l := by
  induction s generalizing l with
  | nil =>
    simp only [splitLines, List.mem_singleton] at h
    rw [h]; simp
  | cons c s ih =>
    rw [splitLines] at h
    split at h
    · rcases List.mem_cons.1 h with h | h
      · rw [h]; simp
      · exact ih h
    · next hc =>
      split at h
      · next h' => exact absurd h' (splitLines_ne s)
      · next l' ls h' =>
        rcases List.mem_cons.1 h with h | h
        · rw [h]
          simp only [List.mem_cons, not_or]
          exact ⟨fun hc' => hc hc'.symm, ih (by rw [h']; simp)⟩
        · exact ih (by rw [h']; simp [h])

/-! ## Spaces at the end of lines -/

theorem dropWhile_idem (s : Str) : (s.dropWhile (· == ' ')).dropWhile (· == ' ') = s.dropWhile (· == ' ') := by
  induction s with
  | nil => rfl
  | cons c s ih =>
    rw [List.dropWhile_cons]
    split
    · exact ih
    · next h => rw [List.dropWhile_cons, if_neg h]

theorem rstrip_idem (s : Str) : rstrip (rstrip s) = rstrip s := by
  unfold rstrip
  rw [List.reverse_reverse, dropWhile_idem]

theorem rstrip_neat {l : Str} (h : ∃ c, l.getLast? = some c ∧ c ≠ ' ') : rstrip l = l := by
  obtain ⟨c, hc, hne⟩ := h
  unfold rstrip
  cases hr : l.reverse with
  | nil => rw [List.reverse_eq_nil_iff] at hr; rw [hr] at hc; cases hc
  | cons d r =>
    have : d = c := by rw [← List.head?_reverse, hr] at hc; exact Option.some.inj hc
    rw [List.dropWhile_cons, if_neg (by simpa [this] using hne), ← hr, List.reverse_reverse]

theorem neat_cons {l : Str} (c : Char) (h : ∃ c, l.getLast? = some c ∧ c ≠ ' ') : ∃ d, (c :: l).getLast? = some d ∧ d ≠ ' ' := by
  obtain ⟨d, hd, hne⟩ := h
  refine ⟨d, ?_, hne⟩
  cases l with
  | nil => cases hd
  | cons a l => rw [List.getLast?_cons_cons]; exact hd

theorem dropWhile_spaces {sp : Str} (h : ∀ c ∈ sp, c = ' ') : sp.dropWhile (· == ' ') = [] := by
  induction sp with
  | nil => rfl
  | cons c sp ih =>
    rw [List.dropWhile_cons, if_pos (by simp [h c (by simp)])]
    exact ih (fun d hd => h d (by simp [hd]))

theorem rstrip_spaces {sp : Str} (h : ∀ c ∈ sp, c = ' ') (l : Str) : rstrip (sp ++ l) = if rstrip l = [] then [] else sp ++ rstrip l := by
  unfold rstrip
  rw [List.reverse_append, List.dropWhile_append]
  cases hd : l.reverse.dropWhile (· == ' ') with
  | nil => simp [dropWhile_spaces (sp := sp.reverse) (fun c hc => h c (List.mem_reverse.1 hc))]
  | cons a r => simp

/-- The lines that are not blank, without spaces at their ends. -/
def clean (ls : List Str) : List Str := (ls.map rstrip).filter (fun l => !l.isEmpty)

theorem clean_nil : clean [] = [] := rfl

theorem clean_append (a b : List Str) : clean (a ++ b) = clean a ++ clean b := by simp [clean]

theorem clean_blank : clean [[]] = [] := rfl

theorem clean_cons_blank (l : List Str) : clean ([] :: l) = clean l := rfl

theorem clean_neat {l : List Str} (h : ∀ s ∈ l, ∃ c, s.getLast? = some c ∧ c ≠ ' ') : clean l = l := by
  induction l with
  | nil => rfl
  | cons a l ih =>
    have hl := ih (fun s hs => h s (by simp [hs]))
    have ha := h a (by simp)
    have hne : a.isEmpty = false := by
      obtain ⟨c, hc, _⟩ := ha
      cases a with
      | nil => cases hc
      | cons => rfl
    unfold clean at hl ⊢
    rw [List.map_cons, rstrip_neat ha, List.filter_cons, hne, hl]
    rfl

theorem clean_shift {sp : Str} (h : ∀ c ∈ sp, c = ' ') (l : List Str) : clean (l.map (sp ++ ·)) = (clean l).map (sp ++ ·) := by
  induction l with
  | nil => rfl
  | cons a l ih =>
    unfold clean at ih ⊢
    rw [List.map_cons, List.map_cons, rstrip_spaces h, List.map_cons, List.filter_cons, List.filter_cons, ih]
    by_cases ha : rstrip a = []
    · simp [ha]
    · have : (rstrip a).isEmpty = false := by simpa using ha
      have h2 : (sp ++ rstrip a).isEmpty = false := by simp [ha]
      rw [if_neg ha, h2, this]
      rfl

theorem clean_indented {sp : Str} (h : ∀ c ∈ sp, c = ' ') (l : List Str) : clean (indented sp l) = (clean l).map (sp ++ ·) := by
  rw [← clean_shift h]
  unfold clean indented
  rw [List.map_map, List.map_map]
  congr 1
  apply List.map_congr_left
  intro s _
  exact rstrip_idem _

theorem any_clean {l : List Str} (h : ∀ s ∈ l, rstrip s = s) : l.any (fun s => !s.isEmpty) = !(clean l).isEmpty := by
  induction l with
  | nil => rfl
  | cons a l ih =>
    have := ih (fun s hs => h s (by simp [hs]))
    rw [List.any_cons, this]
    unfold clean
    rw [List.map_cons, h a (by simp), List.filter_cons]
    cases a.isEmpty <;> simp

theorem indentOf_space (b : Bool) : ∀ c ∈ indentOf b, c = ' ' := by
  unfold indentOf
  cases b <;> simp

/-! ## Outlines -/

theorem lines_append (uni : Bool) (a b : Out) : (a.append b).lines uni = a.lines uni ++ b.lines uni := by
  induction a with
  | nil => rfl
  | con e rest ih => simp only [Out.append, Out.lines, ih, List.append_assoc]
  | model h inside rest _ ih => simp only [Out.append, Out.lines, ih, List.cons_append, List.append_assoc]
  | named k inside rest _ ih => simp only [Out.append, Out.lines, ih, List.cons_append, List.append_assoc]

theorem append_nil (o : Out) : o.append .nil = o := by
  induction o with
  | nil => rfl
  | con e rest ih => simp only [Out.append, ih]
  | model h inside rest _ ih => simp only [Out.append, ih]
  | named k inside rest _ ih => simp only [Out.append, ih]

theorem lines_eq_nil (uni : Bool) (o : Out) : o.lines uni = [] ↔ o = .nil := by
  cases o with
  | nil => simp [Out.lines]
  | con e rest => simp [Out.lines, Eqn.lines, splitLines_ne]
  | model h inside rest => constructor <;> intro h <;> cases h
  | named k inside rest => constructor <;> intro h <;> cases h

/-- An outline of plain texts. -/
def OutOK (uni : Bool) : Out → Prop
  | .nil => True
  | .con e rest => e.Plain uni ∧ OutOK uni rest
  | .model h inside rest => NameOK h ∧ OutOK uni inside ∧ OutOK uni rest
  | .named k inside rest => '\n' ∉ k ∧ OutOK uni inside ∧ OutOK uni rest

theorem outOK_append {uni : Bool} {a b : Out} (ha : OutOK uni a) (hb : OutOK uni b) : OutOK uni (a.append b) := by
  induction a with
  | nil => exact hb
  | con e rest ih => exact ⟨ha.1, ih ha.2⟩
  | model h inside rest _ ih => exact ⟨ha.1, ha.2.1, ih ha.2.2⟩
  | named k inside rest _ ih => exact ⟨ha.1, ha.2.1, ih ha.2.2⟩

theorem outOK_keyed {uni names : Bool} {key : Option Str} {a b : Out} (hk : KeyOK key) (ha : OutOK uni a) (hb : OutOK uni b) :
    OutOK uni (keyed names key a b) := by
  unfold keyed
  split
  · next k => exact ⟨hk k rfl, ha, hb⟩
  · exact outOK_append ha hb

theorem piece_ident {h : Str × Nat} (hh : NameOK h.1) : NameOK (Names.piece true h) := by
  unfold Names.piece
  split
  · refine ⟨by simp [hh.1], ?_⟩
    intro c hc
    rcases List.mem_append.1 hc with hc | hc
    · exact hh.2 c hc
    · have := num_digit hc
      simp [isIdent, Char.isAlphanum, this]
  · exact hh

theorem outOK_outline {uni names : Bool} {kids : Kids} (h : kids.Plain uni) : OutOK uni (outline names kids) := by
  induction kids with
  | nil => trivial
  | con key e rest ih => exact outOK_keyed h.1 ⟨h.2.1, trivial⟩ (ih h.2.2)
  | lst key kids rest ih1 ih2 => exact outOK_keyed h.1 (ih1 h.2.1) (ih2 h.2.2)
  | cset key head kids rest ih1 ih2 =>
    cases head with
    | none => exact outOK_keyed h.1 (ih1 h.2.2.1) (ih2 h.2.2.2)
    | some x => exact ⟨piece_ident (h.2.1 x rfl), ih1 h.2.2.1, ih2 h.2.2.2⟩

/-! ## What is printed is the outline -/

theorem ident_neat {n : Str} (h : NameOK n) : ∃ c, n.getLast? = some c ∧ c ≠ ' ' := by
  obtain ⟨c, hc⟩ : ∃ c, n.getLast? = some c := by
    cases hl : n.getLast? with
    | none => exact absurd (List.getLast?_eq_none_iff.1 hl) h.1
    | some c => exact ⟨c, rfl⟩
  refine ⟨c, hc, ?_⟩
  intro h'
  have := h.2 c (List.mem_of_getLast? hc)
  rw [h'] at this
  revert this
  decide

theorem quote_neat (k : Str) : ∃ c, (quote k).getLast? = some c ∧ c ≠ ' ' := by
  refine ⟨':', ?_, by decide⟩
  unfold quote
  rw [List.cons_append, show '"' :: (k ++ ['"', ':']) = ('"' :: k ++ ['"']) ++ [':'] by simp, List.getLast?_append]
  rfl

theorem clean_cons_neat {a : Str} {l : List Str} (h : ∃ c, a.getLast? = some c ∧ c ≠ ' ') : clean (a :: l) = a :: clean l := by
  rw [← List.singleton_append, clean_append, clean_neat (by intro s hs; rw [List.mem_singleton.1 hs]; exact h)]
  rfl

theorem clean_keyed {uni names : Bool} {lines clines : List Str} {key : Option Str} {a b : Out} (h : clean clines = a.lines uni) :
    clean (place names lines key none clines) ++ b.lines uni = clean lines ++ (keyed names key a b).lines uni := by
  unfold place
  dsimp only
  split
  · next k =>
    rw [keyed, clean_append, clean_append, clean_cons_neat (quote_neat k), clean_nil]
    have := clean_shift (sp := [' ', ' ']) (by simp) clines
    simp only [List.cons_append, List.nil_append] at this
    rw [this, h]
    simp [Out.lines, quote]
  · next hne =>
    rw [keyed]
    · rw [clean_append, h, lines_append, List.append_assoc]
    · exact hne

theorem clean_recLine {uni names : Bool} {kids : Kids} (h : kids.Plain uni) (lines : List Str) :
    clean (recLine uni names kids lines) = clean lines ++ (outline names kids).lines uni := by
  induction kids generalizing lines with
  | nil => simp [recLine, outline, Out.lines]
  | con key e rest ih =>
    rw [recLine, ih h.2.2, outline]
    exact clean_keyed (by rw [clean_neat h.2.1.neat]; simp [Out.lines])
  | lst key kids rest ih1 ih2 =>
    rw [recLine, ih2 h.2.2, outline]
    exact clean_keyed (by rw [ih1 h.2.1, clean_nil, List.nil_append])
  | cset key head kids rest ih1 ih2 =>
    rw [recLine, ih2 h.2.2.2]
    have hk : clean (recLine uni names kids []) = (outline names kids).lines uni := by rw [ih1 h.2.2.1, clean_nil, List.nil_append]
    cases head with
    | none =>
      rw [outline]
      refine clean_keyed ?_
      rw [clean_indented (indentOf_space _), hk]
      simp [indentOf]
    | some x =>
      rw [outline, place]
      have hci : clean (indented (indentOf true) (recLine uni names kids [])) = ((outline names kids).lines uni).map (' ' :: ·) := by
        rw [clean_indented (indentOf_space _), hk]
        rfl
      have hany := any_clean (l := indented (indentOf true) (recLine uni names kids [])) (by
        intro s hs
        obtain ⟨t, _, rfl⟩ := List.mem_map.1 hs
        exact rstrip_idem _)
      rw [hci] at hany
      simp only [Option.isSome_some]
      rw [hany, clean_append, clean_append, clean_cons_neat (ident_neat (piece_ident (h.2.1 x rfl))), clean_nil]
      have hl : clean (if lines.isEmpty then lines else lines ++ [[]]) = clean lines := by
        split
        · rfl
        · rw [clean_append, clean_blank, List.append_nil]
      rw [hl, Out.lines]
      cases hol : (outline names kids).lines uni with
      | nil =>
        have : clean [noCons] = [noCons] := by decide +kernel
        rw [List.map_nil, if_neg (by simp), this]
        simp only [orNone, List.isEmpty_nil, if_true, List.append_assoc, List.cons_append, List.nil_append]
        rfl
      | cons a l =>
        rw [if_pos (by simp), hci, hol]
        simp only [orNone, List.isEmpty_cons, List.append_assoc, List.cons_append, List.nil_append]
        rfl

/-! ## Reading -/

theorem join_sep (sp : Str) (a : Str) (l : List Str) : join ('\n' :: sp) (a :: l) = join ['\n'] (a :: l.map (sp ++ ·)) := by
  induction l generalizing a with
  | nil => rfl
  | cons b l ih =>
    rw [join_cons _ _ (List.cons_ne_nil b l), ih, List.map_cons, join_cons _ _ (List.cons_ne_nil _ _)]
    cases l with
    | nil => simp [join]
    | cons d l => simp [join]

/-- The text of a constraint. -/
theorem text_eq (uni : Bool) (e : Eqn) :
    e.text uni = e.left ++ ' ' :: ((if uni then e.oper.unicode else e.oper.ascii) ++ ' ' :: join ('\n' :: List.replicate e.indent ' ') (splitLines e.right)) := by
  unfold Eqn.text
  dsimp only
  by_cases h : 1 < (splitLines e.right).length
  · rw [if_pos h]
    simp
  · have : join ('\n' :: List.replicate e.indent ' ') (splitLines e.right) = e.right := by
      cases hs : splitLines e.right with
      | nil => exact absurd hs (splitLines_ne _)
      | cons a l =>
        cases l with
        | nil =>
          have := join_splitLines e.right
          rw [hs] at this
          exact this
        | cons b l => rw [hs] at h; simp at h
    rw [if_neg h, this]
    simp

theorem text_op (uni : Bool) (e : Eqn) : ∃ c ∈ e.text uni, isOp c = true := by
  have : ∃ c ∈ (if uni then e.oper.unicode else e.oper.ascii), isOp c = true := by
    cases e.oper <;> cases uni <;> decide +kernel
  obtain ⟨c, hc, h⟩ := this
  refine ⟨c, ?_, h⟩
  rw [text_eq]
  simp only [List.mem_append, List.mem_cons]
  exact .inr (.inr (.inl hc))

theorem right_inj {sp a b : Str} (hsp : ∀ c ∈ sp, c = ' ') (h : join ('\n' :: sp) (splitLines a) = join ('\n' :: sp) (splitLines b)) : a = b := by
  have key : ∀ a : Str, ∃ x l, splitLines a = x :: l ∧ splitLines (join ('\n' :: sp) (splitLines a)) = x :: l.map (sp ++ ·) := by
    intro a
    cases hs : splitLines a with
    | nil => exact absurd hs (splitLines_ne _)
    | cons x l =>
      refine ⟨x, l, rfl, ?_⟩
      rw [join_sep, splitLines_join (by simp)]
      intro t ht
      rcases List.mem_cons.1 ht with rfl | ht
      · exact splitLines_mem (s := a) (by rw [hs]; simp)
      · obtain ⟨u, hu, rfl⟩ := List.mem_map.1 ht
        have := splitLines_mem (s := a) (l := u) (by rw [hs]; simp [hu])
        intro hm
        rcases List.mem_append.1 hm with hm | hm
        · exact absurd (hsp _ hm) (by decide)
        · exact this hm
  obtain ⟨x, l, h1, h2⟩ := key a
  obtain ⟨y, m, h3, h4⟩ := key b
  rw [h, h4] at h2
  simp only [List.cons.injEq] at h2
  have hlm : l = m := by
    have : Function.Injective (fun t : Str => sp ++ t) := fun a b h => List.append_cancel_left h
    exact (List.map_injective_iff.2 this h2.2.symm)
  rw [← join_splitLines a, ← join_splitLines b, h1, h3, h2.1, hlm]

theorem ops_split {a b s t : Str} {c d : Char} (ha : ∀ x ∈ a, isOp x = false) (hb : ∀ x ∈ b, isOp x = false) (hc : isOp c = true) (hd : isOp d = true)
    (h : a ++ c :: s = b ++ d :: t) : a = b ∧ c :: s = d :: t := by
  have key : ∀ {a s : Str} {c : Char}, (∀ x ∈ a, isOp x = false) → isOp c = true → (a ++ c :: s).takeWhile (fun x => !isOp x) = a := by
    intro a s c ha hc
    rw [List.takeWhile_append_of_pos (by intro x hx; simp [ha x hx]), List.takeWhile_cons, hc]
    simp
  have h1 := key (s := s) ha hc
  rw [h, key hb hd] at h1
  refine ⟨h1.symm, ?_⟩
  rw [h1] at h
  exact List.append_cancel_left h

theorem text_inj {uni : Bool} {e f : Eqn} (he : ∀ c ∈ e.left, isOp c = false) (hf : ∀ c ∈ f.left, isOp c = false) (h : e.text uni = f.text uni) : e = f := by
  rw [text_eq, text_eq] at h
  have form : ∀ o : Oper, ∃ c s, (if uni then o.unicode else o.ascii) = c :: s ∧ isOp c = true := by
    intro o
    cases o <;> cases uni <;> exact ⟨_, _, rfl, by decide⟩
  obtain ⟨c, s, hc, hc'⟩ := form e.oper
  obtain ⟨d, t, hd, hd'⟩ := form f.oper
  have h' := h
  rw [hc, hd, show ∀ (a b : Str), a ++ ' ' :: b = (a ++ [' ']) ++ b by simp, show ∀ (a b : Str), a ++ ' ' :: b = (a ++ [' ']) ++ b by simp] at h'
  have hl : e.left = f.left := by
    have hs : ∀ {l : Str}, (∀ c ∈ l, isOp c = false) → ∀ c ∈ l ++ [' '], isOp c = false := by
      intro l hl c hc
      rcases List.mem_append.1 hc with hc | hc
      · exact hl c hc
      · rw [List.mem_singleton.1 hc]; decide
    have := (ops_split (hs he) (hs hf) hc' hd' (by simpa using h')).1
    exact List.append_cancel_right this
  rw [hl] at h
  have h2 := List.append_cancel_left h
  simp only [List.cons.injEq, true_and] at h2
  have ho : e.oper = f.oper := by
    revert h2
    cases e.oper <;> cases f.oper <;> cases uni <;> simp [Oper.ascii, Oper.unicode]
  have hi : e.indent = f.indent := by unfold Eqn.indent; rw [hl, ho]
  rw [ho, hi] at h2
  have h3 := List.append_cancel_left h2
  simp only [List.cons.injEq, true_and] at h3
  have hr := right_inj (by intro c hc; exact (List.mem_replicate.1 hc).2) h3
  cases e; cases f
  simp_all

theorem block_split {as bs r r' : List Str} (ha : ∀ x ∈ as, x.head? = some ' ') (hb : ∀ x ∈ bs, x.head? = some ' ')
    (hr : ∀ x ∈ r.head?, x.head? ≠ some ' ') (hr' : ∀ x ∈ r'.head?, x.head? ≠ some ' ') (h : as ++ r = bs ++ r') : as = bs ∧ r = r' := by
  induction as generalizing bs with
  | nil =>
    cases bs with
    | nil => exact ⟨rfl, h⟩
    | cons b bs =>
      rw [List.nil_append] at h
      rw [h] at hr
      exact absurd (hb b (by simp)) (hr b (by simp))
  | cons a as ih =>
    cases bs with
    | nil =>
      rw [List.nil_append] at h
      rw [← h] at hr'
      exact absurd (ha a (by simp)) (hr' a (by simp))
    | cons b bs =>
      simp only [List.cons_append, List.cons.injEq] at h
      obtain ⟨h1, h2⟩ := ih (fun x hx => ha x (by simp [hx])) (fun x hx => hb x (by simp [hx])) h.2
      exact ⟨by rw [h.1, h1], h2⟩

theorem ident_head {n : Str} (h : NameOK n) {c : Char} (hc : isIdent c = false) : n.head? ≠ some c := by
  intro h'
  have := h.2 c (List.mem_of_head? h')
  rw [hc] at this
  cases this

/-- The form of the lines of an outline. -/
theorem lines_head {uni : Bool} {o : Out} (h : OutOK uni o) : ∀ x ∈ (o.lines uni).head?, x.head? ≠ some ' ' := by
  cases o with
  | nil => intro x hx; cases hx
  | con e rest =>
    intro x hx
    have hx' : x ∈ (e.lines uni).head? := by
      rw [Out.lines] at hx
      cases he : e.lines uni with
      | nil => exact absurd he (splitLines_ne _)
      | cons a l => rw [he] at hx; exact hx
    intro hs
    exact ((h.1.first x hx').1 ' ' hs).1 rfl
  | model n inside rest =>
    intro x hx
    cases hx
    exact ident_head h.1 (by decide)
  | named k inside rest =>
    intro x hx
    cases hx
    simp

theorem lines_none {uni : Bool} {o : Out} (h : OutOK uni o) : o.lines uni ≠ ["(no constraints)".toList] := by
  cases o with
  | nil => intro h; cases h
  | con e rest =>
    intro hl
    rw [Out.lines] at hl
    cases he : e.lines uni with
    | nil => exact absurd he (splitLines_ne _)
    | cons a l =>
      rw [he] at hl
      simp only [List.cons_append, List.cons.injEq, List.append_eq_nil_iff] at hl
      obtain ⟨c, hc, hop⟩ := text_op uni e
      have ht : e.text uni = a := by
        have := join_splitLines (e.text uni)
        rw [show splitLines (e.text uni) = a :: l from he, hl.2.1] at this
        exact this.symm
      rw [ht, hl.1] at hc
      have : ∀ c ∈ "(no constraints)".toList, isOp c = false := by decide +kernel
      rw [this c hc] at hop
      cases hop
  | model n inside rest =>
    intro hl
    rw [Out.lines] at hl
    have := congrArg List.length hl
    simp only [List.cons_append, List.length_cons, List.length_append, List.length_map, List.length_nil] at this
    have h0 : (orNone (inside.lines uni)).length ≠ 0 := by
      unfold orNone
      split
      · simp
      · next hne => simpa using hne
    omega
  | named k inside rest =>
    intro hl
    rw [Out.lines] at hl
    simp only [List.cons_append, List.cons.injEq] at hl
    have := congrArg List.head? hl.1
    simp at this

theorem orNone_inj {uni : Bool} {a b : Out} (ha : OutOK uni a) (hb : OutOK uni b) (h : orNone (a.lines uni) = orNone (b.lines uni)) :
    a.lines uni = b.lines uni := by
  unfold orNone at h
  split at h
  · next h1 =>
    split at h
    · next h2 => rw [List.isEmpty_iff] at h1 h2; rw [h1, h2]
    · exact absurd h.symm (lines_none hb)
  · split at h
    · exact absurd h (lines_none ha)
    · exact h

theorem shift_head (l : List Str) : ∀ x ∈ l.map (' ' :: ·), x.head? = some ' ' := by
  intro x hx
  obtain ⟨y, _, rfl⟩ := List.mem_map.1 hx
  rfl

theorem shift2_head (l : List Str) : ∀ x ∈ l.map (fun s => ' ' :: ' ' :: s), x.head? = some ' ' := by
  intro x hx
  obtain ⟨y, _, rfl⟩ := List.mem_map.1 hx
  rfl

/-- An outline that is not empty: its first line, the lines that belong to it, and the rest. -/
inductive Form (uni : Bool) : Out → Str → List Str → Out → Prop
  | con {e rest f tl} (he : e.lines uni = f :: tl) : Form uni (.con e rest) f tl rest
  | model {h inside rest} : Form uni (.model h inside rest) h ((orNone (inside.lines uni)).map (' ' :: ·)) rest
  | named {k inside rest} : Form uni (.named k inside rest) (quote k) ((inside.lines uni).map (fun s => ' ' :: ' ' :: s)) rest

theorem form_exists (uni : Bool) {o : Out} (h : o ≠ .nil) : ∃ f tl rest, Form uni o f tl rest := by
  cases o with
  | nil => exact absurd rfl h
  | con e rest =>
    cases he : e.lines uni with
    | nil => exact absurd he (splitLines_ne _)
    | cons f tl => exact ⟨f, tl, rest, .con he⟩
  | model => exact ⟨_, _, _, .model⟩
  | named => exact ⟨_, _, _, .named⟩

theorem form_lines {uni : Bool} {o : Out} {f : Str} {tl : List Str} {rest : Out} (h : Form uni o f tl rest) :
    o.lines uni = f :: (tl ++ rest.lines uni) := by
  cases h with
  | con he => rw [Out.lines, he, List.cons_append]
  | model => rfl
  | named => rfl

theorem form_ok {uni : Bool} {o : Out} {f : Str} {tl : List Str} {rest : Out} (h : Form uni o f tl rest) (ho : OutOK uni o) :
    (∀ x ∈ tl, x.head? = some ' ') ∧ OutOK uni rest := by
  cases h with
  | con he =>
    refine ⟨?_, ho.2⟩
    have := ho.1.later
    rw [he] at this
    exact this
  | model => exact ⟨shift_head _, ho.2.2⟩
  | named => exact ⟨shift2_head _, ho.2.2⟩

/-- The lines of an outline tell what it is. -/
theorem lines_inj {uni : Bool} {o o' : Out} (ho : OutOK uni o) (ho' : OutOK uni o') (h : o.lines uni = o'.lines uni) : o = o' := by
  induction o generalizing o' with
  | nil => exact ((lines_eq_nil uni o').1 h.symm).symm
  | con e rest ih =>
    obtain ⟨f, tl, r, hF⟩ := form_exists uni (o := .con e rest) (by simp)
    have hne : o' ≠ .nil := by
      rintro rfl
      exact absurd ((lines_eq_nil uni _).1 h) (by simp)
    obtain ⟨f', tl', r', hF'⟩ := form_exists uni hne
    rw [form_lines hF, form_lines hF'] at h
    simp only [List.cons.injEq] at h
    obtain ⟨h1, h2⟩ := h
    obtain ⟨h3, h4⟩ := block_split (form_ok hF ho).1 (form_ok hF' ho').1 (lines_head (form_ok hF ho).2) (lines_head (form_ok hF' ho').2) h2
    cases hF with
    | con he =>
      have hfirst := ho.1.first f (by rw [he]; rfl)
      cases hF' with
      | con he' =>
        have ht := congrArg (join ['\n']) (he.trans (by rw [h1, h3] : f :: tl = f' :: tl')) |>.trans (congrArg (join ['\n']) he').symm
        rw [Eqn.lines, Eqn.lines, join_splitLines, join_splitLines] at ht
        rw [text_inj ho.1.ops ho'.1.ops ht, ih ho.2 ho'.2 h4]
      | model =>
        obtain ⟨c, hc, hi⟩ := hfirst.2
        rw [h1] at hc
        rw [ho'.1.2 c hc] at hi
        cases hi
      | named =>
        exact absurd rfl (hfirst.1 '"' (by rw [h1]; rfl)).2
  | model n inside rest ih1 ih2 =>
    obtain ⟨f, tl, r, hF⟩ := form_exists uni (o := .model n inside rest) (by simp)
    have hne : o' ≠ .nil := by
      rintro rfl
      exact absurd ((lines_eq_nil uni _).1 h) (by simp)
    obtain ⟨f', tl', r', hF'⟩ := form_exists uni hne
    rw [form_lines hF, form_lines hF'] at h
    simp only [List.cons.injEq] at h
    obtain ⟨h1, h2⟩ := h
    obtain ⟨h3, h4⟩ := block_split (form_ok hF ho).1 (form_ok hF' ho').1 (lines_head (form_ok hF ho).2) (lines_head (form_ok hF' ho').2) h2
    cases hF
    cases hF' with
    | con he' =>
      have hfirst := ho'.1.first f' (by rw [he']; rfl)
      obtain ⟨c, hc, hi⟩ := hfirst.2
      rw [← h1] at hc
      rw [ho.1.2 c hc] at hi
      cases hi
    | model =>
      have := List.map_injective_iff.2 (fun a b (h : ' ' :: a = ' ' :: b) => (List.cons.inj h).2) h3
      rw [ih1 ho.2.1 ho'.2.1 (orNone_inj ho.2.1 ho'.2.1 this), ih2 ho.2.2 ho'.2.2 h4, h1]
    | named =>
      exact absurd (by rw [h1]; rfl) (ident_head ho.1 (c := '"') (by decide))
  | named k inside rest ih1 ih2 =>
    obtain ⟨f, tl, r, hF⟩ := form_exists uni (o := .named k inside rest) (by simp)
    have hne : o' ≠ .nil := by
      rintro rfl
      exact absurd ((lines_eq_nil uni _).1 h) (by simp)
    obtain ⟨f', tl', r', hF'⟩ := form_exists uni hne
    rw [form_lines hF, form_lines hF'] at h
    simp only [List.cons.injEq] at h
    obtain ⟨h1, h2⟩ := h
    obtain ⟨h3, h4⟩ := block_split (form_ok hF ho).1 (form_ok hF' ho').1 (lines_head (form_ok hF ho).2) (lines_head (form_ok hF' ho').2) h2
    cases hF
    cases hF' with
    | con he' =>
      have hfirst := ho'.1.first f' (by rw [he']; rfl)
      exact absurd rfl (hfirst.1 '"' (by rw [← h1]; rfl)).2
    | model =>
      exact absurd (by rw [← h1]; rfl) (ident_head ho'.1 (c := '"') (by decide))
    | named =>
      have := List.map_injective_iff.2 (fun a b (h : ' ' :: ' ' :: a = ' ' :: ' ' :: b) => (List.cons.inj (List.cons.inj h).2).2) h3
      have hk : k = _ := List.append_cancel_right (List.cons.inj h1).2
      rw [ih1 ho.2.1 ho'.2.1 this, ih2 ho.2.2 ho'.2.2 h4, hk]

end Outline
end Verif
