import Verif.Lemmas.Text
import Verif.Lemmas.Outline
import Verif.Lemmas.Names
import Verif.Spec.Notes

/-! # Lemmas about splitting text and about notes -/

set_option linter.unusedSectionVars false

namespace Verif
namespace Str
open VK

theorem splitAux_drop (p : Str) : ∀ (n : Nat) (s : Str), splitAux p n s = splitAux p 0 (s.drop n)
  | 0, s => by simp
  | n + 1, [] => by simp [splitAux]
  | n + 1, c :: s => by simp [splitAux, splitAux_drop p n s]

theorem split_ne_nil (p : Str) : ∀ s, split p s ≠ []
  | [] => by simp [split, splitAux]
  | c :: s => by
    unfold split
    rw [splitAux]
    split
    · simp
    · split <;> simp

theorem split_self {p b : Str} (hp : p ≠ []) : split p (p ++ b) = [] :: split p b := by
  unfold split
  cases p with
  | nil => exact absurd rfl hp
  | cons c p =>
    rw [List.cons_append, splitAux, if_pos (isPrefixOf_iff.2 (by simp)), splitAux_drop]
    simp

theorem split_append {p a b : Str} (h : ∀ j < a.length, ¬ p <+: (a ++ b).drop j) :
    ∃ x l, split p b = x :: l ∧ split p (a ++ b) = (a ++ x) :: l := by
  induction a with
  | nil =>
    cases hx : split p b with
    | nil => exact absurd hx (split_ne_nil p b)
    | cons x l => exact ⟨x, l, rfl, hx⟩
  | cons c a ih =>
    have h0 : ¬ p <+: c :: (a ++ b) := by simpa using h 0 (by simp)
    obtain ⟨x, l, h1, h2⟩ := ih (fun j hj => by simpa using h (j + 1) (by simpa using hj))
    refine ⟨x, l, h1, ?_⟩
    unfold split at h2 ⊢
    rw [List.cons_append, splitAux, if_neg (fun hp => h0 (isPrefixOf_iff.1 hp)), h2]
    rfl

theorem split_none {p s : Str} (h : ¬ p <:+: s) : split p s = [s] := by
  obtain ⟨x, l, h1, h2⟩ := split_append (p := p) (a := s) (b := []) (fun j _ hp => h (by simpa using infix_drop hp))
  simp only [split, splitAux, List.cons.injEq] at h1
  obtain ⟨rfl, rfl⟩ := h1
  simpa using h2

theorem split_at {p a b : Str} (hp : p ≠ []) (h : ∀ j < a.length, ¬ p <+: (a ++ (p ++ b)).drop j) :
    split p (a ++ (p ++ b)) = a :: split p b := by
  obtain ⟨x, l, h1, h2⟩ := split_append h
  rw [split_self hp] at h1
  simp only [List.cons.injEq] at h1
  obtain ⟨rfl, rfl⟩ := h1
  simpa using h2

/-- Where a character does not occur, no pattern beginning with it starts. -/
theorem no_start_char {c : Char} {p a b : Str} (h : c ∉ a) : ∀ j < a.length, ¬ (c :: p) <+: (a ++ b).drop j := by
  intro j hj hp
  rw [List.drop_append_of_le_length (by omega)] at hp
  cases hd : a.drop j with
  | nil =>
    have := List.drop_eq_nil_iff.1 hd
    omega
  | cons x t =>
    rw [hd, List.cons_append, List.cons_prefix_cons] at hp
    apply h
    rw [hp.1]
    exact (List.drop_suffix j a).subset (by rw [hd]; simp)

theorem split_join {c : Char} {p : Str} : ∀ {l : List Str}, l ≠ [] → (∀ s ∈ l, c ∉ s) → split (c :: p) (join (c :: p) l) = l
  | [], h, _ => absurd rfl h
  | [a], _, h => by
    rw [join, split_none]
    intro hi
    exact h a (by simp) (hi.subset (by simp))
  | a :: b :: l, _, h => by
    rw [join, List.append_assoc, split_at (by simp) (no_start_char (h a (by simp))),
      split_join (by simp) (fun s hs => h s (List.mem_cons_of_mem _ hs))]

theorem replace_join {c : Char} {r : Str} : ∀ {l : List Str}, (∀ s ∈ l, c ∉ s) → replace [c] r (join [c] l) = join r l
  | [], _ => rfl
  | [a], h => by
    rw [join, join, replace_none]
    intro hi
    exact h a (by simp) (hi.subset (by simp))
  | a :: b :: l, h => by
    rw [join, join, List.append_assoc, replace_append (no_start_char (h a (by simp))), replace_self (by simp),
      replace_join (fun s hs => h s (List.mem_cons_of_mem _ hs)), List.append_assoc]

/-- Text that begins and ends with something other than whitespace. -/
theorem strip_core {ws : Char → Bool} {a s : Str} (ha : ∀ c ∈ a, ws c = true) (h1 : ∀ c, s.head? = some c → ws c = false)
    (h2 : ∀ c, s.getLast? = some c → ws c = false) : strip ws (a ++ s) = s := by
  have hd : ∀ {t : Str}, (∀ c, t.head? = some c → ws c = false) → t.dropWhile ws = t := by
    intro t ht
    cases t with
    | nil => rfl
    | cons c t => rw [List.dropWhile_cons, if_neg (by rw [ht c rfl]; simp)]
  have h0 : (a ++ s).dropWhile ws = s := by
    rw [List.dropWhile_append_of_pos ha, hd h1]
  unfold strip
  rw [h0, hd (by intro c hc; rw [List.head?_reverse] at hc; exact h2 c hc), List.reverse_reverse]

/-- A pattern ended by a character it has nowhere else does not overlap itself. -/
theorem no_overlap {q a b : Str} {c : Char} (hq : c ∉ q) (h : ¬ (q ++ [c]) <:+: a) :
    ∀ j < a.length, ¬ (q ++ [c]) <+: (a ++ ((q ++ [c]) ++ b)).drop j := by
  intro j hj hp
  rw [List.drop_append_of_le_length (by omega)] at hp
  rcases Nat.lt_or_ge (a.drop j).length (q ++ [c]).length with hl | hl
  · have hpre : a.drop j <+: q ++ [c] := List.prefix_of_prefix_length_le (List.prefix_append _ _) hp (by omega)
    obtain ⟨t, ht⟩ := hpre
    rw [← ht, List.prefix_append_right_inj] at hp
    have hlen := congrArg List.length ht
    simp only [List.length_append, List.length_drop, List.length_singleton] at hlen hl
    have htq : t <+: q := by
      refine List.prefix_of_prefix_length_le hp ?_ (by omega)
      rw [ht, List.append_assoc]
      exact List.prefix_append _ _
    have hne : t ≠ [] := by
      rintro rfl
      simp at hlen
      omega
    have hlast : t.getLast? = some c := by
      have := congrArg List.getLast? ht
      rw [List.getLast?_append_of_ne_nil _ hne] at this
      simpa using this
    exact hq (htq.subset (List.mem_of_getLast? hlast))
  · exact h (infix_drop (List.prefix_of_prefix_length_le hp (List.prefix_append _ _) hl))

end Str

namespace VK

theorem join_prefix (sep a b : Str) (l : List Str) : join sep ((a ++ b) :: l) = a ++ join sep (b :: l) := by
  cases l with
  | nil => rfl
  | cons c l => simp [join]

theorem join_append (sep : Str) {a b : List Str} (ha : a ≠ []) (hb : b ≠ []) : join sep (a ++ b) = join sep a ++ sep ++ join sep b := by
  induction a with
  | nil => exact absurd rfl ha
  | cons x a ih =>
    cases a with
    | nil => rw [List.singleton_append, Outline.join_cons _ _ hb]; rfl
    | cons y a =>
      have e1 : join sep (x :: y :: a ++ b) = x ++ sep ++ join sep (y :: a ++ b) := rfl
      have e2 : join sep (x :: y :: a) = x ++ sep ++ join sep (y :: a) := rfl
      rw [e1, e2, ih (by simp)]
      simp only [List.append_assoc]

theorem join_flatten (sep : Str) : ∀ {ls : List (List Str)}, (∀ l ∈ ls, l ≠ []) → join sep (ls.map (join sep)) = join sep ls.flatten
  | [], _ => rfl
  | [a], _ => by simp [join]
  | a :: b :: ls, h => by
    rw [List.map_cons, Outline.join_cons _ _ (by simp), join_flatten sep (fun l hl => h l (List.mem_cons_of_mem _ hl)), List.flatten_cons (l := a),
      join_append _ (h a (by simp))]
    have := h b (by simp)
    simp [this]

theorem head?_join (sep a : Str) (l : List Str) (ha : a ≠ []) : (join sep (a :: l)).head? = a.head? := by
  cases l with
  | nil => rfl
  | cons b l =>
    rw [join, List.append_assoc]
    cases a with
    | nil => exact absurd rfl ha
    | cons => rfl

theorem getLast?_join (sep : Str) : ∀ {l : List Str}, (∀ a ∈ l, a ≠ []) → ∀ c, (join sep l).getLast? = some c → ∃ a ∈ l, a.getLast? = some c
  | [], _, c, h => by simp [join] at h
  | [a], _, c, h => ⟨a, by simp, h⟩
  | a :: b :: l, hne, c, h => by
    have hj : join sep (b :: l) ≠ [] := by
      intro h0
      have := head?_join sep b l (hne b (by simp))
      rw [h0] at this
      have hb := hne b (by simp)
      cases b with
      | nil => exact hb rfl
      | cons => simp at this
    rw [join, List.getLast?_append_of_ne_nil _ hj] at h
    obtain ⟨x, hx, hc⟩ := getLast?_join sep (fun a ha => hne a (List.mem_cons_of_mem _ ha)) c h
    exact ⟨x, List.mem_cons_of_mem _ hx, hc⟩

end VK

namespace Notes
open VK GP

theorem collapse_append {a b : Str} (h : a.getLast? ≠ some ' ' ∨ b.head? ≠ some ' ') : collapse (a ++ b) = collapse a ++ collapse b := by
  induction a with
  | nil => rfl
  | cons c a ih =>
    cases a with
    | nil =>
      rw [List.singleton_append, collapse, if_neg]
      · simp [collapse]
      · rintro ⟨rfl, hb⟩
        rcases h with h | h
        · exact h rfl
        · exact h hb
    | cons d a =>
      have := ih (by rcases h with h | h
                     · left; simpa [List.getLast?_cons_cons] using h
                     · exact Or.inr h)
      rw [List.cons_append, collapse, this]
      conv_rhs => rw [collapse]
      split
      · rename_i h1
        rw [if_pos (by simpa using h1)]
      · rename_i h1
        rw [if_neg (by simpa using h1), List.cons_append]

theorem collapse_spaces (n : Nat) {s : Str} (h : s.head? ≠ some ' ') : collapse (List.replicate (n + 1) ' ' ++ s) = ' ' :: collapse s := by
  induction n with
  | zero =>
    simp only [Nat.zero_add, List.replicate_one, List.singleton_append]
    rw [collapse, if_neg (fun hh => h hh.2)]
  | succ n ih =>
    rw [List.replicate_succ, List.cons_append, collapse, if_pos ⟨rfl, by simp [List.replicate_succ]⟩, ih]

theorem collapse_word {s : Str} (h : ' ' ∉ s) : collapse s = s := by
  induction s with
  | nil => rfl
  | cons c s ih =>
    simp only [List.mem_cons, not_or] at h
    rw [collapse, if_neg (fun hh => h.1 hh.1.symm), ih h.2]

/-- Text that can stand between commas. -/
structure Piece (ws : Char → Bool) (s : Str) : Prop where
  ne : s ≠ []
  head : ∀ c, s.head? = some c → ws c = false
  last : ∀ c, s.getLast? = some c → ws c = false
  single : collapse s = s
  line : '\n' ∉ s

theorem Piece.head_space {ws : Char → Bool} (hw : White ws) {s : Str} (h : Piece ws s) : s.head? ≠ some ' ' := by
  intro hh
  have := h.head _ hh
  rw [hw.space] at this
  cases this

theorem Piece.last_space {ws : Char → Bool} (hw : White ws) {s : Str} (h : Piece ws s) : s.getLast? ≠ some ' ' := by
  intro hh
  have := h.last _ hh
  rw [hw.space] at this
  cases this

theorem not_ws {ws : Char → Bool} {s : Str} (h : ∀ c ∈ s, ws c = false) {c : Char} (hc : ws c = true) : c ∉ s := by
  intro hm
  rw [h c hm] at hc
  cases hc

/-- The names of notes. -/
theorem path_chars {ws : Char → Bool} (hw : White ws) {n : Note} (h : n.Plain ws) :
    join ['.'] n.path ≠ [] ∧ ∀ c ∈ join ['.'] n.path, ws c = false ∧ c ≠ ',' := by
  constructor
  · cases hp : n.path with
    | nil => exact absurd hp h.some
    | cons a l =>
      intro h0
      have ha := (h.path a (by rw [hp]; simp)).1.1
      have := head?_join ['.'] a l ha
      rw [h0] at this
      cases a with
      | nil => exact ha rfl
      | cons => simp at this
  · intro c hc
    rcases mem_join hc with hc | ⟨a, ha, hc⟩
    · rw [List.mem_singleton] at hc
      subst hc
      exact ⟨hw.dot, by decide⟩
    · exact (h.path a ha).1.2 c hc

theorem piece_text {ws : Char → Bool} (hw : White ws) {n : Note} (h : n.Plain ws) : Piece ws n.text ∧ ',' ∉ n.text := by
  obtain ⟨hne, hch⟩ := path_chars hw h
  set p := join ['.'] n.path with hp
  have hsp : ' ' ∉ p := not_ws (fun c hc => (hch c hc).1) hw.space
  have hnl : '\n' ∉ p := not_ws (fun c hc => (hch c hc).1) hw.newline
  have hcm : ',' ∉ p := fun hm => (hch _ hm).2 rfl
  have hlast : p.getLast? ≠ some ' ' := fun hh => hsp (List.mem_of_getLast? hh)
  have hhead : ∀ (x : Str) c, (p ++ x).head? = some c → ws c = false := by
    intro x c hc
    cases hpp : p with
    | nil => exact absurd hpp hne
    | cons a l =>
      rw [hpp, List.cons_append, List.head?_cons, Option.some.injEq] at hc
      exact (hch c (by rw [hpp, ← hc]; simp)).1
  unfold Note.text
  rw [← hp]
  cases hc : n.cond with
  | none =>
    simp only [List.append_nil]
    exact ⟨⟨hne, by simpa using hhead [], fun c hc => (hch c (List.mem_of_getLast? hc)).1, collapse_word hsp, hnl⟩, hcm⟩
  | some bc =>
    obtain ⟨b, c⟩ := bc
    obtain ⟨hc0, hc1⟩ := h.cond b c hc
    have csp : ' ' ∉ c := not_ws (fun x hx => (hc1 x hx).1) hw.space
    have cnl : '\n' ∉ c := not_ws (fun x hx => (hc1 x hx).1) hw.newline
    have ccm : ',' ∉ c := fun hm => (hc1 _ hm).2 rfl
    have hch0 : (c ++ [')']).head? ≠ some ' ' := by
      cases c with
      | nil => exact absurd rfl hc0
      | cons x c =>
        intro hh
        simp only [List.cons_append, List.head?_cons, Option.some.injEq] at hh
        exact csp (by rw [hh]; simp)
    have hcol : collapse (c ++ [')']) = c ++ [')'] := collapse_word (by simp [csp])
    refine ⟨⟨by simp [hne], fun x hx => hhead _ x hx, ?_, ?_, ?_⟩, ?_⟩
    · intro x hx
      rw [← List.append_assoc, List.getLast?_append_of_ne_nil _ (by simp)] at hx
      simp only [List.getLast?_singleton, Option.some.injEq] at hx
      rw [← hx]
      exact hw.paren
    · dsimp only
      rw [collapse_append (Or.inl hlast), collapse_word hsp, List.append_assoc _ c, collapse_append (Or.inr hch0), hcol]
      cases b
      · rfl
      · rfl
    · cases b <;> simp [hnl, cnl]
    · cases b <;> simp [hcm, ccm]

theorem piece_join {ws : Char → Bool} (hw : White ws) : ∀ {l : List Str}, l ≠ [] → (∀ s ∈ l, Piece ws s) → Piece ws (join [',', ' '] l)
  | [], h, _ => absurd rfl h
  | [a], _, h => h a (by simp)
  | a :: b :: l, _, h => by
    have ha := h a (by simp)
    have hb := piece_join hw (l := b :: l) (by simp) (fun s hs => h s (List.mem_cons_of_mem _ hs))
    refine ⟨?_, ?_, ?_, ?_, ?_⟩
    · have := ha.ne
      simp [join, this]
    · intro c hc
      rw [head?_join _ _ _ ha.ne] at hc
      exact ha.head c hc
    · intro c hc
      rw [join, List.getLast?_append_of_ne_nil _ hb.ne] at hc
      exact hb.last c hc
    · rw [join, List.append_assoc, collapse_append (Or.inl (ha.last_space hw)), ha.single,
        collapse_append (Or.inr (hb.head_space hw)), hb.single]
      rfl
    · rw [join]
      simp only [List.mem_append, not_or]
      exact ⟨⟨ha.line, by decide⟩, hb.line⟩

theorem collapse_lines {ws : Char → Bool} (hw : White ws) : ∀ (r : List (Nat × Str)) (a : Str), Piece ws a → (∀ x ∈ r, Piece ws x.2) →
    collapse (join [',', ' '] (a :: r.map (fun x => List.replicate x.1 ' ' ++ x.2))) = join [',', ' '] (a :: r.map (·.2))
  | [], a, ha, _ => ha.single
  | (n, b) :: r, a, ha, hr => by
    have hb := hr (n, b) (by simp)
    have ih := collapse_lines hw r b hb (fun x hx => hr x (List.mem_cons_of_mem _ hx))
    rw [List.map_cons, List.map_cons, join, join, join_prefix]
    dsimp only
    rw [← ih]
    have e : a ++ [',', ' '] ++ (List.replicate n ' ' ++ join [',', ' '] (b :: r.map (fun x => List.replicate x.1 ' ' ++ x.2))) =
        a ++ ([','] ++ (List.replicate (n + 1) ' ' ++ join [',', ' '] (b :: r.map (fun x => List.replicate x.1 ' ' ++ x.2)))) := by
      simp [List.replicate_succ]
    rw [e, collapse_append (Or.inl (ha.last_space hw)), ha.single, collapse_append (Or.inl (by decide)), collapse_spaces]
    · simp [collapse]
    · rw [head?_join _ _ _ hb.ne]
      exact hb.head_space hw

/-- What is read from the lines of a section. -/
theorem items_lines {ws : Char → Bool} (hw : White ws) {ls : List NoteLine} (hne : ls ≠ []) (hls : ∀ l ∈ ls, l.notes ≠ [])
    (hp : ∀ n ∈ ls.flatMap NoteLine.notes, n.Plain ws) :
    items ws (join ['\n'] (ls.map NoteLine.text)) = (ls.flatMap NoteLine.notes).map Note.text := by
  have hpiece : ∀ l ∈ ls, Piece ws (join [',', ' '] (l.notes.map Note.text)) := by
    intro l hl
    refine piece_join hw (by simpa using hls l hl) ?_
    intro s hs
    obtain ⟨n, hn, rfl⟩ := List.mem_map.1 hs
    exact (piece_text hw (hp n (List.mem_flatMap.2 ⟨l, hl, hn⟩))).1
  have hcomma : ∀ s ∈ (ls.flatMap NoteLine.notes).map Note.text, ',' ∉ s := by
    intro s hs
    obtain ⟨n, hn, rfl⟩ := List.mem_map.1 hs
    exact (piece_text hw (hp n hn)).2
  have hcols : join [',', ' '] (ls.map (fun l => join [',', ' '] (l.notes.map Note.text))) =
      join [',', ' '] ((ls.flatMap NoteLine.notes).map Note.text) := by
    have := join_flatten [',', ' '] (ls := ls.map (fun l => l.notes.map Note.text)) (by
      intro x hx
      obtain ⟨l, hl, rfl⟩ := List.mem_map.1 hx
      simpa using hls l hl)
    rw [List.map_map] at this
    rw [List.map_flatMap, List.flatMap]
    exact this
  cases ls with
  | nil => exact absurd rfl hne
  | cons l0 ls =>
    have h0 := hpiece l0 (by simp)
    have hrest : ls.map NoteLine.text = (ls.map (fun l => (l.indent, join [',', ' '] (l.notes.map Note.text)))).map (fun x => List.replicate x.1 ' ' ++ x.2) := by
      rw [List.map_map]; rfl
    have hstrip : Str.strip ws (join ['\n'] ((l0 :: ls).map NoteLine.text)) =
        join ['\n'] (join [',', ' '] (l0.notes.map Note.text) :: ls.map NoteLine.text) := by
      rw [List.map_cons, NoteLine.text, join_prefix]
      apply Str.strip_core
      · intro c hc
        rw [List.eq_of_mem_replicate hc]
        exact hw.space
      · intro c hc
        rw [head?_join _ _ _ h0.ne] at hc
        exact h0.head c hc
      · intro c hc
        obtain ⟨a, ha, hac⟩ := getLast?_join _ (by
          intro a ha
          rcases List.mem_cons.1 ha with rfl | ha
          · exact h0.ne
          · obtain ⟨l, hl, rfl⟩ := List.mem_map.1 ha
            have := (hpiece l (by simp [hl])).ne
            simp [NoteLine.text, this]) c hc
        rcases List.mem_cons.1 ha with rfl | ha
        · exact h0.last c hac
        · obtain ⟨l, hl, rfl⟩ := List.mem_map.1 ha
          have hl' := hpiece l (by simp [hl])
          rw [NoteLine.text, List.getLast?_append_of_ne_nil _ hl'.ne] at hac
          exact hl'.last c hac
    unfold items
    dsimp only
    rw [hstrip, Str.replace_join, hrest, collapse_lines hw _ _ h0, List.map_map]
    · have e : join [',', ' '] (join [',', ' '] (l0.notes.map Note.text) ::
          ls.map ((fun x : Nat × Str => x.2) ∘ fun l => (l.indent, join [',', ' '] (l.notes.map Note.text)))) =
          join [',', ' '] (((l0 :: ls).flatMap NoteLine.notes).map Note.text) := hcols
      rw [e, if_neg, Str.split_join _ hcomma]
      · have := hls l0 (by simp)
        simp [this]
      · rw [← e, List.isEmpty_iff]
        intro h1
        have := head?_join [',', ' '] _ (ls.map ((fun x : Nat × Str => x.2) ∘ fun l => (l.indent, join [',', ' '] (l.notes.map Note.text)))) h0.ne
        rw [h1] at this
        have hne0 := h0.ne
        cases hx : join [',', ' '] (l0.notes.map Note.text) with
        | nil => exact hne0 hx
        | cons => rw [hx] at this; simp at this
    · intro x hx
      obtain ⟨l, hl, rfl⟩ := List.mem_map.1 hx
      exact hpiece l (by simp [hl])
    · intro s hs
      rcases List.mem_cons.1 hs with rfl | hs
      · exact h0.line
      · obtain ⟨l, hl, rfl⟩ := List.mem_map.1 hs
        have := (hpiece l (by simp [hl])).line
        rw [NoteLine.text, List.mem_append, not_or]
        exact ⟨fun hm => absurd (List.eq_of_mem_replicate hm) (by decide), this⟩

/-- The lines of a section, each not empty, end at the first empty line. -/
theorem index_lines (post : Str) : ∀ {ls : List Str}, ls ≠ [] → (∀ l ∈ ls, l ≠ [] ∧ '\n' ∉ l) →
    Str.index? ['\n', '\n'] (join ['\n'] ls ++ '\n' :: '\n' :: post) = some (join ['\n'] ls).length
  | [], h, _ => absurd rfl h
  | [a], _, h => by
    rw [join, Str.index?_append (Str.no_start_char (h a (by simp)).2)]
    simp [Str.index?, List.isPrefixOf]
  | a :: b :: l, _, h => by
    have ih := index_lines post (ls := b :: l) (by simp) (fun x hx => h x (List.mem_cons_of_mem _ hx))
    have hb := h b (by simp)
    have e : join ['\n'] (a :: b :: l) ++ '\n' :: '\n' :: post = a ++ ('\n' :: (join ['\n'] (b :: l) ++ '\n' :: '\n' :: post)) := by
      rw [join]; simp
    rw [e, Str.index?_append (Str.no_start_char (h a (by simp)).2), Str.index?_cons, ih]
    · simp [join]; omega
    · intro hp
      rw [List.cons_prefix_cons] at hp
      have hh := head?_join ['\n'] b l hb.1
      cases hx : join ['\n'] (b :: l) with
      | nil =>
        rw [hx] at hh
        cases b with
        | nil => exact hb.1 rfl
        | cons => simp at hh
      | cons x t =>
        rw [hx, List.cons_append, List.cons_prefix_cons] at hp
        rw [hx, List.head?_cons] at hh
        exact hb.2 (List.mem_of_head? (hh.symm.trans (by rw [← hp.2.1])))

theorem block_lines {rule post : Str} (hr : '\n' ∉ rule) {ls : List Str} (hne : ls ≠ []) (h : ∀ l ∈ ls, l ≠ [] ∧ '\n' ∉ l) :
    block (rule ++ '\n' :: (join ['\n'] ls ++ '\n' :: '\n' :: post)) = .ok (join ['\n'] ls) := by
  unfold block
  rw [Str.index?_char hr]
  dsimp only
  have e : (rule ++ '\n' :: (join ['\n'] ls ++ '\n' :: '\n' :: post)).drop (rule.length + 1) = join ['\n'] ls ++ '\n' :: '\n' :: post := by
    rw [← List.drop_drop, List.drop_left]; rfl
  rw [e, index_lines post hne h]
  simp

theorem block_last {rule post l : Str} (hr : '\n' ∉ rule) (hl : '\n' ∉ l) (hp : ¬ ['\n', '\n'] <:+: '\n' :: post) :
    block (rule ++ '\n' :: (l ++ '\n' :: post)) = .ok l := by
  unfold block
  rw [Str.index?_char hr]
  dsimp only
  have e : (rule ++ '\n' :: (l ++ '\n' :: post)).drop (rule.length + 1) = l ++ '\n' :: post := by
    rw [← List.drop_drop, List.drop_left]; rfl
  rw [e, Str.index?_append (Str.no_start_char hl), Str.index?_none.2 hp, Option.map_none]
  dsimp only
  rw [Str.index?_char hl]
  simp

theorem flag_eq (d : Side) : flag d = heading d ++ ['\n'] := by cases d <;> rfl

theorem heading_line (d : Side) : '\n' ∉ heading d := by cases d <;> decide

section
variable {V : Type}

theorem direction_one (ws : Char → Bool) (cond : Str → Option Bool) (look : List Str → Option (List V)) (d : Side) {pre rest b : Str}
    (h1 : ¬ (heading d ++ ['\n']) <:+: pre) (h2 : ¬ (heading d ++ ['\n']) <:+: rest) (hb : block rest = .ok b) :
    direction ws cond look (pre ++ (heading d ++ ['\n']) ++ rest) d =
      ((items ws b).mapM (item cond look)).map fun vss => vss.flatten.map fun v => (v, d) := by
  have hno := Str.no_overlap (b := rest) (heading_line d) h1
  have hcount : Str.count (flag d) (pre ++ (heading d ++ ['\n']) ++ rest) = 1 := by
    rw [flag_eq, List.append_assoc, Str.count_append hno, Str.count_self (by simp), Str.count_none h2]
  have hidx : Str.index? (flag d) (pre ++ (heading d ++ ['\n']) ++ rest) = some pre.length := by
    rw [flag_eq, List.append_assoc, Str.index?_append hno, Str.index?_eq (i := 0) (by simp) (by simp)]
    simp
  unfold direction
  rw [hcount, hidx]
  dsimp only
  rw [if_neg (by omega), if_neg (by omega), flag_eq]
  have e : (pre ++ (heading d ++ ['\n']) ++ rest).drop (pre.length + (heading d ++ ['\n']).length) = rest := by
    rw [← List.length_append, List.drop_left]
  rw [e, hb]
  rfl

theorem direction_noted {ws : Char → Bool} (hw : White ws) (cond : Str → Option Bool) (look : List Str → Option (List V)) {doc : Str} {d : Side}
    {ns : List Note} (h : Noted doc d ns) (hp : ∀ n ∈ ns, n.Plain ws) :
    direction ws cond look doc d = ((ns.map Note.text).mapM (item cond look)).map fun vss => vss.flatten.map fun v => (v, d) := by
  have hline : ∀ l : NoteLine, l.notes ≠ [] → (∀ n ∈ l.notes, n.Plain ws) → l.text ≠ [] ∧ '\n' ∉ l.text := by
    intro l hl hpl
    have := piece_join hw (l := l.notes.map Note.text) (by simpa using hl) (by
      intro s hs
      obtain ⟨n, hn, rfl⟩ := List.mem_map.1 hs
      exact (piece_text hw (hpl n hn)).1)
    unfold NoteLine.text
    constructor
    · have := this.ne
      simp [this]
    · rw [List.mem_append, not_or]
      exact ⟨fun hm => absurd (List.eq_of_mem_replicate hm) (by decide), this.line⟩
  cases h with
  | none h =>
    unfold direction
    rw [flag_eq, Str.count_none h]
    rfl
  | lines pre rule post ls hne hls hd hr h1 h2 =>
    subst hd
    rw [direction_one ws cond look d h1 h2 (block_lines hr (by simpa using hne) (by
      intro s hs
      obtain ⟨l, hl, rfl⟩ := List.mem_map.1 hs
      exact hline l (hls l hl) (fun n hn => hp n (List.mem_flatMap.2 ⟨l, hl, hn⟩)))), items_lines hw hne hls hp]
  | last pre rule post l hl hd hr h1 h2 hpost =>
    subst hd
    rw [direction_one ws cond look d h1 h2 (block_last hr (hline l hl hp).2 hpost)]
    have := items_lines hw (ls := [l]) (by simp) (by simpa using hl) (by simpa using hp)
    simp only [List.map_cons, List.map_nil, join, List.flatMap_cons, List.flatMap_nil, List.append_nil] at this
    rw [this]

/-- What a note says, as far as it can be read. -/
def Note.value (cond : Str → Option Bool) (look : List Str → Option (List V)) (n : Note) : Except Err (List V) :=
  match n.cond with
  | none => match look n.path with
    | none => .error .attributeError
    | some vs => .ok vs
  | some (inv, c) =>
    match cond c with
    | none => .error .attributeError
    | some b =>
      if b = inv then .ok []
      else match look n.path with
        | none => .error .attributeError
        | some vs => .ok vs

theorem item_text {ws : Char → Bool} (hw : White ws) (cond : Str → Option Bool) (look : List Str → Option (List V)) {n : Note} (h : n.Plain ws) :
    item cond look n.text = n.value cond look := by
  obtain ⟨hne, hch⟩ := path_chars hw h
  have hsp : ' ' ∉ join ['.'] n.path := not_ws (fun c hc => (hch c hc).1) hw.space
  have hsplit : Str.split ['.'] (join ['.'] n.path) = n.path := Str.split_join h.some (fun s hs => (h.path s hs).2)
  have hnamed : named look (join ['.'] n.path) = match look n.path with
      | none => .error .attributeError
      | some vs => .ok vs := by
    unfold named
    rw [hsplit]
    rfl
  unfold Note.text Note.value
  cases hc : n.cond with
  | none =>
    simp only [List.append_nil]
    unfold item
    rw [Str.index?_none.2 (fun hi => hsp (hi.subset (by decide)))]
    exact hnamed
  | some bc =>
    obtain ⟨b, c⟩ := bc
    obtain ⟨hc0, hc1⟩ := h.cond b c hc
    have csp : ' ' ∉ c ++ [')'] := by
      have := not_ws (fun x hx => (hc1 x hx).1) hw.space
      simp [this]
    have hno : ¬ ifText <:+: (if b then "not ".toList else []) ++ c ++ [')'] := by
      cases b with
      | false =>
        intro hi
        exact csp (hi.subset (by decide))
      | true =>
        intro hi
        have hi : [' ', '(', 'i', 'f', ' '] <:+: 'n' :: 'o' :: 't' :: ' ' :: (c ++ [')']) := hi
        rw [List.infix_cons_iff, List.infix_cons_iff, List.infix_cons_iff, List.infix_cons_iff] at hi
        simp only [List.cons_prefix_cons] at hi
        rcases hi with hi | hi | hi | hi | hi
        · exact absurd hi.1 (by decide)
        · exact absurd hi.1 (by decide)
        · exact absurd hi.1 (by decide)
        · have : ['(', 'i', 'f', ' '] <+: c ++ [')'] := by simpa only [List.cons_prefix_cons] using hi.2
          exact csp (this.subset (by decide))
        · exact csp (hi.subset (by decide))
    have e : join ['.'] n.path ++ (" (if ".toList ++ (if b then "not ".toList else []) ++ c ++ [')']) =
        join ['.'] n.path ++ (ifText ++ ((if b then "not ".toList else []) ++ c ++ [')'])) := by
      simp [ifText]
    have hs := Str.split_at (p := ifText) (b := (if b then "not ".toList else []) ++ c ++ [')']) (by decide)
      (Str.no_start_char (c := ' ') (p := ['(', 'i', 'f', ' ']) hsp)
    rw [Str.split_none hno] at hs
    have hsome : (Str.index? ifText (join ['.'] n.path ++ (ifText ++ ((if b then "not ".toList else []) ++ c ++ [')'])))).isSome = true := by
      rw [Str.index?_append (p := ifText) (Str.no_start_char (c := ' ') (p := ['(', 'i', 'f', ' ']) hsp), Str.index?_eq (i := 0) (by simp) (by simp)]
      rfl
    dsimp only
    rw [e]
    unfold item
    rw [if_pos hsome, hs]
    dsimp only
    rw [List.getLast?_append_of_ne_nil _ (by simp), List.getLast?_singleton]
    dsimp only
    rw [if_neg (by simp), List.dropLast_concat]
    cases b with
    | false =>
      have hnt : ¬ c.take 4 = notText := by
        intro h4
        have hm : ' ' ∈ c.take 4 := by rw [h4]; decide
        exact csp (List.mem_append_left _ ((List.take_subset _ _) hm))
      simp only [Bool.false_eq_true, if_false, List.nil_append]
      rw [if_neg hnt]
      cases cond c with
      | none => rfl
      | some x => cases x <;> simp [hnamed]
    | true =>
      have hnt : (("not ".toList : Str) ++ c).take 4 = notText := rfl
      have hnd : (("not ".toList : Str) ++ c).drop 4 = c := rfl
      simp only [if_true]
      rw [if_pos hnt, hnd]
      cases cond c with
      | none => rfl
      | some x => cases x <;> simp [hnamed]

end
end Notes
end Verif
