import Verif.Spec.MosekCli
import Verif.Lemmas.Text

/-!
# Writing and reading the files of `mskexpopt`
-/

set_option linter.unusedSectionVars false

namespace Verif
namespace MosekCli
open Str
variable {K : Type}

/-! ## The program file -/

theorem lines_ended : ∀ {ls : List Str}, (∀ l ∈ ls, '\n' ∉ l) → lines (ended ls) = ls ++ [[]]
  | [], _ => rfl
  | l :: ls, h => by
    have : ended (l :: ls) = l ++ '\n' :: ended ls := by simp [ended]
    rw [this, lines_append (h l (by simp)), lines_ended (fun m hm => h m (by simp [hm]))]
    rfl

theorem tokens_ended {ws : Char → Bool} {ls : List Str} (h : ∀ l ∈ ls, '\n' ∉ l) :
    tokens ws (ended ls) = (ls.filter (fun l => l.head? ≠ some '*')).flatMap (words ws) := by
  unfold tokens
  rw [lines_ended h, List.filter_append, List.flatMap_append]
  simp [words]

theorem words_one {ws : Char → Bool} {w : Str} (h : IsWord ws w) : words ws w = [w] := by
  have := words_word (s := []) h.1 h.2.1 (by simp)
  simpa [words] using this

theorem words_first {ws : Char → Bool} {w s : Str} (h : IsWord ws w) {c : Char} (hc : ws c = true) : words ws (w ++ c :: s) = w :: words ws s := by
  rw [words_word h.1 h.2.1 (by simpa using hc), words, if_pos hc]

theorem flatMap_words {ws : Char → Bool} {α : Type} (f : α → Str) (h : ∀ x, IsWord ws (f x)) : ∀ l : List α,
    ((l.map f).filter (fun l => l.head? ≠ some '*')).flatMap (words ws) = l.map f
  | [] => rfl
  | x :: l => by
    rw [List.map_cons, List.filter_cons_of_pos (by simpa using (h x).2.2), List.flatMap_cons, flatMap_words f h l, words_one (h x)]
    rfl

theorem readAll_map {α : Type} {p : Str → Option α} {f : α → Str} : ∀ l : List α, (∀ x ∈ l, p (f x) = some x) → readAll p (l.map f) = some l
  | [], _ => rfl
  | x :: l, h => by simp [readAll, h x (by simp), readAll_map l (fun y hy => h y (by simp [hy]))]

theorem word_newline {ws : Char → Bool} (hn : ws '\n' = true) {w : Str} (h : IsWord ws w) : '\n' ∉ w := by
  intro hm
  have := h.2.1 _ hm
  rw [hn] at this
  cases this

/-- The words of a triple. -/
def triWords (fi : Nat → Str) (fe : K → Str) (t : Nat × Nat × K) : List Str := [fi t.1, fi t.2.1, fe t.2.2]

theorem flatMap_triples {ws : Char → Bool} {fi : Nat → Str} {fe : K → Str} (hs : ws ' ' = true) (hi : ∀ n, IsWord ws (fi n)) (he : ∀ x, IsWord ws (fe x)) :
    ∀ A : List (Nat × Nat × K), ((A.map (fun t => fi t.1 ++ ' ' :: (fi t.2.1 ++ ' ' :: fe t.2.2))).filter (fun l => l.head? ≠ some '*')).flatMap (words ws) =
      A.flatMap (triWords fi fe)
  | [] => rfl
  | t :: A => by
    have hh : (fi t.1 ++ ' ' :: (fi t.2.1 ++ ' ' :: fe t.2.2)).head? ≠ some '*' := by
      rw [List.head?_append_of_ne_nil _ (hi t.1).1]
      exact (hi t.1).2.2
    rw [List.map_cons, List.filter_cons_of_pos (by simpa using hh), List.flatMap_cons, flatMap_triples hs hi he A, words_first (hi _) hs,
      words_first (hi _) hs, words_one (he _)]
    rfl

theorem readTriples_map {fi : Nat → Str} {fe : K → Str} {pi : Str → Option Nat} {pe : Str → Option K} (hi : ∀ n, pi (fi n) = some n) :
    ∀ A : List (Nat × Nat × K), (∀ t ∈ A, pe (fe t.2.2) = some t.2.2) → readTriples pi pe (A.flatMap (triWords fi fe)) = some A
  | [], _ => rfl
  | t :: A, he => by
    rw [List.flatMap_cons]
    simp only [triWords, List.cons_append, List.nil_append, readTriples, hi, he t (by simp)]
    rw [readTriples_map hi A (fun u hu => he u (by simp [hu]))]

theorem file_newlines {ws : Char → Bool} {fi : Nat → Str} {fe : K → Str} (hn : ws '\n' = true) (hi : ∀ n, IsWord ws (fi n)) (he : ∀ x, IsWord ws (fe x))
    {c : List K} {A : GP.Coot K} {p : List Nat} {ls : List Str} (h : fileLines fi fe c A p = some ls) : ∀ l ∈ ls, '\n' ∉ l := by
  unfold fileLines at h
  split at h
  · cases h
  · cases h
    intro l hl
    have wi := fun n => word_newline hn (hi n)
    have we := fun x => word_newline hn (he x)
    simp only [List.mem_append, List.mem_map, List.mem_cons, List.not_mem_nil, or_false] at hl
    rcases hl with ((((((hl | hl | hl) | hl | hl) | ⟨x, -, hl⟩) | hl | hl) | ⟨x, -, hl⟩) | hl | hl) | ⟨x, -, hl⟩ <;> subst hl
    · exact wi _
    · exact wi _
    · exact wi _
    · decide
    · decide
    · exact we _
    · decide
    · decide
    · exact wi _
    · decide
    · decide
    · simp only [List.mem_append, List.mem_cons, not_or]
      exact ⟨wi _, by decide, wi _, by decide, we _⟩

theorem tokens_file {ws : Char → Bool} {fi : Nat → Str} {fe : K → Str} (hs : ws ' ' = true) (hn : ws '\n' = true) (hi : ∀ n, IsWord ws (fi n))
    (he : ∀ x, IsWord ws (fe x)) {c : List K} {A : GP.Coot K} {p : List Nat} {nc : Nat} (hp : p.getLast? = some nc) :
    ∃ ls, fileLines fi fe c A p = some ls ∧ tokens ws (ended ls) =
      [fi nc, fi (extent (A.map (fun t => t.2.1))), fi (extent (A.map (fun t => t.1)))] ++ c.map fe ++ p.map fi ++ A.flatMap (triWords fi fe) := by
  have e : fileLines fi fe c A p = some ([nc, extent (A.map (fun t => t.2.1)), extent (A.map (fun t => t.1))].map fi
      ++ ["".toList, "*c".toList] ++ c.map fe ++ ["".toList, "*p_idxs".toList] ++ p.map fi ++ ["".toList, "*t j A_tj".toList]
      ++ A.map (fun t => fi t.1 ++ ' ' :: (fi t.2.1 ++ ' ' :: fe t.2.2))) := by
    unfold fileLines
    rw [hp]
    rfl
  refine ⟨_, e, ?_⟩
  rw [tokens_ended (file_newlines hn hi he e)]
  have comment : ∀ s : Str, s.head? = some '*' → (["".toList, s].filter (fun l : Str => l.head? ≠ some '*')).flatMap (words ws) = [] := by
    intro s hs
    rw [List.filter_cons_of_pos (by decide), List.filter_cons_of_neg (by simp [hs])]
    rfl
  simp only [List.filter_append, List.flatMap_append]
  rw [flatMap_words fi hi, flatMap_words fe he, flatMap_words fi hi, flatMap_triples hs hi he, comment _ (by decide), comment _ (by decide), comment _ (by decide)]
  simp

/-- What is written is read back. -/
theorem read_write {ws : Char → Bool} {fi : Nat → Str} {fe : K → Str} {pi : Str → Option Nat} {pe : Str → Option K} (hs : ws ' ' = true)
    (hn : ws '\n' = true) {fl : K → Prop} (hN : Numerals ws fi fe pi pe fl) {c : List K} {A : GP.Coot K} {p : List Nat} {nc : Nat} (hp : p.getLast? = some nc)
    (hc : ∀ x ∈ c, fl x) (hA : ∀ t ∈ A, fl t.2.2) (h1 : c.length = extent (A.map (fun t => t.1))) (h2 : p.length = c.length) :
    ∃ s, writeFile fi fe c A p = some s ∧ readProgram ws pi pe s = some ⟨nc, extent (A.map (fun t => t.2.1)), c, p, A⟩ := by
  obtain ⟨ls, hl, ht⟩ := tokens_file (c := c) (A := A) hs hn hN.intWord hN.fltWord hp
  refine ⟨ended ls, by rw [writeFile, hl]; rfl, ?_⟩
  unfold readProgram
  rw [ht]
  simp only [List.cons_append, List.nil_append, List.append_assoc, hN.int]
  rw [← h1]
  have e1 : ((c.map fe ++ (p.map fi ++ A.flatMap (triWords fi fe))).take c.length) = c.map fe := by
    rw [List.take_left' (by simp)]
  have e2 : ((c.map fe ++ (p.map fi ++ A.flatMap (triWords fi fe))).drop c.length) = p.map fi ++ A.flatMap (triWords fi fe) := by
    rw [List.drop_left' (by simp)]
  have e3 : ((c.map fe ++ (p.map fi ++ A.flatMap (triWords fi fe))).drop (2 * c.length)) = A.flatMap (triWords fi fe) := by
    rw [two_mul, ← List.drop_drop, e2, List.drop_left' (by simp [h2])]
  rw [e1, e2, e3, List.take_left' (by simp [h2]), readAll_map _ (fun x hx => hN.flt x (hc x hx)), readAll_map _ (fun x _ => hN.int x), readTriples_map hN.int _ (fun t ht => hN.flt _ (hA t ht)), if_pos]
  simp [h2]
  omega

/-! ## The solution file -/

theorem rawLines_cons {l s : Str} (h : '\n' ∉ l) : rawLines (l ++ '\n' :: s) = (l ++ ['\n']) :: rawLines s := by
  induction l with
  | nil => simp [rawLines]
  | cons c l ih =>
    have hc : c ≠ '\n' := fun e => h (by simp [e])
    rw [List.cons_append, rawLines, if_neg hc, ih (fun hm => h (by simp [hm]))]
    rfl

theorem rawLines_ended : ∀ {ls : List Str}, (∀ l ∈ ls, '\n' ∉ l) → rawLines (ended ls) = ls.map (fun l => l ++ ['\n'])
  | [], _ => rfl
  | l :: ls, h => by
    have : ended (l :: ls) = l ++ '\n' :: ended ls := by simp [ended]
    rw [this, rawLines_cons (h l (by simp)), rawLines_ended (fun m hm => h m (by simp [hm]))]
    rfl

theorem words_trail {ws : Char → Bool} {c : Char} (hc : ws c = true) : ∀ s : Str, words ws (s ++ [c]) = words ws s
  | [] => by simp [words, hc]
  | d :: s => by
    have ih := words_trail hc s
    rw [List.cons_append, words, words, ih]
    have : ((s ++ [c]).head?.map ws).getD true = (s.head?.map ws).getD true := by
      cases s with
      | nil => simp [hc]
      | cons e s => rfl
    rw [this]

theorem wordVal_line {ws : Char → Bool} {pe : Str → Option K} (hn : ws '\n' = true) {l : Str} {x : K} {i : Nat} (h : wordVal ws pe i l = .ok x) :
    wordVal ws pe i (l ++ ['\n']) = .ok x := by
  unfold wordVal at h ⊢
  rw [words_trail hn]
  exact h

theorem valLine_wordVal {ws : Char → Bool} {pe : Str → Option K} {l : Str} {x : K} (h : ValLine ws pe l x) : wordVal ws pe 1 l = .ok x := by
  obtain ⟨-, i, w, r, hw, hx⟩ := h
  unfold wordVal
  rw [hw]
  simp [hx]

theorem readVals_lines {ws : Char → Bool} {pe : Str → Option K} (hn : ws '\n' = true) {ls : List Str} {xs : List K} (h : ValLines ws pe ls xs)
    {rest : List Str} (hr : rest = [] ∨ ∃ r, rest = ['\n'] :: r) :
    readVals ws pe (ls.map (fun l => l ++ ['\n']) ++ rest) = .ok (xs, rest.tail) := by
  induction h with
  | nil =>
    rcases hr with rfl | ⟨r, rfl⟩
    · rfl
    · simp [readVals]
  | @cons l x ls xs hl hls ih =>
    have hne : l ++ ['\n'] ≠ ['\n'] := by
      intro e
      have : l = [] := by simpa using e
      obtain ⟨-, i, w, r, hw, -⟩ := hl
      rw [this] at hw
      simp [words] at hw
    rw [List.map_cons, List.cons_append, readVals, if_neg hne]
    simp only [bind, Except.bind, wordVal_line hn (valLine_wordVal hl), ih, pure, Except.pure]

theorem rstrip_newline {ws : Char → Bool} (hn : ws '\n' = true) (l : Str) : rstrip ws (l ++ ['\n']) = rstrip ws l := by
  unfold rstrip
  simp [hn]

theorem assert_ok {ws : Char → Bool} (hn : ws '\n' = true) (l : Str) : assertEqual ws (l ++ ['\n']) l = .ok () := by
  unfold assertEqual
  rw [rstrip_newline hn, if_pos rfl]

theorem after_prefix {pat s : Str} (hp : pat ≠ []) (h : ¬ pat <:+: s) : after pat (pat ++ s) = .ok s := by
  unfold after
  rw [count_self hp, count_none h, if_pos rfl]
  have : index? pat (pat ++ s) = some 0 := index?_eq (by simp) (by simp)
  rw [this]
  simp

theorem after_ok {pat s r : Str} (h : after pat s = .ok r) : ∃ pre, s = pre ++ pat ++ r := by
  unfold after at h
  split at h
  · rename_i hc
    cases h
    cases hi : index? pat s with
    | none =>
      rw [index?_none] at hi
      rw [count_none hi] at hc
      cases hc
    | some i =>
      obtain ⟨⟨b, hb⟩, hle, -⟩ := index?_some hi
      refine ⟨s.take i, ?_⟩
      simp only [Option.getD_some]
      have : s.drop (i + pat.length) = b := by
        rw [← List.drop_drop, ← hb, List.drop_left' rfl]
      rw [this, List.append_assoc, hb, List.take_append_drop]
  · cases h

theorem foldl_max_le (xs : List Nat) (x y : Nat) : xs.foldl max x ≤ y ↔ x ≤ y ∧ ∀ z ∈ xs, z ≤ y := by
  induction xs generalizing x with
  | nil => simp
  | cons z xs ih =>
    rw [List.foldl_cons, ih]
    simp only [max_le_iff, List.mem_cons, forall_eq_or_imp]
    tauto

theorem extent_le (l : List Nat) (n : Nat) : extent l ≤ n ↔ ∀ i ∈ l, i < n := by
  cases l with
  | nil => simp [extent]
  | cons x xs =>
    show xs.foldl max x + 1 ≤ n ↔ _
    cases n with
    | zero => simpa using ⟨x, fun h => absurd rfl h⟩
    | succ n =>
      rw [Nat.add_le_add_iff_right, foldl_max_le]
      simp

theorem extent_eq {l : List Nat} {n : Nat} (h : ∀ i, i < n ↔ i ∈ l) : extent l = n := by
  apply le_antisymm
  · rw [extent_le]
    exact fun i hi => (h i).2 hi
  · have := (extent_le l (extent l)).1 (le_refl _)
    by_contra hlt
    push Not at hlt
    exact absurd (this _ ((h _).1 hlt)) (lt_irrefl _)

theorem valLines_newline {ws : Char → Bool} {pe : Str → Option K} {ls : List Str} {xs : List K} (h : ValLines ws pe ls xs) : ∀ l ∈ ls, '\n' ∉ l := by
  induction h with
  | nil => simp
  | cons hl _ ih =>
    intro l hm
    rcases List.mem_cons.1 hm with rfl | hm
    · exact hl.1
    · exact ih l hm

theorem valLines_append {ws : Char → Bool} {pe : Str → Option K} {ls ls' : List Str} {xs xs' : List K} (h : ValLines ws pe ls xs)
    (h' : ValLines ws pe ls' xs') : ValLines ws pe (ls ++ ls') (xs ++ xs') := by
  induction h with
  | nil => exact h'
  | cons hl _ ih => exact .cons hl ih

theorem infix_newline {pat s : Str} (h : ¬ pat <:+: s) (hne : pat ≠ []) (hn : '\n' ∉ pat) : ¬ pat <:+: s ++ ['\n'] := by
  rintro ⟨a, b, hab⟩
  cases b using List.reverseRecOn with
  | nil =>
    rw [List.append_nil] at hab
    have h1 := congrArg List.getLast? hab
    rw [List.getLast?_append_of_ne_nil _ hne, List.getLast?_concat] at h1
    exact hn (List.mem_of_getLast? h1)
  | append_singleton b c _ =>
    rw [← List.append_assoc] at hab
    exact h ⟨a, b, (List.append_inj' hab rfl).1⟩

end MosekCli
end Verif
