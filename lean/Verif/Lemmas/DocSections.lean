import Verif.Lemmas.Docstring
import Mathlib.Data.List.Basic

/-!
# The sections found in a docstring

The loops over flags find the sections of the docstring line by line.
-/

set_option linter.unusedSectionVars false

namespace Verif
namespace Docstring
open Str

variable {ws : Char → Bool}

/-- Whether a line is a heading. -/
def hd : Kind → Str → Bool
  | .constants, l => "Constants".toList.isSuffixOf l
  | .scalars, l => "Variables".toList.isSuffixOf l
  | .vectors, l => (index? "Variables of length".toList l).isSome

variable (ws) in
/-- The length announced by a heading. -/
def lenText : Kind → Str → Str
  | .vectors, l => strip ws (l.drop ((index? "Variables of length".toList l).getD 0 + 19))
  | _, _ => []

/-- `declaration_func`, given the length. -/
def declText (k : Kind) (n : Str) (d : Str) : Str :=
  match k with
  | .scalars => d
  | .constants => replace "')".toList "', constant=True)".toList d
  | .vectors => replace "Variable(".toList ("VectorVariable(".toList ++ n ++ ", ".toList) d

variable (ws) in
/-- The lines under a heading, with the length and their positions. -/
def sect (k : Kind) (i : Nat) (l : Str) (L : List Str) : List (Str × Nat × Str) :=
  (((L.drop 1).takeWhile (fun l => strip ws l ≠ [])).zipIdx (i + 2)).map (fun x => (lenText ws k l, x.2, x.1))

variable (ws) in
/-- All lines declared. -/
def secs (k : Kind) : Nat → List Str → List (Str × Nat × Str)
  | _, [] => []
  | i, l :: L => (if hd k l ∧ L ≠ [] then sect ws k i l L else []) ++ secs k (i + 1) L

variable (ws) in
/-- What is collected from lines. -/
def gather (k : Kind) (orig : Str) (S : List (Str × Nat × Str)) : Except Err (Str × List Nat) :=
  match S.mapM (fun x => (lineDecl ws x.2.2).map (declText k x.1)) with
  | .error e => .error e
  | .ok ds => .ok (ds.flatMap (· ++ ['\n']), S.map (fun x => lineIdx orig x.2.2))

theorem gather_nil (k : Kind) (orig : Str) : gather ws k orig [] = .ok ([], []) := rfl

theorem mapM_append {α β : Type} (f : α → Except Err β) : ∀ S T : List α, (S ++ T).mapM f =
    match S.mapM f with
    | .error e => .error e
    | .ok a => match T.mapM f with
      | .error e => .error e
      | .ok b => .ok (a ++ b)
  | [], T => by
    simp only [List.nil_append, List.mapM_nil, pure, Except.pure]
    cases List.mapM f T <;> rfl
  | x :: S, T => by
    simp only [List.cons_append, List.mapM_cons, bind, Except.bind, pure, Except.pure, mapM_append f S T]
    cases f x with
    | error e => rfl
    | ok y =>
      simp only
      cases List.mapM f S with
      | error e => rfl
      | ok a =>
        simp only
        cases List.mapM f T <;> rfl

theorem gather_append (k : Kind) (orig : Str) (S T : List (Str × Nat × Str)) : gather ws k orig (S ++ T) =
    match gather ws k orig S with
    | .error e => .error e
    | .ok a => match gather ws k orig T with
      | .error e => .error e
      | .ok b => .ok (a.1 ++ b.1, a.2 ++ b.2) := by
  unfold gather
  rw [mapM_append]
  cases S.mapM (fun x => (lineDecl ws x.2.2).map (declText k x.1)) with
  | error e => rfl
  | ok a =>
    simp only
    cases T.mapM (fun x => (lineDecl ws x.2.2).map (declText k x.1)) with
    | error e => rfl
    | ok b => simp

theorem declText_flat (k : Kind) (n : Str) (ds : List Str) :
    declText k n (ds.flatMap (· ++ ['\n'])) = (ds.map (declText k n)).flatMap (· ++ ['\n']) := by
  induction ds with
  | nil => cases k <;> rfl
  | cons d ds ih =>
    cases k with
    | scalars =>
      have : declText .scalars n = id := rfl
      rw [this]
      simp
    | constants =>
      simp only [declText, List.flatMap_cons, List.map_cons, List.append_assoc, List.singleton_append] at ih ⊢
      rw [replace_sep (by decide) (by decide), ih]
    | vectors =>
      simp only [declText, List.flatMap_cons, List.map_cons, List.append_assoc, List.singleton_append] at ih ⊢
      rw [replace_sep (by decide) (by decide), ih]

/-- One section. -/
theorem gather_section (k : Kind) (orig n : Str) (ls : List Str) (i : Nat) :
    gather ws k orig ((ls.zipIdx i).map (fun x => (n, x.2, x.1))) =
      match ls.mapM (lineDecl ws) with
      | .error e => .error e
      | .ok ds => .ok (declText k n (ds.flatMap (· ++ ['\n'])), ls.map (lineIdx orig)) := by
  have h : ∀ (ls : List Str) (i : Nat), ((ls.zipIdx i).map (fun x => (n, x.2, x.1))).mapM (fun x : Str × Nat × Str => (lineDecl ws x.2.2).map (declText k x.1)) =
      match ls.mapM (lineDecl ws) with
      | .error e => .error e
      | .ok ds => .ok (ds.map (declText k n)) := by
    intro ls
    induction ls with
    | nil => intro i; rfl
    | cons l ls ih =>
      intro i
      simp only [List.zipIdx_cons, List.map_cons, List.mapM_cons, bind, Except.bind, pure, Except.pure, ih]
      cases lineDecl ws l with
      | error e => rfl
      | ok d =>
        simp only [Except.map]
        cases ls.mapM (lineDecl ws) <;> rfl
  unfold gather
  rw [h]
  cases ls.mapM (lineDecl ws) with
  | error e => rfl
  | ok ds =>
    simp only [declText_flat]
    congr 2
    rw [List.map_map]
    have : ((fun x : Str × Nat × Str => lineIdx orig x.2.2) ∘ fun x : Str × Nat => (n, x.2, x.1)) = (lineIdx orig) ∘ Prod.fst := rfl
    rw [this, ← List.map_map, List.zipIdx_map_fst]

/-- One turn of the loop. -/
theorem flagLoop_step {k : Kind} {orig s : Str} {m idx idx2 : Nat} (h1 : index? k.flag s = some idx) (h2 : k.idx2 (s.drop idx) = .ok idx2) (i : Nat) :
    flagLoop ws k orig (m + 1) s =
      match gather ws k orig (((sectionLines ws (s.drop idx) idx2).zipIdx i).map
          (fun x => (strip ws (((s.drop idx).take idx2).drop k.flag.length), x.2, x.1))) with
      | .error e => .error e
      | .ok a => match flagLoop ws k orig m ((s.drop idx).drop (idx2 + k.flag.length)) with
        | .error e => .error e
        | .ok b => .ok (a.1 ++ b.1, a.2 ++ b.2) := by
  rw [flagLoop, h1]
  simp only [bind, Except.bind, h2, pure, Except.pure]
  rw [gather_section]
  cases List.mapM (lineDecl ws) (sectionLines ws (s.drop idx) idx2) with
  | error e => rfl
  | ok ds =>
    simp only
    cases flagLoop ws k orig m ((s.drop idx).drop (idx2 + k.flag.length)) with
    | error e => rfl
    | ok b => cases k <;> rfl

/-- Text before the first flag does not matter. -/
theorem flagLoop_shift {k : Kind} {orig a b : Str} (h : ∀ j < a.length, ¬ k.flag <+: (a ++ b).drop j) (n : Nat) :
    flagLoop ws k orig n (a ++ b) = flagLoop ws k orig n b := by
  cases n with
  | zero => rfl
  | succ n =>
    rw [flagLoop, flagLoop, index?_append h]
    cases hi : index? k.flag b with
    | none => rfl
    | some i =>
      simp only [Option.map_some]
      have : (a ++ b).drop (i + a.length) = b.drop i := by
        rw [List.drop_append, List.drop_eq_nil_of_le (by omega)]
        simp
      rw [this]

/-- Where a newline can be. -/
theorem newline_at {l t : Str} (hl : '\n' ∉ l) {i : Nat} (hi : (l ++ '\n' :: t)[i]? = some '\n') : l.length ≤ i := by
  by_contra hlt
  rw [List.getElem?_append_left (by omega)] at hi
  exact hl (List.mem_of_getElem? hi)

theorem flag_start {f l t : Str} (hl : '\n' ∉ l) (hf : '\n' ∉ f) {j : Nat} (hj : j ≤ l.length) (h : (f ++ ['\n']) <+: (l ++ '\n' :: t).drop j) :
    l.drop j = f := by
  obtain ⟨u, hu⟩ := h
  rw [List.drop_append_of_le_length hj] at hu
  have hlj : '\n' ∉ l.drop j := fun hm => hl (List.mem_of_mem_drop hm)
  have h1 : (l.drop j).length ≤ f.length := by
    apply newline_at (t := t) hlj
    rw [← hu]
    simp
  have h2 : f.length ≤ (l.drop j).length := by
    have e : (f ++ ['\n']) ++ u = f ++ '\n' :: u := by simp
    apply newline_at (t := u) hf
    rw [← e, hu]
    simp
  have := List.append_inj_left (t₁ := '\n' :: u) (t₂ := '\n' :: t) (by simpa using hu) (by omega)
  exact this.symm

/-- The loop for flags ending a line. -/
theorem flagLoop_newline {k : Kind} {f : Str} (hk : k.flag = f ++ ['\n']) (hf : '\n' ∉ f) (hhd : ∀ l, hd k l = true ↔ f <:+ l)
    (hlen : ∀ l, lenText ws k l = []) (orig : Str) : ∀ (L : List Str), L ≠ [] → (∀ l ∈ L, '\n' ∉ l) → ∀ i,
      flagLoop ws k orig (count k.flag (unlines L)) (unlines L) = gather ws k orig (secs ws k i L) := by
  intro L
  induction L with
  | nil => intro h; exact absurd rfl h
  | cons l L ih =>
    intro _ hno i
    have hl : '\n' ∉ l := hno l (by simp)
    by_cases hL : L = []
    · subst hL
      have : count k.flag (unlines [l]) = 0 := by
        apply count_none
        rw [hk]
        intro hi
        exact hl (hi.subset (by simp))
      rw [this]
      simp [secs, gather_nil, flagLoop]
    · rw [unlines_cons hL]
      have ih' := ih hL (fun x hx => hno x (List.mem_cons_of_mem _ hx)) (i + 1)
      by_cases hh : f <:+ l
      · obtain ⟨a, rfl⟩ := hh
        have e : (a ++ f) ++ '\n' :: unlines L = a ++ (k.flag ++ unlines L) := by simp [hk]
        have hns : ∀ j < a.length, ¬ k.flag <+: (a ++ (k.flag ++ unlines L)).drop j := by
          intro j hj hp
          rw [← e, hk] at hp
          have := congrArg List.length (flag_start hl hf (by simp; omega) hp)
          simp at this
          omega
        have hidx : index? k.flag (k.flag ++ unlines L) = some 0 := index?_eq (by simp) (by simp)
        have hidx2 : k.idx2 ((k.flag ++ unlines L).drop 0) = .ok 0 := by
          rw [Kind.idx2, if_pos (by simp [hk])]
        have hsl : sectionLines ws ((k.flag ++ unlines L).drop 0) 0 = (L.drop 1).takeWhile (fun l => strip ws l ≠ []) := by
          have : (k.flag ++ unlines L).drop 0 = f ++ '\n' :: unlines L := by simp [hk]
          rw [sectionLines, this, List.drop_zero, lines_append hf, lines_unlines hL (fun x hx => hno x (List.mem_cons_of_mem _ hx))]
          rfl
        rw [e, count_append hns, flagLoop_shift hns, count_self (by simp [hk]), flagLoop_step hidx hidx2 (i + 2), hsl, secs,
          if_pos ⟨(hhd _).2 (List.suffix_append _ _), hL⟩, gather_append, sect, hlen]
        have e2 : ((k.flag ++ unlines L).drop 0).drop (0 + k.flag.length) = unlines L := by simp
        have e3 : strip ws ((((k.flag ++ unlines L).drop 0).take 0).drop k.flag.length) = [] := by simp [strip]
        rw [e2, e3, ih']
      · have e : l ++ '\n' :: unlines L = (l ++ ['\n']) ++ unlines L := by simp
        have hns : ∀ j < (l ++ ['\n']).length, ¬ k.flag <+: ((l ++ ['\n']) ++ unlines L).drop j := by
          intro j hj hp
          simp only [List.length_append, List.length_singleton] at hj
          rw [← e, hk] at hp
          exact hh ((flag_start hl hf (by omega) hp) ▸ List.drop_suffix j l)
        rw [e, count_append hns, flagLoop_shift hns, ih', secs, if_neg (fun h => hh ((hhd _).1 h.1))]
        rfl

theorem hd_vectors (l : Str) : hd .vectors l = (index? "Variables of length".toList l).isSome := rfl

theorem underlined_tail {l : Str} {L : List Str} (h : Underlined (l :: L)) : Underlined L := by
  intro j x hx hin
  exact h (j + 1) x (by simpa using hx) hin

/-- The loop for vectors. -/
theorem flagLoop_vectors (orig : Str) : ∀ (n : Nat) (L : List Str), L.length ≤ n → L ≠ [] → (∀ l ∈ L, '\n' ∉ l) → Underlined L → ∀ i,
    flagLoop ws .vectors orig (count "Variables of length".toList (unlines L)) (unlines L) = gather ws .vectors orig (secs ws .vectors i L) := by
  have hflag : Kind.vectors.flag = "Variables of length".toList := rfl
  have hp : ("Variables of length".toList : Str) ≠ [] := by decide
  have hnl : '\n' ∉ "Variables of length".toList := by decide
  intro n
  induction n with
  | zero =>
    intro L hlen hne
    exact absurd (List.length_eq_zero_iff.1 (by omega)) hne
  | succ n ih =>
    intro L hlen hne hno hund i
    obtain ⟨l, L, rfl⟩ := List.exists_cons_of_ne_nil hne
    have hl : '\n' ∉ l := hno l (by simp)
    have hno' : ∀ x ∈ L, '\n' ∉ x := fun x hx => hno x (List.mem_cons_of_mem _ hx)
    simp only [List.length_cons] at hlen
    cases hi : index? "Variables of length".toList l with
    | none =>
      have hin := index?_none.1 hi
      have hh : ¬ (hd .vectors l = true ∧ L ≠ []) := by
        rintro ⟨h, -⟩
        rw [hd_vectors, hi] at h
        cases h
      rw [secs, if_neg hh, List.nil_append]
      by_cases hL : L = []
      · subst hL
        rw [count_none (by simpa [unlines] using hin)]
        simp [secs, gather_nil, flagLoop]
      · have e : unlines (l :: L) = (l ++ ['\n']) ++ unlines L := by rw [unlines_cons hL]; simp
        have hns := no_start (p := "Variables of length".toList) (a := l) (b := unlines L) hnl hin
        rw [e, count_append hns, flagLoop_shift (k := .vectors) hns, ih L (by omega) hL hno' (underlined_tail hund) (i + 1)]
    | some a =>
      obtain ⟨⟨b, hb⟩, ha2, ha3⟩ := index?_some hi
      have el : l = l.take a ++ ("Variables of length".toList ++ b) := by rw [hb]; simp
      have hla : (l.take a).length = a := by simp [ha2]
      have hin : "Variables of length".toList <:+: l := infix_drop ⟨b, hb⟩
      obtain ⟨hone, u, hu, hu18, hun⟩ := hund 0 l (by simp) hin
      have hbn : ¬ "Variables of length".toList <:+: b := hone (l.take a) b (by rw [List.append_assoc]; exact el)
      cases L with
      | nil => simp at hu
      | cons u' L =>
        have : u' = u := by simpa using hu
        subst this
        have hul : '\n' ∉ u' := hno' u' (by simp)
        have hbl : '\n' ∉ b := fun hm => hl (by rw [el]; simp [hm])
        have hgb : '\n' ∉ ("Variables of length".toList ++ b) := by
          simp only [List.mem_append, not_or]; exact ⟨hnl, hbl⟩
        -- the rest of the text
        set t := unlines (u' :: L) with ht
        have es : unlines (l :: u' :: L) = l.take a ++ ("Variables of length".toList ++ (b ++ '\n' :: t)) := by
          rw [unlines_cons (by simp), ← ht]
          conv_lhs => rw [el]
          simp
        have hns : ∀ j < (l.take a).length, ¬ "Variables of length".toList <+: (l.take a ++ ("Variables of length".toList ++ (b ++ '\n' :: t))).drop j := by
          intro j hj hpre
          have e : l.take a ++ ("Variables of length".toList ++ (b ++ '\n' :: t)) = l ++ '\n' :: t := by
            conv_rhs => rw [el]
            simp
          rw [e, prefix_sep hnl (by omega)] at hpre
          exact ha3 j (by omega) hpre
        have hut : t.drop 18 = unlines (u'.drop 18 :: L) := by
          rw [ht]
          by_cases hL : L = []
          · subst hL; rfl
          · rw [unlines_cons hL, unlines_cons hL, List.drop_append_of_le_length hu18]
        have hun18 : ¬ "Variables of length".toList <:+: u'.drop 18 := fun h => hun (h.trans (List.drop_suffix 18 u').isInfix)
        have hcount : count "Variables of length".toList t = count "Variables of length".toList (t.drop 18) := by
          rw [hut, ht]
          by_cases hL : L = []
          · subst hL
            simp only [unlines]
            rw [count_none hun, count_none hun18]
          · rw [unlines_cons hL, unlines_cons hL, count_sep hnl hp, count_sep hnl hp, count_none hun, count_none hun18]
        have hund' : Underlined (u'.drop 18 :: L) := by
          intro j x hx hin
          cases j with
          | zero =>
            have : x = u'.drop 18 := by simpa using hx.symm
            subst this
            exact absurd hin hun18
          | succ j => exact hund (j + 2) x (by simpa using hx) hin
        have hnou : ∀ x ∈ u'.drop 18 :: L, '\n' ∉ x := by
          intro x hx
          simp only [List.mem_cons] at hx
          rcases hx with rfl | hx
          · exact fun hm => hul (List.mem_of_mem_drop hm)
          · exact hno' x (by simp [hx])
        have ih' := ih (u'.drop 18 :: L) (by simp at hlen ⊢; omega) (by simp) hnou hund' (i + 1)
        have hidx : index? Kind.vectors.flag ("Variables of length".toList ++ (b ++ '\n' :: t)) = some 0 :=
          index?_eq (by rw [hflag]; simp) (by simp)
        have hdrop : ("Variables of length".toList ++ (b ++ '\n' :: t)).drop 0 = ("Variables of length".toList ++ b) ++ '\n' :: t := by simp
        have hidx2 : Kind.vectors.idx2 (("Variables of length".toList ++ (b ++ '\n' :: t)).drop 0) = .ok ("Variables of length".toList ++ b).length := by
          have : index? "\n".toList (("Variables of length".toList ++ b) ++ '\n' :: t) = some ("Variables of length".toList ++ b).length := index?_char hgb
          rw [Kind.idx2, if_neg (by rw [hflag]; exact hnl), hdrop, this]
        have hsl : sectionLines ws (("Variables of length".toList ++ (b ++ '\n' :: t)).drop 0) ("Variables of length".toList ++ b).length =
            L.takeWhile (fun l => strip ws l ≠ []) := by
          rw [sectionLines, hdrop, List.drop_left]
          have : lines ('\n' :: t) = [] :: lines t := lines_append (a := []) (by simp)
          rw [this, ht, lines_unlines (by simp) hno']
          rfl
        have hstrip : strip ws (((("Variables of length".toList ++ (b ++ '\n' :: t)).drop 0).take ("Variables of length".toList ++ b).length).drop
            Kind.vectors.flag.length) = lenText ws .vectors l := by
          rw [hdrop, List.take_left, hflag, List.drop_left, lenText, hi]
          have : l.drop (a + 19) = b := by
            rw [← List.drop_drop, ← hb]
            exact List.drop_left (l₁ := "Variables of length".toList)
          simp only [Option.getD_some, this]
        have hrest : (("Variables of length".toList ++ (b ++ '\n' :: t)).drop 0).drop (("Variables of length".toList ++ b).length + Kind.vectors.flag.length) =
            t.drop 18 := by
          rw [hdrop, List.drop_append, List.drop_eq_nil_of_le (by omega)]
          have : ("Variables of length".toList ++ b).length + Kind.vectors.flag.length - ("Variables of length".toList ++ b).length = 18 + 1 := by
            have : Kind.vectors.flag.length = 19 := rfl
            omega
          rw [this]
          rfl
        have hh : hd .vectors l = true ∧ u' :: L ≠ [] := ⟨by rw [hd_vectors, hi]; rfl, by simp⟩
        have hcb : count "Variables of length".toList (b ++ '\n' :: t) = count "Variables of length".toList t := by
          rw [count_sep hnl hp, count_none hbn, Nat.zero_add]
        rw [es, count_append hns, flagLoop_shift (k := .vectors) hns, count_self hp, flagLoop_step hidx hidx2 (i + 2), hsl, hstrip, hrest, hcb, hcount, hut,
          ih', secs.eq_2 ws .vectors i l, if_pos hh, gather_append]
        have hsec : secs ws .vectors (i + 1) (u'.drop 18 :: L) = secs ws .vectors (i + 1) (u' :: L) := by
          rw [secs, secs, if_neg, if_neg]
          · rw [hd_vectors, index?_none.2 hun]; rintro ⟨h, -⟩; cases h
          · rw [hd_vectors, index?_none.2 hun18]; rintro ⟨h, -⟩; cases h
        rw [hsec]
        rfl

/-- The loops find the sections. -/
theorem parseFlag_eq (k : Kind) (s : Str) (h : k = .vectors → Underlined (lines s)) : parseFlag ws k s = gather ws k s (secs ws k 0 (lines s)) := by
  rw [parseFlag]
  cases k with
  | constants =>
    have := flagLoop_newline (ws := ws) (k := .constants) (f := "Constants".toList) rfl (by decide) (fun l => List.isSuffixOf_iff_suffix) (fun _ => rfl) s
      (lines s) (lines_ne_nil s) (lines_no_newline s) 0
    rwa [unlines_lines] at this
  | scalars =>
    have := flagLoop_newline (ws := ws) (k := .scalars) (f := "Variables".toList) rfl (by decide) (fun l => List.isSuffixOf_iff_suffix) (fun _ => rfl) s
      (lines s) (lines_ne_nil s) (lines_no_newline s) 0
    rwa [unlines_lines] at this
  | vectors =>
    have := flagLoop_vectors (ws := ws) s _ (lines s) (le_refl _) (lines_ne_nil s) (lines_no_newline s) (h rfl) 0
    rwa [unlines_lines] at this

end Docstring
end Verif
