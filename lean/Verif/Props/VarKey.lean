import Verif.Model.VarKey
import Mathlib.Data.List.Basic
import Mathlib.Tactic.SplitIfs

/-! Identity of variables: C36. -/

set_option linter.unusedSectionVars false

namespace Verif
namespace VK
variable {K F H : Type}

/-- The part of a string before the first character that fails `p` is determined. -/
theorem split_at {p : Char → Bool} {a b s t : Str} {x y : Char} (ha : ∀ c ∈ a, p c = true) (hb : ∀ c ∈ b, p c = true) (hx : p x = false)
    (hy : p y = false) (h : a ++ x :: s = b ++ y :: t) : a = b ∧ x = y ∧ s = t := by
  induction a generalizing b with
  | nil =>
    cases b with
    | nil => simpa using h
    | cons c b =>
      simp only [List.nil_append, List.cons_append, List.cons.injEq] at h
      rw [h.1, hb c (by simp)] at hx
      cases hx
  | cons c a ih =>
    cases b with
    | nil =>
      simp only [List.nil_append, List.cons_append, List.cons.injEq] at h
      rw [← h.1, ha c (by simp)] at hy
      cases hy
    | cons d b =>
      simp only [List.cons_append, List.cons.injEq] at h
      obtain ⟨h1, h2, h3⟩ := ih (fun c hc => ha c (by simp [hc])) (fun c hc => hb c (by simp [hc])) h.2
      exact ⟨by rw [h.1, h1], h2, h3⟩

theorem num_inj {m n : Nat} (h : num m = num n) : m = n := by
  unfold num at h
  rw [← Nat.ofDigitChars_ten_toDigits (n := m), h, Nat.ofDigitChars_ten_toDigits]

theorem num_digit {n : Nat} {c : Char} (h : c ∈ num n) : c.isDigit = true := Nat.isDigit_of_mem_toDigits (by omega) (by omega) h

theorem num_ne {n : Nat} {c d : Char} (h : c ∈ num n) (hd : d.isDigit = false) : c ≠ d := by
  rintro rfl
  rw [num_digit h] at hd
  cases hd

/-- Indices that are written the same are the same. -/
theorem idxStr_inj : ∀ {a b : List Nat}, idxStr a = idxStr b → a = b := by
  have key : ∀ (a b : List Nat) (i j : Nat), join [','] ((i :: a).map num) ++ [']'] = join [','] ((j :: b).map num) ++ [']'] → i :: a = j :: b := by
    intro a
    induction a with
    | nil =>
      intro b i j h
      cases b with
      | nil =>
        simp only [List.map_cons, List.map_nil, join] at h
        have := (split_at (p := Char.isDigit) (fun c => num_digit) (fun c => num_digit) rfl rfl h).1
        rw [num_inj this]
      | cons k b =>
        simp only [List.map_cons, List.map_nil, join, List.append_assoc, List.cons_append, List.nil_append] at h
        have := (split_at (p := Char.isDigit) (fun c => num_digit) (fun c => num_digit) rfl rfl h).2.1
        exact absurd this (by decide)
    | cons k a ih =>
      intro b i j h
      cases b with
      | nil =>
        simp only [List.map_cons, List.map_nil, join, List.append_assoc, List.cons_append, List.nil_append] at h
        have := (split_at (p := Char.isDigit) (fun c => num_digit) (fun c => num_digit) rfl rfl h).2.1
        exact absurd this (by decide)
      | cons l b =>
        rw [List.map_cons, List.map_cons, List.map_cons, List.map_cons, join, join] at h
        simp only [List.append_assoc, List.cons_append, List.nil_append] at h
        obtain ⟨h1, _, h3⟩ := split_at (p := Char.isDigit) (fun c => num_digit) (fun c => num_digit) rfl rfl h
        rw [num_inj h1, ih b k l h3]
  intro a b h
  cases a with
  | nil =>
    cases b with
    | nil => rfl
    | cons j b => simp [idxStr] at h
  | cons i a =>
    cases b with
    | nil => simp [idxStr] at h
    | cons j b =>
      simp only [idxStr, List.cons_append, List.cons.injEq, true_and] at h
      exact key a b i j h

/-- A key whose name and units can be told apart from the rest of its text. -/
structure Plain (d : Descr K F) : Prop where
  name : '[' ∉ d.name.getD [] ∧ '\'' ∉ d.name.getD []
  models : ∀ x ∈ d.lineage, '\'' ∉ x.1
  units : '\'' ∉ d.unitrepr.getD [] ∧ ¬ "None".toList <:+: d.unitrepr.getD []

theorem name_inj {a b : Str} {i j : List Nat} (ha : '[' ∉ a) (hb : '[' ∉ b) (h : a ++ idxStr i = b ++ idxStr j) : a = b ∧ i = j := by
  have hp : ∀ c : Str, '[' ∉ c → ∀ x ∈ c, (decide (x ≠ '[')) = true := by
    intro c hc x hx
    simp only [decide_eq_true_eq]
    rintro rfl; exact hc hx
  cases i with
  | nil =>
    cases j with
    | nil => simpa [idxStr] using h
    | cons k j =>
      simp only [idxStr, List.append_nil] at h
      exact (ha (by rw [h]; simp)).elim
  | cons l i =>
    cases j with
    | nil =>
      simp only [idxStr, List.append_nil] at h
      exact (hb (by rw [← h]; simp)).elim
    | cons k j =>
      have h' : a ++ '[' :: (join [','] ((l :: i).map num) ++ [']']) = b ++ '[' :: (join [','] ((k :: j).map num) ++ [']']) := h
      obtain ⟨h1, _, h3⟩ := split_at (p := fun x => decide (x ≠ '[')) (hp a ha) (hp b hb) (by decide) (by decide) h'
      exact ⟨h1, idxStr_inj (by simp only [idxStr, List.cons_append, h3])⟩

/-- What follows the first item of a lineage. -/
def rest : List (Str × Nat) → Str
  | [] => [')']
  | x :: l => ',' :: ' ' :: reprItem x ++ rest l

theorem join_rest (x : Str × Nat) (l : List (Str × Nat)) : join [',', ' '] ((x :: l).map reprItem) ++ [')'] = reprItem x ++ rest l := by
  induction l generalizing x with
  | nil => rfl
  | cons y l ih =>
    rw [List.map_cons, List.map_cons, join, List.append_assoc, ← List.map_cons (f := reprItem), ih y]
    simp [rest]

/-- An item at the start of a string is determined. -/
theorem item_inj {x y : Str × Nat} {s t : Str} (hx : '\'' ∉ x.1) (hy : '\'' ∉ y.1) (h : reprItem x ++ s = reprItem y ++ t) : x = y ∧ s = t := by
  have hp : ∀ c : Str, '\'' ∉ c → ∀ x ∈ c, (decide (x ≠ '\'')) = true := by
    intro c hc x hx
    simp only [decide_eq_true_eq]
    rintro rfl; exact hc hx
  unfold reprItem at h
  simp only [List.cons_append, List.append_assoc, List.cons.injEq, true_and] at h
  obtain ⟨h1, _, h2⟩ := split_at (p := fun x => decide (x ≠ '\'')) (hp _ hx) (hp _ hy) (by decide) (by decide) h
  simp only [List.cons.injEq, true_and, List.nil_append] at h2
  obtain ⟨h3, _, h4⟩ := split_at (p := Char.isDigit) (fun c => num_digit) (fun c => num_digit) rfl rfl h2
  exact ⟨Prod.ext h1 (num_inj h3), h4⟩

theorem rest_inj : ∀ {a b : List (Str × Nat)} {s t : Str}, (∀ x ∈ a, '\'' ∉ x.1) → (∀ x ∈ b, '\'' ∉ x.1) → rest a ++ s = rest b ++ t → a = b ∧ s = t
  | [], [], s, t, _, _, h => ⟨rfl, by simpa [rest] using h⟩
  | [], y :: b, s, t, _, _, h => by simp [rest] at h
  | x :: a, [], s, t, _, _, h => by simp [rest] at h
  | x :: a, y :: b, s, t, ha, hb, h => by
    simp only [rest, List.cons_append, List.append_assoc, List.cons.injEq, true_and] at h
    obtain ⟨h1, h2⟩ := item_inj (ha x (by simp)) (hb y (by simp)) h
    obtain ⟨h3, h4⟩ := rest_inj (fun z hz => ha z (by simp [hz])) (fun z hz => hb z (by simp [hz])) h2
    exact ⟨by rw [h1, h3], h4⟩

/-- How a non-empty lineage is written. -/
theorem lineageRepr_cons (x : Str × Nat) (l : List (Str × Nat)) :
    lineageRepr (x :: l) = '(' :: (reprItem x ++ (if l = [] then [',', ')'] else rest l)) := by
  cases l with
  | nil => simp [lineageRepr]
  | cons y l =>
    rw [if_neg (by simp)]
    show '(' :: (join [',', ' '] ((x :: y :: l).map reprItem) ++ [')']) = _
    rw [join_rest]

theorem lineage_inj {a b : List (Str × Nat)} {x y : Str × Nat} {s t : Str} (hx : '\'' ∉ x.1) (hy : '\'' ∉ y.1) (ha : ∀ x ∈ a, '\'' ∉ x.1)
    (hb : ∀ x ∈ b, '\'' ∉ x.1) (h : lineageRepr (x :: a) ++ s = lineageRepr (y :: b) ++ t) : x :: a = y :: b ∧ s = t := by
  rw [lineageRepr_cons, lineageRepr_cons] at h
  simp only [List.cons_append, List.append_assoc, List.cons.injEq, true_and] at h
  obtain ⟨h1, h2⟩ := item_inj hx hy h
  cases a with
  | nil =>
    cases b with
    | nil => exact ⟨by rw [h1], by simpa using h2⟩
    | cons z b => simp [rest] at h2
  | cons w a =>
    cases b with
    | nil => simp [rest] at h2
    | cons z b =>
      rw [if_neg (by simp), if_neg (by simp)] at h2
      obtain ⟨h3, h4⟩ := rest_inj ha hb h2
      exact ⟨by rw [h1, h3], h4⟩

/-- "None" marks where units begin. -/
theorem none_inj {a b s t : Str} (hs : ¬ "None".toList <:+: s) (ht : ¬ "None".toList <:+: t) (h : a ++ "None".toList ++ s = b ++ "None".toList ++ t) :
    a = b ∧ s = t := by
  have key : ∀ {a b c s t : Str}, ¬ "None".toList <:+: t → b = a ++ c → "None".toList ++ t = c ++ ("None".toList ++ s) → c = [] := by
    intro a b c s t ht _ h
    have e : "None".toList = ['N', 'o', 'n', 'e'] := rfl
    rw [e] at h ht
    match c, h with
    | [], _ => rfl
    | [x], h => simp at h
    | [x, y], h => simp at h
    | [x, y, z], h => simp at h
    | x :: y :: z :: w :: c, h =>
      simp only [List.cons_append, List.nil_append, List.cons.injEq] at h
      exact (ht ⟨c, s, by rw [h.2.2.2.2]; simp⟩).elim
  rw [List.append_assoc, List.append_assoc] at h
  rcases List.append_eq_append_iff.1 h with ⟨c, h1, h2⟩ | ⟨c, h1, h2⟩
  · have := key hs h1 h2
    subst this
    rw [List.append_nil] at h1
    rw [List.nil_append] at h2
    exact ⟨h1.symm, List.append_cancel_left h2⟩
  · have := key ht h1 h2
    subst this
    rw [List.append_nil] at h1
    rw [List.nil_append] at h2
    exact ⟨h1, (List.append_cancel_left h2).symm⟩

theorem mem_join {sep : Str} {c : Char} : ∀ {l : List Str}, c ∈ join sep l → c ∈ sep ∨ ∃ a ∈ l, c ∈ a
  | [], h => by simp [join] at h
  | [a], h => Or.inr ⟨a, by simp, h⟩
  | a :: b :: l, h => by
    rw [join] at h
    rcases List.mem_append.1 h with h | h
    · rcases List.mem_append.1 h with h | h
      · exact Or.inr ⟨a, by simp, h⟩
      · exact Or.inl h
    · rcases mem_join h with h | ⟨x, hx, hc⟩
      · exact Or.inl h
      · exact Or.inr ⟨x, by simp [hx], hc⟩

theorem idx_noquote (i : List Nat) : '\'' ∉ idxStr i := by
  cases i with
  | nil => simp [idxStr]
  | cons n i =>
    intro h
    simp only [idxStr, List.cons_append, List.mem_cons, List.mem_append] at h
    rcases h with h | h | h
    · exact absurd h (by decide)
    · rcases mem_join h with h | ⟨a, ha, hc⟩
      · exact absurd h (by decide)
      · obtain ⟨m, _, rfl⟩ := List.mem_map.1 ha
        exact num_ne hc (d := '\'') rfl rfl
    · exact absurd h (by decide)

theorem fullstr_noquote {d : Descr K F} (h : Plain d) : '\'' ∉ fullstr d := by
  unfold fullstr
  dsimp only
  intro hm
  rcases List.mem_append.1 hm with hm | hm
  · split_ifs at hm with hl
    · rcases List.mem_append.1 hm with hm | hm
      · rcases List.mem_append.1 hm with hm | hm
        · rcases mem_join hm with hm | ⟨a, ha, hc⟩
          · exact absurd hm (by decide)
          · obtain ⟨x, hx, rfl⟩ := List.mem_map.1 ha
            exact h.models x hx hc
        · exact absurd hm (by decide)
      · exact h.name.2 hm
    · exact h.name.2 hm
  · exact idx_noquote _ hm

end VK

section
open VK
variable {K F H : Type}

/-- C36 for names without `[` and quotes, models without quotes and units without quotes or the text `None`: keys are equal exactly if names,
indices, lineages and units agree. -/
theorem C36_equal_partial {a b : Descr K F} (ha : Plain a) (hb : Plain b) :
    eq a b = true ↔ a.name.getD [] = b.name.getD [] ∧ a.idx.getD [] = b.idx.getD [] ∧ a.lineage = b.lineage ∧
      a.unitrepr.getD [] = b.unitrepr.getD [] := by
  unfold eq
  rw [decide_eq_true_eq]
  constructor
  · intro h
    have key : fullstr a = fullstr b ∧ a.lineage = b.lineage ∧ a.unitrepr.getD [] = b.unitrepr.getD [] := by
      have qa := fullstr_noquote ha
      have qb := fullstr_noquote hb
      have ma := ha.models
      have mb := hb.models
      unfold eqstr at h
      generalize fullstr a = fa at h qa
      generalize fullstr b = fb at h qb
      cases hla : a.lineage with
      | nil =>
        cases hlb : b.lineage with
        | nil =>
          rw [hla, hlb] at h
          obtain ⟨h1, h2⟩ := none_inj ha.units.2 hb.units.2 h
          exact ⟨h1, rfl, h2⟩
        | cons y lb =>
          exfalso
          rw [hla, hlb, lineageRepr_cons] at h
          have hq : '\'' ∈ fb ++ '(' :: (reprItem y ++ (if lb = [] then [',', ')'] else rest lb)) ++ b.unitrepr.getD [] := by simp [reprItem]
          rw [← h] at hq
          rcases List.mem_append.1 hq with hq | hq
          · rcases List.mem_append.1 hq with hq | hq
            · exact qa hq
            · exact absurd hq (by decide)
          · exact ha.units.1 hq
      | cons x la =>
        cases hlb : b.lineage with
        | nil =>
          exfalso
          rw [hla, hlb, lineageRepr_cons] at h
          have hq : '\'' ∈ fa ++ '(' :: (reprItem x ++ (if la = [] then [',', ')'] else rest la)) ++ a.unitrepr.getD [] := by simp [reprItem]
          rw [h] at hq
          rcases List.mem_append.1 hq with hq | hq
          · rcases List.mem_append.1 hq with hq | hq
            · exact qb hq
            · exact absurd hq (by decide)
          · exact hb.units.1 hq
        | cons y lb =>
          rw [hla, hlb] at h
          rw [hla] at ma
          rw [hlb] at mb
          have hp : ∀ c : Str, '\'' ∉ c → ∀ x ∈ c ++ ['(', '('], (decide (x ≠ '\'')) = true := by
            intro c hc x hx
            simp only [decide_eq_true_eq]
            rintro rfl
            rcases List.mem_append.1 hx with hx | hx
            · exact hc hx
            · exact absurd hx (by decide)
          have h' := h
          rw [lineageRepr_cons, lineageRepr_cons] at h'
          unfold reprItem at h'
          have h'' : (fa ++ ['(', '(']) ++ '\'' :: (x.1 ++ '\'' :: ',' :: ' ' :: num x.2 ++ [')'] ++ (if la = [] then [',', ')'] else rest la) ++
              a.unitrepr.getD []) = (fb ++ ['(', '(']) ++ '\'' :: (y.1 ++ '\'' :: ',' :: ' ' :: num y.2 ++ [')'] ++
              (if lb = [] then [',', ')'] else rest lb) ++ b.unitrepr.getD []) := by
            simpa using h'
          have h1 := (split_at (p := fun x => decide (x ≠ '\'')) (hp fa qa) (hp fb qb) (by decide) (by decide) h'').1
          have h1 : fa = fb := List.append_cancel_right h1
          rw [h1, List.append_assoc, List.append_assoc] at h
          obtain ⟨h2, h3⟩ := lineage_inj (ma x (by simp)) (mb y (by simp)) (fun z hz => ma z (by simp [hz])) (fun z hz => mb z (by simp [hz]))
            (List.append_cancel_left h)
          exact ⟨h1, h2, h3⟩
    obtain ⟨h1, h2, h3⟩ := key
    unfold fullstr at h1
    dsimp only at h1
    rw [h2] at h1
    have h4 : a.name.getD [] ++ idxStr (a.idx.getD []) = b.name.getD [] ++ idxStr (b.idx.getD []) := by
      split_ifs at h1 with hl
      · simp only [List.append_assoc] at h1
        exact List.append_cancel_left (List.append_cancel_left h1)
      · exact h1
    obtain ⟨h5, h6⟩ := name_inj ha.name.1 hb.name.1 h4
    exact ⟨h5, h6, h2, h3⟩
  · rintro ⟨h1, h2, h3, h4⟩
    unfold eqstr fullstr
    dsimp only
    rw [h1, h2, h3, h4]

/-- The hypotheses can be met: an element of a vector in a submodel, in newtons. -/
example : Plain (⟨some "x".toList, [("A".toList, 0), ("B".toList, 12)], some [3, 10], some "N".toList, none, none⟩ : Descr Unit Unit) := by
  refine ⟨by decide, by decide, by decide, ?_⟩
  rintro ⟨s, t, h⟩
  have := congrArg List.length h
  simp at this
  omega

/-- C36 for hashes: keys that are equal have equal hashes, whatever the hash of strings. -/
theorem C36_hash (h : Str → H) {a b : Descr K F} (he : eq a b = true) : VK.hash h a = VK.hash h b := by
  unfold eq at he
  unfold VK.hash
  rw [of_decide_eq_true he]

/-- C36 for pickling: a key that was made can be pickled and unpickled, at any later time; all of it is the same but for functions,
which become text, and it equals the original. -/
theorem C36_pickle {valid : Str → Bool} {uid uid' : Nat} {d k : Descr K F} (h : init valid uid d = .ok k) :
    ∃ k', setstate valid uid' (getstate k) = .ok k' ∧ eq k k' = true ∧ k'.name = k.name ∧ k'.lineage = k.lineage ∧ k'.idx = k.idx ∧
      k'.unitrepr = k.unitrepr ∧ k'.units = k.units ∧ ((∀ f, k.value ≠ some (.fn f)) → k'.value = k.value) ∧
      ((∃ f, k.value = some (.fn f)) → k'.value = some .text) := by
  have hname : ∃ c l, k.name = some (c :: l) ∧ (k.unitrepr = some ['-'] ∧ k.units = none ∨
      ∃ x u, k.unitrepr = some (x :: u) ∧ k.units = some (x :: u) ∧ x :: u ≠ ['-'] ∧ valid (x :: u) = true) := by
    have hn : ∃ c l, (orElse d.name none).getD ("\\fbox{".toList ++ num uid ++ ['}']) = c :: l := by
      unfold orElse
      split
      · exact ⟨_, _, rfl⟩
      · exact ⟨_, _, rfl⟩
    obtain ⟨c, l, hn⟩ := hn
    unfold init at h
    dsimp only at h
    rw [hn] at h
    cases ho : orElse (orElse d.unitrepr d.units) none with
    | none =>
      rw [ho] at h
      cases h
      exact ⟨c, l, rfl, Or.inl ⟨rfl, rfl⟩⟩
    | some u =>
      rw [ho] at h
      have hu : ∃ x v, u = x :: v := by
        unfold orElse at ho
        split at ho
        · cases ho; exact ⟨_, _, rfl⟩
        · cases ho
      obtain ⟨x, v, rfl⟩ := hu
      dsimp only at h
      split_ifs at h with h1 h2
      · cases h
        exact ⟨c, l, rfl, Or.inl ⟨rfl, rfl⟩⟩
      · cases h
        exact ⟨c, l, rfl, Or.inr ⟨x, v, rfl, rfl, h1, h2⟩⟩
  obtain ⟨c, l, hn, hu⟩ := hname
  obtain ⟨kn, kl, ki, kr, ku, kv⟩ := k
  dsimp only at hn hu
  subst hn
  refine ⟨getstate ⟨some (c :: l), kl, ki, kr, ku, kv⟩, ?_, ?_, rfl, rfl, rfl, rfl, rfl, ?_, ?_⟩
  · unfold setstate init getstate
    dsimp only [orElse]
    rcases hu with ⟨h1, h2⟩ | ⟨x, u, h1, h2, h3, h4⟩
    · subst h1 h2; rfl
    · subst h1 h2
      dsimp only
      rw [if_neg h3, if_pos h4]; rfl
  · unfold eq eqstr fullstr getstate
    simp
  · intro hf
    unfold getstate
    dsimp only at hf ⊢
    cases kv with
    | none => rfl
    | some v =>
      cases v with
      | fn f => exact (hf f rfl).elim
      | plain k => rfl
      | text => rfl
  · rintro ⟨f, hf⟩
    dsimp only at hf
    subst hf
    rfl

/-- A key whose value is a function. -/
example : init (fun _ => true) 0 (⟨some "x".toList, [], none, none, some "m".toList, some (.fn ())⟩ : Descr Unit Unit) =
    .ok ⟨some "x".toList, [], none, some "m".toList, some "m".toList, some (.fn ())⟩ := by decide +kernel

/-- C36 fails for names with an index: a scalar called `x[0]` equals the first element of a vector `x`. -/
theorem C36_index_fails : eq (⟨some "x[0]".toList, [], none, some ['-'], none, none⟩ : Descr Unit Unit)
    ⟨some "x".toList, [], some [0], some ['-'], none, none⟩ = true := by decide +kernel

/-- C36 fails for units that are written in two ways: the same name in `m` and in `meter` gives two keys. -/
theorem C36_units_fails {U : Type} (meaning : Str → U) (hm : meaning "m".toList = meaning "meter".toList) :
    ∃ a b : Descr Unit Unit, a.name = b.name ∧ a.idx = b.idx ∧ a.lineage = b.lineage ∧ a.unitrepr.map meaning = b.unitrepr.map meaning ∧
      eq a b = false :=
  ⟨⟨some ['x'], [], none, some "m".toList, none, none⟩, ⟨some ['x'], [], none, some "meter".toList, none, none⟩, rfl, rfl, rfl,
    by simp only [Option.map_some, hm], by decide +kernel⟩

end
end Verif
