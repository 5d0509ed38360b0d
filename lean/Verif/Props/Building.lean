import Verif.Spec.Building
import Verif.Lemmas.PyDict

/-! C72: a model has every constraint, variable and value that was given to it. -/

set_option linter.unusedSectionVars false

namespace Verif
open PyDict
namespace Building

section
variable {V N C : Type} [DecidableEq V]

/-! ## Dictionaries and sets -/

theorem contains_set (d : PyDict V N) (k q : V) (w : N) : (d.set k w).contains q = true ↔ k = q ∨ d.contains q = true := by
  unfold PyDict.contains
  rw [get?_set]
  by_cases h : k = q
  · simp [h]
  · simp [h]

theorem mem_set {d : PyDict V N} {k : V} {w : N} {p : V × N} (h : p ∈ d.set k w) : p = (k, w) ∨ p ∈ d := by
  rcases keys_beq_of_mem_set h with h | h
  · exact Or.inl (Prod.ext (eq_of_beq h.1) h.2)
  · exact Or.inr h

theorem contains_updated (e d : PyDict V N) (q : V) : (updated d e).contains q = true ↔ d.contains q = true ∨ ∃ w, (q, w) ∈ e := by
  induction e generalizing d with
  | nil => simp [updated]
  | cons p e ih =>
    rw [show updated d (p :: e) = updated (d.set p.1 p.2) e from rfl, ih, contains_set]
    constructor
    · rintro ((h | h) | ⟨w, h⟩)
      · exact Or.inr ⟨p.2, by rw [← h]; exact List.mem_cons_self⟩
      · exact Or.inl h
      · exact Or.inr ⟨w, List.mem_cons_of_mem _ h⟩
    · rintro (h | ⟨w, h⟩)
      · exact Or.inl (Or.inr h)
      · rcases List.mem_cons.1 h with h | h
        · exact Or.inl (Or.inl (by rw [← h]))
        · exact Or.inr ⟨w, h⟩

theorem mem_updated (e d : PyDict V N) {p : V × N} (h : p ∈ updated d e) : p ∈ d ∨ p ∈ e := by
  induction e generalizing d with
  | nil => exact Or.inl h
  | cons q e ih =>
    rcases ih (d.set q.1 q.2) h with h | h
    · rcases mem_set h with h | h
      · exact Or.inr (by rw [h]; exact List.mem_cons_self)
      · exact Or.inl h
    · exact Or.inr (List.mem_cons_of_mem _ h)

theorem contains_iff_mem (d : PyDict V N) (q : V) : d.contains q = true ↔ ∃ w, (q, w) ∈ d := by
  induction d with
  | nil => simp [PyDict.contains, get?]
  | cons p d ih =>
    have hc : PyDict.contains (p :: d) q = true ↔ p.1 = q ∨ PyDict.contains d q = true := by
      unfold PyDict.contains
      obtain ⟨k, w⟩ := p
      rw [get?_cons]
      by_cases h : k = q
      · simp [h]
      · simp [h]
    rw [hc, ih]
    constructor
    · rintro (h | ⟨w, h⟩)
      · exact ⟨p.2, by rw [← h]; exact List.mem_cons_self⟩
      · exact ⟨w, List.mem_cons_of_mem _ h⟩
    · rintro ⟨w, h⟩
      rcases List.mem_cons.1 h with h | h
      · exact Or.inl (by rw [← h])
      · exact Or.inr ⟨w, h⟩

theorem mem_of_get? {d : PyDict V N} {k : V} {w : N} (h : d.get? k = some w) : (k, w) ∈ d := by
  induction d with
  | nil => cases h
  | cons p d ih =>
    obtain ⟨k', w'⟩ := p
    rw [get?_cons] at h
    split at h
    · rename_i hb
      cases h
      rw [eq_of_beq hb]
      exact List.mem_cons_self
    · exact List.mem_cons_of_mem _ (ih h)

theorem contains_foldl_default (W : World V) (h : Heap N) (vks : List Nat) (d : PyDict V N) (q : V) :
    (vks.foldl (default1 W h) d).contains q = true ↔ d.contains q = true ∨ ∃ i ∈ vks, W.key i = q ∧ h i ≠ none := by
  induction vks generalizing d with
  | nil => simp
  | cons i vks ih =>
    rw [List.foldl_cons, ih]
    have hd : (default1 W h d i).contains q = true ↔ d.contains q = true ∨ (W.key i = q ∧ h i ≠ none) := by
      unfold default1
      cases hi : h i with
      | none => simp
      | some w => simp only [contains_set]; simp [or_comm]
    rw [hd]
    simp only [List.mem_cons, exists_eq_or_imp, or_assoc]

theorem contains_defaults (W : World V) (h : Heap N) (vks : List Nat) (q : V) :
    (defaults W h vks).contains q = true ↔ ∃ i ∈ vks, W.key i = q ∧ h i ≠ none := by
  unfold defaults
  rw [contains_foldl_default]
  simp [PyDict.contains, get?]

theorem mem_foldl_default (W : World V) (h : Heap N) (vks : List Nat) (d : PyDict V N) {p : V × N} (hp : p ∈ vks.foldl (default1 W h) d) :
    p ∈ d ∨ ∃ i ∈ vks, W.key i = p.1 ∧ h i = some p.2 := by
  induction vks generalizing d with
  | nil => exact Or.inl hp
  | cons i vks ih =>
    rcases ih _ hp with hp | ⟨j, hj, hk⟩
    · unfold default1 at hp
      cases hi : h i with
      | none =>
        rw [hi] at hp
        exact Or.inl hp
      | some w =>
        rw [hi] at hp
        rcases mem_set hp with hp | hp
        · exact Or.inr ⟨i, List.mem_cons_self, by rw [hp], by rw [hp, hi]⟩
        · exact Or.inl hp
    · exact Or.inr ⟨j, List.mem_cons_of_mem _ hj, hk⟩

theorem mem_defaults (W : World V) (h : Heap N) (vks : List Nat) {p : V × N} (hp : p ∈ defaults W h vks) :
    ∃ i ∈ vks, W.key i = p.1 ∧ h i = some p.2 := by
  rcases mem_foldl_default W h vks [] hp with hp | hp
  · cases hp
  · exact hp

theorem mem_addKeys (W : World V) (t s : List Nat) {i : Nat} (h : i ∈ addKeys W s t) : i ∈ s ∨ i ∈ t := by
  induction t generalizing s with
  | nil => exact Or.inl h
  | cons j t ih =>
    rcases ih _ h with h | h
    · unfold addKey at h
      split at h
      · exact Or.inl h
      · rcases List.mem_append.1 h with h | h
        · exact Or.inl h
        · exact Or.inr (by rw [List.mem_singleton.1 h]; exact List.mem_cons_self)
    · exact Or.inr (List.mem_cons_of_mem _ h)

theorem has_addKey_left (W : World V) (s : List Nat) (j : Nat) {k : V} (h : ∃ i ∈ s, W.key i = k) : ∃ i ∈ addKey W s j, W.key i = k := by
  obtain ⟨i, hi, hk⟩ := h
  unfold addKey
  split
  · exact ⟨i, hi, hk⟩
  · exact ⟨i, List.mem_append_left _ hi, hk⟩

theorem has_addKey_self (W : World V) (s : List Nat) (j : Nat) : ∃ i ∈ addKey W s j, W.key i = W.key j := by
  unfold addKey
  split
  · rename_i h
    obtain ⟨i, hi, hk⟩ := List.any_eq_true.1 h
    exact ⟨i, hi, by simpa using hk⟩
  · exact ⟨j, List.mem_append_right _ (List.mem_singleton.2 rfl), rfl⟩

theorem has_addKeys (W : World V) (t s : List Nat) {k : V} (h : (∃ i ∈ s, W.key i = k) ∨ ∃ i ∈ t, W.key i = k) :
    ∃ i ∈ addKeys W s t, W.key i = k := by
  induction t generalizing s with
  | nil =>
    rcases h with h | ⟨i, hi, _⟩
    · exact h
    · cases hi
  | cons j t ih =>
    refine ih (addKey W s j) ?_
    rcases h with h | ⟨i, hi, hk⟩
    · exact Or.inl (has_addKey_left W s j h)
    · rcases List.mem_cons.1 hi with rfl | hi
      · rw [← hk]
        exact Or.inl (has_addKey_self W s i)
      · exact Or.inr ⟨i, hi, hk⟩

/-! ## What is written -/

/-- What is written in an expression. -/
structure Facts (V N C : Type) where
  /-- the constraints -/
  writes : C → Prop
  /-- the variables -/
  uses : Nat → Prop
  /-- the values in dictionaries -/
  gives : V → N → Prop

/-- Both. -/
def Facts.and (F G : Facts V N C) : Facts V N C :=
  ⟨fun c => F.writes c ∨ G.writes c, fun i => F.uses i ∨ G.uses i, fun k w => F.gives k w ∨ G.gives k w⟩

/-- Nothing. -/
def Facts.none : Facts V N C := ⟨fun _ => False, fun _ => False, fun _ _ => False⟩

/-- What is kept while parts are made. -/
structure Inv (W : World V) (F : Facts V N C) (h h' : Heap N) (parts : List (Part V N C)) : Prop where
  mono : ∀ i x, h' i = some x → h i = some x
  kept : ∀ i, h i ≠ Option.none → h' i ≠ Option.none ∨ ∃ s, Part.set s ∈ parts ∧ s.subs.contains (W.key i) = true
  lost : ∀ i, h i ≠ Option.none → h' i = Option.none → W.constant i = false ∧ F.uses i
  cons : ∀ c, (∃ p ∈ parts, c ∈ p.cons) ↔ F.writes c
  uses : ∀ p ∈ parts, ∀ i ∈ p.vks, F.uses i
  used : ∀ i, F.uses i → ∃ p ∈ parts, ∃ j ∈ p.vks, W.key j = W.key i
  comp : ∀ i, F.uses i → h i ≠ Option.none → ∃ p ∈ parts, (p.subs W h').contains (W.key i) = true
  given : ∀ k x, F.gives k x → ∃ s, Part.set s ∈ parts ∧ s.subs.contains k = true
  sound : ∀ s, Part.set s ∈ parts → ∀ k x, (k, x) ∈ s.subs → F.gives k x ∨ ∃ i, F.uses i ∧ W.key i = k ∧ h i = some x

theorem Inv.nil (W : World V) (h : Heap N) : Inv W (Facts.none : Facts V N C) h h [] where
  mono := fun _ _ h => h
  kept := fun _ h => Or.inl h
  lost := fun _ h h' => absurd h' h
  cons := fun c => ⟨fun ⟨_, hp, _⟩ => absurd hp List.not_mem_nil, False.elim⟩
  uses := fun _ hp => by cases hp
  used := fun _ h => False.elim h
  comp := fun _ h => False.elim h
  given := fun _ _ h => False.elim h
  sound := fun _ hp => by cases hp

theorem Inv.con (W : World V) (h : Heap N) (c : C) (vks : List Nat) :
    Inv W (⟨fun x => x = c, fun i => i ∈ vks, fun _ _ => False⟩ : Facts V N C) h h [Part.con c vks] where
  mono := fun _ _ h => h
  kept := fun _ h => Or.inl h
  lost := fun _ h h' => absurd h' h
  cons := fun x => by simp [Part.cons]
  uses := fun p hp i hi => by
    rw [List.mem_singleton.1 hp] at hi
    exact hi
  used := fun i hi => ⟨_, List.mem_singleton.2 rfl, i, hi, rfl⟩
  comp := fun i hi hn => ⟨_, List.mem_singleton.2 rfl, (contains_defaults W h vks _).2 ⟨i, hi, rfl, hn⟩⟩
  given := fun _ _ h => False.elim h
  sound := fun s hs => by
    have := List.mem_singleton.1 hs
    cases this

theorem Inv.append {W : World V} {F G : Facts V N C} {h h1 h2 : Heap N} {p q : List (Part V N C)} (a : Inv W F h h1 p) (b : Inv W G h1 h2 q) :
    Inv W (F.and G) h h2 (p ++ q) where
  mono := fun i x hx => a.mono i x (b.mono i x hx)
  kept := fun i hi => by
    rcases a.kept i hi with h' | ⟨s, hs, hc⟩
    · rcases b.kept i h' with h' | ⟨s, hs, hc⟩
      · exact Or.inl h'
      · exact Or.inr ⟨s, List.mem_append_right _ hs, hc⟩
    · exact Or.inr ⟨s, List.mem_append_left _ hs, hc⟩
  lost := fun i hi hn => by
    by_cases h' : h1 i = Option.none
    · exact ⟨(a.lost i hi h').1, Or.inl (a.lost i hi h').2⟩
    · exact ⟨(b.lost i h' hn).1, Or.inr (b.lost i h' hn).2⟩
  cons := fun c => by
    refine Iff.trans ?_ (or_congr (a.cons c) (b.cons c))
    simp only [List.mem_append, or_and_right, exists_or]
  uses := fun r hr i hi => by
    rcases List.mem_append.1 hr with hr | hr
    · exact Or.inl (a.uses r hr i hi)
    · exact Or.inr (b.uses r hr i hi)
  used := fun i hi => by
    rcases hi with hi | hi
    · obtain ⟨r, hr, j⟩ := a.used i hi
      exact ⟨r, List.mem_append_left _ hr, j⟩
    · obtain ⟨r, hr, j⟩ := b.used i hi
      exact ⟨r, List.mem_append_right _ hr, j⟩
  comp := fun i hi hn => by
    rcases hi with hi | hi
    · obtain ⟨r, hr, hc⟩ := a.comp i hi hn
      cases r with
      | set s => exact ⟨_, List.mem_append_left _ hr, hc⟩
      | con c vks =>
        obtain ⟨j, hj, hk, hjn⟩ := (contains_defaults W h1 vks _).1 hc
        rcases b.kept j hjn with h' | ⟨s, hs, hc⟩
        · exact ⟨_, List.mem_append_left _ hr, (contains_defaults W h2 vks _).2 ⟨j, hj, hk, h'⟩⟩
        · exact ⟨_, List.mem_append_right _ hs, by rw [← hk]; exact hc⟩
    · rcases a.kept i hn with h' | ⟨s, hs, hc⟩
      · obtain ⟨r, hr, hc⟩ := b.comp i hi h'
        exact ⟨r, List.mem_append_right _ hr, hc⟩
      · exact ⟨_, List.mem_append_left _ hs, hc⟩
  given := fun k x hg => by
    rcases hg with hg | hg
    · obtain ⟨s, hs, hc⟩ := a.given k x hg
      exact ⟨s, List.mem_append_left _ hs, hc⟩
    · obtain ⟨s, hs, hc⟩ := b.given k x hg
      exact ⟨s, List.mem_append_right _ hs, hc⟩
  sound := fun s hs k x hx => by
    rcases List.mem_append.1 hs with hs | hs
    · rcases a.sound s hs k x hx with hg | ⟨i, hi, hk, hv⟩
      · exact Or.inl (Or.inl hg)
      · exact Or.inr ⟨i, Or.inl hi, hk, hv⟩
    · rcases b.sound s hs k x hx with hg | ⟨i, hi, hk, hv⟩
      · exact Or.inl (Or.inr hg)
      · exact Or.inr ⟨i, Or.inr hi, hk, a.mono i x hv⟩

/-! ## Construction -/

theorem fold_update (W : World V) (h : Heap N) (ps : List (Part V N C)) (s : Set' V N C) :
    (∀ c, c ∈ (ps.foldl (update W h) s).cons ↔ c ∈ s.cons ∨ ∃ p ∈ ps, c ∈ p.cons) ∧
    (∀ i ∈ (ps.foldl (update W h) s).vks, i ∈ s.vks ∨ ∃ p ∈ ps, i ∈ p.vks) ∧
    (∀ k, ((∃ i ∈ s.vks, W.key i = k) ∨ ∃ p ∈ ps, ∃ i ∈ p.vks, W.key i = k) → ∃ i ∈ (ps.foldl (update W h) s).vks, W.key i = k) ∧
    (∀ k, (ps.foldl (update W h) s).subs.contains k = true ↔ s.subs.contains k = true ∨ ∃ p ∈ ps, (p.subs W h).contains k = true) ∧
    (∀ q ∈ (ps.foldl (update W h) s).subs, q ∈ s.subs ∨ ∃ p ∈ ps, q ∈ p.subs W h) := by
  induction ps generalizing s with
  | nil => simp
  | cons p ps ih =>
    rw [List.foldl_cons]
    obtain ⟨a1, a2, a3, a4, a5⟩ := ih (update W h s p)
    refine ⟨fun c => ?_, fun i hi => ?_, fun k hk => ?_, fun k => ?_, fun q hq => ?_⟩
    · rw [a1]
      show c ∈ s.cons ++ p.cons ∨ _ ↔ _
      simp only [List.mem_append, List.mem_cons, exists_eq_or_imp, or_assoc]
    · rcases a2 i hi with hi | ⟨r, hr, hi⟩
      · rcases mem_addKeys W _ _ hi with hi | hi
        · exact Or.inl hi
        · exact Or.inr ⟨p, List.mem_cons_self, hi⟩
      · exact Or.inr ⟨r, List.mem_cons_of_mem _ hr, hi⟩
    · refine a3 k ?_
      rcases hk with hk | ⟨r, hr, hk⟩
      · exact Or.inl (has_addKeys W _ _ (Or.inl hk))
      · rcases List.mem_cons.1 hr with rfl | hr
        · exact Or.inl (has_addKeys W _ _ (Or.inr hk))
        · exact Or.inr ⟨r, hr, hk⟩
    · rw [a4]
      show (updated s.subs (p.subs W h)).contains k = true ∨ _ ↔ _
      rw [contains_updated, ← contains_iff_mem]
      simp only [List.mem_cons, exists_eq_or_imp, or_assoc]
    · rcases a5 q hq with hq | ⟨r, hr, hq⟩
      · rcases mem_updated _ _ hq with hq | hq
        · exact Or.inl hq
        · exact Or.inr ⟨p, List.mem_cons_self, hq⟩
      · exact Or.inr ⟨r, List.mem_cons_of_mem _ hr, hq⟩

theorem Inv.construct {W : World V} {F G : Facts V N C} {h h1 h2 : Heap N} {els : List (Val V N C)} {arg : Val V N C} {s : Set' V N C}
    {unique bonus : List Nat} {subs : PyDict V N} (a : Inv W F h h1 (partsL els)) (he : arg.elements = .ok els)
    (hc : construct W h1 unique bonus arg subs = .ok (h2, s))
    (hw : ∀ c, ¬ G.writes c) (hu : ∀ i, G.uses i ↔ i ∈ unique ∨ i ∈ bonus)
    (hg : ∀ k x, G.gives k x → ∃ y, (k, y) ∈ subs)
    (hs : ∀ k x, (k, x) ∈ subs → G.gives k x ∨ ∃ i ∈ bonus, W.key i = k ∧ h1 i = some x)
    (hb : ∀ i ∈ bonus, h1 i ≠ Option.none → ∃ y, (W.key i, y) ∈ subs) :
    Inv W (F.and G) h h2 [Part.set s] := by
  unfold Building.construct at hc
  rw [he] at hc
  obtain ⟨a1, a2, a3, a4, a5⟩ := fold_update W h1 (partsL els) ⟨addKeys W [] unique, defaults W h1 unique, [], els.length⟩
  have hr := Except.ok.inj hc
  obtain ⟨hr1, hr2⟩ := Prod.mk.inj hr
  change (∀ c, c ∈ (gathered W h1 unique els).cons ↔ _) at a1
  change (∀ i ∈ (gathered W h1 unique els).vks, _) at a2
  change (∀ k, _ → ∃ i ∈ (gathered W h1 unique els).vks, _) at a3
  change (∀ k, (gathered W h1 unique els).subs.contains k = true ↔ _) at a4
  change (∀ q ∈ (gathered W h1 unique els).subs, _) at a5
  generalize gathered W h1 unique els = t at *
  subst hr1
  subst hr2
  dsimp only at a1 a2 a3 a4 a5
  -- what the new set has
  have hcon : ∀ k, (updated t.subs subs).contains k = true ↔
      ((∃ i ∈ unique, W.key i = k ∧ h1 i ≠ Option.none) ∨ ∃ p ∈ partsL els, (p.subs W h1).contains k = true) ∨ ∃ y, (k, y) ∈ subs := by
    intro k
    rw [contains_updated, a4, contains_defaults]
  have hlift : ∀ p ∈ partsL els, ∀ k, (p.subs W h1).contains k = true → (updated t.subs subs).contains k = true :=
    fun p hp k hk => (hcon k).2 (Or.inl (Or.inr ⟨p, hp, hk⟩))
  have hall : ∀ i, (F.and G).uses i → h i ≠ Option.none → (updated t.subs subs).contains (W.key i) = true := by
    intro i hi hn
    rcases hi with hi | hi
    · obtain ⟨p, hp, hc⟩ := a.comp i hi hn
      exact hlift p hp _ hc
    · rcases a.kept i hn with h' | ⟨s, hs, hc⟩
      · rcases (hu i).1 hi with hi | hi
        · exact (hcon _).2 (Or.inl (Or.inl ⟨i, hi, rfl, h'⟩))
        · exact (hcon _).2 (Or.inr (hb i hi h'))
      · exact hlift _ hs _ hc
  have hvks : ∀ i ∈ addKeys W t.vks bonus, (F.and G).uses i := by
    intro i hi
    rcases mem_addKeys W _ _ hi with hi | hi
    · rcases a2 i hi with hi | ⟨p, hp, hi⟩
      · rcases mem_addKeys W _ _ hi with hi | hi
        · cases hi
        · exact Or.inr ((hu i).2 (Or.inl hi))
      · exact Or.inl (a.uses p hp i hi)
    · exact Or.inr ((hu i).2 (Or.inr hi))
  refine ⟨fun i x hx => ?_, fun i hi => ?_, fun i hi hn => ?_, fun c => ?_, fun p hp i hi => ?_, fun i hi => ?_, fun i hi hn => ?_, fun k x hx => ?_,
    fun s hs' k x hx => ?_⟩
  · unfold taken at hx
    split at hx
    · cases hx
    · exact a.mono i x hx
  · rcases a.kept i hi with h' | ⟨s, hs, hc⟩
    · by_cases ht : i ∈ (filled W bonus subs t).vks ∧ (filled W bonus subs t).subs.contains (W.key i) = true ∧ W.constant i = false
      · exact Or.inr ⟨_, List.mem_singleton.2 rfl, ht.2.1⟩
      · left
        unfold taken
        rw [if_neg ht]
        exact h'
    · exact Or.inr ⟨_, List.mem_singleton.2 rfl, hlift _ hs _ hc⟩
  · by_cases h' : h1 i = Option.none
    · exact ⟨(a.lost i hi h').1, Or.inl (a.lost i hi h').2⟩
    · by_cases ht : i ∈ (filled W bonus subs t).vks ∧ (filled W bonus subs t).subs.contains (W.key i) = true ∧ W.constant i = false
      · exact ⟨ht.2.2, hvks i ht.1⟩
      · unfold taken at hn
        rw [if_neg ht] at hn
        exact absurd hn h'
  · simp only [List.mem_singleton, exists_eq_left]
    show c ∈ t.cons ↔ F.writes c ∨ G.writes c
    rw [a1, ← a.cons]
    simp [hw]
  · rw [List.mem_singleton.1 hp] at hi
    exact hvks i hi
  · refine ⟨_, List.mem_singleton.2 rfl, has_addKeys W _ _ ?_⟩
    rcases hi with hi | hi
    · obtain ⟨p, hp, hj⟩ := a.used i hi
      exact Or.inl (a3 _ (Or.inr ⟨p, hp, hj⟩))
    · rcases (hu i).1 hi with hi | hi
      · exact Or.inl (a3 _ (Or.inl (has_addKeys W _ _ (Or.inr ⟨i, hi, rfl⟩))))
      · exact Or.inr ⟨i, hi, rfl⟩
  · exact ⟨_, List.mem_singleton.2 rfl, hall i hi hn⟩
  · refine ⟨_, List.mem_singleton.2 rfl, ?_⟩
    rcases hx with hx | hx
    · obtain ⟨s, hs, hc⟩ := a.given k x hx
      exact hlift _ hs _ hc
    · exact (hcon k).2 (Or.inr (hg k x hx))
  · cases List.mem_singleton.1 hs'
    rcases mem_updated _ _ hx with hx | hx
    · rcases a5 _ hx with hx | ⟨p, hp, hx⟩
      · obtain ⟨i, hi, hk, hv⟩ := mem_defaults W h1 unique hx
        exact Or.inr ⟨i, Or.inr ((hu i).2 (Or.inl hi)), hk, a.mono i x hv⟩
      · cases p with
        | con c vks =>
          obtain ⟨i, hi, hk, hv⟩ := mem_defaults W h1 vks hx
          exact Or.inr ⟨i, Or.inl (a.uses _ hp i hi), hk, a.mono i x hv⟩
        | set s =>
          rcases a.sound s hp k x hx with hg | ⟨i, hi, hk, hv⟩
          · exact Or.inl (Or.inl hg)
          · exact Or.inr ⟨i, Or.inl hi, hk, hv⟩
    · rcases hs k x hx with hg | ⟨i, hi, hk, hv⟩
      · exact Or.inl (Or.inr hg)
      · exact Or.inr ⟨i, Or.inr ((hu i).2 (Or.inr hi)), hk, a.mono i x hv⟩

/-! ## What is written where -/

theorem insideL_iff (x : Expr V N C) (kids : List (Expr V N C)) : InsideL x kids ↔ ∃ e ∈ kids, Inside x e := by
  induction kids with
  | nil => exact ⟨fun h => (by cases h), fun ⟨_, h, _⟩ => absurd h List.not_mem_nil⟩
  | cons e es ih =>
    constructor
    · intro h
      cases h with
      | head h => exact ⟨e, List.mem_cons_self, h⟩
      | tail h =>
        obtain ⟨e', he, h⟩ := ih.1 h
        exact ⟨e', List.mem_cons_of_mem _ he, h⟩
    · rintro ⟨e', he, h⟩
      rcases List.mem_cons.1 he with rfl | he
      · exact .head h
      · exact .tail (ih.2 ⟨e', he, h⟩)

theorem inside_con (x : Expr V N C) (c : C) (vks : List Nat) (t : Bool) : Inside x (.con c vks t) ↔ x = .con c vks t :=
  ⟨fun h => by cases h; rfl, fun h => by rw [h]; exact .refl _⟩

theorem inside_arr (x : Expr V N C) (b : Bool) (kids : List (Expr V N C)) : Inside x (.arr b kids) ↔ x = .arr b kids ∨ ∃ e ∈ kids, Inside x e := by
  rw [← insideL_iff]
  exact ⟨fun h => by cases h with
    | refl => exact Or.inl rfl
    | arr h => exact Or.inr h, fun h => h.elim (fun h => by rw [h]; exact .refl _) .arr⟩

theorem inside_lst (x : Expr V N C) (kids : List (Expr V N C)) : Inside x (.lst kids) ↔ x = .lst kids ∨ ∃ e ∈ kids, Inside x e := by
  rw [← insideL_iff]
  exact ⟨fun h => by cases h with
    | refl => exact Or.inl rfl
    | lst h => exact Or.inr h, fun h => h.elim (fun h => by rw [h]; exact .refl _) .lst⟩

theorem inside_cset (x arg : Expr V N C) (subs : PyDict V N) : Inside x (.cset arg subs) ↔ x = .cset arg subs ∨ Inside x arg :=
  ⟨fun h => by cases h with
    | refl => exact Or.inl rfl
    | cset h => exact Or.inr h, fun h => h.elim (fun h => by rw [h]; exact .refl _) .cset⟩

theorem inside_mdl (x arg : Expr V N C) (setup cost : List Nat) (subs : PyDict V N) (ret : Option (PyDict V N)) :
    Inside x (.mdl setup cost arg subs ret) ↔ x = .mdl setup cost arg subs ret ∨ Inside x arg :=
  ⟨fun h => by cases h with
    | refl => exact Or.inl rfl
    | mdl h => exact Or.inr h, fun h => h.elim (fun h => by rw [h]; exact .refl _) .mdl⟩

/-- What is written in an expression. -/
def factsOf (e : Expr V N C) : Facts V N C := ⟨fun c => Writes c e, fun i => Uses i e, fun k w => Gives k w e⟩

/-- What is written in a list. -/
def factsL (kids : List (Expr V N C)) : Facts V N C :=
  ⟨fun c => ∃ e ∈ kids, Writes c e, fun i => ∃ e ∈ kids, Uses i e, fun k w => ∃ e ∈ kids, Gives k w e⟩

theorem Facts.ext' {F G : Facts V N C} (h1 : ∀ c, F.writes c ↔ G.writes c) (h2 : ∀ i, F.uses i ↔ G.uses i) (h3 : ∀ k w, F.gives k w ↔ G.gives k w) :
    F = G := by
  obtain ⟨a, b, c⟩ := F
  obtain ⟨a', b', c'⟩ := G
  rw [show a = a' from funext fun x => propext (h1 x), show b = b' from funext fun x => propext (h2 x),
    show c = c' from funext fun x => funext fun y => propext (h3 x y)]

theorem factsOf_con (c : C) (vks : List Nat) (t : Bool) :
    factsOf (.con c vks t : Expr V N C) = ⟨fun x => x = c, fun i => i ∈ vks, fun _ _ => False⟩ := by
  refine Facts.ext' (fun x => ?_) (fun i => ?_) (fun k w => ?_)
  · simp only [factsOf, Writes, inside_con, Expr.con.injEq]
    exact ⟨fun ⟨_, _, h, _⟩ => h, fun h => ⟨vks, t, h, rfl, rfl⟩⟩
  · simp only [factsOf, Uses, inside_con, Expr.con.injEq, reduceCtorEq, false_and, exists_false, or_false]
    exact ⟨fun ⟨_, _, _, h, hi⟩ => h.2.1 ▸ hi, fun h => ⟨c, vks, t, ⟨rfl, rfl, rfl⟩, h⟩⟩
  · simp only [factsOf, Gives, inside_con, reduceCtorEq, false_and, exists_false, or_false]

theorem exists_comm_mem {α β : Type} {l : List β} {P : β → α → Prop} : (∃ a, ∃ b ∈ l, P b a) ↔ ∃ b ∈ l, ∃ a, P b a :=
  ⟨fun ⟨a, b, hb, h⟩ => ⟨b, hb, a, h⟩, fun ⟨b, hb, a, h⟩ => ⟨a, b, hb, h⟩⟩

theorem factsOf_of_kids {e : Expr V N C} {kids : List (Expr V N C)}
    (hi : ∀ x, (∃ c vks t, x = .con c vks t) ∨ x.isSet → (Inside x e ↔ ∃ k ∈ kids, Inside x k)) : factsOf e = factsL kids := by
  have h1 : ∀ c vks t, Inside (.con c vks t) e ↔ ∃ k ∈ kids, Inside (.con c vks t) k := fun c vks t => hi _ (Or.inl ⟨c, vks, t, rfl⟩)
  have h2 : ∀ arg subs, Inside (.cset arg subs) e ↔ ∃ k ∈ kids, Inside (.cset arg subs) k := fun a s => hi _ (Or.inr trivial)
  have h3 : ∀ s c a b r, Inside (.mdl s c a b r) e ↔ ∃ k ∈ kids, Inside (.mdl s c a b r) k := fun s c a b r => hi _ (Or.inr trivial)
  refine Facts.ext' (fun x => ?_) (fun i => ?_) (fun k w => ?_)
  · simp only [factsOf, factsL, Writes, h1]
    exact ⟨fun ⟨a, b, e, he, h⟩ => ⟨e, he, a, b, h⟩, fun ⟨e, he, a, b, h⟩ => ⟨a, b, e, he, h⟩⟩
  · simp only [factsOf, factsL, Uses, h1, h3]
    constructor
    · rintro (⟨a, b, c, ⟨e, he, h⟩, hb⟩ | ⟨a, b, c, d, f, ⟨e, he, h⟩, hb⟩)
      · exact ⟨e, he, Or.inl ⟨a, b, c, h, hb⟩⟩
      · exact ⟨e, he, Or.inr ⟨a, b, c, d, f, h, hb⟩⟩
    · rintro ⟨e, he, ⟨a, b, c, h, hb⟩ | ⟨a, b, c, d, f, h, hb⟩⟩
      · exact Or.inl ⟨a, b, c, ⟨e, he, h⟩, hb⟩
      · exact Or.inr ⟨a, b, c, d, f, ⟨e, he, h⟩, hb⟩
  · simp only [factsOf, factsL, Gives, h2, h3]
    constructor
    · rintro (⟨a, b, ⟨e, he, h⟩, hb⟩ | ⟨a, b, c, d, f, ⟨e, he, h⟩, hb⟩)
      · exact ⟨e, he, Or.inl ⟨a, b, h, hb⟩⟩
      · exact ⟨e, he, Or.inr ⟨a, b, c, d, f, h, hb⟩⟩
    · rintro ⟨e, he, ⟨a, b, h, hb⟩ | ⟨a, b, c, d, f, h, hb⟩⟩
      · exact Or.inl ⟨a, b, ⟨e, he, h⟩, hb⟩
      · exact Or.inr ⟨a, b, c, d, f, ⟨e, he, h⟩, hb⟩

theorem factsOf_arr (b : Bool) (kids : List (Expr V N C)) : factsOf (.arr b kids) = factsL kids := by
  refine factsOf_of_kids (fun x hx => ?_)
  rw [inside_arr, or_iff_right]
  rintro rfl
  rcases hx with ⟨_, _, _, h⟩ | h
  · cases h
  · exact h

theorem factsOf_lst (kids : List (Expr V N C)) : factsOf (.lst kids) = factsL kids := by
  refine factsOf_of_kids (fun x hx => ?_)
  rw [inside_lst, or_iff_right]
  rintro rfl
  rcases hx with ⟨_, _, _, h⟩ | h
  · cases h
  · exact h

theorem factsOf_cset (arg : Expr V N C) (subs : PyDict V N) :
    factsOf (.cset arg subs) = (factsOf arg).and ⟨fun _ => False, fun i => i ∈ ([] : List Nat) ∨ i ∈ ([] : List Nat), fun k w => (k, w) ∈ subs⟩ := by
  refine Facts.ext' (fun x => ?_) (fun i => ?_) (fun k w => ?_)
  · simp [factsOf, Facts.and, Writes, inside_cset]
  · simp [factsOf, Facts.and, Uses, inside_cset]
  · simp only [factsOf, Facts.and, Gives, inside_cset, Expr.cset.injEq, reduceCtorEq, false_or]
    constructor
    · rintro (⟨a, b, ⟨rfl, rfl⟩ | h, hb⟩ | h)
      · exact Or.inr hb
      · exact Or.inl (Or.inl ⟨a, b, h, hb⟩)
      · exact Or.inl (Or.inr h)
    · rintro ((⟨a, b, h, hb⟩ | h) | h)
      · exact Or.inl ⟨a, b, Or.inr h, hb⟩
      · exact Or.inr h
      · exact Or.inl ⟨arg, subs, Or.inl ⟨rfl, rfl⟩, h⟩

theorem factsOf_mdl (arg : Expr V N C) (setup cost : List Nat) (subs : PyDict V N) (ret : Option (PyDict V N)) :
    factsOf (.mdl setup cost arg subs ret) =
      (factsOf arg).and ⟨fun _ => False, fun i => i ∈ setup ∨ i ∈ cost, fun k w => (k, w) ∈ subs ∨ ∃ d, ret = some d ∧ (k, w) ∈ d⟩ := by
  refine Facts.ext' (fun x => ?_) (fun i => ?_) (fun k w => ?_)
  · simp [factsOf, Facts.and, Writes, inside_mdl]
  · simp only [factsOf, Facts.and, Uses, inside_mdl, Expr.mdl.injEq, reduceCtorEq, false_or]
    constructor
    · rintro (h | ⟨a, b, c, d, e, ⟨rfl, rfl, rfl, rfl, rfl⟩ | h, hb⟩)
      · exact Or.inl (Or.inl h)
      · exact Or.inr hb
      · exact Or.inl (Or.inr ⟨a, b, c, d, e, h, hb⟩)
    · rintro ((h | ⟨a, b, c, d, e, h, hb⟩) | h)
      · exact Or.inl h
      · exact Or.inr ⟨a, b, c, d, e, Or.inr h, hb⟩
      · exact Or.inr ⟨setup, cost, arg, subs, ret, Or.inl ⟨rfl, rfl, rfl, rfl, rfl⟩, h⟩
  · simp only [factsOf, Facts.and, Gives, inside_mdl, Expr.mdl.injEq, reduceCtorEq, false_or]
    constructor
    · rintro (h | ⟨a, b, c, d, e, ⟨rfl, rfl, rfl, rfl, rfl⟩ | h, hb⟩)
      · exact Or.inl (Or.inl h)
      · exact Or.inr hb
      · exact Or.inl (Or.inr ⟨a, b, c, d, e, h, hb⟩)
    · rintro ((h | ⟨a, b, c, d, e, h, hb⟩) | h)
      · exact Or.inl h
      · exact Or.inr ⟨a, b, c, d, e, Or.inr h, hb⟩
      · exact Or.inr ⟨setup, cost, arg, subs, ret, Or.inl ⟨rfl, rfl, rfl, rfl, rfl⟩, h⟩

theorem Fair.mono {e x : Expr V N C} (h : Fair e) (hx : ∀ y, Inside y x → Inside y e) : Fair x :=
  ⟨fun a s hi => h.1 a s (hx _ hi), fun s c a b r hi => h.2 s c a b r (hx _ hi)⟩

/-! ## Running -/

theorem evalL_inv (W : World V) (kids : List (Expr V N C))
    (ih : ∀ e ∈ kids, Fair e → ∀ h : Heap N, ∃ h' v, eval W e h = .ok (h', v) ∧ Inv W (factsOf e) h h' v.parts)
    (hf : ∀ e ∈ kids, Fair e) (h : Heap N) :
    ∃ h' vs, evalL W kids h = .ok (h', vs) ∧ vs.length = kids.length ∧ Inv W (factsL kids) h h' (partsL vs) := by
  induction kids generalizing h with
  | nil =>
    refine ⟨h, [], rfl, rfl, ?_⟩
    have : factsL ([] : List (Expr V N C)) = Facts.none :=
      Facts.ext' (fun x => by simp [factsL, Facts.none]) (fun x => by simp [factsL, Facts.none]) (fun x y => by simp [factsL, Facts.none])
    rw [this]
    exact Inv.nil W h
  | cons e es ihs =>
    obtain ⟨h1, v, he, hi⟩ := ih e List.mem_cons_self (hf e List.mem_cons_self) h
    obtain ⟨h2, vs, hes, hl, his⟩ := ihs (fun e he => ih e (List.mem_cons_of_mem _ he)) (fun e he => hf e (List.mem_cons_of_mem _ he)) h1
    refine ⟨h2, v :: vs, ?_, by simp [hl], ?_⟩
    · unfold evalL
      rw [he]
      show (evalL W es h1).map _ = _
      rw [hes]
      rfl
    · have : factsL (e :: es) = (factsOf e).and (factsL es) :=
        Facts.ext' (fun x => by simp [factsL, factsOf, Facts.and]) (fun x => by simp [factsL, factsOf, Facts.and])
          (fun x y => by simp [factsL, factsOf, Facts.and])
      rw [this]
      exact hi.append his

theorem model_lst (W : World V) (h : Heap N) (setup cost : List Nat) (vs : List (Val V N C)) (subs : PyDict V N) (ret : Option (PyDict V N)) :
    model W h setup cost (.lst vs) subs ret = construct W h setup cost (.lst vs) (updated (defaults W h cost) (ret.getD subs)) := by
  unfold model costed
  cases vs with
  | nil => simp
  | cons v vs => simp [Val.truth]

theorem mem_updated_of {d e : PyDict V N} {k : V} (h : (updated d e).contains k = true) : ∃ y, (k, y) ∈ updated d e := (contains_iff_mem _ _).1 h

mutual
theorem eval_inv (W : World V) : ∀ (e : Expr V N C), Fair e → ∀ h : Heap N, ∃ h' v, eval W e h = .ok (h', v) ∧ Inv W (factsOf e) h h' v.parts
  | .con c vks t, _, h => ⟨h, .con c vks t, rfl, by rw [factsOf_con]; exact Inv.con W h c vks⟩
  | .arr b kids, hf, h => by
    obtain ⟨h', vs, he, _, hi⟩ := evalL_inv W kids (eval_invL W kids)
      (fun e he => hf.mono (fun y hy => (inside_arr _ _ _).2 (Or.inr ⟨e, he, hy⟩))) h
    refine ⟨h', .arr b vs, ?_, by rw [factsOf_arr]; exact hi⟩
    unfold eval
    rw [he]
    rfl
  | .lst kids, hf, h => by
    obtain ⟨h', vs, he, _, hi⟩ := evalL_inv W kids (eval_invL W kids)
      (fun e he => hf.mono (fun y hy => (inside_lst _ _).2 (Or.inr ⟨e, he, hy⟩))) h
    refine ⟨h', .lst vs, ?_, by rw [factsOf_lst]; exact hi⟩
    unfold eval
    rw [he]
    rfl
  | .cset (.lst kids) subs, hf, h => by
    obtain ⟨h1, vs, he, _, hi⟩ := evalL_inv W kids (eval_invL W kids)
      (fun e he => hf.mono (fun y hy => (inside_cset _ _ _).2 (Or.inr ((inside_lst _ _).2 (Or.inr ⟨e, he, hy⟩))))) h
    cases hc : construct W h1 [] [] (.lst vs) subs with
    | error x => cases hc
    | ok r =>
      obtain ⟨h2, s⟩ := r
      refine ⟨h2, .set s, ?_, ?_⟩
      · unfold eval eval
        rw [he]
        simp only [Except.map, Except.bind, hc]
      · rw [factsOf_cset, factsOf_lst]
        exact hi.construct rfl hc (fun _ h => h) (fun _ => Iff.rfl) (fun k x h => ⟨x, h⟩) (fun k x h => Or.inl h) (fun i hi => by cases hi)
  | .mdl setup cost (.lst kids) subs ret, hf, h => by
    obtain ⟨h1, vs, he, _, hi⟩ := evalL_inv W kids (eval_invL W kids)
      (fun e he => hf.mono (fun y hy => (inside_mdl _ _ _ _ _ _).2 (Or.inr ((inside_lst _ _).2 (Or.inr ⟨e, he, hy⟩))))) h
    have hret := (hf.2 setup cost (.lst kids) subs ret (.refl _)).2
    have hm := model_lst W h1 setup cost vs subs ret
    cases hc : construct W h1 setup cost (.lst vs) (updated (defaults W h1 cost) (ret.getD subs)) with
    | error x => cases hc
    | ok r =>
      obtain ⟨h2, s⟩ := r
      refine ⟨h2, .set s, ?_, ?_⟩
      · unfold eval eval
        rw [he]
        simp only [Except.map, Except.bind, hm, hc]
      · rw [factsOf_mdl, factsOf_lst]
        have hd : ∀ k x, (k, x) ∈ ret.getD subs ↔ (k, x) ∈ subs ∨ ∃ d, ret = some d ∧ (k, x) ∈ d := by
          intro k x
          rcases hret with rfl | rfl
          · cases ret <;> simp
          · simp
        refine hi.construct rfl hc (fun _ h => h) (fun _ => Iff.rfl) (fun k x h => ?_) (fun k x h => ?_) (fun i hi hn => ?_)
        · exact mem_updated_of ((contains_updated _ _ _).2 (Or.inr ⟨x, (hd k x).2 h⟩))
        · rcases mem_updated _ _ h with h | h
          · obtain ⟨i, hi, hk, hv⟩ := mem_defaults W h1 cost h
            exact Or.inr ⟨i, hi, hk, hv⟩
          · exact Or.inl ((hd k x).1 h)
        · exact mem_updated_of ((contains_updated _ _ _).2 (Or.inl ((contains_defaults W h1 cost _).2 ⟨i, hi, rfl, hn⟩)))
  | .cset (.con _ _ _) _, hf, _ => (hf.1 _ _ (.refl _)).elim
  | .cset (.arr _ _) _, hf, _ => (hf.1 _ _ (.refl _)).elim
  | .cset (.cset _ _) _, hf, _ => (hf.1 _ _ (.refl _)).elim
  | .cset (.mdl _ _ _ _ _) _, hf, _ => (hf.1 _ _ (.refl _)).elim
  | .mdl _ _ (.con _ _ _) _ _, hf, _ => (hf.2 _ _ _ _ _ (.refl _)).1.elim
  | .mdl _ _ (.arr _ _) _ _, hf, _ => (hf.2 _ _ _ _ _ (.refl _)).1.elim
  | .mdl _ _ (.cset _ _) _ _, hf, _ => (hf.2 _ _ _ _ _ (.refl _)).1.elim
  | .mdl _ _ (.mdl _ _ _ _ _) _ _, hf, _ => (hf.2 _ _ _ _ _ (.refl _)).1.elim
theorem eval_invL (W : World V) : ∀ (kids : List (Expr V N C)), ∀ e ∈ kids, Fair e → ∀ h : Heap N,
    ∃ h' v, eval W e h = .ok (h', v) ∧ Inv W (factsOf e) h h' v.parts
  | [], _, he => by cases he
  | e :: es, x, hx => by
    by_cases hxe : x = e
    · rw [hxe]
      exact eval_inv W e
    · exact eval_invL W es x ((List.mem_cons.1 hx).resolve_left hxe)
end

theorem eval_set {W : World V} {e : Expr V N C} (he : e.isSet) {h h' : Heap N} {v : Val V N C} (hv : eval W e h = .ok (h', v)) :
    ∃ s, v = .set s := by
  cases e with
  | con => cases he
  | arr => cases he
  | lst => cases he
  | cset arg subs =>
    unfold eval at hv
    simp only [Except.map, Except.bind] at hv
    split at hv
    · cases hv
    · split at hv
      · cases hv
      · cases hv
        exact ⟨_, rfl⟩
  | mdl setup cost arg subs ret =>
    unfold eval at hv
    simp only [Except.map, Except.bind] at hv
    split at hv
    · cases hv
    · split at hv
      · cases hv
      · cases hv
        exact ⟨_, rfl⟩

theorem get?_updated {e : PyDict V N} (he : PyDict.WF e) (d : PyDict V N) {k : V} {w : N} (h : e.get? k = some w) :
    (updated d e).get? k = some w := by
  have key : ∀ (e : PyDict V N) (d : PyDict V N), (∀ x, (k, x) ∉ e) → (updated d e).get? k = d.get? k := by
    intro e
    induction e with
    | nil => intro d _; rfl
    | cons p e ih =>
      intro d hn
      rw [show updated d (p :: e) = updated (d.set p.1 p.2) e from rfl, ih _ (fun x hx => hn x (List.mem_cons_of_mem _ hx)), get?_set, if_neg]
      intro hb
      exact hn p.2 (by rw [← eq_of_beq hb]; exact List.mem_cons_self)
  induction e generalizing d with
  | nil => cases h
  | cons p e ih =>
    obtain ⟨k', w'⟩ := p
    obtain ⟨h1, h2⟩ := wf_cons.1 he
    rw [get?_cons] at h
    rw [show updated d ((k', w') :: e) = updated (d.set k' w') e from rfl]
    split at h
    · rename_i hb
      cases h
      rw [key e _ ?_, get?_set, if_pos hb]
      intro x hx
      have := h1 _ hx
      rw [eq_of_beq hb] at this
      simp at this
    · exact ih h2 _ h

end
end Building

open Building

section
variable {V N C : Type} [DecidableEq V]

/-- C72, for models whose constraints are given as lists and which get substitutions in one way: the model can be built; its constraints are
exactly those written in it, at any depth; its variables are exactly those used in it; a variable has a value if and only if one is given
in a dictionary somewhere in the model or the variable object used has a default, and the value is one of these. The default of an object only
disappears if the object is used, is not marked as constant, and the model has a value for it. -/
theorem C72_contents_partial (W : World V) {e : Expr V N C} (hf : Fair e) (he : e.isSet) (h : Heap N) :
    ∃ h' s, eval W e h = .ok (h', .set s) ∧
      (∀ c, c ∈ s.cons ↔ Writes c e) ∧
      (∀ k, (∃ i ∈ s.vks, W.key i = k) ↔ ∃ i, Uses i e ∧ W.key i = k) ∧
      (∀ k, (s.subs.get? k ≠ none) ↔ (∃ x, Gives k x e) ∨ ∃ i, Uses i e ∧ W.key i = k ∧ h i ≠ none) ∧
      (∀ k x, s.subs.get? k = some x → Gives k x e ∨ ∃ i, Uses i e ∧ W.key i = k ∧ h i = some x) ∧
      (∀ i, h' i = h i ∨ (h' i = none ∧ W.constant i = false ∧ Uses i e ∧ s.subs.get? (W.key i) ≠ none)) := by
  obtain ⟨h', v, hv, hi⟩ := eval_inv W e hf h
  obtain ⟨s, rfl⟩ := eval_set he hv
  have hmem : ∀ p, p ∈ (Val.set s : Val V N C).parts ↔ p = Part.set s := fun p => List.mem_singleton
  have hcont : ∀ k, s.subs.contains k = true ↔ s.subs.get? k ≠ none := by
    intro k
    unfold PyDict.contains
    cases s.subs.get? k <;> simp
  refine ⟨h', s, hv, fun c => ?_, fun k => ⟨?_, ?_⟩, fun k => ⟨?_, ?_⟩, fun k x hx => hi.sound s ((hmem _).2 rfl) k x (mem_of_get? hx), fun i => ?_⟩
  · rw [← show (factsOf e).writes c ↔ Writes c e from Iff.rfl, ← hi.cons]
    exact ⟨fun h => ⟨_, (hmem _).2 rfl, h⟩, fun ⟨p, hp, h⟩ => by rw [(hmem p).1 hp] at h; exact h⟩
  · rintro ⟨i, his, hk⟩
    exact ⟨i, hi.uses _ ((hmem _).2 rfl) i his, hk⟩
  · rintro ⟨i, hu, hk⟩
    obtain ⟨p, hp, j, hj, hjk⟩ := hi.used i hu
    rw [(hmem p).1 hp] at hj
    exact ⟨j, hj, hjk.trans hk⟩
  · intro hn
    obtain ⟨x, hx⟩ := Option.ne_none_iff_exists'.1 hn
    rcases hi.sound s ((hmem _).2 rfl) k x (mem_of_get? hx) with hg | ⟨i, hu, hk, hv⟩
    · exact Or.inl ⟨x, hg⟩
    · exact Or.inr ⟨i, hu, hk, by rw [hv]; exact Option.some_ne_none _⟩
  · rintro (⟨x, hg⟩ | ⟨i, hu, hk, hn⟩)
    · obtain ⟨t, ht, hc⟩ := hi.given k x hg
      cases (hmem _).1 ht
      exact (hcont k).1 hc
    · obtain ⟨p, hp, hc⟩ := hi.comp i hu hn
      rw [(hmem p).1 hp] at hc
      rw [← hk]
      exact (hcont _).1 hc
  · cases hx : h' i with
    | some x => exact Or.inl (hi.mono i x hx).symm
    | none =>
      cases hy : h i with
      | none => exact Or.inl rfl
      | some y =>
        have hn : h i ≠ none := by rw [hy]; exact Option.some_ne_none _
        obtain ⟨hcst, hu⟩ := hi.lost i hn hx
        refine Or.inr ⟨rfl, hcst, hu, ?_⟩
        rcases hi.kept i hn with h2 | ⟨t, ht, hc⟩
        · exact absurd hx h2
        · cases (hmem _).1 ht
          exact (hcont _).1 hc

/-- C72: if all values that are given for a variable and all defaults of the objects used for it are the same, that is its value in the model. -/
theorem C72_value_partial (W : World V) {e : Expr V N C} (hf : Fair e) (he : e.isSet) (h : Heap N) (k : V) (w : N)
    (hg : ∀ x, Gives k x e → x = w) (hd : ∀ i, Uses i e → W.key i = k → h i = none ∨ h i = some w)
    (hex : Gives k w e ∨ ∃ i, Uses i e ∧ W.key i = k ∧ h i = some w) :
    ∃ h' s, eval W e h = .ok (h', .set s) ∧ s.subs.get? k = some w := by
  obtain ⟨h', s, hv, _, _, h3, h4, _⟩ := C72_contents_partial W hf he h
  refine ⟨h', s, hv, ?_⟩
  have hn : s.subs.get? k ≠ none := (h3 k).2 (hex.elim (fun h => Or.inl ⟨w, h⟩) (fun ⟨i, hu, hk, hv⟩ =>
    Or.inr ⟨i, hu, hk, by rw [hv]; exact Option.some_ne_none _⟩))
  obtain ⟨x, hx⟩ := Option.ne_none_iff_exists'.1 hn
  rw [hx]
  rcases h4 k x hx with hgx | ⟨i, hu, hk, hv⟩
  · rw [hg x hgx]
  · rcases hd i hu hk with h0 | h0
    · rw [h0] at hv
      cases hv
    · rw [← hv, h0]

/-- C72: a value in the `substitutions` of a model, or in those returned by its `setup`, is the value of the variable in the model, whatever the
model is made of. -/
theorem C72_explicit_partial (W : World V) {setup cost : List Nat} {arg : Expr V N C} {subs : PyDict V N} {ret : Option (PyDict V N)}
    {h h' : Heap N} {s : Set' V N C} (hv : eval W (.mdl setup cost arg subs ret) h = .ok (h', .set s)) (hwf : (ret.getD subs).WF) {k : V} {w : N}
    (hk : (ret.getD subs).get? k = some w) : s.subs.get? k = some w := by
  have hwfu : ∀ (e d : PyDict V N), d.WF → (updated d e).WF := by
    intro e
    induction e with
    | nil => intro d hd; exact hd
    | cons p e ih => intro d hd; exact ih _ (wf_set hd _ _)
  have hwfd : ∀ (h : Heap N) (l : List Nat) (d : PyDict V N), d.WF → (l.foldl (default1 W h) d).WF := by
    intro h l
    induction l with
    | nil => intro d hd; exact hd
    | cons i l ih =>
      intro d hd
      refine ih _ ?_
      unfold default1
      split
      · exact wf_set hd _ _
      · exact hd
  unfold eval at hv
  simp only [Except.map, Except.bind] at hv
  split at hv
  · cases hv
  · rename_i r _
    cases hm : model W r.1 setup cost r.2 subs ret with
    | error x => rw [hm] at hv; cases hv
    | ok q =>
      rw [hm] at hv
      cases hv
      unfold model costed construct at hm
      generalize (if r.2.truth then r.2 else .lst []) = a at hm
      cases hel : a.elements with
      | error x => rw [hel] at hm; cases hm
      | ok els =>
        rw [hel] at hm
        have hq := (Prod.mk.inj (Except.ok.inj hm)).2
        rw [← hq]
        exact get?_updated (hwfu _ _ (hwfd _ _ _ List.Pairwise.nil)) _ (get?_updated hwf _ hk)

end

/-! ## Examples and violations -/

namespace Building

/-- Keys are the objects themselves; object 9 is marked as constant. -/
def world0 : World Nat := ⟨fun i => i, fun i => i == 9⟩

/-- A submodel with `x ≥ y` (variables 0 and 1) and `{y: 7}`, in a model with the list of `v ≥ 1` for a vector of variables 2 and 3 and the cost
`x*z` (variables 0 and 4); the variable 5 is made in `setup`. -/
def expr0 : Expr Nat Nat Nat :=
  .mdl [5] [0, 4] (.lst [.cset (.lst [.con 100 [0, 1] true]) [(1, 7)], .arr false [.con 101 [2] true, .con 102 [3] true]]) [(4, 6)] none

theorem fair_expr0 : Fair expr0 := by
  constructor
  · intro arg subs h
    simp only [expr0, inside_mdl, inside_lst, inside_cset, inside_arr, inside_con, List.mem_cons, List.not_mem_nil, exists_eq_or_imp, or_false,
      exists_eq_left, reduceCtorEq, false_or, Expr.cset.injEq] at h
    rw [h.1]
    trivial
  · intro setup cost arg subs ret h
    simp only [expr0, inside_mdl, inside_lst, inside_cset, inside_arr, inside_con, List.mem_cons, List.not_mem_nil, exists_eq_or_imp, or_false,
      exists_eq_left, reduceCtorEq, Expr.mdl.injEq] at h
    obtain ⟨_, _, h3, _, h5⟩ := h
    rw [h3, h5]
    exact ⟨trivial, Or.inr rfl⟩

/-- Defaults 10 and 12 for the variables 0 and 2, and 13 for the one made in `setup`. -/
def heap0 : Heap Nat := fun i => if i = 0 then some 10 else if i = 2 then some 12 else if i = 5 then some 13 else none

end Building

/-- The model of the example has its three constraints, six variables and five values. -/
example : ∃ h' s, eval world0 expr0 heap0 = .ok (h', .set s) ∧ s.cons = [100, 101, 102] ∧ s.vks = [5, 0, 1, 2, 3, 4] ∧
    s.subs = [(5, 13), (0, 10), (1, 7), (2, 12), (4, 6)] := ⟨_, _, rfl, by decide, by decide, by decide⟩

example : ∃ h' s, eval world0 expr0 heap0 = .ok (h', .set s) ∧ ∀ c, c ∈ s.cons ↔ Writes c expr0 := by
  obtain ⟨h', s, h, hc, _⟩ := C72_contents_partial world0 fair_expr0 trivial heap0
  exact ⟨h', s, h, hc⟩

example : ∃ h' s, eval world0 expr0 heap0 = .ok (h', .set s) ∧ s.subs.get? 0 = some 10 := by
  refine C72_value_partial world0 fair_expr0 trivial heap0 0 10 ?_ ?_ (Or.inr ⟨0, Or.inr ⟨_, _, _, _, _, .refl _, Or.inr (by decide)⟩, rfl, rfl⟩)
  · rintro x (⟨arg, subs, h, hx⟩ | ⟨setup, cost, arg, subs, ret, h, hx⟩)
    · simp only [expr0, inside_mdl, inside_lst, inside_cset, inside_arr, inside_con, List.mem_cons, List.not_mem_nil, exists_eq_or_imp, or_false,
        exists_eq_left, reduceCtorEq, false_or, Expr.cset.injEq] at h
      rw [h.2] at hx
      simp at hx
    · simp only [expr0, inside_mdl, inside_lst, inside_cset, inside_arr, inside_con, List.mem_cons, List.not_mem_nil, exists_eq_or_imp, or_false,
        exists_eq_left, reduceCtorEq, Expr.mdl.injEq] at h
      obtain ⟨_, _, _, h4, h5⟩ := h
      rw [h4, h5] at hx
      simp at hx
  · intro i _ hi
    rw [show i = 0 from hi]
    exact Or.inr rfl

/-- The substitution of the model replaces that of the submodel. -/
example : ∃ h' s, eval world0 (.mdl [] [0] (.lst [.cset (.lst [.con 100 [0, 1] true]) [(1, 7)]]) [(1, 8)] none) heap0 = .ok (h', .set s) ∧
    s.subs.get? 1 = some 8 :=
  ⟨_, _, rfl, C72_explicit_partial (C := Nat) world0 (setup := []) (cost := [0])
    (arg := .lst [.cset (.lst [.con 100 [0, 1] true]) [(1, 7)]]) (subs := [(1, 8)]) (ret := none) (h := heap0) rfl (by simp [PyDict.WF]) rfl⟩

/-- C72 is violated: an inequality of arrays is false, so a model that is given one instead of a list of constraints, as by
`Model(cost, v >= 1)`, has no constraint at all. -/
theorem C72_array_fails : ∃ (W : World Nat) (e : Expr Nat Nat Nat) (h : Heap Nat), e.isSet ∧ Writes 101 e ∧
    ∃ h' s, eval W e h = .ok (h', .set s) ∧ s.cons = [] :=
  ⟨world0, .mdl [] [2, 3] (.arr false [.con 101 [2] true, .con 102 [3] true]) [] none, heap0, trivial,
    ⟨[2], true, .mdl (.arr (.head (.refl _)))⟩, _, _, rfl, rfl⟩

/-- C72 is violated in the same way by a monomial equality that is given on its own, as by `Model(cost, x == y)`. -/
theorem C72_equality_fails : ∃ (W : World Nat) (e : Expr Nat Nat Nat) (h : Heap Nat), e.isSet ∧ Writes 100 e ∧
    ∃ h' s, eval W e h = .ok (h', .set s) ∧ s.cons = [] :=
  ⟨world0, .mdl [] [0] (.con 100 [0, 1] false) [] none, heap0, trivial, ⟨[0, 1], false, .mdl (.refl _)⟩, _, _, rfl, rfl⟩

/-- C72 is violated: a set without constraints is false, so that its substitutions are lost in a model that is given just this set. -/
theorem C72_empty_fails : ∃ (W : World Nat) (e : Expr Nat Nat Nat) (h : Heap Nat), e.isSet ∧ Gives 0 7 e ∧ Uses 0 e ∧
    ∃ h' s, eval W e h = .ok (h', .set s) ∧ s.subs.get? 0 = none :=
  ⟨world0, .mdl [] [0] (.cset (.lst []) [(0, 7)]) [] none, fun _ => none, trivial,
    Or.inl ⟨.lst [], [(0, 7)], .mdl (.refl _), by decide⟩, Or.inr ⟨_, _, _, _, _, .refl _, Or.inr (by decide)⟩, _, _, rfl, by decide⟩

/-- C72 is violated: a model takes the default value away from the object, so that a second model made of the same variable does not fix it. -/
theorem C72_reuse_fails : ∃ (W : World Nat) (e : Expr Nat Nat Nat) (h : Heap Nat), Fair e ∧ e.isSet ∧ Uses 0 e ∧ h 0 = some 10 ∧
    ∃ h' s, eval W e h = .ok (h', .set s) ∧ s.subs.get? 0 = some 10 ∧
      ∃ h'' s', eval W e h' = .ok (h'', .set s') ∧ s'.subs.get? 0 = none := by
  refine ⟨world0, .mdl [] [1] (.lst [.con 100 [0, 1] true]) [] none, heap0, ⟨?_, ?_⟩, trivial, Or.inl ⟨100, [0, 1], true, ?_, by decide⟩, rfl,
    _, _, rfl, by decide, _, _, rfl, by decide⟩
  · intro arg subs h
    simp only [inside_mdl, inside_lst, inside_con, List.mem_cons, List.not_mem_nil, or_false, exists_eq_left, reduceCtorEq] at h
  · intro setup cost arg subs ret h
    simp only [inside_mdl, inside_lst, inside_con, List.mem_cons, List.not_mem_nil, or_false, exists_eq_left, reduceCtorEq, Expr.mdl.injEq] at h
    obtain ⟨_, _, h3, _, h5⟩ := h
    rw [h3, h5]
    exact ⟨trivial, Or.inr rfl⟩
  · exact .mdl (.lst (.head (.refl _)))

/-- C72 is violated: the keyword `substitutions` is dropped if `setup` returns a dictionary besides constraints. -/
theorem C72_keyword_fails : ∃ (W : World Nat) (e : Expr Nat Nat Nat) (h : Heap Nat), e.isSet ∧ Gives 0 7 e ∧ Uses 0 e ∧
    ∃ h' s, eval W e h = .ok (h', .set s) ∧ s.subs.get? 0 = none :=
  ⟨world0, .mdl [0, 1] [0] (.lst [.con 100 [0, 1] true]) [(0, 7)] (some [(1, 3)]), fun _ => none, trivial,
    Or.inr ⟨_, _, _, _, _, .refl _, Or.inl (by decide)⟩, Or.inr ⟨_, _, _, _, _, .refl _, Or.inr (by decide)⟩, _, _, rfl, by decide⟩

/-- C72 is violated: constants keep their defaults, so the default of a constant in the cost replaces the value that a submodel gives explicitly. -/
theorem C72_constant_fails : ∃ (W : World Nat) (e : Expr Nat Nat Nat) (h : Heap Nat), e.isSet ∧ Gives 9 7 e ∧ (∀ x, Gives 9 x e → x = 7) ∧
    ∃ h' s, eval W e h = .ok (h', .set s) ∧ s.subs.get? 9 = some 2 := by
  refine ⟨world0, .mdl [] [0, 9] (.lst [.cset (.lst [.con 100 [0, 9] true]) [(9, 7)]]) [] none, fun i => if i = 9 then some 2 else none, trivial,
    Or.inl ⟨_, _, .mdl (.lst (.head (.refl _))), by decide⟩, ?_, _, _, rfl, by decide⟩
  rintro x (⟨arg, subs, h, hx⟩ | ⟨setup, cost, arg, subs, ret, h, hx⟩)
  · simp only [inside_mdl, inside_lst, inside_cset, inside_con, List.mem_cons, List.not_mem_nil, or_false, exists_eq_left, reduceCtorEq,
      false_or, Expr.cset.injEq] at h
    rw [h.2] at hx
    simpa using hx
  · simp only [inside_mdl, inside_lst, inside_cset, inside_con, List.mem_cons, List.not_mem_nil, or_false, exists_eq_left, reduceCtorEq,
      Expr.mdl.injEq] at h
    obtain ⟨_, _, _, h4, h5⟩ := h
    rw [h4, h5] at hx
    simp at hx

end Verif
