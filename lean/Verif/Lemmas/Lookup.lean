import Verif.Spec.Lookup
import Verif.Lemmas.PyDict

/-! Names and the variables they refer to. -/

set_option linter.unusedSectionVars false

namespace Verif
namespace Lookup
open PyDict
variable {A N I : Type} [DecidableEq A] [DecidableEq N]

/-- The set stored under a key. -/
def at' (km : PyDict (MapKey A N) (List A)) (k : MapKey A N) : List A := (km.get? k).getD []

theorem mem_add {l : List A} {a b : A} : b ∈ add l a ↔ b ∈ l ∨ b = a := by
  unfold add
  split
  · constructor
    · exact .inl
    · rintro (h | rfl)
      · exact h
      · assumption
  · simp

theorem add_nodup {l : List A} (h : l.Nodup) (a : A) : (add l a).Nodup := by
  unfold add
  split
  · exact h
  · rename_i hn
    rw [List.nodup_append]
    exact ⟨h, by simp, by rintro x hx y hy rfl; rw [List.mem_singleton] at hy; exact hn (hy ▸ hx)⟩

theorem at'_set (km : PyDict (MapKey A N) (List A)) (k q : MapKey A N) (l : List A) : at' (km.set k l) q = if k = q then l else at' km q := by
  unfold at'
  rw [get?_set]
  by_cases h : k = q
  · simp [h]
  · simp [h]

theorem at'_note (km : PyDict (MapKey A N) (List A)) (a b : A) (k q : MapKey A N) : b ∈ at' (note a km k) q ↔ b ∈ at' km q ∨ (b = a ∧ k = q) := by
  unfold note
  rw [at'_set]
  split
  · rename_i h
    subst h
    rw [mem_add]
    simp [at']
  · rename_i h
    simp [h]

theorem note_nodup {km : PyDict (MapKey A N) (List A)} (h : ∀ k, (at' km k).Nodup) (a : A) (k q : MapKey A N) : (at' (note a km k) q).Nodup := by
  unfold note
  rw [at'_set]
  split
  · exact add_nodup (h _) a
  · exact h q

theorem at'_notes (ks : List (MapKey A N)) (km : PyDict (MapKey A N) (List A)) (a b : A) (q : MapKey A N) :
    b ∈ at' (ks.foldl (note a) km) q ↔ b ∈ at' km q ∨ (b = a ∧ q ∈ ks) := by
  induction ks generalizing km with
  | nil => simp
  | cons k ks ih =>
    rw [List.foldl_cons, ih, at'_note, List.mem_cons]
    constructor
    · rintro ((h | ⟨h, h'⟩) | ⟨h, h'⟩)
      · exact .inl h
      · exact .inr ⟨h, .inl h'.symm⟩
      · exact .inr ⟨h, .inr h'⟩
    · rintro (h | ⟨h, h' | h'⟩)
      · exact .inl (.inl h)
      · exact .inl (.inr ⟨h, h'.symm⟩)
      · exact .inr ⟨h, h'⟩

theorem notes_nodup (ks : List (MapKey A N)) {km : PyDict (MapKey A N) (List A)} (h : ∀ k, (at' km k).Nodup) (a : A) (q : MapKey A N) :
    (at' (ks.foldl (note a) km) q).Nodup := by
  induction ks generalizing km with
  | nil => exact h q
  | cons k ks ih => exact ih (note_nodup h a k)

theorem at'_all (E : A → List (MapKey A N)) (l : List A) (km : PyDict (MapKey A N) (List A)) (b : A) (q : MapKey A N) :
    b ∈ at' (l.foldl (fun km a => (E a).foldl (note a) km) km) q ↔ b ∈ at' km q ∨ (b ∈ l ∧ q ∈ E b) := by
  induction l generalizing km with
  | nil => simp
  | cons a l ih =>
    rw [List.foldl_cons, ih, at'_notes, List.mem_cons]
    constructor
    · rintro ((h | ⟨rfl, h'⟩) | ⟨h, h'⟩)
      · exact .inl h
      · exact .inr ⟨.inl rfl, h'⟩
      · exact .inr ⟨.inr h, h'⟩
    · rintro (h | ⟨rfl | h, h'⟩)
      · exact .inl (.inl h)
      · exact .inl (.inr ⟨rfl, h'⟩)
      · exact .inr ⟨h, h'⟩

theorem all_nodup (E : A → List (MapKey A N)) (l : List A) {km : PyDict (MapKey A N) (List A)} (h : ∀ k, (at' km k).Nodup) (q : MapKey A N) :
    (at' (l.foldl (fun km a => (E a).foldl (note a) km) km) q).Nodup := by
  induction l generalizing km with
  | nil => exact h q
  | cons a l ih => exact ih (fun k => notes_nodup (E a) h a k)

/-- What holds of the varkeys of a model at all times. -/
structure Inv (E : Env A N I) (vks : List A) (s : KeySet A N) : Prop where
  elems : s.elems = vks
  nodup : ∀ k, (at' s.keymap k).Nodup
  sound : ∀ k a, a ∈ at' s.keymap k → a ∈ vks ∧ Refers E k a
  self : ∀ a ∈ vks, a ∈ at' s.keymap (.key a)
  mapped : ∀ a ∈ vks, a ∉ s.unmapped → ∀ k ∈ E.keys a, a ∈ at' s.keymap k
  sub : ∀ a ∈ s.unmapped, a ∈ vks

theorem inv_fresh (E : Env A N I) (vks : List A) : Inv E vks (fresh vks) := by
  have h : ∀ (b : A) (q : MapKey A N), b ∈ at' (fresh vks).keymap q ↔ b ∈ vks ∧ q = .key b := by
    intro b q
    have := at'_all (fun a => [MapKey.key a]) vks ([] : PyDict (MapKey A N) (List A)) b q
    simp only [List.mem_singleton] at this
    refine Iff.trans this ?_
    simp [at']
  refine ⟨rfl, ?_, ?_, ?_, ?_, fun _ h => h⟩
  · intro k
    exact all_nodup (fun a => [MapKey.key a]) vks (km := []) (fun _ => List.nodup_nil) k
  · intro k a ha
    obtain ⟨h1, h2⟩ := (h a k).1 ha
    exact ⟨h1, .inl h2⟩
  · intro a ha
    exact (h a _).2 ⟨ha, rfl⟩
  · intro a ha hn
    exact absurd ha hn

theorem inv_update {E : Env A N I} (hE : EnvOK E) {vks : List A} {s : KeySet A N} (h : Inv E vks s) : Inv E vks (updateKeymap E s) := by
  have hm := fun b q => at'_all E.keys (E.ord s.unmapped) s.keymap b q
  refine ⟨h.elems, ?_, ?_, ?_, ?_, by intro a ha; cases ha⟩
  · exact fun k => all_nodup E.keys _ h.nodup k
  · intro k a ha
    rcases (hm a k).1 ha with ha | ⟨ha, hk⟩
    · exact h.sound k a ha
    · exact ⟨h.sub a ((hE.ord _).mem_iff.1 ha), .inr hk⟩
  · intro a ha
    exact (hm a _).2 (.inl (h.self a ha))
  · intro a ha _ k hk
    by_cases hu : a ∈ s.unmapped
    · exact (hm a k).2 (.inr ⟨(hE.ord _).mem_iff.2 hu, hk⟩)
    · exact (hm a k).2 (.inl (h.mapped a ha hu k hk))

theorem inv_parse {E : Env A N I} (hE : EnvOK E) {vks : List A} {s : KeySet A N} (h : Inv E vks s) (k : MapKey A N) : Inv E vks (parse E s k) := by
  cases k with
  | key a => exact h
  | str n => exact inv_update hE h

theorem at'_blank {km : PyDict (MapKey A N) (List A)} {k : MapKey A N} (h : km.get? k = none) (q : MapKey A N) : at' (km.set k []) q = at' km q := by
  rw [at'_set]
  split
  · rename_i e
    subst e
    simp [at', h]
  · rfl

theorem inv_getItem {E : Env A N I} (hE : EnvOK E) {vks : List A} {s : KeySet A N} (h : Inv E vks s) (k : MapKey A N) : Inv E vks (getItem E s k).1 := by
  have hp := inv_parse hE h k
  unfold getItem
  dsimp only
  split
  · exact hp
  · rename_i hn
    refine ⟨hp.elems, ?_, ?_, ?_, ?_, hp.sub⟩
    · intro q
      rw [at'_blank hn]
      exact hp.nodup q
    · intro q a ha
      rw [at'_blank hn] at ha
      exact hp.sound q a ha
    · intro a ha
      rw [at'_blank hn]
      exact hp.self a ha
    · intro a ha hu q hq
      rw [at'_blank hn]
      exact hp.mapped a ha hu q hq

theorem inv_contains {E : Env A N I} (hE : EnvOK E) {vks : List A} {s : KeySet A N} (h : Inv E vks s) (k : MapKey A N) : Inv E vks (contains E s k).1 :=
  inv_parse hE h k

theorem inv_subsParse {E : Env A N I} (hE : EnvOK E) {vks : List A} {s : KeySet A N} (h : Inv E vks s) (n : N) : Inv E vks (subsParse E s n).1 := by
  unfold subsParse
  dsimp only
  split
  · show Inv E vks (contains E s (.str n)).1
    exact inv_contains hE h _
  · exact inv_getItem hE (inv_contains hE h _) _

theorem inv_use {E : Env A N I} (hE : EnvOK E) {vks : List A} {s : KeySet A N} (h : Inv E vks s) (u : Use A N) : Inv E vks (use E s u) := by
  cases u with
  | get k => exact inv_getItem hE h k
  | has k => exact inv_contains hE h k
  | subs n => exact inv_subsParse hE h n
  | solve => exact inv_update hE h

theorem inv_uses {E : Env A N I} (hE : EnvOK E) {vks : List A} (us : List (Use A N)) {s : KeySet A N} (h : Inv E vks s) : Inv E vks (us.foldl (use E) s) := by
  induction us generalizing s with
  | nil => exact h
  | cons u us ih => exact ih (inv_use hE h u)

theorem getItem_snd (E : Env A N I) (s : KeySet A N) (k : MapKey A N) : (getItem E s k).2 = at' (parse E s k).keymap k := by
  unfold getItem at'
  dsimp only
  split <;> rename_i h <;> simp [h]

theorem update_unmapped (E : Env A N I) (s : KeySet A N) : (updateKeymap E s).unmapped = [] := rfl

/-- A name finds exactly the variables that have it. -/
theorem getItem_str {E : Env A N I} (hE : EnvOK E) {vks : List A} {s : KeySet A N} (h : Inv E vks s) (n : N) (a : A) :
    a ∈ (getItem E s (.str n)).2 ↔ a ∈ vks ∧ MapKey.str n ∈ E.keys a := by
  rw [getItem_snd]
  have hp := inv_update hE h
  constructor
  · intro ha
    obtain ⟨h1, h2 | h2⟩ := hp.sound _ a ha
    · cases h2
    · exact ⟨h1, h2⟩
  · rintro ⟨h1, h2⟩
    exact hp.mapped a h1 (by simp [update_unmapped]) _ h2

theorem getItem_nodup {E : Env A N I} (hE : EnvOK E) {vks : List A} {s : KeySet A N} (h : Inv E vks s) (k : MapKey A N) : (getItem E s k).2.Nodup := by
  rw [getItem_snd]
  exact (inv_parse hE h k).nodup k

/-! ### Names nobody has -/

theorem get?_note {km : PyDict (MapKey A N) (List A)} {a : A} {k q : MapKey A N} (h : km.get? q = none) (hk : k ≠ q) : (note a km k).get? q = none := by
  unfold note
  rw [get?_set]
  simp [hk, h]

theorem get?_notes {a : A} {q : MapKey A N} : ∀ (ks : List (MapKey A N)) {km : PyDict (MapKey A N) (List A)}, km.get? q = none → q ∉ ks →
    (ks.foldl (note a) km).get? q = none
  | [], _, h, _ => h
  | k :: ks, _, h, hk => get?_notes ks (get?_note h (fun e => hk (by simp [e]))) (fun hm => hk (by simp [hm]))

theorem get?_all {E : A → List (MapKey A N)} {q : MapKey A N} : ∀ (l : List A) {km : PyDict (MapKey A N) (List A)}, km.get? q = none →
    (∀ a ∈ l, q ∉ E a) → (l.foldl (fun km a => (E a).foldl (note a) km) km).get? q = none
  | [], _, h, _ => h
  | a :: l, _, h, hk => get?_all l (get?_notes (E a) h (hk a (by simp))) (fun b hb => hk b (by simp [hb]))

/-- No entry for a name. -/
def Absent (s : KeySet A N) (n : N) : Prop := s.keymap.get? (.str n) = none

theorem absent_update {E : Env A N I} (hE : EnvOK E) {vks : List A} {s : KeySet A N} (h : Inv E vks s) {n : N}
    (hn : ∀ a ∈ vks, MapKey.str n ∉ E.keys a) (ha : Absent s n) : Absent (updateKeymap E s) n :=
  get?_all _ ha (fun a hm => hn a (h.sub a ((hE.ord _).mem_iff.1 hm)))

theorem absent_parse {E : Env A N I} (hE : EnvOK E) {vks : List A} {s : KeySet A N} (h : Inv E vks s) {n : N}
    (hn : ∀ a ∈ vks, MapKey.str n ∉ E.keys a) (ha : Absent s n) (k : MapKey A N) : Absent (parse E s k) n := by
  cases k with
  | key a => exact ha
  | str m => exact absent_update hE h hn ha

theorem absent_getItem {E : Env A N I} (hE : EnvOK E) {vks : List A} {s : KeySet A N} (h : Inv E vks s) {n : N}
    (hn : ∀ a ∈ vks, MapKey.str n ∉ E.keys a) (ha : Absent s n) {k : MapKey A N} (hk : k ≠ .str n) : Absent (getItem E s k).1 n := by
  have hp := absent_parse hE h hn ha k
  unfold getItem
  dsimp only
  split
  · exact hp
  · unfold Absent
    dsimp only
    rw [get?_set]
    simpa [hk, Absent] using hp

theorem contains_absent {E : Env A N I} (hE : EnvOK E) {vks : List A} {s : KeySet A N} (h : Inv E vks s) {n : N}
    (hn : ∀ a ∈ vks, MapKey.str n ∉ E.keys a) (ha : Absent s n) : (contains E s (.str n)).2 = false := by
  have := absent_update hE h hn ha
  unfold contains
  simpa [contains_eq_false, parse, Absent] using this

theorem absent_use {E : Env A N I} (hE : EnvOK E) {vks : List A} {s : KeySet A N} (h : Inv E vks s) {n : N}
    (hn : ∀ a ∈ vks, MapKey.str n ∉ E.keys a) (ha : Absent s n) (u : Use A N) (hu : u ≠ .get (.str n)) : Absent (use E s u) n := by
  cases u with
  | get k => exact absent_getItem hE h hn ha (fun e => hu (by rw [e]))
  | has k => exact absent_parse hE h hn ha k
  | solve => exact absent_update hE h hn ha
  | subs m =>
    show Absent (subsParse E s m).1 n
    unfold subsParse
    dsimp only
    split
    · show Absent (contains E s (.str m)).1 n
      exact absent_parse hE h hn ha _
    · rename_i hc
      refine absent_getItem hE (inv_contains hE h _) hn (absent_parse hE h hn ha (.str m)) ?_
      intro e
      cases e
      exact hc (contains_absent hE h hn ha)

theorem absent_uses {E : Env A N I} (hE : EnvOK E) {vks : List A} {n : N} (hn : ∀ a ∈ vks, MapKey.str n ∉ E.keys a) :
    ∀ (us : List (Use A N)) {s : KeySet A N}, Inv E vks s → Absent s n → Use.get (.str n) ∉ us → Absent (us.foldl (use E) s) n
  | [], _, _, ha, _ => ha
  | u :: us, _, h, ha, hu => absent_uses hE hn us (inv_use hE h u) (absent_use hE h hn ha u (fun e => hu (by simp [e]))) (fun hm => hu (by simp [hm]))

theorem absent_fresh (vks : List A) (n : N) : Absent (fresh vks : KeySet A N) n :=
  get?_all (E := fun a => [MapKey.key a]) vks rfl (fun a _ => by simp)

/-- A name that somebody has is contained. -/
theorem contains_str {E : Env A N I} (hE : EnvOK E) {vks : List A} {s : KeySet A N} (h : Inv E vks s) {n : N} {a : A} (ha : a ∈ vks)
    (hn : MapKey.str n ∈ E.keys a) : (contains E s (.str n)).2 = true := by
  have hm := (inv_update hE h).mapped a ha (by simp [update_unmapped]) _ hn
  unfold contains
  dsimp only [parse]
  rw [Bool.false_or, contains_iff]
  cases hg : (updateKeymap E s).keymap.get? (.str n) with
  | some l => exact ⟨l, rfl⟩
  | none => rw [at', hg] at hm; cases hm

theorem perm_single {l : List A} {a : A} (hn : l.Nodup) (h : ∀ b, b ∈ l ↔ b = a) : l = [a] := by
  cases l with
  | nil => exact absurd ((h a).2 rfl) (by simp)
  | cons b l =>
    have hb : b = a := (h b).1 (by simp)
    subst hb
    cases l with
    | nil => rfl
    | cons c l =>
      have hc : c = b := (h c).1 (by simp)
      subst hc
      simp at hn

theorem subsParse_eq {E : Env A N I} {s : KeySet A N} {n : N} (h : (contains E s (.str n)).2 = true) :
    (subsParse E s n).2 = subsChoose E (E.ord (getItem E (contains E s (.str n)).1 (.str n)).2) := by
  unfold subsParse
  dsimp only
  rw [if_neg (by rw [h]; simp)]

theorem subsParse_absent {E : Env A N I} (hE : EnvOK E) {vks : List A} {s : KeySet A N} (h : Inv E vks s) {n : N}
    (hn : ∀ a ∈ vks, MapKey.str n ∉ E.keys a) (ha : Absent s n) : subsParse E s n = ((contains E s (.str n)).1, .error .keyError) := by
  unfold subsParse
  dsimp only
  rw [if_pos (contains_absent hE h hn ha)]

theorem subsParse_some {E : Env A N I} (hE : EnvOK E) {vks : List A} {s : KeySet A N} (h : Inv E vks s) {n : N} {a : A} (ha : a ∈ vks)
    (hn : MapKey.str n ∈ E.keys a) :
    ∃ l, ((∀ b, b ∈ l ↔ b ∈ vks ∧ MapKey.str n ∈ E.keys b) ∧ l.Nodup) ∧ (subsParse E s n).2 = subsChoose E l := by
  have hc := inv_contains hE h (.str n)
  refine ⟨E.ord (getItem E (contains E s (.str n)).1 (.str n)).2, ⟨?_, ?_⟩, subsParse_eq (contains_str hE h ha hn)⟩
  · intro b
    rw [(hE.ord _).mem_iff, getItem_str hE hc]
  · rw [(hE.ord _).nodup_iff]
    exact getItem_nodup hE hc _

theorem subsChoose_same {E : Env A N I} {l : List A} {a b : A} (ha : a ∈ l) (hb : b ∈ l) (hne : a ≠ b) {v : Option A} (h : ∀ c ∈ l, E.veckey c = v) :
    subsChoose E l = .ok (v, none) := by
  cases l with
  | nil => cases ha
  | cons c l =>
    have hl : l ≠ [] := by
      rintro rfl
      rw [List.mem_singleton] at ha hb
      exact hne (ha.trans hb.symm)
    rw [subsChoose, if_pos hl, if_pos, h c (by simp)]
    rw [List.all_eq_true]
    intro d hd
    simp [h d (by simp [hd]), h c (by simp)]

theorem subsChoose_diff {E : Env A N I} {l : List A} {a b : A} (ha : a ∈ l) (hb : b ∈ l) (hne : E.veckey a ≠ E.veckey b) :
    subsChoose E l = .error .valueError := by
  cases l with
  | nil => cases ha
  | cons c l =>
    have hl : l ≠ [] := by
      rintro rfl
      rw [List.mem_singleton] at ha hb
      exact hne (by rw [ha, hb])
    rw [subsChoose, if_pos hl, if_neg]
    rw [List.all_eq_true]
    intro hall
    have : ∀ x ∈ c :: l, E.veckey x = E.veckey c := by
      intro x hx
      rcases List.mem_cons.1 hx with rfl | hx
      · rfl
      · simpa using hall x hx
    exact hne ((this a ha).trans (this b hb).symm)

theorem subsParse_blank {E : Env A N I} (hE : EnvOK E) {vks : List A} {s : KeySet A N} (h : Inv E vks s) {n : N}
    (hn : ∀ a ∈ vks, MapKey.str n ∉ E.keys a) : (subsParse E (getItem E s (.str n)).1 n).2 = .error .valueError := by
  have hg := inv_getItem hE h (.str n)
  have hu : (getItem E s (.str n)).1.unmapped = [] := by
    unfold getItem
    dsimp only
    split <;> rfl
  have hsome : ((getItem E s (.str n)).1.keymap.get? (.str n)).isSome := by
    unfold getItem
    dsimp only
    split
    · rename_i h
      simp [h]
    · simp [get?_set_self]
  have hid : updateKeymap E (getItem E s (.str n)).1 = (getItem E s (.str n)).1 := by
    unfold updateKeymap
    rw [hu, (hE.ord []).eq_nil, List.foldl_nil, ← hu]
  have hc : (contains E (getItem E s (.str n)).1 (.str n)).2 = true := by
    unfold contains
    dsimp only [parse]
    rw [hid, Bool.false_or]
    exact hsome
  rw [subsParse_eq hc]
  have : (getItem E (contains E (getItem E s (.str n)).1 (.str n)).1 (.str n)).2 = [] := by
    rw [List.eq_nil_iff_forall_not_mem]
    intro a ha
    obtain ⟨h1, h2⟩ := (getItem_str hE (inv_contains hE hg _) n a).1 ha
    exact hn a h1 h2
  rw [this, (hE.ord []).eq_nil]
  rfl

theorem fresh_key {vks : List A} {a b : A} (h : b ∈ at' (fresh vks : KeySet A N).keymap (.key a)) : a ∈ vks := by
  have := (at'_all (fun a => [MapKey.key a]) vks ([] : PyDict (MapKey A N) (List A)) b (.key a)).1 h
  simp only [List.mem_singleton] at this
  rcases this with h | ⟨h1, h2⟩
  · cases h
  · cases h2
    exact h1

theorem cellAt_iff [DecidableEq I] {E : Env A N I} (hE : EnvOK E) {L : List A} (hn : L.Nodup) {v : A} (hv : ∀ b ∈ L, E.veckey b = some v) (i : I) (b : A) :
    cellAt (L.map (fun b => (E.idx b, b))) i = some b ↔ b ∈ L ∧ E.idx b = some i := by
  unfold cellAt
  rw [List.filter_map, List.getLast?_map, Option.map_map]
  have hid : ((fun x : Option I × A => x.2) ∘ fun b => (E.idx b, b)) = id := rfl
  rw [hid, Option.map_id]
  simp only [Function.comp_def, id]
  constructor
  · intro h
    have := List.mem_of_getLast? h
    simpa using this
  · rintro ⟨h1, h2⟩
    have hm : b ∈ L.filter (fun x => decide (E.idx x = some i)) := by simpa using ⟨h1, h2⟩
    have : L.filter (fun x => decide (E.idx x = some i)) = [b] := perm_single (hn.filter _) (fun c => by
      constructor
      · intro hc
        rw [List.mem_filter] at hc
        have hc2 : E.idx c = some i := by simpa using hc.2
        exact hE.inj c b (by rw [hv c hc.1]; simp) ((hv c hc.1).trans (hv b h1).symm) (hc2.trans h2.symm)
      · rintro rfl
        exact hm)
    rw [this]
    rfl

end Lookup
end Verif
