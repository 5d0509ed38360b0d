import Verif.Lemmas.Lookup

/-! Properties of looking variables up by name: C58. -/

set_option linter.unusedSectionVars false

namespace Verif
open Lookup
variable {A N I : Type} [DecidableEq A] [DecidableEq N] [DecidableEq I]

/-- C58, names: whatever has been looked up before, a name finds exactly the variables that have it. -/
theorem C58_names (E : Env A N I) (hE : EnvOK E) (vks : List A) (us : List (Use A N)) (n : N) (a : A) :
    a ∈ (getItem E (us.foldl (use E) (fresh vks)) (.str n)).2 ↔ a ∈ vks ∧ MapKey.str n ∈ E.keys a :=
  getItem_str hE (inv_uses hE us (inv_fresh E vks)) n a

/-- C58, models: `m[name]` is the variable with that name if it is a scalar and the only one, the array of all elements present if they belong to
one vector, and an exception otherwise; whatever has been looked up before. -/
theorem C58_model (E : Env A N I) (hE : EnvOK E) (sort : List A → List A) (hsort : ∀ l, (sort l).Perm l) (vks : List A) (us : List (Use A N)) (n : N) :
    let r := (modelGet E sort (us.foldl (use E) (fresh vks)) (.str n)).2
    ((∀ a ∈ vks, MapKey.str n ∉ E.keys a) → r = .error .keyError) ∧
    (∀ a ∈ vks, MapKey.str n ∈ E.keys a → (∀ b ∈ vks, MapKey.str n ∈ E.keys b → b = a) → E.veckey a = none → r = .ok (.var a)) ∧
    (∀ a ∈ vks, ∀ v, MapKey.str n ∈ E.keys a → (∀ b ∈ vks, MapKey.str n ∈ E.keys b → E.veckey b = some v) →
      ∃ cells, r = .ok (.array v cells) ∧ ∀ i b, cellAt cells i = some b ↔ b ∈ vks ∧ MapKey.str n ∈ E.keys b ∧ E.idx b = some i) ∧
    (∀ a ∈ vks, ∀ b ∈ vks, MapKey.str n ∈ E.keys a → MapKey.str n ∈ E.keys b → a ≠ b → (E.veckey a = none ∨ E.veckey a ≠ E.veckey b) →
      r = .error .valueError) := by
  have hinv := inv_uses hE us (inv_fresh (N := N) E vks)
  set s := us.foldl (use E) (fresh vks) with hs
  have hperm : (sort (E.ord (getItem E s (.str n)).2)).Perm (getItem E s (.str n)).2 := (hsort _).trans (hE.ord _)
  have hmem : ∀ a, a ∈ sort (E.ord (getItem E s (.str n)).2) ↔ a ∈ vks ∧ MapKey.str n ∈ E.keys a := fun a =>
    hperm.mem_iff.trans (getItem_str hE hinv n a)
  have hnd : (sort (E.ord (getItem E s (.str n)).2)).Nodup := hperm.nodup_iff.2 (getItem_nodup hE hinv _)
  intro r
  have hr : r = chooseVar E (sort (E.ord (getItem E s (.str n)).2)) := rfl
  rw [hr]
  set L := sort (E.ord (getItem E s (.str n)).2) with hL
  clear_value L
  refine ⟨?_, ?_, ?_, ?_⟩
  · intro h
    cases L with
    | nil => rfl
    | cons a l =>
      obtain ⟨h1, h2⟩ := (hmem a).1 (by simp)
      exact absurd h2 (h a h1)
  · intro a ha hn hu hv
    have : L = [a] := perm_single hnd (fun b => by
      rw [hmem]
      exact ⟨fun h => hu b h.1 h.2, fun h => h ▸ ⟨ha, hn⟩⟩)
    rw [this]
    simp [chooseVar, hv]
  · intro a ha v hn hv
    have hvl : ∀ b ∈ L, E.veckey b = some v := fun b hb => hv b ((hmem b).1 hb).1 ((hmem b).1 hb).2
    refine ⟨L.map (fun b => (E.idx b, b)), ?_, ?_⟩
    · cases L with
      | nil => exact absurd ((hmem a).2 ⟨ha, hn⟩) (by simp)
      | cons b l =>
        simp only [chooseVar, hvl b (by simp)]
        rw [if_pos]
        rw [List.all_eq_true]
        intro c hc
        simpa using hvl c (by simp [hc])
    · intro i b
      rw [cellAt_iff hE hnd hvl, hmem]
      tauto
  · intro a ha b hb hna hnb hne hv
    have hma := (hmem a).2 ⟨ha, hna⟩
    have hmb := (hmem b).2 ⟨hb, hnb⟩
    cases L with
    | nil => cases hma
    | cons c l =>
      have hl : l ≠ [] := by
        rintro rfl
        rw [List.mem_singleton] at hma hmb
        exact hne (hma.trans hmb.symm)
      cases hc : E.veckey c with
      | none => simp only [chooseVar, hc, hl, if_false]
      | some v =>
        simp only [chooseVar, hc]
        rw [if_neg]
        rw [List.all_eq_true]
        intro hall
        have hall' : ∀ x ∈ c :: l, E.veckey x = some v := by
          intro x hx
          rcases List.mem_cons.1 hx with rfl | hx
          · exact hc
          · simpa using hall x hx
        rcases hv with hv | hv
        · rw [hall' a hma] at hv
          cases hv
        · exact hv ((hall' a hma).trans (hall' b hmb).symm)

/-- C58, substitutions, where they agree with the property: the key and index a name stands for, and exceptions for names nobody has and names of
variables that are not of one vector. Missing: several scalars with one name, and names that were looked up before. -/
theorem C58_subs_partial (E : Env A N I) (hE : EnvOK E) (vks : List A) (us : List (Use A N)) (n : N) :
    let r := (subsParse E (us.foldl (use E) (fresh vks)) n).2
    ((∀ a ∈ vks, MapKey.str n ∉ E.keys a) → Use.get (.str n) ∉ us → r = .error .keyError) ∧
    (∀ a ∈ vks, MapKey.str n ∈ E.keys a → (∀ b ∈ vks, MapKey.str n ∈ E.keys b → b = a) →
      r = .ok (if E.idx a = none then some a else E.veckey a, E.idx a)) ∧
    (∀ a ∈ vks, ∀ b ∈ vks, ∀ v, MapKey.str n ∈ E.keys a → MapKey.str n ∈ E.keys b → a ≠ b →
      (∀ c ∈ vks, MapKey.str n ∈ E.keys c → E.veckey c = some v) → r = .ok (some v, none)) ∧
    (∀ a ∈ vks, ∀ b ∈ vks, MapKey.str n ∈ E.keys a → MapKey.str n ∈ E.keys b → E.veckey a ≠ E.veckey b → r = .error .valueError) := by
  have hinv := inv_uses hE us (inv_fresh (N := N) E vks)
  intro r
  refine ⟨?_, ?_, ?_, ?_⟩
  · intro hn hu
    have ha := absent_uses hE hn us (inv_fresh E vks) (absent_fresh vks n) hu
    exact congrArg Prod.snd (subsParse_absent hE hinv hn ha)
  · intro a ha hn hu
    obtain ⟨l, hl, hr⟩ := subsParse_some hE hinv ha hn
    have : l = [a] := perm_single (hl.2) (fun b => by
      rw [hl.1]
      exact ⟨fun h => hu b h.1 h.2, fun h => h ▸ ⟨ha, hn⟩⟩)
    refine hr.trans ?_
    rw [this]
    cases hi : E.idx a <;> simp [subsChoose, hi]
  · intro a ha b hb v hna hnb hne hv
    obtain ⟨l, hl, hr⟩ := subsParse_some hE hinv ha hna
    refine hr.trans ?_
    have hma := (hl.1 a).2 ⟨ha, hna⟩
    have hmb := (hl.1 b).2 ⟨hb, hnb⟩
    have hvl : ∀ b ∈ l, E.veckey b = some v := fun b hb => hv b ((hl.1 b).1 hb).1 ((hl.1 b).1 hb).2
    exact subsChoose_same hma hmb hne hvl
  · intro a ha b hb hna hnb hne
    obtain ⟨l, hl, hr⟩ := subsParse_some hE hinv ha hna
    refine hr.trans ?_
    exact subsChoose_diff ((hl.1 a).2 ⟨ha, hna⟩) ((hl.1 b).2 ⟨hb, hnb⟩) hne

/-- C58 fails for substitutions of ambiguous names: if several scalars have the same name and nothing else has it, the name stands for the key `None`.
It is then reported as not substituted even if all of them have values, while `m[name]` raises ValueError. -/
theorem C58_ambiguous_fails (E : Env A N I) (hE : EnvOK E) (has : A → Option I → Bool) (sort : List A → List A) (hsort : ∀ l, (sort l).Perm l)
    (vks : List A) (us : List (Use A N)) (n : N) (a b : A) (ha : a ∈ vks) (hb : b ∈ vks) (hna : MapKey.str n ∈ E.keys a)
    (hnb : MapKey.str n ∈ E.keys b) (hne : a ≠ b) (hv : ∀ c ∈ vks, MapKey.str n ∈ E.keys c → E.veckey c = none) :
    (subsParse E (us.foldl (use E) (fresh vks)) n).2 = .ok (none, none) ∧
    (subsContains E has (us.foldl (use E) (fresh vks)) n).2 = false ∧
    (modelGet E sort (us.foldl (use E) (fresh vks)) (.str n)).2 = .error .valueError := by
  have hinv := inv_uses hE us (inv_fresh (N := N) E vks)
  obtain ⟨l, hl, hr⟩ := subsParse_some hE hinv ha hna
  have hvl : ∀ b ∈ l, E.veckey b = none := fun b hb => hv b ((hl.1 b).1 hb).1 ((hl.1 b).1 hb).2
  have h1 : (subsParse E (us.foldl (use E) (fresh vks)) n).2 = .ok (none, none) :=
    hr.trans (subsChoose_same ((hl.1 a).2 ⟨ha, hna⟩) ((hl.1 b).2 ⟨hb, hnb⟩) hne hvl)
  refine ⟨h1, ?_, (C58_model E hE sort hsort vks us n).2.2.2 a ha b hb hna hnb hne (.inl (hv a ha hna))⟩
  unfold subsContains
  simp only [h1]

/-- C58 fails after a failed lookup: once `m[name]` has raised KeyError for a name nobody has, `name in m.substitutions` is true, and assigning to it
raises ValueError instead of KeyError. Before, it was false. -/
theorem C58_phantom_fails (E : Env A N I) (hE : EnvOK E) (has : A → Option I → Bool) (sort : List A → List A) (hsort : ∀ l, (sort l).Perm l)
    (vks : List A) (us : List (Use A N)) (n : N) (hn : ∀ a ∈ vks, MapKey.str n ∉ E.keys a) (hu : Use.get (.str n) ∉ us) :
    let s := us.foldl (use E) (fresh vks)
    (subsContains E has s n).2 = false ∧
    (modelGet E sort s (.str n)).2 = .error .keyError ∧
    (subsParse E (modelGet E sort s (.str n)).1 n).2 = .error .valueError ∧
    (subsContains E has (modelGet E sort s (.str n)).1 n).2 = true := by
  intro s
  have hinv := inv_uses hE us (inv_fresh (N := N) E vks)
  have h1 := (C58_subs_partial E hE vks us n).1 hn hu
  have h3 : (subsParse E (modelGet E sort s (.str n)).1 n).2 = .error .valueError := subsParse_blank hE hinv hn
  refine ⟨?_, (C58_model E hE sort hsort vks us n).1 hn, h3, ?_⟩
  · unfold subsContains
    simp only [s, h1]
  · unfold subsContains
    simp only [h3]

/-- C58 fails for names of single elements: `m["x[0]"]` is not the element but an array of the whole shape in which all others are NaN. -/
theorem C58_element_fails (E : Env A N I) (hE : EnvOK E) (sort : List A → List A) (hsort : ∀ l, (sort l).Perm l) (vks : List A) (us : List (Use A N))
    (n : N) (a v : A) (i : I) (ha : a ∈ vks) (hna : MapKey.str n ∈ E.keys a) (hu : ∀ b ∈ vks, MapKey.str n ∈ E.keys b → b = a)
    (hv : E.veckey a = some v) (hi : E.idx a = some i) :
    ∃ cells, (modelGet E sort (us.foldl (use E) (fresh vks)) (.str n)).2 = .ok (.array v cells) ∧ cellAt cells i = some a ∧ ∀ j ≠ i, cellAt cells j = none := by
  obtain ⟨cells, hr, hc⟩ := (C58_model E hE sort hsort vks us n).2.2.1 a ha v hna (fun b hb hnb => by rw [hu b hb hnb, hv])
  refine ⟨cells, hr, (hc i a).2 ⟨ha, hna, hi⟩, ?_⟩
  intro j hj
  cases hcj : cellAt cells j with
  | none => rfl
  | some b =>
    obtain ⟨h1, h2, h3⟩ := (hc j b).1 hcj
    rw [hu b h1 h2, hi] at h3
    exact absurd (Option.some.inj h3).symm hj

/-- C58 fails for the keys of vectors: a vector that is not itself in the model is not found by its key until some name has been looked up or the
model has been solved; afterwards it is. -/
theorem C58_vector_fails (E : Env A N I) (hE : EnvOK E) (sort : List A → List A) (hsort : ∀ l, (sort l).Perm l) (vks : List A) (v a : A)
    (hv : v ∉ vks) (ha : a ∈ vks) (hav : MapKey.key v ∈ E.keys a) (hall : ∀ b ∈ vks, MapKey.key v ∈ E.keys b → E.veckey b = some v) :
    (modelGet E sort (fresh vks) (.key v)).2 = .error .keyError ∧
    ∃ cells, (modelGet E sort (use E (fresh vks) .solve) (.key v)).2 = .ok (.array v cells) := by
  constructor
  · have : (getItem E (fresh vks) (.key v)).2 = [] := by
      rw [getItem_snd, List.eq_nil_iff_forall_not_mem]
      intro b hb
      exact hv (fresh_key hb)
    unfold modelGet
    simp only [this]
    have : sort (E.ord []) = [] := ((hsort _).trans (hE.ord _)).eq_nil
    rw [this]
    rfl
  · have hinv := inv_update hE (inv_fresh (N := N) E vks)
    have hma : a ∈ (getItem E (use E (fresh vks) .solve) (.key v)).2 := by
      rw [getItem_snd]
      exact hinv.mapped a ha (by simp [update_unmapped]) _ hav
    have hmem : ∀ b ∈ (getItem E (use E (fresh vks) .solve) (.key v)).2, E.veckey b = some v := by
      intro b hb
      rw [getItem_snd] at hb
      obtain ⟨h1, h2 | h2⟩ := hinv.sound _ b hb
      · cases h2
        exact absurd h1 hv
      · exact hall b h1 h2
    have hperm : (sort (E.ord (getItem E (use E (fresh vks) .solve) (.key v)).2)).Perm _ := (hsort _).trans (hE.ord _)
    unfold modelGet
    simp only
    cases hL : sort (E.ord (getItem E (use E (fresh vks) .solve) (.key v)).2) with
    | nil => rw [hL] at hperm; rw [← hperm.mem_iff] at hma; cases hma
    | cons b l =>
      rw [hL] at hperm
      refine ⟨(b :: l).map (fun b => (E.idx b, b)), ?_⟩
      · simp only [chooseVar, hmem b (hperm.mem_iff.1 (by simp))]
        rw [if_pos]
        rw [List.all_eq_true]
        intro c hc
        simpa using hmem c (hperm.mem_iff.1 (by simp [hc]))

/-- Variables for the examples: 0 and 1 are scalars called 0, 3 and 4 are elements of the vector 5 called 2, 3 alone is also called 3. -/
def exEnv : Env ℕ ℕ ℕ where
  keys a := if a = 0 ∨ a = 1 then [.str 0] else if a = 3 then [.str 2, .str 3, .key 5] else if a = 4 then [.str 2, .key 5] else []
  veckey a := if a = 3 ∨ a = 4 then some 5 else none
  idx a := if a = 3 then some 0 else if a = 4 then some 1 else none
  ord l := l.reverse

/-- The conditions of C58 are met. -/
example : EnvOK exEnv where
  ord l := l.reverse_perm
  inj a b h1 h2 h3 := by
    simp only [exEnv] at h1 h2 h3
    split_ifs at h1 h2 h3 <;> first | omega | (exact absurd rfl h1) | (cases h3)

/-- Name 2 is that of a vector, 3 of an element, 0 is ambiguous, and nobody is called 7. -/
example : (modelGet exEnv id (fresh [0, 1, 3, 4]) (.str 2)).2 = .ok (.array 5 [(some 0, 3), (some 1, 4)]) ∧
    (modelGet exEnv id (fresh [0, 1, 3, 4]) (.str 3)).2 = .ok (.array 5 [(some 0, 3)]) ∧
    (subsParse exEnv (fresh [0, 1, 3, 4]) 3).2 = .ok (some 5, some 0) ∧
    (subsParse exEnv (fresh [0, 1, 3, 4]) 0).2 = .ok (none, none) ∧
    (subsParse exEnv (fresh [0, 1, 3, 4]) 7).2 = .error .keyError ∧
    (modelGet exEnv id (fresh [0, 1, 3, 4]) (.str 7)).2 = .error .keyError := by
  refine ⟨?_, ?_, ?_, ?_, ?_, ?_⟩ <;> decide +kernel

end Verif
