import Verif.Lemmas.Bounds
import Verif.Spec.CSet

/-! # Lemmas about sets of constraints -/

set_option linter.unusedSectionVars false

namespace Verif
namespace CSet
open GP PyDict
variable {V K : Type} [DecidableEq V] [Field K] [LinearOrder K] [IsStrictOrderedRing K]

theorem mem_setUnion {α : Type} [DecidableEq α] (s t : List α) (x : α) : x ∈ setUnion s t ↔ x ∈ s ∨ x ∈ t := by
  unfold setUnion
  induction t generalizing s with
  | nil => simp
  | cons y t ih =>
    rw [List.foldl_cons, ih]
    by_cases h : y ∈ s
    · rw [if_pos h]
      constructor
      · rintro (h' | h')
        · exact Or.inl h'
        · exact Or.inr (List.mem_cons_of_mem _ h')
      · rintro (h' | h')
        · exact Or.inl h'
        · rcases List.mem_cons.1 h' with rfl | h'
          · exact Or.inl h
          · exact Or.inr h'
    · rw [if_neg h, List.mem_append, List.mem_singleton, List.mem_cons, or_assoc]

theorem nodup_setUnion {α : Type} [DecidableEq α] (s t : List α) (h : s.Nodup) : (setUnion s t).Nodup := by
  unfold setUnion
  induction t generalizing s with
  | nil => exact h
  | cons y t ih =>
    rw [List.foldl_cons]
    apply ih
    by_cases hy : y ∈ s
    · rw [if_pos hy]; exact h
    · rw [if_neg hy, List.nodup_append]
      refine ⟨h, by simp, ?_⟩
      intro a ha b hb
      simp only [List.mem_singleton] at hb
      rintro rfl
      exact hy (hb ▸ ha)

/-! ## Invariants -/

/-- What is recorded is true of the bounds `P`. -/
structure Good (P : V → Side → Prop) (B : List (Bd V)) (q : Meq V) : Prop where
  sound : ∀ b ∈ B, P b.1 b.2
  cond : ∀ b cs c, q.get? b = some cs → c ∈ cs → (∀ b' ∈ c, P b'.1 b'.2) → P b.1 b.2

/-- The bound is there or some condition at least as weak as `c` is recorded. -/
def Rule (B : List (Bd V)) (q : Meq V) (b : Bd V) (c : List (Bd V)) : Prop :=
  b ∈ B ∨ ∃ cs, q.get? b = some cs ∧ ∃ c' ∈ cs, ∀ x ∈ c', x ∈ c

/-- One state follows another: nothing is lost. -/
structure Mono (B : List (Bd V)) (q : Meq V) (B' : List (Bd V)) (q' : Meq V) : Prop where
  has : ∀ b ∈ B, b ∈ B'
  rule : ∀ b c, Rule B q b c → Rule B' q' b c

theorem Mono.refl (B : List (Bd V)) (q : Meq V) : Mono B q B q := ⟨fun _ h => h, fun _ _ h => h⟩
theorem Mono.trans {B B' B'' : List (Bd V)} {q q' q'' : Meq V} (h : Mono B q B' q') (h' : Mono B' q' B'' q'') : Mono B q B'' q'' :=
  ⟨fun b hb => h'.has b (h.has b hb), fun b c hr => h'.rule b c (h.rule b c hr)⟩

theorem addCond_wf (q : Meq V) (hw : WF q) (b : Bd V) (c : List (Bd V)) : WF (addCond q b c) := wf_set hw _ _

theorem mem_of_isPerm {l m : List (Bd V)} (h : l.isPerm m = true) (x : Bd V) : x ∈ l ↔ x ∈ m :=
  (List.isPerm_iff.1 h).mem_iff

/-- Adding a condition. -/
theorem addCond_spec (P : V → Side → Prop) (B : List (Bd V)) (q : Meq V) (b : Bd V) (c : List (Bd V)) :
    (Good P B q → ((∀ b' ∈ c, P b'.1 b'.2) → P b.1 b.2) → Good P B (addCond q b c)) ∧ Mono B q B (addCond q b c) ∧
    Rule B (addCond q b c) b c := by
  have hget : ∀ b', (addCond q b c).get? b' = if b = b' then
      some (if ((q.get? b).getD []).any (fun c' => c'.isPerm c) then (q.get? b).getD [] else (q.get? b).getD [] ++ [c]) else q.get? b' := by
    intro b'
    unfold addCond
    rw [get?_set]
    by_cases h : b = b'
    · simp [h]
    · simp [h]
  refine ⟨?_, ⟨fun _ h => h, ?_⟩, ?_⟩
  · intro hg hc
    refine ⟨hg.sound, ?_⟩
    intro b' cs c' hcs hc' hP
    rw [hget] at hcs
    by_cases hb : b = b'
    · subst hb
      rw [if_pos rfl, Option.some.injEq] at hcs
      have hin : c' ∈ (q.get? b).getD [] ∨ c' = c := by
        rw [← hcs] at hc'
        split_ifs at hc'
        · exact Or.inl hc'
        · simpa using hc'
      rcases hin with hin | rfl
      · cases hq : q.get? b with
        | none => rw [hq] at hin; simp at hin
        | some cs0 =>
          rw [hq] at hin
          exact hg.cond b cs0 c' hq hin hP
      · exact hc hP
    · rw [if_neg hb] at hcs
      exact hg.cond b' cs c' hcs hc' hP
  · rintro b' c0 (h | ⟨cs, hcs, c', hc', hsub⟩)
    · exact Or.inl h
    · right
      rw [hget]
      by_cases hb : b = b'
      · subst hb
        rw [if_pos rfl, hcs]
        refine ⟨_, rfl, c', ?_, hsub⟩
        split_ifs
        · exact hc'
        · exact List.mem_append.2 (Or.inl hc')
      · rw [if_neg hb]
        exact ⟨cs, hcs, c', hc', hsub⟩
  · right
    rw [hget, if_pos rfl]
    refine ⟨_, rfl, ?_⟩
    split_ifs with h
    · obtain ⟨c', hc', hp⟩ := List.any_eq_true.1 h
      exact ⟨c', hc', fun x hx => (mem_of_isPerm hp x).1 hx⟩
    · exact ⟨c, by simp, fun x hx => hx⟩

/-- An entry with no conditions changes nothing. -/
theorem touch_spec (P : V → Side → Prop) (B : List (Bd V)) (q : Meq V) (b : Bd V) :
    (Good P B q → Good P B (if q.contains b then q else q.set b [])) ∧ Mono B q B (if q.contains b then q else q.set b []) := by
  by_cases h : q.contains b = true
  · rw [if_pos h]; exact ⟨id, Mono.refl _ _⟩
  · rw [if_neg h]
    have hn : q.get? b = none := contains_eq_false.1 (by simpa using h)
    constructor
    · intro hg
      refine ⟨hg.sound, ?_⟩
      intro b' cs c' hcs hc' hP
      rw [get?_set] at hcs
      by_cases hb : b = b'
      · subst hb
        simp only [beq_self_eq_true, if_true, Option.some.injEq] at hcs
        rw [← hcs] at hc'; simp at hc'
      · simp only [beq_eq_false_iff_ne.2 hb, Bool.false_eq_true, if_false] at hcs
        exact hg.cond b' cs c' hcs hc' hP
    · refine ⟨fun _ h => h, ?_⟩
      rintro b' c0 (h | ⟨cs, hcs, c', hc', hsub⟩)
      · exact Or.inl h
      · right
        refine ⟨cs, ?_, c', hc', hsub⟩
        rw [get?_set]
        by_cases hb : b = b'
        · subst hb; rw [hn] at hcs; cases hcs
        · simp only [beq_eq_false_iff_ne.2 hb, Bool.false_eq_true, if_false]
          exact hcs

theorem addConds_spec (P : V → Side → Prop) (B : List (Bd V)) (b : Bd V) (cs : List (List (Bd V))) (q : Meq V) :
    (Good P B q → (∀ c ∈ cs, (∀ b' ∈ c, P b'.1 b'.2) → P b.1 b.2) → Good P B (cs.foldl (fun q c => addCond q b c) q)) ∧
    Mono B q B (cs.foldl (fun q c => addCond q b c) q) ∧ (∀ c ∈ cs, Rule B (cs.foldl (fun q c => addCond q b c) q) b c) ∧
    (WF q → WF (cs.foldl (fun q c => addCond q b c) q)) := by
  induction cs generalizing q with
  | nil => exact ⟨fun h _ => h, Mono.refl _ _, by simp, id⟩
  | cons c cs ih =>
    rw [List.foldl_cons]
    obtain ⟨a1, a2, a3⟩ := addCond_spec P B q b c
    obtain ⟨i1, i2, i3, i4⟩ := ih (addCond q b c)
    refine ⟨fun hg hc => i1 (a1 hg (hc c (by simp))) (fun c' hc' => hc c' (by simp [hc'])), a2.trans i2, ?_, fun hw => i4 (addCond_wf q hw b c)⟩
    intro c' hc'
    rcases List.mem_cons.1 hc' with rfl | hc'
    · exact i2.rule _ _ a3
    · exact i3 c' hc'

theorem addSolutions_spec (P : V → Side → Prop) (B : List (Bd V)) (q : Meq V) (bc : Bd V × List (List (Bd V))) :
    (Good P B q → (∀ c ∈ bc.2, (∀ b' ∈ c, P b'.1 b'.2) → P bc.1.1 bc.1.2) → Good P B (addSolutions q bc)) ∧
    Mono B q B (addSolutions q bc) ∧ (∀ c ∈ bc.2, Rule B (addSolutions q bc) bc.1 c) ∧ (WF q → WF (addSolutions q bc)) := by
  obtain ⟨t1, t2⟩ := touch_spec P B q bc.1
  obtain ⟨a1, a2, a3, a4⟩ := addConds_spec P B bc.1 bc.2 (if q.contains bc.1 then q else q.set bc.1 [])
  refine ⟨fun hg hc => a1 (t1 hg) hc, t2.trans a2, a3, ?_⟩
  intro hw
  apply a4
  by_cases h : q.contains bc.1 = true
  · rw [if_pos h]; exact hw
  · rw [if_neg h]; exact wf_set hw _ _

theorem addAll_spec (P : V → Side → Prop) (B : List (Bd V)) (l : Meq V) (q : Meq V) :
    (Good P B q → (∀ bc ∈ l, ∀ c ∈ bc.2, (∀ b' ∈ c, P b'.1 b'.2) → P bc.1.1 bc.1.2) → Good P B (l.foldl addSolutions q)) ∧
    Mono B q B (l.foldl addSolutions q) ∧ (∀ bc ∈ l, ∀ c ∈ bc.2, Rule B (l.foldl addSolutions q) bc.1 c) ∧
    (WF q → WF (l.foldl addSolutions q)) := by
  induction l generalizing q with
  | nil => exact ⟨fun h _ => h, Mono.refl _ _, by simp, id⟩
  | cons bc l ih =>
    rw [List.foldl_cons]
    obtain ⟨a1, a2, a3, a4⟩ := addSolutions_spec P B q bc
    obtain ⟨i1, i2, i3, i4⟩ := ih (addSolutions q bc)
    refine ⟨fun hg hc => i1 (a1 hg (hc bc (by simp))) (fun bc' h' => hc bc' (by simp [h'])), a2.trans i2, ?_, fun hw => i4 (a4 hw)⟩
    intro bc' h' c hc
    rcases List.mem_cons.1 h' with rfl | h'
    · exact i2.rule _ _ (a3 c hc)
    · exact i3 bc' h' c hc

/-- `_update`. -/
theorem update_spec (P : V → Side → Prop) (s t : St V) (hwt : WF t.meq) :
    (Good P s.bounded s.meq → Good P t.bounded t.meq → Good P (update s t).bounded (update s t).meq) ∧
    Mono s.bounded s.meq (update s t).bounded (update s t).meq ∧
    Mono t.bounded t.meq (update s t).bounded (update s t).meq ∧
    (WF s.meq → WF (update s t).meq) ∧ (∀ v, v ∈ (update s t).vks ↔ v ∈ s.vks ∨ v ∈ t.vks) := by
  have hB : ∀ b, b ∈ (update s t).bounded ↔ b ∈ s.bounded ∨ b ∈ t.bounded := fun b => mem_setUnion _ _ b
  obtain ⟨a1, a2, a3, a4⟩ := addAll_spec P (update s t).bounded t.meq s.meq
  refine ⟨?_, ?_, ?_, a4, fun v => mem_setUnion _ _ v⟩
  · intro hs ht
    refine a1 ⟨?_, hs.cond⟩ ?_
    · intro b hb
      rcases (hB b).1 hb with h | h
      · exact hs.sound b h
      · exact ht.sound b h
    · intro bc hbc c hc
      exact ht.cond bc.1 bc.2 c (get?_of_mem hwt hbc) hc
  · refine ⟨fun b hb => (hB b).2 (Or.inl hb), ?_⟩
    intro b c hr
    apply a2.rule b c
    rcases hr with h | h
    · exact Or.inl ((hB b).2 (Or.inl h))
    · exact Or.inr h
  · refine ⟨fun b hb => (hB b).2 (Or.inr hb), ?_⟩
    rintro b c (h | ⟨cs, hcs, c', hc', hsub⟩)
    · exact Or.inl ((hB b).2 (Or.inr h))
    · obtain ⟨k, hk, hkb⟩ := exists_mem_of_get? hcs
      have hkb : k = b := by simpa using hkb
      subst hkb
      rcases a3 (k, cs) hk c' hc' with h | ⟨cs', hcs', c'', hc'', hsub'⟩
      · exact Or.inl h
      · exact Or.inr ⟨cs', hcs', c'', hc'', fun x hx => hsub x (hsub' x hx)⟩

/-- The keys of the recorded conditions after `_update`. -/
theorem addCond_key {q : Meq V} {b : Bd V} {c : List (Bd V)} {b' : Bd V} {cs : List (List (Bd V))}
    (h : (addCond q b c).get? b' = some cs) : b = b' ∨ ∃ cs', q.get? b' = some cs' := by
  rw [addCond_get] at h
  by_cases hb : b = b'
  · exact Or.inl hb
  · rw [if_neg hb] at h; exact Or.inr ⟨cs, h⟩

theorem addConds_key {b : Bd V} (l : List (List (Bd V))) {q : Meq V} {b' : Bd V} {cs : List (List (Bd V))}
    (h : (l.foldl (fun q c => addCond q b c) q).get? b' = some cs) : b = b' ∨ ∃ cs', q.get? b' = some cs' := by
  induction l generalizing q cs with
  | nil => exact Or.inr ⟨cs, h⟩
  | cons c l ih =>
    rcases ih h with h | ⟨cs', h⟩
    · exact Or.inl h
    · exact addCond_key h

theorem addSolutions_key {q : Meq V} {bc : Bd V × List (List (Bd V))} {b' : Bd V} {cs : List (List (Bd V))}
    (h : (addSolutions q bc).get? b' = some cs) : bc.1 = b' ∨ ∃ cs', q.get? b' = some cs' := by
  rcases addConds_key bc.2 h with h | ⟨cs', h⟩
  · exact Or.inl h
  · by_cases hc : q.contains bc.1 = true
    · rw [if_pos hc] at h; exact Or.inr ⟨cs', h⟩
    · rw [if_neg hc, get?_set] at h
      by_cases hb : bc.1 = b'
      · exact Or.inl hb
      · simp only [beq_eq_false_iff_ne.2 hb, Bool.false_eq_true, if_false] at h
        exact Or.inr ⟨cs', h⟩

theorem addAll_key (l : Meq V) {q : Meq V} {b' : Bd V} {cs : List (List (Bd V))} (h : (l.foldl addSolutions q).get? b' = some cs) :
    (∃ bc ∈ l, bc.1 = b') ∨ ∃ cs', q.get? b' = some cs' := by
  induction l generalizing q cs with
  | nil => exact Or.inr ⟨cs, h⟩
  | cons bc l ih =>
    rcases ih h with ⟨bc', hm, h⟩ | ⟨cs', h⟩
    · exact Or.inl ⟨bc', by simp [hm], h⟩
    · rcases addSolutions_key h with h | h
      · exact Or.inl ⟨bc, by simp, h⟩
      · exact Or.inr h

/-! ## add_meq_bounds -/

theorem addStep_spec (P : V → Side → Prop) (s : Add V) (b : Bd V) (hw : WF s.meq) :
    (Good P s.bounded s.meq → Good P (addStep s b).bounded (addStep s b).meq) ∧
    Mono s.bounded s.meq (addStep s b).bounded (addStep s b).meq ∧ WF (addStep s b).meq := by
  by_cases h1 : b ∈ s.bounded
  · have : addStep s b = { s with meq := PyDict.del s.meq b } := by unfold addStep; rw [if_pos h1]
    rw [this]
    refine ⟨?_, ⟨fun _ h => h, ?_⟩, wf_del hw b⟩
    · intro hg
      refine ⟨hg.sound, ?_⟩
      intro b' cs c hcs hc hP
      dsimp only at hcs
      rw [get?_del hw] at hcs
      split_ifs at hcs
      exact hg.cond b' cs c hcs hc hP
    · rintro b' c (h | ⟨cs, hcs, hc⟩)
      · exact Or.inl h
      · by_cases hb : b = b'
        · subst hb; exact Or.inl h1
        · right
          refine ⟨cs, ?_, hc⟩
          dsimp only
          rw [get?_del hw]
          simp only [beq_eq_false_iff_ne.2 hb, Bool.false_eq_true, if_false]
          exact hcs
  · by_cases h2 : ((s.meq.get? b).getD []).any (fun c => c.all (fun b' => decide (b' ∈ s.bounded))) = true
    · have : addStep s b = ⟨true, s.bounded ++ [b], PyDict.del s.meq b⟩ := by unfold addStep; rw [if_neg h1, if_pos h2]
      rw [this]
      refine ⟨?_, ⟨fun x h => List.mem_append.2 (Or.inl h), ?_⟩, wf_del hw b⟩
      · intro hg
        refine ⟨?_, ?_⟩
        · intro x hx
          rcases List.mem_append.1 hx with h | h
          · exact hg.sound x h
          · simp only [List.mem_singleton] at h
            subst h
            obtain ⟨c, hc, hall⟩ := List.any_eq_true.1 h2
            cases hq : s.meq.get? x with
            | none => rw [hq] at hc; simp at hc
            | some cs =>
              rw [hq] at hc
              refine hg.cond x cs c hq hc ?_
              intro b' hb'
              have := List.all_eq_true.1 hall b' hb'
              exact hg.sound b' (by simpa using this)
        · intro b' cs c hcs hc hP
          dsimp only at hcs
          rw [get?_del hw] at hcs
          split_ifs at hcs
          exact hg.cond b' cs c hcs hc hP
      · rintro b' c (h | ⟨cs, hcs, hc⟩)
        · exact Or.inl (List.mem_append.2 (Or.inl h))
        · by_cases hb : b = b'
          · subst hb; exact Or.inl (by simp)
          · right
            refine ⟨cs, ?_, hc⟩
            dsimp only
            rw [get?_del hw]
            simp only [beq_eq_false_iff_ne.2 hb, Bool.false_eq_true, if_false]
            exact hcs
    · have : addStep s b = s := by unfold addStep; rw [if_neg h1, if_neg h2]
      rw [this]
      exact ⟨id, Mono.refl _ _, hw⟩

theorem addFold_spec (P : V → Side → Prop) (l : List (Bd V)) (s : Add V) (hw : WF s.meq) :
    (Good P s.bounded s.meq → Good P (l.foldl addStep s).bounded (l.foldl addStep s).meq) ∧
    Mono s.bounded s.meq (l.foldl addStep s).bounded (l.foldl addStep s).meq ∧ WF (l.foldl addStep s).meq := by
  induction l generalizing s with
  | nil => exact ⟨id, Mono.refl _ _, hw⟩
  | cons b l ih =>
    rw [List.foldl_cons]
    obtain ⟨a1, a2, a3⟩ := addStep_spec P s b hw
    obtain ⟨i1, i2, i3⟩ := ih (addStep s b) a3
    exact ⟨fun h => i1 (a1 h), a2.trans i2, i3⟩

theorem del_length_le (q : Meq V) (b : Bd V) : (PyDict.del q b).length ≤ q.length := (del_sublist q b).length_le

theorem del_length_lt (q : Meq V) (b : Bd V) (cs : List (List (Bd V))) (h : q.get? b = some cs) : (PyDict.del q b).length < q.length := by
  induction q with
  | nil => simp [PyDict.get?] at h
  | cons p q ih =>
    obtain ⟨k, v⟩ := p
    rw [del_cons]
    rw [get?_cons] at h
    split_ifs at h ⊢
    · simp
    · simp only [List.length_cons]
      have := ih h
      omega

theorem addFold_alive (l : List (Bd V)) (s : Add V) (n : Nat) (h : s.meq.length ≤ n) (ha : s.alive = true → s.meq.length < n) :
    (l.foldl addStep s).meq.length ≤ n ∧ ((l.foldl addStep s).alive = true → (l.foldl addStep s).meq.length < n) := by
  induction l generalizing s with
  | nil => exact ⟨h, ha⟩
  | cons b l ih =>
    rw [List.foldl_cons]
    apply ih
    · unfold addStep
      have := del_length_le s.meq b
      split_ifs <;> simp <;> omega
    · intro halive
      unfold addStep at halive ⊢
      by_cases h1 : b ∈ s.bounded
      · rw [if_pos h1] at halive ⊢
        have := del_length_le s.meq b
        have := ha halive
        simp only; omega
      · by_cases h2 : ((s.meq.get? b).getD []).any (fun c => c.all (fun b' => decide (b' ∈ s.bounded))) = true
        · rw [if_neg h1, if_pos h2]
          obtain ⟨c, hc, _⟩ := List.any_eq_true.1 h2
          cases hq : s.meq.get? b with
          | none => rw [hq] at hc; simp at hc
          | some cs =>
            have := del_length_lt s.meq b cs hq
            simp only; omega
        · rw [if_neg h1, if_neg h2] at halive ⊢
          exact ha halive

/-- Once a round changes nothing. -/
theorem addFold_dead (l : List (Bd V)) (s : Add V) (hw : WF s.meq) (hd : (l.foldl addStep s).alive = false) :
    (l.foldl addStep s).bounded = s.bounded ∧ s.alive = false ∧
    (∀ b cs, (l.foldl addStep s).meq.get? b = some cs → s.meq.get? b = some cs) ∧
    (∀ b ∈ l, ∀ cs, (l.foldl addStep s).meq.get? b = some cs → b ∉ s.bounded ∧ ∀ c ∈ cs, ∃ b' ∈ c, b' ∉ s.bounded) := by
  induction l generalizing s with
  | nil => exact ⟨rfl, hd, fun _ _ h => h, by simp⟩
  | cons b l ih =>
    rw [List.foldl_cons] at hd ⊢
    have hw' := (addStep_spec (fun _ _ => True) s b hw).2.2
    obtain ⟨i1, i2, i3, i4⟩ := ih (addStep s b) hw' hd
    by_cases h1 : b ∈ s.bounded
    · have he : addStep s b = { s with meq := PyDict.del s.meq b } := by unfold addStep; rw [if_pos h1]
      rw [he] at i1 i2 i3 i4 ⊢
      refine ⟨i1, i2, ?_, ?_⟩
      · intro b' cs h
        have := i3 b' cs h
        dsimp only at this
        rw [get?_del hw] at this
        split_ifs at this
        exact this
      · intro b' hb' cs h
        rcases List.mem_cons.1 hb' with rfl | hb'
        · exfalso
          have := i3 b' cs h
          dsimp only at this
          rw [get?_del hw] at this
          simp at this
        · exact i4 b' hb' cs h
    · by_cases h2 : ((s.meq.get? b).getD []).any (fun c => c.all (fun b' => decide (b' ∈ s.bounded))) = true
      · have he : addStep s b = ⟨true, s.bounded ++ [b], PyDict.del s.meq b⟩ := by unfold addStep; rw [if_neg h1, if_pos h2]
        rw [he] at i2
        cases i2
      · have he : addStep s b = s := by unfold addStep; rw [if_neg h1, if_neg h2]
        rw [he] at i1 i2 i3 i4 ⊢
        refine ⟨i1, i2, i3, ?_⟩
        intro b' hb' cs h
        rcases List.mem_cons.1 hb' with rfl | hb'
        · have hq := i3 b' cs h
          rw [hq, Option.getD_some] at h2
          refine ⟨h1, ?_⟩
          intro c hc
          by_contra hno
          push Not at hno
          apply h2
          rw [List.any_eq_true]
          exact ⟨c, hc, List.all_eq_true.2 (fun x hx => by simpa using hno x hx)⟩
        · exact i4 b' hb' cs h

/-- At the end of `add_meq_bounds`: no recorded condition is met and no recorded bound is there already. -/
def Done (B : List (Bd V)) (q : Meq V) : Prop :=
  ∀ b cs, q.get? b = some cs → b ∉ B ∧ ∀ c ∈ cs, ∃ b' ∈ c, b' ∉ B

theorem addLoop_spec (P : V → Side → Prop) (n : Nat) (B : List (Bd V)) (q : Meq V) (hw : WF q) (hn : q.length < n) :
    (Good P B q → Good P (addLoop n B q).1 (addLoop n B q).2) ∧ Mono B q (addLoop n B q).1 (addLoop n B q).2 ∧
    WF (addLoop n B q).2 ∧ Done (addLoop n B q).1 (addLoop n B q).2 := by
  induction n generalizing B q with
  | zero => omega
  | succ n ih =>
    unfold addLoop
    obtain ⟨a1, a2, a3⟩ := addFold_spec P (q.map (·.1)) ⟨false, B, q⟩ hw
    by_cases ha : (addRound B q).alive = true
    · rw [if_pos ha]
      have hlt : (addRound B q).meq.length < q.length :=
        (addFold_alive _ ⟨false, B, q⟩ q.length (le_refl _) (by simp)).2 ha
      obtain ⟨i1, i2, i3, i4⟩ := ih (addRound B q).bounded (addRound B q).meq a3 (by omega)
      exact ⟨fun h => i1 (a1 h), a2.trans i2, i3, i4⟩
    · rw [if_neg ha]
      refine ⟨a1, a2, a3, ?_⟩
      have hd : ((q.map (·.1)).foldl addStep ⟨false, B, q⟩).alive = false := by
        have : (addRound B q).alive = false := by simpa using ha
        exact this
      obtain ⟨d1, _, d3, d4⟩ := addFold_dead (q.map (·.1)) ⟨false, B, q⟩ hw hd
      intro b cs h
      have hq := d3 b cs h
      obtain ⟨k, hk, hkb⟩ := exists_mem_of_get? hq
      have hkb : k = b := by simpa using hkb
      subst hkb
      have := d4 k (List.mem_map.2 ⟨_, hk, rfl⟩) cs h
      show k ∉ ((q.map (·.1)).foldl addStep ⟨false, B, q⟩).bounded ∧ _
      rw [show (addRound B q).bounded = B from d1]
      exact ⟨by rw [d1]; exact this.1, this.2⟩

theorem addMeqBounds_spec (P : V → Side → Prop) (B : List (Bd V)) (q : Meq V) (hw : WF q) :
    (Good P B q → Good P (addMeqBounds B q).1 (addMeqBounds B q).2) ∧ Mono B q (addMeqBounds B q).1 (addMeqBounds B q).2 ∧
    WF (addMeqBounds B q).2 ∧ Done (addMeqBounds B q).1 (addMeqBounds B q).2 :=
  addLoop_spec P _ B q hw (by omega)

theorem addFold_tidy (S : Bd V → Prop) (l : List (Bd V)) (s : Add V) (hw : WF s.meq) (h1 : s.bounded.Nodup) (h2 : ∀ b ∈ s.bounded, S b)
    (h3 : ∀ b cs, s.meq.get? b = some cs → S b) :
    (l.foldl addStep s).bounded.Nodup ∧ (∀ b ∈ (l.foldl addStep s).bounded, S b) ∧
    (∀ b cs, (l.foldl addStep s).meq.get? b = some cs → S b) := by
  induction l generalizing s with
  | nil => exact ⟨h1, h2, h3⟩
  | cons b l ih =>
    rw [List.foldl_cons]
    have hw' := (addStep_spec (fun _ _ => True) s b hw).2.2
    have hdel : ∀ b' cs, (PyDict.del s.meq b).get? b' = some cs → S b' := by
      intro b' cs h
      rw [get?_del hw] at h
      split_ifs at h
      exact h3 b' cs h
    by_cases c1 : b ∈ s.bounded
    · have he : addStep s b = { s with meq := PyDict.del s.meq b } := by unfold addStep; rw [if_pos c1]
      rw [he] at hw' ⊢
      exact ih _ hw' h1 h2 hdel
    · by_cases c2 : ((s.meq.get? b).getD []).any (fun c => c.all (fun b' => decide (b' ∈ s.bounded))) = true
      · have he : addStep s b = ⟨true, s.bounded ++ [b], PyDict.del s.meq b⟩ := by unfold addStep; rw [if_neg c1, if_pos c2]
        rw [he] at hw' ⊢
        refine ih _ hw' ?_ ?_ hdel
        · rw [List.nodup_append]
          refine ⟨h1, by simp, ?_⟩
          intro a ha b' hb'
          simp only [List.mem_singleton] at hb'
          rintro rfl
          exact c1 (hb' ▸ ha)
        · intro x hx
          rcases List.mem_append.1 hx with hx | hx
          · exact h2 x hx
          · simp only [List.mem_singleton] at hx
            subst hx
            obtain ⟨c, hc, _⟩ := List.any_eq_true.1 c2
            cases hq : s.meq.get? x with
            | none => rw [hq] at hc; simp at hc
            | some cs => exact h3 x cs hq
      · have he : addStep s b = s := by unfold addStep; rw [if_neg c1, if_neg c2]
        rw [he] at hw' ⊢
        exact ih _ hw' h1 h2 h3

theorem addLoop_tidy (S : Bd V → Prop) (n : Nat) (B : List (Bd V)) (q : Meq V) (hw : WF q) (h1 : B.Nodup) (h2 : ∀ b ∈ B, S b)
    (h3 : ∀ b cs, q.get? b = some cs → S b) :
    (addLoop n B q).1.Nodup ∧ (∀ b ∈ (addLoop n B q).1, S b) ∧ (∀ b cs, (addLoop n B q).2.get? b = some cs → S b) := by
  induction n generalizing B q with
  | zero => exact ⟨h1, h2, h3⟩
  | succ n ih =>
    unfold addLoop
    obtain ⟨a1, a2, a3⟩ := addFold_tidy S (q.map (·.1)) ⟨false, B, q⟩ hw h1 h2 h3
    have hw' := (addFold_spec (fun _ _ => True) (q.map (·.1)) ⟨false, B, q⟩ hw).2.2
    by_cases ha : (addRound B q).alive = true
    · rw [if_pos ha]
      exact ih _ _ hw' a1 a2 a3
    · rw [if_neg ha]
      exact ⟨a1, a2, a3⟩

/-- More rounds than those modelled would change nothing: the loop has ended. -/
theorem addLoop_enough (n m : Nat) (B : List (Bd V)) (q : Meq V) (hn : q.length < n) (hm : q.length < m) :
    addLoop n B q = addLoop m B q := by
  induction n generalizing B q m with
  | zero => omega
  | succ n ih =>
    cases m with
    | zero => omega
    | succ m =>
      unfold addLoop
      by_cases ha : (addRound B q).alive = true
      · rw [if_pos ha, if_pos ha]
        have hlt : (addRound B q).meq.length < q.length :=
          (addFold_alive _ ⟨false, B, q⟩ q.length (le_refl _) (by simp)).2 ha
        exact ih m _ _ (by omega) (by omega)
      · rw [if_neg ha, if_neg ha]

theorem done_closed {B : List (Bd V)} {q : Meq V} (hd : Done B q) {b : Bd V} {c : List (Bd V)} (hr : Rule B q b c)
    (hc : ∀ b' ∈ c, b' ∈ B) : b ∈ B := by
  rcases hr with h | ⟨cs, hcs, c', hc', hsub⟩
  · exact h
  · obtain ⟨b', hb', hn⟩ := (hd b cs hcs).2 c' hc'
    exact absurd (hc b' (hsub b' hb')) hn

/-! ## Single constraints -/

theorem npSign_eq (x y : K) (hx : x ≠ 0) (hy : y ≠ 0) : npSign x ≠ npSign y ↔ ¬ (0 < x ↔ 0 < y) := by
  unfold npSign
  rcases lt_or_gt_of_ne hx with h1 | h1 <;> rcases lt_or_gt_of_ne hy with h2 | h2
  · simp [not_lt.2 h1.le, not_lt.2 h2.le, h1, h2]
  · simp [not_lt.2 h1.le, h1, h2]
  · simp [not_lt.2 h2.le, h1, h2]
  · simp [h1, h2]

theorem meqEntry_get (e : HV V K) (q : Meq V) (kx : V × K) (b : Bd V) :
    (meqEntry e q kx).get? b = if kx.1 = b.1 then some [meqCond e kx.1 kx.2 b.2] else q.get? b := by
  obtain ⟨v, s⟩ := b
  unfold meqEntry
  rw [get?_set, get?_set]
  by_cases hv : kx.1 = v
  · subst hv
    cases s <;> simp
  · have h1 : ((kx.1, Side.lower) == (v, s)) = false := beq_eq_false_iff_ne.2 (fun h => hv (Prod.mk.inj h).1)
    have h2 : ((kx.1, Side.upper) == (v, s)) = false := beq_eq_false_iff_ne.2 (fun h => hv (Prod.mk.inj h).1)
    simp [h1, h2, hv]

theorem meqFold_wf (e : HV V K) (l : List (V × K)) (q : Meq V) (hw : WF q) : WF (l.foldl (meqEntry e) q) := by
  induction l generalizing q with
  | nil => exact hw
  | cons kx l ih => exact ih _ (wf_set (wf_set hw _ _) _ _)

theorem meqFold_none (e : HV V K) (l : List (V × K)) (q : Meq V) (b : Bd V) (h : ∀ kx ∈ l, kx.1 ≠ b.1) :
    (l.foldl (meqEntry e) q).get? b = q.get? b := by
  induction l generalizing q with
  | nil => rfl
  | cons kx l ih =>
    rw [List.foldl_cons, ih _ (fun ky hky => h ky (by simp [hky])), meqEntry_get, if_neg (h kx (by simp))]

theorem meqFold_some (e : HV V K) (l : List (V × K)) (q : Meq V) (b : Bd V) (x : K) (hn : (l.map (·.1)).Nodup) (hx : (b.1, x) ∈ l) :
    (l.foldl (meqEntry e) q).get? b = some [meqCond e b.1 x b.2] := by
  induction l generalizing q with
  | nil => simp at hx
  | cons kx l ih =>
    rw [List.map_cons, List.nodup_cons] at hn
    rw [List.foldl_cons]
    rcases List.mem_cons.1 hx with h | h
    · rw [meqFold_none, meqEntry_get]
      · rw [← h]; simp
      · intro ky hky hb
        apply hn.1
        rw [← h]
        exact List.mem_map.2 ⟨ky, hky, hb⟩
    · exact ih _ hn.2 h

/-- Bounds closed under what single constraints say. -/
def LeafOK (P : V → Side → Prop) (ls : List (Leaf V K)) : Prop :=
  (∀ e ∈ ineqsOf ls, ∀ v x, (v, x) ∈ e → (0 < x → P v .upper) ∧ (x < 0 → P v .lower)) ∧
  (∀ e ∈ eqsOf ls, ∀ v x s, (v, x) ∈ e →
    (∀ w y, (w, y) ∈ e → w ≠ v → P w (if (0 < y ↔ 0 < x) then s.flip else s)) → P v s)

/-- Exponents are non-zero, no variable occurs twice in a term, and `vks` lists all variables once; an equality has at least two. -/
def Leaf.OK : Leaf V K → Prop
  | .ineq unsubbed vks => vks.Nodup ∧ (∀ p ∈ unsubbed, ∀ t ∈ p, ∀ vx ∈ t.1.items, vx.1 ∈ vks ∧ vx.2 ≠ 0)
  | .meq unsubbed vks => vks.Nodup ∧ (unsubbed ≠ [] → 1 < vks.length) ∧
      (∀ p ∈ unsubbed, ∀ t ∈ p, (t.1.items.map (·.1)).Nodup ∧ ∀ vx ∈ t.1.items, vx.1 ∈ vks ∧ vx.2 ≠ 0)

/-- The bookkeeping concerns the variables of the set only, each once. -/
structure Tidy (s : St V) : Prop where
  vks : s.vks.Nodup
  nd : s.bounded.Nodup
  sub : ∀ b ∈ s.bounded, b.1 ∈ s.vks
  key : ∀ b cs, s.meq.get? b = some cs → b.1 ∈ s.vks

/-- One state follows another by the constraints `ls`, values `F` and variables `W`. -/
structure Step (ls : List (Leaf V K)) (F W : List V) (s s' : St V) : Prop where
  good : ∀ P : V → Side → Prop, Good P s.bounded s.meq → LeafOK P ls → (∀ v ∈ F, ∀ d, P v d) → Good P s'.bounded s'.meq
  mono : Mono s.bounded s.meq s'.bounded s'.meq
  own : ∀ v d, OwnBound ls F v d → (v, d) ∈ s'.bounded
  rule : ∀ e ∈ eqsOf ls, ∀ v x d, (v, x) ∈ e → Rule s'.bounded s'.meq (v, d) (meqCond ⟨e⟩ v x d)
  wf : WF s.meq → WF s'.meq
  vks : ∀ v, v ∈ s'.vks ↔ v ∈ s.vks ∨ v ∈ W
  tidy : Tidy s → Tidy s'

theorem ineqsOf_append (l m : List (Leaf V K)) : ineqsOf (l ++ m) = ineqsOf l ++ ineqsOf m := List.flatMap_append
theorem eqsOf_append (l m : List (Leaf V K)) : eqsOf (l ++ m) = eqsOf l ++ eqsOf m := List.flatMap_append

theorem LeafOK_append (P : V → Side → Prop) (l m : List (Leaf V K)) : LeafOK P (l ++ m) → LeafOK P l ∧ LeafOK P m := by
  rintro ⟨h1, h2⟩
  rw [ineqsOf_append] at h1
  rw [eqsOf_append] at h2
  exact ⟨⟨fun e he => h1 e (List.mem_append.2 (Or.inl he)), fun e he => h2 e (List.mem_append.2 (Or.inl he))⟩,
    ⟨fun e he => h1 e (List.mem_append.2 (Or.inr he)), fun e he => h2 e (List.mem_append.2 (Or.inr he))⟩⟩

theorem Step.refl (s : St V) : Step ([] : List (Leaf V K)) [] [] s s :=
  ⟨fun _ h _ _ => h, Mono.refl _ _, by rintro v d (h | ⟨e, he, _⟩) <;> simp [ineqsOf] at *, by simp [eqsOf], id, by simp, id⟩

theorem Step.trans {l m : List (Leaf V K)} {F F' W W' : List V} {s s' s'' : St V} (h : Step l F W s s') (h' : Step m F' W' s' s'') :
    Step (l ++ m) (F ++ F') (W ++ W') s s'' := by
  refine ⟨?_, h.mono.trans h'.mono, ?_, ?_, fun hw => h'.wf (h.wf hw), ?_, fun ht => h'.tidy (h.tidy ht)⟩
  · intro P hg hl hf
    obtain ⟨h1, h2⟩ := LeafOK_append P l m hl
    exact h'.good P (h.good P hg h1 (fun v hv => hf v (by simp [hv]))) h2 (fun v hv => hf v (by simp [hv]))
  · intro v d ho
    have : OwnBound l F v d ∨ OwnBound m F' v d := by
      rcases ho with hv | ⟨e, he, x, hx, hd⟩
      · rcases List.mem_append.1 hv with hv | hv
        · exact Or.inl (Or.inl hv)
        · exact Or.inr (Or.inl hv)
      · rw [ineqsOf_append] at he
        rcases List.mem_append.1 he with he | he
        · exact Or.inl (Or.inr ⟨e, he, x, hx, hd⟩)
        · exact Or.inr (Or.inr ⟨e, he, x, hx, hd⟩)
    rcases this with ho | ho
    · exact h'.mono.has _ (h.own v d ho)
    · exact h'.own v d ho
  · intro e he v x d hx
    rw [eqsOf_append] at he
    rcases List.mem_append.1 he with he | he
    · exact h'.mono.rule _ _ (h.rule e he v x d hx)
    · exact h'.rule e he v x d hx
  · intro v
    rw [h'.vks, h.vks, List.mem_append, or_assoc]

/-- A state reached from nothing is a step from anything by `_update`. -/
theorem Step.update {l : List (Leaf V K)} {F W : List V} {t : St V} (h : Step l F W {} t) (s : St V) : Step l F W s (update s t) := by
  have hwt := h.wf wf_nil
  have hu := fun P => update_spec P s t hwt
  obtain ⟨_, u2, u3, u4, u5⟩ := hu (fun _ _ => True)
  have htt : Tidy t := h.tidy ⟨List.nodup_nil, List.nodup_nil, by simp, by simp [PyDict.get?]⟩
  refine ⟨?_, u2, fun v d ho => u3.has _ (h.own v d ho), fun e he v x d hx => u3.rule _ _ (h.rule e he v x d hx), u4, ?_, ?_⟩
  · intro P hg hl hf
    refine (hu P).1 hg (h.good P ⟨by simp, ?_⟩ hl hf)
    intro b cs c hcs
    simp [PyDict.get?] at hcs
  · intro v
    rw [u5, h.vks]
    simp
  · intro hs
    refine ⟨nodup_setUnion _ _ hs.vks, nodup_setUnion _ _ hs.nd, ?_, ?_⟩
    · intro b hb
      rw [u5]
      rcases (mem_setUnion _ _ _).1 hb with hb | hb
      · exact Or.inl (hs.sub b hb)
      · exact Or.inr (htt.sub b hb)
    · intro b cs hcs
      rw [u5]
      rcases addAll_key t.meq hcs with ⟨bc, hm, rfl⟩ | ⟨cs', h'⟩
      · exact Or.inr (htt.key bc.1 bc.2 (get?_of_mem hwt hm))
      · exact Or.inl (hs.key b cs' h')

theorem leaf_step (c : Leaf V K) (hok : c.OK) : Step [c] [] (vars1 (.con c)) {} ⟨c.vks, c.bounded, c.meqBounded⟩ := by
  cases c with
  | ineq unsubbed vks =>
    refine ⟨?_, ⟨by simp, ?_⟩, ?_, by simp [eqsOf], fun _ => wf_nil, by simp [vars1, Leaf.vks], fun _ => ⟨hok.1, nodup_setUnion _ _ List.nodup_nil, ?_, by simp [Leaf.meqBounded]⟩⟩
    · intro P _ hl _
      refine ⟨?_, ?_⟩
      · intro b hb
        simp only [Leaf.bounded, mem_setUnion, List.not_mem_nil, false_or, List.mem_flatMap, List.mem_map] at hb
        obtain ⟨p, hp, t, ht, kx, hkx, rfl⟩ := hb
        have he : t.1.items ∈ ineqsOf [Leaf.ineq unsubbed vks] := by
          simp only [ineqsOf, List.flatMap_cons, List.flatMap_nil, List.append_nil, List.mem_flatMap, List.mem_map]
          exact ⟨p, hp, t, ht, rfl⟩
        have h0 := (hok.2 p hp t ht kx hkx).2
        have := hl.1 _ he kx.1 kx.2 hkx
        dsimp only
        split_ifs with hpos
        · exact this.1 hpos
        · exact this.2 (lt_of_le_of_ne (not_lt.1 hpos) h0)
      · intro b cs c hcs
        simp [Leaf.meqBounded] at hcs
    · rintro b c (h | ⟨cs, hcs, _⟩)
      · simp at h
      · simp [PyDict.get?] at hcs
    · rintro v d (h | ⟨e, he, x, hx, hd⟩)
      · simp at h
      · simp only [ineqsOf, List.flatMap_cons, List.flatMap_nil, List.append_nil, List.mem_flatMap, List.mem_map] at he
        obtain ⟨p, hp, t, ht, rfl⟩ := he
        simp only [Leaf.bounded, mem_setUnion, List.not_mem_nil, false_or, List.mem_flatMap, List.mem_map]
        refine ⟨p, hp, t, ht, (v, x), hx, ?_⟩
        cases d with
        | upper => simp only at hd; simp [hd]
        | lower => simp only at hd; simp [not_lt.2 hd.le]
    · intro b hb
      simp only [Leaf.bounded, mem_setUnion, List.not_mem_nil, false_or, List.mem_flatMap, List.mem_map] at hb
      obtain ⟨p, hp, t, ht, kx, hkx, rfl⟩ := hb
      exact (hok.2 p hp t ht kx hkx).1
  | meq unsubbed vks =>
    have hown : ∀ v d, ¬ OwnBound [Leaf.meq unsubbed vks] [] v d := by
      rintro v d (h | ⟨e, he, _⟩)
      · simp at h
      · simp [ineqsOf] at he
    have hshape : (∃ t p ps, unsubbed = (t :: p) :: ps) ∨ (eqsOf [Leaf.meq unsubbed vks] = [] ∧ (Leaf.meq unsubbed vks).meqBounded = []) := by
      cases unsubbed with
      | nil => exact Or.inr ⟨rfl, rfl⟩
      | cons p ps =>
        cases p with
        | nil => exact Or.inr ⟨rfl, rfl⟩
        | cons t p => exact Or.inl ⟨t, p, ps, rfl⟩
    rcases hshape with ⟨t, p, ps, rfl⟩ | ⟨he, hm⟩
    · obtain ⟨hnd, hv, ht⟩ := hok
      have hv := hv (by simp)
      have htt := ht (t :: p) (by simp) t (by simp)
      have hnz : ∀ vx ∈ t.1.items, vx.2 ≠ 0 := fun vx hvx => (htt.2 vx hvx).2
      have hq : (Leaf.meq ((t :: p) :: ps) vks).meqBounded = t.1.items.foldl (meqEntry t.1) [] := by
        show (if vks.length > 1 then _ else _) = _
        rw [if_pos hv]
      have hexp : eqsOf [Leaf.meq ((t :: p) :: ps) vks] = [t.1.items] := rfl
      refine ⟨?_, ⟨by simp, ?_⟩, fun v d h => absurd h (hown v d), ?_, fun _ => by rw [hq]; exact meqFold_wf _ _ _ wf_nil,
        by simp [vars1, Leaf.vks], fun _ => ⟨hnd, List.nodup_nil, by simp [Leaf.bounded], ?_⟩⟩
      · intro P _ hl _
        refine ⟨by simp [Leaf.bounded], ?_⟩
        rintro ⟨v, d⟩ cs c hcs hc hP
        dsimp only at hcs
        rw [hq] at hcs
        by_cases hin : ∃ x, (v, x) ∈ t.1.items
        · obtain ⟨x, hx⟩ := hin
          rw [meqFold_some t.1 t.1.items [] (v, d) x htt.1 hx, Option.some.injEq] at hcs
          rw [← hcs] at hc
          simp only [List.mem_singleton] at hc
          subst hc
          refine hl.2 t.1.items (by rw [hexp]; simp) v x d hx ?_
          intro w y hw hne
          have := hP (w, if npSign y ≠ npSign x then d else d.flip) (List.mem_map.2 ⟨(w, y), List.mem_filter.2 ⟨hw, by simpa using hne⟩, rfl⟩)
          dsimp only at this
          have hs := npSign_eq y x (hnz _ hw) (hnz _ hx)
          by_cases hsg : (0 < y ↔ 0 < x)
          · rw [if_neg (fun hh => (hs.1 hh) hsg)] at this
            rw [if_pos hsg]; exact this
          · rw [if_pos (hs.2 hsg)] at this
            rw [if_neg hsg]; exact this
        · rw [meqFold_none] at hcs
          · simp [PyDict.get?] at hcs
          · intro kx hkx hv'
            apply hin
            refine ⟨kx.2, ?_⟩
            have : kx = (v, kx.2) := Prod.ext hv' rfl
            rw [← this]; exact hkx
      · rintro b c (h | ⟨cs, hcs, _⟩)
        · simp at h
        · simp [PyDict.get?] at hcs
      · intro e he v x d hx
        rw [hexp] at he
        simp only [List.mem_singleton] at he
        subst he
        right
        refine ⟨[meqCond t.1 v x d], ?_, meqCond t.1 v x d, by simp, fun x hx => hx⟩
        dsimp only
        rw [hq, meqFold_some t.1 t.1.items [] (v, d) x htt.1 hx]
      · intro b cs hcs
        dsimp only at hcs
        rw [hq] at hcs
        by_cases hin : ∃ kx ∈ t.1.items, kx.1 = b.1
        · obtain ⟨kx, hkx, hb⟩ := hin
          rw [← hb]
          exact (htt.2 kx hkx).1
        · rw [meqFold_none] at hcs
          · simp [PyDict.get?] at hcs
          · exact fun kx hkx hb => hin ⟨kx, hkx, hb⟩
    · refine ⟨?_, ⟨by simp, ?_⟩, fun v d h => absurd h (hown v d), by rw [he]; simp, fun _ => by rw [hm]; exact wf_nil, by simp [vars1, Leaf.vks],
        fun _ => ⟨hok.1, List.nodup_nil, by simp [Leaf.bounded], by intro b cs hcs; dsimp only at hcs; rw [hm] at hcs; simp [PyDict.get?] at hcs⟩⟩
      · intro P _ _ _
        refine ⟨by simp [Leaf.bounded], ?_⟩
        intro b cs c hcs
        rw [hm] at hcs
        simp [PyDict.get?] at hcs
      · rintro b c (h | ⟨cs, hcs, _⟩)
        · simp at h
        · simp [PyDict.get?] at hcs

/-- The end of `__init__`. -/
theorem finish_step {l : List (Leaf V K)} {F W : List V} {s : St V} (h : Step l F W {} s) (own : List V) (fixed : V → Bool) :
    Step l (F ++ (W ++ own).filter fixed) (W ++ own) {} (finish own fixed s) ∧
    Done (finish own fixed s).bounded (finish own fixed s).meq := by
  have hws := h.wf wf_nil
  set b := setUnion s.bounded (((setUnion s.vks own).filter fixed).flatMap (fun v => [(v, Side.upper), (v, Side.lower)])) with hb
  have hbm : ∀ v d, (v, d) ∈ b ↔ (v, d) ∈ s.bounded ∨ (v ∈ W ++ own ∧ fixed v = true) := by
    intro v d
    rw [hb, mem_setUnion]
    refine or_congr Iff.rfl ?_
    simp only [List.mem_flatMap, List.mem_filter, mem_setUnion, h.vks, List.mem_append]
    constructor
    · rintro ⟨w, ⟨hw, hf⟩, hm⟩
      have : v = w := by
        simp only [List.mem_cons, Prod.mk.injEq, List.not_mem_nil, or_false] at hm
        rcases hm with hm | hm <;> exact hm.1
      subst this
      exact ⟨by simpa using hw, hf⟩
    · rintro ⟨hv, hf⟩
      exact ⟨v, ⟨by simpa using hv, hf⟩, by cases d <;> simp⟩
  have ha := fun P => addMeqBounds_spec P b s.meq hws
  obtain ⟨_, a2, a3, a4⟩ := ha (fun _ _ => True)
  have hm0 : Mono s.bounded s.meq b s.meq := by
    refine ⟨fun x hx => (hbm x.1 x.2).2 (Or.inl hx), ?_⟩
    rintro x c (hx | hx)
    · exact Or.inl ((hbm x.1 x.2).2 (Or.inl hx))
    · exact Or.inr hx
  refine ⟨⟨?_, (h.mono.trans hm0).trans a2, ?_, fun e he v x d hx => a2.rule _ _ (hm0.rule _ _ (h.rule e he v x d hx)), fun _ => a3, ?_, ?_⟩, a4⟩
  · intro P hg hl hf
    have hs := h.good P hg hl (fun v hv => hf v (by simp [hv]))
    refine (ha P).1 ⟨?_, hs.cond⟩
    rintro ⟨v, d⟩ hx
    rcases (hbm v d).1 hx with hx | ⟨hv, hfv⟩
    · exact hs.sound _ hx
    · exact hf v (List.mem_append.2 (Or.inr (List.mem_filter.2 ⟨hv, hfv⟩))) d
  · intro v d ho
    apply a2.has
    rw [hbm]
    rcases ho with hv | ho
    · rcases List.mem_append.1 hv with hv | hv
      · exact Or.inl (h.own v d (Or.inl hv))
      · obtain ⟨h1, h2⟩ := List.mem_filter.1 hv
        exact Or.inr ⟨h1, h2⟩
    · exact Or.inl (h.own v d (Or.inr ho))
  · intro v
    show v ∈ setUnion s.vks own ↔ _
    rw [mem_setUnion, h.vks, List.mem_append, or_assoc]
  · intro h0
    have hs := h.tidy h0
    have hsub : ∀ v, v ∈ s.vks → v ∈ (finish own fixed s).vks := fun v hv => (mem_setUnion _ _ _).2 (Or.inl hv)
    obtain ⟨t1, t2, t3⟩ := addLoop_tidy (fun b => b.1 ∈ (finish own fixed s).vks) (s.meq.length + 1) b s.meq hws (nodup_setUnion _ _ hs.nd)
      (by
        rintro ⟨v, d⟩ hx
        rcases (hbm v d).1 hx with hx | ⟨hv, _⟩
        · exact hsub v (hs.sub _ hx)
        · show v ∈ setUnion s.vks own
          rw [mem_setUnion, h.vks]
          rcases List.mem_append.1 hv with hv | hv
          · exact Or.inl (Or.inr hv)
          · exact Or.inr hv)
      (fun x cs hcs => hsub _ (hs.key x cs hcs))
    exact ⟨nodup_setUnion _ _ hs.vks, t1, t2, t3⟩

end CSet
end Verif
