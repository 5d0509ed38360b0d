import Verif.Spec.ParseSubs
import Verif.Lemmas.PyDict
import Mathlib.Data.List.Nodup

/-! C26: sorting of substitutions. -/

set_option linter.unusedSectionVars false

namespace Verif
open PyDict
namespace PS
variable {S K F : Type} [DecidableEq S]

theorem get?_setK (d : PyDict (Key S) (Out K F)) (k q : Key S) (v : Out K F) :
    PyDict.get? (PyDict.set d k v) q = if q = k then some v else PyDict.get? d q := by
  rw [get?_set]
  by_cases h : q = k
  · subst h; simp
  · rw [if_neg h, if_neg (by simpa using fun h' => h h'.symm)]

/-- Where `append_sub` puts a value. -/
def dest (b : Bool) : Out K F → Option (Class × Out K F)
  | .fn f => some (.linked, .fn f)
  | .nan => if b then some (.sweep, .nan) else none
  | .arr [.nan] => if b then some (.sweep, .arr [.nan]) else none
  | o => if b then some (.sweep, o) else some (.constant, o)

/-- The dicts agree at a key. -/
def SameAt (p p' : Parsed S K F) (key : Key S) : Prop :=
  p'.constants.get? key = p.constants.get? key ∧ p'.sweep.get? key = p.sweep.get? key ∧ p'.linked.get? key = p.linked.get? key

theorem SameAt.trans {p p' p'' : Parsed S K F} {key : Key S} (h : SameAt p p' key) (h' : SameAt p' p'' key) : SameAt p p'' key :=
  ⟨h'.1.trans h.1, h'.2.1.trans h.2.1, h'.2.2.trans h.2.2⟩

theorem Holds.same {p p' : Parsed S K F} {key : Key S} {w : Option (Class × Out K F)} (h : SameAt p p' key) (hp : p.Holds key w) :
    p'.Holds key w :=
  ⟨h.1.trans hp.1, h.2.1.trans hp.2.1, h.2.2.trans hp.2.2⟩

theorem place_same (p : Parsed S K F) (b : Bool) (key : Key S) (o : Out K F) {q : Key S} (hq : q ≠ key) : SameAt p (place p b key o) q := by
  unfold place SameAt
  cases b <;> repeat' split
  all_goals simp [get?_setK, hq]

theorem place_holds (p : Parsed S K F) (b : Bool) (key : Key S) (o : Out K F) (hp : p.Holds key none) :
    (place p b key o).Holds key (dest b o) := by
  obtain ⟨h1, h2, h3⟩ := hp
  simp only [Option.bind_none] at h1 h2 h3
  unfold place Parsed.Holds dest
  cases b <;> repeat' split
  all_goals simp_all [get?_setK]

/-- The loop, if the value of each key does not depend on what was swept before. -/
theorem loop_spec (shape : S → Option Nat) (sub : Local K F) (w : Key S → Bool) (o : Key S → Out K F) (keys : List (Key S)) :
    ∀ (b : Bool) (p : Parsed S K F), keys.Nodup →
      (∀ key ∈ keys, ∀ b', (b = true → b' = true) → valueOf shape b' sub key = .ok (b' || w key, o key)) →
      (∀ key ∈ keys, p.Holds key none) →
      ∃ p', appendLoop shape sub b keys p = .ok p' ∧ (∀ key, key ∉ keys → SameAt p p' key) ∧
        ∀ pre key post, keys = pre ++ key :: post → p'.Holds key (dest (b || (pre.any w) || w key) (o key)) := by
  induction keys with
  | nil =>
    intro b p _ _ _
    exact ⟨p, rfl, fun _ _ => ⟨rfl, rfl, rfl⟩, fun pre key post h => by simp at h⟩
  | cons k keys ih =>
    intro b p hnd hv hp
    rw [List.nodup_cons] at hnd
    obtain ⟨p', i1, i2, i3⟩ := ih (b || w k) (place p (b || w k) k (o k)) hnd.2 (by
      intro key hk b' hb
      refine hv key (by simp [hk]) b' (fun h => hb (by simp [h]))) (by
      intro key hk
      exact Holds.same (place_same p _ k _ (by rintro rfl; exact hnd.1 hk)) (hp key (by simp [hk])))
    refine ⟨p', ?_, ?_, ?_⟩
    · unfold appendLoop
      rw [hv k (by simp) b id]
      exact i1
    · intro key hk
      rw [List.mem_cons, not_or] at hk
      exact (place_same p _ k _ hk.1).trans (i2 key hk.2)
    · intro pre key post h
      cases pre with
      | nil =>
        rw [List.nil_append, List.cons.injEq] at h
        obtain ⟨rfl, rfl⟩ := h
        have := Holds.same (i2 k hnd.1) (place_holds p (b || w k) k (o k) (hp k (by simp)))
        simpa using this
      | cons a pre =>
        rw [List.cons_append, List.cons.injEq] at h
        obtain ⟨rfl, rfl⟩ := h
        have := i3 pre key post rfl
        simpa [Bool.or_assoc] using this

/-- Whether the element at a key is swept by itself. -/
def sweptAt (shape : S → Option Nat) (sub : Sub K F) (key : Key S) : Bool :=
  match sub, shape key.1 with
  | .arr cs, some _ => match key.2.bind (cs[·]?) with
    | some (.sweep _) => true
    | some (.sweepFn _) => true
    | _ => false
  | _, _ => false

/-- The value at a key. -/
def outAt (shape : S → Option Nat) (sub : Sub K F) (key : Key S) : Out K F :=
  match valueOf shape (split sub).1 (split sub).2 key with
  | .ok (_, o) => o
  | .error _ => .nan

theorem column_ok (rows : List (List K)) (i : Nat) (h : ∀ r ∈ rows, i < r.length) :
    ∃ vs, column rows i = .ok vs ∧ rows.mapM (·[i]?) = some vs := by
  induction rows with
  | nil => exact ⟨[], rfl, rfl⟩
  | cons r rows ih =>
    obtain ⟨vs, h1, h2⟩ := ih (fun r hr => h r (by simp [hr]))
    have hi : i < r.length := h r (by simp)
    have hr : r[i]? = some r[i] := List.getElem?_eq_getElem hi
    refine ⟨r[i] :: vs, ?_, ?_⟩
    · unfold column at *
      rw [List.mapM_cons, hr, h1]
      rfl
    · rw [List.mapM_cons, hr, h2]
      rfl

theorem value_spec (shape : S → Option Nat) (sub : Sub K F) (key : Key S) (hf : Fits shape sub key) (b' : Bool)
    (hb : (split sub).1 = true → b' = true) :
    valueOf shape b' (split sub).2 key = .ok (b' || sweptAt shape sub key, outAt shape sub key) := by
  obtain ⟨q, idx⟩ := key
  unfold Fits at hf
  unfold outAt sweptAt valueOf
  dsimp only at *
  cases hs : shape q with
  | none =>
    rw [hs] at hf
    cases sub with
    | cell c => cases c <;> simp [split]
    | arr cs => simp [split]
    | sweepMat m rows => simp [split]
  | some n =>
    rw [hs] at hf
    obtain ⟨i, hi, hin, hf⟩ := hf
    subst hi
    cases sub with
    | cell c =>
      cases c with
      | sweep vs =>
        have hl : vs.length = n := hf
        have : vs[i]? = some (vs[i]'(by omega)) := List.getElem?_eq_getElem (by omega)
        simp [split, hl, this]
      | _ => simp [split]
    | arr cs =>
      have hl : cs.length = n := hf
      have : cs[i]? = some (cs[i]'(by omega)) := List.getElem?_eq_getElem (by omega)
      simp only [split, hl, if_true, Option.bind_some, this]
      cases cs[i]'(by omega) <;> simp [splitCell]
    | sweepMat m rows =>
      obtain ⟨rfl, hr⟩ := hf
      have hb' : b' = true := hb rfl
      subst hb'
      obtain ⟨vs, h1, h2⟩ := column_ok rows i (fun r h => by rw [hr r h]; exact hin)
      simp [split, hin, h1, Except.map]

/-- The value lands where it should unless something was swept before it. -/
theorem dest_wanted (shape : S → Option Nat) (sub : Sub K F) (key : Key S) (hf : Fits shape sub key) :
    dest ((split sub).1 || sweptAt shape sub key) (outAt shape sub key) = wanted shape sub key := by
  obtain ⟨q, idx⟩ := key
  unfold Fits at hf
  unfold outAt sweptAt valueOf wanted
  dsimp only at *
  cases hs : shape q with
  | none =>
    rw [hs] at hf
    cases sub with
    | cell c => cases c <;> simp [split, dest, wantedCell]
    | arr cs =>
      simp only [split, dest]
      split <;> simp_all
    | sweepMat m rows => simp [split, dest]
  | some n =>
    rw [hs] at hf
    obtain ⟨i, hi, hin, hf⟩ := hf
    subst hi
    cases sub with
    | cell c =>
      cases c with
      | sweep vs =>
        have hl : vs.length = n := hf
        have : vs[i]? = some (vs[i]'(by omega)) := List.getElem?_eq_getElem (by omega)
        simp [split, hl, this, dest]
      | _ => simp [split, dest, wantedCell]
    | arr cs =>
      have hl : cs.length = n := hf
      have : cs[i]? = some (cs[i]'(by omega)) := List.getElem?_eq_getElem (by omega)
      simp only [split, hl, if_true, Option.bind_some, this]
      cases cs[i]'(by omega) <;> simp [splitCell, dest, wantedCell]
    | sweepMat m rows =>
      obtain ⟨rfl, hr⟩ := hf
      obtain ⟨vs, h1, h2⟩ := column_ok rows i (fun r h => by rw [hr r h]; exact hin)
      simp [split, hin, h1, h2, Except.map, dest]

theorem sweptAt_arr {shape : S → Option Nat} {sub : Sub K F} {key : Key S} (h : sweptAt shape sub key = true) :
    shape key.1 ≠ none ∧ ∃ cs c, sub = .arr cs ∧ c ∈ cs ∧ c.Swept := by
  unfold sweptAt at h
  cases sub with
  | cell c => simp at h
  | sweepMat m rows => simp at h
  | arr cs =>
    cases hs : shape key.1 with
    | none => rw [hs] at h; simp at h
    | some n =>
      rw [hs] at h
      refine ⟨by simp, cs, ?_⟩
      cases hc : key.2.bind (cs[·]?) with
      | none => simp [hc] at h
      | some c =>
        refine ⟨c, rfl, ?_, ?_⟩
        · cases hk : key.2 with
          | none => rw [hk] at hc; cases hc
          | some i =>
            rw [hk, Option.bind_some] at hc
            exact List.mem_of_getElem? hc
        · cases c <;> simp [hc] at h <;> trivial

/-- What is wrong when something was swept before: a constant or a free element counts as swept. -/
def Leaked (w w' : Option (Class × Out K F)) : Prop :=
  ∃ o, w' = some (.sweep, o) ∧ (w = some (.constant, o) ∨ (w = none ∧ o = .nan))

theorem dest_leaked (shape : S → Option Nat) (sub : Sub K F) (key : Key S) (hf : Fits shape sub key) (b : Bool)
    (hb : b = true → (split sub).1 = false → shape key.1 ≠ none) :
    dest ((split sub).1 || b || sweptAt shape sub key) (outAt shape sub key) = wanted shape sub key ∨
    (b = true ∧ sweptAt shape sub key = false ∧
      Leaked (wanted shape sub key) (dest ((split sub).1 || b || sweptAt shape sub key) (outAt shape sub key))) := by
  rw [← dest_wanted shape sub key hf]
  cases b with
  | false => left; simp
  | true =>
    cases h1 : (split sub).1 with
    | true => left; simp
    | false =>
      cases h2 : sweptAt shape sub key with
      | true => left; rfl
      | false =>
        simp only [Bool.or_false, Bool.or_true, true_and]
        have hne := hb rfl h1
        cases ho : outAt shape sub key with
        | fn f => left; rfl
        | nan => right; exact ⟨.nan, rfl, Or.inr ⟨rfl, rfl⟩⟩
        | num k => right; exact ⟨_, rfl, Or.inl rfl⟩
        | list vs => right; exact ⟨_, rfl, Or.inl rfl⟩
        | mat m rows => right; exact ⟨_, rfl, Or.inl rfl⟩
        | arr cs =>
          exfalso
          unfold outAt valueOf at ho
          cases hs : shape key.1 with
          | none => exact hne hs
          | some n =>
            rw [hs] at ho
            cases sub with
            | cell c => cases c <;> simp [split] at h1 ho
            | sweepMat m rows => simp [split] at h1
            | arr cs =>
              simp only [split] at ho
              repeat' split at ho
              all_goals try cases ho
              rename_i heq
              repeat' split at heq
              all_goals first | cases heq | skip
              rename_i c _
              cases c <;> simp [splitCell] at heq

/-- `append_sub` on keys of one variable. -/
theorem appendSub_spec (shape : S → Option Nat) (sub : Sub K F) (keys : List (Key S)) (p : Parsed S K F) (hnd : keys.Nodup)
    {v : S} (hv : ∀ key ∈ keys, key.1 = v) (hf : ∀ key ∈ keys, Fits shape sub key) (hp : ∀ key ∈ keys, p.Holds key none) :
    ∃ p', appendSub shape sub keys p = .ok p' ∧ (∀ key, key ∉ keys → SameAt p p' key) ∧
      ∀ key ∈ keys, ∃ w, p'.Holds key w ∧ (w = wanted shape sub key ∨
        (∃ q ∈ keys, sweptAt shape sub q = true ∧ sweptAt shape sub key = false ∧ Leaked (wanted shape sub key) w)) := by
  obtain ⟨p', h1, h2, h3⟩ := loop_spec shape (split sub).2 (sweptAt shape sub) (outAt shape sub) keys (split sub).1 p hnd
    (fun key hk b' hb => value_spec shape sub key (hf key hk) b' hb) hp
  refine ⟨p', h1, h2, ?_⟩
  intro key hk
  obtain ⟨pre, post, rfl⟩ := List.append_of_mem hk
  refine ⟨_, h3 pre key post rfl, ?_⟩
  rcases dest_leaked shape sub key (hf key hk) (pre.any (sweptAt shape sub)) (by
    intro hb hs
    obtain ⟨q, hq, hw⟩ := List.any_eq_true.1 hb
    rw [hv key hk, ← hv q (by simp [hq])]
    exact (sweptAt_arr hw).1) with h | ⟨hb, hs, hl⟩
  · exact Or.inl h
  · obtain ⟨q, hq, hw⟩ := List.any_eq_true.1 hb
    exact Or.inr ⟨q, by simp [hq], hw, hs, hl⟩

/-- The keys of each variable are listed once, under it, and fit its substitution. -/
structure Listed (shape : S → Option Nat) (subs : S → Option (Sub K F)) (under : List (S × List (Key S))) : Prop where
  nodup : (under.flatMap (·.2)).Nodup
  own : ∀ vk ∈ under, ∀ key ∈ vk.2, key.1 = vk.1
  fits : ∀ vk ∈ under, ∀ sub, subs vk.1 = some sub → ∀ key ∈ vk.2, Fits shape sub key

theorem parse_spec (shape : S → Option Nat) (subs : S → Option (Sub K F)) (under : List (S × List (Key S))) :
    ∀ p : Parsed S K F, Listed shape subs under → (∀ key ∈ under.flatMap (·.2), p.Holds key none) →
    ∃ p', under.foldlM (fun p qk => match subs qk.1 with
      | some sub => appendSub shape sub qk.2 p
      | none => .ok p) p = .ok p' ∧ (∀ key, key ∉ under.flatMap (·.2) → SameAt p p' key) ∧
      ∀ vk ∈ under, ∀ key ∈ vk.2, ∃ w, p'.Holds key w ∧ (w = (subs vk.1).bind (wanted shape · key) ∨
        ∃ sub, subs vk.1 = some sub ∧ (∃ q ∈ vk.2, sweptAt shape sub q = true ∧ sweptAt shape sub key = false ∧
          Leaked (wanted shape sub key) w)) := by
  induction under with
  | nil => intro p _ _; exact ⟨p, rfl, fun _ _ => ⟨rfl, rfl, rfl⟩, fun _ h => by cases h⟩
  | cons vk under ih =>
    intro p hl hp
    have hnd := hl.nodup
    rw [List.flatMap_cons, List.nodup_append] at hnd
    have hl' : Listed shape subs under := ⟨hnd.2.1, fun vk h => hl.own vk (by simp [h]), fun vk h => hl.fits vk (by simp [h])⟩
    have hdis : ∀ key ∈ vk.2, key ∉ under.flatMap (·.2) := fun key h h' => hnd.2.2 key h key h' rfl
    obtain ⟨p1, h1, h2, h3⟩ : ∃ p1, (match subs vk.1 with
        | some sub => appendSub shape sub vk.2 p
        | none => .ok p) = Except.ok p1 ∧ (∀ key, key ∉ vk.2 → SameAt p p1 key) ∧
        ∀ key ∈ vk.2, ∃ w, p1.Holds key w ∧ (w = (subs vk.1).bind (wanted shape · key) ∨
        ∃ sub, subs vk.1 = some sub ∧ (∃ q ∈ vk.2, sweptAt shape sub q = true ∧ sweptAt shape sub key = false ∧
          Leaked (wanted shape sub key) w)) := by
      cases hs : subs vk.1 with
      | none => exact ⟨p, rfl, fun _ _ => ⟨rfl, rfl, rfl⟩, fun key hk => ⟨none, hp key (by simp [hk]), Or.inl rfl⟩⟩
      | some sub =>
        obtain ⟨p1, a1, a2, a3⟩ := appendSub_spec shape sub vk.2 p hnd.1 (hl.own vk (by simp)) (hl.fits vk (by simp) sub hs)
          (fun key hk => hp key (by rw [List.flatMap_cons]; exact List.mem_append_left _ hk))
        refine ⟨p1, a1, a2, fun key hk => ?_⟩
        obtain ⟨w, w1, w2⟩ := a3 key hk
        refine ⟨w, w1, ?_⟩
        rcases w2 with w2 | w2
        · exact Or.inl w2
        · exact Or.inr ⟨sub, rfl, w2⟩
    obtain ⟨p', i1, i2, i3⟩ := ih p1 hl' (by
      intro key hk
      exact Holds.same (h2 key (fun h => hdis key h hk)) (hp key (by rw [List.flatMap_cons]; exact List.mem_append_right _ hk)))
    refine ⟨p', ?_, ?_, ?_⟩
    · rw [List.foldlM_cons, h1]
      exact i1
    · intro key hk
      rw [List.flatMap_cons, List.mem_append, not_or] at hk
      exact (h2 key hk.1).trans (i2 key hk.2)
    · intro vk' hvk key hk
      rcases List.mem_cons.1 hvk with rfl | hvk
      · obtain ⟨w, w1, w2⟩ := h3 key hk
        exact ⟨w, Holds.same (i2 key (hdis key hk)) w1, w2⟩
      · exact i3 vk' hvk key hk

theorem unmixed_not {shape : S → Option Nat} {sub : Sub K F} (hu : Unmixed sub) {key q : Key S} (hf : Fits shape sub key)
    (hq : sweptAt shape sub q = true) {w : Option (Class × Out K F)} (hv : key.1 = q.1)
    (hl : Leaked (wanted shape sub key) w) : False := by
  obtain ⟨hn, cs, c, rfl, hc, hcs⟩ := sweptAt_arr hq
  rcases hu with hu | hu
  · exact hu c hc hcs
  · obtain ⟨key, idx⟩ := key
    dsimp only at hv
    subst hv
    unfold Fits at hf
    unfold wanted at hl
    cases hs : shape q.1 with
    | none => exact hn hs
    | some n =>
      simp only [hs] at hf hl
      obtain ⟨i, rfl, hin, hl'⟩ := hf
      have : cs[i]? = some (cs[i]'(by omega)) := List.getElem?_eq_getElem (by omega)
      have hnc := hu (cs[i]'(by omega)) (List.getElem_mem _)
      simp only [Option.bind_some, this] at hl
      obtain ⟨o, _, h⟩ := hl
      revert hnc h
      cases cs[i]'(by omega) <;> simp [Cell.NotConstant, wantedCell]

end PS

section C26
open PS
variable {S K F : Type} [DecidableEq S]

/-- C26 when no array mixes swept elements with constants or free elements: whatever the order of variables and elements, each key is in the
one dict its own value asks for, with that value, and nothing else is in the dicts. -/
theorem C26_class_partial (shape : S → Option Nat) (subs : S → Option (Sub K F)) (under : List (S × List (Key S)))
    (hl : Listed shape subs under) (hu : ∀ v sub, subs v = some sub → Unmixed sub) :
    ∃ p, parseSubs shape subs under = .ok p ∧
      (∀ vk ∈ under, ∀ key ∈ vk.2, p.Holds key ((subs vk.1).bind (wanted shape · key))) ∧
      ∀ key, key ∉ under.flatMap (·.2) → p.Holds key none := by
  obtain ⟨p, h1, h2, h3⟩ := parse_spec shape subs under ⟨[], [], []⟩ hl (fun _ _ => ⟨rfl, rfl, rfl⟩)
  refine ⟨p, h1, ?_, fun key hk => Holds.same (h2 key hk) ⟨rfl, rfl, rfl⟩⟩
  intro vk hvk key hk
  obtain ⟨w, w1, w2⟩ := h3 vk hvk key hk
  rcases w2 with rfl | ⟨sub, hs, q, hq, hw, _, hle⟩
  · exact w1
  · exact (unmixed_not (hu _ _ hs) (hl.fits vk hvk sub hs key hk) hw ((hl.own vk hvk key hk).trans (hl.own vk hvk q hq).symm) hle).elim

/-- C26 for all arrays: each key is in at most one dict, with its own value. It is the right dict, except that a constant or free element
counts as swept if another element of its vector is swept. -/
theorem C26_mixed_partial (shape : S → Option Nat) (subs : S → Option (Sub K F)) (under : List (S × List (Key S)))
    (hl : Listed shape subs under) :
    ∃ p, parseSubs shape subs under = .ok p ∧
      (∀ vk ∈ under, ∀ key ∈ vk.2, ∃ w, p.Holds key w ∧
        (w = (subs vk.1).bind (wanted shape · key) ∨ (∃ cs, subs vk.1 = some (.arr cs) ∧ (∃ c ∈ cs, c.Swept) ∧
          Leaked ((subs vk.1).bind (wanted shape · key)) w))) ∧
      ∀ key, key ∉ under.flatMap (·.2) → p.Holds key none := by
  obtain ⟨p, h1, h2, h3⟩ := parse_spec shape subs under ⟨[], [], []⟩ hl (fun _ _ => ⟨rfl, rfl, rfl⟩)
  refine ⟨p, h1, ?_, fun key hk => Holds.same (h2 key hk) ⟨rfl, rfl, rfl⟩⟩
  intro vk hvk key hk
  obtain ⟨w, w1, w2⟩ := h3 vk hvk key hk
  refine ⟨w, w1, ?_⟩
  rcases w2 with h | ⟨sub, hs, q, hq, hw, _, hle⟩
  · exact Or.inl h
  · obtain ⟨_, cs, c, rfl, hc, hcs⟩ := sweptAt_arr hw
    rw [hs]
    exact Or.inr ⟨cs, rfl, ⟨c, hc, hcs⟩, hle⟩

/-- A vector `x` with two elements and a scalar `y`. -/
def psShape : String → Option Nat := fun s => if s = "x" then some 2 else none

/-- The hypotheses can be met: `x` is a constant and a function, `y` is swept. -/
example : Listed (K := ℚ) (F := Unit) psShape (fun s => if s = "x" then some (.arr [.num 1, .fn ()]) else some (.cell (.sweep [1, 2])))
      [("y", [("y", none)]), ("x", [("x", some 1), ("x", some 0)])] ∧
    Unmixed (.arr [.num 1, .fn ()] : Sub ℚ Unit) := by
  refine ⟨⟨by decide, by decide, ?_⟩, Or.inl ?_⟩
  · intro vk hvk sub hs key hk
    simp only [List.mem_cons, List.not_mem_nil, or_false] at hvk
    rcases hvk with rfl | rfl
    · simp only [List.mem_cons, List.not_mem_nil, or_false] at hk
      subst hk
      exact rfl
    · simp only [if_true, Option.some.injEq] at hs
      subst hs
      simp only [List.mem_cons, List.not_mem_nil, or_false] at hk
      rcases hk with rfl | rfl
      · exact ⟨1, rfl, by decide, rfl⟩
      · exact ⟨0, rfl, by decide, rfl⟩
  · intro c hc
    simp only [List.mem_cons, List.not_mem_nil, or_false] at hc
    rcases hc with rfl | rfl <;> exact id

/-- C26 fails for a vector with a swept element and a free one: if the swept element is looked at first, the free element is swept too, over
NaN; in the other order it stays free. -/
theorem C26_leak_fails :
    let subs : String → Option (Sub ℚ Unit) := fun _ => some (.arr [.sweep [1, 2], .nan])
    parseSubs psShape subs [("x", [("x", some 0), ("x", some 1)])] =
      .ok ⟨[], [(("x", some 0), .list [1, 2]), (("x", some 1), .nan)], []⟩ ∧
    parseSubs psShape subs [("x", [("x", some 1), ("x", some 0)])] = .ok ⟨[], [(("x", some 0), .list [1, 2])], []⟩ := by
  decide +kernel

/-- C26 fails for a plain dict that names a variable twice: `{"y": 2, y: ("sweep", [1, 2])}` makes it a constant and a sweep. -/
theorem C26_twice_fails :
    parseDict psShape [((.cell (.num 2) : Sub ℚ Unit), [("y", none)]), (.cell (.sweep [1, 2]), [("y", none)])] =
      .ok ⟨[(("y", none), .num 2)], [(("y", none), .list [1, 2])], []⟩ := by decide +kernel

end C26
end Verif
