import Verif.Spec.BadElement
import Verif.Props.CSet

/-! # C97: elements by key, and the error for unusable elements -/

set_option linter.unusedSectionVars false

namespace Verif
namespace CSet
variable {V K : Type} [DecidableEq V] [Field K] [LinearOrder K] [IsStrictOrderedRing K]

theorem listGet_nat {α : Type} (l : List α) (i : Nat) : listGet l (i : Int) = match l[i]? with
    | some a => .ok a
    | none => .error .indexError := by
  unfold listGet
  rw [if_neg (by omega)]
  rfl

theorem listGet_lt {α : Type} (l : List α) (i : Nat) (a : α) (h : l[i]? = some a) : listGet l (i : Int) = .ok a := by
  rw [listGet_nat, h]

theorem get?_zipIdx (l : List CKey) (n : Nat) (q : CKey) (j : Nat) (h : PyDict.get? (l.zipIdx n) q = some j) :
    n ≤ j ∧ j < n + l.length ∧ q ∈ l := by
  induction l generalizing n with
  | nil => cases h
  | cons k l ih =>
    rw [List.zipIdx_cons, PyDict.get?] at h
    by_cases hk : k = q
    · rw [if_pos (by simp [hk])] at h
      cases h
      simp [hk]
    · rw [if_neg (by simp [hk])] at h
      obtain ⟨h1, h2, h3⟩ := ih (n + 1) h
      refine ⟨by omega, by simp only [List.length_cons]; omega, List.mem_cons_of_mem _ h3⟩

theorem get?_zipIdx_eq (l : List CKey) (hn : l.Nodup) (n i : Nat) (q : CKey) (h : l[i]? = some q) :
    PyDict.get? (l.zipIdx n) q = some (n + i) := by
  induction l generalizing n i with
  | nil => cases h
  | cons k l ih =>
    rw [List.zipIdx_cons, PyDict.get?]
    cases i with
    | zero =>
      simp only [List.getElem?_cons_zero, Option.some.injEq] at h
      rw [if_pos (by simp [h])]; rfl
    | succ i =>
      rw [List.getElem?_cons_succ] at h
      rw [List.nodup_cons] at hn
      have hne : k ≠ q := fun e => hn.1 (e ▸ List.mem_of_getElem? h)
      rw [if_neg (by simp [hne]), ih hn.2 (n + 1) i h]
      congr 1; omega

/-- Positions, if no key is a number. -/
theorem getitem_names {α : Type} (keys : List CKey) (cns : List α) (hk : ∀ k ∈ keys, ∃ s, k = .name s) (i : Nat) (a : α)
    (h : cns[i]? = some a) : getitem keys cns (.int i) = .ok a := by
  unfold getitem
  cases hg : PyDict.get? (idxlookup keys) (.int i) with
  | some j =>
    obtain ⟨s, hs⟩ := hk _ (get?_zipIdx keys 0 _ j hg).2.2
    cases hs
  | none => exact listGet_lt cns i a h

mutual
theorem reprOK_rawless : ∀ (o : Obj V K), rawless1 o = true → reprOK o = true
  | .con _, _ => by rw [reprOK]
  | .cset _ _ _, _ => by rw [reprOK]
  | .raw _, h => by rw [rawless1] at h; cases h
  | .lst kids, h => by rw [rawless1] at h; rw [reprOK]; exact reprOKL_rawless kids h
  | .arr kids, h => by rw [rawless1] at h; rw [reprOK]; exact reprOKL_rawless kids h
  | .bad, _ => by rw [reprOK]
theorem reprOKL_rawless : ∀ (os : List (Obj V K)), rawlessL os = true → reprOKL os = true
  | [], _ => by rw [reprOKL]
  | o :: os, h => by
    rw [rawlessL, Bool.and_eq_true] at h
    rw [reprOKL, reprOK_rawless o h.1, reprOKL_rawless os h.2]; rfl
end

theorem strOK_rawless (o : Obj V K) (h : rawless1 o = true) : strOK o = true := by
  cases o with
  | raw kids => rw [rawless1] at h; cases h
  | con c => exact reprOK_rawless _ h
  | cset a b c => exact reprOK_rawless _ h
  | lst a => exact reprOK_rawless _ h
  | arr a => exact reprOK_rawless _ h
  | bad => exact reprOK_rawless _ h

theorem shown_names (keys : List CKey) (cns : List (Obj V K)) (hk : ∀ k ∈ keys, ∃ s, k = .name s) (i : Nat) (a : Obj V K)
    (h : cns[i]? = some a) (hr : rawless1 a = true) : shown keys cns i = .ok a := by
  unfold shown
  rw [getitem_names keys cns hk i a h]
  change (if strOK a = true then Except.ok a else Except.error Err.attributeError) = _
  rw [if_pos (strOK_rawless a hr)]

theorem initLoop_skip (keys : List CKey) (cns pre : List (Obj V K)) (hp : usableL true pre = true) (rest : List (Obj V K)) (i : Nat)
    (s : St V) : ∃ t, initLoop keys cns i (pre ++ rest) s = initLoop keys cns (i + pre.length) rest t := by
  induction pre generalizing i s with
  | nil => exact ⟨s, rfl⟩
  | cons o os ih =>
    rw [usableL, Bool.and_eq_true] at hp
    obtain ⟨a, ha⟩ := init1_usable o hp.1 s
    obtain ⟨t, ht⟩ := ih hp.2 (i + 1) a
    refine ⟨t, ?_⟩
    rw [List.cons_append, initLoop, ha]
    dsimp only
    rw [ht, List.length_cons, show i + 1 + os.length = i + (os.length + 1) by omega]

/-- The place that is given. -/
theorem place_names (keys : List CKey) (hk : ∀ k ∈ keys, ∃ s, k = .name s) (pre post : List (Obj V K)) (o : Obj V K)
    (hpre : ∀ p, pre.getLast? = some p → rawless1 p = true) (hpost : ∀ n, post.head? = some n → rawless1 n = true) :
    ∃ p, place keys (pre ++ o :: post) pre.length = .ok p ∧ Stands pre post p := by
  unfold place
  have hnext : ∀ n, post.head? = some n → shown keys (pre ++ o :: post) ((pre.length : Int) + 1) = .ok n := by
    intro n hn
    have := shown_names keys (pre ++ o :: post) hk (pre.length + 1) n (by
      rw [List.getElem?_append_right (by omega)]
      cases post with
      | nil => cases hn
      | cons a l => simpa using hn) (hpost n hn)
    simpa using this
  have hprev : ∀ p, pre.getLast? = some p → shown keys (pre ++ o :: post) ((pre.length : Int) - 1) = .ok p := by
    intro p hp
    have hne : pre.length ≠ 0 := by
      intro h0
      rw [List.length_eq_zero_iff.1 h0] at hp
      cases hp
    have := shown_names keys (pre ++ o :: post) hk (pre.length - 1) p (by
      rw [List.getElem?_append_left (by omega), ← List.getLast?_eq_getElem?]; exact hp) (hpre p hp)
    rw [← this]
    congr 1
    omega
  rcases hl : pre.getLast? with _ | p
  · have h0 : pre = [] := List.getLast?_eq_none_iff.1 hl
    subst h0
    rcases hh : post.head? with _ | n
    · have h1 : post = [] := List.head?_eq_none_iff.1 hh
      subst h1
      exact ⟨.only, by simp, rfl, rfl⟩
    · refine ⟨.start n, ?_, rfl, hh⟩
      have hne : post ≠ [] := by rintro rfl; cases hh
      rw [if_neg (by simpa using hne), if_pos List.length_nil, hnext n hh]
      rfl
  · have hne : pre ≠ [] := by rintro rfl; cases hl
    have hlen : pre.length ≠ 0 := fun h => hne (List.length_eq_zero_iff.1 h)
    rcases hh : post.head? with _ | n
    · have h1 : post = [] := List.head?_eq_none_iff.1 hh
      subst h1
      refine ⟨.last p, ?_, hl, rfl⟩
      rw [if_neg (by simp only [List.length_append, List.length_cons]; omega), if_neg hlen,
        if_pos (by simp only [List.length_append, List.length_cons, List.length_nil]; omega), hprev p hl]
      rfl
    · refine ⟨.between p n, ?_, hl, hh⟩
      have hpl : post.length ≠ 0 := by
        intro h
        rw [List.length_eq_zero_iff.1 h] at hh
        cases hh
      rw [if_neg (by simp only [List.length_append, List.length_cons]; omega), if_neg hlen,
        if_neg (by simp only [List.length_append, List.length_cons]; omega), hprev p hl]
      change (shown keys (pre ++ o :: post) ((pre.length : Int) + 1)).map (Place.between p) = _
      rw [hnext n hh]
      rfl

mutual
theorem rawless_usable : ∀ (o : Obj V K), usable1 true o = true → rawless1 o = true
  | .con _, _ => by rw [rawless1]
  | .cset _ _ _, _ => by rw [rawless1]
  | .raw _, h => by rw [usable1] at h; cases h
  | .lst kids, h => by rw [usable1] at h; rw [rawless1]; exact rawlessL_usable kids h
  | .arr kids, h => by rw [usable1] at h; rw [rawless1]; exact rawlessL_usableE kids h
  | .bad, _ => by rw [rawless1]
theorem rawlessL_usable : ∀ (os : List (Obj V K)), usableL true os = true → rawlessL os = true
  | [], _ => by rw [rawlessL]
  | o :: os, h => by
    rw [usableL, Bool.and_eq_true] at h
    rw [rawlessL, rawless_usable o h.1, rawlessL_usable os h.2]; rfl
theorem rawlessL_usableE : ∀ (os : List (Obj V K)), usableE true os = true → rawlessL os = true
  | [], _ => by rw [rawlessL]
  | .con _ :: os, h => by
    rw [usableE, Bool.and_eq_true] at h
    rw [rawlessL, rawless1, rawlessL_usableE os h.2]; rfl
  | .cset _ _ _ :: os, h => by
    rw [usableE, Bool.and_eq_true] at h
    rw [rawlessL, rawless1, rawlessL_usableE os h.2]; rfl
  | .raw _ :: os, h => by simp [usableE] at h
  | .lst _ :: os, h => by simp [usableE] at h
  | .arr _ :: os, h => by simp [usableE] at h
  | .bad :: os, h => by simp [usableE] at h
end

theorem usableL_mem {os : List (Obj V K)} (h : usableL true os = true) {o : Obj V K} (ho : o ∈ os) : usable1 true o = true := by
  induction os with
  | nil => cases ho
  | cons a l ih =>
    rw [usableL, Bool.and_eq_true] at h
    rcases List.mem_cons.1 ho with rfl | ho
    · exact h.1
    · exact ih h.2 ho

theorem initLoop_ok (keys : List CKey) (cns os : List (Obj V K)) (i : Nat) (s t : St V) :
    initLoop keys cns i os s = .ok t ↔ initL os s = .ok t := by
  induction os generalizing i s with
  | nil => rw [initLoop, initL]; simp
  | cons o os ih =>
    rw [initLoop, initL]
    cases hi : init1 o s with
    | ok a => exact ih (i + 1) a
    | error e =>
      dsimp only
      constructor
      · intro h
        split at h <;> cases h
      · intro h; cases h

theorem getitem_range {α : Type} (keys : List CKey) (cns : List α) (hl : keys = [] ∨ keys.length = cns.length) (j : Nat)
    (hj : j < cns.length) : ∃ a, getitem keys cns (.int j) = .ok a := by
  unfold getitem
  cases hg : PyDict.get? (idxlookup keys) (.int j) with
  | some i =>
    have hi := get?_zipIdx keys 0 _ i hg
    have : i < cns.length := by
      rcases hl with rfl | hl
      · simp at hi
      · omega
    exact ⟨cns[i], listGet_lt cns i _ (List.getElem?_eq_getElem this)⟩
  | none => exact ⟨cns[j], listGet_lt cns j _ (List.getElem?_eq_getElem hj)⟩

theorem shown_range (keys : List CKey) (cns : List (Obj V K)) (hl : keys = [] ∨ keys.length = cns.length) (j : Nat)
    (hj : j < cns.length) : (∃ a, shown keys cns j = .ok a) ∨ shown keys cns j = .error .attributeError := by
  obtain ⟨a, ha⟩ := getitem_range keys cns hl j hj
  unfold shown
  rw [ha]
  change (∃ b, (if strOK a = true then Except.ok a else Except.error Err.attributeError) = .ok b) ∨
    (if strOK a = true then Except.ok a else Except.error Err.attributeError) = _
  by_cases hs : strOK a = true
  · exact .inl ⟨a, if_pos hs⟩
  · exact .inr (if_neg hs)

theorem place_range (keys : List CKey) (cns : List (Obj V K)) (hl : keys = [] ∨ keys.length = cns.length) (i : Nat)
    (hi : i < cns.length) (e : Err) (h : place keys cns i = .error e) : e = .attributeError := by
  unfold place at h
  split at h
  · cases h
  rename_i h1
  have hs : i + 1 < cns.length → (∃ a, shown keys cns ((i : Int) + 1) = .ok a) ∨ shown keys cns ((i : Int) + 1) = .error .attributeError :=
    fun h => by simpa using shown_range keys cns hl (i + 1) h
  have hp : i ≠ 0 → (∃ a, shown keys cns ((i : Int) - 1) = .ok a) ∨ shown keys cns ((i : Int) - 1) = .error .attributeError := by
    intro h0
    have := shown_range keys cns hl (i - 1) (by omega)
    rwa [show ((i - 1 : Nat) : Int) = (i : Int) - 1 by omega] at this
  split at h
  · rcases hs (by omega) with ⟨a, ha⟩ | ha <;> rw [ha] at h <;> cases h
    rfl
  rename_i h2
  split at h
  · rcases hp h2 with ⟨a, ha⟩ | ha <;> rw [ha] at h <;> cases h
    rfl
  rename_i h3
  rcases hp h2 with ⟨a, ha⟩ | ha <;> rw [ha] at h
  · change (shown keys cns ((i : Int) + 1)).map (Place.between a) = _ at h
    rcases hs (by omega) with ⟨b, hb⟩ | hb <;> rw [hb] at h <;> cases h
    rfl
  · cases h; rfl

theorem initLoop_kinds (keys : List CKey) (cns os : List (Obj V K)) (hl : keys = [] ∨ keys.length = cns.length) (i : Nat)
    (hi : i + os.length = cns.length) (s : St V) (e : Err) (c : Option (Complaint V K)) (h : initLoop keys cns i os s = .error (e, c)) :
    (e = .valueError ∧ c.isSome) ∨ (e = .attributeError ∧ c = none) := by
  induction os generalizing i s with
  | nil => cases h
  | cons o os ih =>
    rw [List.length_cons] at hi
    rw [initLoop] at h
    split at h
    · exact ih (i + 1) (by omega) _ h
    · split at h
      · cases h; exact .inl ⟨rfl, rfl⟩
      · rename_i e' hb
        cases h
        refine .inr ⟨?_, rfl⟩
        unfold badelement at hb
        cases hp : place keys cns i with
        | error e'' =>
          rw [hp] at hb
          cases hb
          exact place_range keys cns hl i (by omega) _ hp
        | ok p =>
          rw [hp] at hb
          change (if reprOK o = true then Except.ok _ else Except.error Err.attributeError) = _ at hb
          split at hb <;> cases hb
          rfl

end CSet

section C97
open CSet
variable {V K : Type} [DecidableEq V] [Field K] [LinearOrder K] [IsStrictOrderedRing K]

/-- **C97** (keys). In a set made of a dict, the element under a key is the one it had in the dict. -/
theorem C97_named {α : Type} (keys : List CKey) (cns : List α) (hn : keys.Nodup) (i : Nat) (k : CKey) (a : α)
    (hk : keys[i]? = some k) (ha : cns[i]? = some a) : getitem keys cns k = .ok a := by
  unfold getitem idxlookup
  rw [get?_zipIdx_eq keys hn 0 i k hk, Nat.zero_add]
  exact listGet_lt cns i a ha

/-- **C97** (positions). In a set made of a list, or of a dict whose keys are strings, numbers are positions. -/
theorem C97_positions {α : Type} (keys : List CKey) (cns : List α) (hk : ∀ k ∈ keys, ∃ s, k = .name s) (i : Nat) (a : α)
    (ha : cns[i]? = some a) : getitem keys cns (.int i) = .ok a := getitem_names keys cns hk i a ha

/-- **C97** (usable elements). The set is made, and its attributes are those of C22 and C47. -/
theorem C97_accepts (keys : List CKey) (cns : List (Obj V K)) (own : List V) (fixed : V → Bool) (h : usableL true cns = true) :
    ∃ t, construct keys cns own fixed = .ok t ∧ state (.cset cns own fixed) = .ok t := by
  obtain ⟨t, ht⟩ := initL_usable cns h {}
  refine ⟨finish own fixed t, ?_, ?_⟩
  · unfold construct
    rw [(initLoop_ok keys cns cns 0 {} t).2 ht]; rfl
  · rw [state, ht]; rfl

/-- **C97** (unusable elements). Whatever the keys, a set is not made if something in it, at any depth, is not a constraint. -/
theorem C97_rejects (keys : List CKey) (cns : List (Obj V K)) (own : List V) (fixed : V → Bool) (h : badL cns = true) :
    ∃ e, construct keys cns own fixed = .error e := by
  unfold construct
  cases hi : initLoop keys cns 0 cns ({} : St V) with
  | error e => exact ⟨e, rfl⟩
  | ok t => exact absurd ((initLoop_ok keys cns cns 0 {} t).1 hi) (initL_bad cns h {} t)

/-- **C97** (exceptions). The exception is a `ValueError` that says which element is meant, or an `AttributeError` that does not. -/
theorem C97_exceptions (keys : List CKey) (cns : List (Obj V K)) (own : List V) (fixed : V → Bool)
    (hl : keys = [] ∨ keys.length = cns.length) (e : Err) (c : Option (Complaint V K))
    (h : construct keys cns own fixed = .error (e, c)) : (e = .valueError ∧ c.isSome) ∨ (e = .attributeError ∧ c = none) := by
  unfold construct at h
  cases hi : initLoop keys cns 0 cns ({} : St V) with
  | ok t => rw [hi] at h; cases h
  | error x =>
    rw [hi] at h
    cases h
    exact initLoop_kinds keys cns cns hl 0 (by omega) {} e c hi

/-- **C97** (the message). If the elements before one are usable, and it is an empty set that is not initialised or has something in it that
is not a constraint, the exception is a `ValueError` that names it, says where it stands, and says whether it was not initialised. Asked for:
keys that are not numbers (`C97_integer_fails`) and no other sets that are not initialised next to it or in it (`C97_uninit_fails`). -/
theorem C97_message_partial (keys : List CKey) (hk : ∀ k ∈ keys, ∃ s, k = .name s) (pre post : List (Obj V K)) (o : Obj V K)
    (own : List V) (fixed : V → Bool) (hpre : usableL true pre = true)
    (ho : (bad1 o = true ∧ rawless1 o = true) ∨ o = .raw [])
    (hpost : ∀ n, post.head? = some n → rawless1 n = true) :
    ∃ p b, construct keys (pre ++ o :: post) own fixed = .error (.valueError, some ⟨o, p, b⟩) ∧ Stands pre post p ∧
      (b = true ↔ o = .raw []) := by
  obtain ⟨p, hp, hs⟩ := place_names keys hk pre post o
    (fun p hp => rawless_usable p (usableL_mem hpre (List.mem_of_getLast? hp))) hpost
  refine ⟨p, isRaw o, ?_, hs, ?_⟩
  · unfold construct
    obtain ⟨t, ht⟩ := initLoop_skip keys (pre ++ o :: post) pre hpre (o :: post) 0 {}
    rw [ht, initLoop]
    have hbad : ∃ e, init1 o t = .error e := by
      cases hi : init1 o t with
      | error e => exact ⟨e, rfl⟩
      | ok u =>
        rcases ho with ⟨h, _⟩ | rfl
        · exact absurd hi (init1_bad o h t u)
        · rw [init1] at hi; cases hi
    obtain ⟨e, he⟩ := hbad
    rw [he]
    dsimp only
    have hr : reprOK o = true := by
      rcases ho with ⟨_, h⟩ | rfl
      · exact reprOK_rawless o h
      · rw [reprOK]; rfl
    have : badelement keys (pre ++ o :: post) (0 + pre.length) o (isRaw o) = .ok ⟨o, p, isRaw o⟩ := by
      unfold badelement
      rw [Nat.zero_add, hp]
      change (if reprOK o = true then Except.ok _ else Except.error Err.attributeError) = _
      rw [if_pos hr]
    rw [this]
    rfl
  · rcases ho with ⟨_, h⟩ | rfl
    · cases o with
      | raw kids => rw [rawless1] at h; cases h
      | _ => simp [isRaw]
    · simp [isRaw]

/-- The hypotheses can be met: `[x-constraint, [False], y-constraint]`. -/
example : ∃ (pre post : List (Obj String ℚ)) (o : Obj String ℚ), usableL true pre = true ∧ (bad1 o = true ∧ rawless1 o = true) ∧
    (∀ n, post.head? = some n → rawless1 n = true) ∧ pre.length = 1 ∧ post.length = 1 := by
  refine ⟨[.con (.ineq [] ["x"])], [.con (.ineq [] ["y"])], .lst [.bad], ?_, ⟨?_, ?_⟩, ?_, rfl, rfl⟩
  · simp [usableL, usable1]
  · simp [bad1, badL]
  · simp [rawless1, rawlessL]
  · intro n hn
    simp only [List.head?_cons, Option.some.injEq] at hn
    rw [← hn, rawless1]

/-- The hypotheses of the others can be met. -/
example : ∃ keys : List CKey, keys.Nodup ∧ (∀ k ∈ keys, ∃ s, k = .name s) ∧ keys.length = 2 :=
  ⟨[.name ['a'], .name ['b']], by decide, by simp, rfl⟩

/-- **C97 fails** if keys are numbers. Of `{1: c, 0: False, 5: d}` it is said that `False` is between `False` and `d`, as the position before
it, 0, is taken for the key 0. -/
theorem C97_integer_fails : ∃ (keys : List CKey) (c d : Obj String ℚ), keys.Nodup ∧ usableL true [c, d] = true ∧
    construct keys [c, .bad, d] [] (fun _ => false) = .error (.valueError, some ⟨.bad, .between .bad d, false⟩) ∧
    ¬ Stands [c] [d] (.between .bad d) := by
  refine ⟨[.int 1, .int 0, .int 5], .con (.ineq [] ["x"]), .con (.ineq [] ["y"]), by decide, by simp [usableL, usable1], ?_, ?_⟩
  · unfold construct
    rw [initLoop, init1, state]
    change Except.map _ (initLoop _ _ 1 _ _) = _
    rw [initLoop, init1]
    rfl
  · rintro ⟨h, _⟩
    cases h

/-- **C97 fails** next to a set that is not initialised, whose text cannot be made: `[False, raw]` raises an `AttributeError` that says
nothing of the element. So does a set that is not initialised but has elements. -/
theorem C97_uninit_fails : (construct [] [(.bad : Obj String ℚ), .raw []] [] (fun _ => false) = .error (.attributeError, none)) ∧
    (construct [] [(.raw [.con (.ineq [] ["x"])] : Obj String ℚ)] [] (fun _ => false) = .error (.attributeError, none)) := by
  constructor
  · unfold construct
    rw [initLoop, init1]
    rfl
  · unfold construct
    rw [initLoop, init1]
    unfold badelement
    rw [reprOK]
    rfl

end C97
end Verif
