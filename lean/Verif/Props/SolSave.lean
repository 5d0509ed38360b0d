import Verif.Model.SolSave
import Verif.Lemmas.PyDict
import Mathlib.Tactic.SplitIfs

/-! Saving solutions: C42. -/

set_option linter.unusedSectionVars false

namespace Verif
open PyDict
namespace Sav

variable {C Val S R : Type} [DecidableEq C]

theorem attrs_ext {a b : Attrs C Val} (h1 : ∀ c x, a.inst c x = b.inst c x) (h2 : a.cls = b.cls) : a = b := by
  obtain ⟨ai, ac⟩ := a
  obtain ⟨bi, bc⟩ := b
  have : ai = bi := by funext c x; exact h1 c x
  subst this
  dsimp only at h2
  rw [h2]

theorem restoreAttr_inst (attr : String) : ∀ (store : PyDict C Val) (a : Attrs C Val), WF store → ∀ c x,
    (restoreAttr attr store a).inst c x = (if x = attr then get? store c else none).or (a.inst c x)
  | [], a, _, c, x => by simp [restoreAttr]
  | (c', v) :: store, a, h, c, x => by
    show (restoreAttr attr store (setattr a c' attr v)).inst c x = _
    rw [restoreAttr_inst attr store _ (wf_cons.1 h).2, get?_cons]
    by_cases hx : x = attr
    · subst hx
      simp only [if_true, setattr, and_true]
      by_cases hc : c' = c
      · subst hc
        have : get? store c' = none := by
          rw [get?_eq_none_iff]
          intro p hp
          have := (wf_cons.1 h).1 p hp
          rw [Bool.eq_false_iff] at this ⊢
          intro h'
          exact this (by rw [beq_iff_eq] at h' ⊢; exact h'.symm)
        simp [this]
      · simp [hc, show ¬ c = c' from fun h => hc h.symm]
    · simp [hx, setattr]

theorem restoreAttr_cls (attr : String) : ∀ (store : PyDict C Val) (a : Attrs C Val), (restoreAttr attr store a).cls = a.cls
  | [], _ => rfl
  | (c, v) :: store, a => restoreAttr_cls attr store (setattr a c attr v)

/-- What the inner loop does. -/
theorem storeAttr_spec (truthy : Val → Bool) (attr : String) : ∀ (cs : List C) (a a' : Attrs C Val) (store store' : PyDict C Val),
    storeAttr truthy attr cs a store = (a', .ok store') → WF store → (∀ c, get? store c ≠ none → a.inst c attr = none) →
    WF store' ∧ a'.cls = a.cls ∧ (∀ c x, x ≠ attr → a'.inst c x = a.inst c x) ∧
    (∀ c, (get? store' c).or (a'.inst c attr) = (get? store c).or (a.inst c attr)) ∧ (∀ c, get? store' c ≠ none → a'.inst c attr = none) ∧
    (∀ c ∈ cs, ∀ v, a'.inst c attr = some v → truthy v = false) ∧ (∀ c v, a'.inst c attr = some v → a.inst c attr = some v)
  | [], a, a', store, store', h, hw, hs => by
    cases h
    exact ⟨hw, rfl, fun _ _ _ => rfl, fun _ => rfl, hs, fun c hc => by simp at hc, fun _ _ h => h⟩
  | c :: cs, a, a', store, store', h, hw, hs => by
    rw [storeAttr] at h
    -- the case that nothing happens
    have skip : (∀ v, a.inst c attr = some v → truthy v = false) → storeAttr truthy attr cs a store = (a', .ok store') → WF store' ∧ a'.cls = a.cls ∧
        (∀ c x, x ≠ attr → a'.inst c x = a.inst c x) ∧ (∀ c, (get? store' c).or (a'.inst c attr) = (get? store c).or (a.inst c attr)) ∧
        (∀ c, get? store' c ≠ none → a'.inst c attr = none) ∧
        (∀ c' ∈ c :: cs, ∀ v, a'.inst c' attr = some v → truthy v = false) ∧ (∀ c v, a'.inst c attr = some v → a.inst c attr = some v) := by
      intro hv h
      obtain ⟨h1, h2, h3, h4, h5, h6, h7⟩ := storeAttr_spec truthy attr cs a a' store store' h hw hs
      refine ⟨h1, h2, h3, h4, h5, ?_, h7⟩
      intro c' hc' v hv'
      rcases List.mem_cons.1 hc' with rfl | hc'
      · exact hv v (h7 _ _ hv')
      · exact h6 c' hc' v hv'
    cases hg : getattr a c attr with
    | none =>
      rw [hg] at h
      refine skip (fun v hv => ?_) h
      rw [getattr, hv] at hg
      simp at hg
    | some v =>
      rw [hg] at h
      dsimp only at h
      cases ht : truthy v with
      | false =>
        rw [ht] at h
        refine skip (fun v' hv => ?_) h
        rw [getattr, hv] at hg
        simp only [Option.some_or, Option.some.injEq] at hg
        rw [hg, ht]
      | true =>
        rw [ht, if_pos rfl] at h
        unfold delattr at h
        cases hi : a.inst c attr with
        | none => rw [hi] at h; cases h
        | some v' =>
          rw [hi] at h
          dsimp only at h
          have hvv : v' = v := by
            rw [getattr, hi] at hg
            simpa using hg
          subst hvv
          have hs' : ∀ c', get? (store.set c v') c' ≠ none → (if c' = c ∧ attr = attr then none else a.inst c' attr) = none := by
            intro c' hc'
            rw [get?_set] at hc'
            by_cases he : c = c'
            · subst he; simp
            · rw [if_neg (by simpa using he)] at hc'
              rw [if_neg (fun h => he h.1.symm)]
              exact hs c' hc'
          obtain ⟨h1, h2, h3, h4, h5, h6, h7⟩ := storeAttr_spec truthy attr cs _ a' _ store' h (wf_set hw _ _) hs'
          refine ⟨h1, h2, ?_, ?_, h5, ?_, ?_⟩
          · intro c' x hx
            rw [h3 c' x hx]
            simp [hx]
          · intro c'
            rw [h4 c', get?_set]
            by_cases he : c = c'
            · subst he
              have : get? store c = none := by
                by_contra hne
                rw [hs c hne] at hi
                cases hi
              simp [this, hi]
            · rw [if_neg (by simpa using he)]
              simp [show ¬ c' = c from fun h => he h.symm]
          · intro c' hc' u hu
            rcases List.mem_cons.1 hc' with rfl | hc'
            · have := h7 _ _ hu
              simp at this
            · exact h6 c' hc' u hu
          · intro c' u hu
            have := h7 _ _ hu
            dsimp only at this
            split_ifs at this
            exact this

/-- What the outer loop does, and that the inverse loop undoes it. -/
theorem storeAll_spec (truthy : Val → Bool) (cs : List C) : ∀ (attrs : List String) (a a' : Attrs C Val) (d : PyDict String (PyDict C Val)),
    storeAll truthy cs attrs a = (a', .ok d) → attrs.Nodup → a'.cls = a.cls ∧ (∀ c x, x ∉ attrs → a'.inst c x = a.inst c x) ∧
    (∀ c ∈ cs, ∀ x ∈ attrs, ∀ v, a'.inst c x = some v → truthy v = false) ∧
    (∀ j : Attrs C Val, (∀ c, ∀ x ∈ attrs, j.inst c x = a'.inst c x) →
      (d.foldl (fun a st => restoreAttr st.1 st.2 a) j).cls = j.cls ∧
      ∀ c x, (d.foldl (fun a st => restoreAttr st.1 st.2 a) j).inst c x = if x ∈ attrs then a.inst c x else j.inst c x)
  | [], a, a', d, h, _ => by
    cases h
    exact ⟨rfl, fun _ _ _ => rfl, by simp, fun j _ => ⟨rfl, by simp⟩⟩
  | attr :: attrs, a, a', d, h, hn => by
    rw [storeAll] at h
    obtain ⟨hna, hn⟩ := List.nodup_cons.1 hn
    cases h1 : storeAttr truthy attr cs a [] with
    | mk a1 r1 =>
      rw [h1] at h
      cases r1 with
      | error e => cases h
      | ok store =>
        dsimp only at h
        cases h2 : storeAll truthy cs attrs a1 with
        | mk a2 r2 =>
          rw [h2] at h
          cases r2 with
          | error e => cases h
          | ok rest =>
            cases h
            obtain ⟨s1, s2, s3, s4, s5, s6, s7⟩ := storeAttr_spec truthy attr cs a a1 [] store h1 wf_nil (by simp)
            obtain ⟨t1, t2, t3, t4⟩ := storeAll_spec truthy cs attrs a1 a' rest h2 hn
            refine ⟨t1.trans s2, ?_, ?_, ?_⟩
            · intro c x hx
              rw [List.mem_cons, not_or] at hx
              rw [t2 c x hx.2, s3 c x hx.1]
            · intro c hc x hx v hv
              rcases List.mem_cons.1 hx with rfl | hx
              · rw [t2 c x hna] at hv
                exact s6 c hc v hv
              · exact t3 c hc x hx v hv
            · intro j hj
              rw [List.foldl_cons]
              have hagree : ∀ c, ∀ x ∈ attrs, (restoreAttr attr store j).inst c x = a'.inst c x := by
                intro c x hx
                rw [restoreAttr_inst attr store j s1]
                have hne : x ≠ attr := by rintro rfl; exact hna hx
                rw [if_neg hne, Option.none_or]
                exact hj c x (by simp [hx])
              obtain ⟨u1, u2⟩ := t4 (restoreAttr attr store j) hagree
              dsimp only
              refine ⟨u1.trans (restoreAttr_cls _ _ _), ?_⟩
              intro c x
              rw [u2 c x]
              by_cases hx : x ∈ attrs
              · have hne : x ≠ attr := by rintro rfl; exact hna hx
                rw [if_pos hx, if_pos (by simp [hx]), s3 c x hne]
              · rw [if_neg hx, restoreAttr_inst attr store j s1]
                by_cases he : x = attr
                · subst he
                  rw [if_pos rfl, if_pos (by simp), hj c x (by simp), t2 c x hna, s4 c]
                  simp
                · rw [if_neg he, if_neg (by simp [he, hx]), Option.none_or]

theorem storeAttr_ok (truthy : Val → Bool) (attr : String) : ∀ (cs : List C) (a : Attrs C Val) (store : PyDict C Val),
    (∀ c v, a.cls c attr = some v → truthy v = false) → ∃ a' s, storeAttr truthy attr cs a store = (a', .ok s) ∧ a'.cls = a.cls
  | [], a, store, _ => ⟨a, store, rfl, rfl⟩
  | c :: cs, a, store, h => by
    rw [storeAttr]
    cases hg : getattr a c attr with
    | none => exact storeAttr_ok truthy attr cs a store h
    | some v =>
      dsimp only
      cases ht : truthy v with
      | false => simpa using storeAttr_ok truthy attr cs a store h
      | true =>
        rw [if_pos rfl]
        unfold delattr
        cases hi : a.inst c attr with
        | none =>
          rw [getattr, hi, Option.none_or] at hg
          rw [h c v hg] at ht
          cases ht
        | some u => exact storeAttr_ok truthy attr cs _ _ h

theorem storeAll_ok (truthy : Val → Bool) (cs : List C) : ∀ (attrs : List String) (a : Attrs C Val),
    (∀ c, ∀ x ∈ attrs, ∀ v, a.cls c x = some v → truthy v = false) → ∃ a' d, storeAll truthy cs attrs a = (a', .ok d)
  | [], a, _ => ⟨a, [], rfl⟩
  | attr :: attrs, a, h => by
    rw [storeAll]
    obtain ⟨a1, s, h1, hc⟩ := storeAttr_ok truthy attr cs a [] (fun c => h c attr (by simp))
    rw [h1]
    obtain ⟨a2, d, h2⟩ := storeAll_ok truthy cs attrs a1 (fun c x hx => by rw [hc]; exact h c x (by simp [hx]))
    dsimp only
    rw [h2]
    exact ⟨_, _, rfl⟩

end Sav

section
open Sav
variable {C Val S R : Type} [DecidableEq C]

/-- The data of solves that constraints keep. -/
def solveData : List String := ["bounded", "meq_bounded", "vks", "v_ss", "unsubbed", "varkeys"]

/-- C42 for all classes of constraints whose own attributes of the removed names are empty, as all of the package are
(gpkit/nomials/math.py 367-368): a solution with sensitivities is saved, with or without constraints and whether or not pickling raises; afterwards all
attributes are as they were and the sensitivities hold what they held. -/
theorem C42_restores_partial {truthy : Val → Bool} {members : S → List C} {saveconstraints : Bool} {pickle : World C Val S → Except Err R}
    {w : World C Val S} {s : S} (hs : w.sens.get? "constraints" = some s) (hw : WF w.sens)
    (hc : ∀ c, ∀ x ∈ solveData, ∀ v, w.attrs.cls c x = some v → truthy v = false) :
    (save truthy members saveconstraints pickle w).1.attrs = w.attrs ∧
    (∀ k, (save truthy members saveconstraints pickle w).1.sens.get? k = w.sens.get? k) ∧
    ∃ w', (save truthy members saveconstraints pickle w).2 = pickle w' ∧
      (saveconstraints = true → w'.sens = w.sens ∧ (∀ c x, x ∉ solveData → w'.attrs.inst c x = w.attrs.inst c x) ∧
        ∀ c ∈ members s, ∀ x ∈ solveData, ∀ v, getattr w'.attrs c x = some v → truthy v = false) ∧
      (saveconstraints = false → w'.attrs = w.attrs ∧ ∀ k, w'.sens.get? k = if k = "constraints" then none else w.sens.get? k) := by
  have hrem : solveData = removed := rfl
  rw [hrem] at hc ⊢
  unfold save enter
  rw [hs]
  cases saveconstraints with
  | true =>
    simp only [if_true]
    obtain ⟨a', d, hd⟩ := storeAll_ok truthy (members s) removed w.attrs hc
    rw [hd]
    dsimp only [exit]
    obtain ⟨h1, h2, h3, h4⟩ := storeAll_spec truthy (members s) removed w.attrs a' d hd (by decide)
    obtain ⟨h5, h6⟩ := h4 a' (fun _ _ _ => rfl)
    refine ⟨attrs_ext ?_ (h5.trans h1), fun _ => rfl, _, rfl, fun _ => ⟨rfl, h2, ?_⟩, by simp⟩
    · intro c x
      rw [h6 c x]
      split_ifs with hx
      · rfl
      · exact h2 c x hx
    · intro c hm x hx v hv
      unfold getattr at hv
      dsimp only at hv
      cases hi : a'.inst c x with
      | some u =>
        rw [hi] at hv
        simp only [Option.some_or, Option.some.injEq] at hv
        rw [← hv]
        exact h3 c hm x hx u hi
      | none =>
        rw [hi, Option.none_or, h1] at hv
        exact hc c x hx v hv
  | false =>
    simp only [Bool.false_eq_true, if_false, exit]
    refine ⟨by trivial, ?_, _, rfl, by simp, fun _ => ⟨by trivial, ?_⟩⟩
    · intro k
      rw [get?_set, get?_del hw]
      by_cases hk : "constraints" = k
      · subst hk; simp [hs]
      · rw [if_neg (by simpa using hk), if_neg (by simpa using hk)]
    · intro k
      dsimp only
      rw [get?_del hw]
      by_cases hk : k = "constraints"
      · subst hk; simp
      · rw [if_neg hk, if_neg (by simpa using fun h => hk h.symm)]

/-- Two constraints, one of which has been solved; pickling raises. -/
def C42_attrs : Attrs Bool Nat := ⟨fun c x => if x = "vks" then some 3 else if c && x = "v_ss" then some 5 else none, fun _ x => if x = "bounded" then some 0 else none⟩

example : (save (R := Unit) (fun n => n != 0) (fun _ : Unit => [true, false]) true (fun _ => .error .typeError) ⟨C42_attrs, [("constraints", ())]⟩).1.attrs = C42_attrs :=
  (C42_restores_partial (s := ()) rfl (by simp [WF]) (by
    intro c x _ v h
    unfold C42_attrs at h
    dsimp only at h
    split_ifs at h
    cases h; rfl)).1

/-- C42 for a solution without the sensitivities of constraints: a KeyError, and nothing changes. -/
theorem C42_missing {truthy : Val → Bool} {members : S → List C} {saveconstraints : Bool} {pickle : World C Val S → Except Err R}
    {w : World C Val S} (hs : w.sens.get? "constraints" = none) : save truthy members saveconstraints pickle w = (w, .error .keyError) := by
  unfold save enter
  rw [hs]

example := C42_missing (R := Unit) (truthy := fun n : Nat => n != 0) (members := fun _ : Unit => [true]) (saveconstraints := true) (pickle := fun _ => .ok ())
  (w := ⟨C42_attrs, []⟩) rfl

/-- C42 fails for a class of constraints that has such an attribute itself: saving raises, and what was removed before does not come back. -/
theorem C42_class_fails : ∃ (w : World Bool Nat Unit), (∀ c x, w.attrs.cls c x ≠ none → c = true ∧ x = "v_ss") ∧
    (save (R := Unit) (fun n => n != 0) (fun _ : Unit => [true, false]) true (fun _ => .ok ()) w).2 = .error .attributeError ∧
    w.attrs.inst false "vks" = some 3 ∧
    (save (R := Unit) (fun n => n != 0) (fun _ : Unit => [true, false]) true (fun _ => .ok ()) w).1.attrs.inst false "vks" = none :=
  ⟨⟨⟨fun _ x => if x = "vks" then some 3 else none, fun c x => if c && x = "v_ss" then some 1 else none⟩, [("constraints", ())]⟩,
    by
      intro c x h
      dsimp only at h
      cases c with
      | false => simp at h
      | true =>
        refine ⟨by simp, ?_⟩
        by_contra hx
        simp [hx] at h,
    rfl, rfl, rfl⟩

end
end Verif
