import Verif.Spec.Globals
import Verif.Lemmas.PyDict
import Mathlib.Data.List.Nodup

/-! Environments: C34 and C35. -/

set_option linter.unusedSectionVars false

namespace Verif
open PyDict
namespace Globals

/-- What code never changes: the environment it runs in, and the entries of `namedvars` for environments that it runs in. -/
structure Kept (s s' : St) : Prop where
  lineage : s'.lineage = s.lineage
  vec : s'.vectorization = s.vectorization
  wf : WF s.namedvars → WF s'.namedvars
  keys : ∀ k : Lineage, k.length ≤ s.lineage.length → s.namedvars.contains k = true → s'.namedvars.contains k = true
  grows : ∃ t, s'.trace = s.trace ++ t

theorem Kept.refl (s : St) : Kept s s := ⟨rfl, rfl, id, fun _ _ h => h, [], by simp⟩

theorem Kept.trans {s t u : St} (h : Kept s t) (h' : Kept t u) : Kept s u := by
  refine ⟨h'.lineage.trans h.lineage, h'.vec.trans h.vec, h'.wf ∘ h.wf, ?_, ?_⟩
  · intro k hk hc
    exact h'.keys k (by rw [h.lineage]; exact hk) (h.keys k hk hc)
  · obtain ⟨a, ha⟩ := h.grows
    obtain ⟨b, hb⟩ := h'.grows
    exact ⟨a ++ b, by rw [hb, ha, List.append_assoc]⟩

theorem contains_set_of {α β : Type} [BEq α] [LawfulBEq α] {d : PyDict α β} {k q : α} {v : β} (h : d.contains q = true ∨ q = k) :
    (PyDict.set d k v).contains q = true := by
  rw [contains_iff, get?_set]
  split_ifs with he
  · exact ⟨_, rfl⟩
  · rcases h with h | h
    · exact contains_iff.1 h
    · exact (he (by simp [h])).elim

theorem enter_contains (s : St) (name : String) : (enter s name).namedvars.contains (enter s name).lineage = true := by
  unfold enter
  dsimp only
  split_ifs with h
  · exact h
  · exact contains_set_of (Or.inr rfl)

theorem leave_ok {s : St} (h : s.namedvars.contains s.lineage = true) :
    leave s = ({ s with namedvars := s.namedvars.del s.lineage, lineage := s.lineage.dropLast,
                        trace := s.trace ++ [.left s.lineage ((s.namedvars.get? s.lineage).getD [])] }, .ok ()) := by
  obtain ⟨v, hv⟩ := contains_iff.1 h
  unfold leave
  rw [hv]; rfl

theorem contains_del_of {α β : Type} [BEq α] [LawfulBEq α] {d : PyDict α β} (hw : WF d) {k q : α} (hq : q ≠ k) :
    (PyDict.del d k).contains q = d.contains q := by
  unfold PyDict.contains
  rw [get?_del hw, if_neg (by simpa using fun h => hq h.symm)]

/-- `kept` for all code; `WF` of `namedvars` is needed as deletion removes one entry. -/
theorem exec_kept : ∀ (p : Prog) (s : St), WF s.namedvars → Kept s (exec p s).1
  | .skip, s, _ => Kept.refl s
  | .seq p q, s, hw => by
    have h := exec_kept p s hw
    unfold exec
    rcases he : exec p s with ⟨t, o⟩
    rw [he] at h
    cases o with
    | error e => exact h
    | ok u => exact h.trans (exec_kept q t (h.wf hw))
  | .named name p, s, hw => by
    have hwe : WF (enter s name).namedvars := by
      unfold enter; dsimp only
      split_ifs
      · exact hw
      · exact wf_set hw _ _
    have h := exec_kept p (enter s name) hwe
    unfold exec
    rcases he : exec p (enter s name) with ⟨t, o⟩
    rw [he] at h
    dsimp only at h ⊢
    have hc : t.namedvars.contains t.lineage = true := by
      rw [h.lineage]; exact h.keys _ (le_refl _) (enter_contains s name)
    rw [leave_ok hc]
    dsimp only
    have hl : t.lineage = s.lineage ++ [(name, (s.modelnums.get? (s.lineage, name)).getD 0)] := h.lineage
    refine ⟨by dsimp only; rw [hl, List.dropLast_concat], h.vec, fun _ => wf_del (h.wf hwe) _, ?_, ?_⟩
    · intro k hk hkc
      dsimp only
      rw [contains_del_of (h.wf hwe) (by intro hkl; rw [hkl, hl] at hk; simp at hk)]
      refine h.keys k (by unfold enter; dsimp only; rw [List.length_append]; omega) ?_
      unfold enter; dsimp only
      split_ifs
      · exact hkc
      · exact contains_set_of (Or.inl hkc)
    · obtain ⟨a, ha⟩ := h.grows
      refine ⟨[.entered (enter s name).lineage] ++ a ++ [.left t.lineage ((t.namedvars.get? t.lineage).getD [])], ?_⟩
      dsimp only
      rw [ha, show (enter s name).trace = s.trace ++ [.entered (enter s name).lineage] from rfl]
      simp
  | .vectorize n p, s, hw => by
    have h := exec_kept p { s with vectorization := n :: s.vectorization } hw
    unfold exec
    rcases he : exec p { s with vectorization := n :: s.vectorization } with ⟨t, o⟩
    rw [he] at h
    exact ⟨h.lineage, by dsimp only; rw [h.vec]; rfl, h.wf, h.keys, h.grows⟩
  | .signomials p, s, hw => by
    have h := exec_kept p { s with signomials := true } hw
    unfold exec
    rcases he : exec p { s with signomials := true } with ⟨t, o⟩
    rw [he] at h
    exact ⟨h.lineage, h.vec, h.wf, h.keys, h.grows⟩
  | .var name shape, s, hw => by
    unfold exec make
    refine ⟨rfl, rfl, fun _ => ?_, ?_, _, rfl⟩
    · dsimp only
      split_ifs
      · exact wf_set hw _ _
      · exact hw
    · intro k _ hk
      dsimp only
      split_ifs
      · exact contains_set_of (Or.inl hk)
      · exact hk
  | .raise, s, _ => Kept.refl s
  | .attempt p q, s, hw => by
    have h := exec_kept p s hw
    unfold exec
    rcases he : exec p s with ⟨t, o⟩
    rw [he] at h
    cases o with
    | error e => exact h.trans (exec_kept q t (h.wf hw))
    | ok u => exact h
  | .reset, s, _ => ⟨rfl, rfl, id, fun _ _ h => h, _, rfl⟩

/-! ### Lineages are new -/

theorem segments_append (a b : List Event) : ∃ i l r, segments a = i ++ [l] ∧ segments b = r ∧
    segments (a ++ b) = i ++ (match r with | [] => [l] | x :: xs => (l ++ x) :: xs) := by
  induction a with
  | nil =>
    refine ⟨[], [], segments b, rfl, rfl, ?_⟩
    have : segments b ≠ [] := by
      induction b with
      | nil => simp [segments]
      | cons e b ih =>
        cases e with
        | entered l => unfold segments; split <;> simp
        | left l v => exact ih
        | made v s => exact ih
        | reset => simp [segments]
    cases h : segments b with
    | nil => exact (this h).elim
    | cons x xs => simp [h]
  | cons e a ih =>
    obtain ⟨i, l, r, h1, h2, h3⟩ := ih
    subst h2
    cases e with
    | entered x =>
      cases i with
      | nil =>
        refine ⟨[], x :: l, _, by simp only [segments, h1, List.nil_append], rfl, ?_⟩
        simp only [List.cons_append, segments, h3, List.nil_append]
        cases segments b <;> rfl
      | cons y i =>
        refine ⟨(x :: y) :: i, l, _, by simp only [segments, h1, List.cons_append], rfl, ?_⟩
        simp only [List.cons_append, segments, h3]
    | left x v => exact ⟨i, l, _, h1, rfl, h3⟩
    | made v s => exact ⟨i, l, _, h1, rfl, h3⟩
    | reset =>
      refine ⟨[] :: i, l, _, by simp only [segments, h1, List.cons_append], rfl, ?_⟩
      simp only [List.cons_append, segments, h3]

/-- All segments are without repetition, and the counters are above the numbers of the last one. -/
structure Fresh (s : St) : Prop where
  nodup : ∀ x ∈ segments s.trace, x.Nodup
  below : ∀ i l, segments s.trace = i ++ [l] → ∀ pre name num, pre ++ [(name, num)] ∈ l → num < (s.modelnums.get? (pre, name)).getD 0

theorem segments_snoc_other {t : List Event} {e : Event} (h : (∃ l v, e = .left l v) ∨ ∃ v b, e = .made v b) : segments (t ++ [e]) = segments t := by
  obtain ⟨i, l, r, h1, h2, h3⟩ := segments_append t [e]
  have : r = [[]] := by rcases h with ⟨a, b, rfl⟩ | ⟨a, b, rfl⟩ <;> exact h2.symm
  rw [h3, this, h1]; simp

theorem fresh_of {s s' : St} (h : Fresh s) (h1 : segments s'.trace = segments s.trace) (h2 : s'.modelnums = s.modelnums) : Fresh s' :=
  ⟨by rw [h1]; exact h.nodup, by rw [h1, h2]; exact h.below⟩

theorem fresh_enter {s : St} (h : Fresh s) (name : String) : Fresh (enter s name) := by
  have ht : (enter s name).trace = s.trace ++ [.entered (s.lineage ++ [(name, (s.modelnums.get? (s.lineage, name)).getD 0)])] := rfl
  have hm : (enter s name).modelnums = s.modelnums.set (s.lineage, name) ((s.modelnums.get? (s.lineage, name)).getD 0 + 1) := rfl
  generalize hnum : (s.modelnums.get? (s.lineage, name)).getD 0 = num at ht hm
  obtain ⟨i, l, r, h1, h2, h3⟩ := segments_append s.trace [.entered (s.lineage ++ [(name, num)])]
  have hr : r = [[s.lineage ++ [(name, num)]]] := h2.symm
  rw [hr] at h3
  dsimp only at h3
  have hb := h.below i l h1
  have hnew : s.lineage ++ [(name, num)] ∉ l := fun hm => by have := hb _ _ _ hm; omega
  refine ⟨?_, ?_⟩
  · rw [ht, h3]
    intro x hx
    rcases List.mem_append.1 hx with hx | hx
    · exact h.nodup x (by rw [h1]; exact List.mem_append_left _ hx)
    · rw [List.mem_singleton] at hx
      subst hx
      have := h.nodup l (by rw [h1]; simp)
      exact List.nodup_append.2 ⟨this, by simp, by rintro a ha b hb rfl; rw [List.mem_singleton] at hb; subst hb; exact hnew ha⟩
  · rw [ht, h3, hm]
    intro i' l' he pre nm n hmem
    obtain ⟨_, he2⟩ := List.append_inj' he rfl
    have he2 : l ++ [s.lineage ++ [(name, num)]] = l' := by simpa using he2
    rw [← he2] at hmem
    rw [get?_set]
    rcases List.mem_append.1 hmem with hmem | hmem
    · have := hb pre nm n hmem
      split_ifs with hk
      · have hk : (s.lineage, name) = (pre, nm) := by simpa using hk
        rw [← hk, hnum] at this
        simp only [Option.getD_some]
        omega
      · exact this
    · rw [List.mem_singleton] at hmem
      obtain ⟨e1, e2⟩ := List.append_inj' hmem rfl
      have e2 : nm = name ∧ n = num := by simpa using e2
      rw [if_pos (by simp [e1, e2.1])]
      simp only [Option.getD_some]
      omega

theorem fresh_exec : ∀ (p : Prog) (s : St), Fresh s → Fresh (exec p s).1
  | .skip, _, h => h
  | .seq p q, s, hf => by
    have h := fresh_exec p s hf
    unfold exec
    rcases he : exec p s with ⟨t, o⟩
    rw [he] at h
    cases o with
    | error e => exact h
    | ok u => exact fresh_exec q t h
  | .named name p, s, hf => by
    have h := fresh_exec p (enter s name) (fresh_enter hf name)
    unfold exec
    rcases he : exec p (enter s name) with ⟨t, o⟩
    rw [he] at h
    dsimp only at h ⊢
    unfold leave
    cases t.namedvars.get? t.lineage with
    | none => exact h
    | some v => exact fresh_of h (segments_snoc_other (Or.inl ⟨_, _, rfl⟩)) rfl
  | .vectorize n p, s, hf => by
    have h := fresh_exec p { s with vectorization := n :: s.vectorization } (fresh_of hf rfl rfl)
    unfold exec
    rcases he : exec p { s with vectorization := n :: s.vectorization } with ⟨t, o⟩
    rw [he] at h
    exact fresh_of h rfl rfl
  | .signomials p, s, hf => by
    have h := fresh_exec p { s with signomials := true } (fresh_of hf rfl rfl)
    unfold exec
    rcases he : exec p { s with signomials := true } with ⟨t, o⟩
    rw [he] at h
    exact fresh_of h rfl rfl
  | .var name shape, s, hf => fresh_of hf (segments_snoc_other (Or.inr ⟨_, _, rfl⟩)) rfl
  | .raise, _, h => h
  | .attempt p q, s, hf => by
    have h := fresh_exec p s hf
    unfold exec
    rcases he : exec p s with ⟨t, o⟩
    rw [he] at h
    cases o with
    | error e => exact fresh_exec q t h
    | ok u => exact h
  | .reset, s, hf => by
    obtain ⟨i, l, r, h1, h2, h3⟩ := segments_append s.trace [.reset]
    have hr : r = [[], []] := h2.symm
    rw [hr] at h3
    dsimp only [List.append_nil] at h3
    have ht : (exec .reset s).1.trace = s.trace ++ [.reset] := rfl
    refine ⟨?_, ?_⟩
    · rw [ht, h3]
      intro x hx
      rcases List.mem_append.1 hx with hx | hx
      · exact hf.nodup x (by rw [h1]; exact List.mem_append_left _ hx)
      · simp only [List.append_nil, List.mem_cons, List.not_mem_nil, or_false] at hx
        rcases hx with rfl | rfl
        · exact hf.nodup x (by rw [h1]; simp)
        · exact List.nodup_nil
    · rw [ht, h3]
      intro i' l' he pre nm n hmem
      have he' : (i ++ [l ++ []]) ++ [[]] = i' ++ [l'] := by simpa using he
      have := (List.append_inj' he' rfl).2
      have : l' = [] := by simpa using this.symm
      rw [this] at hmem
      cases hmem

/-! ### The list of variables of a model -/

/-- Entries of `namedvars` belong to environments that the code runs in. -/
def Clean (s : St) : Prop := ∀ k, s.namedvars.contains k = true → k <+: s.lineage

theorem madeIn_append (l : Lineage) (a b : List Event) : madeIn l (a ++ b) = madeIn l a ++ madeIn l b := List.filterMap_append

/-- For each environment that the code runs in, the list grows by exactly the variables made in it. -/
structure Lists (s s' : St) : Prop where
  clean : Clean s'
  vars : ∃ t, s'.trace = s.trace ++ t ∧ ∀ k, k ≠ [] → k <+: s.lineage → s.namedvars.contains k = true →
    s'.namedvars.get? k = some ((s.namedvars.get? k).getD [] ++ madeIn k t)

theorem Lists.refl {s : St} (h : Clean s) : Lists s s := by
  refine ⟨h, [], by simp, ?_⟩
  intro k _ _ hc
  obtain ⟨v, hv⟩ := contains_iff.1 hc
  rw [hv]; simp [madeIn]

theorem Lists.trans {s t u : St} (h : Lists s t) (hk : Kept s t) (h' : Lists t u) : Lists s u := by
  obtain ⟨a, ha, ha'⟩ := h.vars
  obtain ⟨b, hb, hb'⟩ := h'.vars
  refine ⟨h'.clean, a ++ b, by rw [hb, ha, List.append_assoc], ?_⟩
  intro k h0 hp hc
  have e := ha' k h0 hp hc
  rw [hb' k h0 (by rw [hk.lineage]; exact hp) (contains_iff.2 ⟨_, e⟩), e, madeIn_append, Option.getD_some, List.append_assoc]

theorem enter_fresh_key {s : St} (hc : Clean s) (name : String) :
    s.namedvars.contains (enter s name).lineage = false := by
  rw [← Bool.not_eq_true]
  intro h
  have h1 := (hc _ h).length_le
  have h2 : (enter s name).lineage = s.lineage ++ [(name, (s.modelnums.get? (s.lineage, name)).getD 0)] := rfl
  rw [h2] at h1
  simp at h1

theorem enter_namedvars {s : St} (hc : Clean s) (name : String) : (enter s name).namedvars = s.namedvars.set (enter s name).lineage [] := by
  have h := enter_fresh_key hc name
  unfold enter at h ⊢
  dsimp only at h ⊢
  rw [if_neg (by simp [h])]

/-- The record of a named block. -/
theorem named_trace (name : String) (p : Prog) (s : St) (hw : WF s.namedvars) (hc : Clean s) (ih : Lists (enter s name) (exec p (enter s name)).1) :
    let l := (enter s name).lineage
    Lists s (exec (.named name p) s).1 ∧
    ∃ t, (exec p (enter s name)).1.trace = s.trace ++ [.entered l] ++ t ∧
      (exec (.named name p) s).1.trace = s.trace ++ [.entered l] ++ t ++ [.left l (madeIn l t)] ∧ (exec (.named name p) s).2 = (exec p (enter s name)).2 := by
  intro l
  have hnv := enter_namedvars hc name
  have hwe : WF (enter s name).namedvars := by rw [hnv]; exact wf_set hw _ _
  have hk := exec_kept p (enter s name) hwe
  have hex : exec (.named name p) s = match exec p (enter s name) with
    | (s, o) =>
      match leave s with
      | (s, .ok ()) => (s, o)
      | (s, .error e) => (s, .error e) := rfl
  rw [hex]
  rcases he : exec p (enter s name) with ⟨t, o⟩
  rw [he] at hk ih
  dsimp only at hk ih ⊢
  have hlin : t.lineage = l := hk.lineage
  have hl : l = s.lineage ++ [(name, (s.modelnums.get? (s.lineage, name)).getD 0)] := rfl
  have hcon : t.namedvars.contains t.lineage = true := by
    rw [hk.lineage]; exact hk.keys _ (le_refl _) (enter_contains s name)
  rw [leave_ok hcon]
  obtain ⟨tr, htr, hv⟩ := ih.vars
  have hget : t.namedvars.get? l = some (madeIn l tr) := by
    rw [hv l (by rw [hl]; simp) List.prefix_rfl (enter_contains s name), hnv, get?_set_self]; rfl
  have htt : (enter s name).trace = s.trace ++ [.entered l] := rfl
  refine ⟨⟨?_, [.entered l] ++ tr ++ [.left l (madeIn l tr)], ?_, ?_⟩, tr, by rw [htr, htt], ?_, rfl⟩
  · intro k hkc
    dsimp only at hkc ⊢
    rw [hlin] at hkc ⊢
    have hkl : k ≠ l := by
      rintro rfl
      rw [contains_iff, get?_del (hk.wf hwe)] at hkc
      simp at hkc
    rw [contains_del_of (hk.wf hwe) hkl] at hkc
    have hpre := ih.clean k hkc
    rw [hlin, hl] at hpre
    rcases (List.prefix_concat_iff).1 hpre with h | h
    · exact (hkl (by rw [hl]; exact h)).elim
    · rw [hl, List.dropLast_concat]; exact h
  · dsimp only
    rw [htr, htt, hlin, hget]
    simp
  · intro k h0 hp hkc
    have hkl : k ≠ l := by
      rintro rfl
      have := hp.length_le
      rw [hl] at this
      simp at this
    dsimp only
    rw [hlin, get?_del (hk.wf hwe), if_neg (by simpa using fun h => hkl h.symm)]
    have hke : (enter s name).namedvars.get? k = s.namedvars.get? k := by
      rw [hnv, get?_set, if_neg (by simpa using fun h => hkl h.symm)]
    rw [hv k h0 (by show k <+: l; rw [hl]; exact hp.trans (List.prefix_append _ _)) (by unfold PyDict.contains; rw [hke]; exact hkc), hke]
    rw [madeIn_append, madeIn_append]
    simp [madeIn]
  · dsimp only
    rw [htr, htt, hlin, hget]
    simp

theorem lists_exec : ∀ (p : Prog) (s : St), WF s.namedvars → Clean s → (s.lineage ≠ [] → s.namedvars.contains s.lineage = true) → Lists s (exec p s).1
  | .skip, s, _, hc, _ => Lists.refl hc
  | .seq p q, s, hw, hc, hl => by
    have h := lists_exec p s hw hc hl
    have hk := exec_kept p s hw
    unfold exec
    rcases he : exec p s with ⟨t, o⟩
    rw [he] at h hk
    cases o with
    | error e => exact h
    | ok u =>
      exact h.trans hk (lists_exec q t (hk.wf hw) h.clean (by rw [hk.lineage]; exact fun h0 => hk.keys _ (le_refl _) (hl h0)))
  | .named name p, s, hw, hc, hl => by
    have hnv := enter_namedvars hc name
    refine (named_trace name p s hw hc (lists_exec p (enter s name) (by rw [hnv]; exact wf_set hw _ _) ?_ (fun _ => enter_contains s name))).1
    intro k hk
    rw [hnv, contains_iff, get?_set] at hk
    split_ifs at hk with h
    · have : (enter s name).lineage = k := by simpa using h
      rw [this]; exact List.prefix_rfl
    · exact (hc k (contains_iff.2 hk)).trans (List.prefix_append _ _)
  | .vectorize n p, s, hw, hc, hl => by
    have h := lists_exec p { s with vectorization := n :: s.vectorization } hw hc hl
    unfold exec
    rcases he : exec p { s with vectorization := n :: s.vectorization } with ⟨t, o⟩
    rw [he] at h
    exact ⟨h.clean, h.vars⟩
  | .signomials p, s, hw, hc, hl => by
    have h := lists_exec p { s with signomials := true } hw hc hl
    unfold exec
    rcases he : exec p { s with signomials := true } with ⟨t, o⟩
    rw [he] at h
    exact ⟨h.clean, h.vars⟩
  | .var name shape, s, hw, hc, hl => by
    unfold exec make
    refine ⟨?_, _, rfl, ?_⟩
    · intro k hk
      dsimp only at hk ⊢
      split_ifs at hk with h0
      · rw [contains_iff, get?_set] at hk
        split_ifs at hk with h
        · have : s.lineage = k := by simpa using h
          rw [this]; exact List.prefix_rfl
        · exact hc k (contains_iff.2 hk)
      · exact hc k hk
    · intro k h0 hp hkc
      dsimp only
      have hne : s.lineage ≠ [] := by
        intro h; rw [h] at hp; exact h0 (List.prefix_nil.1 hp)
      rw [if_pos hne, get?_set]
      by_cases h : s.lineage = k
      · subst h
        rw [if_pos (by simp)]
        simp [madeIn]
      · rw [if_neg (by simpa using h)]
        obtain ⟨v, hv⟩ := contains_iff.1 hkc
        rw [hv]
        simp [madeIn, h]
  | .raise, s, _, hc, _ => Lists.refl hc
  | .attempt p q, s, hw, hc, hl => by
    have h := lists_exec p s hw hc hl
    have hk := exec_kept p s hw
    unfold exec
    rcases he : exec p s with ⟨t, o⟩
    rw [he] at h hk
    cases o with
    | ok u => exact h
    | error e =>
      exact h.trans hk (lists_exec q t (hk.wf hw) h.clean (by rw [hk.lineage]; exact fun h0 => hk.keys _ (le_refl _) (hl h0)))
  | .reset, s, _, hc, _ => by
    refine ⟨hc, _, rfl, ?_⟩
    intro k _ _ hkc
    obtain ⟨v, hv⟩ := contains_iff.1 hkc
    show PyDict.get? s.namedvars k = _
    rw [hv]; simp [madeIn]

end Globals

open Globals

/-- C34: whatever code does, and whether or not it raises, afterwards the lineage and the vectorisation are those from before. -/
theorem C34_restores (p q : Prog) :
    let s := (exec p init).1
    s.lineage = [] ∧ s.vectorization = [] ∧ (exec q s).1.lineage = s.lineage ∧ (exec q s).1.vectorization = s.vectorization := by
  have h := exec_kept p init wf_nil
  have h' := exec_kept q (exec p init).1 (h.wf wf_nil)
  exact ⟨h.lineage, h.vec, h'.lineage, h'.vec⟩

/-- C34 inside environments too: from any state, a block leaves the lineage and the vectorisation as they were. -/
theorem C34_restores_inside (p : Prog) (s : St) (hw : WF s.namedvars) :
    (exec p s).1.lineage = s.lineage ∧ (exec p s).1.vectorization = s.vectorization :=
  ⟨(exec_kept p s hw).lineage, (exec_kept p s hw).vec⟩

/-- C34: no two environments entered get the same lineage, unless the counters were reset in between. -/
theorem C34_new (p : Prog) : ∀ x ∈ segments (exec p init).1.trace, x.Nodup :=
  (fresh_exec p init ⟨by simp [init, segments], by
    intro i l h
    have : i = [] ∧ l = [] := by
      have h : [[]] = i ++ [l] := h
      cases i with
      | nil => simpa using h.symm
      | cons a i => simp at h
    rw [this.2]; simp⟩).nodup

/-- C34: an environment ends with exactly the exception of its body, and hands out exactly the variables that were made in it and not in an
environment inside it. -/
theorem C34_variables (p q : Prog) (name : String) :
    let s := (exec p init).1
    let l := (enter s name).lineage
    ∃ t, (exec q (enter s name)).1.trace = s.trace ++ [.entered l] ++ t ∧
      (exec (.named name q) s).1.trace = s.trace ++ [.entered l] ++ t ++ [.left l (madeIn l t)] ∧
      (exec (.named name q) s).2 = (exec q (enter s name)).2 := by
  intro s l
  have hk := exec_kept p init wf_nil
  have hl := lists_exec p init wf_nil (by intro k hk; simp [init, PyDict.contains] at hk) (fun h => (h rfl).elim)
  have hw : WF s.namedvars := hk.wf wf_nil
  have hc : Clean s := hl.clean
  have hnv := enter_namedvars hc name
  refine (named_trace name q s hw hc (lists_exec q (enter s name) (by rw [hnv]; exact wf_set hw _ _) ?_ (fun _ => enter_contains s name))).2
  intro k hk
  rw [hnv, contains_iff, get?_set] at hk
  split_ifs at hk with h
  · have : (enter s name).lineage = k := by simpa using h
    rw [this]; exact List.prefix_rfl
  · exact (hc k (contains_iff.2 hk)).trans (List.prefix_append _ _)

/-- A model is set up twice, the first time with an exception; both contain a variable `x`. -/
example : (exec (.seq (.attempt (.named "A" (.seq (.var "x" []) (.seq (.vectorize 3 (.named "B" (.var "y" [2]))) .raise))) .skip)
      (.named "A" (.var "x" []))) init).1.trace =
    [.entered [("A", 0)], .made ⟨"x", [("A", 0)], []⟩ false, .entered [("A", 0), ("B", 0)], .made ⟨"y", [("A", 0), ("B", 0)], [2, 3]⟩ false,
      .left [("A", 0), ("B", 0)] [⟨"y", [("A", 0), ("B", 0)], [2, 3]⟩], .left [("A", 0)] [⟨"x", [("A", 0)], []⟩],
      .entered [("A", 1)], .made ⟨"x", [("A", 1)], []⟩ false, .left [("A", 1)] [⟨"x", [("A", 1)], []⟩]] := by decide +kernel

/-- Resetting the counters gives two models the same lineage. -/
example : segments (exec (.seq (.named "A" .skip) (.seq .reset (.named "A" .skip))) init).1.trace = [[[("A", 0)]], [[("A", 0)]]] := by decide +kernel

/-! ### SignomialsEnabled -/

theorem Globals.signomials_off : ∀ (p : Prog) (s : St), s.signomials = false → (exec p s).1.signomials = false
  | .skip, _, h => h
  | .seq p q, s, hf => by
    have h := signomials_off p s hf
    unfold exec
    rcases he : exec p s with ⟨t, o⟩
    rw [he] at h
    cases o with
    | error e => exact h
    | ok u => exact signomials_off q t h
  | .named name p, s, hf => by
    have h := signomials_off p (enter s name) hf
    unfold exec
    rcases he : exec p (enter s name) with ⟨t, o⟩
    rw [he] at h
    dsimp only at h ⊢
    unfold leave
    cases t.namedvars.get? t.lineage with
    | none => exact h
    | some v => exact h
  | .vectorize n p, s, hf => by
    have h := signomials_off p { s with vectorization := n :: s.vectorization } hf
    unfold exec
    rcases he : exec p { s with vectorization := n :: s.vectorization } with ⟨t, o⟩
    rw [he] at h
    exact h
  | .signomials p, s, hf => by unfold exec; rfl
  | .var name shape, s, hf => hf
  | .raise, _, h => h
  | .attempt p q, s, hf => by
    have h := signomials_off p s hf
    unfold exec
    rcases he : exec p s with ⟨t, o⟩
    rw [he] at h
    cases o with
    | error e => exact signomials_off q t h
    | ok u => exact h
  | .reset, _, h => h

/-- The variables made in a stretch of the record were made while signomials were allowed. -/
def Globals.AllOn (t : List Event) : Prop := ∀ e ∈ t, ∀ v b, e = .made v b → b = true

theorem Globals.signomials_on : ∀ (p : Prog) (s : St), p.noSignomials → s.signomials = true →
    (exec p s).1.signomials = true ∧ ∃ t, (exec p s).1.trace = s.trace ++ t ∧ AllOn t
  | .skip, _, _, h => ⟨h, [], by simp [exec], by simp [AllOn]⟩
  | .seq p q, s, hn, hf => by
    obtain ⟨h, t, ht, hon⟩ := signomials_on p s hn.1 hf
    unfold exec
    rcases he : exec p s with ⟨u, o⟩
    rw [he] at h ht
    cases o with
    | error e => exact ⟨h, t, ht, hon⟩
    | ok _ =>
      obtain ⟨h', t', ht', hon'⟩ := signomials_on q u hn.2 h
      exact ⟨h', t ++ t', by rw [ht', ht, List.append_assoc], fun e he => (List.mem_append.1 he).elim (hon e) (hon' e)⟩
  | .named name p, s, hn, hf => by
    obtain ⟨h, t, ht, hon⟩ := signomials_on p (enter s name) hn hf
    unfold exec
    rcases he : exec p (enter s name) with ⟨u, o⟩
    rw [he] at h ht
    dsimp only at h ht ⊢
    have ht : u.trace = s.trace ++ ([.entered (enter s name).lineage] ++ t) := by rw [ht, ← List.append_assoc]
                                                                                  rfl
    have hon1 : AllOn ([.entered (enter s name).lineage] ++ t) := by
      intro e he v b hv
      rcases List.mem_append.1 he with h1 | h1
      · rw [List.mem_singleton] at h1
        rw [h1] at hv; cases hv
      · exact hon e h1 v b hv
    unfold leave
    cases u.namedvars.get? u.lineage with
    | none => exact ⟨h, _, ht, hon1⟩
    | some v =>
      refine ⟨h, ([.entered (enter s name).lineage] ++ t) ++ [.left u.lineage v], by dsimp only; rw [ht]; simp, ?_⟩
      intro e he w b hv
      rcases List.mem_append.1 he with h1 | h1
      · exact hon1 e h1 w b hv
      · rw [List.mem_singleton] at h1
        rw [h1] at hv; cases hv
  | .vectorize n p, s, hn, hf => by
    have h := signomials_on p { s with vectorization := n :: s.vectorization } hn hf
    unfold exec
    rcases he : exec p { s with vectorization := n :: s.vectorization } with ⟨t, o⟩
    rw [he] at h
    exact h
  | .signomials p, s, hn, _ => hn.elim
  | .var name shape, s, _, hf => by
    refine ⟨hf, _, rfl, ?_⟩
    intro e he v b hv
    rw [List.mem_singleton] at he
    rw [he] at hv
    cases hv
    exact hf
  | .raise, _, _, h => ⟨h, [], by simp [exec], by simp [AllOn]⟩
  | .attempt p q, s, hn, hf => by
    obtain ⟨h, t, ht, hon⟩ := signomials_on p s hn.1 hf
    unfold exec
    rcases he : exec p s with ⟨u, o⟩
    rw [he] at h ht
    cases o with
    | ok _ => exact ⟨h, t, ht, hon⟩
    | error e =>
      obtain ⟨h', t', ht', hon'⟩ := signomials_on q u hn.2 h
      exact ⟨h', t ++ t', by rw [ht', ht, List.append_assoc], fun e he => (List.mem_append.1 he).elim (hon e) (hon' e)⟩
  | .reset, _, _, h => ⟨h, [.reset], rfl, by
      intro e he v b hv
      rw [List.mem_singleton] at he
      rw [he] at hv; cases hv⟩

/-- C35 for blocks that are not inside another: whatever is run before, and whether or not it raises, signomials are not allowed afterwards,
and throughout a block without blocks inside they are. -/
theorem C35_outermost_partial (p q : Prog) :
    let s := (exec p init).1
    s.signomials = false ∧ (exec (.signomials q) s).1.signomials = s.signomials ∧
    (q.noSignomials → ∃ t, (exec (.signomials q) s).1.trace = s.trace ++ t ∧ AllOn t) := by
  have h := signomials_off p init rfl
  refine ⟨h, ?_, ?_⟩
  · rw [h]; unfold exec; rfl
  · intro hq
    obtain ⟨_, t, ht, hon⟩ := signomials_on q { (exec p init).1 with signomials := true } hq rfl
    exact ⟨t, by conv_lhs => unfold exec
                 exact ht, hon⟩

/-- A block without blocks inside it. -/
example : (Prog.seq (.var "x" []) (.named "A" (.var "y" []))).noSignomials := ⟨trivial, trivial⟩

/-- C35 fails for nested blocks: after the inner one signomials are not allowed in the rest of the outer one. -/
theorem C35_nested_fails :
    (exec (.signomials (.seq (.var "x" []) (.seq (.signomials .skip) (.var "y" [])))) init).1.trace =
      [.made ⟨"x", [], []⟩ true, .made ⟨"y", [], []⟩ false] := by decide +kernel

end Verif
