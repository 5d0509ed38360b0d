import Verif.Model.GP
import Verif.Spec.Program
import Verif.Lemmas.Nomial
import Mathlib.Algebra.BigOperators.Group.Finset.Basic
import Mathlib.Algebra.BigOperators.Group.Finset.Piecewise

/-! The data generated for a geometric program. -/

set_option linter.unusedSectionVars false

namespace Verif
namespace GP
open PyDict
variable {V K : Type} [DecidableEq V] [Field K] [LinearOrder K]

/-- Positions of the exponent vectors that contain `v`. -/
def occ (E : List (HV V K)) (v : V) : List Nat :=
  (List.range E.length).filter (fun m => ((E[m]?).map (fun e => e.items.contains v)).getD false)

theorem occ_nil (v : V) : occ ([] : List (HV V K)) v = [] := rfl

theorem occ_append (E : List (HV V K)) (e : HV V K) (v : V) :
    occ (E ++ [e]) v = occ E v ++ if e.items.contains v then [E.length] else [] := by
  unfold occ
  rw [List.length_append, List.length_singleton, List.range_succ, List.filter_append]
  congr 1
  · apply List.filter_congr
    intro m hm
    rw [List.getElem?_append_left (List.mem_range.1 hm)]
  · simp [List.filter_cons]

theorem mem_occ {E : List (HV V K)} {v : V} {m : Nat} :
    m ∈ occ E v ↔ ∃ e, E[m]? = some e ∧ e.items.contains v = true := by
  unfold occ
  rw [List.mem_filter, List.mem_range]
  constructor
  · rintro ⟨_, h⟩
    cases he : E[m]? with
    | none => rw [he] at h; simp at h
    | some e => rw [he] at h; exact ⟨e, rfl, by simpa using h⟩
  · rintro ⟨e, he, hc⟩
    refine ⟨?_, by rw [he]; simpa using hc⟩
    by_contra hlt
    rw [List.getElem?_eq_none (by omega)] at he
    cases he

theorem occ_nodup (E : List (HV V K)) (v : V) : (occ E v).Nodup := List.Nodup.filter _ List.nodup_range

/-- `varlocs` lists, for each variable that occurs, its positions in order. -/
structure LocOK (E : List (HV V K)) (vl : PyDict V (List Nat)) : Prop where
  wf : WF vl
  get : ∀ v, vl.get? v = if occ E v = [] then none else some (occ E v)

theorem locFold_get (m : Nat) (vs : List V) (vl : PyDict V (List Nat)) (hn : vs.Nodup) (h : WF vl) (v : V) :
    WF (vs.foldl (locAppend m) vl) ∧
    (vs.foldl (locAppend m) vl).get? v = if v ∈ vs then some ((vl.get? v).getD [] ++ [m]) else vl.get? v := by
  induction vs generalizing vl with
  | nil => simp [h]
  | cons w vs ih =>
    rw [List.foldl_cons]
    obtain ⟨hw, hn⟩ := List.nodup_cons.1 hn
    have := ih (locAppend m vl w) hn (wf_set h _ _)
    refine ⟨this.1, ?_⟩
    rw [this.2]
    unfold locAppend
    rw [get?_set]
    by_cases hv : w = v
    · subst hv
      simp [hw]
    · have h1 : (w == v) = false := by simpa using hv
      rw [h1]
      have h2 : v ≠ w := fun hh => hv hh.symm
      simp [h2]

theorem locFold_wf (m : Nat) (vs : List V) (vl : PyDict V (List Nat)) (h : WF vl) : WF (vs.foldl (locAppend m) vl) := by
  induction vs generalizing vl with
  | nil => exact h
  | cons w vs ih => rw [List.foldl_cons]; exact ih _ (wf_set h _ _)

theorem contains_iff_mem {e : PyDict V K} {v : V} : e.contains v = true ↔ v ∈ e.map (·.1) := by
  rw [contains_iff]
  constructor
  · rintro ⟨x, hx⟩
    obtain ⟨k, hk, hkv⟩ := exists_mem_of_get? hx
    exact List.mem_map.2 ⟨_, hk, by simpa using hkv⟩
  · intro h
    cases hg : e.get? v with
    | some x => exact ⟨x, rfl⟩
    | none =>
      obtain ⟨p, hp, hpv⟩ := List.mem_map.1 h
      have := get?_eq_none_iff.1 hg p hp
      rw [← hpv] at this
      simp at this

theorem wf_nodup {e : PyDict V K} : WF e ↔ (e.map (·.1)).Nodup := by
  unfold WF List.Nodup
  rw [List.pairwise_map]
  constructor <;> (intro h; refine h.imp ?_; intro a b hab; simpa using hab)

/-- State of the loop over exponents. -/
structure ExpOK (E : List (HV V K)) (s : Nat × PyDict V (List Nat) × Coot K) : Prop where
  len : s.1 = E.length
  loc : LocOK E s.2.1
  tripZero : ∀ t ∈ s.2.2, t.2.2 = 0 ∧ t.2.1 = 0 ∧ t.1 < E.length
  tripAll : ∀ i e, E[i]? = some e → e.items = [] → (i, 0, 0) ∈ s.2.2

theorem expStep_ok {E : List (HV V K)} {s : Nat × PyDict V (List Nat) × Coot K} (h : ExpOK E s) (e : HV V K)
    (he : WF e.items) : ExpOK (E ++ [e]) (expStep s e) := by
  have hf := locFold_get s.1 (e.items.map (·.1)) s.2.1 (wf_nodup.1 he) h.loc.wf
  refine ⟨by simp [expStep, h.len], ⟨locFold_wf _ _ _ h.loc.wf, ?_⟩, ?_, ?_⟩
  · intro v
    show ((e.items.map (·.1)).foldl (locAppend s.1) s.2.1).get? v = _
    rw [(hf v).2, occ_append, h.loc.get v, h.len]
    by_cases hv : e.items.contains v = true
    · rw [if_pos (contains_iff_mem.1 hv), if_pos hv]
      by_cases ho : occ E v = []
      · simp [ho]
      · simp [ho]
    · rw [if_neg (fun hh => hv (contains_iff_mem.2 hh)), if_neg hv, List.append_nil]
  · intro t ht
    have ht : t ∈ (if e.items.isEmpty then s.2.2 ++ [(s.1, 0, 0)] else s.2.2) := ht
    rw [List.length_append, List.length_singleton]
    have hs : t ∈ s.2.2 → t.2.2 = 0 ∧ t.2.1 = 0 ∧ t.1 < E.length + 1 := fun hh =>
      ⟨(h.tripZero t hh).1, (h.tripZero t hh).2.1, by have := (h.tripZero t hh).2.2; omega⟩
    by_cases hem : e.items.isEmpty
    · rw [if_pos hem] at ht
      rcases List.mem_append.1 ht with ht | ht
      · exact hs ht
      · rw [List.mem_singleton] at ht
        subst ht
        exact ⟨rfl, rfl, by simp [h.len]⟩
    · rw [if_neg hem] at ht
      exact hs ht
  · intro i e' hi hem
    show _ ∈ (if e.items.isEmpty then s.2.2 ++ [(s.1, 0, 0)] else s.2.2)
    by_cases hlt : i < E.length
    · rw [List.getElem?_append_left hlt] at hi
      have := h.tripAll i e' hi hem
      split_ifs
      · exact List.mem_append_left _ this
      · exact this
    · rw [List.getElem?_append_right (by omega)] at hi
      have h0 : i - E.length = 0 := by
        by_contra hne
        rw [List.getElem?_eq_none (by simp; omega)] at hi
        cases hi
      rw [h0] at hi
      simp only [List.getElem?_cons_zero, Option.some.injEq] at hi
      subst hi
      rw [if_pos (by simp [hem]), h.len]
      have : i = E.length := by omega
      subst this
      simp

theorem expFold_ok (es : List (HV V K)) {E : List (HV V K)} {s : Nat × PyDict V (List Nat) × Coot K} (h : ExpOK E s)
    (he : ∀ e ∈ es, WF e.items) : ExpOK (E ++ es) (es.foldl expStep s) := by
  induction es generalizing E s with
  | nil => simpa using h
  | cons e es ih =>
    rw [List.foldl_cons]
    have := ih (expStep_ok h e (he e (by simp))) (fun e' h' => he e' (by simp [h']))
    simpa using this

/-- All terms of a program, in order. -/
def allTerms (hs : List (Hmap V K)) : List (HV V K × K) := hs.flatMap (fun h => h.terms)

theorem allTerms_append (hs : List (Hmap V K)) (h : Hmap V K) : allTerms (hs ++ [h]) = allTerms hs ++ h.terms := by
  simp [allTerms]

theorem genLoop_append (hs : List (Hmap V K)) (h : Hmap V K) : genLoop (hs ++ [h]) = genStep (genLoop hs) h := by
  simp [genLoop]

/-- Number of terms before posynomial `p`. -/
def start (hs : List (Hmap V K)) (p : Nat) : Nat := ((hs.take p).map (fun h => h.terms.length)).sum

theorem start_length (hs : List (Hmap V K)) : start hs hs.length = (allTerms hs).length := by
  simp [start, allTerms, List.length_flatMap]

theorem start_append {hs : List (Hmap V K)} {p : Nat} (hp : p ≤ hs.length) (h : Hmap V K) :
    start (hs ++ [h]) p = start hs p := by
  unfold start
  rw [List.take_append_of_le_length hp]

theorem gen_exps (hs : List (Hmap V K)) : (genLoop hs).exps = (allTerms hs).map (·.1) := by
  induction hs using List.reverseRecOn with
  | nil => rfl
  | append_singleton hs h ih =>
    rw [genLoop_append, allTerms_append, List.map_append, ← ih]; rfl

theorem gen_cs (hs : List (Hmap V K)) : (genLoop hs).cs = (allTerms hs).map (·.2) := by
  induction hs using List.reverseRecOn with
  | nil => rfl
  | append_singleton hs h ih =>
    rw [genLoop_append, allTerms_append, List.map_append, ← ih]; rfl

theorem gen_exps_length (hs : List (Hmap V K)) : (genLoop hs).exps.length = (allTerms hs).length := by
  rw [gen_exps, List.length_map]

theorem gen_mIdxs_length (hs : List (Hmap V K)) : (genLoop hs).mIdxs.length = hs.length := by
  induction hs using List.reverseRecOn with
  | nil => rfl
  | append_singleton hs h ih =>
    rw [genLoop_append]
    show ((genLoop hs).mIdxs ++ _).length = _
    rw [List.length_append, ih]; simp

theorem gen_mIdxs (hs : List (Hmap V K)) (p : Nat) :
    (genLoop hs).mIdxs[p]? = (hs[p]?).map (fun h => (start hs p, start hs p + h.terms.length)) := by
  induction hs using List.reverseRecOn with
  | nil => simp [genLoop]
  | append_singleton hs h ih =>
    rw [genLoop_append]
    show ((genLoop hs).mIdxs ++ [((genLoop hs).exps.length, (genLoop hs).exps.length + h.terms.length)])[p]? = _
    by_cases hp : p < hs.length
    · rw [List.getElem?_append_left (by rw [gen_mIdxs_length]; exact hp), ih, List.getElem?_append_left hp,
        start_append (by omega)]
    · by_cases hp2 : p = hs.length
      · subst hp2
        rw [start_append (le_refl _), start_length, gen_exps_length]
        rw [List.getElem?_append_right (by rw [gen_mIdxs_length]), gen_mIdxs_length]
        simp
      · rw [List.getElem?_eq_none (by rw [List.length_append, gen_mIdxs_length]; simp; omega),
          List.getElem?_eq_none (by simp; omega)]
        rfl

theorem gen_pIdxs_length (hs : List (Hmap V K)) : (genLoop hs).pIdxs.length = (allTerms hs).length := by
  induction hs using List.reverseRecOn with
  | nil => rfl
  | append_singleton hs h ih =>
    rw [genLoop_append, allTerms_append]
    show ((genLoop hs).pIdxs ++ List.replicate _ _).length = _
    rw [List.length_append, ih, List.length_append, List.length_replicate]

theorem gen_pIdxs (hs : List (Hmap V K)) (i p : Nat) :
    (genLoop hs).pIdxs[i]? = some p ↔ ∃ h, hs[p]? = some h ∧ start hs p ≤ i ∧ i < start hs p + h.terms.length := by
  induction hs using List.reverseRecOn with
  | nil => simp [genLoop]
  | append_singleton hs h ih =>
    rw [genLoop_append]
    show ((genLoop hs).pIdxs ++ List.replicate h.terms.length (genLoop hs).mIdxs.length)[i]? = some p ↔ _
    rw [gen_mIdxs_length]
    by_cases hi : i < (allTerms hs).length
    · rw [List.getElem?_append_left (by rw [gen_pIdxs_length]; exact hi), ih]
      constructor
      · rintro ⟨h', hp, h1, h2⟩
        have hlt : p < hs.length := by
          by_contra hh; rw [List.getElem?_eq_none (by omega)] at hp; cases hp
        exact ⟨h', by rw [List.getElem?_append_left hlt]; exact hp, by rw [start_append (by omega)]; exact h1,
          by rw [start_append (by omega)]; exact h2⟩
      · rintro ⟨h', hp, h1, h2⟩
        by_cases hlt : p < hs.length
        · rw [List.getElem?_append_left hlt] at hp
          rw [start_append (by omega)] at h1 h2
          exact ⟨h', hp, h1, h2⟩
        · exfalso
          have hp2 : p = hs.length := by
            by_contra hh
            rw [List.getElem?_eq_none (by simp; omega)] at hp; cases hp
          subst hp2
          rw [start_append (le_refl _), start_length] at h1
          omega
    · rw [List.getElem?_append_right (by rw [gen_pIdxs_length]; omega), gen_pIdxs_length, List.getElem?_replicate]
      constructor
      · intro hh
        split_ifs at hh with hlt
        simp only [Option.some.injEq] at hh
        subst hh
        refine ⟨h, by simp, ?_, ?_⟩ <;> rw [start_append (le_refl _), start_length] <;> omega
      · rintro ⟨h', hp, h1, h2⟩
        by_cases hlt : p < hs.length
        · exfalso
          rw [List.getElem?_append_left hlt] at hp
          rw [start_append (by omega)] at h2
          have : start hs p + h'.terms.length ≤ start hs hs.length := by
            unfold start
            have hsplit : hs.take hs.length = hs.take p ++ hs.drop p := by rw [List.take_length, List.take_append_drop]
            rw [hsplit, List.map_append, List.sum_append]
            have hd : hs.drop p = h' :: hs.drop (p + 1) := by
              rw [List.drop_eq_getElem_cons hlt]
              congr 1
              rw [List.getElem?_eq_getElem hlt] at hp
              exact Option.some.inj hp
            rw [hd, List.map_cons, List.sum_cons]
            omega
          rw [start_length] at this
          omega
        · have hp2 : p = hs.length := by
            by_contra hh
            rw [List.getElem?_eq_none (by simp; omega)] at hp; cases hp
          subst hp2
          rw [start_append (le_refl _), start_length] at h2
          have : h' = h := by simpa using hp.symm
          subst this
          rw [if_pos (by omega)]

theorem gen_expOK (hs : List (Hmap V K)) (hw : ∀ t ∈ allTerms hs, WF t.1.items) :
    ExpOK ((allTerms hs).map (·.1)) ((allTerms hs).length, (genLoop hs).varlocs, (genLoop hs).trip) := by
  induction hs using List.reverseRecOn with
  | nil => exact ⟨rfl, ⟨wf_nil, fun v => rfl⟩, by simp [genLoop], by simp [allTerms]⟩
  | append_singleton hs h ih =>
    rw [allTerms_append] at hw
    have ih := ih (fun t ht => hw t (List.mem_append_left _ ht))
    have := expFold_ok (h.terms.map (·.1)) ih (fun e he => by
      obtain ⟨t, ht, rfl⟩ := List.mem_map.1 he
      exact hw t (List.mem_append_right _ ht))
    rw [allTerms_append, List.map_append, genLoop_append]
    have hl : (allTerms hs ++ h.terms).length =
        ((h.terms.map (·.1)).foldl expStep ((allTerms hs).length, (genLoop hs).varlocs, (genLoop hs).trip)).1 := by
      rw [this.len]; simp
    rw [hl]
    rw [← gen_exps_length]  at this ⊢
    exact this

/-! ### The matrix -/

theorem rowDot_append (A B : Coot K) (y : Nat → K) (i : Nat) : rowDot (A ++ B) y i = rowDot A y i + rowDot B y i := by
  simp [rowDot]

theorem rowDot_cons (t : Nat × Nat × K) (A : Coot K) (y : Nat → K) (i : Nat) :
    rowDot (t :: A) y i = (if t.1 = i then t.2.2 * y t.2.1 else 0) + rowDot A y i := by
  unfold rowDot
  by_cases h : t.1 = i <;> simp [h]

theorem rowDot_zero (A : Coot K) (y : Nat → K) (i : Nat) (h : ∀ t ∈ A, t.2.2 = 0) : rowDot A y i = 0 := by
  induction A with
  | nil => rfl
  | cons t A ih =>
    rw [rowDot_cons, ih (fun t' h' => h t' (by simp [h'])), h t (by simp)]
    simp

theorem rowDot_flatMap {α : Type} (l : List α) (f : α → Coot K) (y : Nat → K) (i : Nat) :
    rowDot (l.flatMap f) y i = (l.map (fun a => rowDot (f a) y i)).sum := by
  induction l with
  | nil => rfl
  | cons a l ih => rw [List.flatMap_cons, rowDot_append, ih]; simp

theorem rowDot_col (locs : List Nat) (hn : locs.Nodup) (j : Nat) (f : Nat → K) (y : Nat → K) (i : Nat) :
    rowDot (locs.map (fun i' => (i', j, f i'))) y i = if i ∈ locs then f i * y j else 0 := by
  induction locs with
  | nil => rfl
  | cons a locs ih =>
    obtain ⟨h1, h2⟩ := List.nodup_cons.1 hn
    rw [List.map_cons, rowDot_cons, ih h2]
    simp only
    by_cases hai : a = i
    · subst hai; simp [h1]
    · have : i ≠ a := fun h => hai h.symm
      simp [hai, this]

theorem sum_lookup (e : PyDict V K) (he : WF e) (L : List V) (hL : L.Nodup) (hsub : ∀ p ∈ e, p.1 ∈ L) (Y : V → K) :
    (L.map (fun v => (e.get? v).getD 0 * Y v)).sum = expDot Y e := by
  induction e with
  | nil => simp [expDot]
  | cons p e ih =>
    obtain ⟨k, x⟩ := p
    obtain ⟨h1, h2⟩ := wf_cons.1 he
    have ih := ih h2 (fun q hq => hsub q (by simp [hq]))
    have hk : PyDict.get? e k = none := get?_eq_none_iff.2 (fun q hq => by
      have := h1 q hq; simp only at this; rw [BEq.comm]; exact this)
    have hstep : ∀ v, (PyDict.get? ((k, x) :: e) v).getD 0 * Y v
        = (PyDict.get? e v).getD 0 * Y v + if k = v then x * Y k else 0 := by
      intro v
      rw [get?_cons]
      by_cases hkv : k = v
      · subst hkv; simp [hk]
      · simp [hkv]
    rw [show (fun v => (PyDict.get? ((k, x) :: e) v).getD 0 * Y v) =
      (fun v => (PyDict.get? e v).getD 0 * Y v + if k = v then x * Y k else 0) from funext hstep]
    rw [List.sum_map_add, ih]
    have : (L.map (fun v => if k = v then x * Y k else 0)).sum = x * Y k := by
      rw [← List.sum_toFinset _ hL, Finset.sum_ite_eq, if_pos (by simpa using hsub (k, x) (by simp))]
    rw [this]
    simp [expDot]; ring

theorem locOK_nonempty {E : List (HV V K)} {vl : PyDict V (List Nat)} (h : LocOK E vl) {v : V} {locs : List Nat}
    (hm : (v, locs) ∈ vl) : locs = occ E v := by
  have := get?_of_mem h.wf hm
  rw [h.get v] at this
  split_ifs at this
  exact (Option.some.inj this).symm

theorem locOK_mem {E : List (HV V K)} {vl : PyDict V (List Nat)} (h : LocOK E vl) (v : V) :
    v ∈ vl.map (·.1) ↔ ∃ (i : Nat) (e : HV V K), E[i]? = some e ∧ e.items.contains v = true := by
  constructor
  · intro hm
    obtain ⟨p, hp, rfl⟩ := List.mem_map.1 hm
    have h1 := get?_of_mem h.wf hp
    rw [h.get] at h1
    split_ifs at h1 with ho
    obtain ⟨i, hi⟩ := List.exists_mem_of_ne_nil _ ho
    obtain ⟨e, he⟩ := mem_occ.1 hi
    exact ⟨i, e, he⟩
  · rintro ⟨i, e, he, hc⟩
    have ho : occ E v ≠ [] := List.ne_nil_of_mem (mem_occ.2 ⟨e, he, hc⟩)
    have := h.get v
    rw [if_neg ho] at this
    obtain ⟨k, hk, hkv⟩ := exists_mem_of_get? this
    exact List.mem_map.2 ⟨_, hk, by simpa using hkv⟩

/-- The generated matrix times a vector, row by row. -/
theorem gen_rowDot (hs : List (Hmap V K)) (hw : ∀ t ∈ allTerms hs, WF t.1.items) (y : Nat → K) (i : Nat) (e : HV V K)
    (he : (genLoop hs).exps[i]? = some e) :
    rowDot (genLoop hs).A y i = expDot (fun v => y ((genLoop hs).varidx v)) e.items := by
  have hok := gen_expOK hs hw
  have hE : (allTerms hs).map (·.1) = (genLoop hs).exps := (gen_exps hs).symm
  rw [hE] at hok
  have hew : WF e.items := by
    have := List.mem_of_getElem? he
    rw [gen_exps] at this
    obtain ⟨t, ht, rfl⟩ := List.mem_map.1 this
    exact hw t ht
  set d := genLoop hs with hd
  have hnd : (d.varlocs.map (·.1)).Nodup := by
    have := hok.loc.wf
    unfold WF at this
    unfold List.Nodup
    rw [List.pairwise_map]
    refine this.imp ?_
    intro a b hab; simpa using hab
  unfold Data.A
  rw [rowDot_append, rowDot_zero _ _ _ (fun t ht => (hok.tripZero t ht).1), zero_add]
  unfold Data.colEntries
  rw [rowDot_flatMap]
  have hcol : d.varlocs.zipIdx.map (fun a => rowDot (a.1.2.map (fun i => (i, a.2, d.expOf i a.1.1))) y i)
      = d.varlocs.zipIdx.map (fun a => (e.items.get? a.1.1).getD 0 * y (d.varidx a.1.1)) := by
    apply List.map_congr_left
    rintro ⟨⟨v, locs⟩, j⟩ hm
    have hm' := List.mem_zipIdx hm
    have hvl : (v, locs) ∈ d.varlocs := by rw [hm'.2.2]; exact List.getElem_mem _
    have hlocs := locOK_nonempty hok.loc hvl
    have hj : d.varidx v = j := by
      unfold Data.varidx
      have hjl : j < (d.varlocs.map (·.1)).length := by simpa using hm'.2.1
      have : v = (d.varlocs.map (·.1))[j] := by
        rw [List.getElem_map]
        have := hm'.2.2
        simp only [Nat.sub_zero] at this
        rw [← this]
      rw [this]
      exact hnd.idxOf_getElem j hjl
    simp only
    rw [rowDot_col locs (by rw [hlocs]; exact occ_nodup _ _), hj]
    have hx : d.expOf i v = (e.items.get? v).getD 0 := by unfold Data.expOf; rw [he]; rfl
    by_cases hi : i ∈ locs
    · rw [if_pos hi, hx]
    · rw [if_neg hi]
      have : e.items.get? v = none := by
        cases hg : e.items.get? v with
        | none => rfl
        | some x =>
          exfalso; apply hi; rw [hlocs]
          exact mem_occ.2 ⟨e, he, contains_iff.2 ⟨x, hg⟩⟩
      rw [this]; simp
  rw [hcol]
  have hmap : d.varlocs.zipIdx.map (fun a => (e.items.get? a.1.1).getD 0 * y (d.varidx a.1.1))
      = (d.varlocs.map (·.1)).map (fun v => (e.items.get? v).getD 0 * y (d.varidx v)) := by
    have : d.varlocs = d.varlocs.zipIdx.map (·.1) := (List.zipIdx_map_fst 0 _).symm
    conv_rhs => rw [this]
    rw [List.map_map, List.map_map]
    rfl
  rw [hmap]
  refine sum_lookup e.items hew _ hnd (fun p hp => ?_) (fun v => y (d.varidx v))
  exact (locOK_mem hok.loc p.1).2 ⟨i, e, he, contains_iff.2 ⟨p.2, get?_of_mem hew hp⟩⟩

/-! ### Equality rows -/

/-- Number of equality halves among the first `p` posynomials. -/
def meqBefore (hs : List (Hmap V K)) (p : Nat) : Nat := ((hs.take p).filter (·.fromMeq)).length

theorem start_le {hs : List (Hmap V K)} {p : Nat} {h : Hmap V K} (hp : hs[p]? = some h) :
    start hs p + h.terms.length ≤ (allTerms hs).length := by
  have hlt : p < hs.length := by
    by_contra hh; rw [List.getElem?_eq_none (by omega)] at hp; cases hp
  rw [← start_length]
  unfold start
  have hsplit : hs.take hs.length = hs.take p ++ hs.drop p := by rw [List.take_length, List.take_append_drop]
  rw [hsplit, List.map_append, List.sum_append]
  have hd : hs.drop p = h :: hs.drop (p + 1) := by
    rw [List.drop_eq_getElem_cons hlt]
    congr 1
    rw [List.getElem?_eq_getElem hlt] at hp
    exact Option.some.inj hp
  rw [hd, List.map_cons, List.sum_cons]
  omega

theorem gen_meq (hs : List (Hmap V K)) (hne : ∀ h ∈ hs, h.fromMeq = true → h.terms ≠ []) :
    (genLoop hs).meqAll.length = meqBefore hs hs.length ∧
    (genLoop hs).firstHalf.length = (meqBefore hs hs.length + 1) / 2 ∧
    (∀ m ∈ (genLoop hs).meqAll, m < (allTerms hs).length) ∧
    (∀ m, m ∈ (genLoop hs).meqAll ↔ ∃ p h, hs[p]? = some h ∧ h.fromMeq = true ∧ start hs p = m) ∧
    (∀ m, m ∈ (genLoop hs).firstHalf ↔ ∃ p h, hs[p]? = some h ∧ h.fromMeq = true ∧ start hs p = m ∧ meqBefore hs p % 2 = 0) := by
  induction hs using List.reverseRecOn with
  | nil => simp [genLoop, meqBefore]
  | append_singleton hs h ih =>
    obtain ⟨i1, i2, i3, i4, i5⟩ := ih (fun h' hh' => hne h' (by simp [hh']))
    rw [genLoop_append]
    have hmb : ∀ p ≤ hs.length, meqBefore (hs ++ [h]) p = meqBefore hs p := by
      intro p hp; unfold meqBefore; rw [List.take_append_of_le_length hp]
    have hml : meqBefore (hs ++ [h]) (hs ++ [h]).length = meqBefore hs hs.length + if h.fromMeq then 1 else 0 := by
      unfold meqBefore
      rw [List.take_length, List.take_length, List.filter_append, List.length_append]
      congr 1
      by_cases hf : h.fromMeq = true
      · simp [hf]
      · simp [hf]
    have hget : ∀ p h', (hs ++ [h])[p]? = some h' ↔ hs[p]? = some h' ∨ (p = hs.length ∧ h' = h) := by
      intro p h'
      by_cases hp : p < hs.length
      · rw [List.getElem?_append_left hp]
        constructor
        · exact Or.inl
        · rintro (hh | ⟨hh, _⟩)
          · exact hh
          · omega
      · rw [List.getElem?_append_right (by omega), List.getElem?_eq_none (l := hs) (by omega)]
        constructor
        · intro hh
          by_cases h0 : p - hs.length = 0
          · rw [h0] at hh; simp at hh; exact Or.inr ⟨by omega, hh.symm⟩
          · rw [List.getElem?_eq_none (by simp; omega)] at hh; cases hh
        · rintro (hh | ⟨rfl, rfl⟩)
          · cases hh
          · simp
    have hlt : ∀ p h', hs[p]? = some h' → p < hs.length := by
      intro p h' hp
      by_contra hh; rw [List.getElem?_eq_none (by omega)] at hp; cases hp
    by_cases hm : h.fromMeq = true
    · have hnew : (genLoop hs).exps.length ∉ (genLoop hs).meqAll := by
        intro hh
        have := i3 _ hh
        rw [gen_exps_length] at this
        omega
      have hall : (genStep (genLoop hs) h).meqAll = (genLoop hs).meqAll ++ [(genLoop hs).exps.length] := by
        simp only [genStep, if_pos hm, noteMeq, if_neg hnew]
      have hnewf : (genLoop hs).exps.length ∉ (genLoop hs).firstHalf := by
        intro hh
        obtain ⟨p, h', a, b, c, _⟩ := (i5 _).1 hh
        exact hnew ((i4 _).2 ⟨p, h', a, b, c⟩)
      have hfirst : (genStep (genLoop hs) h).firstHalf =
          if meqBefore hs hs.length + 1 > 2 * ((meqBefore hs hs.length + 1) / 2) then (genLoop hs).firstHalf ++ [(genLoop hs).exps.length]
          else (genLoop hs).firstHalf := by
        simp only [genStep, if_pos hm, noteMeq, if_neg hnew, if_neg hnewf, List.length_append, List.length_singleton, i1, i2]
      rw [hall, hfirst, hml, if_pos hm]
      refine ⟨by simp [i1], ?_, ?_, ?_, ?_⟩
      · split_ifs with hgt
        · rw [List.length_append, i2, List.length_singleton]; omega
        · rw [i2]; omega
      · intro m hmm
        rw [allTerms_append, List.length_append]
        rcases List.mem_append.1 hmm with hmm | hmm
        · have := i3 m hmm; omega
        · rw [List.mem_singleton, gen_exps_length] at hmm
          have : h.terms.length ≠ 0 := by
            have := hne h (by simp) hm
            simpa using this
          omega
      · intro m
        rw [List.mem_append, i4, List.mem_singleton, gen_exps_length]
        constructor
        · rintro (⟨p, h', a, b, c⟩ | hh)
          · exact ⟨p, h', (hget _ _).2 (Or.inl a), b, by rw [start_append (le_of_lt (hlt _ _ a))]; exact c⟩
          · exact ⟨hs.length, h, (hget _ _).2 (Or.inr ⟨rfl, rfl⟩), hm, by rw [start_append (le_refl _), start_length, hh]⟩
        · rintro ⟨p, h', a, b, c⟩
          rcases (hget _ _).1 a with a | ⟨rfl, rfl⟩
          · left; exact ⟨p, h', a, b, by rw [start_append (le_of_lt (hlt _ _ a))] at c; exact c⟩
          · right; rw [start_append (le_refl _), start_length] at c; exact c.symm
      · intro m
        have key : (∃ p h', (hs ++ [h])[p]? = some h' ∧ h'.fromMeq = true ∧ start (hs ++ [h]) p = m ∧ meqBefore (hs ++ [h]) p % 2 = 0) ↔
            m ∈ (genLoop hs).firstHalf ∨ (m = (allTerms hs).length ∧ meqBefore hs hs.length % 2 = 0) := by
          rw [i5]
          constructor
          · rintro ⟨p, h', a, b, c, e⟩
            rcases (hget _ _).1 a with a | ⟨rfl, rfl⟩
            · left
              rw [start_append (le_of_lt (hlt _ _ a))] at c
              rw [hmb _ (le_of_lt (hlt _ _ a))] at e
              exact ⟨p, h', a, b, c, e⟩
            · right
              rw [start_append (le_refl _), start_length] at c
              rw [hmb _ (le_refl _)] at e
              exact ⟨c.symm, e⟩
          · rintro (⟨p, h', a, b, c, e⟩ | ⟨hh, e⟩)
            · exact ⟨p, h', (hget _ _).2 (Or.inl a), b, by rw [start_append (le_of_lt (hlt _ _ a))]; exact c,
                by rw [hmb _ (le_of_lt (hlt _ _ a))]; exact e⟩
            · exact ⟨hs.length, h, (hget _ _).2 (Or.inr ⟨rfl, rfl⟩), hm, by rw [start_append (le_refl _), start_length, hh],
                by rw [hmb _ (le_refl _)]; exact e⟩
        rw [key]
        split_ifs with hgt
        · rw [List.mem_append, List.mem_singleton, gen_exps_length]
          have : meqBefore hs hs.length % 2 = 0 := by omega
          simp [this]
        · have : meqBefore hs hs.length % 2 ≠ 0 := by omega
          simp [this]
    · have hall : (genStep (genLoop hs) h).meqAll = (genLoop hs).meqAll := by
        simp [genStep, hm]
      have hfirst : (genStep (genLoop hs) h).firstHalf = (genLoop hs).firstHalf := by
        simp [genStep, hm]
      rw [hall, hfirst, hml, if_neg hm]
      refine ⟨i1, i2, ?_, ?_, ?_⟩
      · intro m hmm
        rw [allTerms_append, List.length_append]
        have := i3 m hmm; omega
      · intro m
        rw [i4]
        constructor
        · rintro ⟨p, h', a, b, c⟩
          exact ⟨p, h', (hget _ _).2 (Or.inl a), b, by rw [start_append (le_of_lt (hlt _ _ a))]; exact c⟩
        · rintro ⟨p, h', a, b, c⟩
          rcases (hget _ _).1 a with a | ⟨rfl, rfl⟩
          · exact ⟨p, h', a, b, by rw [start_append (le_of_lt (hlt _ _ a))] at c; exact c⟩
          · exact absurd b hm
      · intro m
        rw [i5]
        constructor
        · rintro ⟨p, h', a, b, c, e⟩
          exact ⟨p, h', (hget _ _).2 (Or.inl a), b, by rw [start_append (le_of_lt (hlt _ _ a))]; exact c,
            by rw [hmb _ (le_of_lt (hlt _ _ a))]; exact e⟩
        · rintro ⟨p, h', a, b, c, e⟩
          rcases (hget _ _).1 a with a | ⟨rfl, rfl⟩
          · exact ⟨p, h', a, b, by rw [start_append (le_of_lt (hlt _ _ a))] at c; exact c,
              by rw [hmb _ (le_of_lt (hlt _ _ a))] at e; exact e⟩
          · exact absurd b hm

end GP
end Verif
