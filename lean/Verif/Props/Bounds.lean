import Verif.Lemmas.Bounds
import Verif.Props.Cvxopt

/-! # C21: missing bounds -/

set_option linter.unusedSectionVars false

namespace Verif
open GP Cvxopt PyDict
variable {V : Type} [DecidableEq V]

/-- The exponents of the terms of the cost and of the inequalities. -/
def ineqExps (cost : List (HV V ℝ × ℝ)) (cons : List (Con V)) : List (List (V × ℝ)) :=
  cost.map (fun t => t.1.items) ++ cons.flatMap (fun c => match c with
    | .ineq ts => ts.map (fun t => t.1.items)
    | .eq _ _ _ => [])

/-- The exponents of the equalities. -/
def eqExps (cons : List (Con V)) : List (List (V × ℝ)) :=
  cons.flatMap (fun c => match c with
    | .ineq _ => []
    | .eq e _ _ => [e.items])

section
variable {cost : List (HV V ℝ × ℝ)} {cons : List (Con V)} (h0 : (Con.ineq cost).OK) (hc : ∀ c ∈ cons, c.OK)
include h0 hc

/-- The posynomial of a row. -/
theorem row_posy (i : Nat) (e : HV V ℝ) (he : (genLoop (progMaps cost cons)).exps[i]? = some e) :
    ∃ (p : Nat) (h : Hmap V ℝ) (t : HV V ℝ × ℝ), (progMaps cost cons)[p]? = some h ∧ t ∈ h.terms ∧ t.1 = e ∧
      start (progMaps cost cons) p ≤ i ∧ i < start (progMaps cost cons) p + h.terms.length ∧
      (h.fromMeq = true → i = start (progMaps cost cons) p) := by
  set H := progMaps cost cons with hH
  have hil : i < (allTerms H).length := by
    rw [← gen_exps_length]
    by_contra hh; rw [List.getElem?_eq_none (by omega)] at he; cases he
  have hpl : i < (genLoop H).pIdxs.length := by rw [gen_pIdxs_length]; exact hil
  obtain ⟨h, hp, hs1, hs2⟩ := (gen_pIdxs H i ((genLoop H).pIdxs[i])).1 (List.getElem?_eq_getElem hpl)
  set p := (genLoop H).pIdxs[i] with hpdef
  have hplH : p < H.length := by
    by_contra hh; rw [List.getElem?_eq_none (by omega)] at hp; cases hp
  have htt : (allTerms H)[i]? = h.terms[i - start H p]? := by
    have hst : ((H.take p).flatMap (·.terms)).length = start H p := by simp [start, List.length_flatMap]
    have hsplit : H = H.take p ++ h :: H.drop (p + 1) := by
      have hgp : H[p] = h := by rw [List.getElem?_eq_getElem hplH, Option.some.injEq] at hp; exact hp
      rw [← hgp, ← List.drop_eq_getElem_cons hplH, List.take_append_drop]
    unfold allTerms
    conv_lhs => rw [hsplit]
    rw [List.flatMap_append, List.flatMap_cons, List.getElem?_append_right (by omega), hst, List.getElem?_append_left (by omega)]
  rw [gen_exps, List.getElem?_map, htt] at he
  cases hj : h.terms[i - start H p]? with
  | none => rw [hj] at he; cases he
  | some t =>
    rw [hj, Option.map_some, Option.some.injEq] at he
    refine ⟨p, h, t, hp, List.mem_of_getElem? hj, he, hs1, hs2, ?_⟩
    intro hf
    have := (prog_ok h0 hc h (List.mem_of_getElem? hp)).2.2 hf
    omega

theorem row_of_term (p : Nat) (h : Hmap V ℝ) (t : HV V ℝ × ℝ) (hp : (progMaps cost cons)[p]? = some h) (ht : t ∈ h.terms) :
    ∃ i, (genLoop (progMaps cost cons)).exps[i]? = some t.1 ∧ start (progMaps cost cons) p ≤ i ∧
      i < start (progMaps cost cons) p + h.terms.length ∧ (h.fromMeq = true → i = start (progMaps cost cons) p) := by
  set H := progMaps cost cons with hH
  obtain ⟨j, hj⟩ := List.mem_iff_getElem?.1 ht
  have hjl : j < h.terms.length := by
    by_contra hh; rw [List.getElem?_eq_none (by omega)] at hj; cases hj
  have hplH : p < H.length := by
    by_contra hh; rw [List.getElem?_eq_none (by omega)] at hp; cases hp
  refine ⟨start H p + j, ?_, by omega, by omega, ?_⟩
  · have hst : ((H.take p).flatMap (·.terms)).length = start H p := by simp [start, List.length_flatMap]
    have hsplit : H = H.take p ++ h :: H.drop (p + 1) := by
      have hgp : H[p] = h := by rw [List.getElem?_eq_getElem hplH, Option.some.injEq] at hp; exact hp
      rw [← hgp, ← List.drop_eq_getElem_cons hplH, List.take_append_drop]
    have htt : (allTerms H)[start H p + j]? = some t := by
      have hall : allTerms H = (H.take p).flatMap (·.terms) ++ (h.terms ++ (H.drop (p + 1)).flatMap (·.terms)) := by
        unfold allTerms
        conv_lhs => rw [hsplit]
        rw [List.flatMap_append, List.flatMap_cons]
      rw [hall, List.getElem?_append_right (by omega), hst, Nat.add_sub_cancel_left, List.getElem?_append_left (by omega)]
      exact hj
    rw [gen_exps, List.getElem?_map, htt]; rfl
  · intro hf
    have := (prog_ok h0 hc h (List.mem_of_getElem? hp)).2.2 hf
    omega

/-- Two posynomials do not share rows. -/
theorem row_unique (i p p' : Nat) (h h' : Hmap V ℝ) (hp : (progMaps cost cons)[p]? = some h)
    (hp' : (progMaps cost cons)[p']? = some h') (a : start (progMaps cost cons) p ≤ i)
    (b : i < start (progMaps cost cons) p + h.terms.length) (a' : start (progMaps cost cons) p' ≤ i)
    (b' : i < start (progMaps cost cons) p' + h'.terms.length) : p = p' := by
  have e1 := (gen_pIdxs (progMaps cost cons) i p).2 ⟨h, hp, a, b⟩
  have e2 := (gen_pIdxs (progMaps cost cons) i p').2 ⟨h', hp', a', b'⟩
  rw [e1] at e2
  exact Option.some.inj e2

theorem mem_meqAll (i p : Nat) (h : Hmap V ℝ) (hp : (progMaps cost cons)[p]? = some h)
    (a : start (progMaps cost cons) p ≤ i) (b : i < start (progMaps cost cons) p + h.terms.length) :
    i ∈ (genLoop (progMaps cost cons)).meqAll ↔ h.fromMeq = true := by
  have ok := prog_ok h0 hc
  obtain ⟨_, _, _, h4, _⟩ := gen_meq (progMaps cost cons) (fun h hh _ => (ok h hh).1)
  rw [h4]
  constructor
  · rintro ⟨p', h', hp', hf, hs⟩
    have hl := List.length_pos_iff.2 (ok h' (List.mem_of_getElem? hp')).1
    have := row_unique h0 hc i p p' h h' hp hp' a b (by omega) (by omega)
    subst this
    rw [hp, Option.some.injEq] at hp'
    rw [hp']; exact hf
  · intro hf
    have hlen := (ok h (List.mem_of_getElem? hp)).2.2 hf
    exact ⟨p, h, hp, hf, by omega⟩

theorem ineq_rows (e : HV V ℝ) :
    (∃ i, i ∉ (genLoop (progMaps cost cons)).meqAll ∧ (genLoop (progMaps cost cons)).exps[i]? = some e) ↔
      e.items ∈ ineqExps cost cons := by
  have hmem : e.items ∈ ineqExps cost cons ↔ ∃ h ∈ progMaps cost cons, h.fromMeq = false ∧ ∃ t ∈ h.terms, t.1 = e := by
    have hext : ∀ t : HV V ℝ × ℝ, t.1.items = e.items ↔ t.1 = e := by
      intro t
      constructor
      · intro h; cases ht : t.1; cases e; rw [ht] at h; simp only at h; rw [h]
      · intro h; rw [h]
    unfold ineqExps progMaps
    rw [List.mem_append, List.mem_map]
    simp only [hext]
    constructor
    · rintro (⟨t, ht, he⟩ | hm)
      · exact ⟨_, List.mem_cons_self, rfl, t, ht, he⟩
      · obtain ⟨c, hcm, hm⟩ := List.mem_flatMap.1 hm
        cases c with
        | eq _ _ _ => simp at hm
        | ineq ts =>
          obtain ⟨t, ht, he⟩ := List.mem_map.1 hm
          exact ⟨⟨ts, false⟩, List.mem_cons_of_mem _ (List.mem_flatMap.2 ⟨_, hcm, by simp [hmaps]⟩), rfl, t, ht, (hext t).1 he⟩
    · rintro ⟨h, hh, hf, t, ht, he⟩
      rcases List.mem_cons.1 hh with rfl | hh
      · exact Or.inl ⟨t, ht, he⟩
      · obtain ⟨c, hcm, hm⟩ := List.mem_flatMap.1 hh
        cases c with
        | eq e1 e2 c =>
          simp only [hmaps, List.mem_cons, List.not_mem_nil, or_false] at hm
          rcases hm with rfl | rfl <;> cases hf
        | ineq ts =>
          simp only [hmaps, List.mem_singleton] at hm
          subst hm
          exact Or.inr (List.mem_flatMap.2 ⟨_, hcm, List.mem_map.2 ⟨t, ht, (hext t).2 he⟩⟩)
  rw [hmem]
  constructor
  · rintro ⟨i, hi, he⟩
    obtain ⟨p, h, t, hp, ht, hte, a, b, _⟩ := row_posy h0 hc i e he
    refine ⟨h, List.mem_of_getElem? hp, ?_, t, ht, hte⟩
    rw [mem_meqAll h0 hc i p h hp a b] at hi
    simpa using hi
  · rintro ⟨h, hh, hf, t, ht, he⟩
    obtain ⟨p, hp⟩ := List.mem_iff_getElem?.1 hh
    obtain ⟨i, hi, a, b, _⟩ := row_of_term h0 hc p h t hp ht
    refine ⟨i, ?_, by rw [hi, he]⟩
    rw [mem_meqAll h0 hc i p h hp a b, hf]
    simp

theorem eq_rows (e : HV V ℝ) :
    (∃ i, i ∈ (genLoop (progMaps cost cons)).firstHalf ∧ (genLoop (progMaps cost cons)).exps[i]? = some e) ↔
      e.items ∈ eqExps cons := by
  have ok := prog_ok h0 hc
  obtain ⟨_, _, _, _, h5⟩ := gen_meq (progMaps cost cons) (fun h hh _ => (ok h hh).1)
  have hcount : ∀ p, meqBefore (progMaps cost cons) p = ((progMaps cost cons).take p).countP (·.fromMeq) := by
    intro p; unfold meqBefore; rw [List.countP_eq_length_filter]
  have hp1 : ∀ (p : Nat) (h : Hmap V ℝ), (progMaps cost cons)[p]? = some h → h.fromMeq = true → 1 ≤ p := by
    intro p h hp hf
    rcases Nat.eq_zero_or_pos p with rfl | h'
    · simp only [progMaps, List.getElem?_cons_zero, Option.some.injEq] at hp
      rw [← hp] at hf; cases hf
    · exact h'
  constructor
  · rintro ⟨i, hi, he⟩
    obtain ⟨p, h, hp, hf, hs, hev⟩ := (h5 i).1 hi
    have hpos := (positions cons [⟨cost, false⟩] (by simp) (fun _ => True) (fun h => ∀ t ∈ h.terms, t.1.items ∈ eqExps cons)
      (fun _ => True) (fun c => match c with
        | .ineq _ => True
        | .eq e _ _ => e.items ∈ eqExps cons) (by simp) (by simp)).2 (by
        intro c hcm
        cases c with
        | ineq ts => trivial
        | eq e1 e2 c => exact List.mem_flatMap.2 ⟨_, hcm, by simp⟩)
    have hE := (hpos p h (hp1 p h hp hf) hp).2.1 hf (by have h' := hev; rw [hcount] at h'; exact h')
    obtain ⟨p', h', t, hp', ht, hte, a, b, _⟩ := row_posy h0 hc i e he
    have hl := List.length_pos_iff.2 (ok h (List.mem_of_getElem? hp)).1
    have := row_unique h0 hc i p p' h h' hp hp' (by omega) (by omega) a b
    subst this
    rw [hp, Option.some.injEq] at hp'
    subst hp'
    rw [← hte]
    exact hE t ht
  · intro hmem
    by_contra hno
    have hpos := (positions cons [⟨cost, false⟩] (by simp) (fun _ => True) (fun h => ∀ t ∈ h.terms, t.1.items ≠ e.items)
      (fun _ => True) (fun c => match c with
        | .ineq _ => True
        | .eq e' _ _ => e'.items ≠ e.items) (by simp) (by simp)).1 (by
        intro p h hp hh
        refine ⟨fun _ => trivial, ?_, fun _ _ => trivial⟩
        intro hf hev t ht hte
        apply hno
        obtain ⟨i, hi, _, _, hst⟩ := row_of_term h0 hc p h t hh ht
        refine ⟨i, ?_, ?_⟩
        · rw [h5]
          refine ⟨p, h, hh, hf, (hst hf).symm, ?_⟩
          rw [hcount]; exact hev
        · rw [hi]
          cases htt : t.1
          cases e
          rw [htt] at hte
          simp only at hte
          rw [hte])
    obtain ⟨c, hcm, hm⟩ := List.mem_flatMap.1 hmem
    cases c with
    | ineq ts => simp at hm
    | eq e1 e2 c =>
      have := hpos _ hcm
      simp only [List.mem_singleton] at hm
      exact this hm.symm

end

/-- A set of bounds closed under the rules for inequality terms and equalities. -/
def RuleClosed {V : Type} (ineqs eqs : List (List (V × ℝ))) (P : V → Side → Prop) : Prop :=
  (∀ e ∈ ineqs, ∀ v x, (v, x) ∈ e → (0 < x → P v .upper) ∧ (x < 0 → P v .lower)) ∧
  (∀ e ∈ eqs, ∀ v x s, (v, x) ∈ e →
    (∀ w y, (w, y) ∈ e → w ≠ v → P w (if (0 < y ↔ 0 < x) then s.flip else s)) → P v s)

theorem ruleClosed_boundedBy {V : Type} (ineqs eqs : List (List (V × ℝ))) : RuleClosed ineqs eqs (BoundedBy ineqs eqs) := by
  refine ⟨fun e he v x hv => ⟨fun h => .up he hv h, fun h => .low he hv h⟩, ?_⟩
  intro e he v x s hv h
  refine .same he hv ?_ ?_
  · intro w y hw hne hs
    have := h w y hw hne
    rwa [if_pos hs] at this
  · intro w y hw hne hs
    have := h w y hw hne
    rwa [if_neg hs] at this

/-- Everything known at the end of `check_bounds`. -/
theorem bounds_core (cost : List (HV V ℝ × ℝ)) (cons : List (Con V)) (h0 : (Con.ineq cost).OK) (hc : ∀ c ∈ cons, c.OK)
    (hnz : ∀ h ∈ progMaps cost cons, ∀ t ∈ h.terms, ∀ vx ∈ t.1.items, vx.2 ≠ 0)
    (ord : Nat → List (Bd V) → List (Bd V)) (hord : ∀ n l, (ord n l).Perm l)
    (rows : List Nat) (hrows : rows.Perm (genLoop (progMaps cost cons)).firstHalf)
    (P : V → Side → Prop) (hP : RuleClosed (ineqExps cost cons) (eqExps cons) P) (n : Nat) :
    let d := genLoop (progMaps cost cons)
    let g := genMeqBounds ord (ineqMissing d) d.exps rows
    let f := fulLoop ord n g.1 g.2
    BInv (fun b => b.1 ∈ d.varlocs.map (·.1)) (fun b => P b.1 b.2) f.1 f.2 ∧
    (∀ b cs, f.2.get? b = some cs → Stuck f.1 b cs) ∧
    (∀ b, b ∈ f.1 → b ∈ ineqMissing d) ∧
    (∀ e ∈ eqExps cons, ∀ v x s, (v, x) ∈ e → Compl f.1 f.2 (v, s) (Dep e v x s)) ∧
    (∀ v, (v ∈ d.varlocs.map (·.1) → (v, Side.upper) ∉ ineqMissing d → ∃ e ∈ ineqExps cost cons, ∃ x, (v, x) ∈ e ∧ 0 < x) ∧
      (v ∈ d.varlocs.map (·.1) → (v, Side.lower) ∉ ineqMissing d → ∃ e ∈ ineqExps cost cons, ∃ x, (v, x) ∈ e ∧ x < 0)) ∧
    (∀ e ∈ ineqExps cost cons, ∀ v x, (v, x) ∈ e → (0 < x → (v, Side.upper) ∉ ineqMissing d) ∧
      (x < 0 → (v, Side.lower) ∉ ineqMissing d)) := by
  intro d g f
  have ok := prog_ok h0 hc
  have hw' : ∀ t ∈ allTerms (progMaps cost cons), WF t.1.items := by
    intro t ht
    obtain ⟨h, hh, ht⟩ := List.mem_flatMap.1 ht
    exact wf_nodup.2 ((ok h hh).2.1 t ht).2
  have hok := (gen_expOK (progMaps cost cons) hw').loc
  have hE : (allTerms (progMaps cost cons)).map (·.1) = d.exps := (gen_exps _).symm
  rw [hE] at hok
  have hnz' : ∀ (i : Nat) (e : HV V ℝ), d.exps[i]? = some e → ∀ v x, (v, x) ∈ e.items → x ≠ 0 := by
    intro i e he v x hx
    obtain ⟨p, h, t, hp, ht, hte, _⟩ := row_posy h0 hc i e he
    rw [← hte] at hx
    exact hnz h (List.mem_of_getElem? hp) t ht _ hx
  have hwfe : ∀ (i : Nat) (e : HV V ℝ), d.exps[i]? = some e → WF e.items := by
    intro i e he
    obtain ⟨p, h, t, hp, ht, hte, _⟩ := row_posy h0 hc i e he
    rw [← hte]
    exact wf_nodup.2 ((ok h (List.mem_of_getElem? hp)).2.1 t ht).2
  -- locations
  have hloc : ∀ v locs, (v, locs) ∈ d.varlocs → ∀ i, i ∈ locs ↔ ∃ (e : HV V ℝ) (x : ℝ), d.exps[i]? = some e ∧ (v, x) ∈ e.items ∧ d.expOf i v = x := by
    intro v locs hm i
    rw [locOK_nonempty hok hm, mem_occ]
    constructor
    · rintro ⟨e, he, hcn⟩
      obtain ⟨x, hx⟩ := contains_iff.1 hcn
      obtain ⟨k, hk, hkv⟩ := exists_mem_of_get? hx
      have : k = v := by simpa using hkv
      subst this
      refine ⟨e, x, he, hk, ?_⟩
      unfold Data.expOf HV.get?
      rw [he, Option.getD_some, hx]; rfl
    · rintro ⟨e, x, he, hx, _⟩
      exact ⟨e, he, contains_iff_mem.2 (List.mem_map.2 ⟨_, hx, rfl⟩)⟩
  have hvar : ∀ v locs, (v, locs) ∈ d.varlocs → ∀ locs', (v, locs') ∈ d.varlocs → locs' = locs := by
    intro v locs hm locs' hm'
    rw [locOK_nonempty hok hm, locOK_nonempty hok hm']
  have hocc : ∀ (i : Nat) (e : HV V ℝ) (v : V) (x : ℝ), d.exps[i]? = some e → (v, x) ∈ e.items → v ∈ d.varlocs.map (·.1) := by
    intro i e v x he hx
    exact (locOK_mem hok v).2 ⟨i, e, he, contains_iff_mem.2 (List.mem_map.2 ⟨_, hx, rfl⟩)⟩
  -- the bounds not given by inequalities
  have hmiss : ∀ v s, (v, s) ∈ ineqMissing d ↔ v ∈ d.varlocs.map (·.1) ∧
      ¬ ∃ e ∈ ineqExps cost cons, ∃ x, (v, x) ∈ e ∧ (if s = .upper then 0 < x else x < 0) := by
    intro v s
    have hany : ∀ locs, (v, locs) ∈ d.varlocs → ∀ (s : Side),
        ((∃ i ∈ locs, i ∉ d.meqAll ∧ (if s = .upper then 0 < d.expOf i v else ¬ 0 < d.expOf i v)) ↔
          ∃ e ∈ ineqExps cost cons, ∃ x, (v, x) ∈ e ∧ (if s = .upper then 0 < x else x < 0)) := by
      intro locs hm s
      constructor
      · rintro ⟨i, hi, hna, hsg⟩
        obtain ⟨e, x, he, hx, hex⟩ := (hloc v locs hm i).1 hi
        rw [hex] at hsg
        refine ⟨e.items, (ineq_rows h0 hc e).1 ⟨i, hna, he⟩, x, hx, ?_⟩
        have hx0 := hnz' i e he v x hx
        split_ifs at hsg ⊢
        · exact hsg
        · exact lt_of_le_of_ne (not_lt.1 hsg) hx0
      · rintro ⟨e, he, x, hx, hsg⟩
        obtain ⟨i, hna, hie⟩ := (ineq_rows h0 hc ⟨e⟩).2 he
        have hi : i ∈ locs := by
          rw [locOK_nonempty hok hm, mem_occ]
          exact ⟨⟨e⟩, hie, contains_iff_mem.2 (List.mem_map.2 ⟨_, hx, rfl⟩)⟩
        obtain ⟨e', x', he', hx', hex⟩ := (hloc v locs hm i).1 hi
        have hie : d.exps[i]? = some ⟨e⟩ := hie
        rw [hie, Option.some.injEq] at he'
        subst he'
        have hwf := hwfe i ⟨e⟩ hie
        have h1 := get?_of_mem hwf hx
        have hx' : (v, x') ∈ e := hx'
        rw [get?_of_mem hwf hx'] at h1
        rw [Option.some.inj h1] at hex
        refine ⟨i, hi, hna, ?_⟩
        rw [hex]
        split_ifs at hsg ⊢
        · exact hsg
        · exact not_lt.2 hsg.le
    unfold ineqMissing
    rw [List.mem_flatMap]
    have hsplit : ∀ (locs : List Nat) (w : V),
        ((v, s) ∈ (if locs.any (fun i => decide (i ∉ d.meqAll) && decide (0 < d.expOf i w)) then [] else [(w, Side.upper)]) ++
          (if locs.any (fun i => decide (i ∉ d.meqAll) && !decide (0 < d.expOf i w)) then [] else [(w, Side.lower)])) ↔
        v = w ∧ ¬ ∃ i ∈ locs, i ∉ d.meqAll ∧ (if s = .upper then 0 < d.expOf i w else ¬ 0 < d.expOf i w) := by
      intro locs w
      have e1 : (locs.any (fun i => decide (i ∉ d.meqAll) && decide (0 < d.expOf i w)) = true) ↔
          ∃ i ∈ locs, i ∉ d.meqAll ∧ 0 < d.expOf i w := by
        simp only [List.any_eq_true, Bool.and_eq_true, decide_eq_true_eq]
      have e2 : (locs.any (fun i => decide (i ∉ d.meqAll) && !decide (0 < d.expOf i w)) = true) ↔
          ∃ i ∈ locs, i ∉ d.meqAll ∧ ¬ 0 < d.expOf i w := by
        simp only [List.any_eq_true, Bool.and_eq_true, decide_eq_true_eq, Bool.not_eq_true', decide_eq_false_iff_not]
      rw [List.mem_append]
      cases s with
      | upper =>
        simp only [if_true]
        rw [← e1]
        by_cases h : locs.any (fun i => decide (i ∉ d.meqAll) && decide (0 < d.expOf i w)) = true
        · rw [if_pos h]
          simp only [List.not_mem_nil, false_or, h, not_true, and_false, iff_false]
          split_ifs <;> simp
        · rw [if_neg h]
          simp only [List.mem_singleton, Prod.mk.injEq, and_true, h]
          split_ifs <;> simp
      | lower =>
        simp only [show (Side.lower = Side.upper) = False from by simp, if_false]
        rw [← e2]
        by_cases h : locs.any (fun i => decide (i ∉ d.meqAll) && !decide (0 < d.expOf i w)) = true
        · rw [if_pos h]
          simp only [List.not_mem_nil, or_false, h, not_true, and_false, iff_false]
          split_ifs <;> simp
        · rw [if_neg h]
          simp only [List.mem_singleton, Prod.mk.injEq, and_true, h]
          split_ifs <;> simp
    constructor
    · rintro ⟨⟨w, locs⟩, hm, hin⟩
      obtain ⟨rfl, hno⟩ := (hsplit locs w).1 hin
      exact ⟨List.mem_map.2 ⟨_, hm, rfl⟩, fun hh => hno ((hany locs hm s).2 hh)⟩
    · rintro ⟨hv, hno⟩
      obtain ⟨⟨w, locs⟩, hm, hwv⟩ := List.mem_map.1 hv
      have hwv : w = v := hwv
      subst hwv
      exact ⟨(w, locs), hm, (hsplit locs w).2 ⟨rfl, fun hh => hno ((hany locs hm s).1 hh)⟩⟩
  have haux : ∀ (c1 c2 : Bool) (a : V) (x : Bd V),
      x ∈ (if c1 = true then [] else [(a, Side.upper)]) ++ (if c2 = true then [] else [(a, Side.lower)]) → x.1 = a := by
    intro c1 c2 a x hx
    cases c1 <;> cases c2 <;> simp at hx
    · rcases hx with rfl | rfl <;> rfl
    · rw [hx]
    · rw [hx]
  have hnodup : (ineqMissing d).Nodup := by
    unfold ineqMissing
    rw [List.nodup_flatMap]
    constructor
    · intro x _
      split_ifs <;> simp
    · have hwf : d.varlocs.Pairwise (fun a b => a.1 ≠ b.1) := by
        refine List.Pairwise.imp ?_ hok.wf
        intro a b hab; simpa using hab
      refine hwf.imp ?_
      intro a b hab x hx hx'
      have hx1 := haux _ _ _ _ hx
      have hx2 := haux _ _ _ _ hx'
      exact hab (hx1.symm.trans hx2)
  have hinit : BInv (fun b => b.1 ∈ d.varlocs.map (·.1)) (fun b => P b.1 b.2) (ineqMissing d) [] := by
    refine ⟨fun b hb => ((hmiss b.1 b.2).1 hb).1, hnodup, wf_nil, ?_, ?_, ?_, ?_, ?_⟩
    · intro b hb hnm
      have : ∃ e ∈ ineqExps cost cons, ∃ x, (b.1, x) ∈ e ∧ (if b.2 = .upper then 0 < x else x < 0) := by
        by_contra hh; exact hnm ((hmiss b.1 b.2).2 ⟨hb, hh⟩)
      obtain ⟨e, he, x, hx, hsg⟩ := this
      obtain ⟨v, s⟩ := b
      cases s with
      | upper => exact (hP.1 e he v x hx).1 (by simpa using hsg)
      | lower => exact (hP.1 e he v x hx).2 (by simpa using hsg)
    all_goals (intro b cs; simp [PyDict.get?])
  have hrows' : ∀ i ∈ rows, ∃ e : HV V ℝ, d.exps[i]? = some e ∧ WF e.items ∧
      (∀ v x (t : Side), (v, x) ∈ e.items → ((v, t) : Bd V).1 ∈ d.varlocs.map (·.1)) ∧
      (∀ v x t, (v, x) ∈ e.items → (∀ b : Bd V, Dep e.items v x t b → P b.1 b.2) → P v t) := by
    intro i hi
    rw [hrows.mem_iff] at hi
    obtain ⟨_, _, h3, _, h5⟩ := gen_meq (progMaps cost cons) (fun h hh _ => (ok h hh).1)
    have hlt : i < d.exps.length := by
      obtain ⟨p, h, hp, hf, hs, _⟩ := (h5 i).1 hi
      have hl := List.length_pos_iff.2 (ok h (List.mem_of_getElem? hp)).1
      have := start_le hp
      rw [gen_exps_length]; omega
    have he := List.getElem?_eq_getElem hlt
    refine ⟨d.exps[i], he, hwfe i _ he, fun v x t hx => hocc i _ v x he hx, ?_⟩
    intro v x t hx hdep
    have heq := (eq_rows h0 hc d.exps[i]).1 ⟨i, hi, he⟩
    apply hP.2 _ heq v x t hx
    intro w y hw hne
    exact hdep (w, _) ⟨y, hw, hne, rfl⟩
  obtain ⟨g1, g2, g3⟩ := genMeq_spec ord hord d.exps rows (ineqMissing d, []) hinit hrows'
  obtain ⟨f1, f2, f3⟩ := fulLoop_spec ord hord n g.1 g.2 g1
  refine ⟨f1, f3, ?_, ?_, ?_, ?_⟩
  · intro b hb
    by_contra hnm
    have hc0 : Compl (ineqMissing d) [] b (fun _ => False) := fun hh => absurd hh hnm
    obtain ⟨cs, c, k1, k2, k3⟩ := f2 _ _ (g2 _ _ hc0) hb
    obtain ⟨b', hb', _⟩ := (f3 b cs k1).2 c k2
    exact k3 b' hb'
  · intro e he v x s hv
    obtain ⟨i, hi, hie⟩ := (eq_rows h0 hc ⟨e⟩).2 he
    exact f2 _ _ (g3 i (hrows.mem_iff.2 hi) ⟨e⟩ hie v x s hv)
  · intro v
    constructor
    · intro hv hnm
      have : ∃ e ∈ ineqExps cost cons, ∃ x, (v, x) ∈ e ∧ (if Side.upper = .upper then 0 < x else x < 0) := by
        by_contra hh; exact hnm ((hmiss v .upper).2 ⟨hv, hh⟩)
      simpa using this
    · intro hv hnm
      have : ∃ e ∈ ineqExps cost cons, ∃ x, (v, x) ∈ e ∧ (if Side.lower = .upper then 0 < x else x < 0) := by
        by_contra hh; exact hnm ((hmiss v .lower).2 ⟨hv, hh⟩)
      simpa using this
  · intro e he v x hx
    constructor
    · intro hpos hm
      exact ((hmiss v .upper).1 hm).2 ⟨e, he, x, hx, by simpa using hpos⟩
    · intro hneg hm
      exact ((hmiss v .lower).1 hm).2 ⟨e, he, x, hx, by simpa using hneg⟩

/-- **C21.** The reported missing bounds are exactly those that cannot be derived, in whatever order sets are iterated over. -/
theorem C21_missing (cost : List (HV V ℝ × ℝ)) (cons : List (Con V)) (h0 : (Con.ineq cost).OK) (hc : ∀ c ∈ cons, c.OK)
    (hnz : ∀ h ∈ progMaps cost cons, ∀ t ∈ h.terms, ∀ vx ∈ t.1.items, vx.2 ≠ 0)
    (ord : Nat → List (Bd V) → List (Bd V)) (hord : ∀ n l, (ord n l).Perm l) (ordc : List (List (Bd V)) → List (List (Bd V)))
    (rows : List Nat) (hrows : rows.Perm (genLoop (progMaps cost cons)).firstHalf) (v : V) (s : Side) :
    (∃ hint, (checkBounds ord ordc rows (genLoop (progMaps cost cons))).get? (v, s) = some hint) ↔
      (∃ h ∈ progMaps cost cons, ∃ t ∈ h.terms, v ∈ t.1.items.map (·.1)) ∧
      ¬ BoundedBy (ineqExps cost cons) (eqExps cons) v s := by
  have ok := prog_ok h0 hc
  have hocc := (C20_columns (progMaps cost cons) (fun h hh t ht => ((ok h hh).2.1 t ht).2)).2.1 v
  rw [← hocc]
  set d := genLoop (progMaps cost cons) with hd
  obtain ⟨k1, k2, k3, k4, k5, k6⟩ := bounds_core cost cons h0 hc hnz ord hord rows hrows
    (BoundedBy (ineqExps cost cons) (eqExps cons)) (ruleClosed_boundedBy _ _) (4 * d.exps.length)
  set g := genMeqBounds ord (ineqMissing d) d.exps rows with hg
  set f := fulLoop ord (4 * d.exps.length) g.1 g.2 with hf
  have hnot : ∀ v s, BoundedBy (ineqExps cost cons) (eqExps cons) v s → (v, s) ∉ f.1 := by
    intro v s hb
    induction hb with
    | up he hv hx => exact fun hm => (k6 _ he _ _ hv).1 hx (k3 _ hm)
    | low he hv hx => exact fun hm => (k6 _ he _ _ hv).2 hx (k3 _ hm)
    | @same e v x s he hv h1 h2 ih1 ih2 =>
      intro hm
      obtain ⟨cs, c, j1, j2, j3⟩ := k4 e he v x s hv hm
      obtain ⟨b', hb', hb'm⟩ := (k2 _ cs j1).2 c j2
      obtain ⟨y, hy, hne, hs⟩ := j3 b' hb'
      by_cases hsg : (0 < y ↔ 0 < x)
      · rw [if_pos hsg] at hs
        have : (b'.1, s.flip) ∉ f.1 := ih1 b'.1 y hy hne hsg
        rw [← hs] at this
        exact this hb'm
      · rw [if_neg hsg] at hs
        have := ih2 b'.1 y hy hne hsg
        rw [← hs] at this
        exact this hb'm
  have hmem : (∃ hint, (checkBounds ord ordc rows d).get? (v, s) = some hint) ↔ (v, s) ∈ f.1 := by
    unfold checkBounds
    dsimp only
    by_cases hnil : ineqMissing d = []
    · rw [if_pos hnil]
      constructor
      · rintro ⟨x, hx⟩; simp [PyDict.get?] at hx
      · intro hm
        have := k3 _ hm
        rw [hnil] at this; simp at this
    · rw [if_neg hnil]
      show (∃ hint, (hints ordc f.1 f.2).get? (v, s) = some hint) ↔ _
      rw [hints_get ordc f.1 f.2 k1.wf]
      cases hq : f.2.get? (v, s) with
      | some cs =>
        simp only [Option.some.injEq, exists_eq', true_iff]
        exact (k2 _ cs hq).1
      | none =>
        simp only
        split_ifs with hm <;> simp [hm]
  rw [hmem]
  constructor
  · intro hm
    exact ⟨k1.sub _ hm, fun hb => hnot v s hb hm⟩
  · rintro ⟨hv, hb⟩
    by_contra hnm
    exact hb (k1.sound (v, s) hv hnm)

/-- C21: `UnboundedGP` is raised exactly if asked for and some variable of the program lacks a bound. -/
theorem C21_error (cost : List (HV V ℝ × ℝ)) (cons : List (Con V)) (h0 : (Con.ineq cost).OK) (hc : ∀ c ∈ cons, c.OK)
    (hnz : ∀ h ∈ progMaps cost cons, ∀ t ∈ h.terms, ∀ vx ∈ t.1.items, vx.2 ≠ 0)
    (ord : Nat → List (Bd V) → List (Bd V)) (hord : ∀ n l, (ord n l).Perm l) (ordc : List (List (Bd V)) → List (List (Bd V)))
    (rows : List Nat) (hrows : rows.Perm (genLoop (progMaps cost cons)).firstHalf) (err : Bool) :
    boundsError ord ordc rows (genLoop (progMaps cost cons)) err = true ↔
      err = true ∧ ∃ v s, (∃ h ∈ progMaps cost cons, ∃ t ∈ h.terms, v ∈ t.1.items.map (·.1)) ∧
        ¬ BoundedBy (ineqExps cost cons) (eqExps cons) v s := by
  unfold boundsError
  rw [Bool.and_eq_true, and_comm]
  refine and_congr Iff.rfl ?_
  simp only [← C21_missing cost cons h0 hc hnz ord hord ordc rows hrows]
  cases hr : checkBounds ord ordc rows (genLoop (progMaps cost cons)) with
  | nil => simp [PyDict.get?]
  | cons b l =>
    simp only [List.isEmpty_cons, Bool.not_false, true_iff]
    exact ⟨b.1.1, b.1.2, b.2, by rw [get?_cons]; simp⟩

/-- C21, hints: each alternative reported for a missing bound consists of missing bounds and would suffice: a set of bounds that is closed
under the rules and contains the alternative contains the bound. For each equality with the variable there is an alternative that
only asks for bounds of the other variables of that equality. -/
theorem C21_hints (cost : List (HV V ℝ × ℝ)) (cons : List (Con V)) (h0 : (Con.ineq cost).OK) (hc : ∀ c ∈ cons, c.OK)
    (hnz : ∀ h ∈ progMaps cost cons, ∀ t ∈ h.terms, ∀ vx ∈ t.1.items, vx.2 ≠ 0)
    (ord : Nat → List (Bd V) → List (Bd V)) (hord : ∀ n l, (ord n l).Perm l) (ordc : List (List (Bd V)) → List (List (Bd V)))
    (hordc : ∀ l, (ordc l).Perm l)
    (rows : List Nat) (hrows : rows.Perm (genLoop (progMaps cost cons)).firstHalf) (v : V) (s : Side)
    (hint : Option (List (List (Bd V))))
    (hh : (checkBounds ord ordc rows (genLoop (progMaps cost cons))).get? (v, s) = some hint) :
    (∀ alts, hint = some alts → ∀ A ∈ alts, A ≠ [] ∧
      (∀ b ∈ A, ∃ hint', (checkBounds ord ordc rows (genLoop (progMaps cost cons))).get? b = some hint') ∧
      (∀ P : V → Side → Prop, RuleClosed (ineqExps cost cons) (eqExps cons) P → (∀ b ∈ A, P b.1 b.2) → P v s)) ∧
    (∀ e ∈ eqExps cons, ∀ x, (v, x) ∈ e → ∃ alts, hint = some alts ∧ ∃ A ∈ alts, ∀ b ∈ A, b.1 ≠ v ∧ b.1 ∈ e.map (·.1)) := by
  set d := genLoop (progMaps cost cons) with hd
  have core := fun P hP => bounds_core cost cons h0 hc hnz ord hord rows hrows P hP (4 * d.exps.length)
  obtain ⟨k1, k2, k3, k4, _, _⟩ := core (BoundedBy (ineqExps cost cons) (eqExps cons)) (ruleClosed_boundedBy _ _)
  simp only [← hd] at core k1 k2 k3 k4
  set g := genMeqBounds ord (ineqMissing d) d.exps rows with hg
  set f := fulLoop ord (4 * d.exps.length) g.1 g.2 with hf
  have hcb : checkBounds ord ordc rows d = hints ordc f.1 f.2 := by
    unfold checkBounds at hh ⊢
    dsimp only at hh ⊢
    by_cases hnil : ineqMissing d = []
    · rw [if_pos hnil] at hh; simp [PyDict.get?] at hh
    · rw [if_neg hnil]
  rw [hcb] at hh ⊢
  have hkey := hints_get ordc f.1 f.2 k1.wf
  have hin : (v, s) ∈ f.1 := by
    rw [hkey] at hh
    cases hq : f.2.get? (v, s) with
    | some cs => exact (k2 _ cs hq).1
    | none =>
      rw [hq] at hh
      simp only at hh
      by_contra hn
      rw [if_neg hn] at hh; cases hh
  have hgetm : ∀ b ∈ f.1, ∃ hint', (hints ordc f.1 f.2).get? b = some hint' := by
    intro b hb
    rw [hkey]
    cases hq : f.2.get? b with
    | some cs => exact ⟨_, rfl⟩
    | none => exact ⟨none, by simp [hb]⟩
  have hfold : ∀ cs, f.2.get? (v, s) = some cs →
      (∀ A ∈ (ordc cs).foldl (hintStep f.1) cs, ∃ c ∈ cs, A = c.filter (fun b => decide (b ∈ f.1))) ∧
      (∀ c, False ∨ c ∈ ordc cs → ∃ A ∈ (ordc cs).foldl (hintStep f.1) cs, ∀ b ∈ A, b ∈ c ∧ b ∈ f.1) := by
    intro cs hq
    exact hintFold f.1 cs (k2 _ cs hq).2 (ordc cs) ((hordc cs).nodup_iff.2 (k1.nd _ cs hq)) (fun c hcm => (hordc cs).mem_iff.1 hcm) cs
      (k1.nd _ cs hq) (fun c hcm => (hordc cs).mem_iff.1 hcm) (fun _ => False) (fun _ hF => hF.elim)
      (fun A hA => Or.inl ((hordc cs).mem_iff.2 hA)) (fun _ hF => hF.elim)
  constructor
  · intro alts halts A hA
    rw [hkey] at hh
    cases hq : f.2.get? (v, s) with
    | none =>
      rw [hq] at hh
      simp only [hin, if_true, Option.some.injEq] at hh
      rw [halts] at hh; cases hh
    | some cs =>
      rw [hq] at hh
      simp only [Option.some.injEq] at hh
      rw [halts, Option.some.injEq] at hh
      rw [← hh] at hA
      obtain ⟨c, hcm, rfl⟩ := (hfold cs hq).1 A hA
      refine ⟨?_, ?_, ?_⟩
      · obtain ⟨b, hb, hbm⟩ := (k2 _ cs hq).2 c hcm
        intro hnil
        have : b ∈ c.filter (fun b => decide (b ∈ f.1)) := List.mem_filter.2 ⟨hb, by simpa using hbm⟩
        rw [hnil] at this; simp at this
      · intro b hb
        exact hgetm b (by simpa using (List.mem_filter.1 hb).2)
      · intro P hP hAP
        have c1 := (core P hP).1
        refine c1.cond (v, s) cs c hq hcm ?_
        intro b hb
        by_cases hbm : b ∈ f.1
        · exact hAP b (List.mem_filter.2 ⟨hb, by simpa using hbm⟩)
        · exact c1.sound b (c1.condS _ cs c hq hcm b hb) hbm
  · intro e he x hx
    obtain ⟨cs, c, j1, j2, j3⟩ := k4 e he v x s hx hin
    rw [hkey, j1] at hh
    simp only [Option.some.injEq] at hh
    obtain ⟨A, hA, hsub⟩ := (hfold cs j1).2 c (Or.inr ((hordc cs).mem_iff.2 j2))
    refine ⟨_, hh.symm, A, hA, ?_⟩
    intro b hb
    obtain ⟨y, hy, hne, _⟩ := j3 b (hsub b hb).1
    exact ⟨hne, List.mem_map.2 ⟨_, hy, rfl⟩⟩

/-- The hypotheses can be met, with a bound that is only found through an equality: minimise `x` subject to `x = y`. There `x` and `y`
have upper bounds only. -/
example :
    let cost : List (HV String ℝ × ℝ) := [(⟨[("x", 1)]⟩, 1)]
    let cons : List (Con String) := [.eq ⟨[("x", 1), ("y", -1)]⟩ ⟨[("x", -1), ("y", 1)]⟩ 1]
    (Con.ineq cost).OK ∧ (∀ c ∈ cons, c.OK) ∧
    (∀ h ∈ progMaps cost cons, ∀ t ∈ h.terms, ∀ vx ∈ t.1.items, vx.2 ≠ 0) ∧
    BoundedBy (ineqExps cost cons) (eqExps cons) "y" .upper ∧ ¬ BoundedBy (ineqExps cost cons) (eqExps cons) "y" .lower := by
  refine ⟨?_, ?_, ?_, ?_, ?_⟩
  · simp [Con.OK]
  · intro c hc
    simp only [List.mem_cons, List.not_mem_nil, or_false] at hc
    subst hc
    refine ⟨one_pos, by simp, by simp, ?_⟩
    intro pt hpt
    have h1 := hpt "x"
    have h2 := hpt "y"
    simp [monVal, Real.rpow_neg h1.le, Real.rpow_neg h2.le]
    field_simp
  · simp only [progMaps, hmaps, List.flatMap_cons, List.flatMap_nil, List.append_nil]
    intro h hh t ht vx hvx
    simp only [List.mem_cons, List.not_mem_nil, or_false] at hh
    rcases hh with rfl | rfl | rfl <;> simp only [List.mem_singleton] at ht <;> subst ht <;>
      simp only [List.mem_cons, List.not_mem_nil, or_false] at hvx
    · subst hvx; norm_num
    · rcases hvx with rfl | rfl <;> norm_num
    · rcases hvx with rfl | rfl <;> norm_num
  · refine .same (e := [("x", 1), ("y", -1)]) (x := -1) (by simp [eqExps]) (by simp) ?_ ?_
    · intro w y hw hne hs
      simp only [List.mem_cons, Prod.mk.injEq, List.not_mem_nil, or_false] at hw
      rcases hw with ⟨rfl, rfl⟩ | ⟨rfl, rfl⟩
      · norm_num at hs
      · exact absurd rfl hne
    · intro w y hw hne hs
      simp only [List.mem_cons, Prod.mk.injEq, List.not_mem_nil, or_false] at hw
      rcases hw with ⟨rfl, rfl⟩ | ⟨rfl, rfl⟩
      · exact .up (e := [("x", 1)]) (by simp [ineqExps]) (by simp) one_pos
      · exact absurd rfl hne
  · have : ∀ v s, BoundedBy (ineqExps [((⟨[("x", 1)]⟩ : HV String ℝ), (1 : ℝ))] [.eq ⟨[("x", 1), ("y", -1)]⟩ ⟨[("x", -1), ("y", 1)]⟩ 1])
        (eqExps [Con.eq (⟨[("x", 1), ("y", -1)]⟩ : HV String ℝ) ⟨[("x", -1), ("y", 1)]⟩ 1]) v s → s = .upper := by
      intro v s hb
      induction hb with
      | up => rfl
      | low he hv hx =>
        simp only [ineqExps, List.map_cons, List.map_nil, List.flatMap_cons, List.flatMap_nil, List.append_nil, List.mem_singleton] at he
        subst he
        simp only [List.mem_singleton, Prod.mk.injEq] at hv
        rw [hv.2] at hx
        norm_num at hx
      | @same e v x s he hv h1 h2 ih1 ih2 =>
        simp only [eqExps, List.flatMap_cons, List.flatMap_nil, List.append_nil, List.mem_singleton] at he
        subst he
        simp only [List.mem_cons, Prod.mk.injEq, List.not_mem_nil, or_false] at hv
        rcases hv with ⟨rfl, rfl⟩ | ⟨rfl, rfl⟩
        · exact ih2 "y" (-1) (by simp) (by decide) (by norm_num)
        · exact ih2 "x" 1 (by simp) (by decide) (by norm_num)
    intro hb
    cases this _ _ hb

end Verif
