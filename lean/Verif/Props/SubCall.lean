import Verif.Lemmas.SubCall
import Verif.Lemmas.Constraint
import Verif.Props.Arithmetic
import Verif.Props.Substitution

/-! C78: substituting into expressions. -/

set_option linter.unusedSectionVars false

namespace Verif
open PyDict PS SubCall

section C78
variable {S N D F : Type} [DecidableEq S] [DecidableEq N] [AddCommGroup D] [Module ℝ D] [DecidableEq D]

namespace SubCall

theorem sub_meaning {W : World S N ℝ D F} {h h' : NMap (Key S) ℝ D} {subs : Subs S N ℝ D F} (hc : TermsTidy h.terms) (hW : WorldOK W h)
    (hs : SubsOK W h subs) (hr : subMap W h subs = .ok h') :
    h'.units = h.units ∧ (∀ pt pt', PutIn W subs.entries pt pt' h → termsVal pt h'.terms = termsVal pt' h.terms) ∧
    (∀ a, Occurs h' a → Occurs h a ∧ given W.E subs.entries a = none) ∧
    (∀ a v, Occurs h a → given W.E subs.entries a = some v → ∃ x, Means (W.vunits a) v x) ∧ TermsTidy h'.terms ∧
    (NZ h.terms → NZ h'.terms ∨ h'.terms = [(HV.empty, 0)]) ∧ (h.terms = [] → h' = h) ∧ (h.terms ≠ [] → h'.terms ≠ []) := by
  obtain ⟨f, rs, h1, h2, h3, h4⟩ := subMap_ok hW hs hr
  have hm : ∀ a v, Occurs h a → given W.E subs.entries a = some v → ∃ x, Means (W.vunits a) v x := by
    intro a v ha hv
    have := h3 a ha
    rw [hv] at this
    obtain ⟨x, _, hx⟩ := this
    exact ⟨x, hx⟩
  by_cases hne : h.terms = []
  · have hf : f = [] := by
      cases f with
      | nil => rfl
      | cons kv f =>
        have := h4 kv.1 (by rintro ⟨t, ht, _⟩; rw [hne] at ht; cases ht)
        rw [get?_inst instBEqOfDecidableEq instBEqProd, get?_cons] at this
        simp at this
    subst hf
    have hh : h' = h := by
      unfold NMap.sub subState at h1
      cases h1
      rfl
    subst hh
    refine ⟨rfl, ?_, ?_, hm, hc, .inl, fun _ => rfl, id⟩
    · intro pt pt' _
      rw [hne]
      rfl
    · rintro a ⟨t, ht, _⟩
      rw [hne] at ht
      cases ht
  · obtain ⟨a1, a2, a3, a4, a5, a6⟩ := sub_tidy hc hne h2 h1
    have hocc : ∀ a, Occurs h' a → Occurs h a ∧ given W.E subs.entries a = none := by
      rintro a ⟨t, ht, ha⟩
      obtain ⟨x, hx⟩ := Option.ne_none_iff_exists'.1 (hv_get_ne.2 ha)
      obtain ⟨b1, s, b2, b3⟩ := a3 t ht a x hx
      have ho : Occurs h a := ⟨s, b2, hv_get_ne.1 (by rw [b3]; simp)⟩
      refine ⟨ho, ?_⟩
      have := h3 a ho
      cases hv : given W.E subs.entries a with
      | none => rfl
      | some v =>
        rw [hv] at this
        obtain ⟨y, hy, _⟩ := this
        rw [b1] at hy
        cases hy
    refine ⟨a1, ?_, hocc, hm, a5, a6, fun h0 => absurd h0 hne, fun _ => a4⟩
    intro pt pt' hp
    have hpt : termsVal pt h'.terms = termsVal pt' h'.terms := by
      apply termsVal_congr
      intro t ht kx hkx
      obtain ⟨ho, hn⟩ := hocc kx.1 ⟨t, ht, List.mem_map_of_mem hkx⟩
      have := hp kx.1 ho
      rw [hn] at this
      exact this.symm
    have hov : termsVal pt' h.terms = termsVal (override pt' f) h.terms := by
      apply termsVal_congr
      intro t ht kx hkx
      have ho : Occurs h kx.1 := ⟨t, ht, List.mem_map_of_mem hkx⟩
      have hg := h3 kx.1 ho
      have hpk := hp kx.1 ho
      unfold override
      cases hv : given W.E subs.entries kx.1 with
      | none => rw [hv] at hg; rw [hg]; rfl
      | some v =>
        rw [hv] at hg hpk
        obtain ⟨x, hx, hxm⟩ := hg
        rw [hx]
        have e1 := (subValue_iff (hW.units kx.1) v x).2 hxm
        have e2 := (subValue_iff (hW.units kx.1) v (pt' kx.1)).2 hpk
        rw [e1] at e2
        cases e2
        rfl
    have hov' : termsVal pt' h'.terms = termsVal (override pt' f) h'.terms := by
      apply termsVal_congr
      intro t ht kx hkx
      obtain ⟨ho, hn⟩ := hocc kx.1 ⟨t, ht, List.mem_map_of_mem hkx⟩
      have hg := h3 kx.1 ho
      rw [hn] at hg
      unfold override
      rw [hg]
      rfl
    rw [hpt, hov, hov']
    exact a2 _ (override_agrees pt' f)

end SubCall

/-- C78. Whatever the substitutions are given for -- variables, keys, names, vectors -- and in whatever form -- numbers, Quantities, constants --,
`p.sub(substitutions)` has at every point the physical value that `p` has with the given values put in, and the units of `p`. No variable with a
given value is left. The values all have the dimension of their variable; other values make it raise. The class of the result is true, and
without signomials enabled its coefficients are positive. Not covered: arrays that mix swept elements with constants (`C78_mixed_fails`), arrays
given to scalars, vectors with several dimensions. -/
theorem C78_sub_partial {W : World S N ℝ D F} {n n' : Nomial (Key S) ℝ D} {subs : Subs S N ℝ D F} {se rp : Bool} (hc : TermsTidy n.hmap.terms)
    (hW : WorldOK W n.hmap) (hs : SubsOK W n.hmap subs) (hr : SubCall.sub W se rp n subs = .ok n') :
    n'.hmap.units = n.hmap.units ∧ (∀ pt pt', PutIn W subs.entries pt pt' n.hmap → physVal pt n'.hmap = physVal pt' n.hmap) ∧
    (∀ a, Occurs n'.hmap a → Occurs n.hmap a ∧ given W.E subs.entries a = none) ∧
    (∀ a v, Occurs n.hmap a → given W.E subs.entries a = some v → ∃ x, Means (W.vunits a) v x) ∧
    n'.ClassTrue ∧ (rp = true → se = false → n'.AllPos) := by
  unfold SubCall.sub at hr
  obtain ⟨h', h1, h2⟩ := except_bind_ok hr
  obtain ⟨a1, a2, a3, a4, _⟩ := sub_meaning hc hW hs h1
  rcases C05_class_decision se rp h' with ⟨h3, _⟩ | ⟨m, h3, h4, h5, h6⟩
  · rw [h2] at h3; cases h3
  · rw [h2] at h3
    cases h3
    rw [h4]
    refine ⟨a1, ?_, a3, a4, h5, fun hrp hse => h6 ⟨hrp, hse⟩⟩
    intro pt pt' hp
    unfold physVal
    rw [a1, a2 pt pt' hp]

/-- C78: it returns, if the shapes fit, the values have the dimension of their variables, and their powers are numbers; without signomials
enabled, if also the coefficients and the values are positive. -/
theorem C78_returns_partial {W : World S N ℝ D F} {n : Nomial (Key S) ℝ D} {subs : Subs S N ℝ D F} {se rp : Bool} (hc : TermsTidy n.hmap.terms)
    (hW : WorldOK W n.hmap) (hs : SubsOK W n.hmap subs)
    (hf : ∀ ks ∈ subs.entries, ∀ a, Occurs n.hmap a → Lookup.Refers W.E ks.1 a → Fits W.shape ks.2 a)
    (hn : ∀ a v, Occurs n.hmap a → given W.E subs.entries a = some v → ∃ x, Means (W.vunits a) v x ∧
      (0 < x ∨ ((rp = true → se = true) ∧ x = 0 ∧ ∀ t ∈ n.hmap.terms, ∀ e, (a, e) ∈ t.1.items → 0 ≤ e)))
    (hp : rp = true → se = false → n.AllPos) : ∃ n', SubCall.sub W se rp n subs = .ok n' := by
  obtain ⟨h', h1⟩ := subMap_total hc hW hs hf (by
    intro a v ha hv
    obtain ⟨x, hx, hd⟩ := hn a v ha hv
    refine ⟨x, hx, ?_⟩
    intro t ht e he
    rcases hd with hd | ⟨_, hd, he'⟩
    · simp [pwDom, hd]
    · simp [pwDom, hd, he' t ht e he])
  unfold SubCall.sub
  rw [h1]
  show ∃ n', mkSig se rp h' = .ok n'
  rcases C05_class_decision se rp h' with ⟨_, ⟨t, ht, hneg⟩, hrp, hse⟩ | ⟨m, h3, _⟩
  · exfalso
    obtain ⟨f, rs, g1, g2, g3, g4⟩ := subMap_ok hW hs h1
    unfold NMap.sub at g1
    obtain ⟨s, g5, g6⟩ := except_bind_ok g1
    cases g6
    have := subState_pos hc.1 (hp hrp hse) (fun v c hv => by
      by_cases ho : Occurs n.hmap v
      · have hg := g3 v ho
        cases hgv : given W.E subs.entries v with
        | none => rw [hgv] at hg; rw [hg] at hv; cases hv
        | some w =>
          rw [hgv] at hg
          obtain ⟨x, hx, hxm⟩ := hg
          rw [hx] at hv
          cases hv
          obtain ⟨y, hy, hd⟩ := hn v w ho hgv
          have e1 := (subValue_iff (hW.units v) w c).2 hxm
          rw [(subValue_iff (hW.units v) w y).2 hy] at e1
          cases e1
          rcases hd with hd | ⟨hd, _⟩
          · exact hd
          · rw [hd hrp] at hse; cases hse
      · rw [g4 v ho] at hv; cases hv) g5
    exact absurd (this t ht) (not_lt.2 hneg)
  · exact ⟨m, h3⟩

/-- C78: equal values give equal results, in whatever way and order they are given, and in whatever order sets are iterated. -/
theorem C78_same_partial {W W' : World S N ℝ D F} {n n1 n2 : Nomial (Key S) ℝ D} {subs subs' : Subs S N ℝ D F} {se rp : Bool}
    (hc : TermsCanonical n.hmap.terms) (hW : WorldOK W n.hmap) (hW' : WorldOK W' n.hmap) (hu : W.vunits = W'.vunits) (hs : SubsOK W n.hmap subs)
    (hs' : SubsOK W' n.hmap subs') (hg : ∀ a, Occurs n.hmap a → given W.E subs.entries a = given W'.E subs'.entries a)
    (h1 : SubCall.sub W se rp n subs = .ok n1) (h2 : SubCall.sub W' se rp n subs' = .ok n2) :
    Nomial.hmapEq n1.hmap.terms n2.hmap.terms = true ∧ n1.hmap.units = n2.hmap.units := by
  obtain ⟨hwf, hnz, htd⟩ := (termsCanonical_iff _).1 hc
  have hct : TermsTidy n.hmap.terms := ⟨hwf, htd⟩
  unfold SubCall.sub at h1 h2
  obtain ⟨m1, h1, e1⟩ := except_bind_ok h1
  obtain ⟨m2, h2, e2⟩ := except_bind_ok h2
  obtain ⟨a1, a2, a3, a4, a5, a6, a7, a8⟩ := sub_meaning hct hW hs h1
  obtain ⟨b1, b2, b3, b4, b5, b6, b7, b8⟩ := sub_meaning hct hW' hs' h2
  rw [mkSig_ok e1, mkSig_ok e2]
  refine ⟨?_, a1.trans b1.symm⟩
  by_cases hne : n.hmap.terms = []
  · rw [a7 hne, b7 hne, hne]
    rfl
  · have hsame : ∀ pt, termsVal pt m1.terms = termsVal pt m2.terms := by
      intro pt
      classical
      let pt' : Key S → ℝ := fun a => if h : Occurs n.hmap a ∧ ∃ v, given W.E subs.entries a = some v then
        (a4 a h.2.choose h.1 h.2.choose_spec).choose else pt a
      have hput : PutIn W subs.entries pt pt' n.hmap := by
        intro a ha
        cases hv : given W.E subs.entries a with
        | none =>
          have : ¬ (Occurs n.hmap a ∧ ∃ v, given W.E subs.entries a = some v) := by
            rintro ⟨_, v, h⟩
            rw [hv] at h
            cases h
          exact dif_neg this
        | some v =>
          have h : Occurs n.hmap a ∧ ∃ v, given W.E subs.entries a = some v := ⟨ha, v, hv⟩
          have hpt : pt' a = (a4 a h.2.choose h.1 h.2.choose_spec).choose := dif_pos h
          have hv' : h.2.choose = v := Option.some.inj (h.2.choose_spec.symm.trans hv)
          show Means (W.vunits a) v (pt' a)
          rw [hpt, ← hv']
          exact (a4 a h.2.choose h.1 h.2.choose_spec).choose_spec
      have hput' : PutIn W' subs'.entries pt pt' n.hmap := by
        intro a ha
        have := hput a ha
        rw [hg a ha, hu] at this
        exact this
      rw [a2 pt pt' hput, b2 pt pt' hput']
    have hz : ∀ pt : Key S → ℝ, termsVal pt ([(HV.empty, 0)] : List (HV (Key S) ℝ × ℝ)) = 0 := by
      intro pt; simp [termsVal]
    have c1 := (a6 hnz).imp_left (fun h => (termsCanonical_iff m1.terms).2 ⟨a5.1, h, a5.2⟩)
    have c2 := (b6 hnz).imp_left (fun h => (termsCanonical_iff m2.terms).2 ⟨b5.1, h, b5.2⟩)
    rcases c1 with c1 | c1 <;> rcases c2 with c2 | c2
    · exact (hmapEq_iff c1 c2).2 (fun pt _ => hsame pt)
    · exact absurd (canonical_zero c1 (fun pt _ => by rw [hsame, c2, hz])) (a8 hne)
    · exact absurd (canonical_zero c2 (fun pt _ => by rw [← hsame, c1, hz])) (b8 hne)
    · rw [c1, c2]; simp [Nomial.hmapEq, PyDict.get?, HV.beq_def, HV.empty, List.isPerm]

/-- C78: sweeps, functions, NaNs and names of variables that do not occur are passed over in silence; if nothing else is given, the expression is
returned as it is. -/
theorem C78_ignored {W : World S N ℝ D F} {n n' : Nomial (Key S) ℝ D} {subs : Subs S N ℝ D F} {se rp : Bool} (hW : WorldOK W n.hmap)
    (hs : SubsOK W n.hmap subs) (hg : ∀ a, Occurs n.hmap a → given W.E subs.entries a = none) (hr : SubCall.sub W se rp n subs = .ok n') :
    n'.hmap = n.hmap := by
  unfold SubCall.sub at hr
  obtain ⟨m, h1, h2⟩ := except_bind_ok hr
  rw [mkSig_ok h2]
  unfold subMap at h1
  by_cases he : subs.entries.isEmpty
  · rw [if_pos he] at h1
    cases h1
    rfl
  · rw [if_neg he] at h1
    obtain ⟨p, hp, h1⟩ := except_bind_ok h1
    have : p.constants = [] := by
      have hg' : ∀ a, p.constants.get? a = none := by
        intro a
        by_cases ha : Occurs n.hmap a
        · rw [(parsed_get hW hs hp a).1 ha, hg a ha]
          rfl
        · exact (parsed_get hW hs hp a).2 ha
      cases hcst : p.constants with
      | nil => rfl
      | cons kv l =>
        have := hg' kv.1
        rw [hcst, get?_cons] at this
        simp at this
    rw [this] at h1
    cases h1
    rfl

namespace SubCall

theorem contains_of_get {V β : Type} [DecidableEq V] {f : PyDict V β} {v : V} {x : β} (h : f.get? v = some x) : f.contains v = true :=
  contains_iff.2 ⟨x, h⟩

theorem var_tidy (vunits : Key S → Option (UnitQ D ℝ)) (v : Key S) : TermsCanonical (varNomial vunits v).hmap.terms := by
  unfold varNomial TermsCanonical ExpCanonical
  simp

theorem var_occurs {vunits : Key S → Option (UnitQ D ℝ)} {v a : Key S} : Occurs (varNomial vunits v).hmap a ↔ a = v := by
  unfold Occurs varNomial
  simp

/-- A value for a variable. -/
theorem var_sub {W : World S N ℝ D F} {v : Key S} (hW : WorldOK W (varNomial W.vunits v).hmap) {sv : SubVal (Key S) ℝ D} {x : ℝ}
    (hm : Means (W.vunits v) sv x) (hd : pwDom x 1 = true) :
    subMap W (varNomial W.vunits v).hmap (.dict [(.key v, .cell (.num sv))]) = .ok ⟨[(HV.empty, x)], W.vunits v⟩ := by
  have hgiven : ∀ a, a = v → given (F := F) W.E [(.key v, .cell (.num sv))] a = some sv := by
    rintro a rfl
    simp [given, constant]
  have hs : SubsOK W (varNomial W.vunits v).hmap (.dict [(.key v, .cell (.num sv))]) := by
    refine ⟨?_, trivial⟩
    intro ks hks
    rcases List.mem_singleton.1 hks with rfl
    exact ⟨trivial, fun a _ _ _ cs h => by cases h⟩
  obtain ⟨hwf, hnz, htd⟩ := (termsCanonical_iff _).1 (var_tidy W.vunits v)
  obtain ⟨h', h1⟩ := subMap_total (subs := .dict [(.key v, .cell (.num sv))]) ⟨hwf, htd⟩ hW hs (by
    intro ks hks a ha _
    rcases List.mem_singleton.1 hks with rfl
    exact fits_cell (hW.idx a ha) sv) (by
    intro a w ha hw
    have ha := var_occurs.1 ha
    subst ha
    have : some sv = some w := (hgiven a rfl).symm.trans hw
    cases this
    refine ⟨x, hm, ?_⟩
    intro t ht e he
    have ht : t = (⟨[(a, 1)]⟩, 1) := List.mem_singleton.1 ht
    subst ht
    have he : (a, e) = (a, 1) := List.mem_singleton.1 he
    cases he
    exact hd)
  obtain ⟨f, rs, g1, g2, g3, g4⟩ := subMap_ok hW hs h1
  have hfv : @PyDict.get? (Key S) ℝ instBEqOfDecidableEq f v = some x := by
    have := g3 v (var_occurs.2 rfl)
    have hgv : given W.E (Subs.entries (.dict [(.key v, .cell (.num sv))])) v = some sv := hgiven v rfl
    rw [hgv] at this
    obtain ⟨y, hy, hym⟩ := this
    have e1 := (subValue_iff (hW.units v) sv x).2 hm
    rw [(subValue_iff (hW.units v) sv y).2 hym] at e1
    cases e1
    exact hy
  have hterms := C06_sub_all (var_tidy W.vunits v) (by simp [varNomial]) g2 g1 (by
    intro t ht a e hae
    have ha := var_occurs.1 ⟨t, ht, hv_get_ne.1 (by rw [hae]; simp)⟩
    subst ha
    exact contains_of_get hfv) (fun _ => x) (by
    intro a c hac
    by_cases ha : a = v
    · subst ha
      rw [hfv] at hac
      cases hac
      rfl
    · rw [g4 a (fun h => ha (var_occurs.1 h))] at hac
      cases hac)
  have hunits := (sub_ok (var_tidy W.vunits v) (by simp [varNomial]) g2 g1).1
  rw [h1]
  congr 1
  obtain ⟨ts, u⟩ := h'
  simp only at hterms hunits
  rw [hterms, hunits]
  simp [termsVal, monVal, varNomial]

end SubCall

/-- C78: `x.sub(value)` is the constant with that value, in the units of `x`. -/
theorem C78_variable {W : World S N ℝ D F} {v : Key S} (hW : WorldOK W (varNomial W.vunits v).hmap) {sv : SubVal (Key S) ℝ D} {x : ℝ}
    (hm : Means (W.vunits v) sv x) (hx : 0 < x) (se rp : Bool) :
    variableSub W se rp v (.value (.cell (.num sv))) = .ok ⟨⟨[(HV.empty, x)], W.vunits v⟩, .monomial⟩ := by
  show (do let h ← subMap W (varNomial W.vunits v).hmap (.dict [(.key v, .cell (.num sv))]); mkSig se rp h) = _
  rw [var_sub hW hm (by simp [pwDom, hx])]
  show mkSig se rp _ = _
  unfold mkSig
  simp [NMap.anyNonpositive, hx]

namespace SubCall

theorem fixedOr_phys (n : Nomial (Key S) ℝ D) (pt : Key S → ℝ) : (fixedOr n).phys pt = physVal pt n.hmap := by
  unfold fixedOr
  split
  · rename_i h
    unfold isFixed at h
    rw [Bool.and_eq_true] at h
    obtain ⟨h1, h2⟩ := h
    have h1 : n.hmap.terms.length = 1 := by simpa using h1
    obtain ⟨t, ht⟩ := List.length_eq_one_iff.1 h1
    rw [ht] at h2
    have h3 : t.1.items = [] := by simpa using h2
    unfold Value.phys physVal
    rw [ht]
    simp [termsVal, monVal, h3]
  · rfl

theorem given_descr {W : World S N ℝ D F} {h : NMap (Key S) ℝ D} (hE : Lookup.EnvOK W.E) (descr : Key S → Option (Cell (SubVal (Key S) ℝ D) F))
    (hk : ∀ a b, Occurs h a → Occurs h b → Lookup.MapKey.key a ∈ W.E.keys b → a = b) (a : Key S) (ha : Occurs h a) :
    given W.E ((W.E.ord h.vks).filterMap (fun k => (descr k).map (fun c => (Lookup.MapKey.key k, Sub.cell c)))) a =
      match descr a with
      | some (.num v) => some v
      | _ => none := by
  have hmem : ∀ e, e ∈ ((W.E.ord h.vks).filterMap (fun k => (descr k).map (fun c => ((Lookup.MapKey.key k : Lookup.MapKey (Key S) N), (Sub.cell c : Entry S ℝ D F))))).reverse →
      ∃ k c, Occurs h k ∧ descr k = some c ∧ e = (.key k, .cell c) := by
    intro e he
    rw [List.mem_reverse, List.mem_filterMap] at he
    obtain ⟨k, hk, h1⟩ := he
    rw [Option.map_eq_some_iff] at h1
    obtain ⟨c, hc, rfl⟩ := h1
    exact ⟨k, c, occurs_iff.1 ((hE.ord _).mem_iff.1 hk), hc, rfl⟩
  have hself : ∀ k c, Occurs h k → descr k = some c → (k ≠ a → ¬ ((.key k : Lookup.MapKey (Key S) N) = .key a ∨ (.key k : Lookup.MapKey (Key S) N) ∈ W.E.keys a)) := by
    intro k c hok _ hne hor
    rcases hor with hor | hor
    · cases hor; exact hne rfl
    · exact hne (hk k a hok ha hor)
  have key : ∀ v, descr a = some (.num v) →
      given W.E ((W.E.ord h.vks).filterMap (fun k => (descr k).map (fun c => (Lookup.MapKey.key k, Sub.cell c)))) a = some v := by
    intro v hv
    unfold given
    refine findSome?_one ?_ ⟨(.key a, .cell (.num v)), ?_, ?_⟩
    · intro e he
      obtain ⟨k, c, hok, hc, rfl⟩ := hmem e he
      by_cases hka : k = a
      · subst hka
        rw [hv] at hc
        cases hc
        right
        exact if_pos (.inl rfl)
      · left
        exact if_neg (hself k c hok hc hka)
    · rw [List.mem_reverse, List.mem_filterMap]
      exact ⟨a, (hE.ord _).mem_iff.2 (occurs_iff.2 ha), by rw [hv]; rfl⟩
    · exact if_pos (.inl rfl)
  have keyn : (∀ v, descr a ≠ some (.num v)) → given W.E ((W.E.ord h.vks).filterMap (fun k => (descr k).map (fun c => (Lookup.MapKey.key k, Sub.cell c)))) a = none := by
    intro hv
    unfold given
    rw [List.findSome?_eq_none_iff]
    intro e he
    obtain ⟨k, c, hok, hc, rfl⟩ := hmem e he
    by_cases hka : k = a
    · subst hka
      rw [if_pos (.inl rfl)]
      cases c with
      | num v => exact absurd hc (hv v)
      | _ => rfl
    · exact if_neg (hself k c hok hc hka)
  cases hd : descr a with
  | none => exact keyn (fun v h => by rw [hd] at h; cases h)
  | some c =>
    cases c with
    | num v => exact key v hd
    | _ => exact keyn (fun v h => by rw [hd] at h; cases h)

end SubCall

/-- C78: `p.value` has the physical value of `p` at every point where the variables with a value have that value. It is a number, in the units of
`p`, or an expression without these variables. -/
theorem C78_value {W : World S N ℝ D F} {n : Nomial (Key S) ℝ D} {descr : Key S → Option (Cell (SubVal (Key S) ℝ D) F)} {se : Bool}
    {r : Value (Key S) ℝ D} (hc : TermsTidy n.hmap.terms) (hW : WorldOK W n.hmap)
    (hk : ∀ a b, Occurs n.hmap a → Occurs n.hmap b → Lookup.MapKey.key a ∈ W.E.keys b → a = b) (hr : value W se descr n = .ok r) :
    (∀ pt, (∀ a v, Occurs n.hmap a → descr a = some (.num v) → Means (W.vunits a) v (pt a)) → r.phys pt = physVal pt n.hmap) ∧
    r.Fits n.hmap descr := by
  unfold value at hr
  by_cases hfx : isFixed n.hmap
  · rw [if_pos hfx] at hr
    cases hr
    refine ⟨fun pt _ => fixedOr_phys n pt, ?_⟩
    unfold fixedOr
    rw [if_pos hfx]
    rfl
  · rw [if_neg hfx] at hr
    obtain ⟨p, h1, h2⟩ := except_bind_ok hr
    cases h2
    have hs : SubsOK W n.hmap (.dict ((W.E.ord n.hmap.vks).filterMap (fun k => (descr k).map (fun c => (Lookup.MapKey.key k, Sub.cell c))))) := by
      refine ⟨?_, trivial⟩
      intro ks hks
      have hks : ks ∈ (W.E.ord n.hmap.vks).filterMap (fun k => (descr k).map (fun c => (Lookup.MapKey.key k, Sub.cell c))) := hks
      rw [List.mem_filterMap] at hks
      obtain ⟨k, _, h3⟩ := hks
      rw [Option.map_eq_some_iff] at h3
      obtain ⟨c, _, rfl⟩ := h3
      exact ⟨trivial, fun a _ _ _ cs h => by cases h⟩
    obtain ⟨a1, a2, a3, a4, a5, _⟩ := C78_sub_partial hc hW hs h1
    have hgd := given_descr hW.env descr hk
    constructor
    · intro pt hpt
      rw [fixedOr_phys]
      refine a2 pt pt ?_
      intro a ha
      have := hgd a ha
      cases hd : descr a with
      | none =>
        rw [hd] at this
        show match given W.E ((W.E.ord n.hmap.vks).filterMap (fun k => (descr k).map (fun c => (Lookup.MapKey.key k, Sub.cell c)))) a with
          | some v => Means (W.vunits a) v (pt a)
          | none => pt a = pt a
        rw [this]
      | some c =>
        rw [hd] at this
        show match given W.E ((W.E.ord n.hmap.vks).filterMap (fun k => (descr k).map (fun c => (Lookup.MapKey.key k, Sub.cell c)))) a with
          | some v => Means (W.vunits a) v (pt a)
          | none => pt a = pt a
        rw [this]
        cases c with
        | num v => exact hpt a v ha hd
        | _ => rfl
    · unfold fixedOr
      by_cases hfp : isFixed p.hmap
      · rw [if_pos hfp]
        exact a1
      · rw [if_neg hfp]
        refine ⟨a1, a5, ?_⟩
        intro a ha
        obtain ⟨h3, h4⟩ := a3 a ha
        refine ⟨h3, fun v hv => ?_⟩
        have := hgd a h3
        rw [hv] at this
        have h4 : given W.E ((W.E.ord n.hmap.vks).filterMap (fun k => (descr k).map (fun c => (Lookup.MapKey.key k, Sub.cell c)))) a = none := h4
        rw [h4] at this
        cases this

/-- C78 fails for values that are not positive: without signomials enabled, `x.value` raises InvalidPosynomial for a variable whose value is zero
or negative, though such values are accepted when the variable is made. -/
theorem C78_value_fails {W : World S N ℝ D F} {v : Key S} (hW : WorldOK W (varNomial W.vunits v).hmap)
    {descr : Key S → Option (Cell (SubVal (Key S) ℝ D) F)} {c : ℝ} (hv : descr v = some (.num (.num c))) (hc : c ≤ 0) :
    value W false descr (varNomial W.vunits v) = .error .invalidPosynomial := by
  unfold value
  rw [if_neg (by simp [isFixed, varNomial])]
  have hvks : (varNomial W.vunits v).hmap.vks = [v] := by simp [NMap.vks, varNomial]
  have hord : W.E.ord [v] = [v] := by
    have := hW.env.ord [v]
    exact List.perm_singleton.1 this
  rw [hvks, hord, List.filterMap_cons, hv]
  unfold SubCall.sub
  have hd : pwDom c (1 : ℝ) = true := by
    rcases lt_or_eq_of_le hc with hc | hc
    · have : ∃ z : ℤ, (1 : ℝ) = z := ⟨1, by simp⟩
      simp [pwDom, hc, this]
    · simp [pwDom, hc]
  have := var_sub hW (sv := .num c) (x := c) rfl hd
  simp only [Option.map_some, List.filterMap_nil, this]
  show (do let p ← mkSig false true (⟨[(HV.empty, c)], W.vunits v⟩ : NMap (Key S) ℝ D); pure (fixedOr p)) = _
  have : mkSig false true (⟨[(HV.empty, c)], W.vunits v⟩ : NMap (Key S) ℝ D) = .error .invalidPosynomial := by
    unfold mkSig
    simp [NMap.anyNonpositive, hc]
  rw [this]
  rfl

namespace SubCall

/-- Variables `x` and `y`, and a vector `z` with two elements, none with units. -/
def exWorld (K D : Type) [Field K] [LinearOrder K] (ord : List (Key String) → List (Key String)) : World String String K D Unit where
  E := { keys := fun a => if a.2 = none then [.str a.1] else [.key (a.1, none), .str a.1]
         veckey := fun a => if a.2 = none then none else some (a.1, none)
         idx := fun a => a.2
         ord := ord }
  shape := fun s => if s = "z" then some 2 else none
  vunits := fun _ => none
  rounds := locations

/-- `x*z[0] + z[1] + y` -/
def exNomial (K D : Type) [Field K] : Nomial (Key String) K D :=
  ⟨⟨[(⟨[(("x", none), 1), (("z", some 0), 1)]⟩, 1), (⟨[(("z", some 1), 1)]⟩, 1), (⟨[(("y", none), 1)]⟩, 1)], none⟩, .posynomial⟩

/-- `{"x": 2, z: [3, 4], "typo": 5}` -/
def exSubs (K D : Type) [OfNat K 2] [OfNat K 3] [OfNat K 4] [OfNat K 5] : Subs String String K D Unit :=
  .dict [(.str "x", .cell (.num (.num 2))), (.key ("z", none), .arr [.num (.num 3), .num (.num 4)]), (.str "typo", .cell (.num (.num 5)))]

/-- Sets iterated with the elements of index 1 first. -/
def lastFirst (l : List (Key String)) : List (Key String) := l.filter (fun a => a.2 = some 1) ++ l.filter (fun a => a.2 ≠ some 1)

/-- The terms of a result. -/
def exTerms {K D : Type} (r : Except Err (Nomial (Key String) K D)) : Option (List (List (Key String × K) × K)) :=
  r.toOption.map (fun n => n.hmap.terms.map (fun t => (t.1.items, t.2)))

theorem exWorld_ok (n : NMap (Key String) ℝ D) (hn : ∀ a, Occurs n a → InShape (exWorld ℝ D id).shape a) : WorldOK (exWorld ℝ D id) n where
  env := ⟨fun _ => .refl _, by
    intro a b h1 h2 h3
    simp only [exWorld] at h1 h2 h3
    rcases a with ⟨a, i⟩
    rcases b with ⟨b, j⟩
    simp only at h3
    subst h3
    cases i with
    | none => simp at h1
    | some i => simpa using h2⟩
  rounds := fun _ => List.forall₂_same.2 (fun _ _ => ⟨rfl, .refl _⟩)
  idx := hn
  units := by intro a; simp [exWorld, UnitOK, unitScale]

theorem exNomial_occurs {a : Key String} (h : Occurs (exNomial ℝ D).hmap a) : a = ("x", none) ∨ a = ("z", some 0) ∨ a = ("z", some 1) ∨ a = ("y", none) := by
  obtain ⟨t, ht, ha⟩ := h
  simp only [exNomial, List.mem_cons, List.not_mem_nil, or_false] at ht
  rcases ht with rfl | rfl | rfl
  · simp only [List.map_cons, List.map_nil, List.mem_cons, List.not_mem_nil, or_false] at ha
    rcases ha with ha | ha
    · exact .inl ha
    · exact .inr (.inl ha)
  · exact .inr (.inr (.inl (List.mem_singleton.1 ha)))
  · exact .inr (.inr (.inr (List.mem_singleton.1 ha)))

theorem exNomial_idx {a : Key String} (h : Occurs (exNomial ℝ D).hmap a) : InShape (exWorld ℝ D id).shape a := by
  rcases exNomial_occurs h with rfl | rfl | rfl | rfl <;> simp [InShape, exWorld]

end SubCall

set_option synthInstance.maxSize 512 in
/-- The example is computed: `y + 10`. -/
example : exTerms (SubCall.sub (exWorld ℚ ℤ id) false true (exNomial ℚ ℤ) (exSubs ℚ ℤ)) =
    some [([(("y", none), 1)], 1), ([], 10)] := by decide +kernel

/-- The hypotheses of `C78_sub_partial`, `C78_returns_partial` and `C78_value` can be met. -/
example : TermsTidy (exNomial ℝ ℝ).hmap.terms ∧ WorldOK (exWorld ℝ ℝ id) (exNomial ℝ ℝ).hmap ∧ SubsOK (exWorld ℝ ℝ id) (exNomial ℝ ℝ).hmap (exSubs ℝ ℝ) ∧
    (∃ n', SubCall.sub (exWorld ℝ ℝ id) false true (exNomial ℝ ℝ) (exSubs ℝ ℝ) = .ok n') ∧
    ∀ a b, Occurs (exNomial ℝ ℝ).hmap a → Occurs (exNomial ℝ ℝ).hmap b → Lookup.MapKey.key a ∈ (exWorld ℝ ℝ id).E.keys b → a = b := by
  have ht : TermsCanonical (exNomial ℝ ℝ).hmap.terms := by
    unfold exNomial TermsCanonical ExpCanonical
    simp
    refine ⟨?_, ?_, ?_⟩
    · rintro _ _ _ (⟨_, rfl⟩ | ⟨_, rfl⟩) <;> norm_num
    · rintro _ _ _ _ _ rfl
      norm_num
    · rintro _ _ _ _ _ rfl
      norm_num
  obtain ⟨h1, h2, h3⟩ := (termsCanonical_iff _).1 ht
  have hW := exWorld_ok (D := ℝ) _ (fun a h => exNomial_idx h)
  have hs : SubsOK (exWorld ℝ ℝ id) (exNomial ℝ ℝ).hmap (exSubs ℝ ℝ) := by
    refine ⟨?_, trivial⟩
    intro ks hks
    simp only [exSubs, Subs.entries, List.mem_cons, List.not_mem_nil, or_false] at hks
    rcases hks with rfl | rfl | rfl
    · exact ⟨trivial, fun _ _ _ _ _ h => by cases h⟩
    · refine ⟨.inl ?_, ?_⟩
      · intro c hc
        simp only [List.mem_cons, List.not_mem_nil, or_false] at hc
        rcases hc with rfl | rfl <;> exact id
      · intro a ha hr hn
        exfalso
        rcases exNomial_occurs ha with rfl | rfl | rfl | rfl <;> simp [Lookup.Refers, exWorld] at hr hn
    · exact ⟨trivial, fun _ _ _ _ _ h => by cases h⟩
  refine ⟨⟨h1, h3⟩, hW, hs, ?_, ?_⟩
  · refine C78_returns_partial ⟨h1, h3⟩ hW hs ?_ ?_ ?_
    · intro ks hks a ha hr
      simp only [exSubs, Subs.entries, List.mem_cons, List.not_mem_nil, or_false] at hks
      rcases hks with rfl | rfl | rfl <;> rcases exNomial_occurs ha with rfl | rfl | rfl | rfl <;>
        simp [Lookup.Refers, exWorld, Fits] at hr ⊢
    · intro a v ha hv
      rcases exNomial_occurs ha with rfl | rfl | rfl | rfl <;> simp [given, exSubs, Subs.entries, exWorld, constant] at hv
      · exact ⟨2, by rw [← hv]; rfl, .inl (by norm_num)⟩
      · exact ⟨3, by rw [← hv]; rfl, .inl (by norm_num)⟩
      · exact ⟨4, by rw [← hv]; rfl, .inl (by norm_num)⟩
    · intro _ _ t ht
      simp only [exNomial, List.mem_cons, List.not_mem_nil, or_false] at ht
      rcases ht with rfl | rfl | rfl <;> norm_num
  · intro a b ha hb
    rcases exNomial_occurs ha with rfl | rfl | rfl | rfl <;> rcases exNomial_occurs hb with rfl | rfl | rfl | rfl <;> simp [exWorld]

/-- The hypotheses of `C78_variable` and `C78_value_fails` can be met. -/
example : WorldOK (exWorld ℝ ℝ id) (varNomial (K := ℝ) (exWorld ℝ ℝ id).vunits ("x", none)).hmap :=
  exWorld_ok _ (fun a ha => by rw [var_occurs.1 ha]; simp [InShape, exWorld])

set_option synthInstance.maxSize 512 in
/-- C78 fails for arrays that mix swept elements with constants: in `(z[0] + z[1]).sub({"z": [("sweep", [1, 2]), 5]})` the constant is put in or
not depending on the order in which a set is iterated. -/
theorem C78_mixed_fails (n : Nomial (Key String) ℚ ℤ)
    (hn : n = ⟨⟨[(⟨[(("z", some 0), 1)]⟩, 1), (⟨[(("z", some 1), 1)]⟩, 1)], none⟩, .posynomial⟩) (subs : Subs String String ℚ ℤ Unit)
    (hs : subs = .dict [(.str "z", .arr [.sweep [.num 1, .num 2], .num (.num 5)])]) :
    exTerms (SubCall.sub (exWorld ℚ ℤ id) false true n subs) = some [([(("z", some 0), 1)], 1), ([(("z", some 1), 1)], 1)] ∧
    exTerms (SubCall.sub (exWorld ℚ ℤ lastFirst) false true n subs) = some [([(("z", some 0), 1)], 1), ([], 5)] ∧
    ∀ l, (lastFirst l).Perm l := by
  subst hn hs
  refine ⟨by decide +kernel, by decide +kernel, fun l => ?_⟩
  unfold lastFirst
  simpa using List.filter_append_perm (fun a : Key String => decide (a.2 = some 1)) l

end C78
end Verif
