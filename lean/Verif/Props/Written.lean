import Verif.Model.Written
import Verif.Props.Pipeline
import Verif.Props.Building
import Verif.Lemmas.Tidy
import Verif.Lemmas.Zeros

/-! From what is written to what is solved: C73. -/

set_option linter.unusedSectionVars false

namespace Verif
open PyDict GP Pipeline Compare Written
variable {V D : Type} [DecidableEq V] [AddCommGroup D] [DecidableEq D]

/-! ### Comparisons -/

theorem side_ok {se : Bool} {a : PyVal V ℝ D} (ha : a.Good) {n : Nomial V ℝ D} (h : side se a = .ok n) :
    (PyVal.nom n).Good ∧ ∀ pt, physVal pt n.hmap = a.phys pt := by
  cases a with
  | num q => exact ⟨good_mkSig (h := numMap q) ha h, fun pt => by rw [mkSig_ok h]; exact physVal_numMap pt q⟩
  | nom m => cases h; exact ⟨ha, fun _ => rfl⟩

/-- Which constraint is made of two sides, not both numbers, and from which side's view. -/
def Dispatched (se : Bool) (feastol : ℝ) (approx : PyVal V ℝ D → Except Err Unit) (lesser greater : PyVal V ℝ D) (r : Except Err (Made V ℝ D)) : Prop :=
  if isPosys lesser ∧ isMons greater then r = posyIneq se feastol lesser .le greater ∨ r = posyIneq se feastol greater .ge lesser
  else r = sigIneq se approx lesser .le greater ∨ r = sigIneq se approx greater .ge lesser

/-- C73, the kind of constraint: `a <= b` and `a >= b` make a posynomial inequality exactly if the lesser side is a posynomial or number and the greater
side a monomial or number, and a signomial inequality otherwise, whichever side's method Python asks first. -/
theorem C73_kind (se : Bool) (feastol : ℝ) (approx : PyVal V ℝ D → Except Err Unit) (op : Op) (isvar : Bool × Bool) (a b : PyVal V ℝ D)
    (hn : ∀ p q, a = .num p → b = .num q → False) :
    Dispatched se feastol approx (op.order a b).1 (op.order a b).2 (compared se feastol approx op isvar a b) := by
  have key : ∀ (a b : Nomial V ℝ D), Dispatched se feastol approx (op.order (PyVal.nom a) (PyVal.nom b)).1 (op.order (PyVal.nom a) (PyVal.nom b)).2
        (firstOf [method se feastol approx op.swap b (.nom a), method se feastol approx op a (.nom b)]) ∧
      Dispatched se feastol approx (op.order (PyVal.nom a) (PyVal.nom b)).1 (op.order (PyVal.nom a) (PyVal.nom b)).2
        (firstOf [method se feastol approx op a (.nom b), method se feastol approx op.swap b (.nom a)]) := by
    intro a b
    cases op <;> cases ha : a.cls <;> cases hb : b.cls <;>
      simp [Dispatched, Op.order, Op.swap, method, isMons, isPosys, firstOf, ha, hb]
  cases a with
  | num p =>
    cases b with
    | num q => exact (hn p q rfl rfl).elim
    | nom b => cases op <;> cases hb : b.cls <;> simp [Dispatched, compared, Op.order, Op.swap, method, isMons, isPosys, firstOf, hb]
  | nom a =>
    cases b with
    | num q => cases op <;> cases ha : a.cls <;> simp [Dispatched, compared, Op.order, method, isMons, isPosys, firstOf, ha]
    | nom b =>
      simp only [compared]
      split
      · exact (key a b).1
      · exact (key a b).2

theorem posyIneq_ok {se : Bool} {feastol : ℝ} {l r : PyVal V ℝ D} {op : Op} {m : Made V ℝ D} (h : posyIneq se feastol l op r = .ok m) :
    ∃ nl nr u, side se l = .ok nl ∧ side se r = .ok nr ∧ genUnsubbed se feastol (op.order nl nr).1.hmap (op.order nl nr).2.hmap = .ok u ∧
      m = .ineq nl.hmap op nr.hmap := by
  unfold posyIneq at h
  obtain ⟨nl, h1, h2⟩ := except_bind_ok h
  obtain ⟨nr, h3, h4⟩ := except_bind_ok h2
  obtain ⟨u, h5, h6⟩ := except_bind_ok h4
  cases h6
  exact ⟨nl, nr, u, h1, h3, h5, rfl⟩

theorem sigIneq_ok {se : Bool} {approx : PyVal V ℝ D → Except Err Unit} {l r : PyVal V ℝ D} {op : Op} {m : Made V ℝ D} (h : sigIneq se approx l op r = .ok m) :
    se = true ∧ ∃ nl nr u, side se l = .ok nl ∧ side se r = .ok nr ∧ PyVal.sub se (.nom (op.order nl nr).1) (.nom (op.order nl nr).2) = .ok u ∧
      m = .sig nl.hmap op nr.hmap u := by
  unfold sigIneq at h
  obtain ⟨nl, h1, h2⟩ := except_bind_ok h
  obtain ⟨nr, h3, h4⟩ := except_bind_ok h2
  split at h4
  · rename_i hse
    obtain ⟨u, h5, h6⟩ := except_bind_ok h4
    obtain ⟨_, -, h7⟩ := except_bind_ok h6
    cases h7
    exact ⟨hse, nl, nr, u, h1, h3, h5, rfl⟩
  · cases h4

/-- C73, comparisons: what `a <= b` or `a >= b` returns says that the lesser side is at most the greater one, as written: a posynomial inequality between
nomials with the values of the sides; a signomial inequality, made only inside `SignomialsEnabled`, that keeps the difference of the sides; or, for two
numbers, the truth. -/
theorem C73_inequality {se : Bool} {feastol : ℝ} {approx : PyVal V ℝ D → Except Err Unit} {op : Op} {isvar : Bool × Bool} {a b : PyVal V ℝ D}
    (ha : a.Good) (hb : b.Good) {m : Made V ℝ D} (h : compared se feastol approx op isvar a b = .ok m) :
    (∃ l o r, m = .ineq l o r ∧ ∀ pt, physVal pt (o.order l r).1 = ((op.order a b).1).phys pt ∧ physVal pt (o.order l r).2 = ((op.order a b).2).phys pt) ∨
    (se = true ∧ ∃ l o r u, m = .sig l o r u ∧ ∀ pt, u.phys pt = ((op.order a b).1).phys pt - ((op.order a b).2).phys pt) ∨
    ∃ p q t, a = .num p ∧ b = .num q ∧ m = .truth t ∧ ∀ pt : V → ℝ, t = true ↔ ((op.order a b).1).phys pt ≤ ((op.order a b).2).phys pt := by
  by_cases hn : ∀ p q, a = .num p → b = .num q → False
  · have hk := C73_kind se feastol approx op isvar a b hn
    rw [h] at hk
    have hgood : ((op.order a b).1).Good ∧ ((op.order a b).2).Good := by cases op <;> [exact ⟨ha, hb⟩; exact ⟨hb, ha⟩]
    generalize (op.order a b).1 = x at hk hgood ⊢
    generalize (op.order a b).2 = y at hk hgood ⊢
    unfold Dispatched at hk
    split at hk
    · left
      rcases hk with hk | hk <;>
      · obtain ⟨nl, nr, u, h1, h2, -, rfl⟩ := posyIneq_ok hk.symm
        refine ⟨_, _, _, rfl, fun pt => ?_⟩
        first
          | exact ⟨(side_ok hgood.1 h1).2 pt, (side_ok hgood.2 h2).2 pt⟩
          | exact ⟨(side_ok hgood.1 h2).2 pt, (side_ok hgood.2 h1).2 pt⟩
    · right; left
      rcases hk with hk | hk
      · obtain ⟨hse, nl, nr, u, h1, h2, h3, rfl⟩ := sigIneq_ok hk.symm
        refine ⟨hse, _, _, _, _, rfl, fun pt => ?_⟩
        obtain ⟨g1, v1⟩ := side_ok hgood.1 h1
        obtain ⟨g2, v2⟩ := side_ok hgood.2 h2
        rw [(pySub_ok g1 g2 h3).2 pt, ← v1 pt, ← v2 pt]
        rfl
      · obtain ⟨hse, nl, nr, u, h1, h2, h3, rfl⟩ := sigIneq_ok hk.symm
        refine ⟨hse, _, _, _, _, rfl, fun pt => ?_⟩
        obtain ⟨g1, v1⟩ := side_ok hgood.2 h1
        obtain ⟨g2, v2⟩ := side_ok hgood.1 h2
        rw [(pySub_ok g2 g1 h3).2 pt, ← v1 pt, ← v2 pt]
        rfl
  · right; right
    push Not at hn
    obtain ⟨p, q, rfl, rfl, -⟩ := hn
    simp only [compared] at h
    split at h
    · rename_i hu
      cases h
      refine ⟨p, q, _, rfl, rfl, rfl, fun pt => ?_⟩
      rw [decide_eq_true_iff]
      cases op <;> simp [Op.order, PyVal.phys, unitScale, hu.1, hu.2]
    · cases h

theorem monoEqual_ok {se : Bool} {feastol : ℝ} {a b : PyVal V ℝ D} {m : Made V ℝ D} (h : monoEqual se feastol a b = .ok m) :
    m = .truth false ∨ ∃ l r u, side se a = .ok l ∧ side se b = .ok r ∧ meqUnsubbed se feastol l.hmap r.hmap = .ok u ∧ m = .equal l.hmap r.hmap := by
  unfold monoEqual at h
  obtain ⟨l, h1, h2⟩ := except_bind_ok h
  obtain ⟨r, h3, h4⟩ := except_bind_ok h2
  split at h4
  · rename_i u hu
    cases h4
    exact .inr ⟨l, r, u, h1, h3, hu, rfl⟩
  · cases h4; exact .inl rfl
  · cases h4; exact .inl rfl
  · cases h4

/-- What `==` returns: a `bool`, or a monomial equality of the sides, from either side's view. -/
theorem equals_ok {se : Bool} {feastol : ℝ} {isvar : Bool × Bool} {a b : PyVal V ℝ D} {m : Made V ℝ D} (h : equals se feastol isvar a b = .ok m) :
    (∃ t, m = .truth t) ∨ (isMons a = true ∧ isMons b = true ∧ (monoEqual se feastol a b = .ok m ∨ monoEqual se feastol b a = .ok m)) := by
  have key : ∀ (n : Nomial V ℝ D) (x : PyVal V ℝ D), eqMethod se feastol n x = .ok m →
      (∃ t, m = .truth t) ∨ (isMons (.nom n : PyVal V ℝ D) = true ∧ isMons x = true ∧ monoEqual se feastol (.nom n) x = .ok m) := by
    intro n x hx
    unfold eqMethod at hx
    split at hx
    · rename_i hc
      exact .inr ⟨by simp [isMons, hc.1], hc.2, hx⟩
    · cases hx
      exact .inl ⟨_, rfl⟩
  cases a with
  | num p =>
    cases b with
    | num q => cases h; exact .inl ⟨_, rfl⟩
    | nom b =>
      rcases key b _ h with h1 | ⟨h1, h2, h3⟩
      · exact .inl h1
      · exact .inr ⟨h2, h1, .inr h3⟩
  | nom a =>
    cases b with
    | num q =>
      rcases key a _ h with h1 | ⟨h1, h2, h3⟩
      · exact .inl h1
      · exact .inr ⟨h1, h2, .inl h3⟩
    | nom b =>
      simp only [equals] at h
      split at h
      · rcases key b _ h with h1 | ⟨h1, h2, h3⟩
        · exact .inl h1
        · exact .inr ⟨h2, h1, .inr h3⟩
      · rcases key a _ h with h1 | ⟨h1, h2, h3⟩
        · exact .inl h1
        · exact .inr ⟨h1, h2, .inl h3⟩

/-- C73, equalities: a constraint that `a == b` returns is a monomial equality between nomials with the values of the two sides. -/
theorem C73_equality {se : Bool} {feastol : ℝ} {isvar : Bool × Bool} {a b : PyVal V ℝ D} (ha : a.Good) (hb : b.Good) {m : Made V ℝ D}
    (h : equals se feastol isvar a b = .ok m) :
    (∃ t, m = .truth t) ∨ ∃ l r, m = .equal l r ∧ ((∀ pt, physVal pt l = a.phys pt ∧ physVal pt r = b.phys pt) ∨
      ∀ pt, physVal pt l = b.phys pt ∧ physVal pt r = a.phys pt) := by
  rcases equals_ok h with h1 | ⟨-, -, h1 | h1⟩
  · exact .inl h1
  · rcases monoEqual_ok h1 with h2 | ⟨l, r, u, h2, h3, -, rfl⟩
    · exact .inl ⟨_, h2⟩
    · exact .inr ⟨_, _, rfl, .inl fun pt => ⟨(side_ok ha h2).2 pt, (side_ok hb h3).2 pt⟩⟩
  · rcases monoEqual_ok h1 with h2 | ⟨l, r, u, h2, h3, -, rfl⟩
    · exact .inl ⟨_, h2⟩
    · exact .inr ⟨_, _, rfl, .inr fun pt => ⟨(side_ok hb h2).2 pt, (side_ok ha h3).2 pt⟩⟩

/-! ### Statements -/

variable [Module ℝ D]

/-- A constraint made from a comparison of two values holds exactly where the relation does. -/
theorem related_ok {se : Bool} {feastol : ℝ} {approx : PyVal V ℝ D → Except Err Unit} {rel : Rel} {isvar : Bool × Bool} {l r : PyVal V ℝ D} {m : Made V ℝ D}
    {c : Con V D} (gl : l.Good) (gr : r.Good) (hm : related se feastol approx rel isvar l r = .ok m) (hc : toCon se m = .ok c) (s : ℝ) (pt : V → ℝ) :
    c.Holds s pt ↔ rel.Holds s (l.phys pt) (r.phys pt) := by
  have ineq : ∀ op, compared se feastol approx op isvar l r = .ok m → (c.Holds s pt ↔ ((op.order l r).1).phys pt ≤ s * ((op.order l r).2).phys pt) := by
    intro op hm
    rcases C73_inequality gl gr hm with ⟨l', o, r', rfl, hv⟩ | ⟨-, _, _, _, _, rfl, -⟩ | ⟨_, _, _, -, -, rfl, -⟩
    · cases hc
      rw [← (hv pt).1, ← (hv pt).2]
      rfl
    · cases hc
    · cases hc
  cases rel with
  | le => exact ineq .le hm
  | ge => exact ineq .ge hm
  | eq =>
    show _ ↔ l.phys pt ≤ s * r.phys pt ∧ r.phys pt ≤ s * l.phys pt
    rcases C73_equality gl gr hm with ⟨_, rfl⟩ | ⟨l', r', rfl, hv | hv⟩
    · cases hc
    · cases hc
      rw [← (hv pt).1, ← (hv pt).2]
      rfl
    · cases hc
      rw [← (hv pt).1, ← (hv pt).2]
      exact and_comm

/-- The sides of a statement are built, and then compared. -/
theorem make_ok {se : Bool} {feastol : ℝ} {approx : PyVal V ℝ D → Except Err Unit} {vunits : V → Option (UnitQ D ℝ)} {st : Stmt V} {c : Con V D}
    (h : st.con se feastol approx vunits = .ok c) :
    ∃ l r m, st.left.build se vunits = .ok l ∧ st.right.build se vunits = .ok r ∧ toCon se m = .ok c ∧
      related se feastol approx st.rel (isVar st.left, isVar st.right) l r = .ok m := by
  unfold Stmt.con at h
  obtain ⟨m, hm, hc⟩ := except_bind_ok h
  unfold Stmt.make at hm
  obtain ⟨l, hl, h1⟩ := except_bind_ok hm
  obtain ⟨r, hr, h2⟩ := except_bind_ok h1
  exact ⟨l, r, m, hl, hr, hc, h2⟩

/-- What is built has the value of what is written: where all values are positive, and also where some are zero if nothing is divided by zero. -/
theorem build_at {se : Bool} {vunits : V → Option (UnitQ D ℝ)} (hu : ∀ v, UnitOK (vunits v)) (e : Verif.Expr V) {x : PyVal V ℝ D}
    (h : e.build se vunits = .ok x) {pt : V → ℝ} (hpt : (∀ v, 0 < pt v) ∨ (∀ v, 0 ≤ pt v) ∧ e.Defined (physical vunits pt)) :
    x.phys pt = e.denote (physical vunits pt) := by
  rcases hpt with hpt | ⟨hpt, hd⟩
  · exact (build_ok hu e h).2 pt hpt
  · exact build_value hu e h hpt hd (build_noInverse hu hpt e h hd)

/-- C73, constraints: a constraint made from a statement holds exactly where the statement does. Holds inside and outside of `SignomialsEnabled`, for
all units; where all values are positive, and also where some are zero if nothing is divided by zero. -/
theorem C73_meaning {se : Bool} {feastol : ℝ} {approx : PyVal V ℝ D → Except Err Unit} {vunits : V → Option (UnitQ D ℝ)}
    (hu : ∀ v, UnitOK (vunits v)) {st : Stmt V} {c : Con V D} (h : st.con se feastol approx vunits = .ok c) (s : ℝ) (pt : V → ℝ)
    (hpt : (∀ v, 0 < pt v) ∨ (∀ v, 0 ≤ pt v) ∧ st.left.Defined (physical vunits pt) ∧ st.right.Defined (physical vunits pt)) :
    c.Holds s pt ↔ st.Holds s (physical vunits pt) := by
  obtain ⟨l, r, m, hl, hr, hc, hm⟩ := make_ok h
  rw [related_ok (build_ok hu st.left hl).1 (build_ok hu st.right hr).1 hm hc s pt, build_at hu st.left hl (hpt.imp id (fun h => ⟨h.1, h.2.1⟩)),
    build_at hu st.right hr (hpt.imp id (fun h => ⟨h.1, h.2.2⟩))]
  rfl

/-- No side that has to be at least as great as the other one is zero. -/
def NonzeroSides (pt : V → ℝ) : Con V D → Prop
  | .le _ _ m => physVal pt m ≠ 0
  | .eq _ l r => physVal pt l ≠ 0 ∧ physVal pt r ≠ 0

theorem related_nonzero {se : Bool} {feastol : ℝ} {approx : PyVal V ℝ D → Except Err Unit} {rel : Rel} {isvar : Bool × Bool} {l r : PyVal V ℝ D}
    {m : Made V ℝ D} {c : Con V D} (gl : l.Good) (gr : r.Good) (hm : related se feastol approx rel isvar l r = .ok m) (hc : toCon se m = .ok c)
    {pt : V → ℝ} (nr : rel ≠ .ge → r.phys pt ≠ 0) (nl : rel ≠ .le → l.phys pt ≠ 0) : NonzeroSides pt c := by
  have ineq : ∀ op, compared se feastol approx op isvar l r = .ok m → ((op.order l r).2).phys pt ≠ 0 → NonzeroSides pt c := by
    intro op hm hne
    rcases C73_inequality gl gr hm with ⟨l', o, r', rfl, hv⟩ | ⟨-, _, _, _, _, rfl, -⟩ | ⟨_, _, _, -, -, rfl, -⟩
    · cases hc
      rw [← (hv pt).2] at hne
      exact hne
    · cases hc
    · cases hc
  cases rel with
  | le => exact ineq .le hm (nr (by simp))
  | ge => exact ineq .ge hm (nl (by simp))
  | eq =>
    have h1 := nr (by simp)
    have h2 := nl (by simp)
    rcases C73_equality gl gr hm with ⟨_, rfl⟩ | ⟨l', r', rfl, hv | hv⟩
    · cases hc
    · cases hc
      exact ⟨by rw [(hv pt).1]; exact h2, by rw [(hv pt).2]; exact h1⟩
    · cases hc
      exact ⟨by rw [(hv pt).1]; exact h1, by rw [(hv pt).2]; exact h2⟩

theorem mono_pos {m : NMap V ℝ D} {e : HV V ℝ} {k : ℝ} (hm : m.terms = [(e, k)]) (he : ExpCanonical e.items) {pt : V → ℝ} (hpt : ∀ v, 0 ≤ pt v)
    (hne : physVal pt m ≠ 0) : ∀ t ∈ m.terms, ∀ x ∈ t.1.items, 0 < pt x.1 := by
  intro t ht x hx
  rw [hm, List.mem_singleton] at ht
  subst ht
  refine lt_of_le_of_ne (hpt x.1) (fun h0 => hne ?_)
  have : monVal pt e.items = 0 := by
    unfold monVal
    exact List.prod_eq_zero (List.mem_map.2 ⟨x, hx, by rw [← h0]; exact Real.zero_rpow (he.2 x hx)⟩)
  simp [physVal, hm, this]

/-- The variables on sides that are not zero are not zero. -/
theorem posSides_of_nonzero {c : Con V D} (hok : ConOK c) {pt : V → ℝ} (hpt : ∀ v, 0 ≤ pt v) (h : NonzeroSides pt c) : c.PosSides pt := by
  cases c with
  | le se p m =>
    obtain ⟨-, -, -, e, k, hm, he, -⟩ := hok
    exact ⟨hpt, mono_pos hm he hpt h⟩
  | eq se l r =>
    obtain ⟨e, e', k, k', hl, hr, he, he', -⟩ := hok
    exact ⟨hpt, mono_pos hl he hpt h.1, mono_pos hr he' hpt h.2⟩

theorem side_pos {se : Bool} {x : PyVal V ℝ D} (hg : x.Good) (hc : x.Tidy) (hx : isPosys x = true) (hp : se = false ∨ ∃ pt, 0 < x.phys pt)
    {n : Nomial V ℝ D} (h : side se x = .ok n) :
    TermsCanonical n.hmap.terms ∧ (∀ t ∈ n.hmap.terms, 0 < t.2) ∧ UnitOK n.hmap.units ∧
      (isMons x = true → ∃ e c, n.hmap.terms = [(e, c)] ∧ ExpCanonical e.items ∧ 0 < c) := by
  cases x with
  | num q =>
    have hq : 0 < q.mag := by
      rcases hp with rfl | ⟨pt, hpt⟩
      · have := mkSig_allPos rfl h
        unfold Nomial.AllPos at this
        rw [mkSig_ok h] at this
        exact this (HV.empty, q.mag) (by simp [numMap])
      · exact pos_of_mul_pos_right hpt (le_of_lt hg)
    have hm : n.hmap = numMap q := mkSig_ok h
    rw [hm]
    refine ⟨⟨?_, by simp [numMap]⟩, by simpa [numMap] using hq, hg, fun _ => ⟨HV.empty, q.mag, rfl, by simp [ExpCanonical, HV.empty], hq⟩⟩
    intro t ht
    simp only [numMap, List.mem_singleton] at ht
    subst ht
    exact ⟨by simp [ExpCanonical, HV.empty], hq.ne'⟩
  | nom m =>
    cases h
    obtain ⟨hu, h1, h2, h3⟩ := hg
    have hpos : ∀ t ∈ n.hmap.terms, 0 < t.2 := by
      intro t ht
      by_contra hle
      have := h2.2 ⟨t, ht, not_lt.1 hle⟩
      simp [isPosys, this] at hx
    have hc' : TermsCanonical n.hmap.terms := (termsCanonical_iff _).2 ⟨hc.1, fun t ht => (hpos t ht).ne', hc.2⟩
    refine ⟨hc', hpos, hu, fun hm => ?_⟩
    obtain ⟨e, c, he, hcpos⟩ := h1.1 (by simpa [isMons] using hm)
    refine ⟨e, c, he, ?_, hcpos⟩
    rw [he] at hc'
    exact (hc'.1 (e, c) (by simp)).1

theorem isPosys_of_isMons {x : PyVal V ℝ D} (h : isMons x = true) : isPosys x = true := by
  cases x with
  | num q => rfl
  | nom n => simp only [isMons, decide_eq_true_eq] at h; simp [isPosys, h]

/-- A constraint does not have the defect of `C12_form_fails`. -/
def Unharmed : Con V D → Prop
  | .le _ p m => ∀ e c, m.terms = [(e, c)] → NoClash e p.terms
  | .eq _ _ _ => True

/-- A constraint made from a comparison of two values is one that C60 speaks of. -/
theorem related_con {se : Bool} {feastol : ℝ} {approx : PyVal V ℝ D → Except Err Unit} {rel : Rel} {isvar : Bool × Bool} {l r : PyVal V ℝ D} {m : Made V ℝ D}
    {c : Con V D} (gl : l.Good) (gr : r.Good) (cl : l.Tidy) (cr : r.Tidy) (pl : se = false ∨ ∃ pt, 0 < l.phys pt)
    (pr : se = false ∨ ∃ pt, 0 < r.phys pt) (sat : se = false ∨ ∃ pt : V → ℝ, (∀ v, 0 < pt v) ∧ c.Holds 1 pt)
    (hm : related se feastol approx rel isvar l r = .ok m) (hc : toCon se m = .ok c) (hcl : Unharmed c) : ConOK c := by
  have two : ∀ (x y : PyVal V ℝ D) (nx ny : Nomial V ℝ D), x.Good → y.Good → x.Tidy → y.Tidy → isPosys x = true → isMons y = true →
      (se = false ∨ ∃ pt, 0 < x.phys pt) → (se = false ∨ ∃ pt, 0 < y.phys pt) → side se x = .ok nx → side se y = .ok ny →
      c = .le se nx.hmap ny.hmap → ConOK c := by
    intro x y nx ny gx gy cx cy hx hy px py sx sy hce
    subst hce
    obtain ⟨a1, a2, a3, -⟩ := side_pos gx cx hx px sx
    obtain ⟨-, -, b3, b4⟩ := side_pos gy cy (isPosys_of_isMons hy) py sy
    obtain ⟨e, k, b5, b6, b7⟩ := b4 hy
    refine ⟨sat.imp id (fun ⟨pt, hpt, h1⟩ => ⟨pt, hpt, ?_⟩), a1, a2, e, k, b5, b6, b7, a3, b3, hcl e k b5⟩
    have : physVal pt nx.hmap ≤ 1 * physVal pt ny.hmap := h1
    rwa [one_mul] at this
  have ineq : ∀ op, compared se feastol approx op isvar l r = .ok m → ConOK c := by
    intro op hm
    by_cases hn : ∀ p q, l = .num p → r = .num q → False
    · have hk := C73_kind se feastol approx op isvar l r hn
      rw [hm] at hk
      have hx : ((op.order l r).1).Good ∧ ((op.order l r).1).Tidy ∧ (se = false ∨ ∃ pt, 0 < ((op.order l r).1).phys pt) := by
        cases op <;> [exact ⟨gl, cl, pl⟩; exact ⟨gr, cr, pr⟩]
      have hy : ((op.order l r).2).Good ∧ ((op.order l r).2).Tidy ∧ (se = false ∨ ∃ pt, 0 < ((op.order l r).2).phys pt) := by
        cases op <;> [exact ⟨gr, cr, pr⟩; exact ⟨gl, cl, pl⟩]
      generalize (op.order l r).1 = x at hk hx
      generalize (op.order l r).2 = y at hk hy
      unfold Dispatched at hk
      split at hk
      · rename_i hxy
        rcases hk with hk | hk
        · obtain ⟨nl, nr, u, h1, h2, -, rfl⟩ := posyIneq_ok hk.symm
          cases hc
          exact two x y nl nr hx.1 hy.1 hx.2.1 hy.2.1 hxy.1 hxy.2 hx.2.2 hy.2.2 h1 h2 rfl
        · obtain ⟨nl, nr, u, h1, h2, -, rfl⟩ := posyIneq_ok hk.symm
          cases hc
          exact two x y nr nl hx.1 hy.1 hx.2.1 hy.2.1 hxy.1 hxy.2 hx.2.2 hy.2.2 h2 h1 rfl
      · rcases hk with hk | hk
        · obtain ⟨-, _, _, _, -, -, -, rfl⟩ := sigIneq_ok hk.symm
          cases hc
        · obtain ⟨-, _, _, _, -, -, -, rfl⟩ := sigIneq_ok hk.symm
          cases hc
    · push Not at hn
      obtain ⟨p, q, rfl, rfl, -⟩ := hn
      simp only [compared] at hm
      split at hm
      · cases hm
        cases hc
      · cases hm
  cases rel with
  | le => exact ineq .le hm
  | ge => exact ineq .ge hm
  | eq =>
    rcases equals_ok hm with ⟨_, rfl⟩ | ⟨hml, hmr, h1⟩
    · cases hc
    · have fin : ∀ (x y : PyVal V ℝ D), x.Good → y.Good → x.Tidy → y.Tidy → isMons x = true → isMons y = true →
          (se = false ∨ ∃ pt, 0 < x.phys pt) → (se = false ∨ ∃ pt, 0 < y.phys pt) → monoEqual se feastol x y = .ok m → ConOK c := by
        intro x y gx gy cx cy hx hy px py h1
        rcases monoEqual_ok h1 with rfl | ⟨nx, ny, u, sx, sy, -, rfl⟩
        · cases hc
        · cases hc
          obtain ⟨-, -, a3, a4⟩ := side_pos gx cx (isPosys_of_isMons hx) px sx
          obtain ⟨-, -, b3, b4⟩ := side_pos gy cy (isPosys_of_isMons hy) py sy
          obtain ⟨e, k, a5, a6, a7⟩ := a4 hx
          obtain ⟨e', k', b5, b6, b7⟩ := b4 hy
          exact ⟨e, e', k, k', a5, b5, a6, b6, a7, b7, a3, b3⟩
      rcases h1 with h1 | h1
      · exact fin l r gl gr cl cr hml hmr pl pr h1
      · exact fin r l gr gl cr cl hmr hml pr pl h1

/-- Outside of `SignomialsEnabled`, or somewhere true with both sides positive. -/
def Attainable (se : Bool) (vunits : V → Option (UnitQ D ℝ)) (st : Stmt V) : Prop :=
  se = false ∨ ∃ pt : V → ℝ, (∀ v, 0 < pt v) ∧ st.Holds 1 (physical vunits pt) ∧
    0 < st.left.denote (physical vunits pt) ∧ 0 < st.right.denote (physical vunits pt)

/-- A constraint made from a statement is one that C60 speaks of. -/
theorem con_ok {se : Bool} {feastol : ℝ} {approx : PyVal V ℝ D → Except Err Unit} {vunits : V → Option (UnitQ D ℝ)}
    (hu : ∀ v, UnitOK (vunits v)) {st : Stmt V} {c : Con V D} (h : st.con se feastol approx vunits = .ok c) (ha : Attainable se vunits st)
    (hcl : Unharmed c) : ConOK c := by
  have hmean := C73_meaning hu h
  obtain ⟨l, r, m, hl, hr, hc, hm⟩ := make_ok h
  obtain ⟨gl, vl⟩ := build_ok hu st.left hl
  obtain ⟨gr, vr⟩ := build_ok hu st.right hr
  exact related_con gl gr (build_canon hu st.left hl).tidy (build_canon hu st.right hr).tidy
    (ha.imp id (fun ⟨pt, hpt, _, h1, _⟩ => ⟨pt, by rw [vl pt hpt]; exact h1⟩))
    (ha.imp id (fun ⟨pt, hpt, _, _, h1⟩ => ⟨pt, by rw [vr pt hpt]; exact h1⟩))
    (ha.imp id (fun ⟨pt, hpt, h1, _⟩ => ⟨pt, hpt, (hmean 1 pt (.inl hpt)).2 h1⟩)) hm hc hcl

/-- A constraint made from a statement whose greater sides are not zero. -/
theorem con_posSides {se : Bool} {feastol : ℝ} {approx : PyVal V ℝ D → Except Err Unit} {vunits : V → Option (UnitQ D ℝ)}
    (hu : ∀ v, UnitOK (vunits v)) {st : Stmt V} {c : Con V D} (h : st.con se feastol approx vunits = .ok c) (hok : ConOK c) {pt : V → ℝ}
    (hpt : ∀ v, 0 ≤ pt v) (hd : (∀ v, 0 < pt v) ∨ st.Defined (physical vunits pt)) : c.PosSides pt := by
  rcases hd with hd | ⟨dl, dr, nr, nl⟩
  · exact posSides_of_pos hd c
  · obtain ⟨l, r, m, hl, hr, hc, hm⟩ := make_ok h
    refine posSides_of_nonzero hok hpt (related_nonzero (build_ok hu st.left hl).1 (build_ok hu st.right hr).1 hm hc ?_ ?_)
    · rw [build_at hu st.right hr (.inr ⟨hpt, dr⟩)]
      exact nr
    · rw [build_at hu st.left hl (.inr ⟨hpt, dl⟩)]
      exact nl

/-! ### Whole models -/

theorem wf_updated {N : Type} (e : PyDict V N) : ∀ (d : PyDict V N), d.WF → (Building.updated d e).WF := by
  induction e with
  | nil => intro d hd; exact hd
  | cons p e ih => intro d hd; exact ih _ (wf_set hd _ _)

theorem wf_defaults {N : Type} (W : Building.World V) (h : Building.Heap N) (l : List Nat) : (Building.defaults W h l).WF := by
  have : ∀ (l : List Nat) (d : PyDict V N), d.WF → (l.foldl (Building.default1 W h) d).WF := by
    intro l
    induction l with
    | nil => intro d hd; exact hd
    | cons i l ih =>
      intro d hd
      refine ih _ ?_
      unfold Building.default1
      split
      · exact wf_set hd _ _
      · exact hd
  exact this l [] (by simp [WF])

theorem wf_construct {N C : Type} {W : Building.World V} {h h' : Building.Heap N} {unique bonus : List Nat} {arg : Building.Val V N C} {subs : PyDict V N}
    {s : Building.Set' V N C} (hc : Building.construct W h unique bonus arg subs = .ok (h', s)) : s.subs.WF := by
  have hfold : ∀ (l : List (Building.Part V N C)) (s : Building.Set' V N C), s.subs.WF → (l.foldl (Building.update W h) s).subs.WF := by
    intro l
    induction l with
    | nil => intro s hs; exact hs
    | cons p l ih => intro s hs; exact ih _ (wf_updated _ _ hs)
  unfold Building.construct at hc
  cases he : arg.elements with
  | error e => rw [he] at hc; cases hc
  | ok els =>
    rw [he] at hc
    cases hc
    exact wf_updated _ _ (hfold _ _ (wf_defaults W h unique))

theorem wf_eval {N C : Type} {W : Building.World V} {e : Building.Expr V N C} (he : e.isSet) {h h' : Building.Heap N} {s : Building.Set' V N C}
    (hv : Building.eval W e h = .ok (h', .set s)) : s.subs.WF := by
  cases e with
  | con => exact he.elim
  | arr => exact he.elim
  | lst => exact he.elim
  | cset arg subs =>
    unfold Building.eval at hv
    obtain ⟨r, h1, h2⟩ := except_bind_ok hv
    cases hq : Building.construct W r.1 [] [] r.2 subs with
    | error e => rw [hq] at h2; cases h2
    | ok q => rw [hq] at h2; cases h2; exact wf_construct hq
  | mdl setup cost arg subs ret =>
    unfold Building.eval at hv
    obtain ⟨r, h1, h2⟩ := except_bind_ok hv
    cases hq : Building.model W r.1 setup cost r.2 subs ret with
    | error e => rw [hq] at h2; cases h2
    | ok q => rw [hq] at h2; cases h2; exact wf_construct hq

open Building in
/-- A value given for a variable: in a dictionary of substitutions in the model, or as the default of a variable used in it. -/
def GivenValue {C : Type} (S : Setting V D C) (tree : Building.Expr V ℝ C) (k : V) (w : ℝ) : Prop :=
  Gives k w tree ∨ ∃ i, Uses i tree ∧ S.world.key i = k ∧ S.heap i = some w

/-- The points at which a model is read: values are positive, except for those of variables that were given the value zero. -/
def Proper {C : Type} (S : Setting V D C) (tree : Building.Expr V ℝ C) (pt : V → ℝ) : Prop := ∀ v, 0 < pt v ∨ pt v = 0 ∧ GivenValue S tree v 0

theorem Proper.nonneg {C : Type} {S : Setting V D C} {tree : Building.Expr V ℝ C} {pt : V → ℝ} (h : Proper S tree pt) (v : V) : 0 ≤ pt v :=
  (h v).elim le_of_lt (fun h => h.1.ge)

theorem proper_of_pos {C : Type} {S : Setting V D C} {tree : Building.Expr V ℝ C} {pt : V → ℝ} (h : ∀ v, 0 < pt v) : Proper S tree pt := fun v => .inl (h v)

theorem Proper.pos {C : Type} {S : Setting V D C} {tree : Building.Expr V ℝ C} {pt : V → ℝ} (h : Proper S tree pt)
    (hv : ∀ k w, GivenValue S tree k w → 0 < w) (v : V) : 0 < pt v :=
  (h v).elim id (fun h => absurd (hv v 0 h.2) (lt_irrefl _))

open Building in
/-- What C73 asks of a model: constraints are given in lists (see C72), units are positive and no value is negative, the cost is not constantly zero; where some
values are zero, nothing is divided by zero and no side that has to be at least as great as the other one is zero; statements written inside
`SignomialsEnabled` can be satisfied with positive sides, and no constraint has the defect of `C12_form_fails`. -/
structure Sound (S : Setting V D (Stmt V)) (cost : Verif.Expr V) (tree : Building.Expr V ℝ (Stmt V)) : Prop where
  feastol : 0 ≤ S.feastol
  ord : S.ord.Valid
  units : ∀ v, UnitOK (S.vunits v)
  isSet : tree.isSet
  fair : Fair tree
  values : ∀ k w, GivenValue S tree k w → 0 ≤ w
  definedCost : ∀ pt, Proper S tree pt → (∀ v, 0 < pt v) ∨ cost.Defined (physical S.vunits pt)
  cost : ∃ x : V → ℝ, (∀ v, 0 < x v) ∧ cost.denote (physical S.vunits x) ≠ 0
  defined : ∀ st pt, Writes st tree → Proper S tree pt → (∀ v, 0 < pt v) ∨ st.Defined (physical S.vunits pt)
  attainable : ∀ st, Writes st tree → Attainable (S.enabled st) S.vunits st
  unharmed : ∀ st c, Writes st tree → st.con (S.enabled st) S.feastol S.approx S.vunits = .ok c → Unharmed c

theorem mapM_forall {α β : Type} {f : α → Except Err β} {l : List α} {r : List β} (h : l.mapM f = .ok r) :
    (∀ a ∈ l, ∃ b ∈ r, f a = .ok b) ∧ ∀ b ∈ r, ∃ a ∈ l, f a = .ok b := by
  have h1 := mapM_hmaps h
  clear h
  induction h1 with
  | nil => exact ⟨by simp, by simp⟩
  | cons hab _ ih =>
    refine ⟨fun a ha => ?_, fun b hb => ?_⟩
    · rcases List.mem_cons.1 ha with rfl | ha
      · exact ⟨_, by simp, hab⟩
      · obtain ⟨b, hb, h2⟩ := ih.1 a ha
        exact ⟨b, by simp [hb], h2⟩
    · rcases List.mem_cons.1 hb with rfl | hb
      · exact ⟨_, by simp, hab⟩
      · obtain ⟨a, ha, h2⟩ := ih.2 b hb
        exact ⟨a, by simp [ha], h2⟩

open Building in
/-- What is asked of a model whatever its constraints are written as, given their meaning and that of the cost. -/
structure Model {C : Type} (S : Setting V D C) (made : C → Except Err (List (Con V D))) (holds : C → ℝ → (V → ℝ) → Prop) (cost : Except Err (PyVal V ℝ D))
    (costs : (V → ℝ) → ℝ) (tree : Building.Expr V ℝ C) : Prop where
  feastol : 0 ≤ S.feastol
  ord : S.ord.Valid
  isSet : tree.isSet
  fair : Fair tree
  values : ∀ k w, GivenValue S tree k w → 0 ≤ w
  cost : ∀ n, cost = .ok (.nom n) → TermsCanonical n.hmap.terms ∧ n.hmap.terms ≠ [] ∧ UnitOK n.hmap.units ∧ ∀ pt, Proper S tree pt → physVal pt n.hmap = costs pt
  cons : ∀ st l, Writes st tree → made st = .ok l → (∀ c ∈ l, ConOK c ∧ ∀ pt, Proper S tree pt → c.PosSides pt) ∧
    ∀ s pt, Proper S tree pt → ((∀ c ∈ l, c.Holds s pt) ↔ holds st s pt)

theorem noZero_of_posSides {subs : PyDict V ℝ} {pt : V → ℝ} (hag : Agrees pt subs) : ∀ {c : Con V D}, c.PosSides pt → c.NoZero subs
  | .le _ _ _, h => fun t ht x hx h0 => absurd (hag _ _ h0) (h.2 t ht x hx).ne'
  | .eq _ _ _, h => ⟨fun t ht x hx h0 => absurd (hag _ _ h0) (h.2.1 t ht x hx).ne', fun t ht x hx h0 => absurd (hag _ _ h0) (h.2.2 t ht x hx).ne'⟩

/-- Variables without a value are positive at the points at which a model is read. -/
theorem proper_free {C : Type} {S : Setting V D C} {tree : Building.Expr V ℝ C} {subs : PyDict V ℝ}
    (hg : ∀ k w, GivenValue S tree k w → ∃ w', subs.get? k = some w') {pt : V → ℝ} (hpt : Proper S tree pt) (v : V) (hv : subs.get? v = none) : 0 < pt v := by
  rcases hpt v with h | ⟨-, h⟩
  · exact h
  · obtain ⟨w, hw⟩ := hg v 0 h
    rw [hv] at hw
    cases hw

open Building in
/-- The steps of a run. -/
theorem run_ok {C : Type} {S : Setting V D C} {made : C → Except Err (List (Con V D))} {holds : C → ℝ → (V → ℝ) → Prop} {cost : Except Err (PyVal V ℝ D)}
    {costs : (V → ℝ) → ℝ} {tree : Building.Expr V ℝ C} (hS : Model S made holds cost costs tree) {r : Result V} {b : Bool}
    (h : runOf S made cost tree = .ok (r, b)) :
    ∃ (n : Nomial V ℝ D) (cons : List (Con V D)) (subs : PyDict V ℝ),
      TermsCanonical n.hmap.terms ∧ n.hmap.terms ≠ [] ∧ UnitOK n.hmap.units ∧
      (∀ pt, Proper S tree pt → physVal pt n.hmap = costs pt) ∧
      (∀ c ∈ cons, ConOK c ∧ c.NoZero subs) ∧
      (∀ s pt, Proper S tree pt → ((∀ c ∈ cons, c.Holds s pt) ↔ ∀ st, Writes st tree → holds st s pt)) ∧
      subs.WF ∧ (∀ k w, subs.get? k = some w → GivenValue S tree k w) ∧ (∀ k w, GivenValue S tree k w → ∃ w', subs.get? k = some w') ∧
      Pipeline.solve S.feastol S.tol S.abstol S.optimize n.hmap cons subs S.ord = .ok (r, b) := by
  unfold runOf at h
  obtain ⟨hv, h1, h2⟩ := except_bind_ok h
  obtain ⟨s, hs, h3⟩ := except_bind_ok h2
  obtain ⟨cons, hc, h4⟩ := except_bind_ok h3
  obtain ⟨x, hx, h5⟩ := except_bind_ok h4
  obtain ⟨c, hcost, h6⟩ := except_bind_ok h5
  obtain ⟨h', s', e1, e2, e3, e4, e5, e6⟩ := C72_contents_partial S.world hS.fair hS.isSet S.heap
  rw [h1] at e1
  cases e1
  cases hs
  cases x with
  | num q => cases hcost
  | nom n =>
    cases hcost
    obtain ⟨m1, m2⟩ := mapM_forall hc
    obtain ⟨c1, c2, c3, c4⟩ := hS.cost n hx
    refine ⟨n, cons.flatten, s.subs, c1, c2, c3, c4, ?_, ?_, wf_eval hS.isSet h1, fun k w hk => e5 k w hk, ?_, h6⟩
    · intro c hcm
      obtain ⟨l, hl, hcl⟩ := List.mem_flatten.1 hcm
      obtain ⟨st, hst, hcon⟩ := m2 l hl
      obtain ⟨k1, k2⟩ := (hS.cons st l ((e2 st).1 hst) hcon).1 c hcl
      refine ⟨k1, noZero_of_posSides (pt := override (fun _ => 1) s.subs) (fun v w hw => by simp [override, hw]) (k2 _ fun v => ?_)⟩
      unfold override
      cases hg : s.subs.get? v with
      | none => exact .inl one_pos
      | some w => exact (hS.values v w (e5 v w hg)).lt_or_eq.imp id (fun h0 => ⟨h0.symm, by rw [show (0 : ℝ) = w from h0]; exact e5 v w hg⟩)
    · intro s pt hpt
      constructor
      · intro hall st hst
        obtain ⟨l, hl, hcon⟩ := m1 st ((e2 st).2 hst)
        exact ((hS.cons st l hst hcon).2 s pt hpt).1 (fun c hc => hall c (List.mem_flatten.2 ⟨l, hl, hc⟩))
      · intro hall c hcm
        obtain ⟨l, hl, hcl⟩ := List.mem_flatten.1 hcm
        obtain ⟨st, hst, hcon⟩ := m2 l hl
        have hw := (e2 st).1 hst
        exact ((hS.cons st l hw hcon).2 s pt hpt).2 (hall st hw) c hcl
    · intro k w hw
      have : s.subs.get? k ≠ none := (e4 k).2 (hw.imp (fun h => ⟨w, h⟩) (fun ⟨i, hi, hk, hh⟩ => ⟨i, hi, hk, by rw [hh]; exact Option.some_ne_none _⟩))
      exact Option.ne_none_iff_exists'.1 this

open Building in
/-- Feasibility of what a run returns. -/
theorem run_feasible {C : Type} {S : Setting V D C} {made : C → Except Err (List (Con V D))} {holds : C → ℝ → (V → ℝ) → Prop}
    {cost : Except Err (PyVal V ℝ D)} {costs : (V → ℝ) → ℝ} {tree : Building.Expr V ℝ C} (hS : Model S made holds cost costs tree) {r : Result V}
    (h : runOf S made cost tree = .ok (r, true)) :
    (∀ k w, GivenValue S tree k w → ∃ w', GivenValue S tree k w' ∧ r.vars.get? k = some w') ∧
    (∀ v c, r.vars.get? v = some c → 0 < c ∨ c = 0 ∧ GivenValue S tree v 0) ∧
    ∃ u, 0 < u ∧ ∀ pt : V → ℝ, Proper S tree pt → Agrees pt r.vars →
      (∀ st, Writes st tree → holds st (1 + max S.feastol S.tol) pt) ∧ Close S.tol S.abstol (costs pt / u) r.cost := by
  obtain ⟨n, cons, subs, hcc, hcne, hu, hcv, hok, hiff, hwf, hg1, hg2, hsol⟩ := run_ok hS h
  obtain ⟨f1, f2, f3⟩ := C60_feasible_partial hS.feastol hcc hcne hok hwf (fun v c hv => hS.values v c (hg1 v c hv)) hS.ord hsol
  refine ⟨fun k w hw => ?_, fun v c hv => ?_, unitScale n.hmap.units, hu, fun pt hpt hag => ?_⟩
  · obtain ⟨w', hw'⟩ := hg2 k w hw
    exact ⟨w', hg1 k w' hw', f1 k w' hw'⟩
  · refine (f2 v c hv).1.lt_or_eq.imp id (fun h0 => ⟨h0.symm, ?_⟩)
    cases hg : subs.get? v with
    | none => exact absurd h0 ((f2 v c hv).2 hg).ne
    | some w =>
      have := f1 v w hg
      rw [hv] at this
      cases this
      rw [show (0 : ℝ) = c from h0]
      exact hg1 v c hg
  · obtain ⟨a1, a2⟩ := f3 pt (proper_free hg2 hpt) hag
    refine ⟨(hiff _ pt hpt).1 a1, ?_⟩
    rw [← hcv pt hpt, physVal, mul_comm, mul_div_assoc, div_self hu.ne', mul_one]
    exact a2

open Building in
/-- Optimality of what a run returns. -/
theorem run_optimal {C : Type} {S : Setting V D C} {made : C → Except Err (List (Con V D))} {holds : C → ℝ → (V → ℝ) → Prop}
    {cost : Except Err (PyVal V ℝ D)} {costs : (V → ℝ) → ℝ} {tree : Building.Expr V ℝ C} (hS : Model S made holds cost costs tree)
    (htol : S.tol = 0) (habs : S.abstol = 0)
    (hopt : ∀ d out l, S.optimize d = .ok out → out.dual = .la l → l.length = d.mIdxs.length ∨ l.length + 1 = d.mIdxs.length) {r : Result V}
    (h : runOf S made cost tree = .ok (r, true)) :
    ∃ u, 0 < u ∧ (∀ pt : V → ℝ, Proper S tree pt → Agrees pt r.vars → r.cost * u = costs pt) ∧
    ∀ pt : V → ℝ, Proper S tree pt → (∀ k w, GivenValue S tree k w → pt k = w) → (∀ st, Writes st tree → holds st 1 pt) → r.cost * u ≤ costs pt := by
  obtain ⟨n, cons, subs, hcc, hcne, hu, hcv, hok, hiff, hwf, hg1, hg2, hsol⟩ := run_ok hS h
  have hfix : ∀ v c, subs.get? v = some c → 0 ≤ c := fun v c hv => hS.values v c (hg1 v c hv)
  obtain ⟨-, -, f3⟩ := C60_feasible_partial hS.feastol hcc hcne hok hwf hfix hS.ord hsol
  rw [htol, habs] at hsol f3
  refine ⟨unitScale n.hmap.units, hu, fun pt hpt hag => ?_, fun pt hpt hag hst => ?_⟩
  · obtain ⟨-, a2⟩ := f3 pt (proper_free hg2 hpt) hag
    have : termsVal pt n.hmap.terms = r.cost := by
      rcases a2 with a2 | a2 | a2
      · exact a2
      · simp only [zero_mul] at a2
        exact absurd a2 (not_lt.2 (abs_nonneg _))
      · exact absurd a2 (not_lt.2 (abs_nonneg _))
    rw [← hcv pt hpt, physVal, this, mul_comm]
  · have := C60_optimal_partial hS.feastol hcc hcne hok hfix hS.ord hopt hsol pt (proper_free hg2 hpt) (fun v c hv => hag v c (hg1 v c hv)) ((hiff 1 pt hpt).2 hst)
    rw [← hcv pt hpt, physVal, mul_comm]
    exact mul_le_mul_of_nonneg_left this hu.le

open Building in
theorem Sound.model {S : Setting V D (Stmt V)} {cost : Verif.Expr V} {tree : Building.Expr V ℝ (Stmt V)} (hS : Sound S cost tree) :
    Model S (fun st => (st.con (S.enabled st) S.feastol S.approx S.vunits).map (fun c => [c])) (fun st s pt => st.Holds s (physical S.vunits pt))
      (cost.build false S.vunits) (fun pt => cost.denote (physical S.vunits pt)) tree where
  feastol := hS.feastol
  ord := hS.ord
  isSet := hS.isSet
  fair := hS.fair
  values := hS.values
  cost := by
    intro n hx
    obtain ⟨g, v⟩ := build_ok hS.units cost hx
    refine ⟨build_canon hS.units cost hx, ?_, g.1, fun pt hpt => build_at hS.units cost hx ((hS.definedCost pt hpt).imp id (fun h => ⟨hpt.nonneg, h⟩))⟩
    obtain ⟨pt, hpt, hne⟩ := hS.cost
    intro h0
    have := v pt hpt
    apply hne
    show cost.denote (fun v => unitScale (S.vunits v) * pt v) = 0
    rw [← this]
    simp [PyVal.phys, physVal, h0]
  cons := by
    intro st l hw hl
    cases hcon : st.con (S.enabled st) S.feastol S.approx S.vunits with
    | error e => rw [hcon] at hl; cases hl
    | ok c =>
      rw [hcon] at hl
      cases hl
      refine ⟨?_, fun s pt hpt => ?_⟩
      · have hok := con_ok hS.units hcon (hS.attainable st hw) (hS.unharmed st c hw hcon)
        simpa using ⟨hok, fun pt hpt => con_posSides hS.units hcon hok hpt.nonneg (hS.defined st pt hw hpt)⟩
      · simpa using C73_meaning hS.units hcon s pt ((hS.defined st pt hw hpt).imp id (fun h => ⟨hpt.nonneg, h.1, h.2.1⟩))

open Building in
/-- C73, feasibility: if making and solving a model returns without a warning, then at the values returned every statement that is written in the model, at
whatever depth, is true as written, for the physical values of the variables and up to the tolerances; every variable that was given one value has it; and
the cost returned is that of these values, in the units of the cost. Missing: see `Sound`. -/
theorem C73_solution_partial {S : Setting V D (Stmt V)} {cost : Verif.Expr V} {tree : Building.Expr V ℝ (Stmt V)} (hS : Sound S cost tree) {r : Result V}
    (h : run S cost tree = .ok (r, true)) :
    (∀ k w, GivenValue S tree k w → ∃ w', GivenValue S tree k w' ∧ r.vars.get? k = some w') ∧
    (∀ v c, r.vars.get? v = some c → 0 < c ∨ c = 0 ∧ GivenValue S tree v 0) ∧
    ∃ u, 0 < u ∧ ∀ pt : V → ℝ, Proper S tree pt → Agrees pt r.vars →
      (∀ st, Writes st tree → st.Holds (1 + max S.feastol S.tol) (physical S.vunits pt)) ∧
      Close S.tol S.abstol (cost.denote (physical S.vunits pt) / u) r.cost :=
  run_feasible hS.model h

open Building in
/-- C73, optimality: if the check is exact, no point at which every statement in the model is true and every variable has the values that were given for it
costs less than what is returned. Missing: see `Sound`. -/
theorem C73_optimal_partial {S : Setting V D (Stmt V)} {cost : Verif.Expr V} {tree : Building.Expr V ℝ (Stmt V)} (hS : Sound S cost tree)
    (htol : S.tol = 0) (habs : S.abstol = 0)
    (hopt : ∀ d out l, S.optimize d = .ok out → out.dual = .la l → l.length = d.mIdxs.length ∨ l.length + 1 = d.mIdxs.length) {r : Result V}
    (h : run S cost tree = .ok (r, true)) :
    ∃ u, 0 < u ∧ (∀ pt : V → ℝ, Proper S tree pt → Agrees pt r.vars → r.cost * u = cost.denote (physical S.vunits pt)) ∧
    ∀ pt : V → ℝ, Proper S tree pt → (∀ k w, GivenValue S tree k w → pt k = w) →
      (∀ st, Writes st tree → st.Holds 1 (physical S.vunits pt)) → r.cost * u ≤ cost.denote (physical S.vunits pt) :=
  run_optimal hS.model htol habs hopt h

/-! ### An example -/

/-- `1 <= x`. -/
def stmt0 : Stmt ℕ := ⟨.num 1, .le, .var 0⟩

/-- A model with a submodel that has the constraint `1 <= x`. -/
def tree0 : Building.Expr ℕ ℝ (Stmt ℕ) := .mdl [] [0] (.lst [.mdl [] [] (.lst [.con stmt0 [0] true]) [] none]) [] none

/-- Variables without units or defaults, an exact check, and a solver that returns `x = 1`. -/
noncomputable def setting0 : Setting ℕ ℝ (Stmt ℕ) where
  feastol := 1 / 1000
  tol := 0
  abstol := 0
  vunits := fun _ => none
  enabled := fun _ => false
  approx := fun _ => .ok ()
  optimize := fun _ => .ok ⟨1, [0], .nu (fun _ => 1)⟩
  ord := fun h f => varlocs h f
  world := ⟨fun i => i, fun _ => false⟩
  heap := fun _ => none

theorem stmt0_con : stmt0.con false (1 / 1000) (fun _ => .ok ()) (fun _ => none) =
    .ok (.le false ⟨[(HV.empty, 1)], none⟩ ⟨[(⟨[(0, 1)]⟩, 1)], none⟩ : Con ℕ ℝ) := by
  norm_num [stmt0, Stmt.con, Stmt.make, Expr.build, related, compared, method, firstOf, varNomial, isPosys, posyIneq, side, mkSig, numMap, NMap.anyNonpositive, bind, Except.bind,
      Op.swap, pure, Except.pure, toCon, Op.order, genUnsubbed, UnitCache.ratio, renameTerms, renameStep, List.foldlM, PyDict.get?, PyDict.set, PyDict.del,
      HV.beq_def, List.isPerm, HV.sub, HV.add, HV.scale, dictAdd, dictAddStep, dictScale, HV.empty, simplifyPosyIneq, wrapForm, Except.map]

theorem inside_tree0 {x : Building.Expr ℕ ℝ (Stmt ℕ)} (h : Building.Inside x tree0) :
    x = tree0 ∨ x = .lst [.mdl [] [] (.lst [.con stmt0 [0] true]) [] none] ∨ x = .mdl [] [] (.lst [.con stmt0 [0] true]) [] none ∨
      x = .lst [.con stmt0 [0] true] ∨ x = .con stmt0 [0] true := by
  simpa only [tree0, Building.inside_mdl, Building.inside_lst, Building.inside_con, List.mem_cons, List.not_mem_nil, or_false, exists_eq_left] using h

theorem values_tree0 (k : ℕ) (w : ℝ) : ¬ GivenValue setting0 tree0 k w := by
  rintro ((⟨arg, subs, h, hx⟩ | ⟨setup, cost, arg, subs, ret, h, hx⟩) | ⟨i, -, -, h⟩)
  · rcases inside_tree0 h with h | h | h | h | h <;> cases h
  · rcases inside_tree0 h with h | h | h | h | h <;> cases h <;> simp at hx
  · cases h

/-- The hypotheses of the theorems are met. -/
theorem sound0 : Sound setting0 (.var 0) tree0 where
  feastol := by norm_num [setting0]
  ord := varlocs_valid
  units := fun v => by simp [setting0, UnitOK, unitScale]
  isSet := trivial
  fair := by
    refine ⟨fun arg subs h => ?_, fun setup cost arg subs ret h => ?_⟩
    · rcases inside_tree0 h with h | h | h | h | h <;> cases h
    · rcases inside_tree0 h with h | h | h | h | h <;> cases h <;> exact ⟨trivial, .inr rfl⟩
  values := fun k w h => (values_tree0 k w h).elim
  definedCost := fun pt hpt => .inl (hpt.pos fun k w h => (values_tree0 k w h).elim)
  defined := fun st pt _ hpt => .inl (hpt.pos fun k w h => (values_tree0 k w h).elim)
  cost := ⟨fun _ => 1, fun _ => one_pos, by simp [Expr.denote, physical, setting0, unitScale]⟩
  attainable := fun st _ => .inl rfl
  unharmed := by
    rintro st c ⟨vks, t, h⟩ hc
    rcases inside_tree0 h with h | h | h | h | h <;> cases h
    have hc' : stmt0.con false (1 / 1000) (fun _ => .ok ()) (fun _ => none) = .ok c := hc
    rw [stmt0_con] at hc'
    cases hc'
    intro e k _
    simp [NoClash]

example : ∃ r : Result ℕ, run setting0 (.var 0) tree0 = .ok (r, true) := by
  obtain ⟨r, hr⟩ := one_le_x_solved (D := ℝ)
  refine ⟨r, ?_⟩
  have h1 : Building.eval setting0.world tree0 setting0.heap =
      .ok ((fun _ => none), .set ⟨[0], [], [stmt0], 1⟩) := by
    simp [tree0, setting0, Building.eval, Building.evalL, Building.model, Building.costed, Building.construct, Building.Val.elements, Building.Val.truth,
      Building.defaults, Building.default1, Building.updated, Building.filled, Building.gathered, Building.partsL, Building.Val.parts,
      Building.update, Building.Part.vks, Building.Part.subs, Building.Part.cons, Building.addKeys, Building.addKey, Except.bind, Except.map]
    constructor
    · funext i
      simp [Building.taken]
    · simp [Building.taken]
  unfold run runOf
  rw [h1]
  simp only [bind, Except.bind, theSet]
  rw [List.mapM_cons, List.mapM_nil, show stmt0.con (setting0.enabled stmt0) setting0.feastol setting0.approx setting0.vunits = _ from stmt0_con]
  exact hr

/-- `1 + y <= x`. -/
def stmtZ : Stmt ℕ := ⟨.add (.num 1) (.var 1), .le, .var 0⟩

/-- A model with the constraint `1 + y <= x`, in which `y` is given the value zero. -/
def treeZ : Building.Expr ℕ ℝ (Stmt ℕ) := .mdl [] [0] (.lst [.con stmtZ [1, 0] true]) [(1, 0)] none

theorem stmtZ_con : stmtZ.con false (1 / 1000) (fun _ => .ok ()) (fun _ => none) =
    .ok (.le false ⟨[(⟨[(1, 1)]⟩, 1), (HV.empty, 1)], none⟩ ⟨[(⟨[(0, 1)]⟩, 1)], none⟩ : Con ℕ ℝ) := by
  have ht : dictAdd [((⟨[(1, 1)]⟩ : HV ℕ ℝ), (1 : ℝ))] [(⟨[]⟩, 1)] = [(⟨[(1, 1)]⟩, 1), (⟨[]⟩, 1)] := by
    norm_num [dictAdd, dictAddStep, PyDict.get?, PyDict.set, PyDict.del, HV.beq_def, List.isPerm]
  have hb : (Expr.add (.num 1) (.var 1) : Expr ℕ).build false (fun _ => (none : Option (UnitQ ℝ ℝ))) =
      .ok (.nom ⟨⟨[(⟨[(1, 1)]⟩, 1), (HV.empty, 1)], none⟩, .posynomial⟩) := by
    norm_num [ht, Expr.build, varNomial, PyVal.add, Nomial.addNum, NMap.add, mkSig, NMap.anyNonpositive, bind, Except.bind, pure, Except.pure, numMap,
      PyDict.get?, PyDict.set, PyDict.del, Except.map, HV.beq_def, HV.empty, UnitCache.ratio, List.isPerm]
  unfold Stmt.con Stmt.make stmtZ
  simp only [hb]
  norm_num [Expr.build, related, compared, method, firstOf, varNomial, isMons, posyIneq, side, mkSig, numMap, NMap.anyNonpositive, bind, Except.bind,
      show Cls.posynomial ≠ Cls.signomial by decide, isPosys, isVar, rank, Op.swap,
      pure, Except.pure, toCon, Op.order, genUnsubbed, UnitCache.ratio, renameTerms, renameStep, List.foldlM, PyDict.get?, PyDict.set, PyDict.del,
      HV.beq_def, List.isPerm, HV.sub, HV.add, HV.scale, dictAdd, dictAddStep, dictScale, HV.empty, simplifyPosyIneq, wrapForm, Except.map]

theorem inside_treeZ {x : Building.Expr ℕ ℝ (Stmt ℕ)} (h : Building.Inside x treeZ) :
    x = treeZ ∨ x = .lst [.con stmtZ [1, 0] true] ∨ x = .con stmtZ [1, 0] true := by
  simpa only [treeZ, Building.inside_mdl, Building.inside_lst, Building.inside_con, List.mem_cons, List.not_mem_nil, or_false, exists_eq_left] using h

theorem values_treeZ {k : ℕ} {w : ℝ} (h : GivenValue setting0 treeZ k w) : k = 1 ∧ w = 0 := by
  rcases h with (⟨arg, subs, h, hx⟩ | ⟨setup, cost, arg, subs, ret, h, hx⟩) | ⟨i, -, -, h⟩
  · rcases inside_treeZ h with h | h | h <;> cases h
  · rcases inside_treeZ h with h | h | h <;> cases h
    simpa using hx
  · cases h

/-- The hypotheses of the theorems are met by a model with a value that is zero. -/
example : Sound setting0 (.var 0) treeZ ∧ GivenValue setting0 treeZ 1 0 := by
  have hp : ∀ {pt}, Proper setting0 treeZ pt → 0 < pt 0 ∧ 0 ≤ pt 1 := fun {pt} h =>
    ⟨(h 0).elim id (fun h => absurd (values_treeZ h.2).1 (by decide)), h.nonneg 1⟩
  refine ⟨⟨by norm_num [setting0], varlocs_valid, fun v => by simp [setting0, UnitOK, unitScale], trivial, ⟨fun arg subs h => ?_, fun setup cost arg subs ret h => ?_⟩,
    fun k w h => (values_treeZ h).2.ge, fun pt _ => .inr trivial, ⟨fun _ => 1, fun _ => one_pos, by simp [Expr.denote, physical, setting0, unitScale]⟩, ?_,
    fun st _ => .inl rfl, ?_⟩, .inl (.inr ⟨_, _, _, _, _, Building.Inside.refl _, .inl (by simp)⟩)⟩
  · rcases inside_treeZ h with h | h | h <;> cases h
  · rcases inside_treeZ h with h | h | h <;> cases h
    exact ⟨trivial, .inr rfl⟩
  · rintro st pt ⟨vks, t, h⟩ hpt
    rcases inside_treeZ h with h | h | h <;> cases h
    refine .inr ⟨⟨trivial, trivial⟩, trivial, fun _ => ?_, fun h => absurd rfl h⟩
    simpa [stmtZ, Expr.denote, physical, setting0, unitScale] using (hp hpt).1.ne'
  · rintro st c ⟨vks, t, h⟩ hc
    rcases inside_treeZ h with h | h | h <;> cases h
    have hc' : stmtZ.con false (1 / 1000) (fun _ => .ok ()) (fun _ => none) = .ok c := hc
    rw [stmtZ_con] at hc'
    cases hc'
    rintro e k h1
    cases h1
    refine List.pairwise_cons.2 ⟨fun t ht hall => ?_, by simp⟩
    rw [List.mem_singleton] at ht
    subst ht
    have := hall (fun v => if v = 1 then 2 else 1) (fun v => by split <;> norm_num)
    norm_num [monVal, HV.empty] at this

/-- With `y = 0` the solver is given `x` and `1/x <= 1`. -/
theorem hmapsZ : hmaps (1 / 1000) (⟨[(⟨[(0, 1)]⟩, 1)], none⟩ : NMap ℕ ℝ ℝ) [.le false ⟨[(⟨[(1, 1)]⟩, 1), (HV.empty, 1)], none⟩ ⟨[(⟨[(0, 1)]⟩, 1)], none⟩] [(1, 0)] (fun h f => varlocs h f) =
    .ok [⟨[(⟨[(0, 1)]⟩, 1)], false⟩, ⟨[(⟨[(0, -1)]⟩, 1)], false⟩] := by
  have h1 : genUnsubbed false (1 / 1000) (⟨[(⟨[(1, 1)]⟩, 1), (HV.empty, 1)], none⟩ : NMap ℕ ℝ ℝ) ⟨[(⟨[(0, 1)]⟩, 1)], none⟩ =
      .ok [⟨⟨[(⟨[(1, 1), (0, -1)]⟩, 1), (⟨[(0, -1)]⟩, 1)], none⟩, .posynomial⟩] := by
    norm_num [genUnsubbed, UnitCache.ratio, renameTerms, renameStep, List.foldlM, PyDict.get?, PyDict.set, PyDict.del,
      bind, pure, Except.bind, Except.pure, HV.beq_def, List.isPerm, HV.sub, HV.add, HV.scale, dictAdd, dictAddStep, dictScale, HV.empty,
      simplifyPosyIneq, wrapForm, mkSig, NMap.anyNonpositive, Except.map]
  have h2 : (Con.le false ⟨[(⟨[(1, 1)]⟩, 1), (HV.empty, 1)], none⟩ ⟨[(⟨[(0, 1)]⟩, 1)], none⟩ : Con ℕ ℝ).hmaps (1 / 1000) [(1, 0)] (fun h f => varlocs h f) =
      .ok [⟨[(⟨[(0, -1)]⟩, 1)], false⟩] := by
    unfold Con.hmaps
    rw [Con.unsubbed, h1]
    norm_num [bind, Except.bind, asHmapslt1, formStep, subState, subRound, subinplace, subInit, csUpdate, subAdd, varlocs, varlocKeys, mmap, mmapStep, checkForm,
      simplifyPosyIneq, PyDict.get?, PyDict.set, PyDict.del, PyDict.contains, HV.get?, HV.del, HV.beq_def, List.isPerm, HV.empty, pw, pwDom,
      Except.map, pure, Except.pure, Con.isEq, List.foldlM, pyIndex, PyDict.keys, List.findIdx?_cons]
  unfold hmaps
  simp only [List.mapM_cons, List.mapM_nil, h2]
  norm_num [NMap.sub, subState, subRound, subInit, varlocs, varlocKeys, List.foldlM, PyDict.contains, PyDict.keys, PyDict.get?, bind, Except.bind, pure, Except.pure]

example : ∃ r : Result ℕ, run setting0 (.var 0) treeZ = .ok (r, true) := by
  have h1 : Building.eval setting0.world treeZ setting0.heap =
      .ok ((fun _ => none), .set ⟨[1, 0], [(1, 0)], [stmtZ], 1⟩) := by
    simp [treeZ, setting0, Building.eval, Building.evalL, Building.model, Building.costed, Building.construct, Building.Val.elements, Building.Val.truth,
      Building.defaults, Building.default1, Building.updated, Building.filled, Building.gathered, Building.partsL, Building.Val.parts,
      Building.update, Building.Part.vks, Building.Part.subs, Building.Part.cons, Building.addKeys, Building.addKey, Except.bind, Except.map]
    funext i
    simp [Building.taken]
  unfold run runOf
  rw [h1]
  simp only [bind, Except.bind, theSet]
  rw [List.mapM_cons, List.mapM_nil, show stmtZ.con (setting0.enabled stmtZ) setting0.feastol setting0.approx setting0.vunits = _ from stmtZ_con]
  have hg : genLoop ([⟨[(⟨[(0, 1)]⟩, 1)], false⟩, ⟨[(⟨[(0, -1)]⟩, 1)], false⟩] : List (Hmap ℕ ℝ)) =
      ⟨[(0, 1), (1, 2)], [0, 1], [1, 1], [⟨[(0, 1)]⟩, ⟨[(0, -1)]⟩], [(0, [0, 1])], [], [], []⟩ := by
    simp [genLoop, genStep, expStep, locAppend, PyDict.set, PyDict.get?]
  refine ⟨⟨1, [(0, Real.exp 0)], [(0, Real.exp 0), (1, 0)]⟩, ?_⟩
  show solve _ _ _ _ _ _ _ _ = _
  unfold solve
  erw [hmapsZ]
  simp only [bind, Except.bind]
  rw [hg]
  simp [setting0, generateResult, compileVars, generateNula, bind, Except.bind, update, PyDict.set]
  simp [checkSolution, almostEqual, sliceSum, Data.A, Data.colEntries, Data.expOf, HV.get?, PyDict.get?, Coot.dot, Coot.tdot, Coot.ncols,
    dualNan, dualCost, List.range_succ, vec]

/-! ### Violations -/

/-- C73 is violated inside `SignomialsEnabled`: `x <= -1` is accepted, and if `x` has the value 2 nothing of it reaches the solver, so that a model with
this constraint can be solved. -/
theorem C73_negative_fails : ∃ (st : Stmt ℕ) (c : Con ℕ ℝ), st.con true (1 / 1000) (fun _ => .ok ()) (fun _ => none) = .ok c ∧
    c.hmaps (1 / 1000) [(0, 2)] (fun h f => varlocs h f) = .ok [] ∧
    ∀ s, 0 ≤ s → ∀ x : ℕ → ℝ, x 0 = 2 → ¬ st.Holds s x := by
  refine ⟨⟨.var 0, .le, .num (-1)⟩, .le true ⟨[(⟨[(0, 1)]⟩, 1)], none⟩ ⟨[(HV.empty, -1)], none⟩, ?_, ?_, ?_⟩
  · norm_num [Stmt.con, Stmt.make, Expr.build, related, compared, method, firstOf, varNomial, isMons, posyIneq, side, mkSig, numMap, NMap.anyNonpositive, bind, Except.bind,
      pure, Except.pure, toCon, Op.order, genUnsubbed, UnitCache.ratio, renameTerms, renameStep, List.foldlM, PyDict.get?, PyDict.set, PyDict.del,
      HV.beq_def, List.isPerm, HV.sub, HV.add, HV.scale, dictAdd, dictAddStep, dictScale, HV.empty, simplifyPosyIneq, wrapForm, Except.map]
  · have h1 : genUnsubbed true (1 / 1000) (⟨[(⟨[(0, 1)]⟩, 1)], none⟩ : NMap ℕ ℝ ℝ) ⟨[(HV.empty, -1)], none⟩ =
        .ok [⟨⟨[(⟨[(0, 1)]⟩, -1)], none⟩, .signomial⟩] := by
      norm_num [genUnsubbed, UnitCache.ratio, renameTerms, renameStep, List.foldlM, PyDict.get?, PyDict.set, PyDict.del,
        bind, pure, Except.bind, Except.pure, HV.beq_def, List.isPerm, HV.sub, HV.add, HV.scale, dictAdd, dictAddStep, dictScale, HV.empty,
        simplifyPosyIneq, wrapForm, mkSig, NMap.anyNonpositive, Except.map]
    unfold Con.hmaps
    rw [Con.unsubbed, h1]
    norm_num [bind, Except.bind, asHmapslt1, formStep, subState, subRound, subinplace, subInit, csUpdate, subAdd, varlocs, varlocKeys, mmap, mmapStep, checkForm,
      simplifyPosyIneq, PyDict.get?, PyDict.set, PyDict.del, PyDict.contains, HV.get?, HV.del, HV.beq_def, List.isPerm, HV.empty, pw, pwDom,
      Except.map, pure, Except.pure, Con.isEq, List.foldlM, pyIndex, PyDict.keys, List.findIdx?_cons]
  · intro s hs x hx h
    simp only [Stmt.Holds, Rel.Holds, Expr.denote] at h
    linarith

/-- C73 is violated inside `SignomialsEnabled` by sums whose constant part exceeds the other side within the tolerance, as in `x + 1.0005 <= 1`: if `x` has the
value 3 nothing of it reaches the solver. -/
theorem C73_margin_fails : ∃ (st : Stmt ℕ) (c : Con ℕ ℝ), st.con true (1 / 1000) (fun _ => .ok ()) (fun _ => none) = .ok c ∧
    c.hmaps (1 / 1000) [(0, 3)] (fun h f => varlocs h f) = .ok [] ∧
    ∀ x : ℕ → ℝ, x 0 = 3 → ¬ st.Holds 4 x := by
  refine ⟨⟨.add (.var 0) (.num 1.0005), .le, .num 1⟩, .le true ⟨[(⟨[(0, 1)]⟩, 1), (HV.empty, 1.0005)], none⟩ ⟨[(HV.empty, 1)], none⟩, ?_, ?_, ?_⟩
  · norm_num [Stmt.con, Stmt.make, Expr.build, related, compared, method, firstOf, varNomial, isMons, posyIneq, side, mkSig, numMap, NMap.anyNonpositive, bind, Except.bind,
      PyVal.add, Nomial.addNum, NMap.add,
      pure, Except.pure, toCon, Op.order, genUnsubbed, UnitCache.ratio, renameTerms, renameStep, List.foldlM, PyDict.get?, PyDict.set, PyDict.del,
      HV.beq_def, List.isPerm, HV.sub, HV.add, HV.scale, dictAdd, dictAddStep, dictScale, HV.empty, simplifyPosyIneq, wrapForm, Except.map]
  · have h1 : genUnsubbed true (1 / 1000) (⟨[(⟨[(0, 1)]⟩, 1), (HV.empty, 1.0005)], none⟩ : NMap ℕ ℝ ℝ) ⟨[(HV.empty, 1)], none⟩ =
        .ok [⟨⟨[(⟨[(0, 1)]⟩, -2000)], none⟩, .signomial⟩] := by
      norm_num [genUnsubbed, UnitCache.ratio, renameTerms, renameStep, List.foldlM, PyDict.get?, PyDict.set, PyDict.del,
        bind, pure, Except.bind, Except.pure, HV.beq_def, List.isPerm, HV.sub, HV.add, HV.scale, dictAdd, dictAddStep, dictScale, HV.empty,
        simplifyPosyIneq, wrapForm, mkSig, NMap.anyNonpositive, Except.map]
    unfold Con.hmaps
    rw [Con.unsubbed, h1]
    norm_num [bind, Except.bind, asHmapslt1, formStep, subState, subRound, subinplace, subInit, csUpdate, subAdd, varlocs, varlocKeys, mmap, mmapStep, checkForm,
      simplifyPosyIneq, PyDict.get?, PyDict.set, PyDict.del, PyDict.contains, HV.get?, HV.del, HV.beq_def, List.isPerm, HV.empty, pw, pwDom,
      Except.map, pure, Except.pure, Con.isEq, List.foldlM, pyIndex, PyDict.keys, List.findIdx?_cons]
  · intro x hx h
    simp only [Stmt.Holds, Rel.Holds, Expr.denote] at h
    norm_num [hx] at h

/-- C73 is violated by values that are zero or negative where they are divided by: whatever value `x` has, the solver is given `y <= 1` for `x*y <= x`. If `x` is zero
every `y` satisfies the statement, and if `x` is negative those satisfy it that are at least one. -/
theorem C73_sign_fails : ∃ (st : Stmt ℕ) (c : Con ℕ ℝ), st.con false (1 / 1000) (fun _ => .ok ()) (fun _ => none) = .ok c ∧
    (∀ w, ∃ m, c.hmaps (1 / 1000) [(0, w)] (fun h f => varlocs h f) = .ok [m] ∧ ∀ x : ℕ → ℝ, termsVal x m.terms = x 1) ∧
    (∀ x : ℕ → ℝ, x 0 = 0 → st.Holds 1 x) ∧ ∀ x : ℕ → ℝ, x 0 = -1 → (st.Holds 1 x ↔ 1 ≤ x 1) := by
  refine ⟨⟨.mul (.var 0) (.var 1), .le, .var 0⟩, .le false ⟨[(⟨[(0, 1), (1, 1)]⟩, 1)], none⟩ ⟨[(⟨[(0, 1)]⟩, 1)], none⟩, ?_, ?_, ?_, ?_⟩
  · have hb : (Expr.mul (.var 0) (.var 1) : Expr ℕ).build false (fun _ => (none : Option (UnitQ ℝ ℝ))) =
        .ok (.nom ⟨⟨[(⟨[(0, 1), (1, 1)]⟩, 1)], none⟩, .monomial⟩) := by
      have ht : Nomial.mulTerms [((⟨[(0, 1)]⟩ : HV ℕ ℝ), (1 : ℝ))] [(⟨[(1, 1)]⟩, 1)] = [(⟨[(0, 1), (1, 1)]⟩, 1)] := by
        norm_num [Nomial.mulTerms, Nomial.mulStep, HV.add, dictAdd, dictAddStep, PyDict.get?, PyDict.set, PyDict.del, HV.beq_def]
      norm_num [ht, Expr.build, varNomial, PyVal.mul, Nomial.mul, NMap.unitsOfProduct, mkSig, NMap.anyNonpositive, bind, Except.bind, pure, Except.pure,
        HV.add, dictAdd, dictAddStep, PyDict.get?, PyDict.set, PyDict.del, Except.map, HV.beq_def]
    unfold Stmt.con Stmt.make
    simp only [hb]
    norm_num [Expr.build, related, compared, method, firstOf, varNomial, isMons, posyIneq, side, mkSig, numMap, NMap.anyNonpositive, bind, Except.bind,
      show Cls.monomial ≠ Cls.signomial by decide, isPosys, isVar, rank, Op.swap,
      pure, Except.pure, toCon, Op.order, genUnsubbed, UnitCache.ratio, renameTerms, renameStep, List.foldlM, PyDict.get?, PyDict.set, PyDict.del,
      HV.beq_def, List.isPerm, HV.sub, HV.add, HV.scale, dictAdd, dictAddStep, dictScale, HV.empty, simplifyPosyIneq, wrapForm, Except.map]
  · intro w
    refine ⟨⟨[(⟨[(1, 1)]⟩, 1)], false⟩, ?_, fun x => by simp [termsVal, monVal]⟩
    have h1 : genUnsubbed false (1 / 1000) (⟨[(⟨[(0, 1), (1, 1)]⟩, 1)], none⟩ : NMap ℕ ℝ ℝ) ⟨[(⟨[(0, 1)]⟩, 1)], none⟩ =
        .ok [⟨⟨[(⟨[(1, 1)]⟩, 1)], none⟩, .monomial⟩] := by
      norm_num [genUnsubbed, UnitCache.ratio, renameTerms, renameStep, List.foldlM, PyDict.get?, PyDict.set, PyDict.del,
        bind, pure, Except.bind, Except.pure, HV.beq_def, List.isPerm, HV.sub, HV.add, HV.scale, dictAdd, dictAddStep, dictScale, HV.empty,
        simplifyPosyIneq, wrapForm, mkSig, NMap.anyNonpositive, Except.map]
    unfold Con.hmaps
    rw [Con.unsubbed, h1]
    norm_num [bind, Except.bind, asHmapslt1, formStep, subState, subRound, subinplace, subInit, csUpdate, subAdd, varlocs, varlocKeys, mmap, mmapStep, checkForm,
      simplifyPosyIneq, PyDict.get?, PyDict.set, PyDict.del, PyDict.contains, HV.get?, HV.del, HV.beq_def, List.isPerm, HV.empty, pw, pwDom,
      Except.map, pure, Except.pure, Con.isEq, List.foldlM, pyIndex, PyDict.keys, List.findIdx?_cons]
  · intro x hx
    simp [Stmt.Holds, Rel.Holds, Expr.denote, hx]
  · intro x hx
    simp [Stmt.Holds, Rel.Holds, Expr.denote, hx]

end Verif
