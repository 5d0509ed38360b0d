import Verif.Lemmas.Elementwise
import Verif.Lemmas.Tidy

/-! Arrays mean what their elements mean: C74. -/

set_option linter.unusedSectionVars false

namespace Verif
namespace Elementwise
open Written
variable {V D : Type} [DecidableEq V] [AddCommGroup D] [DecidableEq D]

/-! ### Values -/

/-- A value is in good order and has the value `p` at all points. -/
def Means (vunits : V → Option (UnitQ D ℝ)) (v : PyVal V ℝ D) (p : (V → ℝ) → ℝ) : Prop :=
  v.Good ∧ v.Tidy ∧ ∀ pt, (∀ v, 0 < pt v) → v.phys pt = p (physical vunits pt)

/-- An array has this shape and these values. -/
def Shows (vunits : V → Option (UnitQ D ℝ)) (a : NArr (PyVal V ℝ D)) (s : List Nat) (f : List Nat → (V → ℝ) → ℝ) : Prop :=
  a.shape = s ∧ a.elts.length = s.prod ∧ ∀ i, InShape s i → ∃ v, a.elts[position s i]? = some v ∧ Means vunits v (f i)

variable {vunits : V → Option (UnitQ D ℝ)}

theorem inShape_nil {i : List Nat} (h : InShape [] i) : i = [] := by cases h; rfl

theorem shows_scalar {int : Bool} {v : PyVal V ℝ D} {s : List Nat} {f : List Nat → (V → ℝ) → ℝ} :
    Shows vunits (Val.scalar int v).asArray s f ↔ s = [] ∧ Means vunits v (f []) := by
  constructor
  · rintro ⟨h1, -, h3⟩
    cases h1
    obtain ⟨w, hw, hm⟩ := h3 [] .nil
    cases hw
    exact ⟨rfl, hm⟩
  · rintro ⟨rfl, hm⟩
    refine ⟨rfl, rfl, fun i hi => ?_⟩
    cases hi
    exact ⟨v, rfl, hm⟩

theorem Shows.congr {a : NArr (PyVal V ℝ D)} {s : List Nat} {f g : List Nat → (V → ℝ) → ℝ} (h : Shows vunits a s f)
    (hfg : ∀ i, InShape s i → f i = g i) : Shows vunits a s g := by
  refine ⟨h.1, h.2.1, fun i hi => ?_⟩
  obtain ⟨v, hv, hm⟩ := h.2.2 i hi
  exact ⟨v, hv, hfg i hi ▸ hm⟩

theorem Shows.elts {a : NArr (PyVal V ℝ D)} {s : List Nat} {f : List Nat → (V → ℝ) → ℝ} (h : Shows vunits a s f) :
    List.Forall₂ (fun i v => Means vunits v (f i)) (allIndices s) a.elts := by
  refine List.forall₂_iff_get.2 ⟨by rw [length_indices, h.2.1], fun k h1 h2 => ?_⟩
  have hi := mem_allIndices.1 (List.getElem_mem h1)
  obtain ⟨v, hv, hm⟩ := h.2.2 _ hi
  rw [getElem_position h1] at hv
  rw [List.get_eq_getElem, List.get_eq_getElem]
  rw [List.getElem?_eq_getElem h2] at hv
  cases hv
  exact hm

theorem shows_of_elts {a : NArr (PyVal V ℝ D)} {s : List Nat} {f : List Nat → (V → ℝ) → ℝ} (hs : a.shape = s)
    (h : List.Forall₂ (fun i v => Means vunits v (f i)) (allIndices s) a.elts) : Shows vunits a s f := by
  obtain ⟨hl, hg⟩ := List.forall₂_iff_get.1 h
  refine ⟨hs, by rw [← hl, length_indices], fun i hi => ?_⟩
  have hp := position_lt hi
  have h1 : position s i < (allIndices s).length := by rw [length_indices]; exact hp
  have h2 : position s i < a.elts.length := by omega
  refine ⟨a.elts[position s i], List.getElem?_eq_getElem h2, ?_⟩
  have := hg _ h1 h2
  rw [List.get_eq_getElem, List.get_eq_getElem] at this
  have he : (allIndices s)[position s i] = i := by
    have := getElem?_position hi
    rw [List.getElem?_eq_getElem h1] at this
    exact Option.some.inj this
  rwa [he] at this

/-- An operation on values. -/
def Computes (vunits : V → Option (UnitQ D ℝ)) (op : PyVal V ℝ D → PyVal V ℝ D → Except Err (PyVal V ℝ D)) (g : ℝ → ℝ → ℝ) : Prop :=
  ∀ v w r p q, Means vunits v p → Means vunits w q → op v w = .ok r → Means vunits r (fun x => g (p x) (q x))

theorem joint_comm {s t : List Nat} (h : Fits s t) : joint t s = joint s t := by
  unfold joint
  unfold Fits at h
  rw [max_comm t.length]
  revert h
  generalize pad (max s.length t.length) s = a
  generalize pad (max s.length t.length) t = b
  intro h
  induction h with
  | nil => rfl
  | cons hab _ ih =>
    simp only [List.zipWith_cons_cons, ih, List.cons.injEq, and_true]
    rcases hab with rfl | rfl | rfl
    · rfl
    · rw [if_pos rfl]; split <;> simp_all
    · rw [if_pos rfl]; split <;> simp_all

theorem elementwise_shows {op : PyVal V ℝ D → PyVal V ℝ D → Except Err (PyVal V ℝ D)} {g : ℝ → ℝ → ℝ} (hop : Computes vunits op g)
    {nomial : Bool} {kind : Kind} {a b : NArr (PyVal V ℝ D)} {s t : List Nat} {f h : List Nat → (V → ℝ) → ℝ} (ha : Shows vunits a s f)
    (hb : Shows vunits b t h) {v : Val V ℝ D} (he : elementwise nomial kind op a b = .ok v) :
    Shows vunits v.asArray (joint s t) (fun i x => g (f (toward s i) x) (h (toward t i) x)) := by
  unfold elementwise at he
  cases hr : both op a b with
  | error e => rw [hr] at he; cases he
  | ok r =>
    rw [hr] at he
    cases he
    obtain ⟨-, e1, e2, e3⟩ := both_ok (s := r.1) (l := r.2) hr
    rw [ha.1, hb.1] at e1
    refine ⟨e1, by rw [← e1]; exact e2, fun i hi => ?_⟩
    obtain ⟨i1, i2, x, y, z, hx, hy, hz, hzl⟩ := e3 i (e1 ▸ hi)
    rw [ha.1] at i1 hx
    rw [hb.1] at i2 hy
    obtain ⟨x', hx', mx⟩ := ha.2.2 _ i1
    obtain ⟨y', hy', my⟩ := hb.2.2 _ i2
    rw [hx] at hx'
    rw [hy] at hy'
    cases hx'
    cases hy'
    exact ⟨z, by rw [← e1]; exact hzl, hop x y z _ _ mx my hz⟩

/-- The same with the operands exchanged. -/
theorem elementwise_swapped {op : PyVal V ℝ D → PyVal V ℝ D → Except Err (PyVal V ℝ D)} {g : ℝ → ℝ → ℝ} (hop : Computes vunits op (fun y x => g x y))
    {nomial : Bool} {kind : Kind} {a b : NArr (PyVal V ℝ D)} {s t : List Nat} {f h : List Nat → (V → ℝ) → ℝ} (ha : Shows vunits a s f)
    (hb : Shows vunits b t h) {v : Val V ℝ D} (he : elementwise nomial kind op b a = .ok v) :
    Shows vunits v.asArray (joint s t) (fun i x => g (f (toward s i) x) (h (toward t i) x)) := by
  have := elementwise_shows hop hb ha he
  have hfit : Fits t s := by
    unfold elementwise at he
    cases hr : both op b a with
    | error e => rw [hr] at he; cases he
    | ok r =>
      obtain ⟨h1, -⟩ := both_ok (s := r.1) (l := r.2) hr
      rwa [ha.1, hb.1] at h1
  rw [joint_comm hfit]
  exact this

theorem computes_add (se : Bool) : Computes vunits (PyVal.add se) (· + ·) := by
  rintro v w r p q ⟨g1, p1, h1⟩ ⟨g2, p2, h2⟩ h
  obtain ⟨g, e⟩ := pyAdd_ok g1 g2 h
  exact ⟨g, pyAdd_tidy p1 p2 h, fun pt hpt => by rw [e, h1 pt hpt, h2 pt hpt]⟩

theorem computes_mul (se : Bool) : Computes vunits (PyVal.mul se) (· * ·) := by
  rintro v w r p q ⟨g1, p1, h1⟩ ⟨g2, p2, h2⟩ h
  obtain ⟨g, e⟩ := pyMul_ok g1 g2 h
  exact ⟨g, pyMul_tidy p1 p2 h, fun pt hpt => by rw [e pt hpt, h1 pt hpt, h2 pt hpt]⟩

theorem computes_sub (se : Bool) : Computes vunits (PyVal.sub se) (· - ·) := by
  rintro v w r p q ⟨g1, p1, h1⟩ ⟨g2, p2, h2⟩ h
  obtain ⟨g, e⟩ := pySub_ok g1 g2 h
  exact ⟨g, pySub_tidy p1 p2 h, fun pt hpt => by rw [e, h1 pt hpt, h2 pt hpt]⟩

theorem computes_div [Module ℝ D] (se : Bool) : Computes vunits (PyVal.div se) (· / ·) := by
  rintro v w r p q ⟨g1, p1, h1⟩ ⟨g2, p2, h2⟩ h
  obtain ⟨g, e⟩ := pyDiv_ok g1 g2 h
  exact ⟨g, pyDiv_tidy p1 p2 g2 h, fun pt hpt => by rw [e pt hpt, h1 pt hpt, h2 pt hpt]⟩

theorem computes_divElt [Module ℝ D] (se : Bool) (kind : Kind) : Computes vunits (divElt se kind) (· / ·) := by
  intro v w r p q hv hw h
  refine computes_div se v w r p q hv hw ?_
  unfold divElt at h
  split at h
  · split at h
    · cases h
    · exact h
  · exact h

theorem means_neg {se : Bool} {v r : PyVal V ℝ D} {p : (V → ℝ) → ℝ} (hv : Means vunits v p) (h : PyVal.neg se v = .ok r) :
    Means vunits r (fun x => -p x) := by
  obtain ⟨g1, p1, h1⟩ := hv
  obtain ⟨g, e⟩ := pyNeg_ok g1 h
  exact ⟨g, pyNeg_tidy p1 h, fun pt hpt => by rw [e, h1 pt hpt]⟩

theorem means_pow [Module ℝ D] {se : Bool} {v r : PyVal V ℝ D} {p : (V → ℝ) → ℝ} {x : PyExpo ℝ} (hv : Means vunits v p) (h : PyVal.pow se v x = .ok r) :
    Means vunits r (fun y => p y ^ x.toK) := by
  obtain ⟨g1, p1, h1⟩ := hv
  obtain ⟨g, e⟩ := pyPow_ok g1 h
  exact ⟨g, pyPow_tidy p1 g1 h, fun pt hpt => by rw [e pt hpt, h1 pt hpt]⟩

theorem means_powElt [Module ℝ D] {se : Bool} {kind : Kind} {v r : PyVal V ℝ D} {p : (V → ℝ) → ℝ} {x : PyExpo ℝ} (hv : Means vunits v p)
    (h : powElt se kind x v = .ok r) : Means vunits r (fun y => p y ^ x.toK) := by
  refine means_pow (se := se) hv ?_
  unfold powElt at h
  split at h
  · exact h
  · split at h
    · cases h
    · exact h
  · split at h
    · exact h
    · cases h

theorem each_shows {f : PyVal V ℝ D → Except Err (PyVal V ℝ D)} {g : ℝ → ℝ} {kind : Kind} {a b : NArr (PyVal V ℝ D)} {s : List Nat}
    {h : List Nat → (V → ℝ) → ℝ} (hf : ∀ v r p, Means vunits v p → f v = .ok r → Means vunits r (fun x => g (p x))) (ha : Shows vunits a s h)
    (he : each kind f a = .ok b) : Shows vunits b s (fun i x => g (h i x)) := by
  unfold each at he
  cases hm : a.elts.mapM f with
  | error e => rw [hm] at he; cases he
  | ok l =>
    rw [hm] at he
    cases he
    obtain ⟨m1, m2⟩ := mapM_getElem? hm
    refine ⟨ha.1, by rw [← ha.2.1]; exact m1, fun i hi => ?_⟩
    obtain ⟨v, hv, mv⟩ := ha.2.2 i hi
    obtain ⟨r, hr, hfr⟩ := m2 _ v hv
    exact ⟨r, hr, hf v r _ mv hfr⟩

theorem map_ok {α β : Type} {x : Except Err α} {f : α → β} {b : β} (h : x.map f = .ok b) : ∃ a, x = .ok a ∧ b = f a := by
  cases x with
  | error e => cases h
  | ok a => cases h; exact ⟨a, rfl, rfl⟩

theorem toward_nil (i : List Nat) : toward [] i = [] := rfl

/-- Two scalars. -/
theorem scalars_show {op : PyVal V ℝ D → PyVal V ℝ D → Except Err (PyVal V ℝ D)} {g : ℝ → ℝ → ℝ} (hop : Computes vunits op g) {i j k : Bool}
    {x y : PyVal V ℝ D} {s t : List Nat} {f h : List Nat → (V → ℝ) → ℝ} (ha : Shows vunits (Val.scalar i x).asArray s f)
    (hb : Shows vunits (Val.scalar j y).asArray t h) {v : Val V ℝ D} (he : (op x y).map (.scalar k) = .ok v) :
    Shows vunits v.asArray (joint s t) (fun i x => g (f (toward s i) x) (h (toward t i) x)) := by
  obtain ⟨rfl, ma⟩ := shows_scalar.1 ha
  obtain ⟨rfl, mb⟩ := shows_scalar.1 hb
  obtain ⟨r, hr, rfl⟩ := map_ok he
  exact shows_scalar.2 ⟨rfl, hop x y r _ _ ma mb hr⟩

theorem add_shows {se : Bool} {a b v : Val V ℝ D} {s t : List Nat} {f h : List Nat → (V → ℝ) → ℝ} (ha : Shows vunits a.asArray s f)
    (hb : Shows vunits b.asArray t h) (he : Elementwise.add se a b = .ok v) :
    Shows vunits v.asArray (joint s t) (fun i x => f (toward s i) x + h (toward t i) x) := by
  have key : (if a.asArray.nomial then elementwise true (a.asArray.kind.join b.asArray.kind) (PyVal.add se) a.asArray b.asArray
    else if b.asArray.nomial then elementwise true (b.asArray.kind.join a.asArray.kind) (PyVal.add se) b.asArray a.asArray
    else elementwise false (a.asArray.kind.join b.asArray.kind) (PyVal.add se) a.asArray b.asArray) = .ok v →
      Shows vunits v.asArray (joint s t) (fun i x => f (toward s i) x + h (toward t i) x) := by
    intro he
    split at he
    · exact elementwise_shows (computes_add se) ha hb he
    · split at he
      · refine elementwise_swapped (g := (· + ·)) ?_ ha hb he
        intro v w r p q hv hw hr
        have := computes_add se v w r p q hv hw hr
        simpa only [add_comm] using this
      · exact elementwise_shows (computes_add se) ha hb he
  cases a with
  | scalar i x =>
    cases b with
    | scalar j y => exact scalars_show (computes_add se) ha hb he
    | array b => exact key he
  | array a => cases b <;> exact key he

theorem mul_shows {se : Bool} {a b v : Val V ℝ D} {s t : List Nat} {f h : List Nat → (V → ℝ) → ℝ} (ha : Shows vunits a.asArray s f)
    (hb : Shows vunits b.asArray t h) (he : Elementwise.mul se a b = .ok v) :
    Shows vunits v.asArray (joint s t) (fun i x => f (toward s i) x * h (toward t i) x) := by
  have key : (if a.asArray.nomial then elementwise true (a.asArray.kind.join b.asArray.kind) (PyVal.mul se) a.asArray b.asArray
    else if b.asArray.nomial then elementwise true (b.asArray.kind.join a.asArray.kind) (PyVal.mul se) b.asArray a.asArray
    else elementwise false (a.asArray.kind.join b.asArray.kind) (PyVal.mul se) a.asArray b.asArray) = .ok v →
      Shows vunits v.asArray (joint s t) (fun i x => f (toward s i) x * h (toward t i) x) := by
    intro he
    split at he
    · exact elementwise_shows (computes_mul se) ha hb he
    · split at he
      · refine elementwise_swapped (g := (· * ·)) ?_ ha hb he
        intro v w r p q hv hw hr
        have := computes_mul se v w r p q hv hw hr
        simpa only [mul_comm] using this
      · exact elementwise_shows (computes_mul se) ha hb he
  cases a with
  | scalar i x =>
    cases b with
    | scalar j y => exact scalars_show (computes_mul se) ha hb he
    | array b =>
      cases x with
      | num q => exact key he
      | nom n => exact elementwise_shows (computes_mul se) ha hb he
  | array a => cases b <;> exact key he

theorem neg_shows {se : Bool} {a v : Val V ℝ D} {s : List Nat} {f : List Nat → (V → ℝ) → ℝ} (ha : Shows vunits a.asArray s f)
    (he : Elementwise.neg se a = .ok v) : Shows vunits v.asArray s (fun i x => -f i x) := by
  cases a with
  | scalar i y =>
    obtain ⟨r, hr, rfl⟩ := map_ok he
    obtain ⟨rfl, ma⟩ := shows_scalar.1 ha
    exact shows_scalar.2 ⟨rfl, means_neg ma hr⟩
  | array a =>
    obtain ⟨r, hr, rfl⟩ := map_ok he
    exact each_shows (g := fun y => -y) (fun v r p hv h => means_neg hv h) ha hr

theorem sub_shows {se : Bool} {a b v : Val V ℝ D} {s t : List Nat} {f h : List Nat → (V → ℝ) → ℝ} (ha : Shows vunits a.asArray s f)
    (hb : Shows vunits b.asArray t h) (he : Elementwise.sub se a b = .ok v) :
    Shows vunits v.asArray (joint s t) (fun i x => f (toward s i) x - h (toward t i) x) := by
  cases a with
  | scalar i x =>
    cases b with
    | scalar j y => exact scalars_show (computes_sub se) ha hb he
    | array b =>
      cases x with
      | num q => exact elementwise_shows (computes_sub se) ha hb he
      | nom n =>
        simp only [Elementwise.sub] at he
        split at he
        · obtain ⟨m, h1, h2⟩ := except_bind_ok he
          have := add_shows ha (neg_shows (a := .array b) hb h1) h2
          simpa only [sub_eq_add_neg] using this
        · exact elementwise_shows (computes_sub se) ha hb he
  | array a => cases b <;> exact elementwise_shows (computes_sub se) ha hb he

section
variable [Module ℝ D]

theorem powArr_shows {se : Bool} {a r : NArr (PyVal V ℝ D)} {x : PyExpo ℝ} {s : List Nat} {f : List Nat → (V → ℝ) → ℝ} (ha : Shows vunits a s f)
    (he : powArr se a x = .ok r) : Shows vunits r s (fun i y => f i y ^ x.toK) :=
  each_shows (g := fun y => y ^ x.toK) (fun _ _ _ hv h => means_powElt hv h) ha he

theorem pow_shows {se : Bool} {a v : Val V ℝ D} {x : PyExpo ℝ} {s : List Nat} {f : List Nat → (V → ℝ) → ℝ} (ha : Shows vunits a.asArray s f)
    (he : Elementwise.pow se a x = .ok v) : Shows vunits v.asArray s (fun i y => f i y ^ x.toK) := by
  cases a with
  | scalar i y =>
    obtain ⟨r, hr, rfl⟩ := map_ok he
    obtain ⟨rfl, ma⟩ := shows_scalar.1 ha
    exact shows_scalar.2 ⟨rfl, means_pow ma hr⟩
  | array a =>
    obtain ⟨r, hr, rfl⟩ := map_ok he
    exact powArr_shows (a := a) ha hr

theorem div_shows {se : Bool} {a b v : Val V ℝ D} {s t : List Nat} {f h : List Nat → (V → ℝ) → ℝ} (ha : Shows vunits a.asArray s f)
    (hb : Shows vunits b.asArray t h) (he : Elementwise.div se a b = .ok v) :
    Shows vunits v.asArray (joint s t) (fun i x => f (toward s i) x / h (toward t i) x) := by
  have key : (if a.asArray.nomial then
      elementwise true (a.asArray.kind.quotient b.asArray.kind) (divElt se (a.asArray.kind.join b.asArray.kind)) a.asArray b.asArray
    else if b.asArray.nomial then do
      let p ← powArr se b.asArray (.int (-1))
      elementwise true (p.kind.join a.asArray.kind) (PyVal.mul se) p a.asArray
    else elementwise false (a.asArray.kind.quotient b.asArray.kind) (divElt se (a.asArray.kind.join b.asArray.kind)) a.asArray b.asArray) = .ok v →
      Shows vunits v.asArray (joint s t) (fun i x => f (toward s i) x / h (toward t i) x) := by
    intro he
    split at he
    · exact elementwise_shows (computes_divElt se _) ha hb he
    · split at he
      · obtain ⟨p, h1, h2⟩ := except_bind_ok he
        have hp := powArr_shows hb h1
        have := elementwise_swapped (g := (· * ·)) (by
          intro v w r p q hv hw hr
          have := computes_mul se v w r p q hv hw hr
          simpa only [mul_comm] using this) ha hp h2
        refine this.congr (fun i _ => ?_)
        funext x
        have : (PyExpo.int (-1) : PyExpo ℝ).toK = -1 := by simp [PyExpo.toK]
        rw [this, Real.rpow_neg_one, div_eq_mul_inv]
      · exact elementwise_shows (computes_divElt se _) ha hb he
  cases a with
  | scalar i x =>
    cases b with
    | scalar j y => exact scalars_show (computes_div se) ha hb he
    | array b => exact key he
  | array a => cases b <;> exact key he

end

/-! ### Indices, sums and products -/

theorem inside_inShape : ∀ {s j i : List Nat}, inside s j = true → InShape (s.drop j.length) i → InShape s (j ++ i)
  | s, [], i, _, h => by simpa using h
  | [], _ :: _, _, h, _ => by cases h
  | n :: s, k :: j, i, h, hi => by
    simp only [inside, Bool.and_eq_true, decide_eq_true_eq] at h
    exact .cons h.1 (inside_inShape h.2 (by simpa using hi))

theorem position_append : ∀ {s j i : List Nat}, inside s j = true → position s (j ++ i) = position s j + position (s.drop j.length) i
  | s, [], i, _ => by cases s <;> simp [position]
  | [], _ :: _, _, h => by cases h
  | n :: s, k :: j, i, h => by
    simp only [inside, Bool.and_eq_true, decide_eq_true_eq] at h
    simp only [List.cons_append, position, position_append h.2, List.length_cons, List.drop_succ_cons]
    omega

theorem part_length {A : Type} {s j : List Nat} {l : List A} (hl : l.length = s.prod) (h : inside s j = true) :
    (part s j l).length = (s.drop j.length).prod := by
  unfold part
  rw [List.length_take, List.length_drop, hl]
  have : ∀ {s j : List Nat}, inside s j = true → position s j + (s.drop j.length).prod ≤ s.prod ∨ (s.drop j.length).prod = 0 := by
    intro s j
    induction j generalizing s with
    | nil => intro _; left; cases s <;> simp [position]
    | cons k j ih =>
      intro h
      cases s with
      | nil => cases h
      | cons n s =>
        simp only [inside, Bool.and_eq_true, decide_eq_true_eq] at h
        rcases ih h.2 with h1 | h1
        · left
          simp only [position, List.length_cons, List.drop_succ_cons, List.prod_cons]
          have : (k + 1) * s.prod ≤ n * s.prod := Nat.mul_le_mul_right _ h.1
          rw [Nat.succ_mul] at this
          omega
        · right; simpa using h1
  rcases this h with h1 | h1 <;> omega

theorem part_getElem? {A : Type} {s j i : List Nat} {l : List A} (h : inside s j = true) (hi : InShape (s.drop j.length) i) :
    (part s j l)[position (s.drop j.length) i]? = l[position s (j ++ i)]? := by
  unfold part
  rw [List.getElem?_take_of_lt (position_lt hi), List.getElem?_drop, position_append h]

theorem index_shows {a v : Val V ℝ D} {j s : List Nat} {f : List Nat → (V → ℝ) → ℝ} (ha : Shows vunits a.asArray s f) (he : Elementwise.index a j = .ok v) :
    Shows vunits v.asArray (s.drop j.length) (fun i => f (j ++ i)) := by
  cases a with
  | scalar i x => cases he
  | array a =>
    obtain ⟨rfl, ha2, ha3⟩ := ha
    simp only [Val.asArray] at ha2 ha3 ⊢
    simp only [Elementwise.index] at he
    split at he
    · rename_i hin
      have hlen := part_length (l := a.elts) ha2 hin
      have hel : ∀ i, InShape (a.shape.drop j.length) i → ∃ v, (part a.shape j a.elts)[position (a.shape.drop j.length) i]? = some v ∧
          Means vunits v (f (j ++ i)) := by
        intro i hi
        rw [part_getElem? hin hi]
        exact ha3 _ (inside_inShape hin hi)
      generalize a.shape.drop j.length = d at he hlen hel ⊢
      generalize part a.shape j a.elts = l at he hlen hel ⊢
      cases d with
      | nil =>
        cases l with
        | nil => cases he
        | cons w l =>
          cases he
          obtain ⟨w', hw, hm⟩ := hel [] .nil
          cases hw
          exact shows_scalar.2 ⟨rfl, hm⟩
      | cons n d =>
        cases he
        exact ⟨rfl, hlen, hel⟩
    · cases he

theorem Shows.phys {a : NArr (PyVal V ℝ D)} {s : List Nat} {f : List Nat → (V → ℝ) → ℝ} (h : Shows vunits a s f) (pt : V → ℝ) (hpt : ∀ v, 0 < pt v) :
    a.elts.map (fun e => e.phys pt) = (allIndices s).map (fun i => f i (physical vunits pt)) := by
  have := h.elts
  revert this
  generalize allIndices s = il
  generalize a.elts = l
  intro this
  induction this with
  | nil => rfl
  | cons hm _ ih => simp only [List.map_cons, ih, hm.2.2 pt hpt]

theorem Shows.forall {a : NArr (PyVal V ℝ D)} {s : List Nat} {f : List Nat → (V → ℝ) → ℝ} (h : Shows vunits a s f) : ∀ e ∈ a.elts, e.Good ∧ e.Tidy := by
  have := h.elts
  revert this
  generalize allIndices s = il
  generalize a.elts = l
  intro this
  induction this with
  | nil => simp
  | cons hm _ ih =>
    intro e he
    rcases List.mem_cons.1 he with rfl | he
    · exact ⟨hm.1, hm.2.1⟩
    · exact ih e he

theorem sum_shows {se : Bool} {a v : Val V ℝ D} {s : List Nat} {f : List Nat → (V → ℝ) → ℝ} (ha : Shows vunits a.asArray s f)
    (he : Elementwise.sum se a = .ok v) : Shows vunits v.asArray [] (fun _ x => ((allIndices s).map (fun i => f i x)).sum) := by
  cases a with
  | scalar i x => cases he
  | array a =>
    have hall : ∀ e ∈ a.elts, e.Good ∧ e.Tidy := Shows.forall (a := a) ha
    have hphys := Shows.phys (a := a) ha
    simp only [Elementwise.sum] at he
    split at he
    · obtain ⟨n, hn, rfl⟩ := map_ok he
      obtain ⟨g, p⟩ := arrSum_ok (fun e h => (hall e h).1) (fun e h => (hall e h).2) hn
      exact shows_scalar.2 ⟨rfl, g, p, fun pt hpt => by rw [C45_sum (fun e h => (hall e h).1) hn, hphys pt hpt]⟩
    · split at he
      · rename_i hnil
        cases he
        refine shows_scalar.2 ⟨rfl, by simp [PyVal.Good, UnitOK, unitScale], trivial, fun pt hpt => ?_⟩
        beta_reduce
        rw [← hphys pt hpt, hnil]
        simp [PyVal.phys]
      · rename_i x l hcons
        obtain ⟨r, hr, rfl⟩ := map_ok he
        rw [hcons] at hall
        obtain ⟨g, p⟩ := foldlM_ok (P := fun v => v.Good ∧ v.Tidy)
          (fun a b r ha hb hr => ⟨(pyAdd_ok ha.1 hb.1 hr).1, pyAdd_tidy ha.2 hb.2 hr⟩) l (hall x (by simp)) (fun e h => hall e (by simp [h])) hr
        refine shows_scalar.2 ⟨rfl, g, p, fun pt hpt => ?_⟩
        beta_reduce
        rw [← hphys pt hpt, hcons, Arr.addFold_ok l (hall x (by simp)).1 (fun e h => (hall e (by simp [h])).1) hr, List.map_cons, List.sum_cons]

theorem prod_shows {se : Bool} {a v : Val V ℝ D} {s : List Nat} {f : List Nat → (V → ℝ) → ℝ} (ha : Shows vunits a.asArray s f)
    (he : Elementwise.prod se a = .ok v) : Shows vunits v.asArray [] (fun _ x => ((allIndices s).map (fun i => f i x)).prod) := by
  cases a with
  | scalar i x => cases he
  | array a =>
    have hall : ∀ e ∈ a.elts, e.Good ∧ e.Tidy := Shows.forall (a := a) ha
    have hphys := Shows.phys (a := a) ha
    simp only [Elementwise.prod] at he
    split at he
    · obtain ⟨n, hn, rfl⟩ := map_ok he
      obtain ⟨g, p⟩ := arrProd_ok (fun e h => (hall e h).1) (fun e h => (hall e h).2) hn
      exact shows_scalar.2 ⟨rfl, g, p, fun pt hpt => by rw [C45_prod (fun e h => (hall e h).1) hn pt hpt, hphys pt hpt]⟩
    · split at he
      · rename_i hnil
        cases he
        refine shows_scalar.2 ⟨rfl, by simp [PyVal.Good, UnitOK, unitScale], trivial, fun pt hpt => ?_⟩
        beta_reduce
        rw [← hphys pt hpt, hnil]
        simp [PyVal.phys, unitScale]
      · rename_i x l hcons
        obtain ⟨r, hr, rfl⟩ := map_ok he
        rw [hcons] at hall
        obtain ⟨g, p⟩ := foldlM_ok (P := fun v => v.Good ∧ v.Tidy)
          (fun a b r ha hb hr => ⟨(pyMul_ok ha.1 hb.1 hr).1, pyMul_tidy ha.2 hb.2 hr⟩) l (hall x (by simp)) (fun e h => hall e (by simp [h])) hr
        refine shows_scalar.2 ⟨rfl, g, p, fun pt hpt => ?_⟩
        beta_reduce
        rw [← hphys pt hpt, hcons, Arr.mulFold_ok l (hall x (by simp)).1 (fun e h => (hall e (by simp [h])).1) hr pt hpt, List.map_cons, List.prod_cons]

theorem denote_sum (x : V → ℝ) : ∀ (l : List (Expr V)) (a : Expr V), (l.foldl .add a).denote x = a.denote x + (l.map (fun e => e.denote x)).sum
  | [], a => by simp
  | e :: l, a => by simp only [List.foldl_cons, denote_sum x l, Expr.denote, List.map_cons, List.sum_cons]; ring

theorem denote_prod (x : V → ℝ) : ∀ (l : List (Expr V)) (a : Expr V), (l.foldl .mul a).denote x = a.denote x * (l.map (fun e => e.denote x)).prod
  | [], a => by simp
  | e :: l, a => by simp only [List.foldl_cons, denote_prod x l, Expr.denote, List.map_cons, List.prod_cons]; ring

/-! ### Expressions -/

variable [Module ℝ D]

theorem means_build (hu : ∀ v, UnitOK (vunits v)) {se : Bool} {e : Expr V} {v : PyVal V ℝ D} (h : e.build se vunits = .ok v) :
    Means vunits v (fun x => e.denote x) := by
  obtain ⟨g, p⟩ := build_ok hu e h
  exact ⟨g, (build_canon hu e h).tidy, fun pt hpt => p pt hpt⟩

theorem build_shows (hu : ∀ v, UnitOK (vunits v)) {se : Bool} {e : AExpr V} {v : Val V ℝ D} (h : e.build se vunits = .ok v) :
    Shows vunits v.asArray e.shape (fun i x => (e.elem i).denote x) := by
  induction e generalizing v with
  | scalar int e =>
    obtain ⟨r, hr, rfl⟩ := map_ok h
    exact shows_scalar.2 ⟨rfl, means_build hu hr⟩
  | array nomial s f =>
    simp only [AExpr.build] at h
    cases hm : (Vectors.indices s).mapM (fun i => (f i).build se vunits) with
    | error e => rw [hm] at h; cases h
    | ok l =>
      rw [hm] at h
      simp only [Except.bind, objects] at h
      split at h
      · cases h
      · cases h
        rw [indices_eq] at hm
        refine shows_of_elts rfl ?_
        exact (mapM_hmaps hm).imp (fun i v hv => means_build hu hv)
  | numbers nomial int s f =>
    simp only [AExpr.build] at h
    split at h
    · cases h
    · cases h
      refine shows_of_elts rfl ?_
      rw [indices_eq]
      simp only [Val.asArray, AExpr.shape, List.forall₂_map_right_iff]
      refine List.forall₂_same.2 (fun i _ => ⟨by simp [PyVal.Good, UnitOK, unitScale], trivial, fun pt _ => ?_⟩)
      simp [PyVal.phys, unitScale, AExpr.elem, Expr.denote]
  | add a b iha ihb =>
    obtain ⟨x, h1, h2⟩ := except_bind_ok h
    obtain ⟨y, h3, h4⟩ := except_bind_ok h2
    exact add_shows (iha h1) (ihb h3) h4
  | sub a b iha ihb =>
    obtain ⟨x, h1, h2⟩ := except_bind_ok h
    obtain ⟨y, h3, h4⟩ := except_bind_ok h2
    exact sub_shows (iha h1) (ihb h3) h4
  | mul a b iha ihb =>
    obtain ⟨x, h1, h2⟩ := except_bind_ok h
    obtain ⟨y, h3, h4⟩ := except_bind_ok h2
    exact mul_shows (iha h1) (ihb h3) h4
  | div a b iha ihb =>
    obtain ⟨x, h1, h2⟩ := except_bind_ok h
    obtain ⟨y, h3, h4⟩ := except_bind_ok h2
    exact div_shows (iha h1) (ihb h3) h4
  | neg a iha =>
    obtain ⟨x, h1, h2⟩ := except_bind_ok h
    exact neg_shows (iha h1) h2
  | pow a x iha =>
    obtain ⟨y, h1, h2⟩ := except_bind_ok h
    exact pow_shows (iha h1) h2
  | index a j iha =>
    obtain ⟨x, h1, h2⟩ := except_bind_ok h
    exact index_shows (iha h1) h2
  | sum a iha =>
    obtain ⟨x, h1, h2⟩ := except_bind_ok h
    refine (sum_shows (iha h1) h2).congr (fun i _ => ?_)
    funext x
    simp only [AExpr.elem, denote_sum, Expr.denote, zero_add, List.map_map]
    rfl
  | prod a iha =>
    obtain ⟨x, h1, h2⟩ := except_bind_ok h
    refine (prod_shows (iha h1) h2).congr (fun i _ => ?_)
    funext x
    simp only [AExpr.elem, denote_prod, Expr.denote, one_mul, List.map_map]
    rfl

theorem both_forall {f : PyVal V ℝ D → PyVal V ℝ D → Except Err (PyVal V ℝ D)} {P : PyVal V ℝ D → Prop} (hf : ∀ x y z, f x y = .ok z → P z) {nomial : Bool}
    {kind : Kind} {a b : NArr (PyVal V ℝ D)} {v : Val V ℝ D} (h : elementwise nomial kind f a b = .ok v) : ∀ z ∈ v.asArray.elts, P z := by
  obtain ⟨r, hr, rfl⟩ := map_ok h
  unfold both at hr
  split at hr
  · cases hr
  · obtain ⟨l, hl, rfl⟩ := map_ok hr
    intro z hz
    obtain ⟨i, -, hi⟩ := (mapM_forall hl).2 z hz
    cases hx : a.pick i with
    | none => rw [hx] at hi; cases hi
    | some x =>
      cases hy : b.pick i with
      | none => rw [hx, hy] at hi; cases hi
      | some y => rw [hx, hy] at hi; exact hf x y z hi

theorem each_forall {f : PyVal V ℝ D → Except Err (PyVal V ℝ D)} {P : PyVal V ℝ D → Prop} (hf : ∀ x z, f x = .ok z → P z) {kind : Kind}
    {a b : NArr (PyVal V ℝ D)} (h : each kind f a = .ok b) : ∀ z ∈ b.elts, P z := by
  obtain ⟨l, hl, rfl⟩ := map_ok h
  intro z hz
  obtain ⟨x, -, hx⟩ := (mapM_forall hl).2 z hz
  exact hf x z hx

theorem add_allPos {a b v : Val V ℝ D} (h : Elementwise.add false a b = .ok v) : ∀ z ∈ v.asArray.elts, z.Pos := by
  have key : (if a.asArray.nomial then elementwise true (a.asArray.kind.join b.asArray.kind) (PyVal.add false) a.asArray b.asArray
    else if b.asArray.nomial then elementwise true (b.asArray.kind.join a.asArray.kind) (PyVal.add false) b.asArray a.asArray
    else elementwise false (a.asArray.kind.join b.asArray.kind) (PyVal.add false) a.asArray b.asArray) = .ok v → ∀ z ∈ v.asArray.elts, z.Pos := by
    intro h
    split at h
    · exact both_forall (fun _ _ _ => pyAdd_pos) h
    · split at h <;> exact both_forall (fun _ _ _ => pyAdd_pos) h
  cases a with
  | scalar i x =>
    cases b with
    | scalar j y =>
      obtain ⟨r, hr, rfl⟩ := map_ok h
      simpa [Val.asArray] using pyAdd_pos hr
    | array b => exact key h
  | array a => cases b <;> exact key h

theorem mul_allPos {a b v : Val V ℝ D} (h : Elementwise.mul false a b = .ok v) : ∀ z ∈ v.asArray.elts, z.Pos := by
  have key : (if a.asArray.nomial then elementwise true (a.asArray.kind.join b.asArray.kind) (PyVal.mul false) a.asArray b.asArray
    else if b.asArray.nomial then elementwise true (b.asArray.kind.join a.asArray.kind) (PyVal.mul false) b.asArray a.asArray
    else elementwise false (a.asArray.kind.join b.asArray.kind) (PyVal.mul false) a.asArray b.asArray) = .ok v → ∀ z ∈ v.asArray.elts, z.Pos := by
    intro h
    split at h
    · exact both_forall (fun _ _ _ => pyMul_pos) h
    · split at h <;> exact both_forall (fun _ _ _ => pyMul_pos) h
  cases a with
  | scalar i x =>
    cases b with
    | scalar j y =>
      obtain ⟨r, hr, rfl⟩ := map_ok h
      simpa [Val.asArray] using pyMul_pos hr
    | array b =>
      cases x with
      | num q => exact key h
      | nom n => exact both_forall (fun _ _ _ => pyMul_pos) h
  | array a => cases b <;> exact key h

theorem sub_allPos {a b v : Val V ℝ D} (h : Elementwise.sub false a b = .ok v) : ∀ z ∈ v.asArray.elts, z.Pos := by
  cases a with
  | scalar i x =>
    cases b with
    | scalar j y =>
      obtain ⟨r, hr, rfl⟩ := map_ok h
      simpa [Val.asArray] using pySub_pos hr
    | array b =>
      cases x with
      | num q => exact both_forall (fun _ _ _ => pySub_pos) h
      | nom n => exact both_forall (fun _ _ _ => pySub_pos) h
  | array a => cases b <;> exact both_forall (fun _ _ _ => pySub_pos) h

theorem divElt_pos {kind : Kind} {x y z : PyVal V ℝ D} (h : divElt false kind x y = .ok z) : z.Pos := by
  unfold divElt at h
  split at h
  · split at h
    · cases h
    · exact pyDiv_pos h
  · exact pyDiv_pos h

theorem powElt_pos {kind : Kind} {e : PyExpo ℝ} {x z : PyVal V ℝ D} (h : powElt false kind e x = .ok z) : z.Pos := by
  unfold powElt at h
  split at h
  · exact pyPow_pos h
  · split at h
    · cases h
    · exact pyPow_pos h
  · split at h
    · exact pyPow_pos h
    · cases h

theorem div_allPos {a b v : Val V ℝ D} (h : Elementwise.div false a b = .ok v) : ∀ z ∈ v.asArray.elts, z.Pos := by
  have key : (if a.asArray.nomial then
      elementwise true (a.asArray.kind.quotient b.asArray.kind) (divElt false (a.asArray.kind.join b.asArray.kind)) a.asArray b.asArray
    else if b.asArray.nomial then do
      let p ← powArr false b.asArray (.int (-1))
      elementwise true (p.kind.join a.asArray.kind) (PyVal.mul false) p a.asArray
    else elementwise false (a.asArray.kind.quotient b.asArray.kind) (divElt false (a.asArray.kind.join b.asArray.kind)) a.asArray b.asArray) = .ok v →
      ∀ z ∈ v.asArray.elts, z.Pos := by
    intro h
    split at h
    · exact both_forall (fun _ _ _ => divElt_pos) h
    · split at h
      · obtain ⟨p, h1, h2⟩ := except_bind_ok h
        exact both_forall (fun _ _ _ => pyMul_pos) h2
      · exact both_forall (fun _ _ _ => divElt_pos) h
  cases a with
  | scalar i x =>
    cases b with
    | scalar j y =>
      obtain ⟨r, hr, rfl⟩ := map_ok h
      simpa [Val.asArray] using pyDiv_pos hr
    | array b => exact key h
  | array a => cases b <;> exact key h

/-- Outside of `SignomialsEnabled` all coefficients are positive. -/
theorem build_allPos {e : AExpr V} {v : Val V ℝ D} (h : e.build false vunits = .ok v) : ∀ z ∈ v.asArray.elts, z.Pos := by
  induction e generalizing v with
  | scalar int e =>
    obtain ⟨r, hr, rfl⟩ := map_ok h
    simpa [Val.asArray] using build_pos e hr
  | array nomial s f =>
    simp only [AExpr.build] at h
    cases hm : (Vectors.indices s).mapM (fun i => (f i).build false vunits) with
    | error e => rw [hm] at h; cases h
    | ok l =>
      rw [hm] at h
      simp only [Except.bind, objects] at h
      split at h
      · cases h
      · cases h
        intro z hz
        obtain ⟨i, -, hi⟩ := (mapM_forall hm).2 z hz
        exact build_pos _ hi
  | numbers nomial int s f =>
    simp only [AExpr.build] at h
    split at h
    · cases h
    · cases h
      intro z hz
      obtain ⟨i, -, rfl⟩ := List.mem_map.1 hz
      trivial
  | add a b iha ihb =>
    obtain ⟨x, h1, h2⟩ := except_bind_ok h
    obtain ⟨y, h3, h4⟩ := except_bind_ok h2
    exact add_allPos h4
  | sub a b iha ihb =>
    obtain ⟨x, h1, h2⟩ := except_bind_ok h
    obtain ⟨y, h3, h4⟩ := except_bind_ok h2
    exact sub_allPos h4
  | mul a b iha ihb =>
    obtain ⟨x, h1, h2⟩ := except_bind_ok h
    obtain ⟨y, h3, h4⟩ := except_bind_ok h2
    exact mul_allPos h4
  | div a b iha ihb =>
    obtain ⟨x, h1, h2⟩ := except_bind_ok h
    obtain ⟨y, h3, h4⟩ := except_bind_ok h2
    exact div_allPos h4
  | neg a iha =>
    obtain ⟨x, h1, h2⟩ := except_bind_ok h
    cases x with
    | scalar i y =>
      obtain ⟨r, hr, rfl⟩ := map_ok h2
      simpa [Val.asArray] using pyNeg_pos hr
    | array a =>
      obtain ⟨r, hr, rfl⟩ := map_ok h2
      exact each_forall (fun _ _ => pyNeg_pos) hr
  | pow a x iha =>
    obtain ⟨y, h1, h2⟩ := except_bind_ok h
    cases y with
    | scalar i y =>
      obtain ⟨r, hr, rfl⟩ := map_ok h2
      simpa [Val.asArray] using pyPow_pos hr
    | array a =>
      obtain ⟨r, hr, rfl⟩ := map_ok h2
      exact each_forall (fun _ _ => powElt_pos) hr
  | index a j iha =>
    obtain ⟨x, h1, h2⟩ := except_bind_ok h
    have hx := iha h1
    cases x with
    | scalar i y => cases h2
    | array a =>
      simp only [Elementwise.index] at h2
      have hp : ∀ z ∈ part a.shape j a.elts, z.Pos := fun z hz => hx z (List.drop_subset _ _ (List.take_subset _ _ hz))
      split at h2
      · generalize a.shape.drop j.length = d at h2
        generalize part a.shape j a.elts = l at h2 hp
        cases d with
        | nil =>
          cases l with
          | nil => cases h2
          | cons w l => cases h2; simpa [Val.asArray] using hp w (by simp)
        | cons n d => cases h2; exact hp
      · cases h2
  | sum a iha =>
    obtain ⟨x, h1, h2⟩ := except_bind_ok h
    have hx := iha h1
    cases x with
    | scalar i y => cases h2
    | array a =>
      simp only [Elementwise.sum] at h2
      split at h2
      · obtain ⟨n, hn, rfl⟩ := map_ok h2
        have : (PyVal.nom n).Pos := arrSum_pos hn
        simpa [Val.asArray] using this
      · split at h2
        · cases h2
          simp [Val.asArray, PyVal.Pos]
        · rename_i x l hcons
          obtain ⟨r, hr, rfl⟩ := map_ok h2
          have hx' : ∀ z ∈ a.elts, z.Pos := hx
          rw [hcons] at hx'
          have := foldlM_ok (P := PyVal.Pos) (fun a b r _ _ hr => pyAdd_pos hr) l (hx' x (by simp)) (fun e he => hx' e (by simp [he])) hr
          simpa [Val.asArray] using this
  | prod a iha =>
    obtain ⟨x, h1, h2⟩ := except_bind_ok h
    have hx := iha h1
    cases x with
    | scalar i y => cases h2
    | array a =>
      simp only [Elementwise.prod] at h2
      split at h2
      · obtain ⟨n, hn, rfl⟩ := map_ok h2
        simpa [Val.asArray] using arrProd_pos hx hn
      · split at h2
        · cases h2
          simp [Val.asArray, PyVal.Pos]
        · rename_i x l hcons
          obtain ⟨r, hr, rfl⟩ := map_ok h2
          have hx' : ∀ z ∈ a.elts, z.Pos := hx
          rw [hcons] at hx'
          have := foldlM_ok (P := PyVal.Pos) (fun a b r _ _ hr => pyMul_pos hr) l (hx' x (by simp)) (fun e he => hx' e (by simp [he])) hr
          simpa [Val.asArray] using this

/-! ### Comparisons -/

open Compare Pipeline

theorem swapped_holds (rel : Rel) (s l r : ℝ) : (swapped rel).Holds s r l ↔ rel.Holds s l r := by
  cases rel
  · rfl
  · rfl
  · exact and_comm

theorem vectorized_cons {se : Bool} {l : List (Made V ℝ D)} {m : Compared V ℝ D} {cs : List (Con V D)} (h : vectorized l = .ok m) (hc : m.cons se = .ok cs) :
    l.mapM (toCon se) = .ok cs := by
  unfold vectorized at h
  split at h
  · cases h
  · cases h; cases hc
  · cases h; exact hc

/-- What comes of the elements of two arrays that are compared. -/
theorem both_cons {se : Bool} {feastol : ℝ} {approx : PyVal V ℝ D → Except Err Unit} {isvar : PyVal V ℝ D → Bool} {rel : Rel} {a b : NArr (PyVal V ℝ D)}
    {s t : List Nat} {f h : List Nat → (V → ℝ) → ℝ} (ha : Shows vunits a s f) (hb : Shows vunits b t h) {r : List Nat × List (Made V ℝ D)}
    {cs : List (Con V D)} (hr : both (compare1 se feastol approx isvar rel) a b = .ok r) (hc : r.2.mapM (toCon se) = .ok cs) :
    Fits s t ∧ List.Forall₂ (fun i c => ∃ x y m, Means vunits x (f (toward s i)) ∧ Means vunits y (h (toward t i)) ∧
      related se feastol approx rel (isvar x, isvar y) x y = .ok m ∧ toCon se m = .ok c) (allIndices (joint s t)) cs := by
  obtain ⟨e0, e1, e2, e3⟩ := both_ok (s := r.1) (l := r.2) hr
  rw [ha.1, hb.1] at e0 e1
  obtain ⟨m1, m2⟩ := mapM_getElem? hc
  refine ⟨e0, List.forall₂_iff_get.2 ⟨by rw [length_indices, ← e1, m1, e2], fun k h1 h2 => ?_⟩⟩
  have hi := mem_allIndices.1 (List.getElem_mem h1)
  obtain ⟨i1, i2, x, y, z, hx, hy, hz, hzl⟩ := e3 _ (by rw [e1]; exact hi)
  rw [ha.1] at i1 hx
  rw [hb.1] at i2 hy
  obtain ⟨x', hx', mx⟩ := ha.2.2 _ i1
  obtain ⟨y', hy', my⟩ := hb.2.2 _ i2
  rw [hx] at hx'
  rw [hy] at hy'
  cases hx'
  cases hy'
  rw [e1, getElem_position h1] at hzl
  obtain ⟨c, hc1, hc2⟩ := m2 k z hzl
  rw [List.getElem?_eq_getElem h2] at hc1
  cases hc1
  exact ⟨x, y, z, mx, my, hz, hc2⟩

/-- The constraints of a comparison are made, in order, from the values that stand at each index. -/
theorem cons_ok (hu : ∀ v, UnitOK (vunits v)) {se : Bool} {feastol : ℝ} {approx : PyVal V ℝ D → Except Err Unit} {isvar : PyVal V ℝ D → Bool}
    {st : AStmt V} {cs : List (Con V D)} (h : st.cons se feastol approx isvar vunits = .ok cs) :
    List.Forall₂ (fun i c => ∃ x y rel m, related se feastol approx rel (isvar x, isvar y) x y = .ok m ∧ toCon se m = .ok c ∧
      ((rel = st.rel ∧ Means vunits x (fun p => ((st.elem i).left).denote p) ∧ Means vunits y (fun p => ((st.elem i).right).denote p)) ∨
        (rel = swapped st.rel ∧ Means vunits x (fun p => ((st.elem i).right).denote p) ∧ Means vunits y (fun p => ((st.elem i).left).denote p))))
      (allIndices st.shape) cs := by
  unfold AStmt.cons at h
  obtain ⟨m, hm, hc⟩ := except_bind_ok h
  unfold AStmt.make at hm
  obtain ⟨l, hl, h1⟩ := except_bind_ok hm
  obtain ⟨r, hr, h2⟩ := except_bind_ok h1
  have sl := build_shows hu hl
  have sr := build_shows hu hr
  have arr : ∀ (rel : Rel) (a b : NArr (PyVal V ℝ D)) (s t : List Nat) (f g : List Nat → (V → ℝ) → ℝ), Shows vunits a s f → Shows vunits b t g →
      arrayConstraint se feastol approx isvar rel a b = .ok m →
      Fits s t ∧ List.Forall₂ (fun i c => ∃ x y m, Means vunits x (f (toward s i)) ∧ Means vunits y (g (toward t i)) ∧
        related se feastol approx rel (isvar x, isvar y) x y = .ok m ∧ toCon se m = .ok c) (allIndices (joint s t)) cs := by
    intro rel a b s t f g ha hb hh
    unfold arrayConstraint at hh
    split at hh
    · cases hh
    · split at hh
      · cases hh
      · cases hbo : both (compare1 se feastol approx isvar rel) a b with
        | error e => rw [hbo] at hh; cases hh
        | ok r =>
          rw [hbo] at hh
          exact both_cons ha hb hbo (vectorized_cons hh hc)
  have key : (if l.asArray.nomial then arrayConstraint se feastol approx isvar st.rel l.asArray r.asArray
    else if r.asArray.nomial then arrayConstraint se feastol approx isvar (swapped st.rel) r.asArray l.asArray
    else (both (compare1 se feastol approx isvar st.rel) l.asArray r.asArray).map (fun _ => .bools)) = .ok m →
    List.Forall₂ (fun i c => ∃ x y rel m, related se feastol approx rel (isvar x, isvar y) x y = .ok m ∧ toCon se m = .ok c ∧
      ((rel = st.rel ∧ Means vunits x (fun p => ((st.elem i).left).denote p) ∧ Means vunits y (fun p => ((st.elem i).right).denote p)) ∨
        (rel = swapped st.rel ∧ Means vunits x (fun p => ((st.elem i).right).denote p) ∧ Means vunits y (fun p => ((st.elem i).left).denote p))))
      (allIndices st.shape) cs := by
    intro hh
    split at hh
    · obtain ⟨-, hf⟩ := arr _ _ _ _ _ _ _ sl sr hh
      exact hf.imp (fun i c ⟨x, y, m, mx, my, h1, h2⟩ => ⟨x, y, _, m, h1, h2, .inl ⟨rfl, mx, my⟩⟩)
    · split at hh
      · obtain ⟨hfit, hf⟩ := arr _ _ _ _ _ _ _ sr sl hh
        unfold AStmt.shape
        rw [joint_comm hfit]
        exact hf.imp (fun i c ⟨x, y, m, mx, my, h1, h2⟩ => ⟨x, y, _, m, h1, h2, .inr ⟨rfl, mx, my⟩⟩)
      · obtain ⟨_, -, rfl⟩ := map_ok hh
        cases hc
  cases hlv : l with
  | scalar i x =>
    cases hrv : r with
    | scalar j y =>
      rw [hlv] at sl h2
      rw [hrv] at sr h2
      obtain ⟨ls, mx⟩ := shows_scalar.1 sl
      obtain ⟨rs, my⟩ := shows_scalar.1 sr
      obtain ⟨o, ho, rfl⟩ := map_ok h2
      obtain ⟨c, hc', rfl⟩ := map_ok hc
      have hs : st.shape = [] := by
        unfold AStmt.shape
        rw [ls, rs]
        rfl
      rw [hs]
      refine .cons ⟨x, y, st.rel, o, ho, hc', .inl ⟨rfl, ?_, ?_⟩⟩ .nil
      · simpa only [AStmt.elem, ls, toward_nil] using mx
      · simpa only [AStmt.elem, rs, toward_nil] using my
    | array b => rw [hlv, hrv] at h2 key; exact key h2
  | array a =>
    rw [hlv] at h2 key
    cases hrv : r with
    | scalar j y => rw [hrv] at h2 key; exact key h2
    | array b => rw [hrv] at h2 key; exact key h2

theorem elem_holds {se : Bool} {feastol : ℝ} {approx : PyVal V ℝ D → Except Err Unit} {isvar : Bool × Bool} {st : Stmt V} {c : Con V D} {x y : PyVal V ℝ D}
    {rel : Rel} {m : Made V ℝ D} (h1 : related se feastol approx rel isvar x y = .ok m) (h2 : toCon se m = .ok c)
    (h3 : (rel = st.rel ∧ Means vunits x (fun p => st.left.denote p) ∧ Means vunits y (fun p => st.right.denote p)) ∨
        (rel = swapped st.rel ∧ Means vunits x (fun p => st.right.denote p) ∧ Means vunits y (fun p => st.left.denote p)))
    (s : ℝ) (pt : V → ℝ) (hpt : ∀ v, 0 < pt v) : c.Holds s pt ↔ st.Holds s (physical vunits pt) := by
  rcases h3 with ⟨rfl, mx, my⟩ | ⟨rfl, mx, my⟩
  · rw [related_ok mx.1 my.1 h1 h2 s pt, mx.2.2 pt hpt, my.2.2 pt hpt]
    rfl
  · rw [related_ok mx.1 my.1 h1 h2 s pt, mx.2.2 pt hpt, my.2.2 pt hpt, swapped_holds]
    rfl

/-- Each constraint of a comparison is one that C60 speaks of. -/
theorem elem_con {se : Bool} {feastol : ℝ} {approx : PyVal V ℝ D → Except Err Unit} {isvar : Bool × Bool} {st : Stmt V} {c : Con V D} {x y : PyVal V ℝ D}
    {rel : Rel} {m : Made V ℝ D} (h1 : related se feastol approx rel isvar x y = .ok m) (h2 : toCon se m = .ok c)
    (h3 : (rel = st.rel ∧ Means vunits x (fun p => st.left.denote p) ∧ Means vunits y (fun p => st.right.denote p)) ∨
        (rel = swapped st.rel ∧ Means vunits x (fun p => st.right.denote p) ∧ Means vunits y (fun p => st.left.denote p)))
    (ha : Attainable se vunits st) (hcl : Unharmed c) : ConOK c := by
  have hh := elem_holds h1 h2 h3
  have sat : se = false ∨ ∃ pt : V → ℝ, (∀ v, 0 < pt v) ∧ c.Holds 1 pt := ha.imp id (fun ⟨pt, hpt, h1, _⟩ => ⟨pt, hpt, (hh 1 pt hpt).2 h1⟩)
  rcases h3 with ⟨rfl, mx, my⟩ | ⟨rfl, mx, my⟩
  · exact related_con mx.1 my.1 mx.2.1 my.2.1 (ha.imp id (fun ⟨pt, hpt, _, h1, _⟩ => ⟨pt, by rw [mx.2.2 pt hpt]; exact h1⟩))
      (ha.imp id (fun ⟨pt, hpt, _, _, h1⟩ => ⟨pt, by rw [my.2.2 pt hpt]; exact h1⟩)) sat h1 h2 hcl
  · exact related_con mx.1 my.1 mx.2.1 my.2.1 (ha.imp id (fun ⟨pt, hpt, _, _, h1⟩ => ⟨pt, by rw [mx.2.2 pt hpt]; exact h1⟩))
      (ha.imp id (fun ⟨pt, hpt, _, h1, _⟩ => ⟨pt, by rw [my.2.2 pt hpt]; exact h1⟩)) sat h1 h2 hcl

end Elementwise

open Elementwise Written Pipeline
variable {V D : Type} [DecidableEq V] [AddCommGroup D] [DecidableEq D] [Module ℝ D]

/-- C74, values: what Python computes for an expression with arrays has the shape of the expression, and its elements, in order, have the values of the
expressions one would write for each element alone, at every point. Holds for operands of all shapes that numpy accepts, in any order, with and without units. -/
theorem C74_value {vunits : V → Option (UnitQ D ℝ)} (hu : ∀ v, UnitOK (vunits v)) {se : Bool} {e : AExpr V} {v : Val V ℝ D} (h : e.build se vunits = .ok v) :
    v.asArray.shape = e.shape ∧
    List.Forall₂ (fun i y => ∀ pt, (∀ v, 0 < pt v) → y.phys pt = (e.elem i).denote (physical vunits pt)) (allIndices e.shape) v.asArray.elts :=
  ⟨(build_shows hu h).1, (build_shows hu h).elts.imp (fun _ _ hm => hm.2.2)⟩

/-- C74, constraints: the constraints a model takes from a comparison with arrays are, in order, one for each index of its shape, and each holds exactly where
the comparison of the elements at that index does, with all factors to spare. -/
theorem C74_elements {vunits : V → Option (UnitQ D ℝ)} (hu : ∀ v, UnitOK (vunits v)) {se : Bool} {feastol : ℝ} {approx : PyVal V ℝ D → Except Err Unit}
    {isvar : PyVal V ℝ D → Bool} {st : AStmt V} {cs : List (Con V D)} (h : st.cons se feastol approx isvar vunits = .ok cs) :
    List.Forall₂ (fun i c => ∀ s pt, (∀ v, 0 < pt v) → (c.Holds s pt ↔ (st.elem i).Holds s (physical vunits pt))) (allIndices st.shape) cs :=
  (cons_ok hu h).imp (fun _ _ ⟨_, _, _, _, h1, h2, h3⟩ => elem_holds h1 h2 h3)

/-- C74, constraints: the constraints a model takes from a comparison with arrays hold, all of them, exactly where the comparison does. -/
theorem C74_meaning {vunits : V → Option (UnitQ D ℝ)} (hu : ∀ v, UnitOK (vunits v)) {se : Bool} {feastol : ℝ} {approx : PyVal V ℝ D → Except Err Unit}
    {isvar : PyVal V ℝ D → Bool} {st : AStmt V} {cs : List (Con V D)} (h : st.cons se feastol approx isvar vunits = .ok cs) (s : ℝ) (pt : V → ℝ)
    (hpt : ∀ v, 0 < pt v) : (∀ c ∈ cs, c.Holds s pt) ↔ st.Holds s (physical vunits pt) := by
  have h1 := C74_elements hu h
  have : ∀ {l : List (List Nat)} {cs : List (Con V D)},
      List.Forall₂ (fun i c => ∀ s pt, (∀ v, 0 < pt v) → (c.Holds s pt ↔ (st.elem i).Holds s (physical vunits pt))) l cs →
      ((∀ c ∈ cs, c.Holds s pt) ↔ ∀ i ∈ l, (st.elem i).Holds s (physical vunits pt)) := by
    intro l cs hf
    induction hf with
    | nil => simp
    | cons hab _ ih => simp only [List.forall_mem_cons, ih, hab s pt hpt]
  rw [this h1]
  exact forall_congr' (fun i => by rw [mem_allIndices])

/-! ### Whole models -/

open Building in
/-- What C74 asks of a model: as `Sound`, for each element of a statement. -/
structure Elementwise.Sound (S : Setting V D (AStmt V)) (isvar : PyVal V ℝ D → Bool) (cost : AExpr V) (tree : Building.Expr V ℝ (AStmt V)) : Prop where
  feastol : 0 ≤ S.feastol
  ord : S.ord.Valid
  units : ∀ v, UnitOK (S.vunits v)
  isSet : tree.isSet
  fair : Fair tree
  values : ∀ k w, GivenValue S tree k w → 0 < w
  cost : ∃ x : V → ℝ, (∀ v, 0 < x v) ∧ (cost.elem []).denote (physical S.vunits x) ≠ 0
  attainable : ∀ st, Writes st tree → ∀ i, InShape st.shape i → Attainable (S.enabled st) S.vunits (st.elem i)
  unharmed : ∀ st l, Writes st tree → st.cons (S.enabled st) S.feastol S.approx isvar S.vunits = .ok l → ∀ c ∈ l, Unharmed c

open Building in
theorem Elementwise.Sound.model {S : Setting V D (AStmt V)} {isvar : PyVal V ℝ D → Bool} {cost : AExpr V} {tree : Building.Expr V ℝ (AStmt V)}
    (hS : Elementwise.Sound S isvar cost tree) :
    Model S (fun st => st.cons (S.enabled st) S.feastol S.approx isvar S.vunits) (fun st s pt => st.Holds s (physical S.vunits pt))
      ((cost.build false S.vunits).bind theScalar) (fun pt => (cost.elem []).denote (physical S.vunits pt)) tree where
  feastol := hS.feastol
  ord := hS.ord
  isSet := hS.isSet
  fair := hS.fair
  values := fun k w h => (hS.values k w h).le
  cost := by
    intro n hx
    obtain ⟨v, h1, h2⟩ := except_bind_ok hx
    cases v with
    | array a => cases h2
    | scalar i v =>
      cases h2
      obtain ⟨-, g, p, hv⟩ := shows_scalar.1 (build_shows hS.units h1)
      have hp : n.AllPos := build_allPos h1 (.nom n) (by simp [Val.asArray])
      refine ⟨(termsCanonical_iff _).2 ⟨p.1, fun t ht => (hp t ht).ne', p.2⟩, ?_, g.1, fun pt hpt => hv pt (hpt.pos hS.values)⟩
      obtain ⟨pt, hpt, hne⟩ := hS.cost
      intro h0
      apply hne
      refine (hv pt hpt).symm.trans ?_
      simp [PyVal.phys, physVal, h0]
  cons := by
    intro st l hw hl
    refine ⟨?_, fun s pt hpt => C74_meaning hS.units hl s pt (hpt.pos hS.values)⟩
    have h1 := cons_ok hS.units hl
    have h2 := hS.unharmed st l hw hl
    have h3 : ∀ i ∈ allIndices st.shape, Attainable (S.enabled st) S.vunits (st.elem i) := fun i hi => hS.attainable st hw i (mem_allIndices.1 hi)
    revert h1 h2 h3
    generalize allIndices st.shape = il
    intro h1 h2 h3
    clear hl
    induction h1 with
    | nil => simp
    | cons hab _ ih =>
      obtain ⟨x, y, rel, m, e1, e2, e3⟩ := hab
      intro c hc
      rcases List.mem_cons.1 hc with rfl | hc
      · exact ⟨elem_con e1 e2 e3 (h3 _ (by simp)) (h2 _ (by simp)), fun pt hpt => posSides_of_pos (hpt.pos hS.values) _⟩
      · exact ih (fun c hc => h2 c (by simp [hc])) (fun i hi => h3 i (by simp [hi])) c hc

open Building in
/-- C74, feasibility: if making and solving a model with arrays returns without a warning, then at the values returned every comparison that is written in
the model is true at every index, for the physical values of the variables and up to the tolerances; every variable that was given one value has it; and the
cost returned is that of these values, in the units of the cost. Missing: see `Sound`. -/
theorem C74_solution_partial {S : Setting V D (AStmt V)} {isvar : PyVal V ℝ D → Bool} {cost : AExpr V} {tree : Building.Expr V ℝ (AStmt V)}
    (hS : Elementwise.Sound S isvar cost tree) {r : Result V} (h : Elementwise.run S isvar cost tree = .ok (r, true)) :
    (∀ k w, GivenValue S tree k w → ∃ w', GivenValue S tree k w' ∧ r.vars.get? k = some w') ∧
    (∀ v c, r.vars.get? v = some c → 0 < c) ∧
    ∃ u, 0 < u ∧ ∀ pt : V → ℝ, (∀ v, 0 < pt v) → Agrees pt r.vars →
      (∀ st, Writes st tree → st.Holds (1 + max S.feastol S.tol) (physical S.vunits pt)) ∧
      Close S.tol S.abstol ((cost.elem []).denote (physical S.vunits pt) / u) r.cost :=
  let ⟨h1, h2, u, hu, h3⟩ := run_feasible hS.model h
  ⟨h1, fun v c hv => (h2 v c hv).elim id (fun h => absurd (hS.values v 0 h.2) (lt_irrefl _)), u, hu, fun pt hpt => h3 pt (proper_of_pos hpt)⟩

open Building in
/-- C74, optimality: if the check is exact, no point at which every comparison in the model is true at every index and every variable has the values that
were given for it costs less than what is returned. Missing: see `Sound`. -/
theorem C74_optimal_partial {S : Setting V D (AStmt V)} {isvar : PyVal V ℝ D → Bool} {cost : AExpr V} {tree : Building.Expr V ℝ (AStmt V)}
    (hS : Elementwise.Sound S isvar cost tree) (htol : S.tol = 0) (habs : S.abstol = 0)
    (hopt : ∀ d out l, S.optimize d = .ok out → out.dual = .la l → l.length = d.mIdxs.length ∨ l.length + 1 = d.mIdxs.length) {r : Result V}
    (h : Elementwise.run S isvar cost tree = .ok (r, true)) :
    ∃ u, 0 < u ∧ (∀ pt : V → ℝ, (∀ v, 0 < pt v) → Agrees pt r.vars → r.cost * u = (cost.elem []).denote (physical S.vunits pt)) ∧
    ∀ pt : V → ℝ, (∀ v, 0 < pt v) → (∀ k w, GivenValue S tree k w → pt k = w) →
      (∀ st, Writes st tree → st.Holds 1 (physical S.vunits pt)) → r.cost * u ≤ (cost.elem []).denote (physical S.vunits pt) :=
  let ⟨u, hu, h1, h2⟩ := run_optimal hS.model htol habs hopt h
  ⟨u, hu, fun pt hpt => h1 pt (proper_of_pos hpt), fun pt hpt => h2 pt (proper_of_pos hpt)⟩

/-! ### What is accepted -/

namespace Elementwise

theorem inShape_inside : ∀ {s i : List Nat}, InShape s i → inside s i = true ∧ s.drop i.length = []
  | [], _, h => by cases h; exact ⟨rfl, rfl⟩
  | n :: s, _, h => by
    cases h with
    | cons hk h =>
      obtain ⟨h1, h2⟩ := inShape_inside h
      exact ⟨by simp [inside, hk, h1], by simpa using h2⟩

/-- `a[i]` is the element at that index. -/
theorem index_at {a : NArr (PyVal V ℝ D)} {i : List Nat} {x : PyVal V ℝ D} (hi : InShape a.shape i) :
    Elementwise.index (.array a) i = .ok (.scalar (a.kind = .int) x) ↔ a.elts[position a.shape i]? = some x := by
  obtain ⟨h1, h2⟩ := inShape_inside hi
  have h3 : (part a.shape i a.elts)[0]? = a.elts[position a.shape i]? := by
    unfold part
    rw [h2, List.prod_nil, List.getElem?_take_of_lt one_pos, List.getElem?_drop, Nat.add_zero]
  simp only [Elementwise.index, h1, if_true, h2]
  rw [← h3]
  cases part a.shape i a.elts with
  | nil => simp
  | cons y l => simp

theorem both_iff {f : PyVal V ℝ D → PyVal V ℝ D → Except Err (PyVal V ℝ D)} {a b : NArr (PyVal V ℝ D)} (ha : a.elts.length = a.shape.prod)
    (hb : b.elts.length = b.shape.prod) {nomial : Bool} {kind : Kind} :
    (∃ v, elementwise nomial kind f a b = .ok v) ↔ Fits a.shape b.shape ∧ ∀ i, InShape (joint a.shape b.shape) i → ∀ x y,
      Elementwise.index (.array a) (toward a.shape i) = .ok (.scalar (a.kind = .int) x) →
      Elementwise.index (.array b) (toward b.shape i) = .ok (.scalar (b.kind = .int) y) → ∃ z, f x y = .ok z := by
  constructor
  · rintro ⟨v, hv⟩
    obtain ⟨⟨s, l⟩, hr, -⟩ := map_ok hv
    obtain ⟨h1, rfl, h2, h3⟩ := both_ok hr
    refine ⟨h1, fun i hi x y hx hy => ?_⟩
    obtain ⟨ia, ib, x', y', z, hx', hy', hz, -⟩ := h3 i hi
    rw [index_at ia, hx'] at hx
    rw [index_at ib, hy'] at hy
    cases hx
    cases hy
    exact ⟨z, hz⟩
  · rintro ⟨h1, h2⟩
    obtain ⟨r, hr⟩ := both_total (f := f) (a := a) (b := b) h1 (by
      intro i hi
      obtain ⟨u, hu⟩ := fits_iff.1 h1
      obtain ⟨-, -, ia, ib⟩ := toward_inShape hu hi
      have hx := List.getElem?_eq_getElem (l := a.elts) (by rw [ha]; exact position_lt ia)
      have hy := List.getElem?_eq_getElem (l := b.elts) (by rw [hb]; exact position_lt ib)
      obtain ⟨z, hz⟩ := h2 i hi _ _ ((index_at ia).2 hx) ((index_at ib).2 hy)
      exact ⟨_, _, z, hx, hy, hz⟩)
    unfold elementwise
    rw [hr]
    exact ⟨_, rfl⟩

end Elementwise

/-- C74, acceptance: `a + b`, `a * b` and `a - b` raise nothing exactly if the shapes fit and the operator raises nothing for the elements at each index of the
result. Missing: division (see `C74_integers_fails`), and operands that are no `NomialArray`s. -/
theorem C74_accepts_partial {se : Bool} {a b : NArr (PyVal V ℝ D)} (ha : a.elts.length = a.shape.prod) (hb : b.elts.length = b.shape.prod)
    (hn : a.nomial = true) {op : Val V ℝ D → Val V ℝ D → Except Err (Val V ℝ D)} {op1 : PyVal V ℝ D → PyVal V ℝ D → Except Err (PyVal V ℝ D)}
    (hop : (op, op1) ∈ [(Elementwise.add se, PyVal.add se), (Elementwise.mul se, PyVal.mul se), (Elementwise.sub se, PyVal.sub se)]) :
    (∃ v, op (.array a) (.array b) = .ok v) ↔ Fits a.shape b.shape ∧ ∀ i, InShape (joint a.shape b.shape) i → ∀ x y,
      Elementwise.index (.array a) (toward a.shape i) = .ok (.scalar (a.kind = .int) x) →
      Elementwise.index (.array b) (toward b.shape i) = .ok (.scalar (b.kind = .int) y) → ∃ z, op1 x y = .ok z := by
  simp only [List.mem_cons, List.not_mem_nil, or_false, Prod.mk.injEq] at hop
  rcases hop with ⟨rfl, rfl⟩ | ⟨rfl, rfl⟩ | ⟨rfl, rfl⟩
  · simp only [Elementwise.add, Val.asArray, hn, if_true]
    exact both_iff ha hb
  · simp only [Elementwise.mul, Val.asArray, hn, if_true]
    exact both_iff ha hb
  · simp only [Elementwise.sub, Val.asArray]
    exact both_iff ha hb

/-- Arrays of shapes `[2, 1]` and `[3]` make one of shape `[2, 3]`. -/
example : Fits [2, 1] [3] ∧ joint [2, 1] [3] = [2, 3] ∧ toward [2, 1] [1, 2] = [1, 0] ∧ toward [3] [1, 2] = [2] := by
  simp [Fits, pad, SideFits, joint, toward]

/-! ### An example -/

open Compare

/-- `1 <= x` for an array `x` of one element. -/
def row0 : AStmt ℕ := ⟨.scalar true (.num 1), .le, .array true [1] (fun _ => .var 0)⟩

/-- A model with this constraint. -/
def tree1 : Building.Expr ℕ ℝ (AStmt ℕ) := .mdl [] [0] (.lst [.con row0 [0] true]) [] none

/-- As `setting0`. -/
noncomputable def setting1 : Setting ℕ ℝ (AStmt ℕ) where
  feastol := 1 / 1000
  tol := 0
  abstol := 0
  vunits := fun _ => none
  enabled := fun _ => false
  approx := fun _ => .ok ()
  optimize := fun _ => .ok ⟨1, [0], .nu (fun _ => 1)⟩
  ord := fun h f => varlocs h f
  world := ⟨fun i => i, fun _ => false⟩
  heap := fun _ => none

theorem row0_cons : row0.cons false (1 / 1000) (fun _ => .ok ()) (fun _ => false) (fun _ => none) =
    .ok [(.le false ⟨[(HV.empty, 1)], none⟩ ⟨[(⟨[(0, 1)]⟩, 1)], none⟩ : Con ℕ ℝ)] := by
  norm_num [row0, AStmt.cons, AStmt.make, AExpr.build, Vectors.indices, objects, isNum, comparison, Val.asArray, arrayConstraint, swapped, kindOf, both,
      common, NArr.pick, Vectors.source, position, pair, compare1, vectorized, Compared.cons,
      Expr.build, related, compared, method, firstOf, varNomial, isPosys, posyIneq, side, mkSig, numMap, NMap.anyNonpositive, bind, Except.bind,
      Op.swap, pure, Except.pure, toCon, Op.order, rank, isVar, genUnsubbed, UnitCache.ratio, renameTerms, renameStep, List.foldlM, PyDict.get?, PyDict.set, PyDict.del,
      HV.beq_def, List.isPerm, HV.sub, HV.add, HV.scale, dictAdd, dictAddStep, dictScale, HV.empty, simplifyPosyIneq, wrapForm, Except.map]

theorem inside_tree1 {x : Building.Expr ℕ ℝ (AStmt ℕ)} (h : Building.Inside x tree1) :
    x = tree1 ∨ x = .lst [.con row0 [0] true] ∨ x = .con row0 [0] true := by
  simpa only [tree1, Building.inside_mdl, Building.inside_lst, Building.inside_con, List.mem_cons, List.not_mem_nil, or_false, exists_eq_left] using h

/-- The hypotheses of the theorems are met. -/
theorem sound1 : Elementwise.Sound setting1 (fun _ => false) (.sum (.array true [1] (fun _ => .var 0))) tree1 where
  feastol := by norm_num [setting1]
  ord := varlocs_valid
  units := fun v => by simp [setting1, UnitOK, unitScale]
  isSet := trivial
  fair := by
    refine ⟨fun arg subs h => ?_, fun setup cost arg subs ret h => ?_⟩
    · rcases inside_tree1 h with h | h | h <;> cases h
    · rcases inside_tree1 h with h | h | h <;> cases h
      exact ⟨trivial, .inr rfl⟩
  values := by
    rintro k w ((⟨arg, subs, h, hx⟩ | ⟨setup, cost, arg, subs, ret, h, hx⟩) | ⟨i, -, -, h⟩)
    · rcases inside_tree1 h with h | h | h <;> cases h
    · rcases inside_tree1 h with h | h | h <;> cases h
      simp at hx
    · cases h
  cost := ⟨fun _ => 1, fun _ => one_pos, by simp [AExpr.elem, AExpr.shape, allIndices, Expr.denote, physical, setting1, unitScale]⟩
  attainable := fun st _ i _ => .inl rfl
  unharmed := by
    rintro st l ⟨vks, t, h⟩ hl
    rcases inside_tree1 h with h | h | h <;> cases h
    have hl' : row0.cons false (1 / 1000) (fun _ => .ok ()) (fun _ => false) (fun _ => none) = .ok l := hl
    rw [row0_cons] at hl'
    cases hl'
    intro c hc
    rw [List.mem_singleton] at hc
    subst hc
    intro e k _
    simp [NoClash]

theorem cost1 : ((AExpr.sum (.array true [1] (fun _ => .var 0))).build false setting1.vunits).bind theScalar =
    .ok (.nom ⟨⟨[(⟨[(0, 1)]⟩, 1)], none⟩, .monomial⟩ : PyVal ℕ ℝ ℝ) := by
  norm_num [AExpr.build, Vectors.indices, objects, isNum, Expr.build, varNomial, mkSig, NMap.anyNonpositive, bind, Except.bind, pure, Except.pure,
    Elementwise.sum, Verif.Arr.sum, theScalar, Except.map, setting1, List.foldlM, Arr.sumStep, Arr.setUnits, NMap.add, dictAdd, dictAddStep, PyDict.get?, PyDict.set]

example : ∃ r : Result ℕ, Elementwise.run setting1 (fun _ => false) (.sum (.array true [1] (fun _ => .var 0))) tree1 = .ok (r, true) := by
  obtain ⟨r, hr⟩ := one_le_x_solved (D := ℝ)
  refine ⟨r, ?_⟩
  have h1 : Building.eval setting1.world tree1 setting1.heap =
      .ok ((fun _ => none), .set ⟨[0], [], [row0], 1⟩) := by
    simp [tree1, setting1, Building.eval, Building.evalL, Building.model, Building.costed, Building.construct, Building.Val.elements, Building.Val.truth,
      Building.defaults, Building.default1, Building.updated, Building.filled, Building.gathered, Building.partsL, Building.Val.parts,
      Building.update, Building.Part.vks, Building.Part.subs, Building.Part.cons, Building.addKeys, Building.addKey, Except.bind, Except.map]
    funext i
    simp [Building.taken]
  unfold Elementwise.run runOf
  rw [h1, cost1]
  simp only [bind, Except.bind, theSet]
  rw [List.mapM_cons, List.mapM_nil, show row0.cons (setting1.enabled row0) setting1.feastol setting1.approx (fun _ => false) setting1.vunits = _ from row0_cons]
  exact hr

/-! ### Violations -/

theorem two_indices {i : List Nat} (hi : InShape [2] i) : i = [0] ∨ i = [1] := by
  cases hi with
  | cons hk ht =>
    cases ht
    rename_i k
    have : k = 0 ∨ k = 1 := by omega
    simpa using this

/-- C74, acceptance, is violated by division by integers: `x / NomialArray([1, 2])` raises, for numpy's integers have no power -1. -/
theorem C74_integers_fails : ∃ a b : AExpr ℕ, Fits a.shape b.shape ∧
    (∀ i, InShape (AExpr.div a b).shape i → ∃ v : PyVal ℕ ℝ ℝ, ((AExpr.div a b).elem i).build false (fun _ => none) = .ok v) ∧
    (AExpr.div a b).build false (fun _ => (none : Option (UnitQ ℝ ℝ))) = .error .valueError := by
  refine ⟨.scalar false (.var 0), .numbers true true [2] (fun i => i.sum + 1), ?_, ?_, ?_⟩
  · simp [Fits, pad, SideFits, AExpr.shape]
  · intro i hi
    rcases two_indices (by simpa [AExpr.shape, joint, pad] using hi) with rfl | rfl
    · refine ⟨.nom ⟨⟨[(⟨[(0, 1)]⟩, 1)], none⟩, .monomial⟩, ?_⟩
      norm_num [AExpr.elem, AExpr.shape, toward, Expr.build, bind, Except.bind, varNomial, PyVal.div, Nomial.mulNum, mkSig, NMap.anyNonpositive, NMap.scale,
        NMap.unitsOfProduct, dictScale, pure, Except.pure, Except.map]
    · refine ⟨.nom ⟨⟨[(⟨[(0, 1)]⟩, 1 / 2)], none⟩, .monomial⟩, ?_⟩
      norm_num [AExpr.elem, AExpr.shape, toward, Expr.build, bind, Except.bind, varNomial, PyVal.div, Nomial.mulNum, mkSig, NMap.anyNonpositive, NMap.scale,
        NMap.unitsOfProduct, dictScale, pure, Except.pure, Except.map]
  · norm_num [AExpr.build, Expr.build, bind, Except.bind, Elementwise.div, Val.asArray, powArr, each, powElt, kindOf, Vectors.indices, Except.map, pure, Except.pure,
      List.range_succ]

/-- C74, acceptance, is violated by arrays that begin with a number: `NomialArray([1, x]) <= 2` is true at the first index and a constraint at the second,
but what Python returns is an array of `bool`, and a model with it is refused. -/
theorem C74_constants_fails : ∃ (st : AStmt ℕ) (c : Con ℕ ℝ), InShape st.shape [1] ∧
    (st.elem [0]).Holds 1 (fun _ => 1) ∧ (st.elem [1]).con false (1 / 1000) (fun _ => .ok ()) (fun _ => none) = .ok c ∧
    (∃ i x, InShape st.shape i ∧ ¬ (st.elem i).Holds 1 x) ∧
    st.make false (1 / 1000) (fun _ => .ok ()) (fun _ => false) (fun _ => (none : Option (UnitQ ℝ ℝ))) = .ok .bools ∧
    st.cons false (1 / 1000) (fun _ => .ok ()) (fun _ => false) (fun _ => (none : Option (UnitQ ℝ ℝ))) = .error .valueError := by
  have hm : (AStmt.mk (.array true [2] (fun i => if i = [0] then .num 1 else .var 0)) Rel.le (.scalar true (.num 2)) : AStmt ℕ).make false (1 / 1000)
      (fun _ => .ok ()) (fun _ => false) (fun _ => (none : Option (UnitQ ℝ ℝ))) = .ok .bools := by
    norm_num [AStmt.make, AExpr.build, Vectors.indices, objects, isNum, comparison, Val.asArray, arrayConstraint, kindOf, both,
      common, NArr.pick, Vectors.source, position, pair, compare1, vectorized, List.range_succ,
      Expr.build, related, compared, method, firstOf, varNomial, isMons, posyIneq, side, mkSig, numMap, NMap.anyNonpositive, bind, Except.bind,
      pure, Except.pure, Op.order, genUnsubbed, UnitCache.ratio, renameTerms, renameStep, List.foldlM, PyDict.get?, PyDict.set, PyDict.del,
      HV.beq_def, List.isPerm, HV.sub, HV.add, HV.scale, dictAdd, dictAddStep, dictScale, HV.empty, simplifyPosyIneq, wrapForm, Except.map]
  refine ⟨_, .le false ⟨[(⟨[(0, 1)]⟩, 1)], none⟩ ⟨[(HV.empty, 2)], none⟩, ?_, ?_, ?_, ⟨[1], fun _ => 3, ?_, ?_⟩, hm, ?_⟩
  · simp [AStmt.shape, AExpr.shape, joint, pad, InShape]
  · norm_num [AStmt.elem, AExpr.elem, AExpr.shape, toward, Stmt.Holds, Rel.Holds, Expr.denote]
  · norm_num [AStmt.elem, AExpr.elem, AExpr.shape, toward, Stmt.con, Stmt.make, Expr.build, related, compared, method, firstOf, varNomial, isMons, posyIneq, side,
      mkSig, numMap, NMap.anyNonpositive, bind, Except.bind,
      pure, Except.pure, toCon, Op.order, rank, isVar, genUnsubbed, UnitCache.ratio, renameTerms, renameStep, List.foldlM, PyDict.get?, PyDict.set, PyDict.del,
      HV.beq_def, List.isPerm, HV.sub, HV.add, HV.scale, dictAdd, dictAddStep, dictScale, HV.empty, simplifyPosyIneq, wrapForm, Except.map]
  · simp [AStmt.shape, AExpr.shape, joint, pad, InShape]
  · norm_num [AStmt.elem, AExpr.elem, AExpr.shape, toward, Stmt.Holds, Rel.Holds, Expr.denote]
  · unfold AStmt.cons
    rw [hm]
    rfl

/-- C74, acceptance, is violated by numpy's own arrays: `x + np.array([1, 2]) <= y` is an array of `bool`, which a model refuses, though each element of it is
a constraint. -/
theorem C74_numpy_fails : ∃ st : AStmt ℕ,
    (∀ i, InShape st.shape i → ∃ c : Con ℕ ℝ, (st.elem i).con false (1 / 1000) (fun _ => .ok ()) (fun _ => none) = .ok c) ∧
    st.make false (1 / 1000) (fun _ => .ok ()) (fun _ => false) (fun _ => (none : Option (UnitQ ℝ ℝ))) = .ok .bools ∧
    st.cons false (1 / 1000) (fun _ => .ok ()) (fun _ => false) (fun _ => (none : Option (UnitQ ℝ ℝ))) = .error .valueError := by
  have hm : (AStmt.mk (.add (.scalar false (.var 0)) (.numbers false true [2] (fun i => if i = [0] then 1 else 2))) Rel.le (.scalar false (.var 1)) : AStmt ℕ).make
      false (1 / 1000) (fun _ => .ok ()) (fun _ => false) (fun _ => (none : Option (UnitQ ℝ ℝ))) = .ok .bools := by
    norm_num [AStmt.make, AExpr.build, Vectors.indices, comparison, Val.asArray, Elementwise.add, elementwise, kindOf, both,
      common, NArr.pick, Vectors.source, position, pair, compare1, List.range_succ, PyVal.add, Nomial.addNum, NMap.add,
      Expr.build, related, compared, method, firstOf, varNomial, isMons, isPosys, posyIneq, side, mkSig, numMap, NMap.anyNonpositive, bind, Except.bind,
      pure, Except.pure, Op.order, Op.swap, rank, genUnsubbed, UnitCache.ratio, renameTerms, renameStep, List.foldlM, PyDict.get?, PyDict.set, PyDict.del,
      HV.beq_def, List.isPerm, HV.sub, HV.add, HV.scale, dictAdd, dictAddStep, dictScale, HV.empty, simplifyPosyIneq, wrapForm, Except.map]
    rfl
  refine ⟨_, ?_, hm, ?_⟩
  · intro i hi
    rcases two_indices (by simpa [AStmt.shape, AExpr.shape, joint, pad] using hi) with rfl | rfl
    · refine ⟨.le false ⟨[(⟨[(0, 1)]⟩, 1), (HV.empty, 1)], none⟩ ⟨[(⟨[(1, 1)]⟩, 1)], none⟩, ?_⟩
      norm_num [AStmt.elem, AExpr.elem, AExpr.shape, toward, joint, pad, Stmt.con, Stmt.make, Expr.build, related, compared, method, firstOf, varNomial, isMons, isPosys, posyIneq, side,
        mkSig, numMap, NMap.anyNonpositive, bind, Except.bind, PyVal.add, Nomial.addNum, NMap.add, Op.swap,
        pure, Except.pure, toCon, Op.order, rank, isVar, genUnsubbed, UnitCache.ratio, renameTerms, renameStep, List.foldlM, PyDict.get?, PyDict.set, PyDict.del,
        HV.beq_def, List.isPerm, HV.sub, HV.add, HV.scale, dictAdd, dictAddStep, dictScale, HV.empty, simplifyPosyIneq, wrapForm, Except.map]
      rfl
    · refine ⟨.le false ⟨[(⟨[(0, 1)]⟩, 1), (HV.empty, 2)], none⟩ ⟨[(⟨[(1, 1)]⟩, 1)], none⟩, ?_⟩
      norm_num [AStmt.elem, AExpr.elem, AExpr.shape, toward, joint, pad, Stmt.con, Stmt.make, Expr.build, related, compared, method, firstOf, varNomial, isMons, isPosys, posyIneq, side,
        mkSig, numMap, NMap.anyNonpositive, bind, Except.bind, PyVal.add, Nomial.addNum, NMap.add, Op.swap,
        pure, Except.pure, toCon, Op.order, rank, isVar, genUnsubbed, UnitCache.ratio, renameTerms, renameStep, List.foldlM, PyDict.get?, PyDict.set, PyDict.del,
        HV.beq_def, List.isPerm, HV.sub, HV.add, HV.scale, dictAdd, dictAddStep, dictScale, HV.empty, simplifyPosyIneq, wrapForm, Except.map]
      rfl
  · unfold AStmt.cons
    rw [hm]
    rfl

end Verif
