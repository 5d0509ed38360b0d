import Verif.Lemmas.Printing
import Verif.Lemmas.Arith

/-!
# The trees kept by operators
-/

set_option linter.unusedSectionVars false

namespace Verif
namespace Printing

variable {V D : Type} [DecidableEq V] [AddCommGroup D] [DecidableEq D] [Module ℝ D]

/-- No units. -/
def Unitless : PyVal V ℝ D → Prop
  | .num q => q.units = none
  | .nom n => n.hmap.units = none

theorem mkSig_units {se rp : Bool} {h : NMap V ℝ D} {n : Nomial V ℝ D} (hu : h.units = none) (e : mkSig se rp h = .ok n) : n.hmap.units = none := by
  unfold mkSig at e
  split at e
  · split at e
    · cases e
    · cases e; exact hu
  · split at e <;> · cases e; exact hu

theorem unitsOfProduct_none {h : NMap V ℝ D} {a b : Option (UnitQ D ℝ)} (ha : a = none) (hb : b = none) : (h.unitsOfProduct a b).units = none := by
  subst ha hb; rfl

theorem map_add_units {a b h : NMap V ℝ D} (ha : a.units = none) (hb : b.units = none) (e : a.add b = .ok h) : h.units = none := by
  unfold NMap.add at e
  rw [if_pos (by rw [ha, hb])] at e
  cases e
  exact ha

theorem mulNum_unitless {se : Bool} {a : Nomial V ℝ D} {q : PyQ D ℝ} {r : PyVal V ℝ D} (ha : a.hmap.units = none) (hq : q.units = none)
    (e : a.mulNum se q = .ok r) : Unitless r := by
  unfold Nomial.mulNum at e
  split at e
  · cases e; exact hq
  · simp only [bind, Except.bind, pure, Except.pure] at e
    split at e
    · cases e
    · rename_i n hn
      cases e
      exact mkSig_units (unitsOfProduct_none ha hq) hn

theorem addNum_unitless {se : Bool} {a n : Nomial V ℝ D} {q : PyQ D ℝ} (ha : a.hmap.units = none) (hq : q.units = none)
    (e : a.addNum se q = .ok n) : n.hmap.units = none := by
  unfold Nomial.addNum at e
  split at e
  · exact mkSig_units ha e
  · simp only [bind, Except.bind] at e
    split at e
    · cases e
    · rename_i h hh
      exact mkSig_units (map_add_units ha hq hh) e

theorem nomAdd_unitless {se : Bool} {a b n : Nomial V ℝ D} (ha : a.hmap.units = none) (hb : b.hmap.units = none)
    (e : a.add se b = .ok n) : n.hmap.units = none := by
  unfold Nomial.add at e
  split at e
  · split at e
    · cases e
    · split at e
      · cases e
      · simp only [bind, Except.bind] at e
        split at e
        · cases e
        · rename_i h hh
          exact mkSig_units (map_add_units hb ha hh) e
  · simp only [bind, Except.bind] at e
    split at e
    · cases e
    · rename_i h hh
      exact mkSig_units (map_add_units ha hb hh) e

theorem numOp_unitless {f : ℝ → ℝ → ℝ} {p q : PyQ D ℝ} {r : PyVal V ℝ D} (e : PyVal.numOp f p q = .ok r) : Unitless r := by
  unfold PyVal.numOp at e
  split at e
  · cases e; rfl
  · cases e

theorem add_unitless {se : Bool} {a b r : PyVal V ℝ D} (ha : Unitless a) (hb : Unitless b) (e : PyVal.add se a b = .ok r) : Unitless r := by
  cases a <;> cases b <;> simp only [PyVal.add, bind, Except.bind, pure, Except.pure] at e
  · exact numOp_unitless e
  · split at e
    · cases e
    · rename_i n hn; cases e; exact addNum_unitless hb ha hn
  · split at e
    · cases e
    · rename_i n hn; cases e; exact addNum_unitless ha hb hn
  · split at e
    · cases e
    · rename_i n hn; cases e; exact nomAdd_unitless ha hb hn

theorem mul_unitless {se : Bool} {a b r : PyVal V ℝ D} (ha : Unitless a) (hb : Unitless b) (e : PyVal.mul se a b = .ok r) : Unitless r := by
  cases a <;> cases b <;> simp only [PyVal.mul, bind, Except.bind, pure, Except.pure] at e
  · exact numOp_unitless e
  · exact mulNum_unitless hb ha e
  · exact mulNum_unitless ha hb e
  · split at e
    · cases e
    · rename_i n hn
      cases e
      exact mkSig_units (unitsOfProduct_none ha hb) hn

theorem neg_unitless {se : Bool} {a r : PyVal V ℝ D} (ha : Unitless a) (e : PyVal.neg se a = .ok r) : Unitless r := by
  cases a with
  | num q => cases e; exact ha
  | nom n =>
    simp only [PyVal.neg, Nomial.neg] at e
    split at e
    · exact mulNum_unitless ha rfl e
    · cases e

theorem sub_unitless {se : Bool} {a b r : PyVal V ℝ D} (ha : Unitless a) (hb : Unitless b) (e : PyVal.sub se a b = .ok r) : Unitless r := by
  have key : (if se = true then (do PyVal.add se a (← PyVal.neg se b)) else Except.error Err.typeError) = .ok r → Unitless r := by
    intro e
    split at e
    · simp only [bind, Except.bind] at e
      split at e
      · cases e
      · rename_i z hz
        exact add_unitless ha (neg_unitless hb hz) e
    · cases e
  cases a <;> cases b
  · exact numOp_unitless e
  all_goals exact key e

theorem monoPow_unitless {se : Bool} {a n : Nomial V ℝ D} {x : ℝ} (ha : a.hmap.units = none) (e : a.monoPow se x = .ok n) : n.hmap.units = none := by
  unfold Nomial.monoPow at e
  split at e
  · refine mkSig_units ?_ e
    rw [ha]
    simp
  · cases e

theorem rdiv_unitless {se : Bool} {a r : PyVal V ℝ D} {m : Nomial V ℝ D} (ha : Unitless a) (hm : m.hmap.units = none) (e : PyVal.rdiv se a m = .ok r) :
    Unitless r := by
  simp only [PyVal.rdiv, bind, Except.bind, pure, Except.pure] at e
  split at e
  · cases e
  · rename_i inv hinv
    split at e
    · cases e
    · rename_i p hp
      have := mul_unitless ha (b := .nom inv) (monoPow_unitless hm hinv) hp
      cases p with
      | num q => cases e
      | nom n => cases e; exact this

theorem div_unitless {se : Bool} {a b r : PyVal V ℝ D} (ha : Unitless a) (hb : Unitless b) (e : PyVal.div se a b = .ok r) : Unitless r := by
  cases a <;> cases b <;> simp only [PyVal.div] at e
  · split at e
    · cases e
    · exact numOp_unitless e
  · split at e
    · exact rdiv_unitless ha hb e
    · cases e
  · split at e
    · cases e
    · rename_i n q _
      refine mulNum_unitless ha ?_ e
      have : q.units = none := hb
      rw [this]; rfl
  · split at e
    · exact rdiv_unitless ha hb e
    · cases e

theorem powLoop_unitless {se : Bool} {a : Nomial V ℝ D} (ha : a.hmap.units = none) : ∀ {n : Nat} {r : PyVal V ℝ D}, a.powLoop se n = .ok r → Unitless r
  | 0, r, e => by cases e; rfl
  | n + 1, r, e => by
    simp only [Nomial.powLoop, bind, Except.bind, pure, Except.pure] at e
    split at e
    · cases e
    · rename_i p hp
      have ih := powLoop_unitless ha hp
      cases p with
      | num q => exact mulNum_unitless ha ih e
      | nom m =>
        dsimp only at e
        split at e
        · cases e
        · rename_i k hk
          cases e
          exact mkSig_units (unitsOfProduct_none ih ha) hk

theorem pow_unitless {se : Bool} {a r : PyVal V ℝ D} {x : PyExpo ℝ} (ha : Unitless a) (e : PyVal.pow se a x = .ok r) : Unitless r := by
  cases a with
  | num q =>
    simp only [PyVal.pow] at e
    split_ifs at e
    cases e
    rfl
  | nom n =>
    simp only [PyVal.pow] at e
    split at e
    · simp only [bind, Except.bind, pure, Except.pure] at e
      split at e
      · cases e
      · rename_i m hm
        cases e
        exact monoPow_unitless ha hm
    · cases x with
      | float y => cases e
      | int z =>
        simp only [Nomial.sigPow, bind, Except.bind, pure, Except.pure] at e
        split at e
        · cases e
        · split at e
          · cases e
          · rename_i p hp
            have := powLoop_unitless ha hp
            cases p with
            | num q => cases e
            | nom m => cases e; exact this

theorem build_unitless {se : Bool} (e : Expr V) : ∀ {r : PyVal V ℝ D}, e.build se (fun _ => none) = .ok r → Unitless r := by
  have two : ∀ (op : PyVal V ℝ D → PyVal V ℝ D → Except Err (PyVal V ℝ D)),
      (∀ {a b r}, Unitless a → Unitless b → op a b = .ok r → Unitless r) → ∀ {a b : Expr V},
      (∀ {r : PyVal V ℝ D}, a.build se (fun _ => none) = .ok r → Unitless r) → (∀ {r : PyVal V ℝ D}, b.build se (fun _ => none) = .ok r → Unitless r) →
      ∀ {r : PyVal V ℝ D}, (do op (← a.build se (fun _ => none)) (← b.build se (fun _ => none))) = .ok r → Unitless r := by
    intro op hop a b iha ihb r h
    simp only [bind, Except.bind] at h
    split at h
    · cases h
    · rename_i x hx
      split at h
      · cases h
      · rename_i y hy
        exact hop (iha hx) (ihb hy) h
  induction e with
  | var v => intro r h; cases h; rfl
  | num c => intro r h; cases h; rfl
  | add a b iha ihb => exact two _ add_unitless iha ihb
  | sub a b iha ihb => exact two _ sub_unitless iha ihb
  | mul a b iha ihb => exact two _ mul_unitless iha ihb
  | div a b iha ihb => exact two _ div_unitless iha ihb
  | neg a iha =>
    intro r h
    simp only [Expr.build, bind, Except.bind] at h
    split at h
    · cases h
    · rename_i x hx
      exact neg_unitless (iha hx) h
  | pow a x iha =>
    intro r h
    simp only [Expr.build, bind, Except.bind] at h
    split at h
    · cases h
    · rename_i y hy
      exact pow_unitless (iha hy) h

/-- What is built without units is what was written. -/
theorem build_val {se : Bool} {e : Expr V} {r : PyVal V ℝ D} (h : e.build se (fun _ => none) = .ok r) {pt : V → ℝ} (hpt : ∀ v, 0 < pt v) :
    (match r with | .num q => q.mag | .nom n => termsVal pt n.hmap.terms) = e.denote pt := by
  have h1 := (build_ok (vunits := fun _ => none) (by simp [UnitOK, unitScale]) e h).2 pt hpt
  have h2 := build_unitless e h
  cases r with
  | num q =>
    have : q.units = none := h2
    simpa [PyVal.phys, unitScale, this] using h1
  | nom n =>
    have : n.hmap.units = none := h2
    simpa [PyVal.phys, physVal, unitScale, this] using h1

theorem addAst_val {se : Bool} {a b : Expr V} {x y : PyVal V ℝ D × Ast V ℝ} {r : PyVal V ℝ D} {pt : V → ℝ} (hpt : ∀ v, 0 < pt v)
    (ha : a.build se (fun _ => none) = .ok x.1) (hb : b.build se (fun _ => none) = .ok y.1) (hr : PyVal.add se x.1 y.1 = .ok r)
    (va : astVal pt x.2 = a.denote pt) (vb : astVal pt y.2 = b.denote pt) : astVal pt (addAst x y r) = a.denote pt + b.denote pt := by
  have hs : (Expr.add a b).build se (fun _ => none) = .ok r := by
    simp only [Expr.build, bind, Except.bind, ha, hb, hr]
  have ea := build_val ha hpt
  have eb := build_val hb hpt
  have er := build_val hs hpt
  obtain ⟨x, tx⟩ := x
  obtain ⟨y, ty⟩ := y
  dsimp only at *
  cases x <;> cases y <;> cases r <;> simp only [addAst] at ea eb er ⊢ <;> first
    | exact er
    | (simp only [astVal]; rw [va, vb])
    | (split
       · rename_i hz
         simp only [astVal]
         linarith
       · simp only [astVal]; rw [va, vb])

/-- The tree of an expression stands for it. -/
theorem track_ok {se : Bool} {pt : V → ℝ} (hpt : ∀ v, 0 < pt v) (e : Expr V) :
    ∀ {x : PyVal V ℝ D × Ast V ℝ}, track se e = .ok x → e.build se (fun _ => none) = .ok x.1 ∧ (MonoPowers (D := D) se e → astVal pt x.2 = e.denote pt) := by
  have opv : ∀ {op : Ast V ℝ → Ast V ℝ → Ast V ℝ} {e : Expr V} {x y : PyVal V ℝ D × Ast V ℝ} {r : PyVal V ℝ D},
      e.build se (fun _ => none) = .ok r → astVal pt (op x.2 y.2) = e.denote pt → astVal pt (opAst op x y r) = e.denote pt := by
    intro op e x y r h1 h2
    cases r with
    | num q => exact build_val h1 hpt
    | nom n => exact h2
  have negv : ∀ {b : Expr V} {y : PyVal V ℝ D × Ast V ℝ} {z : PyVal V ℝ D}, b.build se (fun _ => none) = .ok y.1 → PyVal.neg se y.1 = .ok z →
      astVal pt y.2 = b.denote pt → (Expr.neg b).build se (fun _ => none) = .ok z ∧ astVal pt (negAst y z) = (Expr.neg b).denote pt := by
    intro b y z hb hz hv
    have h1 : (Expr.neg b).build se (fun _ => none) = .ok z := by
      simp only [Expr.build, bind, Except.bind, hb, hz]
    refine ⟨h1, ?_⟩
    cases z with
    | num q => exact build_val h1 hpt
    | nom n => simp only [negAst, astVal, Expr.denote, hv]
  induction e with
  | var v => intro x h; cases h; exact ⟨rfl, fun _ => rfl⟩
  | num c => intro x h; cases h; exact ⟨rfl, fun _ => rfl⟩
  | add a b iha ihb =>
    intro t h
    simp only [track, bind, Except.bind, pure, Except.pure] at h
    split at h
    · cases h
    rename_i x hx
    split at h
    · cases h
    rename_i y hy
    split at h
    · cases h
    rename_i r hr
    cases h
    obtain ⟨bx, vx⟩ := iha hx
    obtain ⟨by', vy⟩ := ihb hy
    exact ⟨by simp only [Expr.build, bind, Except.bind, bx, by', hr], fun hm => addAst_val hpt bx by' hr (vx hm.1) (vy hm.2)⟩
  | sub a b iha ihb =>
    intro t h
    simp only [track, bind, Except.bind, pure, Except.pure] at h
    split at h
    · cases h
    rename_i x hx
    split at h
    · cases h
    rename_i y hy
    split at h
    · cases h
    rename_i r hr
    obtain ⟨bx, vx⟩ := iha hx
    obtain ⟨by', vy⟩ := ihb hy
    have hb : (Expr.sub a b).build se (fun _ => none) = .ok r := by simp only [Expr.build, bind, Except.bind, bx, by', hr]
    cases r with
    | num q =>
      cases h
      exact ⟨hb, fun _ => build_val hb hpt⟩
    | nom n =>
      dsimp only at h
      split at h
      · cases h
      rename_i z hz
      cases h
      refine ⟨hb, fun hm => ?_⟩
      obtain ⟨bz, vz⟩ := negv by' hz (vy hm.2)
      have hr' : PyVal.add se x.1 z = .ok (.nom n) := by
        have key : ∀ r, (if se = true then (do PyVal.add se x.1 (← PyVal.neg se y.1)) else Except.error Err.typeError) = .ok r →
            PyVal.add se x.1 z = .ok r := by
          intro r hr
          split at hr
          · simpa only [bind, Except.bind, hz] using hr
          · cases hr
        rcases hx1 : x.1 with p | p <;> rcases hy1 : y.1 with q | q
        · exfalso
          rw [hx1, hy1] at hr
          simp only [PyVal.sub, PyVal.numOp] at hr
          split at hr <;> cases hr
        all_goals
          rw [← hx1]
          apply key
          rw [hx1, hy1] at hr ⊢
          exact hr
      have := addAst_val (y := (z, negAst y z)) hpt bx bz hr' (vx hm.1) vz
      rw [this]
      simp only [Expr.denote]
      ring
  | mul a b iha ihb =>
    intro t h
    simp only [track, bind, Except.bind, pure, Except.pure] at h
    split at h
    · cases h
    rename_i x hx
    split at h
    · cases h
    rename_i y hy
    split at h
    · cases h
    rename_i r hr
    cases h
    obtain ⟨bx, vx⟩ := iha hx
    obtain ⟨by', vy⟩ := ihb hy
    have hb : (Expr.mul a b).build se (fun _ => none) = .ok r := by simp only [Expr.build, bind, Except.bind, bx, by', hr]
    exact ⟨hb, fun hm => opv hb (by simp only [astVal, Expr.denote, vx hm.1, vy hm.2])⟩
  | div a b iha ihb =>
    intro t h
    simp only [track, bind, Except.bind, pure, Except.pure] at h
    split at h
    · cases h
    rename_i x hx
    split at h
    · cases h
    rename_i y hy
    split at h
    · cases h
    rename_i r hr
    cases h
    obtain ⟨bx, vx⟩ := iha hx
    obtain ⟨by', vy⟩ := ihb hy
    have hb : (Expr.div a b).build se (fun _ => none) = .ok r := by simp only [Expr.build, bind, Except.bind, bx, by', hr]
    exact ⟨hb, fun hm => opv hb (by simp only [astVal, Expr.denote, vx hm.1, vy hm.2])⟩
  | neg a iha =>
    intro t h
    simp only [track, bind, Except.bind, pure, Except.pure] at h
    split at h
    · cases h
    rename_i x hx
    split at h
    · cases h
    rename_i r hr
    cases h
    obtain ⟨bx, vx⟩ := iha hx
    refine ⟨by simp only [Expr.build, bind, Except.bind, bx, hr], fun hm => (negv bx hr (vx hm)).2⟩
  | pow a p iha =>
    intro t h
    simp only [track, bind, Except.bind, pure, Except.pure] at h
    split at h
    · cases h
    rename_i x hx
    split at h
    · cases h
    rename_i r hr
    cases h
    obtain ⟨bx, vx⟩ := iha hx
    have hb : (Expr.pow a p).build se (fun _ => none) = .ok r := by simp only [Expr.build, bind, Except.bind, bx, hr]
    refine ⟨hb, fun hm => ?_⟩
    obtain ⟨x, tx⟩ := x
    cases r with
    | num q => exact build_val hb hpt
    | nom n =>
      cases x with
      | num q => simp only [powAst, astVal, Expr.denote]; rw [← vx hm.1]
      | nom m =>
        simp only [powAst, if_pos (hm.2 m bx), astVal, Expr.denote]
        rw [← vx hm.1]

/-! ## Trees of sums and products -/

/-- Sums and products of variables. -/
inductive Plus : Expr V → Ast V ℝ → Prop
  | var (v : V) : Plus (.var v) (.var v)
  | add {a b : Expr V} {s t : Ast V ℝ} : Plus a s → Plus b t → Plus (.add a b) (.add s t)
  | mul {a b : Expr V} {s t : Ast V ℝ} : Plus a s → Plus b t → Plus (.mul a b) (.mul s t)

theorem mkSig_true (rp : Bool) (h : NMap V ℝ D) : ∃ n, mkSig true rp h = .ok n := by
  unfold mkSig
  split
  · exact ⟨⟨h, .signomial⟩, by simp⟩
  · split <;> exact ⟨_, rfl⟩

theorem Plus.pos {e : Expr V} {t : Ast V ℝ} (h : Plus e t) : 0 < e.denote (fun _ => 1) := by
  induction h with
  | var v => simp [Expr.denote]
  | add _ _ h1 h2 => exact add_pos h1 h2
  | mul _ _ h1 h2 => exact mul_pos h1 h2

/-- Operators keep what was written. -/
theorem Plus.track {e : Expr V} {t : Ast V ℝ} (h : Plus e t) : ∃ n : Nomial V ℝ D, Printing.track true e = .ok (.nom n, t) := by
  induction h with
  | var v => exact ⟨_, rfl⟩
  | @add a b s t ha hb iha ihb =>
    obtain ⟨m, hm⟩ := iha
    obtain ⟨n, hn⟩ := ihb
    have bm := (track_ok (pt := fun _ => 1) (by simp) a hm).1
    have bn := (track_ok (pt := fun _ => 1) (by simp) b hn).1
    have vn := build_val bn (pt := fun _ => 1) (by simp)
    have hne : n.hmap.terms.isEmpty = false := by
      cases hn0 : n.hmap.terms with
      | nil =>
        have := hb.pos
        rw [← vn] at this
        simp [hn0, termsVal] at this
      | cons x l => rfl
    obtain ⟨k, hk⟩ : ∃ k, m.hmap.add n.hmap = .ok k := by
      unfold NMap.add
      rw [if_pos]
      · exact ⟨_, rfl⟩
      · have h1 : m.hmap.units = none := build_unitless a bm
        have h2 : n.hmap.units = none := build_unitless b bn
        rw [h1, h2]
    obtain ⟨r, hr⟩ := mkSig_true true k
    refine ⟨r, ?_⟩
    have : PyVal.add true (.nom m) (.nom n) = .ok (.nom r : PyVal V ℝ D) := by
      simp only [PyVal.add, Nomial.add, hne, Bool.false_eq_true, if_false, bind, Except.bind, hk, hr, pure, Except.pure]
    simp only [Printing.track, bind, Except.bind, hm, hn, this, pure, Except.pure, addAst]
  | @mul a b s t ha hb iha ihb =>
    obtain ⟨m, hm⟩ := iha
    obtain ⟨n, hn⟩ := ihb
    obtain ⟨r, hr⟩ := mkSig_true true ((⟨Nomial.mulTerms m.hmap.terms n.hmap.terms, none⟩ : NMap V ℝ D).unitsOfProduct m.hmap.units n.hmap.units)
    refine ⟨r, ?_⟩
    have : PyVal.mul true (.nom m) (.nom n) = .ok (.nom r : PyVal V ℝ D) := by
      simp only [PyVal.mul, Nomial.mul, bind, Except.bind, hr, pure, Except.pure]
    simp only [Printing.track, bind, Except.bind, hm, hn, this, pure, Except.pure, opAst]

theorem powLoop_true (a : Nomial V ℝ D) : ∀ n, ∃ m, a.powLoop true (n + 1) = .ok (.nom m)
  | 0 => by
    obtain ⟨r, hr⟩ := mkSig_true true ((a.hmap.scale 1).unitsOfProduct a.hmap.units none)
    refine ⟨r, ?_⟩
    simp only [Nomial.powLoop, bind, Except.bind, Nomial.mulNum, one_ne_zero, if_false, hr, pure, Except.pure]
  | n + 1 => by
    obtain ⟨m, hm⟩ := powLoop_true a n
    obtain ⟨r, hr⟩ := mkSig_true true ((⟨Nomial.mulTerms m.hmap.terms a.hmap.terms, none⟩ : NMap V ℝ D).unitsOfProduct m.hmap.units a.hmap.units)
    refine ⟨r, ?_⟩
    rw [Nomial.powLoop]
    simp only [bind, Except.bind, hm, Nomial.mul, hr, pure, Except.pure]

/-- The exponent kept for powers of posynomials and signomials is zero. -/
theorem track_pow_zero {a : Expr V} {n : Nomial V ℝ D} {t : Ast V ℝ} (h : track true a = .ok (.nom n, t)) (hc : n.cls ≠ .monomial) (k : Nat) :
    ∃ m : Nomial V ℝ D, track true (.pow a (.int (k + 1))) = .ok (.nom m, .pow t 0) := by
  obtain ⟨m, hm⟩ := powLoop_true n k
  refine ⟨m, ?_⟩
  have e : ((k : ℤ) + 1).toNat = k + 1 := by omega
  have e0 : ¬ ((k : ℤ) + 1 < 0) := by omega
  have : PyVal.pow true (.nom n) (.int (k + 1)) = .ok (.nom m : PyVal V ℝ D) := by
    simp only [PyVal.pow, if_neg hc, Nomial.sigPow, e0, if_false, e, bind, Except.bind, hm, pure, Except.pure]
  simp only [track, bind, Except.bind, h, this, pure, Except.pure, powAst, if_neg hc]

end Printing
end Verif
