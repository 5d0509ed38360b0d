import Verif.Props.Autosweep
import Verif.Model.AutosweepCost
import Verif.Spec.AutoBounds
import Mathlib.Analysis.Convex.Function
import Mathlib.Tactic.Linarith
import Mathlib.Tactic.FieldSimp
import Mathlib.Tactic.Ring

/-! C31: the bounds of an autosweep. -/

set_option linter.unusedSectionVars false

namespace Verif
open Set
namespace Auto

/-- A line through two points. -/
noncomputable def chord (a b ya yb y : ℝ) : ℝ := (b - y) / (b - a) * ya + (1 - (b - y) / (b - a)) * yb

theorem interpolate_eq {lo hi value ya yb : ℝ} {loval hival : ℝ} (h1 : Real.log loval = ya) (h2 : Real.log hival = yb) :
    interpolate lo hi loval hival value = Real.exp (chord (Real.log lo) (Real.log hi) ya yb (Real.log value)) := by
  unfold interpolate chord
  rw [h1, h2]

theorem chord_left {a b : ℝ} (h : a < b) (ya yb y : ℝ) : chord a b ya yb y = ya + (yb - ya) / (b - a) * (y - a) := by
  unfold chord
  have : b - a ≠ 0 := (sub_pos.2 h).ne'
  field_simp
  ring

theorem chord_right {a b : ℝ} (h : a < b) (ya yb y : ℝ) : chord a b ya yb y = yb - (yb - ya) / (b - a) * (b - y) := by
  unfold chord
  have : b - a ≠ 0 := (sub_pos.2 h).ne'
  field_simp
  ring

theorem chord_mono {a b ya yb ya' yb' y : ℝ} (h : a < b) (h0 : a ≤ y) (h1 : y ≤ b) (ha : ya ≤ ya') (hb : yb ≤ yb') :
    chord a b ya yb y ≤ chord a b ya' yb' y := by
  unfold chord
  have hp : 0 < b - a := sub_pos.2 h
  have t0 : 0 ≤ (b - y) / (b - a) := div_nonneg (sub_nonneg.2 h1) hp.le
  have t1 : (b - y) / (b - a) ≤ 1 := by rw [div_le_one hp]; linarith
  exact add_le_add (mul_le_mul_of_nonneg_left ha t0) (mul_le_mul_of_nonneg_left hb (sub_nonneg.2 t1))

/-- A convex function is below its chords. -/
theorem below_chord {φ : ℝ → ℝ} {l h a b y : ℝ} (hc : ConvexOn ℝ (Icc l h) φ) (hl : l ≤ a) (hh : b ≤ h) (hab : a < b) (h0 : a ≤ y) (h1 : y ≤ b) :
    φ y ≤ chord a b (φ a) (φ b) y := by
  have hp : 0 < b - a := sub_pos.2 hab
  have t0 : 0 ≤ (b - y) / (b - a) := div_nonneg (sub_nonneg.2 h1) hp.le
  have t1 : (b - y) / (b - a) ≤ 1 := by rw [div_le_one hp]; linarith
  have := hc.2 (x := a) ⟨hl, hab.le.trans hh⟩ (y := b) ⟨hl.trans hab.le, hh⟩ t0 (sub_nonneg.2 t1) (by ring)
  simp only [smul_eq_mul] at this
  unfold chord
  have he : (b - y) / (b - a) * a + (1 - (b - y) / (b - a)) * b = y := by
    have : b - a ≠ 0 := hp.ne'
    field_simp
    ring
  rw [he] at this
  exact this

/-- What `get_tol` computes, in terms of slopes. -/
theorem getTol_cases {Sol : Type} {cost sens : Sol → ℝ} {lo hi : ℝ} {sol0 sol1 : Sol} {x lb ub y0 y1 a b s0 s1 : ℝ}
    (h : getTol cost sens lo hi sol0 sol1 = (x, lb, ub)) (hy0 : Real.log (cost sol0) = y0) (hy1 : Real.log (cost sol1) = y1)
    (ha : Real.log lo = a) (hb : Real.log hi = b) (hs0 : sens sol0 = s0) (hs1 : sens sol1 = s1) (hab : a < b)
    (g0 : y0 + s0 * (b - a) ≤ y1) (g1 : y1 + s1 * (a - b) ≤ y0) :
    s0 ≤ s1 ∧ ∃ X, x = Real.exp X ∧ a < X ∧ X < b ∧ ub = chord a b y0 y1 X ∧
      ((lb = y0 + s0 * (X - a) ∧ lb = y1 + s1 * (X - b)) ∨
        (lb = ub ∧ (s0 = s1 ∨ ∃ θ, 0 ≤ θ ∧ θ ≤ 1 ∧ (y1 - y0) / (b - a) = s0 + (s1 - s0) * θ ∧ (θ < 1 / 10000000 ∨ 1 - 1 / 10000000 < θ)))) := by
  have hp : 0 < b - a := sub_pos.2 hab
  have hs : s0 ≤ s1 := by
    by_contra hn
    rw [not_le] at hn
    have : 0 < (s0 - s1) * (b - a) := mul_pos (by linarith) hp
    nlinarith
  refine ⟨hs, ?_⟩
  unfold getTol at h
  dsimp only at h
  rw [hy0, hy1, ha, hb, hs0, hs1] at h
  have mid : a < (a + b) / 2 ∧ (a + b) / 2 < b ∧ (y0 + y1) / 2 = chord a b y0 y1 ((a + b) / 2) := by
    refine ⟨by linarith, by linarith, ?_⟩
    unfold chord
    have : b - a ≠ 0 := hp.ne'
    field_simp
    ring
  by_cases hd : s0 - s1 = 0
  · rw [if_pos hd] at h
    rw [if_pos (Or.inl (by norm_num))] at h
    simp only [Prod.mk.injEq] at h
    obtain ⟨rfl, rfl, rfl⟩ := h
    exact ⟨_, rfl, mid.1, mid.2.1, mid.2.2, Or.inr ⟨rfl, Or.inl (sub_eq_zero.1 hd)⟩⟩
  · rw [if_neg hd] at h
    have hne : s0 ≠ s1 := fun h => hd (sub_eq_zero.2 h)
    have hlt : 0 < s1 - s0 := sub_pos.2 (lt_of_le_of_ne hs hne)
    set X := (y1 - y0 + a * s0 - b * s1) / (s0 - s1) with hX
    have hX' : X * (s0 - s1) = y1 - y0 + a * s0 - b * s1 := by rw [hX]; field_simp
    have hXa : (X - a) * (s1 - s0) = s1 * (b - a) - (y1 - y0) := by linear_combination -hX'
    have hXb : (b - X) * (s1 - s0) = (y1 - y0) - s0 * (b - a) := by linear_combination hX'
    have hθ : (y1 - y0) / (b - a) = s0 + (s1 - s0) * ((b - X) / (b - a)) := by
      rw [div_eq_iff hp.ne', add_mul, mul_assoc, div_mul_cancel₀ _ hp.ne']
      linear_combination -hXb
    by_cases hi' : (b - X) / (b - a) < 1 / 10000000 ∨ 1 - 1 / 10000000 < (b - X) / (b - a)
    · rw [if_pos hi'] at h
      simp only [Prod.mk.injEq] at h
      obtain ⟨rfl, rfl, rfl⟩ := h
      refine ⟨_, rfl, mid.1, mid.2.1, mid.2.2, Or.inr ⟨rfl, Or.inr ⟨(b - X) / (b - a), ?_, ?_, hθ, hi'⟩⟩⟩
      · refine div_nonneg ?_ hp.le
        by_contra hn
        rw [not_le] at hn
        nlinarith
      · rw [div_le_one hp]
        by_contra hn
        rw [not_le] at hn
        nlinarith
    · rw [if_neg hi'] at h
      simp only [Prod.mk.injEq] at h
      obtain ⟨rfl, rfl, rfl⟩ := h
      rw [not_or, not_lt, not_lt] at hi'
      have hb1 : X < b := by
        have : 0 < (b - X) / (b - a) := lt_of_lt_of_le (by norm_num) hi'.1
        rw [div_pos_iff] at this
        rcases this with h | h <;> linarith [h.1, h.2]
      have ha1 : a < X := by
        have : (b - X) / (b - a) < 1 := lt_of_le_of_lt hi'.2 (by norm_num)
        rw [div_lt_one hp] at this
        linarith
      refine ⟨X, rfl, ha1, hb1, by unfold chord; ring, Or.inl ⟨rfl, ?_⟩⟩
      linear_combination hX'

/-- The whole calculation for one interval, in logs. -/
theorem interval {φ : ℝ → ℝ} {l h a b X L c : ℝ} (hl : l ≤ a) (hh : b ≤ h) (hab : a < b) (hX0 : a < X) (hX1 : X < b)
    (hL0 : a ≤ L) (hL1 : L ≤ b) :
    (ConvexOn ℝ (Icc l h) φ → chord a b (φ a) (φ b) X ≤ c → φ L ≤ if L ≤ X then chord a X (φ a) c L else chord X b c (φ b) L) := by
  intro hc hcc
  by_cases hLX : L ≤ X
  · rw [if_pos hLX]
    refine (below_chord hc hl (hX1.le.trans hh) hX0 hL0 hLX).trans (chord_mono hX0 hL0 hLX (le_refl _) ?_)
    exact (below_chord hc hl hh hab hX0.le hX1.le).trans hcc
  · rw [if_neg hLX]
    rw [not_le] at hLX
    refine (below_chord hc (hl.trans hX0.le) hh hX1 hLX.le hL1).trans (chord_mono hX1 hLX.le hL1 ?_ (le_refl _))
    exact (below_chord hc hl hh hab hX0.le hX1.le).trans hcc

theorem on_line {a ya X c y m : ℝ} (h : a < X) (hc : c = ya + m * (X - a)) : chord a X ya c y = ya + m * (y - a) := by
  rw [chord_left h, hc, add_sub_cancel_left, mul_div_assoc, div_self (sub_pos.2 h).ne', mul_one]

theorem on_line' {b yb X c y m : ℝ} (h : X < b) (hc : c = yb + m * (X - b)) : chord X b c yb y = yb + m * (y - b) := by
  rw [chord_right h, hc]
  have : (yb - (yb + m * (X - b))) / (b - X) = m := by
    rw [div_eq_iff (sub_pos.2 h).ne']; ring
  rw [this]; ring

/-- Costs of one interval with its split point, in logs. -/
noncomputable def logCost (a b X ya yb c L : ℝ) : ℝ := if L ≤ X then chord a X ya c L else chord X b c yb L

theorem logCost_gap {a b X ya yb c c' L : ℝ} (hX0 : a < X) (hX1 : X < b) (hL0 : a ≤ L) (hL1 : L ≤ b) (hc : c ≤ c') :
    logCost a b X ya yb c L ≤ logCost a b X ya yb c' L ∧ logCost a b X ya yb c' L ≤ logCost a b X ya yb c L + (c' - c) := by
  unfold logCost
  by_cases h : L ≤ X
  · rw [if_pos h, if_pos h]
    refine ⟨chord_mono hX0 hL0 h (le_refl _) hc, ?_⟩
    have hp : 0 < X - a := sub_pos.2 hX0
    have t0 : 0 ≤ (X - L) / (X - a) := div_nonneg (sub_nonneg.2 h) hp.le
    have := mul_nonneg t0 (sub_nonneg.2 hc)
    unfold chord
    linarith
  · rw [if_neg h, if_neg h]
    rw [not_le] at h
    refine ⟨chord_mono hX1 h.le hL1 hc (le_refl _), ?_⟩
    have hp : 0 < b - X := sub_pos.2 hX1
    have t1 : (b - L) / (b - X) ≤ 1 := by rw [div_le_one hp]; linarith
    have := mul_nonneg (sub_nonneg.2 t1) (sub_nonneg.2 hc)
    unfold chord
    linarith

variable {S F Sol : Type} [DecidableEq S]

/-- What is known of the interval that holds a value. -/
theorem leaf_facts {solve : PyDict S (Val ℝ F) → Except Err Sol} {cost sens : Sol → ℝ} {depth : Nat} {logtol : ℝ} {v : S}
    {lo hi : ℝ} (h0 : 0 < lo) {subs : PyDict S (Val ℝ F)} {s' : AS S ℝ F} {t : Tree ℝ Sol} {n : Nat} {tol : ℝ}
    (h : autosweep solve (getTol cost sens) depth logtol v lo hi subs = (s', .ok (t, n, tol))) {φ : ℝ → ℝ}
    (ht : Honest solve cost sens subs v φ lo hi) {value : ℝ} (hv0 : lo ≤ value) (hv1 : value ≤ hi) :
    t.lo = lo ∧ t.hi = hi ∧ ∃ a b sol0 sol1 x lb ub X, t.minBst value = .costed a b sol0 sol1 x lb ub ∧ (ub - lb) / 2 < logtol ∧
      Real.log lo ≤ Real.log a ∧ Real.log b ≤ Real.log hi ∧ Real.log a < Real.log b ∧ Real.log a ≤ Real.log value ∧ Real.log value ≤ Real.log b ∧
      Real.log (cost sol0) = φ (Real.log a) ∧ Real.log (cost sol1) = φ (Real.log b) ∧
      Slope φ (Real.log lo) (Real.log hi) (Real.log a) (sens sol0) ∧ Slope φ (Real.log lo) (Real.log hi) (Real.log b) (sens sol1) ∧
      sens sol0 ≤ sens sol1 ∧ Real.log x = X ∧ 0 < x ∧ Real.log a < X ∧ X < Real.log b ∧
      ub = chord (Real.log a) (Real.log b) (φ (Real.log a)) (φ (Real.log b)) X ∧
      ((lb = φ (Real.log a) + sens sol0 * (X - Real.log a) ∧ lb = φ (Real.log b) + sens sol1 * (X - Real.log b)) ∨
        (lb = ub ∧ (sens sol0 = sens sol1 ∨ ∃ θ, 0 ≤ θ ∧ θ ≤ 1 ∧
          (φ (Real.log b) - φ (Real.log a)) / (Real.log b - Real.log a) = sens sol0 + (sens sol1 - sens sol0) * θ ∧
          (θ < 1 / 10000000 ∨ 1 - 1 / 10000000 < θ)))) := by
  obtain ⟨w1, w2, w3, w4, _, w6, _⟩ := autosweep_ok solve (getTol cost sens) depth logtol v h0 subs h
  obtain ⟨b1, b2, b3, b4, _, b6⟩ := w1.minBst value (by rw [w2]; exact hv0) (by rw [w3]; exact hv1)
  obtain ⟨k, ⟨a, b, sol0, sol1, x, lb, ub, e1, e2, e3, e4⟩, _⟩ := w6 _ b6
  have hrange : ∀ p ∈ t.pts, lo ≤ p.1 ∧ p.1 ≤ hi := by
    intro p hp
    have hlt := w1.lt
    rw [w2, w3] at hlt
    rcases Tree.mem_pts.1 hp with rfl | hp | rfl
    · dsimp only; rw [w2]; exact ⟨le_refl _, hlt.le⟩
    · have := w1.mid.2 p hp
      rw [w2, w3] at this
      exact ⟨this.1.le, this.2.le⟩
    · dsimp only; rw [w3]; exact ⟨hlt.le, le_refl _⟩
  rw [e1] at b1 b2 b3 b4
  simp only [Tree.lo, Tree.hi, Tree.s0, Tree.s1] at b1 b2 b3 b4
  have ra := hrange _ b3
  have rb := hrange _ b4
  dsimp only at ra rb
  have ha0 : 0 < a := h0.trans_le ra.1
  have hb0 : 0 < b := h0.trans_le rb.1
  have hvp : 0 < value := h0.trans_le hv0
  obtain ⟨ya, sa⟩ := ht a ra.1 ra.2 sol0 (w4 _ b3)
  obtain ⟨yb, sb⟩ := ht b rb.1 rb.2 sol1 (w4 _ b4)
  have hab : a < b := by
    have : ∀ {t : Tree ℝ Sol}, t.WF → ∀ u ∈ t.leaves, u.lo < u.hi := by
      intro t ht
      induction ht with
      | fresh h => intro u hu; simp only [Tree.leaves, List.mem_singleton] at hu; subst hu; exact h
      | costed h _ => intro u hu; simp only [Tree.leaves, List.mem_singleton] at hu; subst hu; exact h
      | split _ _ _ _ _ _ _ _ _ _ i1 i2 =>
        intro u hu
        rcases List.mem_append.1 hu with hu | hu
        · exact i1 u hu
        · exact i2 u hu
    have := this w1 _ b6
    rw [e1] at this
    exact this
  have lab := Real.log_lt_log ha0 hab
  have lla := Real.log_le_log h0 ra.1
  have llb := Real.log_le_log hb0 rb.2
  obtain ⟨c1, X, c2, c3, c4, c5, c6⟩ := getTol_cases e2 ya yb rfl rfl rfl rfl lab
    (sa _ (lla.trans lab.le) llb) (sb _ lla (lab.le.trans llb))
  refine ⟨w2, w3, a, b, sol0, sol1, x, lb, ub, X, e1, e3 ▸ e4, lla, llb, lab, Real.log_le_log ha0 b1, Real.log_le_log hvp b2, ya, yb, sa, sb, c1,
    by rw [c2, Real.log_exp], by rw [c2]; exact Real.exp_pos _, c3, c4, c5, c6⟩

/-- `cost_at` for an interval whose lower bound is not zero. -/
theorem costAt_eq {cost : Sol → ℝ} {t : Tree ℝ Sol} {value : ℝ} (h0 : t.lo ≤ value) (h1 : value ≤ t.hi) (hv : 0 < value) {a b x lb ub : ℝ}
    {sol0 sol1 : Sol} (hm : t.minBst value = .costed a b sol0 sol1 x lb ub) (hlb : lb ≠ 0) (hx : 0 < x) (bd : Bound) :
    costAt cost t value bd = .ok (Real.exp (logCost (Real.log a) (Real.log b) (Real.log x) (Real.log (cost sol0)) (Real.log (cost sol1))
      (Real.log (splitcost bd lb ub)) (Real.log value))) := by
  unfold costAt
  rw [if_neg (by rw [not_or, not_lt, not_lt]; exact ⟨h0, h1⟩), hm]
  dsimp only
  rw [if_pos hlb]
  unfold logCost
  by_cases hle : value ≤ x
  · rw [if_pos hle, if_pos (Real.log_le_log hv hle)]
    rw [interpolate_eq rfl rfl]
  · rw [if_neg hle, if_neg (not_le.2 (Real.log_lt_log hx (not_le.1 hle)))]
    rw [interpolate_eq rfl rfl]

end Auto

section
open Auto
variable {S F Sol : Type} [DecidableEq S]

/-- C31 (upper bound): at every value in the range, the upper cost of a finished autosweep is not below the true cost. -/
theorem C31_upper {solve : PyDict S (Val ℝ F) → Except Err Sol} {cost sens : Sol → ℝ} {depth : Nat} {logtol : ℝ} {v : S}
    {lo hi : ℝ} (h0 : 0 < lo) {subs : PyDict S (Val ℝ F)} {s' : AS S ℝ F} {t : Tree ℝ Sol} {n : Nat} {tol : ℝ}
    (h : autosweep solve (getTol cost sens) depth logtol v lo hi subs = (s', .ok (t, n, tol))) {φ : ℝ → ℝ}
    (hc : ConvexOn ℝ (Icc (Real.log lo) (Real.log hi)) φ) (ht : Honest solve cost sens subs v φ lo hi) {value : ℝ} (hv0 : lo ≤ value)
    (hv1 : value ≤ hi) :
    ∃ u, costAt cost t value .ub = .ok u ∧ Real.exp (φ (Real.log value)) ≤ u := by
  obtain ⟨w2, w3, a, b, sol0, sol1, x, lb, ub, X, e1, _, e3, e4, e5, e6, e7, e8, e9, _, _, _, rfl, hx, f1, f2, f3, _⟩ := leaf_facts h0 h ht hv0 hv1
  have hvp : 0 < value := h0.trans_le hv0
  by_cases hlb : lb = 0
  · refine ⟨_, ?_, Real.exp_le_exp.2 (below_chord hc e3 e4 e5 e6 e7)⟩
    unfold costAt
    rw [if_neg (by rw [not_or, not_lt, not_lt, w2, w3]; exact ⟨hv0, hv1⟩), e1]
    dsimp only
    rw [if_neg (not_not.2 hlb), interpolate_eq e8 e9]
  · refine ⟨_, costAt_eq (w2 ▸ hv0) (w3 ▸ hv1) hvp e1 hlb hx .ub, Real.exp_le_exp.2 ?_⟩
    unfold splitcost logCost
    dsimp only
    rw [Real.log_exp, e8, e9]
    exact interval e3 e4 e5 f1 f2 e6 e7 hc f3.ge

/-- C31 (lower bound): at a value in an interval whose lower bound at the split point is not zero (see `C31_zero_fails`), the lower cost is
not above the true cost if the interval was not taken for a straight line (`lb < ub`) or is one. Otherwise it may be above (see
`C31_straight_fails`), by at most `(s1 - s0) * (log b - log a) / 10000000` in logs. The two bounds are closer than twice the tolerance, and the
estimate lies between them. -/
theorem C31_lower_partial {solve : PyDict S (Val ℝ F) → Except Err Sol} {cost sens : Sol → ℝ} {depth : Nat} {logtol : ℝ} {v : S}
    {lo hi : ℝ} (h0 : 0 < lo) {subs : PyDict S (Val ℝ F)} {s' : AS S ℝ F} {t : Tree ℝ Sol} {n : Nat} {tol : ℝ}
    (h : autosweep solve (getTol cost sens) depth logtol v lo hi subs = (s', .ok (t, n, tol))) {φ : ℝ → ℝ}
    (ht : Honest solve cost sens subs v φ lo hi) {value : ℝ} (hv0 : lo ≤ value) (hv1 : value ≤ hi)
    {a b x lb ub : ℝ} {sol0 sol1 : Sol} (hm : t.minBst value = .costed a b sol0 sol1 x lb ub) (hlb : lb ≠ 0) :
    ∃ l m u, costAt cost t value .lb = .ok l ∧ costAt cost t value .mean = .ok m ∧ costAt cost t value .ub = .ok u ∧
      (sens sol0 = sens sol1 ∨ lb < ub → l ≤ Real.exp (φ (Real.log value))) ∧
      l ≤ Real.exp (φ (Real.log value) + (sens sol1 - sens sol0) * (Real.log b - Real.log a) / 10000000) ∧
      l ≤ m ∧ m ≤ u ∧ u < l * Real.exp (2 * logtol) := by
  obtain ⟨w2, w3, a', b', sol0', sol1', x', lb', ub', X, e1, e2, e3, e4, e5, e6, e7, e8, e9, g0, g1, gs, rfl, hx, f1, f2, f3, f4⟩ :=
    leaf_facts h0 h ht hv0 hv1
  have hvp : 0 < value := h0.trans_le hv0
  rw [hm] at e1
  cases e1
  have hle : lb ≤ ub := by
    rcases f4 with ⟨q1, q2⟩ | ⟨q1, _⟩
    · -- both tangents are below the chord
      have h1 := g0 _ (e3.trans e5.le) e4
      have hp : 0 < Real.log b - Real.log a := sub_pos.2 e5
      rw [f3, chord_left e5, q1]
      have : sens sol0 ≤ (φ (Real.log b) - φ (Real.log a)) / (Real.log b - Real.log a) := by
        rw [le_div_iff₀ hp]; linarith
      have := mul_le_mul_of_nonneg_right this (sub_nonneg.2 f1.le)
      linarith
    · exact q1.le
  have la := g0 _ (e3.trans e6) (e7.trans e4)
  have lb' := g1 _ (e3.trans e6) (e7.trans e4)
  set L := Real.log value with hL
  set A := Real.log a with hA
  set B := Real.log b with hB
  have hp : 0 < B - A := sub_pos.2 e5
  -- straight lines
  have straight : lb = ub → logCost A B (Real.log x) (φ A) (φ B) lb L = chord A B (φ A) (φ B) L := by
    intro he
    unfold logCost
    rw [he, f3]
    by_cases hx' : L ≤ Real.log x
    · rw [if_pos hx', on_line f1 (chord_left e5 _ _ _), chord_left e5]
    · rw [if_neg hx', on_line' (m := (φ B - φ A) / (B - A)) f2 (by rw [chord_right e5]; ring), chord_right e5]; ring
  have regular : (lb = φ A + sens sol0 * (Real.log x - A) ∧ lb = φ B + sens sol1 * (Real.log x - B)) →
      logCost A B (Real.log x) (φ A) (φ B) lb L ≤ φ L := by
    rintro ⟨q1, q2⟩
    unfold logCost
    by_cases hx' : L ≤ Real.log x
    · rw [if_pos hx', on_line f1 q1]; exact la
    · rw [if_neg hx', on_line' f2 q2]; exact lb'
  have slack : 0 ≤ (sens sol1 - sens sol0) * (B - A) / 10000000 :=
    div_nonneg (mul_nonneg (sub_nonneg.2 gs) hp.le) (by norm_num)
  have hgap := fun c => logCost_gap (ya := φ A) (yb := φ B) (c := lb) (c' := c) f1 f2 e6 e7
  refine ⟨_, _, _, costAt_eq (w2 ▸ hv0) (w3 ▸ hv1) hvp hm hlb hx .lb, costAt_eq (w2 ▸ hv0) (w3 ▸ hv1) hvp hm hlb hx .mean,
    costAt_eq (w2 ▸ hv0) (w3 ▸ hv1) hvp hm hlb hx .ub, ?_⟩
  simp only [splitcost, Real.log_exp, e8, e9]
  refine ⟨?_, ?_, ?_, ?_, ?_⟩
  · intro hcase
    apply Real.exp_le_exp.2
    rcases f4 with q | ⟨q1, q2⟩
    · exact regular q
    · rcases hcase with hs | hlt
      · rw [straight q1, chord_left e5]
        have h1 := g0 _ (e3.trans e5.le) e4
        have h2 := g1 _ e3 (e5.le.trans e4)
        have : (φ B - φ A) / (B - A) = sens sol0 := by
          rw [div_eq_iff hp.ne']
          rw [← hs] at h2
          have : φ B - φ A ≤ sens sol0 * (B - A) := by linarith
          have : sens sol0 * (B - A) ≤ φ B - φ A := by linarith
          linarith
        rw [this]; exact la
      · exact absurd q1 hlt.ne
  · apply Real.exp_le_exp.2
    rcases f4 with q | ⟨q1, q2⟩
    · linarith [regular q]
    · rw [straight q1]
      rcases q2 with hs | ⟨θ, t0, t1, tm, tt⟩
      · have h1 := g0 _ (e3.trans e5.le) e4
        have h2 := g1 _ e3 (e5.le.trans e4)
        have : (φ B - φ A) / (B - A) = sens sol0 := by
          rw [div_eq_iff hp.ne']
          rw [← hs] at h2
          linarith
        rw [chord_left e5, this]
        linarith
      · have hd : 0 ≤ sens sol1 - sens sol0 := sub_nonneg.2 gs
        rcases tt with tt | tt
        · rw [chord_left e5, tm]
          have k1 : (sens sol1 - sens sol0) * θ * (L - A) ≤ (sens sol1 - sens sol0) * (1 / 10000000) * (B - A) :=
            mul_le_mul (mul_le_mul_of_nonneg_left tt.le hd) (by linarith) (sub_nonneg.2 e6) (mul_nonneg hd (by norm_num))
          nlinarith
        · rw [chord_right e5, tm]
          have k1 : (sens sol1 - sens sol0) * (1 - θ) * (B - L) ≤ (sens sol1 - sens sol0) * (1 / 10000000) * (B - A) :=
            mul_le_mul (mul_le_mul_of_nonneg_left (by linarith) hd) (by linarith) (sub_nonneg.2 e7) (mul_nonneg hd (by norm_num))
          nlinarith
  · exact Real.exp_le_exp.2 (hgap _ (by linarith)).1
  · exact Real.exp_le_exp.2 (logCost_gap f1 f2 e6 e7 (by linarith)).1
  · rw [← Real.exp_add]
    apply Real.exp_lt_exp.2
    have := (hgap ub hle).2
    linarith

/-- A solver that knows the true log cost `φ` and slopes `g`. -/
noncomputable def trueSolve (φ g : ℝ → ℝ) (subs : PyDict String (Val ℝ Unit)) : Except Err (ℝ × ℝ) :=
  match subs.get? "x" with
  | some (.num x) => .ok (Real.exp (φ (Real.log x)), g (Real.log x))
  | _ => .error .keyError

theorem trueSolve_honest {φ g : ℝ → ℝ} {a b : ℝ} (hg : ∀ y, a ≤ y → y ≤ b → Slope φ a b y (g y)) :
    Honest (trueSolve φ g) (·.1) (·.2) [] "x" φ (Real.exp a) (Real.exp b) := by
  intro x h1 h2 sol hs
  have hx : 0 < x := (Real.exp_pos a).trans_le h1
  have e : trueSolve φ g (PyDict.set [] "x" (.num x)) = .ok (Real.exp (φ (Real.log x)), g (Real.log x)) := by
    simp [trueSolve, PyDict.set, PyDict.get?]
  rw [e] at hs
  cases hs
  rw [Real.log_exp, Real.log_exp]
  dsimp only
  rw [Real.log_exp]
  exact ⟨rfl, hg _ ((Real.le_log_iff_exp_le hx).2 h1) ((Real.log_le_iff_le_exp hx).2 h2)⟩

/-- An autosweep that is within tolerance at once. -/
theorem at_once {φ g : ℝ → ℝ} {a b X lb ub logtol : ℝ} (hab : a < b)
    (hg : getTol (·.1) (·.2) (Real.exp a) (Real.exp b) (Real.exp (φ a), g a) (Real.exp (φ b), g b) = (Real.exp X, lb, ub))
    (h0 : a < X) (h1 : X < b) (ht : (ub - lb) / 2 < logtol) :
    autosweep (trueSolve φ g) (getTol (·.1) (·.2)) 1 logtol "x" (Real.exp a) (Real.exp b) [] =
      (⟨[], 3⟩, .ok (.costed (Real.exp a) (Real.exp b) (Real.exp (φ a), g a) (Real.exp (φ b), g b) (Real.exp X) lb ub, 2, (ub - lb) / 2)) := by
  have f : firstSols (trueSolve φ g) "x" [Real.exp a, Real.exp b] ⟨[], 0⟩ =
      (⟨[("x", .num (Real.exp b))], 2⟩, .ok [(Real.exp (φ a), g a), (Real.exp (φ b), g b)]) := by
    simp [firstSols, trueSolve, PyDict.set, PyDict.get?, Real.log_exp]
  have m : Tree.make (Real.exp a) (Real.exp b) (Real.exp (φ a), g a) (Real.exp (φ b), g b) =
      .ok (.fresh (Real.exp a) (Real.exp b) (Real.exp (φ a), g a) (Real.exp (φ b), g b)) := by
    unfold Tree.make
    rw [if_neg (not_le.2 (Real.exp_lt_exp.2 hab))]
  have ac : (Tree.fresh (Real.exp a) (Real.exp b) (Real.exp (φ a), g a) (Real.exp (φ b), g b)).addSplitcost (Real.exp X) lb ub =
      .ok (.costed (Real.exp a) (Real.exp b) (Real.exp (φ a), g a) (Real.exp (φ b), g b) (Real.exp X) lb ub) := by
    unfold Tree.addSplitcost
    rw [if_neg (by simp [Tree.hasSplitval]), if_neg]
    · rfl
    · rw [not_or, not_le, not_le]
      exact ⟨Real.exp_lt_exp.2 h0, Real.exp_lt_exp.2 h1⟩
  unfold autosweep
  dsimp only
  rw [f]
  dsimp only
  rw [m]
  dsimp only
  unfold recurse
  simp only [Tree.lo, Tree.hi, Tree.s0, Tree.s1, hg]
  rw [if_neg (not_le.2 ht), ac]
  simp [restore, truth, PyDict.get?, PyDict.del]

theorem convex_abs (c : ℝ) (s : Set ℝ) (hs : Convex ℝ s) : ConvexOn ℝ s (fun y => |y - 1| + c) := by
  refine ⟨hs, ?_⟩
  intro x _ y _ p q hp hq hpq
  simp only [smul_eq_mul]
  have e : p * x + q * y - 1 = p * (x - 1) + q * (y - 1) := by linear_combination hpq
  rw [e]
  have := abs_add_le (p * (x - 1)) (q * (y - 1))
  rw [abs_mul, abs_mul, abs_of_nonneg hp, abs_of_nonneg hq] at this
  have : p * c + q * c = c := by rw [← add_mul, hpq, one_mul]
  linarith

theorem slope_abs (c a b y : ℝ) : Slope (fun y => |y - 1| + c) a b y (if y < 1 then -1 else 1) := by
  intro z _ _
  dsimp only
  by_cases h : y < 1
  · rw [if_pos h, abs_of_neg (by linarith)]
    linarith [neg_abs_le (z - 1)]
  · rw [if_neg h, abs_of_nonneg (by linarith)]
    linarith [le_abs_self (z - 1)]

theorem getTol_abs (c : ℝ) : getTol (·.1) (·.2) (Real.exp 0) (Real.exp 2) (Real.exp (|0 - 1| + c), (if (0 : ℝ) < 1 then (-1 : ℝ) else 1))
    (Real.exp (|2 - 1| + c), (if (2 : ℝ) < 1 then (-1 : ℝ) else 1)) = (Real.exp 1, c, 1 + c) := by
  unfold getTol
  simp only [Real.log_exp]
  have h1 : |(0 : ℝ) - 1| = 1 := by norm_num
  have h2 : |(2 : ℝ) - 1| = 1 := by norm_num
  rw [h1, h2]
  norm_num
  ring

/-- The theorems apply: log cost `|y - 1| + 1` for the log `y` of the swept variable between 0 and 2. -/
example {value : ℝ} (hv0 : Real.exp 0 ≤ value) (hv1 : value ≤ Real.exp 2) :=
  And.intro (C31_upper (Real.exp_pos 0) (at_once (by norm_num) (getTol_abs 1) (by norm_num) (by norm_num) (logtol := 1) (by norm_num))
    (convex_abs 1 _ (convex_Icc _ _)) (trueSolve_honest (fun y _ _ => slope_abs 1 0 2 y)) hv0 hv1)
  (C31_lower_partial (Real.exp_pos 0) (at_once (by norm_num) (getTol_abs 1) (by norm_num) (by norm_num) (logtol := 1) (by norm_num))
    (trueSolve_honest (fun y _ _ => slope_abs 1 0 2 y)) hv0 hv1 rfl one_ne_zero)

/-- C31 is violated where the log of the lower bound is exactly zero, because the code takes zero for missing: with log cost `|y - 1|` the
lower cost at the kink is `e`, the true cost 1. -/
theorem C31_zero_fails : ∃ (φ g : ℝ → ℝ) (t : Tree ℝ (ℝ × ℝ)) (s' : AS String ℝ Unit) (n : Nat) (tol l : ℝ),
    ConvexOn ℝ (Icc 0 2) φ ∧ Honest (trueSolve φ g) (·.1) (·.2) [] "x" φ (Real.exp 0) (Real.exp 2) ∧
    autosweep (trueSolve φ g) (getTol (·.1) (·.2)) 1 1 "x" (Real.exp 0) (Real.exp 2) [] = (s', .ok (t, n, tol)) ∧
    costAt (·.1) t (Real.exp 1) .lb = .ok l ∧ Real.exp (φ (Real.log (Real.exp 1))) < l := by
  refine ⟨fun y => |y - 1| + 0, fun y => if y < 1 then -1 else 1, _, _, _, _, Real.exp 1, convex_abs 0 _ (convex_Icc _ _),
    trueSolve_honest (fun y _ _ => slope_abs 0 0 2 y),
    at_once (by norm_num) (getTol_abs 0) (by norm_num) (by norm_num) (by norm_num), ?_, ?_⟩
  · unfold costAt
    rw [if_neg (by simp only [Tree.lo, Tree.hi, Real.exp_lt_exp]; norm_num)]
    simp only [Tree.minBst, ne_eq, not_true_eq_false, if_false]
    unfold interpolate
    simp only [Real.log_exp]
    congr 2
    norm_num
  · rw [Real.log_exp]
    simp

/-- A log cost with a steep end: zero up to `1 - 1 / 100000000`, ten at 1. -/
noncomputable def steep (y : ℝ) : ℝ := max 0 (1000000000 * (y - 1) + 10)

/-- C31 is violated for costs that rise steeply near an end of an interval, which the code takes for straight lines: the lower cost at `e ^ (1/2)` is
`e ^ 5`, the true cost 1. -/
theorem C31_straight_fails : ∃ (g : ℝ → ℝ) (t : Tree ℝ (ℝ × ℝ)) (s' : AS String ℝ Unit) (n : Nat) (tol l : ℝ),
    ConvexOn ℝ (Icc 0 1) steep ∧ Honest (trueSolve steep g) (·.1) (·.2) [] "x" steep (Real.exp 0) (Real.exp 1) ∧
    autosweep (trueSolve steep g) (getTol (·.1) (·.2)) 1 (1 / 100) "x" (Real.exp 0) (Real.exp 1) [] = (s', .ok (t, n, tol)) ∧
    costAt (·.1) t (Real.exp (1 / 2)) .lb = .ok l ∧ l = Real.exp 5 ∧ Real.exp (steep (Real.log (Real.exp (1 / 2)))) = 1 := by
  have s0 : steep 0 = 0 := by unfold steep; norm_num
  have s1 : steep 1 = 10 := by unfold steep; norm_num
  have hs : ∀ y, Slope steep 0 1 y (if y < 1 - 1 / 100000000 then 0 else 1000000000) := by
    intro y z _ _
    unfold steep
    by_cases h : y < 1 - 1 / 100000000
    · rw [if_pos h, max_eq_left (by linarith)]
      simp
    · rw [if_neg h, max_eq_right (by linarith)]
      refine le_trans (le_of_eq ?_) (le_max_right _ _)
      ring
  have hg : getTol (·.1) (·.2) (Real.exp 0) (Real.exp 1)
      (Real.exp (steep 0), (fun y : ℝ => if y < 1 - 1 / 100000000 then (0 : ℝ) else 1000000000) 0)
      (Real.exp (steep 1), (fun y : ℝ => if y < 1 - 1 / 100000000 then (0 : ℝ) else 1000000000) 1) = (Real.exp (1 / 2), 5, 5) := by
    unfold getTol
    simp only [Real.log_exp, s0, s1]
    norm_num
  refine ⟨fun y => if y < 1 - 1 / 100000000 then 0 else 1000000000, _, _, _, _, _, ?_, trueSolve_honest (fun y _ _ => hs y),
    at_once (by norm_num) hg (by norm_num) (by norm_num) (by norm_num), ?_, rfl, ?_⟩
  · have h1 : ConvexOn ℝ (Icc (0 : ℝ) 1) (fun _ : ℝ => (0 : ℝ)) := convexOn_const 0 (convex_Icc _ _)
    have h2 : ConvexOn ℝ (Icc (0 : ℝ) 1) (fun y : ℝ => 1000000000 * (y - 1) + 10) := by
      refine ⟨convex_Icc _ _, ?_⟩
      intro x _ y _ p q _ _ hpq
      simp only [smul_eq_mul]
      exact le_of_eq (by linear_combination (999999990 : ℝ) * hpq)
    exact h1.sup h2
  · unfold costAt
    rw [if_neg (by simp only [Tree.lo, Tree.hi, Real.exp_lt_exp]; norm_num)]
    simp only [Tree.minBst]
    rw [if_pos (by norm_num), if_pos (le_refl _)]
    unfold interpolate splitcost
    simp only [Real.log_exp, s0]
    congr 2
    norm_num
  · rw [Real.log_exp]
    unfold steep
    norm_num

end
end Verif
