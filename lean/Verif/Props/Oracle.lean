import Verif.Props.AutoBounds
import Verif.Spec.Oracle
import Verif.Lemmas.Nomial
import Mathlib.Analysis.MeanInequalities

/-! C71: values sampled from autosweeps. -/

set_option linter.unusedSectionVars false

namespace Verif
open PyDict
namespace Auto

/-! ## Weighted geometric means -/

/-- A weighted geometric mean. -/
noncomputable def geo (θ a b : ℝ) : ℝ := Real.exp (θ * Real.log a + (1 - θ) * Real.log b)

theorem geo_pos (θ a b : ℝ) : 0 < geo θ a b := Real.exp_pos _

theorem log_geo (θ a b : ℝ) : Real.log (geo θ a b) = θ * Real.log a + (1 - θ) * Real.log b := Real.log_exp _

theorem geo_self {a : ℝ} (θ : ℝ) (h : 0 < a) : geo θ a a = a := by
  unfold geo
  rw [← add_mul, add_sub_cancel, one_mul, Real.exp_log h]

theorem geo_one {a b : ℝ} (h : 0 < a) : geo 1 a b = a := by
  unfold geo
  rw [one_mul, sub_self, zero_mul, add_zero, Real.exp_log h]

theorem geo_zero {a b : ℝ} (h : 0 < b) : geo 0 a b = b := by
  unfold geo
  rw [zero_mul, sub_zero, one_mul, zero_add, Real.exp_log h]

theorem geo_mul {θ a b c d : ℝ} (ha : 0 < a) (hb : 0 < b) (hc : 0 < c) (hd : 0 < d) : geo θ (a * c) (b * d) = geo θ a b * geo θ c d := by
  unfold geo
  rw [Real.log_mul ha.ne' hc.ne', Real.log_mul hb.ne' hd.ne', ← Real.exp_add]
  congr 1
  ring

theorem geo_le {θ a b a' b' : ℝ} (h0 : 0 ≤ θ) (h1 : θ ≤ 1) (ha : 0 < a) (hb : 0 < b) (haa : a ≤ a') (hbb : b ≤ b') : geo θ a b ≤ geo θ a' b' :=
  Real.exp_le_exp.2 (add_le_add (mul_le_mul_of_nonneg_left (Real.log_le_log ha haa) h0)
    (mul_le_mul_of_nonneg_left (Real.log_le_log hb hbb) (sub_nonneg.2 h1)))

theorem geo_le_arith {θ a b : ℝ} (h0 : 0 ≤ θ) (h1 : θ ≤ 1) (ha : 0 < a) (hb : 0 < b) : geo θ a b ≤ θ * a + (1 - θ) * b := by
  have h := Real.geom_mean_le_arith_mean2_weighted h0 (sub_nonneg.2 h1) ha.le hb.le (by ring)
  refine le_trans (le_of_eq ?_) h
  unfold geo
  rw [Real.rpow_def_of_pos ha, Real.rpow_def_of_pos hb, ← Real.exp_add]
  congr 1
  ring

section
variable {S : Type} [DecidableEq S]

theorem monVal_geo {p q : S → ℝ} (hp : ∀ w, 0 < p w) (hq : ∀ w, 0 < q w) (θ : ℝ) (e : List (S × ℝ)) :
    monVal (fun w => geo θ (p w) (q w)) e = geo θ (monVal p e) (monVal q e) := by
  induction e with
  | nil => simp [monVal, geo]
  | cons k e ih =>
    have hm : ∀ {p : S → ℝ}, (∀ w, 0 < p w) → 0 < monVal p e := fun hp => monVal_pos hp _
    have h1 : ∀ p : S → ℝ, monVal p (k :: e) = p k.1 ^ k.2 * monVal p e := fun p => by simp [monVal]
    rw [h1, h1, h1, ih, geo_mul (Real.rpow_pos_of_pos (hp _) _) (Real.rpow_pos_of_pos (hq _) _) (hm hp) (hm hq)]
    congr 1
    rw [Real.rpow_def_of_pos (geo_pos _ _ _), log_geo]
    unfold geo
    rw [Real.log_rpow (hp _), Real.log_rpow (hq _)]
    congr 1
    ring

theorem term_geo {p q : S → ℝ} (hp : ∀ w, 0 < p w) (hq : ∀ w, 0 < q w) (θ : ℝ) {t : HV S ℝ × ℝ} (ht : 0 < t.2) :
    t.2 * monVal (fun w => geo θ (p w) (q w)) t.1.items = geo θ (t.2 * monVal p t.1.items) (t.2 * monVal q t.1.items) := by
  rw [geo_mul ht ht (monVal_pos hp _) (monVal_pos hq _), geo_self _ ht, monVal_geo hp hq]

theorem termsVal_pos' {pt : S → ℝ} (hpt : ∀ v, 0 < pt v) {ts : PyDict (HV S ℝ) ℝ} (hne : ts ≠ []) (hpos : ∀ t ∈ ts, 0 < t.2) :
    0 < termsVal pt ts := by
  unfold termsVal
  apply List.sum_pos
  · intro x hx
    obtain ⟨t, ht, rfl⟩ := List.mem_map.1 hx
    exact mul_pos (hpos t ht) (monVal_pos hpt _)
  · simpa using hne

/-- Posynomials are convex in logs. -/
theorem termsVal_geo {p q : S → ℝ} (hp : ∀ w, 0 < p w) (hq : ∀ w, 0 < q w) {θ : ℝ} (h0 : 0 ≤ θ) (h1 : θ ≤ 1) {ts : PyDict (HV S ℝ) ℝ} (hne : ts ≠ [])
    (hpos : ∀ t ∈ ts, 0 < t.2) : termsVal (fun w => geo θ (p w) (q w)) ts ≤ geo θ (termsVal p ts) (termsVal q ts) := by
  have hA := termsVal_pos' hp hne hpos
  have hB := termsVal_pos' hq hne hpos
  generalize hA' : termsVal p ts = A at *
  generalize hB' : termsVal q ts = B at *
  have hG := geo_pos θ A B
  have key : ∀ l : PyDict (HV S ℝ) ℝ, (∀ t ∈ l, 0 < t.2) →
      termsVal (fun w => geo θ (p w) (q w)) l ≤ geo θ A B * (θ * (termsVal p l / A) + (1 - θ) * (termsVal q l / B)) := by
    intro l hl
    induction l with
    | nil => simp
    | cons t l ih =>
      have ht := hl t (List.mem_cons_self ..)
      have ih := ih (fun u hu => hl u (List.mem_cons_of_mem _ hu))
      rw [termsVal_cons, termsVal_cons, termsVal_cons, term_geo hp hq θ ht]
      have hm := mul_pos ht (monVal_pos hp t.1.items)
      have hn := mul_pos ht (monVal_pos hq t.1.items)
      generalize t.2 * monVal p t.1.items = m at *
      generalize t.2 * monVal q t.1.items = n at *
      have hg : geo θ m n = geo θ A B * geo θ (m / A) (n / B) := by
        rw [← geo_mul hA hB (div_pos hm hA) (div_pos hn hB), mul_div_cancel₀ _ hA.ne', mul_div_cancel₀ _ hB.ne']
      have h2 := mul_le_mul_of_nonneg_left (geo_le_arith h0 h1 (div_pos hm hA) (div_pos hn hB)) hG.le
      rw [hg, add_div, add_div]
      calc _ ≤ _ := add_le_add h2 ih
        _ = _ := by ring
  refine (key ts hpos).trans (le_of_eq ?_)
  rw [hA', hB', div_self hA.ne', div_self hB.ne']
  ring

theorem termsVal_geo_one {p q : S → ℝ} (hp : ∀ w, 0 < p w) (hq : ∀ w, 0 < q w) (θ : ℝ) {ts : PyDict (HV S ℝ) ℝ} (hl : ts.length = 1)
    (hpos : ∀ t ∈ ts, 0 < t.2) : termsVal (fun w => geo θ (p w) (q w)) ts = geo θ (termsVal p ts) (termsVal q ts) := by
  obtain ⟨t, rfl⟩ := List.length_eq_one_iff.1 hl
  have ht := hpos t (List.mem_singleton_self t)
  simp only [termsVal_cons, termsVal_nil, add_zero]
  exact term_geo hp hq θ ht

end

/-! ## Intervals -/

/-- The upper bound of `get_tol` is on the line between the two solutions, whatever the sensitivities are. -/
theorem getTol_line {Sol : Type} {cost sens : Sol → ℝ} {lo hi : ℝ} {sol0 sol1 : Sol} {x lb ub : ℝ}
    (h : getTol cost sens lo hi sol0 sol1 = (x, lb, ub)) (hab : Real.log lo < Real.log hi) :
    ∃ X, x = Real.exp X ∧ Real.log lo < X ∧ X < Real.log hi ∧
      ub = chord (Real.log lo) (Real.log hi) (Real.log (cost sol0)) (Real.log (cost sol1)) X := by
  unfold getTol at h
  dsimp only at h
  generalize Real.log lo = a at *
  generalize Real.log hi = b at *
  generalize Real.log (cost sol0) = y0 at *
  generalize Real.log (cost sol1) = y1 at *
  generalize sens sol0 = s0 at *
  generalize sens sol1 = s1 at *
  have hp : 0 < b - a := sub_pos.2 hab
  have mid : a < (a + b) / 2 ∧ (a + b) / 2 < b ∧ (y0 + y1) / 2 = chord a b y0 y1 ((a + b) / 2) := by
    refine ⟨by linarith, by linarith, ?_⟩
    unfold chord
    have : b - a ≠ 0 := hp.ne'
    field_simp
    ring
  by_cases hd : s0 - s1 = 0
  · rw [if_pos hd] at h
    rw [if_pos (Or.inl (by norm_num))] at h
    simp only [Prod.mk.injEq] at h
    obtain ⟨rfl, -, rfl⟩ := h
    exact ⟨_, rfl, mid⟩
  · rw [if_neg hd] at h
    generalize (y1 - y0 + a * s0 - b * s1) / (s0 - s1) = X at *
    by_cases hi' : (b - X) / (b - a) < 1 / 10000000 ∨ 1 - 1 / 10000000 < (b - X) / (b - a)
    · rw [if_pos hi'] at h
      simp only [Prod.mk.injEq] at h
      obtain ⟨rfl, -, rfl⟩ := h
      exact ⟨_, rfl, mid⟩
    · rw [if_neg hi'] at h
      simp only [Prod.mk.injEq] at h
      obtain ⟨rfl, -, rfl⟩ := h
      rw [not_or, not_lt, not_lt] at hi'
      refine ⟨X, rfl, ?_, ?_, by unfold chord; ring⟩
      · have : (b - X) / (b - a) < 1 := lt_of_le_of_lt hi'.2 (by norm_num)
        rw [div_lt_one hp] at this
        linarith
      · have : 0 < (b - X) / (b - a) := lt_of_lt_of_le (by norm_num) hi'.1
        rw [div_pos_iff] at this
        rcases this with h | h <;> linarith [h.1, h.2]

theorem Flt.log_pos {x : ℝ} (h : 0 < x) : Flt.log x = .num (Real.log x) := by unfold Flt.log; rw [if_pos h]

section
variable {S F Sol : Type} [DecidableEq S]

theorem WF.leaf_lt {t : Tree ℝ Sol} (ht : t.WF) : ∀ u ∈ t.leaves, u.lo < u.hi := by
  induction ht with
  | fresh h => intro u hu; simp only [Tree.leaves, List.mem_singleton] at hu; subst hu; exact h
  | costed h _ => intro u hu; simp only [Tree.leaves, List.mem_singleton] at hu; subst hu; exact h
  | split _ _ _ _ _ _ _ _ _ _ i1 i2 =>
    intro u hu
    rcases List.mem_append.1 hu with hu | hu
    · exact i1 u hu
    · exact i2 u hu

theorem WF.range {t : Tree ℝ Sol} (w1 : t.WF) : ∀ p ∈ t.pts, t.lo ≤ p.1 ∧ p.1 ≤ t.hi := by
  intro p hp
  have hlt := w1.lt
  rcases Tree.mem_pts.1 hp with rfl | hp | rfl
  · exact ⟨le_refl _, hlt.le⟩
  · have := w1.mid.2 p hp
    exact ⟨this.1.le, this.2.le⟩
  · exact ⟨hlt.le, le_refl _⟩

/-- The weight of the lower solution. -/
noncomputable def weight (a b value : ℝ) : ℝ := (Real.log b - Real.log value) / (Real.log b - Real.log a)

theorem weight_range {a b value : ℝ} (ha : 0 < a) (hab : a < b) (h0 : a ≤ value) (h1 : value ≤ b) : 0 ≤ weight a b value ∧ weight a b value ≤ 1 := by
  have hp : 0 < Real.log b - Real.log a := sub_pos.2 (Real.log_lt_log ha hab)
  have e0 := Real.log_le_log ha h0
  have e1 := Real.log_le_log (ha.trans_le h0) h1
  unfold weight
  exact ⟨div_nonneg (by linarith) hp.le, by rw [div_le_one hp]; linarith⟩

theorem geo_weight {a b value : ℝ} (ha : 0 < a) (hab : a < b) (h0 : a ≤ value) : geo (weight a b value) a b = value := by
  have hp : Real.log b - Real.log a ≠ 0 := (sub_pos.2 (Real.log_lt_log ha hab)).ne'
  have : weight a b value * Real.log a + (1 - weight a b value) * Real.log b = Real.log value := by
    unfold weight; field_simp; ring
  unfold geo
  rw [this, Real.exp_log (ha.trans_le h0)]

theorem weight_lo {a b : ℝ} (ha : 0 < a) (hab : a < b) : weight a b a = 1 :=
  div_self (sub_pos.2 (Real.log_lt_log ha hab)).ne'

theorem weight_hi (a b : ℝ) : weight a b b = 0 := by unfold weight; rw [sub_self, zero_div]

/-- What is known of the interval that holds a value, whatever the solver does. -/
theorem leaf_of {solve : PyDict S (Val ℝ F) → Except Err Sol} {cost sens : Sol → ℝ} {depth : Nat} {logtol : ℝ} {v : S}
    {lo hi : ℝ} (h0 : 0 < lo) {subs : PyDict S (Val ℝ F)} {s' : AS S ℝ F} {t : Tree ℝ Sol} {n : Nat} {tol : ℝ}
    (h : autosweep solve (getTol cost sens) depth logtol v lo hi subs = (s', .ok (t, n, tol))) {value : ℝ} (hv0 : lo ≤ value) (hv1 : value ≤ hi) :
    t.lo = lo ∧ t.hi = hi ∧ ∃ a b sol0 sol1 x lb ub X, t.minBst value = .costed a b sol0 sol1 x lb ub ∧ lo ≤ a ∧ a < b ∧ b ≤ hi ∧ a ≤ value ∧ value ≤ b ∧
      solve (subs.set v (.num a)) = .ok sol0 ∧ solve (subs.set v (.num b)) = .ok sol1 ∧
      x = Real.exp X ∧ Real.log a < X ∧ X < Real.log b ∧ ub = chord (Real.log a) (Real.log b) (Real.log (cost sol0)) (Real.log (cost sol1)) X := by
  obtain ⟨w1, w2, w3, w4, _, w6, _⟩ := autosweep_ok solve (getTol cost sens) depth logtol v h0 subs h
  obtain ⟨b1, b2, b3, b4, _, b6⟩ := w1.minBst value (by rw [w2]; exact hv0) (by rw [w3]; exact hv1)
  obtain ⟨k, ⟨a, b, sol0, sol1, x, lb, ub, e1, e2, e3, e4⟩, _⟩ := w6 _ b6
  have hlt := WF.leaf_lt w1 _ b6
  rw [e1] at b1 b2 b3 b4 hlt
  simp only [Tree.lo, Tree.hi, Tree.s0, Tree.s1] at b1 b2 b3 b4 hlt
  have ra := WF.range w1 _ b3
  have rb := WF.range w1 _ b4
  rw [w2, w3] at ra rb
  dsimp only at ra rb
  have ha0 : 0 < a := h0.trans_le ra.1
  obtain ⟨X, c2, c3, c4, c5⟩ := getTol_line e2 (Real.log_lt_log ha0 hlt)
  exact ⟨w2, w3, a, b, sol0, sol1, x, lb, ub, X, e1, ra.1, hlt, rb.2, b1, b2, w4 _ b3, w4 _ b4, c2, c3, c4, c5⟩

theorem posyAt_eq {val : Sol → ℝ} {t : Tree ℝ Sol} {value : ℝ} (h0 : t.lo ≤ value) (h1 : value ≤ t.hi) {a b x lb ub : ℝ} {sol0 sol1 : Sol}
    (hm : t.minBst value = .costed a b sol0 sol1 x lb ub) (hp : 0 < val sol0) (hq : 0 < val sol1) :
    posyAt val t value = .ok (.num (geo (weight a b value) (val sol0) (val sol1))) := by
  unfold posyAt
  rw [if_neg (by rw [not_or, not_lt, not_lt]; exact ⟨h0, h1⟩), hm]
  simp only [Tree.lo, Tree.hi, Tree.s0, Tree.s1, Flt.log_pos hp, Flt.log_pos hq, Flt.scale, Flt.add, Flt.exp]
  rfl

/-- `cost_at` with the upper bound is the line between the two solutions. -/
theorem costAt_ub {cost : Sol → ℝ} {t : Tree ℝ Sol} {value : ℝ} (h0 : t.lo ≤ value) (h1 : value ≤ t.hi) {a b x lb ub X : ℝ} {sol0 sol1 : Sol}
    (hm : t.minBst value = .costed a b sol0 sol1 x lb ub) (ha : 0 < a) (hva : a ≤ value) (hx : x = Real.exp X)
    (hX0 : Real.log a < X) (hX1 : X < Real.log b) (hub : ub = chord (Real.log a) (Real.log b) (Real.log (cost sol0)) (Real.log (cost sol1)) X) :
    costAt cost t value .ub = .ok (geo (weight a b value) (cost sol0) (cost sol1)) := by
  have hab : Real.log a < Real.log b := hX0.trans hX1
  by_cases hlb : lb = 0
  · unfold costAt
    rw [if_neg (by rw [not_or, not_lt, not_lt]; exact ⟨h0, h1⟩), hm]
    dsimp only
    rw [if_neg (not_not.2 hlb)]
    rfl
  · rw [costAt_eq h0 h1 (ha.trans_le hva) hm hlb (hx ▸ Real.exp_pos _) .ub]
    unfold splitcost logCost
    dsimp only
    rw [Real.log_exp, hx, Real.log_exp]
    have e : geo (weight a b value) (cost sol0) (cost sol1) =
        Real.exp (chord (Real.log a) (Real.log b) (Real.log (cost sol0)) (Real.log (cost sol1)) (Real.log value)) := rfl
    rw [e]
    congr 2
    split
    · rw [on_line (m := (Real.log (cost sol1) - Real.log (cost sol0)) / (Real.log b - Real.log a)) hX0 (by rw [hub, chord_left hab]), chord_left hab]
    · rw [on_line' (m := (Real.log (cost sol1) - Real.log (cost sol0)) / (Real.log b - Real.log a)) hX1 (by rw [hub, chord_right hab]; ring),
        chord_right hab]
      ring

theorem costAt_lo {cost : Sol → ℝ} {t : Tree ℝ Sol} {a b x lb ub : ℝ} {sol0 sol1 : Sol} (hc : 0 < cost sol0) (ha : 0 < a) (bd : Bound)
    (h0 : t.lo ≤ a) (h1 : a ≤ t.hi) (hm : t.minBst a = .costed a b sol0 sol1 x lb ub) (hax : a < x) (hxb : x < b) :
    costAt cost t a bd = .ok (cost sol0) := by
  unfold costAt
  rw [if_neg (by rw [not_or, not_lt, not_lt]; exact ⟨h0, h1⟩), hm]
  dsimp only
  have h : ∀ y c, a < y → interpolate a y (cost sol0) c a = cost sol0 := fun y c hy => by
    show geo (weight a y a) _ _ = _
    rw [weight_lo ha hy, geo_one hc]
  by_cases hlb : lb = 0
  · rw [if_neg (not_not.2 hlb), h _ _ (hax.trans hxb)]
  · rw [if_pos hlb, if_pos hax.le, h _ _ hax]

theorem costAt_hi {cost : Sol → ℝ} {t : Tree ℝ Sol} {a b x lb ub : ℝ} {sol0 sol1 : Sol} (hc : 0 < cost sol1) (bd : Bound)
    (h0 : t.lo ≤ b) (h1 : b ≤ t.hi) (hm : t.minBst b = .costed a b sol0 sol1 x lb ub) (hxb : x < b) :
    costAt cost t b bd = .ok (cost sol1) := by
  unfold costAt
  rw [if_neg (by rw [not_or, not_lt, not_lt]; exact ⟨h0, h1⟩), hm]
  dsimp only
  have h : ∀ y c, interpolate y b c (cost sol1) b = cost sol1 := fun y c => by
    show geo (weight y b b) _ _ = _
    rw [weight_hi, geo_zero hc]
  by_cases hlb : lb = 0
  · rw [if_neg (not_not.2 hlb), h]
  · rw [if_pos hlb, if_neg (not_le.2 hxb), h]

theorem mapM_each {A B : Type} {f : A → Except Err B} {g : A → B} : ∀ {l : List A}, (∀ x ∈ l, f x = .ok (g x)) → l.mapM f = .ok (l.map g)
  | [], _ => rfl
  | x :: l, h => by
    rw [List.mapM_cons, h x (List.mem_cons_self ..), mapM_each (fun y hy => h y (List.mem_cons_of_mem _ hy))]
    rfl

theorem mapM_refuses {A B : Type} {f : A → Except Err B} {x : A} {e : Err} : ∀ {l : List A}, x ∈ l → f x = .error e →
    (∀ y e', f y = .error e' → e' = e) → l.mapM f = .error e
  | y :: l, hx, hf, hall => by
    rw [List.mapM_cons]
    cases hy : f y with
    | error e' => rw [hall y e' hy]; rfl
    | ok r =>
      rcases List.mem_cons.1 hx with rfl | hx
      · rw [hf] at hy; cases hy
      · rw [mapM_refuses hx hf hall]; rfl

theorem isCost_var {costposy : PyDict (HV S ℝ) ℝ} (w : S) : isCost costposy (Key.var w) = true ↔ costposy = [(⟨[(w, 1)]⟩, 1)] := by
  unfold isCost Key.var
  dsimp only
  rw [decide_eq_true_iff]
  constructor
  · rintro ⟨h1, h2⟩
    have h2 := h2 _ (List.mem_singleton_self _)
    obtain ⟨⟨e, c⟩, rfl⟩ := List.length_eq_one_iff.1 h1.symm
    rw [get?_cons] at h2
    split at h2
    · rename_i hb
      cases h2
      have : e = ⟨[(w, 1)]⟩ := by
        rw [HV.beq_def] at hb
        have := List.perm_singleton.1 (List.isPerm_iff.1 hb)
        cases e; simp_all
      rw [this]
    · cases h2
  · rintro rfl
    refine ⟨rfl, ?_⟩
    intro t ht
    rw [List.mem_singleton] at ht
    subst ht
    rw [get?_cons, if_pos]
    rw [HV.beq_def]
    exact List.isPerm_iff.2 (List.Perm.refl _)

end
end Auto

section
open Auto
variable {S F Sol : Type} [DecidableEq S]

/-- C71 (solved points): every value of a finished autosweep that was solved at is sampled as that solution has it: the cost and everything else that is
positive in all solutions (see `C71_zero_fails`). Values outside the range are refused. -/
theorem C71_solved_partial {solve : PyDict S (Val ℝ F) → Except Err Sol} {cost sens : Sol → ℝ} {depth : Nat} {logtol : ℝ} {v : S}
    {lo hi : ℝ} (h0 : 0 < lo) {subs : PyDict S (Val ℝ F)} {s' : AS S ℝ F} {t : Tree ℝ Sol} {n : Nat} {tol : ℝ}
    (h : autosweep solve (getTol cost sens) depth logtol v lo hi subs = (s', .ok (t, n, tol))) (costposy : PyDict (HV S ℝ) ℝ) (val : Sol → Key S → ℝ)
    (hc : ∀ s ∈ t.sollist, ∀ key, isCost costposy key = true → val s key = cost s) :
    ∃ pts : List (ℝ × Sol), t.sollist = pts.map (·.2) ∧ (∃ s, (lo, s) ∈ pts) ∧ (∃ s, (hi, s) ∈ pts) ∧
      (∀ p ∈ pts, solve (subs.set v (.num p.1)) = .ok p.2 ∧ ∀ key, (∀ s ∈ t.sollist, 0 < val s key) →
        getval cost val costposy t [p.1] key = .ok [.num (val p.2 key)]) ∧
      ∀ (values : List ℝ) (key : Key S), (∃ x ∈ values, x < lo ∨ hi < x) → getval cost val costposy t values key = .error .valueError := by
  obtain ⟨w1, w2, w3, w4, _, w6, _⟩ := autosweep_ok solve (getTol cost sens) depth logtol v h0 subs h
  refine ⟨t.pts, w1.sollist, ⟨t.s0, by rw [← w2, Tree.mem_pts]; exact Or.inl rfl⟩, ⟨t.s1, by rw [← w3, Tree.mem_pts]; exact Or.inr (Or.inr rfl)⟩, ?_, ?_⟩
  · intro p hp
    refine ⟨w4 p hp, ?_⟩
    intro key hall
    have hr := WF.range w1 p hp
    have hmem := w1.minBst p.1 hr.1 hr.2
    obtain ⟨_, _, a, b, sol0, sol1, x, lb, ub, X, hm, ha, hab, _, hva, hvb, s0, s1, hx, hX0, hX1, _⟩ :=
      leaf_of h0 h (value := p.1) (w2 ▸ hr.1) (w3 ▸ hr.2)
    rw [hm] at hmem
    have hin : ∀ {x s}, (x, s) ∈ t.pts → 0 < val s key := fun hq => hall _ (by rw [w1.sollist]; exact List.mem_map_of_mem hq)
    have hpm : p.2 ∈ t.sollist := by rw [w1.sollist]; exact List.mem_map_of_mem hp
    have p0 : 0 < val sol0 key := hin hmem.2.2.1
    have p1 : 0 < val sol1 key := hin hmem.2.2.2.1
    have hout := hmem.2.2.2.2.1 p hp
    have ha0 : 0 < a := h0.trans_le ha
    have hxb : x < b := by rw [hx]; exact (Real.lt_log_iff_exp_lt (ha0.trans hab)).1 hX1
    have hax : a < x := by rw [hx]; exact (Real.log_lt_iff_lt_exp ha0).1 hX0
    have hsolve := w4 p hp
    unfold getval
    split
    · rename_i hk
      rw [mapM_each (g := fun _ => .num (val p.2 key))]
      · rfl
      · intro y hy
        rw [List.mem_singleton] at hy
        subst hy
        rw [hc p.2 hpm key hk]
        rcases hout with hout | hout
        · have e : p.1 = a := le_antisymm hout hva
          rw [e] at hm hr hsolve ⊢
          cases s0.symm.trans hsolve
          rw [costAt_lo (hc p.2 hpm key hk ▸ p0) ha0 .mean hr.1 hr.2 hm hax hxb]
          rfl
        · have e : p.1 = b := le_antisymm hvb hout
          rw [e] at hm hr hsolve ⊢
          cases s1.symm.trans hsolve
          rw [costAt_hi (hc p.2 hpm key hk ▸ p1) .mean hr.1 hr.2 hm hxb]
          rfl
    · rw [mapM_each (g := fun _ => .num (val p.2 key))]
      · rfl
      · intro y hy
        rw [List.mem_singleton] at hy
        subst hy
        rw [posyAt_eq (val := fun s => val s key) hr.1 hr.2 hm p0 p1]
        rcases hout with hout | hout
        · have e : p.1 = a := le_antisymm hout hva
          rw [e] at hsolve ⊢
          cases s0.symm.trans hsolve
          rw [weight_lo ha0 hab, geo_one p0]
        · have e : p.1 = b := le_antisymm hvb hout
          rw [e] at hsolve ⊢
          cases s1.symm.trans hsolve
          rw [weight_hi, geo_zero p1]
  · intro values key hx
    have hbad : ∀ y, y < lo ∨ hi < y → costAt cost t y .mean = .error .valueError ∧ posyAt (fun s => val s key) t y = .error .valueError := by
      intro y hy
      rw [← w2, ← w3] at hy
      unfold costAt posyAt
      exact ⟨if_pos hy, if_pos hy⟩
    have hokc : ∀ y, (costAt cost t y .mean).isOk = false → costAt cost t y .mean = .error .valueError := by
      intro y
      unfold costAt
      split
      · intro _; rfl
      · split
        · split
          · split <;> (intro h; cases h)
          · intro h; cases h
        · intro h; cases h
    have hokp : ∀ y, (posyAt (fun s => val s key) t y).isOk = false → posyAt (fun s => val s key) t y = .error .valueError := by
      intro y
      unfold posyAt
      split
      · intro _; rfl
      · intro h; cases h
    obtain ⟨x, hx, hx'⟩ := hx
    unfold getval
    split
    · refine mapM_refuses hx ?_ ?_
      · rw [(hbad x hx').1]; rfl
      · intro y e he
        cases hq : costAt cost t y .mean with
        | ok r => rw [hq] at he; cases he
        | error e' =>
          have := hokc y (by rw [hq]; rfl)
          rw [this] at he; cases he; rfl
    · refine mapM_refuses hx (hbad x hx').2 ?_
      intro y e he
      have := hokp y (by rw [he]; rfl)
      rw [this] at he; cases he; rfl

/-- C71 (between them): the values of the variables sampled at one value of the swept variable form a point at which the swept variable has that value,
constants have theirs, and every inequality between a posynomial and a monomial that holds in all solutions holds, if the cost is not just a
variable (see `C71_cost_fails`). Monomials are sampled as this point has them, posynomials not below. The cost of this point is not above
`cost_ub`. All values are numbers that solutions compute from their variables (see `C71_linked_fails`). -/
theorem C71_point_partial {D : Type} {solve : PyDict S (Val ℝ F) → Except Err Sol} {cost sens : Sol → ℝ} {depth : Nat} {logtol : ℝ} {v : S}
    {lo hi : ℝ} (h0 : 0 < lo) {subs : PyDict S (Val ℝ F)} {s' : AS S ℝ F} {t : Tree ℝ Sol} {n : Nat} {tol : ℝ}
    (h : autosweep solve (getTol cost sens) depth logtol v lo hi subs = (s', .ok (t, n, tol))) {costposy : PyDict (HV S ℝ) ℝ} {val : Sol → Key S → ℝ}
    {pt : Sol → S → ℝ} (hpt : Points solve cost val costposy subs v lo hi pt) (hcost : costposy ≠ [] ∧ ∀ u ∈ costposy, 0 < u.2)
    (hvar : ∀ w, costposy ≠ [(⟨[(w, 1)]⟩, 1)]) {value : ℝ} (hv0 : lo ≤ value) (hv1 : value ≤ hi) :
    ∃ y : S → ℝ, (∀ w, 0 < y w) ∧ (∀ w, getval cost val costposy t [value] (.var w) = .ok [.num (y w)]) ∧ y v = value ∧
      (∀ w c, w ≠ v → subs.get? w = some (.num c) → y w = c) ∧
      (∀ p m : NMap S ℝ D, Posy p → Posy m → m.terms.length = 1 →
        (∀ x s, Found solve subs v lo hi x s → Below p m (pt s)) → Below p m y) ∧
      (∀ p : NMap S ℝ D, Posy p → isCost costposy (.expr p.terms) = false →
        ∃ r, getval cost val costposy t [value] (.expr p.terms) = .ok [.num r] ∧ termsVal y p.terms ≤ r ∧ (p.terms.length = 1 → r = termsVal y p.terms)) ∧
      ∃ u, costBound cost t [value] .ub = .ok [u] ∧ termsVal y costposy ≤ u := by
  obtain ⟨w2, w3, a, b, sol0, sol1, x, lb, ub, X, hm, ha, hab, hb, hva, hvb, s0, s1, hx, hX0, hX1, hub⟩ := leaf_of h0 h hv0 hv1
  have ha0 : 0 < a := h0.trans_le ha
  obtain ⟨t0, t1⟩ := weight_range ha0 hab hva hvb
  have f0 : Found solve subs v lo hi a sol0 := ⟨ha, hab.le.trans hb, s0⟩
  have f1 : Found solve subs v lo hi b sol1 := ⟨ha.trans hab.le, hb, s1⟩
  have q0 := hpt.pos a sol0 f0
  have q1 := hpt.pos b sol1 f1
  have hexpr : ∀ ts : PyDict (HV S ℝ) ℝ, isCost costposy (.expr ts) = false → ts ≠ [] → (∀ u ∈ ts, 0 < u.2) →
      getval cost val costposy t [value] (.expr ts) = .ok [.num (geo (weight a b value) (termsVal (pt sol0) ts) (termsVal (pt sol1) ts))] := by
    intro ts hk hne hp
    unfold getval
    rw [if_neg (by rw [hk]; simp)]
    have hpa : posyAt (fun s => val s (.expr ts)) t value = .ok (.num (geo (weight a b value) (termsVal (pt sol0) ts) (termsVal (pt sol1) ts))) := by
      rw [posyAt_eq (val := fun s => val s (.expr ts)) (w2 ▸ hv0) (w3 ▸ hv1) hm (by rw [hpt.expr a sol0 f0]; exact termsVal_pos' q0 hne hp)
        (by rw [hpt.expr b sol1 f1]; exact termsVal_pos' q1 hne hp)]
      simp only [hpt.expr a sol0 f0, hpt.expr b sol1 f1]
    rw [List.mapM_cons, hpa]
    rfl
  refine ⟨fun w => geo (weight a b value) (pt sol0 w) (pt sol1 w), fun w => geo_pos _ _ _, ?_, ?_, ?_, ?_, ?_, ?_⟩
  · intro w
    have := hexpr [(⟨[(w, 1)]⟩, 1)] (by
      have := (isCost_var (costposy := costposy) w).not.2 (hvar w)
      rw [Bool.not_eq_true] at this
      exact this) (by simp) (by simp)
    simpa [termsVal, monVal, Key.var] using this
  · show geo _ (pt sol0 v) (pt sol1 v) = value
    rw [hpt.swept a sol0 f0, hpt.swept b sol1 f1, geo_weight ha0 hab hva]
  · intro w c hw hc
    have e0 := hpt.const a sol0 f0 w c hw hc
    have e1 := hpt.const b sol1 f1 w c hw hc
    show geo _ (pt sol0 w) (pt sol1 w) = c
    rw [e0, e1, geo_self _ (e0 ▸ q0 w)]
  · intro p m hp hmm hl hall
    have b0 := hall a sol0 f0
    have b1 := hall b sol1 f1
    unfold Below physVal at *
    rw [termsVal_geo_one q0 q1 _ hl hmm.pos]
    have g1 := termsVal_geo q0 q1 t0 t1 hp.ne hp.pos
    have g2 := mul_le_mul_of_nonneg_left g1 hp.unit.le
    refine g2.trans ?_
    rw [← geo_self (weight a b value) hp.unit, ← geo_self (weight a b value) hmm.unit,
      ← geo_mul hp.unit hp.unit (termsVal_pos' q0 hp.ne hp.pos) (termsVal_pos' q1 hp.ne hp.pos),
      ← geo_mul hmm.unit hmm.unit (termsVal_pos' q0 hmm.ne hmm.pos) (termsVal_pos' q1 hmm.ne hmm.pos)]
    exact geo_le t0 t1 (mul_pos hp.unit (termsVal_pos' q0 hp.ne hp.pos)) (mul_pos hp.unit (termsVal_pos' q1 hp.ne hp.pos)) b0 b1
  · intro p hp hk
    refine ⟨_, hexpr _ hk hp.ne hp.pos, termsVal_geo q0 q1 t0 t1 hp.ne hp.pos, fun hl => (termsVal_geo_one q0 q1 _ hl hp.pos).symm⟩
  · refine ⟨geo (weight a b value) (cost sol0) (cost sol1), ?_, ?_⟩
    · unfold costBound
      rw [List.mapM_cons, costAt_ub (w2 ▸ hv0) (w3 ▸ hv1) hm ha0 hva hx hX0 hX1 hub]
      rfl
    · rw [hpt.cost a sol0 f0, hpt.cost b sol1 f1]
      exact termsVal_geo q0 q1 t0 t1 hcost.1 hcost.2

/-! ### Cases -/

/-- A solver whose solutions are just the values of the swept variable. -/
noncomputable def Auto.plainSolve (subs : PyDict String (Val ℝ Unit)) : Except Err ℝ :=
  match subs.get? "x" with
  | some (.num x) => .ok x
  | _ => .error .keyError

theorem Auto.plainSolve_eq (x : ℝ) : plainSolve (PyDict.set [] "x" (.num x)) = .ok x := by simp [plainSolve, PyDict.set, PyDict.get?]

theorem Auto.found_plain {lo hi x s : ℝ} (h : Found plainSolve [] "x" lo hi x s) : s = x ∧ lo ≤ x := by
  have := h.2.2
  rw [plainSolve_eq] at this
  exact ⟨(Except.ok.inj this).symm, h.1⟩

/-- An autosweep that is within tolerance at once. -/
theorem Auto.plain_once {cost sens : ℝ → ℝ} {a b X lb ub logtol : ℝ} (hab : a < b) (hg : getTol cost sens (Real.exp a) (Real.exp b) (Real.exp a) (Real.exp b) = (Real.exp X, lb, ub))
    (h0 : a < X) (h1 : X < b) (ht : (ub - lb) / 2 < logtol) :
    autosweep plainSolve (getTol cost sens) 1 logtol "x" (Real.exp a) (Real.exp b) [] =
      (⟨[], 3⟩, .ok (.costed (Real.exp a) (Real.exp b) (Real.exp a) (Real.exp b) (Real.exp X) lb ub, 2, (ub - lb) / 2)) := by
  have f : firstSols plainSolve "x" [Real.exp a, Real.exp b] ⟨[], 0⟩ = (⟨[("x", .num (Real.exp b))], 2⟩, .ok [Real.exp a, Real.exp b]) := by
    simp [firstSols, plainSolve, PyDict.set, PyDict.get?]
  have m : Tree.make (Real.exp a) (Real.exp b) (Real.exp a) (Real.exp b) = .ok (.fresh (Real.exp a) (Real.exp b) (Real.exp a) (Real.exp b)) := by
    unfold Tree.make
    rw [if_neg (not_le.2 (Real.exp_lt_exp.2 hab))]
  have ac : (Tree.fresh (Real.exp a) (Real.exp b) (Real.exp a) (Real.exp b)).addSplitcost (Real.exp X) lb ub =
      .ok (.costed (Real.exp a) (Real.exp b) (Real.exp a) (Real.exp b) (Real.exp X) lb ub) := by
    unfold Tree.addSplitcost
    rw [if_neg (by simp [Tree.hasSplitval]), if_neg]
    · rfl
    · rw [not_or, not_le, not_le]
      exact ⟨Real.exp_lt_exp.2 h0, Real.exp_lt_exp.2 h1⟩
  unfold autosweep
  dsimp only
  rw [f]
  dsimp only
  rw [m]
  dsimp only
  unfold recurse
  simp only [Tree.lo, Tree.hi, Tree.s0, Tree.s1, hg]
  rw [if_neg (not_le.2 ht), ac]
  simp [restore, truth, PyDict.get?, PyDict.del]

/-- The cost `2 x`, whose log is a straight line. -/
theorem Auto.getTol_double : getTol (fun x => 2 * x) (fun _ => 1) (Real.exp 0) (Real.exp 2) (Real.exp 0) (Real.exp 2) =
    (Real.exp 1, Real.log 2 + 1, Real.log 2 + 1) := by
  unfold getTol
  have h : ∀ y : ℝ, Real.log (2 * Real.exp y) = Real.log 2 + y := fun y => by
    rw [Real.log_mul (by norm_num) (Real.exp_pos _).ne', Real.log_exp]
  simp only [Real.log_exp, h]
  rw [if_pos (Or.inl (by norm_num))]
  norm_num
  ring

/-- Every variable has the value of the swept one. -/
noncomputable def Auto.sameVal (s : ℝ) : Key String → ℝ
  | .name _ => 2 * s
  | .expr terms => termsVal (fun _ => s) terms

theorem Auto.points_double : Points plainSolve (fun x => 2 * x) sameVal [((⟨[("y", 1)]⟩ : HV String ℝ), (2 : ℝ))] [] "x" (Real.exp 0) (Real.exp 2)
    (fun s _ => s) where
  pos x s h w := by obtain ⟨rfl, h⟩ := found_plain h; exact (Real.exp_pos 0).trans_le h
  swept x s h := (found_plain h).1
  const x s h w c hw hc := by cases hc
  expr x s h terms := rfl
  cost x s h := by simp [termsVal, monVal]

/-- The theorems apply: the cost is `2 y` with `y = x`. -/
example : ∃ t : Tree ℝ ℝ, ∃ y : String → ℝ, (∀ w, 0 < y w) ∧ y "x" = Real.exp 1 ∧
    (∀ w, getval (fun x => 2 * x) sameVal [((⟨[("y", 1)]⟩ : HV String ℝ), (2 : ℝ))] t [Real.exp 1] (.var w) = .ok [.num (y w)]) := by
  obtain ⟨y, h1, h2, h3, _⟩ := C71_point_partial (D := ℤ) (Real.exp_pos 0)
    (plain_once (by norm_num) getTol_double (by norm_num) (by norm_num) (logtol := 1) (by norm_num)) points_double (by simp)
    (by intro w hw; have := congrArg (fun l => l.map Prod.snd) hw; norm_num at this) (value := Real.exp 1)
    (Real.exp_le_exp.2 (by norm_num)) (Real.exp_le_exp.2 (by norm_num))
  exact ⟨_, y, h1, h3, h2⟩

/-- The theorem on solved points applies. -/
example := C71_solved_partial (Real.exp_pos 0) (plain_once (by norm_num) getTol_double (by norm_num) (by norm_num) (logtol := 1) (by norm_num))
  [((⟨[("y", 1)]⟩ : HV String ℝ), (2 : ℝ))] (fun s _ => 2 * s) (fun _ _ _ _ => rfl)

/-- C71 is violated for values that are zero: sampled at an end of the sweep, a constant zero is not a number, because the other end has weight zero and
log minus infinity. -/
theorem C71_zero_fails : ∃ (t : Tree ℝ ℝ) (s' : AS String ℝ Unit) (n : Nat) (tol : ℝ) (val : ℝ → Key String → ℝ),
    autosweep plainSolve (getTol (fun x => 2 * x) (fun _ => 1)) 1 1 "x" (Real.exp 0) (Real.exp 2) [] = (s', .ok (t, n, tol)) ∧
    (∀ s, val s (.var "c") = 0) ∧
    getval (fun x => 2 * x) val [((⟨[("y", 1)]⟩ : HV String ℝ), (2 : ℝ))] t [Real.exp 0] (.var "c") = .ok [.nan] ∧
    getval (fun x => 2 * x) val [((⟨[("y", 1)]⟩ : HV String ℝ), (2 : ℝ))] t [Real.exp 1] (.var "c") = .ok [.num 0] := by
  refine ⟨_, _, _, _, fun _ _ => 0, plain_once (by norm_num) getTol_double (by norm_num) (by norm_num) (by norm_num), fun _ => rfl, ?_, ?_⟩
  all_goals
    unfold getval
    rw [if_neg (by rw [isCost_var]; intro h; have := congrArg (fun l => l.map Prod.snd) h; norm_num at this), List.mapM_cons]
    unfold posyAt
    rw [if_neg (by simp only [Tree.lo, Tree.hi, Real.exp_lt_exp]; norm_num)]
    simp only [Tree.minBst, Tree.lo, Tree.hi, Real.log_exp]
    norm_num [Flt.log, Flt.scale, Flt.add, Flt.exp]

/-- C71 is violated for linked variables: the value of one that is always `x + 1` is interpolated, so that at `x = e` it is not `e + 1`. -/
theorem C71_linked_fails : ∃ (t : Tree ℝ ℝ) (s' : AS String ℝ Unit) (n : Nat) (tol r : ℝ) (val : ℝ → Key String → ℝ),
    autosweep plainSolve (getTol (fun x => 2 * x) (fun _ => 1)) 1 1 "x" (Real.exp 0) (Real.exp 2) [] = (s', .ok (t, n, tol)) ∧
    (∀ x s, Found plainSolve [] "x" (Real.exp 0) (Real.exp 2) x s → val s (.var "z") = x + 1) ∧
    getval (fun x => 2 * x) val [((⟨[("y", 1)]⟩ : HV String ℝ), (2 : ℝ))] t [Real.exp 1] (.var "z") = .ok [.num r] ∧ r ≠ Real.exp 1 + 1 := by
  refine ⟨_, _, _, _, geo (weight (Real.exp 0) (Real.exp 2) (Real.exp 1)) (Real.exp 0 + 1) (Real.exp 2 + 1), fun s _ => s + 1,
    plain_once (by norm_num) getTol_double (by norm_num) (by norm_num) (by norm_num), fun x s h => by rw [(found_plain h).1], ?_, ?_⟩
  · unfold getval
    rw [if_neg (by rw [isCost_var]; intro h; have := congrArg (fun l => l.map Prod.snd) h; norm_num at this), List.mapM_cons,
      posyAt_eq (a := Real.exp 0) (b := Real.exp 2) (sol0 := Real.exp 0) (sol1 := Real.exp 2) (Real.exp_le_exp.2 (by norm_num))
        (Real.exp_le_exp.2 (by norm_num)) rfl (by positivity) (by positivity)]
    rfl
  · intro h
    have hw : weight (Real.exp 0) (Real.exp 2) (Real.exp 1) = 1 / 2 := by unfold weight; simp only [Real.log_exp]; norm_num
    rw [hw] at h
    have h2 := congrArg (fun z => 2 * Real.log z) h
    simp only [log_geo] at h2
    have h3 : Real.log ((Real.exp 0 + 1) * (Real.exp 2 + 1)) = Real.log ((Real.exp 1 + 1) * (Real.exp 1 + 1)) := by
      rw [Real.log_mul (by positivity) (by positivity), Real.log_mul (by positivity) (by positivity)]
      linarith
    have h4 := Real.log_injOn_pos (Set.mem_Ioi.2 (by positivity)) (Set.mem_Ioi.2 (by positivity)) h3
    have e2 : Real.exp 2 = Real.exp 1 * Real.exp 1 := by rw [← Real.exp_add]; norm_num
    rw [e2, Real.exp_zero] at h4
    have h5 : (Real.exp 1 - 1) * (Real.exp 1 - 1) = 0 := by linear_combination h4
    have h6 : Real.exp 1 - 1 = 0 := by rcases mul_eq_zero.1 h5 with h | h <;> exact h
    have h7 : (1 : ℝ) < Real.exp 1 := by rw [Real.one_lt_exp_iff]; exact one_pos
    linarith

/-- The least `y` that is at least `x`, `e ^ 2 / x` and `e ^ (7 / 4)`. -/
noncomputable def Auto.least (x : ℝ) : ℝ := Real.exp (max (|Real.log x - 1| + 1) (7 / 4))

theorem Auto.getTol_least : getTol least (fun x => if Real.log x < 1 then -1 else 1) (Real.exp 0) (Real.exp 2) (Real.exp 0) (Real.exp 2) = (Real.exp 1, 1, 2) := by
  unfold getTol least
  simp only [Real.log_exp]
  have h1 : |(0 : ℝ) - 1| = 1 := by norm_num
  have h2 : |(2 : ℝ) - 1| = 1 := by norm_num
  rw [h1, h2]
  norm_num

/-- C71 is violated where the cost is just a variable: its samples are estimates of the cost between the bounds, not values of a point that meets the
constraints. Here `y` is at least `e ^ (7 / 4)` in all solutions, and sampled below. -/
theorem C71_cost_fails : ∃ (t : Tree ℝ ℝ) (s' : AS String ℝ Unit) (n : Nat) (tol r : ℝ) (pt : ℝ → String → ℝ) (val : ℝ → Key String → ℝ),
    autosweep plainSolve (getTol least (fun x => if Real.log x < 1 then -1 else 1)) 1 1 "x" (Real.exp 0) (Real.exp 2) [] = (s', .ok (t, n, tol)) ∧
    Points plainSolve least val [((⟨[("y", 1)]⟩ : HV String ℝ), (1 : ℝ))] [] "x" (Real.exp 0) (Real.exp 2) pt ∧
    getval least val [((⟨[("y", 1)]⟩ : HV String ℝ), (1 : ℝ))] t [Real.exp 1] (.var "y") = .ok [.num r] ∧
    (∀ x s, Found plainSolve [] "x" (Real.exp 0) (Real.exp 2) x s → Real.exp (7 / 4) ≤ pt s "y") ∧ r < Real.exp (7 / 4) := by
  refine ⟨_, _, _, _, Real.exp (3 / 2), fun s w => if w = "x" then s else least s,
    fun s key => match key with | .name _ => 0 | .expr ts => termsVal (fun w => if w = "x" then s else least s) ts,
    plain_once (by norm_num) getTol_least (by norm_num) (by norm_num) (by norm_num), ?_, ?_, ?_, Real.exp_lt_exp.2 (by norm_num)⟩
  · refine ⟨?_, ?_, ?_, ?_, ?_⟩
    · intro x s h w
      obtain ⟨rfl, h⟩ := found_plain h
      split
      · exact (Real.exp_pos 0).trans_le h
      · exact Real.exp_pos _
    · intro x s h; rw [if_pos rfl]; exact (found_plain h).1
    · intro x s h w c _ hc; cases hc
    · intro x s h ts; rfl
    · intro x s h; simp [termsVal, monVal]
  · unfold getval
    rw [if_pos (by rw [isCost_var]), List.mapM_cons,
      costAt_eq (a := Real.exp 0) (b := Real.exp 2) (sol0 := Real.exp 0) (sol1 := Real.exp 2) (x := Real.exp 1) (Real.exp_le_exp.2 (by norm_num))
        (Real.exp_le_exp.2 (by norm_num)) (Real.exp_pos _) rfl one_ne_zero (Real.exp_pos _)]
    simp only [Real.log_exp, splitcost, logCost]
    rw [if_pos (le_refl _), chord_left (by norm_num)]
    have h1 : |(0 : ℝ) - 1| = 1 := by norm_num
    unfold least
    simp only [Real.log_exp, h1]
    norm_num [Except.map, bind, Except.bind, pure, Except.pure]
  · intro x s h
    show _ ≤ if "y" = "x" then s else least s
    rw [if_neg (by decide)]
    exact Real.exp_le_exp.2 (le_max_right _ _)

end
end Verif
