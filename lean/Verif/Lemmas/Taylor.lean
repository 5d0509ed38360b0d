import Verif.Spec.Taylor
import Mathlib.Analysis.Complex.Trigonometric
import Mathlib.Analysis.SpecialFunctions.Trigonometric.Basic
import Mathlib.Algebra.Polynomial.Div
import Mathlib.Topology.Algebra.Polynomial

/-! Taylor polynomials of exponential, sine and cosine, and division of power series. -/

set_option linter.unusedSectionVars false

namespace Verif
open Asymptotics Topology Polynomial Finset

/-- Truncated cosine. -/
noncomputable def cosT (N : ℕ) (x : ℝ) : ℝ := ∑ j ∈ range N, (-1) ^ j / ((2 * j).factorial : ℝ) * (x ^ 2) ^ j
/-- Truncated sine, divided by `x`. -/
noncomputable def sinT (N : ℕ) (x : ℝ) : ℝ := ∑ j ∈ range N, (-1) ^ j / ((2 * j + 1).factorial : ℝ) * (x ^ 2) ^ j

theorem exp_split (x : ℝ) (N : ℕ) :
    ∑ m ∈ range (2 * N), ((x : ℂ) * Complex.I) ^ m / (m.factorial : ℂ) = (cosT N x : ℂ) + ((x * sinT N x : ℝ) : ℂ) * Complex.I := by
  induction N with
  | zero => simp [cosT, sinT]
  | succ N ih =>
    rw [show 2 * (N + 1) = 2 * N + 1 + 1 by ring, sum_range_succ, sum_range_succ, ih]
    unfold cosT sinT
    rw [sum_range_succ, sum_range_succ, mul_add]
    have h1 : ((x : ℂ) * Complex.I) ^ (2 * N) = (-1) ^ N * ((x : ℂ) ^ 2) ^ N := by
      rw [pow_mul, mul_pow, Complex.I_sq, ← mul_pow]; congr 1; ring
    have h2 : ((x : ℂ) * Complex.I) ^ (2 * N + 1) = (-1) ^ N * ((x : ℂ) ^ 2) ^ N * (x * Complex.I) := by rw [pow_succ, h1]
    rw [h1, h2]
    push_cast
    ring

theorem exp_near (N : ℕ) (hN : 0 < N) : ∃ C, ∀ x : ℝ, |x| ≤ 1 →
    ‖Complex.exp ((x : ℂ) * Complex.I) - ((cosT N x : ℂ) + ((x * sinT N x : ℝ) : ℂ) * Complex.I)‖ ≤ C * |x| ^ (2 * N) := by
  refine ⟨((2 * N).succ : ℝ) * ((2 * N).factorial * (2 * N : ℕ) : ℝ)⁻¹, fun x hx => ?_⟩
  have := Complex.exp_bound (x := (x : ℂ) * Complex.I) (by simpa using hx) (n := 2 * N) (by omega)
  rw [exp_split] at this
  simp only [norm_mul, Complex.norm_real, Complex.norm_I, mul_one, Real.norm_eq_abs] at this
  linarith [this, mul_comm (|x| ^ (2 * N)) (((2 * N).succ : ℝ) * ((2 * N).factorial * (2 * N : ℕ) : ℝ)⁻¹)]

theorem cos_near (N : ℕ) : (fun x => Real.cos x - cosT N x) =O[𝓝 0] (fun x : ℝ => x ^ (2 * N)) := by
  rcases Nat.eq_zero_or_pos N with rfl | hN
  · simp only [cosT, range_zero, sum_empty, sub_zero, mul_zero, pow_zero]
    exact (Real.continuous_cos.tendsto 0).isBigO_one ℝ
  obtain ⟨C, hC⟩ := exp_near N hN
  refine IsBigO.of_bound C ?_
  have : ∀ᶠ x : ℝ in 𝓝 0, |x| < 1 := by
    have := Metric.ball_mem_nhds (0 : ℝ) one_pos
    filter_upwards [this] with x hx
    simpa [Real.dist_eq] using hx
  filter_upwards [this] with x hx
  refine le_trans ?_ (le_trans (hC x hx.le) (le_of_eq (by rw [norm_pow, Real.norm_eq_abs])))
  have h := Complex.abs_re_le_norm (Complex.exp ((x : ℂ) * Complex.I) - ((cosT N x : ℂ) + ((x * sinT N x : ℝ) : ℂ) * Complex.I))
  refine le_trans (le_of_eq ?_) h
  rw [Real.norm_eq_abs]
  congr 1
  rw [Complex.sub_re, Complex.exp_ofReal_mul_I_re]
  simp

theorem sin_near (N : ℕ) : (fun x => Real.sin x - x * sinT N x) =O[𝓝 0] (fun x : ℝ => x ^ (2 * N + 1)) := by
  have h1 : (fun x => Real.sin x - x * sinT (N + 1) x) =O[𝓝 0] (fun x : ℝ => x ^ (2 * (N + 1))) := by
    obtain ⟨C, hC⟩ := exp_near (N + 1) (by omega)
    refine IsBigO.of_bound C ?_
    have : ∀ᶠ x : ℝ in 𝓝 0, |x| < 1 := by
      have := Metric.ball_mem_nhds (0 : ℝ) one_pos
      filter_upwards [this] with x hx
      simpa [Real.dist_eq] using hx
    filter_upwards [this] with x hx
    refine le_trans ?_ (le_trans (hC x hx.le) (le_of_eq (by rw [norm_pow, Real.norm_eq_abs])))
    have h := Complex.abs_im_le_norm (Complex.exp ((x : ℂ) * Complex.I) - ((cosT (N + 1) x : ℂ) + ((x * sinT (N + 1) x : ℝ) : ℂ) * Complex.I))
    refine le_trans (le_of_eq ?_) h
    rw [Real.norm_eq_abs]
    congr 1
    rw [Complex.sub_im, Complex.exp_ofReal_mul_I_im]
    simp
  have h2 : (fun x : ℝ => x ^ (2 * (N + 1))) =O[𝓝 0] (fun x : ℝ => x ^ (2 * N + 1)) := (isLittleO_pow_pow (by omega)).isBigO
  have h3 : (fun x : ℝ => x * ((-1) ^ N / ((2 * N + 1).factorial : ℝ) * (x ^ 2) ^ N)) =O[𝓝 0] (fun x : ℝ => x ^ (2 * N + 1)) := by
    refine IsBigO.of_bound ‖(-1 : ℝ) ^ N / ((2 * N + 1).factorial : ℝ)‖ (Filter.Eventually.of_forall fun x => le_of_eq ?_)
    rw [← norm_mul]
    congr 1
    ring
  refine ((h1.trans h2).add h3).congr_left (fun x => ?_)
  unfold sinT
  rw [sum_range_succ]
  ring

/-- Multiplying two polynomials whose low coefficients convolve to given ones. -/
theorem conv_near (a b c : ℕ → ℝ) (N : ℕ) (h : ∀ k < N, ∑ ij ∈ antidiagonal k, a ij.1 * b ij.2 = c k) :
    (fun y : ℝ => (∑ i ∈ range N, a i * y ^ i) * (∑ i ∈ range N, b i * y ^ i) - ∑ i ∈ range N, c i * y ^ i) =O[𝓝 0] (fun y => y ^ N) := by
  have hco : ∀ (a : ℕ → ℝ) (k : ℕ), k < N → (∑ i ∈ range N, Polynomial.C (a i) * X ^ i).coeff k = a k := by
    intro a k hk
    rw [finsetSum_coeff]
    simp only [coeff_C_mul_X_pow]
    rw [sum_ite_eq]
    simp [hk]
  have hdvd : (X : ℝ[X]) ^ N ∣ (∑ i ∈ range N, Polynomial.C (a i) * X ^ i) * (∑ i ∈ range N, Polynomial.C (b i) * X ^ i) -
      ∑ i ∈ range N, Polynomial.C (c i) * X ^ i := by
    rw [X_pow_dvd_iff]
    intro k hk
    rw [coeff_sub, hco c k hk, coeff_mul, ← h k hk, sub_eq_zero]
    refine sum_congr rfl fun ij hij => ?_
    rw [mem_antidiagonal] at hij
    rw [hco a _ (by omega), hco b _ (by omega)]
  obtain ⟨Q, hQ⟩ := hdvd
  have h1 : (fun y => Q.eval y) =O[𝓝 0] (fun _ => (1 : ℝ)) := (Q.continuous.tendsto 0).isBigO_one ℝ
  have h2 := (isBigO_refl (fun y : ℝ => y ^ N) (𝓝 0)).mul h1
  simp only [mul_one] at h2
  refine h2.congr_left (fun y => ?_)
  have := congrArg (Polynomial.eval y) hQ
  simp only [eval_sub, eval_mul, eval_finsetSum, eval_C, eval_pow, eval_X] at this
  rw [← this]

theorem sq_tendsto : Filter.Tendsto (fun x : ℝ => x ^ 2) (𝓝 0) (𝓝 0) := by
  have := (continuous_pow 2 : Continuous fun x : ℝ => x ^ 2).tendsto 0
  simpa using this

theorem sum_bounded (a : ℕ → ℝ) (N : ℕ) : (fun x : ℝ => ∑ i ∈ range N, a i * (x ^ 2) ^ i) =O[𝓝 0] (fun _ => (1 : ℝ)) := by
  have : Continuous (fun x : ℝ => ∑ i ∈ range N, a i * (x ^ 2) ^ i) := by fun_prop
  exact (this.tendsto 0).isBigO_one ℝ

theorem sec_bounded : (fun x : ℝ => (Real.cos x)⁻¹) =O[𝓝 0] (fun _ => (1 : ℝ)) := by
  have : ContinuousAt (fun x : ℝ => (Real.cos x)⁻¹) 0 := (Real.continuous_cos.continuousAt).inv₀ (by simp)
  exact this.tendsto.isBigO_one ℝ

theorem cos_ne : ∀ᶠ x : ℝ in 𝓝 0, Real.cos x ≠ 0 :=
  Real.continuous_cos.continuousAt.eventually_ne (by simp)

/-- Secant from its coefficients. -/
theorem sec_near (a : ℕ → ℝ) (N : ℕ)
    (h : ∀ k < N, ∑ ij ∈ antidiagonal k, a ij.1 * ((-1) ^ ij.2 / ((2 * ij.2).factorial : ℝ)) = if k = 0 then 1 else 0) (hN : 0 < N) :
    (fun x : ℝ => (Real.cos x)⁻¹ - ∑ i ∈ range N, a i * (x ^ 2) ^ i) =O[𝓝 0] (fun x => x ^ (2 * N)) := by
  have h1 := (conv_near a (fun j => (-1) ^ j / ((2 * j).factorial : ℝ)) (fun k => if k = 0 then 1 else 0) N h).comp_tendsto sq_tendsto
  have h2 := (sum_bounded a N).mul (cos_near N)
  have h3 : (fun x : ℝ => (∑ i ∈ range N, a i * (x ^ 2) ^ i) * Real.cos x - 1) =O[𝓝 0] (fun x => x ^ (2 * N)) := by
    refine ((h1.congr_right (fun x => by simp [← pow_mul])).add (h2.congr_right (fun x => by simp))).congr_left (fun x => ?_)
    simp only [Function.comp_apply, cosT]
    have : ∑ i ∈ range N, (if i = 0 then (1 : ℝ) else 0) * (x ^ 2) ^ i = 1 := by
      rw [sum_eq_single_of_mem 0 (by simpa using hN)]
      · simp
      · intro b _ hb; simp [hb]
    rw [this]
    ring
  refine ((h3.mul sec_bounded).congr' ?_ (Filter.Eventually.of_forall fun x => mul_one _)).neg_left.congr_left (fun x => neg_neg _)
  filter_upwards [cos_ne] with x hx
  field_simp
  ring

/-- Tangent from its coefficients. -/
theorem tan_near (a : ℕ → ℝ) (N : ℕ)
    (h : ∀ k < N, ∑ ij ∈ antidiagonal k, a ij.1 * ((-1) ^ ij.2 / ((2 * ij.2).factorial : ℝ)) = (-1) ^ k / ((2 * k + 1).factorial : ℝ)) :
    (fun x : ℝ => Real.tan x - x * ∑ i ∈ range N, a i * (x ^ 2) ^ i) =O[𝓝 0] (fun x => x ^ (2 * N + 1)) := by
  have h1 := (conv_near a (fun j => (-1) ^ j / ((2 * j).factorial : ℝ)) (fun k => (-1) ^ k / ((2 * k + 1).factorial : ℝ)) N h).comp_tendsto sq_tendsto
  have h2 := (sum_bounded a N).mul (cos_near N)
  have hx := isBigO_refl (fun x : ℝ => x) (𝓝 0)
  have h3 : (fun x : ℝ => x * (∑ i ∈ range N, a i * (x ^ 2) ^ i) * Real.cos x - Real.sin x) =O[𝓝 0] (fun x => x ^ (2 * N + 1)) := by
    have e1 := (hx.mul h1).congr_right (g₂ := fun x => x ^ (2 * N + 1)) (fun x => by simp [← pow_mul]; ring)
    have e2 := (hx.mul h2).congr_right (g₂ := fun x => x ^ (2 * N + 1)) (fun x => by simp; ring)
    refine ((e1.add e2).sub (sin_near N)).congr_left (fun x => ?_)
    simp only [Function.comp_apply, cosT, sinT]
    ring
  refine ((h3.mul sec_bounded).congr' ?_ (Filter.Eventually.of_forall fun x => mul_one _)).neg_left.congr_left (fun x => neg_neg _)
  filter_upwards [cos_ne] with x hx
  rw [Real.tan_eq_sin_div_cos]
  field_simp
  ring

/-- A polynomial of degree at most `n` that vanishes faster than `x ^ n` is zero. -/
theorem small_poly : ∀ (n : ℕ) (R : ℝ[X]), R.natDegree ≤ n → (fun x => R.eval x) =o[𝓝[≠] 0] (fun x : ℝ => x ^ n) → R = 0
  | 0, R, hd, h => by
    rw [Polynomial.eq_C_of_natDegree_le_zero hd] at h ⊢
    simp only [eval_C, pow_zero] at h
    have h2 := (isLittleO_one_iff ℝ).1 h
    have := tendsto_nhds_unique h2 tendsto_const_nhds
    rw [← this, C_0]
  | n + 1, R, hd, h => by
    have ht : Filter.Tendsto (fun x => R.eval x) (𝓝[≠] 0) (𝓝 0) := by
      refine h.trans_tendsto ?_
      have : Continuous fun x : ℝ => x ^ (n + 1) := by fun_prop
      simpa using (this.tendsto 0).mono_left nhdsWithin_le_nhds
    have h0 : R.eval 0 = 0 := tendsto_nhds_unique (R.continuous.continuousAt.tendsto.mono_left nhdsWithin_le_nhds) ht
    have hR : R = X * R.divX := by
      have h1 := Polynomial.X_mul_divX_add R
      rw [Polynomial.coeff_zero_eq_eval_zero, h0, C_0, add_zero] at h1
      exact h1.symm
    have hd' : R.divX.natDegree ≤ n := by
      rw [Polynomial.natDegree_divX_eq_natDegree_tsub_one]; omega
    have hs : (fun x => R.divX.eval x) =o[𝓝[≠] 0] (fun x : ℝ => x ^ n) := by
      have hne : ∀ᶠ x : ℝ in 𝓝[≠] 0, x ≠ 0 := eventually_mem_nhdsWithin
      rw [isLittleO_iff_tendsto' (by filter_upwards [hne] with x hx h; exact absurd h (pow_ne_zero _ hx))] at h ⊢
      refine h.congr' ?_
      filter_upwards [hne] with x hx
      have : R.eval x = x * R.divX.eval x := by conv_lhs => rw [hR, eval_mul, eval_X]
      rw [this, pow_succ]
      field_simp
    rw [hR, small_poly n _ hd' hs, mul_zero]

/-- There is one Taylor polynomial of each order. -/
theorem TaylorOf.unique {f : ℝ → ℝ} {n : ℕ} {P Q : ℝ[X]} (hP : TaylorOf f n P) (hQ : TaylorOf f n Q) : P = Q := by
  rw [← sub_eq_zero]
  refine small_poly n _ ((Polynomial.natDegree_sub_le _ _).trans (max_le hP.1 hQ.1)) ?_
  refine ((hQ.2.sub hP.2).mono nhdsWithin_le_nhds).congr_left (fun x => ?_)
  simp

theorem pow_littleO {m n : ℕ} (h : m < n) : (fun x : ℝ => x ^ n) =o[𝓝 0] (fun x => x ^ m) := isLittleO_pow_pow h

/-- Exponential minus one, to order `n`. -/
theorem exp_taylor (n : ℕ) : TaylorOf (fun x => Real.exp x - 1) n (∑ i ∈ range n, Polynomial.C (1 / ((i + 1).factorial : ℝ)) * X ^ (i + 1)) := by
  refine ⟨natDegree_sum_le_of_forall_le _ _ (fun i hi => (natDegree_C_mul_X_pow_le _ _).trans (by simpa using hi)), ?_⟩
  have : (fun x => (Real.exp x - 1) - (∑ i ∈ range n, Polynomial.C (1 / ((i + 1).factorial : ℝ)) * X ^ (i + 1)).eval x) =O[𝓝 0] (fun x : ℝ => x ^ (n + 1)) := by
    refine IsBigO.of_bound (((n + 1).succ : ℝ) / ((n + 1).factorial * (n + 1 : ℕ))) ?_
    have : ∀ᶠ x : ℝ in 𝓝 0, |x| < 1 := by
      have := Metric.ball_mem_nhds (0 : ℝ) one_pos
      filter_upwards [this] with x hx
      simpa [Real.dist_eq] using hx
    filter_upwards [this] with x hx
    have h := Real.exp_bound hx.le (n := n + 1) (by omega)
    rw [sum_range_succ'] at h
    simp only [eval_finsetSum, eval_mul, eval_C, eval_pow, eval_X, Real.norm_eq_abs, abs_pow]
    rw [mul_comm]
    refine le_trans (le_of_eq ?_) h
    congr 1
    simp only [pow_zero, Nat.factorial_zero, Nat.cast_one, div_one, one_div]
    rw [sum_congr rfl (fun i _ => show ((i + 1).factorial : ℝ)⁻¹ * x ^ (i + 1) = x ^ (i + 1) / ((i + 1).factorial : ℝ) by ring)]
    ring
  exact this.trans_isLittleO (pow_littleO (by omega))

/-- An even polynomial. -/
noncomputable def evenPoly (a : ℕ → ℝ) (N : ℕ) : ℝ[X] := ∑ i ∈ range N, Polynomial.C (a i) * X ^ (2 * i)

theorem evenPoly_eval (a : ℕ → ℝ) (N : ℕ) (x : ℝ) : (evenPoly a N).eval x = ∑ i ∈ range N, a i * (x ^ 2) ^ i := by
  simp [evenPoly, eval_finsetSum, pow_mul]

theorem evenPoly_degree (a : ℕ → ℝ) (N m : ℕ) (h : ∀ i < N, 2 * i ≤ m) : (evenPoly a N).natDegree ≤ m :=
  natDegree_sum_le_of_forall_le _ _ (fun i hi => (natDegree_C_mul_X_pow_le _ _).trans (h i (by simpa using hi)))

/-- The secant, to order `2n`. -/
theorem sec_taylor (a : ℕ → ℝ) (n : ℕ)
    (h : ∀ k < n + 1, ∑ ij ∈ antidiagonal k, a ij.1 * ((-1) ^ ij.2 / ((2 * ij.2).factorial : ℝ)) = if k = 0 then 1 else 0) :
    TaylorOf (fun x => (Real.cos x)⁻¹) (2 * n) (evenPoly a (n + 1)) := by
  refine ⟨evenPoly_degree _ _ _ (fun i hi => by omega), ?_⟩
  have := sec_near a (n + 1) h (by omega)
  simp only [evenPoly_eval]
  exact this.trans_isLittleO (pow_littleO (by omega))

/-- The tangent, to order `2n`. -/
theorem tan_taylor (a : ℕ → ℝ) (n : ℕ)
    (h : ∀ k < n, ∑ ij ∈ antidiagonal k, a ij.1 * ((-1) ^ ij.2 / ((2 * ij.2).factorial : ℝ)) = (-1) ^ k / ((2 * k + 1).factorial : ℝ)) :
    TaylorOf Real.tan (2 * n) (X * evenPoly a n) := by
  constructor
  · rcases Nat.eq_zero_or_pos n with rfl | hn
    · simp [evenPoly]
    · refine (natDegree_mul_le).trans ?_
      have := evenPoly_degree a n (2 * n - 2) (fun i hi => by omega)
      have h1 := natDegree_X_le (R := ℝ)
      omega
  · have := tan_near a n h
    simp only [eval_mul, eval_X, evenPoly_eval]
    exact this.trans_isLittleO (pow_littleO (by omega))

end Verif
